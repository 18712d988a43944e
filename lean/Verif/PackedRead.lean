import Verif.PackedLemmas
import Verif.ReaderFormatLemmas

/-!
# Helper lemmas: the readers on packed ideals
-/

namespace Frobby

/-! ## loops -/

theorem sepE_rel {B : ℕ → ℕ → Prop} {σ τ : Type} {R : ℕ → σ → τ → Prop} {N : ℕ} {item : σ → Text → Except PackedStop (σ × Text)} {item' : τ → Text → Option (τ × Text)}
    (h : ∀ i s s' t, i < N → R i s s' → RelG B (WithText (R (i + 1))) (item s t) (item' s' t)) (sep : Char) :
    ∀ fuel i s s' t, i + fuel ≤ N → R i s s' →
      RelG B (WithText fun s s' => ∃ j, R j s s') (sepE item sep fuel s t) (readSep item' sep fuel s' t) := by
  intro fuel
  induction fuel with
  | zero => intro i s s' t _ _; trivial
  | succ fuel ih =>
    intro i s s' t hi hs
    have := h i s s' t (by omega) hs
    unfold sepE readSep
    rcases hx : item s t with (_ | ⟨v, c⟩ | _) | ⟨a, r⟩ <;> rcases hy : item' s' t with _ | ⟨b, r'⟩ <;> rw [hx, hy] at this <;>
      simp only [RelG] at this ⊢ <;> try exact this
    obtain ⟨h1, rfl⟩ := this
    simp only
    rcases hm : matchChar sep r with ⟨_ | _, r'⟩
    · exact ⟨⟨_, h1⟩, rfl⟩
    · exact ih (i + 1) _ _ _ (by omega) h1

theorem untilE_rel {B : ℕ → ℕ → Prop} {σ τ : Type} {R : ℕ → σ → τ → Prop} {N : ℕ} {item : σ → Text → Except PackedStop (σ × Text)}
    {item' : τ → Text → Option (τ × Text)}
    (h : ∀ i s s' t, i < N → R i s s' → RelG B (WithText (R (i + 1))) (item s t) (item' s' t)) (stop : Char) :
    ∀ fuel i s s' t, i + fuel ≤ N → R i s s' →
      RelG B (WithText fun s s' => ∃ j, R j s s') (untilE item stop fuel s t) (readUntil item' stop fuel s' t) := by
  intro fuel
  induction fuel with
  | zero => intro i s s' t _ _; trivial
  | succ fuel ih =>
    intro i s s' t hi hs
    unfold untilE readUntil
    rcases hm : matchChar stop t with ⟨_ | _, r⟩
    · have := h i s s' r (by omega) hs
      simp only
      rcases hx : item s r with (_ | ⟨v, c⟩ | _) | ⟨a, r1⟩ <;> rcases hy : item' s' r with _ | ⟨b, r'⟩ <;> rw [hx, hy] at this <;>
        simp only [RelG] at this ⊢ <;> try exact this
      obtain ⟨h1, rfl⟩ := this
      exact ih (i + 1) _ _ _ (by omega) h1
    · exact ⟨⟨_, hs⟩, rfl⟩

theorem whileXE_rel {B : ℕ → ℕ → Prop} {σ τ : Type} {R : σ → τ → Prop} {item : σ → Text → Except PackedStop (σ × Text)}
    {item' : τ → Text → Option (τ × Text)} (h : ∀ s s' t, R s s' → RelG B (WithText R) (item s t) (item' s' t)) :
    ∀ fuel s s' t, R s s' → RelG B (WithText R) (whileXE item fuel s t) (readWhileX item' fuel s' t) := by
  intro fuel
  induction fuel with
  | zero => intro s s' t _; trivial
  | succ fuel ih =>
    intro s s' t hs
    have := h s s' t hs
    unfold whileXE readWhileX
    rcases hx : item s t with (_ | ⟨v, c⟩ | _) | ⟨a, r⟩ <;> rcases hy : item' s' t with _ | ⟨b, r'⟩ <;> rw [hx, hy] at this <;>
      simp only [RelG] at this ⊢ <;> try exact this
    obtain ⟨h1, rfl⟩ := this
    simp only
    cases peekChar 'x' r with
    | false => exact ⟨h1, rfl⟩
    | true => exact ih _ _ _ h1

theorem timesE_rel {B : ℕ → ℕ → Prop} {σ τ : Type} {R : ℕ → σ → τ → Prop} {N : ℕ} {item : σ → Text → Except PackedStop (σ × Text)}
    {item' : τ → Text → Option (τ × Text)}
    (h : ∀ i s s' t, i < N → R i s s' → RelG B (WithText (R (i + 1))) (item s t) (item' s' t)) :
    ∀ count i s s' t, i + count ≤ N → R i s s' → RelG B (WithText (R (i + count))) (timesE item count s t) (readTimes item' count s' t) := by
  intro count
  induction count with
  | zero => intro i s s' t _ hs; exact ⟨hs, rfl⟩
  | succ count ih =>
    intro i s s' t hi hs
    have := h i s s' t (by omega) hs
    unfold timesE readTimes
    rcases hx : item s t with (_ | ⟨v, c⟩ | _) | ⟨a, r⟩ <;> rcases hy : item' s' t with _ | ⟨b, r'⟩ <;> rw [hx, hy] at this <;>
      simp only [RelG] at this ⊢ <;> try exact this
    obtain ⟨h1, rfl⟩ := this
    have := ih (i + 1) a b r (by omega) h1
    rw [show i + 1 + count = i + (count + 1) by omega] at this
    exact this

/-! ## terms -/

/-- The consumer after `n` terms. -/
def Counted (V n : ℕ) (p : PackedConsumer) (k : InputConsumer) : Prop := PRep V p k ∧ k.gens.length = n

theorem idxOf?_lt {l : List Text} {x : Text} {i : ℕ} (h : l.idxOf? x = some i) : i < l.length := by
  rw [List.idxOf?, List.findIdx?_eq_some_iff_getElem] at h
  exact h.1

theorem readPower_rel {B : ℕ → ℕ → Prop} {V n : ℕ} (sf : Bool) {p : PackedConsumer} {k : InputConsumer} (h : InTerm V n p k) (t : Text) :
    RelG B (WithText (InTerm V n)) (p.readPower sf t) (k.readPower sf t) := by
  unfold PackedConsumer.readPower InputConsumer.readPower
  rcases readIdentifier t with _ | ⟨x, r⟩
  · trivial
  · simp only [h.1.names]
    rcases hi : k.names.idxOf? x with _ | v
    · trivial
    · have hv : v < V := h.1.count ▸ idxOf?_lt hi
      simp only
      rcases matchChar '^' r with ⟨_ | _, r'⟩
      · exact (consumeOne_rel h hv).map fun a b hab => ⟨hab, rfl⟩
      · exact consumeExponent_rel sf h hv r'

theorem readTermProduct_rel (junk : GrowJunk) {V n N : ℕ} (hN : n < N) (sf : Bool) {p : PackedConsumer} {k : InputConsumer} (h : Counted V n p k) (t : Text) :
    RelG (Sizes V N) (WithText (Counted V (n + 1))) (p.readTermProduct junk sf t) (k.readTermProduct sf t) := by
  unfold PackedConsumer.readTermProduct InputConsumer.readTermProduct
  refine RelG.bind (y := some k.beginTerm) (g := fun k1 => match matchChar '1' t with
    | (true, r) => some (k1, r)
    | (false, r) => readSep (InputConsumer.readPower sf) '*' r.length k1 r) (beginTerm_in junk h.1 h.2 hN.le) fun a b hab => ?_
  rcases matchChar '1' t with ⟨_ | _, r⟩
  · exact (sepE_rel (R := fun _ => InTerm V n) (N := r.length) (fun i s s' t _ hs => readPower_rel sf hs t) '*' r.length 0 a b r (by omega)
      hab).mono fun x y hxy => ⟨hxy.1.choose_spec, hxy.2⟩
  · exact ⟨hab, rfl⟩

theorem readTermM2_rel (junk : GrowJunk) {V n N : ℕ} (hN : n < N) (sf : Bool) {p : PackedConsumer} {k : InputConsumer} (h : Counted V n p k) (t : Text) :
    RelG (Sizes V N) (WithText (Counted V (n + 1))) (p.readTermM2 junk sf t) (k.readTermM2 sf t) := by
  unfold PackedConsumer.readTermM2
  have e : k.readTermM2 sf t = (k.readTermProduct sf t).bind fun p => match matchChar '_' p.2 with
      | (true, r') => (readIdentifier r').map fun q => (p.1, q.2)
      | (false, r') => some (p.1, r') := by
    unfold InputConsumer.readTermM2
    rcases k.readTermProduct sf t with _ | ⟨k', r⟩ <;> rfl
  rw [e]
  refine (readTermProduct_rel junk hN sf h t).bind fun a b hab => ?_
  obtain ⟨a, r⟩ := a
  obtain ⟨b, r'⟩ := b
  obtain ⟨h1, h2⟩ := hab
  simp only at h1 h2
  subst h2
  simp only
  rcases matchChar '_' r with ⟨_ | _, r'⟩
  · exact ⟨h1, rfl⟩
  · simp only
    rcases readIdentifier r' with _ | q
    · trivial
    · exact ⟨h1, rfl⟩

theorem readPowerCoCoA_rel {B : ℕ → ℕ → Prop} {V n : ℕ} (sf : Bool) {p : PackedConsumer} {k : InputConsumer} (h : InTerm V n p k) (t : Text) :
    RelG B (WithText (InTerm V n)) (p.readPowerCoCoA sf t) (k.readPowerCoCoA sf t) := by
  unfold PackedConsumer.readPowerCoCoA InputConsumer.readPowerCoCoA
  rcases (expectChar 'x' t).bind (expectChar '[') with _ | r
  · trivial
  · simp only [h.1.names]
    rcases readSizeT r with _ | ⟨v, r⟩
    · trivial
    · simp only
      by_cases hv : v = 0 ∨ v > k.names.length
      · rw [if_pos hv, if_pos hv]; trivial
      · rw [if_neg hv, if_neg hv]
        have hv' : v - 1 < V := by have := h.1.count; omega
        rcases expectChar ']' r with _ | r
        · trivial
        · simp only
          rcases matchChar '^' r with ⟨_ | _, r'⟩
          · exact (consumeOne_rel h hv').map fun a b hab => ⟨hab, rfl⟩
          · exact consumeExponent_rel sf h hv' r'

theorem readTermCoCoA_rel (junk : GrowJunk) {V n N : ℕ} (hN : n < N) (sf : Bool) {p : PackedConsumer} {k : InputConsumer} (h : Counted V n p k) (t : Text) :
    RelG (Sizes V N) (WithText (Counted V (n + 1))) (p.readTermCoCoA junk sf t) (k.readTermCoCoA sf t) := by
  unfold PackedConsumer.readTermCoCoA InputConsumer.readTermCoCoA
  refine RelG.bind (y := some k.beginTerm) (g := fun k1 => match matchChar '1' t with
    | (true, r) => some (k1, r)
    | (false, r) => readWhileX (InputConsumer.readPowerCoCoA sf) r.length k1 r) (beginTerm_in junk h.1 h.2 hN.le) fun a b hab => ?_
  rcases matchChar '1' t with ⟨_ | _, r⟩
  · exact (whileXE_rel (fun s s' t hs => readPowerCoCoA_rel sf hs t) r.length a b r hab).mono fun x y hxy => ⟨hxy.1, hxy.2⟩
  · exact ⟨hab, rfl⟩

theorem readTerm4ti2_rel (junk : GrowJunk) {V n N : ℕ} (hN : n < N) (sf : Bool) {p : PackedConsumer} {k : InputConsumer} (h : Counted V n p k) (t : Text) :
    RelG (Sizes V N) (WithText (Counted V (n + 1))) (p.readTerm4ti2 junk sf t) (k.readTerm4ti2 sf t) := by
  unfold PackedConsumer.readTerm4ti2 InputConsumer.readTerm4ti2
  refine RelG.bind (y := some k.beginTerm) (g := fun k1 =>
    (readTimes (InputConsumer.readExponent4ti2 sf) k.names.length (0, k1) t).map fun p => (p.1.2, p.2)) (beginTerm_in junk h.1 h.2 hN.le)
    fun a b hab => ?_
  have hitem : ∀ (i : ℕ) (s : ℕ × PackedConsumer) (s' : ℕ × InputConsumer) (t : Text), i < V →
      (s.1 = i ∧ s'.1 = i ∧ InTerm V n s.2 s'.2) →
      RelG (Sizes V N) (WithText fun (s : ℕ × PackedConsumer) (s' : ℕ × InputConsumer) => s.1 = i + 1 ∧ s'.1 = i + 1 ∧ InTerm V n s.2 s'.2)
        (PackedConsumer.readExponent4ti2 sf s t) (InputConsumer.readExponent4ti2 sf s' t) := by
    rintro i ⟨j, s⟩ ⟨m, s'⟩ t hi ⟨h1, h2, h3⟩
    simp only at h1 h2 h3
    subst h1 h2
    unfold PackedConsumer.readExponent4ti2 InputConsumer.readExponent4ti2
    rcases matchChar '-' t with ⟨_ | _, r⟩
    · exact (consumeExponent_rel sf h3 hi r).map fun a b hab => ⟨⟨rfl, rfl, hab.1⟩, hab.2⟩
    · exact (relG_report _).map fun a b hab => ⟨⟨rfl, rfl, h3⟩, by rw [hab]⟩
  have hn : a.names.length = V := by rw [hab.1.names]; exact hab.1.count
  rw [hn, h.1.count]
  exact (timesE_rel (R := fun i (s : ℕ × PackedConsumer) (s' : ℕ × InputConsumer) => s.1 = i ∧ s'.1 = i ∧ InTerm V n s.2 s'.2) hitem V 0 (0, a) (0, b) t (by omega)
    ⟨rfl, rfl, hab⟩).map fun x y hxy => ⟨hxy.1.2.2, hxy.2⟩

/-! ## ideals -/

theorem lit_le {s t r : Text} (h : lit s t r) : r.length + s.length ≤ t.length := by
  obtain ⟨w, w', -, -, rfl⟩ := h
  simp only [List.length_append]
  omega

theorem relG_rest {B : ℕ → ℕ → Prop} {α : Type} (o : Option α) : RelG B (fun a b => a = b ∧ o = some b) (orReport o) o := by
  cases o <;> simp [orReport, RelG]

theorem expectChar_le {c : Char} {t r : Text} (h : expectChar c t = some r) : r.length ≤ t.length := by
  have := lit_le (expectChar_lit h)
  omega

theorem expectText_le {s t r : Text} (h : expectText s t = some r) : r.length ≤ t.length := by
  have := lit_le (expectText_lit h)
  omega

/-- What is left after a character or a text. -/
class RestLe (o : Text → Option Text) : Prop where
  le : ∀ t r, o t = some r → r.length ≤ t.length

instance (c : Char) : RestLe (expectChar c) := ⟨fun _ _ => expectChar_le⟩

instance (s : Text) : RestLe (expectText s) := ⟨fun _ _ => expectText_le⟩

theorem rest_le {o : Text → Option Text} [h : RestLe o] {t r : Text} (e : o t = some r) : r.length ≤ t.length := h.le t r e

theorem SepBy.long {sep : Text} {names : List Text} {t r : Text} {P : Text → Gram} (hP : ∀ x t r, P x t r → r.length + 1 ≤ t.length)
    (h : SepBy P sep names t r) : r.length + names.length ≤ t.length := by
  induction h with
  | one h1 => simpa using hP _ _ _ h1
  | cons h1 h2 _ ih =>
    have := hP _ _ _ h1
    have := lit_le h2
    simp only [List.length_cons]
    omega

theorem Many.long {names : List Text} {t r : Text} {P : Text → Gram} (hP : ∀ x t r, P x t r → r.length + 1 ≤ t.length)
    (h : Many P names t r) : r.length + names.length ≤ t.length := by
  induction h with
  | nil h1 => simpa using lit_le h1
  | cons h1 _ ih =>
    have := hP _ _ _ h1
    simp only [List.length_cons]
    omega

theorem nameG_long (x t r : Text) (h : nameG x t r) : r.length + 1 ≤ t.length := by
  obtain ⟨h1, w, w', -, -, rfl, -⟩ := h
  have : x ≠ [] := by
    rintro rfl
    obtain ⟨c, l, h2, -⟩ := h1
    cases h2
  have := List.length_pos_iff.2 this
  simp only [List.length_append]
  omega

theorem readRingNewMonos_long {t r : Text} {names : List Text} (h : readRingNewMonos t = some (names, r)) :
    r.length + names.length ≤ t.length := by
  obtain ⟨u, h1, v, ⟨-, h2⟩, h3⟩ := readRingNewMonos_sound h
  have := lit_le h1
  have := Many.long nameG_long h2
  have := lit_le h3
  omega

theorem Counted.start {p : PackedConsumer} {names : List Text} (h : PRep names.length p (.beginIdeal names)) :
    Counted names.length 0 p (.beginIdeal names) := ⟨h, rfl⟩

/-- A packed consumer stands for a consumer with its own number of variables. -/
def PRepAny (p : PackedConsumer) (k : InputConsumer) : Prop := PRep k.names.length p k

theorem PRep.any {V : ℕ} {p : PackedConsumer} {k : InputConsumer} (h : PRep V p k) : PRepAny p k := by
  unfold PRepAny
  rw [h.count]
  exact h

theorem bareM2_rel (junk : GrowJunk) (sf : Bool) (names : List Text) (t : Text) :
    RelG (Sizes names.length t.length) (WithText PRepAny) (packedBareM2 junk sf names t) (readBareM2 sf names t) := by
  obtain ⟨p, hp, hr⟩ := begin_rel junk names
  have tail : ∀ (a : PackedConsumer × Text) (b : InputConsumer × Text), WithText (fun p k => ∃ j, Counted names.length j p k) a b →
      RelG (Sizes names.length t.length) (WithText PRepAny) (do
        let r ← orReport (expectChar ')' a.2)
        let r ← orReport (expectChar ';' r)
        pure (a.1, r)) (do
        let r ← expectChar ')' b.2
        let r ← expectChar ';' r
        some (b.1, r)) := by
    rintro ⟨a, r⟩ ⟨b, r'⟩ ⟨⟨j, h1⟩, h2⟩
    simp only at h1 h2
    subst h2
    refine (relG_report _).bind fun r r' e => ?_
    subst e
    refine (relG_report _).bind fun r r' e => ?_
    subst e
    exact ⟨h1.1.any, rfl⟩
  unfold packedBareM2 readBareM2
  rw [hp]
  refine (relG_rest _).bind ?_
  rintro r _ ⟨rfl, e⟩
  have l23 := rest_le e
  refine (relG_rest _).bind ?_
  rintro r _ ⟨rfl, e⟩
  have l26 := rest_le e
  refine (relG_rest _).bind ?_
  rintro r _ ⟨rfl, e⟩
  have l29 := rest_le e
  refine (relG_rest _).bind ?_
  rintro r _ ⟨rfl, e⟩
  have l32 := rest_le e
  dsimp only
  cases (matchChar '0' r).1 with
  | false => exact RelG.bind (sepE_rel (R := Counted names.length) (N := t.length) (fun i s s' t hi hs => readTermM2_rel junk hi sf hs t) _ _ 0 _ _ _ (by omega)
      (.start hr)) tail
  | true =>
    simp only [if_true]
    cases (matchChar '_' (matchChar '0' r).2).1 with
    | false => exact tail (p, _) (_, _) ⟨⟨0, .start hr⟩, rfl⟩
    | true =>
      simp only [if_true]
      rcases readIdentifier (matchChar '_' (matchChar '0' r).2).2 with _ | q
      · trivial
      · exact tail (p, _) (_, _) ⟨⟨0, .start hr⟩, rfl⟩

theorem bareCoCoA_rel (junk : GrowJunk) (sf : Bool) (names : List Text) (t : Text) :
    RelG (Sizes names.length t.length) (WithText PRepAny) (packedBareCoCoA junk sf names t) (readBareCoCoA sf names t) := by
  obtain ⟨p, hp, hr⟩ := begin_rel junk names
  unfold packedBareCoCoA readBareCoCoA
  rw [hp]
  refine (relG_rest _).bind ?_
  rintro r _ ⟨rfl, e⟩
  have l54 := rest_le e
  refine (relG_rest _).bind ?_
  rintro r _ ⟨rfl, e⟩
  have l57 := rest_le e
  refine (relG_rest _).bind ?_
  rintro r _ ⟨rfl, e⟩
  have l60 := rest_le e
  refine (relG_rest _).bind ?_
  rintro r _ ⟨rfl, e⟩
  have l63 := rest_le e
  dsimp only
  cases (matchChar ')' r).1 with
  | true => exact ⟨hr.any, rfl⟩
  | false =>
    simp only [Bool.false_eq_true, if_false]
    refine (sepE_rel (R := Counted names.length) (N := t.length) (fun i s s' t hi hs => readTermCoCoA_rel junk hi sf hs t) _ _ 0 _ _ _ (by omega)
      (.start hr)).bind ?_
    rintro ⟨a, r⟩ ⟨b, r'⟩ ⟨⟨j, h1⟩, h2⟩
    simp only at h1 h2
    subst h2
    refine (relG_report _).bind fun r r' e => ?_
    subst e
    exact ⟨h1.1.any, rfl⟩

theorem bareSingular_rel (junk : GrowJunk) (sf : Bool) (names : List Text) (t : Text) :
    RelG (Sizes names.length t.length) (WithText PRepAny) (packedBareSingular junk sf names t) (readBareSingular sf names t) := by
  obtain ⟨p, hp, hr⟩ := begin_rel junk names
  have tail : ∀ (a : PackedConsumer × Text) (b : InputConsumer × Text), WithText (fun p k => ∃ j, Counted names.length j p k) a b →
      RelG (Sizes names.length t.length) (WithText PRepAny) (do
        let r ← orReport (expectChar ';' a.2)
        pure (a.1, r)) (do
        let r ← expectChar ';' b.2
        some (b.1, r)) := by
    rintro ⟨a, r⟩ ⟨b, r'⟩ ⟨⟨j, h1⟩, h2⟩
    simp only at h1 h2
    subst h2
    refine (relG_report _).bind fun r r' e => ?_
    subst e
    exact ⟨h1.1.any, rfl⟩
  unfold packedBareSingular readBareSingular
  rw [hp]
  refine (relG_rest _).bind ?_
  rintro r _ ⟨rfl, e⟩
  have l97 := rest_le e
  refine (relG_rest _).bind ?_
  rintro r _ ⟨rfl, e⟩
  have l100 := rest_le e
  refine (relG_rest _).bind ?_
  rintro r _ ⟨rfl, e⟩
  have l103 := rest_le e
  dsimp only
  cases (matchChar '0' r).1 with
  | true => exact tail (p, _) (_, _) ⟨⟨0, .start hr⟩, rfl⟩
  | false => exact RelG.bind (sepE_rel (R := Counted names.length) (N := t.length) (fun i s s' t hi hs => readTermProduct_rel junk hi sf hs t) _ _ 0 _ _ _ (by omega)
      (.start hr)) tail

theorem bareMonos_rel (junk : GrowJunk) (sf : Bool) (names : List Text) (t : Text) :
    RelG (Sizes names.length t.length) (WithText PRepAny) (packedBareMonos junk sf names t) (readBareMonos sf names t) := by
  obtain ⟨p, hp, hr⟩ := begin_rel junk names
  have tail : ∀ (a : PackedConsumer × Text) (b : InputConsumer × Text), WithText (fun p k => ∃ j, Counted names.length j p k) a b →
      RelG (Sizes names.length t.length) (WithText PRepAny) (do
        let r ← orReport (expectChar ';' a.2)
        pure (a.1, r)) (do
        let r ← expectChar ';' b.2
        some (b.1, r)) := by
    rintro ⟨a, r⟩ ⟨b, r'⟩ ⟨⟨j, h1⟩, h2⟩
    simp only at h1 h2
    subst h2
    refine (relG_report _).bind fun r r' e => ?_
    subst e
    exact ⟨h1.1.any, rfl⟩
  unfold packedBareMonos readBareMonos
  rw [hp]
  refine (relG_rest _).bind ?_
  rintro r _ ⟨rfl, e⟩
  have l129 := rest_le e
  dsimp only
  cases (matchChar ']' r).1 with
  | true => exact tail (p, _) (_, _) ⟨⟨0, .start hr⟩, rfl⟩
  | false =>
    simp only [Bool.false_eq_true, if_false]
    refine (sepE_rel (R := Counted names.length) (N := t.length) (fun i s s' t hi hs => readTermProduct_rel junk hi sf hs t) _ _ 0 _ _ _ (by omega)
      (.start hr)).bind ?_
    rintro ⟨a, r1⟩ ⟨b, r'⟩ ⟨⟨j, h1⟩, h2⟩
    simp only at h1 h2
    subst h2
    simp only
    cases (matchChar ']' r1).1 with
    | true => exact tail (a, _) (b, _) ⟨⟨j, h1⟩, rfl⟩
    | false =>
      simp only [Bool.false_eq_true, if_false]
      cases peekIdentifier r1 with
      | true =>
        refine RelG.bind (relG_report (expectChar '*' r1)) fun r r' e => ?_
        subst e
        exact tail (a, _) (b, _) ⟨⟨j, h1⟩, rfl⟩
      | false =>
        refine RelG.bind (relG_report (expectChar ']' r1)) fun r r' e => ?_
        subst e
        exact tail (a, _) (b, _) ⟨⟨j, h1⟩, rfl⟩

theorem noLeftParen_rel (junk : GrowJunk) (sf : Bool) (t : Text) :
    RelG (fun v c => v ≤ t.length ∧ c ≤ 18 + 2 * t.length) (WithText PRepAny) (packedNoLeftParen junk sf t) (readIdealNoLeftParen sf t) := by
  unfold packedNoLeftParen readIdealNoLeftParen
  refine (relG_rest _).bind ?_
  rintro r _ ⟨rfl, e⟩
  have l160 := rest_le e
  refine (relG_rest _).bind ?_
  rintro r _ ⟨rfl, e⟩
  have l163 := rest_le e
  refine (relG_rest _).bind ?_
  rintro ⟨names, r⟩ _ ⟨rfl, e⟩
  have l9 := readRingNewMonos_long e
  obtain ⟨p, hp, hr⟩ := begin_rel junk names
  simp only
  rw [hp]
  refine ((untilE_rel (R := Counted names.length) (N := t.length + 1) (fun i s s' t hi hs => readTermProduct_rel junk hi sf hs t) _ _ 0 _ _ _
    (by omega) (.start hr)).mono fun a b hab => ⟨hab.1.choose_spec.1.any, hab.2⟩).wider ?_
  rintro v c ⟨rfl, hc⟩
  omega

theorem readTimes_readName {n : ℕ} : ∀ {names : List Text} {t : Text} {q : List Text × Text}, readTimes readName n names t = some q →
    q.1.length = names.length + n := by
  induction n with
  | zero => intro names t q h; simp only [readTimes, Option.some.injEq] at h; subst h; rfl
  | succ n ih =>
    intro names t q h
    unfold readTimes at h
    rcases hr : readName names t with _ | ⟨l, r⟩ <;> rw [hr] at h
    · cases h
    · have hl : l.length = names.length + 1 := by
        unfold readName at hr
        rcases hi : readIdentifier t with _ | ⟨x, r'⟩
        · simp [hi] at hr
        · simp only [hi] at hr
          split at hr
          · cases hr
          · simp only [Option.some.injEq, Prod.mk.injEq] at hr
            rw [← hr.1]
            simp
      rw [ih h, hl]
      omega

theorem rename_rel {V : ℕ} {p : PackedConsumer} {k : InputConsumer} (h : PRep V p k) {names : List Text} (hn : names.length = V) :
    ∃ p', p.rename names = .ok p' ∧ PRep V p' { k with names := names } := by
  unfold PackedConsumer.rename
  rcases hb : k.big with _ | _
  · obtain ⟨h1, s, h2, h3, h4⟩ := h.packed hb
    simp only [h2, h1]
    exact ⟨_, rfl, rfl, hn, h.lengths, fun hb' => by simp at hb', fun _ => ⟨rfl, _, rfl, rfl, h4.holds, h4.room, h4.le, h4.one⟩⟩
  · obtain ⟨h1, h2⟩ := h.big hb
    simp only [h1, h2]
    exact ⟨_, rfl, rfl, hn, h.lengths, fun _ => ⟨rfl, rfl⟩, fun hb' => by simp at hb'⟩

theorem readTimes_beginTerm (n : ℕ) : ∀ (k : InputConsumer) (t : Text), k.names = [] →
    readTimes (fun (k : InputConsumer) t => some (k.beginTerm, t)) n k t = some ({ k with gens := List.replicate n [] ++ k.gens }, t) := by
  induction n with
  | zero => intro k t _; rfl
  | succ n ih =>
    intro k t hk
    unfold readTimes
    simp only
    rw [ih _ _ (by rw [← hk]; rfl)]
    simp only [InputConsumer.beginTerm, hk, List.length_nil, List.replicate_zero, List.replicate_succ', List.append_assoc,
      List.singleton_append]

theorem ideal4ti2_rel (junk : GrowJunk) (sf : Bool) (generatorCount varCount : ℕ) (t : Text) :
    RelG (Sizes varCount generatorCount) (WithText PRepAny) (packedIdeal4ti2 junk sf generatorCount varCount t) (readIdeal4ti2 sf generatorCount varCount t) := by
  obtain ⟨p, hp, hr⟩ := begin_rel junk (defaultNames varCount)
  rw [defaultNames_length] at hr
  unfold packedIdeal4ti2 readIdeal4ti2
  rw [hp]
  have tail : ∀ (a : PackedConsumer × Text) (b : InputConsumer × Text), WithText (fun p k => ∃ j, Counted varCount j p k) a b →
      RelG (Sizes varCount generatorCount) (WithText PRepAny) (if peekIdentifier a.2 then do
        let q ← orReport (readTimes readName varCount [] a.2)
        (a.1.rename q.1).map fun k => (k, q.2)
      else pure a) (if peekIdentifier b.2 then do
        let (names, r) ← readTimes readName varCount [] b.2
        some ({ b.1 with names := names }, r)
      else some b) := by
    rintro ⟨a, r1⟩ ⟨b, r'⟩ ⟨⟨j, h1, -⟩, h2⟩
    simp only at h1 h2
    subst h2
    simp only
    cases peekIdentifier r1 with
    | false => exact ⟨h1.any, rfl⟩
    | true =>
      simp only [if_true]
      rcases hq : readTimes readName varCount [] r1 with _ | ⟨names, r⟩
      · trivial
      · have hn := readTimes_readName hq
        obtain ⟨p', e1, e2⟩ := rename_rel h1 (names := names) (by simpa using hn)
        simp only [orReport, bind, Except.bind, e1, Except.map, Option.bind_some]
        exact ⟨e2.any, rfl⟩
  dsimp only
  have step : ∀ g : PackedConsumer → Except PackedStop (PackedConsumer × Text), (Except.ok p >>= g) = g p := fun _ => rfl
  by_cases h0 : varCount = 0
  · have e := readTimes_beginTerm generatorCount (.beginIdeal (defaultNames varCount)) t (by subst h0; rfl)
    have := timesE_rel (R := Counted varCount) (N := generatorCount)
      (item := fun k t => (PackedConsumer.beginTerm junk k).map fun k => (k, t))
      (item' := fun (k : InputConsumer) t => some (k.beginTerm, t))
      (fun i s s' t hi hs => (beginTerm_in junk hs.1 hs.2 hi.le).map (g := fun k => (k, t)) fun a b hab => ⟨hab, rfl⟩)
      generatorCount 0 p _ t (by omega) ⟨hr, rfl⟩
    rw [e] at this
    have h3 := RelG.bind (this.mono fun a b hab => ⟨⟨_, hab.1⟩, hab.2⟩) tail
    simp only [if_pos h0]
    rw [step]
    subst h0
    simpa [InputConsumer.beginIdeal, defaultNames] using h3
  · simp only [if_neg h0]
    rw [step]
    exact RelG.bind ((timesE_rel (R := Counted varCount) (N := generatorCount) (fun i s s' t hi hs => readTerm4ti2_rel junk hi sf hs t)
      generatorCount 0 p _ t (by omega) ⟨hr, rfl⟩).mono fun a b hab => ⟨⟨_, hab.1⟩, hab.2⟩) tail

theorem namesG_long {sep : Text} {names : List Text} {t r : Text} (h : Gram.or (Gram.when (names = [])) (namesG sep names) t r) :
    r.length + names.length ≤ t.length := by
  rcases h with ⟨rfl, rfl⟩ | ⟨-, h⟩
  · simp
  · exact SepBy.long nameG_long h

theorem sizeG_le {x : ℕ} {t r : Text} (h : sizeG x t r) : r.length ≤ t.length := by
  obtain ⟨-, sign, ds, ⟨-, -, w, w', -, -, rfl, -⟩, -⟩ := h
  simp only [List.length_append]
  omega

theorem readRing_long {f : IOFormat} {t r : Text} {names : List Text} (h : readRing f t = some (names, r)) :
    r.length + names.length ≤ t.length := by
  cases f with
  | m2 =>
    obtain ⟨R, -, brace, u1, h1, u2, h2, u3, h3, u4, h4, u5, h5, u6, h6, u7, h7, u8, h8, h9⟩ := readRingM2_sound h
    have := nameG_long _ _ _ h1
    have := lit_le h2
    have : u3.length ≤ u2.length := by rcases h3 with h3 | h3 <;> have := lit_le h3 <;> omega
    have := lit_le h4
    have := lit_le h5
    have := namesG_long h6
    have := lit_le h7
    have := lit_le h8
    have := lit_le h9
    omega
  | cocoa4 =>
    obtain ⟨-, u1, h1, u2, h2, u3, h3, u4, h4, u5, h5, u6, h6, u7, h7, u8, h8, u9, h9, u10, h10, u11, h11, u12, h12, u13, h13, u14, h14, h15⟩ :=
      readRingCoCoA_sound h
    have := lit_le h1
    have := lit_le h2
    have := lit_le h3
    have := lit_le h4
    have := lit_le h5
    have := lit_le h6
    have : u7.length ≤ u6.length := by
      rcases h7 with ⟨-, rfl⟩ | ⟨v1, g1, v2, g2, v3, g3, v4, g4, g5⟩
      · exact Nat.le_refl _
      · have := lit_le g1
        have := lit_le g2
        have := lit_le g3
        have := sizeG_le g4
        have := lit_le g5
        omega
    have := lit_le h8
    have := lit_le h9
    have := lit_le h10
    have := lit_le h11
    have := lit_le h12
    have : u13.length + names.length ≤ u12.length := by
      rcases h13 with ⟨rfl, rfl⟩ | h13
      · simp
      · refine SepBy.long (fun x t r hx => ?_) h13
        have := lit_le hx.2
        simp only [List.length_append, List.length_cons] at this
        omega
    have := lit_le h14
    have := lit_le h15
    omega
  | singular =>
    obtain ⟨written, digit, hd, u1, h1, u2, h2, u3, h3, u4, h4, u5, h5, u6, h6, u7, ⟨-, h7⟩, u8, h8, u9, h9, u10, h10, u11, h11, u12, h12, u13,
      h13, u14, h14, u15, h15, h16⟩ := readRingSingular_sound h
    have := lit_le h1
    have := lit_le h2
    have := lit_le h3
    have := lit_le h4
    have := lit_le h5
    have := lit_le h6
    have := SepBy.long nameG_long h7
    have := lit_le h8
    have := lit_le h9
    have := lit_le h10
    have := lit_le h11
    have := lit_le h12
    have := lit_le h13
    have := lit_le h14
    have := lit_le h15
    have := lit_le h16
    have : names.length ≤ written.length := by
      rcases hd with ⟨-, rfl⟩ | ⟨-, -, rfl⟩ <;> simp
    omega
  | monos =>
    obtain ⟨u1, h1, u2, h2, h3⟩ := readRingMonos_sound h
    have := lit_le h1
    have := namesG_long h2
    have := lit_le h3
    omega
  | newmonos => cases h
  | fourti2 => cases h

/-- The arrays that reading a text can ask for. -/
def Asked (f : IOFormat) (t : Text) (v c : ℕ) : Prop :=
  if f = .fourti2 then ∃ g r r', readSizeT t = some (g, r) ∧ readSizeT r = some (v, r') ∧ c ≤ 16 + 2 * g
  else v ≤ t.length ∧ c ≤ 18 + 2 * t.length

theorem consumer_rel (junk : GrowJunk) (sf : Bool) (f : IOFormat) (t : Text) :
    RelG (Asked f t) (WithText PRepAny) (packedConsumer junk sf f t) (readConsumer sf f t) := by
  have bare : ∀ names t, RelG (Sizes names.length t.length) (WithText PRepAny) (packedBare junk sf f names t) (readBare sf f names t) := by
    intro names t
    cases f
    · exact bareM2_rel junk sf names t
    · exact bareCoCoA_rel junk sf names t
    · exact bareSingular_rel junk sf names t
    · exact bareMonos_rel junk sf names t
    · trivial
    · trivial
  have common : RelG (fun v c => v ≤ t.length ∧ c ≤ 18 + 2 * t.length) (WithText PRepAny)
      (orReport (readRing f t) >>= fun p => packedBare junk sf f p.1 p.2) ((readRing f t).bind fun p => readBare sf f p.1 p.2) := by
    refine (relG_rest _).bind ?_
    rintro ⟨names, r⟩ _ ⟨rfl, e⟩
    have := readRing_long e
    refine (bare _ _).wider ?_
    rintro v c ⟨rfl, hc⟩
    simp only at hc ⊢
    omega
  cases f
  · exact common
  · exact common
  · exact common
  · exact common
  · refine (relG_rest _).bind ?_
    rintro q _ ⟨rfl, e⟩
    have := rest_le e
    refine (noLeftParen_rel junk sf q).wider ?_
    rintro v c ⟨h1, h2⟩
    exact ⟨by omega, by omega⟩
  · refine (relG_rest _).bind ?_
    rintro ⟨g, r⟩ _ ⟨rfl, e⟩
    refine (relG_rest _).bind ?_
    rintro ⟨v, r'⟩ _ ⟨rfl, e'⟩
    refine (ideal4ti2_rel junk sf _ _ _).wider ?_
    rintro v' c ⟨rfl, h2⟩
    exact ⟨g, r, r', e, e', h2⟩

theorem releaseBig_spec {p : PackedConsumer} {k : InputConsumer} (h : PRepAny p k) : p.releaseBig = .ok k.release := by
  unfold PackedConsumer.releaseBig
  rcases hb : k.big with _ | _
  · obtain ⟨h1, s, h2, h3, h4⟩ := PRep.packed h hb
    simp only [h1, h2, toBig_spec (by rw [h3]) h4 h.lengths, orStop, Except.map, h3]
    rfl
  · obtain ⟨h1, h2⟩ := PRep.big h hb
    simp only [h2]
    rfl

end Frobby
