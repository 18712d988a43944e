import Verif.PackedModel
import Verif.PropsWord
import Verif.RsfCompact

/-!
# Helper lemmas: packed ideals while they are read
-/

namespace Frobby

theorem zipWords_snd_self : ∀ {n : ℕ} {b : List Word}, b.length = n → zipWords (fun _ y => y) n b b = some b := by
  intro n
  induction n with
  | zero => intro b h; rw [List.length_eq_zero_iff.1 h]; rfl
  | succ n ih =>
    intro b h
    cases b with
    | nil => simp at h
    | cons x b => simp only [zipWords]; rw [ih (by simpa using h)]; rfl

theorem insert_any {V : ℕ} {r : RsfIdeal} {gens : List (Finset ℕ)} (h : Holds r V gens) {a : List Word} {s : Finset ℕ} (ha : Packs V a s)
    (hroom : r.wordsPerTerm * (gens.length + 1) ≤ r.memory.length) :
    ∃ r', r.insert a = some r' ∧ Holds r' V (gens ++ [s]) ∧ r'.memory.length = r.memory.length := by
  obtain ⟨h1, h2, h3, h4, h5, h6⟩ := holds_iff.1 h
  have hl : a.length = r.wordsPerTerm := by rw [packs_length ha, h2]
  obtain ⟨mem, hw⟩ : ∃ mem, writeWords r.memory r.memoryEnd a = some mem := by
    refine ⟨_, writeWords_eq_some.2 ⟨?_, rfl⟩⟩
    rw [h4, hl, ← Nat.mul_succ]
    exact hroom
  obtain ⟨q1, q2⟩ := h.add ha hw
  refine ⟨_, ?_, q1, q2⟩
  unfold RsfIdeal.insert wAssignWords
  rw [zipWords_snd_self hl]
  simp only [hw]

theorem insertIdentity_any {V : ℕ} {r : RsfIdeal} {gens : List (Finset ℕ)} (h : Holds r V gens)
    (hroom : r.wordsPerTerm * (gens.length + 1) ≤ r.memory.length) :
    ∃ r', r.insertIdentity = some r' ∧ Holds r' V (gens ++ [∅]) ∧ r'.memory.length = r.memory.length := by
  obtain ⟨h1, h2, h3, h4, h5, h6⟩ := holds_iff.1 h
  have ht : Packs V (wSetToIdentityWords r.wordsPerTerm) ∅ := by rw [h2]; exact packs_empty V
  obtain ⟨mem, hw⟩ : ∃ mem, writeWords r.memory r.memoryEnd (wSetToIdentityWords r.wordsPerTerm) = some mem := by
    refine ⟨_, writeWords_eq_some.2 ⟨?_, rfl⟩⟩
    rw [h4, packs_length ht, ← h2, ← Nat.mul_succ]
    exact hroom
  obtain ⟨q1, q2⟩ := h.add ht hw
  refine ⟨_, ?_, q1, q2⟩
  unfold RsfIdeal.insertIdentity
  rw [hw]

theorem insertIdeal_any_from {V W : ℕ} {mem : List Word} (L : List (Finset ℕ)) : ∀ (i : ℕ) (r : RsfIdeal) (gens : List (Finset ℕ)),
    Holds r V gens → Along (Packs V) W mem i L → r.wordsPerTerm * (gens.length + L.length) ≤ r.memory.length →
    ∃ r', foldTerms W (fun r a => r.insert a) r mem i L.length = some r' ∧ Holds r' V (gens ++ L) ∧ r'.memory.length = r.memory.length := by
  induction L with
  | nil => intro i r gens h _ _; exact ⟨r, rfl, by simpa using h, rfl⟩
  | cons s L ih =>
    intro i r gens h hA hroom
    obtain ⟨⟨a, ha, hR⟩, hA⟩ := hA
    obtain ⟨r1, e1, e2, e3⟩ := insert_any h hR ((Nat.mul_le_mul_left _ (by simp)).trans hroom)
    obtain ⟨r2, f1, f2, f3⟩ := ih (i + 1) r1 (gens ++ [s]) e2 hA (by
      rw [e3, e2.words, ← h.words]
      refine le_trans (le_of_eq ?_) hroom
      congr 1
      simp only [List.length_append, List.length_cons, List.length_nil]
      omega)
    refine ⟨r2, ?_, by simpa using f2, f3.trans e3⟩
    simp only [List.length_cons, foldTerms, ha, e1]
    exact f1

theorem insertIdeal_any {V : ℕ} {r ideal : RsfIdeal} {gens L : List (Finset ℕ)} (h : Holds r V gens)
    (hi : Holds ideal V L) (hroom : r.wordsPerTerm * (gens.length + L.length) ≤ r.memory.length) :
    ∃ r', r.insertIdeal ideal = some r' ∧ Holds r' V (gens ++ L) ∧ r'.memory.length = r.memory.length := by
  unfold RsfIdeal.insertIdeal
  rw [hi.stop_eq]
  exact insertIdeal_any_from L 0 r gens h hi.along hroom

theorem backWords_spec {V : ℕ} {r : RsfIdeal} {A : List (Finset ℕ)} {b : Finset ℕ} (h : Holds r V (A ++ [b])) :
    ∃ a, r.backWords = some a ∧ Packs V a b := by
  obtain ⟨h1, h2, h3, h4, h5, h6⟩ := holds_iff.1 h
  rw [along_append] at h6
  obtain ⟨⟨a, ha, hp⟩, _⟩ := h6.2
  refine ⟨a, ?_, hp⟩
  have e : r.memoryEnd = r.wordsPerTerm * A.length + r.wordsPerTerm := by rw [h4]; simp [Nat.mul_add]
  unfold RsfIdeal.backWords
  rw [if_neg (by omega), e, Nat.add_sub_cancel]
  simpa [termAt] using ha

theorem putBack_spec {V : ℕ} {r : RsfIdeal} {A : List (Finset ℕ)} {b c : Finset ℕ} {t : List Word} (h : Holds r V (A ++ [b]))
    (ht : Packs V t c) : ∃ r', r.putBack t = some r' ∧ Holds r' V (A ++ [c]) ∧ r'.memory.length = r.memory.length := by
  obtain ⟨h1, h2, h3, h4, h5, h6⟩ := holds_iff.1 h
  have e : r.memoryEnd = r.wordsPerTerm * A.length + r.wordsPerTerm := by rw [h4]; simp [Nat.mul_add]
  have hl : t.length = r.wordsPerTerm := by rw [packs_length ht, h2]
  obtain ⟨mem, hw⟩ : ∃ mem, putTerm r.wordsPerTerm r.memory A.length t = some mem :=
    ⟨_, writeWords_eq_some.2 ⟨by omega, rfl⟩⟩
  obtain ⟨hl2, hat, hne⟩ := termAt_put hw hl
  refine ⟨⟨r.varCount, r.wordsPerTerm, r.genCount, r.memoryEnd, mem⟩, ?_, holds_iff.2 ⟨h1, h2, by simpa using h3, by simpa using h4,
    by simp only; omega, ?_⟩, hl2⟩
  · unfold RsfIdeal.putBack
    rw [if_neg (by omega), e, Nat.add_sub_cancel]
    unfold putTerm at hw
    rw [hw, ← e]
    rfl
  · rw [along_append] at h6 ⊢
    exact ⟨along_frame _ 0 (fun j _ hj => hne j (by omega)) h6.1, ⟨t, by simpa using hat, ht⟩, trivial⟩

/-! ## the support of exponents -/

/-- The variables with an exponent that is not zero. -/
def suppIn (V : ℕ) (e : List ℕ) : Finset ℕ := (Finset.range V).filter fun i => e.getD i 0 ≠ 0

theorem mem_suppIn {V : ℕ} {e : List ℕ} {i : ℕ} : i ∈ suppIn V e ↔ i < V ∧ e.getD i 0 ≠ 0 := by simp [suppIn]

theorem suppIn_zero (V n : ℕ) : suppIn V (List.replicate n 0) = ∅ := by
  ext i
  simp only [mem_suppIn, Finset.notMem_empty, iff_false, not_and, not_not]
  intro _
  rw [List.getD_eq_getElem?_getD, List.getElem?_replicate]
  split <;> rfl

theorem getD_set' {e : List ℕ} {v i x : ℕ} (hv : v < e.length) : (e.set v x).getD i 0 = if i = v then x else e.getD i 0 := by
  rw [List.getD_eq_getElem?_getD, List.getElem?_set, List.getD_eq_getElem?_getD]
  by_cases h : v = i
  · subst h; simp [hv]
  · rw [if_neg h, if_neg (Ne.symm h)]

theorem suppIn_set {V : ℕ} {e : List ℕ} {v : ℕ} (hl : e.length = V) (hv : v < V) : suppIn V (e.set v 1) = insert v (suppIn V e) := by
  ext i
  rw [Finset.mem_insert, mem_suppIn, mem_suppIn, getD_set' (by omega)]
  by_cases h : i = v
  · subst h; simp [hv]
  · simp [h]

theorem unpackFrom_spec {V : ℕ} {a : List Word} {s : Finset ℕ} (h : Packs V a s) : ∀ (n v : ℕ), v + n ≤ V →
    unpackFrom a v n = some ((List.range' v n).map fun i => if i ∈ s then 1 else 0) := by
  intro n
  induction n with
  | zero => intro v _; rfl
  | succ n ih =>
    intro v hv
    unfold unpackFrom
    have hb : wGetExponent a v = some (decide (v ∈ s)) := by
      rw [wGetExponent_spec a v (by have := h.le; omega), h.bitOf_eq]
    rw [hb]
    simp only [ih (v + 1) (by omega), Option.map_some, List.range'_succ, List.map_cons, decide_eq_true_eq]

theorem unpack_suppIn {V : ℕ} {e : List ℕ} (hl : e.length = V) (h1 : ∀ x ∈ e, x ≤ 1) :
    ((List.range' 0 V).map fun i => if i ∈ suppIn V e then 1 else 0) = e := by
  refine List.ext_getElem (by simp [hl]) fun i hi hi' => ?_
  simp only [List.getElem_map, List.getElem_range', Nat.zero_add, Nat.one_mul]
  have hx := h1 _ (List.getElem_mem hi')
  have hg : e.getD i 0 = e[i] := by rw [List.getD_eq_getElem?_getD, List.getElem?_eq_getElem hi']; rfl
  by_cases h0 : e[i] = 0
  · rw [if_neg, h0]
    rw [mem_suppIn, hg]
    simp [h0]
  · rw [if_pos]
    · omega
    · rw [mem_suppIn, hg]
      exact ⟨by omega, h0⟩

/-! ## the packed consumer stands for the consumer -/

/-- The results agree: both are errors, or both are values in the relation, unless an array is too large that the code has a reason to
ask for. -/
def RelG {α β : Type} (B : ℕ → ℕ → Prop) (R : α → β → Prop) : Except PackedStop α → Option β → Prop
  | .ok a, some b => R a b
  | .error .report, none => True
  | .error (.badAlloc v c), _ => 2 ^ 64 ≤ 32 + 8 * (wordCount v * c) ∧ B v c
  | _, _ => False

/-- The arrays for up to `N` terms in `V` variables. -/
def Sizes (V N : ℕ) (v c : ℕ) : Prop := v = V ∧ c ≤ 16 + 2 * N

/-- The arrays of a `SquareFreeIdeal` hold the generators. -/
structure PackedFits (V : ℕ) (s : SqfIdeal) (gens : List (List ℕ)) : Prop where
  holds : Holds s.raw V (gens.reverse.map (suppIn V))
  room : s.raw.memory.length = wordCount V * s.capacity
  le : gens.length ≤ s.capacity
  one : ∀ e ∈ gens, ∀ x ∈ e, x ≤ 1

/-- A packed consumer stands for a consumer. -/
structure PRep (V : ℕ) (p : PackedConsumer) (k : InputConsumer) : Prop where
  names : p.names = k.names
  count : k.names.length = V
  lengths : ∀ e ∈ k.gens, e.length = V
  big : k.big = true → p.sqf = none ∧ p.big = some (k.names, k.gens)
  packed : k.big = false → p.big = none ∧ ∃ s, p.sqf = some s ∧ s.names = k.names ∧ PackedFits V s k.gens

/-- The same with a text. -/
abbrev WithText {α β : Type} (R : α → β → Prop) (p : α × Text) (q : β × Text) : Prop := R p.1 q.1 ∧ p.2 = q.2

theorem RelG.bind {B : ℕ → ℕ → Prop} {α β γ δ : Type} {R : α → β → Prop} {S : γ → δ → Prop} {x : Except PackedStop α} {y : Option β}
    {f : α → Except PackedStop γ} {g : β → Option δ} (h : RelG B R x y) (hf : ∀ a b, R a b → RelG B S (f a) (g b)) :
    RelG B S (x >>= f) (y.bind g) := by
  rcases x with (_ | ⟨v, c⟩ | _) | a <;> rcases y with _ | b <;> simp only [RelG] at h <;>
    first
      | exact h
      | exact hf a b h

theorem RelG.map {B : ℕ → ℕ → Prop} {α β γ δ : Type} {R : α → β → Prop} {S : γ → δ → Prop} {x : Except PackedStop α} {y : Option β}
    {f : α → γ} {g : β → δ} (h : RelG B R x y) (hf : ∀ a b, R a b → S (f a) (g b)) :
    RelG B S (x.map f) (y.map g) := by
  rcases x with (_ | ⟨v, c⟩ | _) | a <;> rcases y with _ | b <;> simp only [RelG] at h <;>
    first
      | exact h
      | exact hf a b h

theorem RelG.mono {B : ℕ → ℕ → Prop} {α β : Type} {R S : α → β → Prop} {x : Except PackedStop α} {y : Option β} (h : RelG B R x y)
    (hf : ∀ a b, R a b → S a b) : RelG B S x y := by
  rcases x with (_ | ⟨v, c⟩ | _) | a <;> rcases y with _ | b <;> simp only [RelG] at h ⊢ <;>
    first
      | exact h
      | exact hf a b h

theorem RelG.wider {α β : Type} {B B' : ℕ → ℕ → Prop} {R : α → β → Prop} {x : Except PackedStop α} {y : Option β} (h : RelG B R x y)
    (hB : ∀ v c, B v c → B' v c) : RelG B' R x y := by
  rcases x with (_ | ⟨v, c⟩ | _) | a <;> rcases y with _ | b <;> simp only [RelG] at h ⊢ <;>
    first
      | exact h
      | exact ⟨h.1, hB _ _ h.2⟩

theorem relG_report {B : ℕ → ℕ → Prop} {α : Type} (o : Option α) : RelG B (fun a b => a = b) (orReport o) o := by
  cases o <;> simp [orReport, RelG]

theorem newPacked_spec (junk : GrowJunk) (V c : ℕ) :
    (newPacked junk V c = .error (.badAlloc V c) ∧ 2 ^ 64 ≤ 32 + 8 * (wordCount V * c)) ∨
      ∃ r, newPacked junk V c = .ok r ∧ Holds r V [] ∧ r.memory.length = wordCount V * c := by
  unfold newPacked
  split
  · exact .inr ⟨_, rfl, rsfConstruct_holds V _, by simp [rsfConstruct]⟩
  · exact .inl ⟨rfl, by omega⟩

theorem begin_rel (junk : GrowJunk) (names : List Text) :
    ∃ p, PackedConsumer.beginIdeal junk names = .ok p ∧ PRep names.length p (.beginIdeal names) := by
  unfold PackedConsumer.beginIdeal SqfIdeal.ofNames
  rcases newPacked_spec junk names.length 0 with ⟨_, h⟩ | ⟨r, hr, h1, h2⟩
  · simp at h
  · rw [hr]
    refine ⟨_, rfl, rfl, rfl, by simp [InputConsumer.beginIdeal], by simp [InputConsumer.beginIdeal], fun _ => ⟨rfl, _, rfl, rfl, ?_⟩⟩
    exact ⟨h1, h2, Nat.le_refl _, by simp [InputConsumer.beginIdeal]⟩

theorem grow_rel (junk : GrowJunk) {V : ℕ} {s : SqfIdeal} {gens : List (List ℕ)} (hn : s.names.length = V) (h : PackedFits V s gens)
    {c : ℕ} (hc : gens.length < c) :
    (s.copy junk c = .error (.badAlloc V c) ∧ 2 ^ 64 ≤ 32 + 8 * (wordCount V * c)) ∨
      ∃ s', s.copy junk c = .ok s' ∧ s'.names = s.names ∧ s'.capacity = c ∧ PackedFits V s' gens := by
  have hg : s.raw.genCount = gens.length := by rw [h.holds.genCount]; simp
  unfold SqfIdeal.copy
  rw [hg, if_neg (by omega), hn]
  rcases newPacked_spec junk V c with ⟨e, h'⟩ | ⟨r, hr, h1, h2⟩
  · left
    simp only [e]
    exact ⟨rfl, h'⟩
  · right
    obtain ⟨r', e1, e2, e3⟩ := insertIdeal_any h1 h.holds (by
      rw [h1.words, h2]
      exact Nat.mul_le_mul_left _ (by simp; omega))
    refine ⟨⟨s.names, r', c⟩, ?_, rfl, rfl, by simpa using e2, by rw [e3, h2], by simp only; omega, h.one⟩
    simp only [hr, e1, bind, Except.bind, orStop, pure, Except.pure]

theorem insertIdentity_rel (junk : GrowJunk) {V : ℕ} {s : SqfIdeal} {gens : List (List ℕ)} (hn : s.names.length = V)
    (h : PackedFits V s gens) :
    (∃ c, s.insertIdentity junk = .error (.badAlloc V c) ∧ 2 ^ 64 ≤ 32 + 8 * (wordCount V * c) ∧ c ≤ 16 + 2 * gens.length) ∨
      ∃ s', s.insertIdentity junk = .ok s' ∧ s'.names = s.names ∧ PackedFits V s' (List.replicate V 0 :: gens) := by
  have key : ∀ s1 : SqfIdeal, s1.names = s.names → PackedFits V s1 gens → gens.length < s1.capacity →
      ∃ s', (do let raw ← orStop s1.raw.insertIdentity; pure ⟨s1.names, raw, s1.capacity⟩ : Except PackedStop SqfIdeal) = .ok s' ∧
        s'.names = s.names ∧ PackedFits V s' (List.replicate V 0 :: gens) := by
    intro s1 hn1 h1 hlt
    obtain ⟨r', e1, e2, e3⟩ := insertIdentity_any h1.holds (by
      rw [h1.holds.words, h1.room]
      exact Nat.mul_le_mul_left _ (by simp; omega))
    refine ⟨⟨s1.names, r', s1.capacity⟩, ?_, hn1, ?_, by rw [e3, h1.room], by simp; omega, ?_⟩
    · simp only [e1, bind, Except.bind, orStop, pure, Except.pure]
    · simpa [suppIn_zero] using e2
    · intro e he x hx
      rcases List.mem_cons.1 he with rfl | he
      · have := List.eq_of_mem_replicate hx
        omega
      · exact h1.one e he x hx
  have hg : s.raw.genCount = gens.length := by rw [h.holds.genCount]; simp
  unfold SqfIdeal.insertIdentity
  by_cases hf : s.raw.genCount = s.capacity
  · rw [if_pos hf]
    have hlt : s.capacity < (if s.capacity = 0 then 16 else s.capacity * 2) := by split <;> omega
    unfold SqfIdeal.reserve
    rw [if_pos hlt]
    rcases grow_rel junk hn h (c := if s.capacity = 0 then 16 else s.capacity * 2) (by omega) with ⟨e, h'⟩ | ⟨s1, e, hn1, hc1, h1⟩
    · left
      rw [e]
      exact ⟨_, rfl, h', by split <;> omega⟩
    · right
      rw [e]
      exact key s1 hn1 h1 (by omega)
  · rw [if_neg hf]
    right
    have := h.le
    exact key s rfl h (by omega)

theorem beginTerm_rel (junk : GrowJunk) {V N : ℕ} {p : PackedConsumer} {k : InputConsumer} (h : PRep V p k) (hN : k.gens.length ≤ N) :
    RelG (Sizes V N) (PRep V) (p.beginTerm junk) (some k.beginTerm) := by
  have hlen : ∀ e ∈ (k.beginTerm).gens, e.length = V := by
    intro e he
    rcases List.mem_cons.1 he with rfl | he
    · simp [h.count]
    · exact h.lengths e he
  unfold PackedConsumer.beginTerm
  rcases hb : k.big with _ | _
  · obtain ⟨h1, s, h2, h3, h4⟩ := h.packed hb
    simp only [h2, h1]
    rcases insertIdentity_rel junk (by rw [h3, h.count]) h4 with ⟨c, e, h', hc⟩ | ⟨s', e, hn, hf⟩
    · rw [e]
      exact ⟨h', rfl, by omega⟩
    · rw [e]
      refine ⟨h.names, h.count, hlen, fun hb' => ?_, fun _ => ⟨rfl, s', rfl, hn.trans h3, ?_⟩⟩
      · rw [show k.beginTerm.big = k.big from rfl, hb] at hb'
        cases hb'
      · rw [show k.beginTerm.gens = List.replicate k.names.length 0 :: k.gens from rfl, h.count]
        exact hf
  · obtain ⟨h1, h2⟩ := h.big hb
    simp only [h1, h2]
    refine ⟨h.names, h.count, hlen, fun _ => ⟨rfl, rfl⟩, fun hb' => ?_⟩
    rw [show k.beginTerm.big = k.big from rfl, hb] at hb'
    cases hb'

/-- The consumer inside of a term after `n` terms. -/
def InTerm (V n : ℕ) (p : PackedConsumer) (k : InputConsumer) : Prop := PRep V p k ∧ k.gens.length = n + 1

theorem beginTerm_in (junk : GrowJunk) {V n N : ℕ} {p : PackedConsumer} {k : InputConsumer} (h : PRep V p k) (hn : k.gens.length = n)
    (hN : n ≤ N) : RelG (Sizes V N) (InTerm V n) (p.beginTerm junk) (some k.beginTerm) := by
  have := beginTerm_rel (N := N) junk h (by omega)
  rcases hx : p.beginTerm junk with (_ | ⟨v, c⟩ | _) | a <;> rw [hx] at this <;> simp only [RelG] at this ⊢
  · exact this
  · exact ⟨this, by simp [InputConsumer.beginTerm, hn]⟩

theorem set_lengths {V : ℕ} {g : List ℕ} {gs : List (List ℕ)} (h : ∀ e ∈ g :: gs, e.length = V) (v x : ℕ) :
    ∀ e ∈ g.set v x :: gs, e.length = V := by
  intro e he
  rcases List.mem_cons.1 he with rfl | he
  · rw [List.length_set]
    exact h g (by simp)
  · exact h e (by simp [he])

/-- Setting a variable in the last term. -/
theorem putOne_rel {V : ℕ} {p : PackedConsumer} {k : InputConsumer} (h : PRep V p k) (hb : k.big = false) {g : List ℕ}
    {gs : List (List ℕ)} (hg : k.gens = g :: gs) {v : ℕ} (hv : v < V) {s : SqfIdeal} (hs : p.sqf = some s) :
    ∃ a, s.raw.backWords = some a ∧ wGetExponent a v = some (decide (g.getD v 0 ≠ 0)) ∧
      ∃ p', p.putOne s a v = .ok p' ∧ InTerm V gs.length p' (k.setExponent v 1) := by
  obtain ⟨h1, s', h2, h3, h4⟩ := h.packed hb
  rw [hs] at h2
  obtain rfl := Option.some.inj h2
  have hh := h4.holds
  rw [hg, List.reverse_cons, List.map_append, List.map_singleton] at hh
  have hgl : g.length = V := h.lengths g (by simp [hg])
  obtain ⟨a, ha, hp⟩ := backWords_spec hh
  have hget : wGetExponent a v = some (decide (v ∈ suppIn V g)) := by
    rw [wGetExponent_spec a v (by have := hp.le; omega), hp.bitOf_eq]
  obtain ⟨a', ha', hp'⟩ := (C48_setExponent hp hv).1
  obtain ⟨r', e1, e2, e3⟩ := putBack_spec hh hp'
  refine ⟨a, ha, ?_, ⟨p.names, some ⟨s.names, r', s.capacity⟩, p.big⟩, ?_, ⟨h.names, h.count, ?_, fun hb' => ?_, fun _ => ⟨h1, ⟨s.names, r', s.capacity⟩, rfl, h3, ?_, ?_, ?_, ?_⟩⟩, ?_⟩
  · rw [hget]
    congr 1
    simp [mem_suppIn, hv]
  · unfold PackedConsumer.putOne
    simp only [ha', e1, bind, Except.bind, orStop, pure, Except.pure]
  · rw [InputConsumer.setExponent, hg]
    exact set_lengths (by rw [← hg]; exact h.lengths) v 1
  · exact absurd hb' (by simp [InputConsumer.setExponent, hb])
  · rw [InputConsumer.setExponent, hg]
    simpa [suppIn_set hgl hv] using e2
  · rw [e3, h4.room]
  · have := h4.le
    rw [InputConsumer.setExponent, hg]
    rw [hg] at this
    simpa using this
  · intro e he x hx
    rw [InputConsumer.setExponent, hg] at he
    rcases List.mem_cons.1 he with rfl | he
    · rcases List.mem_or_eq_of_mem_set hx with hx | rfl
      · exact h4.one g (by simp [hg]) x hx
      · exact Nat.le_refl _
    · exact h4.one e (by simp [hg, he]) x hx
  · rw [InputConsumer.setExponent, hg]
    simp

theorem putBig_rel {V : ℕ} {p : PackedConsumer} {k : InputConsumer} (h : PRep V p k) (hb : k.big = true) {g : List ℕ}
    {gs : List (List ℕ)} (hg : k.gens = g :: gs) {v : ℕ} (hv : v < V) :
    p.bigExponent v = .ok (k.exponent v) ∧ ∀ e, ∃ p', p.putBig v e = .ok p' ∧ InTerm V gs.length p' (k.setExponent v e) := by
  obtain ⟨h1, h2⟩ := h.big hb
  have hgl : g.length = V := h.lengths g (by simp [hg])
  rw [hg] at h2
  constructor
  · unfold PackedConsumer.bigExponent InputConsumer.exponent
    rw [h2, hg]
    simp only [List.getD_eq_getElem?_getD]
    rw [List.getElem?_eq_getElem (by omega)]
    rfl
  · intro e
    unfold PackedConsumer.putBig
    rw [h2]
    simp only [if_pos (show v < g.length by omega)]
    refine ⟨_, rfl, ⟨h.names, h.count, ?_, fun _ => ⟨h1, ?_⟩, fun hb' => ?_⟩, ?_⟩
    · rw [InputConsumer.setExponent, hg]
      exact set_lengths (by rw [← hg]; exact h.lengths) v e
    · rw [InputConsumer.setExponent, hg]
    · exact absurd hb' (by simp [InputConsumer.setExponent, hb])
    · rw [InputConsumer.setExponent, hg]
      simp

theorem InTerm.cons {V n : ℕ} {p : PackedConsumer} {k : InputConsumer} (h : InTerm V n p k) :
    ∃ g gs, k.gens = g :: gs ∧ gs.length = n := by
  rcases hg : k.gens with _ | ⟨g, gs⟩
  · have := h.2
    simp [hg] at this
  · exact ⟨g, gs, rfl, by simpa [hg] using h.2⟩

theorem consumeOne_rel {B : ℕ → ℕ → Prop} {V n : ℕ} {p : PackedConsumer} {k : InputConsumer} (h : InTerm V n p k) {v : ℕ} (hv : v < V) :
    RelG B (InTerm V n) (p.consumeOne v) (k.consumeOne v) := by
  obtain ⟨g, gs, hg, rfl⟩ := h.cons
  obtain ⟨h, hne⟩ := h
  have hx : k.exponent v = g.getD v 0 := by rw [InputConsumer.exponent, hg]
  unfold PackedConsumer.consumeOne InputConsumer.consumeOne
  rcases hb : k.big with _ | _
  · obtain ⟨h1, s, h2, h3, h4⟩ := h.packed hb
    obtain ⟨a, e1, e2, p', e3, e4⟩ := putOne_rel h hb hg hv h2
    simp only [h2, e1, e2, e3, orStop, bind, Except.bind, hx]
    by_cases h0 : g.getD v 0 = 0
    · rw [h0]; exact e4
    · rw [if_pos (by simpa using h0), if_neg h0]
      trivial
  · obtain ⟨h1, h2⟩ := h.big hb
    obtain ⟨e1, e2⟩ := putBig_rel h hb hg hv
    obtain ⟨p', e3, e4⟩ := e2 1
    simp only [h1, e1, bind, Except.bind]
    by_cases h0 : k.exponent v = 0
    · rw [if_pos h0, if_pos h0, e3]
      exact e4
    · rw [if_neg h0, if_neg h0]
      trivial

theorem toBig_spec {V : ℕ} {s : SqfIdeal} {gens : List (List ℕ)} (hn : s.names.length = V) (h : PackedFits V s gens)
    (hl : ∀ e ∈ gens, e.length = V) : s.toBig = some gens := by
  have key : ∀ (L : List (List ℕ)) (i : ℕ) (acc : List (List ℕ)), (∀ e ∈ L, e.length = V) → (∀ e ∈ L, ∀ x ∈ e, x ≤ 1) →
      Along (Packs V) s.raw.wordsPerTerm s.raw.memory i (L.map (suppIn V)) →
      foldTerms s.raw.wordsPerTerm (fun terms a => (unpackFrom a 0 s.names.length).map fun e => e :: terms) acc s.raw.memory i
        L.length = some (L.reverse ++ acc) := by
    intro L
    induction L with
    | nil => intro i acc _ _ _; rfl
    | cons e L ih =>
      intro i acc h1 h2 hA
      obtain ⟨⟨a, ha, hp⟩, hA⟩ := hA
      simp only [List.length_cons, foldTerms, ha]
      rw [hn, unpackFrom_spec hp V 0 (by omega), unpack_suppIn (h1 e (by simp)) (h2 e (by simp))]
      simp only [Option.map_some]
      have := ih (i + 1) (e :: acc) (fun x hx => h1 x (by simp [hx])) (fun x hx => h2 x (by simp [hx])) hA
      rw [hn] at this
      rw [this]
      simp
  have := key gens.reverse 0 [] (by simpa using hl) (by simpa using h.one) h.holds.along
  unfold SqfIdeal.toBig
  rw [h.holds.stop_eq, List.length_map, this]
  simp

theorem consumeExponent_rel {B : ℕ → ℕ → Prop} {V n : ℕ} (sf : Bool) {p : PackedConsumer} {k : InputConsumer} (h : InTerm V n p k) {v : ℕ}
    (hv : v < V) (t : Text) : RelG B (WithText (InTerm V n)) (p.consumeExponent sf v t) (k.consumeExponent sf v t) := by
  obtain ⟨g, gs, hg, rfl⟩ := h.cons
  obtain ⟨h, hne⟩ := h
  have hx : k.exponent v = g.getD v 0 := by rw [InputConsumer.exponent, hg]
  unfold PackedConsumer.consumeExponent InputConsumer.consumeExponent
  rcases hb : k.big with _ | _
  · obtain ⟨h1, s, h2, h3, h4⟩ := h.packed hb
    obtain ⟨a, e1, e2, p', e3, e4⟩ := putOne_rel h hb hg hv h2
    rcases hr : readIntegerStringNoSign t with _ | ⟨d, r⟩
    · simp only [h2, orReport, bind, Except.bind, Bool.false_eq_true, if_false]
      trivial
    · simp only [h2, e1, e2, e3, orStop, orReport, bind, Except.bind, hx, Bool.false_eq_true, if_false]
      by_cases h0 : g.getD v 0 = 0
      · rw [if_neg (by simp only [h0]; simp), if_pos h0]
        by_cases hd1 : d = t!"1"
        · rw [if_pos hd1, if_pos hd1]
          exact ⟨e4, rfl⟩
        · rw [if_neg hd1, if_neg hd1]
          by_cases hd0 : d = t!"0"
          · rw [if_pos hd0, if_pos hd0]
            exact ⟨⟨h, hne⟩, rfl⟩
          · rw [if_neg hd0, if_neg hd0]
            cases sf with
            | true => trivial
            | false =>
              have hbig : PRep V ⟨p.names, none, some (s.names, k.gens)⟩ { k with big := true } :=
                ⟨h.names, h.count, h.lengths, fun _ => ⟨rfl, by rw [h3]⟩, fun hb' => by cases hb'⟩
              have ht : p.toBigIdeal s = .ok ⟨p.names, none, some (s.names, k.gens)⟩ := by
                unfold PackedConsumer.toBigIdeal
                rw [h1, toBig_spec (by rw [h3, h.count]) h4 h.lengths]
                rfl
              simp only [ht, Bool.false_eq_true, if_false]
              rcases hdv : digitsValue0 d with _ | e
              · trivial
              · obtain ⟨p', f1, f2⟩ := (putBig_rel hbig rfl hg hv).2 e
                simp only [f1, Except.map, Option.map_some]
                exact ⟨f2, rfl⟩
      · rw [if_pos (by simpa using h0), if_neg h0]
        trivial
  · obtain ⟨h1, h2⟩ := h.big hb
    obtain ⟨e1, e2⟩ := putBig_rel h hb hg hv
    simp only [h1, e1, bind, Except.bind, if_true]
    by_cases h0 : k.exponent v = 0
    · rw [if_pos h0, if_pos h0]
      rcases hr : readIntegerStringNoSign t with _ | ⟨d, r⟩
      · simp only [orReport]
        trivial
      · simp only [orReport]
        rcases hdv : digitsValue0 d with _ | e
        · trivial
        · obtain ⟨p', f1, f2⟩ := e2 e
          simp only [f1, Except.map, Option.map_some]
          exact ⟨f2, rfl⟩
    · rw [if_neg h0, if_neg h0]
      trivial

end Frobby
