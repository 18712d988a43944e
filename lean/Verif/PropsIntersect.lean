import Verif.IntersectModel
import Verif.PropsFactory
import Verif.TranslatorLemmas
import Verif.VarNamesLemmas

/-!
# C28: intersection of ideals
-/

namespace Frobby

variable {n : ℕ}

/-! ## specification -/

/-- The monomial with exponent `m x` for the variable with name `x` is in the ideal. -/
def NamedIdeal.mem (I : NamedIdeal) (m : Text → ℕ) : Prop := ∃ t ∈ I.terms, ∀ p ∈ I.names.zip t, p.2 ≤ m p.1

/-- The names are distinct and each generator has an exponent for each variable. -/
structure NamedIdeal.Ok (I : NamedIdeal) : Prop where
  nodup : I.names.Nodup
  length : ∀ t ∈ I.terms, t.length = I.names.length

/-- No generator divides another one. -/
def NamedIdeal.Minimal (I : NamedIdeal) : Prop :=
  I.terms.Pairwise fun a b => ¬ List.Forall₂ (· ≤ ·) a b ∧ ¬ List.Forall₂ (· ≤ ·) b a

/-! ## names -/

theorem mem_uniqueTexts (l : List Text) (x : Text) : x ∈ uniqueTexts l ↔ x ∈ l := by
  fun_induction uniqueTexts l with
  | case1 a l ih => rw [ih]; simp
  | case2 a b l h ih => rw [List.mem_cons, ih, List.mem_cons (l := b :: l)]
  | case3 l h => rfl

theorem uniqueTexts_sorted (l : List Text) (hl : l.Pairwise fun a b => textLess b a = false) :
    (uniqueTexts l).Pairwise fun a b => textLess a b = true := by
  fun_induction uniqueTexts l with
  | case1 a l ih => exact ih (List.pairwise_cons.1 hl).2
  | case2 a b l h ih =>
    have hl' := List.pairwise_cons.1 hl
    refine List.pairwise_cons.2 ⟨fun c hc => ?_, ih hl'.2⟩
    rw [mem_uniqueTexts] at hc
    have hab := hl'.1 b (by simp)
    have h1 : textLess a b = true := by
      cases h2 : textLess a b
      · exact absurd (totalOn_text a b trivial trivial h2 hab) h
      · rfl
    rcases negOn_text.neg a c b trivial trivial trivial h1 with h2 | h2
    · exact h2
    · rcases List.mem_cons.1 hc with rfl | hc
      · rw [negOn_text.irrefl _ trivial] at h2; simp at h2
      · rw [(List.pairwise_cons.1 hl'.2).1 c hc] at h2; simp at h2
  | case3 l h =>
    cases l with
    | nil => exact List.Pairwise.nil
    | cons a l =>
      cases l with
      | nil => exact List.pairwise_singleton _ _
      | cons b l => exact absurd rfl (h a b l)

theorem mem_collectNames (Is : List NamedIdeal) : ∀ (prev : Option (List Text)) (x : Text),
    (x ∈ collectNames prev Is → ∃ I ∈ Is, x ∈ I.names) ∧
      (∀ I ∈ Is, x ∈ I.names → x ∈ collectNames prev Is ∨ ∃ l, prev = some l ∧ x ∈ l) := by
  induction Is with
  | nil => intro prev x; simp [collectNames]
  | cons J Is ih =>
    intro prev x
    obtain ⟨h1, h2⟩ := ih (some J.names) x
    unfold collectNames
    split
    · rename_i hp
      refine ⟨fun h => ?_, fun I hI hx => ?_⟩
      · obtain ⟨I, hI, hx⟩ := h1 h; exact ⟨I, by simp [hI], hx⟩
      · rcases List.mem_cons.1 hI with rfl | hI
        · exact Or.inr ⟨_, hp, hx⟩
        · rcases h2 I hI hx with h | ⟨l, h, hl⟩
          · exact Or.inl h
          · exact Or.inr ⟨l, by rw [hp, h], hl⟩
    · refine ⟨fun h => ?_, fun I hI hx => ?_⟩
      · rcases List.mem_append.1 h with h | h
        · exact ⟨J, by simp, h⟩
        · obtain ⟨I, hI, hx⟩ := h1 h; exact ⟨I, by simp [hI], hx⟩
      · rcases List.mem_cons.1 hI with rfl | hI
        · exact Or.inl (List.mem_append_left _ hx)
        · rcases h2 I hI hx with h | ⟨l, h, hl⟩
          · exact Or.inl (List.mem_append_right _ h)
          · simp only [Option.some.injEq] at h
            exact Or.inl (List.mem_append_left _ (by rw [h]; exact hl))

theorem mem_mergedNames (Is : List NamedIdeal) (x : Text) : x ∈ mergedNames Is ↔ ∃ I ∈ Is, x ∈ I.names := by
  unfold mergedNames sortTexts
  rw [mem_uniqueTexts, List.mem_insertionSort]
  refine ⟨(mem_collectNames Is none x).1, fun ⟨I, hI, hx⟩ => ?_⟩
  rcases (mem_collectNames Is none x).2 I hI hx with h | ⟨l, h, _⟩
  · exact h
  · simp at h

theorem mergedNames_sorted (Is : List NamedIdeal) : (mergedNames Is).Pairwise fun a b => textLess a b = true :=
  uniqueTexts_sorted _ (sortTexts_sorted _)

theorem mergedNames_nodup (Is : List NamedIdeal) : (mergedNames Is).Nodup :=
  (mergedNames_sorted Is).imp fun {a b} h hab => by
    subst hab; rw [negOn_text.irrefl _ trivial] at h; simp at h

/-! ## translation -/

/-- A generator with an exponent for each of the names. -/
def embed (names : List Text) (I : NamedIdeal) (t : List ℕ) : Term names.length := fun v =>
  match I.names.idxOf? names[v] with
  | none => 0
  | some i => t.getD i 0

theorem idxOf?_spec {L : List Text} (hL : L.Nodup) {x : Text} {i : ℕ} : L.idxOf? x = some i ↔ L[i]? = some x := by
  constructor
  · intro h
    rw [List.idxOf?, List.findIdx?_eq_some_iff_getElem] at h
    obtain ⟨hi, h1, _⟩ := h
    rw [List.getElem?_eq_getElem hi, (beq_iff_eq.1 h1)]
  · intro h
    obtain ⟨hi, rfl⟩ := List.getElem?_eq_some_iff.1 h
    exact VarNames.idxOf?_getElem hL hi

theorem embed_le (names : List Text) {I : NamedIdeal} (hI : I.Ok) (hsub : ∀ x ∈ I.names, x ∈ names) {t : List ℕ}
    (ht : t ∈ I.terms) (m : Text → ℕ) :
    embed names I t ≤ (fun v => m names[v]) ↔ ∀ p ∈ I.names.zip t, p.2 ≤ m p.1 := by
  have hlen := hI.length t ht
  constructor
  · rintro h ⟨x, e⟩ hp
    obtain ⟨i, hi, h1⟩ := List.mem_iff_getElem.1 hp
    rw [List.getElem_zip, Prod.mk.injEq] at h1
    obtain ⟨rfl, rfl⟩ := h1
    rw [List.length_zip] at hi
    obtain ⟨j, hj, h2⟩ := List.mem_iff_getElem.1 (hsub _ (List.getElem_mem (l := I.names) (n := i) (by omega)))
    have h3 : embed names I t ⟨j, hj⟩ ≤ m names[j] := h ⟨j, hj⟩
    unfold embed at h3
    have h4 : I.names.idxOf? (names[(⟨j, hj⟩ : Fin names.length)]) = some i := by
      rw [idxOf?_spec hI.nodup, List.getElem?_eq_getElem (by omega)]
      simp [h2]
    rw [h4] at h3
    simp only at h3
    rw [List.getD_eq_getElem _ _ (by omega), h2] at h3
    exact h3
  · intro h
    refine Term.le_def.2 fun v => ?_
    unfold embed
    cases h1 : I.names.idxOf? names[v] with
    | none => simp
    | some i =>
      obtain ⟨hi, h2⟩ := List.getElem?_eq_some_iff.1 ((idxOf?_spec hI.nodup).1 h1)
      have h3 := h (I.names[i], t[i]'(by omega)) (List.mem_iff_getElem.2 ⟨i, by rw [List.length_zip]; omega, by simp⟩)
      simp only at h3 ⊢
      rw [List.getD_eq_getElem _ _ (by omega), ← h2]
      exact h3

/-- All generators. -/
def allGens (Is : List NamedIdeal) : List (Term (mergedNames Is).length) :=
  Is.flatMap fun I => I.terms.map (embed (mergedNames Is) I)

theorem sorted_ext {l k : List ℕ} (hl : l.Pairwise (· < ·)) (hk : k.Pairwise (· < ·)) (h : ∀ x, x ∈ l ↔ x ∈ k) : l = k := by
  have hp : l.Perm k := (List.perm_ext_iff_of_nodup (hl.imp fun h => Nat.ne_of_lt h) (hk.imp fun h => Nat.ne_of_lt h)).2 h
  refine List.Perm.eq_of_pairwise ?_ hl hk hp
  intro a b _ _ h1 h2
  exact absurd h1 (by omega)

theorem mergedTranslator_eq (Is : List NamedIdeal) : mergedTranslator Is = Translator.ofGens (allGens Is) := by
  funext v
  unfold mergedTranslator Translator.ofGens
  have : idList (varExponents Is (mergedNames Is)[v]) = idList ((allGens Is).map fun g : Term _ => g v) := by
    refine sorted_ext (idList_sorted _) (idList_sorted _) fun x => ?_
    rw [mem_idList, mem_idList]
    by_cases hx : x = 0
    · simp [hx]
    · simp only [hx, false_or, varExponents, allGens, List.mem_flatMap, List.mem_map]
      constructor
      · rintro ⟨I, hI, hx'⟩
        cases h1 : I.names.idxOf? (mergedNames Is)[v] with
        | none => rw [h1] at hx'; simp at hx'
        | some i =>
          rw [h1] at hx'
          obtain ⟨t, ht, rfl⟩ := List.mem_map.1 hx'
          refine ⟨_, ⟨I, hI, t, ht, rfl⟩, ?_⟩
          unfold embed
          rw [h1]
      · rintro ⟨g, ⟨I, hI, t, ht, rfl⟩, hg⟩
        refine ⟨I, hI, ?_⟩
        unfold embed at hg
        cases h1 : I.names.idxOf? (mergedNames Is)[v] with
        | none => rw [h1] at hg; exact absurd hg.symm hx
        | some i =>
          rw [h1] at hg
          exact List.mem_map.2 ⟨t, ht, hg⟩
  rw [this]

theorem shrinkInto_spec {N : ℕ} (T : Translator N) : ∀ (l : List (ℕ × ℕ)) (term : Term N), (∀ p ∈ l, p.1 < N) →
    (l.map (·.1)).Nodup → ∃ u, shrinkInto T term l = some u ∧
      (∀ p ∈ l, ∀ h : p.1 < N, u ⟨p.1, h⟩ = T.shrinkExponent ⟨p.1, h⟩ p.2) ∧ ∀ v : Fin N, v.val ∉ l.map (·.1) → u v = term v := by
  intro l
  induction l with
  | nil => intro term _ _; exact ⟨term, rfl, by simp, fun _ _ => rfl⟩
  | cons p l ih =>
    intro term hlt hnd
    obtain ⟨v, e⟩ := p
    have hv : v < N := hlt (v, e) (by simp)
    rw [List.map_cons, List.nodup_cons] at hnd
    obtain ⟨u, h1, h2, h3⟩ := ih (Function.update term ⟨v, hv⟩ (T.shrinkExponent ⟨v, hv⟩ e)) (fun p hp => hlt p (by simp [hp])) hnd.2
    refine ⟨u, ?_, fun p hp h => ?_, fun w hw => ?_⟩
    · unfold shrinkInto; rw [dif_pos hv]; exact h1
    · rcases List.mem_cons.1 hp with rfl | hp
      · rw [h3 ⟨v, h⟩ hnd.1, Function.update_self]
      · exact h2 p hp h
    · simp only [List.map_cons, List.mem_cons, not_or] at hw
      rw [h3 w hw.2, Function.update_of_ne]
      intro hc
      exact hw.1 (by rw [hc])

theorem newVars_spec {names : List Text} (hn : names.Nodup) {I : NamedIdeal} (hsub : ∀ x ∈ I.names, x ∈ names) :
    ∃ vars, newVars names I = some vars ∧ vars.length = I.names.length ∧ ∀ (i : ℕ) (hi : i < I.names.length),
      ∃ h : i < vars.length, names[vars[i]]? = some I.names[i] := by
  unfold newVars
  split
  · rename_i h
    refine ⟨_, rfl, by simp, fun i hi => ⟨by simpa using hi, ?_⟩⟩
    rw [List.getElem_range]
    subst h
    exact List.getElem?_eq_getElem hi
  · have key : ∀ l : List Text, (∀ x ∈ l, x ∈ names) → ∃ vars, (l.mapM fun x => names.idxOf? x) = some vars ∧ vars.length = l.length ∧
        ∀ (i : ℕ) (hi : i < l.length), ∃ h : i < vars.length, names[vars[i]]? = some l[i] := by
      intro l
      induction l with
      | nil => intro _; exact ⟨[], rfl, rfl, by simp⟩
      | cons x l ih =>
        intro h
        obtain ⟨vars, h1, h2, h3⟩ := ih fun y hy => h y (by simp [hy])
        obtain ⟨j, hj, hx⟩ := List.mem_iff_getElem.1 (h x (by simp))
        have h4 : names.idxOf? x = some j := (idxOf?_spec hn).2 (by rw [List.getElem?_eq_getElem hj, hx])
        refine ⟨j :: vars, ?_, by simp [h2], fun i hi => ?_⟩
        · rw [List.mapM_cons, h4, h1]; rfl
        · cases i with
          | zero => exact ⟨by simp, by simp [hj, hx]⟩
          | succ i =>
            obtain ⟨h5, h6⟩ := h3 i (by simpa using hi)
            exact ⟨by simpa using h5, by simpa using h6⟩
    exact key I.names hsub

theorem ofGens_shrink_zero (G : List (Term n)) (v : Fin n) : (Translator.ofGens G).shrinkExponent v 0 = 0 := by
  unfold Translator.shrinkExponent Translator.ofGens
  simp only [List.map_append, List.map_cons, List.map_nil, List.dropLast_concat]
  rw [List.length_eq_zero_iff, List.takeWhile_map]
  cases idList (List.map (fun g => g v) G) <;> simp

theorem shrinkNamed_spec {names : List Text} (hn : names.Nodup) {I : NamedIdeal} (hI : I.Ok) (hsub : ∀ x ∈ I.names, x ∈ names)
    (G : List (Term names.length)) : shrinkNamed names (Translator.ofGens G) I =
      some ((Translator.ofGens G).shrinkIdeal (I.terms.map (embed names I))) := by
  obtain ⟨vars, h1, h2, h3⟩ := newVars_spec hn hsub
  unfold shrinkNamed
  rw [h1]
  simp only
  have hvlt : ∀ v ∈ vars, v < names.length := by
    intro v hv
    obtain ⟨i, hi, rfl⟩ := List.mem_iff_getElem.1 hv
    obtain ⟨_, h4⟩ := h3 i (by omega)
    exact (List.getElem?_eq_some_iff.1 h4).1
  have hvnd : vars.Nodup := by
    rw [List.nodup_iff_injective_getElem]
    intro a b hab
    obtain ⟨_, h4⟩ := h3 a (by omega)
    obtain ⟨_, h5⟩ := h3 b (by omega)
    simp only at hab
    rw [hab, h5, Option.some.injEq] at h4
    exact Fin.ext ((hI.nodup.getElem_inj_iff).1 h4.symm)
  have hidx : ∀ (v : Fin names.length) (i : ℕ) (hi : i < vars.length), I.names.idxOf? names[v] = some i ↔ vars[i] = v.val := by
    intro v i hi
    obtain ⟨_, h4⟩ := h3 i (by omega)
    rw [idxOf?_spec hI.nodup, List.getElem?_eq_getElem (by omega), ← h4]
    obtain ⟨h5, h6⟩ := List.getElem?_eq_some_iff.1 h4
    constructor
    · intro h
      obtain ⟨_, h7⟩ := List.getElem?_eq_some_iff.1 h
      exact (hn.getElem_inj_iff).1 h7
    · intro h
      rw [List.getElem?_eq_getElem h5]
      congr 1
      simp [h]
  have key : ∀ (ts : List (List ℕ)) (term : Term names.length), (∀ t ∈ ts, t.length = I.names.length) →
      (∀ v : Fin names.length, v.val ∉ vars → term v = 0) →
      shrinkAll (Translator.ofGens G) vars term ts = some ((Translator.ofGens G).shrinkIdeal (ts.map (embed names I))) := by
    intro ts
    induction ts with
    | nil => intro _ _ _; rfl
    | cons t ts ih =>
      intro term hlen h0
      have htl : t.length = vars.length := by rw [h2]; exact hlen t (by simp)
      have hz : (vars.zip t).map (·.1) = vars := by
        rw [List.map_fst_zip]; omega
      obtain ⟨u, h4, h5, h6⟩ := shrinkInto_spec (Translator.ofGens G) (vars.zip t) term
        (fun p hp => hvlt _ (List.of_mem_zip hp).1) (by rw [hz]; exact hvnd)
      rw [hz] at h6
      have hu : u = fun v => (Translator.ofGens G).shrinkExponent v (embed names I t v) := by
        funext v
        by_cases hv : v.val ∈ vars
        · obtain ⟨i, hi, h7⟩ := List.mem_iff_getElem.1 hv
          have h8 := h5 (vars[i], t[i]'(by omega)) (List.mem_iff_getElem.2 ⟨i, by rw [List.length_zip]; omega, by simp⟩)
            (by simp only [h7]; exact v.isLt)
          have h9 : (⟨vars[i], by rw [h7]; exact v.isLt⟩ : Fin names.length) = v := Fin.ext h7
          simp only [h9] at h8
          rw [h8]
          unfold embed
          rw [(hidx v i hi).2 h7]
          simp only
          rw [List.getD_eq_getElem _ _ (by omega)]
        · rw [h6 v hv, h0 v hv]
          have : embed names I t v = 0 := by
            unfold embed
            cases h7 : I.names.idxOf? names[v] with
            | none => rfl
            | some i =>
              exfalso
              have hi := (List.getElem?_eq_some_iff.1 ((idxOf?_spec hI.nodup).1 h7)).1
              have := (hidx v i (by omega)).1 h7
              exact hv (this ▸ List.getElem_mem _)
          rw [this]
          exact (ofGens_shrink_zero G v).symm
      unfold shrinkAll
      rw [h4]
      simp only
      rw [ih u (fun t ht => hlen t (by simp [ht])) (fun v hv => by rw [h6 v hv, h0 v hv]), hu]
      rfl
  exact key I.terms 0 hI.length fun _ _ => rfl

/-! ## intersection -/

theorem intersectTwo_spec (a b : List (Term n)) :
    (∀ m, mem (intersectTwo a b) m ↔ mem a m ∧ mem b m) ∧ Anti (intersectTwo a b) ∧
      ∀ g ∈ intersectTwo a b, ∃ x ∈ a, ∃ y ∈ b, g = x ⊔ y := by
  have h := minimize_minGens (a.flatMap fun x => b.map fun y => x ⊔ y)
  refine ⟨fun m => ?_, h.anti, fun g hg => ?_⟩
  · unfold intersectTwo
    rw [h.mem_iff]
    constructor
    · rintro ⟨g, hg, hle⟩
      obtain ⟨x, hx, hg⟩ := List.mem_flatMap.1 hg
      obtain ⟨y, hy, rfl⟩ := List.mem_map.1 hg
      exact ⟨⟨x, hx, le_sup_left.trans hle⟩, ⟨y, hy, le_sup_right.trans hle⟩⟩
    · rintro ⟨⟨x, hx, h1⟩, ⟨y, hy, h2⟩⟩
      exact ⟨x ⊔ y, List.mem_flatMap.2 ⟨x, hx, List.mem_map.2 ⟨y, hy, rfl⟩⟩, sup_le h1 h2⟩
  · obtain ⟨x, hx, hg⟩ := List.mem_flatMap.1 (h.subset g hg)
    obtain ⟨y, hy, rfl⟩ := List.mem_map.1 hg
    exact ⟨x, hx, y, hy, rfl⟩

theorem intersectFold_spec (N : Fin n → ℕ) : ∀ (Js : List (List (Term n))) (acc : List (Term n)), Anti acc →
    (∀ g ∈ acc, ∀ v, g v < N v) → (∀ J ∈ Js, ∀ g ∈ J, ∀ v, g v < N v) →
    Anti (Js.foldl (fun acc J => intersectTwo acc (minimize J)) acc) ∧
      (∀ m, mem (Js.foldl (fun acc J => intersectTwo acc (minimize J)) acc) m ↔ mem acc m ∧ ∀ J ∈ Js, mem J m) ∧
      ∀ g ∈ Js.foldl (fun acc J => intersectTwo acc (minimize J)) acc, ∀ v, g v < N v := by
  intro Js
  induction Js with
  | nil => intro acc h1 h2 _; exact ⟨h1, by simp, h2⟩
  | cons J Js ih =>
    intro acc h1 h2 h3
    obtain ⟨h4, h5, h6⟩ := intersectTwo_spec acc (minimize J)
    have hm := minimize_minGens J
    obtain ⟨h7, h8, h9⟩ := ih (intersectTwo acc (minimize J)) h5 (fun g hg v => by
      obtain ⟨x, hx, y, hy, rfl⟩ := h6 g hg
      exact max_lt (h2 x hx v) (h3 J (by simp) y (hm.subset y hy) v)) fun J hJ => h3 J (by simp [hJ])
    rw [List.foldl_cons]
    refine ⟨h7, fun m => ?_, h9⟩
    rw [h8, h4, hm.mem_iff]
    simp [and_assoc]

/-- C28: the intersection of ideals, which may have different variables: its variables are those of the ideals in sorted
order, it consists of the monomials that are in all of the ideals, and the generators are minimal. -/
theorem C28_intersection (Is : List NamedIdeal) (emptyNames : List Text) (hne : Is ≠ []) (hok : ∀ I ∈ Is, I.Ok) :
    ∃ R : NamedIdeal, facadeIntersect Is emptyNames = some (R.names, R.terms.map (List.map Int.ofNat)) ∧ R.Ok ∧ R.Minimal ∧
      (∀ x, x ∈ R.names ↔ ∃ I ∈ Is, x ∈ I.names) ∧ (R.names.Pairwise fun a b => textLess a b = true) ∧
      ∀ m, R.mem m ↔ ∀ I ∈ Is, I.mem m := by
  have hnd := mergedNames_nodup Is
  have hsub : ∀ I ∈ Is, ∀ x ∈ I.names, x ∈ mergedNames Is := fun I hI x hx => (mem_mergedNames Is x).2 ⟨I, hI, hx⟩
  set G := allGens Is with hGdef
  have hT := mergedTranslator_eq Is
  have hmap : ∀ l : List NamedIdeal, (∀ I ∈ l, I ∈ Is) → l.mapM (shrinkNamed (mergedNames Is) (mergedTranslator Is)) =
      some (l.map fun I => (Translator.ofGens G).shrinkIdeal (I.terms.map (embed (mergedNames Is) I))) := by
    intro l
    induction l with
    | nil => intro _; rfl
    | cons I l ih =>
      intro h
      rw [List.mapM_cons, ih fun J hJ => h J (by simp [hJ]), hT, shrinkNamed_spec hnd (hok I (h I (by simp))) (hsub I (h I (by simp))) G]
      rfl
  have hinG : ∀ I ∈ Is, ∀ t ∈ I.terms, embed (mergedNames Is) I t ∈ G := fun I hI t ht =>
    List.mem_flatMap.2 ⟨I, hI, List.mem_map.2 ⟨t, ht, rfl⟩⟩
  obtain ⟨h1, h2, h3⟩ := intersectFold_spec (tNum G)
    (Is.map fun I => (Translator.ofGens G).shrinkIdeal (I.terms.map (embed (mergedNames Is) I))) [0]
    (List.pairwise_singleton _ _) (fun g hg v => by
      rw [List.mem_singleton.1 hg]; exact (tSys G).pos v) (fun J hJ g hg v => by
      obtain ⟨I, hI, rfl⟩ := List.mem_map.1 hJ
      obtain ⟨e, he, rfl⟩ := List.mem_map.1 hg
      obtain ⟨t, ht, rfl⟩ := List.mem_map.1 he
      exact (ofGens_shrink G (hinG I hI t ht) v).1)
  set M := (Is.map fun I => (Translator.ofGens G).shrinkIdeal (I.terms.map (embed (mergedNames Is) I))).foldl
    (fun acc J => intersectTwo acc (minimize J)) [0] with hM
  have htr : ∀ l : List (Term (mergedNames Is).length), (∀ g ∈ l, ∀ v, g v < tNum G v) →
      l.mapM (mergedTranslator Is).translate = some (l.map fun g v => ((tExp G v (g v) : ℕ) : ℤ)) := by
    intro l
    induction l with
    | nil => intro _; rfl
    | cons g l ih =>
      intro h
      have h4 : (mergedTranslator Is).translate g = some fun v => ((tExp G v (g v) : ℕ) : ℤ) := by
        rw [hT]
        unfold Translator.translate
        rw [dif_pos fun v => by
          have := h g (by simp) v
          rw [ofGens_length, ← hGdef]; omega]
        congr 1
        funext v
        exact ofGens_getElem G v _ _
      rw [List.mapM_cons, h4, ih fun g hg => h g (by simp [hg])]
      rfl
  have hR : facadeIntersect Is emptyNames = some (mergedNames Is,
      (M.map fun g => List.ofFn fun v => tExp G v (g v)).map (List.map Int.ofNat)) := by
    unfold facadeIntersect
    rw [if_neg hne, hmap Is fun _ h => h]
    simp only
    rw [← hM, htr M h3]
    simp only [Option.map_some, List.map_map]
    congr 3
    funext g
    simp only [Function.comp_apply, List.map_ofFn]
    rfl
  have hmono : ∀ g ∈ M, ∀ k ∈ M, (∀ v, tExp G v (g v) ≤ tExp G v (k v)) → g ≤ k := by
    intro g hg k hk h
    refine Term.le_def.2 fun v => ?_
    by_contra hlt
    have := (tSys G).mono v (k v) (g v) (by omega) (h3 g hg v)
    have := h v
    omega
  refine ⟨⟨mergedNames Is, M.map fun g => List.ofFn fun v => tExp G v (g v)⟩, hR, ⟨hnd, fun t ht => ?_⟩, ?_,
    mem_mergedNames Is, mergedNames_sorted Is, fun m => ?_⟩
  · obtain ⟨g, _, rfl⟩ := List.mem_map.1 ht
    simp
  · unfold NamedIdeal.Minimal
    rw [List.pairwise_map]
    have hf : ∀ a ∈ M, ∀ b ∈ M, List.Forall₂ (· ≤ ·) (List.ofFn fun v => tExp G v (a v)) (List.ofFn fun v => tExp G v (b v)) → a ≤ b := by
      intro a ha b hb h
      refine hmono a ha b hb fun v => ?_
      rw [List.forall₂_iff_get] at h
      have := h.2 v.val (by simp) (by simp)
      simpa using this
    exact h1.imp_of_mem fun {a b} ha hb h => ⟨fun hc => h.1 (hf a ha b hb hc), fun hc => h.2 (hf b hb a ha hc)⟩
  · have hmT : NamedIdeal.mem ⟨mergedNames Is, M.map fun g => List.ofFn fun v => tExp G v (g v)⟩ m ↔
        mem M (floorId (tExp G) (tNum G) fun v => m (mergedNames Is)[v]) := by
      constructor
      · rintro ⟨t, ht, h4⟩
        obtain ⟨g, hg, rfl⟩ := List.mem_map.1 ht
        refine ⟨g, hg, Term.le_def.2 fun v => (tSys G).le_floor (h3 g hg v) ?_⟩
        have := h4 ((mergedNames Is)[v], tExp G v (g v)) (List.mem_iff_getElem.2 ⟨v.val, by simp, by simp⟩)
        exact this
      · rintro ⟨g, hg, hle⟩
        refine ⟨_, List.mem_map.2 ⟨g, hg, rfl⟩, ?_⟩
        rintro ⟨x, e⟩ hp
        obtain ⟨i, hi, h4⟩ := List.mem_iff_getElem.1 hp
        rw [List.getElem_zip, Prod.mk.injEq] at h4
        obtain ⟨rfl, rfl⟩ := h4
        rw [List.length_zip] at hi
        have hi' : i < (mergedNames Is).length := lt_of_lt_of_le hi (min_le_left _ _)
        have h5 := ((tSys G).le_floor_iff (m := fun v => m (mergedNames Is)[v]) (h3 g hg ⟨i, hi'⟩)).1 (hle ⟨i, hi'⟩)
        simpa using h5
    rw [hmT, h2]
    have h0 : mem [0] (floorId (tExp G) (tNum G) fun v => m (mergedNames Is)[v]) := ⟨0, by simp, Term.le_def.2 fun v => Nat.zero_le _⟩
    simp only [h0, true_and, List.forall_mem_map]
    refine forall₂_congr fun I hI => ?_
    constructor
    · rintro ⟨g, hg, hle⟩
      obtain ⟨e, he, rfl⟩ := List.mem_map.1 hg
      obtain ⟨t, ht, rfl⟩ := List.mem_map.1 he
      refine ⟨t, ht, (embed_le (mergedNames Is) (hok I hI) (hsub I hI) ht m).1 (Term.le_def.2 fun v => ?_)⟩
      have h4 := ofGens_shrink G (hinG I hI t ht) v
      have h5 := ((tSys G).le_floor_iff h4.1).1 (hle v)
      rw [h4.2] at h5
      exact h5
    · rintro ⟨t, ht, h4⟩
      have h5 := (embed_le (mergedNames Is) (hok I hI) (hsub I hI) ht m).2 h4
      refine ⟨_, List.mem_map.2 ⟨_, List.mem_map.2 ⟨t, ht, rfl⟩, rfl⟩, Term.le_def.2 fun v => ?_⟩
      have h6 := ofGens_shrink G (hinG I hI t ht) v
      refine (tSys G).le_floor h6.1 ?_
      rw [h6.2]
      exact h5 v

/-- C28: the intersection of no ideals is the whole ring. -/
theorem C28_empty (emptyNames : List Text) (h : emptyNames.Nodup) :
    ∃ R : NamedIdeal, facadeIntersect [] emptyNames = some (R.names, R.terms.map (List.map Int.ofNat)) ∧ R.Ok ∧ R.Minimal ∧
      R.names = emptyNames ∧ ∀ m, R.mem m := by
  refine ⟨⟨emptyNames, [List.replicate emptyNames.length 0]⟩, ?_, ⟨h, by simp⟩, List.pairwise_singleton _ _, rfl, fun m => ?_⟩
  · simp [facadeIntersect]
  · refine ⟨_, List.mem_singleton.2 rfl, fun p hp => ?_⟩
    have := List.eq_of_mem_replicate (List.of_mem_zip (a := p.1) (b := p.2) hp).2
    omega

/-- The monomial of a generator. -/
def monomialOf (names : List Text) (t : List ℕ) (x : Text) : ℕ :=
  match names.idxOf? x with
  | none => 0
  | some i => t.getD i 0

theorem le_monomialOf {names : List Text} (hn : names.Nodup) {s t : List ℕ} (hs : s.length = names.length)
    (ht : t.length = names.length) : (∀ p ∈ names.zip s, p.2 ≤ monomialOf names t p.1) ↔ List.Forall₂ (· ≤ ·) s t := by
  rw [List.forall₂_iff_get]
  constructor
  · intro h
    refine ⟨by omega, fun i h1 h2 => ?_⟩
    have h3 := h (names[i]'(by omega), s[i]) (List.mem_iff_getElem.2 ⟨i, by rw [List.length_zip]; omega, by simp⟩)
    unfold monomialOf at h3
    simp only [VarNames.idxOf?_getElem hn (show i < names.length by omega), List.getD_eq_getElem _ _ h2] at h3
    exact h3
  · rintro ⟨_, h⟩ ⟨x, e⟩ hp
    obtain ⟨i, hi, h4⟩ := List.mem_iff_getElem.1 hp
    rw [List.getElem_zip, Prod.mk.injEq] at h4
    obtain ⟨rfl, rfl⟩ := h4
    rw [List.length_zip] at hi
    unfold monomialOf
    simp only [VarNames.idxOf?_getElem hn (show i < names.length by omega), List.getD_eq_getElem _ _ (show i < t.length by omega)]
    exact h i (by omega) (by omega)

theorem forall₂_le_antisymm {s t : List ℕ} (h1 : List.Forall₂ (· ≤ ·) s t) (h2 : List.Forall₂ (· ≤ ·) t s) : s = t := by
  induction h1 with
  | nil => rfl
  | cons h _ ih =>
    cases h2 with
    | cons h' h2 => rw [ih h2, le_antisymm h h']

/-- Minimal generators are determined by the ideal. -/
theorem NamedIdeal.minimal_unique {R S : NamedIdeal} (hR : R.Ok) (hS : S.Ok) (hRm : R.Minimal) (hn : R.names = S.names)
    (hmem : ∀ m, R.mem m ↔ S.mem m) : ∀ t ∈ R.terms, t ∈ S.terms := by
  have key : ∀ {R S : NamedIdeal}, R.Ok → S.Ok → R.names = S.names → (∀ m, R.mem m ↔ S.mem m) → ∀ t ∈ R.terms,
      ∃ s ∈ S.terms, List.Forall₂ (· ≤ ·) s t := by
    intro R S hR hS hn hmem t ht
    obtain ⟨s, hs, h⟩ := (hmem (monomialOf R.names t)).1 ⟨t, ht, (le_monomialOf hR.nodup (hR.length t ht) (hR.length t ht)).2
      (List.forall₂_refl t)⟩
    rw [← hn] at h
    exact ⟨s, hs, (le_monomialOf hR.nodup (by rw [hn]; exact hS.length s hs) (hR.length t ht)).1 h⟩
  intro t ht
  obtain ⟨s, hs, h1⟩ := key hR hS hn hmem t ht
  obtain ⟨r, hr, h2⟩ := key hS hR hn.symm (fun m => (hmem m).symm) s hs
  have h3 : List.Forall₂ (· ≤ ·) r t := by
    rw [List.forall₂_iff_get] at h1 h2 ⊢
    exact ⟨h2.1.trans h1.1, fun i ha hb => (h2.2 i ha (by omega)).trans (h1.2 i (by omega) hb)⟩
  have h4 : r = t := by
    by_contra hne
    have : Std.Symm (fun a b : List ℕ => ¬ List.Forall₂ (· ≤ ·) a b ∧ ¬ List.Forall₂ (· ≤ ·) b a) := ⟨fun a b h => ⟨h.2, h.1⟩⟩
    exact (List.Pairwise.forall hRm hr ht hne).1 h3
  subst h4
  rw [forall₂_le_antisymm h2 h1]
  exact hs

/-- C28: the result does not depend on the order of the ideals, except for the order of the generators. -/
theorem C28_comm (Is Is' : List NamedIdeal) (e e' : List Text) (hne : Is ≠ []) (hok : ∀ I ∈ Is, I.Ok) (hp : Is.Perm Is') :
    ∃ N ts ts', facadeIntersect Is e = some (N, ts) ∧ facadeIntersect Is' e' = some (N, ts') ∧ ∀ t, t ∈ ts ↔ t ∈ ts' := by
  obtain ⟨R, h1, h2, h3, h4, h5, h6⟩ := C28_intersection Is e hne hok
  obtain ⟨R', h1', h2', h3', h4', h5', h6'⟩ := C28_intersection Is' e' (fun h => hne (by rw [h] at hp; exact hp.eq_nil))
    fun I hI => hok I (hp.mem_iff.2 hI)
  have hnames : R.names = R'.names := by
    refine List.Perm.eq_of_pairwise ?_ h5 h5' ((List.perm_ext_iff_of_nodup h2.nodup h2'.nodup).2 fun x => ?_)
    · intro a b _ _ hab hba
      rw [negOn_text.asymm a b trivial trivial hab] at hba
      simp at hba
    · rw [h4, h4']
      simp only [hp.mem_iff]
  have hmem : ∀ m, R.mem m ↔ R'.mem m := fun m => by
    rw [h6, h6']; simp only [hp.mem_iff]
  refine ⟨R.names, _, _, h1, by rw [h1', hnames], fun t => ?_⟩
  simp only [List.mem_map]
  constructor
  · rintro ⟨s, hs, rfl⟩
    exact ⟨s, NamedIdeal.minimal_unique h2 h2' h3 hnames hmem s hs, rfl⟩
  · rintro ⟨s, hs, rfl⟩
    exact ⟨s, NamedIdeal.minimal_unique h2' h2 h3' hnames.symm (fun m => (hmem m).symm) s hs, rfl⟩

/-! Concrete cases. -/

/-- `⟨x^2, xy⟩ ∩ ⟨y^1000, z⟩` with the variables in different orders. -/
example : facadeIntersect [⟨["y".toList, "x".toList], [[0, 2], [1, 1]]⟩, ⟨["z".toList, "y".toList], [[0, 1000], [1, 0]]⟩] [] =
    some (["x".toList, "y".toList, "z".toList], [[1, 1, 1], [1, 1000, 0], [2, 0, 1]]) := by
  decide +kernel

/-- A variable that is only in one of the ideals. -/
example : NamedIdeal.Ok ⟨["y".toList, "x".toList], [[0, 2], [1, 1]]⟩ ∧ NamedIdeal.Ok ⟨["z".toList, "y".toList], [[0, 1000], [1, 0]]⟩ :=
  ⟨⟨by decide, by decide⟩, ⟨by decide, by decide⟩⟩

end Frobby
