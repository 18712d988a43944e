import Verif.DegreeChoiceLemmas
import Mathlib.Data.Fin.VecNotation

/-!
# The degrees that pivots depend on are the documented ones
-/

namespace Frobby.DegreeChoice

open Frobby Term

variable {n : ℕ}

/-- Generators for the examples: `x²y`, `x²z³`, `x²w`, `y⁴z³`, `z³w⁴`. The degree `x²` occurs three times, and so does `z³`. -/
def sample : List (Term 4) := [![2, 1, 0, 0], ![2, 0, 3, 0], ![2, 0, 0, 1], ![0, 4, 3, 0], ![0, 0, 3, 4]]

/-- **C86**: the typical exponent is one that occurs most often, and its count is how often. -/
theorem C86_typical (J : List (Term n)) :
    Chosen (fun v e => (at' J v e).length) (typicalExponent J).2.1 (typicalExponent J).2.2 := by
  have hlen : ∀ v e, (at' J v e).length = J.countP fun g => decide (g v = e) := fun v e => by
    rw [List.countP_eq_length_filter]; rfl
  obtain ⟨h1, h2, h3⟩ := typicalExponent_upper J
  refine ⟨fun v e he => (hlen v e).trans_le (h1 v e he), h2, fun v e hx => ?_⟩
  obtain ⟨h4, h5⟩ := (typicalExponent_spec J).2 (v, e) hx
  have h6 := h1 v e h4
  have h7 := h3 (by rw [hx]; simp)
  simp only at h5
  refine ⟨h4, ?_, ?_⟩
  · exact (le_antisymm h5 h6).trans (hlen v e).symm
  · exact (h7.trans_le h5).trans_eq (hlen v e).symm

example : (typicalExponent sample).2 = (3, some (0, 2)) := by decide +kernel

/-- **C86**: the most non-generic degree is one that most non-generic pairs share, and its count is how many do. -/
theorem C86_most (J : List (Term n)) (hJ : J.Nodup) : Chosen (pairs J) (mostNonGeneric J).2.1 (mostNonGeneric J).2.2 := by
  refine Max.chosen (J := J) (fun v e h => ?_) (Max.vars (J := J) (W := pairs J)
    (fun H v best b => if b.1 = 0 ∨ b.2.length * (b.2.length + 1) / 2 ≤ best.1 then best
          else if pairCount H b.2 > best.1 then (pairCount H b.2, some (v, b.1)) else best)
    (fun H v hp _ e best => ?_) (List.finRange n) (fun _ _ => False) (J, 0, none) (List.Perm.refl _) ⟨by simp, by simp, by simp⟩)
  · by_contra hc
    push Not at hc
    have : at' J v e = [] := List.filter_eq_nil_iff.2 fun g hg => by simpa using hc g hg
    exact h (by unfold pairs; rw [this]; simp)
  · simp only
    rw [pairCount_pairs hp hJ]
    have hle := pairCount_le H (at' H v e)
    rw [pairCount_pairs hp hJ] at hle
    generalize (at' H v e).length * ((at' H v e).length + 1) = m at hle ⊢
    by_cases he : e = 0
    · simp [he]
    · by_cases hm : m / 2 ≤ best.1
      · rw [if_pos (Or.inr hm), if_neg (by omega)]
      · rw [if_neg (by omega)]
        by_cases hgt : pairs J v e > best.1
        · rw [if_pos hgt, if_pos ⟨he, hgt⟩]
        · rw [if_neg hgt, if_neg (fun h => hgt h.2)]

example : (mostNonGeneric sample).2 = (3, some (0, 2)) := by decide +kernel

/-- **C86**: the typical non-generic degree is one that occurs most often among those that are non-generic, and its count is how
often. -/
theorem C86_typicalNG (J : List (Term n)) (hJ : J.Nodup) :
    Chosen (fun v e => if NGDegree J v e then (at' J v e).length else 0) (typicalNonGeneric J).2.1 (typicalNonGeneric J).2.2 := by
  refine Max.chosen (J := J) (fun v e h => ?_) (Max.vars (J := J)
    (W := fun v e => if NGDegree J v e then (at' J v e).length else 0)
    (fun H v best b => if b.1 = 0 ∨ b.2.length ≤ best.1 then best
          else if anyPair H b.2 then (b.2.length, some (v, b.1)) else best)
    (fun H v hp _ e best => ?_) (List.finRange n) (fun _ _ => False) (J, 0, none) (List.Perm.refl _) ⟨by simp, by simp, by simp⟩)
  · by_contra hc
    push Not at hc
    have : at' J v e = [] := List.filter_eq_nil_iff.2 fun g hg => by simpa using hc g hg
    exact h (by simp [this])
  · simp only
    have hn : (at' H v e).Nodup := (hp.nodup_iff.2 hJ).filter _
    have hq := at_perm hp v e
    rw [hq.length_eq]
    have hany : anyPair H (at' H v e) = true ↔ ∃ a ∈ at' J v e, ∃ b ∈ at' J v e, a ≠ b ∧ NG J a b := by
      rw [anyPair_iff hp hn]
      simp only [hq.mem_iff]
    by_cases he : e = 0
    · simp [he]
    · by_cases hng : NGDegree J v e
      · have h1 : anyPair H (at' H v e) = true := hany.2 hng.2
        rw [if_pos hng, h1]
        by_cases hm : (at' J v e).length ≤ best.1
        · rw [if_pos (Or.inr hm), if_neg (by omega)]
        · rw [if_neg (by omega), if_pos rfl, if_pos ⟨he, by omega⟩]
      · have h1 : ¬ anyPair H (at' H v e) = true := fun h => hng ⟨he, hany.1 h⟩
        rw [if_neg hng, if_neg h1, ite_self, if_neg (by omega)]

example : (typicalNonGeneric sample).2 = (3, some (0, 2)) := by decide +kernel

/-- **C86**: the non-generic degree that is found is one, and if none is found then there is none. -/
theorem C86_some (J : List (Term n)) (hJ : J.Nodup) :
    (∀ v e, (someNonGeneric J).2 = some (v, e) → NGDegree J v e) ∧ ((someNonGeneric J).2 = none → ∀ v e, ¬ NGDegree J v e) := by
  suffices ∀ (vs : List (Fin n)) (y : List (Term n) × Option (Fin n × ℕ)), y.1.Perm J →
      (∀ v e, y.2 = some (v, e) → NGDegree J v e) →
      let r := vs.foldl (fun x v =>
        match x.2 with
        | some _ => x
        | none =>
          let H := singleDegreeSort v x.1
          (H, ((blocks v H.length H).find? fun b => decide (b.1 ≠ 0) && anyPair H b.2).map fun b => (v, b.1))) y
      (∀ v e, r.2 = some (v, e) → NGDegree J v e) ∧ (r.2 = none → y.2 = none ∧ ∀ v ∈ vs, ∀ e, ¬ NGDegree J v e) by
    obtain ⟨h1, h2⟩ := this (List.finRange n) (J, none) (List.Perm.refl _) (by simp)
    exact ⟨h1, fun h v => (h2 h).2 v (List.mem_finRange v)⟩
  intro vs
  induction vs with
  | nil => intro y _ h; exact ⟨h, fun h => ⟨h, by simp⟩⟩
  | cons v vs ih =>
    intro y hy h
    simp only [List.foldl_cons]
    cases hy2 : y.2 with
    | some x =>
      simp only
      obtain ⟨h1, h2⟩ := ih y hy h
      refine ⟨h1, fun hr => ?_⟩
      have := (h2 hr).1
      rw [hy2] at this
      simp at this
    | none =>
      simp only
      have hp : (singleDegreeSort v y.1).Perm J := (singleDegreeSort_perm v y.1).trans hy
      obtain ⟨hb1, hb2⟩ := blocks_filter v _ _ (le_refl _) (singleDegreeSort_sorted v y.1)
      set H := singleDegreeSort v y.1
      have hany : ∀ e, anyPair H (at' H v e) = true ↔ ∃ a ∈ at' J v e, ∃ b ∈ at' J v e, a ≠ b ∧ NG J a b := by
        intro e
        have hn : (at' H v e).Nodup := (hp.nodup_iff.2 hJ).filter _
        rw [anyPair_iff hp hn]
        simp only [(at_perm hp v e).mem_iff]
      have hih := ih (H, ((blocks v H.length H).find? fun b : ℕ × List (Term n) => decide (b.1 ≠ 0) && anyPair H b.2).map
          fun b : ℕ × List (Term n) => (v, b.1)) hp (by
        intro u e hx
        obtain ⟨b, hb, he⟩ := Option.map_eq_some_iff.1 hx
        simp only [Prod.mk.injEq] at he
        obtain ⟨rfl, rfl⟩ := he
        have h3 := List.find?_some hb
        rw [Bool.and_eq_true, decide_eq_true_eq, (hb1 b (List.mem_of_find?_eq_some hb)).1] at h3
        exact ⟨h3.1, (hany b.1).1 h3.2⟩)
      obtain ⟨h1, h2⟩ := hih
      refine ⟨h1, fun hr => ⟨trivial, fun u hu e hng => ?_⟩⟩
      obtain ⟨h3, h4⟩ := h2 hr
      rcases List.mem_cons.1 hu with rfl | hu
      · obtain ⟨he, a, ha, _⟩ := id hng
        have hav : a ∈ J ∧ a u = e := by simpa [at'] using ha
        obtain ⟨b, hb, hbe⟩ := hb2 a (hp.mem_iff.2 hav.1)
        have hbe' : b.1 = e := hbe.trans hav.2
        have h5 := List.find?_eq_none.1 (Option.map_eq_none_iff.1 h3) b hb
        apply h5
        rw [Bool.and_eq_true, decide_eq_true_eq, (hb1 b hb).1, hbe']
        exact ⟨he, (hany e).2 hng.2⟩
      · exact h4 u hu e hng

example : (someNonGeneric sample).2 = some (0, 2) := by decide +kernel

/-- A degree that occurs twice without being non-generic: `xyz` strictly divides the lcm of `x²y²` and `x²z²`. -/
example : (typicalExponent [![2, 2, 0], ![2, 0, 2], (![1, 1, 1] : Term 3)]).2 = (2, some (0, 2)) ∧
    (mostNonGeneric [![2, 2, 0], ![2, 0, 2], (![1, 1, 1] : Term 3)]).2 = (0, none) ∧
    (someNonGeneric [![2, 2, 0], ![2, 0, 2], (![1, 1, 1] : Term 3)]).2 = none := by decide +kernel

/-- **C86**: `gcd` selects the greatest common divisor of the generators with the degree. -/
theorem C86_gcd (J H : List (Term n)) (v : Fin n) (e : ℕ) (p : Term n) (h : at' J v e ≠ [])
    (hr : BSelect.run J v e .gcd = some (H, p)) : IsGcd (at' J v e) p := by
  simp only [BSelect.run, Option.some.injEq, Prod.mk.injEq] at hr
  obtain ⟨_, rfl⟩ := hr
  exact ⟨fun g hg => gcdOf_le hg, fun q hq => le_gcdOf h hq⟩

example : (BSelect.run sample 0 2 .gcd).map Prod.snd = some ![2, 0, 0, 0] := by decide +kernel

/-- **C86**: `tight` selects a pivot that removes one of the generators of each non-generic pair with the degree, and that is divisible
by the greatest common divisor of the generators with the degree, or is the degree if there is no such pair. -/
theorem C86_tight (J H : List (Term n)) (v : Fin n) (e : ℕ) (p : Term n)
    (hr : BSelect.run J v e .tight = some (H, p)) :
    (∀ a ∈ at' J v e, ∀ b ∈ at' J v e, a ≠ b → NG J a b → p ≤ a ∨ p ≤ b) ∧
    ((∀ q, (∀ g ∈ at' J v e, q ≤ g) → q ≤ p) ∨ p = single v e) := by
  simp only [BSelect.run] at hr
  have hp := singleDegreeSort_perm v J
  have hs := singleDegreeSort_sorted v J
  generalize singleDegreeSort v J = K at hr hp hs
  cases hd : K.dropWhile (fun g => decide (g v ≠ e)) with
  | nil => rw [hd] at hr; simp at hr
  | cons g gs =>
    rw [hd] at hr
    simp only [Option.some.injEq, Prod.mk.injEq] at hr
    obtain ⟨rfl, rfl⟩ := hr
    have hge : g v = e := by
      have h1 := List.head?_dropWhile_not (fun g : Term n => decide (g v ≠ e)) K
      rw [hd] at h1
      simpa using h1
    have hsuf : (g :: gs).Pairwise (fun a b => a v ≤ b v) := hd ▸ hs.sublist (List.dropWhile_sublist _)
    have hblock : (g :: gs.takeWhile fun h => decide (h v = e)) = at' K v e := by
      have h1 := (while_filter v e (g :: gs) hsuf (fun x hx => by
        rcases List.mem_cons.1 hx with rfl | hx
        · exact hge.ge
        · exact hge ▸ (List.pairwise_cons.1 hsuf).1 x hx)).1
      rw [List.takeWhile_cons_of_pos (by simpa using hge)] at h1
      rw [h1]
      unfold at'
      conv_rhs => rw [← List.takeWhile_append_dropWhile (p := fun g : Term n => decide (g v ≠ e)) (l := K), hd,
        List.filter_append]
      have h2 : (K.takeWhile fun g => decide (g v ≠ e)).filter (fun g => decide (g v = e)) = [] := by
        rw [List.filter_eq_nil_iff]
        intro x hx
        simpa using List.mem_takeWhile_imp hx
      rw [h2, List.nil_append]
    rw [hblock]
    have hq := at_perm hp v e
    constructor
    · intro a ha b hb hne hng
      have hsym : ∀ x ∈ at' K v e, ∀ y ∈ at' K v e, x ≠ y → (nonGeneric K x y = true →
          ∃ r, tightLoop K none (at' K v e) = some r ∧ (r ≤ x ∨ r ≤ y)) := by
        have h3 : (at' K v e).Pairwise fun x y => nonGeneric K x y = true →
            ∃ r, tightLoop K none (at' K v e) = some r ∧ (r ≤ x ∨ r ≤ y) := by
          have : ∀ (l : List (Term n)) (acc : Option (Term n)), l.Pairwise fun x y => nonGeneric K x y = true →
              ∃ r, tightLoop K acc l = some r ∧ (r ≤ x ∨ r ≤ y) := fun l acc =>
            (tightLoop_pairs K l acc).imp fun h hh => by
              obtain ⟨r, h4, h5⟩ := h hh
              exact ⟨r, h4, Or.inl h5⟩
          exact this _ _
        have hsy : Std.Symm fun x y => nonGeneric K x y = true →
            ∃ r, tightLoop K none (at' K v e) = some r ∧ (r ≤ x ∨ r ≤ y) := ⟨fun x y h hh => by
          obtain ⟨r, h4, h5⟩ := h ((nonGeneric_iff hp _ _).2 (((nonGeneric_iff hp _ _).1 hh).symm))
          exact ⟨r, h4, h5.symm⟩⟩
        intro x hx y hy hxy
        exact h3.forall hx hy hxy
      obtain ⟨r, h4, h5⟩ := hsym a (hq.mem_iff.2 ha) b (hq.mem_iff.2 hb) hne ((nonGeneric_iff hp _ _).2 hng)
      rw [h4]
      exact h5
    · cases ht : tightLoop K none (at' K v e) with
      | none => exact Or.inr rfl
      | some r =>
        left
        intro q hall
        exact tightLoop_ge K q _ none (fun x hx => hall x (hq.mem_iff.1 hx)) (by simp) r ht

example : (BSelect.run sample 0 2 .tight).map Prod.snd = some ![2, 0, 0, 0] := by decide +kernel

end Frobby.DegreeChoice
