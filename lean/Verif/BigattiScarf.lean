import Verif.BigattiPivot
import Verif.HilbertTop
import Mathlib.Algebra.BigOperators.Ring.Finset
import Mathlib.Tactic.Ring

/-!
# Lemmas about the base cases of the algorithm of Bigatti et al.
-/

namespace Frobby

open Term

variable {n : ℕ}

/-- The sign as an integer. -/
def sg (plus : Bool) : ℤ := if plus then 1 else -1

theorem sg_not (b : Bool) : sg (!b) = - sg b := by cases b <;> rfl

/-- The terms output, as a polynomial. -/
def BOut.toTerm : BOut n → List (ℤ × Term n)
  | .term plus t => [(sg plus, t)]
  | .poly _ _ => []

/-- Only terms are output. -/
def BOut.isTerm : BOut n → Prop
  | .term _ _ => True
  | .poly _ _ => False

/-- The polynomial that is output. -/
def polyOf (outs : List (BOut n)) : List (ℤ × Term n) := outs.flatMap BOut.toTerm

theorem polyOf_append (a b : List (BOut n)) : polyOf (a ++ b) = polyOf a ++ polyOf b := by simp [polyOf]

theorem polyOf_cons_term (plus : Bool) (t : Term n) (l : List (BOut n)) :
    polyOf (.term plus t :: l) = (sg plus, t) :: polyOf l := rfl

theorem polyOf_nil : polyOf ([] : List (BOut n)) = [] := rfl

/-- What a state contributes to the series. -/
def contrib (s : BState n) (x : Term n) : ℤ := if s.multiply ≤ x ∧ ¬ mem s.ideal (x - s.multiply) then 1 else 0

/-- What base cases output: terms that are at most `L`, with the series of the state. -/
structure GoodOut (L : Term n) (f : Term n → ℤ) (outs : List (BOut n)) : Prop where
  isTerm : ∀ o ∈ outs, o.isTerm
  le : ∀ x ∈ polyOf outs, x.2 ≤ L
  series : ∀ x, seriesCoef (polyOf outs) x = f x

theorem GoodOut.append {L : Term n} {f g : Term n → ℤ} {a b : List (BOut n)} (ha : GoodOut L f a) (hb : GoodOut L g b) :
    GoodOut L (fun x => f x + g x) (a ++ b) := by
  refine ⟨fun o ho => ?_, fun x hx => ?_, fun x => ?_⟩
  · rcases List.mem_append.1 ho with h | h
    · exact ha.isTerm o h
    · exact hb.isTerm o h
  · rw [polyOf_append] at hx
    rcases List.mem_append.1 hx with h | h
    · exact ha.le x h
    · exact hb.le x h
  · rw [polyOf_append, seriesCoef_append, ha.series, hb.series]

/-! ## the simple base case -/

theorem add_le_iff' {m a x : Term n} : m + a ≤ x ↔ m ≤ x ∧ a ≤ x - m := by
  simp only [le_def, Pi.add_apply, Pi.sub_apply]
  constructor
  · intro h
    exact ⟨fun i => by have := h i; omega, fun i => by have := h i; omega⟩
  · rintro ⟨h1, h2⟩ i
    have := h1 i
    have := h2 i
    omega

theorem simpleBase_spec {L : Term n} {s : BState n} (hL : s.multiply + lcmOf s.ideal ≤ L) {outs : List (BOut n)}
    (h : simpleBase s = some outs) : GoodOut L (contrib s) outs := by
  obtain ⟨m, J⟩ := s
  have hm : m ≤ L := le_trans (Term.le_def.2 fun i => by simp) hL
  have hle : ∀ t ≤ lcmOf J, m + t ≤ L := fun t ht => le_trans (add_le_add (le_refl _) ht) hL
  unfold simpleBase at h
  simp only at h hL
  match J, h, hle with
  | [], h, _ =>
    simp only [Option.some.injEq] at h
    subst h
    refine ⟨by simp [BOut.isTerm], by simp [polyOf, BOut.toTerm, hm], fun x => ?_⟩
    simp only [polyOf_cons_term, polyOf_nil, seriesCoef_cons, seriesCoef_nil, contrib, mem, sg]
    by_cases h1 : m ≤ x <;> simp [h1]
  | [a], h, hle =>
    simp only [Option.some.injEq] at h
    subst h
    have ha := hle a (le_lcmOf (by simp))
    refine ⟨by simp [BOut.isTerm], by simp [polyOf, BOut.toTerm, hm, ha], fun x => ?_⟩
    simp only [polyOf_cons_term, polyOf_nil, seriesCoef_cons, seriesCoef_nil, contrib, mem, sg, add_le_iff']
    by_cases h1 : m ≤ x <;> by_cases h2 : a ≤ x - m <;> simp [h1, h2]
  | [a, b], h, hle =>
    simp only [Option.some.injEq] at h
    subst h
    have ha := hle a (le_lcmOf (by simp))
    have hb := hle b (le_lcmOf (by simp))
    have hab := hle (a ⊔ b) (sup_le (le_lcmOf (by simp)) (le_lcmOf (by simp)))
    rw [add_comm] at hab
    refine ⟨by simp [BOut.isTerm], by simp [polyOf, BOut.toTerm, hm, ha, hb, hab], fun x => ?_⟩
    simp only [polyOf_cons_term, polyOf_nil, seriesCoef_cons, seriesCoef_nil, contrib, mem, sg, add_comm (a ⊔ b) m,
      add_le_iff', sup_le_iff]
    by_cases h1 : m ≤ x <;> by_cases h2 : a ≤ x - m <;> by_cases h3 : b ≤ x - m <;> simp [h1, h2, h3]
  | _ :: _ :: _ :: _, h, _ => simp at h

theorem simpleBase_none {s : BState n} (h : simpleBase s = none) : 3 ≤ s.ideal.length := by
  obtain ⟨m, J⟩ := s
  unfold simpleBase at h
  simp only at h ⊢
  match J, h with
  | [], h => simp at h
  | [_], h => simp at h
  | [_, _], h => simp at h
  | _ :: _ :: _ :: _, _ => simp

/-! ## the enumeration of faces -/

/-- The faces as a recursion over the generators left. -/
def faces (G : List (Term n)) (all : Bool) (m : Term n) : Bool → Term n → List (Term n) → List (BOut n)
  | plus, t, [] => [.term plus (t + m)]
  | plus, t, g :: gs =>
    (if all || !strictlyContains G (t ⊔ g) then faces G all m (!plus) (t ⊔ g) gs else []) ++ faces G all m plus t gs

theorem scarfLoop_faces (G : List (Term n)) (all : Bool) (m : Term n) (needed : ℕ) :
    ∀ (rest : List (Term n)) (plus : Bool) (t : Term n) (stack : List (ScarfState n)) (f : ℕ) (outs : List (BOut n)),
      stack.length + 1 + rest.length ≤ needed →
      (∀ f', f ≤ f' → scarfLoop G all m needed f' stack = some outs) →
      ∀ f', f + (2 ^ (rest.length + 1) - 1) ≤ f' →
        scarfLoop G all m needed f' (⟨plus, t, rest⟩ :: stack) = some (faces G all m plus t rest ++ outs) := by
  intro rest
  induction rest with
  | nil =>
    intro plus t stack f outs _ h f' hf'
    obtain ⟨k, rfl⟩ : ∃ k, f' = k + 1 := ⟨f' - 1, by simp at hf'; omega⟩
    have := h k (by simp at hf'; omega)
    simp [scarfLoop, faces, this]
  | cons g gs ih =>
    intro plus t stack f outs hlen h f' hf'
    have hpow : 2 ^ ((g :: gs).length + 1) = 2 * 2 ^ (gs.length + 1) := by rw [List.length_cons, pow_succ]; ring
    have hpos : 0 < 2 ^ (gs.length + 1) := Nat.pos_of_ne_zero (by positivity)
    rw [hpow] at hf'
    obtain ⟨k, rfl⟩ : ∃ k, f' = k + 1 := ⟨f' - 1, by omega⟩
    simp only [List.length_cons] at hlen
    unfold scarfLoop
    simp only
    rw [if_pos (by omega)]
    have h1 := ih plus t stack f outs (by omega) h
    unfold faces
    by_cases hc : (all || !strictlyContains G (t ⊔ g)) = true
    · rw [if_pos hc, if_pos hc, List.append_assoc]
      exact ih (!plus) (t ⊔ g) (⟨plus, t, gs⟩ :: stack) _ _ (by simp only [List.length_cons]; omega) h1 k (by omega)
    · rw [if_neg hc, if_neg hc, List.nil_append]
      exact h1 k (by omega)

theorem scarf_faces (s : BState n) (all : Bool) :
    scarfLoop s.ideal all s.multiply (s.ideal.length + 1) (2 ^ (s.ideal.length + 1)) [⟨true, 0, s.ideal⟩] =
      some (faces s.ideal all s.multiply true 0 s.ideal) := by
  have hpos : 0 < 2 ^ (s.ideal.length + 1) := Nat.pos_of_ne_zero (by positivity)
  have := scarfLoop_faces s.ideal all s.multiply (s.ideal.length + 1) s.ideal true 0 [] 1 [] (by simp; omega)
    (fun f' hf' => by obtain ⟨k, rfl⟩ : ∃ k, f' = k + 1 := ⟨f' - 1, by omega⟩; simp [scarfLoop])
    (2 ^ (s.ideal.length + 1)) (by omega)
  simpa using this

theorem faces_isTerm (G : List (Term n)) (all : Bool) (m : Term n) : ∀ (rest : List (Term n)) (plus : Bool) (t : Term n),
    ∀ o ∈ faces G all m plus t rest, o.isTerm := by
  intro rest
  induction rest with
  | nil => intro plus t o ho; simp only [faces, List.mem_singleton] at ho; subst ho; trivial
  | cons g gs ih =>
    intro plus t o ho
    unfold faces at ho
    rcases List.mem_append.1 ho with h | h
    · split at h
      · exact ih _ _ o h
      · simp at h
    · exact ih _ _ o h

theorem faces_le (G : List (Term n)) (all : Bool) {m l : Term n} : ∀ (rest : List (Term n)) (plus : Bool) (t : Term n),
    t ≤ l → (∀ g ∈ rest, g ≤ l) → ∀ x ∈ polyOf (faces G all m plus t rest), x.2 ≤ l + m := by
  intro rest
  induction rest with
  | nil =>
    intro plus t ht _ x hx
    simp only [faces, polyOf_cons_term, polyOf_nil, List.mem_singleton] at hx
    subst hx
    exact add_le_add ht (le_refl _)
  | cons g gs ih =>
    intro plus t ht hr x hx
    unfold faces at hx
    rw [polyOf_append] at hx
    rcases List.mem_append.1 hx with h | h
    · split at h
      · exact ih _ _ (sup_le ht (hr g (by simp))) (fun k hk => hr k (by simp [hk])) x h
      · simp [polyOf] at h
    · exact ih _ _ ht (fun k hk => hr k (by simp [hk])) x h

theorem faces_all (G : List (Term n)) (m x : Term n) : ∀ (rest : List (Term n)) (plus : Bool) (t : Term n),
    seriesCoef (polyOf (faces G true m plus t rest)) x =
      if t + m ≤ x ∧ ∀ g ∈ rest, ¬ g ≤ x - m then sg plus else 0 := by
  intro rest
  induction rest with
  | nil => intro plus t; simp [faces, polyOf_cons_term, polyOf_nil, seriesCoef_cons, seriesCoef_nil]
  | cons g gs ih =>
    intro plus t
    unfold faces
    rw [if_pos (by simp), polyOf_append, seriesCoef_append, ih, ih, sg_not]
    simp only [add_comm (t ⊔ g) m, add_comm t m, add_le_iff', sup_le_iff, List.forall_mem_cons]
    by_cases h1 : m ≤ x <;> by_cases h2 : t ≤ x - m <;> by_cases h3 : g ≤ x - m <;>
      by_cases h4 : ∀ a ∈ gs, ¬ a ≤ x - m <;> simp [h1, h2, h3, h4]
    simp only [if_pos h4]; simp

/-! ## leaving out the faces with a generator strictly dividing the lcm -/

theorem strictlyContains_iff {G : List (Term n)} {t : Term n} : strictlyContains G t = true ↔ ∃ g ∈ G, strictlyDivides g t := by
  simp [strictlyContains]

theorem strictlyDivides_mono {c a b : Term n} (h : strictlyDivides c a) (hab : a ≤ b) : strictlyDivides c b := by
  refine ⟨fun i => ?_, fun hb => h.2 ?_⟩
  · have := le_def.1 hab i
    rcases h.1 i with h | h
    · left; omega
    · right; exact h
  · rw [hb] at hab; exact le_antisymm hab (Term.le_def.2 fun i => Nat.zero_le _)

theorem strictlyContains_mono {G : List (Term n)} {a b : Term n} (hab : a ≤ b) (h : strictlyContains G a = true) :
    strictlyContains G b = true := by
  rw [strictlyContains_iff] at h ⊢
  obtain ⟨g, hg, h⟩ := h
  exact ⟨g, hg, strictlyDivides_mono h hab⟩

/-- The lcm of a set of monomials. -/
def setLcm (S : Finset (Term n)) : Term n := S.sup id

/-- What the face `S` adds to the series at `x`. -/
def faceTerm (m x t : Term n) (S : Finset (Term n)) : ℤ := if t ⊔ setLcm S + m ≤ x then (-1) ^ S.card else 0

theorem setLcm_insert (g : Term n) (S : Finset (Term n)) : setLcm (insert g S) = g ⊔ setLcm S := by
  simp [setLcm]

theorem faces_pruned (G : List (Term n)) (m x : Term n) : ∀ (rest : List (Term n)) (plus : Bool) (t : Term n), rest.Nodup →
    strictlyContains G t = false →
    seriesCoef (polyOf (faces G false m plus t rest)) x =
      sg plus * ∑ S ∈ rest.toFinset.powerset, if strictlyContains G (t ⊔ setLcm S) then 0 else faceTerm m x t S := by
  intro rest
  induction rest with
  | nil =>
    intro plus t _ ht
    simp only [List.toFinset_nil, Finset.powerset_empty, Finset.sum_singleton]
    have : t ⊔ setLcm (∅ : Finset (Term n)) = t := by simp [setLcm]
    rw [this, if_neg (by simp [ht]), faceTerm, this]
    simp [faces, polyOf_cons_term, polyOf_nil, seriesCoef_cons, seriesCoef_nil]
  | cons g gs ih =>
    intro plus t hnd ht
    rw [List.nodup_cons] at hnd
    have hg : g ∉ gs.toFinset := by simpa using hnd.1
    rw [List.toFinset_cons, Finset.sum_powerset_insert hg]
    unfold faces
    rw [polyOf_append, seriesCoef_append, ih plus t hnd.2 ht, mul_add, add_comm]
    congr 1
    have hstep : ∀ S ∈ gs.toFinset.powerset,
        (if strictlyContains G (t ⊔ setLcm (insert g S)) then 0 else faceTerm m x t (insert g S)) =
          - if strictlyContains G (t ⊔ g ⊔ setLcm S) then 0 else faceTerm m x (t ⊔ g) S := by
      intro S hS
      have hgS : g ∉ S := fun h => hg (Finset.mem_powerset.1 hS h)
      rw [setLcm_insert, ← sup_assoc]
      split
      · simp
      · simp only [faceTerm, setLcm_insert, ← sup_assoc, Finset.card_insert_of_notMem hgS, pow_succ]
        split <;> simp
    rw [Finset.sum_congr rfl hstep, Finset.sum_neg_distrib]
    by_cases hc : strictlyContains G (t ⊔ g) = true
    · rw [if_neg (by simp [hc])]
      have : ∑ S ∈ gs.toFinset.powerset, (if strictlyContains G (t ⊔ g ⊔ setLcm S) then 0 else faceTerm m x (t ⊔ g) S) = 0 :=
        Finset.sum_eq_zero fun S _ => if_pos (strictlyContains_mono le_sup_left hc)
      rw [this]; simp [polyOf, seriesCoef_nil]
    · rw [if_pos (by simpa using hc), ih _ _ hnd.2 (by simpa using hc), sg_not]
      ring

theorem sum_faces_all (G : List (Term n)) (hG : G.Nodup) (m x : Term n) :
    ∑ S ∈ G.toFinset.powerset, faceTerm m x 0 S = if m ≤ x ∧ ¬ mem G (x - m) then 1 else 0 := by
  have h := faces_pruned (n := n) [] m x G true 0 hG (by simp [strictlyContains])
  have h2 : ∀ (p : Bool) (t : Term n), faces [] false m p t G = faces [] true m p t G := by
    clear hG h
    induction G with
    | nil => intro p t; rfl
    | cons g gs ih => intro p t; simp [faces, ih, strictlyContains]
  rw [h2, faces_all] at h
  simp only [strictlyContains, List.any_nil, Bool.false_eq_true, if_false, sg, if_true, one_mul] at h
  rw [← h, zero_add]
  refine if_congr (and_congr_right fun _ => ?_) rfl rfl
  simp [mem]

/-- Toggle the membership of `c`. -/
def flip (c : Term n) (S : Finset (Term n)) : Finset (Term n) := if c ∈ S then S.erase c else insert c S

theorem flip_flip (c : Term n) (S : Finset (Term n)) : flip c (flip c S) = S := by
  unfold flip
  by_cases h : c ∈ S
  · simp [h]
  · simp [h]

theorem flip_ne (c : Term n) (S : Finset (Term n)) : flip c S ≠ S := by
  unfold flip
  by_cases h : c ∈ S
  · rw [if_pos h]; intro he; rw [← he] at h; simp at h
  · rw [if_neg h]; intro he; rw [← he] at h; simp at h

theorem le_setLcm {S : Finset (Term n)} {g : Term n} (h : g ∈ S) : g ≤ setLcm S := Finset.le_sup (f := id) h

theorem setLcm_erase {c : Term n} {S : Finset (Term n)} (hc : c ∈ S) (h : strictlyDivides c (setLcm S)) :
    setLcm (S.erase c) = setLcm S := by
  have h1 : setLcm S = c ⊔ setLcm (S.erase c) := by rw [← setLcm_insert, Finset.insert_erase hc]
  rw [h1]
  symm
  rw [sup_eq_right]
  refine le_def.2 fun i => ?_
  rcases h.1 i with h2 | h2
  · rw [h1] at h2
    simp only [Pi.sup_apply] at h2
    rcases lt_max_iff.1 h2 with h3 | h3
    · omega
    · omega
  · omega

theorem setLcm_flip {c : Term n} {S : Finset (Term n)} (h : strictlyDivides c (setLcm S)) : setLcm (flip c S) = setLcm S := by
  unfold flip
  split
  · rename_i hc; exact setLcm_erase hc h
  · rw [setLcm_insert, sup_eq_right]; exact h.le

theorem card_flip (c : Term n) (S : Finset (Term n)) : (-1 : ℤ) ^ (flip c S).card = - (-1) ^ S.card := by
  unfold flip
  split
  · rename_i hc
    rw [← Finset.card_erase_add_one hc, pow_succ]; simp
  · rename_i hc
    rw [Finset.card_insert_of_notMem hc, pow_succ]; simp

/-- The faces that are left out cancel. -/
theorem sum_strict (G : List (Term n)) (m x : Term n) :
    ∑ S ∈ G.toFinset.powerset, (if strictlyContains G (setLcm S) then faceTerm m x 0 S else 0) = 0 := by
  rw [← Finset.sum_filter]
  have hfind : ∀ S ∈ G.toFinset.powerset.filter (fun S => strictlyContains G (setLcm S) = true),
      ∃ c, G.find? (fun c => decide (strictlyDivides c (setLcm S))) = some c := by
    intro S hS
    rw [Finset.mem_filter, strictlyContains_iff] at hS
    obtain ⟨_, g, hg, h⟩ := hS
    rw [← Option.isSome_iff_exists, List.find?_isSome]
    exact ⟨g, hg, by simpa using h⟩
  refine Finset.sum_involution (fun S _ => flip ((G.find? fun c => decide (strictlyDivides c (setLcm S))).getD 0) S)
    ?_ ?_ ?_ ?_
  · intro S hS
    obtain ⟨c, hc⟩ := hfind S hS
    have h := List.find?_some hc
    rw [decide_eq_true_eq] at h
    simp only [hc, Option.getD_some, faceTerm, setLcm_flip h, card_flip]
    split <;> simp
  · intro S _ _
    exact flip_ne _ _
  · intro S hS
    obtain ⟨c, hc⟩ := hfind S hS
    have h := List.find?_some hc
    rw [decide_eq_true_eq] at h
    simp only [hc, Option.getD_some]
    rw [Finset.mem_filter] at hS ⊢
    rw [setLcm_flip h]
    refine ⟨?_, hS.2⟩
    have hcm := List.mem_of_find?_eq_some hc
    have hS1 := Finset.mem_powerset.1 hS.1
    rw [Finset.mem_powerset]
    unfold flip
    split
    · exact (Finset.erase_subset _ _).trans hS1
    · exact Finset.insert_subset (by simpa using hcm) hS1
  · intro S hS
    obtain ⟨c, hc⟩ := hfind S hS
    have h := List.find?_some hc
    rw [decide_eq_true_eq] at h
    simp only [hc, Option.getD_some, setLcm_flip h]
    exact flip_flip _ _

theorem zero_notStrict (G : List (Term n)) : strictlyContains G (0 : Term n) = false := by
  rw [Bool.eq_false_iff]
  intro h
  obtain ⟨g, _, h⟩ := strictlyContains_iff.1 h
  exact h.2 rfl

/-- Both enumerations give the series of the state, for any minimally generated ideal. -/
theorem faces_spec {L : Term n} {s : BState n} (hJ : s.ideal.Nodup) (hL : s.multiply + lcmOf s.ideal ≤ L) (all : Bool) :
    GoodOut L (contrib s) (faces s.ideal all s.multiply true 0 s.ideal) := by
  refine ⟨faces_isTerm _ _ _ _ _ _, fun x hx => ?_, fun x => ?_⟩
  · have := faces_le s.ideal all (m := s.multiply) (l := lcmOf s.ideal) s.ideal true 0 (Term.le_def.2 fun i => Nat.zero_le _)
      (fun g hg => le_lcmOf hg) x hx
    rw [add_comm] at this
    exact this.trans hL
  · cases all with
    | true =>
      rw [faces_all, contrib, zero_add]
      refine if_congr (and_congr_right fun _ => ?_) rfl rfl
      simp [mem]
    | false =>
      rw [faces_pruned _ _ _ _ _ _ hJ (zero_notStrict _), contrib, ← sum_faces_all s.ideal hJ]
      have h := sum_strict s.ideal s.multiply x
      have h2 : ∀ S : Finset (Term n), faceTerm s.multiply x 0 S =
          (if strictlyContains s.ideal (0 ⊔ setLcm S) then 0 else faceTerm s.multiply x 0 S) +
            if strictlyContains s.ideal (setLcm S) then faceTerm s.multiply x 0 S else 0 := by
        intro S
        have : (0 : Term n) ⊔ setLcm S = setLcm S := sup_eq_right.2 (Term.le_def.2 fun i => Nat.zero_le _)
        rw [this]
        split <;> simp
      rw [Finset.sum_congr rfl fun S _ => h2 S, Finset.sum_add_distrib, h]
      simp [sg]

/-! ## the test of the base case -/

theorem uniqueMaxLoop_disjoint {lcm : Term n} : ∀ (l : List (Term n)) (counts : Term n),
    (∀ v, counts v + l.countP (fun g => decide (0 < g v)) ≤ 1) → (∀ g ∈ l, g ≠ 0) →
    (∀ g ∈ l, ∀ v, 0 < g v → g v = lcm v) → uniqueMaxLoop lcm counts l = true := by
  intro l
  induction l with
  | nil => intro _ _ _ _; rfl
  | cons g l ih =>
    intro counts h1 h2 h3
    unfold uniqueMaxLoop
    simp only
    have hc : ∀ v, (if g v = lcm v ∧ 0 < lcm v then counts v + 1 else counts v) +
        l.countP (fun g => decide (0 < g v)) ≤ 1 := by
      intro v
      have := h1 v
      rw [List.countP_cons] at this
      split
      · rename_i hg
        rw [if_pos (by simp; omega)] at this
        omega
      · omega
    rw [if_neg, if_neg]
    · exact ih _ hc (fun k hk => h2 k (by simp [hk])) fun k hk => h3 k (by simp [hk])
    · rw [not_not]
      obtain ⟨v, hv⟩ := exists_ne_zero (h2 g (by simp))
      have := h3 g (by simp) v (Nat.pos_of_ne_zero hv)
      exact ⟨v, this, by omega⟩
    · rintro ⟨v, _, hv⟩
      have := hc v
      omega

theorem uniqueMax_disjoint {J : List (Term n)} (hJ : Anti J) (h2 : 2 ≤ J.length) (hd : ∀ v, supportCounts J v ≤ 1) :
    uniqueMax J = true := by
  have hne : ∀ g ∈ J, g ≠ 0 := by
    rintro g hg rfl
    have : ∀ b ∈ J, b = 0 := fun b hb => (hJ.eq_of_le hg hb (Term.le_def.2 fun i => Nat.zero_le _)).symm
    match J, h2, hJ, this with
    | a :: b :: l, _, hJ, this =>
      have ha := this a (by simp)
      have hb := this b (by simp)
      subst ha
      subst hb
      have := hJ.nodup
      simp at this
  have huniq : ∀ v, ∀ a ∈ J, ∀ b ∈ J, 0 < a v → 0 < b v → a = b := by
    intro v a ha b hb hav hbv
    by_contra hab
    have h3 := hd v
    unfold supportCounts at h3
    obtain ⟨l, hl⟩ := List.perm_cons_erase ha |>.symm |> fun h => (⟨J.erase a, h⟩ : ∃ l, (a :: l).Perm J)
    have hbl : b ∈ l := by
      rcases List.mem_cons.1 (hl.mem_iff.2 hb) with h | h
      · exact absurd h.symm hab
      · exact h
    rw [← hl.countP_eq] at h3
    have := countP_two (P := fun g => decide (0 < g v)) (a := a) (b := b) (l := l) (by simpa using hav) hbl (by simpa using hbv)
    omega
  have hlen : J.length ≤ sizeOfSupport (lcmOf J) := by
    have hf : ∀ g : Term n, ∃ v : Fin n, g ∈ J → g v ≠ 0 := by
      intro g
      by_cases hg : g ∈ J
      · obtain ⟨v, hv⟩ := exists_ne_zero (hne g hg)
        exact ⟨v, fun _ => hv⟩
      · match J, h2, hne with
        | a :: _, _, hne =>
          obtain ⟨v, _⟩ := exists_ne_zero (hne a (by simp))
          exact ⟨v, fun h => absurd h hg⟩
    choose f hf using hf
    rw [← List.toFinset_card_of_nodup hJ.nodup, sizeOfSupport]
    refine Finset.card_le_card_of_injOn f ?_ ?_
    · intro g hg
      have hg : g ∈ J := by simpa using hg
      have h1 := hf g hg
      have h2 := le_def.1 (le_lcmOf hg) (f g)
      simp; omega
    · intro a ha b hb hab
      have ha : a ∈ J := by simpa using ha
      have hb : b ∈ J := by simpa using hb
      refine huniq (f a) a ha b hb (Nat.pos_of_ne_zero (hf a ha)) ?_
      rw [hab]; exact Nat.pos_of_ne_zero (hf b hb)
  have h3 := sizeOfSupport_le (lcmOf J)
  unfold uniqueMax
  rw [Bool.and_eq_true, Bool.and_eq_true, decide_eq_true_eq, decide_eq_true_eq]
  refine ⟨⟨by omega, hlen⟩, uniqueMaxLoop_disjoint J 0 (fun v => ?_) hne fun g hg v hv => ?_⟩
  · have := hd v
    rw [supportCounts] at this
    simpa using this
  · have hle := le_def.1 (le_lcmOf hg) v
    obtain ⟨k, hk, hkv⟩ := lcmOf_attained (G := J) (i := v) (by omega)
    have := huniq v g hg k hk hv (by omega)
    rw [this]; exact hkv

end Frobby
