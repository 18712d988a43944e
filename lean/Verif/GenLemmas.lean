import Verif.RookLemmas
import Verif.MatchingLemmas
import Verif.PrimaryLemmas
import Verif.PropsFrob
import Mathlib.Data.Fintype.Fin
import Mathlib.Data.Fintype.Pi
import Mathlib.Data.Fintype.Prod
import Mathlib.Data.Fintype.Powerset

/-! # Lemmas on the generators of data -/

namespace Frobby

variable {n : ℕ}

/-! ## Bit patterns -/

/-- The number with the given bits, the lowest first. -/
def bitsValue : List Bool → ℕ
  | [] => 0
  | b :: l => (if b then 1 else 0) + 2 * bitsValue l

theorem bitsValue_lt : ∀ l : List Bool, bitsValue l < 2 ^ l.length
  | [] => by simp [bitsValue]
  | b :: l => by
    have := bitsValue_lt l
    rw [bitsValue, List.length_cons, pow_succ]
    split <;> omega

theorem nextBitPattern_none : ∀ {l : List Bool}, nextBitPattern l = none → bitsValue l + 1 = 2 ^ l.length
  | [], _ => by simp [bitsValue]
  | false :: l, h => by simp [nextBitPattern] at h
  | true :: l, h => by
    simp only [nextBitPattern, Option.map_eq_none_iff] at h
    have := nextBitPattern_none h
    rw [bitsValue, List.length_cons, pow_succ, if_pos rfl]
    omega

theorem nextBitPattern_some : ∀ {l l' : List Bool}, nextBitPattern l = some l' → l'.length = l.length ∧ bitsValue l' = bitsValue l + 1
  | [], l', h => by simp [nextBitPattern] at h
  | false :: l, l', h => by
    simp only [nextBitPattern, Option.some.injEq] at h
    subst h
    simp [bitsValue]; omega
  | true :: l, l', h => by
    simp only [nextBitPattern, Option.map_eq_some_iff] at h
    obtain ⟨m, h, rfl⟩ := h
    obtain ⟨h1, h2⟩ := nextBitPattern_some h
    simp [bitsValue, h1, h2]; omega

theorem bitsValue_inj : ∀ {l l' : List Bool}, l.length = l'.length → bitsValue l = bitsValue l' → l = l'
  | [], [], _, _ => rfl
  | [], _ :: _, h, _ => by simp at h
  | _ :: _, [], h, _ => by simp at h
  | a :: l, b :: l', h, hv => by
    simp only [bitsValue] at hv
    have h1 : a = b := by cases a <;> cases b <;> simp at hv ⊢ <;> omega
    subst h1
    rw [bitsValue_inj (by simpa using h) (by omega : bitsValue l = bitsValue l')]

theorem bitsValue_replicate : ∀ n, bitsValue (List.replicate n false) = 0
  | 0 => rfl
  | n + 1 => by simp [List.replicate_succ, bitsValue, bitsValue_replicate n]

/-- The loop goes through the patterns with larger numbers, once each. -/
theorem treeLoop_spec (n : ℕ) : ∀ (r : ℕ) (p : List Bool), p.length = n → bitsValue p + r + 1 = 2 ^ n →
    ∃ ps : List (List Bool), (∀ fuel, treeLoop n (fuel + (r + 1)) p = some (ps.map (treeTerm n))) ∧ ps.Nodup ∧
      ∀ q, q ∈ ps ↔ q.length = n ∧ bitsValue p < bitsValue q := by
  intro r
  induction r with
  | zero =>
    intro p hp hv
    have hn : nextBitPattern p = none := by
      cases h : nextBitPattern p with
      | none => rfl
      | some p' =>
        obtain ⟨h1, h2⟩ := nextBitPattern_some h
        have := bitsValue_lt p'
        rw [h1, hp] at this
        omega
    refine ⟨[], fun fuel => by rw [treeLoop, hn]; rfl, List.nodup_nil, fun q => ?_⟩
    simp only [List.not_mem_nil, false_iff, not_and]
    intro hq
    have := bitsValue_lt q
    rw [hq] at this
    omega
  | succ r ih =>
    intro p hp hv
    cases h : nextBitPattern p with
    | none =>
      have := nextBitPattern_none h
      rw [hp] at this
      omega
    | some p' =>
      obtain ⟨h1, h2⟩ := nextBitPattern_some h
      obtain ⟨ps, h3, h4, h5⟩ := ih p' (h1.trans hp) (by omega)
      refine ⟨p' :: ps, fun fuel => ?_, ?_, fun q => ?_⟩
      · rw [show fuel + (r + 1 + 1) = (fuel + (r + 1)) + 1 by omega, treeLoop, h]
        simp only [h3]
        rfl
      · rw [List.nodup_cons]
        refine ⟨fun h => ?_, h4⟩
        have := (h5 p').1 h
        omega
      · rw [List.mem_cons, h5]
        constructor
        · rintro (rfl | ⟨h6, h7⟩)
          · exact ⟨h1.trans hp, by omega⟩
          · exact ⟨h6, by omega⟩
        · rintro ⟨h6, h7⟩
          by_cases h8 : bitsValue q = bitsValue p'
          · exact Or.inl (bitsValue_inj (by omega) h8)
          · exact Or.inr ⟨h6, by omega⟩

theorem count_ofFn_true : ∀ {n : ℕ} (f : Fin n → Bool), (List.ofFn f).count true = (Finset.univ.filter fun i => f i = true).card
  | 0, f => by simp
  | n + 1, f => by
    rw [List.ofFn_succ, List.count_cons, count_ofFn_true, Fin.card_filter_univ_succ]
    by_cases h : f 0 = true
    · simp [h]
    · simp [h]

theorem treeTerm_ofFn (F : Finset (Fin n)) :
    treeTerm n (List.ofFn fun i => decide (i ∈ F)) = fun i => if i ∈ F then n - F.card + 1 else 0 := by
  funext i
  have h : (List.ofFn fun i => decide (i ∈ F)).getD i false = decide (i ∈ F) := by
    simp [List.getD_eq_getElem?_getD]
  have h2 : (Finset.univ.filter fun i => decide (i ∈ F) = true) = F := by ext; simp
  rw [treeTerm, h, count_ofFn_true, h2]
  simp

theorem exists_finset_of_bits {q : List Bool} (hq : q.length = n) : ∃ F : Finset (Fin n), q = List.ofFn fun i => decide (i ∈ F) := by
  subst hq
  refine ⟨Finset.univ.filter fun i => q[i] = true, ?_⟩
  apply List.ext_getElem
  · simp
  · intro i h1 h2
    simp

theorem bitsValue_pos {q : List Bool} (hq : q.length = n) : 0 < bitsValue q ↔ q ≠ List.replicate n false := by
  constructor
  · rintro h rfl
    rw [bitsValue_replicate] at h
    omega
  · intro h
    by_contra hc
    exact h (bitsValue_inj (by simp [hq]) (by rw [bitsValue_replicate]; omega))

end Frobby
