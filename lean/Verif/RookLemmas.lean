import Verif.GenModel
import Mathlib.Tactic.Linarith
import Mathlib.Tactic.Ring
import Mathlib.Data.List.Nodup
import Mathlib.Data.Fintype.Card

/-! # Lemmas on the search for placements of rooks -/

namespace Frobby

open Classical

/-- What the search finds from a level on, with `d` levels left. -/
def rookOut (k : ℕ) : ℕ → ℕ → (ℕ → Bool) → (ℕ → ℕ) → List (ℕ → ℕ)
  | 0, _, _, term => [term]
  | d + 1, l, taken, term => (List.range' 0 k).flatMap fun c =>
      if taken c then [] else rookOut k d (l + 1) (Function.update taken c true) (Function.update term (l * k + c) 1)

/-- The loop goes from one state to another and finds the given terms on the way. -/
def RookGo (n k : ℕ) (s : RookState) (outs : List (ℕ → ℕ)) (s' : RookState) : Prop :=
  ∃ m, ∀ fuel, rookLoop n k (fuel + m) s = (rookLoop n k fuel s').map fun l => (outs.map fun t (i : Fin (n * k)) => t i) ++ l

theorem RookGo.refl {n k : ℕ} (s : RookState) : RookGo n k s [] s := ⟨0, fun fuel => by simp⟩

theorem RookGo.trans {n k : ℕ} {s s' s'' : RookState} {o o' : List (ℕ → ℕ)} (h : RookGo n k s o s') (h' : RookGo n k s' o' s'') :
    RookGo n k s (o ++ o') s'' := by
  obtain ⟨m, hm⟩ := h
  obtain ⟨m', hm'⟩ := h'
  refine ⟨m' + m, fun fuel => ?_⟩
  rw [← Nat.add_assoc, hm, hm']
  cases rookLoop n k fuel s'' <;> simp

theorem rook_go {n k : ℕ} : ∀ (d l : ℕ), l + d + 1 = n → ∀ (r c : ℕ), c + r = k → ∀ s : RookState, s.level = l → s.choice l = c →
    (∀ x, l * k ≤ x → s.term x = 0) →
    ∃ ch : ℕ → ℕ, (∀ j < l, ch j = s.choice j) ∧ ch l = k ∧
      RookGo n k s ((List.range' c r).flatMap fun c => if s.taken c then [] else
        rookOut k d (l + 1) (Function.update s.taken c true) (Function.update s.term (l * k + c) 1))
        { s with choice := ch } := by
  intro d
  induction d with
  | zero =>
    intro l hl r
    induction r with
    | zero =>
      intro c hc s hs hsc _
      exact ⟨s.choice, fun _ _ => rfl, by omega, RookGo.refl s⟩
    | succ r ih =>
      intro c hc s hs hsc h0
      obtain ⟨taken, choice, level, term⟩ := s
      simp only at hs hsc h0
      subst hs hsc
      have hup : Function.update (Function.update term (level * k + choice level) 1) (level * k + choice level) 0 = term := by
        rw [Function.update_idem]; exact Function.update_eq_self_iff.2 (h0 _ (by omega)).symm
      obtain ⟨ch, h1, h2, h3⟩ := ih (choice level + 1) (by omega) ⟨taken, Function.update choice level (choice level + 1), level, term⟩
        rfl (by simp) h0
      refine ⟨ch, fun j hj => ?_, h2, ?_⟩
      · rw [h1 j hj]; exact Function.update_of_ne (by omega) _ _
      by_cases ht : taken (choice level) = true
      · have : RookGo n k ⟨taken, choice, level, term⟩ [] ⟨taken, Function.update choice level (choice level + 1), level, term⟩ := by
          refine ⟨1, fun fuel => ?_⟩
          rw [rookLoop, if_neg (by simp only; omega), if_neg (by simp only; omega), if_pos ht]
          simp
        have := this.trans h3
        simpa [List.range'_succ, ht] using this
      · have ht' : taken (choice level) = false := by simpa using ht
        have hut : Function.update (Function.update taken (choice level) true) (choice level) false = taken := by
          rw [Function.update_idem]; exact Function.update_eq_self_iff.2 ht'.symm
        have : RookGo n k ⟨taken, choice, level, term⟩ [Function.update term (level * k + choice level) 1]
            ⟨taken, Function.update choice level (choice level + 1), level, term⟩ := by
          refine ⟨1, fun fuel => ?_⟩
          rw [rookLoop, if_neg (by simp only; omega), if_neg (by simp only; omega), if_neg ht, if_neg (by simp only; omega)]
          simp only [hup, hut]
          simp
        have := this.trans h3
        simpa [List.range'_succ, ht, rookOut] using this
  | succ d ihd =>
    intro l hl r
    induction r with
    | zero =>
      intro c hc s hs hsc _
      exact ⟨s.choice, fun _ _ => rfl, by omega, RookGo.refl s⟩
    | succ r ih =>
      intro c hc s hs hsc h0
      obtain ⟨taken, choice, level, term⟩ := s
      simp only at hs hsc h0
      subst hs hsc
      obtain ⟨ch, h1, h2, h3⟩ := ih (choice level + 1) (by omega) ⟨taken, Function.update choice level (choice level + 1), level, term⟩
        rfl (by simp) h0
      by_cases ht : taken (choice level) = true
      · refine ⟨ch, fun j hj => ?_, h2, ?_⟩
        · rw [h1 j hj]; exact Function.update_of_ne (by omega) _ _
        have : RookGo n k ⟨taken, choice, level, term⟩ [] ⟨taken, Function.update choice level (choice level + 1), level, term⟩ := by
          refine ⟨1, fun fuel => ?_⟩
          rw [rookLoop, if_neg (by simp only; omega), if_neg (by simp only; omega), if_pos ht]
          simp
        have := this.trans h3
        simpa [List.range'_succ, ht] using this
      · clear ch h1 h2 h3
        have ht' : taken (choice level) = false := by simpa using ht
        have hup : Function.update (Function.update term (level * k + choice level) 1) (level * k + choice level) 0 = term := by
          rw [Function.update_idem]; exact Function.update_eq_self_iff.2 (h0 _ (by omega)).symm
        have hut : Function.update (Function.update taken (choice level) true) (choice level) false = taken := by
          rw [Function.update_idem]; exact Function.update_eq_self_iff.2 ht'.symm
        have hlk : (level + 1) * k = level * k + k := by ring
        obtain ⟨ch, h1, h2, h3⟩ := ihd (level + 1) (by omega) k 0 (by omega) ⟨Function.update taken (choice level) true,
          Function.update choice (level + 1) 0, level + 1, Function.update term (level * k + choice level) 1⟩ rfl (by simp)
          (fun x hx => by
            simp only
            rw [Function.update_of_ne (by omega)]
            exact h0 x (by omega))
        simp only at h1
        have hcl : ch level = choice level := by rw [h1 level (by omega), Function.update_of_ne (by omega)]
        have g1 : RookGo n k ⟨taken, choice, level, term⟩ [] ⟨Function.update taken (choice level) true,
          Function.update choice (level + 1) 0, level + 1, Function.update term (level * k + choice level) 1⟩ := by
          refine ⟨1, fun fuel => ?_⟩
          rw [rookLoop, if_neg (by simp only; omega), if_neg (by simp only; omega), if_neg ht, if_pos (by simp only; omega)]
          simp
        have g2 : RookGo n k ⟨Function.update taken (choice level) true, ch, level + 1, Function.update term (level * k + choice level) 1⟩ []
            ⟨taken, Function.update ch level (choice level + 1), level, term⟩ := by
          refine ⟨1, fun fuel => ?_⟩
          rw [rookLoop, if_neg (by simp only; omega), if_pos (by simpa using h2), if_neg (by simp)]
          simp only [Nat.add_sub_cancel, hcl]
          rw [if_neg (by omega)]
          simp only [hup, hut]
          simp
        obtain ⟨ch', h1', h2', h3'⟩ := ih (choice level + 1) (by omega) ⟨taken, Function.update ch level (choice level + 1), level, term⟩
          rfl (by simp) h0
        refine ⟨ch', fun j hj => ?_, h2', ?_⟩
        · rw [h1' j hj]
          simp only
          rw [Function.update_of_ne (by omega), h1 j (by omega), Function.update_of_ne (by omega)]
        have := (g1.trans (h3.trans g2)).trans h3'
        simp only [List.nil_append, List.append_nil] at this
        rw [List.range'_succ, List.flatMap_cons]
        simp only [ht', Bool.false_eq_true, if_false]
        exact this

/-- The terms found: one for each way of choosing different free columns for the levels left. -/
theorem mem_rookOut {k : ℕ} : ∀ (d l : ℕ) (taken : ℕ → Bool) (term t : ℕ → ℕ), t ∈ rookOut k d l taken term ↔
    ∃ f : ℕ → ℕ, (∀ i, l ≤ i → i < l + d → f i < k ∧ taken (f i) = false) ∧
      (∀ i j, l ≤ i → i < j → j < l + d → f i ≠ f j) ∧
      t = fun x => if ∃ i, l ≤ i ∧ i < l + d ∧ x = i * k + f i then 1 else term x := by
  intro d
  induction d with
  | zero =>
    intro l taken term t
    simp only [rookOut, List.mem_singleton, Nat.add_zero]
    constructor
    · rintro rfl
      refine ⟨fun _ => 0, fun i _ _ => by omega, fun i j _ _ _ => by omega, ?_⟩
      funext x
      rw [if_neg]
      rintro ⟨i, _, _, _⟩
      omega
    · rintro ⟨f, _, _, rfl⟩
      funext x
      rw [if_neg]
      rintro ⟨i, _, _, _⟩
      omega
  | succ d ih =>
    intro l taken term t
    simp only [rookOut, List.mem_flatMap, List.mem_range'_1]
    constructor
    · rintro ⟨c, ⟨-, hc⟩, h⟩
      by_cases ht : taken c = true
      · simp [ht] at h
      rw [if_neg ht, ih] at h
      obtain ⟨f, h1, h2, rfl⟩ := h
      refine ⟨fun i => if i = l then c else f i, fun i hi hi' => ?_, fun i j hi hij hj => ?_, ?_⟩
      · by_cases h : i = l
        · simp only [h, if_true]; exact ⟨by omega, by simpa using ht⟩
        · simp only [h, if_false]
          obtain ⟨h3, h4⟩ := h1 i (by omega) (by omega)
          refine ⟨h3, ?_⟩
          by_cases h5 : f i = c
          · simp [h5] at h4
          · rwa [Function.update_of_ne h5] at h4
      · simp only
        rw [if_neg (by omega : ¬ j = l)]
        by_cases h : i = l
        · simp only [h, if_true]
          rintro h5
          have := (h1 j (by omega) (by omega)).2
          simp [← h5] at this
        · simp only [h, if_false]
          exact h2 i j (by omega) hij (by omega)
      · funext x
        by_cases h : ∃ i, l + 1 ≤ i ∧ i < l + 1 + d ∧ x = i * k + f i
        · obtain ⟨i, h5, h6, h7⟩ := h
          rw [if_pos ⟨i, h5, h6, h7⟩, if_pos ⟨i, by omega, by omega, by simp only; rw [if_neg (by omega)]; exact h7⟩]
        · rw [if_neg h]
          by_cases h8 : x = l * k + c
          · rw [h8, Function.update_self, if_pos ⟨l, by omega, by omega, by simp⟩]
          · rw [Function.update_of_ne h8, if_neg]
            rintro ⟨i, h5, h6, h7⟩
            by_cases h9 : i = l
            · simp only [h9, if_true] at h7; exact h8 h7
            · simp only [h9, if_false] at h7; exact h ⟨i, by omega, by omega, h7⟩
    · rintro ⟨f, h1, h2, rfl⟩
      obtain ⟨h3, h4⟩ := h1 l le_rfl (by omega)
      refine ⟨f l, by omega, ?_⟩
      rw [h4, if_neg (by simp), ih]
      refine ⟨f, fun i hi hi' => ?_, fun i j hi hij hj => h2 i j (by omega) hij (by omega), ?_⟩
      · obtain ⟨h5, h6⟩ := h1 i (by omega) (by omega)
        refine ⟨h5, ?_⟩
        rw [Function.update_of_ne (h2 l i le_rfl (by omega) (by omega)).symm, h6]
      · funext x
        by_cases h : ∃ i, l + 1 ≤ i ∧ i < l + 1 + d ∧ x = i * k + f i
        · obtain ⟨i, h5, h6, h7⟩ := h
          rw [if_pos (⟨i, by omega, by omega, h7⟩ : ∃ i, l ≤ i ∧ i < l + (d + 1) ∧ x = i * k + f i), if_pos ⟨i, h5, h6, h7⟩]
        · rw [if_neg h]
          by_cases h8 : x = l * k + f l
          · rw [if_pos ⟨l, by omega, by omega, h8⟩, h8, Function.update_self]
          · rw [if_neg, Function.update_of_ne h8]
            rintro ⟨i, h5, h6, h7⟩
            by_cases h9 : i = l
            · subst h9; exact h8 h7
            · exact h ⟨i, by omega, by omega, h7⟩

theorem mul_add_inj {k i j a b : ℕ} (ha : a < k) (hb : b < k) (h : i * k + a = j * k + b) : i = j ∧ a = b := by
  have h1 : (i * k + a) / k = i := by rw [Nat.mul_comm, Nat.mul_add_div (by omega), Nat.div_eq_of_lt ha]; rfl
  have h2 : (j * k + b) / k = j := by rw [Nat.mul_comm, Nat.mul_add_div (by omega), Nat.div_eq_of_lt hb]; rfl
  have : i = j := by rw [← h1, h, h2]
  subst this
  exact ⟨rfl, by omega⟩

theorem nodup_rookOut {k : ℕ} : ∀ (d l : ℕ) (taken : ℕ → Bool) (term : ℕ → ℕ), (∀ x, l * k ≤ x → term x = 0) →
    (rookOut k d l taken term).Nodup := by
  intro d
  induction d with
  | zero => intro l taken term _; simp [rookOut]
  | succ d ih =>
    intro l taken term h0
    have hlk : (l + 1) * k = l * k + k := by ring
    rw [rookOut, List.nodup_flatMap]
    refine ⟨fun c hc => ?_, ?_⟩
    · simp only [List.mem_range'_1] at hc
      split
      · simp
      · exact ih _ _ _ fun x hx => by rw [Function.update_of_ne (by omega)]; exact h0 x (by omega)
    · refine (List.nodup_range' (s := 0) (n := k)).pairwise_of_forall_ne ?_
      intro c hc c' hc' hne t ht ht'
      simp only [List.mem_range'_1] at hc hc'
      simp only at ht ht'
      by_cases h1 : taken c = true
      · simp [h1] at ht
      by_cases h2 : taken c' = true
      · simp [h2] at ht'
      rw [if_neg h1, mem_rookOut] at ht
      rw [if_neg h2, mem_rookOut] at ht'
      obtain ⟨f, h3, -, rfl⟩ := ht
      obtain ⟨f', h3', -, h5⟩ := ht'
      have := congrFun h5 (l * k + c)
      rw [if_neg, Function.update_self, if_neg, Function.update_of_ne (by omega), h0 _ (by omega)] at this
      · omega
      · rintro ⟨i, h6, h7, h8⟩
        obtain ⟨h9, -⟩ := mul_add_inj (by omega) (h3' i h6 h7).1 h8
        omega
      · rintro ⟨i, h6, h7, h8⟩
        obtain ⟨h9, -⟩ := mul_add_inj (by omega) (h3 i h6 h7).1 h8
        omega

/-- What the search finds, from the start. -/
theorem rookLoop_spec {n k : ℕ} (hn : 0 < n) : ∃ m, ∀ fuel, rookLoop n k (fuel + m) ⟨fun _ => false, fun _ => 0, 0, fun _ => 0⟩ =
    some ((rookOut k n 0 (fun _ => false) fun _ => 0).map fun t (i : Fin (n * k)) => t i) := by
  obtain ⟨ch, -, h2, m, hm⟩ := rook_go (n := n) (k := k) (n - 1) 0 (by omega) k 0 (by omega) ⟨fun _ => false, fun _ => 0, 0, fun _ => 0⟩
    rfl rfl (fun _ _ => rfl)
  refine ⟨1 + m, fun fuel => ?_⟩
  rw [← Nat.add_assoc, hm, rookLoop, if_neg (by simp only [h2]; omega), if_pos h2, if_pos rfl]
  obtain ⟨d, rfl⟩ : ∃ d, n = d + 1 := ⟨n - 1, by omega⟩
  simp [rookOut, Nat.add_sub_cancel]

end Frobby
