import Verif.GenModel
import Mathlib.Tactic.Linarith
import Mathlib.Tactic.Ring
import Mathlib.Data.List.Nodup
import Mathlib.Data.Finset.Card
import Mathlib.Data.Finset.Union
import Mathlib.Order.Minimal

/-! # Lemmas on the search for maximal matchings -/

namespace Frobby

open Classical

/-! ## Numbers of edges -/

theorem edgeToVar_lt {a b : ℕ} (h : a < b) : edgeToVar a b = b * (b - 1) / 2 + a := if_pos h

theorem tri_succ (b : ℕ) : (b + 1) * (b + 1 - 1) / 2 = b * (b - 1) / 2 + b := by
  cases b with
  | zero => rfl
  | succ c =>
    have : (c + 1 + 1) * (c + 1 + 1 - 1) = (c + 1) * (c + 1 - 1) + (c + 1) * 2 := by
      simp only [Nat.add_sub_cancel]; ring
    rw [this, Nat.add_mul_div_right _ _ (by omega)]

theorem tri_mono {b c : ℕ} (h : b ≤ c) : b * (b - 1) / 2 ≤ c * (c - 1) / 2 := by
  induction h with
  | refl => exact le_rfl
  | step h ih => rw [tri_succ]; omega

theorem edgeToVar_inj {a b a' b' : ℕ} (h : a < b) (h' : a' < b') (he : edgeToVar a b = edgeToVar a' b') : a = a' ∧ b = b' := by
  rw [edgeToVar_lt h, edgeToVar_lt h'] at he
  rcases lt_trichotomy b b' with hb | hb | hb
  · have := tri_mono (show b + 1 ≤ b' from hb)
    rw [tri_succ] at this
    omega
  · subst hb; omega
  · have := tri_mono (show b' + 1 ≤ b from hb)
    rw [tri_succ] at this
    omega

theorem edgeToVar_lt_count {a b n : ℕ} (h : a < b) (hb : b < n) : edgeToVar a b < n * (n - 1) / 2 := by
  rw [edgeToVar_lt h]
  have := tri_mono (show b + 1 ≤ n from hb)
  rw [tri_succ] at this
  omega

/-! ## Moving to the left and to the right -/

/-- The nodes not taken. -/
def MatchState.free (s : MatchState) (count : ℕ) : List ℕ := (List.range count).filter fun i => (s.nodes i).isNone

theorem filter_range_gt {x count : ℕ} (h : x < count) : (List.range count).filter (fun i => decide (x < i)) = List.range' (x + 1) (count - (x + 1)) := by
  have : List.range count = List.range' 0 (x + 1) ++ List.range' (x + 1) (count - (x + 1)) := by
    rw [List.range_eq_range']
    have := List.range'_append (s := 0) (m := x + 1) (n := count - (x + 1)) (step := 1)
    simp only [Nat.zero_add, Nat.one_mul] at this
    rw [this]
    congr 1
    omega
  rw [this, List.filter_append, List.filter_eq_nil_iff.2, List.filter_eq_self.2, List.nil_append]
  · intro a ha; simp only [List.mem_range'_1] at ha; simp; omega
  · intro a ha; simp only [List.mem_range'_1] at ha; simp; omega

theorem notTakenRight_eq (s : MatchState) {count x : ℕ} (h : x < count) :
    s.notTakenRight count x = ((s.free count).filter fun i => decide (x < i)).headD count := by
  rw [MatchState.notTakenRight, ← List.head?_filter, ← filter_range_gt h, List.filter_comm, List.headD_eq_head?_getD, MatchState.free]

theorem anchorLeft_eq (s : MatchState) {v x : ℕ} (hv : s.isAnchor v = true) (hx : v < x) (hm : ∀ a, s.isAnchor a = true → a ≤ v) :
    s.anchorLeft x = some v := by
  induction x with
  | zero => omega
  | succ x ih =>
    rw [MatchState.anchorLeft, List.range_succ, List.reverse_append, List.reverse_singleton, List.singleton_append, List.find?_cons]
    by_cases h : v = x
    · subst h; simp [hv]
    · have : s.isAnchor x = false := by
        by_contra hc
        have := hm x (by simpa using hc)
        omega
      rw [this]
      exact ih (by omega)

/-! ## The search -/

/-- What the search finds, if the given nodes are not taken. -/
def matchOut : ℕ → List ℕ → (ℕ → ℕ) → List (ℕ → ℕ)
  | _, [], term => [term]
  | 0, _ :: _, _ => []
  | m + 1, v :: rest, term => rest.flatMap fun w => matchOut m (rest.erase w) (Function.update term (edgeToVar v w) 1)

theorem matchOut_nil (m : ℕ) (term : ℕ → ℕ) : matchOut m [] term = [term] := by cases m <;> rfl

/-- The loop goes from one state to another and finds the given terms on the way. -/
def MatchGo (count notUsed : ℕ) (s : MatchState) (v : Option ℕ) (outs : List (ℕ → ℕ)) (s' : MatchState) (v' : Option ℕ) : Prop :=
  ∃ m, ∀ fuel, matchLoop count (fuel + m) s notUsed v =
    (matchLoop count fuel s' notUsed v').map fun l => (outs.map fun t (i : Fin (count * (count - 1) / 2)) => t i) ++ l

theorem MatchGo.trans {count notUsed : ℕ} {s s' s'' : MatchState} {v v' v'' : Option ℕ} {o o' : List (ℕ → ℕ)}
    (h : MatchGo count notUsed s v o s' v') (h' : MatchGo count notUsed s' v' o' s'' v'') : MatchGo count notUsed s v (o ++ o') s'' v'' := by
  obtain ⟨m, hm⟩ := h
  obtain ⟨m', hm'⟩ := h'
  refine ⟨m' + m, fun fuel => ?_⟩
  rw [← Nat.add_assoc, hm, hm']
  cases matchLoop count fuel s'' notUsed v'' <;> simp

theorem MatchGo.step {count notUsed : ℕ} {s : MatchState} {v : ℕ} {s' : MatchState} {v' : Option ℕ} (h : s.step count v = (s', v', false)) :
    MatchGo count notUsed s (some v) [] s' v' :=
  ⟨1, fun fuel => by rw [matchLoop]; simp [h]⟩

theorem MatchGo.step_out {count notUsed : ℕ} {s : MatchState} {v : ℕ} {s' : MatchState} {v' : Option ℕ} (h : s.step count v = (s', v', true)) :
    MatchGo count notUsed s (some v) [s.term] s' v' :=
  ⟨1, fun fuel => by rw [matchLoop]; simp [h]⟩

/-- The invariant of the search. -/
structure MInv (count : ℕ) (s : MatchState) (U : List ℕ) : Prop where
  free : s.free count = U
  anchor : ∀ a, s.isAnchor a = true → a < U.headD count
  zero : ∀ a ∈ U, ∀ b ∈ U, a < b → s.term (edgeToVar a b) = 0

theorem free_sorted (s : MatchState) (count : ℕ) : (s.free count).Pairwise (· < ·) :=
  List.Pairwise.filter _ List.pairwise_lt_range

theorem mem_free {s : MatchState} {count v : ℕ} : v ∈ s.free count ↔ v < count ∧ s.nodes v = none := by
  simp [MatchState.free]

theorem MInv.sorted {count : ℕ} {s : MatchState} {U : List ℕ} (h : MInv count s U) : U.Pairwise (· < ·) := h.free ▸ free_sorted s count

theorem MInv.mem {count : ℕ} {s : MatchState} {U : List ℕ} (h : MInv count s U) {v : ℕ} (hv : v ∈ U) : v < count ∧ s.nodes v = none :=
  mem_free.1 (h.free ▸ hv)

theorem nodup_of_sorted {U : List ℕ} (h : U.Pairwise (· < ·)) : U.Nodup := h.imp fun h => Nat.ne_of_lt h

theorem MInv.take {count v w : ℕ} {s : MatchState} {rest : List ℕ} (h : MInv count s (v :: rest)) (hw : w ∈ rest) :
    MInv count (s.takeEdge v w) (rest.erase w) := by
  have hs := h.sorted
  have hvr := (List.pairwise_cons.1 hs).1
  have hnd := nodup_of_sorted hs
  have hnr := (List.nodup_cons.1 hnd).2
  refine ⟨?_, ?_, ?_⟩
  · rw [hnr.erase_eq_filter]
    have : (s.takeEdge v w).free count = ((s.free count).filter fun i => decide (i ≠ v)).filter fun i => i != w := by
      rw [MatchState.free, MatchState.free, List.filter_filter, List.filter_filter]
      apply List.filter_congr
      intro i _
      simp only [MatchState.takeEdge]
      by_cases h1 : i = w
      · simp [h1]
      · rw [Function.update_of_ne h1]
        by_cases h2 : i = v
        · simp [h2]
        · rw [Function.update_of_ne h2]; simp [h1, h2]
    rw [this, h.free, List.filter_cons_of_neg (by simp)]
    congr 1
    rw [List.filter_eq_self]
    intro a ha
    have := hvr a ha
    simp; omega
  · intro a ha
    have hlt : v < (rest.erase w).headD count := by
      cases hr : rest.erase w with
      | nil => exact (h.mem (List.mem_cons_self)).1
      | cons x l => exact hvr x (List.mem_of_mem_erase (hr ▸ List.mem_cons_self : x ∈ rest.erase w))
    by_cases h1 : a = v
    · rw [h1]; exact hlt
    · simp only [MatchState.takeEdge, Function.update_of_ne h1] at ha
      exact lt_trans (h.anchor a ha) hlt
  · intro a ha b hb hab
    have ha' := (hnr.mem_erase_iff).1 ha
    have hb' := (hnr.mem_erase_iff).1 hb
    simp only [MatchState.takeEdge]
    rw [Function.update_of_ne]
    · exact h.zero a (List.mem_cons_of_mem _ ha'.2) b (List.mem_cons_of_mem _ hb'.2) hab
    · intro he
      have := edgeToVar_inj hab (hvr w hw) he
      exact hb'.1 this.2

theorem drop_take {s : MatchState} {v w : ℕ} (hvw : v ≠ w) (hv : s.nodes v = none) (hw : s.nodes w = none) (ha : s.isAnchor v = false)
    (ht : s.term (edgeToVar v w) = 0) : (s.takeEdge v w).dropEdge v w = s := by
  obtain ⟨nodes, isAnchor, term⟩ := s
  simp only at hv hw ha ht
  simp only [MatchState.takeEdge, MatchState.dropEdge, Function.update_idem, MatchState.mk.injEq]
  refine ⟨?_, ?_, ?_⟩
  · funext i
    by_cases h1 : i = v
    · subst h1; rw [Function.update_self, hv]
    · rw [Function.update_of_ne h1]
      by_cases h2 : i = w
      · subst h2; rw [Function.update_self, hw]
      · rw [Function.update_of_ne h2, Function.update_of_ne h1]
  · exact Function.update_eq_self_iff.2 ha.symm
  · exact Function.update_eq_self_iff.2 ht.symm

theorem filter_gt_of_sorted {pre post : List ℕ} {w : ℕ} (h : (pre ++ w :: post).Pairwise (· < ·)) :
    ((pre ++ w :: post).erase w).filter (fun i => decide (w < i)) = post := by
  have h2 := List.pairwise_append.1 h
  have h3 := List.pairwise_cons.1 h2.2.1
  have hw : w ∉ pre := fun hm => lt_irrefl _ (h2.2.2 w hm w List.mem_cons_self)
  rw [List.erase_append_right _ hw, List.erase_cons_head, List.filter_append, List.filter_eq_nil_iff.2, List.filter_eq_self.2, List.nil_append]
  · intro a ha; simpa using h3.1 a ha
  · intro a ha
    have := h2.2.2 a ha w List.mem_cons_self
    simp; omega

theorem match_go {count notUsed : ℕ} : ∀ (m : ℕ) (U : List ℕ), U.length ≤ m → ∀ s : MatchState, MInv count s U →
    MatchGo count notUsed s (some (U.headD count)) (matchOut m U s.term) s (s.anchorLeft (U.headD count)) := by
  intro m
  induction m with
  | zero =>
    intro U hU s hs
    obtain rfl : U = [] := List.eq_nil_of_length_eq_zero (by omega)
    rw [matchOut_nil]
    exact MatchGo.step_out (by simp [MatchState.step])
  | succ m ih =>
    intro U hU s hs
    cases U with
    | nil => rw [matchOut_nil]; exact MatchGo.step_out (by simp [MatchState.step])
    | cons v rest =>
      simp only [List.headD_cons]
      obtain ⟨hvc, hvn⟩ := hs.mem List.mem_cons_self
      have hsort := hs.sorted
      have hvr := (List.pairwise_cons.1 hsort).1
      have hrs := (List.pairwise_cons.1 hsort).2
      have hav : s.isAnchor v = false := by
        by_contra hc
        have := hs.anchor v (by simpa using hc)
        simp at this
      have inner : ∀ (post pre : List ℕ) (w : ℕ), rest = pre ++ w :: post →
          MatchGo count notUsed (s.takeEdge v w) (some ((rest.erase w).headD count))
            ((w :: post).flatMap fun w => matchOut m (rest.erase w) (Function.update s.term (edgeToVar v w) 1)) s (s.anchorLeft v) := by
        intro post
        induction post with
        | nil =>
          intro pre w hr
          have hw : w ∈ rest := by rw [hr]; simp
          have hT := hs.take hw
          have hlen : (rest.erase w).length ≤ m := by
            rw [List.length_erase_of_mem hw]; simp only [List.length_cons] at hU; omega
          have g := ih _ hlen _ hT
          obtain ⟨hwc, hwn⟩ := hs.mem (List.mem_cons_of_mem v hw)
          rw [anchorLeft_eq (v := v) _ (by simp [MatchState.takeEdge])] at g
          · have g2 : MatchGo count notUsed (s.takeEdge v w) (some v) [] s (s.anchorLeft v) := by
              apply MatchGo.step
              have h1 : (s.takeEdge v w).nodes v = some w := by
                simp only [MatchState.takeEdge]
                rw [Function.update_of_ne (hvr w hw).ne, Function.update_self]
              have h2 : (s.takeEdge v w).notTakenRight count w = count := by
                rw [notTakenRight_eq _ hwc, hT.free, hr, filter_gt_of_sorted (hr ▸ hrs)]; rfl
              rw [MatchState.step, if_neg (by omega), h1]
              simp only [h2, if_true]
              rw [drop_take (hvr w hw).ne hvn hwn hav (hs.zero v List.mem_cons_self w (List.mem_cons_of_mem _ hw) (hvr w hw))]
            have := g.trans g2
            simpa [MatchState.takeEdge] using this
          · cases hx : rest.erase w with
            | nil => exact hvc
            | cons x l => exact hvr x (List.mem_of_mem_erase (hx ▸ List.mem_cons_self : x ∈ rest.erase w))
          · intro a ha
            by_cases h1 : a = v
            · exact h1.le
            · simp only [MatchState.takeEdge, Function.update_of_ne h1] at ha
              have := hs.anchor a ha
              simp at this; omega
        | cons w' post ihp =>
          intro pre w hr
          have hw : w ∈ rest := by rw [hr]; simp
          have hw' : w' ∈ rest := by rw [hr]; simp
          have hT := hs.take hw
          have hlen : (rest.erase w).length ≤ m := by
            rw [List.length_erase_of_mem hw]; simp only [List.length_cons] at hU; omega
          have g := ih _ hlen _ hT
          obtain ⟨hwc, hwn⟩ := hs.mem (List.mem_cons_of_mem v hw)
          obtain ⟨hwc', hwn'⟩ := hs.mem (List.mem_cons_of_mem v hw')
          rw [anchorLeft_eq (v := v) _ (by simp [MatchState.takeEdge])] at g
          · have g2 : MatchGo count notUsed (s.takeEdge v w) (some v) [] (s.takeEdge v w') (some ((rest.erase w').headD count)) := by
              apply MatchGo.step
              have h1 : (s.takeEdge v w).nodes v = some w := by
                simp only [MatchState.takeEdge]
                rw [Function.update_of_ne (hvr w hw).ne, Function.update_self]
              have h2 : (s.takeEdge v w).notTakenRight count w = w' := by
                rw [notTakenRight_eq _ hwc, hT.free, hr, filter_gt_of_sorted (hr ▸ hrs)]; rfl
              rw [MatchState.step, if_neg (by omega), h1]
              simp only [h2]
              rw [if_neg (by omega), drop_take (hvr w hw).ne hvn hwn hav
                (hs.zero v List.mem_cons_self w (List.mem_cons_of_mem _ hw) (hvr w hw)), notTakenRight_eq _ hvc, (hs.take hw').free,
                List.filter_eq_self.2]
              intro a ha
              simpa using hvr a (List.mem_of_mem_erase ha)
            have := (g.trans g2).trans (ihp (pre ++ [w]) w' (by simp [hr]))
            simp only [List.append_nil] at this
            rw [List.flatMap_cons]
            exact this
          · cases hx : rest.erase w with
            | nil => exact hvc
            | cons x l => exact hvr x (List.mem_of_mem_erase (hx ▸ List.mem_cons_self : x ∈ rest.erase w))
          · intro a ha
            by_cases h1 : a = v
            · exact h1.le
            · simp only [MatchState.takeEdge, Function.update_of_ne h1] at ha
              have := hs.anchor a ha
              simp at this; omega
      have hN : s.notTakenRight count v = rest.headD count := by
        rw [notTakenRight_eq _ hvc, hs.free, List.filter_cons_of_neg (by simp), List.filter_eq_self.2]
        intro a ha; simpa using hvr a ha
      cases rest with
      | nil =>
        apply MatchGo.step
        rw [MatchState.step, if_neg (by omega), hvn]
        simp [hN]
      | cons w post =>
        obtain ⟨hwc, hwn⟩ := hs.mem (List.mem_cons_of_mem v List.mem_cons_self)
        have g : MatchGo count notUsed s (some v) [] (s.takeEdge v w) (some (((w :: post).erase w).headD count)) := by
          apply MatchGo.step
          rw [MatchState.step, if_neg (by omega), hvn]
          simp only [hN, List.headD_cons]
          rw [if_neg (by omega), notTakenRight_eq _ hwc, (hs.take List.mem_cons_self).free]
          have := filter_gt_of_sorted (pre := []) hrs
          rw [List.nil_append] at this
          rw [this, List.erase_cons_head]
        exact g.trans (inner post [] w rfl)

/-- A perfect matching of the given nodes. -/
def PerfectOn (U : List ℕ) (M : Finset (ℕ × ℕ)) : Prop :=
  (∀ e ∈ M, e.1 < e.2 ∧ e.1 ∈ U ∧ e.2 ∈ U) ∧
  (∀ u ∈ U, ∃ e ∈ M, u = e.1 ∨ u = e.2) ∧
  ∀ e ∈ M, ∀ e' ∈ M, ∀ u, (u = e.1 ∨ u = e.2) → (u = e'.1 ∨ u = e'.2) → e = e'

theorem PerfectOn.add {v w : ℕ} {rest : List ℕ} {M : Finset (ℕ × ℕ)} (hs : (v :: rest).Pairwise (· < ·)) (hw : w ∈ rest)
    (h : PerfectOn (rest.erase w) M) : PerfectOn (v :: rest) (insert (v, w) M) := by
  have hvr := (List.pairwise_cons.1 hs).1
  have hnr := (List.nodup_cons.1 (nodup_of_sorted hs)).2
  obtain ⟨h1, h2, h3⟩ := h
  have key : ∀ e ∈ M, ∀ u, (u = v ∨ u = w) → ¬ (u = e.1 ∨ u = e.2) := by
    intro e he u hu hc
    obtain ⟨-, h5, h6⟩ := h1 e he
    have h5 := (hnr.mem_erase_iff).1 h5
    have h6 := (hnr.mem_erase_iff).1 h6
    have h7 := hvr _ h5.2
    have h8 := hvr _ h6.2
    have h9 := h5.1
    have h10 := h6.1
    omega
  refine ⟨?_, ?_, ?_⟩
  · intro e he
    rcases Finset.mem_insert.1 he with rfl | he
    · exact ⟨hvr w hw, by simp, List.mem_cons_of_mem _ hw⟩
    · obtain ⟨h4, h5, h6⟩ := h1 e he
      exact ⟨h4, List.mem_cons_of_mem _ (List.mem_of_mem_erase h5), List.mem_cons_of_mem _ (List.mem_of_mem_erase h6)⟩
  · intro u hu
    by_cases huv : u = v ∨ u = w
    · exact ⟨(v, w), by simp, huv⟩
    · have : u ∈ rest.erase w := by
        rw [hnr.mem_erase_iff]
        rcases List.mem_cons.1 hu with h | h
        · exact absurd (Or.inl h) huv
        · exact ⟨fun h' => huv (Or.inr h'), h⟩
      obtain ⟨e, he, heu⟩ := h2 u this
      exact ⟨e, Finset.mem_insert_of_mem he, heu⟩
  · intro e he e' he' u hu hu'
    rcases Finset.mem_insert.1 he with rfl | he <;> rcases Finset.mem_insert.1 he' with rfl | he'
    · rfl
    · exact absurd hu' (key _ he' u hu)
    · exact absurd hu (key _ he u hu')
    · exact h3 e he e' he' u hu hu'

theorem PerfectOn.part {v : ℕ} {rest : List ℕ} {M : Finset (ℕ × ℕ)} (hs : (v :: rest).Pairwise (· < ·)) (h : PerfectOn (v :: rest) M) :
    ∃ w ∈ rest, ∃ M', PerfectOn (rest.erase w) M' ∧ M = insert (v, w) M' := by
  have hvr := (List.pairwise_cons.1 hs).1
  have hnr := (List.nodup_cons.1 (nodup_of_sorted hs)).2
  obtain ⟨h1, h2, h3⟩ := h
  obtain ⟨⟨a, w⟩, he, hev⟩ := h2 v List.mem_cons_self
  obtain ⟨h4, h5, h6⟩ := h1 _ he
  simp only at h4 h5 h6 hev
  have hav : v = a := by
    rcases hev with h | h
    · exact h
    · rcases List.mem_cons.1 h5 with h7 | h7
      · omega
      · have := hvr a h7; omega
  subst hav
  have hw : w ∈ rest := by
    rcases List.mem_cons.1 h6 with h7 | h7
    · omega
    · exact h7
  refine ⟨w, hw, M.erase (v, w), ⟨?_, ?_, ?_⟩, (Finset.insert_erase he).symm⟩
  · intro e hem
    obtain ⟨hne, hem⟩ := Finset.mem_erase.1 hem
    obtain ⟨g1, g2, g3⟩ := h1 e hem
    have k : ∀ u, (u = v ∨ u = w) → ¬ (u = e.1 ∨ u = e.2) := fun u hu hc => hne (h3 _ hem _ he u hc hu)
    have k1 := k v (by simp)
    have k2 := k w (by simp)
    rw [hnr.mem_erase_iff, hnr.mem_erase_iff]
    refine ⟨g1, ⟨by omega, ?_⟩, ⟨by omega, ?_⟩⟩
    · rcases List.mem_cons.1 g2 with h | h
      · omega
      · exact h
    · rcases List.mem_cons.1 g3 with h | h
      · omega
      · exact h
  · intro u hu
    obtain ⟨g1, g2⟩ := (hnr.mem_erase_iff).1 hu
    obtain ⟨e, hem, heu⟩ := h2 u (List.mem_cons_of_mem _ g2)
    refine ⟨e, Finset.mem_erase.2 ⟨?_, hem⟩, heu⟩
    rintro rfl
    have := hvr u g2
    simp only at heu
    omega
  · intro e hem e' hem' u hu hu'
    exact h3 e (Finset.mem_of_mem_erase hem) e' (Finset.mem_of_mem_erase hem') u hu hu'

/-- The terms found: one for each perfect matching. -/
theorem mem_matchOut : ∀ (m : ℕ) (U : List ℕ), U.length ≤ m → U.Pairwise (· < ·) → ∀ (term t : ℕ → ℕ), t ∈ matchOut m U term ↔
    ∃ M, PerfectOn U M ∧ t = fun x => if ∃ e ∈ M, x = edgeToVar e.1 e.2 then 1 else term x := by
  intro m
  have nil : ∀ (m : ℕ) (term t : ℕ → ℕ), t ∈ matchOut m [] term ↔
    ∃ M, PerfectOn [] M ∧ t = fun x => if ∃ e ∈ M, x = edgeToVar e.1 e.2 then 1 else term x := by
    intro m term t
    rw [matchOut_nil, List.mem_singleton]
    constructor
    · rintro rfl
      exact ⟨∅, ⟨by simp, by simp, by simp⟩, by simp⟩
    · rintro ⟨M, ⟨h, -, -⟩, rfl⟩
      have : M = ∅ := Finset.eq_empty_of_forall_notMem fun e he => by simpa using (h e he).2.1
      simp [this]
  induction m with
  | zero =>
    intro U hU _
    obtain rfl : U = [] := List.eq_nil_of_length_eq_zero (by omega)
    exact nil 0
  | succ m ih =>
    intro U hU hs term t
    cases U with
    | nil => exact nil _ term t
    | cons v rest =>
      have hrs := (List.pairwise_cons.1 hs).2
      have hlen : ∀ w ∈ rest, (rest.erase w).length ≤ m := fun w hw => by
        rw [List.length_erase_of_mem hw]; simp only [List.length_cons] at hU; omega
      have hsort : ∀ w, (rest.erase w).Pairwise (· < ·) := fun w => hrs.sublist List.erase_sublist
      rw [matchOut, List.mem_flatMap]
      have hfun : ∀ (w : ℕ) (M : Finset (ℕ × ℕ)), (fun x => if ∃ e ∈ insert (v, w) M, x = edgeToVar e.1 e.2 then 1 else term x) =
          fun x => if ∃ e ∈ M, x = edgeToVar e.1 e.2 then 1 else Function.update term (edgeToVar v w) 1 x := by
        intro w M
        funext x
        simp only [Finset.mem_insert, exists_eq_or_imp]
        by_cases h1 : x = edgeToVar v w
        · simp [h1]
        · simp [h1]
      constructor
      · rintro ⟨w, hw, h⟩
        rw [ih _ (hlen w hw) (hsort w)] at h
        obtain ⟨M, hM, rfl⟩ := h
        exact ⟨insert (v, w) M, hM.add hs hw, (hfun w M).symm⟩
      · rintro ⟨M, hM, rfl⟩
        obtain ⟨w, hw, M', hM', rfl⟩ := hM.part hs
        refine ⟨w, hw, ?_⟩
        rw [ih _ (hlen w hw) (hsort w), hfun]
        exact ⟨M', hM', rfl⟩

theorem nodup_matchOut : ∀ (m : ℕ) (U : List ℕ), U.length ≤ m → U.Pairwise (· < ·) → ∀ (term : ℕ → ℕ),
    (∀ a ∈ U, ∀ b ∈ U, a < b → term (edgeToVar a b) = 0) → (matchOut m U term).Nodup := by
  intro m
  induction m with
  | zero =>
    intro U hU _ term _
    obtain rfl : U = [] := List.eq_nil_of_length_eq_zero (by omega)
    simp [matchOut_nil]
  | succ m ih =>
    intro U hU hs term h0
    cases U with
    | nil => simp [matchOut_nil]
    | cons v rest =>
      have hvr := (List.pairwise_cons.1 hs).1
      have hrs := (List.pairwise_cons.1 hs).2
      have hnr := (List.nodup_cons.1 (nodup_of_sorted hs)).2
      have hlen : ∀ w ∈ rest, (rest.erase w).length ≤ m := fun w hw => by
        rw [List.length_erase_of_mem hw]; simp only [List.length_cons] at hU; omega
      have hsort : ∀ w, (rest.erase w).Pairwise (· < ·) := fun w => hrs.sublist List.erase_sublist
      rw [matchOut, List.nodup_flatMap]
      refine ⟨fun w hw => ih _ (hlen w hw) (hsort w) _ ?_, ?_⟩
      · intro a ha b hb hab
        obtain ⟨ha1, ha2⟩ := (hnr.mem_erase_iff).1 ha
        obtain ⟨hb1, hb2⟩ := (hnr.mem_erase_iff).1 hb
        rw [Function.update_of_ne]
        · exact h0 a (List.mem_cons_of_mem _ ha2) b (List.mem_cons_of_mem _ hb2) hab
        · intro he
          exact hb1 (edgeToVar_inj hab (hvr w hw) he).2
      · refine hnr.pairwise_of_forall_ne ?_
        intro w hw w' hw' hne t ht ht'
        simp only at ht ht'
        rw [mem_matchOut _ _ (hlen w hw) (hsort w)] at ht
        rw [mem_matchOut _ _ (hlen w' hw') (hsort w')] at ht'
        obtain ⟨M, ⟨h1, -, -⟩, rfl⟩ := ht
        obtain ⟨M', ⟨h1', -, -⟩, h5⟩ := ht'
        have key : ∀ {x : ℕ} {M : Finset (ℕ × ℕ)}, (∀ e ∈ M, e.1 < e.2 ∧ e.1 ∈ rest.erase x ∧ e.2 ∈ rest.erase x) →
            ¬ ∃ e ∈ M, edgeToVar v w = edgeToVar e.1 e.2 := by
          rintro x M h ⟨e, he, hee⟩
          obtain ⟨h6, h7, -⟩ := h e he
          have := (edgeToVar_inj (hvr w hw) h6 hee).1
          have := hvr _ (List.mem_of_mem_erase h7)
          omega
        have := congrFun h5 (edgeToVar v w)
        rw [if_neg (key h1), if_neg (key h1'), Function.update_self, Function.update_of_ne,
          h0 v List.mem_cons_self w (List.mem_cons_of_mem _ hw) (hvr w hw)] at this
        · omega
        · intro he
          exact hne (edgeToVar_inj (hvr w hw) (hvr w' hw') he).2

/-! ## The whole search -/

/-- No node is taken. -/
def MatchState.start : MatchState := ⟨fun _ => none, fun _ => false, fun _ => 0⟩

theorem anchorLeft_start (s : MatchState) (h : s.isAnchor = fun _ => false) (x : ℕ) : s.anchorLeft x = none := by
  rw [MatchState.anchorLeft, h]; simp

theorem inv_start (count : ℕ) : MInv count MatchState.start (List.range count) :=
  ⟨by simp [MatchState.free, MatchState.start], by simp [MatchState.start], by simp [MatchState.start]⟩

theorem inv_takeNode {count u : ℕ} : MInv count (MatchState.start.takeNode u) ((List.range count).erase u) := by
  refine ⟨?_, by simp [MatchState.takeNode, MatchState.start], by simp [MatchState.takeNode, MatchState.start]⟩
  rw [List.nodup_range.erase_eq_filter, MatchState.free]
  apply List.filter_congr
  intro i _
  simp only [MatchState.takeNode, MatchState.start]
  by_cases h : i = u
  · simp [h]
  · simp [h]

theorem drop_takeNode (u : ℕ) : (MatchState.start.takeNode u).dropNode u = MatchState.start := by
  simp [MatchState.takeNode, MatchState.dropNode, MatchState.start]

theorem matchLoop_even (count : ℕ) : ∃ m, ∀ fuel, matchLoop count (fuel + m) MatchState.start count (some 0) =
    some ((matchOut count (List.range count) fun _ => 0).map fun t (i : Fin (count * (count - 1) / 2)) => t i) := by
  obtain ⟨m, hm⟩ := match_go (notUsed := count) count (List.range count) (by simp) _ (inv_start count)
  rw [anchorLeft_start _ rfl] at hm
  have h0 : (List.range count).headD count = 0 := by cases count <;> simp [List.range_succ_eq_map]
  rw [h0] at hm
  refine ⟨1 + m, fun fuel => ?_⟩
  rw [← Nat.add_assoc, hm, matchLoop]
  simp [MatchState.start]

theorem matchLoop_odd (count : ℕ) : ∀ (r u : ℕ), u + (r + 1) = count → ∃ m, ∀ fuel,
    matchLoop count (fuel + m) (MatchState.start.takeNode u) u (some (((List.range count).erase u).headD count)) =
    some (((List.range' u (r + 1)).flatMap fun u => matchOut count ((List.range count).erase u) fun _ => 0).map
      fun t (i : Fin (count * (count - 1) / 2)) => t i) := by
  intro r
  induction r with
  | zero =>
    intro u hu
    obtain ⟨m, hm⟩ := match_go (notUsed := u) count ((List.range count).erase u)
      (by rw [List.length_erase_of_mem (by simp; omega)]; simp) _ inv_takeNode
    rw [anchorLeft_start _ rfl] at hm
    refine ⟨1 + m, fun fuel => ?_⟩
    rw [← Nat.add_assoc, hm, matchLoop]
    simp only [if_pos (show u < count by omega)]
    rw [if_pos (by omega)]
    simp [MatchState.takeNode, MatchState.start]
  | succ r ih =>
    intro u hu
    obtain ⟨m', hm'⟩ := ih (u + 1) (by omega)
    obtain ⟨m, hm⟩ := match_go (notUsed := u) count ((List.range count).erase u)
      (by rw [List.length_erase_of_mem (by simp; omega)]; simp) _ inv_takeNode
    rw [anchorLeft_start _ rfl] at hm
    refine ⟨m' + 1 + m, fun fuel => ?_⟩
    rw [← Nat.add_assoc, hm, ← Nat.add_assoc, matchLoop]
    simp only [if_pos (show u < count by omega)]
    have h0 : ((List.range count).erase (u + 1)).headD count = 0 := by
      obtain ⟨c, rfl⟩ : ∃ c, count = c + 1 := ⟨count - 1, by omega⟩
      rw [List.range_succ_eq_map, List.erase_cons_tail (by simp)]
      rfl
    rw [h0] at hm'
    rw [if_neg (by omega), drop_takeNode, hm']
    rw [List.range'_succ (s := u)]
    simp [MatchState.takeNode, MatchState.start]

/-- What the search finds. -/
def matchAll (count : ℕ) : List (ℕ → ℕ) :=
  if count % 2 = 1 then (List.range count).flatMap fun u => matchOut count ((List.range count).erase u) fun _ => 0
  else matchOut count (List.range count) fun _ => 0

theorem matchingIdeal_eq {count : ℕ} (h0 : 0 < count) (h1 : count ≤ 1000) : ∃ m, ∀ fuel, matchingIdeal (fuel + m) count =
    some ((matchAll count).map fun t (i : Fin (count * (count - 1) / 2)) => t i) := by
  rw [matchAll]
  by_cases h : count % 2 = 1
  · obtain ⟨m, hm⟩ := matchLoop_odd count (count - 1) 0 (by omega)
    refine ⟨m, fun fuel => ?_⟩
    rw [matchingIdeal, if_neg (by omega), if_neg (by omega)]
    simp only [if_pos h]
    have hh : ((List.range count).erase 0).headD count = 1 := by
      obtain ⟨c, rfl⟩ : ∃ c, count = c + 1 := ⟨count - 1, by omega⟩
      rw [List.range_succ_eq_map, List.erase_cons_head]
      cases c <;> simp [List.range_succ_eq_map]
    rw [hh, show count - 1 + 1 = count by omega, ← List.range_eq_range'] at hm
    exact hm fuel
  · obtain ⟨m, hm⟩ := matchLoop_even count
    refine ⟨m, fun fuel => ?_⟩
    rw [matchingIdeal, if_neg (by omega), if_neg (by omega)]
    simp only [if_neg h]
    exact hm fuel

end Frobby
