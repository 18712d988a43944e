import Verif.EulerPivot

/-!
# The loops of the Euler characteristic algorithm
-/

namespace Frobby

open EulerState

/-- The strategy makes both parts of every split smaller. -/
def Progress (cfg : EulerConfig) : Prop := cfg.pivot.usesTerms = true → cfg.uniqueDiv = true

/-- What a stop other than that for lack of fuel needs. -/
def RandomStop (p : Pivot) (e : Stop) : Prop := p.isRandom = true ∧ (e = .tapeEnd ∨ e = .divideByZero ∧ p.filtersThenRandom = true)

/-- What the loop on a state comes to. `T` bounds the number of variables and the size. -/
def ProcessResult (cfg : EulerConfig) (acc : ℤ) (s : EulerState) :
    Except Stop (ℤ × Option (EulerState × EulerState) × List ℕ) → Prop
  | .ok (a, none, _) => Sound cfg → a = acc + s.val
  | .ok (a, some (x, y), _) => StateOk x ∧ StateOk y ∧ a + x.val + y.val = acc + s.val ∧
      (Progress cfg → x.size < s.size ∧ y.size < s.size) ∧
      ∀ T, s.varCount ≤ T → s.size ≤ T → x.varCount ≤ T ∧ y.varCount ≤ T
  | .error e => e = .fuelEnd ∨ RandomStop cfg.pivot e

theorem processLoop_spec (cfg : EulerConfig) (fuel : ℕ) (acc : ℤ) {s : EulerState} (h : StateOk s) (tape : List ℕ) :
    ProcessResult cfg acc s (processLoop cfg fuel acc s tape) := by
  induction fuel generalizing acc s with
  | zero => exact Or.inl rfl
  | succ fuel ih =>
    have hr := eulerRound_spec cfg acc h
    rw [processLoop]
    generalize eulerRound cfg acc s = rd at hr
    rcases rd with a | ⟨a, s'⟩ | o
    · exact hr
    · simp only
      obtain ⟨k1, k2, k3, k4⟩ := hr
      have hsz : s'.size ≤ s.size := by omega
      have hi := ih a k1
      revert hi
      rcases processLoop cfg fuel a s' tape with e | ⟨b, _ | ⟨x, y⟩, t⟩
      · exact id
      · exact fun hi hs => (hi hs).trans k2
      · refine fun hi => ⟨hi.1, hi.2.1, hi.2.2.1.trans k2, fun hp => ?_, fun T h1 h2 => hi.2.2.2.2 T ?_ (hsz.trans h2)⟩
        · have := hi.2.2.2.1 hp
          omega
        · omega
    · simp only
      obtain ⟨k1, k2, k3, k4, k5, k6⟩ := hr
      have hp := doPivot_spec cfg.pivot k1 (by omega) tape
      revert hp
      rcases doPivot cfg.pivot o.state o.divCounts tape with e | ⟨⟨x, y⟩, t⟩
      · exact fun hp => Or.inr hp
      · rintro ⟨p1, p2, p3, ⟨p4, p5⟩, p6⟩
        refine ⟨p1, p2, ?_, fun hpr => ?_, fun T h1 h2 => ?_⟩
        · rw [← k2, SimpState.total, ← p3]; ring
        · have := p6 fun hu => k6 (hpr hu)
          omega
        · omega

/-- The measure of the loop on a state. -/
theorem transposeMeasure_le {p : Pivot} {s : EulerState} {T : ℕ} (h1 : s.varCount ≤ T) (h2 : s.size ≤ T) :
    transposeMeasure p s ≤ T := by
  have : s.genCount ≤ s.size := Nat.le_add_left _ _
  cases p <;> simp only [transposeMeasure] <;> omega

theorem processLoop_fuel (cfg : EulerConfig) {T : ℕ} (fuel : ℕ) (acc : ℤ) {s : EulerState} (h : StateOk s) (tape : List ℕ)
    (h1 : s.varCount ≤ T) (h2 : s.size ≤ T) (hf : s.size * (T + 1) + transposeMeasure cfg.pivot s < fuel) :
    processLoop cfg fuel acc s tape ≠ .error .fuelEnd := by
  induction fuel generalizing acc s with
  | zero => omega
  | succ fuel ih =>
    have hr := eulerRound_spec cfg acc h
    rw [processLoop]
    generalize eulerRound cfg acc s = rd at hr
    rcases rd with a | ⟨a, s'⟩ | o
    · simp
    · simp only
      obtain ⟨k1, -, k3, k4⟩ := hr
      have hsz : s'.size ≤ s.size := by omega
      have hV : s'.varCount ≤ T := by omega
      refine ih a k1 hV (by omega) ?_
      have hm := transposeMeasure_le (p := cfg.pivot) hV (hsz.trans h2)
      rcases k3 with k3 | k3
      · have : s'.size * (T + 1) + (T + 1) ≤ s.size * (T + 1) := by
          rw [← Nat.succ_mul]
          exact Nat.mul_le_mul_right _ k3
        omega
      · have : s'.size * (T + 1) ≤ s.size * (T + 1) := Nat.mul_le_mul_right _ hsz
        omega
    · simp only
      obtain ⟨k1, -, k3, -⟩ := hr
      have hp := doPivot_spec cfg.pivot k1 (by omega) tape
      revert hp
      rcases doPivot cfg.pivot o.state o.divCounts tape with e | ⟨⟨x, y⟩, t⟩
      · rintro ⟨-, rfl | ⟨rfl, -⟩⟩ <;> simp
      · intro _
        simp

theorem compact_vars (s : EulerState) : s.compactIfProfitable.varCount ≤ s.varCount := by
  unfold compactIfProfitable
  split
  · show (keptVars s.varCount s.eliminated).length ≤ s.varCount
    rw [keptVars_length]
    exact (Finset.card_le_card Finset.sdiff_subset).trans (Finset.card_range _).le
  · exact le_refl _

theorem processState_spec (cfg : EulerConfig) (fuel : ℕ) (acc : ℤ) {s : EulerState} (h : StateOk s) (tape : List ℕ) :
    ProcessResult cfg acc s (processState cfg fuel acc s tape) := by
  obtain ⟨c1, c2, c3⟩ := compactIfProfitable_spec h
  have hr := processLoop_spec cfg fuel acc c1 tape
  have hv := compact_vars s
  unfold processState
  revert hr
  rcases processLoop cfg fuel acc s.compactIfProfitable tape with e | ⟨b, _ | ⟨x, y⟩, t⟩
  · exact id
  · intro hr hs
    rw [← c2]
    exact hr hs
  · rintro ⟨r1, r2, r3, r4, r5⟩
    rw [c2] at r3
    rw [c3] at r4 r5
    exact ⟨r1, r2, r3, r4, fun T h1 h2 => r5 T (hv.trans h1) h2⟩

theorem processState_fuel (cfg : EulerConfig) {T : ℕ} (fuel : ℕ) (acc : ℤ) {s : EulerState} (h : StateOk s) (tape : List ℕ)
    (h1 : s.varCount ≤ T) (h2 : s.size ≤ T) (hf : (T + 1) * (T + 1) ≤ fuel) : processState cfg fuel acc s tape ≠ .error .fuelEnd := by
  obtain ⟨c1, -, c3⟩ := compactIfProfitable_spec h
  have hv := compact_vars s
  have hm := transposeMeasure_le (p := cfg.pivot) (s := s.compactIfProfitable) (T := T) (hv.trans h1) (by rw [c3]; exact h2)
  refine processLoop_fuel cfg fuel acc c1 tape (hv.trans h1) (by rw [c3]; exact h2) ?_
  rw [c3]
  have : s.size * (T + 1) ≤ T * (T + 1) := Nat.mul_le_mul_right _ h2
  have e : (T + 1) * (T + 1) = T * (T + 1) + T + 1 := by ring
  omega

/-! ### The stack -/

/-- The sum of the contributions of the states of the stack. -/
def stackVal (st : List EulerState) : ℤ := (st.map EulerState.val).sum

theorem eulerLoop_spec (cfg : EulerConfig) (fuel : ℕ) (acc : ℤ) {st : List EulerState} (h : ∀ s ∈ st, StateOk s) (tape : List ℕ) :
    match eulerLoop cfg fuel acc st tape with
    | .ok a => Sound cfg → a = acc + stackVal st
    | .error e => e = .fuelEnd ∨ RandomStop cfg.pivot e := by
  induction fuel generalizing acc st tape with
  | zero =>
    rcases st with _ | ⟨s, st⟩
    · simp [eulerLoop, stackVal]
    · exact Or.inl rfl
  | succ fuel ih =>
    rcases st with _ | ⟨s, st⟩
    · simp [eulerLoop, stackVal]
    · have hr := processState_spec cfg (fuel + 1) acc (h s (by simp)) tape
      rw [eulerLoop]
      revert hr
      rcases processState cfg (fuel + 1) acc s tape with e | ⟨b, _ | ⟨x, y⟩, t⟩
      · exact id
      · intro hr
        have hi := ih b (st := st) (fun s hs => h s (by simp [hs])) t
        simp only
        revert hi
        rcases eulerLoop cfg fuel b st t with e | a
        · exact id
        · intro hi hs
          rw [hi hs, hr hs]
          simp [stackVal, add_assoc]
      · rintro ⟨r1, r2, r3, -⟩
        have hi := ih b (st := x :: y :: st) (fun s hs => by
          rcases List.mem_cons.1 hs with rfl | hs
          · exact r1
          · rcases List.mem_cons.1 hs with rfl | hs
            · exact r2
            · exact h s (by simp [hs])) t
        simp only
        revert hi
        rcases eulerLoop cfg fuel b (x :: y :: st) t with e | a
        · exact id
        · intro hi hs
          rw [hi hs]
          have : stackVal (x :: y :: st) = x.val + y.val + stackVal st := by simp [stackVal, add_assoc]
          rw [this]
          have : stackVal (s :: st) = s.val + stackVal st := by simp [stackVal]
          rw [this]
          linarith

/-- How many more states there can be. -/
def stackFuel (st : List EulerState) : ℕ := (st.map fun s => 2 ^ (s.size + 1) - 1).sum

theorem eulerLoop_fuel (cfg : EulerConfig) (hpr : Progress cfg) {T : ℕ} (fuel : ℕ) (acc : ℤ) {st : List EulerState}
    (h : ∀ s ∈ st, StateOk s ∧ s.varCount ≤ T ∧ s.size ≤ T) (tape : List ℕ) (hf : (T + 1) * (T + 1) + stackFuel st ≤ fuel) :
    eulerLoop cfg fuel acc st tape ≠ .error .fuelEnd := by
  induction fuel generalizing acc st tape with
  | zero =>
    have : 0 < (T + 1) * (T + 1) := Nat.mul_pos (Nat.succ_pos _) (Nat.succ_pos _)
    omega
  | succ fuel ih =>
    rcases st with _ | ⟨s, st⟩
    · simp [eulerLoop]
    · obtain ⟨h1, h2, h3⟩ := h s (by simp)
      have hr := processState_spec cfg (fuel + 1) acc h1 tape
      have hn := processState_fuel cfg (T := T) (fuel + 1) acc h1 tape h2 h3 (by omega)
      have hst : stackFuel (s :: st) = 2 ^ (s.size + 1) - 1 + stackFuel st := by simp [stackFuel]
      have hpos : 1 < 2 ^ (s.size + 1) := Nat.one_lt_two_pow (by omega)
      rw [eulerLoop]
      revert hr hn
      rcases processState cfg (fuel + 1) acc s tape with e | ⟨b, _ | ⟨x, y⟩, t⟩
      · intro _ hn he
        exact hn (by cases he; rfl)
      · intro _ _
        exact ih b (fun s hs => h s (by simp [hs])) t (by omega)
      · rintro ⟨r1, r2, -, r4, r5⟩ -
        obtain ⟨z1, z2⟩ := r4 hpr
        obtain ⟨w1, w2⟩ := r5 T h2 h3
        refine ih b (st := x :: y :: st) (fun u hu => ?_) t ?_
        · rcases List.mem_cons.1 hu with rfl | hu
          · exact ⟨r1, w1, by omega⟩
          · rcases List.mem_cons.1 hu with rfl | hu
            · exact ⟨r2, w2, by omega⟩
            · exact h u (by simp [hu])
        · have e : stackFuel (x :: y :: st) = (2 ^ (x.size + 1) - 1) + ((2 ^ (y.size + 1) - 1) + stackFuel st) := by simp [stackFuel]
          have p1 : 2 ^ (x.size + 1) ≤ 2 ^ s.size := Nat.pow_le_pow_right (by omega) (by omega)
          have p2 : 2 ^ (y.size + 1) ≤ 2 ^ s.size := Nat.pow_le_pow_right (by omega) (by omega)
          have p3 : 2 ^ (s.size + 1) = 2 * 2 ^ s.size := by rw [Nat.pow_succ]; ring
          have p4 : 0 < 2 ^ (x.size + 1) := Nat.pos_of_ne_zero (by positivity)
          have p5 : 0 < 2 ^ (y.size + 1) := Nat.pos_of_ne_zero (by positivity)
          omega

/-! ### The whole -/

theorem construct_ok {I : SqIdeal} (h : ∀ g ∈ I.gens, g ⊆ Finset.range I.varCount) (ha : Antichain I.gens) : StateOk (construct I) :=
  ⟨by simp [construct], h, fun g _ => by simp [construct], ha⟩

/-- The fuel that is enough for an ideal. -/
def eulerFuel (I : SqIdeal) : ℕ := (I.varCount + I.gens.length + 1) ^ 2 + 2 ^ (I.varCount + I.gens.length + 1)

theorem computeEuler_spec (cfg : EulerConfig) (fuel : ℕ) {s : EulerState} (h : StateOk s) (tape : List ℕ) :
    match computeEuler cfg fuel s tape with
    | .ok a => Sound cfg → a = s.val
    | .error e => e = .fuelEnd ∨ RandomStop cfg.pivot e := by
  unfold computeEuler
  have key : ∀ s' : EulerState, StateOk s' → s'.val = s.val → match eulerLoop cfg fuel 0 [s'] tape with
      | .ok a => Sound cfg → a = s.val
      | .error e => e = .fuelEnd ∨ RandomStop cfg.pivot e := by
    intro s' h' hv
    have := eulerLoop_spec cfg fuel 0 (st := [s']) (fun s hs => by rw [List.mem_singleton.1 hs]; exact h') tape
    revert this
    rcases eulerLoop cfg fuel 0 [s'] tape with e | a
    · exact id
    · intro hr hs
      rw [hr hs]
      simp [stackVal, hv]
  by_cases hc : (cfg.initialAutoTranspose && shouldTranspose cfg.pivot s) = true
  · rw [if_pos hc]
    exact key _ (transpose_ok s) transpose_val
  · rw [if_neg hc]
    exact key _ h rfl

theorem computeEuler_fuel (cfg : EulerConfig) (hpr : Progress cfg) (fuel : ℕ) {I : SqIdeal} (h : StateOk (construct I)) (tape : List ℕ)
    (hf : eulerFuel I ≤ fuel) : computeEuler cfg fuel (construct I) tape ≠ .error .fuelEnd := by
  unfold computeEuler
  have hsz : (construct I).size = I.varCount + I.gens.length := by
    rw [EulerState.size, nonEliminated_eq h]
    show (Finset.range I.varCount \ ∅).card + I.gens.length = _
    rw [Finset.sdiff_empty, Finset.card_range]
  have key : ∀ s' : EulerState, StateOk s' → s'.varCount ≤ I.varCount + I.gens.length → s'.size ≤ I.varCount + I.gens.length →
      eulerLoop cfg fuel 0 [s'] tape ≠ .error .fuelEnd := by
    intro s' h' h1 h2
    refine eulerLoop_fuel cfg hpr (T := I.varCount + I.gens.length) fuel 0 (fun s hs => by
      rw [List.mem_singleton.1 hs]; exact ⟨h', h1, h2⟩) tape ?_
    have e : stackFuel [s'] = 2 ^ (s'.size + 1) - 1 := by simp [stackFuel]
    have p : 2 ^ (s'.size + 1) ≤ 2 ^ (I.varCount + I.gens.length + 1) := Nat.pow_le_pow_right (by omega) (by omega)
    have p2 : 0 < 2 ^ (s'.size + 1) := Nat.pos_of_ne_zero (by positivity)
    unfold eulerFuel at hf
    rw [pow_two] at hf
    omega
  split
  · obtain ⟨q1, q2, q3⟩ := transpose_size h
    exact key _ (transpose_ok _) (by rw [q2]; exact Nat.le_add_left _ _) (by omega)
  · exact key _ h (Nat.le_add_right _ _) hsz.le

end Frobby
