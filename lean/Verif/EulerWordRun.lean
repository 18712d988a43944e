import Verif.EulerWordPivot

/-!
# The runs on words
-/

namespace Frobby

/-- The result of processing a state. -/
def RepP (N : ℕ) (r : ℤ × Option (EulerWords × EulerWords) × List ℕ) (q : ℤ × Option (EulerState × EulerState) × List ℕ) : Prop :=
  r.1 = q.1 ∧ r.2.2 = q.2.2 ∧
    match r.2.1, q.2.1 with
    | none, none => True
    | some x, some a => ERep N x.1 a.1 ∧ ERep N x.2 a.2 ∧ ELive a.1 ∧ ELive a.2
    | _, _ => False

theorem processLoop_rep {N size : ℕ} (cfg : EulerConfig) (junk : ℕ → Junk) (hsize : wordCount N ≤ size) (tape : List ℕ) (fuel : ℕ) :
    ∀ (acc : ℤ) {w : EulerWords} {s : EulerState}, ERep N w s → StateOk s →
      ESim (RepP N) (processLoopWords cfg junk size fuel acc w tape) (processLoop cfg fuel acc s tape) := by
  induction fuel with
  | zero => intro acc w s _ _; exact rfl
  | succ fuel ih =>
    intro acc w s h ok
    unfold processLoopWords processLoop
    obtain ⟨r, h1, h2⟩ := eulerRound_rep cfg (junk fuel) hsize acc h ok
    have h3 := eulerRound_spec cfg acc ok
    rw [h1]
    rcases r with a | ⟨a, w'⟩ | o <;> rcases e : eulerRound cfg acc s with b | ⟨b, s'⟩ | p <;> rw [e] at h2 <;>
      first
      | exact h2.elim
      | skip
    · exact ⟨h2, rfl, trivial⟩
    · rw [e] at h3
      obtain ⟨h4, h5⟩ := h2
      subst h4
      exact ih a h5 h3.1
    · rw [e] at h3
      have h2 : RepO N o p := h2
      have h4 := doPivot_rep h2 h3.1 (by have := h3.2.2.1; omega) (junk fuel) cfg.pivot tape
      simp only
      rcases e1 : doPivotWords (junk fuel) cfg.pivot o.state o.divCounts tape with x | ⟨x, t⟩ <;>
      rcases e2 : doPivot cfg.pivot p.state p.divCounts tape with y | ⟨y, t'⟩ <;> rw [e1, e2] at h4
      · exact h4
      · exact h4.elim
      · exact h4.elim
      · obtain ⟨h5, h6, h7, h8, h9⟩ := h4
        exact ⟨h2.acc, h7, h5, h6, h8, h9⟩

theorem processState_rep {N size : ℕ} (cfg : EulerConfig) (junk : ℕ → Junk) (hsize : wordCount N ≤ size) (tape : List ℕ) (fuel : ℕ)
    (acc : ℤ) {w : EulerWords} {s : EulerState} (h : ERep N w s) (ok : StateOk s) (hlive : ELive s) :
    ESim (RepP N) (processStateWords cfg junk size fuel acc w tape) (processState cfg fuel acc s tape) := by
  obtain ⟨w', h1, h2⟩ := h.compactIfProfitable hlive
  unfold processStateWords processState
  rw [h1]
  exact processLoop_rep cfg junk hsize tape fuel acc h2 (compactIfProfitable_spec ok).1

theorem eulerLoop_rep {N size : ℕ} (cfg : EulerConfig) (junk : ℕ → ℕ → Junk) (hsize : wordCount N ≤ size) (fuel : ℕ) :
    ∀ (acc : ℤ) (tape : List ℕ) {ws : List EulerWords} {st : List EulerState}, List.Forall₂ (ERep N) ws st →
      (∀ s ∈ st, StateOk s ∧ ELive s) → eulerLoopWords cfg junk size fuel acc ws tape = eulerLoop cfg fuel acc st tape := by
  induction fuel with
  | zero =>
    intro acc tape ws st h _
    cases h <;> rfl
  | succ fuel ih =>
    intro acc tape ws st h hst
    cases h with
    | nil => rfl
    | @cons w s ws st h1 h2 =>
      obtain ⟨ok, hlive⟩ := hst s (by simp)
      have h3 := processState_rep cfg (junk fuel) hsize tape (fuel + 1) acc h1 ok hlive
      have h4 := processState_spec cfg (fuel + 1) acc ok tape
      unfold eulerLoopWords eulerLoop
      rcases e1 : processStateWords cfg (junk fuel) size (fuel + 1) acc w tape with x | ⟨a, x, t⟩ <;>
      rcases e2 : processState cfg (fuel + 1) acc s tape with y | ⟨b, y, t'⟩ <;> rw [e1, e2] at h3
      · have h3 : x = y := h3
        rw [h3]
      · exact h3.elim
      · exact h3.elim
      · obtain ⟨h5, h6, h7⟩ := h3
        have h5 : a = b := h5
        have h6 : t = t' := h6
        subst h5 h6
        rcases x with _ | ⟨x1, x2⟩ <;> rcases y with _ | ⟨y1, y2⟩
        · exact ih a t h2 fun s hs => hst s (List.mem_cons_of_mem _ hs)
        · exact h7.elim
        · exact h7.elim
        · obtain ⟨h8, h9, h10, h11⟩ := h7
          rw [e2] at h4
          obtain ⟨k1, k2, _⟩ := h4
          refine ih a t (.cons h8 (.cons h9 h2)) fun s hs => ?_
          rcases List.mem_cons.1 hs with rfl | hs
          · exact ⟨k1, h10⟩
          · rcases List.mem_cons.1 hs with rfl | hs
            · exact ⟨k2, h11⟩
            · exact hst s (List.mem_cons_of_mem _ hs)

theorem computeEuler_rep {N size : ℕ} (cfg : EulerConfig) (junk : ℕ → ℕ → Junk) (hsize : wordCount N ≤ size) (fuel : ℕ)
    (tape : List ℕ) {w : EulerWords} {s : EulerState} (h : ERep N w s) (ok : StateOk s) (hlive : ELive s) (hG : 0 < s.genCount) :
    computeEulerWords cfg junk size fuel w tape = computeEuler cfg fuel s tape := by
  unfold computeEulerWords computeEuler
  rw [shouldTranspose_rep h]
  split
  · obtain ⟨w', h1, h2⟩ := h.transpose hG (junk fuel fuel)
    rw [h1]
    exact eulerLoop_rep cfg junk hsize fuel 0 tape (.cons h2 .nil) fun s' hs => by
      rw [List.mem_singleton.1 hs]
      refine ⟨transpose_ok s, ⟨0, ?_, by simp [EulerState.transpose]⟩⟩
      rw [(transpose_counts ok).1]
      exact hG
  · exact eulerLoop_rep cfg junk hsize fuel 0 tape (.cons h .nil) fun s' hs => by
      rw [List.mem_singleton.1 hs]
      exact ⟨ok, hlive⟩

end Frobby
