import Verif.TaskLemmas
import Verif.HilbertTop
import Mathlib.Data.Fin.VecNotation

/-!
# C21: the task engine
-/

namespace Frobby

variable {n : ℕ}

theorem run_of_process {k : Kind} {o : Opts} {rnd : List ℕ → ℕ → ℕ} {s : Slice n} {outs : List (ℤ × Term n)}
    {fuel : ℕ} (h : process k o rnd fuel [] n s = some outs) (first : List (ℤ × Term n)) :
    ∃ j σ, runTasks k o rnd j ({ Mem.init n with out := first }, [.slice [] n s .top]) = some (σ, []) ∧
      σ.out = first ++ outs ∧ ∀ id, σ.live id = false := by
  have hw : ({ Mem.init n with out := first } : Mem n).WF := ⟨by simp [Mem.init], by simp [Mem.init], by simp [Mem.init]⟩
  have hok : (Consumer.top : Consumer n n).Ok { Mem.init n with out := first } := ⟨by simp [Consumer.ids], trivial⟩
  obtain ⟨j, σ, τ, h1, _, h3, h4⟩ := (process_tasks k o rnd fuel [] n s outs h .top _ hok hw).ex []
  rw [consumeAll_top] at h3
  obtain rfl := Option.some.inj h3
  exact ⟨j, σ, h1, h4.out.symm, fun id => by rw [← h4.live]; rfl⟩

/-- C21: for every minimal set of generators, all options and all results of `rand`, the task engine gets to an empty
stack of tasks after finitely many tasks, without an internal error, a use of an object after it was freed, or a double
free; then no object of an independence split is left. The consumer got exactly the maximal standard monomials, each of
them once, with all exponents one larger. (In one variable the ideal is ⟨1⟩, ⟨x⟩ or zero since the exponents are
translated, see C20.) -/
theorem C21_msmTasks {o : Opts} (ho : o.valid .msm) (rnd : List ℕ → ℕ → ℕ) {I : List (Term n)} (hI : Anti I)
    (h1 : n = 1 → ∀ g ∈ I, ∀ v, g v ≤ 1) :
    ∃ st, msmStart o I = some st ∧ ∃ j σ, runTasks .msm o rnd j st = some (σ, []) ∧ (∀ id, σ.live id = false) ∧
      (σ.out.map (·.2)).Nodup ∧ ∀ m, m ∈ σ.out.map (·.2) ↔ (∀ i, 0 < m i) ∧ Msm I (fun i => m i - 1) := by
  obtain ⟨outs, h2, h3, h4⟩ := msmRun_spec ho rnd hI h1
  unfold msmRun at h2
  unfold msmStart
  split at h2
  · simp at h2
  · rename_i s hs
    rw [Option.map_eq_some_iff] at h2
    obtain ⟨outs', h5, rfl⟩ := h2
    obtain ⟨j, σ, h6, h7, h8⟩ := run_of_process h5 []
    rw [List.nil_append] at h7
    exact ⟨_, by rw [hs]; rfl, j, σ, h6, h8, by rw [h7]; exact h3, by rw [h7]; exact h4⟩

/-- C21: the same for the Hilbert strategy, which outputs the numerator of the multigraded Hilbert-Poincaré series. -/
theorem C21_hilbertTasks {o : Opts} (ho : o.valid .hilbert) (rnd : List ℕ → ℕ → ℕ) {I : List (Term n)} (hI : Anti I) :
    ∃ st, hilbertStart o I = some st ∧ ∃ j σ, runTasks .hilbert o rnd j st = some (σ, []) ∧ (∀ id, σ.live id = false) ∧
      IsHilbertNumerator σ.out I ∧ Reduced σ.out := by
  obtain ⟨outs, h2, h12, h10, _⟩ := hilbertRun_numerator ho rnd hI
  unfold hilbertRun at h2
  unfold hilbertStart
  simp only at h2 ⊢
  split at h2
  · simp at h2
  · rename_i s hs
    rw [Option.map_eq_some_iff] at h2
    obtain ⟨outs', h5, h9⟩ := h2
    obtain ⟨j, σ, h6, h7, h8⟩ := run_of_process h5 (if contains I 0 then [] else [(1, 0)])
    rw [← h7] at h9
    subst h9
    exact ⟨_, by rw [hs], j, σ, h6, h8, h12, h10⟩

/-- Options: simplification, independence splits and median pivots. -/
def taskExample : Opts := { split := .median, simp := true, indep := true }

example : taskExample.valid .msm ∧ taskExample.valid .hilbert := by
  simp [Opts.valid, taskExample, Split.isLabel]

/-- An ideal whose first slice is split by independence: its parts do not share variables. -/
def taskIdeal : List (Term 6) :=
  [![2, 0, 0, 0, 0, 0], ![0, 2, 0, 0, 0, 0], ![0, 0, 2, 0, 0, 0], ![1, 1, 1, 0, 0, 0],
    ![0, 0, 0, 2, 0, 0], ![0, 0, 0, 0, 2, 0], ![0, 0, 0, 0, 0, 2], ![0, 0, 0, 1, 1, 1]]

example : Anti taskIdeal := by unfold Anti taskIdeal; decide

example : analyze taskIdeal [] = some ([3, 4, 5], [0, 1, 2]) := by decide

end Frobby
