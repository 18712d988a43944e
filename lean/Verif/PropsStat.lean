import Verif.StatLemmas

/-!
# Statistics and debug output
-/

namespace Frobby.Stat

variable {S O : Type}

/-- An algorithm on numbers: a number above one is split into two smaller ones. -/
def halves : Alg ℕ ℕ where
  work s := if s ≤ 1 then ⟨true, [], [s]⟩ else ⟨false, [s / 2, s - s / 2], []⟩
  first := 3
  before := [7]
  sizes s := ⟨s, 1, 2⟩

/-- **C83**: the options for statistics and debug output do not change which slices are processed, in which order, and
what is sent to the consumer. -/
theorem C83_transparent (lg : ℕ → ℕ) (a : Alg S O) (n : ℕ) (debug stats : Bool) :
    (runWithOptions lg a n debug stats).map (fun r => (r.out, r.seen, r.tasks)) =
      (runWithOptions lg a n false false).map fun r => (r.out, r.seen, r.tasks) := by
  cases debug <;> cases stats <;>
    simp only [runWithOptions, withOptions, run, State.start, Bool.false_eq_true, if_false, if_true, Option.map_map] <;>
    (try rfl) <;>
    (rw [runTasks_frame lg a n _ _ _ _ _ _ (by simp)]
     cases runTasks lg a n ⟨[(a.first, Strategy.inner)], [] ++ a.before, [], .new, .new, []⟩ <;> rfl)

example : ((runWithOptions Nat.log2 halves 10 true true).map fun r => (r.out, r.seen)) =
    some ([7, 1, 1, 1], [3, 2, 1, 1, 1]) := by decide +kernel

/-- **C83**, what is printed in every run: the report about the slices is always the one about no slices, and no slice is
ever shown. -/
theorem C83_printed (lg : ℕ → ℕ) (a : Alg S O) (n : ℕ) (debug stats : Bool) (r : State S O)
    (h : runWithOptions lg a n debug stats = some r) :
    r.printed = (if debug then [Line.start, Line.begin, Line.done] else []) ++
      (if stats then [Line.statistics ⟨0, none, []⟩ ⟨0, none, []⟩] else []) := by
  have frame := fun p => runTasks_frame lg a n [(a.first, Strategy.inner)] ([] ++ a.before) p .new .new [] (by simp)
  cases debug <;> cases stats <;>
    simp only [runWithOptions, withOptions, run, State.start, Bool.false_eq_true, if_false, if_true, Option.map_map] at h <;>
    rw [frame] at h <;>
    (cases hr : runTasks lg a n ⟨[(a.first, Strategy.inner)], [] ++ a.before, [], .new, .new, []⟩ with
     | none => rw [hr] at h; simp at h
     | some q =>
       rw [hr] at h
       simp only [Option.map_some, Option.some.injEq, Function.comp] at h
       subst h
       rfl)

example : ((runWithOptions Nat.log2 halves 10 true true).map fun r => r.printed) =
    some [Line.start, Line.begin, Line.done, Line.statistics ⟨0, none, []⟩ ⟨0, none, []⟩] := by decide +kernel

/-- **C83**: the claim that the report is right fails for every run that ends, as at least one slice is processed. -/
theorem C83_report_witness (lg : ℕ → ℕ) (a : Alg S O) (n : ℕ) (debug : Bool) (r : State S O)
    (h : runWithOptions lg a n debug true = some r) : ¬ ReportIsRight lg a r := by
  have hr : r.seen ≠ [] := run_seen lg a n _ _ r rfl h
  rintro ⟨i, l, hp, hi, hl⟩
  rw [C83_printed lg a n debug true r h] at hp
  simp only [if_true, List.getLast?_append, List.getLast?_singleton, Option.some_or, Option.some.injEq,
    Line.statistics.injEq] at hp
  obtain ⟨rfl, rfl⟩ := hp
  obtain ⟨s, hs⟩ := List.exists_mem_of_ne_nil _ hr
  have h1 := hi.nodes
  have h2 := hl.nodes
  simp only [sizesOf, List.length_map] at h1 h2
  cases hb : (a.work s).base with
  | false =>
    have : s ∈ r.seen.filter fun s => (a.work s).base = false := List.mem_filter.mpr ⟨hs, by simp [hb]⟩
    rw [List.length_eq_zero_iff.mp h1.symm] at this
    cases this
  | true =>
    have : s ∈ r.seen.filter fun s => (a.work s).base = true := List.mem_filter.mpr ⟨hs, by simp [hb]⟩
    rw [List.length_eq_zero_iff.mp h2.symm] at this
    cases this

/-- The hypotheses are met by a run that processes five slices. -/
example : ∃ r, runWithOptions Nat.log2 halves 10 false true = some r ∧ r.seen = [3, 2, 1, 1, 1] ∧
    ¬ ReportIsRight Nat.log2 halves r := by
  have h : ((runWithOptions Nat.log2 halves 10 false true).map fun r => r.seen) = some [3, 2, 1, 1, 1] := by decide +kernel
  cases hr : runWithOptions Nat.log2 halves 10 false true with
  | none => rw [hr] at h; cases h
  | some r =>
    rw [hr] at h
    simp only [Option.map_some, Option.some.injEq] at h
    exact ⟨r, rfl, h, C83_report_witness _ _ _ _ _ hr⟩

/-- **C83**: neither does the debug output show the slices. -/
theorem C83_debug_witness (lg : ℕ → ℕ) (a : Alg S O) (n : ℕ) (stats : Bool) (r : State S O)
    (h : runWithOptions lg a n true stats = some r) : ¬ DebugIsRight a r := by
  have hr : r.seen ≠ [] := run_seen lg a n _ _ r rfl h
  rintro ⟨h1, _⟩
  rw [C83_printed lg a n true stats r h] at h1
  have : r.seen.length ≠ 0 := fun e => hr (List.length_eq_zero_iff.mp e)
  apply this
  rw [← h1]
  cases stats <;> rfl

example : ((runWithOptions Nat.log2 halves 10 true false).map fun r => (r.seen.length, r.printed)) =
    some (5, [Line.start, Line.begin, Line.done]) := by decide +kernel

/-- **C83**, what is true of the report: were the slices given to the wrapper, as the interface of strategies provides
for, then the two reports would be right, with the slices that are base cases in the one and the others in the other.
Missing: the slices never are given to the wrapper. -/
theorem C83_report_partial (lg : ℕ → ℕ) (a : Alg S O) (t : Strategy) (ht : t = .inner ∨ t = .debug .inner)
    (l : List S) :
    Describes lg (processEach lg a (.stats t) l (State.start false)).internal.report (sizesOf a false l) ∧
    Describes lg (processEach lg a (.stats t) l (State.start false)).leaf.report (sizesOf a true l) := by
  have hn : noStats t := by rcases ht with rfl | rfl <;> trivial
  suffices H : ∀ (l before : List S) (st : State S O), Recorded lg st.internal (sizesOf a false before) →
      Recorded lg st.leaf (sizesOf a true before) →
      Recorded lg (processEach lg a (.stats t) l st).internal (sizesOf a false (before ++ l)) ∧
      Recorded lg (processEach lg a (.stats t) l st).leaf (sizesOf a true (before ++ l)) by
    obtain ⟨h1, h2⟩ := H l [] (State.start false) (recorded_new lg) (recorded_new lg)
    exact ⟨describes_of_recorded h1, describes_of_recorded h2⟩
  intro l
  induction l with
  | nil => intro before st h1 h2; simpa [processEach] using ⟨h1, h2⟩
  | cons s l ih =>
    intro before st h1 h2
    have e : before ++ s :: l = (before ++ [s]) ++ l := by simp
    rw [e]
    obtain ⟨p1, p2, p3⟩ := process_noStats lg a t hn s
      { st with internal := st.internal.preliminary (a.sizes s), leaf := st.leaf.preliminary (a.sizes s) }
    refine ih (before ++ [s]) (processSlice lg a (.stats t) s st).2 ?_ ?_
    · simp only [processSlice, p1]
      cases hb : (a.work s).base with
      | true =>
        simp only [if_true, p2]
        have : sizesOf a false (before ++ [s]) = sizesOf a false before := by simp [sizesOf, hb]
        rw [this]
        exact recorded_preliminary h1 _
      | false =>
        simp only [Bool.false_eq_true, if_false, p2]
        have : sizesOf a false (before ++ [s]) = sizesOf a false before ++ [a.sizes s] := by simp [sizesOf, hb]
        rw [this]
        exact recorded_commit (recorded_preliminary h1 (a.sizes s))
    · simp only [processSlice, p1]
      cases hb : (a.work s).base with
      | true =>
        simp only [if_true, p3]
        have : sizesOf a true (before ++ [s]) = sizesOf a true before ++ [a.sizes s] := by simp [sizesOf, hb]
        rw [this]
        exact recorded_commit (recorded_preliminary h2 (a.sizes s))
      | false =>
        simp only [Bool.false_eq_true, if_false, p3]
        have : sizesOf a true (before ++ [s]) = sizesOf a true before := by simp [sizesOf, hb]
        rw [this]
        exact recorded_preliminary h2 _

example : (processEach Nat.log2 halves (.stats .inner) [3, 1, 9, 0, 2] (State.start false)).internal.report =
    ⟨3, some ((14, 3), (3, 3), (6, 3)), [(1, 3), (0, 2), (2, 1), (0, 0)]⟩ := by decide +kernel

/-- **C83**: the options for statistics and debug output do not change the Euler characteristic that is computed, nor how
many states are processed. -/
theorem C83_euler_transparent (w : ℕ) (a : EulerAlg S) (debug stats : Bool) (n : ℕ) (trivial : Option ℤ) (s : S)
    (c : Counts) :
    (computeEuler w a (withOptions debug stats) n trivial s c).map (fun r => (r.euler, r.processed)) =
      (computeEuler w a .inner n trivial s c).map fun r => (r.euler, r.processed) := by
  cases trivial with
  | some e => rfl
  | none => exact eulerLoop_same w a _ _ n _ _ _ rfl rfl

/-- States are numbers: one above one is split. -/
def eulerHalves : EulerAlg ℕ where
  simplify s := if s ≤ 1 then (1, none) else (2, some s)
  pivot s := (s / 2, s - s / 2)

example : (computeEuler 64 eulerHalves (withOptions true true) 20 none 5 ⟨0, 0, 9, 0⟩) = some ⟨4, 12, 13, 9⟩ ∧
    (computeEuler 64 eulerHalves .inner 20 none 5 ⟨0, 0, 9, 0⟩) = some ⟨0, 0, 13, 9⟩ := by decide +kernel

/-- **C83**: in the first computation of an algorithm object that is not trivial, the number that is printed as the states
processed is how many were, as long as it fits the type. -/
theorem C83_euler_states_partial (w : ℕ) (a : EulerAlg S) (debug : Bool) (n : ℕ) (s : S) (r : Counts)
    (h : computeEuler w a (withOptions debug true) n none s ⟨0, 0, 0, 0⟩ = some r) :
    statesPrinted w r = r.processed % 2 ^ w := by
  obtain ⟨k, h1, h2, _⟩ := eulerLoop_counts w a _ n _ _ _ (by positivity) h
  have hs : statsOf (withOptions debug true) = 1 := by cases debug <;> rfl
  rw [hs] at h2
  simp only [List.length_singleton] at h1
  simp only [one_mul, Nat.zero_add] at h1 h2
  rw [statesPrinted, h1, h2, Nat.add_mod, Nat.mul_mod, Nat.mod_mod, ← Nat.mul_mod, ← Nat.add_mod, Nat.add_comm]

example : (computeEuler 64 eulerHalves (withOptions false true) 20 none 5 ⟨0, 0, 0, 0⟩).map
    (fun r => (statesPrinted 64 r, r.processed)) = some (9, 9) := by decide +kernel

/-- **C83**: the debug output shows three states for each split, so that with one more than two thirds of them it accounts
for all the states that are processed. -/
theorem C83_euler_debug (w : ℕ) (a : EulerAlg S) (stats : Bool) (n : ℕ) (s : S) (r : Counts)
    (h : computeEuler w a (withOptions true stats) n none s ⟨0, 0, 0, 0⟩ = some r) :
    3 * r.processed = 2 * r.shown + 3 := by
  obtain ⟨k, h1, _, h3⟩ := eulerLoop_counts w a _ n _ _ _ (by positivity) h
  have hs : debugsOf (withOptions true stats) = 1 := by cases stats <;> rfl
  rw [hs] at h3
  simp only [List.length_singleton] at h1
  simp only [Nat.zero_add] at h1 h3
  omega

example : (computeEuler 64 eulerHalves (withOptions true false) 20 none 5 ⟨0, 0, 0, 0⟩).map
    (fun r => (r.shown, r.processed)) = some (12, 9) := by decide +kernel

/-- **C83**: the number of states that is printed is wrong for a trivial ideal, for which no state is processed, and, as
the splits are not reset, for a second computation of the same object. -/
theorem C83_euler_states_witness :
    (∃ r : Counts, computeEuler 64 eulerHalves (withOptions false true) 20 (some (-1)) 5 ⟨0, 0, 0, 0⟩ = some r ∧
      statesPrinted 64 r = 1 ∧ r.processed = 0) ∧
    (∃ r₁ r₂ : Counts, computeEuler 64 eulerHalves (withOptions false true) 20 none 5 ⟨0, 0, 0, 0⟩ = some r₁ ∧
      computeEuler 64 eulerHalves (withOptions false true) 20 none 2 r₁ = some r₂ ∧
      statesPrinted 64 r₂ = 11 ∧ r₂.processed - r₁.processed = 3 ∧ r₂.processed = 12) :=
  ⟨⟨⟨0, 0, -1, 0⟩, by decide +kernel⟩, ⟨⟨4, 0, 13, 9⟩, ⟨5, 0, 4, 12⟩, by decide +kernel⟩⟩

end Frobby.Stat
