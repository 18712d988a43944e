import Verif.HandleLemmas

/-!
# C77: the objects of a program that uses the library are values
-/

namespace Frobby

/-- **C77 (values).** Any program makes, copies, assigns, extends and destroys objects, in any order, also if memory runs out and the program goes
on. If it only uses objects that live, then nothing that it does is undefined: no memory is used or given back after it was given back. At the end
each object that lives has the number of variables and the generators that belong to the exponents that were added to it and to what it was copied
from, whatever was done with other objects since. Missing: that memory may also run out where a new generator gets its entries, see
`C77_exception_witness`. -/
theorem C77_values_partial {ops : List HandleOp} (hw : ∀ op ∈ ops, op.Whole) {v : HandleValues} (hv : HandleValues.run (fun _ => none) ops = some v) :
    ∃ s, Handles.start.run ops = some s ∧
      ∀ x, match v x with
        | none => s.data x = none
        | some p => ∃ a c, s.data x = some a ∧ s.heap a = some c ∧ c.varCount = p.1 ∧ GeneratorsOf c.terms p.1 p.2 := by
  obtain ⟨s, hs, hi⟩ := Handles.inv_start.run hw hv
  refine ⟨s, hs, fun x => ?_⟩
  rcases hx : v x with _ | p
  · exact hi.dead x hx
  · obtain ⟨a, c, ha, hc, hg⟩ := hi.live x p hx
    exact ⟨a, c, ha, hc, hg.vars, hg.describes⟩

/-- **C77 (memory).** Each part of the memory belongs to exactly one object that lives. -/
theorem C77_memory_partial {ops : List HandleOp} (hw : ∀ op ∈ ops, op.Whole) {v : HandleValues} (hv : HandleValues.run (fun _ => none) ops = some v) :
    ∃ s, Handles.start.run ops = some s ∧ (∀ a, s.heap a ≠ none → ∃! x, s.data x = some a) ∧ ∀ x a, s.data x = some a → s.heap a ≠ none := by
  obtain ⟨s, hs, hi⟩ := Handles.inv_start.run hw hv
  refine ⟨s, hs, fun a ha => ?_, fun x a hx => ?_⟩
  · obtain ⟨c, hc⟩ := Option.ne_none_iff_exists'.1 ha
    obtain ⟨-, x, hx⟩ := hi.owned a c hc
    exact ⟨x, hx, fun y hy => hi.apart y x a hy hx⟩
  · rcases hv : v x with _ | p
    · rw [hi.dead x hv] at hx
      cases hx
    · obtain ⟨b, c, hb, hc, -⟩ := hi.live x p hv
      rw [hb] at hx
      cases hx
      rw [hc]
      simp

/-- **C77 (no leak).** A program that destroys all its objects gives all memory back. -/
theorem C77_no_leak_partial {ops : List HandleOp} (hw : ∀ op ∈ ops, op.Whole) (hv : HandleValues.run (fun _ => none) ops = some fun _ => none) :
    ∃ s, Handles.start.run ops = some s ∧ ∀ a, s.heap a = none := by
  obtain ⟨s, hs, hi⟩ := Handles.inv_start.run hw hv
  refine ⟨s, hs, fun a => ?_⟩
  rcases ha : s.heap a with _ | c
  · rfl
  · obtain ⟨-, x, hx⟩ := hi.owned a c ha
    rw [hi.dead x rfl] at hx
    cases hx

/-- Two objects, a copy of one that is extended afterwards, assignments of an object to itself and to another one, and calls without memory. -/
def handleExample : List HandleOp :=
  [.create 0 2 true, .add 0 3 .enough, .add 0 4 .enough, .add 0 5 .enough, .copy 1 0 true, .add 1 6 .noGenerator, .add 1 7 .noGenerator,
    .add 1 8 .enough, .create 2 1 false, .assign 0 0 true, .assign 0 1 false, .create 2 0 true, .add 2 9 .enough, .add 2 9 .enough]

/-- What is at an object. -/
def Handles.look (s : Handles) (x : ℕ) : Option (ℕ × List (List ℤ) × ℕ) := do
  let a ← s.data x
  let c ← s.heap a
  return (c.varCount, c.terms, c.atVariable)

example : ∀ op ∈ handleExample, op.Whole := by simp [handleExample, HandleOp.Whole]

example : (HandleValues.run (fun _ => none) handleExample).map (fun v => (v 0, v 1, v 2)) =
    some (some (2, [3, 4, 5]), some (2, [3, 4, 5, 6, 8]), some (0, [9, 9])) := by
  decide +kernel

example : (Handles.start.run handleExample).map (fun s => s.look 0) = some (some (2, [[3, 4], [5, 0]], 1)) := by decide +kernel

example : (Handles.start.run handleExample).map (fun s => s.look 1) = some (some (2, [[3, 4], [5, 6], [8, 0]], 1)) := by decide +kernel

example : (Handles.start.run handleExample).map (fun s => s.look 2) = some (some (0, [[], []], 0)) := by decide +kernel

example : (Handles.start.run (handleExample ++ [.destroy 0, .destroy 1, .destroy 2])).map
    (fun s => ((List.range s.next).all fun a => (s.heap a).isNone)) = some true := by
  decide +kernel

/-- An object that does not live is an error of the program, which the model sees: a second destruction is undefined. -/
example : (Handles.start.run [.create 0 2 true, .destroy 0, .destroy 0]).isNone = true := by decide +kernel

/-- **C77 (violation).** If memory runs out where the new generator gets its entries (BigIdeal.cpp:109), then a call of `addExponent` that throws an
exception still adds a generator, and one with no exponents at all: the ideal in two variables below has three generators, although the calls that
succeeded describe two. What reads the exponents later (for example `BigIdeal::getLcm`) reads outside of it. -/
theorem C77_exception_witness :
    let ops := [HandleOp.create 0 2 true, .add 0 3 .enough, .add 0 4 .enough, .add 0 5 .noEntries, .add 0 5 .enough]
    (HandleValues.run (fun _ => none) ops).map (fun v => v 0) = some (some (2, [3, 4, 5])) ∧
      (Handles.start.run ops).map (fun s => s.look 0) = some (some (2, [[3, 4], [], [5, 0]], 1)) ∧ ¬ GeneratorsOf [[3, 4], [], [5, 0]] 2 [3, 4, 5] := by
  refine ⟨by decide +kernel, by decide +kernel, fun h => ?_⟩
  have := h.1 [] (by simp)
  simp at this

end Frobby
