import Verif.WrapLemmas

/-!
# C78: what a consumer of a program that uses the library sees
-/

namespace Frobby

/-- **C78 (consumers).** Whatever terms the algorithms hand to the wrapper, as terms with a translator or as vectors, from wherever in memory: the consumer
that looks through the pointers it gets sees these exponents and coefficients in the order in which they were handed over, with the number of
variables at the start and the end where it is. It never gets a pointer that has not been set. -/
theorem C78_consumer {n : ℕ} {calls : List WrapCall} {evss : List (List Seen)} (h : List.Forall₂ (WrapCall.Tells n) calls evss) :
    ∃ w outs, runCalls Wrapper.call (.new n) calls = some (w, outs) ∧ outs.mapM (UserCall.see n) = some evss.flatten := by
  obtain ⟨w, outs, h1, h2⟩ := Wrapper.run_spec (Q := fun _ => True) h (fun c _ => by cases c <;> trivial) (w := .new n) ⟨rfl, by simp [Wrapper.new]⟩
  exact ⟨w, outs, h1, mapM_of_faithful h2⟩

/-- **C78 (irreducible ideals).** If the decoder is between, then the consumer sees for each exponent vector the ideal generated by the powers of
variables in it, in the order of the variables, and each generator has zeros at all other variables, although the array
of the decoder is filled with zeros only at the start. -/
theorem C78_decoder {n z : ℕ} {calls : List WrapCall} {evss : List (List Seen)} (h : List.Forall₂ (WrapCall.Tells n) calls evss)
    (hz : ∀ c ∈ calls, c.HasZero z) {ideals : List (List (List ℤ))} (he : evss.flatten = ideals.flatMap (seenIdeal n)) :
    ∃ w outs d outs', runCalls Wrapper.call (.new n) calls = some (w, outs) ∧ runCalls Decoder.call (.new z) outs = some (d, outs') ∧
      outs'.mapM (UserCall.see n) = some (ideals.flatMap fun gens => gens.flatMap fun es => seenIdeal n (purePowers n es)) := by
  obtain ⟨w, outs, h1, h2⟩ := Wrapper.run_spec (Q := ZeroAt z) h (fun c hc => by have := hz c hc; cases c <;> exact this) (w := .new n) ⟨rfl, by simp [Wrapper.new]⟩
  rw [he] at h2
  obtain ⟨d, outs', h3, h4⟩ := Decoder.run_spec (d := .new z) rfl h2
  exact ⟨w, outs, d, outs', h1, h3, h4⟩

/-! ## A case -/

/-- Numbers in memory: zero at 0, and exponents at 1 to 4. -/
def wrapMemory : NumberCells := fun a => [0, 7, 5, 3, 2][a]?

/-- A ring, an ideal of a vector with the exponents 7, 0, 5, and of a term with a translator. -/
def wrapExample : List WrapCall :=
  [.ring, .begin, .vector wrapMemory none [1, 0, 2], .translated wrapMemory none [[0, 3], [0, 4, 1], [0, 2]] [0, 1, 1], .done]

/-- What it tells. -/
def wrapTold : List (List Seen) := [[], [.begin 3], [.term none [7, 0, 5]], [.term none [0, 2, 5]], [.done]]

example : List.Forall₂ (WrapCall.Tells 3) wrapExample wrapTold := by
  refine .cons rfl (.cons rfl (.cons ⟨none, _, rfl, rfl, by simp, rfl, rfl, ?_⟩ (.cons ⟨none, _, rfl, rfl, by simp, rfl, ?_⟩ (.cons rfl .nil))))
  · intro v hv
    match v, hv with
    | 0, _ => exact ⟨1, rfl, rfl⟩
    | 1, _ => exact ⟨0, rfl, rfl⟩
    | 2, _ => exact ⟨2, rfl, rfl⟩
  · intro v hv
    match v, hv with
    | 0, _ => exact ⟨_, _, 0, rfl, rfl, rfl, rfl⟩
    | 1, _ => exact ⟨_, _, 4, rfl, rfl, rfl, rfl⟩
    | 2, _ => exact ⟨_, _, 2, rfl, rfl, rfl, rfl⟩

example : ∀ c ∈ wrapExample, c.HasZero 0 := by simp [wrapExample, WrapCall.HasZero, wrapMemory]

example : wrapTold.flatten = [[[7, 0, 5], [0, 2, 5]]].flatMap (seenIdeal 3) := rfl

example : [[[7, 0, 5], [0, 2, 5]]].flatMap (fun gens => gens.flatMap fun es => seenIdeal 3 (purePowers 3 es)) =
    [.begin 3, .term none [7, 0, 0], .term none [0, 0, 5], .done, .begin 3, .term none [0, 2, 0], .term none [0, 0, 5], .done] := by decide +kernel

/-- The same from the model. -/
example : ((runCalls Wrapper.call (.new 3) wrapExample).bind fun r => (runCalls Decoder.call (.new 0) r.2).bind fun q => q.2.mapM (UserCall.see 3)) =
    some [.begin 3, .term none [7, 0, 0], .term none [0, 0, 5], .done, .begin 3, .term none [0, 2, 0], .term none [0, 0, 5], .done] := by decide +kernel

/-- A polynomial with the term 7·x^5. -/
example : WrapCall.Tells 1 (.vector wrapMemory (some 1) [2]) [.term (some 7) [5]] :=
  ⟨some 7, [5], rfl, rfl, fun _ => rfl, rfl, rfl, fun v hv => match v, hv with | 0, _ => ⟨2, rfl, rfl⟩⟩

end Frobby
