import Verif.SliceModel

/-!
# Model of the base cases of `MsmSlice` (src/MsmSlice.cpp)

A base case that emits terms is modelled by the list of the terms passed to the consumer, in order.
-/

namespace Frobby

variable {n : ℕ}

namespace Slice

/-- Emit `multiply * u` for the candidates `u` not in the subtract, as in MsmSlice.cpp:271-276, 305-309, 396-399,
412-415. -/
def emit (s : Slice n) (cands : List (Term n)) : List (Term n) :=
  (cands.filter fun u => !contains s.subtract u).map (s.multiply + ·)

/-- The loop of `MsmSlice::twoVarBaseCase` (MsmSlice.cpp:261-277) over the generators sorted by the first variable. -/
def twoVarMsms (v0 v1 : Fin n) : List (Term n) → List (Term n)
  | a :: b :: l => (fun i => if i = v0 then b v0 - 1 else a v1 - 1) :: twoVarMsms v0 v1 (b :: l)
  | _ => []

/-- `MsmSlice::twoVarBaseCase` (MsmSlice.cpp:244-278). -/
def twoVarBaseCase (h : n = 2) (s : Slice n) : List (Term n) :=
  s.emit (twoVarMsms ⟨0, by omega⟩ ⟨1, by omega⟩ (singleDegreeSort ⟨0, by omega⟩ s.ideal))

/-- `MsmSlice::oneMoreGeneratorBaseCase` (MsmSlice.cpp:280-313): `it` is the first generator that is not a pure
power. The additions to and subtractions from `_multiply` cancel and are left out. -/
def oneMoreBaseCase (s : Slice n) : List (Term n) :=
  match s.ideal.find? fun g => decide (Term.sizeOfSupport g ≠ 1) with
  | none => []
  | some it =>
    s.emit (((List.finRange n).filter fun v => decide (it v = 1)).map fun v =>
      Function.update (Term.decrement s.getLcm) v 0)

/-- The generators without a maximal exponent (`getTheOnlyTwoNonMax`, MsmSlice.cpp:316-341). -/
def nonMax (s : Slice n) : List (Term n) := s.ideal.filter fun g => decide (∀ v, g v ≠ s.getLcm v)

/-- Every variable has a label for the pair `(v1, v2)`; `tmp` in MsmSlice.cpp:373-388. The inner loop stops at the
first variable with maximal exponent. -/
def twoNonMaxLabels (s : Slice n) (h1 h2 : Term n) (v1 v2 : Fin n) : Bool :=
  decide (∀ w, w = v1 ∨ w = v2 ∨ ∃ g ∈ s.ideal, (g v1 < h1 v1 ∧ g v2 < h2 v2) ∧
    (List.finRange n).find? (fun v => decide (g v = s.getLcm v)) = some w)

/-- The candidates with two labels that are not maximal (MsmSlice.cpp:357-403). -/
def twoNonMaxPairs (s : Slice n) (h1 h2 : Term n) : List (Term n) :=
  ((List.finRange n).filter fun v1 => decide (h1 v1 ≠ 0 ∧ h2 v1 < h1 v1)).flatMap fun v1 =>
    ((List.finRange n).filter fun v2 => decide (v1 ≠ v2 ∧ h2 v2 ≠ 0 ∧ h1 v2 < h2 v2) &&
        s.twoNonMaxLabels h1 h2 v1 v2).map fun v2 =>
      Function.update (Function.update (Term.decrement s.getLcm) v1 (h1 v1 - 1)) v2 (h2 v2 - 1)

/-- The candidates with one label that is not maximal (MsmSlice.cpp:405-417). -/
def twoNonMaxSingles (s : Slice n) (h1 h2 : Term n) : List (Term n) :=
  ((List.finRange n).filter fun v => decide (min (h1 v) (h2 v) ≠ 0)).map fun v =>
    Function.update (Term.decrement s.getLcm) v (min (h1 v) (h2 v) - 1)

/-- `MsmSlice::twoNonMaxBaseCase` (MsmSlice.cpp:343-420); `none` is the return value `false`. -/
def twoNonMaxBaseCase (s : Slice n) : Option (List (Term n)) :=
  match s.nonMax with
  | [h1, h2] => some (s.emit (s.twoNonMaxPairs h1 h2 ++ s.twoNonMaxSingles h1 h2))
  | _ => none

/-- `MsmSlice::baseCase(simplified)` (MsmSlice.cpp:40-112): `some` of the emitted terms, or `none` if this is not a
base case. -/
def msmBaseCase (simplified : Bool) (s : Slice n) : Option (List (Term n)) :=
  if s.ideal.length < n then some []
  else if Term.sizeOfSupport s.getLcm < n then some []
  else if n = 0 then some (if s.ideal.isEmpty then [s.multiply] else [])
  else if n = 1 then some [s.multiply]
  else if simplified = false then
    if Term.isSquareFree s.getLcm then some [s.multiply]
    else if s.ideal.length = n then
      if s.subtract.isEmpty then some [s.multiply + Term.decrement s.getLcm]
      else
        let t := (s.touchLcm.inner .msm (Term.decrement s.getLcm)).1
        if t.ideal.length < n then some [] else some [t.multiply]
    else none
  else if h : n = 2 then some (s.twoVarBaseCase h)
  else if n < s.ideal.length then
    if s.ideal.length = n + 1 then some s.oneMoreBaseCase else s.twoNonMaxBaseCase
  else some [s.multiply]

end Slice

end Frobby
