import Verif.PolyIOModel
import Mathlib.Data.List.FinRange
import Mathlib.Data.Fin.VecNotation

/-!
# Model: saturated binomial ideals

A generator `x^u - x^w` of a lattice ideal is stored as the vector `u - w` of integers. A list of such vectors of length `n` is a
list of functions on `Fin n`. The vectors are those of `SatBinomIdeal::_gens`; the names of the variables only appear in the reader.
-/

namespace Frobby

/-- The vector of a binomial. -/
abbrev Binom (n : ℕ) := Fin n → ℤ

namespace SatBinom

variable {n : ℕ}

/-- `SatBinomIdeal::hasZeroEntry` (SatBinomIdeal.cpp:140-146). -/
def hasZeroEntry (G : List (Binom n)) : Bool := G.any fun g => (List.finRange n).any fun v => g v == 0

/-- `SatBinomIdeal::isDominating` (SatBinomIdeal.cpp:337-350). -/
def isDominating (G : List (Binom n)) (w : Binom n) : Bool := G.any fun g => (List.finRange n).all fun v => !decide (w v < g v)

/-- The right hand side in `SatBinomIdeal::isPointFreeBody` (SatBinomIdeal.cpp:182-188). -/
def rhs2 (a b : Binom n) : Binom n := fun v =>
  let x := if a v > b v then a v else b v
  let x := if x < 0 then 0 else x
  x - 1

/-- The right hand side in `SatBinomIdeal::isPointFreeBody` for three vectors (SatBinomIdeal.cpp:201-208). -/
def rhs3 (a b c : Binom n) : Binom n := fun v =>
  let x := if a v > b v then a v else b v
  let x := if x > c v then x else c v
  let x := if x < 0 then 0 else x
  x - 1

/-- `SatBinomIdeal::isPointFreeBody` (SatBinomIdeal.cpp:175-191). -/
def isPointFreeBody (G : List (Binom n)) (a b : Binom n) : Bool := !isDominating G (rhs2 a b)

/-- `SatBinomIdeal::isPointFreeBody` for three vectors (SatBinomIdeal.cpp:193-211). -/
def isPointFreeBody3 (G : List (Binom n)) (a b c : Binom n) : Bool := !isDominating G (rhs3 a b c)

/-- The test for an entry in common in `SatBinomIdeal::initialIdealIsWeaklyGeneric` (SatBinomIdeal.cpp:156-163). -/
def sharesEntry (a b : Binom n) : Bool := (List.finRange n).any fun v => a v == b v && decide (a v > 0)

/-- The two loops that go through the generators and for each of them through those after it
(SatBinomIdeal.cpp:151-152, 312-313). -/
def allPairs {α : Type} (ok : α → α → Bool) : List α → Bool
  | [] => true
  | a :: later => later.all (ok a) && allPairs ok later

/-- The same two loops, with a count. -/
def countPairs {α : Type} (p : α → α → Bool) : List α → ℕ
  | [] => 0
  | a :: later => later.countP (p a) + countPairs p later

/-- `SatBinomIdeal::initialIdealIsWeaklyGeneric` (SatBinomIdeal.cpp:148-173). -/
def initialIdealIsWeaklyGeneric (G : List (Binom n)) : Bool := allPairs (fun a b => !(sharesEntry a b && isPointFreeBody G a b)) G

/-- `SatBinomIdeal::isGeneric` (SatBinomIdeal.cpp:327-329). -/
def isGeneric (G : List (Binom n)) : Bool := !hasZeroEntry G && initialIdealIsWeaklyGeneric G

/-- `SatBinomIdeal::isInterior` (SatBinomIdeal.cpp:213-224). The loop starts at the variable 1. -/
def isInterior (G : List (Binom n)) (a b : Binom n) : Bool :=
  isPointFreeBody G a b && (List.finRange n).all fun v => v.val == 0 || !(decide (a v ≤ 0) && decide (b v ≤ 0))

/-- `SatBinomIdeal::isInteriorEdge` (SatBinomIdeal.cpp:280-293), for the generators and not for their numbers. -/
def isInteriorEdge (G : List (Binom n)) (a b : Binom n) : Bool :=
  if isInterior G a a then false else if isInterior G b b then false else isInterior G b fun v => a v + b v

/-- `SatBinomIdeal::isTerminatingEdge` (SatBinomIdeal.cpp:295-306), for the generators and not for their numbers. -/
def isTerminatingEdge (G : List (Binom n)) (a b : Binom n) : Bool :=
  if !isInteriorEdge G a b then false else isPointFreeBody G a fun v => a v + b v

/-- `SatBinomIdeal::getDoubleTriangleCount` (SatBinomIdeal.cpp:308-325). -/
def doubleTriangleCount (G : List (Binom n)) : ℕ :=
  countPairs (fun a b => isPointFreeBody G a (fun v => a v + b v) && isPointFreeBody G b (fun v => a v + b v)) G

/-- The loop of `SatBinomIdeal::removeGeneratorsWithLeadingZero` (SatBinomIdeal.cpp:95-104) and
`SatBinomIdeal::removeGeneratorsWithoutLeadingZero` (106-115), from the generator with the number `i` on: a generator with `p` is
overwritten by the last generator, and the last generator goes away. The fuel is the number of steps. -/
def removeLoop (p : Binom n → Bool) : ℕ → ℕ → List (Binom n) → List (Binom n)
  | 0, _, G => G
  | fuel + 1, i, G =>
    match G[i]?, G.getLast? with
    | some g, some last => if p g then removeLoop p fuel i (G.set i last).dropLast else removeLoop p fuel (i + 1) G
    | _, _ => G

/-- `SatBinomIdeal::removeGeneratorsWithLeadingZero` (SatBinomIdeal.cpp:95-104). -/
def removeWithLeadingZero (G : List (Binom (n + 1))) : List (Binom (n + 1)) := removeLoop (fun g => g 0 == 0) G.length 0 G

/-- `SatBinomIdeal::removeGeneratorsWithoutLeadingZero` (SatBinomIdeal.cpp:106-115). -/
def removeWithoutLeadingZero (G : List (Binom (n + 1))) : List (Binom (n + 1)) := removeLoop (fun g => g 0 != 0) G.length 0 G

/-- `SatBinomIdeal::getInitialIdeal` (SatBinomIdeal.cpp:117-127). The exponents are 0 before they are set. -/
def initialIdeal (G : List (Binom n)) : List (Fin n → ℕ) := G.map fun g v => if g v > 0 then (g v).toNat else 0

/-- The loop over the generators in `hasCycle` (SatBinomIdeal.cpp:236-240). -/
def exploreAll (visit : ℕ → List ℕ → Option (Bool × List ℕ)) (edge : ℕ → Bool) : List ℕ → List ℕ → Option (Bool × List ℕ)
  | [], color => some (false, color)
  | g :: gs, color =>
    if edge g then
      match visit g color with
      | none => none
      | some (true, color') => some (true, color')
      | some (false, color') => exploreAll visit edge gs color'
    else exploreAll visit edge gs color

/-- `hasCycle` (SatBinomIdeal.cpp:227-243) with the colors of the generators after it. The fuel bounds the depth of the recursion,
and `none` is no answer within that depth. -/
def hasCycle (edge : ℕ → ℕ → Bool) (count : ℕ) : ℕ → ℕ → List ℕ → Option (Bool × List ℕ)
  | 0, _, _ => none
  | fuel + 1, gen, color =>
    if color.getD gen 0 = 1 then some (true, color)
    else if color.getD gen 0 = 2 then some (false, color)
    else
      match exploreAll (hasCycle edge count fuel) (edge gen) (List.range count) (color.set gen 1) with
      | none => none
      | some (true, color') => some (true, color')
      | some (false, color') => some (false, color'.set gen 2)

/-- The edges in `hasCycle` (SatBinomIdeal.cpp:237-238). -/
def properEdge (G : List (Binom n)) (i j : ℕ) : Bool :=
  match G[i]?, G[j]? with
  | some a, some b => isInteriorEdge G a b && !isTerminatingEdge G a b
  | _, _ => false

/-- The first loop of `SatBinomIdeal::validate` (SatBinomIdeal.cpp:254-257). The depth of the recursion is at most one more than the
number of generators. -/
def anyCycle (G : List (Binom n)) : Option (Bool × List ℕ) :=
  exploreAll (hasCycle (properEdge G) G.length (G.length + 1)) (fun _ => true) (List.range G.length) (List.replicate G.length 0)

/-- The check of a generator in the second loop of `SatBinomIdeal::validate` (SatBinomIdeal.cpp:260-275). -/
def degreeOk (G : List (Binom n)) (a : Binom n) : Bool :=
  let outDegree := G.countP fun b => isInteriorEdge G a b
  if isInterior G a a then outDegree == 0 else outDegree == 1

/-- `SatBinomIdeal::validate` (SatBinomIdeal.cpp:246-278). `none` is no answer from `hasCycle`. -/
def validate (G : List (Binom n)) : Option Bool :=
  if hasZeroEntry G then some true
  else
    match anyCycle G with
    | none => none
    | some (true, _) => some false
    | some (false, _) => some (G.all (degreeOk G))

end SatBinom

/-- A `SatBinomIdeal` as it is read: the names of the variables and the vectors. -/
structure NamedBinoms where
  names : List Text
  gens : List (List ℤ)
deriving DecidableEq

/-- One entry in `Fourti2::readSatBinomIdeal` (Fourti2IOHandler.cpp:414-415). -/
def readBinomEntry (row : List ℤ) (t : Text) : Option (List ℤ × Text) := (readInteger t).map fun p => (row ++ [p.1], p.2)

/-- One generator in `Fourti2::readSatBinomIdeal` (Fourti2IOHandler.cpp:411-416). -/
def readBinom (varCount : ℕ) (gens : List (List ℤ)) (t : Text) : Option (List (List ℤ) × Text) :=
  (readTimes readBinomEntry varCount [] t).map fun p => (gens ++ [p.1], p.2)

/-- `Fourti2IOHandler::doReadSatBinomIdeal` (Fourti2IOHandler.cpp:283-292) with `Fourti2::readSatBinomIdeal` (400-425). -/
def readSatBinom (t : Text) : Option (NamedBinoms × Text) := do
  let (generatorCount, r) ← readSizeT t
  let (varCount, r) ← readSizeT r
  let (gens, r) ← readTimes (readBinom varCount) generatorCount [] r
  if peekIdentifier r then
    let (names, r) ← readTimes readName varCount [] r
    some (⟨names, gens⟩, r)
  else some (⟨defaultNames varCount, gens⟩, r)

end Frobby
