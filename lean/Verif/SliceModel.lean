import Verif.IdealModel

/-!
# Model of `Slice` (src/Slice.cpp) and the virtual methods of `MsmSlice` and `HilbertSlice`

A slice carries its cached lcm and the lower bound hint, exactly like the C++ object. Methods that modify the object
return the new object. Generators are kept up to order (see IdealModel.lean).
-/

namespace Frobby

variable {n : ℕ}

/-- The data members of `Slice` (Slice.h:190-215; `_varCount` is `n`). -/
structure Slice (n : ℕ) where
  ideal : List (Term n)
  subtract : List (Term n)
  multiply : Term n
  lcm : Term n
  lcmUpdated : Bool
  hint : ℕ

/-- Which derived class of `Slice` the object has. -/
inductive Kind where
  | msm
  | hilbert
deriving DecidableEq

namespace Slice

/-- `Slice::Slice(strategy, ideal, subtract, multiply)` (Slice.cpp:33-45). -/
def new (ideal subtract : List (Term n)) (multiply : Term n) : Slice n :=
  { ideal, subtract, multiply, lcm := 0, lcmUpdated := false, hint := 0 }

/-- The value returned by `Slice::getLcm` (Slice.cpp:52-66). -/
def getLcm (s : Slice n) : Term n := if s.lcmUpdated then s.lcm else lcmOf s.ideal

/-- The effect of `Slice::getLcm` on the cache (Slice.cpp:61-64). -/
def touchLcm (s : Slice n) : Slice n := { s with lcm := s.getLcm, lcmUpdated := true }

/-- `Slice::clearIdealAndSubtract` (Slice.cpp:99-104). -/
def clear (s : Slice n) : Slice n :=
  { s with ideal := [], subtract := [], lcmUpdated := false, hint := 0 }

/-- `Slice::normalize` (Slice.cpp:189-202). The loop over the subtract with one `removeIf` for each element is one
filter here. -/
def normalize (s : Slice n) : Slice n :=
  let I := s.ideal.filter fun g => !(s.subtract.any fun t => decide (Term.strictlyDivides t g))
  { s with ideal := I, lcmUpdated := if I.length = s.ideal.length then s.lcmUpdated else false }

/-- `Slice::innerSlice` (Slice.cpp:110-130). -/
def innerBase (p : Term n) (s : Slice n) : Slice n × Bool :=
  let I := colonReminimize p s.ideal
  let S := colonReminimize p s.subtract
  let changed := I.2 || S.2
  let s1 : Slice n := { s with ideal := I.1, subtract := S.1, multiply := s.multiply + p }
  let s2 : Slice n := if changed then { s1.normalize with hint := Term.firstNonZero p } else s1
  let s3 : Slice n :=
    if s2.ideal.length = s.ideal.length then { s2 with lcm := s2.lcm - p } else { s2 with lcmUpdated := false }
  (s3, changed)

/-- `Slice::outerSlice` (Slice.cpp:132-144). -/
def outerBase (p : Term n) (s : Slice n) : Slice n :=
  let I := removeStrictMultiples p s.ideal
  { s with
    ideal := I
    lcmUpdated := if I.length = s.ideal.length then s.lcmUpdated else false
    subtract := if 1 < Term.sizeOfSupport p then insertReminimize p s.subtract else s.subtract
    hint := Term.firstNonZero p }

/-- `DoubleLcmPredicate` (MsmSlice.cpp:170-193): the term agrees with the lcm in two variables. -/
def isDoubleLcm (lcm g : Term n) : Bool := decide (∃ i j : Fin n, i < j ∧ g i = lcm i ∧ g j = lcm j)

/-- The loop of `MsmSlice::removeDoubleLcm` (MsmSlice.cpp:201-208). Every iteration but the last removes a generator,
so `length + 1` iterations suffice. -/
def removeDoubleLcmLoop : ℕ → Slice n → Slice n × Bool
  | 0, s => (s, false)
  | fuel + 1, s =>
    let s := s.touchLcm
    let I := s.ideal.filter fun g => !isDoubleLcm s.lcm g
    if I.length = s.ideal.length then (s, false)
    else ((removeDoubleLcmLoop fuel { s with ideal := I, lcmUpdated := false }).1, true)

/-- `MsmSlice::removeDoubleLcm` (MsmSlice.cpp:195-211). -/
def removeDoubleLcm (s : Slice n) : Slice n × Bool :=
  if s.ideal.isEmpty then (s, false) else removeDoubleLcmLoop (s.ideal.length + 1) s

/-- `innerSlice`: `MsmSlice::innerSlice` (MsmSlice.cpp:143-153), or `Slice::innerSlice` for `HilbertSlice`. -/
def inner (k : Kind) (p : Term n) (s : Slice n) : Slice n × Bool :=
  let r := s.innerBase p
  match k with
  | .hilbert => r
  | .msm =>
    if r.1.lcmUpdated then r
    else
      let d := r.1.removeDoubleLcm
      (d.1, d.2 || r.2)

/-- `outerSlice`: `MsmSlice::outerSlice` (MsmSlice.cpp:155-163), or `Slice::outerSlice` for `HilbertSlice`. -/
def outer (k : Kind) (p : Term n) (s : Slice n) : Slice n :=
  let r := s.outerBase p
  match k with
  | .hilbert => r
  | .msm => if r.lcmUpdated then r else r.removeDoubleLcm.1

/-- The least positive exponent of `v` among the generators, 0 if there is none (Slice.cpp:167-175). -/
def leastPositive (G : List (Term n)) (v : Fin n) : ℕ :=
  G.foldl (fun acc g => if g v = 0 then acc else if acc = 0 ∨ g v < acc then g v else acc) 0

/-- The loop of `Slice::adjustMultiply` (Slice.cpp:164-185). Every iteration but the last decreases
the lcm, so `deg lcm + 1` iterations suffice. -/
def adjustMultiplyLoop (k : Kind) : ℕ → Bool → Slice n → Slice n × Bool
  | 0, changed, s => (s, changed)
  | fuel + 1, changed, s =>
    let b : Term n := fun v => leastPositive s.ideal v - 1
    if b = 0 then (s, changed)
    else
      let r := s.inner k b
      if r.2 then adjustMultiplyLoop k fuel true r.1 else (r.1, true)

/-- `Slice::adjustMultiply` (Slice.cpp:162-187). -/
def adjustMultiply (k : Kind) (s : Slice n) : Slice n × Bool :=
  adjustMultiplyLoop k (Term.deg (lcmOf s.ideal) + 1) false s

/-- The terms considered in `MsmSlice::getLowerBound` (MsmSlice.cpp:218-229): those that may be a `v`-label. -/
def msmCandidates (s : Slice n) (v : Fin n) : List (Term n) :=
  s.ideal.filter fun g => decide (g v ≠ 0 ∧ ∀ w, w ≠ v → g w ≠ s.getLcm w)

/-- `MsmSlice::getLowerBound` (MsmSlice.cpp:213-242). The model is used for `n ≥ 2` only, as in the code (234). -/
def msmLowerBound (s : Slice n) (v : Fin n) : Option (Term n) :=
  let lcm := s.getLcm
  let b := (s.msmCandidates v).foldl (· ⊓ ·) lcm
  if ∀ i : Fin n, i.val < 2 → b i = lcm i then none
  else some (Function.update b v (b v - 1))

/-- `HilbertSlice::getLowerBound` (HilbertSlice.cpp:95-119): the gcd of the generators divisible by `v`, then
decrement. -/
def hilbertLowerBound (s : Slice n) (v : Fin n) : Option (Term n) :=
  match s.ideal.filter fun g => decide (g v ≠ 0) with
  | [] => none
  | g :: gs => some (Term.decrement (gs.foldl (· ⊓ ·) g))

/-- `getLowerBound` with its effect on the lcm cache. -/
def lowerBound (k : Kind) (s : Slice n) (v : Fin n) : Slice n × Option (Term n) :=
  match k with
  | .msm => (s.touchLcm, s.msmLowerBound v)
  | .hilbert => (s, s.hilbertLowerBound v)

/-- The loop of `Slice::applyLowerBound` (Slice.cpp:299-316). `none` means that the loop did not end within the fuel
or used a variable out of range; both are proved not to happen. -/
def applyLowerBoundLoop (k : Kind) : (fuel steps : ℕ) → Bool → (var : ℕ) → Slice n → Option (Slice n × Bool)
  | 0, _, _, _, _ => none
  | fuel + 1, steps, changed, var, s =>
    if n ≤ steps then some (s, changed)
    else if h : var < n then
      match s.lowerBound k ⟨var, h⟩ with
      | (s, none) => some (s.clear, true)
      | (s, some b) =>
        if b = 0 then applyLowerBoundLoop k fuel (steps + 1) changed ((var + 1) % n) s
        else
          let r := s.inner k b
          applyLowerBoundLoop k fuel (if r.2 then 0 else steps + 1) true ((var + 1) % n) r.1
    else none

/-- `Slice::applyLowerBound` (Slice.cpp:289-319). -/
def applyLowerBound (k : Kind) (s : Slice n) : Option (Slice n × Bool) :=
  if s.ideal.isEmpty then some (s, false)
  else if n = 1 then some (s.adjustMultiply k)
  else applyLowerBoundLoop k ((Term.deg (lcmOf s.ideal) + 1) * (n + 1) + 1) 0 false s.hint s

/-- `Slice::pruneSubtract` (Slice.cpp:262-287). -/
def pruneSubtract (s : Slice n) : Slice n × Bool :=
  if s.subtract.isEmpty then (s, false)
  else
    let s := s.touchLcm
    let S := s.subtract.filter fun t => !(!decide (Term.strictlyDivides t s.lcm) || contains s.ideal t)
    ({ s with subtract := S }, decide (S.length ≠ s.subtract.length))

/-- `Slice::simplify` (Slice.cpp:204-215). -/
def simplify (k : Kind) (s : Slice n) : Option (Slice n × Bool) :=
  match s.applyLowerBound k with
  | none => none
  | some r =>
    let q := r.1.pruneSubtract
    some (q.1, r.2 || q.2)

end Slice

end Frobby
