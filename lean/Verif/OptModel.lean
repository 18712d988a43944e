import Verif.TranslatorModel

/-!
# Model of `TermGrader`, `OptimizeStrategy` and the optimization programs of `SliceFacade`

Every access to the table of grades can fail (`none`); the proofs show that it never does. The value returned by
`OptimizeStrategy::simplify` is not used by any caller and is left out.
-/

namespace Frobby

variable {n : ℕ}

/-- A loop over the variables that fills in the entries of a vector, each of which may fail. -/
def mkTerm {α : Type} (f : Fin n → Option α) : Option (Fin n → α) :=
  if h : ∀ v, (f v).isSome then some fun v => (f v).get (h v) else none

/-! ## TermGrader -/

/-- The data members of `TermGrader` (TermGrader.h:118-119). -/
structure Grader (n : ℕ) where
  grades : Fin n → List ℤ
  signs : Fin n → ℤ

namespace Grader

/-- The constructor (TermGrader.cpp:24-45). -/
def new (d : Fin n → ℤ) (T : Translator n) : Grader n :=
  { grades := fun v => (T v).map fun e => d v * e
    signs := fun v => if 0 < d v then 1 else if d v < 0 then -1 else 0 }

/-- `TermGrader::getGrade` (TermGrader.cpp:275-280). -/
def grade? (g : Grader n) (v : Fin n) (e : ℕ) : Option ℤ := (g.grades v)[e]?

/-- `TermGrader::getMaxExponent` (TermGrader.cpp:282-285). -/
def maxExp (g : Grader n) (v : Fin n) : ℕ := (g.grades v).length - 1

/-- `TermGrader::getDegree` (TermGrader.cpp:53-58). -/
def degree (g : Grader n) (t : Term n) : Option ℤ := (mkTerm fun v => g.grade? v (t v)).map fun f => ∑ v, f v

/-- The exponent chosen in `TermGrader::getUpperBound` (TermGrader.cpp:86-112) when the sign is not zero. -/
def optimalExp (g : Grader n) (v : Fin n) (div dom : ℕ) : ℕ :=
  if div = dom then div
  else if 0 < g.signs v then if dom = g.maxExp v then dom - 1 else dom
  else if dom = g.maxExp v then dom else div

/-- `TermGrader::getUpperBound` (TermGrader.cpp:69-116). -/
def upperBound (g : Grader n) (div dom : Term n) : Option ℤ :=
  (mkTerm fun v => if g.signs v = 0 then some 0 else g.grade? v (g.optimalExp v (div v) (dom v))).map fun f => ∑ v, f v

/-- The first index in the list whose grade is at most `maxDegree`; the inner `none` is the return value `false`. -/
def scan (g : Grader n) (v : Fin n) (maxDegree : ℤ) : List ℕ → Option (Option ℕ)
  | [] => some none
  | e :: es =>
    match g.grade? v e with
    | none => none
    | some x => if x ≤ maxDegree then some (some e) else g.scan v maxDegree es

/-- `TermGrader::getMinIndexLessThan` (TermGrader.cpp:125-150). -/
def minIndexLessThan (g : Grader n) (v : Fin n) (lo hi : ℕ) (maxDegree : ℤ) : Option (Option ℕ) :=
  g.scan v maxDegree (List.range' lo (hi + 1 - lo))

/-- `TermGrader::getMaxIndexLessThan` (TermGrader.cpp:152-177). -/
def maxIndexLessThan (g : Grader n) (v : Fin n) (lo hi : ℕ) (maxDegree : ℤ) : Option (Option ℕ) :=
  g.scan v maxDegree (List.range' lo (hi + 1 - lo)).reverse

end Grader

/-! ## OptimizeStrategy -/

/-- `OptimizeStrategy::BoundSetting` (OptimizeStrategy.h:35-58). -/
inductive Bound where
  | off
  | eliminate
  | eliminateAndSimplify
deriving DecidableEq

/-- The options given to the constructor (OptimizeStrategy.cpp:23-39). The constructor turns independence splits off. -/
structure OptConfig (n : ℕ) where
  grader : Grader n
  opts : Opts
  all : Bool
  bound : Bound

/-- The data members that change (OptimizeStrategy.h). -/
structure OptState (n : ℕ) where
  sols : List (Term n)
  maxValue : ℤ
  toBeat : ℤ

/-- The state after construction and `beginConsuming` (OptimizeStrategy.cpp:54-56): `mpz_class` numbers start as 0. -/
def OptState.init (n : ℕ) : OptState n := { sols := [], maxValue := 0, toBeat := 0 }

/-- `OptimizeStrategy::consume` (OptimizeStrategy.cpp:58-72). -/
def optConsume (c : OptConfig n) (st : OptState n) (t : Term n) : Option (OptState n) :=
  match c.grader.degree t with
  | none => none
  | some d =>
    if st.sols.isEmpty || decide (st.toBeat < d) then
      if c.all && decide (d = st.maxValue) then some { st with sols := st.sols ++ [t] }
      else some { sols := [t], maxValue := d, toBeat := d - (if c.all then 1 else 0) }
    else some st

/-- `OptimizeStrategy::getDominator` (OptimizeStrategy.cpp:329-348); `none` is the return value `false`. -/
def Slice.getDominator (s : Slice n) : Slice n × Option (Term n) :=
  if ∃ v, s.getLcm v = 0 then (s.touchLcm.clear, none) else (s.touchLcm, some fun v => s.multiply v + s.getLcm v - 1)

/-- `OptimizeStrategy::changedInWayRelevantToBound` (OptimizeStrategy.cpp:159-201). -/
def relevantChange (g : Grader n) (oldDiv oldDom newDiv newDom : Term n) : List (Fin n) → Bool
  | [] => false
  | v :: vs =>
    if oldDiv v = newDiv v ∧ oldDom v = newDom v then relevantChange g oldDiv oldDom newDiv newDom vs
    else if g.signs v < 0 then
      if oldDiv v < newDiv v then true
      else if oldDom v = g.maxExp v then true
      else relevantChange g oldDiv oldDom newDiv newDom vs
    else if 0 < g.signs v then
      if newDom v < oldDom v then decide (newDom v < g.maxExp v - 1)
      else if newDiv v = newDom v ∧ newDom v = g.maxExp v then true
      else relevantChange g oldDiv oldDom newDiv newDom vs
    else relevantChange g oldDiv oldDom newDiv newDom vs

/-- The entry of the pivot in `getInnerSimplify` for positive sign and `B` (OptimizeStrategy.cpp:247-258). -/
def innerEntryPos (g : Grader n) (toBeat ub : ℤ) (v : Fin n) (div B : ℕ) : Option ℕ :=
  match g.grade? v B with
  | none => none
  | some x => (g.maxIndexLessThan v div (B - 1) (toBeat - ub + x)).map fun r =>
    match r with
    | none => 0
    | some t => t - div + 1

/-- The entry of the pivot in the loop of `OptimizeStrategy::getInnerSimplify` (OptimizeStrategy.cpp:227-271). -/
def innerEntry (g : Grader n) (toBeat ub : ℤ) (v : Fin n) (div dom : ℕ) : Option ℕ :=
  if div = dom then some 0
  else if 0 < g.signs v then
    if dom ≠ g.maxExp v then innerEntryPos g toBeat ub v div dom
    else if div = dom - 1 then some 0
    else innerEntryPos g toBeat ub v div (dom - 1)
  else if g.signs v < 0 then
    if dom ≠ g.maxExp v then some 0
    else
      match g.grade? v dom, g.grade? v div with
      | some x, some y => some (if ub - x + y ≤ toBeat then dom - div else 0)
      | _, _ => none
  else some 0

/-- `OptimizeStrategy::getInnerSimplify` (OptimizeStrategy.cpp:220-275). The return value is true if and only if the
pivot is not the identity, as asserted in line 273. -/
def innerPivot (g : Grader n) (toBeat ub : ℤ) (div dom : Term n) : Option (Term n) :=
  mkTerm fun v => innerEntry g toBeat ub v (div v) (dom v)

/-- The body of the loop of `OptimizeStrategy::getOuterSimplify` (OptimizeStrategy.cpp:287-323): the exponent of the
pivot, 0 if the loop goes on. -/
def outerEntry (g : Grader n) (toBeat ub : ℤ) (v : Fin n) (div dom : ℕ) : Option ℕ :=
  if div = dom then some 0
  else if g.signs v < 0 then
    if dom = g.maxExp v then some 0
    else
      match g.grade? v div with
      | none => none
      | some x => (g.minIndexLessThan v (div + 1) dom (toBeat - ub + x)).map fun r =>
        match r with
        | none => 0
        | some t => t - div
  else if 0 < g.signs v then
    if dom ≠ g.maxExp v then some 0
    else
      match g.grade? v (dom - 1), g.grade? v dom with
      | some x, some y => some (if ub - x + y ≤ toBeat then dom - div else 0)
      | _, _ => none
  else some 0

/-- `OptimizeStrategy::getOuterSimplify` (OptimizeStrategy.cpp:277-327); the identity is the return value `false`. -/
def outerPivot (g : Grader n) (toBeat ub : ℤ) (div dom : Term n) : List (Fin n) → Option (Term n)
  | [] => some 0
  | v :: vs =>
    match outerEntry g toBeat ub v (div v) (dom v) with
    | none => none
    | some 0 => outerPivot g toBeat ub div dom vs
    | some e => some (Term.single v e)

/-- `OptimizeStrategy::boundSimplify` (OptimizeStrategy.cpp:203-218); the inner `none` is the return value `false`. -/
def boundSimplify (g : Grader n) (toBeat ub : ℤ) (dom : Term n) (s : Slice n) : Option (Option (Slice n)) :=
  match innerPivot g toBeat ub s.multiply dom with
  | none => none
  | some p =>
    if p ≠ 0 then some (some (s.inner .msm p).1)
    else
      match outerPivot g toBeat ub s.multiply dom (List.finRange n) with
      | none => none
      | some q => if q ≠ 0 then some (some (s.outer .msm q)) else some none

/-- `SliceStrategyCommon::simplify` (SliceStrategyCommon.cpp:55-63) with its return value. -/
def Slice.simplifyFlag (k : Kind) (o : Opts) (s : Slice n) : Option (Slice n × Bool) :=
  if o.simp then s.simplify k
  else if o.split.isLabel then some (s.adjustMultiply k)
  else some (s, false)

/-- The loop of `OptimizeStrategy::simplify` (OptimizeStrategy.cpp:100-154) for the two bound settings that reach it.
Every iteration but the last makes dominator and divisor come closer, see `optSimplifyLoop_spec`. -/
def optSimplifyLoop (c : OptConfig n) (st : OptState n) : ℕ → Bool → Term n → Slice n → Option (Slice n)
  | 0, _, _, _ => none
  | fuel + 1, first, dom, s =>
    match c.grader.upperBound s.multiply dom with
    | none => none
    | some ub =>
      if ub ≤ st.toBeat then some s.clear
      else if c.bound = .eliminate then
        match s.simplifyFlag .msm c.opts with
        | none => none
        | some r => if first && r.2 then optSimplifyLoop c st fuel false dom r.1 else some r.1
      else
        -- lines 142-153, for the slice as it is then
        let rest := fun (t : Slice n) =>
          match t.simplifyFlag .msm c.opts with
          | none => none
          | some (r, false) => some r
          | some (r, true) =>
            match r.getDominator with
            | (r, none) => some r
            | (r, some dom') =>
              if relevantChange c.grader s.multiply dom r.multiply dom' (List.finRange n) then
                optSimplifyLoop c st fuel false dom' r
              else some r
        match boundSimplify c.grader st.toBeat ub dom s with
        | none => none
        | some none => rest s
        | some (some t) =>
          match t.getDominator with
          | (t, none) => some t
          | (t, some dom') =>
            if relevantChange c.grader s.multiply dom t.multiply dom' (List.finRange n) then
              optSimplifyLoop c st fuel false dom' t
            else rest t

/-- `OptimizeStrategy::simplify` (OptimizeStrategy.cpp:81-157). -/
def optSimplify (c : OptConfig n) (st : OptState n) (s : Slice n) : Option (Slice n) :=
  if s.ideal.isEmpty then some s
  else if c.bound = .off ∨ st.sols = [] then s.simplifyWith .msm c.opts
  else
    match s.getDominator with
    | (s, none) => some s
    | (s, some dom) => optSimplifyLoop c st (Term.deg (lcmOf s.ideal) + 2) true dom s

/-- The loop of `DegreeSplit::getPivot` (SplitStrategy.cpp:411-434): `maxOffset` at the end. -/
def degreeLoop (g : Grader n) (mul lcm : Term n) : List (Fin n) → Fin n → ℤ → Option (Fin n)
  | [], off, _ => some off
  | v :: vs, off, maxDiff =>
    if lcm v ≤ 1 then degreeLoop g mul lcm vs off maxDiff
    else
      let base := mul v
      let mid := base + lcm v / 2
      let mid := if mid = g.maxExp v ∧ base < mid then mid - 1 else mid
      match g.grade? v mid, g.grade? v base with
      | some x, some y =>
        let diff := if g.signs v < 0 then -(x - y) else x - y
        if maxDiff < diff then degreeLoop g mul lcm vs v diff else degreeLoop g mul lcm vs off maxDiff
      | _, _ => none

/-- `DegreeSplit::getPivot` (SplitStrategy.cpp:404-438). -/
def degreePivot (g : Grader n) (mul lcm : Term n) : Option (Term n) :=
  if h : 0 < n then (degreeLoop g mul lcm (List.finRange n) ⟨0, h⟩ (-1)).map fun v => Term.single v (lcm v / 2) else none

/-- `OptimizeStrategy::getPivot` (OptimizeStrategy.cpp:77-79, MsmStrategy.cpp:292-297, SplitStrategy.cpp:44-46). -/
def optPivot (c : OptConfig n) (rnd : ℕ → ℕ) (s : Slice n) : Option (Term n) :=
  if c.opts.split = .degree then degreePivot c.grader s.multiply s.getLcm
  else getPivot c.opts.split rnd s.ideal s.getLcm

/-- The slices made by `MsmStrategy::labelSplit` (MsmStrategy.cpp:103-175) or `SliceStrategyCommon::pivotSplit`
(SliceStrategyCommon.cpp:77-111), the one processed first in front, simplified. The state does not change in between. -/
def Slice.optChildren (c : OptConfig n) (st : OptState n) (rnd : ℕ → ℕ) (s : Slice n) :
    Option (Slice n × Option (Slice n)) :=
  if c.opts.split.isLabel = true then
    match labelVar c.opts.split s.ideal with
    | none => none
    | some v =>
      match s.labelSplit .msm v with
      | (a, none) => (optSimplify c st a).map fun a => (a, none)
      | (a, some b) =>
        match optSimplify c st a, optSimplify c st b with
        | some a, some b => some (a, some b)
        | _, _ => none
  else
    match optPivot c rnd s with
    | none => none
    | some p =>
      match optSimplify c st (s.inner .msm p).1, optSimplify c st (s.outer .msm p) with
      | some inner, some outer =>
        if inner.ideal.length < outer.ideal.length then some (inner, some outer) else some (outer, some inner)
      | _, _ => none

/-- `MsmStrategy::processSlice` (MsmStrategy.cpp:67-85) for this strategy, and the task engine: the state after the slice
and its descendants have been processed. -/
def optProcess (c : OptConfig n) (rnd : List ℕ → ℕ → ℕ) : ℕ → List ℕ → OptState n → Slice n → Option (OptState n)
  | 0, _, _, _ => none
  | fuel + 1, path, st, s =>
    match s.msmBaseCase c.opts.simp with
    | some outs => outs.foldlM (optConsume c) st
    | none =>
      match s.touchLcm.optChildren c st (rnd path) with
      | none => none
      | some (a, none) => optProcess c rnd fuel (0 :: path) st a
      | some (a, some b) =>
        match optProcess c rnd fuel (0 :: path) st a with
        | none => none
        | some st => optProcess c rnd fuel (1 :: path) st b

/-- `MsmStrategy::run` (MsmStrategy.cpp:44-65) for this strategy. -/
def optRun (c : OptConfig n) (rnd : List ℕ → ℕ → ℕ) (I : List (Term n)) : Option (OptState n) :=
  match optSimplify c (OptState.init n) (Slice.new I [] 1).removeDoubleLcm.1 with
  | none => none
  | some s => optProcess c rnd (sliceFuel s) [] (OptState.init n) s

/-! ## SliceFacade -/

/-- The parameters of an optimization program: `simp` and `split` of `opts`, `getUseBoundElimination` and
`getUseBoundSimplification` as set in `SliceParams`, `reportAllSolutions`. -/
structure OptParams where
  opts : Opts
  boundElimination : Bool
  boundSimplification : Bool
  all : Bool

/-- The choice of `boundSetting` in `SliceFacade::solveProgram` (SliceFacade.cpp:388-406). -/
def OptParams.bound (p : OptParams) : Bound :=
  if p.boundSimplification then .eliminateAndSimplify
  else if p.boundElimination then .eliminate
  else .off

/-- `SliceFacade::solveProgram` (SliceFacade.cpp:375-427): the optimal value if there is a solution, and the terms given
to the consumer. Without canonical output. -/
def solveProgram (p : OptParams) (rnd : List ℕ → ℕ → ℕ) (T : Translator n) (I : List (Term n)) (d : Fin n → ℤ) :
    Option (Option ℤ × List (Fin n → ℤ)) :=
  match optRun { grader := Grader.new d T, opts := p.opts, all := p.all, bound := p.bound } rnd I with
  | none => none
  | some st => (st.sols.mapM T.translate).map fun ts => (if st.sols.isEmpty then none else some st.maxValue, ts)

/-- `SliceFacade::solveStandardProgram` (SliceFacade.cpp:351-360). -/
def solveStandardProgram (p : OptParams) (rnd : List ℕ → ℕ → ℕ) (G : List (Term n)) (d : Fin n → ℤ) :
    Option (Option ℤ × List (Fin n → ℤ)) :=
  solveProgram p rnd (setIdeal G).1.decrement (setIdeal G).2 d

/-- `SliceFacade::solveIrreducibleDecompositionProgram` (SliceFacade.cpp:336-349) with the ideal and the translator of
the facade. -/
def solveIrrProgramAt (p : OptParams) (rnd : List ℕ → ℕ → ℕ) (T : Translator n) (I : List (Term n)) (d : Fin n → ℤ) :
    Option (Option ℤ × List (Fin n → ℤ)) :=
  solveProgram p rnd T (if contains I 0 then I else T.addPurePowers I) d

/-- `SliceFacade::solveIrreducibleDecompositionProgram` (SliceFacade.cpp:336-349). -/
def solveIrrProgram (p : OptParams) (rnd : List ℕ → ℕ → ℕ) (G : List (Term n)) (d : Fin n → ℤ) :
    Option (Option ℤ × List (Fin n → ℤ)) :=
  solveIrrProgramAt p rnd (setIdeal G).1 (setIdeal G).2 d

/-- `SliceFacade::takeRadical` (SliceFacade.cpp:433-453): the ideal; the translator is `zeroOne` afterwards. -/
def facadeRadical (T : Translator n) (I : List (Term n)) : List (Term n) :=
  if Term.isSquareFree (lcmOf I) then I
  else minimize ((T.infinityToZero I).map fun g v => if g v = 0 then 0 else 1)

/-- `SliceFacade::computeDimension(codimension)` (SliceFacade.cpp:114-148). If there is no component the value read is
the initial 0. -/
def sliceDimension (p : OptParams) (rnd : List ℕ → ℕ → ℕ) (codim : Bool) (G : List (Term n)) : Option ℤ :=
  if contains (setIdeal G).2 0 then some (if codim then (n : ℤ) + 1 else -1)
  else
    (solveIrrProgramAt { p with all := false } rnd Translator.zeroOne (facadeRadical (setIdeal G).1 (setIdeal G).2)
      fun _ => -1).map fun r => if codim then -(r.1.getD 0) else n + r.1.getD 0

/-- The parameters of the API function: the defaults (SliceParams.cpp:24-29) with independence splits turned off. -/
def apiOptParams : OptParams :=
  { opts := { simp := true, indep := false, split := .median }
    boundElimination := true, boundSimplification := true, all := false }

/-- `Frobby::solveStandardMonomialProgram` (frobby.cpp:424-443). -/
def solveStandardMonomialProgram (rnd : List ℕ → ℕ → ℕ) (G : List (Term n)) (l : Fin n → ℤ) :
    Option (Bool × List (Event n)) :=
  (solveStandardProgram apiOptParams rnd G l).map fun r => (r.1.isSome, Event.block r.2)

end Frobby
