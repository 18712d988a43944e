import Verif.MsmModel
import Verif.HilbertModel

/-!
# Model of the slice algorithm

`Partition`, `Projection`, `IndependenceSplitter`, the split strategies, `SliceStrategyCommon`, `MsmStrategy` and
`HilbertStrategy`.

`TaskEngine` (TaskEngine.cpp:35-64) is a stack: the slices pushed while processing a slice are processed completely,
last one first, before anything below them on the stack. The model uses recursion instead of the stack, in that order
(PropsTasks.lean relates the two).
-/

namespace Frobby

variable {n : ℕ}

/-! ## Partition -/

/-- What is observable of a `Partition` (Partition.h, Partition.cpp): the root of every element, minus the value stored
at the roots, and `_setCount`. PartitionModel.lean has the array with parent links and path compression, and proves
that it behaves like this. -/
structure UF (n : ℕ) where
  root : Fin n → Fin n
  wt : Fin n → ℕ
  count : ℕ

namespace UF

/-- `Partition::reset` (Partition.cpp:39-49). -/
def init (n : ℕ) : UF n := { root := id, wt := fun _ => 1, count := n }

/-- `Partition::join` (Partition.cpp:51-70). -/
def join (p : UF n) (i j : Fin n) : UF n :=
  if p.root i = p.root j then p
  else
    { root := fun x => if p.root x = p.root j then p.root i else p.root x
      wt := Function.update p.wt (p.root i) (p.wt (p.root i) + p.wt (p.root j) - 1)
      count := p.count - 1 }

/-- `Partition::addToSet` (Partition.cpp:111-115). -/
def addToSet (p : UF n) (i : Fin n) : UF n :=
  { p with wt := Function.update p.wt (p.root i) (p.wt (p.root i) + 1) }

/-- `Partition::getSizeOfClassOf` (Partition.cpp:84-86). -/
def sizeOfClassOf (p : UF n) (i : Fin n) : ℕ := p.wt (p.root i)

/-- The roots in ascending order; the sets are numbered in this order (Partition.cpp:88-100, Projection.cpp:33-41). -/
def roots (p : UF n) : List (Fin n) := (List.finRange n).filter fun i => decide (p.root i = i)

/-- `Partition::getSetSize` (Partition.cpp:88-100). -/
def setSize (p : UF n) (k : ℕ) : ℕ :=
  match p.roots[k]? with
  | some r => p.wt r - 1
  | none => 0

/-- `Projection::reset(partition, number)` (Projection.cpp:28-52): the variables of a set. -/
def classVars (p : UF n) (k : ℕ) : List (Fin n) :=
  match p.roots[k]? with
  | some r => (List.finRange n).filter fun i => decide (p.root i = r)
  | none => []

end UF

/-! ## IndependenceSplitter -/

/-- The variables after the first one in the support, joined to the first one (IndependenceSplitter.cpp:38-46 and
52-55). For the identity the loops do nothing. -/
def joinSupport (p : UF n) (g : Term n) : UF n :=
  if h : Term.firstNonZero g < n then
    (List.finRange n).foldl
      (fun q v => if Term.firstNonZero g < v.val ∧ 0 < g v then q.join ⟨Term.firstNonZero g, h⟩ v else q) p
  else p

/-- One generator in `IndependenceSplitter::analyze` (IndependenceSplitter.cpp:38-46). The early exit when only one set
is left is not modelled: the number of sets stays one, so line 60 returns false as well. -/
def addGenerator (p : UF n) (g : Term n) : UF n :=
  if h : Term.firstNonZero g < n then joinSupport (p.addToSet ⟨Term.firstNonZero g, h⟩) g else p

/-- The set with the largest count (IndependenceSplitter.cpp:71-75). -/
def maxSetOf (p : UF n) (z : Fin n) : Fin n :=
  (List.finRange n).foldl (fun m v => if p.sizeOfClassOf m < p.sizeOfClassOf v then p.root v else m) z

/-- The last element outside the largest set (IndependenceSplitter.cpp:77-80). -/
def nonMaxSetOf (p : UF n) (m z : Fin n) : Fin n :=
  (List.finRange n).foldl (fun acc v => if p.root m ≠ p.root v then v else acc) z

/-- Join all sets but the largest (IndependenceSplitter.cpp:70-86). `z` is the variable 0. -/
def mergeRest (p : UF n) (z : Fin n) : UF n :=
  let m := maxSetOf p z
  let o := nonMaxSetOf p m z
  (List.finRange n).foldl (fun q v => if q.root v ≠ q.root m then q.join v o else q) p

/-- The partition that `analyze` ends up with before line 58. -/
def indepPartition (I S : List (Term n)) : UF n := S.foldl joinSupport (I.foldl addGenerator (UF.init n))

/-- `IndependenceSplitter::analyze` (IndependenceSplitter.cpp:32-95) followed by `getBigProjection` and
`getRestProjection` (24-30). -/
def analyze (I S : List (Term n)) : Option (List (Fin n) × List (Fin n)) :=
  if I.any fun g => decide (Term.firstNonZero g = n) then none
  else
    let p := indepPartition I S
    if p.count = 1 then none
    else if ((List.range p.count).filter fun k => decide (2 ≤ p.setSize k)).length < 2 then none
    else if h : 0 < n then
      let q := if 2 < p.count then mergeRest p ⟨0, h⟩ else p
      let big := if q.setSize 1 < q.setSize 0 then 0 else 1
      some (q.classVars big, q.classVars (1 - big))
    else none

/-! ## Projection -/

/-- `Projection::project` (Projection.cpp:72-76). -/
def proj (vs : List (Fin n)) (t : Term n) : Term vs.length := fun i => t (vs.get i)

/-- `Projection::inverseProject` (Projection.cpp:78-82). -/
def inverseProject (vs : List (Fin n)) (base : Term n) (t : Term vs.length) : Term n :=
  (List.finRange vs.length).foldl (fun acc i => Function.update acc (vs.get i) (t i)) base

/-- The condition of the loops of `Slice::setToProjOf` (Slice.cpp:225-226, 237-238). -/
def hasProjection (vs : List (Fin n)) (g : Term n) : Bool :=
  decide (Term.firstNonZero g = n ∨ ∃ v ∈ vs, v.val = Term.firstNonZero g)

/-- `Slice::setToProjOf` (Slice.cpp:217-250). When the cache is not valid `_lcm` holds a leftover that is never read;
the model puts the identity there. -/
def Slice.setToProjOf (s : Slice n) (vs : List (Fin n)) : Slice vs.length :=
  { ideal := (s.ideal.filter fun g => hasProjection vs g).map (proj vs)
    subtract := (s.subtract.filter fun g => hasProjection vs g).map (proj vs)
    multiply := proj vs s.multiply
    lcm := if s.lcmUpdated then proj vs s.lcm else 0
    lcmUpdated := s.lcmUpdated
    hint := 0 }

/-! ## Split strategies -/

/-- The values accepted by `SplitStrategy::createStrategy` (SplitStrategy.cpp). -/
inductive Split where
  | maxlabel | varlabel | minlabel
  | minimum | median | maximum | indep | gcd | mingen
  | degree
deriving DecidableEq

/-- `SplitStrategy::isLabelSplit`. -/
def Split.isLabel : Split → Bool
  | .maxlabel | .varlabel | .minlabel => true
  | _ => false

/-- `Term::getMiddleNonZeroExponent` (Term.h:361-374). -/
def middleNonZero (a : Term n) : Option (Fin n) :=
  ((List.finRange n).filter fun v => decide (a v ≠ 0))[Term.sizeOfSupport a / 2]?

/-- `SplitStrategyCommon::getBestVar` (SplitStrategy.cpp:78-99). -/
def bestVar (I : List (Term n)) (lcm : Term n) : Option (Fin n) :=
  let co : Term n := fun v => if lcm v ≤ 1 then 0 else supportCounts I v
  match firstMax? co with
  | none => none
  | some m => middleNonZero fun v => if co v < co m then 0 else co v

/-- `getMedianPositiveExponentOf` (SplitStrategy.cpp:63-72). -/
def medianPositive (I : List (Term n)) (v : Fin n) : Option ℕ :=
  let es := ((I.map fun g => g v).filter fun e => decide (e ≠ 0)).mergeSort (fun a b => decide (a ≤ b))
  es[es.length / 2]?

/-- The `MedianSplit` pivot (SplitStrategy.cpp:237-244). -/
def medianPivot (I : List (Term n)) (lcm : Term n) : Option (Term n) :=
  match bestVar I lcm with
  | none => none
  | some v =>
    match medianPositive I v with
    | none => none
    | some e => some (Term.single v (if e = lcm v then e - 1 else e))

/-- `getPivot` of the pivot splits (SplitStrategy.cpp:204-388). `rnd` are the results of the calls of `rand`. `none` is
the internal error raised by label and degree splits (SplitStrategy.cpp:36-53, 400-402).
`IndependencePivotSplit::getPivot` (264-311) never clears its flag `first`, so all its attempts fail and it is
`MedianSplit::getPivot`. -/
def getPivot (sp : Split) (rnd : ℕ → ℕ) (I : List (Term n)) (lcm : Term n) : Option (Term n) :=
  match sp with
  | .minimum => (bestVar I lcm).map fun v => Term.single v 1
  | .median => medianPivot I lcm
  | .maximum => (bestVar I lcm).map fun v => Term.single v (lcm v - 1)
  | .indep => medianPivot I lcm
  | .gcd =>
    match bestVar I lcm with
    | none => none
    | some v =>
      let L := I.filter fun g => decide (2 ≤ g v)
      match L[rnd 0 % L.length]?, L[rnd 1 % L.length]?, L[rnd 2 % L.length]? with
      | some a, some b, some c => some (Term.decrement (a ⊓ b ⊓ c))
      | _, _, _ => none
  | .mingen =>
    let L := I.filter fun g => decide (¬ Term.isSquareFree g)
    (L[rnd 0 % L.length]?).map Term.decrement
  | _ => none

/-- `LabelSplit::setOneCounts` (SplitStrategy.cpp:111-127). -/
def oneCounts (I : List (Term n)) : Term n :=
  fun v => I.countP fun g => decide (Term.sizeOfSupport g ≠ 1 ∧ g v = 1)

/-- The loop of `MinLabelSplit` over the variables from 1 on (SplitStrategy.cpp:190-194). -/
def mostGeneric (oc : Term n) : ℕ :=
  ((List.finRange n).filter fun v => decide (1 ≤ v.val)).foldl
    (fun m v => if m = 0 ∨ (oc v < m ∧ 0 < oc v) then oc v else m) 0

/-- `getLabelSplitVariable` (SplitStrategy.cpp:145-148, 162-169, 184-200). -/
def labelVar (sp : Split) (I : List (Term n)) : Option (Fin n) :=
  match sp with
  | .maxlabel => firstMax? (supportCounts I)
  | .varlabel => (List.finRange n).find? fun v => decide (0 < oneCounts I v)
  | .minlabel =>
    firstMax? fun v => if oneCounts I v ≠ mostGeneric (oneCounts I) then 0 else supportCounts I v
  | _ => none

/-! ## the strategies -/

/-- The options of a slice strategy. -/
structure Opts where
  simp : Bool
  indep : Bool
  split : Split

/-- `SliceStrategyCommon::simplify` (SliceStrategyCommon.cpp:55-63). -/
def Slice.simplifyWith (k : Kind) (o : Opts) (s : Slice n) : Option (Slice n) :=
  if o.simp then (s.simplify k).map (·.1)
  else if o.split.isLabel then some (s.adjustMultiply k).1
  else some s

/-- The generators that `labelSplit` accepts as labels (MsmStrategy.cpp:116-146). -/
def labels (s : Slice n) (v : Fin n) : List (Term n) :=
  s.ideal.filter fun g => decide (g v = 1 ∧ contains s.subtract (g - Term.single v 1) = false ∧
    ∀ w, (g - Term.single v 1) w ≠ s.getLcm w)

/-- The slices made by `MsmStrategy::labelSplit` (MsmStrategy.cpp:103-175), the one processed first in front. -/
def Slice.labelSplit (k : Kind) (s : Slice n) (v : Fin n) : Slice n × Option (Slice n) :=
  match labels s v with
  | [] => ((s.inner k (Term.single v 1)).1, none)
  | [g] => ((s.inner k (Term.single v 1)).1, some (s.inner k (g - Term.single v 1)).1)
  | g :: _ :: _ => (s.outer k (g - Term.single v 1), some (s.inner k (g - Term.single v 1)).1)

/-- The slices that a slice which is not a base case is split into: `labelSplit`, or
`SliceStrategyCommon::pivotSplit` (SliceStrategyCommon.cpp:77-111), the one processed first in front, simplified.
`HilbertStrategy::processSlice` (HilbertStrategy.cpp:76-81) only does pivot splits. -/
def Slice.children (k : Kind) (o : Opts) (rnd : ℕ → ℕ) (s : Slice n) : Option (Slice n × Option (Slice n)) :=
  if k = .msm ∧ o.split.isLabel = true then
    match labelVar o.split s.ideal with
    | none => none
    | some v =>
      match s.labelSplit k v with
      | (a, none) => (a.simplifyWith k o).map fun a => (a, none)
      | (a, some b) =>
        match a.simplifyWith k o, b.simplifyWith k o with
        | some a, some b => some (a, some b)
        | _, _ => none
  else
    match getPivot o.split rnd s.ideal s.getLcm with
    | none => none
    | some p =>
      match (s.inner k p).1.simplifyWith k o, (s.outer k p).simplifyWith k o with
      | some inner, some outer =>
        if inner.ideal.length < outer.ideal.length then some (inner, some outer) else some (outer, some inner)
      | _, _ => none

/-- `baseCase` of the two kinds of slice. -/
def Slice.baseCase (k : Kind) (simplified : Bool) (s : Slice n) : Option (List (ℤ × Term n)) :=
  match k with
  | .msm => (s.msmBaseCase simplified).map fun ts => ts.map fun t => (1, t)
  | .hilbert => s.hilbertBaseCase

/-- The terms passed on by the consumer of an independence split: `MsmIndependenceSplit::consume`
(MsmStrategy.cpp:226-234) and `HilbertIndependenceConsumer::consumeLeft` (HilbertIndependenceConsumer.cpp:116-136).
The temporary term starts as the identity here; all its entries are overwritten before it is used. -/
def combine (big rest : List (Fin n)) (L : List (ℤ × Term big.length)) (R : List (ℤ × Term rest.length)) :
    List (ℤ × Term n) :=
  L.flatMap fun l => R.map fun r => (l.1 * r.1, inverseProject rest (inverseProject big 0 l.2) r.2)

/-- `processSlice` (MsmStrategy.cpp:67-85, HilbertStrategy.cpp:66-84), the independence splits
(MsmStrategy.cpp:258-283, HilbertStrategy.cpp:119-145) and the task engine: everything that is output while the slice
and its descendants are processed. `none` is an internal error or running out of fuel. `rnd` gives the results of `rand`
for the slice at a position in the tree of slices. -/
def process (k : Kind) (o : Opts) (rnd : List ℕ → ℕ → ℕ) :
    ℕ → List ℕ → (n : ℕ) → Slice n → Option (List (ℤ × Term n))
  | 0, _, _, _ => none
  | fuel + 1, path, n, s =>
    match s.baseCase k o.simp with
    | some outs => some outs
    | none =>
      match (if o.indep then analyze s.ideal s.subtract else none) with
      | some (big, rest) =>
        match process k o rnd fuel (1 :: path) rest.length (s.touchLcm.setToProjOf rest),
          process k o rnd fuel (0 :: path) big.length (s.touchLcm.setToProjOf big) with
        | some R, some L => some (combine big rest L R)
        | _, _ => none
      | none =>
        match s.touchLcm.children k o (rnd path) with
        | none => none
        | some (a, none) => process k o rnd fuel (0 :: path) n a
        | some (a, some b) =>
          match process k o rnd fuel (0 :: path) n a, process k o rnd fuel (1 :: path) n b with
          | some A, some B => some (A ++ B)
          | _, _ => none

/-- Enough rounds for a slice, see `process_spec`. -/
def sliceFuel (s : Slice n) : ℕ := (∏ i, lcmOf s.ideal i) + n + 1

/-- `MsmStrategy::run` (MsmStrategy.cpp:44-65) with an empty initial subtract, which is how it is always called. The
constructor of `MsmSlice` calls `removeDoubleLcm` (MsmSlice.cpp:28-38). -/
def msmRun (o : Opts) (rnd : List ℕ → ℕ → ℕ) (I : List (Term n)) : Option (List (Term n)) :=
  match ((Slice.new I [] 1).removeDoubleLcm.1).simplifyWith .msm o with
  | none => none
  | some s => (process .msm o rnd (sliceFuel s) [] n s).map fun outs => outs.map (·.2)

/-- `HilbertStrategy::run` (HilbertStrategy.cpp:37-64). -/
def hilbertRun (o : Opts) (rnd : List ℕ → ℕ → ℕ) (I : List (Term n)) : Option (List (ℤ × Term n)) :=
  let first : List (ℤ × Term n) := if contains I 0 then [] else [(1, 0)]
  let J := if contains I 0 then [] else I.map (· + 1)
  match (Slice.new J [] 0).simplifyWith .hilbert o with
  | none => none
  | some s => (process .hilbert o rnd (sliceFuel s) [] n s).map fun outs => first ++ outs

end Frobby
