import Verif.SqfModel
import Verif.FactoryModel
import Verif.ScanModel
import Verif.WordModel

/-!
# Model of `EulerState`, `PivotStrategy`, `PivotEulerAlg` and `EulerAction`

The results of `rand()` are given as a list, the tape, from which every call takes one. The memory of the states is not modelled:
the stack of states is a list, the first of which is the current one and the parent of each the next.
-/

namespace Frobby

/-- Why a computation did not finish: a division by zero, an access outside of an array, the end of the tape of random numbers,
or the end of the fuel that stands for running on. -/
inductive Stop
  | divideByZero
  | outOfRange
  | tapeEnd
  | fuelEnd
deriving DecidableEq

/-- `EulerState` (EulerState.h:76-80). -/
structure EulerState where
  ideal : SqIdeal
  eliminated : SqTerm
  sign : ℤ
deriving DecidableEq

namespace EulerState

/-- `EulerState::getVarCount` (EulerState.h:52). -/
def varCount (s : EulerState) : ℕ := s.ideal.varCount

/-- `getIdeal().getGeneratorCount()`. -/
def genCount (s : EulerState) : ℕ := s.ideal.gens.length

/-- `EulerState::construct` (EulerState.cpp:42-55). -/
def construct (I : SqIdeal) : EulerState := ⟨I, ∅, 1⟩

/-- `EulerState::flipSign` (EulerState.h:43). -/
def flipSign (s : EulerState) : EulerState := ⟨s.ideal, s.eliminated, -s.sign⟩

/-- `EulerState::removeGenerator` (EulerState.h:55). -/
def removeGenerator (s : EulerState) (i : ℕ) : EulerState := ⟨s.ideal.removeGenerator i, s.eliminated, s.sign⟩

/-- `EulerState::toColonSubState` for a term (EulerState.cpp:118-127), without the return value. -/
def toColon (s : EulerState) (pivot : SqTerm) : EulerState :=
  ⟨s.ideal.colonReminimize pivot, s.eliminated ∪ pivot, s.sign⟩

/-- `EulerState::toColonSubState` for a variable (EulerState.cpp:129-138), without the return value. -/
def toColonVar (s : EulerState) (v : ℕ) : EulerState :=
  ⟨s.ideal.colonReminimizeVar v, insert v s.eliminated, s.sign⟩

/-- `EulerState::toColonSubStateNoReminimizeNecessary` for a variable (EulerState.cpp:140-147). -/
def toColonVarNoReminimize (s : EulerState) (v : ℕ) : EulerState :=
  ⟨s.ideal.colonVar v, insert v s.eliminated, s.sign⟩

/-- `EulerState::makeSumSubState` for a variable (EulerState.cpp:158-172). -/
def sumVar (s : EulerState) (v : ℕ) : EulerState :=
  flipSign ⟨⟨s.varCount, s.ideal.gens.filter fun g => v ∉ g⟩, insert v s.eliminated, s.sign⟩

/-- `EulerState::makeSumSubState` for a term (EulerState.cpp:174-188). -/
def sumTerm (s : EulerState) (pivot : SqTerm) : EulerState :=
  ⟨⟨s.varCount, (s.ideal.gens.filter fun g => !decide (pivot ⊆ g)) ++ [pivot]⟩, s.eliminated, s.sign⟩

/-- `EulerState::inPlaceStdSplit` for a variable (EulerState.cpp:81-86): the substate and the changed state. -/
def stdSplitVar (s : EulerState) (v : ℕ) : EulerState × EulerState := (s.sumVar v, s.toColonVar v)

/-- `EulerState::inPlaceStdSplit` for a term (EulerState.cpp:88-93): the substate and the changed state. -/
def stdSplit (s : EulerState) (pivot : SqTerm) : EulerState × EulerState := (s.sumTerm pivot, s.toColon pivot)

/-- `EulerState::inPlaceGenSplit` (EulerState.cpp:95-116): the substate and the changed state. -/
def genSplit (s : EulerState) (i : ℕ) : Except Stop (EulerState × EulerState) :=
  if h : i < s.ideal.gens.length then
    .ok (((s.removeGenerator i).toColon (s.ideal.gens[i])).flipSign, s.removeGenerator i)
  else .error .outOfRange

/-- `EulerState::transpose` (EulerState.cpp:190-194). -/
def transpose (s : EulerState) : EulerState := ⟨(s.ideal.transpose s.eliminated).minimize, ∅, s.sign⟩

/-- `EulerState::getNonEliminatedVarCount` (EulerState.cpp:240-246). -/
def nonEliminated (s : EulerState) : ℕ := s.varCount - s.eliminated.card

/-- `EulerState::compactEliminatedVariablesIfProfitable` (EulerState.cpp:196-204). -/
def compactIfProfitable (s : EulerState) : EulerState :=
  if wordCount s.varCount > wordCount s.nonEliminated then ⟨s.ideal.compact s.eliminated, ∅, s.sign⟩ else s

end EulerState

open EulerState

/-- `getPopVar` (PivotStrategy.cpp:32-34): the first variable with the largest count; `max_element` of an empty range is its
end. -/
def getPopVar (divCounts : ℕ → ℕ) (varCount : ℕ) : ℕ :=
  (List.range varCount).foldl (fun best v => if divCounts best < divCounts v then v else best) 0

/-- `getRareVar` (PivotStrategy.cpp:36-50): the first variable with the smallest count that is not zero. `none` if all the counts
are zero, when the code reads outside of the array. -/
def getRareVar (divCounts : ℕ → ℕ) (varCount : ℕ) : Option ℕ :=
  (List.range varCount).foldl (fun rare v =>
    if divCounts v = 0 then rare
    else match rare with
      | none => some v
      | some r => if divCounts v < divCounts r then some v else some r) none

/-- The standard pivot strategies (PivotStrategy.cpp:880-888). -/
inductive StdStrat
  | random
  | any
  | popvar
  | popgcd
  | rarevar
deriving DecidableEq

/-- The generator pivot strategies (PivotStrategy.cpp:891-902). -/
inductive GenStrat
  | raremax
  | rarevar
  | rarest
  | popvar
  | maxsupp
  | minsupp
  | any
  | random
deriving DecidableEq

/-- The pivot strategies: `StdStrategy`, `StdWiden`, `GenStrategy`, `GenComposite` and `HybridPivotStrategy`
(PivotStrategy.cpp). The strategies that print are left out. -/
inductive Pivot
  | std (s : StdStrat)
  | widen (s : StdStrat)
  | gen (g : GenStrat)
  | composite (gs : List GenStrat)
  | hybrid (p q : Pivot)

/-- `StdRandom::getRandomNotEliminatedVar` (PivotStrategy.cpp:222-228), with the rest of the tape. -/
def randomVar (s : EulerState) : List ℕ → Except Stop (ℕ × List ℕ)
  | [] => .error .tapeEnd
  | r :: tape =>
    if s.varCount = 0 then .error .divideByZero
    else if r % s.varCount ∉ s.eliminated then .ok (r % s.varCount, tape)
    else randomVar s tape

/-- `StdAny::getAnyNotEliminatedVar` (PivotStrategy.cpp:256-262). -/
def anyVar (s : EulerState) : Except Stop ℕ :=
  match (List.range s.varCount).find? fun v => v ∉ s.eliminated with
  | none => .error .outOfRange
  | some v => .ok v

/-- The variable chosen by a standard strategy other than `popgcd` (PivotStrategy.cpp:105-151, 197-263). -/
def stdVar (strat : StdStrat) (s : EulerState) (divCounts : ℕ → ℕ) (tape : List ℕ) : Except Stop (ℕ × List ℕ) :=
  match strat with
  | .random => randomVar s tape
  | .any => (anyVar s).map fun v => (v, tape)
  | .popvar => .ok (getPopVar divCounts s.varCount, tape)
  | .popgcd => .ok (getPopVar divCounts s.varCount, tape)
  | .rarevar =>
    match getRareVar divCounts s.varCount with
    | none => .error .outOfRange
    | some v => .ok (v, tape)

/-- `StdPopGcd::getPivot` (PivotStrategy.cpp:159-186): the gcd of the first three generators, or as many as there are, that the
variable divides. If there were none then the pivot would keep what it had before; that does not happen. -/
def popGcd (s : EulerState) (divCounts : ℕ → ℕ) : SqTerm :=
  let v := getPopVar divCounts s.varCount
  if divCounts v = 1 then {v}
  else
    match (s.ideal.gens.filter fun g => v ∈ g).take 3 with
    | [] => ∅
    | g :: l => l.foldl (· ∩ ·) g

/-- `getPivot` of the standard strategies (PivotStrategy.cpp:112-118, 136-142, 159-186, 204-211, 238-245). -/
def stdPivot (strat : StdStrat) (s : EulerState) (divCounts : ℕ → ℕ) (tape : List ℕ) : Except Stop (SqTerm × List ℕ) :=
  if strat = .popgcd then .ok (popGcd s divCounts, tape)
  else (stdVar strat s divCounts tape).map fun r => ({r.1}, r.2)

/-- `swap(*a, *b)` on the generators with two indices. -/
def swapAt (l : List SqTerm) (i j : ℕ) : List SqTerm := (l.set i (l.getD j ∅)).set j (l.getD i ∅)

/-- The loop of the filters of the generator strategies (PivotStrategy.cpp:330-338, 376-392, 417-425, 533-552, 635-648, 669-682).
Elements without a key are skipped, those with a worse key than the best too, and a better key begins the selection anew. The
first `todo` elements from `it` on are considered; the result is the list and the number of elements selected. -/
def pickLoop (key : SqTerm → Option ℕ) (worse : ℕ → ℕ → Bool) : ℕ → ℕ → ℕ → ℕ → List SqTerm → List SqTerm × ℕ
  | 0, _, _, newEnd, l => (l, newEnd)
  | todo + 1, it, best, newEnd, l =>
    match key (l.getD it ∅) with
    | none => pickLoop key worse todo (it + 1) best newEnd l
    | some k =>
      if worse k best then pickLoop key worse todo (it + 1) best newEnd l
      else
        let newEnd := if worse best k then 0 else newEnd
        pickLoop key worse todo (it + 1) k (newEnd + 1) (swapAt l newEnd it)

/-- The smallest of the counts that are larger than `last` (PivotStrategy.cpp:500-504). -/
def nextCount (divCounts : ℕ → ℕ) (varCount last : ℕ) : Option ℕ :=
  (List.range varCount).foldl (fun best v =>
    if divCounts v > last then
      match best with
      | none => some (divCounts v)
      | some b => if b > divCounts v then some (divCounts v) else some b
    else best) none

/-- The variables with a given count (PivotStrategy.cpp:525-531). -/
def varsWithCount (divCounts : ℕ → ℕ) (varCount count : ℕ) : SqTerm := (Finset.range varCount).filter fun v => divCounts v = count

/-- `GenRarestVars::filter` for one count (PivotStrategy.cpp:521-557). -/
def rarestFilterOne (divCounts : ℕ → ℕ) (varCount count cand : ℕ) (l : List SqTerm) : List SqTerm × ℕ :=
  let term := varsWithCount divCounts varCount count
  let r := pickLoop (fun g => if Disjoint term g then none else some (term ∩ g).card) (fun a b => decide (a < b)) cand 0 0 0 l
  if r.2 ≠ 0 then r else (r.1, cand)

/-- `GenRarestVars::filter` (PivotStrategy.cpp:494-510). Every round uses a larger count, so there are at most as many as there
are variables; the number of rounds is the first argument. -/
def rarestFilter (divCounts : ℕ → ℕ) (varCount : ℕ) : ℕ → ℕ → ℕ → List SqTerm → List SqTerm × ℕ
  | 0, _, cand, l => (l, cand)
  | rounds + 1, last, cand, l =>
    if cand ≤ 1 then (l, cand)
    else
      match nextCount divCounts varCount last with
      | none => (l, cand)
      | some count =>
        let r := rarestFilterOne divCounts varCount count cand l
        rarestFilter divCounts varCount rounds count r.2 r.1

/-- `filter` of the generator strategies (PivotStrategy.cpp:319-338, 372-394, 413-427, 494-510, 632-650, 666-684, 700-704, 722-729),
on the first `cand` generators. The test of `rand() % genCount` for zero stands for the division by zero. -/
def genFilter (strat : GenStrat) (varCount : ℕ) (divCounts : ℕ → ℕ) (tape : List ℕ) (cand : ℕ) (l : List SqTerm) :
    Except Stop ((List SqTerm × ℕ) × List ℕ) :=
  let lt := fun a b => decide (a < b)
  match strat with
  | .popvar =>
    let term := varsWithCount divCounts varCount (divCounts (getPopVar divCounts varCount))
    .ok (pickLoop (fun g => if Disjoint term g then none else some 0) lt cand 0 0 0 l, tape)
  | .raremax =>
    match getRareVar divCounts varCount with
    | none => .error .outOfRange
    | some v => .ok (pickLoop (fun g => if v ∈ g then some g.card else none) lt cand 0 0 0 l, tape)
  | .rarevar =>
    match getRareVar divCounts varCount with
    | none => .error .outOfRange
    | some v => .ok (pickLoop (fun g => if v ∈ g then some 0 else none) lt cand 0 0 0 l, tape)
  | .rarest => .ok (rarestFilter divCounts varCount varCount 0 cand l, tape)
  | .maxsupp => .ok (pickLoop (fun g => some g.card) lt cand 0 0 0 l, tape)
  | .minsupp => .ok (pickLoop (fun g => some g.card) (fun a b => decide (a > b)) cand 0 varCount 0 l, tape)
  | .any => .ok ((l, 1), tape)
  | .random =>
    match tape with
    | [] => .error .tapeEnd
    | r :: tape =>
      if cand = 0 then .error .divideByZero
      else .ok ((swapAt l 0 (r % cand), 1), tape)

/-- The loop of `GenComposite::doPivot` (PivotStrategy.cpp:456-457). -/
def compositeFilter (varCount : ℕ) (divCounts : ℕ → ℕ) : List GenStrat → List ℕ → ℕ → List SqTerm →
    Except Stop (List SqTerm × List ℕ)
  | [], tape, _, l => .ok (l, tape)
  | g :: gs, tape, cand, l =>
    match genFilter g varCount divCounts tape cand l with
    | .error e => .error e
    | .ok ((l', cand'), tape') => compositeFilter varCount divCounts gs tape' cand' l'

/-- The index chosen by `GenRareMax::doPivot` (PivotStrategy.cpp:357-369). -/
def rareMaxIndex (s : EulerState) (v : ℕ) : ℕ :=
  bestIndex (fun g => if v ∈ g then g.card else 0) (fun best supp => decide (best < supp)) 0 0 s.genCount s.ideal.gens

/-- The split with the generators in another order. -/
def withGens (s : EulerState) (l : List SqTerm) : EulerState := ⟨⟨s.varCount, l⟩, s.eliminated, s.sign⟩

/-- `doPivot` of the generator strategies (PivotStrategy.cpp:312-317, 350-370, 406-411, 487-492, 628-630, 662-664, 696-698,
717-720): the substate, the changed state and the rest of the tape. -/
def genPivot (strat : GenStrat) (s : EulerState) (divCounts : ℕ → ℕ) (tape : List ℕ) :
    Except Stop ((EulerState × EulerState) × List ℕ) :=
  match strat with
  | .popvar => (s.genSplit (s.ideal.getMultiple (getPopVar divCounts s.varCount))).map fun r => (r, tape)
  | .raremax =>
    match getRareVar divCounts s.varCount with
    | none => .error .outOfRange
    | some v => (s.genSplit (rareMaxIndex s v)).map fun r => (r, tape)
  | .rarevar =>
    match getRareVar divCounts s.varCount with
    | none => .error .outOfRange
    | some v => (s.genSplit (s.ideal.getMultiple v)).map fun r => (r, tape)
  | .rarest =>
    ((withGens s (rarestFilter divCounts s.varCount s.varCount 0 s.genCount s.ideal.gens).1).genSplit 0).map fun r => (r, tape)
  | .maxsupp => (s.genSplit s.ideal.maxSupportGen).map fun r => (r, tape)
  | .minsupp => (s.genSplit s.ideal.minSupportGen).map fun r => (r, tape)
  | .any => (s.genSplit 0).map fun r => (r, tape)
  | .random =>
    match tape with
    | [] => .error .tapeEnd
    | r :: tape => if s.genCount = 0 then .error .divideByZero else (s.genSplit (r % s.genCount)).map fun x => (x, tape)

/-- `PivotStrategy::doPivot` (PivotStrategy.cpp:107-110, 131-134, 155-157, 199-202, 233-236, 272-278, 450-461, 746-752): the substate,
the changed state and the rest of the tape. -/
def doPivot : Pivot → EulerState → (ℕ → ℕ) → List ℕ → Except Stop ((EulerState × EulerState) × List ℕ)
  | .std strat, s, divCounts, tape =>
    if strat = .popgcd then .ok (s.stdSplit (popGcd s divCounts), tape)
    else (stdVar strat s divCounts tape).map fun r => (s.stdSplitVar r.1, r.2)
  | .widen strat, s, divCounts, tape =>
    (stdPivot strat s divCounts tape).map fun r => (s.stdSplit (s.ideal.gcdOfMultiples r.1), r.2)
  | .gen strat, s, divCounts, tape => genPivot strat s divCounts tape
  | .composite gs, s, divCounts, tape =>
    match compositeFilter s.varCount divCounts gs tape s.genCount s.ideal.gens with
    | .error e => .error e
    | .ok (l, tape') => ((withGens s l).genSplit 0).map fun r => (r, tape')
  | .hybrid p q, s, divCounts, tape =>
    if s.nonEliminated < s.genCount then doPivot p s divCounts tape else doPivot q s divCounts tape

/-- `PivotStrategy::shouldTranspose` (PivotStrategy.cpp:100-102, 289-291, 305-307, 476-478, 767-769). -/
def shouldTranspose : Pivot → EulerState → Bool
  | .std _, s => decide (s.varCount > s.genCount)
  | .widen _, s => decide (s.varCount > s.genCount)
  | .gen _, s => decide (s.varCount < s.genCount)
  | .composite _, s => decide (s.varCount < s.genCount)
  | .hybrid _ _, _ => false

/-- The settings of `PivotEulerAlg` (PivotEulerAlg.h). -/
structure EulerConfig where
  pivot : Pivot
  uniqueDiv : Bool
  manyDiv : Bool
  allPairs : Bool
  autoTranspose : Bool
  initialAutoTranspose : Bool

/-- `baseCaseSimple1` (PivotEulerAlg.cpp:41-63): the new accumulator if this is a base case. -/
def baseCaseSimple1 (acc : ℤ) (s : EulerState) : Option ℤ :=
  if !s.ideal.hasFullSupport s.eliminated then some acc
  else if s.genCount > 2 then none
  else if s.genCount = 0 then some (acc + s.sign)
  else if s.genCount = 2 then some (acc + s.sign)
  else if !termHasFullSupport s.eliminated s.varCount then some (acc - s.sign)
  else some acc

/-- The variables that the optimizations change: the accumulator, the state and `divCounts`. -/
structure SimpState where
  acc : ℤ
  state : EulerState
  divCounts : ℕ → ℕ

/-- `divCounts[var] = 0`. -/
def zeroAt (divCounts : ℕ → ℕ) (v : ℕ) : ℕ → ℕ := fun u => if u = v then 0 else divCounts u

/-- The loop of `optimizeSimpleFromDivCounts` (PivotEulerAlg.cpp:73-107), on the variables that are left. The second component is
the return value. -/
def manyDivLoop (genCount : ℕ) : List ℕ → SimpState → SimpState × Bool
  | [], o => (o, false)
  | v :: vs, o =>
    if o.divCounts v < genCount - 2 then manyDivLoop genCount vs o
    else if o.divCounts v = genCount - 1 then
      let term := insert v ((o.state.ideal.gens.getD (o.state.ideal.getNonMultiple v) ∅) ∪ o.state.eliminated)
      let acc := if termHasFullSupport term o.state.varCount then o.acc + o.state.sign else o.acc
      let state := o.state.toColonVar v
      if state.genCount ≠ o.state.genCount then (⟨acc, state, o.divCounts⟩, true)
      else manyDivLoop genCount vs ⟨acc, state, zeroAt o.divCounts v⟩
    else if o.divCounts v = genCount - 2 then
      let term := insert v (o.state.ideal.lcmOfNonMultiples v ∪ o.state.eliminated)
      let acc := if termHasFullSupport term o.state.varCount then o.acc - o.state.sign else o.acc
      let state := o.state.toColonVar v
      if state.genCount ≠ o.state.genCount then (⟨acc, state, o.divCounts⟩, true)
      else manyDivLoop genCount vs ⟨acc, state, zeroAt o.divCounts v⟩
    else manyDivLoop genCount vs ⟨o.acc, o.state.toColonVarNoReminimize v, zeroAt o.divCounts v⟩

/-- `optimizeSimpleFromDivCounts` (PivotEulerAlg.cpp:65-109). -/
def optimizeManyDiv (o : SimpState) : SimpState × Bool := manyDivLoop o.state.genCount (List.range o.state.varCount) o

/-- The second loop of `optimizeOneDivCounts` (PivotEulerAlg.cpp:159-168): the state and the term `tmp`. -/
def uniqueDivLoop (divCounts : ℕ → ℕ) : List ℕ → EulerState → SqTerm → EulerState × SqTerm
  | [], s, tmp => (s, tmp)
  | v :: vs, s, tmp =>
    if divCounts v ≠ 1 ∨ v ∈ tmp then uniqueDivLoop divCounts vs s tmp
    else
      let i := s.ideal.getMultiple v
      uniqueDivLoop divCounts vs (s.removeGenerator i).flipSign (tmp ∪ s.ideal.gens.getD i ∅)

/-- `optimizeOneDivCounts` (PivotEulerAlg.cpp:140-176). -/
def optimizeUniqueDiv (o : SimpState) : SimpState × Bool :=
  match (List.range o.state.varCount).dropWhile fun v => o.divCounts v ≠ 1 with
  | [] => (o, false)
  | v :: vs =>
    let i := o.state.ideal.getMultiple v
    let r := uniqueDivLoop o.divCounts vs (o.state.removeGenerator i).flipSign (o.state.ideal.gens.getD i ∅)
    let state := r.1.toColon r.2
    if state.genCount ≠ r.1.genCount ∨ state.genCount ≤ 2 then (⟨o.acc, state, o.divCounts⟩, true)
    else (⟨o.acc, state, fun u => if u ∈ r.2 then 0 else o.divCounts u⟩, false)

/-- The loop of `optimizeVarPairs` (PivotEulerAlg.cpp:183-194). -/
def varPairsLoop : List ℕ → SimpState → SimpState × Bool
  | [], o => (o, false)
  | v :: vs, o =>
    if v ∈ o.state.eliminated then varPairsLoop vs o
    else if termHasFullSupport (insert v (o.state.ideal.lcmOfNonMultiples v ∪ o.state.eliminated)) o.state.varCount then
      varPairsLoop vs o
    else
      let state := o.state.toColonVar v
      if state.genCount ≠ o.state.genCount then (⟨o.acc, state, o.divCounts⟩, true)
      else varPairsLoop vs ⟨o.acc, state, zeroAt o.divCounts v⟩

/-- `optimizeVarPairs` (PivotEulerAlg.cpp:178-196). -/
def optimizeVarPairs (o : SimpState) : SimpState × Bool := varPairsLoop (List.range o.state.varCount) o

/-- What one round of the loop of `processState` comes to. -/
inductive Round
  | base (acc : ℤ)
  | again (acc : ℤ) (state : EulerState)
  | split (o : SimpState)

/-- One round of the loop of `processState` (PivotEulerAlg.cpp:203-227). -/
def eulerRound (cfg : EulerConfig) (acc : ℤ) (s : EulerState) : Round :=
  match baseCaseSimple1 acc s with
  | some acc => .base acc
  | none =>
    let o : SimpState := ⟨acc, s, s.ideal.varDividesCounts⟩
    let r1 := if cfg.uniqueDiv then optimizeUniqueDiv o else (o, false)
    if r1.2 then .again r1.1.acc r1.1.state
    else
      let r2 := if cfg.manyDiv then optimizeManyDiv r1.1 else (r1.1, false)
      if r2.2 then .again r2.1.acc r2.1.state
      else
        let r3 := if cfg.allPairs then optimizeVarPairs r2.1 else (r2.1, false)
        if r3.2 then .again r3.1.acc r3.1.state
        else if cfg.allPairs && decide (r3.1.state.genCount = 3) then .base (r3.1.acc + (r3.1.state.sign + r3.1.state.sign))
        else if cfg.autoTranspose && shouldTranspose cfg.pivot r3.1.state then .again r3.1.acc r3.1.state.transpose
        else .split r3.1

/-- The loop of `processState` (PivotEulerAlg.cpp:203-234). `none` is the null pointer; otherwise the substate and the changed
state. -/
def processLoop (cfg : EulerConfig) : ℕ → ℤ → EulerState → List ℕ →
    Except Stop (ℤ × Option (EulerState × EulerState) × List ℕ)
  | 0, _, _, _ => .error .fuelEnd
  | fuel + 1, acc, s, tape =>
    match eulerRound cfg acc s with
    | .base acc => .ok (acc, none, tape)
    | .again acc s => processLoop cfg fuel acc s tape
    | .split o =>
      match doPivot cfg.pivot o.state o.divCounts tape with
      | .error e => .error e
      | .ok (r, tape) => .ok (o.acc, some r, tape)

/-- `PivotEulerAlg::processState` (PivotEulerAlg.cpp:199-237). -/
def processState (cfg : EulerConfig) (fuel : ℕ) (acc : ℤ) (s : EulerState) (tape : List ℕ) :
    Except Stop (ℤ × Option (EulerState × EulerState) × List ℕ) :=
  processLoop cfg fuel acc s.compactIfProfitable tape

/-- The loop of `computeEuler` (PivotEulerAlg.cpp:301-308), on the stack of the states. -/
def eulerLoop (cfg : EulerConfig) : ℕ → ℤ → List EulerState → List ℕ → Except Stop ℤ
  | _, acc, [], _ => .ok acc
  | 0, _, _ :: _, _ => .error .fuelEnd
  | fuel + 1, acc, s :: stack, tape =>
    match processState cfg (fuel + 1) acc s tape with
    | .error e => .error e
    | .ok (acc, none, tape) => eulerLoop cfg fuel acc stack tape
    | .ok (acc, some (sub, s), tape) => eulerLoop cfg fuel acc (sub :: s :: stack) tape

/-- `PivotEulerAlg::computeEuler` (PivotEulerAlg.cpp:297-309). -/
def computeEuler (cfg : EulerConfig) (fuel : ℕ) (s : EulerState) (tape : List ℕ) : Except Stop ℤ :=
  eulerLoop cfg fuel 0 [if cfg.initialAutoTranspose && shouldTranspose cfg.pivot s then s.transpose else s] tape

/-- `PivotEulerAlg::computeEulerCharacteristic` (PivotEulerAlg.cpp:274-295). -/
def computeEulerCharacteristic (cfg : EulerConfig) (fuel : ℕ) (I : SqIdeal) (tape : List ℕ) : Except Stop ℤ :=
  if I.gens.length = 0 then .ok 0
  else if I.varCount = 0 then .ok (-1)
  else computeEuler cfg fuel (construct I) tape

/-- `getStdStratFactory` (PivotStrategy.cpp:880-888). -/
def stdFactory : Factory StdStrat :=
  [(t!"random", .random), (t!"any", .any), (t!"popvar", .popvar), (t!"popgcd", .popgcd), (t!"rarevar", .rarevar)]

/-- `getGenStratFactory` (PivotStrategy.cpp:891-902). -/
def genFactory : Factory GenStrat :=
  [(t!"raremax", .raremax), (t!"rarevar", .rarevar), (t!"rarest", .rarest), (t!"popvar", .popvar), (t!"maxsupp", .maxsupp),
    (t!"minsupp", .minsupp), (t!"any", .any), (t!"random", .random)]

/-- `newStdPivotStrategy` (PivotStrategy.cpp:905-914). -/
def newStdPivotStrategy (name : Text) : Except LookupError Pivot :=
  if name.take 6 ≠ t!"widen_" then (stdFactory.create name).map .std
  else (stdFactory.create (name.drop 6)).map .widen

/-- The parts of a name between underscores, as the loop of `newGenPivotStrategy` takes them (PivotStrategy.cpp:925-935). -/
def splitName : Text → List Text
  | [] => [[]]
  | c :: t =>
    if c = '_' then [] :: splitName t
    else
      match splitName t with
      | [] => [[c]]
      | p :: ps => (c :: p) :: ps

/-- The products with the given names, or the error for the first name that is not known. -/
def createAll (f : Factory GenStrat) : List Text → Except LookupError (List GenStrat)
  | [] => .ok []
  | p :: ps =>
    match f.create p with
    | .error e => .error e
    | .ok g => (createAll f ps).map fun gs => g :: gs

/-- `newGenPivotStrategy` (PivotStrategy.cpp:916-941). -/
def newGenPivotStrategy (name : Text) : Except LookupError Pivot :=
  if '_' ∉ name then (genFactory.create name).map .gen
  else (createAll genFactory (splitName name)).map .composite

/-- `newDefaultPivotStrategy` (PivotStrategy.cpp:959-961). -/
def newDefaultPivotStrategy : Except LookupError Pivot := newStdPivotStrategy t!"pivot"

/-- The parameters of `EulerAction` (EulerAction.cpp:55-158). -/
structure EulerOptions where
  pivot : Text := t!"gen"
  stdPivot : Text := t!"popvar"
  genPivot : Text := t!"raremax"
  autoTranspose : Text := t!"on"
  uniqueDiv : Bool := true
  manyDiv : Bool := true
  impliedDiv : Bool := false
  swap01 : Bool := false

/-- The configuration that `EulerAction::perform` sets up (EulerAction.cpp:178-201, 222-233); `none` is an error message. -/
def eulerConfig (o : EulerOptions) : Option EulerConfig :=
  match newStdPivotStrategy o.stdPivot, newGenPivotStrategy o.genPivot with
  | .ok std, .ok gen =>
    let strat := if o.pivot = t!"std" then some std else if o.pivot = t!"gen" then some gen
      else if o.pivot = t!"hybrid" then some (.hybrid std gen) else none
    let auto := if o.autoTranspose = t!"on" then some (true, true) else if o.autoTranspose = t!"once" then some (false, true)
      else if o.autoTranspose = t!"off" then some (false, false) else none
    match strat, auto with
    | some p, some (a, i) => some ⟨p, o.uniqueDiv, o.manyDiv, o.impliedDiv, a, i⟩
    | _, _ => none
  | _, _ => none

/-- `EulerAction::perform` (EulerAction.cpp:178-241), on the ideal that has been read; `none` is an error message. -/
def eulerAction (o : EulerOptions) (fuel : ℕ) (I : SqIdeal) (tape : List ℕ) : Option (Except Stop ℤ) :=
  (eulerConfig o).map fun cfg =>
    computeEulerCharacteristic cfg fuel (if o.swap01 then I.swap01 else I).minimize tape

end Frobby
