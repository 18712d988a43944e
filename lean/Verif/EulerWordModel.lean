import Verif.EulerModel
import Verif.RsfModel

/-!
# Model of the algorithm for Euler characteristics on words of memory

`EulerModel` has the same functions on lists of sets. Here the generators of a state and its eliminated variables are arrays of
words with the sizes that the code gives them, the counts are an array of numbers, and every access outside of an array stops the
run. Memory that has been allocated and not written holds anything: every function that allocates is given its `Junk`.
-/

namespace Frobby

/-- What newly allocated memory holds: for the number of an allocation and a position a word. -/
abbrev Junk := ℕ → ℕ → Word

/-- A new array of `n` words. -/
def Junk.array (junk : Junk) (k n : ℕ) : List Word := (List.range n).map (junk k)

/-- Stop at an access outside of an array. -/
def checked {α : Type} : Option α → Except Stop α
  | none => .error .outOfRange
  | some a => .ok a

/-- `EulerState` (EulerState.h:76-80). The array `eliminated` has all the words that were allocated for it. -/
structure EulerWords where
  ideal : RsfIdeal
  eliminated : List Word
  sign : ℤ

namespace EulerWords

/-- `EulerState::getVarCount` (EulerState.h:52). -/
def varCount (w : EulerWords) : ℕ := w.ideal.varCount

/-- `getIdeal().getGeneratorCount()`. -/
def genCount (w : EulerWords) : ℕ := w.ideal.genCount

/-- `getIdeal().getGenerator(i)` (RawSquareFreeIdeal.h:350-358). -/
def generator (w : EulerWords) (i : ℕ) : Except Stop (List Word) := checked (termAt w.ideal.wordsPerTerm w.ideal.memory i)

/-- The words of the array `eliminated` that a term in the variables of the ideal has. -/
def elim (w : EulerWords) : Except Stop (List Word) := checked (readWords w.eliminated 0 (wordCount w.varCount))

/-- Write those words. -/
def putElim (w : EulerWords) (t : List Word) : Except Stop EulerWords := do
  let e ← checked (writeWords w.eliminated 0 t)
  pure ⟨w.ideal, e, w.sign⟩

/-- `Ops::setToIdentity(eliminated, ideal->getVarCount())`. -/
def clear (w : EulerWords) : Except Stop EulerWords := do
  let e ← w.elim
  let e ← checked (wSetToIdentity e w.varCount)
  w.putElim e

/-- `EulerState::rawConstruct` (EulerState.cpp:56-79). The sizes are without overflow; see `C49_bytesOfMemory` for the sizes in
bytes. -/
def rawConstruct (junk : Junk) (varCount capacity : ℕ) : EulerWords :=
  ⟨rsfConstruct varCount (junk.array 0 (max (wordCount varCount * capacity) (wordCount capacity * varCount))),
    junk.array 1 (max (wordCount varCount) (wordCount capacity)), 1⟩

/-- `EulerState::construct` (EulerState.cpp:42-55). -/
def construct (junk : Junk) (I : RsfIdeal) : Except Stop EulerWords := do
  let w := rawConstruct junk I.varCount I.genCount
  let ideal ← checked (w.ideal.insertIdeal I)
  clear ⟨ideal, w.eliminated, w.sign⟩

/-- `EulerState::flipSign` (EulerState.h:43). -/
def flipSign (w : EulerWords) : EulerWords := ⟨w.ideal, w.eliminated, -w.sign⟩

/-- `EulerState::removeGenerator` (EulerState.h:55). -/
def removeGenerator (w : EulerWords) (i : ℕ) : Except Stop EulerWords := do
  let ideal ← checked (w.ideal.removeGenerator i)
  pure ⟨ideal, w.eliminated, w.sign⟩

/-- `Ops::lcmInPlace(eliminated, pivot, ideal->getVarCount())`. -/
def eliminate (w : EulerWords) (pivot : List Word) : Except Stop EulerWords := do
  let e ← w.elim
  let e ← checked (wLcmInPlace e pivot w.varCount)
  w.putElim e

/-- `Ops::setExponent(eliminated, pivotVar, true)`. -/
def eliminateVar (w : EulerWords) (v : ℕ) : Except Stop EulerWords := do
  let e ← w.elim
  let e ← checked (wSetExponent e v true)
  w.putElim e

/-- `EulerState::toColonSubState` for a term (EulerState.cpp:118-127), without the return value. -/
def toColon (w : EulerWords) (pivot : List Word) : Except Stop EulerWords := do
  let ideal ← checked (w.ideal.colonReminimize pivot)
  eliminate ⟨ideal, w.eliminated, w.sign⟩ pivot

/-- `EulerState::toColonSubState` for a variable (EulerState.cpp:129-138), without the return value. -/
def toColonVar (w : EulerWords) (v : ℕ) : Except Stop EulerWords := do
  let ideal ← checked (w.ideal.colonReminimizeVar v)
  eliminateVar ⟨ideal, w.eliminated, w.sign⟩ v

/-- `EulerState::toColonSubStateNoReminimizeNecessary` for a variable (EulerState.cpp:140-147). -/
def toColonVarNoReminimize (w : EulerWords) (v : ℕ) : Except Stop EulerWords := do
  let ideal ← checked (w.ideal.colonVar v)
  eliminateVar ⟨ideal, w.eliminated, w.sign⟩ v

/-- `Ops::assign(subState->eliminated, eliminated, varCount)`. -/
def copyElim (sub w : EulerWords) : Except Stop EulerWords := do
  let e ← w.elim
  let old ← checked (readWords sub.eliminated 0 (wordCount w.varCount))
  let e ← checked (wAssign old e w.varCount)
  sub.putElim e

/-- `EulerState::makeSumSubState` for a variable (EulerState.cpp:158-172). -/
def sumVar (junk : Junk) (w : EulerWords) (v : ℕ) : Except Stop EulerWords := do
  let sub := rawConstruct junk w.varCount w.genCount
  let ideal ← checked (sub.ideal.insertNonMultiplesVar v w.ideal)
  let sub ← copyElim ⟨ideal, sub.eliminated, w.sign⟩ w
  let sub ← eliminateVar sub v
  pure sub.flipSign

/-- `EulerState::makeSumSubState` for a term (EulerState.cpp:174-188). -/
def sumTerm (junk : Junk) (w : EulerWords) (pivot : List Word) : Except Stop EulerWords := do
  let sub := rawConstruct junk w.varCount (w.genCount + 1)
  let ideal ← checked (sub.ideal.insertNonMultiples pivot w.ideal)
  let ideal ← checked (ideal.insert pivot)
  copyElim ⟨ideal, sub.eliminated, w.sign⟩ w

/-- `EulerState::inPlaceStdSplit` for a variable (EulerState.cpp:81-86): the substate and the changed state. -/
def stdSplitVar (junk : Junk) (w : EulerWords) (v : ℕ) : Except Stop (EulerWords × EulerWords) := do
  let sub ← sumVar junk w v
  let w ← w.toColonVar v
  pure (sub, w)

/-- `EulerState::inPlaceStdSplit` for a term (EulerState.cpp:88-93): the substate and the changed state. -/
def stdSplit (junk : Junk) (w : EulerWords) (pivot : List Word) : Except Stop (EulerWords × EulerWords) := do
  let sub ← sumTerm junk w pivot
  let w ← w.toColon pivot
  pure (sub, w)

/-- `EulerState::inPlaceGenSplit` (EulerState.cpp:95-116): the substate and the changed state. The assignment of an ideal is in
RawSquareFreeIdeal.h:55-56 and RawSquareFreeIdeal.cpp:103-108. -/
def genSplit (junk : Junk) (w : EulerWords) (i : ℕ) : Except Stop (EulerWords × EulerWords) := do
  let sub := rawConstruct junk w.varCount w.genCount
  let ideal ← checked ((rsfConstruct w.varCount sub.ideal.memory).insertIdeal w.ideal)
  let sub ← copyElim ⟨ideal, sub.eliminated, w.sign⟩ w
  let pivot ← w.generator i
  let sub ← sub.removeGenerator i
  let sub ← sub.toColon pivot
  let w ← w.removeGenerator i
  pure (sub.flipSign, w)

/-- `EulerState::transpose` (EulerState.cpp:190-194). The buffer is that of RawSquareFreeIdeal.cpp:169-171. -/
def transpose (junk : Junk) (w : EulerWords) : Except Stop EulerWords := do
  let e ← w.elim
  let ideal ← checked (w.ideal.transpose (some e) (junk.array 2 (wordCount w.varCount * w.genCount)))
  let ideal ← checked ideal.minimize
  clear ⟨ideal, w.eliminated, w.sign⟩

/-- `EulerState::getNonEliminatedVarCount` (EulerState.cpp:240-246). -/
def nonEliminated (w : EulerWords) : Except Stop ℕ := do
  let e ← w.elim
  let n ← checked (wSizeOfSupport e w.varCount)
  pure (w.varCount - n)

/-- `EulerState::compactEliminatedVariablesIfProfitable` (EulerState.cpp:196-204). -/
def compactIfProfitable (w : EulerWords) : Except Stop EulerWords := do
  let varsLeft ← w.nonEliminated
  if wordCount w.varCount > wordCount varsLeft then
    let e ← w.elim
    let ideal ← checked (w.ideal.compact e)
    clear ⟨ideal, w.eliminated, w.sign⟩
  else pure w

end EulerWords

/-! ### The pivot strategies -/

/-- The array of counts as a function, to be used for the first `varCount` variables. -/
def countsOf (divCounts : List ℕ) (varCount : ℕ) : Except Stop (ℕ → ℕ) :=
  if varCount ≤ divCounts.length then .ok fun v => divCounts.getD v 0 else .error .outOfRange

/-- `getRareVar` (PivotStrategy.cpp:36-50) on the array. -/
def rareVarWords (divCounts : List ℕ) (varCount : ℕ) : Except Stop ℕ := do
  let d ← countsOf divCounts varCount
  checked (getRareVar d varCount)

/-- `getPopVar` (PivotStrategy.cpp:32-34) on the array. -/
def popVarWords (divCounts : List ℕ) (varCount : ℕ) : Except Stop ℕ := do
  let d ← countsOf divCounts varCount
  pure (getPopVar d varCount)

/-- `StdRandom::getRandomNotEliminatedVar` (PivotStrategy.cpp:222-228), with the rest of the tape. -/
def randomVarWords (w : EulerWords) : List ℕ → Except Stop (ℕ × List ℕ)
  | [] => .error .tapeEnd
  | r :: tape =>
    if w.varCount = 0 then .error .divideByZero
    else
      match wGetExponent w.eliminated (r % w.varCount) with
      | none => .error .outOfRange
      | some false => .ok (r % w.varCount, tape)
      | some true => randomVarWords w tape

/-- The loop of `StdAny::getAnyNotEliminatedVar` (PivotStrategy.cpp:256-262). It has no end of its own; `n` is the number of bits
that are left in the array. -/
def anyVarLoop (a : List Word) (var : ℕ) : ℕ → Except Stop ℕ
  | 0 => .error .outOfRange
  | n + 1 =>
    match wGetExponent a var with
    | none => .error .outOfRange
    | some false => .ok var
    | some true => anyVarLoop a (var + 1) n

/-- The variable chosen by a standard strategy other than `popgcd` (PivotStrategy.cpp:105-151, 197-263). -/
def stdVarWords (strat : StdStrat) (w : EulerWords) (divCounts : List ℕ) (tape : List ℕ) : Except Stop (ℕ × List ℕ) :=
  match strat with
  | .random => randomVarWords w tape
  | .any => (anyVarLoop w.eliminated 0 (64 * w.eliminated.length)).map fun v => (v, tape)
  | .popvar => (popVarWords divCounts w.varCount).map fun v => (v, tape)
  | .popgcd => (popVarWords divCounts w.varCount).map fun v => (v, tape)
  | .rarevar => (rareVarWords divCounts w.varCount).map fun v => (v, tape)

/-- The words of `termWithCapacity(varCount)` (PivotStrategy.cpp:85-88) that a term has. They hold what they held before. -/
def pivotArray (junk : Junk) (k varCount : ℕ) : List Word := junk.array k (wordCount varCount)

/-- `Ops::setToIdentity(pivot, varCount); Ops::setExponent(pivot, var, 1)` (PivotStrategy.cpp:115-116). -/
def singleVar (junk : Junk) (varCount v : ℕ) : Except Stop (List Word) := do
  let t ← checked (wSetToIdentity (pivotArray junk 3 varCount) varCount)
  checked (wSetExponent t v true)

/-- The loop of `StdPopGcd::getPivot` (PivotStrategy.cpp:173-183) for `n` more generators. -/
def popGcdLoop (I : RsfIdeal) (v : ℕ) (seen : ℕ) (pivot : List Word) (it : ℕ) : ℕ → Except Stop (List Word)
  | 0 => .ok pivot
  | n + 1 =>
    match termAt I.wordsPerTerm I.memory it with
    | none => .error .outOfRange
    | some a =>
      match wGetExponent a v with
      | none => .error .outOfRange
      | some false => popGcdLoop I v seen pivot (it + 1) n
      | some true =>
        match if seen = 0 then wAssign pivot a I.varCount else wGcdInPlace pivot a I.varCount with
        | none => .error .outOfRange
        | some pivot => if seen + 1 = 3 then .ok pivot else popGcdLoop I v (seen + 1) pivot (it + 1) n

/-- `StdPopGcd::getPivot` (PivotStrategy.cpp:159-186). -/
def popGcdWords (junk : Junk) (w : EulerWords) (divCounts : List ℕ) : Except Stop (List Word) := do
  let v ← popVarWords divCounts w.varCount
  let d ← checked divCounts[v]?
  if d = 1 then singleVar junk w.varCount v
  else popGcdLoop w.ideal v 0 (pivotArray junk 3 w.varCount) 0 w.ideal.stop

/-- `getPivot` of the standard strategies (PivotStrategy.cpp:112-118, 136-142, 159-186, 204-211, 238-245). -/
def stdPivotWords (junk : Junk) (strat : StdStrat) (w : EulerWords) (divCounts : List ℕ) (tape : List ℕ) :
    Except Stop (List Word × List ℕ) :=
  if strat = .popgcd then (popGcdWords junk w divCounts).map fun t => (t, tape)
  else
    match stdVarWords strat w divCounts tape with
    | .error e => .error e
    | .ok (v, tape) => (singleVar junk w.varCount v).map fun t => (t, tape)

/-- The loop of the filters of the generator strategies (PivotStrategy.cpp:330-338, 376-392, 417-425, 533-552, 635-648, 669-682):
see `pickLoop`. The key is found from the words of a term. -/
def pickWords (key : List Word → Option (Option ℕ)) (worse : ℕ → ℕ → Bool) :
    ℕ → ℕ → ℕ → ℕ → RsfIdeal → Except Stop (RsfIdeal × ℕ)
  | 0, _, _, newEnd, I => .ok (I, newEnd)
  | todo + 1, it, best, newEnd, I =>
    match termAt I.wordsPerTerm I.memory it with
    | none => .error .outOfRange
    | some a =>
      match key a with
      | none => .error .outOfRange
      | some none => pickWords key worse todo (it + 1) best newEnd I
      | some (some k) =>
        if worse k best then pickWords key worse todo (it + 1) best newEnd I
        else
          let newEnd := if worse best k then 0 else newEnd
          match I.swap newEnd it with
          | none => .error .outOfRange
          | some I => pickWords key worse todo (it + 1) k (newEnd + 1) I

/-- The loop that puts the variables with a given count into a term (PivotStrategy.cpp:326-328 and 527-529). -/
def maskLoop (d : ℕ → ℕ) (count : ℕ) : List ℕ → List Word → Option (List Word)
  | [], term => some term
  | v :: vs, term =>
    if d v = count then
      match wSetExponent term v true with
      | none => none
      | some term => maskLoop d count vs term
    else maskLoop d count vs term

/-- The term of the variables with a given count (PivotStrategy.cpp:324-328 and 525-529). -/
def maskWords (junk : Junk) (d : ℕ → ℕ) (varCount count : ℕ) : Except Stop (List Word) := do
  let t ← checked (wSetToIdentity (pivotArray junk 3 varCount) varCount)
  checked (maskLoop d count (List.range varCount) t)

/-- The key of `GenRarestVars::filter` (PivotStrategy.cpp:538-542). -/
def rarestKey (junk : Junk) (varCount : ℕ) (term a : List Word) : Option (Option ℕ) :=
  match wIsRelativelyPrime term a varCount with
  | none => none
  | some true => some none
  | some false =>
    match wGcd (pivotArray junk 4 varCount) term a varCount with
    | none => none
    | some tmp => (wSizeOfSupport tmp varCount).map some

/-- `GenRarestVars::filter` for one count (PivotStrategy.cpp:521-557). -/
def rarestFilterOneWords (junk : Junk) (d : ℕ → ℕ) (varCount count cand : ℕ) (I : RsfIdeal) : Except Stop (RsfIdeal × ℕ) := do
  let term ← maskWords junk d varCount count
  let r ← pickWords (rarestKey junk varCount term) (fun a b => decide (a < b)) cand 0 0 0 I
  pure (r.1, if r.2 ≠ 0 then r.2 else cand)

/-- `GenRarestVars::filter` (PivotStrategy.cpp:494-510), see `rarestFilter`. -/
def rarestFilterWords (junk : Junk) (d : ℕ → ℕ) (varCount : ℕ) : ℕ → ℕ → ℕ → RsfIdeal → Except Stop (RsfIdeal × ℕ)
  | 0, _, cand, I => .ok (I, cand)
  | rounds + 1, last, cand, I =>
    if cand ≤ 1 then .ok (I, cand)
    else
      match nextCount d varCount last with
      | none => .ok (I, cand)
      | some count =>
        match rarestFilterOneWords junk d varCount count cand I with
        | .error e => .error e
        | .ok (I, cand) => rarestFilterWords junk d varCount rounds count cand I

/-- The key of the filters that look at the generators a variable divides (PivotStrategy.cpp:377-379 and 418). -/
def varKey (v : ℕ) (size : List Word → Option ℕ) (a : List Word) : Option (Option ℕ) :=
  match wGetExponent a v with
  | none => none
  | some false => some none
  | some true => (size a).map some

/-- The key of `GenPopVar::filter` (PivotStrategy.cpp:332). -/
def primeKey (varCount : ℕ) (term a : List Word) : Option (Option ℕ) :=
  (wIsRelativelyPrime term a varCount).map fun b => if b then none else some 0

/-- `filter` of the generator strategies (PivotStrategy.cpp:319-338, 372-394, 413-427, 494-510, 632-650, 666-684, 700-704, 722-729),
on the first `cand` generators. -/
def genFilterWords (junk : Junk) (strat : GenStrat) (varCount : ℕ) (divCounts : List ℕ) (tape : List ℕ) (cand : ℕ) (I : RsfIdeal) :
    Except Stop ((RsfIdeal × ℕ) × List ℕ) :=
  let lt := fun a b => decide (a < b)
  match strat with
  | .popvar => do
    let v ← popVarWords divCounts varCount
    let d ← countsOf divCounts varCount
    let term ← maskWords junk d varCount (d v)
    let r ← pickWords (primeKey varCount term) lt cand 0 0 0 I
    pure (r, tape)
  | .raremax => do
    let v ← rareVarWords divCounts varCount
    let r ← pickWords (varKey v fun a => wSizeOfSupport a varCount) lt cand 0 0 0 I
    pure (r, tape)
  | .rarevar => do
    let v ← rareVarWords divCounts varCount
    let r ← pickWords (varKey v fun _ => some 0) lt cand 0 0 0 I
    pure (r, tape)
  | .rarest => do
    let d ← countsOf divCounts varCount
    let r ← rarestFilterWords junk d varCount varCount 0 cand I
    pure (r, tape)
  | .maxsupp => do
    let r ← pickWords (fun a => (wSizeOfSupport a varCount).map some) lt cand 0 0 0 I
    pure (r, tape)
  | .minsupp => do
    let r ← pickWords (fun a => (wSizeOfSupport a varCount).map some) (fun a b => decide (a > b)) cand 0 varCount 0 I
    pure (r, tape)
  | .any => .ok ((I, 1), tape)
  | .random =>
    match tape with
    | [] => .error .tapeEnd
    | r :: tape =>
      if cand = 0 then .error .divideByZero
      else (checked (I.swap 0 (r % cand))).map fun I => ((I, 1), tape)

/-- The loop of `GenComposite::doPivot` (PivotStrategy.cpp:456-457). -/
def compositeFilterWords (junk : Junk) (varCount : ℕ) (divCounts : List ℕ) : List GenStrat → List ℕ → ℕ → RsfIdeal →
    Except Stop (RsfIdeal × List ℕ)
  | [], tape, _, I => .ok (I, tape)
  | g :: gs, tape, cand, I =>
    match genFilterWords junk g varCount divCounts tape cand I with
    | .error e => .error e
    | .ok ((I, cand), tape) => compositeFilterWords junk varCount divCounts gs tape cand I

/-- The body of the loop of `GenRareMax::doPivot` (PivotStrategy.cpp:360-367): the index of the next generator, `bestSupport` and
the index of `best`. -/
def rareMaxStep (varCount v : ℕ) (best : ℕ × ℕ × ℕ) (a : List Word) : Option (ℕ × ℕ × ℕ) :=
  match wGetExponent a v with
  | none => none
  | some false => some (best.1 + 1, best.2.1, best.2.2)
  | some true => bestSupport (fun best supp => decide (best < supp)) varCount best a

/-- The index chosen by `GenRareMax::doPivot` (PivotStrategy.cpp:357-369). -/
def rareMaxWords (w : EulerWords) (v : ℕ) : Except Stop ℕ := do
  let r ← checked (foldTerms w.ideal.wordsPerTerm (rareMaxStep w.varCount v) (0, 0, w.ideal.stop) w.ideal.memory 0 w.ideal.stop)
  pure r.2.2

/-- `doPivot` of the generator strategies (PivotStrategy.cpp:312-317, 350-370, 406-411, 487-492, 628-630, 662-664, 696-698,
717-720): the substate, the changed state and the rest of the tape. -/
def genPivotWords (junk : Junk) (strat : GenStrat) (w : EulerWords) (divCounts : List ℕ) (tape : List ℕ) :
    Except Stop ((EulerWords × EulerWords) × List ℕ) :=
  match strat with
  | .popvar => do
    let v ← popVarWords divCounts w.varCount
    let i ← checked (w.ideal.getMultiple v)
    let r ← w.genSplit junk i
    pure (r, tape)
  | .raremax => do
    let v ← rareVarWords divCounts w.varCount
    let i ← rareMaxWords w v
    let r ← w.genSplit junk i
    pure (r, tape)
  | .rarevar => do
    let v ← rareVarWords divCounts w.varCount
    let i ← checked (w.ideal.getMultiple v)
    let r ← w.genSplit junk i
    pure (r, tape)
  | .rarest => do
    let d ← countsOf divCounts w.varCount
    let I ← rarestFilterWords junk d w.varCount w.varCount 0 w.ideal.stop w.ideal
    let r ← EulerWords.genSplit junk ⟨I.1, w.eliminated, w.sign⟩ 0
    pure (r, tape)
  | .maxsupp => do
    let i ← checked (w.ideal.bestSupportGen fun best supp => decide (best < supp))
    let r ← w.genSplit junk i
    pure (r, tape)
  | .minsupp => do
    let i ← checked (w.ideal.bestSupportGen fun best supp => decide (best > supp))
    let r ← w.genSplit junk i
    pure (r, tape)
  | .any => do
    let r ← w.genSplit junk 0
    pure (r, tape)
  | .random =>
    match tape with
    | [] => .error .tapeEnd
    | r :: tape => if w.genCount = 0 then .error .divideByZero else (w.genSplit junk (r % w.genCount)).map fun x => (x, tape)

/-- `PivotStrategy::doPivot` (PivotStrategy.cpp:107-110, 131-134, 155-157, 199-202, 233-236, 272-278, 450-461, 746-752): the substate,
the changed state and the rest of the tape. -/
def doPivotWords (junk : Junk) : Pivot → EulerWords → List ℕ → List ℕ → Except Stop ((EulerWords × EulerWords) × List ℕ)
  | .std strat, w, divCounts, tape =>
    if strat = .popgcd then do
      let t ← popGcdWords junk w divCounts
      let r ← w.stdSplit junk t
      pure (r, tape)
    else
      match stdVarWords strat w divCounts tape with
      | .error e => .error e
      | .ok (v, tape) => (w.stdSplitVar junk v).map fun r => (r, tape)
  | .widen strat, w, divCounts, tape =>
    match stdPivotWords junk strat w divCounts tape with
    | .error e => .error e
    | .ok (narrow, tape) => do
      let wide ← checked (w.ideal.gcdOfMultiples (pivotArray junk 4 w.varCount) narrow)
      let r ← w.stdSplit junk wide
      pure (r, tape)
  | .gen strat, w, divCounts, tape => genPivotWords junk strat w divCounts tape
  | .composite gs, w, divCounts, tape =>
    match compositeFilterWords junk w.varCount divCounts gs tape w.ideal.stop w.ideal with
    | .error e => .error e
    | .ok (I, tape) => (EulerWords.genSplit junk ⟨I, w.eliminated, w.sign⟩ 0).map fun r => (r, tape)
  | .hybrid p q, w, divCounts, tape =>
    match w.nonEliminated with
    | .error e => .error e
    | .ok n => if n < w.genCount then doPivotWords junk p w divCounts tape else doPivotWords junk q w divCounts tape

/-- `PivotStrategy::shouldTranspose` (PivotStrategy.cpp:100-102, 289-291, 305-307, 476-478, 767-769). -/
def shouldTransposeWords : Pivot → EulerWords → Bool
  | .std _, w => decide (w.varCount > w.genCount)
  | .widen _, w => decide (w.varCount > w.genCount)
  | .gen _, w => decide (w.varCount < w.genCount)
  | .composite _, w => decide (w.varCount < w.genCount)
  | .hybrid _ _, _ => false

/-! ### The simplifications -/

/-- `baseCaseSimple1` (PivotEulerAlg.cpp:41-63): the new accumulator if this is a base case. -/
def baseCaseWords (acc : ℤ) (w : EulerWords) : Except Stop (Option ℤ) := do
  let e ← w.elim
  let full ← checked (w.ideal.hasFullSupport e)
  if !full then pure (some acc)
  else if w.genCount > 2 then pure none
  else if w.genCount = 0 then pure (some (acc + w.sign))
  else if w.genCount = 2 then pure (some (acc + w.sign))
  else do
    let all ← checked (wHasFullSupport e w.varCount)
    if !all then pure (some (acc - w.sign)) else pure (some acc)

/-- The variables that the optimizations change: the accumulator, the state and the array `divCounts`. -/
structure SimpWords where
  acc : ℤ
  state : EulerWords
  divCounts : List ℕ

/-- The words of the array `_termTmp` that a term has, of the `size` words of the array (PivotEulerAlg.cpp:258-259 and 284-285).
The array is written before it is read, so it is enough to know that it holds anything. -/
def termTmp (junk : Junk) (size varCount : ℕ) : Except Stop (List Word) :=
  if wordCount varCount ≤ size then .ok (junk.array 5 (wordCount varCount)) else .error .outOfRange

/-- `Ops::lcm(termTmp, nonMultiple, state.getEliminatedVars(), varCount); Ops::setExponent(termTmp, var, 1);` and
`Ops::hasFullSupport(termTmp, varCount)` for the generator that the variable does not divide (PivotEulerAlg.cpp:81-85). -/
def fullWithNonMultiple (junk : Junk) (size : ℕ) (w : EulerWords) (v : ℕ) : Except Stop Bool := do
  let i ← checked (w.ideal.getNonMultiple v)
  let g ← w.generator i
  let tmp ← termTmp junk size w.varCount
  let e ← w.elim
  let tmp ← checked (wLcm tmp g e w.varCount)
  let tmp ← checked (wSetExponent tmp v true)
  checked (wHasFullSupport tmp w.varCount)

/-- `getLcmOfNonMultiples(termTmp, var); Ops::lcmInPlace(termTmp, state.getEliminatedVars(), varCount);
Ops::setExponent(termTmp, var, 1);` and `Ops::hasFullSupport(termTmp, varCount)` (PivotEulerAlg.cpp:92-95 and 186-189). -/
def fullWithLcm (junk : Junk) (size : ℕ) (w : EulerWords) (v : ℕ) : Except Stop Bool := do
  let _ ← termTmp junk size w.varCount
  let tmp ← checked (w.ideal.lcmOfNonMultiples v)
  let e ← w.elim
  let tmp ← checked (wLcmInPlace tmp e w.varCount)
  let tmp ← checked (wSetExponent tmp v true)
  checked (wHasFullSupport tmp w.varCount)

/-- `divCounts[var] = 0`. -/
def zeroAtWords (divCounts : List ℕ) (v : ℕ) : Except Stop (List ℕ) :=
  if v < divCounts.length then .ok (divCounts.set v 0) else .error .outOfRange

/-- `if (state.toColonSubState(var)) return true; divCounts[var] = 0;` (PivotEulerAlg.cpp:88-90, 98-100 and 190-192) after the
accumulator has been set. -/
def colonAndZero (o : SimpWords) (acc : ℤ) (v : ℕ) : Except Stop (SimpWords × Bool) := do
  let state ← o.state.toColonVar v
  if state.genCount ≠ o.state.genCount then pure (⟨acc, state, o.divCounts⟩, true)
  else do
    let d ← zeroAtWords o.divCounts v
    pure (⟨acc, state, d⟩, false)

/-- The body of the loop of `optimizeSimpleFromDivCounts` (PivotEulerAlg.cpp:77-106). The second component is whether the function
returns true. -/
def manyDivStep (junk : Junk) (size genCount : ℕ) (o : SimpWords) (v : ℕ) : Except Stop (SimpWords × Bool) := do
  let d ← checked o.divCounts[v]?
  if d < genCount - 2 then pure (o, false)
  else if d = genCount - 1 then do
    let full ← fullWithNonMultiple junk size o.state v
    colonAndZero o (if full then o.acc + o.state.sign else o.acc) v
  else if d = genCount - 2 then do
    let full ← fullWithLcm junk size o.state v
    colonAndZero o (if full then o.acc - o.state.sign else o.acc) v
  else do
    let state ← o.state.toColonVarNoReminimize v
    let d ← zeroAtWords o.divCounts v
    pure (⟨o.acc, state, d⟩, false)

/-- A loop over variables that ends early when the body returns true. -/
def varLoop (step : SimpWords → ℕ → Except Stop (SimpWords × Bool)) : List ℕ → SimpWords → Except Stop (SimpWords × Bool)
  | [], o => .ok (o, false)
  | v :: vs, o =>
    match step o v with
    | .error e => .error e
    | .ok (o, true) => .ok (o, true)
    | .ok (o, false) => varLoop step vs o

/-- `optimizeSimpleFromDivCounts` (PivotEulerAlg.cpp:65-109). -/
def optimizeManyDivWords (junk : Junk) (size : ℕ) (o : SimpWords) : Except Stop (SimpWords × Bool) :=
  varLoop (manyDivStep junk size o.state.genCount) (List.range o.state.varCount) o

/-- The body of the loop of `optimizeVarPairs` (PivotEulerAlg.cpp:184-193). -/
def varPairsStep (junk : Junk) (size : ℕ) (o : SimpWords) (v : ℕ) : Except Stop (SimpWords × Bool) := do
  let e ← o.state.elim
  let gone ← checked (wGetExponent e v)
  if gone then pure (o, false)
  else do
    let full ← fullWithLcm junk size o.state v
    if full then pure (o, false) else colonAndZero o o.acc v

/-- `optimizeVarPairs` (PivotEulerAlg.cpp:178-196). -/
def optimizeVarPairsWords (junk : Junk) (size : ℕ) (o : SimpWords) : Except Stop (SimpWords × Bool) :=
  varLoop (varPairsStep junk size) (List.range o.state.varCount) o

/-- `removeGenerator(index); flipSign();` (PivotEulerAlg.cpp:153-154 and 166-167). -/
def dropGenerator (w : EulerWords) (i : ℕ) : Except Stop EulerWords := (w.removeGenerator i).map EulerWords.flipSign

/-- The second loop of `optimizeOneDivCounts` (PivotEulerAlg.cpp:159-168): the state and the term `tmp`. -/
def uniqueDivLoopWords (d : ℕ → ℕ) : List ℕ → EulerWords → List Word → Except Stop (EulerWords × List Word)
  | [], w, tmp => .ok (w, tmp)
  | v :: vs, w, tmp =>
    if d v ≠ 1 then uniqueDivLoopWords d vs w tmp
    else
      match wGetExponent tmp v with
      | none => .error .outOfRange
      | some true => uniqueDivLoopWords d vs w tmp
      | some false => do
        let i ← checked (w.ideal.getMultiple v)
        let g ← w.generator i
        let tmp ← checked (wLcmInPlace tmp g w.varCount)
        let w ← dropGenerator w i
        uniqueDivLoopWords d vs w tmp

/-- `optimizeOneDivCounts` (PivotEulerAlg.cpp:140-176) after the first variable with count one has been found: `vs` are the
variables after it. -/
def uniqueDivFrom (junk : Junk) (size : ℕ) (o : SimpWords) (d : ℕ → ℕ) (v : ℕ) (vs : List ℕ) : Except Stop (SimpWords × Bool) := do
  let i ← checked (o.state.ideal.getMultiple v)
  let g ← o.state.generator i
  let tmp ← termTmp junk size o.state.varCount
  let tmp ← checked (wAssign tmp g o.state.varCount)
  let w ← dropGenerator o.state i
  let r ← uniqueDivLoopWords d vs w tmp
  let state ← r.1.toColon r.2
  if state.genCount ≠ r.1.genCount ∨ state.genCount ≤ 2 then pure (⟨o.acc, state, o.divCounts⟩, true)
  else do
    let d ← checked (wToZeroAtSupport r.2 o.divCounts o.state.varCount)
    pure (⟨o.acc, state, d⟩, false)

/-- `optimizeOneDivCounts` (PivotEulerAlg.cpp:140-176). -/
def optimizeUniqueDivWords (junk : Junk) (size : ℕ) (o : SimpWords) : Except Stop (SimpWords × Bool) :=
  match countsOf o.divCounts o.state.varCount with
  | .error e => .error e
  | .ok d =>
    match (List.range o.state.varCount).dropWhile fun v => d v ≠ 1 with
    | [] => .ok (o, false)
    | v :: vs => uniqueDivFrom junk size o d v vs

/-- What one round of the loop of `processState` comes to. -/
inductive RoundWords
  | base (acc : ℤ)
  | again (acc : ℤ) (state : EulerWords)
  | split (o : SimpWords)

/-- The end of a round (PivotEulerAlg.cpp:220-226), after the simplifications. -/
def roundEnd (cfg : EulerConfig) (junk : Junk) (o : SimpWords) : Except Stop RoundWords :=
  if cfg.allPairs && decide (o.state.genCount = 3) then .ok (.base (o.acc + (o.state.sign + o.state.sign)))
  else if cfg.autoTranspose && shouldTransposeWords cfg.pivot o.state then (o.state.transpose junk).map (.again o.acc)
  else .ok (.split o)

/-- A simplification if it is switched on, and what follows if it returns false. -/
def simplifyThen (on : Bool) (f : SimpWords → Except Stop (SimpWords × Bool)) (o : SimpWords)
    (next : SimpWords → Except Stop RoundWords) : Except Stop RoundWords :=
  match if on then f o else .ok (o, false) with
  | .error e => .error e
  | .ok (o, true) => .ok (.again o.acc o.state)
  | .ok (o, false) => next o

/-- One round of the loop of `processState` (PivotEulerAlg.cpp:203-227). -/
def eulerRoundWords (cfg : EulerConfig) (junk : Junk) (size : ℕ) (acc : ℤ) (w : EulerWords) : Except Stop RoundWords :=
  match baseCaseWords acc w with
  | .error e => .error e
  | .ok (some acc) => .ok (.base acc)
  | .ok none =>
    match w.ideal.varDividesCounts ((junk.array 6 bitsPerWord).map BitVec.toNat) with
    | none => .error .outOfRange
    | some d =>
      simplifyThen cfg.uniqueDiv (optimizeUniqueDivWords junk size) ⟨acc, w, d⟩ fun o =>
        simplifyThen cfg.manyDiv (optimizeManyDivWords junk size) o fun o =>
          simplifyThen cfg.allPairs (optimizeVarPairsWords junk size) o (roundEnd cfg junk)

/-- The loop of `processState` (PivotEulerAlg.cpp:203-234). `none` is the null pointer; otherwise the substate and the changed
state. -/
def processLoopWords (cfg : EulerConfig) (junk : ℕ → Junk) (size : ℕ) : ℕ → ℤ → EulerWords → List ℕ →
    Except Stop (ℤ × Option (EulerWords × EulerWords) × List ℕ)
  | 0, _, _, _ => .error .fuelEnd
  | fuel + 1, acc, w, tape =>
    match eulerRoundWords cfg (junk fuel) size acc w with
    | .error e => .error e
    | .ok (.base acc) => .ok (acc, none, tape)
    | .ok (.again acc w) => processLoopWords cfg junk size fuel acc w tape
    | .ok (.split o) =>
      match doPivotWords (junk fuel) cfg.pivot o.state o.divCounts tape with
      | .error e => .error e
      | .ok (r, tape) => .ok (o.acc, some r, tape)

/-- `PivotEulerAlg::processState` (PivotEulerAlg.cpp:199-237). -/
def processStateWords (cfg : EulerConfig) (junk : ℕ → Junk) (size fuel : ℕ) (acc : ℤ) (w : EulerWords) (tape : List ℕ) :
    Except Stop (ℤ × Option (EulerWords × EulerWords) × List ℕ) :=
  match w.compactIfProfitable with
  | .error e => .error e
  | .ok w => processLoopWords cfg junk size fuel acc w tape

/-- The loop of `computeEuler` (PivotEulerAlg.cpp:301-308), on the stack of the states. -/
def eulerLoopWords (cfg : EulerConfig) (junk : ℕ → ℕ → Junk) (size : ℕ) : ℕ → ℤ → List EulerWords → List ℕ → Except Stop ℤ
  | _, acc, [], _ => .ok acc
  | 0, _, _ :: _, _ => .error .fuelEnd
  | fuel + 1, acc, w :: stack, tape =>
    match processStateWords cfg (junk fuel) size (fuel + 1) acc w tape with
    | .error e => .error e
    | .ok (acc, none, tape) => eulerLoopWords cfg junk size fuel acc stack tape
    | .ok (acc, some (sub, w), tape) => eulerLoopWords cfg junk size fuel acc (sub :: w :: stack) tape

/-- `PivotEulerAlg::computeEuler` (PivotEulerAlg.cpp:297-309). -/
def computeEulerWords (cfg : EulerConfig) (junk : ℕ → ℕ → Junk) (size fuel : ℕ) (w : EulerWords) (tape : List ℕ) : Except Stop ℤ :=
  if cfg.initialAutoTranspose && shouldTransposeWords cfg.pivot w then
    match w.transpose (junk fuel fuel) with
    | .error e => .error e
    | .ok w => eulerLoopWords cfg junk size fuel 0 [w] tape
  else eulerLoopWords cfg junk size fuel 0 [w] tape

/-- `PivotEulerAlg::computeEulerCharacteristic` for a `RawSquareFreeIdeal` (PivotEulerAlg.cpp:274-295). The contents of memory that
is allocated in round `j` of `processState`, counted by the fuel that is left, for a state in round `i` of `computeEuler` are
`junk i j`. -/
def computeEulerCharacteristicWords (cfg : EulerConfig) (junk : ℕ → ℕ → Junk) (fuel : ℕ) (I : RsfIdeal) (tape : List ℕ) :
    Except Stop ℤ :=
  if I.genCount = 0 then .ok 0
  else if I.varCount = 0 then .ok (-1)
  else
    match EulerWords.construct (junk fuel (fuel + 1)) I with
    | .error e => .error e
    | .ok w => computeEulerWords cfg junk (wordCount (max I.varCount I.genCount)) fuel w tape

/-- `EulerAction::perform` after the ideal has been read and the strategy chosen (EulerAction.cpp:212-220 and 236-239). The contents
of memory that is allocated for the first state are those for one more round than there is fuel. -/
def eulerActionWords (cfg : EulerConfig) (swap01 : Bool) (junk : ℕ → ℕ → Junk) (fuel : ℕ) (I : RsfIdeal) (tape : List ℕ) :
    Except Stop ℤ := do
  let I ← if swap01 then checked I.swap01 else pure I
  let I ← checked I.minimize
  computeEulerCharacteristicWords cfg junk fuel I tape

end Frobby
