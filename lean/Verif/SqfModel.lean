import Mathlib.Data.Finset.Card
import Mathlib.Data.Finset.Range
import Mathlib.Data.Finset.Lattice.Fold

/-!
# Model of `RawSquareFreeIdeal`

A square free term is the set of the numbers of the variables that divide it. Every function here works on such sets; that the
operations on packed words which the code uses are the operations on sets is the subject of `WordModel` and `RsfModel` (`C49_refines`). The order of the
generators is that of the code, since the choice of pivots depends on it.
-/

namespace Frobby

/-- A square free term: the variables that divide it. -/
abbrev SqTerm := Finset ℕ

/-- `RawSquareFreeIdeal` (RawSquareFreeIdeal.h:318-322). -/
structure SqIdeal where
  varCount : ℕ
  gens : List SqTerm
deriving DecidableEq

/-- Remove the first element of a list and put the last one in its place, as `--end; *it = *end` does. -/
def takeLast : List SqTerm → List SqTerm
  | [] => []
  | x :: l => ((x :: l).getLast (by simp)) :: (x :: l).dropLast

theorem takeLast_length (l : List SqTerm) : (takeLast l).length = l.length := by
  cases l <;> simp [takeLast]

/-- The loop of the function `minimize` on a range (RawSquareFreeIdeal.cpp:68-83). `kept` are the elements before `it`, the other
list those from `it` to `end`. -/
def sqMinimizeLoop (kept : List SqTerm) : List SqTerm → List SqTerm
  | [] => kept
  | x :: l =>
    if (kept ++ l).any fun d => d ⊆ x then sqMinimizeLoop kept (takeLast l)
    else sqMinimizeLoop (kept ++ [x]) l
  termination_by l => l.length
  decreasing_by all_goals simp [takeLast_length]

/-- `minimize` on a range (RawSquareFreeIdeal.cpp:68-83). -/
def sqMinimize (l : List SqTerm) : List SqTerm := sqMinimizeLoop [] l

/-- `RsfPartition` (RawSquareFreeIdeal.cpp:41-63): the elements before and from the returned position, in the order they are
left in. The last element that satisfies the predicate changes places with the first that does not. -/
def rsfPartition (p : SqTerm → Bool) : List SqTerm → List SqTerm × List SqTerm
  | [] => ([], [])
  | x :: l =>
    if p x then
      let r := rsfPartition p l
      (x :: r.1, r.2)
    else
      match h : (l.reverse.dropWhile fun y => !p y) with
      | [] => ([], x :: l)
      | y :: before =>
        let r := rsfPartition p before.reverse
        (y :: r.1, r.2 ++ x :: (l.reverse.takeWhile fun y => !p y).reverse)
  termination_by l => l.length
  decreasing_by
    · simp
    · have := (List.dropWhile_sublist (fun y => !p y) (l := l.reverse)).length_le
      rw [h] at this
      simp at this ⊢
      omega

/-- `RawSquareFreeIdeal::minimize` (RawSquareFreeIdeal.cpp:242-247). -/
def SqIdeal.minimize (I : SqIdeal) : SqIdeal := ⟨I.varCount, sqMinimize I.gens⟩

/-- `RawSquareFreeIdeal::colon` for a variable (RawSquareFreeIdeal.cpp:257-262). -/
def SqIdeal.colonVar (I : SqIdeal) (v : ℕ) : SqIdeal := ⟨I.varCount, I.gens.map fun g => g.erase v⟩

/-- `RawSquareFreeIdeal::colonReminimize` for a term (RawSquareFreeIdeal.cpp:675-712). -/
def SqIdeal.colonReminimize (I : SqIdeal) (by' : SqTerm) : SqIdeal :=
  let parts := rsfPartition (fun g => !decide (Disjoint by' g)) I.gens
  if parts.1 = [] then ⟨I.varCount, parts.2⟩
  else
    let low := sqMinimize (parts.1.map fun g => g \ by')
    ⟨I.varCount, low ++ parts.2.filter fun g => !low.any fun d => d ⊆ g⟩

/-- The loop at the end of `colonReminimize` for a variable (RawSquareFreeIdeal.cpp:748-759): `low` is `[start, middle)`, `kept`
is `[middle, it)` and the other list is `[it, stop)`. -/
def colonVarLoop (low kept : List SqTerm) : List SqTerm → List SqTerm
  | [] => kept
  | x :: l =>
    if low.any fun d => d ⊆ x then colonVarLoop low kept (takeLast l)
    else colonVarLoop low (kept ++ [x]) l
  termination_by l => l.length
  decreasing_by all_goals simp [takeLast_length]

/-- `RawSquareFreeIdeal::colonReminimize` for a variable (RawSquareFreeIdeal.cpp:723-763). -/
def SqIdeal.colonReminimizeVar (I : SqIdeal) (v : ℕ) : SqIdeal :=
  let parts := rsfPartition (fun g => decide (v ∈ g)) I.gens
  if parts.1 = [] then ⟨I.varCount, parts.2⟩
  else
    let low := parts.1.map fun g => g.erase v
    if parts.2 = [] then ⟨I.varCount, low⟩
    else ⟨I.varCount, low ++ colonVarLoop low [] parts.2⟩

/-- The variables below a number that are not in a set, in order. -/
def keptVars (varCount : ℕ) (remove : SqTerm) : List ℕ := (List.range varCount).filter fun v => v ∉ remove

/-- `RawSquareFreeIdeal::compact` (RawSquareFreeIdeal.cpp:264-302). -/
def SqIdeal.compact (I : SqIdeal) (remove : SqTerm) : SqIdeal :=
  let kept := keptVars I.varCount remove
  ⟨kept.length, I.gens.map fun g => (Finset.range kept.length).filter fun i => kept.getD i 0 ∈ g⟩

/-- `RawSquareFreeIdeal::transpose` and `setToTransposeOf` (RawSquareFreeIdeal.cpp:140-177), for a term `eraseVars` that is not
null. -/
def SqIdeal.transpose (I : SqIdeal) (eraseVars : SqTerm) : SqIdeal :=
  ⟨I.gens.length, (keptVars I.varCount eraseVars).map fun v =>
    (Finset.range I.gens.length).filter fun i => v ∈ I.gens.getD i ∅⟩

/-- The union of a list of sets. -/
def unionAll (l : List SqTerm) : SqTerm := l.foldl (· ∪ ·) ∅

/-- `RawSquareFreeIdeal::getLcmOfNonMultiples` (RawSquareFreeIdeal.cpp:304-315). -/
def SqIdeal.lcmOfNonMultiples (I : SqIdeal) (v : ℕ) : SqTerm := unionAll (I.gens.filter fun g => v ∉ g)

/-- `RawSquareFreeIdeal::getVarDividesCounts` (RawSquareFreeIdeal.cpp:366-391), as a function of the variable. -/
def SqIdeal.varDividesCounts (I : SqIdeal) (v : ℕ) : ℕ := I.gens.countP fun g => v ∈ g

/-- `RawSquareFreeIdeal::getMultiple` (RawSquareFreeIdeal.cpp:393-402). -/
def SqIdeal.getMultiple (I : SqIdeal) (v : ℕ) : ℕ := I.gens.findIdx fun g => v ∈ g

/-- `RawSquareFreeIdeal::getNonMultiple` (RawSquareFreeIdeal.cpp:404-413). -/
def SqIdeal.getNonMultiple (I : SqIdeal) (v : ℕ) : ℕ := I.gens.findIdx fun g => v ∉ g

/-- A loop that finds the index of the first element with the best key, `better a b` being the test that replaces the best key
`a` by `b`. -/
def bestIndex (key : SqTerm → ℕ) (better : ℕ → ℕ → Bool) (i best bestIdx : ℕ) : List SqTerm → ℕ
  | [] => bestIdx
  | g :: l => if better best (key g) then bestIndex key better (i + 1) (key g) i l
    else bestIndex key better (i + 1) best bestIdx l

/-- `RawSquareFreeIdeal::getMaxSupportGen` (RawSquareFreeIdeal.cpp:415-433). -/
def SqIdeal.maxSupportGen (I : SqIdeal) : ℕ :=
  match I.gens with
  | [] => 0
  | g :: l => bestIndex Finset.card (fun best supp => decide (best < supp)) 1 g.card 0 l

/-- `RawSquareFreeIdeal::getMinSupportGen` (RawSquareFreeIdeal.cpp:435-453). -/
def SqIdeal.minSupportGen (I : SqIdeal) : ℕ :=
  match I.gens with
  | [] => 0
  | g :: l => bestIndex Finset.card (fun best supp => decide (best > supp)) 1 g.card 0 l

/-- `RawSquareFreeIdeal::getGcdOfMultiples` for a term (RawSquareFreeIdeal.cpp:467-478). -/
def SqIdeal.gcdOfMultiples (I : SqIdeal) (div : SqTerm) : SqTerm :=
  (I.gens.filter fun g => div ⊆ g).foldl (· ∩ ·) (Finset.range I.varCount)

/-- `RawSquareFreeIdeal::removeGenerator` (RawSquareFreeIdeal.cpp:480-488), for an index in range. -/
def SqIdeal.removeGenerator (I : SqIdeal) (i : ℕ) : SqIdeal :=
  ⟨I.varCount, (I.gens.set i (I.gens.getLastD ∅)).dropLast⟩

/-- `RawSquareFreeIdeal::hasFullSupport` (RawSquareFreeIdeal.cpp:545-577): the words are compared for equality. -/
def SqIdeal.hasFullSupport (I : SqIdeal) (ignore : SqTerm) : Bool := ignore ∪ unionAll I.gens = Finset.range I.varCount

/-- `hasFullSupport` on a term (RawSquareFreeTerm.h:183-194). -/
def termHasFullSupport (a : SqTerm) (varCount : ℕ) : Bool := a = Finset.range varCount

/-- `RawSquareFreeIdeal::swap01Exponents` (RawSquareFreeIdeal.cpp:651-656). -/
def SqIdeal.swap01 (I : SqIdeal) : SqIdeal := ⟨I.varCount, I.gens.map fun g => Finset.range I.varCount \ g⟩

end Frobby
