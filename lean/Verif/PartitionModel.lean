import Verif.StrategyModel

/-!
# Model of `Partition` as it is stored

Parent links and weights in one array, with path compression. `int` is unbounded here (`Partition.h:50` has `int`
entries, so elements and sizes must be below 2^31).
-/

namespace Frobby

/-- The fields of `Partition` (Partition.h:48-53): entries that are not negative are links to a parent, a negative
entry is minus the weight of a root. The capacity is not modelled. -/
structure Part (n : ℕ) where
  arr : Fin n → ℤ
  count : ℕ

namespace Part

variable {n : ℕ}

/-- `Partition::reset` (Partition.cpp:39-49). -/
def reset (n : ℕ) : Part n := { arr := fun _ => -1, count := n }

/-- `Partition::getRoot` (Partition.cpp:102-109), which also shortens the paths. `none`: the recursion is deeper than
the fuel, or a link leads out of the array. -/
def getRootAux : ℕ → (Fin n → ℤ) → Fin n → Option (Fin n × (Fin n → ℤ))
  | 0, _, _ => none
  | fuel + 1, arr, i =>
    if 0 ≤ arr i then
      if h : (arr i).toNat < n then
        match getRootAux fuel arr ⟨(arr i).toNat, h⟩ with
        | none => none
        | some (r, arr') => some (r, Function.update arr' i (r.val : ℤ))
      else none
    else some (i, arr)

/-- `Partition::getRoot`. The recursion is at most as deep as there are elements. -/
def getRoot (P : Part n) (i : Fin n) : Option (Fin n × Part n) :=
  match getRootAux n P.arr i with
  | none => none
  | some (r, arr) => some (r, { P with arr := arr })

/-- `Partition::join` (Partition.cpp:51-70). -/
def join (P : Part n) (i j : Fin n) : Option (Bool × Part n) :=
  match P.getRoot i with
  | none => none
  | some (ri, P1) =>
    match P1.getRoot j with
    | none => none
    | some (rj, P2) =>
      if ri = rj then some (false, P2)
      else
        let arr := Function.update P2.arr ri (P2.arr ri + (P2.arr rj + 1))
        some (true, { arr := Function.update arr rj (ri.val : ℤ), count := P2.count - 1 })

/-- `Partition::addToSet` (Partition.cpp:111-115). -/
def addToSet (P : Part n) (i : Fin n) : Option (Part n) :=
  match P.getRoot i with
  | none => none
  | some (r, P1) => some { P1 with arr := Function.update P1.arr r (P1.arr r - 1) }

/-- `Partition::getSizeOfClassOf` (Partition.cpp:84-86); `size_t` of a negative number is an error here. -/
def getSizeOfClassOf (P : Part n) (i : Fin n) : Option (ℕ × Part n) :=
  match P.getRoot i with
  | none => none
  | some (r, P1) => if P1.arr r ≤ 0 then some ((-P1.arr r).toNat, P1) else none

/-- The loop of `Partition::getSetSize` (Partition.cpp:88-100) over the elements that are left. -/
def getSetSizeAux : List (Fin n) → ℕ → Part n → Option (ℕ × Part n)
  | [], _, P => some (0, P)
  | i :: is, set, P =>
    match P.getRoot i with
    | none => none
    | some (r, P1) =>
      if i = r then
        match set with
        | 0 => if P1.arr i + 1 ≤ 0 then some ((-(P1.arr i + 1)).toNat, P1) else none
        | set + 1 => getSetSizeAux is set P1
      else getSetSizeAux is set P1

/-- `Partition::getSetSize`. -/
def getSetSize (P : Part n) (set : ℕ) : Option (ℕ × Part n) := getSetSizeAux (List.finRange n) set P

end Part

/-- The calls that can be made on a partition. -/
inductive PartOp (n : ℕ)
  | join (i j : Fin n)
  | addToSet (i : Fin n)
  | getRoot (i : Fin n)

/-- One call. -/
def PartOp.run {n : ℕ} (P : Part n) : PartOp n → Option (Part n)
  | .join i j => (P.join i j).map (·.2)
  | .addToSet i => P.addToSet i
  | .getRoot i => (P.getRoot i).map (·.2)

/-- A history of calls on a fresh partition. -/
def Part.history {n : ℕ} (ops : List (PartOp n)) : Option (Part n) :=
  ops.foldlM (fun P op => op.run P) (Part.reset n)

end Frobby
