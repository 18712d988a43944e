import Verif.TextModel

/-!
# Model of `VarNames` (src/VarNames.cpp)

`_nameToIndex` is a container of nodes, and `_indexToName` is an array of pointers to the names in these nodes. A node has
an address; `std::unordered_map` does not move its nodes, and `swap` of two maps exchanges their nodes. Following a pointer
to a node that is not in the map of the object any more is an error, written `none`.
-/

namespace Frobby

/-- A node of `_nameToIndex`. -/
structure NameNode where
  addr : ℕ
  name : Text
  index : ℕ
deriving DecidableEq

/-- The data members of `VarNames` (VarNames.h:111-112). -/
structure VarNames where
  nodes : List NameNode
  ptrs : List ℕ

namespace VarNames

/-- `VarNames()`, `clear` (VarNames.cpp:25-26, 106-109). -/
def empty : VarNames := { nodes := [], ptrs := [] }

/-- `getVarCount` (VarNames.h:113-115). -/
def count (V : VarNames) : ℕ := V.ptrs.length

/-- `getName` (VarNames.cpp:100-104). -/
def getName (V : VarNames) (i : ℕ) : Option Text :=
  match V.ptrs[i]? with
  | none => none
  | some a => (V.nodes.find? fun x => decide (x.addr = a)).map (·.name)

/-- `getIndex` (VarNames.cpp:83-89); `none` is `invalidIndex`. -/
def getIndex (V : VarNames) (name : Text) : Option ℕ := (V.nodes.find? fun x => decide (x.name = name)).map (·.index)

/-- `addVar` (VarNames.cpp:44-66) with the address of the next node that is allocated; the returned value, the object and
the next address. That there can be no more than 2^64 - 2 variables is not modelled, nor is running out of memory. -/
def addVar (next : ℕ) (V : VarNames) (name : Text) : Bool × VarNames × ℕ :=
  if V.nodes.any fun x => decide (x.name = name) then (false, V, next)
  else (true, { nodes := V.nodes ++ [⟨next, name, V.ptrs.length⟩], ptrs := V.ptrs ++ [next] }, next + 1)

/-- The loops over `addVar` that ignore the returned value. -/
def addVars : ℕ → VarNames → List Text → VarNames × ℕ
  | next, V, [] => (V, next)
  | next, V, name :: names => addVars (addVar next V name).2.2 (addVar next V name).2.1 names

/-- The names in the order of their index. -/
def names (V : VarNames) : Option (List Text) := (List.range V.count).mapM V.getName

/-- The constructor from a number (VarNames.cpp:28-34). -/
def default (next n : ℕ) : VarNames × ℕ := addVars next empty ((List.range n).map fun i => 'x' :: decimal (i + 1))

/-- `operator=` for a different object (VarNames.cpp:111-122): the new value of the object assigned to. -/
def assign (next : ℕ) (W : VarNames) : Option (VarNames × ℕ) := W.names.map fun l => addVars next empty l

/-- `_nameToIndex[name] = i` for the name of an element (VarNames.cpp:151-152). -/
def setIndex (V : VarNames) (name : Text) (i : ℕ) : VarNames :=
  { V with nodes := V.nodes.map fun x => if x.name = name then { x with index := i } else x }

/-- `swapVariables` (VarNames.cpp:143-159); an index out of range is an error. -/
def swapVariables (V : VarNames) (a b : ℕ) : Option VarNames :=
  match V.ptrs[a]?, V.ptrs[b]? with
  | some p, some q =>
    if a = b then some V
    else
      let V1 : VarNames := { V with ptrs := (V.ptrs.set a q).set b p }
      match V1.getName a with
      | none => none
      | some s =>
        let V2 := V1.setIndex s a
        match V2.getName b with
        | none => none
        | some t => some (V2.setIndex t b)
  | _, _ => none

/-- `projectVar` (VarNames.cpp:161-169). -/
def projectVar (next : ℕ) (V : VarNames) (i : ℕ) : Option (VarNames × ℕ) :=
  if i < V.count then
    match V.names with
    | none => none
    | some l =>
      let r := addVars next empty (l.eraseIdx i)
      assign r.2 r.1
  else none

/-- `operator==` (VarNames.cpp:124-133). -/
def beq (V W : VarNames) : Option Bool :=
  if V.count ≠ W.count then some false
  else
    match V.names, W.names with
    | some l, some m => some (decide (l = m))
    | _, _ => none

/-- `namesAreDefault` (VarNames.cpp:95-98). -/
def namesAreDefault (next : ℕ) (V : VarNames) : Option Bool := V.beq (default next V.count).1

end VarNames

/-! ## histories -/

/-- The objects there are and the address of the next node. -/
structure NamesWorld where
  objs : ℕ → VarNames
  next : ℕ

/-- Calls that change an object. -/
inductive NamesOp where
  | addVar (i : ℕ) (name : Text)
  | clear (i : ℕ)
  | default (i n : ℕ)
  | assign (i j : ℕ)
  | swapVariables (i a b : ℕ)
  | projectVar (i k : ℕ)
  | swap (i j : ℕ)

/-- A call: the returned value, `true` for calls that return nothing, and the objects afterwards. -/
def NamesOp.run (w : NamesWorld) : NamesOp → Option (Bool × NamesWorld)
  | .addVar i name =>
    let r := (w.objs i).addVar w.next name
    some (r.1, { objs := Function.update w.objs i r.2.1, next := r.2.2 })
  | .clear i => some (true, { w with objs := Function.update w.objs i .empty })
  | .default i n =>
    let r := VarNames.default w.next n
    some (true, { objs := Function.update w.objs i r.1, next := r.2 })
  | .assign i j =>
    if i = j then some (true, w)
    else (VarNames.assign w.next (w.objs j)).map fun r => (true, { objs := Function.update w.objs i r.1, next := r.2 })
  | .swapVariables i a b =>
    ((w.objs i).swapVariables a b).map fun V => (true, { w with objs := Function.update w.objs i V })
  | .projectVar i k =>
    ((w.objs i).projectVar w.next k).map fun r => (true, { objs := Function.update w.objs i r.1, next := r.2 })
  | .swap i j =>
    some (true, { w with objs := Function.update (Function.update w.objs i (w.objs j)) j (w.objs i) })

/-- A history of calls: the returned values and the objects at the end. -/
def NamesOp.runAll : NamesWorld → List NamesOp → Option (List Bool × NamesWorld)
  | w, [] => some ([], w)
  | w, op :: ops =>
    match op.run w with
    | none => none
    | some (b, w') => (runAll w' ops).map fun r => (b :: r.1, r.2)

/-- The objects before the first call. -/
def NamesWorld.init : NamesWorld := { objs := fun _ => .empty, next := 0 }

end Frobby
