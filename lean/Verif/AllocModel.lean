import Mathlib.Logic.Function.Basic
import Mathlib.Data.List.Basic
import Mathlib.Data.Nat.Notation

/-!
# Model of the storage of exponents in `Ideal` (src/Ideal.cpp)

Memory is a collection of blocks, each with a size while it is allocated. An address is a block and an offset. Access to a
block that is not allocated, access outside of a block and releasing a block that is not allocated are errors, written
`none`. Running out of memory is not modelled.
-/

namespace Frobby

/-- An address; `none` is the null pointer. -/
abbrev Addr := Option (ℕ × ℕ)

/-- The heap: the sizes of the blocks that are allocated, their contents and the name of the next block. -/
structure Heap where
  size : ℕ → Option ℕ
  data : ℕ → ℕ → ℕ
  next : ℕ

namespace Heap

/-- `new Exponent[s]`. -/
def new (h : Heap) (s : ℕ) : ℕ × Heap := (h.next, { h with size := Function.update h.size h.next (some s), next := h.next + 1 })

/-- `delete[]`. -/
def free (h : Heap) (b : ℕ) : Option Heap :=
  if (h.size b).isSome then some { h with size := Function.update h.size b none } else none

/-- `delete[]` in a loop. -/
def freeAll (h : Heap) : List ℕ → Option Heap
  | [] => some h
  | b :: bs =>
    match h.free b with
    | none => none
    | some h' => h'.freeAll bs

/-- Writing a sequence of exponents (`std::copy`). -/
def write (h : Heap) (p : Addr) (e : List ℕ) : Option Heap :=
  if e = [] then some h
  else
    match p with
    | none => none
    | some (b, o) =>
      match h.size b with
      | none => none
      | some s =>
        if o + e.length ≤ s then
          some { h with data := Function.update h.data b fun k => if o ≤ k ∧ k < o + e.length then e.getD (k - o) 0 else h.data b k }
        else none

/-- Reading a sequence of exponents. -/
def read (h : Heap) (p : Addr) (c : ℕ) : Option (List ℕ) :=
  if c = 0 then some []
  else
    match p with
    | none => none
    | some (b, o) =>
      match h.size b with
      | none => none
      | some s => if o + c ≤ s then some ((List.range c).map fun k => h.data b (o + k)) else none

end Heap

/-- `ExponentsPerChunk` (Ideal.cpp:698). -/
def exponentsPerChunk : ℕ := 1024

/-- `useSingleChunking` (Ideal.cpp:806-808) with `MinTermsPerChunk` (699). -/
def singleChunking (varCount : ℕ) : Bool := decide (varCount > exponentsPerChunk / 2)

/-- The heap and `globalChunkPool` (Ideal.cpp:701-732). -/
structure Memory where
  heap : Heap
  pool : List ℕ

/-- `ExponentAllocator` (Ideal.h:290-313). `iter` is `_chunkIterator`; `_chunkEnd` is null when it is, and otherwise the
address `exponentsPerChunk` in the same block. `_chunk` is not used. -/
structure Allocator where
  varCount : ℕ
  iter : Addr
  chunks : List ℕ

/-- The constructor (Ideal.cpp:734-740). -/
def Allocator.make (varCount : ℕ) : Allocator := { varCount := if varCount = 0 then 1 else varCount, iter := none, chunks := [] }

/-- `ChunkPool::allocate` (Ideal.cpp:705-712). -/
def Memory.takeChunk (M : Memory) : ℕ × Memory :=
  match M.pool.getLast? with
  | some b => (b, { M with pool := M.pool.dropLast })
  | none => ((M.heap.new exponentsPerChunk).1, { M with heap := (M.heap.new exponentsPerChunk).2 })

/-- `_chunkIterator + _varCount > _chunkEnd` (Ideal.cpp:747). -/
def Allocator.full (A : Allocator) : Bool :=
  match A.iter with
  | none => decide (0 < A.varCount)
  | some (_, o) => decide (o + A.varCount > exponentsPerChunk)

/-- `ExponentAllocator::allocate` (Ideal.cpp:750-779). -/
def Allocator.allocate (A : Allocator) (M : Memory) : Addr × Allocator × Memory :=
  if A.full then
    if singleChunking A.varCount then
      (some ((M.heap.new A.varCount).1, 0), { A with chunks := A.chunks ++ [(M.heap.new A.varCount).1] },
        { M with heap := (M.heap.new A.varCount).2 })
    else
      (some (M.takeChunk.1, 0), { A with chunks := A.chunks ++ [M.takeChunk.1], iter := some (M.takeChunk.1, A.varCount) },
        M.takeChunk.2)
  else (A.iter, { A with iter := A.iter.map fun p => (p.1, p.2 + A.varCount) }, M)

/-- `ExponentAllocator::reset` (Ideal.cpp:781-796): the kind of storage is that for the new number of variables. -/
def Allocator.reset (A : Allocator) (M : Memory) (newVarCount : ℕ) : Option (Allocator × Memory) :=
  if singleChunking newVarCount then
    (M.heap.freeAll A.chunks).map fun h => ({ A with varCount := newVarCount, chunks := [] }, { M with heap := h })
  else some ({ varCount := newVarCount, iter := none, chunks := [] }, { M with pool := M.pool ++ A.chunks })

/-- The data members of `Ideal` (Ideal.h:315-317). -/
structure IdealObj where
  varCount : ℕ
  terms : List Addr
  alloc : Allocator

/-- `Ideal(varCount)` (Ideal.cpp:31-34). -/
def IdealObj.make (varCount : ℕ) : IdealObj := { varCount := varCount, terms := [], alloc := .make varCount }

/-- `Ideal::insert` (Ideal.cpp:455-465). -/
def IdealObj.insert (I : IdealObj) (M : Memory) (e : List ℕ) : Option (IdealObj × Memory) :=
  let r := I.alloc.allocate M
  (r.2.2.heap.write r.1 e).map fun h => ({ I with terms := I.terms ++ [r.1], alloc := r.2.1 }, { r.2.2 with heap := h })

/-- `Ideal::insert` of the generators of another ideal (Ideal.cpp:467-472). -/
def IdealObj.insertAll (I : IdealObj) (M : Memory) : List Addr → Option (IdealObj × Memory)
  | [] => some (I, M)
  | p :: ps =>
    match M.heap.read p I.varCount with
    | none => none
    | some e =>
      match I.insert M e with
      | none => none
      | some (I', M') => I'.insertAll M' ps

/-- `Ideal::clearAndSetVarCount` (Ideal.cpp:646-650), `clear` (641-644) with the same number. -/
def IdealObj.setVarCount (I : IdealObj) (M : Memory) (c : ℕ) : Option (IdealObj × Memory) :=
  (I.alloc.reset M c).map fun r => ({ varCount := c, terms := [], alloc := r.1 }, r.2)

/-- The generators of an ideal. -/
def IdealObj.contents (I : IdealObj) (h : Heap) : Option (List (List ℕ)) := I.terms.mapM fun p => h.read p I.varCount

/-- The ideals there are, and the memory. -/
structure AllocWorld where
  objs : ℕ → Option IdealObj
  mem : Memory

/-- Calls. -/
inductive AllocOp where
  /-- `Ideal(c)` -/
  | make (i c : ℕ)
  /-- `Ideal(const Ideal&)` -/
  | copy (i j : ℕ)
  | insert (i : ℕ) (e : List ℕ)
  | clear (i : ℕ)
  | setVarCount (i c : ℕ)
  /-- `operator=` -/
  | assign (i j : ℕ)
  | swap (i j : ℕ)
  | destroy (i : ℕ)
  | clearStaticCache

/-- A call. A call for an object that does not exist is an error too. -/
def AllocOp.run (w : AllocWorld) : AllocOp → Option AllocWorld
  | .make i c =>
    match w.objs i with
    | some _ => none
    | none => some { w with objs := Function.update w.objs i (some (.make c)) }
  | .copy i j =>
    match w.objs i, w.objs j with
    | none, some J =>
      ((IdealObj.make J.varCount).insertAll w.mem J.terms).map fun r =>
        { objs := Function.update w.objs i (some r.1), mem := r.2 }
    | _, _ => none
  | .insert i e =>
    match w.objs i with
    | none => none
    | some I =>
      if e.length = I.varCount then
        (I.insert w.mem e).map fun r => { objs := Function.update w.objs i (some r.1), mem := r.2 }
      else none
  | .clear i =>
    match w.objs i with
    | none => none
    | some I => (I.setVarCount w.mem I.varCount).map fun r => { objs := Function.update w.objs i (some r.1), mem := r.2 }
  | .setVarCount i c =>
    match w.objs i with
    | none => none
    | some I => (I.setVarCount w.mem c).map fun r => { objs := Function.update w.objs i (some r.1), mem := r.2 }
  | .assign i j =>
    match w.objs i, w.objs j with
    | some I, some J =>
      match I.setVarCount w.mem J.varCount with
      | none => none
      | some (I', M') =>
        -- when an ideal is assigned to itself, there are no generators left at this point
        (I'.insertAll M' (if i = j then [] else J.terms)).map fun r =>
          { objs := Function.update w.objs i (some r.1), mem := r.2 }
    | _, _ => none
  | .swap i j =>
    match w.objs i, w.objs j with
    | some I, some J => some { w with objs := Function.update (Function.update w.objs i (some J)) j (some I) }
    | _, _ => none
  | .destroy i =>
    match w.objs i with
    | none => none
    | some I => (I.alloc.reset w.mem 0).map fun r => { objs := Function.update w.objs i none, mem := r.2 }
  | .clearStaticCache => (w.mem.heap.freeAll w.mem.pool).map fun h => { w with mem := { heap := h, pool := [] } }

/-- A history of calls. -/
def AllocOp.runAll : AllocWorld → List AllocOp → Option AllocWorld
  | w, [] => some w
  | w, op :: ops =>
    match op.run w with
    | none => none
    | some w' => runAll w' ops

/-- Before the first call; the contents of fresh memory can be anything. -/
def AllocWorld.init (data : ℕ → ℕ → ℕ) : AllocWorld :=
  { objs := fun _ => none, mem := { heap := { size := fun _ => none, data := data, next := 0 }, pool := [] } }

end Frobby
