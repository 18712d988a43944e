import Verif.TranslatorModel
import Mathlib.Data.Nat.Basic

/-!
# Model of the arena allocator (src/Arena.h, src/Arena.cpp)

Addresses and `size_t` are numbers, and `size_t` has 64 bits. `MemoryAlignment` is 8 (stdinc.h:99) and `sizeof(Block)` is 32. `new char[n]` is a function that
is given to the allocation: an address, or `none` for `bad_alloc`. The assertions are not part of the model.
-/

namespace Frobby

/-- `Arena::Block` without `_previousBlock` (Arena.h:146-161). -/
structure ArenaBlock where
  beg : ℕ
  free : ℕ
  fin : ℕ
deriving DecidableEq, Repr

/-- `Block::getSize` (Arena.h:150). -/
def ArenaBlock.size (b : ArenaBlock) : ℕ := b.fin - b.beg

/-- `Block::getFreeCapacity` (Arena.h:151). -/
def ArenaBlock.freeCapacity (b : ArenaBlock) : ℕ := b.fin - b.free

/-- `Block::isEmpty` (Arena.h:152). -/
def ArenaBlock.isEmpty (b : ArenaBlock) : Bool := b.beg = b.free

/-- `Block::isNull` (Arena.h:153). -/
def ArenaBlock.isNull (b : ArenaBlock) : Bool := b.beg = 0

/-- `Block::isInBlock` (Arena.h:241-247). The difference is a `size_t`. -/
def ArenaBlock.isInBlock (b : ArenaBlock) (p : ℕ) : Bool := (p + 18446744073709551616 - b.beg) % 18446744073709551616 < b.size

/-- `Block::debugIsValid` (Arena.cpp:105-109). -/
def ArenaBlock.debugIsValid (b : ArenaBlock) (p : ℕ) : Bool := b.beg ≤ p && p < b.free

/-- An arena: the current block, the previous blocks, which are a linked list with its nodes behind the blocks (Arena.h:157-161), and the memory that it has
got from `new` and not given back to `delete`: addresses and sizes. -/
structure Arena where
  cur : ArenaBlock
  prev : List ArenaBlock
  heap : List (ℕ × ℕ)
deriving DecidableEq, Repr

/-- The constructors (Arena.cpp:26-27, 35-40). -/
def Arena.empty : Arena := { cur := { beg := 0, free := 0, fin := 0 }, prev := [], heap := [] }

/-- `Arena::isEmpty` (Arena.h:117). -/
def Arena.isEmpty (a : Arena) : Bool := a.prev.isEmpty && a.cur.isEmpty

/-- `Arena::alignNoOverflow` (Arena.h:168-178). -/
def alignUp (value : ℕ) : ℕ := (value + 7) % 18446744073709551616 / 8 * 8

/-- The size of a new block (Arena.cpp:43-55). `none` is `bad_alloc`. -/
def growSize (needed curSize : ℕ) : Option ℕ :=
  if max needed curSize > 18446744073709551615 / 2 then none
  else if max (max needed curSize * 2) (16 * 1024 - 32 - 16) / 8 * 8 > 18446744073709551615 - 32 then none
  else some (max (max needed curSize * 2) (16 * 1024 - 32 - 16) / 8 * 8)

/-- Saving the current block (Arena.cpp:57-62). -/
def Arena.save (a : Arena) : Arena := if a.cur.isNull then a else { a with prev := a.cur :: a.prev }

/-- `Arena::growCapacity` (Arena.cpp:42-69): the arena, and whether no exception is thrown. -/
def Arena.growCapacity (new : ℕ → Option ℕ) (a : Arena) (needed : ℕ) : Arena × Bool :=
  match growSize needed a.cur.size with
  | none => (a, false)
  | some size =>
    match new (size + 32) with
    | none => (a.save, false)
    | some buffer => ({ a.save with cur := { beg := buffer, free := buffer, fin := buffer + size }, heap := (buffer, size + 32) :: a.heap }, true)

/-- The end of `Arena::alloc` (Arena.h:202-206). -/
def Arena.take (a : Arena) (size : ℕ) : Arena × Option ℕ := ({ a with cur := { a.cur with free := a.cur.free + alignUp size } }, some a.cur.free)

/-- `Arena::alloc` (Arena.h:180-207): the arena and the address, or `none` for `bad_alloc`. `size - 1` is a `size_t`. -/
def Arena.alloc (new : ℕ → Option ℕ) (a : Arena) (size : ℕ) : Arena × Option ℕ :=
  if (size + 18446744073709551615) % 18446744073709551616 ≥ a.cur.freeCapacity then
    let size' := if size = 0 then 1 else size
    if size = 0 ∧ a.cur.freeCapacity > 0 then a.take size'
    else
      let x := a.growCapacity new size'
      if x.2 then x.1.take size' else (x.1, none)
  else a.take size

/-- `Arena::allocArrayNoCon` (Arena.h:249-259): the beginning and the end of the array. -/
def Arena.allocArray (new : ℕ → Option ℕ) (a : Arena) (elementSize elementCount : ℕ) : Arena × Option (ℕ × ℕ) :=
  if elementCount > 18446744073709551615 / elementSize then (a, none)
  else
    let x := a.alloc new (elementCount * elementSize)
    (x.1, x.2.map fun p => (p, p + elementCount * elementSize))

/-- `delete[]`. That the address does not come from `new` is undefined behaviour. -/
def deleteChunk (heap : List (ℕ × ℕ)) (p : ℕ) : Outcome (List (ℕ × ℕ)) :=
  if p = 0 then .ok heap else if heap.any fun c => c.1 = p then .ok (heap.eraseP fun c => c.1 = p) else .crash

/-- `Arena::discardPreviousBlock` (Arena.cpp:98-103). -/
def Arena.discardPreviousBlock (a : Arena) : Outcome Arena :=
  match a.prev with
  | [] => .crash
  | b :: l =>
    match deleteChunk a.heap b.beg with
    | .ok h => .ok { a with prev := l, heap := h }
    | .error => .error
    | .crash => .crash

/-- Setting the free part of the previous block, and discarding it if it has become empty (Arena.cpp:77-79, 93-95). -/
def Arena.freeInPrevious (a : Arena) (p : ℕ) : Outcome Arena :=
  match a.prev with
  | [] => .crash
  | b :: l =>
    let a' : Arena := { a with prev := { b with free := p } :: l }
    if ({ b with free := p } : ArenaBlock).isEmpty then a'.discardPreviousBlock else .ok a'

/-- `Arena::freeTop` (Arena.h:209-222, Arena.cpp:71-80). -/
def Arena.freeTop (a : Arena) (p : ℕ) : Outcome Arena :=
  if !a.cur.isEmpty then .ok { a with cur := { a.cur with free := p } } else a.freeInPrevious p

/-- The loop of `Arena::freeAndAllAfterFromOldBlock` (Arena.cpp:87-90). -/
def discardUntil (p : ℕ) (cur : ArenaBlock) : List ArenaBlock → List (ℕ × ℕ) → Outcome Arena
  | [], _ => .crash
  | b :: l, heap =>
    if b.isInBlock p then .ok { cur := cur, prev := b :: l, heap := heap }
    else
      match deleteChunk heap b.beg with
      | .ok h => discardUntil p cur l h
      | .error => .error
      | .crash => .crash

/-- `Arena::freeAndAllAfter` (Arena.h:224-239, Arena.cpp:82-96). -/
def Arena.freeAndAllAfter (a : Arena) (p : ℕ) : Outcome Arena :=
  if a.cur.isInBlock p then .ok { a with cur := { a.cur with free := p } }
  else
    match discardUntil p { a.cur with free := a.cur.beg } a.prev a.heap with
    | .ok a' => a'.freeInPrevious p
    | .error => .error
    | .crash => .crash

/-- The loop of the destructor (Arena.cpp:30-31). -/
def destroyPrevious : List ArenaBlock → List (ℕ × ℕ) → Outcome (List (ℕ × ℕ))
  | [], heap => .ok heap
  | b :: l, heap =>
    match deleteChunk heap b.beg with
    | .ok h => destroyPrevious l h
    | .error => .error
    | .crash => .crash

/-- `Arena::~Arena` (Arena.cpp:29-33): the memory that is left. -/
def Arena.destroy (a : Arena) : Outcome (List (ℕ × ℕ)) :=
  match destroyPrevious a.prev a.heap with
  | .ok h => deleteChunk h a.cur.beg
  | .error => .error
  | .crash => .crash

end Frobby
