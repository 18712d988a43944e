import Verif.Term

/-!
# Model of the objects `Frobby::Ideal` of a program that uses the library (src/frobby.cpp)

An object holds a pointer to memory that it owns. A program makes, copies, assigns and destroys objects and adds exponents to them. Memory can
run out at each allocation, which is an exception that the program may catch and go on.
-/

namespace Frobby

/-- `FrobbyIdealHelper` (frobby.cpp:182-198): `_ideal` with its generators and `_atVariable`. A generator is a `vector`, whose length is not part of
its type. -/
structure IdealCell where
  varCount : ℕ
  terms : List (List ℤ)
  atVariable : ℕ

/-- `FrobbyIdealHelper(variableCount)` (frobby.cpp:184-187). -/
def IdealCell.new (n : ℕ) : IdealCell := ⟨n, [], n⟩

/-- Where memory runs out in a call of `addExponent`: nowhere, where the vector of generators gets larger (BigIdeal.cpp:105-108), or where the new
generator gets its entries (109). -/
inductive MemoryLeft
  | enough
  | noGenerator
  | noEntries

/-- `mpz_set` on `getLastTermExponentRef(_atVariable)` (BigIdeal.h:126-131, frobby.cpp:235-237). `none` is undefined: no generator, or no such
entry. -/
def IdealCell.setLast (c : IdealCell) (e : ℤ) : Option IdealCell :=
  match c.terms.getLast? with
  | none => none
  | some t => if c.atVariable < t.length then some ⟨c.varCount, c.terms.dropLast ++ [t.set c.atVariable e], c.atVariable + 1⟩ else none

/-- `Ideal::addExponent` (frobby.cpp:225-238) with `BigIdeal::newLastTerm` (BigIdeal.cpp:104-110). An exception leaves what there is at that time. -/
def IdealCell.addExponent (c : IdealCell) (e : ℤ) (m : MemoryLeft) : Option IdealCell :=
  if c.atVariable = c.varCount then
    match m with
    | .noGenerator => some c
    | .noEntries => some ⟨c.varCount, c.terms ++ [[]], c.atVariable⟩
    | .enough =>
      let c : IdealCell := ⟨c.varCount, c.terms ++ [List.replicate c.varCount 0], 0⟩
      if c.varCount = 0 then some c else c.setLast e
  else c.setLast e

/-- The objects that live, each with its pointer `_data`, and the memory. New memory is at `next`. -/
structure Handles where
  data : ℕ → Option ℕ
  heap : ℕ → Option IdealCell
  next : ℕ

/-- Before the program starts. -/
def Handles.start : Handles := ⟨fun _ => none, fun _ => none, 0⟩

/-- What a program does with objects. `enough` is whether there is memory for it. -/
inductive HandleOp
  | create (x n : ℕ) (enough : Bool)
  | copy (x y : ℕ) (enough : Bool)
  | assign (x y : ℕ) (enough : Bool)
  | add (x : ℕ) (e : ℤ) (m : MemoryLeft)
  | destroy (x : ℕ)

/-- `new FrobbyIdealHelper(...)`: the address and the memory with the new part. -/
def Handles.alloc (s : Handles) (c : IdealCell) : ℕ × Handles := (s.next, ⟨s.data, Function.update s.heap s.next (some c), s.next + 1⟩)

/-- `delete`. `none` is undefined: there is nothing at this address. -/
def Handles.free (s : Handles) (a : ℕ) : Option Handles :=
  match s.heap a with
  | none => none
  | some _ => some ⟨s.data, Function.update s.heap a none, s.next⟩

/-- One step. `none` is undefined: an access to memory that is not there, or the use of an object that does not live. -/
def Handles.step (s : Handles) : HandleOp → Option Handles
  -- `Ideal::Ideal(size_t)` (frobby.cpp:201-203)
  | .create x n enough =>
    match s.data x with
    | some _ => none
    | none =>
      if enough then
        let r := s.alloc (.new n)
        some ⟨Function.update r.2.data x (some r.1), r.2.heap, r.2.next⟩
      else some s
  -- `Ideal::Ideal(const Ideal&)` (frobby.cpp:205-207)
  | .copy x y enough =>
    match s.data x with
    | some _ => none
    | none => do
      let b ← s.data y
      let c ← s.heap b
      if enough then
        let r := s.alloc c
        some ⟨Function.update r.2.data x (some r.1), r.2.heap, r.2.next⟩
      else some s
  -- `Ideal::operator=` (frobby.cpp:213-223)
  | .assign x y enough => do
    let a ← s.data x
    let b ← s.data y
    let c ← s.heap b
    if enough then
      let r := s.alloc c
      let s' ← r.2.free a
      some ⟨Function.update s'.data x (some r.1), s'.heap, s'.next⟩
    else some s
  -- `Ideal::addExponent` (frobby.cpp:225-238)
  | .add x e m => do
    let a ← s.data x
    let c ← s.heap a
    let c' ← c.addExponent e m
    some ⟨s.data, Function.update s.heap a (some c'), s.next⟩
  -- `Ideal::~Ideal` (frobby.cpp:209-211)
  | .destroy x => do
    let a ← s.data x
    let s' ← s.free a
    some ⟨Function.update s'.data x none, s'.heap, s'.next⟩

/-- A program. -/
def Handles.run (s : Handles) (ops : List HandleOp) : Option Handles := ops.foldlM Handles.step s

end Frobby
