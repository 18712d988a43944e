import Mathlib.Logic.Function.Basic
import Mathlib.Data.Nat.Notation
import Mathlib.Data.List.Basic

/-!
# Model: objects of class `Term` and the memory they use

The operations on exponent vectors are modelled in `Verif/Term.lean`; here the subject is where the exponents are stored. An object of
class `Term` is a pointer to an array and a number of variables (Term.h:597-598). Released arrays of fewer than 50 exponents are not
given back but kept in pools, to be handed out again with whatever they contain (Term.cpp:43-84).

Addresses are numbers, an address given by `new` has not been given before (that is how a use of a released array is told from a use
of the array that would have taken its place), and objects are named by numbers. `none` as a result is a memory error or, in a debug
build, an assertion that does not hold. Running out of memory is an exception, which is not an error.

Simplified: `std::copy` of an array onto itself, which the standard leaves open and which `t = t` does, leaves it as it is; the
arrays that hold the pools (not the arrays in the pools) are a flag `inited`; the constructor from a text (Term.cpp:27-40), which
collects the exponents and then does what the constructor from an array does, is that constructor.
-/

namespace Frobby

/-- What may go wrong in one operation: there is no memory for the array of a pool (Term.cpp:48), or for an array of exponents
(Term.cpp:95). -/
structure MemFails where
  poolFails : Bool
  newFails : Bool

/-- The memory and the objects of class `Term`. -/
structure TermHeap where
  /-- The arrays that are allocated, with what they contain; an exponent that has never been written is `none`. -/
  mem : ℕ → Option (List (Option ℕ))
  /-- The next address `new` gives. -/
  next : ℕ
  /-- Whether `objects` of this pool is not null (Term.cpp:46-49). -/
  inited : ℕ → Bool
  /-- The arrays in the pools, the one stored last first (Term.cpp:81-82). -/
  pool : ℕ → List ℕ
  /-- The objects: `_exponents`, which may be null, and `_varCount` (Term.h:597-598). -/
  terms : ℕ → Option (Option ℕ × ℕ)

namespace TermHeap

/-- The start of the program (Term.cpp:44). -/
def start : TermHeap := ⟨fun _ => none, 0, fun _ => false, fun _ => [], fun _ => none⟩

/-- `PoolCount` (Term.cpp:24). -/
def poolCount : ℕ := 50

/-- `ObjectPoolSize` (Term.cpp:25). -/
def objectPoolSize : ℕ := 1000

/-- `new Exponent[size]` (Term.cpp:95). The exponents are not initialized. -/
def newArray (f : MemFails) (size : ℕ) (s : TermHeap) : Option ℕ × TermHeap :=
  if f.newFails then (none, s)
  else (some s.next, { s with mem := Function.update s.mem s.next (some (List.replicate size none)), next := s.next + 1 })

/-- `delete[] p` for a pointer that is not null (Term.cpp:77 and 107). -/
def deleteArray (a : ℕ) (s : TermHeap) : Option TermHeap :=
  if (s.mem a).isSome then some { s with mem := Function.update s.mem a none } else none

/-- `Term::allocate` (Term.cpp:86-96), with `ensureInit` (46-49), `empty` (51-53) and `removeObject` (59-63). The address is `none` when
`new` throws. -/
def allocate (debug : Bool) (f : MemFails) (size : ℕ) (s : TermHeap) : Option (Option ℕ × TermHeap) :=
  if debug && size == 0 then none
  else if size < poolCount then
    if !s.inited size && f.poolFails then some (none, s)
    else
      let t := { s with inited := Function.update s.inited size true }
      match s.pool size with
      | a :: rest => some (some a, { t with pool := Function.update s.pool size rest })
      | [] => some (newArray f size t)
  else some (newArray f size s)

/-- `Term::deallocate` (Term.cpp:98-108), with `canStoreMore` (55-57) and `addObject` (65-71), which writes through `objects`. -/
def deallocate (debug : Bool) (p : Option ℕ) (size : ℕ) (s : TermHeap) : Option TermHeap :=
  match p with
  | none => some s
  | some a =>
    if debug && size == 0 then none
    else if size < poolCount && (s.pool size).length < objectPoolSize then
      if s.inited size then some { s with pool := Function.update s.pool size (a :: s.pool size) } else none
    else deleteArray a s

/-- Writing exponents to the first places of an array, as `std::copy` (Term.h:147 and 591) and `setToIdentity` (Term.h:304-312) do. -/
def store (p : Option ℕ) (l : List ℕ) (s : TermHeap) : Option TermHeap :=
  match p with
  | none => if l = [] then some s else none
  | some a =>
    match s.mem a with
    | none => none
    | some c =>
      if l.length ≤ c.length then some { s with mem := Function.update s.mem a (some (l.map some ++ c.drop l.length)) } else none

/-- Reading the first `n` exponents of an array. Reading one that was not written is an error. -/
def load (p : Option ℕ) (n : ℕ) (s : TermHeap) : Option (List ℕ) :=
  match p with
  | none => if n = 0 then some [] else none
  | some a =>
    match s.mem a with
    | none => none
    | some c => if n ≤ c.length then (c.take n).mapM id else none

/-- The members of an object. -/
def setTerm (h : ℕ) (x : Option (Option ℕ × ℕ)) (s : TermHeap) : TermHeap := { s with terms := Function.update s.terms h x }

/-- A constructor that is to make a term with exponents `l`: `initialize` (Term.h:587-595) and `Term(size_t)` (Term.h:60-67). The flag
says whether an exception is thrown, in which case there is no object. -/
def construct (debug : Bool) (f : MemFails) (h : ℕ) (l : List ℕ) (s : TermHeap) : Option (Bool × TermHeap) :=
  if l.length > 0 then
    match allocate debug f l.length s with
    | none => none
    | some (none, s) => some (true, s)
    | some (some a, s) => (store (some a) l s).map fun s => (false, setTerm h (some (some a, l.length)) s)
  else some (false, setTerm h (some (none, l.length)) s)

/-- The part of `operator=` (Term.h:133-139) and `reset` (Term.h:551-558) that gives the object an array of the right size: the new
array is allocated before the old one is released. -/
def resize (debug : Bool) (f : MemFails) (h n : ℕ) (s : TermHeap) : Option (Bool × TermHeap) :=
  match s.terms h with
  | none => none
  | some (p, m) =>
    if n ≠ m then
      match allocate debug f n s with
      | none => none
      | some (none, s) => some (true, s)
      | some (some a, s) => (deallocate debug p m s).map fun s => (false, setTerm h (some (some a, n)) s)
    else some (false, s)

/-- Writing `l` to the array of an object. -/
def fill (h : ℕ) (l : List ℕ) (s : TermHeap) : Option TermHeap :=
  match s.terms h with
  | none => none
  | some (p, _) => store p l s

/-- What can be read from an object, through `begin` and `end` (Term.h:79-83) or `operator[]` (Term.h:89-105). -/
def value (s : TermHeap) (h : ℕ) : Option (List ℕ) :=
  match s.terms h with
  | none => none
  | some (p, n) => load p n s

end TermHeap

/-- What a program can do to objects of class `Term`. -/
inductive TermOp where
  /-- `Term()` (Term.h:51). -/
  | empty (h : ℕ)
  /-- `Term(size_t)` (Term.h:60-67). -/
  | one (h n : ℕ)
  /-- `Term(const Exponent*, size_t)` (Term.h:53-55). -/
  | ofArray (h : ℕ) (l : List ℕ)
  /-- `Term(const Term&)` (Term.h:52). -/
  | copy (h g : ℕ)
  /-- `~Term` (Term.h:74). -/
  | destroy (h : ℕ)
  /-- `operator=(const Term&)` (Term.h:133-143). -/
  | assign (h g : ℕ)
  /-- `operator=(const Exponent*)` (Term.h:145-149). -/
  | assignArray (h : ℕ) (l : List ℕ)
  /-- A write through `operator[]` (Term.h:107-123). -/
  | set (h i e : ℕ)
  /-- `swap` (Term.h:543-549). -/
  | swap (h g : ℕ)
  /-- `reset` (Term.h:551-560). -/
  | reset (h n : ℕ)
  /-- `clear` (Term.h:562-566). -/
  | clear (h : ℕ)

namespace TermHeap

/-- One operation. The flag says whether it throws. -/
def step (debug : Bool) (f : MemFails) (o : TermOp) (s : TermHeap) : Option (Bool × TermHeap) :=
  match o with
  | .empty h => some (false, setTerm h (some (none, 0)) s)
  | .one h n => construct debug f h (List.replicate n 0) s
  | .ofArray h l => construct debug f h l s
  | .copy h g =>
    match value s g with
    | none => none
    | some l => construct debug f h l s
  | .destroy h =>
    match s.terms h with
    | none => none
    | some (p, n) => (deallocate debug p n s).map fun s => (false, setTerm h none s)
  | .assign h g =>
    match s.terms g with
    | none => none
    | some (_, n) =>
      match resize debug f h n s with
      | none => none
      | some (true, s) => some (true, s)
      | some (false, s) =>
        match value s g with
        | none => none
        | some l => (fill h l s).map fun s => (false, s)
  | .assignArray h l =>
    match s.terms h with
    | none => none
    | some (p, n) => if l.length = n then (store p l s).map fun s => (false, s) else none
  | .set h i e =>
    match value s h with
    | none => none
    | some l => if i < l.length then (fill h (l.set i e) s).map fun s => (false, s) else none
  | .swap h g =>
    match s.terms h, s.terms g with
    | some x, some y => some (false, setTerm g (some x) (setTerm h (some y) s))
    | _, _ => none
  | .reset h n =>
    match resize debug f h n s with
    | none => none
    | some (true, s) => some (true, s)
    | some (false, s) => (fill h (List.replicate n 0) s).map fun s => (false, s)
  | .clear h =>
    match s.terms h with
    | none => none
    | some (p, n) => (deallocate debug p n s).map fun s => (false, setTerm h (some (none, 0)) s)

/-- Deleting the arrays of a list (Term.cpp:76-77). The code deletes the array stored first first. -/
def deleteAll : List ℕ → TermHeap → Option TermHeap
  | [], s => some s
  | a :: l, s => (deleteArray a s).bind (deleteAll l)

/-- `~ObjectPool` of pool `k` (Term.cpp:73-79). -/
def destroyPool (k : ℕ) (s : TermHeap) : Option TermHeap :=
  if s.inited k then
    (deleteAll (s.pool k) s).map fun s => { s with pool := Function.update s.pool k [], inited := Function.update s.inited k false }
  else some s

/-- The destructors of the first `k` pools, at the end of the program (Term.cpp:83): the last one is destroyed first. -/
def destroyPools : ℕ → TermHeap → Option TermHeap
  | 0, s => some s
  | k + 1, s => (destroyPool k s).bind (destroyPools k)

end TermHeap

end Frobby
