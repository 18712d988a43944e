import Mathlib.Logic.Function.Basic
import Mathlib.Tactic.Common
import Mathlib.Data.Nat.Notation

/-!
# Model of the class `Ideal` with its pointers (src/Ideal.cpp, src/Ideal.h)

An `Ideal` holds pointers to vectors of exponents that its allocator has handed out. Many functions change vectors in place or move pointers, and
their arguments are pointers too, which can be those of another ideal or of the same. Here an address stands for the vector that begins
there: that the vectors the allocator hands out do not overlap is C34, which also shows where this fails (513 to 1023 variables, after `clear`). A new vector gets an address that was never used before, so that a pointer to
memory that was given back points to nothing. Exponents are numbers without bounds, and memory does not run out.
-/

namespace Frobby

/-- The vectors of exponents in memory. New ones are at `next`. -/
structure VectorMemory where
  cell : ℕ → Option (List ℕ)
  next : ℕ

/-- `Ideal` (Ideal.h:315-317): `_varCount`, `_terms`, and what `_allocator` has handed out. -/
structure IdealObject where
  varCount : ℕ
  terms : List ℕ
  owned : List ℕ

/-- Memory with a new vector, and the object that it belongs to (`_allocator.allocate` and `_terms.push_back`, Ideal.cpp:456-463). -/
def IdealObject.push (o : IdealObject) (m : VectorMemory) (v : List ℕ) : VectorMemory × IdealObject :=
  (⟨Function.update m.cell m.next (some v), m.next + 1⟩, ⟨o.varCount, o.terms ++ [m.next], o.owned ++ [m.next]⟩)

/-- `Ideal::insert(const Exponent*)` (Ideal.cpp:455-464). `none` is undefined: the vector that is read is too short. -/
def IdealObject.insert (o : IdealObject) (m : VectorMemory) (v : List ℕ) : Option (VectorMemory × IdealObject) :=
  if v.length < o.varCount then none else some (o.push m (v.take o.varCount))

/-- `Ideal::insert(size_t, Exponent)` (Ideal.cpp:473-482). -/
def IdealObject.insertPower (o : IdealObject) (m : VectorMemory) (var e : ℕ) : Option (VectorMemory × IdealObject) :=
  if var < o.varCount then some (o.push m ((List.replicate o.varCount 0).set var e)) else none

/-- The loops of `Ideal::insert(const Ideal&)` (Ideal.cpp:468-470) and `Ideal::insertNonMultiples` (609-612, 616-619). -/
def IdealObject.insertLoop (p : List ℕ → Bool) : List ℕ → VectorMemory → IdealObject → Option (VectorMemory × IdealObject)
  | [], m, o => some (m, o)
  | a :: l, m, o => do
    let v ← m.cell a
    if v.length < o.varCount then none
    else if p v then do
      let r ← o.insert m v
      insertLoop p l r.1 r.2
    else insertLoop p l m o

/-- The loops that change each vector in place (Ideal.cpp:526-528, 532-534, 538-547, 653-657, 661-665). `f` gets the memory as it is then. -/
def changeLoop (f : VectorMemory → List ℕ → Option (List ℕ)) : List ℕ → VectorMemory → Option VectorMemory
  | [], m => some m
  | a :: l, m => do
    let v ← m.cell a
    let w ← f m v
    changeLoop f l ⟨Function.update m.cell a (some w), m.next⟩

/-- The loops that keep some of the pointers (Ideal.cpp:585-593, 597-605, 622-630): `n` more, from `it` on. -/
def keepPointers (p : List ℕ → Bool) (m : VectorMemory) : ℕ → List ℕ → ℕ → ℕ → Option (List ℕ × ℕ)
  | 0, ts, newEnd, _ => some (ts, newEnd)
  | n + 1, ts, newEnd, it => do
    let a ← ts[it]?
    let v ← m.cell a
    if p v then keepPointers p m n (ts.set newEnd a) (newEnd + 1) (it + 1) else keepPointers p m n ts newEnd (it + 1)

/-- These functions, with `_terms.erase(newEnd, stop)`. -/
def IdealObject.keep (o : IdealObject) (m : VectorMemory) (p : List ℕ → Bool) : Option IdealObject :=
  (keepPointers p m o.terms.length o.terms 0 0).map fun r => ⟨o.varCount, r.1.take r.2, o.owned⟩

/-- Whether a generator passes a test (`Ideal::contains`, Ideal.cpp:57-63). -/
def anyLoop (p : List ℕ → Bool) (m : VectorMemory) : List ℕ → Option Bool
  | [] => some false
  | a :: l => do
    let v ← m.cell a
    if p v then some true else anyLoop p m l

/-- `ExponentAllocator::reset` (Ideal.cpp:781-796). `none` is undefined: memory is given back twice. -/
def freeLoop : List ℕ → VectorMemory → Option VectorMemory
  | [], m => some m
  | a :: l, m =>
    match m.cell a with
    | none => none
    | some _ => freeLoop l ⟨Function.update m.cell a none, m.next⟩

/-- `Ideal::clearAndSetVarCount` (Ideal.cpp:646-650), `Ideal::clear` (641-644). -/
def IdealObject.clear (o : IdealObject) (m : VectorMemory) (n : ℕ) : Option (VectorMemory × IdealObject) :=
  (freeLoop o.owned m).map fun m => (m, ⟨n, [], []⟩)

/-- `Term::divides` (Term.h:152-159). -/
def dividesLoop : List ℕ → List ℕ → Bool
  | a :: u, b :: v => if a > b then false else dividesLoop u v
  | _, _ => true

/-- `Term::strictlyDivides` (Term.h:196-209). -/
def strictLoop : Bool → List ℕ → List ℕ → Bool
  | one, a :: u, b :: v => if a ≥ b ∧ a ≠ 0 then false else strictLoop (if b ≠ 0 then false else one) u v
  | one, _, _ => !one

/-- `Term::product` (Term.h:280-288). -/
def productVector : List ℕ → List ℕ → List ℕ := List.zipWith fun a b => a + b

/-- `Term::colon` (Term.h:476-488). -/
def colonVector : List ℕ → List ℕ → List ℕ := List.zipWith fun a b => if a > b then a - b else 0

/-- The objects that live, and the memory. -/
structure ObjectState where
  obj : ℕ → Option IdealObject
  mem : VectorMemory

/-- A pointer to exponents as an argument: to a vector elsewhere, or to the generator `i` of the ideal `y`. -/
inductive Operand
  | vec (v : List ℕ)
  | gen (y i : ℕ)

/-- What a program does with ideals. -/
inductive ObjectOp
  | create (x n : ℕ)
  | copy (x y : ℕ)
  | assign (x y : ℕ)
  | swap (x y : ℕ)
  | destroy (x : ℕ)
  | clear (x n : ℕ)
  | insert (x : ℕ) (b : Operand)
  | insertPower (x var e : ℕ)
  | insertAll (x y : ℕ)
  | insertNonMultiples (x : ℕ) (b : Operand) (y : ℕ)
  | insertNonMultiplesOfPower (x var e y : ℕ)
  | insertReminimize (x : ℕ) (b : Operand)
  | insertReminimizePower (x var e : ℕ)
  | product (x : ℕ) (b : Operand)
  | colon (x : ℕ) (b : Operand)
  | colonPower (x var e : ℕ)
  | toZero (x : ℕ) (b : Operand)
  | radical (x : ℕ)
  | removeMultiples (x : ℕ) (b : Operand)
  | removeMultiplesOfPower (x var e : ℕ)
  | removeStrictMultiples (x : ℕ) (b : Operand)
  | remove (x i : ℕ)
  | arrange (x : ℕ) (is : List ℕ)

namespace ObjectState

/-- Before there are ideals. -/
def start : ObjectState := ⟨fun _ => none, ⟨fun _ => none, 0⟩⟩

/-- The state with other memory and another object `x`. -/
def set (s : ObjectState) (x : ℕ) (r : VectorMemory × IdealObject) : ObjectState := ⟨Function.update s.obj x (some r.2), r.1⟩

/-- What is read through a pointer, which depends on the memory at that time. `none` is undefined: there is no such generator. -/
def read (s : ObjectState) : Operand → Option (VectorMemory → Option (List ℕ))
  | .vec v => some fun _ => some v
  | .gen y i => do
    let o ← s.obj y
    let a ← o.terms[i]?
    some fun m => m.cell a

/-- What is read through a pointer now, if there are `n` exponents. -/
def readNow (s : ObjectState) (b : Operand) (n : ℕ) : Option (List ℕ) := do
  let f ← s.read b
  let v ← f s.mem
  if v.length < n then none else some v

/-- `Ideal::insertNonMultiples` (Ideal.cpp:608-620). There is no `reserve`, so that inserting the generators of the ideal itself makes the iterators
invalid. `none` is undefined. -/
def insertSome (s : ObjectState) (x y : ℕ) (p : List ℕ → Bool) : Option ObjectState := do
  let o ← s.obj x
  let o' ← s.obj y
  let r ← o.insertLoop p o'.terms s.mem
  if x = y ∧ r.2.terms.length ≠ o.terms.length then none else some (s.set x r)

/-- A function that changes each generator in place. -/
def change (s : ObjectState) (x : ℕ) (f : VectorMemory → List ℕ → Option (List ℕ)) : Option ObjectState := do
  let o ← s.obj x
  let m ← changeLoop f o.terms s.mem
  some (s.set x (m, o))

/-- A function that keeps some of the generators. -/
def keep (s : ObjectState) (x : ℕ) (p : List ℕ → Bool) : Option ObjectState := do
  let o ← s.obj x
  let o' ← o.keep s.mem p
  some (s.set x (s.mem, o'))

/-- Inserting a vector (see `IdealObject.insert`). -/
def insertVector (s : ObjectState) (x : ℕ) (v : List ℕ) : Option ObjectState := do
  let o ← s.obj x
  let r ← o.insert s.mem v
  some (s.set x r)

/-- Inserting a pure power (see `IdealObject.insertPower`). -/
def insertPower (s : ObjectState) (x var e : ℕ) : Option ObjectState := do
  let o ← s.obj x
  let r ← o.insertPower s.mem var e
  some (s.set x r)

/-- One step. `none` is undefined. -/
def step (s : ObjectState) : ObjectOp → Option ObjectState
  -- `Ideal::Ideal(size_t)` (Ideal.cpp:31-34)
  | .create x n => match s.obj x with
    | some _ => none
    | none => some (s.set x (s.mem, ⟨n, [], []⟩))
  -- `Ideal::Ideal(const Ideal&)` (Ideal.cpp:42-46)
  | .copy x y => match s.obj x with
    | some _ => none
    | none => do
      let o ← s.obj y
      let r ← IdealObject.insertLoop (fun _ => true) o.terms s.mem ⟨o.varCount, [], []⟩
      some (s.set x r)
  -- `Ideal::operator=` (Ideal.cpp:676-681): the other ideal is looked at again after the first line, when it may have been cleared
  | .assign x y => do
    let o ← s.obj x
    let o' ← s.obj y
    let r ← o.clear s.mem o'.varCount
    let s' := s.set x r
    let o' ← s'.obj y
    let r' ← r.2.insertLoop (fun _ => true) o'.terms s'.mem
    some (s'.set x r')
  -- `Ideal::swap` (Ideal.cpp:683-687)
  | .swap x y => do
    let o ← s.obj x
    let o' ← s.obj y
    some ⟨Function.update (Function.update s.obj x (some o')) y (some o), s.mem⟩
  -- `Ideal::~Ideal` (Ideal.cpp:28-29, 746-748)
  | .destroy x => do
    let o ← s.obj x
    let m ← freeLoop o.owned s.mem
    some ⟨Function.update s.obj x none, m⟩
  -- `Ideal::clear`, `Ideal::clearAndSetVarCount` (Ideal.cpp:641-650)
  | .clear x n => do
    let o ← s.obj x
    let r ← o.clear s.mem n
    some (s.set x r)
  -- `Ideal::insert(const Exponent*)` (Ideal.cpp:455-464)
  | .insert x b => do
    let o ← s.obj x
    let v ← s.readNow b o.varCount
    s.insertVector x v
  -- `Ideal::insert(size_t, Exponent)` (Ideal.cpp:473-482)
  | .insertPower x var e => s.insertPower x var e
  -- `Ideal::insert(const Ideal&)` (Ideal.cpp:466-471): with `reserve`, so that the iterators stay valid, and with the end as it is before
  | .insertAll x y => do
    let o ← s.obj x
    let o' ← s.obj y
    let r ← o.insertLoop (fun _ => true) o'.terms s.mem
    some (s.set x r)
  -- `Ideal::insertNonMultiples(const Exponent*, const Ideal&)` (Ideal.cpp:608-613)
  | .insertNonMultiples x b y => do
    let o ← s.obj x
    let v ← s.readNow b o.varCount
    s.insertSome x y fun w => !dividesLoop v w
  -- `Ideal::insertNonMultiples(size_t, Exponent, const Ideal&)` (Ideal.cpp:615-620)
  | .insertNonMultiplesOfPower x var e y => do
    let o ← s.obj x
    if var < o.varCount then s.insertSome x y fun w => decide (w.getD var 0 < e) else none
  -- `Ideal::insertReminimize(const Exponent*)` (Ideal.cpp:484-492)
  | .insertReminimize x b => do
    let o ← s.obj x
    let v ← s.readNow b o.varCount
    if ← anyLoop (fun w => dividesLoop w v) s.mem o.terms then some s
    else do
      let s' ← s.keep x fun w => !dividesLoop v w
      s'.insertVector x v
  -- `Ideal::insertReminimize(size_t, Exponent)` (Ideal.cpp:494-499)
  | .insertReminimizePower x var e => do
    let o ← s.obj x
    if var < o.varCount then do
      let s' ← s.keep x fun w => decide (w.getD var 0 < e)
      s'.insertPower x var e
    else none
  -- `Ideal::product` (Ideal.cpp:525-529)
  | .product x b => do
    let o ← s.obj x
    let _ ← s.readNow b o.varCount
    let f ← s.read b
    s.change x fun m v => (f m).map fun w => productVector v w
  -- `Ideal::colon(const Exponent*)` (Ideal.cpp:531-535)
  | .colon x b => do
    let o ← s.obj x
    let _ ← s.readNow b o.varCount
    let f ← s.read b
    s.change x fun m v => (f m).map fun w => colonVector v w
  -- `Ideal::colon(size_t, Exponent)` (Ideal.cpp:537-548)
  | .colonPower x var e => do
    let o ← s.obj x
    if var < o.varCount then
      s.change x fun _ v => v[var]?.map fun c => if c ≠ 0 then v.set var (if c > e then c - e else 0) else v
    else none
  -- `Ideal::mapExponentsToZeroNoMinimize` (Ideal.cpp:652-658)
  | .toZero x b => do
    let o ← s.obj x
    let _ ← s.readNow b o.varCount
    let f ← s.read b
    s.change x fun m v => (f m).map fun w => List.zipWith (fun c z => if c = z then 0 else c) v w
  -- `Ideal::takeRadicalNoMinimize` (Ideal.cpp:660-666)
  | .radical x => s.change x fun _ v => some (v.map fun c => if c > 1 then 1 else c)
  -- `Ideal::removeMultiples(const Exponent*)` (Ideal.cpp:584-594)
  | .removeMultiples x b => do
    let o ← s.obj x
    let v ← s.readNow b o.varCount
    s.keep x fun w => !dividesLoop v w
  -- `Ideal::removeMultiples(size_t, Exponent)` (Ideal.cpp:596-606)
  | .removeMultiplesOfPower x var e => do
    let o ← s.obj x
    if var < o.varCount then s.keep x fun w => decide (w.getD var 0 < e) else none
  -- `Ideal::removeStrictMultiples` (Ideal.cpp:622-632)
  | .removeStrictMultiples x b => do
    let o ← s.obj x
    let v ← s.readNow b o.varCount
    s.keep x fun w => !strictLoop true v w
  -- `Ideal::remove` (Ideal.cpp:576-581)
  | .remove x i => do
    let o ← s.obj x
    let a ← o.terms[i]?
    let z ← o.terms[o.terms.length - 1]?
    some (s.set x (s.mem, ⟨o.varCount, ((o.terms.set i z).set (o.terms.length - 1) a).dropLast, o.owned⟩))
  -- what sorting and minimizing leave: some of the pointers in some order (Ideal.cpp:501-523, 634-639)
  | .arrange x is => do
    let o ← s.obj x
    let ts ← is.mapM fun i => o.terms[i]?
    if is.Nodup then some (s.set x (s.mem, ⟨o.varCount, ts, o.owned⟩)) else none

/-- A program. -/
def run : List ObjectOp → ObjectState → Option ObjectState
  | [], s => some s
  | op :: ops, s => (s.step op).bind (run ops)

end ObjectState

end Frobby
