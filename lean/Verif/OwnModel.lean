import Verif.TaskModel

/-!
# Who deletes what when memory runs out

`ElementDeleter`, `exceptionSafePushBack` and the code that relies on them. Objects are addresses; what is inside of them
is left out, except that an entry of `InputConsumer` has two pointers. Every operation that may throw, mostly because it
allocates memory, asks `fails` whether it does, so that a statement about all `fails` covers every way in which memory
can run out. Deleting or using an object that is not there, and using a container that was destroyed, is `stuck`.
-/

namespace Frobby.Own

/-- A pointer, `none` being null. -/
abbrev Ptr := Option ℕ

/-- The containers of pointers, by number; `none` is a container whose destructor has run. `inside` is what an entry of
an `InputConsumer` holds (`_big` and `_sqf`, InputConsumer.h:94-97), `big` and `sqf` are `_bigIdeal` and `_sqfIdeal`
(InputConsumer.h:107-108). -/
structure Cells where
  vecs : ℕ → Option (List Ptr)
  inside : ℕ → Ptr × Ptr
  big : Ptr
  sqf : Ptr

/-- The objects that were allocated and not deleted, an address above all that were used, whether the operations throw,
how many of them there were, and which of the tasks are consumers of independence splits rather than slices. -/
structure Store where
  live : List ℕ
  next : ℕ
  fails : ℕ → Bool
  clock : ℕ
  consumer : ℕ → Bool
  cells : Cells

/-- How code ends: it returns, it throws, it runs out of the steps it was given, or it does what has no meaning. -/
inductive Ended (α : Type) where
  | ok (a : α) (s : Store)
  | threw (s : Store)
  | running
  | stuck

/-- Code. -/
def Proc (α : Type) := Store → Ended α

/-- One piece of code after another. -/
def Proc.bind {α β : Type} (f : Proc α) (g : α → Proc β) : Proc β := fun s =>
  match f s with
  | .ok a s' => g a s'
  | .threw s' => .threw s'
  | .running => .running
  | .stuck => .stuck

instance : Monad Proc where
  pure a := fun s => .ok a s
  bind := Proc.bind

/-- Code that must not be reached. -/
def stuck {α : Type} : Proc α := fun _ => .stuck

/-- Code that has used up its steps. -/
def running {α : Type} : Proc α := fun _ => .running

/-- The containers and entries. -/
def getCells : Proc Cells := fun s => .ok s.cells s

/-- Replaces the containers and entries. -/
def setCells (c : Cells) : Proc Unit := fun s => .ok () { s with cells := c }

/-- `c` with `v` in container `k`. -/
def Cells.set (c : Cells) (k : ℕ) (v : List Ptr) : Cells := { c with vecs := fun j => if j = k then some v else c.vecs j }

/-- The destructor of the container `k` itself, which deletes nothing that it points to. -/
def Cells.kill (c : Cells) (k : ℕ) : Cells := { c with vecs := fun j => if j = k then none else c.vecs j }

/-- The pointers in container `k`. -/
def read (k : ℕ) : Proc (List Ptr) := do
  match (← getCells).vecs k with
  | some v => pure v
  | none => stuck

/-- Changes what is in container `k`. -/
def write (k : ℕ) (v : List Ptr) : Proc Unit := do
  let _ ← read k
  setCells ((← getCells).set k v)

/-- Something that may throw. -/
def mayThrow : Proc Unit := fun s =>
  if s.fails s.clock then .threw { s with clock := s.clock + 1 } else .ok () { s with clock := s.clock + 1 }

/-- `new`, which throws or gives an address. -/
def new : Proc ℕ := do
  mayThrow
  fun s => .ok s.next { s with live := s.next :: s.live, next := s.next + 1 }

/-- `delete`. -/
def delete (p : Ptr) : Proc Unit := fun s =>
  match p with
  | none => .ok () s
  | some x => if x ∈ s.live then .ok () { s with live := s.live.erase x } else .stuck

/-- Anything that is done to an object and does not throw. -/
def touch (p : Ptr) : Proc Unit := fun s =>
  match p with
  | none => .stuck
  | some x => if x ∈ s.live then .ok () s else .stuck

/-- What destructors of local variables do, if `f` throws. -/
def onThrow {α : Type} (f : Proc α) (g : Proc Unit) : Proc α := fun s =>
  match f s with
  | .threw s' =>
    match g s' with
    | .ok _ s'' => .threw s''
    | .threw _ => .stuck
    | .running => .running
    | .stuck => .stuck
  | r => r

/-- What destructors of local variables do, however `f` ends. -/
def inScope {α : Type} (f : Proc α) (g : Proc Unit) : Proc α := do
  let a ← onThrow f g
  g
  pure a

/-- `try` with a handler after which there is `a`. -/
def caught {α : Type} (f : Proc α) (a : α) : Proc α := fun s =>
  match f s with
  | .threw s' => .ok a s'
  | r => r

/-- `push_back` of the standard containers: nothing is changed if it throws. -/
def pushBack (k : ℕ) (p : Ptr) : Proc Unit := do
  let v ← read k
  mayThrow
  write k (v ++ [p])

/-- `container.back() = p`. -/
def setBack (k : ℕ) (p : Ptr) : Proc Unit := do
  let v ← read k
  if v = [] then stuck else write k (v.dropLast ++ [p])

/-- `back` and `pop_back`. -/
def popBack (k : ℕ) : Proc Ptr := do
  let v ← read k
  match v.getLast? with
  | none => stuck
  | some p => do
    write k v.dropLast
    pure p

/-- `exceptionSafePushBack` (ElementDeleter.h:128-132); `del` is the destructor of the parameter. -/
def exceptionSafePushBack (del : Ptr → Proc Unit) (k : ℕ) (p : Ptr) : Proc Unit := do
  onThrow (pushBack k none) (del p)
  setBack k p

/-- `noThrowPushBack` (ElementDeleter.h:140-147). -/
def noThrowPushBack (k : ℕ) (p : Ptr) : Proc Unit := caught (exceptionSafePushBack delete k p) ()

/-- The loop of `deleteElements` (ElementDeleter.h:91-94). -/
def deleteAll (del : Ptr → Proc Unit) : List Ptr → Proc Unit
  | [] => pure ()
  | p :: ps => do
    del p
    deleteAll del ps

/-- `ElementDeleter::deleteElements` (ElementDeleter.h:72-96), when `release` was not called. -/
def deleteElements (del : Ptr → Proc Unit) (k : ℕ) : Proc Unit := do
  let v ← read k
  deleteAll del v
  write k []

/-! ## The cache of objects -/

/-- `ObjectCache::newObject` (ObjectCache.h:68-76), `HilbertBasecase::getNewIdeal` (HilbertBasecase.cpp:275-283),
`SliceStrategyCommon::newSlice` (SliceStrategyCommon.cpp:65-75) and `HilbertStrategy::newConsumer`
(HilbertStrategy.cpp:147-155). -/
def newObject (k : ℕ) : Proc Ptr := do
  let v ← read k
  if v = [] then do
    let x ← new
    pure (some x)
  else popBack k

/-- `ObjectCache::newObjectCopy` (ObjectCache.h:78-87); the constructor, like the assignment, may throw. -/
def newObjectCopy (k : ℕ) : Proc Ptr := do
  let p ← newObject k
  touch p
  onThrow mayThrow (delete p)
  pure p

/-- `ObjectCache::freeObject` (ObjectCache.h:89-95). -/
def freeObject (k : ℕ) (p : Ptr) : Proc Unit := noThrowPushBack k p

/-- What a user of a cache does. -/
inductive CacheOp where
  | fetch
  | fetchCopy
  | free (i : ℕ)

/-- One use of the cache 0 by someone who holds `held` and goes on after exceptions. -/
def cacheStep (held : List Ptr) : CacheOp → Proc (List Ptr)
  | .fetch => caught (do
      let p ← newObject 0
      pure (held ++ [p])) held
  | .fetchCopy => caught (do
      let p ← newObjectCopy 0
      pure (held ++ [p])) held
  | .free i =>
    match held[i]? with
    | none => pure held
    | some p => do
      freeObject 0 p
      pure (held.eraseIdx i)

/-- Many uses of the cache. -/
def cacheRun : List CacheOp → List Ptr → Proc (List Ptr)
  | [], held => pure held
  | op :: ops, held => do
    let held ← cacheStep held op
    cacheRun ops held

/-! ## HilbertBasecase -/

/-- `HilbertBasecase::freeIdeal` (HilbertBasecase.cpp:285-290), with `_idealCache` as container 0. -/
def freeIdeal (p : Ptr) : Proc Unit := do
  touch p
  exceptionSafePushBack delete 0 p

/-- `HilbertBasecase::stepComputation` (HilbertBasecase.cpp:42-129) on the ideal of `entry`: whether it splits is given
by `split`, and the sums are left out. It gives the ideal of `newEntry`. -/
def stepComputation (split : Bool) (entry : Ptr) : Proc (Option Ptr) := do
  touch entry
  mayThrow
  if split then do
    let outer ← newObject 0
    touch outer
    onThrow mayThrow (delete outer)
    pure (some outer)
  else pure none

/-- Gives the ideal of `owner` back unless there is none (HilbertBasecase.cpp:168-169). -/
def freeOwner (owner : Ptr) : Proc Unit := if owner = none then pure () else freeIdeal owner

/-- The two loops of `computeCoefficient` (HilbertBasecase.cpp:155-175) with the destructors of their variables, with
`_todo` as container 1. `owner` is `entryIdealDeleter`, and the ideal of `entry` is that of `owner`, or `original` when
that is null. `splits` says which of the steps split. -/
def basecaseLoop (splits : ℕ → Bool) (original : ℕ) : ℕ → Ptr → Proc Unit
  | 0, _ => running
  | n + 1, owner => do
    let r ← onThrow (stepComputation (splits n) (some (owner.getD original))) (delete owner)
    match r with
    | some p => do
      onThrow (onThrow (pushBack 1 p) (delete p)) (delete owner)
      basecaseLoop splits original n owner
    | none => do
      let todo ← read 1
      if todo = [] then do
        touch (some original)
        delete owner
      else do
        freeOwner owner
        let p ← popBack 1
        basecaseLoop splits original n p

/-- `HilbertBasecase::computeCoefficient` (HilbertBasecase.cpp:131-188); the handler has the loop of `deleteElements`. -/
def computeCoefficient (splits : ℕ → Bool) (steps original : ℕ) : Proc Unit :=
  onThrow (do
    mayThrow
    basecaseLoop splits original steps none) (deleteElements delete 1)

/-! ## The intersection of ideals -/

/-- The loop of the constructor of `TermTranslator` (TermTranslator.cpp:63-66), with `ideals` as container 2. -/
def shrinkLoop : ℕ → Proc Unit
  | 0 => pure ()
  | n + 1 => do
    let x ← new
    exceptionSafePushBack delete 2 (some x)
    touch (some x)
    mayThrow
    shrinkLoop n

/-- The constructor of `TermTranslator` with `n` ideals (TermTranslator.cpp:54-68). -/
def makeTranslator (n : ℕ) : Proc Unit := do
  write 2 []
  onThrow (do
    mayThrow
    shrinkLoop n) (deleteElements delete 2)

/-- The loop of `IntersectFacade::intersect` (IntersectFacade.cpp:53-62) on the rest of `ideals2`. -/
def intersectLoop : List Ptr → ℕ → Proc ℕ
  | [], acc => pure acc
  | p :: ps, acc => do
    touch p
    onThrow mayThrow (delete (some acc))
    let tmp ← onThrow new (delete (some acc))
    onThrow mayThrow (do delete (some tmp); delete (some acc))
    delete (some acc)
    intersectLoop ps tmp

/-- `IntersectFacade::intersect` (IntersectFacade.cpp:32-69) of `n` ideals. -/
def intersectIdeals (n : ℕ) : Proc ℕ := do
  if n = 0 then do
    let ring ← new
    onThrow mayThrow (delete (some ring))
    pure ring
  else do
    write 2 []
    inScope (do
      makeTranslator n
      let first ← new
      onThrow mayThrow (delete (some first))
      let acc ← intersectLoop (← read 2) first
      let big ← onThrow new (delete (some acc))
      onThrow mayThrow (do delete (some big); delete (some acc))
      delete (some acc)
      pure big) (deleteElements delete 2)

/-! ## Reading ideals -/

/-- The destructor of an entry (InputConsumer.h:94-97). -/
def deleteEntry : Ptr → Proc Unit
  | none => pure ()
  | some e => do
    touch (some e)
    let c ← getCells
    delete (c.inside e).2
    delete (c.inside e).1
    delete (some e)

/-- `InputConsumer::beginIdeal` (InputConsumer.cpp:50-55). -/
def beginIdeal : Proc Unit := do
  let x ← new
  let c ← getCells
  delete c.sqf
  setCells { c with sqf := some x }
  mayThrow

/-- `InputConsumer::toBigIdeal` (InputConsumer.cpp:247-254) on the two members. -/
def toBigMembers : Proc Unit := do
  let c ← getCells
  if c.big ≠ none then pure () else do
    touch c.sqf
    let x ← new
    setCells { c with big := some x }
    mayThrow
    delete c.sqf
    setCells { c with big := some x, sqf := none }

/-- A term of an ideal (InputConsumer.cpp:62-189), which is not square free if `t` (`idealNotSquareFree`,
InputConsumer.cpp:241-245). -/
def readTerm (t : Bool) : Proc Unit := if t then toBigMembers else pure ()

/-- The terms of an ideal. The ones that are not square free are `true`. -/
def readTerms : List Bool → Proc Unit
  | [] => pure ()
  | t :: ts => do
    mayThrow
    readTerm t
    readTerms ts

/-- `InputConsumer::endIdeal` (InputConsumer.cpp:191-198), with `_ideals` as container 3. -/
def endIdeal : Proc Unit := do
  let e ← new
  let c ← getCells
  setCells { c with inside := fun x => if x = e then (c.big, c.sqf) else c.inside x, big := none, sqf := none }
  exceptionSafePushBack deleteEntry 3 (some e)

/-- `InputConsumer::releaseIdeal` (InputConsumer.cpp:227-232): the contents of the first entry. The entry itself is
taken off the list and is not deleted. -/
def releaseIdeal : Proc (Ptr × Ptr) := do
  match (← read 3) with
  | some e :: es => do
    touch (some e)
    let c ← getCells
    setCells { c with inside := fun x => if x = e then (none, none) else c.inside x }
    write 3 es
    pure (c.inside e)
  | _ => stuck

/-- `InputConsumer::releaseBigIdeal` (InputConsumer.cpp:209-216). -/
def releaseBigIdeal : Proc Ptr := do
  let c ← releaseIdeal
  match c with
  | (some b, sqf) => do
    delete sqf
    pure (some b)
  | (none, sqf) => do
    touch sqf
    let x ← onThrow new (delete sqf)
    onThrow mayThrow (do delete sqf; delete (some x))
    delete sqf
    pure (some x)

/-- `IOHandler::readIdeals`: each ideal is given by its terms. -/
def readAll : List (List Bool) → Proc Unit
  | [] => pure ()
  | i :: is => do
    beginIdeal
    readTerms i
    endIdeal
    readAll is

/-- The loop of `IOFacade::readIdeals` (IOFacade.cpp:148-149), which turns as often as there are ideals, with `ideals`
as container 4. -/
def releaseAll : ℕ → Proc Unit
  | 0 => pure ()
  | n + 1 => do
    let p ← releaseBigIdeal
    exceptionSafePushBack delete 4 p
    releaseAll n

/-- The destructor of `InputConsumer` (InputConsumer.h:107-112). -/
def dropConsumer : Proc Unit := do
  deleteElements deleteEntry 3
  let c ← getCells
  delete c.sqf
  delete c.big
  setCells { c with big := none, sqf := none }

/-- `IOFacade::readIdeals` (IOFacade.cpp:132-154). -/
def readIdeals (input : List (List Bool)) : Proc Unit := do
  write 3 []
  let c ← getCells
  setCells { c with big := none, sqf := none }
  onThrow (inScope (do
    readAll input
    mayThrow
    releaseAll (← read 3).length) dropConsumer) (deleteElements delete 4)

/-- `IntersectionAction::perform` (IntersectionAction.cpp:53-77). -/
def intersectionAction (input : List (List Bool)) : Proc Unit := do
  write 4 []
  inScope (do
    readIdeals input
    mayThrow
    let x ← intersectIdeals (← read 4).length
    deleteElements delete 4
    onThrow mayThrow (delete (some x))
    delete (some x)) (deleteElements delete 4)

/-! ## The tasks of a strategy -/

/-- `SliceStrategyCommon::freeSlice` (SliceStrategyCommon.cpp:39-45), with `_sliceCache` as container 5. -/
def freeSlice (p : Ptr) : Proc Unit := do
  touch p
  noThrowPushBack 5 p

/-- `HilbertStrategy::freeConsumer` (HilbertStrategy.cpp:108-117), with `_consumerCache` as container 6. -/
def freeConsumer (p : Ptr) : Proc Unit := do
  touch p
  noThrowPushBack 6 p

/-- `TaskEngine::dispose` (TaskEngine.cpp:70-80) with `Slice::dispose` (Slice.cpp:325-327) and
`HilbertIndependenceConsumer::dispose` (HilbertIndependenceConsumer.cpp:51-54). -/
def dispose : Ptr → Proc Unit
  | none => stuck
  | some x => fun s => if s.consumer x then freeConsumer (some x) s else freeSlice (some x) s

/-- `TaskEngine::addTask` (TaskEngine.cpp:35-48), with `_tasks` as container 7. -/
def addTask (p : Ptr) : Proc Unit := onThrow (pushBack 7 p) (dispose p)

/-- `SliceStrategyCommon::pivotSplit` (SliceStrategyCommon.cpp:77-111); which of the slices is smaller is `swap`. -/
def pivotSplit (swap : Bool) (slice : Ptr) : Proc Unit := do
  touch slice
  onThrow mayThrow (delete slice)
  let slice2 ← onThrow (newObject 5) (delete slice)
  touch slice2
  onThrow mayThrow (do delete slice2; delete slice)
  onThrow (addTask (if swap then slice else slice2)) (delete (if swap then slice2 else slice))
  addTask (if swap then slice2 else slice)

/-- `HilbertStrategy::independenceSplit` (HilbertStrategy.cpp:119-145). -/
def independenceSplit (slice : Ptr) : Proc Unit := do
  onThrow (do
    let split ← newObject 6
    touch split
    onThrow mayThrow (delete split)
    addTask split
    let left ← newObject 5
    touch left
    onThrow mayThrow (delete left)
    addTask left
    let right ← newObject 5
    touch right
    onThrow mayThrow (delete right)
    addTask right) (delete slice)
  freeSlice slice

/-- What is done with a slice. -/
inductive Choice where
  | base
  | indep
  | pivot (swap : Bool)

/-- `HilbertStrategy::processSlice` (HilbertStrategy.cpp:66-84). -/
def processSlice (choice : Choice) (slice : Ptr) : Proc Unit := do
  touch slice
  onThrow mayThrow (delete slice)
  match choice with
  | .base => freeSlice slice
  | .indep => independenceSplit slice
  | .pivot swap => pivotSplit swap slice

/-- `Slice::run` (Slice.cpp:321-323) and `HilbertIndependenceConsumer::run` (HilbertIndependenceConsumer.cpp:56-58). -/
def runTask (choice : Choice) : Ptr → Proc Unit
  | none => stuck
  | some x => fun s => if s.consumer x then dispose (some x) s else processSlice choice (some x) s

/-- `TaskEngine::runTasks` (TaskEngine.cpp:50-64). -/
def runTasks (choices : ℕ → Choice) : ℕ → Proc Unit
  | 0 => running
  | n + 1 => do
    let v ← read 7
    if v = [] then pure () else do
      let p ← popBack 7
      runTask (choices n) p
      runTasks choices n

/-- `HilbertStrategy::run` (HilbertStrategy.cpp:37-64). -/
def runStrategy (choices : ℕ → Choice) (steps : ℕ) : Proc Unit := do
  mayThrow
  let slice ← new
  onThrow mayThrow (delete (some slice))
  addTask (some slice)
  runTasks choices steps
  deleteElements delete 6

/-- The loop of the destructor of `TaskEngine` (TaskEngine.cpp:28-33) on the tasks from the last one. -/
def disposeAll : List Ptr → Proc Unit
  | [] => pure ()
  | p :: ps => do
    dispose p
    disposeAll ps

/-- The destructors of `HilbertStrategy`, `SliceStrategyCommon` (SliceStrategyCommon.cpp:31-37) and their members, from
the last to the first: `_consumerCacheDeleter` and `_consumerCache` (HilbertStrategy.h:56-57), then, after the body of the
destructor, `_sliceCache` and `_tasks` (SliceStrategyCommon.h:84, 95). -/
def destroyStrategy : Proc Unit := do
  deleteElements delete 6
  setCells ((← getCells).kill 6)
  deleteElements delete 5
  setCells ((← getCells).kill 5)
  let tasks ← read 7
  disposeAll tasks.reverse
  setCells ((← getCells).kill 7)

end Frobby.Own
