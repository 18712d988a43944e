import Verif.StrategyModel

/-!
# Model of the task engine

`TaskEngine` with the tasks that the slice strategies give it, and the consumers of the independence splits as objects
that are allocated and freed. StrategyModel.lean has the same algorithm as a recursion; PropsTasks.lean proves that the
stack of tasks does what the recursion does.
-/

namespace Frobby

/-- The consumer of a slice: the consumer of the strategy, `MsmIndependenceSplit` or `HilbertIndependenceConsumer`
itself (the left consumer, with its parent and its two projections, MsmStrategy.cpp:196-206,
HilbertIndependenceConsumer.cpp:31-43), or the right consumer in such an object. `id` is the address of the object. -/
inductive Consumer (N : ℕ) : ℕ → Type
  | top : Consumer N N
  | left {n : ℕ} (id : ℕ) (big rest : List (Fin n)) (parent : Consumer N n) : Consumer N big.length
  | right (id m : ℕ) : Consumer N m

/-- The objects, and what the consumer of the strategy was given. `heap id m` is what the right consumer of the object
holds (`_rightConsumer._decom`, or `_rightTerms` and `_rightCoefs`), for an object whose right projection has `m`
variables. `free` are the addresses of objects that were deleted or put in the cache
(HilbertStrategy.cpp:108-117, 147-155), `next` is an address never used before. -/
structure Mem (N : ℕ) where
  out : List (ℤ × Term N)
  heap : ℕ → (m : ℕ) → List (ℤ × Term m)
  live : ℕ → Bool
  free : List ℕ
  next : ℕ

namespace Mem

variable {N : ℕ}

/-- `new MsmIndependenceSplit` and `reset` (MsmStrategy.cpp:199-209, 265-266); `newConsumer` and `reset`
(HilbertStrategy.cpp:147-155, HilbertIndependenceConsumer.cpp:31-43): takes the last address that was freed if there is one. -/
def alloc (σ : Mem N) : ℕ × Mem N :=
  match σ.free with
  | id :: free => (id, { σ with heap := Function.update σ.heap id fun _ => [], live := Function.update σ.live id true, free := free })
  | [] => (σ.next, { σ with
      heap := Function.update σ.heap σ.next fun _ => []
      live := Function.update σ.live σ.next true
      next := σ.next + 1 })

/-- `MsmIndependenceSplit::run` (MsmStrategy.cpp:212-214) and `HilbertIndependenceConsumer::run`
(HilbertIndependenceConsumer.cpp:56-58) with `freeConsumer` (HilbertStrategy.cpp:108-117). `none` is a double free. -/
def dispose (σ : Mem N) (id : ℕ) : Option (Mem N) :=
  if σ.live id then some { σ with live := Function.update σ.live id false, free := id :: σ.free } else none

end Mem

/-- `consume` of the consumers (MsmStrategy.cpp:226-234, 238-240, HilbertIndependenceConsumer.cpp:69-74, 104-150).
`none` is the use of an object that does not exist any more. -/
def Consumer.consume {N : ℕ} : {n : ℕ} → Consumer N n → Mem N → ℤ × Term n → Option (Mem N)
  | _, .top, σ, x => some { σ with out := σ.out ++ [x] }
  | _, .right id m, σ, x =>
    if σ.live id then
      some { σ with heap := Function.update σ.heap id (Function.update (σ.heap id) m (σ.heap id m ++ [x])) }
    else none
  | _, .left id big rest parent, σ, x =>
    if σ.live id then
      (σ.heap id rest.length).foldlM
        (fun τ r => parent.consume τ (x.1 * r.1, inverseProject rest (inverseProject big 0 x.2) r.2)) σ
    else none

/-- What a base case does with its terms. -/
def Consumer.consumeAll {N n : ℕ} (c : Consumer N n) (σ : Mem N) (outs : List (ℤ × Term n)) : Option (Mem N) :=
  outs.foldlM c.consume σ

/-- The tasks: a slice (`Slice::run`, Slice.cpp:321-324), with its position in the tree of slices which determines the
results of `rand`, or the removal of the object of an independence split. -/
inductive Task (N : ℕ)
  | slice (path : List ℕ) (n : ℕ) (s : Slice n) (c : Consumer N n)
  | split (id : ℕ)

/-- `TaskEngine::runNextTask` (TaskEngine.cpp:50-59) on a nonempty stack, with `processSlice` (MsmStrategy.cpp:67-85,
HilbertStrategy.cpp:66-84), `independenceSplit` (MsmStrategy.cpp:258-283, HilbertStrategy.cpp:119-145) and the adding of
the tasks of `labelSplit` and `pivotSplit` (MsmStrategy.cpp:168-174, SliceStrategyCommon.cpp:99-110). The top of the
stack is the head of the list. -/
def runTask {N : ℕ} (k : Kind) (o : Opts) (rnd : List ℕ → ℕ → ℕ) (σ : Mem N) (t : Task N) (T : List (Task N)) :
    Option (Mem N × List (Task N)) :=
  match t with
  | .split id => (σ.dispose id).map fun τ => (τ, T)
  | .slice path n s c =>
    match s.baseCase k o.simp with
    | some outs => (c.consumeAll σ outs).map fun τ => (τ, T)
    | none =>
      match (if o.indep then analyze s.ideal s.subtract else none) with
      | some (big, rest) =>
        let (id, τ) := σ.alloc
        some (τ, .slice (1 :: path) rest.length (s.touchLcm.setToProjOf rest) (.right id rest.length) ::
          .slice (0 :: path) big.length (s.touchLcm.setToProjOf big) (.left id big rest c) :: .split id :: T)
      | none =>
        match s.touchLcm.children k o (rnd path) with
        | none => none
        | some (a, none) => some (σ, .slice (0 :: path) n a c :: T)
        | some (a, some b) => some (σ, .slice (0 :: path) n a c :: .slice (1 :: path) n b c :: T)

/-- The loop of `TaskEngine::runTasks` (TaskEngine.cpp:61-64) after a number of rounds. `none` is an error. -/
def runTasks {N : ℕ} (k : Kind) (o : Opts) (rnd : List ℕ → ℕ → ℕ) : ℕ → Mem N × List (Task N) → Option (Mem N × List (Task N))
  | 0, st => some st
  | _ + 1, (σ, []) => some (σ, [])
  | j + 1, (σ, t :: T) =>
    match runTask k o rnd σ t T with
    | none => none
    | some st => runTasks k o rnd j st

/-- The memory before the strategy runs. -/
def Mem.init (N : ℕ) : Mem N := { out := [], heap := fun _ _ => [], live := fun _ => false, free := [], next := 0 }

/-- `MsmStrategy::run` (MsmStrategy.cpp:44-65) up to `runTasks`: the first task. -/
def msmStart {n : ℕ} (o : Opts) (I : List (Term n)) : Option (Mem n × List (Task n)) :=
  match ((Slice.new I [] 1).removeDoubleLcm.1).simplifyWith .msm o with
  | none => none
  | some s => some (Mem.init n, [.slice [] n s .top])

/-- `HilbertStrategy::run` (HilbertStrategy.cpp:37-64) up to `runTasks`: the first term and the first task. -/
def hilbertStart {n : ℕ} (o : Opts) (I : List (Term n)) : Option (Mem n × List (Task n)) :=
  let J := if contains I 0 then [] else I.map (· + 1)
  match (Slice.new J [] 0).simplifyWith .hilbert o with
  | none => none
  | some s => some ({ Mem.init n with out := if contains I 0 then [] else [(1, 0)] }, [.slice [] n s .top])

end Frobby
