import Mathlib.Data.Nat.Basic
import Mathlib.Data.List.Basic
import Mathlib.Algebra.Order.Ring.Int

/-!
# The wrappers that print statistics and debug output

`StatisticsStrategy` and `DebugStrategy` around the strategies of the Slice Algorithm, and the two classes of the same
names around the pivot strategies of the Euler characteristic computation. The algorithm that is wrapped is left open:
what a strategy does with a slice, and what the Euler algorithm does with a state, are arbitrary functions.
-/

namespace Frobby.Stat

/-! ## What is recorded about slices -/

/-- What `preliminaryRecord` takes from a slice: the number of generators of the ideal, the number of generators of the
subtract ideal and the number of variables (StatisticsStrategy.cpp:78-82). -/
structure Sizes where
  gens : ℕ
  sub : ℕ
  vars : ℕ
deriving DecidableEq

/-- `StatTracker` (StatisticsStrategy.h:48-87). The map `_nodesByGenCount` is the list of its entries, in increasing
order of the keys. The title is left out. -/
structure Tracker where
  prelim : Sizes
  nodes : ℕ
  gensSum : ℕ
  subSum : ℕ
  varSum : ℕ
  byLog : List (ℕ × ℕ)
deriving DecidableEq

/-- The constructor (StatisticsStrategy.cpp:74-76). The sizes of the last slice are indeterminate until the first call of
`preliminaryRecord`; here they are zero, and no code reads them before. -/
def Tracker.new : Tracker := ⟨⟨0, 0, 0⟩, 0, 0, 0, 0, []⟩

/-- `StatTracker::preliminaryRecord` (StatisticsStrategy.cpp:78-82). -/
def Tracker.preliminary (t : Tracker) (s : Sizes) : Tracker := { t with prelim := s }

/-- `_nodesByGenCount[key] += 1` (StatisticsStrategy.cpp:94). -/
def bump (key : ℕ) : List (ℕ × ℕ) → List (ℕ × ℕ)
  | [] => [(key, 1)]
  | (k, n) :: rest =>
    if key < k then (key, 1) :: (k, n) :: rest
    else if key = k then (k, n + 1) :: rest
    else (k, n) :: bump key rest

/-- The key under which a slice is counted (StatisticsStrategy.cpp:91-93). `lg` is the quotient of the two logarithms,
converted to an integer; as it is computed with floating point numbers it is an arbitrary function here. -/
def logKey (lg : ℕ → ℕ) (gens : ℕ) : ℕ := if gens > 0 then lg gens else 0

/-- `StatTracker::commitRecord` (StatisticsStrategy.cpp:84-95). -/
def Tracker.commit (lg : ℕ → ℕ) (t : Tracker) : Tracker :=
  { t with
    nodes := t.nodes + 1
    gensSum := t.gensSum + t.prelim.gens
    subSum := t.subSum + t.prelim.sub
    varSum := t.varSum + t.prelim.vars
    byLog := bump (logKey lg t.prelim.gens) t.byLog }

/-- `find` with the default that is printed (StatisticsStrategy.cpp:109-113). -/
def lookup (key : ℕ) : List (ℕ × ℕ) → ℕ
  | [] => 0
  | (k, n) :: rest => if k = key then n else lookup key rest

/-- The loop that prints the nodes by the logarithm, from a key down to zero (StatisticsStrategy.cpp:108-122): the pairs
that are printed. -/
def linesFrom (m : List (ℕ × ℕ)) : ℕ → List (ℕ × ℕ)
  | 0 => [(lookup 0 m, 0)]
  | key + 1 => (lookup (key + 1) m, key + 1) :: linesFrom m key

/-- `rbegin` and the loop, if there is anything in the map (StatisticsStrategy.cpp:105-123). -/
def histogram (m : List (ℕ × ℕ)) : List (ℕ × ℕ) :=
  match m.getLast? with
  | none => []
  | some (key, _) => linesFrom m key

/-- What `printReport` prints (StatisticsStrategy.cpp:97-124, 126-155): the number of nodes, the three averages as a sum
and what it is divided by, nothing if there are no nodes, and the lines about logarithms. -/
structure Report where
  nodes : ℕ
  averages : Option ((ℕ × ℕ) × (ℕ × ℕ) × (ℕ × ℕ))
  lines : List (ℕ × ℕ)
deriving DecidableEq

/-- `StatTracker::printReport` (StatisticsStrategy.cpp:97-124) with the averages (StatisticsStrategy.cpp:130-155). -/
def Tracker.report (t : Tracker) : Report :=
  { nodes := t.nodes
    averages := if t.nodes = 0 then none else some ((t.gensSum, t.nodes), (t.subSum, t.nodes), (t.varSum, t.nodes))
    lines := histogram t.byLog }

/-! ## The wrapped Slice Algorithm -/

/-- A strategy of the Slice Algorithm with the wrappers around it. -/
inductive Strategy where
  | inner
  | debug (s : Strategy)
  | stats (s : Strategy)
deriving DecidableEq

/-- What is printed to `stderr`. The text of slices and ideals is left out. -/
inductive Line where
  | start
  | begin
  | done
  | processing
  | base
  | notBase
  | statistics (internal leaf : Report)
deriving DecidableEq

/-- What the strategy that is wrapped does with a slice: whether it is a base case, the slices that it adds as tasks, in
the order of adding, and what it sends to the consumer. -/
structure Work (S O : Type) where
  base : Bool
  subs : List S
  out : List O

/-- An algorithm: what is done with each slice, the slice to start with and what is sent to the consumer before it, and
the sizes of the slices. -/
structure Alg (S O : Type) where
  work : S → Work S O
  first : S
  before : List O
  sizes : S → Sizes

/-- The tasks, the next one first, each with the strategy that made it, which is the `_strategy` of the slice
(Slice.h:303); what was sent to the consumer; what was printed; the two trackers; and the slices that were processed, in
their order, which the code does not store. -/
structure State (S O : Type) where
  tasks : List (S × Strategy)
  out : List O
  printed : List Line
  internal : Tracker
  leaf : Tracker
  seen : List S

variable {S O : Type}

/-- `processSlice` of a strategy that is not a wrapper (such as HilbertStrategy.cpp:66-85): the slices it adds are made
by `newSlice`, which passes `*this` (HilbertStrategy.cpp:92-94, MsmStrategy.cpp:93-95), so that they belong to the
strategy without wrappers. -/
def processInner (a : Alg S O) (s : S) (st : State S O) : Bool × State S O :=
  let w := a.work s
  (w.base, { st with
    tasks := (w.subs.map fun x => (x, Strategy.inner)).reverse ++ st.tasks
    out := st.out ++ w.out
    seen := st.seen ++ [s] })

/-- `processSlice` of a strategy (StatisticsStrategy.cpp:43-56, DebugStrategy.cpp:41-50). -/
def processSlice (lg : ℕ → ℕ) (a : Alg S O) : Strategy → S → State S O → Bool × State S O
  | .inner, s, st => processInner a s st
  | .debug t, s, st =>
    let r := processSlice lg a t s { st with printed := st.printed ++ [Line.processing] }
    (r.1, { r.2 with printed := r.2.printed ++ [if r.1 then Line.base else Line.notBase] })
  | .stats t, s, st =>
    let r := processSlice lg a t s
      { st with internal := st.internal.preliminary (a.sizes s), leaf := st.leaf.preliminary (a.sizes s) }
    (r.1, if r.1 then { r.2 with leaf := r.2.leaf.commit lg } else { r.2 with internal := r.2.internal.commit lg })

/-- `TaskEngine::runTasks` with `Slice::run` (TaskEngine.cpp:49-63, Slice.cpp:321-323): each slice is processed by its own
strategy. `none` when the number of tasks to run was not enough. -/
def runTasks (lg : ℕ → ℕ) (a : Alg S O) : ℕ → State S O → Option (State S O)
  | n, st =>
    match st.tasks with
    | [] => some st
    | (s, strategy) :: rest =>
      match n with
      | 0 => none
      | n + 1 => runTasks lg a n (processSlice lg a strategy s { st with tasks := rest }).2

/-- `run` of a strategy (StatisticsStrategy.cpp:35-41, DebugStrategy.cpp:32-39, HilbertStrategy.cpp:37-64): the first
slice is made by the strategy that is not a wrapper. -/
def run (lg : ℕ → ℕ) (a : Alg S O) (n : ℕ) : Strategy → State S O → Option (State S O)
  | .inner, st =>
    runTasks lg a n { st with tasks := (a.first, Strategy.inner) :: st.tasks, out := st.out ++ a.before }
  | .debug t, st =>
    (run lg a n t { st with printed := st.printed ++ [Line.begin] }).map fun r =>
      { r with printed := r.printed ++ [Line.done] }
  | .stats t, st =>
    (run lg a n t st).map fun r =>
      { r with printed := r.printed ++ [Line.statistics r.internal.report r.leaf.report] }

/-- The strategy that `SliceFacade::runSliceAlgorithmWithOptions` makes (SliceFacade.cpp:467-491). -/
def withOptions (debug stats : Bool) : Strategy :=
  let s := if debug then Strategy.debug .inner else Strategy.inner
  if stats then Strategy.stats s else s

/-- The state before the run; the constructor of `DebugStrategy` prints a line (DebugStrategy.cpp:22-27). -/
def State.start (debug : Bool) : State S O :=
  ⟨[], [], if debug then [Line.start] else [], .new, .new, []⟩

/-- `SliceFacade::runSliceAlgorithmWithOptions` (SliceFacade.cpp:467-491). The options of the strategy that is wrapped are
part of the algorithm. -/
def runWithOptions (lg : ℕ → ℕ) (a : Alg S O) (n : ℕ) (debug stats : Bool) : Option (State S O) :=
  run lg a n (withOptions debug stats) (State.start debug)

/-! ## The wrapped computation of Euler characteristics -/

/-- What the Euler algorithm does: simplifying a state adds to the Euler characteristic and either is a base case or ends
in a state to split (PivotEulerAlg.cpp:199-228); `pivot` is `doPivot` of the strategy that is wrapped, with what the state
becomes and the new state. -/
structure EulerAlg (S : Type) where
  simplify : S → ℤ × Option S
  pivot : S → S × S

/-- `_statesSplit` (PivotStrategy.cpp:875), how many states the debug output showed, and the Euler characteristic so
far; `processed` counts the calls of `processState`, which the code does not. -/
structure Counts where
  split : ℕ
  shown : ℕ
  euler : ℤ
  processed : ℕ
deriving DecidableEq

/-- `doPivot` of a pivot strategy (PivotStrategy.cpp:781-804, 830-833). `2^w` is one more than the largest `unsigned
long`. -/
def doPivot (w : ℕ) (a : EulerAlg S) : Strategy → S → Counts → (S × S) × Counts
  | .inner, s, c => (a.pivot s, c)
  | .debug t, s, c =>
    let r := doPivot w a t s { c with shown := c.shown + 1 }
    (r.1, { r.2 with shown := r.2.shown + 2 })
  | .stats t, s, c => doPivot w a t s { c with split := (c.split + 1) % 2 ^ w }

/-- The loop of `computeEuler` (PivotEulerAlg.cpp:297-309) with `processState` (PivotEulerAlg.cpp:199-237). The states
are the current one and its parents; splitting replaces a state and puts the new one before it. -/
def eulerLoop (w : ℕ) (a : EulerAlg S) (strategy : Strategy) : ℕ → List S → Counts → Option Counts
  | _, [], c => some c
  | 0, _ :: _, _ => none
  | n + 1, s :: parents, c =>
    let r := a.simplify s
    let c' := { c with euler := c.euler + r.1, processed := c.processed + 1 }
    match r.2 with
    | none => eulerLoop w a strategy n parents c'
    | some s' =>
      let p := doPivot w a strategy s' c'
      eulerLoop w a strategy n (p.1.2 :: p.1.1 :: parents) p.2

/-- `computeEulerCharacteristic` (PivotEulerAlg.cpp:253-295): for no generators or no variables, `trivial`, there is no
loop. -/
def computeEuler (w : ℕ) (a : EulerAlg S) (strategy : Strategy) (n : ℕ) (trivial : Option ℤ) (s : S) (c : Counts) :
    Option Counts :=
  match trivial with
  | some e => some { c with euler := e }
  | none => eulerLoop w a strategy n [s] { c with euler := 0 }

/-- The number that `computationCompleted` prints as the states processed (PivotStrategy.cpp:859-860). -/
def statesPrinted (w : ℕ) (c : Counts) : ℕ := (2 * c.split + 1) % 2 ^ w

end Frobby.Stat
