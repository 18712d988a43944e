import Verif.TranslatorModel

/-!
# Model of `SizeMaxIndepSetAlg` (src/SizeMaxIndepSetAlg.cpp) and of the dimension functions

The array `_edges`, in which every edge is preceded by its length, is a list of lists, and a position in it is the list of
the edges from there on.
-/

namespace Frobby

variable {n : ℕ}

/-- `SizeMaxIndepSetAlg::VarState` (SizeMaxIndepSetAlg.h). -/
inductive VarState where
  | maybe
  | isIn
  | notIn
deriving DecidableEq

/-- The variables `_state`, `_undo` and `_minExcluded` of a `SizeMaxIndepSetAlg`. -/
structure Mis (n : ℕ) where
  state : Fin n → VarState
  undo : ℕ → List (Fin n)
  minEx : ℕ

/-- `isIndependentIncludingMaybe` (SizeMaxIndepSetAlg.cpp:78-91). -/
def Mis.indepMaybe (s : Mis n) (edges : List (List (Fin n))) : Bool :=
  edges.all fun e => e.any fun v => decide (s.state v = .notIn)

/-- `couldBeDependence` (SizeMaxIndepSetAlg.cpp:93-104): the number of undecided variables, or `none` if the edge
cannot make the set dependent. -/
def Mis.couldBeDependence (s : Mis n) (e : List (Fin n)) : Option ℕ :=
  if e.any fun v => decide (s.state v = .notIn) then none else some (e.countP fun v => decide (s.state v = .maybe))

/-- Assignment to `_state[var]`. -/
def Mis.set (s : Mis n) (v : Fin n) (x : VarState) : Mis n := { s with state := Function.update s.state v x }

/-- The loop that restores the state (SizeMaxIndepSetAlg.cpp:185-188); the list is a stack with its top first. -/
def Mis.restore (ex : ℕ) : List (Fin n) → Mis n → Mis n
  | [], s => { s with undo := Function.update s.undo ex [] }
  | v :: vs, s => Mis.restore ex vs (s.set v .maybe)

/-- The loop over the variables of an edge (SizeMaxIndepSetAlg.cpp:154-204); `rec` is the recursive call. -/
def misLoop (ex : ℕ) (rec : Mis n → Mis n) : List (Fin n) → ℕ → Mis n → Mis n
  | [], _, s => s
  | v :: vs, maybeCount, s =>
    if s.state v ≠ .maybe then misLoop ex rec vs maybeCount s
    else
      let s1 := rec (s.set v .notIn)
      if maybeCount = 1 then
        let s2 := s1.set v .maybe
        s2.restore ex (s2.undo ex)
      else
        let s2 := s1.set v .isIn
        misLoop ex rec vs (maybeCount - 1) { s2 with undo := Function.update s2.undo ex (v :: s2.undo ex) }

/-- The beginning of `recurse` (SizeMaxIndepSetAlg.cpp:106-124); `scan` is the remainder. -/
def misEnter (edges : List (List (Fin n))) (ex : ℕ) (scan : Mis n → Mis n) (s : Mis n) : Mis n :=
  if s.minEx ≤ ex then s
  else if ex + 1 = s.minEx then if s.indepMaybe edges then { s with minEx := ex } else s
  else scan s

/-- The loop over the edges in `recurse` (SizeMaxIndepSetAlg.cpp:126-207). -/
def misScan : List (List (Fin n)) → ℕ → Mis n → Mis n
  | [], ex, s => { s with minEx := ex }
  | e :: rest, ex, s =>
    match s.couldBeDependence e with
    | none => misScan rest ex s
    | some 0 => s
    | some (k + 1) => misLoop ex (misEnter rest (ex + 1) (misScan rest (ex + 1))) e (k + 1) s

/-- The edge of a generator (SizeMaxIndepSetAlg.cpp:46-54). -/
def edgeOf (g : Term n) : List (Fin n) := (List.finRange n).filter fun v => decide (g v ≠ 0)

/-- `SizeMaxIndepSetAlg::run` followed by `getMaxIndepSetSize` (SizeMaxIndepSetAlg.cpp:23-76). -/
def maxIndepSetSize (I : List (Term n)) : ℤ :=
  if I.length = 1 ∧ (I.any fun g => decide (g = 0)) = true then -1
  else
    let edges := (sortReverseLex I).map edgeOf
    let s := misEnter edges 0 (misScan edges 0) { state := fun _ => .maybe, undo := fun _ => [], minEx := n }
    (n : ℤ) - s.minEx

/-- `IdealFacade::computeDimension(ideal, codimension, squareFreeAndMinimal)` (IdealFacade.cpp:82-118). -/
def computeDimension (G : List (Term n)) (codimension squareFreeAndMinimal : Bool) : ℤ :=
  let radical := G.map fun g v => if g v = 0 then 0 else 1
  let radical := if squareFreeAndMinimal then radical else minimize radical
  if codimension then n - maxIndepSetSize radical else maxIndepSetSize radical

/-- `Frobby::dimension` (frobby.cpp:451-457). -/
def dimension (G : List (Term n)) : ℤ := computeDimension G false false

/-- `Frobby::codimension` (frobby.cpp:445-449). -/
def codimension (G : List (Term n)) : ℤ := n - dimension G

end Frobby
