import Verif.StatModel

/-!
# What the statistics and the debug output should say

Stated with lists of slices only: no trackers and no maps.
-/

namespace Frobby.Stat

/-- The logarithm under which a slice belongs; slices without generators belong under zero. -/
def classOf (lg : ℕ → ℕ) (x : Sizes) : ℕ := if x.gens = 0 then 0 else lg x.gens

/-- The report is right for the slices of the given sizes: the count, the sums over the count, and for each logarithm from
the largest one down to zero how many slices have it. -/
structure Describes (lg : ℕ → ℕ) (r : Report) (l : List Sizes) : Prop where
  nodes : r.nodes = l.length
  averages : r.averages = if l = [] then none else
    some (((l.map Sizes.gens).sum, l.length), ((l.map Sizes.sub).sum, l.length), ((l.map Sizes.vars).sum, l.length))
  empty : l = [] → r.lines = []
  lines : l ≠ [] → ∃ top,
    (∃ x ∈ l, classOf lg x = top) ∧ (∀ x ∈ l, classOf lg x ≤ top) ∧
    r.lines = ((List.range (top + 1)).reverse).map fun k => (l.countP fun x => classOf lg x = k, k)

variable {S O : Type}

/-- The sizes of those of the slices that are base cases, or of those that are not. -/
def sizesOf (a : Alg S O) (base : Bool) (l : List S) : List Sizes :=
  (l.filter fun s => (a.work s).base = base).map a.sizes

/-- What a user of the option for statistics expects: the last thing that is printed is a right report about the slices
that were processed. -/
def ReportIsRight (lg : ℕ → ℕ) (a : Alg S O) (st : State S O) : Prop :=
  ∃ internal leaf, st.printed.getLast? = some (Line.statistics internal leaf) ∧
    Describes lg internal (sizesOf a false st.seen) ∧ Describes lg leaf (sizesOf a true st.seen)

/-- What a user of the option for debug output expects: a line for each slice that is processed, and one for what it was
found to be. -/
def DebugIsRight (a : Alg S O) (st : State S O) : Prop :=
  (st.printed.filter fun l => l = Line.processing).length = st.seen.length ∧
  (st.printed.filter fun l => l = Line.base).length = (st.seen.filter fun s => (a.work s).base).length

/-- The slices are given to a strategy one after the other. -/
def processEach (lg : ℕ → ℕ) (a : Alg S O) (t : Strategy) (l : List S) (st : State S O) : State S O :=
  l.foldl (fun st s => (processSlice lg a t s st).2) st

end Frobby.Stat
