import Verif.StrategyModel

/-!
# The attempts of `IndependencePivotSplit`

`getPivot` of `IndependencePivotSplit` with its loops and its flag; **StrategyModel** has only what comes of it.
-/

namespace Frobby.SplitChoice

open Frobby

variable {n : ℕ}

/-- `(*it)[var]`, which is inside the array for the variables that occur. -/
def at' (g : Term n) (v : ℕ) : ℕ := if h : v < n then g ⟨v, h⟩ else 0

/-- The loop over the generators (SplitStrategy.cpp:290-303), with the pivot and the flag `first`. The subtraction is one of
natural numbers. -/
def indepScan (v1 v2 : ℕ) (I : List (Term n)) (pivot : Term n) (first : Bool) : Term n × Bool :=
  I.foldl (fun st g =>
    if at' g v1 = 0 ∨ at' g v2 = 0 then st
    else if st.2 then (g, st.2)
    else (fun v => if st.1 v ≥ g v then g v - 1 else st.1 v, st.2)) (pivot, first)

/-- The attempts (SplitStrategy.cpp:280-307): `some` if one of them returns. -/
def indepAttempts (rnd : ℕ → ℕ) (I : List (Term n)) : ℕ → ℕ → Term n → Option (Term n)
  | 0, _, _ => none
  | k + 1, r, pivot =>
    let v1 := rnd r % n
    let v2 := rnd (r + 1) % (n - 1)
    let v2 := if v2 ≥ v1 then v2 + 1 else v2
    let (p, first) := indepScan v1 v2 I pivot true
    if !first && !decide (p = 0) then some p else indepAttempts rnd I k (r + 2) p

/-- `IndependencePivotSplit::getPivot` (SplitStrategy.cpp:274-310). `old` is what the pivot was before. -/
def indepPivot (rnd : ℕ → ℕ) (old : Term n) (I : List (Term n)) (lcm : Term n) : Option (Term n) :=
  if n = 1 then medianPivot I lcm
  else
    match indepAttempts rnd I 10 0 old with
    | some p => some p
    | none => medianPivot I lcm

end Frobby.SplitChoice
