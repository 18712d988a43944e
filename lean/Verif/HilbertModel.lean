import Verif.SliceModel

/-!
# Model of `HilbertBasecase` (src/HilbertBasecase.cpp) and `HilbertSlice::baseCase`
-/

namespace Frobby

variable {n : ℕ}

/-- `Ideal::getSupportCounts` (Ideal.cpp:227-234). -/
def supportCounts (G : List (Term n)) : Term n := fun v => G.countP fun g => decide (0 < g v)

/-- `HilbertBasecase::canSimplify` (HilbertBasecase.cpp:194-221). -/
def canSimplify (G : List (Term n)) (counts : Term n) (v : Fin n) : Bool :=
  decide (counts v ≠ 0 ∧ ∃ o, o ≠ v ∧ counts o ≠ 0 ∧ ∀ g ∈ G, ¬(g v = 0 ∧ 0 < g o))

/-- The second inner loop of `eliminate1Counts` (HilbertBasecase.cpp:245-252): `none` is the early exit. -/
def colonAll : List (Fin n) → List (Term n) → Option (List (Term n))
  | [], G => some G
  | o :: os, G =>
    let r := colonReminimizeVar o 1 G
    if r.2 then colonAll os r.1 else none

/-- `HilbertBasecase::eliminate1Counts` (HilbertBasecase.cpp:223-273). Returns the new ideal, `negate` and the
returned value. -/
def eliminate1Counts (G : List (Term n)) (counts : Term n) (negate : Bool) : List (Term n) × Bool × ℕ :=
  match (List.finRange n).find? fun v => decide (counts v = 1) with
  | some v =>
    match G.find? fun g => decide (0 < g v) with
    | none => (G, negate, 0)  -- excluded by the assertion in line 232
    | some it =>
      let others := (List.finRange n).filter fun o => decide (0 < it o ∧ counts o ≠ 1 ∧ 0 < counts o)
      match colonAll others G with
      | none => ([], negate, 1)
      | some G' =>
        match G'.find? fun g => decide (0 < g v) with
        | none => ([], negate, 1)
        | some it' => (G'.erase it', !negate, Term.sizeOfSupport it)
  | none =>
    match (List.finRange n).find? fun v => canSimplify G counts v with
    | some v =>
      let r := colonReminimizeVar v 1 G
      (if r.2 then r.1 else [], negate, 1)
    | none => (G, negate, 0)

/-- `±1`, as `++_sum` and `--_sum`. -/
def sgn (negate : Bool) : ℤ := if negate then -1 else 1

/-- `HilbertBasecase::stepComputation` and the loop over `_todo` of `computeCoefficient`
(HilbertBasecase.cpp:42-188): what one entry adds to `_sum`. The stack `_todo` is replaced by recursion;
entries only interact through the sum. Every round raises `extra`, so `n + 2` rounds suffice; `none` is running
out of fuel. -/
def hbCoef : ℕ → Bool → ℕ → List (Term n) → Option ℤ
  | 0, _, _, _ => none
  | fuel + 1, negate, extra, G =>
    let counts := supportCounts G
    if Term.sizeOfSupport counts + extra ≠ n then some 0
    else if Term.isSquareFree counts then some (sgn (if G.length % 2 = 1 then !negate else negate))
    else if G.length = 2 then some (sgn negate)
    else
      let e := eliminate1Counts G counts negate
      if e.2.2 ≠ 0 then hbCoef fuel e.2.1 (extra + e.2.2) e.1
      else if G.length = 3 then some (2 * sgn negate)
      else
        match firstMax? counts with
        | none => none  -- no variables; excluded since the counts are not square free
        | some v =>
          if G.length = 4 ∧ counts v = 2 ∧ Term.sizeOfSupport counts = 4 then some (-sgn negate)
          else
            match hbCoef fuel negate (extra + 1) (colonReminimizeVar v 1 G).1,
              hbCoef fuel (!negate) (extra + 1) (G.filter fun g => decide (g v < 1)) with
            | some a, some b => some (a + b)
            | _, _ => none

/-- `HilbertBasecase::computeCoefficient` (HilbertBasecase.cpp:131-188). -/
def computeCoefficient (G : List (Term n)) : Option ℤ := hbCoef (n + 2) false 0 G

/-- `HilbertSlice::baseCase` (HilbertSlice.cpp:37-63): `some` of the emitted terms, or `none` if this is not a base
case. -/
def Slice.hilbertBaseCase (s : Slice n) : Option (List (ℤ × Term n)) :=
  if Term.sizeOfSupport s.getLcm < n then some []
  else if ¬ Term.isSquareFree s.getLcm then none
  else if n = 0 then some []
  else
    match computeCoefficient s.ideal with
    | none => some []  -- not reached, see `computeCoefficient_spec`
    | some c => if c ≠ 0 then some [(c, s.multiply)] else some []

end Frobby
