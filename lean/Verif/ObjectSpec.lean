import Verif.ObjectModel

/-!
# Specification: ideals are values

An ideal is a number of variables and a list of vectors of exponents. There are no addresses here.
-/

namespace Frobby

/-- `x ^ u` divides `x ^ v`. -/
def divisor (u v : List ℕ) : Bool := (u.zip v).all fun p => decide (p.1 ≤ p.2)

/-- `x ^ u` divides `x ^ v` strictly: `v` is not zero, and where `u` is not zero, `v` is larger. -/
def strictDivisor (u v : List ℕ) : Bool := ((u.zip v).all fun p => decide (p.1 = 0 ∨ p.1 < p.2)) && (u.zip v).any fun p => decide (p.2 ≠ 0)

/-- The values of the ideals that live. -/
abbrev IdealValues := ℕ → Option (ℕ × List (List ℕ))

/-- No ideals. -/
def noObjects : IdealValues := fun _ => none

namespace IdealValues

/-- The value of an argument with `n` exponents. -/
def operand (V : IdealValues) (n : ℕ) : Operand → Option (List ℕ)
  | .vec v => if v.length = n then some v else none
  | .gen y i => do
    let I ← V y
    if I.1 = n then I.2[i]? else none

/-- One ideal gets another value, which may depend on its value. -/
def apply (V : IdealValues) (x : ℕ) (f : ℕ → List (List ℕ) → Option (List (List ℕ))) : Option IdealValues := do
  let I ← V x
  let L ← f I.1 I.2
  some (Function.update V x (some (I.1, L)))

/-- What a step means. `none`: the step is not allowed. -/
def step (V : IdealValues) : ObjectOp → Option IdealValues
  | .create x n => if V x = none then some (Function.update V x (some (n, []))) else none
  | .copy x y => if V x = none then (V y).map fun I => Function.update V x (some I) else none
  | .assign x y => (V x).bind fun _ => (V y).map fun I => Function.update V x (some I)
  | .swap x y => (V x).bind fun I => (V y).map fun J => Function.update (Function.update V x (some J)) y (some I)
  | .destroy x => (V x).map fun _ => Function.update V x none
  | .clear x n => (V x).map fun _ => Function.update V x (some (n, []))
  | .insert x b => V.apply x fun n L => (V.operand n b).map fun v => L ++ [v]
  | .insertPower x var e => V.apply x fun n L => if var < n then some (L ++ [(List.replicate n 0).set var e]) else none
  | .insertAll x y => V.apply x fun n L => (V y).bind fun J => if J.1 = n then some (L ++ J.2) else none
  | .insertNonMultiples x b y => V.apply x fun n L => (V.operand n b).bind fun v => (V y).bind fun J =>
    if J.1 = n then some (L ++ J.2.filter fun w => !divisor v w) else none
  | .insertNonMultiplesOfPower x var e y => V.apply x fun n L => (V y).bind fun J =>
    if var < n ∧ J.1 = n then some (L ++ J.2.filter fun w => decide (w.getD var 0 < e)) else none
  | .insertReminimize x b => V.apply x fun n L => (V.operand n b).map fun v =>
    if L.any fun w => divisor w v then L else L.filter (fun w => !divisor v w) ++ [v]
  | .insertReminimizePower x var e => V.apply x fun n L =>
    if var < n then some (L.filter (fun w => decide (w.getD var 0 < e)) ++ [(List.replicate n 0).set var e]) else none
  | .product x b => V.apply x fun n L => (V.operand n b).map fun v => L.map fun w => List.zipWith (· + ·) w v
  | .colon x b => V.apply x fun n L => (V.operand n b).map fun v => L.map fun w => List.zipWith (· - ·) w v
  | .colonPower x var e => V.apply x fun n L => if var < n then some (L.map fun w => w.set var (w.getD var 0 - e)) else none
  | .toZero x b => V.apply x fun n L => (V.operand n b).map fun v => L.map fun w => List.zipWith (fun c z => if c = z then 0 else c) w v
  | .radical x => V.apply x fun _ L => some (L.map fun w => w.map fun c => min c 1)
  | .removeMultiples x b => V.apply x fun n L => (V.operand n b).map fun v => L.filter fun w => !divisor v w
  | .removeMultiplesOfPower x var e => V.apply x fun n L => if var < n then some (L.filter fun w => decide (w.getD var 0 < e)) else none
  | .removeStrictMultiples x b => V.apply x fun n L => (V.operand n b).map fun v => L.filter fun w => !strictDivisor v w
  | .remove x i => V.apply x fun _ L =>
    if h : i < L.length then some (if i + 1 = L.length then L.take i else L.take i ++ [L.getLast (by intro e; simp [e] at h)] ++ (L.drop (i + 1)).dropLast) else none
  | .arrange x is => V.apply x fun _ L => if is.Nodup ∧ ∀ i ∈ is, i < L.length then some (is.map fun i => L.getD i []) else none

/-- A program. -/
def run : List ObjectOp → IdealValues → Option IdealValues
  | [], V => some V
  | op :: ops, V => (V.step op).bind (run ops)

end IdealValues

/-- The argument does not point into the ideal. -/
def Operand.Outside (x : ℕ) : Operand → Prop
  | .vec _ => True
  | .gen y _ => y ≠ x

/-- The calls that are not safe: assigning an ideal to itself, changing an ideal in place by one of its own generators, and inserting some of the
generators of the ideal itself. -/
def ObjectOp.Safe : ObjectOp → Prop
  | .assign x y => x ≠ y
  | .product x b | .colon x b | .toZero x b => b.Outside x
  | .insertNonMultiples x _ y | .insertNonMultiplesOfPower x _ _ y => x ≠ y
  | _ => True

end Frobby
