import Verif.PropsIntersect
import Mathlib.Logic.Equiv.Basic

/-!
# What the options of the action `transform` mean

A generator is a function from names to exponents here, so that the order of the variables does not matter.
-/

namespace Frobby

/-- The exponent of the variable with name `x`, and zero if there is no such variable. -/
def expOf (names : List Text) (t : List ℕ) (x : Text) : ℕ := t.getD (names.idxOf x) 0

/-- The generators, as functions of the name of the variable. -/
def NamedIdeal.monomials (I : NamedIdeal) : List (Text → ℕ) := I.terms.map (expOf I.names)

/-- The power of one variable. -/
def powerOf (x : Text) (e : ℕ) : Text → ℕ := fun y => if y = x then e else 0

/-- The largest exponent of a variable. -/
def NamedIdeal.maxExp (I : NamedIdeal) (x : Text) : ℕ := (I.monomials.map fun f => f x).foldr max 0

/-- A power of the variable is in the ideal. -/
def NamedIdeal.HasPower (I : NamedIdeal) (x : Text) : Prop := ∃ e, I.mem (powerOf x e)

/-- The same variables and the same generators, in any order. -/
def NamedIdeal.Same (I J : NamedIdeal) : Prop := I.names.Perm J.names ∧ I.monomials.Perm J.monomials

/-- The same ideals, in any order and each up to the order of its variables and generators. -/
def SameIdeals (Is Js : List NamedIdeal) : Prop := ∃ Ks, List.Perm Ks Js ∧ List.Forall₂ NamedIdeal.Same Is Ks

/-- Two ideals in the same ring that have the same elements. -/
def NamedIdeal.SameSet (I J : NamedIdeal) : Prop := I.names.Perm J.names ∧ ∀ m, I.mem m ↔ J.mem m

/-- The same ideals, as sets and in any order. -/
def SameSets (Is Js : List NamedIdeal) : Prop := ∃ Ks, List.Perm Ks Js ∧ List.Forall₂ NamedIdeal.SameSet Is Ks

/-- The exponents of generator `i`. -/
def NamedIdeal.entry (I : NamedIdeal) (i v : ℕ) : ℕ := (I.terms.getD i []).getD v 0

/-- All ideals are in the ring. -/
def OneRing (names : List Text) (Is : List NamedIdeal) : Prop := ∀ I ∈ Is, I.Ok ∧ I.names = names

/-! ## single options -/

namespace NamedIdeal

/-- Each generator is replaced by the product of the variables that divide it. -/
structure RadicalOf (I J : NamedIdeal) : Prop where
  ok : J.Ok
  names : J.names = I.names
  gens : J.monomials = I.monomials.map fun f x => min 1 (f x)

/-- The exponents 0 and 1 are exchanged. -/
structure SwapOf (I J : NamedIdeal) : Prop where
  ok : J.Ok
  names : J.names = I.names
  gens : J.monomials = I.monomials.map fun f x => if x ∈ I.names then Equiv.swap 0 1 (f x) else 0

/-- Only the minimal generators are left. -/
structure MinimizedOf (I J : NamedIdeal) : Prop where
  ok : J.Ok
  names : J.names = I.names
  minimal : J.Minimal
  mem : ∀ m, J.mem m ↔ I.mem m
  subset : ∀ f ∈ J.monomials, f ∈ I.monomials

/-- A generic deformation: the order of exponents is kept and no exponent other than 0 appears for two generators. -/
structure DeformationOf (I J : NamedIdeal) : Prop where
  ok : J.Ok
  names : J.names = I.names
  length : J.terms.length = I.terms.length
  zero : ∀ v < I.names.length, ∀ i < I.terms.length, J.entry i v = 0 ↔ I.entry i v = 0
  order : ∀ v < I.names.length, ∀ i < I.terms.length, ∀ j < I.terms.length, I.entry i v < I.entry j v → J.entry i v < J.entry j v
  generic : ∀ v < I.names.length, ∀ i < I.terms.length, ∀ j < I.terms.length, i ≠ j → J.entry i v = J.entry j v → J.entry i v = 0

/-- A power of each variable that has no power in the ideal is added, with an exponent one larger than the largest exponent. -/
structure PowersAdded (I J : NamedIdeal) : Prop where
  ok : J.Ok
  names : J.names = I.names
  gens : ∃ X : List Text, X.Nodup ∧ (∀ x, x ∈ X ↔ x ∈ I.names ∧ ¬ I.HasPower x) ∧
    J.monomials = I.monomials ++ X.map fun x => powerOf x (I.maxExp x + 1)

/-- The variables are in increasing order and the monomials are the same. -/
structure VarsSorted (I J : NamedIdeal) : Prop where
  ok : J.Ok
  names : J.names.Perm I.names
  sorted : J.names.Pairwise (· < ·)
  gens : J.monomials = I.monomials

/-- The generators are in decreasing lexicographic order. -/
structure GensSorted (I J : NamedIdeal) : Prop where
  ok : J.Ok
  names : J.names = I.names
  gens : J.terms.Perm I.terms
  sorted : J.terms.Pairwise fun a b => b ≤ a

/-- The generators are in decreasing lexicographic order, each only once. -/
structure GensUnique (I J : NamedIdeal) : Prop where
  ok : J.Ok
  names : J.names = I.names
  gens : ∀ t, t ∈ J.terms ↔ t ∈ I.terms
  sorted : J.terms.Pairwise fun a b => b < a

/-- Variables and generators are exchanged. -/
structure TransposeOf (I J : NamedIdeal) : Prop where
  ok : J.Ok
  names : J.names.length = I.terms.length
  gens : J.terms.length = I.names.length
  entry : ∀ i < I.terms.length, ∀ v < I.names.length, J.entry v i = I.entry i v

end NamedIdeal

/-- One variable is removed. -/
structure ProjectedOf (x : Text) (I J : NamedIdeal) : Prop where
  ok : J.Ok
  names : J.names = I.names.erase x
  gens : J.monomials = I.monomials.map fun f => Function.update f x 0

/-! ## all options -/

/-- A step that is made only under a condition. -/
def Step {α : Type} (c : Prop) (R : α → α → Prop) (a b : α) : Prop := (c → R a b) ∧ (¬ c → b = a)

/-- A ring and ideals. -/
abbrev RingIdeals := List Text × List NamedIdeal

/-- The variable with number `i` is removed. -/
def Projected (i : ℕ) (s s' : RingIdeals) : Prop :=
  s'.1 = s.1.erase (s.1.getD i []) ∧ List.Forall₂ (ProjectedOf (s.1.getD i [])) s.2 s'.2

/-- The ideal that is generated by one product for each ideal: the product of its generators. -/
def ProductOf (s s' : RingIdeals) : Prop :=
  s'.1 = s.1 ∧ ∃ J : NamedIdeal, s'.2 = [J] ∧ J.Ok ∧ J.names = s.1 ∧ J.monomials = s.2.map fun I x => (I.monomials.map fun f => f x).sum

/-- The variables that divide no generator of any ideal are removed. -/
def Trimmed (s s' : RingIdeals) : Prop :=
  s'.1.Sublist s.1 ∧ (∀ x, x ∈ s'.1 ↔ x ∈ s.1 ∧ ∃ I ∈ s.2, ∃ f ∈ I.monomials, f x ≠ 0) ∧
    List.Forall₂ (fun I J => J.Ok ∧ J.names = s'.1 ∧ J.monomials = I.monomials) s.2 s'.2

end Frobby
