import Verif.TransformSpec

/-!
# What the actions on monomial ideals are to print

Monomials are functions from names to exponents here, so that the order of the variables does not matter.
-/

namespace Frobby

namespace NamedIdeal

/-- The monomial is not in the ideal and its product with any variable is. -/
structure MaxStandard (I : NamedIdeal) (f : Text → ℕ) : Prop where
  outside : ∀ x, x ∉ I.names → f x = 0
  standard : ¬ I.mem f
  maximal : ∀ x ∈ I.names, I.mem fun y => f y + powerOf x 1 y

/-- The ideal is generated by the powers of variables that `d` tells, without those with exponent zero. -/
def PowersOf (J : NamedIdeal) (d : Text → ℕ) : Prop := J.monomials = (J.names.filter fun x => decide (d x ≠ 0)).map fun x => powerOf x (d x)

/-- The monomial is in the ideal that is generated by the powers of variables that `d` tells. -/
def InPowers (d m : Text → ℕ) : Prop := ∃ x, 0 < d x ∧ d x ≤ m x

/-- Each monomial stands for the ideal generated by the powers in it. These ideals are the irredundant irreducible decomposition. -/
structure EncodedDecom (I : NamedIdeal) (D : List (Text → ℕ)) : Prop where
  outside : ∀ d ∈ D, ∀ x, x ∉ I.names → d x = 0
  inter : ∀ m, I.mem m ↔ ∀ d ∈ D, InPowers d m
  irredundant : ∀ d ∈ D, ∃ m, ¬ InPowers d m ∧ ∀ d' ∈ D, d' ≠ d → InPowers d' m
  nodup : D.Nodup

/-- The ideals are irreducible, their intersection is the ideal and none of them can be left out. -/
structure IrreducibleDecom (I : NamedIdeal) (Js : List NamedIdeal) : Prop where
  ring : ∀ J ∈ Js, J.Ok ∧ J.names.Perm I.names
  irreducible : ∀ J ∈ Js, ∃ d, J.PowersOf d
  inter : ∀ m, I.mem m ↔ ∀ J ∈ Js, J.mem m
  irredundant : ∀ A J B, Js = A ++ J :: B → ∃ m, ¬ J.mem m ∧ ∀ K ∈ A ++ B, K.mem m

/-- The monomial is the product of the variables of an associated prime. -/
structure AssocPrime (I : NamedIdeal) (f : Text → ℕ) : Prop where
  outside : ∀ x, x ∉ I.names → f x = 0
  squareFree : ∀ x, f x ≤ 1
  witness : ∃ m : Text → ℕ, ∀ y : Text → ℕ, I.mem (fun x => m x + y x) ↔ ∃ x, f x = 1 ∧ 0 < y x

/-- `J` is the Alexander dual of `I` with respect to `a`, by its minimal generators. -/
structure DualOf (I : NamedIdeal) (a : Text → ℕ) (J : NamedIdeal) : Prop where
  ok : J.Ok
  names : J.names.Perm I.names
  minimal : J.Minimal
  mem : ∀ m, J.mem m ↔ ¬ I.mem fun x => a x - m x

/-- A proper ideal that has, with each product of two monomials, the first of them or a power of the second one. -/
structure Primary (J : NamedIdeal) : Prop where
  proper : ¬ J.mem fun _ => 0
  power : ∀ f g : Text → ℕ, J.mem (fun x => f x + g x) → ¬ J.mem f → ∃ k : ℕ, J.mem fun x => k * g x

/-- The ideals are primary and given by their minimal generators, their intersection is the ideal and none of them can be left out. -/
structure PrimaryDecom (I : NamedIdeal) (Js : List NamedIdeal) : Prop where
  ring : ∀ J ∈ Js, J.Ok ∧ J.names.Perm I.names
  minimal : ∀ J ∈ Js, J.Minimal
  primary : ∀ J ∈ Js, J.Primary
  inter : ∀ m, I.mem m ↔ ∀ J ∈ Js, J.mem m
  irredundant : ∀ A J B, Js = A ++ J :: B → ∃ m, ¬ J.mem m ∧ ∀ K ∈ A ++ B, K.mem m

/-- The variables are in increasing order and the generators in decreasing lexicographic order. -/
structure Canonical (J : NamedIdeal) : Prop where
  names : J.names.Pairwise (· < ·)
  gens : J.terms.Pairwise fun a b => b ≤ a

end NamedIdeal

end Frobby
