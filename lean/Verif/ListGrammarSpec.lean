import Verif.GrammarSpec

/-!
# Specification: what the texts of lists of ideals mean
-/

namespace Frobby

/-- The text of a ring in a format. In 4ti2 it starts with the number 42. -/
def ringG (f : IOFormat) (names : List Text) : Gram :=
  match f with
  | .m2 => ringM2G names
  | .cocoa4 => ringCoCoAG names
  | .singular => ringSingularG names
  | .monos => ringMonosG names
  | .newmonos => lit t!"(" ⊹ lit t!"lex-order" ⊹ manyNamesG names ⊹ lit t!")"
  | .fourti2 => sizeG 42 ⊹ lit t!"ring" ⊹ manyNamesG names

/-- The text of an ideal whose ring has been written before. In the new format of Monos and in 4ti2 there is no such text. -/
def bareG (f : IOFormat) (names : List Text) (terms : List (List ℕ)) : Gram :=
  match f with
  | .m2 => bareM2G names terms
  | .cocoa4 => bareCoCoAG names terms
  | .singular => bareSingularG names terms
  | .monos => bareMonosG names terms
  | _ => fun _ _ => False

/-- Ideals one after the other: each of them is written with its ring, or it is in the ring of the ideal before it. -/
inductive MoreG (f : IOFormat) : List Text → List NamedIdeal → Gram
  | nil {names : List Text} {t : Text} : MoreG f names [] t t
  | same {names : List Text} {terms : List (List ℕ)} {Is : List NamedIdeal} {t u r : Text} :
      bareG f names terms t u → MoreG f names Is u r → MoreG f names (⟨names, terms⟩ :: Is) t r
  | ring {names : List Text} {I : NamedIdeal} {Is : List NamedIdeal} {t u r : Text} :
      idealG f I t u → MoreG f I.names Is u r → MoreG f names (I :: Is) t r

/-- A whole text that means a list of ideals: ideals, of which the first one is written with its ring, or only a ring. `names` is the ring if there are no
ideals. -/
def MeansList (f : IOFormat) (t : Text) (Is : List NamedIdeal) (names : List Text) : Prop :=
  match Is with
  | [] => (ringG f names ⊹ lit []) t []
  | I :: Is => (idealG f I ⊹ MoreG f I.names Is ⊹ lit []) t []

end Frobby
