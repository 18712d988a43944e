import Verif.IdealModel
import Verif.TextModel
import Verif.TranslatorModel

/-!
# Model of the comparison functions given to `std::sort`, and of `CanonicalTermConsumer`

Loops over the variables are recursions on the list of variables that are left.
-/

namespace Frobby

variable {n : ℕ}

/-! ## comparison of terms -/

/-- The loop of `lexCompare` (TermPredicate.cpp:50-64). -/
def lexCompareLoop (a b : Term n) : List (Fin n) → ℤ
  | [] => 0
  | v :: vs => if a v = b v then lexCompareLoop a b vs else if a v < b v then -1 else 1

/-- `lexCompare` (TermPredicate.cpp:50-64). -/
def lexCompare (a b : Term n) : ℤ := lexCompareLoop a b (List.finRange n)

/-- `reverseLexCompare` (TermPredicate.cpp:71-75). -/
def reverseLexCompare (a b : Term n) : ℤ := -lexCompare a b

/-- `LexComparator` (TermPredicate.h:104-107). -/
def lexLess (a b : Term n) : Bool := decide (lexCompare a b < 0)

/-- `ReverseLexComparator` (TermPredicate.h:118-121), and `Polynomial::CoefTerm::operator<` (Polynomial.cpp:101-104) on the
terms. -/
def reverseLexLess (a b : Term n) : Bool := decide (reverseLexCompare a b < 0)

/-- `RefCompare` of `HashPolynomial` (HashPolynomial.cpp:67-73). -/
def refLess (a b : Term n) : Bool := decide (lexCompare a b > 0)

/-- `SingleDegreeComparator` (TermPredicate.h:130-133). -/
def singleDegreeLess (v : Fin n) (a b : Term n) : Bool := decide (a v < b v)

/-- `ReverseSingleDegreeComparator` (TermPredicate.h:145-148). -/
def reverseSingleDegreeLess (v : Fin n) (a b : Term n) : Bool := decide (a v > b v)

/-- The loop of `TermTranslator::lessThanReverseLex` (TermTranslator.cpp:451-464). `e v i` is `getExponent(v, i)`. -/
def translatedLessLoop (e : Fin n → ℕ → ℤ) (a b : Term n) : List (Fin n) → Bool
  | [] => false
  | v :: vs => if e v (a v) ≠ e v (b v) then decide (e v (a v) > e v (b v)) else translatedLessLoop e a b vs

/-- `TranslatedReverseLexComparator` (TermTranslator.cpp:466-480). -/
def translatedLess (e : Fin n → ℕ → ℤ) (a b : Term n) : Bool := translatedLessLoop e a b (List.finRange n)

/-- The loop of `OffsetTermCompare` (BigIdeal.cpp:33-45) and `BigIdeal::bigTermCompare` (BigIdeal.cpp:349-359), over the
entries of both vectors. -/
def bigTermLess : List ℤ → List ℤ → Bool
  | x :: xs, y :: ys => if x > y then true else if x < y then false else bigTermLess xs ys
  | _, _ => false

/-- `BigPolynomial::compareCoefTermsReverseLex` (BigPolynomial.cpp:151-157), for terms of the same length. -/
def bigCoefTermLess (c d : ℤ) : List ℤ → List ℤ → Bool
  | x :: xs, y :: ys => if x ≠ y then decide (x > y) else bigCoefTermLess c d xs ys
  | _, _ => decide (c < d)

/-! ## comparison of texts, names and ideals -/

/-- `std::lexicographical_compare`. -/
def lexicographicalCompare {α : Type} (less : α → α → Bool) : List α → List α → Bool
  | [], [] => false
  | [], _ :: _ => true
  | _ :: _, [] => false
  | a :: as, b :: bs => if less a b then true else if less b a then false else lexicographicalCompare less as bs

/-- `operator<` of `std::string`. -/
def textLess (a b : Text) : Bool := lexicographicalCompare (fun c d : Char => decide (c.toNat < d.toNat)) a b

/-- `VarNames::operator<` (VarNames.cpp:75-81). -/
def namesLess (a b : List Text) : Bool := lexicographicalCompare textLess a b

/-- `idealLessThanImpl` (IdealComparator.cpp:33-50). -/
def idealLessImpl {α : Type} (less : α → α → Bool) : List α → List α → Bool
  | [], _ => false
  | _ :: _, [] => true
  | a :: as, b :: bs => if less a b then true else if less b a then false else idealLessImpl less as bs

/-- `idealLessThan` for `Ideal` (IdealComparator.cpp:61-65). -/
def idealLess (a b : List (Term n)) : Bool := idealLessImpl reverseLexLess a b

/-- `idealLessThan` for `Ideal` with a translator (IdealComparator.cpp:67-73). -/
def translatedIdealLess (e : Fin n → ℕ → ℤ) (a b : List (Term n)) : Bool := idealLessImpl (translatedLess e) a b

/-- `idealLessThan` for `BigIdeal` (IdealComparator.cpp:52-59): names and generators. -/
def bigIdealLess (a b : List Text × List (List ℤ)) : Bool :=
  if namesLess a.1 b.1 then true else if namesLess b.1 a.1 then false else idealLessImpl bigTermLess a.2 b.2

/-- The loop over the generators in `BigIdeal::operator<` (BigIdeal.cpp:172-187); the inner loop leaves the function, or goes
on if all exponents are equal. -/
def bigIdealOpLoop : List (List ℤ) → List (List ℤ) → Bool
  | [], _ => false
  | _ :: _, [] => true
  | a :: as, b :: bs => if bigTermLess a b then true else if bigTermLess b a then false else bigIdealOpLoop as bs

/-- `BigIdeal::operator<` (BigIdeal.cpp:166-190). -/
def bigIdealOpLess (a b : List Text × List (List ℤ)) : Bool :=
  if namesLess a.1 b.1 then true else if namesLess b.1 a.1 then false else bigIdealOpLoop a.2 b.2

/-! ## CanonicalTermConsumer -/

/-- The calls of a `TermConsumer` without `consumeRing`, which is passed on unchanged. -/
inductive TermEvent (n : ℕ)
  | beginList
  | doneList
  | begin
  | done
  | term (t : Term n)

/-- `_storingList` and `_ideals` of `CanonicalTermConsumer`. The last ideal is the head of the list here. -/
structure Canon (n : ℕ) where
  storing : Bool
  ideals : List (List (Term n))

/-- `passLastIdeal` (CanonicalTermConsumer.cpp:92-111) on the ideal; `srt` is the call of `sort` in `canonicalizeIdeal`
(113-120). -/
def passIdeal (srt : List (Term n) → List (Term n)) (I : List (Term n)) : List (TermEvent n) :=
  .begin :: (srt I).map .term ++ [.done]

/-- The calls (CanonicalTermConsumer.cpp:41-90): the state and the calls of the inner consumer. `none` is a call with no
ideal to use it on. `srt` and `srtIdeals` are what `sort` does on the range of terms and on the range of ideals; the latter
range is in reverse, so its first element is the last ideal. -/
def Canon.step (srt : List (Term n) → List (Term n)) (srtIdeals : List (List (Term n)) → List (List (Term n)))
    (s : Canon n) : TermEvent n → Option (Canon n × List (TermEvent n))
  | .beginList => some ({ s with storing := true }, [])
  | .begin => some ({ s with ideals := [] :: s.ideals }, [])
  | .term t =>
    match s.ideals with
    | [] => none
    | I :: Is => some ({ s with ideals := (I ++ [t]) :: Is }, [])
  | .done =>
    if s.storing then some (s, [])
    else
      match s.ideals with
      | [] => none
      | I :: Is => some ({ s with ideals := Is }, passIdeal srt I)
  | .doneList =>
    some ({ s with ideals := [] },
      .beginList :: (srtIdeals (s.ideals.map srt)).flatMap (passIdeal srt) ++ [.doneList])

/-- A sequence of calls. -/
def Canon.run (srt : List (Term n) → List (Term n)) (srtIdeals : List (List (Term n)) → List (List (Term n))) :
    Canon n → List (TermEvent n) → Option (List (TermEvent n))
  | _, [] => some []
  | s, e :: es =>
    match s.step srt srtIdeals e with
    | none => none
    | some (s', out) => (run srt srtIdeals s' es).map fun r => out ++ r

end Frobby
