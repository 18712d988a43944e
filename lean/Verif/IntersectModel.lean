import Verif.TranslatorModel
import Verif.FactoryModel

/-!
# Model of the intersection of ideals (src/IntersectFacade.cpp, src/intersect.cpp)

The ideals may have different variables, so the names are part of this model.
-/

namespace Frobby

/-- `BigIdeal`: the names of the variables and the exponents of the generators. -/
structure NamedIdeal where
  names : List Text
  terms : List (List ℕ)
deriving DecidableEq

/-- The loop of `TermTranslator::initialize` that collects names (TermTranslator.cpp:170-177): an ideal with the names of
the one before is skipped. -/
def collectNames : (prev : Option (List Text)) → List NamedIdeal → List Text
  | _, [] => []
  | prev, I :: Is => if prev = some I.names then collectNames (some I.names) Is else I.names ++ collectNames (some I.names) Is

/-- `std::unique` on names. -/
def uniqueTexts : List Text → List Text
  | a :: b :: l => if a = b then uniqueTexts (b :: l) else a :: uniqueTexts (b :: l)
  | l => l

/-- The names of the translator (TermTranslator.cpp:169-188). They are distinct, so `addVar` adds each of them. -/
def mergedNames (Is : List NamedIdeal) : List Text := uniqueTexts (sortTexts (collectNames none Is))

/-- The exponents `extractExponents` looks at for a variable (TermTranslator.cpp:109-127): ideals without the variable are
skipped. -/
def varExponents (Is : List NamedIdeal) (x : Text) : List ℕ :=
  Is.flatMap fun I =>
    match I.names.idxOf? x with
    | none => []
    | some i => I.terms.map fun t => t.getD i 0

/-- `TermTranslator::initialize` (TermTranslator.cpp:165-197) with `sortVars`. -/
def mergedTranslator (Is : List NamedIdeal) : Translator (mergedNames Is).length :=
  fun v => (idList (varExponents Is (mergedNames Is)[v]) ++ [0]).map Int.ofNat

/-- The places of the variables of an ideal (TermTranslator.cpp:203-218); `none` is a name that is not there. -/
def newVars (names : List Text) (I : NamedIdeal) : Option (List ℕ) :=
  if I.names = names then some (List.range I.names.length) else I.names.mapM fun x => names.idxOf? x

/-- The loop over the variables in `shrinkBigIdeal` (TermTranslator.cpp:225-228). The term is that of the generator before;
entries that are not written keep their value. -/
def shrinkInto {N : ℕ} (T : Translator N) (term : Term N) : List (ℕ × ℕ) → Option (Term N)
  | [] => some term
  | (v, e) :: l =>
    if h : v < N then shrinkInto T (Function.update term ⟨v, h⟩ (T.shrinkExponent ⟨v, h⟩ e)) l else none

/-- The loop over the generators in `shrinkBigIdeal` (TermTranslator.cpp:221-230). -/
def shrinkAll {N : ℕ} (T : Translator N) (vars : List ℕ) : Term N → List (List ℕ) → Option (List (Term N))
  | _, [] => some []
  | term, t :: ts =>
    match shrinkInto T term (vars.zip t) with
    | none => none
    | some u => (shrinkAll T vars u ts).map (u :: ·)

/-- `TermTranslator::shrinkBigIdeal` (TermTranslator.cpp:199-230). -/
def shrinkNamed (names : List Text) (T : Translator names.length) (I : NamedIdeal) : Option (List (Term names.length)) :=
  match newVars names I with
  | none => none
  | some vars => shrinkAll T vars 0 I.terms

/-- `intersect` (intersect.cpp:23-36). -/
def intersectTwo {n : ℕ} (a b : List (Term n)) : List (Term n) :=
  minimize (a.flatMap fun x => b.map fun y => x ⊔ y)

/-- `IntersectFacade::intersect` (IntersectFacade.cpp:34-69) with `BigIdeal::insert` (BigIdeal.cpp:71-81). `none` is access
out of range. -/
def facadeIntersect (Is : List NamedIdeal) (emptyNames : List Text) : Option (List Text × List (List ℤ)) :=
  if Is = [] then some (emptyNames, [List.replicate emptyNames.length 0])
  else
    match Is.mapM (shrinkNamed (mergedNames Is) (mergedTranslator Is)) with
    | none => none
    | some Js =>
      ((Js.foldl (fun acc J => intersectTwo acc (minimize J)) [0]).mapM (mergedTranslator Is).translate).map fun ts =>
        (mergedNames Is, ts.map List.ofFn)

end Frobby
