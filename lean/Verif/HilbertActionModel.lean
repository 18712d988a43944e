import Verif.ActionModel
import Verif.BigattiModel
import Verif.ScarfModel
import Verif.HilbertApiModel
import Verif.PolyIOModel

/-!
# Model of the action `hilbert` (src/HilbertAction.cpp)

What the algorithms do is modelled elsewhere. Here is the way from the text that is read to the text that is written.
-/

namespace Frobby

variable {n : ℕ}

/-- The options (HilbertAction.cpp:44-62, SliceParameters.cpp:25-110, ScarfParams.cpp:25-68). -/
structure HilbertOpts where
  algorithm : Text := t!"bigatti"
  univariate : Bool := false
  split : Text := t!"median"
  simplify : Bool := true
  independence : Bool := true
  genericBase : Bool := true
  widenPivot : Bool := true
  enumeration : Text := t!"revlex"
  deformation : Text := t!"tdeg_lex"
  deformStrong : Bool := false
  canon : Bool := false
  minimal : Bool := false

/-- What the result depends on besides the input: the random numbers, the orders in which the hash tables are traversed and the random
shuffle of generators. -/
structure HilbertEnv where
  rnd : List ℕ → ℕ → ℕ
  hash : ∀ n, List (ℤ × Term n) → List (ℤ × Term n)
  hashUni : List (ℤ × ℤ) → List (ℤ × ℤ)
  shuffle : ∀ n, List (Term n) → List (Term n)

/-- `makeStrategyFactory` (BigattiPivotStrategy.cpp:415-436). -/
def pivotFactory : Factory BPivot :=
  [("median".toList, .median),
    ("typicalPure".toList, .generic .typical .pure), ("typicalNGPure".toList, .generic .typicalNG .pure),
    ("mostNGPure".toList, .generic .mostNG .pure), ("someNGPure".toList, .generic .someNG .pure),
    ("typicalGcd".toList, .generic .typical .gcd), ("typicalNGGcd".toList, .generic .typicalNG .gcd),
    ("mostNGGcd".toList, .generic .mostNG .gcd), ("someNGGcd".toList, .generic .someNG .gcd),
    ("typicalTight".toList, .generic .typical .tight), ("typicalNGTight".toList, .generic .typicalNG .tight),
    ("mostNGTight".toList, .generic .mostNG .tight), ("someNGTight".toList, .generic .someNG .tight)]

/-- `BigattiPivotStrategy::createStrategy` without the widening (BigattiPivotStrategy.cpp:439-443). `none` is that an exception is thrown. -/
def createPivot (name : Text) : Option BPivot :=
  match pivotFactory.createWithPrefix name with
  | .ok s => s
  | .error _ => none

/-- `createIdealOrderer` (IdealOrderer.cpp:280-296). `none` is that an exception is thrown. -/
def createOrders (name : Text) : Option (List PartOrder) :=
  match createIdealOrderer name with
  | .ok s => s
  | .error _ => none

/-- The algorithm with its options. -/
inductive HilbertAlg
  | bigatti (o : BOpts)
  | slice (o : Opts)
  | deform (strong : Bool) (enumeration deformation : List PartOrder)

/-- The choice of the algorithm in `HilbertAction::perform` (HilbertAction.cpp:65-89), with the parameters (BigattiParams.cpp:39-44,
SliceParams.cpp:50-59, ScarfParams.cpp:70-80) and the strategies that the facades look up by name before they read anything
(BigattiFacade.cpp:27-28, SliceFacade.cpp:53, ScarfFacade.cpp:33-36). `none` is that an error is reported. -/
def hilbertAlg (o : HilbertOpts) : Option HilbertAlg :=
  if o.algorithm = t!"bigatti" then
    (createPivot o.split).map fun p => .bigatti { simp := o.simplify, generic := o.genericBase, pivot := p, widen := o.widenPivot }
  else if o.algorithm = t!"slice" then
    (validateSplit o.split false false).map fun s => .slice { simp := o.simplify, indep := o.independence, split := s }
  else if o.algorithm = t!"deform" then
    (createOrders o.enumeration).bind fun a => (createOrders o.deformation).map fun b => .deform o.deformStrong a b
  else none

/-- The formats in which `createPolynomialWriter` does not report an error (IOHandler.cpp:110-120). -/
def polyFormat : IOFormat → Option PolyFormat
  | .m2 => some .m2
  | .cocoa4 => some .cocoa4
  | .singular => some .singular
  | .fourti2 => some .fourti2
  | .monos => none
  | .newmonos => none

/-- The terms that are consumed together with the translator: by `HashPolynomial::feedTo` (HashPolynomial.cpp:76-115) for
`BigattiFacade::computeMultigradedHilbertSeries` (BigattiFacade.cpp:38-50) and `ScarfFacade::computeMultigradedHilbertSeries`
(ScarfFacade.cpp:44-58), and by the consumer of `makeTranslatedPolyConsumer` (CommonParamsHelper.cpp:149-157,
CanonicalCoefTermConsumer.cpp:36-52) for `SliceFacade::computeMultigradedHilbertSeries` (SliceFacade.cpp:78-91). -/
def hilbertTerms (env : HilbertEnv) (canon : Bool) (p : Prepared n) : HilbertAlg → Option (List (ℤ × Term n))
  | .bigatti o => (bigattiRun none o p.ideal).bind fun outs =>
      (outs.foldlM BOut.addTo []).map fun m => hashFeed (fun a b => lexLE b a) (env.hash n) canon m
  | .slice o => (hilbertRun o env.rnd p.ideal).map fun outs => if canon then polySort true (outs.foldl (fun q x => polyAdd x.1 x.2 q) []) else outs
  | .deform strong a b => (scarfRun ⟨strong, runOrders (env.shuffle n) a, runOrders (env.shuffle n) b⟩ p.ideal).map fun outs =>
      hashFeed (fun a b => lexLE b a) (env.hash n) canon (outs.foldl (fun m x => hashAdd x.1 x.2 m) [])

/-- The terms that are consumed by `UniHashPolynomial::feedTo` (UniHashPolynomial.cpp:64-108) for
`BigattiFacade::computeUnivariateHilbertSeries` (BigattiFacade.cpp:52-64), `ScarfFacade::computeUnivariateHilbertSeries`
(ScarfFacade.cpp:60-74) and `SliceFacade::computeUnivariateHilbertSeries` (SliceFacade.cpp:93-107), where they are always sorted
(TotalDegreeCoefTermConsumer.cpp:48-64). -/
def hilbertUniTerms (env : HilbertEnv) (canon : Bool) (p : Prepared n) : HilbertAlg → Option (List (ℤ × ℤ))
  | .bigatti o => (bigattiRun (some p.translator) o p.ideal).bind fun outs =>
      (outs.foldlM (BOut.addToUni p.translator) []).map fun m => hashFeed (· ≥ ·) env.hashUni canon m
  | .slice o => (hilbertRun o env.rnd p.ideal).bind fun outs =>
      (outs.foldlM (totalDegreeConsume p.translator) []).map fun m => hashFeed (· ≥ ·) env.hashUni true m
  | .deform strong a b => (scarfRun ⟨strong, runOrders (env.shuffle n) a, runOrders (env.shuffle n) b⟩ p.ideal).bind fun outs =>
      (outs.mapM fun x => (translatedDegree p.translator x.2).map fun d => (x.1, d)).map fun l =>
        hashFeed (· ≥ ·) env.hashUni canon (l.foldl (fun m x => hashAdd x.1 x.2 m) [])

/-- The text of the polynomial in several variables, whose terms come with a translator (PolyWriter.cpp:30-57), with the writer `w`. -/
def hilbertText (w : NamedPoly → Text) (p : Prepared n) (terms : List (ℤ × Term n)) : Option Text :=
  (terms.mapM fun x => (p.translator.bigTerm x.2).map fun t => (x.1, t)).map fun l => w { names := p.names, terms := l }

/-- The text of the polynomial in the variable `t` (UniHashPolynomial.cpp:64-108, PolyWriter.cpp:48-57) with the writer `w`. A negative exponent is `none` here;
there is none. -/
def hilbertUniText (w : NamedPoly → Text) (terms : List (ℤ × ℤ)) : Option Text :=
  if ∀ x ∈ terms, 0 ≤ x.2 then some (w { names := [t!"t"], terms := terms.map fun x => (x.1, [x.2.toNat]) }) else none

/-- `HilbertAction::perform` (HilbertAction.cpp:64-90) for the algorithm and the ideal that has been read, with the writers of polynomials whose terms come with and
without a translator. -/
def hilbertWith (wTr w : NamedPoly → Text) (o : HilbertOpts) (env : HilbertEnv) (a : HilbertAlg) (I : NamedIdeal) : Outcome Text :=
  let p := prepare { canon := o.canon, minimal := o.minimal } I
  .ofOption (if o.univariate then (hilbertUniTerms env o.canon p a).bind (hilbertUniText w)
    else (hilbertTerms env o.canon p a).bind (hilbertText wTr p))

/-- `HilbertAction::perform` (HilbertAction.cpp:64-90). `readIdealAndSetPolyOutput` (CommonParamsHelper.cpp:85-95) reports an error for a
format without polynomials before the ideal is read. -/
def hilbertAction (o : HilbertOpts) (env : HilbertEnv) (f g : IOFormat) (t : Text) : Outcome Text :=
  match hilbertAlg o, polyFormat g with
  | some a, some g =>
    match readIdeal f t with
    | none => .error
    | some I => hilbertWith (writePolyTr g) (writePoly g) o env a I
  | _, _ => .error

end Frobby
