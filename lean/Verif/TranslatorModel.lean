import Verif.StrategyModel
import Verif.Spec

/-!
# Model of `TermTranslator` (src/TermTranslator.cpp) and of the API functions built on the slice algorithm

The exponents of the input are natural numbers (the API documentation requires them to be nonnegative). The numbers in a
translator are integers since `decrement` and `dualize` can make them negative.
-/

namespace Frobby

variable {n : ℕ}

/-! ## TermTranslator -/

/-- The collecting loop of `extractExponents` (TermTranslator.cpp:104-127): numbers up to 900 are only taken once. -/
def collectExponents : (seen : List ℕ) → List ℕ → List ℕ
  | _, [] => []
  | seen, e :: es =>
    if e ≤ 900 then if e ∈ seen then collectExponents seen es else e :: collectExponents (e :: seen) es
    else e :: collectExponents seen es

/-- `std::unique`: drop an element equal to the next one. -/
def stdUnique : List ℕ → List ℕ
  | a :: b :: l => if a = b then stdUnique (b :: l) else a :: stdUnique (b :: l)
  | l => l

/-- The exponents of a variable in `extractExponents` (TermTranslator.cpp:90-134), before the last zero is added. -/
def idList (es : List ℕ) : List ℕ := stdUnique ((0 :: collectExponents [0] es).insertionSort (· ≤ ·))

/-- `TermTranslator::_exponents`. -/
abbrev Translator (n : ℕ) := Fin n → List ℤ

namespace Translator

/-- `TermTranslator(bigIdeal, ideal, false)` (TermTranslator.cpp:45-53, 165-197): one list for each variable, the last
entry is an additional zero (135). The names of the variables are not modelled. -/
def ofGens (G : List (Term n)) : Translator n := fun v => (idList (G.map fun g : Term n => g v) ++ [0]).map Int.ofNat

/-- `TermTranslator::getMaxId` (TermTranslator.cpp:424-428). -/
def maxId (T : Translator n) (v : Fin n) : ℕ := (T v).length - 1

/-- `TermTranslator::shrinkExponent` (TermTranslator.cpp:430-441): `lower_bound` on all entries but the last. -/
def shrinkExponent (T : Translator n) (v : Fin n) (e : ℤ) : ℕ := ((T v).dropLast.takeWhile fun x => decide (x < e)).length

/-- `TermTranslator::shrinkBigIdeal` (TermTranslator.cpp:199-230) when the names agree. -/
def shrinkIdeal (T : Translator n) (G : List (Term n)) : List (Term n) := G.map fun g v => T.shrinkExponent v (g v)

/-- The loops that call `TermTranslator::getExponent` (TermTranslator.cpp:391-397) for every variable, such as
`ConsumerWrapper::setTerm` (frobby.cpp:49-56). `none` is access out of range. -/
def translate (T : Translator n) (t : Term n) : Option (Fin n → ℤ) :=
  if h : ∀ v, t v < (T v).length then some fun v => (T v)[t v]'(h v) else none

/-- `TermTranslator::addPurePowersAtInfinity` (TermTranslator.cpp:232-259). -/
def addPurePowers (T : Translator n) (I : List (Term n)) : List (Term n) :=
  if I.any fun g => decide (Term.sizeOfSupport g ≤ 1 ∧ Term.firstNonZero g = n) then I
  else I ++ ((List.finRange n).filter fun v =>
      !(I.any fun g => decide (Term.sizeOfSupport g ≤ 1 ∧ Term.firstNonZero g = v.val))).map fun v =>
    Term.single v (T.maxId v)

/-- `TermTranslator::setInfinityPowersToZero` (TermTranslator.cpp:264-286). -/
def infinityToZero (T : Translator n) (I : List (Term n)) : List (Term n) :=
  I.map fun g v => if g v = T.maxId v then 0 else g v

/-- `TermTranslator::dualize` (TermTranslator.cpp:288-294). -/
def dualize (a : Fin n → ℤ) (T : Translator n) : Translator n :=
  fun v => (T v).map fun e => if e ≠ 0 then a v - e + 1 else e

/-- `TermTranslator::decrement` (TermTranslator.cpp:296-301). -/
def decrement (T : Translator n) : Translator n := fun v => (T v).map (· - 1)

end Translator

/-- `CommonParamsHelper::setIdeal` (CommonParamsHelper.cpp:176-203) with the default parameters: translate and
minimize. -/
def setIdeal (G : List (Term n)) : Translator n × List (Term n) :=
  (Translator.ofGens G, minimize ((Translator.ofGens G).shrinkIdeal G))

/-! ## options -/

/-- The options of the API functions: the defaults of `SliceParams` and `SliceLikeParams` (SliceParams.cpp:24-29,
SliceLikeParams.cpp). -/
def apiOpts : Opts := { simp := true, indep := true, split := .median }

/-! ## SliceFacade -/

/-- `MsmStrategy::run` with a `TranslatingTermConsumer` (TranslatingTermConsumer.cpp:48-52): the translated terms. -/
def runMsmTranslated (o : Opts) (rnd : List ℕ → ℕ → ℕ) (T : Translator n) (I : List (Term n)) :
    Option (List (Fin n → ℤ)) :=
  match msmRun o rnd I with
  | none => none
  | some outs => outs.mapM T.translate

/-- `SliceFacade::produceEncodedIrrDecom` (SliceFacade.cpp:362-373) into a translating consumer. -/
def encodedIrrDecom (o : Opts) (rnd : List ℕ → ℕ → ℕ) (T T' : Translator n) (I : List (Term n)) :
    Option (List (Fin n → ℤ)) := runMsmTranslated o rnd T' (T.addPurePowers I)

/-- `SliceFacade::computeIrreducibleDecomposition(true)` (SliceFacade.cpp:109-112). -/
def facadeIrrDecom (o : Opts) (rnd : List ℕ → ℕ → ℕ) (G : List (Term n)) : Option (List (Fin n → ℤ)) :=
  encodedIrrDecom o rnd (setIdeal G).1 (setIdeal G).1 (setIdeal G).2

/-- `SliceFacade::computeMaximalStandardMonomials` (SliceFacade.cpp:229-248). -/
def facadeMsm (o : Opts) (rnd : List ℕ → ℕ → ℕ) (G : List (Term n)) : Option (List (Fin n → ℤ)) :=
  runMsmTranslated o rnd (setIdeal G).1.decrement (setIdeal G).2

/-- The outcome of an operation that can raise a `FrobbyException`. -/
inductive Outcome (α : Type) where
  | ok (a : α)
  | error
  | crash

/-- The value of a computation in which an internal error or access out of range is `none`. -/
def Outcome.ofOption {α : Type} : Option α → Outcome α
  | some a => .ok a
  | none => .crash

/-- `SliceFacade::computeAlexanderDual(point)` (SliceFacade.cpp:250-273) with `getLcmOfIdeal` (455-465). -/
def facadeDual (o : Opts) (rnd : List ℕ → ℕ → ℕ) (G : List (Term n)) (a : Fin n → ℤ) : Outcome (List (Fin n → ℤ)) :=
  match (setIdeal G).1.translate (lcmOf (setIdeal G).2) with
  | none => .crash
  | some lcm =>
    if ∃ v, a v < lcm v then .error
    else .ofOption (encodedIrrDecom o rnd (setIdeal G).1 ((setIdeal G).1.dualize a) (setIdeal G).2)

/-- `SliceFacade::computeAlexanderDual()` (SliceFacade.cpp:275-284). -/
def facadeDualLcm (o : Opts) (rnd : List ℕ → ℕ → ℕ) (G : List (Term n)) : Outcome (List (Fin n → ℤ)) :=
  match (setIdeal G).1.translate (lcmOf (setIdeal G).2) with
  | none => .crash
  | some lcm => facadeDual o rnd G lcm

/-- `std::unique` on terms (with `EqualsPredicate`). -/
def uniqueTerms : List (Term n) → List (Term n)
  | a :: b :: l => if a = b then uniqueTerms (b :: l) else a :: uniqueTerms (b :: l)
  | l => l

/-- `Ideal::removeDuplicates` (Ideal.cpp:634-639). -/
def removeDuplicates (I : List (Term n)) : List (Term n) := uniqueTerms (sortLex I)

/-- The translator made by `setToZeroOne` (TermTranslator.cpp:481-490). -/
def Translator.zeroOne : Translator n := Translator.ofGens [0, 1]

/-- `SliceFacade::computeAssociatedPrimes` (SliceFacade.cpp:286-334): the terms given to the consumer. -/
def facadeAssociatedPrimes (o : Opts) (rnd : List ℕ → ℕ → ℕ) (G : List (Term n)) : Option (List (Fin n → ℤ)) :=
  match msmRun o rnd ((setIdeal G).1.addPurePowers (setIdeal G).2) with
  | none => none
  | some decom =>
    match decom.mapM (setIdeal G).1.translate with
    | none => none
    | some ds =>
      (removeDuplicates (ds.map fun d v => if d v = 0 then 0 else 1)).mapM (Translator.zeroOne).translate

/-- `Term::encodedDual` (Term.h:505-519). -/
def encodedDual (dualOf point : Term n) : Term n := fun v => if dualOf v ≠ 0 then point v - dualOf v + 1 else 0

/-- `Term::hasSameSupport` (Term.h:446-461). -/
def hasSameSupport (a b : Term n) : Bool := decide (∀ v, a v = 0 ↔ b v = 0)

/-- The inner loop of `computePrimaryDecomposition` that collects the next terms of the same support as `support`
(SliceFacade.cpp:194-200). -/
def sameSupportPrefix (support : Term n) (I : List (Term n)) : List (Term n) := I.takeWhile fun t => hasSameSupport support t

/-- The body of the loop of `computePrimaryDecomposition` for the group `group` (SliceFacade.cpp:191-220): the generators
given to the consumer, as identifiers. -/
def primaryComponent (o : Opts) (rnd : List ℕ → ℕ → ℕ) (T : Translator n) (lcm : Term n) (group : List (Term n)) :
    Option (List (Term n)) :=
  (msmRun o rnd (T.addPurePowers (group.map fun t => encodedDual t lcm))).map fun outs =>
    (T.infinityToZero outs).map fun t => encodedDual t lcm

/-- The loop of `computePrimaryDecomposition` (SliceFacade.cpp:189-221). -/
def primaryLoop (o : Opts) (rnd : List ℕ → ℕ → ℕ) (T : Translator n) (lcm : Term n) :
    List (Term n) → Option (List (List (Term n)))
  | [] => some []
  | t :: ts =>
    match primaryComponent o rnd T lcm (t :: sameSupportPrefix t ts) with
    | none => none
    | some c =>
      match primaryLoop o rnd T lcm (ts.drop (sameSupportPrefix t ts).length) with
      | none => none
      | some cs => some (c :: cs)
termination_by ts => ts.length
decreasing_by simp; omega

/-- `SliceFacade::computePrimaryDecomposition` (SliceFacade.cpp:150-227): the ideals given to the consumer. -/
def facadePrimaryDecomposition (o : Opts) (rnd : List ℕ → ℕ → ℕ) (G : List (Term n)) :
    Option (List (List (Fin n → ℤ))) :=
  match msmRun o rnd ((setIdeal G).1.addPurePowers (setIdeal G).2) with
  | none => none
  | some decom =>
    let decom := sortReverseLex ((setIdeal G).1.infinityToZero decom)
    match primaryLoop o rnd (setIdeal G).1 (lcmOf decom) decom with
    | none => none
    | some cs => cs.mapM fun c => c.mapM (setIdeal G).1.translate

/-! ## the API -/

/-- `Frobby::irreducibleDecompositionAsMonomials` (frobby.cpp:385-398): the returned value and the calls of the
consumer. `none` is an internal error, access out of range or non-termination. -/
def irreducibleDecompositionAsMonomials (rnd : List ℕ → ℕ → ℕ) (G : List (Term n)) : Option (Bool × List (Event n)) :=
  if G.length = 0 then some (false, [])
  else (facadeIrrDecom apiOpts rnd G).map fun ts => (true, Event.block ts)

/-- The pure powers that `IrreducibleIdealDecoder::consume` makes of a term (frobby.cpp:352-366), as an ideal. -/
def decodeTerm (t : Fin n → ℤ) : List (Event n) :=
  Event.block (((List.finRange n).filter fun v => decide (t v ≠ 0)).map fun v => fun w => if w = v then t v else 0)

/-- `IrreducibleIdealDecoder` (frobby.cpp:329-373) applied to a sequence of calls. -/
def decode (evs : List (Event n)) : List (Event n) :=
  evs.flatMap fun e => match e with
    | .begin => []
    | .term t => decodeTerm t
    | .done => []

/-- `Frobby::irreducibleDecompositionAsIdeals` (frobby.cpp:375-383). -/
def irreducibleDecompositionAsIdeals (rnd : List ℕ → ℕ → ℕ) (G : List (Term n)) : Option (List (Event n)) :=
  (irreducibleDecompositionAsMonomials rnd G).map fun r =>
    if r.1 then decode r.2 else decode r.2 ++ [.begin, .done]

/-- `Frobby::maximalStandardMonomials` (frobby.cpp:412-422). -/
def maximalStandardMonomials (rnd : List ℕ → ℕ → ℕ) (G : List (Term n)) : Option (List (Event n)) :=
  (facadeMsm apiOpts rnd G).map Event.block

/-- `Frobby::associatedPrimes` (frobby.cpp:459-469). -/
def associatedPrimes (rnd : List ℕ → ℕ → ℕ) (G : List (Term n)) : Option (List (Event n)) :=
  (facadeAssociatedPrimes apiOpts rnd G).map fun ts => decode (Event.block ts)

/-- `Frobby::primaryDecomposition` (frobby.cpp:400-410). -/
def primaryDecomposition (rnd : List ℕ → ℕ → ℕ) (G : List (Term n)) : Option (List (Event n)) :=
  (facadePrimaryDecomposition apiOpts rnd G).map fun cs => cs.flatMap Event.block

/-- `Frobby::alexanderDual(ideal, pointer, consumer)` (frobby.cpp:250-281); `none` is the null pointer. The exception is
raised before the consumer is called. -/
def alexanderDual (rnd : List ℕ → ℕ → ℕ) (G : List (Term n)) (point : Option (Fin n → ℤ)) :
    Outcome (Bool × List (Event n)) :=
  match point with
  | none =>
    match facadeDualLcm apiOpts rnd G with
    | .ok ts => .ok (true, Event.block ts)
    | .error => .error
    | .crash => .crash
  | some a =>
    match facadeDual apiOpts rnd G a with
    | .ok ts => .ok (true, Event.block ts)
    | .error => .ok (false, [])
    | .crash => .crash

/-- `Frobby::alexanderDual(ideal, reflectionIdeal, consumer)` (frobby.cpp:283-301); the two ideals may have different
numbers of variables. Without variables the pointer is null (296-298). -/
def alexanderDualIdeal {m : ℕ} (rnd : List ℕ → ℕ → ℕ) (G : List (Term n)) (R : List (Term m)) :
    Outcome (Bool × List (Event n)) :=
  match R with
  | [r] =>
    if h : m = n then
      if m = 0 then alexanderDual rnd G none
      else alexanderDual rnd G (some fun v => (r (Fin.cast h.symm v) : ℤ))
    else .ok (false, [])
  | _ => .ok (false, [])

end Frobby
