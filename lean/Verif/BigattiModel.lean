import Verif.HilbertModel
import Verif.TranslatorModel
import Verif.PolyModel

/-!
# Model of the Hilbert-Poincaré series algorithm of Bigatti et al.

`BigattiState`, `BigattiPivotStrategy`, `BigattiBaseCase`, `BigattiHilbertAlgorithm` and `BigattiFacade`, which is the default
algorithm of the action `hilbert`. The variables are not sorted, that is, `getProduceCanonicalOutput` only has its effect on
the order of the terms here. Printing of debug output and statistics is not modelled.
-/

namespace Frobby

variable {n : ℕ}

/-! ## functions of `Ideal` -/

/-- `Ideal::strictlyContains` (Ideal.cpp:73-79). -/
def strictlyContains (G : List (Term n)) (t : Term n) : Bool := G.any fun g => decide (Term.strictlyDivides g t)

/-- `Ideal::getGcd` (Ideal.cpp:164-175). -/
def gcdOf : List (Term n) → Term n
  | [] => 0
  | g :: gs => gs.foldl (· ⊓ ·) g

/-- `Ideal::getGcdAtExponent` (Ideal.cpp:177-195). -/
def gcdAtExponent (v : Fin n) (e : ℕ) (G : List (Term n)) : Term n := gcdOf (G.filter fun g => decide (g v = e))

/-- `Ideal::getGcdOfMultiplesOf` (Ideal.cpp:197-215). -/
def gcdOfMultiples (p : Term n) (G : List (Term n)) : Term n := gcdOf (G.filter fun g => decide (p ≤ g))

/-- `Term::sharesNonZeroExponent` (Term.h:416-422). -/
def sharesExponent (a b : Term n) : Bool := decide (∃ v, a v ≠ 0 ∧ a v = b v)

/-- The loops over `itB` and `itA` of `Ideal::isWeaklyGeneric` (Ideal.cpp:125-138). -/
def weaklyGenericLoop (G : List (Term n)) : List (Term n) → Bool
  | [] => true
  | a :: l => (l.all fun b => !sharesExponent a b || G.any fun c => decide (Term.strictlyDivides c (a ⊔ b))) && weaklyGenericLoop G l

/-- `Ideal::isWeaklyGeneric` (Ideal.cpp:121-140). -/
def isWeaklyGeneric (G : List (Term n)) : Bool := weaklyGenericLoop G G

/-- `Ideal::disjointSupport` (Ideal.cpp:142-155). -/
def disjointSupport (G : List (Term n)) : Bool := decide (∀ v, (G.countP fun g => decide (0 < g v)) ≤ 1)

/-- The inner loop of `Ideal::getTypicalExponent` (Ideal.cpp:245-266). The best count so far comes with its variable and
exponent; `none` is exponent zero. -/
def typicalLoop (v : Fin n) : (last count : ℕ) → (best : ℕ × Option (Fin n × ℕ)) → List (Term n) → ℕ × Option (Fin n × ℕ)
  | _, _, best, [] => best
  | last, count, best, g :: gs =>
    if g v = 0 then typicalLoop v last count best gs
    else
      let c := if last = g v then count + 1 else 1
      typicalLoop v (g v) c (if c > best.1 then (c, some (v, g v)) else best) gs

/-- `Ideal::getTypicalExponent` (Ideal.cpp:236-270), which also sorts the generators. -/
def typicalExponent (G : List (Term n)) : List (Term n) × ℕ × Option (Fin n × ℕ) :=
  (List.finRange n).foldl (fun x v => (singleDegreeSort v x.1, typicalLoop v 0 0 x.2 (singleDegreeSort v x.1))) (G, 0, none)

/-- The pair is non-generic: `!strictlyContains(lcm)`. -/
def nonGeneric (G : List (Term n)) (a b : Term n) : Bool := !strictlyContains G (a ⊔ b)

/-- The number of non-generic pairs in a block (Ideal.cpp:302-312). -/
def pairCount (G : List (Term n)) : List (Term n) → ℕ
  | [] => 0
  | a :: l => (l.countP fun b => nonGeneric G a b) + pairCount G l

/-- There is a non-generic pair in a block (Ideal.cpp:355-371, 402-414). -/
def anyPair (G : List (Term n)) : List (Term n) → Bool
  | [] => false
  | a :: l => (l.any fun b => nonGeneric G a b) || anyPair G l

/-- The blocks of generators with the same exponent of `v`, one after the other (Ideal.cpp:284-290). Each step uses up a
generator, so that the number of generators is fuel enough. -/
def blocks (v : Fin n) : ℕ → List (Term n) → List (ℕ × List (Term n))
  | 0, _ => []
  | _, [] => []
  | fuel + 1, g :: gs =>
    (g v, g :: gs.takeWhile fun h => decide (h v = g v)) :: blocks v fuel (gs.dropWhile fun h => decide (h v = g v))

/-- `Ideal::getMostNonGenericExponent` (Ideal.cpp:271-324). -/
def mostNonGeneric (G : List (Term n)) : List (Term n) × ℕ × Option (Fin n × ℕ) :=
  (List.finRange n).foldl
    (fun x v =>
      let H := singleDegreeSort v x.1
      (H, (blocks v H.length H).foldl
        (fun best b =>
          if b.1 = 0 ∨ b.2.length * (b.2.length + 1) / 2 ≤ best.1 then best
          else if pairCount H b.2 > best.1 then (pairCount H b.2, some (v, b.1)) else best) x.2))
    (G, 0, none)

/-- `Ideal::getTypicalNonGenericExponent` (Ideal.cpp:326-377). -/
def typicalNonGeneric (G : List (Term n)) : List (Term n) × ℕ × Option (Fin n × ℕ) :=
  (List.finRange n).foldl
    (fun x v =>
      let H := singleDegreeSort v x.1
      (H, (blocks v H.length H).foldl
        (fun best b =>
          if b.1 = 0 ∨ b.2.length ≤ best.1 then best
          else if anyPair H b.2 then (b.2.length, some (v, b.1)) else best) x.2))
    (G, 0, none)

/-- `Ideal::getNonGenericExponent` (Ideal.cpp:379-422). It returns at the first pair found. -/
def someNonGeneric (G : List (Term n)) : List (Term n) × Option (Fin n × ℕ) :=
  (List.finRange n).foldl
    (fun x v =>
      match x.2 with
      | some _ => x
      | none =>
        let H := singleDegreeSort v x.1
        (H, ((blocks v H.length H).find? fun b => decide (b.1 ≠ 0) && anyPair H b.2).map fun b => (v, b.1)))
    (G, none)

/-! ## pivots -/

/-- `BigattiState` (BigattiState.cpp): `_multiply` and `_ideal`. -/
structure BState (n : ℕ) where
  multiply : Term n
  ideal : List (Term n)

/-- `BigattiState::colonStep` (BigattiState.cpp:80-84). -/
def BState.colonStep (p : Term n) (s : BState n) : BState n := ⟨s.multiply + p, (colonReminimize p s.ideal).1⟩

/-- `BigattiState::addStep` (BigattiState.cpp:86-89). -/
def BState.addStep (p : Term n) (s : BState n) : BState n := ⟨s.multiply, insertReminimize p s.ideal⟩

/-- `BigattiState::getMedianPositiveExponentOf` (BigattiState.cpp:56-70), on sorted generators. `none` is running past the
end. -/
def medianPositiveOf (v : Fin n) (G : List (Term n)) : Option ℕ :=
  let l := G.dropWhile fun g => decide (g v = 0)
  l[(l.length - 1) / 2]?.map fun g => g v

/-- `MedianPivot::getPivot` (BigattiPivotStrategy.cpp:35-43): the sorted generators and the pivot. -/
def bigattiMedian (G : List (Term n)) : Option (List (Term n) × Term n) :=
  match firstMax? (supportCounts G) with
  | none => none
  | some v => (medianPositiveOf v (singleDegreeSort v G)).map fun e => (singleDegreeSort v G, Term.single v e)

/-- The `considerX` functions of `GenericPivotCommon` (BigattiPivotStrategy.cpp:77-93). -/
inductive BConsider
  | typical | typicalNG | mostNG | someNG
deriving DecidableEq

/-- The `selectX` functions of `GenericPivotCommon` (BigattiPivotStrategy.cpp:95-168). -/
inductive BSelect
  | pure | gcd | tight
deriving DecidableEq

/-- The pivot strategies (BigattiPivotStrategy.cpp:407-431). -/
inductive BPivot
  | median
  | generic (c : BConsider) (s : BSelect)
deriving DecidableEq

/-- `considerTypical` and so on (BigattiPivotStrategy.cpp:77-93). -/
def BConsider.run (G : List (Term n)) : BConsider → List (Term n) × Option (Fin n × ℕ)
  | .typical => ((typicalExponent G).1, if (typicalExponent G).2.1 ≤ 1 then none else (typicalExponent G).2.2)
  | .typicalNG => ((typicalNonGeneric G).1, (typicalNonGeneric G).2.2)
  | .mostNG => ((mostNonGeneric G).1, (mostNonGeneric G).2.2)
  | .someNG => someNonGeneric G

/-- The double loop of `selectTight` (BigattiPivotStrategy.cpp:141-162); `none` is that `first` still holds. -/
def tightLoop (G : List (Term n)) : Option (Term n) → List (Term n) → Option (Term n)
  | acc, [] => acc
  | acc, a :: l =>
    match l.find? fun b => nonGeneric G a b with
    | none => tightLoop G acc l
    | some b => tightLoop G (some (match acc with | none => a ⊓ b | some p => p ⊓ a ⊓ b)) l

/-- `selectPurePower`, `selectGcd` and `selectTight` (BigattiPivotStrategy.cpp:95-168) for a positive exponent. -/
def BSelect.run (G : List (Term n)) (v : Fin n) (e : ℕ) : BSelect → Option (List (Term n) × Term n)
  | .pure => some (G, Term.single v e)
  | .gcd => some (G, gcdAtExponent v e G)
  | .tight =>
    let H := singleDegreeSort v G
    match H.dropWhile fun g => decide (g v ≠ e) with
    | [] => none
    | g :: gs => some (H, (tightLoop H none (g :: gs.takeWhile fun h => decide (h v = e))).getD (Term.single v e))

/-- `getPivot` without widening. -/
def BPivot.run (G : List (Term n)) : BPivot → Option (List (Term n) × Term n)
  | .median => bigattiMedian G
  | .generic c s =>
    match c.run G with
    | (H, none) => bigattiMedian H
    | (H, some (v, e)) => s.run H v e

/-- `BigattiPivotStrategy::getPivot`, with or without `WidenPivot` (BigattiPivotStrategy.cpp:376-404). -/
def BPivot.get (p : BPivot) (widen : Bool) (G : List (Term n)) : Option (List (Term n) × Term n) :=
  (p.run G).map fun x => (x.1, if widen then gcdOfMultiples x.2 x.1 else x.2)

/-! ## base cases -/

/-- What is output: a call of `BigattiBaseCase::output` (BigattiBaseCase.cpp:86-105), or the coefficients that
`univariateAllFaces` adds (BigattiBaseCase.cpp:231-239) with the exponent of the first one. -/
inductive BOut (n : ℕ)
  | term (plus : Bool) (t : Term n)
  | poly (coefs : List ℤ) (base : ℕ)

/-- `BigattiBaseCase::simpleBaseCase` (BigattiBaseCase.cpp:138-166). -/
def simpleBase (s : BState n) : Option (List (BOut n)) :=
  match s.ideal with
  | [] => some [.term true s.multiply]
  | [a] => some [.term true s.multiply, .term false (s.multiply + a)]
  | [a, b] => some [.term true s.multiply, .term false (s.multiply + a), .term false (s.multiply + b),
      .term true (a ⊔ b + s.multiply)]
  | _ => none

/-- The loop of `BigattiBaseCase::baseCase` (BigattiBaseCase.cpp:59-76). -/
def uniqueMaxLoop (lcm : Term n) : (counts : Term n) → List (Term n) → Bool
  | _, [] => true
  | counts, g :: gs =>
    let counts' : Term n := fun v => if g v = lcm v ∧ 0 < lcm v then counts v + 1 else counts v
    if ∃ v, (g v = lcm v ∧ 0 < lcm v) ∧ 1 < counts' v then false
    else if ¬ ∃ v, g v = lcm v ∧ 0 < lcm v then false
    else uniqueMaxLoop lcm counts' gs

/-- The test of `BigattiBaseCase::baseCase` after the simple base case (BigattiBaseCase.cpp:52-76). -/
def uniqueMax (G : List (Term n)) : Bool :=
  decide (G.length ≤ n) && decide (G.length ≤ Term.sizeOfSupport (lcmOf G)) && uniqueMaxLoop (lcmOf G) 0 G

/-- `BigattiBaseCase::State` (BigattiBaseCase.h): the sign, the lcm and the generators from the position on. -/
structure ScarfState (n : ℕ) where
  plus : Bool
  term : Term n
  rest : List (Term n)

/-- The loop of `BigattiBaseCase::enumerateScarfComplex` (BigattiBaseCase.cpp:270-304). The head of the list is
`_states[current]`; `needed` is the number of states there are. `none` is running out of fuel or of states. -/
def scarfLoop (G : List (Term n)) (allFaces : Bool) (m : Term n) (needed : ℕ) : ℕ → List (ScarfState n) → Option (List (BOut n))
  | 0, _ => none
  | _, [] => some []
  | fuel + 1, s :: stack =>
    match s.rest with
    | [] => (scarfLoop G allFaces m needed fuel stack).map fun outs => .term s.plus (s.term + m) :: outs
    | g :: gs =>
      if stack.length + 1 < needed then
        let cur : ScarfState n := ⟨s.plus, s.term, gs⟩
        if allFaces || !strictlyContains G (s.term ⊔ g) then
          scarfLoop G allFaces m needed fuel (⟨!s.plus, s.term ⊔ g, gs⟩ :: cur :: stack)
        else scarfLoop G allFaces m needed fuel (cur :: stack)
      else none

/-- `int` subtraction; `none` is overflow. -/
def intSub (a b : ℤ) : Option ℤ := if -2 ^ 31 ≤ a - b ∧ a - b < 2 ^ 31 then some (a - b) else none

/-- The loop that replaces `poly` by `(1-t^degree) poly` (BigattiBaseCase.cpp:220-226), going down from position `e`. -/
def factorLoop (degree : ℕ) : (e : ℕ) → List ℤ → Option (List ℤ)
  | 0, poly => some poly
  | e + 1, poly =>
    match poly[e + degree]?, poly[e]? with
    | some a, some b => (intSub a b).bind fun c => factorLoop degree e (poly.set (e + degree) c)
    | _, _ => none

/-- One round of the loop over the generators (BigattiBaseCase.cpp:208-227). -/
def mulFactor (degree : ℕ) (poly : List ℤ) : Option (List ℤ) :=
  factorLoop degree poly.length (poly ++ List.replicate degree 0)

/-- The total degree of a translated term, summed over the variables. -/
def translatedDegree (T : Translator n) (t : Term n) : Option ℤ := (T.translate t).map fun x => ((List.finRange n).map x).sum

/-- The degree of a generator (BigattiBaseCase.cpp:212-217). The differences are summed as integers; `none` is access out of
range or a negative degree. -/
def genDegree (T : Translator n) (m g : Term n) : Option ℕ :=
  match T.translate (m + g), T.translate m with
  | some a, some b =>
    let d := ((List.finRange n).map fun v => a v - b v).sum
    if 0 ≤ d then some d.toNat else none
  | _, _ => none

/-- The loop over the generators (BigattiBaseCase.cpp:208-227). -/
def factorsLoop (T : Translator n) (m : Term n) : List ℤ → List (Term n) → Option (List ℤ)
  | poly, [] => some poly
  | poly, g :: gs => (genDegree T m g).bind fun d => (mulFactor d poly).bind fun poly' => factorsLoop T m poly' gs

/-- `BigattiBaseCase::univariateAllFaces` (BigattiBaseCase.cpp:168-239). The inner `none` is the return value `false`. -/
def univariateAllFaces (T : Translator n) (s : BState n) : Option (Option (BOut n)) :=
  if disjointSupport s.ideal = false then some none
  else if 30 < s.ideal.length then some none
  else
    match translatedDegree T (lcmOf s.ideal + s.multiply) with
    | none => none
    | some maxDegree =>
      if 1024 * 1024 < maxDegree then some none
      else if ((2 ^ s.ideal.length : ℕ) : ℤ) < maxDegree then some none
      else
        match factorsLoop T s.multiply [1] s.ideal, translatedDegree T s.multiply with
        | some poly, some d => some (some (.poly poly d.toNat))
        | _, _ => none

/-- `BigattiBaseCase::enumerateScarfComplex` (BigattiBaseCase.cpp:244-305); `uni` is the translator if the univariate series
is computed. -/
def enumerateScarf (uni : Option (Translator n)) (s : BState n) (allFaces : Bool) : Option (List (BOut n)) :=
  let scarf := scarfLoop s.ideal allFaces s.multiply (s.ideal.length + 1) (2 ^ (s.ideal.length + 1)) [⟨true, 0, s.ideal⟩]
  match allFaces, uni with
  | true, some T =>
    match univariateAllFaces T s with
    | none => none
    | some (some out) => some [out]
    | some none => scarf
  | _, _ => scarf

/-- `BigattiBaseCase::baseCase` and `genericBaseCase` (BigattiBaseCase.cpp:35-82). The inner `none` is the return value
`false`. -/
def bigattiBase (uni : Option (Translator n)) (generic : Bool) (s : BState n) : Option (Option (List (BOut n))) :=
  match simpleBase s with
  | some outs => some (some outs)
  | none =>
    if uniqueMax s.ideal then (enumerateScarf uni s true).map some
    else if generic && isWeaklyGeneric s.ideal then (enumerateScarf uni s false).map some
    else some none

/-! ## the algorithm -/

/-- The parameters: `getUseSimplification`, `getUseGenericBaseCase`, the pivot strategy and `getWidenPivot`. -/
structure BOpts where
  simp : Bool
  generic : Bool
  pivot : BPivot
  widen : Bool

/-- `BigattiHilbertAlgorithm::simplify` (BigattiHilbertAlgorithm.cpp:109-122). -/
def bigattiSimplify (s : BState n) : List (BOut n) × BState n :=
  let g := gcdOf s.ideal
  if g = 0 then ([], s)
  else ([.term true s.multiply, .term false (s.multiply + g)], s.colonStep g)

/-- `BigattiHilbertAlgorithm::processState` (BigattiHilbertAlgorithm.cpp:76-107): the output and the tasks that are added, the
last one first. -/
def bigattiStep (uni : Option (Translator n)) (o : BOpts) (s : BState n) : Option (List (BOut n) × List (BState n)) :=
  let x := if o.simp then bigattiSimplify s else ([], s)
  match bigattiBase uni o.generic x.2 with
  | none => none
  | some (some outs) => some (x.1 ++ outs, [])
  | some none =>
    match o.pivot.get o.widen x.2.ideal with
    | none => none
    | some (H, p) => some (x.1, [BState.addStep p ⟨x.2.multiply, H⟩, BState.colonStep p ⟨x.2.multiply, H⟩])

/-- `TaskEngine::runTasks` on these tasks: the last task added is run first. `none` is running out of fuel or undefined
behaviour. -/
def bigattiLoop (uni : Option (Translator n)) (o : BOpts) : ℕ → List (BState n) → Option (List (BOut n))
  | 0, _ => none
  | _, [] => some []
  | fuel + 1, s :: ss =>
    match bigattiStep uni o s with
    | none => none
    | some (outs, new) => (bigattiLoop uni o fuel (new ++ ss)).map fun r => outs ++ r

/-- Enough fuel for the whole computation. -/
def bigattiFuel (G : List (Term n)) : ℕ := 2 * ((List.finRange n).map fun v => lcmOf G v + 1).prod + 2

/-- `BigattiHilbertAlgorithm` on a minimized ideal (BigattiHilbertAlgorithm.cpp:26-61) up to `feedOutputTo`. -/
def bigattiRun (uni : Option (Translator n)) (o : BOpts) (G : List (Term n)) : Option (List (BOut n)) :=
  bigattiLoop uni o (bigattiFuel G) [⟨0, G⟩]

/-- Adding the output to `_outputMultivariate` (BigattiBaseCase.cpp:102-103). -/
def BOut.addTo (m : List (ℤ × Term n)) : BOut n → Option (List (ℤ × Term n))
  | .term plus t => some (hashAddSign plus t m)
  | .poly _ _ => none

/-- Adding the output to `_outputUnivariate` (BigattiBaseCase.cpp:92-101, 231-239). -/
def BOut.addToUni (T : Translator n) (m : List (ℤ × ℤ)) : BOut n → Option (List (ℤ × ℤ))
  | .term plus t => (translatedDegree T t).map fun d => hashAddSign plus d m
  | .poly coefs base => some ((coefs.zipIdx).foldl (fun m c => hashAdd c.1 ((c.2 + base : ℕ) : ℤ) m) m)

/-- `BigattiFacade::computeMultigradedHilbertSeries` (BigattiFacade.cpp:38-50): the calls of `consume`. -/
def facadeBigatti (o : BOpts) (order : List (ℤ × Term n) → List (ℤ × Term n)) (canonical : Bool) (G : List (Term n)) :
    Option (List (ℤ × (Fin n → ℤ))) :=
  match bigattiRun none o (setIdeal G).2 with
  | none => none
  | some outs =>
    match outs.foldlM BOut.addTo [] with
    | none => none
    | some m => (hashFeed (fun a b => lexLE b a) order canonical m).mapM fun x =>
        ((setIdeal G).1.translate x.2).map fun t => (x.1, t)

/-- `BigattiFacade::computeUnivariateHilbertSeries` (BigattiFacade.cpp:52-64): the calls of `consume`. -/
def facadeBigattiUnivariate (o : BOpts) (order : List (ℤ × ℤ) → List (ℤ × ℤ)) (canonical : Bool) (G : List (Term n)) :
    Option (List (ℤ × ℤ)) :=
  match bigattiRun (some (setIdeal G).1) o (setIdeal G).2 with
  | none => none
  | some outs => (outs.foldlM (BOut.addToUni (setIdeal G).1) []).map fun m => hashFeed (· ≥ ·) order canonical m

end Frobby
