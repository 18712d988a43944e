import Verif.BigattiModel
import Verif.FactoryModel

/-!
# Model of the deformation algorithm for Hilbert-Poincaré series

`IdealOrderer`, `Deformer`, `IdealTree`, `ScarfHilbertAlgorithm` and `ScarfFacade`, that is, the option `-algorithm deform` of
the action `hilbert`. The variables are not sorted, that is, `getProduceCanonicalOutput` only has its effect on the order of
the terms here. Exponents are natural numbers. Printing of debug output and statistics is not modelled.
-/

namespace Frobby

variable {n : ℕ}

/-! ## orders of the generators -/

/-- `totalDegree` (TermExtra.cpp:48-52). The code reads the first exponent even if there are no variables; nothing is compared
then as a minimized ideal has at most one generator. -/
def tdegOf (a : Term n) : ℕ := ((List.finRange n).map a).sum

/-- `nth_element` at the middle position of a range: the element at that position after sorting. -/
def middleOf (l : List ℕ) : ℕ := (l.insertionSort (· ≤ ·)).getD (l.length / 2) 0

/-- `median` (TermExtra.cpp:25-33). -/
def medianOf (a : Term n) : ℕ := middleOf ((List.finRange n).map a)

/-- `medianPositive` (TermExtra.cpp:35-46). -/
def posMedianOf (a : Term n) : ℕ := middleOf (((List.finRange n).map a).filter (0 < ·))

/-- `minimumPositive` (TermExtra.cpp:54-65): zero is no minimum yet. -/
def minPosOf (a : Term n) : ℕ :=
  ((List.finRange n).map a).foldl (fun m x => if x ≠ 0 ∧ (m = 0 ∨ x < m) then x else m) 0

/-- `maximum` (TermExtra.cpp:67-73). -/
def maxExpOf (a : Term n) : ℕ := ((List.finRange n).map a).foldl (fun m x => if x > m then x else m) 0

/-- The orders that are registered in `getOrdererFactory` (IdealOrderer.cpp:251-268). -/
inductive BaseOrder
  | random | null | lex | revlex | tdeg | median | posMedian | minPos | max | support | strongGenericity | weakGenericity
deriving DecidableEq

/-- `stable_sort`, which is determined by its result. -/
def stableSort {α : Type} (less : α → α → Bool) (l : List α) : List α := l.insertionSort fun a b => less b a = false

/-- The condition under which two generators count as degenerate (IdealOrderer.cpp:151-156). -/
def degenerate (G : List (Term n)) (strong : Bool) (a b : Term n) : Bool :=
  sharesExponent a b && (strong || !strictlyContains G (a ⊔ b))

/-- The map `degeneracy` (IdealOrderer.cpp:145-161): each pair of positions counts for both. -/
def degeneracy (G : List (Term n)) (strong : Bool) (i : ℕ) : ℕ :=
  ((List.range G.length).filter fun j => decide (j ≠ i) && degenerate G strong (G.getD (min i j) 0) (G.getD (Max.max i j) 0)).length

/-- `StrongGenericityOrderer::orderGenericity` (IdealOrderer.cpp:140-165). -/
def orderGenericity (strong : Bool) (G : List (Term n)) : List (Term n) :=
  (stableSort (fun a b : Term n × ℕ => decide (degeneracy G strong a.2 < degeneracy G strong b.2)) G.zipIdx).map Prod.fst

/-- `IdealOrderer::order` for each of the orders (IdealOrderer.cpp:37-205). `shuffle` is what `std::shuffle` does. -/
def BaseOrder.run (shuffle : List (Term n) → List (Term n)) (G : List (Term n)) : BaseOrder → List (Term n)
  | .random => shuffle G
  | .null => G
  | .lex => stableSort lexLess G
  | .revlex => stableSort reverseLexLess G
  | .tdeg => stableSort (fun a b => decide (tdegOf a < tdegOf b)) G
  | .median => stableSort (fun a b => decide (medianOf a < medianOf b)) G
  | .posMedian => stableSort (fun a b => decide (posMedianOf a < posMedianOf b)) G
  | .minPos => stableSort (fun a b => decide (minPosOf a < minPosOf b)) G
  | .max => stableSort (fun a b => decide (maxExpOf a < maxExpOf b)) G
  | .support => stableSort (fun a b => decide (Term.sizeOfSupport a < Term.sizeOfSupport b)) G
  | .strongGenericity => orderGenericity true G
  | .weakGenericity => orderGenericity false G

/-- An order that may be reversed, `ReverseOrderer` (IdealOrderer.cpp:207-222). -/
structure PartOrder where
  rev : Bool
  base : BaseOrder
deriving DecidableEq

/-- `ReverseOrderer::doOrder` (IdealOrderer.cpp:213-220), or the order itself. -/
def PartOrder.run (shuffle : List (Term n) → List (Term n)) (G : List (Term n)) (o : PartOrder) : List (Term n) :=
  if o.rev then (o.base.run shuffle G.reverse).reverse else o.base.run shuffle G

/-- `CompositeOrderer::doOrder` (IdealOrderer.cpp:236-244): from the last order to the first. An order that is not composite
is a list of one. -/
def runOrders (shuffle : List (Term n) → List (Term n)) (os : List PartOrder) (G : List (Term n)) : List (Term n) :=
  os.reverse.foldl (PartOrder.run shuffle) G

/-- `getOrdererFactory` (IdealOrderer.cpp:251-268). -/
def ordererFactory : Factory BaseOrder :=
  [("random".toList, .random), ("null".toList, .null), ("lex".toList, .lex), ("revlex".toList, .revlex), ("tdeg".toList, .tdeg),
    ("median".toList, .median), ("posMedian".toList, .posMedian), ("minPos".toList, .minPos), ("max".toList, .max),
    ("support".toList, .support), ("strongGenericity".toList, .strongGenericity), ("weakGenericity".toList, .weakGenericity)]

/-- `createNonCompositeOrderer` (IdealOrderer.cpp:270-277). The inner `none` is the null pointer. -/
def createPartOrder (pre : Text) : Except LookupError (Option PartOrder) :=
  if pre.take 3 = "rev".toList then (ordererFactory.createWithPrefix (pre.drop 3)).map fun b => b.map (PartOrder.mk true)
  else (ordererFactory.createWithPrefix pre).map fun b => b.map (PartOrder.mk false)

/-- The loop of `createIdealOrderer` (IdealOrderer.cpp:285-294): the parts between the underscores. -/
def splitUnderscore : Text → List Text
  | [] => [[]]
  | c :: t =>
    if c = '_' then [] :: splitUnderscore t
    else
      match splitUnderscore t with
      | [] => [[c]]
      | p :: ps => (c :: p) :: ps

/-- `createIdealOrderer` (IdealOrderer.cpp:280-296). -/
def createIdealOrderer (pre : Text) : Except LookupError (Option (List PartOrder)) :=
  ((splitUnderscore pre).mapM createPartOrder).map fun l => l.mapM id

/-! ## `Deformer` -/

/-- Assign to an exponent of a generator. -/
def setExp {k : ℕ} (gens : Fin k → Term n) (i : Fin k) (v : Fin n) (e : ℕ) : Fin k → Term n :=
  Function.update gens i (Function.update (gens i) v e)

/-- The keys of the map `exps` in the order of the map (Deformer.cpp:36-44). -/
def expKeys {k : ℕ} (gens : Fin k → Term n) (v : Fin n) : List ℕ :=
  ((((List.finRange k).map fun i => gens i v).filter (0 < ·)).dedup).insertionSort (· ≤ ·)

/-- The values of the map `exps` (Deformer.cpp:36-44): positions instead of pointers. -/
def expBlock {k : ℕ} (gens : Fin k → Term n) (v : Fin n) (e : ℕ) : List (Fin k) :=
  (List.finRange k).filter fun i => decide (gens i v = e)

/-- The generators and `undeform`. -/
structure DState (n k : ℕ) where
  gens : Fin k → Term n
  und : List ℕ

/-- A new exponent for a generator (Deformer.cpp:56-57, 76-77). -/
def DState.fresh {k : ℕ} (v : Fin n) (s : DState n k) (i : Fin k) : DState n k :=
  ⟨setExp s.gens i v s.und.length, s.und ++ [s.gens i v]⟩

/-- The shared exponent for a generator (Deformer.cpp:74). -/
def DState.share {k : ℕ} (v : Fin n) (shared : ℕ) (s : DState n k) (i : Fin k) : DState n k :=
  ⟨setExp s.gens i v shared, s.und⟩

/-- The loop over a block in the weak case (Deformer.cpp:63-79). -/
def weakLoop {k : ℕ} (v : Fin n) (shared : ℕ) : DState n k → List (Fin k) → DState n k
  | s, [] => s
  | s, i :: rest =>
    if rest.all fun j => strictlyContains (List.ofFn s.gens) (s.gens i ⊔ s.gens j) then weakLoop v shared (s.share v shared i) rest
    else weakLoop v shared (s.fresh v i) rest

/-- A block (Deformer.cpp:50-80). -/
def deformBlock {k : ℕ} (strong : Bool) (v : Fin n) (s : DState n k) : List (Fin k) → DState n k
  | [] => s
  | i :: rest =>
    if strong then (i :: rest).foldl (DState.fresh v) s
    else weakLoop v s.und.length ⟨s.gens, s.und ++ [s.gens i v]⟩ (i :: rest)

/-- `deform` (Deformer.cpp:30-82). -/
def deformVar {k : ℕ} (strong : Bool) (v : Fin n) (gens : Fin k → Term n) : DState n k :=
  ((expKeys gens v).map (expBlock gens v)).foldl (deformBlock strong v) ⟨gens, [0]⟩

/-- The loop of the constructor of `Deformer` (Deformer.cpp:92-93): the generators and `_undeform`. -/
def deformAll {k : ℕ} (strong : Bool) (gens : Fin k → Term n) : (Fin k → Term n) × (Fin n → List ℕ) :=
  (List.finRange n).foldl (fun x v => ((deformVar strong v x.1).gens, Function.update x.2 v (deformVar strong v x.1).und))
    (gens, fun _ => [])

/-- The constructor of `Deformer` (Deformer.cpp:85-97). -/
def deformer (strong : Bool) (order : List (Term n) → List (Term n)) (G : List (Term n)) : List (Term n) × (Fin n → List ℕ) :=
  (List.ofFn (deformAll strong (order G).get).1, (deformAll strong (order G).get).2)

/-- `Deformer::undeform` (Deformer.cpp:99-106); `none` is access out of range. -/
def undeform (und : Fin n → List ℕ) (t : Term n) : Option (Term n) :=
  if ∀ v, t v < (und v).length then some fun v => (und v).getD (t v) 0 else none

/-! ## `IdealTree` -/

/-- The loops that move `left` and `right` (IdealTree.cpp:97-102): `done` has been passed, and the list is what is between
the two including both. -/
def advance (c : Term n → Bool) : (done : List (Term n)) → List (Term n) → List (Term n) × List (Term n)
  | done, g :: h :: t => if c g then advance c (done ++ [g]) (h :: t) else (done, g :: h :: t)
  | done, l => (done, l)

/-- `swap(*left, *right)` (IdealTree.cpp:106-107). -/
def swapEnds : List (Term n) → List (Term n)
  | [] => []
  | g :: t =>
    match t.reverse with
    | [] => [g]
    | l :: r => l :: (r.reverse ++ [g])

/-- The loop that partitions the range (IdealTree.cpp:95-108): what is before `left`, what is between, what is after
`right`. -/
def partLoop (v : Fin n) (p : ℕ) : ℕ → List (Term n) → List (Term n) → List (Term n) →
    Option (List (Term n) × List (Term n) × List (Term n))
  | 0, _, _, _ => none
  | fuel + 1, l, m, r =>
    if m.length ≤ 1 then some (l, m, r)
    else
      let x := advance (fun g => decide (g v ≤ p)) l m
      let y := advance (fun g => decide (p < g v)) [] x.2.reverse
      partLoop v p fuel x.1 (swapEnds y.2.reverse) (y.1.reverse ++ r)

/-- The two ranges (IdealTree.cpp:90-120). `none` is running out of fuel, or `middle` leaving the range. -/
def partitionRange (v : Fin n) (p : ℕ) (l : List (Term n)) : Option (List (Term n) × List (Term n)) :=
  match partLoop v p (2 * l.length + 2) [] l [] with
  | none => none
  | some (a, m, b) =>
    let front := ((a ++ m).reverse.dropWhile fun g => decide (p < g v)).reverse
    if front = [] then none else some (front, (a ++ m).drop front.length ++ b)

/-- `IdealTree::Node` (IdealTree.cpp:39-60). -/
inductive ITree (n : ℕ)
  | leaf (l : List (Term n))
  | node (lessOrEqual greater : ITree n)

/-- The variable on which to split (IdealTree.cpp:74-77); `none` is access out of range. -/
def splitVar (lcm gcd : Term n) : Option (Fin n) :=
  match List.finRange n with
  | [] => none
  | v :: vs => some (vs.foldl (fun m v => if lcm v - gcd v > lcm m - gcd m then v else m) v)

/-- `IdealTree::Node::makeTree` (IdealTree.cpp:62-132) with the constructor of the nodes, which also calls it
(IdealTree.cpp:41-46), so that it is run twice on each child: the tree, and the range as it is afterwards. -/
def makeNode : ℕ → List (Term n) → Option (ITree n × List (Term n))
  | 0, _ => none
  | fuel + 1, l =>
    if l.length ≤ 60 then some (.leaf l, l)
    else
      match splitVar (lcmOf l) (gcdOf l) with
      | none => none
      | some v =>
        if lcmOf l v = 0 then some (.leaf l, l)
        else
          (partitionRange v ((lcmOf l v + gcdOf l v) / 2) l).bind fun (a, b) =>
          (makeNode fuel a).bind fun (_, a1) =>
          (makeNode fuel b).bind fun (_, b1) =>
          (makeNode fuel a1).bind fun (ta, a2) =>
          (makeNode fuel b1).bind fun (tb, b2) =>
          some (.node ta tb, a2 ++ b2)

/-- `IdealTree::Node::strictlyContains` (IdealTree.cpp:134-146). -/
def ITree.strictlyContains : ITree n → Term n → Bool
  | .leaf l, t => Frobby.strictlyContains l t
  | .node a b, t => a.strictlyContains t || b.strictlyContains t

/-! ## `ScarfHilbertAlgorithm` -/

/-- `ScarfHilbertAlgorithm::State`: the sign, the lcm, the generators from the position on and the face. -/
structure EState (n : ℕ) where
  plus : Bool
  term : Term n
  rest : List (Term n)
  face : List (Term n)

/-- The loops of `doEnumerationStep` (ScarfHilbertAlgorithm.cpp:198-236) and `enumerateScarfComplex`
(ScarfHilbertAlgorithm.cpp:262-272), with the base case (ScarfHilbertAlgorithm.cpp:247): what is consumed. The head of the
list is `_states[activeStateCount-1]`; `needed` is the size of `_states`. `none` is running out of fuel or of states. -/
def enumLoop (T : ITree n) (needed : ℕ) : ℕ → List (EState n) → Option (List (ℤ × Term n))
  | 0, _ => none
  | _, [] => some []
  | fuel + 1, s :: stack =>
    if stack.length + 1 < needed then
      if s.face.length = n then (enumLoop T needed fuel stack).map fun outs => (if s.plus then 1 else -1, s.term) :: outs
      else
        match s.rest with
        | [] => (enumLoop T needed fuel stack).map fun outs => (if s.plus then 1 else -1, s.term) :: outs
        | g :: gs =>
          let cur : EState n := ⟨s.plus, s.term, gs, s.face⟩
          if (s.face.any fun f => decide (Term.strictlyDivides f (s.term ⊔ g))) || T.strictlyContains (s.term ⊔ g) then
            enumLoop T needed fuel (cur :: stack)
          else enumLoop T needed fuel (⟨!s.plus, s.term ⊔ g, gs, s.face ++ [g]⟩ :: cur :: stack)
    else none

/-- `ScarfHilbertAlgorithm::enumerateScarfComplex` and `initializeEnumeration` (ScarfHilbertAlgorithm.cpp:141-172,
254-273). -/
def enumerateFaces (G : List (Term n)) : Option (List (ℤ × Term n)) :=
  (makeNode (G.length + 1) G).bind fun (T, _) =>
    enumLoop T (G.length + 2) (2 ^ (G.length + 1)) (if (0 : Term n) ∈ G then [] else [⟨true, 0, G, []⟩])

/-- `ScarfParams`: the orders are what they do to the generators. -/
structure ScarfOpts (n : ℕ) where
  strong : Bool
  enumOrder : List (Term n) → List (Term n)
  deformOrder : List (Term n) → List (Term n)

/-- `ScarfHilbertAlgorithm::runGeneric` up to what `UndeformConsumer` consumes, undeformed
(ScarfHilbertAlgorithm.cpp:56-59, 113-130). -/
def scarfRun (o : ScarfOpts n) (G : List (Term n)) : Option (List (ℤ × Term n)) :=
  (enumerateFaces (o.enumOrder (deformer o.strong o.deformOrder G).1)).bind fun outs =>
    outs.mapM fun x => (undeform (deformer o.strong o.deformOrder G).2 x.2).map fun t => (x.1, t)

/-- `ScarfFacade::computeMultigradedHilbertSeries` (ScarfFacade.cpp:44-58): the calls of `consume`, by `UndeformConsumer`
(ScarfHilbertAlgorithm.cpp:69-70, 73-78). -/
def facadeScarf (o : ScarfOpts n) (order : List (ℤ × Term n) → List (ℤ × Term n)) (canonical : Bool) (G : List (Term n)) :
    Option (List (ℤ × (Fin n → ℤ))) :=
  (scarfRun o (setIdeal G).2).bind fun outs =>
    (hashFeed (fun a b => lexLE b a) order canonical (outs.foldl (fun m x => hashAdd x.1 x.2 m) [])).mapM fun x =>
      ((setIdeal G).1.translate x.2).map fun t => (x.1, t)

/-- `ScarfFacade::computeUnivariateHilbertSeries` (ScarfFacade.cpp:60-74): the calls of `consume`, by `UndeformConsumer`
(ScarfHilbertAlgorithm.cpp:61-68, 73-78). -/
def facadeScarfUnivariate (o : ScarfOpts n) (order : List (ℤ × ℤ) → List (ℤ × ℤ)) (canonical : Bool) (G : List (Term n)) :
    Option (List (ℤ × ℤ)) :=
  (scarfRun o (setIdeal G).2).bind fun outs =>
    (outs.mapM fun x => (translatedDegree (setIdeal G).1 x.2).map fun d => (x.1, d)).map fun l =>
      hashFeed (· ≥ ·) order canonical (l.foldl (fun m x => hashAdd x.1 x.2 m) [])

/-- `createIdealOrderer` with names that are known (ScarfFacade.cpp:33-36) and the default of the other option
(ScarfParams.cpp:26-33). -/
def ScarfOpts.named (shuffle : List (Term n) → List (Term n)) (strong : Bool) (enum deform : Text) : Option (ScarfOpts n) :=
  match createIdealOrderer enum, createIdealOrderer deform with
  | .ok (some a), .ok (some b) => some ⟨strong, runOrders shuffle a, runOrders shuffle b⟩
  | _, _ => none

end Frobby
