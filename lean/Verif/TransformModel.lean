import Verif.IOModel
import Verif.OrderModel
import Verif.BigattiModel

/-!
# Model of the actions `transform` and `analyze`

`TransformAction`, `AnalyzeAction`, and the functions of `IdealFacade`, `BigIdeal` and `VarSorter` that they use. Exponents that are
read are not negative. Access out of range is `none` or `crash`. `std::sort` is insertion sort: elements that are equivalent in the
order are equal here (see C35 for the orders), so that any way to sort has the same result.
-/

namespace Frobby

/-- What is done with the value if there is one. -/
def Outcome.map {α β : Type} (f : α → β) : Outcome α → Outcome β
  | .ok a => .ok (f a)
  | .error => .error
  | .crash => .crash

namespace NamedIdeal

/-! ## BigIdeal -/

/-- The generators as functions of the place of the variable. -/
def gens (I : NamedIdeal) : List (Term I.names.length) := I.terms.map fun t v => t.getD v 0

/-- `BigIdeal::takeRadical` (BigIdeal.cpp:264-271). -/
def takeRadical (I : NamedIdeal) : NamedIdeal := { I with terms := I.terms.map (·.map fun e => if e > 1 then 1 else e) }

/-- The exponents of generator number `gen` in `BigIdeal::deform` (BigIdeal.cpp:259-261). -/
def deformTerm (genCount gen : ℕ) (t : List ℕ) : List ℕ := t.map fun e => if e > 0 then e * genCount + gen else e

/-- The loop over the generators in `BigIdeal::deform` (BigIdeal.cpp:258-261). -/
def deformFrom (genCount : ℕ) : (gen : ℕ) → List (List ℕ) → List (List ℕ)
  | _, [] => []
  | gen, t :: ts => deformTerm genCount gen t :: deformFrom genCount (gen + 1) ts

/-- `BigIdeal::deform` (BigIdeal.cpp:257-262). -/
def deform (I : NamedIdeal) : NamedIdeal := { I with terms := deformFrom I.terms.length 0 I.terms }

/-- `BigIdeal::projectVar` (BigIdeal.cpp:158-164) with `VarNames::projectVar` (VarNames.cpp:161-169), which leaves the names as they
are if there is no such variable. A generator without that variable is access out of range. -/
def projectVar (v : ℕ) (I : NamedIdeal) : Option NamedIdeal :=
  if I.terms.any fun t => decide (t.length ≤ v) then none
  else some { names := I.names.eraseIdx v, terms := I.terms.map (·.eraseIdx v) }

/-- `BigIdeal::getLcm` (BigIdeal.cpp:143-152), which starts from zero. -/
def lcm (I : NamedIdeal) : List ℕ :=
  I.terms.foldl (fun l t => List.zipWith (fun a b => if a < b then b else a) l t) (List.replicate I.names.length 0)

/-- `BigIdeal::contains` (BigIdeal.cpp:207-216). -/
def contains (I : NamedIdeal) (t : List ℕ) : Bool := I.terms.any fun g => (List.zip g t).all fun p => !decide (p.1 > p.2)

/-- `OffsetTermCompare` (BigIdeal.cpp:33-45) for exponents that are not negative. -/
def termLess (a b : List ℕ) : Bool := bigTermLess (a.map Int.ofNat) (b.map Int.ofNat)

/-- `BigIdeal::sortGenerators` (BigIdeal.cpp:280-296). -/
def sortGenerators (I : NamedIdeal) : NamedIdeal := { I with terms := I.terms.insertionSort fun a b => termLess b a = false }

/-- `std::unique` on generators. -/
def uniqueGens : List (List ℕ) → List (List ℕ)
  | a :: b :: l => if a = b then uniqueGens (b :: l) else a :: uniqueGens (b :: l)
  | l => l

/-- `BigIdeal::sortGeneratorsUnique` (BigIdeal.cpp:273-278). -/
def sortGeneratorsUnique (I : NamedIdeal) : NamedIdeal := { I with terms := uniqueGens I.sortGenerators.terms }

/-- `BigIdeal::operator<` (BigIdeal.cpp:166-190), as used by `TransformAction::compareIdeals` (TransformAction.cpp:227-229). -/
def less (I J : NamedIdeal) : Bool :=
  bigIdealOpLess (I.names, I.terms.map (·.map Int.ofNat)) (J.names, J.terms.map (·.map Int.ofNat))

/-! ## VarSorter -/

/-- `_permutation` of a `VarSorter` (VarSorter.cpp:40-48). -/
def varPermutation (names : List Text) : List ℕ :=
  (List.range names.length).insertionSort fun i j => textLess (names.getD j []) (names.getD i []) = false

/-- `VarSorter::getOrderedNames` (VarSorter.cpp:50-54). -/
def orderedNames (names : List Text) : List Text := (varPermutation names).map fun i => names.getD i []

/-- `BigIdeal::sortVariables` (BigIdeal.cpp:298-303) with `VarSorter::permute` (VarSorter.cpp:56-61). -/
def sortVariables (I : NamedIdeal) : NamedIdeal :=
  { names := orderedNames I.names, terms := I.terms.map fun t => (varPermutation I.names).map fun i => t.getD i 0 }

/-! ## IdealFacade -/

/-- `BigIdeal::insert(ideal, translator)` (BigIdeal.cpp:71-81) into an ideal without generators. -/
def insertTranslated (names : List Text) (T : Translator names.length) (J : List (Term names.length)) : Option NamedIdeal :=
  (J.mapM T.translate).map fun us => { names := names, terms := us.map fun u => (List.ofFn u).map Int.toNat }

/-- `IdealFacade::takeRadical` (IdealFacade.cpp:51-63). -/
def facadeRadical (I : NamedIdeal) : Option NamedIdeal :=
  let J := I.takeRadical
  insertTranslated J.names (Translator.ofGens J.gens) ((Translator.ofGens J.gens).shrinkIdeal J.gens)

/-- `IdealFacade::swap01` (IdealFacade.cpp:65-80). -/
def swap01 (I : NamedIdeal) : NamedIdeal :=
  { I with terms := I.terms.map (·.map fun e => if e = 1 then 0 else if e = 0 then 1 else e) }

/-- `IdealFacade::sortAllAndMinimize` (IdealFacade.cpp:156-169). -/
def facadeMinimize (I : NamedIdeal) : Option NamedIdeal :=
  insertTranslated I.names (Translator.ofGens I.gens) (sortReverseLex (minimize ((Translator.ofGens I.gens).shrinkIdeal I.gens)))

/-- `IdealFacade::deform` (IdealFacade.cpp:37-49), which does not translate back, with `BigIdeal::insert(ideal)`
(BigIdeal.cpp:60-69). -/
def facadeDeform (I : NamedIdeal) : NamedIdeal :=
  let J := I.deform
  { names := J.names, terms := ((Translator.ofGens J.gens).shrinkIdeal J.gens).map fun t => List.ofFn t }

/-- The inner loop of `IdealFacade::takeProducts` (IdealFacade.cpp:147-150): the last term of the result. -/
def productTerm (I : NamedIdeal) : List ℕ := I.terms.foldl (fun p t => List.zipWith (· + ·) p t) (List.replicate I.names.length 0)

/-- `IdealFacade::takeProducts` (IdealFacade.cpp:120-154) into an ideal without generators; `none` is the error that is reported. -/
def takeProducts (names : List Text) (Is : List NamedIdeal) : Option NamedIdeal :=
  if Is.all fun I => decide (names = I.names) then some { names := names, terms := Is.map productTerm } else none

/-- The flags of `IdealFacade::trimVariables` (IdealFacade.cpp:185-193). -/
def isUsed (Is : List NamedIdeal) (v : ℕ) : Bool := Is.any fun I => I.terms.any fun t => decide (t.getD v 0 ≠ 0)

/-- A flag out of range is set (IdealFacade.cpp:191-192). -/
def setsOutOfRange (names : List Text) (Is : List NamedIdeal) : Bool :=
  Is.any fun I => I.terms.any fun t => (t.drop names.length).any fun e => decide (e ≠ 0)

/-- The second loop of `IdealFacade::trimVariables` (IdealFacade.cpp:197-204); the argument is `var` at the head of the loop. -/
def trimLoop (used : ℕ → Bool) : ℕ → List Text × List NamedIdeal → Option (List Text × List NamedIdeal)
  | 0, s => some s
  | v + 1, s =>
    if used v then trimLoop used v s
    else
      match s.2.mapM (projectVar v) with
      | none => none
      | some Is => trimLoop used v (s.1.eraseIdx v, Is)

/-- `IdealFacade::trimVariables` (IdealFacade.cpp:181-207). -/
def trimVariables (names : List Text) (Is : List NamedIdeal) : Option (List Text × List NamedIdeal) :=
  if setsOutOfRange names Is then none else trimLoop (isUsed Is) names.length (names, Is)

/-- `purePower` in the loop of `addPurePowers` (IdealFacade.cpp:215-217, 223). -/
def purePower (n v e : ℕ) : List ℕ := (List.replicate n 0).set v e

/-- The loop of `IdealFacade::addPurePowers` (IdealFacade.cpp:216-224) over the variables that are left; `lcm` is computed before. -/
def addPurePowersLoop (lcm : List ℕ) : List ℕ → NamedIdeal → NamedIdeal
  | [], I => I
  | v :: vs, I =>
    let p := purePower I.names.length v (lcm.getD v 0 + 1)
    addPurePowersLoop lcm vs (if I.contains p then I else { I with terms := I.terms ++ [p] })

/-- `IdealFacade::addPurePowers` (IdealFacade.cpp:209-227). -/
def addPurePowers (I : NamedIdeal) : NamedIdeal := addPurePowersLoop I.lcm (List.range I.names.length) I

/-- The loop over one ideal of `-transpose` (TransformAction.cpp:144-152). -/
def transpose (I : NamedIdeal) : NamedIdeal :=
  { names := defaultNames I.terms.length
    terms := (List.range I.names.length).map fun v => I.terms.map fun t => t.getD v 0 }

end NamedIdeal

/-! ## TransformAction -/

/-- The parameters (TransformAction.h, TransformAction.cpp:40-105). -/
structure TransformOpts where
  canon : Bool := false
  sort : Bool := false
  unique : Bool := false
  minimize : Bool := false
  deform : Bool := false
  radical : Bool := false
  product : Bool := false
  addPurePowers : Bool := false
  trimVariables : Bool := false
  transpose : Bool := false
  swap01 : Bool := false
  projectVar : ℕ := 0

deriving instance DecidableEq for Outcome

/-- The ring and the ideals. -/
abbrev Family := List Text × List NamedIdeal

/-- TransformAction.cpp:141-156: the ring is that of the last ideal, and empty if there is none. -/
def transposeStep (o : TransformOpts) (s : Family) : Family :=
  if o.transpose then
    (match (s.2.map NamedIdeal.transpose).getLast? with
      | none => []
      | some I => I.names, s.2.map NamedIdeal.transpose)
  else s

/-- TransformAction.cpp:158-166. -/
def projectStep (o : TransformOpts) (s : Family) : Option Family :=
  if 0 < o.projectVar ∧ o.projectVar ≤ s.1.length then
    (s.2.mapM (NamedIdeal.projectVar (o.projectVar - 1))).map fun Is => (s.1.eraseIdx (o.projectVar - 1), Is)
  else some s

/-- TransformAction.cpp:168-176; `none` is the error that is reported. -/
def productStep (o : TransformOpts) (s : Family) : Option Family :=
  if o.product then (NamedIdeal.takeProducts s.1 s.2).map fun I => (s.1, [I]) else some s

/-- The first loop over the ideals (TransformAction.cpp:178-192). -/
def changeIdeal (o : TransformOpts) (I : NamedIdeal) : Option NamedIdeal :=
  (if o.radical then I.facadeRadical else some I).bind fun I =>
    let I := if o.swap01 then I.swap01 else I
    (if o.minimize then I.facadeMinimize else some I).bind fun I => some (if o.deform then I.facadeDeform else I)

/-- TransformAction.cpp:194-195. -/
def trimStep (o : TransformOpts) (s : Family) : Option Family :=
  if o.trimVariables then NamedIdeal.trimVariables s.1 s.2 else some s

/-- The second loop over the ideals (TransformAction.cpp:197-210). -/
def arrangeIdeal (o : TransformOpts) (I : NamedIdeal) : NamedIdeal :=
  let I := if o.addPurePowers then I.addPurePowers else I
  let I := if o.canon then I.sortVariables else I
  if o.unique then I.sortGeneratorsUnique else if o.sort || o.canon then I.sortGenerators else I

/-- TransformAction.cpp:212-217. -/
def canonStep (o : TransformOpts) (s : Family) : Family :=
  if o.canon then (NamedIdeal.orderedNames s.1, s.2.insertionSort fun I J => NamedIdeal.less J I = false) else s

/-- What `TransformAction::perform` (TransformAction.cpp:139-217) does with the ring and the ideals. -/
def transformFamily (o : TransformOpts) (s : Family) : Outcome Family :=
  match projectStep o (transposeStep o s) with
  | none => .crash
  | some s =>
    match productStep o s with
    | none => .error
    | some s =>
      match s.2.mapM (changeIdeal o) with
      | none => .crash
      | some Is =>
        match trimStep o (s.1, Is) with
        | none => .crash
        | some s => .ok (canonStep o (s.1, s.2.map (arrangeIdeal o)))

/-- `TransformAction::perform` (TransformAction.cpp:125-221) with input in the format `f` and output in the format `g`. -/
def transformText (o : TransformOpts) (f g : IOFormat) (t : Text) : Outcome Text :=
  match readIdeals f t with
  | none => .error
  | some (Is, names) =>
    match transformFamily o (names, Is) with
    | .ok s => .ok (writeIdeals g s.1 s.2)
    | .error => .error
    | .crash => .crash

end Frobby
