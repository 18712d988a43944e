import Verif.FrobModel
import Verif.OptimizeActionModel

/-!
# Model of the actions `frobgrob`, `frobdyn` and `genfrob` on texts (src/FrobeniusAction.cpp, src/DynamicFrobeniusAction.cpp, src/GenerateFrobeniusAction.cpp)
-/

namespace Frobby

variable {n : ℕ}

/-- The second loop of `fourti2::readTerm` (fourti2.cpp:37-41). -/
def readNonNegatives : ℕ → Text → Option (List ℕ × Text)
  | 0, t => some ([], t)
  | k + 1, t => (readNonNegative t).bind fun p => (readNonNegatives k p.2).map fun q => (p.1 :: q.1, q.2)

/-- `fourti2::readTerm` (fourti2.cpp:26-42). -/
def readGrobnerTerm (varCount : ℕ) (t : Text) : Option (List ℕ × Text) :=
  (readNonNegative t).bind fun p => if 0 < p.1 then none else readNonNegatives varCount p.2

/-- The loop of `fourti2::readGrobnerBasis` (fourti2.cpp:59-60). -/
def readGrobnerTerms (varCount : ℕ) : ℕ → Text → Option (List (List ℕ) × Text)
  | 0, t => some ([], t)
  | k + 1, t => (readGrobnerTerm varCount t).bind fun p => (readGrobnerTerms varCount k p.2).map fun q => (p.1 :: q.1, q.2)

/-- `fourti2::readGrobnerBasis` (fourti2.cpp:44-61). -/
def readGrobnerBasis (t : Text) : Option (NamedIdeal × Text) :=
  (readSizeT t).bind fun termCount => (readSizeT termCount.2).bind fun varCount =>
    if varCount.1 = 0 then none
    else (readGrobnerTerms (varCount.1 - 1) termCount.1 varCount.2).map fun p => ({ names := defaultNames (varCount.1 - 1), terms := p.1 }, p.2)

/-- The loop of `readFrobeniusInstance` (IOHandler.cpp:165-177). The first argument bounds the number of integers. The length of the input is enough,
since every integer takes at least one character. -/
def readBigIntegers : ℕ → Text → Option (List ℤ)
  | 0, _ => none
  | fuel + 1, t =>
    if matchEOF t then some []
    else (readInteger t).bind fun p => if p.1 ≤ 1 then none else (readBigIntegers fuel p.2).map fun l => p.1 :: l

/-- `readFrobeniusInstance` (IOHandler.cpp:160-196). -/
def readFrobeniusInstance (t : Text) : Option (List ℤ) :=
  (readBigIntegers (t.length + 1) t).bind fun l => if l = [] then none else if gcdLoop l ≠ 1 then none else some l

/-- `IOFacade::readFrobeniusInstanceWithGrobnerBasis` (IOFacade.cpp:274-301). That the input is at its end is known afterwards. -/
def readFrobeniusInstanceWithGrobnerBasis (t : Text) : Option (NamedIdeal × List ℤ) :=
  (readGrobnerBasis t).bind fun p => (readFrobeniusInstance p.2).bind fun a => if a.length ≠ p.1.names.length + 1 then none else some (p.1, a)

/-- The options of `frobgrob` (FrobeniusAction.cpp:45-51). Those on the bound have no effect (see `OptimizeOpts.params`). -/
structure FrobgrobOpts extends ActionOpts where
  split := t!"frob"
  vector : Bool := false

/-- The parameters of the facade (SliceParams.cpp:49-59, SliceFacade.cpp:382-396). -/
def FrobgrobOpts.params (o : FrobgrobOpts) : OptParams :=
  { opts := { simp := o.simplify, indep := false, split := (createSplit o.split).getD .median }
    boundElimination := true, boundSimplification := true, all := false }

/-- What is printed for the solution (FrobeniusAction.cpp:92-103). -/
def frobgrobOutput (vector : Bool) (a : List ℤ) (u : Fin n → ℤ) : Text :=
  (if vector then t!"(-1" ++ (List.ofFn u).flatMap (fun x => t!", " ++ decimalInt x) ++ t!")\n" else []) ++
    numberLine (-a.headD 0 + ∑ i, u i * a.getD (i + 1) 0)

/-- `FrobeniusAction::perform` (FrobeniusAction.cpp:61-104). The first solution is used without a test that there is one. At most one
solution is recorded, so that sorting with `-canon` makes no difference to the recorder. -/
def frobgrobAction (o : FrobgrobOpts) (rnd : List ℕ → ℕ → ℕ) (t : Text) : Outcome Text :=
  if (validateSplit o.split true true).isNone then .error
  else
    match readFrobeniusInstanceWithGrobnerBasis t with
    | none => .error
    | some (I, a) =>
      match solveProgram o.params rnd (prepare o.toActionOpts I).translator.decrement (prepare o.toActionOpts I).ideal fun i => a.getD (i + 1) 0 with
      | none => .crash
      | some (_, []) => .crash
      | some (_, u :: _) => .ok (frobgrobOutput o.vector a u)

/-- `DynamicFrobeniusAction::perform` (DynamicFrobeniusAction.cpp:41-55). It is also `crash` if the loop does not end within the given number of
iterations. -/
def frobdynAction (fuel : ℕ) (t : Text) : Outcome Text :=
  match readFrobeniusInstance t with
  | none => .error
  | some l => ((dynamicFrobenius fuel l).map fun f => Outcome.ok (numberLine f)).getD .crash

/-- `IOFacade::writeFrobeniusInstance` (IOFacade.cpp:303-315). -/
def writeFrobeniusInstance : List ℤ → Text
  | [] => t!"\n"
  | x :: l => decimalInt x ++ l.flatMap (fun y => ' ' :: decimalInt y) ++ t!"\n"

end Frobby
