import Verif.TranslatorModel
import Verif.PolyModel

/-!
# Model of the API functions for Hilbert-Poincaré series
-/

namespace Frobby

variable {n : ℕ}

/-- `SliceFacade::computeMultigradedHilbertSeries` (SliceFacade.cpp:78-91) with `TranslatingCoefTermConsumer`
(TranslatingCoefTermConsumer.cpp:55-59): the terms given to the consumer. -/
def facadeMultigradedHilbert (o : Opts) (rnd : List ℕ → ℕ → ℕ) (G : List (Term n)) : Option (List (ℤ × (Fin n → ℤ))) :=
  match hilbertRun o rnd (setIdeal G).2 with
  | none => none
  | some outs => outs.mapM fun x => ((setIdeal G).1.translate x.2).map fun t => (x.1, t)

/-- `TotalDegreeCoefTermConsumer::consume` (TotalDegreeCoefTermConsumer.cpp:48-60). -/
def totalDegreeConsume (T : Translator n) (poly : List (ℤ × ℤ)) (x : ℤ × Term n) : Option (List (ℤ × ℤ)) :=
  if x.1 = 0 then some poly
  else (T.translate x.2).map fun t => hashAdd x.1 (((List.finRange n).map t).sum) poly

/-- `SliceFacade::computeUnivariateHilbertSeries` (SliceFacade.cpp:93-107) with `TotalDegreeCoefTermConsumer`
(TotalDegreeCoefTermConsumer.cpp:48-64). `order` is the order in which the hash table is traversed. -/
def facadeUnivariateHilbert (o : Opts) (rnd : List ℕ → ℕ → ℕ) (order : List (ℤ × ℤ) → List (ℤ × ℤ)) (G : List (Term n)) :
    Option (List (ℤ × ℤ)) :=
  match hilbertRun o rnd (setIdeal G).2 with
  | none => none
  | some outs => (outs.foldlM (totalDegreeConsume (setIdeal G).1) []).map fun poly => hashFeed (· ≥ ·) order true poly

/-- `Frobby::multigradedHilbertPoincareSeries` (frobby.cpp:303-313). -/
def multigradedHilbertPoincareSeries (rnd : List ℕ → ℕ → ℕ) (G : List (Term n)) : Option (List (PolyEvent n)) :=
  (facadeMultigradedHilbert apiOpts rnd G).map PolyEvent.block

/-- `Frobby::univariateHilbertPoincareSeries` (frobby.cpp:315-324). -/
def univariateHilbertPoincareSeries (rnd : List ℕ → ℕ → ℕ) (order : List (ℤ × ℤ) → List (ℤ × ℤ)) (G : List (Term n)) :
    Option (List (PolyEvent 1)) :=
  (facadeUnivariateHilbert apiOpts rnd order G).map fun p => PolyEvent.block (p.map fun x => (x.1, fun _ => x.2))

end Frobby
