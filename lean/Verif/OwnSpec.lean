import Verif.OwnModel

/-!
# What it means that nothing is lost and nothing is deleted twice
-/

namespace Frobby.Own

/-- What holds after `f`: `Q` if it returns, `E` if it throws; it does nothing that has no meaning. -/
def After {α : Type} (f : Proc α) (Q : α → Store → Prop) (E : Store → Prop) (s : Store) : Prop :=
  match f s with
  | .ok a s' => Q a s'
  | .threw s' => E s'
  | .running => True
  | .stuck => False

/-- Where code can start: each object is there once, and new addresses are new. -/
structure Sane (s : Store) : Prop where
  nodup : s.live.Nodup
  fresh : ∀ x ∈ s.live, x < s.next

/-- The objects of `s` are those of `l`, each of them once. -/
def Exactly (s : Store) (l : List ℕ) : Prop := s.live.Perm l ∧ l.Nodup

/-- The objects that pointers point to. -/
def targets (v : List Ptr) : List ℕ := v.filterMap id

/-- Uses of a `HilbertBasecase` one after another, each with the splits it makes, a bound on its steps and its ideal. After
exceptions it is used again. -/
def basecaseCalls : List ((ℕ → Bool) × ℕ × ℕ) → Proc Unit
  | [] => pure ()
  | (splits, steps, original) :: calls => do
    caught (computeCoefficient splits steps original) ()
    basecaseCalls calls

end Frobby.Own
