import Verif.ColonLemmas
import Mathlib.Data.Fin.VecNotation

/-!
# C18, C19: minimization and colon of generator lists

The statements use only `mem`, `Anti`, `MinGens` (Spec.lean) and the order on exponent vectors.
-/

namespace Frobby

variable {n : ℕ}

/-- C18: on every path (two variables, few generators, split tree) `minimize` returns exactly the
generators not properly divisible by another one, each once. -/
theorem C18_minimize (L : List (Term n)) :
    (∀ g, g ∈ minimize L ↔ g ∈ L ∧ ∀ h ∈ L, h ≤ g → h = g) ∧ (minimize L).Nodup ∧
      ∀ m, mem (minimize L) m ↔ mem L m := by
  have h := minimize_minGens L
  refine ⟨fun g => ⟨fun hg => ⟨h.subset g hg, fun k hk hle => ?_⟩, fun ⟨hg, hmin⟩ => ?_⟩,
    h.anti.nodup, h.mem_iff⟩
  · obtain ⟨k', hk', hle'⟩ := (h.mem_iff k).2 (mem_self hk)
    have := h.anti.eq_of_le hk' hg (hle'.trans hle)
    subst this
    exact le_antisymm hle hle'
  · obtain ⟨k, hk, hle⟩ := (h.mem_iff g).2 (mem_self hg)
    exact hmin k (h.subset k hk) hle ▸ hk

/-- C18: the result does not depend on the order or multiplicity of the input generators, only on the ideal. -/
theorem C18_minimize_canonical (L L' : List (Term n)) (h : ∀ m, mem L m ↔ mem L' m) :
    (minimize L).Perm (minimize L') :=
  anti_unique_perm (minimize_minGens L).anti (minimize_minGens L').anti fun m => by
    rw [(minimize_minGens L).mem_iff, (minimize_minGens L').mem_iff, h]

/-- C18: the tree-based algorithm (used from 1000 generators on) on its own agrees for every input. -/
theorem C18_tree (L : List (Term n)) : MinGens (makeTree L).collect L := makeTree_collect L

/-- C18: insertion into a minimally generated ideal keeps it minimally generated. -/
theorem C18_insertReminimize (t : Term n) (G : List (Term n)) (hG : Anti G) :
    MinGens (insertReminimize t G) (G ++ [t]) := insertReminimize_spec t G hG

/-- C19: colon of a minimally generated ideal by a monomial: the result is minimally generated, generates the
colon ideal, and the flag says exactly whether some generator lost a variable. -/
theorem C19_colonReminimize (p : Term n) (G : List (Term n)) (hG : Anti G) :
    (∀ m, mem (colonReminimize p G).1 m ↔ mem G (m + p)) ∧ Anti (colonReminimize p G).1 ∧
      ((colonReminimize p G).2 = true ↔ ∃ g ∈ G, ∃ i, 0 < g i ∧ g i ≤ p i) ∧
      (∀ r ∈ (colonReminimize p G).1, ∃ g ∈ G, ∀ i, r i = g i - p i) ∧
      ((colonReminimize p G).2 = false → (colonReminimize p G).1.length = G.length) := by
  have h := colonReminimize_colonSpec p G hG
  refine ⟨h.mem_iff, h.minGens.anti, h.flag, fun r hr => ?_, fun hf => ?_⟩
  · obtain ⟨g, hg, rfl⟩ := List.mem_map.1 (h.minGens.subset r hr)
    exact ⟨g, hg, fun _ => rfl⟩
  · simpa using (h.perm hf).length_eq

/-! Concrete cases. -/

/-- `⟨x^2, x y, y^3, x^2 y⟩` loses exactly its redundant generator. -/
example : (minimize [![2, 0, 0], ![1, 1, 0], ![0, 3, 0], ![2, 1, 0]]).length = 3 := by decide

/-- the colon of `⟨x^2, x y, y^3⟩` by `x y` is the whole ring. -/
example : Anti [![2, 0, 0], ![1, 1, 0], ![0, 3, 0]] ∧
    colonReminimize ![1, 1, 0] [![2, 0, 0], ![1, 1, 0], ![0, 3, 0]] = ([![0, 0, 0]], true) := by
  unfold Anti; decide

/-- the colon of `⟨x^2, x y, y^3⟩` by `x` is `⟨x, y⟩`. -/
example : colonReminimize ![1, 0, 0] [![2, 0, 0], ![1, 1, 0], ![0, 3, 0]] =
    ([![1, 0, 0], ![0, 1, 0]], true) := by decide

end Frobby
