import Verif.FrobBasisExists
import Verif.PropsFrobAction

/-!
# C57: there is an input of `frobgrob` for all numbers

`C57_frobgrob_partial` is about inputs with a Gröbner basis. Here it is shown that all numbers have one, and one that is accepted
with `-minimal`.
-/

namespace Frobby

/-- C57: for all numbers that are an instance of the Frobenius problem there is a Gröbner basis without redundant leading terms. If its size
can be written in an input, then `frobgrob` prints the Frobenius number for it, with all options, except `-canon` for more than ten numbers. -/
theorem C57_basis_exists {a : List ℤ} (ha : Instance a) (hl : a.length < 2 ^ 64) :
    ∃ B : List (List ℤ), RevLexBasis a B ∧ (⟨defaultNames (a.length - 1), B.map fun g => g.tail.map Int.toNat⟩ : NamedIdeal).Minimal ∧
      (B.length < 2 ^ 64 → ∀ (o : FrobgrobOpts) (rnd : List ℕ → ℕ → ℕ), (∃ s, createSplit o.split = some s) → (o.canon = true → a.length ≤ 10) →
        ∃ (F : ℤ) (u : List ℕ), IsFrobenius a F ∧ u.length + 1 = a.length ∧ dot a (-1 :: u.map Int.ofNat) = F ∧ frobgrobAction o rnd (basisText B a) =
          .ok ((if o.vector then t!"(-1" ++ u.flatMap (fun x => t!", " ++ decimal x) ++ t!")\n" else []) ++ decimalInt F ++ t!"\n")) := by
  obtain ⟨B, hB, hn, hd⟩ := RevLexBasis.finite a
  have hpos : 0 < a.length := List.length_pos_iff.2 ha.nonempty
  have key : ∀ g ∈ B, ∀ h ∈ B, List.Forall₂ (· ≤ ·) (g.tail.map Int.toNat) (h.tail.map Int.toNat) → g = h := by
    intro g hg h hh hle
    refine hd g hg h hh ?_
    have h1 := (hB.leads g hg).head_le
    have l1 := hB.length g hg
    have l2 := hB.length h hh
    match g, h, l1, l2, h1, hle with
    | [], _, l1, _, _, _ => simp at l1; omega
    | _, [], _, l2, _, _ => simp at l2; omega
    | x :: g, y :: h, _, _, h1, hle =>
      rw [List.forall₂_map_left_iff, List.forall₂_map_right_iff] at hle
      have h1 : x ≤ 0 := by simpa using h1
      exact .cons (fun h => by omega) (hle.imp fun x y h hx => by
        have : x.toNat ≤ y.toNat := h
        omega)
  have hmin : (⟨defaultNames (a.length - 1), B.map fun g => g.tail.map Int.toNat⟩ : NamedIdeal).Minimal := by
    unfold NamedIdeal.Minimal
    rw [List.pairwise_map]
    exact hn.pairwise_of_forall_ne fun g hg h hh hne => ⟨fun c => hne (key g hg h hh c), fun c => hne (key h hh g hg c).symm⟩
  refine ⟨B, hB, hmin, fun hb o rnd hs hc => ?_⟩
  have ht : frobgrobG B a (basisText B a) [] := C57_basis_written ha.nonempty (fun g hg e => by
    have := hB.length g hg
    rw [e] at this
    simp at this
    omega) hb hl
  exact C57_frobgrob_partial rnd ht ha hB hs (fun _ => hmin) hc

/-- The numbers 3, 5 and 7. -/
example : ∃ B, RevLexBasis [3, 5, 7] B := by
  obtain ⟨B, h, _⟩ := C57_basis_exists example_instance (by decide)
  exact ⟨B, h⟩

end Frobby
