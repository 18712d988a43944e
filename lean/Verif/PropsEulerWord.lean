import Verif.PropsEuler
import Verif.EulerWordRun

/-!
# C73: the algorithm for Euler characteristics stays inside its arrays

`EulerModel` runs the algorithm on lists of sets. Here the same algorithm runs on the words of memory that the code uses: every
state has one array for its generators, which is made once with the size for the ideal and for its transpose, and one for its
eliminated variables; the simplifications share one term; newly allocated memory holds anything. The theorems say that the run on
words is the run on sets, for all contents of new memory, so that it never leaves an array and that the value is the Euler
characteristic.
-/

namespace Frobby

open EulerState

/-- C73: on an ideal with no generator dividing another the run on words is the run on sets: the same value or the same reason to
stop, for every configuration, all contents of new memory, every sequence of random numbers and every number of rounds. -/
theorem C73_run {V : ℕ} {gens : List (Finset ℕ)} {I : RsfIdeal} (hI : Holds I V gens)
    (ha : gens.Pairwise fun a b => ¬ a ⊆ b ∧ ¬ b ⊆ a) (cfg : EulerConfig) (junk : ℕ → ℕ → Junk) (fuel : ℕ) (tape : List ℕ) :
    computeEulerCharacteristicWords cfg junk fuel I tape = computeEulerCharacteristic cfg fuel ⟨V, gens⟩ tape := by
  have ha : Antichain gens := ha
  unfold computeEulerCharacteristicWords computeEulerCharacteristic
  rw [hI.genCount, hI.varCount]
  simp only
  by_cases h0 : gens.length = 0
  · rw [if_pos h0, if_pos h0]
  · rw [if_neg h0, if_neg h0]
    by_cases hV : V = 0
    · rw [if_pos hV, if_pos hV]
    · rw [if_neg hV, if_neg hV]
      have hpos : 0 < V := by omega
      have hsub : ∀ g ∈ gens, g ⊆ Finset.range V := fun g hg => by
        obtain ⟨i, hi, rfl⟩ := List.getElem_of_mem hg
        exact (hI.terms i hi).sub
      obtain ⟨w, h1, h2⟩ := construct_rep hpos hI (junk fuel (fuel + 1))
      rw [h1]
      refine computeEuler_rep cfg junk (Nat.le_refl _) fuel tape h2 (construct_ok hsub ha) ⟨0, hpos, ?_⟩ ?_
      · simp [EulerState.construct]
      · change 0 < gens.length
        omega

/-- C73: the run never reads or writes outside of an array. -/
theorem C73_inside {V : ℕ} {gens : List (Finset ℕ)} {I : RsfIdeal} (hI : Holds I V gens)
    (ha : gens.Pairwise fun a b => ¬ a ⊆ b ∧ ¬ b ⊆ a) (cfg : EulerConfig) (junk : ℕ → ℕ → Junk) (fuel : ℕ) (tape : List ℕ) :
    computeEulerCharacteristicWords cfg junk fuel I tape ≠ .error .outOfRange := by
  rw [C73_run hI ha]
  intro h
  have := computeEulerCharacteristic_spec cfg fuel (I := ⟨V, gens⟩) (fun g hg => by
    obtain ⟨i, hi, rfl⟩ := List.getElem_of_mem hg
    exact (hI.terms i hi).sub) ha tape
  rw [h] at this
  rcases this with h1 | ⟨_, h1 | ⟨h1, _⟩⟩ <;> cases h1

/-- C73: what new memory holds and where in its array the ideal is makes no difference. -/
theorem C73_junk {V : ℕ} {gens : List (Finset ℕ)} {I J : RsfIdeal} (hI : Holds I V gens) (hJ : Holds J V gens)
    (ha : gens.Pairwise fun a b => ¬ a ⊆ b ∧ ¬ b ⊆ a) (cfg : EulerConfig) (junk junk' : ℕ → ℕ → Junk) (fuel : ℕ) (tape : List ℕ) :
    computeEulerCharacteristicWords cfg junk fuel I tape = computeEulerCharacteristicWords cfg junk' fuel J tape := by
  rw [C73_run hI ha, C73_run hJ ha]

/-- C73: the value is the Euler characteristic of the complex of the complements of the sets that contain a generator. Excluded are
the configuration for which the set version gives a wrong value and the strategies with which it need not end (see C47). -/
theorem C73_value_partial {V : ℕ} {gens : List (Finset ℕ)} {I : RsfIdeal} (hI : Holds I V gens)
    (ha : gens.Pairwise fun a b => ¬ a ⊆ b ∧ ¬ b ⊆ a) {cfg : EulerConfig}
    (hs : cfg.uniqueDiv = true ∨ (cfg.manyDiv = true ∨ cfg.allPairs = false) ∧ cfg.pivot.usesTerms = false)
    (hr : cfg.pivot.isRandom = false) (junk : ℕ → ℕ → Junk) (tape : List ℕ) {fuel : ℕ}
    (hf : (V + gens.length + 1) ^ 2 + 2 ^ (V + gens.length + 1) ≤ fuel) :
    computeEulerCharacteristicWords cfg junk fuel I tape = .ok (eulerCharacteristic (dualFaces V gens)) := by
  have hsub : ∀ g ∈ gens, g ⊆ Finset.range V := fun g hg => by
    obtain ⟨i, hi, rfl⟩ := List.getElem_of_mem hg
    exact (hI.terms i hi).sub
  rw [C73_run hI ha]
  have h1 := computeEulerCharacteristic_spec cfg fuel (I := ⟨V, gens⟩) hsub ha tape
  have h2 := computeEulerCharacteristic_fuel cfg (fun h => hs.elim id fun h' => by rw [h'.2] at h; cases h) fuel (I := ⟨V, gens⟩) hsub ha tape hf
  rcases e : computeEulerCharacteristic cfg fuel ⟨V, gens⟩ tape with e' | a
  · rw [e] at h1 h2
    rcases h1 with rfl | ⟨h1, _⟩
    · exact absurd rfl h2
    · rw [hr] at h1
      cases h1
  · rw [e] at h1
    rw [h1 (hs.elim Or.inl fun h => Or.inr h.1)]

/-- C73: the action from the ideal that was read to the number that it prints, with or without `-swap01`, on words and on sets. -/
theorem C73_action {V : ℕ} (hV : 0 < V) {gens : List (Finset ℕ)} {I : RsfIdeal} (hI : Holds I V gens) (o : EulerOptions)
    {cfg : EulerConfig} (hc : eulerConfig o = some cfg) (junk : ℕ → ℕ → Junk) (fuel : ℕ) (tape : List ℕ) :
    eulerAction o fuel ⟨V, gens⟩ tape = some (eulerActionWords cfg o.swap01 junk fuel I tape) := by
  have key : ∀ {J : RsfIdeal} {l : List (Finset ℕ)}, Holds J V l →
      (checked J.minimize >>= fun J => computeEulerCharacteristicWords cfg junk fuel J tape) =
        computeEulerCharacteristic cfg fuel (SqIdeal.minimize ⟨V, l⟩) tape := by
    intro J l hJ
    obtain ⟨K, h1, h2⟩ := minimize_holds hV hJ
    rw [h1]
    exact C73_run h2 (sqMinimize_minimizes l).anti cfg junk fuel tape
  unfold eulerAction eulerActionWords
  rw [hc, Option.map_some]
  congr 1
  cases o.swap01 with
  | false => exact (key hI).symm
  | true =>
    obtain ⟨J, h1, h2⟩ := swap01_holds hV hI
    simp only [if_true, h1]
    exact (key h2).symm

/-- C73: with the default options the action on words gives the Euler characteristic of the complex. -/
theorem C73_default {V : ℕ} (hV : 0 < V) {gens : List (Finset ℕ)} {I : RsfIdeal} (hI : Holds I V gens) (swap : Bool)
    (junk : ℕ → ℕ → Junk) {fuel : ℕ} (hf : (V + gens.length + 1) ^ 2 + 2 ^ (V + gens.length + 1) ≤ fuel) :
    eulerActionWords ⟨.gen .raremax, true, true, false, true, true⟩ swap junk fuel I [] =
      .ok (eulerCharacteristic (if swap then facetFaces V gens else dualFaces V gens)) := by
  have h1 := C73_action hV hI { swap01 := swap } (cfg := ⟨.gen .raremax, true, true, false, true, true⟩) (by cases swap <;> rfl)
    junk fuel []
  rw [C47_euler_default (I := ⟨V, gens⟩) (fun g hg => by
    obtain ⟨i, hi, rfl⟩ := List.getElem_of_mem hg
    exact (hI.terms i hi).sub) swap hf] at h1
  exact (Option.some.inj h1).symm

/-! ### The room of a state -/

/-- C73: the bytes that the code asks for are those of the array in the model, behind the other members, unless the number of bytes
for one of the two orders overflows. -/
theorem C73_sizes {V G : ℕ} (hV : V < 2 ^ 64) (hG : G < 2 ^ 64) (junk : Junk)
    (h1 : 32 + 8 * (max 1 ((V + 63) / 64) * G) < 2 ^ 64) (h2 : 32 + 8 * (max 1 ((G + 63) / 64) * V) < 2 ^ 64) :
    max (bytesOfMemoryFor V G) (bytesOfMemoryFor G V) = 32 + 8 * (EulerWords.rawConstruct junk V G).ideal.memory.length ∧
      (EulerWords.rawConstruct junk V G).eliminated.length = max (max 1 ((V + 63) / 64)) (max 1 ((G + 63) / 64)) := by
  rw [C49_bytesOfMemory hV hG, C49_bytesOfMemory hG hV, if_pos h1, if_pos h2]
  simp only [EulerWords.rawConstruct, rsfConstruct, junk_length]
  rw [wordCount_eq, wordCount_eq]
  refine ⟨?_, rfl⟩
  generalize max 1 ((V + 63) / 64) * G = a
  generalize max 1 ((G + 63) / 64) * V = b
  omega

/-- C73: if only one of the two sizes overflows then the code goes on with the other, which is too small. -/
theorem C73_sizes_wrong :
    max (bytesOfMemoryFor 1 (2 ^ 61)) (bytesOfMemoryFor (2 ^ 61) 1) = 32 + 8 * 2 ^ 55 ∧ (32 + 8 * 2 ^ 55 : ℕ) < 32 + 8 * (1 * 2 ^ 61) := by
  decide +kernel

/-- C73: a new state has the room for its transpose: transposing it gives the sets, for every variable, of the generators that it
divides, without those that contain another. -/
theorem C73_transpose_fits {V : ℕ} (hV : 0 < V) {gens : List (Finset ℕ)} {I : RsfIdeal} (hI : Holds I V gens) (hne : gens ≠ [])
    (junk junk' : Junk) :
    ∃ w w', EulerWords.construct junk I = .ok w ∧ w.transpose junk' = .ok w' ∧
      Holds w'.ideal gens.length (EulerState.construct ⟨V, gens⟩).transpose.ideal.gens := by
  obtain ⟨w, h1, h2⟩ := construct_rep hV hI junk
  obtain ⟨w', h3, h4⟩ := h2.transpose (List.length_pos_of_ne_nil hne) junk'
  exact ⟨w, w', h1, h3, h4.holds⟩

/-! ### A variable is left -/

/-- C73: every split of a state with at least two generators leaves in both states a variable that has not been eliminated. This is
what `compactIfProfitable` needs. -/
theorem C73_splits_keep_variable {s : EulerState} (h : StateOk s) (h2 : 1 < s.genCount) :
    (∀ v, ELive (s.stdSplitVar v).1 ∧ ELive (s.stdSplitVar v).2) ∧
      (∀ g ∈ s.ideal.gens, ∀ t ⊆ g, ELive (s.stdSplit t).1 ∧ ELive (s.stdSplit t).2) ∧
      ∀ i a b, s.genSplit i = .ok (a, b) → ELive a ∧ ELive b :=
  ⟨live_stdSplitVar h h2, fun _ hg _ ht => live_stdSplit h h2 hg ht, fun _ _ _ e => live_genSplit h h2 e⟩

/-- C73: without that the words would not do what the sets do: a state of 65 variables that have all been eliminated becomes one of
no variables, whose full support is then looked for in a word that nobody set to zero. -/
theorem C73_no_variable_wrong :
    ∃ (w : EulerWords) (s : EulerState), w.ideal.varCount = 65 ∧ StateOk s ∧ Holds w.ideal s.varCount s.ideal.gens ∧
      readWords w.eliminated 0 2 = some [~~~0, 1] ∧ s.eliminated = Finset.range 65 ∧
      (w.compactIfProfitable >>= baseCaseWords 0) = .ok (some 0) ∧ baseCaseSimple1 0 s.compactIfProfitable = some 1 := by
  refine ⟨⟨⟨65, 2, 0, 0, []⟩, [~~~0, 1], 1⟩, ⟨⟨65, []⟩, Finset.range 65, 1⟩, rfl, ⟨Finset.Subset.refl _, by simp, by simp, .nil⟩, ?_,
    by decide +kernel, rfl, ?_, by decide +kernel⟩
  · exact ⟨rfl, by decide, rfl, rfl, Nat.le_refl _, fun i hi => absurd hi (Nat.not_lt_zero _)⟩
  · decide +kernel

/-! ### Examples -/

/-- New memory that is full of ones, and new memory that is not. -/
def onesJunk : ℕ → ℕ → Junk := fun _ _ _ _ => ~~~0

/-- Different words for every allocation. -/
def mixedJunk : ℕ → ℕ → Junk := fun i j k n => BitVec.ofNat 64 (i * 1000003 + j * 7919 + k * 104729 + n * 31 + 5)

/-- The words of the generators of the circle of three edges, in an array that is larger than it has to be. -/
def circleWords : RsfIdeal := ⟨3, 1, 3, 3, [3, 6, 5, 77]⟩

theorem circleWords_holds : Holds circleWords 3 [{0, 1}, {1, 2}, {0, 2}] := by
  have p0 : Packs 3 [3] {0, 1} := ⟨by decide, by decide, by decide +kernel⟩
  have p1 : Packs 3 [6] {1, 2} := ⟨by decide, by decide, by decide +kernel⟩
  have p2 : Packs 3 [5] {0, 2} := ⟨by decide, by decide, by decide +kernel⟩
  refine ⟨rfl, by decide, rfl, rfl, by decide, fun i hi => ?_⟩
  have hi : i < 3 := hi
  match i, hi with
  | 0, _ => exact p0
  | 1, _ => exact p1
  | 2, _ => exact p2

example : computeEulerCharacteristicWords ⟨.gen .raremax, false, false, false, true, true⟩ onesJunk 20 circleWords [] = .ok 2 := by
  rw [C73_run circleWords_holds (by decide)]
  decide +kernel

example : computeEulerCharacteristicWords ⟨.std .popgcd, false, false, false, true, true⟩ mixedJunk 20 circleWords [] = .ok 2 := by
  rw [C73_run circleWords_holds (by decide)]
  decide +kernel

example : eulerCharacteristic (dualFaces 3 [{0, 1}, {1, 2}, {0, 2}]) = 2 := by decide +kernel

/-- The same through the action, and with a strategy of random pivots that gets no random number. -/
example : eulerActionWords ⟨.gen .raremax, true, true, false, true, true⟩ true mixedJunk 300 circleWords [] = .ok (-1) := by
  rw [C73_default (by decide) circleWords_holds true mixedJunk (by decide)]
  decide +kernel

example : computeEulerCharacteristicWords ⟨.std .random, false, false, false, false, false⟩ onesJunk 20 circleWords [] =
    .error .tapeEnd := by
  rw [C73_run circleWords_holds (by decide)]
  decide +kernel

/-- A state with two generators, as the splits need. -/
example : StateOk ⟨⟨3, [{0, 1}, {1, 2}, {0, 2}]⟩, ∅, 1⟩ ∧ 1 < (⟨⟨3, [{0, 1}, {1, 2}, {0, 2}]⟩, ∅, 1⟩ : EulerState).genCount :=
  ⟨⟨by decide, by decide, by decide, by unfold Antichain Incomp; decide⟩, by decide⟩

example : 32 + 8 * (max 1 ((70 + 63) / 64) * 3) < 2 ^ 64 ∧
    max (bytesOfMemoryFor 70 3) (bytesOfMemoryFor 3 70) = 32 + 8 * (EulerWords.rawConstruct (onesJunk 0 0) 70 3).ideal.memory.length := by
  decide +kernel

end Frobby
