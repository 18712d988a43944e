import Verif.RsfQuery
import Verif.RsfCount
import Verif.EulerState

/-!
# C49: ideals of packed terms behave as lists of sets
-/

namespace Frobby

/-- Three generators in 70 variables, and words for two more. -/
def rsfExample : RsfIdeal := ⟨70, 2, 3, 6, [5, 32, 8, 1, 5, 0, 99, 99, 99, 99]⟩

theorem packs_of_words {a0 a1 : Word} {s : Finset ℕ} (hs : s ⊆ Finset.range 70)
    (h : (List.range 128).all fun v => bitOf [a0, a1] v == decide (v ∈ s)) : Packs 70 [a0, a1] s := by
  refine ⟨rfl, hs, fun v hv => ?_⟩
  have := List.all_eq_true.1 h v (List.mem_range.2 hv)
  rw [beq_iff_eq] at this
  rw [this, decide_eq_true_iff]

/-- The example satisfies the hypothesis of the theorems. -/
theorem rsfExample_holds : Holds rsfExample 70 [{0, 2, 69}, {3, 64}, {0, 2}] where
  varCount := rfl
  wordsPerTerm := rfl
  genCount := rfl
  memoryEnd := rfl
  fits := by decide
  terms := by
    intro i hi
    match i, hi with
    | 0, _ => exact packs_of_words (a0 := 5) (a1 := 32) (s := {0, 2, 69}) (by decide) (by decide +kernel)
    | 1, _ => exact packs_of_words (a0 := 8) (a1 := 1) (s := {3, 64}) (by decide) (by decide +kernel)
    | 2, _ => exact packs_of_words (a0 := 5) (a1 := 0) (s := {0, 2}) (by decide) (by decide +kernel)

/-! ### Memory -/

/-- `getBytesOfMemoryFor` is the size of an object with words for exactly that many generators, if that is less than `2 ^ 64`, and
zero otherwise. -/
theorem C49_bytesOfMemory {V G : ℕ} (hV : V < 2 ^ 64) (hG : G < 2 ^ 64) :
    bytesOfMemoryFor V G =
      if 32 + 8 * (max 1 ((V + 63) / 64) * G) < 2 ^ 64 then 32 + 8 * (max 1 ((V + 63) / 64) * G) else 0 := by
  rw [← wordCount_eq]
  exact bytesOfMemoryFor_spec hV hG

example : bytesOfMemoryFor 70 3 = 80 ∧ bytesOfMemoryFor (2 ^ 40) (2 ^ 40) = 0 := by decide

/-! ### Inserting -/

/-- A new object has no generators. -/
theorem C49_construct (V : ℕ) (memory : List Word) : Holds (rsfConstruct V memory) V [] := rsfConstruct_holds V memory

/-- The functions that insert a term put it at the end. There has to be memory for one more term. -/
theorem C49_insert {V : ℕ} (hV : 0 < V) {r : RsfIdeal} {gens : List (Finset ℕ)} (h : Holds r V gens)
    (hroom : r.wordsPerTerm * (gens.length + 1) ≤ r.memory.length) :
    (∀ t s, Packs V t s → ∃ r', r.insert t = some r' ∧ Holds r' V (gens ++ [s]) ∧ r'.memory.length = r.memory.length) ∧
    (∃ r', r.insertIdentity = some r' ∧ Holds r' V (gens ++ [∅]) ∧ r'.memory.length = r.memory.length) ∧
    ∀ term : List (List Char), term.length = V →
      ((∃ e ∈ term, e ≠ [] ∧ e ≠ ['0'] ∧ e ≠ ['1']) → r.insertTexts term = some none) ∧
      ((∀ e ∈ term, e = [] ∨ e = ['0'] ∨ e = ['1']) → ∃ r', r.insertTexts term = some (some r') ∧
        Holds r' V (gens ++ [(Finset.range V).filter fun v => term[v]? = some ['1']])) :=
  ⟨fun _ _ ht => h.insert_spec hV ht hroom, h.insertIdentity_spec hV hroom, fun _ hl => insertTexts_spec hV h hl hroom⟩

example : rsfExample.wordsPerTerm * (3 + 1) ≤ rsfExample.memory.length := by decide

/-- `insert` of the generators of an ideal stops at the first that is not square free and returns the number of those before. -/
theorem C49_insertAll {V : ℕ} (hV : 0 < V) {r : RsfIdeal} {gens : List (Finset ℕ)} (h : Holds r V gens) {l : List (List ℕ)}
    (hl : ∀ g ∈ l, g.length = V) (hroom : r.wordsPerTerm * (gens.length + l.length) ≤ r.memory.length) :
    ∃ r' m, r.insertAll l = some (r', m) ∧ m ≤ l.length ∧ (∀ g ∈ l.take m, ∀ e ∈ g, e ≤ 1) ∧
      (∀ g, l[m]? = some g → ∃ e ∈ g, 1 < e) ∧ Holds r' V (gens ++ (l.take m).map supportOf) := by
  obtain ⟨r', h1, h2, _⟩ := insertAll_spec hV l r gens h hl hroom
  have htake : l.take (l.takeWhile fun g => g.all (· ≤ 1)).length = l.takeWhile fun g => g.all (· ≤ 1) :=
    List.prefix_iff_eq_take.1 (List.takeWhile_prefix _) |>.symm
  refine ⟨r', _, h1, (List.takeWhile_sublist _).length_le, ?_, ?_, by rw [htake]; exact h2⟩
  · rw [htake]
    intro g hg e he
    have := List.mem_takeWhile_imp hg
    exact of_decide_eq_true (List.all_eq_true.1 this e he)
  · intro g hg
    have hstop : ∀ (l : List (List ℕ)) g, l[(l.takeWhile fun g => g.all (· ≤ 1)).length]? = some g →
        ¬ (g.all (· ≤ 1)) = true := by
      intro l
      induction l with
      | nil => intro g hg; simp at hg
      | cons x l ih =>
        intro g hg
        rw [List.takeWhile_cons] at hg
        by_cases hx : x.all (· ≤ 1) = true
        · rw [if_pos hx, List.length_cons, List.getElem?_cons_succ] at hg
          exact ih g hg
        · rw [if_neg hx] at hg
          cases hg
          exact hx
    have := hstop l g hg
    rw [Bool.not_eq_true, List.all_eq_false] at this
    obtain ⟨e, he, h1⟩ := this
    exact ⟨e, he, by simpa using h1⟩

example : (rsfConstruct 3 [7, 7]).insertAll [[1, 0, 1], [1, 2, 0]] = some (⟨3, 1, 1, 1, [5, 7]⟩, 1) := by
  rw [show rsfConstruct 3 [7, 7] = ⟨3, 1, 0, 0, [7, 7]⟩ from rfl, RsfIdeal.insertAll]
  simp only [wEncodeTerm, List.drop_zero]
  rw [encodeLoop_cons_some _ _ _ _ _ 5 [] (by decide)]
  simp only [encodeLoop, Option.map_some]
  rw [RsfIdeal.insertAll]
  simp only [wEncodeTerm]
  rw [show (List.drop (0 + 1) (List.take 0 [(7 : Word), 7] ++ [5, 7])) = [7] from rfl,
    encodeLoop_cons_none _ _ _ _ _ (by decide)]
  rfl

/-- `insert` of an ideal appends its generators, `insertNonMultiples` those that are not multiples. -/
theorem C49_insertIdeal {V : ℕ} (hV : 0 < V) {r ideal : RsfIdeal} {gens L : List (Finset ℕ)} (h : Holds r V gens)
    (hi : Holds ideal V L) (hroom : r.wordsPerTerm * (gens.length + L.length) ≤ r.memory.length) :
    (∃ r', r.insertIdeal ideal = some r' ∧ Holds r' V (gens ++ L)) ∧
    (∀ term t, Packs V term t →
      ∃ r', r.insertNonMultiples term ideal = some r' ∧ Holds r' V (gens ++ L.filter fun g => ¬ t ⊆ g)) ∧
    ∀ v < V, ∃ r', r.insertNonMultiplesVar v ideal = some r' ∧ Holds r' V (gens ++ L.filter fun g => v ∉ g) := by
  have hle : ∀ q : Finset ℕ → Bool, r.wordsPerTerm * (gens.length + (L.filter q).length) ≤ r.memory.length := fun q =>
    (Nat.mul_le_mul_left _ (Nat.add_le_add_left (List.length_filter_le q L) _)).trans hroom
  obtain ⟨r', h1, h2, _⟩ := insertIdeal_spec hV h hi hroom
  exact ⟨⟨r', h1, h2⟩, fun term t ht => insertNonMultiples_spec hV ht h hi (hle _),
    fun v hv => insertNonMultiplesVar_spec hV hv h hi (hle _)⟩

example : (rsfConstruct 70 [9, 9, 9, 9]).insertNonMultiplesVar 69 rsfExample = some ⟨70, 2, 2, 4, [8, 1, 5, 0]⟩ := by
  decide +kernel

/-! ### Changing the ideal -/

/-- `minimize` leaves the minimal generators, each once. -/
theorem C49_minimize {V : ℕ} (hV : 0 < V) {r : RsfIdeal} {gens : List (Finset ℕ)} (h : Holds r V gens) :
    ∃ r' gens', r.minimize = some r' ∧ Holds r' V gens' ∧ MinimalPart gens' gens := by
  obtain ⟨r', h1, h2⟩ := minimize_holds hV h
  have := sqMinimize_minimizes gens
  exact ⟨r', _, h1, h2, this.sub, this.anti, this.cov⟩

example : ∃ r' gens', rsfExample.minimize = some r' ∧ Holds r' 70 gens' ∧ MinimalPart gens' [{0, 2, 69}, {3, 64}, {0, 2}] :=
  C49_minimize (by decide) rsfExample_holds

example : MinimalPart [{3, 64}, {0, 2}] [({0, 2, 69} : Finset ℕ), {3, 64}, {0, 2}] :=
  ⟨(List.sublist_cons_self _ _).subperm, by decide, by decide⟩

/-- `colon` takes the variables of a term out of every generator, `colonReminimize` also removes the generators that are then not
minimal. The latter is for a minimally generated ideal. -/
theorem C49_colon {V : ℕ} (hV : 0 < V) {r : RsfIdeal} {gens : List (Finset ℕ)} (h : Holds r V gens) {b : List Word} {t : Finset ℕ}
    (ht : Packs V b t) :
    (∃ r', r.colon b = some r' ∧ Holds r' V (gens.map (· \ t))) ∧
    (gens.Pairwise (fun s t => ¬ s ⊆ t ∧ ¬ t ⊆ s) → ∃ r' gens', r.colonReminimize b = some r' ∧ Holds r' V gens' ∧
      MinimalPart gens' (gens.map (· \ t))) := by
  refine ⟨colon_holds h ht, fun hmin => ?_⟩
  obtain ⟨r', h1, h2⟩ := colonReminimize_holds hV h ht
  have := (colonReminimize_spec (I := ⟨V, gens⟩) hmin t).2
  exact ⟨r', _, h1, h2, this.sub, this.anti, this.cov⟩

/-- The same for a variable. -/
theorem C49_colonVar {V v : ℕ} (hv : v < V) {r : RsfIdeal} {gens : List (Finset ℕ)} (h : Holds r V gens) :
    (∃ r', r.colonVar v = some r' ∧ Holds r' V (gens.map (·.erase v))) ∧
    (gens.Pairwise (fun s t => ¬ s ⊆ t ∧ ¬ t ⊆ s) → ∃ r' gens', r.colonReminimizeVar v = some r' ∧ Holds r' V gens' ∧
      MinimalPart gens' (gens.map (·.erase v))) := by
  refine ⟨colonVar_holds hv h, fun hmin => ?_⟩
  obtain ⟨r', h1, h2⟩ := colonReminimizeVar_holds (by omega) hv h
  have := (sqColonReminimizeVar_spec (I := ⟨V, gens⟩) hmin v).2
  exact ⟨r', _, h1, h2, this.sub, this.anti, this.cov⟩

example : rsfExample.colonVar 2 = some ⟨70, 2, 3, 6, [1, 32, 8, 1, 1, 0, 99, 99, 99, 99]⟩ := by decide +kernel

example : [({0, 2, 69} : Finset ℕ), {3, 64}].Pairwise fun s t => ¬ s ⊆ t ∧ ¬ t ⊆ s := by decide

/-- `compact` takes variables out and numbers the others again in order. At least one variable has to be left. -/
theorem C49_compact {V : ℕ} {r : RsfIdeal} {gens : List (Finset ℕ)} {remove : List Word} {m : Finset ℕ} (h : Holds r V gens)
    (hm : Packs V remove m) (hleft : 0 < (Finset.range V \ m).card) :
    ∃ r', r.compact remove = some r' ∧ Holds r' (Finset.range V \ m).card (gens.map (renumber V m)) := by
  obtain ⟨r', h1, h2, _⟩ := compact_holds h hm hleft
  exact ⟨r', h1, h2⟩

example : rsfExample.compact [~~~0 - 5, 31] = some ⟨3, 1, 3, 3, [7, 0, 3, 1, 3, 0, 99, 99, 99, 99]⟩ := by decide +kernel

/-- `setToTransposeOf` and `transpose`: the generators of the result belong to the variables that are not erased and have the
variables that are the indices of the generators which the variable divides. There has to be memory for the result, and for
`transpose` the buffer has to have the size that `getBytesOfMemoryFor` gives. -/
theorem C49_transpose {V : ℕ} (hV : 0 < V) {r ideal : RsfIdeal} {gens : List (Finset ℕ)} (h : Holds ideal V gens)
    {eraseVars : Option (List Word)} {e : Finset ℕ} (he0 : eraseVars = none → e = ∅)
    (he : ∀ b, eraseVars = some b → Packs V b e) :
    (max 1 ((gens.length + 63) / 64) * (Finset.range V \ e).card ≤ r.memory.length →
      ∃ r', r.setToTransposeOf ideal eraseVars = some r' ∧
        Holds r' gens.length (((List.range V).filter fun v => v ∉ e).map (rowOf gens))) ∧
    (max 1 ((gens.length + 63) / 64) * (Finset.range V \ e).card ≤ ideal.memory.length →
      ∀ buffer : List Word, max 1 ((V + 63) / 64) * gens.length ≤ buffer.length →
      ∃ r', ideal.transpose eraseVars buffer = some r' ∧
        Holds r' gens.length (((List.range V).filter fun v => v ∉ e).map (rowOf gens))) := by
  rw [← wordCount_eq]
  refine ⟨fun hroom => ?_, fun hroom buffer hbuf => ?_⟩
  · obtain ⟨r', h1, h2, _⟩ := setToTransposeOf_holds (r := r) h he0 he hroom
    exact ⟨r', h1, h2⟩
  · rw [← wordCount_eq] at hbuf
    obtain ⟨copy, c1, c2, _⟩ := insertIdeal_spec hV (rsfConstruct_holds V buffer) h (by simpa [rsfConstruct] using hbuf)
    obtain ⟨r', h1, h2, _⟩ := setToTransposeOf_holds (r := ideal) c2 he0 he hroom
    refine ⟨r', ?_, h2⟩
    unfold RsfIdeal.transpose
    rw [(holds_iff.1 h).1, c1]
    exact h1

example : rsfExample.transpose (some [~~~0 - 5, 31]) [0, 0, 0, 0, 0, 0] =
    some ⟨3, 1, 3, 3, [5, 5, 1, 1, 5, 0, 99, 99, 99, 99]⟩ := by decide +kernel

/-- `swap01Exponents` complements the generators. -/
theorem C49_swap01 {V : ℕ} (hV : 0 < V) {r : RsfIdeal} {gens : List (Finset ℕ)} (h : Holds r V gens) :
    ∃ r', r.swap01 = some r' ∧ Holds r' V (gens.map (Finset.range V \ ·)) := swap01_holds hV h

example : rsfExample.swap01.map (fun r => r.memory.take 2) = some [~~~5, 31] := by decide +kernel

/-- `removeGenerator` removes the generator with the given index; the order of the others may change. -/
theorem C49_removeGenerator {V i : ℕ} {r : RsfIdeal} {gens : List (Finset ℕ)} (h : Holds r V gens) (hi : i < gens.length) :
    ∃ r' gens', r.removeGenerator i = some r' ∧ Holds r' V gens' ∧ gens.Perm (gens[i] :: gens') := by
  obtain ⟨r', h1, h2⟩ := removeGenerator_holds hi h
  exact ⟨r', _, h1, h2, removeGenerator_perm (I := ⟨V, gens⟩) hi⟩

/-- `swap` exchanges two generators. -/
theorem C49_swap {V i j : ℕ} (hV : 0 < V) {r : RsfIdeal} {gens : List (Finset ℕ)} (h : Holds r V gens) (hi : i < gens.length)
    (hj : j < gens.length) (hij : i ≠ j) :
    ∃ r', r.swap i j = some r' ∧ Holds r' V ((gens.set i gens[j]).set j gens[i]) := by
  obtain ⟨a, ha, hs⟩ := along_get gens 0 h.along i hi
  obtain ⟨b, hb, ht⟩ := along_get gens 0 h.along j hj
  rw [Nat.zero_add] at ha hb
  obtain ⟨mem, h1, hl, hi', hj', hne⟩ := swapTerms_spec hV hij ha hs hb ht
  refine ⟨⟨r.varCount, r.wordsPerTerm, r.genCount, r.memoryEnd, mem⟩, ?_, h.of_along_same hl (by simp) (along_of_get _ 0 fun k hk => ?_)⟩
  · unfold RsfIdeal.swap
    rw [(holds_iff.1 h).1, h1]
    rfl
  · rw [Nat.zero_add, List.getElem_set, List.getElem_set]
    by_cases hkj : j = k
    · subst hkj
      rw [if_pos rfl]
      exact ⟨a, hj', hs⟩
    · rw [if_neg hkj]
      by_cases hki : i = k
      · subst hki
        rw [if_pos rfl]
        exact ⟨b, hi', ht⟩
      · rw [if_neg hki, hne k (Ne.symm hki) (Ne.symm hkj)]
        obtain ⟨c, hc, hp⟩ := along_get gens 0 h.along k (by simpa using hk)
        exact ⟨c, by rwa [Nat.zero_add] at hc, hp⟩

example : ((rsfExample.swap 0 1).bind fun r => r.removeGenerator 0).map (fun r => (r.genCount, r.memory.take 4)) =
    some (2, [5, 0, 5, 32]) := by decide +kernel

/-! ### Asking about the ideal -/

/-- `getLcm`, `getLcmOfNonMultiples` and `getGcdOfMultiples` in its two forms. The gcd of no terms is the product of all variables. -/
theorem C49_lcm_gcd {V : ℕ} (hV : 0 < V) {r : RsfIdeal} {gens : List (Finset ℕ)} (h : Holds r V gens) :
    (∃ a s, r.getLcm = some a ∧ Packs V a s ∧ ∀ u, u ∈ s ↔ ∃ g ∈ gens, u ∈ g) ∧
    (∀ v < V, ∃ a s, r.lcmOfNonMultiples v = some a ∧ Packs V a s ∧ ∀ u, u ∈ s ↔ ∃ g ∈ gens, v ∉ g ∧ u ∈ g) ∧
    ∀ gcd : List Word, gcd.length = max 1 ((V + 63) / 64) →
      (∀ v < V, ∃ a s, r.gcdOfMultiplesVar gcd v = some a ∧ Packs V a s ∧ ∀ u, u ∈ s ↔ u < V ∧ ∀ g ∈ gens, v ∈ g → u ∈ g) ∧
      ∀ div t, Packs V div t →
        ∃ a s, r.gcdOfMultiples gcd div = some a ∧ Packs V a s ∧ ∀ u, u ∈ s ↔ u < V ∧ ∀ g ∈ gens, t ⊆ g → u ∈ g := by
  have hinter : ∀ (L : List (Finset ℕ)) (b : Finset ℕ) (u : ℕ), u ∈ L.foldl (· ∩ ·) b ↔ u ∈ b ∧ ∀ g ∈ L, u ∈ g := by
    intro L
    induction L with
    | nil => intro b u; simp
    | cons g L ih =>
      intro b u
      rw [List.foldl_cons, ih]
      simp [and_assoc]
  refine ⟨?_, fun v hv => ?_, fun gcd hg => ⟨fun v hv => ?_, fun div t ht => ?_⟩⟩
  · obtain ⟨a, h1, h2⟩ := getLcm_packs hV h
    exact ⟨a, _, h1, h2, fun u => mem_unionAll⟩
  · obtain ⟨a, h1, h2⟩ := lcmOfNonMultiples_packs hV hv h
    refine ⟨a, _, h1, h2, fun u => ?_⟩
    rw [mem_unionAll]
    simp [and_assoc]
  · obtain ⟨a, h1, h2⟩ := gcdOfMultiplesVar_packs hV hv h (by rw [hg, wordCount_eq])
    refine ⟨a, _, h1, h2, fun u => ?_⟩
    rw [hinter]
    simp
  · obtain ⟨a, h1, h2⟩ := gcdOfMultiples_packs hV h ht (by rw [hg, wordCount_eq])
    refine ⟨a, _, h1, h2, fun u => ?_⟩
    rw [hinter]
    simp

example : rsfExample.lcmOfNonMultiples 3 = some [5, 32] ∧ rsfExample.gcdOfMultiplesVar [9, 9] 0 = some [5, 0] := by decide +kernel

/-- `getVarDividesCounts` gives for every variable the number of generators that it divides, whatever the number of generators and
the words after the end of the vector are. -/
theorem C49_varDividesCounts {V : ℕ} {r : RsfIdeal} {gens : List (Finset ℕ)} (h : Holds r V gens) {junk : List ℕ}
    (hj : junk.length = 64) :
    r.varDividesCounts junk = some ((List.range V).map fun v => (gens.filter fun g => v ∈ g).length) := by
  rw [varDividesCounts_spec h hj]
  congr 2
  funext v
  rw [List.countP_eq_length_filter]

example : (rsfExample.varDividesCounts (List.replicate 64 7)).map (fun c => (c.take 4, c.length)) = some ([2, 0, 2, 1], 70) := by
  rw [C49_varDividesCounts rsfExample_holds (by decide)]
  decide +kernel

/-- The index of the first generator with a property, or the number of generators if there is none. -/
def IsFirst (gens : List (Finset ℕ)) (p : Finset ℕ → Prop) (i : ℕ) : Prop :=
  i ≤ gens.length ∧ (∀ h : i < gens.length, p gens[i]) ∧ ∀ j, ∀ h : j < gens.length, j < i → ¬ p gens[j]

theorem isFirst_findIdx {gens : List (Finset ℕ)} {p : Finset ℕ → Prop} [DecidablePred p] :
    IsFirst gens p (gens.findIdx fun g => decide (p g)) := by
  refine ⟨List.findIdx_le_length, fun h => ?_, fun j h hj => ?_⟩
  · exact of_decide_eq_true (List.findIdx_getElem (w := h))
  · have := List.not_of_lt_findIdx hj
    simpa using this

/-- `getMultiple`, `getNonMultiple` and `getNotRelativelyPrime` find the first generator with the property. -/
theorem C49_find {V : ℕ} (hV : 0 < V) {r : RsfIdeal} {gens : List (Finset ℕ)} (h : Holds r V gens) :
    (∀ v < V, ∃ i, r.getMultiple v = some i ∧ IsFirst gens (fun g => v ∈ g) i) ∧
    (∀ v < V, ∃ i, r.getNonMultiple v = some i ∧ IsFirst gens (fun g => v ∉ g) i) ∧
    ∀ b t, Packs V b t → ∃ i, r.getNotRelativelyPrime b = some i ∧ IsFirst gens (fun g => ¬ Disjoint t g) i :=
  ⟨fun _ hv => ⟨_, rsfGetMultiple_spec hv h, isFirst_findIdx⟩, fun _ hv => ⟨_, rsfGetNonMultiple_spec hv h, isFirst_findIdx⟩,
    fun _ _ ht => ⟨_, getNotRelativelyPrime_spec hV h ht, isFirst_findIdx⟩⟩

example : rsfExample.getMultiple 3 = some 1 ∧ rsfExample.getMultiple 5 = some 3 ∧ rsfExample.getNonMultiple 0 = some 1 := by
  decide +kernel

theorem bestIndex_best {R : ℕ → ℕ → Prop} [DecidableRel R] (irr : ∀ a, ¬ R a a) (tr : ∀ a b c, R a b → R b c → R a c)
    (co : ∀ a b c, R a b → R a c ∨ R c b) (l : List (Finset ℕ)) : ∀ (P : List (Finset ℕ)) (best bi : ℕ) (hb : bi < P.length),
    P[bi].card = best → (∀ j, ∀ h : j < P.length, ¬ R best P[j].card) → (∀ j, ∀ h : j < P.length, j < bi → R P[j].card best) →
    ∃ h : bestIndex Finset.card (fun a b => decide (R a b)) P.length best bi l < (P ++ l).length,
      (∀ j, ∀ hj : j < (P ++ l).length, ¬ R ((P ++ l)[bestIndex Finset.card (fun a b => decide (R a b)) P.length best bi l]).card
        (P ++ l)[j].card) ∧
      ∀ j, ∀ hj : j < (P ++ l).length, j < bestIndex Finset.card (fun a b => decide (R a b)) P.length best bi l →
        R (P ++ l)[j].card ((P ++ l)[bestIndex Finset.card (fun a b => decide (R a b)) P.length best bi l]).card := by
  induction l with
  | nil =>
    intro P best bi hb h1 h2 h3
    simp only [bestIndex, List.append_nil]
    exact ⟨hb, by rw [h1]; exact h2, by rw [h1]; exact h3⟩
  | cons g l ih =>
    intro P best bi hb h1 h2 h3
    have ea : P ++ g :: l = (P ++ [g]) ++ l := by simp
    by_cases hR : R best g.card
    · have ei : bestIndex Finset.card (fun a b => decide (R a b)) P.length best bi (g :: l) =
          bestIndex Finset.card (fun a b => decide (R a b)) (P ++ [g]).length g.card P.length l := by
        rw [bestIndex, if_pos (by simpa using hR)]
        simp
      simp only [ea, ei]
      refine ih (P ++ [g]) g.card P.length (by simp) (by simp) (fun j hj => ?_) (fun j hj hlt => ?_)
      · rw [List.getElem_append]
        split
        · rename_i hj'
          exact fun hgj => h2 j hj' (tr _ _ _ hR hgj)
        · simpa using irr g.card
      · rw [List.getElem_append_left hlt]
        rcases co _ _ P[j].card hR with hx | hx
        · exact absurd hx (h2 j hlt)
        · exact hx
    · have ei : bestIndex Finset.card (fun a b => decide (R a b)) P.length best bi (g :: l) =
          bestIndex Finset.card (fun a b => decide (R a b)) (P ++ [g]).length best bi l := by
        rw [bestIndex, if_neg (by simpa using hR)]
        simp
      simp only [ea, ei]
      refine ih (P ++ [g]) best bi (by simp; omega) (by rw [List.getElem_append_left hb, h1]) (fun j hj => ?_) (fun j hj hlt => ?_)
      · rw [List.getElem_append]
        split
        · rename_i hj'
          exact h2 j hj'
        · simpa using hR
      · rw [List.getElem_append_left (by omega)]
        exact h3 j (by omega) hlt

/-- `getMaxSupportGen` and `getMinSupportGen`: the first generator with the most and with the fewest variables. -/
theorem C49_supportGen {V : ℕ} (hV : 0 < V) {r : RsfIdeal} {gens : List (Finset ℕ)} (h : Holds r V gens) (hne : gens ≠ []) :
    (∃ i, ∃ hi : i < gens.length, r.bestSupportGen (fun best supp => decide (best < supp)) = some i ∧
      (∀ j, ∀ hj : j < gens.length, gens[j].card ≤ gens[i].card) ∧
      ∀ j, ∀ hj : j < gens.length, j < i → gens[j].card < gens[i].card) ∧
    ∃ i, ∃ hi : i < gens.length, r.bestSupportGen (fun best supp => decide (best > supp)) = some i ∧
      (∀ j, ∀ hj : j < gens.length, gens[i].card ≤ gens[j].card) ∧
      ∀ j, ∀ hj : j < gens.length, j < i → gens[i].card < gens[j].card := by
  match gens, hne with
  | g :: gens, _ =>
    constructor
    · obtain ⟨q1, q2, q3⟩ := bestIndex_best (R := fun a b => a < b) (fun a => by omega) (fun a b c => by omega)
        (fun a b c => by omega) gens [g] g.card 0 (by simp) (by simp) (fun j hj => by simp at hj; simp [hj])
        (fun j hj hlt => by omega)
      exact ⟨_, q1, bestSupportGen_spec hV _ h, fun j hj => Nat.le_of_not_lt (q2 j hj), q3⟩
    · obtain ⟨q1, q2, q3⟩ := bestIndex_best (R := fun a b => a > b) (fun a => by omega) (fun a b c => by omega)
        (fun a b c => by omega) gens [g] g.card 0 (by simp) (by simp) (fun j hj => by simp at hj; simp [hj])
        (fun j hj hlt => by omega)
      exact ⟨_, q1, bestSupportGen_spec hV _ h, fun j hj => Nat.le_of_not_lt (q2 j hj), q3⟩

example : rsfExample.bestSupportGen (fun best supp => decide (best < supp)) = some 0 ∧
    rsfExample.bestSupportGen (fun best supp => decide (best > supp)) = some 1 := by decide +kernel

/-- `getExclusiveVarGenerator`: a generator with a variable that divides no other one, or the number of generators if there is
none. -/
theorem C49_exclusiveVar {V : ℕ} {r : RsfIdeal} {gens : List (Finset ℕ)} (h : Holds r V gens) :
    ∃ i, r.getExclusiveVarGenerator = some i ∧
      ((i < gens.length ∧ ∃ v, ExclusiveVar gens i v) ∨ (i = gens.length ∧ ¬ ∃ i < gens.length, ∃ v, ExclusiveVar gens i v)) := by
  obtain ⟨i, h1, h2⟩ := getExclusiveVarGenerator_spec h
  exact ⟨i, h1, h2.symm⟩

example : rsfExample.getExclusiveVarGenerator = some 1 := by decide +kernel

/-- `hasFullSupport`: every variable is in `ignore` or divides a generator. -/
theorem C49_hasFullSupport {V : ℕ} (hV : 0 < V) {r : RsfIdeal} {gens : List (Finset ℕ)} (h : Holds r V gens) {ignore : List Word}
    {e : Finset ℕ} (he : Packs V ignore e) :
    r.hasFullSupport ignore = some (decide (∀ v < V, v ∈ e ∨ ∃ g ∈ gens, v ∈ g)) := hasFullSupport_spec hV h he

example : (RsfIdeal.hasFullSupport ⟨3, 1, 2, 2, [5, 4]⟩ [0]) = some false ∧
    (RsfIdeal.hasFullSupport ⟨3, 1, 2, 2, [5, 4]⟩ [2]) = some true := by
  constructor <;> · unfold RsfIdeal.hasFullSupport; rw [fullSupportLoop]; decide

/-- `isMinimallyGenerated`: no generator divides another one. -/
theorem C49_isMinimallyGenerated {V : ℕ} (hV : 0 < V) {r : RsfIdeal} {gens : List (Finset ℕ)} (h : Holds r V gens) :
    ∃ b, r.isMinimallyGenerated = some b ∧ (b = true ↔ gens.Pairwise fun s t => ¬ s ⊆ t ∧ ¬ t ⊆ s) :=
  isMinimallyGenerated_spec hV h

example : rsfExample.isMinimallyGenerated = some false := by decide +kernel

/-- `operator==`: the same number of variables and the same generators in the same order. -/
theorem C49_equals {V V' : ℕ} (hV : 0 < V) {r r' : RsfIdeal} {gens gens' : List (Finset ℕ)} (h : Holds r V gens)
    (h' : Holds r' V' gens') : r.equals r' = some (decide (V = V' ∧ gens = gens')) := equals_spec hV h h'

example : rsfExample.equals ⟨70, 2, 3, 6, [5, 32, 8, 1, 5, 0]⟩ = some true := by decide +kernel

/-! ### The model on sets -/

theorem compactTerm_eq_renumber (V : ℕ) (m g : Finset ℕ) : compactTerm V m g = renumber V m g := by
  have hidx : ∀ i (hi : i < (keptVars V m).length), (Finset.range ((keptVars V m)[i]) \ m).card = i := by
    intro i hi
    have hsort : (keptVars V m).Pairwise (· < ·) := List.Pairwise.filter _ List.pairwise_lt_range
    have hnd : (keptVars V m).Nodup := List.Nodup.filter _ List.nodup_range
    have e : Finset.range ((keptVars V m)[i]) \ m = ((keptVars V m).take i).toFinset := by
      ext u
      rw [Finset.mem_sdiff, Finset.mem_range, List.mem_toFinset]
      constructor
      · rintro ⟨h1, h2⟩
        have hv := mem_keptVars.1 (List.getElem_mem hi)
        obtain ⟨k, hk, rfl⟩ := List.getElem_of_mem (mem_keptVars.2 ⟨h1.trans hv.1, h2⟩)
        have hki : k < i := by
          rcases Nat.lt_or_ge k i with hlt | hge
          · exact hlt
          · rcases Nat.eq_or_lt_of_le hge with rfl | hlt
            · omega
            · have := List.pairwise_iff_getElem.1 hsort i k hi hk hlt
              omega
        exact List.mem_take_iff_getElem.2 ⟨k, by omega, rfl⟩
      · intro hu
        obtain ⟨k, hk, rfl⟩ := List.mem_take_iff_getElem.1 hu
        refine ⟨List.pairwise_iff_getElem.1 hsort k i (by omega) hi (by omega), (mem_keptVars.1 (List.getElem_mem _)).2⟩
    rw [e, List.toFinset_card_of_nodup (hnd.sublist (List.take_sublist _ _)), List.length_take]
    omega
  unfold compactTerm renumber
  ext u
  simp only [Finset.mem_filter, Finset.mem_range, Finset.mem_image, Finset.mem_inter, Finset.mem_sdiff]
  constructor
  · rintro ⟨hu, hg⟩
    rw [List.getD_eq_getElem _ _ hu] at hg
    have := mem_keptVars.1 (List.getElem_mem hu)
    exact ⟨_, ⟨this, hg⟩, hidx u hu⟩
  · rintro ⟨v, ⟨⟨hv, hm⟩, hg⟩, rfl⟩
    obtain ⟨k, hk, rfl⟩ := List.getElem_of_mem (mem_keptVars.2 ⟨hv, hm⟩)
    rw [hidx k hk, List.getD_eq_getElem _ _ hk]
    exact ⟨hk, hg⟩

/-- The functions on lists of sets that the algorithm for Euler characteristics is modelled with are those of the code: run on
words they give the same lists in the same order. -/
theorem C49_refines {V : ℕ} (hV : 0 < V) {r : RsfIdeal} {gens : List (Finset ℕ)} (h : Holds r V gens) :
    (∃ r', r.minimize = some r' ∧ Holds r' V (SqIdeal.minimize ⟨V, gens⟩).gens) ∧
    (∀ v < V, ∃ r', r.colonVar v = some r' ∧ Holds r' V (SqIdeal.colonVar ⟨V, gens⟩ v).gens) ∧
    (∀ b t, Packs V b t → ∃ r', r.colonReminimize b = some r' ∧ Holds r' V (SqIdeal.colonReminimize ⟨V, gens⟩ t).gens) ∧
    (∀ v < V, ∃ r', r.colonReminimizeVar v = some r' ∧ Holds r' V (SqIdeal.colonReminimizeVar ⟨V, gens⟩ v).gens) ∧
    (∀ b m, Packs V b m → 0 < (SqIdeal.compact ⟨V, gens⟩ m).varCount →
      ∃ r', r.compact b = some r' ∧ Holds r' (SqIdeal.compact ⟨V, gens⟩ m).varCount (SqIdeal.compact ⟨V, gens⟩ m).gens) ∧
    (∀ b e, Packs V b e → ∀ buffer : List Word, wordCount V * gens.length ≤ buffer.length →
      wordCount gens.length * V ≤ r.memory.length →
      ∃ r', r.transpose (some b) buffer = some r' ∧ Holds r' gens.length (SqIdeal.transpose ⟨V, gens⟩ e).gens) ∧
    (∀ i < gens.length, ∃ r', r.removeGenerator i = some r' ∧ Holds r' V (SqIdeal.removeGenerator ⟨V, gens⟩ i).gens) ∧
    (∃ r', r.swap01 = some r' ∧ Holds r' V (SqIdeal.swap01 ⟨V, gens⟩).gens) ∧
    (∀ v < V, ∃ a, r.lcmOfNonMultiples v = some a ∧ Packs V a (SqIdeal.lcmOfNonMultiples ⟨V, gens⟩ v)) ∧
    (∀ gcd b t, gcd.length = wordCount V → Packs V b t →
      ∃ a, r.gcdOfMultiples gcd b = some a ∧ Packs V a (SqIdeal.gcdOfMultiples ⟨V, gens⟩ t)) ∧
    (∀ junk, junk.length = 64 → r.varDividesCounts junk = some ((List.range V).map (SqIdeal.varDividesCounts ⟨V, gens⟩))) ∧
    (∀ v < V, r.getMultiple v = some (SqIdeal.getMultiple ⟨V, gens⟩ v) ∧
      r.getNonMultiple v = some (SqIdeal.getNonMultiple ⟨V, gens⟩ v)) ∧
    (gens ≠ [] → r.bestSupportGen (fun best supp => decide (best < supp)) = some (SqIdeal.maxSupportGen ⟨V, gens⟩) ∧
      r.bestSupportGen (fun best supp => decide (best > supp)) = some (SqIdeal.minSupportGen ⟨V, gens⟩)) ∧
    ∀ b e, Packs V b e → r.hasFullSupport b = some (SqIdeal.hasFullSupport ⟨V, gens⟩ e) := by
  refine ⟨minimize_holds hV h, fun v hv => colonVar_holds hv h, fun b t ht => colonReminimize_holds hV h ht,
    fun v hv => colonReminimizeVar_holds hV hv h, fun b m hm hpos => ?_, fun b e he buffer hb hm => ?_,
    fun i hi => removeGenerator_holds hi h, swap01_holds hV h, fun v hv => lcmOfNonMultiples_packs hV hv h,
    fun gcd b t hg ht => gcdOfMultiples_packs hV h ht hg, fun junk hj => varDividesCounts_spec h hj,
    fun v hv => ⟨rsfGetMultiple_spec hv h, rsfGetNonMultiple_spec hv h⟩, fun hne => ?_, fun b e he => ?_⟩
  · have ev : (SqIdeal.compact ⟨V, gens⟩ m).varCount = (Finset.range V \ m).card := keptVars_length
    rw [ev] at hpos ⊢
    obtain ⟨r', h1, h2, _⟩ := compact_holds h hm hpos
    refine ⟨r', h1, ?_⟩
    have eg : (SqIdeal.compact ⟨V, gens⟩ m).gens = gens.map (renumber V m) :=
      List.map_congr_left fun g _ => compactTerm_eq_renumber V m g
    rw [eg]
    exact h2
  · have hcard : (Finset.range V \ e).card ≤ V := (Finset.card_le_card Finset.sdiff_subset).trans (by simp)
    refine (C49_transpose (r := r) hV h (fun hh => by cases hh) (fun b' hb' => by cases hb'; exact he)).2 ?_ buffer ?_
    · rw [← wordCount_eq]
      exact (Nat.mul_le_mul_left _ hcard).trans hm
    · rw [← wordCount_eq]
      exact hb
  · match gens, hne with
    | g :: gens, _ => exact ⟨bestSupportGen_spec hV _ h, bestSupportGen_spec hV _ h⟩
  · rw [C49_hasFullSupport hV h he]
    unfold SqIdeal.hasFullSupport
    congr 1
    rw [decide_eq_decide]
    constructor
    · intro hall
      ext v
      rw [Finset.mem_union, mem_unionAll, Finset.mem_range]
      constructor
      · rintro (hv | ⟨g, hg, hv⟩)
        · exact Finset.mem_range.1 (he.sub hv)
        · obtain ⟨k, hk, rfl⟩ := List.getElem_of_mem hg
          exact Finset.mem_range.1 ((h.terms k hk).sub hv)
      · exact hall v
    · intro e' v hv
      have : v ∈ e ∪ unionAll gens := by rw [e']; exact Finset.mem_range.2 hv
      rwa [Finset.mem_union, mem_unionAll] at this

/-- `isValid` calls the function that checks a term and does not look at its answer: an object with a bit set that belongs to no
variable counts as valid. -/
theorem C49_isValid_misses : wIsValid [2] 1 = some false ∧ RsfIdeal.isValid ⟨1, 1, 1, 1, [2]⟩ = some true ∧
    ¬ ∃ gens, Holds ⟨1, 1, 1, 1, [2]⟩ 1 gens := by
  refine ⟨by decide, by decide, ?_⟩
  rintro ⟨gens, h⟩
  have hl : gens.length = 1 := h.genCount.symm
  have := (h.terms 0 (by omega)).bits 1 (by simp)
  have hs := (h.terms 0 (by omega)).sub
  have h1 : (1 : ℕ) ∈ gens[0]'(by omega) := this.1 (by decide)
  have := hs h1
  simp at this

end Frobby
