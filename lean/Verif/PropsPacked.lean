import Verif.PackedRead
import Verif.PropsEulerWord
import Verif.PropsEulerAction

/-!
# C74: an ideal is packed while it is read, and the Euler characteristic goes from the text to the number on words

While an ideal is read its generators are in a `SquareFreeIdeal`, an array of words that is replaced by a larger one when it is full,
until the first exponent that is neither 0 nor 1 moves them to a `BigIdeal`. `IOModel` has lists of exponents instead. The theorems say
that both read the same for every format and every text, whatever new memory holds, and that nothing is read or written outside of an
array; the only other end is an array of 2^64 bytes or more, for about twice as many generators
as the text has, and that does not happen for a text of less than 2^30 characters.
-/

namespace Frobby

/-- A number of bytes that is too large: for an array of `c` terms in `v` variables with the members before it. -/
def TooLarge (v c : ℕ) : Prop := 2 ^ 64 ≤ 32 + 8 * (max 1 ((v + 63) / 64) * c)

/-- C74: `readIdeal` gives the ideal that is read on lists, or reports an error if that does. -/
theorem C74_readIdeal (junk : GrowJunk) (f : IOFormat) (t : Text) :
    (∃ v c, packedReadIdeal junk f t = .error (.badAlloc v c) ∧ TooLarge v c ∧ Asked f t v c) ∨
      (packedReadIdeal junk f t = .error .report ∧ readIdeal f t = none) ∨
      ∃ I, packedReadIdeal junk f t = .ok I ∧ readIdeal f t = some I := by
  have h := consumer_rel junk false f t
  unfold packedReadIdeal readIdeal
  rcases hx : packedConsumer junk false f t with (_ | ⟨v, c⟩ | _) | ⟨p, r⟩ <;> rcases hy : readConsumer false f t with _ | ⟨k, r'⟩ <;>
    rw [hx, hy] at h <;> simp only [RelG] at h
  · exact .inr (.inl ⟨rfl, rfl⟩)
  · exact .inl ⟨v, c, rfl, by rw [wordCount_eq] at h; exact h.1, h.2⟩
  · exact .inl ⟨v, c, rfl, by rw [wordCount_eq] at h; exact h.1, h.2⟩
  · obtain ⟨h1, h2⟩ := h
    simp only at h1 h2
    subst h2
    simp only [bind, Except.bind, releaseBig_spec h1, Option.bind_some]
    cases matchEOF r with
    | true => exact .inr (.inr ⟨_, rfl, rfl⟩)
    | false => exact .inr (.inl ⟨rfl, rfl⟩)

/-- An ideal with an exponent larger than one after 17 generators, so that the array grew twice and was moved to a `BigIdeal`. -/
example : (packedReadIdeal (fun _ _ => 77) .fourti2 t!"18 2 1 0 0 1 1 1 1 0 0 1 1 1 1 0 0 1 1 1 1 0 0 1 1 1 1 0 0 1 1 1 1 0 0 1 1 3").toOption.map
    (fun I => (I.terms.length, I.terms.getLast?)) = some (18, some [1, 3]) := by decide +kernel

/-- C74: `readSquareFreeIdeal` gives the generators packed in an array that is large enough, with the names, or reports an error if the
reader on lists does. -/
theorem C74_readSquareFree (junk : GrowJunk) (f : IOFormat) (t : Text) :
    (∃ v c, packedReadSquareFree junk f t = .error (.badAlloc v c) ∧ TooLarge v c ∧ Asked f t v c) ∨
      (packedReadSquareFree junk f t = .error .report ∧ readSquareFreeIdeal f t = none) ∨
      ∃ s I, packedReadSquareFree junk f t = .ok s ∧ readSquareFreeIdeal f t = some I ∧ s.names = I.names ∧
        Holds s.raw I.names.length (I.terms.map fun e => (Finset.range I.names.length).filter fun i => e.getD i 0 ≠ 0) ∧
        I.terms.length ≤ s.capacity ∧ s.raw.memory.length = max 1 ((I.names.length + 63) / 64) * s.capacity := by
  have h := consumer_rel junk true f t
  unfold packedReadSquareFree
  rcases hr : readSquareFreeIdeal f t with _ | I
  · unfold readSquareFreeIdeal at hr
    rcases hx : packedConsumer junk true f t with (_ | ⟨v, c⟩ | _) | ⟨p, r⟩ <;> rcases hy : readConsumer true f t with _ | ⟨k, r'⟩ <;>
      rw [hx, hy] at h <;> simp only [RelG] at h
    · exact .inr (.inl ⟨rfl, rfl⟩)
    · exact .inl ⟨v, c, rfl, by rw [wordCount_eq] at h; exact h.1, h.2⟩
    · exact .inl ⟨v, c, rfl, by rw [wordCount_eq] at h; exact h.1, h.2⟩
    · obtain ⟨h1, h2⟩ := h
      simp only at h1 h2
      subst h2
      have hb := (readConsumer_refines f t _ hy).2.1
      obtain ⟨-, s, h5, -⟩ := PRep.packed h1 hb
      simp only [hy, bind, Option.bind_some] at hr
      cases hm : matchEOF r with
      | true => simp [hm] at hr
      | false =>
        refine .inr (.inl ⟨?_, rfl⟩)
        simp [h5, orStop, bind, Except.bind, hm]
  · unfold readSquareFreeIdeal at hr
    rcases hx : packedConsumer junk true f t with (_ | ⟨v, c⟩ | _) | ⟨p, r⟩ <;> rcases hy : readConsumer true f t with _ | ⟨k, r'⟩ <;>
      rw [hx, hy] at h <;> simp only [RelG] at h
    · rw [hy] at hr; cases hr
    · exact .inl ⟨v, c, rfl, by rw [wordCount_eq] at h; exact h.1, h.2⟩
    · exact .inl ⟨v, c, rfl, by rw [wordCount_eq] at h; exact h.1, h.2⟩
    · obtain ⟨h1, h2⟩ := h
      simp only at h1 h2
      subst h2
      have hb := (readConsumer_refines f t _ hy).2.1
      obtain ⟨-, s, h5, h6, h7⟩ := PRep.packed h1 hb
      simp only [hy, bind, Option.bind_some] at hr
      cases hm : matchEOF r with
      | false => simp [hm] at hr
      | true =>
        simp only [hm, if_true, Option.some.injEq] at hr
        subst hr
        refine .inr (.inr ⟨s, _, ?_, rfl, h6, h7.holds, ?_, ?_⟩)
        · simp [h5, orStop, bind, Except.bind, hm, pure, Except.pure]
        · simpa [InputConsumer.release] using h7.le
        · rw [h7.room, wordCount_eq]
          rfl

/-- The array has room for 32 generators after the 17th. -/
example : (packedReadSquareFree (fun _ _ => 77) .monos t!"vars a,b;[a,b,a,b,a,b,a,b,a,b,a,b,a,b,a,b,a*b];").toOption.map
    (fun s => (s.capacity, s.raw.memory)) = some (32, [1, 2, 1, 2, 1, 2, 1, 2, 1, 2, 1, 2, 1, 2, 1, 2, 3] ++ List.replicate 15 77) := by
  decide +kernel

/-- C74: reading never leaves an array and never goes through a null pointer. -/
theorem C74_inside (junk : GrowJunk) (f : IOFormat) (t : Text) :
    packedReadIdeal junk f t ≠ .error .outOfRange ∧ packedReadSquareFree junk f t ≠ .error .outOfRange := by
  constructor
  · rcases C74_readIdeal junk f t with ⟨v, c, h, _, _⟩ | ⟨h, _⟩ | ⟨I, h, _⟩ <;> rw [h] <;> simp
  · rcases C74_readSquareFree junk f t with ⟨v, c, h, _⟩ | ⟨h, _⟩ | ⟨s, I, h, _⟩ <;> rw [h] <;> simp

/-- C74: no array is too large for a text of less than 2^30 characters, or in the format of 4ti2 if the two numbers at the start are less
than 2^30. -/
theorem C74_small {f : IOFormat} {t : Text} {v c : ℕ} (h : Asked f t v c) (h1 : f ≠ .fourti2 → t.length < 2 ^ 30)
    (h2 : f = .fourti2 → ∀ g r, readSizeT t = some (g, r) → g < 2 ^ 30 ∧ ∀ n r', readSizeT r = some (n, r') → n < 2 ^ 30) :
    ¬ TooLarge v c := by
  have key : v < 2 ^ 30 → c ≤ 2 ^ 32 → ¬ TooLarge v c := by
    intro hv hc h
    unfold TooLarge at h
    have h3 : max 1 ((v + 63) / 64) ≤ 2 ^ 25 := by omega
    have h4 := Nat.mul_le_mul h3 hc
    omega
  unfold Asked at h
  by_cases hf : f = .fourti2
  · rw [if_pos hf] at h
    obtain ⟨g, r, r', e1, e2, e3⟩ := h
    obtain ⟨hg, hn⟩ := h2 hf g r e1
    exact key (hn v r' e2) (by omega)
  · rw [if_neg hf] at h
    have := h1 hf
    exact key (by omega) (by omega)

example : Asked .monos t!"vars a,b;[a,b];" 2 16 ∧ ¬ TooLarge 2 16 := by
  refine ⟨by simp [Asked], ?_⟩
  unfold TooLarge
  decide

/-! ## from the text to the number -/

/-- An array of words without variables is one for one variable. -/
theorem Holds.of_zero {r : RsfIdeal} {gens : List (Finset ℕ)} (h : Holds r 0 gens) : Holds { r with varCount := 1 } 1 gens :=
  ⟨rfl, h.wordsPerTerm, h.genCount, h.memoryEnd, h.fits, fun i hi =>
    ⟨(h.terms i hi).length, (h.terms i hi).sub.trans (by simp), (h.terms i hi).bits⟩⟩

theorem minimize_any {V : ℕ} {r : RsfIdeal} {gens : List (Finset ℕ)} (h : Holds r V gens) :
    ∃ r', r.minimize = some r' ∧ Holds r' V (sqMinimize gens) := by
  rcases Nat.eq_zero_or_pos V with rfl | hV
  · obtain ⟨r', e1, e2⟩ := minimize_holds (by decide) h.of_zero
    have hsub : ∀ s ∈ sqMinimize gens, s = ∅ := fun s hs => by
      have := (sqMinimize_spec gens).1.subset hs
      obtain ⟨i, hi, rfl⟩ := List.getElem_of_mem this
      simpa using (h.terms i hi).sub
    refine ⟨{ r' with varCount := 0 }, ?_, rfl, e2.wordsPerTerm, e2.genCount, e2.memoryEnd, e2.fits, fun i hi =>
      ⟨(e2.terms i hi).length, by rw [hsub _ (List.getElem_mem hi)]; simp, (e2.terms i hi).bits⟩⟩
    unfold RsfIdeal.minimize at e1 ⊢
    have hst : RsfIdeal.stop { r with varCount := 1 } = r.stop := rfl
    simp only [hst] at e1
    rcases hm : rsfMinimizeLoop r.wordsPerTerm r.memory 0 0 r.stop with _ | ⟨mem, e⟩ <;> rw [hm] at e1
    · cases e1
    · have hv := h.varCount
      simp only [Option.some.injEq] at e1 ⊢
      rw [← e1]
      simp [hv]
  · exact minimize_holds hV h

theorem swap01_any {V : ℕ} {r : RsfIdeal} {gens : List (Finset ℕ)} (h : Holds r V gens) :
    ∃ r', r.swap01 = some r' ∧ Holds r' V (gens.map (Finset.range V \ ·)) := by
  rcases Nat.eq_zero_or_pos V with rfl | hV
  · obtain ⟨mem, h1, hl, hA, _⟩ := eachTerm_spec (R := Packs 0) (R' := Packs 0) (W := r.wordsPerTerm)
      (f := fun a => wInvert a r.varCount) (F := (Finset.range 0 \ ·)) gens r.memory 0 h.along (fun a s _ ha hs => by
        have hs0 : s = ∅ := by simpa using hs.sub
        subst hs0
        refine ⟨a, ?_, ha, by simpa using hs⟩
        rw [h.varCount]
        unfold wInvert zipVars
        simp [bitsPerWord])
    refine ⟨_, ?_, h.of_along_same hl (by simp) hA⟩
    unfold RsfIdeal.swap01
    rw [h.stop_eq, h1]
    rfl
  · exact swap01_holds hV h

theorem eulerAction_any {V : ℕ} {gens : List (Finset ℕ)} {I : RsfIdeal} (hI : Holds I V gens) (o : EulerOptions)
    {cfg : EulerConfig} (hc : eulerConfig o = some cfg) (junk : ℕ → ℕ → Junk) (fuel : ℕ) (tape : List ℕ) :
    eulerAction o fuel ⟨V, gens⟩ tape = some (eulerActionWords cfg o.swap01 junk fuel I tape) ∧
      eulerActionWords cfg o.swap01 junk fuel I tape ≠ .error .outOfRange := by
  have key : ∀ {J : RsfIdeal} {l : List (Finset ℕ)}, Holds J V l →
      (checked J.minimize >>= fun J => computeEulerCharacteristicWords cfg junk fuel J tape) =
        computeEulerCharacteristic cfg fuel (SqIdeal.minimize ⟨V, l⟩) tape ∧
      (checked J.minimize >>= fun J => computeEulerCharacteristicWords cfg junk fuel J tape) ≠ .error .outOfRange := by
    intro J l hJ
    obtain ⟨K, h1, h2⟩ := minimize_any hJ
    rw [h1]
    exact ⟨C73_run h2 (sqMinimize_minimizes l).anti cfg junk fuel tape, C73_inside h2 (sqMinimize_minimizes l).anti cfg junk fuel tape⟩
  unfold eulerAction eulerActionWords
  rw [hc, Option.map_some, Option.some.injEq]
  cases o.swap01 with
  | false => exact ⟨(key hI).1.symm, (key hI).2⟩
  | true =>
    obtain ⟨J, h1, h2⟩ := swap01_any hI
    simp only [if_true, h1]
    exact ⟨(key h2).1.symm, (key h2).2⟩

/-- C74: the action `euler`, run on words from the text to the number, does what it does on lists and sets, and never leaves an array:
for all options, formats and texts, all contents of new memory, all random numbers and every number of rounds. -/
theorem C74_euler_text (o : EulerOptions) (grow : GrowJunk) (junk : ℕ → ℕ → Junk) (fuel : ℕ) (tape : List ℕ) (f : IOFormat) (t : Text) :
    (∃ v c, eulerTextWords o grow junk fuel tape f t = .badAlloc v c ∧ TooLarge v c ∧ Asked f t v c) ∨
      (eulerTextWords o grow junk fuel tape f t = .error ∧ eulerText o fuel tape f t = .error) ∨
      (∃ s, eulerTextWords o grow junk fuel tape f t = .printed s ∧ eulerText o fuel tape f t = .ok s) ∨
      ∃ why, eulerTextWords o grow junk fuel tape f t = .crash why ∧ why ≠ .outOfRange ∧ eulerText o fuel tape f t = .crash := by
  unfold eulerTextWords eulerText
  rcases C74_readSquareFree grow f t with ⟨v, c, h, hl⟩ | ⟨h1, h2⟩ | ⟨s, I, h1, h2, h3, h4, h5, h6⟩
  · left
    rw [h]
    exact ⟨v, c, rfl, hl⟩
  · rw [h1, h2]
    exact .inr (.inl ⟨rfl, rfl⟩)
  · rw [h1, h2]
    simp only [eulerRun]
    rcases hc : eulerConfig o with _ | cfg
    · have : eulerAction o fuel I.toSq tape = none := by rw [eulerAction, hc]; rfl
      rw [this]
      exact .inr (.inl ⟨rfl, rfl⟩)
    · obtain ⟨e1, e2⟩ := eulerAction_any h4 o hc junk fuel tape
      have e1 : eulerAction o fuel I.toSq tape = some (eulerActionWords cfg o.swap01 junk fuel s.raw tape) := e1
      rw [e1]
      simp only
      rcases hw : eulerActionWords cfg o.swap01 junk fuel s.raw tape with e | χ
      · exact .inr (.inr (.inr ⟨e, rfl, fun h => e2 (by rw [hw, h]), rfl⟩))
      · exact .inr (.inr (.inl ⟨_, rfl, rfl⟩))

/-- C74: with the default options the number that is computed on words for the text of an ideal with exponents zero and one, with less than
2^30 variables, generators and characters, is its Euler characteristic. -/
theorem C74_euler_default (swap : Bool) (f : IOFormat) {I : NamedIdeal} (hI : WellFormed I) (h01 : ∀ g ∈ I.terms, ∀ e ∈ g, e ≤ 1)
    (hv : I.names.length < 2 ^ 30) (hg : I.terms.length < 2 ^ 30) (ht : (writeIdeal f I).length < 2 ^ 30)
    (grow : GrowJunk) (junk : ℕ → ℕ → Junk) (tape : List ℕ) :
    ∃ K, ∀ fuel, K ≤ fuel →
      eulerTextWords { swap01 := swap } grow junk fuel tape f (writeIdeal f I) =
        .printed (decimalInt (eulerCharacteristic (complexOf swap I)) ++ t!"\n") := by
  obtain ⟨K, hK⟩ := (C58_euler_default swap f hI tape).1 h01
  refine ⟨K, fun fuel hf => ?_⟩
  have := hK fuel hf
  rcases C74_euler_text { swap01 := swap } grow junk fuel tape f (writeIdeal f I) with ⟨v, c, _, h1, h2⟩ | ⟨_, h⟩ | ⟨s, h, h'⟩ | ⟨why, _, _, h⟩
  · refine absurd h1 (C74_small h2 (fun _ => ht) ?_)
    rintro rfl g r e
    have hw : writeIdeal .fourti2 I = _ := writeIdealFrom_4ti2 true I
    rw [hw, readSizeT_decimal hI.genCount (by simp [nextIs, isDigit]), Option.some.injEq, Prod.mk.injEq] at e
    obtain ⟨rfl, rfl⟩ := e
    refine ⟨hg, fun n r' e => ?_⟩
    rw [readSizeT_congr (u := decimal I.names.length ++ (t!"\n" ++
      (I.terms.flatMap writeTerm4ti2 ++ writeFooter I.names I.terms.isEmpty .fourti2))) (by simp [eatWhite_cons, isSpace]),
      readSizeT_decimal (by omega) (by simp [nextIs, isDigit]), Option.some.injEq, Prod.mk.injEq] at e
    omega
  · rw [this] at h; cases h
  · rw [this] at h'
    cases h'
    exact h
  · rw [this] at h; cases h

/-- The ideal of a triangle without its inside. -/
example : WellFormed ⟨[t!"a", t!"b", t!"c"], [[1, 1, 0], [0, 1, 1], [1, 0, 1]]⟩ ∧
    (∀ g ∈ [[1, 1, 0], [0, 1, 1], [1, 0, 1]], ∀ e ∈ g, e ≤ 1) ∧
    ∀ f, (writeIdeal f ⟨[t!"a", t!"b", t!"c"], [[1, 1, 0], [0, 1, 1], [1, 0, 1]]⟩).length < 2 ^ 30 := by
  refine ⟨⟨⟨?_, by decide, by decide⟩, by decide, by decide⟩, by decide, by intro f; cases f <;> decide +kernel⟩
  intro x hx
  simp only [List.mem_cons, List.not_mem_nil, or_false] at hx
  rcases hx with rfl | rfl | rfl <;> exact ⟨_, [], rfl, by unfold IsLetter; decide, by simp⟩

end Frobby
