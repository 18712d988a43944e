import Verif.WordLoops

/-!
# C48: the packed square free terms are sets of variables

Every function of `RawSquareFreeTerm` on arrays that hold terms reads and writes only inside of the arrays and does the operation
on sets that its name says, and the arrays that it leaves hold terms again: the bits past the last variable stay zero. This needs
at least one variable; what happens without variables is shown at the end.
-/

namespace Frobby

/-- Example: a term in 70 variables takes two words. -/
theorem packs_example : Packs 70 [5, 32] {0, 2, 69} where
  length := by decide
  sub := by decide
  bits := by
    intro v hv
    have : ∀ v < 128, (bitOf [5, 32] v = true ↔ v ∈ ({0, 2, 69} : Finset ℕ)) := by decide +kernel
    exact this v hv

/-- Two arrays that hold the same term are equal. -/
theorem C48_canonical {V : ℕ} {a b : List Word} {s : Finset ℕ} (ha : Packs V a s) (hb : Packs V b s) : a = b := by
  have hlen : a.length = b.length := ha.length.trans hb.length.symm
  refine List.ext_getElem hlen fun i hi hi' => word_eq_iff.2 fun j hj => ?_
  have h1 := ha.bits (64 * i + j) (by omega)
  have h2 := hb.bits (64 * i + j) (by omega)
  rw [bitOf_of_getElem? (List.getElem?_eq_getElem hi) hj] at h1
  rw [bitOf_of_getElem? (List.getElem?_eq_getElem hi') hj] at h2
  rw [Bool.eq_iff_iff, h1, h2]

theorem Packs.fits {V : ℕ} {a : List Word} {s : Finset ℕ} (h : Packs V a s) (hV : 0 < V) : Fits a.length V := by
  rw [h.length]
  unfold Fits
  omega

theorem Packs.bitsAre {V : ℕ} {a : List Word} {s : Finset ℕ} (h : Packs V a s) : BitsAre a fun v => decide (v ∈ s) :=
  (packs_iff.1 h).2.2

theorem Packs.le {V : ℕ} {a : List Word} {s : Finset ℕ} (h : Packs V a s) : V ≤ 64 * a.length := by
  rw [h.length]
  omega

theorem Packs.bitOf_eq {V : ℕ} {a : List Word} {s : Finset ℕ} (h : Packs V a s) (v : ℕ) : bitOf a v = decide (v ∈ s) := by
  by_cases hv : v < 64 * a.length
  · exact bitsAre_iff.1 h.bitsAre v hv
  · have h1 : v ∉ s := fun hm => by
      have := Finset.mem_range.1 (h.sub hm)
      have := h.le
      omega
    rw [decide_eq_false h1]
    unfold bitOf
    rw [List.getD_eq_getElem?_getD, List.getElem?_eq_none (by omega)]
    simp

theorem Packs.of_bitsAre {V : ℕ} {a r : List Word} {s t : Finset ℕ} (h : Packs V a s) (hlen : r.length = a.length)
    {P : ℕ → Bool} (hr : BitsAre r P) (ht : t ⊆ Finset.range V) (hP : ∀ v, P v = decide (v ∈ t)) : Packs V r t :=
  packs_iff.2 ⟨by rw [hlen, (packs_iff.1 h).1], ht, hr.congr fun v _ => hP v⟩

/-- `getExponent` is membership. -/
theorem C48_getExponent {V : ℕ} {a : List Word} {s : Finset ℕ} (h : Packs V a s) {v : ℕ} (hv : v < V) :
    wGetExponent a v = some (decide (v ∈ s)) := by
  rw [wGetExponent_spec a v (by have := h.le; omega), h.bitOf_eq]

example : wGetExponent [5, 32] 69 = some true := by decide

/-- `setExponent` puts a variable in or takes it out. -/
theorem C48_setExponent {V : ℕ} {a : List Word} {s : Finset ℕ} (h : Packs V a s) {v : ℕ} (hv : v < V) :
    (∃ r, wSetExponent a v true = some r ∧ Packs V r (insert v s)) ∧
    ∃ r, wSetExponent a v false = some r ∧ Packs V r (s.erase v) := by
  have hv' : v < 64 * a.length := by have := h.le; omega
  constructor
  · obtain ⟨r, hr, hlen, hbits⟩ := wSetExponent_spec hv' true
    refine ⟨r, hr, ⟨hlen.trans h.length, ?_, fun u _ => ?_⟩⟩
    · intro u hu
      rcases Finset.mem_insert.1 hu with rfl | hu
      · exact Finset.mem_range.2 hv
      · exact h.sub hu
    · rw [hbits, h.bitOf_eq, Finset.mem_insert]
      by_cases huv : u = v <;> simp [huv]
  · obtain ⟨r, hr, hlen, hbits⟩ := wSetExponent_spec hv' false
    refine ⟨r, hr, ⟨hlen.trans h.length, fun u hu => h.sub (Finset.mem_of_mem_erase hu), fun u _ => ?_⟩⟩
    rw [hbits, h.bitOf_eq, Finset.mem_erase]
    by_cases huv : u = v <;> simp [huv]

example : wSetExponent [5, 32] 64 true = some [5, 33] := by decide

/-- `lcm`, in its four forms, is the union. -/
theorem C48_lcm {V : ℕ} (hV : 0 < V) {res a b : List Word} {s t : Finset ℕ} (ha : Packs V a s) (hb : Packs V b t)
    (hres : res.length = a.length) :
    (∃ r, wLcmWords a.length a b = some r ∧ Packs V r (s ∪ t)) ∧ (∃ r, wLcm res a b V = some r ∧ Packs V r (s ∪ t)) ∧
    (∃ r, wLcmInPlaceWords a b = some r ∧ Packs V r (s ∪ t)) ∧ ∃ r, wLcmInPlace a b V = some r ∧ Packs V r (s ∪ t) := by
  have hlen : b.length = a.length := hb.length.trans ha.length.symm
  have hsub := Finset.union_subset ha.sub hb.sub
  have hf : ∀ x y : Word, ∀ j < 64, (x ||| y).getLsbD j = (x.getLsbD j || y.getLsbD j) := fun x y j _ => BitVec.getLsbD_or
  have hP : ∀ v, (decide (v ∈ s) || decide (v ∈ t)) = decide (v ∈ s ∪ t) := fun v => by simp
  obtain ⟨r, hr, hrlen, hbits⟩ := zipWords_spec hf a.length a b _ _ rfl hlen ha.bitsAre hb.bitsAre
  obtain ⟨r', hr', hrlen', hbits'⟩ := zipVars_same hf res a b V _ _ (hres ▸ ha.fits hV) hres.symm (hlen.trans hres.symm)
    ha.bitsAre hb.bitsAre
  obtain ⟨r'', hr'', hrlen'', hbits''⟩ := zipVars_same hf a a b V _ _ (ha.fits hV) rfl hlen ha.bitsAre hb.bitsAre
  exact ⟨⟨r, hr, ha.of_bitsAre hrlen hbits hsub hP⟩, ⟨r', hr', ha.of_bitsAre (hrlen'.trans hres) hbits' hsub hP⟩,
    ⟨r, hr, ha.of_bitsAre hrlen hbits hsub hP⟩, ⟨r'', hr'', ha.of_bitsAre hrlen'' hbits'' hsub hP⟩⟩

example : wLcm [7, 7] [5, 32] [8, 1] 70 = some [13, 33] := by decide

/-- `gcd`, in its four forms, is the intersection. -/
theorem C48_gcd {V : ℕ} (hV : 0 < V) {res a b : List Word} {s t : Finset ℕ} (ha : Packs V a s) (hb : Packs V b t)
    (hres : res.length = a.length) :
    (∃ r, wGcdWords a.length a b = some r ∧ Packs V r (s ∩ t)) ∧ (∃ r, wGcd res a b V = some r ∧ Packs V r (s ∩ t)) ∧
    (∃ r, wGcdInPlaceWords a b = some r ∧ Packs V r (s ∩ t)) ∧ ∃ r, wGcdInPlace a b V = some r ∧ Packs V r (s ∩ t) := by
  have hlen : b.length = a.length := hb.length.trans ha.length.symm
  have hsub : s ∩ t ⊆ Finset.range V := Finset.inter_subset_left.trans ha.sub
  have hf : ∀ x y : Word, ∀ j < 64, (x &&& y).getLsbD j = (x.getLsbD j && y.getLsbD j) := fun x y j _ => BitVec.getLsbD_and
  have hP : ∀ v, (decide (v ∈ s) && decide (v ∈ t)) = decide (v ∈ s ∩ t) := fun v => by simp
  obtain ⟨r, hr, hrlen, hbits⟩ := zipWords_spec hf a.length a b _ _ rfl hlen ha.bitsAre hb.bitsAre
  obtain ⟨r', hr', hrlen', hbits'⟩ := zipVars_same hf res a b V _ _ (hres ▸ ha.fits hV) hres.symm (hlen.trans hres.symm)
    ha.bitsAre hb.bitsAre
  obtain ⟨r'', hr'', hrlen'', hbits''⟩ := zipVars_same hf a a b V _ _ (ha.fits hV) rfl hlen ha.bitsAre hb.bitsAre
  exact ⟨⟨r, hr, ha.of_bitsAre hrlen hbits hsub hP⟩, ⟨r', hr', ha.of_bitsAre (hrlen'.trans hres) hbits' hsub hP⟩,
    ⟨r, hr, ha.of_bitsAre hrlen hbits hsub hP⟩, ⟨r'', hr'', ha.of_bitsAre hrlen'' hbits'' hsub hP⟩⟩

example : wGcd [7, 7] [5, 32] [12, 33] 70 = some [4, 32] := by decide

/-- `colon`, in its two forms, is the difference. -/
theorem C48_colon {V : ℕ} {a b : List Word} {s t : Finset ℕ} (ha : Packs V a s) (hb : Packs V b t) :
    (∃ r, wColon a.length a b = some r ∧ Packs V r (s \ t)) ∧ ∃ r, wColonInPlace a b = some r ∧ Packs V r (s \ t) := by
  have hlen : b.length = a.length := hb.length.trans ha.length.symm
  have hf : ∀ x y : Word, ∀ j < 64, (x &&& ~~~y).getLsbD j = (x.getLsbD j && !y.getLsbD j) := fun x y j hj => by
    rw [BitVec.getLsbD_and, BitVec.getLsbD_not]
    simp [hj]
  obtain ⟨r, hr, hrlen, hbits⟩ := zipWords_spec (F := fun p q => p && !q) hf a.length a b _ _ rfl hlen ha.bitsAre hb.bitsAre
  have := ha.of_bitsAre hrlen hbits (t := s \ t) (Finset.sdiff_subset.trans ha.sub) fun v => by simp
  exact ⟨⟨r, hr, this⟩, ⟨r, hr, this⟩⟩

example : wColon 2 [5, 32] [4, 1] = some [1, 32] := by decide

/-- `assign`, in its two forms, copies, and `swap` exchanges. -/
theorem C48_assign {V : ℕ} (hV : 0 < V) {a b : List Word} (hlen : a.length = b.length) {t : Finset ℕ} (hb : Packs V b t) :
    wAssignWords b.length b = some b ∧ wAssign a b V = some b ∧
      ∀ {s : Finset ℕ}, Packs V a s → wSwap a b V = some (b, a) := by
  have hf : ∀ x y : Word, ∀ j < 64, y.getLsbD j = (fun _ q => q) (x.getLsbD j) (y.getLsbD j) := fun x y j _ => rfl
  have key : ∀ {c d : List Word} {u : Finset ℕ}, c.length = d.length → Packs V d u →
      zipVars (fun _ y => y) (fun _ _ y => y) c c d V = some d := by
    intro c d u hcd hd
    obtain ⟨r, hr, hrlen, hbits⟩ := zipVars_same (f := fun _ y => y) (F := fun _ q => q) hf c c d V (bitOf c) _ (hcd ▸ hd.fits hV) rfl hcd.symm
      (bitsAre_iff.2 fun _ _ => rfl) hd.bitsAre
    have hp := hd.of_bitsAre (hrlen.trans hcd) hbits hd.sub fun v => rfl
    rw [hr, C48_canonical hp hd]
  refine ⟨?_, key hlen hb, fun ha => ?_⟩
  · obtain ⟨r, hr, hrlen, hbits⟩ := zipWords_spec (f := fun _ y => y) (F := fun _ q => q) hf b.length b b _ _ rfl rfl hb.bitsAre hb.bitsAre
    have hp := hb.of_bitsAre hrlen hbits hb.sub fun v => rfl
    unfold wAssignWords
    rw [hr, C48_canonical hp hb]
  · unfold wSwap
    rw [key hlen hb, key hlen.symm ha]

example : wSwap [5, 32] [8, 1] 70 = some ([8, 1], [5, 32]) := by decide

/-- `setToIdentity`, in its two forms, and `newTerm` make the term of no variables, `setToAllVarProd` that of all. -/
theorem C48_setTo {V : ℕ} (hV : 0 < V) {res : List Word} (hres : res.length = wordCount V) :
    Packs V (wSetToIdentityWords (wordCount V)) ∅ ∧ Packs V (wNewTerm V) ∅ ∧
    (∃ r, wSetToIdentity res V = some r ∧ Packs V r ∅) ∧ ∃ r, wSetToAllVarProd res V = some r ∧ Packs V r (Finset.range V) := by
  have hfit : Fits res.length V := hres ▸ fits_wordCount hV
  have hself : BitsAre res (bitOf res) := bitsAre_iff.2 fun _ _ => rfl
  have hzero : ∀ n, BitsAre (List.replicate n (0 : Word)) fun v => decide (v ∈ (∅ : Finset ℕ)) := by
    intro n
    induction n with
    | zero => trivial
    | succ n ih => exact ⟨fun j _ => by simp, ih.congr fun v _ => by simp⟩
  have h0 : Packs V (List.replicate (wordCount V) 0) ∅ := packs_iff.2 ⟨by simp, by simp, hzero _⟩
  refine ⟨h0, h0, ?_, ?_⟩
  · obtain ⟨r, hr, hrlen, hbits⟩ := zipVars_same (f := fun _ _ => 0) (F := fun _ _ => false)
      (fun x y j _ => by simp) res res res V _ _ hfit rfl rfl hself hself
    exact ⟨r, hr, packs_iff.2 ⟨hrlen.trans hres, by simp, hbits.congr fun v _ => by simp⟩⟩
  · obtain ⟨r, hr, hrlen, hbits⟩ := zipVars_masked (f := fun _ _ => ~~~0) (g := fun n _ _ => fullSupportWord n)
      (F := fun _ _ => true) (fun x y j hj => by rw [BitVec.getLsbD_not]; simp [hj])
      (fun n x y hn j _ => by rw [fullSupportWord_bits hn]; simp) res res res V _ _ hfit rfl rfl hself hself
    exact ⟨r, hr, packs_iff.2 ⟨hrlen.trans hres, Finset.Subset.refl _, hbits.congr fun v _ => by simp⟩⟩

example : wSetToAllVarProd [9, 9] 66 = some [~~~0, 3] := by decide

/-- `invert` is the complement. -/
theorem C48_invert {V : ℕ} (hV : 0 < V) {a : List Word} {s : Finset ℕ} (ha : Packs V a s) :
    ∃ r, wInvert a V = some r ∧ Packs V r (Finset.range V \ s) := by
  obtain ⟨r, hr, hrlen, hbits⟩ := zipVars_masked (f := fun x _ => ~~~x) (g := fun n x _ => ~~~x &&& fullSupportWord n)
    (F := fun x _ => !x) (fun x y j hj => by rw [BitVec.getLsbD_not]; simp [hj])
    (fun n x y hn j hj => by
      rw [BitVec.getLsbD_and, fullSupportWord_bits hn, BitVec.getLsbD_not]
      simp [hj, Bool.and_comm]) a a a V _ _ (ha.fits hV) rfl rfl ha.bitsAre ha.bitsAre
  exact ⟨r, hr, ha.of_bitsAre hrlen hbits Finset.sdiff_subset fun v => by simp⟩

example : wInvert [5, 32] 70 = some [~~~5, 31] := by decide

/-- `divides` is the subset relation, `isRelativelyPrime`, in its two forms, that of being disjoint, and `equals` equality. -/
theorem C48_relations {V : ℕ} (hV : 0 < V) {a b : List Word} {s t : Finset ℕ} (ha : Packs V a s) (hb : Packs V b t) :
    wDivides a b = some (decide (s ⊆ t)) ∧ wIsRelativelyPrimeWords a b = some (decide (Disjoint s t)) ∧
    wIsRelativelyPrime a b V = some (decide (Disjoint s t)) ∧ wEquals a b V = some (decide (s = t)) := by
  have hlen : b.length = a.length := hb.length.trans ha.length.symm
  have hin : ∀ v ∈ s, v < 64 * a.length := fun v hv => (Finset.mem_range.1 (ha.sub hv)).trans_le ha.le
  have hin' : ∀ v ∈ t, v < 64 * a.length := fun v hv => (Finset.mem_range.1 (hb.sub hv)).trans_le (hlen ▸ hb.le)
  have hdis : (∀ v < 64 * a.length, (decide (v ∈ s) && decide (v ∈ t)) = false) ↔ Disjoint s t := by
    rw [Finset.disjoint_left]
    constructor
    · intro h v hs ht
      have := h v (hin v hs)
      simp [hs, ht] at this
    · intro h v _
      by_cases hs : v ∈ s
      · simp [h hs]
      · simp [hs]
  refine ⟨?_, ?_, ?_, ?_⟩
  · obtain ⟨r, hr, hiff⟩ := wDivides_spec a b _ _ hlen ha.bitsAre hb.bitsAre
    rw [hr, Option.some.injEq, Bool.eq_iff_iff, hiff, decide_eq_true_iff]
    constructor
    · intro h v hv
      have := h v (hin v hv) (by simpa using hv)
      simpa using this
    · intro h v _ hv
      simp only [decide_eq_true_iff] at hv ⊢
      exact h hv
  · obtain ⟨r, hr, hiff⟩ := wIsRelativelyPrimeWords_spec a b _ _ hlen ha.bitsAre hb.bitsAre
    rw [hr, Option.some.injEq, Bool.eq_iff_iff, hiff, decide_eq_true_iff, hdis]
  · obtain ⟨r, hr, hiff⟩ := wIsRelativelyPrime_spec a b V _ _ (ha.fits hV) hlen ha.bitsAre hb.bitsAre
    rw [hr, Option.some.injEq, Bool.eq_iff_iff, hiff, decide_eq_true_iff, hdis]
  · obtain ⟨r, hr, hiff⟩ := wEquals_spec a b V _ _ (ha.fits hV) hlen ha.bitsAre hb.bitsAre
    rw [hr, Option.some.injEq, Bool.eq_iff_iff, hiff, decide_eq_true_iff]
    constructor
    · intro h
      ext v
      constructor
      · intro hv
        have := h v (hin v hv)
        simpa [hv] using this
      · intro hv
        have := h v (hin' v hv)
        simpa [hv] using this
    · rintro rfl v _
      rfl

example : wDivides [5, 32] [7, 32] = some true ∧ wIsRelativelyPrime [5, 32] [2, 1] 70 = some true := by decide

/-- `isIdentity`, in its two forms, `hasFullSupport` and `getSizeOfSupport`. -/
theorem C48_support {V : ℕ} (hV : 0 < V) {a : List Word} {s : Finset ℕ} (ha : Packs V a s) :
    wIsIdentity a V = some (decide (s = ∅)) ∧ wIsIdentityWords a = decide (s = ∅) ∧
    wHasFullSupport a V = some (decide (s = Finset.range V)) ∧ wSizeOfSupport a V = some s.card := by
  have hin : ∀ v ∈ s, v < 64 * a.length := fun v hv => (Finset.mem_range.1 (ha.sub hv)).trans_le ha.le
  have hid : (∀ v < 64 * a.length, decide (v ∈ s) = false) ↔ s = ∅ := by
    rw [Finset.eq_empty_iff_forall_notMem]
    constructor
    · intro h v hv
      have := h v (hin v hv)
      simp [hv] at this
    · intro h v _
      simpa using h v
  refine ⟨?_, ?_, ?_, ?_⟩
  · obtain ⟨r, hr, hiff⟩ := wIsIdentity_spec a V _ (ha.fits hV) ha.bitsAre
    rw [hr, Option.some.injEq, Bool.eq_iff_iff, hiff, decide_eq_true_iff, hid]
  · rw [Bool.eq_iff_iff, wIsIdentityWords_spec a _ ha.bitsAre, decide_eq_true_iff, hid]
  · obtain ⟨r, hr, hiff⟩ := wHasFullSupport_spec a V _ (ha.fits hV) ha.bitsAre
    rw [hr, Option.some.injEq, Bool.eq_iff_iff, hiff, decide_eq_true_iff]
    constructor
    · intro h
      refine Finset.Subset.antisymm ha.sub fun v hv => ?_
      have hv' := Finset.mem_range.1 hv
      have := h v (hv'.trans_le ha.le)
      simpa [hv'] using this
    · intro h v _
      rw [h]
      simp
  · rw [wSizeOfSupport_spec a V _ (ha.fits hV) ha.bitsAre, Nat.count_eq_card_filter_range]
    congr 2
    ext v
    simp only [Finset.mem_filter, Finset.mem_range, decide_eq_true_iff]
    exact ⟨fun h => h.2, fun h => ⟨hin v h, h⟩⟩

example : wSizeOfSupport [5, 32] 70 = some 3 := by
  have := (C48_support (by omega) packs_example).2.2.2
  exact this

/-- `lexLess`: the first variable on which the terms differ is in the second. -/
theorem C48_lexLess {V : ℕ} (hV : 0 < V) {a b : List Word} {s t : Finset ℕ} (ha : Packs V a s) (hb : Packs V b t) :
    ∃ r, wLexLess a b V = some r ∧ (r = true ↔ LexBelow s t) := by
  have hlen : b.length = a.length := hb.length.trans ha.length.symm
  obtain ⟨r, hr, hiff⟩ := wLexLess_spec a b V _ _ (ha.fits hV) hlen ha.bitsAre hb.bitsAre
  refine ⟨r, hr, hiff.trans ⟨?_, ?_⟩⟩
  · rintro ⟨v, _, h1, h2, h3⟩
    exact ⟨v, by simpa using h2, by simpa using h1, fun u hu => by simpa using h3 u hu⟩
  · rintro ⟨v, h2, h1, h3⟩
    refine ⟨v, (Finset.mem_range.1 (hb.sub h2)).trans_le (hlen ▸ hb.le), by simpa using h1, by simpa using h2, fun u hu => ?_⟩
    simpa using h3 u hu

example : wLexLess [4, 32] [5, 0] 70 = some true := by decide

/-- `getVarIfPure` finds the variable of a term that is a variable and returns the number of variables for any other. -/
theorem C48_getVarIfPure {V : ℕ} (hV : 0 < V) {a : List Word} {s : Finset ℕ} (ha : Packs V a s) :
    (∀ v, s = {v} → wGetVarIfPure a V = some v) ∧ ((¬ ∃ v, s = {v}) → wGetVarIfPure a V = some V) := by
  have hin : ∀ v ∈ s, v < 64 * a.length := fun v hv => (Finset.mem_range.1 (ha.sub hv)).trans_le ha.le
  have key : ∀ v, s = {v} ↔ v < 64 * a.length ∧ ∀ u < 64 * a.length, bitOf a u = true ↔ u = v := by
    intro v
    constructor
    · rintro rfl
      refine ⟨hin v (by simp), fun u _ => ?_⟩
      rw [ha.bitOf_eq]
      simp
    · rintro ⟨hv, h⟩
      ext u
      rw [Finset.mem_singleton]
      constructor
      · intro hu
        exact (h u (hin u hu)).1 (by rw [ha.bitOf_eq]; simpa using hu)
      · rintro rfl
        have := (h u hv).2 rfl
        rw [ha.bitOf_eq] at this
        simpa using this
  rcases wGetVarIfPure_spec a V (ha.fits hV) with ⟨v, hv, h1, h2⟩ | ⟨h1, h2⟩
  · have hs := (key v).2 ⟨hv, h1⟩
    constructor
    · intro v' hv'
      rw [hs] at hv'
      rw [h2, Finset.singleton_inj.1 hv']
    · intro hno
      exact absurd ⟨v, hs⟩ hno
  · constructor
    · intro v hv
      exact absurd ⟨v, (key v).1 hv⟩ h1
    · intro _
      exact h2

example : wGetVarIfPure [0, 32] 70 = some 69 := by
  have h : Packs 70 [0, 32] {69} := ⟨by decide, by decide, fun v hv => by
    have : ∀ v < 128, (bitOf [0, 32] v = true ↔ v ∈ ({69} : Finset ℕ)) := by decide +kernel
    exact this v hv⟩
  exact (C48_getVarIfPure (by omega) h).1 69 rfl

/-- `decrementAtSupport` and `toZeroAtSupport` change the numbers of the variables in the term and no others. -/
theorem C48_atSupport {V : ℕ} (hV : 0 < V) {a : List Word} {s : Finset ℕ} (ha : Packs V a s) {inc : List ℕ}
    (hinc : inc.length = V) :
    (∃ r, wToZeroAtSupport a inc V = some r ∧ r.length = V ∧
      ∀ v < V, r.getD v 0 = if v ∈ s then 0 else inc.getD v 0) ∧
    ((∀ x ∈ inc, x < 2 ^ 64) → (∀ v ∈ s, 0 < inc.getD v 0) → ∃ r, wDecrementAtSupport a inc V = some r ∧ r.length = V ∧
      ∀ v < V, r.getD v 0 = if v ∈ s then inc.getD v 0 - 1 else inc.getD v 0) := by
  subst hinc
  have hval : ∀ v < 64 * a.length, decide (v ∈ s) = true → v < inc.length := fun v _ h =>
    Finset.mem_range.1 (ha.sub (by simpa using h))
  constructor
  · obtain ⟨r, hr, hlen, hbits⟩ := wAtSupport_spec (fun _ => 0) a inc _ (ha.fits hV) ha.bitsAre hval
    refine ⟨r, hr, hlen, fun v hv => ?_⟩
    rw [List.getD_eq_getElem?_getD, hbits v hv, List.getD_eq_getElem?_getD, List.getElem?_eq_getElem hv]
    simp
  · intro hsize hpos
    obtain ⟨r, hr, hlen, hbits⟩ := wAtSupport_spec (fun x => (x + (2 ^ 64 - 1)) % 2 ^ 64) a inc _ (ha.fits hV) ha.bitsAre hval
    refine ⟨r, hr, hlen, fun v hv => ?_⟩
    have hsz := hsize (inc[v]) (List.getElem_mem hv)
    have hps := hpos v
    rw [List.getD_eq_getElem?_getD, hbits v hv, List.getD_eq_getElem?_getD, List.getElem?_eq_getElem hv]
    rw [List.getD_eq_getElem?_getD, List.getElem?_eq_getElem hv] at hps
    simp only [Option.map_some, Option.getD_some, decide_eq_true_iff] at hps ⊢
    by_cases hs : v ∈ s
    · rw [if_pos hs, if_pos hs]
      have := hps hs
      omega
    · rw [if_neg hs, if_neg hs]

example : wToZeroAtSupport [5] [7, 8, 9] 3 = some [0, 8, 0] := by decide

/-- `isValid` is true exactly for the arrays that hold a term. -/
theorem C48_isValid {V : ℕ} (hV : 0 < V) {a : List Word} (hlen : a.length = wordCount V) :
    ∃ r, wIsValid a V = some r ∧ (r = true ↔ ∃ s, Packs V a s) := by
  have hfit : Fits a.length V := hlen ▸ fits_wordCount hV
  unfold Fits at hfit
  have hpacks : (∃ s, Packs V a s) ↔ ∀ v, V ≤ v → v < 64 * a.length → bitOf a v = false := by
    constructor
    · rintro ⟨s, hs⟩ v hv _
      rw [hs.bitOf_eq]
      simp only [decide_eq_false_iff_not]
      intro hm
      have := Finset.mem_range.1 (hs.sub hm)
      omega
    · intro h
      refine ⟨(Finset.range V).filter fun v => bitOf a v, by rw [hlen, wordCount_eq], Finset.filter_subset _ _, fun v hv => ?_⟩
      rw [Finset.mem_filter, Finset.mem_range]
      constructor
      · intro hb
        refine ⟨?_, hb⟩
        by_contra hge
        rw [h v (by omega) hv] at hb
        cases hb
      · exact fun h => h.2
  rw [hpacks]
  unfold wIsValid
  change ∃ r, (if V - 64 * (V / 64) = 0 then some true else match a[V / 64]? with
    | none => none
    | some word => some (word &&& ~~~fullSupportWord (V - 64 * (V / 64)) == 0)) = some r ∧ _
  by_cases hz : V - 64 * (V / 64) = 0
  · rw [if_pos hz]
    refine ⟨true, rfl, fun _ v hv hv' => by omega, fun _ => rfl⟩
  · rw [if_neg hz]
    have hi : V / 64 < a.length := by omega
    rw [List.getElem?_eq_getElem hi]
    refine ⟨_, rfl, ?_⟩
    rw [beq_iff_eq, word_eq_zero_iff]
    constructor
    · intro h v hv hv'
      have := h (v % 64) (by omega)
      rw [BitVec.getLsbD_and, BitVec.getLsbD_not, fullSupportWord_bits (by omega),
        ← bitOf_of_getElem? (List.getElem?_eq_getElem hi) (by omega), show 64 * (V / 64) + v % 64 = v by omega] at this
      have h2 : ¬ v % 64 < V - 64 * (V / 64) := by omega
      have h3 : v % 64 < 64 := by omega
      simpa [h2, h3] using this
    · intro h j hj
      rw [BitVec.getLsbD_and, BitVec.getLsbD_not, fullSupportWord_bits (by omega)]
      by_cases hjV : j < V - 64 * (V / 64)
      · simp [hjV]
      · have := h (64 * (V / 64) + j) (by omega) (by omega)
        rw [bitOf_of_getElem? (List.getElem?_eq_getElem hi) hj] at this
        simp [this]

example : wIsValid [5, 64] 70 = some false := by decide

/-- `encodeTerm` of numbers: it returns true if all the exponents are 0 or 1, and the array then holds the term. -/
theorem C48_encodeTerm {encoded : List Word} {term : List ℕ} (hV : 0 < term.length)
    (hlen : encoded.length = wordCount term.length) :
    ((∃ e ∈ term, 1 < e) → wEncodeTerm encoded term = some none) ∧
    ((∀ e ∈ term, e ≤ 1) → ∃ r, wEncodeTerm encoded term = some (some r) ∧
      Packs term.length r ((Finset.range term.length).filter fun v => term[v]? = some 1)) := by
  have hnone : ∀ e, digitOfNumber e = none ↔ 1 < e := by
    intro e
    unfold digitOfNumber
    by_cases h1 : e = 1
    · simp [h1]
    · by_cases h0 : e = 0
      · simp [h0]
      · rw [if_neg h1, if_pos h0]
        simp
        omega
  rcases encodeLoop_spec digitOfNumber _ encoded term hlen (fits_wordCount hV) with ⟨⟨e, he, hne⟩, h⟩ | ⟨hall, r, hr, hrlen, hbits⟩
  · refine ⟨fun _ => h, fun hle => ?_⟩
    have := hle e he
    rw [hnone] at hne
    omega
  · refine ⟨fun ⟨e, he, hlt⟩ => absurd ((hnone e).2 hlt) (hall e he), fun hle => ⟨r, hr, packs_iff.2 ⟨hrlen,
      Finset.filter_subset _ _, hbits.congr fun v _ => ?_⟩⟩⟩
    simp only [Finset.mem_filter, Finset.mem_range]
    by_cases hv : v < term.length
    · rw [List.getElem?_eq_getElem hv]
      simp only [hv, true_and, Option.some.injEq]
      have := hle _ (List.getElem_mem hv)
      have hcase : term[v] = 0 ∨ term[v] = 1 := by omega
      rcases hcase with h | h <;> rw [h] <;> rfl
    · rw [List.getElem?_eq_none (by omega)]
      simp [hv]

example : wEncodeTerm [9] [1, 0, 1] = some (some [5]) := by
  unfold wEncodeTerm
  rw [encodeLoop_cons_some _ _ _ _ _ 5 [] (by decide)]
  simp [encodeLoop]

/-- `encodeTerm` of strings: it returns true if all the exponents are empty, "0" or "1", and the array then holds the term. -/
theorem C48_encodeTexts {encoded : List Word} {term : List (List Char)} (hV : 0 < term.length)
    (hlen : encoded.length = wordCount term.length) :
    ((∃ e ∈ term, e ≠ [] ∧ e ≠ ['0'] ∧ e ≠ ['1']) → wEncodeTexts encoded term = some none) ∧
    ((∀ e ∈ term, e = [] ∨ e = ['0'] ∨ e = ['1']) → ∃ r, wEncodeTexts encoded term = some (some r) ∧
      Packs term.length r ((Finset.range term.length).filter fun v => term[v]? = some ['1'])) := by
  have hnone : ∀ e, digitOfText e = none ↔ e ≠ [] ∧ e ≠ ['0'] ∧ e ≠ ['1'] := by
    intro e
    match e with
    | [] => simp [digitOfText]
    | [c] =>
      unfold digitOfText
      by_cases h1 : c = '1'
      · simp [h1]
      · by_cases h0 : c = '0'
        · simp [h0]
        · simp [h1, h0]
    | c :: d :: l => simp [digitOfText]
  rcases encodeLoop_spec digitOfText _ encoded term hlen (fits_wordCount hV) with ⟨⟨e, he, hne⟩, h⟩ | ⟨hall, r, hr, hrlen, hbits⟩
  · refine ⟨fun _ => h, fun hle => ?_⟩
    rw [hnone] at hne
    rcases hle e he with h' | h' | h'
    · exact absurd h' hne.1
    · exact absurd h' hne.2.1
    · exact absurd h' hne.2.2
  · refine ⟨fun ⟨e, he, hlt⟩ => absurd ((hnone e).2 hlt) (hall e he), fun hle => ⟨r, hr, packs_iff.2 ⟨hrlen,
      Finset.filter_subset _ _, hbits.congr fun v _ => ?_⟩⟩⟩
    simp only [Finset.mem_filter, Finset.mem_range]
    by_cases hv : v < term.length
    · rw [List.getElem?_eq_getElem hv]
      simp only [hv, true_and, Option.some.injEq]
      rcases hle _ (List.getElem_mem hv) with h | h | h <;> rw [h] <;> decide
    · rw [List.getElem?_eq_none (by omega)]
      simp [hv]

example : ∀ e ∈ [['1'], [], ['0'], ['1']], e = [] ∨ e = ['0'] ∨ e = ['1'] := by decide

theorem keptBelow_eq_card (m : Finset ℕ) (v : ℕ) :
    keptBelow (fun u => decide (u ∈ m)) v = (Finset.range v \ m).card := by
  unfold keptBelow
  rw [Nat.count_eq_card_filter_range]
  congr 1
  ext u
  simp

/-- `compact`: the variables of `remove` are taken out and the others numbered again in order. The arrays `compacted` and `term`
may be the same, or different ones of which `compacted` is large enough. At least one variable has to be left. -/
theorem C48_compact {V : ℕ} {term remove : List Word} {s m : Finset ℕ} (ht : Packs V term s) (hm : Packs V remove m)
    (hleft : 0 < (Finset.range V \ m).card) :
    (∀ compacted : List Word, wordCount (Finset.range V \ m).card ≤ compacted.length →
      ∃ r, wCompact (fun _ => term) remove compacted V = some r ∧
        Packs (Finset.range V \ m).card (r.take (wordCount (Finset.range V \ m).card)) (renumber V m s)) ∧
    ∃ r, wCompact id remove term V = some r ∧
      Packs (Finset.range V \ m).card (r.take (wordCount (Finset.range V \ m).card)) (renumber V m s) := by
  have hk : keptBelow (fun u => decide (u ∈ m)) V = (Finset.range V \ m).card := keptBelow_eq_card m V
  have hfitk := fits_wordCount hleft
  have main : ∀ (src : List Word → List Word) (c0 : List Word), wordCount (Finset.range V \ m).card ≤ c0.length →
      (∀ (d : List Word) (v : ℕ), d.length = c0.length → v < V → (∀ u, v ≤ u → bitOf d u = bitOf c0 u) →
        v < 64 * (src d).length ∧ bitOf (src d) v = decide (v ∈ s)) →
      ∃ r, wCompact src remove c0 V = some r ∧
        Packs (Finset.range V \ m).card (r.take (wordCount (Finset.range V \ m).card)) (renumber V m s) := by
    intro src c0 hlen hsrc
    obtain ⟨r, hr, hrlen, h1, h2⟩ := wCompact_spec src remove (fun u => decide (u ∈ m)) (fun v => decide (v ∈ s)) c0 V hm.le
      (fun v _ => hm.bitOf_eq v) hsrc (by rw [hk]; exact hfitk.1.trans (by omega))
    rw [hk] at h1 h2
    have hmemk : ∀ v, v < V → v ∉ m → (Finset.range v \ m).card < (Finset.range V \ m).card := by
      intro v hv hvm
      refine Finset.card_lt_card ⟨?_, fun h => ?_⟩
      · intro u hu
        rw [Finset.mem_sdiff, Finset.mem_range] at hu ⊢
        exact ⟨by omega, hu.2⟩
      · have := h (show v ∈ Finset.range V \ m from Finset.mem_sdiff.2 ⟨Finset.mem_range.2 hv, hvm⟩)
        simp at this
    refine ⟨r, hr, ?_, ?_, fun u hu => ?_⟩
    · rw [List.length_take, hrlen, ← wordCount_eq]
      omega
    · intro u hu
      obtain ⟨v, hv, rfl⟩ := Finset.mem_image.1 hu
      rw [Finset.mem_inter, Finset.mem_sdiff, Finset.mem_range] at hv
      exact Finset.mem_range.2 (hmemk v hv.1.1 hv.1.2)
    · rw [List.length_take, hrlen, Nat.min_eq_left hlen] at hu
      have hbit : bitOf (r.take (wordCount (Finset.range V \ m).card)) u = bitOf r u := by
        unfold bitOf
        rw [List.getD_eq_getElem?_getD, List.getD_eq_getElem?_getD, List.getElem?_take_of_lt (by omega)]
      rw [hbit]
      unfold renumber
      rw [Finset.mem_image]
      have hkb : ∀ v, keptBelow (fun u => decide (u ∈ m)) v = (Finset.range v \ m).card := keptBelow_eq_card m
      by_cases huk : u < (Finset.range V \ m).card
      · rw [h1 u huk]
        simp only [hkb, decide_eq_false_iff_not, decide_eq_true_iff, Finset.mem_inter, Finset.mem_sdiff, Finset.mem_range]
        constructor
        · rintro ⟨v, hv, a, b, c⟩; exact ⟨v, ⟨⟨hv, a⟩, c⟩, b⟩
        · rintro ⟨v, ⟨⟨hv, a⟩, c⟩, b⟩; exact ⟨v, hv, a, b, c⟩
      · unfold Fits at hfitk
        rw [h2 u (by omega), if_pos (by omega)]
        simp only [Bool.false_eq_true, false_iff]
        rintro ⟨v, hv, rfl⟩
        rw [Finset.mem_inter, Finset.mem_sdiff, Finset.mem_range] at hv
        exact huk (hmemk v hv.1.1 hv.1.2)
  refine ⟨fun compacted hlen => main _ compacted hlen fun d v _ hv _ => ?_, main id term ?_ fun d v hd hv hdv => ?_⟩
  · exact ⟨hv.trans_le ht.le, ht.bitOf_eq v⟩
  · have hcard : (Finset.range V \ m).card ≤ V := (Finset.card_le_card Finset.sdiff_subset).trans (by simp)
    rw [ht.length, wordCount_eq]
    omega
  · refine ⟨?_, ?_⟩
    · show v < 64 * d.length
      rw [hd]
      exact hv.trans_le ht.le
    · show bitOf d v = _
      rw [hdv v (Nat.le_refl v), ht.bitOf_eq]

/-- Example: without the first 68 variables the variables 68 and 69 are the new variables 0 and 1. -/
example : renumber 70 (Finset.range 68) {0, 2, 69} = {1} := by decide +kernel

/-- Without variables `setToIdentity` and `encodeTerm` write nothing, although a term of no variables takes one word and
`divides` looks at it: two such terms need not divide each other. -/
theorem C48_no_variables : wordCount 0 = 1 ∧ (∀ res : List Word, wSetToIdentity res 0 = some res) ∧
    (∀ res : List Word, wEncodeTerm res [] = some (some res)) ∧ wDivides [1] [0] = some false := by
  refine ⟨rfl, fun res => ?_, fun res => ?_, by decide⟩
  · unfold wSetToIdentity zipVars
    simp [bitsPerWord]
  · unfold wEncodeTerm encodeLoop
    rfl

/-- When no variable is left `compact` clears no bits, so that the word of the compacted term need not be zero. -/
theorem C48_compact_to_nothing : Packs 1 [1] {0} ∧ wCompact id [1] [1] 1 = some [1] ∧ ¬ ∃ s, Packs 0 [1] s := by
  refine ⟨⟨by decide, by decide, fun v hv => ?_⟩, ?_, ?_⟩
  · have : ∀ v < 64, (bitOf [1] v = true ↔ v ∈ ({0} : Finset ℕ)) := by decide +kernel
    exact this v hv
  · unfold wCompact
    have h : wCompactLoop id [1] [1] 0 0 1 = some ([1], 0) := by decide
    rw [h]
    simp only
    unfold wCompactTail
    simp
  · rintro ⟨s, hs⟩
    have h1 := (hs.bits 0 (by decide)).1 (by decide)
    have := hs.sub h1
    simp at this

end Frobby
