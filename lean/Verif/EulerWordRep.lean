import Verif.EulerWordLen
import Verif.EulerRun

/-!
# States on words of memory and states on sets
-/

namespace Frobby

theorem junk_length (junk : Junk) (k n : ℕ) : (junk.array k n).length = n := by simp [Junk.array]

theorem wordCount_mono {a b : ℕ} (h : a ≤ b) : wordCount a ≤ wordCount b := by
  rw [wordCount_eq, wordCount_eq]
  omega

/-- A state that holds the generators of an ideal and has the memory that it may need; nothing is said about the eliminated
variables. The numbers of variables and generators are at most `N`. -/
structure EPre (N : ℕ) (w : EulerWords) (V : ℕ) (gens : List (Finset ℕ)) (sign : ℤ) : Prop where
  pos : 0 < V
  holds : Holds w.ideal V gens
  sign : w.sign = sign
  room : ∃ a b, V ≤ a ∧ gens.length ≤ b ∧ wordCount a * b ≤ w.ideal.memory.length ∧ wordCount b * a ≤ w.ideal.memory.length ∧
    wordCount a ≤ w.eliminated.length ∧ wordCount b ≤ w.eliminated.length
  bound : V ≤ N ∧ gens.length ≤ N

/-- The words are those of the state. -/
structure ERep (N : ℕ) (w : EulerWords) (s : EulerState) : Prop where
  pre : EPre N w s.varCount s.ideal.gens s.sign
  elim : ∃ e, readWords w.eliminated 0 (wordCount s.varCount) = some e ∧ Packs s.varCount e s.eliminated

theorem EPre.varCount {N : ℕ} {w : EulerWords} {V : ℕ} {gens : List (Finset ℕ)} {sg : ℤ} (h : EPre N w V gens sg) :
    w.varCount = V := h.holds.varCount

theorem EPre.genCount {N : ℕ} {w : EulerWords} {V : ℕ} {gens : List (Finset ℕ)} {sg : ℤ} (h : EPre N w V gens sg) :
    w.genCount = gens.length := h.holds.genCount

theorem ERep.varCount {N : ℕ} {w : EulerWords} {s : EulerState} (h : ERep N w s) : w.varCount = s.varCount := h.pre.varCount

theorem ERep.genCount {N : ℕ} {w : EulerWords} {s : EulerState} (h : ERep N w s) : w.genCount = s.genCount := h.pre.genCount

theorem ERep.sign {N : ℕ} {w : EulerWords} {s : EulerState} (h : ERep N w s) : w.sign = s.sign := h.pre.sign

theorem ERep.holds {N : ℕ} {w : EulerWords} {s : EulerState} (h : ERep N w s) : Holds w.ideal s.varCount s.ideal.gens := h.pre.holds

theorem ERep.pos {N : ℕ} {w : EulerWords} {s : EulerState} (h : ERep N w s) : 0 < s.varCount := h.pre.pos

theorem EPre.wordsElim {N : ℕ} {w : EulerWords} {V : ℕ} {gens : List (Finset ℕ)} {sg : ℤ} (h : EPre N w V gens sg) :
    wordCount V ≤ w.eliminated.length := by
  obtain ⟨a, b, h1, _, _, _, h2, _⟩ := h.room
  exact (wordCount_mono h1).trans h2

theorem EPre.room_transposed {N : ℕ} {w : EulerWords} {V : ℕ} {gens : List (Finset ℕ)} {sg : ℤ} (h : EPre N w V gens sg) :
    wordCount gens.length * V ≤ w.ideal.memory.length := by
  obtain ⟨a, b, h1, h2, _, h3, _, _⟩ := h.room
  exact (Nat.mul_le_mul (wordCount_mono h2) h1).trans h3

theorem ERep.elim_ok {N : ℕ} {w : EulerWords} {s : EulerState} (h : ERep N w s) :
    ∃ e, w.elim = .ok e ∧ Packs s.varCount e s.eliminated := by
  obtain ⟨e, h1, h2⟩ := h.elim
  refine ⟨e, ?_, h2⟩
  unfold EulerWords.elim
  rw [h.varCount, h1]
  rfl

theorem ERep.generator {N : ℕ} {w : EulerWords} {s : EulerState} (h : ERep N w s) {i : ℕ} (hi : i < s.ideal.gens.length) :
    ∃ a, w.generator i = .ok a ∧ Packs s.varCount a s.ideal.gens[i] := by
  obtain ⟨a, ha, hp⟩ := along_get _ 0 h.holds.along i hi
  rw [Nat.zero_add] at ha
  refine ⟨a, ?_, hp⟩
  unfold EulerWords.generator
  rw [ha]
  rfl

/-- Writing the eliminated variables. -/
theorem EPre.putElim {N : ℕ} {w : EulerWords} {V : ℕ} {gens : List (Finset ℕ)} {sg : ℤ} (h : EPre N w V gens sg) {e : List Word}
    {E : Finset ℕ} (he : Packs V e E) : ∃ w', w.putElim e = .ok w' ∧ ERep N w' ⟨⟨V, gens⟩, E, sg⟩ := by
  have hl := packs_length he
  obtain ⟨m, hm⟩ : ∃ m, writeWords w.eliminated 0 e = some m :=
    ⟨_, writeWords_eq_some.2 ⟨by rw [Nat.zero_add, hl]; exact h.wordsElim, rfl⟩⟩
  have hlen := writeWords_length hm
  refine ⟨⟨w.ideal, m, w.sign⟩, ?_, ⟨⟨h.pos, h.holds, h.sign, ?_, h.bound⟩, e, ?_, he⟩⟩
  · unfold EulerWords.putElim
    rw [hm]
    rfl
  · obtain ⟨a, b, h1, h2, h3, h4, h5, h6⟩ := h.room
    exact ⟨a, b, h1, h2, h3, h4, by rw [hlen]; exact h5, by rw [hlen]; exact h6⟩
  · have := readWords_writeWords hm
    rwa [hl] at this

theorem EPre.read {N : ℕ} {w : EulerWords} {V : ℕ} {gens : List (Finset ℕ)} {sg : ℤ} (h : EPre N w V gens sg) :
    ∃ e, readWords w.eliminated 0 (wordCount V) = some e ∧ e.length = wordCount V := by
  have : ∃ e, readWords w.eliminated 0 (wordCount V) = some e :=
    ⟨_, readWords_eq_some.2 ⟨by rw [Nat.zero_add]; exact h.wordsElim, rfl⟩⟩
  obtain ⟨e, he⟩ := this
  exact ⟨e, he, readWords_length he⟩

theorem EPre.clear {N : ℕ} {w : EulerWords} {V : ℕ} {gens : List (Finset ℕ)} {sg : ℤ} (h : EPre N w V gens sg) :
    ∃ w', w.clear = .ok w' ∧ ERep N w' ⟨⟨V, gens⟩, ∅, sg⟩ := by
  obtain ⟨e, he, hl⟩ := h.read
  obtain ⟨r, hr, hp⟩ := (C48_setTo h.pos hl).2.2.1
  obtain ⟨w', h1, h2⟩ := h.putElim hp
  refine ⟨w', ?_, h2⟩
  unfold EulerWords.clear EulerWords.elim
  rw [h.varCount, he]
  change (checked (wSetToIdentity e V) >>= fun e => w.putElim e) = _
  rw [hr]
  exact h1

/-- The ideal has changed, the variables have not. -/
theorem EPre.ideal {N : ℕ} {w : EulerWords} {V : ℕ} {gens gens' : List (Finset ℕ)} {sg : ℤ} (h : EPre N w V gens sg) {I : RsfIdeal}
    (hI : Holds I V gens') (hlen : I.memory.length = w.ideal.memory.length) (hle : gens'.length ≤ gens.length) :
    EPre N ⟨I, w.eliminated, w.sign⟩ V gens' sg := by
  obtain ⟨a, b, h1, h2, h3, h4, h5, h6⟩ := h.room
  exact ⟨h.pos, hI, h.sign, ⟨a, b, h1, hle.trans h2, by rw [hlen]; exact h3, by rw [hlen]; exact h4, h5, h6⟩, h.bound.1,
    hle.trans h.bound.2⟩

theorem ERep.ideal {N : ℕ} {w : EulerWords} {s : EulerState} (h : ERep N w s) {I : RsfIdeal} {gens' : List (Finset ℕ)}
    (hI : Holds I s.varCount gens') (hlen : I.memory.length = w.ideal.memory.length) (hle : gens'.length ≤ s.ideal.gens.length) :
    ERep N ⟨I, w.eliminated, w.sign⟩ ⟨⟨s.varCount, gens'⟩, s.eliminated, s.sign⟩ :=
  ⟨h.pre.ideal hI hlen hle, h.elim⟩

theorem ERep.flipSign {N : ℕ} {w : EulerWords} {s : EulerState} (h : ERep N w s) : ERep N w.flipSign s.flipSign :=
  ⟨⟨h.pos, h.holds, by rw [EulerWords.flipSign, EulerState.flipSign, h.sign], h.pre.room, h.pre.bound⟩, h.elim⟩

theorem ERep.eliminate {N : ℕ} {w : EulerWords} {s : EulerState} (h : ERep N w s) {b : List Word} {t : Finset ℕ}
    (ht : Packs s.varCount b t) : ∃ w', w.eliminate b = .ok w' ∧ ERep N w' ⟨s.ideal, s.eliminated ∪ t, s.sign⟩ := by
  obtain ⟨e, he, hp⟩ := h.elim_ok
  obtain ⟨r, hr, hrp⟩ := (C48_lcm h.pos hp ht rfl).2.2.2
  obtain ⟨w', h1, h2⟩ := h.pre.putElim hrp
  refine ⟨w', ?_, h2⟩
  unfold EulerWords.eliminate
  rw [he, h.varCount]
  change (checked (wLcmInPlace e b s.varCount) >>= fun e => w.putElim e) = _
  rw [hr]
  exact h1

theorem ERep.eliminateVar {N : ℕ} {w : EulerWords} {s : EulerState} (h : ERep N w s) {v : ℕ} (hv : v < s.varCount) :
    ∃ w', w.eliminateVar v = .ok w' ∧ ERep N w' ⟨s.ideal, insert v s.eliminated, s.sign⟩ := by
  obtain ⟨e, he, hp⟩ := h.elim_ok
  obtain ⟨r, hr, hrp⟩ := (C48_setExponent hp hv).1
  obtain ⟨w', h1, h2⟩ := h.pre.putElim hrp
  refine ⟨w', ?_, h2⟩
  unfold EulerWords.eliminateVar
  rw [he]
  change (checked (wSetExponent e v true) >>= fun e => w.putElim e) = _
  rw [hr]
  exact h1

theorem ERep.copyElim {N : ℕ} {w sub : EulerWords} {s : EulerState} (h : ERep N w s) {gens : List (Finset ℕ)} {sg : ℤ}
    (hs : EPre N sub s.varCount gens sg) :
    ∃ w', sub.copyElim w = .ok w' ∧ ERep N w' ⟨⟨s.varCount, gens⟩, s.eliminated, sg⟩ := by
  obtain ⟨e, he, hp⟩ := h.elim_ok
  obtain ⟨o, ho, hol⟩ := hs.read
  have ha := (C48_assign h.pos (a := o) (b := e) (by rw [hol, packs_length hp]) hp).2.1
  obtain ⟨w', h1, h2⟩ := hs.putElim hp
  refine ⟨w', ?_, h2⟩
  unfold EulerWords.copyElim
  rw [he, h.varCount, ho]
  change (checked (wAssign o e s.varCount) >>= fun e => sub.putElim e) = _
  rw [ha]
  exact h1

theorem ERep.removeGenerator {N : ℕ} {w : EulerWords} {s : EulerState} (h : ERep N w s) {i : ℕ} (hi : i < s.ideal.gens.length) :
    ∃ w', w.removeGenerator i = .ok w' ∧ ERep N w' (s.removeGenerator i) := by
  obtain ⟨r, hr, hh⟩ := removeGenerator_holds hi h.holds
  refine ⟨⟨r, w.eliminated, w.sign⟩, ?_, h.ideal hh (removeGenerator_len hr) ?_⟩
  · unfold EulerWords.removeGenerator
    rw [hr]
    rfl
  · simp

theorem ERep.toColon {N : ℕ} {w : EulerWords} {s : EulerState} (h : ERep N w s) (ok : StateOk s) {b : List Word} {t : Finset ℕ}
    (ht : Packs s.varCount b t) : ∃ w', w.toColon b = .ok w' ∧ ERep N w' (s.toColon t) := by
  obtain ⟨r, hr, hh⟩ := colonReminimize_holds h.pos h.holds ht
  obtain ⟨hv, hm⟩ := colonReminimize_spec ok.anti t
  have h1 := h.ideal hh (colonReminimize_len hr) (by
    have := hm.sub.length_le
    rwa [List.length_map] at this)
  obtain ⟨w', h2, h3⟩ := h1.eliminate ht
  refine ⟨w', ?_, ?_⟩
  · unfold EulerWords.toColon
    rw [hr]
    exact h2
  · have e : s.toColon t = ⟨⟨s.varCount, (SqIdeal.colonReminimize ⟨s.varCount, s.ideal.gens⟩ t).gens⟩, s.eliminated ∪ t, s.sign⟩ := by
      unfold EulerState.toColon
      congr 1
      change _ = SqIdeal.mk s.ideal.varCount _
      rw [← hv]
      rfl
    rw [e]
    exact h3

theorem ERep.toColonVar {N : ℕ} {w : EulerWords} {s : EulerState} (h : ERep N w s) (ok : StateOk s) {v : ℕ} (hv : v < s.varCount) :
    ∃ w', w.toColonVar v = .ok w' ∧ ERep N w' (s.toColonVar v) := by
  obtain ⟨r, hr, hh⟩ := colonReminimizeVar_holds h.pos hv h.holds
  obtain ⟨hvc, hm⟩ := sqColonReminimizeVar_spec ok.anti v
  have h1 := h.ideal hh (colonReminimizeVar_len hr) (by
    have := hm.sub.length_le
    rwa [List.length_map] at this)
  obtain ⟨w', h2, h3⟩ := h1.eliminateVar (v := v) hv
  refine ⟨w', ?_, ?_⟩
  · unfold EulerWords.toColonVar
    rw [hr]
    exact h2
  · have e : s.toColonVar v =
        ⟨⟨s.varCount, (SqIdeal.colonReminimizeVar ⟨s.varCount, s.ideal.gens⟩ v).gens⟩, insert v s.eliminated, s.sign⟩ := by
      unfold EulerState.toColonVar
      congr 1
      change _ = SqIdeal.mk s.ideal.varCount _
      rw [← hvc]
      rfl
    rw [e]
    exact h3

theorem ERep.toColonVarNo {N : ℕ} {w : EulerWords} {s : EulerState} (h : ERep N w s) {v : ℕ} (hv : v < s.varCount) :
    ∃ w', w.toColonVarNoReminimize v = .ok w' ∧ ERep N w' (s.toColonVarNoReminimize v) := by
  obtain ⟨r, hr, hh⟩ := colonVar_holds hv h.holds
  have h1 := h.ideal hh (colonVar_len hr) (by simp)
  obtain ⟨w', h2, h3⟩ := h1.eliminateVar (v := v) hv
  refine ⟨w', ?_, h3⟩
  unfold EulerWords.toColonVarNoReminimize
  rw [hr]
  exact h2

/-- A new state with memory for `capacity` generators. -/
theorem rawConstruct_pre {N V capacity : ℕ} (junk : Junk) (hV : 0 < V) {I : RsfIdeal} {gens : List (Finset ℕ)} (sg : ℤ)
    (hI : Holds I V gens) (hlen : I.memory.length = (EulerWords.rawConstruct junk V capacity).ideal.memory.length)
    (hcap : gens.length ≤ capacity) (hb : V ≤ N ∧ gens.length ≤ N) :
    EPre N ⟨I, (EulerWords.rawConstruct junk V capacity).eliminated, sg⟩ V gens sg := by
  refine ⟨hV, hI, rfl, ⟨V, capacity, Nat.le_refl _, hcap, ?_, ?_, ?_, ?_⟩, hb⟩
  · rw [hlen]
    simp only [EulerWords.rawConstruct, rsfConstruct, junk_length]
    exact le_max_left _ _
  · rw [hlen]
    simp only [EulerWords.rawConstruct, rsfConstruct, junk_length]
    exact le_max_right _ _
  · simp only [EulerWords.rawConstruct, junk_length]
    exact le_max_left _ _
  · simp only [EulerWords.rawConstruct, junk_length]
    exact le_max_right _ _

theorem rawConstruct_memory (junk : Junk) (V capacity : ℕ) :
    wordCount V * capacity ≤ (EulerWords.rawConstruct junk V capacity).ideal.memory.length := by
  simp only [EulerWords.rawConstruct, rsfConstruct, junk_length]
  exact le_max_left _ _

theorem rawConstruct_holds (junk : Junk) (V capacity : ℕ) : Holds (EulerWords.rawConstruct junk V capacity).ideal V [] :=
  rsfConstruct_holds V _

theorem ERep.sumVar {N : ℕ} {w : EulerWords} {s : EulerState} (h : ERep N w s) (junk : Junk) {v : ℕ} (hv : v < s.varCount) :
    ∃ w', w.sumVar junk v = .ok w' ∧ ERep N w' (s.sumVar v) := by
  have hroom := rawConstruct_memory junk s.varCount s.ideal.gens.length
  have hlen : (s.ideal.gens.filter fun g => v ∉ g).length ≤ s.ideal.gens.length := List.length_filter_le _ _
  obtain ⟨r, hr, hh⟩ := insertNonMultiplesVar_spec h.pos hv (rawConstruct_holds junk s.varCount s.ideal.gens.length) h.holds (by
    rw [List.length_nil, Nat.zero_add]
    exact (Nat.mul_le_mul_left _ hlen).trans hroom)
  rw [List.nil_append] at hh
  have hpre := rawConstruct_pre (N := N) junk h.pos s.sign hh (insertNonMultiplesVar_len hr) hlen
    ⟨h.pre.bound.1, hlen.trans h.pre.bound.2⟩
  obtain ⟨w1, h1, h2⟩ := h.copyElim hpre
  obtain ⟨w2, h3, h4⟩ := h2.eliminateVar (v := v) hv
  refine ⟨w2.flipSign, ?_, h4.flipSign⟩
  unfold EulerWords.sumVar
  simp only [h.varCount, h.genCount, EulerState.genCount, hr, checked, bind, Except.bind, h.sign, h1, h3]
  rfl

theorem ERep.sumTerm {N : ℕ} {w : EulerWords} {s : EulerState} (h : ERep N w s) (junk : Junk) {b : List Word} {t g : Finset ℕ}
    (ht : Packs s.varCount b t) (hg : g ∈ s.ideal.gens) (htg : t ⊆ g) :
    ∃ w', w.sumTerm junk b = .ok w' ∧ ERep N w' (s.sumTerm t) := by
  have hroom := rawConstruct_memory junk s.varCount (s.ideal.gens.length + 1)
  have hlen : (s.ideal.gens.filter fun g => ¬ t ⊆ g).length < s.ideal.gens.length := by
    rw [List.length_filter_lt_length_iff_exists]
    exact ⟨g, hg, by simpa using htg⟩
  obtain ⟨r, hr, hh⟩ := insertNonMultiples_spec h.pos ht (rawConstruct_holds junk s.varCount (s.ideal.gens.length + 1)) h.holds (by
    rw [List.length_nil, Nat.zero_add]
    exact (Nat.mul_le_mul_left _ (by omega)).trans hroom)
  rw [List.nil_append] at hh
  have hl1 := insertNonMultiples_len hr
  obtain ⟨r2, hr2, hh2, hl2⟩ := hh.insert_spec h.pos ht (by
    rw [hl1, hh.words]
    exact (Nat.mul_le_mul_left _ (by omega)).trans hroom)
  have hpre := rawConstruct_pre (N := N) junk h.pos s.sign hh2 (hl2.trans hl1)
    (by rw [List.length_append, List.length_singleton]; omega)
    ⟨h.pre.bound.1, by have := h.pre.bound.2; rw [List.length_append, List.length_singleton]; omega⟩
  obtain ⟨w1, h1, h2⟩ := h.copyElim hpre
  refine ⟨w1, ?_, ?_⟩
  · unfold EulerWords.sumTerm
    simp only [h.varCount, h.genCount, EulerState.genCount, hr, checked, bind, Except.bind, h.sign, h1, hr2]
  · have e : s.sumTerm t = ⟨⟨s.varCount, (s.ideal.gens.filter fun g => ¬ t ⊆ g) ++ [t]⟩, s.eliminated, s.sign⟩ := by
      unfold EulerState.sumTerm
      congr 4
      funext g
      simp
    rw [e]
    exact h2

theorem ERep.stdSplitVar {N : ℕ} {w : EulerWords} {s : EulerState} (h : ERep N w s) (ok : StateOk s) (junk : Junk) {v : ℕ}
    (hv : v < s.varCount) :
    ∃ x y, w.stdSplitVar junk v = .ok (x, y) ∧ ERep N x (s.stdSplitVar v).1 ∧ ERep N y (s.stdSplitVar v).2 := by
  obtain ⟨x, h1, h2⟩ := h.sumVar junk hv
  obtain ⟨y, h3, h4⟩ := h.toColonVar ok hv
  refine ⟨x, y, ?_, h2, h4⟩
  unfold EulerWords.stdSplitVar
  rw [h1, h3]
  rfl

theorem ERep.stdSplit {N : ℕ} {w : EulerWords} {s : EulerState} (h : ERep N w s) (ok : StateOk s) (junk : Junk) {b : List Word}
    {t g : Finset ℕ} (ht : Packs s.varCount b t) (hg : g ∈ s.ideal.gens) (htg : t ⊆ g) :
    ∃ x y, w.stdSplit junk b = .ok (x, y) ∧ ERep N x (s.stdSplit t).1 ∧ ERep N y (s.stdSplit t).2 := by
  obtain ⟨x, h1, h2⟩ := h.sumTerm junk ht hg htg
  obtain ⟨y, h3, h4⟩ := h.toColon ok ht
  refine ⟨x, y, ?_, h2, h4⟩
  unfold EulerWords.stdSplit
  rw [h1, h3]
  rfl

theorem ERep.genSplit {N : ℕ} {w : EulerWords} {s : EulerState} (h : ERep N w s) (ok : StateOk s) (junk : Junk) {i : ℕ}
    (hi : i < s.ideal.gens.length) :
    ∃ x y a b, w.genSplit junk i = .ok (x, y) ∧ s.genSplit i = .ok (a, b) ∧ ERep N x a ∧ ERep N y b := by
  have hroom := rawConstruct_memory junk s.varCount s.ideal.gens.length
  obtain ⟨r, hr, hh, hl⟩ := insertIdeal_spec h.pos
    (rsfConstruct_holds s.varCount (EulerWords.rawConstruct junk s.varCount s.ideal.gens.length).ideal.memory) h.holds (by
      rw [List.length_nil, Nat.zero_add]
      exact hroom)
  rw [List.nil_append] at hh
  have hpre := rawConstruct_pre (N := N) junk h.pos s.sign hh hl (Nat.le_refl _) h.pre.bound
  obtain ⟨w1, h1, h2⟩ := h.copyElim hpre
  obtain ⟨p, hp1, hp2⟩ := h.generator hi
  obtain ⟨w2, h3, h4⟩ := h2.removeGenerator (i := i) hi
  obtain ⟨w3, h5, h6⟩ := h4.toColon (removeGenerator_ok ok hi) hp2
  obtain ⟨w4, h7, h8⟩ := h.removeGenerator hi
  refine ⟨w3.flipSign, w4, _, _, ?_, dif_pos hi, h6.flipSign, h8⟩
  unfold EulerWords.genSplit
  simp only [h.varCount, h.genCount, EulerState.genCount, hr, checked, bind, Except.bind, h.sign, h1, hp1, h3, h5, h7]
  rfl

theorem ERep.transpose {N : ℕ} {w : EulerWords} {s : EulerState} (h : ERep N w s) (hG : 0 < s.genCount) (junk : Junk) :
    ∃ w', w.transpose junk = .ok w' ∧ ERep N w' s.transpose := by
  obtain ⟨e, he, hp⟩ := h.elim_ok
  have hcard : (Finset.range s.varCount \ s.eliminated).card ≤ s.varCount :=
    (Finset.card_le_card Finset.sdiff_subset).trans (by simp)
  obtain ⟨copy, c1, c2, _⟩ := insertIdeal_spec h.pos
    (rsfConstruct_holds s.varCount (junk.array 2 (wordCount s.varCount * s.ideal.gens.length))) h.holds (by
      rw [List.length_nil, Nat.zero_add]
      simp [rsfConstruct, junk_length])
  rw [List.nil_append] at c2
  obtain ⟨r, h1, h2, h3⟩ := setToTransposeOf_holds (r := w.ideal) c2 (eraseVars := some e) (e := s.eliminated) (fun hh => by cases hh)
    (fun b hb => by cases hb; exact hp) ((Nat.mul_le_mul_left _ hcard).trans h.pre.room_transposed)
  have ht : w.ideal.transpose (some e) (junk.array 2 (wordCount s.varCount * s.ideal.gens.length)) = some r := by
    unfold RsfIdeal.transpose
    rw [h.holds.varCount, c1]
    exact h1
  obtain ⟨r2, h4, h5⟩ := minimize_holds hG h2
  have hl := minimize_len h4
  have hle : (sqMinimize ((keptVars s.varCount s.eliminated).map (rowOf s.ideal.gens))).length ≤ s.varCount := by
    have := (sqMinimize_minimizes ((keptVars s.varCount s.eliminated).map (rowOf s.ideal.gens))).sub.length_le
    rw [List.length_map, keptVars_length] at this
    exact this.trans hcard
  have hpre : EPre N ⟨r2, w.eliminated, w.sign⟩ s.genCount
      (sqMinimize ((keptVars s.varCount s.eliminated).map (rowOf s.ideal.gens))) s.sign := by
    obtain ⟨a, b, b1, b2, b3, b4, b5, b6⟩ := h.pre.room
    exact ⟨hG, h5, h.sign, ⟨b, a, b2, hle.trans b1, by rw [hl, h3]; exact b4, by rw [hl, h3]; exact b3, b6, b5⟩, h.pre.bound.2,
      hle.trans h.pre.bound.1⟩
  obtain ⟨w', h6, h7⟩ := hpre.clear
  refine ⟨w', ?_, h7⟩
  unfold EulerWords.transpose
  simp only [he, h.varCount, h.genCount, EulerState.genCount, bind, Except.bind, ht, checked, h4]
  exact h6

theorem ERep.nonEliminated {N : ℕ} {w : EulerWords} {s : EulerState} (h : ERep N w s) :
    w.nonEliminated = .ok s.nonEliminated := by
  obtain ⟨e, he, hp⟩ := h.elim_ok
  unfold EulerWords.nonEliminated
  rw [he]
  change (checked (wSizeOfSupport e w.varCount) >>= fun n => _) = _
  rw [h.varCount, (C48_support h.pos hp).2.2.2]
  rfl

/-- A variable has not been eliminated. -/
def ELive (s : EulerState) : Prop := ∃ v < s.varCount, v ∉ s.eliminated

theorem ERep.compactIfProfitable {N : ℕ} {w : EulerWords} {s : EulerState} (h : ERep N w s) (hlive : ELive s) :
    ∃ w', w.compactIfProfitable = .ok w' ∧ ERep N w' s.compactIfProfitable := by
  unfold EulerWords.compactIfProfitable EulerState.compactIfProfitable
  simp only [h.nonEliminated, h.varCount, bind, Except.bind]
  by_cases hc : wordCount s.varCount > wordCount s.nonEliminated
  · rw [if_pos hc, if_pos hc]
    obtain ⟨e, he, hp⟩ := h.elim_ok
    have hpos : 0 < (Finset.range s.varCount \ s.eliminated).card := by
      obtain ⟨v, hv, hn⟩ := hlive
      exact Finset.card_pos.2 ⟨v, by simp [hv, hn]⟩
    obtain ⟨r, h1, h2, h3⟩ := compact_holds h.holds hp hpos
    have ev : (SqIdeal.compact s.ideal s.eliminated).varCount = (Finset.range s.varCount \ s.eliminated).card := keptVars_length
    have eg : (SqIdeal.compact s.ideal s.eliminated).gens = s.ideal.gens.map (renumber s.varCount s.eliminated) :=
      List.map_congr_left fun g _ => compactTerm_eq_renumber s.varCount s.eliminated g
    have hcard : (Finset.range s.varCount \ s.eliminated).card ≤ s.varCount :=
      (Finset.card_le_card Finset.sdiff_subset).trans (by simp)
    rw [← ev, ← eg] at h2
    have hlen : (SqIdeal.compact s.ideal s.eliminated).gens.length = s.ideal.gens.length := by rw [eg, List.length_map]
    have hpre : EPre N ⟨r, w.eliminated, w.sign⟩ (SqIdeal.compact s.ideal s.eliminated).varCount
        (SqIdeal.compact s.ideal s.eliminated).gens s.sign := by
      obtain ⟨a, b, b1, b2, b3, b4, b5, b6⟩ := h.pre.room
      exact ⟨by rw [ev]; exact hpos, h2, h.sign, ⟨a, b, by rw [ev]; exact hcard.trans b1, by rw [hlen]; exact b2, by rw [h3]; exact b3,
        by rw [h3]; exact b4, b5, b6⟩, by rw [ev]; exact hcard.trans h.pre.bound.1, by rw [hlen]; exact h.pre.bound.2⟩
    obtain ⟨w', h6, h7⟩ := hpre.clear
    refine ⟨w', ?_, h7⟩
    simp only [he, h1, checked]
    exact h6
  · rw [if_neg hc, if_neg hc]
    exact ⟨w, rfl, h⟩

theorem construct_rep {I : RsfIdeal} {V : ℕ} {gens : List (Finset ℕ)} (hV : 0 < V) (h : Holds I V gens) (junk : Junk) :
    ∃ w, EulerWords.construct junk I = .ok w ∧ ERep (max V gens.length) w (EulerState.construct ⟨V, gens⟩) := by
  obtain ⟨r, hr, hh, hl⟩ := insertIdeal_spec hV (rawConstruct_holds junk V gens.length) h (by
    rw [List.length_nil, Nat.zero_add]
    exact rawConstruct_memory junk V gens.length)
  rw [List.nil_append] at hh
  have hpre := rawConstruct_pre (N := max V gens.length) junk hV 1 hh hl (Nat.le_refl _) ⟨le_max_left _ _, le_max_right _ _⟩
  obtain ⟨w, h1, h2⟩ := hpre.clear
  refine ⟨w, ?_, h2⟩
  unfold EulerWords.construct
  simp only [h.varCount, h.genCount, hr, checked, bind, Except.bind]
  exact h1

end Frobby
