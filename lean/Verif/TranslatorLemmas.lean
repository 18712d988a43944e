import Verif.TranslatorModel
import Verif.IdealLemmas
import Mathlib.Data.List.Sort
import Mathlib.Data.List.GetD
import Mathlib.Data.Nat.Find

/-!
# Lemmas about the translation of exponents

`IdSys e N`: variable `v` has identifiers `0, ..., N v - 1` with exponents `e v 0 = 0 < e v 1 < ...`, and the identifier
`N v` stands for "infinity", for which the translator has the number `0`.
-/

namespace Frobby

variable {n : ℕ}

/-! ## the sorted lists -/

theorem mem_collectExponents (seen es : List ℕ) (x : ℕ) :
    (x ∈ collectExponents seen es → x ∈ es) ∧ (x ∈ es → x ∈ seen ∨ x ∈ collectExponents seen es) := by
  induction es generalizing seen with
  | nil => simp [collectExponents]
  | cons e es ih =>
    unfold collectExponents
    split
    · split
      · rename_i h1 h2
        refine ⟨fun h => List.mem_cons_of_mem _ ((ih seen).1 h), fun h => ?_⟩
        rcases List.mem_cons.1 h with rfl | h
        · exact Or.inl h2
        · exact (ih seen).2 h
      · refine ⟨fun h => ?_, fun h => ?_⟩
        · rcases List.mem_cons.1 h with rfl | h
          · simp
          · exact List.mem_cons_of_mem _ ((ih _).1 h)
        · rcases List.mem_cons.1 h with rfl | h
          · simp
          · rcases (ih (e :: seen)).2 h with h | h
            · rcases List.mem_cons.1 h with rfl | h
              · simp
              · exact Or.inl h
            · exact Or.inr (List.mem_cons_of_mem _ h)
    · refine ⟨fun h => ?_, fun h => ?_⟩
      · rcases List.mem_cons.1 h with rfl | h
        · simp
        · exact List.mem_cons_of_mem _ ((ih _).1 h)
      · rcases List.mem_cons.1 h with rfl | h
        · simp
        · rcases (ih seen).2 h with h | h
          · exact Or.inl h
          · exact Or.inr (List.mem_cons_of_mem _ h)

theorem mem_stdUnique (l : List ℕ) (x : ℕ) : x ∈ stdUnique l ↔ x ∈ l := by
  induction l using stdUnique.induct with
  | case1 b l ih =>
    rw [stdUnique, if_pos rfl, ih]; simp
  | case2 a b l h ih =>
    rw [stdUnique, if_neg h, List.mem_cons, ih]; simp
  | case3 l h =>
    unfold stdUnique
    split
    · exact absurd rfl (h _ _ _)
    · rfl

theorem stdUnique_sorted (l : List ℕ) (hl : l.Pairwise (· ≤ ·)) : (stdUnique l).Pairwise (· < ·) := by
  induction l using stdUnique.induct with
  | case1 b l ih =>
    rw [stdUnique, if_pos rfl]; exact ih hl.of_cons
  | case2 a b l h ih =>
    rw [stdUnique, if_neg h]
    refine List.pairwise_cons.2 ⟨fun x hx => ?_, ih hl.of_cons⟩
    rw [mem_stdUnique] at hx
    have h1 := List.pairwise_cons.1 hl
    have h2 := List.pairwise_cons.1 h1.2
    have := h1.1 b (by simp)
    rcases List.mem_cons.1 hx with rfl | hx
    · omega
    · have := h2.1 x hx; omega
  | case3 l h =>
    match l with
    | [] => simp [stdUnique]
    | [a] => simp [stdUnique]
    | a :: b :: l => exact absurd rfl (h _ _ _)

theorem mem_idList (es : List ℕ) (x : ℕ) : x ∈ idList es ↔ x = 0 ∨ x ∈ es := by
  unfold idList
  rw [mem_stdUnique, List.mem_insertionSort, List.mem_cons]
  constructor
  · rintro (h | h)
    · exact Or.inl h
    · exact Or.inr ((mem_collectExponents _ _ _).1 h)
  · rintro (h | h)
    · exact Or.inl h
    · rcases (mem_collectExponents [0] es x).2 h with h | h
      · simp at h; exact Or.inl h
      · exact Or.inr h

theorem idList_sorted (es : List ℕ) : (idList es).Pairwise (· < ·) :=
  stdUnique_sorted _ (List.pairwise_insertionSort _ _)

theorem idList_pos (es : List ℕ) : 0 < (idList es).length :=
  List.length_pos_of_mem ((mem_idList es 0).2 (Or.inl rfl))

theorem sorted_getD_lt {l : List ℕ} (hl : l.Pairwise (· < ·)) {i j : ℕ} (hij : i < j) (hj : j < l.length) :
    l.getD i 0 < l.getD j 0 := by
  have hi : i < l.length := by omega
  rw [List.getD_eq_getElem _ _ hi, List.getD_eq_getElem _ _ hj]
  exact List.pairwise_iff_getElem.1 hl i j hi hj hij

theorem idList_zero (es : List ℕ) : (idList es).getD 0 0 = 0 := by
  obtain ⟨i, hi, h⟩ := List.mem_iff_getElem.1 ((mem_idList es 0).2 (Or.inl rfl))
  rcases Nat.eq_zero_or_pos i with rfl | h0
  · rw [List.getD_eq_getElem _ _ hi, h]
  · have := sorted_getD_lt (idList_sorted es) h0 hi
    rw [List.getD_eq_getElem _ _ hi, h] at this; omega

/-- `lower_bound` of an element of a strictly increasing list is its position. -/
theorem takeWhile_lt_length {l : List ℕ} (hl : l.Pairwise (· < ·)) {x : ℕ} (hx : x ∈ l) :
    (l.takeWhile fun y => decide (y < x)).length < l.length ∧
      l.getD (l.takeWhile fun y => decide (y < x)).length 0 = x := by
  induction l with
  | nil => simp at hx
  | cons a l ih =>
    have h1 := List.pairwise_cons.1 hl
    rcases List.mem_cons.1 hx with rfl | hx
    · simp
    · have : a < x := h1.1 x hx
      simp only [List.takeWhile_cons, this, decide_true, if_true, List.length_cons, List.getD_cons_succ]
      obtain ⟨h2, h3⟩ := ih h1.2 hx
      exact ⟨by omega, h3⟩

/-! ## identifiers -/

structure IdSys (e : Fin n → ℕ → ℕ) (N : Fin n → ℕ) : Prop where
  pos : ∀ v, 0 < N v
  zero : ∀ v, e v 0 = 0
  mono : ∀ v i j, i < j → j < N v → e v i < e v j
  top : ∀ v, e v (N v) = 0

/-- the largest identifier whose exponent is at most `x` -/
def floorId (e : Fin n → ℕ → ℕ) (N : Fin n → ℕ) (m : Term n) : Term n :=
  fun v => Nat.findGreatest (fun i => e v i ≤ m v) (N v - 1)

namespace IdSys

variable {e : Fin n → ℕ → ℕ} {N : Fin n → ℕ}

theorem floor_lt (h : IdSys e N) (m : Term n) (v : Fin n) : floorId e N m v < N v := by
  have := Nat.findGreatest_le (P := fun i => e v i ≤ m v) (N v - 1)
  have := h.pos v
  unfold floorId; omega

theorem floor_le (h : IdSys e N) (m : Term n) (v : Fin n) : e v (floorId e N m v) ≤ m v :=
  Nat.findGreatest_spec (P := fun i => e v i ≤ m v) (n := N v - 1) (m := 0) (by omega) (by rw [h.zero]; omega)

theorem le_floor (_ : IdSys e N) {m : Term n} {v : Fin n} {i : ℕ} (hi : i < N v) (hm : e v i ≤ m v) :
    i ≤ floorId e N m v := Nat.le_findGreatest (by omega) hm

theorem mono_le (h : IdSys e N) {v : Fin n} {i j : ℕ} (hij : i ≤ j) (hj : j < N v) : e v i ≤ e v j := by
  rcases Nat.lt_or_eq_of_le hij with h1 | rfl
  · exact (h.mono v i j h1 hj).le
  · exact le_refl _

theorem le_floor_iff (h : IdSys e N) {m : Term n} {v : Fin n} {i : ℕ} (hi : i < N v) :
    i ≤ floorId e N m v ↔ e v i ≤ m v :=
  ⟨fun h1 => (h.mono_le h1 (h.floor_lt m v)).trans (h.floor_le m v), h.le_floor hi⟩

theorem pos_iff (h : IdSys e N) {v : Fin n} {i : ℕ} (h0 : 0 < i) (hi : i ≤ N v) : 0 < e v i ↔ i < N v := by
  constructor
  · intro h1
    by_contra hc
    have : i = N v := by omega
    rw [this, h.top] at h1; omega
  · intro h1
    have := h.mono v 0 i h0 h1
    omega

/-- A component exponent is met exactly when the identifier is. -/
theorem comp_iff (h : IdSys e N) {m : Term n} {v : Fin n} {i : ℕ} (h0 : 0 < i) (hi : i ≤ N v) :
    (0 < e v i ∧ e v i ≤ m v) ↔ i ≤ floorId e N m v := by
  have hl := h.floor_lt m v
  constructor
  · rintro ⟨h1, h2⟩
    exact h.le_floor ((h.pos_iff h0 hi).1 h1) h2
  · intro h1
    have h2 : i < N v := by omega
    exact ⟨(h.pos_iff h0 hi).2 h2, (h.le_floor_iff h2).1 h1⟩

theorem inj (h : IdSys e N) {v : Fin n} {i j : ℕ} (hi0 : 0 < i) (hi : i ≤ N v) (hj0 : 0 < j) (hj : j ≤ N v)
    (he : e v i = e v j) : i = j := by
  have h1 := h.pos_iff hi0 hi
  have h2 := h.pos_iff hj0 hj
  rw [he] at h1
  rcases Nat.lt_trichotomy i j with h3 | h3 | h3
  · by_cases h4 : j < N v
    · have := h.mono v i j h3 h4; omega
    · have h5 : ¬ 0 < e v j := fun hc => h4 (h2.1 hc)
      have h6 : i < N v := by omega
      exact absurd (h1.2 h6) h5
  · exact h3
  · by_cases h4 : i < N v
    · have := h.mono v j i h3 h4; omega
    · have h5 : ¬ 0 < e v j := fun hc => h4 (h1.1 hc)
      have h6 : j < N v := by omega
      exact absurd (h2.2 h6) h5

end IdSys

/-- `M` are the minimal generators of `G` written in identifiers. -/
structure IdSpec (e : Fin n → ℕ → ℕ) (N : Fin n → ℕ) (G M : List (Term n)) : Prop where
  sys : IdSys e N
  anti : Anti M
  lt : ∀ g ∈ M, ∀ v, g v < N v
  sound : ∀ g ∈ M, (fun v => e v (g v)) ∈ G
  complete : ∀ g ∈ G, ∃ h ∈ M, ∀ v, e v (h v) ≤ g v

/-- The exponents the translator has for the generators `G`, and the numbers of identifiers. -/
def tExp (G : List (Term n)) (v : Fin n) (i : ℕ) : ℕ := (idList (G.map fun g : Term n => g v)).getD i 0
def tNum (G : List (Term n)) (v : Fin n) : ℕ := (idList (G.map fun g : Term n => g v)).length

theorem ofGens_length (G : List (Term n)) (v : Fin n) : (Translator.ofGens G v).length = tNum G v + 1 := by
  simp [Translator.ofGens, tNum]

theorem ofGens_maxId (G : List (Term n)) (v : Fin n) : (Translator.ofGens G).maxId v = tNum G v := by
  simp [Translator.maxId, ofGens_length]

theorem ofGens_getElem (G : List (Term n)) (v : Fin n) (i : ℕ) (hi : i < (Translator.ofGens G v).length) :
    (Translator.ofGens G v)[i] = (tExp G v i : ℤ) := by
  have := ofGens_length G v
  simp only [Translator.ofGens, List.getElem_map, tExp, Int.ofNat_eq_natCast]
  by_cases h : i < (idList (G.map fun g : Term n => g v)).length
  · rw [List.getElem_append_left h, List.getD_eq_getElem _ _ h]
  · rw [List.getElem_append_right (by omega), List.getD_eq_default _ _ (by omega)]
    simp

theorem ofGens_shrink (G : List (Term n)) {g : Term n} (hg : g ∈ G) (v : Fin n) :
    (Translator.ofGens G).shrinkExponent v (g v) < tNum G v ∧
      tExp G v ((Translator.ofGens G).shrinkExponent v (g v)) = g v := by
  have h := takeWhile_lt_length (idList_sorted (G.map fun g : Term n => g v))
    ((mem_idList _ (g v)).2 (Or.inr (List.mem_map.2 ⟨g, hg, rfl⟩)))
  have h2 : (Translator.ofGens G).shrinkExponent v (g v)
      = ((idList (G.map fun g : Term n => g v)).takeWhile fun y => decide (y < g v)).length := by
    unfold Translator.shrinkExponent Translator.ofGens
    simp only [List.map_append, List.map_cons, List.map_nil, List.dropLast_concat]
    rw [List.takeWhile_map, List.length_map]
    congr 1
    congr 1
    funext y
    simp
  rw [h2]; exact h

theorem tSys (G : List (Term n)) : IdSys (tExp G) (tNum G) where
  pos _ := idList_pos _
  zero _ := idList_zero _
  mono _ _ _ hij hj := sorted_getD_lt (idList_sorted _) hij hj
  top _ := List.getD_eq_default _ _ (le_refl _)

/-- The loop in `CommonParamsHelper::setIdeal` produces the minimal generators, in identifiers. -/
theorem setIdeal_spec (G : List (Term n)) : IdSpec (tExp G) (tNum G) G (setIdeal G).2 := by
  have hm := minimize_minGens ((Translator.ofGens G).shrinkIdeal G)
  have hs : ∀ g ∈ (setIdeal G).2, ∃ g' ∈ G, (∀ v, g v < tNum G v) ∧ ∀ v, tExp G v (g v) = g' v := by
    intro g hg
    obtain ⟨g', hg', rfl⟩ := List.mem_map.1 (hm.subset g hg)
    exact ⟨g', hg', fun v => (ofGens_shrink G hg' v).1, fun v => (ofGens_shrink G hg' v).2⟩
  refine ⟨tSys G, hm.anti, fun g hg => (hs g hg).choose_spec.2.1, fun g hg => ?_, fun g hg => ?_⟩
  · obtain ⟨g', h1, h2, h3⟩ := hs g hg
    have : (fun v => tExp G v (g v)) = g' := funext h3
    rw [this]; exact h1
  · have h1 : (fun v => (Translator.ofGens G).shrinkExponent v (g v)) ∈ (Translator.ofGens G).shrinkIdeal G :=
      List.mem_map.2 ⟨g, hg, rfl⟩
    obtain ⟨h, hh, hle⟩ := (hm.mem_iff _).2 (mem_self h1)
    refine ⟨h, hh, fun v => ?_⟩
    have h4 := ofGens_shrink G hg v
    have h5 : h v ≤ (Translator.ofGens G).shrinkExponent v (g v) := hle v
    calc tExp G v (h v) ≤ _ := (tSys G).mono_le h5 h4.1
      _ = g v := h4.2

/-- Every exponent of the translator occurs. -/
theorem ofGens_used (G : List (Term n)) (v : Fin n) (i : ℕ) (h0 : 0 < i) (hi : i < tNum G v) :
    ∃ g ∈ G, g v = tExp G v i := by
  have h1 : tExp G v i ∈ idList (G.map fun g : Term n => g v) := by
    have : tExp G v i = (idList (G.map fun g : Term n => g v))[i]'hi := List.getD_eq_getElem _ _ hi
    rw [this]; exact List.getElem_mem _
  rcases (mem_idList _ _).1 h1 with h2 | h2
  · have := (tSys G).mono v 0 i h0 hi
    omega
  · obtain ⟨g, hg, h3⟩ := List.mem_map.1 h2
    exact ⟨g, hg, h3⟩

namespace IdSpec

variable {e : Fin n → ℕ → ℕ} {N : Fin n → ℕ} {G M P : List (Term n)}

theorem mem_floor (h : IdSpec e N G M) (m : Term n) : mem G m ↔ mem M (floorId e N m) := by
  constructor
  · rintro ⟨g, hg, hle⟩
    obtain ⟨k, hk, hke⟩ := h.complete g hg
    exact ⟨k, hk, Term.le_def.2 fun v => h.sys.le_floor (h.lt k hk v) ((hke v).trans (hle v))⟩
  · rintro ⟨k, hk, hle⟩
    exact ⟨_, h.sound k hk, Term.le_def.2 fun v => (h.sys.le_floor_iff (h.lt k hk v)).1 (hle v)⟩

/-- With one variable only the first identifier occurs. -/
theorem one_var (h : IdSpec e N G M) (hused : ∀ v i, 0 < i → i < N v → ∃ g ∈ G, g v = e v i) (hn : n = 1) : ∀ g ∈ M, ∀ v, g v ≤ 1 := by
  intro g hg v
  by_contra hc
  have hN := h.lt g hg v
  obtain ⟨g', hg', he⟩ := hused v 1 (by omega) (by omega)
  obtain ⟨k, hk, hke⟩ := h.complete g' hg'
  have huniq : ∀ w : Fin n, w = v := fun w => by subst hn; exact Subsingleton.elim _ _
  have h1 : k v ≤ 1 := by
    by_contra hc2
    have := h.sys.mono v 1 (k v) (by omega) (h.lt k hk v)
    have := hke v
    omega
  have h2 : k ≤ g := Term.le_def.2 fun w => by rw [huniq w]; omega
  have := h.anti.eq_of_le hk hg h2
  subst this
  omega

end IdSpec

/-! ## pure powers at infinity -/

/-- `P` is `M` together with pure powers at infinity for the variables that do not have a pure power. -/
structure PureSpec (N : Fin n → ℕ) (M P : List (Term n)) : Prop where
  anti : Anti P
  mem_of : ∀ g ∈ P, g ∈ M ∨ ∃ v, g = Term.single v (N v)
  subset : ∀ g ∈ M, g ∈ P
  pure : ∀ v, ∃ g ∈ P, (∀ w, w ≠ v → g w = 0) ∧ g v ≤ N v

theorem support_le_one {g : Term n} (h : Term.sizeOfSupport g ≤ 1) {v : Fin n} (hv : Term.firstNonZero g = v.val) :
    ∀ w, w ≠ v → g w = 0 := by
  intro w hw
  by_contra hc
  have h1 := Term.firstNonZero_spec (a := g) (by rw [hv]; exact v.2)
  have h2 : (⟨Term.firstNonZero g, by rw [hv]; exact v.2⟩ : Fin n) = v := by ext; exact hv
  rw [h2] at h1
  unfold Term.sizeOfSupport at h
  have h3 := Finset.card_le_one.1 h v (by simpa using h1) w (by simpa using hc)
  exact hw h3.symm

theorem addPurePowers_spec (T : Translator n) {M : List (Term n)} (hM : Anti M) (hlt : ∀ g ∈ M, ∀ v, g v < T.maxId v)
    (hpos : ∀ v, 0 < T.maxId v) : PureSpec T.maxId M (T.addPurePowers M) := by
  unfold Translator.addPurePowers
  split
  · rename_i h
    simp only [List.any_eq_true, decide_eq_true_eq] at h
    obtain ⟨g, hg, h1, h2⟩ := h
    have h0 : g = 0 := by
      by_contra hc
      have := Term.firstNonZero_lt hc
      omega
    subst h0
    exact ⟨hM, fun g hg => Or.inl hg, fun g hg => hg, fun v => ⟨0, hg, fun _ _ => rfl, Nat.zero_le _⟩⟩
  · rename_i h0
    have hmemP : ∀ g ∈ ((List.finRange n).filter fun v =>
      !(M.any fun g => decide (Term.sizeOfSupport g ≤ 1 ∧ Term.firstNonZero g = v.val))).map (fun v =>
        Term.single v (T.maxId v)), ∃ v, g = Term.single v (T.maxId v) ∧
          ∀ h ∈ M, ¬ (Term.sizeOfSupport h ≤ 1 ∧ Term.firstNonZero h = v.val) := by
      intro g hg
      obtain ⟨v, hv, rfl⟩ := List.mem_map.1 hg
      refine ⟨v, rfl, ?_⟩
      have := (List.mem_filter.1 hv).2
      simpa using this
    have h0M : (0 : Term n) ∉ M := by
      intro hc
      apply h0
      simp only [List.any_eq_true, decide_eq_true_eq]
      refine ⟨0, hc, ?_, ?_⟩
      · rw [(Term.sizeOfSupport_zero_iff 0).2 rfl]; omega
      · by_contra hne
        have hl : Term.firstNonZero (0 : Term n) < n := by
          unfold Term.firstNonZero at hne ⊢
          split at hne
          · rename_i i _; exact i.2
          · exact absurd rfl hne
        exact Term.firstNonZero_spec hl rfl
    refine ⟨anti_append.2 ⟨hM, ?_, ?_⟩, ?_, ?_, ?_⟩
    · unfold Anti
      rw [List.pairwise_map]
      refine List.Pairwise.imp ?_ (List.Pairwise.filter _ (List.nodup_finRange n))
      intro a b hab
      have ha := hpos a
      have hb := hpos b
      rw [Term.single_le_iff, Term.single_le_iff, Term.single_ne _ hab, Term.single_ne _ (Ne.symm hab)]
      exact ⟨by omega, by omega⟩
    · intro g hg k hk
      obtain ⟨v, rfl, hv⟩ := hmemP k hk
      refine ⟨fun hle => ?_, fun hle => ?_⟩
      · have hg0 : g ≠ 0 := fun hc => h0M (hc ▸ hg)
        have hz : ∀ w, w ≠ v → g w = 0 := fun w hw => by
          have := Term.le_def.1 hle w
          rw [Term.single_ne _ hw] at this; exact Nat.le_zero.1 this
        refine hv g hg ⟨?_, ?_⟩
        · unfold Term.sizeOfSupport
          refine Finset.card_le_one.2 fun a ha b hb => ?_
          simp only [Finset.mem_filter, Finset.mem_univ, true_and] at ha hb
          have h1 : a = v := by by_contra hc; exact ha (hz a hc)
          have h2 : b = v := by by_contra hc; exact hb (hz b hc)
          rw [h1, h2]
        · have h1 := Term.firstNonZero_lt hg0
          have h2 := Term.firstNonZero_spec h1
          by_contra hc
          exact h2 (hz _ fun hc' => hc (congrArg Fin.val hc'))
      · have h1 := Term.single_le_iff.1 hle
        have h2 := hlt g hg v
        omega
    · intro g hg
      rcases List.mem_append.1 hg with h | h
      · exact Or.inl h
      · obtain ⟨v, h1, _⟩ := hmemP g h
        exact Or.inr ⟨v, h1⟩
    · exact fun g hg => List.mem_append_left _ hg
    · intro v
      by_cases hv : M.any fun g => decide (Term.sizeOfSupport g ≤ 1 ∧ Term.firstNonZero g = v.val)
      · have hv' := hv
        simp only [List.any_eq_true, decide_eq_true_eq] at hv'
        obtain ⟨g, hg, h1, h2⟩ := hv'
        exact ⟨g, List.mem_append_left _ hg, support_le_one h1 h2, (hlt g hg v).le⟩
      · refine ⟨Term.single v (T.maxId v), List.mem_append_right _ (List.mem_map.2 ⟨v, ?_, rfl⟩),
          fun w hw => Term.single_ne _ hw, by simp⟩
        rw [List.mem_filter]
        exact ⟨List.mem_finRange v, by simpa using hv⟩

namespace PureSpec

variable {N : Fin n → ℕ} {M P : List (Term n)}

theorem mem_iff (h : PureSpec N M P) {u : Term n} (hu : ∀ v, u v < N v) : mem P u ↔ mem M u := by
  constructor
  · rintro ⟨g, hg, hle⟩
    rcases h.mem_of g hg with h1 | ⟨v, rfl⟩
    · exact ⟨g, h1, hle⟩
    · have := Term.single_le_iff.1 hle
      have := hu v
      omega
  · rintro ⟨g, hg, hle⟩
    exact ⟨g, h.subset g hg, hle⟩

theorem lt_of_not_mem (h : PureSpec N M P) {u : Term n} (hu : ¬ mem P u) (v : Fin n) : u v < N v := by
  obtain ⟨g, hg, h1, h2⟩ := h.pure v
  by_contra hc
  refine hu ⟨g, hg, Term.le_def.2 fun w => ?_⟩
  by_cases hw : w = v
  · subst hw; omega
  · rw [h1 w hw]; omega

/-- Every standard monomial lies below a maximal one. -/
theorem exists_msm (h : PureSpec N M P) {u : Term n} (hu : ¬ mem P u) : ∃ u', Msm P u' ∧ u ≤ u' := by
  by_cases hm : ∀ i, mem P (u + Term.single i 1)
  · exact ⟨u, ⟨hu, hm⟩, le_refl _⟩
  · push Not at hm
    obtain ⟨i, hi⟩ := hm
    have hlt : ∀ v, u v < N v := h.lt_of_not_mem hu
    have hlt' : ∀ v, (u + Term.single i 1) v < N v := h.lt_of_not_mem hi
    have hle : u ≤ u + Term.single i 1 := Term.le_def.2 fun v => by simp
    obtain ⟨u', h1, h2⟩ := exists_msm h hi
    exact ⟨u', h1, hle.trans h2⟩
termination_by ∑ v, (N v - u v)
decreasing_by
  refine Finset.sum_lt_sum (fun v _ => ?_) ⟨i, Finset.mem_univ _, ?_⟩
  · have := Term.le_def.1 hle v; exact Nat.sub_le_sub_left this _
  · have := hlt' i
    simp only [Pi.add_apply, Term.single_same] at this ⊢
    omega

end PureSpec

/-- Two comparable maximal standard monomials are equal. -/
theorem Msm.eq_of_le {P : List (Term n)} {a b : Term n} (ha : Msm P a) (hb : Msm P b) (h : a ≤ b) : a = b := by
  funext i
  by_contra hc
  have h1 := Term.le_def.1 h i
  refine hb.1 (mem_of_le (ha.2 i) (Term.le_def.2 fun v => ?_))
  by_cases hv : v = i
  · subst hv; simp only [Pi.add_apply, Term.single_same]; omega
  · simp only [Pi.add_apply, Term.single_ne _ hv]; exact h v

end Frobby
