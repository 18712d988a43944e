import Verif.FacadeLemmas

/-!
# Irredundant irreducible decompositions: uniqueness and associated primes
-/

namespace Frobby

variable {n : ℕ}

/-! ## uniqueness -/

/-- the component of `d'` is contained in the component of `d` -/
def irrLe (d' d : Term n) : Prop := ∀ i, 0 < d' i → 0 < d i ∧ d i ≤ d' i

theorem irrLe.mono {d' d m : Term n} (h : irrLe d' d) (hm : memIrr d' m) : memIrr d m := by
  obtain ⟨i, h1, h2⟩ := hm
  exact ⟨i, (h i h1).1, (h i h1).2.trans h2⟩

theorem irrLe.trans {a b c : Term n} (h : irrLe a b) (h' : irrLe b c) : irrLe a c := fun i hi =>
  ⟨(h' i (h i hi).1).1, (h' i (h i hi).1).2.trans (h i hi).2⟩

theorem irrLe.antisymm {a b : Term n} (h : irrLe a b) (h' : irrLe b a) : a = b := by
  funext i
  have h1 := h i
  have h2 := h' i
  by_cases ha : 0 < a i
  · have := h1 ha; have := h2 this.1; omega
  · by_cases hb : 0 < b i
    · have := h2 hb; omega
    · omega

/-- The intersection of the components is contained in a component only if one of them is. -/
theorem exists_irrLe {D : List (Term n)} {d : Term n} (h : ∀ m, (∀ d' ∈ D, memIrr d' m) → memIrr d m) :
    ∃ d' ∈ D, irrLe d' d := by
  by_contra hc
  push Not at hc
  have h1 := h (fun i => if d i = 0 then lcmOf D i else d i - 1) fun d' hd' => by
    have h2 := hc d' hd'
    unfold irrLe at h2
    push Not at h2
    obtain ⟨i, h3, h4⟩ := h2
    refine ⟨i, h3, ?_⟩
    simp only
    split
    · exact le_lcmOf hd' i
    · have := h4 (by omega); omega
  obtain ⟨i, h2, h3⟩ := h1
  simp only at h3
  rw [if_neg (by omega)] at h3
  omega

theorem IsIrrDecomp.eq_of_irrLe {D G : List (Term n)} (h : IsIrrDecomp D G) {a b : Term n} (ha : a ∈ D) (hb : b ∈ D)
    (hle : irrLe a b) : a = b := by
  by_contra hne
  obtain ⟨m, h1, h2⟩ := h.irredundant b hb
  exact h1 (hle.mono (h2 a ha hne))

/-- An ideal has only one irredundant irreducible decomposition. -/
theorem irrDecomp_unique {D D' G G' : List (Term n)} (h : IsIrrDecomp D G) (h' : IsIrrDecomp D' G')
    (hG : ∀ m, mem G m ↔ mem G' m) : D.Perm D' := by
  have key : ∀ {D D' G G' : List (Term n)}, IsIrrDecomp D G → IsIrrDecomp D' G' → (∀ m, mem G m ↔ mem G' m) →
      ∀ d ∈ D, d ∈ D' := by
    intro D D' G G' h h' hG d hd
    obtain ⟨d', hd', h1⟩ := exists_irrLe (D := D') (d := d) fun m hm =>
      (h.inter m).1 ((hG m).2 ((h'.inter m).2 hm)) d hd
    obtain ⟨d'', hd'', h2⟩ := exists_irrLe (D := D) (d := d') fun m hm =>
      (h'.inter m).1 ((hG m).1 ((h.inter m).2 hm)) d' hd'
    have h3 := h.eq_of_irrLe hd'' hd (h2.trans h1)
    subst h3
    rw [h2.antisymm h1]; exact hd'
  exact (List.perm_ext_iff_of_nodup h.nodup h'.nodup).2 fun d =>
    ⟨key h h' hG d, key h' h (fun m => (hG m).symm) d⟩

/-! ## associated primes -/

/-- The variables of the component `d`. -/
def suppSet (d : Term n) : Finset (Fin n) := Finset.univ.filter fun v => d v ≠ 0

theorem mem_suppSet {d : Term n} {v : Fin n} : v ∈ suppSet d ↔ 0 < d v := by
  simp [suppSet, Nat.pos_iff_ne_zero]

/-- The associated primes are the radicals of the components. -/
theorem isAssocPrime_iff {D G : List (Term n)} (h : IsIrrDecomp D G) (S : Finset (Fin n)) :
    IsAssocPrime G S ↔ ∃ d ∈ D, suppSet d = S := by
  constructor
  · rintro ⟨m, hm⟩
    by_contra hc
    push Not at hc
    have h1 : mem G (m + fun v => if v ∈ S then 0 else lcmOf D v) := by
      rw [h.inter]
      intro d hd
      by_cases hmd : memIrr d m
      · obtain ⟨i, h2, h3⟩ := hmd
        exact ⟨i, h2, by simp only [Pi.add_apply]; omega⟩
      · have hsub : S ⊆ suppSet d := by
          intro v hv
          have h4 := (h.inter _).1 ((hm (Term.single v (lcmOf D v + 1))).2 ⟨v, hv, by simp⟩) d hd
          obtain ⟨i, h5, h6⟩ := h4
          by_cases hi : i = v
          · subst hi; exact mem_suppSet.2 h5
          · exact absurd ⟨i, h5, by simpa [hi] using h6⟩ hmd
        have hne : ∃ v ∈ suppSet d, v ∉ S := by
          by_contra hc2
          push Not at hc2
          exact hc d hd (Finset.Subset.antisymm hc2 hsub)
        obtain ⟨v, hv, hvS⟩ := hne
        refine ⟨v, mem_suppSet.1 hv, ?_⟩
        have := Term.le_def.1 (le_lcmOf hd) v
        simp only [Pi.add_apply, if_neg hvS]
        omega
    obtain ⟨v, hv, h2⟩ := (hm _).1 h1
    simp only [hv, if_true] at h2
    omega
  · rintro ⟨d, hd, rfl⟩
    obtain ⟨m, h1, h2⟩ := h.irredundant d hd
    have h1' : ∀ v, 0 < d v → m v < d v := fun v hv => by
      by_contra hc; exact h1 ⟨v, hv, by omega⟩
    refine ⟨fun v => max (m v) (d v - 1), fun x => ?_⟩
    rw [h.inter]
    constructor
    · intro hx
      obtain ⟨v, h3, h4⟩ := hx d hd
      refine ⟨v, mem_suppSet.2 h3, ?_⟩
      have := h1' v h3
      simp only [Pi.add_apply] at h4
      omega
    · rintro ⟨v, hv, hx⟩ d' hd'
      by_cases hdd : d' = d
      · subst hdd
        have h3 := mem_suppSet.1 hv
        have := h1' v h3
        exact ⟨v, h3, by simp only [Pi.add_apply]; omega⟩
      · obtain ⟨i, h3, h4⟩ := h2 d' hd' hdd
        exact ⟨i, h3, by simp only [Pi.add_apply]; omega⟩

theorem mem_uniqueTerms (l : List (Term n)) (x : Term n) : x ∈ uniqueTerms l ↔ x ∈ l := by
  induction l using uniqueTerms.induct with
  | case1 b l ih =>
    rw [uniqueTerms, if_pos rfl, ih]; simp
  | case2 a b l h ih =>
    rw [uniqueTerms, if_neg h, List.mem_cons, ih]; simp
  | case3 l h =>
    unfold uniqueTerms
    split
    · exact absurd rfl (h _ _ _)
    · rfl

theorem uniqueTerms_nodup (l : List (Term n)) (hl : l.Pairwise lexLE) : (uniqueTerms l).Nodup := by
  induction l using uniqueTerms.induct with
  | case1 b l ih =>
    rw [uniqueTerms, if_pos rfl]; exact ih hl.of_cons
  | case2 a b l h ih =>
    rw [uniqueTerms, if_neg h]
    refine List.nodup_cons.2 ⟨fun hx => ?_, ih hl.of_cons⟩
    rw [mem_uniqueTerms] at hx
    have h1 := List.pairwise_cons.1 hl
    have h2 := List.pairwise_cons.1 h1.2
    rcases List.mem_cons.1 hx with hx | hx
    · exact h hx
    · exact h (lexLE_antisymm (h1.1 b (by simp)) (h2.1 a hx))
  | case3 l h =>
    match l with
    | [] => simp [uniqueTerms]
    | [a] => simp [uniqueTerms]
    | a :: b :: l => exact absurd rfl (h _ _ _)

theorem removeDuplicates_spec (l : List (Term n)) :
    (removeDuplicates l).Nodup ∧ ∀ x, x ∈ removeDuplicates l ↔ x ∈ l :=
  ⟨uniqueTerms_nodup _ (sortLex_sorted l), fun x => by
    unfold removeDuplicates; rw [mem_uniqueTerms, (sortLex_perm l).mem_iff]⟩

theorem idList_zeroOne : idList [0, 1] = [0, 1] := by decide

theorem translate_zeroOne {t : Term n} (ht : ∀ v, t v ≤ 1) : (Translator.zeroOne).translate t = some (toInt t) := by
  have hl : ∀ v : Fin n, idList (([0, 1] : List (Term n)).map fun g : Term n => g v) = [0, 1] := fun v => by
    simpa using idList_zeroOne
  unfold Translator.zeroOne
  rw [translate_ofGens]
  · congr 1; funext v
    have h1 := ht v
    unfold tExp toInt
    rw [hl]
    rcases Nat.eq_zero_or_pos (t v) with h0 | h0
    · simp [h0]
    · have : t v = 1 := by omega
      simp [this]
  · intro v
    unfold tNum
    rw [hl]
    have := ht v
    simp; omega

/-- The indicator vector of the variables of a component. -/
def indicator (S : Finset (Fin n)) : Term n := fun v => if v ∈ S then 1 else 0

theorem indicator_inj {S S' : Finset (Fin n)} (h : indicator S = indicator S') : S = S' := by
  ext v
  have := congrFun h v
  unfold indicator at this
  by_cases h1 : v ∈ S <;> by_cases h2 : v ∈ S' <;> simp_all

theorem primes_outs_of {o : Opts} (ho : o.valid .msm) (rnd : List ℕ → ℕ → ℕ) {G M : List (Term n)} (hG : IdSpec (tExp G) (tNum G) G M) :
    ∃ (outs R : List (Term n)), msmRun o rnd ((Translator.ofGens G).addPurePowers M) = some outs ∧
      outs.mapM (Translator.ofGens G).translate = some (outs.map fun t v => (tExp G v (t v) : ℤ)) ∧
      removeDuplicates ((outs.map fun t v => (tExp G v (t v) : ℤ)).map fun d v => if d v = 0 then 0 else 1) = R ∧
      (∀ r ∈ R, indicator (suppSet r) = r) ∧ (R.map suppSet).Nodup ∧ ∀ S, S ∈ R.map suppSet ↔ IsAssocPrime G S := by
  obtain ⟨outs, h1, hP, h2⟩ := encoded_outs_of ho rnd hG
  have hD := h2.irrDecomp hP hG
  set R := removeDuplicates (outs.map fun t => indicator (suppSet fun v => tExp G v (t v))) with hR
  obtain ⟨hR1, hR2⟩ := removeDuplicates_spec (outs.map fun t => indicator (suppSet fun v => tExp G v (t v)))
  have hR3 : ∀ r ∈ R, indicator (suppSet r) = r := by
    intro r hr
    obtain ⟨t, _, rfl⟩ := List.mem_map.1 ((hR2 r).1 hr)
    funext v
    simp only [indicator, mem_suppSet]
    split <;> split <;> simp_all
  refine ⟨outs, R, h1, ?_, ?_, hR3, ?_, fun S => ?_⟩
  · exact mapM_some _ (fun t v => (tExp G v (t v) : ℤ)) outs fun (t : Term n) ht => translate_ofGens G (t := t) (h2.le t ht)
  · rw [hR, List.map_map]
    congr 1
    refine List.map_congr_left fun t _ => ?_
    funext v
    simp only [Function.comp, indicator, mem_suppSet]
    split <;> split <;> simp_all
  · refine List.Nodup.map_on ?_ hR1
    intro a ha b hb hab
    rw [← hR3 a ha, ← hR3 b hb, hab]
  · rw [isAssocPrime_iff hD]
    constructor
    · intro hS
      obtain ⟨r, hr, rfl⟩ := List.mem_map.1 hS
      obtain ⟨t, ht, h4⟩ := List.mem_map.1 ((hR2 r).1 hr)
      refine ⟨_, List.mem_map.2 ⟨t, ht, rfl⟩, ?_⟩
      apply indicator_inj
      rw [hR3 r hr, h4]
    · rintro ⟨d, hd, rfl⟩
      obtain ⟨t, ht, rfl⟩ := List.mem_map.1 hd
      have h4 : indicator (suppSet fun v => tExp G v (t v)) ∈ R := (hR2 _).2 (List.mem_map.2 ⟨t, ht, rfl⟩)
      refine List.mem_map.2 ⟨_, h4, ?_⟩
      apply indicator_inj
      rw [hR3 _ h4]

theorem facadeAssociatedPrimes_spec {o : Opts} (ho : o.valid .msm) (rnd : List ℕ → ℕ → ℕ) (G : List (Term n)) :
    ∃ L : List (Finset (Fin n)), facadeAssociatedPrimes o rnd G = some (L.map fun S => toInt (indicator S)) ∧ L.Nodup ∧
      ∀ S, S ∈ L ↔ IsAssocPrime G S := by
  obtain ⟨outs, R, h1, h2, h3, hR3, h4, h5⟩ := primes_outs_of ho rnd (setIdeal_spec G)
  refine ⟨R.map suppSet, ?_, h4, h5⟩
  unfold facadeAssociatedPrimes
  have hT : (setIdeal G).1 = Translator.ofGens G := rfl
  rw [hT, h1]
  simp only
  rw [h2]
  simp only
  rw [h3, mapM_some _ toInt R]
  · congr 1
    rw [List.map_map]
    refine List.map_congr_left fun r hr => ?_
    simp only [Function.comp]
    rw [hR3 r hr]
  · intro r hr
    refine translate_zeroOne fun v => ?_
    rw [← hR3 r hr]
    unfold indicator
    split <;> omega

end Frobby
