import Verif.TransformLemmas3

/-!
# Lemmas about the action `transform`: the canonical form
-/

namespace Frobby

namespace NamedIdeal

/-! ## sorting the variables -/

theorem orderedNames_eq (names : List Text) : orderedNames names = sortTexts names := by
  unfold orderedNames varPermutation sortTexts
  rw [List.map_insertionSort (r := fun i j => textLess (names.getD j []) (names.getD i []) = false) (s := fun a b : Text => textLess b a = false) (fun i => names.getD i []) (List.range names.length) fun a _ b _ => Iff.rfl,
    map_getD_range]

theorem orderedNames_perm (names : List Text) : (orderedNames names).Perm names := by
  rw [orderedNames_eq]; exact List.perm_insertionSort _ _

theorem orderedNames_congr {names names' : List Text} (h : names.Perm names') : orderedNames names = orderedNames names' := by
  rw [orderedNames_eq, orderedNames_eq]
  exact insertionSort_perm_eq negOn_text totalOn_text (fun _ _ => trivial) h

theorem mem_varPermutation {names : List Text} {i : ℕ} (h : i ∈ varPermutation names) : i < names.length := by
  have := (List.mem_insertionSort (r := fun i j => textLess (names.getD j []) (names.getD i []) = false)).1 h
  simpa using this

theorem permuted_term {names : List Text} (hn : names.Nodup) (t : List ℕ) :
    ((varPermutation names).map fun i => t.getD i 0) = (orderedNames names).map (expOf names t) := by
  rw [orderedNames, List.map_map]
  exact List.map_congr_left fun i hi => (expOf_getD hn t (mem_varPermutation hi)).symm

theorem sortVariables_spec {I : NamedIdeal} (hI : I.Ok) : I.sortVariables.Ok ∧ I.sortVariables.names = orderedNames I.names ∧
    I.sortVariables.monomials = I.monomials := by
  refine ⟨⟨(orderedNames_perm _).nodup_iff.2 hI.nodup, fun t ht => ?_⟩, rfl, ?_⟩
  · obtain ⟨t', _, rfl⟩ := List.mem_map.1 ht
    show _ = (orderedNames I.names).length
    rw [orderedNames, List.length_map, List.length_map]
  · simp only [monomials, sortVariables, List.map_map]
    refine List.map_congr_left fun t ht => ?_
    simp only [Function.comp]
    rw [permuted_term hI.nodup]
    funext x
    rw [expOf_map]
    split
    · rfl
    · rename_i h
      rw [expOf_not_mem (hI.length t ht) fun hx => h ((orderedNames_perm _).mem_iff.2 hx)]

/-! ## sorting the generators -/

theorem sortGenerators_perm (I : NamedIdeal) : I.sortGenerators.terms.Perm I.terms := List.perm_insertionSort _ _

theorem sortGenerators_congr {I J : NamedIdeal} (hI : I.Ok) (hn : I.names = J.names) (hp : I.terms.Perm J.terms) : I.sortGenerators = J.sortGenerators := by
  have hJ : J.Ok := ⟨hn ▸ hI.nodup, fun t ht => by rw [← hn]; exact hI.length t (hp.mem_iff.2 ht)⟩
  rw [sortGenerators_eq hI, sortGenerators_eq hJ, hn]
  congr 1
  refine List.Perm.eq_of_pairwise (le := fun a b : List ℕ => b ≤ a) (fun a b _ _ h1 h2 => le_antisymm h2 h1) (List.pairwise_insertionSort _ _)
    (List.pairwise_insertionSort _ _) ((List.perm_insertionSort _ _).trans (hp.trans (List.perm_insertionSort _ _).symm))

theorem sortGenerators_spec {I : NamedIdeal} (hI : I.Ok) : I.sortGenerators.Ok ∧ I.sortGenerators.names = I.names ∧
    I.sortGenerators.terms.Perm I.terms ∧ I.sortGenerators.terms.Pairwise fun a b => b ≤ a := by
  refine ⟨hI.of_perm fun t ht => (sortGenerators_perm I).mem_iff.1 ht, rfl, sortGenerators_perm I, ?_⟩
  rw [sortGenerators_eq hI]
  exact List.pairwise_insertionSort (r := fun a b : List ℕ => b ≤ a) I.terms

theorem sortGeneratorsUnique_spec {I : NamedIdeal} (hI : I.Ok) : I.sortGeneratorsUnique.Ok ∧ I.sortGeneratorsUnique.names = I.names ∧
    (∀ t, t ∈ I.sortGeneratorsUnique.terms ↔ t ∈ I.terms) ∧ I.sortGeneratorsUnique.terms.Pairwise fun a b => b < a := by
  have h := sortGenerators_spec hI
  have hm : ∀ t, t ∈ I.sortGeneratorsUnique.terms ↔ t ∈ I.terms := fun t => (mem_uniqueGens _ t).trans h.2.2.1.mem_iff
  exact ⟨hI.of_perm fun t ht => (hm t).1 ht, rfl, hm, uniqueGens_sorted _ h.2.2.2⟩

theorem monomials_perm {I J : NamedIdeal} (hn : I.names = J.names) (hp : I.terms.Perm J.terms) : I.monomials.Perm J.monomials := by
  rw [monomials, monomials, hn]; exact hp.map _

theorem Same.sorted {I J : NamedIdeal} (hI : I.Ok) (hJ : J.Ok) (h : I.Same J) : I.sortVariables.sortGenerators = J.sortVariables.sortGenerators := by
  obtain ⟨i1, i2, i3⟩ := sortVariables_spec hI
  obtain ⟨j1, j2, j3⟩ := sortVariables_spec hJ
  have hn : I.sortVariables.names = J.sortVariables.names := by rw [i2, j2, orderedNames_congr h.1]
  refine sortGenerators_congr i1 hn ?_
  rw [terms_eq i1, terms_eq j1, i3, j3, hn]
  exact h.2.map _

/-! ## sorting the ideals -/

theorem less_eq (I J : NamedIdeal) : less I J = bigIdealLess (I.names, I.terms.map (·.map Int.ofNat)) (J.names, J.terms.map (·.map Int.ofNat)) := by
  simp only [less, bigIdealOpLess, bigIdealLess, bigIdealOp_eq]

theorem big_ok {I : NamedIdeal} (hI : I.Ok) : BigIdealOK (I.names, I.terms.map (·.map Int.ofNat)) := by
  intro g hg
  obtain ⟨t, ht, rfl⟩ := List.mem_map.1 hg
  rw [List.length_map]
  exact hI.length t ht

theorem negOn_less : NegOn NamedIdeal.Ok less := by
  refine ⟨fun a ha => ?_, fun a b ha hb h => ?_, fun a b c ha hb hc h => ?_⟩
  · rw [less_eq]; exact negOn_bigIdeal.irrefl _ (big_ok ha)
  · rw [less_eq] at h ⊢; exact negOn_bigIdeal.asymm _ _ (big_ok ha) (big_ok hb) h
  · simp only [less_eq] at h ⊢; exact negOn_bigIdeal.neg _ _ _ (big_ok ha) (big_ok hb) (big_ok hc) h

theorem ofNat_injective : Function.Injective Int.ofNat := fun _ _ h => Int.ofNat.inj h

theorem totalOn_less : TotalOn NamedIdeal.Ok less := by
  intro a b ha hb h1 h2
  rw [less_eq] at h1 h2
  have h := totalOn_bigIdeal _ _ (big_ok ha) (big_ok hb) h1 h2
  obtain ⟨n1, t1⟩ := a
  obtain ⟨n2, t2⟩ := b
  simp only [Prod.mk.injEq] at h
  rw [NamedIdeal.mk.injEq]
  exact ⟨h.1, List.map_injective_iff.2 (List.map_injective_iff.2 ofNat_injective) h.2⟩

/-! ## the other steps do not depend on the order -/

theorem Same.refl (I : NamedIdeal) : I.Same I := ⟨List.Perm.refl _, List.Perm.refl _⟩

theorem Same.sameSet {I J : NamedIdeal} (hI : I.Ok) (hJ : J.Ok) (h : I.Same J) : I.SameSet J := by
  refine ⟨h.1, fun m => ?_⟩
  rw [mem_monomials hI, mem_monomials hJ]
  exact exists_congr fun f => and_congr_left fun _ => h.2.mem_iff

theorem radical_monomials {I : NamedIdeal} : I.takeRadical.monomials = I.monomials.map fun f x => if f x > 1 then 1 else f x := by
  simp only [monomials, takeRadical, List.map_map]
  refine List.map_congr_left fun t _ => ?_
  funext x
  exact getD_radical t _

theorem Same.takeRadical {I J : NamedIdeal} (h : I.Same J) : I.takeRadical.Same J.takeRadical := by
  refine ⟨h.1, ?_⟩
  rw [radical_monomials, radical_monomials]
  exact h.2.map _

theorem swap_monomials {I : NamedIdeal} (hI : I.Ok) : I.swap01.monomials =
    I.monomials.map fun f x => if x ∈ I.names then if f x = 1 then 0 else if f x = 0 then 1 else f x else 0 := by
  simp only [monomials, swap01, List.map_map]
  refine List.map_congr_left fun t ht => ?_
  funext x
  simp only [Function.comp]
  by_cases hx : x ∈ I.names
  · rw [if_pos hx]
    obtain ⟨i, hi, rfl⟩ := exists_getD_of_mem hx
    rw [expOf_getD hI.nodup _ hi, expOf_getD hI.nodup _ hi]
    have := hI.length t ht
    rw [List.getD_eq_getElem _ _ (by rw [List.length_map]; omega), List.getD_eq_getElem _ _ (by omega), List.getElem_map]
  · rw [if_neg hx, expOf_not_mem _ hx]
    rw [List.length_map]; exact hI.length t ht

theorem Same.swap01 {I J : NamedIdeal} (hI : I.Ok) (hJ : J.Ok) (h : I.Same J) : I.swap01.Same J.swap01 := by
  refine ⟨h.1, ?_⟩
  rw [swap_monomials hI, swap_monomials hJ]
  have : (fun (f : Text → ℕ) x => if x ∈ I.names then if f x = 1 then 0 else if f x = 0 then 1 else f x else 0) =
      fun (f : Text → ℕ) x => if x ∈ J.names then if f x = 1 then 0 else if f x = 0 then 1 else f x else 0 := by
    funext f x
    simp only [h.1.mem_iff]
  rw [this]
  exact h.2.map _

/-- No generator divides another one. -/
theorem minimal_monomials {I : NamedIdeal} (hI : I.Ok) (hm : I.Minimal) : I.monomials.Pairwise fun f g => ¬ f ≤ g ∧ ¬ g ≤ f := by
  have key : ∀ a ∈ I.terms, ∀ b ∈ I.terms, expOf I.names a ≤ expOf I.names b → List.Forall₂ (· ≤ ·) a b := by
    intro a ha b hb h
    rw [← map_expOf hI.nodup (hI.length a ha), ← map_expOf hI.nodup (hI.length b hb)]
    rw [List.forall₂_map_left_iff, List.forall₂_map_right_iff, List.forall₂_same]
    exact fun x _ => h x
  refine List.pairwise_map.2 (List.Pairwise.imp_of_mem (fun {a b} ha hb hab => ⟨fun h => hab.1 (key a ha b hb h), fun h => hab.2 (key b hb a ha h)⟩) hm)

theorem SameSet.same {I J : NamedIdeal} (hI : I.Ok) (hJ : J.Ok) (mI : I.Minimal) (mJ : J.Minimal) (h : I.SameSet J) : I.Same J := by
  refine ⟨h.1, ?_⟩
  have key : ∀ {I J : NamedIdeal}, I.Ok → J.Ok → I.Minimal → (∀ m, I.mem m ↔ J.mem m) → ∀ f ∈ I.monomials, f ∈ J.monomials := by
    intro I J hI hJ mI hm f hf
    obtain ⟨g, hg, h1⟩ := (mem_monomials hJ f).1 ((hm f).1 ((mem_monomials hI f).2 ⟨f, hf, fun _ => le_refl _⟩))
    obtain ⟨f', hf', h2⟩ := (mem_monomials hI g).1 ((hm g).2 ((mem_monomials hJ g).2 ⟨g, hg, fun _ => le_refl _⟩))
    have h3 : f' = f := by
      by_contra hne
      have : Std.Symm (fun f g : Text → ℕ => ¬ f ≤ g ∧ ¬ g ≤ f) := ⟨fun _ _ h => ⟨h.2, h.1⟩⟩
      exact ((minimal_monomials hI mI).forall hf' hf hne).1 fun x => (h2 x).trans (h1 x)
    subst h3
    rw [show f' = g from funext fun x => le_antisymm (h2 x) (h1 x)]
    exact hg
  have nd : ∀ {I : NamedIdeal}, I.Ok → I.Minimal → I.monomials.Nodup := fun hI mI =>
    (minimal_monomials hI mI).imp fun {f g} h (he : f = g) => h.1 (he ▸ le_refl _)
  exact (List.perm_ext_iff_of_nodup (nd hI mI) (nd hJ mJ)).2 fun f => ⟨key hI hJ mI h.2 f, key hJ hI mJ (fun m => (h.2 m).symm) f⟩

theorem facadeMinimize_ok {I : NamedIdeal} (hI : I.Ok) : ∃ J, I.facadeMinimize = some J ∧ J.Ok ∧ J.names = I.names ∧ J.Minimal ∧
    (∀ m, J.mem m ↔ I.mem m) ∧ (∀ t ∈ J.terms, t ∈ I.terms) ∧ J.terms.Pairwise fun a b => b < a := by
  obtain ⟨K, h1, h2, h3, h4, h5⟩ := facadeMinimize_spec I
  have hok := Ok.ofFn hI.nodup K
  refine ⟨_, h1, hok, rfl, ?_, fun m => ?_, fun t ht => ?_, ?_⟩
  · refine List.pairwise_map.2 (h2.imp fun {a b} h => ?_)
    rw [ofFn_forall₂, ofFn_forall₂]
    exact h
  · rw [mem_gens hok, mem_gens hI, gens_of_ofFn]
    exact h4 _
  · obtain ⟨g, hg, rfl⟩ := List.mem_map.1 ht
    obtain ⟨t', ht', rfl⟩ := List.mem_map.1 (h3 g hg)
    rw [ofFn_getD (hI.length t' ht')]
    exact ht'
  · refine List.pairwise_map.2 (h5.imp fun {a b} h => ?_)
    obtain ⟨i, h6, h7⟩ := h
    exact ofFn_lt i (fun j hj => (h6 j hj).symm) h7

theorem Same.minimize {I J I' J' : NamedIdeal} (hI : I.Ok) (hJ : J.Ok) (h : I.SameSet J) (h1 : I.facadeMinimize = some I') (h2 : J.facadeMinimize = some J') :
    I'.Same J' := by
  obtain ⟨K, k1, k2, k3, k4, k5, _⟩ := facadeMinimize_ok hI
  obtain ⟨L, l1, l2, l3, l4, l5, _⟩ := facadeMinimize_ok hJ
  rw [h1, Option.some.injEq] at k1
  rw [h2, Option.some.injEq] at l1
  subst k1 l1
  exact SameSet.same k2 l2 k4 l4 ⟨by rw [k3, l3]; exact h.1, fun m => by rw [k5, l5]; exact h.2 m⟩

theorem foldr_max_perm {l m : List ℕ} (h : l.Perm m) : l.foldr max 0 = m.foldr max 0 :=
  le_antisymm (foldr_max_le fun _ ha => le_foldr_max _ (h.mem_iff.1 ha)) (foldr_max_le fun _ ha => le_foldr_max _ (h.mem_iff.2 ha))

theorem Same.addPurePowers {I J : NamedIdeal} (hI : I.Ok) (hJ : J.Ok) (h : I.Same J) : I.addPurePowers.Same J.addPurePowers := by
  obtain ⟨_, i2, i3⟩ := addPurePowers_monomials hI
  obtain ⟨_, j2, j3⟩ := addPurePowers_monomials hJ
  refine ⟨by rw [i2, j2]; exact h.1, ?_⟩
  rw [i3, j3]
  have hP : I.HasPower = J.HasPower := by
    funext x
    unfold HasPower
    simp only [(h.sameSet hI hJ).2]
  have hE : I.maxExp = J.maxExp := by
    funext x
    exact foldr_max_perm (h.2.map _)
  rw [hP, hE]
  exact h.2.append ((h.1.filter _).map _)

end NamedIdeal
end Frobby
