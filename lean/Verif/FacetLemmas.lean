import Verif.ChessLemmas
import Mathlib.Algebra.BigOperators.Group.Finset.Basic
import Mathlib.Algebra.Order.BigOperators.Group.Finset

/-! # Lemmas: what the searches for rook placements and matchings find, in terms of the specification -/

namespace Frobby

open Classical

/-! ## Rooks -/

theorem maximal_iff_rows {a b : ℕ} (hab : a ≤ b) (S : Finset (Square a b)) :
    Maximal NonAttacking S ↔ ∃ g : Fin a → Fin b, Function.Injective g ∧ S = Finset.univ.image fun i => (i, g i) := by
  constructor
  · rintro ⟨h, hmax⟩
    have hrow : ∀ i : Fin a, ∃ j, (i, j) ∈ S := by
      intro i
      by_contra hc
      push Not at hc
      have hinj : Set.InjOn Prod.snd (S : Set (Square a b)) := by
        intro p hp q hq hpq
        by_contra hne
        exact (h p hp q hq hne).2 hpq
      have hinj1 : Set.InjOn Prod.fst (S : Set (Square a b)) := by
        intro p hp q hq hpq
        by_contra hne
        exact (h p hp q hq hne).1 hpq
      have hcard : (S.image Prod.snd).card < b := by
        rw [Finset.card_image_of_injOn hinj, ← Finset.card_image_of_injOn hinj1]
        have : S.image Prod.fst ⊆ Finset.univ.erase i := by
          intro x hx
          obtain ⟨⟨x, y⟩, hxy, rfl⟩ := Finset.mem_image.1 hx
          refine Finset.mem_erase.2 ⟨?_, Finset.mem_univ _⟩
          rintro rfl
          exact hc y hxy
        have h2 := Finset.card_le_card this
        rw [Finset.card_erase_of_mem (Finset.mem_univ _), Finset.card_univ, Fintype.card_fin] at h2
        have := i.2
        omega
      obtain ⟨j, hj⟩ : ∃ j : Fin b, j ∉ S.image Prod.snd := by
        by_contra hc
        push Not at hc
        rw [Finset.eq_univ_iff_forall.2 hc, Finset.card_univ, Fintype.card_fin] at hcard
        omega
      have hj' : ∀ x, (x, j) ∉ S := fun x hx => hj (Finset.mem_image.2 ⟨_, hx, rfl⟩)
      have hna : NonAttacking (insert (i, j) S) := by
        intro p hp q hq hne
        rcases Finset.mem_insert.1 hp with rfl | hp <;> rcases Finset.mem_insert.1 hq with rfl | hq
        · exact absurd rfl hne
        · exact ⟨fun e => hc q.2 (by simp only at e; rw [e]; exact hq), fun e => hj' q.1 (by simp only at e; rw [e]; exact hq)⟩
        · exact ⟨fun e => hc p.2 (by simp only at e; rw [← e]; exact hp), fun e => hj' p.1 (by simp only at e; rw [← e]; exact hp)⟩
        · exact h p hp q hq hne
      exact hc j (hmax hna (Finset.subset_insert _ _) (Finset.mem_insert_self _ _))
    choose g hg using hrow
    refine ⟨g, fun i j hij => ?_, ?_⟩
    · by_contra hne
      exact (h _ (hg i) _ (hg j) (fun e => hne (Prod.ext_iff.1 e).1)).2 hij
    · ext ⟨i, j⟩
      simp only [Finset.mem_image, Finset.mem_univ, true_and, Prod.mk.injEq]
      constructor
      · intro hm
        refine ⟨i, rfl, ?_⟩
        by_contra hne
        exact (h _ hm _ (hg i) (fun e => hne (Prod.ext_iff.1 e).2.symm)).1 rfl
      · rintro ⟨x, rfl, rfl⟩
        exact hg x
  · rintro ⟨g, hg, rfl⟩
    refine ⟨?_, fun T hT hsub p hp => ?_⟩
    · intro p hp q hq hne
      simp only [Finset.mem_image, Finset.mem_univ, true_and] at hp hq
      obtain ⟨i, rfl⟩ := hp
      obtain ⟨j, rfl⟩ := hq
      have : i ≠ j := fun e => hne (by rw [e])
      exact ⟨this, fun e => this (hg e)⟩
    · have hm : (p.1, g p.1) ∈ T := hsub (Finset.mem_image.2 ⟨p.1, Finset.mem_univ _, rfl⟩)
      by_cases he : p = (p.1, g p.1)
      · rw [he]; exact Finset.mem_image.2 ⟨p.1, Finset.mem_univ _, rfl⟩
      · exact absurd rfl (hT p hp _ hm he).1

theorem rook_terms {a b : ℕ} (hab : a ≤ b) : ((rookOut b a 0 (fun _ => false) fun _ => 0).map fun t (i : Fin (a * b)) => t i).Nodup ∧
    ∀ t, (t ∈ (rookOut b a 0 (fun _ => false) fun _ => 0).map fun t (i : Fin (a * b)) => t i) ↔
      ∃ S : Finset (Square a b), Maximal NonAttacking S ∧ t = productOfVars (S.image Square.var) := by
  have hbound : ∀ {i c : ℕ}, i < a → c < b → i * b + c < a * b := fun {i c} hi hc => (Square.var (⟨i, hi⟩, ⟨c, hc⟩)).2
  refine ⟨?_, fun t => ?_⟩
  · refine List.Nodup.map_on ?_ (nodup_rookOut a 0 _ _ fun _ _ => rfl)
    intro t ht t' ht' he
    rw [mem_rookOut] at ht ht'
    obtain ⟨f, h1, -, rfl⟩ := ht
    obtain ⟨f', h1', -, rfl⟩ := ht'
    funext x
    by_cases hx : x < a * b
    · exact congrFun he ⟨x, hx⟩
    · rw [if_neg, if_neg]
      · rintro ⟨i, h3, h4, h5⟩
        have := hbound (i := i) (by omega) (h1' i h3 h4).1
        omega
      · rintro ⟨i, h3, h4, h5⟩
        have := hbound (i := i) (by omega) (h1 i h3 h4).1
        omega
  · simp only [List.mem_map, maximal_iff_rows hab]
    constructor
    · rintro ⟨t, ht, rfl⟩
      rw [mem_rookOut] at ht
      obtain ⟨f, h1, h2, rfl⟩ := ht
      refine ⟨_, ⟨fun i => ⟨f i, (h1 i (by omega) (by omega)).1⟩, ?_, rfl⟩, ?_⟩
      · intro i j hij
        simp only [Fin.mk.injEq] at hij
        rcases lt_trichotomy (i : ℕ) j with h | h | h
        · exact absurd hij (h2 i j (by omega) h (by omega))
        · exact Fin.ext h
        · exact absurd hij.symm (h2 j i (by omega) h (by omega))
      · funext x
        simp only [productOfVars, Finset.mem_image, Finset.mem_univ, true_and, exists_exists_eq_and, Square.var, Fin.ext_iff]
        congr 1
        apply propext
        constructor
        · rintro ⟨i, -, h4, h5⟩
          exact ⟨⟨i, by omega⟩, h5.symm⟩
        · rintro ⟨i, hi⟩
          exact ⟨i, by omega, by omega, hi.symm⟩
    · rintro ⟨S, ⟨g, hg, rfl⟩, rfl⟩
      refine ⟨_, (mem_rookOut a 0 _ _ _).2 ⟨fun i => if h : i < a then g ⟨i, h⟩ else 0, fun i _ hi => ?_, fun i j _ hij hj => ?_, rfl⟩, ?_⟩
      · simp only [Nat.zero_add] at hi
        simp [hi]
      · have hi : i < a := by omega
        have hj : j < a := by omega
        simp only [hi, hj, dif_pos]
        intro he
        have := hg (Fin.ext he)
        simp at this
        omega
      · funext x
        simp only [productOfVars, Finset.mem_image, Finset.mem_univ, true_and, exists_exists_eq_and, Square.var, Fin.ext_iff]
        congr 1
        apply propext
        constructor
        · rintro ⟨i, -, h4, h5⟩
          have hi : i < a := by omega
          simp only [hi, dif_pos] at h5
          exact ⟨⟨i, hi⟩, h5.symm⟩
        · rintro ⟨i, hi⟩
          refine ⟨i, by omega, by omega, ?_⟩
          simp only [i.2, dif_pos]
          exact hi.symm

/-! ## Matchings -/

/-- The nodes covered by a set of edges. -/
noncomputable def cover {count : ℕ} (M : Finset (Edge count)) : Finset (Fin count) := M.biUnion fun e => {e.1.1, e.1.2}

theorem card_cover {count : ℕ} {M : Finset (Edge count)} (h : IsMatching M) : (cover M).card = 2 * M.card := by
  rw [cover, Finset.card_biUnion]
  · rw [Finset.sum_congr rfl (g := fun _ => 2) fun e _ => Finset.card_pair e.2.ne, Finset.sum_const, smul_eq_mul, Nat.mul_comm]
  · intro e he f hf hne
    obtain ⟨h1, h2, h3, h4⟩ := h e he f hf hne
    simp only [Finset.disjoint_insert_left, Finset.disjoint_singleton_left, Finset.mem_insert, Finset.mem_singleton, not_or]
    exact ⟨⟨h1, h2⟩, ⟨h3, h4⟩⟩

/-- The edges {0,1}, {2,3}, ... -/
noncomputable def pairs (count : ℕ) : Finset (Edge count) := Finset.univ.filter fun e => ∃ i, (e.1.1 : ℕ) = 2 * i ∧ (e.1.2 : ℕ) = 2 * i + 1

theorem card_pairs (count : ℕ) : IsMatching (pairs count) ∧ count / 2 ≤ (pairs count).card := by
  constructor
  · intro e he f hf hne
    simp only [pairs, Finset.mem_filter, Finset.mem_univ, true_and] at he hf
    obtain ⟨i, h1, h2⟩ := he
    obtain ⟨j, h3, h4⟩ := hf
    have : i ≠ j := by
      rintro rfl
      exact hne (Subtype.ext (Prod.ext (Fin.ext (by omega)) (Fin.ext (by omega))))
    simp only [ne_eq, Fin.ext_iff]
    omega
  · let f : Fin (count / 2) → Edge count := fun i => ⟨(⟨2 * i, by omega⟩, ⟨2 * i + 1, by omega⟩), by simp [Fin.lt_def]⟩
    have hf : Function.Injective f := by
      intro i j h
      have := congrArg (fun e : Edge count => (e.1.1 : ℕ)) h
      simp only [f] at this
      exact Fin.ext (by omega)
    calc count / 2 = (Finset.univ.image f).card := by rw [Finset.card_image_of_injective _ hf, Finset.card_univ, Fintype.card_fin]
      _ ≤ _ := Finset.card_le_card fun e he => by
        simp only [Finset.mem_image, Finset.mem_univ, true_and] at he
        obtain ⟨i, rfl⟩ := he
        simp only [pairs, Finset.mem_filter, Finset.mem_univ, true_and]
        exact ⟨i, rfl, rfl⟩

theorem two_mul_card_le {count : ℕ} {M : Finset (Edge count)} (h : IsMatching M) : 2 * M.card ≤ count := by
  rw [← card_cover h]
  exact (Finset.card_le_univ _).trans (by simp)

theorem maximum_iff {count : ℕ} (M : Finset (Edge count)) : IsMaximumMatching M ↔ IsMatching M ∧ M.card = count / 2 := by
  constructor
  · rintro ⟨h, hm⟩
    have h1 := hm _ (card_pairs count).1
    have h2 := (card_pairs count).2
    have h3 := two_mul_card_le h
    exact ⟨h, by omega⟩
  · rintro ⟨h, hc⟩
    refine ⟨h, fun M' h' => ?_⟩
    have := two_mul_card_le h'
    omega

/-- The edges with their nodes as numbers. -/
def edgesNat {count : ℕ} (M : Finset (Edge count)) : Finset (ℕ × ℕ) := M.image fun e => ((e.1.1 : ℕ), (e.1.2 : ℕ))

theorem perfectOn_iff {count : ℕ} {U : List ℕ} (hU : ∀ u ∈ U, u < count) (N : Finset (ℕ × ℕ)) :
    PerfectOn U N ↔ ∃ M : Finset (Edge count), N = edgesNat M ∧ IsMatching M ∧ ∀ u : Fin count, u ∈ cover M ↔ (u : ℕ) ∈ U := by
  constructor
  · rintro ⟨h1, h2, h3⟩
    refine ⟨Finset.univ.filter fun e => ((e.1.1 : ℕ), (e.1.2 : ℕ)) ∈ N, ?_, ?_, fun u => ?_⟩
    · ext ⟨x, y⟩
      simp only [edgesNat, Finset.mem_image, Finset.mem_filter, Finset.mem_univ, true_and]
      constructor
      · intro h
        obtain ⟨g1, g2, g3⟩ := h1 _ h
        exact ⟨⟨(⟨x, hU x g2⟩, ⟨y, hU y g3⟩), g1⟩, h, rfl⟩
      · rintro ⟨e, he, hee⟩
        rw [← hee]; exact he
    · intro e he f hf hne
      simp only [Finset.mem_filter, Finset.mem_univ, true_and] at he hf
      have key : ∀ u : ℕ, (u = (e.1.1 : ℕ) ∨ u = (e.1.2 : ℕ)) → ¬ (u = (f.1.1 : ℕ) ∨ u = (f.1.2 : ℕ)) := by
        intro u hu hu'
        have := h3 _ he _ hf u hu hu'
        simp only [Prod.mk.injEq] at this
        exact hne (Subtype.ext (Prod.ext (Fin.ext this.1) (Fin.ext this.2)))
      have k1 := key (e.1.1 : ℕ) (by simp)
      have k2 := key (e.1.2 : ℕ) (by simp)
      simp only [ne_eq, Fin.ext_iff]
      omega
    · simp only [cover, Finset.mem_biUnion, Finset.mem_filter, Finset.mem_univ, true_and, Finset.mem_insert, Finset.mem_singleton]
      constructor
      · rintro ⟨e, he, h⟩
        obtain ⟨-, g2, g3⟩ := h1 _ he
        rcases h with rfl | rfl
        · exact g2
        · exact g3
      · intro hu
        obtain ⟨⟨x, y⟩, he, h⟩ := h2 _ hu
        obtain ⟨g1, g2, g3⟩ := h1 _ he
        refine ⟨⟨(⟨x, hU x g2⟩, ⟨y, hU y g3⟩), g1⟩, he, ?_⟩
        simp only [Fin.ext_iff]
        exact h
  · rintro ⟨M, rfl, hM, hc⟩
    refine ⟨?_, ?_, ?_⟩
    · intro e he
      simp only [edgesNat, Finset.mem_image] at he
      obtain ⟨f, hf, rfl⟩ := he
      refine ⟨f.2, (hc _).1 ?_, (hc _).1 ?_⟩
      · exact Finset.mem_biUnion.2 ⟨f, hf, by simp⟩
      · exact Finset.mem_biUnion.2 ⟨f, hf, by simp⟩
    · intro u hu
      obtain ⟨f, hf, h⟩ := Finset.mem_biUnion.1 ((hc ⟨u, hU u hu⟩).2 hu)
      refine ⟨_, Finset.mem_image.2 ⟨f, hf, rfl⟩, ?_⟩
      simpa [Fin.ext_iff] using h
    · intro e he e' he' u hu hu'
      simp only [edgesNat, Finset.mem_image] at he he'
      obtain ⟨f, hf, rfl⟩ := he
      obtain ⟨f', hf', rfl⟩ := he'
      by_cases h : f = f'
      · rw [h]
      · obtain ⟨k1, k2, k3, k4⟩ := hM f hf f' hf' h
        simp only [ne_eq, Fin.ext_iff] at k1 k2 k3 k4
        simp only at hu hu'
        omega

theorem card_eq_iff_even {count : ℕ} (he : count % 2 = 0) {M : Finset (Edge count)} (hM : IsMatching M) :
    M.card = count / 2 ↔ ∀ u : Fin count, u ∈ cover M ↔ (u : ℕ) ∈ List.range count := by
  have h := card_cover hM
  simp only [List.mem_range, Fin.is_lt, iff_true, ← Finset.eq_univ_iff_forall, ← Finset.card_eq_iff_eq_univ, Fintype.card_fin, h]
  omega

theorem card_eq_iff_odd {count : ℕ} (ho : count % 2 = 1) {M : Finset (Edge count)} (hM : IsMatching M) :
    M.card = count / 2 ↔ ∃ v < count, ∀ u : Fin count, u ∈ cover M ↔ (u : ℕ) ∈ (List.range count).erase v := by
  have h := card_cover hM
  have hc : (cover M)ᶜ.card = count - 2 * M.card := by rw [Finset.card_compl, h, Fintype.card_fin]
  have h2 := two_mul_card_le hM
  have : M.card = count / 2 ↔ (cover M)ᶜ.card = 1 := by omega
  rw [this, Finset.card_eq_one]
  constructor
  · rintro ⟨v, hv⟩
    refine ⟨v, v.2, fun u => ?_⟩
    rw [List.nodup_range.mem_erase_iff, List.mem_range]
    have := Finset.ext_iff.1 hv u
    simp only [Finset.mem_compl, Finset.mem_singleton] at this
    rw [← not_iff_not, this, Fin.ext_iff]
    simp
  · rintro ⟨v, hv, h⟩
    refine ⟨⟨v, hv⟩, ?_⟩
    ext u
    simp only [Finset.mem_compl, Finset.mem_singleton]
    rw [h u, List.nodup_range.mem_erase_iff, List.mem_range, Fin.ext_iff]
    simp

theorem edgeTerm_eq {count : ℕ} (M : Finset (Edge count)) : (fun x : ℕ => if ∃ e ∈ edgesNat M, x = edgeToVar e.1 e.2 then 1 else 0) =
    fun x => if ∃ e ∈ M, x = e.var then 1 else 0 := by
  funext x
  congr 1
  apply propext
  simp only [edgesNat, Finset.mem_image]
  constructor
  · rintro ⟨_, ⟨e, he, rfl⟩, h⟩
    exact ⟨e, he, by rw [h]; exact edgeToVar_lt e.2⟩
  · rintro ⟨e, he, h⟩
    exact ⟨_, ⟨e, he, rfl⟩, by rw [h]; exact (edgeToVar_lt e.2).symm⟩

theorem edgeTerm_inj {count : ℕ} {M M' : Finset (Edge count)}
    (h : (fun x : ℕ => if ∃ e ∈ M, x = e.var then 1 else 0) = fun x : ℕ => if ∃ e ∈ M', x = e.var then 1 else 0) : M = M' := by
  have hinj : ∀ e f : Edge count, e.var = f.var → e = f := by
    intro e f hef
    have := edgeToVar_inj (a := e.1.1) (b := e.1.2) (a' := f.1.1) (b' := f.1.2) e.2 f.2
      (by rw [edgeToVar_lt e.2, edgeToVar_lt f.2]; exact hef)
    exact Subtype.ext (Prod.ext (Fin.ext this.1) (Fin.ext this.2))
  ext e
  have := congrFun h e.var
  have k : ∀ M : Finset (Edge count), (∃ f ∈ M, e.var = f.var) ↔ e ∈ M := fun M =>
    ⟨fun ⟨f, hf, h⟩ => hinj e f h ▸ hf, fun h => ⟨e, h, rfl⟩⟩
  simp only [k] at this
  by_cases h1 : e ∈ M <;> by_cases h2 : e ∈ M' <;> simp [h1, h2] at this ⊢

theorem mem_matchAll {count : ℕ} (t : ℕ → ℕ) : t ∈ matchAll count ↔
    ∃ M : Finset (Edge count), IsMaximumMatching M ∧ t = fun x => if ∃ e ∈ M, x = e.var then 1 else 0 := by
  have hsorted : (List.range count).Pairwise (· < ·) := List.pairwise_lt_range
  have hlen : ∀ u, ((List.range count).erase u).length ≤ count := fun u => List.length_erase_le.trans (by simp)
  simp only [maximum_iff]
  rw [matchAll]
  by_cases h : count % 2 = 1
  · rw [if_pos h, List.mem_flatMap]
    constructor
    · rintro ⟨u, hu, ht⟩
      rw [mem_matchOut _ _ (hlen u) (hsorted.sublist List.erase_sublist)] at ht
      obtain ⟨N, hN, rfl⟩ := ht
      obtain ⟨M, rfl, hM, hc⟩ := (perfectOn_iff (count := count) (fun v hv => by simpa using List.mem_of_mem_erase hv) N).1 hN
      exact ⟨M, ⟨hM, (card_eq_iff_odd h hM).2 ⟨u, by simpa using hu, hc⟩⟩, edgeTerm_eq M⟩
    · rintro ⟨M, ⟨hM, hc⟩, rfl⟩
      obtain ⟨u, hu, hc⟩ := (card_eq_iff_odd h hM).1 hc
      refine ⟨u, by simpa using hu, ?_⟩
      rw [mem_matchOut _ _ (hlen u) (hsorted.sublist List.erase_sublist)]
      exact ⟨edgesNat M, (perfectOn_iff (fun v hv => by simpa using List.mem_of_mem_erase hv) _).2 ⟨M, rfl, hM, hc⟩, (edgeTerm_eq M).symm⟩
  · rw [if_neg h, mem_matchOut _ _ (by simp) hsorted]
    constructor
    · rintro ⟨N, hN, rfl⟩
      obtain ⟨M, rfl, hM, hc⟩ := (perfectOn_iff (count := count) (fun v hv => by simpa using hv) N).1 hN
      exact ⟨M, ⟨hM, (card_eq_iff_even (by omega) hM).2 hc⟩, edgeTerm_eq M⟩
    · rintro ⟨M, ⟨hM, hc⟩, rfl⟩
      exact ⟨edgesNat M, (perfectOn_iff (fun v hv => by simpa using hv) _).2 ⟨M, rfl, hM, (card_eq_iff_even (by omega) hM).1 hc⟩,
        (edgeTerm_eq M).symm⟩

theorem nodup_matchAll (count : ℕ) : (matchAll count).Nodup := by
  have hsorted : (List.range count).Pairwise (· < ·) := List.pairwise_lt_range
  have hlen : ∀ u, ((List.range count).erase u).length ≤ count := fun u => List.length_erase_le.trans (by simp)
  rw [matchAll]
  split
  · rw [List.nodup_flatMap]
    refine ⟨fun u _ => nodup_matchOut _ _ (hlen u) (hsorted.sublist List.erase_sublist) _ (by simp), ?_⟩
    refine List.nodup_range.pairwise_of_forall_ne ?_
    intro u hu u' hu' hne t ht ht'
    simp only at ht ht'
    rw [mem_matchOut _ _ (hlen u) (hsorted.sublist List.erase_sublist)] at ht
    rw [mem_matchOut _ _ (hlen u') (hsorted.sublist List.erase_sublist)] at ht'
    obtain ⟨N, hN, rfl⟩ := ht
    obtain ⟨N', hN', he⟩ := ht'
    obtain ⟨M, rfl, hM, hc⟩ := (perfectOn_iff (count := count) (fun v hv => by simpa using List.mem_of_mem_erase hv) N).1 hN
    obtain ⟨M', rfl, hM', hc'⟩ := (perfectOn_iff (count := count) (fun v hv => by simpa using List.mem_of_mem_erase hv) N').1 hN'
    rw [edgeTerm_eq, edgeTerm_eq] at he
    have := edgeTerm_inj he
    subst this
    rw [List.mem_range] at hu hu'
    have h1 := (hc ⟨u, hu⟩).symm.trans (hc' ⟨u, hu⟩)
    rw [List.nodup_range.mem_erase_iff, List.nodup_range.mem_erase_iff] at h1
    simp [hne, hu] at h1
  · exact nodup_matchOut _ _ (by simp) hsorted _ (by simp)

theorem matching_terms (count : ℕ) : ((matchAll count).map fun t (i : Fin (count * (count - 1) / 2)) => t i).Nodup ∧
    ∀ t : Term (count * (count - 1) / 2), (t ∈ (matchAll count).map fun t (i : Fin (count * (count - 1) / 2)) => t i) ↔
      ∃ M : Finset (Edge count), IsMaximumMatching M ∧ t = fun i : Fin (count * (count - 1) / 2) => if ∃ e ∈ M, (i : ℕ) = e.var then 1 else 0 := by
  have hlt : ∀ e : Edge count, e.var < count * (count - 1) / 2 := fun e => by
    rw [Edge.var, ← edgeToVar_lt e.2]; exact edgeToVar_lt_count e.2 e.1.2.2
  refine ⟨?_, fun t => ?_⟩
  · refine List.Nodup.map_on ?_ (nodup_matchAll count)
    intro t ht t' ht' he
    rw [mem_matchAll] at ht ht'
    obtain ⟨M, -, rfl⟩ := ht
    obtain ⟨M', -, rfl⟩ := ht'
    funext x
    by_cases hx : x < count * (count - 1) / 2
    · exact congrFun he ⟨x, hx⟩
    · rw [if_neg, if_neg]
      · rintro ⟨e, -, h⟩
        have := hlt e
        omega
      · rintro ⟨e, -, h⟩
        have := hlt e
        omega
  · simp only [List.mem_map, mem_matchAll]
    constructor
    · rintro ⟨_, ⟨M, hM, rfl⟩, rfl⟩
      exact ⟨M, hM, rfl⟩
    · rintro ⟨M, hM, rfl⟩
      exact ⟨_, ⟨M, hM, rfl⟩, rfl⟩

end Frobby
