import Verif.FacetLemmas

/-!
# C45: generated ideals

`GenSpec.lean` says what the ideals are.
-/

namespace Frobby

/-! ## Products of variables are comparable only if they are equal, if they have the same number of variables -/

theorem minimal_of_card {n k : ℕ} {G : List (Term n)} (hn : G.Nodup) (h : ∀ t ∈ G, ∃ F : Finset (Fin n), F.card = k ∧ t = productOfVars F) :
    MinimalGens G := by
  refine ⟨hn, fun a ha b hb hab => ?_⟩
  obtain ⟨F, hF, rfl⟩ := h a ha
  obtain ⟨F', hF', rfl⟩ := h b hb
  have : F ⊆ F' := by
    intro i hi
    have := Term.le_def.1 hab i
    simp only [productOfVars, hi, if_true] at this
    by_contra hc
    simp [hc] at this
  rw [Finset.eq_of_subset_of_card_le this (by omega)]

/-- **C45.** `genideal -type list` gives the products of two consecutive variables, each once, as minimal generators. -/
theorem C45_list (n : ℕ) : MinimalGens (linkedListIdeal n) ∧
    ∀ t, t ∈ linkedListIdeal n ↔ ∃ i j : Fin n, (j : ℕ) = i + 1 ∧ t = productOfVars {i, j} := by
  have hmem : ∀ t, t ∈ linkedListIdeal n ↔ ∃ i j : Fin n, (j : ℕ) = i + 1 ∧ t = productOfVars {i, j} := by
    intro t
    simp only [linkedListIdeal, List.mem_map, List.mem_range'_1]
    constructor
    · rintro ⟨v, hv, rfl⟩
      refine ⟨⟨v - 1, by omega⟩, ⟨v, by omega⟩, by simp only; omega, ?_⟩
      rw [setOnes_pair (by omega) (by omega), Finset.pair_comm]
    · rintro ⟨i, j, hij, rfl⟩
      refine ⟨j, by omega, ?_⟩
      rw [setOnes_pair j.2 (by omega), Finset.pair_comm]
      congr 2
      exact Fin.ext (by simp only; omega)
  refine ⟨minimal_of_card (k := 2) ?_ ?_, hmem⟩
  · refine List.Nodup.map_on ?_ List.nodup_range'
    intro x hx y hy h
    simp only [List.mem_range'_1] at hx hy
    rw [setOnes_pair (by omega) (by omega), setOnes_pair (by omega) (by omega)] at h
    rcases pair_eq_pair (productOfVars_injective h) with ⟨h1, h2⟩ | ⟨h1, h2⟩ <;> simp at h1 h2 <;> omega
  · intro t ht
    obtain ⟨i, j, hij, rfl⟩ := (hmem t).1 ht
    exact ⟨_, Finset.card_pair (fun h => by simp [h] at hij), rfl⟩

/-- The list ideal in three variables. -/
example : linkedListIdeal 3 = [![1, 1, 0], ![0, 1, 1]] := by decide +kernel

/-! ## Chess boards -/

theorem chess_spec {size : ℕ} (h : size * size < 2 ^ 64) {deltas : List (ℤ × ℤ)} {Move : Square size size → Square size size → Prop}
    (hd : ∀ d ∈ deltas, -2 ^ 31 < d.1 ∧ -2 ^ 31 < d.2) (hn : deltas.Nodup) (ho : ∀ d ∈ deltas, (-d.1, -d.2) ∉ deltas)
    (hm : ∀ p q, Move p q ↔ MoveIn deltas p q ∨ MoveIn deltas q p) :
    ∃ names G, chessIdeal size size deltas = some (names, G) ∧ names.Nodup ∧ names.length = size * size ∧
      (∀ p : Square size size, names[(p.var : ℕ)]? = some ('r' :: decimal (p.1 + 1) ++ 'c' :: decimal (p.2 + 1))) ∧
      MinimalGens G ∧ ∀ t, t ∈ G ↔ ∃ p q : Square size size, Move p q ∧ t = productOfVars {p.var, q.var} := by
  have h1 : (sortReverseLex (chessGens size size deltas)).Nodup := (sortReverseLex_perm _).nodup_iff.2 (nodup_chessGens hd hn ho)
  have h2 : ∀ t, t ∈ sortReverseLex (chessGens size size deltas) ↔ ∃ p q : Square size size, Move p q ∧ t = productOfVars {p.var, q.var} := by
    intro t
    rw [(sortReverseLex_perm _).mem_iff, mem_chessGens hd]
    constructor
    · rintro ⟨p, q, h, rfl⟩
      exact ⟨p, q, (hm p q).2 (Or.inl h), rfl⟩
    · rintro ⟨p, q, h, rfl⟩
      rcases (hm p q).1 h with h | h
      · exact ⟨p, q, h, rfl⟩
      · exact ⟨q, p, h, by rw [Finset.pair_comm]⟩
  refine ⟨_, _, if_neg (by omega), ?_, chessNames_length _ _, chessNames_get, minimal_of_card (k := 2) h1 ?_, h2⟩
  · exact nodup_chessNames _ _
  · intro t ht
    obtain ⟨p, q, h, rfl⟩ := (h2 t).1 ht
    refine ⟨_, Finset.card_pair fun he => ?_, rfl⟩
    have := Square.var_injective he
    subst this
    rcases (hm p p).1 h with h | h
    · exact ho _ h (by simpa [MoveIn] using h)
    · exact ho _ h (by simpa [MoveIn] using h)

/-- **C45.** `genideal -type king` gives the products of two squares a move of a king apart, each once, as minimal generators, and the
variables are named by the rows and columns of the squares. -/
theorem C45_king {size : ℕ} (h : size * size < 2 ^ 64) : ∃ names G, kingIdeal size = some (names, G) ∧ names.Nodup ∧ names.length = size * size ∧
    (∀ p : Square size size, names[(p.var : ℕ)]? = some ('r' :: decimal (p.1 + 1) ++ 'c' :: decimal (p.2 + 1))) ∧
    MinimalGens G ∧ ∀ t, t ∈ G ↔ ∃ p q : Square size size, KingMove p q ∧ t = productOfVars {p.var, q.var} := by
  refine chess_spec h (by decide) (by decide) (by decide) fun p q => ?_
  obtain ⟨a, b⟩ := p
  obtain ⟨c, d⟩ := q
  simp only [KingMove, MoveIn, dist, ne_eq, Prod.mk.injEq, Fin.ext_iff, List.mem_cons, List.not_mem_nil, or_false]
  omega

theorem dist_eq {k d : ℕ} (a b : Fin k) : dist a b = d ↔ (b : ℤ) - a = d ∨ (b : ℤ) - a = -d := by
  rw [dist]; omega

/-- **C45.** `genideal -type knight` gives the products of two squares a move of a knight apart, each once, as minimal generators. -/
theorem C45_knight {size : ℕ} (h : size * size < 2 ^ 64) : ∃ names G, knightIdeal size = some (names, G) ∧ names.Nodup ∧
    names.length = size * size ∧
    (∀ p : Square size size, names[(p.var : ℕ)]? = some ('r' :: decimal (p.1 + 1) ++ 'c' :: decimal (p.2 + 1))) ∧
    MinimalGens G ∧ ∀ t, t ∈ G ↔ ∃ p q : Square size size, KnightMove p q ∧ t = productOfVars {p.var, q.var} := by
  refine chess_spec h (by decide) (by decide) (by decide) fun p q => ?_
  obtain ⟨a, b⟩ := p
  obtain ⟨c, d⟩ := q
  simp only [KnightMove, MoveIn, Prod.mk.injEq, List.mem_cons, List.not_mem_nil, or_false, dist_eq]
  generalize hx : (c : ℤ) - a = x
  generalize hy : (d : ℤ) - b = y
  rw [show (a : ℤ) - c = -x by omega, show (b : ℤ) - d = -y by omega]
  clear hx hy
  constructor
  · rintro (⟨rfl | rfl, rfl | rfl⟩ | ⟨rfl | rfl, rfl | rfl⟩) <;> simp
  · rintro ((⟨rfl, rfl⟩ | ⟨rfl, rfl⟩ | ⟨rfl, rfl⟩ | ⟨rfl, rfl⟩) | (⟨h1, h2⟩ | ⟨h1, h2⟩ | ⟨h1, h2⟩ | ⟨h1, h2⟩)) <;>
      simp_all [neg_eq_iff_eq_neg]

/-- The king on a board with two rows has six moves, the knight on a board with three rows has eight. -/
example : (kingIdeal 2).map (fun x => x.2.length) = some 6 ∧ (knightIdeal 3).map (fun x => x.2.length) = some 8 := by decide +kernel

/-- **C45.** A board with too many squares is an error. -/
theorem C45_chess_too_large {size : ℕ} (h : 2 ^ 64 ≤ size * size) : kingIdeal size = none ∧ knightIdeal size = none :=
  ⟨if_pos (by omega), if_pos (by omega)⟩

/-! ## Tree ideals -/

/-- **C45.** `genideal -type tree` stops, and it gives the power `n + 1 - k` of each product of `k` different variables for `k > 0`, each once,
as minimal generators. -/
theorem C45_tree (n : ℕ) : ∃ G m, (∀ fuel, treeIdeal (fuel + m) n = some G) ∧ MinimalGens G ∧ G.length = 2 ^ n - 1 ∧
    ∀ t, t ∈ G ↔ ∃ F : Finset (Fin n), F.Nonempty ∧ t = treeGenerator F := by
  obtain ⟨ps, h1, h2, h3⟩ := treeLoop_spec n (2 ^ n - 1) (List.replicate n false) (by simp)
    (by rw [bitsValue_replicate]; have := Nat.two_pow_pos n; omega)
  have hT : ∀ F : Finset (Fin n), F.Nonempty → treeTerm n (List.ofFn fun i => decide (i ∈ F)) = treeGenerator F := by
    intro F hF
    rw [treeTerm_ofFn]
    funext i
    have : F.card ≤ n := (Finset.card_le_univ F).trans (by simp)
    simp only [treeGenerator]
    split
    · omega
    · rfl
  have hps : ∀ q, q ∈ ps ↔ ∃ F : Finset (Fin n), F.Nonempty ∧ q = List.ofFn fun i => decide (i ∈ F) := by
    intro q
    rw [h3, bitsValue_replicate]
    constructor
    · rintro ⟨hq, hv⟩
      obtain ⟨F, rfl⟩ := exists_finset_of_bits hq
      refine ⟨F, ?_, rfl⟩
      rw [Finset.nonempty_iff_ne_empty]
      rintro rfl
      exact (bitsValue_pos hq).1 hv (by simp [List.ofFn_const])
    · rintro ⟨F, ⟨i, hi⟩, rfl⟩
      refine ⟨by simp, (bitsValue_pos (n := n) (by simp)).2 fun h => ?_⟩
      have := congrArg (fun l => l.getD i false) h
      simp [hi, List.getD_eq_getElem?_getD] at this
  have hinj : ∀ F F' : Finset (Fin n), F.Nonempty → treeGenerator F ≤ treeGenerator F' → F = F' := by
    intro F F' hF h
    have hc : F.card ≤ n := (Finset.card_le_univ F).trans (by simp)
    have hc' : F'.card ≤ n := (Finset.card_le_univ F').trans (by simp)
    have hsub : F ⊆ F' := by
      intro i hi
      have := Term.le_def.1 h i
      simp only [treeGenerator, hi, if_true] at this
      by_contra hc
      simp only [hc, if_false] at this
      omega
    refine Finset.eq_of_subset_of_card_le hsub ?_
    obtain ⟨i, hi⟩ := hF
    have := Term.le_def.1 h i
    simp only [treeGenerator, hi, hsub hi, if_true] at this
    omega
  have hG : ∀ t, t ∈ ps.map (treeTerm n) ↔ ∃ F : Finset (Fin n), F.Nonempty ∧ t = treeGenerator F := by
    intro t
    rw [List.mem_map]
    constructor
    · rintro ⟨q, hq, rfl⟩
      obtain ⟨F, hF, rfl⟩ := (hps q).1 hq
      exact ⟨F, hF, hT F hF⟩
    · rintro ⟨F, hF, rfl⟩
      exact ⟨_, (hps _).2 ⟨F, hF, rfl⟩, hT F hF⟩
  have hnd : (ps.map (treeTerm n)).Nodup := by
    refine List.Nodup.map_on ?_ h2
    intro q hq q' hq' he
    obtain ⟨F, hF, rfl⟩ := (hps q).1 hq
    obtain ⟨F', hF', rfl⟩ := (hps q').1 hq'
    rw [hT F hF, hT F' hF'] at he
    rw [hinj F F' hF he.le]
  refine ⟨_, _, h1, ⟨hnd, fun a ha b hb hab => ?_⟩, ?_, hG⟩
  · obtain ⟨F, hF, rfl⟩ := (hG a).1 ha
    obtain ⟨F', hF', rfl⟩ := (hG b).1 hb
    rw [hinj F F' hF hab]
  · have : (ps.map (treeTerm n)).toFinset = (Finset.univ.erase ∅).image treeGenerator := by
      ext t
      rw [List.mem_toFinset, hG, Finset.mem_image]
      constructor
      · rintro ⟨F, hF, rfl⟩
        exact ⟨F, by simpa using hF.ne_empty, rfl⟩
      · rintro ⟨F, hF, rfl⟩
        exact ⟨F, Finset.nonempty_iff_ne_empty.2 (by simpa using hF), rfl⟩
    rw [← List.toFinset_card_of_nodup hnd, this, Finset.card_image_of_injOn, Finset.card_erase_of_mem (Finset.mem_univ _), Finset.card_univ,
      Fintype.card_finset, Fintype.card_fin]
    intro F hF F' hF' he
    exact hinj F F' (Finset.nonempty_iff_ne_empty.2 (by simpa using hF)) he.le

/-- The tree ideal in two variables. -/
example : treeIdeal 4 2 = some [![2, 0], ![0, 2], ![1, 1]] := by decide +kernel

/-! ## Rooks and matchings -/

/-- **C45.** `genideal -type rook` stops, and it gives the products of the squares of the maximal placements of rooks that cannot take each
other, each once. -/
theorem C45_rook {n k : ℕ} (hn : 0 < n) (hk : 0 < k) (hn' : n ≤ 1000) (hk' : k ≤ 1000) :
    ∃ G m, (∀ fuel, rookIdeal (fuel + m) n k = some G) ∧ G.Nodup ∧
      ∀ t, t ∈ G ↔ ∃ S : Finset (Square (min n k) (max n k)), Maximal NonAttacking S ∧ t = productOfVars (S.image Square.var) := by
  obtain ⟨m, hm⟩ := rookLoop_spec (n := min n k) (k := max n k) (by omega)
  obtain ⟨h1, h2⟩ := rook_terms (a := min n k) (b := max n k) (by omega)
  refine ⟨_, m, fun fuel => ?_, h1, h2⟩
  rw [rookIdeal, if_neg (by omega), if_neg (by omega)]
  exact hm fuel

/-- The rook ideal of a board with three rows and two columns has six generators. -/
example : (rookIdeal 100 3 2).map List.length = some 6 ∧ rookIdeal 100 1 2 = some [![1, 0], ![0, 1]] := by decide +kernel

/-- **C45.** `genideal -type matching` stops, and it gives the products of the edges of the maximum matchings of a clique, each once. -/
theorem C45_matching {count : ℕ} (h0 : 0 < count) (h1 : count ≤ 1000) : ∃ G m, (∀ fuel, matchingIdeal (fuel + m) count = some G) ∧ G.Nodup ∧
    ∀ t, t ∈ G ↔ ∃ M : Finset (Edge count), IsMaximumMatching M ∧ t = productOfEdges M := by
  obtain ⟨m, hm⟩ := matchingIdeal_eq h0 h1
  obtain ⟨h2, h3⟩ := matching_terms count
  refine ⟨_, m, hm, h2, fun t => ?_⟩
  rw [h3]
  refine exists_congr fun M => and_congr_right fun _ => ?_
  constructor
  · rintro rfl
    funext i
    simp only [productOfEdges]
  · rintro rfl
    funext i
    simp only [productOfEdges]

/-- Every edge has a variable of its own. -/
theorem C45_edges (count : ℕ) : (∀ e : Edge count, e.var < count * (count - 1) / 2) ∧ ∀ e f : Edge count, e.var = f.var → e = f := by
  refine ⟨fun e => ?_, fun e f hef => ?_⟩
  · rw [Edge.var, ← edgeToVar_lt e.2]
    exact edgeToVar_lt_count e.2 e.1.2.2
  · have := edgeToVar_inj (a := e.1.1) (b := e.1.2) (a' := f.1.1) (b' := f.1.2) e.2 f.2
      (by rw [edgeToVar_lt e.2, edgeToVar_lt f.2]; exact hef)
    exact Subtype.ext (Prod.ext (Fin.ext this.1) (Fin.ext this.2))

/-- The matchings of three and of four nodes. -/
example : matchingIdeal 100 3 = some [![0, 0, 1], ![0, 1, 0], ![1, 0, 0]] ∧
    matchingIdeal 100 4 = some [![1, 0, 0, 0, 0, 1], ![0, 1, 0, 0, 1, 0], ![0, 0, 1, 1, 0, 0]] := by decide +kernel

/-- **C45.** No rows, no columns, no nodes and more than 1000 of them are errors. -/
theorem C45_errors (fuel n k : ℕ) : ((n = 0 ∨ k = 0 ∨ 1000 < n ∨ 1000 < k) → rookIdeal fuel n k = none) ∧
    ((n = 0 ∨ 1000 < n) → matchingIdeal fuel n = none) := by
  refine ⟨fun h => ?_, fun h => ?_⟩
  · rw [rookIdeal]
    by_cases h1 : n = 0 ∨ k = 0
    · rw [if_pos h1]
    · rw [if_neg h1, if_pos (by omega)]
  · rw [matchingIdeal]
    by_cases h1 : n = 0
    · rw [if_pos h1]
    · rw [if_neg h1, if_pos (by omega)]

end Frobby
