import Verif.TransformLemmas2

/-!
# Lemmas about the action `transform`: deformation, products, transposition, canonical form
-/

namespace Frobby

namespace NamedIdeal

/-! ## deformation -/

theorem deformFrom_length (c : ℕ) : ∀ (ts : List (List ℕ)) (g : ℕ), (deformFrom c g ts).length = ts.length := by
  intro ts
  induction ts with
  | nil => intro g; rfl
  | cons t ts ih => intro g; simp [deformFrom, ih]

theorem deformFrom_getD (c : ℕ) : ∀ (ts : List (List ℕ)) (g i v : ℕ), ((deformFrom c g ts).getD i []).getD v 0 =
    if (ts.getD i []).getD v 0 > 0 then (ts.getD i []).getD v 0 * c + (g + i) else 0 := by
  intro ts
  induction ts with
  | nil => intro g i v; simp [deformFrom]
  | cons t ts ih =>
    intro g i v
    cases i with
    | zero =>
      simp only [deformFrom, List.getD_cons_zero, deformTerm, Nat.add_zero]
      by_cases h : v < t.length
      · rw [List.getD_eq_getElem _ _ (by simpa using h), List.getD_eq_getElem _ _ h, List.getElem_map]
        split <;> omega
      · rw [List.getD_eq_default _ _ (by simpa using h), List.getD_eq_default _ _ (by simpa using h)]
        simp
    | succ i =>
      simp only [deformFrom, List.getD_cons_succ]
      rw [ih, Nat.add_right_comm, Nat.add_assoc]

theorem Ok.deform {I : NamedIdeal} (hI : I.Ok) : I.deform.Ok := by
  refine ⟨hI.nodup, ?_⟩
  show ∀ t ∈ deformFrom I.terms.length 0 I.terms, t.length = I.names.length
  have : ∀ (c : ℕ) (ts : List (List ℕ)) (g : ℕ), (∀ t ∈ ts, t.length = I.names.length) → ∀ t ∈ deformFrom c g ts, t.length = I.names.length := by
    intro c ts
    induction ts with
    | nil => intro g _ t ht; simp [deformFrom] at ht
    | cons u ts ih =>
      intro g h t ht
      rcases List.mem_cons.1 ht with rfl | ht
      · simpa [deformTerm] using h u (by simp)
      · exact ih (g + 1) (fun t ht => h t (by simp [ht])) t ht
  exact this _ _ _ hI.length

theorem deform_entry (I : NamedIdeal) (i v : ℕ) : I.deform.entry i v = if I.entry i v > 0 then I.entry i v * I.terms.length + i else 0 := by
  have := deformFrom_getD I.terms.length I.terms 0 i v
  rw [Nat.zero_add] at this
  exact this

theorem getElem_shrink {n : ℕ} (T : Translator n) (G : List (Term n)) (i : ℕ) (hi : i < (T.shrinkIdeal G).length) :
    (T.shrinkIdeal G)[i] = fun v => T.shrinkExponent v ((G[i]'(by simpa [Translator.shrinkIdeal] using hi)) v) := List.getElem_map _

/-- The exponents after the range of exponents is reduced. -/
theorem shrunk_entry {J : NamedIdeal} {i v : ℕ} (hi : i < J.terms.length) (hv : v < J.names.length) :
    NamedIdeal.entry { names := J.names, terms := ((Translator.ofGens J.gens).shrinkIdeal J.gens).map fun t => List.ofFn t } i v =
      (Translator.ofGens J.gens).shrinkExponent ⟨v, hv⟩ ((J.entry i v : ℕ) : ℤ) := by
  simp only [entry]
  rw [List.getD_eq_getElem (List.map _ _) _ (by simpa [Translator.shrinkIdeal, gens] using hi), List.getElem_map]
  rw [List.getD_eq_getElem (List.ofFn _) _ (by simpa using hv), List.getElem_ofFn]
  rw [getElem_shrink, List.getD_eq_getElem J.terms _ hi]
  have : J.gens[i]'(by simpa [gens] using hi) = fun w : Fin J.names.length => J.terms[i].getD w 0 := List.getElem_map _
  rw [this]

theorem entry_mem_gens {J : NamedIdeal} {i : ℕ} (hi : i < J.terms.length) : (fun w : Fin J.names.length => J.entry i w) ∈ J.gens := by
  refine List.mem_map.2 ⟨J.terms[i], List.getElem_mem hi, ?_⟩
  funext w
  simp only [entry]
  rw [List.getD_eq_getElem _ _ hi]

theorem shrink_lt_iff {J : NamedIdeal} {i j v : ℕ} (hi : i < J.terms.length) (hj : j < J.terms.length) (hv : v < J.names.length) :
    (Translator.ofGens J.gens).shrinkExponent ⟨v, hv⟩ ((J.entry i v : ℕ) : ℤ) < (Translator.ofGens J.gens).shrinkExponent ⟨v, hv⟩ ((J.entry j v : ℕ) : ℤ) ↔
      J.entry i v < J.entry j v := by
  have h1 := ofGens_shrink J.gens (entry_mem_gens hi) ⟨v, hv⟩
  have h2 := ofGens_shrink J.gens (entry_mem_gens hj) ⟨v, hv⟩
  simp only at h1 h2
  have hs := tSys J.gens
  constructor
  · intro h
    have := hs.mono ⟨v, hv⟩ _ _ h h2.1
    rw [h1.2, h2.2] at this
    exact this
  · intro h
    by_contra hc
    have := hs.mono_le (not_lt.1 hc) h1.1
    rw [h1.2, h2.2] at this
    omega

theorem shrink_zero_iff {J : NamedIdeal} {i v : ℕ} (hi : i < J.terms.length) (hv : v < J.names.length) :
    (Translator.ofGens J.gens).shrinkExponent ⟨v, hv⟩ ((J.entry i v : ℕ) : ℤ) = 0 ↔ J.entry i v = 0 := by
  have h1 := ofGens_shrink J.gens (entry_mem_gens hi) ⟨v, hv⟩
  simp only at h1
  have hs := tSys J.gens
  constructor
  · intro h
    rw [h, hs.zero] at h1
    exact h1.2.symm
  · intro h
    by_contra hc
    have := hs.mono ⟨v, hv⟩ 0 _ (Nat.pos_of_ne_zero hc) h1.1
    rw [h1.2, hs.zero, h] at this
    omega

theorem facadeDeform_spec {I : NamedIdeal} (hI : I.Ok) : I.facadeDeform.Ok ∧ I.facadeDeform.names = I.names ∧
    I.facadeDeform.terms.length = I.terms.length ∧ ∀ v < I.names.length, ∀ i < I.terms.length,
      (I.facadeDeform.entry i v = 0 ↔ I.entry i v = 0) ∧ ∀ j < I.terms.length,
        (I.entry i v < I.entry j v → I.facadeDeform.entry i v < I.facadeDeform.entry j v) ∧
        (i ≠ j → I.facadeDeform.entry i v = I.facadeDeform.entry j v → I.facadeDeform.entry i v = 0) := by
  have hJ := hI.deform
  have hent := deform_entry I
  have hlen : I.deform.terms.length = I.terms.length := deformFrom_length _ _ _
  have hnames : I.deform.names = I.names := rfl
  have hdef : I.facadeDeform = { names := I.deform.names, terms := ((Translator.ofGens I.deform.gens).shrinkIdeal I.deform.gens).map fun t => List.ofFn t } := rfl
  generalize I.deform = J at hJ hent hlen hnames hdef
  refine ⟨?_, by rw [hdef, hnames], by rw [hdef]; simp [Translator.shrinkIdeal, gens, hlen], fun v hv i hi => ?_⟩
  · rw [hdef]; exact Ok.ofFn hJ.nodup _
  have hv' : v < J.names.length := by rw [hnames]; exact hv
  have hsh : ∀ i < I.terms.length, I.facadeDeform.entry i v = (Translator.ofGens J.gens).shrinkExponent ⟨v, hv'⟩ ((J.entry i v : ℕ) : ℤ) := by
    intro i hi
    rw [hdef]
    exact shrunk_entry (by omega) hv'
  have h0 : I.facadeDeform.entry i v = 0 ↔ I.entry i v = 0 := by
    rw [hsh i hi, shrink_zero_iff (by omega) hv', hent]
    split
    · rename_i h
      have : 0 < I.entry i v * I.terms.length := Nat.mul_pos h (by omega)
      omega
    · omega
  refine ⟨h0, fun j hj => ⟨fun h => ?_, fun hne he => ?_⟩⟩
  · rw [hsh i hi, hsh j hj, shrink_lt_iff (by omega) (by omega) hv', hent, hent, if_pos (show I.entry j v > 0 by omega)]
    have hmul : (I.entry i v + 1) * I.terms.length ≤ I.entry j v * I.terms.length := Nat.mul_le_mul_right _ h
    rw [Nat.add_mul] at hmul
    split <;> omega
  · by_contra hc
    have hpos : ¬ I.entry i v = 0 := fun h => hc (h0.2 h)
    have h1 : J.entry i v = J.entry j v := by
      rw [hsh i hi, hsh j hj] at he
      rcases lt_trichotomy (J.entry i v) (J.entry j v) with h | h | h
      · have := (shrink_lt_iff (J := J) (i := i) (j := j) (by omega) (by omega) hv').2 h
        omega
      · exact h
      · have := (shrink_lt_iff (J := J) (i := j) (j := i) (by omega) (by omega) hv').2 h
        omega
    rw [hent, hent, if_pos (by omega)] at h1
    split at h1
    · -- the remainders differ
      have h2 : (I.entry i v * I.terms.length + i) % I.terms.length = i := by
        rw [Nat.add_comm, Nat.add_mul_mod_self_right, Nat.mod_eq_of_lt hi]
      have h3 : (I.entry j v * I.terms.length + j) % I.terms.length = j := by
        rw [Nat.add_comm, Nat.add_mul_mod_self_right, Nat.mod_eq_of_lt hj]
      rw [h1, h3] at h2
      exact hne h2.symm
    · have : 0 < I.entry i v * I.terms.length := Nat.mul_pos (by omega) (by omega)
      omega

/-! ## products -/

theorem foldl_sum_getD (ts : List (List ℕ)) (n v : ℕ) (hv : v < n) : ∀ (l : List ℕ), l.length = n → (∀ t ∈ ts, t.length = n) →
    (ts.foldl (fun l t => List.zipWith (· + ·) l t) l).length = n ∧
    (ts.foldl (fun l t => List.zipWith (· + ·) l t) l).getD v 0 = l.getD v 0 + (ts.map fun t => t.getD v 0).sum := by
  induction ts with
  | nil => intro l h _; simp [h]
  | cons t ts ih =>
    intro l hl ht
    have htl := ht t (by simp)
    rw [List.foldl_cons]
    have h := ih (List.zipWith (· + ·) l t) (by simp [hl, htl]) fun u hu => ht u (by simp [hu])
    refine ⟨h.1, ?_⟩
    rw [h.2, List.map_cons, List.sum_cons, ← Nat.add_assoc]
    congr 1
    rw [List.getD_eq_getElem _ _ (by simp [hl, htl, hv]), List.getElem_zipWith, List.getD_eq_getElem _ _ (by omega),
      List.getD_eq_getElem _ _ (by omega)]

theorem foldl_sum_length (ts : List (List ℕ)) (n : ℕ) : ∀ (l : List ℕ), l.length = n → (∀ t ∈ ts, t.length = n) →
    (ts.foldl (fun l t => List.zipWith (· + ·) l t) l).length = n := by
  induction ts with
  | nil => intro l h _; simpa using h
  | cons t ts ih =>
    intro l hl ht
    rw [List.foldl_cons]
    exact ih _ (by simp [hl, ht t (by simp)]) fun u hu => ht u (by simp [hu])

theorem productTerm_length {I : NamedIdeal} (hI : I.Ok) : I.productTerm.length = I.names.length :=
  foldl_sum_length I.terms _ _ (by simp) hI.length

theorem expOf_productTerm {I : NamedIdeal} (hI : I.Ok) : expOf I.names I.productTerm = fun x => (I.monomials.map fun f => f x).sum := by
  funext x
  by_cases hx : x ∈ I.names
  · obtain ⟨v, hv, rfl⟩ := exists_getD_of_mem hx
    rw [expOf_getD hI.nodup _ hv, productTerm, (foldl_sum_getD I.terms _ v hv _ (by simp) hI.length).2, monomials, List.map_map,
      List.getD_eq_getElem _ _ (by simpa using hv), List.getElem_replicate, Nat.zero_add]
    congr 1
    exact List.map_congr_left fun t _ => (expOf_getD hI.nodup t hv).symm
  · rw [expOf_not_mem (productTerm_length hI) hx]
    symm
    rw [List.sum_eq_zero]
    intro e he
    obtain ⟨f, hf, rfl⟩ := List.mem_map.1 he
    exact monomials_zero hI hf hx

theorem takeProducts_spec {names : List Text} {Is : List NamedIdeal} (hn : names.Nodup) (h : OneRing names Is) :
    ∃ J, takeProducts names Is = some J ∧ J.Ok ∧ J.names = names ∧ J.monomials = Is.map fun I x => (I.monomials.map fun f => f x).sum := by
  refine ⟨{ names := names, terms := Is.map productTerm }, ?_, ⟨hn, fun t ht => ?_⟩, rfl, ?_⟩
  · rw [takeProducts, if_pos]
    simp only [List.all_eq_true, decide_eq_true_eq]
    exact fun I hI => (h I hI).2.symm
  · obtain ⟨I, hI, rfl⟩ := List.mem_map.1 ht
    rw [productTerm_length (h I hI).1, (h I hI).2]
  · rw [monomials, List.map_map]
    refine List.map_congr_left fun I hI => ?_
    have := expOf_productTerm (h I hI).1
    rw [(h I hI).2] at this
    exact this

/-! ## transposition -/

theorem transpose_entry (I : NamedIdeal) {i v : ℕ} (hi : i < I.terms.length) (hv : v < I.names.length) : I.transpose.entry v i = I.entry i v := by
  simp only [entry, transpose]
  rw [List.getD_eq_getElem (List.map _ _) _ (by simpa using hv), List.getElem_map, List.getElem_range,
    List.getD_eq_getElem (List.map _ _) _ (by simpa using hi), List.getElem_map, List.getD_eq_getElem I.terms _ hi]

end NamedIdeal
end Frobby
