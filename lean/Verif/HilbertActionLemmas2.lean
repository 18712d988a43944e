import Verif.HilbertActionLemmas
import Verif.HilbertActionSpec
import Mathlib.SetTheory.Cardinal.Finite

/-!
# Lemmas about the action `hilbert`: names
-/

namespace Frobby

open NamedIdeal

variable {n : ℕ}

theorem zip_expOf {names : List Text} (hn : names.Nodup) {t : List ℕ} (ht : t.length = names.length) (m : Text → ℕ) :
    (∀ p ∈ names.zip t, p.2 ≤ m p.1) ↔ ∀ x, expOf names t x ≤ m x := by
  rw [all_zip_iff ht]
  constructor
  · intro h x
    by_cases hx : x ∈ names
    · obtain ⟨i, hi, rfl⟩ := exists_getD_of_mem hx
      rw [expOf_getD hn t hi]
      exact h i hi
    · rw [expOf_not_mem ht hx]; omega
  · intro h i hi
    rw [← expOf_getD hn t hi]
    exact h _

/-- The terms, with the exponents in the order of the names `N`. -/
def onTerms (n : ℕ) (N : List Text) (P : NamedPoly) : List (ℤ × Term n) := P.terms.map fun x => (x.1, onN n N (expOf P.names x.2))

theorem seriesAt_onTerms {N : List Text} (hN : N.length = n) (hd : N.Nodup) {P : NamedPoly} (hP : P.names.Perm N) (hl : ∀ x ∈ P.terms, x.2.length = P.names.length)
    (t : Term n) : seriesCoef (onTerms n N P) t = seriesAt P (nm N t) := by
  obtain ⟨names, terms⟩ := P
  unfold seriesAt onTerms
  simp only at hl hP ⊢
  induction terms with
  | nil => rfl
  | cons a l ih =>
    have h1 : (onN n N (expOf names a.2) ≤ t) ↔ ∀ p ∈ names.zip a.2, p.2 ≤ nm N t p.1 := by
      rw [zip_expOf (hP.nodup_iff.2 hd) (hl a (by simp))]
      constructor
      · intro h x
        by_cases hx : x ∈ N
        · obtain ⟨v, rfl⟩ := exists_var hN hx
          rw [nm_at hN hd]
          exact h v
        · rw [expOf_not_mem (hl a (by simp)) fun h => hx (hP.mem_iff.1 h)]; omega
      · intro h v
        have := h (N.getD v [])
        rwa [nm_at hN hd] at this
    rw [List.map_cons, seriesCoef_cons, ih fun x hx => hl x (by simp [hx]), List.filter_cons]
    by_cases h2 : onN n N (expOf names a.2) ≤ t
    · rw [if_pos h2, if_pos (by simpa using h1.1 h2)]
      simp
    · rw [if_neg h2, if_neg (by simpa using fun h => h2 (h1.2 h))]
      simp

theorem onTerms_numerator {I : NamedIdeal} {N : List Text} {G : List (Term n)} (hN : N.length = n) (hd : N.Nodup) (hp : N.Perm I.names)
    (hmem : ∀ m, I.mem m ↔ mem G (onN n N m)) {P : NamedPoly} (h : I.HilbertNumerator P) : IsHilbertNumerator (onTerms n N P) G := by
  intro t
  rw [seriesAt_onTerms hN hd (h.names.trans hp.symm) h.length]
  have h1 := hmem (nm N t)
  rw [on_nm hN hd] at h1
  by_cases h2 : mem G t
  · rw [if_pos h2, h.inside _ (h1.2 h2)]
  · rw [if_neg h2, h.outside _ fun h3 => h2 (h1.1 h3)]

theorem onTerms_degree {N : List Text} (hN : N.length = n) {P : NamedPoly} (hn : P.names.Nodup) (hp : P.names.Perm N) (hl : ∀ x ∈ P.terms, x.2.length = P.names.length) :
    substT (onTerms n N P) = P.terms.map fun x => (x.1, x.2.sum) := by
  unfold substT onTerms
  rw [List.map_map]
  refine List.map_congr_left fun x hx => ?_
  refine Prod.ext rfl ?_
  subst hN
  simp only [Function.comp_apply, onN]
  have h1 : ∑ v : Fin N.length, expOf P.names x.2 (N.getD v []) = (N.map (expOf P.names x.2)).sum := by
    rw [← List.sum_ofFn]
    congr 1
    apply List.ext_getElem
    · simp
    · intro i h1 h2
      simp
  have h2 : x.2 = P.names.map (expOf P.names x.2) := by
    apply List.ext_getElem
    · simp [hl x hx]
    · intro i h1 h2
      have h3 : i < P.names.length := by simpa using h2
      have := expOf_getD hn x.2 h3
      rw [List.getD_eq_getElem _ _ h3, List.getD_eq_getElem _ _ h1] at this
      rw [List.getElem_map, this]
  rw [h1, ← (hp.map _).sum_eq, ← h2]

/-- A polynomial in the order of the names. -/
def namedOf (N : List Text) (p : List (ℤ × Term n)) : NamedPoly := { names := N, terms := p.map fun x => (x.1, List.ofFn x.2) }

theorem onTerms_namedOf {N : List Text} (hN : N.length = n) (hd : N.Nodup) (p : List (ℤ × Term n)) : onTerms n N (namedOf N p) = p := by
  unfold onTerms namedOf
  rw [List.map_map]
  refine (List.map_congr_left fun x _ => ?_).trans (List.map_id p)
  exact Prod.ext rfl (on_nm hN hd x.2)

theorem namedOf_numerator {I : NamedIdeal} {N : List Text} {G : List (Term n)} (hN : N.length = n) (hd : N.Nodup) (hp : N.Perm I.names)
    (hmem : ∀ m, I.mem m ↔ mem G (onN n N m)) {p : List (ℤ × Term n)} (hr : Reduced p) (h : IsHilbertNumerator p G) : I.HilbertNumerator (namedOf N p) := by
  have hl : ∀ x ∈ (namedOf N p).terms, x.2.length = (namedOf N p).names.length := by
    intro x hx
    obtain ⟨y, _, rfl⟩ := List.mem_map.1 hx
    simp [namedOf, hN]
  have key : ∀ m, seriesAt (namedOf N p) m = if mem G (onN n N m) then 0 else 1 := by
    intro m
    rw [← h (onN n N m), ← congrArg (seriesCoef · (onN n N m)) (onTerms_namedOf hN hd p), seriesAt_onTerms hN hd (List.Perm.refl _) hl]
    unfold seriesAt
    congr 2
    refine List.filter_congr fun x hx => ?_
    rw [decide_eq_decide, zip_expOf (show (namedOf N p).names.Nodup from hd) (hl x hx), zip_expOf (show (namedOf N p).names.Nodup from hd) (hl x hx)]
    constructor
    · intro h1 y
      by_cases hy : y ∈ N
      · obtain ⟨v, rfl⟩ := exists_var hN hy
        rw [nm_at hN hd]
        exact h1 _
      · rw [expOf_not_mem (hl x hx) hy]; omega
    · intro h1 y
      by_cases hy : y ∈ N
      · obtain ⟨v, rfl⟩ := exists_var hN hy
        have := h1 (N.getD v [])
        rwa [nm_at hN hd] at this
      · rw [expOf_not_mem (hl x hx) hy]; omega
  refine ⟨hp, hl, ⟨?_, ?_⟩, fun m hm => ?_, fun m hm => ?_⟩
  · have := hr.1
    unfold namedOf
    rw [List.map_map]
    rw [List.Nodup, List.pairwise_map] at this ⊢
    refine this.imp ?_
    intro a b hab he
    exact hab (List.ofFn_injective he)
  · intro x hx
    obtain ⟨y, hy, rfl⟩ := List.mem_map.1 hx
    exact hr.2 y hy
  · rw [key, if_pos ((hmem m).1 hm)]
  · rw [key, if_neg fun h => hm ((hmem m).2 h)]

theorem numerator_degrees {I : NamedIdeal} {N : List Text} {G : List (Term n)} (hN : N.length = n) (hd : N.Nodup) (hp : N.Perm I.names)
    (hmem : ∀ m, I.mem m ↔ mem G (onN n N m)) {P : NamedPoly} (hP : I.HilbertNumerator P) {p : List (ℤ × Term n)} (h : IsHilbertNumerator p G) (d : ℕ) :
    coefOf (P.terms.map fun x => (x.1, x.2.sum)) d = coefOf (substT p) d := by
  rw [← onTerms_degree hN (((hP.names.trans hp.symm).nodup_iff).2 hd) (hP.names.trans hp.symm) hP.length]
  refine coefOf_substT (fun m => ?_) d
  rw [← coefSum_eq_coefOf, ← coefSum_eq_coefOf]
  exact coefSum_eq_of_series (fun m => by rw [onTerms_numerator hN hd hp hmem hP m, h m]) m

theorem card_standard {I : NamedIdeal} {G : List (Term n)} (hn : I.names.length = n) (hd : I.names.Nodup) (hmem : ∀ m, I.mem m ↔ mem G (onN n I.names m)) (d : ℕ) :
    Nat.card { t : List ℕ // t.length = I.names.length ∧ t.sum = d ∧ ¬ I.mem (expOf I.names t) } =
      ((Finset.Nat.antidiagonalTuple n d).filter fun m : Term n => ¬ mem G m).card := by
  rw [← Nat.card_eq_finsetCard]
  have h1 : ∀ t : List ℕ, t.length = I.names.length → onN n I.names (expOf I.names t) = fun v : Fin n => t.getD v 0 := by
    intro t ht
    funext v
    exact expOf_getD hd t (by rw [hn]; exact v.2)
  have h2 : ∀ t : List ℕ, t.length = I.names.length → List.ofFn (fun v : Fin n => t.getD v 0) = t := by
    intro t ht
    apply List.ext_getElem
    · simp [ht, hn]
    · intro i h3 h4
      rw [List.getElem_ofFn]
      exact List.getD_eq_getElem _ _ h4
  refine Nat.card_congr
    { toFun := fun t => ⟨fun v => t.1.getD v 0, ?_⟩
      invFun := fun m => ⟨List.ofFn m.1, ?_⟩
      left_inv := fun t => Subtype.ext (h2 t.1 t.2.1)
      right_inv := fun m => Subtype.ext (funext fun v => ?_) }
  · obtain ⟨t, ht1, ht2, ht3⟩ := t
    rw [Finset.mem_filter, Finset.Nat.mem_antidiagonalTuple]
    refine ⟨?_, ?_⟩
    · rw [← List.sum_ofFn, h2 t ht1, ht2]
    · rw [hmem, h1 t ht1] at ht3
      exact ht3
  · obtain ⟨m, hm⟩ := m
    rw [Finset.mem_filter, Finset.Nat.mem_antidiagonalTuple] at hm
    refine ⟨by simp [hn], by rw [List.sum_ofFn]; exact hm.1, ?_⟩
    rw [hmem]
    have : onN n I.names (expOf I.names (List.ofFn m)) = m := on_nm hn hd m
    rw [this]
    exact hm.2
  · simp

/-! ## canonical polynomials -/

theorem namedOf_onTerms {P : NamedPoly} (hn : P.names.Nodup) (hl : ∀ x ∈ P.terms, x.2.length = P.names.length) :
    namedOf P.names (onTerms P.names.length P.names P) = P := by
  obtain ⟨names, terms⟩ := P
  unfold namedOf onTerms
  simp only [NamedPoly.mk.injEq, true_and]
  rw [List.map_map]
  refine (List.map_congr_left fun x hx => ?_).trans (List.map_id terms)
  refine Prod.ext rfl ?_
  simp only [Function.comp_apply]
  apply List.ext_getElem
  · simp [hl x hx]
  · intro i h1 h2
    have h3 : i < names.length := by simpa using h1
    rw [List.getElem_ofFn]
    exact (expOf_getD hn x.2 h3).trans (List.getD_eq_getElem _ _ h2)

theorem NamedIdeal.HilbertNumerator.congr {I I' : NamedIdeal} (hn : I.names.Perm I'.names) (hm : ∀ m, I.mem m ↔ I'.mem m) {P : NamedPoly} (h : I.HilbertNumerator P) :
    I'.HilbertNumerator P :=
  ⟨h.names.trans hn, h.length, h.reduced, fun m hm' => h.inside m ((hm m).2 hm'), fun m hm' => h.outside m fun h' => hm' ((hm m).1 h')⟩

/-- The numerator is unique up to the order of the terms, if the variables have the same order. -/
theorem NamedIdeal.HilbertNumerator.perm {I : NamedIdeal} (hI : I.names.Nodup) {P P' : NamedPoly} (h : I.HilbertNumerator P) (h' : I.HilbertNumerator P')
    (hn : P.names = P'.names) : P.terms.Perm P'.terms := by
  have hd : P.names.Nodup := h.names.nodup_iff.2 hI
  have e1 := namedOf_onTerms hd h.length
  have e2 := namedOf_onTerms (hn ▸ hd) h'.length
  rw [← hn] at e2
  have hred : ∀ {Q : NamedPoly}, Reduced Q.terms → namedOf P.names (onTerms P.names.length P.names Q) = Q → Reduced (onTerms P.names.length P.names Q) := by
    intro Q hQ e
    refine ⟨?_, ?_⟩
    · have h1 := hQ.1
      rw [← e] at h1
      unfold namedOf at h1
      rw [List.map_map] at h1
      refine List.Nodup.of_map (fun t : Term P.names.length => List.ofFn t) ?_
      rw [List.map_map]
      exact h1
    · intro x hx
      obtain ⟨y, hy, rfl⟩ := List.mem_map.1 hx
      exact hQ.2 y hy
  have hp : (onTerms P.names.length P.names P).Perm (onTerms P.names.length P.names P') := by
    refine (hred h.reduced e1).perm (hred h'.reduced e2) fun m => ?_
    rw [← coefSum_eq_coefOf, ← coefSum_eq_coefOf]
    refine coefSum_eq_of_series (fun m => ?_) m
    rw [seriesAt_onTerms rfl hd (List.Perm.refl _) h.length, seriesAt_onTerms rfl hd (by rw [hn]) h'.length]
    by_cases hm : I.mem (nm P.names m)
    · rw [h.inside _ hm, h'.inside _ hm]
    · rw [h.outside _ hm, h'.outside _ hm]
  have := hp.map fun x : ℤ × Term P.names.length => (x.1, List.ofFn x.2)
  rw [← e1, ← e2]
  exact this

theorem NamedIdeal.CanonicalPoly.eq_of_perm {P P' : NamedPoly} (h : CanonicalPoly P) (h' : CanonicalPoly P') (hn : P.names = P'.names) (hp : P.terms.Perm P'.terms) : P = P' := by
  obtain ⟨names, terms⟩ := P
  obtain ⟨names', terms'⟩ := P'
  simp only at hn
  subst hn
  have : terms = terms' := hp.eq_of_pairwise (fun a b _ _ h1 h2 => absurd h2 (List.lt_asymm h1)) h.terms h'.terms
  rw [this]

theorem namedOf_canonical {N : List Text} (hN : N.Pairwise (· < ·)) {p : List (ℤ × Term n)} (hp : p.Pairwise fun a b => LexGreater a.2 b.2) : CanonicalPoly (namedOf N p) := by
  refine ⟨hN, ?_⟩
  unfold namedOf
  simp only
  rw [List.pairwise_map]
  refine hp.imp ?_
  rintro a b ⟨i, h1, h2⟩
  exact ofFn_lt i (fun j hj => (h1 j hj).symm) h2

/-! ## gaps -/

theorem Tight.noGaps_of {G M : List (Term n)} (hs : IdSpec (tExp G) (tNum G) G M) (h : Tight G) : NoGaps M := by
  intro g hg v e he hle
  have hlt : e < tNum G v := lt_of_le_of_lt hle (hs.lt g hg v)
  have hepos : 0 < tExp G v e := by
    have := hs.sys.mono v 0 e he hlt
    omega
  obtain ⟨g', hg', hge⟩ := ofGens_used G v e he hlt
  obtain ⟨k, hk, hmin, hkv⟩ := h g' hg' v (by omega)
  obtain ⟨m, hm, hmle⟩ := hs.complete k hk
  have hmk := hmin _ (hs.sound m hm) (Term.le_def.2 hmle)
  refine ⟨m, hm, ?_⟩
  have h1 : tExp G v (m v) = tExp G v e := by
    rw [← hge, ← hkv]
    exact congrFun hmk v
  rcases Nat.lt_trichotomy (m v) e with h2 | h2 | h2
  · have := hs.sys.mono v _ _ h2 hlt; omega
  · exact h2
  · have := hs.sys.mono v _ _ h2 (hs.lt m hm v); omega

theorem tight_of_names {I : NamedIdeal} {N : List Text} {T : Translator n} {M G : List (Term n)} (h : PreparedSpec I N T M G) (ht : I.TightGens) : Tight G := by
  intro g hg v hv
  have hmem : ∀ {f}, f ∈ I.monomials ↔ ∃ g ∈ G, nm N g = f := by
    intro f
    rw [← h.gens, List.mem_map]
    rfl
  obtain ⟨f, hf, hmin, hfv⟩ := ht (nm N g) (hmem.2 ⟨g, hg, rfl⟩) (N.getD v []) (by rw [nm_at h.length h.nodup]; exact hv)
  obtain ⟨k, hk, rfl⟩ := hmem.1 hf
  rw [nm_at h.length h.nodup, nm_at h.length h.nodup] at hfv
  refine ⟨k, hk, fun l hl hle => ?_, hfv⟩
  refine nm_injective h.length h.nodup (hmin _ (hmem.2 ⟨l, hl, rfl⟩) ?_)
  rw [nm_le h.length h.nodup, on_nm h.length h.nodup]
  exact hle

end Frobby
