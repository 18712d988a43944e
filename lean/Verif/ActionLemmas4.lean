import Verif.ActionLemmas3
import Verif.ActionSpec

/-!
# Lemmas about the actions: terms and monomials
-/

namespace Frobby

variable {n : ℕ}

/-! ## the order -/

theorem vecLoop_iff (a b : Term n) : ∀ vs, translatedLessLoop (fun _ i => (i : ℤ)) a b vs = true ↔ vs.map b < vs.map a := by
  intro vs
  induction vs with
  | nil => simp [translatedLessLoop]
  | cons v vs ih =>
    rw [translatedLessLoop, List.map_cons, List.map_cons, List.cons_lt_cons_iff]
    split
    · rename_i h
      have h' : a v ≠ b v := fun e => h (by rw [e])
      simp only [decide_eq_true_eq, gt_iff_lt, Nat.cast_lt]
      constructor
      · exact Or.inl
      · rintro (h1 | ⟨h1, _⟩)
        · exact h1
        · exact absurd h1.symm h'
    · rename_i h
      have h' : a v = b v := by simpa using h
      rw [ih]
      simp [h']

theorem vecLess_iff (a b : Term n) : vecLess a b = true ↔ List.ofFn b < List.ofFn a := by
  unfold vecLess translatedLess
  rw [vecLoop_iff, List.ofFn_eq_map, List.ofFn_eq_map]

theorem vecSort_eq (I : List (Term n)) : vecSort I = sortReverseLex I := by
  unfold vecSort sortReverseLex
  have : (fun a b : Term n => vecLess b a = false) = fun a b => lexLE b a := by
    funext a b
    rw [eq_iff_iff, ← Bool.not_eq_true, vecLess_iff, not_lt]
    rfl
  simp only [this]

theorem vecSort_perm (I : List (Term n)) : (vecSort I).Perm I := List.perm_insertionSort _ _

theorem vecSort_sorted (I : List (Term n)) : ((vecSort I).map fun t => List.ofFn t).Pairwise fun a b => b ≤ a := by
  rw [vecSort_eq, List.pairwise_map]
  exact List.pairwise_insertionSort (r := fun a b : Term n => lexLE b a) I

/-! ## names -/

/-- The monomial of a term. -/
def nm (N : List Text) (t : Term n) : Text → ℕ := expOf N (List.ofFn t)

/-- The term of a monomial. -/
def onN (n : ℕ) (N : List Text) (m : Text → ℕ) : Term n := fun v => m (N.getD v [])

section
variable {N : List Text} (hN : N.length = n) (hd : N.Nodup)
include hN

theorem nm_zero (t : Term n) {x : Text} (hx : x ∉ N) : nm N t x = 0 := expOf_not_mem (by simp [hN]) hx

include hd

theorem nm_at (t : Term n) (v : Fin n) : nm N t (N.getD v []) = t v := by
  unfold nm
  rw [expOf_getD hd _ (by rw [hN]; exact v.2), List.getD_eq_getElem _ _ (by simp)]
  simp

theorem on_nm (t : Term n) : onN n N (nm N t) = t := funext fun v => nm_at hN hd t v

theorem nm_injective : Function.Injective (nm N : Term n → Text → ℕ) := fun a b h => by
  rw [← on_nm hN hd a, h, on_nm hN hd b]

omit hd in
theorem exists_var {x : Text} (hx : x ∈ N) : ∃ v : Fin n, N.getD v [] = x := by
  obtain ⟨i, hi, h⟩ := exists_getD_of_mem hx
  exact ⟨⟨i, by omega⟩, h⟩

omit hd in
theorem var_mem (v : Fin n) : N.getD v [] ∈ N := getD_mem (by rw [hN]; exact v.2)

theorem var_inj {v w : Fin n} : N.getD v [] = N.getD w [] ↔ v = w := by
  constructor
  · intro h
    have h1 : (v : ℕ) < N.length := by rw [hN]; exact v.2
    have h2 : (w : ℕ) < N.length := by rw [hN]; exact w.2
    rw [List.getD_eq_getElem _ _ h1, List.getD_eq_getElem _ _ h2, hd.getElem_inj_iff] at h
    exact Fin.ext h
  · rintro rfl; rfl

theorem nm_on {m : Text → ℕ} (h : ∀ x, x ∉ N → m x = 0) : nm N (onN n N m) = m := by
  funext x
  by_cases hx : x ∈ N
  · obtain ⟨v, rfl⟩ := exists_var hN hx
    rw [nm_at hN hd]
    rfl
  · rw [nm_zero hN _ hx, h x hx]

theorem nm_le {t : Term n} {m : Text → ℕ} : (∀ x, nm N t x ≤ m x) ↔ t ≤ onN n N m := by
  constructor
  · intro h v
    have := h (N.getD v [])
    rwa [nm_at hN hd] at this
  · intro h x
    by_cases hx : x ∈ N
    · obtain ⟨v, rfl⟩ := exists_var hN hx
      rw [nm_at hN hd]
      exact h v
    · rw [nm_zero hN _ hx]; exact Nat.zero_le _

theorem toNamed_ok (I : List (Term n)) : (toNamed N I).Ok := by
  refine ⟨hd, fun t ht => ?_⟩
  obtain ⟨g, _, rfl⟩ := List.mem_map.1 ht
  simp [toNamed, hN]

omit hN hd in
theorem toNamed_monomials (I : List (Term n)) : (toNamed N I).monomials = I.map (nm N) := by
  unfold NamedIdeal.monomials toNamed
  rw [List.map_map]
  rfl

theorem toNamed_mem (I : List (Term n)) (m : Text → ℕ) : (toNamed N I).mem m ↔ mem I (onN n N m) := by
  rw [NamedIdeal.mem_monomials (toNamed_ok hN hd I), toNamed_monomials]
  simp only [List.mem_map, exists_exists_and_eq_and, nm_le hN hd]
  rfl

omit hN hd in
theorem toNamed_minimal {I : List (Term n)} (h : Anti I) : (toNamed N I).Minimal := by
  unfold NamedIdeal.Minimal toNamed
  rw [List.pairwise_map]
  refine List.Pairwise.imp ?_ h
  intro a b hab
  rw [NamedIdeal.ofFn_forall₂, NamedIdeal.ofFn_forall₂]
  exact hab

theorem on_power {v : Fin n} (e : ℕ) : onN n N (powerOf (N.getD v []) e) = Term.single v e := by
  funext w
  unfold onN powerOf
  by_cases h : w = v
  · subst h; simp [Term.single_same]
  · rw [if_neg fun h' => h ((var_inj hN hd).1 h'), Term.single_ne _ h]

theorem nm_single (v : Fin n) (e : ℕ) : nm N (Term.single v e) = powerOf (N.getD v []) e := by
  rw [← on_power hN hd e, nm_on hN hd]
  intro x hx
  unfold powerOf
  rw [if_neg]
  rintro rfl
  exact hx (var_mem hN v)

end

theorem PreparedSpec.mem_iff {I : NamedIdeal} {N : List Text} {T : Translator n} {M G : List (Term n)} (h : PreparedSpec I N T M G) (hI : I.Ok) (m : Text → ℕ) :
    I.mem m ↔ mem G (onN n N m) := by
  rw [NamedIdeal.mem_monomials hI, ← h.gens]
  simp only [List.mem_map, exists_exists_and_eq_and]
  exact exists_congr fun g => and_congr_right fun _ => nm_le h.length h.nodup

/-! ## what is printed for a single ideal -/

theorem msm_names {I : NamedIdeal} {N : List Text} {T : Translator n} {M G : List (Term n)} (h : PreparedSpec I N T M G) (hI : I.Ok) (t : Term n) :
    I.MaxStandard (nm N t) ↔ Msm G t := by
  have hx : ∀ v : Fin n, onN n N (fun y => nm N t y + powerOf (N.getD v []) 1 y) = t + Term.single v 1 := by
    intro v
    have h1 := on_nm h.length h.nodup t
    have h2 := on_power h.length h.nodup (v := v) 1
    funext w
    exact congrArg₂ (· + ·) (congrFun h1 w) (congrFun h2 w)
  constructor
  · intro hs
    refine ⟨fun hm => hs.standard ((h.mem_iff hI _).2 (by rwa [on_nm h.length h.nodup])), fun v => ?_⟩
    have := (h.mem_iff hI _).1 (hs.maximal _ (h.perm.mem_iff.1 (var_mem h.length v)))
    rwa [hx] at this
  · intro hs
    refine ⟨fun x hx => nm_zero h.length t fun hx' => hx (h.perm.mem_iff.1 hx'), fun hm => hs.1 ?_, fun x hx' => ?_⟩
    · have := (h.mem_iff hI _).1 hm
      rwa [on_nm h.length h.nodup] at this
    · obtain ⟨v, rfl⟩ := exists_var h.length (h.perm.mem_iff.2 hx')
      rw [h.mem_iff hI, hx]
      exact hs.2 v

theorem memIrr_names {N : List Text} (hN : N.length = n) (hd : N.Nodup) (d : Term n) (m : Text → ℕ) :
    NamedIdeal.InPowers (nm N d) m ↔ memIrr d (onN n N m) := by
  constructor
  · rintro ⟨x, h1, h2⟩
    have hx : x ∈ N := by
      by_contra hx
      rw [nm_zero hN d hx] at h1
      omega
    obtain ⟨v, rfl⟩ := exists_var hN hx
    rw [nm_at hN hd] at h1 h2
    exact ⟨v, h1, h2⟩
  · rintro ⟨v, h1, h2⟩
    exact ⟨N.getD v [], by rwa [nm_at hN hd], by rwa [nm_at hN hd]⟩

theorem exists_on {N : List Text} (hN : N.length = n) (hd : N.Nodup) (t : Term n) : ∃ m : Text → ℕ, onN n N m = t := ⟨nm N t, on_nm hN hd t⟩

theorem decom_names {I : NamedIdeal} {N : List Text} {T : Translator n} {M G D : List (Term n)} (h : PreparedSpec I N T M G) (hI : I.Ok) (hD : IsIrrDecomp D G) :
    I.EncodedDecom (D.map (nm N)) := by
  have hi := nm_injective (n := n) h.length h.nodup
  refine ⟨?_, fun m => ?_, ?_, hD.nodup.map hi⟩
  · intro d hd x hx
    obtain ⟨t, _, rfl⟩ := List.mem_map.1 hd
    exact nm_zero h.length t fun hx' => hx (h.perm.mem_iff.1 hx')
  · rw [h.mem_iff hI, hD.inter]
    simp only [List.forall_mem_map, memIrr_names h.length h.nodup]
  · intro d hd
    obtain ⟨t, ht, rfl⟩ := List.mem_map.1 hd
    obtain ⟨m, h1, h2⟩ := hD.irredundant t ht
    obtain ⟨m, rfl⟩ := exists_on h.length h.nodup m
    refine ⟨m, by rwa [memIrr_names h.length h.nodup], ?_⟩
    intro d' hd' hne
    obtain ⟨t', ht', rfl⟩ := List.mem_map.1 hd'
    rw [memIrr_names h.length h.nodup]
    exact h2 t' ht' fun e => hne (by rw [e])

/-! ## irreducible components -/

theorem irrGens_monomials {N : List Text} (hN : N.length = n) (hd : N.Nodup) (d : Term n) : (toNamed N (irrGens d)).PowersOf (nm N d) := by
  unfold NamedIdeal.PowersOf
  rw [toNamed_monomials]
  show _ = (N.filter _).map _
  have h1 : N = (List.finRange n).map fun v : Fin n => N.getD v [] := by
    subst hN
    refine List.ext_getElem (by simp) fun i h1 h2 => ?_
    simp
  have key : ∀ (p : Text → Bool) (q : Text → Text → ℕ), (N.filter p).map q =
      ((List.finRange n).filter (p ∘ fun v : Fin n => N.getD v [])).map (q ∘ fun v : Fin n => N.getD v []) := by
    intro p q
    conv_lhs => rw [h1, List.filter_map, List.map_map]
  rw [key]
  unfold irrGens
  rw [List.map_map]
  have h2 : (fun x => decide (nm N d x ≠ 0)) ∘ (fun v : Fin n => N.getD v []) = fun v => decide (d v ≠ 0) := by
    funext v
    simp only [Function.comp, nm_at hN hd]
  rw [h2]
  refine List.map_congr_left fun v _ => ?_
  simp only [Function.comp, nm_at hN hd, nm_single hN hd]

theorem irrGens_mem {N : List Text} (hN : N.length = n) (hd : N.Nodup) (d : Term n) (m : Text → ℕ) :
    (toNamed N (irrGens d)).mem m ↔ NamedIdeal.InPowers (nm N d) m := by
  rw [toNamed_mem hN hd, memIrr_names hN hd]
  unfold mem irrGens memIrr
  constructor
  · rintro ⟨g, hg, hle⟩
    obtain ⟨v, hv, rfl⟩ := List.mem_map.1 hg
    have h0 : d v ≠ 0 := by simpa using (List.mem_filter.1 hv).2
    have := hle v
    rw [Term.single_same] at this
    exact ⟨v, by omega, this⟩
  · rintro ⟨v, h0, hle⟩
    refine ⟨Term.single v (d v), List.mem_map.2 ⟨v, List.mem_filter.2 ⟨List.mem_finRange v, by simpa using by omega⟩, rfl⟩, fun w => ?_⟩
    by_cases hw : w = v
    · subst hw; rwa [Term.single_same]
    · rw [Term.single_ne _ hw]; exact Nat.zero_le _

/-! ## associated primes -/

theorem assoc_names {I : NamedIdeal} {N : List Text} {T : Translator n} {M G : List (Term n)} (h : PreparedSpec I N T M G) (hI : I.Ok) (t : Term n) :
    I.AssocPrime (nm N t) ↔ indicator (suppSet t) = t ∧ IsAssocPrime G (suppSet t) := by
  have h01 : ∀ v, (indicator (suppSet t) v = t v ↔ t v ≤ 1) := by
    intro v
    simp only [indicator, mem_suppSet]
    split <;> omega
  have hadd : ∀ m y : Text → ℕ, onN n N (fun x => m x + y x) = onN n N m + onN n N y := fun _ _ => rfl
  have hex : (∀ v, t v ≤ 1) → ∀ y : Text → ℕ, (∃ x, nm N t x = 1 ∧ 0 < y x) ↔ ∃ v ∈ suppSet t, 0 < onN n N y v := by
    intro h1 y
    constructor
    · rintro ⟨x, h2, h3⟩
      have hx : x ∈ N := by
        by_contra hx
        rw [nm_zero h.length t hx] at h2
        omega
      obtain ⟨v, rfl⟩ := exists_var h.length hx
      rw [nm_at h.length h.nodup] at h2
      exact ⟨v, by rw [mem_suppSet]; omega, h3⟩
    · rintro ⟨v, h2, h3⟩
      rw [mem_suppSet] at h2
      refine ⟨N.getD v [], ?_, h3⟩
      rw [nm_at h.length h.nodup]
      have := h1 v
      omega
  constructor
  · intro hs
    have h1 : ∀ v, t v ≤ 1 := fun v => by
      have := hs.squareFree (N.getD v [])
      rwa [nm_at h.length h.nodup] at this
    refine ⟨funext fun v => (h01 v).2 (h1 v), ?_⟩
    obtain ⟨m, hm⟩ := hs.witness
    refine ⟨onN n N m, fun x => ?_⟩
    obtain ⟨y, rfl⟩ := exists_on h.length h.nodup x
    rw [← hadd, ← h.mem_iff hI, hm, hex h1]
  · rintro ⟨h2, m, hm⟩
    have h1 : ∀ v, t v ≤ 1 := fun v => (h01 v).1 (congrFun h2 v)
    obtain ⟨m, rfl⟩ := exists_on h.length h.nodup m
    refine ⟨fun x hx => nm_zero h.length t fun hx' => hx (h.perm.mem_iff.1 hx'), fun x => ?_, m, fun y => ?_⟩
    · by_cases hx : x ∈ N
      · obtain ⟨v, rfl⟩ := exists_var h.length hx
        rw [nm_at h.length h.nodup]
        exact h1 v
      · rw [nm_zero h.length t hx]; omega
    · rw [h.mem_iff hI, hadd, hm, hex h1]

end Frobby
