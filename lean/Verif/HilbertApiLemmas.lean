import Verif.HilbertApiModel
import Verif.PolyLemmas
import Verif.FacadeLemmas
import Verif.HilbertTop
import Mathlib.Data.Fin.Tuple.NatAntidiagonal
import Mathlib.Data.Sym.Card
import Mathlib.Data.Finsupp.Multiset

/-!
# Lemmas about the functions for Hilbert-Poincaré series
-/

namespace Frobby

variable {n : ℕ}

theorem coefSum_eq_coefOf (p : List (ℤ × Term n)) (m : Term n) : coefSum p m = coefOf p m := by
  induction p with
  | nil => rfl
  | cons a l ih => rw [coefSum_cons, coefOf_cons, ih]

theorem seriesCoef_map {e : Fin n → ℕ → ℕ} {N : Fin n → ℕ} (h : IdSys e N) {p : List (ℤ × Term n)}
    (hp : ∀ x ∈ p, ∀ v, x.2 v < N v) (m : Term n) :
    seriesCoef (p.map fun x => (x.1, fun v => e v (x.2 v))) m = seriesCoef p (floorId e N m) := by
  induction p with
  | nil => rfl
  | cons a l ih =>
    rw [List.map_cons, seriesCoef_cons, seriesCoef_cons, ih fun x hx => hp x (by simp [hx])]
    congr 1
    refine if_congr ?_ rfl rfl
    simp only [Term.le_def]
    exact forall_congr' fun v => (h.le_floor_iff (hp a (by simp) v)).symm

theorem facadeMultigraded_spec {o : Opts} (ho : o.valid .hilbert) (rnd : List ℕ → ℕ → ℕ) (G : List (Term n)) :
    ∃ p : List (ℤ × Term n), facadeMultigradedHilbert o rnd G = some (p.map fun x => (x.1, toInt x.2)) ∧
      IsHilbertNumerator p G ∧ Reduced p ∧
      ∃ outs : List (ℤ × Term n), hilbertRun o rnd (setIdeal G).2 = some outs ∧
        (∀ x ∈ outs, ∀ v, x.2 v < tNum G v) ∧ p = outs.map fun x => (x.1, fun v => tExp G v (x.2 v)) := by
  have hs := setIdeal_spec G
  obtain ⟨outs, h1, h2, h3, h4⟩ := hilbertRun_numerator ho rnd hs.anti
  have hlt : ∀ x ∈ outs, ∀ v, x.2 v < tNum G v := fun x hx v =>
    lt_of_le_of_lt (Term.le_def.1 (h4 x hx) v) (hs.lcm_le v)
  refine ⟨outs.map fun x => (x.1, fun v => tExp G v (x.2 v)), ?_, fun m => ?_, ⟨?_, ?_⟩, outs, h1, hlt, rfl⟩
  · unfold facadeMultigradedHilbert
    simp only [h1]
    rw [mapM_some _ (fun x : ℤ × Term n => (x.1, fun v => (tExp G v (x.2 v) : ℤ))), List.map_map]
    · rfl
    · intro x hx
      have := translate_ofGens G (t := x.2) fun v => (hlt x hx v).le
      show Option.map _ ((Translator.ofGens G).translate x.2) = _
      rw [this]; rfl
  · rw [seriesCoef_map hs.sys hlt, h2, if_congr (hs.mem_floor m).symm rfl rfl]
  · rw [List.map_map, List.Nodup, List.pairwise_map]
    have h5 := h3.1
    rw [List.Nodup, List.pairwise_map] at h5
    refine List.Pairwise.imp_of_mem ?_ h5
    intro a b ha hb hab he
    apply hab
    funext v
    have h6 := congrFun he v
    simp only [Function.comp_apply] at h6
    rcases Nat.lt_trichotomy (a.2 v) (b.2 v) with h7 | h7 | h7
    · have := hs.sys.mono v _ _ h7 (hlt b hb v); omega
    · exact h7
    · have := hs.sys.mono v _ _ h7 (hlt a ha v); omega
  · intro x hx
    obtain ⟨y, hy, rfl⟩ := List.mem_map.1 hx
    exact h3.2 y hy

/-! ## univariate -/

theorem foldlM_totalDegree {T : Translator n} (f : Term n → Fin n → ℕ) :
    ∀ (outs : List (ℤ × Term n)) (m : List (ℤ × ℤ)), (∀ x ∈ outs, T.translate x.2 = some fun v => (f x.2 v : ℤ)) →
      outs.foldlM (totalDegreeConsume T) m =
        some ((outs.map fun x => (x.1, ((∑ v, f x.2 v : ℕ) : ℤ))).foldl (fun m x => hashAdd x.1 x.2 m) m) := by
  intro outs
  induction outs with
  | nil => intro m _; rfl
  | cons a l ih =>
    intro m h
    rw [List.foldlM_cons]
    have h1 : totalDegreeConsume T m a = some (hashAdd a.1 ((∑ v, f a.2 v : ℕ) : ℤ) m) := by
      unfold totalDegreeConsume
      split
      · rename_i h0; simp [hashAdd, h0]
      · rw [h a (by simp)]
        simp only [Option.map_some]
        congr 2
        rw [← List.ofFn_eq_map, List.sum_ofFn]; push_cast; rfl
    rw [h1]
    exact ih _ fun x hx => h x (by simp [hx])

theorem facadeUnivariate_spec {o : Opts} (ho : o.valid .hilbert) (rnd : List ℕ → ℕ → ℕ)
    {order : List (ℤ × ℤ) → List (ℤ × ℤ)} (hord : ∀ l, (order l).Perm l) (G : List (Term n)) :
    ∃ (p : List (ℤ × Term n)) (q : List (ℤ × ℕ)),
      facadeUnivariateHilbert o rnd order G = some (q.map fun x => (x.1, (x.2 : ℤ))) ∧
      IsHilbertNumerator p G ∧ Reduced q ∧ (q.Pairwise fun a b => a.2 > b.2) ∧
      ∀ d, coefOf q d = coefOf (substT p) d := by
  obtain ⟨p, _, h2, h3, outs, h4, h5, h6⟩ := facadeMultigraded_spec ho rnd G
  have hf := foldlM_totalDegree (T := (setIdeal G).1) (fun t v => tExp G v (t v)) outs [] fun x hx =>
    translate_ofGens G (t := x.2) fun v => (h5 x hx v).le
  have hl : (outs.map fun x => (x.1, ((∑ v, tExp G v (x.2 v) : ℕ) : ℤ))) =
      (substT p).map fun x => (x.1, (x.2 : ℤ)) := by
    rw [substT, h6, List.map_map, List.map_map]; rfl
  rw [hl] at hf
  obtain ⟨h7, h8⟩ := hashAddAll_spec ((substT p).map fun x => (x.1, (x.2 : ℤ)))
  set m := ((substT p).map fun x => (x.1, (x.2 : ℤ))).foldl (fun m x => hashAdd x.1 x.2 m) [] with hm
  have hperm := hashFeed_perm (κ := ℤ) (· ≥ ·) hord true m
  have hsort := hashFeed_sorted (κ := ℤ) (· ≥ ·) order m
  set r := hashFeed (κ := ℤ) (· ≥ ·) order true m with hr
  have hred := reduced_of_perm hperm.symm h7
  have hco : ∀ j, coefOf r j = coefOf ((substT p).map fun x => (x.1, (x.2 : ℤ))) j := fun j => by
    rw [coefOf_perm hperm, h8]
  have hnn : ∀ x ∈ r, 0 ≤ x.2 := by
    intro x hx
    have h9 := (hred.mem_iff x).1 hx
    rw [hco] at h9
    by_contra hc
    rw [coefOf_notMem] at h9
    · exact h9.1 h9.2.symm
    · intro hk
      rw [List.map_map, List.mem_map] at hk
      obtain ⟨y, _, hy⟩ := hk
      simp only [Function.comp_apply] at hy
      omega
  have hrq : r = (r.map fun x => (x.1, x.2.toNat)).map fun x => (x.1, (x.2 : ℤ)) := by
    rw [List.map_map]
    refine (List.map_id r).symm.trans (List.map_congr_left fun x hx => ?_)
    have := hnn x hx
    refine Prod.ext rfl ?_
    simp; omega
  have hsort2 : r.Pairwise fun a b => a.2 > b.2 := by
    have h10 := hred.1
    rw [List.Nodup, List.pairwise_map] at h10
    exact (hsort.and h10).imp fun h => lt_of_le_of_ne h.1 (Ne.symm h.2)
  have hsort3 : (r.map fun x => (x.1, x.2.toNat)).Pairwise fun a b => a.2 > b.2 := by
    rw [List.pairwise_map]
    refine List.Pairwise.imp_of_mem ?_ hsort2
    intro a b ha hb h
    have := hnn a ha
    have := hnn b hb
    simp only; omega
  refine ⟨p, r.map fun x => (x.1, x.2.toNat), ?_, h2, ⟨?_, ?_⟩, hsort3, fun d => ?_⟩
  · unfold facadeUnivariateHilbert
    simp only [h4, hf, Option.map_some]
    rw [← hrq]
  · rw [List.Nodup, List.pairwise_map]
    exact hsort3.imp fun h => by omega
  · intro x hx
    obtain ⟨y, hy, rfl⟩ := List.mem_map.1 hx
    exact hred.2 y hy
  · have cast : ∀ l : List (ℤ × ℕ), coefOf (l.map fun x => (x.1, (x.2 : ℤ))) (d : ℤ) = coefOf l d := by
      intro l
      induction l with
      | nil => rfl
      | cons a l ih => rw [List.map_cons, coefOf_cons, coefOf_cons, ih]; simp
    rw [← cast, ← cast, ← hrq, hco]

/-! ## the Hilbert function -/

theorem card_degree (d : ℕ) : (Finset.Nat.antidiagonalTuple n d).card = n.multichoose d := by
  have h2 : {P : Fin n → ℕ // ∑ i, P i = d} ≃ {P // P ∈ Finset.Nat.antidiagonalTuple n d} :=
    Equiv.subtypeEquivRight fun f => Finset.Nat.mem_antidiagonalTuple.symm
  have h1 := Fintype.card_congr ((Sym.equivNatSumOfFintype (Fin n) d).trans h2)
  rw [Sym.card_sym_eq_multichoose, Fintype.card_fin, Fintype.card_coe] at h1
  exact h1.symm

theorem card_multiples (t : Term n) (d : ℕ) :
    ((Finset.Nat.antidiagonalTuple n d).filter fun m : Term n => t ≤ m).card =
      if Term.deg t ≤ d then n.multichoose (d - Term.deg t) else 0 := by
  split
  · rename_i h
    rw [← card_degree]
    refine Finset.card_bij' (fun m _ => m - t) (fun m _ => m + t) ?_ ?_ ?_ ?_
    · intro m hm
      rw [Finset.mem_filter, Finset.Nat.mem_antidiagonalTuple] at hm
      rw [Finset.Nat.mem_antidiagonalTuple, ← hm.1]
      have : m = (m - t) + t := by
        funext i; have := Term.le_def.1 hm.2 i; simp only [Pi.add_apply, Pi.sub_apply]; omega
      have h2 : ∑ i, m i = ∑ i, (m - t) i + Term.deg t := by
        rw [Term.deg, ← Finset.sum_add_distrib]
        exact Finset.sum_congr rfl fun i _ => congrFun this i
      omega
    · intro m hm
      rw [Finset.Nat.mem_antidiagonalTuple] at hm
      rw [Finset.mem_filter, Finset.Nat.mem_antidiagonalTuple]
      refine ⟨?_, Term.le_def.2 fun i => by simp⟩
      have : ∑ i, (m + t) i = ∑ i, m i + Term.deg t := by
        rw [Term.deg, ← Finset.sum_add_distrib]; rfl
      omega
    · intro m hm
      rw [Finset.mem_filter] at hm
      funext i
      have := Term.le_def.1 hm.2 i
      simp only [Pi.add_apply, Pi.sub_apply]; omega
    · intro m _
      funext i; simp
  · rename_i h
    rw [Finset.card_eq_zero, Finset.filter_eq_empty_iff]
    intro m hm hle
    rw [Finset.Nat.mem_antidiagonalTuple] at hm
    apply h
    rw [← hm]
    exact Finset.sum_le_sum fun i _ => Term.le_def.1 hle i

theorem sum_seriesCoef (p : List (ℤ × Term n)) (d : ℕ) :
    ∑ m ∈ Finset.Nat.antidiagonalTuple n d, seriesCoef p m = uniSeriesCoef n (substT p) d := by
  induction p with
  | nil => simp [uniSeriesCoef, substT, seriesCoef]
  | cons a l ih =>
    have : uniSeriesCoef n (substT (a :: l)) d =
        (if Term.deg a.2 ≤ d then a.1 * (n.multichoose (d - Term.deg a.2) : ℤ) else 0) + uniSeriesCoef n (substT l) d := rfl
    rw [this, ← ih]
    simp only [seriesCoef_cons, Finset.sum_add_distrib]
    congr 1
    rw [← Finset.sum_filter, Finset.sum_const, card_multiples]
    split
    · simp [mul_comm]
    · simp

theorem uniSeriesCoef_eq (p : List (ℤ × ℕ)) (d : ℕ) :
    uniSeriesCoef n p d = ∑ e ∈ Finset.range (d + 1), coefOf p e * (n.multichoose (d - e) : ℤ) := by
  induction p with
  | nil => simp [uniSeriesCoef, coefOf_nil]
  | cons a l ih =>
    have : uniSeriesCoef n (a :: l) d =
        (if a.2 ≤ d then a.1 * (n.multichoose (d - a.2) : ℤ) else 0) + uniSeriesCoef n l d := rfl
    rw [this, ih]
    simp only [coefOf_cons, add_mul, Finset.sum_add_distrib]
    congr 1
    simp only [ite_mul, zero_mul]
    rw [Finset.sum_ite_eq]
    simp

theorem coefOf_substT {p p' : List (ℤ × Term n)} (h : ∀ m, coefOf p m = coefOf p' m) (d : ℕ) :
    coefOf (substT p) d = coefOf (substT p') d := by
  have key : ∀ p : List (ℤ × Term n),
      coefOf (substT p) d = ∑ m ∈ Finset.Nat.antidiagonalTuple n d, coefOf p m := by
    intro p
    induction p with
    | nil => simp [substT, coefOf_nil]
    | cons a l ih =>
      have h1 : substT (a :: l) = (a.1, ∑ v, a.2 v) :: substT l := rfl
      rw [h1, coefOf_cons, ih]
      simp only [coefOf_cons, Finset.sum_add_distrib]
      rw [Finset.sum_ite_eq]
      congr 1
      exact if_congr Finset.Nat.mem_antidiagonalTuple.symm rfl rfl
  rw [key, key]
  exact Finset.sum_congr rfl fun m _ => h m

theorem hilbert_function {p : List (ℤ × Term n)} {G : List (Term n)} (h : IsHilbertNumerator p G) (d : ℕ) :
    uniSeriesCoef n (substT p) d = ((Finset.Nat.antidiagonalTuple n d).filter fun m : Term n => ¬ mem G m).card := by
  rw [← sum_seriesCoef, Finset.card_filter]
  push_cast
  refine Finset.sum_congr rfl fun m _ => ?_
  rw [h m]
  by_cases hm : mem G m <;> simp [hm]

end Frobby
