import Mathlib.RingTheory.Int.Basic
import Mathlib.Data.List.GetD
import Verif.MatrixLemmas2

/-!
# Null space and linear systems
-/

namespace Frobby

open Matrix

variable {r c : ℕ}

/-! ## integral and primitive vectors -/

theorem foldl_gcd_spec : ∀ (l : List ℚ) (g : ℤ), (l.foldl (fun g p => (Int.gcd g p.num : ℤ)) g ∣ g) ∧
    (∀ p ∈ l, l.foldl (fun g p => (Int.gcd g p.num : ℤ)) g ∣ p.num) ∧
    ∀ x : ℤ, x ∣ g → (∀ p ∈ l, x ∣ p.num) → x ∣ l.foldl (fun g p => (Int.gcd g p.num : ℤ)) g := by
  intro l
  induction l with
  | nil => intro g; exact ⟨dvd_refl _, by simp, fun x h _ => h⟩
  | cons q l ih =>
    intro g
    obtain ⟨h1, h2, h3⟩ := ih (Int.gcd g q.num : ℤ)
    rw [List.foldl_cons]
    refine ⟨h1.trans (Int.gcd_dvd_left _ _), fun p hp => ?_, fun x hx hl => h3 x (Int.dvd_coe_gcd hx (hl q (by simp))) fun p hp => hl p (by simp [hp])⟩
    rcases List.mem_cons.1 hp with rfl | hp
    · exact h1.trans (Int.gcd_dvd_right _ _)
    · exact h2 p hp

theorem foldl_lcm_spec : ∀ (l : List ℚ) (g : ℕ), (g ∣ l.foldl (fun g p => Nat.lcm g p.den) g) ∧
    (∀ p ∈ l, p.den ∣ l.foldl (fun g p => Nat.lcm g p.den) g) ∧
    (∀ x : ℕ, g ∣ x → (∀ p ∈ l, p.den ∣ x) → l.foldl (fun g p => Nat.lcm g p.den) g ∣ x) ∧ (g ≠ 0 → l.foldl (fun g p => Nat.lcm g p.den) g ≠ 0) := by
  intro l
  induction l with
  | nil => intro g; exact ⟨dvd_refl _, by simp, fun x h _ => h, id⟩
  | cons q l ih =>
    intro g
    obtain ⟨h1, h2, h3, h4⟩ := ih (Nat.lcm g q.den)
    rw [List.foldl_cons]
    refine ⟨(Nat.dvd_lcm_left _ _).trans h1, fun p hp => ?_, fun x hx hl => h3 x (Nat.lcm_dvd hx (hl q (by simp))) fun p hp => hl p (by simp [hp]),
      fun hg => h4 (Nat.lcm_ne_zero hg q.den_nz)⟩
    rcases List.mem_cons.1 hp with rfl | hp
    · exact (Nat.dvd_lcm_right _ _).trans h1
    · exact h2 p hp

/-- If `G` is the greatest common divisor of the numerators and `L` the least common multiple of the denominators, then the
entries divided by `G` and multiplied with `L` are integers without a common divisor. -/
theorem primitive_of {m : ℕ} (v : Fin m → ℚ) {G : ℤ} {L : ℕ} (hG : G ≠ 0) (hL : L ≠ 0) (h1 : ∀ i, G ∣ (v i).num) (h2 : ∀ x : ℤ, (∀ i, x ∣ (v i).num) → x ∣ G)
    (h3 : ∀ i, (v i).den ∣ L) (h4 : ∀ x : ℕ, (∀ i, (v i).den ∣ x) → L ∣ x) :
    ∃ w : Fin m → ℤ, (∀ i, (w i : ℚ) = v i / G * L) ∧ ∀ p : ℕ, p.Prime → ¬ ∀ i, (p : ℤ) ∣ w i := by
  choose n hn using h1
  choose d hd using h3
  refine ⟨fun i => n i * d i, fun i => ?_, fun p hp hall => ?_⟩
  · have e1 : v i = (v i).num / (v i).den := (Rat.num_div_den (v i)).symm
    have e2 : ((v i).num : ℚ) = G * n i := by rw [hn i]; push_cast; rfl
    have e3 : (L : ℚ) = (v i).den * d i := by rw [hd i]; push_cast; rfl
    have e4 : ((v i).den : ℚ) ≠ 0 := by exact_mod_cast (v i).den_nz
    have e5 : (G : ℚ) ≠ 0 := by exact_mod_cast hG
    rw [e1, e2, e3]
    push_cast
    field_simp
  · have hpp : Prime (p : ℤ) := Nat.prime_iff_prime_int.1 hp
    have hex : ∃ i, ¬ p ∣ d i := by
      by_contra hc
      push Not at hc
      have hpL : p ∣ L := by
        by_cases hm : Nonempty (Fin m)
        · obtain ⟨i⟩ := hm
          exact (hc i).trans ⟨(v i).den, by rw [mul_comm, ← hd i]⟩
        · have := h4 1 fun i => absurd ⟨i⟩ hm
          have hL1 : L = 1 := Nat.dvd_one.1 this
          have := h2 (2 * G) fun i => absurd ⟨i⟩ hm
          exfalso
          obtain ⟨k, hk⟩ := this
          have : G * (1 - 2 * k) = 0 := by linear_combination hk
          rcases mul_eq_zero.1 this with h | h
          · exact hG h
          · omega
      have : L ∣ L / p := h4 _ fun i => by
        obtain ⟨e, he⟩ := hc i
        refine ⟨e, ?_⟩
        rw [hd i, he, mul_left_comm, Nat.mul_div_cancel_left _ hp.pos]
      have h5 := Nat.le_of_dvd (Nat.div_pos (Nat.le_of_dvd (Nat.pos_of_ne_zero hL) hpL) hp.pos) this
      have h6 := Nat.div_lt_self (Nat.pos_of_ne_zero hL) hp.one_lt
      omega
    have hpL : ¬ p ∣ L := by
      intro hpL
      obtain ⟨i, hi⟩ := hex
      have hden : p ∣ (v i).den := by
        rw [hd i] at hpL
        exact (hp.dvd_mul.1 hpL).resolve_right hi
      have hnum : (p : ℤ) ∣ (v i).num := by
        rw [hn i]
        rcases hpp.dvd_or_dvd (hall i) with h | h
        · exact h.mul_left _
        · exact absurd (Int.natCast_dvd_natCast.1 h) hi
      have hcop := (v i).reduced
      have : p ∣ Nat.gcd (v i).num.natAbs (v i).den := Nat.dvd_gcd (Int.natCast_dvd.1 hnum) hden
      rw [hcop] at this
      exact hp.one_lt.ne' (Nat.dvd_one.1 this)
    have : (p : ℤ) * G ∣ G := h2 _ fun i => by
      rcases hpp.dvd_or_dvd (hall i) with h | h
      · rw [hn i, mul_comm]; exact mul_dvd_mul_left G h
      · have h5 := Int.natCast_dvd_natCast.1 h
        exact absurd (h5.trans ⟨(v i).den, by rw [mul_comm, ← hd i]⟩) hpL
    obtain ⟨k, hk⟩ := this
    have h6 : G * (1 - p * k) = 0 := by linear_combination hk
    rcases mul_eq_zero.1 h6 with h | h
    · exact hG h
    · have h7 : (p : ℤ) ∣ 1 := ⟨k, by linarith⟩
      exact hpp.not_isUnit (isUnit_of_dvd_one h7)

/-- What `makeColumnIntegralPrimitive` makes of a column. -/
theorem integralPrimitive_spec {m : ℕ} {v : Fin m → ℚ} (hv : ∃ i, v i ≠ 0) :
    ∃ (w : Fin m → ℤ) (q : ℚ), integralPrimitive v = some (fun i => (w i : ℚ)) ∧ q ≠ 0 ∧ (∀ i, (w i : ℚ) = q * v i) ∧
      (∀ p : ℕ, p.Prime → ¬ ∀ i, (p : ℤ) ∣ w i) ∧ ((m ≠ 1 ∨ ∀ i, 0 ≤ v i) → 0 < q) := by
  unfold integralPrimitive
  obtain ⟨i0, hi0⟩ := hv
  cases hl : List.ofFn v with
  | nil =>
    have := congrArg List.length hl
    simp only [List.length_ofFn, List.length_nil] at this
    have := i0.2
    omega
  | cons q qs =>
    simp only
    have hmem : ∀ x, (x ∈ q :: qs) ↔ ∃ i, v i = x := by
      intro x; rw [← hl, List.mem_ofFn]
    obtain ⟨g1, g2, g3⟩ := foldl_gcd_spec qs q.num
    obtain ⟨l1, l2, l3, l4⟩ := foldl_lcm_spec qs q.den
    have hlen : m = qs.length + 1 := by
      have := congrArg List.length hl
      simpa using this
    have hpos : (m ≠ 1 ∨ ∀ i, 0 ≤ v i) → 0 ≤ qs.foldl (fun g p => (Int.gcd g p.num : ℤ)) q.num := by
      intro h
      cases qs with
      | nil =>
        rcases h with h | h
        · exact absurd (by simpa using hlen) h
        · obtain ⟨i, hi⟩ := (hmem q).1 (by simp)
          rw [List.foldl_nil, Rat.num_nonneg, ← hi]
          exact h i
      | cons a as =>
        have : ∀ (l : List ℚ) (g : ℤ), 0 ≤ g → 0 ≤ l.foldl (fun g p => (Int.gcd g p.num : ℤ)) g := by
          intro l
          induction l with
          | nil => intro g hg; exact hg
          | cons b l ih => intro g _; exact ih _ (Int.natCast_nonneg _)
        rw [List.foldl_cons]
        exact this as _ (Int.natCast_nonneg _)
    generalize hG : qs.foldl (fun g p => (Int.gcd g p.num : ℤ)) q.num = G at g1 g2 g3 hpos
    generalize hL : qs.foldl (fun l p => Nat.lcm l p.den) q.den = L at l1 l2 l3 l4
    have hd : ∀ i, G ∣ (v i).num := fun i => by
      rcases List.mem_cons.1 ((hmem (v i)).2 ⟨i, rfl⟩) with h | h
      · rw [h]; exact g1
      · exact g2 _ h
    have hG0 : G ≠ 0 := by
      intro h0
      have := hd i0
      rw [h0, zero_dvd_iff, Rat.num_eq_zero] at this
      exact hi0 this
    have hL0 : L ≠ 0 := l4 q.den_nz
    obtain ⟨w, h1, h2⟩ := primitive_of v hG0 hL0 hd (fun x hx => g3 x (by
        obtain ⟨i, hi⟩ := (hmem q).1 (by simp)
        rw [← hi]; exact hx i) fun p hp => by
        obtain ⟨i, hi⟩ := (hmem p).1 (by simp [hp])
        rw [← hi]; exact hx i) (fun i => by
        rcases List.mem_cons.1 ((hmem (v i)).2 ⟨i, rfl⟩) with h | h
        · rw [h]; exact l1
        · exact l2 _ h) (fun x hx => l3 x (by
        obtain ⟨i, hi⟩ := (hmem q).1 (by simp)
        rw [← hi]; exact hx i) fun p hp => by
        obtain ⟨i, hi⟩ := (hmem p).1 (by simp [hp])
        rw [← hi]; exact hx i)
    have hGq : (G : ℚ) ≠ 0 := by exact_mod_cast hG0
    have hLq : (L : ℚ) ≠ 0 := by exact_mod_cast hL0
    refine ⟨w, L / G, ?_, div_ne_zero hLq hGq, fun i => by rw [h1]; ring, h2, fun h => ?_⟩
    · rw [if_neg hG0]
      congr 1
      funext i
      exact (h1 i).symm
    · have h3 := hpos h
      have h4 : (0 : ℚ) < G := by exact_mod_cast lt_of_le_of_ne h3 (Ne.symm hG0)
      have h5 : (0 : ℚ) < L := by exact_mod_cast Nat.pos_of_ne_zero hL0
      exact div_pos h5 h4

/-! ## null space -/

theorem PivotsTo.nodup {a : Matrix (Fin r) (Fin c) ℚ} {ps : List (Fin c)} {C : ℕ} (h : PivotsTo a ps C) : ps.Nodup :=
  h.sorted.imp fun hxy => ne_of_lt hxy

theorem mulVec_eq_sum' (a : Matrix (Fin r) (Fin c) ℚ) (x : Fin c → ℚ) (i : Fin r) : (a *ᵥ x) i = ∑ j, a i j * x j := rfl

/-- The sum over the columns without a pivot. -/
theorem MatReduced.mulVec {a : Matrix (Fin r) (Fin c) ℚ} {ps : List (Fin c)} (h : MatReduced a ps) (x : Fin c → ℚ) {i : Fin r} {p : Fin c}
    (hp : ps[i.val]? = some p) : (a *ᵥ x) i = x p + ∑ j with j ∉ ps, a i j * x j := by
  have hpm : p ∈ ps := List.mem_of_getElem? hp
  rw [mulVec_eq_sum', ← Finset.sum_filter_add_sum_filter_not Finset.univ (fun j => j ∈ ps)]
  congr 1
  rw [Finset.sum_eq_single p]
  · rw [h.eq_one hp]; simp
  · intro q hq hqp
    have hq' := (Finset.mem_filter.1 hq).2
    obtain ⟨k, hk⟩ := List.mem_iff_getElem?.1 hq'
    have hkr : k < r := by
      have := (List.getElem?_eq_some_iff.1 hk).1
      have := h.pivots.len
      omega
    have hki : i ≠ ⟨k, hkr⟩ := fun e => hqp (by
      rw [e] at hp
      simp only at hp
      rw [hk] at hp
      exact Option.some.inj hp)
    rw [h.eq_one (i := ⟨k, hkr⟩) hk, if_neg hki, zero_mul]
  · intro hn
    exact absurd (Finset.mem_filter.2 ⟨Finset.mem_univ _, hpm⟩) hn

theorem MatReduced.mulVec_none {a : Matrix (Fin r) (Fin c) ℚ} {ps : List (Fin c)} (h : MatReduced a ps) (x : Fin c → ℚ) {i : Fin r}
    (hp : ps[i.val]? = none) : (a *ᵥ x) i = 0 := by
  rw [mulVec_eq_sum']
  refine Finset.sum_eq_zero fun j _ => ?_
  rw [h.pivots.zero i (List.getElem?_eq_none_iff.1 hp) j j.2, zero_mul]

/-- The vector of the null space for a column without a pivot. -/
def nullVector (a : Matrix (Fin r) (Fin c) ℚ) (ps : List (Fin c)) (col j : Fin c) : ℚ :=
  if j ∈ ps then (if h : ps.idxOf j < r then -a ⟨ps.idxOf j, h⟩ col else 0) else if j = col then 1 else 0

theorem nullVector_pivot {a : Matrix (Fin r) (Fin c) ℚ} {ps : List (Fin c)} (h : PivotsTo a ps c) {i : Fin r} {p : Fin c} (hp : ps[i.val]? = some p) (col : Fin c) :
    nullVector a ps col p = -a i col := by
  have hpm : p ∈ ps := List.mem_of_getElem? hp
  obtain ⟨h1, h2⟩ := List.getElem?_eq_some_iff.1 hp
  have hidx : ps.idxOf p = i.val := by rw [← h2, h.nodup.idxOf_getElem]
  rw [nullVector, if_pos hpm, dif_pos (by rw [hidx]; exact i.2)]
  congr 2
  exact Fin.ext hidx

theorem nullColumn_eq {a : Matrix (Fin r) (Fin c) ℚ} {ps : List (Fin c)} (h : PivotsTo a ps c) (col : Fin c) : ∀ (l : List (Fin c)) (row : ℕ),
    ps.drop row = l.filter (fun j => decide (j ∈ ps)) →
      nullColumn a (fun j => decide (j ∈ ps)) col row l = some (l.map (nullVector a ps col)) := by
  intro l
  induction l with
  | nil => intro row _; rfl
  | cons x l ih =>
    intro row hd
    rw [nullColumn]
    by_cases hx : x ∈ ps
    · rw [List.filter_cons_of_pos (by simpa using hx)] at hd
      have hrow : row < ps.length := by
        by_contra hc
        rw [List.drop_eq_nil_of_le (by omega)] at hd
        cases hd
      have hrr : row < r := by have := h.len; omega
      rw [List.drop_eq_getElem_cons hrow] at hd
      obtain ⟨hd1, hd2⟩ := List.cons.inj hd
      simp only [hx, decide_true, if_true, dif_pos hrr, ih (row + 1) hd2, Option.map_some, List.map_cons]
      rw [nullVector_pivot h (i := ⟨row, hrr⟩) (by simp only; rw [List.getElem?_eq_getElem hrow, hd1])]
    · rw [List.filter_cons_of_neg (by simpa using hx)] at hd
      simp only [hx, decide_false, Bool.false_eq_true, if_false, ih row hd, Option.map_some, List.map_cons]
      rw [nullVector, if_neg hx]

theorem pivots_eq_filter {a : Matrix (Fin r) (Fin c) ℚ} {ps : List (Fin c)} (h : PivotsTo a ps c) : ps = (List.finRange c).filter fun j => decide (j ∈ ps) := by
  refine List.Perm.eq_of_pairwise (le := (· < ·)) (fun x y _ _ h1 h2 => absurd (h1.trans h2) (lt_irrefl _)) h.sorted ((List.pairwise_lt_finRange c).filter _) ?_
  refine (List.perm_ext_iff_of_nodup h.nodup ((List.nodup_finRange c).filter _)).2 fun x => ?_
  simp

/-- The columns that `nullSpace` computes. -/
theorem nullSpace_spec (a : Matrix (Fin r) (Fin c) ℚ) : ∃ (ps : List (Fin c)) (vs : List (Fin c → ℚ)), MatReduced (rowReduceFully a) ps ∧ nullSpace a = some vs ∧
    List.Forall₂ (fun col v => ∃ (w : Fin c → ℤ) (q : ℚ), q ≠ 0 ∧ (∀ j, v j = (w j : ℚ)) ∧ (∀ j, v j = q * nullVector (rowReduceFully a) ps col j) ∧
      ∀ p : ℕ, p.Prime → ¬ ∀ i, (p : ℤ) ∣ w i) ((List.finRange c).filter fun col => decide (col ∉ ps)) vs := by
  obtain ⟨ps, h1, s, hs, h2⟩ := rowReduceFully_spec a
  refine ⟨ps, ?_⟩
  unfold nullSpace
  simp only
  rw [pivotLoop_eq h1.pivots (r + c) 0 0 (by omega) fun _ _ _ _ => Nat.zero_le _, List.drop_zero]
  have hfil : ((List.finRange c).filter fun col => !decide (col ∈ ps)) = (List.finRange c).filter fun col => decide (col ∉ ps) := by
    congr 1; funext col; simp
  rw [hfil]
  have key : ∀ l : List (Fin c), (∀ x ∈ l, x ∉ ps) → ∃ vs, (l.mapM fun col =>
      (nullColumn (rowReduceFully a) (fun col => decide (col ∈ ps)) col 0 (List.finRange c)).bind fun l => integralPrimitive fun i : Fin c => l.getD i 0) = some vs ∧
      List.Forall₂ (fun col v => ∃ (w : Fin c → ℤ) (q : ℚ), q ≠ 0 ∧ (∀ j, v j = (w j : ℚ)) ∧ (∀ j, v j = q * nullVector (rowReduceFully a) ps col j) ∧
      ∀ p : ℕ, p.Prime → ¬ ∀ i, (p : ℤ) ∣ w i) l vs := by
    intro l
    induction l with
    | nil => intro _; exact ⟨[], rfl, List.Forall₂.nil⟩
    | cons col l ih =>
      intro hl
      obtain ⟨vs, g1, g2⟩ := ih fun x hx => hl x (by simp [hx])
      have hcol := hl col (by simp)
      rw [List.mapM_cons, g1, nullColumn_eq h1.pivots col (List.finRange c) 0 (by rw [List.drop_zero]; exact pivots_eq_filter h1.pivots)]
      have hv : (fun i : Fin c => ((List.finRange c).map (nullVector (rowReduceFully a) ps col)).getD i 0) = nullVector (rowReduceFully a) ps col := by
        funext i
        rw [List.getD_eq_getElem _ _ (by simp)]
        simp
      simp only [Option.bind_some]
      rw [hv]
      obtain ⟨w, q, e1, e2, e3, e4, _⟩ := integralPrimitive_spec (v := nullVector (rowReduceFully a) ps col) ⟨col, by rw [nullVector, if_neg hcol]; simp⟩
      rw [e1]
      exact ⟨_, rfl, List.Forall₂.cons ⟨w, q, e2, fun j => rfl, e3, e4⟩ g2⟩
  obtain ⟨vs, g1, g2⟩ := key ((List.finRange c).filter fun col => decide (col ∉ ps)) fun x hx => by simpa using (List.mem_filter.1 hx).2
  exact ⟨vs, h1, g1, g2⟩

end Frobby
