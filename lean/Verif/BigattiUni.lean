import Verif.BigattiRun
import Verif.HilbertApiLemmas

/-!
# The univariate series of the algorithm of Bigatti et al.
-/

namespace Frobby

open Term

variable {n : ℕ}

/-! ## multiplying by `1 - t^d` -/

/-- The coefficients of `(1 - t^d) f`. -/
def mulD (d : ℕ) (f : ℤ → ℤ) : ℤ → ℤ := fun k => f k - f (k - d)

/-- The coefficients of `∏ (1 - t^d)`. -/
def prodD : List ℕ → ℤ → ℤ
  | [] => fun k => if k = 0 then 1 else 0
  | d :: ds => mulD d (prodD ds)

theorem mulD_comm (d e : ℕ) (f : ℤ → ℤ) : mulD d (mulD e f) = mulD e (mulD d f) := by
  funext k
  unfold mulD
  have : k - d - e = k - e - d := by ring
  rw [this]; ring

theorem foldl_mulD (d : ℕ) : ∀ (ds : List ℕ) (f : ℤ → ℤ), ds.foldl (fun f d => mulD d f) (mulD d f) =
    mulD d (ds.foldl (fun f d => mulD d f) f) := by
  intro ds
  induction ds with
  | nil => intro f; rfl
  | cons e ds ih => intro f; rw [List.foldl_cons, List.foldl_cons, mulD_comm, ih]

theorem foldl_prodD (ds : List ℕ) : ds.foldl (fun f d => mulD d f) (prodD []) = prodD ds := by
  induction ds with
  | nil => rfl
  | cons d ds ih => rw [List.foldl_cons, foldl_mulD, ih]; rfl

/-- The coefficients of a list of coefficients. -/
def coefFn (P : List ℤ) : ℤ → ℤ := fun k => if 0 ≤ k then P.getD k.toNat 0 else 0

theorem factorLoop_spec (d : ℕ) (B : ℤ) (hB : 2 * B < 2 ^ 31) : ∀ (e : ℕ) (P : List ℤ), e + d ≤ P.length →
    (∀ i < e + d, |P.getD i 0| ≤ B) →
    ∃ Q, factorLoop d e P = some Q ∧ Q.length = P.length ∧
      ∀ i, Q.getD i 0 = P.getD i 0 - if d ≤ i ∧ i < e + d then P.getD (i - d) 0 else 0 := by
  intro e
  induction e with
  | zero =>
    intro P _ _
    refine ⟨P, rfl, rfl, fun i => ?_⟩
    rw [if_neg (by omega)]; simp
  | succ e ih =>
    intro P hlen hb
    have h1 : e + d < P.length := by omega
    have h2 : e < P.length := by omega
    have g1 : P.getD (e + d) 0 = P[e + d] := by simp [h1]
    have g2 : P.getD e 0 = P[e] := by simp [h2]
    have b1 := abs_le.1 (hb (e + d) (by omega))
    have b2 := abs_le.1 (hb e (by omega))
    rw [g1] at b1
    rw [g2] at b2
    have hset : ∀ i, (P.set (e + d) (P[e + d] - P[e])).getD i 0 = if i = e + d then P[e + d] - P[e] else P.getD i 0 := by
      intro i
      simp only [List.getD_eq_getElem?_getD, List.getElem?_set]
      by_cases hi : e + d = i
      · subst hi; simp [h1]
      · rw [if_neg hi, if_neg fun h => hi h.symm]
    obtain ⟨Q, h3, h4, h5⟩ := ih (P.set (e + d) (P[e + d] - P[e])) (by simp; omega) (fun i hi => by
      rw [hset, if_neg (by omega)]; exact hb i (by omega))
    refine ⟨Q, ?_, by simpa using h4, fun i => ?_⟩
    · unfold factorLoop
      rw [List.getElem?_eq_getElem h1, List.getElem?_eq_getElem h2]
      simp only [intSub]
      rw [if_pos ⟨by omega, by omega⟩]
      simpa using h3
    · rw [h5, hset]
      by_cases hi : i = e + d
      · subst hi
        rw [if_pos rfl, if_neg (by omega), if_pos (by omega), Nat.add_sub_cancel, g1, g2]; ring
      · rw [if_neg hi]
        by_cases h6 : d ≤ i ∧ i < e + d
        · rw [if_pos h6, if_pos ⟨h6.1, by omega⟩, hset, if_neg (by omega)]
        · rw [if_neg h6, if_neg (by omega)]

theorem mulFactor_spec (d : ℕ) {P : List ℤ} {B : ℤ} (hB : 2 * B < 2 ^ 31) (hb : ∀ i, |P.getD i 0| ≤ B) :
    ∃ Q, mulFactor d P = some Q ∧ coefFn Q = mulD d (coefFn P) ∧ ∀ i, |Q.getD i 0| ≤ 2 * B := by
  have happ : ∀ i, (P ++ List.replicate d (0 : ℤ)).getD i 0 = P.getD i 0 := by
    intro i
    simp only [List.getD_eq_getElem?_getD, List.getElem?_append, List.getElem?_replicate]
    by_cases hi : i < P.length
    · simp [hi]
    · rw [if_neg hi, List.getElem?_eq_none (by omega)]
      split <;> simp
  obtain ⟨Q, h1, h2, h3⟩ := factorLoop_spec d B hB P.length (P ++ List.replicate d 0) (by simp) (fun i _ => by
    rw [happ]; exact hb i)
  have h4 : ∀ i, Q.getD i 0 = P.getD i 0 - if d ≤ i then P.getD (i - d) 0 else 0 := by
    intro i
    rw [h3, happ, happ]
    by_cases h5 : d ≤ i
    · rw [if_pos h5]
      by_cases h6 : i < P.length + d
      · rw [if_pos ⟨h5, h6⟩]
      · rw [if_neg (by omega)]
        simp only [List.getD_eq_getElem?_getD]
        rw [List.getElem?_eq_none (l := P) (i := i - d) (by omega)]
        simp
    · rw [if_neg h5, if_neg (by omega)]
  refine ⟨Q, h1, funext fun k => ?_, fun i => ?_⟩
  · unfold mulD coefFn
    by_cases hk : 0 ≤ k
    · rw [if_pos hk, if_pos hk, h4]
      by_cases hd : (d : ℤ) ≤ k
      · rw [if_pos (by omega), if_pos (by omega)]
        congr 2; omega
      · rw [if_neg (by omega), if_neg (by omega)]
    · rw [if_neg hk, if_neg hk, if_neg (by omega)]; simp
  · rw [h4]
    have b1 := abs_le.1 (hb i)
    split
    · have b2 := abs_le.1 (hb (i - d))
      exact abs_le.2 ⟨by omega, by omega⟩
    · exact abs_le.2 ⟨by omega, by omega⟩

/-! ## the degrees -/

/-- What is used of the translator: the exponents `e` up to `L`. -/
structure DegSys (T : Translator n) (e : Fin n → ℕ → ℕ) (L : Term n) : Prop where
  translate : ∀ t : Term n, t ≤ L → T.translate t = some fun v => (e v (t v) : ℤ)
  mono : ∀ v i j, i ≤ j → j ≤ L v → e v i ≤ e v j

/-- The degree of the translated term. -/
def tdeg (e : Fin n → ℕ → ℕ) (t : Term n) : ℕ := ∑ v, e v (t v)

/-- The degree of a generator relative to the factor. -/
def gdeg (e : Fin n → ℕ → ℕ) (m g : Term n) : ℕ := ∑ v, (e v ((m + g) v) - e v (m v))

theorem DegSys.degree {T : Translator n} {e : Fin n → ℕ → ℕ} {L : Term n} (h : DegSys T e L) {t : Term n} (ht : t ≤ L) :
    translatedDegree T t = some (tdeg e t : ℤ) := by
  unfold translatedDegree
  rw [h.translate t ht, Option.map_some, ← List.ofFn_eq_map, List.sum_ofFn, tdeg]
  push_cast; rfl

theorem DegSys.genDegree {T : Translator n} {e : Fin n → ℕ → ℕ} {L : Term n} (h : DegSys T e L) {m g : Term n}
    (hg : m + g ≤ L) : genDegree T m g = some (gdeg e m g) := by
  have hm : m ≤ L := le_trans (Term.le_def.2 fun i => by simp) hg
  unfold Frobby.genDegree
  rw [h.translate _ hg, h.translate _ hm]
  simp only
  have hs : ((List.finRange n).map fun v => (e v ((m + g) v) : ℤ) - (e v (m v) : ℤ)).sum = (gdeg e m g : ℤ) := by
    rw [← List.ofFn_eq_map, List.sum_ofFn, gdeg]
    push_cast
    refine Finset.sum_congr rfl fun v _ => ?_
    have := h.mono v (m v) ((m + g) v) (by simp) (le_def.1 hg v)
    omega
  rw [hs, if_pos (by omega)]
  simp

theorem factorsLoop_spec {T : Translator n} {e : Fin n → ℕ → ℕ} {L : Term n} (h : DegSys T e L) {m : Term n} :
    ∀ (gs : List (Term n)) (P : List ℤ) (j : ℕ), j + gs.length ≤ 30 → (∀ g ∈ gs, m + g ≤ L) →
      (∀ i, |P.getD i 0| ≤ (2 : ℤ) ^ j) →
      ∃ Q, factorsLoop T m P gs = some Q ∧ coefFn Q = (gs.map (gdeg e m)).foldl (fun f d => mulD d f) (coefFn P) := by
  intro gs
  induction gs with
  | nil => intro P j _ _ _; exact ⟨P, rfl, rfl⟩
  | cons g gs ih =>
    intro P j hj hg hb
    simp only [List.length_cons] at hj
    have hpow : (2 : ℤ) ^ (j + 1) ≤ 2 ^ 30 := pow_le_pow_right₀ (by omega) (by omega)
    rw [pow_succ] at hpow
    obtain ⟨Q, h1, h2, h3⟩ := mulFactor_spec (gdeg e m g) (B := 2 ^ j) (by norm_num at hpow ⊢; omega) hb
    obtain ⟨R, h4, h5⟩ := ih Q (j + 1) (by omega) (fun k hk => hg k (by simp [hk])) (fun i => by
      rw [pow_succ, mul_comm]; exact h3 i)
    refine ⟨R, ?_, ?_⟩
    · unfold factorsLoop
      rw [h.genDegree (hg g (by simp)), Option.bind_some, h1, Option.bind_some, h4]
    · rw [h5, h2]; rfl

/-! ## all faces -/

/-- The image of a polynomial in one variable. -/
def uniImage (e : Fin n → ℕ → ℕ) (p : List (ℤ × Term n)) : List (ℤ × ℤ) := p.map fun x => (x.1, (tdeg e x.2 : ℤ))

theorem uniImage_append (e : Fin n → ℕ → ℕ) (p q : List (ℤ × Term n)) : uniImage e (p ++ q) = uniImage e p ++ uniImage e q := by
  simp [uniImage]

theorem tdeg_sup {T : Translator n} {e : Fin n → ℕ → ℕ} {L : Term n} (h : DegSys T e L) {m t g : Term n}
    (hg : m + g ≤ L) (hd : ∀ v, g v = 0 ∨ t v = 0) : tdeg e (t ⊔ g + m) = tdeg e (t + m) + gdeg e m g := by
  unfold tdeg gdeg
  rw [← Finset.sum_add_distrib]
  refine Finset.sum_congr rfl fun v _ => ?_
  have h1 := h.mono v (m v) ((m + g) v) (by simp) (le_def.1 hg v)
  simp only [Pi.add_apply, Pi.sup_apply] at h1 ⊢
  rcases hd v with h2 | h2
  · simp [h2]
  · simp only [h2, zero_add]
    have : max 0 (g v) + m v = m v + g v := by simp [add_comm]
    rw [this]; omega

theorem faces_degree {T : Translator n} {e : Fin n → ℕ → ℕ} {L : Term n} (h : DegSys T e L) (G : List (Term n)) {m : Term n} (k : ℤ) :
    ∀ (rest : List (Term n)) (plus : Bool) (t : Term n), (∀ g ∈ rest, m + g ≤ L) →
      (∀ v, (if 0 < t v then 1 else 0) + rest.countP (fun g => decide (0 < g v)) ≤ 1) →
      coefOf (uniImage e (polyOf (faces G true m plus t rest))) k =
        sg plus * prodD (rest.map (gdeg e m)) (k - tdeg e (t + m)) := by
  intro rest
  induction rest with
  | nil =>
    intro plus t _ _
    simp only [faces, polyOf_cons_term, polyOf_nil, uniImage, List.map_cons, List.map_nil, coefOf_cons, coefOf_nil, prodD]
    by_cases hk : (tdeg e (t + m) : ℤ) = k
    · simp [hk]
    · rw [if_neg hk, if_neg (by omega)]; simp
  | cons g gs ih =>
    intro plus t hg hd
    have hgd : ∀ v, g v = 0 ∨ t v = 0 := by
      intro v
      by_contra hc
      push Not at hc
      have := hd v
      rw [if_pos (Nat.pos_of_ne_zero hc.2), List.countP_cons, if_pos (by simpa using Nat.pos_of_ne_zero hc.1)] at this
      omega
    unfold faces
    rw [if_pos (by simp), polyOf_append, uniImage_append, coefOf_append,
      ih (!plus) (t ⊔ g) (fun x hx => hg x (by simp [hx])) (fun v => ?_),
      ih plus t (fun x hx => hg x (by simp [hx])) (fun v => ?_), tdeg_sup h (hg g (by simp)) hgd, sg_not, List.map_cons, prodD, mulD]
    · push_cast
      have : k - ((tdeg e (t + m) : ℤ) + (gdeg e m g : ℤ)) = k - (tdeg e (t + m) : ℤ) - (gdeg e m g : ℤ) := by ring
      rw [this]; ring
    · have := hd v
      rw [List.countP_cons] at this
      omega
    · have := hd v
      rw [List.countP_cons] at this
      have h3 : (if decide (0 < g v) = true then 1 else 0) = if 0 < g v then 1 else 0 := by simp
      rw [h3] at this
      simp only [Pi.sup_apply, lt_sup_iff]
      by_cases h1 : 0 < t v <;> by_cases h2 : 0 < g v <;> simp [h1, h2] at this ⊢ <;> omega

/-! ## what is added to the univariate polynomial -/

/-- What an output adds. -/
def BOut.uni (e : Fin n → ℕ → ℕ) : BOut n → List (ℤ × ℤ)
  | .term plus t => [(sg plus, (tdeg e t : ℤ))]
  | .poly coefs base => coefs.zipIdx.map fun c => (c.1, ((c.2 + base : ℕ) : ℤ))

theorem coefOf_zipIdx (base : ℕ) (k : ℤ) : ∀ (P : List ℤ) (s : ℕ),
    coefOf ((P.zipIdx s).map fun c => (c.1, ((c.2 + base : ℕ) : ℤ))) k = coefFn P (k - base - s) := by
  intro P
  induction P with
  | nil => intro s; simp [coefFn, coefOf_nil]
  | cons a P ih =>
    intro s
    rw [List.zipIdx_cons, List.map_cons, coefOf_cons, ih]
    unfold coefFn
    simp only
    by_cases h1 : k - base - s = 0
    · rw [if_pos (by push_cast; omega), if_neg (by push_cast; omega), if_pos (by omega), h1]; simp
    · rw [if_neg (by push_cast; omega)]
      by_cases h2 : 0 ≤ k - base - s
      · rw [if_pos (by push_cast; omega), if_pos h2]
        obtain ⟨j, hj⟩ : ∃ j, (k - base - s).toNat = j + 1 := ⟨(k - base - s).toNat - 1, by omega⟩
        rw [hj, List.getD_cons_succ, zero_add]
        congr 1; push_cast; omega
      · rw [if_neg (by push_cast; omega), if_neg h2]; simp

theorem addToUni_spec {T : Translator n} {e : Fin n → ℕ → ℕ} {L : Term n} (h : DegSys T e L) (m : List (ℤ × ℤ)) {o : BOut n}
    (ho : ∀ x ∈ o.toTerm, x.2 ≤ L) :
    o.addToUni T m = some ((o.uni e).foldl (fun m x => hashAdd x.1 x.2 m) m) := by
  cases o with
  | term plus t =>
    have ht : t ≤ L := ho (sg plus, t) (by simp [BOut.toTerm])
    simp only [BOut.addToUni, h.degree ht, Option.map_some, BOut.uni, List.foldl_cons, List.foldl_nil]
    cases plus <;> simp [hashAddSign, hashAdd, sg]
  | poly coefs base =>
    simp only [BOut.addToUni, BOut.uni, List.foldl_map]

theorem foldlM_addToUni {T : Translator n} {e : Fin n → ℕ → ℕ} {L : Term n} (h : DegSys T e L) : ∀ (outs : List (BOut n))
    (m : List (ℤ × ℤ)), (∀ x ∈ polyOf outs, x.2 ≤ L) →
    outs.foldlM (BOut.addToUni T) m = some ((outs.flatMap (BOut.uni e)).foldl (fun m x => hashAdd x.1 x.2 m) m) := by
  intro outs
  induction outs with
  | nil => intro m _; rfl
  | cons o outs ih =>
    intro m ho
    rw [List.foldlM_cons, addToUni_spec h m fun x hx => ho x (List.mem_flatMap.2 ⟨o, by simp, hx⟩)]
    rw [List.flatMap_cons, List.foldl_append]
    exact ih _ fun x hx => ho x (by
      obtain ⟨y, hy, hxy⟩ := List.mem_flatMap.1 hx
      exact List.mem_flatMap.2 ⟨y, by simp [hy], hxy⟩)

/-! ## both modes in lockstep -/

/-- The outputs of the univariate mode have the image of those of the multigraded mode. -/
structure Sim (e : Fin n → ℕ → ℕ) (L : Term n) (uouts outs : List (BOut n)) : Prop where
  le : ∀ x ∈ polyOf uouts, x.2 ≤ L
  coef : ∀ k, coefOf (uouts.flatMap (BOut.uni e)) k = coefOf (uniImage e (polyOf outs)) k

theorem uni_terms {e : Fin n → ℕ → ℕ} : ∀ {outs : List (BOut n)}, (∀ o ∈ outs, o.isTerm) →
    outs.flatMap (BOut.uni e) = uniImage e (polyOf outs) := by
  intro outs
  induction outs with
  | nil => intro _; rfl
  | cons o outs ih =>
    intro h
    have h1 := h o (by simp)
    cases o with
    | poly _ _ => exact h1.elim
    | term plus t =>
      rw [List.flatMap_cons, polyOf_cons_term, ih fun o ho => h o (by simp [ho])]
      rfl

theorem Sim.refl {e : Fin n → ℕ → ℕ} {L : Term n} {f : Term n → ℤ} {outs : List (BOut n)} (h : GoodOut L f outs) : Sim e L outs outs :=
  ⟨h.le, fun k => by rw [uni_terms h.isTerm]⟩

theorem Sim.append {e : Fin n → ℕ → ℕ} {L : Term n} {a b c d : List (BOut n)} (h1 : Sim e L a b) (h2 : Sim e L c d) :
    Sim e L (a ++ c) (b ++ d) := by
  refine ⟨fun x hx => ?_, fun k => ?_⟩
  · rw [polyOf_append] at hx
    rcases List.mem_append.1 hx with h | h
    · exact h1.le x h
    · exact h2.le x h
  · rw [List.flatMap_append, coefOf_append, polyOf_append, uniImage_append, coefOf_append, h1.coef, h2.coef]

theorem allFaces_sim {T : Translator n} {e : Fin n → ℕ → ℕ} {L : Term n} (h : DegSys T e L) {s : BState n} (hs : BInv L s) :
    ∃ uouts, enumerateScarf (some T) s true = some uouts ∧ Sim e L uouts (faces s.ideal true s.multiply true 0 s.ideal) := by
  have hf := faces_spec hs.anti.nodup hs.le true
  have hm : s.multiply ≤ L := le_trans (Term.le_def.2 fun i => by simp) hs.le
  unfold enumerateScarf
  simp only [scarf_faces]
  by_cases h1 : disjointSupport s.ideal = false
  · simp only [univariateAllFaces, if_pos h1]
    exact ⟨_, rfl, Sim.refl hf⟩
  by_cases h2 : 30 < s.ideal.length
  · simp only [univariateAllFaces, if_neg h1, if_pos h2]
    exact ⟨_, rfl, Sim.refl hf⟩
  have hdeg := h.degree (t := lcmOf s.ideal + s.multiply) (by rw [add_comm]; exact hs.le)
  simp only [univariateAllFaces, if_neg h1, if_neg h2, hdeg]
  by_cases h3 : 1024 * 1024 < (tdeg e (lcmOf s.ideal + s.multiply) : ℤ)
  · rw [if_pos h3]
    exact ⟨_, rfl, Sim.refl hf⟩
  rw [if_neg h3]
  by_cases h4 : ((2 ^ s.ideal.length : ℕ) : ℤ) < (tdeg e (lcmOf s.ideal + s.multiply) : ℤ)
  · rw [if_pos h4]
    exact ⟨_, rfl, Sim.refl hf⟩
  rw [if_neg h4]
  have hle : ∀ g ∈ s.ideal, s.multiply + g ≤ L := fun g hg => (add_le_add (le_refl _) (le_lcmOf hg)).trans hs.le
  obtain ⟨Q, h5, h6⟩ := factorsLoop_spec h s.ideal [1] 0 (by omega) hle (fun i => by
    cases i with
    | zero => exact le_of_eq (by rfl)
    | succ i => simp)
  rw [h5, h.degree hm]
  refine ⟨_, rfl, by simp [polyOf, BOut.toTerm], fun k => ?_⟩
  have hone : coefFn [1] = prodD [] := by
    funext k
    unfold coefFn prodD
    by_cases hk : k = 0
    · simp [hk]
    · rw [if_neg hk]
      split
      · obtain ⟨j, hj⟩ : ∃ j, k.toNat = j + 1 := ⟨k.toNat - 1, by omega⟩
        rw [hj]; simp
      · rfl
  rw [hone, foldl_prodD] at h6
  have hds : ∀ v, (if 0 < (0 : Term n) v then 1 else 0) + s.ideal.countP (fun g => decide (0 < g v)) ≤ 1 := by
    rw [Bool.not_eq_false, disjointSupport, decide_eq_true_eq] at h1
    intro v
    simpa using h1 v
  rw [faces_degree h s.ideal k s.ideal true 0 hle hds]
  have := coefOf_zipIdx (tdeg e s.multiply) k Q 0
  simp only [List.flatMap_cons, List.flatMap_nil, List.append_nil, BOut.uni, Int.toNat_natCast]
  rw [this, h6]
  simp [sg]

theorem step_sim {T : Translator n} {e : Fin n → ℕ → ℕ} (o : BOpts) {L : Term n} (h : DegSys T e L) {s : BState n} (hs : BInv L s)
    {outs : List (BOut n)} {new : List (BState n)} (hstep : bigattiStep none o s = some (outs, new)) :
    ∃ uouts, bigattiStep (some T) o s = some (uouts, new) ∧ Sim e L uouts outs := by
  obtain ⟨outs0, s', f0, hx, hs', hg0⟩ : ∃ (outs0 : List (BOut n)) (s' : BState n) (f0 : Term n → ℤ),
      (if o.simp then bigattiSimplify s else ([], s)) = (outs0, s') ∧ BInv L s' ∧ GoodOut L f0 outs0 := by
    obtain ⟨h1, h2, h3⟩ := bSimplify_spec hs
    by_cases ho : o.simp = true
    · rw [if_pos ho]
      exact ⟨(bigattiSimplify s).1, (bigattiSimplify s).2, simpOut s, rfl, h1, h2⟩
    · rw [if_neg ho]
      exact ⟨_, _, fun _ => 0, rfl, hs, ⟨by simp, by simp [polyOf], fun x => by simp [polyOf, seriesCoef_nil]⟩⟩
  have hbase : (bigattiBase (some T) o.generic s' = some none ∧ bigattiBase none o.generic s' = some none) ∨
      ∃ a b, bigattiBase (some T) o.generic s' = some (some a) ∧ bigattiBase none o.generic s' = some (some b) ∧ Sim e L a b := by
    unfold bigattiBase
    cases hsb : simpleBase s' with
    | some outs => exact Or.inr ⟨outs, outs, rfl, rfl, Sim.refl (simpleBase_spec hs'.le hsb)⟩
    | none =>
      simp only
      have hen : enumerateScarf none s' true = some (faces s'.ideal true s'.multiply true 0 s'.ideal) := by
        unfold enumerateScarf
        simp only [scarf_faces]
      have hen2 : ∀ u : Option (Translator n), enumerateScarf u s' false =
          some (faces s'.ideal false s'.multiply true 0 s'.ideal) := by
        intro u
        unfold enumerateScarf
        simp only [scarf_faces]
      by_cases hu : uniqueMax s'.ideal = true
      · obtain ⟨uouts, h1, h2⟩ := allFaces_sim h hs'
        rw [if_pos hu, if_pos hu, h1, hen]
        exact Or.inr ⟨_, _, rfl, rfl, h2⟩
      · rw [if_neg hu, if_neg hu]
        by_cases hg : (o.generic && isWeaklyGeneric s'.ideal) = true
        · rw [if_pos hg, if_pos hg, hen2, hen2]
          exact Or.inr ⟨_, _, rfl, rfl, Sim.refl (faces_spec hs'.anti.nodup hs'.le false)⟩
        · rw [if_neg hg, if_neg hg]
          exact Or.inl ⟨rfl, rfl⟩
  unfold bigattiStep at hstep ⊢
  simp only [hx] at hstep ⊢
  rcases hbase with ⟨h1, h2⟩ | ⟨a, b, h1, h2, h3⟩
  · rw [h2] at hstep
    rw [h1]
    simp only at hstep ⊢
    cases hp : o.pivot.get o.widen s'.ideal with
    | none => rw [hp] at hstep; simp at hstep
    | some y =>
      obtain ⟨H, p⟩ := y
      rw [hp] at hstep
      simp only [Option.some.injEq, Prod.mk.injEq] at hstep
      obtain ⟨rfl, rfl⟩ := hstep
      exact ⟨_, rfl, Sim.refl hg0⟩
  · rw [h2] at hstep
    rw [h1]
    simp only [Option.some.injEq, Prod.mk.injEq] at hstep ⊢
    obtain ⟨rfl, rfl⟩ := hstep
    exact ⟨_, ⟨rfl, rfl⟩, (Sim.refl hg0).append h3⟩

theorem loop_sim {T : Translator n} {e : Fin n → ℕ → ℕ} (o : BOpts) {L : Term n} (h : DegSys T e L) : ∀ (fuel : ℕ) (ss : List (BState n))
    (outs : List (BOut n)), (∀ s ∈ ss, BInv L s) → bigattiLoop none o fuel ss = some outs →
    ∃ uouts, bigattiLoop (some T) o fuel ss = some uouts ∧ Sim e L uouts outs := by
  intro fuel
  induction fuel with
  | zero => intro ss outs _ h; simp [bigattiLoop] at h
  | succ fuel ih =>
    intro ss outs hs hl
    cases ss with
    | nil =>
      simp only [bigattiLoop, Option.some.injEq] at hl
      subst hl
      exact ⟨[], rfl, by simp [polyOf], fun k => rfl⟩
    | cons s ss =>
      obtain ⟨outs1, new, f, h1, h2, h3, _, _⟩ := step_multi o (hs s (by simp))
      obtain ⟨u1, h4, h5⟩ := step_sim o h (hs s (by simp)) h1
      unfold bigattiLoop at hl ⊢
      simp only [h1, Option.map_eq_some_iff] at hl
      obtain ⟨r, hr, rfl⟩ := hl
      obtain ⟨u2, h6, h7⟩ := ih (new ++ ss) r (fun t ht => by
        rcases List.mem_append.1 ht with ht | ht
        · exact h2 t ht
        · exact hs t (by simp [ht])) hr
      simp only [h4, h6, Option.map_some]
      exact ⟨_, rfl, h5.append h7⟩

/-! ## the facade -/

theorem foldlM_addTo : ∀ (outs : List (BOut n)) (m : List (ℤ × Term n)), (∀ o ∈ outs, o.isTerm) →
    outs.foldlM BOut.addTo m = some ((polyOf outs).foldl (fun m x => hashAdd x.1 x.2 m) m) := by
  intro outs
  induction outs with
  | nil => intro m _; rfl
  | cons o outs ih =>
    intro m h
    have h1 := h o (by simp)
    cases o with
    | poly _ _ => exact h1.elim
    | term plus t =>
      rw [List.foldlM_cons, polyOf_cons_term, List.foldl_cons]
      have : BOut.addTo m (.term plus t) = some (hashAdd (sg plus) t m) := by
        cases plus <;> simp [BOut.addTo, hashAddSign, hashAdd, sg]
      rw [this]
      exact ih _ fun o ho => h o (by simp [ho])

theorem degSys_setIdeal (G : List (Term n)) : DegSys (setIdeal G).1 (tExp G) (lcmOf (setIdeal G).2) := by
  have hs := setIdeal_spec G
  refine ⟨fun t ht => translate_ofGens G fun v => ((le_def.1 ht v).trans (hs.lcm_le v).le), fun v i j hij hj => ?_⟩
  rcases Nat.eq_or_lt_of_le hij with rfl | hlt
  · exact le_refl _
  · exact (hs.sys.mono v i j hlt (lt_of_le_of_lt hj (hs.lcm_le v))).le

end Frobby
