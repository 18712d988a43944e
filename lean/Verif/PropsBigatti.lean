import Verif.BigattiUni
import Verif.StrategyModel
import Mathlib.Data.Fin.VecNotation

/-!
# C29: the algorithm of Bigatti et al.
-/

namespace Frobby

variable {n : ℕ}

/-- `a` comes after `b` in the dictionary: it is larger where they first differ. -/
def LexGreater (a b : Term n) : Prop := ∃ i, (∀ j, j < i → a j = b j) ∧ b i < a i

theorem ofFn_lt : ∀ {n : ℕ} {a b : Term n} (i : Fin n), (∀ j, j < i → a j = b j) → a i < b i → List.ofFn a < List.ofFn b := by
  intro n
  induction n with
  | zero => intro a b i; exact i.elim0
  | succ n ih =>
    intro a b i h1 h2
    rw [List.ofFn_succ, List.ofFn_succ, List.cons_lt_cons_iff]
    rcases Fin.eq_zero_or_eq_succ i with rfl | ⟨k, rfl⟩
    · exact Or.inl h2
    · exact Or.inr ⟨h1 0 (Fin.succ_pos k), ih k (fun j hj => h1 j.succ (by simpa using hj)) h2⟩

theorem lexGreater_of_lexLE {a b : Term n} (h : lexLE b a) (hne : a ≠ b) : LexGreater a b := by
  have hex : ∃ k : ℕ, ∃ hk : k < n, a ⟨k, hk⟩ ≠ b ⟨k, hk⟩ := by
    by_contra hc
    push Not at hc
    exact hne (funext fun i => hc i.1 i.2)
  obtain ⟨hk, hd⟩ := Nat.find_spec hex
  have hbef : ∀ j : Fin n, j < ⟨Nat.find hex, hk⟩ → a j = b j := by
    intro j hj
    by_contra hc
    exact Nat.find_min hex (show j.1 < Nat.find hex from hj) ⟨j.2, hc⟩
  refine ⟨⟨Nat.find hex, hk⟩, hbef, ?_⟩
  rcases Nat.lt_trichotomy (a ⟨Nat.find hex, hk⟩) (b ⟨Nat.find hex, hk⟩) with h1 | h1 | h1
  · exact absurd (ofFn_lt _ hbef h1) (not_lt.2 h)
  · exact absurd h1 hd
  · exact h1

theorem LexGreater.asymm {a b : Term n} (h : LexGreater a b) : ¬ LexGreater b a := by
  rintro ⟨j, hj1, hj2⟩
  obtain ⟨i, hi1, hi2⟩ := h
  rcases lt_trichotomy i j with h | rfl | h
  · have := hj1 i h; omega
  · omega
  · have := hi1 j h; omega

/-- C29, C12: for every choice of options, the algorithm of Bigatti et al. terminates without undefined behaviour, and the
consumer gets the numerator of the multigraded Hilbert-Poincaré series, each monomial once and no zero coefficients. With
canonical output the terms are in decreasing lexicographic order. -/
theorem C29_multigraded (o : BOpts) (order : List (ℤ × Term n) → List (ℤ × Term n)) (hord : ∀ l, (order l).Perm l)
    (canonical : Bool) (G : List (Term n)) :
    ∃ p : List (ℤ × Term n), facadeBigatti o order canonical G = some (p.map fun x => (x.1, toInt x.2)) ∧
      IsHilbertNumerator p G ∧ Reduced p ∧ (canonical = true → p.Pairwise fun a b => LexGreater a.2 b.2) := by
  have hs := setIdeal_spec G
  obtain ⟨outs, h1, h2⟩ := bigattiRun_multi o hs.anti
  obtain ⟨h3, h4⟩ := hashAddAll_spec (polyOf outs)
  set m := (polyOf outs).foldl (fun m x => hashAdd x.1 x.2 m) [] with hm
  have hperm := hashFeed_perm (fun a b : Term n => lexLE b a) hord canonical m
  have htot : Std.Total (fun a b : Term n => lexLE b a) := ⟨fun a b => Std.Total.total (r := lexLE) b a⟩
  have htr : IsTrans (Term n) (fun a b : Term n => lexLE b a) := ⟨fun a b c h h' => _root_.trans (r := lexLE) h' h⟩
  have hsort := hashFeed_sorted (fun a b : Term n => lexLE b a) order m
  have hr : canonical = true → hashFeed (fun a b : Term n => lexLE b a) order canonical m =
    hashFeed (fun a b : Term n => lexLE b a) order true m := by rintro rfl; rfl
  set r := hashFeed (fun a b : Term n => lexLE b a) order canonical m with hrdef
  have hred := reduced_of_perm hperm.symm h3
  have hco : ∀ k, coefOf r k = coefOf (polyOf outs) k := fun k => by rw [coefOf_perm hperm, h4]
  have hle : ∀ x ∈ r, x.2 ≤ lcmOf (setIdeal G).2 := by
    intro x hx
    by_contra hc
    have h5 := (hred.mem_iff x).1 hx
    rw [hco, coefOf_notMem] at h5
    · exact h5.1 h5.2.symm
    · intro hk
      obtain ⟨y, hy, hyx⟩ := List.mem_map.1 hk
      rw [← hyx] at hc
      exact hc (h2.le y hy)
  have hlt : ∀ x ∈ r, ∀ v, x.2 v < tNum G v := fun x hx v => lt_of_le_of_lt (Term.le_def.1 (hle x hx) v) (hs.lcm_le v)
  have hinj : ∀ a ∈ r, ∀ b ∈ r, ∀ v, tExp G v (a.2 v) < tExp G v (b.2 v) ↔ a.2 v < b.2 v := by
    intro a ha b hb v
    rcases Nat.lt_trichotomy (a.2 v) (b.2 v) with h7 | h7 | h7
    · have := hs.sys.mono v _ _ h7 (hlt b hb v); omega
    · rw [h7]; omega
    · have := hs.sys.mono v _ _ h7 (hlt a ha v); omega
  refine ⟨r.map fun x => (x.1, fun v => tExp G v (x.2 v)), ?_, fun x => ?_, ⟨?_, ?_⟩, fun hcan => ?_⟩
  · unfold facadeBigatti
    simp only [h1, foldlM_addTo outs [] h2.isTerm, ← hm, ← hrdef]
    rw [mapM_some _ (fun x : ℤ × Term n => (x.1, fun v => (tExp G v (x.2 v) : ℤ))), List.map_map]
    · rfl
    · intro x hx
      have := translate_ofGens G (t := x.2) fun v => (hlt x hx v).le
      show Option.map _ ((Translator.ofGens G).translate x.2) = _
      rw [this]; rfl
  · rw [seriesCoef_map hs.sys hlt]
    have : seriesCoef r (floorId (tExp G) (tNum G) x) = seriesCoef (polyOf outs) (floorId (tExp G) (tNum G) x) := by
      rw [seriesCoef_eq_sum, seriesCoef_eq_sum]
      exact Finset.sum_congr rfl fun u _ => by rw [coefSum_eq_coefOf, coefSum_eq_coefOf, hco]
    rw [this, h2.series, if_congr (hs.mem_floor x).symm rfl rfl]
  · rw [List.map_map, List.Nodup, List.pairwise_map]
    have h5 := hred.1
    rw [List.Nodup, List.pairwise_map] at h5
    refine List.Pairwise.imp_of_mem ?_ h5
    intro a b ha hb hab he
    apply hab
    funext v
    have h6 : tExp G v (a.2 v) = tExp G v (b.2 v) := congrFun he v
    have h7 := hinj a ha b hb v
    have h8 := hinj b hb a ha v
    omega
  · intro x hx
    obtain ⟨y, hy, rfl⟩ := List.mem_map.1 hx
    exact hred.2 y hy
  · rw [← hr hcan] at hsort
    have h5 := hred.1
    rw [List.Nodup, List.pairwise_map] at h5
    rw [List.pairwise_map]
    refine List.Pairwise.imp_of_mem ?_ (hsort.and h5)
    intro a b ha hb hab
    obtain ⟨i, h6, h7⟩ := lexGreater_of_lexLE hab.1 hab.2
    exact ⟨i, fun j hj => by simp only [h6 j hj], (hinj b hb a ha i).2 h7⟩

/-- A polynomial with strictly decreasing terms is determined by its coefficients. -/
theorem eq_of_sorted {p q : List (ℤ × Term n)} (h : p.Perm q) (hp : p.Pairwise fun a b => LexGreater a.2 b.2)
    (hq : q.Pairwise fun a b => LexGreater a.2 b.2) : p = q := by
  refine h.eq_of_pairwise ?_ hp hq
  intro a b _ _ h1 h2
  exact absurd h2 h1.asymm

/-- C29: the output is that of the slice algorithm, up to the order of the terms, whatever the options of both. -/
theorem C29_agrees_with_slice (o : BOpts) (order : List (ℤ × Term n) → List (ℤ × Term n)) (hord : ∀ l, (order l).Perm l)
    (canonical : Bool) {o' : Opts} (ho' : o'.valid .hilbert) (rnd : List ℕ → ℕ → ℕ) (G : List (Term n)) :
    ∃ p q, facadeBigatti o order canonical G = some p ∧ facadeMultigradedHilbert o' rnd G = some q ∧ p.Perm q := by
  obtain ⟨p, h1, h2, h3, _⟩ := C29_multigraded o order hord canonical G
  obtain ⟨q, h5, h6, h7, _⟩ := facadeMultigraded_spec ho' rnd G
  refine ⟨_, _, h1, h5, List.Perm.map _ (h3.perm h7 fun m => ?_)⟩
  rw [← coefSum_eq_coefOf, ← coefSum_eq_coefOf]
  exact coefSum_eq_of_series (fun m => by rw [h2 m, h6 m]) m

/-- C29: canonical output depends on the ideal only: not on the pivot strategy, the other options, the order in which
the hash map is traversed, or the generators given. -/
theorem C29_canonical (o o' : BOpts) (order order' : List (ℤ × Term n) → List (ℤ × Term n)) (hord : ∀ l, (order l).Perm l)
    (hord' : ∀ l, (order' l).Perm l) (G G' : List (Term n)) (hG : ∀ m, mem G m ↔ mem G' m) :
    facadeBigatti o order true G = facadeBigatti o' order' true G' := by
  obtain ⟨p, h1, h2, h3, h4⟩ := C29_multigraded o order hord true G
  obtain ⟨q, h5, h6, h7, h8⟩ := C29_multigraded o' order' hord' true G'
  have hperm : p.Perm q := h3.perm h7 fun m => by
    rw [← coefSum_eq_coefOf, ← coefSum_eq_coefOf]
    exact coefSum_eq_of_series (fun m => by rw [h2 m, h6 m, if_congr (hG m) rfl rfl]) m
  rw [h1, h5, eq_of_sorted hperm (h4 rfl) (h8 rfl)]

/-- C29, C13: the univariate series: the polynomial with `t` substituted for each variable, each exponent once and no zero
coefficients, with canonical output by decreasing exponent; its series counts the monomials outside the ideal. In
particular the computation in machine integers of `univariateAllFaces` does not overflow. -/
theorem C29_univariate (o : BOpts) (order : List (ℤ × ℤ) → List (ℤ × ℤ)) (hord : ∀ l, (order l).Perm l) (canonical : Bool)
    (G : List (Term n)) :
    ∃ q : List (ℤ × ℕ), facadeBigattiUnivariate o order canonical G = some (q.map fun x => (x.1, (x.2 : ℤ))) ∧ Reduced q ∧
      (canonical = true → q.Pairwise fun a b => a.2 > b.2) ∧
      (∀ p, IsHilbertNumerator p G → ∀ d, coefOf q d = coefOf (substT p) d) ∧
      ∀ d, uniSeriesCoef n q d = ((Finset.Nat.antidiagonalTuple n d).filter fun m : Term n => ¬ mem G m).card := by
  have hs := setIdeal_spec G
  obtain ⟨outs, h1, h2⟩ := bigattiRun_multi o hs.anti
  have hsys := degSys_setIdeal G
  obtain ⟨uouts, h3, h4⟩ := loop_sim o hsys _ [⟨0, (setIdeal G).2⟩] outs
    (by simpa using (⟨hs.anti, by simp⟩ : BInv (lcmOf (setIdeal G).2) (⟨0, (setIdeal G).2⟩ : BState n))) h1
  have hfold := foldlM_addToUni hsys uouts [] h4.le
  obtain ⟨h5, h6⟩ := hashAddAll_spec (uouts.flatMap (BOut.uni (tExp G)))
  set m := (uouts.flatMap (BOut.uni (tExp G))).foldl (fun m x => hashAdd x.1 x.2 m) [] with hm
  have hperm := hashFeed_perm (κ := ℤ) (· ≥ ·) hord canonical m
  have hsort := hashFeed_sorted (κ := ℤ) (· ≥ ·) order m
  have hrt : canonical = true → hashFeed (κ := ℤ) (· ≥ ·) order canonical m = hashFeed (κ := ℤ) (· ≥ ·) order true m := by
    rintro rfl; rfl
  set r := hashFeed (κ := ℤ) (· ≥ ·) order canonical m with hr
  set p := (polyOf outs).map (fun x => (x.1, fun v => tExp G v (x.2 v))) with hp
  have hnum : IsHilbertNumerator p G := fun x => by
    rw [hp, seriesCoef_map hs.sys fun y hy v => lt_of_le_of_lt (Term.le_def.1 (h2.le y hy) v) (hs.lcm_le v), h2.series,
      if_congr (hs.mem_floor x).symm rfl rfl]
  have himg : uniImage (tExp G) (polyOf outs) = (substT p).map fun x => (x.1, (x.2 : ℤ)) := by
    rw [substT, hp, List.map_map, List.map_map]; rfl
  have hred := reduced_of_perm hperm.symm h5
  have hco : ∀ j, coefOf r j = coefOf ((substT p).map fun x => (x.1, (x.2 : ℤ))) j := fun j => by
    rw [coefOf_perm hperm, h6, h4.coef, himg]
  have hnn : ∀ x ∈ r, 0 ≤ x.2 := by
    intro x hx
    have h9 := (hred.mem_iff x).1 hx
    rw [hco] at h9
    by_contra hc
    rw [coefOf_notMem] at h9
    · exact h9.1 h9.2.symm
    · intro hk
      rw [List.map_map, List.mem_map] at hk
      obtain ⟨y, _, hy⟩ := hk
      simp only [Function.comp_apply] at hy
      omega
  have hrq : r = (r.map fun x => (x.1, x.2.toNat)).map fun x => (x.1, (x.2 : ℤ)) := by
    rw [List.map_map]
    refine (List.map_id r).symm.trans (List.map_congr_left fun x hx => ?_)
    have := hnn x hx
    refine Prod.ext rfl ?_
    simp; omega
  have hqco : ∀ d, coefOf (r.map fun x => (x.1, x.2.toNat)) d = coefOf (substT p) d := by
    intro d
    have cast : ∀ l : List (ℤ × ℕ), coefOf (l.map fun x => (x.1, (x.2 : ℤ))) (d : ℤ) = coefOf l d := by
      intro l
      induction l with
      | nil => rfl
      | cons a l ih => rw [List.map_cons, coefOf_cons, coefOf_cons, ih]; simp
    rw [← cast, ← cast, ← hrq, hco]
  refine ⟨r.map fun x => (x.1, x.2.toNat), ?_, ⟨?_, ?_⟩, fun hcan => ?_, fun p' hp' d => ?_, fun d => ?_⟩
  · unfold facadeBigattiUnivariate
    rw [show bigattiRun (some (setIdeal G).1) o (setIdeal G).2 = some uouts from h3]
    simp only [hfold, Option.map_some]
    rw [← hrq]
  · rw [List.Nodup, List.map_map, List.pairwise_map]
    have h10 := hred.1
    rw [List.Nodup, List.pairwise_map] at h10
    refine List.Pairwise.imp_of_mem ?_ h10
    intro a b ha hb h
    have := hnn a ha
    have := hnn b hb
    simp only [Function.comp_apply]; omega
  · intro x hx
    obtain ⟨y, hy, rfl⟩ := List.mem_map.1 hx
    exact hred.2 y hy
  · rw [← hrt hcan] at hsort
    have h10 := hred.1
    rw [List.Nodup, List.pairwise_map] at h10
    rw [List.pairwise_map]
    refine List.Pairwise.imp_of_mem ?_ (hsort.and h10)
    intro a b ha hb h
    have := hnn a ha
    have := hnn b hb
    obtain ⟨h11, h12⟩ := h
    simp only; omega
  · rw [hqco]
    exact coefOf_substT (fun m => by
      rw [← coefSum_eq_coefOf, ← coefSum_eq_coefOf]
      exact coefSum_eq_of_series (fun m => by rw [hp' m, hnum m]) m) d
  · rw [uniSeriesCoef_eq, ← hilbert_function hnum d, uniSeriesCoef_eq]
    exact Finset.sum_congr rfl fun k _ => by rw [hqco]

/-- C29: what `processState` asserts about the pivot. Whenever the base case does not apply to a minimally generated ideal,
every strategy finds a pivot, which is not the identity, not in the ideal, and divides two different generators. -/
theorem C29_pivot (q : BPivot) (widen : Bool) (uni : Option (Translator n)) (generic : Bool) (s : BState n) (hs : Anti s.ideal)
    (h : bigattiBase uni generic s = some none) :
    ∃ H p, q.get widen s.ideal = some (H, p) ∧ H.Perm s.ideal ∧ p ≠ 0 ∧ ¬ mem s.ideal p ∧
      ∃ a ∈ s.ideal, ∃ b ∈ s.ideal, a ≠ b ∧ p ≤ a ∧ p ≤ b := by
  have hc : ∃ v, 2 ≤ supportCounts s.ideal v := by
    unfold bigattiBase at h
    cases hsb : simpleBase s with
    | some outs => rw [hsb] at h; simp at h
    | none =>
      rw [hsb] at h
      by_contra hc
      push Not at hc
      have := simpleBase_none hsb
      rw [if_pos (uniqueMax_disjoint hs (by omega) fun v => by have := hc v; omega)] at h
      cases he : enumerateScarf uni s true <;> rw [he] at h <;> simp at h
  obtain ⟨H, p, h1, h2, h3⟩ := pivot_spec q widen hs hc
  exact ⟨H, p, h1, h2, h3.1, h3.notMem hs, h3.2⟩

/-- C29: the pivot split. The monomials outside the ideal are those outside the ideal with the pivot added, and the
multiples of the pivot by the monomials outside the colon. -/
theorem C29_split (G : List (Term n)) (hG : Anti G) (p x : Term n) :
    ¬ mem G x ↔ ¬ mem (BState.addStep p ⟨0, G⟩).ideal x ∨
      ∃ y, x = (BState.colonStep p ⟨0, G⟩).multiply + y ∧ ¬ mem (BState.colonStep p ⟨0, G⟩).ideal y := by
  have h := contrib_split (s := (⟨0, G⟩ : BState n)) hG p x
  have hz : ∀ x : Term n, (0 : Term n) ≤ x := fun x => Term.le_def.2 fun i => Nat.zero_le _
  have hs : x - (0 : Term n) = x := by funext i; simp
  have h1 : (∃ y, x = (BState.colonStep p (⟨0, G⟩ : BState n)).multiply + y ∧ ¬ mem (BState.colonStep p ⟨0, G⟩).ideal y) ↔
      contrib (BState.colonStep p (⟨0, G⟩ : BState n)) x = 1 := by
    unfold contrib
    constructor
    · rintro ⟨y, rfl, hy⟩
      have : (BState.colonStep p (⟨0, G⟩ : BState n)).multiply + y - (BState.colonStep p (⟨0, G⟩ : BState n)).multiply = y := by
        funext i; simp
      rw [if_pos ⟨Term.le_def.2 fun i => by simp, by rw [this]; exact hy⟩]
    · intro h
      split at h
      · rename_i hc
        refine ⟨_, ?_, hc.2⟩
        funext i
        have := Term.le_def.1 hc.1 i
        simp only [Pi.add_apply, Pi.sub_apply]; omega
      · simp at h
  rw [h1]
  have h2 : ¬ mem G x ↔ contrib (⟨0, G⟩ : BState n) x = 1 := by
    unfold contrib; simp [hz, hs]
  have h3 : ¬ mem (BState.addStep p (⟨0, G⟩ : BState n)).ideal x ↔ contrib (BState.addStep p (⟨0, G⟩ : BState n)) x = 1 := by
    unfold contrib
    have : (BState.addStep p (⟨0, G⟩ : BState n)).multiply = 0 := rfl
    simp [this, hz, hs]
  rw [h2, h3]
  have h4 : ∀ s : BState n, contrib s x = 0 ∨ contrib s x = 1 := fun s => by unfold contrib; split <;> simp
  have h5 := h4 (⟨0, G⟩ : BState n)
  have h6 := h4 (BState.addStep p ⟨0, G⟩)
  have h7 := h4 (BState.colonStep p ⟨0, G⟩)
  omega

/-- C29: leaving out the faces whose lcm is strictly divisible by a generator does not change the sum, whether or not the
ideal is weakly generic. -/
theorem C29_scarf (s : BState n) (hs : Anti s.ideal) (allFaces : Bool) :
    ∃ outs, enumerateScarf none s allFaces = some outs ∧
      ∀ x, seriesCoef (outs.flatMap fun o => match o with | .term plus t => [(if plus then 1 else -1, t)] | .poly _ _ => []) x =
        if s.multiply ≤ x ∧ ¬ mem s.ideal (x - s.multiply) then 1 else 0 := by
  refine ⟨faces s.ideal allFaces s.multiply true 0 s.ideal, ?_, fun x => ?_⟩
  · cases allFaces <;> exact scarf_faces s _
  · refine Eq.trans ?_ ((faces_spec hs.nodup (le_refl _) allFaces).series x)
    congr 1

/-! Concrete cases. -/

/-- `⟨x^2, xy, y^2⟩` by a pivot split; the numerator is `1 - x^2 - xy - y^2 + x^2 y + x y^2`. -/
example : facadeBigatti ⟨true, true, .median, false⟩ id true [![2, 0], ![1, 1], ![0, 2]] =
    some [(1, ![2, 1]), (-1, ![2, 0]), (1, ![1, 2]), (-1, ![1, 1]), (-1, ![0, 2]), (1, ![0, 0])] := by decide +kernel

/-- The same with another strategy, without the generic base case. -/
example : facadeBigatti ⟨true, false, .generic .typical .gcd, true⟩ id true [![2, 0], ![1, 1], ![0, 2]] =
    some [(1, ![2, 1]), (-1, ![2, 0]), (1, ![1, 2]), (-1, ![1, 1]), (-1, ![0, 2]), (1, ![0, 0])] := by decide +kernel

/-- In one variable: `1 - 3 t^2 + 2 t^3`. -/
example : facadeBigattiUnivariate ⟨true, true, .median, false⟩ id true [![2, 0], ![1, 1], ![0, 2]] =
    some [(2, 3), (-3, 2), (1, 0)] := by decide +kernel

/-- Through `univariateAllFaces`: `(1 - t)^3`. -/
example : facadeBigattiUnivariate ⟨false, false, .median, false⟩ id true [![1, 0, 0], ![0, 1, 0], ![0, 0, 1]] =
    some [(-1, 3), (3, 2), (-3, 1), (1, 0)] := by decide +kernel

example : bigattiBase (some (setIdeal [![1, 0, 0], ![0, 1, 0], ![0, 0, 1]]).1) false
    ⟨0, (setIdeal [![1, 0, 0], ![0, 1, 0], ![0, 0, 1]]).2⟩ matches some (some [.poly [1, -3, 3, -1] 0]) := by decide +kernel

/-- A state to which no base case applies. -/
example : bigattiBase none true (⟨0, [![1, 1, 0], ![1, 0, 1], ![0, 1, 1]]⟩ : BState 3) matches some none := by decide +kernel

example : Anti [![1, 1, 0], ![1, 0, 1], ![0, 1, 1]] := by unfold Anti; decide

end Frobby
