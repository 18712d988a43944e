import Verif.ScarfLemmas
import Verif.PropsBigatti

/-!
# C41: the deformation algorithm
-/

namespace Frobby

variable {n : ℕ}

/-- Feeding a polynomial in identifiers that is the numerator of the shrunk ideal to the consumer, through the hash map. -/
theorem feed_multi (order : List (ℤ × Term n) → List (ℤ × Term n)) (hord : ∀ l, (order l).Perm l) (canonical : Bool)
    (G : List (Term n)) {outs : List (ℤ × Term n)} (houtle : ∀ x ∈ outs, x.2 ≤ lcmOf (setIdeal G).2)
    (hser : ∀ x, seriesCoef outs x = if mem (setIdeal G).2 x then 0 else 1) :
    ∃ p : List (ℤ × Term n), ((hashFeed (fun a b => lexLE b a) order canonical (outs.foldl (fun m x => hashAdd x.1 x.2 m) [])).mapM
        fun x => ((setIdeal G).1.translate x.2).map fun t => (x.1, t)) = some (p.map fun x => (x.1, toInt x.2)) ∧
      IsHilbertNumerator p G ∧ Reduced p ∧ (canonical = true → p.Pairwise fun a b => LexGreater a.2 b.2) := by
  have hs := setIdeal_spec G
  obtain ⟨h3, h4⟩ := hashAddAll_spec outs
  set m := outs.foldl (fun m x => hashAdd x.1 x.2 m) [] with hm
  have hperm := hashFeed_perm (fun a b : Term n => lexLE b a) hord canonical m
  have htot : Std.Total (fun a b : Term n => lexLE b a) := ⟨fun a b => Std.Total.total (r := lexLE) b a⟩
  have htr : IsTrans (Term n) (fun a b : Term n => lexLE b a) := ⟨fun a b c h h' => _root_.trans (r := lexLE) h' h⟩
  have hsort := hashFeed_sorted (fun a b : Term n => lexLE b a) order m
  have hr : canonical = true → hashFeed (fun a b : Term n => lexLE b a) order canonical m =
    hashFeed (fun a b : Term n => lexLE b a) order true m := by rintro rfl; rfl
  set r := hashFeed (fun a b : Term n => lexLE b a) order canonical m with hrdef
  have hred := reduced_of_perm hperm.symm h3
  have hco : ∀ k, coefOf r k = coefOf outs k := fun k => by rw [coefOf_perm hperm, h4]
  have hle : ∀ x ∈ r, x.2 ≤ lcmOf (setIdeal G).2 := by
    intro x hx
    by_contra hc
    have h5 := (hred.mem_iff x).1 hx
    rw [hco, coefOf_notMem] at h5
    · exact h5.1 h5.2.symm
    · intro hk
      obtain ⟨y, hy, hyx⟩ := List.mem_map.1 hk
      rw [← hyx] at hc
      exact hc (houtle y hy)
  have hlt : ∀ x ∈ r, ∀ v, x.2 v < tNum G v := fun x hx v => lt_of_le_of_lt (Term.le_def.1 (hle x hx) v) (hs.lcm_le v)
  have hinj : ∀ a ∈ r, ∀ b ∈ r, ∀ v, tExp G v (a.2 v) < tExp G v (b.2 v) ↔ a.2 v < b.2 v := by
    intro a ha b hb v
    rcases Nat.lt_trichotomy (a.2 v) (b.2 v) with h7 | h7 | h7
    · have := hs.sys.mono v _ _ h7 (hlt b hb v); omega
    · rw [h7]; omega
    · have := hs.sys.mono v _ _ h7 (hlt a ha v); omega
  refine ⟨r.map fun x => (x.1, fun v => tExp G v (x.2 v)), ?_, fun x => ?_, ⟨?_, ?_⟩, fun hcan => ?_⟩
  · rw [mapM_some _ (fun x : ℤ × Term n => (x.1, fun v => (tExp G v (x.2 v) : ℤ))), List.map_map]
    · rfl
    · intro x hx
      have := translate_ofGens G (t := x.2) fun v => (hlt x hx v).le
      show Option.map _ ((Translator.ofGens G).translate x.2) = _
      rw [this]; rfl
  · rw [seriesCoef_map hs.sys hlt]
    have : seriesCoef r (floorId (tExp G) (tNum G) x) = seriesCoef outs (floorId (tExp G) (tNum G) x) := by
      rw [seriesCoef_eq_sum, seriesCoef_eq_sum]
      exact Finset.sum_congr rfl fun u _ => by rw [coefSum_eq_coefOf, coefSum_eq_coefOf, hco]
    rw [this, hser, if_congr (hs.mem_floor x).symm rfl rfl]
  · rw [List.map_map, List.Nodup, List.pairwise_map]
    have h5 := hred.1
    rw [List.Nodup, List.pairwise_map] at h5
    refine List.Pairwise.imp_of_mem ?_ h5
    intro a b ha hb hab he
    apply hab
    funext v
    have h6 : tExp G v (a.2 v) = tExp G v (b.2 v) := congrFun he v
    have h7 := hinj a ha b hb v
    have h8 := hinj b hb a ha v
    omega
  · intro x hx
    obtain ⟨y, hy, rfl⟩ := List.mem_map.1 hx
    exact hred.2 y hy
  · rw [← hr hcan] at hsort
    have h5 := hred.1
    rw [List.Nodup, List.pairwise_map] at h5
    rw [List.pairwise_map]
    refine List.Pairwise.imp_of_mem ?_ (hsort.and h5)
    intro a b ha hb hab
    obtain ⟨i, h6, h7⟩ := lexGreater_of_lexLE hab.1 hab.2
    exact ⟨i, fun j hj => by simp only [h6 j hj], (hinj b hb a ha i).2 h7⟩

/-- The same for the univariate series. -/
theorem feed_uni (order : List (ℤ × ℤ) → List (ℤ × ℤ)) (hord : ∀ l, (order l).Perm l) (canonical : Bool)
    (G : List (Term n)) {outs : List (ℤ × Term n)} (houtle : ∀ x ∈ outs, x.2 ≤ lcmOf (setIdeal G).2)
    (hser : ∀ x, seriesCoef outs x = if mem (setIdeal G).2 x then 0 else 1) :
    ∃ q : List (ℤ × ℕ), ((outs.mapM fun x => (translatedDegree (setIdeal G).1 x.2).map fun d => (x.1, d)).map fun l =>
        hashFeed (κ := ℤ) (· ≥ ·) order canonical (l.foldl (fun m x => hashAdd x.1 x.2 m) [])) =
          some (q.map fun x => (x.1, (x.2 : ℤ))) ∧ Reduced q ∧
      (canonical = true → q.Pairwise fun a b => a.2 > b.2) ∧
      (∀ p, IsHilbertNumerator p G → ∀ d, coefOf q d = coefOf (substT p) d) ∧
      ∀ d, uniSeriesCoef n q d = ((Finset.Nat.antidiagonalTuple n d).filter fun m : Term n => ¬ mem G m).card := by
  have hs := setIdeal_spec G
  have hsys := degSys_setIdeal G
  have hmap : (outs.mapM fun x => (translatedDegree (setIdeal G).1 x.2).map fun d => (x.1, d)) = some (uniImage (tExp G) outs) := by
    refine mapM_some _ _ _ fun x hx => ?_
    rw [hsys.degree (houtle x hx)]
    rfl
  obtain ⟨h5, h6⟩ := hashAddAll_spec (uniImage (tExp G) outs)
  set m := (uniImage (tExp G) outs).foldl (fun m x => hashAdd x.1 x.2 m) [] with hm
  have hperm := hashFeed_perm (κ := ℤ) (· ≥ ·) hord canonical m
  have hsort := hashFeed_sorted (κ := ℤ) (· ≥ ·) order m
  have hrt : canonical = true → hashFeed (κ := ℤ) (· ≥ ·) order canonical m = hashFeed (κ := ℤ) (· ≥ ·) order true m := by
    rintro rfl; rfl
  set r := hashFeed (κ := ℤ) (· ≥ ·) order canonical m with hr
  set p := outs.map (fun x => (x.1, fun v => tExp G v (x.2 v))) with hp
  have hnum : IsHilbertNumerator p G := fun x => by
    rw [hp, seriesCoef_map hs.sys fun y hy v => lt_of_le_of_lt (Term.le_def.1 (houtle y hy) v) (hs.lcm_le v), hser,
      if_congr (hs.mem_floor x).symm rfl rfl]
  have himg : uniImage (tExp G) outs = (substT p).map fun x => (x.1, (x.2 : ℤ)) := by
    rw [substT, hp, List.map_map, List.map_map]; rfl
  have hred := reduced_of_perm hperm.symm h5
  have hco : ∀ j, coefOf r j = coefOf ((substT p).map fun x => (x.1, (x.2 : ℤ))) j := fun j => by
    rw [coefOf_perm hperm, h6, himg]
  have hnn : ∀ x ∈ r, 0 ≤ x.2 := by
    intro x hx
    have h9 := (hred.mem_iff x).1 hx
    rw [hco] at h9
    by_contra hc
    rw [coefOf_notMem] at h9
    · exact h9.1 h9.2.symm
    · intro hk
      rw [List.map_map, List.mem_map] at hk
      obtain ⟨y, _, hy⟩ := hk
      simp only [Function.comp_apply] at hy
      omega
  have hrq : r = (r.map fun x => (x.1, x.2.toNat)).map fun x => (x.1, (x.2 : ℤ)) := by
    rw [List.map_map]
    refine (List.map_id r).symm.trans (List.map_congr_left fun x hx => ?_)
    have := hnn x hx
    refine Prod.ext rfl ?_
    simp; omega
  have hqco : ∀ d, coefOf (r.map fun x => (x.1, x.2.toNat)) d = coefOf (substT p) d := by
    intro d
    have cast : ∀ l : List (ℤ × ℕ), coefOf (l.map fun x => (x.1, (x.2 : ℤ))) (d : ℤ) = coefOf l d := by
      intro l
      induction l with
      | nil => rfl
      | cons a l ih => rw [List.map_cons, coefOf_cons, coefOf_cons, ih]; simp
    rw [← cast, ← cast, ← hrq, hco]
  refine ⟨r.map fun x => (x.1, x.2.toNat), ?_, ⟨?_, ?_⟩, fun hcan => ?_, fun p' hp' d => ?_, fun d => ?_⟩
  · rw [hmap, Option.map_some, ← hm, ← hr, ← hrq]
  · rw [List.Nodup, List.map_map, List.pairwise_map]
    have h10 := hred.1
    rw [List.Nodup, List.pairwise_map] at h10
    refine List.Pairwise.imp_of_mem ?_ h10
    intro a b ha hb h
    have := hnn a ha
    have := hnn b hb
    simp only [Function.comp_apply]; omega
  · intro x hx
    obtain ⟨y, hy, rfl⟩ := List.mem_map.1 hx
    exact hred.2 y hy
  · rw [← hrt hcan] at hsort
    have h10 := hred.1
    rw [List.Nodup, List.pairwise_map] at h10
    rw [List.pairwise_map]
    refine List.Pairwise.imp_of_mem ?_ (hsort.and h10)
    intro a b ha hb h
    have := hnn a ha
    have := hnn b hb
    obtain ⟨h11, h12⟩ := h
    simp only; omega
  · rw [hqco]
    exact coefOf_substT (fun m => by
      rw [← coefSum_eq_coefOf, ← coefSum_eq_coefOf]
      exact coefSum_eq_of_series (fun m => by rw [hp' m, hnum m]) m) d
  · rw [uniSeriesCoef_eq, ← hilbert_function hnum d, uniSeriesCoef_eq]
    exact Finset.sum_congr rfl fun k _ => by rw [hqco]


/-! ## the properties -/

/-- Every exponent that occurs among the generators given occurs in a minimal generator. This holds if the generators given
are minimal. -/
def Tight (G : List (Term n)) : Prop := ∀ g ∈ G, ∀ v, 0 < g v → ∃ h ∈ G, (∀ k ∈ G, k ≤ h → k = h) ∧ h v = g v

theorem Tight.of_anti {G : List (Term n)} (h : Anti G) : Tight G :=
  fun g hg _ _ => ⟨g, hg, fun _ hk hle => h.eq_of_le hk hg hle, rfl⟩

theorem Tight.noGaps {G : List (Term n)} (h : Tight G) : NoGaps (setIdeal G).2 := by
  have hs := setIdeal_spec G
  intro g hg v e he hle
  have hlt : e < tNum G v := lt_of_le_of_lt hle (hs.lt g hg v)
  have hepos : 0 < tExp G v e := by
    have := hs.sys.mono v 0 e he hlt
    omega
  obtain ⟨g', hg', hge⟩ := ofGens_used G v e he hlt
  obtain ⟨k, hk, hmin, hkv⟩ := h g' hg' v (by omega)
  obtain ⟨m, hm, hmle⟩ := hs.complete k hk
  have hmk := hmin _ (hs.sound m hm) (Term.le_def.2 hmle)
  refine ⟨m, hm, ?_⟩
  have h1 : tExp G v (m v) = tExp G v e := by
    rw [← hge, ← hkv]
    exact congrFun hmk v
  rcases Nat.lt_trichotomy (m v) e with h2 | h2 | h2
  · have := hs.sys.mono v _ _ h2 hlt; omega
  · exact h2
  · have := hs.sys.mono v _ _ h2 (hs.lt m hm v); omega

/-- C41, C12: with deformation to a strongly generic ideal, whatever the orders, the deformation algorithm terminates without
undefined behaviour and the consumer gets the numerator of the multigraded Hilbert-Poincaré series, each monomial once and no
zero coefficients. With canonical output the terms are in decreasing lexicographic order. -/
theorem C41_strong (o : ScarfOpts n) (hs : o.strong = true) (he : ∀ l, (o.enumOrder l).Perm l)
    (hd : ∀ l, (o.deformOrder l).Perm l) (order : List (ℤ × Term n) → List (ℤ × Term n)) (hord : ∀ l, (order l).Perm l)
    (canonical : Bool) (G : List (Term n)) :
    ∃ p : List (ℤ × Term n), facadeScarf o order canonical G = some (p.map fun x => (x.1, toInt x.2)) ∧
      IsHilbertNumerator p G ∧ Reduced p ∧ (canonical = true → p.Pairwise fun a b => LexGreater a.2 b.2) := by
  obtain ⟨outs, h1, h2, h3⟩ := scarfRun_spec o he hd (setIdeal_spec G).anti.nodup (Or.inl hs)
  unfold facadeScarf
  rw [h1]
  exact feed_multi order hord canonical G h2 h3

/-- C41: what remains true with the default, deformation to a weakly generic ideal: the same, for all input in which every
exponent occurs in a minimal generator, in particular for minimal generators. Without this it is false:
`C41_weak_wrong`. -/
theorem C41_weak_partial (o : ScarfOpts n) (he : ∀ l, (o.enumOrder l).Perm l)
    (hd : ∀ l, (o.deformOrder l).Perm l) (order : List (ℤ × Term n) → List (ℤ × Term n)) (hord : ∀ l, (order l).Perm l)
    (canonical : Bool) (G : List (Term n)) (hG : Tight G) :
    ∃ p : List (ℤ × Term n), facadeScarf o order canonical G = some (p.map fun x => (x.1, toInt x.2)) ∧
      IsHilbertNumerator p G ∧ Reduced p ∧ (canonical = true → p.Pairwise fun a b => LexGreater a.2 b.2) := by
  obtain ⟨outs, h1, h2, h3⟩ := scarfRun_spec o he hd (setIdeal_spec G).anti.nodup (Or.inr hG.noGaps)
  unfold facadeScarf
  rw [h1]
  exact feed_multi order hord canonical G h2 h3

/-- C41, C13: the univariate series, under the conditions of the two theorems above. -/
theorem C41_univariate (o : ScarfOpts n) (he : ∀ l, (o.enumOrder l).Perm l)
    (hd : ∀ l, (o.deformOrder l).Perm l) (order : List (ℤ × ℤ) → List (ℤ × ℤ)) (hord : ∀ l, (order l).Perm l)
    (canonical : Bool) (G : List (Term n)) (hG : o.strong = true ∨ Tight G) :
    ∃ q : List (ℤ × ℕ), facadeScarfUnivariate o order canonical G = some (q.map fun x => (x.1, (x.2 : ℤ))) ∧ Reduced q ∧
      (canonical = true → q.Pairwise fun a b => a.2 > b.2) ∧
      (∀ p, IsHilbertNumerator p G → ∀ d, coefOf q d = coefOf (substT p) d) ∧
      ∀ d, uniSeriesCoef n q d = ((Finset.Nat.antidiagonalTuple n d).filter fun m : Term n => ¬ mem G m).card := by
  obtain ⟨outs, h1, h2, h3⟩ := scarfRun_spec o he hd (setIdeal_spec G).anti.nodup (hG.imp_right Tight.noGaps)
  unfold facadeScarfUnivariate
  rw [h1]
  exact feed_uni order hord canonical G h2 h3

/-- C41: the deformation algorithm and the algorithm of Bigatti et al. give the same canonical output, under the same
conditions. -/
theorem C41_agrees_with_bigatti (o : ScarfOpts n) (he : ∀ l, (o.enumOrder l).Perm l)
    (hd : ∀ l, (o.deformOrder l).Perm l) (o' : BOpts) (order order' : List (ℤ × Term n) → List (ℤ × Term n))
    (hord : ∀ l, (order l).Perm l) (hord' : ∀ l, (order' l).Perm l) (G : List (Term n)) (hG : o.strong = true ∨ Tight G) :
    facadeScarf o order true G = facadeBigatti o' order' true G := by
  have key : ∃ p : List (ℤ × Term n), facadeScarf o order true G = some (p.map fun x => (x.1, toInt x.2)) ∧
      IsHilbertNumerator p G ∧ Reduced p ∧ (true = true → p.Pairwise fun a b => LexGreater a.2 b.2) := by
    rcases hG with hG | hG
    · exact C41_strong o hG he hd order hord true G
    · exact C41_weak_partial o he hd order hord true G hG
  obtain ⟨p, h1, h2, h3, h4⟩ := key
  obtain ⟨q, h5, h6, h7, h8⟩ := C29_multigraded o' order' hord' true G
  have hperm : p.Perm q := h3.perm h7 fun m => by
    rw [← coefSum_eq_coefOf, ← coefSum_eq_coefOf]
    exact coefSum_eq_of_series (fun m => by rw [h2 m, h6 m]) m
  rw [h1, h5, eq_of_sorted hperm (h4 rfl) (h8 rfl)]

/-- The faces of the Scarf complex of a set of monomials with the property that two that share a positive exponent have a
third strictly dividing their lcm: there are at most as many elements as variables. This is why the enumeration may stop at
that size. -/
theorem C41_face_size (D : List (Term n)) (hD : ∀ a ∈ D, ∀ b ∈ D, a ≠ b → (∃ v, a v = b v ∧ a v ≠ 0) →
      ∃ c ∈ D, Term.strictlyDivides c (a ⊔ b)) (h0 : (0 : Term n) ∉ D) (S : Finset (Term n)) (hS : ∀ g ∈ S, g ∈ D)
    (hface : ∀ c ∈ D, ¬ Term.strictlyDivides c (S.sup id)) : S.card ≤ n := by
  refine face_card (fun a ha b hb hab v h1 h2 => ?_) h0 hS ?_
  · rw [strictlyContains_iff]
    exact hD a ha b hb hab ⟨v, h1, h2⟩
  · rw [Bool.eq_false_iff]
    intro hc
    obtain ⟨c, hc, hsd⟩ := strictlyContains_iff.1 hc
    exact hface c hc hsd

/-- C41: the tree that `IdealTree` builds answers as the list of generators does, for generators without duplicates. -/
theorem C41_tree (G : List (Term n)) (hG : G.Nodup) :
    ∃ T l, makeNode (G.length + 1) G = some (T, l) ∧ l.Perm G ∧
      ∀ t, T.strictlyContains t = true ↔ ∃ g ∈ G, Term.strictlyDivides g t := by
  obtain ⟨T, l, h1, h2, h3⟩ := makeNode_spec (G.length + 1) G hG (by omega)
  exact ⟨T, l, h1, h2, fun t => by rw [h3, strictlyContains_iff]⟩

/-- The input for which the default options give a wrong result. The last three generators are redundant. -/
def weakWitness : List (Term 3) :=
  [![1, 1, 3], ![2, 3, 0], ![3, 2, 0], ![0, 3, 3], ![2, 0, 3], ![2, 3, 1], ![3, 2, 1], ![4, 4, 2]]

/-- C41 is false for the default options: on this input the coefficient of the last term comes out as `-2` instead of `-1`,
so that the polynomial is not the numerator of the Hilbert-Poincaré series. The deformed ideal is not weakly generic and the
enumeration cuts off a face with four elements. -/
theorem C41_weak_wrong : ∃ o : ScarfOpts 3, ScarfOpts.named id false "revlex".toList "tdeg_lex".toList = some o ∧
    ∃ p : List (ℤ × Term 3), facadeScarf o id true weakWitness = some (p.map fun x => (x.1, toInt x.2)) ∧
      ¬ IsHilbertNumerator p weakWitness := by
  refine ⟨⟨false, runOrders id [⟨true, .lex⟩], runOrders id [⟨false, .tdeg⟩, ⟨false, .lex⟩]⟩, ?_,
    [(-2, ![3, 3, 3]), (1, ![3, 3, 0]), (1, ![3, 2, 3]), (-1, ![3, 2, 0]), (1, ![2, 3, 3]), (-1, ![2, 3, 0]), (1, ![2, 1, 3]),
      (-1, ![2, 0, 3]), (1, ![1, 3, 3]), (-1, ![1, 1, 3]), (-1, ![0, 3, 3]), (1, ![0, 0, 0])], by decide +kernel, fun h => ?_⟩
  · have h1 : createIdealOrderer "revlex".toList = .ok (some [⟨true, .lex⟩]) := by decide +kernel
    have h2 : createIdealOrderer "tdeg_lex".toList = .ok (some [⟨false, .tdeg⟩, ⟨false, .lex⟩]) := by decide +kernel
    simp only [ScarfOpts.named, h1, h2]
  · have := h ![3, 3, 3]
    revert this
    decide +kernel

/-! Concrete cases. -/

/-- `⟨x^2, xy, y^2⟩` with the default options. -/
example : facadeScarf ⟨false, runOrders id [⟨true, .lex⟩], runOrders id [⟨false, .tdeg⟩, ⟨false, .lex⟩]⟩ id true
    [![2, 0], ![1, 1], ![0, 2]] =
    some [(1, ![2, 1]), (-1, ![2, 0]), (1, ![1, 2]), (-1, ![1, 1]), (-1, ![0, 2]), (1, ![0, 0])] := by decide +kernel

/-- The input of `C41_weak_wrong` with deformation to a strongly generic ideal. -/
example : facadeScarf ⟨true, runOrders id [⟨true, .lex⟩], runOrders id [⟨false, .tdeg⟩, ⟨false, .lex⟩]⟩ id true weakWitness =
    some [(-1, ![3, 3, 3]), (1, ![3, 3, 0]), (1, ![3, 2, 3]), (-1, ![3, 2, 0]), (1, ![2, 3, 3]), (-1, ![2, 3, 0]),
      (1, ![2, 1, 3]), (-1, ![2, 0, 3]), (1, ![1, 3, 3]), (-1, ![1, 1, 3]), (-1, ![0, 3, 3]), (1, ![0, 0, 0])] := by
  decide +kernel

/-- Generators that share exponents meet the condition of `C41_weak_partial`. -/
example : Tight ([![1, 1, 0], ![1, 0, 1], ![0, 1, 1]] : List (Term 3)) :=
  Tight.of_anti (by unfold Anti; decide)

/-- In one variable: `1 - 3 t^2 + 2 t^3`. -/
example : facadeScarfUnivariate ⟨false, runOrders id [⟨true, .lex⟩], runOrders id [⟨false, .tdeg⟩, ⟨false, .lex⟩]⟩ id true
    [![1, 1, 0], ![1, 0, 1], ![0, 1, 1]] = some [(2, 3), (-3, 2), (1, 0)] := by decide +kernel

end Frobby
