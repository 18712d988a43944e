import Verif.HilbertActionModel
import Verif.ActionLemmas4
import Verif.PropsScarf
import Verif.PropsOrderer
import Verif.PropsHilbert

/-!
# Lemmas about the action `hilbert`
-/

namespace Frobby

variable {n : ℕ}

/-- The orders in which the hash tables are traversed and the shuffle keep all elements. -/
structure HilbertEnv.Ok (env : HilbertEnv) : Prop where
  hash : ∀ n l, (env.hash n l).Perm l
  hashUni : ∀ l, (env.hashUni l).Perm l
  shuffle : ∀ n l, (env.shuffle n l).Perm l

/-- What the algorithm needs of its options and of the ideal. -/
def HilbertAlg.Fits (M : List (Term n)) : HilbertAlg → Prop
  | .bigatti _ => True
  | .slice o => o.valid .hilbert
  | .deform strong _ _ => strong = true ∨ NoGaps M

/-! ## in identifiers -/

theorem foldl_polyAdd : ∀ (outs q : List (ℤ × Term n)), (∀ x ∈ outs, x.1 ≠ 0) → outs.foldl (fun q x => polyAdd x.1 x.2 q) q = q ++ outs := by
  intro outs
  induction outs with
  | nil => intro q _; simp
  | cons a l ih =>
    intro q h
    rw [List.foldl_cons, ih _ fun x hx => h x (by simp [hx]), polyAdd, if_neg (h a (by simp))]
    simp

/-- The polynomial in identifiers is the numerator. -/
structure IsResult (M : List (Term n)) (canon : Bool) (r : List (ℤ × Term n)) : Prop where
  numerator : IsHilbertNumerator r M
  reduced : Reduced r
  le : ∀ x ∈ r, x.2 ≤ lcmOf M
  sorted : canon = true → r.Pairwise fun a b => lexLE b.2 a.2 ∧ a.2 ≠ b.2

theorem isResult_hash {M : List (Term n)} (order : List (ℤ × Term n) → List (ℤ × Term n)) (hord : ∀ l, (order l).Perm l) (canon : Bool)
    {outs : List (ℤ × Term n)} (hle : ∀ x ∈ outs, x.2 ≤ lcmOf M) (hser : ∀ x, seriesCoef outs x = if mem M x then 0 else 1) :
    IsResult M canon (hashFeed (fun a b => lexLE b a) order canon (outs.foldl (fun m x => hashAdd x.1 x.2 m) [])) := by
  obtain ⟨h3, h4⟩ := hashAddAll_spec outs
  set m := outs.foldl (fun m x => hashAdd x.1 x.2 m) [] with hm
  have hperm := hashFeed_perm (fun a b : Term n => lexLE b a) hord canon m
  have htot : Std.Total (fun a b : Term n => lexLE b a) := ⟨fun a b => Std.Total.total (r := lexLE) b a⟩
  have htr : IsTrans (Term n) (fun a b : Term n => lexLE b a) := ⟨fun a b c h h' => _root_.trans (r := lexLE) h' h⟩
  have hsort := hashFeed_sorted (fun a b : Term n => lexLE b a) order m
  have hr : canon = true → hashFeed (fun a b : Term n => lexLE b a) order canon m =
    hashFeed (fun a b : Term n => lexLE b a) order true m := by rintro rfl; rfl
  set r := hashFeed (fun a b : Term n => lexLE b a) order canon m with hrdef
  have hred := reduced_of_perm hperm.symm h3
  have hco : ∀ k, coefOf r k = coefOf outs k := fun k => by rw [coefOf_perm hperm, h4]
  refine ⟨fun x => ?_, hred, ?_, fun hcan => ?_⟩
  · have : seriesCoef r x = seriesCoef outs x := by
      rw [seriesCoef_eq_sum, seriesCoef_eq_sum]
      exact Finset.sum_congr rfl fun u _ => by rw [coefSum_eq_coefOf, coefSum_eq_coefOf, hco]
    rw [this, hser]
  · intro x hx
    by_contra hc
    have h5 := (hred.mem_iff x).1 hx
    rw [hco, coefOf_notMem] at h5
    · exact h5.1 h5.2.symm
    · intro hk
      obtain ⟨y, hy, hyx⟩ := List.mem_map.1 hk
      rw [← hyx] at hc
      exact hc (hle y hy)
  · rw [← hr hcan] at hsort
    have h5 := hred.1
    rw [List.Nodup, List.pairwise_map] at h5
    exact hsort.and h5

theorem hilbertTerms_spec {env : HilbertEnv} (henv : env.Ok) (canon : Bool) (p : Prepared n) {a : HilbertAlg} (hM : Anti p.ideal) (ha : a.Fits p.ideal) :
    ∃ r, hilbertTerms env canon p a = some r ∧ IsResult p.ideal canon r := by
  cases a with
  | bigatti o =>
    obtain ⟨outs, h1, h2⟩ := bigattiRun_multi o hM
    refine ⟨_, ?_, isResult_hash (env.hash n) (henv.hash n) canon (outs := polyOf outs) h2.le h2.series⟩
    simp only [hilbertTerms, h1, Option.bind_some, foldlM_addTo outs [] h2.isTerm, Option.map_some]
  | slice o =>
    obtain ⟨outs, h1, h2, h3, h4⟩ := hilbertRun_numerator ha env.rnd hM
    simp only [hilbertTerms, h1, Option.map_some, foldl_polyAdd outs [] h3.2, List.nil_append]
    refine ⟨_, rfl, ?_⟩
    cases canon with
    | false => exact ⟨h2, h3, h4, nofun⟩
    | true =>
      rw [if_pos rfl]
      have hp := polySort_perm h3
      refine ⟨fun m => ?_, reduced_of_perm hp.symm h3, fun x hx => h4 x (hp.mem_iff.1 hx), fun _ => (polySort_spec outs).2.1⟩
      rw [← h2 m, seriesCoef, seriesCoef]
      exact ((hp.filter _).map _).sum_eq
  | deform strong a b =>
    obtain ⟨outs, h1, h2, h3⟩ := scarfRun_spec ⟨strong, runOrders (env.shuffle n) a, runOrders (env.shuffle n) b⟩ (fun l => C42_perm (henv.shuffle n) a l)
      (fun l => C42_perm (henv.shuffle n) b l) hM.nodup ha
    refine ⟨_, ?_, isResult_hash (env.hash n) (henv.hash n) canon (outs := outs) h2 h3⟩
    simp only [hilbertTerms, h1, Option.map_some]

/-! ## with exponents -/

theorem degSys_of_spec {G M : List (Term n)} (hs : IdSpec (tExp G) (tNum G) G M) : DegSys (Translator.ofGens G) (tExp G) (lcmOf M) := by
  refine ⟨fun t ht => translate_ofGens G fun v => ((Term.le_def.1 ht v).trans (hs.lcm_le v).le), fun v i j hij hj => ?_⟩
  rcases Nat.eq_or_lt_of_le hij with rfl | hlt
  · exact le_refl _
  · exact (hs.sys.mono v i j hlt (lt_of_le_of_lt hj (hs.lcm_le v))).le

/-- The polynomial with exponents instead of identifiers. -/
def withExponents (G : List (Term n)) (r : List (ℤ × Term n)) : List (ℤ × Term n) := r.map fun x => (x.1, fun v => tExp G v (x.2 v))

theorem withExponents_numerator {G M : List (Term n)} (hs : IdSpec (tExp G) (tNum G) G M) {r : List (ℤ × Term n)} (hle : ∀ x ∈ r, x.2 ≤ lcmOf M)
    (h : ∀ x, seriesCoef r x = if mem M x then 0 else 1) : IsHilbertNumerator (withExponents G r) G := fun x => by
  rw [withExponents, seriesCoef_map hs.sys fun y hy v => lt_of_le_of_lt (Term.le_def.1 (hle y hy) v) (hs.lcm_le v), h, if_congr (hs.mem_floor x).symm rfl rfl]

/-- The polynomial is the numerator. -/
structure IsExpResult (G : List (Term n)) (canon : Bool) (p : List (ℤ × Term n)) : Prop where
  numerator : IsHilbertNumerator p G
  reduced : Reduced p
  sorted : canon = true → p.Pairwise fun a b => LexGreater a.2 b.2

theorem IsResult.withExponents {G M : List (Term n)} (hs : IdSpec (tExp G) (tNum G) G M) {canon : Bool} {r : List (ℤ × Term n)} (h : IsResult M canon r) :
    IsExpResult G canon (withExponents G r) := by
  have hlt : ∀ x ∈ r, ∀ v, x.2 v < tNum G v := fun x hx v => lt_of_le_of_lt (Term.le_def.1 (h.le x hx) v) (hs.lcm_le v)
  have hinj : ∀ a ∈ r, ∀ b ∈ r, ∀ v, tExp G v (a.2 v) < tExp G v (b.2 v) ↔ a.2 v < b.2 v := by
    intro a ha b hb v
    rcases Nat.lt_trichotomy (a.2 v) (b.2 v) with h7 | h7 | h7
    · have := hs.sys.mono v _ _ h7 (hlt b hb v); omega
    · rw [h7]; omega
    · have := hs.sys.mono v _ _ h7 (hlt a ha v); omega
  refine ⟨withExponents_numerator hs h.le h.numerator, ⟨?_, ?_⟩, fun hc => ?_⟩
  · rw [Frobby.withExponents, List.map_map, List.Nodup, List.pairwise_map]
    have h5 := h.reduced.1
    rw [List.Nodup, List.pairwise_map] at h5
    refine List.Pairwise.imp_of_mem ?_ h5
    intro a b ha hb hab he
    apply hab
    funext v
    have h6 : tExp G v (a.2 v) = tExp G v (b.2 v) := congrFun he v
    have h7 := hinj a ha b hb v
    have h8 := hinj b hb a ha v
    omega
  · intro x hx
    obtain ⟨y, hy, rfl⟩ := List.mem_map.1 hx
    exact h.reduced.2 y hy
  · rw [Frobby.withExponents, List.pairwise_map]
    refine List.Pairwise.imp_of_mem ?_ (h.sorted hc)
    intro a b ha hb hab
    obtain ⟨i, h6, h7⟩ := lexGreater_of_lexLE hab.1 hab.2
    exact ⟨i, fun j hj => by simp only [h6 j hj], (hinj b hb a ha i).2 h7⟩

theorem bigTerm_ofGens {G M : List (Term n)} (hs : IdSpec (tExp G) (tNum G) G M) {t : Term n} (ht : t ≤ lcmOf M) :
    (Translator.ofGens G).bigTerm t = some (List.ofFn fun v => tExp G v (t v)) := by
  unfold Translator.bigTerm
  rw [(degSys_of_spec hs).translate t ht, Option.bind_some, if_pos fun v => by simp]
  simp

theorem hilbertText_spec {G : List (Term n)} (w : NamedPoly → Text) (p : Prepared n) (hT : p.translator = Translator.ofGens G) (hs : IdSpec (tExp G) (tNum G) G p.ideal)
    {r : List (ℤ × Term n)} (hr : ∀ x ∈ r, x.2 ≤ lcmOf p.ideal) :
    hilbertText w p r = some (w { names := p.names, terms := (withExponents G r).map fun x => (x.1, List.ofFn x.2) }) := by
  unfold hilbertText
  rw [mapM_some _ (fun x : ℤ × Term n => (x.1, List.ofFn fun v => tExp G v (x.2 v))), Option.map_some, withExponents, List.map_map]
  · rfl
  · intro x hx
    rw [hT, bigTerm_ofGens hs (hr x hx)]
    rfl

/-! ## in one variable -/

theorem coefOf_cast (l : List (ℤ × ℕ)) (d : ℕ) : coefOf (l.map fun x => (x.1, (x.2 : ℤ))) (d : ℤ) = coefOf l d := by
  induction l with
  | nil => rfl
  | cons a l ih => rw [List.map_cons, coefOf_cons, coefOf_cons, ih]; simp

/-- Polynomials in one variable in a hash table, whose exponents are not negative. -/
theorem uni_hash (order : List (ℤ × ℤ) → List (ℤ × ℤ)) (hord : ∀ l, (order l).Perm l) (canon : Bool) {U : List (ℤ × ℤ)} {S : List (ℤ × ℕ)}
    (hU : ∀ k, coefOf U k = coefOf (S.map fun x => (x.1, (x.2 : ℤ))) k) :
    ∃ q : List (ℤ × ℕ), hashFeed (κ := ℤ) (· ≥ ·) order canon (U.foldl (fun m x => hashAdd x.1 x.2 m) []) = q.map (fun x => (x.1, (x.2 : ℤ))) ∧ Reduced q ∧
      (canon = true → q.Pairwise fun a b => a.2 > b.2) ∧ ∀ d, coefOf q d = coefOf S d := by
  obtain ⟨h5, h6⟩ := hashAddAll_spec U
  set m := U.foldl (fun m x => hashAdd x.1 x.2 m) [] with hm
  have hperm := hashFeed_perm (κ := ℤ) (· ≥ ·) hord canon m
  have hsort := hashFeed_sorted (κ := ℤ) (· ≥ ·) order m
  have hrt : canon = true → hashFeed (κ := ℤ) (· ≥ ·) order canon m = hashFeed (κ := ℤ) (· ≥ ·) order true m := by
    rintro rfl; rfl
  set r := hashFeed (κ := ℤ) (· ≥ ·) order canon m with hr
  have hred := reduced_of_perm hperm.symm h5
  have hco : ∀ j, coefOf r j = coefOf (S.map fun x => (x.1, (x.2 : ℤ))) j := fun j => by rw [coefOf_perm hperm, h6, hU]
  have hnn : ∀ x ∈ r, 0 ≤ x.2 := by
    intro x hx
    have h9 := (hred.mem_iff x).1 hx
    rw [hco] at h9
    by_contra hc
    rw [coefOf_notMem] at h9
    · exact h9.1 h9.2.symm
    · intro hk
      rw [List.map_map, List.mem_map] at hk
      obtain ⟨y, _, hy⟩ := hk
      simp only [Function.comp_apply] at hy
      omega
  have hrq : r = (r.map fun x => (x.1, x.2.toNat)).map fun x => (x.1, (x.2 : ℤ)) := by
    rw [List.map_map]
    refine (List.map_id r).symm.trans (List.map_congr_left fun x hx => ?_)
    have := hnn x hx
    refine Prod.ext rfl ?_
    simp; omega
  refine ⟨r.map fun x => (x.1, x.2.toNat), hrq, ⟨?_, ?_⟩, fun hcan => ?_, fun d => by rw [← coefOf_cast, ← coefOf_cast, ← hrq, hco]⟩
  · rw [List.Nodup, List.map_map, List.pairwise_map]
    have h10 := hred.1
    rw [List.Nodup, List.pairwise_map] at h10
    refine List.Pairwise.imp_of_mem ?_ h10
    intro a b ha hb h
    have := hnn a ha
    have := hnn b hb
    simp only [Function.comp_apply]; omega
  · intro x hx
    obtain ⟨y, hy, rfl⟩ := List.mem_map.1 hx
    exact hred.2 y hy
  · rw [← hrt hcan] at hsort
    have h10 := hred.1
    rw [List.Nodup, List.pairwise_map] at h10
    rw [List.pairwise_map]
    refine List.Pairwise.imp_of_mem ?_ (hsort.and h10)
    intro a b ha hb h
    have := hnn a ha
    have := hnn b hb
    obtain ⟨h11, h12⟩ := h
    simp only; omega

theorem uniImage_eq (G : List (Term n)) (r : List (ℤ × Term n)) : uniImage (tExp G) r = (substT (withExponents G r)).map fun x => (x.1, (x.2 : ℤ)) := by
  rw [substT, withExponents, List.map_map, List.map_map]; rfl

theorem hilbertUniTerms_spec {env : HilbertEnv} (henv : env.Ok) (canon : Bool) (p : Prepared n) {a : HilbertAlg} {G : List (Term n)}
    (hT : p.translator = Translator.ofGens G) (hs : IdSpec (tExp G) (tNum G) G p.ideal) (ha : a.Fits p.ideal) :
    ∃ q : List (ℤ × ℕ), hilbertUniTerms env canon p a = some (q.map fun x => (x.1, (x.2 : ℤ))) ∧ Reduced q ∧ (canon = true → q.Pairwise fun a b => a.2 > b.2) ∧
      ∃ P, IsHilbertNumerator P G ∧ ∀ d, coefOf q d = coefOf (substT P) d := by
  have hM := hs.anti
  have hsys := degSys_of_spec hs
  cases a with
  | bigatti o =>
    obtain ⟨outs, h1, h2⟩ := bigattiRun_multi o hM
    obtain ⟨uouts, h3, h4⟩ := loop_sim o hsys _ [⟨0, p.ideal⟩] outs (by simpa using (⟨hM, by simp⟩ : BInv (lcmOf p.ideal) (⟨0, p.ideal⟩ : BState n))) h1
    obtain ⟨q, h5, h6, h7, h8⟩ := uni_hash env.hashUni henv.hashUni canon (U := uouts.flatMap (BOut.uni (tExp G)))
      (S := substT (withExponents G (polyOf outs))) (fun k => by rw [h4.coef, uniImage_eq])
    refine ⟨q, ?_, h6, h7, _, withExponents_numerator hs h2.le h2.series, h8⟩
    simp only [hilbertUniTerms, hT]
    rw [show bigattiRun (some (Translator.ofGens G)) o p.ideal = some uouts from h3]
    simp only [Option.bind_some, foldlM_addToUni hsys uouts [] h4.le, Option.map_some, h5]
  | slice o =>
    obtain ⟨outs, h1, h2, h3, h4⟩ := hilbertRun_numerator ha env.rnd hM
    obtain ⟨q, h5, h6, h7, h8⟩ := uni_hash env.hashUni henv.hashUni true (U := uniImage (tExp G) outs)
      (S := substT (withExponents G outs)) (fun k => by rw [uniImage_eq])
    refine ⟨q, ?_, h6, fun _ => h7 rfl, _, withExponents_numerator hs h4 h2, h8⟩
    simp only [hilbertUniTerms, hT, h1, Option.bind_some]
    rw [foldlM_totalDegree (fun t v => tExp G v (t v)) outs [] fun x hx => hsys.translate x.2 (h4 x hx), Option.map_some]
    exact congrArg some h5
  | deform strong a b =>
    obtain ⟨outs, h1, h2, h3⟩ := scarfRun_spec ⟨strong, runOrders (env.shuffle n) a, runOrders (env.shuffle n) b⟩ (fun l => C42_perm (henv.shuffle n) a l)
      (fun l => C42_perm (henv.shuffle n) b l) hM.nodup ha
    have hmap : (outs.mapM fun x => (translatedDegree (Translator.ofGens G) x.2).map fun d => (x.1, d)) = some (uniImage (tExp G) outs) := by
      refine mapM_some _ _ _ fun x hx => ?_
      rw [hsys.degree (h2 x hx)]
      rfl
    obtain ⟨q, h5, h6, h7, h8⟩ := uni_hash env.hashUni henv.hashUni canon (U := uniImage (tExp G) outs)
      (S := substT (withExponents G outs)) (fun k => by rw [uniImage_eq])
    refine ⟨q, ?_, h6, h7, _, withExponents_numerator hs h2 h3, h8⟩
    simp only [hilbertUniTerms, hT, h1, Option.bind_some, hmap, Option.map_some, h5]

theorem hilbertUniText_spec (w : NamedPoly → Text) (q : List (ℤ × ℕ)) :
    hilbertUniText w (q.map fun x => (x.1, (x.2 : ℤ))) = some (w { names := [t!"t"], terms := q.map fun x => (x.1, [x.2]) }) := by
  unfold hilbertUniText
  rw [if_pos]
  · rw [List.map_map]
    congr 3
  · intro x hx
    obtain ⟨y, _, rfl⟩ := List.mem_map.1 hx
    simp

end Frobby
