import Verif.ActionLemmas4
import Verif.PrimaryLemmas
import Verif.PropsApi

/-!
# Lemmas about the actions: what each of them prints
-/

namespace Frobby

variable {n : ℕ}

/-- The generators in the order in which they are printed. -/
def arranged (canon : Bool) (E : List (Term n)) : List (Term n) := if canon then vecSort E else E

theorem arranged_perm (canon : Bool) (E : List (Term n)) : (arranged canon E).Perm E := by
  unfold arranged
  split
  · exact vecSort_perm E
  · exact List.Perm.refl _

theorem arranged_sorted {canon : Bool} (hc : canon = true) (E : List (Term n)) : ((arranged canon E).map fun t => List.ofFn t).Pairwise fun a b => b ≤ a := by
  unfold arranged
  rw [if_pos hc]
  exact vecSort_sorted E

/-- What all actions have in common, for the lists of terms of what they print. -/
structure SortedIf (canon : Bool) (N : List Text) (E : List (Term N.length)) : Prop where
  sorted : canon = true → (E.map fun t => List.ofFn t).Pairwise fun a b => b ≤ a

theorem map_nodup_sub {outs : List (Term n)} {e : Fin n → ℕ → ℕ} (h : (outs.map fun t v => e v (t v) - 1).Nodup) : (outs.map fun t v => e v (t v)).Nodup := by
  have : (outs.map fun t v => e v (t v) - 1) = (outs.map fun t v => e v (t v)).map fun (t : Term n) v => t v - 1 := by
    rw [List.map_map]; rfl
  rw [this] at h
  exact h.of_map _

theorem maxstandard_core {o : Opts} (ho : o.valid .msm) (rnd : List ℕ → ℕ → ℕ) (canon increment : Bool) (w : CallWriter) {I : NamedIdeal} {N : List Text} {T : Translator n}
    {M G : List (Term n)} (h : PreparedSpec I N T M G) (hI : I.Ok) :
    ∃ E : List (Term N.length), ((msmRun o rnd M).bind fun outs =>
        outputWith canon false w N (if increment then T else T.decrement) (idealEvents outs)) = some (w N (bigIdeal E)) ∧ SortedIf canon N E ∧
      (E.map (nm N)).Nodup ∧ ∀ f, f ∈ E.map (nm N) ↔ ∃ s, I.MaxStandard s ∧ f = fun x => if x ∈ N ∧ increment = true then s x + 1 else s x := by
  have hN := h.length
  subst hN
  obtain ⟨outs, h1, h2, h3, h4, h5⟩ := msm_outs_of ho rnd h.ideal
  obtain ⟨E, hE, hE0⟩ : ∃ E, E = (outs.map fun t v => if increment then tExp G v (t v) else tExp G v (t v) - 1) ∧
      ((msmRun o rnd M).bind fun outs => outputWith canon false w N (if increment then T else T.decrement) (idealEvents outs)) =
        some (w N (bigIdeal (arranged canon E))) := by
    refine ⟨_, rfl, ?_⟩
    rw [h1, Option.bind_some]
    cases increment with
    | true =>
      simp only [if_true]
      rw [outputWith_ideal canon w N (X := fun t v => tExp G v (t v))]
      · rfl
      · intro t ht
        rw [h.translator]
        exact translates_of (translate_ofGens G fun v => (h2 t ht v).2.le)
    | false =>
      simp only [Bool.false_eq_true, if_false]
      rw [outputWith_ideal canon w N (X := fun t v => tExp G v (t v) - 1)]
      · rfl
      · intro t ht
        rw [h.translator]
        refine translates_of ?_
        rw [translate_decrement G fun v => (h2 t ht v).2.le]
        congr 1; funext v
        have := h3 t ht v
        omega
  refine ⟨arranged canon E, hE0, ⟨fun hc => arranged_sorted hc E⟩, ?_, ?_⟩
  · refine ((arranged_perm canon E).map _).nodup_iff.2 (List.Nodup.map (nm_injective rfl h.nodup) ?_)
    rw [hE]
    cases increment
    · exact h4
    · exact map_nodup_sub h4
  · intro f
    rw [((arranged_perm canon E).map _).mem_iff]
    constructor
    · intro hf
      obtain ⟨t, ht, rfl⟩ := List.mem_map.1 hf
      rw [hE] at ht
      obtain ⟨u, hu, rfl⟩ := List.mem_map.1 ht
      refine ⟨nm N fun v => tExp G v (u v) - 1, (msm_names h hI _).2 ((h5 _).1 (List.mem_map.2 ⟨u, hu, rfl⟩)), ?_⟩
      funext x
      by_cases hx : x ∈ N
      · obtain ⟨v, rfl⟩ := exists_var (n := N.length) rfl hx
        rw [nm_at rfl h.nodup, nm_at rfl h.nodup]
        have := h3 u hu v
        cases increment
        · simp
        · simp only [if_true, hx, and_self]; omega
      · rw [nm_zero rfl _ hx, nm_zero rfl _ hx, if_neg fun h' => hx h'.1]
    · rintro ⟨s, hs, rfl⟩
      have hs0 : nm N (onN N.length N s) = s := nm_on rfl h.nodup fun x hx => hs.outside x fun hx' => hx (h.perm.mem_iff.2 hx')
      rw [← hs0, msm_names h hI, ← h5] at hs
      obtain ⟨u, hu, he⟩ := List.mem_map.1 hs
      refine List.mem_map.2 ⟨fun v => if increment then tExp G v (u v) else tExp G v (u v) - 1, by rw [hE]; exact List.mem_map.2 ⟨u, hu, rfl⟩, ?_⟩
      funext x
      by_cases hx : x ∈ N
      · obtain ⟨v, rfl⟩ := exists_var (n := N.length) rfl hx
        rw [nm_at rfl h.nodup]
        have h6 : tExp G v (u v) - 1 = s (N.getD v []) := congrFun he v
        have := h3 u hu v
        cases increment
        · simpa using h6
        · simp only [if_true, hx, and_self]; omega
      · rw [nm_zero rfl _ hx, if_neg fun h' => hx h'.1, ← hs0, nm_zero rfl _ hx]

theorem irrdecom_core {o : Opts} (ho : o.valid .msm) (rnd : List ℕ → ℕ → ℕ) (canon encode : Bool) (w : CallWriter) {I : NamedIdeal} {N : List Text} {T : Translator n}
    {M G : List (Term n)} (h : PreparedSpec I N T M G) (hI : I.Ok) :
    ∃ E : List (Term N.length), ((msmRun o rnd (T.addPurePowers M)).bind fun outs => outputWith canon (!encode) w N T (idealEvents outs)) =
        some (w N (if encode then bigIdeal E else bigList (E.map irrGens))) ∧ SortedIf canon N E ∧ I.EncodedDecom (E.map (nm N)) := by
  have hN := h.length
  subst hN
  obtain ⟨outs, h1, hP, h2⟩ := encoded_outs_of ho rnd h.ideal
  have hD := h2.irrDecomp hP h.ideal
  have hX : ∀ t ∈ outs, Translates (Translator.ofGens G) (fun t v => tExp G v (t v)) t := fun t ht => translates_of (translate_ofGens G (h2.le t ht))
  refine ⟨arranged canon (outs.map fun t v => tExp G v (t v)), ?_, ⟨fun hc => arranged_sorted hc _⟩, ?_⟩
  · rw [h.translator, h1, Option.bind_some]
    cases encode with
    | true =>
      simp only [Bool.not_true, if_true]
      rw [outputWith_ideal canon w N hX]
      rfl
    | false =>
      simp only [Bool.not_false, Bool.false_eq_true, if_false]
      rw [outputWith_split canon w N (zeroFirst_ofGens G) hX]
      rfl
  · refine decom_names h hI ⟨fun m => ?_, fun d hd => ?_, (arranged_perm _ _).nodup_iff.2 hD.nodup⟩
    · rw [hD.inter]
      exact ⟨fun h' d hd => h' d ((arranged_perm _ _).mem_iff.1 hd), fun h' d hd => h' d ((arranged_perm _ _).mem_iff.2 hd)⟩
    · obtain ⟨m, h3, h4⟩ := hD.irredundant d ((arranged_perm _ _).mem_iff.1 hd)
      exact ⟨m, h3, fun d' hd' hne => h4 d' ((arranged_perm _ _).mem_iff.1 hd') hne⟩

theorem assoprimes_core {o : Opts} (ho : o.valid .msm) (rnd : List ℕ → ℕ → ℕ) (canon : Bool) (w : CallWriter) {I : NamedIdeal} {N : List Text} {T : Translator n}
    {M G : List (Term n)} (h : PreparedSpec I N T M G) (hI : I.Ok) :
    ∃ E : List (Term N.length), ((msmRun o rnd (T.addPurePowers M)).bind fun decom => (decom.mapM T.translate).bind fun ds =>
        outputWith canon false w N Translator.zeroOne (idealEvents (removeDuplicates (ds.map fun d v => if d v = 0 then 0 else 1)))) =
        some (w N (bigIdeal E)) ∧ SortedIf canon N E ∧ (E.map (nm N)).Nodup ∧ ∀ f, f ∈ E.map (nm N) ↔ I.AssocPrime f := by
  have hN := h.length
  subst hN
  obtain ⟨outs, R, h1, h2, h3, h4, h5, h6⟩ := primes_outs_of ho rnd h.ideal
  refine ⟨arranged canon R, ?_, ⟨fun hc => arranged_sorted hc _⟩, ?_, fun f => ?_⟩
  · rw [h.translator, h1, Option.bind_some, h2, Option.bind_some, h3, outputWith_ideal canon w N (X := id)]
    · simp [arranged]
    · intro t ht
      refine translates_of (translate_zeroOne fun v => ?_)
      rw [← h4 t ht, indicator]
      split <;> omega
  · exact ((arranged_perm canon R).map _).nodup_iff.2 (List.Nodup.map (nm_injective rfl h.nodup) (h5.of_map _))
  · rw [((arranged_perm canon R).map _).mem_iff]
    constructor
    · intro hf
      obtain ⟨t, ht, rfl⟩ := List.mem_map.1 hf
      rw [assoc_names h hI]
      exact ⟨h4 t ht, (h6 _).1 (List.mem_map.2 ⟨t, ht, rfl⟩)⟩
    · intro hf
      have hs0 : nm N (onN N.length N f) = f := nm_on rfl h.nodup fun x hx => hf.outside x fun hx' => hx (h.perm.mem_iff.2 hx')
      rw [← hs0, assoc_names h hI] at hf
      obtain ⟨r, hr, he⟩ := List.mem_map.1 ((h6 _).2 hf.2)
      refine List.mem_map.2 ⟨r, hr, ?_⟩
      rw [← hs0, ← h4 r hr, ← hf.1, he]

/-! ## the Alexander dual -/

theorem minimal_monomials {K : NamedIdeal} (hK : K.Ok) (hm : K.Minimal) : K.monomials.Pairwise fun f g => ¬ (∀ x, f x ≤ g x) ∧ ¬ ∀ x, g x ≤ f x := by
  have key : ∀ {a b : List ℕ}, a.length = K.names.length → b.length = K.names.length → (∀ x, expOf K.names a x ≤ expOf K.names b x) → List.Forall₂ (· ≤ ·) a b := by
    intro a b ha hb h
    refine List.forall₂_iff_get.2 ⟨by omega, fun i h1 h2 => ?_⟩
    have := h (K.names.getD i [])
    rw [expOf_getD hK.nodup _ (by omega), expOf_getD hK.nodup _ (by omega), List.getD_eq_getElem _ _ h1, List.getD_eq_getElem _ _ h2] at this
    simpa using this
  unfold NamedIdeal.monomials
  rw [List.pairwise_map]
  exact hm.imp_of_mem fun {a b} ha hb hab => ⟨fun h => hab.1 (key (hK.length a ha) (hK.length b hb) h), fun h => hab.2 (key (hK.length b hb) (hK.length a ha) h)⟩

theorem minGens_names {I K : NamedIdeal} {N : List Text} {T : Translator n} {M G : List (Term n)} (h : PreparedSpec I N T M G) (hI : I.Ok) (hK : I.MinimizedOf K) :
    MinGens (K.monomials.map (onN n N)) G ∧ ∀ f ∈ K.monomials, nm N (onN n N f) = f := by
  have h0 : ∀ f ∈ K.monomials, nm N (onN n N f) = f := fun f hf => nm_on h.length h.nodup fun x hx =>
    NamedIdeal.monomials_zero hK.ok hf (by rw [hK.names]; exact fun hx' => hx (h.perm.mem_iff.2 hx'))
  refine ⟨⟨fun m => ?_, ?_, ?_⟩, h0⟩
  · obtain ⟨m, rfl⟩ := exists_on h.length h.nodup m
    rw [← h.mem_iff hI, ← hK.mem, NamedIdeal.mem_monomials hK.ok]
    simp only [mem, List.mem_map, exists_exists_and_eq_and]
    refine exists_congr fun f => and_congr_right fun hf => ?_
    rw [← nm_le h.length h.nodup, h0 f hf]
  · unfold Anti
    rw [List.pairwise_map]
    refine (minimal_monomials hK.ok hK.minimal).imp_of_mem fun {f g} hf hg hfg => ?_
    rw [← nm_le h.length h.nodup, h0 f hf, ← nm_le h.length h.nodup, h0 g hg]
    exact hfg
  · intro t ht
    obtain ⟨f, hf, rfl⟩ := List.mem_map.1 ht
    have h1 := hK.subset f hf
    rw [← h.gens] at h1
    obtain ⟨g, hg, rfl⟩ := List.mem_map.1 h1
    rwa [show onN n N (expOf N (List.ofFn g)) = g from on_nm h.length h.nodup g]

theorem lcmOf_le_iff {G : List (Term n)} {a : Term n} : lcmOf G ≤ a ↔ ∀ g ∈ G, g ≤ a := by
  constructor
  · intro h g hg
    exact le_trans (le_lcmOf hg) h
  · exact fun h => lcmOf_le h

theorem dual_lcm {I K : NamedIdeal} {N : List Text} {T : Translator n} {M G : List (Term n)} (h : PreparedSpec I N T M G) (hI : I.Ok) (hK : I.MinimizedOf K) :
    T.translate (lcmOf M) = some (toInt (lcmOf (K.monomials.map (onN n N)))) ∧ lcmOf (K.monomials.map (onN n N)) = onN n N K.maxExp := by
  constructor
  · rw [h.translator, translate_ofGens G fun v => (h.ideal.lcm_le v).le]
    congr 1; funext v
    rw [h.ideal.lcm_exp (minGens_names h hI hK).1]
    rfl
  · funext v
    unfold onN NamedIdeal.maxExp
    induction K.monomials with
    | nil => rfl
    | cons f fs ih => rw [List.map_cons, lcmOf_cons, List.map_cons, List.foldr_cons, ← ih]; rfl

theorem dual_core {o : ActionOpts} (ho : o.slice.valid .msm) (rnd : List ℕ → ℕ → ℕ) (w : CallWriter) {I : NamedIdeal} (p : Prepared n)
    {G : List (Term n)} (h : PreparedSpec I p.names p.translator p.ideal G) (hI : I.Ok) {K : NamedIdeal} (hK : I.MinimizedOf K) (point : Option (Term n))
    (hp : ∀ a ∈ point, ∀ f ∈ K.monomials, ∀ x, f x ≤ nm p.names a x) :
    ∃ E : List (Term p.names.length), dualText o rnd w p (point.map toInt) = .ok (w p.names (bigIdeal E)) ∧ SortedIf o.canon p.names E ∧
      I.DualOf ((point.map (nm p.names)).getD K.maxExp) (toNamed p.names E) := by
  obtain ⟨N, T, M⟩ := p
  simp only at h hp ⊢
  have hN := h.length
  subst hN
  obtain ⟨hKG, hK0⟩ := minGens_names h hI hK
  obtain ⟨hlcm, hmax⟩ := dual_lcm h hI hK
  set L := lcmOf (K.monomials.map (onN N.length N)) with hL
  have ha : L ≤ point.getD L := by
    cases point with
    | none => exact le_refl _
    | some a =>
      rw [Option.getD_some, hL, lcmOf_le_iff]
      intro t ht
      obtain ⟨f, hf, rfl⟩ := List.mem_map.1 ht
      have := hp a rfl f hf
      rw [← on_nm rfl h.nodup a]
      exact fun v => this _
  obtain ⟨outs, h1, _, h2, h3, h4, h5⟩ := dual_outs_of ho rnd h.ideal (point.getD L) hKG (lcmOf_le_iff.1 ha)
  set X : Term N.length → Term N.length := fun t v => if tExp G v (t v) = 0 then 0 else point.getD L v + 1 - tExp G v (t v) with hX
  have hname : ∀ m : Text → ℕ, (point.getD L - onN N.length N m : Term N.length) =
      onN N.length N fun x => ((point.map (nm N)).getD K.maxExp) x - m x := by
    intro m
    funext v
    cases point with
    | none =>
      show L v - m _ = K.maxExp _ - m _
      rw [hmax]; rfl
    | some a =>
      show a v - m _ = nm N a _ - m _
      rw [nm_at rfl h.nodup]
  have hget : (point.map toInt).getD (toInt L) = toInt (point.getD L) := by cases point <;> rfl
  refine ⟨arranged o.canon (outs.map X), ?_, ⟨fun hc => arranged_sorted hc _⟩, toNamed_ok rfl h.nodup _, h.perm,
    toNamed_minimal ((anti_perm (arranged_perm _ _)).2 h4), fun m => ?_⟩
  · unfold dualText
    simp only
    rw [hlcm]
    simp only
    rw [if_neg, h.translator, h1, Option.bind_some, outputWith_ideal o.canon w N (X := X)]
    · rfl
    · intro t ht
      refine translates_of ?_
      rw [hget, translate_dualize G _ (h2 t ht)]
      congr 1; funext v
      have := h3 t ht v
      simp only [hX, toInt]
      by_cases h0 : tExp G v (t v) = 0
      · simp [h0]
      · simp only [h0, ne_eq, not_false_eq_true, if_true, if_false]
        omega
    · rintro ⟨v, hv⟩
      rw [hget] at hv
      have : L v ≤ point.getD L v := ha v
      simp only [toInt] at hv
      omega
  · rw [toNamed_mem rfl h.nodup, h.mem_iff hI, ← hname, ← h5]
    unfold mem
    exact exists_congr fun t => and_congr_left fun _ => (arranged_perm _ _).mem_iff

theorem dual_core_error {o : ActionOpts} (rnd : List ℕ → ℕ → ℕ) (w : CallWriter) {I : NamedIdeal} (p : Prepared n)
    {G : List (Term n)} (h : PreparedSpec I p.names p.translator p.ideal G) (hI : I.Ok) {K : NamedIdeal} (hK : I.MinimizedOf K) (a : Term n)
    (hp : ¬ ∀ f ∈ K.monomials, ∀ x, f x ≤ nm p.names a x) : dualText o rnd w p (some (toInt a)) = .error := by
  obtain ⟨N, T, M⟩ := p
  simp only at h hp
  obtain ⟨hKG, hK0⟩ := minGens_names h hI hK
  unfold dualText
  simp only
  rw [(dual_lcm h hI hK).1]
  simp only [Option.getD_some]
  rw [if_pos]
  by_contra hc
  refine hp fun f hf => ?_
  rw [← hK0 f hf, nm_le h.length h.nodup, on_nm h.length h.nodup]
  have : lcmOf (K.monomials.map (onN n N)) ≤ a := fun v => by
    by_contra hv
    have hv' : a v < lcmOf (K.monomials.map (onN n N)) v := Nat.lt_of_not_le hv
    exact hc ⟨v, by simp only [toInt]; omega⟩
  exact lcmOf_le_iff.1 this _ (List.mem_map.2 ⟨f, hf, rfl⟩)

/-! ## the primary decomposition -/

theorem hasSameSupport_map {φ : Term n → Term n} {s t : Term n} (hs : ∀ v, φ s v = 0 ↔ s v = 0) (ht : ∀ v, φ t v = 0 ↔ t v = 0) :
    hasSameSupport (φ s) (φ t) = hasSameSupport s t := by
  unfold hasSameSupport
  simp only [hs, ht]

theorem supportRuns_map {φ : Term n → Term n} (ds : List (Term n)) (h : ∀ d ∈ ds, ∀ v, φ d v = 0 ↔ d v = 0) :
    supportRuns (ds.map φ) = (supportRuns ds).map (List.map φ) := by
  induction ds using supportRuns.induct with
  | case1 => simp [supportRuns]
  | case2 t ts ih =>
    have h1 : sameSupportPrefix (φ t) (ts.map φ) = (sameSupportPrefix t ts).map φ := by
      unfold sameSupportPrefix
      rw [List.takeWhile_map]
      congr 1
      have : ∀ l : List (Term n), (∀ d ∈ l, ∀ v, φ d v = 0 ↔ d v = 0) → List.takeWhile ((fun s => hasSameSupport (φ t) s) ∘ φ) l = List.takeWhile (fun s => hasSameSupport t s) l := by
        intro l hl
        induction l with
        | nil => rfl
        | cons d l ih' =>
          rw [List.takeWhile_cons, List.takeWhile_cons, ih' fun d hd => hl d (by simp [hd])]
          simp only [Function.comp, hasSameSupport_map (h t (by simp)) (hl d (by simp))]
      exact this ts fun d hd => h d (by simp [hd])
    rw [List.map_cons, supportRuns, h1, List.length_map, ← List.map_drop, ih fun d hd => h d (by simp [List.mem_of_mem_drop hd])]
    conv_rhs => rw [supportRuns]
    simp

theorem sorted_unique {E E' : List (Term n)} (h : E.Perm E') (hs : E = sortReverseLex E) (hs' : E' = sortReverseLex E') : E = E' := by
  rw [hs, hs', sortReverseLex_eq_of_perm h]

theorem map_sortReverseLex {φ : Term n → Term n} (ds : List (Term n)) (hs : ds = sortReverseLex ds)
    (h : ∀ a ∈ ds, ∀ b ∈ ds, lexLE a b ↔ lexLE (φ a) (φ b)) : ds.map φ = sortReverseLex (ds.map φ) := by
  conv_lhs => rw [hs]
  unfold sortReverseLex
  exact List.map_insertionSort (r := fun a b : Term n => lexLE b a) (s := fun a b : Term n => lexLE b a) φ ds fun a ha b hb => h b hb a ha

theorem lexLE_map {φ : Term n → Term n} {e : Fin n → ℕ → ℕ} (he : ∀ t v, φ t v = e v (t v)) {a b : Term n}
    (hm : ∀ v, (a v < b v ↔ e v (a v) < e v (b v)) ∧ (a v = b v ↔ e v (a v) = e v (b v))) : lexLE a b ↔ lexLE (φ a) (φ b) := by
  unfold lexLE
  rw [List.ofFn_eq_map, List.ofFn_eq_map, List.ofFn_eq_map, List.ofFn_eq_map, ← not_lt, ← not_lt, not_iff_not]
  have hm' : ∀ v, (b v < a v ↔ φ b v < φ a v) ∧ (b v = a v ↔ φ b v = φ a v) := by
    intro v
    rw [he, he]
    obtain ⟨h1, h2⟩ := hm v
    refine ⟨?_, by rw [eq_comm, h2, eq_comm]⟩
    constructor <;> intro h3
    · by_contra h4
      rcases Nat.lt_or_eq_of_le (not_lt.1 h4) with h5 | h5
      · have := h1.2 h5; omega
      · have := h2.2 h5; omega
    · by_contra h4
      rcases Nat.lt_or_eq_of_le (not_lt.1 h4) with h5 | h5
      · have := h1.1 h5; omega
      · have := h2.1 h5; omega
  generalize List.finRange n = vs
  show vs.map b < vs.map a ↔ vs.map (φ b) < vs.map (φ a)
  induction vs with
  | nil => simp
  | cons v vs ih =>
    rw [List.map_cons, List.map_cons, List.map_cons, List.map_cons, List.cons_lt_cons_iff, List.cons_lt_cons_iff, (hm' v).1, (hm' v).2]
    exact or_congr Iff.rfl (and_congr Iff.rfl ih)

theorem primary_of_runs {N : List Text} (hN : N.length = n) (hd : N.Nodup) {g C : List (Term n)} (hg : g ≠ []) (hs : ∀ a ∈ g, ∀ b ∈ g, ∀ v, a v = 0 ↔ b v = 0)
    (hm : ∀ m, mem C m ↔ ∀ d ∈ g, memIrr d m) : (toNamed N C).Primary := by
  constructor
  · rw [toNamed_mem hN hd, hm]
    intro h
    obtain ⟨d, hd'⟩ := List.exists_mem_of_ne_nil g hg
    obtain ⟨v, h1, h2⟩ := h d hd'
    have : onN n N (fun _ => 0) v = 0 := rfl
    omega
  · intro f p hfp hf
    rw [toNamed_mem hN hd, hm] at hfp hf
    push Not at hf
    obtain ⟨d, hd', hnf⟩ := hf
    obtain ⟨v, h1, h2⟩ := hfp d hd'
    have h3 : onN n N f v < d v := by
      by_contra h3
      exact hnf ⟨v, h1, not_lt.1 h3⟩
    have h4 : onN n N (fun x => f x + p x) v = onN n N f v + p (N.getD v []) := rfl
    refine ⟨lcmOf g v, ?_⟩
    rw [toNamed_mem hN hd, hm]
    intro d' hd2
    have h5 := hs d hd' d' hd2 v
    refine ⟨v, by omega, ?_⟩
    have h6 : onN n N (fun x => lcmOf g v * p x) v = lcmOf g v * p (N.getD v []) := rfl
    rw [h6]
    have h7 := le_lcmOf hd2 v
    exact le_trans h7 (Nat.le_mul_of_pos_right _ (by omega))

/-- The families that are printed for a primary decomposition. -/
structure RunsSpec (G : List (Term n)) (E : List (Term n)) (C : List (Term n) → List (Term n)) : Prop where
  irr : IsIrrDecomp E G
  sorted : E = sortReverseLex E
  anti : ∀ g ∈ supportRuns E, Anti (C g)
  mem : ∀ g ∈ supportRuns E, ∀ m, Frobby.mem (C g) m ↔ ∀ d ∈ g, memIrr d m

theorem primdecom_core {o : Opts} (ho : o.valid .msm) (rnd : List ℕ → ℕ → ℕ) (canon : Bool) (w : CallWriter) {I : NamedIdeal} {N : List Text} {T : Translator n}
    {M G : List (Term n)} (h : PreparedSpec I N T M G) :
    ∃ E C, RunsSpec G E C ∧ ((msmRun o rnd (T.addPurePowers M)).bind fun decom =>
      (primaryLoop o rnd T (lcmOf (sortReverseLex (T.infinityToZero decom))) (sortReverseLex (T.infinityToZero decom))).bind fun cs =>
        outputWith canon false w N T (listEvents cs)) =
      some (w N (bigList (if canon then vecSortList ((supportRuns E).map C) else (supportRuns E).map C))) := by
  obtain ⟨outs, ds, C, h1, h2, hc, hs, h3, h4⟩ := primary_outs_of ho rnd h.ideal
  set φ : Term n → Term n := fun d v => tExp G v (d v) with hφ
  have hS := h.ideal.sys
  have hord : ∀ a ∈ ds, ∀ b ∈ ds, lexLE a b ↔ lexLE (φ a) (φ b) := by
    intro a ha b hb
    refine lexLE_map (e := tExp G) (fun _ _ => rfl) fun v => ?_
    have ha' := hc.lt a ha v
    have hb' := hc.lt b hb v
    have h5 := hS.mono v (a v) (b v)
    have h6 := hS.mono v (b v) (a v)
    rcases lt_trichotomy (a v) (b v) with h7 | h7 | h7
    · have := h5 h7 hb'; omega
    · rw [h7]; simp
    · have := h6 h7 ha'; omega
  have hzero : ∀ d ∈ ds, ∀ v, φ d v = 0 ↔ d v = 0 := by
    intro d hd v
    have hd' := hc.lt d hd v
    have h5 := hS.mono v 0 (d v)
    have h6 := hS.zero v
    simp only [hφ]
    constructor
    · intro h7
      by_contra h8
      have := h5 (by omega) hd'
      omega
    · intro h7; rw [h7, h6]
  have hruns := supportRuns_map ds hzero
  have hinj : ∀ a ∈ ds, ∀ b ∈ ds, φ a = φ b → a = b := by
    intro a ha b hb hab
    refine lexLE_antisymm ((hord a ha b hb).2 (by rw [hab]; exact le_refl _)) ((hord b hb a ha).2 (by rw [hab]; exact le_refl _))
  -- the run of identifiers is found from the run of exponents
  have hsub : ∀ r ∈ supportRuns ds, ∀ d ∈ r, d ∈ ds := fun r hr d hd => by
    rw [← supportRuns_flatten ds]; exact List.mem_flatten.2 ⟨r, hr, hd⟩
  have hinv : ∀ r ∈ supportRuns ds, ((r.map φ).map fun e => (ds.find? fun d => decide (φ d = e)).getD e) = r := by
    intro r hr
    rw [List.map_map]
    conv_rhs => rw [← List.map_id r]
    refine List.map_congr_left fun d hd => ?_
    simp only [Function.comp, id]
    cases hf : ds.find? fun d' => decide (φ d' = φ d) with
    | none => exact absurd (List.find?_eq_none.1 hf d (hsub r hr d hd)) (by simp)
    | some d' =>
      have h7 := List.find?_some hf
      exact hinj d' (List.mem_of_find?_eq_some hf) d (hsub r hr d hd) (by simpa using h7)
  refine ⟨ds.map φ, fun r => (C (r.map fun e => (ds.find? fun d => decide (φ d = e)).getD e)).map φ, ⟨hc.irr, map_sortReverseLex ds hs hord, ?_, ?_⟩, ?_⟩
  · intro r hr
    rw [hruns] at hr
    obtain ⟨r', hr', rfl⟩ := List.mem_map.1 hr
    rw [hinv r' hr']
    exact (h4 r' hr').2.1
  · intro r hr m
    rw [hruns] at hr
    obtain ⟨r', hr', rfl⟩ := List.mem_map.1 hr
    rw [hinv r' hr', List.forall_mem_map]
    exact (h4 r' hr').2.2 m
  · rw [h.translator, h1, Option.bind_some, h2, h3, Option.bind_some, outputWith_list canon w N (X := φ)]
    · have h5 : ((supportRuns ds).map C).map (List.map φ) = (supportRuns (ds.map φ)).map fun r => (C (r.map fun e => (ds.find? fun d => decide (φ d = e)).getD e)).map φ := by
        rw [hruns, List.map_map, List.map_map]
        refine List.map_congr_left fun r hr => ?_
        simp only [Function.comp, hinv r hr]
      rw [h5]
    · intro K hK t ht
      obtain ⟨r, hr, rfl⟩ := List.mem_map.1 hK
      exact translates_of (translate_ofGens G fun v => ((h4 r hr).1 t ht v).le)

theorem exists_map_of_perm {α β : Type} {f : α → β} : ∀ {l : List β} {L : List α}, l.Perm (L.map f) → ∃ L' : List α, L'.Perm L ∧ l = L'.map f
  | [], L, h => by
    have : L = [] := by simpa using h.symm.eq_nil
    exact ⟨[], by rw [this], rfl⟩
  | c :: l, L, h => by
    obtain ⟨a, ha, rfl⟩ := List.mem_map.1 (h.mem_iff.1 (List.mem_cons_self))
    obtain ⟨L1, L2, rfl⟩ := List.append_of_mem ha
    have h1 : l.Perm ((L1 ++ L2).map f) := by
      rw [List.map_append, List.map_cons] at h
      rw [List.map_append]
      exact (List.perm_cons _).1 (h.trans List.perm_middle)
    obtain ⟨L', h2, rfl⟩ := exists_map_of_perm h1
    exact ⟨a :: L', (h2.cons a).trans List.perm_middle.symm, rfl⟩

theorem primary_names {I : NamedIdeal} {N : List Text} {T : Translator n} {M G E : List (Term n)} {C : List (Term n) → List (Term n)} (h : PreparedSpec I N T M G) (hI : I.Ok)
    (hR : RunsSpec G E C) {Cs : List (List (Term n))} (hp : Cs.Perm ((supportRuns E).map C)) : I.PrimaryDecom (Cs.map (toNamed N)) := by
  obtain ⟨R, hRp, rfl⟩ := exists_map_of_perm hp
  have hrun : ∀ r ∈ R, r ∈ supportRuns E := fun r hr => hRp.mem_iff.1 hr
  have hall : ∀ d, (∃ r ∈ R, d ∈ r) ↔ d ∈ E := fun d => by
    conv_rhs => rw [← supportRuns_flatten E, List.mem_flatten]
    exact exists_congr fun r => and_congr_left fun _ => hRp.mem_iff
  have hmem : ∀ r ∈ R, ∀ m, (toNamed N (C r)).mem m ↔ ∀ d ∈ r, memIrr d (onN n N m) := fun r hr m => by
    rw [toNamed_mem h.length h.nodup, hR.mem r (hrun r hr)]
  have hin : ∀ J ∈ (R.map C).map (toNamed N), ∃ r ∈ R, J = toNamed N (C r) := by
    intro J hJ
    obtain ⟨c, hc, rfl⟩ := List.mem_map.1 hJ
    obtain ⟨r, hr, rfl⟩ := List.mem_map.1 hc
    exact ⟨r, hr, rfl⟩
  refine ⟨?_, ?_, ?_, fun m => ?_, ?_⟩
  · intro J hJ
    obtain ⟨r, hr, rfl⟩ := hin J hJ
    exact ⟨toNamed_ok h.length h.nodup _, h.perm⟩
  · intro J hJ
    obtain ⟨r, hr, rfl⟩ := hin J hJ
    exact toNamed_minimal (hR.anti r (hrun r hr))
  · intro J hJ
    obtain ⟨r, hr, rfl⟩ := hin J hJ
    obtain ⟨h1, h2⟩ := supportRuns_same E r (hrun r hr)
    exact primary_of_runs h.length h.nodup h1 h2 (hR.mem r (hrun r hr))
  · rw [h.mem_iff hI, hR.irr.inter]
    constructor
    · intro h1 J hJ
      obtain ⟨r, hr, rfl⟩ := hin J hJ
      rw [hmem r hr]
      exact fun d hd => h1 d ((hall d).1 ⟨r, hr, hd⟩)
    · intro h1 d hd
      obtain ⟨r, hr, hdr⟩ := (hall d).2 hd
      exact (hmem r hr m).1 (h1 _ (List.mem_map.2 ⟨_, List.mem_map.2 ⟨r, hr, rfl⟩, rfl⟩)) d hdr
  · intro A J B hAB
    rw [List.map_map] at hAB
    obtain ⟨A', X, hX, hA', hX'⟩ := List.map_eq_append_iff.1 hAB
    obtain ⟨r, B', rfl, hJ, hB'⟩ := List.map_eq_cons_iff.1 hX'
    subst hA' hB' hJ
    have hr : r ∈ R := by rw [hX]; simp
    obtain ⟨d, hd⟩ := List.exists_mem_of_ne_nil r (supportRuns_same E r (hrun r hr)).1
    obtain ⟨m, h1, h2⟩ := hR.irr.irredundant d ((hall d).1 ⟨r, hr, hd⟩)
    obtain ⟨m, rfl⟩ := exists_on h.length h.nodup m
    refine ⟨m, ?_, ?_⟩
    · show ¬ (toNamed N (C r)).mem m
      rw [hmem r hr]
      exact fun h3 => h1 (h3 d hd)
    · intro K hK
      rw [← List.map_append] at hK
      obtain ⟨r', hr', rfl⟩ := List.mem_map.1 hK
      have hr2 : r' ∈ R := by
        rw [hX]
        rcases List.mem_append.1 hr' with h3 | h3 <;> simp [h3]
      show (toNamed N (C r')).mem m
      rw [hmem r' hr2]
      intro d' hd'
      refine h2 d' ((hall d').1 ⟨r', hr2, hd'⟩) ?_
      rintro rfl
      -- a component is in one run only
      have hnd : (r :: (A' ++ B')).flatten.Nodup := by
        have h3 : (r :: (A' ++ B')).Perm (supportRuns E) := (List.perm_middle.symm.trans (hX ▸ List.Perm.refl _ : (A' ++ r :: B').Perm R)).trans hRp
        rw [h3.flatten.nodup_iff, supportRuns_flatten]
        exact hR.irr.nodup
      rw [List.flatten_cons, List.nodup_append] at hnd
      exact hnd.2.2 d' hd d' (List.mem_flatten.2 ⟨r', hr', hd'⟩) rfl

/-- The same families with the generators of each in another order. -/
theorem RunsSpec.perm {G E : List (Term n)} {C C' : List (Term n) → List (Term n)} (h : RunsSpec G E C) (hp : ∀ r, (C' r).Perm (C r)) : RunsSpec G E C' := by
  refine ⟨h.irr, h.sorted, fun r hr => (anti_perm (hp r)).2 (h.anti r hr), fun r hr m => ?_⟩
  rw [← h.mem r hr m]
  unfold Frobby.mem
  exact exists_congr fun t => and_congr_left fun _ => (hp r).mem_iff

theorem vecSortList_perm (Is : List (List (Term n))) : (vecSortList Is).Perm (Is.map fun I => vecSort (vecSort I)) := by
  unfold vecSortList
  have h1 := ((List.perm_insertionSort (fun a b => vecIdealLess b a = false) (Is.reverse.map vecSort)).map vecSort)
  refine h1.trans ?_
  rw [List.map_map]
  exact (List.reverse_perm Is).map _

end Frobby
