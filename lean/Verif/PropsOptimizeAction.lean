import Verif.OptimizeActionSpec
import Verif.OptimizeActionLemmas
import Verif.PropsDimensionAction

/-!
# C56: what the action `optimize` prints
-/

namespace Frobby

variable {n : ℕ}

/-! ## the input -/

theorem readInteger_sound {x : ℤ} {t r : Text} (h : readInteger t = some (x, r)) : integerG x t r := by
  obtain ⟨w, h1, h2⟩ := eatWhite_blank t
  unfold readInteger at h
  rw [h2]
  split at h
  · simp at h
  · rename_i c l h4
    rw [h4]
    split at h
    · rename_i hc
      subst hc
      simp only [Option.map_eq_some_iff] at h
      obtain ⟨p, h5, h6⟩ := h
      simp only [Prod.mk.injEq] at h6
      obtain ⟨rfl, rfl⟩ := h6
      refine ⟨t!"-", p.1, by simpa using readDigits_digitsG (s := t!"-") h1 h5, .inr (.inr ⟨rfl, by rw [digitsValue_valueIn]⟩)⟩
    · split at h
      · rename_i hc
        subst hc
        simp only [Option.map_eq_some_iff] at h
        obtain ⟨p, h5, h6⟩ := h
        simp only [Prod.mk.injEq] at h6
        obtain ⟨rfl, rfl⟩ := h6
        refine ⟨t!"+", p.1, by simpa using readDigits_digitsG (s := t!"+") h1 h5, .inr (.inl ⟨rfl, by rw [digitsValue_valueIn]⟩)⟩
      · simp only [Option.map_eq_some_iff] at h
        obtain ⟨p, h5, h6⟩ := h
        simp only [Prod.mk.injEq] at h6
        obtain ⟨rfl, rfl⟩ := h6
        refine ⟨[], p.1, by simpa using readDigits_digitsG (s := []) h1 h5, .inl ⟨rfl, by rw [digitsValue_valueIn]⟩⟩

theorem readVector_sound {k : ℕ} : ∀ {t r : Text} {v : List ℤ}, readVector k t = some (v, r) → v.length = k ∧ Many integerG v t r := by
  induction k with
  | zero =>
    intro t r v h
    simp only [readVector, Option.some.injEq, Prod.mk.injEq] at h
    obtain ⟨rfl, rfl⟩ := h
    exact ⟨rfl, .nil (lit_refl t)⟩
  | succ k ih =>
    intro t r v h
    obtain ⟨⟨x, u⟩, h1, h2⟩ := Option.bind_eq_some_iff.1 h
    obtain ⟨⟨vs, u'⟩, h3, h4⟩ := Option.map_eq_some_iff.1 h2
    simp only [Prod.mk.injEq] at h4
    obtain ⟨rfl, rfl⟩ := h4
    obtain ⟨h5, h6⟩ := ih h3
    exact ⟨by simp [h5], .cons (readInteger_sound h1) h6⟩

/-- C56: what `optimize` reads is an ideal and nothing else, and then all entries of the vector are 1, or it is an ideal and as many integers
as there are variables. -/
theorem C56_input {f : IOFormat} {t : Text} {I : NamedIdeal} {v : List ℤ} (h : readOptimizeInstance f t = some (I, v)) :
    v.length = I.names.length ∧
      (readIdeal f t = some I ∧ (∀ x ∈ v, x = 1) ∨ (idealG f I ⊹ Many integerG v ⊹ lit []) t []) := by
  unfold readOptimizeInstance at h
  obtain ⟨⟨k, r⟩, h1, h2⟩ := Option.bind_eq_some_iff.1 h
  simp only at h2
  split at h2
  · rename_i h3
    simp only [Option.some.injEq, Prod.mk.injEq] at h2
    obtain ⟨rfl, rfl⟩ := h2
    exact ⟨by simp, .inl ⟨by simp [readIdeal, h1, h3], fun x hx => List.eq_of_mem_replicate hx⟩⟩
  · obtain ⟨⟨a, u⟩, h4, h5⟩ := Option.bind_eq_some_iff.1 h2
    simp only at h5
    split at h5
    · rename_i h6
      simp only [Option.some.injEq, Prod.mk.injEq] at h5
      obtain ⟨rfl, rfl⟩ := h5
      have h7 : eatWhite u = [] := by simpa [matchEOF] using h6
      have h8 := skip u
      rw [h7] at h8
      obtain ⟨h9, h10⟩ := readVector_sound h4
      exact ⟨h9, .inr ⟨r, readConsumer_sound h1, u, h10, h8⟩⟩
    · simp at h5

/-- C56: every text of an ideal can be given to `optimize`. -/
theorem C56_input_ideal {f : IOFormat} {t : Text} {I : NamedIdeal} (h : readIdeal f t = some I) :
    readOptimizeInstance f t = some (I, List.replicate I.names.length 1) := by
  unfold readIdeal at h
  obtain ⟨⟨k, r⟩, h1, h2⟩ := Option.bind_eq_some_iff.1 h
  simp only at h2
  split at h2
  · rename_i h3
    simp only [Option.some.injEq] at h2
    subst h2
    simp [readOptimizeInstance, h1, h3]
  · simp at h2

theorem optimize_wellFormed {f : IOFormat} {t : Text} {I : NamedIdeal} {v : List ℤ} (h : readOptimizeInstance f t = some (I, v)) :
    (∀ x ∈ I.names, AllowedName x) ∧ I.names.Nodup ∧ ∀ e ∈ I.terms, e.length = I.names.length := by
  rcases (C56_input h).2 with ⟨h1, _⟩ | ⟨u, h1, _⟩
  · exact C44_well_formed h1
  · exact idealG_well_formed h1

/-! ## names -/

theorem weight_eq {N : List Text} (hN : N.length = n) {v : List ℤ} (hv : v.length = n) (m : Text → ℕ) :
    weight N v m = ∑ i : Fin n, v.getD i 0 * (onN n N m i : ℤ) := by
  unfold weight
  have : ((N.zip v).map fun p => p.2 * (m p.1 : ℤ)) = List.ofFn fun i : Fin n => v.getD i 0 * (onN n N m i : ℤ) := by
    refine List.ext_getElem (by simp [hN, hv]) fun i h1 h2 => ?_
    simp only [List.length_map, List.length_zip, hN, hv, min_self] at h1
    simp [onN, hN, hv]
  rw [this, List.sum_ofFn]

theorem weight_perm {N N' : List Text} {v : List ℤ} (h : (N.zip v).Perm (N'.zip v)) (m : Text → ℕ) : weight N v m = weight N' v m :=
  (h.map _).sum_eq

theorem weight_neg (N : List Text) (v : List ℤ) (m : Text → ℕ) : weight N (v.map fun x => -x) m = -weight N v m := by
  unfold weight
  induction N generalizing v with
  | nil => simp
  | cons x N ih =>
    cases v with
    | nil => simp
    | cons y v =>
      have := ih v
      simp only [List.map_cons, List.zip_cons_cons, List.sum_cons] at this ⊢
      rw [this]
      ring

theorem component_names {I : NamedIdeal} {N : List Text} {T : Translator n} {M G D : List (Term n)} (h : PreparedSpec I N T M G) (hI : I.Ok) (hD : IsIrrDecomp D G)
    (m : Text → ℕ) : I.Component m ↔ ∃ t ∈ D, nm N t = m := by
  constructor
  · rintro ⟨D', h1, h2⟩
    have h3 : ∀ d ∈ D', nm N (onN n N d) = d := fun d hd =>
      nm_on h.length h.nodup fun x hx => h1.outside d hd x fun hx' => hx (h.perm.mem_iff.2 hx')
    have h4 : (D'.map (onN n N)).map (nm N) = D' := by
      rw [List.map_map]
      exact (List.map_congr_left h3).trans (List.map_id _)
    have h5 := encoded_isIrrDecomp (E := D'.map (onN n N)) h hI (h4.symm ▸ h1)
    have h6 := irrDecomp_unique h5 hD fun _ => Iff.rfl
    exact ⟨onN n N m, h6.mem_iff.1 (List.mem_map.2 ⟨m, h2, rfl⟩), h3 m h2⟩
  · rintro ⟨t, ht, rfl⟩
    exact ⟨_, decom_names h hI hD, List.mem_map.2 ⟨t, ht, rfl⟩⟩

theorem maxStandard_names {I : NamedIdeal} {N : List Text} {T : Translator n} {M G : List (Term n)} (h : PreparedSpec I N T M G) (hI : I.Ok)
    (m : Text → ℕ) : I.MaxStandard m ↔ ∃ t, Msm G t ∧ nm N t = m := by
  constructor
  · intro hm
    have h3 : nm N (onN n N m) = m := nm_on h.length h.nodup fun x hx => hm.outside x fun hx' => hx (h.perm.mem_iff.2 hx')
    exact ⟨onN n N m, (msm_names h hI _).1 (h3.symm ▸ hm), h3⟩
  · rintro ⟨t, ht, rfl⟩
    exact (msm_names h hI t).2 ht

/-- The specification on vectors gives the one on monomials. -/
theorem optimizes_names {N N' : List Text} (hN : N.length = n) (hd : N.Nodup) {v : List ℤ} (hv : v.length = n) (hperm : (N.zip v).Perm (N'.zip v))
    {C : Term n → Prop} {C' : (Text → ℕ) → Prop} (hC : ∀ m, C' m ↔ ∃ t, C t ∧ nm N t = m) (min : Bool) {value : Option ℤ} {S : List (Term n)}
    (h : Solves C (fun i => (if min then v.map fun x => -x else v).getD i 0) value S) :
    Optimizes C' (weight N' v) min (value.map fun x => if min then -x else x) (S.map (nm N)) ∧
      (AllSolutions C (fun i => (if min then v.map fun x => -x else v).getD i 0) value S →
        ∀ m, C' m → (value.map fun x => if min then -x else x) = some (weight N' v m) → m ∈ S.map (nm N)) := by
  have hw : ∀ t : Term n, weight N' v (nm N t) =
      if min then -∑ i : Fin n, (if min then v.map fun x => -x else v).getD i 0 * (t i : ℤ) else ∑ i : Fin n, (if min then v.map fun x => -x else v).getD i 0 * (t i : ℤ) := by
    intro t
    rw [← weight_perm hperm]
    cases min
    · simp only [Bool.false_eq_true, if_false]
      rw [weight_eq hN hv, on_nm hN hd]
    · simp only [if_true]
      have h1 := weight_eq hN (v := v.map fun x => -x) (by simpa using hv) (nm N t)
      rw [weight_neg, on_nm hN hd] at h1
      rw [← h1]
      omega
  refine ⟨⟨fun h0 => ?_, ?_, ?_, ?_, h.nodup.map (nm_injective hN hd)⟩, fun hall m hm hx => ?_⟩
  · obtain ⟨h1, h2⟩ := h.empty fun t ht => h0 _ ((hC _).2 ⟨t, ht, rfl⟩)
    simp [h1, h2]
  · rintro ⟨m, hm⟩
    obtain ⟨t, ht, _⟩ := (hC m).1 hm
    obtain ⟨x, h1, h2, _⟩ := h.found ⟨t, ht⟩
    exact ⟨_, by rw [h1]; rfl, by simpa using h2⟩
  · intro x hx
    obtain ⟨y, hy, rfl⟩ := Option.map_eq_some_iff.1 hx
    have hne : ∃ t, C t := by
      by_contra hc
      have := (h.empty fun t ht => hc ⟨t, ht⟩).1
      rw [hy] at this
      exact nomatch this
    obtain ⟨x', h1, _, h2, _⟩ := h.found hne
    obtain rfl : y = x' := Option.some.inj (hy.symm.trans h1)
    obtain ⟨⟨t, ht, rfl⟩, h3⟩ := h2
    refine ⟨⟨nm N t, (hC _).2 ⟨t, ht, rfl⟩, hw t⟩, fun m hm => ?_⟩
    obtain ⟨t', ht', rfl⟩ := (hC m).1 hm
    have h4 := h3 ⟨t', ht', rfl⟩
    rw [hw]
    cases min
    · simpa using h4
    · simp only [if_true] at h4 ⊢
      omega
  · intro m hm
    obtain ⟨t, ht, rfl⟩ := List.mem_map.1 hm
    have hne : ∃ t, C t := by
      by_contra hc
      have := (h.empty fun t ht => hc ⟨t, ht⟩).2
      rw [this] at ht
      exact nomatch ht
    obtain ⟨x', h1, _, _, h2⟩ := h.found hne
    obtain ⟨h3, h4⟩ := h2 t ht
    refine ⟨(hC _).2 ⟨t, h3, rfl⟩, ?_⟩
    rw [h1, hw, h4]
    rfl
  · obtain ⟨t, ht, rfl⟩ := (hC m).1 hm
    obtain ⟨y, hy, h1⟩ := Option.map_eq_some_iff.1 hx
    refine List.mem_map.2 ⟨t, hall y hy t ht ?_, rfl⟩
    rw [hw] at h1
    cases min
    · simpa using h1
    · simp only [if_true] at h1 ⊢
      omega

theorem solves_perm {C : Term n → Prop} {d : Fin n → ℤ} {value : Option ℤ} {S S' : List (Term n)} (h : Solves C d value S) (hp : S'.Perm S) : Solves C d value S' := by
  refine ⟨fun h0 => ?_, fun h0 => ?_, hp.nodup_iff.2 h.nodup⟩
  · obtain ⟨h1, h2⟩ := h.empty h0
    exact ⟨h1, by rw [h2] at hp; exact hp.eq_nil⟩
  · obtain ⟨x, h1, h2, h3, h4⟩ := h.found h0
    exact ⟨x, h1, fun h5 => h2 (by rw [h5] at hp; exact hp.symm.eq_nil), h3, fun t ht => h4 t (hp.mem_iff.1 ht)⟩

/-! ## what is printed -/

/-- The ideal of the program. -/
def OptimizeOpts.ideal (o : OptimizeOpts) (I : NamedIdeal) : NamedIdeal := if o.chopFirstAndSubtract then I.withoutFirst else I

/-- The vector of the program. -/
def OptimizeOpts.vector (o : OptimizeOpts) (v : List ℤ) : List ℤ := if o.chopFirstAndSubtract then v.drop 1 else v

/-- What is subtracted from the value. -/
def OptimizeOpts.subtract (o : OptimizeOpts) (v : List ℤ) : ℤ := if o.chopFirstAndSubtract then v.headD 0 else 0

/-- The input is read as the ideal and the vector and the name of the split strategy is known. With `-minimal` the generators must be minimal
even if the first variable is removed. With `-canon` the entries of the vector must stay with their variables if the variables are sorted. -/
structure AcceptedOptimize (o : OptimizeOpts) (f : IOFormat) (t : Text) (I : NamedIdeal) (v : List ℤ) : Prop where
  read : readOptimizeInstance f t = some (I, v)
  split : ∃ s, createSplit o.split = some s
  minimal : o.minimal = true → (o.ideal I).Minimal
  varCount : I.names.length < 2 ^ 64
  sorted : o.canon = true → ∀ names : List Text, names.Perm (o.ideal I).names → names.Pairwise (· < ·) → (names.zip (o.vector v)).Perm ((o.ideal I).names.zip (o.vector v))

/-- What is written of the value. -/
def valueLine (subtract : ℤ) : Option ℤ → Text
  | none => t!"no solution.\n"
  | some x => decimalInt (x - subtract) ++ t!"\n"

theorem ideal_ok {I : NamedIdeal} (hI : I.Ok) (o : OptimizeOpts) : (o.ideal I).Ok := by
  unfold OptimizeOpts.ideal
  split
  · refine ⟨hI.nodup.sublist (List.drop_sublist _ _), fun t ht => ?_⟩
    obtain ⟨u, hu, rfl⟩ := List.mem_map.1 ht
    simp [NamedIdeal.withoutFirst, hI.length u hu]
  · exact hI

theorem prints_at {canon : Bool} {I : NamedIdeal} (hI : I.Ok) (hr : AllowedRing (outNames canon I.names)) (g : IOFormat) {N : List Text} (hN : N = outNames canon I.names)
    (hn : N.length = n) (S : List (Term n)) : Prints canon I g (idealText g (toNamed N (arranged canon S))) (toNamed N (arranged canon S)) := by
  subst hN
  subst hn
  exact prints_of hI hr g ⟨fun hc => arranged_sorted hc S⟩

/-- The program is solved, for all options. -/
theorem optimize_core (o : OptimizeOpts) (rnd : List ℕ → ℕ → ℕ) (w : CallWriter) {I : NamedIdeal} (hI : I.Ok) {v : List ℤ} (hv : v.length = I.names.length)
    (ha : ∀ x ∈ I.names, AllowedName x) (hc : I.names.length < 2 ^ 64) (hmin : o.minimal = true → I.Minimal)
    (hcanon : o.canon = true → ∀ names : List Text, names.Perm I.names → names.Pairwise (· < ·) → (names.zip v).Perm (I.names.zip v)) :
    ∃ value, ∃ S : List (Term I.names.length), ∃ J, solveProgramText o.params rnd o.canon w (prepare o.toActionOpts I).names (programInput o.maxStandard (prepare o.toActionOpts I)).1
        (programInput o.maxStandard (prepare o.toActionOpts I)).2 (fun i => (if o.minValue then v.map fun x => -x else v).getD i 0) =
        some (value, w (outNames o.canon I.names) (bigIdeal (arranged o.canon S))) ∧
      J = toNamed (outNames o.canon I.names) (arranged o.canon S) ∧ (∀ g, Prints o.canon I g (idealText g J) J) ∧
      Optimizes (if o.maxStandard then I.MaxStandard else I.Component) (weight I.names v) o.minValue (value.map fun x => if o.minValue then -x else x) J.monomials ∧
      (o.displayLevel ≤ 1 → J.monomials.length ≤ 1) ∧
      (2 ≤ o.displayLevel → value ≠ some 0 → ∀ m, (if o.maxStandard then I.MaxStandard else I.Component) m →
        (value.map fun x => if o.minValue then -x else x) = some (weight I.names v m) → m ∈ J.monomials) := by
  obtain ⟨hN, G, hP⟩ := prepare_spec (o := o.toActionOpts) hI hmin
  have hperm : ((outNames o.canon I.names).zip v).Perm (I.names.zip v) := by
    cases h : o.canon with
    | false => exact .refl _
    | true => exact hcanon h _ (outNames_perm _ _) (NamedIdeal.orderedNames_sorted hI.nodup)
  have hring : AllowedRing (outNames o.canon I.names) := ring_of ha (outNames_perm _ _) ((outNames_perm _ _).nodup_iff.2 hI.nodup) hc
  obtain ⟨D, hD⟩ : ∃ D : List (Term I.names.length), IsIrrDecomp D G := by
    obtain ⟨outs, _, h2, h3⟩ := encoded_outs_of (o := { simp := true, indep := true, split := .median }) ⟨by decide, by decide⟩ (fun _ _ => 0) hP.ideal
    exact ⟨_, h3.irrDecomp h2 hP.ideal⟩
  obtain ⟨C, hC, hspec⟩ : ∃ C : Term I.names.length → Prop,
      (∀ m, (if o.maxStandard then I.MaxStandard else I.Component) m ↔ ∃ t, C t ∧ nm (prepare o.toActionOpts I).names t = m) ∧
      ∀ d, ProgSpec C d o.params.all (solveProgram o.params rnd (programInput o.maxStandard (prepare o.toActionOpts I)).1
        (programInput o.maxStandard (prepare o.toActionOpts I)).2 d) := by
    cases hm : o.maxStandard with
    | true =>
      refine ⟨Msm G, fun m => maxStandard_names hP hI m, fun d => ?_⟩
      have := solveStandardAt_spec o.params rnd hP.ideal d
      rw [← hP.translator] at this
      exact this
    | false =>
      refine ⟨fun t => t ∈ D, fun m => component_names hP hI hD m, fun d => ?_⟩
      have := solveIrrProgramAt_spec o.params rnd hP.ideal d (fun hn _ _ => pure_one_var_at hP.ideal hn) hD
      rw [← hP.translator] at this
      exact this
  obtain ⟨value, S, h1, h2, h3, h4⟩ := solveProgramText_spec (hspec fun i => (if o.minValue then v.map fun x => -x else v).getD i 0) o.canon w (prepare o.toActionOpts I).names
  have h5 := solves_perm h2 (arranged_perm o.canon S)
  obtain ⟨h6, h7⟩ := optimizes_names hP.length hP.nodup hv (hN ▸ hperm) hC o.minValue h5
  refine ⟨value, S, toNamed (prepare o.toActionOpts I).names (arranged o.canon S), by rw [h1, hN], by rw [hN], ?_, ?_, ?_, ?_⟩
  · exact fun g => prints_at hI hring g hN hP.length S
  · rw [toNamed_monomials]
    exact h6
  · intro hl
    rw [toNamed_monomials, List.length_map, (arranged_perm _ _).length_eq]
    exact h3 (by simpa [OptimizeOpts.params] using hl)
  · intro hl h0 m hm hx
    rw [toNamed_monomials]
    refine h7 (fun x hx t ht he => (arranged_perm _ _).mem_iff.2 (h4 (by simpa [OptimizeOpts.params] using hl) h0 x hx t ht he)) m hm hx

theorem eraseFirst_eq (I : NamedIdeal) : I.eraseFirst = I.withoutFirst := by
  unfold NamedIdeal.eraseFirst NamedIdeal.withoutFirst
  simp only [List.drop_one, NamedIdeal.mk.injEq, true_and]
  exact List.map_congr_left fun t _ => List.drop_one.symm

/-- The calls of `optimize`, for all options. -/
theorem optimize_with {o : OptimizeOpts} {f : IOFormat} {t : Text} {I : NamedIdeal} {v : List ℤ} (h : AcceptedOptimize o f t I v) (rnd : List ℕ → ℕ → ℕ) (w : CallWriter) :
    ∃ value, ∃ S : List (Term (o.ideal I).names.length), ∃ J,
      optimizeWith w o rnd f t = .ok ((if o.displayLevel = 0 then [] else w (outNames o.canon (o.ideal I).names) (bigIdeal (arranged o.canon S))) ++
        if o.displayValue then valueLine (o.subtract v) value else []) ∧
      J = toNamed (outNames o.canon (o.ideal I).names) (arranged o.canon S) ∧ (∀ g, Prints o.canon (o.ideal I) g (idealText g J) J) ∧
      Optimizes (if o.maxStandard then (o.ideal I).MaxStandard else (o.ideal I).Component) (weight (o.ideal I).names (o.vector v)) o.minValue value J.monomials ∧
      (o.displayLevel ≤ 1 → J.monomials.length ≤ 1) ∧
      (2 ≤ o.displayLevel → value ≠ some 0 → ∀ m, (if o.maxStandard then (o.ideal I).MaxStandard else (o.ideal I).Component) m →
        value = some (weight (o.ideal I).names (o.vector v) m) → m ∈ J.monomials) := by
  obtain ⟨ha, hn, hlen⟩ := optimize_wellFormed h.read
  have hI : I.Ok := ⟨hn, hlen⟩
  have hv := (C56_input h.read).1
  have hsub : (o.ideal I).names.Sublist I.names := by
    unfold OptimizeOpts.ideal
    split
    · exact List.drop_sublist _ _
    · exact .refl _
  have hv' : (o.vector v).length = (o.ideal I).names.length := by
    unfold OptimizeOpts.vector OptimizeOpts.ideal NamedIdeal.withoutFirst
    split <;> simp [hv]
  obtain ⟨value, S, J, h1, hJ, h2, h3, h4, h5⟩ := optimize_core o rnd w (ideal_ok hI o) hv' (fun x hx => ha x (hsub.subset hx))
    (lt_of_le_of_lt hsub.length_le h.varCount) h.minimal h.sorted
  refine ⟨value.map fun x => if o.minValue then -x else x, S, J, ?_, hJ, h2, h3, h4, fun hl h0 => h5 hl fun h6 => h0 ?_⟩
  · obtain ⟨sp, hsp⟩ := h.split
    have hval : (validateSplit o.split true true).isNone = false := by
      unfold validateSplit
      rw [hsp]
      simp
    unfold optimizeWith
    rw [hval, h.read]
    simp only [Bool.false_eq_true, if_false]
    have key : optimizeIdeal o rnd w I v = optimizeProgram o rnd w (o.ideal I) (o.vector v) (o.subtract v) := by
      unfold optimizeIdeal OptimizeOpts.ideal OptimizeOpts.vector OptimizeOpts.subtract
      cases hchop : o.chopFirstAndSubtract with
      | false => rfl
      | true =>
        cases v with
        | cons x v =>
          simp [eraseFirst_eq]
        | nil =>
          have hIe : I.withoutFirst = I := by
            have h1 : I.names = [] := List.length_eq_zero_iff.1 hv.symm
            have h2 : I.terms.map (List.drop 1) = I.terms := by
              refine (List.map_congr_left fun t ht => ?_).trans (List.map_id _)
              have := hlen t ht
              rw [h1, List.length_nil, List.length_eq_zero_iff] at this
              rw [this]
              rfl
            unfold NamedIdeal.withoutFirst
            rw [h2, h1]
            cases I
            simp_all
          simp [hIe]
    rw [key]
    unfold optimizeProgram
    simp only
    rw [h1]
    cases value <;> rfl
  · rw [h6]
    simp

/-- C56: what `optimize` prints, for all options: first the text of an ideal that is generated by solutions of the program, if `-displayLevel` is
not zero, and then the optimal value or that there is none. All solutions are printed if that is asked for, except if the optimal value is 0.
The other conditions that are not in the description of the action are those of `AcceptedOptimize` on `-canon` and on `-minimal` with
`-chopFirstAndSubtract`. -/
theorem C56_optimize_partial {o : OptimizeOpts} {f : IOFormat} {t : Text} {I : NamedIdeal} {v : List ℤ} (h : AcceptedOptimize o f t I v) (rnd : List ℕ → ℕ → ℕ) (g : IOFormat) :
    ∃ value s J, optimizeAction o rnd f g t = .ok ((if o.displayLevel = 0 then [] else s) ++ if o.displayValue then valueLine (o.subtract v) value else []) ∧
      Prints o.canon (o.ideal I) g s J ∧
      Optimizes (if o.maxStandard then (o.ideal I).MaxStandard else (o.ideal I).Component) (weight (o.ideal I).names (o.vector v)) o.minValue value J.monomials ∧
      (o.displayLevel ≤ 1 → J.monomials.length ≤ 1) ∧
      (2 ≤ o.displayLevel → value ≠ some 0 → ∀ m, (if o.maxStandard then (o.ideal I).MaxStandard else (o.ideal I).Component) m →
        value = some (weight (o.ideal I).names (o.vector v) m) → m ∈ J.monomials) := by
  obtain ⟨value, S, J, h1, hJ, h2, h3⟩ := optimize_with h rnd (runWriter g)
  refine ⟨value, _, J, ?_, h2 g, h3⟩
  unfold optimizeAction
  rw [h1, runWriter_ideal, hJ]

/-- C56: the ideal without the first variable `x` consists of the monomials that are in the ideal after multiplication by some power of `x`. -/
theorem C56_chop {I : NamedIdeal} (hI : I.Ok) {x : Text} {names : List Text} (hx : I.names = x :: names) (m : Text → ℕ) :
    I.withoutFirst.mem m ↔ ∃ k, I.mem fun y => if y = x then k else m y := by
  have hnd := hI.nodup
  rw [hx, List.nodup_cons] at hnd
  have hne : ∀ p : Text × ℕ, ∀ u : List ℕ, p ∈ names.zip u → p.1 ≠ x := fun p u hp he => hnd.1 (he ▸ (List.of_mem_zip hp).1)
  unfold NamedIdeal.mem NamedIdeal.withoutFirst
  simp only [hx, List.drop_succ_cons, List.drop_zero]
  constructor
  · rintro ⟨t, ht, h⟩
    obtain ⟨u, hu, rfl⟩ := List.mem_map.1 ht
    have hl := hI.length u hu
    rw [hx] at hl
    cases u with
    | nil => simp at hl
    | cons e u =>
      refine ⟨e, e :: u, hu, fun p hp => ?_⟩
      rw [List.zip_cons_cons, List.mem_cons] at hp
      rcases hp with rfl | hp
      · simp
      · rw [if_neg (hne p u hp)]
        exact h p hp
  · rintro ⟨k, u, hu, h⟩
    have hl := hI.length u hu
    rw [hx] at hl
    cases u with
    | nil => simp at hl
    | cons e u =>
      refine ⟨u, List.mem_map.2 ⟨_, hu, rfl⟩, fun p hp => ?_⟩
      have := h p (by rw [List.zip_cons_cons]; exact List.mem_cons_of_mem _ hp)
      rwa [if_neg (hne p u hp)] at this

/-- C56: an error is reported exactly if the name of the split strategy is not known or the input cannot be read. -/
theorem C56_errors (o : OptimizeOpts) (rnd : List ℕ → ℕ → ℕ) (f g : IOFormat) (t : Text) :
    optimizeAction o rnd f g t = .error ↔ createSplit o.split = none ∨ readOptimizeInstance f t = none := by
  have hp : ∀ I v k, optimizeProgram o rnd (runWriter g) I v k ≠ .error := by
    intro I v k h
    unfold optimizeProgram at h
    simp only at h
    split at h <;> exact nomatch h
  have hval : (validateSplit o.split true true).isNone = (createSplit o.split).isNone := by
    unfold validateSplit
    cases createSplit o.split <;> simp
  unfold optimizeAction optimizeWith
  rw [hval]
  cases hs : createSplit o.split with
  | none => simp
  | some s =>
    cases hr : readOptimizeInstance f t with
    | none => simp
    | some p =>
      simp only [Option.isNone_some, Bool.false_eq_true, if_false, reduceCtorEq, or_self, iff_false]
      unfold optimizeIdeal
      split <;> exact hp _ _ _

/-- C56: `-bound` and `-boundSimplify` have no effect. -/
theorem C56_bound (o : OptimizeOpts) (b b' : Bool) (rnd : List ℕ → ℕ → ℕ) (f g : IOFormat) (t : Text) :
    optimizeAction { o with bound := b, boundSimplify := b' } rnd f g t = optimizeAction o rnd f g t := rfl

/-! ## where the claim is wrong -/

theorem Optimizes.unique {C : (Text → ℕ) → Prop} {w : (Text → ℕ) → ℤ} {min : Bool} {value value' : Option ℤ} {S S' : List (Text → ℕ)}
    (h : Optimizes C w min value S) (h' : Optimizes C w min value' S') : value = value' := by
  by_cases hC : ∃ m, C m
  · obtain ⟨x, rfl, _⟩ := h.found hC
    obtain ⟨y, rfl, _⟩ := h'.found hC
    obtain ⟨⟨m, h1, h2⟩, h3⟩ := h.optimal x rfl
    obtain ⟨⟨m', h4, h5⟩, h6⟩ := h'.optimal y rfl
    have h7 := h3 m' h4
    have h8 := h6 m h1
    rw [h5] at h7
    rw [h2] at h8
    congr 1
    cases min
    · simp only [Bool.false_eq_true, if_false] at h7 h8
      omega
    · simp only [if_true] at h7 h8
      omega
  · rw [(h.empty fun m hm => hC ⟨m, hm⟩).1, (h'.empty fun m hm => hC ⟨m, hm⟩).1]

/-- The ideal `⟨b^2, ab, a^3⟩` with the variables in the order `b, a`, and the vector `(2, 1)`. -/
def optimizeText : Text := t!"vars b, a;\n[ b^2, a*b, a^3 ];\n2 1\n"

theorem optimizeText_read : readOptimizeInstance .monos optimizeText = some (textIdeal, [2, 1]) := by decide +kernel

/-- The conditions of `C56_optimize_partial` are met if neither `-minimal` nor `-canon` is given. -/
theorem AcceptedOptimize.of_read {o : OptimizeOpts} {f : IOFormat} {t : Text} {I : NamedIdeal} {v : List ℤ} (h : readOptimizeInstance f t = some (I, v))
    (hs : (createSplit o.split).isSome = true) (hm : o.minimal = false) (hc : o.canon = false) (hn : I.names.length < 2 ^ 64) : AcceptedOptimize o f t I v :=
  ⟨h, Option.isSome_iff_exists.1 hs, fun h => absurd (hm.symm.trans h) (by decide), hn, fun h => absurd (hc.symm.trans h) (by decide)⟩

theorem valueLine_inj {k : ℤ} {a b : Option ℤ} (h : valueLine k a = valueLine k b) : a = b := by
  have hd : ∀ x : ℤ, readInteger (decimalInt x ++ t!"\n") = some (x, t!"\n") := fun x => readInteger_decimalInt x (by decide)
  have hno : readInteger t!"no solution.\n" = none := by decide +kernel
  have hr : ∀ x : Option ℤ, readInteger (valueLine k x) = x.map fun x => (x - k, t!"\n") := by
    intro x
    cases x with
    | none => exact hno
    | some x => exact hd _
  have h2 := (hr a).symm.trans ((congrArg readInteger h).trans (hr b))
  cases a <;> cases b <;> simp at h2 ⊢
  exact h2

/-- The value that is printed, from what is printed without `-displayLevel`. -/
theorem value_of_prints {o : OptimizeOpts} {f : IOFormat} {t : Text} {I : NamedIdeal} {v : List ℤ} (h : AcceptedOptimize o f t I v) {rnd : List ℕ → ℕ → ℕ} {g : IOFormat}
    {x : Option ℤ} (hl : o.displayLevel = 0) (hd : o.displayValue = true) (hp : optimizeAction o rnd f g t = .ok (valueLine (o.subtract v) x)) {value : Option ℤ} {S : List (Text → ℕ)}
    (ho : Optimizes (if o.maxStandard then (o.ideal I).MaxStandard else (o.ideal I).Component) (weight (o.ideal I).names (o.vector v)) o.minValue value S) :
    value = x := by
  obtain ⟨y, s, J, h1, _, h3, _⟩ := C56_optimize_partial h rnd g
  rw [hp, hl, hd] at h1
  injection h1 with h1
  rw [ho.unique h3]
  exact (valueLine_inj (by simpa using h1)).symm

theorem optimizeText_accepted : AcceptedOptimize {} .monos optimizeText textIdeal [2, 1] :=
  .of_read optimizeText_read (by decide +kernel) rfl rfl (by decide)

theorem optimizeText_prints (rnd : List ℕ → ℕ → ℕ) : optimizeAction {} rnd .monos .monos optimizeText = .ok t!"5\n" := by rfl

theorem optimizeText_canon (rnd : List ℕ → ℕ → ℕ) : optimizeAction { canon := true } rnd .monos .monos optimizeText = .ok t!"7\n" := by rfl

/-- With `-canon` the value can be wrong: 7 is printed, and the optimal value is 5. The variables are sorted, and the entries of the vector are not. -/
theorem C56_canon_wrong (rnd : List ℕ → ℕ → ℕ) : optimizeAction { canon := true } rnd .monos .monos optimizeText = .ok t!"7\n" ∧
    readOptimizeInstance .monos optimizeText = some (textIdeal, [2, 1]) ∧
    ∀ value S, Optimizes textIdeal.Component (weight textIdeal.names [2, 1]) false value S → value = some 5 :=
  ⟨optimizeText_canon rnd, optimizeText_read, fun _ _ h => value_of_prints optimizeText_accepted rfl rfl (optimizeText_prints rnd) h⟩

def chopOpts : OptimizeOpts := { maxStandard := true, chopFirstAndSubtract := true }

theorem chop_prints (rnd : List ℕ → ℕ → ℕ) : optimizeAction chopOpts rnd .monos .monos optimizeText = .ok t!"no solution.\n" := by rfl

theorem chop_minimal (rnd : List ℕ → ℕ → ℕ) : optimizeAction { chopOpts with minimal := true } rnd .monos .monos optimizeText = .ok t!"-2\n" := by rfl

/-- With `-minimal` and `-chopFirstAndSubtract` the value can be wrong although the generators in the input are minimal: they need not be minimal
without the first variable. Here `-2` is printed, and there is no maximal standard monomial. -/
theorem C56_chop_minimal_wrong (rnd : List ℕ → ℕ → ℕ) : optimizeAction { chopOpts with minimal := true } rnd .monos .monos optimizeText = .ok t!"-2\n" ∧
    readOptimizeInstance .monos optimizeText = some (textIdeal, [2, 1]) ∧ textIdeal.Minimal ∧
    ∀ value S, Optimizes textIdeal.withoutFirst.MaxStandard (weight textIdeal.withoutFirst.names [1]) false value S → value = none :=
  ⟨chop_minimal rnd, optimizeText_read, by unfold NamedIdeal.Minimal; decide,
    fun _ _ h => value_of_prints (o := chopOpts) (.of_read optimizeText_read (by decide +kernel) rfl rfl (by decide)) rfl rfl (chop_prints rnd) h⟩

/-- The ideal `⟨a^2, ab, b^2⟩` and the vector `(0, 0)`. -/
def zeroText : Text := t!"vars a, b;\n[ a^2, a*b, b^2 ];\n0 0\n"

def zeroIdeal : NamedIdeal := ⟨[t!"a", t!"b"], [[2, 0], [1, 1], [0, 2]]⟩

theorem zero_prints (rnd : List ℕ → ℕ → ℕ) : optimizeAction { maxStandard := true, displayLevel := 2 } rnd .monos .monos zeroText =
    .ok t!"vars a, b;\n[\n b\n];\n0\n" := by rfl

/-- With `-displayLevel 2` solutions can be missing if the optimal value is 0: here only `b` is printed, although `a` is a solution too. -/
theorem C56_zero_wrong (rnd : List ℕ → ℕ → ℕ) :
    optimizeAction { maxStandard := true, displayLevel := 2 } rnd .monos .monos zeroText = .ok t!"vars a, b;\n[\n b\n];\n0\n" ∧
    readOptimizeInstance .monos zeroText = some (zeroIdeal, [0, 0]) ∧
    zeroIdeal.MaxStandard (powerOf t!"a" 1) ∧ zeroIdeal.MaxStandard (powerOf t!"b" 1) ∧ ∀ m, weight zeroIdeal.names [0, 0] m = 0 := by
  refine ⟨zero_prints rnd, by decide +kernel, ⟨fun x hx => ?_, ?_, ?_⟩, ⟨fun x hx => ?_, ?_, ?_⟩, fun m => ?_⟩
  · simp only [zeroIdeal, List.mem_cons, not_or] at hx
    simp [powerOf, hx.1]
  · unfold NamedIdeal.mem; decide
  · unfold NamedIdeal.mem; decide
  · simp only [zeroIdeal, List.mem_cons, not_or] at hx
    simp [powerOf, hx.2.1]
  · unfold NamedIdeal.mem; decide
  · unfold NamedIdeal.mem; decide
  · simp [weight, zeroIdeal]

/-! ## examples -/

/-- The value 5 of `optimizeText` is that of `b^2 a`, which is the encoding of `⟨b^2, a⟩`, and of `b a^3`. -/
example : weight textIdeal.names [2, 1] (fun x => if x = t!"b" then 2 else if x = t!"a" then 1 else 0) = 5 := by decide +kernel

example (rnd : List ℕ → ℕ → ℕ) : optimizeAction { displayLevel := 2 } rnd .monos .monos optimizeText = .ok t!"vars b, a;\n[\n b*a^3,\n b^2*a\n];\n5\n" := by rfl

example (rnd : List ℕ → ℕ → ℕ) : optimizeAction { displayLevel := 1, maxStandard := true, minValue := true } rnd .monos .monos optimizeText =
    .ok t!"vars b, a;\n[\n a^2\n];\n2\n" := by rfl

/-- The first variable is set to 1, and 3 is subtracted from the value 1 of `b`. -/
example (rnd : List ℕ → ℕ → ℕ) : optimizeAction { displayLevel := 2, minValue := true, chopFirstAndSubtract := true } rnd .monos .monos
    t!"vars a, b, c;\n[ b^3, c*b ];\n3 1 2\n" = .ok t!"vars b, c;\n[\n b\n];\n-2\n" := by rfl

/-- The vector is all ones if it is left out. -/
example : readOptimizeInstance .monos exampleText = some (textIdeal, [1, 1]) := by decide +kernel

/-- Too few numbers, too many, and a name of a strategy that does not exist. -/
example (rnd : List ℕ → ℕ → ℕ) : optimizeAction {} rnd .monos .monos t!"vars b, a;\n[ b^2, a ];\n2\n" = .error ∧
    optimizeAction {} rnd .monos .monos t!"vars b, a;\n[ b^2, a ];\n2 3 4\n" = .error ∧
    optimizeAction { split := t!"x" } rnd .monos .monos optimizeText = .error :=
  ⟨(C56_errors ..).2 (by decide +kernel), (C56_errors ..).2 (by decide +kernel), (C56_errors ..).2 (by decide +kernel)⟩

/-- `C56_chop` for `⟨b^2, ab, a^3⟩`: without `b`, it is everything. -/
example : textIdeal.names = t!"b" :: [t!"a"] ∧ textIdeal.withoutFirst.mem fun _ => 0 := by
  refine ⟨rfl, ?_⟩
  unfold NamedIdeal.mem
  decide

end Frobby
