import Verif.PropsProgram

/-!
# C67: the formats `count` and `null`
-/

namespace Frobby

/-! ## what is printed -/

/-- A line with the number of things that `C` is true of. -/
def CountIs {α : Type} (C : α → Prop) (s : Text) : Prop := ∃ L : List α, L.Nodup ∧ (∀ m, m ∈ L ↔ C m) ∧ s = decimal L.length ++ t!"\n"

/-- For each ideal a line with the number of its generators. -/
def genLines (Js : List NamedIdeal) : Text := Js.flatMap fun J => decimal J.terms.length ++ t!"\n"

/-- There is only one such line. -/
theorem CountIs.unique {α : Type} {C : α → Prop} {s s' : Text} (h : CountIs C s) (h' : CountIs C s') : s = s' := by
  obtain ⟨L, h1, h2, rfl⟩ := h
  obtain ⟨L', h3, h4, rfl⟩ := h'
  rw [((List.perm_ext_iff_of_nodup h1 h3).2 fun m => (h2 m).trans (h4 m).symm).length_eq]

/-! ## the calls -/

theorem countStep_ideal {n : ℕ} (E : List (Term n)) (s : ℕ × Text) : (bigIdeal E).foldl countStep s = (E.length, s.2 ++ (decimal E.length ++ t!"\n")) := by
  have key : ∀ (E : List (Term n)) (k : ℕ) (u : Text), (E.map fun x => BigEvent.term (List.ofFn x)).foldl countStep (k, u) = (k + E.length, u) := by
    intro E
    induction E with
    | nil => intro k u; rfl
    | cons e E ih =>
      intro k u
      rw [List.map_cons, List.foldl_cons, countStep, ih, List.length_cons]
      congr 1
      omega
  unfold bigIdeal
  rw [List.cons_append, List.foldl_cons, List.foldl_append, countStep, key]
  simp [countStep]

theorem countWriter_ideal {n : ℕ} (N : List Text) (E : List (Term n)) : countWriter N (bigIdeal E) = decimal E.length ++ t!"\n" := by
  rw [countWriter, countStep_ideal]
  rfl

theorem countWriter_list {n : ℕ} (N : List Text) (Es : List (List (Term n))) : countWriter N (bigList Es) = Es.flatMap fun E => decimal E.length ++ t!"\n" := by
  have key : ∀ (Es : List (List (Term n))) (s : ℕ × Text), ((Es.flatMap bigIdeal).foldl countStep s).2 = s.2 ++ Es.flatMap fun E => decimal E.length ++ t!"\n" := by
    intro Es
    induction Es with
    | nil => intro s; simp
    | cons E Es ih =>
      intro s
      rw [List.flatMap_cons, List.foldl_append, countStep_ideal, ih, List.flatMap_cons, List.append_assoc]
  unfold countWriter bigList
  rw [List.cons_append, List.foldl_cons, List.foldl_append]
  simp [countStep, key]

theorem genLines_named {n : ℕ} (N : List Text) (Es : List (List (Term n))) : genLines (Es.map (toNamed N)) = Es.flatMap fun E => decimal E.length ++ t!"\n" := by
  unfold genLines
  rw [List.flatMap_map]
  simp [toNamed]

/-! ## `-oformat count` -/

variable {toks : List Text} {os : List (Text × List Text)} {t : Text} {f g : IOFormat} {F : FormatKind} {env : MainEnv}

theorem runOn_accepted {o : ActionOpts} {I : NamedIdeal} (h : Accepted o f t I) {list : Bool} {G : FormatKind} (hl : list = true → G.supportsList = true)
    (run : NamedIdeal → Outcome Text) : readAndRunOn o list (.std f) G t run = run I := by
  unfold readAndRunOn
  rw [rejectsSplit_false h.split, std_readIdeal, h.read]
  cases list
  · rfl
  · simp [hl rfl, onInput]

/-- C67: **`irrdecom -encode -oformat count` prints the number of irreducible components.** -/
theorem C67_count_encode (h : Invokes toks .irrdecom os) {o : ActionOpts} (ho : GivenSlice .irrdecom os o) (he : Given .irrdecom os t!"encode" (.bool true))
    (hfg : FormatsOf .irrdecom os t (.std f) .count) {I : NamedIdeal} (ha : Accepted o f t I) :
    ∃ D, I.EncodedDecom D ∧ frobbyMain env toks t = some (.ok (decimal D.length ++ t!"\n")) := by
  obtain ⟨E, h1, _, h3⟩ := irrdecom_run ha true env.rnd countWriter
  refine ⟨_, h3, ?_⟩
  rw [C67_main_irrdecom env h ho he hfg, irrdecomOn, runOn_accepted ha fun _ => rfl]
  refine congrArg some (h1.trans ?_)
  rw [if_pos rfl, countWriter_ideal, List.length_map]

/-- C67: `irrdecom -oformat count` prints **the number of generators of each irreducible component** on a line of its own. This is not the number of components. -/
theorem C67_count_irrdecom (h : Invokes toks .irrdecom os) {o : ActionOpts} (ho : GivenSlice .irrdecom os o) (he : Given .irrdecom os t!"encode" (.bool false))
    (hfg : FormatsOf .irrdecom os t (.std f) .count) {I : NamedIdeal} (ha : Accepted o f t I) :
    ∃ Js, I.IrreducibleDecom Js ∧ frobbyMain env toks t = some (.ok (genLines Js)) := by
  obtain ⟨E, h1, _, h3⟩ := irrdecom_run ha false env.rnd countWriter
  refine ⟨_, irreducible_names ha h3, ?_⟩
  rw [C67_main_irrdecom env h ho he hfg, irrdecomOn, runOn_accepted ha fun _ => rfl]
  refine congrArg some (h1.trans ?_)
  rw [if_neg (by simp), countWriter_list, genLines_named]

/-- C67: `primdecom -oformat count` prints **the number of minimal generators of each primary component**. -/
theorem C67_count_primdecom (h : Invokes toks .primdecom os) {o : ActionOpts} (ho : GivenSlice .primdecom os o) (hfg : FormatsOf .primdecom os t (.std f) .count)
    {I : NamedIdeal} (ha : Accepted o f t I) : ∃ Js, I.PrimaryDecom Js ∧ frobbyMain env toks t = some (.ok (genLines Js)) := by
  obtain ⟨G, E, C, hP, hR, h1⟩ := primdecom_run ha env.rnd countWriter
  refine ⟨_, primary_decom ha.ok hP hR, ?_⟩
  rw [C67_main_primdecom env h ho hfg, primdecomOn, runOn_accepted ha fun _ => rfl]
  refine congrArg some (h1.trans ?_)
  rw [countWriter_list, genLines_named]

/-- C67: **`assoprimes -oformat count` prints the number of associated primes.** -/
theorem C67_count_assoprimes (h : Invokes toks .assoprimes os) {o : ActionOpts} (ho : GivenSlice .assoprimes os o) (hfg : FormatsOf .assoprimes os t (.std f) .count)
    {I : NamedIdeal} (ha : Accepted o f t I) : ∃ s, frobbyMain env toks t = some (.ok s) ∧ CountIs I.AssocPrime s := by
  obtain ⟨E, h1, _, h3, h4⟩ := assoprimes_run ha env.rnd countWriter
  refine ⟨_, ?_, _, h3, h4, rfl⟩
  rw [C67_main_assoprimes env h ho hfg, assoprimesOn, runOn_accepted ha fun _ => rfl]
  refine congrArg some (h1.trans ?_)
  rw [countWriter_ideal, List.length_map]

/-- C67: **`maxstandard -oformat count` prints the number of maximal standard monomials**, with and without `-increment`. -/
theorem C67_count_maxstandard (h : Invokes toks .maxstandard os) {o : ActionOpts} (ho : GivenSlice .maxstandard os o) {increment : Bool}
    (hi : Given .maxstandard os t!"increment" (.bool increment)) (hfg : FormatsOf .maxstandard os t (.std f) .count) {I : NamedIdeal} (ha : Accepted o f t I) :
    ∃ s, frobbyMain env toks t = some (.ok s) ∧ CountIs I.MaxStandard s := by
  obtain ⟨E, h1, _, h3, h4⟩ := maxstandard_run ha increment env.rnd countWriter
  let φ : (Text → ℕ) → Text → ℕ := fun m x => if x ∈ I.names ∧ increment = true then m x + 1 else m x
  let ψ : (Text → ℕ) → Text → ℕ := fun m x => if x ∈ I.names ∧ increment = true then m x - 1 else m x
  have hψ : ∀ m, ψ (φ m) = m := by
    intro m
    funext x
    simp only [ψ, φ]
    split <;> simp
  have h5 : ∀ m, m ∈ (E.map (nm (outNames o.canon I.names))).map ψ ↔ I.MaxStandard m := by
    intro m
    rw [List.mem_map]
    constructor
    · rintro ⟨p, hp, rfl⟩
      obtain ⟨m, hm, rfl⟩ := (h4 p).1 hp
      exact (hψ m).symm ▸ hm
    · exact fun hm => ⟨φ m, (h4 _).2 ⟨m, hm, rfl⟩, hψ m⟩
  refine ⟨_, ?_, _, List.Nodup.map_on ?_ h3, h5, rfl⟩
  · rw [C67_main_maxstandard env h ho hi hfg, maxstandardOn, runOn_accepted ha fun _ => rfl]
    refine congrArg some (h1.trans ?_)
    rw [countWriter_ideal, List.length_map, List.length_map]
  · intro p hp q hq hpq
    obtain ⟨m, _, rfl⟩ := (h4 p).1 hp
    obtain ⟨m', _, rfl⟩ := (h4 q).1 hq
    have := (hψ m).symm.trans (hpq.trans (hψ m'))
    rw [this]

/-- C67: **`alexdual -oformat count` prints the number of minimal generators of the Alexander dual**, for an ideal that is given without a point or with one that is a multiple of
the generators. -/
theorem C67_count_alexdual (h : Invokes toks .alexdual os) {o : ActionOpts} (ho : GivenSlice .alexdual os o) (hfg : FormatsOf .alexdual os t (.std f) .count)
    {I K : NamedIdeal} {point : Option (List ℕ)} (ha : AcceptedDual o f t I point) (hK : I.MinimizedOf K)
    (hp : ∀ a ∈ point, ∀ m ∈ K.monomials, ∀ x, m x ≤ expOf (outNames o.canon I.names) a x) :
    ∃ J, I.DualOf ((point.map (expOf (outNames o.canon I.names))).getD K.maxExp) J ∧ frobbyMain env toks t = some (.ok (decimal J.terms.length ++ t!"\n")) := by
  obtain ⟨E, h1, _, h3⟩ := alexdual_with ha hK env.rnd countWriter hp
  refine ⟨_, h3, ?_⟩
  rw [C67_main_alexdual env h ho hfg]
  have : alexdualOn o env.rnd (.std f) .count t = alexdualWith countWriter o env.rnd f t := by
    unfold alexdualOn alexdualWith
    split
    · rfl
    · refine onInput_std _ _ (fun h => ?_) fun I h => ?_
      · rw [show readDualInstance f t = none from h]
      · rw [show readDualInstance f t = some I from h]
        rfl
  rw [this, h1, countWriter_ideal]
  simp [toNamed]

/-- C67: **`hilbert -oformat count` prints the number of terms of the numerator** of the multigraded Hilbert-Poincaré series. -/
theorem C67_count_hilbert (h : Invokes toks .hilbert os) {o : HilbertOpts} (ho : GivenHilbert os o) (hfg : FormatsOf .hilbert os t (.std f) .count) {I : NamedIdeal}
    (ha : HilbertAccepted o f t I) (hu : o.univariate = false) (henv : env.toHilbertEnv.Ok) :
    ∃ P, I.HilbertNumerator P ∧ frobbyMain env toks t = some (.ok (decimal P.terms.length ++ t!"\n")) := by
  obtain ⟨a, P, h1, h2, h3, _⟩ := multigraded_with ha hu henv (FormatKind.count.polyWriter true) (FormatKind.count.polyWriter false)
  refine ⟨P, h3, ?_⟩
  rw [C67_main_hilbert env h ho hfg, hilbertOn, h1, std_readIdeal, ha.read]
  exact congrArg some h2

/-- C67: the same for the univariate series. -/
theorem C67_count_univariate (h : Invokes toks .hilbert os) {o : HilbertOpts} (ho : GivenHilbert os o) (hfg : FormatsOf .hilbert os t (.std f) .count) {I : NamedIdeal}
    (ha : HilbertAccepted o f t I) (hu : o.univariate = true) (henv : env.toHilbertEnv.Ok) :
    ∃ Q, I.UnivariateNumerator Q ∧ frobbyMain env toks t = some (.ok (decimal Q.terms.length ++ t!"\n")) := by
  obtain ⟨a, P, h1, h2, h3, _⟩ := univariate_with ha hu henv (FormatKind.count.polyWriter true) (FormatKind.count.polyWriter false)
  refine ⟨P, h3, ?_⟩
  rw [C67_main_hilbert env h ho hfg, hilbertOn, h1, std_readIdeal, ha.read]
  exact congrArg some h2

/-- C67: `optimize -oformat count` prints **the number of solutions that it would list**, and then the value. -/
theorem C67_count_optimize (h : Invokes toks .optimize os) {o : OptimizeOpts} (ho : GivenOptimize os o) (hfg : FormatsOf .optimize os t (.std f) .count) {I : NamedIdeal}
    {v : List ℤ} (ha : AcceptedOptimize o f t I v) :
    ∃ value S, frobbyMain env toks t = some (.ok ((if o.displayLevel = 0 then [] else decimal S.length ++ t!"\n") ++
        if o.displayValue then valueLine (o.subtract v) value else [])) ∧
      Optimizes (if o.maxStandard then (o.ideal I).MaxStandard else (o.ideal I).Component) (weight (o.ideal I).names (o.vector v)) o.minValue value S := by
  obtain ⟨value, S, J, h1, rfl, _, h3, _⟩ := optimize_with ha env.rnd countWriter
  refine ⟨value, _, ?_, h3⟩
  rw [C67_main_optimize env h ho hfg]
  have : optimizeOn o env.rnd (.std f) .count t = optimizeWith countWriter o env.rnd f t := by
    unfold optimizeOn optimizeWith
    split
    · rfl
    · refine onInput_std _ _ (fun h => ?_) fun I h => ?_
      · rw [show readOptimizeInstance f t = none from h]
      · rw [show readOptimizeInstance f t = some I from h]
        rfl
  rw [this, h1, countWriter_ideal]
  simp [toNamed, NamedIdeal.monomials]

/-- C67: **`intersection -oformat count` prints the number of minimal generators of the intersection.** -/
theorem C67_count_intersection (h : Invokes toks .intersection os) {canon : Bool} (hc : Given .intersection os t!"canon" (.bool canon))
    (hfg : FormatsOf .intersection os t (.std f) .count) {Is : List NamedIdeal} {names : List Text} (hI : readIdeals f t = some (Is, names)) :
    ∃ R, IntersectionOf Is names R ∧ frobbyMain env toks t = some (.ok (decimal R.terms.length ++ t!"\n")) := by
  obtain ⟨R, h1, h2, _⟩ := intersectIdeals_spec canon hI
  refine ⟨R, h2, ?_⟩
  rw [C67_main_intersection env h hc hfg, intersectionOn, show (FormatKind.std f).readIdeals t = some (Is, names) from hI, onInput, h1]
  rfl

/-- C67: **`ptransform -oformat count` prints the number of terms that were read.** -/
theorem C67_count_ptransform (h : Invokes toks .ptransform os) {canon sort : Bool} (hc : Given .ptransform os t!"canon" (.bool canon))
    (hs : Given .ptransform os t!"sort" (.bool sort)) (hfg : FormatsOf .ptransform os t (.std f) .count) {f' : PolyFormat} (hf : polyFormat f = some f')
    {P : NamedPoly} (hr : readPoly f' t = some P) (hP : P.FullTerms) : frobbyMain env toks t = some (.ok (decimal P.terms.length ++ t!"\n")) := by
  rw [C67_main_ptransform env h hc hs hfg, ptransformOn, std_readPoly, hf, Option.bind_some, hr]
  simp only [FormatKind.supportsPoly, onInput, polyTransform_ok canon sort hP, Outcome.map, FormatKind.polyWriter]
  have : (ptransformed canon sort P).terms.length = P.terms.length := by
    unfold ptransformed
    cases canon <;> cases sort <;> simp [NamedPoly.sortTerms, NamedPoly.sortVariables]
  simp [this]

/-- C67: **`transform -oformat count` prints the number of generators of each of the ideals** that it prints in another format `g`. -/
theorem C67_count_transform (h : Invokes toks .transform os) {o : TransformOpts} (ho : GivenTransform os o) (ht : o.transpose = false)
    (hfg : FormatsOf .transform os t (.std f) .count) {Is : List NamedIdeal} {names : List Text} (hI : readIdeals f t = some (Is, names)) (hn : names.length < 2 ^ 64)
    (h1 : ∀ I ∈ Is, I.names = names) (g : IOFormat) :
    ∃ s Js names', transformOn o (.std f) (.std g) t = .ok s ∧ ((∀ J ∈ Js, J.terms.length < 2 ^ 64) → readIdeals g s = some (Js, names')) ∧
      frobbyMain env toks t = some (.ok (genLines Js)) := by
  obtain ⟨g1, g2, g3⟩ := C59_list_good hI
  have h2 : OneRing names Is := fun I hI => ⟨⟨(g1 I hI).2.1, (g1 I hI).2.2⟩, h1 I hI⟩
  obtain ⟨_, _, _, _, _, s', h0, _⟩ := C50_transform_partial o ht g3 h2
  obtain ⟨n1, n2, n3⟩ := transform_names ht g3 h2 h0
  refine ⟨writeIdeals g s'.1 s'.2, s'.2, s'.1, ?_, fun hs => ?_, ?_⟩
  · rw [transformOn, show (FormatKind.std f).readIdeals t = some (Is, names) from hI, onInput, h0]
    rfl
  · have hA : AllowedRing s'.1 := ⟨fun x hx => g2 x (n3 x hx), n1, by
      have := (n1.subperm fun x hx => n3 x hx).length_le
      omega⟩
    rw [readIdeals_spec g hA.valid hA.varCount fun J hJ => WellFormed.readable ⟨(n2 J hJ).2 ▸ hA, (n2 J hJ).1.length, hs J hJ⟩, lastNames_oneRing n2]
  · rw [C67_main_transform env h ho hfg, transformOn, show (FormatKind.std f).readIdeals t = some (Is, names) from hI, onInput, h0]
    rfl

/-- C67: `analyze -lcm -oformat count` prints the line `1` for the least common multiple. -/
theorem C67_analyze (h : Invokes toks .analyze os) {o : AnalyzeOpts} (ho : GivenAnalyze os o) {G : FormatKind} (hG : G = .count ∨ G = .null) (hl : o.lcm = true)
    (hfg : FormatsOf .analyze os t F G) :
    frobbyMain env toks t = some ((analyzeOn { o with lcm := false } F G t).map fun s => (if G = .count then t!"1\n" else t!"\n") ++ s) := by
  rw [C67_main_analyze env h ho hfg]
  congr 1
  unfold analyzeOn onInput
  cases F.readIdeal t with
  | none => rfl
  | some I =>
    have h1 : ∀ w, analyzeIdeal { o with lcm := false } w = analyzeIdeal o w := fun _ => rfl
    have h2 : ∀ s, analyzeStreaming o G.termWriter I.names s = (if G = .count then t!"1\n" else t!"\n") ++ analyzeStreaming { o with lcm := false } G.termWriter I.names s := by
      intro s
      rcases hG with rfl | rfl <;> simp [analyzeStreaming, hl, FormatKind.termWriter]
    simp only [analyzeRun, h1, h2]
    split
    · cases analyzeIdeal o I with
      | none => rfl
      | some u => simp [Outcome.map]
    · rfl

/-! ## `-oformat null` -/

theorem Outcome.map_map {α β γ : Type} (φ : α → β) (χ : β → γ) (r : Outcome α) : (r.map φ).map χ = r.map fun x => χ (φ x) := by cases r <;> rfl

theorem outputWith_map {n : ℕ} (φ : Text → Text) (canon split : Bool) (w : CallWriter) (names : List Text) (T : Translator n) (es : List (TermEvent n)) :
    outputWith canon split (fun N es => φ (w N es)) names T es = (outputWith canon split w names T es).map φ := by
  unfold outputWith
  rw [Option.map_bind]
  congr 1
  funext es
  simp only [Function.comp_def, Option.map_map]

theorem ofOption_map {α β : Type} (φ : α → β) (r : Option α) : Outcome.ofOption (r.map φ) = (Outcome.ofOption r).map φ := by cases r <;> rfl

theorem irrdecomRun_map (φ : Text → Text) (w : CallWriter) (o : ActionOpts) (encode : Bool) (rnd : List ℕ → ℕ → ℕ) (I : NamedIdeal) :
    irrdecomRun (fun N es => φ (w N es)) o encode rnd I = (irrdecomRun w o encode rnd I).map φ := by
  unfold irrdecomRun
  simp only [outputWith_map φ, Option.map_bind, ← ofOption_map, Function.comp_def]

theorem maxstandardRun_map (φ : Text → Text) (w : CallWriter) (o : ActionOpts) (increment : Bool) (rnd : List ℕ → ℕ → ℕ) (I : NamedIdeal) :
    maxstandardRun (fun N es => φ (w N es)) o increment rnd I = (maxstandardRun w o increment rnd I).map φ := by
  unfold maxstandardRun
  simp only [outputWith_map φ, Option.map_bind, ← ofOption_map, Function.comp_def]

theorem assoprimesRun_map (φ : Text → Text) (w : CallWriter) (o : ActionOpts) (rnd : List ℕ → ℕ → ℕ) (I : NamedIdeal) :
    assoprimesRun (fun N es => φ (w N es)) o rnd I = (assoprimesRun w o rnd I).map φ := by
  unfold assoprimesRun
  simp only [outputWith_map φ, Option.map_bind, ← ofOption_map, Function.comp_def]

theorem primdecomRun_map (φ : Text → Text) (w : CallWriter) (o : ActionOpts) (rnd : List ℕ → ℕ → ℕ) (I : NamedIdeal) :
    primdecomRun (fun N es => φ (w N es)) o rnd I = (primdecomRun w o rnd I).map φ := by
  unfold primdecomRun
  simp only [outputWith_map φ, Option.map_bind, ← ofOption_map, Function.comp_def]

theorem dualText_map {n : ℕ} (φ : Text → Text) (o : ActionOpts) (rnd : List ℕ → ℕ → ℕ) (w : CallWriter) (p : Prepared n) (point : Option (Fin n → ℤ)) :
    dualText o rnd (fun N es => φ (w N es)) p point = (dualText o rnd w p point).map φ := by
  unfold dualText
  split
  · rfl
  · simp only
    split
    · rfl
    · simp only [outputWith_map φ, Option.map_bind, ← ofOption_map, Function.comp_def]

theorem onInput_map {α : Type} (φ : Text → Text) (input : Option α) {run run' : α → Outcome Text} (h : ∀ I, run' I = (run I).map φ) :
    onInput input run' = (onInput input run).map φ := by
  cases input with
  | none => rfl
  | some I => exact h I

theorem if_error_map (φ : Text → Text) {c : Prop} [Decidable c] {r r' : Outcome Text} (h : r' = r.map φ) : (if c then .error else r') = (if c then .error else r : Outcome Text).map φ := by
  split
  · rfl
  · exact h

/-- Nothing is printed, and an error or an internal error stays one. -/
def silent (r : Outcome Text) : Outcome Text := r.map fun _ => []

theorem readAndRunOn_null {o : ActionOpts} {list : Bool} {t : Text} {run : FormatKind → NamedIdeal → Outcome Text} (hl : list = true → supportsList g = true)
    (h : ∀ I, run .null I = silent (run (.std g) I)) : readAndRunOn o list F .null t (run .null) = silent (readAndRunOn o list F (.std g) t (run (.std g))) := by
  have h1 : (list && !FormatKind.null.supportsList) = (list && !(FormatKind.std g).supportsList) := by
    cases list
    · rfl
    · rw [std_supportsList, hl rfl]; rfl
  unfold readAndRunOn
  rw [h1]
  exact if_error_map _ (onInput_map _ _ h)

/-- C67: **with `-oformat null` the actions do what they do with other formats, and print nothing.** `g` is a format that the action can write. -/
theorem C67_null_irrdecom (o : ActionOpts) (encode : Bool) (rnd : List ℕ → ℕ → ℕ) (F : FormatKind) (hg : encode = false → supportsList g = true) (t : Text) :
    irrdecomOn o encode rnd F .null t = silent (irrdecomOn o encode rnd F (.std g) t) :=
  readAndRunOn_null (run := fun G => irrdecomRun G.callWriter o encode rnd) (by cases encode <;> simp_all) fun I => irrdecomRun_map (fun _ => []) (runWriter g) o encode rnd I

/-- C67: `-oformat null` for `primdecom`, `assoprimes` and `maxstandard`. -/
theorem C67_null_lists (o : ActionOpts) (increment : Bool) (rnd : List ℕ → ℕ → ℕ) (F : FormatKind) (hg : supportsList g = true) (t : Text) :
    primdecomOn o rnd F .null t = silent (primdecomOn o rnd F (.std g) t) ∧ assoprimesOn o rnd F .null t = silent (assoprimesOn o rnd F (.std g) t) ∧
    maxstandardOn o increment rnd F .null t = silent (maxstandardOn o increment rnd F (.std g) t) :=
  ⟨readAndRunOn_null (run := fun G => primdecomRun G.callWriter o rnd) (fun _ => hg) fun I => primdecomRun_map (fun _ => []) (runWriter g) o rnd I,
    readAndRunOn_null (run := fun G => assoprimesRun G.callWriter o rnd) (fun _ => hg) fun I => assoprimesRun_map (fun _ => []) (runWriter g) o rnd I,
    readAndRunOn_null (run := fun G => maxstandardRun G.callWriter o increment rnd) (fun _ => hg) fun I => maxstandardRun_map (fun _ => []) (runWriter g) o increment rnd I⟩

/-- C67: `-oformat null` for `alexdual`, `intersection` and `transform`. -/
theorem C67_null_ideals (o : ActionOpts) (o' : TransformOpts) (canon : Bool) (rnd : List ℕ → ℕ → ℕ) (F : FormatKind) (g : IOFormat) (t : Text) :
    alexdualOn o rnd F .null t = silent (alexdualOn o rnd F (.std g) t) ∧ intersectionOn canon F .null t = silent (intersectionOn canon F (.std g) t) ∧
    transformOn o' F .null t = silent (transformOn o' F (.std g) t) := by
  refine ⟨if_error_map _ (onInput_map _ _ fun p => dualText_map (fun _ => []) o rnd (runWriter g) _ _), onInput_map _ _ fun p => ?_, onInput_map _ _ fun p => ?_⟩
  · rw [Outcome.map_map]; rfl
  · rw [Outcome.map_map]; rfl

theorem hilbertWith_map (φ : Text → Text) (wTr w : NamedPoly → Text) (o : HilbertOpts) (env : HilbertEnv) (a : HilbertAlg) (I : NamedIdeal) :
    hilbertWith (fun P => φ (wTr P)) (fun P => φ (w P)) o env a I = (hilbertWith wTr w o env a I).map φ := by
  have h1 : ∀ {n : ℕ} (p : Prepared n), hilbertText (fun P => φ (wTr P)) p = fun l => (hilbertText wTr p l).map φ := by
    intro n p
    funext l
    simp only [hilbertText, Option.map_map, Function.comp_def]
  have h2 : hilbertUniText (fun P => φ (w P)) = fun l => (hilbertUniText w l).map φ := by
    funext l
    unfold hilbertUniText
    split <;> rfl
  unfold hilbertWith
  simp only [h1, h2]
  split <;> simp only [← ofOption_map, Option.map_bind, Function.comp_def]

/-- C67: `-oformat null` for `hilbert` and `ptransform`. -/
theorem C67_null_polynomials (o : HilbertOpts) (env : HilbertEnv) (canon sort : Bool) (F : FormatKind) (hg : (polyFormat g).isSome = true) (t : Text) :
    hilbertOn o env F .null t = silent (hilbertOn o env F (.std g) t) ∧ ptransformOn canon sort F .null t = silent (ptransformOn canon sort F (.std g) t) := by
  constructor
  · unfold hilbertOn
    rw [std_supportsPoly, hg]
    cases hilbertAlg o with
    | none => rfl
    | some a => exact onInput_map (fun _ => []) _ fun I => hilbertWith_map (fun _ => []) ((FormatKind.std g).polyWriter true) ((FormatKind.std g).polyWriter false) o env a I
  · unfold ptransformOn
    rw [std_supportsPoly, hg]
    refine onInput_map _ _ fun P => ?_
    rw [Outcome.map_map]
    rfl

/-- C67: `optimize -oformat null` prints the value only. -/
theorem C67_null_optimize (h : Invokes toks .optimize os) {o : OptimizeOpts} (ho : GivenOptimize os o) (hfg : FormatsOf .optimize os t (.std f) .null) {I : NamedIdeal}
    {v : List ℤ} (ha : AcceptedOptimize o f t I v) :
    ∃ value S, frobbyMain env toks t = some (.ok (if o.displayValue then valueLine (o.subtract v) value else [])) ∧
      Optimizes (if o.maxStandard then (o.ideal I).MaxStandard else (o.ideal I).Component) (weight (o.ideal I).names (o.vector v)) o.minValue value S := by
  obtain ⟨value, S, J, h1, rfl, _, h3, _⟩ := optimize_with ha env.rnd fun _ _ => []
  refine ⟨value, _, ?_, h3⟩
  rw [C67_main_optimize env h ho hfg]
  have : optimizeOn o env.rnd (.std f) .null t = optimizeWith (fun _ _ => []) o env.rnd f t := by
    unfold optimizeOn optimizeWith
    split
    · rfl
    · refine onInput_std _ _ (fun h => ?_) fun I h => ?_
      · rw [show readOptimizeInstance f t = none from h]
      · rw [show readOptimizeInstance f t = some I from h]
        rfl
  rw [this, h1]
  simp

/-! ## `-iformat null` -/

/-- The ideal without generators in the ring without variables, as a text. -/
def noIdeal : Text := t!"vars ;\n[\n];\n"

/-- No ideals at all in the ring without variables, as a text. -/
def noIdeals : Text := t!"vars ;\n"

theorem noIdeal_read : readIdeal .monos noIdeal = some ⟨[], []⟩ ∧ readSquareFreeIdeal .monos noIdeal = some ⟨[], []⟩ ∧ readDualInstance .monos noIdeal = some (⟨[], []⟩, none) ∧
    readOptimizeInstance .monos noIdeal = some (⟨[], []⟩, []) ∧ readIdeals .monos noIdeals = some ([], []) := by decide +kernel

/-- C67: **with `-iformat null` the input is ignored**: the actions do what they do for the text `vars ; [ ];`. -/
theorem C67_null_input (o : ActionOpts) (o' : OptimizeOpts) (b b' : Bool) (rnd : List ℕ → ℕ → ℕ) (oh : HilbertOpts) (he : HilbertEnv) (oe : EulerOptions) (fuel : ℕ) (tape : List ℕ)
    (oa : AnalyzeOpts) (G : FormatKind) (t : Text) :
    irrdecomOn o b rnd .null G t = irrdecomOn o b rnd (.std .monos) G noIdeal ∧ primdecomOn o rnd .null G t = primdecomOn o rnd (.std .monos) G noIdeal ∧
    assoprimesOn o rnd .null G t = assoprimesOn o rnd (.std .monos) G noIdeal ∧ maxstandardOn o b rnd .null G t = maxstandardOn o b rnd (.std .monos) G noIdeal ∧
    alexdualOn o rnd .null G t = alexdualOn o rnd (.std .monos) G noIdeal ∧ hilbertOn oh he .null G t = hilbertOn oh he (.std .monos) G noIdeal ∧
    optimizeOn o' rnd .null G t = optimizeOn o' rnd (.std .monos) G noIdeal ∧ eulerOn oe fuel tape .null t = eulerOn oe fuel tape (.std .monos) noIdeal ∧
    dimensionOn b b' .null t = dimensionOn b b' (.std .monos) noIdeal ∧ analyzeOn oa .null G t = analyzeOn oa (.std .monos) G noIdeal := by
  obtain ⟨h1, h2, h3, h4, -⟩ := noIdeal_read
  have h1' : FormatKind.null.readIdeal t = (FormatKind.std .monos).readIdeal noIdeal := h1.symm
  have h2' : FormatKind.null.readSquareFreeIdeal t = (FormatKind.std .monos).readSquareFreeIdeal noIdeal := h2.symm
  have h3' : FormatKind.null.readDual t = (FormatKind.std .monos).readDual noIdeal := h3.symm
  have h4' : FormatKind.null.readOptimize t = (FormatKind.std .monos).readOptimize noIdeal := h4.symm
  unfold irrdecomOn primdecomOn assoprimesOn maxstandardOn alexdualOn hilbertOn optimizeOn eulerOn dimensionOn analyzeOn readAndRunOn
  rw [h1', h2', h3', h4']
  exact ⟨rfl, rfl, rfl, rfl, rfl, rfl, rfl, rfl, rfl, rfl⟩

/-- C67: the actions on lists of ideals do what they do for the text `vars ;`. -/
theorem C67_null_input_list (o : TransformOpts) (canon : Bool) (G : FormatKind) (t : Text) :
    transformOn o .null G t = transformOn o (.std .monos) G noIdeals ∧ intersectionOn canon .null G t = intersectionOn canon (.std .monos) G noIdeals := by
  have h : FormatKind.null.readIdeals t = (FormatKind.std .monos).readIdeals noIdeals := noIdeal_read.2.2.2.2.symm
  unfold transformOn intersectionOn
  rw [h]
  exact ⟨rfl, rfl⟩

/-- C67: `ptransform` prints the polynomial zero. -/
theorem C67_null_input_poly (canon sort : Bool) {g' : PolyFormat} (hg : polyFormat g = some g') (t : Text) :
    ptransformOn canon sort .null (.std g) t = .ok (writePoly g' ⟨[], []⟩) := by
  unfold ptransformOn
  rw [std_supportsPoly, hg]
  have : ∀ c s, polyTransform c s ⟨[], []⟩ = .ok ⟨[], []⟩ := by decide +kernel
  simp only [Option.isSome_some, onInput, FormatKind.readPoly, this, Outcome.map, FormatKind.polyWriter, hg]
  rfl

/-- C67: **with an abbreviation of `null` the input is not ignored**: the program reports an error unless it is blank. -/
theorem C67_nul_partial : InputIs t!"nul" exampleText .null ∧ frobbyMain plainEnv [t!"irrdecom", t!"-iformat", t!"nul", t!"-oformat", t!"m2"] exampleText = some .error ∧
    (frobbyMain plainEnv [t!"irrdecom", t!"-iformat", t!"null", t!"-oformat", t!"m2"] exampleText).bind printed = some t!"R = QQ[];\nI = monomialIdeal(0_R);\n" ∧
    (frobbyMain plainEnv [t!"irrdecom", t!"-iformat", t!"nul", t!"-oformat", t!"m2"] t!"\n ").bind printed = some t!"R = QQ[];\nI = monomialIdeal(0_R);\n" := by
  refine ⟨.inr ⟨by decide, t!"null", by unfold StandsFor; decide +kernel, by decide +kernel⟩, ?_, ?_, ?_⟩
  · decide +kernel
  · decide +kernel
  · decide +kernel

/-! ## examples -/

/-- The options `-oformat count`. -/
def countOption : List (Text × List Text) := [(t!"oformat", [t!"count"])]

theorem C67_example_line {k : ActionKind} {name : Text} (h : (name, k) ∈ [(t!"irrdecom", ActionKind.irrdecom), (t!"primdecom", .primdecom), (t!"assoprimes", .assoprimes),
    (t!"maxstandard", .maxstandard), (t!"alexdual", .alexdual), (t!"transform", .transform), (t!"intersection", .intersection), (t!"ptransform", .ptransform)]) :
    Invokes [name, t!"-oformat", t!"count"] k countOption := by
  refine ⟨name, _, name, rfl, ?_, ?_, .cons (p := t!"oformat") (args := [t!"count"]) ?_ (by decide) .nil, ?_⟩
  all_goals
    simp only [List.mem_cons, Prod.mk.injEq, List.not_mem_nil, or_false] at h
    rcases h with ⟨rfl, rfl⟩ | ⟨rfl, rfl⟩ | ⟨rfl, rfl⟩ | ⟨rfl, rfl⟩ | ⟨rfl, rfl⟩ | ⟨rfl, rfl⟩ | ⟨rfl, rfl⟩ | ⟨rfl, rfl⟩
  any_goals decide +kernel
  any_goals (unfold StandsFor; decide +kernel)
  all_goals
    simp only [← process_iff, ← Option.isSome_iff_exists]
    decide +kernel

theorem C67_example_given {k : ActionKind} (h : k ∈ [ActionKind.irrdecom, .primdecom, .assoprimes, .maxstandard, .alexdual]) : GivenSlice k countOption exampleOpts := by
  simp only [List.mem_cons, List.not_mem_nil, or_false] at h
  rcases h with rfl | rfl | rfl | rfl | rfl
  all_goals exact ⟨⟨⟨t!"split", .str t!"median"⟩, by decide +kernel, rfl, rfl⟩, ⟨⟨t!"simplify", .bool true⟩, by decide +kernel, rfl, rfl⟩,
    ⟨⟨t!"canon", .bool false⟩, by decide +kernel, rfl, rfl⟩, ⟨⟨t!"minimal", .bool false⟩, by decide +kernel, rfl, rfl⟩,
    .inl ⟨⟨t!"independence", .bool true⟩, by decide +kernel, rfl, rfl⟩⟩

theorem C67_example_formats {k : ActionKind} {t : Text} (ht : autoDetect t = .monos) (h : k ∈ [ActionKind.irrdecom, .primdecom, .assoprimes, .maxstandard, .alexdual, .transform, .intersection]) :
    FormatsOf k countOption t (.std .monos) .count := by
  simp only [List.mem_cons, List.not_mem_nil, or_false] at h
  rcases h with rfl | rfl | rfl | rfl | rfl | rfl | rfl
  all_goals exact ⟨t!"autodetect", t!"count", ⟨⟨t!"iformat", .str t!"autodetect"⟩, by decide +kernel, rfl, rfl⟩, ⟨⟨t!"oformat", .str t!"input"⟩, by decide +kernel, rfl, .str _ _⟩,
    ⟨.inl ⟨rfl, ht ▸ rfl⟩, fun h => (nomatch h), fun h => (nomatch h)⟩, .inr ⟨by decide, t!"count", by unfold StandsFor; decide +kernel, by decide +kernel⟩⟩

/-- The ideal `⟨b², ab, a³⟩` has two irreducible components, of which each has two generators. -/
example : (∃ Js, textIdeal.IrreducibleDecom Js ∧ frobbyMain plainEnv [t!"irrdecom", t!"-oformat", t!"count"] exampleText = some (.ok (genLines Js))) ∧
    (frobbyMain plainEnv [t!"irrdecom", t!"-oformat", t!"count"] exampleText).bind printed = some t!"2\n2\n" ∧
    (frobbyMain plainEnv [t!"irrdecom", t!"-oformat", t!"count"] t!"vars a,b; [a^2*b^3, a^5];").bind printed = some t!"1\n2\n" :=
  ⟨C67_count_irrdecom (C67_example_line (by simp)) (C67_example_given (by simp)) ⟨⟨t!"encode", .bool false⟩, by decide +kernel, rfl, rfl⟩
    (C67_example_formats (by decide +kernel) (by simp)) (exampleText_accepted false false), by decide +kernel, by decide +kernel⟩

example : (frobbyMain plainEnv [t!"irrdecom", t!"-encode", t!"-oformat", t!"count"] t!"vars a,b; [a^5, a^2*b^3, a*b^4];").bind printed = some t!"3\n" := by decide +kernel

example : ∃ Js, textIdeal.PrimaryDecom Js ∧ frobbyMain plainEnv [t!"primdecom", t!"-oformat", t!"count"] exampleText = some (.ok (genLines Js)) :=
  C67_count_primdecom (C67_example_line (by simp)) (C67_example_given (by simp)) (C67_example_formats (by decide +kernel) (by simp)) (exampleText_accepted false false)

example : ∃ s, frobbyMain plainEnv [t!"assoprimes", t!"-oformat", t!"count"] exampleText = some (.ok s) ∧ CountIs textIdeal.AssocPrime s :=
  C67_count_assoprimes (C67_example_line (by simp)) (C67_example_given (by simp)) (C67_example_formats (by decide +kernel) (by simp)) (exampleText_accepted false false)

example : ∃ s, frobbyMain plainEnv [t!"maxstandard", t!"-oformat", t!"count"] exampleText = some (.ok s) ∧ CountIs textIdeal.MaxStandard s :=
  C67_count_maxstandard (C67_example_line (by simp)) (C67_example_given (by simp)) (increment := false) ⟨⟨t!"increment", .bool false⟩, by decide +kernel, rfl, rfl⟩
    (C67_example_formats (by decide +kernel) (by simp)) (exampleText_accepted false false)

example : ∃ J, dualIdeal.DualOf (expOf dualIdeal.names [2, 3]) J ∧ frobbyMain plainEnv [t!"alexdual", t!"-oformat", t!"count"] dualText1 = some (.ok (decimal J.terms.length ++ t!"\n")) :=
  C67_count_alexdual (C67_example_line (by simp)) (C67_example_given (by simp)) (C67_example_formats (by decide +kernel) (by simp)) (dualText1_accepted false)
    dualIdeal_minimized (by
      intro a ha
      cases ha
      exact dualIdeal_divides (by decide) (by decide))

example : ∃ R, IntersectionOf [textIdeal] textIdeal.names R ∧ frobbyMain plainEnv [t!"intersection", t!"-oformat", t!"count"] exampleText = some (.ok (decimal R.terms.length ++ t!"\n")) :=
  C67_count_intersection (C67_example_line (by simp)) (canon := false) ⟨⟨t!"canon", .bool false⟩, by decide +kernel, rfl, rfl⟩ (C67_example_formats (by decide +kernel) (by simp))
    (by decide +kernel)

/-- Two lines for two ideals. -/
example : (frobbyMain plainEnv [t!"transform", t!"-radical", t!"-unique", t!"-oformat", t!"count"] t!"vars a,b; [a^2, a^3, b]; [a, b, a*b];").bind printed = some t!"2\n3\n" := by
  decide +kernel

example : (frobbyMain plainEnv [t!"hilbert", t!"-oformat", t!"count"] exampleText).bind printed = some t!"6\n" ∧
    (frobbyMain plainEnv [t!"hilbert", t!"-univ", t!"-oformat", t!"count"] exampleText).bind printed = some t!"3\n" ∧
    (frobbyMain plainEnv [t!"ptransform", t!"-oformat", t!"count"] ptransformExample).bind printed = some t!"3\n" := by decide +kernel

example : (frobbyMain plainEnv [t!"optimize", t!"-displayLevel", t!"2", t!"-oformat", t!"count"] optimizeText).bind printed = some t!"2\n5\n" ∧
    (frobbyMain plainEnv [t!"optimize", t!"-displayLevel", t!"2", t!"-oformat", t!"null"] optimizeText).bind printed = some t!"5\n" ∧
    (frobbyMain plainEnv [t!"analyze", t!"-lcm", t!"-oformat", t!"count"] exampleText).bind printed = some t!"1\n3 generators\n2 variables\n" := by decide +kernel

/-- With `-iformat null`: the intersection of no ideals is the whole ring, and the polynomial is zero. -/
example : (frobbyMain plainEnv [t!"intersection", t!"-iformat", t!"null", t!"-oformat", t!"m2"] exampleText).bind printed = some t!"R = QQ[];\nI = monomialIdeal(\n 1_R\n);\n" ∧
    (frobbyMain plainEnv [t!"ptransform", t!"-iformat", t!"null", t!"-oformat", t!"m2"] exampleText).bind printed = some t!"R = QQ[];\np =\n 0;\n" := by decide +kernel

example : (irrdecomOn exampleOpts false (fun _ _ => 0) (.std .monos) .null exampleText) = .ok [] ∧
    printed (irrdecomOn exampleOpts false (fun _ _ => 0) (.std .monos) (.std .m2) exampleText) ≠ some [] ∧
    irrdecomOn exampleOpts false (fun _ _ => 0) (.std .monos) .null t!"vars a; [b];" = .error := by decide +kernel

end Frobby
