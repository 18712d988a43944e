import Verif.MainSpec
import Verif.PropsCommand

/-!
# Properties of the program from the command line to the output: C62
-/

namespace Frobby

theorem formatFactory_nodup : (formatFactory.map Prod.fst).Nodup := by decide +kernel

theorem createIOHandler_iff (x : Text) (k : FormatKind) : createIOHandler x = some k ↔ NamesFormat x k := by
  unfold NamesFormat
  rw [← lookup_iff formatFactory_nodup]
  unfold createIOHandler
  split
  · rename_i r h
    rw [h]
    exact ⟨fun h => by rw [h], fun h => by simpa using h⟩
  · rename_i e h
    rw [h]
    exact ⟨fun h => (nomatch h), fun h => (nomatch h)⟩

theorem createIOHandler_name (f : IOFormat) : createIOHandler (formatName f) = some (.std f) := by cases f <;> decide +kernel

theorem inputIs_iff (i t : Text) (k : FormatKind) : createIOHandler (scannerFormat i t) = some k ↔ InputIs i t k := by
  unfold scannerFormat InputIs
  by_cases h : i = t!"autodetect"
  · rw [if_pos h, createIOHandler_name]
    simp [h, eq_comm]
  · rw [if_neg h, createIOHandler_iff]
    simp [h]

theorem outputIs_iff (i out t : Text) (k : FormatKind) : createOHandler (scannerFormat i t) out = some k ↔ OutputIs i out t k := by
  unfold createOHandler OutputIs
  by_cases h : out = t!"input"
  · rw [if_pos h, inputIs_iff]
    simp [h]
  · rw [if_neg h, createIOHandler_iff]
    simp [h]

theorem std_supportsList (g : IOFormat) : (FormatKind.std g).supportsList = supportsList g := rfl
theorem std_supportsPoly (g : IOFormat) : (FormatKind.std g).supportsPoly = (polyFormat g).isSome := rfl
theorem std_readIdeal (f : IOFormat) (t : Text) : (FormatKind.std f).readIdeal t = readIdeal f t := rfl
theorem std_readPoly (f : IOFormat) (t : Text) : (FormatKind.std f).readPoly t = (polyFormat f).bind fun f => readPoly f t := rfl

theorem onInput_std {α : Type} (input : Option α) (run : α → Outcome Text) {r : Outcome Text} (h1 : input = none → r = .error) (h2 : ∀ I, input = some I → r = run I) :
    onInput input run = r := by
  cases input with
  | none => exact (h1 rfl).symm
  | some I => exact (h2 I rfl).symm

theorem readAndRunOn_std (o : ActionOpts) (list : Bool) (f g : IOFormat) (t : Text) (run : NamedIdeal → Outcome Text) :
    readAndRunOn o list (.std f) (.std g) t run = readAndRun o list f g t run := by
  rw [readAndRunOn, readAndRun, std_supportsList, std_readIdeal]
  by_cases h : (rejectsSplit o || list && !supportsList g) = true
  · rw [if_pos h, if_pos h]
  · rw [if_neg h, if_neg h]
    refine onInput_std _ _ (fun h => ?_) fun I h => ?_ <;> rw [h]

theorem irrdecomOn_std (o : ActionOpts) (encode : Bool) (rnd : List ℕ → ℕ → ℕ) (f g : IOFormat) (t : Text) :
    irrdecomOn o encode rnd (.std f) (.std g) t = irrdecomAction o encode rnd f g t := readAndRunOn_std ..

theorem primdecomOn_std (o : ActionOpts) (rnd : List ℕ → ℕ → ℕ) (f g : IOFormat) (t : Text) :
    primdecomOn o rnd (.std f) (.std g) t = primdecomAction o rnd f g t := readAndRunOn_std ..

theorem assoprimesOn_std (o : ActionOpts) (rnd : List ℕ → ℕ → ℕ) (f g : IOFormat) (t : Text) :
    assoprimesOn o rnd (.std f) (.std g) t = assoprimesAction o rnd f g t := readAndRunOn_std ..

theorem maxstandardOn_std (o : ActionOpts) (increment : Bool) (rnd : List ℕ → ℕ → ℕ) (f g : IOFormat) (t : Text) :
    maxstandardOn o increment rnd (.std f) (.std g) t = maxstandardAction o increment rnd f g t := readAndRunOn_std ..

theorem alexdualOn_std (o : ActionOpts) (rnd : List ℕ → ℕ → ℕ) (f g : IOFormat) (t : Text) : alexdualOn o rnd (.std f) (.std g) t = alexdualAction o rnd f g t := by
  simp only [alexdualOn, alexdualAction, alexdualWith, FormatKind.readDual]
  split
  · rfl
  · refine onInput_std _ _ (fun h => ?_) fun I h => ?_ <;> rw [h]
    rfl

theorem hilbertOn_std (o : HilbertOpts) (env : HilbertEnv) (f g : IOFormat) (t : Text) : hilbertOn o env (.std f) (.std g) t = hilbertAction o env f g t := by
  rw [hilbertOn, hilbertAction, std_supportsPoly, std_readIdeal]
  cases ha : hilbertAlg o with
  | none => rfl
  | some a =>
    cases hg : polyFormat g with
    | none => rfl
    | some g' =>
      have h1 : (FormatKind.std g).polyWriter true = writePolyTr g' := by funext P; simp [FormatKind.polyWriter, hg]
      have h2 : (FormatKind.std g).polyWriter false = writePoly g' := by funext P; simp [FormatKind.polyWriter, hg]
      rw [h1, h2]
      exact onInput_std _ _ (fun h => by simp only [h]) fun I h => by simp only [h]

theorem optimizeOn_std (o : OptimizeOpts) (rnd : List ℕ → ℕ → ℕ) (f g : IOFormat) (t : Text) : optimizeOn o rnd (.std f) (.std g) t = optimizeAction o rnd f g t := by
  simp only [optimizeOn, optimizeAction, optimizeWith, FormatKind.readOptimize]
  split
  · rfl
  · refine onInput_std _ _ (fun h => ?_) fun I h => ?_ <;> rw [h]
    rfl

theorem transformOn_std (o : TransformOpts) (f g : IOFormat) (t : Text) : transformOn o (.std f) (.std g) t = transformText o f g t := by
  simp only [transformOn, transformText, FormatKind.readIdeals]
  refine onInput_std _ _ (fun h => ?_) fun I h => ?_ <;> rw [h]
  simp only
  cases transformFamily o (I.2, I.1) <;> rfl

theorem ptransformOn_std (canon sort : Bool) (f g : IOFormat) (t : Text) : ptransformOn canon sort (.std f) (.std g) t = ptransformText canon sort f g t := by
  rw [ptransformOn, ptransformText, std_readPoly, std_supportsPoly]
  cases hf : polyFormat f with
  | none => cases polyFormat g <;> rfl
  | some f' =>
    cases hg : polyFormat g with
    | none => rfl
    | some g' =>
      have h2 : (FormatKind.std g).polyWriter false = writePoly g' := by funext P; simp [FormatKind.polyWriter, hg]
      rw [h2]
      exact onInput_std _ _ (fun h => by rw [Option.bind_some] at h; simp only [h]) fun I h => by rw [Option.bind_some] at h; simp only [h]

theorem intersectionOn_std (canon : Bool) (f g : IOFormat) (t : Text) : intersectionOn canon (.std f) (.std g) t = intersectionAction canon f g t := by
  simp only [intersectionOn, intersectionAction, FormatKind.readIdeals]
  refine onInput_std _ _ (fun h => ?_) fun I h => ?_ <;> rw [h]
  rfl

theorem analyzeOn_std (o : AnalyzeOpts) (f g : IOFormat) (t : Text) : analyzeOn o (.std f) (.std g) t = analyzeText o f g t := by
  simp only [analyzeOn, analyzeText, FormatKind.readIdeal]
  refine onInput_std _ _ (fun h => ?_) fun I h => ?_ <;> rw [h]
  rfl

theorem eulerOn_std (o : EulerOptions) (fuel : ℕ) (tape : List ℕ) (f : IOFormat) (t : Text) : eulerOn o fuel tape (.std f) t = eulerText o fuel tape f t := by
  simp only [eulerOn, eulerText, FormatKind.readSquareFreeIdeal]
  refine onInput_std _ _ (fun h => ?_) fun I h => ?_ <;> rw [h]

theorem dimensionOn_std (codim sq : Bool) (rnd : List ℕ → ℕ → ℕ) (f : IOFormat) (t : Text) :
    dimensionOn codim sq (.std f) t = dimensionAction codim sq false rnd (some f) t := by
  simp only [dimensionOn, dimensionAction, FormatKind.readIdeal]
  refine onInput_std _ _ (fun h => ?_) fun I h => ?_ <;> simp [inputFormat, h]

theorem isSpace_iff' (c : Char) : isSpace c = true ↔ c = ' ' ∨ 9 ≤ c.toNat ∧ c.toNat ≤ 13 := by
  have : c.toNat = 32 ↔ c = ' ' := ⟨fun h => Char.toNat_inj.1 h, fun h => by rw [h]; rfl⟩
  simp [isSpace, this]

theorem matchEOF_blank (t : Text) : matchEOF t = true ↔ Blank t := by
  unfold matchEOF Blank eatWhite
  rw [List.isEmpty_iff]
  induction t with
  | nil => simp
  | cons c t ih =>
    rw [List.dropWhile_cons, List.forall_mem_cons, ← ih, ← isSpace_iff' c]
    split
    · rename_i h
      simp [h]
    · rename_i h
      simp [h]

theorem ends_eq {i t : Text} {f : FormatKind} (hf : ReadsAs i t f) : f.ends (scannerFormat i t) t = true := by
  obtain ⟨h1, h2, h3⟩ := hf
  cases f with
  | std f => rfl
  | count => rfl
  | null =>
    have : scannerFormat i t = i := by
      rcases h1 with ⟨_, h⟩ | ⟨h, _⟩
      · exact nomatch h
      · rw [scannerFormat, if_neg h]
    rw [this, FormatKind.ends]
    rcases h3 rfl with h | h
    · simp [h]
    · simp [(matchEOF_blank t).2 h]

theorem throughHelper_eq {i out t : Text} {f g : FormatKind} (hf : ReadsAs i t f) (hg : OutputIs i out t g) (supports : FormatKind → Bool)
    (run : FormatKind → FormatKind → Outcome Text) (hs : supports g = false → run f g = .error) : throughHelper i out t supports run = run f g := by
  have he := ends_eq hf
  rw [throughHelper, (outputIs_iff ..).2 hg, (inputIs_iff ..).2 hf.1]
  simp only
  cases h : supports g with
  | false => rw [hs h]; rfl
  | true =>
    cases f with
    | std f => simp [he]
    | count => exact absurd rfl hf.2.1
    | null => simp [he]

theorem throughIO_eq {i t : Text} {f : FormatKind} (hf : ReadsAs i t f) (run : FormatKind → Outcome Text) : throughIO i t run = run f := by
  have he := ends_eq hf
  rw [throughIO, (inputIs_iff ..).2 hf.1]
  cases f with
  | std f => simp [he]
  | count => exact absurd rfl hf.2.1
  | null => simp [he]

theorem throughIO₂_eq {i out t : Text} {f g : FormatKind} (hf : ReadsAs i t f) (hg : OutputIs i out t g) (run : FormatKind → FormatKind → Outcome Text) :
    throughIO₂ i out t run = run f g := by
  rw [throughIO₂, throughIO_eq hf, (outputIs_iff ..).2 hg]

theorem Formats.of {k : ActionKind} {os : List (Text × List Text)} {t : Text} {f g : IOFormat} (h : Formats k os t f g) : FormatsOf k os t (.std f) (.std g) := by
  obtain ⟨i, out, h1, h2, h3, h4⟩ := h
  exact ⟨i, out, h1, h2, ⟨h3, fun h => (nomatch h), fun h => (nomatch h)⟩, h4⟩

theorem parseAction_eq {k : ActionKind} (hk : k ≠ .help) (toks : List Text) : parseAction k toks = parseCommandLine k.params toks := by
  unfold parseAction
  split
  · exact absurd rfl hk
  · rfl

theorem getParam_none : ∀ {P : Params} {name : Text}, name ∉ P.map Param.name → getParam P name = none := by
  intro P name h
  induction P with
  | nil => rfl
  | cons p P ih =>
    rw [List.map_cons, List.mem_cons, not_or] at h
    rw [getParam, if_neg (Ne.symm h.1), ih h.2]

/-- The program performs the action with the parameters that the options give. -/
theorem main_eq {toks : List Text} {k : ActionKind} {os : List (Text × List Text)} (h : Invokes toks k os) (hk : k ≠ .help) (env : MainEnv) (t : Text) :
    ∃ P, frobbyMain env toks t = k.perform env P t ∧ (∀ name v, Given k os name v → getParam P name = some v) ∧
      ∀ name, name ∉ k.params.map Param.name → getParam P name = none := by
  obtain ⟨tok, rest, x, rfl, h1, h2, h3⟩ := h
  have h4 : createAction (tok :: rest) = some (k, rest) := (C61_action tok rest rest k).2 ⟨rfl, x, h1, h2⟩
  obtain ⟨P, h5, h6⟩ := C61_accept (C61_names k) h3
  refine ⟨P, ?_, ?_, ?_⟩
  · rw [frobbyMain, h4]
    simp only
    rw [parseAction_eq hk, h5]
    exact if_neg hk
  · rintro name v ⟨p, hp, rfl, hv⟩
    obtain ⟨w, h7, h8, _⟩ := C61_value (C61_names k) h3 h5 hp
    rw [h7, h8.unique hv]
  · intro name hn
    refine getParam_none ?_
    have : P.map Param.name = k.params.map Param.name := by
      clear h5 hn h3
      generalize k.params = Q at h6
      induction h6 with
      | nil => rfl
      | cons hab _ ih => rw [List.map_cons, List.map_cons, hab.1, ih]
    rwa [this]

theorem getBool_eq {P : Params} {name : Text} {b : Bool} (h : getParam P name = some (.bool b)) : getBool P name = some b := by rw [getBool, h]
theorem getInt_eq {P : Params} {name : Text} {b : ℕ} (h : getParam P name = some (.int b)) : getInt P name = some b := by rw [getInt, h]
theorem getString_eq {P : Params} {name : Text} {b : Text} (h : getParam P name = some (.str b)) : getString P name = some b := by rw [getString, h]

theorem sliceOpts_eq {k : ActionKind} {os : List (Text × List Text)} {o : ActionOpts} (h : GivenSlice k os o) {P : Params}
    (hP : ∀ name v, Given k os name v → getParam P name = some v) (hP' : ∀ name, name ∉ k.params.map Param.name → getParam P name = none) :
    sliceOpts P = some o := by
  have hi : (getBool P t!"independence").getD true = o.independence := by
    rcases h.independence with h1 | ⟨h1, h2⟩
    · rw [getBool_eq (hP _ _ h1)]; rfl
    · rw [getBool, hP' _ h1, h2]; rfl
  rw [sliceOpts, getString_eq (hP _ _ h.split), getBool_eq (hP _ _ h.simplify), getBool_eq (hP _ _ h.canon), getBool_eq (hP _ _ h.minimal), hi]
  rfl

section

variable {toks : List Text} {os : List (Text × List Text)} {f g : IOFormat} {F G : FormatKind} {t : Text} (env : MainEnv)

theorem formats_eq {k : ActionKind} {P : Params} (hP : ∀ name v, Given k os name v → getParam P name = some v) {i out : Text}
    (h1 : Given k os t!"iformat" (.str i)) (h2 : Given k os t!"oformat" (.str out)) : formats P = some (i, out) := by
  rw [formats, getString_eq (hP _ _ h1), getString_eq (hP _ _ h2)]
  rfl

theorem readAndRun_reject {o : ActionOpts} {list : Bool} {f g : FormatKind} {t : Text} {run : NamedIdeal → Outcome Text}
    (h : rejectsSplit o = true ∨ (list && !g.supportsList) = true) : readAndRunOn o list f g t run = .error := by
  rw [readAndRunOn, if_pos]
  rcases h with h | h <;> simp [h]

/-- C67: **`irrdecom`** with any formats. -/
theorem C67_main_irrdecom (h : Invokes toks .irrdecom os) {o : ActionOpts} (ho : GivenSlice .irrdecom os o) {encode : Bool} (he : Given .irrdecom os t!"encode" (.bool encode))
    (hfg : FormatsOf .irrdecom os t F G) : frobbyMain env toks t = some (irrdecomOn o encode env.rnd F G t) := by
  obtain ⟨P, h1, hP, hP'⟩ := main_eq h (by decide) env t
  obtain ⟨i, out, hi, hout, hf, hg⟩ := hfg
  rw [h1, ActionKind.perform, sliceOpts_eq ho hP hP', getBool_eq (hP _ _ he), formats_eq hP hi hout]
  simp only [orCrash, Option.bind_some, Option.map_some, Option.getD_some]
  by_cases hr : rejectsSplit o = true
  · rw [if_pos hr, irrdecomOn, readAndRun_reject (.inl hr)]
  · rw [if_neg hr]
    refine congrArg some (throughHelper_eq hf hg _ _ fun hs => ?_)
    rw [irrdecomOn, readAndRun_reject (.inr ?_)]
    simpa [FormatKind.supportsList] using hs

/-- C62: **`irrdecom`**. The options and the formats that are asked for are those with which the action runs. -/
theorem C62_irrdecom (h : Invokes toks .irrdecom os) {o : ActionOpts} (ho : GivenSlice .irrdecom os o) {encode : Bool} (he : Given .irrdecom os t!"encode" (.bool encode))
    (hfg : Formats .irrdecom os t f g) : frobbyMain env toks t = some (irrdecomAction o encode env.rnd f g t) := by
  rw [C67_main_irrdecom env h ho he hfg.of, irrdecomOn_std]

/-- C67: **`primdecom`** with any formats. -/
theorem C67_main_primdecom (h : Invokes toks .primdecom os) {o : ActionOpts} (ho : GivenSlice .primdecom os o) (hfg : FormatsOf .primdecom os t F G) :
    frobbyMain env toks t = some (primdecomOn o env.rnd F G t) := by
  obtain ⟨P, h1, hP, hP'⟩ := main_eq h (by decide) env t
  obtain ⟨i, out, hi, hout, hf, hg⟩ := hfg
  rw [h1, ActionKind.perform, sliceOpts_eq ho hP hP', formats_eq hP hi hout]
  simp only [orCrash, Option.bind_some, Option.map_some, Option.getD_some]
  by_cases hr : rejectsSplit o = true
  · rw [if_pos hr, primdecomOn, readAndRun_reject (.inl hr)]
  · rw [if_neg hr]
    refine congrArg some (throughHelper_eq hf hg _ _ fun hs => ?_)
    rw [primdecomOn, readAndRun_reject (.inr ?_)]
    simpa [FormatKind.supportsList] using hs

/-- C62: **`primdecom`**. -/
theorem C62_primdecom (h : Invokes toks .primdecom os) {o : ActionOpts} (ho : GivenSlice .primdecom os o) (hfg : Formats .primdecom os t f g) :
    frobbyMain env toks t = some (primdecomAction o env.rnd f g t) := by
  rw [C67_main_primdecom env h ho hfg.of, primdecomOn_std]

/-- C67: **`assoprimes`** with any formats. -/
theorem C67_main_assoprimes (h : Invokes toks .assoprimes os) {o : ActionOpts} (ho : GivenSlice .assoprimes os o) (hfg : FormatsOf .assoprimes os t F G) :
    frobbyMain env toks t = some (assoprimesOn o env.rnd F G t) := by
  obtain ⟨P, h1, hP, hP'⟩ := main_eq h (by decide) env t
  obtain ⟨i, out, hi, hout, hf, hg⟩ := hfg
  rw [h1, ActionKind.perform, sliceOpts_eq ho hP hP', formats_eq hP hi hout]
  simp only [orCrash, Option.bind_some, Option.map_some, Option.getD_some]
  by_cases hr : rejectsSplit o = true
  · rw [if_pos hr, assoprimesOn, readAndRun_reject (.inl hr)]
  · rw [if_neg hr]
    refine congrArg some (throughHelper_eq hf hg _ _ fun hs => ?_)
    rw [assoprimesOn, readAndRun_reject (.inr ?_)]
    simpa [FormatKind.supportsList] using hs

/-- C62: **`assoprimes`**. -/
theorem C62_assoprimes (h : Invokes toks .assoprimes os) {o : ActionOpts} (ho : GivenSlice .assoprimes os o) (hfg : Formats .assoprimes os t f g) :
    frobbyMain env toks t = some (assoprimesAction o env.rnd f g t) := by
  rw [C67_main_assoprimes env h ho hfg.of, assoprimesOn_std]

/-- C67: **`maxstandard`** with any formats. -/
theorem C67_main_maxstandard (h : Invokes toks .maxstandard os) {o : ActionOpts} (ho : GivenSlice .maxstandard os o) {increment : Bool}
    (hi' : Given .maxstandard os t!"increment" (.bool increment)) (hfg : FormatsOf .maxstandard os t F G) :
    frobbyMain env toks t = some (maxstandardOn o increment env.rnd F G t) := by
  obtain ⟨P, h1, hP, hP'⟩ := main_eq h (by decide) env t
  obtain ⟨i, out, hi, hout, hf, hg⟩ := hfg
  rw [h1, ActionKind.perform, sliceOpts_eq ho hP hP', getBool_eq (hP _ _ hi'), formats_eq hP hi hout]
  simp only [orCrash, Option.bind_some, Option.map_some, Option.getD_some]
  by_cases hr : rejectsSplit o = true
  · rw [if_pos hr, maxstandardOn, readAndRun_reject (.inl hr)]
  · rw [if_neg hr]
    refine congrArg some (throughHelper_eq hf hg _ _ fun hs => ?_)
    rw [maxstandardOn, readAndRun_reject (.inr ?_)]
    simpa [FormatKind.supportsList] using hs

/-- C62: **`maxstandard`**. -/
theorem C62_maxstandard (h : Invokes toks .maxstandard os) {o : ActionOpts} (ho : GivenSlice .maxstandard os o) {increment : Bool}
    (hi' : Given .maxstandard os t!"increment" (.bool increment)) (hfg : Formats .maxstandard os t f g) :
    frobbyMain env toks t = some (maxstandardAction o increment env.rnd f g t) := by
  rw [C67_main_maxstandard env h ho hi' hfg.of, maxstandardOn_std]

/-- C67: **`alexdual`** with any formats. -/
theorem C67_main_alexdual (h : Invokes toks .alexdual os) {o : ActionOpts} (ho : GivenSlice .alexdual os o) (hfg : FormatsOf .alexdual os t F G) :
    frobbyMain env toks t = some (alexdualOn o env.rnd F G t) := by
  obtain ⟨P, h1, hP, hP'⟩ := main_eq h (by decide) env t
  obtain ⟨i, out, hi, hout, hf, hg⟩ := hfg
  rw [h1, ActionKind.perform, sliceOpts_eq ho hP hP', formats_eq hP hi hout]
  simp only [orCrash, Option.bind_some, Option.map_some, Option.getD_some]
  rw [throughIO₂_eq hf hg, alexdualOn]
  split <;> rfl

/-- C62: **`alexdual`**. -/
theorem C62_alexdual (h : Invokes toks .alexdual os) {o : ActionOpts} (ho : GivenSlice .alexdual os o) (hfg : Formats .alexdual os t f g) :
    frobbyMain env toks t = some (alexdualAction o env.rnd f g t) := by
  rw [C67_main_alexdual env h ho hfg.of, alexdualOn_std]

/-- C67: **`hilbert`** with any formats. -/
theorem C67_main_hilbert (h : Invokes toks .hilbert os) {o : HilbertOpts} (ho : GivenHilbert os o) (hfg : FormatsOf .hilbert os t F G) :
    frobbyMain env toks t = some (hilbertOn o env.toHilbertEnv F G t) := by
  obtain ⟨P, h1, hP, hP'⟩ := main_eq h (by decide) env t
  obtain ⟨i, out, hi, hout, hf, hg⟩ := hfg
  have h2 : hilbertOpts P = some o := by
    rw [hilbertOpts, sliceOpts_eq ho.slice hP hP', getString_eq (hP _ _ ho.algorithm), getBool_eq (hP _ _ ho.univariate), getBool_eq (hP _ _ ho.genericBase),
      getBool_eq (hP _ _ ho.widenPivot), getString_eq (hP _ _ ho.enumeration), getString_eq (hP _ _ ho.deformation), getBool_eq (hP _ _ ho.deformStrong)]
    rfl
  rw [h1, ActionKind.perform, h2, formats_eq hP hi hout]
  simp only [orCrash, Option.bind_some, Option.map_some, Option.getD_some]
  cases ha : hilbertAlg o with
  | none => rw [hilbertOn, ha]; rfl
  | some a =>
    refine congrArg some (throughHelper_eq hf hg _ _ fun hs => ?_)
    rw [hilbertOn, ha, hs]
    rfl

/-- C62: **`hilbert`**. -/
theorem C62_hilbert (h : Invokes toks .hilbert os) {o : HilbertOpts} (ho : GivenHilbert os o) (hfg : Formats .hilbert os t f g) :
    frobbyMain env toks t = some (hilbertAction o env.toHilbertEnv f g t) := by
  rw [C67_main_hilbert env h ho hfg.of, hilbertOn_std]

/-- C67: **`optimize`** with any formats. -/
theorem C67_main_optimize (h : Invokes toks .optimize os) {o : OptimizeOpts} (ho : GivenOptimize os o) (hfg : FormatsOf .optimize os t F G) :
    frobbyMain env toks t = some (optimizeOn o env.rnd F G t) := by
  obtain ⟨P, h1, hP, hP'⟩ := main_eq h (by decide) env t
  obtain ⟨i, out, hi, hout, hf, hg⟩ := hfg
  have h2 : optimizeOpts P = some o := by
    rw [optimizeOpts, sliceOpts_eq ho.slice hP hP', getInt_eq (hP _ _ ho.displayLevel), getBool_eq (hP _ _ ho.displayValue), getBool_eq (hP _ _ ho.maxStandard),
      getBool_eq (hP _ _ ho.chop), getBool_eq (hP _ _ ho.minValue), getBool_eq (hP _ _ ho.bound), getBool_eq (hP _ _ ho.boundSimplify)]
    rfl
  rw [h1, ActionKind.perform, h2, formats_eq hP hi hout]
  simp only [orCrash, Option.bind_some, Option.map_some, Option.getD_some]
  rw [throughIO₂_eq hf hg, optimizeOn]
  split <;> rfl

/-- C62: **`optimize`**. -/
theorem C62_optimize (h : Invokes toks .optimize os) {o : OptimizeOpts} (ho : GivenOptimize os o) (hfg : Formats .optimize os t f g) :
    frobbyMain env toks t = some (optimizeAction o env.rnd f g t) := by
  rw [C67_main_optimize env h ho hfg.of, optimizeOn_std]

/-- C67: **`transform`** with any formats. -/
theorem C67_main_transform (h : Invokes toks .transform os) {o : TransformOpts} (ho : GivenTransform os o) (hfg : FormatsOf .transform os t F G) :
    frobbyMain env toks t = some (transformOn o F G t) := by
  obtain ⟨P, h1, hP, hP'⟩ := main_eq h (by decide) env t
  obtain ⟨i, out, hi, hout, hf, hg⟩ := hfg
  have h2 : transformOpts P = some o := by
    rw [transformOpts, getBool_eq (hP _ _ ho.canon), getBool_eq (hP _ _ ho.minimize), getBool_eq (hP _ _ ho.sort), getBool_eq (hP _ _ ho.unique),
      getBool_eq (hP _ _ ho.deform), getBool_eq (hP _ _ ho.radical), getBool_eq (hP _ _ ho.product), getBool_eq (hP _ _ ho.addPurePowers),
      getBool_eq (hP _ _ ho.trimVariables), getBool_eq (hP _ _ ho.swap01), getInt_eq (hP _ _ ho.projectVar), getBool_eq (hP _ _ ho.transpose)]
    rfl
  rw [h1, ActionKind.perform, h2, formats_eq hP hi hout]
  simp only [orCrash, Option.bind_some, Option.map_some, Option.getD_some]
  rw [throughIO₂_eq hf hg]

/-- C62: **`transform`**. -/
theorem C62_transform (h : Invokes toks .transform os) {o : TransformOpts} (ho : GivenTransform os o) (hfg : Formats .transform os t f g) :
    frobbyMain env toks t = some (transformText o f g t) := by
  rw [C67_main_transform env h ho hfg.of, transformOn_std]

/-- C67: **`intersection`** with any formats. -/
theorem C67_main_intersection (h : Invokes toks .intersection os) {canon : Bool} (hc : Given .intersection os t!"canon" (.bool canon))
    (hfg : FormatsOf .intersection os t F G) : frobbyMain env toks t = some (intersectionOn canon F G t) := by
  obtain ⟨P, h1, hP, hP'⟩ := main_eq h (by decide) env t
  obtain ⟨i, out, hi, hout, hf, hg⟩ := hfg
  rw [h1, ActionKind.perform, getBool_eq (hP _ _ hc), formats_eq hP hi hout]
  simp only [orCrash, Option.bind_some, Option.map_some, Option.getD_some]
  rw [throughIO₂_eq hf hg]

/-- C62: **`intersection`**. -/
theorem C62_intersection (h : Invokes toks .intersection os) {canon : Bool} (hc : Given .intersection os t!"canon" (.bool canon))
    (hfg : Formats .intersection os t f g) : frobbyMain env toks t = some (intersectionAction canon f g t) := by
  rw [C67_main_intersection env h hc hfg.of, intersectionOn_std]

/-- C67: **`ptransform`** with any formats. -/
theorem C67_main_ptransform (h : Invokes toks .ptransform os) {canon sort : Bool} (hc : Given .ptransform os t!"canon" (.bool canon))
    (hs : Given .ptransform os t!"sort" (.bool sort)) (hfg : FormatsOf .ptransform os t F G) : frobbyMain env toks t = some (ptransformOn canon sort F G t) := by
  obtain ⟨P, h1, hP, hP'⟩ := main_eq h (by decide) env t
  obtain ⟨i, out, hi, hout, hf, hg⟩ := hfg
  rw [h1, ActionKind.perform, getBool_eq (hP _ _ hc), getBool_eq (hP _ _ hs), formats_eq hP hi hout]
  simp only [orCrash, Option.bind_some, Option.map_some, Option.getD_some]
  rw [throughIO₂_eq hf hg]

/-- C62: **`ptransform`**. -/
theorem C62_ptransform (h : Invokes toks .ptransform os) {canon sort : Bool} (hc : Given .ptransform os t!"canon" (.bool canon))
    (hs : Given .ptransform os t!"sort" (.bool sort)) (hfg : Formats .ptransform os t f g) : frobbyMain env toks t = some (ptransformText canon sort f g t) := by
  rw [C67_main_ptransform env h hc hs hfg.of, ptransformOn_std]

/-- C67: **`analyze`** with any formats. -/
theorem C67_main_analyze (h : Invokes toks .analyze os) {o : AnalyzeOpts} (ho : GivenAnalyze os o) (hfg : FormatsOf .analyze os t F G) :
    frobbyMain env toks t = some (analyzeOn o F G t) := by
  obtain ⟨P, h1, hP, hP'⟩ := main_eq h (by decide) env t
  obtain ⟨i, out, hi, hout, hf, hg⟩ := hfg
  have h2 : analyzeOpts P = some o := by
    rw [analyzeOpts, getInt_eq (hP _ _ ho.summaryLevel), getBool_eq (hP _ _ ho.lcm), getBool_eq (hP _ _ ho.varCount), getBool_eq (hP _ _ ho.genCount),
      getBool_eq (hP _ _ ho.maxExp), getBool_eq (hP _ _ ho.minimal)]
    rfl
  rw [h1, ActionKind.perform, h2, formats_eq hP hi hout]
  simp only [orCrash, Option.bind_some, Option.map_some, Option.getD_some]
  rw [throughIO₂_eq hf hg]

/-- C62: **`analyze`**. -/
theorem C62_analyze (h : Invokes toks .analyze os) {o : AnalyzeOpts} (ho : GivenAnalyze os o) (hfg : Formats .analyze os t f g) :
    frobbyMain env toks t = some (analyzeText o f g t) := by
  rw [C67_main_analyze env h ho hfg.of, analyzeOn_std]

/-- C67: **`euler`** with any formats. -/
theorem C67_main_euler (h : Invokes toks .euler os) {o : EulerOptions} (ho : GivenEuler os o) {i : Text} (hi : Given .euler os t!"iformat" (.str i))
    (hf : ReadsAs i t F) : frobbyMain env toks t = some (eulerOn o env.eulerFuel env.tape F t) := by
  obtain ⟨P, h1, hP, hP'⟩ := main_eq h (by decide) env t
  have h2 : eulerOpts P = some o := by
    rw [eulerOpts, getString_eq (hP _ _ ho.pivot), getString_eq (hP _ _ ho.stdPivot), getString_eq (hP _ _ ho.genPivot), getString_eq (hP _ _ ho.autoTranspose),
      getBool_eq (hP _ _ ho.uniqueDiv), getBool_eq (hP _ _ ho.manyDiv), getBool_eq (hP _ _ ho.impliedDiv), getBool_eq (hP _ _ ho.swap01)]
    rfl
  rw [h1, ActionKind.perform, h2, getString_eq (hP _ _ hi)]
  simp only [orCrash, Option.bind_some, Option.map_some, Option.getD_some]
  rw [throughIO_eq hf]
  cases ha : eulerConfig o with
  | none =>
    rw [eulerOn]
    simp only [Option.isNone_none, if_true]
    refine congrArg some (onInput_std _ _ (fun _ => rfl) fun I _ => ?_).symm
    rw [eulerRun, eulerAction, ha]
    rfl
  | some a => rfl

/-- C62: **`euler`**. -/
theorem C62_euler (h : Invokes toks .euler os) {o : EulerOptions} (ho : GivenEuler os o) {i : Text} (hi : Given .euler os t!"iformat" (.str i))
    (hf : InputIs i t (.std f)) : frobbyMain env toks t = some (eulerText o env.eulerFuel env.tape f t) := by
  rw [C67_main_euler env h ho hi ⟨hf, fun h => (nomatch h), fun h => (nomatch h)⟩, eulerOn_std]

/-- C67: **`dimension`** without `-useSlice`, with any format. -/
theorem C67_main_dimension (h : Invokes toks .dimension os) {codim sq : Bool} (h1 : Given .dimension os t!"codim" (.bool codim))
    (h2 : Given .dimension os t!"squareFreeAndMinimal" (.bool sq)) (h3 : Given .dimension os t!"useSlice" (.bool false)) {i : Text}
    (hi : Given .dimension os t!"iformat" (.str i)) (hf : ReadsAs i t F) : frobbyMain env toks t = some (dimensionOn codim sq F t) := by
  obtain ⟨P, h4, hP, hP'⟩ := main_eq h (by decide) env t
  rw [h4, ActionKind.perform, getBool_eq (hP _ _ h1), getBool_eq (hP _ _ h2), getBool_eq (hP _ _ h3), getString_eq (hP _ _ hi)]
  simp only [orCrash, Option.bind_some, Option.map_some, Option.getD_some, Bool.false_eq_true, if_false]
  rw [throughIO_eq hf]

/-- C62: **`dimension`**. With `-useSlice` the option `-iformat` has no effect. -/
theorem C62_dimension (h : Invokes toks .dimension os) {codim sq useSlice : Bool} (h1 : Given .dimension os t!"codim" (.bool codim))
    (h2 : Given .dimension os t!"squareFreeAndMinimal" (.bool sq)) (h3 : Given .dimension os t!"useSlice" (.bool useSlice)) {i : Text}
    (hi : Given .dimension os t!"iformat" (.str i)) (hf : useSlice = false → InputIs i t (.std f)) :
    frobbyMain env toks t = some (dimensionAction codim sq useSlice env.rnd (if useSlice then none else some f) t) := by
  obtain ⟨P, h4, hP, hP'⟩ := main_eq h (by decide) env t
  rw [h4, ActionKind.perform, getBool_eq (hP _ _ h1), getBool_eq (hP _ _ h2), getBool_eq (hP _ _ h3), getString_eq (hP _ _ hi)]
  simp only [orCrash, Option.bind_some, Option.map_some, Option.getD_some]
  cases useSlice with
  | true => rfl
  | false =>
    simp only [Bool.false_eq_true, if_false]
    rw [throughIO_eq ⟨hf rfl, fun h => (nomatch h), fun h => (nomatch h)⟩, dimensionOn_std]

/-- C62: **`frobgrob`**. -/
theorem C62_frobgrob (h : Invokes toks .frobgrob os) {o : FrobgrobOpts} (ho : GivenSlice .frobgrob os o.toActionOpts)
    (hv : Given .frobgrob os t!"vector" (.bool o.vector)) : frobbyMain env toks t = some (frobgrobAction o env.rnd t) := by
  obtain ⟨P, h1, hP, hP'⟩ := main_eq h (by decide) env t
  rw [h1, ActionKind.perform, sliceOpts_eq ho hP hP', getBool_eq (hP _ _ hv)]
  rfl

/-- C62: **`frobdyn`**. -/
theorem C62_frobdyn (h : Invokes toks .frobdyn os) : frobbyMain env toks t = some (frobdynAction env.dynFuel t) := by
  obtain ⟨P, h1, hP, hP'⟩ := main_eq h (by decide) env t
  rw [h1]
  rfl

theorem genOpts_eq {o : GenOpts} (ho : GivenGen os o) {P : Params} (hP : ∀ name v, Given .genideal os name v → getParam P name = some v) : genOpts P = some o := by
  rw [genOpts, getInt_eq (hP _ _ ho.expRange), getInt_eq (hP _ _ ho.varCount), getInt_eq (hP _ _ ho.genCount), getString_eq (hP _ _ ho.type)]
  rfl

/-- C62: **`genideal`**. The input does not matter. -/
theorem C62_genideal (h : Invokes toks .genideal os) {o : GenOpts} (ho : GivenGen os o) {out : Text} (hout : Given .genideal os t!"oformat" (.str out)) {k : FormatKind}
    (hk : NamesFormat out k) : frobbyMain env toks t = some (genidealText o env.genFuel env.rand k.idealWriter) := by
  obtain ⟨P, h1, hP, hP'⟩ := main_eq h (by decide) env t
  rw [h1, ActionKind.perform, genOpts_eq ho hP, getString_eq (hP _ _ hout)]
  simp only [orCrash, Option.bind_some, Option.map_some, Option.getD_some]
  rw [(createIOHandler_iff ..).2 hk]

/-- C62: a format that is not there is an error in `genideal`. -/
theorem C62_genideal_format (h : Invokes toks .genideal os) {o : GenOpts} (ho : GivenGen os o) {out : Text} (hout : Given .genideal os t!"oformat" (.str out))
    (hk : ∀ k, ¬ NamesFormat out k) : frobbyMain env toks t = some .error := by
  obtain ⟨P, h1, hP, hP'⟩ := main_eq h (by decide) env t
  rw [h1, ActionKind.perform, genOpts_eq ho hP, getString_eq (hP _ _ hout)]
  simp only [orCrash, Option.bind_some, Option.map_some, Option.getD_some]
  cases hc : createIOHandler out with
  | none => rfl
  | some k => exact absurd ((createIOHandler_iff ..).1 hc) (hk k)

/-- C62: **`genfrob`**. -/
theorem C62_genfrob (h : Invokes toks .genfrob os) {entryCount digits : ℕ} (he : Given .genfrob os t!"entryCount" (.int entryCount))
    (hd : Given .genfrob os t!"maxEntryDigits" (.int digits)) : frobbyMain env toks t = some (genfrobText entryCount digits env.rand) := by
  obtain ⟨P, h1, hP, hP'⟩ := main_eq h (by decide) env t
  rw [h1, ActionKind.perform, getInt_eq (hP _ _ he), getInt_eq (hP _ _ hd)]
  rfl

/-- C62: **`latformat`**. -/
theorem C62_latformat (h : Invokes toks .latformat os) {i out : Text} {zero : Bool} (hi : Given .latformat os t!"iformat" (.str i))
    (hout : Given .latformat os t!"oformat" (.str out)) (hz : Given .latformat os t!"zero" (.bool zero)) :
    frobbyMain env toks t = some (latformatText zero i out t) := by
  obtain ⟨P, h1, hP, hP'⟩ := main_eq h (by decide) env t
  rw [h1, ActionKind.perform, formats_eq hP hi hout]
  simp only [Option.bind_some]
  rw [getBool_eq (hP _ _ hz)]
  rfl

end

/-! ## the values of the options -/

/-- C62: each option of the action that is asked for has one value, and it is of the kind of the option. So the options that the theorems above speak of are there. -/
theorem C62_given {toks : List Text} {k : ActionKind} {os : List (Text × List Text)} (h : Invokes toks k os) {p : Param} (hp : p ∈ k.params) :
    ∃ v, Given k os p.name v ∧ p.value.SameKind v ∧ ∀ w, Given k os p.name w → w = v := by
  obtain ⟨tok, rest, x, rfl, h1, h2, h3⟩ := h
  obtain ⟨P, h5, h6⟩ := C61_accept (C61_names k) h3
  obtain ⟨v, h7, h8, h9⟩ := C61_value (C61_names k) h3 h5 hp
  refine ⟨v, ⟨p, hp, rfl, h8⟩, h9, ?_⟩
  rintro w ⟨q, hq, he, hw⟩
  obtain rfl := List.inj_on_of_nodup_map (C61_names k) hq hp he
  exact hw.unique h8

theorem given_bool {toks : List Text} {k : ActionKind} {os : List (Text × List Text)} (h : Invokes toks k os) {name : Text} {b : Bool} (hp : ⟨name, .bool b⟩ ∈ k.params) :
    ∃ b', Given k os name (.bool b') := by
  obtain ⟨v, h1, h2, _⟩ := C62_given h hp
  cases v with
  | bool b' => exact ⟨b', h1⟩
  | int _ => exact h2.elim
  | str _ => exact h2.elim

theorem given_int {toks : List Text} {k : ActionKind} {os : List (Text × List Text)} (h : Invokes toks k os) {name : Text} {b : ℕ} (hp : ⟨name, .int b⟩ ∈ k.params) :
    ∃ b', Given k os name (.int b') := by
  obtain ⟨v, h1, h2, _⟩ := C62_given h hp
  cases v with
  | int b' => exact ⟨b', h1⟩
  | bool _ => exact h2.elim
  | str _ => exact h2.elim

theorem given_str {toks : List Text} {k : ActionKind} {os : List (Text × List Text)} (h : Invokes toks k os) {name : Text} {b : Text} (hp : ⟨name, .str b⟩ ∈ k.params) :
    ∃ b', Given k os name (.str b') := by
  obtain ⟨v, h1, h2, _⟩ := C62_given h hp
  cases v with
  | str b' => exact ⟨b', h1⟩
  | bool _ => exact h2.elim
  | int _ => exact h2.elim

/-- The actions with the options of the Slice Algorithm. -/
def ActionKind.usesSlice (k : ActionKind) : Bool := k ∈ [.hilbert, .irrdecom, .primdecom, .alexdual, .assoprimes, .maxstandard, .optimize, .frobgrob]

theorem exists_slice {toks : List Text} {k : ActionKind} {os : List (Text × List Text)} (h : Invokes toks k os) (hk : k.usesSlice = true) : ∃ o, GivenSlice k os o := by
  have h1 : ∃ s, Given k os t!"split" (.str s) := by
    cases k <;> first
      | exact absurd hk (by decide)
      | exact given_str (b := t!"median") h (by decide +kernel)
      | exact given_str (b := t!"degree") h (by decide +kernel)
      | exact given_str (b := t!"frob") h (by decide +kernel)
  have h2 : ∃ b, Given k os t!"simplify" (.bool b) := by
    cases k <;> first
      | exact absurd hk (by decide)
      | exact given_bool (b := true) h (by decide +kernel)
  have h3 : ∃ b, Given k os t!"canon" (.bool b) := by
    cases k <;> first
      | exact absurd hk (by decide)
      | exact given_bool (b := false) h (by decide +kernel)
  have h4 : ∃ b, Given k os t!"minimal" (.bool b) := by
    cases k <;> first
      | exact absurd hk (by decide)
      | exact given_bool (b := false) h (by decide +kernel)
  have h5 : ∃ b, Given k os t!"independence" (.bool b) ∨ t!"independence" ∉ k.params.map Param.name ∧ b = true := by
    cases k <;> first
      | exact absurd hk (by decide)
      | exact (given_bool (b := true) h (by decide +kernel)).imp fun b hb => .inl hb
      | exact ⟨true, .inr ⟨by decide +kernel, rfl⟩⟩
  obtain ⟨s, h1⟩ := h1
  obtain ⟨a, h2⟩ := h2
  obtain ⟨b, h3⟩ := h3
  obtain ⟨c, h4⟩ := h4
  obtain ⟨d, h5⟩ := h5
  exact ⟨⟨s, a, d, b, c⟩, h1, h2, h3, h4, h5⟩

theorem exists_hilbert {toks : List Text} {os : List (Text × List Text)} (h : Invokes toks .hilbert os) : ∃ o, GivenHilbert os o := by
  obtain ⟨s, hs⟩ := exists_slice h (by decide)
  obtain ⟨a1, h1⟩ := given_str (name := t!"algorithm") (b := t!"bigatti") h (by decide +kernel)
  obtain ⟨a2, h2⟩ := given_bool (name := t!"univariate") (b := false) h (by decide +kernel)
  obtain ⟨a3, h3⟩ := given_bool (name := t!"genericBase") (b := true) h (by decide +kernel)
  obtain ⟨a4, h4⟩ := given_bool (name := t!"widenPivot") (b := true) h (by decide +kernel)
  obtain ⟨a5, h5⟩ := given_str (name := t!"enum") (b := t!"revlex") h (by decide +kernel)
  obtain ⟨a6, h6⟩ := given_str (name := t!"deformationOrder") (b := t!"tdeg_lex") h (by decide +kernel)
  obtain ⟨a7, h7⟩ := given_bool (name := t!"deformStrong") (b := false) h (by decide +kernel)
  exact ⟨⟨a1, a2, s.split, s.simplify, s.independence, a3, a4, a5, a6, a7, s.canon, s.minimal⟩, hs, h1, h2, h3, h4, h5, h6, h7⟩

theorem exists_optimize {toks : List Text} {os : List (Text × List Text)} (h : Invokes toks .optimize os) : ∃ o, GivenOptimize os o := by
  obtain ⟨s, hs⟩ := exists_slice h (by decide)
  obtain ⟨a1, h1⟩ := given_int (name := t!"displayLevel") (b := 0) h (by decide +kernel)
  obtain ⟨a2, h2⟩ := given_bool (name := t!"displayValue") (b := true) h (by decide +kernel)
  obtain ⟨a3, h3⟩ := given_bool (name := t!"maxStandard") (b := false) h (by decide +kernel)
  obtain ⟨a4, h4⟩ := given_bool (name := t!"chopFirstAndSubtract") (b := false) h (by decide +kernel)
  obtain ⟨a5, h5⟩ := given_bool (name := t!"minValue") (b := false) h (by decide +kernel)
  obtain ⟨a6, h6⟩ := given_bool (name := t!"bound") (b := true) h (by decide +kernel)
  obtain ⟨a7, h7⟩ := given_bool (name := t!"boundSimplify") (b := true) h (by decide +kernel)
  exact ⟨{ s with displayLevel := a1, displayValue := a2, maxStandard := a3, chopFirstAndSubtract := a4, minValue := a5, bound := a6, boundSimplify := a7 },
    hs, h1, h2, h3, h4, h5, h6, h7⟩

theorem exists_transform {toks : List Text} {os : List (Text × List Text)} (h : Invokes toks .transform os) : ∃ o, GivenTransform os o := by
  obtain ⟨a1, h1⟩ := given_bool (name := t!"canon") (b := false) h (by decide +kernel)
  obtain ⟨a2, h2⟩ := given_bool (name := t!"sort") (b := false) h (by decide +kernel)
  obtain ⟨a3, h3⟩ := given_bool (name := t!"unique") (b := false) h (by decide +kernel)
  obtain ⟨a4, h4⟩ := given_bool (name := t!"minimize") (b := false) h (by decide +kernel)
  obtain ⟨a5, h5⟩ := given_bool (name := t!"deform") (b := false) h (by decide +kernel)
  obtain ⟨a6, h6⟩ := given_bool (name := t!"radical") (b := false) h (by decide +kernel)
  obtain ⟨a7, h7⟩ := given_bool (name := t!"product") (b := false) h (by decide +kernel)
  obtain ⟨a8, h8⟩ := given_bool (name := t!"addPurePowers") (b := false) h (by decide +kernel)
  obtain ⟨a9, h9⟩ := given_bool (name := t!"trimVariables") (b := false) h (by decide +kernel)
  obtain ⟨a10, h10⟩ := given_bool (name := t!"transpose") (b := false) h (by decide +kernel)
  obtain ⟨a11, h11⟩ := given_bool (name := t!"swap01") (b := false) h (by decide +kernel)
  obtain ⟨a12, h12⟩ := given_int (name := t!"projectVar") (b := 0) h (by decide +kernel)
  exact ⟨⟨a1, a2, a3, a4, a5, a6, a7, a8, a9, a10, a11, a12⟩, h1, h2, h3, h4, h5, h6, h7, h8, h9, h10, h11, h12⟩

theorem exists_analyze {toks : List Text} {os : List (Text × List Text)} (h : Invokes toks .analyze os) : ∃ o, GivenAnalyze os o := by
  obtain ⟨a1, h1⟩ := given_int (name := t!"summaryLevel") (b := 1) h (by decide +kernel)
  obtain ⟨a2, h2⟩ := given_bool (name := t!"lcm") (b := false) h (by decide +kernel)
  obtain ⟨a3, h3⟩ := given_bool (name := t!"varCount") (b := false) h (by decide +kernel)
  obtain ⟨a4, h4⟩ := given_bool (name := t!"genCount") (b := false) h (by decide +kernel)
  obtain ⟨a5, h5⟩ := given_bool (name := t!"maxExp") (b := false) h (by decide +kernel)
  obtain ⟨a6, h6⟩ := given_bool (name := t!"minimal") (b := false) h (by decide +kernel)
  exact ⟨⟨a1, a2, a3, a4, a5, a6⟩, h1, h2, h3, h4, h5, h6⟩

theorem exists_euler {toks : List Text} {os : List (Text × List Text)} (h : Invokes toks .euler os) : ∃ o, GivenEuler os o := by
  obtain ⟨a1, h1⟩ := given_str (name := t!"pivot") (b := t!"gen") h (by decide +kernel)
  obtain ⟨a2, h2⟩ := given_str (name := t!"stdPivot") (b := t!"popvar") h (by decide +kernel)
  obtain ⟨a3, h3⟩ := given_str (name := t!"genPivot") (b := t!"raremax") h (by decide +kernel)
  obtain ⟨a4, h4⟩ := given_str (name := t!"autotranspose") (b := t!"on") h (by decide +kernel)
  obtain ⟨a5, h5⟩ := given_bool (name := t!"uniqueDiv") (b := true) h (by decide +kernel)
  obtain ⟨a6, h6⟩ := given_bool (name := t!"manyDiv") (b := true) h (by decide +kernel)
  obtain ⟨a7, h7⟩ := given_bool (name := t!"impliedDiv") (b := false) h (by decide +kernel)
  obtain ⟨a8, h8⟩ := given_bool (name := t!"swap01") (b := false) h (by decide +kernel)
  exact ⟨⟨a1, a2, a3, a4, a5, a6, a7, a8⟩, h1, h2, h3, h4, h5, h6, h7, h8⟩

/-! ## errors -/

/-- C62: **a first token that does not stand for an action is reported as an error.** -/
theorem C62_unknown_action (env : MainEnv) {tok : Text} (h : ∀ x, ¬ StandsFor (actionFactory.map Prod.fst) tok x) (rest : List Text) (t : Text) :
    frobbyMain env (tok :: rest) t = some .error := by
  have : createAction (tok :: rest) = none := by
    cases hc : createAction (tok :: rest) with
    | none => rfl
    | some p =>
      obtain ⟨_, x, hx, _⟩ := (C61_action tok rest p.2 p.1).1 hc
      exact absurd hx (h x)
  rw [frobbyMain, this]

/-- C62: **options that are not correct are reported as an error**, before the input is read. -/
theorem C62_wrong_options (env : MainEnv) {tok x : Text} {k : ActionKind} (hx : StandsFor (actionFactory.map Prod.fst) tok x) (hk : (x, k) ∈ actionFactory)
    (hne : k ≠ .help) {rest : List Text} (h : ∀ os, ¬ Accepts k.params rest os) (t : Text) : frobbyMain env (tok :: rest) t = some .error := by
  have h4 : createAction (tok :: rest) = some (k, rest) := (C61_action tok rest rest k).2 ⟨rfl, x, hx, hk⟩
  rw [frobbyMain, h4]
  simp only
  rw [parseAction_eq hne, C61_reject (C61_names k) h]

/-- The actions that use their option `-iformat`. -/
def ActionKind.reads (k : ActionKind) : Bool :=
  k ∈ [.hilbert, .euler, .irrdecom, .primdecom, .alexdual, .assoprimes, .maxstandard, .dimension, .optimize, .transform, .ptransform, .intersection, .analyze]

/-- The actions that read their input through the class `CommonParamsHelper`. -/
def ActionKind.viaHelper (k : ActionKind) : Bool := k ∈ [.hilbert, .irrdecom, .primdecom, .assoprimes, .maxstandard]

theorem throughHelper_none {i out t : Text} (h : ∀ k, ¬ InputIs i t k) (supports : FormatKind → Bool) (run : FormatKind → FormatKind → Outcome Text) :
    throughHelper i out t supports run = .error := by
  have : createIOHandler (scannerFormat i t) = none := by
    cases hc : createIOHandler (scannerFormat i t) with
    | none => rfl
    | some k => exact absurd ((inputIs_iff ..).1 hc) (h k)
  rw [throughHelper, this]
  split
  · rfl
  · split <;> rfl

theorem throughHelper_count {i out t : Text} (h : InputIs i t .count) {g : FormatKind} (hg : OutputIs i out t g) {supports : FormatKind → Bool} (hs : supports g = true)
    (run : FormatKind → FormatKind → Outcome Text) : throughHelper i out t supports run = .crash := by
  rw [throughHelper, (outputIs_iff ..).2 hg, (inputIs_iff ..).2 h]
  simp [hs]

theorem throughIO_none {i t : Text} (h : ∀ k, InputIs i t k → k = .count) (run : FormatKind → Outcome Text) : throughIO i t run = .error := by
  rw [throughIO]
  cases hc : createIOHandler (scannerFormat i t) with
  | none => rfl
  | some k => rw [h k ((inputIs_iff ..).1 hc)]

theorem if_error {c : Bool} {r : Outcome Text} (h : r = .error) : some (if c then .error else r) = some .error := by cases c <;> simp [h]

/-- C62: **a format of the input that is not known is reported as an error** by each action that has the option. -/
theorem C62_unknown_format (env : MainEnv) {toks : List Text} {k : ActionKind} {os : List (Text × List Text)} (h : Invokes toks k os) (hk : k.reads = true) {i t : Text}
    (hi : Given k os t!"iformat" (.str i)) (hf : ∀ f, ¬ InputIs i t f) (hd : k = .dimension → Given k os t!"useSlice" (.bool false)) :
    frobbyMain env toks t = some .error := by
  obtain ⟨P, h1, hP, hP'⟩ := main_eq h (fun hh => absurd (hh ▸ hk) (by decide)) env t
  rw [h1]
  have hIO : ∀ run, throughIO i t run = .error := fun run => throughIO_none (fun k hk => absurd hk (hf k)) run
  have hIO₂ : ∀ out run, throughIO₂ i out t run = .error := fun out run => hIO _
  have hH : ∀ out s run, throughHelper i out t s run = .error := fun out s run => throughHelper_none hf s run
  cases k <;> first
    | exact absurd hk (by decide)
    | skip
  case hilbert =>
    obtain ⟨out, ho⟩ := given_str (name := t!"oformat") (b := t!"input") h (by decide +kernel)
    obtain ⟨o, hs⟩ := exists_hilbert h
    have h2 : hilbertOpts P = some o := by
      rw [hilbertOpts, sliceOpts_eq hs.slice hP hP', getString_eq (hP _ _ hs.algorithm), getBool_eq (hP _ _ hs.univariate), getBool_eq (hP _ _ hs.genericBase),
        getBool_eq (hP _ _ hs.widenPivot), getString_eq (hP _ _ hs.enumeration), getString_eq (hP _ _ hs.deformation), getBool_eq (hP _ _ hs.deformStrong)]
      rfl
    rw [ActionKind.perform, h2, formats_eq hP hi ho]
    exact if_error (hH ..)
  case euler =>
    obtain ⟨o, hs⟩ := exists_euler h
    have h2 : eulerOpts P = some o := by
      rw [eulerOpts, getString_eq (hP _ _ hs.pivot), getString_eq (hP _ _ hs.stdPivot), getString_eq (hP _ _ hs.genPivot), getString_eq (hP _ _ hs.autoTranspose),
        getBool_eq (hP _ _ hs.uniqueDiv), getBool_eq (hP _ _ hs.manyDiv), getBool_eq (hP _ _ hs.impliedDiv), getBool_eq (hP _ _ hs.swap01)]
      rfl
    rw [ActionKind.perform, h2, getString_eq (hP _ _ hi)]
    exact if_error (hIO _)
  case irrdecom =>
    obtain ⟨out, ho⟩ := given_str (name := t!"oformat") (b := t!"input") h (by decide +kernel)
    obtain ⟨e, he⟩ := given_bool (name := t!"encode") (b := false) h (by decide +kernel)
    obtain ⟨o, hs⟩ := exists_slice h rfl
    rw [ActionKind.perform, sliceOpts_eq hs hP hP', getBool_eq (hP _ _ he), formats_eq hP hi ho]
    exact if_error (hH ..)
  case primdecom =>
    obtain ⟨out, ho⟩ := given_str (name := t!"oformat") (b := t!"input") h (by decide +kernel)
    obtain ⟨o, hs⟩ := exists_slice h rfl
    rw [ActionKind.perform, sliceOpts_eq hs hP hP', formats_eq hP hi ho]
    exact if_error (hH ..)
  case alexdual =>
    obtain ⟨out, ho⟩ := given_str (name := t!"oformat") (b := t!"input") h (by decide +kernel)
    obtain ⟨o, hs⟩ := exists_slice h rfl
    rw [ActionKind.perform, sliceOpts_eq hs hP hP', formats_eq hP hi ho]
    exact if_error (hIO₂ ..)
  case assoprimes =>
    obtain ⟨out, ho⟩ := given_str (name := t!"oformat") (b := t!"input") h (by decide +kernel)
    obtain ⟨o, hs⟩ := exists_slice h rfl
    rw [ActionKind.perform, sliceOpts_eq hs hP hP', formats_eq hP hi ho]
    exact if_error (hH ..)
  case maxstandard =>
    obtain ⟨out, ho⟩ := given_str (name := t!"oformat") (b := t!"input") h (by decide +kernel)
    obtain ⟨e, he⟩ := given_bool (name := t!"increment") (b := false) h (by decide +kernel)
    obtain ⟨o, hs⟩ := exists_slice h rfl
    rw [ActionKind.perform, sliceOpts_eq hs hP hP', getBool_eq (hP _ _ he), formats_eq hP hi ho]
    exact if_error (hH ..)
  case dimension =>
    obtain ⟨a, ha⟩ := given_bool (name := t!"codim") (b := false) h (by decide +kernel)
    obtain ⟨b, hb⟩ := given_bool (name := t!"squareFreeAndMinimal") (b := false) h (by decide +kernel)
    rw [ActionKind.perform, getBool_eq (hP _ _ ha), getBool_eq (hP _ _ hb), getBool_eq (hP _ _ (hd rfl)), getString_eq (hP _ _ hi)]
    exact congrArg some (hIO _)
  case optimize =>
    obtain ⟨out, ho⟩ := given_str (name := t!"oformat") (b := t!"input") h (by decide +kernel)
    obtain ⟨o, hs⟩ := exists_optimize h
    have h2 : optimizeOpts P = some o := by
      rw [optimizeOpts, sliceOpts_eq hs.slice hP hP', getInt_eq (hP _ _ hs.displayLevel), getBool_eq (hP _ _ hs.displayValue), getBool_eq (hP _ _ hs.maxStandard),
        getBool_eq (hP _ _ hs.chop), getBool_eq (hP _ _ hs.minValue), getBool_eq (hP _ _ hs.bound), getBool_eq (hP _ _ hs.boundSimplify)]
      rfl
    rw [ActionKind.perform, h2, formats_eq hP hi ho]
    exact if_error (hIO₂ ..)
  case transform =>
    obtain ⟨out, ho⟩ := given_str (name := t!"oformat") (b := t!"input") h (by decide +kernel)
    obtain ⟨o, hs⟩ := exists_transform h
    have h2 : transformOpts P = some o := by
      rw [transformOpts, getBool_eq (hP _ _ hs.canon), getBool_eq (hP _ _ hs.minimize), getBool_eq (hP _ _ hs.sort), getBool_eq (hP _ _ hs.unique),
        getBool_eq (hP _ _ hs.deform), getBool_eq (hP _ _ hs.radical), getBool_eq (hP _ _ hs.product), getBool_eq (hP _ _ hs.addPurePowers),
        getBool_eq (hP _ _ hs.trimVariables), getBool_eq (hP _ _ hs.swap01), getInt_eq (hP _ _ hs.projectVar), getBool_eq (hP _ _ hs.transpose)]
      rfl
    rw [ActionKind.perform, h2, formats_eq hP hi ho]
    exact congrArg some (hIO₂ ..)
  case intersection =>
    obtain ⟨out, ho⟩ := given_str (name := t!"oformat") (b := t!"input") h (by decide +kernel)
    obtain ⟨c, hc⟩ := given_bool (name := t!"canon") (b := false) h (by decide +kernel)
    rw [ActionKind.perform, getBool_eq (hP _ _ hc), formats_eq hP hi ho]
    exact congrArg some (hIO₂ ..)
  case ptransform =>
    obtain ⟨out, ho⟩ := given_str (name := t!"oformat") (b := t!"input") h (by decide +kernel)
    obtain ⟨c, hc⟩ := given_bool (name := t!"canon") (b := false) h (by decide +kernel)
    obtain ⟨s, hs⟩ := given_bool (name := t!"sort") (b := false) h (by decide +kernel)
    rw [ActionKind.perform, getBool_eq (hP _ _ hc), getBool_eq (hP _ _ hs), formats_eq hP hi ho]
    exact congrArg some (hIO₂ ..)
  case analyze =>
    obtain ⟨out, ho⟩ := given_str (name := t!"oformat") (b := t!"input") h (by decide +kernel)
    obtain ⟨o, hs⟩ := exists_analyze h
    have h2 : analyzeOpts P = some o := by
      rw [analyzeOpts, getInt_eq (hP _ _ hs.summaryLevel), getBool_eq (hP _ _ hs.lcm), getBool_eq (hP _ _ hs.varCount), getBool_eq (hP _ _ hs.genCount),
        getBool_eq (hP _ _ hs.maxExp), getBool_eq (hP _ _ hs.minimal)]
      rfl
    rw [ActionKind.perform, h2, formats_eq hP hi ho]
    exact congrArg some (hIO₂ ..)

/-- C62: reading in the format `count`, which is only for output, is reported as an error by `transform`, but ends in an internal error for the actions that read through
`CommonParamsHelper`. -/
theorem C62_count_wrong (env : MainEnv) (t : Text) :
    (∀ name ∈ [t!"hilbert", t!"irrdecom", t!"primdecom", t!"assoprimes", t!"maxstandard"], frobbyMain env [name, t!"-iformat", t!"count"] t = some .crash) ∧
    ∀ name ∈ [t!"alexdual", t!"optimize", t!"transform", t!"ptransform", t!"intersection", t!"analyze", t!"dimension", t!"euler"],
      frobbyMain env [name, t!"-iformat", t!"count"] t = some .error := by
  constructor
  · intro name hn
    simp only [List.mem_cons, List.not_mem_nil, or_false] at hn
    rcases hn with rfl | rfl | rfl | rfl | rfl <;> rfl
  · intro name hn
    simp only [List.mem_cons, List.not_mem_nil, or_false] at hn
    rcases hn with rfl | rfl | rfl | rfl | rfl | rfl | rfl | rfl <;> rfl

end Frobby
