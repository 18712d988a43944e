import Verif.PropsMain
import Verif.PropsHilbertAction
import Verif.PropsOptimizeAction
import Verif.PropsFrobAction
import Verif.PropsEulerAction
import Verif.PropsIntersectionAction
import Verif.PropsTransform
import Verif.PropsAnalyze
import Verif.PropsPolyTransform
import Verif.PropsGenAction
import Verif.PropsLattice

/-!
# C62: from the command line and the input to the output

The theorems on the command line (C61), on the choice of the action, of its options and of the formats (`PropsMain`), and on the actions (C50, C51, C53 to C60, C63, C64, C66), put together.
-/

namespace Frobby

variable {toks : List Text} {os : List (Text × List Text)} {t : Text} {f g : IOFormat} {env : MainEnv}

/-- An option that is not on the command line has its default value. -/
theorem given_default {k : ActionKind} {p : Param} (hp : p ∈ k.params) (h : ∀ o ∈ os, o.1 ≠ p.name) : Given k os p.name p.value := by
  refine ⟨p, hp, rfl, ?_⟩
  have : (os.filter fun o => o.1 = p.name) = [] := by
    rw [List.filter_eq_nil_iff]
    intro o ho
    simpa using h o ho
  unfold HasValue
  rw [this]
  rfl

/-- The actions with both of the options `-iformat` and `-oformat`, with their usual values. -/
def ActionKind.transcribes (k : ActionKind) : Bool :=
  k ∈ [.hilbert, .irrdecom, .primdecom, .alexdual, .assoprimes, .maxstandard, .optimize, .transform, .intersection, .analyze]

/-- C62: **without `-iformat` and `-oformat` the program reads an ideal in the format that it is written in, and uses the same format for the output.** -/
theorem C62_default_formats {k : ActionKind} (hk : k.transcribes = true) (hi : ∀ o ∈ os, o.1 ≠ t!"iformat") (ho : ∀ o ∈ os, o.1 ≠ t!"oformat")
    {I : NamedIdeal} (h : readIdeal f t = some I) : Formats k os t f f := by
  have hd := C55_detect h
  have h1 : (⟨t!"iformat", .str t!"autodetect"⟩ : Param) ∈ k.params := by
    cases k <;> first
      | exact absurd hk (by decide)
      | decide +kernel
  have h2 : (⟨t!"oformat", .str t!"input"⟩ : Param) ∈ k.params := by
    cases k <;> first
      | exact absurd hk (by decide)
      | decide +kernel
  have hin : InputIs t!"autodetect" t (.std f) := .inl ⟨rfl, by rw [hd]⟩
  exact ⟨_, _, given_default h1 hi, given_default h2 ho, hin, .inl ⟨rfl, hin⟩⟩

/-- C62: **`irrdecom` prints the irreducible decomposition.** -/
theorem C62_main_irrdecom (h : Invokes toks .irrdecom os) {o : ActionOpts} (ho : GivenSlice .irrdecom os o) (he : Given .irrdecom os t!"encode" (.bool false))
    (hfg : Formats .irrdecom os t f g) {I : NamedIdeal} (ha : Accepted o f t I) (hg : supportsList g = true) :
    ∃ s Js names, frobbyMain env toks t = some (.ok s) ∧ readIdeals g s = some (Js, names) ∧ names.Perm I.names ∧ I.IrreducibleDecom Js := by
  obtain ⟨s, Js, names, h1, h2⟩ := C53_irrdecom ha env.rnd hg
  exact ⟨s, Js, names, by rw [C62_irrdecom env h ho he hfg, h1], h2⟩

/-- C62: **`primdecom` prints a primary decomposition.** -/
theorem C62_main_primdecom_partial (h : Invokes toks .primdecom os) {o : ActionOpts} (ho : GivenSlice .primdecom os o) (hfg : Formats .primdecom os t f g)
    {I : NamedIdeal} (ha : Accepted o f t I) (hg : supportsList g = true) :
    ∃ s Js names, frobbyMain env toks t = some (.ok s) ∧ ((∀ J ∈ Js, J.terms.length < 2 ^ 64) → readIdeals g s = some (Js, names)) ∧ names.Perm I.names ∧
      I.PrimaryDecom Js := by
  obtain ⟨s, Js, names, h1, h2⟩ := C53_primdecom_partial ha env.rnd hg
  exact ⟨s, Js, names, by rw [C62_primdecom env h ho hfg, h1], h2⟩

/-- C62: **`assoprimes` prints the associated primes.** -/
theorem C62_main_assoprimes (h : Invokes toks .assoprimes os) {o : ActionOpts} (ho : GivenSlice .assoprimes os o) (hfg : Formats .assoprimes os t f g)
    {I : NamedIdeal} (ha : Accepted o f t I) (hg : supportsList g = true) :
    ∃ s J, frobbyMain env toks t = some (.ok s) ∧ Prints o.canon I g s J ∧ J.monomials.Nodup ∧ ∀ p, p ∈ J.monomials ↔ I.AssocPrime p := by
  obtain ⟨s, J, h1, h2⟩ := C53_assoprimes ha env.rnd hg
  exact ⟨s, J, by rw [C62_assoprimes env h ho hfg, h1], h2⟩

/-- C62: **`maxstandard` prints the maximal standard monomials.** -/
theorem C62_main_maxstandard (h : Invokes toks .maxstandard os) {o : ActionOpts} (ho : GivenSlice .maxstandard os o)
    (hi : Given .maxstandard os t!"increment" (.bool false)) (hfg : Formats .maxstandard os t f g) {I : NamedIdeal} (ha : Accepted o f t I)
    (hg : supportsList g = true) :
    ∃ s J, frobbyMain env toks t = some (.ok s) ∧ Prints o.canon I g s J ∧ J.monomials.Nodup ∧ ∀ p, p ∈ J.monomials ↔ I.MaxStandard p := by
  obtain ⟨s, J, h1, h2, h3, h4⟩ := C53_maxstandard ha false env.rnd hg
  refine ⟨s, J, by rw [C62_maxstandard env h ho hi hfg, h1], h2, h3, fun p => (h4 p).trans ?_⟩
  simp

/-- C62: **`alexdual` prints the Alexander dual** of an ideal that is given without a point. -/
theorem C62_main_alexdual (h : Invokes toks .alexdual os) {o : ActionOpts} (ho : GivenSlice .alexdual os o) (hfg : Formats .alexdual os t f g)
    {I K : NamedIdeal} (ha : Accepted o f t I) (hK : I.MinimizedOf K) :
    ∃ s J, frobbyMain env toks t = some (.ok s) ∧ Prints o.canon I g s J ∧ I.DualOf K.maxExp J := by
  obtain ⟨s, J, h1, h2⟩ := C53_alexdual ha hK env.rnd g
  exact ⟨s, J, by rw [C62_alexdual env h ho hfg, h1], h2⟩

/-- C62: **`hilbert -univariate` prints the numerator of the univariate Hilbert-Poincaré series.** -/
theorem C62_main_univariate (h : Invokes toks .hilbert os) {o : HilbertOpts} (ho : GivenHilbert os o) (hfg : Formats .hilbert os t f g) {I : NamedIdeal}
    (ha : HilbertAccepted o f t I) (hu : o.univariate = true) (henv : env.toHilbertEnv.Ok) {g' : PolyFormat} (hg : polyFormat g = some g') :
    ∃ s Q, frobbyMain env toks t = some (.ok s) ∧ I.UnivariateNumerator Q ∧ s = writePoly g' Q ∧ (Q.terms.length < 2 ^ 64 → ReadsPoly g' s Q) ∧
      (o.canon = true → NamedIdeal.CanonicalPoly Q) := by
  obtain ⟨s, Q, h1, h2⟩ := C54_univariate ha hu henv hg
  exact ⟨s, Q, by rw [C62_hilbert env h ho hfg, h1], h2⟩

/-- C62: **`hilbert` prints the numerator of the multigraded Hilbert-Poincaré series.** -/
theorem C62_main_hilbert_partial (h : Invokes toks .hilbert os) {o : HilbertOpts} (ho : GivenHilbert os o) (hfg : Formats .hilbert os t f g) {I : NamedIdeal}
    (ha : HilbertAccepted o f t I) (hu : o.univariate = false) (henv : env.toHilbertEnv.Ok) {g' : PolyFormat} (hg : polyFormat g = some g') :
    ∃ s P, frobbyMain env toks t = some (.ok s) ∧ I.HilbertNumerator P ∧ s = writePolyTr g' P ∧ (g' ≠ .cocoa4 → P.terms.length < 2 ^ 64 → ReadsPoly g' s P) ∧
      (o.canon = false → P.names = I.names) ∧ (o.canon = true → NamedIdeal.CanonicalPoly P) := by
  obtain ⟨s, P, h1, h2⟩ := C54_multigraded_partial ha hu henv hg
  exact ⟨s, P, by rw [C62_hilbert env h ho hfg, h1], h2⟩

/-- C62: **`dimension` prints the dimension, or with `-codim` the codimension.** -/
theorem C62_main_dimension (h : Invokes toks .dimension os) {codim sq useSlice : Bool} (h1 : Given .dimension os t!"codim" (.bool codim))
    (h2 : Given .dimension os t!"squareFreeAndMinimal" (.bool sq)) (h3 : Given .dimension os t!"useSlice" (.bool useSlice)) {i : Text}
    (hi : Given .dimension os t!"iformat" (.str i)) (hf : InputIs i t (.std f)) {I : NamedIdeal} (hr : readIdeal f t = some I)
    (hp : sq = true → useSlice = false → I.SquareFree ∧ I.Minimal) :
    ∃ d, I.IsDimension d ∧ frobbyMain env toks t = some (.ok (decimalInt (if codim then (I.names.length : ℤ) - d else d) ++ t!"\n")) := by
  obtain ⟨d, h4, h5⟩ := C55_dimension codim sq useSlice env.rnd (f := if useSlice then none else some f) (by cases useSlice <;> simp) hr hp
  exact ⟨d, h4, by rw [C62_dimension env h h1 h2 h3 hi fun _ => hf, h5]⟩

/-- C62: **`frobdyn` prints the Frobenius number.** -/
theorem C62_main_frobdyn (h : Invokes toks .frobdyn os) {a : List ℤ} (hr : Many integerG a t []) (ha : Instance a) :
    ∃ F K, IsFrobenius a F ∧ (K ≤ env.dynFuel → frobbyMain env toks t = some (.ok (decimalInt F ++ t!"\n"))) := by
  obtain ⟨F, K, h1, h2⟩ := C57_frobdyn hr ha
  exact ⟨F, K, h1, fun hK => by rw [C62_frobdyn env h, h2 _ hK]⟩

/-- C62: **`frobgrob` prints the Frobenius number.** -/
theorem C62_main_frobgrob_partial (h : Invokes toks .frobgrob os) {o : FrobgrobOpts} (ho : GivenSlice .frobgrob os o.toActionOpts)
    (hv : Given .frobgrob os t!"vector" (.bool o.vector)) {B : List (List ℤ)} {a : List ℤ} (ht : frobgrobG B a t []) (ha : Instance a) (hB : RevLexBasis a B)
    (hs : ∃ s, createSplit o.split = some s)
    (hmin : o.minimal = true → (⟨defaultNames (a.length - 1), B.map fun g => g.tail.map Int.toNat⟩ : NamedIdeal).Minimal) (hcanon : o.canon = true → a.length ≤ 10) :
    ∃ (F : ℤ) (u : List ℕ), IsFrobenius a F ∧ u.length + 1 = a.length ∧ dot a (-1 :: u.map Int.ofNat) = F ∧ frobbyMain env toks t =
      some (.ok ((if o.vector then t!"(-1" ++ u.flatMap (fun x => t!", " ++ decimal x) ++ t!")\n" else []) ++ decimalInt F ++ t!"\n")) := by
  obtain ⟨F, u, h1, h2, h3, h4⟩ := C57_frobgrob_partial env.rnd ht ha hB hs hmin hcanon
  exact ⟨F, u, h1, h2, h3, by rw [C62_frobgrob env h ho hv, h4]⟩

/-- C62: **`euler` prints the Euler characteristic.** -/
theorem C62_main_euler_partial (h : Invokes toks .euler os) {o : EulerOptions} (ho : GivenEuler os o) {i : Text} (hi : Given .euler os t!"iformat" (.str i))
    (hf : InputIs i t (.std f)) {cfg : EulerConfig} (hc : eulerConfig o = some cfg)
    (hu : o.uniqueDiv = true ∨ (o.manyDiv = true ∨ o.impliedDiv = false) ∧ cfg.pivot.usesTerms = false) (hr : cfg.pivot.isRandom = false)
    {I : NamedIdeal} (hI : readSquareFreeIdeal f t = some I) :
    ∃ K, K ≤ env.eulerFuel → frobbyMain env toks t = some (.ok (decimalInt (eulerCharacteristic (complexOf o.swap01 I)) ++ t!"\n")) := by
  obtain ⟨K, hK⟩ := C58_euler_partial hc hu hr hI env.tape
  exact ⟨K, fun hle => by rw [C62_euler env h ho hi hf, hK _ hle]⟩

/-- C62: **`intersection` prints the intersection of the ideals.** -/
theorem C62_main_intersection (h : Invokes toks .intersection os) {canon : Bool} (hc : Given .intersection os t!"canon" (.bool canon))
    (hfg : Formats .intersection os t f g) {Is : List NamedIdeal} {names : List Text} (hI : readIdeals f t = some (Is, names)) :
    ∃ R, frobbyMain env toks t = some (.ok (writeIdeal g R)) ∧ IntersectionOf Is names R ∧
      (canon = true → R.names.Pairwise (· < ·) ∧ R.terms.Pairwise fun a b => b < a) := by
  obtain ⟨R, h1, h2⟩ := C60_intersection canon g hI
  exact ⟨R, by rw [C62_intersection env h hc hfg, h1], h2⟩

/-- C62: **`optimize` prints the optimal value and where it is taken.** -/
theorem C62_main_optimize_partial (h : Invokes toks .optimize os) {o : OptimizeOpts} (ho : GivenOptimize os o) (hfg : Formats .optimize os t f g) {I : NamedIdeal}
    {v : List ℤ} (ha : AcceptedOptimize o f t I v) :
    ∃ value s J, frobbyMain env toks t =
        some (.ok ((if o.displayLevel = 0 then [] else s) ++ if o.displayValue then valueLine (o.subtract v) value else [])) ∧
      Prints o.canon (o.ideal I) g s J ∧
      Optimizes (if o.maxStandard then (o.ideal I).MaxStandard else (o.ideal I).Component) (weight (o.ideal I).names (o.vector v)) o.minValue value J.monomials := by
  obtain ⟨value, s, J, h1, h2, h3, _⟩ := C56_optimize_partial ha env.rnd g
  exact ⟨value, s, J, by rw [C62_optimize env h ho hfg, h1], h2, h3⟩

/-- C62: **`analyze` prints the facts about the ideal.** -/
theorem C62_main_analyze (h : Invokes toks .analyze os) {o : AnalyzeOpts} (ho : GivenAnalyze os o) (hfg : Formats .analyze os t f g) {I : NamedIdeal}
    (hI : readIdeal f t = some I) :
    ∃ J u out, frobbyMain env toks t = some (.ok out) ∧ I.AnalysisIs o g u out ∧ J.SummaryIs u ∧ (o.minimal = false → J = I) ∧ (o.minimal = true → I.MinimizedOf J) := by
  obtain ⟨J, u, out, h1, h2⟩ := C51_analyze o (g := g) hI
  exact ⟨J, u, out, by rw [C62_analyze env h ho hfg, h1], h2⟩

/-- C62: **`ptransform` prints the same polynomial**, and with `-canon` the variables and the terms are in order. -/
theorem C62_main_ptransform_partial (h : Invokes toks .ptransform os) {canon sort : Bool} (hc : Given .ptransform os t!"canon" (.bool canon))
    (hs : Given .ptransform os t!"sort" (.bool sort)) (hfg : Formats .ptransform os t f g) {f' g' : PolyFormat} (hf : polyFormat f = some f') (hg : polyFormat g = some g')
    {P : NamedPoly} (hr : readPoly f' t = some P) (hP : P.FullTerms) :
    ∃ Q, frobbyMain env toks t = some (.ok (writePoly g' Q)) ∧ Q.monomials.Perm P.monomials ∧ Q.names.Perm P.names ∧ (canon = false → sort = false → Q = P) ∧
      (canon = true ∨ sort = true → Q.SortedTerms) ∧ (canon = true → Q.names.Pairwise (· < ·)) := by
  obtain ⟨Q, h1, h2, h3, _, _, h4, h5, h6, _⟩ := C63_ptransform_partial canon sort hf hg hr hP
  exact ⟨Q, by rw [C62_ptransform env h hc hs hfg, h1], h2, h3, h4, h5, h6⟩

/-- C64: **`genideal` with the default type prints an ideal**, with the numbers of variables and generators and the exponents that are asked for. -/
theorem C64_main_random (h : Invokes toks .genideal os) {o : GenOpts} (ho : GivenGen os o) (ht : o.type = t!"random") {out : Text}
    (hout : Given .genideal os t!"oformat" (.str out)) (hg : NamesFormat out (.std g)) (h1 : o.varCount < 2 ^ 32) (h2 : o.genCount < 2 ^ 32) (h3 : o.expRange < 2 ^ 32) :
    ∃ (s : Text) (G : List (Term o.varCount)), frobbyMain env toks t = some (.ok s) ∧ IsTextOf g s (numberedNames o.varCount) G ∧
      G.Pairwise (fun a b => ¬ a ≤ b ∧ ¬ b ≤ a) ∧ G.length ≤ o.genCount ∧ ∀ x ∈ G, ∀ i, x i ≤ o.expRange := by
  obtain ⟨s, G, h4, h5, h6, h7, h8, -⟩ := C64_random env.genFuel env.rand g ht h1 h2 h3
  exact ⟨s, G, by rw [C62_genideal env h ho hout hg]; exact congrArg some h4, h5, h6, h7, h8⟩

/-- C64: **what `genideal` prints can be given to the other actions.** Without `-iformat` and `-oformat` they read the ideal that has been generated. -/
theorem C64_pipe {n : ℕ} {s : Text} {names : List Text} {G : List (Term n)} (h : IsTextOf g s names G) {k : ActionKind} (hk : k.transcribes = true)
    (hi : ∀ o ∈ os, o.1 ≠ t!"iformat") (ho : ∀ o ∈ os, o.1 ≠ t!"oformat") :
    Formats k os s g g ∧ readIdeal g s = some { names := names, terms := G.map fun x => List.ofFn x } :=
  ⟨C62_default_formats hk hi ho h.2, h.2⟩

/-- C64: **`genfrob` prints numbers.** -/
theorem C64_main_genfrob_partial (h : Invokes toks .genfrob os) {entryCount digits : ℕ} (he : Given .genfrob os t!"entryCount" (.int entryCount))
    (hd : Given .genfrob os t!"maxEntryDigits" (.int digits)) (h1 : 0 < entryCount) (h2 : 0 < digits) :
    ∃ (s : Text) (a : List ℤ), frobbyMain env toks t = some (.ok s) ∧ Many integerG a s [] ∧ a.length = entryCount ∧ a.Pairwise (· ≤ ·) ∧ ∀ x ∈ a, 1 ≤ x ∧ x ≤ 10 ^ digits := by
  obtain ⟨s, a, h3, h4, h5, h6, h7, -⟩ := C64_genfrob_partial h1 h2 env.rand
  exact ⟨s, a, by rw [C62_genfrob env h he hd, h3], h4, h5, h6, h7⟩

/-- C66: **`latformat` prints the matrix of the input** in the format that is asked for. -/
theorem C66_main_format_partial (h : Invokes toks .latformat os) {i out : Text} (hi : Given .latformat os t!"iformat" (.str i))
    (hout : Given .latformat os t!"oformat" (.str out)) (hz : Given .latformat os t!"zero" (.bool false)) {f g : LatticeFormat} (hf : i = f.name) (ho : OutputLattice f g out)
    {c : ℕ} {rows : List (List ℤ)} (ht : latticeG f c rows t []) (hs : FitsLoops c rows) (he : g = .fplll → rows = [] → c = 0) :
    ∃ u, frobbyMain env toks t = some (.ok u) ∧ latticeG g c rows u [] := by
  subst hf
  obtain ⟨u, h1, h2⟩ := C66_format_partial ht hs ho he
  exact ⟨u, by rw [C62_latformat env h hi hout hz, h1], h2⟩

/-- C66: **`latformat -zero` prints a matrix with the same lattice.** -/
theorem C66_main_zero_partial (h : Invokes toks .latformat os) {i out : Text} (hi : Given .latformat os t!"iformat" (.str i))
    (hout : Given .latformat os t!"oformat" (.str out)) (hz : Given .latformat os t!"zero" (.bool true)) {f g : LatticeFormat} (hf : i = f.name) (ho : OutputLattice f g out)
    {c : ℕ} {rows : List (List ℤ)} (ht : latticeG f c rows t []) (hs : FitsLoops c rows) (hr : rows ≠ []) (hc : c ≠ 0) :
    ∃ u rows', frobbyMain env toks t = some (.ok u) ∧ latticeG g c rows' u [] ∧ rows'.length = rows.length ∧ latticeOf c rows' = latticeOf c rows := by
  subst hf
  obtain ⟨u, rows', h1, h2, h3, h4, -⟩ := C66_zero_partial ht hs ho hr hc
  exact ⟨u, rows', by rw [C62_latformat env h hi hout hz, h1], h2, h3, h4⟩

/-! ## examples -/

/-- Numbers that are not random, and hash tables that do not change the order. -/
def plainEnv : MainEnv := { hilbertEnv with tape := [], eulerFuel := 1000, dynFuel := 1000, rand := fun i => 7 * i * i, genFuel := 1000 }

/-- `irr -oform m2 -canon`: the name of the action and that of the option are abbreviated. -/
theorem C62_example_line : Invokes [t!"irr", t!"-oform", t!"m2", t!"-canon"] .irrdecom [(t!"oformat", [t!"m2"]), (t!"canon", [])] := by
  refine ⟨t!"irr", _, t!"irrdecom", rfl, ?_, by decide +kernel, .cons (p := t!"oform") (args := [t!"m2"]) ?_ (by decide)
    (.cons (p := t!"canon") (args := []) ?_ (by decide) .nil), ?_⟩
  · unfold StandsFor; decide +kernel
  · unfold StandsFor; decide +kernel
  · unfold StandsFor; decide +kernel
  · simp only [← process_iff, ← Option.isSome_iff_exists]
    decide +kernel

theorem C62_example_given : GivenSlice .irrdecom [(t!"oformat", [t!"m2"]), (t!"canon", [])] { exampleOpts with canon := true } :=
  ⟨⟨⟨t!"split", .str t!"median"⟩, by decide +kernel, rfl, rfl⟩, ⟨⟨t!"simplify", .bool true⟩, by decide +kernel, rfl, rfl⟩, ⟨⟨t!"canon", .bool false⟩, by decide +kernel, rfl, .flag _⟩,
    ⟨⟨t!"minimal", .bool false⟩, by decide +kernel, rfl, rfl⟩, .inl ⟨⟨t!"independence", .bool true⟩, by decide +kernel, rfl, rfl⟩⟩

theorem C62_example_formats : Formats .irrdecom [(t!"oformat", [t!"m2"]), (t!"canon", [])] exampleText .monos .m2 :=
  ⟨t!"autodetect", t!"m2", ⟨⟨t!"iformat", .str t!"autodetect"⟩, by decide +kernel, rfl, rfl⟩, ⟨⟨t!"oformat", .str t!"input"⟩, by decide +kernel, rfl, .str _ _⟩,
    .inl ⟨rfl, by decide +kernel⟩, .inr ⟨by decide, t!"m2", by unfold StandsFor; decide +kernel, by decide +kernel⟩⟩

example : ∃ s Js names, frobbyMain plainEnv [t!"irr", t!"-oform", t!"m2", t!"-canon"] exampleText = some (.ok s) ∧ readIdeals .m2 s = some (Js, names) ∧
    names.Perm textIdeal.names ∧ textIdeal.IrreducibleDecom Js :=
  C62_main_irrdecom C62_example_line C62_example_given ⟨⟨t!"encode", .bool false⟩, by decide +kernel, rfl, rfl⟩ C62_example_formats (exampleText_accepted true false) rfl

example : (frobbyMain plainEnv [t!"irr", t!"-oform", t!"m2", t!"-canon"] exampleText).bind printed =
    some t!"R = QQ[a, b];\nI = monomialIdeal(\n a^3,\n b\n);\nI = monomialIdeal(\n a,\n b^2\n);\n" := by decide +kernel

example : (frobbyMain plainEnv [t!"hil", t!"-univ", t!"-oformat", t!"m2"] exampleText).bind printed = some t!"R = QQ[t];\np =\n t^4 +\n -2*t^2 +\n 1;\n" := by
  decide +kernel

example : (frobbyMain plainEnv [t!"dim", t!"-codim", t!"-iformat", t!"mo"] exampleText).bind printed = some t!"2\n" := by decide +kernel

example : (frobbyMain plainEnv [t!"frobdyn"] t!"6 9 20").bind printed = some t!"43\n" := by decide +kernel

example : (frobbyMain plainEnv [t!"maxstandard", t!"-increment", t!"-oformat", t!"4"] exampleText).bind printed = some t!"2 2\n 1 3\n 2 1\n b a\n" := by decide +kernel

example : (frobbyMain plainEnv [t!"alex"] exampleText).bind printed = some t!"vars b, a;\n[\n b^2*a,\n b*a^3\n];\n" := by decide +kernel

example : (frobbyMain plainEnv [t!"optimize", t!"-displayLevel", t!"2"] optimizeText).bind printed = some t!"vars b, a;\n[\n b*a^3,\n b^2*a\n];\n5\n" := by decide +kernel

example : (frobbyMain plainEnv [t!"analyze"] exampleText).bind printed = some t!"3 generators\n2 variables\n" := by decide +kernel

example : (frobbyMain plainEnv [t!"ptransform", t!"-canon", t!"-oformat", t!"4"] ptransformExample).bind printed = some t!"3 3\n1  2 1\n1  1 0\n-3  0 0\n(coefficient) x y\n" := by
  decide +kernel

example : (frobbyMain plainEnv [t!"genideal", t!"-type", t!"list", t!"-varCount", t!"4"] []).bind printed =
      some t!"R = QQ[x1, x2, x3, x4];\nI = monomialIdeal(\n x1*x2,\n x2*x3,\n x3*x4\n);\n" ∧
    (frobbyMain plainEnv [t!"genideal", t!"-type", t!"king", t!"-varCount", t!"3", t!"-oformat", t!"count"] []).bind printed = some t!"20\n" ∧
    (frobbyMain plainEnv [t!"genideal", t!"-type", t!"king", t!"-oformat", t!"null"] []).bind printed = some [] ∧
    (frobbyMain plainEnv [t!"genf", t!"-entryCount", t!"3"] []).bind printed = some t!"1 8 29\n" := by decide +kernel

/-- `input` is not a format for `genideal`, and only the full names of the types are known. -/
example : (frobbyMain plainEnv [t!"genideal", t!"-oformat", t!"input"] []) = some .error ∧ frobbyMain plainEnv [t!"genideal", t!"-type", t!"kin"] [] = some .error := by
  decide +kernel

example : (frobbyMain plainEnv [t!"latformat", t!"-oformat", t!"fplll", t!"-zero"] exampleLattice).bind printed = some t!"[\n [5 7 1]\n [-15 -21 0]\n]\n" ∧
    frobbyMain plainEnv [t!"latformat", t!"-iformat", t!"4"] exampleLattice = some .error := by decide +kernel

example : (frobbyMain plainEnv [t!"euler"] t!"vars a,b,c;[a*b,b*c];").bind printed = some t!"1\n" := by decide +kernel

/-- The format `monos` cannot write polynomials, `m` could be two formats, and `a` could be three actions. -/
example : frobbyMain plainEnv [t!"hilbert"] exampleText = some .error ∧ frobbyMain plainEnv [t!"dimension", t!"-iformat", t!"m"] exampleText = some .error ∧
    frobbyMain plainEnv [t!"a"] exampleText = some .error := ⟨rfl, C62_unknown_format (k := .dimension) (os := [(t!"iformat", [t!"m"])]) (i := t!"m") _
  ⟨t!"dimension", _, t!"dimension", rfl, by unfold StandsFor; decide +kernel, by decide +kernel, .cons (p := t!"iformat") (args := [t!"m"])
    (by unfold StandsFor; decide +kernel) (by decide) .nil, by simp only [← process_iff, ← Option.isSome_iff_exists]; decide +kernel⟩ rfl
  ⟨⟨t!"iformat", .str t!"autodetect"⟩, by decide +kernel, rfl, .str _ _⟩
  (fun f hf => by
    rcases hf with ⟨hf, _⟩ | ⟨_, name, hf, hn⟩
    · exact absurd hf (by decide)
    · have : ∀ x ∈ formatFactory.map Prod.fst, ¬ StandsFor (formatFactory.map Prod.fst) t!"m" x := by unfold StandsFor; decide +kernel
      exact this name hf.1 hf)
  (fun _ => ⟨⟨t!"useSlice", .bool false⟩, by decide +kernel, rfl, rfl⟩),
  C62_unknown_action _ (fun x hx => by
    have : ∀ x ∈ actionFactory.map Prod.fst, ¬ StandsFor (actionFactory.map Prod.fst) t!"a" x := by unfold StandsFor; decide +kernel
    exact this x hx.1 hx) _ _⟩

/-- `-s` could be three options. -/
example : frobbyMain plainEnv [t!"hilbert", t!"-s"] exampleText = some .error := rfl

end Frobby
