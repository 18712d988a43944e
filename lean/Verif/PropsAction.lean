import Verif.ActionLemmas5
import Verif.PropsReader

/-!
# C53: what the actions on monomial ideals print

From the text that is read to the text that is written, for the actions `irrdecom`, `maxstandard`, `assoprimes`, `alexdual` and
`primdecom`.
-/

namespace Frobby

/-! ## the input and the output -/

/-- The name is that of a split strategy, or the beginning of one name only, and the strategy is not the one that only `optimize` has. -/
def AllowedSplit (name : Text) : Prop := ∃ s, createSplit name = some s ∧ s ≠ .degree

/-- The input is read as the ideal and the options are allowed. With the option `-minimal` the user promises that the generators are
minimal. The number of variables is a `size_t`. -/
structure Accepted (o : ActionOpts) (f : IOFormat) (t : Text) (I : NamedIdeal) : Prop where
  read : readIdeal f t = some I
  split : AllowedSplit o.split
  minimal : o.minimal = true → I.Minimal
  varCount : I.names.length < 2 ^ 64

/-- The text is that of the ideal `J`, in the ring of `I`. With `-canon` the variables and generators are sorted. -/
structure Prints (canon : Bool) (I : NamedIdeal) (g : IOFormat) (s : Text) (J : NamedIdeal) : Prop where
  read : J.terms.length < 2 ^ 64 → readIdeal g s = some J
  ok : J.Ok
  names : J.names.Perm I.names
  order : canon = false → J.names = I.names
  canonical : canon = true → J.Canonical

theorem AllowedSplit.valid {o : ActionOpts} (h : AllowedSplit o.split) : o.slice.valid .msm := by
  obtain ⟨s, h1, h2⟩ := h
  refine ⟨?_, fun h' => nomatch h'⟩
  simpa [ActionOpts.slice, h1] using h2

theorem Accepted.valid {o : ActionOpts} {f : IOFormat} {t : Text} {I : NamedIdeal} (h : Accepted o f t I) : o.slice.valid .msm :=
  h.split.valid

theorem createSplit_degree : createSplit t!"degree" = some .degree ∧ createSplit t!"frob" = some .degree := by decide +kernel

theorem rejectsSplit_false {o : ActionOpts} (h : AllowedSplit o.split) : rejectsSplit o = false := by
  obtain ⟨s, h1, h2⟩ := h
  have h3 : o.split ≠ t!"degree" := fun h => h2 (Option.some.inj (h1.symm.trans (h ▸ createSplit_degree.1)))
  have h4 : o.split ≠ t!"frob" := fun h => h2 (Option.some.inj (h1.symm.trans (h ▸ createSplit_degree.2)))
  have h5 : validateSplit o.split true false = some s := by
    unfold validateSplit
    rw [h1]
    simp [h3, h4]
  unfold rejectsSplit
  rw [h5]
  rfl

theorem Accepted.ok {o : ActionOpts} {f : IOFormat} {t : Text} {I : NamedIdeal} (h : Accepted o f t I) : I.Ok :=
  ⟨(C44_well_formed h.read).2.1, (C44_well_formed h.read).2.2⟩

theorem ring_of {I : NamedIdeal} {N : List Text} (ha : ∀ x ∈ I.names, AllowedName x) (hp : N.Perm I.names) (hn : N.Nodup) (hc : I.names.length < 2 ^ 64) : AllowedRing N :=
  ⟨fun x hx => ha x (hp.mem_iff.1 hx), hn, by rw [hp.length_eq]; exact hc⟩

theorem prints_of {canon : Bool} {I : NamedIdeal} (hI : I.Ok) (hr : AllowedRing (outNames canon I.names)) (g : IOFormat) {E : List (Term (outNames canon I.names).length)}
    (hE : SortedIf canon (outNames canon I.names) E) : Prints canon I g (idealText g (toNamed (outNames canon I.names) E)) (toNamed (outNames canon I.names) E) := by
  refine ⟨fun hc => ?_, toNamed_ok rfl hr.distinct E, outNames_perm canon I.names, ?_, ?_⟩
  · exact readIdeal_idealText g (toNamed_wellFormed hr rfl (by simpa [toNamed] using hc))
  · rintro rfl; rfl
  · rintro rfl
    exact ⟨NamedIdeal.orderedNames_sorted hI.nodup, hE.sorted rfl⟩

theorem run_accepted {o : ActionOpts} {f : IOFormat} {t : Text} {I : NamedIdeal} (h : Accepted o f t I) {list : Bool} {g : IOFormat} (hl : list = true → supportsList g = true)
    (run : NamedIdeal → Outcome Text) : readAndRun o list f g t run = run I := by
  unfold readAndRun
  rw [rejectsSplit_false h.split, h.read]
  cases list
  · simp
  · simp [hl rfl]

theorem Accepted.ring {o : ActionOpts} {f : IOFormat} {t : Text} {I : NamedIdeal} (h : Accepted o f t I) : AllowedRing (outNames o.canon I.names) :=
  ring_of (C44_well_formed h.read).1 (outNames_perm _ _) ((outNames_perm _ _).nodup_iff.2 h.ok.nodup) h.varCount

/-- The text of an outcome. -/
def printed : Outcome Text → Option Text
  | .ok s => some s
  | _ => none

/-- Options for the examples. -/
def exampleOpts : ActionOpts := {}

theorem exampleOpts_split : AllowedSplit exampleOpts.split := ⟨.median, by decide +kernel, by decide⟩

/-- The ideal `⟨b^2, ab, a^3⟩` with the variables in the order `b, a`. -/
def textIdeal : NamedIdeal := { names := [t!"b", t!"a"], terms := [[2, 0], [1, 1], [0, 3]] }

/-- The same ideal as a text. -/
def exampleText : Text := t!"vars b, a;\n[ b^2, a*b, a^3 ];\n"

theorem exampleText_accepted (canon minimal : Bool) : Accepted { exampleOpts with canon := canon, minimal := minimal } .monos exampleText textIdeal :=
  ⟨by decide +kernel, exampleOpts_split, fun _ => by unfold NamedIdeal.Minimal; decide, by decide⟩

/-! ## irrdecom -/

/-- The calls of `irrdecom`, in both forms. -/
theorem irrdecom_run {o : ActionOpts} {f : IOFormat} {t : Text} {I : NamedIdeal} (h : Accepted o f t I) (encode : Bool) (rnd : List ℕ → ℕ → ℕ) (w : CallWriter) :
    ∃ E : List (Term (outNames o.canon I.names).length), irrdecomRun w o encode rnd I =
        .ok (w (outNames o.canon I.names) (if encode then bigIdeal E else bigList (E.map irrGens))) ∧
      SortedIf o.canon (outNames o.canon I.names) E ∧ I.EncodedDecom (E.map (nm (outNames o.canon I.names))) := by
  obtain ⟨hN, G, hP⟩ := prepare_spec h.ok h.minimal
  rw [hN] at hP
  obtain ⟨E, h1, h2, h3⟩ := irrdecom_core h.valid rnd o.canon encode w hP h.ok
  refine ⟨E, ?_, h2, h3⟩
  unfold irrdecomRun
  simp only
  rw [hN, h1]
  rfl

/-- The text of `irrdecom`, in both forms. -/
theorem irrdecom_text {o : ActionOpts} {f : IOFormat} {t : Text} {I : NamedIdeal} (h : Accepted o f t I) (encode : Bool) (rnd : List ℕ → ℕ → ℕ) {g : IOFormat}
    (hg : encode = false → supportsList g = true) :
    ∃ E : List (Term (outNames o.canon I.names).length), irrdecomAction o encode rnd f g t =
        .ok (if encode then idealText g (toNamed (outNames o.canon I.names) E) else runWriter g (outNames o.canon I.names) (bigList (E.map irrGens))) ∧
      SortedIf o.canon (outNames o.canon I.names) E ∧ I.EncodedDecom (E.map (nm (outNames o.canon I.names))) := by
  obtain ⟨E, h1, h2, h3⟩ := irrdecom_run h encode rnd (runWriter g)
  refine ⟨E, ?_, h2, h3⟩
  unfold irrdecomAction
  rw [run_accepted h (by cases encode <;> simp_all), h1]
  cases encode
  · rfl
  · simp only [if_true]
    rw [runWriter_ideal]

/-- C53: `irrdecom -encode` prints one monomial for each component of the irreducible decomposition. Whatever the slice algorithm is told
to do, what is printed is read back as an ideal whose generators stand for irreducible ideals. The intersection of these is the ideal
that was read, none of them can be left out and none is there twice. -/
theorem C53_irrdecom_encode {o : ActionOpts} {f : IOFormat} {t : Text} {I : NamedIdeal} (h : Accepted o f t I) (rnd : List ℕ → ℕ → ℕ) (g : IOFormat) :
    ∃ s J, irrdecomAction o true rnd f g t = .ok s ∧ Prints o.canon I g s J ∧ I.EncodedDecom J.monomials := by
  obtain ⟨E, h1, h2, h3⟩ := irrdecom_text h true rnd (g := g) (by simp)
  refine ⟨_, toNamed _ E, by rw [h1]; rfl, prints_of h.ok h.ring g h2, ?_⟩
  rwa [toNamed_monomials]

example : printed (irrdecomAction exampleOpts true (fun _ _ => 0) .monos .cocoa4 exampleText) =
    some t!"Use R ::= Q[x[1..2]];\nNames := [\"b\", \"a\"];\nI := Ideal(\n x[1]x[2]^3,\n x[1]^2x[2]\n);\n" := by decide +kernel
example : ∃ s J, irrdecomAction exampleOpts true (fun _ _ => 0) .monos .singular exampleText = .ok s ∧ Prints false textIdeal .singular s J ∧
    textIdeal.EncodedDecom J.monomials :=
  C53_irrdecom_encode (exampleText_accepted false false) _ _

/-- The ideals that stand for the monomials of an encoded decomposition. -/
theorem irreducible_names {o : ActionOpts} {f : IOFormat} {t : Text} {I : NamedIdeal} (h : Accepted o f t I) {E : List (Term (outNames o.canon I.names).length)}
    (h3 : I.EncodedDecom (E.map (nm (outNames o.canon I.names)))) : I.IrreducibleDecom ((E.map irrGens).map (toNamed (outNames o.canon I.names))) := by
  have hr := h.ring
  have hin : ∀ J ∈ (E.map irrGens).map (toNamed (outNames o.canon I.names)), ∃ d ∈ E, J = toNamed (outNames o.canon I.names) (irrGens d) := by
    intro J hJ
    obtain ⟨c, hc, rfl⟩ := List.mem_map.1 hJ
    obtain ⟨d, hd, rfl⟩ := List.mem_map.1 hc
    exact ⟨d, hd, rfl⟩
  refine ⟨?_, ?_, fun m => ?_, ?_⟩
  · intro J hJ
    obtain ⟨d, _, rfl⟩ := hin J hJ
    exact ⟨toNamed_ok rfl hr.distinct _, outNames_perm _ _⟩
  · intro J hJ
    obtain ⟨d, _, rfl⟩ := hin J hJ
    exact ⟨_, irrGens_monomials rfl hr.distinct d⟩
  · rw [h3.inter]
    simp only [List.forall_mem_map, irrGens_mem rfl hr.distinct]
  · intro A J B hAB
    rw [List.map_map] at hAB
    obtain ⟨A', X, hX, hA', hX'⟩ := List.map_eq_append_iff.1 hAB
    obtain ⟨d, B', rfl, hJ, hB'⟩ := List.map_eq_cons_iff.1 hX'
    subst hA' hB' hJ
    obtain ⟨m, h4, h5⟩ := h3.irredundant _ (List.mem_map.2 ⟨d, by rw [hX]; simp, rfl⟩)
    refine ⟨m, ?_, ?_⟩
    · show ¬ (toNamed _ (irrGens d)).mem m
      rwa [irrGens_mem rfl hr.distinct]
    · intro K hK
      rw [← List.map_append] at hK
      obtain ⟨d', hd', rfl⟩ := List.mem_map.1 hK
      show (toNamed _ (irrGens d')).mem m
      rw [irrGens_mem rfl hr.distinct]
      refine h5 _ (List.mem_map.2 ⟨d', ?_, rfl⟩) fun he => ?_
      · rw [hX]
        rcases List.mem_append.1 hd' with h6 | h6 <;> simp [h6]
      · have := nm_injective rfl hr.distinct he
        subst this
        have hnd := h3.nodup.of_map
        rw [hX] at hnd
        have := (List.perm_middle.nodup_iff.1 hnd)
        rw [List.nodup_cons] at this
        exact this.1 hd'

/-- C53: `irrdecom` prints the irreducible decomposition as a list of ideals, each generated by powers of variables. -/
theorem C53_irrdecom {o : ActionOpts} {f : IOFormat} {t : Text} {I : NamedIdeal} (h : Accepted o f t I) (rnd : List ℕ → ℕ → ℕ) {g : IOFormat} (hg : supportsList g = true) :
    ∃ s Js names, irrdecomAction o false rnd f g t = .ok s ∧ readIdeals g s = some (Js, names) ∧ names.Perm I.names ∧ I.IrreducibleDecom Js := by
  obtain ⟨E, h1, h2, h3⟩ := irrdecom_text h false rnd (g := g) fun _ => hg
  have hr := h.ring
  have hlen : ∀ d : Term (outNames o.canon I.names).length, (irrGens d).length < 2 ^ 64 := fun d => by
    unfold irrGens
    rw [List.length_map]
    refine lt_of_le_of_lt (List.length_filter_le _ _) ?_
    rw [List.length_finRange]
    exact hr.varCount
  rw [if_neg (by simp)] at h1
  refine ⟨_, (E.map irrGens).map (toNamed (outNames o.canon I.names)), outNames o.canon I.names, h1, ?_, outNames_perm _ _, ?_⟩
  · exact (read_list hg hr rfl (by simpa using fun d _ => hlen d))
  · exact irreducible_names h h3

example : printed (irrdecomAction exampleOpts false (fun _ _ => 0) .monos .m2 exampleText) =
    some t!"R = QQ[b, a];\nI = monomialIdeal(\n b,\n a^3\n);\nI = monomialIdeal(\n b^2,\n a\n);\n" := by decide +kernel

example : ∃ s Js names, irrdecomAction exampleOpts false (fun _ _ => 0) .monos .m2 exampleText = .ok s ∧ readIdeals .m2 s = some (Js, names) ∧
    names.Perm textIdeal.names ∧ textIdeal.IrreducibleDecom Js :=
  C53_irrdecom (exampleText_accepted false false) _ rfl

/-! ## maxstandard -/

theorem maxstandard_run {o : ActionOpts} {f : IOFormat} {t : Text} {I : NamedIdeal} (h : Accepted o f t I) (increment : Bool) (rnd : List ℕ → ℕ → ℕ) (w : CallWriter) :
    ∃ E : List (Term (outNames o.canon I.names).length), maxstandardRun w o increment rnd I = .ok (w (outNames o.canon I.names) (bigIdeal E)) ∧
      SortedIf o.canon (outNames o.canon I.names) E ∧ (E.map (nm (outNames o.canon I.names))).Nodup ∧ ∀ p, p ∈ E.map (nm (outNames o.canon I.names)) ↔
        ∃ m, I.MaxStandard m ∧ p = fun x => if x ∈ I.names ∧ increment = true then m x + 1 else m x := by
  obtain ⟨hN, G, hP⟩ := prepare_spec h.ok h.minimal
  rw [hN] at hP
  obtain ⟨E, h1, h2, h3, h4⟩ := maxstandard_core h.valid rnd o.canon increment w hP h.ok
  refine ⟨E, ?_, h2, h3, fun p => ?_⟩
  · unfold maxstandardRun
    simp only
    rw [hN, h1]
    rfl
  · rw [h4]
    simp only [(outNames_perm o.canon I.names).mem_iff]

theorem maxstandard_text {o : ActionOpts} {f : IOFormat} {t : Text} {I : NamedIdeal} (h : Accepted o f t I) (increment : Bool) (rnd : List ℕ → ℕ → ℕ) {g : IOFormat}
    (hg : supportsList g = true) :
    ∃ E : List (Term (outNames o.canon I.names).length), maxstandardAction o increment rnd f g t = .ok (idealText g (toNamed (outNames o.canon I.names) E)) ∧
      SortedIf o.canon (outNames o.canon I.names) E ∧ (E.map (nm (outNames o.canon I.names))).Nodup ∧ ∀ p, p ∈ E.map (nm (outNames o.canon I.names)) ↔
        ∃ m, I.MaxStandard m ∧ p = fun x => if x ∈ I.names ∧ increment = true then m x + 1 else m x := by
  obtain ⟨E, h1, h2, h3, h4⟩ := maxstandard_run h increment rnd (runWriter g)
  refine ⟨E, ?_, h2, h3, h4⟩
  unfold maxstandardAction
  rw [run_accepted h fun _ => hg, h1, runWriter_ideal]

/-- C53: `maxstandard` prints the maximal standard monomials, all of them and each of them once. With `-increment` one is added to each
of their exponents. -/
theorem C53_maxstandard {o : ActionOpts} {f : IOFormat} {t : Text} {I : NamedIdeal} (h : Accepted o f t I) (increment : Bool) (rnd : List ℕ → ℕ → ℕ) {g : IOFormat}
    (hg : supportsList g = true) : ∃ s J, maxstandardAction o increment rnd f g t = .ok s ∧ Prints o.canon I g s J ∧ J.monomials.Nodup ∧ ∀ p, p ∈ J.monomials ↔
      ∃ m, I.MaxStandard m ∧ p = fun x => if x ∈ I.names ∧ increment = true then m x + 1 else m x := by
  obtain ⟨E, h1, h2, h3, h4⟩ := maxstandard_text h increment rnd hg
  exact ⟨_, toNamed _ E, h1, prints_of h.ok h.ring g h2, by rwa [toNamed_monomials], by rwa [toNamed_monomials]⟩

example : printed (maxstandardAction exampleOpts false (fun _ _ => 0) .monos .monos exampleText) = some t!"vars b, a;\n[\n a^2,\n b\n];\n" ∧
    printed (maxstandardAction { exampleOpts with canon := true } true (fun _ _ => 0) .monos .monos exampleText) =
      some t!"vars a, b;\n[\n a^3*b,\n a*b^2\n];\n" := by decide +kernel

example : ∃ s J, maxstandardAction { exampleOpts with canon := true, minimal := true } true (fun _ _ => 0) .monos .monos exampleText = .ok s ∧
    Prints true textIdeal .monos s J ∧ J.monomials.Nodup ∧ ∀ p, p ∈ J.monomials ↔
      ∃ m, textIdeal.MaxStandard m ∧ p = fun x => if x ∈ textIdeal.names ∧ true = true then m x + 1 else m x :=
  C53_maxstandard (exampleText_accepted true true) _ _ rfl

/-! ## assoprimes -/

theorem assoprimes_run {o : ActionOpts} {f : IOFormat} {t : Text} {I : NamedIdeal} (h : Accepted o f t I) (rnd : List ℕ → ℕ → ℕ) (w : CallWriter) :
    ∃ E : List (Term (outNames o.canon I.names).length), assoprimesRun w o rnd I = .ok (w (outNames o.canon I.names) (bigIdeal E)) ∧
      SortedIf o.canon (outNames o.canon I.names) E ∧ (E.map (nm (outNames o.canon I.names))).Nodup ∧ ∀ p, p ∈ E.map (nm (outNames o.canon I.names)) ↔ I.AssocPrime p := by
  obtain ⟨hN, G, hP⟩ := prepare_spec h.ok h.minimal
  rw [hN] at hP
  obtain ⟨E, h1, h2, h3, h4⟩ := assoprimes_core h.valid rnd o.canon w hP h.ok
  refine ⟨E, ?_, h2, h3, h4⟩
  unfold assoprimesRun
  simp only
  rw [hN, h1]
  rfl

theorem assoprimes_text {o : ActionOpts} {f : IOFormat} {t : Text} {I : NamedIdeal} (h : Accepted o f t I) (rnd : List ℕ → ℕ → ℕ) {g : IOFormat}
    (hg : supportsList g = true) :
    ∃ E : List (Term (outNames o.canon I.names).length), assoprimesAction o rnd f g t = .ok (idealText g (toNamed (outNames o.canon I.names) E)) ∧
      SortedIf o.canon (outNames o.canon I.names) E ∧ (E.map (nm (outNames o.canon I.names))).Nodup ∧ ∀ p, p ∈ E.map (nm (outNames o.canon I.names)) ↔ I.AssocPrime p := by
  obtain ⟨E, h1, h2, h3, h4⟩ := assoprimes_run h rnd (runWriter g)
  refine ⟨E, ?_, h2, h3, h4⟩
  unfold assoprimesAction
  rw [run_accepted h fun _ => hg, h1, runWriter_ideal]

/-- C53: `assoprimes` prints the associated primes, each once and as the product of its variables. -/
theorem C53_assoprimes {o : ActionOpts} {f : IOFormat} {t : Text} {I : NamedIdeal} (h : Accepted o f t I) (rnd : List ℕ → ℕ → ℕ) {g : IOFormat}
    (hg : supportsList g = true) : ∃ s J, assoprimesAction o rnd f g t = .ok s ∧ Prints o.canon I g s J ∧ J.monomials.Nodup ∧ ∀ p, p ∈ J.monomials ↔ I.AssocPrime p := by
  obtain ⟨E, h1, h2, h3, h4⟩ := assoprimes_text h rnd hg
  exact ⟨_, toNamed _ E, h1, prints_of h.ok h.ring g h2, by rwa [toNamed_monomials], by rwa [toNamed_monomials]⟩

example : printed (assoprimesAction exampleOpts (fun _ _ => 0) .monos .monos t!"vars b, a;\n[ b^2, a*b ];\n") =
    some t!"vars b, a;\n[\n b,\n b*a\n];\n" := by decide +kernel
example : ∃ s J, assoprimesAction { exampleOpts with canon := true } (fun _ _ => 0) .monos .monos exampleText = .ok s ∧ Prints true textIdeal .monos s J ∧
    J.monomials.Nodup ∧ ∀ p, p ∈ J.monomials ↔ textIdeal.AssocPrime p :=
  C53_assoprimes (exampleText_accepted true false) _ rfl

/-! ## primdecom -/

theorem primdecom_run {o : ActionOpts} {f : IOFormat} {t : Text} {I : NamedIdeal} (h : Accepted o f t I) (rnd : List ℕ → ℕ → ℕ) (w : CallWriter) :
    ∃ G E C, PreparedSpec I (outNames o.canon I.names) (prepare o I).translator (prepare o I).ideal G ∧ RunsSpec G E C ∧
      primdecomRun w o rnd I = .ok (w (outNames o.canon I.names)
        (bigList (if o.canon then vecSortList ((supportRuns E).map C) else (supportRuns E).map C))) := by
  obtain ⟨hN, G, hP⟩ := prepare_spec h.ok h.minimal
  rw [hN] at hP
  obtain ⟨E, C, h1, h2⟩ := primdecom_core h.valid rnd o.canon w hP
  refine ⟨G, E, C, hP, h1, ?_⟩
  unfold primdecomRun
  simp only
  rw [hN, h2]
  rfl

theorem primdecom_text {o : ActionOpts} {f : IOFormat} {t : Text} {I : NamedIdeal} (h : Accepted o f t I) (rnd : List ℕ → ℕ → ℕ) {g : IOFormat}
    (hg : supportsList g = true) : ∃ G E C, PreparedSpec I (outNames o.canon I.names) (prepare o I).translator (prepare o I).ideal G ∧ RunsSpec G E C ∧
      primdecomAction o rnd f g t = .ok (runWriter g (outNames o.canon I.names)
        (bigList (if o.canon then vecSortList ((supportRuns E).map C) else (supportRuns E).map C))) := by
  obtain ⟨G, E, C, hP, h1, h2⟩ := primdecom_run h rnd (runWriter g)
  refine ⟨G, E, C, hP, h1, ?_⟩
  unfold primdecomAction
  rw [run_accepted h fun _ => hg, h2]

theorem primary_decom {o : ActionOpts} {I : NamedIdeal} (h : I.Ok) {G E : List (Term I.names.length)} {C : List (Term I.names.length) → List (Term I.names.length)}
    (hP : PreparedSpec I (outNames o.canon I.names) (prepare o I).translator (prepare o I).ideal G) (hR : RunsSpec G E C) :
    I.PrimaryDecom ((if o.canon then vecSortList ((supportRuns E).map C) else (supportRuns E).map C).map (toNamed (outNames o.canon I.names))) := by
  split
  · refine primary_names hP h (hR.perm (C' := fun r => vecSort (vecSort (C r))) fun r => (vecSort_perm _).trans (vecSort_perm _)) ?_
    have := vecSortList_perm ((supportRuns E).map C)
    rwa [List.map_map] at this
  · exact primary_names hP h hR (List.Perm.refl _)

/-- C53: `primdecom` prints a list of primary ideals by their minimal generators. Their intersection is the ideal that was read and none
of them can be left out. What is missing is that there is only one of them for each associated prime, see `C53_primdecom_not_reduced`. -/
theorem C53_primdecom_partial {o : ActionOpts} {f : IOFormat} {t : Text} {I : NamedIdeal} (h : Accepted o f t I) (rnd : List ℕ → ℕ → ℕ) {g : IOFormat}
    (hg : supportsList g = true) : ∃ s Js names, primdecomAction o rnd f g t = .ok s ∧
      ((∀ J ∈ Js, J.terms.length < 2 ^ 64) → readIdeals g s = some (Js, names)) ∧ names.Perm I.names ∧ I.PrimaryDecom Js := by
  obtain ⟨G, E, C, hP, hR, h1⟩ := primdecom_text h rnd hg
  refine ⟨_, _, _, h1, fun hc => read_list hg h.ring hP.length fun c hc' => ?_, outNames_perm _ _, ?_⟩
  · have := hc _ (List.mem_map.2 ⟨c, hc', rfl⟩)
    simpa [toNamed] using this
  · exact primary_decom h.ok hP hR

example : printed (primdecomAction exampleOpts (fun _ _ => 0) .monos .monos t!"vars x, y;\n[ x^2, x*y ];") =
    some t!"vars x, y;\n[\n x^2,\n y\n];\nvars x, y;\n[\n x\n];\n" := by decide +kernel

example : ∃ s Js names, primdecomAction exampleOpts (fun _ _ => 0) .monos .monos exampleText = .ok s ∧
    ((∀ J ∈ Js, J.terms.length < 2 ^ 64) → readIdeals .monos s = some (Js, names)) ∧ names.Perm textIdeal.names ∧ textIdeal.PrimaryDecom Js :=
  C53_primdecom_partial (exampleText_accepted false false) _ rfl

theorem witness_runs {E : List (Term 3)} {C : List (Term 3) → List (Term 3)} (h : RunsSpec primaryWitness E C) :
    ∃ A B D : List (Term 3), (supportRuns E).map C = [A, B, D] ∧ (∀ L ∈ [A, B, D], L.length < 2 ^ 64) ∧ (∀ m, mem A m ↔ memIrr ![3, 1, 0] m) ∧
      ∀ m, mem D m ↔ memIrr ![1, 3, 0] m := by
  have hE : E = [![3, 1, 0], ![2, 2, 1], ![1, 3, 0]] := by
    rw [h.sorted, sortReverseLex_eq_of_perm (irrDecomp_unique h.irr primaryWitness_irr fun _ => Iff.rfl)]
    decide
  have hs : supportRuns E = [[![3, 1, 0]], [![2, 2, 1]], [![1, 3, 0]]] := by
    rw [hE]
    have e1 : sameSupportPrefix (![3, 1, 0] : Term 3) [![2, 2, 1], ![1, 3, 0]] = [] := by decide
    have e2 : sameSupportPrefix (![2, 2, 1] : Term 3) [![1, 3, 0]] = [] := by decide
    have e3 : sameSupportPrefix (![1, 3, 0] : Term 3) [] = [] := by decide
    rw [supportRuns, e1, List.length_nil, List.drop_zero, supportRuns, e2, List.length_nil, List.drop_zero, supportRuns,
      e3, List.length_nil, List.drop_zero, supportRuns]
  have hm := h.mem
  have ha := h.anti
  rw [hs] at hm ha ⊢
  have hA := hm [![3, 1, 0]] (by simp)
  have hB := hm [![2, 2, 1]] (by simp)
  have hD := hm [![1, 3, 0]] (by simp)
  simp only [List.mem_singleton, forall_eq] at hA hB hD
  refine ⟨_, _, _, rfl, ?_, hA, hD⟩
  have key : ∀ (L G : List (Term 3)) (d : Term 3), Anti L → Anti G → (∀ m, mem L m ↔ memIrr d m) → (∀ m, mem G m ↔ memIrr d m) → G.length < 2 ^ 64 → L.length < 2 ^ 64 := by
    intro L G d h1 h2 h3 h4 h5
    rwa [(anti_unique_perm h1 h2 fun m => (h3 m).trans (h4 m).symm).length_eq]
  simp only [List.mem_cons, List.not_mem_nil, or_false, forall_eq_or_imp, forall_eq]
  refine ⟨key _ [![3, 0, 0], ![0, 1, 0]] _ (ha _ (by simp)) (by unfold Anti; decide) hA ?_ (by decide),
    key _ [![2, 0, 0], ![0, 2, 0], ![0, 0, 1]] _ (ha _ (by simp)) (by unfold Anti; decide) hB ?_ (by decide),
    key _ [![1, 0, 0], ![0, 3, 0]] _ (ha _ (by simp)) (by unfold Anti; decide) hD ?_ (by decide)⟩
  all_goals
    intro m
    simp [mem, memIrr, Term.le_def, Fin.exists_fin_succ, Fin.forall_fin_succ]

/-- The ideal of `primaryWitness`. -/
def textWitness : NamedIdeal := { names := [t!"x", t!"y", t!"z"], terms := [[3, 0, 0], [2, 1, 0], [1, 2, 0], [0, 3, 0], [1, 1, 1]] }

/-- C53 fails for `primdecom`: whatever the options other than `-canon` and the format, two of the ideals that are printed for this ideal
have the same radical, so the decomposition is not one with a primary ideal for each associated prime. -/
theorem C53_primdecom_not_reduced {o : ActionOpts} {f : IOFormat} {t : Text} (h : Accepted o f t textWitness) (ho : o.canon = false) (rnd : List ℕ → ℕ → ℕ) {g : IOFormat}
    (hg : supportsList g = true) : ∃ s Js names, primdecomAction o rnd f g t = .ok s ∧ readIdeals g s = some (Js, names) ∧
      ∃ J ∈ Js, ∃ K ∈ Js, (∀ x, J.HasPower x ↔ K.HasPower x) ∧ ∃ m, J.mem m ∧ ¬ K.mem m := by
  obtain ⟨G, E, C, hP, hR, h1⟩ := primdecom_text h rnd hg
  have hr := h.ring
  rw [ho, if_neg (by simp)] at h1
  rw [ho] at hP hr
  have hG : G = primaryWitness := List.map_injective_iff.2 (nm_injective (n := 3) hP.length hP.nodup) hP.gens
  subst hG
  obtain ⟨A, B, D, h2, hl, hA, hD⟩ := witness_runs hR
  have hnd : textWitness.names.Nodup := hP.nodup
  have h3 : readIdeals g (runWriter g textWitness.names (bigList [A, B, D])) = some ([A, B, D].map (toNamed textWitness.names), textWitness.names) :=
    read_list (n := 3) hg hr rfl hl
  refine ⟨_, _, _, h1.trans (congrArg (fun l => Outcome.ok (runWriter g textWitness.names (bigList l))) h2), h3, toNamed textWitness.names A, by simp,
    toNamed textWitness.names D, by simp, fun x => ?_, powerOf t!"y" 1, ?_, ?_⟩
  · have hp : ∀ (d : Term 3) (L : List (Term 3)), (∀ m, mem L m ↔ memIrr d m) →
        ((toNamed textWitness.names L).HasPower x ↔ 0 < nm textWitness.names d x) := by
      intro d L hL
      unfold NamedIdeal.HasPower
      simp only [toNamed_mem (n := 3) rfl hnd, hL, ← memIrr_names (n := 3) rfl hnd]
      constructor
      · rintro ⟨e, y, h4, h5⟩
        unfold powerOf at h5
        split at h5
        · rename_i hxy; rwa [← hxy]
        · omega
      · intro h4
        exact ⟨nm textWitness.names d x, x, h4, by simp [powerOf]⟩
    rw [hp _ _ hA, hp _ _ hD]
    unfold nm expOf
    generalize List.idxOf x _ = i
    match i with
    | 0 => decide
    | 1 => decide
    | i + 2 => simp
  · rw [toNamed_mem (n := 3) rfl hnd, hA]
    decide
  · rw [toNamed_mem (n := 3) rfl hnd, hD]
    decide

example : Accepted exampleOpts .monos t!"vars x, y, z;\n[ x^3, x^2*y, x*y^2, y^3, x*y*z ];" textWitness :=
  ⟨by decide +kernel, exampleOpts_split, nofun, by decide⟩

/-! ## alexdual -/

/-- The text of a monomial in a format, for a ring with the given variables. -/
def termG (f : IOFormat) (names : List Text) (a : List ℕ) : Gram :=
  match f with
  | .m2 => productM2G names a
  | .cocoa4 => productCoCoAG names a
  | .fourti2 => row4ti2G names.length a
  | _ => productG names a

theorem termG_length {f : IOFormat} {names : List Text} {a : List ℕ} {t r : Text} (h : termG f names a t r) : a.length = names.length := by
  cases f with
  | m2 => exact productM2G_length _ _ _ h
  | cocoa4 => exact productCoCoAG_length _ _ _ h
  | fourti2 => exact h.1
  | monos => exact productG_length _ _ _ h
  | newmonos => exact productG_length _ _ _ h
  | singular => exact productG_length _ _ _ h

theorem readTerm_sound {f : IOFormat} {names : List Text} {a : List ℕ} {t r : Text} (h : readTerm f names t = some (a, r)) : termG f names a t r := by
  unfold readTerm at h
  simp only [Option.map_eq_some_iff, Prod.mk.injEq] at h
  obtain ⟨⟨k, u⟩, h1, h2, rfl⟩ := h
  have key : ∀ b : List ℕ, TermsInv names ([] ++ [b]) k → b = a := fun b hb => by
    rw [← h2, hb.2]; rfl
  cases f with
  | m2 => obtain ⟨b, h3, h4⟩ := readTermM2_sound _ _ _ _ _ (TermsInv.begin names) h1; cases key b h4; exact h3
  | cocoa4 => obtain ⟨b, h3, h4⟩ := readTermCoCoA_sound _ _ _ _ _ (TermsInv.begin names) h1; cases key b h4; exact h3
  | fourti2 => obtain ⟨b, h3, h4⟩ := readTerm4ti2_sound _ _ _ _ _ (TermsInv.begin names) h1; cases key b h4; exact h3
  | monos => obtain ⟨b, h3, h4⟩ := readTermProduct_sound _ _ _ _ _ (TermsInv.begin names) h1; cases key b h4; exact h3
  | newmonos => obtain ⟨b, h3, h4⟩ := readTermProduct_sound _ _ _ _ _ (TermsInv.begin names) h1; cases key b h4; exact h3
  | singular => obtain ⟨b, h3, h4⟩ := readTermProduct_sound _ _ _ _ _ (TermsInv.begin names) h1; cases key b h4; exact h3

/-- C53: what `alexdual` reads is an ideal and nothing else, or it is an ideal and a monomial in the variables of that ideal. -/
theorem C53_dual_input {f : IOFormat} {t : Text} {I : NamedIdeal} {point : Option (List ℕ)} (h : readDualInstance f t = some (I, point)) :
    match point with
    | none => readIdeal f t = some I
    | some a => (idealG f I ⊹ termG f I.names a ⊹ lit []) t [] := by
  unfold readDualInstance at h
  obtain ⟨⟨k, r⟩, h1, h2⟩ := Option.bind_eq_some_iff.1 h
  simp only at h2
  split at h2
  · rename_i h3
    simp only [Option.some.injEq, Prod.mk.injEq] at h2
    obtain ⟨rfl, rfl⟩ := h2
    simp [readIdeal, h1, h3]
  · obtain ⟨⟨a, u⟩, h4, h5⟩ := Option.bind_eq_some_iff.1 h2
    simp only at h5
    split at h5
    · rename_i h6
      simp only [Option.some.injEq, Prod.mk.injEq] at h5
      obtain ⟨rfl, rfl⟩ := h5
      have h7 : eatWhite u = [] := by simpa [matchEOF] using h6
      have h8 := skip u
      rw [h7] at h8
      exact ⟨r, readConsumer_sound h1, u, readTerm_sound h4, h8⟩
    · simp at h5

/-- C53: every text of an ideal can be given to `alexdual`. -/
theorem C53_dual_input_ideal {f : IOFormat} {t : Text} {I : NamedIdeal} (h : readIdeal f t = some I) : readDualInstance f t = some (I, none) := by
  unfold readIdeal at h
  obtain ⟨⟨k, r⟩, h1, h2⟩ := Option.bind_eq_some_iff.1 h
  simp only at h2
  split at h2
  · rename_i h3
    simp only [Option.some.injEq] at h2
    subst h2
    simp [readDualInstance, h1, h3]
  · simp at h2

/-- The input is read as the ideal and the point and the options are allowed, as for `Accepted`. -/
structure AcceptedDual (o : ActionOpts) (f : IOFormat) (t : Text) (I : NamedIdeal) (point : Option (List ℕ)) : Prop where
  read : readDualInstance f t = some (I, point)
  split : AllowedSplit o.split
  minimal : o.minimal = true → I.Minimal
  varCount : I.names.length < 2 ^ 64

theorem AcceptedDual.wellFormed {o : ActionOpts} {f : IOFormat} {t : Text} {I : NamedIdeal} {point : Option (List ℕ)} (h : AcceptedDual o f t I point) :
    ((∀ x ∈ I.names, AllowedName x) ∧ I.names.Nodup ∧ ∀ e ∈ I.terms, e.length = I.names.length) ∧ ∀ a ∈ point, a.length = I.names.length := by
  have h1 := C53_dual_input h.read
  cases point with
  | none => exact ⟨C44_well_formed h1, nofun⟩
  | some a =>
    obtain ⟨u, h2, v, h3, _⟩ := h1
    refine ⟨idealG_well_formed h2, ?_⟩
    rintro b ⟨⟩
    exact termG_length h3

theorem AcceptedDual.ok {o : ActionOpts} {f : IOFormat} {t : Text} {I : NamedIdeal} {point : Option (List ℕ)} (h : AcceptedDual o f t I point) : I.Ok :=
  ⟨h.wellFormed.1.2.1, h.wellFormed.1.2.2⟩

theorem AcceptedDual.ring {o : ActionOpts} {f : IOFormat} {t : Text} {I : NamedIdeal} {point : Option (List ℕ)} (h : AcceptedDual o f t I point) :
    AllowedRing (outNames o.canon I.names) :=
  ring_of h.wellFormed.1.1 (outNames_perm _ _) ((outNames_perm _ _).nodup_iff.2 h.ok.nodup) h.varCount

theorem ofFn_point {a : List ℕ} {n : ℕ} (h : a.length = n) : (List.ofFn fun v : Fin n => a.getD v 0) = a := by
  subst h
  refine List.ext_getElem (by simp) fun i h1 h2 => ?_
  simp

/-- The calls of `alexdual`. With `-canon` the exponents of the point are those of the sorted variables, in the order of the input. -/
theorem alexdual_with {o : ActionOpts} {f : IOFormat} {t : Text} {I K : NamedIdeal} {point : Option (List ℕ)} (h : AcceptedDual o f t I point) (hK : I.MinimizedOf K)
    (rnd : List ℕ → ℕ → ℕ) (w : CallWriter) (hp : ∀ a ∈ point, ∀ m ∈ K.monomials, ∀ x, m x ≤ expOf (outNames o.canon I.names) a x) :
    ∃ E : List (Term (outNames o.canon I.names).length), alexdualWith w o rnd f t = .ok (w (outNames o.canon I.names) (bigIdeal E)) ∧
      SortedIf o.canon (outNames o.canon I.names) E ∧
      I.DualOf ((point.map (expOf (outNames o.canon I.names))).getD K.maxExp) (toNamed (outNames o.canon I.names) E) := by
  obtain ⟨hN, G, hP⟩ := prepare_spec h.ok h.minimal
  have hl := h.wellFormed.2
  have hnm : ∀ a ∈ point, nm (prepare o I).names (fun v : Fin I.names.length => a.getD v 0) = expOf (outNames o.canon I.names) a := fun a ha => by
    unfold nm
    rw [ofFn_point (hl a ha), hN]
  obtain ⟨E, h1, h2, h3⟩ := dual_core h.split.valid rnd w (prepare o I) hP h.ok hK (point.map fun a v => a.getD v 0) (by
    intro b hb
    obtain ⟨a, ha, rfl⟩ := Option.mem_map.1 hb
    rw [hnm a ha]
    exact hp a ha)
  have hpt : ((point.map fun a (v : Fin I.names.length) => a.getD v 0).map (nm (prepare o I).names)).getD K.maxExp =
      (point.map (expOf (outNames o.canon I.names))).getD K.maxExp := by
    cases point with
    | none => rfl
    | some a => exact hnm a rfl
  rw [hpt] at h3
  have hact : alexdualWith w o rnd f t = .ok (w (prepare o I).names (bigIdeal E)) := by
    unfold alexdualWith
    rw [rejectsSplit_false h.split, h.read]
    simp only [Bool.false_eq_true, if_false]
    rw [← h1, Option.map_map]
    rfl
  have key : ∀ (N' : List Text) (hN' : (prepare o I).names = N'), ∃ E' : List (Term N'.length), alexdualWith w o rnd f t = .ok (w N' (bigIdeal E')) ∧
      SortedIf o.canon N' E' ∧ I.DualOf ((point.map (expOf (outNames o.canon I.names))).getD K.maxExp) (toNamed N' E') := by
    rintro _ rfl
    exact ⟨E, hact, h2, h3⟩
  exact key _ hN

/-- The text of `alexdual`. -/
theorem alexdual_text {o : ActionOpts} {f : IOFormat} {t : Text} {I K : NamedIdeal} {point : Option (List ℕ)} (h : AcceptedDual o f t I point) (hK : I.MinimizedOf K)
    (rnd : List ℕ → ℕ → ℕ) (g : IOFormat) (hp : ∀ a ∈ point, ∀ m ∈ K.monomials, ∀ x, m x ≤ expOf (outNames o.canon I.names) a x) :
    ∃ E : List (Term (outNames o.canon I.names).length), alexdualAction o rnd f g t = .ok (idealText g (toNamed (outNames o.canon I.names) E)) ∧
      SortedIf o.canon (outNames o.canon I.names) E ∧
      I.DualOf ((point.map (expOf (outNames o.canon I.names))).getD K.maxExp) (toNamed (outNames o.canon I.names) E) := by
  obtain ⟨E, h1, h2, h3⟩ := alexdual_with h hK rnd (runWriter g) hp
  refine ⟨E, ?_, h2, h3⟩
  unfold alexdualAction
  rw [h1, runWriter_ideal]

/-- C53: `alexdual` without a point prints the minimal generators of the Alexander dual with respect to the least common multiple of the
minimal generators. -/
theorem C53_alexdual {o : ActionOpts} {f : IOFormat} {t : Text} {I K : NamedIdeal} (h : Accepted o f t I) (hK : I.MinimizedOf K) (rnd : List ℕ → ℕ → ℕ) (g : IOFormat) :
    ∃ s J, alexdualAction o rnd f g t = .ok s ∧ Prints o.canon I g s J ∧ I.DualOf K.maxExp J := by
  have h' : AcceptedDual o f t I none := ⟨C53_dual_input_ideal h.read, h.split, h.minimal, h.varCount⟩
  obtain ⟨E, h1, h2, h3⟩ := alexdual_text h' hK rnd g nofun
  exact ⟨_, toNamed _ E, h1, prints_of h.ok h.ring g h2, h3⟩

/-- C53: `alexdual` with a point prints the minimal generators of the Alexander dual with respect to that point. It ends with an error if
there is a minimal generator that does not divide the point. What is missing is the case that `-canon` changes the order of the
variables, see `C53_alexdual_canon_wrong`. -/
theorem C53_alexdual_point_partial {o : ActionOpts} {f : IOFormat} {t : Text} {I K : NamedIdeal} {a : List ℕ} (h : AcceptedDual o f t I (some a)) (hK : I.MinimizedOf K)
    (rnd : List ℕ → ℕ → ℕ) (g : IOFormat) (hs : o.canon = true → I.names.Pairwise (· < ·)) :
    ((∀ m ∈ K.monomials, ∀ x, m x ≤ expOf I.names a x) →
      ∃ s J, alexdualAction o rnd f g t = .ok s ∧ Prints o.canon I g s J ∧ I.DualOf (expOf I.names a) J) ∧
    ((∃ m ∈ K.monomials, ∃ x, expOf I.names a x < m x) → alexdualAction o rnd f g t = .error) := by
  have hn : outNames o.canon I.names = I.names := by
    cases hc : o.canon with
    | false => rfl
    | true =>
      exact List.Perm.eq_of_pairwise (fun a b _ _ h h' => absurd h' (List.lt_asymm h)) (NamedIdeal.orderedNames_sorted h.ok.nodup) (hs hc) (NamedIdeal.orderedNames_perm _)
  constructor
  · intro hp
    obtain ⟨E, h1, h2, h3⟩ := alexdual_text h hK rnd g (by
      rintro b ⟨⟩
      rw [hn]
      exact hp)
    refine ⟨_, toNamed _ E, h1, prints_of h.ok h.ring g h2, ?_⟩
    have h4 : ((some a).map (expOf (outNames o.canon I.names))).getD K.maxExp = expOf I.names a := by rw [hn]; rfl
    rwa [h4] at h3
  · rintro ⟨m, hm, x, hx⟩
    obtain ⟨hN, G, hP⟩ := prepare_spec h.ok h.minimal
    have h1 := dual_core_error (o := o) rnd (runWriter g) (prepare o I) hP h.ok hK (fun v => a.getD v 0) (by
      intro h2
      have := h2 m hm x
      unfold nm at this
      rw [ofFn_point (h.wellFormed.2 a rfl), hN, hn] at this
      omega)
    unfold alexdualAction alexdualWith
    rw [rejectsSplit_false h.split, h.read]
    simp only [Bool.false_eq_true, if_false]
    rw [← h1]
    rfl

example : printed (alexdualAction exampleOpts (fun _ _ => 0) .monos .monos exampleText) = some t!"vars b, a;\n[\n b^2*a,\n b*a^3\n];\n" := by decide +kernel

example (rnd : List ℕ → ℕ → ℕ) : ∃ K, textIdeal.MinimizedOf K ∧
    ∃ s J, alexdualAction { exampleOpts with canon := true } rnd .monos .newmonos exampleText = .ok s ∧ Prints true textIdeal .newmonos s J ∧ textIdeal.DualOf K.maxExp J := by
  obtain ⟨K, _, hK, _⟩ := NamedIdeal.minimizedOf (exampleText_accepted true false).ok
  exact ⟨K, hK, C53_alexdual (exampleText_accepted true false) hK rnd .newmonos⟩

/-- The ideal `⟨b^2, ab⟩` with the variables in the order `b, a`. -/
def dualIdeal : NamedIdeal := { names := [t!"b", t!"a"], terms := [[2, 0], [1, 1]] }

/-- The same ideal and the point `b^2 a^3` as a text. -/
def dualText1 : Text := t!"vars b, a;\n[ b^2, a*b ];\nb^2*a^3\n"

/-- The same ideal and the point `b^2 a` as a text. -/
def dualText2 : Text := t!"vars b, a;\n[ b^2, a*b ];\nb^2*a\n"

theorem dualIdeal_minimized : dualIdeal.MinimizedOf dualIdeal :=
  ⟨⟨by decide, by decide⟩, rfl, by unfold NamedIdeal.Minimal; decide, fun _ => Iff.rfl, fun _ h => h⟩

theorem dualText1_accepted (canon : Bool) : AcceptedDual { exampleOpts with canon := canon } .monos dualText1 dualIdeal (some [2, 3]) :=
  ⟨by decide +kernel, exampleOpts_split, nofun, by decide⟩

theorem dualText2_accepted (canon : Bool) : AcceptedDual { exampleOpts with canon := canon } .monos dualText2 dualIdeal (some [2, 1]) :=
  ⟨by decide +kernel, exampleOpts_split, nofun, by decide⟩

theorem dualIdeal_divides {a b : ℕ} (ha : 2 ≤ a) (hb : 1 ≤ b) : ∀ m ∈ dualIdeal.monomials, ∀ x, m x ≤ expOf dualIdeal.names [a, b] x := by
  intro m hm x
  obtain ⟨t, ht, rfl⟩ := List.mem_map.1 hm
  simp only [dualIdeal, List.mem_cons, List.not_mem_nil, or_false] at ht
  unfold expOf
  generalize List.idxOf x _ = i
  rcases ht with rfl | rfl
  all_goals
    match i with
    | 0 => simp; omega
    | 1 => simp <;> omega
    | i + 2 => simp

example (rnd : List ℕ → ℕ → ℕ) (g : IOFormat) : ∃ s J, alexdualAction exampleOpts rnd .monos g dualText1 = .ok s ∧ Prints false dualIdeal g s J ∧
    dualIdeal.DualOf (expOf dualIdeal.names [2, 3]) J :=
  (C53_alexdual_point_partial (dualText1_accepted false) dualIdeal_minimized rnd g nofun).1 (dualIdeal_divides (by decide) (by decide))

example : printed (alexdualAction exampleOpts (fun _ _ => 0) .monos .monos dualText1) = some t!"vars b, a;\n[\n b^2,\n b*a^3\n];\n" := by decide +kernel

/-- C53 fails for `alexdual -canon` with a point: the exponents of the point are not brought into the order of the sorted variables. Here
every minimal generator divides the point. For one point what is printed is not the dual with respect to that point, for the other
point there is an error. -/
theorem C53_alexdual_canon_wrong :
    (∀ m ∈ dualIdeal.monomials, ∀ x, m x ≤ expOf dualIdeal.names [2, 3] x ∧ m x ≤ expOf dualIdeal.names [2, 1] x) ∧
    AcceptedDual { exampleOpts with canon := true } .monos dualText1 dualIdeal (some [2, 3]) ∧
    (∃ s J, alexdualAction { exampleOpts with canon := true } (fun _ _ => 0) .monos .monos dualText1 = .ok s ∧ readIdeal .monos s = some J ∧
      ¬ dualIdeal.DualOf (expOf dualIdeal.names [2, 3]) J) ∧
    AcceptedDual { exampleOpts with canon := true } .monos dualText2 dualIdeal (some [2, 1]) ∧
    ∀ rnd g, alexdualAction { exampleOpts with canon := true } rnd .monos g dualText2 = .error := by
  refine ⟨fun m hm x => ⟨dualIdeal_divides (by decide) (by decide) m hm x, dualIdeal_divides (by decide) (by decide) m hm x⟩, dualText1_accepted true, ?_,
    dualText2_accepted true, fun rnd g => ?_⟩
  · have h1 : printed (alexdualAction { exampleOpts with canon := true } (fun _ _ => 0) .monos .monos dualText1) =
        some t!"vars a, b;\n[\n a^2*b^2,\n b^3\n];\n" := by decide +kernel
    generalize alexdualAction _ _ _ _ _ = r at h1
    cases r with
    | ok s =>
      simp only [printed, Option.some.injEq] at h1
      subst h1
      refine ⟨_, _, rfl, (by decide +kernel : _ = some { names := [t!"a", t!"b"], terms := [[2, 2], [0, 3]] }), fun h => ?_⟩
      have h2 := (h.mem (powerOf t!"b" 2)).2 (by
        rintro ⟨t, ht, h3⟩
        simp only [dualIdeal, List.mem_cons, List.not_mem_nil, or_false] at ht h3
        rcases ht with rfl | rfl
        · have := h3 (t!"b", 2) (by simp)
          revert this
          decide
        · have := h3 (t!"b", 1) (by simp)
          revert this
          decide)
      obtain ⟨t, ht, h3⟩ := h2
      simp only [List.mem_cons, List.not_mem_nil, or_false] at ht h3
      rcases ht with rfl | rfl
      · have := h3 (t!"a", 2) (by simp)
        revert this
        decide
      · have := h3 (t!"b", 3) (by simp)
        revert this
        decide
    | error => simp [printed] at h1
    | crash => simp [printed] at h1
  · obtain ⟨hN, G, hP⟩ := prepare_spec (o := { exampleOpts with canon := true }) (dualText2_accepted true).ok (dualText2_accepted true).minimal
    have h1 := dual_core_error (o := { exampleOpts with canon := true }) rnd (runWriter g) (prepare _ dualIdeal) hP (dualText2_accepted true).ok dualIdeal_minimized
      (fun v => [2, 1].getD v 0) (by
        intro h2
        have := h2 (expOf dualIdeal.names [2, 0]) (by simp [NamedIdeal.monomials, dualIdeal]) t!"b"
        unfold nm at this
        rw [ofFn_point (by rfl), hN] at this
        revert this
        decide +kernel)
    unfold alexdualAction alexdualWith
    rw [rejectsSplit_false (dualText2_accepted true).split, (dualText2_accepted true).read]
    simp only [Bool.false_eq_true, if_false]
    rw [← h1]
    rfl

/-! ## errors -/

theorem rejectsSplit_true {o : ActionOpts} (h : createSplit o.split = none ∨ o.split = t!"degree" ∨ o.split = t!"frob") : rejectsSplit o = true := by
  unfold rejectsSplit validateSplit
  rcases h with h | h | h
  · rw [h]
    rfl
  · rw [h, createSplit_degree.1]
    rfl
  · rw [h, createSplit_degree.2]
    rfl

/-- C53: a text that is not that of an ideal, a name that is not the name of a split strategy, the name of the strategy that only
`optimize` has, and a format that has no lists end all of these actions with an error, before anything is computed. -/
theorem C53_errors {o : ActionOpts} {f g : IOFormat} {t : Text} (rnd : List ℕ → ℕ → ℕ) (b : Bool) :
    (readIdeal f t = none ∨ createSplit o.split = none ∨ o.split = t!"degree" ∨ o.split = t!"frob" → irrdecomAction o b rnd f g t = .error ∧ maxstandardAction o b rnd f g t = .error ∧
      assoprimesAction o rnd f g t = .error ∧ primdecomAction o rnd f g t = .error) ∧
    (readDualInstance f t = none ∨ createSplit o.split = none ∨ o.split = t!"degree" ∨ o.split = t!"frob" → alexdualAction o rnd f g t = .error) ∧
    (supportsList g = false → irrdecomAction o false rnd f g t = .error ∧ maxstandardAction o b rnd f g t = .error ∧
      assoprimesAction o rnd f g t = .error ∧ primdecomAction o rnd f g t = .error) := by
  have h1 : ∀ list run, readIdeal f t = none ∨ createSplit o.split = none ∨ o.split = t!"degree" ∨ o.split = t!"frob" → readAndRun o list f g t run = .error := by
    intro list run h
    unfold readAndRun
    rcases h with h | h
    · rw [h]
      split <;> rfl
    · simp [rejectsSplit_true h]
  have h2 : ∀ run, supportsList g = false → readAndRun o true f g t run = .error := by
    intro run h
    simp [readAndRun, h]
  refine ⟨fun h => ⟨h1 _ _ h, h1 _ _ h, h1 _ _ h, h1 _ _ h⟩, fun h => ?_, fun h => ⟨h2 _ h, h2 _ h, h2 _ h, h2 _ h⟩⟩
  unfold alexdualAction alexdualWith
  rcases h with h | h
  · rw [h]
    split <;> rfl
  · simp [rejectsSplit_true h]

example : printed (irrdecomAction exampleOpts true (fun _ _ => 0) .m2 .m2 exampleText) = none ∧
    printed (maxstandardAction exampleOpts true (fun _ _ => 0) .monos .singular exampleText) = none ∧
    (printed (irrdecomAction exampleOpts true (fun _ _ => 0) .monos .singular exampleText)).isSome = true := by decide +kernel

/-- An ideal that is not decomposed without a split. -/
def degreeText : Text := t!"vars a, b, c;\n[ a^2*b, b^2*c, c^2*a ];\n"

/-- The same ideal. -/
def degreeIdeal : NamedIdeal := { names := [t!"a", t!"b", t!"c"], terms := [[2, 1, 0], [0, 2, 1], [1, 0, 2]] }

theorem degreeIdeal_none_default (rnd : List ℕ → ℕ → ℕ) : msmRun { simp := true, indep := true, split := .degree } rnd
    ((prepare {} degreeIdeal).translator.addPurePowers (prepare {} degreeIdeal).ideal) = none := by
  rfl

theorem degreeIdeal_none (rnd : List ℕ → ℕ → ℕ) (name : Text) : msmRun { simp := true, indep := true, split := .degree } rnd
    ((prepare { split := name } degreeIdeal).translator.addPurePowers (prepare { split := name } degreeIdeal).ideal) = none :=
  degreeIdeal_none_default rnd

theorem degreeIdeal_lcm (name : Text) : ∃ lcm, (prepare { split := name } degreeIdeal).translator.translate (lcmOf (prepare { split := name } degreeIdeal).ideal) = some lcm :=
  ⟨_, rfl⟩

/-- C53: although `degree` and `frob` are rejected, their beginnings are not. They pass the check, and the first pivot split ends the program
with an internal error, whatever the format of the output and the random numbers are. -/
theorem C53_degree_prefix {name : Text} (h : createSplit name = some .degree) (h1 : name ≠ t!"degree") (h2 : name ≠ t!"frob") (rnd : List ℕ → ℕ → ℕ)
    (g : IOFormat) :
    irrdecomAction { split := name } true rnd .monos g degreeText = .crash ∧
    (supportsList g = true → irrdecomAction { split := name } false rnd .monos g degreeText = .crash ∧
      assoprimesAction { split := name } rnd .monos g degreeText = .crash ∧ primdecomAction { split := name } rnd .monos g degreeText = .crash) ∧
    alexdualAction { split := name } rnd .monos g degreeText = .crash := by
  have hv : validateSplit name true false = some .degree := by
    unfold validateSplit
    rw [h]
    simp [h1, h2]
  have hr : rejectsSplit { split := name } = false := by
    unfold rejectsSplit
    rw [hv]
    rfl
  have hs : ({ split := name } : ActionOpts).slice = { simp := true, indep := true, split := .degree } := by simp [ActionOpts.slice, h]
  have hR : readIdeal .monos degreeText = some degreeIdeal := by decide +kernel
  have hD : readDualInstance .monos degreeText = some (degreeIdeal, none) := by decide +kernel
  have hm := degreeIdeal_none rnd name
  refine ⟨?_, fun hg => ⟨?_, ?_, ?_⟩, ?_⟩
  · simp only [irrdecomAction, irrdecomRun, readAndRun, hr, hs, hR, hm]
    rfl
  · simp only [irrdecomAction, irrdecomRun, readAndRun, hr, hs, hR, hg, hm]
    rfl
  · simp only [assoprimesAction, assoprimesRun, readAndRun, hr, hs, hR, hg, hm]
    rfl
  · simp only [primdecomAction, primdecomRun, readAndRun, hr, hs, hR, hg, hm]
    rfl
  · obtain ⟨lcm, h3⟩ := degreeIdeal_lcm name
    simp only [alexdualAction, alexdualWith, hr, hD, Bool.false_eq_true, if_false, Option.map_none, dualText, h3, hs, hm, Option.getD_none]
    rw [if_neg (by simp)]
    rfl

example : createSplit t!"d" = some .degree ∧ createSplit t!"deg" = some .degree ∧ createSplit t!"fro" = some .degree := by decide +kernel


/-! ## the option -canon -/

theorem canonical_unique {I J : NamedIdeal} (hI : I.Ok) (hJ : J.Ok) (cI : I.Canonical) (cJ : J.Canonical) (hp : I.names.Perm J.names)
    (hm : I.monomials.Perm J.monomials) : I = J := by
  have hn : I.names = J.names := List.Perm.eq_of_pairwise (fun a b _ _ h h' => absurd h' (List.lt_asymm h)) cI.names cJ.names hp
  have ht : I.terms = J.terms := by
    refine List.Perm.eq_of_pairwise (fun a b _ _ h h' => le_antisymm h' h) cI.gens cJ.gens ?_
    rw [NamedIdeal.terms_eq hI, NamedIdeal.terms_eq hJ, hn]
    exact hm.map _
  cases I; cases J
  simp only at hn ht
  rw [hn, ht]

theorem Prints.text_unique {I I' J J' : NamedIdeal} {g : IOFormat} {s s' : Text} (h : Prints true I g s J) (h' : Prints true I' g s' J') (hI : I.names.Perm I'.names)
    (hm : J.monomials.Perm J'.monomials) : J = J' :=
  canonical_unique h.ok h'.ok (h.canonical rfl) (h'.canonical rfl) ((h.names.trans hI).trans h'.names.symm) hm

theorem encoded_isIrrDecomp {N : List Text} {I : NamedIdeal} {T : Translator n} {M G E : List (Term n)} (h : PreparedSpec I N T M G) (hI : I.Ok) (hE : I.EncodedDecom (E.map (nm N))) :
    IsIrrDecomp E G := by
  refine ⟨fun m => ?_, fun d hd => ?_, hE.nodup.of_map⟩
  · obtain ⟨m, rfl⟩ := exists_on h.length h.nodup m
    rw [← h.mem_iff hI, hE.inter]
    simp only [List.forall_mem_map, memIrr_names h.length h.nodup]
  · obtain ⟨m, h1, h2⟩ := hE.irredundant _ (List.mem_map.2 ⟨d, hd, rfl⟩)
    refine ⟨onN n N m, by rwa [← memIrr_names h.length h.nodup], fun d' hd' hne => ?_⟩
    rw [← memIrr_names h.length h.nodup]
    exact h2 _ (List.mem_map.2 ⟨d', hd', rfl⟩) fun he => hne (nm_injective h.length h.nodup he)

theorem PreparedSpec.same {N : List Text} {I I' : NamedIdeal} {T T' : Translator n} {M M' G G' : List (Term n)} (h : PreparedSpec I N T M G) (h' : PreparedSpec I' N T' M' G') (hI : I.Ok)
    (hI' : I'.Ok) (hm : ∀ m, I.mem m ↔ I'.mem m) (m : Term n) : mem G m ↔ mem G' m := by
  obtain ⟨m, rfl⟩ := exists_on h.length h.nodup m
  rw [← h.mem_iff hI, ← h'.mem_iff hI', hm]

theorem encoded_unique {N : List Text} {n n' : ℕ} {I I' : NamedIdeal} {T : Translator n} {T' : Translator n'} {M G : List (Term n)} {M' G' : List (Term n')}
    (h : PreparedSpec I N T M G) (h' : PreparedSpec I' N T' M' G') (hI : I.Ok) (hI' : I'.Ok) (hm : ∀ m, I.mem m ↔ I'.mem m) {E E' : List (Term N.length)}
    (hE : I.EncodedDecom (E.map (nm N))) (hE' : I'.EncodedDecom (E'.map (nm N))) : E.Perm E' := by
  obtain rfl := h.length
  obtain rfl := h'.length
  exact irrDecomp_unique (encoded_isIrrDecomp h hI hE) (encoded_isIrrDecomp h' hI' hE') (h.same h' hI hI' hm)

theorem toNamed_inj {N N' : List Text} {E : List (Term N.length)} {E' : List (Term N'.length)} (h : toNamed N E = toNamed N' E') (g : IOFormat) :
    runWriter g N (bigList (E.map irrGens)) = runWriter g N' (bigList (E'.map irrGens)) := by
  have h1 : N = N' := congrArg NamedIdeal.names h
  subst h1
  have h2 : E.map (fun t => List.ofFn t) = E'.map fun t => List.ofFn t := congrArg NamedIdeal.terms h
  rw [List.map_injective_iff.2 List.ofFn_injective h2]

/-- Two inputs in the same ring, for the same ideal and with `-canon`. -/
structure SameInput (o o' : ActionOpts) (f f' : IOFormat) (t t' : Text) (I I' : NamedIdeal) : Prop where
  left : Accepted o f t I
  right : Accepted o' f' t' I'
  canon : o.canon = true
  canon' : o'.canon = true
  names : I.names.Perm I'.names
  mem : ∀ m, I.mem m ↔ I'.mem m

theorem SameInput.outNames {o o' : ActionOpts} {f f' : IOFormat} {t t' : Text} {I I' : NamedIdeal} (h : SameInput o o' f f' t t' I I') :
    Frobby.outNames o.canon I.names = Frobby.outNames o'.canon I'.names := by
  rw [h.canon, h.canon']
  exact NamedIdeal.orderedNames_congr h.names

theorem toNamed_eq {o o' : ActionOpts} {f f' : IOFormat} {t t' : Text} {I I' : NamedIdeal} (h : SameInput o o' f f' t t' I I')
    {E : List (Term (outNames o.canon I.names).length)} {E' : List (Term (outNames o'.canon I'.names).length)} (hE : SortedIf o.canon (outNames o.canon I.names) E)
    (hE' : SortedIf o'.canon (outNames o'.canon I'.names) E') (hp : (E.map (nm (outNames o.canon I.names))).Perm (E'.map (nm (outNames o'.canon I'.names)))) :
    toNamed (outNames o.canon I.names) E = toNamed (outNames o'.canon I'.names) E' := by
  have p1 := prints_of h.left.ok h.left.ring .m2 hE
  have p2 := prints_of h.right.ok h.right.ring .m2 hE'
  refine canonical_unique p1.ok p2.ok (p1.canonical h.canon) (p2.canonical h.canon') ((p1.names.trans h.names).trans p2.names.symm) ?_
  rwa [toNamed_monomials, toNamed_monomials]

theorem primdecom_unique {N N' : List Text} (hN : N = N') {n n' : ℕ} {I I' : NamedIdeal} {T : Translator n} {T' : Translator n'} {M G E : List (Term n)}
    {M' G' E' : List (Term n')} {C : List (Term n) → List (Term n)} {C' : List (Term n') → List (Term n')}
    (h : PreparedSpec I N T M G) (h' : PreparedSpec I' N' T' M' G') (hI : I.Ok) (hI' : I'.Ok) (hm : ∀ m, I.mem m ↔ I'.mem m) (hR : RunsSpec G E C) (hR' : RunsSpec G' E' C')
    (g : IOFormat) : runWriter g N (bigList (vecSortList ((supportRuns E).map C))) = runWriter g N' (bigList (vecSortList ((supportRuns E').map C'))) := by
  subst hN
  obtain rfl := h.length
  obtain rfl := h'.length
  have h1 : E = E' := sorted_unique (irrDecomp_unique hR.irr hR'.irr (h.same h' hI hI' hm)) hR.sorted hR'.sorted
  subst h1
  congr 2
  unfold vecSortList
  rw [← List.map_reverse, ← List.map_reverse, List.map_map, List.map_map]
  congr 2
  refine List.map_congr_left fun r hr => ?_
  have hr' := List.mem_reverse.1 hr
  show vecSort (C r) = vecSort (C' r)
  rw [vecSort_eq, vecSort_eq]
  exact sortReverseLex_eq_of_perm (anti_unique_perm (hR.anti r hr') (hR'.anti r hr') fun m => by rw [hR.mem r hr', hR'.mem r hr'])

/-- C53: with `-canon` the text that is printed depends on nothing but the ring and the ideal: the format and the order of the input, its
redundant generators, the choices of the slice algorithm and what is known about the generators make no difference. -/
theorem C53_canonical {o o' : ActionOpts} {f f' : IOFormat} {t t' : Text} {I I' : NamedIdeal} (h : SameInput o o' f f' t t' I I') (rnd rnd' : List ℕ → ℕ → ℕ) (b : Bool)
    (g : IOFormat) :
    irrdecomAction o b rnd f g t = irrdecomAction o' b rnd' f' g t' ∧ maxstandardAction o b rnd f g t = maxstandardAction o' b rnd' f' g t' ∧
    assoprimesAction o rnd f g t = assoprimesAction o' rnd' f' g t' ∧ alexdualAction o rnd f g t = alexdualAction o' rnd' f' g t' ∧
    primdecomAction o rnd f g t = primdecomAction o' rnd' f' g t' := by
  have hN := h.outNames
  have hirr : ∀ (_ : b = false → supportsList g = true), irrdecomAction o b rnd f g t = irrdecomAction o' b rnd' f' g t' := by
    intro hg
    obtain ⟨E, h1, h2, h3⟩ := irrdecom_text h.left b rnd hg
    obtain ⟨E', h1', h2', h3'⟩ := irrdecom_text h.right b rnd' hg
    obtain ⟨k, G, hP⟩ := prepare_spec h.left.ok h.left.minimal
    obtain ⟨k', G', hP'⟩ := prepare_spec h.right.ok h.right.minimal
    rw [k] at hP
    rw [k'] at hP'
    have key : ∀ {N N' : List Text} (_ : N = N') {E : List (Term N.length)} {E' : List (Term N'.length)} {T T' M M'}, PreparedSpec I N T M G → PreparedSpec I' N' T' M' G' →
        I.EncodedDecom (E.map (nm N)) → I'.EncodedDecom (E'.map (nm N')) → (E.map (nm N)).Perm (E'.map (nm N')) := by
      rintro N _ rfl E E' T T' M M' hP hP' h3 h3'
      exact (encoded_unique hP hP' h.left.ok h.right.ok h.mem h3 h3').map _
    have h4 := toNamed_eq h h2 h2' (key hN hP hP' h3 h3')
    rw [h1, h1', h4, toNamed_inj h4]
  have hmsm : supportsList g = true → maxstandardAction o b rnd f g t = maxstandardAction o' b rnd' f' g t' := by
    intro hg
    obtain ⟨E, h1, h2, h3, h4⟩ := maxstandard_text h.left b rnd hg
    obtain ⟨E', h1', h2', h3', h4'⟩ := maxstandard_text h.right b rnd' hg
    have hM : ∀ m, I.MaxStandard m ↔ I'.MaxStandard m := fun m =>
      ⟨fun hm => ⟨fun x hx => hm.outside x fun hx' => hx (h.names.mem_iff.1 hx'), fun hm' => hm.standard ((h.mem _).2 hm'),
        fun x hx => (h.mem _).1 (hm.maximal x (h.names.mem_iff.2 hx))⟩,
       fun hm => ⟨fun x hx => hm.outside x fun hx' => hx (h.names.mem_iff.2 hx'), fun hm' => hm.standard ((h.mem _).1 hm'),
        fun x hx => (h.mem _).2 (hm.maximal x (h.names.mem_iff.1 hx))⟩⟩
    rw [h1, h1', toNamed_eq h h2 h2' ((List.perm_ext_iff_of_nodup h3 h3').2 fun p => by
      rw [h4, h4']
      simp only [hM, h.names.mem_iff])]
  have hass : supportsList g = true → assoprimesAction o rnd f g t = assoprimesAction o' rnd' f' g t' := by
    intro hg
    obtain ⟨E, h1, h2, h3, h4⟩ := assoprimes_text h.left rnd hg
    obtain ⟨E', h1', h2', h3', h4'⟩ := assoprimes_text h.right rnd' hg
    have hM : ∀ p, I.AssocPrime p ↔ I'.AssocPrime p := fun p =>
      ⟨fun ⟨a, b, m, c⟩ => ⟨fun x hx => a x fun hx' => hx (h.names.mem_iff.1 hx'), b, m, fun y => by rw [← h.mem, c]⟩,
       fun ⟨a, b, m, c⟩ => ⟨fun x hx => a x fun hx' => hx (h.names.mem_iff.2 hx'), b, m, fun y => by rw [h.mem, c]⟩⟩
    rw [h1, h1', toNamed_eq h h2 h2' ((List.perm_ext_iff_of_nodup h3 h3').2 fun p => by rw [h4, h4', hM])]
  have hprim : supportsList g = true → primdecomAction o rnd f g t = primdecomAction o' rnd' f' g t' := by
    intro hg
    obtain ⟨G, E, C, hP, hR, h1⟩ := primdecom_text h.left rnd hg
    obtain ⟨G', E', C', hP', hR', h1'⟩ := primdecom_text h.right rnd' hg
    rw [h1, h1']
    rw [h.canon, h.canon'] at hN ⊢
    rw [h.canon] at hP
    rw [h.canon'] at hP'
    rw [if_pos rfl, if_pos rfl, primdecom_unique hN hP hP' h.left.ok h.right.ok h.mem hR hR' g]
  have herr := (C53_errors (o := o) (f := f) (g := g) (t := t) rnd b).2.2
  have herr' := (C53_errors (o := o') (f := f') (g := g) (t := t') rnd' b).2.2
  have hdual : alexdualAction o rnd f g t = alexdualAction o' rnd' f' g t' := by
    obtain ⟨K, _, hK, _⟩ := NamedIdeal.minimizedOf h.left.ok
    obtain ⟨K', _, hK', _⟩ := NamedIdeal.minimizedOf h.right.ok
    have d : AcceptedDual o f t I none := ⟨C53_dual_input_ideal h.left.read, h.left.split, h.left.minimal, h.left.varCount⟩
    have d' : AcceptedDual o' f' t' I' none := ⟨C53_dual_input_ideal h.right.read, h.right.split, h.right.minimal, h.right.varCount⟩
    obtain ⟨E, h1, h2, h3⟩ := alexdual_text d hK rnd g nofun
    obtain ⟨E', h1', h2', h3'⟩ := alexdual_text d' hK' rnd' g nofun
    have hKK := NamedIdeal.SameSet.same hK.ok hK'.ok hK.minimal hK'.minimal ⟨by rw [hK.names, hK'.names]; exact h.names, fun m => by rw [hK.mem, hK'.mem, h.mem]⟩
    have hmax : K.maxExp = K'.maxExp := funext fun x => NamedIdeal.foldr_max_perm (hKK.2.map _)
    have hS := NamedIdeal.SameSet.same h3.ok h3'.ok h3.minimal h3'.minimal ⟨(h3.names.trans h.names).trans h3'.names.symm, fun m => by
      rw [h3.mem, h3'.mem, h.mem]
      simp only [Option.map_none, Option.getD_none, hmax]⟩
    have hm := hS.2
    rw [toNamed_monomials, toNamed_monomials] at hm
    rw [h1, h1', toNamed_eq h h2 h2' hm]
  cases hg : supportsList g with
  | true => exact ⟨hirr fun _ => hg, hmsm hg, hass hg, hdual, hprim hg⟩
  | false =>
    obtain ⟨e1, e2, e3, e4⟩ := herr hg
    obtain ⟨e1', e2', e3', e4'⟩ := herr' hg
    refine ⟨?_, by rw [e2, e2'], by rw [e3, e3'], hdual, by rw [e4, e4']⟩
    cases b with
    | true => exact hirr fun hb => nomatch hb
    | false => rw [e1, e1']

/-- The ideal of `textIdeal` in another order and with a redundant generator. -/
def otherIdeal : NamedIdeal := { names := [t!"a", t!"b"], terms := [[3, 0], [1, 1], [3, 2], [0, 2]] }

/-- The same ideal as a text. -/
def otherText : Text := t!"R = QQ[a, b];\nI = monomialIdeal(a^3, a*b, a^3*b^2, b^2);\n"

theorem otherText_accepted : Accepted { split := t!"maxl", simplify := false, independence := false, canon := true } .m2 otherText otherIdeal :=
  ⟨by decide +kernel, ⟨.maxlabel, by decide +kernel, by decide⟩, nofun, by decide⟩

theorem example_same : SameInput { exampleOpts with canon := true } { split := t!"maxl", simplify := false, independence := false, canon := true } .monos .m2 exampleText otherText
    textIdeal otherIdeal :=
  ⟨exampleText_accepted true false, otherText_accepted, rfl, rfl, by decide, fun m => by
    simp only [NamedIdeal.mem, textIdeal, otherIdeal, List.mem_cons, List.not_mem_nil, or_false, exists_eq_or_imp, exists_eq_left, List.zip_cons_cons, List.zip_nil_right,
      forall_eq_or_imp, forall_eq]
    generalize m ['a'] = a
    generalize m ['b'] = b
    omega⟩

example (rnd rnd' : List ℕ → ℕ → ℕ) (g : IOFormat) : maxstandardAction { exampleOpts with canon := true } false rnd .monos g exampleText =
    maxstandardAction { split := t!"maxl", simplify := false, independence := false, canon := true } false rnd' .m2 g otherText :=
  (C53_canonical example_same rnd rnd' false g).2.1

end Frobby
