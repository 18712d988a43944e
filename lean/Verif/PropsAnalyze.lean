import Verif.AnalyzeLemmas

/-!
# C51: the action `analyze`

What should be printed is defined in `AnalyzeSpec`.
-/

namespace Frobby

open NamedIdeal

theorem yesNo_answer {b : Bool} {p : Prop} (h : b = true ↔ p) : Answer (yesNo b) p := by
  constructor
  · intro hp; rw [h.2 hp]; rfl
  · intro hp
    cases b
    · rfl
    · exact absurd (h.1 rfl) hp

theorem lcmIs {I : NamedIdeal} (hI : I.Ok) : I.LcmIs I.lcm := by
  refine ⟨lcm_length hI, fun m => ?_⟩
  rw [lcm_eq hI]
  constructor
  · intro h f hf x
    by_cases hx : x ∈ I.names
    · have := h x
      rw [expOf_map, if_pos hx] at this
      exact (le_maxExp hf x).trans this
    · rw [monomials_zero hI hf hx]; omega
  · intro h x
    rw [expOf_map]
    split
    · refine foldr_max_le fun a ha => ?_
      obtain ⟨f, hf, rfl⟩ := List.mem_map.1 ha
      exact h f hf x
    · omega

theorem largestIs {I : NamedIdeal} (hI : I.Ok) : I.LargestIs (I.lcm.foldr max 0) := by
  rw [lcm_eq hI]
  constructor
  · intro f hf x
    by_cases hx : x ∈ I.names
    · exact (le_maxExp hf x).trans (le_foldr_max _ (List.mem_map.2 ⟨x, hx, rfl⟩))
    · rw [monomials_zero hI hf hx]; omega
  · rcases foldr_max_mem (I.names.map I.maxExp) with h | h
    · exact Or.inl h
    · obtain ⟨x, hx, he⟩ := List.mem_map.1 h
      rw [← he]
      rcases foldr_max_mem (I.monomials.map fun f => f x) with h | h
      · exact Or.inl h
      · obtain ⟨f, hf, he⟩ := List.mem_map.1 h
        exact Or.inr ⟨f, hf, x, hx, he⟩

/-- C51: `IdealFacade::printAnalysis` prints the right answers for every ideal. -/
theorem C51_printAnalysis {I : NamedIdeal} (hI : I.Ok) : I.SummaryIs (printAnalysis I) := by
  have hs : IdSpec (tExp I.gens) (tNum I.gens) I.gens (minimize ((Translator.ofGens I.gens).shrinkIdeal I.gens)) := setIdeal_spec I.gens
  obtain ⟨J, h1, h2, h3⟩ := minimizedOf hI
  obtain ⟨J', h1', _, _, _, _, hsub, _⟩ := facadeMinimize_ok hI
  cases h1.symm.trans h1'
  have hlen := minimize_terms_length h1
  have hl : ((Translator.ofGens I.gens).shrinkIdeal I.gens).length = I.terms.length := by simp [Translator.shrinkIdeal, gens]
  refine ⟨_, _, _, yesNo_answer (b := decide ((minimize ((Translator.ofGens I.gens).shrinkIdeal I.gens)).length =
    ((Translator.ofGens I.gens).shrinkIdeal I.gens).length)) ?_, yesNo_answer ((strongly_iff hs).trans (stronglyGeneric_gens hI)),
    yesNo_answer ((weakly_iff hs (isStronglyGeneric_spec _).1).trans (weaklyGeneric_gens hI)), ?_⟩
  · rw [decide_eq_true_iff, ← minimal_iff_length hI h2 hsub, hlen, hl, eq_comm]
  · unfold printAnalysis
    simp only [hl, List.append_assoc]
    rfl

/-- The second ideal is weakly but not strongly generic. -/
example : printAnalysis { names := [t!"a", t!"b", t!"c"], terms := [[2, 1, 0], [0, 1, 3], [2, 0, 1], [2, 0, 2]] } =
    t!"generators: 4\nvariables:  3\nminimally generated: no\nstrongly generic: no\nweakly generic: no\n" ∧
    printAnalysis { names := [t!"a", t!"b", t!"c"], terms := [[2, 2, 0], [0, 2, 3], [1, 1, 1]] } =
    t!"generators: 3\nvariables:  3\nminimally generated: yes\nstrongly generic: no\nweakly generic: yes\n" := by decide +kernel

/-- C51, for all options: what is printed is right for the ideal that is read, but the summary of level 2 is about the minimal
generators if `-minimal` is given. The action does not fail once the ideal is read. -/
theorem C51_analyze (o : AnalyzeOpts) {f g : IOFormat} {t : Text} {I : NamedIdeal} (h : readIdeal f t = some I) :
    ∃ J u out, analyzeText o f g t = .ok out ∧ I.AnalysisIs o g u out ∧ J.SummaryIs u ∧
      (o.minimal = false → J = I) ∧ (o.minimal = true → I.MinimizedOf J) := by
  have hI : I.Ok := ⟨(C44_well_formed h).2.1, (C44_well_formed h).2.2⟩
  obtain ⟨K, k1, k2, _⟩ := minimizedOf hI
  obtain ⟨K', k1', _, _, _, _, hsub, _⟩ := facadeMinimize_ok hI
  cases k1.symm.trans k1'
  have hmin := minimal_iff_length hI k2 hsub
  have hstream : analyzeStreaming o (writeTermIn g) I.names (analyzeConsumer I) =
      (if o.lcm then writeTermIn g I.names I.lcm ++ t!"\n" else []) ++ (if o.varCount then decimal I.names.length ++ t!"\n" else []) ++
      (if o.genCount then decimal I.terms.length ++ t!"\n" else []) ++ (if o.maxExp then decimal (I.lcm.foldr max 0) ++ t!"\n" else []) ++
      (if o.summaryLevel = 1 then decimal I.terms.length ++ t!" generators\n" ++ decimal I.names.length ++ t!" variables\n" else []) := by
    have hm : (match I.lcm with | [] => t!"0\n" | e :: es => decimal (maxElement e es) ++ t!"\n") = decimal (I.lcm.foldr max 0) ++ t!"\n" := by
      cases I.lcm with
      | nil => decide
      | cons e es => simp only [maxElement_eq, List.foldr_cons]
    rw [analyzeConsumer_eq, analyzeStreaming, ← hm]
    rfl
  cases hm : o.minimal with
  | false =>
    refine ⟨I, printAnalysis I, analyzeStreaming o (writeTermIn g) I.names (analyzeConsumer I) ++ if 2 ≤ o.summaryLevel then printAnalysis I else [], ?_,
      ⟨I.lcm, _, if I.terms.length = K.terms.length then t!"1\n" else t!"0\n", lcmIs hI, largestIs hI, ⟨fun q => if_pos (hmin.2 q), fun q => if_neg fun e => q (hmin.1 e)⟩, ?_⟩,
      C51_printAnalysis hI, fun _ => rfl, fun q => by cases q⟩
    · rw [analyzeText, h]
      simp only [analyzeRun, hm, Bool.false_or, analyzeIdeal, decide_eq_true_eq]
      by_cases hl : 1 < o.summaryLevel
      · simp only [if_pos hl, if_pos (show 2 ≤ o.summaryLevel from hl), Bool.false_eq_true, if_false, Option.map_some, ge_iff_le, List.nil_append]
      · simp only [if_neg hl, if_neg (show ¬ 2 ≤ o.summaryLevel from hl), List.append_nil]
    · rw [hstream]
      simp only [hm, Bool.false_eq_true, if_false, List.append_nil]
  | true =>
    refine ⟨K, printAnalysis K, analyzeStreaming o (writeTermIn g) I.names (analyzeConsumer I) ++ ((if I.terms.length = K.terms.length then t!"1\n" else t!"0\n") ++
      if 2 ≤ o.summaryLevel then printAnalysis K else []), ?_,
      ⟨I.lcm, _, if I.terms.length = K.terms.length then t!"1\n" else t!"0\n", lcmIs hI, largestIs hI, ⟨fun q => if_pos (hmin.2 q), fun q => if_neg fun e => q (hmin.1 e)⟩, ?_⟩,
      C51_printAnalysis k2.ok, fun q => (by cases q), fun _ => k2⟩
    · rw [analyzeText, h]
      simp only [analyzeRun, hm, Bool.true_or, if_true, analyzeIdeal, k1, Option.map_some, ge_iff_le]
    · rw [hstream]
      simp only [hm, if_true, List.append_assoc]

/-- C51: what is printed is right. Missing: `-minimal` together with the summary of level 2, where it is false
(`C51_minimal_summary`). -/
theorem C51_analyze_partial (o : AnalyzeOpts) (ho : ¬ (o.minimal = true ∧ 2 ≤ o.summaryLevel)) {f g : IOFormat} {t : Text} {I : NamedIdeal}
    (h : readIdeal f t = some I) : ∃ u out, analyzeText o f g t = .ok out ∧ I.AnalysisIs o g u out ∧ I.SummaryIs u := by
  obtain ⟨J, u, out, h1, h2, h3, h4, _⟩ := C51_analyze o (g := g) h
  cases hm : o.minimal with
  | false =>
    rw [h4 hm] at h3
    exact ⟨u, out, h1, h2, h3⟩
  | true =>
    have hs : ¬ 2 ≤ o.summaryLevel := fun q => ho ⟨hm, q⟩
    obtain ⟨l, e, m, a, b, c, d⟩ := h2
    refine ⟨printAnalysis I, out, h1, ⟨l, e, m, a, b, c, ?_⟩, C51_printAnalysis ⟨(C44_well_formed h).2.1, (C44_well_formed h).2.2⟩⟩
    rw [if_neg hs] at d ⊢
    exact d

example : ∃ u out, analyzeText { lcm := true, maxExp := true, summaryLevel := 2 } .monos .m2 t!"vars a,b,c;[a^2*b,b*c^3,a*c];" = .ok out ∧
    NamedIdeal.AnalysisIs { lcm := true, maxExp := true, summaryLevel := 2 } .m2
      { names := [t!"a", t!"b", t!"c"], terms := [[2, 1, 0], [0, 1, 3], [1, 0, 1]] } u out := by
  obtain ⟨u, out, h1, h2, _⟩ := C51_analyze_partial { lcm := true, maxExp := true, summaryLevel := 2 } (by simp) (f := .monos) (g := .m2)
    (t := t!"vars a,b,c;[a^2*b,b*c^3,a*c];") (I := { names := [t!"a", t!"b", t!"c"], terms := [[2, 1, 0], [0, 1, 3], [1, 0, 1]] }) (by decide +kernel)
  exact ⟨u, out, h1, h2⟩

example : analyzeText { lcm := true, varCount := true, genCount := true, maxExp := true } .monos .m2 t!"vars a,b,c;[a^2*b,b*c^3,a*c];" =
    .ok t!"a^2*b*c^3\n3\n3\n3\n3 generators\n3 variables\n" := by decide +kernel

/-- C51: an input that cannot be read is an error. -/
theorem C51_error (o : AnalyzeOpts) (f g : IOFormat) (t : Text) : analyzeText o f g t = .error ↔ readIdeal f t = none := by
  constructor
  · intro h
    cases hr : readIdeal f t with
    | none => rfl
    | some I =>
      obtain ⟨_, _, _, h1, _⟩ := C51_analyze o (g := g) hr
      rw [h1] at h
      cases h
  · intro h
    rw [analyzeText, h]

example : analyzeText {} .monos .monos t!"vars a;[b];" = .error := (C51_error {} .monos .monos t!"vars a;[b];").2 (by decide +kernel)

/-- C51: `-minimal` prints only whether the ideal is minimally generated. -/
theorem C51_minimal {f g : IOFormat} {t : Text} {I : NamedIdeal} (h : readIdeal f t = some I) :
    (analyzeText { minimal := true, summaryLevel := 0 } f g t = .ok t!"1\n" ↔ I.Minimal) ∧
      (analyzeText { minimal := true, summaryLevel := 0 } f g t = .ok t!"0\n" ↔ ¬ I.Minimal) := by
  obtain ⟨u, out, h1, ⟨l, e, m, _, _, ⟨h2, h3⟩, h4⟩, _⟩ := C51_analyze_partial { minimal := true, summaryLevel := 0 } (by simp) (g := g) h
  have h5 : out = m := by simpa using h4
  subst h5
  rw [h1]
  by_cases hm : I.Minimal
  · rw [h2 hm]
    exact ⟨⟨fun _ => hm, fun _ => rfl⟩, ⟨fun q => by simp at q, fun q => absurd hm q⟩⟩
  · rw [h3 hm]
    exact ⟨⟨fun q => by simp at q, fun q => absurd q hm⟩, ⟨fun _ => hm, fun _ => rfl⟩⟩

example : analyzeText { minimal := true, summaryLevel := 0 } .monos .monos t!"vars a,b;[a,b^2];" = .ok t!"1\n" :=
  (C51_minimal (I := { names := [t!"a", t!"b"], terms := [[1, 0], [0, 2]] }) (by decide +kernel)).1.2 (by
    simp [NamedIdeal.Minimal])

/-- C51: after `-deform` of the action `transform`, an ideal is strongly and weakly generic. -/
theorem C51_deform {I J : NamedIdeal} (h : I.DeformationOf J) : StronglyGeneric J.monomials ∧ WeaklyGeneric J.monomials := by
  have key : StronglyGeneric J.monomials := by
    intro f g hf hg hne x hx
    by_cases hn : x ∈ J.names
    · obtain ⟨v, hv, rfl⟩ := exists_getD_of_mem hn
      obtain ⟨a, ha, rfl⟩ := List.mem_map.1 hf.1
      obtain ⟨b, hb, rfl⟩ := List.mem_map.1 hg.1
      obtain ⟨i, hi, rfl⟩ := List.mem_iff_getElem.1 ha
      obtain ⟨j, hj, rfl⟩ := List.mem_iff_getElem.1 hb
      rw [expOf_getD h.ok.nodup _ hv, expOf_getD h.ok.nodup _ hv] at hx
      rw [expOf_getD h.ok.nodup _ hv]
      have := h.generic v (by rw [← h.names]; exact hv) i (by rw [← h.length]; exact hi) j (by rw [← h.length]; exact hj)
        (fun q => hne (by subst q; rfl))
      unfold entry at this
      rw [List.getD_eq_getElem _ _ hi, List.getD_eq_getElem _ _ hj] at this
      exact this hx
    · exact monomials_zero h.ok hf.1 hn
  exact ⟨key, fun f g hf hg hne ⟨x, h1, h2⟩ => absurd (key f g hf hg hne x h1) h2⟩

example : StronglyGeneric (NamedIdeal.facadeDeform { names := [t!"b", t!"a"], terms := [[2, 0], [1, 1], [2, 5]] }).monomials :=
  (C51_deform (deformationOf ⟨by decide, by decide⟩)).1

/-- C51 does not hold with `-minimal` and the summary of level 2: the summary is that of another ideal. Here `0` says that the ideal is
not minimally generated, and the summary says that it is, and that it has 1 generator, where it has 2. -/
theorem C51_minimal_summary : ∃ I out, readIdeal .monos t!"vars a;[a,a^2];" = some I ∧ I.terms = [[1], [2]] ∧
    analyzeText { minimal := true, summaryLevel := 2 } .monos .monos t!"vars a;[a,a^2];" = .ok out ∧
    out = t!"0\ngenerators: 1\nvariables:  1\nminimally generated: yes\nstrongly generic: yes\nweakly generic: yes\n" ∧
    ¬ ∃ u, I.SummaryIs u ∧ I.AnalysisIs { minimal := true, summaryLevel := 2 } .monos u out := by
  refine ⟨{ names := [t!"a"], terms := [[1], [2]] }, _, by decide +kernel, rfl, by decide +kernel, rfl, ?_⟩
  rintro ⟨u, ⟨a, b, c, _, _, _, rfl⟩, l, e, m, _, _, ⟨h1, h2⟩, h3⟩
  have hd : decimal (List.length [[1], [2]]) = t!"2" := by decide +kernel
  simp only [hd] at h3
  by_cases hm : NamedIdeal.Minimal { names := [t!"a"], terms := [[1], [2]] }
  · rw [h1 hm] at h3; simp at h3
  · rw [h2 hm] at h3; simp at h3

end Frobby
