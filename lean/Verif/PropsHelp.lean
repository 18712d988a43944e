import Verif.HelpSpec
import Verif.PropsDisplay
import Verif.PropsMain

/-!
# C69: what the action `help` prints
-/

namespace Frobby

/-! ## the options of an action -/

instance : Fintype ActionKind where
  elems := ⟨actionFactory.map Prod.snd, by decide +kernel⟩
  complete k := by cases k <;> decide +kernel

theorem describes_all : ∀ k : ActionKind, ∀ p ∈ obtainParameters k, p.value.process [valueText p.value] = some p.value ∧ (valueText p.value).head? ≠ some '-' := by
  intro k
  cases k <;> decide +kernel

theorem sorted_all : ∀ k : ActionKind, ((sortParams (obtainParameters k)).map fun p => p.name.map Char.toNat).Pairwise (· < ·) := by
  intro k
  cases k <;> decide +kernel

theorem perm_all : ∀ k : ActionKind, k ≠ .help → k ≠ .test → (obtainParameters k).Perm k.params := by
  intro k
  cases k <;> decide +kernel

/-- C69: **`help` lists the options that the action accepts, each once, in the order of their names, with the kind of its argument and a text that, given as the
argument, sets the option to its default.** The descriptions are printed as C68 has it. -/
theorem C69_action (d : Descriptions) {k : ActionKind} (h1 : k ≠ .help) (h2 : k ≠ .test) :
    ∃ name, (name, k) ∈ actionFactory ∧ ∃ es : List (Param × Text × Text), (es.map Prod.fst).Perm k.params ∧ InOrder (es.map fun e => e.1.name) ∧
      (∀ e ∈ es, Describes e.1.value e.2.1 e.2.2) ∧
      actionHelp d k = display (t!"Displaying information on action: " ++ name ++ t!"\n\n" ++ d.action k ++ t!"\n") [] ++
        t!"\nThe parameters accepted by " ++ name ++ t!" are as follows.\n" ++ es.flatMap fun e =>
          t!"\n -" ++ e.1.name ++ t!" " ++ e.2.1 ++ t!"   (default is " ++ e.2.2 ++ t!")\n" ++ display (d.param k e.1.name) t!"   " := by
  refine ⟨actionName k, by cases k <;> decide +kernel, (sortParams (obtainParameters k)).map fun p => (p, argumentType p.value, valueText p.value), ?_, ?_, ?_, ?_⟩
  · rw [List.map_map]
    have : (sortParams (obtainParameters k)).Perm k.params := (List.perm_insertionSort _ _).trans (perm_all k h1 h2)
    simpa [Function.comp_def] using this
  · have := sorted_all k
    unfold InOrder
    rw [List.map_map, List.map_map]
    exact this
  · intro e he
    obtain ⟨p, hp, rfl⟩ := List.mem_map.1 he
    have hp' : p ∈ obtainParameters k := (List.perm_insertionSort _ _).mem_iff.1 hp
    obtain ⟨h3, h4⟩ := describes_all k p hp'
    refine ⟨?_, (process_iff ..).1 h3, h4⟩
    cases p.value with
    | bool b => exact .inl ⟨rfl, b, rfl⟩
    | int n => exact .inr (.inl ⟨rfl, n, rfl⟩)
    | str s => exact .inr (.inr ⟨rfl, s, rfl⟩)
  · have : obtainParameters k ≠ [] := by cases k <;> first | exact absurd rfl h1 | exact absurd rfl h2 | decide
    unfold actionHelp
    rw [if_neg this, List.flatMap_map]
    simp only [List.append_assoc]

/-- C69: **giving listed options with the defaults that are printed is the same as giving no options.** -/
theorem C69_defaults (k : ActionKind) (ps : List Param) (h : ∀ p ∈ ps, p ∈ obtainParameters k) (env : MainEnv) (t : Text) (hk : k ≠ .help) :
    frobbyMain env (actionName k :: ps.flatMap fun p => [('-' :: p.name), valueText p.value]) t = frobbyMain env [actionName k] t := by
  have hsub : ∀ p ∈ obtainParameters k, p ∈ k.params := by
    intro p hp
    by_cases h2 : k = .test
    · subst h2; simp [obtainParameters] at hp
    · exact (perm_all k hk h2).mem_iff.1 hp
  have hP : parseCommandLine k.params (ps.flatMap fun p => [('-' :: p.name), valueText p.value]) = .ok k.params := by
    have hline : ∀ ps : List Param, (∀ p ∈ ps, p ∈ obtainParameters k) →
        Accepts k.params (ps.flatMap fun p => [('-' :: p.name), valueText p.value]) (ps.map fun p => (p.name, [valueText p.value])) := by
      intro ps
      induction ps with
      | nil => exact fun _ => ⟨.nil, by simp⟩
      | cons p ps ih =>
        intro h
        obtain ⟨h3, h4⟩ := ih fun q hq => h q (List.mem_cons_of_mem _ hq)
        have hp := h p List.mem_cons_self
        obtain ⟨h5, h6⟩ := describes_all k p hp
        have hm : p.name ∈ k.params.map Param.name := List.mem_map.2 ⟨p, hsub p hp, rfl⟩
        refine ⟨.cons (args := [valueText p.value]) ⟨hm, .inl rfl⟩ (by simpa using h6) h3, ?_⟩
        intro o ho q hq hqo
        rcases List.mem_cons.1 ho with rfl | ho
        · have : q = p := List.inj_on_of_nodup_map (C61_names k) hq (hsub p hp) hqo
          subst this
          exact ⟨_, (process_iff ..).1 h5⟩
        · exact h4 o ho q hq hqo
    obtain ⟨P, h1, h2⟩ := C61_accept (C61_names k) (hline ps h)
    rw [h1]
    congr 1
    have key : ∀ p ∈ k.params, ∀ v, HasValue (ps.map fun p => (p.name, [valueText p.value])) p v → v = p.value := by
      intro p hp v hv
      unfold HasValue at hv
      split at hv
      · exact hv
      · next o ho =>
        have ho' := List.mem_of_getLast? ho
        simp only [List.mem_filter, List.mem_map, decide_eq_true_eq] at ho'
        obtain ⟨⟨q, hq, rfl⟩, hn⟩ := ho'
        have : q = p := List.inj_on_of_nodup_map (C61_names k) (hsub q (h q hq)) hp hn
        subst this
        exact hv.unique ((process_iff ..).1 (describes_all k q (h q hq)).1)
    generalize k.params = Q at h2 key
    clear h1
    induction h2 with
    | nil => rfl
    | @cons a b Q P hab _ ih =>
      rw [ih fun p hp => key p (List.mem_cons_of_mem _ hp)]
      congr 1
      have := key a List.mem_cons_self b.value hab.2
      cases a; cases b; simp_all
  have hc : ∀ toks, createAction (actionName k :: toks) = some (k, toks) := by
    intro toks
    refine (C61_action _ _ _ _).2 ⟨rfl, actionName k, ⟨?_, .inl rfl⟩, ?_⟩ <;> cases k <;> decide +kernel
  have hP0 : parseCommandLine k.params [] = .ok k.params := rfl
  unfold frobbyMain
  rw [hc, hc]
  simp only
  rw [parseAction_eq hk, parseAction_eq hk, hP, hP0]
  simp only [if_neg hk]

/-- C69: **`help` and `test` accept `-time`, but `help` does not say so.** -/
theorem C69_time_witness (d : Descriptions) : (parseAction .test [t!"-time"] = .ok [⟨t!"time", .bool true⟩]) ∧
    actionHelp d .test = display (t!"Displaying information on action: test\n\n" ++ d.action .test ++ t!"\n") [] := by
  refine ⟨by decide +kernel, ?_⟩
  unfold actionHelp
  rw [if_pos (show obtainParameters .test = [] from rfl), List.append_nil]
  rfl

/-! ## the list of the actions -/

/-- C69: **without a topic `help` lists all actions but `frobgrob`, `latanal`, `test` and itself, in the order of their names and each on a line of its own.** -/
theorem C69_general : ∃ ks : List ActionKind, (∀ k, k ∈ ks ↔ k ≠ .frobgrob ∧ k ≠ .latanal ∧ k ≠ .test ∧ k ≠ .help) ∧ InOrder (ks.map actionName) ∧
    (∀ k ∈ ks, (actionName k, k) ∈ actionFactory) ∧ ∃ before after : List Text, before.length = 4 ∧
      generalHelp = unlines (before ++ (ks.map fun k => actionRow (actionName k) (shortDescription k)) ++ after) := by
  refine ⟨shownActions, ?_, ?_, ?_, ?_⟩
  · intro k
    cases k <;> decide +kernel
  · unfold InOrder; decide +kernel
  · decide +kernel
  · refine ⟨[t!"Frobby version 0.9.9 Copyright (C) 2007 Bjarke Hammersholt Roune", t!"Frobby performs a number of computations related to monomial ideals.",
      t!"You run it by typing `frobby ACTION', where ACTION is one of the following.", []],
      [[], t!"Type 'frobby help ACTION' to get more details on a specific action.", t!"Note that all input and output is done via the standard streams.",
        t!"Type 'frobby help io' for more information on input and output formats.", t!"See www.broune.com for further information and new versions of Frobby.", [],
        t!"Frobby is free software and you are welcome to redistribute it under certain", t!"conditions. Frobby comes with ABSOLUTELY NO WARRANTY. See the GNU General",
        t!"Public License version 2.0 in the file COPYING for details."], rfl, ?_⟩
    decide +kernel

/-! ## the formats -/

/-- C69: **`help io` says of each format what it can be used for**, and the actions ask for the same. -/
theorem C69_io (f : FormatKind) : (DataKind.list ∈ f.outputs ↔ f.supportsList = true) ∧ (DataKind.poly ∈ f.outputs ↔ f.supportsPoly = true) ∧
    DataKind.ideal ∈ f.outputs ∧ (DataKind.ideal ∈ f.inputs ↔ f ≠ .count) := by
  rcases f with f | _ | _
  · cases f <;> decide +kernel
  · decide +kernel
  · decide +kernel

/-- The lines of the table of the formats, of which C69 speaks. -/
theorem C69_io_table : ioHelp formatFactory = display ioHeader [] ++
    ([(t!"4ti2", .std .fourti2), (t!"cocoa4", .std .cocoa4), (t!"count", .count), (t!"m2", .std .m2), (t!"monos", .std .monos), (t!"newmonos", .std .newmonos), (t!"null", .null),
      (t!"singular", .std .singular)] : List (Text × FormatKind)).flatMap fun e =>
      t!"\n* The format " ++ e.1 ++ t!": " ++ e.2.description ++ t!"\n" ++ [(DataKind.ideal, t!"a monomial ideal"), (.list, t!"a list of monomial ideals"), (.poly, t!"a polynomial"),
        (.binom, t!"a saturated binomial ideal")].flatMap fun x =>
          if x.1 ∈ e.2.inputs then
            if x.1 ∈ e.2.outputs then t!"  - supports input and output of " ++ x.2 ++ t!".\n" else t!"  - supports input of " ++ x.2 ++ t!".\n"
          else if x.1 ∈ e.2.outputs then t!"  - supports output of " ++ x.2 ++ t!".\n"
          else [] := by
  unfold ioHelp
  congr 1

/-! ## the topic -/

/-- C69: **the topic is `io`, or a text that stands for an action; otherwise an error is reported.** -/
theorem C69_topic (d : Descriptions) {topic : Text} (h : topic ≠ []) (hio : topic ≠ t!"io") :
    (∀ x k, StandsFor (actionFactory.map Prod.fst) topic x → (x, k) ∈ actionFactory → helpText d formatFactory topic = .ok (actionHelp d k)) ∧
      ((∀ x, ¬ StandsFor (actionFactory.map Prod.fst) topic x) → helpText d formatFactory topic = .error) := by
  unfold helpText
  rw [if_pos h, if_neg hio]
  constructor
  · intro x k h1 h2
    rw [(lookup_iff actionFactory_nodup topic k).2 ⟨x, h1, h2⟩]
  · intro h1
    split
    · next k hk =>
      obtain ⟨x, h2, -⟩ := (lookup_iff actionFactory_nodup topic k).1 hk
      exact absurd h2 (h1 x)
    · rfl

/-- The topic is `io`, an action or nothing. -/
def KnownTopic (topic : Text) : Prop := topic = [] ∨ topic = t!"io" ∨ ∃ x, StandsFor (actionFactory.map Prod.fst) topic x

theorem helpOutcome_known {topic : Text} (h : KnownTopic topic) : helpOutcome topic = .ok [] := by
  unfold helpOutcome
  by_cases h1 : topic = []
  · subst h1; rfl
  · by_cases h2 : topic = t!"io"
    · subst h2; rfl
    · rcases h with h | h | ⟨x, h⟩
      · exact absurd h h1
      · exact absurd h h2
      · obtain ⟨⟨_, k⟩, hk, rfl⟩ := List.mem_map.1 h.1
        rw [(C69_topic _ h1 h2).1 _ k h hk]
        rfl

theorem helpOutcome_unknown {topic : Text} (h : ¬ KnownTopic topic) : helpOutcome topic = .error := by
  unfold helpOutcome KnownTopic at *
  push Not at h
  rw [(C69_topic _ h.1 h.2.1).2 h.2.2]
  rfl

/-- C69: **the program without arguments, and `help` with a topic that is known, write nothing to the standard output and end without an error; a topic that is not known is
an error.** -/
theorem C69_main (env : MainEnv) (t : Text) : frobbyMain env [] t = some (.ok []) ∧
    ∀ tok topic rest os, StandsFor (actionFactory.map Prod.fst) tok t!"help" → topic.head? ≠ some '-' → Accepts [⟨t!"time", .bool false⟩] rest os →
      (KnownTopic topic → frobbyMain env (tok :: topic :: rest) t = some (.ok [])) ∧
      (¬ KnownTopic topic → frobbyMain env (tok :: topic :: rest) t = some .error) := by
  refine ⟨rfl, fun tok topic rest os h1 h2 h3 => ?_⟩
  have hc : createAction (tok :: topic :: rest) = some (.help, topic :: rest) := (C61_action _ _ _ _).2 ⟨rfl, _, h1, by decide +kernel⟩
  have ho : isOption topic = false := not_dash.1 h2
  obtain ⟨P, h4, -⟩ := C61_accept (P := ActionKind.help.params) (C61_names .help) h3
  have hp : parseAction .help (topic :: rest) = .ok P := by
    rw [parseAction, ho]
    exact h4
  have : frobbyMain env (tok :: topic :: rest) t = some (helpOutcome topic) := by
    unfold frobbyMain
    rw [hc]
    simp only
    rw [hp]
    simp [helpTopic, ho]
  rw [this]
  exact ⟨fun h => by rw [helpOutcome_known h], fun h => by rw [helpOutcome_unknown h]⟩

/-! ## examples -/

/-- The help on `frobdyn`, which has one option. -/
example : actionHelp ⟨fun _ => t!"Text.", fun _ _ => t!"Display and time each subcomputation."⟩ .frobdyn =
    t!"Displaying information on action: frobdyn\n\nText.\n\nThe parameters accepted by frobdyn are as follows.\n\n -time [BOOL]   (default is off)\n   Display and time each subcomputation.\n" := by
  decide +kernel

example : KnownTopic t!"irr" := .inr (.inr ⟨t!"irrdecom", by
  refine ⟨by decide +kernel, .inr ⟨by decide +kernel, by decide +kernel, by decide +kernel⟩⟩⟩)

example : ¬ KnownTopic t!"g" := by
  rintro (h | h | ⟨x, hx, h⟩)
  · exact absurd h (by decide)
  · exact absurd h (by decide)
  · rcases h with rfl | ⟨-, -, h⟩
    · exact absurd hx (by decide +kernel)
    · have h1 := h t!"genideal" (by decide +kernel) (by decide +kernel)
      have h2 := h t!"genfrob" (by decide +kernel) (by decide +kernel)
      exact absurd (h1.trans h2.symm) (by decide +kernel)

example (env : MainEnv) (t : Text) : frobbyMain env [t!"help", t!"irrdecom", t!"-time"] t = some (.ok []) := rfl

/-- C69: **`transform` writes several ideals in formats that, as `help io` has it, do not support output of a list of ideals.** -/
theorem C69_list_witness (env : MainEnv) : DataKind.list ∉ (FormatKind.std .singular).outputs ∧
    frobbyMain env [t!"transform", t!"-iformat", t!"monos", t!"-oformat", t!"singular"] t!"vars x;\n[\nx\n];\nvars x;\n[\nx^2\n];\n" =
      some (.ok t!"ring R = 0, (x), lp;\nint noVars = 0;\nideal I =\n x;\nring R = 0, (x), lp;\nint noVars = 0;\nideal I =\n x^2;\n") := by
  refine ⟨by decide, ?_⟩
  rfl

end Frobby
