import Verif.FileReaderModel
import Verif.ScanBufRun

/-!
# Readers that ask a scanner read what the readers of texts read
-/

namespace Frobby

namespace ScanProg

/-- The result, without what is left when there is an error. -/
def dropRest {α : Type} : Except Text α → Option α
  | .error _ => none
  | .ok x => some x

/-- The result on a text, without what is left when there is an error. -/
def run {α : Type} (p : ScanProg α) (t : Text) : Option (α × Text) := dropRest (p.onText t)

theorem run_ask {α : Type} (o : ScanOp) (k : o.Result → ScanProg α) (t : Text) :
    (ask o k).run t = (dropRest (o.onText t)).bind fun x => (k x.1).run x.2 := by
  unfold run
  rw [onText]
  cases o.onText t with
  | error r => rfl
  | ok x => rfl

theorem run_pure {α : Type} (a : α) (t : Text) : (pure a : ScanProg α).run t = some (a, t) := rfl

theorem run_done {α : Type} (a : α) (t : Text) : (.done a : ScanProg α).run t = some (a, t) := rfl

theorem run_fail {α : Type} (t : Text) : (.fail : ScanProg α).run t = none := rfl

theorem run_andThen {α β : Type} : ∀ (p : ScanProg α) (k : α → ScanProg β) (t : Text),
    (p.andThen k).run t = (p.run t).bind fun x => (k x.1).run x.2
  | .done a, k, t => rfl
  | .fail, k, t => rfl
  | .ask o g, k, t => by
    show (ask o fun b => (g b).andThen k).run t = _
    rw [run_ask, run_ask]
    cases dropRest (o.onText t) with
    | none => rfl
    | some x => exact run_andThen (g x.1) k x.2

theorem run_bind {α β : Type} (p : ScanProg α) (k : α → ScanProg β) (t : Text) :
    (p >>= k).run t = (p.run t).bind fun x => (k x.1).run x.2 := run_andThen p k t

theorem run_ite {α : Type} (c : Prop) [Decidable c] (p q : ScanProg α) (t : Text) :
    (if c then p else q).run t = if c then p.run t else q.run t := by split <;> rfl

theorem run_orRest {α : Type} (r : Text) (x : Option α) : dropRest (orRest r x) = x := by
  cases x <;> rfl

theorem run_op (o : ScanOp) (t : Text) : (op o).run t = dropRest (o.onText t) := by
  unfold op
  rw [run_ask]
  cases dropRest (o.onText t) <;> rfl

theorem run_match (c : Char) (t : Text) : (matchP c).run t = some (matchChar c t) := run_op _ _

theorem run_expect (c : Char) (t : Text) : (expectP c).run t = (expectChar c t).map fun r => ((), r) := (run_op _ _).trans (run_orRest _ _)

theorem run_text (s t : Text) : (textP s).run t = (expectText s t).map fun r => ((), r) := (run_op _ _).trans (run_orRest _ _)

theorem run_identifier (t : Text) : identifierP.run t = readIdentifier t := (run_op _ _).trans (run_orRest _ _)

theorem run_identifierString (t : Text) : identifierStringP.run t = readIdentifier t := (run_op _ _).trans (run_orRest _ _)

theorem run_peekId (t : Text) : peekIdP.run t = some (peekIdentifier t, eatWhite t) := run_op _ _

theorem run_peek (c : Char) (t : Text) : (peekP c).run t = some (peekChar c t, eatWhite t) := run_op _ _

theorem run_peekWhite (t : Text) : peekWhiteP.run t = some (peekWhite t, t) := run_op _ _

theorem run_digits (t : Text) : digitsP.run t = readIntegerStringNoSign t := (run_op _ _).trans (run_orRest _ _)

theorem run_size (t : Text) : sizeP.run t = readSizeT t := (run_op _ _).trans (run_orRest _ _)

theorem run_left (t : Text) : leftP.run t = some (t.length, t) := run_op _ _

theorem run_ofOption {α : Type} (x : Option α) (t : Text) : (ofOption x).run t = x.map fun a => (a, t) := by cases x <;> rfl

theorem ite_then {α β : Type} (c : Prop) [Decidable c] (x y : Option α) (f : α → Option β) :
    (if c then x else y).bind f = if c then x.bind f else y.bind f := by split <;> rfl

/-- Both fail, or both get the same and have the same left up to white space in front. -/
def SameUpTo {α : Type} (x y : Option (α × Text)) : Prop :=
  x.map (fun p => (p.1, eatWhite p.2)) = y.map fun p => (p.1, eatWhite p.2)

theorem SameUpTo.of_eq {α : Type} {x y : Option (α × Text)} (h : x = y) : SameUpTo x y := by rw [h]; rfl

theorem eatWhite_twice (t : Text) : eatWhite (eatWhite t) = eatWhite t := BufScanner.eatWhite_idem t

theorem matchChar_white (c : Char) (t : Text) : matchChar c (eatWhite t) = matchChar c t := by unfold matchChar; rw [eatWhite_twice]

theorem expectChar_white (c : Char) (t : Text) : expectChar c (eatWhite t) = expectChar c t := by unfold expectChar; rw [eatWhite_twice]

theorem expectText_white (s t : Text) : expectText s (eatWhite t) = expectText s t := by unfold expectText; rw [eatWhite_twice]

theorem readIdentifier_white (t : Text) : readIdentifier (eatWhite t) = readIdentifier t := by unfold readIdentifier; rw [eatWhite_twice]

theorem peekChar_white (c : Char) (t : Text) : peekChar c (eatWhite t) = peekChar c t := by unfold peekChar; rw [eatWhite_twice]

theorem peekIdentifier_white (t : Text) : peekIdentifier (eatWhite t) = peekIdentifier t := by unfold peekIdentifier; rw [eatWhite_twice]

theorem matchEOF_white (t : Text) : matchEOF (eatWhite t) = matchEOF t := by unfold matchEOF; rw [eatWhite_twice]

theorem readName_white (names : List Text) (t : Text) : readName names (eatWhite t) = readName names t := by
  unfold readName; rw [readIdentifier_white]

/-! ## loops -/

/-- The same on every text. -/
def Runs {σ : Type} (p : σ → ScanProg σ) (f : σ → Text → Option (σ × Text)) : Prop := ∀ s t, (p s).run t = f s t

/-- The same on every text, up to white space. -/
def RunsUpTo {σ : Type} (p : σ → ScanProg σ) (f : σ → Text → Option (σ × Text)) : Prop := ∀ s t, SameUpTo ((p s).run t) (f s t)

theorem Runs.upTo {σ : Type} {p : σ → ScanProg σ} {f : σ → Text → Option (σ × Text)} (h : Runs p f) : RunsUpTo p f := fun s t => .of_eq (h s t)

theorem SameUpTo.cases {α : Type} {x y : Option (α × Text)} (h : SameUpTo x y) :
    (x = none ∧ y = none) ∨ ∃ a t u, x = some (a, t) ∧ y = some (a, u) ∧ eatWhite t = eatWhite u := by
  rcases x with _ | ⟨a, t⟩ <;> rcases y with _ | ⟨b, u⟩
  · exact .inl ⟨rfl, rfl⟩
  · cases h
  · cases h
  · have := Option.some.inj h
    have h1 := congrArg Prod.fst this
    have h2 := congrArg Prod.snd this
    simp only at h1 h2
    subst h1
    exact .inr ⟨a, t, u, rfl, rfl, h2⟩

theorem matchChar_upTo {t u : Text} (h : eatWhite t = eatWhite u) (c : Char) : matchChar c t = matchChar c u := by
  rw [← matchChar_white, h, matchChar_white]

theorem run_sep {σ : Type} {p : σ → ScanProg σ} {f : σ → Text → Option (σ × Text)} (h : RunsUpTo p f) (sep : Char) :
    ∀ (n : ℕ) (s : σ) (t : Text), (sepP p sep n s).run t = readSep f sep n s t
  | 0, _, _ => rfl
  | n + 1, s, t => by
    unfold sepP readSep
    simp only [run_bind, run_match, run_ite, run_pure]
    rcases (h s t).cases with ⟨h1, h2⟩ | ⟨a, v, u, h1, h2, h3⟩
    · rw [h1, h2]
      rfl
    · rw [h1, h2]
      simp only [Option.bind_some, matchChar_upTo h3]
      rcases matchChar sep u with ⟨_ | _, r⟩
      · rfl
      · exact run_sep h sep n a r

theorem run_until {σ : Type} {p : σ → ScanProg σ} {f : σ → Text → Option (σ × Text)} (h : Runs p f) (stop : Char) :
    ∀ (n : ℕ) (s : σ) (t : Text), (untilP p stop n s).run t = readUntil f stop n s t
  | 0, _, _ => rfl
  | n + 1, s, t => by
    unfold untilP readUntil
    simp only [run_bind, run_match, run_ite, run_pure, Option.bind_some]
    rcases matchChar stop t with ⟨_ | _, r⟩
    · simp only [h s r]
      rcases f s r with _ | ⟨s', r'⟩
      · rfl
      · exact run_until h stop n s' r'
    · rfl

theorem run_times {σ : Type} {p : σ → ScanProg σ} {f : σ → Text → Option (σ × Text)} (h : Runs p f) :
    ∀ (n : ℕ) (s : σ) (t : Text), (timesP p n s).run t = readTimes f n s t
  | 0, _, _ => rfl
  | n + 1, s, t => by
    unfold timesP readTimes
    simp only [run_bind, h s t]
    rcases f s t with _ | ⟨s', r'⟩
    · rfl
    · exact run_times h n s' r'

theorem run_whileX {σ : Type} {p : σ → ScanProg σ} {f : σ → Text → Option (σ × Text)} (h : Runs p f) (hw : ∀ s t, f s (eatWhite t) = f s t) :
    ∀ (n : ℕ) (s : σ) (t u : Text), eatWhite t = eatWhite u → SameUpTo ((whileXP p n s).run t) (readWhileX f n s u)
  | 0, _, _, _, _ => rfl
  | n + 1, s, t, u, htu => by
    unfold whileXP readWhileX
    simp only [run_bind, run_peek, run_ite, run_pure, h s t]
    rw [show f s t = f s u by rw [← hw, htu, hw]]
    rcases f s u with _ | ⟨s', r⟩
    · rfl
    · simp only [Option.bind_some]
      cases peekChar 'x' r
      · show some (s', eatWhite (eatWhite r)) = some (s', eatWhite r)
        rw [eatWhite_twice]
      · exact run_whileX h hw n s' _ r (eatWhite_twice r)

/-! ## terms -/

theorem run_exponent (sf : Bool) (k : InputConsumer) (var : ℕ) (t : Text) : (exponentP sf k var).run t = k.consumeExponent sf var t := by
  unfold exponentP InputConsumer.consumeExponent
  simp only [run_ite, run_bind, run_digits, run_fail, run_pure, run_ofOption]
  rcases readIntegerStringNoSign t with _ | ⟨s, r⟩
  · rfl
  · simp only [Option.bind_some]
    cases digitsValue0 s <;> rfl

theorem run_power (sf : Bool) : Runs (powerP sf) (InputConsumer.readPower sf) := by
  intro k t
  unfold powerP InputConsumer.readPower
  simp only [run_bind, run_identifierString, run_ofOption, run_match, run_ite, run_exponent]
  rcases readIdentifier t with _ | ⟨x, r⟩
  · rfl
  · simp only [Option.bind_some]
    cases k.names.idxOf? x with
    | none => rfl
    | some var =>
      simp only [Option.map_some, Option.bind_some]
      rcases matchChar '^' r with ⟨_ | _, r'⟩ <;> rfl

theorem run_term (sf : Bool) : Runs (termP sf) (InputConsumer.readTermProduct sf) := by
  intro k t
  unfold termP InputConsumer.readTermProduct
  simp only [run_bind, run_match, run_ite, run_pure, run_left, Option.bind_some, run_sep (run_power sf).upTo]
  rcases matchChar '1' t with ⟨_ | _, r⟩ <;> rfl

theorem run_termM2 (sf : Bool) : Runs (termM2P sf) (InputConsumer.readTermM2 sf) := by
  intro k t
  unfold termM2P InputConsumer.readTermM2
  simp only [run_bind, run_match, run_ite, run_pure, run_identifier, run_term sf k t]
  rcases k.readTermProduct sf t with _ | ⟨k', r⟩
  · rfl
  · simp only [Option.bind_some]
    rcases matchChar '_' r with ⟨_ | _, r'⟩
    · rfl
    · simp only
      cases readIdentifier r' <;> rfl

theorem run_powerCoCoA (sf : Bool) : Runs (powerCoCoAP sf) (InputConsumer.readPowerCoCoA sf) := by
  intro k t
  unfold powerCoCoAP InputConsumer.readPowerCoCoA
  simp only [run_bind, run_expect, run_size, run_fail, run_match, run_ite, run_exponent, run_ofOption]
  cases expectChar 'x' t with
  | none => rfl
  | some r1 =>
    simp only [Option.map_some, Option.bind_some]
    cases expectChar '[' r1 with
    | none => rfl
    | some r2 =>
      simp only [Option.map_some, Option.bind_some]
      rcases readSizeT r2 with _ | ⟨var, r⟩
      · rfl
      · simp only [Option.bind_some]
        cases expectChar ']' r with
        | none => rfl
        | some r3 =>
          simp only [Option.map_some, Option.bind_some]
          rcases matchChar '^' r3 with ⟨_ | _, r'⟩ <;> rfl

theorem run_termCoCoA (sf : Bool) : RunsUpTo (termCoCoAP sf) (InputConsumer.readTermCoCoA sf) := by
  intro k t
  unfold termCoCoAP InputConsumer.readTermCoCoA
  simp only [run_bind, run_match, run_ite, run_pure, run_left, Option.bind_some]
  rcases matchChar '1' t with ⟨_ | _, r⟩
  · refine run_whileX (run_powerCoCoA sf) (fun s t => ?_) _ _ _ _ rfl
    unfold InputConsumer.readPowerCoCoA
    rw [expectChar_white]
  · rfl

theorem run_exponent4ti2 (sf : Bool) : Runs (exponent4ti2P sf) (InputConsumer.readExponent4ti2 sf) := by
  intro s t
  unfold exponent4ti2P InputConsumer.readExponent4ti2
  simp only [run_bind, run_match, run_ite, run_pure, run_digits, Option.bind_some, run_exponent]
  rcases matchChar '-' t with ⟨_ | _, r⟩
  · simp only
    cases s.2.consumeExponent sf s.1 r <;> rfl
  · simp only
    cases readIntegerStringNoSign r <;> rfl

theorem run_term4ti2 (sf : Bool) : Runs (term4ti2P sf) (InputConsumer.readTerm4ti2 sf) := by
  intro k t
  unfold term4ti2P InputConsumer.readTerm4ti2
  simp only [run_bind, run_pure, run_times (run_exponent4ti2 sf)]
  cases readTimes (InputConsumer.readExponent4ti2 sf) k.names.length (0, k.beginTerm) t <;> rfl

/-! ## rings -/

theorem run_name : Runs nameP readName := by
  intro names t
  unfold nameP readName
  simp only [run_bind, run_identifier, run_ite, run_fail, run_pure]
  cases readIdentifier t <;> rfl

theorem run_nameCoCoA : Runs nameCoCoAP readNameCoCoA := by
  intro s t
  unfold nameCoCoAP readNameCoCoA
  simp only [run_bind, run_expect, run_peekWhite, run_ite, run_fail, run_pure, run_name _ _]
  cases expectChar '"' t with
  | none => rfl
  | some r =>
    simp only [Option.map_some, Option.bind_some]
    rcases readName s.2 r with _ | ⟨names, r⟩
    · rfl
    · simp only [Option.bind_some]
      cases expectChar '"' r with
      | none => rfl
      | some r =>
        simp only [Option.map_some, Option.bind_some]
        cases expectChar ',' r <;> rfl


theorem readSep_name_white (n : ℕ) (names : List Text) (t : Text) : readSep readName ',' n names (eatWhite t) = readSep readName ',' n names t := by
  cases n with
  | zero => rfl
  | succ n =>
    unfold readSep
    rw [readName_white]

theorem run_ringM2 (t : Text) : ringM2P.run t = readRingM2 t := by
  unfold ringM2P readRingM2
  simp only [run_bind, run_expect, run_text, run_identifier, run_peek, run_peekId, run_match, run_left, run_ite, run_fail, run_pure, Option.bind_some,
    run_sep run_name.upTo, Option.bind_map, Function.comp_def, Option.bind_eq_bind, expectText_white, readSep_name_white, expectChar_white]
  refine congrArg _ (funext fun x => ?_)
  by_cases hn : x.1.head? ≠ some 'R'
  · rw [if_pos hn, if_pos hn]
    rfl
  · rw [if_neg hn, if_neg hn]
    refine congrArg _ (funext fun r => ?_)
    cases peekChar 'Z' r <;> rfl

theorem run_rangeCoCoA (t : Text) : rangeCoCoAP.run t = (expectChar '1' t).bind fun r => (expectText t!".." r).bind fun r =>
    (readSizeT r).bind fun x => (expectChar ']' x.2).bind fun r => some (x.1, r) := by
  unfold rangeCoCoAP
  simp only [run_bind, run_expect, run_text, run_size, run_pure, Option.bind_map, Function.comp_def]

theorem run_ringCoCoA (t : Text) : ringCoCoAP.run t = readRingCoCoA t := by
  unfold ringCoCoAP readRingCoCoA
  simp only [run_bind, run_expect, run_text, run_match, run_ite, run_pure, Option.bind_some, run_rangeCoCoA,
    run_times run_nameCoCoA, Option.bind_map, Function.comp_def, Option.bind_eq_bind, Option.bind_assoc]

theorem run_noVars (names : List Text) (t : Text) : (noVarsP names).run t =
    if (matchChar '1' t).1 then (if names = [t!"dummy"] then some ([], (matchChar '1' t).2) else none)
    else if (matchChar '0' (matchChar '1' t).2).1 then some (names, (matchChar '0' (matchChar '1' t).2).2)
    else none := by
  unfold noVarsP
  simp only [run_bind, run_match, run_ite, run_pure, run_fail, Option.bind_some]

theorem run_ringSingular (t : Text) : ringSingularP.run t = readRingSingular t := by
  unfold ringSingularP readRingSingular
  simp only [run_bind, run_expect, run_text, run_left, run_pure, Option.bind_some, run_noVars,
    run_sep run_name.upTo, Option.bind_map, Function.comp_def, Option.bind_eq_bind, ite_then]

theorem run_ringMonos (t : Text) : ringMonosP.run t = readRingMonos t := by
  unfold ringMonosP readRingMonos
  simp only [run_bind, run_expect, run_text, run_left, run_pure, Option.bind_some, run_match, run_ite,
    run_sep run_name.upTo, Option.bind_map, Function.comp_def, Option.bind_eq_bind]

theorem run_ringNewMonos (t : Text) : ringNewMonosP.run t = readRingNewMonos t := by
  unfold ringNewMonosP readRingNewMonos
  simp only [run_bind, run_text, run_left, Option.bind_some, run_until run_name, Option.bind_map, Function.comp_def, Option.bind_eq_bind]

/-! ## ideals -/

theorem matchChar_no {c : Char} {t : Text} (h : ¬ (matchChar c t).1 = true) : (matchChar c t).2 = eatWhite t := by
  unfold matchChar at h ⊢
  revert h
  cases eatWhite t with
  | nil => exact fun _ => rfl
  | cons d r =>
    intro h
    by_cases hd : d = c
    · simp [hd] at h
    · simp [hd]

theorem run_bareM2 (sf : Bool) (names : List Text) (t : Text) : (bareM2P sf names).run t = readBareM2 sf names t := by
  unfold bareM2P gensM2P readBareM2
  simp only [run_bind, run_expect, run_text, run_identifier, run_match, run_left, run_ite, run_pure, Option.bind_some,
    run_sep (run_termM2 sf).upTo, Option.bind_map, Function.comp_def, Option.bind_eq_bind, ite_then, Option.bind_assoc]

theorem run_bareCoCoA (sf : Bool) (names : List Text) (t : Text) : (bareCoCoAP sf names).run t = readBareCoCoA sf names t := by
  unfold bareCoCoAP gensCoCoAP readBareCoCoA
  simp only [run_bind, run_expect, run_text, run_match, run_left, run_ite, run_pure, Option.bind_some,
    run_sep (run_termCoCoA sf), Option.bind_map, Function.comp_def, Option.bind_eq_bind, ite_then, Option.bind_assoc]

theorem run_bareSingular (sf : Bool) (names : List Text) (t : Text) : (bareSingularP sf names).run t = readBareSingular sf names t := by
  unfold bareSingularP gensSingularP readBareSingular
  simp only [run_bind, run_expect, run_text, run_match, run_left, run_ite, run_pure, Option.bind_some,
    run_sep (run_term sf).upTo, Option.bind_map, Function.comp_def, Option.bind_eq_bind, ite_then]

theorem run_bareMonos (sf : Bool) (names : List Text) (t : Text) : (bareMonosP sf names).run t = readBareMonos sf names t := by
  unfold bareMonosP gensMonosP readBareMonos
  simp only [run_bind, run_expect, run_match, run_left, run_ite, run_pure, Option.bind_some, run_peekId,
    run_sep (run_term sf).upTo, Option.bind_map, Function.comp_def, Option.bind_eq_bind, ite_then, Option.bind_assoc, expectChar_white]
  refine congrArg _ (funext fun r => if_congr Iff.rfl rfl (congrArg _ (funext fun x => ?_)))
  by_cases hm : (matchChar ']' x.2).1 = true
  · rw [if_pos hm, if_pos hm]
  · rw [if_neg hm, if_neg hm, matchChar_no hm, peekIdentifier_white, expectChar_white]
    cases peekIdentifier x.2 <;> rfl

theorem run_newMonos (sf : Bool) (t : Text) : (newMonosP sf).run t = readIdealNoLeftParen sf t := by
  unfold newMonosP readIdealNoLeftParen
  simp only [run_bind, run_expect, run_text, run_left, Option.bind_some, run_ringNewMonos,
    run_until (run_term sf), Option.bind_map, Function.comp_def, Option.bind_eq_bind]

theorem readTimes_name_white (n : ℕ) (names : List Text) (t : Text) :
    SameUpTo (readTimes readName n names (eatWhite t)) (readTimes readName n names t) := by
  cases n with
  | zero =>
    show some (names, eatWhite (eatWhite t)) = some (names, eatWhite t)
    rw [eatWhite_twice]
  | succ n =>
    unfold readTimes
    rw [readName_white]
    exact .of_eq rfl

theorem run_fourti2 (sf : Bool) (generatorCount varCount : ℕ) (t : Text) :
    SameUpTo ((fourti2P sf generatorCount varCount).run t) (readIdeal4ti2 sf generatorCount varCount t) := by
  unfold fourti2P gens4ti2P readIdeal4ti2
  simp only [run_bind, run_ite, run_pure, run_peekId, Option.bind_some, run_times (run_term4ti2 sf), run_times run_name, Option.bind_eq_bind, ite_then]
  have tail : ∀ (k : InputConsumer) (r : Text),
      SameUpTo (if peekIdentifier r = true then (readTimes readName varCount [] (eatWhite r)).bind fun x => some ({ k with names := x.1 }, x.2)
          else some (k, eatWhite r))
        (if peekIdentifier r = true then (readTimes readName varCount [] r).bind fun x => some ({ k with names := x.1 }, x.2) else some (k, r)) := by
    intro k r
    split
    · rcases (readTimes_name_white varCount [] r).cases with ⟨h1, h2⟩ | ⟨a, v, u, h1, h2, h3⟩
      · rw [h1, h2]
        exact .of_eq rfl
      · rw [h1, h2]
        show some (_, eatWhite v) = some (_, eatWhite u)
        rw [h3]
    · show some (k, eatWhite (eatWhite r)) = some (k, eatWhite r)
      rw [eatWhite_twice]
  split
  · exact tail _ _
  · rcases readTimes (InputConsumer.readTerm4ti2 sf) generatorCount (.beginIdeal (defaultNames varCount)) t with _ | ⟨k, r⟩
    · exact .of_eq rfl
    · exact tail k r

theorem run_consumer (sf : Bool) (f : IOFormat) (t : Text) : SameUpTo ((consumerP sf f).run t) (readConsumer sf f t) := by
  cases f with
  | m2 =>
    refine .of_eq ?_
    unfold consumerP readConsumer
    simp only [run_bind, run_ringM2, run_bareM2, readRing, readBare, Option.bind_eq_bind]
  | cocoa4 =>
    refine .of_eq ?_
    unfold consumerP readConsumer
    simp only [run_bind, run_ringCoCoA, run_bareCoCoA, readRing, readBare, Option.bind_eq_bind]
  | singular =>
    refine .of_eq ?_
    unfold consumerP readConsumer
    simp only [run_bind, run_ringSingular, run_bareSingular, readRing, readBare, Option.bind_eq_bind]
  | monos =>
    refine .of_eq ?_
    unfold consumerP readConsumer
    simp only [run_bind, run_ringMonos, run_bareMonos, readRing, readBare, Option.bind_eq_bind]
  | newmonos =>
    refine .of_eq ?_
    unfold consumerP readConsumer
    simp only [run_bind, run_expect, run_newMonos, Option.bind_map, Function.comp_def]
  | fourti2 =>
    unfold consumerP readConsumer
    simp only [run_bind, run_size, Option.bind_eq_bind]
    rcases readSizeT t with _ | ⟨g, r⟩
    · exact .of_eq rfl
    · simp only [Option.bind_some]
      rcases readSizeT r with _ | ⟨n, r⟩
      · exact .of_eq rfl
      · exact run_fourti2 sf g n r

/-- Reading an ideal. -/
theorem run_ideal (sf : Bool) (f : IOFormat) (t : Text) :
    ((idealP sf f).run t).bind (fun x => if matchEOF x.2 then some x.1 else none) = if sf then readSquareFreeIdeal f t else readIdeal f t := by
  unfold idealP
  simp only [run_bind, run_pure]
  have h : ∀ sf, (((consumerP sf f).run t).bind fun x => some (x.1.release, x.2)).bind (fun x => if matchEOF x.2 then some x.1 else none) =
      (readConsumer sf f t).bind fun x => if matchEOF x.2 then some x.1.release else none := by
    intro sf
    rcases (run_consumer sf f t).cases with ⟨h1, h2⟩ | ⟨a, v, u, h1, h2, h3⟩
    · rw [h1, h2]
      rfl
    · rw [h1, h2]
      simp only [Option.bind_some]
      rw [← matchEOF_white v, h3, matchEOF_white]
  cases sf
  · exact h false
  · exact h true

/-! ## white space in front -/

theorem run_white (sf : Bool) (f : IOFormat) (t : Text) : (idealP sf f).run (eatWhite t) = (idealP sf f).run t := by
  have hs : ∀ t, readSizeT (eatWhite t) = readSizeT t := fun t => by
    unfold readSizeT readInteger
    rw [eatWhite_twice]
  unfold idealP
  simp only [run_bind]
  congr 1
  cases f <;> unfold consumerP
  · unfold ringM2P
    simp only [run_bind, run_identifier, readIdentifier_white]
  · unfold ringCoCoAP
    simp only [run_bind, run_text, expectText_white]
  · unfold ringSingularP
    simp only [run_bind, run_text, expectText_white]
  · unfold ringMonosP
    simp only [run_bind, run_text, expectText_white]
  · simp only [run_bind, run_expect, expectChar_white]
  · simp only [run_bind, run_size, hs]

theorem run_peekAny : ∀ (cs : List Char) (t : Text), ∃ r, (peekAnyP cs).run t = some (decide (∃ c ∈ cs, nextIs (fun d => d = c) (eatWhite t)), r) ∧
    eatWhite r = eatWhite t
  | [], t => ⟨t, by simp [peekAnyP, run_pure], rfl⟩
  | c :: cs, t => by
    obtain ⟨r, h1, h2⟩ := run_peekAny cs (eatWhite t)
    rw [eatWhite_twice] at h1 h2
    unfold peekAnyP
    simp only [run_bind, run_peek, run_ite, run_pure, Option.bind_some]
    by_cases hc : peekChar c t = true
    · refine ⟨eatWhite t, ?_, eatWhite_twice t⟩
      rw [if_pos hc]
      have : ∃ d ∈ c :: cs, nextIs (fun e => e = d) (eatWhite t) = true := ⟨c, by simp, hc⟩
      rw [decide_eq_true this]
    · refine ⟨r, ?_, h2⟩
      rw [if_neg hc, h1]
      have : (∃ d ∈ c :: cs, nextIs (fun e => e = d) (eatWhite t) = true) ↔ ∃ d ∈ cs, nextIs (fun e => e = d) (eatWhite t) = true := by
        constructor
        · rintro ⟨d, hd, h⟩
          rcases List.mem_cons.1 hd with rfl | hd
          · exact absurd h hc
          · exact ⟨d, hd, h⟩
        · rintro ⟨d, hd, h⟩
          exact ⟨d, by simp [hd], h⟩
      rw [decide_eq_decide.2 this]

theorem run_detect (t : Text) : ∃ r, detectP.run t = some (autoDetect t, r) ∧ eatWhite r = eatWhite t := by
  obtain ⟨r1, a1, b1⟩ := run_peekAny t!"Uu" t
  obtain ⟨r2, a2, b2⟩ := run_peekAny t!"r" r1
  obtain ⟨r3, a3, b3⟩ := run_peekAny t!"(l)" r2
  obtain ⟨r4, a4, b4⟩ := run_peekAny t!"0123456789+-" r3
  obtain ⟨r5, a5, b5⟩ := run_peekAny t!"v" r4
  rw [b1] at a2 b2
  rw [b2] at a3 b3
  rw [b3] at a4 b4
  rw [b4] at a5 b5
  have hd : ∀ c : Char, (∃ d ∈ t!"0123456789+-", c = d) ↔ isDigit c = true ∨ c = '+' ∨ c = '-' := by
    intro c
    have : isDigit c = true ↔ c.toNat = 48 ∨ c.toNat = 49 ∨ c.toNat = 50 ∨ c.toNat = 51 ∨ c.toNat = 52 ∨ c.toNat = 53 ∨ c.toNat = 54 ∨
        c.toNat = 55 ∨ c.toNat = 56 ∨ c.toNat = 57 := by
      unfold isDigit
      rw [decide_eq_true_eq]
      omega
    rw [this]
    have hc : ∀ d : Char, c = d ↔ c.toNat = d.toNat := fun d => ⟨fun e => by rw [e], fun e => Char.ext (UInt32.toNat_inj.1 e)⟩
    simp only [List.mem_cons, List.not_mem_nil, or_false, exists_eq_or_imp, exists_eq_left, hc]
    simp [or_assoc]
  have key : ∃ r, detectP.run t = some (if ∃ c ∈ t!"Uu", nextIs (fun d => d = c) (eatWhite t) then .cocoa4
      else if ∃ c ∈ t!"r", nextIs (fun d => d = c) (eatWhite t) then .singular
      else if ∃ c ∈ t!"(l)", nextIs (fun d => d = c) (eatWhite t) then .newmonos
      else if ∃ c ∈ t!"0123456789+-", nextIs (fun d => d = c) (eatWhite t) then .fourti2
      else if ∃ c ∈ t!"v", nextIs (fun d => d = c) (eatWhite t) then .monos else .m2, r) ∧ eatWhite r = eatWhite t := by
    unfold detectP
    simp only [run_bind, run_ite, run_pure, a1, a2, a3, a4, a5, Option.bind_some, decide_eq_true_eq]
    split
    · exact ⟨r1, rfl, b1⟩
    · split
      · exact ⟨r2, rfl, b2⟩
      · split
        · exact ⟨r3, rfl, b3⟩
        · split
          · exact ⟨r4, rfl, b4⟩
          · split
            · exact ⟨r5, rfl, b5⟩
            · exact ⟨r5, rfl, b5⟩
  obtain ⟨r, h1, h2⟩ := key
  refine ⟨r, ?_, h2⟩
  rw [h1]
  unfold autoDetect
  cases eatWhite t with
  | nil => simp [nextIs]
  | cons c u =>
    simp only [nextIs, decide_eq_true_eq, hd]
    simp only [List.mem_cons, List.not_mem_nil, or_false, exists_eq_or_imp, exists_eq_left]

/-! ## only characters of ASCII -/

theorem ascii_andThen {α β : Type} : ∀ {p : ScanProg α} {k : α → ScanProg β}, p.Ascii → (∀ a, (k a).Ascii) → (p.andThen k).Ascii
  | .done a, _, _, hk => hk a
  | .fail, _, _, _ => trivial
  | .ask _ _, _, hp, hk => ⟨hp.1, fun b => ascii_andThen (hp.2 b) hk⟩

theorem ascii_bind {α β : Type} {p : ScanProg α} {k : α → ScanProg β} (hp : p.Ascii) (hk : ∀ a, (k a).Ascii) : (p >>= k).Ascii := ascii_andThen hp hk

theorem ascii_pure {α : Type} (a : α) : (pure a : ScanProg α).Ascii := trivial

theorem ascii_fail {α : Type} : (.fail : ScanProg α).Ascii := trivial

theorem ascii_op {o : ScanOp} (h : o.Ascii) : (op o).Ascii := ⟨h, fun _ => trivial⟩

theorem ascii_ite {α : Type} {c : Prop} [Decidable c] {p q : ScanProg α} (hp : p.Ascii) (hq : q.Ascii) : (if c then p else q).Ascii := by
  split
  · exact hp
  · exact hq

theorem ascii_match {c : Char} (h : c.toNat < 128) : (matchP c).Ascii := ascii_op h

theorem ascii_expect {c : Char} (h : c.toNat < 128) : (expectP c).Ascii := ascii_op h

theorem ascii_peek {c : Char} (h : c.toNat < 128) : (peekP c).Ascii := ascii_op h

theorem ascii_text {s : Text} (h : ∀ c ∈ s, c.toNat < 128) : (textP s).Ascii := ascii_op h

theorem ascii_identifier : identifierP.Ascii := ascii_op trivial

theorem ascii_identifierString : identifierStringP.Ascii := ascii_op trivial

theorem ascii_peekId : peekIdP.Ascii := ascii_op trivial

theorem ascii_peekWhite : peekWhiteP.Ascii := ascii_op trivial

theorem ascii_digits : digitsP.Ascii := ascii_op trivial

theorem ascii_size : sizeP.Ascii := ascii_op trivial

theorem ascii_left : leftP.Ascii := ascii_op trivial

theorem ascii_ofOption {α : Type} (x : Option α) : (ofOption x).Ascii := by cases x <;> trivial

theorem ascii_sep {σ : Type} {p : σ → ScanProg σ} (h : ∀ s, (p s).Ascii) {c : Char} (hc : c.toNat < 128) : ∀ (n : ℕ) (s : σ), (sepP p c n s).Ascii
  | 0, _ => trivial
  | n + 1, s => by
    unfold sepP
    exact ascii_bind (h s) fun _ => ascii_bind (ascii_match hc) fun _ => ascii_ite (ascii_sep h hc n _) (ascii_pure _)

theorem ascii_until {σ : Type} {p : σ → ScanProg σ} (h : ∀ s, (p s).Ascii) {c : Char} (hc : c.toNat < 128) : ∀ (n : ℕ) (s : σ), (untilP p c n s).Ascii
  | 0, _ => trivial
  | n + 1, s => by
    unfold untilP
    exact ascii_bind (ascii_match hc) fun _ => ascii_ite (ascii_pure _) (ascii_bind (h s) fun _ => ascii_until h hc n _)

theorem ascii_times {σ : Type} {p : σ → ScanProg σ} (h : ∀ s, (p s).Ascii) : ∀ (n : ℕ) (s : σ), (timesP p n s).Ascii
  | 0, _ => trivial
  | n + 1, s => by
    unfold timesP
    exact ascii_bind (h s) fun _ => ascii_times h n _

theorem ascii_whileX {σ : Type} {p : σ → ScanProg σ} (h : ∀ s, (p s).Ascii) : ∀ (n : ℕ) (s : σ), (whileXP p n s).Ascii
  | 0, _ => trivial
  | n + 1, s => by
    unfold whileXP
    exact ascii_bind (h s) fun _ => ascii_bind (ascii_peek (by decide)) fun _ => ascii_ite (ascii_whileX h n _) (ascii_pure _)

/-- Go through a reader. -/
macro "ascii_steps" : tactic => `(tactic| repeat' (first
  | exact ascii_fail
  | exact ascii_pure _
  | exact ascii_identifier
  | exact ascii_identifierString
  | exact ascii_peekId
  | exact ascii_peekWhite
  | exact ascii_digits
  | exact ascii_size
  | exact ascii_left
  | exact ascii_ofOption _
  | exact ascii_match (by decide)
  | exact ascii_expect (by decide)
  | exact ascii_peek (by decide)
  | exact ascii_text (by decide)
  | assumption
  | with_reducible refine ascii_ite ?_ ?_
  | with_reducible refine ascii_bind ?_ fun _ => ?_))

theorem ascii_exponent (sf : Bool) (k : InputConsumer) (var : ℕ) : (exponentP sf k var).Ascii := by
  unfold exponentP
  ascii_steps

theorem ascii_power (sf : Bool) (k : InputConsumer) : (powerP sf k).Ascii := by
  unfold powerP
  have := ascii_exponent sf
  ascii_steps
  exact this _ _

theorem ascii_term (sf : Bool) (k : InputConsumer) : (termP sf k).Ascii := by
  unfold termP
  ascii_steps
  exact ascii_sep (ascii_power sf) (by decide) _ _

theorem ascii_termM2 (sf : Bool) (k : InputConsumer) : (termM2P sf k).Ascii := by
  unfold termM2P
  refine ascii_bind (ascii_term sf k) fun _ => ?_
  ascii_steps

theorem ascii_powerCoCoA (sf : Bool) (k : InputConsumer) : (powerCoCoAP sf k).Ascii := by
  unfold powerCoCoAP
  ascii_steps
  exact ascii_exponent sf _ _

theorem ascii_termCoCoA (sf : Bool) (k : InputConsumer) : (termCoCoAP sf k).Ascii := by
  unfold termCoCoAP
  ascii_steps
  exact ascii_whileX (ascii_powerCoCoA sf) _ _

theorem ascii_exponent4ti2 (sf : Bool) (s : ℕ × InputConsumer) : (exponent4ti2P sf s).Ascii := by
  unfold exponent4ti2P
  ascii_steps
  exact ascii_exponent sf _ _

theorem ascii_term4ti2 (sf : Bool) (k : InputConsumer) : (term4ti2P sf k).Ascii := by
  unfold term4ti2P
  exact ascii_bind (ascii_times (ascii_exponent4ti2 sf) _ _) fun _ => ascii_pure _

theorem ascii_name (names : List Text) : (nameP names).Ascii := by
  unfold nameP
  ascii_steps

theorem ascii_nameCoCoA (s : ℕ × List Text) : (nameCoCoAP s).Ascii := by
  unfold nameCoCoAP
  ascii_steps
  exact ascii_name _

theorem ascii_ringM2 : ringM2P.Ascii := by
  unfold ringM2P
  ascii_steps
  · refine ascii_text ?_
    split <;> decide
  · exact ascii_sep ascii_name (by decide) _ _

theorem ascii_ringCoCoA : ringCoCoAP.Ascii := by
  unfold ringCoCoAP rangeCoCoAP
  ascii_steps
  all_goals exact ascii_times ascii_nameCoCoA _ _

theorem ascii_ringSingular : ringSingularP.Ascii := by
  unfold ringSingularP noVarsP
  ascii_steps
  exact ascii_sep ascii_name (by decide) _ _

theorem ascii_ringMonos : ringMonosP.Ascii := by
  unfold ringMonosP
  ascii_steps
  exact ascii_sep ascii_name (by decide) _ _

theorem ascii_consumer (sf : Bool) (f : IOFormat) : (consumerP sf f).Ascii := by
  cases f <;> unfold consumerP
  · refine ascii_bind ascii_ringM2 fun _ => ?_
    unfold bareM2P gensM2P
    ascii_steps
    exact ascii_sep (ascii_termM2 sf) (by decide) _ _
  · refine ascii_bind ascii_ringCoCoA fun _ => ?_
    unfold bareCoCoAP gensCoCoAP
    ascii_steps
    exact ascii_sep (ascii_termCoCoA sf) (by decide) _ _
  · refine ascii_bind ascii_ringSingular fun _ => ?_
    unfold bareSingularP gensSingularP
    ascii_steps
    exact ascii_sep (ascii_term sf) (by decide) _ _
  · refine ascii_bind ascii_ringMonos fun _ => ?_
    unfold bareMonosP gensMonosP
    ascii_steps
    · exact ascii_sep (ascii_term sf) (by decide) _ _
    · refine ascii_expect ?_
      split <;> decide
  · unfold newMonosP ringNewMonosP
    ascii_steps
    · exact ascii_until ascii_name (by decide) _ _
    · exact ascii_until (ascii_term sf) (by decide) _ _
  · unfold fourti2P gens4ti2P
    ascii_steps
    · exact ascii_times (ascii_term4ti2 sf) _ _
    · exact ascii_times ascii_name _ _

theorem ascii_ideal (sf : Bool) (f : IOFormat) : (idealP sf f).Ascii := ascii_bind (ascii_consumer sf f) fun _ => ascii_pure _

theorem ascii_peekAny : ∀ {cs : List Char}, (∀ c ∈ cs, c.toNat < 128) → (peekAnyP cs).Ascii
  | [], _ => trivial
  | c :: cs, h => by
    unfold peekAnyP
    exact ascii_bind (ascii_peek (h c (by simp))) fun _ => ascii_ite (ascii_pure _) (ascii_peekAny fun c hc => h c (by simp [hc]))

theorem ascii_detect : detectP.Ascii := by
  unfold detectP
  ascii_steps <;> exact ascii_peekAny (by decide)

/-! ## what is left is an end of the text -/

theorem stripRest_suffix : ∀ (u t : Text), stripRest u t <:+ t
  | [], t => by simp [stripRest]
  | _ :: _, [] => by simp [stripRest]
  | c :: u, d :: t => by
    unfold stripRest
    split
    · exact (stripRest_suffix u t).trans (List.suffix_cons d t)
    · exact (List.dropWhile_suffix _).trans (List.suffix_cons d t)

theorem stripText_suffix : ∀ {u t r : Text}, stripText u t = some r → r <:+ t
  | [], t, r, h => by
    simp only [stripText, Option.some.injEq] at h
    exact h ▸ List.suffix_refl _
  | _ :: _, [], _, h => by simp [stripText] at h
  | c :: u, d :: t, r, h => by
    unfold stripText at h
    split at h
    · exact (stripText_suffix h).trans (List.suffix_cons d t)
    · cases h

theorem afterSign_suffix (t : Text) : afterSign t <:+ t := by
  cases t with
  | nil => simp [afterSign]
  | cons c r =>
    by_cases h : c = '-' ∨ c = '+'
    · rw [afterSign, if_pos h]
      exact List.suffix_cons c r
    · rw [afterSign, if_neg h]

theorem eatWhite_suffix (t : Text) : eatWhite t <:+ t := List.dropWhile_suffix _

theorem matchChar_suffix (c : Char) (t : Text) : (matchChar c t).2 <:+ t := by
  have := eatWhite_suffix t
  unfold matchChar
  revert this
  cases eatWhite t with
  | nil => exact id
  | cons d r =>
    intro h
    simp only
    split
    · exact (List.suffix_cons d r).trans h
    · exact h

theorem readInteger_suffix {t : Text} {p : ℤ × Text} (h : readInteger t = some p) : p.2 <:+ t := by
  rw [BufScanner.readInteger_eq] at h
  split at h
  · cases h
  · cases h
    exact (List.dropWhile_suffix _).trans ((afterSign_suffix _).trans (eatWhite_suffix t))

theorem readIdentifier_suffix {t : Text} {p : Text × Text} (h : readIdentifier t = some p) : p.2 <:+ t := by
  unfold readIdentifier at h
  split at h
  · cases h
    exact (List.dropWhile_suffix _).trans (eatWhite_suffix t)
  · cases h

theorem readNoSign_suffix {t : Text} {p : Text × Text} (h : readIntegerStringNoSign t = some p) : p.2 <:+ t := by
  unfold readIntegerStringNoSign readDigits at h
  split at h
  · cases h
  · split at h
    · cases h
    · cases h
      exact (List.dropWhile_suffix _).trans (eatWhite_suffix t)

theorem expectChar_suffix {c : Char} {t r : Text} (h : expectChar c t = some r) : r <:+ t := by
  have := eatWhite_suffix t
  unfold expectChar at h
  revert this h
  cases eatWhite t with
  | nil => exact fun h => by cases h
  | cons d r =>
    intro h hs
    simp only at h
    split at h
    · cases h
      exact (List.suffix_cons d _).trans hs
    · cases h

theorem readSizeT_suffix {t : Text} {p : ℕ × Text} (h : readSizeT t = some p) : p.2 <:+ t := by
  unfold readSizeT at h
  cases hi : readInteger t with
  | none => rw [hi] at h; cases h
  | some q =>
    rw [hi] at h
    simp only at h
    split at h
    · cases h
      exact readInteger_suffix hi
    · cases h

theorem readNonNegative_suffix {t : Text} {p : ℕ × Text} (h : readNonNegative t = some p) : p.2 <:+ t := by
  have key : ∀ {t : Text} {p : ℕ × Text}, ((readInteger t).map fun p => (p.1.toNat, p.2)) = some p → p.2 <:+ t := by
    intro t p h
    cases hi : readInteger t with
    | none => rw [hi] at h; cases h
    | some q =>
      rw [hi] at h
      cases h
      exact readInteger_suffix hi
  unfold readNonNegative at h
  split at h
  · split at h
    · exact (key h).trans (List.suffix_cons _ _)
    · cases h
      exact List.suffix_cons _ _
  · exact key h

/-- What is left of a text, with a result or with an error. -/
def leftOf {α : Type} : Except Text (α × Text) → Text
  | .error r => r
  | .ok x => x.2

theorem orRest_suffix {α : Type} {t r : Text} {x : Option (α × Text)} (h1 : r <:+ t) (h2 : ∀ p, x = some p → p.2 <:+ t) : leftOf (orRest r x) <:+ t := by
  cases x with
  | none => exact h1
  | some p => exact h2 p rfl

theorem op_suffix (o : ScanOp) (t : Text) : leftOf (o.onText t) <:+ t := by
  have hw := eatWhite_suffix t
  have hs : afterSign (eatWhite t) <:+ t := (afterSign_suffix _).trans hw
  cases o with
  | white => exact hw
  | matchC c => exact matchChar_suffix c t
  | expectC c =>
    refine orRest_suffix ((List.tail_suffix _).trans hw) fun p hp => ?_
    cases he : expectChar c t with
    | none => rw [he] at hp; cases hp
    | some r => rw [he] at hp; cases hp; exact expectChar_suffix he
  | expectT u =>
    refine orRest_suffix ((stripRest_suffix _ _).trans hw) fun p hp => ?_
    cases he : expectText u t with
    | none => rw [he] at hp; cases hp
    | some r => rw [he] at hp; cases hp; exact (stripText_suffix he).trans hw
  | identifier => exact orRest_suffix hw fun p hp => readIdentifier_suffix hp
  | identifierString => exact orRest_suffix hw fun p hp => readIdentifier_suffix hp
  | peekId => exact hw
  | peekC c => exact hw
  | peekWhite => exact List.suffix_refl _
  | atEnd => exact hw
  | integer => exact orRest_suffix hs fun p hp => readInteger_suffix hp
  | digits => exact orRest_suffix hw fun p hp => readNoSign_suffix hp
  | sizeT =>
    refine orRest_suffix ?_ fun p hp => readSizeT_suffix hp
    split
    · rename_i h
      exact readInteger_suffix h
    · exact hs
  | nonNegative => exact orRest_suffix hs fun p hp => readNonNegative_suffix hp
  | charsLeft => exact List.suffix_refl _

theorem onText_suffix {α : Type} : ∀ (p : ScanProg α) (t : Text), leftOf (p.onText t) <:+ t
  | .done _, t => List.suffix_refl t
  | .fail, t => List.suffix_refl t
  | .ask o k, t => by
    have h := op_suffix o t
    unfold onText
    rcases ho : o.onText t with r | ⟨b, t'⟩ <;> rw [ho] at h
    · exact h
    · exact (onText_suffix (k b) t').trans h

theorem readText_suffix {α : Type} (p : ScanProg α) (t : Text) {r : Text} (h : p.readText t = .error r) : r <:+ t := by
  have hs := onText_suffix p t
  unfold readText at h
  rcases ho : p.onText t with r' | ⟨a, r'⟩ <;> rw [ho] at h hs
  · cases h
    exact hs
  · simp only at h
    split at h
    · cases h
    · cases h
      exact (List.tail_suffix _).trans ((eatWhite_suffix r').trans hs)

theorem readText_run {α : Type} (p : ScanProg α) (t : Text) : dropRest (p.readText t) = (p.run t).bind fun x => if matchEOF x.2 then some x.1 else none := by
  unfold readText run
  rcases p.onText t with r' | ⟨a, r'⟩
  · rfl
  · show dropRest (if matchEOF r' = true then _ else _) = if matchEOF r' = true then _ else _
    split <;> rfl

theorem run_space (sf : Bool) (f : IOFormat) (t : Text) : (idealP sf f).run (' ' :: t) = (idealP sf f).run t := by
  rw [← run_white sf f (' ' :: t), ← run_white sf f t]
  rfl

/-- The reader for a given format, or for the format that is found. -/
theorem readText_ideal (sf : Bool) (format : Option IOFormat) (t : Text) :
    dropRest ((match format with | some f => idealP sf f | none => detectP >>= idealP sf).readText (' ' :: t)) =
      if sf then readSquareFreeIdeal (format.getD (autoDetect t)) t else readIdeal (format.getD (autoDetect t)) t := by
  rw [readText_run]
  cases format with
  | some f =>
    simp only [run_space]
    exact run_ideal sf f t
  | none =>
    obtain ⟨r, h1, h2⟩ := run_detect (' ' :: t)
    simp only [run_bind, h1, Option.bind_some]
    rw [← run_white sf _ r, h2, show eatWhite (' ' :: t) = eatWhite t from rfl, run_white, show autoDetect (' ' :: t) = autoDetect t from rfl]
    exact run_ideal sf _ t

theorem ascii_format (sf : Bool) (format : Option IOFormat) : (match format with | some f => idealP sf f | none => detectP >>= idealP sf).Ascii := by
  cases format with
  | some f => exact ascii_ideal sf f
  | none => exact ascii_bind ascii_detect fun f => ascii_ideal sf f

end ScanProg

end Frobby
