import Verif.CommandSpec
import Verif.PropsFactory
import Verif.PropsReader

/-!
# C61: the command line
-/

namespace Frobby

/-! ## names -/

theorem nodup_extensions {α : Type} {f : Factory α} (h : (f.map Prod.fst).Nodup) (pre : Text) : (f.extensions pre).Nodup := h.filter _

theorem standsFor_iff {α : Type} {f : Factory α} (h : (f.map Prod.fst).Nodup) (p x : Text) : f.uniqueName p = .ok x ↔ StandsFor (f.map Prod.fst) p x := by
  rw [C33_found]
  constructor
  · rintro (⟨h1, rfl⟩ | ⟨h1, h2⟩)
    · exact ⟨h1, .inl rfl⟩
    · have h3 := mem_extensions.1 (h2 ▸ List.mem_singleton_self x : x ∈ f.extensions p)
      exact ⟨h3.1, .inr ⟨h3.2, h1, fun y hy hp => List.mem_singleton.1 (h2 ▸ mem_extensions.2 ⟨hy, hp⟩)⟩⟩
  · rintro ⟨h1, rfl | ⟨h2, h3, h4⟩⟩
    · exact .inl ⟨h1, rfl⟩
    · refine .inr ⟨h3, ?_⟩
      have h5 : x ∈ f.extensions p := mem_extensions.2 ⟨h1, h2⟩
      exact List.perm_singleton.1 ((List.perm_ext_iff_of_nodup (nodup_extensions h p) (List.nodup_singleton x)).2 fun y => by
        rw [mem_extensions, List.mem_singleton]
        exact ⟨fun hy => h4 y hy.1 hy.2, fun hy => hy ▸ ⟨h1, h2⟩⟩)

theorem StandsFor.unique {names : List Text} {p x y : Text} (h1 : StandsFor names p x) (h2 : StandsFor names p y) : x = y := by
  obtain ⟨hx, rfl | ⟨h3, h4, h5⟩⟩ := h1
  · obtain ⟨hy, rfl | ⟨h6, h7, h8⟩⟩ := h2
    · rfl
    · exact absurd hx h7
  · obtain ⟨hy, rfl | ⟨h6, h7, h8⟩⟩ := h2
    · exact absurd hy h4
    · exact h8 x hx h3

/-! ## numbers -/

theorem isSpace_iff_blank {c : Char} : isSpace c = true ↔ Blank [c] := by
  constructor
  · intro h d hd
    rw [List.mem_singleton.1 hd]
    exact blank_of_isSpace h
  · intro h
    have := h c (by simp)
    rcases this with rfl | h
    · rfl
    · simp only [isSpace, decide_eq_true_eq]
      exact .inr h

theorem eatWhite_append {w : Text} (hw : Blank w) {u : Text} (hu : ∀ c ∈ u.head?, isSpace c = false) : eatWhite (w ++ u) = u := by
  induction w with
  | nil =>
    cases u with
    | nil => rfl
    | cons c u => rw [List.nil_append, eatWhite_cons, hu c rfl]; rfl
  | cons c w ih =>
    rw [List.cons_append, eatWhite_cons, if_pos (isSpace_iff_blank.2 fun d hd => hw d (by simp_all)), ih fun d hd => hw d (List.mem_cons_of_mem _ hd)]

/-- A digit, and then digits and blanks. -/
def DigitsText (u : Text) : Prop := (∃ d ∈ u.head?, '0' ≤ d ∧ d ≤ '9') ∧ ∀ c ∈ u, ('0' ≤ c ∧ c ≤ '9') ∨ Blank [c]

theorem digitsText_iff (u : Text) : (nextIs isDigit u && u.all fun c => isDigit c || isSpace c) = true ↔ DigitsText u := by
  rw [Bool.and_eq_true, List.all_eq_true, DigitsText]
  refine and_congr ?_ (forall₂_congr fun c _ => ?_)
  · cases u with
    | nil => simp [nextIs]
    | cons c u => simp [nextIs, isDigit_iff]
  · rw [Bool.or_eq_true, isDigit_iff, isSpace_iff_blank]

theorem filter_digits (u : Text) : digitsValue (u.filter isDigit) = valueIn 10 (u.filter fun c => '0' ≤ c ∧ c ≤ '9') := by
  rw [digitsValue_valueIn]
  congr 1

theorem parseMpz_iff (s : Text) (z : ℤ) : parseMpz s = some z ↔ NumberText s z := by
  have hnum : ∀ u : Text, parseDigits u = some (valueIn 10 (u.filter fun c => '0' ≤ c ∧ c ≤ '9')) ∧ DigitsText u ∨ parseDigits u = none ∧ ¬ DigitsText u := by
    intro u
    by_cases h : DigitsText u
    · exact .inl ⟨by rw [parseDigits, if_pos ((digitsText_iff u).2 h), filter_digits], h⟩
    · exact .inr ⟨if_neg fun h' => h ((digitsText_iff u).1 h'), h⟩
  have hdash : ∀ {w sign u : Text}, DigitsText u → Blank w → sign = [] ∨ sign = t!"-" → eatWhite (w ++ sign ++ u) = sign ++ u := by
    rintro w sign u ⟨⟨d, hd, hd'⟩, -⟩ hw hs
    rw [List.append_assoc]
    refine eatWhite_append hw ?_
    rcases hs with rfl | rfl
    · intro c hc
      rw [List.nil_append] at hc
      rw [Option.mem_def] at hc hd
      rw [hd] at hc
      obtain rfl := Option.some.inj hc
      exact isSpace_of_isDigit (isDigit_iff.2 hd')
    · intro c hc
      obtain rfl : '-' = c := by simpa using hc
      rfl
  unfold parseMpz
  constructor
  · intro h
    obtain ⟨w, hw, hs⟩ := eatWhite_blank s
    split at h
    · rename_i t ht
      obtain ⟨n, h1, h2⟩ := Option.map_eq_some_iff.1 h
      rcases hnum t with ⟨h3, h4⟩ | ⟨h3, -⟩
      · rw [h3] at h1
        obtain rfl := Option.some.inj h1
        exact ⟨w, t!"-", t, by rw [hs, ht]; simp, hw, h4.1, h4.2, .inr ⟨rfl, h2.symm⟩⟩
      · rw [h3] at h1
        exact nomatch h1
    · obtain ⟨n, h1, h2⟩ := Option.map_eq_some_iff.1 h
      rcases hnum (eatWhite s) with ⟨h3, h4⟩ | ⟨h3, -⟩
      · rw [h3] at h1
        obtain rfl := Option.some.inj h1
        exact ⟨w, [], eatWhite s, by rw [List.append_nil]; exact hs, hw, h4.1, h4.2, .inl ⟨rfl, h2.symm⟩⟩
      · rw [h3] at h1
        exact nomatch h1
  · rintro ⟨w, sign, u, rfl, hw, h1, h2, h3⟩
    have hd : DigitsText u := ⟨h1, h2⟩
    have hu := (hnum u).resolve_right fun h => h.2 hd
    rcases h3 with ⟨rfl, rfl⟩ | ⟨rfl, rfl⟩
    · rw [hdash hd hw (.inl rfl), List.nil_append]
      obtain ⟨d, hd1, hd2⟩ := h1
      cases u with
      | nil => exact nomatch hd1
      | cons c u =>
        obtain rfl : c = d := by simpa using hd1
        split
        · rename_i heq
          rw [List.cons.injEq] at heq
          rw [heq.1] at hd2
          exact absurd hd2 (by decide)
        · rw [hu.1]; rfl
    · rw [hdash hd hw (.inr rfl)]
      simp only [List.cons_append, List.nil_append]
      rw [hu.1]; rfl

/-! ## arguments -/

theorem process_iff (v : PVal) (args : List Text) (w : PVal) : v.process args = some w ↔ Sets v args w := by
  constructor
  · intro h
    unfold PVal.process at h
    split at h
    · obtain rfl := Option.some.inj h
      exact .flag _
    · split at h
      · rename_i ha
        obtain rfl := Option.some.inj h
        subst ha
        exact .off _
      · split at h
        · rename_i ha
          obtain rfl := Option.some.inj h
          subst ha
          exact .on _
        · exact nomatch h
    · obtain ⟨z, h1, h2⟩ := Option.bind_eq_some_iff.1 h
      split at h2
      · rename_i hz
        obtain rfl := Option.some.inj h2
        refine .int _ ((parseMpz_iff _ _).1 ?_) (by omega)
        rw [h1, Int.toNat_of_nonneg hz.1]
      · exact nomatch h2
    · obtain rfl := Option.some.inj h
      exact .str _ _
    · exact nomatch h
  · intro h
    cases h with
    | flag b => rfl
    | on b => rfl
    | off b => rfl
    | str s a => rfl
    | int n h1 h2 =>
      simp only [PVal.process]
      rw [(parseMpz_iff _ _).2 h1, Option.bind_some, if_pos ⟨by omega, by omega⟩, Int.toNat_natCast]

/-- The parameters with the name `x` get the value that the arguments stand for. -/
def setParam (P : Params) (x : Text) (args : List Text) : Params :=
  P.map fun p => if p.name = x then { p with value := (p.value.process args).getD p.value } else p

theorem processOption_spec {P : Params} (hn : (P.map Param.name).Nodup) {x : Text} (hx : x ∈ P.map Param.name) (args : List Text) :
    processOption P x args = if ∀ p ∈ P, p.name = x → (p.value.process args).isSome then .ok (setParam P x args) else .error := by
  induction P with
  | nil => exact absurd hx (by simp)
  | cons p P ih =>
    simp only [List.map_cons, List.nodup_cons] at hn
    simp only [processOption]
    by_cases hp : p.name = x
    · subst hp
      have hne : ∀ q ∈ P, q.name ≠ p.name := fun q hq h => hn.1 (h ▸ List.mem_map_of_mem hq)
      have hs : setParam P p.name args = P := by
        conv_rhs => rw [← List.map_id P]
        exact List.map_congr_left fun q hq => if_neg (hne q hq)
      rw [if_pos rfl]
      cases hv : p.value.process args with
      | none =>
        rw [if_neg]
        intro h
        have := h p (by simp) rfl
        simp [hv] at this
      | some v =>
        rw [if_pos]
        · simp only [setParam, List.map_cons, if_true, hv, Option.getD_some]
          rw [show (P.map fun q : Param => if q.name = p.name then { q with value := (q.value.process args).getD q.value } else q) = P from hs]
        · intro q hq hqn
          rcases List.mem_cons.1 hq with rfl | hq
          · simp [hv]
          · exact absurd hqn (hne q hq)
    · rw [if_neg hp, ih hn.2 ((List.mem_cons.1 (List.map_cons ▸ hx)).resolve_left fun h => hp h.symm)]
      by_cases hall : ∀ q ∈ P, q.name = x → (q.value.process args).isSome
      · rw [if_pos hall, if_pos]
        · simp only [setParam, List.map_cons, if_neg hp]
        · intro q hq hqn
          rcases List.mem_cons.1 hq with rfl | hq
          · exact absurd hqn hp
          · exact hall q hq hqn
      · rw [if_neg hall, if_neg]
        exact fun h => hall fun q hq => h q (List.mem_cons_of_mem _ hq)

/-! ## the kind of a value does not change -/

/-- Two values of the same kind. -/
def PVal.SameKind : PVal → PVal → Prop
  | .bool _, .bool _ => True
  | .int _, .int _ => True
  | .str _, .str _ => True
  | _, _ => False

theorem PVal.SameKind.refl (v : PVal) : v.SameKind v := by cases v <;> trivial

theorem PVal.SameKind.process {v w : PVal} (h : v.SameKind w) (args : List Text) : v.process args = w.process args := by
  cases v <;> cases w <;> first
    | exact h.elim
    | (cases args with
       | nil => rfl
       | cons a l => cases l <;> rfl)

theorem Sets.sameKind {v w : PVal} {args : List Text} (h : Sets v args w) : v.SameKind w := by cases h <;> trivial

/-- One parameter after an option. -/
def setOne (o : Text × List Text) (p : Param) : Param := if p.name = o.1 then { p with value := (p.value.process o.2).getD p.value } else p

theorem setOne_name (o : Text × List Text) (p : Param) : (setOne o p).name = p.name := by unfold setOne; split <;> rfl

theorem setOne_kind (o : Text × List Text) (p : Param) : p.value.SameKind (setOne o p).value := by
  unfold setOne
  split
  · simp only
    cases hv : p.value.process o.2 with
    | none => exact .refl _
    | some v => exact ((process_iff _ _ _).1 hv).sameKind
  · exact .refl _

/-- One parameter after all the options. -/
def setAll (os : List (Text × List Text)) (p : Param) : Param := os.foldl (fun p o => setOne o p) p

theorem setAll_name (os : List (Text × List Text)) : ∀ p, (setAll os p).name = p.name := by
  induction os with
  | nil => exact fun p => rfl
  | cons o os ih => exact fun p => (ih _).trans (setOne_name o p)

/-- The arguments of each option are right. -/
def ValidOptions (P : Params) (os : List (Text × List Text)) : Prop := ∀ o ∈ os, ∀ p ∈ P, p.name = o.1 → (p.value.process o.2).isSome

theorem valid_map (P : Params) (o : Text × List Text) (os : List (Text × List Text)) : ValidOptions (P.map (setOne o)) os ↔ ValidOptions P os := by
  refine forall₂_congr fun o' _ => ?_
  rw [List.forall_mem_map]
  refine forall₂_congr fun p _ => ?_
  rw [setOne_name, ← (setOne_kind o p).process]

theorem setAll_value (os : List (Text × List Text)) : ∀ p : Param, (∀ o ∈ os, p.name = o.1 → (p.value.process o.2).isSome) →
    HasValue os p (setAll os p).value := by
  induction os with
  | nil => exact fun p _ => rfl
  | cons o os ih =>
    intro p hv
    have h1 := ih (setOne o p) fun o' ho' hn => by
      rw [← (setOne_kind o p).process]
      exact hv o' (List.mem_cons_of_mem _ ho') (setOne_name o p ▸ hn)
    rw [show setAll (o :: os) p = setAll os (setOne o p) from rfl]
    unfold HasValue at h1 ⊢
    rw [setOne_name] at h1
    rw [List.filter_cons]
    cases hl : (os.filter fun o => o.1 = p.name).getLast? with
    | none =>
      rw [hl] at h1
      have hl' : (os.filter fun o => o.1 = p.name) = [] := List.getLast?_eq_none_iff.1 hl
      rw [hl', h1]
      by_cases ho : o.1 = p.name
      · simp only [ho, decide_true, if_true, List.getLast?_singleton]
        obtain ⟨v, hp⟩ := Option.isSome_iff_exists.1 (hv o (by simp) ho.symm)
        rw [← process_iff, hp]
        simp [setOne, ho, hp]
      · simp only [ho, decide_false, Bool.false_eq_true, if_false, List.getLast?_nil]
        simp [setOne, Ne.symm ho]
    | some o' =>
      rw [hl] at h1
      have hne : (os.filter fun o => o.1 = p.name) ≠ [] := fun h => by rw [h] at hl; exact nomatch hl
      have h2 : (if decide (o.1 = p.name) = true then o :: os.filter (fun o => o.1 = p.name) else os.filter fun o => o.1 = p.name).getLast? = some o' := by
        split
        · obtain ⟨x, l, hx⟩ := List.exists_cons_of_ne_nil hne
          rw [hx, List.getLast?_cons_cons, ← hx, hl]
        · exact hl
      rw [h2]
      simp only at h1 ⊢
      rw [← process_iff] at h1 ⊢
      rw [(setOne_kind o p).process]
      exact h1

/-! ## the loop -/

theorem processOption_eq {P : Params} (hn : (P.map Param.name).Nodup) {x : Text} (hx : x ∈ P.map Param.name) (args : List Text) :
    ((∀ p ∈ P, p.name = x → (p.value.process args).isSome) → processOption P x args = .ok (P.map (setOne (x, args)))) ∧
    ((¬ ∀ p ∈ P, p.name = x → (p.value.process args).isSome) → processOption P x args = .error) := by
  rw [processOption_spec hn hx]
  exact ⟨fun h => if_pos h, fun h => if_neg h⟩

theorem head_dash {t : Text} : isOption t = true ↔ ∃ p, t = '-' :: p := by
  cases t with
  | nil => simp [isOption, nextIs]
  | cons c t => simp [isOption, nextIs]

theorem not_dash {t : Text} : t.head? ≠ some '-' ↔ isOption t = false := by
  cases t with
  | nil => simp [isOption, nextIs]
  | cons c t => simp [isOption, nextIs]

theorem Line.start {names : List Text} {toks : List Text} {os : List (Text × List Text)} (h : Line names toks os) : ∀ t ∈ toks.head?, isOption t = true := by
  cases h with
  | nil => exact fun t ht => nomatch ht
  | cons h1 h2 h3 =>
    intro t ht
    rw [head_dash]
    simp only [List.cons_append, List.head?_cons, Option.mem_def, Option.some.injEq] at ht
    exact ⟨_, ht.symm⟩

/-- The arguments are the tokens up to the next option. -/
theorem split_args {args rest : List Text} (h1 : ∀ a ∈ args, a.head? ≠ some '-') (h2 : ∀ t ∈ rest.head?, isOption t = true) :
    (args ++ rest).takeWhile (fun t => !isOption t) = args ∧ (args ++ rest).dropWhile (fun t => !isOption t) = rest := by
  have h3 : ∀ a ∈ args, (!isOption a) = true := fun a ha => by rw [not_dash.1 (h1 a ha)]; rfl
  have h4 : rest.takeWhile (fun t => !isOption t) = [] ∧ rest.dropWhile (fun t => !isOption t) = rest := by
    cases rest with
    | nil => exact ⟨rfl, rfl⟩
    | cons t rest =>
      have := h2 t rfl
      simp [this]
  rw [List.takeWhile_append_of_pos h3, List.dropWhile_append_of_pos h3, h4.1, h4.2, List.append_nil]
  exact ⟨rfl, rfl⟩

theorem paramNames_fst (P : Params) : (paramNames P).map Prod.fst = P.map Param.name := by
  rw [paramNames, List.map_map]; rfl

theorem parse_line {P0 : Params} (hn0 : (P0.map Param.name).Nodup) {toks : List Text} {os : List (Text × List Text)}
    (h : Line (P0.map Param.name) toks os) : ∀ (fuel : ℕ) (P : Params), P.map Param.name = P0.map Param.name → toks.length ≤ fuel →
      (ValidOptions P os → parseTokens (paramNames P0) fuel P toks = .ok (P.map (setAll os))) ∧
      (¬ ValidOptions P os → parseTokens (paramNames P0) fuel P toks = .error) := by
  induction h with
  | nil =>
    intro fuel P _ _
    refine ⟨fun _ => ?_, fun hv => absurd (fun o ho => nomatch ho) hv⟩
    have : P.map (setAll []) = P := by
      conv_rhs => rw [← List.map_id P]
      exact List.map_congr_left fun p _ => rfl
    rw [this]
    cases fuel <;> rfl
  | @cons p x args rest os h1 h2 h3 ih =>
    intro fuel P hP hf
    cases fuel with
    | zero => exact absurd hf (by simp)
    | succ fuel =>
      have h4 := split_args h2 h3.start
      have h5 : (paramNames P0).uniqueName p = .ok x := (standsFor_iff (paramNames_fst P0 ▸ hn0) p x).2 (paramNames_fst P0 ▸ h1)
      have hx : x ∈ P.map Param.name := hP ▸ h1.1
      obtain ⟨h6, h7⟩ := processOption_eq (hP ▸ hn0) hx args
      have h8 : parseTokens (paramNames P0) (fuel + 1) P (('-' :: p) :: args ++ rest) =
          match processOption P x args with
          | .error => .error
          | .crash => .crash
          | .ok P' => parseTokens (paramNames P0) fuel P' rest := by
        rw [List.cons_append, parseTokens, if_neg (by simp [isOption, nextIs]), List.tail_cons, h5, h4.1, h4.2]
        rfl
      have hP' : (P.map (setOne (x, args))).map Param.name = P0.map Param.name := by
        rw [← hP, List.map_map]
        exact List.map_congr_left fun p _ => setOne_name _ p
      obtain ⟨i1, i2⟩ := ih fuel (P.map (setOne (x, args))) hP' (by
        simp only [List.cons_append, List.length_cons, List.length_append] at hf
        omega)
      have hcons : ValidOptions P ((x, args) :: os) ↔ (∀ p ∈ P, p.name = x → (p.value.process args).isSome) ∧ ValidOptions P os := by
        simp [ValidOptions]
      rw [h8, hcons]
      by_cases hv : ∀ p ∈ P, p.name = x → (p.value.process args).isSome
      · rw [h6 hv]
        rw [valid_map] at i1 i2
        simp only
        refine ⟨fun h => ?_, fun h => i2 fun h' => h ⟨hv, h'⟩⟩
        rw [i1 h.2, List.map_map]
        rfl
      · rw [h7 hv]
        exact ⟨fun h => absurd h.1 hv, fun _ => rfl⟩

theorem mem_takeWhile_imp' {α : Type} {f : α → Bool} {a : α} : ∀ {l : List α}, a ∈ l.takeWhile f → f a = true := by
  intro l
  induction l with
  | nil => exact fun h => nomatch h
  | cons b l ih =>
    rw [List.takeWhile_cons]
    split
    · rename_i hb
      rintro (_ | ⟨_, h⟩)
      · exact hb
      · exact ih h
    · exact fun h => nomatch h

theorem parse_no_line {P0 : Params} (hn0 : (P0.map Param.name).Nodup) : ∀ (fuel : ℕ) (P : Params) (toks : List Text), P.map Param.name = P0.map Param.name →
    toks.length ≤ fuel → (∀ os, ¬ Line (P0.map Param.name) toks os) → parseTokens (paramNames P0) fuel P toks = .error := by
  intro fuel
  induction fuel with
  | zero =>
    intro P toks _ hf h
    obtain rfl := List.length_eq_zero_iff.1 (Nat.le_zero.1 hf)
    exact absurd .nil (h [])
  | succ fuel ih =>
    intro P toks hP hf h
    cases toks with
    | nil => exact absurd .nil (h [])
    | cons tok toks =>
      rw [parseTokens]
      by_cases ht : isOption tok = true
      · obtain ⟨p, rfl⟩ := head_dash.1 ht
        rw [if_neg (by simp [ht]), List.tail_cons]
        cases hu : (paramNames P0).uniqueName p with
        | error e => rfl
        | ok x =>
          have h1 := paramNames_fst P0 ▸ (standsFor_iff (paramNames_fst P0 ▸ hn0) p x).1 hu
          simp only
          obtain ⟨h6, h7⟩ := processOption_eq (hP ▸ hn0) (hP ▸ h1.1 : x ∈ P.map Param.name) (toks.takeWhile fun t => !isOption t)
          by_cases hv : ∀ q ∈ P, q.name = x → (q.value.process (toks.takeWhile fun t => !isOption t)).isSome
          · rw [h6 hv]
            simp only
            refine ih _ _ ?_ ?_ fun os hl => ?_
            · rw [← hP, List.map_map]
              exact List.map_congr_left fun p _ => setOne_name _ p
            · have := (List.dropWhile_sublist (p := fun t => !isOption t) (l := toks)).length_le
              simp only [List.length_cons] at hf
              omega
            · refine h ((x, toks.takeWhile fun t => !isOption t) :: os) ?_
              have := Line.cons h1 (args := toks.takeWhile fun t => !isOption t) (fun a ha => not_dash.2 (by simpa using mem_takeWhile_imp' ha)) hl
              rwa [List.cons_append, List.takeWhile_append_dropWhile] at this
          · rw [h7 hv]
      · rw [if_pos (by simp [ht])]

/-! ## the theorems -/

theorem accepts_iff {P : Params} {toks : List Text} {os : List (Text × List Text)} : Accepts P toks os ↔ Line (P.map Param.name) toks os ∧ ValidOptions P os := by
  refine and_congr_right fun _ => forall₂_congr fun o _ => forall₂_congr fun p _ => forall_congr' fun _ => ?_
  rw [Option.isSome_iff_exists]
  exact exists_congr fun v => (process_iff _ _ _).symm

/-- C61: **a correct command line sets exactly the options that it names**: each parameter has the value of the last option that stands for it, and the others keep
their defaults. -/
theorem C61_accept {P : Params} (hn : (P.map Param.name).Nodup) {toks : List Text} {os : List (Text × List Text)} (h : Accepts P toks os) :
    ∃ P', parseCommandLine P toks = .ok P' ∧ List.Forall₂ (fun p q => q.name = p.name ∧ HasValue os p q.value) P P' := by
  obtain ⟨h1, h2⟩ := accepts_iff.1 h
  refine ⟨_, (parse_line hn h1 toks.length P rfl (le_refl _)).1 h2, ?_⟩
  rw [List.forall₂_map_right_iff, List.forall₂_same]
  exact fun p hp => ⟨setAll_name os p, setAll_value os p fun o ho hn => h2 o ho p hp hn⟩

/-- C61: **every other command line is reported as an error**, and there is no internal error. -/
theorem C61_reject {P : Params} (hn : (P.map Param.name).Nodup) {toks : List Text} (h : ∀ os, ¬ Accepts P toks os) : parseCommandLine P toks = .error := by
  by_cases hl : ∃ os, Line (P.map Param.name) toks os
  · obtain ⟨os, hl⟩ := hl
    exact (parse_line hn hl toks.length P rfl (le_refl _)).2 fun hv => h os (accepts_iff.2 ⟨hl, hv⟩)
  · exact parse_no_line hn _ _ _ rfl (le_refl _) fun os hos => hl ⟨os, hos⟩

/-- C61: there is only one way to read a command line. -/
theorem C61_unique {names : List Text} {toks : List Text} {os os' : List (Text × List Text)} (h : Line names toks os) (h' : Line names toks os') : os = os' := by
  induction h generalizing os' with
  | nil => cases h'; rfl
  | @cons p x args rest os h1 h2 h3 ih =>
    generalize ht : ('-' :: p) :: args ++ rest = toks at h'
    cases h' with
    | nil => simp at ht
    | @cons p' x' args' rest' os' h1' h2' h3' =>
      simp only [List.cons_append, List.cons.injEq, true_and] at ht
      obtain ⟨rfl, ht⟩ := ht
      have h4 := split_args h2 h3.start
      have h5 := split_args h2' h3'.start
      rw [ht] at h4
      obtain rfl := h4.1.symm.trans h5.1
      obtain rfl := h4.2.symm.trans h5.2
      rw [h1.unique h1', ih h3']

theorem Sets.unique {v w w' : PVal} {args : List Text} (h : Sets v args w) (h' : Sets v args w') : w = w' := by
  rw [← process_iff] at h h'
  exact Option.some.inj (h.symm.trans h')

theorem HasValue.unique {os : List (Text × List Text)} {p : Param} {v w : PVal} (h : HasValue os p v) (h' : HasValue os p w) : v = w := by
  unfold HasValue at h h'
  cases hl : (os.filter fun o => o.1 = p.name).getLast? with
  | none => rw [hl] at h h'; exact h.trans h'.symm
  | some o => rw [hl] at h h'; exact Sets.unique h h'

theorem getParam_of_forall₂ {R : Param → PVal → Prop} {P P' : Params} (h : List.Forall₂ (fun p q => q.name = p.name ∧ R p q.value) P P') :
    (P.map Param.name).Nodup → ∀ p ∈ P, ∃ v, getParam P' p.name = some v ∧ R p v := by
  induction h with
  | nil => exact fun _ p hp => nomatch hp
  | @cons a b l l' hab _ ih =>
    intro hn p hp
    rw [List.map_cons, List.nodup_cons] at hn
    rw [getParam]
    rcases List.mem_cons.1 hp with rfl | hp
    · exact ⟨b.value, if_pos hab.1, hab.2⟩
    · rw [if_neg fun he : b.name = p.name => hn.1 (hab.1.symm.trans he ▸ List.mem_map_of_mem hp)]
      exact ih hn.2 p hp

/-- C61: after a correct command line, looking up a parameter gives the value of the last option that stands for it, or the default. The value is of the kind of the
parameter. -/
theorem C61_value {P P' : Params} (hn : (P.map Param.name).Nodup) {toks : List Text} {os : List (Text × List Text)} (h : Accepts P toks os)
    (hr : parseCommandLine P toks = .ok P') {p : Param} (hp : p ∈ P) : ∃ v, getParam P' p.name = some v ∧ HasValue os p v ∧ p.value.SameKind v := by
  obtain ⟨P'', h1, h2⟩ := C61_accept hn h
  obtain rfl := Outcome.ok.inj (hr.symm.trans h1)
  obtain ⟨v, h3, h4⟩ := getParam_of_forall₂ h2 hn p hp
  refine ⟨v, h3, h4, ?_⟩
  unfold HasValue at h4
  split at h4
  · exact h4 ▸ .refl _
  · exact h4.sameKind

theorem lookup_iff {α : Type} {f : Factory α} (hn : (f.map Prod.fst).Nodup) (p : Text) (a : α) :
    f.createWithPrefix p = .ok (some a) ↔ ∃ x, StandsFor (f.map Prod.fst) p x ∧ (x, a) ∈ f := by
  constructor
  · intro h
    cases hu : f.uniqueName p with
    | error e => rw [Factory.createWithPrefix, hu] at h; exact nomatch h
    | ok x =>
      obtain ⟨b, h1, _, h2⟩ := C33_create f p x hu
      rw [h] at h1
      obtain rfl : a = b := by simpa using h1
      exact ⟨x, (standsFor_iff hn p x).1 hu, h2⟩
  · rintro ⟨x, h1, h2⟩
    obtain ⟨b, h3, _, h4⟩ := C33_create f p x ((standsFor_iff hn p x).2 h1)
    rw [h3, (Prod.mk.inj (List.inj_on_of_nodup_map hn h2 h4 rfl)).2]

theorem actionFactory_nodup : (actionFactory.map Prod.fst).Nodup := by decide +kernel

/-- C61: **the first token chooses the action that it stands for**, and everything else is reported as an error. -/
theorem C61_action (tok : Text) (toks toks' : List Text) (k : ActionKind) : createAction (tok :: toks) = some (k, toks') ↔
    toks' = toks ∧ ∃ x, StandsFor (actionFactory.map Prod.fst) tok x ∧ (x, k) ∈ actionFactory := by
  rw [← lookup_iff actionFactory_nodup]
  rw [createAction]
  split
  · rename_i k' h
    rw [h]
    simp only [Option.some.injEq, Prod.mk.injEq, Except.ok.injEq]
    exact ⟨fun h => ⟨h.2.symm, h.1⟩, fun h => ⟨h.2, h.1.symm⟩⟩
  · rename_i h
    exact ⟨fun h' => (nomatch h'), fun h' => absurd h'.2 (h k)⟩

/-- C61: the names of the parameters of each action are different, so that the theorems above hold for each of them. -/
theorem C61_names (k : ActionKind) : (k.params.map Param.name).Nodup := by cases k <;> decide +kernel

/-- C61: **a command line never ends in an internal error**: it is either correct or reported as an error. -/
theorem C61_no_crash (k : ActionKind) (toks : List Text) : parseAction k toks ≠ .crash := by
  have key : ∀ toks, parseCommandLine k.params toks ≠ .crash := fun toks h => by
    by_cases h1 : ∃ os, Accepts k.params toks os
    · obtain ⟨os, h1⟩ := h1
      obtain ⟨P', h2, _⟩ := C61_accept (C61_names k) h1
      exact nomatch h.symm.trans h2
    · exact nomatch h.symm.trans (C61_reject (C61_names k) fun os hos => h1 ⟨os, hos⟩)
  unfold parseAction
  split
  · split
    · exact key _
    · exact key _
  · exact key _

/-! ## examples -/

/-- `hilbert -iformat m2 -univ -min off -minimal` with abbreviated names, and with an option that is given twice. -/
theorem C61_example_line : Accepts ActionKind.hilbert.params [t!"-iformat", t!"m2", t!"-univ", t!"-min", t!"off", t!"-minimal"]
    [(t!"iformat", [t!"m2"]), (t!"univariate", []), (t!"minimal", [t!"off"]), (t!"minimal", [])] := by
  refine ⟨.cons (p := t!"iformat") (args := [t!"m2"]) ?_ (by decide) (.cons (p := t!"univ") (args := []) ?_ (by decide)
    (.cons (p := t!"min") (args := [t!"off"]) ?_ (by decide) (.cons (p := t!"minimal") (args := []) ?_ (by decide) .nil))), ?_⟩
  · unfold StandsFor; decide +kernel
  · unfold StandsFor; decide +kernel
  · unfold StandsFor; decide +kernel
  · unfold StandsFor; decide +kernel
  · simp only [← process_iff, ← Option.isSome_iff_exists]
    decide +kernel

example : ∃ P, parseAction .hilbert [t!"-iformat", t!"m2", t!"-univ", t!"-min", t!"off", t!"-minimal"] = .ok P ∧ getBool P t!"minimal" = some true ∧
    getBool P t!"univariate" = some true ∧ getString P t!"iformat" = some t!"m2" ∧ getString P t!"oformat" = some t!"input" :=
  ⟨_, rfl, by decide +kernel⟩

/-- `-s` could be any of three options. -/
example : parseAction .hilbert [t!"-s"] = .error := by decide +kernel

/-- A token that is not an option. -/
example : parseAction .hilbert [t!"m2"] = .error := by decide +kernel

/-- The limit of an integer is not the one in the message about it, and blanks are left out. -/
example : (∃ P, parseAction .optimize [t!"-displayLevel", t!" 42 94967295"] = .ok P ∧ getInt P t!"displayLevel" = some 4294967295) ∧
    parseAction .optimize [t!"-displayLevel", t!"4294967296"] = .error ∧ parseAction .optimize [t!"-displayLevel", t!"-1"] = .error ∧
    parseAction .optimize [t!"-displayLevel", t!"+1"] = .error := ⟨⟨_, rfl, by decide +kernel⟩, by decide +kernel⟩

/-- `h` could be `hilbert` or `help`, and `hi` is `hilbert`. -/
example : createAction [t!"h"] = none ∧ createAction [t!"hi", t!"-time"] = some (.hilbert, [t!"-time"]) ∧ createAction [] = some (.help, []) := by decide +kernel

end Frobby
