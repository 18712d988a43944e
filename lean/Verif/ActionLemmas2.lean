import Verif.ActionLemmas
import Verif.PropsIO

/-!
# Lemmas about the actions: what is written and how it is read back
-/

namespace Frobby

variable {n : ℕ}

/-! ## the order of the output, on exponents -/

/-- `TermTranslator::lessThanReverseLex` on exponents. -/
def vecLess (a b : Term n) : Bool := translatedLess (fun _ i => (i : ℤ)) a b

/-- The generators in the canonical order. -/
def vecSort (I : List (Term n)) : List (Term n) := I.insertionSort fun a b => vecLess b a = false

/-- `idealLessThan` on exponents. -/
def vecIdealLess (a b : List (Term n)) : Bool := translatedIdealLess (fun _ i => (i : ℤ)) a b

/-- The ideals and their generators in the canonical order. -/
def vecSortList (Is : List (List (Term n))) : List (List (Term n)) :=
  ((Is.reverse.map vecSort).insertionSort fun a b => vecIdealLess b a = false).map vecSort

/-- The terms are translated to the exponents given by `X`. -/
structure Translates (T : Translator n) (X : Term n → Term n) (t : Term n) : Prop where
  big : T.bigTerm t = some (List.ofFn (X t))
  exponent : ∀ v, T.exponent v (t v) = (X t v : ℤ)

theorem translates_of {T : Translator n} {X : Term n → Term n} {t : Term n} (h : T.translate t = some fun v => (X t v : ℤ)) : Translates T X t := by
  refine ⟨?_, fun v => ?_⟩
  · unfold Translator.bigTerm
    rw [h]
    simp
  · unfold Translator.translate at h
    split at h
    · rename_i h1
      simp only [Option.some.injEq] at h
      rw [← congrFun h v]
      exact List.getD_eq_getElem _ _ (h1 v)
    · simp at h

theorem translatedLoop_congr {e e' : Fin n → ℕ → ℤ} {a b a' b' : Term n} (ha : ∀ v, e v (a v) = e' v (a' v)) (hb : ∀ v, e v (b v) = e' v (b' v)) :
    ∀ vs, translatedLessLoop e a b vs = translatedLessLoop e' a' b' vs := by
  intro vs
  induction vs with
  | nil => rfl
  | cons v vs ih => simp only [translatedLessLoop, ha, hb, ih]

theorem Translates.less {T : Translator n} {X : Term n → Term n} {a b : Term n} (ha : Translates T X a) (hb : Translates T X b) :
    translatedLess T.exponent a b = vecLess (X a) (X b) := translatedLoop_congr ha.exponent hb.exponent _

theorem Translates.idealLess {T : Translator n} {X : Term n → Term n} : ∀ {a b : List (Term n)}, (∀ t ∈ a, Translates T X t) → (∀ t ∈ b, Translates T X t) →
    translatedIdealLess T.exponent a b = vecIdealLess (a.map X) (b.map X)
  | [], _, _, _ => rfl
  | _ :: _, [], _, _ => rfl
  | a :: as, b :: bs, ha, hb => by
    have ih := Translates.idealLess (a := as) (b := bs) (fun t ht => ha t (by simp [ht])) (fun t ht => hb t (by simp [ht]))
    have h1 := (ha a (by simp)).less (hb b (by simp))
    have h2 := (hb b (by simp)).less (ha a (by simp))
    unfold translatedIdealLess vecIdealLess at ih ⊢
    unfold vecLess at h1 h2
    unfold translatedIdealLess at ih ⊢
    simp only [idealLessImpl, List.map_cons, h1, h2, ih]

theorem map_canonSort {T : Translator n} {X : Term n → Term n} {I : List (Term n)} (h : ∀ t ∈ I, Translates T X t) :
    (I.insertionSort fun a b => translatedLess T.exponent b a = false).map X = vecSort (I.map X) := by
  unfold vecSort
  exact List.map_insertionSort (r := fun a b => translatedLess T.exponent b a = false) (s := fun a b => vecLess b a = false) X I
    fun a ha b hb => by rw [(h b hb).less (h a ha)]

theorem mem_canonSort {T : Translator n} {I : List (Term n)} {t : Term n} :
    t ∈ (I.insertionSort fun a b => translatedLess T.exponent b a = false) ↔ t ∈ I := List.mem_insertionSort _

theorem map_canonSortList {T : Translator n} {X : Term n → Term n} {Is : List (List (Term n))} (h : ∀ I ∈ Is, ∀ t ∈ I, Translates T X t) :
    ((((Is.reverse.map fun I => I.insertionSort fun a b => translatedLess T.exponent b a = false).insertionSort
        fun a b => translatedIdealLess T.exponent b a = false).map fun I => I.insertionSort fun a b => translatedLess T.exponent b a = false).map (List.map X)) =
      vecSortList (Is.map (List.map X)) := by
  have h1 : ∀ I ∈ Is.reverse.map (fun I => I.insertionSort fun a b => translatedLess T.exponent b a = false), ∀ t ∈ I, Translates T X t := by
    intro I hI t ht
    obtain ⟨J, hJ, rfl⟩ := List.mem_map.1 hI
    exact h J (List.mem_reverse.1 hJ) t (mem_canonSort.1 ht)
  have h2 : (Is.reverse.map fun I => I.insertionSort fun a b => translatedLess T.exponent b a = false).map (List.map X) =
      (Is.map (List.map X)).reverse.map vecSort := by
    rw [List.map_map, ← List.map_reverse, List.map_map]
    refine List.map_congr_left fun I hI => ?_
    exact map_canonSort (h I (List.mem_reverse.1 hI))
  unfold vecSortList
  rw [← h2, List.map_map]
  generalize (Is.reverse.map fun I => I.insertionSort fun a b => translatedLess T.exponent b a = false) = Js at h1 h2
  rw [← List.map_insertionSort (r := fun a b => translatedIdealLess T.exponent b a = false) (s := fun a b => vecIdealLess b a = false) (List.map X) Js
    fun a ha b hb => by rw [Translates.idealLess (h1 b hb) (h1 a ha)], List.map_map]
  refine List.map_congr_left fun I hI => ?_
  exact map_canonSort (h1 I ((List.mem_insertionSort _).1 hI))

/-! ## the calls of the writer -/

/-- The calls for an ideal. -/
def bigIdeal (I : List (Term n)) : List BigEvent := .begin :: I.map (fun t => .term (List.ofFn t)) ++ [.done]

/-- The calls for a list of ideals. -/
def bigList (Is : List (List (Term n))) : List BigEvent := .beginList :: Is.flatMap bigIdeal ++ [.doneList]

theorem mapM_append {α β : Type} {f : α → Option β} {a b : List α} {x y : List β} (ha : a.mapM f = some x) (hb : b.mapM f = some y) :
    (a ++ b).mapM f = some (x ++ y) := by
  rw [List.mapM_append, ha, hb]
  rfl

theorem mapM_wrap {α β : Type} {f : α → Option β} {x y : α} {a b : β} {l : List α} {r : List β} (hx : f x = some a) (hl : l.mapM f = some r) (hy : f y = some b) :
    (x :: l ++ [y]).mapM f = some (a :: r ++ [b]) := by
  refine mapM_append ?_ ?_
  · rw [List.mapM_cons, hx, hl]; rfl
  · rw [List.mapM_cons, hy]; rfl

theorem translate_ideal {T : Translator n} {X : Term n → Term n} {I : List (Term n)} (h : ∀ t ∈ I, Translates T X t) :
    (idealEvents I).mapM (translateEvent T) = some (bigIdeal (I.map X)) := by
  have h1 : (I.map TermEvent.term).mapM (translateEvent T) = some ((I.map X).map fun t => .term (List.ofFn t)) := by
    induction I with
    | nil => rfl
    | cons t I ih =>
      rw [List.map_cons, List.mapM_cons, ih fun s hs => h s (by simp [hs])]
      simp only [translateEvent, (h t (by simp)).big]
      rfl
  exact mapM_wrap rfl h1 rfl

theorem translate_ideals {T : Translator n} {X : Term n → Term n} {Is : List (List (Term n))} (h : ∀ I ∈ Is, ∀ t ∈ I, Translates T X t) :
    (Is.flatMap idealEvents).mapM (translateEvent T) = some ((Is.map (List.map X)).flatMap bigIdeal) := by
  induction Is with
  | nil => rfl
  | cons I Is ih =>
    rw [List.flatMap_cons, List.map_cons, List.flatMap_cons]
    exact mapM_append (translate_ideal fun t ht => h I (by simp) t ht) (ih fun J hJ => h J (by simp [hJ]))

theorem translate_list {T : Translator n} {X : Term n → Term n} {Is : List (List (Term n))} (h : ∀ I ∈ Is, ∀ t ∈ I, Translates T X t) :
    (listEvents Is).mapM (translateEvent T) = some (bigList (Is.map (List.map X))) := by
  exact mapM_wrap rfl (translate_ideals h) rfl

theorem canonicalEvents_ideal (canon : Bool) (T : Translator n) (I : List (Term n)) : canonicalEvents canon T (idealEvents I) =
    some (idealEvents (if canon then I.insertionSort fun a b => translatedLess T.exponent b a = false else I)) := by
  unfold canonicalEvents
  cases canon
  · rfl
  · exact Canon.run_single _ _ I

theorem canonicalEvents_list (canon : Bool) (T : Translator n) (Is : List (List (Term n))) : canonicalEvents canon T (listEvents Is) =
    some (listEvents (if canon then ((Is.reverse.map fun I => I.insertionSort fun a b => translatedLess T.exponent b a = false).insertionSort
        fun a b => translatedIdealLess T.exponent b a = false).map fun I => I.insertionSort fun a b => translatedLess T.exponent b a = false else Is)) := by
  unfold canonicalEvents
  cases canon
  · rfl
  · exact Canon.run_list _ _ Is

theorem outputWith_ideal (canon : Bool) (w : CallWriter) (names : List Text) {T : Translator n} {X : Term n → Term n} {I : List (Term n)}
    (h : ∀ t ∈ I, Translates T X t) : outputWith canon false w names T (idealEvents I) =
      some (w names (bigIdeal (if canon then vecSort (I.map X) else I.map X))) := by
  unfold outputWith
  rw [canonicalEvents_ideal]
  simp only [Option.bind_some, Bool.false_eq_true, if_false]
  cases canon
  · simp only [Bool.false_eq_true, if_false]
    rw [translate_ideal h]
    rfl
  · simp only [if_true]
    rw [translate_ideal fun t ht => h t (mem_canonSort.1 ht), map_canonSort h]
    rfl

theorem outputWith_list (canon : Bool) (w : CallWriter) (names : List Text) {T : Translator n} {X : Term n → Term n} {Is : List (List (Term n))}
    (h : ∀ I ∈ Is, ∀ t ∈ I, Translates T X t) : outputWith canon false w names T (listEvents Is) =
      some (w names (bigList (if canon then vecSortList (Is.map (List.map X)) else Is.map (List.map X)))) := by
  unfold outputWith
  rw [canonicalEvents_list]
  simp only [Option.bind_some, Bool.false_eq_true, if_false]
  cases canon
  · simp only [Bool.false_eq_true, if_false]
    rw [translate_list h]
    rfl
  · simp only [if_true]
    rw [translate_list, map_canonSortList h]
    · rfl
    · intro I hI t ht
      obtain ⟨J, hJ, rfl⟩ := List.mem_map.1 hI
      have hJ' := (List.mem_insertionSort _).1 hJ
      obtain ⟨K, hK, rfl⟩ := List.mem_map.1 hJ'
      exact h K (List.mem_reverse.1 hK) t (mem_canonSort.1 (mem_canonSort.1 ht))

/-! ## irreducible components as ideals -/

/-- The generators of the irreducible ideal with exponents `d`. -/
def irrGens (d : Term n) : List (Term n) := ((List.finRange n).filter fun v => decide (d v ≠ 0)).map fun v => Term.single v (d v)

theorem splitEvents_terms (T : Translator n) (b : Bool) (I : List (Term n)) (es : List (TermEvent n)) :
    splitEvents T b (I.map .term ++ es) = I.flatMap (splitTerm T) ++ splitEvents T b es := by
  induction I with
  | nil => rfl
  | cons t I ih => rw [List.map_cons, List.cons_append, splitEvents, ih, List.flatMap_cons, List.append_assoc]

theorem splitEvents_ideal (T : Translator n) (I : List (Term n)) :
    splitEvents T false (idealEvents I) = .beginList :: I.flatMap (splitTerm T) ++ [.doneList] := by
  unfold idealEvents
  rw [List.cons_append, splitEvents, splitEvents_terms]
  simp [splitEvents]

/-- `T` gives exponent zero to identifier zero. -/
def ZeroFirst (T : Translator n) : Prop := ∀ v, 0 < (T v).length ∧ (T v).getD 0 0 = 0

theorem bigTerm_single {T : Translator n} (hT : ZeroFirst T) {X : Term n → Term n} {t : Term n} (h : Translates T X t) (v : Fin n) :
    T.bigTerm (Term.single v (t v)) = some (List.ofFn (Term.single v (X t v))) := by
  have hl : ∀ w, t w < (T w).length := by
    have h1 := h.big
    unfold Translator.bigTerm Translator.translate at h1
    split at h1
    · assumption
    · simp at h1
  have hs : ∀ w, Term.single v (t v) w < (T w).length := fun w => by
    by_cases hw : w = v
    · subst hw; rw [Term.single_same]; exact hl w
    · rw [Term.single_ne _ hw]; exact (hT w).1
  have he : (fun w => (T w)[Term.single v (t v) w]'(hs w)) = fun w => ((Term.single v (X t v) : Term n) w : ℤ) := by
    funext w
    rw [← List.getD_eq_getElem (d := 0)]
    by_cases hw : w = v
    · subst hw
      rw [Term.single_same, Term.single_same]
      exact h.exponent w
    · rw [Term.single_ne _ hw, Term.single_ne _ hw, (hT w).2]
      rfl
  unfold Translator.bigTerm Translator.translate
  rw [dif_pos hs, he]
  simp

theorem translate_split {T : Translator n} (hT : ZeroFirst T) {X : Term n → Term n} {t : Term n} (h : Translates T X t) :
    (splitTerm T t).mapM (translateEvent T) = some (bigIdeal (irrGens (X t))) := by
  have hf : ((List.finRange n).filter fun v => decide (T.exponent v (t v) ≠ 0)) = (List.finRange n).filter fun v => decide (X t v ≠ 0) := by
    refine List.filter_congr fun v _ => ?_
    rw [h.exponent v]
    simp
  unfold splitTerm
  rw [hf]
  have h1 : ∀ vs : List (Fin n), (vs.map fun v => TermEvent.term (Term.single v (t v))).mapM (translateEvent T) =
      some ((vs.map fun v => Term.single v (X t v)).map fun t => .term (List.ofFn t)) := by
    intro vs
    induction vs with
    | nil => rfl
    | cons v vs ih =>
      rw [List.map_cons, List.mapM_cons, ih]
      simp only [translateEvent, bigTerm_single hT h]
      rfl
  exact mapM_wrap rfl (h1 _) rfl

theorem outputWith_split (canon : Bool) (w : CallWriter) (names : List Text) {T : Translator n} (hT : ZeroFirst T) {X : Term n → Term n} {I : List (Term n)}
    (h : ∀ t ∈ I, Translates T X t) : outputWith canon true w names T (idealEvents I) =
      some (w names (bigList ((if canon then vecSort (I.map X) else I.map X).map irrGens))) := by
  have key : ∀ J : List (Term n), (∀ t ∈ J, Translates T X t) → (splitEvents T false (idealEvents J)).mapM (translateEvent T) =
      some (bigList ((J.map X).map irrGens)) := by
    intro J hJ
    rw [splitEvents_ideal]
    have h1 : (J.flatMap (splitTerm T)).mapM (translateEvent T) = some (((J.map X).map irrGens).flatMap bigIdeal) := by
      induction J with
      | nil => rfl
      | cons t J ih =>
        rw [List.flatMap_cons, List.map_cons, List.map_cons, List.flatMap_cons]
        exact mapM_append (translate_split hT (hJ t (by simp))) (ih fun s hs => hJ s (by simp [hs]))
    exact mapM_wrap rfl h1 rfl
  unfold outputWith
  rw [canonicalEvents_ideal]
  simp only [Option.bind_some, if_true]
  cases canon
  · simp only [Bool.false_eq_true, if_false]
    rw [key I h]
    rfl
  · simp only [if_true]
    rw [key _ fun t ht => h t (mem_canonSort.1 ht), map_canonSort h]
    rfl

theorem zeroFirst_ofGens (G : List (Term n)) : ZeroFirst (Translator.ofGens G) := by
  intro v
  have h : 0 < (Translator.ofGens G v).length := by rw [ofGens_length]; omega
  refine ⟨h, ?_⟩
  rw [List.getD_eq_getElem _ _ h, ofGens_getElem G v 0 h, (tSys G).zero]
  rfl

/-! ## the text -/

/-- The ideal with these generators. -/
def toNamed (names : List Text) (I : List (Term n)) : NamedIdeal := { names := names, terms := I.map fun t => List.ofFn t }

/-- The text of the terms of CoCoA 4. -/
def gensTextTranslated (first : Bool) : List (List ℕ) → Text
  | [] => []
  | e :: es => (if first then t!"\n " else t!",\n ") ++ writeTermCoCoATranslated e ++ gensTextTranslated false es

/-- What is written for an ideal. -/
def idealText (g : IOFormat) (I : NamedIdeal) : Text :=
  if g = .cocoa4 then writeRing I.names .cocoa4 ++ t!"I := Ideal(" ++ gensTextTranslated true I.terms ++ t!"\n);\n" else writeIdeal g I

theorem writer_terms_4ti2 (ts : List (List ℕ)) : ∀ s : Writer, (ts.map BigEvent.term).foldl (Writer.step .fourti2) s = { s with gens := s.gens ++ ts } := by
  induction ts with
  | nil => intro s; simp
  | cons t ts ih =>
    intro s
    rw [List.map_cons, List.foldl_cons, ih]
    simp [Writer.step]

theorem writer_ideal_4ti2 (ts : List (List ℕ)) (s : Writer) (hs : s.gens = []) :
    (BigEvent.begin :: ts.map BigEvent.term ++ [BigEvent.done]).foldl (Writer.step .fourti2) s =
      { s with firstIdeal := false, out := s.out ++ writeIdealFrom s.firstIdeal .fourti2 { names := s.names, terms := ts } } := by
  rw [List.foldl_append, List.foldl_cons (l := ts.map BigEvent.term), writer_terms_4ti2]
  simp [Writer.step, hs]

/-- The text of generators, with a translator. -/
def gensIn (f : IOFormat) (names : List Text) : (firstGenerator : Bool) → List (List ℕ) → Text
  | _, [] => []
  | first, e :: es => writeGenTranslated names first e f ++ gensIn f names false es

theorem writer_terms {f : IOFormat} (hf : f ≠ .fourti2) (ts : List (List ℕ)) : ∀ s : Writer, (ts.map BigEvent.term).foldl (Writer.step f) s =
    { s with firstGenerator := s.firstGenerator && ts.isEmpty, out := s.out ++ gensIn f s.names s.firstGenerator ts } := by
  induction ts with
  | nil => intro s; simp [gensIn]
  | cons t ts ih =>
    intro s
    rw [List.map_cons, List.foldl_cons, ih]
    simp [Writer.step, hf, gensIn]

theorem gensIn_eq {f : IOFormat} (hf : f ≠ .cocoa4) (names : List Text) (ts : List (List ℕ)) : ∀ b, gensIn f names b ts = writeGens f names b ts := by
  induction ts with
  | nil => intro b; rfl
  | cons t ts ih =>
    intro b
    rw [gensIn, writeGens, ih]
    cases f <;> simp_all [writeGenTranslated]

theorem gensIn_cocoa (names : List Text) (ts : List (List ℕ)) : ∀ b, gensIn .cocoa4 names b ts = gensTextTranslated b ts := by
  induction ts with
  | nil => intro b; rfl
  | cons t ts ih =>
    intro b
    rw [gensIn, gensTextTranslated, ih]
    rfl

theorem writer_ideal {f : IOFormat} (hf : f ≠ .fourti2) (ts : List (List ℕ)) (s : Writer) :
    (BigEvent.begin :: ts.map BigEvent.term ++ [BigEvent.done]).foldl (Writer.step f) s =
      { s with firstIdeal := false, firstGenerator := ts.isEmpty, out := s.out ++ (writeHeader s.firstIdeal s.names 0 f ++ gensIn f s.names true ts ++ writeFooter s.names ts.isEmpty f) } := by
  rw [List.foldl_append, List.foldl_cons (l := ts.map BigEvent.term), writer_terms hf]
  simp [Writer.step, hf]

theorem writeHeader_count {f : IOFormat} (hf : f ≠ .fourti2) (b : Bool) (names : List Text) (k : ℕ) : writeHeader b names 0 f = writeHeader b names k f := by
  cases f <;> simp_all [writeHeader]

theorem bigIdeal_eq (I : List (Term n)) : bigIdeal I = .begin :: (I.map fun t => List.ofFn t).map BigEvent.term ++ [.done] := by
  unfold bigIdeal
  rw [List.map_map]
  rfl

theorem runWriter_ideal (g : IOFormat) (names : List Text) (I : List (Term n)) : runWriter g names (bigIdeal I) = idealText g (toNamed names I) := by
  unfold runWriter idealText toNamed
  rw [bigIdeal_eq]
  generalize I.map (fun t => List.ofFn t) = ts
  by_cases h4 : g = .fourti2
  · subst h4
    rw [writer_ideal_4ti2 _ _ rfl]
    simp [writeIdeal]
  · rw [writer_ideal h4]
    by_cases hc : g = .cocoa4
    · subst hc
      simp [gensIn_cocoa, writeHeader, writeFooter]
    · rw [if_neg hc, gensIn_eq hc, writeHeader_count h4 _ _ ts.length]
      simp [writeIdeal, writeIdealFrom]

theorem supportsList_ne {g : IOFormat} (h : supportsList g = true) : g ≠ .cocoa4 := by
  rintro rfl
  simp [supportsList] at h

theorem writer_one {g : IOFormat} (h : supportsList g = true) (ts : List (List ℕ)) (s : Writer) (hs : s.gens = []) :
    let s' := (BigEvent.begin :: ts.map BigEvent.term ++ [BigEvent.done]).foldl (Writer.step g) s
    s'.names = s.names ∧ s'.firstIdeal = false ∧ s'.gens = [] ∧ s'.out = s.out ++ writeIdealFrom s.firstIdeal g { names := s.names, terms := ts } := by
  by_cases h4 : g = .fourti2
  · subst h4
    rw [writer_ideal_4ti2 _ _ hs]
    exact ⟨rfl, rfl, hs, rfl⟩
  · rw [writer_ideal h4, gensIn_eq (supportsList_ne h), writeHeader_count h4 _ _ ts.length]
    exact ⟨rfl, rfl, hs, rfl⟩

theorem writer_many {g : IOFormat} (h : supportsList g = true) (Is : List (List (Term n))) : ∀ (s : Writer), s.gens = [] →
    ((Is.flatMap bigIdeal ++ [BigEvent.doneList]).foldl (Writer.step g) s).out = s.out ++ writeIdealsFrom g s.firstIdeal s.names (Is.map (toNamed s.names)) := by
  induction Is with
  | nil =>
    intro s _
    cases hf : s.firstIdeal <;> simp [Writer.step, writeIdealsFrom, hf]
  | cons I Is ih =>
    intro s hs
    rw [List.flatMap_cons, List.append_assoc, List.foldl_append, bigIdeal_eq]
    obtain ⟨h1, h2, h3, h4⟩ := writer_one h (I.map fun t => List.ofFn t) s hs
    rw [ih _ h3, h1, h2, h4]
    simp [writeIdealsFrom, toNamed]

theorem runWriter_list {g : IOFormat} (h : supportsList g = true) (names : List Text) (Is : List (List (Term n))) :
    runWriter g names (bigList Is) = writeIdeals g names (Is.map (toNamed names)) := by
  unfold runWriter bigList
  rw [List.cons_append, List.foldl_cons, writer_many h]
  · simp [Writer.step, writeIdeals]
  · rfl

end Frobby
