import Verif.OwnStepLemmas

/-!
# Lemmas about who owns what in the reader of ideals
-/

namespace Frobby.Own

variable {m : Multiset ℕ} {c : Cells} {s : Store} {E : Store → Prop}

/-- What the entries hold. -/
def contents (i : ℕ → Ptr × Ptr) : List ℕ → Multiset ℕ
  | [] => 0
  | e :: es => one (i e).1 + one (i e).2 + contents i es

theorem contents_congr {i j : ℕ → Ptr × Ptr} {es : List ℕ} (h : ∀ e ∈ es, j e = i e) : contents j es = contents i es := by
  induction es with
  | nil => rfl
  | cons e es ih =>
    rw [contents, contents, h e (by simp), ih fun x hx => h x (List.mem_cons_of_mem _ hx)]

theorem contents_snoc (i : ℕ → Ptr × Ptr) (es : List ℕ) (e : ℕ) :
    contents i (es ++ [e]) = contents i es + (one (i e).1 + one (i e).2) := by
  induction es with
  | nil => simp [contents]
  | cons x es ih => simp [contents, ih, add_assoc]

/-- The containers other than 3 are as before. -/
def Apart (c c' : Cells) : Prop := ∀ k, k ≠ 3 → c'.vecs k = c.vecs k

theorem Apart.refl (c : Cells) : Apart c c := fun _ _ => rfl
theorem Apart.trans {a b d : Cells} (h : Apart a b) (k : Apart b d) : Apart a d := fun i hi => (k i hi).trans (h i hi)

/-- The objects are those of the reader, which has the entries `es`, and `m`. -/
structure Reader (m : Multiset ℕ) (c0 : Cells) (es : List ℕ) (c : Cells) (s : Store) : Prop where
  cells : At (es + contents c.inside es + one c.big + one c.sqf + m) c s
  list : c.vecs 3 = some (ptrs es)
  apart : Apart c0 c

/-- Entries have an ideal. -/
def Filled (c : Cells) (es : List ℕ) : Prop := ∀ e ∈ es, (c.inside e).1 = none → (c.inside e).2 ≠ none

variable {c0 : Cells} {es : List ℕ}

theorem reader_mayThrow (h : Reader m c0 es c s) : After mayThrow (fun _ => Reader m c0 es c) (Reader m c0 es c) s :=
  (after_mayThrow h.cells).mono (fun _ _ h' => ⟨h', h.list, h.apart⟩) fun _ h' => ⟨h', h.list, h.apart⟩

theorem after_beginIdeal (h : Reader m c0 es c s) (hf : Filled c es) :
    After beginIdeal (fun _ s' => ∃ c', Reader m c0 es c' s' ∧ Filled c' es ∧ (c'.big = none → c'.sqf ≠ none))
      (fun s' => ∃ c', Reader m c0 es c' s') s := by
  refine after_seq (after_new h.cells) (fun x s1 h1 => ?_) fun s' h' => ⟨c, h', h.list, h.apart⟩
  refine after_seq (after_getCells h1) ?_ fun _ hs => hs
  rintro _ s2 ⟨rfl, h2⟩
  rename_i c
  refine after_seq (after_delete (p := c.sqf) (m := {x} + es + contents c.inside es + one c.big + m) (h2.re (by abel))) (fun _ s3 h3 => ?_) fun _ hs => hs
  refine after_seq (after_setCells h3 { c with sqf := some x }) (fun _ s4 h4 => ?_) fun _ hs => hs
  have r : Reader m c0 es { c with sqf := some x } s4 :=
    ⟨h4.re (by simp only [one_some]; abel), h.list, h.apart⟩
  exact (reader_mayThrow r).mono (fun _ s' h' => ⟨_, h', hf, by simp⟩) fun s' h' => ⟨_, h'⟩

theorem after_toBigMembers (h : Reader m c0 es c s) (hf : Filled c es) (hb : c.big = none → c.sqf ≠ none) :
    After toBigMembers (fun _ s' => ∃ c', Reader m c0 es c' s' ∧ Filled c' es ∧ (c'.big = none → c'.sqf ≠ none))
      (fun s' => ∃ c', Reader m c0 es c' s') s := by
  refine after_seq (after_getCells h.cells) ?_ fun _ hs => hs
  rintro _ s1 ⟨rfl, h1⟩
  rename_i c
  by_cases hbig : c.big = none
  · obtain ⟨q, hq⟩ := Option.ne_none_iff_exists'.1 (hb hbig)
    simp only [hbig, ne_eq, not_true_eq_false, if_false]
    rw [hq]
    refine after_seq (after_touch h1 (by simp [hq])) (fun _ s2 h2 => ?_) fun _ hs => hs
    refine after_seq (after_new h2) (fun x s3 h3 => ?_) fun s' h' => ⟨c, h', h.list, h.apart⟩
    refine after_seq (after_setCells h3 { c with big := some x, sqf := some q }) (fun _ s4 h4 => ?_) fun _ hs => hs
    have r : Reader m c0 es { c with big := some x, sqf := some q } s4 :=
      ⟨h4.re (by simp only [hbig, hq, one_some, one_none]; abel), h.list, h.apart⟩
    refine after_seq (reader_mayThrow r) (fun _ s5 h5 => ?_) fun s' h' => ⟨_, h'⟩
    refine after_seq (after_delete (p := some q) (m := es + contents c.inside es + {x} + m) (h5.cells.re (by simp only [one_some]; abel))) (fun _ s6 h6 => ?_) fun _ hs => hs
    refine (after_setCells h6 _).mono (fun _ s' h' => ⟨_, ⟨h'.re ?_, h.list, h.apart⟩, hf, by simp⟩) fun s' h' => h'
    simp only [one_some, one_none]; abel
  · simp only [hbig, ne_eq, not_false_eq_true, if_true]
    exact after_pure ⟨c, ⟨h1, h.list, h.apart⟩, hf, hb⟩

theorem after_readTerms (ts : List Bool) : ∀ (c : Cells) (s : Store), Reader m c0 es c s → Filled c es →
    (c.big = none → c.sqf ≠ none) →
    After (readTerms ts) (fun _ s' => ∃ c', Reader m c0 es c' s' ∧ Filled c' es ∧ (c'.big = none → c'.sqf ≠ none))
      (fun s' => ∃ c', Reader m c0 es c' s') s := by
  induction ts with
  | nil => intro c s h hf hb; exact after_pure ⟨c, h, hf, hb⟩
  | cons t ts ih =>
    intro c s h hf hb
    refine after_seq (reader_mayThrow h) (fun _ s1 h1 => ?_) fun s' h' => ⟨c, h'⟩
    refine after_seq (R := fun _ s' => ∃ c', Reader m c0 es c' s' ∧ Filled c' es ∧ (c'.big = none → c'.sqf ≠ none)) ?_
      (fun _ s2 ⟨c', h2, hf', hb'⟩ => ih c' s2 h2 hf' hb') fun _ hs => hs
    cases t with
    | false => exact after_pure ⟨c, h1, hf, hb⟩
    | true => exact after_toBigMembers h1 hf hb

theorem after_deleteEntry {e : ℕ} (h : At ({e} + one (c.inside e).1 + one (c.inside e).2 + m) c s) :
    After (deleteEntry (some e)) (fun _ => At m c) E s := by
  refine after_seq (after_touch h (by simp)) (fun _ s1 h1 => ?_) fun _ hs => hs
  refine after_seq (after_getCells h1) ?_ fun _ hs => hs
  rintro _ s2 ⟨rfl, h2⟩
  rename_i c
  refine after_seq (after_delete (p := (c.inside e).2) (m := {e} + one (c.inside e).1 + m) (h2.re (by abel))) (fun _ s3 h3 => ?_) fun _ hs => hs
  refine after_seq (after_delete (p := (c.inside e).1) (m := {e} + m) (h3.re (by abel))) (fun _ s4 h4 => ?_) fun _ hs => hs
  exact after_delete h4

theorem after_endIdeal (h : Reader m c0 es c s) (hf : Filled c es) (hb : c.big = none → c.sqf ≠ none) :
    After endIdeal (fun _ s' => ∃ c' e, Reader m c0 (es ++ [e]) c' s' ∧ Filled c' (es ++ [e]))
      (fun s' => ∃ c', Reader m c0 es c' s') s := by
  refine after_seq (after_new h.cells) (fun e s1 h1 => ?_) fun s' h' => ⟨c, h', h.list, h.apart⟩
  refine after_seq (after_getCells h1) ?_ fun _ hs => hs
  rintro _ s2 ⟨rfl, h2⟩
  rename_i c
  have he : e ∉ es := by
    have hn := h2.nodup
    rw [Multiset.singleton_add, Multiset.nodup_cons] at hn
    intro hm
    exact hn.1 (by simp [hm])
  generalize hc1 : ({ c with inside := fun x => if x = e then (c.big, c.sqf) else c.inside x, big := none, sqf := none } : Cells) = c1
  have hin : c1.inside e = (c.big, c.sqf) := by subst hc1; simp
  have hes : ∀ x ∈ es, c1.inside x = c.inside x := by
    intro x hx
    subst hc1
    have : x ≠ e := fun h => he (h ▸ hx)
    simp [this]
  have hmem : c1.big = none ∧ c1.sqf = none := by subst hc1; exact ⟨rfl, rfl⟩
  have hvecs : c1.vecs = c.vecs := by subst hc1; rfl
  refine after_seq (after_setCells h2 c1) (fun _ s3 h3 => ?_) fun _ hs => hs
  have h3' := h3.re (m' := {e} + one (c1.inside e).1 + one (c1.inside e).2 + (es + contents c1.inside es + m)) (by
    rw [contents_congr hes, hin]; abel)
  have hl : c1.vecs 3 = some (ptrs es) := by rw [hvecs]; exact h.list
  have ha : Apart c0 c1 := fun k hk => by rw [hvecs]; exact h.apart k hk
  refine after_seq (after_onThrow (after_pushBack h3' hl none) fun s4 h4 => after_deleteEntry h4) (fun _ s4 h4 => ?_)
    fun s4 h4 => ⟨c1, h4.re (by rw [hmem.1, hmem.2]; simp), hl, ha⟩
  refine (after_setBack h4 (v := ptrs es) (q := none) (by simp) (some e)).mono (fun _ s5 h5 => ?_) fun s' h' => h'
  have hp : ptrs es ++ [some e] = ptrs (es ++ [e]) := by simp [ptrs]
  rw [set_set, hp] at h5
  refine ⟨_, e, ⟨h5.re ?_, set_same _ _ _, fun k hk => (set_other _ _ hk).trans (ha k hk)⟩, ?_⟩
  · change _ + contents c1.inside _ + one c1.big + one c1.sqf + m = _
    rw [contents_snoc, coe_snoc, hmem.1, hmem.2]
    simp only [one_none]
    abel
  · intro x hx
    change (c1.inside x).1 = none → (c1.inside x).2 ≠ none
    rcases List.mem_append.1 hx with hx | hx
    · rw [hes x hx]; exact hf x hx
    · rw [List.mem_singleton.1 hx, hin]; exact hb

theorem after_readAll (input : List (List Bool)) : ∀ (es : List ℕ) (c : Cells) (s : Store), Reader m c0 es c s → Filled c es →
    After (readAll input) (fun _ s' => ∃ c' es', Reader m c0 es' c' s' ∧ Filled c' es' ∧ es'.length = es.length + input.length)
      (fun s' => ∃ c' es', Reader m c0 es' c' s') s := by
  induction input with
  | nil => intro es c s h hf; exact after_pure ⟨c, es, h, hf, rfl⟩
  | cons i is ih =>
    intro es c s h hf
    refine after_seq (after_beginIdeal h hf) ?_ fun s' ⟨c', h'⟩ => ⟨c', es, h'⟩
    rintro _ s1 ⟨c1, h1, hf1, hb1⟩
    refine after_seq (after_readTerms i c1 s1 h1 hf1 hb1) ?_ fun s' ⟨c', h'⟩ => ⟨c', es, h'⟩
    rintro _ s2 ⟨c2, h2, hf2, hb2⟩
    refine after_seq (after_endIdeal h2 hf2 hb2) ?_ fun s' ⟨c', h'⟩ => ⟨c', es, h'⟩
    rintro _ s3 ⟨c3, e, h3, hf3⟩
    refine (ih _ c3 s3 h3 hf3).mono (fun _ s' ⟨c', es', h', hf', e'⟩ => ⟨c', es', h', hf', ?_⟩) fun _ hs => hs
    rw [e', List.length_append, List.length_singleton, List.length_cons]
    omega

/-- A release takes the ideal out of the first entry, and leaves the entry to nobody. -/
theorem after_releaseBigIdeal {e : ℕ} (h : Reader m c0 (e :: es) c s) (hf : Filled c (e :: es)) :
    After releaseBigIdeal (fun p s' => ∃ c' x, p = some x ∧ Reader ({x} + {e} + m) c0 es c' s' ∧ Filled c' es)
      (fun s' => ∃ c', Reader ({e} + m) c0 es c' s') s := by
  have he : e ∉ es := by
    have hn := h.cells.nodup
    intro hm
    have : ((e :: es : List ℕ) : Multiset ℕ).Nodup :=
      Multiset.nodup_of_le (by
        rw [add_assoc, add_assoc, add_assoc]
        exact Multiset.le_add_right _ _) hn
    rw [Multiset.coe_nodup, List.nodup_cons] at this
    exact this.1 hm
  have hcons : ((e :: es : List ℕ) : Multiset ℕ) = {e} + es := by rw [Multiset.singleton_add, Multiset.cons_coe]
  generalize hc1 : ({ c with inside := fun x => if x = e then (none, none) else c.inside x } : Cells) = c1
  have hes : ∀ x ∈ es, (c1.set 3 (ptrs es)).inside x = c.inside x := by
    intro x hx
    subst hc1
    have : x ≠ e := fun h => he (h ▸ hx)
    simp [Cells.set, this]
  have hl : (c1.set 3 (ptrs es)).vecs 3 = some (ptrs es) := set_same _ _ _
  have hmem : (c1.set 3 (ptrs es)).big = c.big ∧ (c1.set 3 (ptrs es)).sqf = c.sqf := by subst hc1; exact ⟨rfl, rfl⟩
  have hvecs : c1.vecs = c.vecs := by subst hc1; rfl
  have ha : Apart c0 (c1.set 3 (ptrs es)) := fun k hk => (set_other _ _ hk).trans (by rw [hvecs]; exact h.apart k hk)
  have hf' : Filled (c1.set 3 (ptrs es)) es := fun x hx => by rw [hes x hx]; exact hf x (List.mem_cons_of_mem _ hx)
  have rel : After releaseIdeal (fun r s' => r = c.inside e ∧
      At (one (c.inside e).1 + one (c.inside e).2 + (es + contents (c1.set 3 (ptrs es)).inside es + one (c1.set 3 (ptrs es)).big + one (c1.set 3 (ptrs es)).sqf + ({e} + m)))
        (c1.set 3 (ptrs es)) s') (fun s' => ∃ c', Reader ({e} + m) c0 es c' s') s := by
    refine after_seq (after_read h.cells h.list) ?_ fun _ hs => hs
    rintro _ s1 ⟨rfl, h1⟩
    refine after_seq (after_touch h1 (by simp)) (fun _ s2 h2 => ?_) fun _ hs => hs
    refine after_seq (after_getCells h2) ?_ fun _ hs => hs
    rintro _ s3 ⟨rfl, h3⟩
    rw [hc1]
    refine after_seq (after_setCells h3 c1) (fun _ s4 h4 => ?_) fun _ hs => hs
    refine after_seq (after_write h4 (by rw [hvecs]; exact h.list) (ptrs es)) (fun _ s5 h5 => after_pure ⟨rfl, h5.re ?_⟩) fun _ hs => hs
    rw [contents_congr hes, hmem.1, hmem.2, hcons, contents]
    abel
  refine after_seq rel ?_ fun _ hs => hs
  rintro r s1 ⟨rfl, h1⟩
  have hfe := hf e (by simp)
  generalize c.inside e = r at h1 hfe
  generalize c1.set 3 (ptrs es) = c2 at *
  obtain ⟨b, q⟩ := r
  simp only at h1 hfe
  have give : ∀ (m' : Multiset ℕ) (s' : Store),
      At (es + contents c2.inside es + one c2.big + one c2.sqf + m') c2 s' → Reader m' c0 es c2 s' :=
    fun m' s' h' => ⟨h', hl, ha⟩
  cases b with
  | some b =>
    refine after_seq (after_delete (p := q) (m := one (some b) + (es + contents c2.inside es + one c2.big + one c2.sqf + ({e} + m)))
      (h1.re (by abel))) (fun _ s2 h2 => after_pure ⟨c2, b, rfl, give _ _ (h2.re (by rw [one_some]; abel)), hf'⟩) fun _ hs => hs
  | none =>
    obtain ⟨q, rfl⟩ := Option.ne_none_iff_exists'.1 (hfe rfl)
    refine after_seq (after_touch h1 (by simp)) (fun _ s2 h2 => ?_) fun _ hs => hs
    refine after_seq (after_onThrow (after_new h2) fun s3 h3 => (after_delete (p := some q)
        (m := es + contents c2.inside es + one c2.big + one c2.sqf + ({e} + m)) (h3.re (by simp only [one_none, one_some]; abel))).mono
        (fun _ s4 h4 => ⟨c2, give _ _ h4⟩) fun _ hs => hs) (fun x s3 h3 => ?_) fun _ hs => hs
    refine after_seq (after_onThrow (after_mayThrow h3) fun s4 h4 =>
        after_seq (after_delete (p := some q) (E := fun _ => False) (m := {x} + (es + contents c2.inside es + one c2.big + one c2.sqf + ({e} + m)))
          (h4.re (by simp only [one_none, one_some]; abel))) (fun _ s5 h5 => (after_delete (p := some x) h5).mono
          (fun _ s6 h6 => ⟨c2, give _ _ h6⟩) fun _ hs => hs) fun _ hs => hs) (fun _ s4 h4 => ?_) fun _ hs => hs
    refine after_seq (after_delete (p := some q) (m := {x} + (es + contents c2.inside es + one c2.big + one c2.sqf + ({e} + m)))
      (h4.re (by simp only [one_none, one_some]; abel))) (fun _ s5 h5 => after_pure ⟨c2, x, rfl, give _ _ (h5.re (by abel)), hf'⟩) fun _ hs => hs

theorem after_releaseAll {N : ℕ} (n : ℕ) : ∀ (es w : List ℕ) (lost : Multiset ℕ) (c : Cells) (s : Store), es.length = n →
    lost.card + n = N → w.length + n = N → Reader (w + lost + m) (c0.set 4 (ptrs w)) es c s → Filled c es →
    After (releaseAll n) (fun _ s' => ∃ (w' : List ℕ) (lost' : Multiset ℕ) (c' : Cells), w'.length = N ∧ lost'.card = N ∧
        Reader (w' + lost' + m) (c0.set 4 (ptrs w')) [] c' s')
      (fun s' => ∃ (w' es' : List ℕ) (lost' : Multiset ℕ) (c' : Cells), lost'.card ≤ N ∧
        Reader (w' + lost' + m) (c0.set 4 (ptrs w')) es' c' s') s := by
  induction n with
  | zero =>
    intro es w lost c s he hN hw h _
    have : es = [] := List.length_eq_zero_iff.1 he
    subst this
    exact after_pure ⟨w, lost, c, hw, hN, h⟩
  | succ n ih =>
    intro es w lost c s he hN hw h hf
    obtain ⟨e, es, rfl⟩ : ∃ e es', es = e :: es' := by
      cases es with
      | nil => simp at he
      | cons e es => exact ⟨e, es, rfl⟩
    have hc : ({e} + lost).card = lost.card + 1 := by simp [add_comm]
    refine after_seq (after_releaseBigIdeal h hf) ?_ fun s' ⟨c', h'⟩ => ⟨w, es, {e} + lost, c', by rw [hc]; omega,
      ⟨h'.cells.re (by abel), h'.list, h'.apart⟩⟩
    rintro _ s1 ⟨c1, x, rfl, h1, hf1⟩
    have h4 : c1.vecs 4 = some (ptrs w) := (h1.apart 4 (by decide)).trans (set_same _ _ _)
    refine after_seq (after_safePush_ptrs (x := x) (m := es + contents c1.inside es + one c1.big + one c1.sqf + (w + ({e} + lost) + m))
      (h1.cells.re (by abel)) h4) (fun _ s2 h2 => ?_) fun s2 h2 => ⟨w, es, {e} + lost, c1, by rw [hc]; omega, ⟨h2, h1.list, h1.apart⟩⟩
    refine ih es (w ++ [x]) ({e} + lost) _ s2 (by simpa using he) (by rw [hc]; omega) (by simp; omega)
      ⟨h2.re ?_, (set_other _ _ (by decide)).trans h1.list, ?_⟩ hf1
    · change _ + contents c1.inside es + one c1.big + one c1.sqf + _ = _
      rw [coe_snoc]; abel
    · intro k hk
      by_cases h4k : k = 4
      · subst h4k; rw [set_same, set_same]
      · rw [set_other _ _ h4k, h1.apart k hk, set_other _ _ h4k, set_other _ _ h4k]

theorem after_deleteEntries (es : List ℕ) : ∀ s, At (es + contents c.inside es + m) c s →
    After (deleteAll deleteEntry (ptrs es)) (fun _ => At m c) E s := by
  induction es with
  | nil => intro s h; exact after_pure (h.re (by simp [contents]))
  | cons e es ih =>
    intro s h
    have hcons : ((e :: es : List ℕ) : Multiset ℕ) = {e} + es := by rw [Multiset.singleton_add, Multiset.cons_coe]
    refine after_seq (after_deleteEntry (e := e) (m := es + contents c.inside es + m) (h.re (by rw [hcons, contents]; abel)))
      (fun _ s1 h1 => ih s1 h1) fun _ hs => hs

theorem after_dropConsumer (h : Reader m c0 es c s) :
    After dropConsumer (fun _ s' => ∃ c', At m c' s' ∧ c'.vecs 3 = some [] ∧ Apart c0 c') E s := by
  refine after_seq (R := fun _ => At (one c.big + one c.sqf + m) (c.set 3 [])) (E' := E) ?_ (fun _ s1 h1 => ?_) fun _ hs => hs
  · refine after_seq (after_read h.cells h.list) ?_ fun _ hs => hs
    rintro _ s1 ⟨rfl, h1⟩
    exact after_seq (after_deleteEntries es s1 (m := one c.big + one c.sqf + m) (h1.re (by abel))) (fun _ s2 h2 => after_write h2 h.list []) fun _ hs => hs
  refine after_seq (after_getCells h1) ?_ fun _ hs => hs
  rintro _ s2 ⟨rfl, h2⟩
  refine after_seq (after_delete (p := c.sqf) (m := one c.big + m) (h2.re (by abel))) (fun _ s3 h3 => ?_) fun _ hs => hs
  refine after_seq (after_delete (p := c.big) (m := m) h3) (fun _ s4 h4 => ?_) fun _ hs => hs
  exact (after_setCells h4 _).mono (fun _ s' h' => ⟨_, h', set_same c 3 [], fun k hk => (set_other c _ hk).trans (h.apart k hk)⟩) fun s' h' => h'

/-- `readIdeals` gives the ideals that were read, and as many entries are lost. -/
theorem after_readIdeals (input : List (List Bool)) {v : List Ptr} (h3 : c.vecs 3 = some v) (h4 : c.vecs 4 = some []) (h : At m c s) :
    After (readIdeals input)
      (fun _ s' => ∃ (w : List ℕ) (lost : Multiset ℕ) (c' : Cells), w.length = input.length ∧ lost.card = input.length ∧
        At (w + lost + m) c' s' ∧ c'.vecs 3 = some [] ∧ Apart (c.set 4 (ptrs w)) c')
      (fun s' => ∃ (lost : Multiset ℕ) (c' : Cells), lost.card ≤ input.length ∧ At (lost + m) c' s' ∧ c'.vecs 3 = some [] ∧ Apart c c') s := by
  refine after_seq (after_write h h3 []) (fun _ s1 h1 => ?_) fun _ hs => hs
  refine after_seq (after_getCells h1) ?_ fun _ hs => hs
  rintro _ s2 ⟨rfl, h2⟩
  refine after_seq (after_setCells h2 _) (fun _ s3 h3' => ?_) fun _ hs => hs
  have hc4 : c.set 4 (ptrs []) = c := set_self c h4
  have r : Reader m (c.set 4 (ptrs [])) [] { c.set 3 [] with big := none, sqf := none } s3 :=
    ⟨h3'.re (by simp [contents]), set_same c 3 [], fun k hk => by rw [hc4]; exact set_other c _ hk⟩
  refine after_onThrow (E' := fun s' => ∃ (w : List ℕ) (lost : Multiset ℕ) (c' : Cells), lost.card ≤ input.length ∧
      At (w + lost + m) c' s' ∧ c'.vecs 3 = some [] ∧ Apart (c.set 4 (ptrs w)) c') ?_ ?_
  · refine after_inScope (E' := fun s' => ∃ (w es : List ℕ) (lost : Multiset ℕ) (c' : Cells), lost.card ≤ input.length ∧
        Reader (w + lost + m) (c.set 4 (ptrs w)) es c' s')
      (R := fun _ s' => ∃ (w : List ℕ) (lost : Multiset ℕ) (c' : Cells), w.length = input.length ∧ lost.card = input.length ∧
        Reader (w + lost + m) (c.set 4 (ptrs w)) [] c' s') ?_ ?_ ?_
    · refine after_seq (after_readAll input [] _ s3 r (by intro e he; simp at he)) ?_
        fun s' ⟨c', es', h'⟩ => ⟨[], es', 0, c', by simp, by simpa using h'⟩
      rintro _ s4 ⟨c1, es, hr, hf, hlen⟩
      refine after_seq (reader_mayThrow hr) (fun _ s5 h5 => ?_) fun s' h' => ⟨[], es, 0, c1, by simp, by simpa using h'⟩
      refine after_seq (after_read h5.cells h5.list) ?_ fun _ hs => hs
      rintro _ s6 ⟨rfl, h6⟩
      have hlen' : (ptrs es).length = input.length := by simpa using hlen
      refine after_releaseAll (N := input.length) (ptrs es).length es [] 0 c1 s6 (by simp) (by simp [hlen']) (by simp [hlen']) ?_ hf
      exact ⟨h6.re (by simp), h5.list, h5.apart⟩
    · rintro s' ⟨w, es, lost, c', hl, h'⟩
      exact (after_dropConsumer h').mono (fun _ s'' ⟨c'', h1, h2, h3⟩ => ⟨w, lost, c'', hl, h1, h2, h3⟩) fun _ hs => hs
    · rintro _ s' ⟨w, lost, c', hw, hl, h'⟩
      exact (after_dropConsumer h').mono (fun _ s'' ⟨c'', h1, h2, h3⟩ => ⟨w, lost, c'', hw, hl, h1, h2, h3⟩) fun _ hs => hs
  · rintro s' ⟨w, lost, c', hl, h', h3, ha⟩
    have hv : c'.vecs 4 = some (ptrs w) := (ha 4 (by decide)).trans (set_same _ _ _)
    refine (after_deleteElements (m := lost + m) hv (h'.re (by rw [all_ptrs]; abel))).mono (fun _ s'' h'' => ⟨lost, _, hl, h'', ?_, ?_⟩) fun _ hs => hs
    · exact (set_other _ _ (by decide)).trans h3
    · intro k hk
      by_cases h4k : k = 4
      · subst h4k; rw [set_same, h4]
      · rw [set_other _ _ h4k, ha k hk, set_other _ _ h4k]

/-- After `IntersectionAction::perform` only entries are left. -/
theorem after_intersectionAction (input : List (List Bool)) (h2 : c.vecs 2 = some []) {v : List Ptr} (h3 : c.vecs 3 = some v)
    (h4 : c.vecs 4 = some []) (h : At m c s) :
    After (intersectionAction input)
      (fun _ s' => ∃ (lost : Multiset ℕ) (c' : Cells), lost.card = input.length ∧ At (lost + m) c' s')
      (fun s' => ∃ (lost : Multiset ℕ) (c' : Cells), lost.card ≤ input.length ∧ At (lost + m) c' s') s := by
  refine after_seq (after_write h h4 []) (fun _ s1 h1 => ?_) fun _ hs => hs
  rw [set_self c h4] at h1
  refine after_inScope (E' := fun s' => ∃ (w : List ℕ) (lost : Multiset ℕ) (c' : Cells), lost.card ≤ input.length ∧ c'.vecs 4 = some (ptrs w) ∧
      At (w + lost + m) c' s')
    (R := fun _ s' => ∃ (lost : Multiset ℕ) (c' : Cells), lost.card = input.length ∧ c'.vecs 4 = some [] ∧ At (lost + m) c' s') ?_ ?_ ?_
  · refine after_seq (after_readIdeals input h3 h4 h1) ?_ fun s' ⟨lost, c', hl, h', _, ha⟩ =>
      ⟨[], lost, c', hl, (ha 4 (by decide)).trans h4, h'.re (by simp)⟩
    rintro _ s2 ⟨w, lost, c', hw, hl, h', h3', ha⟩
    have hv4 : c'.vecs 4 = some (ptrs w) := (ha 4 (by decide)).trans (set_same _ _ _)
    have hv2 : c'.vecs 2 = some [] := (ha 2 (by decide)).trans ((set_other _ _ (by decide)).trans h2)
    refine after_seq (after_mayThrow h') (fun _ s3 h5 => ?_) fun s' h'' => ⟨w, lost, c', hl.le, hv4, h''⟩
    refine after_seq (after_read h5 hv4) ?_ fun _ hs => hs
    rintro _ s4 ⟨rfl, h6⟩
    refine after_seq (after_intersectIdeals _ hv2 h6) (fun x s5 h7 => ?_) fun s' h'' => ⟨w, lost, c', hl.le, hv4, h''⟩
    refine after_seq (after_deleteElements (m := {x} + lost + m) hv4 (h7.re (by rw [all_ptrs]; abel))) (fun _ s6 h8 => ?_) fun _ hs => hs
    refine after_seq (after_onThrow (after_mayThrow h8) fun s7 h9 => (after_delete (p := some x) (m := lost + m) (h9.re (by rw [one_some]; abel))).mono
      (fun _ s8 h10 => ⟨[], lost, _, hl.le, set_same _ _ _, h10.re (by simp)⟩) fun _ hs => hs) (fun _ s7 h9 => ?_) fun _ hs => hs
    exact (after_delete (p := some x) (m := lost + m) (h9.re (by rw [one_some]; abel))).mono
      (fun _ s8 h10 => ⟨lost, _, hl, set_same _ _ _, h10⟩) fun _ hs => hs
  · rintro s' ⟨w, lost, c', hl, hv, h'⟩
    exact (after_deleteElements (m := lost + m) hv (h'.re (by rw [all_ptrs]; abel))).mono (fun _ s'' h'' => ⟨lost, _, hl, h''⟩) fun _ hs => hs
  · rintro _ s' ⟨lost, c', hl, hv, h'⟩
    exact (after_deleteElements (m := lost + m) hv (h'.re (by simp))).mono (fun _ s'' h'' => ⟨lost, _, hl, h''⟩) fun _ hs => hs

end Frobby.Own
