import Verif.OwnLemmas

/-!
# Lemmas about who owns what in intersections, in the reader and in strategies
-/

namespace Frobby.Own

variable {m : Multiset ℕ} {c : Cells} {s : Store} {E : Store → Prop}

/-! ## Intersections -/

theorem after_shrinkLoop (n : ℕ) : ∀ (w : List ℕ) (s : Store), At (w + m) (c.set 2 (ptrs w)) s →
    After (shrinkLoop n) (fun _ s' => ∃ w' : List ℕ, w'.length = w.length + n ∧ At (w' + m) (c.set 2 (ptrs w')) s')
      (fun s' => ∃ w' : List ℕ, At (w' + m) (c.set 2 (ptrs w')) s') s := by
  induction n with
  | zero => intro w s h; exact after_pure ⟨w, rfl, h⟩
  | succ n ih =>
    intro w s h
    refine after_seq (after_new h) (fun x s1 h1 => ?_) fun s1 h1 => ⟨w, h1⟩
    refine after_seq (after_safePush_ptrs h1 (set_same _ _ _)) (fun _ s2 h2 => ?_) fun s2 h2 => ⟨w, h2⟩
    rw [set_set] at h2
    have h2' := h2.re (m' := ((w ++ [x] : List ℕ) : Multiset ℕ) + m) (by rw [coe_snoc]; abel)
    refine after_seq (after_touch h2' (by simp)) (fun _ s3 h3 => ?_) fun _ hs => hs
    refine after_seq (after_mayThrow h3) (fun _ s4 h4 => ?_) fun s4 h4 => ⟨_, h4⟩
    refine (ih (w ++ [x]) s4 h4).mono (fun _ s5 ⟨w', e, h5⟩ => ⟨w', ?_, h5⟩) fun _ hs => hs
    rw [e, List.length_append, List.length_singleton]
    omega

theorem after_makeTranslator (n : ℕ) {v : List Ptr} (hv : c.vecs 2 = some v) (h : At m c s) :
    After (makeTranslator n) (fun _ s' => ∃ w : List ℕ, w.length = n ∧ At (w + m) (c.set 2 (ptrs w)) s') (At m (c.set 2 [])) s := by
  refine after_seq (after_write h hv []) (fun _ s1 h1 => ?_) fun _ hs => hs
  refine after_onThrow (E' := fun s' => ∃ w : List ℕ, At (w + m) (c.set 2 (ptrs w)) s') ?_ ?_
  · refine after_seq (after_mayThrow h1) (fun _ s2 h2 => ?_) fun s2 h2 => ⟨[], h2.re (by simp)⟩
    exact (after_shrinkLoop n [] s2 (h2.re (by simp))).mono (fun _ s3 ⟨w, e, h3⟩ => ⟨w, by simpa using e, h3⟩) fun _ hs => hs
  · rintro s2 ⟨w, h2⟩
    have := after_deleteElements (E := fun _ => False) (m := m) (set_same c 2 (ptrs w)) (h2.re (by rw [all_ptrs]))
    rwa [set_set] at this

theorem after_intersectLoop (w : List ℕ) (hw : ∀ x ∈ w, x ∈ m) : ∀ (acc : ℕ) (s : Store), At ({acc} + m) c s →
    After (intersectLoop (ptrs w) acc) (fun x => At ({x} + m) c) (At m c) s := by
  induction w with
  | nil => intro acc s h; exact after_pure h
  | cons y w ih =>
    intro acc s h
    refine after_seq (after_touch h (by simp [hw y])) (fun _ s1 h1 => ?_) fun _ hs => hs
    refine after_seq (after_onThrow (after_mayThrow h1) fun s2 h2 => after_delete h2) (fun _ s2 h2 => ?_) fun _ hs => hs
    refine after_seq (after_onThrow (after_new h2) fun s3 h3 => after_delete h3) (fun tmp s3 h3 => ?_) fun _ hs => hs
    refine after_seq (after_onThrow (E' := At ({tmp} + ({acc} + m)) c) (after_mayThrow h3) fun s4 h4 =>
      after_seq (after_delete (p := some tmp) (E := fun _ => False) h4) (fun _ s5 h5 => after_delete (p := some acc) h5) fun _ hs => hs) (fun _ s4 h4 => ?_) fun _ hs => hs
    refine after_seq (after_delete (p := some acc) (m := {tmp} + m) (h4.re (by rw [one_some]; abel))) (fun _ s5 h5 => ?_) fun _ hs => hs
    exact ih (fun x hx => hw x (List.mem_cons_of_mem _ hx)) tmp s5 h5

theorem after_intersectIdeals (n : ℕ) (hv : c.vecs 2 = some []) (h : At m c s) :
    After (intersectIdeals n) (fun x => At ({x} + m) c) (At m c) s := by
  unfold intersectIdeals
  by_cases hn : n = 0
  · simp only [hn, if_true]
    refine after_seq (after_new h) (fun x s1 h1 => ?_) fun _ hs => hs
    exact after_seq (after_onThrow (after_mayThrow h1) fun s2 h2 => after_delete h2) (fun _ s2 h2 => after_pure h2) fun _ hs => hs
  · simp only [hn, if_false]
    refine after_seq (after_write h hv []) (fun _ s1 h1 => ?_) fun _ hs => hs
    rw [set_self c hv] at h1
    have drop : ∀ (m : Multiset ℕ) (w : List ℕ) (s : Store), At (w + m) (c.set 2 (ptrs w)) s →
        After (deleteElements delete 2) (fun _ => At m c) (fun _ => False) s := by
      intro m w s h
      have := after_deleteElements (E := fun _ => False) (m := m) (set_same c 2 (ptrs w)) (h.re (by rw [all_ptrs]))
      rwa [set_set, set_self c hv] at this
    refine after_inScope (E' := fun s' => ∃ w : List ℕ, At (w + m) (c.set 2 (ptrs w)) s')
      (R := fun x s' => ∃ w : List ℕ, At (w + ({x} + m)) (c.set 2 (ptrs w)) s') ?_ (fun s' ⟨w, h'⟩ => drop m w s' h')
      fun x s' ⟨w, h'⟩ => drop _ w s' h'
    refine after_seq (after_makeTranslator n hv h1) ?_ fun s' h' => ⟨[], h'.re (by simp)⟩
    rintro _ s2 ⟨w, -, h2⟩
    refine after_seq (after_new h2) (fun first s3 h3 => ?_) fun s' h' => ⟨w, h'⟩
    refine after_seq (after_onThrow (after_mayThrow h3) fun s4 h4 => after_delete h4) (fun _ s4 h4 => ?_) fun s' h' => ⟨w, h'⟩
    refine after_seq (after_read h4 (set_same _ _ _)) ?_ fun _ hs => hs
    rintro _ s5 ⟨rfl, h5⟩
    refine after_seq (after_intersectLoop w (fun x hx => by simp [hx]) first s5 h5) (fun acc s6 h6 => ?_) fun s' h' => ⟨w, h'⟩
    refine after_seq (after_onThrow (after_new h6) fun s7 h7 => after_delete h7) (fun big s7 h7 => ?_) fun s' h' => ⟨w, h'⟩
    refine after_seq (after_onThrow (E' := At ({big} + ({acc} + (w + m))) (c.set 2 (ptrs w))) (after_mayThrow h7) fun s8 h8 =>
      after_seq (after_delete (p := some big) (E := fun _ => False) h8) (fun _ s9 h9 => after_delete (p := some acc) h9) fun _ hs => hs) (fun _ s8 h8 => ?_) fun s' h' => ⟨w, h'⟩
    refine after_seq (after_delete (p := some acc) (m := w + ({big} + m)) (h8.re (by rw [one_some]; abel))) (fun _ s9 h9 => ?_) fun _ hs => hs
    exact after_pure ⟨w, h9⟩

/-! ## Strategies -/

/-- The cells with the slices `a` and the consumers `b` in the caches and the tasks `t`. -/
def three (c : Cells) (a b t : List ℕ) : Cells := ((c.set 5 (ptrs a)).set 6 (ptrs b)).set 7 (ptrs t)

@[simp] theorem three_vecs5 (c : Cells) (a b t : List ℕ) : (three c a b t).vecs 5 = some (ptrs a) := by simp [three, Cells.set]
@[simp] theorem three_vecs6 (c : Cells) (a b t : List ℕ) : (three c a b t).vecs 6 = some (ptrs b) := by simp [three, Cells.set]
@[simp] theorem three_vecs7 (c : Cells) (a b t : List ℕ) : (three c a b t).vecs 7 = some (ptrs t) := by simp [three, Cells.set]
@[simp] theorem three_set5 (c : Cells) (a b t a' : List ℕ) : (three c a b t).set 5 (ptrs a') = three c a' b t := by
  rw [three, ← set_comm _ _ _ (by decide : (5 : ℕ) ≠ 7), ← set_comm _ _ _ (by decide : (5 : ℕ) ≠ 6), set_set, three]
@[simp] theorem three_set6 (c : Cells) (a b t b' : List ℕ) : (three c a b t).set 6 (ptrs b') = three c a b' t := by
  rw [three, ← set_comm _ _ _ (by decide : (6 : ℕ) ≠ 7), set_set, three]
@[simp] theorem three_set7 (c : Cells) (a b t t' : List ℕ) : (three c a b t).set 7 (ptrs t') = three c a b t' := by simp [three]

/-- Every object is in a cache, a task or in `rest`. -/
def Strat (rest : Multiset ℕ) (c : Cells) (s : Store) : Prop := ∃ a b t : List ℕ, At (a + b + t + rest) (three c a b t) s

variable {rest : Multiset ℕ}

theorem Strat.re {rest' : Multiset ℕ} (h : Strat rest c s) (e : rest' = rest) : Strat rest' c s := e ▸ h

theorem strat_mayThrow (h : Strat rest c s) : After mayThrow (fun _ => Strat rest c) (Strat rest c) s := by
  obtain ⟨a, b, t, h⟩ := h
  exact (after_mayThrow h).mono (fun _ s' h' => ⟨a, b, t, h'⟩) fun s' h' => ⟨a, b, t, h'⟩

theorem strat_delete {x : ℕ} (h : Strat ({x} + rest) c s) : After (delete (some x)) (fun _ => Strat rest c) E s := by
  obtain ⟨a, b, t, h⟩ := h
  exact (after_delete (p := some x) (m := a + b + t + rest) (h.re (by rw [one_some]; abel))).mono (fun _ s' h' => ⟨a, b, t, h'⟩) fun s' h' => h'

theorem strat_touch {x : ℕ} (h : Strat ({x} + rest) c s) : After (touch (some x)) (fun _ => Strat ({x} + rest) c) E s := by
  obtain ⟨a, b, t, h⟩ := h
  exact (after_touch h (by simp)).mono (fun _ s' h' => ⟨a, b, t, h'⟩) fun s' h' => h'

/-- Something that may throw while `x` is held by a local variable. -/
theorem strat_guarded {x : ℕ} (h : Strat ({x} + rest) c s) :
    After (onThrow mayThrow (delete (some x))) (fun _ => Strat ({x} + rest) c) (Strat rest c) s :=
  after_onThrow (strat_mayThrow h) fun _ h' => strat_delete h'

theorem strat_new (h : Strat rest c s) : After new (fun x => Strat ({x} + rest) c) (Strat rest c) s := by
  obtain ⟨a, b, t, h⟩ := h
  exact (after_new h).mono (fun x s' h' => ⟨a, b, t, h'.re (by abel)⟩) fun s' h' => ⟨a, b, t, h'⟩

theorem strat_new5 (h : Strat rest c s) :
    After (newObject 5) (fun p s' => ∃ x, p = some x ∧ Strat ({x} + rest) c s') (Strat rest c) s := by
  obtain ⟨a, b, t, h⟩ := h
  refine (after_newObject (m := b + t + rest) (three_vecs5 c a b t) (h.re (by abel))).mono ?_ fun s' h' => ⟨a, b, t, h'.re (by abel)⟩
  rintro p s' ⟨x, a', rfl, h'⟩
  rw [three_set5] at h'
  exact ⟨x, rfl, a', b, t, h'.re (by abel)⟩

theorem strat_new6 (h : Strat rest c s) :
    After (newObject 6) (fun p s' => ∃ x, p = some x ∧ Strat ({x} + rest) c s') (Strat rest c) s := by
  obtain ⟨a, b, t, h⟩ := h
  refine (after_newObject (m := a + t + rest) (three_vecs6 c a b t) (h.re (by abel))).mono ?_ fun s' h' => ⟨a, b, t, h'.re (by abel)⟩
  rintro p s' ⟨x, b', rfl, h'⟩
  rw [three_set6] at h'
  exact ⟨x, rfl, a, b', t, h'.re (by abel)⟩

theorem strat_freeSlice {x : ℕ} (h : Strat ({x} + rest) c s) : After (freeSlice (some x)) (fun _ => Strat rest c) E s := by
  refine after_seq (strat_touch h) ?_ fun _ hs => hs
  rintro _ s1 ⟨a, b, t, h1⟩
  refine (after_noThrowPush (w := a) (m := b + t + rest) (h1.re (by abel)) (three_vecs5 c a b t)).mono ?_ fun s' h' => h'
  rintro _ s' ⟨a', h'⟩
  rw [three_set5] at h'
  exact ⟨a', b, t, h'.re (by abel)⟩

theorem strat_freeConsumer {x : ℕ} (h : Strat ({x} + rest) c s) : After (freeConsumer (some x)) (fun _ => Strat rest c) E s := by
  refine after_seq (strat_touch h) ?_ fun _ hs => hs
  rintro _ s1 ⟨a, b, t, h1⟩
  refine (after_noThrowPush (w := b) (m := a + t + rest) (h1.re (by abel)) (three_vecs6 c a b t)).mono ?_ fun s' h' => h'
  rintro _ s' ⟨b', h'⟩
  rw [three_set6] at h'
  exact ⟨a, b', t, h'.re (by abel)⟩

theorem strat_dispose {x : ℕ} (h : Strat ({x} + rest) c s) : After (dispose (some x)) (fun _ => Strat rest c) E s := by
  by_cases e : s.consumer x
  · have := strat_freeConsumer (E := E) h
    unfold After at this ⊢
    simpa only [dispose, e, if_true] using this
  · have := strat_freeSlice (E := E) h
    unfold After at this ⊢
    simpa only [dispose, e, Bool.false_eq_true, if_false] using this

theorem strat_addTask {x : ℕ} (h : Strat ({x} + rest) c s) : After (addTask (some x)) (fun _ => Strat rest c) (Strat rest c) s := by
  obtain ⟨a, b, t, h⟩ := h
  refine after_onThrow ((after_pushBack h (three_vecs7 c a b t) (some x)).mono (fun _ s' h' => ?_) fun s' h' => h')
    fun s' h' => strat_dispose ⟨a, b, t, h'⟩
  have e : ptrs t ++ [some x] = ptrs (t ++ [x]) := by simp [ptrs]
  rw [e, three_set7] at h'
  exact ⟨a, b, t ++ [x], h'.re (by rw [coe_snoc]; abel)⟩

theorem strat_pivotSplit (swap : Bool) {x : ℕ} (h : Strat ({x} + rest) c s) :
    After (pivotSplit swap (some x)) (fun _ => Strat rest c) (Strat rest c) s := by
  refine after_seq (strat_touch h) (fun _ s1 h1 => ?_) fun _ hs => hs
  refine after_seq (strat_guarded h1) (fun _ s2 h2 => ?_) fun _ hs => hs
  refine after_seq (after_onThrow (strat_new5 h2) fun s3 h3 => strat_delete h3) ?_ fun _ hs => hs
  rintro p s3 ⟨y, rfl, h3⟩
  refine after_seq (strat_touch h3) (fun _ s4 h4 => ?_) fun _ hs => hs
  refine after_seq (after_onThrow (strat_mayThrow h4) fun s5 h5 =>
    after_seq (strat_delete (E := fun _ => False) h5) (fun _ s6 h6 => strat_delete h6) fun _ hs => hs) (fun _ s5 h5 => ?_) fun _ hs => hs
  cases swap with
  | false =>
    exact after_seq (after_onThrow (strat_addTask h5) fun s6 h6 => strat_delete h6) (fun _ s6 h6 => strat_addTask h6) fun _ hs => hs
  | true =>
    exact after_seq (after_onThrow (strat_addTask (x := x) (rest := {y} + rest) (h5.re (by abel))) fun s6 h6 => strat_delete h6) (fun _ s6 h6 => strat_addTask h6) fun _ hs => hs

theorem strat_independenceSplit {x : ℕ} (h : Strat ({x} + rest) c s) :
    After (independenceSplit (some x)) (fun _ => Strat rest c) (Strat rest c) s := by
  refine after_seq (after_onThrow (Q := fun _ => Strat ({x} + rest) c) (E' := Strat ({x} + rest) c) ?_ fun s' h' => strat_delete h')
    (fun _ s' h' => strat_freeSlice h') fun _ hs => hs
  refine after_seq (strat_new6 h) ?_ fun _ hs => hs
  rintro p s1 ⟨y, rfl, h1⟩
  refine after_seq (strat_touch h1) (fun _ s2 h2 => ?_) fun _ hs => hs
  refine after_seq (strat_guarded h2) (fun _ s3 h3 => ?_) fun _ hs => hs
  refine after_seq (strat_addTask h3) (fun _ s4 h4 => ?_) fun _ hs => hs
  refine after_seq (strat_new5 h4) ?_ fun _ hs => hs
  rintro p s5 ⟨l, rfl, h5⟩
  refine after_seq (strat_touch h5) (fun _ s6 h6 => ?_) fun _ hs => hs
  refine after_seq (strat_guarded h6) (fun _ s7 h7 => ?_) fun _ hs => hs
  refine after_seq (strat_addTask h7) (fun _ s8 h8 => ?_) fun _ hs => hs
  refine after_seq (strat_new5 h8) ?_ fun _ hs => hs
  rintro p s9 ⟨r, rfl, h9⟩
  refine after_seq (strat_touch h9) (fun _ s10 h10 => ?_) fun _ hs => hs
  refine after_seq (strat_guarded h10) (fun _ s11 h11 => ?_) fun _ hs => hs
  exact strat_addTask h11

theorem strat_processSlice (choice : Choice) {x : ℕ} (h : Strat ({x} + rest) c s) :
    After (processSlice choice (some x)) (fun _ => Strat rest c) (Strat rest c) s := by
  refine after_seq (strat_touch h) (fun _ s1 h1 => ?_) fun _ hs => hs
  refine after_seq (strat_guarded h1) (fun _ s2 h2 => ?_) fun _ hs => hs
  cases choice with
  | base => exact strat_freeSlice h2
  | indep => exact strat_independenceSplit h2
  | pivot swap => exact strat_pivotSplit swap h2

theorem strat_runTask (choice : Choice) {x : ℕ} (h : Strat ({x} + rest) c s) :
    After (runTask choice (some x)) (fun _ => Strat rest c) (Strat rest c) s := by
  by_cases e : s.consumer x
  · have := strat_dispose (E := Strat rest c) h
    unfold After at this ⊢
    simpa only [runTask, e, if_true] using this
  · have := strat_processSlice choice h
    unfold After at this ⊢
    simpa only [runTask, e, Bool.false_eq_true, if_false] using this

theorem strat_runTasks (choices : ℕ → Choice) (n : ℕ) : ∀ s, Strat rest c s →
    After (runTasks choices n) (fun _ s' => ∃ a b : List ℕ, At (a + b + rest) (three c a b []) s') (Strat rest c) s := by
  induction n with
  | zero => intros; trivial
  | succ n ih =>
    rintro s ⟨a, b, t, h⟩
    refine after_seq (after_read h (three_vecs7 c a b t)) ?_ fun _ hs => hs
    rintro v s1 ⟨rfl, h1⟩
    by_cases ht : t = []
    · subst ht
      simp only [ptrs, List.map_nil, if_true]
      exact after_pure ⟨a, b, h1.re (by simp)⟩
    · have ht' : ¬ ptrs t = [] := by simpa using ht
      simp only [ht', if_false]
      refine after_seq (after_popBack_ptrs h1 (three_vecs7 c a b t) ht) ?_ fun _ hs => hs
      rintro p s2 ⟨x, t', rfl, rfl, h2⟩
      rw [three_set7] at h2
      refine after_seq (strat_runTask (choices n) (rest := rest) ⟨a, b, t', h2.re (by rw [coe_snoc]; abel)⟩) (fun _ s3 h3 => ih s3 h3) fun _ hs => hs

theorem strat_run (choices : ℕ → Choice) (n : ℕ) (h : Strat rest c s) :
    After (runStrategy choices n) (fun _ s' => ∃ a : List ℕ, At (a + rest) (three c a [] []) s') (Strat rest c) s := by
  refine after_seq (strat_mayThrow h) (fun _ s1 h1 => ?_) fun _ hs => hs
  refine after_seq (strat_new h1) (fun x s2 h2 => ?_) fun _ hs => hs
  refine after_seq (strat_guarded h2) (fun _ s3 h3 => ?_) fun _ hs => hs
  refine after_seq (strat_addTask h3) (fun _ s4 h4 => ?_) fun _ hs => hs
  refine after_seq (strat_runTasks choices n s4 h4) ?_ fun _ hs => hs
  rintro _ s5 ⟨a, b, h5⟩
  refine (after_deleteElements (m := a + rest) (three_vecs6 c a b []) (h5.re (by rw [all_ptrs]; abel))).mono (fun _ s6 h6 => ⟨a, ?_⟩) fun s' h' => h'
  have := three_set6 c a b [] []
  simp only [ptrs, List.map_nil] at this h6
  rwa [this] at h6

theorem after_destroy {a b : List ℕ} (h : At (a + b + rest) (three c a b []) s) :
    After destroyStrategy (fun _ s' => ∃ c', At rest c' s') E s := by
  refine after_seq (after_deleteElements (m := a + rest) (three_vecs6 c a b []) (h.re (by rw [all_ptrs]; abel))) (fun _ s1 h1 => ?_) fun _ hs => hs
  refine after_seq (after_getCells h1) ?_ fun _ hs => hs
  rintro _ s2 ⟨rfl, h2⟩
  refine after_seq (after_setCells h2 _) (fun _ s3 h3 => ?_) fun _ hs => hs
  refine after_seq (after_deleteElements (m := rest) (v := ptrs a) (by simp [Cells.kill, Cells.set, three]) (h3.re (by rw [all_ptrs]))) (fun _ s4 h4 => ?_) fun _ hs => hs
  refine after_seq (after_getCells h4) ?_ fun _ hs => hs
  rintro _ s5 ⟨rfl, h5⟩
  refine after_seq (after_setCells h5 _) (fun _ s6 h6 => ?_) fun _ hs => hs
  refine after_seq (after_read (v := []) h6 (by simp [Cells.kill, Cells.set, three])) ?_ fun _ hs => hs
  rintro _ s7 ⟨rfl, h7⟩
  refine after_seq (R := fun _ s' => At rest _ s') (E' := E) (after_pure h7) (fun _ s8 h8 => ?_) fun _ hs => hs
  refine after_seq (after_getCells h8) ?_ fun _ hs => hs
  rintro _ s9 ⟨rfl, h9⟩
  exact (after_setCells h9 _).mono (fun _ s' h' => ⟨_, h'⟩) fun s' h' => h'

end Frobby.Own
