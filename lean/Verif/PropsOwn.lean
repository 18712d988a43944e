import Verif.OwnReadLemmas

/-!
# C82: no object is lost or deleted twice when memory runs out
-/

namespace Frobby.Own

theorem Sane.at {s : Store} (h : Sane s) : At s.live s.cells s := ⟨rfl, Multiset.coe_nodup.2 h.nodup, fun x hx => h.fresh x (by simpa using hx), rfl⟩

theorem Sane.at_perm {s : Store} (h : Sane s) {l : List ℕ} (hl : s.live.Perm l) : At l s.cells s := h.at.re (Multiset.coe_eq_coe.2 hl.symm)

theorem At.exactly {l : List ℕ} {c : Cells} {s : Store} (h : At l c s) : Exactly s l := ⟨Multiset.coe_eq_coe.1 h.live, Multiset.coe_nodup.1 h.nodup⟩

theorem At.sane {m : Multiset ℕ} {c : Cells} {s : Store} (h : At m c s) : Sane s :=
  ⟨by rw [← Multiset.coe_nodup, h.live]; exact h.nodup, fun x hx => h.fresh x (by rw [← h.live]; simpa using hx)⟩

theorem all_targets (v : List Ptr) : all v = targets v := by
  induction v with
  | nil => rfl
  | cons p v ih => cases p with
    | none => simp [targets, ih]
    | some x =>
      have : targets (some x :: v) = x :: targets v := rfl
      rw [all_cons, one_some, ih, this, Multiset.singleton_add, Multiset.cons_coe]

/-- `exceptionSafePushBack` puts the object into the container, or it deletes the object and the containers are as before. -/
theorem C82_push (s : Store) (hs : Sane s) (k x : ℕ) (v : List Ptr) (hv : s.cells.vecs k = some v) (rest : List ℕ)
    (hx : s.live.Perm (x :: rest)) :
    After (exceptionSafePushBack delete k (some x))
      (fun _ s' => Exactly s' (x :: rest) ∧ ∀ j, s'.cells.vecs j = if j = k then some (v ++ [some x]) else s.cells.vecs j)
      (fun s' => Exactly s' rest ∧ s'.cells = s.cells) s := by
  have e : ((x :: rest : List ℕ) : Multiset ℕ) = {x} + rest := by rw [Multiset.singleton_add, Multiset.cons_coe]
  refine (after_safePush (p := some x) (m := rest) ((hs.at_perm hx).re (by rw [one_some, e])) hv).mono (fun _ s' h' => ?_) fun s' h' => ?_
  · refine ⟨(h'.re (by rw [one_some, e])).exactly, fun j => ?_⟩
    rw [h'.cells]
    rfl
  · exact ⟨h'.exactly, h'.cells⟩

/-- `deleteElements` deletes the objects of the container and nothing else, and empties it. -/
theorem C82_delete (s : Store) (hs : Sane s) (k : ℕ) (v : List Ptr) (hv : s.cells.vecs k = some v) (rest : List ℕ)
    (hx : s.live.Perm (targets v ++ rest)) :
    After (deleteElements delete k)
      (fun _ s' => Exactly s' rest ∧ ∀ j, s'.cells.vecs j = if j = k then some [] else s.cells.vecs j) (fun _ => False) s := by
  refine (after_deleteElements (m := rest) hv ((hs.at_perm hx).re (by rw [all_targets, Multiset.coe_add]))).mono (fun _ s' h' => ?_) fun _ hs => hs
  refine ⟨h'.exactly, fun j => ?_⟩
  rw [h'.cells]
  rfl

/-- A store with empty containers and the objects `0, …, n - 1`, where the operations `bad` throw. -/
def fresh (n : ℕ) (bad : ℕ → Bool) (consumer : ℕ → Bool) : Store :=
  ⟨List.range n, n, bad, 0, consumer, ⟨fun _ => some [], fun _ => (none, none), none, none⟩⟩

theorem fresh_sane (n : ℕ) (bad consumer : ℕ → Bool) : Sane (fresh n bad consumer) := ⟨List.nodup_range, fun _ hx => List.mem_range.1 hx⟩

/-- The objects that are there and the pointers in a container, after code. -/
def look {α : Type} (k : ℕ) : Ended α → Option (Bool × List ℕ × Option (List Ptr))
  | .ok _ s => some (true, s.live, s.cells.vecs k)
  | .threw s => some (false, s.live, s.cells.vecs k)
  | _ => none

/-- Object 0 is pushed, or deleted. -/
example : look 4 (exceptionSafePushBack delete 4 (some 0) (fresh 2 (fun _ => false) fun _ => false)) = some (true, [0, 1], some [some 0]) ∧
    look 4 (exceptionSafePushBack delete 4 (some 0) (fresh 2 (fun _ => true) fun _ => false)) = some (false, [1], some []) := by
  decide +kernel

/-- Two objects are pushed, and deleted with the elements. -/
example : look 4 ((do
    exceptionSafePushBack delete 4 (some 0)
    exceptionSafePushBack delete 4 (some 1)
    deleteElements delete 4 : Proc Unit) (fresh 3 (fun _ => false) fun _ => false)) = some (true, [2], some []) := by
  decide +kernel

/-! ## Caches -/

/-- A cache, what its user holds, and `rest`. -/
def Caching (rest : Multiset ℕ) (held : List Ptr) (s : Store) : Prop :=
  ∃ (c : Cells) (w : List ℕ), At (w + all held + rest) c s ∧ c.vecs 0 = some (ptrs w) ∧ ∀ p ∈ held, p ≠ none

theorem Caching.snoc {held : List Ptr} (hh : ∀ p ∈ held, p ≠ none) (x : ℕ) : ∀ p ∈ held ++ [some x], p ≠ none := by
  intro p hp
  rcases List.mem_append.1 hp with hp | hp
  · exact hh p hp
  · rw [List.mem_singleton.1 hp]; simp

theorem all_eraseIdx (held : List Ptr) (i : ℕ) (p : Ptr) (h : held[i]? = some p) : one p + all (held.eraseIdx i) = all held := by
  induction held generalizing i with
  | nil => simp at h
  | cons q held ih =>
    cases i with
    | zero => simp only [List.getElem?_cons_zero, Option.some.injEq] at h; subst h; rfl
    | succ i =>
      simp only [List.getElem?_cons_succ] at h
      rw [List.eraseIdx_cons_succ, all_cons, all_cons, ← ih i h]
      abel

theorem caching_step {rest : Multiset ℕ} {held : List Ptr} {s : Store} (h : Caching rest held s) (op : CacheOp) :
    After (cacheStep held op) (Caching rest) (fun _ => False) s := by
  obtain ⟨c, w, h, hv, hh⟩ := h
  cases op with
  | fetch =>
    refine after_caught (after_seq (after_newObject (m := all held + rest) hv (h.re (by abel))) ?_ fun _ hs => hs)
      fun s' h' => ⟨c, w, h'.re (by abel), hv, hh⟩
    rintro p s' ⟨x, w', rfl, h'⟩
    exact after_pure ⟨_, w', h'.re (by rw [all_append, all_cons, one_some, all_nil]; abel), set_same _ _ _, Caching.snoc hh x⟩
  | fetchCopy =>
    refine after_caught (after_seq (after_newObjectCopy (m := all held + rest) hv (h.re (by abel))) ?_ fun _ hs => hs)
      fun s' ⟨w', h'⟩ => ⟨_, w', h'.re (by abel), set_same _ _ _, hh⟩
    rintro p s' ⟨x, w', rfl, h'⟩
    exact after_pure ⟨_, w', h'.re (by rw [all_append, all_cons, one_some, all_nil]; abel), set_same _ _ _, Caching.snoc hh x⟩
  | free i =>
    cases hi : held[i]? with
    | none =>
      have e : cacheStep held (.free i) = pure held := by simp only [cacheStep, hi]
      rw [e]
      exact after_pure (Q := Caching rest) ⟨c, w, h, hv, hh⟩
    | some p =>
      have e0 : cacheStep held (.free i) = (do freeObject 0 p; pure (held.eraseIdx i)) := by simp only [cacheStep, hi]
      rw [e0]
      obtain ⟨x, rfl⟩ := Option.ne_none_iff_exists'.1 (hh p (List.mem_of_getElem? hi))
      have e := all_eraseIdx held i _ hi
      refine after_seq (after_noThrowPush (w := w) (m := all (held.eraseIdx i) + rest) (h.re (by rw [← e, one_some]; abel)) hv) ?_ fun _ hs => hs
      rintro _ s' ⟨w', h'⟩
      exact after_pure ⟨_, w', h'.re (by abel), set_same _ _ _, fun q hq => hh q (List.mem_of_mem_eraseIdx hq)⟩

theorem caching_run {rest : Multiset ℕ} (ops : List CacheOp) : ∀ (held : List Ptr) (s : Store), Caching rest held s →
    After (cacheRun ops held) (Caching rest) (fun _ => False) s := by
  induction ops with
  | nil => intro held s h; exact after_pure h
  | cons op ops ih => intro held s h; exact after_seq (caching_step h op) (fun r s' h' => ih r s' h') fun _ hs => hs

/-- However a cache is used and wherever memory runs out, its destructor leaves exactly what its user holds. -/
theorem C82_cache (s : Store) (hs : Sane s) (h0 : s.cells.vecs 0 = some []) (ops : List CacheOp) :
    After (do
        let held ← cacheRun ops []
        deleteElements delete 0
        pure held)
      (fun held s' => Exactly s' (targets held ++ s.live)) (fun _ => False) s := by
  refine after_seq (caching_run (rest := s.live) ops [] s ⟨s.cells, [], hs.at.re (by simp), h0, by simp⟩) ?_ fun _ hs => hs
  rintro held s1 ⟨c, w, h1, hv, -⟩
  refine after_seq (after_deleteElements (m := all held + s.live) hv (h1.re (by rw [all_ptrs]; abel))) (fun _ s2 h2 => ?_) fun _ hs => hs
  exact after_pure (h2.re (by rw [all_targets, Multiset.coe_add])).exactly

/-- Objects are made, given back and made from what is in the cache, the last time in vain. -/
example : look 0 (cacheRun [.fetch, .fetch, .free 0, .fetchCopy, .free 1, .fetchCopy] [] (fresh 1 (fun i => i == 5) fun _ => false)) =
    some (true, [2, 0], some []) := by
  decide +kernel

/-! ## HilbertBasecase -/

theorem rested_calls {rest : Multiset ℕ} {c : Cells} (calls : List ((ℕ → Bool) × ℕ × ℕ)) (hc : ∀ r ∈ calls, r.2.2 ∈ rest) :
    ∀ s, Rested rest c s → After (basecaseCalls calls) (fun _ => Rested rest c) (fun _ => False) s := by
  induction calls with
  | nil => intro s h; exact after_pure h
  | cons r calls ih =>
    rintro s ⟨a, h⟩
    exact after_seq (after_caught (after_computeCoefficient r.1 r.2.1 r.2.2 (hc r (by simp)) h) fun _ h' => h')
      (fun _ s' h' => ih (fun q hq => hc q (List.mem_cons_of_mem _ hq)) s' h') fun _ hs => hs

/-- However often a `HilbertBasecase` is used on ideals of others, whatever splits it makes and wherever memory runs out, it
deletes and uses only what is there, nothing is left to be done, and its destructor leaves exactly what was there before. -/
theorem C82_basecase (s : Store) (hs : Sane s) (h0 : s.cells.vecs 0 = some []) (h1 : s.cells.vecs 1 = some [])
    (calls : List ((ℕ → Bool) × ℕ × ℕ)) (hc : ∀ r ∈ calls, r.2.2 ∈ s.live) :
    After (do
        basecaseCalls calls
        let todo ← read 1
        deleteElements delete 0
        pure todo)
      (fun todo s' => todo = [] ∧ Exactly s' s.live) (fun _ => False) s := by
  have e : two s.cells [] [] = s.cells := by
    have e0 : s.cells.set 0 (ptrs []) = s.cells := set_self s.cells h0
    have e1 : s.cells.set 1 (ptrs []) = s.cells := set_self s.cells h1
    rw [two, e0, e1]
  refine after_seq (rested_calls (rest := s.live) (c := s.cells) calls (by simpa using hc) s ⟨[], by rw [e]; exact hs.at.re (by simp)⟩) ?_ fun _ hs => hs
  rintro _ s1 ⟨a, h⟩
  refine after_seq (after_read h (two_vecs1 _ _ _)) ?_ fun _ hs => hs
  rintro _ s2 ⟨rfl, h2⟩
  refine after_seq (after_deleteElements (m := s.live) (two_vecs0 s.cells a []) (h2.re (by rw [all_ptrs]))) (fun _ s3 h3 => ?_) fun _ hs => hs
  exact after_pure ⟨rfl, h3.exactly⟩

/-- A split, without exceptions, and with one in the middle. -/
example : look 1 (basecaseCalls [(fun i => i == 2, 3, 0)] (fresh 1 (fun _ => false) fun _ => false)) = some (true, [0], some []) ∧
    look 1 (basecaseCalls [(fun i => i == 2, 3, 0)] (fresh 1 (fun i => i == 5) fun _ => false)) = some (true, [0], some []) := by
  decide +kernel

/-! ## Intersections and reading -/

/-- `intersect` makes one object and leaves the others, or it throws and leaves what was there. -/
theorem C82_intersect (s : Store) (hs : Sane s) (h2 : s.cells.vecs 2 = some []) (n : ℕ) :
    After (intersectIdeals n) (fun x s' => Exactly s' (x :: s.live) ∧ s'.cells = s.cells)
      (fun s' => Exactly s' s.live ∧ s'.cells = s.cells) s :=
  (after_intersectIdeals n h2 hs.at).mono
    (fun x s' h' => ⟨(h'.re (by rw [Multiset.singleton_add, Multiset.cons_coe]) : At ((x :: s.live : List ℕ) : Multiset ℕ) _ s').exactly, h'.cells⟩)
    fun s' h' => ⟨h'.exactly, h'.cells⟩

/-- Two ideals, without exceptions, and with one in the middle. -/
example : look 2 (intersectIdeals 2 (fresh 1 (fun _ => false) fun _ => false)) = some (true, [6, 0], some []) ∧
    look 2 (intersectIdeals 2 (fresh 1 (fun i => i == 11) fun _ => false)) = some (false, [0], some []) := by
  decide +kernel

/-- `readIdeals` gives as many ideals as there are in the input. If it throws, it gives none. Nothing is deleted twice. What is
lost are as many objects as ideals were taken from the reader, one for each of them. -/
theorem C82_read_partial (s : Store) (hs : Sane s) (h3 : s.cells.vecs 3 = some []) (h4 : s.cells.vecs 4 = some [])
    (input : List (List Bool)) :
    After (readIdeals input)
      (fun _ s' => ∃ ideals lost : List ℕ, s'.cells.vecs 4 = some (ideals.map some) ∧ ideals.length = input.length ∧
        lost.length = input.length ∧ Exactly s' (ideals ++ lost ++ s.live))
      (fun s' => ∃ lost : List ℕ, s'.cells.vecs 4 = some [] ∧ lost.length ≤ input.length ∧ Exactly s' (lost ++ s.live)) s := by
  refine (after_readIdeals input h3 h4 hs.at).mono ?_ ?_
  · rintro _ s' ⟨w, lost, c', hw, hl, h', -, ha⟩
    refine ⟨w, lost.toList, ?_, hw, by simpa using hl, ?_⟩
    · rw [h'.cells, ha 4 (by decide), set_same]
    · exact (h'.re (by rw [← Multiset.coe_add, ← Multiset.coe_add, Multiset.coe_toList]) : At ((w ++ lost.toList ++ s.live : List ℕ) : Multiset ℕ) c' s').exactly
  · rintro s' ⟨lost, c', hl, h', -, ha⟩
    refine ⟨lost.toList, ?_, by simpa using hl, ?_⟩
    · rw [h'.cells, ha 4 (by decide), h4]
    · exact (h'.re (by rw [← Multiset.coe_add, Multiset.coe_toList]) : At ((lost.toList ++ s.live : List ℕ) : Multiset ℕ) c' s').exactly

/-- The action `intersection` leaves, when it returns, one object for each ideal of its input, and when it throws at most that. -/
theorem C82_action_partial (s : Store) (hs : Sane s) (h2 : s.cells.vecs 2 = some []) (h3 : s.cells.vecs 3 = some [])
    (h4 : s.cells.vecs 4 = some []) (input : List (List Bool)) :
    After (intersectionAction input)
      (fun _ s' => ∃ lost : List ℕ, lost.length = input.length ∧ Exactly s' (lost ++ s.live))
      (fun s' => ∃ lost : List ℕ, lost.length ≤ input.length ∧ Exactly s' (lost ++ s.live)) s := by
  refine (after_intersectionAction input h2 h3 h4 hs.at).mono ?_ ?_
  · rintro _ s' ⟨lost, c', hl, h'⟩
    exact ⟨lost.toList, by simpa using hl,
      (h'.re (by rw [← Multiset.coe_add, Multiset.coe_toList]) : At ((lost.toList ++ s.live : List ℕ) : Multiset ℕ) c' s').exactly⟩
  · rintro s' ⟨lost, c', hl, h'⟩
    exact ⟨lost.toList, by simpa using hl,
      (h'.re (by rw [← Multiset.coe_add, Multiset.coe_toList]) : At ((lost.toList ++ s.live : List ℕ) : Multiset ℕ) c' s').exactly⟩

/-- The objects that are lost are there when memory does not run out: after one ideal was read, and there are no pointers but
that to the ideal (object 1), the entry in which it was kept (object 2) is still there. -/
theorem C82_read_witness : look 4 (readIdeals [[true]] (fresh 0 (fun _ => false) fun _ => false)) = some (true, [2, 1], some [some 1]) := by
  decide +kernel

/-! ## Strategies -/

/-- A strategy that starts without tasks. If its run returns, its destructor leaves what was there before. If its run throws,
every object is in one of its caches, is one of its tasks, or was there before, and if there are no tasks then its destructor
leaves what was there before. -/
theorem C82_strategy_partial (s : Store) (hs : Sane s) (h5 : s.cells.vecs 5 = some []) (h6 : s.cells.vecs 6 = some [])
    (h7 : s.cells.vecs 7 = some []) (choices : ℕ → Choice) (steps : ℕ) :
    After (runStrategy choices steps)
      (fun _ s' => After destroyStrategy (fun _ s'' => Exactly s'' s.live) (fun _ => False) s')
      (fun s' => ∃ slices consumers tasks : List ℕ, s'.cells.vecs 5 = some (slices.map some) ∧
        s'.cells.vecs 6 = some (consumers.map some) ∧ s'.cells.vecs 7 = some (tasks.map some) ∧
        Exactly s' (slices ++ consumers ++ tasks ++ s.live) ∧
        (tasks = [] → After destroyStrategy (fun _ s'' => Exactly s'' s.live) (fun _ => False) s')) s := by
  have e : three s.cells [] [] [] = s.cells := by
    have e5 : s.cells.set 5 (ptrs []) = s.cells := set_self s.cells h5
    have e6 : s.cells.set 6 (ptrs []) = s.cells := set_self s.cells h6
    have e7 : s.cells.set 7 (ptrs []) = s.cells := set_self s.cells h7
    rw [three, e5, e6, e7]
  refine (strat_run (rest := s.live) (c := s.cells) choices steps ⟨[], [], [], by rw [e]; exact hs.at.re (by simp)⟩).mono ?_ ?_
  · rintro _ s' ⟨a, h'⟩
    exact (after_destroy (h'.re (by simp))).mono (fun _ s'' ⟨c', h''⟩ => h''.exactly) fun _ hs => hs
  · rintro s' ⟨a, b, t, h'⟩
    refine ⟨a, b, t, by rw [h'.cells, three_vecs5], by rw [h'.cells, three_vecs6], by rw [h'.cells, three_vecs7], ?_, ?_⟩
    · exact (h'.re (by simp only [← Multiset.coe_add]) : At ((a ++ b ++ t ++ s.live : List ℕ) : Multiset ℕ) _ s').exactly
    · rintro rfl
      exact (after_destroy (h'.re (by simp))).mono (fun _ s'' ⟨c', h''⟩ => h''.exactly) fun _ hs => hs

/-- A run with a split into independent parts and one by a pivot, which returns. -/
example : (match runStrategy (fun i => if i = 9 then .indep else if i = 8 then .pivot true else .base) 10 (fresh 1 (fun _ => false) fun x => x == 2) with
    | .ok _ s => look 7 (destroyStrategy s)
    | _ => none) = some (true, [0], none) := by
  decide +kernel

/-- What the destructor of a strategy does after its run has thrown. -/
def destroyed : Ended Unit → Option Bool
  | .threw s =>
    match destroyStrategy s with
    | .stuck => some false
    | _ => some true
  | _ => none

/-- A run that splits a slice by a pivot and throws while it works on one of the two. Then the destructor of the strategy puts
the other one, which is a task, into the cache of slices after that was destroyed. -/
theorem C82_strategy_witness : destroyed (runStrategy (fun _ => .pivot false) 2 (fresh 0 (fun i => i == 10) fun _ => false)) = some false := by
  decide +kernel

end Frobby.Own
