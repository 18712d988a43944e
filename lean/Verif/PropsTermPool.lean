import Verif.TermPoolLemmas

/-!
# C72: objects of class `Term` behave as values, and their memory is neither lost nor used after it is released
-/

namespace Frobby

open TermHeap

/-- Whatever a program has done so far, with or without running out of memory on the way, each of its terms reads as what the
operations on that object say, and objects that do not exist cannot be read. In particular no two terms share an array, and a term
that has got an array out of a pool does not show what was left in it. -/
theorem C72_values {debug : Bool} {s : TermHeap} {v : TermVals} (h : TermHistory debug s v) (x : ℕ) : s.value x = v x := by
  obtain ⟨own, h, -⟩ := Good.of_history h
  exact h.value x

/-- A legal operation has no memory error, and throws only if memory runs out; in a debug build its assertions hold as well,
provided that it does not make a term with variables one without by assignment or `reset`. -/
theorem C72_safe_partial {debug : Bool} {s : TermHeap} {v : TermVals} (h : TermHistory debug s v) (f : MemFails) {o : TermOp}
    (ho : o.Legal v) (he : debug = true → ¬ o.Empties v) :
    ∃ threw t, step debug f o s = some (threw, t) ∧ (threw = true → (f.poolFails || f.newFails) = true) := by
  obtain ⟨b, t, h1, h2, -⟩ := (Good.of_history h).step (f := f) ho he
  exact ⟨b, t, h1, fun h3 => (h2 h3).1⟩

/-- In a release build no legal operation has a memory error. -/
theorem C72_safe_release {s : TermHeap} {v : TermVals} (h : TermHistory false s v) (f : MemFails) {o : TermOp} (ho : o.Legal v) :
    step false f o s ≠ none := by
  obtain ⟨b, t, h1, -⟩ := C72_safe_partial h f ho (by simp)
  simp [h1]

/-- In a debug build the operations that are stopped by an assertion are exactly those that make a term with variables one without,
other than by `clear`. -/
theorem C72_debug_exact {s : TermHeap} {v : TermVals} (h : TermHistory true s v) (f : MemFails) {o : TermOp} (ho : o.Legal v) :
    step true f o s = none ↔ o.Empties v := by
  constructor
  · intro h1
    by_contra h2
    obtain ⟨b, t, h3, -⟩ := C72_safe_partial h f ho fun _ => h2
    simp [h1] at h3
  · exact (Good.of_history h).step_empties ho

/-- No array is lost: every allocated array is that of a term that exists or is in a pool, one of the pools 0 to 49, each of which
has at most 1000 arrays, all of the size the pool is for. -/
theorem C72_no_leak {debug : Bool} {s : TermHeap} {v : TermVals} (h : TermHistory debug s v) :
    (∀ a, s.mem a ≠ none → (∃ x l, s.terms x = some (some a, l.length) ∧ v x = some l) ∨ ∃ k < 50, a ∈ s.pool k) ∧
      (∀ k, (s.pool k).length ≤ 1000) ∧ (∀ k, 50 ≤ k → s.pool k = []) ∧
      ∀ k, ∀ a ∈ s.pool k, ∃ c, s.mem a = some c ∧ c.length = k := by
  obtain ⟨own, h, hh⟩ := Good.of_history h
  refine ⟨fun a ha => ?_, h.few, fun k hk => ?_, fun k a ha => h.sizes k a ha⟩
  · have h1 : (own a).isSome := (h.alive a).1 (Option.isSome_iff_ne_none.2 ha)
    obtain ⟨o, h2⟩ := Option.isSome_iff_exists.1 h1
    cases o with
    | term x =>
      obtain ⟨n, h3⟩ := (h.terms x a).1 h2
      obtain ⟨l, h4, rfl, -⟩ := h.held x a n h3
      exact Or.inl ⟨x, l, h3, h4⟩
    | pool k =>
      have h3 := (h.pools k a).1 h2
      exact Or.inr ⟨k, (h.ready k (List.ne_nil_of_mem h3)).1, h3⟩
    | hand => exact absurd h2 (hh a)
  · by_contra h1
    have := (h.ready k h1).1
    omega

/-- When all terms are gone at the end of the program, the destructors of the pools delete every array exactly once: no deletion is of
an array that is not allocated, and nothing is left. -/
theorem C72_all_released {debug : Bool} {s : TermHeap} {v : TermVals} (h : TermHistory debug s v) (hv : ∀ x, v x = none) :
    ∃ t, destroyPools 50 s = some t ∧ (∀ a, t.mem a = none) ∧ ∀ k, t.inited k = false := by
  have hleak := C72_no_leak h
  obtain ⟨own, h, -⟩ := Good.of_history h
  obtain ⟨t, h1, h2, h3, h4, h5⟩ := destroyPools_exact (s := s) 50 h.nodup
    (fun j a ha => by
      obtain ⟨c, h1, -⟩ := h.sizes j a ha
      simp [h1])
    (fun i j a hi hj => by
      have h1 := (h.pools i a).2 hi
      have h2 := (h.pools j a).2 hj
      rw [h1] at h2
      simpa using h2)
    (fun j hj => (h.ready j hj).2)
  refine ⟨t, h1, fun a => ?_, fun k => ?_⟩
  · by_cases h6 : s.mem a = none
    · exact h3 a h6
    · rcases hleak.1 a h6 with ⟨x, l, -, h7⟩ | ⟨k, h7, h8⟩
      · rw [hv x] at h7
        simp at h7
      · exact h2 k h7 a h8
  · by_cases h6 : k < 50
    · exact h4 k h6
    · rw [h5 k (by omega)]
      by_contra h7
      exact h6 (h.initedLt k (by simpa using h7))

/-- What the pools are for: when a term of 1 to 49 variables is destroyed while its pool has room, the next term with that number of
variables is made without asking for memory, so it is made even if there is none. -/
theorem C72_reuse {debug : Bool} {s t : TermHeap} {v : TermVals} (h : TermHistory debug s v) {x y n : ℕ} {l : List ℕ} (hx : v x = some l)
    (hl : l.length = n) (h0 : 0 < n) (h50 : n < 50) (hroom : (s.pool n).length < 1000) {f g : MemFails}
    (hd : step debug f (.destroy x) s = some (false, t)) :
    ∃ u, step debug g (.one y n) t = some (false, u) ∧ u.next = t.next := by
  obtain ⟨own, h, -⟩ := Good.of_history h
  obtain ⟨p, hp⟩ := h.length hx
  have hp' : ∃ a, p = some a := by
    cases p with
    | none =>
      have := (h.null x _ hp).1
      omega
    | some a => exact ⟨a, rfl⟩
  obtain ⟨a, rfl⟩ := hp'
  obtain ⟨k, h1, h2, h3, h4, -⟩ := h.held x a _ hp
  subst hl
  have hi := h4 h50
  have hdb : (debug && l.length == 0) = false := by
    have : (l.length == 0) = false := by simpa using Nat.ne_of_gt h0
    simp [this]
  have hc : (decide (l.length < poolCount) && decide ((s.pool l.length).length < objectPoolSize)) = true := by
    simp only [Bool.and_eq_true, decide_eq_true_eq]
    exact ⟨h50, hroom⟩
  simp only [step, hp, deallocate, hdb, Bool.false_eq_true, if_false, hc, if_true, hi, Option.map_some, Option.some.injEq, Prod.mk.injEq,
    true_and] at hd
  subst hd
  have hlt : l.length < poolCount := h50
  have hs : s.mem a = some (k.map some) := h3
  simp only [step, construct, List.length_replicate, gt_iff_lt, h0, if_true, allocate, hdb, Bool.false_eq_true, if_false, hlt, setTerm, hi,
    Bool.not_true, Bool.false_and, Function.update_self]
  have hst := store_full (s := TermHeap.mk s.mem s.next (Function.update s.inited l.length true)
    (Function.update (Function.update s.pool l.length (a :: s.pool l.length)) l.length (s.pool l.length))
    (Function.update s.terms x none)) (l := List.replicate l.length 0) hs (by simp [h2])
  rw [hst]
  exact ⟨_, rfl, rfl⟩

/-! ### Cases -/

/-- A program: a term of three variables is made, changed and destroyed; another one gets its array. -/
def poolOps : List TermOp := [.ofArray 0 [1, 2, 3], .copy 1 0, .set 1 0 7, .destroy 0, .one 2 3, .assign 1 2, .set 2 1 9]

/-- Running it. -/
def poolRun (debug : Bool) : List TermOp → TermHeap → Option TermHeap
  | [], s => some s
  | o :: l, s => (step debug MemFails.none o s).bind fun r => poolRun debug l r.2

example : ((poolRun true poolOps start).map fun s => ([0, 1, 2].map s.value, s.next)) =
    some ([none, some [0, 0, 0], some [0, 9, 0]], 2) := by decide +kernel

/-- A history with a term of two variables, another one of two variables made from the array of the first after it was released, and
one without variables. -/
theorem C72_history_example : ∃ s, TermHistory true s (Function.update (Function.update (fun _ => none) 1 (some [0, 0])) 2 (some [])) ∧
    s.next = 1 := by
  let s1 := ((step true MemFails.none (.ofArray 0 [4, 5]) start).getD (true, start)).2
  let s2 := ((step true MemFails.none (.destroy 0) s1).getD (true, start)).2
  let s3 := ((step true MemFails.none (.one 1 2) s2).getD (true, start)).2
  let s4 := ((step true MemFails.none (.empty 2) s3).getD (true, start)).2
  have h1 : TermHistory true s1 _ := TermHistory.done (f := MemFails.none) (o := .ofArray 0 [4, 5]) (t := s1) .start rfl rfl
  have h2 : TermHistory true s2 _ := TermHistory.done (f := MemFails.none) (o := .destroy 0) (t := s2) h1 (by simp [TermOp.Legal, TermOp.effect]) rfl
  have h3 : TermHistory true s3 _ := TermHistory.done (f := MemFails.none) (o := .one 1 2) (t := s3) h2 (by simp [TermOp.Legal, TermOp.effect]) rfl
  have h4 : TermHistory true s4 _ := TermHistory.done (f := MemFails.none) (o := .empty 2) (t := s4) h3 (by simp [TermOp.Legal, TermOp.effect]) rfl
  refine ⟨s4, ?_, rfl⟩
  convert h4 using 1
  funext x
  by_cases hx : x = 0
  · subst hx; rfl
  · simp [TermOp.effect, Function.update_apply]

/-- The assertions `size > 0` in `allocate` and `deallocate` do not always hold: `reset(0)`, or the assignment of a term without
variables, stops a debug build when the term has variables, although a release build carries it out and gives the term an array of
length 0. -/
theorem C72_debug_stops : poolRun true [.one 0 2, .reset 0 0] start = none ∧ poolRun true [.one 0 2, .empty 1, .assign 0 1] start = none ∧
    (poolRun false [.one 0 2, .empty 1, .assign 0 1] start).map (fun s => (s.value 0, s.terms 0)) = some (some [], some (some 1, 0)) := by
  decide +kernel

/-- Running out of memory leaves everything as it was. -/
example : (step false ⟨false, true⟩ (.reset 1 7) ((poolRun false poolOps start).getD start)).map (fun r => (r.1, r.2.value 1)) =
    some (true, some [0, 0, 0]) := by decide +kernel

end Frobby
