import Verif.StatSpec
import Mathlib.Tactic.Ring
import Mathlib.Tactic.Linarith

/-!
# Lemmas about statistics and debug output
-/

namespace Frobby.Stat

/-! ## The map of logarithms -/

theorem lookup_bump (key k : ℕ) (m : List (ℕ × ℕ)) (hm : m.Pairwise fun x y => x.1 < y.1) :
    lookup k (bump key m) = lookup k m + if key = k then 1 else 0 := by
  induction m with
  | nil => simp [bump, lookup]
  | cons x rest ih =>
    obtain ⟨k0, n0⟩ := x
    have hr := (List.pairwise_cons.mp hm).2
    have hx := (List.pairwise_cons.mp hm).1
    have habs : ∀ (q : ℕ) (m' : List (ℕ × ℕ)), (∀ y ∈ m', q < y.1) → lookup q m' = 0 := by
      intro q m'
      induction m' with
      | nil => intro _; rfl
      | cons y ys ihy =>
        intro h
        have h1 := h y List.mem_cons_self
        simp only [lookup]
        rw [if_neg (by omega)]
        exact ihy fun z hz => h z (List.mem_cons_of_mem _ hz)
    unfold bump
    split
    · rename_i h
      simp only [lookup]
      by_cases hk : key = k
      · subst hk
        rw [if_pos rfl, if_neg (by omega), if_pos rfl, habs key rest (fun y hy => lt_trans h (hx y hy))]
      · rw [if_neg hk, if_neg hk]
        simp
    · split
      · rename_i h1 h2
        subst h2
        simp only [lookup]
        split <;> simp
      · rename_i h1 h2
        simp only [lookup]
        split
        · rename_i h3
          rw [if_neg (by omega)]
          simp
        · exact ih hr

theorem mem_bump (key : ℕ) (m : List (ℕ × ℕ)) (x : ℕ × ℕ) (hx : x ∈ bump key m) :
    x.1 = key ∨ ∃ y ∈ m, y.1 = x.1 := by
  induction m with
  | nil => simp only [bump, List.mem_singleton] at hx; subst hx; exact Or.inl rfl
  | cons y rest ih =>
    obtain ⟨k, n⟩ := y
    unfold bump at hx
    split at hx
    · rcases List.mem_cons.mp hx with h | h
      · subst h; exact Or.inl rfl
      · exact Or.inr ⟨x, h, rfl⟩
    · split at hx
      · rcases List.mem_cons.mp hx with h | h
        · subst h; exact Or.inr ⟨(k, n), List.mem_cons_self, rfl⟩
        · exact Or.inr ⟨x, List.mem_cons_of_mem _ h, rfl⟩
      · rcases List.mem_cons.mp hx with h | h
        · subst h; exact Or.inr ⟨(k, n), List.mem_cons_self, rfl⟩
        · rcases ih h with h' | ⟨y, hy, e⟩
          · exact Or.inl h'
          · exact Or.inr ⟨y, List.mem_cons_of_mem _ hy, e⟩

theorem bump_sorted (key : ℕ) (m : List (ℕ × ℕ)) (hm : m.Pairwise fun x y => x.1 < y.1) :
    (bump key m).Pairwise fun x y => x.1 < y.1 := by
  induction m with
  | nil => simp [bump]
  | cons y rest ih =>
    obtain ⟨k, n⟩ := y
    have hr := (List.pairwise_cons.mp hm).2
    have hx := (List.pairwise_cons.mp hm).1
    unfold bump
    split
    · rename_i h
      refine List.pairwise_cons.mpr ⟨?_, hm⟩
      intro z hz
      rcases List.mem_cons.mp hz with e | hz'
      · subst e; exact h
      · exact lt_trans h (hx z hz')
    · split
      · exact List.pairwise_cons.mpr ⟨hx, hr⟩
      · rename_i h1 h2
        refine List.pairwise_cons.mpr ⟨?_, ih hr⟩
        intro z hz
        rcases mem_bump key rest z hz with e | ⟨y, hy, e⟩
        · show k < z.1; omega
        · have := hx y hy
          show k < z.1; simp only at this; omega

theorem linesFrom_eq (m : List (ℕ × ℕ)) (top : ℕ) :
    linesFrom m top = ((List.range (top + 1)).reverse).map fun k => (lookup k m, k) := by
  induction top with
  | zero => rfl
  | succ n ih => rw [linesFrom, ih, List.range_succ (n := n + 1)]; simp

theorem lookup_of_mem (m : List (ℕ × ℕ)) (hm : m.Pairwise fun x y => x.1 < y.1) (x : ℕ × ℕ) (hx : x ∈ m) :
    lookup x.1 m = x.2 := by
  induction m with
  | nil => cases hx
  | cons y rest ih =>
    rcases List.mem_cons.mp hx with e | h
    · subst e; simp [lookup]
    · have := (List.pairwise_cons.mp hm).1 x h
      simp only [lookup]
      rw [if_neg (by omega)]
      exact ih (List.pairwise_cons.mp hm).2 h

theorem lookup_ne_zero (m : List (ℕ × ℕ)) (k : ℕ) (h : lookup k m ≠ 0) : ∃ x ∈ m, x.1 = k := by
  induction m with
  | nil => exact absurd rfl h
  | cons y rest ih =>
    simp only [lookup] at h
    split at h
    · rename_i e; exact ⟨y, List.mem_cons_self, e⟩
    · obtain ⟨x, hx, e⟩ := ih h
      exact ⟨x, List.mem_cons_of_mem _ hx, e⟩

theorem le_last (m : List (ℕ × ℕ)) (hm : m.Pairwise fun x y => x.1 < y.1) (z : ℕ × ℕ) (hz : m.getLast? = some z)
    (x : ℕ × ℕ) (hx : x ∈ m) : x.1 ≤ z.1 := by
  induction m with
  | nil => cases hx
  | cons y rest ih =>
    cases rest with
    | nil =>
      simp only [List.getLast?_singleton, Option.some.injEq] at hz
      simp only [List.mem_singleton] at hx
      subst hz; subst hx; exact le_refl _
    | cons y' ys =>
      rw [List.getLast?_cons_cons] at hz
      rcases List.mem_cons.mp hx with e | h
      · subst e
        exact le_of_lt ((List.pairwise_cons.mp hm).1 z (List.mem_of_getLast? hz))
      · exact ih (List.pairwise_cons.mp hm).2 hz h

/-! ## Trackers -/

theorem logKey_eq (lg : ℕ → ℕ) (x : Sizes) : logKey lg x.gens = classOf lg x := by
  unfold logKey classOf
  split <;> split <;> first | rfl | omega

/-- A tracker that has recorded the slices of the given sizes. -/
structure Recorded (lg : ℕ → ℕ) (t : Tracker) (l : List Sizes) : Prop where
  nodes : t.nodes = l.length
  gens : t.gensSum = (l.map Sizes.gens).sum
  sub : t.subSum = (l.map Sizes.sub).sum
  vars : t.varSum = (l.map Sizes.vars).sum
  sorted : t.byLog.Pairwise fun x y => x.1 < y.1
  pos : ∀ x ∈ t.byLog, x.2 ≠ 0
  count : ∀ k, lookup k t.byLog = l.countP fun x => classOf lg x = k

theorem recorded_new (lg : ℕ → ℕ) : Recorded lg Tracker.new [] :=
  ⟨rfl, rfl, rfl, rfl, List.Pairwise.nil, fun _ h => absurd h List.not_mem_nil, fun _ => rfl⟩

theorem recorded_preliminary {lg : ℕ → ℕ} {t : Tracker} {l : List Sizes} (h : Recorded lg t l) (s : Sizes) :
    Recorded lg (t.preliminary s) l := ⟨h.nodes, h.gens, h.sub, h.vars, h.sorted, h.pos, h.count⟩

theorem bump_pos (key : ℕ) (m : List (ℕ × ℕ)) (hm : ∀ x ∈ m, x.2 ≠ 0) : ∀ x ∈ bump key m, x.2 ≠ 0 := by
  induction m with
  | nil => intro x hx; simp only [bump, List.mem_singleton] at hx; subst hx; simp
  | cons y rest ih =>
    obtain ⟨k, n⟩ := y
    intro x hx
    unfold bump at hx
    split at hx
    · rcases List.mem_cons.mp hx with h | h
      · subst h; simp
      · exact hm x h
    · split at hx
      · rcases List.mem_cons.mp hx with h | h
        · subst h; simp
        · exact hm x (List.mem_cons_of_mem _ h)
      · rcases List.mem_cons.mp hx with h | h
        · subst h; exact hm _ List.mem_cons_self
        · exact ih (fun z hz => hm z (List.mem_cons_of_mem _ hz)) x h

theorem recorded_commit {lg : ℕ → ℕ} {t : Tracker} {l : List Sizes} (h : Recorded lg t l) :
    Recorded lg (t.commit lg) (l ++ [t.prelim]) := by
  refine ⟨?_, ?_, ?_, ?_, bump_sorted _ _ h.sorted, bump_pos _ _ h.pos, ?_⟩
  · simp [Tracker.commit, h.nodes]
  · simp [Tracker.commit, h.gens]
  · simp [Tracker.commit, h.sub]
  · simp [Tracker.commit, h.vars]
  · intro k
    simp only [Tracker.commit, logKey_eq]
    rw [lookup_bump _ _ _ h.sorted, h.count k, List.countP_append, List.countP_singleton]
    simp

theorem describes_of_recorded {lg : ℕ → ℕ} {t : Tracker} {l : List Sizes} (h : Recorded lg t l) :
    Describes lg t.report l := by
  have key : ∀ x ∈ l, ∃ y ∈ t.byLog, y.1 = classOf lg x := by
    intro x hx
    refine lookup_ne_zero _ _ ?_
    rw [h.count]
    have : 0 < l.countP fun y => classOf lg y = classOf lg x :=
      List.countP_pos_iff.mpr ⟨x, hx, by simp⟩
    omega
  have back : ∀ y ∈ t.byLog, ∃ x ∈ l, classOf lg x = y.1 := by
    intro y hy
    have h1 := lookup_of_mem _ h.sorted y hy
    have h2 := h.pos y hy
    rw [h.count] at h1
    have : 0 < l.countP fun x => classOf lg x = y.1 := by omega
    obtain ⟨x, hx, e⟩ := List.countP_pos_iff.mp this
    exact ⟨x, hx, by simpa using e⟩
  refine ⟨h.nodes, ?_, ?_, ?_⟩
  · simp only [Tracker.report, h.nodes, h.gens, h.sub, h.vars, List.length_eq_zero_iff]
  · intro e
    subst e
    have : t.byLog = [] := by
      rcases hb : t.byLog with _ | ⟨y, ys⟩
      · rfl
      · obtain ⟨x, hx, _⟩ := back y (by rw [hb]; exact List.mem_cons_self)
        cases hx
    simp [Tracker.report, histogram, this]
  · intro hl
    rcases hz : t.byLog.getLast? with _ | z
    · obtain ⟨x, hx⟩ := List.exists_mem_of_ne_nil _ hl
      obtain ⟨y, hy, _⟩ := key x hx
      rw [List.getLast?_eq_none_iff] at hz
      rw [hz] at hy; cases hy
    · refine ⟨z.1, back z (List.mem_of_getLast? hz), ?_, ?_⟩
      · intro x hx
        obtain ⟨y, hy, e⟩ := key x hx
        rw [← e]
        exact le_last _ h.sorted z hz y hy
      · show histogram t.byLog = _
        unfold histogram
        rw [hz]
        show linesFrom t.byLog z.1 = _
        rw [linesFrom_eq]
        refine List.map_congr_left fun k _ => ?_
        rw [h.count]

/-! ## Slices -/

variable {S O : Type}

/-- A strategy around which there is one wrapper for statistics only counts a slice once. -/
def noStats : Strategy → Prop
  | .inner => True
  | .debug t => noStats t
  | .stats _ => False

theorem process_noStats (lg : ℕ → ℕ) (a : Alg S O) (t : Strategy) (ht : noStats t) (s : S) (st : State S O) :
    (processSlice lg a t s st).1 = (a.work s).base ∧
    (processSlice lg a t s st).2.internal = st.internal ∧ (processSlice lg a t s st).2.leaf = st.leaf := by
  induction t generalizing st with
  | inner => exact ⟨rfl, rfl, rfl⟩
  | debug t ih =>
    obtain ⟨h1, h2, h3⟩ := ih ht { st with printed := st.printed ++ [Line.processing] }
    exact ⟨h1, h2, h3⟩
  | stats t _ => cases ht

theorem runTasks_cons (lg : ℕ → ℕ) (a : Alg S O) (n : ℕ) (s : S) (t : Strategy) (ts : List (S × Strategy)) (o : List O)
    (p : List Line) (i l : Tracker) (seen : List S) :
    runTasks lg a (n + 1) ⟨(s, t) :: ts, o, p, i, l, seen⟩ =
      runTasks lg a n (processSlice lg a t s ⟨ts, o, p, i, l, seen⟩).2 := by
  rw [runTasks]

theorem runTasks_frame (lg : ℕ → ℕ) (a : Alg S O) (n : ℕ) :
    ∀ (ts : List (S × Strategy)) (o : List O) (p : List Line) (i l : Tracker) (seen : List S),
      (∀ x ∈ ts, x.2 = Strategy.inner) →
      runTasks lg a n ⟨ts, o, p, i, l, seen⟩ =
        (runTasks lg a n ⟨ts, o, [], .new, .new, seen⟩).map fun r => ⟨r.tasks, r.out, p, i, l, r.seen⟩ := by
  induction n with
  | zero =>
    intro ts o p i l seen h
    cases ts with
    | nil => simp [runTasks]
    | cons x rest => simp [runTasks]
  | succ n ih =>
    intro ts o p i l seen h
    cases ts with
    | nil => simp [runTasks]
    | cons x rest =>
      obtain ⟨s, t⟩ := x
      have ht : t = Strategy.inner := h (s, t) List.mem_cons_self
      subst ht
      rw [runTasks_cons, runTasks_cons]
      simp only [processSlice, processInner]
      refine ih _ _ p i l _ ?_
      intro y hy
      rcases List.mem_append.mp hy with hy | hy
      · rw [List.mem_reverse, List.mem_map] at hy
        obtain ⟨z, _, e⟩ := hy
        rw [← e]
      · exact h y (List.mem_cons_of_mem _ hy)

theorem runTasks_seen (lg : ℕ → ℕ) (a : Alg S O) (n : ℕ) :
    ∀ (ts : List (S × Strategy)) (o : List O) (p : List Line) (i l : Tracker) (seen : List S) (r : State S O),
      (∀ x ∈ ts, x.2 = Strategy.inner) → ts ≠ [] ∨ seen ≠ [] →
      runTasks lg a n ⟨ts, o, p, i, l, seen⟩ = some r → r.seen ≠ [] := by
  induction n with
  | zero =>
    intro ts o p i l seen r h hne hr
    cases ts with
    | nil =>
      simp [runTasks] at hr
      subst hr
      exact hne.resolve_left (fun h => h rfl)
    | cons x rest => simp [runTasks] at hr
  | succ n ih =>
    intro ts o p i l seen r h hne hr
    cases ts with
    | nil =>
      simp [runTasks] at hr
      subst hr
      exact hne.resolve_left (fun h => h rfl)
    | cons x rest =>
      obtain ⟨s, t⟩ := x
      have ht : t = Strategy.inner := h (s, t) List.mem_cons_self
      subst ht
      rw [runTasks_cons] at hr
      simp only [processSlice, processInner] at hr
      refine ih _ _ p i l _ r ?_ (Or.inr (by simp)) hr
      intro y hy
      rcases List.mem_append.mp hy with hy | hy
      · rw [List.mem_reverse, List.mem_map] at hy
        obtain ⟨z, _, e⟩ := hy
        rw [← e]
      · exact h y (List.mem_cons_of_mem _ hy)

/-- A run that ends has processed a slice. -/
theorem run_seen (lg : ℕ → ℕ) (a : Alg S O) (n : ℕ) (t : Strategy) (st r : State S O)
    (hst : st.tasks = []) (h : run lg a n t st = some r) : r.seen ≠ [] := by
  induction t generalizing st r with
  | inner =>
    refine runTasks_seen lg a n _ _ _ _ _ _ r ?_ (Or.inl ?_) h
    · simp [hst]
    · simp
  | debug t ih =>
    simp only [run, Option.map_eq_some_iff] at h
    obtain ⟨q, hq, rfl⟩ := h
    exact ih _ q (by exact hst) hq
  | stats t ih =>
    simp only [run, Option.map_eq_some_iff] at h
    obtain ⟨q, hq, rfl⟩ := h
    exact ih _ q hst hq

/-! ## Euler characteristics -/

theorem doPivot_state (w : ℕ) (a : EulerAlg S) (t : Strategy) (s : S) (c : Counts) :
    (doPivot w a t s c).1 = a.pivot s ∧ (doPivot w a t s c).2.euler = c.euler ∧
    (doPivot w a t s c).2.processed = c.processed := by
  induction t generalizing c with
  | inner => exact ⟨rfl, rfl, rfl⟩
  | debug t ih => exact ih { c with shown := c.shown + 1 }
  | stats t ih => exact ih { c with split := (c.split + 1) % 2 ^ w }

theorem eulerLoop_same (w : ℕ) (a : EulerAlg S) (t u : Strategy) (n : ℕ) :
    ∀ (ss : List S) (c d : Counts), c.euler = d.euler → c.processed = d.processed →
      (eulerLoop w a t n ss c).map (fun r => (r.euler, r.processed)) =
        (eulerLoop w a u n ss d).map fun r => (r.euler, r.processed) := by
  induction n with
  | zero =>
    intro ss c d h1 h2
    cases ss with
    | nil => simp [eulerLoop, h1, h2]
    | cons s ps => rfl
  | succ n ih =>
    intro ss c d h1 h2
    cases ss with
    | nil => simp [eulerLoop, h1, h2]
    | cons s ps =>
      simp only [eulerLoop]
      cases (a.simplify s).2 with
      | none => exact ih _ _ _ (by simp [h1]) (by simp [h2])
      | some s' =>
        obtain ⟨a1, a2, a3⟩ := doPivot_state w a t s'
          { c with euler := c.euler + (a.simplify s).1, processed := c.processed + 1 }
        obtain ⟨b1, b2, b3⟩ := doPivot_state w a u s'
          { d with euler := d.euler + (a.simplify s).1, processed := d.processed + 1 }
        simp only [a1, b1]
        exact ih _ _ _ (by rw [a2, b2]; simp [h1]) (by rw [a3, b3]; simp [h2])

/-- The number of wrappers of each kind. -/
def statsOf : Strategy → ℕ
  | .inner => 0
  | .debug t => statsOf t
  | .stats t => statsOf t + 1

def debugsOf : Strategy → ℕ
  | .inner => 0
  | .debug t => debugsOf t + 1
  | .stats t => debugsOf t

theorem doPivot_counts (w : ℕ) (a : EulerAlg S) (t : Strategy) (s : S) (c : Counts) (hc : c.split < 2 ^ w) :
    (doPivot w a t s c).2.split = (c.split + statsOf t) % 2 ^ w ∧
    (doPivot w a t s c).2.shown = c.shown + 3 * debugsOf t := by
  induction t generalizing c with
  | inner => exact ⟨(Nat.mod_eq_of_lt hc).symm, rfl⟩
  | debug t ih =>
    obtain ⟨h1, h2⟩ := ih { c with shown := c.shown + 1 } hc
    refine ⟨h1, ?_⟩
    simp only [doPivot, debugsOf]
    rw [h2]; ring
  | stats t ih =>
    obtain ⟨h1, h2⟩ := ih { c with split := (c.split + 1) % 2 ^ w } (Nat.mod_lt _ (by positivity))
    refine ⟨?_, h2⟩
    simp only [doPivot, statsOf]
    rw [h1, Nat.mod_add_mod]
    congr 1; ring

/-- The loop ends after splitting `k` times, with as many states processed as the tree has nodes. -/
theorem eulerLoop_counts (w : ℕ) (a : EulerAlg S) (t : Strategy) (n : ℕ) :
    ∀ (ss : List S) (c r : Counts), c.split < 2 ^ w → eulerLoop w a t n ss c = some r →
      ∃ k, r.processed = c.processed + ss.length + 2 * k ∧ r.split = (c.split + statsOf t * k) % 2 ^ w ∧
        r.shown = c.shown + 3 * debugsOf t * k := by
  induction n with
  | zero =>
    intro ss c r hc h
    cases ss with
    | nil =>
      simp only [eulerLoop, Option.some.injEq] at h
      subst h
      exact ⟨0, by simp, by simp [Nat.mod_eq_of_lt hc], by simp⟩
    | cons s ps => simp [eulerLoop] at h
  | succ n ih =>
    intro ss c r hc h
    cases ss with
    | nil =>
      simp only [eulerLoop, Option.some.injEq] at h
      subst h
      exact ⟨0, by simp, by simp [Nat.mod_eq_of_lt hc], by simp⟩
    | cons s ps =>
      simp only [eulerLoop] at h
      cases hs : (a.simplify s).2 with
      | none =>
        rw [hs] at h
        obtain ⟨k, h1, h2, h3⟩ := ih _ _ _ (by exact hc) h
        exact ⟨k, by rw [h1]; simp only [List.length_cons]; ring, h2, h3⟩
      | some s' =>
        rw [hs] at h
        obtain ⟨_, _, a3⟩ := doPivot_state w a t s'
          { c with euler := c.euler + (a.simplify s).1, processed := c.processed + 1 }
        obtain ⟨b1, b2⟩ := doPivot_counts w a t s'
          { c with euler := c.euler + (a.simplify s).1, processed := c.processed + 1 } hc
        obtain ⟨k, h1, h2, h3⟩ := ih _ _ _ (by rw [b1]; exact Nat.mod_lt _ (by positivity)) h
        refine ⟨k + 1, ?_, ?_, ?_⟩
        · rw [h1, a3]; simp only [List.length_cons]; ring
        · rw [h2, b1, Nat.mod_add_mod]; congr 1; ring
        · rw [h3, b2]; ring

end Frobby.Stat
