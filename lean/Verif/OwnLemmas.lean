import Verif.OwnSpec
import Mathlib.Algebra.Order.Group.Multiset
import Mathlib.Data.Multiset.Basic
import Mathlib.Tactic.Abel

/-!
# Lemmas about who owns what

`At m c s`: the objects in `s` are those of the multiset `m`, each once, and the containers are `c`.
-/

namespace Frobby.Own

/-- The object that a pointer points to. -/
def one : Ptr → Multiset ℕ
  | none => 0
  | some x => {x}

/-- The objects that the pointers in a container point to. -/
def all : List Ptr → Multiset ℕ
  | [] => 0
  | p :: ps => one p + all ps

structure At (m : Multiset ℕ) (c : Cells) (s : Store) : Prop where
  live : (s.live : Multiset ℕ) = m
  nodup : m.Nodup
  fresh : ∀ x ∈ m, x < s.next
  cells : s.cells = c

@[simp] theorem one_none : one none = 0 := rfl
@[simp] theorem one_some (x : ℕ) : one (some x) = {x} := rfl
@[simp] theorem all_nil : all [] = 0 := rfl
@[simp] theorem all_cons (p : Ptr) (ps : List Ptr) : all (p :: ps) = one p + all ps := rfl
@[simp] theorem all_append (a b : List Ptr) : all (a ++ b) = all a + all b := by
  induction a with
  | nil => simp
  | cons p ps ih => simp [ih, add_assoc]
theorem all_reverse (a : List Ptr) : all a.reverse = all a := by
  induction a with
  | nil => simp
  | cons p ps ih => simp [ih, add_comm]

theorem all_dropLast {v : List Ptr} {p : Ptr} (h : v.getLast? = some p) : all v.dropLast + one p = all v := by
  obtain ⟨ys, rfl⟩ := List.getLast?_eq_some_iff.1 h
  simp

theorem At.re {m m' : Multiset ℕ} {c : Cells} {s : Store} (h : At m c s) (e : m' = m) : At m' c s := e ▸ h

theorem After.mono {α : Type} {f : Proc α} {Q Q' : α → Store → Prop} {E E' : Store → Prop} {s : Store}
    (h : After f Q E s) (hq : ∀ a s', Q a s' → Q' a s') (he : ∀ s', E s' → E' s') : After f Q' E' s := by
  unfold After at *
  cases hf : f s <;> simp only [hf] at h ⊢
  · exact hq _ _ h
  · exact he _ h

theorem after_pure {α : Type} {a : α} {Q : α → Store → Prop} {E : Store → Prop} {s : Store} (h : Q a s) :
    After (pure a : Proc α) Q E s := h

theorem after_bind {α β : Type} {f : Proc α} {g : α → Proc β} {Q : β → Store → Prop} {E : Store → Prop} {s : Store}
    (h : After f (fun a s' => After (g a) Q E s') E s) : After (f >>= g) Q E s := by
  change After (Proc.bind f g) Q E s
  unfold After at h ⊢
  unfold Proc.bind
  cases hf : f s <;> simp only [hf] at h ⊢ <;> exact h

theorem after_seq {α β : Type} {f : Proc α} {g : α → Proc β} {R : α → Store → Prop} {Q : β → Store → Prop}
    {E E' : Store → Prop} {s : Store} (h : After f R E' s) (hg : ∀ a s', R a s' → After (g a) Q E s')
    (he : ∀ s', E' s' → E s') : After (f >>= g) Q E s := after_bind (h.mono hg he)

theorem after_onThrow {α : Type} {f : Proc α} {g : Proc Unit} {Q : α → Store → Prop} {E E' : Store → Prop} {s : Store}
    (h : After f Q E' s) (hg : ∀ s', E' s' → After g (fun _ => E) (fun _ => False) s') : After (onThrow f g) Q E s := by
  unfold After at h ⊢
  unfold onThrow
  cases hf : f s with
  | ok a s' => simpa only [hf] using h
  | threw s' =>
    simp only [hf] at h ⊢
    have := hg s' h
    unfold After at this
    cases hk : g s' <;> simp only [hk] at this ⊢
    exact this
  | running => trivial
  | stuck => simp [hf] at h

theorem after_inScope {α : Type} {f : Proc α} {g : Proc Unit} {Q R : α → Store → Prop} {E E' : Store → Prop} {s : Store}
    (h : After f R E' s) (hg : ∀ s', E' s' → After g (fun _ => E) (fun _ => False) s')
    (hk : ∀ a s', R a s' → After g (fun _ => Q a) (fun _ => False) s') : After (inScope f g) Q E s := by
  unfold inScope
  exact after_seq (after_onThrow h hg) (fun a s' ha => after_seq (hk a s' ha) (fun _ s'' hs => after_pure hs) fun _ hs => hs.elim)
    fun _ hs => hs

theorem after_caught {α : Type} {f : Proc α} {a : α} {Q : α → Store → Prop} {E E' : Store → Prop} {s : Store}
    (h : After f Q E' s) (hg : ∀ s', E' s' → Q a s') : After (caught f a) Q E s := by
  unfold After at h ⊢
  unfold caught
  cases hf : f s <;> simp only [hf] at h ⊢
  · exact h
  · exact hg _ h

variable {m : Multiset ℕ} {c : Cells} {s : Store} {E : Store → Prop}

theorem after_getCells (h : At m c s) : After getCells (fun a s' => a = c ∧ At m c s') E s := ⟨h.cells, h⟩

theorem after_setCells (h : At m c s) (c' : Cells) : After (setCells c') (fun _ => At m c') E s :=
  ⟨h.live, h.nodup, h.fresh, rfl⟩

theorem after_read (h : At m c s) {k : ℕ} {v : List Ptr} (hv : c.vecs k = some v) :
    After (read k) (fun a s' => a = v ∧ At m c s') E s := by
  refine after_seq (after_getCells h) (fun a s' ⟨e, h'⟩ => ?_) fun _ hs => hs
  subst e
  simp only [hv]
  exact after_pure ⟨rfl, h'⟩

theorem after_write (h : At m c s) {k : ℕ} {v : List Ptr} (hv : c.vecs k = some v) (w : List Ptr) :
    After (write k w) (fun _ => At m (c.set k w)) E s := by
  refine after_seq (after_read h hv) (fun a s' ⟨_, h'⟩ => ?_) fun _ hs => hs
  refine after_seq (after_getCells h') (fun a s' ⟨e, h''⟩ => ?_) fun _ hs => hs
  subst e
  exact after_setCells h'' _

theorem after_mayThrow (h : At m c s) : After mayThrow (fun _ => At m c) (At m c) s := by
  unfold After mayThrow
  split <;> rename_i e <;> split at e <;> simp at e
  · obtain ⟨-, rfl⟩ := e; exact ⟨h.live, h.nodup, h.fresh, h.cells⟩
  · subst e; exact ⟨h.live, h.nodup, h.fresh, h.cells⟩

theorem after_new (h : At m c s) : After new (fun x => At ({x} + m) c) (At m c) s := by
  refine after_seq (after_mayThrow h) (fun _ s' h' => ?_) fun _ hs => hs
  have hn : s'.next ∉ m := fun hm => absurd (h'.fresh _ hm) (lt_irrefl _)
  refine ⟨?_, ?_, ?_, h'.cells⟩
  · rw [← Multiset.cons_coe, h'.live, Multiset.singleton_add]
  · rw [Multiset.singleton_add]; exact Multiset.nodup_cons.2 ⟨hn, h'.nodup⟩
  · intro x hx
    rw [Multiset.singleton_add, Multiset.mem_cons] at hx
    rcases hx with rfl | hx
    · exact Nat.lt_succ_self _
    · exact Nat.lt_succ_of_lt (h'.fresh x hx)

theorem after_delete {p : Ptr} (h : At (one p + m) c s) : After (delete p) (fun _ => At m c) E s := by
  cases p with
  | none => exact (h.re (by simp))
  | some x =>
    have hx : x ∈ s.live := by
      have : x ∈ (s.live : Multiset ℕ) := by rw [h.live]; simp
      simpa using this
    unfold After delete
    simp only [hx, if_true]
    refine ⟨?_, ?_, ?_, h.cells⟩
    · rw [← Multiset.coe_erase, h.live]; simp [Multiset.singleton_add]
    · exact (Multiset.nodup_add.1 h.nodup).2.1
    · exact fun y hy => h.fresh y (Multiset.mem_add.2 (Or.inr hy))

theorem after_touch {x : ℕ} (h : At m c s) (hx : x ∈ m) : After (touch (some x)) (fun _ => At m c) E s := by
  have : x ∈ s.live := by
    have : x ∈ (s.live : Multiset ℕ) := by rw [h.live]; exact hx
    simpa using this
  unfold After touch
  simp only [this, if_true]
  exact h

@[simp] theorem set_same (c : Cells) (k : ℕ) (v : List Ptr) : (c.set k v).vecs k = some v := by simp [Cells.set]
theorem set_other (c : Cells) {k j : ℕ} (v : List Ptr) (hj : j ≠ k) : (c.set k v).vecs j = c.vecs j := by
  simp [Cells.set, hj]
@[simp] theorem set_set (c : Cells) (k : ℕ) (v w : List Ptr) : (c.set k v).set k w = c.set k w := by
  simp only [Cells.set, Cells.mk.injEq, and_true]
  funext j
  by_cases h : j = k <;> simp [h]
theorem set_self (c : Cells) {k : ℕ} {v : List Ptr} (h : c.vecs k = some v) : c.set k v = c := by
  cases c
  simp only [Cells.set, Cells.mk.injEq, and_true]
  funext j
  by_cases e : j = k
  · subst e; simpa using h.symm
  · simp [e]
theorem set_comm (c : Cells) {k j : ℕ} (v w : List Ptr) (h : k ≠ j) : (c.set k v).set j w = (c.set j w).set k v := by
  simp only [Cells.set, Cells.mk.injEq, and_true]
  funext i
  by_cases h1 : i = j <;> by_cases h2 : i = k <;> simp_all

theorem after_pushBack (h : At m c s) {k : ℕ} {v : List Ptr} (hv : c.vecs k = some v) (p : Ptr) :
    After (pushBack k p) (fun _ => At m (c.set k (v ++ [p]))) (At m c) s := by
  refine after_seq (after_read h hv) (fun a s' ⟨e, h'⟩ => ?_) fun _ hs => hs
  subst e
  exact after_seq (after_mayThrow h') (fun _ s'' h'' => after_write h'' hv _) fun _ hs => hs

theorem after_setBack (h : At m c s) {k : ℕ} {v : List Ptr} {q : Ptr} (hv : c.vecs k = some (v ++ [q])) (p : Ptr) :
    After (setBack k p) (fun _ => At m (c.set k (v ++ [p]))) E s := by
  refine after_seq (after_read h hv) (fun a s' ⟨e, h'⟩ => ?_) fun _ hs => hs
  subst e
  simpa using after_write h' hv (v ++ [p])

theorem after_popBack (h : At m c s) {k : ℕ} {v : List Ptr} (hv : c.vecs k = some v) (hn : v ≠ []) :
    After (popBack k) (fun p s' => v.getLast? = some p ∧ At m (c.set k v.dropLast) s') E s := by
  refine after_seq (after_read h hv) (fun a s' ⟨e, h'⟩ => ?_) fun _ hs => hs
  subst e
  have : a.getLast? = some (a.getLast hn) := List.getLast?_eq_some_getLast hn
  simp only [this]
  exact after_seq (after_write h' hv _) (fun _ s'' h'' => after_pure ⟨rfl, h''⟩) fun _ hs => hs

/-- `exceptionSafePushBack` moves the object into the container or deletes it. -/
theorem after_safePush {p : Ptr} (h : At (one p + m) c s) {k : ℕ} {v : List Ptr} (hv : c.vecs k = some v) :
    After (exceptionSafePushBack delete k p) (fun _ => At (one p + m) (c.set k (v ++ [p]))) (At m c) s := by
  refine after_seq (after_onThrow (after_pushBack h hv none) fun s' h' => after_delete h') (fun _ s' h' => ?_) fun _ hs => hs
  have := after_setBack (E := At m c) h' (k := k) (v := v) (q := none) (by simp) p
  simpa using this

theorem after_deleteAll {v : List Ptr} {m : Multiset ℕ} {s : Store} (h : At (all v + m) c s) :
    After (deleteAll delete v) (fun _ => At m c) E s := by
  induction v generalizing s with
  | nil => exact after_pure (h.re (by simp))
  | cons p ps ih =>
    exact after_seq (after_delete (h.re (by simp [add_assoc]))) (fun _ s' h' => ih h') fun _ hs => hs

theorem after_deleteElements {k : ℕ} {v : List Ptr} (hv : c.vecs k = some v) (h : At (all v + m) c s) :
    After (deleteElements delete k) (fun _ => At m (c.set k [])) E s := by
  refine after_seq (after_read h hv) (fun a s' ⟨e, h'⟩ => ?_) fun _ hs => hs
  subst e
  exact after_seq (after_deleteAll h') (fun _ s'' h'' => after_write h'' hv _) fun _ hs => hs

/-! ## Caches -/

/-- The pointers to the objects `w`. -/
abbrev ptrs (w : List ℕ) : List Ptr := w.map some

@[simp] theorem all_ptrs (w : List ℕ) : all (ptrs w) = (w : Multiset ℕ) := by
  induction w with
  | nil => rfl
  | cons x w ih => simp only [ptrs, List.map_cons, all_cons, one_some] at ih ⊢; rw [ih]; rfl

theorem after_popBack_ptrs (h : At m c s) {k : ℕ} {w : List ℕ} (hv : c.vecs k = some (ptrs w)) (hn : w ≠ []) :
    After (popBack k) (fun p s' => ∃ x w', w = w' ++ [x] ∧ p = some x ∧ At m (c.set k (ptrs w')) s') E s := by
  refine (after_popBack h hv (by simpa using hn)).mono (fun p s' ⟨hp, h'⟩ => ?_) fun _ hs => hs
  refine ⟨w.getLast hn, w.dropLast, (List.dropLast_append_getLast hn).symm, ?_, ?_⟩
  · have := hp
    simp only [ptrs, List.getLast?_map, List.getLast?_eq_some_getLast hn, Option.map_some, Option.some.injEq] at this
    exact this.symm
  · simpa [ptrs, List.map_dropLast] using h'

theorem after_newObject {k : ℕ} {w : List ℕ} (hv : c.vecs k = some (ptrs w)) (h : At (w + m) c s) :
    After (newObject k) (fun p s' => ∃ x, ∃ w' : List ℕ, p = some x ∧ At ({x} + w' + m) (c.set k (ptrs w')) s') (At (w + m) c) s := by
  refine after_seq (after_read h hv) (fun a s' ⟨e, h'⟩ => ?_) fun _ hs => hs
  subst e
  by_cases hw : w = []
  · subst hw
    simp only [ptrs, List.map_nil, if_true]
    refine after_seq (after_new h') (fun x s'' h'' => after_pure ⟨x, [], rfl, ?_⟩) fun _ hs => hs
    rw [set_self c hv]
    exact h''.re (by simp)
  · have : ¬ ptrs w = [] := by simpa using hw
    simp only [this, if_false]
    refine (after_popBack_ptrs h' hv hw).mono (fun p s'' ⟨x, w', e, hp, h''⟩ => ⟨x, w', hp, h''.re ?_⟩) fun _ hs => hs
    subst e
    rw [← Multiset.coe_add, Multiset.coe_singleton]
    abel

theorem after_safePush_ptrs {x : ℕ} (h : At ({x} + m) c s) {k : ℕ} {w : List ℕ} (hv : c.vecs k = some (ptrs w)) :
    After (exceptionSafePushBack delete k (some x)) (fun _ => At ({x} + m) (c.set k (ptrs (w ++ [x])))) (At m c) s := by
  have := after_safePush (p := some x) h hv
  simpa [ptrs] using this

theorem coe_snoc (w : List ℕ) (x : ℕ) : ((w ++ [x] : List ℕ) : Multiset ℕ) = w + {x} := by
  rw [← Multiset.coe_add, Multiset.coe_singleton]

/-- `noThrowPushBack` moves the object into the container or deletes it. -/
theorem after_noThrowPush {x : ℕ} {k : ℕ} {w : List ℕ} (h : At ({x} + w + m) c s) (hv : c.vecs k = some (ptrs w)) :
    After (noThrowPushBack k (some x)) (fun _ s' => ∃ w' : List ℕ, At (w' + m) (c.set k (ptrs w')) s') E s := by
  refine after_caught (E' := At (w + m) c) ((after_safePush_ptrs (m := w + m) (h.re (by abel)) hv).mono
    (fun _ s' h' => ⟨w ++ [x], h'.re ?_⟩) fun _ hs => hs) fun s' h' => ⟨w, by rw [set_self c hv]; exact h'⟩
  rw [coe_snoc]; abel

theorem after_newObjectCopy {k : ℕ} {w : List ℕ} (hv : c.vecs k = some (ptrs w)) (h : At (w + m) c s) :
    After (newObjectCopy k) (fun p s' => ∃ x, ∃ w' : List ℕ, p = some x ∧ At ({x} + w' + m) (c.set k (ptrs w')) s')
      (fun s' => ∃ w' : List ℕ, At (w' + m) (c.set k (ptrs w')) s') s := by
  refine after_seq (after_newObject hv h) ?_ fun s' h' => ⟨w, by rw [set_self c hv]; exact h'⟩
  rintro p s' ⟨x, w', rfl, h'⟩
  refine after_seq (after_touch h' (by simp)) (fun _ s'' h'' => ?_) fun _ hs => hs
  refine after_seq (after_onThrow (after_mayThrow h'') fun s3 h3 => after_delete (p := some x) (m := w' + m) (h3.re (by rw [one_some]; abel)))
    (fun _ s3 h3 => after_pure ⟨x, w', rfl, h3⟩) fun s3 h3 => ⟨w', h3⟩

/-! ## HilbertBasecase -/

/-- The cells with `a` as the cache and `b` to be done. -/
def two (c : Cells) (a b : List ℕ) : Cells := (c.set 0 (ptrs a)).set 1 (ptrs b)

@[simp] theorem two_vecs0 (c : Cells) (a b : List ℕ) : (two c a b).vecs 0 = some (ptrs a) := by simp [two, Cells.set]
@[simp] theorem two_vecs1 (c : Cells) (a b : List ℕ) : (two c a b).vecs 1 = some (ptrs b) := by simp [two, Cells.set]
@[simp] theorem two_set0 (c : Cells) (a b a' : List ℕ) : (two c a b).set 0 (ptrs a') = two c a' b := by
  rw [two, ← set_comm _ _ _ (by decide : (0 : ℕ) ≠ 1), set_set, two]
@[simp] theorem two_set1 (c : Cells) (a b b' : List ℕ) : (two c a b).set 1 (ptrs b') = two c a b' := by simp [two]

/-- What may be left after the base case algorithm: a cache, and nothing to be done. -/
def Rested (rest : Multiset ℕ) (c : Cells) (s : Store) : Prop := ∃ a : List ℕ, At (a + rest) (two c a []) s

/-- What may be there when an exception comes to the handler. -/
def Pending (rest : Multiset ℕ) (c : Cells) (s : Store) : Prop := ∃ a b : List ℕ, At (a + b + rest) (two c a b) s

theorem after_basecaseLoop (splits : ℕ → Bool) (original : ℕ) {rest : Multiset ℕ} (ho : original ∈ rest) (n : ℕ) :
    ∀ (owner : Ptr) (a b : List ℕ) (s : Store), At (one owner + a + b + rest) (two c a b) s →
      After (basecaseLoop splits original n owner) (fun _ => Rested rest c) (Pending rest c) s := by
  induction n with
  | zero => intros; trivial
  | succ n ih =>
    intro owner a b s h
    have step : After (onThrow (stepComputation (splits n) (some (owner.getD original))) (delete owner))
        (fun r s' => ∃ a' : List ℕ, (r = none ∧ At (one owner + a' + b + rest) (two c a' b) s') ∨
          ∃ x, r = some (some x) ∧ At ({x} + one owner + a' + b + rest) (two c a' b) s') (Pending rest c) s := by
      refine after_onThrow (E' := fun s' => ∃ a' : List ℕ, At (one owner + a' + b + rest) (two c a' b) s') ?_
        fun s' ⟨a', h'⟩ => (after_delete (m := a' + b + rest) (h'.re (by abel))).mono (fun _ _ h3 => ⟨a', b, h3⟩) fun _ hs => hs
      refine after_seq (after_touch h ?_) (fun _ s1 h1 => ?_) fun _ hs => hs
      · cases owner <;> simp [ho]
      refine after_seq (after_mayThrow h1) (fun _ s2 h2 => ?_) fun _ hs => ⟨a, hs⟩
      cases splits n with
      | false => exact after_pure ⟨a, Or.inl ⟨rfl, h2⟩⟩
      | true =>
        refine after_seq (after_newObject (m := one owner + b + rest) (two_vecs0 c a b) (h2.re (by abel))) ?_ fun s' hs => ⟨a, hs.re (by abel)⟩
        rintro p s3 ⟨x, a', rfl, h3⟩
        rw [two_set0] at h3
        refine after_seq (after_touch h3 (by simp)) (fun _ s4 h4 => ?_) fun _ hs => hs
        refine after_seq (after_onThrow (after_mayThrow h4) fun s5 h5 => after_delete (p := some x) (m := a' + (one owner + b + rest)) (h5.re (by rw [one_some]; abel)))
          (fun _ s5 h5 => after_pure ⟨a', Or.inr ⟨x, rfl, h5.re (by abel)⟩⟩) fun s5 h5 => ⟨a', h5.re (by abel)⟩
    refine after_seq step ?_ fun _ hs => hs
    rintro r s1 ⟨a', ⟨rfl, h1⟩ | ⟨x, rfl, h1⟩⟩
    · refine after_seq (after_read h1 (two_vecs1 c a' b)) ?_ fun _ hs => hs
      rintro todo s2 ⟨rfl, h2⟩
      by_cases hb : b = []
      · subst hb
        simp only [ptrs, List.map_nil, if_true]
        refine after_seq (after_touch h2 (by simp [ho])) (fun _ s3 h3 => ?_) fun _ hs => hs
        exact (after_delete (m := a' + rest) (h3.re (by simp [add_assoc]))).mono (fun _ _ h4 => ⟨a', h4⟩) fun _ hs => hs
      · have hb' : ¬ ptrs b = [] := by simpa using hb
        simp only [hb', if_false]
        have free : After (freeOwner owner) (fun _ s' => ∃ a'' : List ℕ, At (a'' + b + rest) (two c a'' b) s') (Pending rest c) s2 := by
          unfold freeOwner
          cases owner with
          | none => exact after_pure ⟨a', h2.re (by simp)⟩
          | some y =>
            simp only [reduceCtorEq, if_false]
            refine after_seq (after_touch h2 (by simp)) (fun _ s3 h3 => ?_) fun _ hs => hs
            refine (after_safePush_ptrs (x := y) (m := a' + b + rest) (h3.re (by rw [one_some]; abel)) (two_vecs0 c a' b)).mono
              (fun _ s4 h4 => ⟨a' ++ [y], ?_⟩) fun s4 h4 => ⟨a', b, h4⟩
            rw [two_set0] at h4
            exact h4.re (by rw [coe_snoc]; abel)
        refine after_seq free ?_ fun _ hs => hs
        rintro _ s3 ⟨a'', h3⟩
        refine after_seq (after_popBack_ptrs h3 (two_vecs1 c a'' b) hb) ?_ fun _ hs => hs
        rintro p s4 ⟨x, b', rfl, rfl, h4⟩
        rw [two_set1] at h4
        exact ih (some x) a'' b' s4 (h4.re (by rw [coe_snoc, one_some]; abel))
    · have push : After (onThrow (onThrow (pushBack 1 (some x)) (delete (some x))) (delete owner))
          (fun _ => At (one owner + a' + (b ++ [x] : List ℕ) + rest) (two c a' (b ++ [x]))) (Pending rest c) s1 := by
        refine after_onThrow (E' := At (one owner + a' + b + rest) (two c a' b)) ?_
          fun s' h' => (after_delete (m := a' + b + rest) (h'.re (by abel))).mono (fun _ _ h3 => ⟨a', b, h3⟩) fun _ hs => hs
        refine after_onThrow ((after_pushBack h1 (two_vecs1 c a' b) (some x)).mono (fun _ s2 h2 => ?_) fun _ hs => hs)
          fun s2 h2 => after_delete (h2.re (by rw [one_some]; abel))
        have e : ptrs b ++ [some x] = ptrs (b ++ [x]) := by simp [ptrs]
        rw [e, two_set1] at h2
        exact h2.re (by rw [coe_snoc]; abel)
      refine after_seq push (fun _ s2 h2 => ih owner a' _ s2 h2) fun _ hs => hs

theorem after_computeCoefficient (splits : ℕ → Bool) (steps original : ℕ) {rest : Multiset ℕ} (ho : original ∈ rest)
    {a : List ℕ} (h : At (a + rest) (two c a []) s) :
    After (computeCoefficient splits steps original) (fun _ => Rested rest c) (Rested rest c) s := by
  refine after_onThrow (E' := Pending rest c) ?_ ?_
  · refine after_seq (after_mayThrow h) (fun _ s1 h1 => ?_) fun s1 h1 => ⟨a, [], h1.re (by simp)⟩
    exact after_basecaseLoop splits original ho steps none a [] s1 (h1.re (by simp))
  · rintro s1 ⟨a', b, h1⟩
    refine (after_deleteElements (m := a' + rest) (two_vecs1 c a' b) (h1.re (by rw [all_ptrs]; abel))).mono (fun _ s2 h2 => ⟨a', ?_⟩) fun _ hs => hs
    rw [← two_set1 c a' b []]
    exact h2

end Frobby.Own
