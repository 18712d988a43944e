import Verif.TermPoolSpec

/-!
# Lemmas: objects of class `Term` and the memory they use
-/

namespace Frobby

namespace TermHeap

/-- Who is responsible for an array. -/
inductive Owner where
  | term (h : ℕ)
  | pool (k : ℕ)
  | hand
  deriving DecidableEq

/-- The invariant: every allocated array has exactly one owner. -/
structure Inv (debug : Bool) (s : TermHeap) (v : TermVals) (own : ℕ → Option Owner) : Prop where
  fresh : ∀ a, s.next ≤ a → s.mem a = none
  alive : ∀ a, (s.mem a).isSome ↔ (own a).isSome
  terms : ∀ h a, own a = some (.term h) ↔ ∃ n, s.terms h = some (some a, n)
  pools : ∀ k a, own a = some (.pool k) ↔ a ∈ s.pool k
  nodup : ∀ k, (s.pool k).Nodup
  sizes : ∀ k a, a ∈ s.pool k → ∃ c, s.mem a = some c ∧ c.length = k
  ready : ∀ k, s.pool k ≠ [] → k < 50 ∧ s.inited k = true
  few : ∀ k, (s.pool k).length ≤ 1000
  dead : ∀ h, v h = none ↔ s.terms h = none
  null : ∀ h n, s.terms h = some (none, n) → n = 0 ∧ v h = some []
  held : ∀ h a n, s.terms h = some (some a, n) → ∃ l, v h = some l ∧ l.length = n ∧ s.mem a = some (l.map some) ∧
    (n < 50 → s.inited n = true) ∧ (debug = true → n ≠ 0)
  initedLt : ∀ k, s.inited k = true → k < 50

theorem Inv.start (debug : Bool) : Inv debug start (fun _ => none) fun _ => none := by
  constructor <;> simp [TermHeap.start]

variable {debug : Bool} {s t : TermHeap} {v : TermVals} {own : ℕ → Option Owner} {f : MemFails}

theorem mapM_some (l : List ℕ) : (l.map some).mapM id = some l := by
  induction l with
  | nil => rfl
  | cons a l ih => simp [List.mapM_cons, ih]

theorem load_some {a : ℕ} {l : List ℕ} (h : s.mem a = some (l.map some)) : load (some a) l.length s = some l := by
  have h1 : List.take l.length (l.map some) = l.map some := List.take_of_length_le (by simp)
  simp only [load, h, h1]
  rw [if_pos (by simp), mapM_some]

theorem Inv.value (h : Inv debug s v own) (x : ℕ) : s.value x = v x := by
  unfold TermHeap.value
  cases h1 : s.terms x with
  | none => exact ((h.dead x).2 h1).symm
  | some q =>
    obtain ⟨p, n⟩ := q
    cases p with
    | none =>
      obtain ⟨rfl, h2⟩ := h.null x n h1
      simp [load, h2]
    | some a =>
      obtain ⟨l, h2, rfl, h3, -⟩ := h.held x a n h1
      simp only [load_some h3, h2]

/-- The state after an allocation: one array is in hand. -/
theorem Inv.allocate (h : Inv debug s v own) {n : ℕ} (hn : debug = true → n ≠ 0) :
    ∃ r t, allocate debug f n s = some (r, t) ∧ t.terms = s.terms ∧
      ((r = none ∧ (f.poolFails || f.newFails) = true ∧ Inv debug t v own) ∨
        ∃ a c, r = some a ∧ t.mem a = some c ∧ c.length = n ∧ (n < 50 → t.inited n = true) ∧
          Inv debug t v (Function.update own a (some .hand)) ∧ ∀ x, own a ≠ some (.term x)) := by
  have key : ∀ u : TermHeap, Inv debug u v own → u.terms = s.terms → (n < 50 → u.inited n = true) →
      ∃ r t, some (newArray f n u) = some (r, t) ∧ t.terms = s.terms ∧
      ((r = none ∧ (f.poolFails || f.newFails) = true ∧ Inv debug t v own) ∨
        ∃ a c, r = some a ∧ t.mem a = some c ∧ c.length = n ∧ (n < 50 → t.inited n = true) ∧
          Inv debug t v (Function.update own a (some .hand)) ∧ ∀ x, own a ≠ some (.term x)) := by
    intro u hu ht hi
    unfold newArray
    cases hf : f.newFails with
    | true => exact ⟨none, u, by simp, ht, Or.inl ⟨rfl, by simp, hu⟩⟩
    | false =>
      have hz : u.mem u.next = none := hu.fresh _ (Nat.le_refl _)
      have hz' : own u.next = none := by
        have := hu.alive u.next
        rw [hz] at this
        cases h1 : own u.next with
        | none => rfl
        | some y => simp [h1] at this
      refine ⟨some u.next, { u with mem := Function.update u.mem u.next (some (List.replicate n none)), next := u.next + 1 }, by simp, ht, Or.inr ⟨u.next, List.replicate n none, rfl, by simp, by simp, hi, ?_, by simp [hz']⟩⟩
      have hne : ∀ a, (u.mem a).isSome → a ≠ u.next := by
        rintro a ha rfl
        simp [hz] at ha
      constructor
      · intro a ha
        have h1 : u.next + 1 ≤ a := ha
        have h2 : a ≠ u.next := by omega
        simpa [Function.update_of_ne h2] using hu.fresh a (by omega)
      · intro a
        by_cases h1 : a = u.next
        · subst h1; simp
        · simpa [Function.update_of_ne h1] using hu.alive a
      · intro x a
        by_cases h1 : a = u.next
        · subst h1
          have := hu.terms x u.next
          simp [hz'] at this
          simp [this]
        · simpa [Function.update_of_ne h1] using hu.terms x a
      · intro k a
        by_cases h1 : a = u.next
        · subst h1
          have := hu.pools k u.next
          simp [hz'] at this
          simp [this]
        · simpa [Function.update_of_ne h1] using hu.pools k a
      · exact hu.nodup
      · intro k a ha
        obtain ⟨c, h1, h2⟩ := hu.sizes k a ha
        exact ⟨c, by simp [Function.update_of_ne (hne a (by simp [h1])), h1], h2⟩
      · exact hu.ready
      · exact hu.few
      · exact hu.dead
      · exact hu.null
      · intro x a m ha
        obtain ⟨l, h1, h2, h3, h4⟩ := hu.held x a m ha
        exact ⟨l, h1, h2, by simp [Function.update_of_ne (hne a (by simp [h3])), h3], h4⟩
      · exact hu.initedLt
  unfold TermHeap.allocate
  have h0 : (debug && n == 0) = false := by
    cases debug
    · rfl
    · simpa using hn rfl
  rw [h0]
  simp only [Bool.false_eq_true, if_false]
  by_cases hlt : n < poolCount
  · rw [if_pos hlt]
    cases hp : (!s.inited n && f.poolFails) with
    | true =>
      refine ⟨none, s, by simp, rfl, Or.inl ⟨rfl, ?_, h⟩⟩
      simp only [Bool.and_eq_true] at hp
      simp [hp.2]
    | false =>
      have hs : Inv debug { s with inited := Function.update s.inited n true } v own := by
        refine ⟨h.fresh, h.alive, h.terms, h.pools, h.nodup, h.sizes, ?_, h.few, h.dead, h.null, ?_, ?_⟩
        · intro k hk
          have := h.ready k hk
          refine ⟨this.1, ?_⟩
          by_cases h1 : k = n
          · simp [h1]
          · simpa [Function.update_of_ne h1] using this.2
        · intro x a m ha
          obtain ⟨l, h1, h2, h3, h4, h5⟩ := h.held x a m ha
          refine ⟨l, h1, h2, h3, fun h6 => ?_, h5⟩
          by_cases h7 : m = n
          · simp [h7]
          · simpa [Function.update_of_ne h7] using h4 h6
        · intro k hk
          by_cases h1 : k = n
          · rw [h1]; exact hlt
          · exact h.initedLt k (by simpa [Function.update_of_ne h1] using hk)
      simp only [Bool.false_eq_true, if_false]
      cases hl : s.pool n with
      | nil => exact key _ hs rfl fun _ => by simp
      | cons a rest =>
        have ha : a ∈ s.pool n := by simp [hl]
        obtain ⟨c, hc1, hc2⟩ := h.sizes n a ha
        have ho : own a = some (.pool n) := (h.pools n a).2 ha
        have hnd := h.nodup n
        rw [hl] at hnd
        have hnd' := List.nodup_cons.1 hnd
        refine ⟨some a, _, rfl, rfl, Or.inr ⟨a, c, rfl, hc1, hc2, fun _ => by simp, ?_, by simp [ho]⟩⟩
        have hsub : ∀ k b, b ∈ Function.update s.pool n rest k → b ∈ s.pool k ∧ b ≠ a := by
          intro k b hb
          by_cases h1 : k = n
          · subst h1
            simp at hb
            exact ⟨by simp [hl, hb], by rintro rfl; exact hnd'.1 hb⟩
          · rw [Function.update_of_ne h1] at hb
            refine ⟨hb, ?_⟩
            rintro rfl
            have := (h.pools k b).2 hb
            rw [ho] at this
            simp only [Option.some.injEq, Owner.pool.injEq] at this
            exact h1 this.symm
        refine ⟨hs.fresh, ?_, ?_, ?_, ?_, ?_, ?_, ?_, hs.dead, hs.null, hs.held, hs.initedLt⟩
        · intro b
          by_cases h1 : b = a
          · subst h1; simp [hc1]
          · simpa [Function.update_of_ne h1] using h.alive b
        · intro x b
          by_cases h1 : b = a
          · subst h1
            have := h.terms x b
            simp [ho] at this
            simp [this]
          · simpa [Function.update_of_ne h1] using h.terms x b
        · intro k b
          constructor
          · intro hb
            by_cases h1 : b = a
            · subst h1; simp at hb
            · rw [Function.update_of_ne h1] at hb
              have h2 := (h.pools k b).1 hb
              by_cases h3 : k = n
              · subst h3
                rw [hl] at h2
                simpa [h1] using h2
              · simpa [Function.update_of_ne h3] using h2
          · intro hb
            obtain ⟨h1, h2⟩ := hsub k b hb
            rw [Function.update_of_ne h2]
            exact (h.pools k b).2 h1
        · intro k
          by_cases h1 : k = n
          · subst h1; simpa using hnd'.2
          · simpa [Function.update_of_ne h1] using h.nodup k
        · intro k b hb
          exact h.sizes k b (hsub k b hb).1
        · intro k hk
          refine hs.ready k ?_
          intro h1
          obtain ⟨b, hb⟩ := List.exists_mem_of_ne_nil _ hk
          have := (hsub k b hb).1
          simp only at h1
          rw [h1] at this
          simp at this
        · intro k
          by_cases h1 : k = n
          · subst h1
            have := h.few k
            rw [hl] at this
            simp at this ⊢
            omega
          · simpa [Function.update_of_ne h1] using h.few k
  · rw [if_neg hlt]
    exact key s h rfl fun h1 => absurd h1 hlt

/-- Giving an array in hand away. -/
theorem Inv.release (h : Inv debug s v own) {a n : ℕ} {c : List (Option ℕ)} (ho : own a = some .hand) (hc : s.mem a = some c)
    (hl : c.length = n) (hi : n < 50 → s.inited n = true) (hn : debug = true → n ≠ 0) :
    ∃ t o, deallocate debug (some a) n s = some t ∧ t.terms = s.terms ∧ (∀ b, b ≠ a → t.mem b = s.mem b) ∧
      t.inited = s.inited ∧ (∀ x, o ≠ some (.term x)) ∧ o ≠ some .hand ∧ Inv debug t v (Function.update own a o) := by
  unfold deallocate
  have h0 : (debug && n == 0) = false := by
    cases debug
    · rfl
    · simpa using hn rfl
  have hnt : ∀ x m, s.terms x ≠ some (some a, m) := by
    intro x m hx
    have := (h.terms x a).2 ⟨m, hx⟩
    simp [ho] at this
  have hnp : ∀ k, a ∉ s.pool k := by
    intro k hk
    have := (h.pools k a).2 hk
    simp [ho] at this
  simp only [h0, Bool.false_eq_true, if_false]
  by_cases hp : (decide (n < poolCount) && decide ((s.pool n).length < objectPoolSize)) = true
  · rw [if_pos hp]
    simp only [Bool.and_eq_true, decide_eq_true_eq] at hp
    rw [if_pos (hi hp.1)]
    refine ⟨_, some (.pool n), rfl, rfl, fun _ _ => rfl, rfl, by simp, by simp, h.fresh, ?_, ?_, ?_, ?_, ?_, ?_, ?_, h.dead, h.null, h.held,
      h.initedLt⟩
    · intro b
      by_cases h1 : b = a
      · subst h1; simp [hc]
      · simpa [Function.update_of_ne h1] using h.alive b
    · intro x b
      by_cases h1 : b = a
      · subst h1
        simpa using hnt x
      · simpa [Function.update_of_ne h1] using h.terms x b
    · intro k b
      by_cases h1 : b = a
      · subst h1
        by_cases h2 : k = n
        · subst h2; simp
        · have : n ≠ k := fun h3 => h2 h3.symm
          simp [Function.update_of_ne h2, hnp k, this]
      · by_cases h2 : k = n
        · subst h2
          simpa [Function.update_of_ne h1, h1] using h.pools k b
        · simpa [Function.update_of_ne h1, Function.update_of_ne h2] using h.pools k b
    · intro k
      by_cases h2 : k = n
      · subst h2; simpa using ⟨hnp k, h.nodup k⟩
      · simpa [Function.update_of_ne h2] using h.nodup k
    · intro k b hb
      by_cases h2 : k = n
      · subst h2
        simp at hb
        rcases hb with rfl | hb
        · exact ⟨c, hc, hl⟩
        · exact h.sizes k b hb
      · exact h.sizes k b (by simpa [Function.update_of_ne h2] using hb)
    · intro k hk
      by_cases h2 : k = n
      · subst h2; exact ⟨hp.1, hi hp.1⟩
      · exact h.ready k (by simpa [Function.update_of_ne h2] using hk)
    · intro k
      by_cases h2 : k = n
      · subst h2
        simp only [Function.update_self, List.length_cons]
        have : objectPoolSize = 1000 := rfl
        omega
      · simpa [Function.update_of_ne h2] using h.few k
  · rw [if_neg hp]
    unfold deleteArray
    rw [if_pos (by simp [hc])]
    refine ⟨_, none, rfl, rfl, fun b hb => by simp [Function.update_of_ne hb], rfl, by simp, by simp, ?_, ?_, ?_, ?_, h.nodup, ?_, h.ready, h.few, h.dead,
      h.null, ?_, h.initedLt⟩
    · intro b hb
      by_cases h1 : b = a
      · subst h1; simp
      · simpa [Function.update_of_ne h1] using h.fresh b hb
    · intro b
      by_cases h1 : b = a
      · subst h1; simp
      · simpa [Function.update_of_ne h1] using h.alive b
    · intro x b
      by_cases h1 : b = a
      · subst h1
        simpa using hnt x
      · simpa [Function.update_of_ne h1] using h.terms x b
    · intro k b
      by_cases h1 : b = a
      · subst h1; simpa using hnp k
      · simpa [Function.update_of_ne h1] using h.pools k b
    · intro k b hb
      have h1 : b ≠ a := by rintro rfl; exact hnp k hb
      simpa [Function.update_of_ne h1] using h.sizes k b hb
    · intro x b m hb
      have h1 : b ≠ a := by rintro rfl; exact hnt x m hb
      simpa [Function.update_of_ne h1] using h.held x b m hb

/-- Taking the array of an object into the hand; the object is gone. -/
theorem Inv.detach (h : Inv debug s v own) {x a n : ℕ} (hx : s.terms x = some (some a, n)) :
    Inv debug (setTerm x none s) (Function.update v x none) (Function.update own a (some .hand)) := by
  have ho : own a = some (.term x) := (h.terms x a).2 ⟨n, hx⟩
  have huniq : ∀ y m, s.terms y = some (some a, m) → y = x := by
    intro y m hy
    have := (h.terms y a).2 ⟨m, hy⟩
    rw [ho] at this
    simpa using this.symm
  refine ⟨h.fresh, ?_, ?_, ?_, h.nodup, h.sizes, h.ready, h.few, ?_, ?_, ?_, h.initedLt⟩
  · intro b
    by_cases h1 : b = a
    · subst h1
      have := h.alive b
      simpa [ho, setTerm] using this
    · simpa [Function.update_of_ne h1, setTerm] using h.alive b
  · intro y b
    by_cases h1 : b = a
    · subst h1
      by_cases h2 : y = x
      · subst h2; simp [setTerm]
      · simp only [Function.update_self, setTerm, Function.update_of_ne h2]
        simp
        intro m hm
        exact h2 (huniq y m hm)
    · by_cases h2 : y = x
      · subst h2
        have h3 : own b ≠ some (.term y) := by
          intro h4
          obtain ⟨m, h5⟩ := (h.terms y b).1 h4
          rw [hx] at h5
          simp at h5
          exact h1 h5.1.symm
        simp [Function.update_of_ne h1, setTerm, h3]
      · simpa [Function.update_of_ne h1, setTerm, Function.update_of_ne h2] using h.terms y b
  · intro k b
    by_cases h1 : b = a
    · subst h1
      have := h.pools k b
      simp [ho] at this
      simp [setTerm, this]
    · simpa [Function.update_of_ne h1, setTerm] using h.pools k b
  · intro y
    by_cases h2 : y = x
    · subst h2; simp [setTerm]
    · simpa [setTerm, Function.update_of_ne h2] using h.dead y
  · intro y m hy
    by_cases h2 : y = x
    · subst h2; simp [setTerm] at hy
    · simp only [setTerm, Function.update_of_ne h2] at hy ⊢
      exact h.null y m hy
  · intro y b m hy
    by_cases h2 : y = x
    · subst h2; simp [setTerm] at hy
    · simp only [setTerm, Function.update_of_ne h2] at hy ⊢
      exact h.held y b m hy

/-- An object without an array can be forgotten. -/
theorem Inv.forget (h : Inv debug s v own) {x n : ℕ} (hx : s.terms x = some (none, n)) :
    Inv debug (setTerm x none s) (Function.update v x none) own := by
  refine ⟨h.fresh, h.alive, ?_, h.pools, h.nodup, h.sizes, h.ready, h.few, ?_, ?_, ?_, h.initedLt⟩
  · intro y b
    by_cases h2 : y = x
    · subst h2
      have := h.terms y b
      simp [hx] at this
      simp [setTerm, this]
    · simpa [setTerm, Function.update_of_ne h2] using h.terms y b
  · intro y
    by_cases h2 : y = x
    · subst h2; simp [setTerm]
    · simpa [setTerm, Function.update_of_ne h2] using h.dead y
  · intro y m hy
    by_cases h2 : y = x
    · subst h2; simp [setTerm] at hy
    · simp only [setTerm, Function.update_of_ne h2] at hy ⊢
      exact h.null y m hy
  · intro y b m hy
    by_cases h2 : y = x
    · subst h2; simp [setTerm] at hy
    · simp only [setTerm, Function.update_of_ne h2] at hy ⊢
      exact h.held y b m hy

/-- Making an object without an array. -/
theorem Inv.makeEmpty (h : Inv debug s v own) {x : ℕ} (hx : s.terms x = none) :
    Inv debug (setTerm x (some (none, 0)) s) (Function.update v x (some [])) own := by
  refine ⟨h.fresh, h.alive, ?_, h.pools, h.nodup, h.sizes, h.ready, h.few, ?_, ?_, ?_, h.initedLt⟩
  · intro y b
    by_cases h2 : y = x
    · subst h2
      have := h.terms y b
      simp [hx] at this
      simp [setTerm, this]
    · simpa [setTerm, Function.update_of_ne h2] using h.terms y b
  · intro y
    by_cases h2 : y = x
    · subst h2; simp [setTerm]
    · simpa [setTerm, Function.update_of_ne h2] using h.dead y
  · intro y m hy
    by_cases h2 : y = x
    · subst h2
      simp [setTerm] at hy
      simp [hy]
    · simp only [setTerm, Function.update_of_ne h2] at hy ⊢
      exact h.null y m hy
  · intro y b m hy
    by_cases h2 : y = x
    · subst h2; simp [setTerm] at hy
    · simp only [setTerm, Function.update_of_ne h2] at hy ⊢
      exact h.held y b m hy

/-- Writing to an array in hand. -/
theorem Inv.write (h : Inv debug s v own) {a : ℕ} {c d : List (Option ℕ)} (ho : own a = some .hand) (hc : s.mem a = some c) :
    Inv debug { s with mem := Function.update s.mem a (some d) } v own := by
  have hnt : ∀ x m, s.terms x ≠ some (some a, m) := by
    intro x m hx
    have := (h.terms x a).2 ⟨m, hx⟩
    simp [ho] at this
  have hnp : ∀ k, a ∉ s.pool k := by
    intro k hk
    have := (h.pools k a).2 hk
    simp [ho] at this
  refine ⟨?_, ?_, h.terms, h.pools, h.nodup, ?_, h.ready, h.few, h.dead, h.null, ?_, h.initedLt⟩
  · intro b hb
    have h1 : b ≠ a := by
      rintro rfl
      rw [h.fresh b hb] at hc
      simp at hc
    simpa [Function.update_of_ne h1] using h.fresh b hb
  · intro b
    by_cases h1 : b = a
    · subst h1; simp [ho]
    · simpa [Function.update_of_ne h1] using h.alive b
  · intro k b hb
    have h1 : b ≠ a := by rintro rfl; exact hnp k hb
    simpa [Function.update_of_ne h1] using h.sizes k b hb
  · intro x b m hb
    have h1 : b ≠ a := by rintro rfl; exact hnt x m hb
    simpa [Function.update_of_ne h1] using h.held x b m hb

/-- An array in hand becomes that of a new object. -/
theorem Inv.attach (h : Inv debug s v own) {x a : ℕ} {l : List ℕ} (hx : s.terms x = none) (ho : own a = some .hand)
    (hc : s.mem a = some (l.map some)) (hi : l.length < 50 → s.inited l.length = true) (hn : debug = true → l.length ≠ 0) :
    Inv debug (setTerm x (some (some a, l.length)) s) (Function.update v x (some l)) (Function.update own a (some (.term x))) := by
  have hnt : ∀ x m, s.terms x ≠ some (some a, m) := by
    intro x m hx
    have := (h.terms x a).2 ⟨m, hx⟩
    simp [ho] at this
  refine ⟨h.fresh, ?_, ?_, ?_, h.nodup, h.sizes, h.ready, h.few, ?_, ?_, ?_, h.initedLt⟩
  · intro b
    by_cases h1 : b = a
    · subst h1; simp [hc, setTerm]
    · simpa [Function.update_of_ne h1, setTerm] using h.alive b
  · intro y b
    by_cases h2 : y = x
    · subst h2
      by_cases h1 : b = a
      · subst h1; simp [setTerm]
      · have := h.terms y b
        simp [hx] at this
        simp [Function.update_of_ne h1, setTerm, this, Ne.symm h1]
    · by_cases h1 : b = a
      · subst h1
        have h3 : x ≠ y := fun h4 => h2 h4.symm
        simpa [setTerm, Function.update_of_ne h2, h3] using hnt y
      · simpa [Function.update_of_ne h1, setTerm, Function.update_of_ne h2] using h.terms y b
  · intro k b
    by_cases h1 : b = a
    · subst h1
      have := h.pools k b
      simp [ho] at this
      simp [setTerm, this]
    · simpa [Function.update_of_ne h1, setTerm] using h.pools k b
  · intro y
    by_cases h2 : y = x
    · subst h2; simp [setTerm]
    · simpa [setTerm, Function.update_of_ne h2] using h.dead y
  · intro y m hy
    by_cases h2 : y = x
    · subst h2; simp [setTerm] at hy
    · simp only [setTerm, Function.update_of_ne h2] at hy ⊢
      exact h.null y m hy
  · intro y b m hy
    by_cases h2 : y = x
    · subst h2
      simp only [setTerm, Function.update_self, Option.some.injEq, Prod.mk.injEq] at hy
      obtain ⟨rfl, rfl⟩ := hy
      exact ⟨l, by simp, rfl, hc, hi, hn⟩
    · simp only [setTerm, Function.update_of_ne h2] at hy ⊢
      exact h.held y b m hy

/-- The invariant between operations: no array is in hand. -/
def Good (debug : Bool) (s : TermHeap) (v : TermVals) : Prop := ∃ own, Inv debug s v own ∧ ∀ a, own a ≠ some .hand

theorem store_full {a : ℕ} {c : List (Option ℕ)} {l : List ℕ} (hc : s.mem a = some c) (hl : c.length = l.length) :
    store (some a) l s = some { s with mem := Function.update s.mem a (some (l.map some)) } := by
  have h1 : List.drop l.length c = [] := List.drop_of_length_le (by omega)
  simp [store, hc, hl, h1]

/-- An array in hand is written and becomes that of a new object. -/
theorem Inv.finish (h : Inv debug s v own) {x a : ℕ} {c : List (Option ℕ)} {l : List ℕ} (hx : s.terms x = none)
    (ho : own a = some .hand) (hu : ∀ b, b ≠ a → own b ≠ some .hand) (hc : s.mem a = some c)
    (hi : l.length < 50 → s.inited l.length = true) (hn : debug = true → l.length ≠ 0) :
    Good debug (setTerm x (some (some a, l.length)) { s with mem := Function.update s.mem a (some (l.map some)) })
      (Function.update v x (some l)) := by
  refine ⟨_, (h.write (d := l.map some) ho hc).attach hx ho (by simp) hi hn, fun b => ?_⟩
  by_cases h1 : b = a
  · subst h1; simp
  · simpa [Function.update_of_ne h1] using hu b h1

theorem Good.construct (h : Good debug s v) {x : ℕ} (hx : v x = none) (l : List ℕ) :
    ∃ b t, construct debug f x l s = some (b, t) ∧ (b = true → (f.poolFails || f.newFails) = true ∧ Good debug t v) ∧
      (b = false → Good debug t (Function.update v x (some l))) := by
  obtain ⟨own, h, hh⟩ := h
  have hx' := (h.dead x).1 hx
  unfold TermHeap.construct
  by_cases hl : l.length > 0
  · rw [if_pos hl]
    obtain ⟨r, t, h1, h2, h3⟩ := h.allocate (f := f) (n := l.length) fun _ => by omega
    rcases h3 with ⟨rfl, h4, h5⟩ | ⟨a, c, rfl, h4, h5, h6, h7, -⟩
    · exact ⟨true, t, by rw [h1], fun _ => ⟨h4, own, h5, hh⟩, by simp⟩
    · refine ⟨false, _, by simp only [h1, store_full h4 h5, Option.map_some]; rfl, by simp, fun _ => ?_⟩
      refine h7.finish (by rw [h2]; exact hx') (by simp) (fun b hb => ?_) h4 h6 fun _ => by omega
      simpa [Function.update_of_ne hb] using hh b
  · rw [if_neg hl]
    have : l = [] := by
      cases l
      · rfl
      · simp at hl
    subst this
    exact ⟨false, _, rfl, by simp, fun _ => ⟨own, h.makeEmpty hx', hh⟩⟩

theorem setTerm_setTerm (x : ℕ) (y z : Option (Option ℕ × ℕ)) (s : TermHeap) : setTerm x y (setTerm x z s) = setTerm x y s := by
  simp [setTerm]

theorem setTerm_self {x : ℕ} {y : Option (Option ℕ × ℕ)} (h : s.terms x = y) : setTerm x y s = s := by
  subst h
  simp [setTerm]

theorem deallocate_setTerm (x : ℕ) (y : Option (Option ℕ × ℕ)) (p : Option ℕ) (n : ℕ) :
    deallocate debug p n (setTerm x y s) = (deallocate debug p n s).map (setTerm x y) := by
  cases p with
  | none => rfl
  | some a =>
    unfold deallocate deleteArray
    change (if (debug && n == 0) = true then none
      else if (decide (n < poolCount) && decide ((s.pool n).length < objectPoolSize)) = true then
        if s.inited n = true then some _ else none
      else if (s.mem a).isSome = true then some _ else none) = Option.map (setTerm x y) (if (debug && n == 0) = true then none
      else if (decide (n < poolCount) && decide ((s.pool n).length < objectPoolSize)) = true then
        if s.inited n = true then some _ else none
      else if (s.mem a).isSome = true then some _ else none)
    by_cases h1 : (debug && n == 0) = true
    · rw [if_pos h1, if_pos h1]; rfl
    · rw [if_neg h1, if_neg h1]
      by_cases h2 : (decide (n < poolCount) && decide ((s.pool n).length < objectPoolSize)) = true
      · rw [if_pos h2, if_pos h2]
        by_cases h3 : s.inited n = true
        · rw [if_pos h3, if_pos h3]; rfl
        · rw [if_neg h3, if_neg h3]; rfl
      · rw [if_neg h2, if_neg h2]
        by_cases h3 : (s.mem a).isSome = true
        · rw [if_pos h3, if_pos h3]; rfl
        · rw [if_neg h3, if_neg h3]; rfl

/-- Releasing the array of an object that is to go away. -/
theorem Inv.drop (h : Inv debug s v own) {x : ℕ} {p : Option ℕ} {n : ℕ} (hx : s.terms x = some (p, n)) :
    ∃ t own', deallocate debug p n s = some t ∧ t.terms = s.terms ∧ t.inited = s.inited ∧
      (∀ a, own a = some .hand → own' a = some .hand ∧ t.mem a = s.mem a) ∧
      (∀ a, own' a = some .hand → own a = some .hand) ∧ Inv debug (setTerm x none t) (Function.update v x none) own' := by
  cases p with
  | none => exact ⟨s, own, rfl, rfl, rfl, fun a ha => ⟨ha, rfl⟩, fun a ha => ha, h.forget hx⟩
  | some a =>
    obtain ⟨l, -, h2, h3, h4, h5⟩ := h.held x a n hx
    have ho : own a = some (.term x) := (h.terms x a).2 ⟨n, hx⟩
    obtain ⟨t, o, h6, h7, h8, h9, h10, h11, h12⟩ :=
      (h.detach hx).release (a := a) (n := n) (c := l.map some) (by simp) h3 (by simpa using h2) h4 h5
    rw [deallocate_setTerm, Option.map_eq_some_iff] at h6
    obtain ⟨u, h13, rfl⟩ := h6
    have ht : u.terms = s.terms := by
      have : ∀ u' : TermHeap, deallocate debug (some a) n s = some u' → u'.terms = s.terms := by
        intro u' hu'
        simp only [deallocate, deleteArray] at hu'
        split_ifs at hu' <;> (cases hu'; rfl)
      exact this u h13
    refine ⟨u, _, h13, ht, h9, fun b hb => ?_, fun b hb => ?_, h12⟩
    · have h1 : b ≠ a := by rintro rfl; rw [ho] at hb; simp at hb
      exact ⟨by simp [Function.update_of_ne h1, hb], h8 b h1⟩
    · by_cases h1 : b = a
      · subst h1
        simp at hb
        exact absurd hb h11
      · simpa [Function.update_of_ne h1] using hb

theorem Good.destroy (h : Good debug s v) {x : ℕ} {p : Option ℕ} {n : ℕ} (hx : s.terms x = some (p, n)) :
    ∃ t, deallocate debug p n s = some t ∧ Good debug (setTerm x none t) (Function.update v x none) := by
  obtain ⟨own, h, hh⟩ := h
  obtain ⟨t, own', h1, -, -, -, h2, h3⟩ := h.drop hx
  exact ⟨t, h1, own', h3, fun a ha => hh a (h2 a ha)⟩

theorem Good.makeEmpty (h : Good debug s v) {x : ℕ} (hx : v x = none) :
    Good debug (setTerm x (some (none, 0)) s) (Function.update v x (some [])) := by
  obtain ⟨own, h, hh⟩ := h
  exact ⟨own, h.makeEmpty ((h.dead x).1 hx), hh⟩

theorem Good.store (h : Good debug s v) {x : ℕ} {p : Option ℕ} {n : ℕ} (hx : s.terms x = some (p, n)) {l : List ℕ}
    (hl : l.length = n) : ∃ t, store p l s = some t ∧ Good debug t (Function.update v x (some l)) := by
  obtain ⟨own, h, hh⟩ := h
  cases p with
  | none =>
    obtain ⟨rfl, h2⟩ := h.null x n hx
    have : l = [] := by simpa using hl
    subst this
    refine ⟨s, by simp [TermHeap.store], own, ?_, hh⟩
    rw [← h2, Function.update_eq_self]
    exact h
  | some a =>
    obtain ⟨k, h1, h2, h3, h4, h5⟩ := h.held x a n hx
    subst hl
    refine ⟨_, store_full h3 (by simp [h2]), ?_⟩
    have := (h.detach hx).finish (x := x) (a := a) (c := k.map some) (l := l) (by simp [setTerm]) (by simp)
      (fun b hb => by simpa [Function.update_of_ne hb] using hh b) h3 h4 h5
    simp only [Function.update_idem, setTerm] at this
    rw [← hx, Function.update_eq_self] at this
    exact this

theorem Good.fill (h : Good debug s v) {x : ℕ} {k l : List ℕ} (hx : v x = some k) (hl : l.length = k.length) :
    ∃ t, fill x l s = some t ∧ Good debug t (Function.update v x (some l)) := by
  obtain ⟨own, h', hh⟩ := id h
  have h1 : s.terms x ≠ none := fun h2 => by
    have := (h'.dead x).2 h2
    simp [hx] at this
  unfold TermHeap.fill
  cases h2 : s.terms x with
  | none => exact absurd h2 h1
  | some q =>
    obtain ⟨p, n⟩ := q
    refine h.store h2 ?_
    cases p with
    | none =>
      obtain ⟨rfl, h3⟩ := h'.null x n h2
      rw [hx] at h3
      simp at h3
      simp [hl, h3]
    | some a =>
      obtain ⟨l', h3, h4, -⟩ := h'.held x a n h2
      rw [hx] at h3
      simp only [Option.some.injEq] at h3
      rw [hl, h3, h4]

/-- An object with its value has as many variables as the value has exponents. -/
theorem Inv.length (h : Inv debug s v own) {x : ℕ} {k : List ℕ} (hx : v x = some k) : ∃ p, s.terms x = some (p, k.length) := by
  cases h2 : s.terms x with
  | none =>
    have := (h.dead x).2 h2
    simp [hx] at this
  | some q =>
    obtain ⟨p, n⟩ := q
    cases p with
    | none =>
      obtain ⟨rfl, h3⟩ := h.null x n h2
      rw [hx] at h3
      simp at h3
      exact ⟨none, by simp [h3]⟩
    | some a =>
      obtain ⟨l', h3, h4, -⟩ := h.held x a n h2
      rw [hx] at h3
      simp at h3
      exact ⟨some a, by simp [h3, h4]⟩

/-- After `resize`, filling the object gives it its new value, and the other objects can still be read. -/
theorem Good.resize (h : Good debug s v) {x n : ℕ} {k : List ℕ} (hx : v x = some k)
    (hn : debug = true → k.length ≠ n → n ≠ 0) :
    ∃ b t, resize debug f x n s = some (b, t) ∧ (b = true → (f.poolFails || f.newFails) = true ∧ Good debug t v) ∧
      (b = false → (∀ y, y ≠ x ∨ n = k.length → t.value y = v y) ∧
        ∀ l : List ℕ, l.length = n → ∃ u, TermHeap.fill x l t = some u ∧ Good debug u (Function.update v x (some l))) := by
  obtain ⟨own, h', hh⟩ := id h
  obtain ⟨p, h1⟩ := h'.length hx
  unfold TermHeap.resize
  simp only [h1]
  by_cases hk : n = k.length
  · rw [if_neg (by simp [hk])]
    exact ⟨false, s, rfl, by simp, fun _ => ⟨fun y _ => h'.value y, fun l hl => h.fill hx (by omega)⟩⟩
  · rw [if_pos hk]
    have hn' : debug = true → n ≠ 0 := fun h2 => hn h2 fun h3 => hk h3.symm
    obtain ⟨r, t, h2, h3, h4⟩ := h'.allocate (f := f) (n := n) hn'
    rcases h4 with ⟨rfl, h4, h5⟩ | ⟨a, c, rfl, h4, h5, h6, h7, -⟩
    · exact ⟨true, t, by rw [h2], fun _ => ⟨h4, own, h5, hh⟩, by simp⟩
    · have h8 : t.terms x = some (p, k.length) := by rw [h3]; exact h1
      obtain ⟨u, own', h9, h10, h11, h12, h13, h14⟩ := h7.drop h8
      refine ⟨false, _, by simp only [h2, h9, Option.map_some]; rfl, by simp, fun _ => ⟨fun y hy => ?_, fun l hl => ?_⟩⟩
      · have hy : y ≠ x := hy.resolve_right hk
        have := h14.value y
        simp only [Function.update_of_ne hy] at this
        rw [← this]
        simp only [TermHeap.value, setTerm, Function.update_of_ne hy]
        rfl
      · subst hl
        obtain ⟨h15, h16⟩ := h12 a (by simp)
        have hmem : u.mem a = some c := by rw [h16]; exact h4
        have hfill : TermHeap.fill x l (setTerm x (some (some a, l.length)) u) =
            some (setTerm x (some (some a, l.length)) { u with mem := Function.update u.mem a (some (l.map some)) }) := by
          unfold TermHeap.fill
          simp only [setTerm, Function.update_self]
          exact store_full hmem h5
        refine ⟨_, hfill, ?_⟩
        have := h14.finish (x := x) (a := a) (c := c) (l := l) (by simp [setTerm]) h15 (fun b hb hb' => ?_) hmem
          (by simpa [setTerm, h11] using h6) hn'
        · simpa [setTerm] using this
        · have := h13 b hb'
          rw [Function.update_of_ne hb] at this
          exact hh b this

theorem Good.swap (h : Good debug s v) {x y : ℕ} {q r : Option ℕ × ℕ} (hx : s.terms x = some q) (hy : s.terms y = some r) :
    Good debug (setTerm y (some q) (setTerm x (some r) s)) (Function.update (Function.update v x (v y)) y (v x)) := by
  obtain ⟨own, h, hh⟩ := h
  let σ : ℕ → ℕ := fun z => if z = x then y else if z = y then x else z
  have hσ : ∀ z, σ (σ z) = z := by
    intro z
    simp only [σ]
    split_ifs <;> simp_all
  have ht : ∀ z, (setTerm y (some q) (setTerm x (some r) s)).terms z = s.terms (σ z) := by
    intro z
    by_cases h2 : z = y
    · subst h2
      by_cases h1 : z = x
      · subst h1; simp [setTerm, σ, hx]
      · simp [setTerm, σ, h1, hx]
    · by_cases h1 : z = x
      · subst h1; simp [setTerm, σ, Function.update_of_ne h2, hy]
      · simp [setTerm, σ, h1, h2]
  have hv : ∀ z, Function.update (Function.update v x (v y)) y (v x) z = v (σ z) := by
    intro z
    by_cases h2 : z = y
    · subst h2
      by_cases h1 : z = x
      · subst h1; simp [σ]
      · simp [σ, h1]
    · by_cases h1 : z = x
      · subst h1; simp [σ, Function.update_of_ne h2]
      · simp [σ, h1, h2]
  let τ : Owner → Owner := fun o => match o with
    | .term z => .term (σ z)
    | o => o
  refine ⟨fun a => (own a).map τ, ⟨h.fresh, ?_, ?_, ?_, h.nodup, h.sizes, h.ready, h.few, ?_, ?_, ?_, h.initedLt⟩, ?_⟩
  · intro a
    simpa [setTerm] using h.alive a
  · intro z a
    rw [ht, ← h.terms]
    cases h1 : own a with
    | none => simp
    | some o =>
      cases o with
      | term w =>
        simp only [Option.map_some, τ, Option.some.injEq, Owner.term.injEq]
        exact ⟨fun h2 => by rw [← h2, hσ], fun h2 => by rw [h2, hσ]⟩
      | pool k => simp [τ]
      | hand => simp [τ]
  · intro k a
    refine Iff.trans ?_ (h.pools k a)
    cases h1 : own a with
    | none => simp
    | some o => cases o <;> simp [τ]
  · intro z
    rw [ht, hv]
    exact h.dead _
  · intro z n
    rw [ht, hv]
    exact h.null _ n
  · intro z a n
    rw [ht, hv]
    exact h.held _ a n
  · intro a
    have := hh a
    cases h1 : own a with
    | none => simp [h1]
    | some o => cases o <;> simp_all [τ]

/-- One operation keeps the invariant. -/
theorem Good.step (h : Good debug s v) {o : TermOp} (ho : o.Legal v) (he : debug = true → ¬ o.Empties v) :
    ∃ b t, step debug f o s = some (b, t) ∧ (b = true → (f.poolFails || f.newFails) = true ∧ Good debug t v) ∧
      (b = false → Good debug t (o.effect v)) := by
  have hval : ∀ x, s.value x = v x := by
    obtain ⟨own, h', -⟩ := id h
    exact h'.value
  have hlen : ∀ {x k}, v x = some k → ∃ p, s.terms x = some (p, k.length) := by
    intro x k hx
    obtain ⟨own, h', -⟩ := id h
    exact h'.length hx
  cases o with
  | empty x => exact ⟨false, _, rfl, by simp, fun _ => h.makeEmpty ho⟩
  | one x n => exact h.construct ho _
  | ofArray x l => exact h.construct ho _
  | copy x g =>
    obtain ⟨h1, h2⟩ := ho
    obtain ⟨l, h3⟩ := Option.ne_none_iff_exists'.1 h2
    simp only [TermHeap.step, hval, h3, TermOp.effect]
    exact h.construct h1 _
  | destroy x =>
    obtain ⟨l, h3⟩ := Option.ne_none_iff_exists'.1 ho
    obtain ⟨p, h4⟩ := hlen h3
    obtain ⟨t, h5, h6⟩ := h.destroy h4
    exact ⟨false, _, by simp only [TermHeap.step, h4, h5, Option.map_some], by simp, fun _ => h6⟩
  | assign x g =>
    obtain ⟨k, h3⟩ := Option.ne_none_iff_exists'.1 ho.1
    obtain ⟨l, h4⟩ := Option.ne_none_iff_exists'.1 ho.2
    obtain ⟨p, h5⟩ := hlen h4
    obtain ⟨b, t, h6, h7, h8⟩ := h.resize (f := f) (n := l.length) h3 (by
      intro h1 h2 h9
      refine he h1 ⟨fun h10 => ?_, ?_⟩
      · rw [h3] at h10
        simp at h10
        simp [h10, h9] at h2
      · rw [h4]
        simpa using h9)
    cases b with
    | true => exact ⟨true, t, by simp only [TermHeap.step, h5, h6], h7, by simp⟩
    | false =>
      obtain ⟨h9, h10⟩ := h8 rfl
      obtain ⟨u, h11, h12⟩ := h10 l rfl
      have h13 : t.value g = some l := by
        rw [h9 g ?_, h4]
        by_cases h14 : g = x
        · subst h14
          rw [h3] at h4
          simp at h4
          exact Or.inr (by rw [h4])
        · exact Or.inl h14
      refine ⟨false, u, by simp only [TermHeap.step, h5, h6, h13, h11, Option.map_some], by simp, fun _ => ?_⟩
      simp only [TermOp.effect, h4]
      exact h12
  | assignArray x l =>
    obtain ⟨k, h3, h4⟩ := ho
    obtain ⟨p, h5⟩ := hlen h3
    obtain ⟨t, h6, h7⟩ := h.store h5 h4
    exact ⟨false, t, by simp only [TermHeap.step, h5, h4, if_pos, h6, Option.map_some], by simp, fun _ => h7⟩
  | set x i e =>
    obtain ⟨k, h3, h4⟩ := ho
    obtain ⟨t, h6, h7⟩ := h.fill (l := k.set i e) h3 (by simp)
    refine ⟨false, t, by simp only [TermHeap.step, hval, h3, h4, if_pos, h6, Option.map_some], by simp, fun _ => ?_⟩
    simp only [TermOp.effect, h3, Option.map_some]
    exact h7
  | swap x y =>
    obtain ⟨k, h3⟩ := Option.ne_none_iff_exists'.1 ho.1
    obtain ⟨l, h4⟩ := Option.ne_none_iff_exists'.1 ho.2
    obtain ⟨p, h5⟩ := hlen h3
    obtain ⟨q, h6⟩ := hlen h4
    exact ⟨false, _, by simp only [TermHeap.step, h5, h6], by simp, fun _ => h.swap h5 h6⟩
  | reset x n =>
    obtain ⟨k, h3⟩ := Option.ne_none_iff_exists'.1 ho
    obtain ⟨b, t, h6, h7, h8⟩ := h.resize (f := f) (n := n) h3 (by
      intro h1 h2 h9
      refine he h1 ⟨fun h10 => ?_, h9⟩
      rw [h3] at h10
      simp at h10
      simp [h10, h9] at h2)
    cases b with
    | true => exact ⟨true, t, by simp only [TermHeap.step, h6], h7, by simp⟩
    | false =>
      obtain ⟨u, h11, h12⟩ := (h8 rfl).2 (List.replicate n 0) (by simp)
      exact ⟨false, u, by simp only [TermHeap.step, h6, h11, Option.map_some], by simp, fun _ => h12⟩
  | clear x =>
    obtain ⟨l, h3⟩ := Option.ne_none_iff_exists'.1 ho
    obtain ⟨p, h4⟩ := hlen h3
    obtain ⟨t, h5, h6⟩ := h.destroy h4
    refine ⟨false, _, by simp only [TermHeap.step, h4, h5, Option.map_some]; rfl, by simp, fun _ => ?_⟩
    have := h6.makeEmpty (x := x) (by simp)
    simpa [setTerm_setTerm, TermOp.effect] using this

/-- In a debug build the operations that make a term with variables one without stop the program. -/
theorem Good.step_empties (h : Good true s v) {o : TermOp} (ho : o.Legal v) (he : o.Empties v) : TermHeap.step true f o s = none := by
  have hlen : ∀ {x k}, v x = some k → ∃ p, s.terms x = some (p, k.length) := by
    intro x k hx
    obtain ⟨own, h', -⟩ := id h
    exact h'.length hx
  have key : ∀ x k, v x = some k → k ≠ [] → TermHeap.resize true f x 0 s = none := by
    intro x k h1 h2
    obtain ⟨p, h3⟩ := hlen h1
    have h4 : (0 : ℕ) ≠ k.length := by
      intro h5
      exact h2 (List.eq_nil_of_length_eq_zero h5.symm)
    simp [TermHeap.resize, h3, h4, TermHeap.allocate]
  cases o with
  | assign x g =>
    obtain ⟨k, h3⟩ := Option.ne_none_iff_exists'.1 ho.1
    obtain ⟨p, h5⟩ := hlen he.2
    have := key x k h3 fun h6 => he.1 (by rw [h3, h6])
    simp [TermHeap.step, h5, this]
  | reset x n =>
    obtain ⟨h1, rfl⟩ := he
    obtain ⟨k, h3⟩ := Option.ne_none_iff_exists'.1 ho
    have := key x k h3 fun h6 => h1 (by rw [h3, h6])
    simp [TermHeap.step, this]
  | _ => exact absurd he id

theorem Good.of_history (h : TermHistory debug s v) : Good debug s v := by
  induction h with
  | start => exact ⟨_, Inv.start debug, by simp⟩
  | @done s v f o t _ h2 h3 ih =>
    have he : debug = true → ¬ o.Empties v := by
      rintro rfl he
      rw [ih.step_empties h2 he] at h3
      simp at h3
    obtain ⟨b, t', h4, -, h5⟩ := ih.step (f := f) h2 he
    rw [h3] at h4
    cases h4
    exact h5 rfl
  | @threw s v f o t _ h2 h3 ih =>
    have he : debug = true → ¬ o.Empties v := by
      rintro rfl he
      rw [ih.step_empties h2 he] at h3
      simp at h3
    obtain ⟨b, t', h4, h5, -⟩ := ih.step (f := f) h2 he
    rw [h3] at h4
    cases h4
    exact (h5 rfl).2

/-! ### The end of the program -/

theorem deleteAll_exact (l : List ℕ) (hl : l.Nodup) (hs : ∀ a ∈ l, (s.mem a).isSome) :
    ∃ t, deleteAll l s = some t ∧ t.pool = s.pool ∧ t.inited = s.inited ∧ (∀ a ∈ l, t.mem a = none) ∧ ∀ a, a ∉ l → t.mem a = s.mem a := by
  induction l generalizing s with
  | nil => exact ⟨s, rfl, rfl, rfl, by simp, fun _ _ => rfl⟩
  | cons a l ih =>
    obtain ⟨h1, h2⟩ := List.nodup_cons.1 hl
    obtain ⟨t, h3, h4, h5, h6, h7⟩ := @ih { s with mem := Function.update s.mem a none } h2 (by
      intro b hb
      have h8 : b ≠ a := by rintro rfl; exact h1 hb
      simpa [Function.update_of_ne h8] using hs b (by simp [hb]))
    refine ⟨t, ?_, h4, h5, ?_, ?_⟩
    · simp [deleteAll, deleteArray, hs a (by simp), h3]
    · intro b hb
      rcases List.mem_cons.1 hb with rfl | hb
      · rw [h7 b h1]; simp
      · exact h6 b hb
    · intro b hb
      simp only [List.mem_cons, not_or] at hb
      rw [h7 b hb.2]
      simp [Function.update_of_ne hb.1]

theorem destroyPools_exact (k : ℕ) (hnd : ∀ j, (s.pool j).Nodup) (hm : ∀ j, ∀ a ∈ s.pool j, (s.mem a).isSome)
    (hd : ∀ i j a, a ∈ s.pool i → a ∈ s.pool j → i = j) (hi : ∀ j, s.pool j ≠ [] → s.inited j = true) :
    ∃ t, destroyPools k s = some t ∧ (∀ j < k, ∀ a ∈ s.pool j, t.mem a = none) ∧ (∀ a, s.mem a = none → t.mem a = none) ∧
      (∀ j < k, t.inited j = false) ∧ ∀ j, k ≤ j → t.inited j = s.inited j := by
  induction k generalizing s with
  | zero => exact ⟨s, rfl, by simp, fun _ h => h, by simp, fun _ _ => rfl⟩
  | succ k ih =>
    cases hk : s.inited k with
    | false =>
      have hp : s.pool k = [] := by
        by_contra h1
        rw [hi k h1] at hk
        simp at hk
      obtain ⟨t, h1, h2, h3, h4, h5⟩ := ih hnd hm hd hi
      refine ⟨t, by simp [destroyPools, destroyPool, hk, h1], ?_, h3, ?_, fun j hj => h5 j (by omega)⟩
      · intro j hj a ha
        by_cases h6 : j = k
        · subst h6; simp [hp] at ha
        · exact h2 j (by omega) a ha
      · intro j hj
        by_cases h6 : j = k
        · subst h6; rw [h5 j (Nat.le_refl _)]; exact hk
        · exact h4 j (by omega)
    | true =>
      obtain ⟨u, h1, h2, h3, h4, h5⟩ := deleteAll_exact (s := s) (s.pool k) (hnd k) (hm k)
      let w : TermHeap := { u with pool := Function.update u.pool k [], inited := Function.update u.inited k false }
      have hw : ∀ j a, a ∈ w.pool j → a ∈ s.pool j ∧ j ≠ k := by
        intro j a ha
        by_cases h6 : j = k
        · subst h6; simp [w] at ha
        · simp only [w, Function.update_of_ne h6, h2] at ha
          exact ⟨ha, h6⟩
      obtain ⟨t, h6, h7, h8, h9, h10⟩ := @ih w
        (by
          intro j
          by_cases h6 : j = k
          · subst h6; simp [w]
          · simpa [w, Function.update_of_ne h6, h2] using hnd j)
        (by
          intro j a ha
          obtain ⟨h6, h7⟩ := hw j a ha
          have h8 : a ∉ s.pool k := fun h9 => h7 (hd j k a h6 h9)
          have : w.mem a = s.mem a := h5 a h8
          rw [this]
          exact hm j a h6)
        (fun i j a ha hb => hd i j a (hw i a ha).1 (hw j a hb).1)
        (by
          intro j hj
          obtain ⟨a, ha⟩ := List.exists_mem_of_ne_nil _ hj
          obtain ⟨h6, h7⟩ := hw j a ha
          have : s.inited j = true := hi j (List.ne_nil_of_mem h6)
          simpa [w, Function.update_of_ne h7, h3] using this)
      have hnone : ∀ a, s.mem a = none → w.mem a = none := by
        intro a ha
        by_cases h11 : a ∈ s.pool k
        · exact h4 a h11
        · have : w.mem a = s.mem a := h5 a h11
          rw [this, ha]
      refine ⟨t, by simp [destroyPools, destroyPool, hk, h1]; exact h6, ?_, fun a ha => h8 a (hnone a ha), ?_, ?_⟩
      · intro j hj a ha
        by_cases h11 : j = k
        · subst h11
          exact h8 a (h4 a ha)
        · refine h7 j (by omega) a ?_
          simpa [w, Function.update_of_ne h11, h2] using ha
      · intro j hj
        by_cases h11 : j = k
        · subst h11; rw [h10 j (Nat.le_refl _)]; simp [w]
        · exact h9 j (by omega)
      · intro j hj
        rw [h10 j (by omega)]
        simp [w, Function.update_of_ne (show j ≠ k by omega), h3]

end TermHeap

end Frobby
