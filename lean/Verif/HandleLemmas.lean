import Verif.HandleSpec
import Mathlib.Tactic.Common

/-!
# Lemmas on the objects of a program
-/

namespace Frobby

/-- What is at an address, for the exponents that were added. -/
structure IdealCell.Good (c : IdealCell) (n : ℕ) (es : List ℤ) : Prop where
  vars : c.varCount = n
  rows : ∀ t ∈ c.terms, t.length = n
  le : c.atVariable ≤ n
  pos : 0 < n → 0 < c.atVariable
  flat : 0 < n → c.terms.flatten = es ++ List.replicate (n - c.atVariable) 0
  zero : n = 0 → c.terms.length = es.length

theorem IdealCell.Good.describes {c : IdealCell} {n : ℕ} {es : List ℤ} (h : c.Good n es) : GeneratorsOf c.terms n es := by
  refine ⟨h.rows, ?_⟩
  split
  · rename_i h0
    exact h.zero h0
  · have := h.pos (by omega)
    exact ⟨n - c.atVariable, by omega, h.flat (by omega)⟩

theorem IdealCell.good_new (n : ℕ) : (IdealCell.new n).Good n [] :=
  { vars := rfl, rows := fun t h => absurd h List.not_mem_nil, le := Nat.le_refl _, pos := id, flat := fun _ => by simp [IdealCell.new], zero := fun _ => rfl }

theorem flatten_length {n : ℕ} : ∀ {l : List (List ℤ)}, (∀ t ∈ l, t.length = n) → l.flatten.length = l.length * n
  | [], _ => by simp
  | t :: l, h => by
    rw [List.flatten_cons, List.length_append, h t (by simp), flatten_length fun u hu => h u (by simp [hu]), List.length_cons, Nat.add_mul]
    omega

theorem IdealCell.setLast_good {c : IdealCell} {n : ℕ} {es : List ℤ} (hv : c.varCount = n) (hr : ∀ t ∈ c.terms, t.length = n) (hlt : c.atVariable < n)
    (hne : c.terms ≠ []) (hf : c.terms.flatten = es ++ List.replicate (n - c.atVariable) 0) (e : ℤ) :
    ∃ c', c.setLast e = some c' ∧ c'.Good n (es ++ [e]) := by
  obtain ⟨ts, t, hts⟩ : ∃ ts t, c.terms = ts ++ [t] := by
    obtain ⟨ts, t, h⟩ := List.eq_nil_or_concat c.terms |>.resolve_left hne
    exact ⟨ts, t, by simpa using h⟩
  have ht : t.length = n := hr t (by simp [hts])
  have hl := congrArg List.length hf
  rw [hts, List.flatten_append, List.length_append, List.length_append, List.length_replicate] at hl
  simp only [List.flatten_cons, List.flatten_nil, List.append_nil] at hl
  refine ⟨⟨c.varCount, ts ++ [t.set c.atVariable e], c.atVariable + 1⟩, ?_, hv, ?_, hlt, fun _ => Nat.succ_pos _, fun _ => ?_, fun h0 => by omega⟩
  · unfold IdealCell.setLast
    rw [hts]
    simp only [List.getLast?_append, List.getLast?_singleton, Option.some_or, ht, hlt, if_true, List.dropLast_concat]
  · intro u hu
    rcases List.mem_append.1 hu with hu | hu
    · exact hr u (by simp [hts, hu])
    · rw [List.mem_singleton.1 hu, List.length_set, ht]
  · have hset : (ts ++ [t.set c.atVariable e]).flatten = (c.terms.flatten).set es.length e := by
      rw [hts, List.flatten_append, List.flatten_append]
      simp only [List.flatten_cons, List.flatten_nil, List.append_nil]
      rw [List.set_append, if_neg (by omega), show es.length - ts.flatten.length = c.atVariable by omega]
    show (ts ++ [t.set c.atVariable e]).flatten = _
    rw [hset, hf, List.set_append, if_neg (Nat.lt_irrefl _), Nat.sub_self, show n - c.atVariable = (n - (c.atVariable + 1)) + 1 by omega,
      List.replicate_succ, List.set_cons_zero, List.append_assoc, List.singleton_append]

theorem IdealCell.Good.begins_iff {c : IdealCell} {n : ℕ} {es : List ℤ} (h : c.Good n es) : c.atVariable = c.varCount ↔ Begins (n, es) := by
  rw [h.vars]
  unfold Begins
  have := h.le
  by_cases h0 : n = 0
  · subst h0
    simp only [true_or, iff_true]
    omega
  have hl := congrArg List.length (h.flat (by omega))
  rw [flatten_length h.rows, List.length_append, List.length_replicate] at hl
  have hp := h.pos (by omega)
  constructor
  · intro e
    exact .inr ⟨c.terms.length, by simp only; rw [Nat.mul_comm, hl]; omega⟩
  · rintro (e | ⟨k, hk⟩)
    · exact absurd e h0
    · simp only at hk
      have hd : n ∣ n - c.atVariable := by
        have h1 : n ∣ c.terms.length * n := Nat.dvd_mul_left _ _
        rw [hl, hk] at h1
        exact (Nat.dvd_add_right (Nat.dvd_mul_right n k)).1 h1
      have := Nat.eq_zero_of_dvd_of_lt hd (by omega)
      omega

theorem IdealCell.Good.addExponent_inside {c : IdealCell} {n : ℕ} {es : List ℤ} (h : c.Good n es) (hb : ¬ Begins (n, es)) (e : ℤ) (m : MemoryLeft) :
    ∃ c', c.addExponent e m = some c' ∧ c'.Good n (es ++ [e]) := by
  have hne : c.atVariable ≠ c.varCount := fun e => hb (h.begins_iff.1 e)
  unfold IdealCell.addExponent
  rw [if_neg hne]
  have hle := h.le
  rw [h.vars] at hne
  refine IdealCell.setLast_good h.vars h.rows (by omega) ?_ (h.flat (by omega)) e
  intro h0
  have := h.flat (by omega)
  rw [h0] at this
  have := congrArg List.length this
  simp at this
  omega

theorem IdealCell.Good.addExponent_good {c : IdealCell} {n : ℕ} {es : List ℤ} (h : c.Good n es) (e : ℤ) :
    ∃ c', c.addExponent e .enough = some c' ∧ c'.Good n (es ++ [e]) := by
  by_cases hb : Begins (n, es)
  · have he := h.begins_iff.2 hb
    have hv := h.vars
    have hrows : ∀ t ∈ c.terms ++ [List.replicate c.varCount 0], t.length = n := by
      intro t ht
      rcases List.mem_append.1 ht with ht | ht
      · exact h.rows t ht
      · rw [List.mem_singleton.1 ht, List.length_replicate, hv]
    unfold IdealCell.addExponent
    rw [if_pos he]
    by_cases h0 : c.varCount = 0
    · refine ⟨_, if_pos h0, hv, hrows, Nat.zero_le _, fun hp => by omega, fun hp => by omega, fun hn => ?_⟩
      show (c.terms ++ _).length = _
      rw [List.length_append, List.length_append, h.zero hn, List.length_singleton, List.length_singleton]
    · simp only
      rw [if_neg h0]
      refine IdealCell.setLast_good (c := ⟨c.varCount, c.terms ++ [List.replicate c.varCount 0], 0⟩) hv hrows (by simp only; omega) (by simp) ?_ e
      show (c.terms ++ [List.replicate c.varCount 0]).flatten = _
      rw [List.flatten_append, h.flat (by omega), he, hv, Nat.sub_self, Nat.sub_zero]
      simp
  · exact h.addExponent_inside hb e .enough

theorem IdealCell.Good.addExponent_fails {c : IdealCell} {n : ℕ} {es : List ℤ} (h : c.Good n es) (hb : Begins (n, es)) (e : ℤ) :
    c.addExponent e .noGenerator = some c := by
  unfold IdealCell.addExponent
  rw [if_pos (h.begins_iff.2 hb)]

/-- What is known at every time. -/
structure Handles.Inv (s : Handles) (v : HandleValues) : Prop where
  dead : ∀ x, v x = none → s.data x = none
  live : ∀ x p, v x = some p → ∃ a c, s.data x = some a ∧ s.heap a = some c ∧ c.Good p.1 p.2
  owned : ∀ a c, s.heap a = some c → a < s.next ∧ ∃ x, s.data x = some a
  apart : ∀ x y a, s.data x = some a → s.data y = some a → x = y

theorem Handles.inv_start : Handles.start.Inv fun _ => none :=
  ⟨fun _ _ => rfl, fun _ _ h => (by cases h), fun _ _ h => (by cases h), fun _ _ _ h => (by cases h)⟩

theorem Handles.Inv.lt {s : Handles} {v : HandleValues} (h : s.Inv v) {x a : ℕ} (hx : s.data x = some a) : a < s.next := by
  rcases hv : v x with _ | p
  · rw [h.dead x hv] at hx
    cases hx
  · obtain ⟨b, c, hb, hc, -⟩ := h.live x p hv
    rw [hb] at hx
    cases hx
    exact (h.owned _ c hc).1

theorem Handles.Inv.fresh {s : Handles} {v : HandleValues} (h : s.Inv v) {x : ℕ} (hx : s.data x = none) {c : IdealCell} {p : ℕ × List ℤ}
    (hc : c.Good p.1 p.2) :
    Handles.Inv ⟨Function.update s.data x (some s.next), Function.update s.heap s.next (some c), s.next + 1⟩ (Function.update v x (some p)) := by
  refine ⟨?_, ?_, ?_, ?_⟩
  · intro y hy
    by_cases hyx : y = x
    · subst hyx
      simp at hy
    · simp only [Function.update_of_ne hyx] at hy ⊢
      exact h.dead y hy
  · intro y q hy
    by_cases hyx : y = x
    · subst hyx
      simp only [Function.update_self, Option.some.injEq] at hy
      subst hy
      exact ⟨s.next, c, by simp, by simp, hc⟩
    · simp only [Function.update_of_ne hyx] at hy ⊢
      obtain ⟨a, d, ha, hd, hg⟩ := h.live y q hy
      have := h.lt ha
      exact ⟨a, d, ha, by rw [Function.update_of_ne (by omega)]; exact hd, hg⟩
  · intro a d hd
    by_cases ha : a = s.next
    · subst ha
      exact ⟨Nat.lt_succ_self _, x, by simp⟩
    · simp only [Function.update_of_ne ha] at hd
      obtain ⟨hl, y, hy⟩ := h.owned a d hd
      refine ⟨by simp only; omega, y, ?_⟩
      have hyx : y ≠ x := by
        rintro rfl
        rw [hx] at hy
        cases hy
      simp only [Function.update_of_ne hyx]
      exact hy
  · intro y z a hy hz
    simp only [Function.update_apply] at hy hz
    split at hy <;> split at hz
    · simp_all
    · cases hy
      exact absurd (h.lt hz) (Nat.lt_irrefl _)
    · cases hz
      exact absurd (h.lt hy) (Nat.lt_irrefl _)
    · exact h.apart y z a hy hz

/-- The memory of an object is given back and the object is gone. -/
theorem Handles.Inv.gone {s : Handles} {v : HandleValues} (h : s.Inv v) {x a : ℕ} (hx : s.data x = some a) :
    Handles.Inv ⟨Function.update s.data x none, Function.update s.heap a none, s.next⟩ (Function.update v x none) := by
  refine ⟨?_, ?_, ?_, ?_⟩
  · intro y hy
    by_cases hyx : y = x
    · subst hyx
      simp
    · simp only [Function.update_of_ne hyx] at hy ⊢
      exact h.dead y hy
  · intro y q hy
    by_cases hyx : y = x
    · subst hyx
      simp at hy
    · simp only [Function.update_of_ne hyx] at hy ⊢
      obtain ⟨b, d, hb, hd, hg⟩ := h.live y q hy
      have hne : b ≠ a := by
        rintro rfl
        exact hyx (h.apart y x _ hb hx)
      exact ⟨b, d, hb, by rw [Function.update_of_ne hne]; exact hd, hg⟩
  · intro b d hd
    by_cases hb : b = a
    · subst hb
      simp at hd
    · simp only [Function.update_of_ne hb] at hd
      obtain ⟨hl, y, hy⟩ := h.owned b d hd
      refine ⟨hl, y, ?_⟩
      have hyx : y ≠ x := by
        rintro rfl
        rw [hx] at hy
        cases hy
        exact hb rfl
      simp only [Function.update_of_ne hyx]
      exact hy
  · intro y z b hy hz
    simp only [Function.update_apply] at hy hz
    split at hy <;> split at hz
    · cases hy
    · cases hy
    · cases hz
    · exact h.apart y z b hy hz

theorem Handles.Inv.change {s : Handles} {v : HandleValues} (h : s.Inv v) {x a : ℕ} (hx : s.data x = some a) {c : IdealCell} {p : ℕ × List ℤ}
    (hs : (s.heap a).isSome) (hc : c.Good p.1 p.2) :
    Handles.Inv ⟨s.data, Function.update s.heap a (some c), s.next⟩ (Function.update v x (some p)) := by
  refine ⟨?_, ?_, ?_, h.apart⟩
  · intro y hy
    by_cases hyx : y = x
    · subst hyx
      simp at hy
    · simp only [Function.update_of_ne hyx] at hy ⊢
      exact h.dead y hy
  · intro y q hy
    by_cases hyx : y = x
    · subst hyx
      simp only [Function.update_self, Option.some.injEq] at hy
      subst hy
      exact ⟨a, c, hx, by simp, hc⟩
    · simp only [Function.update_of_ne hyx] at hy ⊢
      obtain ⟨b, d, hb, hd, hg⟩ := h.live y q hy
      have hne : b ≠ a := by
        rintro rfl
        exact hyx (h.apart y x _ hb hx)
      exact ⟨b, d, hb, by rw [Function.update_of_ne hne]; exact hd, hg⟩
  · intro b d hd
    by_cases hb : b = a
    · subst hb
      exact ⟨h.lt hx, x, hx⟩
    · simp only [Function.update_of_ne hb] at hd
      exact h.owned b d hd

theorem Handles.Inv.step {s : Handles} {v v' : HandleValues} (h : s.Inv v) {op : HandleOp} (hw : op.Whole) (hv : v.step op = some v') :
    ∃ s', s.step op = some s' ∧ s'.Inv v' := by
  cases op with
  | create x n enough =>
    simp only [HandleValues.step] at hv
    split at hv
    · rename_i hx
      cases hv
      simp only [Handles.step, h.dead x hx]
      cases enough
      · exact ⟨s, rfl, h⟩
      · exact ⟨_, rfl, h.fresh (h.dead x hx) (p := (n, [])) (IdealCell.good_new n)⟩
    · cases hv
  | copy x y enough =>
    simp only [HandleValues.step] at hv
    split at hv
    · rename_i p hx hy
      cases hv
      obtain ⟨b, c, hb, hc, hg⟩ := h.live y p hy
      simp only [Handles.step, h.dead x hx, hb, hc, Option.bind_eq_bind, Option.bind_some]
      cases enough
      · exact ⟨s, rfl, h⟩
      · exact ⟨_, rfl, h.fresh (h.dead x hx) hg⟩
    · cases hv
  | assign x y enough =>
    simp only [HandleValues.step] at hv
    split at hv
    · rename_i q p hx hy
      cases hv
      obtain ⟨a, d, ha, hd, -⟩ := h.live x q hx
      obtain ⟨b, c, hb, hc, hg⟩ := h.live y p hy
      have hlt := h.lt ha
      have hne : a ≠ s.next := by omega
      simp only [Handles.step, Handles.alloc, Handles.free, ha, hb, hc, hd, Option.bind_eq_bind, Option.bind_some, Function.update_of_ne hne]
      cases enough
      · exact ⟨s, rfl, h⟩
      · refine ⟨_, rfl, ?_⟩
        have h1 := (h.gone ha).fresh (x := x) (by simp) hg
        simp only [Function.update_idem] at h1
        simp only
        rw [Function.update_comm hne.symm]
        exact h1
    · cases hv
  | add x e m =>
    simp only [HandleValues.step] at hv
    split at hv
    · cases hv
    · rename_i p hx
      obtain ⟨a, c, ha, hc, hg⟩ := h.live x p hx
      simp only [Handles.step, ha, hc, Option.bind_eq_bind, Option.bind_some]
      have same : ∀ c', c.addExponent e m = some c' → c'.Good p.1 (p.2 ++ [e]) →
          ∃ s', ((c.addExponent e m).bind fun c' => some (⟨s.data, Function.update s.heap a (some c'), s.next⟩ : Handles)) = some s' ∧
            s'.Inv (Function.update v x (some (p.1, p.2 ++ [e]))) := by
        intro c' h1 h2
        rw [h1]
        exact ⟨_, rfl, h.change ha (by simp [hc]) (p := (p.1, p.2 ++ [e])) h2⟩
      cases m with
      | enough =>
        cases hv
        obtain ⟨c', h1, h2⟩ := hg.addExponent_good e
        exact same c' h1 h2
      | noEntries => exact hw.elim
      | noGenerator =>
        simp only [Option.some.injEq] at hv
        subst hv
        by_cases hb : Begins p
        · rw [if_pos hb, hg.addExponent_fails hb]
          refine ⟨_, rfl, ?_⟩
          have : Function.update s.heap a (some c) = s.heap := by rw [← hc]; exact Function.update_eq_self a s.heap
          rw [this]
          exact h
        · rw [if_neg hb]
          obtain ⟨c', h1, h2⟩ := hg.addExponent_inside hb e .noGenerator
          exact same c' h1 h2
  | destroy x =>
    simp only [HandleValues.step] at hv
    split at hv
    · cases hv
    · rename_i hx
      cases hv
      obtain ⟨p, hp⟩ := Option.ne_none_iff_exists'.1 hx
      obtain ⟨a, c, ha, hc, -⟩ := h.live x p hp
      simp only [Handles.step, Handles.free, ha, hc, Option.bind_eq_bind, Option.bind_some]
      exact ⟨_, rfl, h.gone ha⟩

theorem Handles.Inv.run {s : Handles} {v v' : HandleValues} {ops : List HandleOp} (h : s.Inv v) (hw : ∀ op ∈ ops, op.Whole)
    (hv : v.run ops = some v') : ∃ s', s.run ops = some s' ∧ s'.Inv v' := by
  induction ops generalizing s v with
  | nil =>
    cases hv
    exact ⟨s, rfl, h⟩
  | cons op ops ih =>
    simp only [HandleValues.run, Handles.run, List.foldlM_cons, Option.bind_eq_bind] at hv ⊢
    obtain ⟨v1, h1, h2⟩ := Option.bind_eq_some_iff.1 hv
    obtain ⟨s1, h3, h4⟩ := h.step (hw op (by simp)) h1
    rw [h3, Option.bind_some]
    exact ih h4 (fun o ho => hw o (by simp [ho])) h2

end Frobby
