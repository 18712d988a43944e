import Verif.BuildModel
import Verif.Spec
import Mathlib.Data.Fin.VecNotation

/-!
# C16: building an ideal exponent by exponent
-/

namespace Frobby

variable {n : ℕ}

/-- The state after the calls `es`. -/
structure Built (b : Builder n) (es : List ℤ) : Prop where
  le : b.pos ≤ n
  count : 0 < n → es.length + (n - b.pos) = b.terms.length * n
  zero : n = 0 → b.terms.length = es.length
  val : ∀ t v, b.terms[t]?.map (fun x => x v) = if t < b.terms.length then some (es.getD (t * n + v) 0) else none

theorem setLast_spec {b : Builder n} {es : List ℤ} (h : Built b es) (hn : b.pos < n) (hne : b.terms ≠ []) (e : ℤ) :
    ∃ b', b.setLast e = some b' ∧ Built b' (es ++ [e]) := by
  obtain ⟨ts, t, hts⟩ : ∃ ts t, b.terms = ts ++ [t] := by
    obtain ⟨ts, t, h⟩ := List.eq_nil_or_concat b.terms |>.resolve_left hne
    exact ⟨ts, t, by simpa using h⟩
  unfold Builder.setLast
  rw [hts]
  simp only [List.getLast?_append, List.getLast?_singleton, Option.some_or, hn, dite_true, List.dropLast_concat]
  refine ⟨_, rfl, hn, fun h0 => ?_, fun h0 => by omega, fun t' v => ?_⟩
  · have := h.count h0
    simp only [hts, List.length_append, List.length_singleton] at this ⊢
    omega
  · have hc := h.count (by omega)
    have hv := h.val t' v
    simp only [hts, List.length_append, List.length_singleton] at hc hv ⊢
    by_cases h1 : t' < ts.length
    · rw [List.getElem?_append_left h1] at hv ⊢
      rw [hv, if_pos (by omega), if_pos (by omega)]
      have hlt : t' * n + v < es.length := by
        have : (t' + 1) * n ≤ ts.length * n := Nat.mul_le_mul_right _ (by omega)
        have hv := v.2
        rw [Nat.add_mul] at hc this
        omega
      congr 1
      rw [List.getD_eq_getElem?_getD, List.getD_eq_getElem?_getD, List.getElem?_append_left hlt]
    · by_cases h2 : t' = ts.length
      · subst h2
        rw [List.getElem?_append_right (le_refl _)] at hv ⊢
        simp only [Nat.sub_self, List.getElem?_cons_zero, Option.map_some, Nat.lt_add_one, if_true,
          Option.some.injEq] at hv ⊢
        have hes : es.length = ts.length * n + b.pos := by rw [Nat.add_mul] at hc; omega
        rw [List.getD_eq_getElem?_getD] at hv ⊢
        by_cases h3 : v = ⟨b.pos, hn⟩
        · subst h3
          rw [Function.update_self]
          simp [← hes]
        · have h4 : (v : ℕ) ≠ b.pos := fun h' => h3 (Fin.ext h')
          rw [Function.update_of_ne h3, hv]
          congr 1
          by_cases h5 : ts.length * n + v < es.length
          · rw [List.getElem?_append_left h5]
          · rw [List.getElem?_eq_none (by omega), List.getElem?_eq_none (by simp; omega)]
      · rw [if_neg (by omega), List.getElem?_eq_none (by simp; omega)]; rfl

theorem addExponent_spec {b : Builder n} {es : List ℤ} (h : Built b es) (e : ℤ) :
    ∃ b', b.addExponent e = some b' ∧ Built b' (es ++ [e]) := by
  unfold Builder.addExponent
  by_cases hp : b.pos = n
  · rw [if_pos hp]
    by_cases hn : n = 0
    · rw [if_pos hn]
      refine ⟨_, rfl, Nat.zero_le _, fun h0 => by omega, fun _ => ?_, fun t v => absurd v.2 (by omega)⟩
      have := h.zero hn
      simp only [Builder.newLastTerm, List.length_append, List.length_singleton]
      omega
    · rw [if_neg hn]
      have hc := h.count (by omega)
      refine setLast_spec (b := { b.newLastTerm with pos := 0 }) ⟨Nat.zero_le _, fun _ => ?_, fun h0 => absurd h0 hn, fun t v => ?_⟩
        (by simp only; omega) (by simp [Builder.newLastTerm]) e
      · simp only [Builder.newLastTerm, List.length_append, List.length_singleton, Nat.add_mul]
        omega
      · have hv := h.val t v
        simp only [Builder.newLastTerm, List.length_append, List.length_singleton]
        by_cases h1 : t < b.terms.length
        · rw [List.getElem?_append_left h1, hv, if_pos h1, if_pos (by omega)]
        · by_cases h2 : t = b.terms.length
          · subst h2
            rw [List.getElem?_append_right (le_refl _)]
            simp only [Nat.sub_self, List.getElem?_cons_zero, Option.map_some, Nat.lt_add_one, if_true]
            rw [List.getD_eq_getElem?_getD, List.getElem?_eq_none (by omega)]; rfl
          · rw [if_neg (by omega), List.getElem?_eq_none (by simp; omega)]; rfl
  · rw [if_neg hp]
    have hlt : b.pos < n := lt_of_le_of_ne h.le hp
    refine setLast_spec h hlt (fun h0 => ?_) e
    have := h.count (by omega)
    rw [h0] at this
    simp at this
    omega

theorem buildIdeal_spec (es : List ℤ) : ∃ b, buildIdeal n es = some b ∧ Built b es := by
  unfold buildIdeal
  induction es using List.reverseRecOn with
  | nil => exact ⟨_, rfl, le_refl _, by simp [Builder.new], by simp [Builder.new], by simp [Builder.new]⟩
  | append_singleton es e ih =>
    obtain ⟨b, h1, h2⟩ := ih
    obtain ⟨b', h3, h4⟩ := addExponent_spec h2 e
    refine ⟨b', ?_, h4⟩
    rw [List.foldlM_append, h1]
    simp [h3]

/-- C16: no history of calls is undefined behaviour, and afterwards the exponent of variable `v` of generator `t` is the
argument of call `t * n + v`, or 0 if that call has not been made; the number of generators is the number of calls
divided by `n`, rounded up. -/
theorem C16_addExponent (hn : 0 < n) (es : List ℤ) : ∃ b, buildIdeal n es = some b ∧
    b.terms.length = (es.length + n - 1) / n ∧
    ∀ t (ht : t < b.terms.length) (v : Fin n), b.terms[t] v = es.getD (t * n + v) 0 := by
  obtain ⟨b, h1, h2⟩ := buildIdeal_spec (n := n) es
  refine ⟨b, h1, ?_, fun t ht v => ?_⟩
  · have := h2.count hn
    have hle := h2.le
    symm
    by_cases h0 : b.pos = 0
    · exfalso
      -- `_atVariable` is zero only inside a call
      have hpos : ∀ es : List ℤ, ∀ b, buildIdeal n es = some b → b.pos ≠ 0 := by
        intro es
        induction es using List.reverseRecOn with
        | nil => intro b hb; simp only [buildIdeal, List.foldlM_nil] at hb; cases hb; simp [Builder.new]; omega
        | append_singleton es e ih =>
          intro b hb
          obtain ⟨b0, hb0, -⟩ := buildIdeal_spec (n := n) es
          unfold buildIdeal at hb hb0
          rw [List.foldlM_append, hb0] at hb
          have hb : b0.addExponent e = some b := by simpa using hb
          have hset : ∀ b0 : Builder n, b0.setLast e = some b → b.pos ≠ 0 := by
            intro b0 h
            unfold Builder.setLast at h
            split at h
            · cases h
            · split at h
              · cases h; simp
              · cases h
          unfold Builder.addExponent at hb
          split at hb
          · rw [if_neg (by omega)] at hb
            exact hset _ hb
          · exact hset _ hb
      exact hpos es b h1 h0
    · rw [Nat.div_eq_iff hn]
      omega
  · have := h2.val t v
    rw [if_pos ht, List.getElem?_eq_getElem ht] at this
    exact Option.some.inj this

/-- C16: in the ring with no variables every call adds a generator. -/
theorem C16_addExponent_zero (es : List ℤ) : ∃ b, buildIdeal 0 es = some b ∧ b.terms.length = es.length := by
  obtain ⟨b, h1, h2⟩ := buildIdeal_spec (n := 0) es
  exact ⟨b, h1, h2.zero rfl⟩

/-- C16: adding the exponents of the generators one after the other gives these generators. -/
theorem C16_roundtrip (hn : 0 < n) (G : List (Fin n → ℤ)) : ∃ b, buildIdeal n (G.map List.ofFn).flatten = some b ∧ b.terms = G := by
  obtain ⟨b, h1, h2, h3⟩ := C16_addExponent hn (G.map List.ofFn).flatten
  have hlen : ∀ G : List (Fin n → ℤ), ((G.map List.ofFn).flatten).length = G.length * n := by
    intro G
    induction G with
    | nil => simp
    | cons g G ih => simp only [List.map_cons, List.flatten_cons, List.length_append, ih, List.length_ofFn, List.length_cons]; rw [Nat.add_mul]; omega
  have hget : ∀ (G : List (Fin n → ℤ)) (t : ℕ) (ht : t < G.length) (v : Fin n),
      ((G.map List.ofFn).flatten).getD (t * n + v) 0 = G[t] v := by
    intro G
    induction G with
    | nil => intro t ht; simp at ht
    | cons g G ih =>
      intro t ht v
      simp only [List.map_cons, List.flatten_cons]
      rw [List.getD_eq_getElem?_getD]
      cases t with
      | zero =>
        rw [List.getElem?_append_left (by simp)]
        simp
      | succ t =>
        rw [List.getElem?_append_right (by simp; rw [Nat.add_mul]; omega)]
        have : (t + 1) * n + v - (List.ofFn g).length = t * n + v := by
          rw [List.length_ofFn, Nat.add_mul]; omega
        rw [this, ← List.getD_eq_getElem?_getD, ih t (by simpa using ht)]
        simp
  refine ⟨b, h1, List.ext_getElem ?_ fun t h4 h5 => ?_⟩
  · rw [h2, hlen, Nat.div_eq_iff hn]; omega
  · funext v
    rw [h3 t h4 v, hget G t h5 v]

/-- Five calls with three variables: one generator is complete, the second has its last exponent still zero. -/
example : ∃ b, buildIdeal 3 [1, 2, 0, 4, 7] = some b ∧ b.terms = [![1, 2, 0], ![4, 7, 0]] := ⟨_, rfl, by decide⟩

example : ∃ b, buildIdeal 0 [5, 0] = some b ∧ b.terms.length = 2 := ⟨_, rfl, rfl⟩

end Frobby
