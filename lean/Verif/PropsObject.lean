import Verif.ObjectStepLemmas

/-!
# C79: the ideals inside the algorithms are values
-/

namespace Frobby

/-- What can be seen of an ideal: the number of variables, and what the pointers point to. -/
def ObjectState.seen (s : ObjectState) (x : ℕ) : Option (ℕ × List (Option (List ℕ))) :=
  (s.obj x).map fun o => (o.varCount, o.terms.map s.mem.cell)

theorem run_stepped : ∀ (ops : List ObjectOp) (s : ObjectState) (V V' : IdealValues), s.Inv → s.Agrees V → (∀ op ∈ ops, op.Safe) →
    V.run ops = some V' → Stepped (s.run ops) V'
  | [], s, V, V', hs, hV, _, h => by cases h; exact ⟨s, rfl, hs, hV⟩
  | op :: ops, s, V, V', hs, hV, hsafe, h => by
    rw [IdealValues.run, Option.bind_eq_some_iff] at h
    obtain ⟨W, h1, h2⟩ := h
    obtain ⟨s', h3, hs', hW⟩ := step_stepped hs hV op (hsafe op (by simp)) h1
    rw [ObjectState.run, h3]
    exact run_stepped ops s' W V' hs' hW (fun op h => hsafe op (by simp [h])) h2

theorem start_stepped : Stepped (some ObjectState.start) noObjects :=
  ⟨_, rfl, ⟨by simp [ObjectState.start], by simp [ObjectState.start], by simp [ObjectState.start], by simp [VectorMemory.Below, ObjectState.start]⟩,
    ⟨fun _ _ => rfl, fun _ _ h => by cases h⟩⟩

theorem run_start {ops : List ObjectOp} {V : IdealValues} (hsafe : ∀ op ∈ ops, op.Safe) (h : noObjects.run ops = some V) :
    Stepped (ObjectState.start.run ops) V := by
  obtain ⟨s, e, hs, hV⟩ := start_stepped
  cases e
  exact run_stepped ops _ _ _ hs hV hsafe h

/-- Any program with safe calls is defined on ideals with pointers where it makes sense for values, and then each ideal shows its value. -/
theorem C79_values_partial (ops : List ObjectOp) (V : IdealValues) (hsafe : ∀ op ∈ ops, op.Safe) (h : noObjects.run ops = some V) :
    ∃ s, ObjectState.start.run ops = some s ∧ ∀ x, s.seen x = (V x).map fun I => (I.1, I.2.map some) := by
  obtain ⟨s, e, hs, hV⟩ := run_start hsafe h
  refine ⟨s, e, fun x => ?_⟩
  cases hx : V x with
  | none => simp [ObjectState.seen, hV.dead x hx]
  | some I =>
    obtain ⟨o, ho, hI⟩ := hV.live x I hx
    simp [ObjectState.seen, ho, hI.count, hI.vectors]

/-- No two pointers of ideals that live are the same, and each vector in memory is owned by exactly one ideal that lives. When there are no ideals any
more, there are no vectors. -/
theorem C79_memory_partial (ops : List ObjectOp) (V : IdealValues) (hsafe : ∀ op ∈ ops, op.Safe) (h : noObjects.run ops = some V) :
    ∃ s, ObjectState.start.run ops = some s ∧
      (∀ x o, s.obj x = some o → o.terms.Nodup ∧ ∀ a ∈ o.terms, a ∈ o.owned) ∧
      (∀ a, s.mem.cell a ≠ none ↔ ∃ x o, s.obj x = some o ∧ a ∈ o.owned) ∧
      (∀ x y o o' a, s.obj x = some o → s.obj y = some o' → a ∈ o.owned → a ∈ o'.owned → x = y) ∧
      ((∀ x, V x = none) → ∀ a, s.mem.cell a = none) := by
  obtain ⟨s, e, hs, hV⟩ := run_start hsafe h
  refine ⟨s, e, fun x o ho => ⟨(hs.good x o ho).nodup, (hs.good x o ho).sub⟩, fun a => ⟨hs.kept a, ?_⟩, ?_, ?_⟩
  · rintro ⟨x, o, ho, ha⟩
    obtain ⟨v, hv, _⟩ := (hs.good x o ho).holds a ha
    rw [hv]; simp
  · intro x y o o' a hx hy ha ha'
    by_contra hne
    exact hs.apart x y o o' hne hx hy a ha ha'
  · intro hall a
    by_contra hne
    obtain ⟨x, o, ho, _⟩ := hs.kept a hne
    rw [hV.dead x (hall x)] at ho
    cases ho

/-- The tests of the specification, in terms of exponents. -/
theorem C79_divisor (u v : List ℕ) (h : u.length = v.length) : divisor u v = true ↔ ∀ i < u.length, u.getD i 0 ≤ v.getD i 0 := by
  induction u generalizing v with
  | nil => simp [divisor]
  | cons a u ih =>
    cases v with
    | nil => simp at h
    | cons b v =>
      have := ih v (by simpa using h)
      simp only [divisor, List.zip_cons_cons, List.all_cons, Bool.and_eq_true, decide_eq_true_eq] at this ⊢
      rw [this]
      constructor
      · rintro ⟨h1, h2⟩ i hi
        cases i with
        | zero => exact h1
        | succ i => exact h2 i (by simpa using hi)
      · intro h'
        exact ⟨h' 0 (by simp), fun i hi => h' (i + 1) (by simpa using hi)⟩

/-- A program with several ideals: a copy does not follow its original, and arguments can be generators of other ideals. -/
def objectExample : List ObjectOp :=
  [.create 0 2, .insert 0 (.vec [2, 1]), .insert 0 (.vec [0, 3]), .insertPower 0 0 4, .copy 1 0, .colon 0 (.gen 1 0), .insert 1 (.gen 1 1), .remove 1 0,
    .swap 0 1, .create 2 2, .insertNonMultiples 2 (.gen 1 2) 0, .assign 1 2, .product 1 (.gen 0 0), .insertReminimize 0 (.gen 2 0), .insertAll 2 2,
    .removeStrictMultiples 2 (.vec [0, 1]), .radical 0, .toZero 1 (.vec [0, 6]), .arrange 0 [2, 0], .destroy 2]

example : ∀ op ∈ objectExample, op.Safe := by simp [objectExample, ObjectOp.Safe, Operand.Outside]

example : (noObjects.run objectExample).isSome = true := by decide +kernel

example : ((noObjects.run objectExample).bind fun V => V 0) ≠ none := by decide +kernel

example : ((ObjectState.start.run objectExample).map fun s => [s.seen 0, s.seen 1, s.seen 2]) =
    (noObjects.run objectExample).map fun V => [0, 1, 2].map fun x => (V x).map fun I => (I.1, I.2.map some) := by decide +kernel

/-- Dividing an ideal by one of its own generators: the generators after it are divided by 1, as it has become 1 before (Ideal.cpp:531-535). -/
theorem C79_own_generator_witness : ∃ ops s V, ObjectState.start.run ops = some s ∧ noObjects.run ops = some V ∧
    s.seen 0 = some (2, [some [0, 0], some [3, 1]]) ∧ V 0 = some (2, [[0, 0], [1, 1]]) := by
  refine ⟨[.create 0 2, .insert 0 (.vec [2, 0]), .insert 0 (.vec [3, 1]), .colon 0 (.gen 0 0)], _, _, rfl, rfl, ?_, ?_⟩ <;> decide +kernel

/-- Multiplying an ideal by one of its own generators multiplies the generators after it by its square (Ideal.cpp:525-529). -/
theorem C79_own_product_witness : ∃ ops s V, ObjectState.start.run ops = some s ∧ noObjects.run ops = some V ∧
    s.seen 0 = some (1, [some [4], some [9]]) ∧ V 0 = some (1, [[4], [7]]) := by
  refine ⟨[.create 0 1, .insert 0 (.vec [2]), .insert 0 (.vec [5]), .product 0 (.gen 0 0)], _, _, rfl, rfl, ?_, ?_⟩ <;> decide +kernel

/-- Assigning an ideal to itself empties it (Ideal.cpp:676-681). -/
theorem C79_self_assignment_witness : ∃ ops s V, ObjectState.start.run ops = some s ∧ noObjects.run ops = some V ∧
    s.seen 0 = some (1, []) ∧ V 0 = some (1, [[2]]) := by
  refine ⟨[.create 0 1, .insert 0 (.vec [2]), .assign 0 0], _, _, rfl, rfl, ?_, ?_⟩ <;> decide +kernel

/-- Inserting those generators of an ideal into itself that are not multiples of something uses iterators that are not valid (Ideal.cpp:608-613). -/
theorem C79_self_insert_witness : ∃ ops V, ObjectState.start.run ops = none ∧ noObjects.run ops = some V := by
  exact ⟨[.create 0 1, .insert 0 (.vec [2]), .insertNonMultiples 0 (.vec [3]) 0], _, rfl, rfl⟩

end Frobby
