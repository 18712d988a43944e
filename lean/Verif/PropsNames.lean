import Verif.VarNamesLemmas

/-!
# C36: variable names stay bijective
-/

namespace Frobby

/-! ## specification: the names of a ring are a list -/

/-- What a call does if every object is just the list of its names; `none` if an index is out of range. -/
def NamesOp.spec (A : ℕ → List Text) : NamesOp → Option (Bool × (ℕ → List Text))
  | .addVar i name => if name ∈ A i then some (false, A) else some (true, Function.update A i (A i ++ [name]))
  | .clear i => some (true, Function.update A i [])
  | .default i n => some (true, Function.update A i ((List.range n).map fun k => 'x' :: decimal (k + 1)))
  | .assign i j => some (true, Function.update A i (A j))
  | .swapVariables i a b =>
    match (A i)[a]?, (A i)[b]? with
    | some s, some t => some (true, Function.update A i (((A i).set a t).set b s))
    | _, _ => none
  | .projectVar i k => if k < (A i).length then some (true, Function.update A i ((A i).eraseIdx k)) else none
  | .swap i j => some (true, Function.update (Function.update A i (A j)) j (A i))

/-- A history of calls. -/
def NamesOp.specAll : (ℕ → List Text) → List NamesOp → Option (List Bool × (ℕ → List Text))
  | A, [] => some ([], A)
  | A, op :: ops =>
    match op.spec A with
    | none => none
    | some (b, A') => (specAll A' ops).map fun r => (b :: r.1, r.2)

/-- All objects stand for their lists. -/
def WorldRep (w : NamesWorld) (A : ℕ → List Text) : Prop := ∀ i, VarNames.Rep w.next (w.objs i) (A i)

theorem WorldRep.update {w : NamesWorld} {A : ℕ → List Text} (h : WorldRep w A) {i next : ℕ} {V : VarNames} {L : List Text}
    (hV : VarNames.Rep next V L) (hn : w.next ≤ next) :
    WorldRep { objs := Function.update w.objs i V, next := next } (Function.update A i L) := by
  intro j
  by_cases hj : j = i
  · subst hj; simpa using hV
  · simpa [hj] using (h j).mono hn

theorem NamesOp.run_spec {w : NamesWorld} {A : ℕ → List Text} (h : WorldRep w A) (op : NamesOp) :
    (op.spec A = none → op.run w = none) ∧
    ∀ b A', op.spec A = some (b, A') → ∃ w', op.run w = some (b, w') ∧ WorldRep w' A' := by
  cases op with
  | addVar i name =>
    refine ⟨fun hn => by simp only [NamesOp.spec] at hn; split at hn <;> simp at hn, fun b A' he => ?_⟩
    obtain ⟨h1, h2, h3⟩ := (h i).addVar name
    have hw := h.update (i := i) h2 h3
    unfold VarNames.addName at hw
    have hrun : NamesOp.run w (.addVar i name) = some (decide (name ∉ A i),
        ⟨Function.update w.objs i ((w.objs i).addVar w.next name).2.1, ((w.objs i).addVar w.next name).2.2⟩) := by
      simp only [NamesOp.run]
      rw [h1]
    simp only [NamesOp.spec] at he
    by_cases hm : name ∈ A i
    · rw [if_pos hm] at he hw
      rw [Function.update_eq_self] at hw
      simp only [Option.some.injEq, Prod.mk.injEq] at he
      obtain ⟨rfl, rfl⟩ := he
      exact ⟨_, by rw [hrun]; simp [hm], hw⟩
    · rw [if_neg hm] at he hw
      simp only [Option.some.injEq, Prod.mk.injEq] at he
      obtain ⟨rfl, rfl⟩ := he
      exact ⟨_, by rw [hrun]; simp [hm], hw⟩
  | clear i =>
    refine ⟨fun hn => by simp [NamesOp.spec] at hn, fun b A' he => ?_⟩
    simp only [NamesOp.spec, Option.some.injEq, Prod.mk.injEq] at he
    obtain ⟨rfl, rfl⟩ := he
    exact ⟨_, rfl, h.update (VarNames.Rep.empty w.next) (le_refl _)⟩
  | default i n =>
    refine ⟨fun hn => by simp [NamesOp.spec] at hn, fun b A' he => ?_⟩
    simp only [NamesOp.spec, Option.some.injEq, Prod.mk.injEq] at he
    obtain ⟨rfl, rfl⟩ := he
    obtain ⟨h1, h2⟩ := VarNames.Rep.default w.next n
    exact ⟨_, rfl, h.update h1 h2⟩
  | assign i j =>
    refine ⟨fun hn => by simp [NamesOp.spec] at hn, fun b A' he => ?_⟩
    simp only [NamesOp.spec, Option.some.injEq, Prod.mk.injEq] at he
    obtain ⟨rfl, rfl⟩ := he
    simp only [NamesOp.run]
    by_cases hij : i = j
    · subst hij
      exact ⟨w, by simp, by simpa using h⟩
    · obtain ⟨r, h1, h2, h3⟩ := (h j).assign w.next
      exact ⟨_, by rw [if_neg hij, h1]; rfl, h.update h2 h3⟩
  | swapVariables i a b =>
    simp only [NamesOp.spec, NamesOp.run]
    by_cases hab : a < (A i).length ∧ b < (A i).length
    · obtain ⟨ha, hb⟩ := hab
      rw [List.getElem?_eq_getElem ha, List.getElem?_eq_getElem hb]
      refine ⟨fun hn => by simp at hn, fun b A' he => ?_⟩
      simp only [Option.some.injEq, Prod.mk.injEq] at he
      obtain ⟨rfl, rfl⟩ := he
      obtain ⟨V, h1, h2⟩ := (h i).swapVariables a b ha hb
      exact ⟨_, by rw [h1]; rfl, h.update h2 (le_refl _)⟩
    · rw [(h i).swapVariables_none a b hab]
      refine ⟨fun _ => rfl, fun b' A' he => ?_⟩
      split at he
      · rename_i h1 h2
        exact absurd ⟨(List.getElem?_eq_some_iff.1 h1).1, (List.getElem?_eq_some_iff.1 h2).1⟩ hab
      · simp at he
  | projectVar i k =>
    simp only [NamesOp.spec, NamesOp.run]
    by_cases hk : k < (A i).length
    · rw [if_pos hk]
      refine ⟨fun hn => by simp at hn, fun b A' he => ?_⟩
      simp only [Option.some.injEq, Prod.mk.injEq] at he
      obtain ⟨rfl, rfl⟩ := he
      obtain ⟨r, h1, h2, h3⟩ := (h i).projectVar k hk
      exact ⟨_, by rw [h1]; rfl, h.update h2 h3⟩
    · rw [if_neg hk, (h i).projectVar_none k hk]
      exact ⟨fun _ => rfl, fun b A' he => by simp at he⟩
  | swap i j =>
    refine ⟨fun hn => by simp [NamesOp.spec] at hn, fun b A' he => ?_⟩
    simp only [NamesOp.spec, Option.some.injEq, Prod.mk.injEq] at he
    obtain ⟨rfl, rfl⟩ := he
    exact ⟨_, rfl, (h.update (h j) (le_refl _)).update (h i) (le_refl _)⟩

theorem NamesOp.runAll_spec : ∀ (ops : List NamesOp) {w : NamesWorld} {A : ℕ → List Text}, WorldRep w A →
    (NamesOp.specAll A ops = none → NamesOp.runAll w ops = none) ∧
    ∀ bs A', NamesOp.specAll A ops = some (bs, A') → ∃ w', NamesOp.runAll w ops = some (bs, w') ∧ WorldRep w' A'
  | [], w, A, h => ⟨fun hn => by simp [NamesOp.specAll] at hn, fun bs A' he => by
      simp only [NamesOp.specAll, Option.some.injEq, Prod.mk.injEq] at he
      obtain ⟨rfl, rfl⟩ := he
      exact ⟨w, rfl, h⟩⟩
  | op :: ops, w, A, h => by
    obtain ⟨h1, h2⟩ := NamesOp.run_spec h op
    simp only [NamesOp.specAll, NamesOp.runAll]
    match hop : op.spec A with
    | none => rw [h1 hop]; exact ⟨fun _ => rfl, fun bs A' he => by simp at he⟩
    | some (b, A1) =>
      obtain ⟨w1, h3, h4⟩ := h2 b A1 hop
      obtain ⟨h5, h6⟩ := NamesOp.runAll_spec ops h4
      rw [h3]
      simp only
      constructor
      · intro hn
        rw [h5 (Option.map_eq_none_iff.1 hn)]
        rfl
      · intro bs A' he
        rw [Option.map_eq_some_iff] at he
        obtain ⟨⟨bs', A''⟩, he, h7⟩ := he
        simp only [Prod.mk.injEq] at h7
        obtain ⟨rfl, rfl⟩ := h7
        obtain ⟨w', h8, h9⟩ := h6 bs' A'' he
        exact ⟨w', by rw [h8]; rfl, h9⟩

theorem WorldRep.init : WorldRep .init fun _ => [] := fun _ => VarNames.Rep.empty 0

/-- C36: for any history of calls on any number of objects, the calls do what the same calls on lists of names do, with the
same returned values: `addVar` refuses a name if and only if it is there already. No pointer dangles. Afterwards lookups by
index and by name, the number of names and comparison are those of the lists, in which all names are different. -/
theorem C36_history (ops : List NamesOp) :
    (NamesOp.specAll (fun _ => []) ops = none → NamesOp.runAll .init ops = none) ∧
    ∀ bs A, NamesOp.specAll (fun _ => []) ops = some (bs, A) → ∃ w, NamesOp.runAll .init ops = some (bs, w) ∧
      ∀ i, (A i).Nodup ∧ (w.objs i).count = (A i).length ∧ (∀ k, (w.objs i).getName k = (A i)[k]?) ∧
        (∀ name, (w.objs i).getIndex name = (A i).idxOf? name) ∧
        (∀ j, (w.objs i).beq (w.objs j) = some (decide (A i = A j))) ∧
        (w.objs i).namesAreDefault w.next =
          some (decide (A i = (List.range (A i).length).map fun k => 'x' :: decimal (k + 1))) := by
  obtain ⟨h1, h2⟩ := NamesOp.runAll_spec ops WorldRep.init
  refine ⟨h1, fun bs A he => ?_⟩
  obtain ⟨w, h3, h4⟩ := h2 bs A he
  refine ⟨w, h3, fun i => ⟨(h4 i).nodup, (h4 i).count, (h4 i).getName, (h4 i).getIndex, fun j => (h4 i).beq (h4 j), ?_⟩⟩
  unfold VarNames.namesAreDefault
  rw [(h4 i).count]
  exact (h4 i).beq (VarNames.Rep.default w.next (A i).length).1

/-- C36: lookups by name and by index are inverse to each other after any history. -/
theorem C36_inverse (ops : List NamesOp) {bs : List Bool} {w : NamesWorld} (h : NamesOp.runAll .init ops = some (bs, w))
    (i k : ℕ) (name : Text) : (w.objs i).getIndex name = some k ↔ (w.objs i).getName k = some name := by
  obtain ⟨h1, h2⟩ := NamesOp.runAll_spec ops WorldRep.init
  match hs : NamesOp.specAll (fun _ => []) ops with
  | none => rw [h1 hs] at h; simp at h
  | some (bs', A) =>
    obtain ⟨w', h3, h4⟩ := h2 bs' A hs
    rw [h] at h3
    simp only [Option.some.injEq, Prod.mk.injEq] at h3
    obtain ⟨_, rfl⟩ := h3
    rw [(h4 i).getIndex, (h4 i).getName]
    constructor
    · intro he
      unfold List.idxOf? at he
      rw [List.findIdx?_eq_some_iff_getElem] at he
      obtain ⟨hk, he, _⟩ := he
      rw [List.getElem?_eq_getElem hk, (by simpa using he : (A i)[k] = name)]
    · intro he
      obtain ⟨hk, rfl⟩ := List.getElem?_eq_some_iff.1 he
      exact VarNames.idxOf?_getElem (h4 i).nodup hk

-- three names, a refused name, a swap and a projection
example : (NamesOp.runAll .init [.default 0 3, .addVar 0 ['x', '2'], .addVar 0 ['y'], .swapVariables 0 0 3, .projectVar 0 1,
    .swap 0 1]).map (fun r => (r.1, (r.2.objs 1).names)) =
    some ([true, false, true, true, true, true], some [['y'], ['x', '3'], ['x', '1']]) := by decide +kernel

end Frobby
