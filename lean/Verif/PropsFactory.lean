import Verif.FactoryModel
import Verif.OrderLemmas

/-!
# Properties of the lookup of names by prefix: C33
-/

namespace Frobby

variable {α : Type}

theorem sortTexts_perm (l : List Text) : (sortTexts l).Perm l := List.perm_insertionSort _ l

theorem sortTexts_sorted (l : List Text) : (sortTexts l).Pairwise fun a b => textLess b a = false := by
  have : Std.Total fun a b => textLess b a = false := ⟨fun a b => by
    cases hab : textLess b a with
    | false => exact .inl rfl
    | true => exact .inr (negOn_text.asymm b a trivial trivial hab)⟩
  have : IsTrans Text fun a b => textLess b a = false := ⟨fun a b c hab hbc => by
    rw [Bool.eq_false_iff]
    intro hca
    rcases negOn_text.neg c b a trivial trivial trivial hca with h1 | h1
    · rw [hbc] at h1; simp at h1
    · rw [hab] at h1; simp at h1⟩
  exact List.pairwise_insertionSort _ l

theorem sortTexts_congr {l m : List Text} (h : l.Perm m) : sortTexts l = sortTexts m := by
  have := map_eq_of_sorted negOn_text (f := id) (fun a b => totalOn_text a b trivial trivial) (sortTexts l) (sortTexts m)
    (by rw [List.map_id, List.map_id]; exact (sortTexts_perm l).trans (h.trans (sortTexts_perm m).symm))
    (fun a b hab => by rw [show a = b from hab]; exact negOn_text.irrefl b trivial) (sortTexts_sorted l) (sortTexts_sorted m)
  simpa using this

theorem comparesPrefix_iff (pre name : Text) : comparesPrefix pre name = true ↔ pre <+: name := by
  unfold comparesPrefix
  rw [decide_eq_true_eq, List.prefix_iff_eq_take, eq_comm]

/-- The registered names that start with the prefix, in the order of registration. -/
def Factory.extensions (f : Factory α) (pre : Text) : List Text := (f.map Prod.fst).filter fun x => pre.isPrefixOf x

theorem namesWithPrefix_eq (f : Factory α) (pre : Text) : f.namesWithPrefix pre = sortTexts (f.extensions pre) := by
  unfold Factory.namesWithPrefix Factory.extensions
  rw [List.filter_map]
  congr 2
  refine List.filter_congr fun p _ => ?_
  rw [Bool.eq_iff_iff, comparesPrefix_iff]
  simp

theorem mem_extensions {f : Factory α} {pre x : Text} : x ∈ f.extensions pre ↔ x ∈ f.map Prod.fst ∧ pre <+: x := by
  unfold Factory.extensions
  simp

theorem pre_mem_names {f : Factory α} {pre : Text} : pre ∈ f.namesWithPrefix pre ↔ pre ∈ f.map Prod.fst := by
  rw [namesWithPrefix_eq, (sortTexts_perm _).mem_iff, mem_extensions]
  simp

/-- C33: the lookup gives the prefix itself if it is a name, and otherwise the only registered name that starts with the
prefix. -/
theorem C33_found (f : Factory α) (pre x : Text) : f.uniqueName pre = .ok x ↔
    (pre ∈ f.map Prod.fst ∧ x = pre) ∨ (pre ∉ f.map Prod.fst ∧ f.extensions pre = [x]) := by
  unfold Factory.uniqueName
  simp only [pre_mem_names]
  by_cases h : pre ∈ f.map Prod.fst
  · simp [h, eq_comm]
  · simp only [h, if_false, false_and, not_false_eq_true, true_and, false_or]
    rw [namesWithPrefix_eq]
    have hp := sortTexts_perm (f.extensions pre)
    constructor
    · intro h1
      split at h1
      · simp at h1
      · rename_i y hy
        rw [hy] at hp
        simp only [Except.ok.injEq] at h1
        subst h1
        exact List.perm_singleton.1 hp.symm
      · simp at h1
    · intro h1
      rw [h1] at hp ⊢
      rw [List.perm_singleton.1 hp]

/-- C33: the lookup fails with an unknown name exactly if no registered name starts with the prefix. -/
theorem C33_unknown (f : Factory α) (pre : Text) :
    f.uniqueName pre = .error .unknown ↔ ∀ x ∈ f.map Prod.fst, ¬ pre <+: x := by
  unfold Factory.uniqueName
  simp only [pre_mem_names]
  by_cases h : pre ∈ f.map Prod.fst
  · simp only [h, if_true]
    constructor
    · intro h1; simp at h1
    · intro h1; exact absurd (List.prefix_refl pre) (h1 pre h)
  · simp only [h, if_false]
    rw [namesWithPrefix_eq]
    have hp := sortTexts_perm (f.extensions pre)
    have he : (∀ x ∈ f.map Prod.fst, ¬ pre <+: x) ↔ sortTexts (f.extensions pre) = [] := by
      rw [List.eq_nil_iff_forall_not_mem]
      simp only [hp.mem_iff, mem_extensions, not_and]
    rw [he]
    constructor
    · intro h1
      split at h1
      · assumption
      · simp at h1
      · simp at h1
    · intro h1
      rw [h1]

/-- C33: the lookup fails as ambiguous exactly if the prefix is not a name and there are two registrations of a name that
starts with it. The error has all these names, sorted. -/
theorem C33_ambiguous (f : Factory α) (pre : Text) (names : List Text) :
    f.uniqueName pre = .error (.ambiguous names) ↔ pre ∉ f.map Prod.fst ∧ 2 ≤ (f.extensions pre).length ∧
      names.Perm (f.extensions pre) ∧ names.Pairwise fun a b => textLess b a = false := by
  unfold Factory.uniqueName
  simp only [pre_mem_names]
  by_cases h : pre ∈ f.map Prod.fst
  · simp [h]
  · simp only [h, if_false, not_false_eq_true, true_and]
    rw [namesWithPrefix_eq]
    have hp := sortTexts_perm (f.extensions pre)
    constructor
    · intro h1
      split at h1
      · simp at h1
      · simp at h1
      · rename_i h2 h3
        simp only [Except.error.injEq, LookupError.ambiguous.injEq] at h1
        subst h1
        refine ⟨?_, hp, sortTexts_sorted _⟩
        rw [← hp.length_eq]
        match sortTexts (f.extensions pre), h2, h3 with
        | [], h2, _ => exact (h2 rfl).elim
        | [x], _, h3 => exact (h3 x rfl).elim
        | _ :: _ :: _, _, _ => simp
    · rintro ⟨h1, h2, h3⟩
      have hn : sortTexts (f.extensions pre) = names := by
        have := map_eq_of_sorted negOn_text (f := id) (fun a b => totalOn_text a b trivial trivial)
          (sortTexts (f.extensions pre)) names (by rw [List.map_id, List.map_id]; exact hp.trans h2.symm)
          (fun a b hab => by rw [show a = b from hab]; exact negOn_text.irrefl b trivial) (sortTexts_sorted _) h3
        simpa using this
      rw [hn]
      have hlen : 2 ≤ names.length := by rw [h2.length_eq]; exact h1
      match names, hlen with
      | _ :: _ :: _, _ => rfl

/-- C33: the outcome of the lookup does not depend on the order of registration. -/
theorem C33_order {f g : Factory α} (h : f.Perm g) (pre : Text) : f.uniqueName pre = g.uniqueName pre := by
  have he : (f.extensions pre).Perm (g.extensions pre) := (h.map Prod.fst).filter _
  unfold Factory.uniqueName
  rw [namesWithPrefix_eq, namesWithPrefix_eq, sortTexts_congr he]

/-- C33: if the lookup succeeds then creation gives a product that was registered with the name that was found, so that the
pointer is not null. -/
theorem C33_create (f : Factory α) (pre x : Text) (h : f.uniqueName pre = .ok x) :
    ∃ a, f.createWithPrefix pre = .ok (some a) ∧ f.create x = .ok a ∧ (x, a) ∈ f := by
  have hx : x ∈ f.map Prod.fst := by
    rcases (C33_found f pre x).1 h with ⟨h1, rfl⟩ | ⟨_, h1⟩
    · exact h1
    · exact (mem_extensions.1 (h1 ▸ List.mem_singleton_self x : x ∈ f.extensions pre)).1
  have key : ∀ g : Factory α, x ∈ g.map Prod.fst → ∃ a, g.createNoThrow x = some a ∧ (x, a) ∈ g := by
    intro g
    induction g with
    | nil => simp
    | cons p g ih =>
      intro hm
      rw [Factory.createNoThrow]
      by_cases hp : p.1 = x
      · exact ⟨p.2, by simp [hp], by rw [← hp]; simp⟩
      · rw [if_neg hp]
        obtain ⟨a, h1, h2⟩ := ih (by
          rw [List.map_cons, List.mem_cons] at hm
          exact hm.resolve_left fun h => hp h.symm)
        exact ⟨a, h1, List.mem_cons_of_mem _ h2⟩
  obtain ⟨a, h1, h2⟩ := key f hx
  refine ⟨a, ?_, ?_, h2⟩
  · unfold Factory.createWithPrefix
    rw [h]
    exact congrArg _ h1
  · unfold Factory.create
    rw [h1]

/-- C33: with different names, what is created does not depend on the order of registration either. -/
theorem C33_create_order {f g : Factory α} (h : f.Perm g) (hn : (f.map Prod.fst).Nodup) (pre : Text) :
    f.createWithPrefix pre = g.createWithPrefix pre := by
  unfold Factory.createWithPrefix
  rw [← C33_order h]
  cases hu : f.uniqueName pre with
  | error e => rfl
  | ok x =>
    obtain ⟨a, h1, _, h2⟩ := C33_create f pre x hu
    obtain ⟨b, h3, _, h4⟩ := C33_create g pre x (by rw [← C33_order h]; exact hu)
    unfold Factory.createWithPrefix at h1 h3
    rw [hu] at h1
    rw [← C33_order h, hu] at h3
    rw [h1, h3]
    have h5 : (x, b) ∈ f := h.mem_iff.2 h4
    have : a = b := by
      have hinj := List.inj_on_of_nodup_map hn h2 h5 rfl
      exact (Prod.mk.inj hinj).2
    rw [this]

/-! ## examples -/

/-- The names of the formats (IOHandler.cpp:129-143). -/
def formatNames : Factory ℕ :=
  [("m2".toList, 0), ("cocoa4".toList, 1), ("singular".toList, 2), ("monos".toList, 3), ("newmonos".toList, 4),
    ("4ti2".toList, 5), ("null".toList, 6), ("count".toList, 7)]

/-- C33: an exact name, a prefix with one extension, an unknown and an ambiguous prefix. -/
example : formatNames.createWithPrefix "m2".toList = .ok (some 0) ∧ formatNames.createWithPrefix "co".toList =
      .error (.ambiguous ["cocoa4".toList, "count".toList]) ∧ formatNames.createWithPrefix "ne".toList = .ok (some 4) ∧
    formatNames.createWithPrefix "x".toList = .error .unknown ∧ (formatNames.map Prod.fst).Nodup := by
  decide +kernel

/-- C33: a name that is a prefix of another one is found. -/
example : Factory.uniqueName [("alexdual".toList, 0), ("alex".toList, 1)] "alex".toList = .ok "alex".toList := by
  decide +kernel

end Frobby
