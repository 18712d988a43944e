import Verif.ScarfModel
import Verif.BigattiScarf
import Mathlib.Data.List.Nodup
import Mathlib.Data.List.Perm.Subperm

/-!
# Lemmas about `Deformer`
-/

namespace Frobby

open Term

variable {n k : ℕ}

theorem setExp_self (gens : Fin k → Term n) (i : Fin k) (v : Fin n) (e : ℕ) : setExp gens i v e i v = e := by
  simp [setExp]

theorem setExp_var (gens : Fin k → Term n) (i j : Fin k) {v w : Fin n} (e : ℕ) (h : w ≠ v) : setExp gens i v e j w = gens j w := by
  unfold setExp
  by_cases hj : j = i
  · subst hj; simp [Function.update_of_ne h]
  · rw [Function.update_of_ne hj]

theorem setExp_gen (gens : Fin k → Term n) {i j : Fin k} (v : Fin n) (e : ℕ) (h : j ≠ i) : setExp gens i v e j = gens j := by
  unfold setExp
  rw [Function.update_of_ne h]

/-- The state while the variable `v` is deformed: the positions in `P` have been given their new exponents, and the exponents
in `undeform` are at most `B`. -/
structure DefInv (g0 : Fin k → Term n) (v : Fin n) (P : Fin k → Prop) (B : ℕ) (s : DState n k) : Prop where
  other : ∀ i w, w ≠ v → s.gens i w = g0 i w
  todo : ∀ i, ¬ P i → s.gens i v = g0 i v
  ret : ∀ i, P i → s.und[s.gens i v]? = some (g0 i v)
  zero : s.und[0]? = some 0
  mono : s.und.Pairwise (· ≤ ·)
  bound : ∀ x ∈ s.und, x ≤ B
  pos : ∀ j x, s.und[j + 1]? = some x → 0 < x

variable {g0 : Fin k → Term n} {v : Fin n} {P : Fin k → Prop} {B e : ℕ} {s : DState n k}

theorem DefInv.lt (h : DefInv g0 v P B s) {i : Fin k} (hi : P i) : s.gens i v < s.und.length := by
  have := h.ret i hi
  by_contra hc
  rw [List.getElem?_eq_none (by omega)] at this
  simp at this

theorem DefInv.congr {Q : Fin k → Prop} (h : DefInv g0 v P B s) (hPQ : ∀ i, P i ↔ Q i) : DefInv g0 v Q B s :=
  ⟨h.other, fun i hi => h.todo i fun hp => hi ((hPQ i).1 hp), fun i hi => h.ret i ((hPQ i).2 hi), h.zero, h.mono, h.bound, h.pos⟩

theorem DefInv.fresh (h : DefInv g0 v P B s) {i : Fin k} (hi : ¬ P i) (he : g0 i v = e) (hB : B ≤ e) (hpos : 0 < e) :
    DefInv g0 v (fun j => P j ∨ j = i) e (s.fresh v i) := by
  have hv : s.gens i v = e := (h.todo i hi).trans he
  have hlen : 0 < s.und.length := by
    by_contra hc
    have := h.zero
    rw [List.getElem?_eq_none (by omega)] at this
    simp at this
  refine ⟨fun j w hw => ?_, fun j hj => ?_, fun j hj => ?_, ?_, ?_, ?_, ?_⟩
  · rw [DState.fresh]
    simp only [setExp_var _ _ _ _ hw]
    exact h.other j w hw
  · simp only [not_or] at hj
    simp only [DState.fresh, setExp_gen _ _ _ hj.2]
    exact h.todo j hj.1
  · by_cases hji : j = i
    · subst hji
      simp only [DState.fresh, setExp_self]
      rw [List.getElem?_append_right (le_refl _)]
      simp [hv, he]
    · have hp : P j := by tauto
      simp only [DState.fresh, setExp_gen _ _ _ hji]
      rw [List.getElem?_append_left (h.lt hp)]
      exact h.ret j hp
  · simp only [DState.fresh]
    rw [List.getElem?_append_left hlen]
    exact h.zero
  · simp only [DState.fresh]
    rw [List.pairwise_append]
    refine ⟨h.mono, by simp, fun a ha b hb => ?_⟩
    rw [List.mem_singleton] at hb
    rw [hb, hv]
    exact (h.bound a ha).trans hB
  · intro x hx
    simp only [DState.fresh] at hx
    rcases List.mem_append.1 hx with hx | hx
    · exact (h.bound x hx).trans hB
    · rw [List.mem_singleton] at hx
      rw [hx, hv]
  · intro j x hx
    simp only [DState.fresh] at hx
    by_cases hj : j + 1 < s.und.length
    · rw [List.getElem?_append_left hj] at hx
      exact h.pos j x hx
    · rw [List.getElem?_append_right (by omega)] at hx
      rcases Nat.eq_zero_or_pos (j + 1 - s.und.length) with h0 | h0
      · rw [h0] at hx
        simp only [List.getElem?_cons_zero, Option.some.injEq] at hx
        omega
      · rw [List.getElem?_eq_none (by simp; omega)] at hx
        simp at hx

theorem DefInv.share (h : DefInv g0 v P B s) {i : Fin k} (hi : ¬ P i) (he : g0 i v = e) {sh : ℕ} (hsh : s.und[sh]? = some e) :
    DefInv g0 v (fun j => P j ∨ j = i) B (s.share v sh i) := by
  refine ⟨fun j w hw => ?_, fun j hj => ?_, fun j hj => ?_, h.zero, h.mono, h.bound, h.pos⟩
  · rw [DState.share]
    simp only [setExp_var _ _ _ _ hw]
    exact h.other j w hw
  · simp only [not_or] at hj
    simp only [DState.share, setExp_gen _ _ _ hj.2]
    exact h.todo j hj.1
  · by_cases hji : j = i
    · subst hji
      simp only [DState.share, setExp_self]
      rw [hsh, he]
    · have hp : P j := by tauto
      simp only [DState.share, setExp_gen _ _ _ hji]
      exact h.ret j hp

theorem DefInv.push (h : DefInv g0 v P B s) (hB : B ≤ e) (hpos : 0 < e) : DefInv g0 v P e ⟨s.gens, s.und ++ [e]⟩ := by
  have hlen : 0 < s.und.length := by
    by_contra hc
    have := h.zero
    rw [List.getElem?_eq_none (by omega)] at this
    simp at this
  refine ⟨h.other, h.todo, fun j hj => ?_, ?_, ?_, ?_, ?_⟩
  · simp only
    rw [List.getElem?_append_left (h.lt hj)]
    exact h.ret j hj
  · simp only
    rw [List.getElem?_append_left hlen]
    exact h.zero
  · rw [List.pairwise_append]
    refine ⟨h.mono, by simp, fun a ha b hb => ?_⟩
    rw [List.mem_singleton] at hb
    rw [hb]
    exact (h.bound a ha).trans hB
  · intro x hx
    rcases List.mem_append.1 hx with hx | hx
    · exact (h.bound x hx).trans hB
    · rw [List.mem_singleton] at hx
      rw [hx]
  · intro j x hx
    simp only at hx
    by_cases hj : j + 1 < s.und.length
    · rw [List.getElem?_append_left hj] at hx
      exact h.pos j x hx
    · rw [List.getElem?_append_right (by omega)] at hx
      rcases Nat.eq_zero_or_pos (j + 1 - s.und.length) with h0 | h0
      · rw [h0] at hx
        simp only [List.getElem?_cons_zero, Option.some.injEq] at hx
        omega
      · rw [List.getElem?_eq_none (by simp; omega)] at hx
        simp at hx

/-! ## the strong case -/

/-- The new exponents are different. -/
def InjInv (v : Fin n) (P : Fin k → Prop) (s : DState n k) : Prop := ∀ i j, P i → P j → s.gens i v = s.gens j v → i = j

theorem strongLoop_spec : ∀ (bl : List (Fin k)) {P : Fin k → Prop} {B : ℕ} {s : DState n k}, DefInv g0 v P B s →
    bl.Nodup → (∀ i ∈ bl, ¬ P i ∧ g0 i v = e) → B ≤ e → 0 < e →
    DefInv g0 v (fun i => P i ∨ i ∈ bl) e (bl.foldl (DState.fresh v) s) ∧
      (InjInv v P s → InjInv v (fun i => P i ∨ i ∈ bl) (bl.foldl (DState.fresh v) s)) := by
  intro bl
  induction bl with
  | nil =>
    intro P B s h _ _ hB _
    refine ⟨?_, fun hi => by simpa using hi⟩
    have : DefInv g0 v P e s := ⟨h.other, h.todo, h.ret, h.zero, h.mono, fun x hx => (h.bound x hx).trans hB, h.pos⟩
    simpa using this
  | cons i bl ih =>
    intro P B s h hnd hbl hB hpos
    rw [List.nodup_cons] at hnd
    obtain ⟨hi, hie⟩ := hbl i (by simp)
    have h1 := h.fresh hi hie hB hpos
    have h2 : InjInv v P s → InjInv v (fun j => P j ∨ j = i) (s.fresh v i) := by
      intro hinj a b ha hb hab
      by_cases hai : a = i
      · by_cases hbi : b = i
        · rw [hai, hbi]
        · have hpb : P b := by tauto
          subst hai
          simp only [DState.fresh, setExp_self, setExp_gen _ _ _ hbi] at hab
          have := h.lt hpb
          omega
      · by_cases hbi : b = i
        · have hpa : P a := by tauto
          subst hbi
          simp only [DState.fresh, setExp_self, setExp_gen _ _ _ hai] at hab
          have := h.lt hpa
          omega
        · simp only [DState.fresh, setExp_gen _ _ _ hai, setExp_gen _ _ _ hbi] at hab
          exact hinj a b (by tauto) (by tauto) hab
    obtain ⟨h3, h4⟩ := ih h1 hnd.2 (fun j hj => ⟨by
      rintro (hc | hc)
      · exact (hbl j (by simp [hj])).1 hc
      · exact hnd.1 (hc ▸ hj), (hbl j (by simp [hj])).2⟩) (le_refl e) hpos
    rw [List.foldl_cons]
    have heq : ∀ j, ((P j ∨ j = i) ∨ j ∈ bl) ↔ (P j ∨ j ∈ i :: bl) := by intro j; simp only [List.mem_cons]; tauto
    exact ⟨h3.congr heq, fun hinj a b ha hb => h4 (h2 hinj) a b ((heq a).2 ha) ((heq b).2 hb)⟩

/-! ## the weak case -/

/-- Two generators with the same new exponent have a generator, with its final exponent, strictly dividing their lcm. -/
def WeakInv (g0 : Fin k → Term n) (v : Fin n) (P : Fin k → Prop) (s : DState n k) : Prop :=
  ∀ i j, P i → P j → i ≠ j → s.gens i v = s.gens j v →
    ∃ c, (P c ∨ g0 c v = 0) ∧ ∀ w, s.gens c w < max (s.gens i w) (s.gens j w) ∨ s.gens c w = 0

/-- A generator that was given the shared exponent will be able to share with each generator left. -/
def Pending (g0 : Fin k → Term n) (v : Fin n) (P : Fin k → Prop) (sh : ℕ) (rest : List (Fin k)) (s : DState n k) : Prop :=
  ∀ i, P i → s.gens i v = sh → ∀ j ∈ rest, ∃ c, (P c ∨ g0 c v = 0) ∧ s.gens c v < sh ∧
    ∀ w, w ≠ v → s.gens c w < max (s.gens i w) (s.gens j w) ∨ s.gens c w = 0

theorem weakLoop_spec {sh : ℕ} : ∀ (bl : List (Fin k)) {P : Fin k → Prop} {s : DState n k}, DefInv g0 v P e s →
    WeakInv g0 v P s → Pending g0 v P sh bl s → bl.Nodup → (∀ i ∈ bl, ¬ P i ∧ g0 i v = e) → 0 < e → s.und[sh]? = some e →
    e ≤ sh → (∀ i, 0 < g0 i v → g0 i v < e → P i) →
    DefInv g0 v (fun i => P i ∨ i ∈ bl) e (weakLoop v sh s bl) ∧ WeakInv g0 v (fun i => P i ∨ i ∈ bl) (weakLoop v sh s bl) := by
  intro bl
  induction bl with
  | nil =>
    intro P s h hw _ _ _ _ _ _ _
    have heq : ∀ j, P j ↔ (P j ∨ j ∈ ([] : List (Fin k))) := by simp
    refine ⟨h.congr heq, ?_⟩
    have : (fun j => P j ∨ j ∈ ([] : List (Fin k))) = P := funext fun j => propext (heq j).symm
    rw [this]
    exact hw
  | cons i bl ih =>
    intro P s h hw hp hnd hbl hpos hsh hge hlow
    rw [List.nodup_cons] at hnd
    obtain ⟨hi, hie⟩ := hbl i (by simp)
    have heq : ∀ j, ((P j ∨ j = i) ∨ j ∈ bl) ↔ (P j ∨ j ∈ i :: bl) := by intro j; simp only [List.mem_cons]; tauto
    have heq' : (fun j => (P j ∨ j = i) ∨ j ∈ bl) = fun j => P j ∨ j ∈ i :: bl := funext fun j => propext (heq j)
    have hbl' : ∀ j ∈ bl, ¬ (P j ∨ j = i) ∧ g0 j v = e := fun j hj => ⟨by
      rintro (hc | hc)
      · exact (hbl j (by simp [hj])).1 hc
      · exact hnd.1 (hc ▸ hj), (hbl j (by simp [hj])).2⟩
    have hci : ∀ c, (P c ∨ g0 c v = 0) → c ≠ i := by
      rintro c (hc | hc) rfl
      · exact hi hc
      · omega
    have hshlt : sh < s.und.length := by
      by_contra hc
      rw [List.getElem?_eq_none (by omega)] at hsh
      simp at hsh
    unfold weakLoop
    split
    · rename_i hcond
      rw [List.all_eq_true] at hcond
      have h1 := h.share (sh := sh) hi hie hsh
      rw [← heq']
      refine ih h1 ?_ ?_ hnd.2 hbl' hpos hsh hge (fun j h2 h3 => Or.inl (hlow j h2 h3))
      · intro a b ha hb hab hv
        have key : ∀ a, P a → s.gens a v = sh → ∃ c, ((P c ∨ c = i) ∨ g0 c v = 0) ∧
            ∀ w, (s.share v sh i).gens c w < max ((s.share v sh i).gens a w) ((s.share v sh i).gens i w) ∨
              (s.share v sh i).gens c w = 0 := by
          intro a ha hv
          have hai : a ≠ i := fun h => hi (h ▸ ha)
          obtain ⟨c, hc1, hc2, hc3⟩ := hp a ha hv i (by simp)
          refine ⟨c, hc1.imp_left Or.inl, fun w => ?_⟩
          simp only [DState.share, setExp_gen _ _ _ (hci c hc1), setExp_gen _ _ _ hai]
          by_cases hwv : w = v
          · subst hwv
            left
            rw [hv, setExp_self]
            omega
          · rw [setExp_var _ _ _ _ hwv]
            exact hc3 w hwv
        by_cases hai : a = i
        · subst hai
          have hba : b ≠ a := fun h => hab h.symm
          have hpb : P b := by tauto
          simp only [DState.share, setExp_self, setExp_gen _ _ _ hba] at hv
          obtain ⟨c, hc1, hc2⟩ := key b hpb hv.symm
          refine ⟨c, hc1, fun w => ?_⟩
          rw [max_comm]
          exact hc2 w
        · have hpa : P a := by tauto
          by_cases hbi : b = i
          · subst hbi
            simp only [DState.share, setExp_self, setExp_gen _ _ _ hai] at hv
            exact key a hpa hv
          · have hpb : P b := by tauto
            simp only [DState.share, setExp_gen _ _ _ hai, setExp_gen _ _ _ hbi] at hv
            obtain ⟨c, hc1, hc2⟩ := hw a b hpa hpb hab hv
            refine ⟨c, hc1.imp_left Or.inl, fun w => ?_⟩
            simp only [DState.share, setExp_gen _ _ _ (hci c hc1), setExp_gen _ _ _ hai, setExp_gen _ _ _ hbi]
            exact hc2 w
      · intro a ha hv j hj
        have hji : j ≠ i := fun h => hnd.1 (h ▸ hj)
        by_cases hai : a = i
        · subst hai
          have hj1 := hbl' j hj
          have hcj := hcond j hj
          rw [strictlyContains_iff] at hcj
          obtain ⟨g, hg, hsd⟩ := hcj
          rw [List.mem_ofFn] at hg
          obtain ⟨c, rfl⟩ := hg
          have hva : s.gens a v = e := (h.todo a hi).trans hie
          have hvj : s.gens j v = e := (h.todo j (fun hc => hj1.1 (Or.inl hc))).trans hj1.2
          have hcv : s.gens c v < e := by
            rcases hsd.1 v with h2 | h2
            · simp only [Pi.sup_apply, hva, hvj, max_self] at h2; exact h2
            · omega
          have hcP : P c ∨ g0 c v = 0 := by
            by_cases hPc : P c
            · exact Or.inl hPc
            · have := h.todo c hPc
              rcases Nat.eq_zero_or_pos (g0 c v) with h0 | h0
              · exact Or.inr h0
              · exact Or.inl (hlow c h0 (by omega))
          refine ⟨c, hcP.imp_left Or.inl, ?_, fun w hwv => ?_⟩
          · simp only [DState.share, setExp_gen _ _ _ (hci c hcP)]
            omega
          · simp only [DState.share, setExp_var _ _ _ _ hwv]
            rcases hsd.1 w with h2 | h2
            · left; simpa using h2
            · right; exact h2
        · have hpa : P a := by tauto
          simp only [DState.share, setExp_gen _ _ _ hai] at hv
          obtain ⟨c, hc1, hc2, hc3⟩ := hp a hpa hv j (by simp [hj])
          refine ⟨c, hc1.imp_left Or.inl, ?_, fun w hwv => ?_⟩
          · simp only [DState.share, setExp_gen _ _ _ (hci c hc1)]
            exact hc2
          · simp only [DState.share, setExp_var _ _ _ _ hwv]
            exact hc3 w hwv
    · have h1 := h.fresh hi hie (le_refl e) hpos
      rw [← heq']
      refine ih h1 ?_ ?_ hnd.2 hbl' hpos ?_ hge (fun j h2 h3 => Or.inl (hlow j h2 h3))
      · intro a b ha hb hab hv
        by_cases hai : a = i
        · subst hai
          have hba : b ≠ a := fun h => hab h.symm
          have hpb : P b := by tauto
          simp only [DState.fresh, setExp_self, setExp_gen _ _ _ hba] at hv
          have := h.lt hpb
          omega
        · have hpa : P a := by tauto
          by_cases hbi : b = i
          · subst hbi
            simp only [DState.fresh, setExp_self, setExp_gen _ _ _ hai] at hv
            have := h.lt hpa
            omega
          · have hpb : P b := by tauto
            simp only [DState.fresh, setExp_gen _ _ _ hai, setExp_gen _ _ _ hbi] at hv
            obtain ⟨c, hc1, hc2⟩ := hw a b hpa hpb hab hv
            refine ⟨c, hc1.imp_left Or.inl, fun w => ?_⟩
            simp only [DState.fresh, setExp_gen _ _ _ (hci c hc1), setExp_gen _ _ _ hai, setExp_gen _ _ _ hbi]
            exact hc2 w
      · intro a ha hv j hj
        by_cases hai : a = i
        · subst hai
          simp only [DState.fresh, setExp_self] at hv
          omega
        · have hpa : P a := by tauto
          simp only [DState.fresh, setExp_gen _ _ _ hai] at hv
          obtain ⟨c, hc1, hc2, hc3⟩ := hp a hpa hv j (by simp [hj])
          refine ⟨c, hc1.imp_left Or.inl, ?_, fun w hwv => ?_⟩
          · simp only [DState.fresh, setExp_gen _ _ _ (hci c hc1)]
            exact hc2
          · simp only [DState.fresh, setExp_var _ _ _ _ hwv]
            exact hc3 w hwv
      · simp only [DState.fresh]
        rw [List.getElem?_append_left hshlt]
        exact hsh

/-- The weak loop without anything about the generators in between. -/
theorem weakLoop_inv {sh : ℕ} : ∀ (bl : List (Fin k)) {P : Fin k → Prop} {s : DState n k}, DefInv g0 v P e s →
    bl.Nodup → (∀ i ∈ bl, ¬ P i ∧ g0 i v = e) → 0 < e → s.und[sh]? = some e →
    DefInv g0 v (fun i => P i ∨ i ∈ bl) e (weakLoop v sh s bl) := by
  intro bl
  induction bl with
  | nil =>
    intro P s h _ _ _ _
    exact h.congr (by simp)
  | cons i bl ih =>
    intro P s h hnd hbl hpos hsh
    rw [List.nodup_cons] at hnd
    obtain ⟨hi, hie⟩ := hbl i (by simp)
    have heq : ∀ j, ((P j ∨ j = i) ∨ j ∈ bl) ↔ (P j ∨ j ∈ i :: bl) := by intro j; simp only [List.mem_cons]; tauto
    have hbl' : ∀ j ∈ bl, ¬ (P j ∨ j = i) ∧ g0 j v = e := fun j hj => ⟨by
      rintro (hc | hc)
      · exact (hbl j (by simp [hj])).1 hc
      · exact hnd.1 (hc ▸ hj), (hbl j (by simp [hj])).2⟩
    have hshlt : sh < s.und.length := by
      by_contra hc
      rw [List.getElem?_eq_none (by omega)] at hsh
      simp at hsh
    unfold weakLoop
    split
    · exact (ih (h.share (sh := sh) hi hie hsh) hnd.2 hbl' hpos hsh).congr heq
    · refine (ih (h.fresh hi hie (le_refl e) hpos) hnd.2 hbl' hpos ?_).congr heq
      simp only [DState.fresh]
      rw [List.getElem?_append_left hshlt]
      exact hsh

/-- Every smaller positive exponent is the exponent of a generator. -/
def NoGap (g0 : Fin k → Term n) (v : Fin n) : Prop := ∀ i e, 0 < e → e ≤ g0 i v → ∃ j, g0 j v = e

theorem le_length_und (h : DefInv g0 v P B s) (hg : NoGap g0 v) {i : Fin k} (hi : g0 i v = e)
    (hlow : ∀ i, 0 < g0 i v → g0 i v < e → P i) : e ≤ s.und.length := by
  have hsub : List.range e ⊆ s.und := by
    intro x hx
    rw [List.mem_range] at hx
    rcases Nat.eq_zero_or_pos x with rfl | hx0
    · exact List.mem_of_getElem? h.zero
    · obtain ⟨j, rfl⟩ := hg i x hx0 (by omega)
      exact List.mem_of_getElem? (h.ret j (hlow j hx0 hx))
  have := (List.nodup_range.subperm hsub).length_le
  simpa using this

theorem mem_expBlock {i : Fin k} : i ∈ expBlock g0 v e ↔ g0 i v = e := by simp [expBlock]

theorem expBlock_nodup (g0 : Fin k → Term n) (v : Fin n) (e : ℕ) : (expBlock g0 v e).Nodup :=
  (List.nodup_finRange k).filter _

theorem mem_expKeys : e ∈ expKeys g0 v ↔ 0 < e ∧ ∃ i, g0 i v = e := by
  unfold expKeys
  rw [List.mem_insertionSort, List.mem_dedup, List.mem_filter]
  simp only [List.mem_map, List.mem_finRange, true_and, decide_eq_true_eq]
  tauto

theorem expKeys_sorted (g0 : Fin k → Term n) (v : Fin n) : (expKeys g0 v).Pairwise (· < ·) := by
  have h1 : (expKeys g0 v).Pairwise (· ≤ ·) := List.pairwise_insertionSort _ _
  have h2 : (expKeys g0 v).Nodup := (List.perm_insertionSort _ _).nodup_iff.2 (List.nodup_dedup _)
  exact (h1.and h2).imp fun h => lt_of_le_of_ne h.1 h.2

theorem deformBlock_strong {bl : List (Fin k)} (h : DefInv g0 v P B s) (hnd : bl.Nodup)
    (hbl : ∀ i ∈ bl, ¬ P i ∧ g0 i v = e) (hB : B ≤ e) (hpos : 0 < e) :
    DefInv g0 v (fun i => P i ∨ i ∈ bl) e (deformBlock true v s bl) ∧
      (InjInv v P s → InjInv v (fun i => P i ∨ i ∈ bl) (deformBlock true v s bl)) := by
  have h1 := strongLoop_spec bl h hnd hbl hB hpos
  cases bl with
  | nil => exact h1
  | cons i rest => exact h1

theorem deformBlock_weak {bl : List (Fin k)} (h : DefInv g0 v P B s) (hne : bl ≠ []) (hnd : bl.Nodup)
    (hbl : ∀ i ∈ bl, ¬ P i ∧ g0 i v = e) (hB : B ≤ e) (hpos : 0 < e) :
    DefInv g0 v (fun i => P i ∨ i ∈ bl) e (deformBlock false v s bl) ∧
      (NoGap g0 v → (∀ i, 0 < g0 i v → g0 i v < e → P i) → WeakInv g0 v P s →
        WeakInv g0 v (fun i => P i ∨ i ∈ bl) (deformBlock false v s bl)) := by
  cases bl with
  | nil => exact absurd rfl hne
  | cons i rest =>
    obtain ⟨hi, hie⟩ := hbl i (by simp)
    have hv : s.gens i v = e := (h.todo i hi).trans hie
    have hunf : deformBlock false v s (i :: rest) = weakLoop v s.und.length ⟨s.gens, s.und ++ [e]⟩ (i :: rest) := by
      simp [deformBlock, hv]
    rw [hunf]
    have h1 := h.push hB hpos
    have hsh : (s.und ++ [e])[s.und.length]? = some e := by rw [List.getElem?_append_right (le_refl _)]; simp
    refine ⟨weakLoop_inv _ h1 hnd hbl hpos hsh, fun hg hlow hw => ?_⟩
    refine (weakLoop_spec _ h1 (fun a b ha hb hab hv => hw a b ha hb hab hv) ?_ hnd hbl hpos hsh (le_length_und h hg hie hlow)
      hlow).2
    intro a ha hv
    have := h.lt ha
    simp only at hv
    omega

/-- The loop over the blocks. -/
theorem keys_spec (strong : Bool) : ∀ (ks : List ℕ) {P : Fin k → Prop} {B : ℕ} {s : DState n k}, DefInv g0 v P B s →
    ks.Pairwise (· < ·) → (∀ e ∈ ks, 0 < e ∧ B ≤ e ∧ ∃ i, g0 i v = e) → (∀ i, P i → 0 < g0 i v ∧ g0 i v ∉ ks) →
    (∀ i, 0 < g0 i v → P i ∨ g0 i v ∈ ks) →
    ∃ B', DefInv g0 v (fun i => 0 < g0 i v) B' ((ks.map (expBlock g0 v)).foldl (deformBlock strong v) s) ∧
      (strong = true → InjInv v P s → InjInv v (fun i => 0 < g0 i v) ((ks.map (expBlock g0 v)).foldl (deformBlock strong v) s)) ∧
      (strong = false → NoGap g0 v → WeakInv g0 v P s →
        WeakInv g0 v (fun i => 0 < g0 i v) ((ks.map (expBlock g0 v)).foldl (deformBlock strong v) s)) := by
  intro ks
  induction ks with
  | nil =>
    intro P B s h _ _ hP hall
    have hP : P = fun i => 0 < g0 i v := by
      funext i
      exact propext ⟨fun hp => (hP i hp).1, fun hp => (hall i hp).resolve_right (by simp)⟩
    rw [← hP]
    exact ⟨B, h, fun _ hi => hi, fun _ _ hw => hw⟩
  | cons e ks ih =>
    intro P B s h hs hks hP hall
    rw [List.pairwise_cons] at hs
    obtain ⟨hpos, hB, i0, hi0⟩ := hks e (by simp)
    have hbl : ∀ i ∈ expBlock g0 v e, ¬ P i ∧ g0 i v = e := by
      intro i hi
      rw [mem_expBlock] at hi
      exact ⟨fun hp => (hP i hp).2 (by simp [hi]), hi⟩
    have hnd := expBlock_nodup g0 v e
    have hne : expBlock g0 v e ≠ [] := List.ne_nil_of_mem (mem_expBlock.2 hi0)
    have hlow : ∀ i, 0 < g0 i v → g0 i v < e → P i := by
      intro i h1 h2
      rcases hall i h1 with h3 | h3
      · exact h3
      · rcases List.mem_cons.1 h3 with h3 | h3
        · omega
        · have := hs.1 _ h3
          omega
    have hks' : ∀ e' ∈ ks, 0 < e' ∧ e ≤ e' ∧ ∃ i, g0 i v = e' := fun e' he' =>
      ⟨(hks e' (by simp [he'])).1, (hs.1 e' he').le, (hks e' (by simp [he'])).2.2⟩
    have hP' : ∀ i, (P i ∨ i ∈ expBlock g0 v e) → 0 < g0 i v ∧ g0 i v ∉ ks := by
      rintro i (hi | hi)
      · exact ⟨(hP i hi).1, fun hc => (hP i hi).2 (by simp [hc])⟩
      · rw [mem_expBlock] at hi
        refine ⟨by omega, fun hc => ?_⟩
        have := hs.1 _ hc
        omega
    have hall' : ∀ i, 0 < g0 i v → (P i ∨ i ∈ expBlock g0 v e) ∨ g0 i v ∈ ks := by
      intro i hi
      rcases hall i hi with h1 | h1
      · exact Or.inl (Or.inl h1)
      · rcases List.mem_cons.1 h1 with h1 | h1
        · exact Or.inl (Or.inr (mem_expBlock.2 h1))
        · exact Or.inr h1
    rw [List.map_cons, List.foldl_cons]
    cases strong with
    | true =>
      obtain ⟨h1, h2⟩ := deformBlock_strong h hnd hbl hB hpos
      obtain ⟨B', h3, h4, _⟩ := ih h1 hs.2 hks' hP' hall'
      exact ⟨B', h3, fun _ hinj => h4 rfl (h2 hinj), by simp⟩
    | false =>
      obtain ⟨h1, h2⟩ := deformBlock_weak h hne hnd hbl hB hpos
      obtain ⟨B', h3, _, h4⟩ := ih h1 hs.2 hks' hP' hall'
      exact ⟨B', h3, by simp, fun _ hg hw => h4 rfl hg (h2 hg hlow hw)⟩

/-- What deforming one variable does. -/
theorem deformVar_spec (strong : Bool) (g0 : Fin k → Term n) (v : Fin n) :
    ∃ B, DefInv g0 v (fun i => 0 < g0 i v) B (deformVar strong v g0) ∧
      (strong = true → InjInv v (fun i => 0 < g0 i v) (deformVar strong v g0)) ∧
      (strong = false → NoGap g0 v → WeakInv g0 v (fun i => 0 < g0 i v) (deformVar strong v g0)) := by
  have h0 : DefInv g0 v (fun _ => False) 0 ⟨g0, [0]⟩ :=
    ⟨fun _ _ _ => rfl, fun _ _ => rfl, fun _ h => h.elim, rfl, by simp, by simp, by simp⟩
  obtain ⟨B, h1, h2, h3⟩ := keys_spec strong (expKeys g0 v) h0 (expKeys_sorted g0 v)
    (fun e he => ⟨(mem_expKeys.1 he).1, Nat.zero_le _, (mem_expKeys.1 he).2⟩) (fun _ h => h.elim)
    (fun i hi => Or.inr (mem_expKeys.2 ⟨hi, i, rfl⟩))
  exact ⟨B, h1, fun hs => h2 hs fun _ _ h => h.elim, fun hs hg => h3 hs hg fun _ _ h => h.elim⟩

/-- A list that starts with zero, is weakly increasing and otherwise positive. -/
structure UndOk (u : List ℕ) : Prop where
  zero : u[0]? = some 0
  mono : u.Pairwise (· ≤ ·)
  pos : ∀ j x, u[j + 1]? = some x → 0 < x

theorem UndOk.le {u : List ℕ} (h : UndOk u) {i j a b : ℕ} (hij : i ≤ j) (hi : u[i]? = some a) (hj : u[j]? = some b) : a ≤ b := by
  rcases Nat.eq_or_lt_of_le hij with rfl | hlt
  · rw [hi, Option.some.injEq] at hj; exact hj.le
  · rw [List.getElem?_eq_some_iff] at hi hj
    obtain ⟨h1, rfl⟩ := hi
    obtain ⟨h2, rfl⟩ := hj
    exact List.pairwise_iff_getElem.1 h.mono i j h1 h2 hlt

/-- The generators while the variables in `done` have been deformed. -/
structure AllInv (g0 : Fin k → Term n) (done : List (Fin n)) (x : (Fin k → Term n) × (Fin n → List ℕ)) : Prop where
  todo : ∀ i w, w ∉ done → x.1 i w = g0 i w
  ret : ∀ i w, w ∈ done → (x.2 w)[x.1 i w]? = some (g0 i w)
  ok : ∀ w ∈ done, UndOk (x.2 w)

/-- Two generators that share an exponent have a generator strictly dividing their lcm. -/
def GenInv (done : List (Fin n)) (gens : Fin k → Term n) : Prop :=
  ∀ w ∈ done, ∀ i j, i ≠ j → gens i w = gens j w → gens i w ≠ 0 → ∃ c, strictlyDivides (gens c) (gens i ⊔ gens j)

theorem allInv_step (strong : Bool) {done : List (Fin n)} {x : (Fin k → Term n) × (Fin n → List ℕ)} (h : AllInv g0 done x)
    (hv : v ∉ done) :
    AllInv g0 (v :: done) ((deformVar strong v x.1).gens, Function.update x.2 v (deformVar strong v x.1).und) ∧
      ((strong = true ∨ NoGap g0 v) → GenInv done x.1 → GenInv (v :: done) (deformVar strong v x.1).gens) := by
  obtain ⟨B, h1, h2, h3⟩ := deformVar_spec strong x.1 v
  set y := deformVar strong v x.1 with hy
  have hok : UndOk y.und := ⟨h1.zero, h1.mono, h1.pos⟩
  have hret : ∀ i, y.und[y.gens i v]? = some (x.1 i v) := by
    intro i
    rcases Nat.eq_zero_or_pos (x.1 i v) with h0 | h0
    · rw [h1.todo i (by omega), h0, h1.zero]
    · exact h1.ret i h0
  have hlt : ∀ i j, x.1 i v < x.1 j v → y.gens i v < y.gens j v := by
    intro i j hij
    by_contra hc
    have := hok.le (Nat.le_of_not_lt hc) (hret j) (hret i)
    omega
  have hzero : ∀ i, x.1 i v = 0 → y.gens i v = 0 := fun i hi => (h1.todo i (by omega)).trans hi
  have hpos : ∀ i, y.gens i v ≠ 0 → 0 < x.1 i v := by
    intro i hi
    rcases Nat.eq_zero_or_pos (x.1 i v) with h0 | h0
    · exact absurd (hzero i h0) hi
    · exact h0
  refine ⟨⟨fun i w hw => ?_, fun i w hw => ?_, fun w hw => ?_⟩, fun hs hg w hw i j hij hsame hne => ?_⟩
  · simp only [List.mem_cons, not_or] at hw
    simp only
    rw [h1.other i w hw.1]
    exact h.todo i w hw.2
  · by_cases hwv : w = v
    · subst hwv
      simp only [Function.update_self]
      rw [hret i, h.todo i w hv]
    · simp only [Function.update_of_ne hwv]
      rw [h1.other i w hwv]
      exact h.ret i w ((List.mem_cons.1 hw).resolve_left hwv)
  · by_cases hwv : w = v
    · subst hwv
      simp only [Function.update_self]
      exact hok
    · simp only [Function.update_of_ne hwv]
      exact h.ok w ((List.mem_cons.1 hw).resolve_left hwv)
  · by_cases hwv : w = v
    · subst hwv
      have hi := hpos i hne
      have hj := hpos j (hsame ▸ hne)
      cases hstrong : strong with
      | true => exact absurd (h2 hstrong i j hi hj hsame) hij
      | false =>
        have hg : NoGap x.1 w := by
          intro i e he1 he2
          rw [h.todo i w hv] at he2
          obtain ⟨j, hj⟩ := hs.resolve_left (by simp [hstrong]) i e he1 he2
          exact ⟨j, (h.todo j w hv).trans hj⟩
        obtain ⟨c, _, hc⟩ := h3 hstrong hg i j hi hj hij hsame
        refine ⟨c, fun u => ?_, fun h0 => ?_⟩
        · rcases hc u with h4 | h4
          · left; simpa using h4
          · right; exact h4
        · have := congrFun h0 w
          simp only [Pi.sup_apply, Pi.zero_apply] at this
          omega
    · rw [h1.other i w hwv, h1.other j w hwv] at hsame
      rw [h1.other i w hwv] at hne
      obtain ⟨c, hc⟩ := hg w ((List.mem_cons.1 hw).resolve_left hwv) i j hij hsame hne
      refine ⟨c, fun u => ?_, fun h0 => ?_⟩
      · by_cases huv : u = v
        · subst huv
          rcases hc.1 u with h4 | h4
          · left
            simp only [Pi.sup_apply] at h4 ⊢
            rcases lt_max_iff.1 h4 with h5 | h5
            · exact lt_max_of_lt_left (hlt _ _ h5)
            · exact lt_max_of_lt_right (hlt _ _ h5)
          · right; exact hzero c h4
        · simp only [Pi.sup_apply, h1.other _ u huv]
          exact hc.1 u
      · have := congrFun h0 w
        simp only [Pi.sup_apply, Pi.zero_apply, h1.other _ w hwv] at this
        omega

theorem allInv_foldl (strong : Bool) : ∀ (vs done : List (Fin n)) (x : (Fin k → Term n) × (Fin n → List ℕ)), AllInv g0 done x →
    vs.Nodup → (∀ v ∈ vs, v ∉ done) →
    AllInv g0 (vs.reverse ++ done) (vs.foldl (fun x v => ((deformVar strong v x.1).gens,
      Function.update x.2 v (deformVar strong v x.1).und)) x) ∧
    ((strong = true ∨ ∀ v, NoGap g0 v) → GenInv done x.1 →
      GenInv (vs.reverse ++ done) (vs.foldl (fun x v => ((deformVar strong v x.1).gens,
        Function.update x.2 v (deformVar strong v x.1).und)) x).1) := by
  intro vs
  induction vs with
  | nil => intro done x h _ _; exact ⟨by simpa using h, fun _ hg => by simpa using hg⟩
  | cons v vs ih =>
    intro done x h hnd hd
    rw [List.nodup_cons] at hnd
    obtain ⟨h1, h2⟩ := allInv_step strong h (hd v (by simp))
    obtain ⟨h3, h4⟩ := ih (v :: done) _ h1 hnd.2 (fun w hw => by
      simp only [List.mem_cons, not_or]
      exact ⟨fun h => hnd.1 (h ▸ hw), hd w (by simp [hw])⟩)
    rw [List.foldl_cons, List.reverse_cons, List.append_assoc]
    exact ⟨h3, fun hs hg => h4 hs (h2 (hs.imp_right fun h => h v) hg)⟩

/-- The deformed generators and the lists that undo the deformation. -/
theorem deformAll_spec (strong : Bool) (g0 : Fin k → Term n) :
    (∀ i w, ((deformAll strong g0).2 w)[(deformAll strong g0).1 i w]? = some (g0 i w)) ∧
    (∀ w, UndOk ((deformAll strong g0).2 w)) ∧
    ((strong = true ∨ ∀ v, NoGap g0 v) → ∀ w i j, i ≠ j → (deformAll strong g0).1 i w = (deformAll strong g0).1 j w →
      (deformAll strong g0).1 i w ≠ 0 →
      ∃ c, strictlyDivides ((deformAll strong g0).1 c) ((deformAll strong g0).1 i ⊔ (deformAll strong g0).1 j)) := by
  obtain ⟨h1, h2⟩ := allInv_foldl (g0 := g0) strong (List.finRange n) [] (g0, fun _ => [])
    ⟨fun _ _ _ => rfl, by simp, by simp⟩ (List.nodup_finRange n) (by simp)
  have hm : ∀ w, w ∈ (List.finRange n).reverse ++ [] := by simp
  exact ⟨fun i w => h1.ret i w (hm w), fun w => h1.ok w (hm w), fun hs w => h2 hs (by intro w hw; simp at hw) w (hm w)⟩

end Frobby
