import Verif.DimModel
import Verif.IdealLemmas
import Mathlib.Order.Bounds.Basic

/-!
# Correctness of `SizeMaxIndepSetAlg`
-/

namespace Frobby

variable {n : ℕ}

/-- `S` is a completion of the partially decided set. -/
def Consistent (st : Fin n → VarState) (S : Finset (Fin n)) : Prop :=
  ∀ v, (st v = .isIn → v ∈ S) ∧ (st v = .notIn → v ∉ S)

/-- No edge is contained in `S`. -/
def Indep (edges : List (List (Fin n))) (S : Finset (Fin n)) : Prop := ∀ e ∈ edges, ∃ v ∈ e, v ∉ S

/-- `m'` is the minimum of `m` and the sizes of the complements of the sets in `C`. -/
def Improves (C : Finset (Fin n) → Prop) (m m' : ℕ) : Prop :=
  m' ≤ m ∧ (∀ S, C S → m' ≤ Sᶜ.card) ∧ (m' = m ∨ ∃ S, C S ∧ Sᶜ.card = m')

/-- The variables that are decided to be excluded. -/
def excl (st : Fin n → VarState) : Finset (Fin n) := Finset.univ.filter fun v => st v = .notIn

theorem mem_excl {st : Fin n → VarState} {v : Fin n} : v ∈ excl st ↔ st v = .notIn := by simp [excl]

theorem consistent_compl (st : Fin n → VarState) : Consistent st (excl st)ᶜ := by
  intro v
  rw [Finset.mem_compl, mem_excl]
  constructor
  · intro h; rw [h]; simp
  · intro h; simpa using h

theorem excl_subset {st : Fin n → VarState} {S : Finset (Fin n)} (h : Consistent st S) : excl st ⊆ Sᶜ := by
  intro v hv
  rw [mem_excl] at hv
  rw [Finset.mem_compl]
  exact (h v).2 hv

theorem excl_set {st : Fin n → VarState} {v : Fin n} (h : st v = .maybe) :
    excl (Function.update st v .notIn) = insert v (excl st) := by
  ext w
  rw [mem_excl, Finset.mem_insert, mem_excl]
  by_cases hw : w = v
  · subst hw; simp
  · simp [hw]

theorem excl_set_in {st : Fin n → VarState} {v : Fin n} (h : st v = .maybe) :
    excl (Function.update st v .isIn) = excl st := by
  ext w
  rw [mem_excl, mem_excl]
  by_cases hw : w = v
  · subst hw; simp [h]
  · simp [hw]

theorem indepMaybe_iff (s : Mis n) (edges : List (List (Fin n))) :
    s.indepMaybe edges = true ↔ Indep edges (excl s.state)ᶜ := by
  simp [Mis.indepMaybe, Indep, mem_excl]

/-- The specification of a call. -/
structure CallSpec (C : Finset (Fin n) → Prop) (ex : ℕ) (s s' : Mis n) : Prop where
  state : s'.state = s.state
  undo : s'.undo = s.undo
  min : Improves C s.minEx s'.minEx

theorem enter_spec {edges : List (List (Fin n))} {ex : ℕ} {scan : Mis n → Mis n} {s : Mis n}
    (hex : (excl s.state).card = ex)
    (hscan : ex < s.minEx → CallSpec (fun S => Consistent s.state S ∧ Indep edges S) ex s (scan s)) :
    CallSpec (fun S => Consistent s.state S ∧ Indep edges S) ex s (misEnter edges ex scan s) := by
  have hcard : ∀ S, Consistent s.state S → ex ≤ Sᶜ.card := fun S hS => by
    rw [← hex]; exact Finset.card_le_card (excl_subset hS)
  unfold misEnter
  split
  · rename_i h
    exact ⟨rfl, rfl, le_refl _, fun S hS => h.trans (hcard S hS.1), Or.inl rfl⟩
  · rename_i h
    split
    · rename_i h1
      split
      · rename_i h2
        rw [indepMaybe_iff] at h2
        refine ⟨rfl, rfl, by simp only; omega, fun S hS => hcard S hS.1, Or.inr ⟨_, ⟨consistent_compl _, h2⟩, ?_⟩⟩
        rw [compl_compl]; exact hex
      · rename_i h2
        rw [indepMaybe_iff] at h2
        refine ⟨rfl, rfl, le_refl _, fun S hS => ?_, Or.inl rfl⟩
        by_contra hc
        apply h2
        have : excl s.state = Sᶜ := Finset.eq_of_subset_of_card_le (excl_subset hS.1) (by have := hcard S hS.1; omega)
        rw [this, compl_compl]; exact hS.2
    · exact hscan (by omega)

theorem restore_spec (ex : ℕ) (vs : List (Fin n)) (s : Mis n) :
    s.restore ex vs = { state := fun v => if v ∈ vs then .maybe else s.state v,
                        undo := Function.update s.undo ex [], minEx := s.minEx } := by
  induction vs generalizing s with
  | nil => simp [Mis.restore]
  | cons v vs ih =>
    rw [Mis.restore, ih]
    simp only [Mis.set]
    congr 1
    funext w
    by_cases h1 : w ∈ vs
    · simp [h1]
    · by_cases h2 : w = v
      · subst h2; simp
      · simp [h1, h2]

/-- The loop over the variables of an edge. `st0` is the state before the loop, `done` are the variables that have been
decided to be in the set. -/
theorem loop_spec {rest : List (List (Fin n))} {ex : ℕ} {rec : Mis n → Mis n} {st0 : Fin n → VarState}
    {undo0 : ℕ → List (Fin n)} (hu0 : undo0 ex = [])
    (hrec : ∀ s : Mis n, (excl s.state).card = ex + 1 → (∀ k, ex < k → s.undo k = []) →
      CallSpec (fun S => Consistent s.state S ∧ Indep rest S) (ex + 1) s (rec s))
    (hex : (excl st0).card = ex) (hu1 : ∀ k, ex < k → undo0 k = []) :
    ∀ (e : List (Fin n)) (k : ℕ) (done : List (Fin n)) (s : Mis n), e.Nodup →
      (∀ v, s.state v = if v ∈ done then .isIn else st0 v) → (∀ v ∈ done, st0 v = .maybe) →
      s.undo = Function.update undo0 ex done →
      e.countP (fun v => decide (s.state v = .maybe)) = k → 0 < k → 
      (misLoop ex rec e k s).state = st0 ∧ (misLoop ex rec e k s).undo = undo0 ∧
        Improves (fun S => Consistent s.state S ∧ Indep rest S ∧ ∃ v ∈ e, s.state v = .maybe ∧ v ∉ S) s.minEx
          (misLoop ex rec e k s).minEx := by
  intro e
  induction e with
  | nil => intro k done s _ _ _ _ hc h0; simp at hc; omega
  | cons v vs ih =>
    intro k done s hnd hst hdone hundo hc h0
    rw [List.nodup_cons] at hnd
    unfold misLoop
    split
    · rename_i hv
      rw [List.countP_cons_of_neg (by simpa using hv)] at hc
      obtain ⟨h1, h2, h3⟩ := ih k done s hnd.2 hst hdone hundo hc h0
      refine ⟨h1, h2, h3.1, fun S hS => h3.2.1 S ⟨hS.1, hS.2.1, ?_⟩, ?_⟩
      · obtain ⟨w, hw, h4, h5⟩ := hS.2.2
        rcases List.mem_cons.1 hw with rfl | hw
        · exact absurd h4 hv
        · exact ⟨w, hw, h4, h5⟩
      · rcases h3.2.2 with h4 | ⟨S, ⟨h5, h6, w, hw, h7⟩, h8⟩
        · exact Or.inl h4
        · exact Or.inr ⟨S, ⟨h5, h6, w, List.mem_cons_of_mem _ hw, h7⟩, h8⟩
    · rename_i hv
      push Not at hv
      rw [List.countP_cons_of_pos (by simpa using hv)] at hc
      have hvd : v ∉ done := by
        intro h
        have := hst v
        rw [hv, if_pos h] at this
        exact absurd this (by simp)
      have hexs : excl s.state = excl st0 := by
        ext w
        rw [mem_excl, mem_excl, hst w]
        by_cases hw : w ∈ done
        · simp [hw, hdone w hw]
        · simp [hw]
      have hr := hrec (s.set v .notIn) (by
        simp only [Mis.set]
        rw [excl_set hv, Finset.card_insert_of_notMem (by rw [mem_excl, hv]; simp), hexs, hex])
        (fun k hk => by simp only [Mis.set, hundo]; rw [Function.update_of_ne (by omega)]; exact hu1 k hk)
      set s1 := rec (s.set v .notIn) with hs1
      have hst1 : s1.state = Function.update s.state v .notIn := hr.state
      have hundo1 : s1.undo = Function.update undo0 ex done := hr.undo.trans hundo
      have hmin1 : Improves (fun S => Consistent (Function.update s.state v .notIn) S ∧ Indep rest S) s.minEx s1.minEx :=
        hr.min
      -- the sets without `v`
      have hwithout : ∀ S, v ∉ S → (Consistent (Function.update s.state v .notIn) S ↔ Consistent s.state S) := by
        intro S hS
        refine forall_congr' fun w => ?_
        by_cases hw : w = v
        · subst hw; simp [hv, hS]
        · simp [hw]
      have hnot : ∀ S, Consistent (Function.update s.state v .notIn) S → v ∉ S := fun S hS => (hS v).2 (by simp)
      simp only
      split
      · rename_i hk
        -- no other variable is undecided
        have hvs : ∀ w ∈ vs, s.state w ≠ .maybe := by
          have : vs.countP (fun v => decide (s.state v = .maybe)) = 0 := by omega
          rw [List.countP_eq_zero] at this
          simpa using this
        rw [restore_spec]
        refine ⟨?_, ?_, hmin1.1, fun S hS => hmin1.2.1 S ?_, ?_⟩
        · funext w
          simp only [Mis.set, hundo1, Function.update_self, hst1]
          by_cases hw : w ∈ done
          · simp [hw, hdone w hw]
          · by_cases hwv : w = v
            · subst hwv
              have := hst w
              rw [hv, if_neg hvd] at this
              simp [hw, ← this]
            · have := hst w
              rw [if_neg hw] at this
              simp [hw, hwv, this]
        · simp only [Mis.set, hundo1, Function.update_idem]
          rw [← hu0, Function.update_eq_self]
        · obtain ⟨w, hw, h4, h5⟩ := hS.2.2
          rcases List.mem_cons.1 hw with rfl | hw
          · exact ⟨(hwithout S h5).2 hS.1, hS.2.1⟩
          · exact absurd h4 (hvs w hw)
        · rcases hmin1.2.2 with h4 | ⟨S, ⟨h5, h6⟩, h8⟩
          · exact Or.inl h4
          · exact Or.inr ⟨S, ⟨(hwithout S (hnot S h5)).1 h5, h6, v, by simp, hv, hnot S h5⟩, h8⟩
      · rename_i hk
        set s2 : Mis n := { s1.set v .isIn with undo := Function.update (s1.set v .isIn).undo ex (v :: (s1.set v .isIn).undo ex) }
          with hs2
        have hst2 : s2.state = Function.update s.state v .isIn := by
          show Function.update s1.state v .isIn = _
          rw [hst1, Function.update_idem]
        have hmaybe : ∀ w ∈ vs, (s2.state w = .maybe ↔ s.state w = .maybe) := by
          intro w hw
          have : w ≠ v := fun h => hnd.1 (h ▸ hw)
          rw [hst2, Function.update_of_ne this]
        have ih' := ih (k - 1) (v :: done) s2 hnd.2 (fun w => ?_) (fun w hw => ?_) ?_ ?_ (by omega)
        · obtain ⟨h1, h2, h3⟩ := ih'
          refine ⟨h1, h2, h3.1.trans hmin1.1, fun S hS => ?_, ?_⟩
          · by_cases hvS : v ∈ S
            · refine h3.2.1 S ⟨?_, hS.2.1, ?_⟩
              · rw [hst2]
                intro w
                by_cases hw : w = v
                · subst hw; simp [hvS]
                · simpa [hw] using hS.1 w
              · obtain ⟨w, hw, h4, h5⟩ := hS.2.2
                rcases List.mem_cons.1 hw with rfl | hw
                · exact absurd hvS h5
                · exact ⟨w, hw, (hmaybe w hw).2 h4, h5⟩
            · exact h3.1.trans (hmin1.2.1 S ⟨(hwithout S hvS).2 hS.1, hS.2.1⟩)
          · rcases h3.2.2 with h4 | ⟨S, ⟨h5, h6, w, hw, h7, h7'⟩, h8⟩
            · rcases hmin1.2.2 with h9 | ⟨S, ⟨h5, h6⟩, h8⟩
              · exact Or.inl (h4.trans h9)
              · exact Or.inr ⟨S, ⟨(hwithout S (hnot S h5)).1 h5, h6, v, by simp, hv, hnot S h5⟩, h8.trans h4.symm⟩
            · refine Or.inr ⟨S, ⟨fun x => ?_, h6, w, List.mem_cons_of_mem _ hw, (hmaybe w hw).1 h7, h7'⟩, h8⟩
              have := h5 x
              rw [hst2] at this
              by_cases hx : x = v
              · subst hx; simp [hv]
              · simpa [hx] using this
        · rw [hst2]
          by_cases hw : w = v
          · subst hw; simp
          · rw [Function.update_of_ne hw, hst w]; simp [hw]
        · rcases List.mem_cons.1 hw with rfl | hw
          · have := hst w
            rw [hv, if_neg hvd] at this
            exact this.symm
          · exact hdone w hw
        · show Function.update s1.undo ex (v :: s1.undo ex) = _
          rw [hundo1, Function.update_self, Function.update_idem]
        · rw [← hc, Nat.add_sub_cancel]
          refine List.countP_congr fun w hw => ?_
          simp [hmaybe w hw]

theorem scan_spec : ∀ (edges : List (List (Fin n))) (ex : ℕ) (s : Mis n), (∀ e ∈ edges, e.Nodup) →
    (excl s.state).card = ex → (∀ k, ex ≤ k → s.undo k = []) → ex < s.minEx →
    CallSpec (fun S => Consistent s.state S ∧ Indep edges S) ex s (misScan edges ex s) := by
  intro edges
  induction edges with
  | nil =>
    intro ex s _ hex _ hlt
    refine ⟨rfl, rfl, hlt.le, fun S hS => ?_, Or.inr ⟨_, ⟨consistent_compl s.state, by simp [Indep]⟩, ?_⟩⟩
    · show ex ≤ _
      rw [← hex]; exact Finset.card_le_card (excl_subset hS.1)
    · rw [compl_compl]; exact hex
  | cons e rest ih =>
    intro ex s hnd hex hundo hlt
    have hndr : ∀ e ∈ rest, e.Nodup := fun e he => hnd e (by simp [he])
    unfold misScan
    have hcd : s.couldBeDependence e =
      if e.any fun v => decide (s.state v = .notIn) then none else some (e.countP fun v => decide (s.state v = .maybe)) := rfl
    match hm : s.couldBeDependence e with
    | none =>
      rw [hm] at hcd
      have hany : (e.any fun v => decide (s.state v = .notIn)) = true := by
        by_contra hc; rw [if_neg hc] at hcd; simp at hcd
      simp only [List.any_eq_true, decide_eq_true_eq] at hany
      obtain ⟨v, hv, hvs⟩ := hany
      obtain ⟨h1, h2, h3⟩ := ih ex s hndr hex hundo hlt
      have heq : (fun S => Consistent s.state S ∧ Indep (e :: rest) S) = fun S => Consistent s.state S ∧ Indep rest S := by
        funext S
        refine propext (and_congr_right fun hS => ⟨fun h x hx => h x (by simp [hx]), fun h x hx => ?_⟩)
        rcases List.mem_cons.1 hx with rfl | hx
        · exact ⟨v, hv, (hS v).2 hvs⟩
        · exact h x hx
      rw [heq]
      exact ⟨h1, h2, h3⟩
    | some 0 =>
      rw [hm] at hcd
      split at hcd
      · simp at hcd
      · rename_i hany
        simp only [List.any_eq_true, decide_eq_true_eq] at hany
        push Not at hany
        have h0 : e.countP (fun v => decide (s.state v = .maybe)) = 0 := (Option.some.inj hcd).symm
        rw [List.countP_eq_zero] at h0
        refine ⟨rfl, rfl, le_refl _, fun S hS => ?_, Or.inl rfl⟩
        exfalso
        obtain ⟨v, hv, hvS⟩ := hS.2 e (by simp)
        have h1 := h0 v hv
        have h2 := hany v hv
        have h3 : s.state v = .isIn := by
          cases h : s.state v with
          | maybe => simp [h] at h1
          | isIn => rfl
          | notIn => exact absurd h h2
        exact hvS ((hS.1 v).1 h3)
    | some (k + 1) =>
      rw [hm] at hcd
      split at hcd
      · simp at hcd
      · rename_i hany
        simp only [List.any_eq_true, decide_eq_true_eq] at hany
        push Not at hany
        have h0 : e.countP (fun v => decide (s.state v = .maybe)) = k + 1 := (Option.some.inj hcd).symm
        have hl := loop_spec (rest := rest) (ex := ex) (rec := misEnter rest (ex + 1) (misScan rest (ex + 1)))
          (st0 := s.state) (undo0 := s.undo) (hundo ex (le_refl _))
          (fun s' h1 h2 => enter_spec h1 fun h3 => ih (ex + 1) s' hndr h1 (fun k hk => h2 k (by omega)) h3)
          hex (fun k hk => hundo k hk.le) e (k + 1) [] s (hnd e (by simp)) (by simp) (by simp)
          (by rw [← hundo ex (le_refl _), Function.update_eq_self]) h0 (by omega)
        simp only
        have heq : (fun S => Consistent s.state S ∧ Indep (e :: rest) S) =
            fun S => Consistent s.state S ∧ Indep rest S ∧ ∃ v ∈ e, s.state v = .maybe ∧ v ∉ S := by
          funext S
          refine propext (and_congr_right fun hS => ⟨fun h => ⟨fun x hx => h x (by simp [hx]), ?_⟩, fun h x hx => ?_⟩)
          · obtain ⟨v, hv, hvS⟩ := h e (by simp)
            refine ⟨v, hv, ?_, hvS⟩
            cases hc : s.state v with
            | maybe => rfl
            | isIn => exact absurd ((hS v).1 hc) hvS
            | notIn => exact absurd hc (hany v hv)
          · rcases List.mem_cons.1 hx with rfl | hx
            · obtain ⟨v, hv, _, hvS⟩ := h.2; exact ⟨v, hv, hvS⟩
            · exact h.1 x hx
        rw [heq]
        exact ⟨hl.1, hl.2.1, hl.2.2⟩

/-- The sizes of sets of variables that contain the support of no generator. -/
def indepSizes (I : List (Term n)) : Set ℤ := {k | ∃ S : Finset (Fin n), (S.card : ℤ) = k ∧ ∀ g ∈ I, ∃ v, v ∉ S ∧ 0 < g v}

theorem maxIndepSetSize_spec {I : List (Term n)} (hI : Anti I) :
    ((0 : Term n) ∈ I → maxIndepSetSize I = -1) ∧ ((0 : Term n) ∉ I → IsGreatest (indepSizes I) (maxIndepSetSize I)) := by
  have hz : (0 : Term n) ∈ I ↔ I.length = 1 ∧ (I.any fun g => decide (g = 0)) = true := by
    simp only [List.any_eq_true, decide_eq_true_eq]
    constructor
    · intro h
      refine ⟨?_, 0, h, rfl⟩
      match I, h, hI with
      | [a], _, _ => rfl
      | a :: b :: l, h, hI =>
        have h1 := hI.eq_of_le h (by simp : a ∈ a :: b :: l) (Term.le_def.2 fun i => by simp)
        have h2 := hI.eq_of_le h (by simp : b ∈ a :: b :: l) (Term.le_def.2 fun i => by simp)
        have := hI.nodup
        rw [← h1, ← h2] at this
        simp at this
    · rintro ⟨_, g, hg, rfl⟩; exact hg
  constructor
  · intro h
    unfold maxIndepSetSize
    rw [if_pos (hz.1 h)]
  · intro h
    unfold maxIndepSetSize
    rw [if_neg (fun h' => h (hz.2 h'))]
    simp only
    set edges := (sortReverseLex I).map edgeOf with hedges
    set s0 : Mis n := { state := fun _ => .maybe, undo := fun _ => [], minEx := n } with hs0
    have hex : (excl s0.state).card = 0 := by simp [excl, hs0]
    have hnd : ∀ e ∈ edges, e.Nodup := by
      intro e he
      obtain ⟨g, _, rfl⟩ := List.mem_map.1 he
      exact (List.nodup_finRange n).filter _
    have hspec := enter_spec (edges := edges) (scan := misScan edges 0) hex fun hlt =>
      scan_spec edges 0 s0 hnd hex (fun _ _ => rfl) hlt
    set s1 := misEnter edges 0 (misScan edges 0) s0
    have hcons : ∀ S, Consistent s0.state S := fun S v => by simp [hs0]
    have hind : ∀ S, Indep edges S ↔ ∀ g ∈ I, ∃ v, v ∉ S ∧ 0 < g v := by
      intro S
      constructor
      · intro h1 g hg
        obtain ⟨v, hv, hvS⟩ := h1 (edgeOf g)
          (List.mem_map.2 ⟨g, (List.perm_insertionSort _ _).mem_iff.2 hg, rfl⟩)
        exact ⟨v, hvS, by simpa [edgeOf, Nat.pos_iff_ne_zero] using hv⟩
      · intro h1 e he
        obtain ⟨g, hg, rfl⟩ := List.mem_map.1 he
        obtain ⟨v, hv, hg0⟩ := h1 g ((List.perm_insertionSort _ _).mem_iff.1 hg)
        exact ⟨v, by simpa [edgeOf, Nat.pos_iff_ne_zero] using hg0, hv⟩
    have hcard : ∀ S : Finset (Fin n), Sᶜ.card = n - S.card := fun S => by
      rw [Finset.card_compl, Fintype.card_fin]
    have hle : ∀ S : Finset (Fin n), S.card ≤ n := fun S => by simpa using Finset.card_le_univ S
    obtain ⟨h1, h2, h3⟩ := hspec.min
    have hn : s0.minEx = n := rfl
    rw [hn] at h1 h3
    constructor
    · rcases h3 with h4 | ⟨S, hS, h4⟩
      · refine ⟨∅, by simp [h4], fun g hg => ?_⟩
        by_contra hc
        push Not at hc
        apply h
        have : g = 0 := by
          funext v
          have := hc v (by simp)
          simpa using this
        rw [← this]; exact hg
      · refine ⟨S, ?_, (hind S).1 hS.2⟩
        rw [hcard] at h4
        have := hle S
        omega
    · rintro k ⟨S, rfl, hS⟩
      have := h2 S ⟨hcons S, (hind S).2 hS⟩
      rw [hcard] at this
      have := hle S
      omega

theorem indepSizes_radical {G : List (Term n)} : 
    indepSizes (G.map fun g v => if g v = 0 then 0 else 1) = indepSizes G := by
  ext k
  unfold indepSizes
  simp only [Set.mem_ofPred_eq, List.mem_map, forall_exists_index, and_imp, forall_apply_eq_imp_iff₂]
  refine exists_congr fun S => and_congr_right fun _ => forall_congr' fun g => forall_congr' fun _ =>
    exists_congr fun v => and_congr_right fun _ => ?_
  by_cases h : g v = 0 <;> simp [h]; omega

theorem indepSizes_minGens {I G : List (Term n)} (h : MinGens I G) : indepSizes I = indepSizes G := by
  ext k
  refine exists_congr fun S => and_congr_right fun _ => ⟨fun h1 g hg => ?_, fun h1 g hg => h1 g (h.subset g hg)⟩
  obtain ⟨g', hg', hle⟩ := (h.mem_iff g).2 (mem_self hg)
  obtain ⟨v, hv, h0⟩ := h1 g' hg'
  have := Term.le_def.1 hle v
  exact ⟨v, hv, by omega⟩

theorem computeDimension_spec (G : List (Term n)) (sf : Bool)
    (hsf : sf = true → Anti (G.map fun g : Term n => fun v => if g v = 0 then 0 else 1 : List (Term n))) :
    ((0 : Term n) ∈ G → computeDimension G false sf = -1) ∧
      ((0 : Term n) ∉ G → IsGreatest (indepSizes G) (computeDimension G false sf)) := by
  unfold computeDimension
  simp only [Bool.false_eq_true, if_false]
  set R : List (Term n) := G.map fun g v => if g v = 0 then 0 else 1 with hR
  have h0 : (0 : Term n) ∈ R ↔ (0 : Term n) ∈ G := by
    rw [hR, List.mem_map]
    constructor
    · rintro ⟨g, hg, he⟩
      have : g = 0 := by
        funext v
        have := congrFun he v
        simp only [Pi.zero_apply] at this ⊢
        by_contra hc
        rw [if_neg hc] at this; omega
      rw [← this]; exact hg
    · intro h; exact ⟨0, h, by funext v; simp⟩
  have hm := minimize_minGens R
  have h0m : (0 : Term n) ∈ minimize R ↔ (0 : Term n) ∈ R := by
    constructor
    · exact hm.subset 0
    · intro h
      obtain ⟨g, hg, hle⟩ := (hm.mem_iff 0).2 (mem_self h)
      have : g = 0 := by
        funext v; have := Term.le_def.1 hle v; simpa using this
      rw [← this]; exact hg
  cases sf with
  | false =>
    have := maxIndepSetSize_spec hm.anti
    rw [indepSizes_minGens hm, indepSizes_radical, h0m, h0] at this
    simpa using this
  | true =>
    have := maxIndepSetSize_spec (hsf rfl)
    rw [indepSizes_radical, h0] at this
    simpa using this

end Frobby
