import Verif.OptimizeActionModel
import Verif.OptApiLemmas
import Verif.ActionLemmas5

/-!
# Lemmas on the action `optimize`
-/

namespace Frobby

variable {n : ℕ}

open Term

/-- The program on maximal standard monomials, for the state of the facade. -/
theorem solveStandardAt_spec (p : OptParams) (rnd : List ℕ → ℕ → ℕ) {G M : List (Term n)} (hG : IdSpec (tExp G) (tNum G) G M) (d : Fin n → ℤ) :
    ProgSpec (Msm G) d p.all (solveProgram p rnd (Translator.ofGens G).decrement M d) := by
  have hs := hG.sys
  have hpos : ∀ t : Term n, (∀ i, 0 < t i) → Msm M (fun i => t i - 1) → ∀ v, t v < tNum G v ∧ 0 < tExp G v (t v) := by
    intro t h1 h2 v
    have h3 := hG.lt_of_msm h2 v
    have h4 := h1 v
    exact ⟨by omega, (hs.pos_iff h4 (by omega)).2 (by omega)⟩
  refine solveProgram_spec hs (shifted_decrement G) p rnd d hG.anti (fun v => (hG.lcm_le v).le)
    (fun hn _ _ => hG.one_var (ofGens_used G) hn) (f := fun t v => tExp G v (t v) - 1) ?_ ?_ ?_ ?_
  · intro t h1 h2 v
    exact (hpos t h1 h2 v).1.le
  · intro t h1 h2 v
    have := (hpos t h1 h2 v).2
    show ((tExp G v (t v) - 1 : ℕ) : ℤ) = _
    omega
  · intro m
    rw [hG.msm_iff]
    constructor
    · rintro ⟨u, hu, hm⟩
      refine ⟨fun v => u v + 1, ⟨fun i => Nat.succ_pos _, by simpa using hu⟩, ?_⟩
      funext v
      have := hm v
      show tExp G v (u v + 1) - 1 = m v
      omega
    · rintro ⟨t, ⟨h1, h2⟩, rfl⟩
      refine ⟨_, h2, fun v => ?_⟩
      have := (hpos t h1 h2 v).2
      have := h1 v
      simp only
      rw [show t v - 1 + 1 = t v by omega]
      omega
  · intro s t h1 h2 h3 h4 he
    funext v
    have h5 := hpos s h1 h2 v
    have h6 := hpos t h3 h4 v
    have : tExp G v (s v) - 1 = tExp G v (t v) - 1 := congrFun he v
    exact hs.inj (h1 v) h5.1.le (h3 v) h6.1.le (by omega)

/-- Pure powers at infinity in one variable. -/
theorem pure_one_var_at {G M : List (Term n)} (hG : IdSpec (tExp G) (tNum G) G M) (hn : n = 1) :
    ∀ g ∈ (Translator.ofGens G).addPurePowers M, ∀ v, g v ≤ 1 := by
  have hN : (Translator.ofGens G).maxId = tNum G := funext (ofGens_maxId G)
  have hP := addPurePowers_spec (Translator.ofGens G) hG.anti (by rw [hN]; exact hG.lt) (by rw [hN]; exact hG.sys.pos)
  rw [hN] at hP
  intro g hg v
  rcases hP.mem_of g hg with hg' | ⟨w, rfl⟩
  · exact hG.one_var (ofGens_used G) hn g hg' v
  · have hw : w = v := by subst hn; exact Subsingleton.elim _ _
    subst hw
    rw [Term.single_same]
    by_contra hc
    obtain ⟨g', hg', he⟩ := ofGens_used G w 1 (by omega) (by omega)
    obtain ⟨k, hk, hke⟩ := hG.complete g' hg'
    have hkP := hP.subset k hk
    have huniq : ∀ w' : Fin n, w' = w := fun w' => by subst hn; exact Subsingleton.elim _ _
    have hle : k ≤ Term.single w (tNum G w) := Term.le_def.2 fun w' => by
      rw [huniq w', Term.single_same]; exact (hG.lt k hk w).le
    have := hP.anti.eq_of_le hkP hg hle
    have h3 := hG.lt k hk w
    rw [this, Term.single_same] at h3
    omega

theorem mapM_translate {T : Translator n} : ∀ {ts S : List (Term n)}, ts.mapM T.translate = some (S.map toInt) → ∃ X : Term n → Term n, (∀ t ∈ ts, Translates T X t) ∧ ts.map X = S := by
  intro ts S h
  refine ⟨fun t v => ((T.translate t).getD (fun _ => 0) v).toNat, ?_⟩
  induction ts generalizing S with
  | nil =>
    cases S with
    | nil => simp
    | cons => simp at h
  | cons t ts ih =>
    rw [List.mapM_cons] at h
    cases h1 : T.translate t with
    | none => simp [h1] at h
    | some e =>
      cases h2 : ts.mapM T.translate with
      | none => simp [h1, h2] at h
      | some es =>
        simp only [h1, h2, Option.pure_def, Option.bind_eq_bind, Option.bind_some, Option.some.injEq] at h
        cases S with
        | nil => simp at h
        | cons s S =>
          simp only [List.map_cons, List.cons.injEq] at h
          obtain ⟨rfl, rfl⟩ := h
          obtain ⟨h3, h4⟩ := ih h2
          have he : (fun v => ((T.translate t).getD (fun _ => 0) v).toNat) = s := by
            rw [h1]
            funext v
            simp [toInt]
          refine ⟨?_, ?_⟩
          · intro u hu
            rcases List.mem_cons.1 hu with rfl | hu
            · refine translates_of ?_
              show _ = some fun v => (((fun v => ((T.translate u).getD (fun _ => 0) v).toNat) v : ℕ) : ℤ)
              rw [he, h1]
              rfl
            · exact h3 u hu
          · rw [List.map_cons, h4]
            exact congrArg (· :: S) he

/-- The text of the solutions. -/
theorem solveProgramText_spec {C : Term n → Prop} {d : Fin n → ℤ} {p : OptParams} {rnd : List ℕ → ℕ → ℕ} {T : Translator n} {I : List (Term n)}
    (h : ProgSpec C d p.all (solveProgram p rnd T I d)) (canon : Bool) (w : CallWriter) (N : List Text) :
    ∃ value S, solveProgramText p rnd canon w N T I d = some (value, w N (bigIdeal (arranged canon S))) ∧ Solves C d value S ∧
      (p.all = false → S.length ≤ 1) ∧ (p.all = true → value ≠ some 0 → AllSolutions C d value S) := by
  obtain ⟨value, S, h1, h2, h3, h4⟩ := h.ex
  refine ⟨value, S, ?_, h2, h3, h4⟩
  unfold solveProgram at h1
  split at h1
  · exact absurd h1 (by simp)
  · rename_i st hst
    obtain ⟨ts, h5, h6⟩ := Option.map_eq_some_iff.1 h1
    simp only [Prod.mk.injEq] at h6
    obtain ⟨h6, rfl⟩ := h6
    obtain ⟨X, h7, rfl⟩ := mapM_translate h5
    unfold solveProgramText
    rw [hst, Option.bind_some, outputWith_ideal canon w N h7, Option.map_some, h6]
    rfl

end Frobby
