import Verif.PropsHilbert
import Verif.PropsDim

/-!
# C17 and C22: the results depend only on the ideal, not on its generators, on options or on random choices
-/

namespace Frobby

variable {n : ℕ}

/-- Both computations succeed and emit the same elements, possibly in another order. -/
def SameOutput {α : Type} (a b : Option (List α)) : Prop := ∃ l l', a = some l ∧ b = some l' ∧ l.Perm l'

theorem msm_congr_mem {G G' : List (Term n)} (h : ∀ m, mem G m ↔ mem G' m) (m : Term n) : Msm G m ↔ Msm G' m := by
  unfold Msm; simp only [h]

/-- C17, C22: the irreducible components. -/
theorem C22_irrDecom {o o' : Opts} (ho : o.valid .msm) (ho' : o'.valid .msm) (rnd rnd' : List ℕ → ℕ → ℕ)
    (G G' : List (Term n)) (h : ∀ m, mem G m ↔ mem G' m) :
    SameOutput (facadeIrrDecom o rnd G) (facadeIrrDecom o' rnd' G') := by
  obtain ⟨D, h1, h2⟩ := facadeIrrDecom_spec ho rnd G
  obtain ⟨D', h1', h2'⟩ := facadeIrrDecom_spec ho' rnd' G'
  exact ⟨_, _, h1, h1', (irrDecomp_unique h2 h2' h).map _⟩

/-- C17, C22: the maximal standard monomials. -/
theorem C22_msm {o o' : Opts} (ho : o.valid .msm) (ho' : o'.valid .msm) (rnd rnd' : List ℕ → ℕ → ℕ)
    (G G' : List (Term n)) (h : ∀ m, mem G m ↔ mem G' m) :
    SameOutput (facadeMsm o rnd G) (facadeMsm o' rnd' G') := by
  obtain ⟨D, h1, h2, h3⟩ := facadeMsm_spec ho rnd G
  obtain ⟨D', h1', h2', h3'⟩ := facadeMsm_spec ho' rnd' G'
  refine ⟨_, _, h1, h1', List.Perm.map _ ((List.perm_ext_iff_of_nodup h2 h2').2 fun m => ?_)⟩
  rw [h3, h3', msm_congr_mem h]

theorem minGens_congr {G G' K : List (Term n)} (h : ∀ m, mem G m ↔ mem G' m) (hK : MinGens K G) :
    ∀ K', MinGens K' G' → K.Perm K' := fun K' hK' =>
  anti_unique_perm hK.anti hK'.anti fun m => by rw [hK.mem_iff, h, hK'.mem_iff]

theorem lcm_congr {G G' K K' : List (Term n)} (h : ∀ m, mem G m ↔ mem G' m) (hK : MinGens K G) (hK' : MinGens K' G') :
    lcmOf K = lcmOf K' := by
  have hp := minGens_congr h hK K' hK'
  exact le_antisymm (lcmOf_le fun g hg => le_lcmOf (hp.mem_iff.1 hg)) (lcmOf_le fun g hg => le_lcmOf (hp.mem_iff.2 hg))

/-- C17, C22: the Alexander dual on a point; the point is refused for both or for neither. -/
theorem C22_dual {o o' : Opts} (ho : o.valid .msm) (ho' : o'.valid .msm) (rnd rnd' : List ℕ → ℕ → ℕ)
    (G G' : List (Term n)) (h : ∀ m, mem G m ↔ mem G' m) (a : Fin n → ℤ) :
    (facadeDual o rnd G a = .error ∧ facadeDual o' rnd' G' a = .error) ∨
      ∃ l l', facadeDual o rnd G a = .ok l ∧ facadeDual o' rnd' G' a = .ok l' ∧ l.Perm l' := by
  have hK := minimize_minGens G
  have hK' := minimize_minGens G'
  have hl := lcm_congr h hK hK'
  by_cases ha : ∃ v, a v < lcmOf (minimize G) v
  · exact Or.inl ⟨facadeDual_error rnd G a hK ha, facadeDual_error rnd' G' a hK' (hl ▸ ha)⟩
  · push Not at ha
    have h1 : a = toInt fun v => (a v).toNat := by
      funext v; have := ha v; simp only [toInt]; omega
    have hle : ∀ g, g ≤ lcmOf (minimize G) → g ≤ fun v => (a v).toNat := fun g hg =>
      hg.trans (Term.le_def.2 fun v => by have := ha v; omega)
    obtain ⟨D, h2, h3, h4, -⟩ := facadeDual_ok ho rnd G (fun v => (a v).toNat) hK fun g hg => hle g (le_lcmOf hg)
    obtain ⟨D', h2', h3', h4', -⟩ := facadeDual_ok ho' rnd' G' (fun v => (a v).toNat) hK' fun g hg =>
      hle g (hl ▸ le_lcmOf hg)
    rw [h1]
    exact Or.inr ⟨_, _, h2, h2', (anti_unique_perm h3 h3' fun m => by rw [h4, h4', h]).map _⟩

theorem assocPrime_congr {G G' : List (Term n)} (h : ∀ m, mem G m ↔ mem G' m) (S : Finset (Fin n)) :
    IsAssocPrime G S ↔ IsAssocPrime G' S := by
  unfold IsAssocPrime; simp only [h]

/-- C17, C22: the associated primes. -/
theorem C22_associatedPrimes {o o' : Opts} (ho : o.valid .msm) (ho' : o'.valid .msm) (rnd rnd' : List ℕ → ℕ → ℕ)
    (G G' : List (Term n)) (h : ∀ m, mem G m ↔ mem G' m) :
    SameOutput (facadeAssociatedPrimes o rnd G) (facadeAssociatedPrimes o' rnd' G') := by
  obtain ⟨L, h1, h2, h3⟩ := facadeAssociatedPrimes_spec ho rnd G
  obtain ⟨L', h1', h2', h3'⟩ := facadeAssociatedPrimes_spec ho' rnd' G'
  refine ⟨_, _, h1, h1', List.Perm.map _ ((List.perm_ext_iff_of_nodup h2 h2').2 fun S => ?_)⟩
  rw [h3, h3', assocPrime_congr h]

theorem hilbertNumerator_congr {G G' : List (Term n)} (h : ∀ m, mem G m ↔ mem G' m) (p : List (ℤ × Term n)) :
    IsHilbertNumerator p G ↔ IsHilbertNumerator p G' := by
  unfold IsHilbertNumerator
  simp only [h]

/-- C17, C22: the multigraded Hilbert-Poincaré series. -/
theorem C22_multigradedHilbert {o o' : Opts} (ho : o.valid .hilbert) (ho' : o'.valid .hilbert) (rnd rnd' : List ℕ → ℕ → ℕ)
    (G G' : List (Term n)) (h : ∀ m, mem G m ↔ mem G' m) :
    SameOutput (facadeMultigradedHilbert o rnd G) (facadeMultigradedHilbert o' rnd' G') := by
  obtain ⟨p, h1, h2, h3, -⟩ := facadeMultigraded_spec ho rnd G
  obtain ⟨p', h1', h2', h3', -⟩ := facadeMultigraded_spec ho' rnd' G'
  refine ⟨_, _, h1, h1', List.Perm.map _ (h3.perm h3' fun m => ?_)⟩
  rw [← coefSum_eq_coefOf, ← coefSum_eq_coefOf]
  exact coefSum_eq_of_series (fun m => by rw [h2 m, h2' m]; simp only [h]) m

/-- C17, C22: the univariate Hilbert-Poincaré series is even emitted in the same order. -/
theorem C22_univariateHilbert {o o' : Opts} (ho : o.valid .hilbert) (ho' : o'.valid .hilbert) (rnd rnd' : List ℕ → ℕ → ℕ)
    (order order' : List (ℤ × ℤ) → List (ℤ × ℤ)) (hord : ∀ l, (order l).Perm l) (hord' : ∀ l, (order' l).Perm l)
    (G G' : List (Term n)) (h : ∀ m, mem G m ↔ mem G' m) :
    ∃ l, facadeUnivariateHilbert o rnd order G = some l ∧ facadeUnivariateHilbert o' rnd' order' G' = some l := by
  obtain ⟨p, q, h1, h2, h3, h4, h5⟩ := facadeUnivariate_spec ho rnd hord G
  obtain ⟨p', q', h1', h2', h3', h4', h5'⟩ := facadeUnivariate_spec ho' rnd' hord' G'
  have hq : q.Perm q' := h3.perm h3' fun d => by
    rw [h5, h5']
    refine coefOf_substT (fun m => ?_) d
    rw [← coefSum_eq_coefOf, ← coefSum_eq_coefOf]
    exact coefSum_eq_of_series (fun m => by rw [h2 m, h2' m]; simp only [h]) m
  have : q = q' := hq.eq_of_pairwise (le := fun a b => a.2 > b.2) (fun a b _ _ ha hb => by omega) h4 h4'
  subst this
  exact ⟨_, h1, h1'⟩

/-- C17: the dimension. -/
theorem C17_dimension (G G' : List (Term n)) (h : ∀ m, mem G m ↔ mem G' m) : dimension G = dimension G' := by
  obtain ⟨h1, h2⟩ := C14_dimension G
  obtain ⟨h1', h2'⟩ := C14_dimension G'
  by_cases h0 : mem G 0
  · rw [h1 h0, h1' ((h 0).1 h0)]
  · have key : ∀ {G G' : List (Term n)}, (∀ m, mem G m ↔ mem G' m) → ∀ S : Finset (Fin n),
        (∀ g ∈ G, ∃ v, v ∉ S ∧ 0 < g v) → ∀ g ∈ G', ∃ v, v ∉ S ∧ 0 < g v := by
      intro G G' h S hS g hg
      obtain ⟨g', hg', hle⟩ := (h g).2 (mem_self hg)
      obtain ⟨v, hv, h0⟩ := hS g' hg'
      have := Term.le_def.1 hle v
      exact ⟨v, hv, by omega⟩
    have := h2' fun hc => h0 ((h 0).2 hc)
    refine (h2 h0).unique ⟨?_, ?_⟩
    · obtain ⟨S, hS, hG⟩ := this.1
      exact ⟨S, hS, key (fun m => (h m).symm) S hG⟩
    · rintro k ⟨S, hS, hG⟩
      exact this.2 ⟨S, hS, key h S hG⟩

/-- C17: calls of a consumer that report the same ideal with its generators in some order. -/
theorem C17_maximalStandardMonomials (rnd rnd' : List ℕ → ℕ → ℕ) (G G' : List (Term n)) (h : ∀ m, mem G m ↔ mem G' m) :
    ∃ l l', maximalStandardMonomials rnd G = some (Event.block l) ∧
      maximalStandardMonomials rnd' G' = some (Event.block l') ∧ l.Perm l' := by
  obtain ⟨l, l', h1, h2, h3⟩ := C22_msm apiOpts_valid apiOpts_valid rnd rnd' G G' h
  exact ⟨l, l', by unfold maximalStandardMonomials; rw [h1]; rfl, by unfold maximalStandardMonomials; rw [h2]; rfl, h3⟩

/-- C17: the irreducible decomposition; the result is `false` for both or for neither. -/
theorem C17_irreducibleDecomposition (rnd rnd' : List ℕ → ℕ → ℕ) (G G' : List (Term n)) (h : ∀ m, mem G m ↔ mem G' m) :
    (irreducibleDecompositionAsMonomials rnd G = some (false, []) ∧
      irreducibleDecompositionAsMonomials rnd' G' = some (false, [])) ∨
    ∃ l l', irreducibleDecompositionAsMonomials rnd G = some (true, Event.block l) ∧
      irreducibleDecompositionAsMonomials rnd' G' = some (true, Event.block l') ∧ l.Perm l' := by
  have hnil : ∀ {G G' : List (Term n)}, (∀ m, mem G m ↔ mem G' m) → G = [] → G' = [] := by
    intro G G' h hG
    cases G' with
    | nil => rfl
    | cons g l =>
      obtain ⟨g', hg', -⟩ := (h g).2 (mem_self (by simp))
      rw [hG] at hg'; simp at hg'
  by_cases hG : G = []
  · have hG' := hnil h hG
    subst hG; subst hG'
    exact Or.inl ⟨rfl, rfl⟩
  · have hG' : G' ≠ [] := fun hc => hG (hnil (fun m => (h m).symm) hc)
    obtain ⟨l, l', h1, h2, h3⟩ := C22_irrDecom apiOpts_valid apiOpts_valid rnd rnd' G G' h
    refine Or.inr ⟨l, l', ?_, ?_, h3⟩
    · unfold irreducibleDecompositionAsMonomials; rw [if_neg (by simpa using hG), h1]; rfl
    · unfold irreducibleDecompositionAsMonomials; rw [if_neg (by simpa using hG'), h2]; rfl

/-- C17: the Alexander dual; the result is `false` for both or for neither. -/
theorem C17_alexanderDual (rnd rnd' : List ℕ → ℕ → ℕ) (G G' : List (Term n)) (h : ∀ m, mem G m ↔ mem G' m)
    (a : Fin n → ℤ) :
    (alexanderDual rnd G (some a) = .ok (false, []) ∧ alexanderDual rnd' G' (some a) = .ok (false, [])) ∨
    ∃ l l', alexanderDual rnd G (some a) = .ok (true, Event.block l) ∧
      alexanderDual rnd' G' (some a) = .ok (true, Event.block l') ∧ l.Perm l' := by
  rcases C22_dual apiOpts_valid apiOpts_valid rnd rnd' G G' h a with ⟨h1, h2⟩ | ⟨l, l', h1, h2, h3⟩
  · left; unfold alexanderDual; simp only [h1, h2, and_self]
  · right; refine ⟨l, l', ?_, ?_, h3⟩ <;> unfold alexanderDual <;> simp only [h1, h2]

/-- Two different lists of generators of ⟨x², xy⟩. -/
example : ∀ m, mem [(![2, 0] : Term 2), ![1, 1]] m ↔ mem [(![1, 1] : Term 2), ![3, 0], ![1, 1], ![2, 0], ![1, 4]] m := by
  intro m
  simp [mem, Term.le_def, Fin.forall_fin_succ]
  omega

/-- Two different valid sets of options. -/
example : Opts.valid .msm ⟨true, true, .median⟩ ∧ Opts.valid .msm ⟨false, false, .maxlabel⟩ ∧
    Opts.valid .hilbert ⟨false, true, .gcd⟩ := by
  refine ⟨⟨by simp, by simp⟩, ⟨by simp, by simp⟩, ⟨by simp, fun _ => rfl⟩⟩

end Frobby
