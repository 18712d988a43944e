import Verif.OptApiLemmas
import Verif.PropsDim
import Mathlib.Data.Fin.VecNotation

/-!
# C15, C38, C39: optimization over maximal standard monomials and irreducible components
-/

namespace Frobby

open Term

variable {n : ℕ}

/-! ## C15 -/

/-- C15: the result is true exactly if there is a maximal standard monomial. Then exactly one is given to the consumer, and
no other has a larger value. Otherwise no term is given to the consumer. -/
theorem C15_standardMonomialProgram (rnd : List ℕ → ℕ → ℕ) (G : List (Term n)) (l : Fin n → ℤ) :
    ((∃ m, Msm G m) → ∃ m, Msm G m ∧ (∀ m', Msm G m' → ∑ v, l v * (m' v : ℤ) ≤ ∑ v, l v * (m v : ℤ)) ∧
      solveStandardMonomialProgram rnd G l = some (true, Event.block [toInt m])) ∧
    ((¬ ∃ m, Msm G m) → solveStandardMonomialProgram rnd G l = some (false, Event.block [])) := by
  obtain ⟨value, S, h1, h2, h3, _⟩ := (solveStandardProgram_spec apiOptParams rnd G l).ex
  unfold solveStandardMonomialProgram
  rw [h1]
  constructor
  · intro hex
    obtain ⟨x, rfl, hne, hmax, hS⟩ := h2.found hex
    match S, hne, h3 rfl with
    | [m], _, _ =>
      obtain ⟨hm, hx⟩ := hS m (by simp)
      refine ⟨m, hm, fun m' hm' => ?_, rfl⟩
      rw [← hx]
      exact hmax.2 ⟨m', hm', rfl⟩
  · intro hex
    push Not at hex
    obtain ⟨rfl, rfl⟩ := h2.empty hex
    rfl

-- the ideal ⟨x^2, xy, y^2⟩ has the maximal standard monomials x and y, of the values 3 and 5
example : Msm [![2, 0], ![1, 1], ![0, 2]] (![1, 0] : Term 2) ∧ Msm [![2, 0], ![1, 1], ![0, 2]] (![0, 1] : Term 2) := by decide
-- the ideal ⟨x^2⟩ in two variables has none
example : ¬ ∃ m, Msm [![2, 0]] (m : Term 2) := by
  rintro ⟨m, h1, h2⟩
  obtain ⟨g, hg, hle⟩ := h2 1
  obtain rfl := List.mem_singleton.1 hg
  refine h1 ⟨_, hg, Term.le_def.2 fun i => ?_⟩
  have h0 := Term.le_def.1 hle 0
  match i with
  | 0 => simpa [Term.single] using h0
  | 1 => simp

/-! ## C38 -/

/-- C38: `solveStandardProgram` for all options: the value is the maximum of `d` over the maximal standard monomials, the
solutions given are distinct and have this value, and there is one if there is a maximal standard monomial. -/
theorem C38_standardProgram (p : OptParams) (rnd : List ℕ → ℕ → ℕ) (G : List (Term n)) (d : Fin n → ℤ) :
    ∃ value S, solveStandardProgram p rnd G d = some (value, S.map toInt) ∧ Solves (Msm G) d value S ∧
      (p.all = false → S.length ≤ 1) := by
  obtain ⟨value, S, h1, h2, h3, _⟩ := (solveStandardProgram_spec p rnd G d).ex
  exact ⟨value, S, h1, h2, h3⟩

/-- C38: `solveIrreducibleDecompositionProgram` for all options: the same over the irreducible components. -/
theorem C38_irrProgram (p : OptParams) (rnd : List ℕ → ℕ → ℕ) (G D : List (Term n)) (hD : IsIrrDecomp D G) (d : Fin n → ℤ) :
    ∃ value S, solveIrrProgram p rnd G d = some (value, S.map toInt) ∧ Solves (fun t => t ∈ D) d value S ∧
      (p.all = false → S.length ≤ 1) := by
  obtain ⟨value, S, h1, h2, h3, _⟩ := (solveIrrProgram_spec p rnd G d hD).ex
  exact ⟨value, S, h1, h2, h3⟩

/-- C38, the part that holds of "all solutions are reported if that is asked for": the maximum must not be 0. -/
theorem C38_allStandard_partial (p : OptParams) (rnd : List ℕ → ℕ → ℕ) (G : List (Term n)) (d : Fin n → ℤ)
    (hall : p.all = true) :
    ∃ value S, solveStandardProgram p rnd G d = some (value, S.map toInt) ∧ Solves (Msm G) d value S ∧
      (value ≠ some 0 → AllSolutions (Msm G) d value S) := by
  obtain ⟨value, S, h1, h2, _, h4⟩ := (solveStandardProgram_spec p rnd G d).ex
  exact ⟨value, S, h1, h2, h4 hall⟩

/-- C38, the same for irreducible components. -/
theorem C38_allIrr_partial (p : OptParams) (rnd : List ℕ → ℕ → ℕ) (G D : List (Term n)) (hD : IsIrrDecomp D G)
    (d : Fin n → ℤ) (hall : p.all = true) :
    ∃ value S, solveIrrProgram p rnd G d = some (value, S.map toInt) ∧ Solves (fun t => t ∈ D) d value S ∧
      (value ≠ some 0 → AllSolutions (fun t => t ∈ D) d value S) := by
  obtain ⟨value, S, h1, h2, _, h4⟩ := (solveIrrProgram_spec p rnd G d hD).ex
  exact ⟨value, S, h1, h2, h4 hall⟩

-- two solutions of the value 1
example : Msm [![2, 0], ![1, 1], ![0, 2]] (![1, 0] : Term 2) ∧ Msm [![2, 0], ![1, 1], ![0, 2]] (![0, 1] : Term 2) := by decide

/-! With all grades zero the state never leaves value 0, and only the first solution is kept. -/

/-- The states with all grades zero. -/
def ZeroState (st : OptState n) : Prop := st.maxValue = 0 ∧ st.toBeat = 0 ∧ st.sols.length ≤ 1

theorem optConsume_zero {c : OptConfig n} (hz : ∀ t x, c.grader.degree t = some x → x = 0) {st st' : OptState n} {t : Term n}
    (h : ZeroState st) (he : optConsume c st t = some st') : ZeroState st' := by
  obtain ⟨h1, h2, h3⟩ := h
  unfold optConsume at he
  match hd : c.grader.degree t with
  | none => rw [hd] at he; simp at he
  | some x =>
    rw [hd] at he
    have hx := hz t x hd
    subst hx
    simp only [h1, h2, lt_irrefl, decide_false, Bool.or_false, decide_true, Bool.and_true] at he
    split at he
    · rename_i hemp
      have hemp : st.sols = [] := by simpa using hemp
      split at he
      · obtain rfl := Option.some.inj he
        exact ⟨rfl, rfl, by simp [hemp]⟩
      · rename_i hall
        obtain rfl := Option.some.inj he
        exact ⟨rfl, by simp, by simp⟩
    · obtain rfl := Option.some.inj he
      exact ⟨h1, h2, h3⟩

theorem optConsume_all_zero {c : OptConfig n} (hz : ∀ t x, c.grader.degree t = some x → x = 0) :
    ∀ (outs : List (Term n)) (st st' : OptState n), ZeroState st → outs.foldlM (optConsume c) st = some st' → ZeroState st' := by
  intro outs
  induction outs with
  | nil => intro st st' h he; obtain rfl := Option.some.inj he; exact h
  | cons t ts ih =>
    intro st st' h he
    rw [List.foldlM_cons] at he
    match h1 : optConsume c st t with
    | none => rw [h1] at he; simp at he
    | some st1 =>
      rw [h1] at he
      exact ih st1 st' (optConsume_zero hz h h1) he

theorem optProcess_zero {c : OptConfig n} (hz : ∀ t x, c.grader.degree t = some x → x = 0) (rnd : List ℕ → ℕ → ℕ) :
    ∀ (fuel : ℕ) (path : List ℕ) (st st' : OptState n) (s : Slice n), ZeroState st →
      optProcess c rnd fuel path st s = some st' → ZeroState st' := by
  intro fuel
  induction fuel with
  | zero => intro path st st' s _ h; simp [optProcess] at h
  | succ fuel ih =>
    intro path st st' s h he
    unfold optProcess at he
    split at he
    · exact optConsume_all_zero hz _ st st' h he
    · split at he
      · simp at he
      · exact ih _ _ _ _ h he
      · split at he
        · simp at he
        · rename_i h1
          exact ih _ _ _ _ (ih _ _ _ _ h h1) he

theorem mapM_length {α β : Type} {f : α → Option β} : ∀ {l : List α} {r : List β}, l.mapM f = some r → l.length = r.length
  | [], r, h => by obtain rfl : [] = r := by simpa using h
                   rfl
  | a :: l, r, h => by
    rw [List.mapM_cons] at h
    simp only [Option.bind_eq_bind, Option.bind_eq_some_iff, Option.pure_def, Option.some.injEq] at h
    obtain ⟨b, _, bs, hbs, rfl⟩ := h
    simp [mapM_length hbs]

/-- C38: the code loses solutions if the maximum is 0: with the zero functional every maximal standard monomial is optimal,
but at most one is reported. -/
theorem C38_zero_value (p : OptParams) (rnd : List ℕ → ℕ → ℕ) (G : List (Term n)) :
    ∃ value S, solveStandardProgram p rnd G (fun _ => 0) = some (value, S) ∧ S.length ≤ 1 := by
  obtain ⟨value, S, h1, _⟩ := (solveStandardProgram_spec p rnd G fun _ => 0).ex
  refine ⟨value, S.map toInt, h1, ?_⟩
  unfold solveStandardProgram solveProgram optRun at h1
  have hz : ∀ (t : Term n) (x : ℤ), (Grader.new (fun _ => 0) (setIdeal G).1.decrement).degree t = some x → x = 0 := by
    intro t x hx
    unfold Grader.degree mkTerm at hx
    split at hx
    · rename_i hsome
      simp only [Option.map_some, Option.some.injEq] at hx
      rw [← hx]
      refine Finset.sum_eq_zero fun v _ => ?_
      have hv := hsome v
      have : ∀ y, (Grader.new (fun _ => 0) (setIdeal G).1.decrement).grade? v (t v) = some y → y = 0 := by
        intro y hy
        simp only [Grader.grade?, Grader.new, zero_mul, List.map_const', List.getElem?_replicate] at hy
        split at hy
        · exact (Option.some.inj hy).symm
        · simp at hy
      exact this _ (Option.some_get hv).symm
    · simp at hx
  split at h1
  · simp at h1
  · rename_i st hst
    split at hst
    · simp at hst
    · have hzs := optProcess_zero hz rnd _ _ _ _ _ (⟨rfl, rfl, by simp [OptState.init]⟩ : ZeroState (OptState.init n)) hst
      rw [Option.map_eq_some_iff] at h1
      obtain ⟨ts, hts, he⟩ := h1
      have hts' := congrArg Prod.snd he
      simp only at hts'
      rw [← hts', ← mapM_length hts]
      exact hzs.2.2

/-- C38: so the claim that all optimal solutions are reported is false. -/
theorem C38_not_all (p : OptParams) (rnd : List ℕ → ℕ → ℕ) :
    ∃ (n : ℕ) (G : List (Term n)) (d : Fin n → ℤ), ¬ ∃ value S, solveStandardProgram p rnd G d = some (value, S.map toInt) ∧
      value ≠ none ∧ AllSolutions (Msm G) d value S := by
  refine ⟨2, [![2, 0], ![1, 1], ![0, 2]], fun _ => 0, ?_⟩
  rintro ⟨value, S, h1, h2, h3⟩
  obtain ⟨value', S', h4, h5⟩ := C38_zero_value p rnd ([![2, 0], ![1, 1], ![0, 2]] : List (Term 2))
  obtain ⟨value'', S'', h6, h7, _⟩ := C38_standardProgram p rnd ([![2, 0], ![1, 1], ![0, 2]] : List (Term 2)) fun _ => 0
  rw [h1] at h4 h6
  obtain ⟨x, rfl⟩ := Option.ne_none_iff_exists'.1 h2
  have hx : x = 0 := by
    obtain ⟨y, h8, _, h9, _⟩ := h7.found ⟨![1, 0], by decide⟩
    have hy : some x = some y := by rw [← h8]; exact congrArg Prod.fst (Option.some.inj h6)
    obtain ⟨t, _, ht⟩ := h9.1
    rw [Option.some.inj hy, ht]; simp
  have ha := h3 x rfl ![1, 0] (by decide) (by rw [hx]; simp)
  have hb := h3 x rfl ![0, 1] (by decide) (by rw [hx]; simp)
  have hlen : S.length ≤ 1 := by
    have := congrArg Prod.snd (Option.some.inj h4)
    simp only at this
    rw [← this, List.length_map] at h5
    exact h5
  match S, hlen with
  | [], _ => simp at ha
  | [t], _ =>
    simp only [List.mem_singleton] at ha hb
    rw [← ha] at hb
    have := congrFun hb 0
    simp at this

/-! ## C39 -/

theorem IsIrrDecomp.le_one {D R : List (Term n)} (hD : IsIrrDecomp D R) (hR : ∀ g ∈ R, ∀ v, g v ≤ 1) :
    ∀ d ∈ D, ∀ v, d v ≤ 1 := by
  intro d hd v
  obtain ⟨c, hc, hcd⟩ := exists_irrLe (D := D) (d := fun i => if d i = 1 then 1 else 0) (by
    intro m hm
    obtain ⟨g, hg, hle⟩ := (hD.inter m).2 hm
    obtain ⟨i, h1, h2⟩ := (hD.inter g).1 (mem_self hg) d hd
    have h3 := hR g hg i
    have h4 : d i = 1 := by omega
    refine ⟨i, by simp [h4], ?_⟩
    have := le_def.1 hle i
    simp only [h4, if_true]
    omega)
  have hle : irrLe c d := by
    intro i hi
    obtain ⟨h1, h2⟩ := hcd i hi
    have h3 : d i = 1 := by
      by_contra hne
      simp [hne] at h1
    have h2 : (if d i = 1 then 1 else 0) ≤ c i := h2
    rw [h3] at h2 ⊢
    exact ⟨by omega, by simpa using h2⟩
  have := hD.eq_of_irrLe hc hd hle
  subst this
  by_contra hgt
  obtain ⟨h1, _⟩ := hcd v (by omega)
  have h1 : 0 < if c v = 1 then 1 else 0 := h1
  rw [if_neg (by omega)] at h1
  omega

/-- C39: the dimension and the codimension computed by the slice algorithm are those computed by `IdealFacade`, for all
options with simplification, and for all options if there is more than one variable or a generator. -/
theorem C39_sliceDimension_partial (p : OptParams) (rnd : List ℕ → ℕ → ℕ) (codim : Bool) (G : List (Term n))
    (h : n ≠ 1 ∨ G ≠ [] ∨ p.opts.simp = true ∨ p.opts.split.isLabel = true) :
    sliceDimension p rnd codim G = some (if codim then codimension G else dimension G) := by
  have hG := setIdeal_spec G
  obtain ⟨hd1, hd2⟩ := C14_dimension G
  have hsum := C14_sum G
  have h0 : contains (setIdeal G).2 0 = true ↔ mem G 0 := by
    rw [contains_iff, hG.mem_floor]
    have : floorId (tExp G) (tNum G) 0 = 0 := by
      funext v
      by_contra hne
      have h1 := hG.sys.floor_le (0 : Term n) v
      have h2 := hG.sys.mono v 0 (floorId (tExp G) (tNum G) 0 v) (Nat.pos_of_ne_zero hne) (hG.sys.floor_lt 0 v)
      simp only [Pi.zero_apply] at h1
      omega
    rw [this]
  unfold sliceDimension
  by_cases hu : mem G 0
  · rw [if_pos (h0.2 hu)]
    have := hd1 hu
    congr 1
    split <;> omega
  · rw [if_neg (fun hc => hu (h0.1 hc))]
    have hR := facadeRadical_spec G
    set R := facadeRadical (setIdeal G).1 (setIdeal G).2 with hRdef
    obtain ⟨D, _, hD⟩ := facadeIrrDecom_spec (o := apiOpts) ⟨by simp [apiOpts], by simp⟩ (fun _ _ => 0) R
    have hN : (Translator.ofGens ([0, 1] : List (Term n))).maxId = tNum [0, 1] := funext (ofGens_maxId _)
    obtain ⟨value, S, h1, h2, _⟩ := (solveIrrProgramAt_spec { p with all := false } rnd hR.idSpec (fun _ => -1) (by
      intro hn hs hl g hg v
      have hne : G ≠ [] := by
        rcases h with h | h | h | h
        · exact absurd hn h
        · exact h
        · simp only at hs; rw [hs] at h; simp at h
        · simp only at hl; rw [hl] at h; simp at h
      have hP := addPurePowers_spec (Translator.ofGens ([0, 1] : List (Term n))) hR.anti
        (by rw [hN]; exact hR.idSpec.lt) (by rw [hN]; exact hR.idSpec.sys.pos)
      rcases hP.mem_of g hg with h3 | ⟨w, rfl⟩
      · exact hR.le g h3 v
      · obtain ⟨g0, hg0⟩ := List.exists_mem_of_ne_nil _ hne
        obtain ⟨k, hk, _⟩ := (hR.mem_iff _).2 (mem_self (List.mem_map.2 ⟨g0, hg0, rfl⟩))
        have huniq : ∀ w' : Fin n, w' = w := fun w' => by subst hn; exact Subsingleton.elim _ _
        have hlt : ∀ w', k w' < tNum ([0, 1] : List (Term n)) w' := hR.idSpec.lt k hk
        have hle : k ≤ single w ((Translator.ofGens ([0, 1] : List (Term n))).maxId w) := le_def.2 fun w' => by
          rw [huniq w', single_same, hN]; exact (hlt w).le
        have heq := hP.anti.eq_of_le (hP.subset k hk) hg hle
        have h4 := hlt w
        rw [heq, single_same, hN] at h4
        omega) hD).ex
    have hmin : MinGens R (G.map fun g : Term n => (fun v => if g v = 0 then 0 else 1 : Term n)) := by
      refine ⟨hR.mem_iff, hR.anti, fun g hg => ?_⟩
      obtain ⟨x, hx, hle⟩ := (hR.mem_iff g).1 (mem_self hg)
      obtain ⟨g', hg', hle'⟩ := (hR.mem_iff x).2 (mem_self hx)
      have := hR.anti.eq_of_le hg' hg (hle'.trans hle)
      subst this
      rw [le_antisymm hle' hle]; exact hx
    have hsizes : indepSizes R = indepSizes G := (indepSizes_minGens hmin).trans indepSizes_radical
    have hu' : ¬ mem R 0 := by
      rw [hR.mem_iff]
      rintro ⟨x, hx, hle⟩
      obtain ⟨g, hg, rfl⟩ := List.mem_map.1 hx
      refine hu ⟨g, hg, le_def.2 fun v => ?_⟩
      have h3 : (if g v = 0 then 0 else 1) ≤ 0 := le_def.1 hle v
      show g v ≤ 0
      split at h3 <;> omega
    have hdim : dimension R = dimension G := by
      have h3 := (C14_dimension R).2 hu'
      have h4 := hd2 hu
      change IsGreatest (indepSizes R) _ at h3
      change IsGreatest (indepSizes G) _ at h4
      rw [hsizes] at h3
      exact h3.unique h4
    have hcod : codimension R = codimension G := by
      have := C14_sum R
      omega
    have hleast := (C14_codimension R D hD).2 hu'
    have hsize : ∀ d ∈ D, ∑ v, (-1 : ℤ) * (d v : ℤ) = -(sizeOfSupport d : ℤ) := by
      intro d hd
      have h3 := hD.le_one hR.le d hd
      unfold sizeOfSupport
      rw [Finset.card_eq_sum_ones, Finset.sum_filter, Nat.cast_sum, ← Finset.sum_neg_distrib]
      refine Finset.sum_congr rfl fun v _ => ?_
      rcases Nat.le_one_iff_eq_zero_or_eq_one.1 (h3 v) with h4 | h4 <;> simp [h4]
    obtain ⟨⟨d0, hd0, hd0'⟩, hlow⟩ := hleast
    obtain ⟨x, rfl, _, hx, _⟩ := h2.found ⟨d0, hd0⟩
    have hxv : x = -codimension G := by
      refine le_antisymm ?_ ?_
      · obtain ⟨d, hd, he⟩ := hx.1
        rw [hsize d hd] at he
        have := hlow ⟨d, hd, rfl⟩
        omega
      · have := hx.2 ⟨d0, hd0, rfl⟩
        rw [hsize d0 hd0] at this
        omega
    change (solveIrrProgramAt { p with all := false } rnd (Translator.ofGens [0, 1]) R fun _ => -1).map _ = _
    rw [h1, hxv]
    simp only [Option.map_some, Option.getD_some]
    congr 1
    split <;> omega

/-- C39: with simplification, which is on by default and in `DimensionAction`, this holds for all ideals. -/
theorem C39_sliceDimension (p : OptParams) (rnd : List ℕ → ℕ → ℕ) (codim : Bool) (G : List (Term n))
    (h : p.opts.simp = true) : sliceDimension p rnd codim G = some (if codim then codimension G else dimension G) :=
  C39_sliceDimension_partial p rnd codim G (.inr (.inr (.inl h)))

-- the ideal ⟨xy, xz⟩ has codimension 1, the zero ideal in one variable codimension 0
example : codimension [![1, 1, 0], (![1, 0, 1] : Term 3)] = 1 ∧ codimension ([] : List (Term 1)) = 0 := by decide +kernel
example : sliceDimension apiOptParams (fun _ _ => 0) true ([] : List (Term 1)) = some 0 :=
  (C39_sliceDimension _ _ _ _ rfl).trans (by decide +kernel)

/-- C39: without simplification and labels the codimension of the zero ideal in one variable comes out as 1 instead of 0. -/
theorem C39_one_variable (el si : Bool) :
    sliceDimension ⟨⟨false, false, .median⟩, el, si, false⟩ (fun _ _ => 0) true ([] : List (Term 1)) = some 1 ∧
      codimension ([] : List (Term 1)) = 0 := by
  refine ⟨?_, ?_⟩
  · cases el <;> cases si <;> decide +kernel
  · decide +kernel

end Frobby
