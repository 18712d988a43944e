import Verif.TransformLemmas3
import Verif.TransformLemmas4
import Verif.PropsReader

/-!
# Lemmas about the action `transform` as a whole
-/

namespace Frobby

theorem lexicographicalCompare_lt : ∀ a b : Text, textLess a b = true ↔ a < b := by
  unfold textLess
  intro a
  induction a with
  | nil => intro b; cases b <;> simp [lexicographicalCompare]
  | cons c a ih =>
    intro b
    cases b with
    | nil => simp [lexicographicalCompare]
    | cons d b =>
      rw [lexicographicalCompare, List.cons_lt_cons_iff, ← ih b]
      have h1 : c.toNat < d.toNat ↔ c < d := Iff.rfl
      have h2 : d.toNat < c.toNat ↔ d < c := Iff.rfl
      have h3 : c.toNat = d.toNat → c = d := fun h => by rw [← Char.ofNat_toNat c, h, Char.ofNat_toNat]
      by_cases h : c.toNat < d.toNat
      · simp [h, h1.1 h]
      · by_cases h' : d.toNat < c.toNat
        · have : ¬ c < d := fun q => h (h1.2 q)
          have : ¬ c = d := fun q => by subst q; omega
          have hle : ¬ c ≤ d := fun q => absurd h2.1 (fun k => absurd (k h') (Char.not_lt.2 q))
          simp [h, h', *]
        · have : c = d := h3 (by omega)
          subst this
          simp

namespace NamedIdeal

theorem orderedNames_sorted {names : List Text} (hn : names.Nodup) : (orderedNames names).Pairwise (· < ·) := by
  have h1 := (orderedNames_perm names).nodup_iff.2 hn
  have h2 : (orderedNames names).Pairwise fun a b => textLess b a = false := by rw [orderedNames_eq]; exact sortTexts_sorted _
  refine (h2.and h1).imp fun {a b} h => ?_
  rw [← lexicographicalCompare_lt]
  cases h3 : textLess a b with
  | true => rfl
  | false => exact absurd (totalOn_text a b trivial trivial h3 h.1) h.2

theorem radicalOf {I : NamedIdeal} (hI : I.Ok) : I.RadicalOf I.takeRadical := by
  refine ⟨hI.takeRadical, rfl, ?_⟩
  rw [radical_monomials]
  refine List.map_congr_left fun f _ => ?_
  funext x
  split <;> omega

theorem swapOf {I : NamedIdeal} (hI : I.Ok) : I.SwapOf I.swap01 := by
  refine ⟨hI.swap01, rfl, ?_⟩
  rw [swap_monomials hI]
  refine List.map_congr_left fun f _ => ?_
  funext x
  by_cases hx : x ∈ I.names
  · simp only [hx, if_true, Equiv.swap_apply_def]
    split
    · rename_i h; simp [h]
    · rfl
  · simp [hx]

theorem minimizedOf {I : NamedIdeal} (hI : I.Ok) : ∃ J, I.facadeMinimize = some J ∧ I.MinimizedOf J ∧ J.terms.Pairwise fun a b => b < a := by
  obtain ⟨J, h1, h2, h3, h4, h5, h6, h7⟩ := facadeMinimize_ok hI
  refine ⟨J, h1, ⟨h2, h3, h4, h5, fun f hf => ?_⟩, h7⟩
  obtain ⟨t, ht, rfl⟩ := List.mem_map.1 hf
  rw [h3]
  exact List.mem_map.2 ⟨t, h6 t ht, rfl⟩

theorem deformationOf {I : NamedIdeal} (hI : I.Ok) : I.DeformationOf I.facadeDeform := by
  obtain ⟨h1, h2, h3, h4⟩ := facadeDeform_spec hI
  exact ⟨h1, h2, h3, fun v hv i hi => (h4 v hv i hi).1, fun v hv i hi j hj => ((h4 v hv i hi).2 j hj).1,
    fun v hv i hi j hj => ((h4 v hv i hi).2 j hj).2⟩

theorem powersAdded {I : NamedIdeal} (hI : I.Ok) : I.PowersAdded I.addPurePowers := by
  obtain ⟨h1, h2, h3⟩ := addPurePowers_monomials hI
  refine ⟨h1, h2, _, hI.nodup.filter _, fun x => ?_, h3⟩
  simp

theorem varsSorted {I : NamedIdeal} (hI : I.Ok) : I.VarsSorted I.sortVariables := by
  obtain ⟨h1, h2, h3⟩ := sortVariables_spec hI
  exact ⟨h1, h2 ▸ orderedNames_perm _, h2 ▸ orderedNames_sorted hI.nodup, h3⟩

theorem gensSorted {I : NamedIdeal} (hI : I.Ok) : I.GensSorted I.sortGenerators := by
  obtain ⟨h1, h2, h3, h4⟩ := sortGenerators_spec hI
  exact ⟨h1, h2, h3, h4⟩

theorem gensUnique {I : NamedIdeal} (hI : I.Ok) : I.GensUnique I.sortGeneratorsUnique := by
  obtain ⟨h1, h2, h3, h4⟩ := sortGeneratorsUnique_spec hI
  exact ⟨h1, h2, h3, h4⟩

theorem transposeOf (I : NamedIdeal) : I.TransposeOf I.transpose := by
  refine ⟨⟨(defaultNames_allowed _).2, fun t ht => ?_⟩, defaultNames_length _, by simp [transpose], fun i hi v hv => transpose_entry I hi hv⟩
  obtain ⟨v, _, rfl⟩ := List.mem_map.1 ht
  simp [transpose, defaultNames_length]

end NamedIdeal

/-! ## the steps -/

open NamedIdeal

theorem Step.of_true {α : Type} {c : Prop} {R : α → α → Prop} {a b : α} (hc : c) (h : R a b) : Step c R a b := ⟨fun _ => h, fun hn => absurd hc hn⟩

theorem Step.of_false {α : Type} {c : Prop} {R : α → α → Prop} {a : α} (hc : ¬ c) : Step c R a a := ⟨fun h => absurd h hc, fun _ => rfl⟩

/-- What the first loop over the ideals does with one ideal. -/
def Changed (o : TransformOpts) (I J : NamedIdeal) : Prop :=
  ∃ A B C, Step (o.radical = true) RadicalOf I A ∧ Step (o.swap01 = true) SwapOf A B ∧ Step (o.minimize = true) MinimizedOf B C ∧
    Step (o.deform = true) DeformationOf C J

/-- What the second loop over the ideals does with one ideal. -/
def Arranged (o : TransformOpts) (I J : NamedIdeal) : Prop :=
  ∃ A B, Step (o.addPurePowers = true) PowersAdded I A ∧ Step (o.canon = true) VarsSorted A B ∧ (o.unique = true → GensUnique B J) ∧
    (o.unique = false → Step (o.sort = true ∨ o.canon = true) GensSorted B J)

/-- The ring has its variables in increasing order and the ideals are rearranged. -/
def CanonOf (s s' : RingIdeals) : Prop := s'.1.Perm s.1 ∧ s'.1.Pairwise (· < ·) ∧ s'.2.Perm s.2

theorem changeIdeal_holds (o : TransformOpts) {I : NamedIdeal} (hI : I.Ok) : ∃ J, changeIdeal o I = some J ∧ J.Ok ∧ J.names = I.names ∧ Changed o I J := by
  obtain ⟨A, hA, okA, nA, sA⟩ : ∃ A, (if o.radical then I.facadeRadical else some I) = some A ∧ A.Ok ∧ A.names = I.names ∧
      Step (o.radical = true) RadicalOf I A := by
    by_cases h : o.radical = true
    · exact ⟨_, by rw [if_pos h, facadeRadical_eq hI], hI.takeRadical, rfl, .of_true h (radicalOf hI)⟩
    · exact ⟨_, by rw [if_neg h], hI, rfl, .of_false h⟩
  obtain ⟨B, hB, okB, nB, sB⟩ : ∃ B, (if o.swap01 then A.swap01 else A) = B ∧ B.Ok ∧ B.names = I.names ∧
      Step (o.swap01 = true) SwapOf A B := by
    by_cases h : o.swap01 = true
    · exact ⟨_, by rw [if_pos h], okA.swap01, nA, .of_true h (swapOf okA)⟩
    · exact ⟨_, by rw [if_neg h], okA, nA, .of_false h⟩
  obtain ⟨C, hC, okC, nC, sC⟩ : ∃ C, (if o.minimize then B.facadeMinimize else some B) = some C ∧ C.Ok ∧ C.names = I.names ∧
      Step (o.minimize = true) MinimizedOf B C := by
    by_cases h : o.minimize = true
    · obtain ⟨C, h1, h2, _⟩ := minimizedOf okB
      exact ⟨C, by rw [if_pos h, h1], h2.ok, h2.names.trans nB, .of_true h h2⟩
    · exact ⟨_, by rw [if_neg h], okB, nB, .of_false h⟩
  obtain ⟨D, hD, okD, nD, sD⟩ : ∃ D, (if o.deform then C.facadeDeform else C) = D ∧ D.Ok ∧ D.names = I.names ∧
      Step (o.deform = true) DeformationOf C D := by
    by_cases h : o.deform = true
    · exact ⟨_, by rw [if_pos h], (deformationOf okC).ok, (deformationOf okC).names.trans nC, .of_true h (deformationOf okC)⟩
    · exact ⟨_, by rw [if_neg h], okC, nC, .of_false h⟩
  refine ⟨D, ?_, okD, nD, A, B, C, sA, sB, sC, sD⟩
  unfold changeIdeal
  simp only [hA, Option.bind_some, hB, hC, hD]

theorem arrangeIdeal_holds (o : TransformOpts) {I : NamedIdeal} (hI : I.Ok) : (arrangeIdeal o I).Ok ∧ (arrangeIdeal o I).names.Perm I.names ∧
    (arrangeIdeal o I).names = (if o.canon then orderedNames I.names else I.names) ∧ Arranged o I (arrangeIdeal o I) := by
  obtain ⟨A, hA, okA, nA, sA⟩ : ∃ A, (if o.addPurePowers then I.addPurePowers else I) = A ∧ A.Ok ∧ A.names = I.names ∧
      Step (o.addPurePowers = true) PowersAdded I A := by
    by_cases h : o.addPurePowers = true
    · exact ⟨_, by rw [if_pos h], (powersAdded hI).ok, (powersAdded hI).names, .of_true h (powersAdded hI)⟩
    · exact ⟨_, by rw [if_neg h], hI, rfl, .of_false h⟩
  obtain ⟨B, hB, okB, nB, sB⟩ : ∃ B, (if o.canon then A.sortVariables else A) = B ∧ B.Ok ∧ B.names = (if o.canon then orderedNames I.names else I.names) ∧
      Step (o.canon = true) VarsSorted A B := by
    by_cases h : o.canon = true
    · exact ⟨_, by rw [if_pos h], (varsSorted okA).ok, by rw [if_pos h, ← nA]; rfl, .of_true h (varsSorted okA)⟩
    · exact ⟨_, by rw [if_neg h], okA, by rw [if_neg h, nA], .of_false h⟩
  have hperm : B.names.Perm I.names := by
    rw [nB]
    split
    · exact orderedNames_perm _
    · exact List.Perm.refl _
  unfold arrangeIdeal
  simp only [hA, hB]
  by_cases h : o.unique = true
  · rw [if_pos h]
    have := gensUnique okB
    exact ⟨this.ok, this.names ▸ hperm, this.names.trans nB, A, B, sA, sB, fun _ => this, fun h' => by rw [h] at h'; cases h'⟩
  · rw [if_neg h]
    by_cases h2 : o.sort = true ∨ o.canon = true
    · have := gensSorted okB
      rw [if_pos (by simpa using h2)]
      exact ⟨this.ok, this.names ▸ hperm, this.names.trans nB, A, B, sA, sB, fun h' => absurd h' h, fun _ => .of_true h2 this⟩
    · rw [if_neg (by simpa using h2)]
      exact ⟨okB, hperm, nB, A, B, sA, sB, fun h' => absurd h' h, fun _ => .of_false h2⟩

theorem forall₂_right_forall {α β : Type} {R : α → β → Prop} {P : β → Prop} {l : List α} {m : List β} (h : List.Forall₂ R l m) (hp : ∀ a b, R a b → P b) :
    ∀ b ∈ m, P b := fun b hb => by
  obtain ⟨a, _, h1⟩ := forall₂_mem_right h hb
  exact hp a b h1

theorem eraseIdx_eq_erase {names : List Text} (hn : names.Nodup) {i : ℕ} (hi : i < names.length) : names.eraseIdx i = names.erase (names.getD i []) := by
  rw [List.getD_eq_getElem _ _ hi, hn.erase_getElem]

/-- Everything that `transform` does with ideals in one ring, without `-transpose`. -/
theorem transformFamily_holds (o : TransformOpts) (ht : o.transpose = false) {names : List Text} (hn : names.Nodup) {Is : List NamedIdeal}
    (h : OneRing names Is) : ∃ s1 s2 s3 s4 s5 s', transformFamily o (names, Is) = .ok s' ∧
      Step (0 < o.projectVar ∧ o.projectVar ≤ names.length) (Projected (o.projectVar - 1)) (names, Is) s1 ∧
      Step (o.product = true) ProductOf s1 s2 ∧
      (s3.1 = s2.1 ∧ List.Forall₂ (Changed o) s2.2 s3.2) ∧
      Step (o.trimVariables = true) Trimmed s3 s4 ∧
      (s5.1 = s4.1 ∧ List.Forall₂ (Arranged o) s4.2 s5.2) ∧
      Step (o.canon = true) CanonOf s5 s' ∧ s'.1.Nodup ∧ OneRing s'.1 s'.2 := by
  obtain ⟨s1, h1, n1, r1, p1⟩ : ∃ s1 : Family, projectStep o (names, Is) = some s1 ∧ s1.1.Nodup ∧ OneRing s1.1 s1.2 ∧
      Step (0 < o.projectVar ∧ o.projectVar ≤ names.length) (Projected (o.projectVar - 1)) (names, Is) s1 := by
    by_cases hc : 0 < o.projectVar ∧ o.projectVar ≤ names.length
    · have hv : o.projectVar - 1 < names.length := by omega
      obtain ⟨Js, hJ, hR⟩ := mapM_forall₂ (f := NamedIdeal.projectVar (o.projectVar - 1))
        (R := ProjectedOf (names.getD (o.projectVar - 1) [])) (l := Is) fun I hI => by
          obtain ⟨J, j1, j2, j3, j4⟩ := projectVar_spec (h I hI).1 (v := o.projectVar - 1) (by rw [(h I hI).2]; exact hv)
          rw [(h I hI).2] at j3 j4
          exact ⟨J, j1, j2, by rw [j3, (h I hI).2, eraseIdx_eq_erase hn hv], j4⟩
      refine ⟨(names.eraseIdx (o.projectVar - 1), Js), ?_, hn.sublist (List.eraseIdx_sublist _ _), fun J hJm => ?_,
        .of_true hc ⟨eraseIdx_eq_erase hn hv, hR⟩⟩
      · unfold projectStep
        simp only
        rw [if_pos hc, hJ]
        rfl
      · obtain ⟨I, hI, hIJ⟩ := forall₂_mem_right hR hJm
        exact ⟨hIJ.ok, by rw [hIJ.names, (h I hI).2, eraseIdx_eq_erase hn hv]⟩
    · exact ⟨(names, Is), by unfold projectStep; simp only; rw [if_neg hc], hn, h, .of_false hc⟩
  obtain ⟨s2, h2, n2, r2, p2⟩ : ∃ s2 : Family, productStep o s1 = some s2 ∧ s2.1.Nodup ∧ OneRing s2.1 s2.2 ∧
      Step (o.product = true) ProductOf s1 s2 := by
    by_cases hc : o.product = true
    · obtain ⟨J, j1, j2, j3, j4⟩ := takeProducts_spec n1 r1
      refine ⟨(s1.1, [J]), by rw [productStep, if_pos hc, j1]; rfl, n1, fun K hK => ?_, .of_true hc ⟨rfl, J, rfl, j2, j3, j4⟩⟩
      simp only [List.mem_singleton] at hK
      subst hK
      exact ⟨j2, j3⟩
    · exact ⟨s1, by rw [productStep, if_neg hc], n1, r1, .of_false hc⟩
  obtain ⟨Js, h3, r3'⟩ := mapM_forall₂ (f := changeIdeal o) (R := fun I J => (J.Ok ∧ J.names = s2.1) ∧ Changed o I J) (l := s2.2) fun I hI => by
    obtain ⟨J, j1, j2, j3, j4⟩ := changeIdeal_holds o (r2 I hI).1
    exact ⟨J, j1, ⟨j2, j3.trans (r2 I hI).2⟩, j4⟩
  have r3 : OneRing s2.1 Js := forall₂_right_forall r3' fun _ _ h => h.1
  obtain ⟨s4, h4, n4, r4, p4⟩ : ∃ s4 : Family, trimStep o (s2.1, Js) = some s4 ∧ s4.1.Nodup ∧ OneRing s4.1 s4.2 ∧
      Step (o.trimVariables = true) Trimmed (s2.1, Js) s4 := by
    by_cases hc : o.trimVariables = true
    · obtain ⟨names', Ks, k1, k2, k3, k4⟩ := trimVariables_spec n2 r3
      exact ⟨(names', Ks), by rw [trimStep, if_pos hc, k1], n2.sublist k2, forall₂_right_forall k4 fun _ _ h => ⟨h.1, h.2.1⟩,
        .of_true hc ⟨k2, k3, k4⟩⟩
    · exact ⟨(s2.1, Js), by rw [trimStep, if_neg hc], n2, r3, .of_false hc⟩
  have r5 : ∀ J ∈ s4.2.map (arrangeIdeal o), J.Ok ∧ J.names = if o.canon then orderedNames s4.1 else s4.1 := by
    intro J hJ
    obtain ⟨I, hI, rfl⟩ := List.mem_map.1 hJ
    obtain ⟨a1, _, a3, _⟩ := arrangeIdeal_holds o (r4 I hI).1
    exact ⟨a1, by rw [a3, (r4 I hI).2]⟩
  refine ⟨s1, s2, (s2.1, Js), s4, (s4.1, s4.2.map (arrangeIdeal o)), canonStep o (s4.1, s4.2.map (arrangeIdeal o)), ?_, p1, p2,
    ⟨rfl, r3'.imp fun _ _ h => h.2⟩, p4, ⟨rfl, ?_⟩, ?_⟩
  · unfold transformFamily transposeStep
    simp only [ht, Bool.false_eq_true, if_false, h1, h2, h3, h4]
  · rw [List.forall₂_map_right_iff, List.forall₂_same]
    exact fun I hI => (arrangeIdeal_holds o (r4 I hI).1).2.2.2
  · unfold canonStep
    by_cases hc : o.canon = true
    · rw [if_pos hc]
      simp only [hc, if_true] at r5
      exact ⟨.of_true hc ⟨orderedNames_perm _, orderedNames_sorted n4, List.perm_insertionSort _ _⟩,
        (orderedNames_perm _).nodup_iff.2 n4, fun J hJ => r5 J ((List.perm_insertionSort _ _).mem_iff.1 hJ)⟩
    · rw [if_neg hc]
      simp only [hc, if_false] at r5
      exact ⟨.of_false hc, n4, r5⟩

end Frobby
