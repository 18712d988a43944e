import Verif.TransformLemmas5
import Mathlib.Data.List.Perm.Basic

/-!
# Lemmas about the canonical output of the action `transform`
-/

namespace Frobby

open NamedIdeal

/-- Two lists have the same elements up to order and a relation. -/
def UpTo (S : NamedIdeal → NamedIdeal → Prop) (Is Js : List NamedIdeal) : Prop := ∃ Ks, List.Perm Ks Js ∧ List.Forall₂ S Is Ks

theorem forall₂_comp3 {α β γ δ : Type} {S : α → β → Prop} {R : α → γ → Prop} {R' : β → δ → Prop} {S' : γ → δ → Prop}
    (h : ∀ a b c d, S a b → R a c → R' b d → S' c d) : ∀ {l1 : List α} {l2 : List β} {l3 : List γ} {l4 : List δ},
    List.Forall₂ S l1 l2 → List.Forall₂ R l1 l3 → List.Forall₂ R' l2 l4 → List.Forall₂ S' l3 l4 := by
  intro l1
  induction l1 with
  | nil => intro l2 l3 l4 h1 h2 h3; cases h1; cases h2; cases h3; exact .nil
  | cons a l1 ih =>
    intro l2 l3 l4 h1 h2 h3
    cases h1 with
    | cons a1 b1 =>
      cases h2 with
      | cons a2 b2 =>
        cases h3 with
        | cons a3 b3 => exact .cons (h _ _ _ _ a1 a2 a3) (ih b1 b2 b3)

theorem UpTo.next {S S' R R' : NamedIdeal → NamedIdeal → Prop} {Is Js Is' Js' : List NamedIdeal} (h : UpTo S Is Js) (hI : List.Forall₂ R Is Is')
    (hJ : List.Forall₂ R' Js Js') (hs : ∀ I J I' J', S I J → R I I' → R' J J' → S' I' J') : UpTo S' Is' Js' := by
  obtain ⟨Ks, h1, h2⟩ := h
  obtain ⟨Ks', h3, h4⟩ : ∃ Ks', List.Forall₂ R' Ks Ks' ∧ List.Perm Ks' Js' := by
    have : Relation.Comp List.Perm (List.Forall₂ R') Ks Js' := ⟨Js, h1, hJ⟩
    rwa [← List.forall₂_comp_perm_eq_perm_comp_forall₂] at this
  exact ⟨Ks', h4, forall₂_comp3 hs h2 hI h3⟩

theorem UpTo.perm {Is Js : List NamedIdeal} (h : UpTo Eq Is Js) : Is.Perm Js := by
  obtain ⟨Ks, h1, h2⟩ := h
  rw [List.forall₂_eq_eq_eq] at h2
  exact h2 ▸ h1

theorem forall₂_and_left {α β : Type} {R : α → β → Prop} {P : α → Prop} : ∀ {l : List α} {m : List β}, List.Forall₂ R l m → (∀ a ∈ l, P a) →
    List.Forall₂ (fun a b => P a ∧ R a b) l m := by
  intro l
  induction l with
  | nil => intro m h _; cases h; exact .nil
  | cons a l ih =>
    intro m h hp
    cases h with
    | cons h1 h2 => exact .cons ⟨hp a (by simp), h1⟩ (ih h2 fun b hb => hp b (by simp [hb]))

theorem mapM_eq_forall₂ {α β : Type} {f : α → Option β} : ∀ {l : List α} {m : List β}, l.mapM f = some m → List.Forall₂ (fun a b => f a = some b) l m := by
  intro l
  induction l with
  | nil => intro m h; cases h; exact .nil
  | cons a l ih =>
    intro m h
    rw [List.mapM_cons] at h
    obtain ⟨b, hb, h⟩ := Option.bind_eq_some_iff.1 h
    obtain ⟨m', hm, h⟩ := Option.bind_eq_some_iff.1 h
    cases h
    exact .cons hb (ih hm)

/-- What is needed about the first loop over the ideals to compare two inputs. -/
theorem changeIdeal_same (o : TransformOpts) (hd : o.deform = false) {I J I' J' : NamedIdeal} (hI : I.Ok) (hJ : J.Ok) (h : I.Same J)
    (h1 : changeIdeal o I = some I') (h2 : changeIdeal o J = some J') : I'.Same J' := by
  unfold changeIdeal at h1 h2
  simp only [hd, Bool.false_eq_true, if_false] at h1 h2
  obtain ⟨A, hA, h1⟩ := Option.bind_eq_some_iff.1 h1
  obtain ⟨B, hB, h2⟩ := Option.bind_eq_some_iff.1 h2
  obtain ⟨okA, okB, sAB⟩ : A.Ok ∧ B.Ok ∧ A.Same B := by
    by_cases hr : o.radical = true
    · rw [if_pos hr, facadeRadical_eq hI, Option.some.injEq] at hA
      rw [if_pos hr, facadeRadical_eq hJ, Option.some.injEq] at hB
      subst hA hB
      exact ⟨hI.takeRadical, hJ.takeRadical, h.takeRadical⟩
    · rw [if_neg hr, Option.some.injEq] at hA hB
      subst hA hB
      exact ⟨hI, hJ, h⟩
  obtain ⟨C, hC, h1⟩ := Option.bind_eq_some_iff.1 h1
  obtain ⟨D, hD, h2⟩ := Option.bind_eq_some_iff.1 h2
  rw [Option.some.injEq] at h1 h2
  subst h1 h2
  obtain ⟨okA', okB', sAB'⟩ : (if o.swap01 then A.swap01 else A).Ok ∧ (if o.swap01 then B.swap01 else B).Ok ∧
      (if o.swap01 then A.swap01 else A).Same (if o.swap01 then B.swap01 else B) := by
    by_cases hs : o.swap01 = true
    · simp only [hs, if_true]; exact ⟨okA.swap01, okB.swap01, sAB.swap01 okA okB⟩
    · simp only [hs]; exact ⟨okA, okB, sAB⟩
  by_cases hm : o.minimize = true
  · rw [if_pos hm] at hC hD
    exact Same.minimize okA' okB' (sAB'.sameSet okA' okB') hC hD
  · rw [if_neg hm, Option.some.injEq] at hC hD
    subst hC hD
    exact sAB'

/-- The same if the generators need not be the same, as they are minimized. -/
theorem changeIdeal_sameSet (o : TransformOpts) (hd : o.deform = false) (hs : o.swap01 = false) (hm : o.minimize = true) {I J I' J' : NamedIdeal}
    (hI : I.Ok) (hJ : J.Ok) (h : I.SameSet J) (h1 : changeIdeal o I = some I') (h2 : changeIdeal o J = some J') : I'.Same J' := by
  unfold changeIdeal at h1 h2
  simp only [hd, hs, hm, Bool.false_eq_true, if_false, if_true] at h1 h2
  obtain ⟨A, hA, h1⟩ := Option.bind_eq_some_iff.1 h1
  obtain ⟨B, hB, h2⟩ := Option.bind_eq_some_iff.1 h2
  obtain ⟨okA, okB, sAB⟩ : A.Ok ∧ B.Ok ∧ A.SameSet B := by
    by_cases hr : o.radical = true
    · rw [if_pos hr, facadeRadical_eq hI, Option.some.injEq] at hA
      rw [if_pos hr, facadeRadical_eq hJ, Option.some.injEq] at hB
      subst hA hB
      refine ⟨hI.takeRadical, hJ.takeRadical, h.1, fun m => ?_⟩
      rw [takeRadical_mem hI, takeRadical_mem hJ]
      exact exists_congr fun k => h.2 _
    · rw [if_neg hr, Option.some.injEq] at hA hB
      subst hA hB
      exact ⟨hI, hJ, h⟩
  obtain ⟨C, hC, h1⟩ := Option.bind_eq_some_iff.1 h1
  obtain ⟨D, hD, h2⟩ := Option.bind_eq_some_iff.1 h2
  rw [Option.some.injEq] at h1 h2
  subst h1 h2
  exact Same.minimize okA okB sAB hC hD

theorem arrangeIdeal_same (o : TransformOpts) (hc : o.canon = true) {I J : NamedIdeal} (hI : I.Ok) (hJ : J.Ok) (h : I.Same J) :
    arrangeIdeal o I = arrangeIdeal o J := by
  obtain ⟨okA, okB, sAB⟩ : (if o.addPurePowers then I.addPurePowers else I).Ok ∧ (if o.addPurePowers then J.addPurePowers else J).Ok ∧
      (if o.addPurePowers then I.addPurePowers else I).Same (if o.addPurePowers then J.addPurePowers else J) := by
    by_cases hs : o.addPurePowers = true
    · simp only [hs, if_true]; exact ⟨(powersAdded hI).ok, (powersAdded hJ).ok, h.addPurePowers hI hJ⟩
    · simp only [hs]; exact ⟨hI, hJ, h⟩
  unfold arrangeIdeal
  simp only [hc, if_true, Bool.or_true]
  have key := sAB.sorted okA okB
  split
  · have h1 : ∀ K : NamedIdeal, K.sortGeneratorsUnique = { K.sortGenerators with terms := uniqueGens K.sortGenerators.terms } := fun K => rfl
    rw [h1, h1, key]
  · exact key

theorem trimmed_same {names names' m m' : List Text} {Is Js Is' Js' : List NamedIdeal} (hp : names.Perm names') (hn : names.Nodup)
    (h : UpTo NamedIdeal.Same Is Js) (h1 : Trimmed (names, Is) (m, Is')) (h2 : Trimmed (names', Js) (m', Js')) :
    m.Perm m' ∧ UpTo NamedIdeal.Same Is' Js' := by
  obtain ⟨a1, a2, a3⟩ := h1
  obtain ⟨b1, b2, b3⟩ := h2
  simp only at a1 a2 a3 b1 b2 b3
  have hmm : m.Perm m' := by
    refine (List.perm_ext_iff_of_nodup (hn.sublist a1) ((hp.nodup_iff.1 hn).sublist b1)).2 fun x => ?_
    rw [a2, b2, hp.mem_iff]
    refine and_congr_right fun _ => ?_
    obtain ⟨Ks, k1, k2⟩ := h
    have : (∃ I ∈ Is, ∃ f ∈ I.monomials, f x ≠ 0) ↔ ∃ I ∈ Ks, ∃ f ∈ I.monomials, f x ≠ 0 := by
      constructor
      · rintro ⟨I, hI, f, hf, hx⟩
        obtain ⟨K, hK, hs⟩ := forall₂_mem_right k2.flip hI
        exact ⟨K, hK, f, hs.2.mem_iff.1 hf, hx⟩
      · rintro ⟨K, hK, f, hf, hx⟩
        obtain ⟨I, hI, hs⟩ := forall₂_mem_right k2 hK
        exact ⟨I, hI, f, hs.2.mem_iff.2 hf, hx⟩
    rw [this]
    exact exists_congr fun I => and_congr_left fun _ => k1.mem_iff
  refine ⟨hmm, h.next a3 b3 fun I J I' J' hs hI hJ => ⟨?_, ?_⟩⟩
  · rw [hI.2.1, hJ.2.1]; exact hmm
  · rw [hI.2.2, hJ.2.2]; exact hs.2

theorem products_same {names names' : List Text} {Is Js : List NamedIdeal} {A B : NamedIdeal} (hp : names.Perm names') (h : UpTo NamedIdeal.Same Is Js)
    (hA : A.names = names) (hB : B.names = names') (mA : A.monomials = Is.map fun I x => (I.monomials.map fun f => f x).sum)
    (mB : B.monomials = Js.map fun I x => (I.monomials.map fun f => f x).sum) : A.Same B := by
  refine ⟨by rw [hA, hB]; exact hp, ?_⟩
  rw [mA, mB]
  obtain ⟨Ks, k1, k2⟩ := h
  have : Is.map (fun I x => (I.monomials.map fun f => f x).sum) = Ks.map fun I x => (I.monomials.map fun f => f x).sum := by
    have : List.Forall₂ Eq (Is.map fun I x => (I.monomials.map fun f => f x).sum) (Ks.map fun I x => (I.monomials.map fun f => f x).sum) := by
      rw [List.forall₂_map_left_iff, List.forall₂_map_right_iff]
      refine k2.imp fun I K hs => ?_
      funext x
      exact (hs.2.map _).sum_eq
    rwa [List.forall₂_eq_eq_eq] at this
  rw [this]
  exact k1.map _

/-- The part of `transform` after the products, for two inputs that are the same up to `S`. -/
theorem rest_same (o : TransformOpts) (hc : o.canon = true) {S : NamedIdeal → NamedIdeal → Prop}
    (hS : ∀ I J I' J', I.Ok → J.Ok → S I J → changeIdeal o I = some I' → changeIdeal o J = some J' → I'.Same J')
    {Is Js : List NamedIdeal} (okI : ∀ I ∈ Is, I.Ok) (okJ : ∀ I ∈ Js, I.Ok) (h : UpTo S Is Js) :
    ∃ Is' Js', Is.mapM (changeIdeal o) = some Is' ∧ Js.mapM (changeIdeal o) = some Js' ∧ UpTo NamedIdeal.Same Is' Js' ∧
      (∀ I ∈ Is', I.Ok) ∧ (∀ I ∈ Js', I.Ok) := by
  have key : ∀ {Is : List NamedIdeal}, (∀ I ∈ Is, I.Ok) → ∃ Is', Is.mapM (changeIdeal o) = some Is' ∧
      List.Forall₂ (fun I J => I.Ok ∧ J.Ok ∧ changeIdeal o I = some J) Is Is' := fun {Is} ok =>
    mapM_forall₂ (f := changeIdeal o) fun I hI => by
      obtain ⟨J, j1, j2, _⟩ := changeIdeal_holds o (ok I hI)
      exact ⟨J, j1, ok I hI, j2, j1⟩
  obtain ⟨Is', a1, a2⟩ := key okI
  obtain ⟨Js', b1, b2⟩ := key okJ
  exact ⟨Is', Js', a1, b1, h.next a2 b2 fun I J I' J' s r r' => hS I J I' J' r.1 r'.1 s r.2.2 r'.2.2,
    forall₂_right_forall a2 fun _ _ h => h.2.1, forall₂_right_forall b2 fun _ _ h => h.2.1⟩

theorem arrange_same (o : TransformOpts) (hc : o.canon = true) {Is Js : List NamedIdeal} (okI : ∀ I ∈ Is, I.Ok) (okJ : ∀ I ∈ Js, I.Ok)
    (h : UpTo NamedIdeal.Same Is Js) : ((Is.map (arrangeIdeal o)).insertionSort fun I J => NamedIdeal.less J I = false) =
      (Js.map (arrangeIdeal o)).insertionSort fun I J => NamedIdeal.less J I = false := by
  refine insertionSort_perm_eq negOn_less totalOn_less (fun J hJ => ?_) (UpTo.perm ?_)
  · obtain ⟨I, hI, rfl⟩ := List.mem_map.1 hJ
    exact (arrangeIdeal_holds o (okI I hI)).1
  · refine h.next (R := fun I I' => I.Ok ∧ I' = arrangeIdeal o I) (R' := fun I I' => I.Ok ∧ I' = arrangeIdeal o I) ?_ ?_
      fun I J I' J' s r r' => by rw [r.2, r'.2]; exact arrangeIdeal_same o hc r.1 r'.1 s
    · rw [List.forall₂_map_right_iff, List.forall₂_same]; exact fun I hI => ⟨okI I hI, rfl⟩
    · rw [List.forall₂_map_right_iff, List.forall₂_same]; exact fun I hI => ⟨okJ I hI, rfl⟩

/-- Ideals in several rings. -/
theorem canon_rings (o : TransformOpts) (hc : o.canon = true) (ht : o.transpose = false) (hv : o.projectVar = 0) (hp : o.product = false)
    (hr : o.trimVariables = false) {S : NamedIdeal → NamedIdeal → Prop}
    (hS : ∀ I J I' J', I.Ok → J.Ok → S I J → changeIdeal o I = some I' → changeIdeal o J = some J' → I'.Same J')
    {Is Js : List NamedIdeal} (okI : ∀ I ∈ Is, I.Ok) (okJ : ∀ I ∈ Js, I.Ok) (h : UpTo S Is Js) (names names' : List Text) :
    ∃ Ks, transformFamily o (names, Is) = .ok (orderedNames names, Ks) ∧ transformFamily o (names', Js) = .ok (orderedNames names', Ks) := by
  obtain ⟨Is', Js', h1, h2, h3, h4, h5⟩ := rest_same o hc hS okI okJ h
  refine ⟨(Is'.map (arrangeIdeal o)).insertionSort fun I J => NamedIdeal.less J I = false, ?_, ?_⟩
  · simp only [transformFamily, transposeStep, projectStep, productStep, trimStep, canonStep, ht, hv, hp, hr, hc, h1, Bool.false_eq_true, if_false, if_true,
      lt_irrefl, false_and]
  · rw [arrange_same o hc h4 h5 h3]
    simp only [transformFamily, transposeStep, projectStep, productStep, trimStep, canonStep, ht, hv, hp, hr, hc, h2, Bool.false_eq_true, if_false, if_true,
      lt_irrefl, false_and]

/-- Ideals in one ring. -/
theorem canon_ring (o : TransformOpts) (hc : o.canon = true) (ht : o.transpose = false) (hv : o.projectVar = 0) {S : NamedIdeal → NamedIdeal → Prop}
    (hS : ∀ I J I' J', I.Ok → J.Ok → S I J → changeIdeal o I = some I' → changeIdeal o J = some J' → I'.Same J')
    (hprod : o.product = true → (∀ I J, S I J → I.Same J) ∧ ∀ I J : NamedIdeal, I.Same J → S I J)
    {names names' : List Text} {Is Js : List NamedIdeal} (hn : names.Nodup) (hnn : names.Perm names') (oI : OneRing names Is) (oJ : OneRing names' Js)
    (h : UpTo S Is Js) : transformFamily o (names, Is) = transformFamily o (names', Js) := by
  have hn' := hnn.nodup_iff.1 hn
  obtain ⟨A, B, h1, h2, h3, h4, h5⟩ : ∃ A B : List NamedIdeal, productStep o (names, Is) = some (names, A) ∧ productStep o (names', Js) = some (names', B) ∧
      UpTo S A B ∧ OneRing names A ∧ OneRing names' B := by
    by_cases hp : o.product = true
    · obtain ⟨J, j1, j2, j3, j4⟩ := takeProducts_spec hn oI
      obtain ⟨K, k1, k2, k3, k4⟩ := takeProducts_spec hn' oJ
      refine ⟨[J], [K], by simp [productStep, hp, j1], by simp [productStep, hp, k1], ?_, by simp [OneRing, j2, j3], by simp [OneRing, k2, k3]⟩
      have hsame : UpTo NamedIdeal.Same Is Js := by
        obtain ⟨Ks, p1, p2⟩ := h
        exact ⟨Ks, p1, p2.imp fun _ _ q => (hprod hp).1 _ _ q⟩
      exact ⟨[K], List.Perm.refl _, .cons ((hprod hp).2 _ _ (products_same hnn hsame j3 k3 j4 k4)) .nil⟩
    · exact ⟨Is, Js, by simp [productStep, hp], by simp [productStep, hp], h, oI, oJ⟩
  obtain ⟨A', B', a1, b1, ab, okA, okB⟩ := rest_same o hc hS (fun I hI => (h4 I hI).1) (fun I hI => (h5 I hI).1) h3
  have oneA : OneRing names A' := fun I hI => by
    obtain ⟨I0, hI0, e⟩ := forall₂_mem_right (mapM_eq_forall₂ a1) hI
    obtain ⟨J, j1, _, j3, _⟩ := changeIdeal_holds o (h4 I0 hI0).1
    rw [e, Option.some.injEq] at j1
    subst j1
    exact ⟨okA I hI, j3.trans (h4 I0 hI0).2⟩
  have oneB : OneRing names' B' := fun I hI => by
    obtain ⟨I0, hI0, e⟩ := forall₂_mem_right (mapM_eq_forall₂ b1) hI
    obtain ⟨J, j1, _, j3, _⟩ := changeIdeal_holds o (h5 I0 hI0).1
    rw [e, Option.some.injEq] at j1
    subst j1
    exact ⟨okB I hI, j3.trans (h5 I0 hI0).2⟩
  obtain ⟨m, m', A2, B2, t1, t2, t3, t4, t5, t6⟩ : ∃ m m' A2 B2, trimStep o (names, A') = some (m, A2) ∧ trimStep o (names', B') = some (m', B2) ∧
      m.Perm m' ∧ UpTo NamedIdeal.Same A2 B2 ∧ (∀ I ∈ A2, I.Ok) ∧ ∀ I ∈ B2, I.Ok := by
    by_cases hr : o.trimVariables = true
    · obtain ⟨m, A2, k1, k2, k3, k4⟩ := trimVariables_spec hn oneA
      obtain ⟨m', B2, l1, l2, l3, l4⟩ := trimVariables_spec hn' oneB
      have := trimmed_same (m := m) (m' := m') (Is' := A2) (Js' := B2) hnn hn ab ⟨k2, k3, k4⟩ ⟨l2, l3, l4⟩
      exact ⟨m, m', A2, B2, by simp [trimStep, hr, k1], by simp [trimStep, hr, l1], this.1, this.2, forall₂_right_forall k4 fun _ _ h => h.1,
        forall₂_right_forall l4 fun _ _ h => h.1⟩
    · exact ⟨names, names', A', B', by simp [trimStep, hr], by simp [trimStep, hr], hnn, ab, okA, okB⟩
  simp only [transformFamily, transposeStep, projectStep, canonStep, ht, hv, hc, Bool.false_eq_true, if_false, if_true, lt_irrefl, false_and, h1, h2, a1, b1, t1, t2]
  rw [arrange_same o hc t5 t6 t4, orderedNames_congr t3]

end Frobby
