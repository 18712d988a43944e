import Verif.TransformLemmas6

/-!
# C50: the action `transform`

What the options mean is defined in `TransformSpec`. The options are applied in the order of the code: transpose, projectVar, product,
radical, swap01, minimize, deform, trimVariables, addPurePowers, canon, unique and sort.
-/

namespace Frobby

open NamedIdeal

/-- Two ideals in the ring with variables `a` and `b`. -/
def transformExample : List NamedIdeal :=
  [{ names := [t!"b", t!"a"], terms := [[2, 0], [1, 1], [3, 0]] }, { names := [t!"b", t!"a"], terms := [[0, 0], [0, 5]] }]

theorem transformExample_oneRing : OneRing [t!"b", t!"a"] transformExample := by
  intro I hI
  simp only [transformExample, List.mem_cons, List.not_mem_nil, or_false] at hI
  rcases hI with rfl | rfl <;> exact ⟨⟨by decide, by decide⟩, rfl⟩

/-- C50: for ideals in one ring and without `-transpose` the action does not fail, and the result is what the options say, one after
the other. Missing: ideals in different rings, for which it is false (`C50_rings_crash`). -/
theorem C50_transform_partial (o : TransformOpts) (ht : o.transpose = false) {names : List Text} (hn : names.Nodup) {Is : List NamedIdeal}
    (h : OneRing names Is) : ∃ s1 s2 s3 s4 s5 s', transformFamily o (names, Is) = .ok s' ∧
      Step (0 < o.projectVar ∧ o.projectVar ≤ names.length) (Projected (o.projectVar - 1)) (names, Is) s1 ∧
      Step (o.product = true) ProductOf s1 s2 ∧
      (s3.1 = s2.1 ∧ List.Forall₂ (Changed o) s2.2 s3.2) ∧
      Step (o.trimVariables = true) Trimmed s3 s4 ∧
      (s5.1 = s4.1 ∧ List.Forall₂ (Arranged o) s4.2 s5.2) ∧
      Step (o.canon = true) CanonOf s5 s' ∧ s'.1.Nodup ∧ OneRing s'.1 s'.2 :=
  transformFamily_holds o ht hn h

example : ∃ s', transformFamily { canon := true, minimize := true, deform := true, projectVar := 2, addPurePowers := true } ([t!"b", t!"a"], transformExample) = .ok s' := by
  obtain ⟨_, _, _, _, _, s', h, _⟩ := C50_transform_partial { canon := true, minimize := true, deform := true, projectVar := 2, addPurePowers := true } rfl
    (names := [t!"b", t!"a"]) (by decide) transformExample_oneRing
  exact ⟨s', h⟩

/-- The parts of the previous theorem that are not changed. -/
theorem Step.no {α : Type} {c : Prop} {R : α → α → Prop} {a b : α} (h : Step c R a b) (hc : ¬ c) : b = a := h.2 hc

theorem forall₂_eq_of {R : NamedIdeal → NamedIdeal → Prop} {Is Js : List NamedIdeal} (h : List.Forall₂ R Is Js) (he : ∀ I J, R I J → J = I) : Js = Is := by
  have : List.Forall₂ Eq Js Is := (h.imp fun I J hR => he I J hR).flip
  rwa [List.forall₂_eq_eq_eq] at this

/-- C50: options that change the ideals one by one, without other options. -/
theorem C50_single (o : TransformOpts) (ht : o.transpose = false) (hv : o.projectVar = 0) (hp : o.product = false) (hr : o.trimVariables = false)
    (hc : o.canon = false) {names : List Text} (hn : names.Nodup) {Is : List NamedIdeal} (h : OneRing names Is) :
    ∃ Js, transformFamily o (names, Is) = .ok (names, Js) ∧ List.Forall₂ (fun I J => ∃ K, Changed o I K ∧ Arranged o K J) Is Js := by
  obtain ⟨s1, s2, s3, s4, s5, s', h0, h1, h2, h3, h4, h5, h6, _⟩ := C50_transform_partial o ht hn h
  have e1 := h1.no (by omega)
  have e2 := h2.no (by simp [hp])
  have e4 := h4.no (by simp [hr])
  have e6 := h6.no (by simp [hc])
  subst e1 e2 e4 e6
  refine ⟨s'.2, ?_, ?_⟩
  · rw [h0, show s' = (s'.1, s'.2) from rfl, h5.1, h3.1]
  · have key : ∀ {A B C : List NamedIdeal}, List.Forall₂ (Changed o) A B → List.Forall₂ (Arranged o) B C →
        List.Forall₂ (fun I J => ∃ K, Changed o I K ∧ Arranged o K J) A C := by
      intro A
      induction A with
      | nil => intro B C a b; cases a; cases b; exact .nil
      | cons x A ih =>
        intro B C a b
        cases a with
        | cons a1 a2 =>
          cases b with
          | cons b1 b2 => exact .cons ⟨_, a1, b1⟩ (ih a2 b2)
    exact key h3.2 h5.2

example : ∃ Js, transformFamily { radical := true, unique := true } ([t!"b", t!"a"], transformExample) = .ok ([t!"b", t!"a"], Js) := by
  obtain ⟨Js, h, _⟩ := C50_single { radical := true, unique := true } rfl rfl rfl rfl rfl (names := [t!"b", t!"a"]) (by decide) transformExample_oneRing
  exact ⟨Js, h⟩

theorem Arranged.eq {o : TransformOpts} (h1 : o.addPurePowers = false) (h2 : o.canon = false) (h3 : o.unique = false) (h4 : o.sort = false)
    {I J : NamedIdeal} (h : Arranged o I J) : J = I := by
  obtain ⟨A, B, a, b, _, d⟩ := h
  rw [(d h3).no (by simp [h4, h2]), b.no (by simp [h2]), a.no (by simp [h1])]

theorem Changed.eq {o : TransformOpts} (h1 : o.radical = false) (h2 : o.swap01 = false) (h3 : o.minimize = false) (h4 : o.deform = false)
    {I J : NamedIdeal} (h : Changed o I J) : J = I := by
  obtain ⟨A, B, C, a, b, c, d⟩ := h
  rw [d.no (by simp [h4]), c.no (by simp [h3]), b.no (by simp [h2]), a.no (by simp [h1])]

theorem RadicalOf.mem {I J : NamedIdeal} (hI : I.Ok) (h : I.RadicalOf J) (m : Text → ℕ) : J.mem m ↔ ∃ k : ℕ, I.mem fun x => k * m x := by
  rw [← takeRadical_mem hI, eq_of_monomials h.ok hI.takeRadical h.names (h.gens.trans (radicalOf hI).gens.symm)]

/-- C50: `-radical` replaces each ideal by its radical: the monomials some power of which is in the ideal. The result is the ideal with
square free generators. -/
theorem C50_radical {names : List Text} (hn : names.Nodup) {Is : List NamedIdeal} (h : OneRing names Is) :
    ∃ Js, transformFamily { radical := true } (names, Is) = .ok (names, Js) ∧ List.Forall₂ (fun I J =>
      (∀ m, J.mem m ↔ ∃ k : ℕ, I.mem fun x => k * m x) ∧ J.monomials = I.monomials.map fun f x => min 1 (f x)) Is Js := by
  obtain ⟨Js, h1, h2⟩ := C50_single { radical := true } rfl rfl rfl rfl rfl hn h
  refine ⟨Js, h1, (forall₂_and_left h2 h).imp ?_⟩
  rintro I J ⟨hI, K, ⟨A, B, C, a, b, c, d⟩, e⟩
  rw [e.eq rfl rfl rfl rfl, d.no (by simp), c.no (by simp), b.no (by simp)]
  exact ⟨RadicalOf.mem hI.1 (a.1 rfl), (a.1 rfl).gens⟩

example : transformFamily { radical := true } ([t!"b", t!"a"], transformExample) = .ok ([t!"b", t!"a"],
    [{ names := [t!"b", t!"a"], terms := [[1, 0], [1, 1], [1, 0]] }, { names := [t!"b", t!"a"], terms := [[0, 0], [0, 1]] }]) := by decide +kernel

theorem SwapOf.back {I J K : NamedIdeal} (hI : I.Ok) (h1 : I.SwapOf J) (h2 : J.SwapOf K) : K = I := by
  refine eq_of_monomials h2.ok hI (h2.names.trans h1.names) ?_
  rw [h2.gens, h1.gens, h1.names, List.map_map]
  conv_rhs => rw [← List.map_id I.monomials]
  refine List.map_congr_left fun f hf => ?_
  funext x
  by_cases hx : x ∈ I.names
  · simp [hx]
  · simp [hx, monomials_zero hI hf hx]

/-- C50: `-swap01` exchanges the exponents 0 and 1 and does nothing if it is applied twice. -/
theorem C50_swap01 {names : List Text} (hn : names.Nodup) {Is : List NamedIdeal} (h : OneRing names Is) :
    ∃ Js, transformFamily { swap01 := true } (names, Is) = .ok (names, Js) ∧ List.Forall₂ SwapOf Is Js ∧
      transformFamily { swap01 := true } (names, Js) = .ok (names, Is) := by
  have key : ∀ {Is : List NamedIdeal}, OneRing names Is → ∃ Js, transformFamily { swap01 := true } (names, Is) = .ok (names, Js) ∧ List.Forall₂ SwapOf Is Js := by
    intro Is h
    obtain ⟨Js, h1, h2⟩ := C50_single { swap01 := true } rfl rfl rfl rfl rfl hn h
    refine ⟨Js, h1, h2.imp ?_⟩
    rintro I J ⟨K, ⟨A, B, C, a, b, c, d⟩, e⟩
    rw [e.eq rfl rfl rfl rfl, d.no (by simp), c.no (by simp)]
    rw [a.no (by simp)] at b
    exact b.1 rfl
  obtain ⟨Js, h1, h2⟩ := key h
  have hJ : OneRing names Js := fun J hJ => by
    obtain ⟨I, hI, hs⟩ := forall₂_mem_right h2 hJ
    exact ⟨hs.ok, hs.names.trans (h I hI).2⟩
  obtain ⟨Ks, h3, h4⟩ := key hJ
  refine ⟨Js, h1, h2, ?_⟩
  have : List.Forall₂ Eq Ks Is := forall₂_comp3 (S := fun J I => I.Ok ∧ I.SwapOf J) (R := SwapOf) (R' := Eq)
    (fun J I K I' h1 h2 h3 => h3 ▸ SwapOf.back h1.1 h1.2 h2) (forall₂_and_left h2 fun I hI => (h I hI).1).flip h4
    (by rw [List.forall₂_same]; exact fun _ _ => rfl)
  rw [List.forall₂_eq_eq_eq] at this
  rw [h3, this]

example : transformFamily { swap01 := true } ([t!"b", t!"a"], transformExample) = .ok ([t!"b", t!"a"],
    [{ names := [t!"b", t!"a"], terms := [[2, 1], [0, 0], [3, 1]] }, { names := [t!"b", t!"a"], terms := [[1, 1], [1, 5]] }]) := by decide +kernel

/-- C50: `-minimize` removes the generators that are not minimal and leaves the ideal as it is. -/
theorem C50_minimize {names : List Text} (hn : names.Nodup) {Is : List NamedIdeal} (h : OneRing names Is) :
    ∃ Js, transformFamily { minimize := true } (names, Is) = .ok (names, Js) ∧ List.Forall₂ MinimizedOf Is Js := by
  obtain ⟨Js, h1, h2⟩ := C50_single { minimize := true } rfl rfl rfl rfl rfl hn h
  refine ⟨Js, h1, h2.imp ?_⟩
  rintro I J ⟨K, ⟨A, B, C, a, b, c, d⟩, e⟩
  rw [e.eq rfl rfl rfl rfl, d.no (by simp)]
  rw [b.no (by simp), a.no (by simp)] at c
  exact c.1 rfl

example : ∃ Js, transformFamily { minimize := true } ([t!"b", t!"a"], transformExample) = .ok ([t!"b", t!"a"], Js) ∧
    List.Forall₂ MinimizedOf transformExample Js := C50_minimize (by decide) transformExample_oneRing

/-- C50: `-radical -minimize` gives the minimal generators of the radical. -/
theorem C50_radical_minimize {names : List Text} (hn : names.Nodup) {Is : List NamedIdeal} (h : OneRing names Is) :
    ∃ Js, transformFamily { radical := true, minimize := true } (names, Is) = .ok (names, Js) ∧ List.Forall₂ (fun I J =>
      J.Ok ∧ J.names = I.names ∧ J.Minimal ∧ ∀ m, J.mem m ↔ ∃ k : ℕ, I.mem fun x => k * m x) Is Js := by
  obtain ⟨Js, h1, h2⟩ := C50_single { radical := true, minimize := true } rfl rfl rfl rfl rfl hn h
  refine ⟨Js, h1, (forall₂_and_left h2 h).imp ?_⟩
  rintro I J ⟨hI, K, ⟨A, B, C, a, b, c, d⟩, e⟩
  rw [e.eq rfl rfl rfl rfl, d.no (by simp)]
  rw [b.no (by simp)] at c
  have hm := c.1 rfl
  have ha := a.1 rfl
  exact ⟨hm.ok, hm.names.trans ha.names, hm.minimal, fun m => (hm.mem m).trans (RadicalOf.mem hI.1 ha m)⟩

example : ∃ Js, transformFamily { radical := true, minimize := true } ([t!"b", t!"a"], transformExample) = .ok ([t!"b", t!"a"], Js) := by
  obtain ⟨Js, h, _⟩ := C50_radical_minimize (names := [t!"b", t!"a"]) (by decide) transformExample_oneRing
  exact ⟨Js, h⟩

/-- C50: `-deform` applies a generic deformation. -/
theorem C50_deform {names : List Text} (hn : names.Nodup) {Is : List NamedIdeal} (h : OneRing names Is) :
    ∃ Js, transformFamily { deform := true } (names, Is) = .ok (names, Js) ∧ List.Forall₂ DeformationOf Is Js := by
  obtain ⟨Js, h1, h2⟩ := C50_single { deform := true } rfl rfl rfl rfl rfl hn h
  refine ⟨Js, h1, h2.imp ?_⟩
  rintro I J ⟨K, ⟨A, B, C, a, b, c, d⟩, e⟩
  rw [e.eq rfl rfl rfl rfl]
  rw [c.no (by simp), b.no (by simp), a.no (by simp)] at d
  exact d.1 rfl

example : ∃ Js, transformFamily { deform := true } ([t!"b", t!"a"], transformExample) = .ok ([t!"b", t!"a"], Js) ∧
    List.Forall₂ DeformationOf transformExample Js := C50_deform (by decide) transformExample_oneRing

/-- C50: `-addPurePowers` adds the powers that the documentation says. A monomial is in the result if it is in the ideal or if some
variable that had no power in the ideal has an exponent larger than all in the ideal. -/
theorem C50_addPurePowers {names : List Text} (hn : names.Nodup) {Is : List NamedIdeal} (h : OneRing names Is) :
    ∃ Js, transformFamily { addPurePowers := true } (names, Is) = .ok (names, Js) ∧ List.Forall₂ (fun I J => PowersAdded I J ∧
      ∀ m, J.mem m ↔ I.mem m ∨ ∃ x ∈ names, ¬ I.HasPower x ∧ I.maxExp x < m x) Is Js := by
  obtain ⟨Js, h1, h2⟩ := C50_single { addPurePowers := true } rfl rfl rfl rfl rfl hn h
  refine ⟨Js, h1, (forall₂_and_left h2 h).imp ?_⟩
  rintro I J ⟨hI, K, hK, A, B, a, b, _, d⟩
  rw [hK.eq rfl rfl rfl rfl] at a
  rw [(d rfl).no (by simp), b.no (by simp)]
  have hA := a.1 rfl
  refine ⟨hA, fun m => ?_⟩
  obtain ⟨X, _, x2, x3⟩ := hA.gens
  rw [mem_monomials hA.ok, x3, mem_monomials hI.1]
  constructor
  · rintro ⟨f, hf, hle⟩
    rcases List.mem_append.1 hf with hf | hf
    · exact .inl ⟨f, hf, hle⟩
    · obtain ⟨x, hx, rfl⟩ := List.mem_map.1 hf
      have := hle x
      simp only [powerOf, if_true] at this
      exact .inr ⟨x, hI.2 ▸ ((x2 x).1 hx).1, ((x2 x).1 hx).2, this⟩
  · rintro (⟨f, hf, hle⟩ | ⟨x, hx, hP, hlt⟩)
    · exact ⟨f, List.mem_append_left _ hf, hle⟩
    · refine ⟨_, List.mem_append_right _ (List.mem_map.2 ⟨x, (x2 x).2 ⟨hI.2 ▸ hx, hP⟩, rfl⟩), fun y => ?_⟩
      unfold powerOf
      split
      · rename_i hy; subst hy; exact hlt
      · omega

example : transformFamily { addPurePowers := true } ([t!"b", t!"a"], transformExample) = .ok ([t!"b", t!"a"],
    [{ names := [t!"b", t!"a"], terms := [[2, 0], [1, 1], [3, 0], [0, 2]] }, { names := [t!"b", t!"a"], terms := [[0, 0], [0, 5]] }]) := by decide +kernel

/-- C50: `-sort` puts the generators in decreasing lexicographic order. -/
theorem C50_sort {names : List Text} (hn : names.Nodup) {Is : List NamedIdeal} (h : OneRing names Is) :
    ∃ Js, transformFamily { sort := true } (names, Is) = .ok (names, Js) ∧ List.Forall₂ GensSorted Is Js := by
  obtain ⟨Js, h1, h2⟩ := C50_single { sort := true } rfl rfl rfl rfl rfl hn h
  refine ⟨Js, h1, h2.imp ?_⟩
  rintro I J ⟨K, hK, A, B, a, b, _, d⟩
  rw [hK.eq rfl rfl rfl rfl] at a
  rw [b.no (by simp), a.no (by simp)] at d
  exact (d rfl).1 (by simp)

example : ∃ Js, transformFamily { sort := true } ([t!"b", t!"a"], transformExample) = .ok ([t!"b", t!"a"], Js) ∧
    List.Forall₂ GensSorted transformExample Js := C50_sort (by decide) transformExample_oneRing

/-- C50: `-unique` removes duplicate generators. -/
theorem C50_unique {names : List Text} (hn : names.Nodup) {Is : List NamedIdeal} (h : OneRing names Is) :
    ∃ Js, transformFamily { unique := true } (names, Is) = .ok (names, Js) ∧ List.Forall₂ (fun I J => GensUnique I J ∧ J.terms.Nodup) Is Js := by
  obtain ⟨Js, h1, h2⟩ := C50_single { unique := true } rfl rfl rfl rfl rfl hn h
  refine ⟨Js, h1, h2.imp ?_⟩
  rintro I J ⟨K, hK, A, B, a, b, d, _⟩
  rw [hK.eq rfl rfl rfl rfl] at a
  rw [b.no (by simp), a.no (by simp)] at d
  have := d rfl
  exact ⟨this, this.sorted.imp fun {a b} hab (he : a = b) => absurd hab (he ▸ lt_irrefl _)⟩

example : ∃ Js, transformFamily { unique := true, radical := true } ([t!"b", t!"a"], transformExample) = .ok ([t!"b", t!"a"], Js) := by
  obtain ⟨Js, h, _⟩ := C50_single { unique := true, radical := true } rfl rfl rfl rfl rfl (names := [t!"b", t!"a"]) (by decide) transformExample_oneRing
  exact ⟨Js, h⟩

/-- C50: `-projectVar i` removes variable `i`, counting from 1: a monomial is in the result if some power of the variable times the
monomial is in the ideal. -/
theorem C50_projectVar {names : List Text} (hn : names.Nodup) {Is : List NamedIdeal} (h : OneRing names Is) (i : ℕ) (hi : 0 < i) (hi' : i ≤ names.length) :
    ∃ Js, transformFamily { projectVar := i } (names, Is) = .ok (names.erase (names.getD (i - 1) []), Js) ∧ List.Forall₂ (fun I J =>
      ProjectedOf (names.getD (i - 1) []) I J ∧ ∀ m, J.mem m ↔ ∃ k, I.mem (Function.update m (names.getD (i - 1) []) k)) Is Js := by
  obtain ⟨s1, s2, s3, s4, s5, s', h0, h1, h2, h3, h4, h5, h6, _⟩ := C50_transform_partial { projectVar := i } rfl hn h
  have e2 := h2.no (by simp)
  have e4 := h4.no (by simp)
  have e6 := h6.no (by simp)
  subst e2 e4 e6
  have hp := h1.1 ⟨hi, hi'⟩
  have e3 := forall₂_eq_of h3.2 fun _ _ hc => hc.eq rfl rfl rfl rfl
  have e5 := forall₂_eq_of h5.2 fun _ _ hc => hc.eq rfl rfl rfl rfl
  refine ⟨s'.2, ?_, ?_⟩
  · rw [h0, show s' = (s'.1, s'.2) from rfl, h5.1, h3.1, hp.1]
  · rw [e5, e3]
    refine (forall₂_and_left hp.2 h).imp ?_
    rintro I J ⟨hI, hJ⟩
    exact ⟨hJ, mem_update hI.1 hJ.ok hJ.gens⟩

example : transformFamily { projectVar := 1 } ([t!"b", t!"a"], transformExample) = .ok ([t!"a"],
    [{ names := [t!"a"], terms := [[0], [1], [0]] }, { names := [t!"a"], terms := [[0], [5]] }]) := by decide +kernel

/-- C50: no action is taken for other values. -/
theorem C50_projectVar_none {names : List Text} (hn : names.Nodup) {Is : List NamedIdeal} (h : OneRing names Is) (i : ℕ) (hi : names.length < i) :
    transformFamily { projectVar := i } (names, Is) = .ok (names, Is) := by
  obtain ⟨s1, s2, s3, s4, s5, s', h0, h1, h2, h3, h4, h5, h6, _⟩ := C50_transform_partial { projectVar := i } rfl hn h
  have e1 := h1.no (by simp only; omega)
  have e2 := h2.no (by simp)
  have e4 := h4.no (by simp)
  have e6 := h6.no (by simp)
  subst e1 e2 e4 e6
  have e3 := forall₂_eq_of h3.2 fun _ _ hc => hc.eq rfl rfl rfl rfl
  have e5 := forall₂_eq_of h5.2 fun _ _ hc => hc.eq rfl rfl rfl rfl
  rw [h0, show s' = (s'.1, s'.2) from rfl, h5.1, h3.1, e5, e3]

example : transformFamily { projectVar := 3 } ([t!"b", t!"a"], transformExample) = .ok ([t!"b", t!"a"], transformExample) :=
  C50_projectVar_none (by decide) transformExample_oneRing 3 (by decide)

/-- C50: `-product` gives one ideal that is generated by the products of the generators of the ideals. -/
theorem C50_product {names : List Text} (hn : names.Nodup) {Is : List NamedIdeal} (h : OneRing names Is) :
    ∃ J : NamedIdeal, transformFamily { product := true } (names, Is) = .ok (names, [J]) ∧ J.Ok ∧ J.names = names ∧
      J.monomials = Is.map fun I x => (I.monomials.map fun f => f x).sum := by
  obtain ⟨s1, s2, s3, s4, s5, s', h0, h1, h2, h3, h4, h5, h6, _⟩ := C50_transform_partial { product := true } rfl hn h
  have e1 := h1.no (by simp)
  have e4 := h4.no (by simp)
  have e6 := h6.no (by simp)
  subst e1 e4 e6
  obtain ⟨p1, J, p2, p3, p4, p5⟩ := h2.1 rfl
  have e3 := forall₂_eq_of h3.2 fun _ _ hc => hc.eq rfl rfl rfl rfl
  have e5 := forall₂_eq_of h5.2 fun _ _ hc => hc.eq rfl rfl rfl rfl
  exact ⟨J, by rw [h0, show s' = (s'.1, s'.2) from rfl, h5.1, h3.1, e5, e3, p1, p2], p3, p4, p5⟩

/-- The documentation says that each ideal is replaced, but there is only one ideal in the output. -/
example : transformFamily { product := true } ([t!"b", t!"a"], transformExample) = .ok ([t!"b", t!"a"],
    [{ names := [t!"b", t!"a"], terms := [[6, 1], [0, 5]] }]) := by decide +kernel

/-- C50: `-product` reports an error exactly if there is an ideal in another ring than the last one. -/
theorem C50_product_error (names : List Text) (Is : List NamedIdeal) :
    transformFamily { product := true } (names, Is) = .error ↔ ∃ I ∈ Is, I.names ≠ names := by
  have h1 : projectStep { product := true } (transposeStep { product := true } (names, Is)) = some (names, Is) := rfl
  unfold transformFamily
  rw [h1]
  by_cases h : Is.all fun I => decide (names = I.names)
  · have h2 : productStep { product := true } (names, Is) = some (names, [{ names := names, terms := Is.map productTerm }]) := by
      simp [productStep, takeProducts, h]
    simp only [h2]
    have h3 : ¬ ∃ I ∈ Is, I.names ≠ names := by
      rintro ⟨I, hI, hne⟩
      rw [List.all_eq_true] at h
      exact hne (of_decide_eq_true (h I hI)).symm
    simp [h3, changeIdeal, trimStep]
  · have h2 : productStep { product := true } (names, Is) = none := by simp only [productStep, takeProducts, h]; simp
    simp only [h2, true_iff]
    simp only [List.all_eq_true, decide_eq_true_eq, not_forall] at h
    obtain ⟨I, hI, hne⟩ := h
    exact ⟨I, hI, fun h => hne h.symm⟩

example : transformFamily { product := true } ([t!"a", t!"b"], transformExample) = .error :=
  (C50_product_error _ _).2 ⟨_, List.mem_cons_self, by decide⟩

/-- C50: `-trimVariables` removes the variables that divide none of the generators of any ideal, and no others. -/
theorem C50_trimVariables {names : List Text} (hn : names.Nodup) {Is : List NamedIdeal} (h : OneRing names Is) :
    ∃ names' Js, transformFamily { trimVariables := true } (names, Is) = .ok (names', Js) ∧ Trimmed (names, Is) (names', Js) := by
  obtain ⟨s1, s2, s3, s4, s5, s', h0, h1, h2, h3, h4, h5, h6, _⟩ := C50_transform_partial { trimVariables := true } rfl hn h
  have e1 := h1.no (by simp)
  have e2 := h2.no (by simp)
  have e6 := h6.no (by simp)
  subst e1 e2 e6
  have e3 := forall₂_eq_of h3.2 fun _ _ hc => hc.eq rfl rfl rfl rfl
  have e5 := forall₂_eq_of h5.2 fun _ _ hc => hc.eq rfl rfl rfl rfl
  have e3' : s3 = (names, Is) := Prod.ext h3.1 e3
  have e5' : s' = s4 := Prod.ext h5.1 e5
  subst e3' e5'
  exact ⟨s'.1, s'.2, h0, h4.1 rfl⟩

example : transformFamily { trimVariables := true } ([t!"c", t!"b", t!"a"], [{ names := [t!"c", t!"b", t!"a"], terms := [[0, 2, 0]] },
    { names := [t!"c", t!"b", t!"a"], terms := [[0, 0, 3], [0, 1, 0]] }]) = .ok ([t!"b", t!"a"],
    [{ names := [t!"b", t!"a"], terms := [[2, 0]] }, { names := [t!"b", t!"a"], terms := [[0, 3], [1, 0]] }]) := by decide +kernel

/-- C50: `-transpose` comes first and exchanges variables and generators, also of ideals in different rings. The ring is that of the
last ideal. -/
theorem C50_transpose (o : TransformOpts) (ht : o.transpose = true) (names : List Text) (Is : List NamedIdeal) :
    ∃ names' Js, transformFamily o (names, Is) = transformFamily { o with transpose := false } (names', Js) ∧ List.Forall₂ TransposeOf Is Js ∧
      ∀ J ∈ Js.getLast?, names' = J.names := by
  refine ⟨(transposeStep o (names, Is)).1, Is.map NamedIdeal.transpose, ?_, ?_, ?_⟩
  · have : transposeStep { o with transpose := false } ((transposeStep o (names, Is)).1, Is.map NamedIdeal.transpose) = transposeStep o (names, Is) := by
      unfold transposeStep
      simp [ht]
    unfold transformFamily
    rw [this]
    rfl
  · rw [List.forall₂_map_right_iff, List.forall₂_same]
    exact fun I _ => transposeOf I
  · intro J hJ
    unfold transposeStep
    simp only [ht, if_true]
    rw [Option.mem_def.1 hJ]

theorem TransposeOf.back {I J K : NamedIdeal} (hI : I.Ok) (h1 : I.TransposeOf J) (h2 : J.TransposeOf K) : K.terms = I.terms := by
  refine List.ext_getElem (h2.gens.trans h1.names) fun i hi hi' => ?_
  have e1 : K.terms[i].length = I.names.length := by rw [h2.ok.length _ (List.getElem_mem hi), h2.names, h1.gens]
  have e2 : I.terms[i].length = I.names.length := hI.length _ (List.getElem_mem hi')
  refine List.ext_getElem (e1.trans e2.symm) fun v hv hv' => ?_
  have h3 := h1.entry i hi' v (by omega)
  have h4 := h2.entry v (by rw [h1.gens]; omega) i (by rw [h1.names]; exact hi')
  rw [← h4, NamedIdeal.entry, NamedIdeal.entry, List.getD_eq_getElem K.terms _ hi, List.getD_eq_getElem I.terms _ hi',
    List.getD_eq_getElem (K.terms[i]) _ hv, List.getD_eq_getElem (I.terms[i]) _ hv'] at h3
  exact h3

/-- C50: to transpose twice gives the generators back, in the ring with the default names. -/
theorem C50_transpose_twice {I : NamedIdeal} (hI : I.Ok) (names names' names'' : List Text) (Js Ks : List NamedIdeal)
    (h1 : transformFamily { transpose := true } (names, [I]) = .ok (names', Js)) (h2 : transformFamily { transpose := true } (names', Js) = .ok (names'', Ks)) :
    ∃ K, Ks = [K] ∧ K.terms = I.terms ∧ K.names = (List.range I.names.length).map fun i => 'x' :: decimal (i + 1) := by
  have e1 : transformFamily { transpose := true } (names, [I]) = .ok (I.transpose.names, [I.transpose]) := by
    simp [transformFamily, transposeStep, projectStep, productStep, changeIdeal, trimStep, arrangeIdeal, canonStep]
  rw [e1] at h1
  cases h1
  have e2 : transformFamily { transpose := true } (I.transpose.names, [I.transpose]) = .ok (I.transpose.transpose.names, [I.transpose.transpose]) := by
    simp [transformFamily, transposeStep, projectStep, productStep, changeIdeal, trimStep, arrangeIdeal, canonStep]
  rw [e2] at h2
  cases h2
  refine ⟨_, rfl, TransposeOf.back hI (transposeOf I) (transposeOf _), ?_⟩
  show defaultNames I.transpose.terms.length = _
  rw [(transposeOf I).gens]
  rfl

/-- The documentation says that the rows are the minimal generators, but all generators are rows. -/
example : transformFamily { transpose := true } ([t!"a", t!"b"], [{ names := [t!"a", t!"b"], terms := [[2, 5], [3, 5]] }]) =
    .ok ([t!"x1", t!"x2"], [{ names := [t!"x1", t!"x2"], terms := [[2, 3], [5, 5]] }]) := by decide +kernel

/-! ## canonical output -/

/-- C50: with `-canon` the output for ideals in one ring is the same for the same ideals, in whatever order the variables, the
generators and the ideals are. The options `-transpose`, `-projectVar` and `-deform` use the order of the input. -/
theorem C50_canon (o : TransformOpts) (hc : o.canon = true) (ht : o.transpose = false) (hv : o.projectVar = 0) (hd : o.deform = false)
    {names names' : List Text} {Is Js : List NamedIdeal} (hn : names.Nodup) (hnn : names.Perm names') (hI : OneRing names Is) (hJ : OneRing names' Js)
    (h : SameIdeals Is Js) : transformFamily o (names, Is) = transformFamily o (names', Js) :=
  canon_ring o hc ht hv (fun _ _ _ _ oI oJ hs h1 h2 => changeIdeal_same o hd oI oJ hs h1 h2) (fun _ => ⟨fun _ _ h => h, fun _ _ h => h⟩) hn hnn hI hJ h

theorem expOf_swap (e f : ℕ) : expOf [t!"b", t!"a"] [e, f] = expOf [t!"a", t!"b"] [f, e] := by
  funext x
  have e1 : ∀ (p q : Text) (e f : ℕ), expOf [p, q] [e, f] x = if x = p then e else if x = q then f else 0 := by
    intro p q e f
    unfold expOf
    by_cases h1 : x = p
    · subst h1; simp
    · by_cases h2 : x = q
      · subst h2
        simp [h1, Ne.symm h1]
      · simp [h1, h2]
  rw [e1, e1]
  by_cases h1 : x = t!"b"
  · subst h1; simp
  · simp [h1]

example : transformFamily { canon := true, product := true, trimVariables := true, addPurePowers := true } ([t!"b", t!"a"],
      [{ names := [t!"b", t!"a"], terms := [[2, 0], [1, 1]] }, { names := [t!"b", t!"a"], terms := [[0, 5]] }]) =
    transformFamily { canon := true, product := true, trimVariables := true, addPurePowers := true } ([t!"a", t!"b"],
      [{ names := [t!"a", t!"b"], terms := [[5, 0]] }, { names := [t!"a", t!"b"], terms := [[1, 1], [0, 2]] }]) := by
  refine C50_canon _ rfl rfl rfl rfl (by decide) (List.Perm.swap _ _ _) ?_ ?_ ⟨_, List.Perm.swap _ _ _, .cons ⟨List.Perm.swap _ _ _, ?_⟩ (.cons ⟨List.Perm.swap _ _ _, ?_⟩ .nil)⟩
  · intro I hI
    simp only [List.mem_cons, List.not_mem_nil, or_false] at hI
    rcases hI with rfl | rfl <;> exact ⟨⟨by decide, by decide⟩, rfl⟩
  · intro I hI
    simp only [List.mem_cons, List.not_mem_nil, or_false] at hI
    rcases hI with rfl | rfl <;> exact ⟨⟨by decide, by decide⟩, rfl⟩
  · simp only [monomials, List.map_cons, List.map_nil, expOf_swap]; exact List.Perm.swap _ _ _
  · simp only [monomials, List.map_cons, List.map_nil, expOf_swap]; exact List.Perm.refl _

/-- C50: with `-canon -minimize` the output depends only on the ideals as sets. -/
theorem C50_canon_sets (o : TransformOpts) (hc : o.canon = true) (hm : o.minimize = true) (ht : o.transpose = false) (hv : o.projectVar = 0)
    (hd : o.deform = false) (hs : o.swap01 = false) (hp : o.product = false)
    {names names' : List Text} {Is Js : List NamedIdeal} (hn : names.Nodup) (hnn : names.Perm names') (hI : OneRing names Is) (hJ : OneRing names' Js)
    (h : SameSets Is Js) : transformFamily o (names, Is) = transformFamily o (names', Js) :=
  canon_ring o hc ht hv (fun _ _ _ _ oI oJ hs' h1 h2 => changeIdeal_sameSet o hd hs hm oI oJ hs' h1 h2) (fun h => by rw [hp] at h; cases h) hn hnn hI hJ h

example : transformFamily { canon := true, minimize := true } ([t!"a"], [{ names := [t!"a"], terms := [[3], [2]] }]) =
    transformFamily { canon := true, minimize := true } ([t!"a"], [{ names := [t!"a"], terms := [[2]] }]) := by
  refine C50_canon_sets _ rfl rfl rfl rfl rfl rfl rfl (by decide) (List.Perm.refl _) ?_ ?_ ⟨_, List.Perm.refl _, .cons ⟨List.Perm.refl _, fun m => ?_⟩ .nil⟩
  · intro I hI; simp only [List.mem_singleton] at hI; subst hI; exact ⟨⟨by decide, by decide⟩, rfl⟩
  · intro I hI; simp only [List.mem_singleton] at hI; subst hI; exact ⟨⟨by decide, by decide⟩, rfl⟩
  · simp only [NamedIdeal.mem, List.mem_cons, List.not_mem_nil, or_false]
    constructor
    · rintro ⟨t, rfl | rfl, h⟩
      · exact ⟨_, rfl, by simp only [List.zip_cons_cons, List.zip_nil_right, List.mem_singleton, forall_eq] at h ⊢; omega⟩
      · exact ⟨_, rfl, h⟩
    · rintro ⟨t, rfl, h⟩; exact ⟨_, .inr rfl, h⟩

/-- C50: for ideals in several rings the written output is the same, unless `-product` or `-trimVariables` is used. -/
theorem C50_canon_rings (o : TransformOpts) (hc : o.canon = true) (ht : o.transpose = false) (hv : o.projectVar = 0) (hd : o.deform = false)
    (hp : o.product = false) (hr : o.trimVariables = false) {Is Js : List NamedIdeal} (hI : ∀ I ∈ Is, I.Ok) (hJ : ∀ I ∈ Js, I.Ok)
    (h : SameIdeals Is Js) (names names' : List Text) :
    ∃ a b Ks, transformFamily o (names, Is) = .ok (a, Ks) ∧ transformFamily o (names', Js) = .ok (b, Ks) := by
  obtain ⟨Ks, h1, h2⟩ := canon_rings o hc ht hv hp hr (fun _ _ _ _ oI oJ hs h1 h2 => changeIdeal_same o hd oI oJ hs h1 h2) hI hJ h names names'
  exact ⟨_, _, Ks, h1, h2⟩

example : ∃ a b Ks, transformFamily { canon := true } ([t!"a"], [{ names := [t!"b"], terms := [] }, { names := [t!"a"], terms := [[2]] }]) = .ok (a, Ks) ∧
    transformFamily { canon := true } ([t!"b"], [{ names := [t!"a"], terms := [[2]] }, { names := [t!"b"], terms := [] }]) = .ok (b, Ks) := by
  refine C50_canon_rings _ rfl rfl rfl rfl rfl rfl ?_ ?_ ⟨_, List.Perm.swap _ _ _, .cons (Same.refl _) (.cons (Same.refl _) .nil)⟩ _ _
  all_goals
    intro I hI
    simp only [List.mem_cons, List.not_mem_nil, or_false] at hI
    rcases hI with rfl | rfl <;> exact ⟨by decide, by decide⟩

/-! ## texts -/

theorem transform_names {o : TransformOpts} (ht : o.transpose = false) {names : List Text} (hn : names.Nodup) {Is : List NamedIdeal} (h : OneRing names Is) {s' : Family}
    (h' : transformFamily o (names, Is) = .ok s') : s'.1.Nodup ∧ OneRing s'.1 s'.2 ∧ ∀ x ∈ s'.1, x ∈ names := by
  obtain ⟨s1, s2, s3, s4, s5, s6, h0, h1, h2, h3, h4, h5, h6, h7, h8⟩ := C50_transform_partial o ht hn h
  rw [h'] at h0
  cases h0
  refine ⟨h7, h8, fun x hx => ?_⟩
  have x5 : x ∈ s5.1 := by
    by_cases hc : o.canon = true
    · exact (h6.1 hc).1.mem_iff.1 hx
    · rwa [h6.no hc] at hx
  have x4 : x ∈ s3.1 := by
    rw [h5.1] at x5
    by_cases hc : o.trimVariables = true
    · exact (h4.1 hc).1.subset x5
    · rwa [h4.no hc] at x5
  have x2 : x ∈ s1.1 := by
    rw [h3.1] at x4
    by_cases hc : o.product = true
    · rwa [(h2.1 hc).1] at x4
    · rwa [h2.no hc] at x4
  by_cases hc : 0 < o.projectVar ∧ o.projectVar ≤ names.length
  · rw [(h1.1 hc).1] at x2
    exact List.mem_of_mem_erase x2
  · rwa [h1.no hc] at x2

theorem lastNames_oneRing {names : List Text} : ∀ {Is : List NamedIdeal}, OneRing names Is → lastNames names Is = names := by
  intro Is
  induction Is with
  | nil => intro _; rfl
  | cons I Is ih =>
    intro h
    rw [lastNames, (h I List.mem_cons_self).2]
    exact ih fun J hJ => h J (List.mem_cons_of_mem _ hJ)

/-- C50: for input that was written by the program in any format the action writes its result in any other format, from which the
result is read back. -/
theorem C50_text (o : TransformOpts) (ht : o.transpose = false) (f g : IOFormat) {names : List Text} (hn : AllowedRing names) {Is : List NamedIdeal}
    (h : ∀ I ∈ Is, WellFormed I ∧ I.names = names) :
    ∃ names' Js, transformFamily o (names, Is) = .ok (names', Js) ∧ transformText o f g (writeIdeals f names Is) = .ok (writeIdeals g names' Js) ∧
      ((∀ J ∈ Js, J.terms.length < 2 ^ 64) → readIdeals g (writeIdeals g names' Js) = some (Js, names')) := by
  have h1 : OneRing names Is := fun I hI => ⟨⟨(h I hI).1.ring.distinct, (h I hI).1.exponents⟩, (h I hI).2⟩
  obtain ⟨_, _, _, _, _, s', h0, _⟩ := C50_transform_partial o ht hn.distinct h1
  obtain ⟨n1, n2, n3⟩ := transform_names ht hn.distinct h1 h0
  refine ⟨s'.1, s'.2, h0, ?_, fun hs => ?_⟩
  · unfold transformText
    rw [readIdeals_spec f hn.valid hn.varCount fun I hI => (h I hI).1.readable, lastNames_oneRing h1]
    simp only [h0]
  · have hA : AllowedRing s'.1 := ⟨fun x hx => hn.allowed x (n3 x hx), n1, by
      have := (n1.subperm fun x hx => n3 x hx).length_le
      have := hn.varCount
      omega⟩
    rw [readIdeals_spec g hA.valid hA.varCount fun J hJ => WellFormed.readable ⟨(n2 J hJ).2 ▸ hA, (n2 J hJ).1.length, hs J hJ⟩, lastNames_oneRing n2]

example (f g : IOFormat) : ∃ names' Js, transformFamily { deform := true } (exampleIdeal.names, [exampleIdeal]) = .ok (names', Js) ∧
    transformText { deform := true } f g (writeIdeals f exampleIdeal.names [exampleIdeal]) = .ok (writeIdeals g names' Js) := by
  obtain ⟨names', Js, h1, h2, _⟩ := C50_text { deform := true } rfl f g exampleIdeal_wellFormed.ring (Is := [exampleIdeal])
    (by simp [exampleIdeal_wellFormed])
  exact ⟨names', Js, h1, h2⟩

example : transformText { projectVar := 1, trimVariables := true, addPurePowers := true } .monos .m2 t!"vars a,b,c;[a*b^2,a^3];" =
    .ok t!"R = QQ[b];\nI = monomialIdeal(\n b^2,\n 1_R\n);\n" := by decide +kernel

/-! ## where the claims do not hold -/

/-- C50 does not hold for ideals in different rings: for the input below, which is read without an error, `-trimVariables` and
`-projectVar` access exponents that do not exist. -/
theorem C50_rings_crash : transformText { trimVariables := true } .monos .monos t!"vars a,b;[a*b];vars x;[x];" = .crash ∧
    transformText { projectVar := 2 } .monos .monos t!"vars a;[a];vars x,y;[x];" = .crash := by decide +kernel

/-- C50: variables are identified by their number. The variable `b` divides no generator here, but it is not removed. -/
theorem C50_trimVariables_rings : transformText { trimVariables := true } .monos .monos t!"vars a,b;[a];vars b,a;[a];" =
    transformText {} .monos .monos t!"vars a,b;[a];vars b,a;[a];" := by decide +kernel

/-- C50: transposed ideals are in different rings if they have different numbers of generators. -/
theorem C50_transpose_crash : transformText { transpose := true, trimVariables := true } .monos .monos t!"vars a;[a,a^2];[a];" = .crash := by decide +kernel

end Frobby
