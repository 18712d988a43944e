import Verif.IntersectionActionModel
import Verif.PropsListReader
import Verif.PropsTransform
import Verif.PropsAction

/-!
# C60: the action `intersection` from text to text
-/

namespace Frobby

/-- The ideal is the intersection of the ideals `Is`, in the ring with all their variables, or the entire ring with the variables `names` if there are no
ideals. The generators are the minimal ones. -/
structure IntersectionOf (Is : List NamedIdeal) (names : List Text) (R : NamedIdeal) : Prop where
  ok : R.Ok
  minimal : R.Minimal
  names : ∀ x, x ∈ R.names ↔ Is = [] ∧ x ∈ names ∨ ∃ I ∈ Is, x ∈ I.names
  mem : ∀ m, R.mem m ↔ ∀ I ∈ Is, I.mem m

theorem toNat_terms (ts : List (List ℕ)) : ((ts.map (List.map Int.ofNat)).map fun e => e.map Int.toNat) = ts := by
  rw [List.map_map]
  conv_rhs => rw [← List.map_id ts]
  refine List.map_congr_left fun e _ => ?_
  simp only [Function.comp, List.map_map, id]
  conv_rhs => rw [← List.map_id e]
  exact List.map_congr_left fun x _ => by simp

theorem GoodIdeal.ok {I : NamedIdeal} (h : GoodIdeal I) : I.Ok := ⟨h.2.1, h.2.2⟩

theorem expOf_mono (names : List Text) {a b : List ℕ} (h : List.Forall₂ (· ≤ ·) a b) : expOf names a ≤ expOf names b := by
  intro x
  unfold expOf
  generalize names.idxOf x = i
  induction h generalizing i with
  | nil => exact le_refl _
  | cons h1 _ ih =>
    cases i with
    | zero => exact h1
    | succ i => exact ih i

theorem NamedIdeal.Minimal.of_same {I J : NamedIdeal} (hI : I.Ok) (hm : I.Minimal) (h : I.Same J) : J.Minimal := by
  have h1 := (h.2.pairwise_iff (R := fun f g : Text → ℕ => ¬ f ≤ g ∧ ¬ g ≤ f) fun h => ⟨h.2, h.1⟩).1 (NamedIdeal.minimal_monomials hI hm)
  exact (List.pairwise_map.1 h1).imp fun {a b} hab => ⟨fun h => hab.1 (expOf_mono _ h), fun h => hab.2 (expOf_mono _ h)⟩

theorem facade_spec {f : IOFormat} {t : Text} {Is : List NamedIdeal} {names : List Text} (h : readIdeals f t = some (Is, names)) :
    ∃ R : NamedIdeal, facadeIntersect Is names = some (R.names, R.terms.map (List.map Int.ofNat)) ∧ IntersectionOf Is names R := by
  obtain ⟨h1, -, h2⟩ := C59_list_good h
  by_cases he : Is = []
  · subst he
    obtain ⟨R, h3, h4, h5, h6, h7⟩ := C28_empty names h2
    exact ⟨R, h3, h4, h5, by simp [h6], by simp [h7]⟩
  · obtain ⟨R, h3, h4, h5, h6, -, h7⟩ := C28_intersection Is names he fun I hI => (h1 I hI).ok
    exact ⟨R, h3, h4, h5, by simp [h6, he], h7⟩

theorem intersectIdeals_spec (canon : Bool) {f : IOFormat} {t : Text} {Is : List NamedIdeal} {names : List Text}
    (h : readIdeals f t = some (Is, names)) : ∃ R, intersectIdeals canon (Is, names) = .ok R ∧ IntersectionOf Is names R ∧
      (canon = true → R.names.Pairwise (· < ·) ∧ R.terms.Pairwise fun a b => b < a) := by
  obtain ⟨R, h1, h2⟩ := facade_spec h
  have h3 : intersectIdeals canon (Is, names) = .ok (if canon then R.sortVariables.sortGenerators else R) := by
    simp only [intersectIdeals, h1, toNat_terms]
  cases canon with
  | false => exact ⟨R, h3, h2, fun hc => nomatch hc⟩
  | true =>
    have hv := NamedIdeal.varsSorted h2.ok
    have hg := NamedIdeal.gensSorted hv.ok
    have hS : R.Same R.sortVariables.sortGenerators := by
      refine ⟨?_, ?_⟩
      · rw [hg.names]; exact hv.names.symm
      · rw [← hv.gens]
        exact (NamedIdeal.monomials_perm hg.names hg.gens).symm
    have hset := hS.sameSet h2.ok hg.ok
    have hmin := h2.minimal.of_same h2.ok hS
    refine ⟨_, h3, ⟨hg.ok, hmin, fun x => ?_, fun m => ?_⟩, fun _ => ⟨?_, ?_⟩⟩
    · rw [← h2.names, hS.1.mem_iff]; rfl
    · rw [← h2.mem, hset.2]; rfl
    · rw [if_pos rfl, hg.names]; exact hv.sorted
    · rw [if_pos rfl]
      refine (hg.sorted.and hmin).imp fun {a b} hab => lt_of_le_of_ne hab.1 ?_
      rintro rfl
      exact hab.2.1 (List.forall₂_refl _)

/-- C60: **`intersection` prints the minimal generators of the intersection of the ideals that the text means**, in the ring with all their variables, for each text that
can be read. It never stops in any other way. With `-canon` the variables are in increasing order and the generators in decreasing order. -/
theorem C60_intersection (canon : Bool) {f : IOFormat} (g : IOFormat) {t : Text} {Is : List NamedIdeal} {names : List Text}
    (h : readIdeals f t = some (Is, names)) : ∃ R, intersectionAction canon f g t = .ok (writeIdeal g R) ∧ IntersectionOf Is names R ∧
      (canon = true → R.names.Pairwise (· < ·) ∧ R.terms.Pairwise fun a b => b < a) := by
  obtain ⟨R, h1, h2⟩ := intersectIdeals_spec canon h
  refine ⟨R, ?_, h2⟩
  rw [intersectionAction, h]
  simp only [h1, Outcome.map]

/-- C60: an error is reported exactly for the texts that are not those of lists of ideals, and there is no other outcome. -/
theorem C60_error (canon : Bool) (f g : IOFormat) (t : Text) : (intersectionAction canon f g t = .error ↔ readIdeals f t = none) ∧
    intersectionAction canon f g t ≠ .crash := by
  cases h : readIdeals f t with
  | none =>
    have : intersectionAction canon f g t = .error := by unfold intersectionAction; rw [h]
    simp [this]
  | some p =>
    obtain ⟨R, h1, -⟩ := C60_intersection canon g (names := p.2) (Is := p.1) h
    simp [h1]

/-- C60: with `-canon` what is printed only depends on the intersection and on the variables, but not on the ideals, their order, or the way they are written. -/
theorem C60_canonical {f f' : IOFormat} (g : IOFormat) {t t' : Text} {Is Is' : List NamedIdeal} {names names' : List Text}
    (h : readIdeals f t = some (Is, names)) (h' : readIdeals f' t' = some (Is', names'))
    (hn : ∀ x, (Is = [] ∧ x ∈ names ∨ ∃ I ∈ Is, x ∈ I.names) ↔ (Is' = [] ∧ x ∈ names' ∨ ∃ I ∈ Is', x ∈ I.names))
    (hm : ∀ m, (∀ I ∈ Is, I.mem m) ↔ ∀ I ∈ Is', I.mem m) : intersectionAction true f g t = intersectionAction true f' g t' := by
  obtain ⟨R, h1, h2, h3⟩ := C60_intersection true g h
  obtain ⟨R', h1', h2', h3'⟩ := C60_intersection true g h'
  obtain ⟨h4, h5⟩ := h3 rfl
  obtain ⟨h4', h5'⟩ := h3' rfl
  have hnames : R.names = R'.names := List.Perm.eq_of_pairwise (fun a b _ _ h h' => absurd h' (List.lt_asymm h)) h4 h4'
    ((List.perm_ext_iff_of_nodup h2.ok.nodup h2'.ok.nodup).2 fun x => by rw [h2.names, h2'.names, hn])
  have hmem : ∀ m, R.mem m ↔ R'.mem m := fun m => by rw [h2.mem, h2'.mem, hm]
  have hterms : R.terms = R'.terms := List.Perm.eq_of_pairwise (fun a b _ _ h h' => absurd h' (lt_asymm h)) h5 h5'
    ((List.perm_ext_iff_of_nodup (h5.imp fun h => (ne_of_lt h).symm) (h5'.imp fun h => (ne_of_lt h).symm)).2 fun x =>
      ⟨fun hx => NamedIdeal.minimal_unique h2.ok h2'.ok h2.minimal hnames hmem x hx,
        fun hx => NamedIdeal.minimal_unique h2'.ok h2.ok h2'.minimal hnames.symm (fun m => (hmem m).symm) x hx⟩)
  rw [h1, h1']
  congr 2
  cases R; cases R'; simp_all

/-- C60: what is printed can be read again, and is then the intersection. -/
theorem C60_reread (canon : Bool) {f : IOFormat} (g : IOFormat) {t s : Text} {Is : List NamedIdeal} {names : List Text}
    (h : readIdeals f t = some (Is, names)) (hs : intersectionAction canon f g t = .ok s)
    (hsize : ∀ R, IntersectionOf Is names R → R.names.length < 2 ^ 64 ∧ R.terms.length < 2 ^ 64) :
    ∃ R, readIdeal g s = some R ∧ IntersectionOf Is names R := by
  obtain ⟨R, h1, h2, -⟩ := C60_intersection canon g h
  rw [h1] at hs
  obtain ⟨h3, h4, -⟩ := C59_list_good h
  have h5 : ∀ x ∈ R.names, AllowedName x := by
    intro x hx
    rcases (h2.names x).1 hx with ⟨-, hx⟩ | ⟨I, hI, hx⟩
    · exact h4 x hx
    · exact (h3 I hI).1 x hx
  exact ⟨R, Outcome.ok.inj hs ▸ C32_round_trip g ⟨⟨h5, h2.ok.nodup, (hsize R h2).1⟩, h2.ok.length, (hsize R h2).2⟩, h2⟩

/-! ## examples -/

example : intersectionAction false .monos .monos t!"vars x, y;[x^2, x*y];vars z, y;[y^10, z];" =
    .ok t!"vars x, y, z;\n[\n x*y*z,\n x*y^10,\n x^2*z\n];\n" := by decide +kernel

example : intersectionAction true .monos .m2 t!"vars x, y;[x^2, x*y];vars z, y;[y^10, z];" =
    .ok t!"R = QQ[x, y, z];\nI = monomialIdeal(\n x^2*z,\n x*y^10,\n x*y*z\n);\n" := by decide +kernel

/-- No ideals: the entire ring. -/
example : intersectionAction true .newmonos .monos t!"(lex-order b a)" = .ok t!"vars a, b;\n[\n 1\n];\n" := by decide +kernel

example : intersectionAction true .monos .monos t!"vars a;[a" = .error := by decide +kernel

example : intersectionAction true .monos .m2 t!"vars a, b;[a^2];[b];" = intersectionAction true .fourti2 .m2 t!"2 2\n2 1\n3 2\na b\n" := by decide +kernel

end Frobby
