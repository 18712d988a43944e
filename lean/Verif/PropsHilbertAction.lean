import Verif.HilbertActionLemmas2
import Verif.PropsAction
import Verif.PropsPolyIO

/-!
# C54: what the action `hilbert` prints

From the text that is read to the polynomial that is written, for each of the algorithms.
-/

namespace Frobby

open NamedIdeal

/-! ## the input and the output -/

/-- The names of the algorithm and of its strategies are those of strategies that can be used here. Without deformation to a strongly generic
ideal, the algorithm `deform` needs that the exponents of redundant generators are exponents of minimal ones. -/
inductive AllowedAlgorithm (o : HilbertOpts) (I : NamedIdeal) : Prop
  | bigatti {s : BPivot} (name : o.algorithm = t!"bigatti") (split : createPivot o.split = some s)
  | slice {s : Split} (name : o.algorithm = t!"slice") (split : createSplit o.split = some s) (degree : s ≠ .degree) (label : s.isLabel = false)
  | deform {a b : List PartOrder} (name : o.algorithm = t!"deform") (enumeration : createOrders o.enumeration = some a)
      (deformation : createOrders o.deformation = some b) (tight : o.deformStrong = true ∨ I.TightGens)

/-- The input is read as the ideal and the options are allowed. With the option `-minimal` the user promises that the generators are
minimal. The number of variables and one more is a `size_t`. -/
structure HilbertAccepted (o : HilbertOpts) (f : IOFormat) (t : Text) (I : NamedIdeal) : Prop where
  read : readIdeal f t = some I
  algorithm : AllowedAlgorithm o I
  minimal : o.minimal = true → I.Minimal
  varCount : I.names.length + 1 < 2 ^ 64

/-- The polynomial is read back from the text. If it is zero, then a term with coefficient zero may be read. -/
def ReadsPoly (g : PolyFormat) (s : Text) (P : NamedPoly) : Prop :=
  ∃ Q, readPoly g s = some Q ∧ Q.names = P.names ∧ (∀ e, Q.coef e = P.coef e) ∧ (P.terms ≠ [] → Q = P)

theorem reads_of {P : NamedPoly} (hP : WellFormedPoly P) (g : PolyFormat) : ReadsPoly g (writePoly g P) P := by
  by_cases h : P.terms = []
  · obtain ⟨Q, h1, h2, h3⟩ := C43_coefficients g hP
    exact ⟨Q, h1, h2, h3, fun h' => absurd h h'⟩
  · exact ⟨P, C43_round_trip g hP (.inl h), rfl, fun _ => rfl, fun _ => rfl⟩

theorem HilbertAccepted.ok {o : HilbertOpts} {f : IOFormat} {t : Text} {I : NamedIdeal} (h : HilbertAccepted o f t I) : I.Ok :=
  ⟨(C44_well_formed h.read).2.1, (C44_well_formed h.read).2.2⟩

theorem HilbertAccepted.ring {o : HilbertOpts} {f : IOFormat} {t : Text} {I : NamedIdeal} (h : HilbertAccepted o f t I) : AllowedRing (outNames o.canon I.names) :=
  ring_of (C44_well_formed h.read).1 (outNames_perm _ _) ((outNames_perm _ _).nodup_iff.2 h.ok.nodup) (by have := h.varCount; omega)

theorem AllowedAlgorithm.alg {o : HilbertOpts} {I : NamedIdeal} (h : AllowedAlgorithm o I) {n : ℕ} {N : List Text} {T : Translator n} {M G : List (Term n)}
    (hP : PreparedSpec I N T M G) : ∃ a, hilbertAlg o = some a ∧ a.Fits M := by
  cases h with
  | @bigatti s h1 h2 =>
    refine ⟨.bigatti { simp := o.simplify, generic := o.genericBase, pivot := s, widen := o.widenPivot }, ?_, trivial⟩
    unfold hilbertAlg
    rw [if_pos h1, h2]
    rfl
  | @slice s h1 h2 h3 h4 =>
    have h5 : o.split ≠ t!"degree" := fun h => h3 (Option.some.inj (h2.symm.trans (h ▸ createSplit_degree.1)))
    have h6 : o.split ≠ t!"frob" := fun h => h3 (Option.some.inj (h2.symm.trans (h ▸ createSplit_degree.2)))
    have h7 : validateSplit o.split false false = some s := by
      unfold validateSplit
      rw [h2]
      simp [h4, h5, h6]
    refine ⟨.slice { simp := o.simplify, indep := o.independence, split := s }, ?_, ⟨h3, fun _ => h4⟩⟩
    unfold hilbertAlg
    rw [if_neg (by rw [h1]; decide), if_pos h1, h7]
    rfl
  | @deform a b h1 h2 h3 h4 =>
    refine ⟨.deform o.deformStrong a b, ?_, ?_⟩
    · unfold hilbertAlg
      rw [if_neg (by rw [h1]; decide), if_neg (by rw [h1]; decide), if_pos h1, h2, h3]
      rfl
    · exact h4.imp_right fun h => Tight.noGaps_of hP.ideal (tight_of_names hP h)

theorem multigraded_with {o : HilbertOpts} {f : IOFormat} {t : Text} {I : NamedIdeal} (h : HilbertAccepted o f t I) (hu : o.univariate = false) {env : HilbertEnv} (henv : env.Ok)
    (wTr w : NamedPoly → Text) :
    ∃ a P, hilbertAlg o = some a ∧ hilbertWith wTr w o env a I = .ok (wTr P) ∧ I.HilbertNumerator P ∧ P.names = outNames o.canon I.names ∧ (o.canon = true → CanonicalPoly P) := by
  obtain ⟨hN, G, hP⟩ := prepare_spec (o := { canon := o.canon, minimal := o.minimal }) h.ok h.minimal
  obtain ⟨a, ha, hfit⟩ := h.algorithm.alg hP
  obtain ⟨r, h1, h2⟩ := hilbertTerms_spec henv o.canon (prepare { canon := o.canon, minimal := o.minimal } I) hP.ideal.anti hfit
  have h3 := hilbertText_spec wTr (prepare { canon := o.canon, minimal := o.minimal } I) hP.translator hP.ideal h2.le
  have h4 := h2.withExponents hP.ideal
  refine ⟨a, namedOf (prepare { canon := o.canon, minimal := o.minimal } I).names (withExponents G r), ha, ?_,
    namedOf_numerator hP.length hP.nodup hP.perm (hP.mem_iff h.ok) h4.reduced h4.numerator, hN, fun hc => namedOf_canonical ?_ (h4.sorted hc)⟩
  · unfold hilbertWith
    simp only [hu, h1, Option.bind_some, h3]
    rfl
  · rw [hN]
    simp only [hc, outNames, if_true]
    exact orderedNames_sorted h.ok.nodup

theorem multigraded_text {o : HilbertOpts} {f : IOFormat} {t : Text} {I : NamedIdeal} (h : HilbertAccepted o f t I) (hu : o.univariate = false) {env : HilbertEnv} (henv : env.Ok)
    {g : IOFormat} {g' : PolyFormat} (hg : polyFormat g = some g') :
    ∃ P, hilbertAction o env f g t = .ok (writePolyTr g' P) ∧ I.HilbertNumerator P ∧ P.names = outNames o.canon I.names ∧ (o.canon = true → CanonicalPoly P) := by
  obtain ⟨a, P, h1, h2, h3⟩ := multigraded_with h hu henv (writePolyTr g') (writePoly g')
  refine ⟨P, ?_, h3⟩
  unfold hilbertAction
  rw [h1, hg, h.read]
  exact h2

theorem univariate_with {o : HilbertOpts} {f : IOFormat} {t : Text} {I : NamedIdeal} (h : HilbertAccepted o f t I) (hu : o.univariate = true) {env : HilbertEnv} (henv : env.Ok)
    (wTr w : NamedPoly → Text) :
    ∃ a Q, hilbertAlg o = some a ∧ hilbertWith wTr w o env a I = .ok (w Q) ∧ I.UnivariateNumerator Q ∧ (o.canon = true → CanonicalPoly Q) := by
  obtain ⟨hN, G, hP⟩ := prepare_spec (o := { canon := o.canon, minimal := o.minimal }) h.ok h.minimal
  obtain ⟨a, ha, hfit⟩ := h.algorithm.alg hP
  obtain ⟨q, h1, h2, h3, P, h4, h5⟩ := hilbertUniTerms_spec henv o.canon (prepare { canon := o.canon, minimal := o.minimal } I) hP.translator hP.ideal hfit
  have hq : (q.map fun x => (x.1, [x.2])).map (fun x : ℤ × List ℕ => (x.1, x.2.sum)) = q := by
    rw [List.map_map]
    exact (List.map_congr_left fun x _ => by simp).trans (List.map_id q)
  refine ⟨a, { names := [t!"t"], terms := q.map fun x => (x.1, [x.2]) }, ha, ?_, ⟨rfl, ?_, ⟨?_, ?_⟩, fun P' hP' d => ?_, fun d => ?_⟩, fun hc => ⟨by simp, ?_⟩⟩
  · unfold hilbertWith
    simp only [hu, h1, Option.bind_some, hilbertUniText_spec]
    rfl
  · intro x hx
    obtain ⟨y, _, rfl⟩ := List.mem_map.1 hx
    rfl
  · have := h2.1
    rw [List.map_map]
    rw [List.Nodup, List.pairwise_map] at this ⊢
    exact this.imp fun hab he => hab (by simpa using he)
  · intro x hx
    obtain ⟨y, hy, rfl⟩ := List.mem_map.1 hx
    exact h2.2 y hy
  · rw [numerator_degrees hP.length hP.nodup hP.perm (hP.mem_iff h.ok) hP' h4, ← h5]
    clear h1 h2 h3 h4 h5 hq
    induction q with
    | nil => rfl
    | cons x l ih =>
      rw [List.map_cons, coefOf_cons, coefOf_cons]
      simp only at ih ⊢
      rw [ih]
      simp
  · simp only
    obtain ⟨hN0, G0, hP0⟩ := prepare_spec (o := { canon := false, minimal := o.minimal }) h.ok h.minimal
    rw [show (prepare { canon := false, minimal := o.minimal } I).names = I.names from hN0] at hP0
    obtain ⟨r, _, h8⟩ := hilbertTerms_spec henv o.canon (prepare { canon := o.canon, minimal := o.minimal } I) hP.ideal.anti hfit
    have h9 := h8.withExponents hP.ideal
    have h6 := namedOf_numerator hP.length hP.nodup hP.perm (hP.mem_iff h.ok) h9.reduced h9.numerator
    have h7 := onTerms_numerator rfl hP0.nodup (List.Perm.refl _) (hP0.mem_iff h.ok) h6
    rw [hq, card_standard rfl hP0.nodup (hP0.mem_iff h.ok), ← hilbert_function h7, uniSeriesCoef_eq, uniSeriesCoef_eq]
    refine Finset.sum_congr rfl fun e _ => ?_
    rw [h5, ← numerator_degrees hP.length hP.nodup hP.perm (hP.mem_iff h.ok) h6 h4, onTerms_degree rfl (h6.names.nodup_iff.2 h.ok.nodup) h6.names h6.length]
  · simp only
    rw [List.pairwise_map]
    exact (h3 hc).imp fun hab => (List.cons_lt_cons_iff).2 (.inl hab)

theorem univariate_text {o : HilbertOpts} {f : IOFormat} {t : Text} {I : NamedIdeal} (h : HilbertAccepted o f t I) (hu : o.univariate = true) {env : HilbertEnv} (henv : env.Ok)
    {g : IOFormat} {g' : PolyFormat} (hg : polyFormat g = some g') :
    ∃ Q, hilbertAction o env f g t = .ok (writePoly g' Q) ∧ I.UnivariateNumerator Q ∧ (o.canon = true → CanonicalPoly Q) := by
  obtain ⟨a, Q, h1, h2, h3⟩ := univariate_with h hu henv (writePolyTr g') (writePoly g')
  refine ⟨Q, ?_, h3⟩
  unfold hilbertAction
  rw [h1, hg, h.read]
  exact h2

/-! ## the theorems -/

/-- The options of the examples: one for each algorithm. -/
def hilbertExamples : List HilbertOpts :=
  [{}, { algorithm := t!"slice", simplify := false }, { algorithm := t!"deform", canon := true }, { split := t!"someNGT", canon := true, minimal := true }]

/-- The traversal of the hash tables of the examples. -/
def hilbertEnv : HilbertEnv := ⟨fun _ _ => 0, fun _ l => l.reverse, fun l => l, fun _ l => l⟩

theorem hilbertEnv_ok : hilbertEnv.Ok := ⟨fun _ l => l.reverse_perm, fun l => List.Perm.refl l, fun _ l => List.Perm.refl l⟩

theorem textIdeal_tight : textIdeal.TightGens := by
  intro f hf x hx
  refine ⟨f, hf, fun k hk hle => ?_, rfl⟩
  simp only [NamedIdeal.monomials, textIdeal, List.map_cons, List.map_nil, List.mem_cons, List.not_mem_nil, or_false] at hf hk
  rcases hf with rfl | rfl | rfl <;> rcases hk with rfl | rfl | rfl <;>
    first | rfl | exact absurd (hle t!"a") (by decide) | exact absurd (hle t!"b") (by decide)

theorem hilbertExample_accepted {o : HilbertOpts} (ho : o ∈ hilbertExamples) (u : Bool) : HilbertAccepted { o with univariate := u } .monos exampleText textIdeal := by
  refine ⟨by decide +kernel, ?_, fun _ => by unfold NamedIdeal.Minimal; decide, by decide⟩
  simp only [hilbertExamples, List.mem_cons, List.not_mem_nil, or_false] at ho
  rcases ho with rfl | rfl | rfl | rfl
  · exact .bigatti rfl (s := .median) (by cases u <;> decide +kernel)
  · exact .slice rfl (s := .median) (by cases u <;> decide +kernel) (by decide) (by decide)
  · exact .deform rfl (a := [⟨true, .lex⟩]) (b := [⟨false, .tdeg⟩, ⟨false, .lex⟩]) (by cases u <;> decide +kernel) (by cases u <;> decide +kernel) (.inr textIdeal_tight)
  · exact .bigatti rfl (s := .generic .someNG .tight) (by cases u <;> decide +kernel)

/-- C54: `hilbert` prints the numerator of the multigraded Hilbert-Poincaré series of the ideal that was read, whatever algorithm is chosen
and whatever it is told to do. Except in the format of CoCoA 4, the polynomial is read back from the text. What is missing is the
format of CoCoA 4, see `C54_cocoa4`, and for `deform` the ideals without the condition, see `C54_deform_wrong`. -/
theorem C54_multigraded_partial {o : HilbertOpts} {f : IOFormat} {t : Text} {I : NamedIdeal} (h : HilbertAccepted o f t I) (hu : o.univariate = false) {env : HilbertEnv}
    (henv : env.Ok) {g : IOFormat} {g' : PolyFormat} (hg : polyFormat g = some g') :
    ∃ s P, hilbertAction o env f g t = .ok s ∧ I.HilbertNumerator P ∧ s = writePolyTr g' P ∧ (g' ≠ .cocoa4 → P.terms.length < 2 ^ 64 → ReadsPoly g' s P) ∧
      (o.canon = false → P.names = I.names) ∧ (o.canon = true → CanonicalPoly P) := by
  obtain ⟨P, h1, h2, h3, h4⟩ := multigraded_text h hu henv hg
  refine ⟨_, P, h1, h2, rfl, fun hc hl => ?_, fun hc => ?_, h4⟩
  · rw [C43_computed_partial hc]
    refine reads_of ⟨h3 ▸ h.ring, h2.length, hl, ?_⟩ g'
    rw [h2.names.length_eq]
    exact h.varCount
  · rw [h3, hc]
    rfl

example {o : HilbertOpts} (ho : o ∈ hilbertExamples) : ∃ s P, hilbertAction { o with univariate := false } hilbertEnv .monos .m2 exampleText = .ok s ∧ textIdeal.HilbertNumerator P ∧
    s = writePolyTr .m2 P ∧ (PolyFormat.m2 ≠ .cocoa4 → P.terms.length < 2 ^ 64 → ReadsPoly .m2 s P) ∧ (o.canon = false → P.names = textIdeal.names) ∧
    (o.canon = true → CanonicalPoly P) :=
  C54_multigraded_partial (hilbertExample_accepted ho false) rfl hilbertEnv_ok rfl

/-- C54: `hilbert -univariate` prints what becomes of the numerator when `t` is put in for all variables, and the polynomial is read back
from the text in each of the formats. Its power series tells how many monomials of each degree are not in the ideal. -/
theorem C54_univariate {o : HilbertOpts} {f : IOFormat} {t : Text} {I : NamedIdeal} (h : HilbertAccepted o f t I) (hu : o.univariate = true) {env : HilbertEnv}
    (henv : env.Ok) {g : IOFormat} {g' : PolyFormat} (hg : polyFormat g = some g') :
    ∃ s Q, hilbertAction o env f g t = .ok s ∧ I.UnivariateNumerator Q ∧ s = writePoly g' Q ∧ (Q.terms.length < 2 ^ 64 → ReadsPoly g' s Q) ∧
      (o.canon = true → CanonicalPoly Q) := by
  obtain ⟨Q, h1, h2, h3⟩ := univariate_text h hu henv hg
  refine ⟨_, Q, h1, h2, rfl, fun hl => ?_, h3⟩
  have hr : AllowedRing Q.names := by
    rw [h2.names]
    refine ⟨fun x hx => ⟨'t', [], List.mem_singleton.1 hx, Or.inl (by decide), by simp⟩, by decide, by decide⟩
  refine reads_of ⟨hr, ?_, hl, ?_⟩ g'
  · rw [h2.names]
    exact h2.length
  · rw [h2.names]
    decide

example {o : HilbertOpts} (ho : o ∈ hilbertExamples) : ∃ s Q, hilbertAction { o with univariate := true } hilbertEnv .monos .cocoa4 exampleText = .ok s ∧ textIdeal.UnivariateNumerator Q ∧
    s = writePoly .cocoa4 Q ∧ (Q.terms.length < 2 ^ 64 → ReadsPoly .cocoa4 s Q) ∧ (o.canon = true → CanonicalPoly Q) :=
  C54_univariate (hilbertExample_accepted ho true) rfl hilbertEnv_ok rfl

/-- C54: with `-canon` the text is determined by the ideal. So it is the same for each algorithm and each way it may run, and for each text
of the same ideal in each format. -/
theorem C54_canonical {o o' : HilbertOpts} {f f' : IOFormat} {t t' : Text} {I I' : NamedIdeal} (h : HilbertAccepted o f t I) (h' : HilbertAccepted o' f' t' I')
    (hc : o.canon = true) (hc' : o'.canon = true) (hu : o.univariate = o'.univariate) (hn : I.names.Perm I'.names) (hm : ∀ m, I.mem m ↔ I'.mem m)
    {env env' : HilbertEnv} (henv : env.Ok) (henv' : env'.Ok) (g : IOFormat) : hilbertAction o env f g t = hilbertAction o' env' f' g t' := by
  have hex : ∀ {o : HilbertOpts} {f t I}, HilbertAccepted o f t I → ∃ a, hilbertAlg o = some a := fun {o f t I} h => by
    obtain ⟨_, G, hP⟩ := prepare_spec (o := { canon := o.canon, minimal := o.minimal }) h.ok h.minimal
    obtain ⟨a, ha, _⟩ := h.algorithm.alg hP
    exact ⟨a, ha⟩
  cases hg : polyFormat g with
  | none =>
    obtain ⟨a, ha⟩ := hex h
    obtain ⟨b, hb⟩ := hex h'
    unfold hilbertAction
    rw [hg, ha, hb]
  | some g' =>
    cases huv : o.univariate with
    | false =>
      obtain ⟨P, h1, h2, h3, h4⟩ := multigraded_text h huv henv hg
      obtain ⟨P', h1', h2', h3', h4'⟩ := multigraded_text h' (hu ▸ huv) henv' hg
      have hN : P.names = P'.names := by
        rw [h3, h3', hc, hc']
        exact NamedIdeal.orderedNames_congr hn
      rw [h1, h1', (h4 hc).eq_of_perm (h4' hc') hN (h2.perm h.ok.nodup (h2'.congr hn.symm fun m => (hm m).symm) hN)]
    | true =>
      obtain ⟨Q, h1, h2, h3⟩ := univariate_text h huv henv hg
      obtain ⟨Q', h1', h2', h3'⟩ := univariate_text h' (hu ▸ huv) henv' hg
      obtain ⟨P, _, h4, _⟩ := multigraded_text (o := { o with univariate := false }) ⟨h.read, by
        cases h.algorithm with
        | bigatti a b => exact .bigatti a b
        | slice a b c d => exact .slice a b c d
        | deform a b c d => exact .deform a b c d, h.minimal, h.varCount⟩ rfl henv hg
      have hperm : Q.terms.Perm Q'.terms := by
        refine h2.reduced.perm h2'.reduced fun e => ?_
        by_cases he : ∃ d, e = [d]
        · obtain ⟨d, rfl⟩ := he
          rw [h2.subst P h4, h2'.subst P (h4.congr hn hm)]
        · have key : ∀ {L : List (ℤ × List ℕ)}, (∀ x ∈ L, x.2.length = 1) → coefOf L e = 0 := by
            intro L hL
            induction L with
            | nil => rfl
            | cons x l ih =>
              rw [coefOf_cons, ih fun y hy => hL y (by simp [hy]), if_neg]
              · rfl
              · intro hx
                exact he (hx ▸ List.length_eq_one_iff.1 (hL x (by simp)))
          rw [key h2.length, key h2'.length]
      rw [h1, h1', (h3 hc).eq_of_perm (h3' hc') (h2.names.trans h2'.names.symm) hperm]

theorem otherText_hilbert : HilbertAccepted { algorithm := t!"slice", canon := true } .m2 otherText otherIdeal :=
  ⟨otherText_accepted.read, .slice (s := .median) rfl (by decide +kernel) (by decide) (by decide), fun h => absurd (show false = true from h) (by decide), by decide⟩

example (g : IOFormat) : hilbertAction { algorithm := t!"deform", canon := true } hilbertEnv .monos g exampleText =
    hilbertAction { algorithm := t!"slice", canon := true } hilbertEnv .m2 g otherText :=
  C54_canonical (hilbertExample_accepted (o := { algorithm := t!"deform", canon := true }) (by simp [hilbertExamples]) false) otherText_hilbert rfl rfl rfl example_same.names
    example_same.mem hilbertEnv_ok hilbertEnv_ok g

/-- What is printed, with variables in the order of the input and sorted. -/
example : printed (hilbertAction {} hilbertEnv .monos .m2 exampleText) =
      some t!"R = QQ[b, a];\np =\n 1 +\n -b^2 +\n -b*a +\n b^2*a +\n -a^3 +\n b*a^3;\n" ∧
    printed (hilbertAction { canon := true } hilbertEnv .monos .singular exampleText) =
      some t!"ring R = 0, (a, b), lp;\nint noVars = 0;\npoly p =\n a^3*b\n -a^3\n +a*b^2\n -a*b\n -b^2\n +1;\n" ∧
    printed (hilbertAction { univariate := true } hilbertEnv .monos .cocoa4 exampleText) =
      some t!"Use R ::= Q[x[1..1]];\nNames := [\"t\"];\np :=\n x[1]^4\n -2x[1]^2\n +1;\n" := by decide +kernel

/-! ## errors -/

/-- C54: an error is reported, and nothing printed, for a text that cannot be read, a format without polynomials, an unknown algorithm, and an unknown
name of a strategy of the algorithm. For the algorithm `slice` this is so for the label strategies and for `degree` and `frob` too. -/
theorem C54_errors (o : HilbertOpts) (env : HilbertEnv) (f g : IOFormat) (t : Text)
    (h : readIdeal f t = none ∨ g = .monos ∨ g = .newmonos ∨ (o.algorithm ≠ t!"bigatti" ∧ o.algorithm ≠ t!"slice" ∧ o.algorithm ≠ t!"deform") ∨
      (o.algorithm = t!"bigatti" ∧ createPivot o.split = none) ∨
      (o.algorithm = t!"slice" ∧ (createSplit o.split = none ∨ (∃ s, createSplit o.split = some s ∧ s.isLabel = true) ∨ o.split = t!"degree" ∨ o.split = t!"frob")) ∨
      (o.algorithm = t!"deform" ∧ (createOrders o.enumeration = none ∨ createOrders o.deformation = none))) :
    hilbertAction o env f g t = .error := by
  have key : hilbertAlg o = none → hilbertAction o env f g t = .error := fun h => by unfold hilbertAction; rw [h]
  rcases h with h | rfl | rfl | ⟨h1, h2, h3⟩ | ⟨h1, h2⟩ | ⟨h1, h2⟩ | ⟨h1, h2⟩
  · unfold hilbertAction
    rw [h]
    split <;> rfl
  · unfold hilbertAction
    cases hilbertAlg o <;> rfl
  · unfold hilbertAction
    cases hilbertAlg o <;> rfl
  · exact key (by rw [hilbertAlg, if_neg h1, if_neg h2, if_neg h3])
  · exact key (by rw [hilbertAlg, if_pos h1, h2]; rfl)
  · refine key ?_
    have hv : validateSplit o.split false false = none := by
      unfold validateSplit
      rcases h2 with h2 | ⟨s, h2, h3⟩ | h2 | h2
      · rw [h2]
      · rw [h2]
        simp [h3]
      · rw [h2, createSplit_degree.1]
        rfl
      · rw [h2, createSplit_degree.2]
        rfl
    rw [hilbertAlg, if_neg (by rw [h1]; decide), if_pos h1, hv]
    rfl
  · refine key ?_
    rw [hilbertAlg, if_neg (by rw [h1]; decide), if_neg (by rw [h1]; decide), if_pos h1]
    rcases h2 with h2 | h2
    · rw [h2]; rfl
    · rw [h2]
      cases createOrders o.enumeration <;> rfl

example : createSplit t!"maxl" = some .maxlabel ∧ Split.maxlabel.isLabel = true ∧ createPivot t!"typical" = none ∧ createOrders t!"rev" = none := by decide +kernel

/-! ## where it fails -/

theorem degreeIdeal_hilbert_none (rnd : List ℕ → ℕ → ℕ) : hilbertRun { simp := true, indep := true, split := .degree } rnd (prepare {} degreeIdeal).ideal = none := by
  rfl

/-- C54 fails for the algorithm `slice` with a beginning of `degree` or `frob`: it passes the check and the first pivot split ends the program
with an internal error. -/
theorem C54_degree_prefix {name : Text} (h : createSplit name = some .degree) (h1 : name ≠ t!"degree") (h2 : name ≠ t!"frob") (env : HilbertEnv) {g : IOFormat} {g' : PolyFormat}
    (hg : polyFormat g = some g') : hilbertAction { algorithm := t!"slice", split := name } env .monos g degreeText = .crash := by
  have hv : validateSplit name false false = some .degree := by
    unfold validateSplit
    rw [h]
    simp [h1, h2, Split.isLabel]
  have ha : hilbertAlg { algorithm := t!"slice", split := name } = some (.slice { simp := true, indep := true, split := .degree }) := by
    rw [hilbertAlg, if_neg (show t!"slice" ≠ t!"bigatti" by decide), if_pos rfl, hv]
    rfl
  have hR : readIdeal .monos degreeText = some degreeIdeal := by decide +kernel
  unfold hilbertAction
  rw [ha, hg, hR]
  simp only [hilbertWith, hilbertTerms]
  rw [degreeIdeal_hilbert_none]
  rfl

example (env : HilbertEnv) : hilbertAction { algorithm := t!"slice", split := t!"deg" } env .monos .m2 degreeText = .crash :=
  C54_degree_prefix (by decide +kernel) (by decide) (by decide) env rfl

/-- C54 fails in the format of CoCoA 4: exponents that are zero are written, and then the polynomial cannot be read. -/
theorem C54_cocoa4 : ∃ s, hilbertAction {} hilbertEnv .monos .cocoa4 exampleText = .ok s ∧ readPoly .cocoa4 s = none :=
  ⟨_, rfl, by decide +kernel⟩

theorem printed_ok {x : Outcome Text} {s : Text} (h : printed x = some s) : x = .ok s := by
  cases x with
  | ok t => exact congrArg _ (Option.some.inj h)
  | error => exact nomatch h
  | crash => exact nomatch h

/-- The text of `weakWitness`. -/
def weakText : Text := t!"vars x, y, z;\n[ x*y*z^3, x^2*y^3, x^3*y^2, y^3*z^3, x^2*z^3, x^2*y^3*z, x^3*y^2*z, x^4*y^4*z^2 ];\n"

/-- The ideal of `weakWitness`. -/
def weakIdeal : NamedIdeal :=
  { names := [t!"x", t!"y", t!"z"], terms := [[1, 1, 3], [2, 3, 0], [3, 2, 0], [0, 3, 3], [2, 0, 3], [2, 3, 1], [3, 2, 1], [4, 4, 2]] }

/-- The polynomial that is printed for it. -/
def weakPoly : NamedPoly :=
  { names := [t!"x", t!"y", t!"z"], terms := [(-2, [3, 3, 3]), (1, [3, 3, 0]), (1, [3, 2, 3]), (-1, [3, 2, 0]), (1, [2, 3, 3]), (-1, [2, 3, 0]), (1, [2, 1, 3]),
      (-1, [2, 0, 3]), (1, [1, 3, 3]), (-1, [1, 1, 3]), (-1, [0, 3, 3]), (1, [0, 0, 0])] }

/-- C54 fails for the algorithm `deform` with its own defaults: for this ideal, whose last three generators are redundant, the polynomial that is
printed has a wrong coefficient. -/
theorem C54_deform_wrong : ∃ s, hilbertAction { algorithm := t!"deform", canon := true } hilbertEnv .monos .m2 weakText = .ok s ∧ readIdeal .monos weakText = some weakIdeal ∧
    readPoly .m2 s = some weakPoly ∧ ¬ weakIdeal.HilbertNumerator weakPoly := by
  refine ⟨writePolyTr .m2 weakPoly, ?_, by decide +kernel, by decide +kernel, fun h => ?_⟩
  · exact printed_ok (by decide +kernel)
  · have := h.inside (expOf weakIdeal.names [3, 3, 3]) ⟨[3, 2, 0], by decide, by decide⟩
    revert this
    decide +kernel

end Frobby
