import Verif.AnalyzeSpec
import Verif.TransformLemmas5

/-!
# Lemmas about the action `analyze`
-/

namespace Frobby

variable {n : ℕ}

/-! ## the loops -/

theorem strongScan_iff (v : Fin n) : ∀ (G : List (Term n)) (last : ℕ), G.Pairwise (fun a b => a v ≤ b v) → (∀ g ∈ G, last ≤ g v) →
    (strongScan v last G = true ↔ (∀ g ∈ G, last = g v → last = 0) ∧ G.Pairwise fun a b => a v = b v → a v = 0) := by
  intro G
  induction G with
  | nil => intro last _ _; simp [strongScan]
  | cons g G ih =>
    intro last hs hl
    obtain ⟨h1, h2⟩ := List.pairwise_cons.1 hs
    rw [strongScan]
    have hlg := hl g (by simp)
    split
    · rename_i hc
      constructor
      · intro h; cases h
      · rintro ⟨h3, _⟩; exact absurd (h3 g (by simp) hc.2) hc.1
    · rename_i hc
      rw [ih (g v) h2 h1, List.pairwise_cons]
      constructor
      · rintro ⟨h3, h4⟩
        refine ⟨fun k hk he => ?_, ⟨fun b hb he => h3 b hb he, h4⟩⟩
        by_contra h0
        rcases List.mem_cons.1 hk with rfl | hk
        · exact hc ⟨h0, he⟩
        · have := h1 k hk
          exact hc ⟨h0, by omega⟩
      · rintro ⟨_, h4, h5⟩
        exact ⟨fun b hb he => h4 b hb he, h5⟩

theorem strongGenericLoop_spec : ∀ (vs : List (Fin n)) (G : List (Term n)), (strongGenericLoop vs G).2.Perm G ∧
    ((strongGenericLoop vs G).1 = true ↔ G.Pairwise fun a b => ∀ v ∈ vs, a v = b v → a v = 0) := by
  intro vs
  induction vs with
  | nil => intro G; exact ⟨List.Perm.refl _, fun _ => List.pairwise_of_forall (by simp), fun _ => rfl⟩
  | cons v vs ih =>
    intro G
    have hp := singleDegreeSort_perm v G
    have hs := strongScan_iff v (singleDegreeSort v G) 0 (singleDegreeSort_sorted v G) (by simp)
    have hsymm : ∀ (P : Fin n → Prop), Std.Symm fun a b : Term n => ∀ v, P v → a v = b v → a v = 0 := fun P =>
      ⟨fun a b h v hv he => by rw [he]; exact h v hv he.symm⟩
    have hperm : (singleDegreeSort v G).Pairwise (fun a b => a v = b v → a v = 0) ↔ G.Pairwise fun a b => a v = b v → a v = 0 :=
      hp.pairwise_iff fun {a b} h he => by rw [he]; exact h he.symm
    have hcons : (G.Pairwise fun a b => ∀ w ∈ v :: vs, a w = b w → a w = 0) ↔
        (G.Pairwise fun a b => a v = b v → a v = 0) ∧ G.Pairwise fun a b => ∀ w ∈ vs, a w = b w → a w = 0 := by
      rw [← List.pairwise_and_iff]
      simp only [List.mem_cons, forall_eq_or_imp]
    have h0 : ∀ g ∈ singleDegreeSort v G, (0 : ℕ) = g v → (0 : ℕ) = 0 := fun _ _ _ => rfl
    rw [strongGenericLoop]
    split
    · rename_i hc
      obtain ⟨i1, i2⟩ := ih (singleDegreeSort v G)
      refine ⟨i1.trans hp, ?_⟩
      rw [i2, hcons, ← hperm]
      have h2 : (singleDegreeSort v G).Pairwise (fun a b => ∀ w ∈ vs, a w = b w → a w = 0) ↔ G.Pairwise fun a b => ∀ w ∈ vs, a w = b w → a w = 0 :=
        hp.pairwise_iff fun {a b} h w hw he => by rw [he]; exact h w hw he.symm
      rw [h2]
      exact ⟨fun h => ⟨(hs.1 hc).2, h⟩, fun h => h.2⟩
    · rename_i hc
      refine ⟨hp, ?_⟩
      constructor
      · intro h; cases h
      · intro h
        rw [hcons, ← hperm] at h
        exact absurd (hs.2 ⟨h0, h.1⟩) hc

theorem isStronglyGeneric_spec (G : List (Term n)) : (isStronglyGeneric G).2.Perm G ∧
    ((isStronglyGeneric G).1 = true ↔ G.Pairwise fun a b => ∀ v, a v = b v → a v = 0) := by
  have h := strongGenericLoop_spec (List.finRange n) G
  refine ⟨h.1, h.2.trans ?_⟩
  simp

theorem weaklyGenericLoop_iff (G : List (Term n)) : ∀ l : List (Term n), weaklyGenericLoop G l = true ↔
    l.Pairwise fun a b => (∃ v, a v ≠ 0 ∧ a v = b v) → ∃ c ∈ G, Term.strictlyDivides c (a ⊔ b) := by
  intro l
  induction l with
  | nil => simp [weaklyGenericLoop]
  | cons a l ih =>
    rw [weaklyGenericLoop, Bool.and_eq_true, ih, List.pairwise_cons]
    refine and_congr_left fun _ => ?_
    simp only [List.all_eq_true, Bool.or_eq_true, Bool.not_eq_true', sharesExponent, decide_eq_false_iff_not, List.any_eq_true, decide_eq_true_eq]
    exact forall_congr' fun b => forall_congr' fun _ => by
      by_cases q : ∃ v, a v ≠ 0 ∧ a v = b v
      · simp only [q, not_true_eq_false, false_or, true_imp_iff]
      · simp only [q, not_false_eq_true, true_or, false_imp_iff]

/-! ## exponents and identifiers -/

theorem anti_pairwise {R : Term n → Term n → Prop} {K : List (Term n)} (hK : Anti K) (hs : ∀ a b, R a b → R b a) :
    K.Pairwise R ↔ ∀ a ∈ K, ∀ b ∈ K, a ≠ b → R a b := by
  constructor
  · intro h a ha b hb hne
    have : Std.Symm R := ⟨fun a b => hs a b⟩
    exact h.forall ha hb hne
  · intro h
    exact List.Pairwise.imp_of_mem (fun {a b} ha hb hab => h a ha b hb fun he => hab.1 (he ▸ le_refl _)) hK

/-- The minimal generators in terms of identifiers. -/
theorem minimalIn_iff {e : Fin n → ℕ → ℕ} {N : Fin n → ℕ} {G M : List (Term n)} (h : IdSpec e N G M) (a : Term n) :
    MinimalIn G a ↔ ∃ t ∈ M, a = fun v => e v (t v) := by
  constructor
  · rintro ⟨h1, h2⟩
    obtain ⟨t, ht, hle⟩ := h.complete a h1
    exact ⟨t, ht, (h2 _ (h.sound t ht) hle).symm⟩
  · rintro ⟨t, ht, rfl⟩
    refine ⟨h.sound t ht, fun g hg hle => ?_⟩
    obtain ⟨k, hk, hkg⟩ := h.complete g hg
    have hkt : k ≤ t := Term.le_def.2 fun v => by
      by_contra hc
      have h1 := h.sys.mono v (t v) (k v) (by omega) (h.lt k hk v)
      have h2 := hkg v
      have h3 : g v ≤ e v (t v) := hle v
      omega
    have : k = t := by
      by_contra hne
      exact absurd hkt ((anti_pairwise (R := fun a b => ¬ a ≤ b ∧ ¬ b ≤ a) h.anti fun a b h => ⟨h.2, h.1⟩).1 h.anti k hk t ht hne).1
    subst this
    funext v
    exact le_antisymm (hle v) (hkg v)

theorem IdSpec.eq_iff {e : Fin n → ℕ → ℕ} {N : Fin n → ℕ} {G M : List (Term n)} (h : IdSpec e N G M) {a b : Term n} (ha : a ∈ M) (hb : b ∈ M) (v : Fin n) :
    (e v (a v) = e v (b v) ↔ a v = b v) ∧ (e v (a v) < e v (b v) ↔ a v < b v) ∧ (e v (a v) = 0 ↔ a v = 0) := by
  have h1 := h.sys.mono v (a v) (b v)
  have h2 := h.sys.mono v (b v) (a v)
  have h3 := h.lt a ha v
  have h4 := h.lt b hb v
  have h5 := h.sys.mono v 0 (a v)
  have h6 := h.sys.zero v
  rcases Nat.lt_trichotomy (a v) (b v) with q | q | q
  · have := h1 q h4
    refine ⟨by omega, by omega, ?_⟩
    rcases Nat.eq_zero_or_pos (a v) with z | z
    · rw [z]; omega
    · have := h5 z h3; omega
  · rw [q] at h3 h5 ⊢
    refine ⟨by omega, by omega, ?_⟩
    rcases Nat.eq_zero_or_pos (b v) with z | z
    · rw [z]; omega
    · have := h5 z h3; omega
  · have := h2 q h3
    refine ⟨by omega, by omega, ?_⟩
    have := h5 (by omega) h3; omega

theorem strongly_iff {e : Fin n → ℕ → ℕ} {N : Fin n → ℕ} {G M : List (Term n)} (h : IdSpec e N G M) :
    (isStronglyGeneric M).1 = true ↔ StronglyGeneric (α := Fin n) G := by
  rw [(isStronglyGeneric_spec M).2, anti_pairwise h.anti fun a b h v he => by rw [he]; exact h v he.symm]
  constructor
  · intro hM f g hf hg hne v he
    obtain ⟨a, ha, rfl⟩ := (minimalIn_iff h f).1 hf
    obtain ⟨b, hb, rfl⟩ := (minimalIn_iff h g).1 hg
    have hab : a ≠ b := fun q => hne (by rw [q])
    have h1 := (h.eq_iff ha hb v)
    exact h1.2.2.2 (hM a ha b hb hab v (h1.1.1 he))
  · intro hG a ha b hb hab v he
    have h1 := h.eq_iff ha hb v
    refine h1.2.2.1 (hG _ _ ((minimalIn_iff h _).2 ⟨a, ha, rfl⟩) ((minimalIn_iff h _).2 ⟨b, hb, rfl⟩) (fun q => hab ?_) v (h1.1.2 he))
    funext w
    exact (h.eq_iff ha hb w).1.1 (congrFun q w)

theorem weakly_iff {e : Fin n → ℕ → ℕ} {N : Fin n → ℕ} {G M M' : List (Term n)} (h : IdSpec e N G M) (hp : M'.Perm M) :
    isWeaklyGeneric M' = true ↔ WeaklyGeneric (α := Fin n) G := by
  have hsup : ∀ a ∈ M, ∀ b ∈ M, ∀ v, max (e v (a v)) (e v (b v)) = e v (max (a v) (b v)) := by
    intro a ha b hb v
    have h1 := (h.eq_iff ha hb v).2.1
    have h2 := (h.eq_iff hb ha v).2.1
    rcases Nat.le_total (a v) (b v) with q | q
    · rw [max_eq_right q, max_eq_right]; omega
    · rw [max_eq_left q, max_eq_left]; omega
  have hmax : ∀ a ∈ M, ∀ b ∈ M, ∀ v, max (a v) (b v) = a v ∨ max (a v) (b v) = b v := fun a _ b _ v => by omega
  have key : ∀ a ∈ M, ∀ b ∈ M, (∃ v, a v = b v ∧ a v ≠ 0) → ∀ c ∈ M, (Term.strictlyDivides c (a ⊔ b) ↔
      ∀ x, e x (c x) ≤ max (e x (a x)) (e x (b x)) ∧ (0 < max (e x (a x)) (e x (b x)) → e x (c x) < max (e x (a x)) (e x (b x)))) := by
    intro a ha b hb hv c hc
    have hne : a ⊔ b ≠ 0 := by
      obtain ⟨v, _, h2⟩ := hv
      intro q
      have := congrFun q v
      simp only [Pi.sup_apply, Pi.zero_apply] at this
      omega
    have e1 : Term.strictlyDivides c (a ⊔ b) ↔ ∀ v, c v < max (a v) (b v) ∨ c v = 0 := by
      unfold Term.strictlyDivides
      exact ⟨fun q => q.1, fun q => ⟨q, hne⟩⟩
    rw [e1]
    refine forall_congr' fun v => ?_
    have c1 := h.eq_iff hc ha v
    have c2 := h.eq_iff hc hb v
    have c3 := h.eq_iff ha hb v
    have c4 := h.eq_iff hb ha v
    omega
  unfold isWeaklyGeneric
  rw [weaklyGenericLoop_iff]
  have hsymm : ∀ a b : Term n, ((∃ v, a v ≠ 0 ∧ a v = b v) → ∃ c ∈ M', Term.strictlyDivides c (a ⊔ b)) →
      (∃ v, b v ≠ 0 ∧ b v = a v) → ∃ c ∈ M', Term.strictlyDivides c (b ⊔ a) := by
    intro a b q ⟨v, h1, h2⟩
    rw [sup_comm]
    exact q ⟨v, by omega, h2.symm⟩
  rw [hp.pairwise_iff fun {a b} => hsymm a b, anti_pairwise h.anti hsymm]
  constructor
  · intro hM f g hf hg hne ⟨v, h1, h2⟩
    obtain ⟨a, ha, rfl⟩ := (minimalIn_iff h f).1 hf
    obtain ⟨b, hb, rfl⟩ := (minimalIn_iff h g).1 hg
    have hab : a ≠ b := fun q => hne (by rw [q])
    have hv := h.eq_iff ha hb v
    have hv' : ∃ v, a v = b v ∧ a v ≠ 0 := ⟨v, hv.1.1 h1, fun q => h2 (hv.2.2.2 q)⟩
    obtain ⟨c, hc, hcd⟩ := hM a ha b hb hab (by obtain ⟨v, p, q⟩ := hv'; exact ⟨v, q, p⟩)
    have hc' := hp.mem_iff.1 hc
    exact ⟨_, (minimalIn_iff h _).2 ⟨c, hc', rfl⟩, (key a ha b hb hv' c hc').1 hcd⟩
  · intro hG a ha b hb hab ⟨v, h1, h2⟩
    have hv := h.eq_iff ha hb v
    obtain ⟨k, hk, hkk⟩ := hG _ _ ((minimalIn_iff h _).2 ⟨a, ha, rfl⟩) ((minimalIn_iff h _).2 ⟨b, hb, rfl⟩)
      (fun q => hab (funext fun w => (h.eq_iff ha hb w).1.1 (congrFun q w))) ⟨v, hv.1.2 h2, fun q => h1 (hv.2.2.1 q)⟩
    obtain ⟨c, hc, rfl⟩ := (minimalIn_iff h k).1 hk
    exact ⟨c, hp.mem_iff.2 hc, (key a ha b hb ⟨v, h2, h1⟩ c hc).2 hkk⟩

/-! ## names -/

namespace NamedIdeal

/-- The exponents by place. -/
def byPlace (I : NamedIdeal) (f : Text → ℕ) : Term I.names.length := fun v => f (I.names.getD v [])

theorem gens_eq {I : NamedIdeal} (hI : I.Ok) : I.gens = I.monomials.map I.byPlace := by
  unfold gens monomials
  rw [List.map_map]
  refine List.map_congr_left fun t _ => ?_
  funext v
  exact (expOf_getD hI.nodup t v.2).symm

theorem byPlace_all {I : NamedIdeal} (hI : I.Ok) {f g : Text → ℕ} (hf : f ∈ I.monomials) (hg : g ∈ I.monomials) {R : ℕ → ℕ → Prop} (h0 : R 0 0) :
    (∀ x, R (f x) (g x)) ↔ ∀ v, R (I.byPlace f v) (I.byPlace g v) := by
  constructor
  · intro h v; exact h _
  · intro h x
    by_cases hx : x ∈ I.names
    · obtain ⟨i, hi, rfl⟩ := exists_getD_of_mem hx
      exact h ⟨i, hi⟩
    · rw [monomials_zero hI hf hx, monomials_zero hI hg hx]; exact h0

theorem byPlace_inj {I : NamedIdeal} (hI : I.Ok) {f g : Text → ℕ} (hf : f ∈ I.monomials) (hg : g ∈ I.monomials) (h : I.byPlace f = I.byPlace g) : f = g :=
  funext ((byPlace_all hI hf hg (R := Eq) rfl).2 fun v => congrFun h v)

theorem minimalIn_byPlace {I : NamedIdeal} (hI : I.Ok) {f : Text → ℕ} (hf : f ∈ I.monomials) : MinimalIn I.monomials f ↔ MinimalIn (α := Fin _) I.gens (I.byPlace f) := by
  rw [gens_eq hI]
  unfold MinimalIn
  simp only [List.mem_map, forall_exists_index, and_imp, forall_apply_eq_imp_iff₂]
  constructor
  · rintro ⟨_, h⟩
    exact ⟨⟨f, hf, rfl⟩, fun g hg hle => by rw [h g hg ((byPlace_all hI hg hf (R := (· ≤ ·)) le_rfl).2 hle)]⟩
  · rintro ⟨_, h⟩
    exact ⟨hf, fun g hg hle => byPlace_inj hI hg hf (h g hg ((byPlace_all hI hg hf (R := (· ≤ ·)) le_rfl).1 hle))⟩

theorem minimalIn_gens {I : NamedIdeal} (hI : I.Ok) {a : Term I.names.length} (ha : MinimalIn (α := Fin _) I.gens a) : ∃ f, MinimalIn I.monomials f ∧ a = I.byPlace f := by
  have h := ha.1
  rw [gens_eq hI] at h
  obtain ⟨f, hf, rfl⟩ := List.mem_map.1 h
  exact ⟨f, (minimalIn_byPlace hI hf).2 ha, rfl⟩

theorem stronglyGeneric_gens {I : NamedIdeal} (hI : I.Ok) : StronglyGeneric (α := Fin _) I.gens ↔ StronglyGeneric I.monomials := by
  constructor
  · intro h f g hf hg hne
    refine (byPlace_all hI hf.1 hg.1 (R := fun a b => a = b → a = 0) fun _ => rfl).2 fun v => ?_
    exact h _ _ ((minimalIn_byPlace hI hf.1).1 hf) ((minimalIn_byPlace hI hg.1).1 hg) (fun q => hne (byPlace_inj hI hf.1 hg.1 q)) v
  · intro h a b ha hb hne v
    obtain ⟨f, hf, rfl⟩ := minimalIn_gens hI ha
    obtain ⟨g, hg, rfl⟩ := minimalIn_gens hI hb
    exact h f g hf hg (fun q => hne (by rw [q])) _

theorem weaklyGeneric_gens {I : NamedIdeal} (hI : I.Ok) : WeaklyGeneric (α := Fin _) I.gens ↔ WeaklyGeneric I.monomials := by
  constructor
  · intro h f g hf hg hne ⟨x, h1, h2⟩
    have hx : x ∈ I.names := by
      by_contra hx
      exact h2 (monomials_zero hI hf.1 hx)
    obtain ⟨i, hi, rfl⟩ := exists_getD_of_mem hx
    obtain ⟨c, hc, hcc⟩ := h _ _ ((minimalIn_byPlace hI hf.1).1 hf) ((minimalIn_byPlace hI hg.1).1 hg) (fun q => hne (byPlace_inj hI hf.1 hg.1 q)) ⟨⟨i, hi⟩, h1, h2⟩
    obtain ⟨k, hk, rfl⟩ := minimalIn_gens hI hc
    refine ⟨k, hk, fun x => ?_⟩
    by_cases hx : x ∈ I.names
    · obtain ⟨j, hj, rfl⟩ := exists_getD_of_mem hx
      exact hcc ⟨j, hj⟩
    · rw [monomials_zero hI hf.1 hx, monomials_zero hI hg.1 hx, monomials_zero hI hk.1 hx]; simp
  · intro h a b ha hb hne ⟨v, h1, h2⟩
    obtain ⟨f, hf, rfl⟩ := minimalIn_gens hI ha
    obtain ⟨g, hg, rfl⟩ := minimalIn_gens hI hb
    obtain ⟨k, hk, hkk⟩ := h f g hf hg (fun q => hne (by rw [q])) ⟨_, h1, h2⟩
    exact ⟨_, (minimalIn_byPlace hI hk.1).1 hk, fun v => hkk _⟩

/-! ## numbers -/

theorem analyzeConsumer_eq (I : NamedIdeal) : analyzeConsumer I = (I.terms.length, I.lcm) := by
  have key : ∀ (ts : List (List ℕ)) (k : ℕ) (l : List ℕ),
      ts.foldl (fun s t => (s.1 + 1, List.zipWith (fun a b => if a < b then b else a) s.2 t)) (k, l) =
        (k + ts.length, ts.foldl (fun l t => List.zipWith (fun a b => if a < b then b else a) l t) l) := by
    intro ts
    induction ts with
    | nil => intro k l; rfl
    | cons t ts ih => intro k l; rw [List.foldl_cons, ih, List.foldl_cons, List.length_cons, Nat.add_right_comm, Nat.add_assoc]
  rw [analyzeConsumer, key, Nat.zero_add]
  rfl

theorem lcm_length {I : NamedIdeal} (hI : I.Ok) : I.lcm.length = I.names.length := by
  have key : ∀ (ts : List (List ℕ)) (l : List ℕ), l.length = I.names.length → (∀ t ∈ ts, t.length = I.names.length) →
      (ts.foldl (fun l t => List.zipWith (fun a b => if a < b then b else a) l t) l).length = I.names.length := by
    intro ts
    induction ts with
    | nil => intro l h _; exact h
    | cons t ts ih =>
      intro l h ht
      rw [List.foldl_cons]
      exact ih _ (by simp [h, ht t (by simp)]) fun u hu => ht u (by simp [hu])
  exact key _ _ (by simp) hI.length

theorem lcm_eq {I : NamedIdeal} (hI : I.Ok) : I.lcm = I.names.map I.maxExp := by
  refine List.ext_getElem (by simp [lcm_length hI]) fun i h1 h2 => ?_
  have hi : i < I.names.length := by simpa using h2
  have := lcm_getD hI hi
  rw [List.getD_eq_getElem _ _ h1, List.getD_eq_getElem _ _ hi] at this
  rw [this, List.getElem_map]

theorem maxElement_eq : ∀ (l : List ℕ) (e : ℕ), maxElement e l = max e (l.foldr max 0) := by
  intro l
  induction l with
  | nil => intro e; simp [maxElement]
  | cons a l ih =>
    intro e
    rw [maxElement, ih, List.foldr_cons, ← max_assoc]
    congr 1
    split
    · rw [max_eq_right (by omega)]
    · rw [max_eq_left (by omega)]

theorem foldr_max_mem : ∀ (l : List ℕ), l.foldr max 0 = 0 ∨ l.foldr max 0 ∈ l := by
  intro l
  induction l with
  | nil => exact Or.inl rfl
  | cons a l ih =>
    rw [List.foldr_cons]
    rcases le_total a (l.foldr max 0) with h | h
    · rw [max_eq_right h]
      exact ih.imp id fun h => List.mem_cons_of_mem _ h
    · rw [max_eq_left h]
      exact Or.inr (by simp)

/-- The ideal is minimally generated if minimization does not remove a generator. -/
theorem minimal_iff_length {I : NamedIdeal} (hI : I.Ok) {J : NamedIdeal} (hJ : I.MinimizedOf J) (hs : ∀ t ∈ J.terms, t ∈ I.terms) :
    I.terms.length = J.terms.length ↔ I.Minimal := by
  constructor
  · intro hl
    have hnd : J.terms.Nodup := hJ.minimal.imp fun {a b} h (he : a = b) => h.1 (he ▸ List.forall₂_same.2 fun _ _ => le_refl _)
    have hp := (hnd.subperm hs).perm_of_length_le hl.le
    exact hp.pairwise hJ.minimal fun {a b} h => ⟨h.2, h.1⟩
  · intro hm
    have h := SameSet.same hI hJ.ok hm hJ.minimal ⟨by rw [hJ.names], fun m => (hJ.mem m).symm⟩
    have := h.2.length_eq
    simpa [monomials] using this

theorem minimize_terms_length {I J : NamedIdeal} (h : I.facadeMinimize = some J) :
    J.terms.length = (minimize ((Translator.ofGens I.gens).shrinkIdeal I.gens)).length := by
  have hs := minimize_spec I.gens
  simp only at hs
  rw [facadeMinimize, insertTranslated_eq _ _ _ hs.1] at h
  cases h
  simp [(sortReverseLex_perm _).length_eq]

end NamedIdeal
end Frobby
