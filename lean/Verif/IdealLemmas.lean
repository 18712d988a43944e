import Verif.Spec
import Verif.IdealModel

/-! # Lemmas about generators, membership, lcm and minimization -/

namespace Frobby

variable {n : ℕ}

open Term

/-! ## membership and antichains -/

theorem mem_nil (m : Term n) : ¬ mem [] m := by simp [mem]

theorem mem_append {G H : List (Term n)} {m : Term n} : mem (G ++ H) m ↔ mem G m ∨ mem H m := by
  simp [mem, or_and_right, exists_or]

theorem mem_cons {g : Term n} {H : List (Term n)} {m : Term n} : mem (g :: H) m ↔ g ≤ m ∨ mem H m := by
  simp [mem]

theorem mem_of_le {G : List (Term n)} {a b : Term n} (h : mem G a) (hab : a ≤ b) : mem G b := by
  obtain ⟨g, hg, hle⟩ := h
  exact ⟨g, hg, hle.trans hab⟩

theorem mem_perm {G H : List (Term n)} (h : G.Perm H) (m : Term n) : mem G m ↔ mem H m := by
  simp [mem, h.mem_iff]

theorem mem_congr {G H : List (Term n)} (h : ∀ g, g ∈ G ↔ g ∈ H) (m : Term n) : mem G m ↔ mem H m := by
  simp [mem, h]

theorem mem_subset {G H : List (Term n)} (h : ∀ g ∈ G, g ∈ H) {m : Term n} (hm : mem G m) : mem H m := by
  obtain ⟨g, hg, hle⟩ := hm
  exact ⟨g, h g hg, hle⟩

theorem mem_self {G : List (Term n)} {g : Term n} (h : g ∈ G) : mem G g := ⟨g, h, le_refl _⟩

theorem contains_iff {G : List (Term n)} {m : Term n} : contains G m = true ↔ mem G m := by
  simp [contains, mem]

theorem contains_eq_decide (G : List (Term n)) (m : Term n) : contains G m = decide (mem G m) := by
  rw [Bool.eq_iff_iff, contains_iff]; simp

theorem anti_perm {G H : List (Term n)} (h : G.Perm H) : Anti G ↔ Anti H :=
  h.pairwise_iff (fun h => ⟨h.2, h.1⟩)

theorem Anti.nodup {G : List (Term n)} (h : Anti G) : G.Nodup := by
  refine List.Pairwise.imp ?_ h
  intro a b hab he
  exact hab.1 (he ▸ le_refl _)

theorem Anti.filter {G : List (Term n)} (h : Anti G) (p : Term n → Bool) : Anti (G.filter p) :=
  List.Pairwise.filter p h

theorem Anti.sublist {G H : List (Term n)} (h : Anti G) (hs : H.Sublist G) : Anti H :=
  List.Pairwise.sublist hs h

theorem anti_append {G H : List (Term n)} :
    Anti (G ++ H) ↔ Anti G ∧ Anti H ∧ ∀ a ∈ G, ∀ b ∈ H, ¬ a ≤ b ∧ ¬ b ≤ a := by
  simp [Anti, List.pairwise_append]

theorem Anti.eq_of_le {G : List (Term n)} (h : Anti G) {a b : Term n} (ha : a ∈ G) (hb : b ∈ G)
    (hle : a ≤ b) : a = b := by
  by_contra hne
  have : Std.Symm (fun a b : Term n => ¬ a ≤ b ∧ ¬ b ≤ a) := ⟨fun _ _ h => ⟨h.2, h.1⟩⟩
  exact (List.Pairwise.forall h ha hb hne).1 hle

theorem anti_of_nodup {G : List (Term n)} (hn : G.Nodup)
    (h : ∀ a ∈ G, ∀ b ∈ G, a ≤ b → a = b) : Anti G := by
  unfold Anti
  refine List.Pairwise.imp_of_mem ?_ hn
  intro a b ha hb hne
  exact ⟨fun hle => hne (h a ha b hb hle), fun hle => hne (h b hb a ha hle).symm⟩

/-- Minimal generating sets are unique up to order. -/
theorem anti_unique {G H : List (Term n)} (hG : Anti G) (hH : Anti H)
    (h : ∀ m, mem G m ↔ mem H m) : ∀ g, g ∈ G ↔ g ∈ H := by
  have key : ∀ {G H : List (Term n)}, Anti G → (∀ m, mem G m ↔ mem H m) → ∀ g ∈ G, g ∈ H := by
    intro G H hG h g hg
    obtain ⟨k, hk, hkg⟩ := (h g).1 (mem_self hg)
    obtain ⟨g', hg', hgk⟩ := (h k).2 (mem_self hk)
    have : g' = g := hG.eq_of_le hg' hg (hgk.trans hkg)
    subst this
    have : k = g' := le_antisymm hkg hgk
    exact this ▸ hk
  intro g
  exact ⟨key hG h g, key hH (fun m => (h m).symm) g⟩

theorem anti_unique_perm {G H : List (Term n)} (hG : Anti G) (hH : Anti H)
    (h : ∀ m, mem G m ↔ mem H m) : G.Perm H :=
  (List.perm_ext_iff_of_nodup hG.nodup hH.nodup).2 (anti_unique hG hH h)

/-! ## lcm -/

theorem foldl_sup_eq (G : List (Term n)) (a : Term n) : G.foldl (· ⊔ ·) a = a ⊔ lcmOf G := by
  induction G generalizing a with
  | nil => simp [lcmOf]
  | cons g G ih =>
    simp only [List.foldl_cons, lcmOf]
    rw [ih, ih (0 ⊔ g)]
    simp [sup_assoc]

theorem lcmOf_nil : lcmOf ([] : List (Term n)) = 0 := rfl

theorem lcmOf_cons (g : Term n) (G : List (Term n)) : lcmOf (g :: G) = g ⊔ lcmOf G := by
  simp only [lcmOf, List.foldl_cons]
  rw [foldl_sup_eq]; simp [lcmOf]

theorem le_lcmOf {G : List (Term n)} {g : Term n} (h : g ∈ G) : g ≤ lcmOf G := by
  induction G with
  | nil => simp at h
  | cons a G ih =>
    rw [lcmOf_cons]
    rcases List.mem_cons.1 h with h | h
    · subst h; exact le_sup_left
    · exact (ih h).trans le_sup_right

theorem lcmOf_le {G : List (Term n)} {b : Term n} (h : ∀ g ∈ G, g ≤ b) : lcmOf G ≤ b := by
  induction G with
  | nil => simp [lcmOf_nil]
  | cons a G ih =>
    rw [lcmOf_cons]
    exact sup_le (h a (by simp)) (ih fun g hg => h g (by simp [hg]))

theorem lcmOf_mono {G H : List (Term n)} (h : ∀ g ∈ G, g ∈ H) : lcmOf G ≤ lcmOf H :=
  lcmOf_le fun g hg => le_lcmOf (h g hg)

theorem lcmOf_perm {G H : List (Term n)} (h : G.Perm H) : lcmOf G = lcmOf H :=
  le_antisymm (lcmOf_mono fun _ => h.mem_iff.1) (lcmOf_mono fun _ => h.mem_iff.2)

/-- A positive exponent of the lcm is attained. -/
theorem lcmOf_attained {G : List (Term n)} {i : Fin n} (h : 0 < lcmOf G i) :
    ∃ g ∈ G, g i = lcmOf G i := by
  induction G with
  | nil => simp [lcmOf_nil] at h
  | cons a G ih =>
    rw [lcmOf_cons] at h ⊢
    simp only [Pi.sup_apply] at h ⊢
    rcases le_total (lcmOf G i) (a i) with hle | hle
    · exact ⟨a, by simp, by simp [hle]⟩
    · have : 0 < lcmOf G i := by
        rcases Nat.eq_zero_or_pos (lcmOf G i) with h0 | h0
        · rw [h0] at hle h; simp at h; omega
        · exact h0
      obtain ⟨g, hg, he⟩ := ih this
      exact ⟨g, by simp [hg], by simp [he, hle]⟩

/-! ## sorting -/

theorem ofFn_le_of_le : ∀ {n : ℕ} {a b : Term n}, a ≤ b → List.ofFn a ≤ List.ofFn b := by
  intro n
  induction n with
  | zero => intro a b _; simp
  | succ n ih =>
    intro a b h
    rw [List.ofFn_succ, List.ofFn_succ]
    rcases (le_def.1 h 0).lt_or_eq with hlt | heq
    · apply le_of_lt; exact List.cons_lt_cons_iff.2 (Or.inl hlt)
    · rw [heq]
      have h2 : List.ofFn (fun i : Fin n => a i.succ) ≤ List.ofFn (fun i : Fin n => b i.succ) :=
        ih (le_def.2 fun i => le_def.1 h i.succ)
      rcases h2.lt_or_eq with hlt | heq
      · apply le_of_lt; exact List.cons_lt_cons_iff.2 (Or.inr ⟨rfl, hlt⟩)
      · rw [heq]

theorem lexLE_of_le {a b : Term n} (h : a ≤ b) : lexLE a b := ofFn_le_of_le h

instance : Std.Total (lexLE (n := n)) := ⟨fun a b => le_total (List.ofFn a) (List.ofFn b)⟩
instance : IsTrans (Term n) (lexLE (n := n)) := ⟨fun _ _ _ h h' => le_trans h h'⟩

theorem lexLE_antisymm {a b : Term n} (h : lexLE a b) (h' : lexLE b a) : a = b :=
  List.ofFn_injective (le_antisymm h h')

theorem sortLex_perm (G : List (Term n)) : (sortLex G).Perm G := List.perm_insertionSort _ _

theorem sortLex_sorted (G : List (Term n)) : (sortLex G).Pairwise lexLE := List.pairwise_insertionSort _ _

/-! ## simpleMinimize -/

theorem keepLoop_spec (kept ts : List (Term n)) (hk : Anti kept)
    (hsort : ts.Pairwise lexLE) (hkt : ∀ k ∈ kept, ∀ t ∈ ts, lexLE k t) :
    (∀ m, mem (keepLoop kept ts) m ↔ mem (kept ++ ts) m) ∧ Anti (keepLoop kept ts) ∧
      ∀ g ∈ keepLoop kept ts, g ∈ kept ++ ts := by
  induction ts generalizing kept with
  | nil => simp [keepLoop, hk]
  | cons t ts ih =>
    rw [List.pairwise_cons] at hsort
    unfold keepLoop
    split
    · rename_i hany
      obtain ⟨d, hd, hdt⟩ : ∃ d ∈ kept, d ≤ t := by simpa using hany
      obtain ⟨h1, h2, h3⟩ := ih kept hk hsort.2 (fun k hk' t' ht' => hkt k hk' t' (by simp [ht']))
      refine ⟨fun m => ?_, h2, fun g hg => ?_⟩
      · rw [h1, mem_append, mem_append, mem_cons]
        constructor
        · tauto
        · rintro (h | h | h)
          · exact Or.inl h
          · exact Or.inl ⟨d, hd, hdt.trans h⟩
          · exact Or.inr h
      · have := h3 g hg
        simp at this ⊢; tauto
    · rename_i hany
      have hno : ∀ d ∈ kept, ¬ d ≤ t := by simpa using hany
      have hk' : Anti (kept ++ [t]) := by
        rw [anti_append]
        refine ⟨hk, by simp [Anti], ?_⟩
        intro a ha b hb
        simp at hb; subst hb
        refine ⟨hno a ha, fun hle => ?_⟩
        have := lexLE_antisymm (hkt a ha b (by simp)) (lexLE_of_le hle)
        exact hno a ha (this ▸ le_refl _)
      obtain ⟨h1, h2, h3⟩ := ih (kept ++ [t]) hk' hsort.2 (by
        intro k hk2 t' ht'
        rcases List.mem_append.1 hk2 with h | h
        · exact hkt k h t' (by simp [ht'])
        · simp at h; subst h; exact hsort.1 t' ht')
      refine ⟨fun m => ?_, h2, fun g hg => ?_⟩
      · rw [h1, List.append_assoc]; rfl
      · have := h3 g hg
        simpa using this

theorem simpleMinimize_spec (G : List (Term n)) : MinGens (simpleMinimize G) G := by
  have := keepLoop_spec [] (sortLex G) (by simp [Anti]) (sortLex_sorted G) (by simp)
  refine ⟨fun m => ?_, this.2.1, fun g hg => ?_⟩
  · unfold simpleMinimize
    rw [this.1 m]; exact mem_perm (by simpa using sortLex_perm G) m
  · have := this.2.2 g hg
    simpa [(sortLex_perm G).mem_iff] using this

/-! ## twoVarMinimize -/

theorem term2_le {h : n = 2} {a b : Term n} :
    a ≤ b ↔ a ⟨0, by omega⟩ ≤ b ⟨0, by omega⟩ ∧ a ⟨1, by omega⟩ ≤ b ⟨1, by omega⟩ := by
  subst h
  rw [le_def]
  constructor
  · intro h; exact ⟨h 0, h 1⟩
  · rintro ⟨h0, h1⟩ i
    match i with
    | ⟨0, _⟩ => exact h0
    | ⟨1, _⟩ => exact h1

theorem term2_lex (h : n = 2) {a b : Term n} (hl : lexLE a b) :
    a ⟨0, by omega⟩ ≤ b ⟨0, by omega⟩ := by
  subst h
  by_contra hc
  have : lexLE b a ∧ b ≠ a := by
    constructor
    · unfold lexLE
      rw [List.ofFn_succ, List.ofFn_succ]
      apply le_of_lt; exact List.cons_lt_cons_iff.2 (Or.inl (not_le.1 hc))
    · rintro rfl; exact hc le_rfl
  exact this.2 (lexLE_antisymm this.1 hl)

theorem twoVarLoop_spec (h : n = 2) (last : Term n) (ts : List (Term n))
    (hsort : (last :: ts).Pairwise lexLE) :
    let R := last :: twoVarLoop ⟨1, by omega⟩ last ts
    (∀ m, mem R m ↔ mem (last :: ts) m) ∧ Anti R ∧ (∀ g ∈ R, g ∈ last :: ts) ∧
      ∀ g ∈ twoVarLoop ⟨1, by omega⟩ last ts, g ⟨1, by omega⟩ < last ⟨1, by omega⟩ := by
  induction ts generalizing last with
  | nil => simp [twoVarLoop, Anti]
  | cons t ts ih =>
    have hs2 := hsort
    rw [List.pairwise_cons, List.pairwise_cons] at hs2
    obtain ⟨hl, ht, hts⟩ := hs2
    simp only
    unfold twoVarLoop
    split
    · rename_i hlt
      obtain ⟨h1, h2, h3, h4⟩ := ih t (List.pairwise_cons.2 ⟨ht, hts⟩)
      refine ⟨fun m => ?_, ?_, ?_, ?_⟩
      · rw [mem_cons, h1, ← mem_cons]
      · unfold Anti at h2 ⊢
        rw [List.pairwise_cons]
        refine ⟨?_, h2⟩
        intro g hg
        have hg1 : g ⟨1, by omega⟩ < last ⟨1, by omega⟩ := by
          rcases List.mem_cons.1 hg with rfl | hg'
          · exact hlt
          · exact (h4 g hg').trans hlt
        have hgl : lexLE last g := by
          apply hl; exact h3 g hg
        constructor
        · intro hle
          rw [term2_le (h := h)] at hle; omega
        · intro hle
          have := lexLE_antisymm hgl (lexLE_of_le hle)
          subst this; omega
      · intro g hg
        rcases List.mem_cons.1 hg with rfl | hg'
        · simp
        · have := h3 g hg'
          simp at this ⊢; tauto
      · intro g hg
        rcases List.mem_cons.1 hg with rfl | hg'
        · exact hlt
        · exact (h4 g hg').trans hlt
    · rename_i hnlt
      have hle : last ≤ t := by
        rw [term2_le (h := h)]
        exact ⟨term2_lex h (hl t (by simp)), not_lt.1 hnlt⟩
      obtain ⟨h1, h2, h3, h4⟩ := ih last
        (List.pairwise_cons.2 ⟨fun a ha => hl a (by simp [ha]), hts⟩)
      refine ⟨fun m => ?_, h2, ?_, h4⟩
      · rw [h1, mem_cons, mem_cons, mem_cons]
        constructor
        · tauto
        · rintro (h | h | h)
          · exact Or.inl h
          · exact Or.inl (hle.trans h)
          · exact Or.inr h
      · intro g hg
        have := h3 g hg
        simp at this ⊢; tauto

theorem twoVarMinimize_spec (h : n = 2) (G : List (Term n)) :
    MinGens (twoVarMinimize ⟨1, by omega⟩ G) G := by
  unfold twoVarMinimize
  have hp := sortLex_perm G
  have hs := sortLex_sorted G
  split
  · rename_i he
    rw [he] at hp
    have : G = [] := by simpa using hp.symm.eq_nil
    subst this
    exact ⟨fun _ => Iff.rfl, by simp [Anti], by simp⟩
  · rename_i t ts he
    rw [he] at hp hs
    obtain ⟨h1, h2, h3, _⟩ := twoVarLoop_spec h t ts hs
    exact ⟨fun m => (h1 m).trans (mem_perm hp m), h2, fun g hg => hp.mem_iff.1 (h3 g hg)⟩

/-! ## tree minimization -/

theorem mem_lePart_gtPart (v : Fin n) (p : ℕ) (G : List (Term n)) (m : Term n) :
    mem G m ↔ mem (gtPart v p G) m ∨ mem (lePart v p G) m := by
  simp only [mem, gtPart, lePart, List.mem_filter, decide_eq_true_eq]
  constructor
  · rintro ⟨g, hg, hle⟩
    rcases lt_or_ge p (g v) with h | h
    · exact Or.inl ⟨g, ⟨hg, h⟩, hle⟩
    · exact Or.inr ⟨g, ⟨hg, h⟩, hle⟩
  · rintro (⟨g, hg, hle⟩ | ⟨g, hg, hle⟩) <;> exact ⟨g, hg.1, hle⟩

theorem makeTree_isRedundant (G : List (Term n)) (t : Term n) :
    (makeTree G).isRedundant t = true ↔ mem G t := by
  induction G using makeTree.induct with
  | case1 G hlen v p hf ih1 ih2 =>
    unfold makeTree
    rw [if_pos hlen]
    split
    · rename_i v' p' hf'
      rw [hf] at hf'
      simp only [Option.some.injEq, Prod.mk.injEq] at hf'
      obtain ⟨rfl, rfl⟩ := hf'
      simp only [TreeNode.isRedundant, Bool.or_eq_true, Bool.and_eq_true, decide_eq_true_eq]
      rw [ih1, ih2, mem_lePart_gtPart v p G t]
      constructor
      · tauto
      · rintro (h | h)
        · left
          refine ⟨?_, h⟩
          obtain ⟨g, hg, hle⟩ := h
          have : p < g v := by simpa [gtPart] using (List.mem_filter.1 hg).2
          exact lt_of_lt_of_le this (hle v)
        · exact Or.inr h
    · rename_i hf'; rw [hf] at hf'; simp at hf'
  | case2 G hlen hf =>
    unfold makeTree
    rw [if_pos hlen]
    split
    · rename_i hf'; rw [hf] at hf'; simp at hf'
    · rw [← (simpleMinimize_spec G).mem_iff]
      simp [TreeNode.isRedundant, mem]
  | case3 G hlen =>
    unfold makeTree
    rw [if_neg hlen, ← (simpleMinimize_spec G).mem_iff]
    simp [TreeNode.isRedundant, mem]

theorem makeTree_collect (G : List (Term n)) : MinGens (makeTree G).collect G := by
  induction G using makeTree.induct with
  | case1 G hlen v p hf ih1 ih2 =>
    unfold makeTree
    rw [if_pos hlen]
    split
    · rename_i v' p' hf'
      rw [hf] at hf'
      simp only [Option.some.injEq, Prod.mk.injEq] at hf'
      obtain ⟨rfl, rfl⟩ := hf'
      have hred := makeTree_isRedundant (lePart v p G)
      simp only [TreeNode.collect]
      refine ⟨fun m => ?_, ?_, ?_⟩
      · rw [mem_append, mem_lePart_gtPart v p G m, ih1.mem_iff, ← ih2.mem_iff]
        constructor
        · rintro (h | h)
          · exact Or.inl (mem_subset (fun g hg => List.mem_of_mem_filter hg) h)
          · exact Or.inr h
        · rintro (⟨g, hg, hle⟩ | h)
          · by_cases hm : mem (lePart v p G) g
            · exact Or.inr (mem_of_le hm hle)
            · refine Or.inl ⟨g, List.mem_filter.2 ⟨hg, ?_⟩, hle⟩
              rw [← hred] at hm
              simpa using hm
          · exact Or.inr h
      · rw [anti_append]
        refine ⟨ih2.anti.filter _, ih1.anti, ?_⟩
        intro a ha b hb
        obtain ⟨ha1, ha2⟩ := List.mem_filter.1 ha
        have hgt : p < a v := by
          simpa [gtPart] using (List.mem_filter.1 (ih2.subset a ha1)).2
        have hle : b v ≤ p := by
          simpa [lePart] using (List.mem_filter.1 (ih1.subset b hb)).2
        constructor
        · intro h; exact absurd (le_def.1 h v) (by omega)
        · intro h
          have : mem (lePart v p G) a := ⟨b, ih1.subset b hb, h⟩
          rw [← hred] at this
          simp [this] at ha2
      · intro g hg
        rcases List.mem_append.1 hg with h | h
        · exact (List.mem_filter.1 (ih2.subset g (List.mem_of_mem_filter h))).1
        · exact (List.mem_filter.1 (ih1.subset g h)).1
    · rename_i hf'; rw [hf] at hf'; simp at hf'
  | case2 G hlen hf =>
    unfold makeTree
    rw [if_pos hlen]
    split
    · rename_i hf'; rw [hf] at hf'; simp at hf'
    · simpa [TreeNode.collect] using simpleMinimize_spec G
  | case3 G hlen =>
    unfold makeTree
    rw [if_neg hlen]
    simpa [TreeNode.collect] using simpleMinimize_spec G

/-- `minimize` computes the minimal generators on every path. -/
theorem minimize_minGens (G : List (Term n)) : MinGens (minimize G) G := by
  unfold minimize
  split
  · rename_i h; exact twoVarMinimize_spec h G
  · split
    · exact simpleMinimize_spec G
    · exact makeTree_collect G

end Frobby
