import Verif.DeformLemmas
import Verif.BigattiUni
import Mathlib.Data.List.TakeWhile

/-!
# Lemmas about the deformation algorithm
-/

namespace Frobby

open Term

variable {n : ℕ}

/-! ## `IdealTree` -/

theorem advance_perm (c : Term n → Bool) : ∀ (l d : List (Term n)), ((advance c d l).1 ++ (advance c d l).2) = d ++ l := by
  intro l
  induction l with
  | nil => intro d; simp [advance]
  | cons g t ih =>
    intro d
    cases t with
    | nil => simp [advance]
    | cons h t =>
      unfold advance
      split
      · rw [ih]; simp
      · rfl

theorem advance_all (c : Term n → Bool) : ∀ (l d : List (Term n)), (∀ x ∈ d, c x = true) → ∀ x ∈ (advance c d l).1, c x = true := by
  intro l
  induction l with
  | nil => intro d hd; simpa [advance] using hd
  | cons g t ih =>
    intro d hd
    cases t with
    | nil => simpa [advance] using hd
    | cons h t =>
      unfold advance
      split
      · rename_i hg
        refine ih _ fun x hx => ?_
        rcases List.mem_append.1 hx with hx | hx
        · exact hd x hx
        · rw [List.mem_singleton] at hx; rw [hx]; exact hg
      · exact hd

/-- What is left is not empty, is not longer, and either starts with an element for which the condition does not hold or
has only one element; if nothing was passed it is all there was. -/
theorem advance_rest (c : Term n → Bool) : ∀ (l d : List (Term n)), l ≠ [] → (advance c d l).2 ≠ [] ∧
    (advance c d l).2.length ≤ l.length ∧
    ((advance c d l).2.length ≤ 1 ∨ ∃ g ∈ (advance c d l).2.head?, c g = false) ∧
    ((advance c d l).2.length < l.length ∨ (advance c d l).2 = l) := by
  intro l
  induction l with
  | nil => intro d h; exact absurd rfl h
  | cons g t ih =>
    intro d _
    cases t with
    | nil => simp [advance]
    | cons h t =>
      unfold advance
      split
      · obtain ⟨h1, h2, h3, h4⟩ := ih (d ++ [g]) (by simp)
        refine ⟨h1, by simp only [List.length_cons] at h2 ⊢; omega, h3, Or.inl ?_⟩
        simp only [List.length_cons] at h2 ⊢; omega
      · rename_i hg
        refine ⟨by simp, le_refl _, Or.inr ⟨g, by simp, by simpa using hg⟩, Or.inr rfl⟩

theorem swapEnds_perm (l : List (Term n)) : (swapEnds l).Perm l := by
  cases l with
  | nil => simp [swapEnds]
  | cons g t =>
    cases h : t.reverse with
    | nil =>
      have : t = [] := by simpa using h
      simp [this, swapEnds]
    | cons l r =>
      simp only [swapEnds, h]
      have ht : t = r.reverse ++ [l] := by
        have := congrArg List.reverse h
        simpa using this
      rw [ht]
      have h1 : (l :: (r.reverse ++ [g])).Perm (l :: g :: r.reverse) := (List.perm_append_singleton g r.reverse).cons l
      have h2 : (g :: (r.reverse ++ [l])).Perm (g :: l :: r.reverse) := (List.perm_append_singleton l r.reverse).cons g
      exact (h1.trans (List.Perm.swap _ _ _)).trans h2.symm

theorem swapEnds_head {l : List (Term n)} {x : Term n} (h : x ∈ l.reverse.head?) : x ∈ (swapEnds l).head? := by
  cases l with
  | nil => simp at h
  | cons g t =>
    cases h1 : t.reverse with
    | nil =>
      have : t = [] := by simpa using h1
      subst this
      simpa [swapEnds] using h
    | cons l r =>
      simp only [swapEnds, h1]
      rw [List.reverse_cons, h1] at h
      simpa using h

/-- The measure of the loop: twice the length, and one more if the first element goes right. -/
def partMeasure (v : Fin n) (p : ℕ) (m : List (Term n)) : ℕ := 2 * m.length + if ∃ g ∈ m.head?, p < g v then 1 else 0

theorem partLoop_spec (v : Fin n) (p : ℕ) : ∀ (fuel : ℕ) (l m r : List (Term n)), m ≠ [] → (∀ x ∈ l, x v ≤ p) → (∀ x ∈ r, p < x v) →
    partMeasure v p m < fuel →
    ∃ l' g r', partLoop v p fuel l m r = some (l', [g], r') ∧ (l' ++ [g] ++ r').Perm (l ++ m ++ r) ∧ (∀ x ∈ l', x v ≤ p) ∧
      ∀ x ∈ r', p < x v := by
  intro fuel
  induction fuel with
  | zero => intro l m r _ _ _ h; omega
  | succ fuel ih =>
    intro l m r hm hl hr hf
    unfold partLoop
    by_cases h1 : m.length ≤ 1
    · rw [if_pos h1]
      match m, hm, h1 with
      | [g], _, _ => exact ⟨l, g, r, rfl, List.Perm.refl _, hl, hr⟩
      | _ :: _ :: _, _, h1 => simp at h1
    · rw [if_neg h1]
      simp only
      set x := advance (fun g => decide (g v ≤ p)) l m with hx
      set y := advance (fun g => decide (p < g v)) [] x.2.reverse with hy
      have hx1 := advance_perm (fun g => decide (g v ≤ p)) m l
      have hx2 := advance_all (fun g => decide (g v ≤ p)) m l (by simpa using hl)
      obtain ⟨hx3, hx4, hx5, hx6⟩ := advance_rest (fun g => decide (g v ≤ p)) m l hm
      rw [← hx] at hx1 hx2 hx3 hx4 hx5 hx6
      have hy1 := advance_perm (fun g => decide (p < g v)) x.2.reverse []
      have hy2 := advance_all (fun g => decide (p < g v)) x.2.reverse [] (by simp)
      obtain ⟨hy3, hy4, hy5, hy6⟩ := advance_rest (fun g => decide (p < g v)) x.2.reverse [] (by simpa using hx3)
      rw [← hy] at hy1 hy2 hy3 hy4 hy5 hy6
      rw [List.length_reverse] at hy4 hy6
      have hperm : (swapEnds y.2.reverse).Perm y.2.reverse := swapEnds_perm _
      have hlen : (swapEnds y.2.reverse).length = y.2.length := by rw [hperm.length_eq, List.length_reverse]
      obtain ⟨l', g, r', h2, h3, h4, h5⟩ := ih x.1 (swapEnds y.2.reverse) (y.1.reverse ++ r)
        (fun hc => by rw [hc] at hlen; exact hy3 (List.length_eq_zero_iff.1 hlen.symm)) (by simpa using hx2)
        (fun z hz => by
          rcases List.mem_append.1 hz with hz | hz
          · have := hy2 z (by simpa using hz); simpa using this
          · exact hr z hz) (by
          unfold partMeasure at hf ⊢
          rw [hlen]
          rcases hx6 with h7 | h7
          · split <;> split at hf <;> omega
          · rcases hy6 with h8 | h8
            · split <;> split at hf <;> omega
            · rw [h7] at h8
              have h9 : ∃ g ∈ m.head?, p < g v := by
                rcases hx5 with h9 | ⟨g, hg, hc⟩
                · rw [h7] at h9; omega
                · rw [h7] at hg
                  exact ⟨g, hg, by simpa using hc⟩
              rw [if_pos h9] at hf
              have h10 : ∃ g ∈ y.2.head?, g v ≤ p := by
                rcases hy5 with h10 | ⟨g, hg, hc⟩
                · rw [h8, List.length_reverse] at h10; omega
                · exact ⟨g, hg, by simpa using hc⟩
              obtain ⟨g, hg, hc⟩ := h10
              have h11 := swapEnds_head (l := y.2.reverse) (x := g) (by simpa using hg)
              have : ¬ ∃ g ∈ (swapEnds y.2.reverse).head?, p < g v := by
                rintro ⟨g', hg', hc'⟩
                rw [Option.mem_def] at hg' h11
                rw [hg', Option.some.injEq] at h11
                subst h11
                omega
              rw [if_neg this, h8, List.length_reverse]
              omega)
      refine ⟨l', g, r', h2, h3.trans ?_, h4, h5⟩
      have h6 : y.2.reverse ++ y.1.reverse = x.2 := by
        have := congrArg List.reverse hy1
        simpa using this
      calc x.1 ++ swapEnds y.2.reverse ++ (y.1.reverse ++ r)
          = x.1 ++ (swapEnds y.2.reverse ++ y.1.reverse) ++ r := by simp
        _ |>.Perm (x.1 ++ (y.2.reverse ++ y.1.reverse) ++ r) := ((hperm.append_right _).append_left _).append_right _
        _ = l ++ m ++ r := by rw [h6, hx1]

theorem partitionRange_spec {v : Fin n} {p : ℕ} {l : List (Term n)} (h1 : ∃ x ∈ l, x v ≤ p) (h2 : ∃ x ∈ l, p < x v) :
    ∃ a b, partitionRange v p l = some (a, b) ∧ (a ++ b).Perm l ∧ a ≠ [] ∧ b ≠ [] := by
  obtain ⟨l', g, r', h3, h4, h5, h6⟩ := partLoop_spec v p (2 * l.length + 2) [] l []
    (by obtain ⟨x, hx, _⟩ := h1; exact List.ne_nil_of_mem hx) (by simp) (by simp)
    (by unfold partMeasure; split <;> omega)
  rw [List.nil_append, List.append_nil] at h4
  unfold partitionRange
  rw [h3]
  simp only
  set f := ((l' ++ [g]).reverse.dropWhile fun g => decide (p < g v)).reverse with hf
  have hpre : ∃ t, l' ++ [g] = f ++ t ∧ ∀ x ∈ t, p < x v := by
    refine ⟨((l' ++ [g]).reverse.takeWhile fun g => decide (p < g v)).reverse, ?_, fun x hx => ?_⟩
    · rw [hf, ← List.reverse_append, List.takeWhile_append_dropWhile, List.reverse_reverse]
    · rw [List.mem_reverse] at hx
      have := List.mem_takeWhile_imp hx
      simpa using this
  obtain ⟨t, ht, ht2⟩ := hpre
  have hfne : f ≠ [] := by
    intro hc
    obtain ⟨x, hx, hxp⟩ := h1
    rw [← h4.mem_iff, ht, hc, List.nil_append] at hx
    rcases List.mem_append.1 hx with hx | hx
    · have := ht2 x hx; omega
    · have := h6 x hx; omega
  have hdrop : (l' ++ [g]).drop f.length = t := by rw [ht, List.drop_left]
  rw [if_neg hfne, hdrop]
  refine ⟨f, t ++ r', rfl, by rw [← List.append_assoc, ← ht]; exact h4, hfne, fun hc => ?_⟩
  obtain ⟨rfl, rfl⟩ := List.append_eq_nil_iff.1 hc
  have hgp : g v ≤ p := by
    rw [List.append_nil] at ht
    have h7 : (l' ++ [g]).reverse.dropWhile (fun g => decide (p < g v)) = (l' ++ [g]).reverse := by
      have := congrArg List.reverse (hf.symm.trans ht.symm)
      simpa using this
    by_contra hg
    rw [List.reverse_append] at h7
    simp only [List.reverse_cons, List.reverse_nil, List.nil_append, List.singleton_append, List.dropWhile_cons] at h7
    rw [if_pos (by simpa using hg)] at h7
    have := congrArg List.length h7
    have h8 := List.length_dropWhile_le (fun g : Term n => decide (p < g v)) l'.reverse
    simp only [List.length_cons] at this
    omega
  obtain ⟨x, hx, hxp⟩ := h2
  rw [← h4.mem_iff] at hx
  simp only [List.append_nil, List.mem_append, List.mem_singleton] at hx
  rcases hx with hx | rfl
  · have := h5 x hx; omega
  · omega

theorem splitVar_spec {lcm gcd : Term n} (h : ∃ v, gcd v < lcm v) : ∃ v, splitVar lcm gcd = some v ∧ gcd v < lcm v := by
  unfold splitVar
  obtain ⟨u, hu⟩ := h
  have hmem := List.mem_finRange u
  match hf : List.finRange n with
  | [] => rw [hf] at hmem; simp at hmem
  | v :: vs =>
    rw [hf] at hmem
    refine ⟨_, rfl, ?_⟩
    have key : ∀ (vs : List (Fin n)) (m : Fin n), (∀ w ∈ m :: vs, lcm w - gcd w ≤
        lcm (vs.foldl (fun m v => if lcm v - gcd v > lcm m - gcd m then v else m) m) -
        gcd (vs.foldl (fun m v => if lcm v - gcd v > lcm m - gcd m then v else m) m)) := by
      intro vs
      induction vs with
      | nil => intro m w hw; simp only [List.mem_singleton] at hw; subst hw; exact le_refl _
      | cons a vs ih =>
        intro m w hw
        rw [List.foldl_cons]
        obtain ⟨X, hX⟩ : ∃ X, X = if lcm a - gcd a > lcm m - gcd m then a else m := ⟨_, rfl⟩
        have hX1 : lcm m - gcd m ≤ lcm X - gcd X ∧ lcm a - gcd a ≤ lcm X - gcd X := by
          rw [hX]; split <;> omega
        rw [← hX]
        have h1 := ih X
        have h2 := h1 X (by simp)
        rcases List.mem_cons.1 hw with rfl | hw
        · omega
        · rcases List.mem_cons.1 hw with rfl | hw
          · omega
          · exact h1 w (by simp [hw])
    have := key vs v u hmem
    omega

/-- The tree answers as the list does. -/
theorem makeNode_spec : ∀ (fuel : ℕ) (l : List (Term n)), l.Nodup → l.length < fuel →
    ∃ T l', makeNode fuel l = some (T, l') ∧ l'.Perm l ∧ ∀ t, T.strictlyContains t = strictlyContains l t := by
  intro fuel
  induction fuel with
  | zero => intro l _ h; omega
  | succ fuel ih =>
    intro l hnd hf
    unfold makeNode
    by_cases h60 : l.length ≤ 60
    · rw [if_pos h60]
      exact ⟨_, _, rfl, List.Perm.refl _, fun t => rfl⟩
    · rw [if_neg h60]
      have hex : ∃ v, gcdOf l v < lcmOf l v := by
        by_contra hc
        push Not at hc
        match l, hnd, h60 with
        | a :: b :: l, hnd, _ =>
          have : ∀ x ∈ a :: b :: l, x = lcmOf (a :: b :: l) := fun x hx =>
            le_antisymm (le_lcmOf hx) ((le_def.2 hc).trans (gcdOf_le hx))
          have h1 := this a (by simp)
          have h2 := this b (by simp)
          rw [List.nodup_cons] at hnd
          exact hnd.1 (by rw [h1, ← h2]; simp)
        | [_], _, h => simp at h
        | [], _, h => simp at h
      obtain ⟨v, hv1, hv2⟩ := splitVar_spec hex
      rw [hv1]
      simp only
      rw [if_neg (by omega)]
      set p := (lcmOf l v + gcdOf l v) / 2 with hp
      have hne : l ≠ [] := by rintro rfl; simp at h60
      obtain ⟨a, b, h1, h2, h3, h4⟩ := partitionRange_spec (v := v) (p := p) (l := l)
        (by
          by_contra hc
          push Not at hc
          have : Function.update (gcdOf l) v (p + 1) ≤ gcdOf l := le_gcdOf hne fun x hx => le_def.2 fun w => by
            by_cases hw : w = v
            · subst hw; simp only [Function.update_self]; exact hc x hx
            · rw [Function.update_of_ne hw]; exact le_def.1 (gcdOf_le hx) w
          have := le_def.1 this v
          simp only [Function.update_self] at this
          omega)
        (by
          by_contra hc
          push Not at hc
          obtain ⟨g, hg, hgv⟩ := lcmOf_attained (G := l) (i := v) (by omega)
          have := hc g hg
          omega)
      rw [h1]
      simp only [Option.bind_some]
      have hnd2 := (h2.nodup_iff).2 hnd
      rw [List.nodup_append] at hnd2
      have hla : 0 < a.length := List.length_pos_iff.2 h3
      have hlb : 0 < b.length := List.length_pos_iff.2 h4
      have hlen := h2.length_eq
      rw [List.length_append] at hlen
      obtain ⟨_, a1, ha1, ha2, _⟩ := ih a hnd2.1 (by omega)
      obtain ⟨_, b1, hb1, hb2, _⟩ := ih b hnd2.2.1 (by omega)
      obtain ⟨ta, a2, ha3, ha4, ha5⟩ := ih a1 (ha2.nodup_iff.2 hnd2.1) (by rw [ha2.length_eq]; omega)
      obtain ⟨tb, b2, hb3, hb4, hb5⟩ := ih b1 (hb2.nodup_iff.2 hnd2.2.1) (by rw [hb2.length_eq]; omega)
      rw [ha1]
      simp only [Option.bind_some]
      rw [hb1]
      simp only [Option.bind_some]
      rw [ha3]
      simp only [Option.bind_some]
      rw [hb3]
      simp only [Option.bind_some]
      refine ⟨_, _, rfl, ((ha4.trans ha2).append (hb4.trans hb2)).trans h2, fun t => ?_⟩
      simp only [ITree.strictlyContains, ha5, hb5]
      rw [Bool.eq_iff_iff, Bool.or_eq_true, strictlyContains_iff, strictlyContains_iff, strictlyContains_iff]
      simp only [ha2.mem_iff, hb2.mem_iff, ← h2.mem_iff, List.mem_append]
      constructor
      · rintro (⟨g, hg, h⟩ | ⟨g, hg, h⟩)
        · exact ⟨g, Or.inl hg, h⟩
        · exact ⟨g, Or.inr hg, h⟩
      · rintro ⟨g, hg | hg, h⟩
        · exact Or.inl ⟨g, hg, h⟩
        · exact Or.inr ⟨g, hg, h⟩

/-! ## the enumeration -/

/-- Two different generators that share a positive exponent have a generator strictly dividing their lcm. -/
def WeakGen (D : List (Term n)) : Prop :=
  ∀ a ∈ D, ∀ b ∈ D, a ≠ b → ∀ v, a v = b v → a v ≠ 0 → strictlyContains D (a ⊔ b) = true

/-- A face of a weakly generic ideal has at most as many elements as there are variables. -/
theorem face_card {D : List (Term n)} (hD : WeakGen D) (h0 : (0 : Term n) ∉ D) {S : Finset (Term n)} (hS : ∀ g ∈ S, g ∈ D)
    (hs : strictlyContains D (setLcm S) = false) : S.card ≤ n := by
  have hex : ∀ g ∈ S, ∃ v, g v = setLcm S v ∧ g v ≠ 0 := by
    intro g hg
    by_contra hc
    push Not at hc
    have hle := le_setLcm hg
    have hg0 : g ≠ 0 := fun h => h0 (h ▸ hS g hg)
    have : strictlyContains D (setLcm S) = true := by
      rw [strictlyContains_iff]
      refine ⟨g, hS g hg, fun v => ?_, fun h => hg0 ?_⟩
      · have := le_def.1 hle v
        by_cases hv : g v = setLcm S v
        · right; exact hc v hv
        · left; omega
      · rw [h] at hle
        exact le_antisymm hle (le_def.2 fun i => Nat.zero_le _)
    rw [hs] at this
    simp at this
  rcases S.eq_empty_or_nonempty with rfl | ⟨g1, hg1⟩
  · simp
  have : Nonempty (Fin n) := ⟨(hex g1 hg1).choose⟩
  choose! f hf using hex
  have hinj : Set.InjOn f (S : Set (Term n)) := by
    intro a ha b hb hab
    by_contra hne
    have h1 := hf a ha
    have h2 := hf b hb
    have h3 := hD a (hS a ha) b (hS b hb) hne (f a) (by rw [h1.1, hab, h2.1]) h1.2
    have h4 := strictlyContains_mono (sup_le (le_setLcm ha) (le_setLcm hb)) h3
    rw [hs] at h4
    simp at h4
  have := Finset.card_le_card_of_injOn (t := Finset.univ) f (by simp) hinj
  simpa using this

theorem setLcm_toFinset_append (f : List (Term n)) (g : Term n) : setLcm (f ++ [g]).toFinset = setLcm f.toFinset ⊔ g := by
  have : (f ++ [g]).toFinset = insert g f.toFinset := by
    ext x; simp only [List.toFinset_append, Finset.mem_union, List.mem_toFinset, Finset.mem_insert, List.mem_singleton]; tauto
  rw [this, setLcm_insert, sup_comm]

/-- Nothing can be added to a face that has as many elements as there are variables. -/
theorem faces_full {D : List (Term n)} (hD : WeakGen D) (h0 : (0 : Term n) ∉ D) {f : List (Term n)} (hf : ∀ g ∈ f, g ∈ D)
    (hlen : f.length = n) (plus : Bool) : ∀ rest : List (Term n), (f ++ rest).Nodup → (∀ g ∈ rest, g ∈ D) →
    faces D false 0 plus (setLcm f.toFinset) rest = [.term plus (setLcm f.toFinset)] := by
  intro rest
  induction rest with
  | nil => intro _ _; simp [faces]
  | cons g gs ih =>
    intro hnd hr
    have hnd1 : (f ++ [g]).Nodup := (hnd.sublist (by simp))
    have hnd2 : (f ++ gs).Nodup := hnd.sublist (by simp)
    unfold faces
    have hsc : strictlyContains D (setLcm f.toFinset ⊔ g) = true := by
      by_contra hc
      rw [Bool.not_eq_true, ← setLcm_toFinset_append] at hc
      have h1 := face_card hD h0 (S := (f ++ [g]).toFinset) (fun x hx => by
        simp only [List.mem_toFinset, List.mem_append, List.mem_singleton] at hx
        rcases hx with hx | rfl
        · exact hf x hx
        · exact hr x (by simp)) hc
      rw [List.toFinset_card_of_nodup hnd1] at h1
      simp only [List.length_append, List.length_singleton] at h1
      omega
    rw [if_neg (by simp [hsc]), List.nil_append]
    exact ih hnd2 fun x hx => hr x (by simp [hx])

theorem enumLoop_faces {D : List (Term n)} (hD : WeakGen D) (h0 : (0 : Term n) ∉ D) {T : ITree n}
    (hT : ∀ t, T.strictlyContains t = strictlyContains D t) (needed : ℕ) :
    ∀ (rest face : List (Term n)) (plus : Bool) (stack : List (EState n)) (f : ℕ) (outs : List (ℤ × Term n)),
      (face ++ rest).Nodup → (∀ g ∈ face ++ rest, g ∈ D) → stack.length + 2 + rest.length ≤ needed →
      (∀ f', f ≤ f' → enumLoop T needed f' stack = some outs) →
      ∀ f', f + (2 ^ (rest.length + 1) - 1) ≤ f' →
        enumLoop T needed f' (⟨plus, setLcm face.toFinset, rest, face⟩ :: stack) =
          some (polyOf (faces D false 0 plus (setLcm face.toFinset) rest) ++ outs) := by
  intro rest
  induction rest with
  | nil =>
    intro face plus stack f outs _ _ hlen h f' hf'
    obtain ⟨k, rfl⟩ : ∃ k, f' = k + 1 := ⟨f' - 1, by simp at hf'; omega⟩
    have := h k (by simp at hf'; omega)
    unfold enumLoop
    simp only [List.length_nil, Nat.add_zero] at hlen
    rw [if_pos (by omega)]
    simp only
    split
    · rw [this]; simp [faces, polyOf_cons_term, polyOf_nil, sg]
    · rw [this]; simp [faces, polyOf_cons_term, polyOf_nil, sg]
  | cons g gs ih =>
    intro face plus stack f outs hnd hmem hlen h f' hf'
    have hpow : 2 ^ ((g :: gs).length + 1) = 2 * 2 ^ (gs.length + 1) := by rw [List.length_cons, pow_succ]; ring
    have hpos : 0 < 2 ^ (gs.length + 1) := Nat.pos_of_ne_zero (by positivity)
    rw [hpow] at hf'
    obtain ⟨k, rfl⟩ : ∃ k, f' = k + 1 := ⟨f' - 1, by omega⟩
    simp only [List.length_cons] at hlen
    unfold enumLoop
    rw [if_pos (by omega)]
    simp only
    by_cases hfl : face.length = n
    · rw [if_pos hfl, faces_full hD h0 (fun x hx => hmem x (by simp [hx])) hfl plus (g :: gs) hnd
        (fun x hx => hmem x (List.mem_append_right _ hx)), h k (by omega)]
      simp [polyOf_cons_term, polyOf_nil, sg]
    · rw [if_neg hfl]
      have h1 := ih face plus stack f outs (hnd.sublist (by simp)) (fun x hx => hmem x (by
        rcases List.mem_append.1 hx with hx | hx
        · simp [hx]
        · simp [hx])) (by omega) h
      have hcond : (face.any (fun f => decide (strictlyDivides f (setLcm face.toFinset ⊔ g))) ||
          T.strictlyContains (setLcm face.toFinset ⊔ g)) = strictlyContains D (setLcm face.toFinset ⊔ g) := by
        rw [hT, Bool.eq_iff_iff, Bool.or_eq_true]
        constructor
        · rintro (h2 | h2)
          · rw [List.any_eq_true] at h2
            obtain ⟨x, hx, h3⟩ := h2
            rw [strictlyContains_iff]
            exact ⟨x, hmem x (by simp [hx]), by simpa using h3⟩
          · exact h2
        · exact Or.inr
      rw [hcond]
      unfold faces
      by_cases hc : strictlyContains D (setLcm face.toFinset ⊔ g) = true
      · rw [if_pos hc, if_neg (by simp [hc]), List.nil_append]
        exact h1 k (by omega)
      · rw [if_neg hc, if_pos (by simpa using hc), polyOf_append, List.append_assoc, ← setLcm_toFinset_append]
        refine ih (face ++ [g]) (!plus) (⟨plus, setLcm face.toFinset, gs, face⟩ :: stack) _ _ (by simpa using hnd)
          (by simpa using hmem) (by simp only [List.length_cons]; omega) h1 k (by omega)

/-- The enumeration of the faces of a weakly generic ideal gives the series of the ideal. -/
theorem enumerateFaces_spec {D : List (Term n)} (hD : WeakGen D) (hnd : D.Nodup) :
    ∃ outs, enumerateFaces D = some outs ∧ (∀ x ∈ outs, x.2 ≤ lcmOf D) ∧ ∀ x, seriesCoef outs x = if mem D x then 0 else 1 := by
  obtain ⟨T, l, h1, _, h2⟩ := makeNode_spec (D.length + 1) D hnd (by omega)
  have hpos : 0 < 2 ^ (D.length + 1) := Nat.pos_of_ne_zero (by positivity)
  unfold enumerateFaces
  rw [h1]
  simp only [Option.bind_some]
  by_cases h0 : (0 : Term n) ∈ D
  · rw [if_pos h0]
    obtain ⟨k, hk⟩ : ∃ k, 2 ^ (D.length + 1) = k + 1 := ⟨_, (Nat.sub_add_cancel hpos).symm⟩
    rw [hk]
    refine ⟨[], rfl, by simp, fun x => ?_⟩
    rw [if_pos ⟨0, h0, le_def.2 fun i => Nat.zero_le _⟩, seriesCoef_nil]
  · rw [if_neg h0]
    have := enumLoop_faces hD h0 h2 (D.length + 2) D [] true [] 1 [] (by simpa using hnd) (by simp) (by simp; omega)
      (fun f' hf' => by obtain ⟨k, rfl⟩ : ∃ k, f' = k + 1 := ⟨f' - 1, by omega⟩; simp [enumLoop])
      (2 ^ (D.length + 1)) (by omega)
    have hz : setLcm ([] : List (Term n)).toFinset = 0 := rfl
    rw [hz] at this
    have hsp := faces_spec (s := (⟨0, D⟩ : BState n)) (L := 0 + lcmOf D) hnd (le_refl _) false
    refine ⟨_, this, fun x hx => ?_, fun x => ?_⟩
    · rw [List.append_nil] at hx
      have := hsp.le x hx
      rwa [zero_add] at this
    · rw [List.append_nil, hsp.series]
      unfold contrib
      have hs : x - (0 : Term n) = x := by funext i; simp
      simp only [hs]
      by_cases hm : mem D x
      · rw [if_neg (by tauto), if_pos hm]
      · rw [if_pos ⟨le_def.2 fun i => Nat.zero_le _, hm⟩, if_neg hm]

/-! ## undoing the deformation -/

/-- The largest position with an exponent that is not too large. -/
theorem UndOk.floor {u : List ℕ} (h : UndOk u) (x : ℕ) : ∃ q : ℕ, ∀ j a : ℕ, u[j]? = some a → (a ≤ x ↔ j ≤ q) := by
  refine ⟨Nat.findGreatest (fun j => ∃ a, u[j]? = some a ∧ a ≤ x) u.length, fun j a hj => ⟨fun ha => ?_, fun hq => ?_⟩⟩
  · refine Nat.le_findGreatest ?_ ⟨a, hj, ha⟩
    by_contra hc
    rw [List.getElem?_eq_none (by omega)] at hj
    simp at hj
  · have := Nat.findGreatest_spec (P := fun j => ∃ a, u[j]? = some a ∧ a ≤ x) (m := 0) (n := u.length) (Nat.zero_le _)
      ⟨0, h.zero, Nat.zero_le _⟩
    obtain ⟨b, hb, hbx⟩ := this
    exact (h.le hq hj hb).trans hbx

theorem undeform_eq {und : Fin n → List ℕ} {t x : Term n} (h : ∀ v, (und v)[t v]? = some (x v)) : undeform und t = some x := by
  have hlt : ∀ v, t v < (und v).length := by
    intro v
    by_contra hc
    have := h v
    rw [List.getElem?_eq_none (by omega)] at this
    simp at this
  unfold undeform
  rw [if_pos hlt]
  congr 1
  funext v
  rw [List.getD_eq_getElem?_getD, h v]
  rfl

/-- No positive exponent below the largest is missing. -/
def NoGaps (G : List (Term n)) : Prop := ∀ g ∈ G, ∀ v e, 0 < e → e ≤ g v → ∃ h ∈ G, h v = e

theorem scarfRun_spec (o : ScarfOpts n) (he : ∀ l, (o.enumOrder l).Perm l) (hd : ∀ l, (o.deformOrder l).Perm l)
    {G : List (Term n)} (hG : G.Nodup) (hs : o.strong = true ∨ NoGaps G) :
    ∃ outs, scarfRun o G = some outs ∧ (∀ x ∈ outs, x.2 ≤ lcmOf G) ∧ ∀ x, seriesCoef outs x = if mem G x then 0 else 1 := by
  set L := o.deformOrder G with hL
  have hLG : L.Perm G := hd G
  obtain ⟨h1, h2, h3⟩ := deformAll_spec o.strong L.get
  set d := deformAll o.strong L.get with hdd
  have hinj : Function.Injective d.1 := by
    intro i j hij
    have : L.get i = L.get j := by
      funext w
      have ha := h1 i w
      rw [hij, h1 j w, Option.some.injEq] at ha
      exact ha.symm
    exact (List.nodup_iff_injective_get.1 (hLG.nodup_iff.2 hG)) this
  set D := o.enumOrder (List.ofFn d.1) with hDD
  have hDp : D.Perm (List.ofFn d.1) := he _
  have hDm : ∀ g, g ∈ D ↔ ∃ i, d.1 i = g := fun g => by rw [hDp.mem_iff, List.mem_ofFn]
  have hDnd : D.Nodup := hDp.nodup_iff.2 (List.nodup_ofFn.2 hinj)
  have hDG : WeakGen D := by
    intro a ha b hb hab v hv hv0
    obtain ⟨i, rfl⟩ := (hDm a).1 ha
    obtain ⟨j, rfl⟩ := (hDm b).1 hb
    obtain ⟨c, hc⟩ := h3 (hs.imp_right fun hg w i e he1 he2 => by
      obtain ⟨g, hg1, hg2⟩ := hg (L.get i) (hLG.mem_iff.1 (List.get_mem _ _)) w e he1 he2
      obtain ⟨j, hj⟩ := List.mem_iff_get.1 (hLG.mem_iff.2 hg1)
      exact ⟨j, by rw [hj, hg2]⟩) v i j (fun h => hab (by rw [h])) hv hv0
    rw [strictlyContains_iff]
    exact ⟨_, (hDm _).2 ⟨c, rfl⟩, hc⟩
  obtain ⟨outs, h4, h5, h6⟩ := enumerateFaces_spec hDG hDnd
  -- the exponents of the lcm of the deformed ideal
  have hlcm : ∀ v, ∃ a, (d.2 v)[lcmOf D v]? = some a ∧ a ≤ lcmOf G v := by
    intro v
    rcases Nat.eq_zero_or_pos (lcmOf D v) with h0 | h0
    · rw [h0]
      exact ⟨0, (h2 v).zero, Nat.zero_le _⟩
    · obtain ⟨g, hg, hgv⟩ := lcmOf_attained h0
      obtain ⟨i, rfl⟩ := (hDm g).1 hg
      rw [← hgv]
      exact ⟨_, h1 i v, le_def.1 (le_lcmOf (hLG.mem_iff.1 (List.get_mem _ _))) v⟩
  have hundef : ∀ t : Term n, t ≤ lcmOf D → ∃ x : Term n, (∀ v, (d.2 v)[t v]? = some (x v)) ∧ x ≤ lcmOf G := by
    intro t ht
    have : ∀ v, ∃ a, (d.2 v)[t v]? = some a ∧ a ≤ lcmOf G v := by
      intro v
      obtain ⟨b, hb, hb2⟩ := hlcm v
      have htl := le_def.1 ht v
      have hlt : t v < (d.2 v).length := by
        have := (List.getElem?_eq_some_iff.1 hb).1
        omega
      refine ⟨(d.2 v)[t v], List.getElem?_eq_getElem hlt, ?_⟩
      exact ((h2 v).le htl (List.getElem?_eq_getElem hlt) hb).trans hb2
    choose x hx using this
    exact ⟨x, fun v => (hx v).1, le_def.2 fun v => (hx v).2⟩
  choose! u hu using hundef
  refine ⟨outs.map fun x => (x.1, u x.2), ?_, fun x hx => ?_, fun x => ?_⟩
  · unfold scarfRun
    have : enumerateFaces (o.enumOrder (deformer o.strong o.deformOrder G).1) = some outs := h4
    rw [this]
    simp only [Option.bind_some]
    refine mapM_some _ _ _ fun y hy => ?_
    have : undeform (deformer o.strong o.deformOrder G).2 y.2 = some (u y.2) := undeform_eq (hu y.2 (h5 y hy)).1
    rw [this]
    rfl
  · obtain ⟨y, hy, rfl⟩ := List.mem_map.1 hx
    exact (hu y.2 (h5 y hy)).2
  · choose fl hfl using fun v => (h2 v).floor (x v)
    have hiff : ∀ t y : Term n, (∀ v, (d.2 v)[t v]? = some (y v)) → (y ≤ x ↔ t ≤ fl) := by
      intro t y hty
      rw [le_def, le_def]
      exact forall_congr' fun v => hfl v _ _ (hty v)
    have hser : ∀ l : List (ℤ × Term n), (∀ y ∈ l, y.2 ≤ lcmOf D) →
        seriesCoef (l.map fun x => (x.1, u x.2)) x = seriesCoef l fl := by
      intro l
      induction l with
      | nil => intro _; rfl
      | cons a l ih =>
        intro hl
        rw [List.map_cons, seriesCoef_cons, seriesCoef_cons, ih fun y hy => hl y (by simp [hy])]
        simp only
        rw [if_congr (hiff a.2 (u a.2) (hu a.2 (hl a (by simp))).1) rfl rfl]
    rw [hser outs h5, h6 fl]
    refine if_congr ?_ rfl rfl
    constructor
    · rintro ⟨g, hg, hgl⟩
      obtain ⟨i, rfl⟩ := (hDm g).1 hg
      exact ⟨L.get i, hLG.mem_iff.1 (List.get_mem _ _), (hiff _ _ (h1 i)).2 hgl⟩
    · rintro ⟨g, hg, hgl⟩
      obtain ⟨i, rfl⟩ := List.mem_iff_get.1 (hLG.mem_iff.2 hg)
      exact ⟨d.1 i, (hDm _).2 ⟨i, rfl⟩, (hiff _ _ (h1 i)).1 hgl⟩

end Frobby
