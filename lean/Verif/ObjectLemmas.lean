import Verif.ObjectSpec

/-!
# Lemmas about ideals and their pointers
-/

namespace Frobby

variable {m m' m'' : VectorMemory} {o o' : IdealObject} {old v : List ℕ} {n : ℕ} {L : List (List ℕ)}

theorem dividesLoop_eq : ∀ u v : List ℕ, dividesLoop u v = divisor u v
  | [], v => by simp [dividesLoop, divisor]
  | a :: u, [] => by simp [dividesLoop, divisor]
  | a :: u, b :: v => by
    rw [dividesLoop, dividesLoop_eq u v]
    unfold divisor
    by_cases h : a > b
    · simp [h, Nat.not_le.mpr h]
    · simp [h, Nat.not_lt.mp h]

theorem strictLoop_eq : ∀ (one : Bool) (u v : List ℕ), strictLoop one u v =
    (((u.zip v).all fun p => decide (p.1 = 0 ∨ p.1 < p.2)) && (!one || (u.zip v).any fun p => decide (p.2 ≠ 0)))
  | one, [], v => by simp [strictLoop]
  | one, a :: u, [] => by simp [strictLoop]
  | one, a :: u, b :: v => by
    rw [strictLoop, strictLoop_eq _ u v]
    by_cases h : a ≥ b ∧ a ≠ 0
    · have : ¬ (a = 0 ∨ a < b) := by omega
      rw [if_pos h, List.zip_cons_cons, List.all_cons, decide_eq_false this]
      rfl
    · have h2 : a = 0 ∨ a < b := by omega
      rw [if_neg h]
      by_cases hb : b = 0
      · simp [hb] at h2 ⊢
        simp [h2]
      · simp [hb, h2]

theorem strictLoop_true (u v : List ℕ) : strictLoop true u v = strictDivisor u v := by
  rw [strictLoop_eq]; rfl

theorem colonVector_eq (u v : List ℕ) : colonVector u v = List.zipWith (· - ·) u v := by
  unfold colonVector
  congr 1
  funext a b
  split <;> omega

/-- An object shows a value. -/
structure IdealObject.Shows (m : VectorMemory) (o : IdealObject) (I : ℕ × List (List ℕ)) : Prop where
  count : o.varCount = I.1
  vectors : o.terms.map m.cell = I.2.map some

/-- An object is in order. -/
structure IdealObject.Good (m : VectorMemory) (o : IdealObject) : Prop where
  sub : ∀ a ∈ o.terms, a ∈ o.owned
  nodup : o.terms.Nodup
  ownedNodup : o.owned.Nodup
  holds : ∀ a ∈ o.owned, ∃ v, m.cell a = some v ∧ v.length = o.varCount

/-- Memory is below `next`. -/
def VectorMemory.Below (m : VectorMemory) : Prop := ∀ a, m.cell a ≠ none → a < m.next

/-- From memory `m`, where an object owned `old`, to memory `m'` with the object `o`. -/
structure Changes (m : VectorMemory) (old : List ℕ) (m' : VectorMemory) (o : IdealObject) : Prop where
  good : o.Good m'
  frame : ∀ a, a ∉ old → a ∉ o.owned → m'.cell a = m.cell a
  fresh : ∀ a ∈ o.owned, a ∈ old ∨ m.cell a = none
  gone : ∀ a ∈ old, a ∉ o.owned → m'.cell a = none
  below : m'.Below

theorem Changes.refl (h : o.Good m) (hb : m.Below) : Changes m o.owned m o :=
  ⟨h, fun _ _ _ => rfl, fun _ h => Or.inl h, fun _ h h' => absurd h h', hb⟩

theorem Changes.trans (h : Changes m old m' o) (h' : Changes m' o.owned m'' o') : Changes m old m'' o' := by
  refine ⟨h'.good, ?_, ?_, ?_, h'.below⟩
  · intro a ha ha'
    by_cases hm : a ∈ o.owned
    · rw [h'.gone a hm ha']
      rcases h.fresh a hm with h1 | h1
      · exact absurd h1 ha
      · exact h1.symm
    · rw [h'.frame a hm ha', h.frame a ha hm]
  · intro a ha
    rcases h'.fresh a ha with h1 | h1
    · exact h.fresh a h1
    · by_cases hold : a ∈ old
      · exact Or.inl hold
      · right
        have hm : a ∉ o.owned := by
          intro hm
          obtain ⟨v, hv, _⟩ := h.good.holds a hm
          rw [hv] at h1; cases h1
        rw [← h.frame a hold hm]; exact h1
  · intro a ha ha'
    by_cases hm : a ∈ o.owned
    · exact h'.gone a hm ha'
    · rw [h'.frame a hm ha']; exact h.gone a ha hm

theorem IdealObject.Good.notNext (h : o.Good m) (hb : m.Below) : m.next ∉ o.owned := by
  intro hm
  obtain ⟨v, hv, _⟩ := h.holds _ hm
  exact Nat.lt_irrefl _ (hb m.next (by rw [hv]; simp))

theorem VectorMemory.Below.next_none {m : VectorMemory} (hb : m.Below) : m.cell m.next = none := by
  by_contra h
  exact Nat.lt_irrefl _ (hb _ h)

theorem map_cell_congr {m m' : VectorMemory} {l : List ℕ} (h : ∀ a ∈ l, m'.cell a = m.cell a) : l.map m'.cell = l.map m.cell :=
  List.map_congr_left h

theorem push_changes (h : o.Good m) (hb : m.Below) (hv : v.length = o.varCount) :
    Changes m o.owned (o.push m v).1 (o.push m v).2 := by
  have hn := h.notNext hb
  refine ⟨⟨?_, ?_, ?_, ?_⟩, ?_, ?_, ?_, ?_⟩
  · intro a ha
    simp only [IdealObject.push, List.mem_append, List.mem_singleton] at ha ⊢
    exact ha.imp (h.sub a) id
  · refine List.nodup_append.mpr ⟨h.nodup, by simp, ?_⟩
    intro a ha b hb' e
    simp at hb'
    exact hn (hb' ▸ e ▸ h.sub a ha)
  · refine List.nodup_append.mpr ⟨h.ownedNodup, by simp, ?_⟩
    intro a ha b hb' e
    simp at hb'
    exact hn (hb' ▸ e ▸ ha)
  · intro a ha
    simp only [IdealObject.push, List.mem_append, List.mem_singleton] at ha ⊢
    by_cases e : a = m.next
    · exact ⟨v, by simp [e], hv⟩
    · rcases ha with ha | ha
      · obtain ⟨w, hw, hl⟩ := h.holds a ha
        exact ⟨w, by rw [Function.update_of_ne e]; exact hw, hl⟩
      · exact absurd ha e
  · intro a ha ha'
    simp only [IdealObject.push, List.mem_append, List.mem_singleton, not_or] at ha' ⊢
    rw [Function.update_of_ne ha'.2]
  · intro a ha
    simp only [IdealObject.push, List.mem_append, List.mem_singleton] at ha
    rcases ha with ha | ha
    · exact Or.inl ha
    · exact Or.inr (ha ▸ hb.next_none)
  · intro a ha ha'
    simp only [IdealObject.push, List.mem_append, List.mem_singleton, not_or] at ha'
    exact absurd ha ha'.1
  · intro a ha
    simp only [IdealObject.push] at ha ⊢
    by_cases e : a = m.next
    · omega
    · rw [Function.update_of_ne e] at ha
      have := hb a ha
      omega

theorem push_keeps {m : VectorMemory} {o : IdealObject} {v : List ℕ} (hb : m.Below) {l : List ℕ} {L : List (List ℕ)}
    (hl : l.map m.cell = L.map some) : l.map (o.push m v).1.cell = L.map some := by
  rw [← hl]
  refine map_cell_congr fun a ha => ?_
  simp only [IdealObject.push]
  refine Function.update_of_ne ?_ _ _
  rintro rfl
  have h1 : m.cell m.next ∈ L.map some := hl ▸ List.mem_map_of_mem ha
  rw [hb.next_none] at h1
  simp at h1

theorem push_shows (hb : m.Below) (hs : IdealObject.Shows m o (n, L)) :
    IdealObject.Shows (o.push m v).1 (o.push m v).2 (n, L ++ [v]) := by
  refine ⟨hs.count, ?_⟩
  have := push_keeps (o := o) (v := v) hb hs.vectors
  show (o.terms ++ [m.next]).map _ = _
  rw [List.map_append, this]
  simp [IdealObject.push]

theorem insertLoop_spec (p : List ℕ → Bool) : ∀ (l : List ℕ) (L : List (List ℕ)) (m : VectorMemory) (o : IdealObject) (n : ℕ) (K : List (List ℕ)),
    o.Good m → m.Below → IdealObject.Shows m o (n, K) → l.map m.cell = L.map some → (∀ v ∈ L, v.length = n) →
    ∃ r, IdealObject.insertLoop p l m o = some r ∧ Changes m o.owned r.1 r.2 ∧ IdealObject.Shows r.1 r.2 (n, K ++ L.filter p)
  | [], [], m, o, n, K, hg, hb, hs, _, _ => ⟨(m, o), rfl, .refl hg hb, by simpa using hs⟩
  | [], _ :: _, m, o, n, K, hg, hb, hs, hl, _ => by simp at hl
  | _ :: _, [], m, o, n, K, hg, hb, hs, hl, _ => by simp at hl
  | a :: l, v :: L, m, o, n, K, hg, hb, hs, hl, hn => by
    simp only [List.map_cons, List.cons.injEq] at hl
    have hv : v.length = o.varCount := by rw [hs.count]; exact hn v (by simp)
    have hn' : ∀ v ∈ L, v.length = n := fun w hw => hn w (by simp [hw])
    simp only [IdealObject.insertLoop, hl.1, Option.bind_eq_bind, Option.bind_some, hv, Nat.lt_irrefl, if_false]
    by_cases hp : p v
    · have hi : o.insert m v = some (o.push m v) := by
        rw [IdealObject.insert, if_neg (by omega), ← hv, List.take_length]
      have hc := push_changes hg hb hv
      obtain ⟨r, hr, h1, h2⟩ := insertLoop_spec p l L _ _ n (K ++ [v]) hc.good hc.below (push_shows hb hs) (push_keeps hb hl.2) hn'
      refine ⟨r, ?_, hc.trans h1, ?_⟩
      · rw [if_pos hp, hi]; exact hr
      · rw [List.filter_cons, if_pos hp]
        simpa using h2
    · rw [if_neg hp, List.filter_cons, if_neg hp]
      exact insertLoop_spec p l L m o n K hg hb hs hl.2 hn'

theorem freeLoop_spec : ∀ (l : List ℕ) (m : VectorMemory), l.Nodup → (∀ a ∈ l, m.cell a ≠ none) →
    ∃ m', freeLoop l m = some m' ∧ m'.next = m.next ∧ (∀ a ∈ l, m'.cell a = none) ∧ ∀ a, a ∉ l → m'.cell a = m.cell a
  | [], m, _, _ => ⟨m, rfl, rfl, by simp, fun _ _ => rfl⟩
  | a :: l, m, hn, hc => by
    rw [List.nodup_cons] at hn
    obtain ⟨v, hv⟩ := Option.ne_none_iff_exists'.mp (hc a (by simp))
    obtain ⟨m', h1, h2, h3, h4⟩ := freeLoop_spec l ⟨Function.update m.cell a none, m.next⟩ hn.2 (by
      intro b hb
      have : b ≠ a := by rintro rfl; exact hn.1 hb
      simp only [Function.update_of_ne this]
      exact hc b (by simp [hb]))
    refine ⟨m', ?_, h2, ?_, ?_⟩
    · rw [freeLoop, hv]; exact h1
    · intro b hb
      rcases List.mem_cons.mp hb with rfl | hb
      · rw [h4 _ hn.1]; simp
      · exact h3 b hb
    · intro b hb
      rw [List.mem_cons, not_or] at hb
      rw [h4 b hb.2]
      exact Function.update_of_ne hb.1 _ _

theorem free_below {m m' : VectorMemory} {l : List ℕ} (hb : m.Below) (h2 : m'.next = m.next) (h3 : ∀ a ∈ l, m'.cell a = none)
    (h4 : ∀ a, a ∉ l → m'.cell a = m.cell a) : m'.Below := by
  intro a ha
  rw [h2]
  by_cases h : a ∈ l
  · exact absurd (h3 a h) ha
  · exact hb a (h4 a h ▸ ha)

theorem clearObject_spec (n : ℕ) (h : o.Good m) (hb : m.Below) :
    ∃ m', o.clear m n = some (m', ⟨n, [], []⟩) ∧ Changes m o.owned m' ⟨n, [], []⟩ ∧ ∀ a, a ∉ o.owned → m'.cell a = m.cell a := by
  obtain ⟨m', h1, h2, h3, h4⟩ := freeLoop_spec o.owned m h.ownedNodup (fun a ha => by
    obtain ⟨v, hv, _⟩ := h.holds a ha
    rw [hv]; simp)
  refine ⟨m', by simp [IdealObject.clear, h1], ⟨⟨by simp, by simp, by simp, by simp⟩, fun a ha _ => h4 a ha, by simp, fun a ha _ => h3 a ha,
    free_below hb h2 h3 h4⟩, h4⟩

theorem changeLoop_spec (f : VectorMemory → List ℕ → Option (List ℕ)) (g : List ℕ → List ℕ) (m₀ : VectorMemory) (l₀ : List ℕ) (n : ℕ)
    (hf : ∀ m', (∀ a, a ∉ l₀ → m'.cell a = m₀.cell a) → ∀ v, v.length = n → f m' v = some (g v)) :
    ∀ (l : List ℕ) (L : List (List ℕ)) (m : VectorMemory), l.Nodup → (∀ a ∈ l, a ∈ l₀) → (∀ a, a ∉ l₀ → m.cell a = m₀.cell a) →
    l.map m.cell = L.map some → (∀ v ∈ L, v.length = n) →
    ∃ m', changeLoop f l m = some m' ∧ m'.next = m.next ∧ (∀ a, a ∉ l → m'.cell a = m.cell a) ∧ l.map m'.cell = (L.map g).map some
  | [], [], m, _, _, _, _, _ => ⟨m, rfl, rfl, fun _ _ => rfl, rfl⟩
  | [], _ :: _, m, _, _, _, hl, _ => by simp at hl
  | _ :: _, [], m, _, _, _, hl, _ => by simp at hl
  | a :: l, v :: L, m, hd, hsub, hm, hl, hn => by
    rw [List.nodup_cons] at hd
    simp only [List.map_cons, List.cons.injEq] at hl
    obtain ⟨m', h1, h2, h3, h4⟩ := changeLoop_spec f g m₀ l₀ n hf l L ⟨Function.update m.cell a (some (g v)), m.next⟩ hd.2
      (fun b hb => hsub b (by simp [hb]))
      (fun b hb => by
        have : b ≠ a := by rintro rfl; exact hb (hsub b (by simp))
        simp only [Function.update_of_ne this]
        exact hm b hb)
      (by
        rw [← hl.2]
        refine map_cell_congr fun b hb => ?_
        have : b ≠ a := by rintro rfl; exact hd.1 hb
        simp only [Function.update_of_ne this])
      (fun w hw => hn w (by simp [hw]))
    refine ⟨m', ?_, h2, ?_, ?_⟩
    · simp only [changeLoop, hl.1, Option.bind_eq_bind, Option.bind_some, hf m hm v (hn v (by simp))]
      exact h1
    · intro b hb
      rw [List.mem_cons, not_or] at hb
      rw [h3 b hb.2]
      exact Function.update_of_ne hb.1 _ _
    · simp only [List.map_cons, List.cons.injEq]
      refine ⟨?_, h4⟩
      rw [h3 a hd.1]
      simp

theorem keepPointers_spec (p : List ℕ → Bool) (m : VectorMemory) : ∀ (n : ℕ) (ts : List ℕ) (newEnd it : ℕ), newEnd ≤ it → it + n = ts.length →
    (∀ a ∈ ts.drop it, m.cell a ≠ none) →
    ∃ r, keepPointers p m n ts newEnd it = some r ∧
      r.1.take r.2 = ts.take newEnd ++ (ts.drop it).filter fun a => p ((m.cell a).getD [])
  | 0, ts, newEnd, it, h1, h2, _ => by
    refine ⟨(ts, newEnd), rfl, ?_⟩
    have : ts.drop it = [] := List.drop_eq_nil_of_le (by omega)
    rw [this]
    simp
  | n + 1, ts, newEnd, it, h1, h2, h3 => by
    have hi : it < ts.length := by omega
    have hd : ts.drop it = ts[it] :: ts.drop (it + 1) := List.drop_eq_getElem_cons hi
    obtain ⟨v, hv⟩ := Option.ne_none_iff_exists'.mp (h3 ts[it] (by rw [hd]; exact List.mem_cons_self))
    have h3' : ∀ a ∈ ts.drop (it + 1), m.cell a ≠ none := fun a ha => h3 a (by rw [hd]; exact List.mem_cons_of_mem _ ha)
    simp only [keepPointers, List.getElem?_eq_getElem hi, Option.bind_eq_bind, Option.bind_some, hv]
    by_cases hp : p v
    · have hdr : (ts.set newEnd ts[it]).drop (it + 1) = ts.drop (it + 1) := by
        rw [List.drop_set_of_lt (by omega)]
      obtain ⟨r, hr, h4⟩ := keepPointers_spec p m n (ts.set newEnd ts[it]) (newEnd + 1) (it + 1) (by omega) (by simp; omega) (by rw [hdr]; exact h3')
      refine ⟨r, by rw [if_pos hp]; exact hr, ?_⟩
      rw [h4, hdr, hd, List.filter_cons, hv]
      simp only [Option.getD_some, hp, if_true]
      rw [List.take_set, List.take_succ_eq_append_getElem (by omega : newEnd < ts.length), List.set_append, if_neg (by simp; omega)]
      have : newEnd - (ts.take newEnd).length = 0 := by simp; omega
      rw [this]
      simp
    · obtain ⟨r, hr, h4⟩ := keepPointers_spec p m n ts newEnd (it + 1) (by omega) (by omega) h3'
      refine ⟨r, by rw [if_neg hp]; exact hr, ?_⟩
      rw [h4, hd, List.filter_cons, hv]
      simp [hp]

theorem filter_cells (p : List ℕ → Bool) (m : VectorMemory) : ∀ (l : List ℕ) (L : List (List ℕ)), l.map m.cell = L.map some →
    (l.filter fun a => p ((m.cell a).getD [])).map m.cell = (L.filter p).map some
  | [], [], _ => rfl
  | [], _ :: _, h => by simp at h
  | _ :: _, [], h => by simp at h
  | a :: l, v :: L, h => by
    simp only [List.map_cons, List.cons.injEq] at h
    rw [List.filter_cons, List.filter_cons, h.1]
    simp only [Option.getD_some]
    split
    · simp [h.1, filter_cells p m l L h.2]
    · exact filter_cells p m l L h.2

theorem keep_spec (p : List ℕ → Bool) (h : o.Good m) (hb : m.Below) (hs : IdealObject.Shows m o (n, L)) :
    ∃ o', o.keep m p = some o' ∧ Changes m o.owned m o' ∧ IdealObject.Shows m o' (n, L.filter p) := by
  obtain ⟨r, hr, he⟩ := keepPointers_spec p m o.terms.length o.terms 0 0 (by omega) (by omega) (fun a ha => by
    obtain ⟨v, hv, _⟩ := h.holds a (h.sub a (by simpa using ha))
    rw [hv]; simp)
  simp only [List.take_zero, List.nil_append, List.drop_zero] at he
  refine ⟨⟨o.varCount, r.1.take r.2, o.owned⟩, by simp [IdealObject.keep, hr], ⟨⟨?_, ?_, h.ownedNodup, h.holds⟩, fun _ _ _ => rfl, fun _ h => Or.inl h, fun _ h h' => absurd h h', hb⟩,
    ⟨hs.count, ?_⟩⟩
  · intro a ha
    simp only [he] at ha
    exact h.sub a (List.mem_filter.mp ha).1
  · simp only [he]
    exact h.nodup.filter _
  · simp only [he]
    exact filter_cells p m _ _ hs.vectors

theorem anyLoop_spec (p : List ℕ → Bool) (m : VectorMemory) : ∀ (l : List ℕ) (L : List (List ℕ)), l.map m.cell = L.map some →
    anyLoop p m l = some (L.any p)
  | [], [], _ => rfl
  | [], _ :: _, h => by simp at h
  | _ :: _, [], h => by simp at h
  | a :: l, v :: L, h => by
    simp only [List.map_cons, List.cons.injEq] at h
    simp only [anyLoop, h.1, Option.bind_eq_bind, Option.bind_some, anyLoop_spec p m l L h.2, List.any_cons]
    cases p v <;> simp

end Frobby
