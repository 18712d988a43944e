import Verif.CacheSpec

/-!
# Lemmas about the texts that translators keep
-/

namespace Frobby

/-- Memory is below `next`. -/
def TextHeap.Below (h : TextHeap) : Prop := ∀ a, h.cell a ≠ none → a < h.next

/-- From `h` to `h'`, exactly `as` are new. -/
structure Allocates (h h' : TextHeap) (as : List ℕ) : Prop where
  nodup : as.Nodup
  new : ∀ a ∈ as, h.next ≤ a
  holds : ∀ a ∈ as, h'.cell a ≠ none
  same : ∀ a, a < h.next → h'.cell a = h.cell a
  only : ∀ a, h.next ≤ a → h'.cell a ≠ none → a ∈ as
  le : h.next ≤ h'.next
  below : h'.Below

theorem Allocates.refl {h : TextHeap} (hb : h.Below) : Allocates h h [] :=
  ⟨by simp, by simp, by simp, fun _ _ => rfl, fun a h1 h2 => absurd (hb a h2) (by omega), Nat.le_refl _, hb⟩

theorem Allocates.trans {h h' h'' : TextHeap} {as bs : List ℕ} (h1 : Allocates h h' as) (h2 : Allocates h' h'' bs) : Allocates h h'' (as ++ bs) := by
  have hlt : ∀ a ∈ as, a < h'.next := fun a ha => h1.below a (h1.holds a ha)
  refine ⟨List.nodup_append.mpr ⟨h1.nodup, h2.nodup, ?_⟩, ?_, ?_, ?_, ?_, Nat.le_trans h1.le h2.le, h2.below⟩
  · rintro a ha b hb rfl
    exact absurd (h2.new a hb) (Nat.not_le.mpr (hlt a ha))
  · intro a ha
    rcases List.mem_append.mp ha with ha | ha
    · exact h1.new a ha
    · exact Nat.le_trans h1.le (h2.new a ha)
  · intro a ha
    rcases List.mem_append.mp ha with ha | ha
    · rw [h2.same a (hlt a ha)]; exact h1.holds a ha
    · exact h2.holds a ha
  · intro a ha
    rw [h2.same a (Nat.lt_of_lt_of_le ha h1.le), h1.same a ha]
  · intro a ha hc
    rw [List.mem_append]
    by_cases hl : a < h'.next
    · rw [h2.same a hl] at hc
      exact Or.inl (h1.only a ha hc)
    · exact Or.inr (h2.only a (by omega) hc)

theorem allocates_one {h : TextHeap} (hb : h.Below) (t : Text) : Allocates h ⟨Function.update h.cell h.next (some t), h.next + 1⟩ [h.next] := by
  refine ⟨by simp, by simp, by simp, ?_, ?_, by simp, ?_⟩
  · intro a ha
    exact Function.update_of_ne (by omega) _ _
  · intro a ha hc
    by_cases e : a = h.next
    · simp [e]
    · simp only [Function.update_of_ne e] at hc
      exact absurd (hb a hc) (by omega)
  · intro a hc
    show a < h.next + 1
    by_cases e : a = h.next
    · omega
    · simp only [Function.update_of_ne e] at hc
      have := hb a hc
      omega

/-- The pointers that are not null. -/
def pointersOf (T : List (List (Option ℕ))) : List ℕ := T.flatten.filterMap id

/-- What a table of pointers shows. -/
def shownBy (h : TextHeap) (T : List (List (Option ℕ))) : List (List (Option (Option Text))) := T.map (List.map (Option.map h.cell))

/-- What it should show. -/
def expectedTexts (b : Bool) (names : List Text) (exps : List (List ℤ)) : List (List (Option (Option Text))) :=
  List.zipWith (fun name xs => xs.map fun x => (makeText b name x).map some) names exps

theorem shown_congr {h h' : TextHeap} {T : List (List (Option ℕ))} (hc : ∀ a ∈ pointersOf T, h'.cell a = h.cell a) : shownBy h' T = shownBy h T := by
  unfold shownBy
  refine List.map_congr_left fun row hr => List.map_congr_left fun p hp => ?_
  cases p with
  | none => rfl
  | some a =>
    have : a ∈ pointersOf T := by
      unfold pointersOf
      rw [List.mem_filterMap]
      exact ⟨some a, List.mem_flatten.mpr ⟨row, hr, hp⟩, rfl⟩
    simp [hc a this]

theorem makeRow_spec (b : Bool) (name : Text) : ∀ (xs : List ℤ) (h : TextHeap), h.Below →
    Allocates h (makeRow b name xs h).1 ((makeRow b name xs h).2.filterMap id) ∧
      (makeRow b name xs h).2.map (Option.map (makeRow b name xs h).1.cell) = xs.map fun x => (makeText b name x).map some
  | [], h, hb => ⟨.refl hb, rfl⟩
  | x :: xs, h, hb => by
    rw [makeRow]
    cases hm : makeText b name x with
    | none =>
      obtain ⟨h1, h2⟩ := makeRow_spec b name xs h hb
      exact ⟨by simpa using h1, by simp [hm, h2]⟩
    | some t =>
      have ha := allocates_one hb t
      obtain ⟨h1, h2⟩ := makeRow_spec b name xs _ ha.below
      refine ⟨by simpa using ha.trans h1, ?_⟩
      simp only [List.map_cons, h2, hm, Option.map_some, List.cons.injEq, Option.some.injEq, and_true]
      rw [h1.same h.next (by simp)]
      simp

theorem makeTable_spec (b : Bool) : ∀ (names : List Text) (exps : List (List ℤ)) (h : TextHeap), h.Below → exps.length = names.length →
    ∃ r, makeTable b names exps h = some r ∧ Allocates h r.1 (pointersOf r.2) ∧ shownBy r.1 r.2 = expectedTexts b names exps
  | [], [], h, hb, _ => ⟨(h, []), rfl, .refl hb, rfl⟩
  | _ :: _, [], h, hb, hl => by simp at hl
  | [], _ :: _, h, hb, hl => by simp at hl
  | name :: names, xs :: rows, h, hb, hl => by
    obtain ⟨h1, h2⟩ := makeRow_spec b name xs h hb
    obtain ⟨r, h3, h4, h5⟩ := makeTable_spec b names rows _ h1.below (by simpa using hl)
    refine ⟨(r.1, (makeRow b name xs h).2 :: r.2), ?_, ?_, ?_⟩
    · simp only [makeTable, h3, Option.bind_eq_bind, Option.bind_some]
    · have := h1.trans h4
      simpa [pointersOf, List.filterMap_append] using this
    · show (makeRow b name xs h).2.map (Option.map r.1.cell) :: shownBy r.1 r.2 = _
      rw [h5]
      simp only [expectedTexts, List.zipWith_cons_cons, List.cons.injEq, and_true]
      rw [← h2]
      refine List.map_congr_left fun p hp => ?_
      cases p with
      | none => rfl
      | some a =>
        have ha : a ∈ (makeRow b name xs h).2.filterMap id := List.mem_filterMap.mpr ⟨some a, hp, rfl⟩
        simp only [Option.map_some, Option.some.injEq]
        exact h4.same a (h1.below a (h1.holds a ha))

theorem freeTexts_spec : ∀ (l : List (Option ℕ)) (h : TextHeap), (l.filterMap id).Nodup → (∀ a ∈ l.filterMap id, h.cell a ≠ none) →
    ∃ h', freeTexts l h = some h' ∧ h'.next = h.next ∧ (∀ a ∈ l.filterMap id, h'.cell a = none) ∧ ∀ a, a ∉ l.filterMap id → h'.cell a = h.cell a
  | [], h, _, _ => ⟨h, rfl, rfl, by simp, fun _ _ => rfl⟩
  | none :: l, h, hn, hc => by simpa [freeTexts] using freeTexts_spec l h (by simpa using hn) (by simpa using hc)
  | some a :: l, h, hn, hc => by
    simp only [List.filterMap_cons, id_eq] at hn hc ⊢
    rw [List.nodup_cons] at hn
    obtain ⟨v, hv⟩ := Option.ne_none_iff_exists'.mp (hc a (by simp))
    obtain ⟨h', h1, h2, h3, h4⟩ := freeTexts_spec l ⟨Function.update h.cell a none, h.next⟩ hn.2 (by
      intro b hb
      have : b ≠ a := by rintro rfl; exact hn.1 hb
      simp only [Function.update_of_ne this]
      exact hc b (List.mem_cons_of_mem _ hb))
    refine ⟨h', ?_, h2, ?_, ?_⟩
    · rw [freeTexts, hv]; exact h1
    · intro b hb
      rcases List.mem_cons.mp hb with rfl | hb
      · rw [h4 _ hn.1]; simp
      · exact h3 b hb
    · intro b hb
      rw [List.mem_cons, not_or] at hb
      rw [h4 b hb.2]
      exact Function.update_of_ne hb.1 _ _

/-- What a translator owns. -/
def CachingTranslator.owned (c : CachingTranslator) : List ℕ := pointersOf c.plain ++ pointersOf c.powers

/-- A translator is in order. -/
structure CachingTranslator.Good (h : TextHeap) (c : CachingTranslator) : Prop where
  len : c.exps.length = c.names.length
  plainOk : c.plain = [] ∨ shownBy h c.plain = expectedTexts false c.names c.exps
  powersOk : c.powers = [] ∨ shownBy h c.powers = expectedTexts true c.names c.exps
  nodup : c.owned.Nodup
  holds : ∀ a ∈ c.owned, h.cell a ≠ none

theorem CachingTranslator.Good.congr {h h' : TextHeap} {c : CachingTranslator} (hg : c.Good h) (hc : ∀ a ∈ c.owned, h'.cell a = h.cell a) : c.Good h' :=
  ⟨hg.len, hg.plainOk.imp id fun e => (shown_congr fun a ha => hc a (by simp [CachingTranslator.owned, ha])).trans e,
    hg.powersOk.imp id fun e => (shown_congr fun a ha => hc a (by simp [CachingTranslator.owned, ha])).trans e, hg.nodup,
    fun a ha => by rw [hc a ha]; exact hg.holds a ha⟩

theorem clearTexts_spec {h : TextHeap} {c : CachingTranslator} (hg : c.Good h) :
    ∃ h', c.clear h = some (h', ⟨c.exps, c.names, [], []⟩) ∧ h'.next = h.next ∧ (∀ a ∈ c.owned, h'.cell a = none) ∧
      ∀ a, a ∉ c.owned → h'.cell a = h.cell a := by
  have hn := List.nodup_append.mp hg.nodup
  obtain ⟨h1, e1, n1, f1, s1⟩ := freeTexts_spec c.plain.flatten h hn.1 (fun a ha => hg.holds a (List.mem_append_left _ ha))
  obtain ⟨h2, e2, n2, f2, s2⟩ := freeTexts_spec c.powers.flatten h1 hn.2.1 (fun a ha => by
    rw [s1 a fun h' => hn.2.2 a h' a ha rfl]
    exact hg.holds a (List.mem_append_right _ ha))
  refine ⟨h2, by simp only [CachingTranslator.clear, e1, e2, Option.bind_eq_bind, Option.bind_some], n2.trans n1, ?_, ?_⟩
  · intro a ha
    by_cases hp : a ∈ pointersOf c.powers
    · exact f2 a hp
    · rw [s2 a hp]
      rcases List.mem_append.mp ha with ha | ha
      · exact f1 a ha
      · exact absurd ha hp
  · intro a ha
    simp only [CachingTranslator.owned, List.mem_append, not_or] at ha
    rw [s2 a ha.2, s1 a ha.1]

/-! ## entries that change places -/

theorem swapTwo_some {α : Type} {l : List α} {a b : ℕ} (ha : a < l.length) (hb : b < l.length) :
    swapTwo l a b = some ((l.set a l[b]).set b l[a]) := by
  simp [swapTwo, ha, hb]

theorem exchange_eq {α : Type} {l : List α} {a b : ℕ} (ha : a < l.length) (hb : b < l.length) :
    exchange a b l = (l.set a l[b]).set b l[a] := by
  apply List.ext_getElem
  · simp [exchange]
  · intro i h1 h2
    have hi : i < l.length := by simpa using h2
    simp only [exchange, List.getElem_mapIdx, List.getElem_set, List.getD_eq_getElem?_getD]
    by_cases e1 : i = a
    · subst e1
      by_cases e2 : b = i
      · subst e2; simp [hb]
      · simp [hb, e2]
    · by_cases e2 : i = b
      · subst e2; simp [e1, ha]
      · have : ¬ b = i := fun h => e2 h.symm
        have : ¬ a = i := fun h => e1 h.symm
        simp [*]

theorem exchange_perm {α : Type} {l : List α} {a b : ℕ} (ha : a < l.length) (hb : b < l.length) : (exchange a b l).Perm l := by
  rw [exchange_eq ha hb]
  exact List.set_set_perm ha hb

theorem exchange_same {α : Type} (l : List α) (a : ℕ) : exchange a a l = l := by
  apply List.ext_getElem
  · simp [exchange]
  · intro i h1 h2
    simp only [exchange, List.getElem_mapIdx, List.getD_eq_getElem?_getD]
    by_cases e : i = a
    · subst e; simp [h2]
    · simp [e, h2]

theorem exchange_length {α : Type} (l : List α) (a b : ℕ) : (exchange a b l).length = l.length := by simp [exchange]

theorem exchange_map {α β : Type} (f : α → β) {l : List α} {a b : ℕ} (ha : a < l.length) (hb : b < l.length) :
    (exchange a b l).map f = exchange a b (l.map f) := by
  rw [exchange_eq ha hb, exchange_eq (by simpa using ha) (by simpa using hb)]
  simp [List.map_set]

theorem exchange_zipWith {α β γ : Type} (f : α → β → γ) {l : List α} {k : List β} (hl : l.length = k.length) {a b : ℕ} (ha : a < l.length)
    (hb : b < l.length) : List.zipWith f (exchange a b l) (exchange a b k) = exchange a b (List.zipWith f l k) := by
  rw [exchange_eq ha hb, exchange_eq (l := k) (by omega) (by omega), exchange_eq (by simp; omega) (by simp; omega)]
  apply List.ext_getElem
  · simp [hl]
  · intro i h1 h2
    simp only [List.getElem_zipWith, List.getElem_set]
    split
    · rfl
    · split <;> rfl

/-! ## texts -/

theorem zero_notMem_decimal (n : ℕ) : Char.ofNat 0 ∉ decimal n := by
  intro h
  unfold decimal at h
  split at h
  · simp at h
  · rw [List.mem_map] at h
    obtain ⟨d, hd, e⟩ := h
    have hd' : d < 10 := Nat.digits_lt_base (by omega) (List.mem_reverse.mp hd)
    have := digitChar_toNat hd'
    rw [e] at this
    have h0 : (Char.ofNat 0).toNat = 0 := rfl
    omega

theorem zero_notMem_decimalInt (x : ℤ) : Char.ofNat 0 ∉ decimalInt x := by
  unfold decimalInt
  split
  · intro h
    rcases List.mem_cons.mp h with h | h
    · exact absurd h (by decide)
    · exact zero_notMem_decimal _ h
  · exact zero_notMem_decimal _

theorem cText_eq {t : Text} (h : Char.ofNat 0 ∉ t) : cText t = t := by
  unfold cText
  induction t with
  | nil => rfl
  | cons c t ih =>
    rw [List.mem_cons, not_or] at h
    rw [List.takeWhile_cons, ih h.2]
    have : c ≠ Char.ofNat 0 := fun e => h.1 e.symm
    rw [if_pos (decide_eq_true this)]

theorem makeText_false (name : Text) (x : ℤ) : makeText false name x = some (decimalInt x) := by
  simp [makeText, cText_eq (zero_notMem_decimalInt x)]

theorem makeText_true {name : Text} (h : Char.ofNat 0 ∉ name) (x : ℤ) : makeText true name x = powerNotation name x := by
  unfold makeText powerNotation
  by_cases h0 : x = 0
  · simp [h0]
  · by_cases h1 : x = 1
    · subst h1
      simp [cText_eq h]
    · have : Char.ofNat 0 ∉ name ++ '^' :: decimalInt x := by
        rw [List.mem_append, List.mem_cons]
        rintro (h' | h' | h')
        · exact h h'
        · exact absurd h' (by decide)
        · exact zero_notMem_decimalInt x h'
      simp [h0, h1, cText_eq this]

end Frobby
