import Verif.CacheLemmas

/-!
# Lemmas: each step on translators that keep texts is the step that makes them anew
-/

namespace Frobby

/-- The invariant of states with translators. -/
structure CacheState.Inv (s : CacheState) : Prop where
  good : ∀ x c, s.tr x = some c → c.Good s.heap
  apart : ∀ x y c d, x ≠ y → s.tr x = some c → s.tr y = some d → ∀ a ∈ c.owned, a ∉ d.owned
  kept : ∀ a, s.heap.cell a ≠ none → ∃ x c, s.tr x = some c ∧ a ∈ c.owned
  below : s.heap.Below

/-- A state and the specification. -/
structure CacheState.Agrees (s : CacheState) (R : TextRequests) : Prop where
  out : s.out = R.out
  dead : ∀ x, R.tr x = none → s.tr x = none
  live : ∀ x v, R.tr x = some v → ∃ c, s.tr x = some c ∧ c.exps = v.1 ∧ c.names = v.2
  names : ∀ x v, R.tr x = some v → ∀ n ∈ v.2, Char.ofNat 0 ∉ n

/-- What the translator with this name owns. -/
def CacheState.ownedBy (s : CacheState) (x : ℕ) : List ℕ := ((s.tr x).map CachingTranslator.owned).getD []

theorem textsBy_some {s : CacheState} {x c} (h : s.tr x = some c) : s.ownedBy x = c.owned := by simp [CacheState.ownedBy, h]
theorem textsBy_none {s : CacheState} {x} (h : s.tr x = none) : s.ownedBy x = [] := by simp [CacheState.ownedBy, h]

/-- From memory `h`, where a translator owned `old`, to memory `h'` with the translator `c`. -/
structure TextChange (h : TextHeap) (old : List ℕ) (h' : TextHeap) (c : CachingTranslator) : Prop where
  good : c.Good h'
  frame : ∀ a, a ∉ old → a ∉ c.owned → h'.cell a = h.cell a
  fresh : ∀ a ∈ c.owned, a ∈ old ∨ h.cell a = none
  gone : ∀ a ∈ old, a ∉ c.owned → h'.cell a = none
  below : h'.Below

theorem TextChange.other {s : CacheState} (hs : s.Inv) {x h c} (hc : TextChange s.heap (s.ownedBy x) h c) {y d} (hxy : y ≠ x) (hd : s.tr y = some d) :
    ∀ a ∈ d.owned, a ∉ c.owned ∧ h.cell a = s.heap.cell a := by
  intro a ha
  have h1 : a ∉ s.ownedBy x := by
    cases hx : s.tr x with
    | none => rw [textsBy_none hx]; simp
    | some c' => rw [textsBy_some hx]; exact hs.apart y x d c' hxy hd hx a ha
  have h2 : a ∉ c.owned := by
    intro h'
    rcases hc.fresh a h' with h' | h'
    · exact h1 h'
    · exact (hs.good y d hd).holds a ha h'
  exact ⟨h2, hc.frame a h1 h2⟩

theorem setText_inv {s : CacheState} (hs : s.Inv) {x h c} (hc : TextChange s.heap (s.ownedBy x) h c) : (s.set x (h, c)).Inv := by
  have hobj : ∀ y d, (s.set x (h, c)).tr y = some d → (y = x ∧ d = c) ∨ (y ≠ x ∧ s.tr y = some d) := by
    intro y d h'
    simp only [CacheState.set] at h'
    by_cases e : y = x
    · subst e; simp at h'; exact Or.inl ⟨rfl, h'.symm⟩
    · rw [Function.update_of_ne e] at h'; exact Or.inr ⟨e, h'⟩
  refine ⟨?_, ?_, ?_, hc.below⟩
  · intro y d h'
    rcases hobj y d h' with ⟨rfl, rfl⟩ | ⟨e, h'⟩
    · exact hc.good
    · exact (hs.good y d h').congr fun a ha => (hc.other hs e h' a ha).2
  · intro y z c1 c2 hyz h1 h2 a ha
    rcases hobj y c1 h1 with ⟨ey, eo⟩ | ⟨e1, h1'⟩ <;> rcases hobj z c2 h2 with ⟨ez, eo'⟩ | ⟨e2, h2'⟩
    · exact absurd (ey.trans ez.symm) hyz
    · intro ha'
      exact (hc.other hs e2 h2' a ha').1 (eo ▸ ha)
    · rw [eo']; exact (hc.other hs e1 h1' a ha).1
    · exact hs.apart y z c1 c2 hyz h1' h2' a ha
  · intro a ha
    by_cases h1 : a ∈ c.owned
    · exact ⟨x, c, by simp [CacheState.set], h1⟩
    · by_cases h' : a ∈ s.ownedBy x
      · exact absurd (hc.gone a h' h1) ha
      · simp only [CacheState.set] at ha
        rw [hc.frame a h' h1] at ha
        obtain ⟨y, d, hy, hd⟩ := hs.kept a ha
        have : y ≠ x := by
          rintro rfl
          rw [textsBy_some hy] at h'
          exact h' hd
        exact ⟨y, d, by simp only [CacheState.set, Function.update_of_ne this]; exact hy, hd⟩

theorem setText_agrees {s : CacheState} {R : TextRequests} (hV : s.Agrees R) {x h c v} (hv : c.exps = v.1 ∧ c.names = v.2)
    (hn : ∀ n ∈ v.2, Char.ofNat 0 ∉ n) : (s.set x (h, c)).Agrees (R.set x v) := by
  refine ⟨hV.out, ?_, ?_, ?_⟩
  · intro y h'
    have e : y ≠ x := by rintro rfl; simp [TextRequests.set] at h'
    simp only [TextRequests.set, CacheState.set, Function.update_of_ne e] at h' ⊢
    exact hV.dead y h'
  · intro y w h'
    by_cases e : y = x
    · subst e
      simp only [TextRequests.set, Function.update_self, Option.some.injEq] at h'
      exact ⟨c, by simp [CacheState.set], h' ▸ hv⟩
    · simp only [TextRequests.set, CacheState.set, Function.update_of_ne e] at h' ⊢
      exact hV.live y w h'
  · intro y w h'
    by_cases e : y = x
    · subst e
      simp only [TextRequests.set, Function.update_self, Option.some.injEq] at h'
      exact h' ▸ hn
    · simp only [TextRequests.set, Function.update_of_ne e] at h'
      exact hV.names y w h'

/-- What a step has to meet. -/
def TextStepped (r : Option CacheState) (R : TextRequests) : Prop := ∃ s, r = some s ∧ s.Inv ∧ s.Agrees R

theorem textStepped_set {s : CacheState} {R : TextRequests} (hs : s.Inv) (hV : s.Agrees R) {x v} {r : TextHeap × CachingTranslator}
    (hc : TextChange s.heap (s.ownedBy x) r.1 r.2) (hv : r.2.exps = v.1 ∧ r.2.names = v.2) (hn : ∀ n ∈ v.2, Char.ofNat 0 ∉ n) :
    TextStepped (some (s.set x r)) (R.set x v) :=
  ⟨_, rfl, setText_inv hs hc, setText_agrees hV hv hn⟩

theorem good_noTexts {h : TextHeap} {exps : List (List ℤ)} {names : List Text} (hl : exps.length = names.length) :
    CachingTranslator.Good h ⟨exps, names, [], []⟩ :=
  ⟨hl, Or.inl rfl, Or.inl rfl, List.nodup_nil, fun a ha => by cases ha⟩

/-- Dropping the texts, with other exponents and names. -/
theorem dropped {s : CacheState} (hs : s.Inv) {x c} (hx : s.tr x = some c) : ∃ h, c.clear s.heap = some (h, ⟨c.exps, c.names, [], []⟩) ∧
    ∀ exps names, exps.length = names.length → TextChange s.heap (s.ownedBy x) h ⟨exps, names, [], []⟩ := by
  obtain ⟨h, e, n, f, g⟩ := clearTexts_spec (hs.good x c hx)
  refine ⟨h, e, fun exps names hl => ?_⟩
  rw [textsBy_some hx]
  refine ⟨good_noTexts hl, fun a ha _ => g a ha, fun a ha => by (cases ha), fun a ha _ => f a ha, fun a ha => ?_⟩
  rw [n]
  by_cases h' : a ∈ c.owned
  · exact absurd (f a h') ha
  · exact hs.below a (g a h' ▸ ha)

theorem dualizeRows_spec : ∀ (rows : List (List ℤ)) (a : List ℤ), rows.length ≤ a.length →
    dualizeRows rows a = some (List.zipWith (fun xs a => xs.map fun e => if e = 0 then 0 else a - e + 1) rows a)
  | [], a, _ => by simp [dualizeRows]
  | _ :: _, [], h => by simp at h
  | xs :: rows, a :: as, h => by
    rw [dualizeRows, dualizeRows_spec rows as (by simpa using h)]
    simp only [Option.map_some, List.zipWith_cons_cons, Option.some.injEq, List.cons.injEq, and_true]
    refine List.map_congr_left fun e _ => ?_
    by_cases h0 : e = 0 <;> simp [h0]

theorem look_spec {s : CacheState} {R : TextRequests} (hs : s.Inv) (hV : s.Agrees R) {b : Bool} {names : List Text} {exps : List (List ℤ)}
    {T : List (List (Option ℕ))} (hT : shownBy s.heap T = expectedTexts b names exps) {var e : ℕ} {row c name} (hrow : exps[var]? = some row)
    (hc : row[e]? = some c) (hname : names[var]? = some name) : TextStepped (s.look T var e) ⟨R.tr, R.out ++ [makeText b name c]⟩ := by
  have h1 : (shownBy s.heap T)[var]? = some (row.map fun x => (makeText b name x).map some) := by
    rw [hT]
    simp [expectedTexts, List.getElem?_zipWith, hrow, hname]
  simp only [shownBy, List.getElem?_map, Option.map_eq_some_iff] at h1
  obtain ⟨ps, hps, h2⟩ := h1
  have h3 : (ps.map (Option.map s.heap.cell))[e]? = some ((makeText b name c).map some) := by
    rw [h2, List.getElem?_map, hc]; rfl
  simp only [List.getElem?_map, Option.map_eq_some_iff] at h3
  obtain ⟨p, hp, h4⟩ := h3
  simp only [CacheState.look, hps, hp, Option.bind_eq_bind, Option.bind_some]
  have fin : ∀ o, o = makeText b name c → TextStepped (some ⟨s.tr, s.heap, s.out ++ [o]⟩) ⟨R.tr, R.out ++ [makeText b name c]⟩ := by
    rintro o rfl
    exact ⟨_, rfl, ⟨hs.good, hs.apart, hs.kept, hs.below⟩, ⟨by rw [hV.out], hV.dead, hV.live, hV.names⟩⟩
  cases p with
  | none =>
    refine fin none ?_
    cases hm : makeText b name c with
    | none => rfl
    | some t => rw [hm] at h4; simp at h4
  | some a =>
    cases hm : makeText b name c with
    | none => rw [hm] at h4; simp at h4
    | some t =>
      rw [hm] at h4
      simp only [Option.map_some, Option.some.injEq] at h4
      simp only [h4, Option.bind_some]
      have := fin (some t) hm.symm
      rwa [hm] at this

theorem set_self_agrees {s : CacheState} {R : TextRequests} (hV : s.Agrees R) {x c h v} (hx : R.tr x = some v) (hv : c.exps = v.1 ∧ c.names = v.2) :
    (s.set x (h, c)).Agrees R := by
  have := setText_agrees hV (x := x) (h := h) hv (hV.names x v hx)
  have e : R.set x v = R := by
    unfold TextRequests.set
    rw [← hx, Function.update_eq_self]
  rwa [e] at this

/-- New pointers next to old ones. -/
theorem made_change {s : CacheState} (hs : s.Inv) {x c} (hx : s.tr x = some c) {h : TextHeap} {as : List ℕ} (ha : Allocates s.heap h as)
    {c' : CachingTranslator} (hlen : c'.exps.length = c'.names.length) (ho : c'.owned.Perm (c.owned ++ as))
    (hp : c'.plain = [] ∨ shownBy h c'.plain = expectedTexts false c'.names c'.exps)
    (hq : c'.powers = [] ∨ shownBy h c'.powers = expectedTexts true c'.names c'.exps) : TextChange s.heap (s.ownedBy x) h c' := by
  have hg := hs.good x c hx
  rw [textsBy_some hx]
  have hlt : ∀ a ∈ c.owned, a < s.heap.next := fun a h' => hs.below a (hg.holds a h')
  have hmem : ∀ a, a ∈ c'.owned ↔ a ∈ c.owned ∨ a ∈ as := fun a => by rw [ho.mem_iff, List.mem_append]
  refine ⟨⟨hlen, hp, hq, ?_, ?_⟩, ?_, ?_, ?_, ha.below⟩
  · rw [ho.nodup_iff, List.nodup_append]
    refine ⟨hg.nodup, ha.nodup, ?_⟩
    rintro a h1 b h2 rfl
    exact absurd (ha.new a h2) (Nat.not_le.mpr (hlt a h1))
  · intro a h'
    rcases (hmem a).mp h' with h' | h'
    · rw [ha.same a (hlt a h')]; exact hg.holds a h'
    · exact ha.holds a h'
  · intro a _ h2
    rw [hmem, not_or] at h2
    by_cases hl : a < s.heap.next
    · exact ha.same a hl
    · have h3 : h.cell a = none := by
        by_contra hne
        exact h2.2 (ha.only a (by omega) hne)
      have h4 : s.heap.cell a = none := by
        by_contra hne
        exact hl (hs.below a hne)
      rw [h3, h4]
  · intro a h'
    rcases (hmem a).mp h' with h' | h'
    · exact Or.inl h'
    · right
      by_contra hne
      exact absurd (hs.below a hne) (Nat.not_lt.mpr (ha.new a h'))
  · intro a h1 h2
    exact absurd ((hmem a).mpr (Or.inl h1)) h2

theorem pointersOf_perm {T T' : List (List (Option ℕ))} (h : T.Perm T') : (pointersOf T).Perm (pointersOf T') :=
  (h.flatten).filterMap _

theorem swapped_table {h : TextHeap} {T : List (List (Option ℕ))} {b : Bool} {names : List Text} {exps : List (List ℤ)}
    (hl : exps.length = names.length) {i j : ℕ} (hi : i < names.length) (hj : j < names.length)
    (hT : T = [] ∨ shownBy h T = expectedTexts b names exps) : ∃ T', swapTable T i j = some T' ∧ T'.Perm T ∧
      (T' = [] ∨ shownBy h T' = expectedTexts b (exchange i j names) (exchange i j exps)) := by
  by_cases e : T = []
  · subst e
    exact ⟨[], by simp [swapTable], .refl _, Or.inl rfl⟩
  · rcases hT with hT | hT
    · exact absurd hT e
    · have hlen : T.length = names.length := by
        have := congrArg List.length hT
        simp [shownBy, expectedTexts, hl] at this
        exact this
      have hi' : i < T.length := by omega
      have hj' : j < T.length := by omega
      refine ⟨exchange i j T, by rw [swapTable, if_neg e, swapTwo_some hi' hj', exchange_eq hi' hj'], exchange_perm hi' hj', Or.inr ?_⟩
      unfold shownBy at hT ⊢
      rw [exchange_map _ hi' hj', hT]
      unfold expectedTexts
      rw [exchange_zipWith _ hl.symm hi hj]

/-- The laws of each step. -/
theorem step_texts {s : CacheState} {R R' : TextRequests} (hs : s.Inv) (hV : s.Agrees R) (op : CacheOp) (h : R.step op = some R') :
    TextStepped (s.step op) R' := by
  cases op with
  | create x exps names =>
    simp only [TextRequests.step] at h
    split at h
    case isFalse => cases h
    case isTrue hx =>
    cases h
    have hx' := hV.dead x hx.1
    have := textStepped_set hs hV (x := x) (r := (s.heap, ⟨exps, names, [], []⟩)) (v := (exps, names))
      (by rw [textsBy_none hx']; exact ⟨good_noTexts hx.2.1, fun _ _ _ => rfl, fun a ha => by (cases ha), fun a ha => by (cases ha), hs.below⟩) ⟨rfl, rfl⟩ hx.2.2
    simpa only [CacheState.step, hx', hx.2.1, if_true] using this
  | copy x y =>
    simp only [TextRequests.step] at h
    split at h
    case isFalse => cases h
    case isTrue hx =>
    rw [Option.map_eq_some_iff] at h
    obtain ⟨v, hy, rfl⟩ := h
    have hx' := hV.dead x hx
    obtain ⟨c, hc, hv⟩ := hV.live y v hy
    have := textStepped_set hs hV (x := x) (r := (s.heap, ⟨c.exps, c.names, [], []⟩)) (v := v)
      (by rw [textsBy_none hx']; exact ⟨good_noTexts (hs.good y c hc).len, fun _ _ _ => rfl, fun a ha => by (cases ha), fun a ha => by (cases ha), hs.below⟩)
      hv (hV.names y v hy)
    simpa only [CacheState.step, hx', hc, Option.bind_eq_bind, Option.bind_some] using this
  | assign x y =>
    simp only [TextRequests.step, Option.bind_eq_some_iff, Option.map_eq_some_iff] at h
    obtain ⟨u, hx, v, hy, rfl⟩ := h
    obtain ⟨c, hc, hu⟩ := hV.live x u hx
    obtain ⟨d, hd, hv⟩ := hV.live y v hy
    obtain ⟨h', e, hch⟩ := dropped hs hc
    have hget : ∃ d', (s.set x (h', ⟨c.exps, c.names, [], []⟩)).tr y = some d' ∧ d'.exps = d.exps ∧ d'.names = d.names := by
      by_cases exy : y = x
      · subst exy
        rw [hc] at hd; cases hd
        exact ⟨⟨c.exps, c.names, [], []⟩, by simp [CacheState.set], rfl, rfl⟩
      · exact ⟨d, by simp only [CacheState.set, Function.update_of_ne exy]; exact hd, rfl, rfl⟩
    obtain ⟨d', hd', he, hn⟩ := hget
    have := textStepped_set hs hV (x := x) (r := (h', ⟨d'.exps, d'.names, [], []⟩)) (v := v)
      (hch _ _ (by rw [he, hn]; exact (hs.good y d hd).len)) ⟨he.trans hv.1, hn.trans hv.2⟩ (hV.names y v hy)
    simp only [CacheState.step, hc, e, hd', Option.bind_eq_bind, Option.bind_some]
    simpa only [CacheState.set, Function.update_idem] using this
  | dualize x a =>
    simp only [TextRequests.step, Option.bind_eq_some_iff] at h
    obtain ⟨v, hx, h⟩ := h
    split at h
    case isFalse => cases h
    case isTrue hl =>
    cases h
    obtain ⟨c, hc, hv⟩ := hV.live x v hx
    obtain ⟨h', e, hch⟩ := dropped hs hc
    have hd := dualizeRows_spec c.exps a (by rw [hv.1]; exact hl)
    have hlen := (hs.good x c hc).len
    simp only [CacheState.step, hc, e, hd, Option.bind_eq_bind, Option.bind_some]
    refine textStepped_set hs hV (hch _ _ ?_) ⟨by rw [hv.1], hv.2⟩ (hV.names x v hx)
    rw [List.length_zipWith, Nat.min_eq_left (by rw [hv.1]; exact hl), hlen]
  | decrement x =>
    simp only [TextRequests.step, Option.map_eq_some_iff] at h
    obtain ⟨v, hx, rfl⟩ := h
    obtain ⟨c, hc, hv⟩ := hV.live x v hx
    obtain ⟨h', e, hch⟩ := dropped hs hc
    have hlen := (hs.good x c hc).len
    simp only [CacheState.step, hc, e, Option.bind_eq_bind, Option.bind_some]
    exact textStepped_set hs hV (hch _ _ (by simpa using hlen)) ⟨by rw [hv.1], hv.2⟩ (hV.names x v hx)
  | rename x names =>
    simp only [TextRequests.step, Option.bind_eq_some_iff] at h
    obtain ⟨v, hx, h⟩ := h
    split at h
    case isFalse => cases h
    case isTrue hl =>
    cases h
    obtain ⟨c, hc, hv⟩ := hV.live x v hx
    obtain ⟨h', e, hch⟩ := dropped hs hc
    have hlen := (hs.good x c hc).len
    have hl' : c.names.length = names.length := by rw [hv.2, hl.1]
    simp only [CacheState.step, hc, e, Option.bind_eq_bind, Option.bind_some, if_pos hl']
    exact textStepped_set hs hV (hch _ _ (by omega)) ⟨hv.1, rfl⟩ hl.2
  | swap x a b =>
    simp only [TextRequests.step, Option.bind_eq_some_iff] at h
    obtain ⟨v, hx, h⟩ := h
    split at h
    case isFalse => cases h
    case isTrue hl =>
    cases h
    obtain ⟨c, hc, hv⟩ := hV.live x v hx
    have hg := hs.good x c hc
    have hlen := hg.len
    have ha : a < c.names.length := by rw [hv.2]; exact hl.1
    have hb : b < c.names.length := by rw [hv.2]; exact hl.2
    by_cases eab : a = b
    · subst eab
      rw [exchange_same, exchange_same]
      have e : R.set x (v.1, v.2) = R := by
        unfold TextRequests.set
        rw [show (v.1, v.2) = v from rfl, ← hx, Function.update_eq_self]
      rw [e]
      simp only [CacheState.step, hc, Option.bind_eq_bind, Option.bind_some, if_true, if_pos ha]
      exact ⟨s, rfl, hs, hV⟩
    · obtain ⟨P, hP, pP, oP⟩ := swapped_table hlen ha hb hg.plainOk
      obtain ⟨Q, hQ, pQ, oQ⟩ := swapped_table hlen ha hb hg.powersOk
      have ha' : a < c.exps.length := by omega
      have hb' : b < c.exps.length := by omega
      have hE := swapTwo_some ha' hb'
      rw [← exchange_eq ha' hb'] at hE
      have hN := swapTwo_some ha hb
      rw [← exchange_eq ha hb] at hN
      simp only [CacheState.step, hc, Option.bind_eq_bind, Option.bind_some, if_neg eab, hE, hN, hP, hQ]
      refine textStepped_set (x := x) (v := (exchange a b v.1, exchange a b v.2)) (r := (s.heap, ⟨exchange a b c.exps, exchange a b c.names, P, Q⟩)) hs hV
        (made_change hs hc (.refl hs.below) ?_ ?_ oP oQ) ⟨by rw [hv.1], by rw [hv.2]⟩ ?_
      · simp only [exchange_length]; exact hlen
      · rw [List.append_nil]
        exact (pointersOf_perm pP).append (pointersOf_perm pQ)
      · intro n hn
        rw [(exchange_perm hl.1 hl.2).mem_iff] at hn
        exact hV.names x v hx n hn
  | getPower x var e =>
    simp only [TextRequests.step, Option.bind_eq_some_iff, Option.map_eq_some_iff] at h
    obtain ⟨v, hx, row, hrow, c0, hc0, name, hname, rfl⟩ := h
    obtain ⟨c, hc, hv⟩ := hV.live x v hx
    have hg := hs.good x c hc
    rw [← hv.1] at hrow
    have hno := hV.names x v hx name (List.mem_of_getElem? hname)
    rw [← hv.2] at hname
    rw [← makeText_true hno]
    simp only [CacheState.step, hc, Option.bind_eq_bind, Option.bind_some]
    by_cases hp : c.powers = []
    · obtain ⟨r, h1, h2, h3⟩ := makeTable_spec true c.names c.exps s.heap hs.below hg.len
      rw [if_pos hp, h1]
      simp only [Option.bind_some]
      have hch : TextChange s.heap (s.ownedBy x) r.1 ⟨c.exps, c.names, c.plain, r.2⟩ := by
        refine made_change hs hc h2 hg.len ?_ (hg.plainOk.imp id fun e => ?_) (Or.inr h3)
        · simp only [CachingTranslator.owned, hp]
          simp [pointersOf]
        · refine (shown_congr fun a ha => ?_).trans e
          exact h2.same a (hs.below a (hg.holds a (by simp [CachingTranslator.owned, ha])))
      exact look_spec (setText_inv hs hch) (set_self_agrees hV hx ⟨hv.1, hv.2⟩) h3 hrow hc0 hname
    · rw [if_neg hp]
      exact look_spec hs hV (hg.powersOk.resolve_left hp) hrow hc0 hname
  | getPlain x var e =>
    simp only [TextRequests.step, Option.bind_eq_some_iff, Option.map_eq_some_iff] at h
    obtain ⟨v, hx, row, hrow, c0, hc0, rfl⟩ := h
    obtain ⟨c, hc, hv⟩ := hV.live x v hx
    have hg := hs.good x c hc
    rw [← hv.1] at hrow
    have hvar : var < c.names.length := by
      rw [← hg.len]
      exact (List.getElem?_eq_some_iff.mp hrow).1
    have hname := List.getElem?_eq_getElem hvar
    rw [← makeText_false c.names[var]]
    simp only [CacheState.step, hc, Option.bind_eq_bind, Option.bind_some]
    by_cases hp : c.plain = []
    · obtain ⟨r, h1, h2, h3⟩ := makeTable_spec false c.names c.exps s.heap hs.below hg.len
      rw [if_pos hp, h1]
      simp only [Option.bind_some]
      have hch : TextChange s.heap (s.ownedBy x) r.1 ⟨c.exps, c.names, r.2, c.powers⟩ := by
        refine made_change hs hc h2 hg.len ?_ (Or.inr h3) (hg.powersOk.imp id fun e => ?_)
        · simp only [CachingTranslator.owned, hp]
          show (pointersOf r.2 ++ pointersOf c.powers).Perm (([] ++ pointersOf c.powers) ++ pointersOf r.2)
          exact List.perm_append_comm
        · refine (shown_congr fun a ha => ?_).trans e
          exact h2.same a (hs.below a (hg.holds a (by simp [CachingTranslator.owned, ha])))
      exact look_spec (setText_inv hs hch) (set_self_agrees hV hx ⟨hv.1, hv.2⟩) h3 hrow hc0 hname
    · rw [if_neg hp]
      exact look_spec hs hV (hg.plainOk.resolve_left hp) hrow hc0 hname
  | destroy x =>
    simp only [TextRequests.step, Option.map_eq_some_iff] at h
    obtain ⟨v, hx, rfl⟩ := h
    obtain ⟨c, hc, hv⟩ := hV.live x v hx
    obtain ⟨h', e, n, f, g⟩ := clearTexts_spec (hs.good x c hc)
    have hobj : ∀ z p, Function.update s.tr x none z = some p → z ≠ x ∧ s.tr z = some p := by
      intro z p hz
      have e : z ≠ x := by rintro rfl; simp at hz
      rw [Function.update_of_ne e] at hz
      exact ⟨e, hz⟩
    simp only [CacheState.step, hc, e, Option.bind_eq_bind, Option.bind_some]
    refine ⟨_, rfl, ⟨?_, ?_, ?_, ?_⟩, hV.out, ?_, ?_, ?_⟩
    · intro z p hz
      obtain ⟨e, hz⟩ := hobj z p hz
      exact (hs.good z p hz).congr fun a ha => g a (hs.apart z x p c e hz hc a ha)
    · intro z w p q hzw hz hw
      exact hs.apart z w p q hzw (hobj z p hz).2 (hobj w q hw).2
    · intro a ha
      by_cases hm : a ∈ c.owned
      · exact absurd (f a hm) ha
      · simp only [g a hm] at ha
        obtain ⟨z, p, hz, hp⟩ := hs.kept a ha
        have e : z ≠ x := by
          rintro rfl
          rw [hc] at hz; cases hz; exact hm hp
        exact ⟨z, p, by simp only [Function.update_of_ne e]; exact hz, hp⟩
    · intro a ha
      simp only [n]
      by_cases hm : a ∈ c.owned
      · exact absurd (f a hm) ha
      · exact hs.below a (g a hm ▸ ha)
    · intro z hz
      by_cases e : z = x
      · subst e; simp
      · simp only [Function.update_of_ne e] at hz ⊢; exact hV.dead z hz
    · intro z W hz
      have e : z ≠ x := by rintro rfl; simp at hz
      simp only [Function.update_of_ne e] at hz ⊢
      exact hV.live z W hz
    · intro z W hz
      have e : z ≠ x := by rintro rfl; simp at hz
      simp only [Function.update_of_ne e] at hz
      exact hV.names z W hz

end Frobby
