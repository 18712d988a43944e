import Verif.WrapSpec
import Mathlib.Tactic.Common

/-!
# Lemmas on what consumers get
-/

namespace Frobby

theorem mapM_map_some {α β : Type} {f : α → Option β} : ∀ {l : List α} {r : List β}, l.mapM f = some r ↔ l.map f = r.map some
  | [], r => by cases r <;> simp
  | a :: l, r => by
    rw [List.mapM_cons]
    simp only [Option.bind_eq_bind, Option.bind_eq_some_iff, Option.pure_def, Option.some.injEq, List.map_cons]
    constructor
    · rintro ⟨b, hb, r', hr, rfl⟩
      rw [hb, mapM_map_some.1 hr]
      rfl
    · intro h
      cases r with
      | nil => cases h
      | cons b r =>
        simp only [List.map_cons, List.cons.injEq] at h
        exact ⟨b, h.1, r, mapM_map_some.2 h.2, rfl⟩

theorem mapM_range {β : Type} {f : ℕ → Option β} {n : ℕ} {r : List β} : (List.range n).mapM f = some r ↔ r.length = n ∧ ∀ v < n, f v = r[v]? := by
  rw [mapM_map_some]
  constructor
  · intro h
    have hl := congrArg List.length h
    simp only [List.length_map, List.length_range] at hl
    refine ⟨hl.symm, fun v hv => ?_⟩
    have := congrArg (fun l => l[v]?) h
    simp only [List.getElem?_map, List.getElem?_range hv, Option.map_some] at this
    rw [List.getElem?_eq_getElem (by omega)] at this ⊢
    simpa using this
  · rintro ⟨hl, h⟩
    apply List.ext_getElem (by simp [hl])
    intro i h1 h2
    simp only [List.length_map, List.length_range] at h1
    rw [List.getElem_map, List.getElem_map, List.getElem_range, h i h1, List.getElem?_eq_getElem]

theorem setPointers_spec {addr : ℕ → Option ℕ} {n : ℕ} : ∀ (k var : ℕ) (arr : List (Option ℕ)), arr.length = n → var + k = n →
    (∀ v < n, (addr v).isSome) →
    ∃ arr', setPointers addr k var arr = some arr' ∧ arr'.length = n ∧ ∀ v < n, arr'[v]? = if v < var then arr[v]? else some (addr v)
  | 0, var, arr, hl, hk, _ => ⟨arr, rfl, hl, fun v hv => by rw [if_pos (by omega)]⟩
  | k + 1, var, arr, hl, hk, ha => by
    obtain ⟨a, hva⟩ := Option.isSome_iff_exists.1 (ha var (by omega))
    obtain ⟨arr', h1, h2, h3⟩ := setPointers_spec k (var + 1) (arr.set var (some a)) (by simp [hl]) (by omega) ha
    refine ⟨arr', ?_, h2, fun v hv => ?_⟩
    · simp only [setPointers, hva]
      rw [if_pos (by omega), h1]
    · rw [h3 v hv, List.getElem?_set]
      by_cases hvv : v = var
      · subst hvv
        rw [if_pos (by omega), if_pos rfl, if_pos (by omega), if_neg (by omega), hva]
      · by_cases hlt : v < var
        · rw [if_pos (by omega), if_neg (by omega), if_pos hlt]
        · rw [if_neg (by omega), if_neg hlt]

/-- A call of a consumer that tells this, with a property of the memory. -/
def UserCall.Faithful (n : ℕ) (Q : NumberCells → Prop) (u : UserCall) (ev : Seen) : Prop :=
  u.see n = some ev ∧ match u with
    | .consume mem _ _ => Q mem
    | _ => True

/-- The property for a call of the wrapper. -/
def WrapCall.Has (Q : NumberCells → Prop) : WrapCall → Prop
  | .translated mem _ _ _ | .vector mem _ _ => Q mem
  | _ => True

/-- There is a zero. -/
abbrev ZeroAt (z : ℕ) : NumberCells → Prop := fun mem => mem z = some 0

/-- A wrapper that works. -/
structure Wrapper.Right (w : Wrapper) (n : ℕ) : Prop where
  vars : w.varCount = n
  size : w.term.length = n

theorem Wrapper.Right.setTerm_spec {w : Wrapper} {n : ℕ} (hw : w.Right n) {addr : ℕ → Option ℕ} (ha : ∀ v < n, (addr v).isSome) :
    ∃ w', w.setTerm addr = some w' ∧ w'.Right n ∧ ∀ v < n, w'.term[v]? = some (addr v) := by
  obtain ⟨arr, h1, h2, h3⟩ := setPointers_spec n 0 w.term hw.size (by omega) ha
  refine ⟨⟨w.varCount, arr⟩, ?_, ⟨hw.vars, h2⟩, fun v hv => by rw [h3 v hv, if_neg (by omega)]⟩
  unfold Wrapper.setTerm
  rw [hw.vars, h1]
  rfl

theorem see_consume {n : ℕ} {mem : NumberCells} {coef : Option ℕ} {arr : List (Option ℕ)} {addr : ℕ → Option ℕ} {es : List ℤ} {c : Option ℤ}
    (hc : c = coef.bind mem) (hs : coef.isSome → c.isSome) (hl : es.length = n) (ha : ∀ v < n, arr[v]? = some (addr v))
    (he : ∀ v < n, (addr v).bind mem = es[v]?) : (UserCall.consume mem coef arr).see n = some (.term c es) := by
  have : ((List.range n).mapM fun v => (arr[v]?.join).bind mem) = some es := by
    rw [mapM_range]
    refine ⟨hl, fun v hv => ?_⟩
    rw [ha v hv, Option.join_some]
    exact he v hv
  simp only [UserCall.see, this]
  cases coef with
  | none => rw [hc]; rfl
  | some a =>
    obtain ⟨x, hx⟩ := Option.isSome_iff_exists.1 (hs rfl)
    rw [hx] at hc
    simp only [← show some x = mem a from hc]
    rw [hx]
    rfl

theorem Wrapper.Right.call_spec {w : Wrapper} {n : ℕ} {Q : NumberCells → Prop} (hw : w.Right n) {c : WrapCall} {evs : List Seen} (h : c.Tells n evs) (hz : c.Has Q) :
    ∃ w' outs, w.call c = some (w', outs) ∧ w'.Right n ∧ List.Forall₂ (UserCall.Faithful n Q) outs evs := by
  cases c with
  | ring =>
    cases h
    exact ⟨w, [], rfl, hw, .nil⟩
  | begin =>
    cases h
    exact ⟨w, _, rfl, hw, .cons ⟨by rw [hw.vars]; rfl, trivial⟩ .nil⟩
  | done =>
    cases h
    exact ⟨w, _, rfl, hw, .cons ⟨rfl, trivial⟩ .nil⟩
  | translated mem coef table ids =>
    obtain ⟨c, es, rfl, hc, hs, hl, he⟩ := h
    have hadd : ∀ v < n, ∃ a, exponentAddress table ids v = some a ∧ mem a = es[v]? := by
      intro v hv
      obtain ⟨row, id, a, h1, h2, h3, h4⟩ := he v hv
      refine ⟨a, ?_, h4⟩
      unfold exponentAddress
      rw [h1, h2]
      exact h3
    obtain ⟨w', h1, h2, h3⟩ := hw.setTerm_spec (addr := exponentAddress table ids) fun v hv => by
      obtain ⟨a, h, -⟩ := hadd v hv
      simp [h]
    refine ⟨w', [.consume mem coef w'.term], by simp only [Wrapper.call, h1, Option.map_some], h2, .cons ⟨see_consume hc hs hl h3 fun v hv => ?_, hz⟩ .nil⟩
    obtain ⟨a, h, h'⟩ := hadd v hv
    rw [h]
    exact h'
  | vector mem coef addrs =>
    obtain ⟨c, es, rfl, hc, hs, hl, ha, he⟩ := h
    obtain ⟨w', h1, h2, h3⟩ := hw.setTerm_spec (addr := fun v => addrs[v]?) fun v hv => by
      obtain ⟨a, h, -⟩ := he v hv
      simp [h]
    refine ⟨w', [.consume mem coef w'.term], by simp only [Wrapper.call, h1, Option.map_some], h2, .cons ⟨see_consume hc hs hl h3 fun v hv => ?_, hz⟩ .nil⟩
    obtain ⟨a, h, h'⟩ := he v hv
    rw [h]
    exact h'

theorem Wrapper.run_spec {n : ℕ} {Q : NumberCells → Prop} {calls : List WrapCall} {evss : List (List Seen)} (h : List.Forall₂ (WrapCall.Tells n) calls evss)
    (hz : ∀ c ∈ calls, c.Has Q) : ∀ {w : Wrapper}, w.Right n →
    ∃ w' outs, runCalls Wrapper.call w calls = some (w', outs) ∧ List.Forall₂ (UserCall.Faithful n Q) outs evss.flatten := by
  induction h with
  | nil => exact fun {w} _ => ⟨w, [], rfl, .nil⟩
  | cons hc _ ih =>
    intro w hw
    obtain ⟨w1, o1, h1, h2, h3⟩ := hw.call_spec hc (hz _ (by simp))
    obtain ⟨w2, o2, h4, h5⟩ := ih (fun c hc => hz c (by simp [hc])) h2
    refine ⟨w2, o1 ++ o2, ?_, ?_⟩
    · simp only [runCalls, h1, h4, Option.bind_some, Option.map_some]
    · rw [List.flatten_cons]
      exact List.rel_append h3 h5

theorem mapM_of_faithful {n : ℕ} {Q : NumberCells → Prop} {outs : List UserCall} {evs : List Seen} (h : List.Forall₂ (UserCall.Faithful n Q) outs evs) :
    outs.mapM (UserCall.see n) = some evs := by
  rw [mapM_map_some]
  induction h with
  | nil => rfl
  | cons h _ ih => rw [List.map_cons, List.map_cons, h.1, ih]

theorem zeros_restored {n z var : ℕ} (a : ℕ) : ((List.replicate n (some z)).set var (some a)).set var (some z) = List.replicate n (some z) := by
  rw [List.set_set]
  apply List.ext_getElem (by simp)
  intro i h1 h2
  rw [List.getElem_set]
  split <;> simp

theorem Decoder.loop_spec {d : Decoder} {n : ℕ} {mem : NumberCells} {arr : List (Option ℕ)} {es : List ℤ} (hl : es.length = n) (hz : mem d.zero = some 0)
    (ha : ∀ v < n, (arr[v]?.join).bind mem = es[v]?) : ∀ (k var : ℕ), var + k = n →
    ∃ outs, d.loop mem none arr k var (List.replicate n (some d.zero)) = some (List.replicate n (some d.zero), outs) ∧
      outs.mapM (UserCall.see n) = some (((List.range' var k).filter fun v => es.getD v 0 ≠ 0).map fun v =>
        Seen.term none ((List.replicate n 0).set v (es.getD v 0)))
  | 0, var, _ => ⟨[], rfl, rfl⟩
  | k + 1, var, hk => by
    obtain ⟨outs, h1, h2⟩ := loop_spec hl hz ha k (var + 1) (by omega)
    have hv := ha var (by omega)
    have hlt : var < es.length := by omega
    rw [List.getElem?_eq_getElem hlt, Option.bind_eq_some_iff] at hv
    obtain ⟨a, e1, e2⟩ := hv
    have hg : es.getD var 0 = es[var] := by simp [List.getD_eq_getElem?_getD, hlt]
    have hread : ((arr[var]?.join).bind fun a => (mem a).map fun e => (a, e)) = some (a, es[var]) := by
      rw [e1, Option.bind_some, e2]
      rfl
    rw [Decoder.loop, hread]
    simp only
    rw [List.range'_succ, List.filter_cons]
    by_cases h0 : es[var] = 0
    · rw [if_neg (by simpa using h0), hg, if_neg (by simpa using h0)]
      exact ⟨outs, h1, h2⟩
    · rw [if_pos h0, if_pos (by simp; omega), zeros_restored, h1, hg, if_pos (by simpa using h0)]
      refine ⟨_, rfl, ?_⟩
      have hsee : (UserCall.consume mem none ((List.replicate n (some d.zero)).set var (some a))).see n =
          some (.term none ((List.replicate n 0).set var es[var])) := by
        refine see_consume (addr := fun v => if v = var then some a else some d.zero) rfl (fun h => by cases h) (by simp) (fun v hv => ?_) fun v hv => ?_
        · rw [List.getElem?_set]
          by_cases hvv : v = var
          · subst hvv
            simp [hv]
          · rw [if_neg (by omega), if_neg hvv]
            simp [hv]
        · rw [List.getElem?_set]
          by_cases hvv : v = var
          · subst hvv
            simp [hv, e2]
          · rw [if_neg hvv, if_neg (by omega)]
            simp [hv, hz]
      rw [mapM_map_some] at h2 ⊢
      rw [List.map_cons, List.map_cons, List.map_cons, hsee, h2, hg]

/-- The decoder between calls inside of an ideal. -/
structure Decoder.Right (d : Decoder) (n z : ℕ) : Prop where
  vars : d.varCount = n
  isZero : d.zero = z
  zeros : d.term = List.replicate n (some z)

theorem Decoder.begin_spec {d : Decoder} {n z : ℕ} (hd : d.zero = z) : ∃ d', d.call (.begin n) = some (d', []) ∧ d'.Right n z := by
  have hlen : (d.term.take n ++ List.replicate (n - d.term.length) none).length = n := by
    rw [List.length_append, List.length_take, List.length_replicate]
    omega
  obtain ⟨arr, h1, h2, h3⟩ := setPointers_spec (addr := fun _ => some d.zero) n 0 _ hlen (by omega) fun _ _ => rfl
  refine ⟨⟨n, d.zero, arr⟩, ?_, rfl, hd, ?_⟩
  · simp only [Decoder.call, h1, Option.map_some]
  · apply List.ext_getElem?
    intro i
    by_cases hi : i < n
    · simp only [h3 i hi, List.getElem?_replicate]
      rw [if_neg (by omega), if_pos hi, hd]
    · rw [List.getElem?_eq_none (by simp only; omega), List.getElem?_eq_none (by simp; omega)]

theorem Decoder.Right.consume_spec {d : Decoder} {n z : ℕ} (hd : d.Right n z) {u : UserCall} {es : List ℤ} (h : u.Faithful n (ZeroAt z) (.term none es)) :
    ∃ outs, d.call u = some (d, outs) ∧ outs.mapM (UserCall.see n) = some (seenIdeal n (purePowers n es)) := by
  obtain ⟨h1, h2⟩ := h
  cases u with
  | begin m => simp [UserCall.see] at h1
  | done => simp [UserCall.see] at h1
  | consume mem coef arr =>
    obtain ⟨e1, e2, e3⟩ := hd
    subst e2
    simp only [UserCall.see] at h1
    split at h1
    · cases h1
    · rename_i es' hes
      simp only [Option.some.injEq, Seen.term.injEq, true_and] at h1
      subst h1
      obtain ⟨hl, ha⟩ := mapM_range.1 hes
      obtain ⟨outs, g1, g2⟩ := Decoder.loop_spec hl h2 ha n 0 (by omega)
      refine ⟨.begin n :: outs ++ [.done], ?_, ?_⟩
      · simp only [Decoder.call, e1, e3, g1, Option.map_some]
        cases d
        simp_all
      · rw [mapM_map_some] at g2 ⊢
        rw [List.map_append, List.map_cons, g2, seenIdeal, purePowers, List.map_append, List.map_cons, List.range_eq_range']
        simp [UserCall.see]
    · simp only [Option.map_eq_some_iff] at h1
      obtain ⟨c, -, hc⟩ := h1
      cases hc

theorem runCalls_append {σ α β : Type} {f : σ → α → Option (σ × List β)} : ∀ {as bs : List α} {s s' : σ} {o : List β},
    runCalls f s as = some (s', o) → runCalls f s (as ++ bs) = (runCalls f s' bs).map fun q => (q.1, o ++ q.2)
  | [], bs, s, s', o, h => by
    cases h
    simp
  | a :: as, bs, s, s', o, h => by
    simp only [runCalls, Option.bind_eq_some_iff, Option.map_eq_some_iff] at h
    obtain ⟨r, h1, q, h2, h3⟩ := h
    cases h3
    simp only [List.cons_append, runCalls, h1, Option.bind_some, runCalls_append h2, Option.map_map]
    congr 1
    funext q'
    simp

theorem Decoder.Right.gens_spec {n z : ℕ} {d : Decoder} (hd : d.Right n z) : ∀ {us : List UserCall} {gens : List (List ℤ)},
    List.Forall₂ (UserCall.Faithful n (ZeroAt z)) us (gens.map (.term none)) →
    ∃ outs, runCalls Decoder.call d us = some (d, outs) ∧ outs.mapM (UserCall.see n) = some (gens.flatMap fun es => seenIdeal n (purePowers n es))
  | [], [], _ => ⟨[], rfl, rfl⟩
  | u :: us, es :: gens, h => by
    cases h with
    | cons h1 h2 =>
      obtain ⟨o1, g1, g2⟩ := hd.consume_spec h1
      obtain ⟨o2, g3, g4⟩ := hd.gens_spec h2
      refine ⟨o1 ++ o2, by simp only [runCalls, g1, g3, Option.bind_some, Option.map_some], ?_⟩
      rw [mapM_map_some] at g2 g4 ⊢
      rw [List.map_append, g2, g4, List.flatMap_cons, List.map_append]

theorem Decoder.run_spec {n z : ℕ} : ∀ {ideals : List (List (List ℤ))} {us : List UserCall} {d : Decoder}, d.zero = z →
    List.Forall₂ (UserCall.Faithful n (ZeroAt z)) us (ideals.flatMap (seenIdeal n)) →
    ∃ d' outs, runCalls Decoder.call d us = some (d', outs) ∧
      outs.mapM (UserCall.see n) = some (ideals.flatMap fun gens => gens.flatMap fun es => seenIdeal n (purePowers n es))
  | [], us, d, _, h => by
    cases h
    exact ⟨d, [], rfl, rfl⟩
  | gens :: ideals, us, d, hd, h => by
    rw [List.flatMap_cons, seenIdeal, List.append_assoc, List.cons_append] at h
    cases h with
    | cons h0 h =>
      rename_i u us
      obtain ⟨us1, us2, e, h1, h2⟩ : ∃ us1 us2, us = us1 ++ us2 ∧ List.Forall₂ (UserCall.Faithful n (ZeroAt z)) us1 (gens.map (.term none)) ∧
          List.Forall₂ (UserCall.Faithful n (ZeroAt z)) us2 ([.done] ++ ideals.flatMap (seenIdeal n)) :=
        ⟨_, _, (List.take_append_drop (gens.map (Seen.term none)).length us).symm, List.forall₂_take_append _ _ _ h, List.forall₂_drop_append _ _ _ h⟩
      subst e
      cases h2 with
      | cons h3 h4 =>
        rename_i v us2
        have hu : u = .begin n := by
          obtain ⟨g, -⟩ := h0
          cases u with
          | begin m => simpa [UserCall.see] using g
          | done => simp [UserCall.see] at g
          | consume mem coef arr =>
            simp only [UserCall.see] at g
            split at g
            · cases g
            · cases g
            · simp at g
        have hv : v = .done := by
          obtain ⟨g, -⟩ := h3
          cases v with
          | begin m => simp [UserCall.see] at g
          | done => rfl
          | consume mem coef arr =>
            simp only [UserCall.see] at g
            split at g
            · cases g
            · cases g
            · simp at g
        subst hu hv
        obtain ⟨d1, g1, g2⟩ := Decoder.begin_spec (n := n) hd
        obtain ⟨o1, g3, g4⟩ := g2.gens_spec h1
        obtain ⟨d3, o2, g5, g6⟩ := Decoder.run_spec (d := ⟨d1.varCount, d1.zero, []⟩) g2.isZero h4
        refine ⟨d3, o1 ++ o2, ?_, ?_⟩
        · have hdone : d1.call .done = some (⟨d1.varCount, d1.zero, []⟩, []) := rfl
          simp only [runCalls, g1, Option.bind_some, runCalls_append g3, hdone, g5, Option.map_some, List.nil_append]
        · rw [mapM_map_some] at g4 g6 ⊢
          rw [List.map_append, g4, g6, List.flatMap_cons, List.map_append]

end Frobby
