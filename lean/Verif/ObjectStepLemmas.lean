import Verif.ObjectLemmas
import Mathlib.Data.List.Nodup

/-!
# Lemmas: each step on ideals with pointers is the step on values
-/

namespace Frobby

/-- The invariant of states with ideals. -/
structure ObjectState.Inv (s : ObjectState) : Prop where
  good : ∀ x o, s.obj x = some o → o.Good s.mem
  apart : ∀ x y o o', x ≠ y → s.obj x = some o → s.obj y = some o' → ∀ a ∈ o.owned, a ∉ o'.owned
  kept : ∀ a, s.mem.cell a ≠ none → ∃ x o, s.obj x = some o ∧ a ∈ o.owned
  below : s.mem.Below

/-- A state shows values. -/
structure ObjectState.Agrees (s : ObjectState) (V : IdealValues) : Prop where
  dead : ∀ x, V x = none → s.obj x = none
  live : ∀ x I, V x = some I → ∃ o, s.obj x = some o ∧ o.Shows s.mem I

/-- What the object with this name owns. -/
def ObjectState.ownedBy (s : ObjectState) (x : ℕ) : List ℕ := ((s.obj x).map IdealObject.owned).getD []

theorem ownedBy_some {s : ObjectState} {x o} (h : s.obj x = some o) : s.ownedBy x = o.owned := by simp [ObjectState.ownedBy, h]
theorem ownedBy_none {s : ObjectState} {x} (h : s.obj x = none) : s.ownedBy x = [] := by simp [ObjectState.ownedBy, h]

theorem shows_congr {m m' : VectorMemory} {o : IdealObject} {I} (h : o.Shows m I) (hc : ∀ a ∈ o.terms, m'.cell a = m.cell a) : o.Shows m' I :=
  ⟨h.count, (map_cell_congr hc).trans h.vectors⟩

theorem notOwned {s : ObjectState} (hs : s.Inv) {x y o a} (hxy : y ≠ x) (ho : s.obj y = some o) (ha : a ∈ o.owned) : a ∉ s.ownedBy x := by
  cases h : s.obj x with
  | none => rw [ownedBy_none h]; simp
  | some o' => rw [ownedBy_some h]; exact hs.apart y x o o' hxy ho h a ha

/-- What is changed for `x` leaves the other objects as they are. -/
theorem Changes.other {s : ObjectState} (hs : s.Inv) {x m o} (hc : Changes s.mem (s.ownedBy x) m o) {y o'} (hxy : y ≠ x) (ho : s.obj y = some o') :
    ∀ a ∈ o'.owned, a ∉ o.owned ∧ m.cell a = s.mem.cell a := by
  intro a ha
  have h1 := notOwned hs hxy ho ha
  have h2 : a ∉ o.owned := by
    intro h
    rcases hc.fresh a h with h | h
    · exact h1 h
    · obtain ⟨v, hv, _⟩ := (hs.good y o' ho).holds a ha
      rw [h] at hv; cases hv
  exact ⟨h2, hc.frame a h1 h2⟩

theorem set_inv {s : ObjectState} (hs : s.Inv) {x m o} (hc : Changes s.mem (s.ownedBy x) m o) : (s.set x (m, o)).Inv := by
  have hobj : ∀ y o', (s.set x (m, o)).obj y = some o' → (y = x ∧ o' = o) ∨ (y ≠ x ∧ s.obj y = some o') := by
    intro y o' h
    simp only [ObjectState.set] at h
    by_cases e : y = x
    · subst e; simp at h; exact Or.inl ⟨rfl, h.symm⟩
    · rw [Function.update_of_ne e] at h; exact Or.inr ⟨e, h⟩
  refine ⟨?_, ?_, ?_, hc.below⟩
  · intro y o' h
    rcases hobj y o' h with ⟨rfl, rfl⟩ | ⟨e, h⟩
    · exact hc.good
    · have hg := hs.good y o' h
      refine ⟨hg.sub, hg.nodup, hg.ownedNodup, fun a ha => ?_⟩
      obtain ⟨v, hv, hl⟩ := hg.holds a ha
      exact ⟨v, (hc.other hs e h a ha).2.trans hv, hl⟩
  · intro y z o1 o2 hyz h1 h2 a ha
    rcases hobj y o1 h1 with ⟨ey, eo⟩ | ⟨e1, h1'⟩ <;> rcases hobj z o2 h2 with ⟨ez, eo'⟩ | ⟨e2, h2'⟩
    · exact absurd (ey.trans ez.symm) hyz
    · intro ha'
      exact (hc.other hs e2 h2' a ha').1 (eo ▸ ha)
    · rw [eo']; exact (hc.other hs e1 h1' a ha).1
    · exact hs.apart y z o1 o2 hyz h1' h2' a ha
  · intro a ha
    by_cases h : a ∈ o.owned
    · exact ⟨x, o, by simp [ObjectState.set], h⟩
    · by_cases h' : a ∈ s.ownedBy x
      · exact absurd (hc.gone a h' h) ha
      · simp only [ObjectState.set] at ha
        rw [hc.frame a h' h] at ha
        obtain ⟨y, o', h1, h2⟩ := hs.kept a ha
        have : y ≠ x := by
          rintro rfl
          rw [ownedBy_some h1] at h'
          exact h' h2
        exact ⟨y, o', by simp only [ObjectState.set, Function.update_of_ne this]; exact h1, h2⟩

theorem set_agrees {s : ObjectState} {V : IdealValues} (hs : s.Inv) (hV : s.Agrees V) {x m o I} (hc : Changes s.mem (s.ownedBy x) m o)
    (hI : o.Shows m I) : (s.set x (m, o)).Agrees (Function.update V x (some I)) := by
  constructor
  · intro y h
    have e : y ≠ x := by rintro rfl; simp at h
    rw [Function.update_of_ne e] at h
    simp only [ObjectState.set, Function.update_of_ne e]
    exact hV.dead y h
  · intro y J h
    by_cases e : y = x
    · subst e
      simp only [Function.update_self, Option.some.injEq] at h
      exact ⟨o, by simp [ObjectState.set], h ▸ hI⟩
    · rw [Function.update_of_ne e] at h
      obtain ⟨o', h1, h2⟩ := hV.live y J h
      refine ⟨o', by simp only [ObjectState.set, Function.update_of_ne e]; exact h1, ?_⟩
      exact shows_congr h2 fun a ha => (hc.other hs e h1 a ((hs.good y o' h1).sub a ha)).2

/-- What a step has to meet. -/
def Stepped (r : Option ObjectState) (V : IdealValues) : Prop := ∃ s, r = some s ∧ s.Inv ∧ s.Agrees V

theorem stepped_set {s : ObjectState} {V : IdealValues} (hs : s.Inv) (hV : s.Agrees V) {x I} {r : VectorMemory × IdealObject}
    (hc : Changes s.mem (s.ownedBy x) r.1 r.2) (hI : r.2.Shows r.1 I) : Stepped (some (s.set x r)) (Function.update V x (some I)) :=
  ⟨_, rfl, set_inv hs hc, set_agrees hs hV hc hI⟩

theorem shown_lengths {s : ObjectState} (hs : s.Inv) {x o I} (ho : s.obj x = some o) (hI : o.Shows s.mem I) : ∀ v ∈ I.2, v.length = I.1 := by
  intro v hv
  have h1 : some v ∈ o.terms.map s.mem.cell := by rw [hI.vectors]; exact List.mem_map_of_mem hv
  obtain ⟨a, ha, he⟩ := List.mem_map.mp h1
  obtain ⟨w, hw, hl⟩ := (hs.good x o ho).holds a ((hs.good x o ho).sub a ha)
  rw [he] at hw
  cases hw
  rw [hl, hI.count]

theorem operand_spec {s : ObjectState} {V : IdealValues} (hs : s.Inv) (hV : s.Agrees V) {b : Operand} {n : ℕ} {v : List ℕ}
    (h : V.operand n b = some v) : s.readNow b n = some v ∧ v.length = n ∧ ∃ f, s.read b = some f ∧
      ∀ x o, b.Outside x → s.obj x = some o → ∀ m', (∀ a, a ∉ o.terms → m'.cell a = s.mem.cell a) → f m' = some v := by
  cases b with
  | vec w =>
    simp only [IdealValues.operand] at h
    split at h
    · cases h
      refine ⟨?_, by assumption, fun _ => some v, rfl, fun _ _ _ _ _ _ => rfl⟩
      simp only [ObjectState.readNow, ObjectState.read, Option.bind_eq_bind, Option.bind_some]
      rw [if_neg (by omega)]
    · cases h
  | gen y i =>
    simp only [IdealValues.operand, Option.bind_eq_bind] at h
    cases hI : V y with
    | none => rw [hI] at h; cases h
    | some I =>
      rw [hI] at h
      simp only [Option.bind_some] at h
      split at h
      case isFalse => cases h
      case isTrue hn =>
      obtain ⟨o, ho, hsh⟩ := hV.live y I hI
      have hi : (o.terms.map s.mem.cell)[i]? = some (some v) := by
        rw [hsh.vectors, List.getElem?_map, h]; rfl
      rw [List.getElem?_map, Option.map_eq_some_iff] at hi
      obtain ⟨a, ha, hav⟩ := hi
      have hv : v.length = n := hn ▸ shown_lengths hs ho hsh v (List.mem_of_getElem? h)
      refine ⟨?_, hv, fun m => m.cell a, ?_, ?_⟩
      · simp only [ObjectState.readNow, ObjectState.read, Option.bind_eq_bind, ho, Option.bind_some, ha, hav]
        rw [if_neg (by omega)]
      · simp only [ObjectState.read, Option.bind_eq_bind, ho, Option.bind_some, ha]
      · intro x o' hout ho' m' hm'
        rw [← hav]
        refine hm' a fun h' => ?_
        exact hs.apart y x o o' hout ho ho' a ((hs.good y o ho).sub a (List.mem_of_getElem? ha)) ((hs.good x o' ho').sub a h')

/-- The loops that change vectors in place. -/
theorem change_stepped {s : ObjectState} {V : IdealValues} (hs : s.Inv) (hV : s.Agrees V) {x o n L} (ho : s.obj x = some o)
    (hI : o.Shows s.mem (n, L)) {f : VectorMemory → List ℕ → Option (List ℕ)} (g : List ℕ → List ℕ)
    (hf : ∀ m', (∀ a, a ∉ o.terms → m'.cell a = s.mem.cell a) → ∀ v, v.length = n → f m' v = some (g v))
    (hg : ∀ v, v.length = n → (g v).length = n) : Stepped (s.change x f) (Function.update V x (some (n, L.map g))) := by
  have good := hs.good x o ho
  have hlen := shown_lengths hs ho hI
  obtain ⟨m', h1, h2, h3, h4⟩ := changeLoop_spec f g s.mem o.terms n hf o.terms L s.mem good.nodup (fun _ h => h) (fun _ _ => rfl) hI.vectors hlen
  have hvec : ∀ a ∈ o.terms, ∃ v, m'.cell a = some v ∧ v.length = n := by
    intro a ha
    have : m'.cell a ∈ (L.map g).map some := h4 ▸ List.mem_map_of_mem ha
    obtain ⟨w, hw, he⟩ := List.mem_map.mp this
    obtain ⟨u, hu, rfl⟩ := List.mem_map.mp hw
    exact ⟨_, he.symm, hg u (hlen u hu)⟩
  have hc : Changes s.mem (s.ownedBy x) m' o := by
    rw [ownedBy_some ho]
    refine ⟨⟨good.sub, good.nodup, good.ownedNodup, fun a ha => ?_⟩, ?_, fun a h => Or.inl h, fun a h h' => absurd h h', ?_⟩
    · by_cases h : a ∈ o.terms
      · obtain ⟨v, hv, hl⟩ := hvec a h
        exact ⟨v, hv, hl.trans hI.count.symm⟩
      · rw [h3 a h]; exact good.holds a ha
    · intro a ha _
      exact h3 a fun h => ha (good.sub a h)
    · intro a ha
      rw [h2]
      by_cases h : a ∈ o.terms
      · obtain ⟨v, hv, _⟩ := good.holds a (good.sub a h)
        exact hs.below a (by rw [hv]; simp)
      · exact hs.below a (h3 a h ▸ ha)
  have := stepped_set hs hV (r := (m', o)) (I := (n, L.map g)) hc ⟨hI.count, h4⟩
  simpa only [ObjectState.change, ho, Option.bind_eq_bind, Option.bind_some, h1] using this

/-- The loops that keep pointers. -/
theorem keep_stepped {s : ObjectState} {V : IdealValues} (hs : s.Inv) (hV : s.Agrees V) {x o n L} (ho : s.obj x = some o)
    (hI : o.Shows s.mem (n, L)) (p : List ℕ → Bool) : Stepped (s.keep x p) (Function.update V x (some (n, L.filter p))) := by
  obtain ⟨o', h1, h2, h3⟩ := keep_spec p (hs.good x o ho) hs.below hI
  rw [← ownedBy_some ho] at h2
  have := stepped_set hs hV (r := (s.mem, o')) h2 h3
  simpa only [ObjectState.keep, ho, Option.bind_eq_bind, Option.bind_some, h1] using this

/-- Inserting a vector. -/
theorem insertVector_stepped {s : ObjectState} {V : IdealValues} (hs : s.Inv) (hV : s.Agrees V) {x o n L v} (ho : s.obj x = some o)
    (hI : o.Shows s.mem (n, L)) (hv : v.length = n) : Stepped (s.insertVector x v) (Function.update V x (some (n, L ++ [v]))) := by
  have hv' : v.length = o.varCount := hv.trans hI.count.symm
  have h2 := push_changes (hs.good x o ho) hs.below hv'
  rw [← ownedBy_some ho] at h2
  have := stepped_set hs hV h2 (push_shows hs.below hI)
  have hi : o.insert s.mem v = some (o.push s.mem v) := by
    rw [IdealObject.insert, if_neg (by omega), ← hv', List.take_length]
  simpa only [ObjectState.insertVector, ho, Option.bind_eq_bind, Option.bind_some, hi] using this

theorem insertPower_stepped {s : ObjectState} {V : IdealValues} (hs : s.Inv) (hV : s.Agrees V) {x o n L var e} (ho : s.obj x = some o)
    (hI : o.Shows s.mem (n, L)) (hv : var < n) :
    Stepped (s.insertPower x var e) (Function.update V x (some (n, L ++ [(List.replicate n 0).set var e]))) := by
  have hc : o.varCount = n := hI.count
  have h2 := push_changes (v := (List.replicate n 0).set var e) (hs.good x o ho) hs.below (by simp [hc])
  rw [← ownedBy_some ho] at h2
  have := stepped_set hs hV h2 (push_shows hs.below hI)
  simpa only [ObjectState.insertPower, ho, Option.bind_eq_bind, Option.bind_some, IdealObject.insertPower, hc, hv, if_true] using this

/-- Inserting vectors of an ideal. -/
theorem insertLoop_stepped {s : ObjectState} {V : IdealValues} (hs : s.Inv) (hV : s.Agrees V) {x y o o' n L K} (ho : s.obj x = some o)
    (hI : o.Shows s.mem (n, L)) (ho' : s.obj y = some o') (hJ : o'.Shows s.mem (n, K)) (p : List ℕ → Bool) :
    ∃ r, o.insertLoop p o'.terms s.mem = some r ∧ Stepped (some (s.set x r)) (Function.update V x (some (n, L ++ K.filter p))) := by
  obtain ⟨r, h1, h2, h3⟩ := insertLoop_spec p o'.terms K s.mem o n L (hs.good x o ho) hs.below hI hJ.vectors (shown_lengths hs ho' hJ)
  rw [← ownedBy_some ho] at h2
  exact ⟨r, h1, stepped_set hs hV h2 h3⟩

theorem insertSome_stepped {s : ObjectState} {V : IdealValues} (hs : s.Inv) (hV : s.Agrees V) {x y o o' n L K} (hxy : x ≠ y) (ho : s.obj x = some o)
    (hI : o.Shows s.mem (n, L)) (ho' : s.obj y = some o') (hJ : o'.Shows s.mem (n, K)) (p : List ℕ → Bool) :
    Stepped (s.insertSome x y p) (Function.update V x (some (n, L ++ K.filter p))) := by
  obtain ⟨r, h1, h2⟩ := insertLoop_stepped hs hV ho hI ho' hJ p
  simpa only [ObjectState.insertSome, ho, ho', Option.bind_eq_bind, Option.bind_some, h1, hxy, false_and, if_false] using h2

theorem apply_some {V V' : IdealValues} {x f} (h : V.apply x f = some V') :
    ∃ n L K, V x = some (n, L) ∧ f n L = some K ∧ V' = Function.update V x (some (n, K)) := by
  simp only [IdealValues.apply, Option.bind_eq_bind, Option.bind_eq_some_iff] at h
  obtain ⟨⟨n, L⟩, h1, K, h2, h3⟩ := h
  cases h3
  exact ⟨n, L, K, h1, h2, rfl⟩

theorem good_empty (m : VectorMemory) (n : ℕ) : IdealObject.Good m ⟨n, [], []⟩ :=
  ⟨fun _ h => h, List.nodup_nil, List.nodup_nil, fun a h => by cases h⟩

theorem filter_all (K : List (List ℕ)) : K.filter (fun _ => true) = K := List.filter_eq_self.mpr fun _ _ => rfl

/-- Other pointers, all of them owned. -/
theorem pointers_stepped {s : ObjectState} {V : IdealValues} (hs : s.Inv) (hV : s.Agrees V) {x o n L} {ts : List ℕ} (ho : s.obj x = some o)
    (hn : o.varCount = n) (hsub : ∀ a ∈ ts, a ∈ o.terms) (hd : ts.Nodup) (hL : ts.map s.mem.cell = L.map some) :
    Stepped (some (s.set x (s.mem, ⟨o.varCount, ts, o.owned⟩))) (Function.update V x (some (n, L))) := by
  have hg := hs.good x o ho
  refine stepped_set hs hV ?_ ⟨hn, hL⟩
  rw [ownedBy_some ho]
  exact ⟨⟨fun a ha => hg.sub a (hsub a ha), hd, hg.ownedNodup, hg.holds⟩, fun _ _ _ => rfl, fun _ h => Or.inl h, fun _ h h' => absurd h h', hs.below⟩

theorem removeAt_pointers {α : Type} (A : List α) (z a : α) (i : ℕ) :
    ((((A ++ [z]).set i z).set ((A ++ [z]).length - 1) a).dropLast) = A.set i z := by
  have h : ((A ++ [z]).set i z) = A.set i z ++ [z] := by
    rw [List.set_append]
    split
    · rfl
    · rename_i h
      rw [List.set_eq_of_length_le (by omega : A.length ≤ i)]
      cases hk : i - A.length <;> rfl
  rw [h, List.set_append, if_neg (by simp)]
  simp

theorem removeAt_values {α : Type} (B : List α) (w : α) (i : ℕ) (hi : i < (B ++ [w]).length) (hne : B ++ [w] ≠ []) :
    (if i + 1 = (B ++ [w]).length then (B ++ [w]).take i else (B ++ [w]).take i ++ [(B ++ [w]).getLast hne] ++ ((B ++ [w]).drop (i + 1)).dropLast) =
      B.set i w := by
  simp only [List.length_append, List.length_singleton] at hi ⊢
  by_cases h : i + 1 = B.length + 1
  · have : i = B.length := by omega
    subst this
    rw [if_pos rfl, List.set_eq_of_length_le (Nat.le_refl _), List.take_left]
  · have hl : i < B.length := by omega
    rw [if_neg h, List.take_append_of_le_length (by omega), List.drop_append_of_le_length (by omega), List.getLast_concat, List.dropLast_concat,
      List.set_eq_take_append_cons_drop, if_pos hl]
    simp

theorem pick_some {α : Type} (l : List α) (d : α) : ∀ is : List ℕ, (∀ i ∈ is, i < l.length) → is.mapM (fun i => l[i]?) = some (is.map fun i => l.getD i d)
  | [], _ => rfl
  | i :: is, h => by
    have hi : i < l.length := h i (by simp)
    rw [List.mapM_cons, pick_some l d is fun j hj => h j (by simp [hj]), List.getElem?_eq_getElem hi]
    simp [List.getD_eq_getElem?_getD, hi]

/-- The laws of each step. -/
theorem step_stepped {s : ObjectState} {V V' : IdealValues} (hs : s.Inv) (hV : s.Agrees V) (op : ObjectOp) (hsafe : op.Safe)
    (h : V.step op = some V') : Stepped (s.step op) V' := by
  cases op with
  | create x n =>
    simp only [IdealValues.step] at h
    split at h
    case isFalse => cases h
    case isTrue hx =>
    cases h
    have hx' := hV.dead x hx
    have := stepped_set hs hV (x := x) (r := (s.mem, ⟨n, [], []⟩)) (I := (n, []))
      (by rw [ownedBy_none hx']; exact .refl (good_empty _ n) hs.below) ⟨rfl, rfl⟩
    simpa only [ObjectState.step, hx'] using this
  | copy x y =>
    simp only [IdealValues.step] at h
    split at h
    case isFalse => cases h
    case isTrue hx =>
    rw [Option.map_eq_some_iff] at h
    obtain ⟨⟨n, K⟩, hy, rfl⟩ := h
    have hx' := hV.dead x hx
    obtain ⟨o, ho, hJ⟩ := hV.live y _ hy
    obtain ⟨r, h1, h2, h3⟩ := insertLoop_spec (fun _ => true) o.terms K s.mem ⟨o.varCount, [], []⟩ n [] (good_empty _ _)
      hs.below ⟨hJ.count, rfl⟩ hJ.vectors (shown_lengths hs ho hJ)
    have := stepped_set hs hV (x := x) (r := r) (I := (n, K)) (by rw [ownedBy_none hx']; exact h2) (by simpa only [List.nil_append, filter_all] using h3)
    simpa only [ObjectState.step, hx', ho, Option.bind_eq_bind, Option.bind_some, h1] using this
  | assign x y =>
    simp only [IdealValues.step, Option.bind_eq_some_iff, Option.map_eq_some_iff] at h
    obtain ⟨I, hx, ⟨n, K⟩, hy, rfl⟩ := h
    obtain ⟨o, ho, hI⟩ := hV.live x _ hx
    obtain ⟨o', ho', hJ⟩ := hV.live y _ hy
    obtain ⟨m, h1, h2, _⟩ := clearObject_spec o'.varCount (hs.good x o ho) hs.below
    rw [← ownedBy_some ho] at h2
    have hs' := set_inv hs h2
    have hn : o'.varCount = n := hJ.count
    have hV' := set_agrees hs hV (I := (n, [])) h2 ⟨hn, rfl⟩
    have hyx : y ≠ x := fun e => hsafe e.symm
    have hoy : (s.set x (m, ⟨o'.varCount, [], []⟩)).obj y = some o' := by
      simp only [ObjectState.set, Function.update_of_ne hyx]; exact ho'
    obtain ⟨r, h3, h4⟩ := insertLoop_stepped hs' hV' (x := x) (o := ⟨o'.varCount, [], []⟩) (L := []) (by simp [ObjectState.set]) ⟨hn, rfl⟩ hoy
      (shows_congr hJ fun a ha => (h2.other hs hyx ho' a ((hs.good y o' ho').sub a ha)).2) (fun _ => true)
    simp only [Function.update_idem, List.nil_append, filter_all] at h4
    simp only [ObjectState.step, ho, ho', h1, Option.bind_eq_bind, Option.bind_some, hoy]
    rw [h3]
    exact h4
  | swap x y =>
    simp only [IdealValues.step, Option.bind_eq_some_iff, Option.map_eq_some_iff] at h
    obtain ⟨I, hx, J, hy, rfl⟩ := h
    obtain ⟨o, ho, hI⟩ := hV.live x _ hx
    obtain ⟨o', ho', hJ⟩ := hV.live y _ hy
    refine ⟨⟨Function.update (Function.update s.obj x (some o')) y (some o), s.mem⟩,
      by simp only [ObjectState.step, ho, ho', Option.bind_eq_bind, Option.bind_some], ?_, ?_⟩
    · -- the objects are the old ones under other names
      let π : ℕ → ℕ := fun z => if z = y then x else if z = x then y else z
      have hπ : ∀ z, Function.update (Function.update s.obj x (some o')) y (some o) z = s.obj (π z) := by
        intro z
        simp only [Function.update_apply, π]
        by_cases h1 : z = y
        · simp [h1, ho]
        · by_cases h2 : z = x
          · subst h2; simp [h1, ho']
          · simp [h1, h2]
      have hinv : ∀ z, π (π z) = z := by
        intro z
        simp only [π]
        by_cases h1 : z = y
        · by_cases h2 : x = y <;> simp [h1, h2]
        · by_cases h2 : z = x
          · simp [h2]
          · simp [h1, h2]
      refine ⟨?_, ?_, ?_, hs.below⟩
      · intro z p hz
        exact hs.good _ p ((hπ z).symm.trans hz)
      · intro z w p q hzw hz hw
        simp only [hπ] at hz hw
        exact hs.apart _ _ p q (fun e => hzw (by rw [← hinv z, e, hinv w])) hz hw
      · intro a ha
        obtain ⟨z, p, hz, hp⟩ := hs.kept a ha
        exact ⟨π z, p, by simp only [hπ, hinv]; exact hz, hp⟩
    · constructor
      · intro z hz
        simp only [Function.update_apply] at hz ⊢
        by_cases h1 : z = y
        · simp [h1] at hz
        · by_cases h2 : z = x
          · subst h2; simp [h1] at hz
          · simp only [h1, h2, if_false] at hz ⊢; exact hV.dead z hz
      · intro z W hz
        simp only [Function.update_apply] at hz ⊢
        by_cases h1 : z = y
        · simp only [h1, if_true, Option.some.injEq] at hz ⊢
          exact ⟨o, rfl, hz ▸ hI⟩
        · by_cases h2 : z = x
          · simp only [h1, if_false] at hz ⊢
            rw [if_pos h2] at hz ⊢
            cases hz
            exact ⟨o', rfl, hJ⟩
          · simp only [h1, h2, if_false] at hz ⊢
            exact hV.live z W hz
  | destroy x =>
    simp only [IdealValues.step, Option.map_eq_some_iff] at h
    obtain ⟨I, hx, rfl⟩ := h
    obtain ⟨o, ho, hI⟩ := hV.live x _ hx
    have hg := hs.good x o ho
    obtain ⟨m', h1, h2, h3, h4⟩ := freeLoop_spec o.owned s.mem hg.ownedNodup (fun a ha => by
      obtain ⟨v, hv, _⟩ := hg.holds a ha
      rw [hv]; simp)
    have hobj : ∀ z p, Function.update s.obj x none z = some p → z ≠ x ∧ s.obj z = some p := by
      intro z p hz
      have e : z ≠ x := by rintro rfl; simp at hz
      rw [Function.update_of_ne e] at hz
      exact ⟨e, hz⟩
    have hsame : ∀ z p, z ≠ x → s.obj z = some p → ∀ a ∈ p.owned, m'.cell a = s.mem.cell a :=
      fun z p e hz a ha => h4 a (hs.apart z x p o e hz ho a ha)
    refine ⟨⟨Function.update s.obj x none, m'⟩, by simp only [ObjectState.step, ho, h1, Option.bind_eq_bind, Option.bind_some], ⟨?_, ?_, ?_, free_below hs.below h2 h3 h4⟩, ?_, ?_⟩
    · intro z p hz
      obtain ⟨e, hz⟩ := hobj z p hz
      have hp := hs.good z p hz
      refine ⟨hp.sub, hp.nodup, hp.ownedNodup, fun a ha => ?_⟩
      simp only [hsame z p e hz a ha]
      exact hp.holds a ha
    · intro z w p q hzw hz hw
      exact hs.apart z w p q hzw (hobj z p hz).2 (hobj w q hw).2
    · intro a ha
      by_cases hm : a ∈ o.owned
      · exact absurd (h3 a hm) ha
      · simp only [h4 a hm] at ha
        obtain ⟨z, p, hz, hp⟩ := hs.kept a ha
        have e : z ≠ x := by
          rintro rfl
          rw [ho] at hz; cases hz; exact hm hp
        exact ⟨z, p, by simp only [Function.update_of_ne e]; exact hz, hp⟩
    · intro z hz
      by_cases e : z = x
      · subst e; simp
      · simp only [Function.update_of_ne e] at hz ⊢; exact hV.dead z hz
    · intro z W hz
      have e : z ≠ x := by rintro rfl; simp at hz
      simp only [Function.update_of_ne e] at hz ⊢
      obtain ⟨p, hp, hW⟩ := hV.live z W hz
      exact ⟨p, hp, shows_congr hW fun a ha => hsame z p e hp a ((hs.good z p hp).sub a ha)⟩
  | clear x n =>
    simp only [IdealValues.step, Option.map_eq_some_iff] at h
    obtain ⟨I, hx, rfl⟩ := h
    obtain ⟨o, ho, hI⟩ := hV.live x _ hx
    obtain ⟨m, h1, h2, _⟩ := clearObject_spec n (hs.good x o ho) hs.below
    rw [← ownedBy_some ho] at h2
    have := stepped_set hs hV (r := (m, ⟨n, [], []⟩)) (I := (n, [])) h2 ⟨rfl, rfl⟩
    simpa only [ObjectState.step, ho, h1, Option.bind_eq_bind, Option.bind_some] using this
  | insert x b =>
    simp only [IdealValues.step] at h
    obtain ⟨n, L, K, hx, h', rfl⟩ := apply_some h
    clear h
    rename' h' => h
    rw [Option.map_eq_some_iff] at h
    obtain ⟨v, hv, rfl⟩ := h
    obtain ⟨o, ho, hI⟩ := hV.live x _ hx
    obtain ⟨h1, h2, _⟩ := operand_spec hs hV hv
    have hn : o.varCount = n := hI.count
    simpa only [ObjectState.step, ho, hn, h1, Option.bind_eq_bind, Option.bind_some] using insertVector_stepped hs hV ho hI h2
  | insertPower x var e =>
    simp only [IdealValues.step] at h
    obtain ⟨n, L, K, hx, h', rfl⟩ := apply_some h
    clear h
    rename' h' => h
    obtain ⟨o, ho, hI⟩ := hV.live x _ hx
    split at h
    case isFalse => cases h
    case isTrue hv =>
    cases h
    exact insertPower_stepped hs hV ho hI hv
  | insertAll x y =>
    simp only [IdealValues.step] at h
    obtain ⟨n, L, K, hx, h', rfl⟩ := apply_some h
    clear h
    rename' h' => h
    obtain ⟨o, ho, hI⟩ := hV.live x _ hx
    rw [Option.bind_eq_some_iff] at h
    obtain ⟨⟨n', J⟩, hy, h⟩ := h
    split at h
    case isFalse => cases h
    case isTrue hn =>
    cases h
    dsimp only at hn
    subst hn
    obtain ⟨o', ho', hJ⟩ := hV.live y _ hy
    obtain ⟨r, h1, h2⟩ := insertLoop_stepped hs hV ho hI ho' hJ (fun _ => true)
    simp only [filter_all] at h2
    simpa only [ObjectState.step, ho, ho', h1, Option.bind_eq_bind, Option.bind_some] using h2
  | insertNonMultiples x b y =>
    simp only [IdealValues.step] at h
    obtain ⟨n, L, K, hx, h', rfl⟩ := apply_some h
    clear h
    rename' h' => h
    obtain ⟨o, ho, hI⟩ := hV.live x _ hx
    simp only [Option.bind_eq_some_iff] at h
    obtain ⟨v, hv, ⟨n', J⟩, hy, h⟩ := h
    split at h
    case isFalse => cases h
    case isTrue hn =>
    cases h
    dsimp only at hn
    subst hn
    obtain ⟨h1, h2, _⟩ := operand_spec hs hV hv
    have hn : o.varCount = n' := hI.count
    obtain ⟨o', ho', hJ⟩ := hV.live y _ hy
    have := insertSome_stepped hs hV hsafe ho hI ho' hJ (fun w => !divisor v w)
    simpa only [ObjectState.step, ho, hn, h1, Option.bind_eq_bind, Option.bind_some, dividesLoop_eq] using this
  | insertNonMultiplesOfPower x var e y =>
    simp only [IdealValues.step] at h
    obtain ⟨n, L, K, hx, h', rfl⟩ := apply_some h
    clear h
    rename' h' => h
    obtain ⟨o, ho, hI⟩ := hV.live x _ hx
    rw [Option.bind_eq_some_iff] at h
    obtain ⟨⟨n', J⟩, hy, h⟩ := h
    split at h
    case isFalse => cases h
    case isTrue hn =>
    cases h
    obtain ⟨hvar, hn⟩ := hn
    dsimp only at hn
    subst hn
    have hn : o.varCount = n' := hI.count
    obtain ⟨o', ho', hJ⟩ := hV.live y _ hy
    have := insertSome_stepped hs hV hsafe ho hI ho' hJ (fun w => decide (w.getD var 0 < e))
    simpa only [ObjectState.step, ho, hn, hvar, if_true, Option.bind_eq_bind, Option.bind_some] using this
  | insertReminimize x b =>
    simp only [IdealValues.step] at h
    obtain ⟨n, L, K, hx, h', rfl⟩ := apply_some h
    clear h
    rename' h' => h
    rw [Option.map_eq_some_iff] at h
    obtain ⟨v, hv, rfl⟩ := h
    obtain ⟨o, ho, hI⟩ := hV.live x _ hx
    obtain ⟨h1, h2, _⟩ := operand_spec hs hV hv
    have hn : o.varCount = n := hI.count
    have hany := anyLoop_spec (fun w => divisor w v) s.mem o.terms L hI.vectors
    simp only [ObjectState.step, ho, hn, h1, Option.bind_eq_bind, Option.bind_some, dividesLoop_eq, hany]
    by_cases hc : (L.any fun w => divisor w v) = true
    · rw [if_pos hc, if_pos hc]
      refine ⟨s, rfl, hs, ?_⟩
      rw [← hx, Function.update_eq_self]
      exact hV
    · rw [if_neg hc, if_neg hc]
      obtain ⟨s', h3, hs', hV'⟩ := keep_stepped hs hV ho hI (fun w => !divisor v w)
      rw [h3]
      obtain ⟨o', ho', hI'⟩ := hV'.live x _ (Function.update_self ..)
      have := insertVector_stepped hs' hV' ho' hI' h2
      rw [Function.update_idem] at this
      exact this
  | insertReminimizePower x var e =>
    simp only [IdealValues.step] at h
    obtain ⟨n, L, K, hx, h', rfl⟩ := apply_some h
    clear h
    rename' h' => h
    obtain ⟨o, ho, hI⟩ := hV.live x _ hx
    split at h
    case isFalse => cases h
    case isTrue hv =>
    cases h
    have hn : o.varCount = n := hI.count
    simp only [ObjectState.step, ho, hn, hv, if_true, Option.bind_eq_bind, Option.bind_some]
    obtain ⟨s', h3, hs', hV'⟩ := keep_stepped hs hV ho hI (fun w => decide (w.getD var 0 < e))
    rw [h3]
    obtain ⟨o', ho', hI'⟩ := hV'.live x _ (Function.update_self ..)
    have := insertPower_stepped hs' hV' (e := e) ho' hI' hv
    rw [Function.update_idem] at this
    exact this
  | product x b =>
    simp only [IdealValues.step] at h
    obtain ⟨n, L, K, hx, h', rfl⟩ := apply_some h
    clear h
    rename' h' => h
    rw [Option.map_eq_some_iff] at h
    obtain ⟨v, hv, rfl⟩ := h
    obtain ⟨o, ho, hI⟩ := hV.live x _ hx
    obtain ⟨h1, h2, f, hf, hread⟩ := operand_spec hs hV hv
    have hn : o.varCount = n := hI.count
    simp only [ObjectState.step, ho, hn, h1, hf, Option.bind_eq_bind, Option.bind_some]
    refine change_stepped hs hV ho hI _ ?_ ?_
    · intro m' hm' w _
      rw [hread x o hsafe ho m' hm']; rfl
    · intro w hw; simp [hw, h2]
  | colon x b =>
    simp only [IdealValues.step] at h
    obtain ⟨n, L, K, hx, h', rfl⟩ := apply_some h
    clear h
    rename' h' => h
    rw [Option.map_eq_some_iff] at h
    obtain ⟨v, hv, rfl⟩ := h
    obtain ⟨o, ho, hI⟩ := hV.live x _ hx
    obtain ⟨h1, h2, f, hf, hread⟩ := operand_spec hs hV hv
    have hn : o.varCount = n := hI.count
    simp only [ObjectState.step, ho, hn, h1, hf, Option.bind_eq_bind, Option.bind_some]
    refine change_stepped hs hV ho hI _ ?_ ?_
    · intro m' hm' w _
      rw [hread x o hsafe ho m' hm', ← colonVector_eq]; rfl
    · intro w hw; simp [hw, h2]
  | colonPower x var e =>
    simp only [IdealValues.step] at h
    obtain ⟨n, L, K, hx, h', rfl⟩ := apply_some h
    clear h
    rename' h' => h
    obtain ⟨o, ho, hI⟩ := hV.live x _ hx
    split at h
    case isFalse => cases h
    case isTrue hv =>
    cases h
    have hn : o.varCount = n := hI.count
    simp only [ObjectState.step, ho, hn, hv, if_true, Option.bind_eq_bind, Option.bind_some]
    refine change_stepped hs hV ho hI _ ?_ ?_
    · intro m' _ w hw
      have hl : var < w.length := by omega
      rw [List.getElem?_eq_getElem hl]
      simp only [Option.map_some, Option.some.injEq]
      have hd : w.getD var 0 = w[var] := by simp [List.getD_eq_getElem?_getD, hl]
      rw [hd]
      by_cases hz : w[var] = 0
      · rw [if_neg (by simp [hz]), hz, Nat.zero_sub]
        conv_lhs => rw [← List.set_getElem_self hl, hz]
      · rw [if_pos hz]
        congr 1
        split <;> omega
    · intro w hw; simp [hw]
  | toZero x b =>
    simp only [IdealValues.step] at h
    obtain ⟨n, L, K, hx, h', rfl⟩ := apply_some h
    clear h
    rename' h' => h
    rw [Option.map_eq_some_iff] at h
    obtain ⟨v, hv, rfl⟩ := h
    obtain ⟨o, ho, hI⟩ := hV.live x _ hx
    obtain ⟨h1, h2, f, hf, hread⟩ := operand_spec hs hV hv
    have hn : o.varCount = n := hI.count
    simp only [ObjectState.step, ho, hn, h1, hf, Option.bind_eq_bind, Option.bind_some]
    refine change_stepped hs hV ho hI _ ?_ ?_
    · intro m' hm' w _
      rw [hread x o hsafe ho m' hm']; rfl
    · intro w hw; simp [hw, h2]
  | radical x =>
    simp only [IdealValues.step] at h
    obtain ⟨n, L, K, hx, h', rfl⟩ := apply_some h
    clear h
    rename' h' => h
    cases h
    obtain ⟨o, ho, hI⟩ := hV.live x _ hx
    refine change_stepped hs hV ho hI _ ?_ ?_
    · intro m' _ w _
      congr 1
      refine List.map_congr_left fun c _ => ?_
      split <;> omega
    · intro w hw; simp [hw]
  | removeMultiples x b =>
    simp only [IdealValues.step] at h
    obtain ⟨n, L, K, hx, h', rfl⟩ := apply_some h
    clear h
    rename' h' => h
    rw [Option.map_eq_some_iff] at h
    obtain ⟨v, hv, rfl⟩ := h
    obtain ⟨o, ho, hI⟩ := hV.live x _ hx
    obtain ⟨h1, _⟩ := operand_spec hs hV hv
    have hn : o.varCount = n := hI.count
    simp only [ObjectState.step, ho, hn, h1, Option.bind_eq_bind, Option.bind_some, dividesLoop_eq]
    exact keep_stepped hs hV ho hI _
  | removeMultiplesOfPower x var e =>
    simp only [IdealValues.step] at h
    obtain ⟨n, L, K, hx, h', rfl⟩ := apply_some h
    clear h
    rename' h' => h
    obtain ⟨o, ho, hI⟩ := hV.live x _ hx
    split at h
    case isFalse => cases h
    case isTrue hv =>
    cases h
    have hn : o.varCount = n := hI.count
    simp only [ObjectState.step, ho, hn, hv, if_true, Option.bind_eq_bind, Option.bind_some]
    exact keep_stepped hs hV ho hI _
  | removeStrictMultiples x b =>
    simp only [IdealValues.step] at h
    obtain ⟨n, L, K, hx, h', rfl⟩ := apply_some h
    clear h
    rename' h' => h
    rw [Option.map_eq_some_iff] at h
    obtain ⟨v, hv, rfl⟩ := h
    obtain ⟨o, ho, hI⟩ := hV.live x _ hx
    obtain ⟨h1, _⟩ := operand_spec hs hV hv
    have hn : o.varCount = n := hI.count
    simp only [ObjectState.step, ho, hn, h1, Option.bind_eq_bind, Option.bind_some, strictLoop_true]
    exact keep_stepped hs hV ho hI _
  | remove x i =>
    simp only [IdealValues.step] at h
    obtain ⟨n, L, K, hx, h', rfl⟩ := apply_some h
    clear h
    rename' h' => h
    obtain ⟨o, ho, hI⟩ := hV.live x _ hx
    split at h
    case isFalse => cases h
    case isTrue hi =>
    have hvec : o.terms.map s.mem.cell = L.map some := hI.vectors
    have hg := hs.good x o ho
    have hlen : o.terms.length = L.length := by simpa using congrArg List.length hvec
    have hti : i < o.terms.length := by omega
    rcases List.eq_nil_or_concat' L with rfl | ⟨B, w, rfl⟩
    · simp at hi
    rcases List.eq_nil_or_concat' o.terms with e | ⟨A, z, e⟩
    · rw [e] at hti; simp at hti
    rw [e] at hvec
    simp only [List.map_append, List.map_cons, List.map_nil] at hvec
    obtain ⟨hA, hz⟩ := List.append_inj' hvec (by simp)
    simp only [List.cons.injEq, and_true] at hz
    rw [removeAt_values B w i hi] at h
    cases h
    have hzA : z ∉ A := by
      have := hg.nodup
      rw [e] at this
      intro hz
      exact (List.nodup_append.mp this).2.2 z hz z (by simp) rfl
    have hAd : A.Nodup := by
      have := hg.nodup
      rw [e] at this
      exact (List.nodup_append.mp this).1
    simp only [ObjectState.step, ho, Option.bind_eq_bind, Option.bind_some, List.getElem?_eq_getElem hti]
    have hlast : o.terms[o.terms.length - 1]? = some z := by rw [e]; simp
    rw [hlast]
    have hp := removeAt_pointers A z o.terms[i] i
    rw [← e] at hp
    simp only [Option.bind_some, hp]
    refine pointers_stepped hs hV ho hI.count ?_ ?_ ?_
    · intro a ha
      rw [e]
      rcases List.mem_or_eq_of_mem_set ha with h | h
      · simp [h]
      · simp [h]
    · exact hAd.set hzA
    · rw [List.map_set, hA, hz, List.map_set]
  | arrange x is =>
    simp only [IdealValues.step] at h
    obtain ⟨n, L, K, hx, h', rfl⟩ := apply_some h
    clear h
    rename' h' => h
    obtain ⟨o, ho, hI⟩ := hV.live x _ hx
    split at h
    case isFalse => cases h
    case isTrue hi =>
    cases h
    have hvec : o.terms.map s.mem.cell = L.map some := hI.vectors
    have hlen : o.terms.length = L.length := by simpa using congrArg List.length hvec
    have hin : ∀ i ∈ is, i < o.terms.length := fun i h => by have := hi.2 i h; omega
    have hget : ∀ i, (h : i < o.terms.length) → o.terms.getD i 0 = o.terms[i] := fun i h => by simp [List.getD_eq_getElem?_getD, h]
    simp only [ObjectState.step, ho, Option.bind_eq_bind, Option.bind_some, pick_some o.terms 0 is hin, if_pos hi.1]
    refine pointers_stepped hs hV ho hI.count ?_ ?_ ?_
    · intro a ha
      obtain ⟨i, h1, rfl⟩ := List.mem_map.mp ha
      rw [hget i (hin i h1)]
      exact List.getElem_mem _
    · refine (List.nodup_map_iff_inj_on hi.1).mpr ?_
      intro i h1 j h2 he
      rw [hget i (hin i h1), hget j (hin j h2)] at he
      exact (List.Nodup.getElem_inj_iff (hs.good x o ho).nodup).mp he
    · rw [List.map_map, List.map_map]
      refine List.map_congr_left fun i h1 => ?_
      have hl := hin i h1
      have hL := hi.2 i h1
      simp only [Function.comp, hget i hl]
      have := congrArg (fun l => l[i]?) hvec
      simp only [List.getElem?_map, List.getElem?_eq_getElem hl, List.getElem?_eq_getElem hL, Option.map_some, Option.some.injEq] at this
      rw [this, List.getD_eq_getElem?_getD, List.getElem?_eq_getElem hL]
      rfl

end Frobby
