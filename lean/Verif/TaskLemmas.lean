import Verif.TaskModel
import Verif.Run

/-!
# The stack of tasks does what the recursion does
-/

namespace Frobby

variable {N : ℕ}

/-- The objects a consumer writes to or reads from. -/
def Consumer.ids : {n : ℕ} → Consumer N n → List ℕ
  | _, .top => []
  | _, .right id _ => [id]
  | _, .left id _ _ p => id :: p.ids

/-- No object is its own ancestor. -/
def Consumer.Distinct : {n : ℕ} → Consumer N n → Prop
  | _, .top => True
  | _, .right _ _ => True
  | _, .left id _ _ p => id ∉ p.ids ∧ p.Distinct

/-- All objects of the consumer exist. -/
structure Consumer.Ok {n : ℕ} (c : Consumer N n) (σ : Mem N) : Prop where
  live : ∀ id ∈ c.ids, σ.live id = true
  distinct : c.Distinct

/-- What holds of the addresses. -/
structure Mem.WF (σ : Mem N) : Prop where
  free : ∀ id ∈ σ.free, σ.live id = false ∧ id < σ.next
  nodup : σ.free.Nodup
  next : ∀ id, σ.next ≤ id → σ.live id = false

/-- The same objects with the same contents. -/
structure Mem.Same (σ τ : Mem N) : Prop where
  out : σ.out = τ.out
  live : σ.live = τ.live
  heap : ∀ id, σ.live id = true → σ.heap id = τ.heap id

theorem Mem.Same.refl (σ : Mem N) : σ.Same σ := ⟨rfl, rfl, fun _ _ => rfl⟩

theorem Mem.Same.symm {σ τ : Mem N} (h : σ.Same τ) : τ.Same σ :=
  ⟨h.out.symm, h.live.symm, fun id hi => (h.heap id (by rw [h.live]; exact hi)).symm⟩

theorem Mem.Same.trans {σ τ υ : Mem N} (h : σ.Same τ) (h' : τ.Same υ) : σ.Same υ :=
  ⟨h.out.trans h'.out, h.live.trans h'.live,
    fun id hi => (h.heap id hi).trans (h'.heap id (by rw [← h.live]; exact hi))⟩

theorem Consumer.Ok.same {n : ℕ} {c : Consumer N n} {σ τ : Mem N} (h : c.Ok σ) (hs : σ.live = τ.live) : c.Ok τ :=
  ⟨fun id hi => by rw [← hs]; exact h.live id hi, h.distinct⟩

/-- What consuming changes. -/
structure Frame (ids : List ℕ) (σ τ : Mem N) : Prop where
  live : τ.live = σ.live
  free : τ.free = σ.free
  next : τ.next = σ.next
  heap : ∀ id, id ∉ ids → τ.heap id = σ.heap id

theorem Frame.refl (ids : List ℕ) (σ : Mem N) : Frame ids σ σ := ⟨rfl, rfl, rfl, fun _ _ => rfl⟩

theorem Frame.trans {ids : List ℕ} {σ τ υ : Mem N} (h : Frame ids σ τ) (h' : Frame ids τ υ) : Frame ids σ υ :=
  ⟨h'.live.trans h.live, h'.free.trans h.free, h'.next.trans h.next, fun id hi => (h'.heap id hi).trans (h.heap id hi)⟩

theorem foldlM_frame {α : Type} {ids : List ℕ} {f : Mem N → α → Option (Mem N)}
    (hf : ∀ σ x τ, f σ x = some τ → Frame ids σ τ) (xs : List α) :
    ∀ σ τ, xs.foldlM f σ = some τ → Frame ids σ τ := by
  induction xs with
  | nil => intro σ τ h; simp at h; subst h; exact Frame.refl _ _
  | cons x xs ih =>
    intro σ τ h
    rw [List.foldlM_cons] at h
    simp only [Option.bind_eq_bind, Option.bind_eq_some_iff] at h
    obtain ⟨υ, h1, h2⟩ := h
    exact (hf _ _ _ h1).trans (ih _ _ h2)

theorem consume_frame {n : ℕ} (c : Consumer N n) : ∀ σ x τ, c.consume σ x = some τ → Frame c.ids σ τ := by
  induction c with
  | top => intro σ x τ h; simp only [Consumer.consume, Option.some.injEq] at h; subst h; exact ⟨rfl, rfl, rfl, fun _ _ => rfl⟩
  | right id m =>
    intro σ x τ h
    simp only [Consumer.consume] at h
    split at h
    · simp only [Option.some.injEq] at h
      subst h
      refine ⟨rfl, rfl, rfl, fun id' h' => ?_⟩
      simp only [Consumer.ids, List.mem_singleton] at h'
      simp only [Function.update_of_ne h']
    · simp at h
  | left id big rest p ih =>
    intro σ x τ h
    simp only [Consumer.consume] at h
    split at h
    · have := foldlM_frame (fun σ' r τ' h' => ih σ' _ τ' h') _ _ _ h
      exact ⟨this.live, this.free, this.next, fun id' h' => this.heap id' fun hc => h' (List.mem_cons_of_mem _ hc)⟩
    · simp at h

theorem consumeAll_frame {n : ℕ} {c : Consumer N n} {σ τ : Mem N} {xs : List (ℤ × Term n)}
    (h : c.consumeAll σ xs = some τ) : Frame c.ids σ τ :=
  foldlM_frame (consume_frame c) xs _ _ h

theorem consumeAll_append {n : ℕ} (c : Consumer N n) (σ : Mem N) (xs ys : List (ℤ × Term n)) :
    c.consumeAll σ (xs ++ ys) = (c.consumeAll σ xs).bind fun τ => c.consumeAll τ ys := by
  simp [Consumer.consumeAll, List.foldlM_append]

theorem consumeAll_right (id m : ℕ) (xs : List (ℤ × Term m)) : ∀ (σ : Mem N), σ.live id = true →
    ∃ τ, (Consumer.right id m : Consumer N m).consumeAll σ xs = some τ ∧ τ.out = σ.out ∧ τ.live = σ.live ∧
      τ.heap id m = σ.heap id m ++ xs ∧ ∀ id', id' ≠ id → τ.heap id' = σ.heap id' := by
  induction xs with
  | nil => intro σ _; exact ⟨σ, by simp [Consumer.consumeAll], rfl, rfl, by simp, fun _ _ => rfl⟩
  | cons x xs ih =>
    intro σ h
    obtain ⟨τ, h1, h2, h3, h4, h5⟩ := ih
      { σ with heap := Function.update σ.heap id (Function.update (σ.heap id) m (σ.heap id m ++ [x])) } h
    refine ⟨τ, ?_, h2, h3, ?_, fun id' hid => ?_⟩
    · simp only [Consumer.consumeAll, List.foldlM_cons, Consumer.consume, h, if_true, Option.bind_eq_bind, Option.bind_some]
      exact h1
    · rw [h4]; simp
    · rw [h5 id' hid]; simp [Function.update_of_ne hid]

theorem consumeAll_left {n : ℕ} (id : ℕ) (big rest : List (Fin n)) (p : Consumer N n) (R : List (ℤ × Term rest.length))
    (hd : id ∉ p.ids) (L : List (ℤ × Term big.length)) : ∀ (σ : Mem N), σ.live id = true → σ.heap id rest.length = R →
    (Consumer.left id big rest p).consumeAll σ L = p.consumeAll σ (combine big rest L R) := by
  induction L with
  | nil => intro σ _ _; simp [Consumer.consumeAll, combine]
  | cons l L ih =>
    intro σ h1 h2
    have hc : combine big rest (l :: L) R =
        (R.map fun r => (l.1 * r.1, inverseProject rest (inverseProject big 0 l.2) r.2)) ++ combine big rest L R := rfl
    rw [hc, consumeAll_append]
    have h3 : (Consumer.left id big rest p).consume σ l =
        p.consumeAll σ (R.map fun r => (l.1 * r.1, inverseProject rest (inverseProject big 0 l.2) r.2)) := by
      simp only [Consumer.consume, h1, if_true, h2, Consumer.consumeAll, List.foldlM_map]
    have h4 : (Consumer.left id big rest p).consumeAll σ (l :: L) =
        ((Consumer.left id big rest p).consume σ l).bind fun τ => (Consumer.left id big rest p).consumeAll τ L := by
      simp [Consumer.consumeAll]
    rw [h4, h3]
    cases h5 : p.consumeAll σ (R.map fun r => (l.1 * r.1, inverseProject rest (inverseProject big 0 l.2) r.2)) with
    | none => rfl
    | some τ =>
      have hf := consumeAll_frame h5
      simp only [Option.bind_some]
      exact ih τ (by rw [hf.live]; exact h1) (by rw [hf.heap id hd]; exact h2)

/-- The same contents of some objects that exist in both memories. -/
structure SameOn (P : ℕ → Prop) (σ τ : Mem N) : Prop where
  out : σ.out = τ.out
  live : ∀ id, P id → σ.live id = true ∧ τ.live id = true
  heap : ∀ id, P id → σ.heap id = τ.heap id

/-- Consuming does the same in memories with the same objects. -/
theorem consume_same (P : ℕ → Prop) {n : ℕ} (c : Consumer N n) : ∀ (σ τ : Mem N) (x : ℤ × Term n), (∀ id ∈ c.ids, P id) →
    SameOn P σ τ → ∃ σ' τ', c.consume σ x = some σ' ∧ c.consume τ x = some τ' ∧ SameOn P σ' τ' := by
  induction c with
  | top =>
    intro σ τ x _ hs
    exact ⟨_, _, rfl, rfl, by simp [hs.out], hs.live, hs.heap⟩
  | right id m =>
    intro σ τ x hc hs
    have hP := hc id (by simp [Consumer.ids])
    obtain ⟨h1, h2⟩ := hs.live id hP
    simp only [Consumer.consume, h1, h2, if_true]
    refine ⟨_, _, rfl, rfl, hs.out, hs.live, fun id' hid => ?_⟩
    simp only
    rw [hs.heap id hP]
    by_cases he : id' = id
    · subst he; simp
    · simp [Function.update_of_ne he, hs.heap id' hid]
  | left id big rest p ih =>
    intro σ τ x hc hs
    have hP := hc id (by simp [Consumer.ids])
    obtain ⟨h1, h2⟩ := hs.live id hP
    have hp : ∀ id ∈ p.ids, P id := fun i hi => hc i (List.mem_cons_of_mem _ hi)
    simp only [Consumer.consume, h1, h2, if_true]
    rw [← hs.heap id hP]
    have key : ∀ (R : List (ℤ × Term rest.length)) (σ τ : Mem N), SameOn P σ τ → ∃ σ' τ',
        R.foldlM (fun τ r => p.consume τ (x.1 * r.1, inverseProject rest (inverseProject big 0 x.2) r.2)) σ = some σ' ∧
        R.foldlM (fun τ r => p.consume τ (x.1 * r.1, inverseProject rest (inverseProject big 0 x.2) r.2)) τ = some τ' ∧
        SameOn P σ' τ' := by
      intro R
      induction R with
      | nil => intro σ τ hs; exact ⟨σ, τ, by simp, by simp, hs⟩
      | cons r R ihR =>
        intro σ τ hs
        obtain ⟨σ1, τ1, e1, e2, e3⟩ := ih σ τ (x.1 * r.1, inverseProject rest (inverseProject big 0 x.2) r.2) hp hs
        obtain ⟨σ2, τ2, f1, f2, f3⟩ := ihR σ1 τ1 e3
        exact ⟨σ2, τ2, by simp [e1, f1], by simp [e2, f2], f3⟩
    exact key _ σ τ hs

theorem consumeAll_same (P : ℕ → Prop) {n : ℕ} (c : Consumer N n) (xs : List (ℤ × Term n)) (hc : ∀ id ∈ c.ids, P id) :
    ∀ (σ τ : Mem N), SameOn P σ τ →
    ∃ σ' τ', c.consumeAll σ xs = some σ' ∧ c.consumeAll τ xs = some τ' ∧ SameOn P σ' τ' := by
  induction xs with
  | nil => intro σ τ hs; exact ⟨σ, τ, by simp [Consumer.consumeAll], by simp [Consumer.consumeAll], hs⟩
  | cons x xs ih =>
    intro σ τ hs
    obtain ⟨σ1, τ1, e1, e2, e3⟩ := consume_same P c σ τ x hc hs
    obtain ⟨σ2, τ2, f1, f2, f3⟩ := ih σ1 τ1 e3
    refine ⟨σ2, τ2, ?_, ?_, f3⟩
    · simpa [Consumer.consumeAll, e1] using f1
    · simpa [Consumer.consumeAll, e2] using f2

theorem Consumer.Ok.consumeAll {n : ℕ} {c : Consumer N n} {σ : Mem N} (h : c.Ok σ) (xs : List (ℤ × Term n)) :
    ∃ τ, c.consumeAll σ xs = some τ := by
  obtain ⟨τ, _, h1, _⟩ := consumeAll_same (fun id => σ.live id = true) c xs h.live σ σ ⟨rfl, fun _ h => ⟨h, h⟩, fun _ _ => rfl⟩
  exact ⟨τ, h1⟩

theorem consumeAll_of_same {n : ℕ} {c : Consumer N n} {σ τ σ' : Mem N} (h : c.Ok σ) (hs : σ.Same τ)
    {xs : List (ℤ × Term n)} (hx : c.consumeAll σ xs = some σ') : ∃ τ', c.consumeAll τ xs = some τ' ∧ σ'.Same τ' := by
  obtain ⟨σ1, τ1, h1, h2, h3⟩ := consumeAll_same (fun id => σ.live id = true) c xs h.live σ τ
    ⟨hs.out, fun id h => ⟨h, by rw [← hs.live]; exact h⟩, hs.heap⟩
  rw [hx] at h1
  obtain rfl := Option.some.inj h1
  have f1 := consumeAll_frame hx
  have f2 := consumeAll_frame h2
  exact ⟨τ1, h2, h3.out, by rw [f1.live, f2.live, hs.live], fun id hi => h3.heap id (by rw [← f1.live]; exact hi)⟩

/-! ## addresses -/

structure AllocSpec (σ : Mem N) (id : ℕ) (τ : Mem N) : Prop where
  dead : σ.live id = false
  wf : τ.WF
  out : τ.out = σ.out
  live : τ.live = Function.update σ.live id true
  empty : τ.heap id = fun _ => []
  heap : ∀ id', id' ≠ id → τ.heap id' = σ.heap id'

theorem alloc_spec {σ : Mem N} (h : σ.WF) : AllocSpec σ σ.alloc.1 σ.alloc.2 := by
  unfold Mem.alloc
  split
  · rename_i id free hf
    have h1 := h.free id (by rw [hf]; simp)
    have h2 := h.nodup
    rw [hf, List.nodup_cons] at h2
    refine ⟨h1.1, ⟨fun i hi => ?_, h2.2, fun i hi => ?_⟩, rfl, rfl, by simp, fun i hi => by simp [Function.update_of_ne hi]⟩
    · have h3 := h.free i (by rw [hf]; exact List.mem_cons_of_mem _ hi)
      have : i ≠ id := fun e => h2.1 (e ▸ hi)
      exact ⟨by simp [Function.update_of_ne this, h3.1], h3.2⟩
    · simp only at hi
      have : i ≠ id := by omega
      simp [Function.update_of_ne this, h.next i hi]
  · rename_i hf
    refine ⟨h.next _ le_rfl, ⟨?_, ?_, fun i hi => ?_⟩, rfl, rfl, by simp, fun i hi => by simp [Function.update_of_ne hi]⟩
    · simp [hf]
    · simp [hf]
    · simp only at hi
      have : i ≠ σ.next := by omega
      simp [Function.update_of_ne this, h.next i (by omega)]

theorem dispose_spec {σ : Mem N} (h : σ.WF) {id : ℕ} (hl : σ.live id = true) :
    ∃ τ, σ.dispose id = some τ ∧ τ.WF ∧ τ.out = σ.out ∧ τ.live = Function.update σ.live id false ∧ τ.heap = σ.heap := by
  refine ⟨{ σ with live := Function.update σ.live id false, free := id :: σ.free }, by simp only [Mem.dispose, hl, if_true],
    ⟨?_, ?_, ?_⟩, rfl, rfl, rfl⟩
  · intro i hi
    rcases List.mem_cons.1 hi with rfl | hi
    · refine ⟨by simp, ?_⟩
      by_contra hc
      have := h.next i (by simpa using hc)
      rw [this] at hl; simp at hl
    · have h1 := h.free i hi
      refine ⟨?_, h1.2⟩
      by_cases he : i = id
      · subst he; simp
      · simp [Function.update_of_ne he, h1.1]
  · refine List.nodup_cons.2 ⟨fun hi => ?_, h.nodup⟩
    rw [(h.free id hi).1] at hl; simp at hl
  · intro i hi
    by_cases he : i = id
    · subst he; simp
    · simp [Function.update_of_ne he, h.next i hi]

/-! ## the stack -/

theorem runTasks_add {k : Kind} {o : Opts} {rnd : List ℕ → ℕ → ℕ} (i j : ℕ) : ∀ st : Mem N × List (Task N),
    runTasks k o rnd (i + j) st = (runTasks k o rnd i st).bind (runTasks k o rnd j) := by
  induction i with
  | zero => intro st; simp [runTasks]
  | succ i ih =>
    intro st
    rw [show i + 1 + j = i + j + 1 by omega]
    match st with
    | (σ, []) =>
      simp only [runTasks, Option.bind_some]
      cases j <;> simp [runTasks]
    | (σ, t :: T) =>
      simp only [runTasks]
      cases runTask k o rnd σ t T with
      | none => rfl
      | some st' => exact ih st'

/-- The result of the task of a slice and of all tasks that come from it. -/
structure Done (k : Kind) (o : Opts) (rnd : List ℕ → ℕ → ℕ) {n : ℕ} (c : Consumer N n) (outs : List (ℤ × Term n))
    (σ : Mem N) (t : Task N) : Prop where
  ex : ∀ T, ∃ j σ' τ, runTasks k o rnd j (σ, t :: T) = some (σ', T) ∧ σ'.WF ∧ c.consumeAll σ outs = some τ ∧ τ.Same σ'

theorem frame_wf {ids : List ℕ} {σ τ : Mem N} (h : Frame ids σ τ) (hw : σ.WF) : τ.WF := by
  refine ⟨?_, ?_, ?_⟩
  · rw [h.free, h.live, h.next]; exact hw.free
  · rw [h.free]; exact hw.nodup
  · rw [h.live, h.next]; exact hw.next

theorem process_tasks (k : Kind) (o : Opts) (rnd : List ℕ → ℕ → ℕ) : ∀ (fuel : ℕ) (path : List ℕ) (n : ℕ) (s : Slice n)
    (outs : List (ℤ × Term n)), process k o rnd fuel path n s = some outs →
    ∀ (c : Consumer N n) (σ : Mem N), c.Ok σ → σ.WF → Done k o rnd c outs σ (.slice path n s c) := by
  intro fuel
  induction fuel with
  | zero => intro path n s outs h; simp [process] at h
  | succ fuel ih =>
    intro path n s outs h c σ hc hw
    constructor
    intro T
    simp only [process] at h
    cases hb : s.baseCase k o.simp with
    | some outs' =>
      rw [hb] at h
      simp only [Option.some.injEq] at h
      subst h
      obtain ⟨σ', e1⟩ := hc.consumeAll outs'
      refine ⟨1, σ', σ', ?_, frame_wf (consumeAll_frame e1) hw, e1, Mem.Same.refl _⟩
      simp [runTasks, runTask, hb, e1]
    | none =>
      rw [hb] at h
      simp only at h
      cases hi : (if o.indep = true then analyze s.ideal s.subtract else none) with
      | some br =>
        obtain ⟨big, rest⟩ := br
        rw [hi] at h
        simp only at h
        cases hR : process k o rnd fuel (1 :: path) rest.length (s.touchLcm.setToProjOf rest) with
        | none => rw [hR] at h; simp at h
        | some R =>
          cases hL : process k o rnd fuel (0 :: path) big.length (s.touchLcm.setToProjOf big) with
          | none => rw [hR, hL] at h; simp at h
          | some L =>
            rw [hR, hL] at h
            simp only [Option.some.injEq] at h
            subst h
            have ha := alloc_spec hw
            set id := σ.alloc.1 with hid
            set τ0 := σ.alloc.2 with hτ0
            -- the right slice
            have hlive : τ0.live id = true := by rw [ha.live]; simp
            have hokR : (Consumer.right id rest.length : Consumer N _).Ok τ0 :=
              ⟨by simp [Consumer.ids, hlive], trivial⟩
            obtain ⟨j1, σ1, τ1, r1, w1, c1, s1⟩ :=
              (ih _ _ _ _ hR (.right id rest.length) τ0 hokR ha.wf).ex
                (.slice (0 :: path) big.length (s.touchLcm.setToProjOf big) (.left id big rest c) :: .split id :: T)
            obtain ⟨τ1', c1', o1, l1, e1, f1⟩ := consumeAll_right (N := N) id rest.length R τ0 hlive
            rw [c1] at c1'
            obtain rfl := Option.some.inj c1'
            rw [ha.empty, List.nil_append] at e1
            -- the left slice
            have hnid : id ∉ c.ids := fun hc' => by
              have := hc.live id hc'
              rw [ha.dead] at this; simp at this
            have hl1 : σ1.live = τ0.live := by rw [← s1.live, l1]
            have hokc : c.Ok σ1 := by
              refine ⟨fun i hi' => ?_, hc.distinct⟩
              rw [hl1, ha.live, Function.update_of_ne (fun e : i = id => hnid (e ▸ hi'))]
              exact hc.live i hi'
            have hokL : (Consumer.left id big rest c).Ok σ1 := by
              refine ⟨fun i hi' => ?_, hnid, hc.distinct⟩
              rcases List.mem_cons.1 hi' with rfl | hi'
              · rw [hl1]; exact hlive
              · exact hokc.live i hi'
            obtain ⟨j2, σ2, τ2, r2, w2, c2, s2⟩ :=
              (ih _ _ _ _ hL (.left id big rest c) σ1 hokL w1).ex (.split id :: T)
            have hh1 : σ1.heap id rest.length = R := by
              rw [← s1.heap id (by rw [l1]; exact hlive), e1]
            rw [consumeAll_left id big rest c R hnid L σ1 (by rw [hl1]; exact hlive) hh1] at c2
            -- removing the object
            have hl2 : σ2.live = τ0.live := by rw [← s2.live, (consumeAll_frame c2).live, hl1]
            obtain ⟨σ3, d1, d2, d3, d4, d5⟩ := dispose_spec w2 (id := id) (by rw [hl2]; exact hlive)
            have hstart : runTasks k o rnd 1 (σ, .slice path n s c :: T) =
                some (τ0, .slice (1 :: path) rest.length (s.touchLcm.setToProjOf rest) (.right id rest.length) ::
                  .slice (0 :: path) big.length (s.touchLcm.setToProjOf big) (.left id big rest c) :: .split id :: T) := by
              simp only [runTasks, runTask, hb, hi, ← hid, ← hτ0]
            -- consuming from the start
            have hdead : Function.update τ0.live id false = σ.live := by
              rw [ha.live]
              funext i
              by_cases he : i = id
              · subst he; simp [ha.dead]
              · simp [Function.update_of_ne he]
            have hsame : SameOn (fun i => σ.live i = true) σ σ1 := by
              have hne : ∀ i, σ.live i = true → i ≠ id := fun i hi' e => by rw [e, ha.dead] at hi'; simp at hi'
              have hli : ∀ i, σ.live i = true → τ0.live i = true := fun i hi' => by
                rw [ha.live, Function.update_of_ne (hne i hi')]; exact hi'
              refine ⟨?_, fun i hi' => ⟨hi', by rw [hl1]; exact hli i hi'⟩, fun i hi' => ?_⟩
              · rw [← s1.out, o1, ha.out]
              · rw [← s1.heap i (by rw [l1]; exact hli i hi'), f1 i (hne i hi'), ha.heap i (hne i hi')]
            obtain ⟨τ, τ2', g1, g2, g3⟩ := consumeAll_same _ c (combine big rest L R) hc.live _ _ hsame
            rw [c2] at g2
            obtain rfl := Option.some.inj g2
            refine ⟨1 + (j1 + (j2 + 1)), σ3, τ, ?_, d2, g1, ?_⟩
            · rw [runTasks_add, hstart, Option.bind_some, runTasks_add, r1, Option.bind_some, runTasks_add, r2,
                Option.bind_some]
              simp [runTasks, runTask, d1]
            · have hτl : τ.live = σ.live := (consumeAll_frame g1).live
              refine ⟨by rw [g3.out, s2.out, d3], by rw [hτl, d4, hl2, hdead], fun i hi' => ?_⟩
              rw [hτl] at hi'
              rw [g3.heap i hi', s2.heap i (g3.live i hi').2, d5]
      | none =>
        rw [hi] at h
        simp only at h
        cases hch : s.touchLcm.children k o (rnd path) with
        | none => rw [hch] at h; simp at h
        | some ab =>
          rw [hch] at h
          obtain ⟨a, b⟩ := ab
          cases b with
          | none =>
            simp only at h
            obtain ⟨j1, σ1, τ1, r1, w1, c1, s1⟩ := (ih _ _ _ _ h c σ hc hw).ex T
            refine ⟨1 + j1, σ1, τ1, ?_, w1, c1, s1⟩
            rw [runTasks_add]
            simp only [runTasks, runTask, hb, hi, hch, Option.bind_some]
            exact r1
          | some b =>
            simp only at h
            cases hA : process k o rnd fuel (0 :: path) n a with
            | none => rw [hA] at h; simp at h
            | some A =>
              cases hB : process k o rnd fuel (1 :: path) n b with
              | none => rw [hA, hB] at h; simp at h
              | some B =>
                rw [hA, hB] at h
                simp only [Option.some.injEq] at h
                subst h
                obtain ⟨j1, σ1, τ1, r1, w1, c1, s1⟩ := (ih _ _ _ _ hA c σ hc hw).ex (.slice (1 :: path) n b c :: T)
                have hτ1 := (consumeAll_frame c1).live
                have hc1 : c.Ok τ1 := hc.same hτ1.symm
                obtain ⟨j2, σ2, τ2, r2, w2, c2, s2⟩ := (ih _ _ _ _ hB c σ1 (hc1.same s1.live) w1).ex T
                obtain ⟨τ3, c3⟩ := hc1.consumeAll B
                obtain ⟨τ4, c4, s4⟩ := consumeAll_of_same hc1 s1 c3
                rw [c2] at c4
                obtain rfl := Option.some.inj c4
                refine ⟨1 + (j1 + j2), σ2, τ3, ?_, w2, ?_, s4.trans s2⟩
                · rw [runTasks_add]
                  simp only [runTasks, runTask, hb, hi, hch, Option.bind_some]
                  rw [runTasks_add, r1, Option.bind_some, r2]
                · rw [consumeAll_append, c1, Option.bind_some, c3]

theorem consumeAll_top (xs : List (ℤ × Term N)) : ∀ σ : Mem N,
    (Consumer.top : Consumer N N).consumeAll σ xs = some { σ with out := σ.out ++ xs } := by
  induction xs with
  | nil => intro σ; simp [Consumer.consumeAll]
  | cons x xs ih =>
    intro σ
    have := ih { σ with out := σ.out ++ [x] }
    simp only [Consumer.consumeAll, List.foldlM_cons, Consumer.consume, Option.bind_eq_bind, Option.bind_some] at this ⊢
    rw [this]; simp

end Frobby
