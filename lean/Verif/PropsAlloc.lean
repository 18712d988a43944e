import Verif.AllocModel
import Mathlib.Data.List.Perm.Basic
import Mathlib.Data.Set.Basic
import Mathlib.Tactic.Linarith

/-!
# C34: storage of exponents

Ideals are made, changed, copied, assigned, swapped and destroyed in any order. The specification gives every ideal its own
list of generators. The storage gives out parts of blocks and keeps blocks for later use. It is proved that both agree,
without any error in the use of memory, when no number of variables is between 513 and 1023, and that errors do occur
otherwise.
-/

namespace Frobby

/-! ## specification -/

/-- The ideals there are: the number of variables and the generators. -/
abbrev IdealsSpec := ℕ → Option (ℕ × List (List ℕ))

/-- What the calls are supposed to do; `none` for a call that is not allowed. -/
def AllocOp.spec (A : IdealsSpec) : AllocOp → Option IdealsSpec
  | .make i c => if (A i).isSome then none else some (Function.update A i (some (c, [])))
  | .copy i j =>
    match A j with
    | none => none
    | some x => if (A i).isSome then none else some (Function.update A i (some x))
  | .insert i e =>
    match A i with
    | none => none
    | some x => if e.length = x.1 then some (Function.update A i (some (x.1, x.2 ++ [e]))) else none
  | .clear i =>
    match A i with
    | none => none
    | some x => some (Function.update A i (some (x.1, [])))
  | .setVarCount i c => if (A i).isSome then some (Function.update A i (some (c, []))) else none
  | .assign i j =>
    match A i, A j with
    | some x, some y => some (Function.update A i (some (if i = j then (x.1, []) else y)))
    | _, _ => none
  | .swap i j =>
    match A i, A j with
    | some x, some y => some (Function.update (Function.update A i (some y)) j (some x))
    | _, _ => none
  | .destroy i => if (A i).isSome then some (Function.update A i none) else none
  | .clearStaticCache => some A

/-- A history of calls. -/
def AllocOp.specAll : IdealsSpec → List AllocOp → Option IdealsSpec
  | A, [] => some A
  | A, op :: ops =>
    match op.spec A with
    | none => none
    | some A' => specAll A' ops

/-- Numbers of variables for which the storage works. -/
def GoodCount (c : ℕ) : Prop := c ≤ 512 ∨ 1024 ≤ c

/-- The call does not make an ideal with between 513 and 1023 variables. -/
def AllocOp.Good : AllocOp → Prop
  | .make _ c => GoodCount c
  | .setVarCount _ c => GoodCount c
  | _ => True

/-! ## one ideal -/

/-- The object represents an ideal. -/
structure ObjOk (h : Heap) (I : IdealObj) (c : ℕ) (l : List (List ℕ)) : Prop where
  vc : I.varCount = c
  av : I.alloc.varCount = c ∨ c = 0 ∧ I.alloc.varCount = 1
  good : GoodCount c
  size : ∀ b ∈ I.alloc.chunks, ∃ s, h.size b = some s ∧ 1024 ≤ s
  nodup : I.alloc.chunks.Nodup
  pos : ∀ b o, I.alloc.iter = some (b, o) → 0 < o
  zero : I.alloc.varCount = 0 → I.alloc.iter = none
  iter : c ≤ 512 → ∀ b o, I.alloc.iter = some (b, o) → b ∈ I.alloc.chunks ∧ (0 < c → ∀ o', some (b, o') ∈ I.terms → o' + c ≤ o)
  terms : 0 < c → ∀ p ∈ I.terms, ∃ b o s, p = some (b, o) ∧ b ∈ I.alloc.chunks ∧ h.size b = some s ∧ o + c ≤ s
  contents : I.contents h = some l

theorem read_congr {h h' : Heap} {b o c : ℕ} (hs : h'.size b = h.size b) (hd : h'.data b = h.data b) :
    h'.read (some (b, o)) c = h.read (some (b, o)) c := by
  unfold Heap.read
  simp only [hs, hd]

theorem mapM_congr_some {α β : Type} {f g : α → Option β} : ∀ {l : List α}, (∀ x ∈ l, f x = g x) → l.mapM f = l.mapM g := by
  intro l
  induction l with
  | nil => intro _; rfl
  | cons x l ih =>
    intro h
    rw [List.mapM_cons, List.mapM_cons, h x (by simp), ih fun y hy => h y (by simp [hy])]

theorem ObjOk.read_frame {h h' : Heap} {I : IdealObj} {c : ℕ} {l : List (List ℕ)} (hI : ObjOk h I c l)
    (hf : ∀ b ∈ I.alloc.chunks, h'.size b = h.size b ∧ h'.data b = h.data b) {p : Addr} (hp : p ∈ I.terms) :
    h'.read p c = h.read p c := by
  by_cases hc : c = 0
  · simp [Heap.read, hc]
  · obtain ⟨b, o, s, rfl, h1, h2, h3⟩ := hI.terms (by omega) p hp
    exact read_congr (hf b h1).1 (hf b h1).2

/-- What happens to other blocks does not matter. -/
theorem ObjOk.frame {h h' : Heap} {I : IdealObj} {c : ℕ} {l : List (List ℕ)} (hI : ObjOk h I c l)
    (hf : ∀ b ∈ I.alloc.chunks, h'.size b = h.size b ∧ h'.data b = h.data b) : ObjOk h' I c l where
  vc := hI.vc
  av := hI.av
  good := hI.good
  size b hb := by rw [(hf b hb).1]; exact hI.size b hb
  nodup := hI.nodup
  pos := hI.pos
  zero := hI.zero
  iter := hI.iter
  terms hc p hp := by
    obtain ⟨b, o, s, h1, h2, h3, h4⟩ := hI.terms hc p hp
    exact ⟨b, o, s, h1, h2, by rw [(hf b h2).1]; exact h3, h4⟩
  contents := by
    rw [← hI.contents]
    unfold IdealObj.contents
    rw [hI.vc]
    exact mapM_congr_some fun p hp => hI.read_frame hf hp

/-- An ideal in a memory in which the blocks in `X` belong to others. -/
structure St (M : Memory) (I : IdealObj) (c : ℕ) (l : List (List ℕ)) (X : Set ℕ) : Prop where
  obj : ObjOk M.heap I c l
  poolSize : ∀ b ∈ M.pool, ∃ s, M.heap.size b = some s ∧ 1024 ≤ s
  poolNodup : M.pool.Nodup
  fresh : ∀ b s, M.heap.size b = some s → b < M.heap.next
  chunkPool : ∀ b ∈ I.alloc.chunks, b ∉ M.pool
  chunkX : ∀ b ∈ I.alloc.chunks, b ∉ X
  poolX : ∀ b ∈ M.pool, b ∉ X
  aliveX : ∀ b ∈ X, ∃ s, M.heap.size b = some s
  own : ∀ b s, M.heap.size b = some s → b ∈ M.pool ∨ b ∈ I.alloc.chunks ∨ b ∈ X

/-- The blocks in `X` are as before. -/
def Same (X : Set ℕ) (h h' : Heap) : Prop := ∀ b ∈ X, h'.size b = h.size b ∧ h'.data b = h.data b

theorem Same.trans {X : Set ℕ} {h1 h2 h3 : Heap} (a : Same X h1 h2) (b : Same X h2 h3) : Same X h1 h3 :=
  fun x hx => ⟨(b x hx).1.trans (a x hx).1, (b x hx).2.trans (a x hx).2⟩

theorem getD_range_map (e : List ℕ) : (List.range e.length).map (fun k => e.getD k 0) = e := by
  apply List.ext_getElem
  · simp
  · intro i h1 h2
    simp [List.getElem?_eq_getElem h2]

/-- Writing to a new place. -/
theorem St.written {M : Memory} {I : IdealObj} {c : ℕ} {l : List (List ℕ)} {X : Set ℕ} (h : St M I c l X) {e : List ℕ}
    (he : e.length = c) {p : Addr} (hp : 0 < c → ∃ b o s, p = some (b, o) ∧ b ∈ I.alloc.chunks ∧ M.heap.size b = some s ∧ o + c ≤ s ∧
      ∀ o', some (b, o') ∈ I.terms → o' + c ≤ o) (hiter : c ≤ 512 → ∀ b o, I.alloc.iter = some (b, o) → ∀ o', p = some (b, o') → o' + c ≤ o) :
    ∃ h', M.heap.write p e = some h' ∧ St { M with heap := h' } { I with terms := I.terms ++ [p] } c (l ++ [e]) X ∧ Same X M.heap h' := by
  by_cases hc : c = 0
  · have he0 : e = [] := by rw [← List.length_eq_zero_iff]; omega
    refine ⟨M.heap, by simp [Heap.write, he0], ?_, fun b _ => ⟨rfl, rfl⟩⟩
    refine ⟨⟨h.obj.vc, h.obj.av, h.obj.good, h.obj.size, h.obj.nodup, h.obj.pos, h.obj.zero, fun h1 b o hi => ⟨(h.obj.iter h1 b o hi).1, fun hc' => by omega⟩,
      fun hc' => by omega, ?_⟩, h.poolSize, h.poolNodup, h.fresh, h.chunkPool, h.chunkX, h.poolX, h.aliveX, h.own⟩
    have h5 := h.obj.contents
    unfold IdealObj.contents at h5 ⊢
    simp only at h5 ⊢
    rw [List.mapM_append, h5, List.mapM_cons, List.mapM_nil, h.obj.vc]
    simp [Heap.read, hc, he0]
  · obtain ⟨b, o, s, rfl, h1, h2, h3, h4⟩ := hp (by omega)
    have hene : e ≠ [] := by
      intro h5; rw [h5] at he; simp at he; omega
    refine ⟨_, by unfold Heap.write; rw [if_neg hene]; simp only [h2]; rw [if_pos (by omega)], ?_, ?_⟩
    · have hread : ∀ q ∈ I.terms, ({ M.heap with data := Function.update M.heap.data b fun k => if o ≤ k ∧ k < o + e.length then e.getD (k - o) 0 else M.heap.data b k } : Heap).read q c
          = M.heap.read q c := by
        intro q hq
        obtain ⟨b', o', s', rfl, g1, g2, g3⟩ := h.obj.terms (by omega) q hq
        unfold Heap.read
        simp only [g2, hc, if_false, g3, if_true, Option.some.injEq]
        refine List.map_congr_left fun k hk => ?_
        rw [List.mem_range] at hk
        by_cases hb : b' = b
        · subst hb
          rw [Function.update_self]
          have := h4 o' hq
          rw [if_neg (by omega)]
        · rw [Function.update_of_ne hb]
      refine ⟨⟨h.obj.vc, h.obj.av, h.obj.good, h.obj.size, h.obj.nodup, h.obj.pos, h.obj.zero, fun h5 b' o' hi => ⟨(h.obj.iter h5 b' o' hi).1, ?_⟩,
        fun _ q hq => ?_, ?_⟩, h.poolSize, h.poolNodup, h.fresh, h.chunkPool, h.chunkX, h.poolX, h.aliveX, h.own⟩
      · intro _ o'' ho''
        rcases List.mem_append.1 ho'' with ho'' | ho''
        · exact (h.obj.iter h5 b' o' hi).2 (by omega) o'' ho''
        · exact hiter h5 b' o' hi o'' (List.mem_singleton.1 ho'').symm
      · rcases List.mem_append.1 hq with hq | hq
        · exact h.obj.terms (by omega) q hq
        · rw [List.mem_singleton.1 hq]
          exact ⟨b, o, s, rfl, h1, h2, h3⟩
      · have h5 := h.obj.contents
        unfold IdealObj.contents at h5 ⊢
        simp only [h.obj.vc] at h5 ⊢
        rw [List.mapM_append, mapM_congr_some hread, h5, List.mapM_cons, List.mapM_nil]
        have h6 : ({ M.heap with data := Function.update M.heap.data b fun k => if o ≤ k ∧ k < o + e.length then e.getD (k - o) 0 else M.heap.data b k } : Heap).read
            (some (b, o)) c = some e := by
          unfold Heap.read
          simp only [h2, hc, if_false, h3, if_true, Option.some.injEq]
          conv_rhs => rw [← getD_range_map e]
          rw [he]
          refine List.map_congr_left fun k hk => ?_
          rw [List.mem_range] at hk
          rw [Function.update_self, if_pos (by omega)]
          congr 1
          omega
        rw [h6]
        rfl
    · intro x hx
      refine ⟨rfl, ?_⟩
      have : x ≠ b := fun hxb => h.chunkX b h1 (hxb ▸ hx)
      simp only [Function.update_of_ne this]

/-- Inserting a generator. -/
theorem St.insert {M : Memory} {I : IdealObj} {c : ℕ} {l : List (List ℕ)} {X : Set ℕ} (h : St M I c l X) {e : List ℕ}
    (he : e.length = c) : ∃ I' M', I.insert M e = some (I', M') ∧ St M' I' c (l ++ [e]) X ∧ Same X M.heap M'.heap := by
  -- after getting a block `b`
  have hblock : ∀ (b s : ℕ) (M1 : Memory) (it : Addr), M1.heap.size b = some s → I.alloc.varCount ≤ s → 1024 ≤ s →
      b ∉ I.alloc.chunks → b ∉ X → b ∉ M1.pool → M1.pool.Nodup → (∀ x ∈ M1.pool, x ∈ M.pool) → (∀ x ∈ M.pool, x = b ∨ x ∈ M1.pool) →
      (∀ x, x ≠ b → M1.heap.size x = M.heap.size x) → M1.heap.data = M.heap.data → (∀ x t, M1.heap.size x = some t → x < M1.heap.next) →
      (∀ b' o', it = some (b', o') → 0 < o') → 0 < I.alloc.varCount →
      (c ≤ 512 → it = some (b, I.alloc.varCount)) →
      ∃ h', M1.heap.write (some (b, 0)) e = some h' ∧
        St { M1 with heap := h' } { I with terms := I.terms ++ [some (b, 0)], alloc := { I.alloc with chunks := I.alloc.chunks ++ [b], iter := it } } c (l ++ [e]) X ∧
          Same X M.heap h' := by
    intro b s M1 it hsz hv hs hb hbX hbp hpn hpsub hpsub' hsame hdata hfr hpos hv0 hit
    have hcv : c ≤ I.alloc.varCount := by rcases h.obj.av with h1 | ⟨h1, h2⟩ <;> omega
    have hterm : ∀ q ∈ I.terms, 0 < c → ∀ o', q ≠ some (b, o') := by
      intro q hq hc o' hq'
      obtain ⟨b', o'', s', h1, h2, _⟩ := h.obj.terms hc q hq
      rw [hq'] at h1
      simp only [Option.some.injEq, Prod.mk.injEq] at h1
      exact hb (h1.1 ▸ h2)
    have hSt : St M1 { I with alloc := { I.alloc with chunks := I.alloc.chunks ++ [b], iter := it } } c l X := by
      refine ⟨⟨h.obj.vc, h.obj.av, h.obj.good, ?_, ?_, ?_, fun hz => absurd hz (Nat.pos_iff_ne_zero.1 hv0), ?_, ?_, ?_⟩, ?_, hpn, hfr, ?_, ?_, ?_, ?_, ?_⟩
      · intro x hx
        rcases List.mem_append.1 hx with hx | hx
        · rw [hsame x (fun hxb => hb (hxb ▸ hx))]; exact h.obj.size x hx
        · rw [List.mem_singleton.1 hx]; exact ⟨s, hsz, hs⟩
      · exact List.nodup_append.2 ⟨h.obj.nodup, by simp, fun x hx y hy hxy => hb (by
          rw [List.mem_singleton.1 hy] at hxy; exact hxy ▸ hx)⟩
      · intro b' o' hi
        exact hpos b' o' hi
      · intro hc b' o' hi
        simp only [hit hc, Option.some.injEq, Prod.mk.injEq] at hi
        obtain ⟨rfl, rfl⟩ := hi
        exact ⟨by simp, fun hc0 o' ho' => absurd rfl (hterm _ ho' hc0 o')⟩
      · intro hc q hq
        obtain ⟨b', o', s', h1, h2, h3, h4⟩ := h.obj.terms hc q hq
        exact ⟨b', o', s', h1, by simp [h2], by rw [hsame b' (fun hxb => hb (hxb ▸ h2))]; exact h3, h4⟩
      · rw [← h.obj.contents]
        unfold IdealObj.contents
        refine mapM_congr_some fun q hq => ?_
        simp only [h.obj.vc]
        exact h.obj.read_frame (fun x hx => ⟨hsame x (fun hxb => hb (hxb ▸ hx)), by rw [hdata]⟩) hq
      · intro x hx
        rw [hsame x (fun hxb => hbp (hxb ▸ hx))]
        exact h.poolSize x (hpsub x hx)
      · intro x hx
        rcases List.mem_append.1 hx with hx | hx
        · exact fun hxp => h.chunkPool x hx (hpsub x hxp)
        · rw [List.mem_singleton.1 hx]; exact hbp
      · intro x hx
        rcases List.mem_append.1 hx with hx | hx
        · exact h.chunkX x hx
        · rw [List.mem_singleton.1 hx]; exact hbX
      · exact fun x hx => h.poolX x (hpsub x hx)
      · intro x hx
        rw [hsame x (fun hxb => hbX (hxb ▸ hx))]; exact h.aliveX x hx
      · intro x t hx
        by_cases hxb : x = b
        · exact Or.inr (Or.inl (by simp [hxb]))
        · rw [hsame x hxb] at hx
          rcases h.own x t hx with h1 | h1 | h1
          · exact Or.inl ((hpsub' x h1).resolve_left hxb)
          · exact Or.inr (Or.inl (by simp [h1]))
          · exact Or.inr (Or.inr h1)
    obtain ⟨h', h1, h2, h3⟩ := hSt.written he (p := some (b, 0)) (fun hc => ⟨b, 0, s, rfl, by simp, hsz, by omega, fun o' ho' =>
        absurd rfl (hterm _ ho' hc o')⟩) (fun hc b' o' hi o'' ho'' => by
      simp only [hit hc, Option.some.injEq, Prod.mk.injEq] at hi
      rw [Option.some.injEq, Prod.mk.injEq] at ho''
      omega)
    refine ⟨h', h1, h2, fun x hx => ?_⟩
    have hxb : x ≠ b := fun hxb => hbX (hxb ▸ hx)
    exact ⟨(h3 x hx).1.trans (hsame x hxb), (h3 x hx).2.trans (by rw [hdata])⟩
  have hnext : M.heap.size M.heap.next = none := by
    cases h1 : M.heap.size M.heap.next with
    | none => rfl
    | some t => exact absurd (h.fresh _ _ h1) (lt_irrefl _)
  have hnc : M.heap.next ∉ I.alloc.chunks := fun hx => by
    obtain ⟨t, h1, _⟩ := h.obj.size _ hx
    rw [hnext] at h1
    simp at h1
  have hnX : M.heap.next ∉ X := fun hx => by
    obtain ⟨t, h1⟩ := h.aliveX _ hx
    rw [hnext] at h1
    simp at h1
  have hnp : M.heap.next ∉ M.pool := fun hx => by
    obtain ⟨t, h1, _⟩ := h.poolSize _ hx
    rw [hnext] at h1
    simp at h1
  -- a new block
  have hnew : ∀ (s : ℕ) (it : Addr), I.alloc.varCount ≤ s → 1024 ≤ s → (∀ b' o', it = some (b', o') → 0 < o') → 0 < I.alloc.varCount →
      (c ≤ 512 → it = some (M.heap.next, I.alloc.varCount)) →
      ∃ h', (M.heap.new s).2.write (some (M.heap.next, 0)) e = some h' ∧
        St { M with heap := h' } { I with terms := I.terms ++ [some (M.heap.next, 0)], alloc := { I.alloc with chunks := I.alloc.chunks ++ [M.heap.next], iter := it } } c (l ++ [e]) X ∧
          Same X M.heap h' := by
    intro s it h1 h2 h3 hv0 h4
    refine hblock M.heap.next s { M with heap := (M.heap.new s).2 } it ?_ h1 h2 hnc hnX hnp h.poolNodup (fun x hx => hx) (fun x hx => Or.inr hx) ?_ rfl ?_ h3 hv0 h4
    · simp [Heap.new]
    · intro x hx
      simp [Heap.new, Function.update_of_ne hx]
    · intro x t hx
      simp only [Heap.new] at hx ⊢
      by_cases hxn : x = M.heap.next
      · omega
      · rw [Function.update_of_ne hxn] at hx
        have := h.fresh x t hx
        omega
  by_cases hfull : I.alloc.full = true
  · by_cases hsc : singleChunking I.alloc.varCount = true
    · have hv : 512 < I.alloc.varCount := by simpa [singleChunking, exponentsPerChunk] using hsc
      have hcv : I.alloc.varCount = c := by rcases h.obj.av with h1 | ⟨h1, h2⟩ <;> omega
      have hc : 1024 ≤ c := by rcases h.obj.good with h1 | h1 <;> omega
      obtain ⟨h', h1, h2, h3⟩ := hnew I.alloc.varCount I.alloc.iter le_rfl (by omega) h.obj.pos (by omega) (fun h5 => by omega)
      have ha : I.alloc.allocate M = (some (M.heap.next, 0), { I.alloc with chunks := I.alloc.chunks ++ [M.heap.next] },
          { M with heap := (M.heap.new I.alloc.varCount).2 }) := by
        unfold Allocator.allocate
        rw [if_pos hfull, if_pos hsc]
        rfl
      refine ⟨_, _, ?_, h2, h3⟩
      unfold IdealObj.insert
      simp only [ha, h1, Option.map_some]
    · have hv : I.alloc.varCount ≤ 512 := by simpa [singleChunking, exponentsPerChunk] using hsc
      have hv0 : 0 < I.alloc.varCount := by
        by_contra h0
        have h0' : I.alloc.varCount = 0 := by omega
        unfold Allocator.full at hfull
        rw [h.obj.zero h0'] at hfull
        simp at hfull
        omega
      have ha : I.alloc.allocate M = (some (M.takeChunk.1, 0), { I.alloc with chunks := I.alloc.chunks ++ [M.takeChunk.1], iter := some (M.takeChunk.1, I.alloc.varCount) },
          M.takeChunk.2) := by
        unfold Allocator.allocate
        rw [if_pos hfull, if_neg hsc]
      cases hp : M.pool.getLast? with
      | none =>
        have hpool : M.pool = [] := List.getLast?_eq_none_iff.1 hp
        have ht : M.takeChunk = (M.heap.next, { M with heap := (M.heap.new exponentsPerChunk).2 }) := by
          unfold Memory.takeChunk
          rw [hp]
          rfl
        obtain ⟨h', h1, h2, h3⟩ := hnew exponentsPerChunk (some (M.heap.next, I.alloc.varCount)) (by unfold exponentsPerChunk; omega) le_rfl
          (fun b' o' hi => by simp only [Option.some.injEq, Prod.mk.injEq] at hi; omega) hv0 (fun _ => rfl)
        refine ⟨_, _, ?_, h2, h3⟩
        unfold IdealObj.insert
        simp only [ha, ht, h1, Option.map_some]
      | some b =>
        have ht : M.takeChunk = (b, { M with pool := M.pool.dropLast }) := by
          unfold Memory.takeChunk
          rw [hp]
        have hpe : M.pool = M.pool.dropLast ++ [b] := by
          rw [List.dropLast_append_getLast? b hp]
        have hbp : b ∈ M.pool := by rw [hpe]; simp
        obtain ⟨s, hs1, hs2⟩ := h.poolSize b hbp
        have hnd := h.poolNodup
        rw [hpe, List.nodup_append] at hnd
        obtain ⟨h', h1, h2, h3⟩ := hblock b s { M with pool := M.pool.dropLast } (some (b, I.alloc.varCount)) hs1 (by omega) hs2
          (fun hx => h.chunkPool b hx hbp) (h.poolX b hbp) (fun hx => hnd.2.2 b hx b (by simp) rfl) hnd.1
          (fun x hx => by rw [hpe]; exact List.mem_append_left _ hx)
          (fun x hx => by
            rw [hpe] at hx
            rcases List.mem_append.1 hx with hx | hx
            · exact Or.inr hx
            · exact Or.inl (List.mem_singleton.1 hx)) (fun _ _ => rfl) rfl h.fresh
          (fun b' o' hi => by simp only [Option.some.injEq, Prod.mk.injEq] at hi; omega) hv0 (fun _ => rfl)
        refine ⟨_, _, ?_, h2, h3⟩
        unfold IdealObj.insert
        simp only [ha, ht, h1, Option.map_some]
  · have ha : I.alloc.allocate M = (I.alloc.iter, { I.alloc with iter := I.alloc.iter.map fun p => (p.1, p.2 + I.alloc.varCount) }, M) := by
      unfold Allocator.allocate
      rw [if_neg hfull]
    have key : St M { I with alloc := { I.alloc with iter := I.alloc.iter.map fun p => (p.1, p.2 + I.alloc.varCount) } } c l X := by
      refine ⟨⟨h.obj.vc, h.obj.av, h.obj.good, h.obj.size, h.obj.nodup, ?_, fun hz => by simp [h.obj.zero hz], ?_, h.obj.terms, h.obj.contents⟩, h.poolSize, h.poolNodup, h.fresh,
        h.chunkPool, h.chunkX, h.poolX, h.aliveX, h.own⟩
      · intro b o hi
        cases hit : I.alloc.iter with
        | none => simp [hit] at hi
        | some p =>
          obtain ⟨b', o'⟩ := p
          simp only [hit, Option.map_some, Option.some.injEq, Prod.mk.injEq] at hi
          have := h.obj.pos b' o' hit
          omega
      · intro hc b o hi
        cases hit : I.alloc.iter with
        | none => simp [hit] at hi
        | some p =>
          obtain ⟨b', o'⟩ := p
          simp only [hit, Option.map_some, Option.some.injEq, Prod.mk.injEq] at hi
          obtain ⟨h1, h2⟩ := h.obj.iter hc b' o' hit
          rw [← hi.1]
          refine ⟨h1, fun hc0 o'' ho'' => ?_⟩
          have := h2 hc0 o'' ho''
          omega
    obtain ⟨h', h1, h2, h3⟩ := key.written he (p := I.alloc.iter) (by
      intro hc
      cases hit : I.alloc.iter with
      | none =>
        exfalso
        apply hfull
        unfold Allocator.full
        rw [hit]
        rcases h.obj.av with h1 | ⟨h1, h2⟩
        · simp; omega
        · omega
      | some p =>
        obtain ⟨b, o⟩ := p
        have hov : o + I.alloc.varCount ≤ 1024 := by
          by_contra hcon
          apply hfull
          unfold Allocator.full
          rw [hit]
          simp [exponentsPerChunk]; omega
        have hcv : I.alloc.varCount = c := by rcases h.obj.av with h1 | ⟨h1, h2⟩ <;> omega
        have hpos := h.obj.pos b o hit
        have hc5 : c ≤ 512 := by rcases h.obj.good with h1 | h1 <;> omega
        obtain ⟨g1, g2⟩ := h.obj.iter hc5 b o hit
        obtain ⟨s, g3, g4⟩ := h.obj.size b g1
        exact ⟨b, o, s, rfl, g1, g3, by omega, g2 hc⟩) (by
      intro hc b o hi o' ho'
      simp only [ho', Option.map_some, Option.some.injEq, Prod.mk.injEq] at hi
      have hcv : c ≤ I.alloc.varCount := by rcases h.obj.av with h1 | ⟨h1, h2⟩ <;> omega
      omega)
    refine ⟨_, _, ?_, h2, h3⟩
    unfold IdealObj.insert
    simp only [ha, h1, Option.map_some]

/-- Inserting copies of generators that belong to others. -/
theorem St.insertAll {c : ℕ} {X : Set ℕ} : ∀ {ps : List Addr} {es : List (List ℕ)} {M : Memory} {I : IdealObj} {l : List (List ℕ)}, St M I c l X →
    List.Forall₂ (fun p e => M.heap.read p c = some e ∧ (0 < c → ∃ b o, p = some (b, o) ∧ b ∈ X)) ps es →
    ∃ I' M', I.insertAll M ps = some (I', M') ∧ St M' I' c (l ++ es) X ∧ Same X M.heap M'.heap := by
  intro ps
  induction ps with
  | nil =>
    intro es M I l h hf
    cases hf
    exact ⟨I, M, rfl, by simpa using h, fun b _ => ⟨rfl, rfl⟩⟩
  | cons p ps ih =>
    intro es M I l h hf
    obtain ⟨e, es', h1, h2, rfl⟩ := List.forall₂_cons_left_iff.1 hf
    have he : e.length = c := by
      have := h1.1
      unfold Heap.read at this
      split at this
      · rename_i hc
        rw [← Option.some.inj this, hc]
        rfl
      · split at this
        · simp at this
        · split at this
          · simp at this
          · split at this
            · rw [← Option.some.inj this]
              simp
            · simp at this
    obtain ⟨I1, M1, g1, g2, g3⟩ := h.insert he
    obtain ⟨I2, M2, k1, k2, k3⟩ := ih (es := es') g2 (h2.imp fun q e' hq => by
      refine ⟨?_, hq.2⟩
      rw [← hq.1]
      by_cases hc : c = 0
      · simp [Heap.read, hc]
      · obtain ⟨b, o, rfl, hb⟩ := hq.2 (by omega)
        exact read_congr (g3 b hb).1 (g3 b hb).2)
    refine ⟨I2, M2, ?_, ?_, g3.trans k3⟩
    · simp only [IdealObj.insertAll, h.obj.vc, h1.1, g1, k1]
    · simpa using k2

/-- Releasing blocks. -/
theorem freeAll_spec : ∀ {bs : List ℕ} {h : Heap}, bs.Nodup → (∀ b ∈ bs, ∃ s, h.size b = some s) →
    ∃ h', h.freeAll bs = some h' ∧ (∀ x, x ∉ bs → h'.size x = h.size x) ∧ (∀ x ∈ bs, h'.size x = none) ∧ h'.data = h.data ∧ h'.next = h.next := by
  intro bs
  induction bs with
  | nil => intro h _ _; exact ⟨h, rfl, fun _ _ => rfl, fun x hx => by simp at hx, rfl, rfl⟩
  | cons b bs ih =>
    intro h hnd hal
    obtain ⟨s, hs⟩ := hal b (by simp)
    rw [List.nodup_cons] at hnd
    obtain ⟨h', h1, h2, h3, h4, h5⟩ := ih (h := { h with size := Function.update h.size b none }) hnd.2 (fun x hx => by
      obtain ⟨t, ht⟩ := hal x (by simp [hx])
      have hxb : x ≠ b := by rintro rfl; exact hnd.1 hx
      exact ⟨t, by rw [← ht]; exact Function.update_of_ne hxb _ _⟩)
    refine ⟨h', ?_, ?_, ?_, h4, h5⟩
    · simp only [Heap.freeAll, Heap.free, hs, Option.isSome_some, if_true, h1]
    · intro x hx
      rw [List.mem_cons, not_or] at hx
      rw [h2 x hx.2]
      exact Function.update_of_ne hx.1 _ _
    · intro x hx
      by_cases hxb : x ∈ bs
      · exact h3 x hxb
      · rw [h2 x hxb, (List.mem_cons.1 hx).resolve_right hxb]
        exact Function.update_self _ _ _

/-- Removing the generators. -/
theorem St.setVarCount {M : Memory} {I : IdealObj} {c : ℕ} {l : List (List ℕ)} {X : Set ℕ} (h : St M I c l X) {c' : ℕ} (hc' : GoodCount c') :
    ∃ I' M', I.setVarCount M c' = some (I', M') ∧ St M' I' c' [] X ∧ Same X M.heap M'.heap := by
  by_cases hsc : singleChunking c' = true
  · have hv : 512 < c' := by simpa [singleChunking, exponentsPerChunk] using hsc
    obtain ⟨h', h1, h2, h3, h4, h5⟩ := freeAll_spec (h := M.heap) h.obj.nodup (fun b hb => by
      obtain ⟨s, hs, _⟩ := h.obj.size b hb
      exact ⟨s, hs⟩)
    refine ⟨{ varCount := c', terms := [], alloc := { I.alloc with varCount := c', chunks := [] } }, { M with heap := h' }, ?_, ?_, ?_⟩
    · unfold IdealObj.setVarCount Allocator.reset
      rw [if_pos hsc, h1]
      rfl
    · have hp : ∀ x, x ∈ M.pool → h'.size x = M.heap.size x := fun x hx => h2 x fun hxc => h.chunkPool x hxc hx
      refine ⟨⟨rfl, Or.inl rfl, hc', fun b hb => by simp at hb, by simp, h.obj.pos, fun hz => ?_, fun h5 => ?_, fun _ p hp => by simp at hp, rfl⟩, fun b hb => ?_, h.poolNodup, ?_,
        fun b hb => by simp at hb, fun b hb => by simp at hb, h.poolX, fun b hb => ?_, fun b s hb => ?_⟩
      · simp only at hz
        omega
      · omega
      · simp only
        rw [hp b hb]
        exact h.poolSize b hb
      · intro b s hb
        simp only at hb ⊢
        rw [h5]
        by_cases hbc : b ∈ I.alloc.chunks
        · rw [h3 b hbc] at hb
          simp at hb
        · rw [h2 b hbc] at hb
          exact h.fresh b s hb
      · simp only
        rw [h2 b fun hbc => h.chunkX b hbc hb]
        exact h.aliveX b hb
      · simp only at hb ⊢
        by_cases hbc : b ∈ I.alloc.chunks
        · rw [h3 b hbc] at hb
          simp at hb
        · rw [h2 b hbc] at hb
          rcases h.own b s hb with h1 | h1 | h1
          · exact Or.inl h1
          · exact absurd h1 hbc
          · exact Or.inr (Or.inr h1)
    · intro b hb
      exact ⟨h2 b fun hbc => h.chunkX b hbc hb, by simp only [h4]⟩
  · have hv : c' ≤ 512 := by simpa [singleChunking, exponentsPerChunk] using hsc
    refine ⟨{ varCount := c', terms := [], alloc := { varCount := c', iter := none, chunks := [] } }, { M with pool := M.pool ++ I.alloc.chunks }, ?_, ?_, fun b _ => ⟨rfl, rfl⟩⟩
    · unfold IdealObj.setVarCount Allocator.reset
      rw [if_neg hsc]
      rfl
    · refine ⟨⟨rfl, Or.inl rfl, hc', fun b hb => by simp at hb, by simp, fun b o hi => by simp at hi, fun _ => rfl, fun _ b o hi => by simp at hi, fun _ p hp => by simp at hp, rfl⟩,
        fun b hb => ?_, ?_, h.fresh, fun b hb => by simp at hb, fun b hb => by simp at hb, fun b hb => ?_, h.aliveX, fun b s hb => ?_⟩
      · rcases List.mem_append.1 hb with hb | hb
        · exact h.poolSize b hb
        · exact h.obj.size b hb
      · exact List.nodup_append.2 ⟨h.poolNodup, h.obj.nodup, fun x hx y hy hxy => h.chunkPool y hy (hxy ▸ hx)⟩
      · rcases List.mem_append.1 hb with hb | hb
        · exact h.poolX b hb
        · exact h.chunkX b hb
      · rcases h.own b s hb with h1 | h1 | h1
        · exact Or.inl (List.mem_append_left _ h1)
        · exact Or.inl (List.mem_append_right _ h1)
        · exact Or.inr (Or.inr h1)

/-! ## all ideals -/

/-- The blocks of the other ideals. -/
def AllocWorld.others (w : AllocWorld) (i : ℕ) : Set ℕ := {b | ∃ j J, j ≠ i ∧ w.objs j = some J ∧ b ∈ J.alloc.chunks}

/-- The objects represent the ideals. -/
structure WorldOk (w : AllocWorld) (A : IdealsSpec) : Prop where
  objs : ∀ i, w.objs i = none ∧ A i = none ∨ ∃ I x, w.objs i = some I ∧ A i = some x ∧ ObjOk w.mem.heap I x.1 x.2
  poolSize : ∀ b ∈ w.mem.pool, ∃ s, w.mem.heap.size b = some s ∧ 1024 ≤ s
  poolNodup : w.mem.pool.Nodup
  fresh : ∀ b s, w.mem.heap.size b = some s → b < w.mem.heap.next
  pool : ∀ i I, w.objs i = some I → ∀ b ∈ I.alloc.chunks, b ∉ w.mem.pool
  disj : ∀ i j I J, i ≠ j → w.objs i = some I → w.objs j = some J → ∀ b ∈ I.alloc.chunks, b ∉ J.alloc.chunks
  own : ∀ b s, w.mem.heap.size b = some s → b ∈ w.mem.pool ∨ ∃ i I, w.objs i = some I ∧ b ∈ I.alloc.chunks

namespace WorldOk

variable {w : AllocWorld} {A : IdealsSpec}

theorem obj (h : WorldOk w A) {i : ℕ} {I : IdealObj} (hi : w.objs i = some I) : ∃ x, A i = some x ∧ ObjOk w.mem.heap I x.1 x.2 := by
  rcases h.objs i with h1 | ⟨I', x, h1, h2, h3⟩
  · rw [h1.1] at hi; simp at hi
  · rw [hi, Option.some.injEq] at h1
    exact ⟨x, h2, h1 ▸ h3⟩

theorem spec (h : WorldOk w A) {i : ℕ} {x : ℕ × List (List ℕ)} (hi : A i = some x) :
    ∃ I, w.objs i = some I ∧ ObjOk w.mem.heap I x.1 x.2 := by
  rcases h.objs i with h1 | ⟨I, x', h1, h2, h3⟩
  · rw [h1.2] at hi; simp at hi
  · rw [hi, Option.some.injEq] at h2
    exact ⟨I, h1, h2 ▸ h3⟩

theorem spec_none (h : WorldOk w A) {i : ℕ} (hi : A i = none) : w.objs i = none := by
  rcases h.objs i with h1 | ⟨I, x', h1, h2, h3⟩
  · exact h1.1
  · rw [hi] at h2; simp at h2

theorem aliveOthers (h : WorldOk w A) (i : ℕ) : ∀ b ∈ w.others i, ∃ s, w.mem.heap.size b = some s := by
  rintro b ⟨j, J, h1, h2, h3⟩
  obtain ⟨x, _, h5⟩ := h.obj h2
  obtain ⟨s, hs, _⟩ := h5.size b h3
  exact ⟨s, hs⟩

theorem poolOthers (h : WorldOk w A) (i : ℕ) : ∀ b ∈ w.mem.pool, b ∉ w.others i := by
  rintro b hb ⟨j, J, h1, h2, h3⟩
  exact h.pool j J h2 b h3 hb

theorem st (h : WorldOk w A) {i : ℕ} {I : IdealObj} (hi : w.objs i = some I) {c : ℕ} {l : List (List ℕ)} (hA : A i = some (c, l)) :
    St w.mem I c l (w.others i) := by
  obtain ⟨x, hx, hI⟩ := h.obj hi
  rw [hA, Option.some.injEq] at hx
  subst hx
  refine ⟨hI, h.poolSize, h.poolNodup, h.fresh, h.pool i I hi, ?_, h.poolOthers i, h.aliveOthers i, ?_⟩
  · rintro b hb ⟨j, J, h1, h2, h3⟩
    exact h.disj j i J I h1 h2 hi b h3 hb
  · intro b s hb
    rcases h.own b s hb with h1 | ⟨j, J, h1, h2⟩
    · exact Or.inl h1
    · by_cases hj : j = i
      · subst hj
        rw [hi, Option.some.injEq] at h1
        exact Or.inr (Or.inl (h1 ▸ h2))
      · exact Or.inr (Or.inr ⟨j, J, hj, h1, h2⟩)

theorem stMake (h : WorldOk w A) {i : ℕ} (hi : w.objs i = none) {c : ℕ} (hc : GoodCount c) : St w.mem (.make c) c [] (w.others i) := by
  refine ⟨⟨rfl, ?_, hc, fun b hb => by simp [IdealObj.make, Allocator.make] at hb, by simp [IdealObj.make, Allocator.make],
    fun b o hi => by simp [IdealObj.make, Allocator.make] at hi, fun _ => rfl, fun _ b o hi => by simp [IdealObj.make, Allocator.make] at hi,
    fun _ p hp => by simp [IdealObj.make] at hp, rfl⟩, h.poolSize, h.poolNodup, h.fresh, fun b hb => by simp [IdealObj.make, Allocator.make] at hb,
    fun b hb => by simp [IdealObj.make, Allocator.make] at hb, h.poolOthers i, h.aliveOthers i, ?_⟩
  · by_cases h0 : c = 0
    · exact Or.inr ⟨h0, by simp [IdealObj.make, Allocator.make, h0]⟩
    · exact Or.inl (by simp [IdealObj.make, Allocator.make, h0])
  · intro b s hb
    rcases h.own b s hb with h1 | ⟨j, J, h1, h2⟩
    · exact Or.inl h1
    · refine Or.inr (Or.inr ⟨j, J, ?_, h1, h2⟩)
      rintro rfl
      rw [hi] at h1
      simp at h1

theorem update (h : WorldOk w A) {i : ℕ} {M : Memory} {I : IdealObj} {x : ℕ × List (List ℕ)} (hs : St M I x.1 x.2 (w.others i))
    (hsame : Same (w.others i) w.mem.heap M.heap) :
    WorldOk { objs := Function.update w.objs i (some I), mem := M } (Function.update A i (some x)) := by
  have hother : ∀ {j J}, j ≠ i → Function.update w.objs i (some I) j = some J → w.objs j = some J := by
    intro j J hj hJ
    rwa [Function.update_of_ne hj] at hJ
  refine ⟨fun j => ?_, hs.poolSize, hs.poolNodup, hs.fresh, fun j J hJ b hb => ?_, fun j k J K hjk hJ hK b hb => ?_, fun b s hb => ?_⟩
  · by_cases hj : j = i
    · subst hj
      exact Or.inr ⟨I, x, by simp, by simp, hs.obj⟩
    · rcases h.objs j with h1 | ⟨J, y, h1, h2, h3⟩
      · left
        simpa [Function.update_of_ne hj] using h1
      · exact Or.inr ⟨J, y, by simpa [Function.update_of_ne hj] using h1, by simpa [Function.update_of_ne hj] using h2,
          h3.frame fun b hb => hsame b ⟨j, J, hj, h1, hb⟩⟩
  · by_cases hj : j = i
    · subst hj
      simp only [Function.update_self, Option.some.injEq] at hJ
      exact hs.chunkPool b (hJ ▸ hb)
    · intro hbp
      exact hs.poolX b hbp ⟨j, J, hj, hother hj hJ, hb⟩
  · by_cases hj : j = i
    · subst hj
      simp only [Function.update_self, Option.some.injEq] at hJ
      intro hbK
      exact hs.chunkX b (hJ ▸ hb) ⟨k, K, Ne.symm hjk, hother (Ne.symm hjk) hK, hbK⟩
    · by_cases hk : k = i
      · subst hk
        simp only [Function.update_self, Option.some.injEq] at hK
        intro hbK
        exact hs.chunkX b (hK ▸ hbK) ⟨j, J, hj, hother hj hJ, hb⟩
      · exact h.disj j k J K hjk (hother hj hJ) (hother hk hK) b hb
  · rcases hs.own b s hb with h1 | h1 | ⟨j, J, hj, h1, h2⟩
    · exact Or.inl h1
    · exact Or.inr ⟨i, I, by simp, h1⟩
    · exact Or.inr ⟨j, J, by simpa [Function.update_of_ne hj] using h1, h2⟩

/-- Reading another ideal. -/
theorem readOther (h : WorldOk w A) {i j : ℕ} (hij : j ≠ i) {J : IdealObj} (hj : w.objs j = some J) {y : ℕ × List (List ℕ)} (hy : A j = some y) :
    List.Forall₂ (fun p e => w.mem.heap.read p y.1 = some e ∧ (0 < y.1 → ∃ b o, p = some (b, o) ∧ b ∈ w.others i)) J.terms y.2 := by
  obtain ⟨y', hy', hJ⟩ := h.obj hj
  rw [hy, Option.some.injEq] at hy'
  subst hy'
  have hcon := hJ.contents
  unfold IdealObj.contents at hcon
  rw [hJ.vc] at hcon
  have hblk : ∀ p ∈ J.terms, 0 < y.1 → ∃ b o, p = some (b, o) ∧ b ∈ w.others i := by
    intro p hp hc
    obtain ⟨b, o, s, h1, h2, _⟩ := hJ.terms hc p hp
    exact ⟨b, o, h1, j, J, hij, hj, h2⟩
  generalize J.terms = ps at hcon hblk
  generalize y.2 = es at hcon
  clear hy hJ
  induction ps generalizing es with
  | nil =>
    simp only [List.mapM_nil, Option.pure_def, Option.some.injEq] at hcon
    rw [← hcon]
    exact .nil
  | cons p ps ih =>
    rw [List.mapM_cons] at hcon
    cases h1 : w.mem.heap.read p y.1 with
    | none => rw [h1] at hcon; simp at hcon
    | some e =>
      cases h2 : ps.mapM fun q => w.mem.heap.read q y.1 with
      | none => rw [h1, h2] at hcon; simp at hcon
      | some es' =>
        rw [h1, h2] at hcon
        simp only [Option.pure_def, Option.bind_eq_bind, Option.bind_some, Option.some.injEq] at hcon
        rw [← hcon]
        exact .cons ⟨h1, hblk p (by simp)⟩ (ih (fun q hq => hblk q (by simp [hq])) es' h2)

/-- Removing an ideal. -/
theorem remove (h : WorldOk w A) {i : ℕ} {M : Memory} {I : IdealObj} {x : ℕ × List (List ℕ)} (hs : St M I x.1 x.2 (w.others i))
    (hI : I.alloc.chunks = []) (hsame : Same (w.others i) w.mem.heap M.heap) :
    WorldOk { objs := Function.update w.objs i none, mem := M } (Function.update A i none) := by
  have hother : ∀ {j J}, Function.update w.objs i none j = some J → j ≠ i ∧ w.objs j = some J := by
    intro j J hJ
    by_cases hj : j = i
    · subst hj
      simp at hJ
    · exact ⟨hj, by rwa [Function.update_of_ne hj] at hJ⟩
  refine ⟨fun j => ?_, hs.poolSize, hs.poolNodup, hs.fresh, fun j J hJ b hb => ?_, fun j k J K hjk hJ hK b hb => ?_, fun b s hb => ?_⟩
  · by_cases hj : j = i
    · subst hj
      exact Or.inl ⟨by simp, by simp⟩
    · rcases h.objs j with h1 | ⟨J, y, h1, h2, h3⟩
      · left
        simpa [Function.update_of_ne hj] using h1
      · exact Or.inr ⟨J, y, by simpa [Function.update_of_ne hj] using h1, by simpa [Function.update_of_ne hj] using h2,
          h3.frame fun b hb => hsame b ⟨j, J, hj, h1, hb⟩⟩
  · intro hbp
    exact hs.poolX b hbp ⟨j, J, (hother hJ).1, (hother hJ).2, hb⟩
  · exact h.disj j k J K hjk (hother hJ).2 (hother hK).2 b hb
  · rcases hs.own b s hb with h1 | h1 | ⟨j, J, hj, h1, h2⟩
    · exact Or.inl h1
    · rw [hI] at h1
      simp at h1
    · exact Or.inr ⟨j, J, by simpa [Function.update_of_ne hj] using h1, h2⟩

/-- Every call does what it should. -/
theorem run (h : WorldOk w A) {op : AllocOp} (hg : op.Good) {A' : IdealsSpec} (hA : op.spec A = some A') :
    ∃ w', op.run w = some w' ∧ WorldOk w' A' := by
  cases op with
  | make i c =>
    cases hi : A i with
    | some x => simp [AllocOp.spec, hi] at hA
    | none =>
      simp only [AllocOp.spec, hi, Option.isSome_none, Bool.false_eq_true, if_false, Option.some.injEq] at hA
      subst hA
      have hw := h.spec_none hi
      exact ⟨_, by simp only [AllocOp.run, hw], h.update (x := (c, [])) (h.stMake hw hg) fun b _ => ⟨rfl, rfl⟩⟩
  | copy i j =>
    cases hj : A j with
    | none => simp [AllocOp.spec, hj] at hA
    | some y =>
      cases hi : A i with
      | some x => simp [AllocOp.spec, hi, hj] at hA
      | none =>
        simp only [AllocOp.spec, hi, hj, Option.isSome_none, Bool.false_eq_true, if_false, Option.some.injEq] at hA
        subst hA
        have hw := h.spec_none hi
        obtain ⟨J, hJ, hJo⟩ := h.spec hj
        have hji : j ≠ i := by rintro rfl; rw [hi] at hj; simp at hj
        obtain ⟨I', M', h1, h2, h3⟩ := (h.stMake hw hJo.good).insertAll (h.readOther hji hJ hj)
        exact ⟨{ objs := Function.update w.objs i (some I'), mem := M' }, by simp only [AllocOp.run, hw, hJ, hJo.vc, h1, Option.map_some],
          h.update (x := y) (by simpa using h2) h3⟩
  | insert i e =>
    cases hi : A i with
    | none => simp [AllocOp.spec, hi] at hA
    | some x =>
      simp only [AllocOp.spec, hi] at hA
      split at hA
      · rename_i he
        rw [Option.some.injEq] at hA
        subst hA
        obtain ⟨I, hI, hIo⟩ := h.spec hi
        obtain ⟨I', M', h1, h2, h3⟩ := (h.st hI hi).insert he
        exact ⟨_, by simp only [AllocOp.run, hI, hIo.vc, he, if_true, h1, Option.map_some], h.update (x := (x.1, x.2 ++ [e])) h2 h3⟩
      · simp at hA
  | clear i =>
    cases hi : A i with
    | none => simp [AllocOp.spec, hi] at hA
    | some x =>
      simp only [AllocOp.spec, hi, Option.some.injEq] at hA
      subst hA
      obtain ⟨I, hI, hIo⟩ := h.spec hi
      obtain ⟨I', M', h1, h2, h3⟩ := (h.st hI hi).setVarCount hIo.good
      exact ⟨_, by simp only [AllocOp.run, hI, hIo.vc, h1, Option.map_some], h.update (x := (x.1, [])) h2 h3⟩
  | setVarCount i c =>
    cases hi : A i with
    | none => simp [AllocOp.spec, hi] at hA
    | some x =>
      simp only [AllocOp.spec, hi, Option.isSome_some, if_true, Option.some.injEq] at hA
      subst hA
      obtain ⟨I, hI, hIo⟩ := h.spec hi
      obtain ⟨I', M', h1, h2, h3⟩ := (h.st hI hi).setVarCount hg
      exact ⟨_, by simp only [AllocOp.run, hI, h1, Option.map_some], h.update (x := (c, [])) h2 h3⟩
  | assign i j =>
    cases hi : A i with
    | none => simp [AllocOp.spec, hi] at hA
    | some x =>
      cases hj : A j with
      | none => simp [AllocOp.spec, hi, hj] at hA
      | some y =>
        simp only [AllocOp.spec, hi, hj, Option.some.injEq] at hA
        subst hA
        obtain ⟨I, hI, hIo⟩ := h.spec hi
        obtain ⟨J, hJ, hJo⟩ := h.spec hj
        obtain ⟨I', M', h1, h2, h3⟩ := (h.st hI hi).setVarCount hJo.good
        by_cases hij : i = j
        · subst hij
          rw [hi, Option.some.injEq] at hj
          subst hj
          refine ⟨{ objs := Function.update w.objs i (some I'), mem := M' }, ?_, ?_⟩
          · rw [hI, Option.some.injEq] at hJ
            subst hJ
            simp only [AllocOp.run, hI, hJo.vc, h1, if_true, IdealObj.insertAll, Option.map_some]
          · rw [if_pos rfl]
            exact h.update (x := (x.1, [])) h2 h3
        · obtain ⟨I'', M'', g1, g2, g3⟩ := h2.insertAll (ps := J.terms) (es := y.2) ((h.readOther (Ne.symm hij) hJ hj).imp fun p e hp => by
            refine ⟨?_, hp.2⟩
            rw [← hp.1]
            by_cases hc : y.1 = 0
            · simp [Heap.read, hc]
            · obtain ⟨b, o, rfl, hb⟩ := hp.2 (by omega)
              exact read_congr (h3 b hb).1 (h3 b hb).2)
          refine ⟨{ objs := Function.update w.objs i (some I''), mem := M'' }, ?_, ?_⟩
          · simp only [AllocOp.run, hI, hJ, hJo.vc, h1, if_neg hij, g1, Option.map_some]
          · rw [if_neg hij]
            exact h.update (x := y) (by simpa using g2) (h3.trans g3)
  | swap i j =>
    cases hi : A i with
    | none => simp [AllocOp.spec, hi] at hA
    | some x =>
      cases hj : A j with
      | none => simp [AllocOp.spec, hi, hj] at hA
      | some y =>
        simp only [AllocOp.spec, hi, hj, Option.some.injEq] at hA
        subst hA
        obtain ⟨I, hI, hIo⟩ := h.spec hi
        obtain ⟨J, hJ, hJo⟩ := h.spec hj
        refine ⟨{ w with objs := Function.update (Function.update w.objs i (some J)) j (some I) }, by simp only [AllocOp.run, hI, hJ], ?_⟩
        -- the new objects are the old ones with other names
        have hname : ∀ k, Function.update (Function.update w.objs i (some J)) j (some I) k = w.objs (Equiv.swap i j k) ∧
            Function.update (Function.update A i (some y)) j (some x) k = A (Equiv.swap i j k) := by
          intro k
          by_cases hkj : k = j
          · subst hkj
            simp [hI, hi]
          · by_cases hki : k = i
            · subst hki
              simp [Function.update_of_ne hkj, hJ, hj]
            · rw [Equiv.swap_apply_of_ne_of_ne hki hkj]
              simp [Function.update_of_ne hkj, Function.update_of_ne hki]
        refine ⟨fun k => ?_, h.poolSize, h.poolNodup, h.fresh, fun k K hK b hb => ?_, fun k m K L hkm hK hL b hb => ?_, fun b s hb => ?_⟩
        · simp only [(hname k).1, (hname k).2]
          exact h.objs _
        · exact h.pool _ K ((hname k).1.symm.trans hK) b hb
        · exact h.disj _ _ K L (fun hkm' => hkm ((Equiv.swap i j).injective hkm')) ((hname k).1.symm.trans hK) ((hname m).1.symm.trans hL) b hb
        · rcases h.own b s hb with h1 | ⟨k, K, h1, h2⟩
          · exact Or.inl h1
          · refine Or.inr ⟨Equiv.swap i j k, K, ?_, h2⟩
            simp only [(hname _).1, Equiv.swap_apply_self, h1]
  | destroy i =>
    cases hi : A i with
    | none => simp [AllocOp.spec, hi] at hA
    | some x =>
      simp only [AllocOp.spec, hi, Option.isSome_some, if_true, Option.some.injEq] at hA
      subst hA
      obtain ⟨I, hI, hIo⟩ := h.spec hi
      obtain ⟨I', M', h1, h2, h3⟩ := (h.st hI hi).setVarCount (c' := 0) (Or.inl (by omega))
      have hr : I.alloc.reset w.mem 0 = some ({ varCount := 0, iter := none, chunks := [] }, { w.mem with pool := w.mem.pool ++ I.alloc.chunks }) := by
        simp [Allocator.reset, singleChunking]
      unfold IdealObj.setVarCount at h1
      rw [hr] at h1
      simp only [Option.map_some, Option.some.injEq, Prod.mk.injEq] at h1
      obtain ⟨rfl, rfl⟩ := h1
      exact ⟨_, by simp only [AllocOp.run, hI, hr, Option.map_some], h.remove (x := (0, [])) h2 rfl h3⟩
  | clearStaticCache =>
    simp only [AllocOp.spec, Option.some.injEq] at hA
    subst hA
    obtain ⟨h', h1, h2, h3, h4, h5⟩ := freeAll_spec (h := w.mem.heap) h.poolNodup (fun b hb => by
      obtain ⟨s, hs, _⟩ := h.poolSize b hb
      exact ⟨s, hs⟩)
    refine ⟨{ w with mem := { heap := h', pool := [] } }, by simp only [AllocOp.run, h1, Option.map_some], ?_⟩
    refine ⟨fun i => ?_, fun b hb => by simp at hb, by simp, fun b s hb => ?_, fun i I _ b _ => by simp, h.disj, fun b s hb => ?_⟩
    · rcases h.objs i with g | ⟨I, x, g1, g2, g3⟩
      · exact Or.inl g
      · exact Or.inr ⟨I, x, g1, g2, g3.frame fun b hb => ⟨h2 b fun hbp => h.pool i I g1 b hb hbp, by simp only [h4]⟩⟩
    · simp only at hb ⊢
      rw [h5]
      by_cases hbp : b ∈ w.mem.pool
      · rw [h3 b hbp] at hb; simp at hb
      · rw [h2 b hbp] at hb
        exact h.fresh b s hb
    · simp only at hb ⊢
      by_cases hbp : b ∈ w.mem.pool
      · rw [h3 b hbp] at hb; simp at hb
      · rw [h2 b hbp] at hb
        exact Or.inr ((h.own b s hb).resolve_left hbp)

theorem runAll : ∀ {ops : List AllocOp} {w : AllocWorld} {A : IdealsSpec}, WorldOk w A → (∀ op ∈ ops, op.Good) → ∀ {A' : IdealsSpec},
    AllocOp.specAll A ops = some A' → ∃ w', AllocOp.runAll w ops = some w' ∧ WorldOk w' A' := by
  intro ops
  induction ops with
  | nil =>
    intro w A h _ A' hA
    simp only [AllocOp.specAll, Option.some.injEq] at hA
    exact ⟨w, rfl, hA ▸ h⟩
  | cons op ops ih =>
    intro w A h hg A' hA
    cases h1 : op.spec A with
    | none => simp [AllocOp.specAll, h1] at hA
    | some A1 =>
      simp only [AllocOp.specAll, h1] at hA
      obtain ⟨w1, g1, g2⟩ := h.run (hg op (by simp)) h1
      obtain ⟨w2, k1, k2⟩ := ih g2 (fun o ho => hg o (by simp [ho])) hA
      exact ⟨w2, by simp only [AllocOp.runAll, g1, k1], k2⟩

theorem init (data : ℕ → ℕ → ℕ) : WorldOk (.init data) fun _ => none where
  objs _ := Or.inl ⟨rfl, rfl⟩
  poolSize b hb := by simp [AllocWorld.init] at hb
  poolNodup := by simp [AllocWorld.init]
  fresh b s hb := by simp [AllocWorld.init] at hb
  pool i I hI := by simp [AllocWorld.init] at hI
  disj i j I J _ hI := by simp [AllocWorld.init] at hI
  own b s hb := by simp [AllocWorld.init] at hb

end WorldOk

/-! ## the theorems -/

/-- **C34 (partial)**: in every history of allowed calls in which no ideal is made with 513 to 1023 variables, there is no
access outside of allocated memory and no memory is released twice, and at the end every ideal contains exactly what was put
into it: ideals do not overwrite each other. What is missing: histories with such numbers of variables, see
`C34_exact`. -/
theorem C34_partial (data : ℕ → ℕ → ℕ) {ops : List AllocOp} (hg : ∀ op ∈ ops, op.Good) {A : IdealsSpec}
    (hA : AllocOp.specAll (fun _ => none) ops = some A) :
    ∃ w, AllocOp.runAll (.init data) ops = some w ∧
      ∀ i, (w.objs i).map (fun I => (I.varCount, I.contents w.mem.heap)) = (A i).map fun x => (x.1, some x.2) := by
  obtain ⟨w, h1, h2⟩ := (WorldOk.init data).runAll hg hA
  refine ⟨w, h1, fun i => ?_⟩
  rcases h2.objs i with h3 | ⟨I, x, h3, h4, h5⟩
  · simp [h3.1, h3.2]
  · simp [h3, h4, h5.vc, h5.contents]

/-- **C34 (partial)**: when all ideals are gone and the cache has been cleared, all memory has been released. -/
theorem C34_released_partial (data : ℕ → ℕ → ℕ) {ops : List AllocOp} (hg : ∀ op ∈ ops, op.Good) {A : IdealsSpec}
    (hA : AllocOp.specAll (fun _ => none) ops = some A) (hall : ∀ i, A i = none) :
    ∃ w, AllocOp.runAll (.init data) (ops ++ [.clearStaticCache]) = some w ∧ ∀ b, w.mem.heap.size b = none := by
  have hA' : AllocOp.specAll (fun _ => none) (ops ++ [.clearStaticCache]) = some A := by
    have : ∀ (l : List AllocOp) (B : IdealsSpec), AllocOp.specAll B (l ++ [.clearStaticCache]) = AllocOp.specAll B l := by
      intro l
      induction l with
      | nil => intro B; rfl
      | cons op l ih =>
        intro B
        simp only [List.cons_append, AllocOp.specAll]
        cases op.spec B with
        | none => rfl
        | some B' => exact ih B'
    rw [this, hA]
  obtain ⟨w, h1, h2⟩ := (WorldOk.init data).runAll (ops := ops ++ [.clearStaticCache]) (fun op hop => by
    rcases List.mem_append.1 hop with h | h
    · exact hg op h
    · rw [List.mem_singleton.1 h]; trivial) hA'
  refine ⟨w, h1, fun b => ?_⟩
  have hpool : w.mem.pool = [] := by
    have : ∀ (l : List AllocOp) (v v' : AllocWorld), AllocOp.runAll v (l ++ [.clearStaticCache]) = some v' → v'.mem.pool = [] := by
      intro l
      induction l with
      | nil =>
        intro v v' h
        simp only [List.nil_append, AllocOp.runAll, AllocOp.run] at h
        cases h3 : v.mem.heap.freeAll v.mem.pool with
        | none => simp [h3] at h
        | some h' =>
          simp only [h3, Option.map_some, Option.some.injEq] at h
          rw [← h]
      | cons op l ih =>
        intro v v' h
        simp only [List.cons_append, AllocOp.runAll] at h
        cases h3 : op.run v with
        | none => simp [h3] at h
        | some v1 =>
          simp only [h3] at h
          exact ih v1 v' h
    exact this ops _ _ h1
  cases h3 : w.mem.heap.size b with
  | none => rfl
  | some s =>
    rcases h2.own b s h3 with h4 | ⟨i, I, h4, _⟩
    · rw [hpool] at h4; simp at h4
    · obtain ⟨x, h5, _⟩ := h2.obj h4
      rw [hall i] at h5
      simp at h5

/-- The numbers of variables are in `S`. -/
def AllocOp.CountIn (S : Set ℕ) : AllocOp → Prop
  | .make _ c => c ∈ S
  | .setVarCount _ c => c ∈ S
  | _ => True

/-- A history that goes wrong for 513 to 1023 variables: the block of the destroyed ideal is too small for the next one. -/
def overflowHistory (c : ℕ) : List AllocOp :=
  [.make 0 c, .insert 0 (List.replicate c 0), .destroy 0, .make 0 512, .insert 0 (List.replicate 512 0), .insert 0 (List.replicate 512 0)]

/-- **C34 (exact)**: the storage is memory safe for the numbers of variables in `S` exactly when none of them is between
513 and 1023. (`S` contains 512, so that there is room for only two generators in a block.) -/
theorem C34_exact (data : ℕ → ℕ → ℕ) {S : Set ℕ} (hS : 512 ∈ S) :
    (∀ ops : List AllocOp, (∀ op ∈ ops, op.CountIn S) → (AllocOp.specAll (fun _ => none) ops).isSome → (AllocOp.runAll (.init data) ops).isSome) ↔
      ∀ c ∈ S, c ≤ 512 ∨ 1024 ≤ c := by
  constructor
  · intro h c hc
    by_contra hbad
    have h1 : 512 < c := by omega
    have h2 : c < 1024 := by omega
    have hrep : List.replicate c 0 ≠ [] := by
      intro h3
      have := congrArg List.length h3
      simp at this
      omega
    have hrun := h (overflowHistory c) (by
      intro op hop
      simp only [overflowHistory, List.mem_cons, List.not_mem_nil, or_false] at hop
      rcases hop with rfl | rfl | rfl | rfl | rfl | rfl
      · exact hc
      · trivial
      · trivial
      · exact hS
      · trivial
      · trivial) (by
      simp [-List.reduceReplicate, overflowHistory, AllocOp.specAll, AllocOp.spec])
    have hc0 : c ≠ 0 := by omega
    have hpos : 0 < c := by omega
    have hnle : ¬ (1024 ≤ c) := by omega
    simp [-List.reduceReplicate, overflowHistory, AllocOp.runAll, AllocOp.run, AllocWorld.init, IdealObj.make, Allocator.make, IdealObj.insert, Allocator.allocate, Allocator.full,
      hc0, hpos, singleChunking, exponentsPerChunk, h1, Heap.new, Heap.write, Allocator.reset, Memory.takeChunk, h1.le, hnle] at hrun
  · intro h ops hops hsome
    obtain ⟨A, hA⟩ := Option.isSome_iff_exists.1 hsome
    obtain ⟨w, hw, _⟩ := C34_partial data (ops := ops) (fun op hop => by
      have := hops op hop
      cases op <;> first | exact h _ this | trivial) hA
    rw [hw]
    rfl

/-- Memory that has been released is used: the iterator is not reset when the new number of variables is larger than
512. -/
theorem C34_use_after_free (data : ℕ → ℕ → ℕ) : ∃ w : AllocWorld,
    AllocOp.runAll (.init data) [.make 0 300, .insert 0 (List.replicate 300 0), .setVarCount 0 600] = some w ∧
      (∀ b, w.mem.heap.size b = none) ∧
      ∃ I, w.objs 0 = some I ∧ (I.alloc.allocate w.mem).1 = some (0, 300) ∧ (I.alloc.allocate w.mem).2.2.heap.size 0 = none := by
  refine ⟨_, by simp [-List.reduceReplicate, AllocOp.runAll, AllocOp.run, AllocWorld.init, IdealObj.make, Allocator.make, IdealObj.insert, Allocator.allocate, Allocator.full,
      singleChunking, exponentsPerChunk, Heap.new, Heap.write, IdealObj.setVarCount, Allocator.reset, Memory.takeChunk, Heap.freeAll, Heap.free]; rfl, ?_⟩
  simp [-List.reduceReplicate, Allocator.allocate, Allocator.full, exponentsPerChunk]

/-- Assigning an ideal to itself removes its generators. -/
theorem C34_self_assignment (data : ℕ → ℕ → ℕ) {c : ℕ} (hc : GoodCount c) {e : List ℕ} (he : e.length = c) :
    ∃ w I, AllocOp.runAll (.init data) [.make 0 c, .insert 0 e, .assign 0 0] = some w ∧ w.objs 0 = some I ∧ I.terms = [] := by
  have hA : AllocOp.specAll (fun _ => none) [.make 0 c, .insert 0 e, .assign 0 0] = some (Function.update (fun _ => none : IdealsSpec) 0 (some (c, []))) := by
    simp [AllocOp.specAll, AllocOp.spec, he]
  obtain ⟨w, h1, h2⟩ := C34_partial data (fun op hop => by
    simp only [List.mem_cons, List.not_mem_nil, or_false] at hop
    rcases hop with rfl | rfl | rfl
    · exact hc
    · trivial
    · trivial) hA
  have h3 := h2 0
  cases hI : w.objs 0 with
  | none => simp [hI] at h3
  | some I =>
    simp only [hI, Option.map_some, Function.update_self, Option.some.injEq, Prod.mk.injEq] at h3
    refine ⟨w, I, h1, hI, ?_⟩
    have h4 := h3.2
    unfold IdealObj.contents at h4
    cases ht : I.terms with
    | nil => rfl
    | cons p ps =>
      rw [ht, List.mapM_cons] at h4
      cases h5 : w.mem.heap.read p I.varCount <;> cases h6 : (ps.mapM fun q => w.mem.heap.read q I.varCount) <;> simp [h5, h6] at h4

/-! ## the hypotheses can be met -/

/-- A history with several ideals, reuse of blocks and a change to many variables. -/
def allocHistory : List AllocOp :=
  [.make 0 2, .insert 0 [1, 2], .make 1 2, .insert 1 [3, 4], .insert 0 [5, 6], .copy 2 0, .destroy 1, .setVarCount 0 3, .insert 0 [7, 8, 9],
    .swap 0 2, .assign 2 0, .clearStaticCache]

example : ∀ op ∈ allocHistory, op.Good := by
  simp [allocHistory, AllocOp.Good, GoodCount]

example : (AllocOp.specAll (fun _ => none) allocHistory).map (fun A => (A 0, A 1, A 2)) =
    some (some (2, [[1, 2], [5, 6]]), none, some (2, [[1, 2], [5, 6]])) := by
  simp [allocHistory, AllocOp.specAll, AllocOp.spec]

example : ∀ op ∈ [AllocOp.make 0 2000, .insert 0 (List.replicate 2000 1), .setVarCount 0 2, .insert 0 [1, 1], .setVarCount 0 1024,
    .insert 0 (List.replicate 1024 3), .destroy 0], op.Good := by
  simp [-List.reduceReplicate, AllocOp.Good, GoodCount]

end Frobby
