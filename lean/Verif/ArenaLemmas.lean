import Verif.ArenaSpec
import Mathlib.Data.List.Forall2
import Mathlib.Data.List.Flatten

/-!
# Lemmas on arenas
-/

namespace Frobby

theorem alignUp_eq {s : ℕ} (h : s + 7 < 2 ^ 64) : alignUp s = (s + 7) / 8 * 8 := by
  rw [alignUp, Nat.mod_eq_of_lt (by omega)]

/-- The size of a buffer with what is added to it. -/
def padded (s : ℕ) : ℕ := (max s 1 + 7) / 8 * 8

theorem padded_ge (s : ℕ) : max s 1 ≤ padded s := by unfold padded; omega
theorem padded_mod (s : ℕ) : padded s % 8 = 0 := by unfold padded; omega

/-- The buffers, with the last first, cover the memory between two addresses. -/
def Tiles (beg : ℕ) : ℕ → List (ℕ × ℕ) → Prop
  | e, [] => e = beg
  | e, x :: L => e = x.1 + padded x.2 ∧ Tiles beg x.1 L

theorem Tiles.le {beg e : ℕ} {L : List (ℕ × ℕ)} (h : Tiles beg e L) : beg ≤ e := by
  induction L generalizing e with
  | nil => exact (show e = beg from h) ▸ Nat.le_refl _
  | cons x L ih => have := ih h.2; have := h.1; omega

theorem Tiles.mem {beg e : ℕ} {L : List (ℕ × ℕ)} (h : Tiles beg e L) {x : ℕ × ℕ} (hx : x ∈ L) : beg ≤ x.1 ∧ x.1 + padded x.2 ≤ e := by
  induction L generalizing e with
  | nil => simp at hx
  | cons y L ih =>
    rcases List.mem_cons.1 hx with rfl | hx
    · exact ⟨h.2.le, by have := h.1; omega⟩
    · have := ih h.2 hx
      have := h.1
      omega

theorem Tiles.mod {beg e : ℕ} {L : List (ℕ × ℕ)} (h : Tiles beg e L) (hb : beg % 8 = 0) : (∀ x ∈ L, x.1 % 8 = 0) ∧ e % 8 = 0 := by
  induction L generalizing e with
  | nil => exact ⟨by simp, by rw [show e = beg from h, hb]⟩
  | cons y L ih =>
    obtain ⟨h1, h2⟩ := ih h.2
    refine ⟨fun x hx => ?_, ?_⟩
    · rcases List.mem_cons.1 hx with rfl | hx
      · exact h2
      · exact h1 x hx
    · have := h.1
      have := padded_mod y.2
      omega

theorem Tiles.apart {beg e : ℕ} {L : List (ℕ × ℕ)} (h : Tiles beg e L) : L.Pairwise Apart := by
  induction L generalizing e with
  | nil => exact .nil
  | cons y L ih =>
    refine .cons (fun x hx => .inr ?_) (ih h.2)
    have := h.2.mem hx
    have := padded_ge x.2
    omega

theorem Tiles.drop {beg e : ℕ} {A L : List (ℕ × ℕ)} {x : ℕ × ℕ} (h : Tiles beg e (A ++ x :: L)) : Tiles beg x.1 L := by
  induction A generalizing e with
  | nil => exact h.2
  | cons y A ih => exact ih h.2

/-- The memory of a block. -/
def ArenaBlock.chunk (b : ArenaBlock) : ℕ × ℕ := (b.beg, b.fin - b.beg + 32)

/-- The addresses of a block are in order. -/
structure ArenaBlock.Ok (b : ArenaBlock) : Prop where
  pos : 0 < b.beg
  begMod : b.beg % 8 = 0
  finMod : b.fin % 8 = 0
  le : b.beg < b.fin
  top : b.fin + 32 ≤ 2 ^ 64

/-- The memory of the blocks does not overlap. -/
def ArenaBlock.Off (b c : ArenaBlock) : Prop := b.fin + 32 ≤ c.beg ∨ c.fin + 32 ≤ b.beg

/-- The blocks of the arena. -/
def Arena.blocks (a : Arena) : List ArenaBlock := if a.cur.isNull then [] else a.cur :: a.prev

/-- The invariant: which buffers are in which block. -/
structure ArenaInv (tidy : Bool) (a : Arena) (L0 : List (ℕ × ℕ)) (Ls : List (List (ℕ × ℕ))) : Prop where
  null : a.cur.beg = 0 → a = Arena.empty
  ok : ∀ b ∈ a.blocks, b.Ok
  heap : a.heap = a.blocks.map ArenaBlock.chunk
  off : a.blocks.Pairwise ArenaBlock.Off
  curTiles : Tiles a.cur.beg a.cur.free L0
  curLe : a.cur.free ≤ a.cur.fin
  prevTiles : List.Forall₂ (fun b L => ∃ e ≤ b.fin, Tiles b.beg e L ∧ (tidy = true → L ≠ [] ∧ b.free = e)) a.prev Ls

theorem isInBlock_iff {b : ArenaBlock} (h : b.Ok) {p : ℕ} (hp : p < 2 ^ 64) : b.isInBlock p = true ↔ b.beg ≤ p ∧ p < b.fin := by
  have h1 := h.pos
  have h2 := h.le
  have h3 := h.top
  rw [ArenaBlock.isInBlock, decide_eq_true_eq, ArenaBlock.size]
  by_cases hb : b.beg ≤ p
  · rw [show p + 18446744073709551616 - b.beg = (p - b.beg) + 18446744073709551616 by omega, Nat.add_mod_right, Nat.mod_eq_of_lt (by omega)]
    omega
  · rw [Nat.mod_eq_of_lt (by omega)]
    omega

theorem deleteChunk_cons {c d : ℕ × ℕ} {h : List (ℕ × ℕ)} (hp : 0 < d.1) (hc : c.1 ≠ d.1) : deleteChunk (c :: d :: h) d.1 = .ok (c :: h) := by
  rw [deleteChunk, if_neg (by omega), if_pos (by simp)]
  rw [List.eraseP_cons_of_neg (by simpa using hc), List.eraseP_cons_of_pos (by simp)]

theorem deleteChunk_head {d : ℕ × ℕ} {h : List (ℕ × ℕ)} (hp : 0 < d.1) : deleteChunk (d :: h) d.1 = .ok h := by
  rw [deleteChunk, if_neg (by omega), if_pos (by simp), List.eraseP_cons_of_pos (by simp)]

section

variable {tidy : Bool} {a : Arena} {L0 : List (ℕ × ℕ)} {Ls : List (List (ℕ × ℕ))}

theorem ArenaInv.blocks_eq (_ : ArenaInv tidy a L0 Ls) (hn : a.cur.beg ≠ 0) : a.blocks = a.cur :: a.prev := by
  rw [Arena.blocks, if_neg (by simpa [ArenaBlock.isNull] using hn)]

theorem ArenaInv.prev_nil (h : ArenaInv tidy a L0 Ls) (hn : a.cur.beg = 0) : a = Arena.empty ∧ L0 = [] ∧ Ls = [] := by
  have := h.null hn
  subst this
  refine ⟨rfl, ?_, ?_⟩
  · cases L0 with
    | nil => rfl
    | cons x L =>
      have := (show (0 : ℕ) = x.1 + padded x.2 from h.curTiles.1)
      have := padded_ge x.2
      omega
  · exact List.forall₂_nil_left_iff.1 h.prevTiles

/-- The current block is empty if and only if there are no buffers in it. -/
theorem ArenaInv.isEmpty_iff (h : ArenaInv tidy a L0 Ls) : a.cur.isEmpty = true ↔ L0 = [] := by
  rw [ArenaBlock.isEmpty, decide_eq_true_eq]
  cases L0 with
  | nil => simpa using (show a.cur.free = a.cur.beg from h.curTiles).symm
  | cons x L =>
    simp only [reduceCtorEq, iff_false]
    have := h.curTiles.1
    have := h.curTiles.2.le
    have := padded_ge x.2
    omega

/-- Taking a buffer from the current block. -/
theorem ArenaInv.take (h : ArenaInv tidy a L0 Ls) {size : ℕ} (hs : max size 1 ≤ a.cur.fin - a.cur.free) :
    ∃ a', a.take (if size = 0 then 1 else size) = (a', some a.cur.free) ∧ ArenaInv tidy a' ((a.cur.free, size) :: L0) Ls ∧ a'.cur.beg = a.cur.beg := by
  have hn : a.cur.beg ≠ 0 := by
    intro hn
    rw [h.null hn] at hs
    simp [Arena.empty] at hs
  have hok := h.ok a.cur (by rw [h.blocks_eq hn]; simp)
  have h1 := hok.top
  have h2 := hok.finMod
  have h3 := (h.curTiles.mod hok.begMod).2
  have h4 := h.curTiles.le
  have h5 := hok.pos
  have h6 : alignUp (if size = 0 then 1 else size) = padded size := by
    rw [alignUp_eq (by split <;> omega), padded]
    split <;> omega
  have h7 : a.cur.free + padded size ≤ a.cur.fin := by unfold padded; omega
  refine ⟨_, rfl, ?_, rfl⟩
  rw [h6]
  have hb : ({ a with cur := { a.cur with free := a.cur.free + padded size } } : Arena).blocks = { a.cur with free := a.cur.free + padded size } :: a.prev := by
    rw [Arena.blocks, if_neg (by simpa [ArenaBlock.isNull] using hn)]
  refine ⟨fun h' => absurd h' hn, ?_, ?_, ?_, ⟨rfl, h.curTiles⟩, h7, h.prevTiles⟩
  · rw [hb]
    intro b hm
    rcases List.mem_cons.1 hm with rfl | hm
    · exact ⟨hok.1, hok.2, hok.3, hok.4, hok.5⟩
    · exact h.ok b (by rw [h.blocks_eq hn]; simp [hm])
  · rw [hb]
    have := h.heap
    rw [h.blocks_eq hn] at this
    simpa [ArenaBlock.chunk] using this
  · rw [hb]
    have := h.off
    rw [h.blocks_eq hn] at this
    exact .cons (fun b hm => List.rel_of_pairwise_cons this hm) (List.Pairwise.of_cons this)

theorem growSize_spec {needed cur n : ℕ} (hc : cur % 8 = 0) (h : growSize needed cur = some n) :
    needed ≤ n ∧ 2 * cur ≤ n ∧ n % 8 = 0 ∧ 16336 ≤ n ∧ n + 32 < 2 ^ 64 := by
  unfold growSize at h
  split at h
  · exact nomatch h
  · split at h
    · exact nomatch h
    · simp only [Option.some.injEq] at h
      omega

/-- A new block. -/
theorem ArenaInv.grow (h : ArenaInv tidy a L0 Ls) {new : ℕ → Option ℕ} (hnew : FreshFrom a.heap new) {needed : ℕ} {a' : Arena}
    (hg : a.growCapacity new needed = (a', true)) (ht : tidy = true → a.cur.beg ≠ 0 → a.cur.beg ≠ a.cur.free) :
    ∃ Ls', ArenaInv tidy a' [] Ls' ∧ Ls'.flatten = L0 ++ Ls.flatten ∧ needed ≤ a'.cur.fin - a'.cur.free ∧ a'.cur.beg ≠ 0 := by
  unfold Arena.growCapacity at hg
  split at hg
  · simp at hg
  · rename_i size hsize
    split at hg
    · simp at hg
    · rename_i buffer hb
      simp only [Prod.mk.injEq, and_true] at hg
      subst hg
      obtain ⟨h1, h2, h3, h4⟩ := hnew _ _ hb
      have hcur : a.cur.size % 8 = 0 := by
        by_cases hn : a.cur.beg = 0
        · rw [h.null hn]; rfl
        · have hok := h.ok a.cur (by rw [h.blocks_eq hn]; simp)
          rw [ArenaBlock.size]
          have := hok.begMod
          have := hok.finMod
          have := hok.le
          omega
      obtain ⟨h5, h6, h7, h8, h9⟩ := growSize_spec hcur hsize
      set cur' : ArenaBlock := { beg := buffer, free := buffer, fin := buffer + size } with hcur'
      have hok' : cur'.Ok := ⟨h1, h2, by simp only [hcur']; omega, by simp only [hcur']; omega, by simp only [hcur']; omega⟩
      have hchunk : cur'.chunk = (buffer, size + 32) := by simp [hcur', ArenaBlock.chunk]
      have hblocks : ({ a.save with cur := cur', heap := (buffer, size + 32) :: a.heap } : Arena).blocks = cur' :: a.blocks := by
        rw [Arena.blocks, if_neg (by simp [ArenaBlock.isNull, hcur']; omega)]
        by_cases hn : a.cur.beg = 0
        · rw [h.null hn]; rfl
        · rw [h.blocks_eq hn, Arena.save, if_neg (by simpa [ArenaBlock.isNull] using hn)]
      have hoff : ∀ b ∈ a.blocks, cur'.Off b := by
        intro b hbm
        have h10 := h4 b.chunk (by rw [h.heap]; exact List.mem_map_of_mem hbm)
        have h11 := (h.ok b hbm).le
        simp only [ArenaBlock.chunk] at h10
        simp only [ArenaBlock.Off, hcur']
        omega
      have base : ∀ Ls', List.Forall₂ (fun (b : ArenaBlock) (L : List (ℕ × ℕ)) => ∃ e ≤ b.fin, Tiles b.beg e L ∧ (tidy = true → L ≠ [] ∧ b.free = e)) a.save.prev Ls' →
          ArenaInv tidy { a.save with cur := cur', heap := (buffer, size + 32) :: a.heap } [] Ls' := by
        intro Ls' hLs
        refine ⟨fun h' => absurd h' (by simp only [hcur']; omega), ?_, ?_, ?_, rfl, by simp [hcur'], hLs⟩
        · rw [hblocks]
          intro b hm
          rcases List.mem_cons.1 hm with rfl | hm
          · exact hok'
          · exact h.ok b hm
        · rw [hblocks, List.map_cons, hchunk, ← h.heap]
        · rw [hblocks]
          exact .cons hoff h.off
      by_cases hn : a.cur.beg = 0
      · obtain ⟨h10, rfl, rfl⟩ := h.prev_nil hn
        refine ⟨[], base _ ?_, rfl, by simp only [hcur']; omega, by simp only [hcur']; omega⟩
        rw [h10]
        exact .nil
      · refine ⟨L0 :: Ls, base _ ?_, rfl, by simp only [hcur']; omega, by simp only [hcur']; omega⟩
        rw [Arena.save, if_neg (by simpa [ArenaBlock.isNull] using hn)]
        refine .cons ⟨a.cur.free, h.curLe, h.curTiles, fun hti => ⟨?_, rfl⟩⟩ h.prevTiles
        intro hL
        have := h.isEmpty_iff.2 hL
        exact ht hti hn (by simpa [ArenaBlock.isEmpty] using this)

/-- Allocation. -/
theorem ArenaInv.alloc (h : ArenaInv tidy a L0 Ls) {new : ℕ → Option ℕ} (hnew : FreshFrom a.heap new) {size p : ℕ} (hs : size < 2 ^ 64) {a' : Arena}
    (ht : tidy = true → a.cur.beg ≠ 0 → a.cur.beg = a.cur.free → size ≤ a.cur.fin - a.cur.free) (ha : a.alloc new size = (a', some p)) :
    ∃ L0' Ls', ArenaInv tidy a' ((p, size) :: L0') Ls' ∧ L0' ++ Ls'.flatten = L0 ++ Ls.flatten := by
  have hcap : a.cur.fin < 2 ^ 64 := by
    by_cases hn : a.cur.beg = 0
    · rw [h.null hn]; decide
    · have := (h.ok a.cur (by rw [h.blocks_eq hn]; simp)).top
      omega
  unfold Arena.alloc at ha
  split at ha
  · rename_i hc
    simp only [ArenaBlock.freeCapacity] at hc
    simp only at ha
    by_cases hz : size = 0 ∧ a.cur.freeCapacity > 0
    · rw [if_pos hz] at ha
      simp only [ArenaBlock.freeCapacity] at hz
      obtain ⟨a'', h1, h2, -⟩ := h.take (size := size) (by omega)
      rw [h1] at ha
      simp only [Prod.mk.injEq, Option.some.injEq] at ha
      obtain ⟨rfl, rfl⟩ := ha
      exact ⟨_, _, h2, rfl⟩
    · rw [if_neg hz] at ha
      simp only [ArenaBlock.freeCapacity] at hz
      cases hg : a.growCapacity new (if size = 0 then 1 else size) with
      | mk a1 b =>
        rw [hg] at ha
        cases b with
        | false => simp at ha
        | true =>
          simp only [if_true] at ha
          have hsz : ¬ size ≤ a.cur.fin - a.cur.free ∨ size = 0 ∧ a.cur.fin - a.cur.free = 0 := by
            by_cases h0 : size = 0
            · right; omega
            · left
              rw [show size + 18446744073709551615 = (size - 1) + 18446744073709551616 by omega, Nat.add_mod_right, Nat.mod_eq_of_lt (by omega)] at hc
              omega
          obtain ⟨Ls', h1, h2, h3, -⟩ := h.grow hnew hg fun hti hn he => by
            have h4 := ht hti hn he
            rcases hsz with h5 | ⟨h5, h6⟩
            · exact h5 h4
            · have := (h.ok a.cur (by rw [h.blocks_eq hn]; simp)).le
              omega
          obtain ⟨a'', h4, h5, -⟩ := h1.take (size := size) (by split at h3 <;> omega)
          rw [h4] at ha
          simp only [Prod.mk.injEq, Option.some.injEq] at ha
          obtain ⟨rfl, rfl⟩ := ha
          exact ⟨_, _, h5, by simpa using h2⟩
  · rename_i hc
    simp only [ArenaBlock.freeCapacity] at hc
    have h0 : size ≠ 0 := by rintro rfl; omega
    rw [show size + 18446744073709551615 = (size - 1) + 18446744073709551616 by omega, Nat.add_mod_right, Nat.mod_eq_of_lt (by omega)] at hc
    obtain ⟨a'', h1, h2, -⟩ := h.take (size := size) (by omega)
    rw [if_neg h0] at h1
    rw [h1] at ha
    simp only [Prod.mk.injEq, Option.some.injEq] at ha
    obtain ⟨rfl, rfl⟩ := ha
    exact ⟨_, _, h2, rfl⟩

/-- Freeing in the current block. -/
theorem ArenaInv.freeCur {after : List (ℕ × ℕ)} {x : ℕ × ℕ} (h : ArenaInv tidy a (after ++ x :: L0) Ls) :
    ArenaInv tidy { a with cur := { a.cur with free := x.1 } } L0 Ls := by
  have hn : a.cur.beg ≠ 0 := by
    intro hn
    have := (h.prev_nil hn).2.1
    simp at this
  have hb : ({ a with cur := { a.cur with free := x.1 } } : Arena).blocks = { a.cur with free := x.1 } :: a.prev := by
    rw [Arena.blocks, if_neg (by simpa [ArenaBlock.isNull] using hn)]
  have hok := h.ok a.cur (by rw [h.blocks_eq hn]; simp)
  refine ⟨fun h' => absurd h' hn, ?_, ?_, ?_, h.curTiles.drop, ?_, h.prevTiles⟩
  · rw [hb]
    intro b hm
    rcases List.mem_cons.1 hm with rfl | hm
    · exact ⟨hok.1, hok.2, hok.3, hok.4, hok.5⟩
    · exact h.ok b (by rw [h.blocks_eq hn]; simp [hm])
  · rw [hb]
    have := h.heap
    rw [h.blocks_eq hn] at this
    simpa [ArenaBlock.chunk] using this
  · rw [hb]
    have := h.off
    rw [h.blocks_eq hn] at this
    exact .cons (fun b hm => List.rel_of_pairwise_cons this hm) (List.Pairwise.of_cons this)
  · have := h.curTiles.mem (x := x) (by simp)
    have := h.curLe
    simp only
    omega

/-- The blocks without the first of the previous ones. -/
theorem ArenaInv.discard (h : ArenaInv tidy a L0 Ls) {b : ArenaBlock} {l : List ArenaBlock} (hp : a.prev = b :: l) :
    ∃ L Ls', Ls = L :: Ls' ∧ deleteChunk a.heap b.beg = .ok ((a.cur :: l).map ArenaBlock.chunk) ∧
      ArenaInv tidy { a with prev := l, heap := (a.cur :: l).map ArenaBlock.chunk } L0 Ls' := by
  have hn : a.cur.beg ≠ 0 := by
    intro hn
    rw [(h.prev_nil hn).1] at hp
    simp [Arena.empty] at hp
  have h1 := h.prevTiles
  rw [hp] at h1
  obtain ⟨L, Ls', hb, hl, rfl⟩ := List.forall₂_cons_left_iff.1 h1
  have hbl := h.blocks_eq hn
  rw [hp] at hbl
  have hh := h.heap
  rw [hbl] at hh
  have ho := h.off
  rw [hbl] at ho
  have hok := h.ok
  rw [hbl] at hok
  have hbl' : ({ a with prev := l, heap := (a.cur :: l).map ArenaBlock.chunk } : Arena).blocks = a.cur :: l := by
    rw [Arena.blocks, if_neg (by simpa [ArenaBlock.isNull] using hn)]
  refine ⟨L, Ls', rfl, ?_, fun h' => absurd h' hn, ?_, ?_, ?_, h.curTiles, h.curLe, hl⟩
  · rw [hh]
    refine deleteChunk_cons (c := a.cur.chunk) (d := b.chunk) (hok b (by simp)).pos ?_
    have h2 := List.rel_of_pairwise_cons ho (a' := b) (by simp)
    have h3 := (hok b (by simp)).le
    have h4 := (hok a.cur (by simp)).le
    simp only [ArenaBlock.Off] at h2
    simp only [ArenaBlock.chunk]
    omega
  · rw [hbl']
    intro c hc
    refine hok c ?_
    simp only [List.mem_cons] at hc ⊢
    tauto
  · rw [hbl']
  · rw [hbl']
    exact ho.sublist (by simp)

/-- Freeing in the first of the previous blocks, if the buffer is there. -/
theorem ArenaInv.freePrev {after : List (ℕ × ℕ)} {x : ℕ × ℕ} {L : List (ℕ × ℕ)} (h : ArenaInv tidy a L0 ((after ++ x :: L) :: Ls)) :
    ∃ a' Ls', a.freeInPrevious x.1 = .ok a' ∧ ArenaInv tidy a' L0 Ls' ∧ Ls'.flatten = L ++ Ls.flatten := by
  obtain ⟨b, l, ⟨e, he, hT, hti⟩, hl, hp⟩ := List.forall₂_cons_right_iff.1 h.prevTiles
  have hn : a.cur.beg ≠ 0 := by
    intro hn
    rw [(h.prev_nil hn).1] at hp
    simp [Arena.empty] at hp
  have hbl := h.blocks_eq hn
  rw [hp] at hbl
  -- the arena with the pointer set
  have key : ∀ hL : tidy = true → L ≠ [], ArenaInv tidy { a with prev := { b with free := x.1 } :: l } L0 (L :: Ls) := by
    intro hL
    have hbl' : ({ a with prev := { b with free := x.1 } :: l } : Arena).blocks = a.cur :: { b with free := x.1 } :: l := by
      rw [Arena.blocks, if_neg (by simpa [ArenaBlock.isNull] using hn)]
    have hh := h.heap
    rw [hbl] at hh
    have ho := h.off
    rw [hbl] at ho
    have hok := h.ok
    rw [hbl] at hok
    have hokb := hok b (by simp)
    refine ⟨fun h' => absurd h' hn, ?_, ?_, ?_, h.curTiles, h.curLe, .cons ⟨x.1, ?_, hT.drop, fun ht => ⟨hL ht, rfl⟩⟩ hl⟩
    · rw [hbl']
      intro c hc
      simp only [List.mem_cons] at hc
      rcases hc with rfl | rfl | hc
      · exact hok _ (by simp)
      · exact ⟨hokb.1, hokb.2, hokb.3, hokb.4, hokb.5⟩
      · exact hok c (by simp [hc])
    · rw [hbl', hh]
      rfl
    · rw [hbl']
      refine .cons (fun c hc => ?_) (.cons (fun c hc => List.rel_of_pairwise_cons (List.Pairwise.of_cons ho) hc) (List.Pairwise.of_cons (List.Pairwise.of_cons ho)))
      rcases List.mem_cons.1 hc with rfl | hc
      · exact List.rel_of_pairwise_cons ho (a' := b) (by simp)
      · exact List.rel_of_pairwise_cons ho (by simp [hc])
    · have := hT.mem (x := x) (by simp)
      simp only
      omega
  unfold Arena.freeInPrevious
  rw [hp]
  simp only
  by_cases hE : ({ b with free := x.1 } : ArenaBlock).isEmpty = true
  · rw [if_pos hE]
    simp only [ArenaBlock.isEmpty, decide_eq_true_eq] at hE
    have hL : L = [] := by
      have := hT.drop
      cases L with
      | nil => rfl
      | cons y L =>
        have h2 := this.1
        have := this.2.le
        have := padded_ge y.2
        omega
    subst hL
    obtain ⟨L', Ls', h1, h2, h3⟩ := h.discard hp
    simp only [List.cons.injEq] at h1
    obtain ⟨-, rfl⟩ := h1
    refine ⟨_, Ls, ?_, h3, rfl⟩
    rw [Arena.discardPreviousBlock]
    simp only
    rw [h2]
  · rw [if_neg hE]
    refine ⟨_, _, rfl, key fun _ => ?_, rfl⟩
    rintro rfl
    refine hE ?_
    simp only [ArenaBlock.isEmpty, decide_eq_true_eq]
    exact (show x.1 = b.beg from hT.drop).symm

/-- A buffer in the previous blocks is in one of them. -/
theorem mem_flatten_tiles {P : ArenaBlock → List (ℕ × ℕ) → ℕ → Prop} {l : List ArenaBlock} {Ls : List (List (ℕ × ℕ))}
    (h : List.Forall₂ (fun b L => ∃ e ≤ b.fin, Tiles b.beg e L ∧ P b L e) l Ls) {x : ℕ × ℕ} (hx : x ∈ Ls.flatten) :
    ∃ b ∈ l, b.beg ≤ x.1 ∧ x.1 + padded x.2 ≤ b.fin := by
  induction h with
  | nil => simp at hx
  | cons hb _ ih =>
    rw [List.flatten_cons, List.mem_append] at hx
    obtain ⟨e, he, hT, _⟩ := hb
    rcases hx with hx | hx
    · refine ⟨_, List.mem_cons_self, ?_⟩
      have := hT.mem hx
      omega
    · obtain ⟨c, hc, h1⟩ := ih hx
      exact ⟨c, List.mem_cons_of_mem _ hc, h1⟩

/-- Taking away the last buffer. -/
theorem pop_tiles {l : List ArenaBlock} {Ls : List (List (ℕ × ℕ))} {x : ℕ × ℕ} {live : List (ℕ × ℕ)}
    (h : List.Forall₂ (fun (b : ArenaBlock) (L : List (ℕ × ℕ)) => ∃ e ≤ b.fin, Tiles b.beg e L ∧ (false = true → L ≠ [] ∧ b.free = e)) l Ls)
    (hx : Ls.flatten = x :: live) : ∃ Ls', List.Forall₂ (fun (b : ArenaBlock) (L : List (ℕ × ℕ)) => ∃ e ≤ b.fin, Tiles b.beg e L ∧ (false = true → L ≠ [] ∧ b.free = e)) l Ls' ∧
      Ls'.flatten = live := by
  induction h with
  | nil => simp at hx
  | @cons b L l Ls hb hl ih =>
    cases L with
    | nil =>
      obtain ⟨Ls', h1, h2⟩ := ih (by simpa using hx)
      exact ⟨[] :: Ls', .cons hb h1, by simpa using h2⟩
    | cons y L =>
      simp only [List.flatten_cons, List.cons_append, List.cons.injEq] at hx
      obtain ⟨rfl, rfl⟩ := hx
      obtain ⟨e, he, hT, _⟩ := hb
      have := hT.1
      exact ⟨L :: Ls, .cons ⟨y.1, by omega, hT.2, fun h => absurd h (by simp)⟩ hl, rfl⟩

/-- Freeing the last buffer. -/
theorem ArenaInv.freeTop (h : ArenaInv tidy a L0 Ls) {x : ℕ × ℕ} {live : List (ℕ × ℕ)} (hx : L0 ++ Ls.flatten = x :: live) :
    ∃ a' L0' Ls', a.freeTop x.1 = .ok a' ∧ ArenaInv tidy a' L0' Ls' ∧ L0' ++ Ls'.flatten = live := by
  unfold Arena.freeTop
  cases L0 with
  | cons y L0 =>
    simp only [List.cons_append, List.cons.injEq] at hx
    obtain ⟨rfl, rfl⟩ := hx
    have hE : a.cur.isEmpty = false := by
      rw [← Bool.not_eq_true]
      intro hE
      have := h.isEmpty_iff.1 hE
      simp at this
    rw [hE]
    exact ⟨_, _, _, rfl, ArenaInv.freeCur (after := []) h, rfl⟩
  | nil =>
    rw [h.isEmpty_iff.2 rfl]
    simp only [Bool.not_true, Bool.false_eq_true, if_false]
    rw [List.nil_append] at hx
    cases Ls with
    | nil => simp at hx
    | cons L1 Ls =>
      cases L1 with
      | cons y L1 =>
        simp only [List.flatten_cons, List.cons_append, List.cons.injEq] at hx
        obtain ⟨rfl, rfl⟩ := hx
        obtain ⟨a', Ls', h1, h2, h3⟩ := ArenaInv.freePrev (after := []) h
        exact ⟨a', [], Ls', h1, h2, by simpa using h3⟩
      | nil =>
        obtain ⟨b, l, hb, hl, hp⟩ := List.forall₂_cons_right_iff.1 h.prevTiles
        cases tidy with
        | true =>
          obtain ⟨_, _, _, h1⟩ := hb
          exact absurd rfl (h1 rfl).1
        | false =>
          have hn : a.cur.beg ≠ 0 := by
            intro hn
            rw [(h.prev_nil hn).1] at hp
            simp [Arena.empty] at hp
          have hbl := h.blocks_eq hn
          rw [hp] at hbl
          have ho := h.off
          rw [hbl] at ho
          have hok := h.ok
          rw [hbl] at hok
          have hh := h.heap
          rw [hbl] at hh
          simp only [List.flatten_cons, List.nil_append] at hx
          obtain ⟨Ls', h1, h2⟩ := pop_tiles hl hx
          obtain ⟨c, hc, hc1, hc2⟩ := mem_flatten_tiles hl (x := x) (by rw [hx]; simp)
          have hne : ({ b with free := x.1 } : ArenaBlock).isEmpty = false := by
            simp only [ArenaBlock.isEmpty, decide_eq_false_iff_not]
            have h3 := List.rel_of_pairwise_cons (List.Pairwise.of_cons ho) hc
            have h4 := (hok b (by simp)).le
            have h5 := padded_ge x.2
            simp only [ArenaBlock.Off] at h3
            omega
          have hbl' : ({ a with prev := { b with free := x.1 } :: l } : Arena).blocks = a.cur :: { b with free := x.1 } :: l := by
            rw [Arena.blocks, if_neg (by simpa [ArenaBlock.isNull] using hn)]
          have hokb := hok b (by simp)
          refine ⟨{ a with prev := { b with free := x.1 } :: l }, [], [] :: Ls', ?_, ?_, by simpa using h2⟩
          · rw [Arena.freeInPrevious, hp]
            simp only
            rw [hne]
            rfl
          · refine ⟨fun h' => absurd h' hn, ?_, ?_, ?_, h.curTiles, h.curLe, .cons ?_ h1⟩
            · rw [hbl']
              intro c hc
              simp only [List.mem_cons] at hc
              rcases hc with rfl | rfl | hc
              · exact hok _ (by simp)
              · exact ⟨hokb.1, hokb.2, hokb.3, hokb.4, hokb.5⟩
              · exact hok c (by simp [hc])
            · rw [hbl']
              simp only
              rw [hh]
              rfl
            · rw [hbl']
              refine .cons (fun c hc => ?_) (.cons (fun c hc => List.rel_of_pairwise_cons (List.Pairwise.of_cons ho) hc) (List.Pairwise.of_cons (List.Pairwise.of_cons ho)))
              rcases List.mem_cons.1 hc with rfl | hc
              · exact List.rel_of_pairwise_cons ho (a' := b) (by simp)
              · exact List.rel_of_pairwise_cons ho (by simp [hc])
            · obtain ⟨e, h3, h4, _⟩ := hb
              exact ⟨e, h3, h4, fun h => absurd h (by simp)⟩

/-- Emptying the current block. -/
theorem ArenaInv.clearCur (h : ArenaInv tidy a L0 Ls) (hn : a.cur.beg ≠ 0) : ArenaInv tidy { a with cur := { a.cur with free := a.cur.beg } } [] Ls := by
  have hb : ({ a with cur := { a.cur with free := a.cur.beg } } : Arena).blocks = { a.cur with free := a.cur.beg } :: a.prev := by
    rw [Arena.blocks, if_neg (by simpa [ArenaBlock.isNull] using hn)]
  have hok := h.ok a.cur (by rw [h.blocks_eq hn]; simp)
  refine ⟨fun h' => absurd h' hn, ?_, ?_, ?_, rfl, hok.le.le, h.prevTiles⟩
  · rw [hb]
    intro b hm
    rcases List.mem_cons.1 hm with rfl | hm
    · exact ⟨hok.1, hok.2, hok.3, hok.4, hok.5⟩
    · exact h.ok b (by rw [h.blocks_eq hn]; simp [hm])
  · rw [hb]
    have := h.heap
    rw [h.blocks_eq hn] at this
    simpa [ArenaBlock.chunk] using this
  · rw [hb]
    have := h.off
    rw [h.blocks_eq hn] at this
    exact .cons (fun b hm => List.rel_of_pairwise_cons this hm) (List.Pairwise.of_cons this)

/-- Discarding the blocks before the one with the buffer. -/
theorem ArenaInv.discardUntil (h : ArenaInv tidy a [] Ls) {x : ℕ × ℕ} {after live : List (ℕ × ℕ)} (hx : Ls.flatten = after ++ x :: live) :
    ∃ a' after' L Ls', Frobby.discardUntil x.1 a.cur a.prev a.heap = .ok a' ∧ ArenaInv tidy a' [] ((after' ++ x :: L) :: Ls') ∧ L ++ Ls'.flatten = live := by
  generalize hp : a.prev = prev
  induction prev generalizing a Ls after with
  | nil =>
    have := h.prevTiles
    rw [hp, List.forall₂_nil_left_iff] at this
    subst this
    simp at hx
  | cons b l ih =>
    have h1 := h.prevTiles
    rw [hp] at h1
    obtain ⟨L1, Ls1, hb, hl, rfl⟩ := List.forall₂_cons_left_iff.1 h1
    have hn : a.cur.beg ≠ 0 := by
      intro hn
      rw [(h.prev_nil hn).1] at hp
      simp [Arena.empty] at hp
    have hbl := h.blocks_eq hn
    rw [hp] at hbl
    have ho := h.off
    rw [hbl] at ho
    have hok := h.ok
    rw [hbl] at hok
    rw [Frobby.discardUntil]
    rw [List.flatten_cons, List.append_eq_append_iff] at hx
    -- the buffer is in a later block
    have later : ∀ A, Ls1.flatten = A ++ x :: live → ∃ a' after' L Ls', (if b.isInBlock x.1 then Outcome.ok { cur := a.cur, prev := b :: l, heap := a.heap } else
        match deleteChunk a.heap b.beg with
        | .ok h => Frobby.discardUntil x.1 a.cur l h
        | .error => .error
        | .crash => .crash) = Outcome.ok a' ∧ ArenaInv tidy a' [] ((after' ++ x :: L) :: Ls') ∧ L ++ Ls'.flatten = live := by
      intro A hA
      obtain ⟨c, hc, hc1, hc2⟩ := mem_flatten_tiles hl (x := x) (by rw [hA]; simp)
      have h3 := List.rel_of_pairwise_cons (List.Pairwise.of_cons ho) hc
      have h5 := padded_ge x.2
      have h6 := (hok c (by simp [hc])).top
      have h7 : ¬ b.isInBlock x.1 = true := by
        rw [isInBlock_iff (hok b (by simp)) (by omega)]
        simp only [ArenaBlock.Off] at h3
        omega
      rw [if_neg h7]
      obtain ⟨L, Ls', h8, h9, h10⟩ := h.discard hp
      simp only [List.cons.injEq] at h8
      obtain ⟨rfl, rfl⟩ := h8
      rw [h9]
      exact ih (a := { a with prev := l, heap := (a.cur :: l).map ArenaBlock.chunk }) h10 hA rfl
    rcases hx with ⟨A, rfl, hA⟩ | ⟨A, rfl, hA⟩
    · exact later A hA
    · cases A with
      | nil => exact later [] (by simpa using hA.symm)
      | cons y A =>
        simp only [List.cons_append, List.cons.injEq] at hA
        obtain ⟨rfl, rfl⟩ := hA
        obtain ⟨e, he, hT, -⟩ := hb
        have h2 := hT.mem (x := x) (by simp)
        have h3 := padded_ge x.2
        have h4 := (hok b (by simp)).top
        rw [if_pos ((isInBlock_iff (hok b (by simp)) (by omega)).2 (by omega))]
        refine ⟨_, after, A, Ls1, rfl, ?_, rfl⟩
        rw [← hp]
        exact h

/-- Freeing a buffer and all after it. -/
theorem ArenaInv.freeAndAllAfter (h : ArenaInv tidy a L0 Ls) {x : ℕ × ℕ} {after live : List (ℕ × ℕ)} (hx : L0 ++ Ls.flatten = after ++ x :: live) :
    ∃ a' L0' Ls', a.freeAndAllAfter x.1 = .ok a' ∧ ArenaInv tidy a' L0' Ls' ∧ L0' ++ Ls'.flatten = live := by
  have hn : a.cur.beg ≠ 0 := by
    intro hn
    obtain ⟨_, rfl, rfl⟩ := h.prev_nil hn
    simp at hx
  have hok := h.ok a.cur (by rw [h.blocks_eq hn]; simp)
  unfold Arena.freeAndAllAfter
  have later : ∀ A, Ls.flatten = A ++ x :: live → ∃ a' L0' Ls', (if a.cur.isInBlock x.1 = true then Outcome.ok ({ a with cur := { a.cur with free := x.1 } } : Arena) else
      match Frobby.discardUntil x.1 { a.cur with free := a.cur.beg } a.prev a.heap with
      | .ok a' => a'.freeInPrevious x.1
      | .error => .error
      | .crash => .crash) = .ok a' ∧ ArenaInv tidy a' L0' Ls' ∧ L0' ++ Ls'.flatten = live := by
    intro A hA
    obtain ⟨c, hc, hc1, hc2⟩ := mem_flatten_tiles h.prevTiles (x := x) (by rw [hA]; simp)
    have ho := h.off
    rw [h.blocks_eq hn] at ho
    have h3 := List.rel_of_pairwise_cons ho hc
    have h5 := padded_ge x.2
    have h6 := (h.ok c (by rw [h.blocks_eq hn]; simp [hc])).top
    have h7 : ¬ a.cur.isInBlock x.1 = true := by
      rw [isInBlock_iff hok (by omega)]
      simp only [ArenaBlock.Off] at h3
      omega
    rw [if_neg h7]
    obtain ⟨a', after', L, Ls', h8, h9, h10⟩ := (h.clearCur hn).discardUntil hA
    simp only at h8
    rw [h8]
    obtain ⟨a'', Ls'', h11, h12, h13⟩ := h9.freePrev
    exact ⟨a'', [], Ls'', h11, h12, by rw [List.nil_append, h13, h10]⟩
  rw [List.append_eq_append_iff] at hx
  rcases hx with ⟨A, rfl, hA⟩ | ⟨A, rfl, hA⟩
  · exact later A hA
  · cases A with
    | nil => exact later [] (by simpa using hA.symm)
    | cons y A =>
      simp only [List.cons_append, List.cons.injEq] at hA
      obtain ⟨rfl, rfl⟩ := hA
      have h2 := h.curTiles.mem (x := x) (by simp)
      have h3 := padded_ge x.2
      have h4 := h.curLe
      have h5 := hok.top
      rw [if_pos ((isInBlock_iff hok (by omega)).2 (by omega))]
      exact ⟨_, _, _, rfl, h.freeCur, rfl⟩

/-- The destructor gives back all memory. -/
theorem ArenaInv.destroy (h : ArenaInv tidy a L0 Ls) : a.destroy = .ok [] := by
  by_cases hn : a.cur.beg = 0
  · rw [h.null hn]; rfl
  · have key : ∀ (prev : List ArenaBlock) (a : Arena) (Ls : List (List (ℕ × ℕ))), ArenaInv tidy a L0 Ls → a.cur.beg ≠ 0 → a.prev = prev →
        destroyPrevious prev a.heap = .ok [a.cur.chunk] := by
      intro prev
      induction prev with
      | nil =>
        intro a Ls h hn hp
        rw [destroyPrevious, h.heap, h.blocks_eq hn, hp]
        rfl
      | cons b l ih =>
        intro a Ls h hn hp
        obtain ⟨L, Ls', rfl, h9, h10⟩ := h.discard hp
        rw [destroyPrevious, h9]
        exact ih _ _ h10 hn rfl
    rw [Arena.destroy, key _ a Ls h hn rfl]
    exact deleteChunk_head (d := a.cur.chunk) (by simp only [ArenaBlock.chunk]; omega)

/-- What the client sees. -/
theorem ArenaInv.live (h : ArenaInv tidy a L0 Ls) : (L0 ++ Ls.flatten).Pairwise Apart ∧ ∀ x ∈ L0 ++ Ls.flatten, Inside a.heap x := by
  by_cases hn : a.cur.beg = 0
  · obtain ⟨_, rfl, rfl⟩ := h.prev_nil hn
    simp
  · have hbl := h.blocks_eq hn
    have ho := h.off
    rw [hbl] at ho
    have hok := h.ok
    rw [hbl] at hok
    have hh := h.heap
    rw [hbl] at hh
    have hall : List.Forall₂ (fun (b : ArenaBlock) (L : List (ℕ × ℕ)) => ∃ e ≤ b.fin, Tiles b.beg e L ∧ True) (a.cur :: a.prev) (L0 :: Ls) :=
      .cons ⟨_, h.curLe, h.curTiles, trivial⟩ (h.prevTiles.imp fun b L ⟨e, h1, h2, _⟩ => ⟨e, h1, h2, trivial⟩)
    rw [← List.flatten_cons]
    generalize a.cur :: a.prev = bs at ho hok hh hall
    generalize L0 :: Ls = Ms at hall
    refine ⟨?_, fun x hx => ?_⟩
    · clear hh
      induction hall with
      | nil => exact .nil
      | @cons b L l Ls hb hl ih =>
        rw [List.flatten_cons, List.pairwise_append]
        obtain ⟨e, h1, h2, -⟩ := hb
        refine ⟨h2.apart, ih (List.Pairwise.of_cons ho) fun c hc => hok c (by simp [hc]), fun x hx y hy => ?_⟩
        obtain ⟨c, hc, h3, h4⟩ := mem_flatten_tiles (P := fun _ _ _ => True) hl hy
        have h5 := h2.mem hx
        have h6 := List.rel_of_pairwise_cons ho hc
        have h7 := padded_ge x.2
        have h8 := padded_ge y.2
        simp only [ArenaBlock.Off] at h6
        unfold Apart
        omega
    · clear ho
      rw [hh]
      clear hh
      induction hall with
      | nil => simp at hx
      | @cons b L l Ls hb hl ih =>
        rw [List.flatten_cons, List.mem_append] at hx
        rcases hx with hx | hx
        · obtain ⟨e, h1, h2, -⟩ := hb
          have h3 := h2.mem hx
          have h4 := hok b (by simp)
          have h5 := h4.pos
          have h6 := padded_ge x.2
          refine ⟨(h2.mod h4.begMod).1 x hx, by omega, b.chunk, by simp, ?_⟩
          simp only [ArenaBlock.chunk]
          omega
        · obtain ⟨h1, h2, c, h3, h4⟩ := ih (fun c hc => hok c (by simp [hc])) hx
          exact ⟨h1, h2, c, by simp only [List.map_cons, List.mem_cons]; exact .inr h3, h4⟩

end

end Frobby
