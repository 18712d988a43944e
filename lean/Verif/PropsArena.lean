import Verif.ArenaLemmas

/-!
# C65: the arena allocator

`ArenaReaches` is a client that uses an arena as documented. `new` may give any memory that is not in use.
-/

namespace Frobby

variable {tidy : Bool} {a : Arena} {live : List (ℕ × ℕ)}

theorem arena_inv (h : ArenaReaches tidy a live) : ∃ L0 Ls, ArenaInv tidy a L0 Ls ∧ L0 ++ Ls.flatten = live := by
  induction h with
  | start =>
    refine ⟨[], [], ⟨fun _ => rfl, ?_, rfl, ?_, rfl, Nat.le_refl _, .nil⟩, rfl⟩
    · simp [Arena.blocks, Arena.empty, ArenaBlock.isNull]
    · simp [Arena.blocks, Arena.empty, ArenaBlock.isNull]
  | alloc _ hnew hs ht ha ih =>
    obtain ⟨L0, Ls, h1, rfl⟩ := ih
    obtain ⟨L0', Ls', h2, h3⟩ := h1.alloc hnew hs ht ha
    exact ⟨_, Ls', h2, by rw [List.cons_append, h3]⟩
  | freeTop _ ha ih =>
    obtain ⟨L0, Ls, h1, h2⟩ := ih
    obtain ⟨a', L0', Ls', h3, h4, h5⟩ := h1.freeTop h2
    simp only [h3, Outcome.ok.injEq] at ha
    subst ha
    exact ⟨L0', Ls', h4, h5⟩
  | freeAndAllAfter _ ha ih =>
    obtain ⟨L0, Ls, h1, h2⟩ := ih
    obtain ⟨a', L0', Ls', h3, h4, h5⟩ := h1.freeAndAllAfter h2
    simp only [h3, Outcome.ok.injEq] at ha
    subst ha
    exact ⟨L0', Ls', h4, h5⟩

/-! ## What holds in all cases -/

/-- **C65.** The live buffers do not overlap, not even if they have no bytes; they are aligned, and they are inside of memory that has been got from `new` and not been given
back, outside of the part of it that the arena uses itself. -/
theorem C65_buffers (h : ArenaReaches tidy a live) : live.Pairwise Apart ∧ ∀ x ∈ live, Inside a.heap x := by
  obtain ⟨L0, Ls, h1, rfl⟩ := arena_inv h
  exact h1.live

/-- **C65.** Freeing the last buffer, or a buffer and all after it, never goes wrong: nothing is given to `delete` that does not come from `new` or that has been
given back already, and no null pointer is followed. -/
theorem C65_free : (∀ p size rest, ArenaReaches tidy a ((p, size) :: rest) → ∃ a', a.freeTop p = .ok a') ∧
    ∀ after p size rest, ArenaReaches tidy a (after ++ (p, size) :: rest) → ∃ a', a.freeAndAllAfter p = .ok a' := by
  refine ⟨fun p size rest h => ?_, fun after p size rest h => ?_⟩
  · obtain ⟨L0, Ls, h1, h2⟩ := arena_inv h
    obtain ⟨a', _, _, h3, _⟩ := h1.freeTop h2
    exact ⟨a', h3⟩
  · obtain ⟨L0, Ls, h1, h2⟩ := arena_inv h
    obtain ⟨a', _, _, h3, _⟩ := h1.freeAndAllAfter h2
    exact ⟨a', h3⟩

/-- **C65.** The destructor gives back all memory, each piece once. -/
theorem C65_destroy (h : ArenaReaches tidy a live) : a.destroy = .ok [] := by
  obtain ⟨L0, Ls, h1, _⟩ := arena_inv h
  exact h1.destroy

/-- **C65.** An allocation that fails is one of about 2^63 bytes or after such a block, and then the arena is as before, or `new` has failed. -/
theorem C65_alloc_fails (h : ArenaReaches tidy a live) {new : ℕ → Option ℕ} {size : ℕ} {a' : Arena} (ha : a.alloc new size = (a', none)) :
    (a' = a ∧ 2 ^ 63 - 16 ≤ max size (a.cur.fin - a.cur.beg)) ∨ ∃ n, new n = none := by
  obtain ⟨L0, Ls, h1, _⟩ := arena_inv h
  unfold Arena.alloc at ha
  split at ha
  · simp only at ha
    by_cases hz : size = 0 ∧ a.cur.freeCapacity > 0
    · rw [if_pos hz] at ha
      simp [Arena.take] at ha
    · rw [if_neg hz] at ha
      unfold Arena.growCapacity at ha
      cases hg : growSize (if size = 0 then 1 else size) a.cur.size with
      | none =>
        rw [hg] at ha
        simp only [Bool.false_eq_true, if_false, Prod.mk.injEq, and_true] at ha
        refine .inl ⟨ha.symm, ?_⟩
        have key : ∀ m, growSize m a.cur.size = none → 2 ^ 63 - 16 ≤ max m (a.cur.fin - a.cur.beg) := by
          intro m hg
          unfold growSize ArenaBlock.size at hg
          by_cases h1 : max m (a.cur.fin - a.cur.beg) > 18446744073709551615 / 2
          · omega
          · rw [if_neg h1] at hg
            split at hg
            · omega
            · simp at hg
        have := key _ hg
        split at this <;> omega
      | some n =>
        rw [hg] at ha
        simp only at ha
        cases hn : new (n + 32) with
        | none => exact .inr ⟨_, hn⟩
        | some b =>
          rw [hn] at ha
          simp [Arena.take] at ha
  · simp [Arena.take] at ha

/-- **C65.** A block is replaced by one that is at least twice as large, and it is only replaced if the buffer does not fit. Otherwise freeing the buffer makes the
arena what it has been. -/
theorem C65_growth (h : ArenaReaches tidy a live) {new : ℕ → Option ℕ} {size p : ℕ} {a' : Arena} (hs : size < 2 ^ 64) (ha : a.alloc new size = (a', some p)) :
    (max size 1 ≤ a.cur.fin - a.cur.free ∧ a'.freeTop p = .ok a) ∨
      (a.cur.fin - a.cur.free < max size 1 ∧ 2 * (a.cur.fin - a.cur.beg) ≤ a'.cur.fin - a'.cur.beg) := by
  obtain ⟨L0, Ls, h1, _⟩ := arena_inv h
  have hcap : a.cur.fin < 2 ^ 64 ∧ a.cur.size % 8 = 0 := by
    by_cases hn : a.cur.beg = 0
    · rw [h1.null hn]; decide
    · have hok := h1.ok a.cur (by rw [h1.blocks_eq hn]; simp)
      have := hok.top
      have := hok.begMod
      have := hok.finMod
      have := hok.le
      rw [ArenaBlock.size]
      omega
  have reuse : ∀ n, 0 < n → n < 2 ^ 63 → a.take n = (a', some p) → a'.freeTop p = .ok a := by
    intro n h0 h63 hn
    simp only [Arena.take, Prod.mk.injEq, Option.some.injEq] at hn
    obtain ⟨rfl, rfl⟩ := hn
    have h2 := h1.curTiles.le
    rw [Arena.freeTop, alignUp_eq (by omega)]
    rw [if_pos]
    simp only [ArenaBlock.isEmpty, Bool.not_eq_true', decide_eq_false_iff_not]
    omega
  unfold Arena.alloc at ha
  split at ha
  · rename_i hc
    simp only [ArenaBlock.freeCapacity] at hc
    simp only at ha
    by_cases hz : size = 0 ∧ a.cur.freeCapacity > 0
    · rw [if_pos hz] at ha
      simp only [ArenaBlock.freeCapacity] at hz
      exact .inl ⟨by omega, reuse _ (by rw [if_pos hz.1]; decide) (by rw [if_pos hz.1]; decide) ha⟩
    · rw [if_neg hz] at ha
      simp only [ArenaBlock.freeCapacity] at hz
      right
      constructor
      · by_cases h0 : size = 0
        · omega
        · rw [show size + 18446744073709551615 = (size - 1) + 18446744073709551616 by omega, Nat.add_mod_right, Nat.mod_eq_of_lt (by omega)] at hc
          omega
      · unfold Arena.growCapacity at ha
        split at ha
        · simp at ha
        · rename_i n hg
          obtain ⟨-, h6, -⟩ := growSize_spec hcap.2 hg
          split at ha
          · simp at ha
          · simp only [if_true, Arena.take, Prod.mk.injEq, Option.some.injEq] at ha
            obtain ⟨rfl, rfl⟩ := ha
            rw [ArenaBlock.size] at h6
            simp only
            omega
  · rename_i hc
    simp only [ArenaBlock.freeCapacity] at hc
    have h0 : size ≠ 0 := by rintro rfl; omega
    rw [show size + 18446744073709551615 = (size - 1) + 18446744073709551616 by omega, Nat.add_mod_right, Nat.mod_eq_of_lt (by omega)] at hc
    refine .inl ⟨by omega, ?_⟩
    simp only [Arena.take, Prod.mk.injEq, Option.some.injEq] at ha
    obtain ⟨rfl, rfl⟩ := ha
    have hn : a.cur.beg ≠ 0 := by
      intro hn
      rw [h1.null hn] at hc
      simp [Arena.empty] at hc
    have hok := h1.ok a.cur (by rw [h1.blocks_eq hn]; simp)
    have := hok.top
    have h2 := h1.curTiles.le
    have h3 := hok.pos
    rw [Arena.freeTop, alignUp_eq (by omega)]
    rw [if_pos]
    simp only [ArenaBlock.isEmpty, Bool.not_eq_true', decide_eq_false_iff_not]
    omega

/-- **C65.** If the arena says that it is empty, then no buffer is live. -/
theorem C65_isEmpty (h : ArenaReaches tidy a live) (he : a.isEmpty = true) : live = [] := by
  obtain ⟨L0, Ls, h1, rfl⟩ := arena_inv h
  simp only [Arena.isEmpty, Bool.and_eq_true, List.isEmpty_iff] at he
  have h2 := h1.prevTiles
  rw [he.1, List.forall₂_nil_left_iff] at h2
  rw [h2, h1.isEmpty_iff.1 he.2]
  rfl

/-- **C65, the part that holds.** If no new block is needed while the current one is empty, then the arena says that it is empty if and only if no buffer is live, and
the assertion in `freeTopFromOldBlock` holds. Missing: `C65_isEmpty_wrong` and `C65_assertion_wrong`. -/
theorem C65_tidy_partial (h : ArenaReaches true a live) : (a.isEmpty = true ↔ live = []) ∧
    ∀ p size rest, live = (p, size) :: rest → a.cur.isEmpty = true → ∃ b l, a.prev = b :: l ∧ b.debugIsValid p = true := by
  obtain ⟨L0, Ls, h1, h2⟩ := arena_inv h
  refine ⟨⟨fun he => C65_isEmpty h he, fun he => ?_⟩, fun p size rest hl he => ?_⟩
  · subst he
    simp only [List.append_eq_nil_iff] at h2
    obtain ⟨rfl, h3⟩ := h2
    simp only [Arena.isEmpty, Bool.and_eq_true, List.isEmpty_iff, h1.isEmpty_iff, and_true]
    have h4 := h1.prevTiles
    generalize a.prev = prev at h4
    cases h4 with
    | nil => rfl
    | cons hb _ =>
      obtain ⟨_, _, _, h5⟩ := hb
      simp only [List.flatten_cons, List.append_eq_nil_iff] at h3
      exact absurd h3.1 (h5 rfl).1
  · have h3 := h1.isEmpty_iff.1 he
    subst h3 hl
    rw [List.nil_append] at h2
    have h4 := h1.prevTiles
    generalize a.prev = prev at h4
    cases h4 with
    | nil => simp at h2
    | @cons b L l Ls hb _ =>
      obtain ⟨e, _, hT, h5⟩ := hb
      obtain ⟨h5, h6⟩ := h5 rfl
      cases L with
      | nil => exact absurd rfl h5
      | cons y L =>
        simp only [List.flatten_cons, List.cons_append, List.cons.injEq] at h2
        obtain ⟨rfl, _⟩ := h2
        have := hT.1
        have := hT.2.le
        have := padded_ge size
        simp only at *
        refine ⟨b, l, rfl, ?_⟩
        simp only [ArenaBlock.debugIsValid, Bool.and_eq_true, decide_eq_true_eq]
        omega

/-! ## Arrays -/

/-- **C65.** The product of the number and the size of the elements does not overflow: an array that is allocated has room for all its elements, and its end is where it
should be. -/
theorem C65_array {new : ℕ → Option ℕ} {elementSize elementCount p q : ℕ} {a' : Arena} (h : a.allocArray new elementSize elementCount = (a', some (p, q))) :
    elementCount * elementSize < 2 ^ 64 ∧ a.alloc new (elementCount * elementSize) = (a', some p) ∧ q = p + elementCount * elementSize := by
  unfold Arena.allocArray at h
  split at h
  · simp at h
  · rename_i hc
    simp only [Prod.mk.injEq, Option.map_eq_some_iff] at h
    obtain ⟨rfl, p', h1, rfl, rfl⟩ := h
    refine ⟨?_, Prod.ext rfl h1, rfl⟩
    have h2 := Nat.mul_le_mul_right elementSize (Nat.not_lt.1 hc)
    have h3 := Nat.div_mul_le_self 18446744073709551615 elementSize
    omega

/-! ## What is wrong -/

/-- Memory at one address, if the size is as expected. -/
def newAt (n b : ℕ) : ℕ → Option ℕ := fun m => if m = n then some b else none

theorem fresh_newAt {heap : List (ℕ × ℕ)} {n b : ℕ} (h : 0 < b ∧ b % 8 = 0 ∧ b + n ≤ 2 ^ 64 ∧ ∀ c ∈ heap, b + n ≤ c.1 ∨ c.1 + c.2 ≤ b) : FreshFrom heap (newAt n b) := by
  intro m c hm
  unfold newAt at hm
  split at hm
  · simp only [Option.some.injEq] at hm
    subst hm
    rename_i h1
    subst h1
    exact h
  · exact nomatch hm

/-- One buffer of 8 bytes. -/
def arena1 : Arena := { cur := ⟨4096, 4104, 20432⟩, prev := [], heap := [(4096, 16368)] }

theorem arena1_reaches (tidy : Bool) : ArenaReaches tidy arena1 [(4096, 8)] :=
  .alloc (new := newAt 16368 4096) .start (fresh_newAt (by decide)) (by decide) (fun _ h => absurd rfl h) (by decide +kernel)

/-- And one of 20000 bytes. -/
def arena2 : Arena := { cur := ⟨32768, 52768, 72768⟩, prev := [⟨4096, 4104, 20432⟩], heap := [(32768, 40032), (4096, 16368)] }

theorem arena2_reaches (tidy : Bool) : ArenaReaches tidy arena2 [(32768, 20000), (4096, 8)] :=
  .alloc (new := newAt 40032 32768) (arena1_reaches tidy) (fresh_newAt (by decide)) (by decide) (fun _ _ => by decide) (by decide +kernel)

example : (arena2.freeTop 32768, arena2.freeAndAllAfter 4096, arena2.destroy) =
    (.ok { arena2 with cur := ⟨32768, 32768, 72768⟩ }, .ok { cur := ⟨32768, 32768, 72768⟩, prev := [], heap := [(32768, 40032)] }, .ok []) := by rfl

/-- Allocations that fit and one that does not, and an array that is too large. -/
example : (arena1.alloc (fun _ => none) 16328, arena1.alloc (fun _ => none) (2 ^ 63), arena1.allocArray (fun _ => none) 8 (2 ^ 61)) =
    (({ arena1 with cur := ⟨4096, 20432, 20432⟩ }, some 4104), (arena1, none), (arena1, none)) := by decide +kernel

/-- **C65: what is wrong.** "Returns true if there are no live allocations" is not true: after a small buffer has been allocated and freed, and then a large one, no buffer is
live, but the arena does not say that it is empty. -/
theorem C65_isEmpty_wrong : ∃ a, ArenaReaches false a [] ∧ a.isEmpty = false := by
  have h1 : ArenaReaches false { arena1 with cur := ⟨4096, 4096, 20432⟩ } [] := .freeTop (arena1_reaches false) (by rfl)
  have h2 : ArenaReaches false { cur := ⟨32768, 52768, 72768⟩, prev := [⟨4096, 4096, 20432⟩], heap := [(32768, 40032), (4096, 16368)] } [(32768, 20000)] :=
    .alloc (new := newAt 40032 32768) h1 (fresh_newAt (by decide)) (by decide) (by simp) (by decide +kernel)
  exact ⟨_, .freeTop (a' := ⟨⟨32768, 32768, 72768⟩, [⟨4096, 4096, 20432⟩], [(32768, 40032), (4096, 16368)]⟩) h2 (by rfl), by rfl⟩

/-- **C65: what is wrong.** An assertion breaks although the buffers are freed in stack order: after three buffers that need larger and larger blocks have been
allocated, the second of which has been freed before the third was allocated, the first buffer is looked for in the block of the second. -/
theorem C65_assertion_wrong : ∃ a p size b l, ArenaReaches false a [(p, size)] ∧ a.cur.isEmpty = true ∧ a.prev = b :: l ∧ b.debugIsValid p = false := by
  have h1 : ArenaReaches false { arena2 with cur := ⟨32768, 32768, 72768⟩ } [(4096, 8)] := .freeTop (arena2_reaches false) (by rfl)
  have h2 : ArenaReaches false ⟨⟨131072, 181072, 231072⟩, [⟨32768, 32768, 72768⟩, ⟨4096, 4104, 20432⟩],
      [(131072, 100032), (32768, 40032), (4096, 16368)]⟩ [(131072, 50000), (4096, 8)] :=
    .alloc (new := newAt 100032 131072) h1 (fresh_newAt (by decide)) (by decide) (by simp) (by decide +kernel)
  exact ⟨_, _, _, _, _, .freeTop (a' := ⟨⟨131072, 131072, 231072⟩, [⟨32768, 32768, 72768⟩, ⟨4096, 4104, 20432⟩],
    [(131072, 100032), (32768, 40032), (4096, 16368)]⟩) h2 (by rfl), by rfl, rfl, by rfl⟩

theorem destroyPrevious_chunks : ∀ (l : List ArenaBlock), (∀ b ∈ l, 0 < b.beg) → destroyPrevious l (l.map ArenaBlock.chunk) = .ok []
  | [], _ => rfl
  | b :: l, h => by
    rw [destroyPrevious, List.map_cons, show b.beg = b.chunk.1 from rfl, deleteChunk_head (h b (by simp))]
    exact destroyPrevious_chunks l fun c hc => h c (by simp [hc])

/-- **C65: what is wrong.** If `new` fails when a larger block is needed, then the arena is broken: its destructor gives the current block to `delete` twice. This is so for each
arena that has a block. -/
theorem C65_bad_alloc_wrong (h : ArenaReaches tidy a live) (hn : a.cur.beg ≠ 0) {new : ℕ → Option ℕ} (hnew : ∀ n, new n = none) {size : ℕ} (h1 : size < 2 ^ 62)
    (h2 : a.cur.fin - a.cur.beg < 2 ^ 62) (h3 : a.cur.fin - a.cur.free < size) : ∃ a', a.alloc new size = (a', none) ∧ a'.destroy = .crash := by
  obtain ⟨L0, Ls, hI, _⟩ := arena_inv h
  have hbl := hI.blocks_eq hn
  have hok := hI.ok
  rw [hbl] at hok
  have hg : ∃ n, growSize size a.cur.size = some n := by
    unfold growSize
    rw [if_neg (by rw [ArenaBlock.size]; omega), if_neg (by rw [ArenaBlock.size]; omega)]
    exact ⟨_, rfl⟩
  obtain ⟨n, hg⟩ := hg
  refine ⟨a.save, ?_, ?_⟩
  · unfold Arena.alloc
    rw [if_pos]
    · simp only
      rw [if_neg (by omega), if_neg (show ¬ size = 0 by omega)]
      unfold Arena.growCapacity
      rw [hg]
      simp only
      rw [hnew]
      rfl
    · rw [show size + 18446744073709551615 = (size - 1) + 18446744073709551616 by omega, Nat.add_mod_right, Nat.mod_eq_of_lt (by omega), ArenaBlock.freeCapacity]
      omega
  · rw [Arena.save, if_neg (by simpa [ArenaBlock.isNull] using hn), Arena.destroy]
    simp only
    rw [hI.heap, hbl, destroyPrevious_chunks _ fun b hb => (hok b hb).pos]
    simp [deleteChunk, hn]

example : ∃ a', arena1.alloc (fun _ => none) 20000 = (a', none) ∧ a'.destroy = .crash :=
  C65_bad_alloc_wrong (arena1_reaches true) (by decide) (fun _ => rfl) (by decide) (by decide) (by decide)

/-- **C65: what is wrong.** After `new` has failed, freeing a buffer in an older block with all after it gives the current block to `delete`, but the arena goes on using it: the next
buffer is in memory that has been given back. -/
theorem C65_bad_alloc_dangling : ∃ a a' a'' a''' p, ArenaReaches true a [(32768, 20000), (4096, 8)] ∧ a.alloc (fun _ => none) 30000 = (a', none) ∧
    a'.freeAndAllAfter 4096 = .ok a'' ∧ a''.alloc (fun _ => none) 8 = (a''', some p) ∧ ¬ Inside a'''.heap (p, 8) :=
  ⟨arena2, { arena2 with prev := [⟨32768, 52768, 72768⟩, ⟨4096, 4104, 20432⟩] }, { cur := ⟨32768, 32768, 72768⟩, prev := [], heap := [] },
    { cur := ⟨32768, 32776, 72768⟩, prev := [], heap := [] }, 32768, arena2_reaches true, by rfl, by rfl, by rfl, fun h => by
      obtain ⟨_, _, c, hc, _⟩ := h
      simp at hc⟩

end Frobby
