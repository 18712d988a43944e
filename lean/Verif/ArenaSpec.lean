import Verif.ArenaModel

/-!
# Specification of arenas

What a client of an arena sees: the buffers that are live, as a stack.
-/

namespace Frobby

/-- What `new` gives is aligned and does not overlap with the memory that is in use. -/
def FreshFrom (heap : List (ℕ × ℕ)) (new : ℕ → Option ℕ) : Prop :=
  ∀ n b, new n = some b → 0 < b ∧ b % 8 = 0 ∧ b + n ≤ 2 ^ 64 ∧ ∀ c ∈ heap, b + n ≤ c.1 ∨ c.1 + c.2 ≤ b

/-- The client allocates buffers and frees them in stack order, or a buffer with all that have been allocated later. `live` are the addresses and sizes of the live
buffers, with the last first. Allocations that have failed with the arena unchanged are allowed. If `tidy` is set, then no new block is needed while the current one
is empty. -/
inductive ArenaReaches (tidy : Bool) : Arena → List (ℕ × ℕ) → Prop
  | start : ArenaReaches tidy Arena.empty []
  | alloc {a a' : Arena} {live : List (ℕ × ℕ)} {new : ℕ → Option ℕ} {size p : ℕ} : ArenaReaches tidy a live → FreshFrom a.heap new → size < 2 ^ 64 →
      (tidy = true → a.cur.beg ≠ 0 → a.cur.beg = a.cur.free → size ≤ a.cur.fin - a.cur.free) → a.alloc new size = (a', some p) → ArenaReaches tidy a' ((p, size) :: live)
  | freeTop {a a' : Arena} {live : List (ℕ × ℕ)} {p size : ℕ} : ArenaReaches tidy a ((p, size) :: live) → a.freeTop p = .ok a' → ArenaReaches tidy a' live
  | freeAndAllAfter {a a' : Arena} {after live : List (ℕ × ℕ)} {p size : ℕ} : ArenaReaches tidy a (after ++ (p, size) :: live) → a.freeAndAllAfter p = .ok a' →
      ArenaReaches tidy a' live

/-- The buffers do not overlap, and a buffer without bytes has an address of its own. -/
def Apart (x y : ℕ × ℕ) : Prop := x.1 + max x.2 1 ≤ y.1 ∨ y.1 + max y.2 1 ≤ x.1

/-- The buffer is aligned, and it is inside of memory that is in use, without the 32 bytes at the end in which the arena keeps its own data. -/
def Inside (heap : List (ℕ × ℕ)) (x : ℕ × ℕ) : Prop := x.1 % 8 = 0 ∧ 0 < x.1 ∧ ∃ c ∈ heap, c.1 ≤ x.1 ∧ x.1 + x.2 + 32 ≤ c.1 + c.2

end Frobby
