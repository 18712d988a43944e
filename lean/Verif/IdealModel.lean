import Verif.Term
import Mathlib.Data.List.Sort
import Mathlib.Data.List.Lex

/-!
# Model of `Ideal` (src/Ideal.cpp) and `Minimizer` (src/Minimizer.cpp)

An ideal is the list of its generators. Operations that permute the generators in place are modelled up to the
order of the generators (noted at each definition).
-/

namespace Frobby

variable {n : ℕ}

/-- Order used by `LexComparator` (TermPredicate.cpp lexCompare): compare exponent by exponent. -/
def lexLE (a b : Term n) : Prop := List.ofFn a ≤ List.ofFn b

instance (a b : Term n) : Decidable (lexLE a b) := by unfold lexLE; infer_instance

/-- `std::sort` with `LexComparator` (TermPredicate.h:97-108). -/
def sortLex (G : List (Term n)) : List (Term n) := G.insertionSort lexLE

/-- `std::sort` with `ReverseLexComparator` (TermPredicate.h:111-122; Ideal.cpp:510-512). -/
def sortReverseLex (G : List (Term n)) : List (Term n) := G.insertionSort (fun a b => lexLE b a)

/-- `Ideal::singleDegreeSort` (Ideal.cpp:518-523). The order of ties is not specified by `std::sort`;
insertion sort fixes one. Callers only look at the exponents of `v`. -/
def singleDegreeSort (v : Fin n) (G : List (Term n)) : List (Term n) :=
  G.insertionSort (fun a b => a v ≤ b v)

/-- `std::sort` with `ReverseSingleDegreeComparator` (Minimizer.cpp:374). -/
def reverseSingleDegreeSort (v : Fin n) (G : List (Term n)) : List (Term n) :=
  G.insertionSort (fun a b => b v ≤ a v)

/-- `Ideal::contains` (Ideal.cpp:57-63). -/
def contains (G : List (Term n)) (t : Term n) : Bool := G.any fun g => decide (g ≤ t)

/-- `Ideal::getLcm` (Ideal.cpp:157-162). -/
def lcmOf (G : List (Term n)) : Term n := G.foldl (· ⊔ ·) 0

/-- `simpleMinimize`, the double loop (Minimizer.cpp:38-54): keep a term unless a kept one divides it. -/
def keepLoop (kept : List (Term n)) : List (Term n) → List (Term n)
  | [] => kept
  | t :: ts => if kept.any (fun d => decide (d ≤ t)) then keepLoop kept ts else keepLoop (kept ++ [t]) ts

/-- `simpleMinimize` (Minimizer.cpp:32-56). -/
def simpleMinimize (G : List (Term n)) : List (Term n) := keepLoop [] (sortLex G)

/-- `twoVarMinimize`, the loop (Minimizer.cpp:64-72); `v1` is the variable with index 1. -/
def twoVarLoop (v1 : Fin n) (last : Term n) : List (Term n) → List (Term n)
  | [] => []
  | t :: ts => if t v1 < last v1 then t :: twoVarLoop v1 t ts else twoVarLoop v1 last ts

/-- `twoVarMinimize` (Minimizer.cpp:58-76). -/
def twoVarMinimize (v1 : Fin n) (G : List (Term n)) : List (Term n) :=
  match sortLex G with
  | [] => []
  | t :: ts => t :: twoVarLoop v1 t ts

/-- `Term::getFirstMaxExponent` (Term.h:381-388); `none` only without variables. -/
def firstMax? (a : Term n) : Option (Fin n) :=
  (List.finRange n).foldl
    (fun acc v => match acc with
      | none => some v
      | some m => if a m < a v then some v else some m) none

/-- `TreeNode` (Minimizer.cpp:78-237). -/
inductive TreeNode (n : ℕ) where
  | leaf (terms : List (Term n))
  | node (var : Fin n) (pivot : ℕ) (le gt : TreeNode n)

/-- The loop of `TreeNode::makeTree` that looks for a variable to split on (Minimizer.cpp:107-149):
take the variable with the largest entry of the (remaining) lcm, pivot a quarter of it, and
go on to the next variable if every term has an exponent above the pivot.
The loop zeroes one entry of the lcm per iteration, so `n + 1` iterations suffice. That some term lies above the
pivot is asserted in the code (131) and always true for the lcm of `G`; the model tests it. -/
def findSplit (G : List (Term n)) : ℕ → Term n → Option (Fin n × ℕ)
  | 0, _ => none
  | fuel + 1, lcm =>
    match firstMax? lcm with
    | none => none
    | some v =>
      if lcm v = 0 then none
      else if G.any (fun g => decide (g v ≤ lcm v / 4)) && G.any (fun g => decide (lcm v / 4 < g v)) then
        some (v, lcm v / 4)
      else findSplit G fuel (Function.update lcm v 0)

theorem findSplit_spec {G : List (Term n)} : ∀ {fuel : ℕ} {lcm : Term n} {v : Fin n} {p : ℕ},
    findSplit G fuel lcm = some (v, p) → (∃ g ∈ G, g v ≤ p) ∧ (∃ g ∈ G, p < g v) := by
  intro fuel
  induction fuel with
  | zero => intro lcm v p h; simp [findSplit] at h
  | succ k ih =>
    intro lcm v p h
    unfold findSplit at h
    split at h
    · simp at h
    · split at h
      · simp at h
      · split at h
        · rename_i hb
          simp only [Option.some.injEq, Prod.mk.injEq] at h
          obtain ⟨rfl, rfl⟩ := h
          simpa using hb
        · exact ih h

theorem length_filter_lt {α : Type*} {p : α → Bool} {l : List α} {x : α} (hx : x ∈ l)
    (hp : p x = false) : (l.filter p).length < l.length := by
  induction l with
  | nil => simp at hx
  | cons a l ih =>
    rcases List.mem_cons.1 hx with h | h
    · subst h
      have := List.length_filter_le p l
      simp [hp]; omega
    · have := ih h
      rw [List.filter_cons]; split <;> rw [List.length_cons] <;> [rw [List.length_cons]; skip] <;> omega

/-- The first part of the partition of `TreeNode::makeTree` (Minimizer.cpp:122-138), up to order. -/
def lePart (v : Fin n) (p : ℕ) (G : List (Term n)) : List (Term n) := G.filter fun g => decide (g v ≤ p)

/-- The second part of the partition of `TreeNode::makeTree` (Minimizer.cpp:122-138), up to order. -/
def gtPart (v : Fin n) (p : ℕ) (G : List (Term n)) : List (Term n) := G.filter fun g => decide (p < g v)

/-- `TreeNode::makeTree` (Minimizer.cpp:97-154). The in-place partition (122-138) puts the terms with exponent
at most the pivot first; here it is two filters. -/
def makeTree (G : List (Term n)) : TreeNode n :=
  if 20 < G.length then
    match h : findSplit G (n + 1) (lcmOf G) with
    | some (v, p) =>
      .node v p (makeTree (lePart v p G)) (makeTree (gtPart v p G))
    | none => .leaf (simpleMinimize G)
  else .leaf (simpleMinimize G)
termination_by G.length
decreasing_by
  · obtain ⟨g, hg, hgt⟩ := (findSplit_spec h).2
    exact length_filter_lt (p := fun g => decide (g v ≤ p)) hg (by simpa using hgt)
  · obtain ⟨g, hg, hle⟩ := (findSplit_spec h).1
    exact length_filter_lt (p := fun g => decide (p < g v)) hg (by simpa using hle)

/-- `TreeNode::isRedundant` (Minimizer.cpp:156-175). -/
def TreeNode.isRedundant (t : Term n) : TreeNode n → Bool
  | .leaf terms => terms.any fun g => decide (g ≤ t)
  | .node v p le gt => (decide (p < t v) && gt.isRedundant t) || le.isRedundant t

/-- `TreeNode::collect` (Minimizer.cpp:177-198), up to order. -/
def TreeNode.collect : TreeNode n → List (Term n)
  | .leaf terms => terms
  | .node _ _ le gt => gt.collect.filter (fun t => !le.isRedundant t) ++ le.collect

/-- `Minimizer::minimize` (Minimizer.cpp:239-254) and `Ideal::minimize` (Ideal.cpp:501-508). -/
def minimize (G : List (Term n)) : List (Term n) :=
  if h : n = 2 then twoVarMinimize ⟨1, by omega⟩ G
  else if G.length < 1000 ∨ n = 0 then simpleMinimize G
  else (makeTree G).collect

/-- The colon of one term by `x_v^e` (Minimizer.cpp:357-358, 391; Ideal.cpp:540-546). -/
def colonVar (v : Fin n) (e : ℕ) (g : Term n) : Term n := Function.update g v (g v - e)

/-- The loop of `Minimizer::colonReminimize(var, exponent)` over the sorted tail (Minimizer.cpp:378-406).
`prev` are the kept terms of earlier blocks, `cur` the kept terms of the current block. -/
def blockLoop (v : Fin n) : (prev cur : List (Term n)) → (block : ℕ) → List (Term n) → List (Term n)
  | prev, cur, _, [] => prev ++ cur
  | prev, cur, block, t :: ts =>
    let prev' := if t v ≠ block then prev ++ cur else prev
    let cur' := if t v ≠ block then [] else cur
    let t0 := Function.update t v 0
    if prev'.any (fun d => decide (d ≤ t0)) then blockLoop v prev' cur' (t v) ts
    else blockLoop v prev' (cur' ++ [t0]) (t v) ts

/-- `Minimizer::colonReminimize(begin, end, var, exponent)` (Minimizer.cpp:344-409), up to order.
Returns the new generators and the flag. -/
def colonReminimizeVar (v : Fin n) (e : ℕ) (G : List (Term n)) : List (Term n) × Bool :=
  let strict := (G.filter fun g => decide (e < g v)).map (colonVar v e)
  let middle := G.filter fun g => decide (g v ≤ e ∧ g v ≠ 0)
  let zeros := G.filter fun g => decide (g v ≤ e ∧ g v = 0)
  match reverseSingleDegreeSort v middle with
  | [] => (strict ++ zeros, false)
  | t :: ts => (strict ++ blockLoop v [] [] (t v) (t :: ts ++ zeros), true)

/-- A term lands in the first part of the array in `Minimizer::colonReminimize` (`strictDivision`,
Minimizer.cpp:267-283). -/
def colonStrict (p g : Term n) : Bool := decide (∀ i, p i = 0 ∨ p i < g i)

/-- A term stays in the middle part: some positive exponent is zeroed (`!block`, Minimizer.cpp:270-288). -/
def colonMiddle (p g : Term n) : Bool := decide (∃ i, 0 < g i ∧ g i ≤ p i)

/-- `Minimizer::colonReminimize(begin, end, colon)` (Minimizer.cpp:256-305), up to order.
In lines 296-301 the range `[begin, blockBegin)` compared against still holds (pointers to) terms of the middle
part, some of them already dropped as redundant, and the block terms already appended; comparing with the
minimized middle part gives the same answer (block terms never divide each other), which is what is modelled. -/
def colonReminimize (p : Term n) (G : List (Term n)) : List (Term n) × Bool :=
  if Term.sizeOfSupport p = 1 then
    match (List.finRange n).find? (fun i => p i ≠ 0) with
    | some v => colonReminimizeVar v (p v) G
    | none => (G, false)   -- unreachable: the support has one element
  else
    let strict := (G.filter fun g => colonStrict p g).map (· - p)
    let middle := (G.filter fun g => !colonStrict p g && colonMiddle p g).map (· - p)
    let block := (G.filter fun g => !colonStrict p g && !colonMiddle p g).map (· - p)
    if middle.isEmpty then (strict ++ block, false)
    else
      let mid := minimize middle
      (strict ++ mid ++ block.filter (fun g => !(mid.any fun d => decide (d ≤ g))), true)

/-- `Ideal::removeMultiples(term)` (Ideal.cpp:584-594). -/
def removeMultiples (t : Term n) (G : List (Term n)) : List (Term n) := G.filter fun g => !decide (t ≤ g)

/-- `Ideal::removeStrictMultiples` (Ideal.cpp:622-632). -/
def removeStrictMultiples (t : Term n) (G : List (Term n)) : List (Term n) :=
  G.filter fun g => !decide (Term.strictlyDivides t g)

/-- `Ideal::insertReminimize(term)` (Ideal.cpp:484-492). -/
def insertReminimize (t : Term n) (G : List (Term n)) : List (Term n) :=
  if contains G t then G else removeMultiples t G ++ [t]

end Frobby
