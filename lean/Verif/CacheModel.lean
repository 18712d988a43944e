import Verif.TextModel

/-!
# Model of the texts that a `TermTranslator` keeps (src/TermTranslator.cpp, src/FrobbyStringStream.cpp)

A translator makes the texts of all its powers when the first of them is asked for, and keeps pointers to them. What changes the translator has to
change or drop the texts too. New texts are at addresses that were never used before, so that a pointer to memory that was given back points to nothing.
Memory does not run out.
-/

namespace Frobby

/-- Texts in memory. New ones are at `next`. -/
structure TextHeap where
  cell : ℕ → Option Text
  next : ℕ

/-- `TermTranslator` (TermTranslator.h:132-135): `_exponents`, `_names`, `_stringExponents` and `_stringVarExponents`. A null pointer is `none`. -/
structure CachingTranslator where
  exps : List (List ℤ)
  names : List Text
  plain : List (List (Option ℕ))
  powers : List (List (Option ℕ))

/-- What `strcpy` copies of a text: the characters up to the first that is zero (TermTranslator.cpp:368-369). -/
def cText (t : Text) : Text := t.takeWhile fun c => decide (c ≠ Char.ofNat 0)

/-- The text for one exponent, if it gets one (TermTranslator.cpp:358-370). -/
def makeText (includeVar : Bool) (name : Text) (x : ℤ) : Option Text :=
  if x ≠ 0 ∨ includeVar = false then
    some (cText (if includeVar = false then decimalInt x else name ++ if x ≠ 1 then '^' :: decimalInt x else []))
  else none

/-- The loop over the exponents of a variable in `makeStrings` (TermTranslator.cpp:355-372). -/
def makeRow (includeVar : Bool) (name : Text) : List ℤ → TextHeap → TextHeap × List (Option ℕ)
  | [], h => (h, [])
  | x :: xs, h =>
    match makeText includeVar name x with
    | none => ((makeRow includeVar name xs h).1, none :: (makeRow includeVar name xs h).2)
    | some t =>
      let r := makeRow includeVar name xs ⟨Function.update h.cell h.next (some t), h.next + 1⟩
      (r.1, some h.next :: r.2)

/-- The loop over the variables in `makeStrings` (TermTranslator.cpp:346-374). `none` is undefined: there is no name. -/
def makeTable (includeVar : Bool) : List Text → List (List ℤ) → TextHeap → Option (TextHeap × List (List (Option ℕ)))
  | _, [], h => some (h, [])
  | [], _ :: _, _ => none
  | name :: names, xs :: rows, h => do
    let r := makeRow includeVar name xs h
    let t ← makeTable includeVar names rows r.1
    some (t.1, r.2 :: t.2)

/-- `delete[]` for some pointers, where those that are null do nothing (TermTranslator.cpp:145-146). `none` is undefined: memory is given back twice. -/
def freeTexts : List (Option ℕ) → TextHeap → Option TextHeap
  | [], h => some h
  | none :: l, h => freeTexts l h
  | some a :: l, h =>
    match h.cell a with
    | none => none
    | some _ => freeTexts l ⟨Function.update h.cell a none, h.next⟩

/-- `clearStrings` (TermTranslator.cpp:143-153). -/
def CachingTranslator.clear (c : CachingTranslator) (h : TextHeap) : Option (TextHeap × CachingTranslator) := do
  let h ← freeTexts c.plain.flatten h
  let h ← freeTexts c.powers.flatten h
  some (h, ⟨c.exps, c.names, [], []⟩)

/-- The loops of `dualize` (TermTranslator.cpp:290-293). `none` is undefined: the vector is too short. -/
def dualizeRows : List (List ℤ) → List ℤ → Option (List (List ℤ))
  | [], _ => some []
  | _ :: _, [] => none
  | xs :: rows, a :: as => (dualizeRows rows as).map fun l => (xs.map fun x => if x ≠ 0 then a - x + 1 else x) :: l

/-- `std::swap` of two entries. `none` is undefined: out of range. -/
def swapTwo {α : Type} (l : List α) (a b : ℕ) : Option (List α) := do
  let x ← l[a]?
  let y ← l[b]?
  some ((l.set a y).set b x)

/-- Swapping the pointers of two variables, if there are any (TermTranslator.cpp:319-323). -/
def swapTable (T : List (List (Option ℕ))) (a b : ℕ) : Option (List (List (Option ℕ))) := if T = [] then some [] else swapTwo T a b

/-- The translators that live, the memory, and the texts that were asked for. -/
structure CacheState where
  tr : ℕ → Option CachingTranslator
  heap : TextHeap
  out : List (Option Text)

/-- What a program does with translators. -/
inductive CacheOp
  | create (x : ℕ) (exps : List (List ℤ)) (names : List Text)
  | copy (x y : ℕ)
  | assign (x y : ℕ)
  | dualize (x : ℕ) (a : List ℤ)
  | decrement (x : ℕ)
  | rename (x : ℕ) (names : List Text)
  | swap (x a b : ℕ)
  | getPower (x var e : ℕ)
  | getPlain (x var e : ℕ)
  | destroy (x : ℕ)

namespace CacheState

def start : CacheState := ⟨fun _ => none, ⟨fun _ => none, 0⟩, []⟩

/-- The state with other memory and another translator. -/
def set (s : CacheState) (x : ℕ) (r : TextHeap × CachingTranslator) : CacheState := ⟨Function.update s.tr x (some r.2), r.1, s.out⟩

/-- Looking a text up. -/
def look (s : CacheState) (T : List (List (Option ℕ))) (var e : ℕ) : Option CacheState := do
  let row ← T[var]?
  let p ← row[e]?
  match p with
  | none => some ⟨s.tr, s.heap, s.out ++ [none]⟩
  | some a => do
    let t ← s.heap.cell a
    some ⟨s.tr, s.heap, s.out ++ [some t]⟩

/-- One step. `none` is undefined. -/
def step (s : CacheState) : CacheOp → Option CacheState
  -- the constructors, which give each name exponents (TermTranslator.cpp:32-88, 165-197)
  | .create x exps names => match s.tr x with
    | some _ => none
    | none => if exps.length = names.length then some (s.set x (s.heap, ⟨exps, names, [], []⟩)) else none
  -- `TermTranslator(const TermTranslator&)` (TermTranslator.cpp:376-378): `operator=` on an object with no texts
  | .copy x y => match s.tr x with
    | some _ => none
    | none => do
      let c ← s.tr y
      some (s.set x (s.heap, ⟨c.exps, c.names, [], []⟩))
  -- `operator=` (TermTranslator.cpp:380-385): the other object is looked at after the texts of this one are dropped
  | .assign x y => do
    let c ← s.tr x
    let r ← c.clear s.heap
    let s' := s.set x r
    let d ← s'.tr y
    some (s'.set x (r.1, ⟨d.exps, d.names, r.2.plain, r.2.powers⟩))
  -- `dualize` (TermTranslator.cpp:288-294)
  | .dualize x a => do
    let c ← s.tr x
    let r ← c.clear s.heap
    let exps ← dualizeRows c.exps a
    some (s.set x (r.1, ⟨exps, c.names, r.2.plain, r.2.powers⟩))
  -- `decrement` (TermTranslator.cpp:296-301)
  | .decrement x => do
    let c ← s.tr x
    let r ← c.clear s.heap
    some (s.set x (r.1, ⟨c.exps.map fun xs => xs.map fun e => e - 1, c.names, r.2.plain, r.2.powers⟩))
  -- `renameVariables` (TermTranslator.cpp:303-308)
  | .rename x names => do
    let c ← s.tr x
    if c.names.length = names.length then do
      let r ← c.clear s.heap
      some (s.set x (r.1, ⟨c.exps, names, r.2.plain, r.2.powers⟩))
    else none
  -- `swapVariables` (TermTranslator.cpp:310-326), `VarNames::swapVariables` (VarNames.cpp:143-159)
  | .swap x a b => do
    let c ← s.tr x
    if a = b then (if a < c.names.length then some s else none)
    else do
      let exps ← swapTwo c.exps a b
      let plain ← swapTable c.plain a b
      let powers ← swapTable c.powers a b
      let names ← swapTwo c.names a b
      some (s.set x (s.heap, ⟨exps, names, plain, powers⟩))
  -- `getVarExponentString` (TermTranslator.cpp:399-407)
  | .getPower x var e => do
    let c ← s.tr x
    if c.powers = [] then do
      let r ← makeTable true c.names c.exps s.heap
      (s.set x (r.1, ⟨c.exps, c.names, c.plain, r.2⟩)).look r.2 var e
    else s.look c.powers var e
  -- `getExponentString` (TermTranslator.cpp:409-417)
  | .getPlain x var e => do
    let c ← s.tr x
    if c.plain = [] then do
      let r ← makeTable false c.names c.exps s.heap
      (s.set x (r.1, ⟨c.exps, c.names, r.2, c.powers⟩)).look r.2 var e
    else s.look c.plain var e
  -- `~TermTranslator` (TermTranslator.cpp:387-389)
  | .destroy x => do
    let c ← s.tr x
    let r ← c.clear s.heap
    some ⟨Function.update s.tr x none, r.1, s.out⟩

/-- A program. -/
def run : List CacheOp → CacheState → Option CacheState
  | [], s => some s
  | op :: ops, s => (s.step op).bind (run ops)

end CacheState

end Frobby
