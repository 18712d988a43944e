/-!
# Model of the packed square free terms of `RawSquareFreeTerm`

A term of `varCount` variables is an array of words, and the bit `var % BitsPerWord` of the word `var / BitsPerWord` is the
exponent of the variable `var`. Every function here returns `none` when the code would read or write outside of an array that it
is given. The type `Word` is `unsigned long` (stdinc.h:93), taken to have 64 bits.
-/

namespace Frobby

/-- `Word` (stdinc.h:93). -/
abbrev Word := BitVec 64

/-- `BitsPerWord` (stdinc.h:94). -/
def bitsPerWord : Nat := 64

/-- `getWordCount` (RawSquareFreeTerm.cpp:91-98). -/
def wordCount (varCount : Nat) : Nat :=
  if varCount = 0 then 1 else (varCount - 1) / bitsPerWord + 1

/-- `getExponent` (RawSquareFreeTerm.h:151-155). -/
def wGetExponent (a : List Word) (var : Nat) : Option Bool :=
  match a[var / bitsPerWord]? with
  | none => none
  | some word => some ((word &&& (1 : Word) <<< (var % bitsPerWord)) != 0)

/-- `setExponent` (RawSquareFreeTerm.h:170-176). -/
def wSetExponent (a : List Word) (var : Nat) (value : Bool) : Option (List Word) :=
  match a[var / bitsPerWord]? with
  | none => none
  | some word =>
    let setBit := (1 : Word) <<< (var % bitsPerWord)
    let valueBit := (if value then (1 : Word) else 0) <<< (var % bitsPerWord)
    some (a.set (var / bitsPerWord) ((word &&& ~~~setBit) ||| valueBit))

/-- The word with the lowest `n` bits set, for `n < 64`: `(((Word)1) << varCount) - 1` (RawSquareFreeTerm.h:191,
RawSquareFreeTerm.cpp:132, 315 and 421). -/
def fullSupportWord (n : Nat) : Word := ((1 : Word) <<< n) - 1

/-- The loop `for (; res != resEnd; ++res, ++a, ++b) *res = f(*a, *b)` over `n` words. The result is the content of
`[res, resEnd)`. -/
def zipWords (f : Word → Word → Word) : Nat → List Word → List Word → Option (List Word)
  | 0, _, _ => some []
  | n + 1, x :: a, y :: b => (zipWords f n a b).map (f x y :: ·)
  | _ + 1, _, _ => none

/-- The loop `for (; varCount >= BitsPerWord; ..., varCount -= BitsPerWord) *res = f(*a, *b); if (varCount > 0) *res = g(*a, *b)`,
where `g` depends on the number of variables that are left. The result is the whole of the array at `res`. -/
def zipVars (f : Word → Word → Word) (g : Nat → Word → Word → Word) (res a b : List Word) (varCount : Nat) :
    Option (List Word) :=
  if varCount ≥ bitsPerWord then
    match res, a, b with
    | _ :: res, x :: a, y :: b => (zipVars f g res a b (varCount - bitsPerWord)).map (f x y :: ·)
    | _, _, _ => none
  else if varCount > 0 then
    match res, a, b with
    | _ :: res, x :: _, y :: _ => some (g varCount x y :: res)
    | _, _, _ => none
  else some res

/-- `isIdentity` on a range of words (RawSquareFreeTerm.cpp:51-56). -/
def wIsIdentityWords (a : List Word) : Bool := a.all (· == 0)

/-- `isIdentity` (RawSquareFreeTerm.cpp:58-69). -/
def wIsIdentity : List Word → Nat → Option Bool
  | _, 0 => some true
  | [], _ + 1 => none
  | w :: a, varCount + 1 =>
    if w ≠ 0 then some false
    else if varCount + 1 ≤ bitsPerWord then some true
    else wIsIdentity a (varCount + 1 - bitsPerWord)

/-- The loop over the bits of a word in `getSizeOfSupport` (RawSquareFreeTerm.cpp:78-82). -/
def countBits (word : Word) : Nat :=
  if _h : word = 0 then 0
  else (if word &&& 1 ≠ 0 then 1 else 0) + countBits (word >>> 1)
  termination_by word.toNat
  decreasing_by
    have : word.toNat ≠ 0 := fun h' => _h (BitVec.eq_of_toNat_eq h')
    simp only [BitVec.toNat_ushiftRight, Nat.shiftRight_eq_div_pow]
    omega

/-- `getSizeOfSupport` (RawSquareFreeTerm.cpp:71-89). -/
def wSizeOfSupport : List Word → Nat → Option Nat
  | _, 0 => some 0
  | [], _ + 1 => none
  | w :: a, varCount + 1 =>
    if varCount + 1 ≤ bitsPerWord then some (countBits w)
    else (wSizeOfSupport a (varCount + 1 - bitsPerWord)).map (countBits w + ·)

/-- The first loop of `compact` (RawSquareFreeTerm.cpp:103-108), from `var` on for `n` more variables. `src` is how the array
`term` is found from the array `compacted`: the same array, or another one that does not change. -/
def wCompactLoop (src : List Word → List Word) (remove : List Word) (compacted : List Word) (newVarCount var : Nat) :
    Nat → Option (List Word × Nat)
  | 0 => some (compacted, newVarCount)
  | n + 1 =>
    match wGetExponent remove var with
    | none => none
    | some true => wCompactLoop src remove compacted newVarCount (var + 1) n
    | some false =>
      match wGetExponent (src compacted) var with
      | none => none
      | some e =>
        match wSetExponent compacted newVarCount e with
        | none => none
        | some compacted => wCompactLoop src remove compacted (newVarCount + 1) (var + 1) n

/-- The second loop of `compact` (RawSquareFreeTerm.cpp:109-110). -/
def wCompactTail (compacted : List Word) (newVarCount : Nat) : Option (List Word) :=
  if newVarCount % bitsPerWord ≠ 0 then
    match wSetExponent compacted newVarCount false with
    | none => none
    | some compacted => wCompactTail compacted (newVarCount + 1)
  else some compacted
  termination_by (64 - newVarCount % 64) % 64
  decreasing_by simp only [bitsPerWord] at *; omega

/-- `compact` (RawSquareFreeTerm.cpp:100-113). The parameter `src` is `id` when `compacted` and `term` are the same array and
constant when they are different arrays. -/
def wCompact (src : List Word → List Word) (remove compacted : List Word) (varCount : Nat) : Option (List Word) :=
  match wCompactLoop src remove compacted 0 0 varCount with
  | none => none
  | some (compacted, newVarCount) => wCompactTail compacted newVarCount

/-- `setToIdentity` on a range of `n` words (RawSquareFreeTerm.cpp:115-118). -/
def wSetToIdentityWords (n : Nat) : List Word := List.replicate n 0

/-- `setToIdentity` (RawSquareFreeTerm.cpp:120-125). -/
def wSetToIdentity (res : List Word) (varCount : Nat) : Option (List Word) :=
  zipVars (fun _ _ => 0) (fun _ _ _ => 0) res res res varCount

/-- `setToAllVarProd` (RawSquareFreeTerm.cpp:128-135). -/
def wSetToAllVarProd (res : List Word) (varCount : Nat) : Option (List Word) :=
  zipVars (fun _ _ => ~~~0) (fun n _ _ => fullSupportWord n) res res res varCount

/-- `newTerm` (RawSquareFreeTerm.cpp:139-144). -/
def wNewTerm (varCount : Nat) : List Word := wSetToIdentityWords (wordCount varCount)

/-- `lexLess` (RawSquareFreeTerm.cpp:158-174). -/
def wLexLess : List Word → List Word → Nat → Option Bool
  | _, _, 0 => some false
  | x :: a, y :: b, varCount + 1 =>
    if x ≠ y then
      let xorAB := x ^^^ y
      let leastSignificantBit := xorAB &&& (-xorAB)
      some (x &&& leastSignificantBit == 0)
    else if varCount + 1 ≤ bitsPerWord then some false
    else wLexLess a b (varCount + 1 - bitsPerWord)
  | _, _, _ + 1 => none

/-- `colon` (RawSquareFreeTerm.cpp:176-179). -/
def wColon (n : Nat) (a b : List Word) : Option (List Word) := zipWords (fun x y => x &&& ~~~y) n a b

/-- `colonInPlace` (RawSquareFreeTerm.cpp:181-184). -/
def wColonInPlace (res b : List Word) : Option (List Word) := zipWords (fun x y => x &&& ~~~y) res.length res b

/-- `assign` on a range of `n` words (RawSquareFreeTerm.h:165-168). -/
def wAssignWords (n : Nat) (b : List Word) : Option (List Word) := zipWords (fun _ y => y) n b b

/-- `assign` (RawSquareFreeTerm.cpp:186-191). -/
def wAssign (a b : List Word) (varCount : Nat) : Option (List Word) :=
  zipVars (fun _ y => y) (fun _ _ y => y) a a b varCount

/-- The inner loop of `encodeTerm` (RawSquareFreeTerm.cpp:198-205, 216-223 and 234-245): the exponents that are left, the bit
and the word so far. `digit` reads an exponent: `none` is a value that is not 0 or 1. The result is the word and the exponents
that are left, or `none` for `return false`. -/
def encodeWord {α : Type} (digit : α → Option Bool) : List α → Word → Word → Option (Word × List α)
  | [], _, word => some (word, [])
  | e :: l, bit, word =>
    match digit e with
    | none => none
    | some d =>
      let word := if d then word ||| bit else word
      let bit := bit <<< 1
      if bit ≠ 0 then encodeWord digit l bit word else some (word, l)

theorem encodeWord_length {α : Type} (digit : α → Option Bool) : ∀ (l : List α) (bit word : Word) (r : Word × List α),
    encodeWord digit l bit word = some r → r.2.length ≤ l.length - 1 := by
  intro l
  induction l with
  | nil => intro bit word r h; simp [encodeWord] at h; subst h; simp
  | cons e l ih =>
    intro bit word r h
    unfold encodeWord at h
    split at h
    · cases h
    · simp only at h
      split at h
      · have := ih _ _ _ h
        simp only [List.length_cons]
        omega
      · simp only [Option.some.injEq] at h
        subst h
        simp

/-- `encodeTerm` (RawSquareFreeTerm.cpp:193-209): the words of the array at `encoded` after the call. The inner `none` is
`return false`, the content of the array is then not used. -/
def encodeLoop {α : Type} (digit : α → Option Bool) (encoded : List Word) (term : List α) : Option (Option (List Word)) :=
  match term with
  | [] => some (some encoded)
  | e :: l =>
    match encoded with
    | [] => none
    | _ :: encoded =>
      match _h : encodeWord digit (e :: l) 1 0 with
      | none => some none
      | some (word, rest) => (encodeLoop digit encoded rest).map fun r => r.map (word :: ·)
  termination_by term.length
  decreasing_by
    have := encodeWord_length digit _ _ _ _ _h
    simp at this ⊢
    omega

/-- How `encodeTerm` reads an exponent that is a number (RawSquareFreeTerm.cpp:199-202 and 217-220). -/
def digitOfNumber (e : Nat) : Option Bool := if e = 1 then some true else if e ≠ 0 then none else some false

/-- How `encodeTerm` reads an exponent that is a string (RawSquareFreeTerm.cpp:235-242). -/
def digitOfText (s : List Char) : Option Bool :=
  match s with
  | [] => some false
  | [c] => if c = '1' then some true else if c ≠ '0' then none else some false
  | _ => none

/-- `encodeTerm` of numbers (RawSquareFreeTerm.cpp:193-227). -/
def wEncodeTerm (encoded : List Word) (term : List Nat) : Option (Option (List Word)) := encodeLoop digitOfNumber encoded term

/-- `encodeTerm` of strings (RawSquareFreeTerm.cpp:229-249). -/
def wEncodeTexts (encoded : List Word) (term : List (List Char)) : Option (Option (List Word)) :=
  encodeLoop digitOfText encoded term

/-- `lcm` on a range of `n` words (RawSquareFreeTerm.cpp:251-255). -/
def wLcmWords (n : Nat) (a b : List Word) : Option (List Word) := zipWords (fun x y => x ||| y) n a b

/-- `lcm` (RawSquareFreeTerm.cpp:257-262). -/
def wLcm (res a b : List Word) (varCount : Nat) : Option (List Word) :=
  zipVars (fun x y => x ||| y) (fun _ x y => x ||| y) res a b varCount

/-- `lcmInPlace` on a range of words (RawSquareFreeTerm.cpp:264-267). -/
def wLcmInPlaceWords (res a : List Word) : Option (List Word) := zipWords (fun x y => x ||| y) res.length res a

/-- `lcmInPlace` (RawSquareFreeTerm.cpp:269-274). -/
def wLcmInPlace (res a : List Word) (varCount : Nat) : Option (List Word) :=
  zipVars (fun x y => x ||| y) (fun _ x y => x ||| y) res res a varCount

/-- `gcd` on a range of `n` words (RawSquareFreeTerm.cpp:276-279). -/
def wGcdWords (n : Nat) (a b : List Word) : Option (List Word) := zipWords (fun x y => x &&& y) n a b

/-- `gcd` (RawSquareFreeTerm.cpp:281-286). -/
def wGcd (res a b : List Word) (varCount : Nat) : Option (List Word) :=
  zipVars (fun x y => x &&& y) (fun _ x y => x &&& y) res a b varCount

/-- `gcdInPlace` on a range of words (RawSquareFreeTerm.cpp:288-291). -/
def wGcdInPlaceWords (res a : List Word) : Option (List Word) := zipWords (fun x y => x &&& y) res.length res a

/-- `gcdInPlace` (RawSquareFreeTerm.cpp:293-298). -/
def wGcdInPlace (res a : List Word) (varCount : Nat) : Option (List Word) :=
  zipVars (fun x y => x &&& y) (fun _ x y => x &&& y) res res a varCount

/-- `isRelativelyPrime` on a range of words (RawSquareFreeTerm.h:195-200). -/
def wIsRelativelyPrimeWords : List Word → List Word → Option Bool
  | [], _ => some true
  | x :: a, y :: b => if x &&& y ≠ 0 then some false else wIsRelativelyPrimeWords a b
  | _ :: _, [] => none

/-- `isRelativelyPrime` (RawSquareFreeTerm.cpp:300-308). -/
def wIsRelativelyPrime (a b : List Word) (varCount : Nat) : Option Bool :=
  if varCount ≥ bitsPerWord then
    match a, b with
    | x :: a, y :: b => if x &&& y ≠ 0 then some false else wIsRelativelyPrime a b (varCount - bitsPerWord)
    | _, _ => none
  else if varCount ≠ 0 then
    match a, b with
    | x :: _, y :: _ => if x &&& y ≠ 0 then some false else some true
    | _, _ => none
  else some true

/-- `divides` (RawSquareFreeTerm.h:144-149). -/
def wDivides : List Word → List Word → Option Bool
  | [], _ => some true
  | x :: a, y :: b => if x &&& ~~~y ≠ 0 then some false else wDivides a b
  | _ :: _, [] => none

/-- `hasFullSupport` (RawSquareFreeTerm.h:183-193). -/
def wHasFullSupport (a : List Word) (varCount : Nat) : Option Bool :=
  if varCount ≥ bitsPerWord then
    match a with
    | [] => none
    | x :: a => if x ≠ ~~~0 then some false else wHasFullSupport a (varCount - bitsPerWord)
  else if varCount = 0 then some true
  else
    match a with
    | [] => none
    | x :: _ => some (x == fullSupportWord varCount)

/-- `invert` (RawSquareFreeTerm.cpp:311-318). -/
def wInvert (a : List Word) (varCount : Nat) : Option (List Word) :=
  zipVars (fun x _ => ~~~x) (fun n x _ => ~~~x &&& fullSupportWord n) a a a varCount

/-- The loop of `getVarIfPure` that looks for the only word that is not zero (RawSquareFreeTerm.cpp:323-341). `i` is the number of
the next word, `hit` the word found so far with its number. The inner `none` is `return varCount`. -/
def findHit (i : Nat) (hit : Option (Nat × Word)) (a : List Word) (varsToGo : Nat) : Option (Option (Option (Nat × Word))) :=
  if varsToGo ≥ bitsPerWord then
    match a with
    | [] => none
    | x :: a =>
      if x ≠ 0 then
        if hit.isSome then some none
        else findHit (i + 1) (some (i, x)) a (varsToGo - bitsPerWord)
      else findHit (i + 1) hit a (varsToGo - bitsPerWord)
  else if varsToGo ≠ 0 then
    match a with
    | [] => none
    | x :: _ =>
      if x ≠ 0 then
        if hit.isSome then some none else some (some (some (i, x)))
      else some (some hit)
  else some (some hit)

/-- The loop of `getVarIfPure` that shifts the word until its lowest bit is set (RawSquareFreeTerm.cpp:344-348), with the number
of shifts. It is not reached with the word zero, for which it would not end. -/
def shiftToOne (word : Word) (n : Nat) : Word × Nat :=
  if h : word = 0 then (word, n)
  else if word &&& 1 = 0 then shiftToOne (word >>> 1) (n + 1)
  else (word, n)
  termination_by word.toNat
  decreasing_by
    have : word.toNat ≠ 0 := fun h' => h (BitVec.eq_of_toNat_eq h')
    simp only [BitVec.toNat_ushiftRight, Nat.shiftRight_eq_div_pow]
    omega

/-- `getVarIfPure` (RawSquareFreeTerm.cpp:322-353). -/
def wGetVarIfPure (a : List Word) (varCount : Nat) : Option Nat :=
  match findHit 0 none a varCount with
  | none => none
  | some none => some varCount
  | some (some none) => some varCount
  | some (some (some (i, word))) =>
    let r := shiftToOne word (i * bitsPerWord)
    if r.1 >>> 1 ≠ 0 then some varCount else some r.2

/-- The loop over the bits of a word in `decrementAtSupport` and `toZeroAtSupport` (RawSquareFreeTerm.cpp:362-366 and
382-387): `f` is applied to the numbers at the bits that are set. Only numbers up to the highest bit that is set are touched. -/
def atBits (f : Nat → Nat) (word : Word) (inc : List Nat) : Option (List Nat) :=
  if word = 0 then some inc
  else
    match inc with
    | [] => none
    | x :: inc => (atBits f (word >>> 1) inc).map ((if word &&& 1 ≠ 0 then f x else x) :: ·)

/-- `decrementAtSupport` and `toZeroAtSupport` (RawSquareFreeTerm.cpp:356-373 and 376-394), for what is done to a number. -/
def wAtSupport (f : Nat → Nat) : List Word → List Nat → Nat → Option (List Nat)
  | _, inc, 0 => some inc
  | [], _, _ + 1 => none
  | w :: a, inc, varCount + 1 =>
    match atBits f w inc with
    | none => none
    | some inc =>
      if varCount + 1 ≤ bitsPerWord then some inc
      else (wAtSupport f a (inc.drop bitsPerWord) (varCount + 1 - bitsPerWord)).map (inc.take bitsPerWord ++ ·)

/-- `decrementAtSupport` (RawSquareFreeTerm.cpp:356-373). The numbers are of type `size_t`, so zero becomes the largest. -/
def wDecrementAtSupport (a : List Word) (inc : List Nat) (varCount : Nat) : Option (List Nat) :=
  wAtSupport (fun x => (x + (2 ^ 64 - 1)) % 2 ^ 64) a inc varCount

/-- `toZeroAtSupport` (RawSquareFreeTerm.cpp:376-394). -/
def wToZeroAtSupport (a : List Word) (inc : List Nat) (varCount : Nat) : Option (List Nat) :=
  wAtSupport (fun _ => 0) a inc varCount

/-- `equals` (RawSquareFreeTerm.cpp:397-409). -/
def wEquals : List Word → List Word → Nat → Option Bool
  | _, _, 0 => some true
  | x :: a, y :: b, varCount + 1 =>
    if x ≠ y then some false
    else if varCount + 1 ≤ bitsPerWord then some true
    else wEquals a b (varCount + 1 - bitsPerWord)
  | _, _, _ + 1 => none

/-- `isValid` (RawSquareFreeTerm.cpp:415-423). -/
def wIsValid (a : List Word) (varCount : Nat) : Option Bool :=
  let offset := varCount / bitsPerWord
  let left := varCount - bitsPerWord * offset
  if left = 0 then some true
  else
    match a[offset]? with
    | none => none
    | some word => some (word &&& ~~~(fullSupportWord left) == 0)

/-- `swap` (RawSquareFreeTerm.cpp:425-430): the arrays at `a` and `b` after the call. -/
def wSwap (a b : List Word) (varCount : Nat) : Option (List Word × List Word) :=
  match zipVars (fun _ y => y) (fun _ _ y => y) a a b varCount, zipVars (fun _ y => y) (fun _ _ y => y) b b a varCount with
  | some a', some b' => some (a', b')
  | _, _ => none

end Frobby
