import Verif.WordModel

/-!
# Model of `RawSquareFreeIdeal` on words of memory

The generators of the ideal are terms packed into words that follow each other in one array. An iterator is the number of the
term it points to, so that `*it` is at `_memory + wordsPerTerm * it`. Every function returns `none` when the code would read or
write outside of an array. To be on the safe side it also does so when a function on terms is called for a term that is not
wholly inside of the array.
-/

namespace Frobby

/-- `RawSquareFreeIdeal` (RawSquareFreeIdeal.h:318-322). `memory` are the words from `_memory` to the end of the buffer and
`memoryEnd` is `_memoryEnd - _memory`. -/
structure RsfIdeal where
  varCount : Nat
  wordsPerTerm : Nat
  genCount : Nat
  memoryEnd : Nat
  memory : List Word
  deriving DecidableEq

/-- The `n` words at an offset. -/
def readWords (mem : List Word) (off n : Nat) : Option (List Word) :=
  if off + n ≤ mem.length then some ((mem.drop off).take n) else none

/-- The array after words are written at an offset. -/
def writeWords (mem : List Word) (off : Nat) (t : List Word) : Option (List Word) :=
  if off + t.length ≤ mem.length then some (mem.take off ++ t ++ mem.drop (off + t.length)) else none

/-- The term at an iterator. -/
def termAt (W : Nat) (mem : List Word) (it : Nat) : Option (List Word) := readWords mem (W * it) W

/-- Write a term at an iterator. -/
def putTerm (W : Nat) (mem : List Word) (it : Nat) (t : List Word) : Option (List Word) := writeWords mem (W * it) t

/-- `for (; it != stop; ++it)` with a function that changes the term in place, for `n` terms. -/
def eachTerm (W : Nat) (f : List Word → Option (List Word)) (mem : List Word) (it : Nat) : Nat → Option (List Word)
  | 0 => some mem
  | n + 1 =>
    match termAt W mem it with
    | none => none
    | some a =>
      match f a with
      | none => none
      | some a' =>
        match putTerm W mem it a' with
        | none => none
        | some mem => eachTerm W f mem (it + 1) n

/-- `for (; it != stop; ++it)` with a function that reads the term and changes something else, for `n` terms. -/
def foldTerms {α : Type} (W : Nat) (f : α → List Word → Option α) (acc : α) (mem : List Word) (it : Nat) : Nat → Option α
  | 0 => some acc
  | n + 1 =>
    match termAt W mem it with
    | none => none
    | some a =>
      match f acc a with
      | none => none
      | some acc => foldTerms W f acc mem (it + 1) n

/-- `for (; it != stop; ++it) if (p(*it)) return it; return stop;`, for `n` terms. -/
def findTerm (W : Nat) (p : List Word → Option Bool) (mem : List Word) (it : Nat) : Nat → Option Nat
  | 0 => some it
  | n + 1 =>
    match termAt W mem it with
    | none => none
    | some a =>
      match p a with
      | none => none
      | some true => some it
      | some false => findTerm W p mem (it + 1) n

/-- The iterator `end()` (RawSquareFreeIdeal.h:305-308). -/
def RsfIdeal.stop (r : RsfIdeal) : Nat := r.memoryEnd / r.wordsPerTerm

/-- `getBytesOfMemoryFor` (RawSquareFreeIdeal.cpp:110-138), where `sizeof(RSFIdeal)` is 40, `sizeof(Word)` is 8 and
`numeric_limits<size_t>::max()` is `2 ^ 64 - 1`. All arithmetic is modulo `2 ^ 64`. -/
def bytesOfMemoryFor (varCount generatorCount : Nat) : Nat :=
  let bytesForStruct := 40 - 8
  if generatorCount = 0 then bytesForStruct
  else
    let bytesPerGenUnaligned := if varCount = 0 then 1 else (varCount - 1) / 8 + 1
    let wordsPerGen := (bytesPerGenUnaligned - 1) / 8 + 1
    if wordsPerGen > (2 ^ 64 - 1) / 8 then 0
    else
      let bytesPerGen := (wordsPerGen * 8) % 2 ^ 64
      if bytesPerGen > (2 ^ 64 - 1) / generatorCount then 0
      else
        let bytesForGens := (bytesPerGen * generatorCount) % 2 ^ 64
        if bytesForGens > 2 ^ 64 - 1 - bytesForStruct then 0
        else (bytesForStruct + bytesForGens) % 2 ^ 64

/-- `construct` in a buffer with the given words after the other members (RawSquareFreeIdeal.cpp:86-94). -/
def rsfConstruct (varCount : Nat) (memory : List Word) : RsfIdeal := ⟨varCount, wordCount varCount, 0, 0, memory⟩

/-- `insert` of a term (RawSquareFreeIdeal.cpp:644-649). -/
def RsfIdeal.insert (r : RsfIdeal) (term : List Word) : Option RsfIdeal :=
  match wAssignWords r.wordsPerTerm term with
  | none => none
  | some t =>
    match writeWords r.memory r.memoryEnd t with
    | none => none
    | some mem => some { r with genCount := r.genCount + 1, memoryEnd := r.memoryEnd + r.wordsPerTerm, memory := mem }

/-- `insertIdentity` (RawSquareFreeIdeal.cpp:658-663). -/
def RsfIdeal.insertIdentity (r : RsfIdeal) : Option RsfIdeal :=
  match writeWords r.memory r.memoryEnd (wSetToIdentityWords r.wordsPerTerm) with
  | none => none
  | some mem => some { r with genCount := r.genCount + 1, memoryEnd := r.memoryEnd + r.wordsPerTerm, memory := mem }

/-- `insert` of the generators of an `Ideal` or a `BigIdeal` (RawSquareFreeIdeal.cpp:196-222). `encodeTerm` is given the rest of
the array. The number is the return value. What a failing `encodeTerm` wrote after the end of the ideal is not kept. -/
def RsfIdeal.insertAll (r : RsfIdeal) : List (List Nat) → Option (RsfIdeal × Nat)
  | [] => some (r, 0)
  | g :: l =>
    match wEncodeTerm (r.memory.drop r.memoryEnd) g with
    | none => none
    | some none => some (r, 0)
    | some (some rest) =>
      match RsfIdeal.insertAll ⟨r.varCount, r.wordsPerTerm, r.genCount + 1, r.memoryEnd + r.wordsPerTerm,
          r.memory.take r.memoryEnd ++ rest⟩ l with
      | none => none
      | some (r, n) => some (r, n + 1)

/-- `insert` of a list of strings (RawSquareFreeIdeal.cpp:231-240). The inner `none` is the return value false. -/
def RsfIdeal.insertTexts (r : RsfIdeal) (term : List (List Char)) : Option (Option RsfIdeal) :=
  match wEncodeTexts (r.memory.drop r.memoryEnd) term with
  | none => none
  | some none => some none
  | some (some rest) => some (some ⟨r.varCount, r.wordsPerTerm, r.genCount + 1, r.memoryEnd + r.wordsPerTerm,
      r.memory.take r.memoryEnd ++ rest⟩)

/-- `insert` of an ideal (RawSquareFreeIdeal.cpp:224-229), which is another object. -/
def RsfIdeal.insertIdeal (r ideal : RsfIdeal) : Option RsfIdeal :=
  foldTerms ideal.wordsPerTerm (fun r a => r.insert a) r ideal.memory 0 ideal.stop

/-- `insertNonMultiples` for a term (RawSquareFreeIdeal.cpp:490-500). -/
def RsfIdeal.insertNonMultiples (r : RsfIdeal) (term : List Word) (ideal : RsfIdeal) : Option RsfIdeal :=
  foldTerms ideal.wordsPerTerm (fun r a =>
    match wDivides term a with
    | none => none
    | some true => some r
    | some false => r.insert a) r ideal.memory 0 ideal.stop

/-- `insertNonMultiples` for a variable (RawSquareFreeIdeal.cpp:502-511). -/
def RsfIdeal.insertNonMultiplesVar (r : RsfIdeal) (var : Nat) (ideal : RsfIdeal) : Option RsfIdeal :=
  foldTerms ideal.wordsPerTerm (fun r a =>
    match wGetExponent a var with
    | none => none
    | some true => some r
    | some false => r.insert a) r ideal.memory 0 ideal.stop

/-- The inner loop of `minimize` (RawSquareFreeIdeal.cpp:72-78): is there a `div` in a range of `n` terms that divides the term at
`it` and is not `it`? -/
def hasDivisor (W : Nat) (mem : List Word) (it div : Nat) : Nat → Option Bool
  | 0 => some false
  | n + 1 =>
    match termAt W mem div, termAt W mem it with
    | some d, some a =>
      match wDivides d a with
      | none => none
      | some b => if b && div != it then some true else hasDivisor W mem it (div + 1) n
    | _, _ => none

/-- The loop of `minimize` (RawSquareFreeIdeal.cpp:71-82): the memory and the new end. -/
def rsfMinimizeLoop (W : Nat) (mem : List Word) (start it stop : Nat) : Option (List Word × Nat) :=
  if it < stop then
    match hasDivisor W mem it start (stop - start) with
    | none => none
    | some true =>
      match termAt W mem (stop - 1) with
      | none => none
      | some a =>
        match putTerm W mem it a with
        | none => none
        | some mem => rsfMinimizeLoop W mem start it (stop - 1)
    | some false => rsfMinimizeLoop W mem start (it + 1) stop
  else some (mem, stop)
  termination_by stop - it

/-- `RawSquareFreeIdeal::minimize` (RawSquareFreeIdeal.cpp:242-247). -/
def RsfIdeal.minimize (r : RsfIdeal) : Option RsfIdeal :=
  match rsfMinimizeLoop r.wordsPerTerm r.memory 0 0 r.stop with
  | none => none
  | some (mem, newEnd) => some { r with genCount := newEnd, memoryEnd := r.wordsPerTerm * newEnd, memory := mem }

/-- `colon` (RawSquareFreeIdeal.cpp:249-255). -/
def RsfIdeal.colon (r : RsfIdeal) (by' : List Word) : Option RsfIdeal :=
  (eachTerm r.wordsPerTerm (fun a => wColonInPlace a by') r.memory 0 r.stop).map fun mem => { r with memory := mem }

/-- `colon` by a variable (RawSquareFreeIdeal.cpp:257-262). -/
def RsfIdeal.colonVar (r : RsfIdeal) (var : Nat) : Option RsfIdeal :=
  (eachTerm r.wordsPerTerm (fun a => wSetExponent a var false) r.memory 0 r.stop).map fun mem => { r with memory := mem }

/-- The first loop of `compact` (RawSquareFreeIdeal.cpp:271-277), from `var` on for `n` more variables. -/
def rsfCompactVars (W : Nat) (remove : List Word) (genStop : Nat) (mem : List Word) (varCompact var : Nat) :
    Nat → Option (List Word × Nat)
  | 0 => some (mem, varCompact)
  | n + 1 =>
    match wGetExponent remove var with
    | none => none
    | some true => rsfCompactVars W remove genStop mem varCompact (var + 1) n
    | some false =>
      match eachTerm W (fun a =>
          match wGetExponent a var with
          | none => none
          | some e => wSetExponent a varCompact e) mem 0 genStop with
      | none => none
      | some mem => rsfCompactVars W remove genStop mem (varCompact + 1) (var + 1) n

/-- The last loop of `compact` (RawSquareFreeIdeal.cpp:295-296), for `n` more terms: the terms are moved to where they are for the
new number of words. -/
def rsfMoveTerms (oldW newW : Nat) (mem : List Word) (it : Nat) : Nat → Option (List Word)
  | 0 => some mem
  | n + 1 =>
    match readWords mem (oldW * it) newW with
    | none => none
    | some a =>
      match putTerm newW mem it a with
      | none => none
      | some mem => rsfMoveTerms oldW newW mem (it + 1) n

/-- `compact` (RawSquareFreeIdeal.cpp:264-302). -/
def RsfIdeal.compact (r : RsfIdeal) (remove : List Word) : Option RsfIdeal :=
  match rsfCompactVars r.wordsPerTerm remove r.stop r.memory 0 0 r.varCount with
  | none => none
  | some (mem, varCompact) =>
    let bitOffset := varCompact % bitsPerWord
    let wordOffset := varCompact / bitsPerWord
    match (if bitOffset ≠ 0 then
        eachTerm r.wordsPerTerm (fun a =>
          match a[wordOffset]? with
          | none => none
          | some word => some (a.set wordOffset (word &&& fullSupportWord bitOffset))) mem 0 r.stop
      else some mem) with
    | none => none
    | some mem =>
      let newWordCount := wordCount varCompact
      match rsfMoveTerms r.wordsPerTerm newWordCount mem 0 r.stop with
      | none => none
      | some mem => some ⟨varCompact, newWordCount, r.genCount, newWordCount * r.stop, mem⟩

/-- The inner loop of `setToTransposeOf` (RawSquareFreeIdeal.cpp:159-162) for the generators from `gen` on, `n` of them: `term` is
`newTransposedGen`. -/
def transposeRow (ideal : RsfIdeal) (var : Nat) (term : List Word) (gen : Nat) : Nat → Option (List Word)
  | 0 => some term
  | n + 1 =>
    match termAt ideal.wordsPerTerm ideal.memory gen with
    | none => none
    | some a =>
      match wGetExponent a var with
      | none => none
      | some value =>
        match wSetExponent term gen value with
        | none => none
        | some term => transposeRow ideal var term (gen + 1) n

/-- `eraseVars != 0 && Ops::getExponent(eraseVars, var)` (RawSquareFreeIdeal.cpp:155). -/
def isErased (eraseVars : Option (List Word)) (var : Nat) : Option Bool :=
  match eraseVars with
  | none => some false
  | some e => wGetExponent e var

/-- The outer loop of `setToTransposeOf` (RawSquareFreeIdeal.cpp:154-163), from `var` on for `n` more variables. `back()` is the
term before `_memoryEnd`. -/
def transposeLoop (ideal : RsfIdeal) (eraseVars : Option (List Word)) (r : RsfIdeal) (var : Nat) : Nat → Option RsfIdeal
  | 0 => some r
  | n + 1 =>
    match isErased eraseVars var with
    | none => none
    | some true => transposeLoop ideal eraseVars r (var + 1) n
    | some false =>
      match r.insertIdentity with
      | none => none
      | some r =>
        let back := r.memoryEnd - r.wordsPerTerm
        match readWords r.memory back r.wordsPerTerm with
        | none => none
        | some term =>
          match transposeRow ideal var term 0 ideal.genCount with
          | none => none
          | some term =>
            match writeWords r.memory back term with
            | none => none
            | some mem => transposeLoop ideal eraseVars { r with memory := mem } (var + 1) n

/-- `setToTransposeOf` for another object (RawSquareFreeIdeal.cpp:140-166). -/
def RsfIdeal.setToTransposeOf (r ideal : RsfIdeal) (eraseVars : Option (List Word)) : Option RsfIdeal :=
  transposeLoop ideal eraseVars ⟨ideal.genCount, wordCount ideal.genCount, 0, 0, r.memory⟩ 0 ideal.varCount

/-- `transpose` (RawSquareFreeIdeal.cpp:168-177). The buffer taken from the arena holds the words of `buffer`. -/
def RsfIdeal.transpose (r : RsfIdeal) (eraseVars : Option (List Word)) (buffer : List Word) : Option RsfIdeal :=
  match (rsfConstruct r.varCount buffer).insertIdeal r with
  | none => none
  | some copy => r.setToTransposeOf copy eraseVars

/-- `getLcmOfNonMultiples` (RawSquareFreeIdeal.cpp:304-315). -/
def RsfIdeal.lcmOfNonMultiples (r : RsfIdeal) (var : Nat) : Option (List Word) :=
  foldTerms r.wordsPerTerm (fun lcm a =>
    match wGetExponent a var with
    | none => none
    | some false => wLcmInPlaceWords lcm a
    | some true => some lcm) (wSetToIdentityWords r.wordsPerTerm) r.memory 0 r.stop

/-- `getLcm` (RawSquareFreeIdeal.cpp:765-772). -/
def RsfIdeal.getLcm (r : RsfIdeal) : Option (List Word) :=
  foldTerms r.wordsPerTerm (fun lcm a => wLcmInPlaceWords lcm a) (wSetToIdentityWords r.wordsPerTerm) r.memory 0 r.stop

/-- `getGcdOfMultiples` of a variable (RawSquareFreeIdeal.cpp:455-465). -/
def RsfIdeal.gcdOfMultiplesVar (r : RsfIdeal) (gcd : List Word) (var : Nat) : Option (List Word) :=
  match wSetToAllVarProd gcd r.varCount with
  | none => none
  | some gcd => foldTerms r.wordsPerTerm (fun gcd a =>
      match wGetExponent a var with
      | none => none
      | some true => wGcdInPlaceWords gcd a
      | some false => some gcd) gcd r.memory 0 r.stop

/-- `getGcdOfMultiples` of a term (RawSquareFreeIdeal.cpp:467-478). -/
def RsfIdeal.gcdOfMultiples (r : RsfIdeal) (gcd div : List Word) : Option (List Word) :=
  match wSetToAllVarProd gcd r.varCount with
  | none => none
  | some gcd => foldTerms r.wordsPerTerm (fun gcd a =>
      match wDivides div a with
      | none => none
      | some true => wGcdInPlaceWords gcd a
      | some false => some gcd) gcd r.memory 0 r.stop

/-- `~((Word)0u) / 15u` (RawSquareFreeIdeal.cpp:322). -/
def nibbleMask : Word := BitVec.ofNat 64 ((2 ^ 64 - 1) / 15)

/-- The sums `a0`, `a1`, `a2` and `a3` in `countVarDividesBlockUpTo15`. -/
structure Sums where
  a0 : Word
  a1 : Word
  a2 : Word
  a3 : Word

/-- Add the bits of a word to the sums (RawSquareFreeIdeal.cpp:342-345 and 347-350). -/
def Sums.add (s : Sums) (a : Word) : Sums :=
  ⟨s.a0 + (a &&& nibbleMask), s.a1 + (a >>> 1 &&& nibbleMask), s.a2 + (a >>> 2 &&& nibbleMask), s.a3 + (a >>> 3 &&& nibbleMask)⟩

/-- The loop over pairs of words in `countVarDividesBlockUpTo15` (RawSquareFreeIdeal.cpp:336-351), `n` of them. `it` is the offset
of the next word. -/
def sumPairs (mem : List Word) (W it : Nat) (s : Sums) : Nat → Option Sums
  | 0 => some s
  | n + 1 =>
    match mem[it]?, mem[it + W]? with
    | some a, some aa => sumPairs mem W (it + W + W) ((s.add a).add aa) n
    | _, _ => none

/-- The last loop of `countVarDividesBlockUpTo15` (RawSquareFreeIdeal.cpp:353-363), for `n` more groups of four counts. -/
def addNibbles (s : Sums) (counts : List Nat) : Nat → Option (List Nat)
  | 0 => some counts
  | n + 1 =>
    match counts with
    | c0 :: c1 :: c2 :: c3 :: counts =>
      (addNibbles ⟨s.a0 >>> 4, s.a1 >>> 4, s.a2 >>> 4, s.a3 >>> 4⟩ counts n).map fun counts =>
        (c0 + (s.a0 &&& 0xF).toNat) :: (c1 + (s.a1 &&& 0xF).toNat) :: (c2 + (s.a2 &&& 0xF).toNat) ::
          (c3 + (s.a3 &&& 0xF).toNat) :: counts
    | _ => none

/-- `countVarDividesBlockUpTo15` (RawSquareFreeIdeal.cpp:317-364). The counts are numbers without bound. -/
def countBlock (mem : List Word) (it genCount W : Nat) (counts : List Nat) : Option (List Nat) :=
  if genCount % 2 = 1 then
    match mem[it]? with
    | none => none
    | some a =>
      match sumPairs mem W (it + W) ⟨a &&& nibbleMask, a >>> 1 &&& nibbleMask, a >>> 2 &&& nibbleMask, a >>> 3 &&& nibbleMask⟩
          (genCount / 2) with
      | none => none
      | some s => addNibbles s counts (bitsPerWord / 4)
  else
    match sumPairs mem W it ⟨0, 0, 0, 0⟩ (genCount / 2) with
    | none => none
    | some s => addNibbles s counts (bitsPerWord / 4)

/-- The loop over the words of a term in `getVarDividesCounts` (RawSquareFreeIdeal.cpp:385-386), for `n` more words. -/
def countWords (mem : List Word) (genOffset blockSize W : Nat) (counts : List Nat) : Nat → Option (List Nat)
  | 0 => some counts
  | n + 1 =>
    match countBlock mem genOffset blockSize W counts with
    | none => none
    | some counts =>
      (countWords mem (genOffset + 1) blockSize W (counts.drop bitsPerWord) n).map (counts.take bitsPerWord ++ ·)

/-- The loop over blocks of generators in `getVarDividesCounts` (RawSquareFreeIdeal.cpp:380-390). -/
def countBlocks (mem : List Word) (W blockBegin : Nat) (counts : List Nat) (generatorsToGo : Nat) : Option (List Nat) :=
  if generatorsToGo > 0 then
    let blockSize := if generatorsToGo ≥ 15 then 15 else generatorsToGo
    match countWords mem (W * blockBegin) blockSize W counts W with
    | none => none
    | some counts => countBlocks mem W (blockBegin + blockSize) counts (generatorsToGo - blockSize)
  else some counts
  termination_by generatorsToGo
  decreasing_by split <;> omega

/-- `getVarDividesCounts` (RawSquareFreeIdeal.cpp:366-391). The vector has space for `varCount + BitsPerWord` counts, of which the
first `varCount` are set to zero and belong to the result. The others have the values in `junk`. -/
def RsfIdeal.varDividesCounts (r : RsfIdeal) (junk : List Nat) : Option (List Nat) :=
  (countBlocks r.memory r.wordsPerTerm 0 (List.replicate r.varCount 0 ++ junk) r.genCount).map (·.take r.varCount)

/-- `getMultiple` (RawSquareFreeIdeal.cpp:393-402). -/
def RsfIdeal.getMultiple (r : RsfIdeal) (var : Nat) : Option Nat :=
  match findTerm r.wordsPerTerm (fun a => wGetExponent a var) r.memory 0 r.stop with
  | none => none
  | some i => if i = r.stop then some r.genCount else some i

/-- `getNonMultiple` (RawSquareFreeIdeal.cpp:404-413). -/
def RsfIdeal.getNonMultiple (r : RsfIdeal) (var : Nat) : Option Nat :=
  match findTerm r.wordsPerTerm (fun a => (wGetExponent a var).map (!·)) r.memory 0 r.stop with
  | none => none
  | some i => if i = r.stop then some r.genCount else some i

/-- The loops of `getMaxSupportGen` and `getMinSupportGen` (RawSquareFreeIdeal.cpp:425-431 and 445-451): the index of the next
term, the best size so far and the index of its term. -/
def bestSupport (better : Nat → Nat → Bool) (varCount : Nat) (best : Nat × Nat × Nat) (a : List Word) :
    Option (Nat × Nat × Nat) :=
  match wSizeOfSupport a varCount with
  | none => none
  | some supp => if better best.2.1 supp then some (best.1 + 1, supp, best.1) else some (best.1 + 1, best.2.1, best.2.2)

/-- `getMaxSupportGen` and `getMinSupportGen` (RawSquareFreeIdeal.cpp:415-433 and 435-453) for the comparison. -/
def RsfIdeal.bestSupportGen (better : Nat → Nat → Bool) (r : RsfIdeal) : Option Nat :=
  if r.stop = 0 then some 0
  else
    match termAt r.wordsPerTerm r.memory 0 with
    | none => none
    | some a =>
      match wSizeOfSupport a r.varCount with
      | none => none
      | some supp =>
        (foldTerms r.wordsPerTerm (bestSupport better r.varCount) (1, supp, 0) r.memory 1 (r.stop - 1)).map (·.2.2)

/-- `removeGenerator` (RawSquareFreeIdeal.cpp:480-488). -/
def RsfIdeal.removeGenerator (r : RsfIdeal) (gen : Nat) : Option RsfIdeal :=
  let last := r.memoryEnd - r.wordsPerTerm
  match (if r.wordsPerTerm * gen ≠ last then
      match readWords r.memory last r.wordsPerTerm with
      | none => none
      | some a => putTerm r.wordsPerTerm r.memory gen a
    else some r.memory) with
  | none => none
  | some mem => some { r with genCount := r.genCount - 1, memoryEnd := r.memoryEnd - r.wordsPerTerm, memory := mem }

/-- `getNotRelativelyPrime` (RawSquareFreeIdeal.cpp:513-519). -/
def RsfIdeal.getNotRelativelyPrime (r : RsfIdeal) (term : List Word) : Option Nat :=
  findTerm r.wordsPerTerm (fun a => (wIsRelativelyPrimeWords term a).map (!·)) r.memory 0 r.genCount

/-- The first inner loop of `getExclusiveVarGenerator` (RawSquareFreeIdeal.cpp:526-530). -/
def onceTwice (offset : Nat) (s : Word × Word) (a : List Word) : Option (Word × Word) :=
  match a[offset]? with
  | none => none
  | some word => some (s.1 ||| word, s.2 ||| (s.1 &&& word))

/-- The loop of `getExclusiveVarGenerator` (RawSquareFreeIdeal.cpp:523-541), from `offset` on for `n` more words. The second inner
loop has no end of its own; running over the last generator is an access outside of the generators. -/
def exclusiveLoop (r : RsfIdeal) (offset : Nat) : Nat → Option Nat
  | 0 => some r.genCount
  | n + 1 =>
    match foldTerms r.wordsPerTerm (onceTwice offset) (0, 0) r.memory 0 r.genCount with
    | none => none
    | some (once, twice) =>
      let onceOnly := once &&& ~~~twice
      if onceOnly ≠ 0 then
        match findTerm r.wordsPerTerm (fun a =>
            match a[offset]? with
            | none => none
            | some word => some (word &&& onceOnly != 0)) r.memory 0 r.genCount with
        | none => none
        | some gen => if gen < r.genCount then some gen else none
      else exclusiveLoop r (offset + 1) n

/-- `getExclusiveVarGenerator` (RawSquareFreeIdeal.cpp:521-543). -/
def RsfIdeal.getExclusiveVarGenerator (r : RsfIdeal) : Option Nat := exclusiveLoop r 0 r.wordsPerTerm

/-- The loop of `hasFullSupport` (RawSquareFreeIdeal.cpp:553-575): `offset` is the number of the word. -/
def fullSupportLoop (r : RsfIdeal) (ignore : List Word) (offset varsLeft : Nat) : Option Bool :=
  match ignore[offset]? with
  | none => none
  | some word =>
    match foldTerms r.wordsPerTerm (fun support a => a[offset]?.map (support ||| ·)) word r.memory 0 r.stop with
    | none => none
    | some support =>
      if varsLeft > bitsPerWord then
        if support ≠ ~~~0 then some false
        else fullSupportLoop r ignore (offset + 1) (varsLeft - bitsPerWord)
      else if varsLeft = bitsPerWord then some (support == ~~~0)
      else some (support == fullSupportWord varsLeft)
  termination_by varsLeft
  decreasing_by simp only [bitsPerWord] at *; omega

/-- `hasFullSupport` (RawSquareFreeIdeal.cpp:545-577). -/
def RsfIdeal.hasFullSupport (r : RsfIdeal) (ignore : List Word) : Option Bool := fullSupportLoop r ignore 0 r.varCount

/-- The outer loop of `isMinimallyGenerated` (RawSquareFreeIdeal.cpp:581-586), from `i` on for `n` more generators. -/
def minimallyLoop (r : RsfIdeal) (i : Nat) : Nat → Option Bool
  | 0 => some true
  | n + 1 =>
    match hasDivisor r.wordsPerTerm r.memory i 0 r.genCount with
    | none => none
    | some true => some false
    | some false => minimallyLoop r (i + 1) n

/-- `isMinimallyGenerated` (RawSquareFreeIdeal.cpp:579-588). -/
def RsfIdeal.isMinimallyGenerated (r : RsfIdeal) : Option Bool := minimallyLoop r 0 r.genCount

/-- `Ops::swap` of the terms at two different iterators (RawSquareFreeTerm.cpp:425-430). -/
def swapTerms (W varCount : Nat) (mem : List Word) (i j : Nat) : Option (List Word) :=
  match termAt W mem i, termAt W mem j with
  | some a, some b =>
    match wSwap a b varCount with
    | none => none
    | some (a', b') =>
      match putTerm W mem i a' with
      | none => none
      | some mem => putTerm W mem j b'
  | _, _ => none

/-- `swap` (RawSquareFreeIdeal.cpp:590-595). -/
def RsfIdeal.swap (r : RsfIdeal) (a b : Nat) : Option RsfIdeal :=
  (swapTerms r.wordsPerTerm r.varCount r.memory a b).map fun mem => { r with memory := mem }

/-- The loop of `operator==` (RawSquareFreeIdeal.cpp:607-609). -/
def equalTerms (W varCount : Nat) (mem mem' : List Word) (it : Nat) : Nat → Option Bool
  | 0 => some true
  | n + 1 =>
    match termAt W mem it, termAt W mem' it with
    | some a, some b =>
      match wEquals a b varCount with
      | none => none
      | some false => some false
      | some true => equalTerms W varCount mem mem' (it + 1) n
    | _, _ => none

/-- `operator==` (RawSquareFreeIdeal.cpp:597-611). -/
def RsfIdeal.equals (r s : RsfIdeal) : Option Bool :=
  if r.varCount ≠ s.varCount then some false
  else if r.genCount ≠ s.genCount then some false
  else equalTerms r.wordsPerTerm r.varCount r.memory s.memory 0 r.stop

/-- `swap01Exponents` (RawSquareFreeIdeal.cpp:651-656). -/
def RsfIdeal.swap01 (r : RsfIdeal) : Option RsfIdeal :=
  (eachTerm r.wordsPerTerm (fun a => wInvert a r.varCount) r.memory 0 r.stop).map fun mem => { r with memory := mem }

/-- The loop of `RsfPartition` that moves `end` back (RawSquareFreeIdeal.cpp:52-56), for `end = b + n`: the new `end`. -/
def skipBack (W : Nat) (p : List Word → Option Bool) (mem : List Word) (b : Nat) : Nat → Option Nat
  | 0 => some b
  | n + 1 =>
    if n = 0 then some b
    else
      match termAt W mem (b + n) with
      | none => none
      | some a =>
        match p a with
        | none => none
        | some true => some (b + n)
        | some false => skipBack W p mem b n

theorem skipBack_le (W : Nat) (p : List Word → Option Bool) (mem : List Word) (b : Nat) :
    ∀ (n e : Nat), skipBack W p mem b n = some e → e ≤ b + n := by
  intro n
  induction n with
  | zero => intro e h; simp [skipBack] at h; omega
  | succ n ih =>
    intro e h
    unfold skipBack at h
    split at h
    · simp at h; omega
    · split at h
      · cases h
      · split at h
        · cases h
        · simp at h; omega
        · have := ih e h; omega

theorem findTerm_ge (W : Nat) (p : List Word → Option Bool) (mem : List Word) :
    ∀ (n it i : Nat), findTerm W p mem it n = some i → it ≤ i := by
  intro n
  induction n with
  | zero => intro it i h; simp [findTerm] at h; omega
  | succ n ih =>
    intro it i h
    unfold findTerm at h
    split at h
    · cases h
    · split at h
      · cases h
      · simp at h; omega
      · have := ih _ _ h; omega

/-- `RsfPartition` (RawSquareFreeIdeal.cpp:41-63): the memory and the returned iterator. -/
def rsfPartitionWords (W varCount : Nat) (p : List Word → Option Bool) (mem : List Word) (b e : Nat) :
    Option (List Word × Nat) :=
  if b < e then
    match _hb : findTerm W (fun a => (p a).map (!·)) mem b (e - b) with
    | none => none
    | some b' =>
      if b' = e then some (mem, e)
      else
        match _he : skipBack W p mem b' (e - b') with
        | none => none
        | some e' =>
          if e' = b' then some (mem, b')
          else
            match swapTerms W varCount mem b' e' with
            | none => none
            | some mem => rsfPartitionWords W varCount p mem (b' + 1) e'
  else some (mem, b)
  termination_by e - b
  decreasing_by
    have h1 := findTerm_ge _ _ _ _ _ _ _hb
    have h2 := skipBack_le _ _ _ _ _ _ _he
    omega

/-- The loop at the end of `colonReminimize` for a term (RawSquareFreeIdeal.cpp:700-707), for `n` more terms from `it` on. -/
def keepNonMultiples (W : Nat) (newMiddle : Nat) (mem : List Word) (newEnd it : Nat) : Nat → Option (List Word × Nat)
  | 0 => some (mem, newEnd)
  | n + 1 =>
    match termAt W mem it with
    | none => none
    | some a =>
      match findTerm W (fun d => wDivides d a) mem 0 newMiddle with
      | none => none
      | some i =>
        if i < newMiddle then keepNonMultiples W newMiddle mem newEnd (it + 1) n
        else
          match putTerm W mem newEnd a with
          | none => none
          | some mem => keepNonMultiples W newMiddle mem (newEnd + 1) (it + 1) n

/-- `colonReminimize` for a term (RawSquareFreeIdeal.cpp:675-712). -/
def RsfIdeal.colonReminimize (r : RsfIdeal) (by' : List Word) : Option RsfIdeal :=
  let W := r.wordsPerTerm
  match rsfPartitionWords W r.varCount (fun a => (wIsRelativelyPrimeWords by' a).map (!·)) r.memory 0 r.stop with
  | none => none
  | some (mem, middle) =>
    if middle = 0 then some { r with memory := mem }
    else
      match eachTerm W (fun a => wColonInPlace a by') mem 0 middle with
      | none => none
      | some mem =>
        match rsfMinimizeLoop W mem 0 0 middle with
        | none => none
        | some (mem, newMiddle) =>
          match keepNonMultiples W newMiddle mem newMiddle middle (r.stop - middle) with
          | none => none
          | some (mem, newEnd) => some { r with genCount := newEnd, memoryEnd := W * newEnd, memory := mem }

/-- The loop at the end of `colonReminimize` for a variable (RawSquareFreeIdeal.cpp:748-759): the memory, `stop` and `_genCount`. -/
def colonVarWords (W middle : Nat) (mem : List Word) (genCount it stop : Nat) : Option (List Word × Nat × Nat) :=
  if it < stop then
    match termAt W mem it with
    | none => none
    | some a =>
      match findTerm W (fun d => wDivides d a) mem 0 middle with
      | none => none
      | some i =>
        if i < middle then
          match termAt W mem (stop - 1) with
          | none => none
          | some b =>
            match putTerm W mem it b with
            | none => none
            | some mem => colonVarWords W middle mem (genCount - 1) it (stop - 1)
        else colonVarWords W middle mem genCount (it + 1) stop
  else some (mem, stop, genCount)
  termination_by stop - it

/-- `colonReminimize` for a variable (RawSquareFreeIdeal.cpp:723-763). -/
def RsfIdeal.colonReminimizeVar (r : RsfIdeal) (var : Nat) : Option RsfIdeal :=
  let W := r.wordsPerTerm
  match rsfPartitionWords W r.varCount (fun a => wGetExponent a var) r.memory 0 r.stop with
  | none => none
  | some (mem, middle) =>
    if middle = 0 then some { r with memory := mem }
    else
      match eachTerm W (fun a => wSetExponent a var false) mem 0 middle with
      | none => none
      | some mem =>
        if middle = r.stop then some { r with memory := mem }
        else
          match colonVarWords W middle mem r.genCount middle r.stop with
          | none => none
          | some (mem, stop, genCount) => some { r with genCount := genCount, memoryEnd := W * stop, memory := mem }

/-- The loop of `isValid` over the terms (RawSquareFreeIdeal.cpp:792-793): the result of `Ops::isValid` is not used. -/
def RsfIdeal.isValid (r : RsfIdeal) : Option Bool :=
  if r.wordsPerTerm ≠ wordCount r.varCount then some false
  else if r.memoryEnd ≠ r.wordsPerTerm * r.genCount then some false
  else (foldTerms r.wordsPerTerm (fun _ a => (wIsValid a r.varCount).map fun _ => ()) () r.memory 0 r.stop).map fun _ => true

end Frobby
