import Verif.Term

/-!
# Model of what the consumers of a program that uses the library get (src/frobby.cpp)

The algorithms hand terms to `ExternalIdealConsumerWrapper` and `ExternalPolynomialConsumerWrapper`. These fill an array of pointers to the exponents,
which stay where they are, and call the consumer with it. `IrreducibleIdealDecoder` is between, if the consumer gets irreducible ideals. It has an
array of its own and one number that is zero.
-/

namespace Frobby

/-- The numbers in memory. -/
abbrev NumberCells := ℕ → Option ℤ

/-- The calls of a wrapper. A term with a translator has the addresses of the exponents in the table of the translator; a vector has the addresses of
its entries. `coef` is the address of the coefficient if it is about polynomials. The memory is the one at the time of the call. -/
inductive WrapCall
  | ring
  | begin
  | translated (mem : NumberCells) (coef : Option ℕ) (table : List (List ℕ)) (ids : List ℕ)
  | vector (mem : NumberCells) (coef : Option ℕ) (addrs : List ℕ)
  | done

/-- The calls of a consumer. A pointer that has not been set is `none`. -/
inductive UserCall
  | begin (n : ℕ)
  | consume (mem : NumberCells) (coef : Option ℕ) (arr : List (Option ℕ))
  | done

/-- `ConsumerWrapper` (frobby.cpp:38-69): `_varCount` and `_term`. -/
structure Wrapper where
  varCount : ℕ
  term : List (Option ℕ)

/-- `ConsumerWrapper(varCount)` (frobby.cpp:40-43). The entries of the array have no value yet. -/
def Wrapper.new (n : ℕ) : Wrapper := ⟨n, List.replicate n none⟩

/-- `for (var = ...) _term[var] = addr(var)`. `none` is undefined: an access out of range. -/
def setPointers (addr : ℕ → Option ℕ) : ℕ → ℕ → List (Option ℕ) → Option (List (Option ℕ))
  | 0, _, arr => some arr
  | k + 1, var, arr =>
    match addr var with
    | none => none
    | some a => if var < arr.length then setPointers addr k (var + 1) (arr.set var (some a)) else none

/-- `setTerm` (frobby.cpp:49-65), and the loop at 133-134. -/
def Wrapper.setTerm (w : Wrapper) (addr : ℕ → Option ℕ) : Option Wrapper := (setPointers addr w.varCount 0 w.term).map fun arr => ⟨w.varCount, arr⟩

/-- The address of `translator.getExponent(var, term)` (TermTranslator.cpp:391-397, 419-422). -/
def exponentAddress (table : List (List ℕ)) (ids : List ℕ) (var : ℕ) : Option ℕ :=
  match table[var]?, ids[var]? with
  | some row, some id => row[id]?
  | _, _ => none

/-- `ExternalIdealConsumerWrapper` (frobby.cpp:71-109) and `ExternalPolynomialConsumerWrapper` (111-150). -/
def Wrapper.call (w : Wrapper) : WrapCall → Option (Wrapper × List UserCall)
  | .ring => some (w, [])
  | .begin => some (w, [.begin w.varCount])
  | .translated mem coef table ids => (w.setTerm (exponentAddress table ids)).map fun w => (w, [.consume mem coef w.term])
  | .vector mem coef addrs => (w.setTerm fun var => addrs[var]?).map fun w => (w, [.consume mem coef w.term])
  | .done => some (w, [.done])

/-- `IrreducibleIdealDecoder` (frobby.cpp:329-373): `_varCount`, the address of `_zero`, and `_term`. -/
structure Decoder where
  varCount : ℕ
  zero : ℕ
  term : List (Option ℕ)

/-- `IrreducibleIdealDecoder(consumer)` (frobby.cpp:331-336). -/
def Decoder.new (z : ℕ) : Decoder := ⟨0, z, []⟩

/-- The loop of `consume` (frobby.cpp:356-363). The result has `_term` and the calls. -/
def Decoder.loop (d : Decoder) (mem : NumberCells) (coef : Option ℕ) (arr : List (Option ℕ)) :
    ℕ → ℕ → List (Option ℕ) → Option (List (Option ℕ) × List UserCall)
  | 0, _, term => some (term, [])
  | k + 1, var, term =>
    match (arr[var]?.join).bind fun a => (mem a).map fun e => (a, e) with
    | none => none
    | some (a, e) =>
      if e ≠ 0 then
        if var < term.length then
          (d.loop mem coef arr k (var + 1) ((term.set var (some a)).set var (some d.zero))).map fun r =>
            (r.1, .consume mem coef (term.set var (some a)) :: r.2)
        else none
      else d.loop mem coef arr k (var + 1) term

/-- The calls of the decoder: `idealBegin` (frobby.cpp:341-346), `idealEnd` (348-350) and `consume` (352-366). -/
def Decoder.call (d : Decoder) : UserCall → Option (Decoder × List UserCall)
  | .begin n => (setPointers (fun _ => some d.zero) n 0 (d.term.take n ++ List.replicate (n - d.term.length) none)).map fun term => (⟨n, d.zero, term⟩, [])
  | .consume mem coef arr => (d.loop mem coef arr d.varCount 0 d.term).map fun r => (⟨d.varCount, d.zero, r.1⟩, .begin d.varCount :: r.2 ++ [.done])
  | .done => some (⟨d.varCount, d.zero, []⟩, [])

/-- One call after the other. -/
def runCalls {σ α β : Type} (f : σ → α → Option (σ × List β)) : σ → List α → Option (σ × List β)
  | s, [] => some (s, [])
  | s, c :: cs => (f s c).bind fun r => (runCalls f r.1 cs).map fun q => (q.1, r.2 ++ q.2)

end Frobby
