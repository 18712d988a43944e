import Verif.OrderModel

/-!
# Model of `NameFactory` and the lookup of names by prefix
-/

namespace Frobby

variable {α : Type}

/-- `std::sort` on texts, which is determined by the result. -/
def sortTexts (l : List Text) : List Text := l.insertionSort fun a b => textLess b a = false

/-- `NameFactory::_pairs` (NameFactory.h:61-64); the functions are the products they make. -/
abbrev Factory (α : Type) := List (Text × α)

/-- `NameFactory::registerProduct` (NameFactory.h:116-120). -/
def Factory.register (f : Factory α) (name : Text) (a : α) : Factory α := f ++ [(name, a)]

/-- `NameFactory::createNoThrow` (NameFactory.h:97-104); `none` is the null pointer. -/
def Factory.createNoThrow : Factory α → Text → Option α
  | [], _ => none
  | p :: f, name => if p.1 = name then some p.2 else Factory.createNoThrow f name

/-- `first.compare(0, prefix.size(), prefix) == 0`: the first characters, as many as there are in the prefix or fewer if the
text is shorter, are the prefix. -/
def comparesPrefix (pre name : Text) : Bool := name.take pre.length = pre

/-- `NameFactory::getNamesWithPrefix` (NameFactory.h:122-129), on an empty vector. -/
def Factory.namesWithPrefix (f : Factory α) (pre : Text) : List Text :=
  sortTexts ((f.filter fun p => comparesPrefix pre p.1).map Prod.fst)

/-- `UnknownNameException`, and `AmbiguousNameException` with the names in its message. -/
inductive LookupError
  | unknown
  | ambiguous (names : List Text)
deriving DecidableEq

/-- `getUniqueNameWithPrefix` (NameFactory.h:158-185). -/
def Factory.uniqueName (f : Factory α) (pre : Text) : Except LookupError Text :=
  let names := f.namesWithPrefix pre
  let names := if pre ∈ names then [pre] else names
  match names with
  | [] => .error .unknown
  | [x] => .ok x
  | names => .error (.ambiguous names)

/-- `createWithPrefix` (NameFactory.h:152-156). -/
def Factory.createWithPrefix (f : Factory α) (pre : Text) : Except LookupError (Option α) :=
  (f.uniqueName pre).map f.createNoThrow

/-- `NameFactory::create` (NameFactory.h:106-114). -/
def Factory.create (f : Factory α) (name : Text) : Except LookupError α :=
  match f.createNoThrow name with
  | none => .error .unknown
  | some a => .ok a

end Frobby
