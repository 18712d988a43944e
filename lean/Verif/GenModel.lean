import Verif.IdealModel
import Verif.TextModel
import Mathlib.Data.List.Range

/-!
# Model of the generators of data (src/randomDataGenerators.cpp)

`rand()` is an arbitrary function `rnd`: the value of the call with a given number. `none` is an error, undefined behaviour or
running out of fuel.
-/

namespace Frobby

variable {n : ℕ}

/-- A term in which the exponents with the given numbers have been set to one. -/
def setOnes (vs : List ℕ) : Term n := fun i => if (i : ℕ) ∈ vs then 1 else 0

/-- `generateLinkedListIdeal` (randomDataGenerators.cpp:31-40). -/
def linkedListIdeal (n : ℕ) : List (Term n) := (List.range' 1 (n - 1)).map fun var => setOnes [var, var - 1]

/-- The names of the variables of a chess board (randomDataGenerators.cpp:52-60). `addVar` does not add a name that is there
already (VarNames.cpp:53-66). -/
def chessNames (rowCount columnCount : ℕ) : List Text :=
  ((List.range rowCount).flatMap fun row => (List.range columnCount).map fun column =>
      'r' :: decimal (row + 1) ++ 'c' :: decimal (column + 1)).foldl
    (fun names x => if x ∈ names then names else names ++ [x]) []

/-- The test that a move stays on the board, for rows or for columns (randomDataGenerators.cpp:70-82), negated. -/
def offBoard (count pos : ℕ) (delta : ℤ) : Bool :=
  delta = -2 ^ 31 || (decide (delta < 0) && decide (pos < (-delta).toNat)) || (decide (delta > 0) && decide (count - pos ≤ delta.toNat))

/-- The moves from a square of the board (randomDataGenerators.cpp:67-94). -/
def chessMovesFrom (n rowCount columnCount row column : ℕ) (deltas : List (ℤ × ℤ)) : List (Term n) :=
  deltas.filterMap fun d =>
    if offBoard rowCount row d.1 then none
    else if offBoard columnCount column d.2 then none
    else some (setOnes [row * columnCount + column, ((row : ℤ) + d.1).toNat * columnCount + ((column : ℤ) + d.2).toNat])

/-- `generateChessIdeal` (randomDataGenerators.cpp:42-100): the names and the generators. -/
def chessIdeal (rowCount columnCount : ℕ) (deltas : List (ℤ × ℤ)) : Option (List Text × List (Term (rowCount * columnCount))) :=
  if rowCount * columnCount > 2 ^ 64 - 1 then none
  else some (chessNames rowCount columnCount,
    sortReverseLex ((List.range rowCount).flatMap fun row => (List.range columnCount).flatMap fun column =>
      chessMovesFrom _ rowCount columnCount row column deltas))

/-- `generateKingChessIdeal` (randomDataGenerators.cpp:102-111). -/
def kingIdeal (size : ℕ) := chessIdeal size size [(-1, 1), (0, 1), (1, 1), (1, 0)]

/-- `generateKnightChessIdeal` (randomDataGenerators.cpp:113-122). -/
def knightIdeal (size : ℕ) := chessIdeal size size [(-1, 2), (1, 2), (2, 1), (2, -1)]

/-- `nextBitPattern` (randomDataGenerators.cpp:128-142). `none` is the return value `false`. -/
def nextBitPattern : List Bool → Option (List Bool)
  | [] => none
  | true :: l => (nextBitPattern l).map fun l' => false :: l'
  | false :: l => some (true :: l)

/-- A generator of the tree ideal (randomDataGenerators.cpp:158-167). -/
def treeTerm (n : ℕ) (pattern : List Bool) : Term n := fun i => if pattern.getD i false then n - pattern.count true + 1 else 0

/-- The loop of `generateTreeIdeal` (randomDataGenerators.cpp:157-168). -/
def treeLoop (n : ℕ) : ℕ → List Bool → Option (List (Term n))
  | 0, _ => none
  | fuel + 1, pattern =>
    match nextBitPattern pattern with
    | none => some []
    | some p => (treeLoop n fuel p).map fun l => treeTerm n p :: l

/-- `generateTreeIdeal` (randomDataGenerators.cpp:145-169). -/
def treeIdeal (fuel n : ℕ) : Option (List (Term n)) := treeLoop n fuel (List.replicate n false)

/-- The variables of the loop of `generateRookChessIdeal`. -/
structure RookState where
  taken : ℕ → Bool
  choice : ℕ → ℕ
  level : ℕ
  term : ℕ → ℕ

/-- The loop of `generateRookChessIdeal` (randomDataGenerators.cpp:186-217). -/
def rookLoop (n k : ℕ) : ℕ → RookState → Option (List (Term (n * k)))
  | 0, _ => none
  | fuel + 1, s =>
    if n ≤ s.level ∨ k < s.choice s.level then none
    else if s.choice s.level = k then
      if s.level = 0 then some []
      else if k ≤ s.choice (s.level - 1) then none
      else rookLoop n k fuel
        { taken := Function.update s.taken (s.choice (s.level - 1)) false
          choice := Function.update s.choice (s.level - 1) (s.choice (s.level - 1) + 1)
          level := s.level - 1
          term := Function.update s.term ((s.level - 1) * k + s.choice (s.level - 1)) 0 }
    else if s.taken (s.choice s.level) then
      rookLoop n k fuel { s with choice := Function.update s.choice s.level (s.choice s.level + 1) }
    else if s.level < n - 1 then
      rookLoop n k fuel
        { taken := Function.update s.taken (s.choice s.level) true
          choice := Function.update s.choice (s.level + 1) 0
          level := s.level + 1
          term := Function.update s.term (s.level * k + s.choice s.level) 1 }
    else
      (rookLoop n k fuel
        { taken := Function.update (Function.update s.taken (s.choice s.level) true) (s.choice s.level) false
          choice := Function.update s.choice s.level (s.choice s.level + 1)
          level := s.level
          term := Function.update (Function.update s.term (s.level * k + s.choice s.level) 1) (s.level * k + s.choice s.level) 0 }).map
        fun l => (fun i => Function.update s.term (s.level * k + s.choice s.level) 1 i) :: l

/-- `generateRookChessIdeal` (randomDataGenerators.cpp:171-222). The numbers are swapped if the first is larger. -/
def rookIdeal (fuel n k : ℕ) : Option (List (Term (min n k * max n k))) :=
  if n = 0 ∨ k = 0 then none
  else if n > 1000 ∨ k > 1000 then none
  else rookLoop (min n k) (max n k) fuel { taken := fun _ => false, choice := fun _ => 0, level := 0, term := fun _ => 0 }

/-- `State` in `generateMatchingIdeal` (randomDataGenerators.cpp:230-336). -/
structure MatchState where
  nodes : ℕ → Option ℕ
  isAnchor : ℕ → Bool
  term : ℕ → ℕ

/-- `State::edgeToVar` (randomDataGenerators.cpp:321-330). -/
def edgeToVar (a b : ℕ) : ℕ := if a < b then b * (b - 1) / 2 + a else a * (a - 1) / 2 + b

/-- `State::takeEdge` (randomDataGenerators.cpp:239-251). -/
def MatchState.takeEdge (s : MatchState) (anchor other : ℕ) : MatchState :=
  { nodes := Function.update (Function.update s.nodes anchor (some other)) other (some anchor)
    isAnchor := Function.update s.isAnchor anchor true
    term := Function.update s.term (edgeToVar anchor other) 1 }

/-- `State::takeNode` (randomDataGenerators.cpp:253-258). -/
def MatchState.takeNode (s : MatchState) (node : ℕ) : MatchState := { s with nodes := Function.update s.nodes node (some node) }

/-- `State::dropNode` (randomDataGenerators.cpp:260-266). -/
def MatchState.dropNode (s : MatchState) (node : ℕ) : MatchState := { s with nodes := Function.update s.nodes node none }

/-- `State::dropEdge` (randomDataGenerators.cpp:268-280), `other` being the neighbour. -/
def MatchState.dropEdge (s : MatchState) (anchor other : ℕ) : MatchState :=
  { nodes := Function.update (Function.update s.nodes other none) anchor none
    isAnchor := Function.update s.isAnchor anchor false
    term := Function.update s.term (edgeToVar anchor other) 0 }

/-- `State::getAnchorLeft` (randomDataGenerators.cpp:302-308); `none` is `-1`. -/
def MatchState.anchorLeft (s : MatchState) (node : ℕ) : Option ℕ := (List.range node).reverse.find? s.isAnchor

/-- `State::getNotTakenRight` (randomDataGenerators.cpp:312-318). -/
def MatchState.notTakenRight (s : MatchState) (count node : ℕ) : ℕ :=
  ((List.range' (node + 1) (count - (node + 1))).find? fun i => (s.nodes i).isNone).getD count

/-- The body of the loop of `generateMatchingIdeal` for a node (randomDataGenerators.cpp:361-384): the next state, the next node
and whether the term is inserted. -/
def MatchState.step (s : MatchState) (count node : ℕ) : MatchState × Option ℕ × Bool :=
  if node = count then (s, s.anchorLeft node, true)
  else
    match s.nodes node with
    | none =>
      let neighbor := s.notTakenRight count node
      if neighbor = count then (s, s.anchorLeft node, false)
      else
        let s' := s.takeEdge node neighbor
        (s', some (s'.notTakenRight count neighbor), false)
    | some neighbor =>
      let nextNeighbor := s.notTakenRight count neighbor
      let s' := s.dropEdge node neighbor
      if nextNeighbor = count then (s', s'.anchorLeft node, false)
      else
        let s'' := s'.takeEdge node nextNeighbor
        (s'', some (s''.notTakenRight count node), false)

/-- The loop of `generateMatchingIdeal` (randomDataGenerators.cpp:349-385). -/
def matchLoop (count : ℕ) : ℕ → MatchState → ℕ → Option ℕ → Option (List (Term (count * (count - 1) / 2)))
  | 0, _, _, _ => none
  | fuel + 1, s, notUsed, none =>
    let s1 := if notUsed < count then s.dropNode notUsed else s
    let notUsed1 := if notUsed < count then notUsed + 1 else notUsed
    if notUsed1 = count then some []
    else matchLoop count fuel (s1.takeNode notUsed1) notUsed1 (some 0)
  | fuel + 1, s, notUsed, some node =>
    let x := s.step count node
    let rest := matchLoop count fuel x.1 notUsed x.2.1
    if x.2.2 then rest.map fun l => (fun i => s.term i) :: l else rest

/-- `generateMatchingIdeal` (randomDataGenerators.cpp:224-390). Starting over with the next node unused and going on with node 0 is
two iterations in the model and one in the code. -/
def matchingIdeal (fuel count : ℕ) : Option (List (Term (count * (count - 1) / 2))) :=
  if count = 0 then none
  else if count > 1000 then none
  else
    let s : MatchState := { nodes := fun _ => none, isAnchor := fun _ => false, term := fun _ => 0 }
    if count % 2 = 1 then matchLoop count fuel (s.takeNode 0) 0 (some 1) else matchLoop count fuel s count (some 0)

/-- `Ideal::isIncomparable` (Ideal.cpp:48-55). -/
def isIncomparable (G : List (Term n)) (t : Term n) : Bool := G.all fun g => !(decide (g ≤ t) || decide (t ≤ g))

/-- The loop of `generateRandomIdeal` (randomDataGenerators.cpp:438-451). The first argument is `triesLeft`, `calls` is the number of
calls of `rand()` so far. -/
def randomLoop (rnd : ℕ → ℕ) (exponentRange : ℕ) : ℕ → (calls togo : ℕ) → List (Term n) → List (Term n) × ℕ
  | 0, _, togo, G => (G, togo)
  | tries + 1, calls, togo, G =>
    if togo = 0 then (G, togo)
    else
      let term : Term n := fun v =>
        if exponentRange ≠ 2 ^ 64 - 1 then rnd (calls + v) % (exponentRange + 1) else rnd (calls + v)
      if isIncomparable G term then randomLoop rnd exponentRange tries (calls + n) (togo - 1) (G ++ [term])
      else randomLoop rnd exponentRange tries (calls + n) togo G

/-- `generateRandomIdeal` (randomDataGenerators.cpp:429-458): the generators and the return value. -/
def randomIdeal (rnd : ℕ → ℕ) (exponentRange n generatorCount : ℕ) : List (Term n) × Bool :=
  let x := randomLoop (n := n) rnd exponentRange (4 * 1000 * 1000) 0 generatorCount []
  (x.1, x.2 = 0)

/-- The loop of `generateRandomEdgeIdeal` (randomDataGenerators.cpp:399-419). `triesLeft` is a `size_t` of 64 bits, and it is
decremented twice if the variables are different. -/
def edgeLoop (rnd : ℕ → ℕ) : ℕ → (triesLeft calls togo : ℕ) → List (Term n) → Option (List (Term n) × ℕ)
  | 0, _, _, _, _ => none
  | fuel + 1, triesLeft, calls, togo, G =>
    if togo > 0 ∧ triesLeft > 0 then
      if n = 0 then none
      else
        let a := rnd calls % n
        let b := rnd (calls + 1) % n
        if a = b then edgeLoop rnd fuel (triesLeft - 1) (calls + 2) togo G
        else
          let t : Term n := setOnes [a, b]
          let tries := (triesLeft - 1 + (2 ^ 64 - 1)) % 2 ^ 64
          if isIncomparable G t then edgeLoop rnd fuel tries (calls + 2) (togo - 1) (G ++ [t])
          else edgeLoop rnd fuel tries (calls + 2) togo G
    else some (G, togo)

/-- `generateRandomEdgeIdeal` (randomDataGenerators.cpp:392-426): the generators and the return value. -/
def randomEdgeIdeal (fuel : ℕ) (rnd : ℕ → ℕ) (n generatorCount : ℕ) : Option (List (Term n) × Bool) :=
  (edgeLoop (n := n) rnd fuel (4 * 1000 * 1000) 0 generatorCount []).map fun x => (x.1, x.2 = 0)

end Frobby
