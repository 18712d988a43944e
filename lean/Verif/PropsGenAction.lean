import Verif.GenActionModel
import Verif.PropsGen
import Verif.PropsRandom
import Verif.PropsReader
import Verif.PropsFrobAction

/-!
# C64: what `genideal` and `genfrob` print

`rnd` and `z` are the random numbers, and nothing is assumed about them.
-/

namespace Frobby

/-! ## The texts can be read again -/

/-- The names of the variables if none are given. -/
def numberedNames (n : ℕ) : List Text := (List.range n).map fun i => 'x' :: decimal (i + 1)

/-- Reading the text in the format gives the generators, in the ring with the given variables. -/
def IsTextOf {n : ℕ} (g : IOFormat) (t : Text) (names : List Text) (G : List (Term n)) : Prop :=
  names.length = n ∧ readIdeal g t = some { names := names, terms := G.map fun x => List.ofFn x }

theorem allowed_numbered {n : ℕ} (h : n < 2 ^ 64) : AllowedRing (defaultNames n) :=
  ⟨(defaultNames_allowed n).1, (defaultNames_allowed n).2, by rwa [defaultNames_length]⟩

theorem allowed_chess {size : ℕ} (h : size * size < 2 ^ 64) : AllowedRing (chessNames size size) := by
  refine ⟨fun x hx => ?_, nodup_chessNames _ _, by rwa [chessNames_length]⟩
  rw [chessNames_eq] at hx
  simp only [List.mem_flatMap, List.mem_map] at hx
  obtain ⟨row, _, column, _, rfl⟩ := hx
  refine ⟨'r', decimal (row + 1) ++ 'c' :: decimal (column + 1), rfl, Or.inl (by decide), fun d hd => ?_⟩
  simp only [List.mem_append, List.mem_cons] at hd
  rcases hd with hd | rfl | hd
  · exact .inr (.inl (isDigit_iff.1 (isDigit_of_mem_decimal hd)))
  · exact .inl (.inl (by decide))
  · exact .inr (.inl (isDigit_iff.1 (isDigit_of_mem_decimal hd)))

theorem isTextOf_written {n : ℕ} (g : IOFormat) {names : List Text} (h : AllowedRing names) (hn : names.length = n) {G : List (Term n)} (hG : G.length < 2 ^ 64) :
    IsTextOf g (writeIdeal g (bigIdealOf names G)) names G := by
  refine ⟨hn, C32_round_trip g ⟨h, fun e he => ?_, by simpa [bigIdealOf] using hG⟩⟩
  simp only [bigIdealOf, List.mem_map] at he
  obtain ⟨x, _, rfl⟩ := he
  simp [bigIdealOf, hn]

theorem genidealText_ok {o : GenOpts} {fuel : ℕ} {rnd : ℕ → ℕ} {I : NamedIdeal} (h : generatedIdeal o fuel rnd = .ok I) (writer : NamedIdeal → Text) :
    genidealText o fuel rnd writer = .ok (writer I) := by rw [genidealText, h]

variable (fuel : ℕ) (rnd : ℕ → ℕ) (g : IOFormat)

/-! ## Ideals that do not depend on random numbers -/

/-- **C64.** `genideal -type list`: the text of the ideal generated by the products of consecutive variables. -/
theorem C64_list {o : GenOpts} (ht : o.type = t!"list") (hv : o.varCount < 2 ^ 32) :
    ∃ (t : Text) (G : List (Term o.varCount)), genidealText o fuel rnd (writeIdeal g) = .ok t ∧ IsTextOf g t (numberedNames o.varCount) G ∧ MinimalGens G ∧
      ∀ x, x ∈ G ↔ ∃ i j : Fin o.varCount, (j : ℕ) = i + 1 ∧ x = productOfVars {i, j} := by
  have h : generatedIdeal o fuel rnd = .ok (bigIdealOf (defaultNames o.varCount) (linkedListIdeal o.varCount)) := by
    unfold generatedIdeal
    rw [ht, if_neg (by decide), if_pos rfl]
  refine ⟨_, _, genidealText_ok h _, isTextOf_written g (allowed_numbered (by omega)) (defaultNames_length _) ?_, C45_list _⟩
  simp only [linkedListIdeal, List.length_map, List.length_range']
  omega

theorem chessMovesFrom_length (n r c i j : ℕ) (d : List (ℤ × ℤ)) : (chessMovesFrom n r c i j d).length ≤ d.length := List.length_filterMap_le _ _

theorem flatMap_length_le {α β : Type} (f : α → List β) (m : ℕ) : ∀ l : List α, (∀ x ∈ l, (f x).length ≤ m) → (l.flatMap f).length ≤ l.length * m
  | [], _ => by simp
  | x :: l, h => by
    have h1 := h x (by simp)
    have h2 := flatMap_length_le f m l fun y hy => h y (by simp [hy])
    simp only [List.flatMap_cons, List.length_append, List.length_cons, Nat.add_mul, Nat.one_mul]
    omega

theorem chess_count {size : ℕ} (hs : size < 2 ^ 31) {d : List (ℤ × ℤ)} (hd : d.length = 4) {names : List Text} {G : List (Term (size * size))}
    (h : chessIdeal size size d = some (names, G)) : names = chessNames size size ∧ G.length < 2 ^ 64 := by
  rw [chessIdeal] at h
  split at h
  · simp at h
  · simp only [Option.some.injEq, Prod.mk.injEq] at h
    refine ⟨h.1.symm, ?_⟩
    rw [← h.2, (sortReverseLex_perm _).length_eq]
    refine Nat.lt_of_le_of_lt (flatMap_length_le _ (size * 4) _ fun i _ => ?_) ?_
    · refine Nat.le_trans (flatMap_length_le _ 4 _ fun j _ => hd ▸ chessMovesFrom_length ..) ?_
      simp
    · rw [List.length_range]
      have : size * (size * 4) ≤ (2 ^ 31 - 1) * ((2 ^ 31 - 1) * 4) := by gcongr <;> omega
      omega

theorem square_lt {size : ℕ} (hs : size < 2 ^ 31) : size * size < 2 ^ 64 := by
  have : size * size ≤ (2 ^ 31 - 1) * (2 ^ 31 - 1) := by gcongr <;> omega
  omega

/-- **C64.** `genideal -type king`: the text of the ideal of the moves of a king, in which the variables are named after the squares. -/
theorem C64_king {o : GenOpts} (ht : o.type = t!"king") (hv : o.varCount < 2 ^ 31) :
    ∃ (t : Text) (names : List Text) (G : List (Term (o.varCount * o.varCount))), genidealText o fuel rnd (writeIdeal g) = .ok t ∧ IsTextOf g t names G ∧
      (∀ p : Square o.varCount o.varCount, names[(p.var : ℕ)]? = some ('r' :: decimal (p.1 + 1) ++ 'c' :: decimal (p.2 + 1))) ∧
      MinimalGens G ∧ ∀ x, x ∈ G ↔ ∃ p q : Square o.varCount o.varCount, KingMove p q ∧ x = productOfVars {p.var, q.var} := by
  obtain ⟨names, G, h1, -, h3, h4⟩ := C45_king (square_lt hv)
  obtain ⟨rfl, hc⟩ := chess_count hv rfl h1
  have h : generatedIdeal o fuel rnd = .ok (bigIdealOf (chessNames o.varCount o.varCount) G) := by
    unfold generatedIdeal
    rw [ht, if_neg (by decide), if_neg (by decide), if_neg (by decide), if_pos rfl, h1]
  exact ⟨_, _, G, genidealText_ok h _, isTextOf_written g (allowed_chess (square_lt hv)) h3 hc, h4⟩

/-- **C64.** `genideal -type knight`: the text of the ideal of the moves of a knight. -/
theorem C64_knight {o : GenOpts} (ht : o.type = t!"knight") (hv : o.varCount < 2 ^ 31) :
    ∃ (t : Text) (names : List Text) (G : List (Term (o.varCount * o.varCount))), genidealText o fuel rnd (writeIdeal g) = .ok t ∧ IsTextOf g t names G ∧
      (∀ p : Square o.varCount o.varCount, names[(p.var : ℕ)]? = some ('r' :: decimal (p.1 + 1) ++ 'c' :: decimal (p.2 + 1))) ∧
      MinimalGens G ∧ ∀ x, x ∈ G ↔ ∃ p q : Square o.varCount o.varCount, KnightMove p q ∧ x = productOfVars {p.var, q.var} := by
  obtain ⟨names, G, h1, -, h3, h4⟩ := C45_knight (square_lt hv)
  obtain ⟨rfl, hc⟩ := chess_count hv rfl h1
  have h : generatedIdeal o fuel rnd = .ok (bigIdealOf (chessNames o.varCount o.varCount) G) := by
    unfold generatedIdeal
    rw [ht, if_neg (by decide), if_neg (by decide), if_neg (by decide), if_neg (by decide), if_pos rfl, h1]
  exact ⟨_, _, G, genidealText_ok h _, isTextOf_written g (allowed_chess (square_lt hv)) h3 hc, h4⟩

/-- **C64.** `genideal -type tree` stops, and it prints the text of the tree ideal. With 64 variables or more there are too many generators. -/
theorem C64_tree {o : GenOpts} (ht : o.type = t!"tree") (hv : o.varCount < 64) :
    ∃ (t : Text) (G : List (Term o.varCount)) (m : ℕ), (∀ fuel, genidealText o (fuel + m) rnd (writeIdeal g) = .ok t) ∧ IsTextOf g t (numberedNames o.varCount) G ∧
      MinimalGens G ∧ ∀ x, x ∈ G ↔ ∃ F : Finset (Fin o.varCount), F.Nonempty ∧ x = treeGenerator F := by
  obtain ⟨G, m, h1, h2, h3, h4⟩ := C45_tree o.varCount
  have h : ∀ fuel, generatedIdeal o (fuel + m) rnd = .ok (bigIdealOf (defaultNames o.varCount) G) := by
    intro fuel
    unfold generatedIdeal
    rw [ht, if_neg (by decide), if_neg (by decide), if_neg (by decide), if_neg (by decide), if_neg (by decide), if_neg (by decide), if_neg (by decide), if_pos rfl, h1]
  refine ⟨_, G, m, fun fuel => genidealText_ok (h fuel) _, isTextOf_written g (allowed_numbered (by omega)) (defaultNames_length _) ?_, h2, h4⟩
  have : 2 ^ o.varCount ≤ 2 ^ 63 := Nat.pow_le_pow_right (by decide) (by omega)
  omega

/-- **C64.** `genideal -type rook` stops, and it prints the text of the rook ideal unless there are 2^64 generators or more. -/
theorem C64_rook {o : GenOpts} (ht : o.type = t!"rook") (h1 : 0 < o.varCount) (h2 : 0 < o.genCount) (h3 : o.varCount ≤ 1000) (h4 : o.genCount ≤ 1000) :
    ∃ (t : Text) (G : List (Term (min o.varCount o.genCount * max o.varCount o.genCount))) (m : ℕ),
      (∀ fuel, genidealText o (fuel + m) rnd (writeIdeal g) = .ok t) ∧
      (G.length < 2 ^ 64 → IsTextOf g t (numberedNames (min o.varCount o.genCount * max o.varCount o.genCount)) G) ∧ G.Nodup ∧
      ∀ x, x ∈ G ↔ ∃ S : Finset (Square (min o.varCount o.genCount) (max o.varCount o.genCount)), Maximal NonAttacking S ∧ x = productOfVars (S.image Square.var) := by
  obtain ⟨G, m, h5, h6⟩ := C45_rook h1 h2 h3 h4
  have h : ∀ fuel, generatedIdeal o (fuel + m) rnd = .ok (bigIdealOf (defaultNames (min o.varCount o.genCount * max o.varCount o.genCount)) G) := by
    intro fuel
    unfold generatedIdeal
    rw [ht, if_neg (by decide), if_neg (by decide), if_neg (by decide), if_neg (by decide), if_neg (by decide), if_pos rfl, if_neg (by omega), h5]
  refine ⟨_, G, m, fun fuel => genidealText_ok (h fuel) _, fun hc => isTextOf_written g (allowed_numbered ?_) (defaultNames_length _) hc, h6⟩
  have : min o.varCount o.genCount * max o.varCount o.genCount ≤ 1000 * 1000 := by gcongr <;> omega
  omega

/-- **C64.** `genideal -type matching` stops, and it prints the text of the ideal of the maximum matchings unless there are 2^64 generators or more. -/
theorem C64_matching {o : GenOpts} (ht : o.type = t!"matching") (h1 : 0 < o.varCount) (h2 : o.varCount ≤ 1000) :
    ∃ (t : Text) (G : List (Term (o.varCount * (o.varCount - 1) / 2))) (m : ℕ), (∀ fuel, genidealText o (fuel + m) rnd (writeIdeal g) = .ok t) ∧
      (G.length < 2 ^ 64 → IsTextOf g t (numberedNames (o.varCount * (o.varCount - 1) / 2)) G) ∧ G.Nodup ∧
      ∀ x, x ∈ G ↔ ∃ M : Finset (Edge o.varCount), IsMaximumMatching M ∧ x = productOfEdges M := by
  obtain ⟨G, m, h5, h6⟩ := C45_matching h1 h2
  have h : ∀ fuel, generatedIdeal o (fuel + m) rnd = .ok (bigIdealOf (defaultNames (o.varCount * (o.varCount - 1) / 2)) G) := by
    intro fuel
    unfold generatedIdeal
    rw [ht, if_neg (by decide), if_neg (by decide), if_neg (by decide), if_neg (by decide), if_neg (by decide), if_neg (by decide), if_pos rfl, if_neg (by omega), h5]
  refine ⟨_, G, m, fun fuel => genidealText_ok (h fuel) _, fun hc => isTextOf_written g (allowed_numbered ?_) (defaultNames_length _) hc, h6⟩
  have : o.varCount * (o.varCount - 1) ≤ 1000 * 1000 := by gcongr; omega
  omega

/-! ## Random ideals -/

/-- **C64.** `genideal -type random`, whatever the random numbers: the text of an ideal in which no generator divides another, with at most as many generators and
exponents at most as large as asked for. There are fewer generators only after 4000000 candidates. -/
theorem C64_random {o : GenOpts} (ht : o.type = t!"random") (hv : o.varCount < 2 ^ 32) (hg : o.genCount < 2 ^ 32) (he : o.expRange < 2 ^ 32) :
    ∃ (t : Text) (G : List (Term o.varCount)), genidealText o fuel rnd (writeIdeal g) = .ok t ∧ IsTextOf g t (numberedNames o.varCount) G ∧
      G.Pairwise (fun a b => ¬ a ≤ b ∧ ¬ b ≤ a) ∧ G.length ≤ o.genCount ∧ (∀ x ∈ G, ∀ i, x i ≤ o.expRange) ∧
      (G.length < o.genCount → ∀ j < 4000000, ∃ x ∈ G, x ≤ candidate rnd o.expRange j ∨ candidate rnd o.expRange j ≤ x) := by
  obtain ⟨G, ok, h1, h2, h3, h4, h5, h6⟩ := C46_ideal rnd o.expRange o.varCount o.genCount
  have h : generatedIdeal o fuel rnd = .ok (bigIdealOf (defaultNames o.varCount) G) := by
    unfold generatedIdeal
    rw [ht, if_pos rfl, h1]
  refine ⟨_, G, genidealText_ok h _, isTextOf_written g (allowed_numbered (by omega)) (defaultNames_length _) (by omega), h2, h3, h5 (by omega), fun hl => h6 ?_⟩
  cases ok with
  | false => rfl
  | true => have := h4.1 rfl; omega

/-- **C64, the part that holds.** `genideal -type edge`: if a text is printed, it is that of an ideal generated by products of two different variables, each once,
with at most as many generators as asked for. Missing: the program need not stop, see `C46_edge_runs_on`. -/
theorem C64_edge_partial {o : GenOpts} (ht : o.type = t!"edge") (hv : o.varCount < 2 ^ 32) (hg : o.genCount < 2 ^ 32) {t : Text}
    (h : genidealText o fuel rnd (writeIdeal g) = .ok t) : ∃ G : List (Term o.varCount), IsTextOf g t (numberedNames o.varCount) G ∧
      MinimalGens G ∧ (∀ x ∈ G, ∃ i j : Fin o.varCount, i ≠ j ∧ x = productOfVars {i, j}) ∧ G.length ≤ o.genCount := by
  unfold genidealText generatedIdeal at h
  rw [ht, if_neg (by decide), if_neg (by decide), if_pos rfl] at h
  cases hr : randomEdgeIdeal fuel rnd o.varCount o.genCount with
  | none => rw [hr] at h; cases h
  | some x =>
    obtain ⟨G, ok⟩ := x
    obtain ⟨h2, h3, h4, -⟩ := C46_edge_partial hr
    rw [hr] at h
    simp only [Outcome.ok.injEq] at h
    subst h
    exact ⟨G, isTextOf_written g (allowed_numbered (by omega)) (defaultNames_length _) (by omega), h2, h3, h4⟩

/-! ## Errors -/

/-- **C64.** All that is reported as an error: another type, and a board or a clique of a size that is not allowed. -/
theorem C64_errors {o : GenOpts} (hv : o.varCount < 2 ^ 32) (writer : NamedIdeal → Text) : genidealText o fuel rnd writer = .error ↔
    o.type ∉ [t!"random", t!"list", t!"edge", t!"king", t!"knight", t!"rook", t!"matching", t!"tree"] ∨
      (o.type = t!"rook" ∧ (o.varCount = 0 ∨ o.genCount = 0 ∨ 1000 < o.varCount ∨ 1000 < o.genCount)) ∨
      (o.type = t!"matching" ∧ (o.varCount = 0 ∨ 1000 < o.varCount)) := by
  have hsq : ¬ o.varCount * o.varCount > 2 ^ 64 - 1 := by
    have : o.varCount * o.varCount ≤ (2 ^ 32 - 1) * (2 ^ 32 - 1) := by gcongr <;> omega
    omega
  have hE : genidealText o fuel rnd writer = .error ↔ generatedIdeal o fuel rnd = .error := by
    rw [genidealText]; split <;> simp_all
  rw [hE]
  unfold generatedIdeal
  by_cases h1 : o.type = t!"random"
  · rw [if_pos h1, h1]; simp
  rw [if_neg h1]
  by_cases h2 : o.type = t!"list"
  · rw [if_pos h2, h2]; simp
  rw [if_neg h2]
  by_cases h3 : o.type = t!"edge"
  · rw [if_pos h3, h3]; split <;> simp
  rw [if_neg h3]
  by_cases h4 : o.type = t!"king"
  · rw [if_pos h4, h4, kingIdeal, chessIdeal, if_neg hsq]; simp
  rw [if_neg h4]
  by_cases h5 : o.type = t!"knight"
  · rw [if_pos h5, h5, knightIdeal, chessIdeal, if_neg hsq]; simp
  rw [if_neg h5]
  by_cases h6 : o.type = t!"rook"
  · rw [if_pos h6, h6]
    split
    · next h => simpa using h
    · next h => split <;> simpa using h
  rw [if_neg h6]
  by_cases h7 : o.type = t!"matching"
  · rw [if_pos h7, h7]
    split
    · next h => simpa using h
    · next h => split <;> simpa using h
  rw [if_neg h7]
  by_cases h8 : o.type = t!"tree"
  · rw [if_pos h8, h8]; split <;> simp
  rw [if_neg h8]
  simp [h1, h2, h3, h4, h5, h6, h7, h8]

/-- **C64: what is wrong.** `genideal -type edge -varCount 0` divides by zero, unless no generators are asked for. -/
theorem C64_edge_crash {o : GenOpts} (ht : o.type = t!"edge") (h0 : o.varCount = 0) (hg : 0 < o.genCount) (writer : NamedIdeal → Text) :
    genidealText o fuel rnd writer = .crash := by
  unfold genidealText generatedIdeal
  rw [ht, if_neg (by decide), if_neg (by decide), if_pos rfl, randomEdgeIdeal]
  cases fuel with
  | zero => rfl
  | succ fuel => rw [edgeLoop, if_pos ⟨hg, by decide⟩, if_pos h0]; rfl

/-- The list ideal in three variables for Macaulay 2, and the king on a board with two rows in the format of 4ti2. -/
example : genidealText { type := t!"list", expRange := 9, varCount := 3, genCount := 5 } 0 (fun _ => 0) (writeIdeal .m2) =
      .ok t!"R = QQ[x1, x2, x3];\nI = monomialIdeal(\n x1*x2,\n x2*x3\n);\n" ∧
    genidealText { type := t!"king", expRange := 9, varCount := 1, genCount := 5 } 0 (fun _ => 0) (writeIdeal .fourti2) = .ok t!"0 1\n r1c1\n" := by
  decide +kernel

/-! ## `genfrob` -/

/-- **C64, the part that holds.** `genfrob` prints as many numbers as asked for, in ascending order, each between 1 and a power of ten, and reading the text gives the
numbers. If the random numbers have no common divisor, then neither have those that are printed. Missing: `C64_genfrob_digits_wrong` and `C64_genfrob_rejected`. -/
theorem C64_genfrob_partial {entryCount digits : ℕ} (h1 : 0 < entryCount) (h2 : 0 < digits) (z : ℕ → ℕ) :
    ∃ (t : Text) (a : List ℤ), genfrobText entryCount digits z = .ok t ∧ Many integerG a t [] ∧ a.length = entryCount ∧ a.Pairwise (· ≤ ·) ∧
      (∀ x ∈ a, 1 ≤ x ∧ x ≤ 10 ^ digits) ∧
      ((∀ d : ℤ, (∀ i < entryCount, d ∣ ((z i % 10 ^ digits : ℕ) : ℤ) + 1) → IsUnit d) → ∀ d : ℤ, (∀ x ∈ a, d ∣ x) → IsUnit d) ∧
      (Instance a → ∃ F K, IsFrobenius a F ∧ ∀ fuel, K ≤ fuel → frobdynAction fuel t = .ok (decimalInt F ++ t!"\n")) := by
  have hr : ∀ x ∈ (List.range entryCount).map (fun i => ((z i % 10 ^ digits : ℕ) : ℤ) + 1), 1 ≤ x ∧ x ≤ ((10 ^ digits : ℕ) : ℤ) := by
    intro x hx
    simp only [List.mem_map] at hx
    obtain ⟨i, _, rfl⟩ := hx
    have := Nat.mod_lt (z i) (Nat.pow_pos (n := digits) (by decide : 0 < 10))
    omega
  obtain ⟨h3, h4, h5, h6⟩ := C46_frobenius_partial hr
  rw [List.length_map, List.length_range] at h4
  have hM : Many integerG (generateFrobenius ((List.range entryCount).map fun i => ((z i % 10 ^ digits : ℕ) : ℤ) + 1))
      (writeFrobeniusInstance (generateFrobenius ((List.range entryCount).map fun i => ((z i % 10 ^ digits : ℕ) : ℤ) + 1))) [] := by
    have hne : generateFrobenius ((List.range entryCount).map fun i => ((z i % 10 ^ digits : ℕ) : ℤ) + 1) ≠ [] := by
      intro h; rw [h] at h4; simp at h4; omega
    simpa using manyInteger_written hne []
  refine ⟨_, _, by rw [genfrobText, if_neg (by omega), if_neg (by omega)], hM, h4, h3, fun x hx => ?_, fun h => h6 (.inl fun d hd => h d fun i hi => ?_), fun hI => ?_⟩
  · have := h5 x hx
    push_cast at this
    exact this
  · exact hd _ (List.mem_map.2 ⟨i, List.mem_range.2 hi, rfl⟩)
  · exact C57_frobdyn hM hI

/-- **C64.** No entries and no digits are errors. -/
theorem C64_genfrob_errors (entryCount digits : ℕ) (z : ℕ → ℕ) : genfrobText entryCount digits z = .error ↔ entryCount = 0 ∨ digits = 0 := by
  unfold genfrobText
  by_cases h1 : entryCount < 1
  · simp [h1]; omega
  · by_cases h2 : digits < 1
    · simp [h1, h2]; omega
    · simp [h1, h2]; omega

/-- **C64: what is wrong.** `-maxEntryDigits` is "the largest allowed number of decimal digits for entries in the random instance", but for every number of digits there are random numbers such that an
entry with one digit more is printed. -/
theorem C64_genfrob_digits_wrong {digits : ℕ} (h : 0 < digits) : ∃ z : ℕ → ℕ, genfrobText 2 digits z = .ok (t!"1 " ++ decimal (10 ^ digits) ++ t!"\n") := by
  refine ⟨fun i => if i = 0 then 0 else 10 ^ digits - 1, ?_⟩
  have hp : 0 < 10 ^ digits := Nat.pow_pos (by decide)
  have h1 : (List.range 2).map (fun i => (((if i = 0 then 0 else 10 ^ digits - 1) % 10 ^ digits : ℕ) : ℤ) + 1) = [1, ((10 ^ digits : ℕ) : ℤ)] := by
    have : ((10 ^ digits - 1 : ℕ) : ℤ) + 1 = ((10 ^ digits : ℕ) : ℤ) := by omega
    simp only [show List.range 2 = [0, 1] from rfl, List.map_cons, List.map_nil, if_true, Nat.zero_mod, Nat.cast_zero, zero_add, Nat.one_ne_zero, if_false,
      Nat.mod_eq_of_lt (show 10 ^ digits - 1 < 10 ^ digits by omega), this]
  have h2 : generateFrobenius [1, ((10 ^ digits : ℕ) : ℤ)] = [1, ((10 ^ digits : ℕ) : ℤ)] := by
    have hg : gcdLoop [1, ((10 ^ digits : ℕ) : ℤ)] = 1 := by simp [gcdLoop]
    have hle : (1 : ℤ) ≤ ((10 ^ digits : ℕ) : ℤ) := by omega
    rw [generateFrobenius, hg, show (1 : ℤ) / 1 = 1 from rfl]
    show List.orderedInsert (· ≤ ·) 1 [((10 ^ digits : ℕ) : ℤ)] = _
    rw [List.orderedInsert, if_pos hle]
  rw [genfrobText, if_neg (by decide), if_neg (by omega), h1, h2]
  have h3 : decimalInt ((10 ^ digits : ℕ) : ℤ) = decimal (10 ^ digits) := by
    rw [decimalInt, if_neg (by omega), Int.natAbs_natCast]
  simp only [writeFrobeniusInstance, List.flatMap_cons, List.flatMap_nil, h3]
  simp [show decimalInt 1 = t!"1" by decide +kernel]

/-- **C64: what is wrong.** `genfrob -entryCount 1` prints the number 1 whatever the random numbers, and `frobdyn` does not accept it. With two entries the numbers can
have a common divisor, and `frobdyn` does not accept those either. -/
theorem C64_genfrob_rejected (fuel : ℕ) : (∀ digits z, 0 < digits → genfrobText 1 digits z = .ok t!"1\n") ∧ frobdynAction fuel t!"1\n" = .error ∧
    (∃ z, genfrobText 2 1 z = .ok t!"2 6\n") ∧ frobdynAction fuel t!"2 6\n" = .error := by
  refine ⟨fun digits z h => ?_, ?_, ⟨fun i => 2 * i + 3, by decide +kernel⟩, ?_⟩
  · rw [genfrobText, if_neg (by decide), if_neg (by omega)]
    have h1 : (0 : ℤ) < ((z 0 % 10 ^ digits : ℕ) : ℤ) + 1 := by omega
    have h2 : generateFrobenius [((z 0 % 10 ^ digits : ℕ) : ℤ) + 1] = [1] := by
      rw [generateFrobenius]
      simp only [gcdLoop, List.foldl_nil]
      rw [Int.ediv_self (by omega)]
      rfl
    rw [show (List.range 1).map (fun i => ((z i % 10 ^ digits : ℕ) : ℤ) + 1) = [((z 0 % 10 ^ digits : ℕ) : ℤ) + 1] from rfl, h2]
    rfl
  · have : readFrobeniusInstance t!"1\n" = none := by decide +kernel
    rw [frobdynAction, this]
  · have : readFrobeniusInstance t!"2 6\n" = none := by decide +kernel
    rw [frobdynAction, this]

/-- Four numbers with at most two digits. -/
example : genfrobText 4 2 (fun i => 41 * i + 16) = .ok t!"17 40 58 99\n" := by decide +kernel

end Frobby
