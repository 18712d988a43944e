import Verif.GenLemmas
import Verif.GenSpec
import Verif.ScanLemmas

/-! # Lemmas on the ideals of chess boards -/

namespace Frobby

variable {n : ℕ}

theorem setOnes_pair {x y : ℕ} (hx : x < n) (hy : y < n) : (setOnes [x, y] : Term n) = productOfVars {⟨x, hx⟩, ⟨y, hy⟩} := by
  funext i
  simp [setOnes, productOfVars, Fin.ext_iff]

theorem productOfVars_injective : Function.Injective (productOfVars (n := n)) := by
  intro F F' h
  ext i
  have := congrFun h i
  simp only [productOfVars] at this
  by_cases h1 : i ∈ F <;> by_cases h2 : i ∈ F' <;> simp [h1, h2] at this ⊢

theorem pair_eq_pair {α : Type*} [DecidableEq α] {a b c d : α} (h : ({a, b} : Finset α) = {c, d}) : (a = c ∧ b = d) ∨ (a = d ∧ b = c) := by
  have h' : ({a, b} : Set α) = {c, d} := by
    rw [← Finset.coe_pair, ← Finset.coe_pair, h]
  exact Set.pair_eq_pair_iff.1 h'

theorem Square.var_injective {rows columns : ℕ} : Function.Injective (Square.var (rows := rows) (columns := columns)) := by
  rintro ⟨a, b⟩ ⟨c, d⟩ h
  simp only [Square.var, Fin.mk.injEq] at h
  obtain ⟨h1, h2⟩ := mul_add_inj b.2 d.2 h
  exact Prod.ext (Fin.ext h1) (Fin.ext h2)

theorem offBoard_iff {count pos : ℕ} (hp : pos < count) {delta : ℤ} (hd : -2 ^ 31 < delta) :
    offBoard count pos delta = false ↔ 0 ≤ (pos : ℤ) + delta ∧ (pos : ℤ) + delta < count := by
  simp only [offBoard, Bool.or_eq_false_iff, decide_eq_false_iff_not, Bool.and_eq_false_iff]
  constructor
  · rintro ⟨⟨-, h1⟩, h2⟩
    omega
  · intro h
    omega

/-- A move by a difference in the list. -/
def MoveIn (deltas : List (ℤ × ℤ)) {rows columns : ℕ} (p q : Square rows columns) : Prop :=
  ((q.1 : ℤ) - p.1, (q.2 : ℤ) - p.2) ∈ deltas

theorem mem_chessMovesFrom {rows columns row column : ℕ} (hr : row < rows) (hc : column < columns) {deltas : List (ℤ × ℤ)}
    (hd : ∀ d ∈ deltas, -2 ^ 31 < d.1 ∧ -2 ^ 31 < d.2) (t : Term (rows * columns)) :
    t ∈ chessMovesFrom (rows * columns) rows columns row column deltas ↔
      ∃ q : Square rows columns, MoveIn deltas (⟨row, hr⟩, ⟨column, hc⟩) q ∧
        t = productOfVars {Square.var (⟨row, hr⟩, ⟨column, hc⟩), Square.var q} := by
  simp only [chessMovesFrom, List.mem_filterMap]
  constructor
  · rintro ⟨⟨d, e⟩, hm, h⟩
    obtain ⟨h1, h2⟩ := hd _ hm
    by_cases g1 : offBoard rows row d = true
    · simp [g1] at h
    by_cases g2 : offBoard columns column e = true
    · simp [g2] at h
    rw [if_neg g1, if_neg g2] at h
    have g1 := (offBoard_iff hr h1).1 (by simpa using g1)
    have g2 := (offBoard_iff hc h2).1 (by simpa using g2)
    refine ⟨(⟨((row : ℤ) + d).toNat, by omega⟩, ⟨((column : ℤ) + e).toNat, by omega⟩), ?_, ?_⟩
    · have : ((((row : ℤ) + d).toNat : ℤ) - row, (((column : ℤ) + e).toNat : ℤ) - column) = (d, e) := by
        ext <;> simp only <;> omega
      rw [MoveIn]
      simp only
      rw [this]
      exact hm
    · rw [← Option.some.inj h]
      exact setOnes_pair _ _
  · rintro ⟨⟨q1, q2⟩, hm, rfl⟩
    obtain ⟨h1, h2⟩ := hd _ hm
    simp only at h1 h2
    refine ⟨_, hm, ?_⟩
    simp only
    have e1 : ((row : ℤ) + ((q1 : ℤ) - row)).toNat = q1 := by omega
    have e2 : ((column : ℤ) + ((q2 : ℤ) - column)).toNat = q2 := by omega
    rw [(offBoard_iff hr h1).2 ⟨by omega, by omega⟩, (offBoard_iff hc h2).2 ⟨by omega, by omega⟩, e1, e2]
    simp only [Bool.false_eq_true, if_false, Option.some.injEq]
    exact setOnes_pair (Square.var (⟨row, hr⟩, ⟨column, hc⟩)).2 (Square.var (q1, q2)).2

/-- The generators before they are sorted. -/
def chessGens (rows columns : ℕ) (deltas : List (ℤ × ℤ)) : List (Term (rows * columns)) :=
  (List.range rows).flatMap fun row => (List.range columns).flatMap fun column => chessMovesFrom _ rows columns row column deltas

theorem mem_chessGens {rows columns : ℕ} {deltas : List (ℤ × ℤ)} (hd : ∀ d ∈ deltas, -2 ^ 31 < d.1 ∧ -2 ^ 31 < d.2) (t : Term (rows * columns)) :
    t ∈ chessGens rows columns deltas ↔ ∃ p q : Square rows columns, MoveIn deltas p q ∧ t = productOfVars {p.var, q.var} := by
  simp only [chessGens, List.mem_flatMap, List.mem_range]
  constructor
  · rintro ⟨r, hr, c, hc, h⟩
    obtain ⟨q, h1, h2⟩ := (mem_chessMovesFrom hr hc hd t).1 h
    exact ⟨_, q, h1, h2⟩
  · rintro ⟨⟨r, c⟩, q, h1, h2⟩
    exact ⟨r, r.2, c, c.2, (mem_chessMovesFrom r.2 c.2 hd t).2 ⟨q, h1, h2⟩⟩

/-- Different squares and different moves give different terms, if no move is the opposite of another. -/
theorem move_unique {rows columns : ℕ} {deltas : List (ℤ × ℤ)} (ho : ∀ d ∈ deltas, (-d.1, -d.2) ∉ deltas) {p q p' q' : Square rows columns}
    (h : MoveIn deltas p q) (h' : MoveIn deltas p' q') (he : productOfVars {p.var, q.var} = productOfVars {p'.var, q'.var}) :
    p = p' ∧ q = q' := by
  rcases pair_eq_pair (productOfVars_injective he) with ⟨h1, h2⟩ | ⟨h1, h2⟩
  · exact ⟨Square.var_injective h1, Square.var_injective h2⟩
  · have h1 := Square.var_injective h1
    have h2 := Square.var_injective h2
    subst h1 h2
    refine absurd ?_ (ho _ h)
    simpa [MoveIn] using h'

theorem nodup_chessGens {rows columns : ℕ} {deltas : List (ℤ × ℤ)} (hd : ∀ d ∈ deltas, -2 ^ 31 < d.1 ∧ -2 ^ 31 < d.2) (hn : deltas.Nodup)
    (ho : ∀ d ∈ deltas, (-d.1, -d.2) ∉ deltas) : (chessGens rows columns deltas).Nodup := by
  rw [chessGens, List.nodup_flatMap]
  refine ⟨fun r hr => ?_, ?_⟩
  · rw [List.mem_range] at hr
    rw [List.nodup_flatMap]
    refine ⟨fun c hc => ?_, ?_⟩
    · rw [List.mem_range] at hc
      have key : ∀ (d : ℤ × ℤ), d ∈ deltas → ∀ t, (if offBoard rows r d.1 = true then none else if offBoard columns c d.2 = true then none
          else some (setOnes [r * columns + c, ((r : ℤ) + d.1).toNat * columns + ((c : ℤ) + d.2).toNat])) = some t →
          ∃ q : Square rows columns, ((q.1 : ℤ) - r, (q.2 : ℤ) - c) = d ∧ t = productOfVars {Square.var (⟨r, hr⟩, ⟨c, hc⟩), Square.var q} := by
        intro d hdm t ht
        have hmem : t ∈ chessMovesFrom (rows * columns) rows columns r c [d] := by
          rw [chessMovesFrom, List.mem_filterMap]
          exact ⟨d, by simp, ht⟩
        obtain ⟨q, h1, h2⟩ := (mem_chessMovesFrom hr hc (by simpa using hd d hdm) t).1 hmem
        exact ⟨q, by simpa [MoveIn] using h1, h2⟩
      rw [chessMovesFrom, List.Nodup, List.pairwise_filterMap]
      refine List.Pairwise.imp_of_mem ?_ hn
      intro d d' hdm hdm' hne t ht t' ht' htt
      obtain ⟨q, h1, h2⟩ := key d hdm t ht
      obtain ⟨q', h1', h2'⟩ := key d' hdm' t' ht'
      have := (move_unique ho (p := (⟨r, hr⟩, ⟨c, hc⟩)) (q := q) (p' := (⟨r, hr⟩, ⟨c, hc⟩)) (q' := q')
        (by rw [MoveIn]; simp only; rw [h1]; exact hdm) (by rw [MoveIn]; simp only; rw [h1']; exact hdm') (by rw [← h2, ← h2', htt])).2
      subst this
      exact hne (h1.symm.trans h1')
    · refine List.nodup_range.pairwise_of_forall_ne ?_
      intro c hc c' hc' hne t ht ht'
      rw [List.mem_range] at hc hc'
      obtain ⟨q, h1, rfl⟩ := (mem_chessMovesFrom hr hc hd t).1 ht
      obtain ⟨q', h1', h2⟩ := (mem_chessMovesFrom hr hc' hd _).1 ht'
      have := (move_unique ho h1 h1' h2).1
      simp at this
      exact hne this
  · refine List.nodup_range.pairwise_of_forall_ne ?_
    intro r hr r' hr' hne t ht ht'
    rw [List.mem_range] at hr hr'
    simp only [List.mem_flatMap, List.mem_range] at ht ht'
    obtain ⟨c, hc, ht⟩ := ht
    obtain ⟨c', hc', ht'⟩ := ht'
    obtain ⟨q, h1, rfl⟩ := (mem_chessMovesFrom hr hc hd t).1 ht
    obtain ⟨q', h1', h2⟩ := (mem_chessMovesFrom hr' hc' hd _).1 ht'
    have := (move_unique ho h1 h1' h2).1
    simp at this
    exact hne this.1

/-! ## Names -/

theorem foldl_addName : ∀ (l acc : List Text), (acc ++ l).Nodup →
    l.foldl (fun names x => if x ∈ names then names else names ++ [x]) acc = acc ++ l
  | [], acc, _ => by simp
  | x :: l, acc, h => by
    have hx : x ∉ acc := fun hm => (List.nodup_append.1 h).2.2 x hm x List.mem_cons_self rfl
    rw [List.foldl_cons, if_neg hx, foldl_addName l (acc ++ [x]) (by simpa using h)]
    simp

/-- The name of a square. -/
def squareText (row column : ℕ) : Text := 'r' :: decimal (row + 1) ++ 'c' :: decimal (column + 1)

theorem squareText_inj {a b c d : ℕ} (h : squareText a b = squareText c d) : a = c ∧ b = d := by
  simp only [squareText, List.cons_append, List.cons.injEq, true_and] at h
  have t : ∀ a b, (decimal (a + 1) ++ 'c' :: decimal (b + 1)).takeWhile isDigit = decimal (a + 1) ∧
      (decimal (a + 1) ++ 'c' :: decimal (b + 1)).dropWhile isDigit = 'c' :: decimal (b + 1) := fun a b =>
    takeWhile_of_all (fun d hd => isDigit_of_mem_decimal (x := a + 1) hd) (by rfl)
  have h1 := (t a b).1
  have h2 := (t a b).2
  rw [h, (t c d).1] at h1
  rw [h, (t c d).2] at h2
  have h3 := decimal_injective h1
  have h4 := decimal_injective (List.cons.inj h2).2
  omega

theorem getElem?_flatMap_const {α β : Type*} {k : ℕ} {f : α → List β} : ∀ {l : List α}, (∀ a ∈ l, (f a).length = k) → ∀ {i j : ℕ}, j < k →
    (l.flatMap f)[i * k + j]? = (l[i]?).bind fun a => (f a)[j]?
  | [], _, i, j, _ => by simp
  | a :: l, h, 0, j, hj => by
    have := h a (by simp)
    simp [List.getElem?_append_left (show j < (f a).length by omega)]
  | a :: l, h, i + 1, j, hj => by
    have h1 := h a (by simp)
    rw [List.flatMap_cons, List.getElem?_append_right (by rw [h1, Nat.add_mul]; omega), h1,
      show (i + 1) * k + j - k = i * k + j by rw [Nat.add_mul]; omega,
      getElem?_flatMap_const (fun a ha => h a (List.mem_cons_of_mem _ ha)) hj]
    simp

theorem nodup_squareTexts (rows columns : ℕ) :
    ((List.range rows).flatMap fun row => (List.range columns).map fun column => squareText row column).Nodup := by
  rw [List.nodup_flatMap]
  refine ⟨fun r _ => ?_, ?_⟩
  · exact List.nodup_range.map fun c c' h => (squareText_inj h).2
  · refine List.nodup_range.pairwise_of_forall_ne ?_
    intro r _ r' _ hne t ht ht'
    simp only [List.mem_map] at ht ht'
    obtain ⟨c, -, rfl⟩ := ht
    obtain ⟨c', -, h⟩ := ht'
    exact hne (squareText_inj h).1.symm

theorem chessNames_eq (rows columns : ℕ) : chessNames rows columns =
    (List.range rows).flatMap fun row => (List.range columns).map fun column => squareText row column := by
  rw [chessNames, foldl_addName, List.nil_append]
  · rfl
  · exact nodup_squareTexts rows columns

theorem nodup_chessNames (rows columns : ℕ) : (chessNames rows columns).Nodup := by
  rw [chessNames_eq]; exact nodup_squareTexts rows columns

theorem chessNames_length (rows columns : ℕ) : (chessNames rows columns).length = rows * columns := by
  rw [chessNames_eq]; simp

theorem chessNames_get {rows columns : ℕ} (p : Square rows columns) : (chessNames rows columns)[(p.var : ℕ)]? = some (squareText p.1 p.2) := by
  rw [chessNames_eq, Square.var]
  simp only
  rw [getElem?_flatMap_const (k := columns) (fun a _ => by simp) p.2.2]
  simp

end Frobby
