import Verif.PropsGen

/-!
# C46: random data

The values of `rand()` are arbitrary.
-/

namespace Frobby

variable {n : ℕ}

theorem isIncomparable_iff (G : List (Term n)) (t : Term n) : isIncomparable G t = true ↔ ∀ g ∈ G, ¬ g ≤ t ∧ ¬ t ≤ g := by
  simp [isIncomparable]

/-- No generator divides another. -/
def Incomparable (G : List (Term n)) : Prop := G.Pairwise fun a b => ¬ a ≤ b ∧ ¬ b ≤ a

theorem Incomparable.append {G : List (Term n)} (h : Incomparable G) {t : Term n} (ht : isIncomparable G t = true) : Incomparable (G ++ [t]) := by
  rw [isIncomparable_iff] at ht
  exact List.pairwise_append.2 ⟨h, List.pairwise_singleton _ _, fun a ha b hb => by
    obtain rfl := List.mem_singleton.1 hb
    exact ht a ha⟩

/-- The candidate with a given number: `n` values in a row. -/
def candidate (rnd : ℕ → ℕ) (range : ℕ) (k : ℕ) : Term n := fun v => if range ≠ 2 ^ 64 - 1 then rnd (n * k + v) % (range + 1) else rnd (n * k + v)

theorem randomLoop_spec (rnd : ℕ → ℕ) (range : ℕ) : ∀ (tries k togo : ℕ) (G : List (Term n)), Incomparable G →
    (∀ g ∈ G, ∃ j < k, g = candidate rnd range j) → (∀ j < k, ∃ g ∈ G, g ≤ candidate rnd range j ∨ candidate rnd range j ≤ g) →
    ∃ T, k ≤ T ∧ T ≤ k + tries ∧ ∃ G' : List (Term n), ∃ togo', randomLoop rnd range tries (n * k) togo G = (G', togo') ∧ Incomparable G' ∧
      G'.length + togo' = G.length + togo ∧ (∀ g ∈ G', ∃ j < T, g = candidate rnd range j) ∧
      (∀ j < T, ∃ g ∈ G', g ≤ candidate rnd range j ∨ candidate rnd range j ≤ g) ∧ (T = k + tries ∨ togo' = 0) := by
  intro tries
  induction tries with
  | zero =>
    intro k togo G hG h1 h2
    exact ⟨k, le_rfl, by omega, G, togo, rfl, hG, rfl, h1, h2, Or.inl rfl⟩
  | succ tries ih =>
    intro k togo G hG h1 h2
    rw [randomLoop]
    by_cases h0 : togo = 0
    · rw [if_pos h0]
      exact ⟨k, le_rfl, by omega, G, togo, rfl, hG, rfl, h1, h2, Or.inr h0⟩
    rw [if_neg h0]
    have hc : (fun v : Fin n => if range ≠ 2 ^ 64 - 1 then rnd (n * k + v) % (range + 1) else rnd (n * k + v)) = candidate rnd range k := rfl
    simp only [hc]
    have hk : n * k + n = n * (k + 1) := by rw [Nat.mul_add, Nat.mul_one]
    rw [hk]
    by_cases hi : isIncomparable G (candidate rnd range k) = true
    · rw [if_pos hi]
      obtain ⟨T, g1, g2, G', togo', g3, g4, g5, g6, g7, g8⟩ := ih (k + 1) (togo - 1) (G ++ [candidate rnd range k]) (hG.append hi)
        (fun g hg => by
          rcases List.mem_append.1 hg with hg | hg
          · obtain ⟨j, hj, he⟩ := h1 g hg; exact ⟨j, by omega, he⟩
          · exact ⟨k, by omega, List.mem_singleton.1 hg⟩)
        (fun j hj => by
          by_cases hjk : j = k
          · exact ⟨candidate rnd range k, by simp, by rw [hjk]; simp⟩
          · obtain ⟨g, hg, he⟩ := h2 j (by omega); exact ⟨g, by simp [hg], he⟩)
      refine ⟨T, by omega, by omega, G', togo', g3, g4, ?_, g6, g7, by omega⟩
      rw [g5, List.length_append, List.length_singleton]
      omega
    · rw [if_neg hi]
      obtain ⟨T, g1, g2, G', togo', g3, g4, g5, g6, g7, g8⟩ := ih (k + 1) togo G hG
        (fun g hg => by obtain ⟨j, hj, he⟩ := h1 g hg; exact ⟨j, by omega, he⟩)
        (fun j hj => by
          by_cases hjk : j = k
          · rw [isIncomparable_iff] at hi
            push Not at hi
            obtain ⟨g, hg, he⟩ := hi
            refine ⟨g, hg, ?_⟩
            rw [hjk]
            by_cases hh : g ≤ candidate rnd range k
            · exact Or.inl hh
            · exact Or.inr (he hh)
          · exact h2 j (by omega))
      exact ⟨T, by omega, by omega, G', togo', g3, g4, g5, g6, g7, by omega⟩

/-- **C46.** The random ideal, whatever the random numbers: no generator divides another, there are at most as many as wanted, exactly as many if
and only if the return value says so, and the exponents are in the range. If there are fewer, then 4000000 candidates have been tried, and each is
comparable to one of the generators. -/
theorem C46_ideal (rnd : ℕ → ℕ) (range n count : ℕ) : ∃ (G : List (Term n)) (ok : Bool), randomIdeal rnd range n count = (G, ok) ∧
    G.Pairwise (fun a b => ¬ a ≤ b ∧ ¬ b ≤ a) ∧ G.length ≤ count ∧ (ok = true ↔ G.length = count) ∧
    (range < 2 ^ 64 - 1 → ∀ g ∈ G, ∀ i, g i ≤ range) ∧
    (ok = false → ∀ j < 4000000, ∃ g ∈ G, g ≤ candidate rnd range j ∨ candidate rnd range j ≤ g) := by
  obtain ⟨T, -, -, G, togo, h1, h2, h3, h4, h5, h6⟩ := randomLoop_spec (n := n) rnd range (4 * 1000 * 1000) 0 count [] List.Pairwise.nil (by simp) (by simp)
  rw [Nat.mul_zero] at h1
  simp only [List.length_nil, Nat.zero_add] at h3
  refine ⟨G, decide (togo = 0), ?_, h2, by omega, by simp only [decide_eq_true_eq]; omega, fun hr g hg i => ?_, fun hok j hj => h5 j ?_⟩
  · rw [randomIdeal, h1]
  · obtain ⟨j, -, rfl⟩ := h4 g hg
    simp only [candidate]
    rw [if_pos (by omega)]
    have := Nat.mod_lt (rnd (n * j + i)) (show 0 < range + 1 by omega)
    omega
  · simp only [decide_eq_false_iff_not] at hok
    omega

/-- One try is enough for one generator. -/
example : randomIdeal (fun i => i + 12) 9 2 1 = ([![2, 3]], true) := by
  have key : ∀ T, randomLoop (n := 2) (fun i => i + 12) 9 (T + 2) 0 1 [] = ([![2, 3]], 0) := by
    intro T
    rw [randomLoop, if_neg (by omega)]
    simp only [isIncomparable, List.all_nil, if_true]
    rw [randomLoop, if_pos (by omega)]
    refine Prod.ext ?_ rfl
    simp only [List.nil_append, List.cons.injEq, and_true]
    decide
  rw [randomIdeal, show 4 * 1000 * 1000 = 3999998 + 2 by norm_num, key]
  rfl

/-! ## Edge ideals -/

/-- **C46, the part that holds.** If the random edge ideal is finished, then the generators are products of two different variables, each once, and
there are as many as wanted if and only if the return value says so. Missing: it need not be finished, see `C46_edge_runs_on`. -/
theorem C46_edge_partial {fuel : ℕ} {rnd : ℕ → ℕ} {n count : ℕ} {G : List (Term n)} {ok : Bool} (h : randomEdgeIdeal fuel rnd n count = some (G, ok)) :
    MinimalGens G ∧ (∀ g ∈ G, ∃ i j : Fin n, i ≠ j ∧ g = productOfVars {i, j}) ∧ G.length ≤ count ∧ (ok = true ↔ G.length = count) := by
  have key : ∀ (fuel triesLeft calls togo : ℕ) (G G' : List (Term n)) (togo' : ℕ), Incomparable G →
      (∀ g ∈ G, ∃ i j : Fin n, i ≠ j ∧ g = productOfVars {i, j}) → edgeLoop rnd fuel triesLeft calls togo G = some (G', togo') →
      Incomparable G' ∧ (∀ g ∈ G', ∃ i j : Fin n, i ≠ j ∧ g = productOfVars {i, j}) ∧ G'.length + togo' = G.length + togo := by
    intro fuel
    induction fuel with
    | zero => intro _ _ _ _ _ _ _ _ h; simp [edgeLoop] at h
    | succ fuel ih =>
      intro tries calls togo G G' togo' hG hE h
      rw [edgeLoop] at h
      by_cases h1 : togo > 0 ∧ tries > 0
      · rw [if_pos h1] at h
        by_cases hn : n = 0
        · simp [hn] at h
        rw [if_neg hn] at h
        simp only at h
        by_cases hab : rnd calls % n = rnd (calls + 1) % n
        · rw [if_pos hab] at h
          exact ih _ _ _ _ _ _ hG hE h
        rw [if_neg hab] at h
        by_cases hi : isIncomparable G (setOnes [rnd calls % n, rnd (calls + 1) % n]) = true
        · rw [if_pos hi] at h
          obtain ⟨g1, g2, g3⟩ := ih _ _ _ _ _ _ (hG.append hi) (fun g hg => by
            rcases List.mem_append.1 hg with hg | hg
            · exact hE g hg
            · refine ⟨⟨rnd calls % n, Nat.mod_lt _ (by omega)⟩, ⟨rnd (calls + 1) % n, Nat.mod_lt _ (by omega)⟩, ?_, ?_⟩
              · simpa [Fin.ext_iff] using hab
              · rw [List.mem_singleton.1 hg]; exact setOnes_pair _ _) h
          refine ⟨g1, g2, ?_⟩
          rw [g3, List.length_append, List.length_singleton]
          omega
        · rw [if_neg hi] at h
          exact ih _ _ _ _ _ _ hG hE h
      · rw [if_neg h1] at h
        simp only [Option.some.injEq, Prod.mk.injEq] at h
        rw [← h.1, ← h.2]
        exact ⟨hG, hE, rfl⟩
  rw [randomEdgeIdeal, Option.map_eq_some_iff] at h
  obtain ⟨⟨G', togo'⟩, h, he⟩ := h
  simp only [Prod.mk.injEq] at he
  obtain ⟨rfl, rfl⟩ := he
  obtain ⟨g1, g2, g3⟩ := key _ _ _ _ _ _ _ List.Pairwise.nil (by simp) h
  simp only [List.length_nil, Nat.zero_add] at g3
  refine ⟨minimal_of_card (k := 2) (g1.imp fun h he => h.1 he.le) fun g hg => ?_, g2, by omega, by simp only [decide_eq_true_eq]; omega⟩
  obtain ⟨i, j, hij, rfl⟩ := g2 g hg
  exact ⟨_, Finset.card_pair hij, rfl⟩

/-- Two edges in three variables. -/
example : randomEdgeIdeal 10 (fun i => i) 3 2 = some ([![1, 1, 0], ![1, 0, 1]], true) := by decide +kernel

/-- **C46.** If the two variables are always different, the random edge ideal is finished after at most 2000000 tries. -/
theorem C46_edge_stops_partial {rnd : ℕ → ℕ} {n : ℕ} (hn : 0 < n) (h : ∀ k, rnd (2 * k) % n ≠ rnd (2 * k + 1) % n) (count : ℕ) :
    ∃ r, randomEdgeIdeal 2000001 rnd n count = some r := by
  have key : ∀ (k calls togo : ℕ) (G : List (Term n)), k < 2 ^ 62 → ∃ r, edgeLoop rnd (k + 1) (2 * k) (2 * calls) togo G = some r := by
    intro k
    induction k with
    | zero => intro calls togo G _; exact ⟨_, by rw [edgeLoop, if_neg (by omega)]⟩
    | succ k ih =>
      intro calls togo G hk
      rw [edgeLoop]
      by_cases h1 : togo > 0 ∧ 2 * (k + 1) > 0
      · rw [if_pos h1, if_neg (by omega)]
        simp only
        rw [if_neg (h calls), show (2 * (k + 1) - 1 + (2 ^ 64 - 1)) % 2 ^ 64 = 2 * k by omega, show 2 * calls + 2 = 2 * (calls + 1) by ring]
        split
        · exact ih _ _ _ (by omega)
        · exact ih _ _ _ (by omega)
      · rw [if_neg h1]; exact ⟨_, rfl⟩
  obtain ⟨r, hr⟩ := key 2000000 0 count [] (by norm_num)
  rw [Nat.mul_zero] at hr
  rw [randomEdgeIdeal, show (4 * 1000 * 1000 : ℕ) = 2 * 2000000 by norm_num]
  exact ⟨_, by rw [hr]; rfl⟩

/-- A pair of equal variables, and then always the same pair of different ones. -/
def evilRandom (i : ℕ) : ℕ := if i < 2 then 0 else i % 2

theorem edgeLoop_evil : ∀ (fuel calls triesLeft : ℕ) (G : List (Term 2)), ¬ isIncomparable G (setOnes [0, 1]) = true → triesLeft % 2 = 1 →
    triesLeft < 2 ^ 64 → 0 < calls → fuel ≤ 2 ^ 64 → edgeLoop evilRandom fuel triesLeft (2 * calls) 1 G = none := by
  intro fuel
  induction fuel with
  | zero => intros; rfl
  | succ fuel ih =>
    intro calls tries G hG h1 h2 h3 h4
    rw [edgeLoop, if_pos (by omega), if_neg (by omega)]
    have e1 : evilRandom (2 * calls) % 2 = 0 := by rw [evilRandom, if_neg (by omega)]; omega
    have e2 : evilRandom (2 * calls + 1) % 2 = 1 := by rw [evilRandom, if_neg (by omega)]; omega
    simp only [e1, e2]
    rw [if_neg (by omega), if_neg hG, show 2 * calls + 2 = 2 * (calls + 1) by ring]
    exact ih _ _ _ hG (by omega) (by omega) (by omega) (by omega)

/-- **C46, negated.** The number of tries of the random edge ideal is not limited to 4000000: `triesLeft` is decremented twice in one iteration, and
so it can go below zero and wrap around. Here the second of two edges in two variables is looked for in 2 ^ 63 tries at least. -/
theorem C46_edge_runs_on : ∃ (rnd : ℕ → ℕ), ∀ fuel ≤ 2 ^ 63, randomEdgeIdeal fuel rnd 2 2 = none := by
  refine ⟨evilRandom, fun fuel hf => ?_⟩
  rw [randomEdgeIdeal, Option.map_eq_none_iff]
  cases fuel with
  | zero => rfl
  | succ fuel =>
    rw [edgeLoop, if_pos (by omega), if_neg (by omega)]
    simp only [show evilRandom 0 = 0 from rfl, show evilRandom (0 + 1) = 0 from rfl, if_true]
    cases fuel with
    | zero => rfl
    | succ fuel =>
      rw [edgeLoop, if_pos (by omega), if_neg (by omega)]
      simp only [show evilRandom (0 + 2) = 0 from rfl, show evilRandom (0 + 2 + 1) = 1 from rfl]
      rw [if_neg (by omega), if_pos (by simp [isIncomparable])]
      refine edgeLoop_evil fuel 2 _ _ ?_ ?_ ?_ (by omega) (by omega)
      · simp [isIncomparable]
      · norm_num
      · norm_num

/-- **C46.** With no variables, the random edge ideal divides by zero. -/
theorem C46_edge_no_variables (fuel : ℕ) (rnd : ℕ → ℕ) {count : ℕ} (h : 0 < count) : randomEdgeIdeal fuel rnd 0 count = none := by
  rw [randomEdgeIdeal, Option.map_eq_none_iff]
  cases fuel with
  | zero => rfl
  | succ fuel => rw [edgeLoop, if_pos (by omega), if_pos rfl]

/-! ## Frobenius instances -/

/-- **C46, the part that holds.** The random Frobenius instance is sorted, it has as many numbers as wanted, and they are positive and at most as large
as wanted. They have no common divisor if the random numbers have none, or if there is only one. Missing: see `C46_frobenius_common_divisor`. -/
theorem C46_frobenius_partial {random : List ℤ} {maxEntry : ℤ} (h : ∀ x ∈ random, 1 ≤ x ∧ x ≤ maxEntry) :
    (generateFrobenius random).Pairwise (· ≤ ·) ∧ (generateFrobenius random).length = random.length ∧
    (∀ x ∈ generateFrobenius random, 1 ≤ x ∧ x ≤ maxEntry) ∧
    ((∀ d : ℤ, (∀ x ∈ random, d ∣ x) → IsUnit d) ∨ random.length = 1 → ∀ d : ℤ, (∀ x ∈ generateFrobenius random, d ∣ x) → IsUnit d) := by
  cases random with
  | nil => simp [generateFrobenius]
  | cons x l =>
    have hp := List.perm_insertionSort (· ≤ ·) (x / gcdLoop (x :: l) :: l)
    obtain ⟨hg, hgl, hgd⟩ := gcdLoop_dvd l x
    have hg' : gcdLoop (x :: l) ∣ x := hg
    have hx := h x (by simp)
    have hpos : 0 < gcdLoop (x :: l) := by
      have h0 : 0 ≤ gcdLoop (x :: l) := by
        simp only [gcdLoop]
        have : ∀ (l : List ℤ) (g : ℤ), 0 ≤ g → 0 ≤ l.foldl (fun g y => (Int.gcd g y : ℤ)) g := by
          intro l
          induction l with
          | nil => intro g hg; exact hg
          | cons y l ih => intro g _; exact ih _ (Int.natCast_nonneg _)
        exact this l x (by omega)
      rcases h0.lt_or_eq with h0 | h0
      · exact h0
      · rw [← h0, zero_dvd_iff] at hg'
        omega
    have hdiv : 1 ≤ x / gcdLoop (x :: l) ∧ x / gcdLoop (x :: l) ≤ maxEntry := by
      obtain ⟨q, hq⟩ := hg'
      have : x / gcdLoop (x :: l) = q := Int.ediv_eq_of_eq_mul_right hpos.ne' hq
      rw [this]
      constructor <;> nlinarith
    refine ⟨List.pairwise_insertionSort _ _, hp.length_eq.trans (by simp), fun y hy => ?_, fun hc d hd => ?_⟩
    · rcases List.mem_cons.1 (hp.mem_iff.1 hy) with rfl | hy
      · exact hdiv
      · exact h y (by simp [hy])
    · have hd' : ∀ y ∈ x / gcdLoop (x :: l) :: l, d ∣ y := fun y hy => hd y (hp.mem_iff.2 hy)
      rcases hc with hc | hc
      · refine hc d fun y hy => ?_
        rcases List.mem_cons.1 hy with rfl | hy
        · exact (hd' _ List.mem_cons_self).trans (Int.ediv_dvd_of_dvd hg')
        · exact hd' y (by simp [hy])
      · obtain rfl : l = [] := List.eq_nil_of_length_eq_zero (by simpa using hc)
        have := hd' _ List.mem_cons_self
        simp only [gcdLoop, List.foldl_nil] at this
        rw [Int.ediv_self (by omega)] at this
        exact isUnit_of_dvd_one this

/-- **C46, negated.** The random Frobenius instance can have a common divisor: only the first number is divided by the common divisor of all. -/
theorem C46_frobenius_common_divisor : generateFrobenius [4, 6] = [2, 6] ∧ acceptsInstance (generateFrobenius [4, 6]) = false := by decide +kernel

end Frobby
