import Verif.RsfLoops

/-!
# Counting the generators that each variable divides
-/

namespace Frobby

/-- The number whose digits to the base 16 are the first `n` values of `f`. -/
def nib (f : ℕ → ℕ) : ℕ → ℕ
  | 0 => 0
  | n + 1 => f 0 + 16 * nib (fun j => f (j + 1)) n

theorem nib_add (n : ℕ) : ∀ f g : ℕ → ℕ, nib f n + nib g n = nib (fun j => f j + g j) n := by
  induction n with
  | zero => intro f g; rfl
  | succ n ih =>
    intro f g
    simp only [nib, ← ih]
    omega

theorem nib_lt (n : ℕ) : ∀ f : ℕ → ℕ, (∀ j, f j ≤ 15) → nib f n < 16 ^ n := by
  induction n with
  | zero => intro f _; simp [nib]
  | succ n ih =>
    intro f h
    have := ih (fun j => f (j + 1)) fun j => h _
    have := h 0
    simp only [nib]
    rw [Nat.pow_succ]
    omega

theorem and_nib (n : ℕ) : ∀ x : ℕ, x &&& nib (fun _ => 1) n = nib (fun j => (x.testBit (4 * j)).toNat) n := by
  induction n with
  | zero => intro x; simp [nib]
  | succ n ih =>
    intro x
    simp only [nib]
    have h1 : (x &&& (1 + 16 * nib (fun _ => 1) n)) / 2 ^ 4 = x / 2 ^ 4 &&& nib (fun _ => 1) n := by
      rw [Nat.and_div_two_pow]
      congr 1
      omega
    have h2 : (x &&& (1 + 16 * nib (fun _ => 1) n)) % 2 ^ 4 = (x.testBit 0).toNat := by
      rw [Nat.and_mod_two_pow]
      have : (1 + 16 * nib (fun _ => 1) n) % 2 ^ 4 = 1 := by omega
      rw [this, Nat.and_one_is_mod, Nat.testBit_zero]
      have h3 : x % 2 ^ 4 % 2 = x % 2 := by omega
      rw [h3]
      rcases Nat.mod_two_eq_zero_or_one x with h | h <;> rw [h] <;> rfl
    rw [ih] at h1
    have h4 : ∀ j, x.testBit (4 * (j + 1)) = (x / 2 ^ 4).testBit (4 * j) := by
      intro j
      rw [Nat.testBit_div_two_pow]
      congr 1
    simp only [h4, Nat.mul_zero]
    rw [← h1, ← h2]
    omega

theorem nibbleMask_toNat : nibbleMask.toNat = nib (fun _ => 1) 16 := by decide

/-- The digits of the four sums are the values of `f`. -/
structure SumsAre (s : Sums) (f : ℕ → ℕ) : Prop where
  a0 : s.a0.toNat = nib (fun j => f (4 * j)) 16
  a1 : s.a1.toNat = nib (fun j => f (4 * j + 1)) 16
  a2 : s.a2.toNat = nib (fun j => f (4 * j + 2)) 16
  a3 : s.a3.toNat = nib (fun j => f (4 * j + 3)) 16

theorem part_toNat (a : Word) (i : ℕ) :
    (a >>> i &&& nibbleMask).toNat = nib (fun j => (a.getLsbD (4 * j + i)).toNat) 16 := by
  rw [BitVec.toNat_and, nibbleMask_toNat, and_nib, BitVec.toNat_ushiftRight]
  congr 1
  funext j
  rw [Nat.testBit_shiftRight, ← BitVec.testBit_toNat, Nat.add_comm]

theorem part_toNat0 (a : Word) : (a &&& nibbleMask).toNat = nib (fun j => (a.getLsbD (4 * j)).toNat) 16 := by
  have := part_toNat a 0
  simpa using this

theorem sum_toNat {x y : Word} {f g : ℕ → ℕ} (hx : x.toNat = nib f 16) (hy : y.toNat = nib g 16) (h : ∀ j, f j + g j ≤ 15) :
    (x + y).toNat = nib (fun j => f j + g j) 16 := by
  rw [BitVec.toNat_add, hx, hy, nib_add]
  exact Nat.mod_eq_of_lt (lt_of_lt_of_eq (nib_lt 16 _ h) (by decide))

theorem SumsAre.add {s : Sums} {f : ℕ → ℕ} (hs : SumsAre s f) (hf : ∀ k, f k ≤ 14) (a : Word) :
    SumsAre (s.add a) fun k => f k + (a.getLsbD k).toNat := by
  have hb : ∀ k, (a.getLsbD k).toNat ≤ 1 := fun k => Bool.toNat_le _
  have hle : ∀ k, f k + (a.getLsbD k).toNat ≤ 15 := fun k => by have := hf k; have := hb k; omega
  exact ⟨sum_toNat hs.a0 (part_toNat0 a) fun j => hle _, sum_toNat hs.a1 (part_toNat a 1) fun j => hle _,
    sum_toNat hs.a2 (part_toNat a 2) fun j => hle _, sum_toNat hs.a3 (part_toNat a 3) fun j => hle _⟩

theorem countP_toNat (ws : List Word) (a : Word) (k : ℕ) :
    (a :: ws).countP (fun w => w.getLsbD k) = (a.getLsbD k).toNat + ws.countP fun w => w.getLsbD k := by
  rw [List.countP_cons]
  cases a.getLsbD k <;> simp [Nat.add_comm]

theorem sumPairs_spec {mem : List Word} {W : ℕ} : ∀ (n : ℕ) (ws : List Word) (it m : ℕ) (s : Sums) (f : ℕ → ℕ),
    ws.length = 2 * n → (∀ k (h : k < ws.length), mem[it + W * k]? = some ws[k]) → SumsAre s f → (∀ k, f k ≤ m) →
    m + ws.length ≤ 15 →
    ∃ s', sumPairs mem W it s n = some s' ∧ SumsAre s' fun k => f k + ws.countP fun w => w.getLsbD k := by
  intro n
  induction n with
  | zero =>
    intro ws it m s f hl _ hs _ _
    obtain rfl := List.length_eq_zero_iff.1 (by omega : ws.length = 0)
    exact ⟨s, rfl, by simpa using hs⟩
  | succ n ih =>
    intro ws it m s f hl hmem hs hf hm
    match ws, hl with
    | a :: aa :: ws, hl =>
      have ha := hmem 0 (by simp)
      have haa := hmem 1 (by simp)
      simp only [Nat.mul_zero, Nat.add_zero, List.getElem_cons_zero] at ha
      simp only [Nat.mul_one, List.getElem_cons_succ, List.getElem_cons_zero] at haa
      simp only [List.length_cons] at hl hm
      have hb : ∀ (w : Word) k, (w.getLsbD k).toNat ≤ 1 := fun w k => Bool.toNat_le _
      obtain ⟨s', h1, h2⟩ := ih ws (it + W + W) (m + 2) ((s.add a).add aa)
        (fun k => f k + (a.getLsbD k).toNat + (aa.getLsbD k).toNat) (by omega)
        (fun k hk => by
          have := hmem (k + 2) (by simp; omega)
          rw [Nat.mul_add] at this
          rw [show it + W + W + W * k = it + (W * k + W * 2) by omega]
          simpa using this)
        ((hs.add (fun k => by have := hf k; omega) a).add (fun k => by have := hf k; have := hb a k; omega) aa)
        (fun k => by have := hf k; have := hb a k; have := hb aa k; omega) (by omega)
      refine ⟨s', ?_, ?_⟩
      · rw [sumPairs, ha, haa]
        exact h1
      · simp only [countP_toNat]
        simpa only [Nat.add_assoc] using h2

theorem nib_digit {x : Word} {f : ℕ → ℕ} {n : ℕ} (h : x.toNat = nib f (n + 1)) (hf : ∀ j, f j ≤ 15) :
    (x &&& 0xF).toNat = f 0 ∧ (x >>> 4).toNat = nib (fun j => f (j + 1)) n := by
  have h0 := hf 0
  constructor
  · rw [BitVec.toNat_and, h]
    have : (0xF : Word).toNat = 2 ^ 4 - 1 := by decide
    rw [this, Nat.and_two_pow_sub_one_eq_mod]
    simp only [nib]
    omega
  · rw [BitVec.toNat_ushiftRight, h, Nat.shiftRight_eq_div_pow]
    simp only [nib]
    omega

theorem addNibbles_spec : ∀ (n : ℕ) (s : Sums) (f : ℕ → ℕ) (counts : List ℕ), 4 * n ≤ counts.length → (∀ k, f k ≤ 15) →
    s.a0.toNat = nib (fun j => f (4 * j)) n → s.a1.toNat = nib (fun j => f (4 * j + 1)) n →
    s.a2.toNat = nib (fun j => f (4 * j + 2)) n → s.a3.toNat = nib (fun j => f (4 * j + 3)) n →
    ∃ c, addNibbles s counts n = some c ∧ c.length = counts.length ∧
      ∀ k, c.getD k 0 = counts.getD k 0 + if k < 4 * n then f k else 0 := by
  intro n
  induction n with
  | zero => intro s f counts _ _ _ _ _ _; exact ⟨counts, by rw [addNibbles], rfl, fun k => by simp⟩
  | succ n ih =>
    intro s f counts hl hf h0 h1 h2 h3
    match counts, hl with
    | c0 :: c1 :: c2 :: c3 :: counts, hl =>
      obtain ⟨d0, e0⟩ := nib_digit h0 fun j => hf _
      obtain ⟨d1, e1⟩ := nib_digit h1 fun j => hf _
      obtain ⟨d2, e2⟩ := nib_digit h2 fun j => hf _
      obtain ⟨d3, e3⟩ := nib_digit h3 fun j => hf _
      obtain ⟨c, hc, hcl, hck⟩ := ih ⟨s.a0 >>> 4, s.a1 >>> 4, s.a2 >>> 4, s.a3 >>> 4⟩ (fun k => f (k + 4)) counts
        (by simp only [List.length_cons] at hl; omega) (fun k => hf _) e0 e1 e2 e3
      refine ⟨_, by rw [addNibbles, hc]; rfl, by simp [hcl], fun k => ?_⟩
      rw [d0, d1, d2, d3]
      match k with
      | 0 => rw [if_pos (by omega)]; rfl
      | 1 => rw [if_pos (by omega)]; rfl
      | 2 => rw [if_pos (by omega)]; rfl
      | 3 => rw [if_pos (by omega)]; rfl
      | k + 4 =>
        have := hck k
        simp only [List.getD_cons_succ, this]
        congr 1
        by_cases hk : k < 4 * n
        · rw [if_pos hk, if_pos (by omega)]
        · rw [if_neg hk, if_neg (by omega)]

theorem sums_start (a : Word) :
    SumsAre ⟨a &&& nibbleMask, a >>> 1 &&& nibbleMask, a >>> 2 &&& nibbleMask, a >>> 3 &&& nibbleMask⟩
      fun k => (a.getLsbD k).toNat :=
  ⟨part_toNat0 a, part_toNat a 1, part_toNat a 2, part_toNat a 3⟩

theorem countBlock_spec {mem : List Word} {W it : ℕ} {ws : List Word} (h15 : ws.length ≤ 15)
    (hmem : ∀ k (h : k < ws.length), mem[it + W * k]? = some ws[k]) {counts : List ℕ} (hl : 64 ≤ counts.length) :
    ∃ c, countBlock mem it ws.length W counts = some c ∧ c.length = counts.length ∧
      ∀ k, c.getD k 0 = counts.getD k 0 + if k < 64 then ws.countP (fun w => w.getLsbD k) else 0 := by
  have fin : ∀ s, SumsAre s (fun k => ws.countP fun w => w.getLsbD k) →
      ∃ c, addNibbles s counts (bitsPerWord / 4) = some c ∧ c.length = counts.length ∧
      ∀ k, c.getD k 0 = counts.getD k 0 + if k < 64 then ws.countP (fun w => w.getLsbD k) else 0 := by
    intro s hs
    exact addNibbles_spec 16 s _ counts (by omega) (fun k => List.countP_le_length.trans h15) hs.a0 hs.a1 hs.a2 hs.a3
  unfold countBlock
  by_cases hodd : ws.length % 2 = 1
  · rw [if_pos hodd]
    match ws, h15, hmem, hodd, fin with
    | a :: ws, h15, hmem, hodd, fin =>
      have ha := hmem 0 (by simp)
      simp only [Nat.mul_zero, Nat.add_zero, List.getElem_cons_zero] at ha
      simp only [List.length_cons] at hodd h15
      obtain ⟨s, h1, h2⟩ := sumPairs_spec (mem := mem) (W := W) ((ws.length + 1) / 2) ws (it + W) 1 _ _ (by omega)
        (fun k hk => by
          have := hmem (k + 1) (by simp; omega)
          rw [Nat.mul_succ] at this
          rw [show it + W + W * k = it + (W * k + W) by omega]
          simpa using this) (sums_start a) (fun k => Bool.toNat_le _) (by omega)
      simp only [ha]
      rw [List.length_cons, h1]
      refine fin s ?_
      simpa only [countP_toNat] using h2
  · rw [if_neg hodd]
    obtain ⟨s, h1, h2⟩ := sumPairs_spec (mem := mem) (W := W) (ws.length / 2) ws it 0 ⟨0, 0, 0, 0⟩ (fun _ => 0) (by omega) hmem
      ⟨by decide, by decide, by decide, by decide⟩ (fun _ => Nat.le_refl _) (by omega)
    rw [h1]
    refine fin s ?_
    simpa using h2

/-- The counts after the terms in `L` were added. -/
theorem countWords_spec {mem : List Word} {W b : ℕ} {L : List (List Word)} (h15 : L.length ≤ 15)
    (hL : ∀ k (h : k < L.length), termAt W mem (b + k) = some L[k]) : ∀ (n o : ℕ) (counts : List ℕ), o + n = W →
    64 * n ≤ counts.length →
    ∃ c, countWords mem (W * b + o) L.length W counts n = some c ∧ c.length = counts.length ∧
      ∀ v, c.getD v 0 = counts.getD v 0 + if v < 64 * n then L.countP (fun a => bitOf a (64 * o + v)) else 0 := by
  intro n
  induction n with
  | zero => intro o counts _ _; exact ⟨counts, rfl, rfl, fun v => by simp⟩
  | succ n ih =>
    intro o counts ho hl
    have hword : ∀ k (h : k < (L.map fun a => a.getD o 0).length),
        mem[W * b + o + W * k]? = some (L.map fun a => a.getD o 0)[k] := by
      intro k hk
      rw [List.length_map] at hk
      have h1 := hL k hk
      have hlen := termAt_length h1
      have h2 := getElem?_readWords h1 o
      rw [if_pos (by omega), List.getElem?_eq_getElem (show o < L[k].length by omega)] at h2
      rw [List.getElem_map, List.getD_eq_getElem?_getD, List.getElem?_eq_getElem (show o < L[k].length by omega),
        show W * b + o + W * k = W * (b + k) + o by rw [Nat.mul_add]; omega, ← h2]
      rfl
    obtain ⟨c1, h1, h1l, h1c⟩ := countBlock_spec (W := W) (by simpa using h15) hword (counts := counts) (by omega)
    rw [List.length_map] at h1
    obtain ⟨c2, h2, h2l, h2c⟩ := ih (o + 1) (c1.drop 64) (by omega) (by rw [List.length_drop]; omega)
    refine ⟨c1.take 64 ++ c2, ?_, ?_, fun v => ?_⟩
    · rw [countWords, h1]
      simp only
      change Option.map (c1.take 64 ++ ·) (countWords mem (W * b + o + 1) L.length W (c1.drop 64) n) = _
      rw [Nat.add_assoc, h2]
      rfl
    · rw [List.length_append, List.length_take, h2l, List.length_drop]
      omega
    · have hcount : ∀ v, v < 64 → (L.map fun a => a.getD o 0).countP (fun w => w.getLsbD v) =
          L.countP fun a => bitOf a (64 * o + v) := by
        intro v hv
        rw [List.countP_map]
        congr 1
        funext a
        simp only [Function.comp, bitOf]
        rw [show (64 * o + v) / 64 = o by omega, show (64 * o + v) % 64 = v by omega]
      have h1v := h1c v
      rw [List.getD_eq_getElem?_getD, List.getElem?_append]
      have htl : (c1.take 64).length = 64 := by rw [List.length_take]; omega
      rw [htl]
      by_cases hv : v < 64
      · rw [if_pos hv, List.getElem?_take_of_lt hv, ← List.getD_eq_getElem?_getD, h1v, if_pos hv, if_pos (by omega), hcount v hv]
      · rw [if_neg hv, ← List.getD_eq_getElem?_getD, h2c]
        rw [if_neg hv, Nat.add_zero] at h1v
        rw [List.getD_eq_getElem?_getD, List.getElem?_drop, ← List.getD_eq_getElem?_getD,
          show 64 + (v - 64) = v by omega, h1v]
        congr 1
        by_cases hvn : v < 64 * (n + 1)
        · rw [if_pos hvn, if_pos (by omega), show 64 * (o + 1) + (v - 64) = 64 * o + v by omega]
        · rw [if_neg hvn, if_neg (by omega)]

theorem countBlocks_spec {mem : List Word} {W : ℕ} (n : ℕ) : ∀ (b : ℕ) (L : List (List Word)) (counts : List ℕ), L.length = n →
    (∀ k (h : k < L.length), termAt W mem (b + k) = some L[k]) → 64 * W ≤ counts.length →
    ∃ c, countBlocks mem W b counts n = some c ∧ c.length = counts.length ∧
      ∀ v, c.getD v 0 = counts.getD v 0 + if v < 64 * W then L.countP (fun a => bitOf a v) else 0 := by
  induction n using Nat.strongRecOn with
  | _ n ih =>
    intro b L counts hn hL hl
    rw [countBlocks]
    by_cases h0 : n > 0
    · rw [if_pos h0]
      simp only
      generalize hbs : (if n ≥ 15 then 15 else n) = bs
      have hbs1 : bs ≤ 15 := by rw [← hbs]; split <;> omega
      have hbs2 : bs ≤ n := by rw [← hbs]; split <;> omega
      have hbs3 : 0 < bs := by rw [← hbs]; split <;> omega
      have htl : (L.take bs).length = bs := by rw [List.length_take]; omega
      obtain ⟨c1, h1, l1, v1⟩ := countWords_spec (mem := mem) (W := W) (b := b) (L := L.take bs) (by omega)
        (fun k hk => by
          have := hL k (by omega)
          rw [List.getElem_take]
          exact this) W 0 counts (by omega) hl
      rw [htl, Nat.add_zero] at h1
      rw [h1]
      obtain ⟨c2, h2, l2, v2⟩ := ih (n - bs) (by omega) (b + bs) (L.drop bs) c1 (by rw [List.length_drop]; omega)
        (fun k hk => by
          rw [List.length_drop] at hk
          have := hL (bs + k) (by omega)
          rw [List.getElem_drop, Nat.add_assoc]
          exact this) (by omega)
      refine ⟨c2, h2, l2.trans l1, fun v => ?_⟩
      rw [v2, v1, Nat.add_assoc]
      congr 1
      have hsum : L.countP (fun a => bitOf a v) = (L.take bs).countP (fun a => bitOf a v) + (L.drop bs).countP fun a => bitOf a v := by
        rw [← List.countP_append, List.take_append_drop]
      simp only [Nat.mul_zero, Nat.zero_add]
      by_cases hv : v < 64 * W
      · rw [if_pos hv, if_pos hv, if_pos hv, hsum]
      · rw [if_neg hv, if_neg hv, if_neg hv]
    · rw [if_neg h0]
      obtain rfl := List.length_eq_zero_iff.1 (by omega : L.length = 0)
      exact ⟨counts, rfl, rfl, fun v => by simp⟩

/-- The words of the terms. -/
theorem Holds.terms_list {V : ℕ} {r : RsfIdeal} {gens : List (Finset ℕ)} (h : Holds r V gens) :
    ∃ L : List (List Word), L.length = gens.length ∧ (∀ k (h : k < L.length), termAt r.wordsPerTerm r.memory k = some L[k]) ∧
      List.Forall₂ (Packs V) L gens := by
  have main : ∀ (gens : List (Finset ℕ)) (i : ℕ), Along (Packs V) r.wordsPerTerm r.memory i gens →
      ∃ L : List (List Word), L.length = gens.length ∧
        (∀ k (h : k < L.length), termAt r.wordsPerTerm r.memory (i + k) = some L[k]) ∧ List.Forall₂ (Packs V) L gens := by
    intro gens
    induction gens with
    | nil => intro i _; exact ⟨[], rfl, fun k hk => absurd hk (by simp), .nil⟩
    | cons s gens ih =>
      intro i hA
      obtain ⟨⟨a, ha, hs⟩, hA⟩ := hA
      obtain ⟨L, h1, h2, h3⟩ := ih (i + 1) hA
      refine ⟨a :: L, by simp [h1], fun k hk => ?_, .cons hs h3⟩
      cases k with
      | zero => exact ha
      | succ k =>
        have := h2 k (by simpa using hk)
        rw [show i + (k + 1) = i + 1 + k by omega, this]
        rfl
  obtain ⟨L, h1, h2, h3⟩ := main gens 0 h.along
  exact ⟨L, h1, fun k hk => by have := h2 k hk; rwa [Nat.zero_add] at this, h3⟩

theorem countP_bits {V v : ℕ} {L : List (List Word)} {gens : List (Finset ℕ)} (h : List.Forall₂ (Packs V) L gens) :
    L.countP (fun a => bitOf a v) = gens.countP fun g => decide (v ∈ g) := by
  induction h with
  | nil => rfl
  | cons hab _ ih => rw [List.countP_cons, List.countP_cons, ih, hab.bitOf_eq]

theorem varDividesCounts_spec {V : ℕ} {r : RsfIdeal} {gens : List (Finset ℕ)} (h : Holds r V gens) {junk : List ℕ}
    (hj : junk.length = 64) :
    r.varDividesCounts junk = some ((List.range V).map fun v => gens.countP fun g => decide (v ∈ g)) := by
  obtain ⟨h1, h2, h3, _⟩ := holds_iff.1 h
  obtain ⟨L, hL1, hL2, hL3⟩ := h.terms_list
  have hW : V ≤ 64 * r.wordsPerTerm ∧ 64 * r.wordsPerTerm ≤ V + 64 := by
    rw [h2, wordCount_eq]
    omega
  obtain ⟨c, hc, hcl, hcv⟩ := countBlocks_spec (mem := r.memory) (W := r.wordsPerTerm) gens.length 0 L (List.replicate V 0 ++ junk)
    hL1 (fun k hk => by rw [Nat.zero_add]; exact hL2 k hk) (by simp; omega)
  unfold RsfIdeal.varDividesCounts
  rw [h3, h1, hc]
  simp only [Option.map_some, Option.some.injEq]
  rw [List.length_append, List.length_replicate, hj] at hcl
  refine List.ext_getElem (by simp; omega) fun v hv1 hv2 => ?_
  rw [List.length_map, List.length_range] at hv2
  have := hcv v
  rw [if_pos (by omega), List.getD_eq_getElem?_getD, List.getElem?_eq_getElem (by omega), List.getD_eq_getElem?_getD,
    List.getElem?_append_left (by simpa using hv2), List.getElem?_replicate, if_pos hv2, countP_bits hL3] at this
  simpa using this

end Frobby
