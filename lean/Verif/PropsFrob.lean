import Verif.FrobModel
import Mathlib.NumberTheory.FrobeniusNumber
import Mathlib.Tactic.IntervalCases

/-!
# C31: Frobenius numbers

The specification is Mathlib's `FrobeniusNumber`: the largest natural number that is not a sum of the given numbers.
-/

namespace Frobby

theorem gcdLoop_dvd : ∀ (l : List ℤ) (g : ℤ), l.foldl (fun g y => (Int.gcd g y : ℤ)) g ∣ g ∧
    (∀ y ∈ l, l.foldl (fun g y => (Int.gcd g y : ℤ)) g ∣ y) ∧
    ∀ d : ℤ, d ∣ g → (∀ y ∈ l, d ∣ y) → d ∣ l.foldl (fun g y => (Int.gcd g y : ℤ)) g := by
  intro l
  induction l with
  | nil => intro g; simp
  | cons x l ih =>
    intro g
    rw [List.foldl_cons]
    obtain ⟨h1, h2, h3⟩ := ih (Int.gcd g x : ℤ)
    refine ⟨h1.trans (Int.gcd_dvd_left ..), fun y hy => ?_, fun d hd hy => ?_⟩
    · rcases List.mem_cons.1 hy with rfl | hy
      · exact h1.trans (Int.gcd_dvd_right ..)
      · exact h2 y hy
    · exact h3 d (Int.dvd_coe_gcd hd (hy x (by simp))) fun y hy' => hy y (by simp [hy'])

/-- What is accepted: nonempty lists of numbers greater than 1 without a common divisor. -/
theorem acceptsInstance_iff (l : List ℤ) : acceptsInstance l = true ↔
    ∃ A : List ℕ, l = A.map Int.ofNat ∧ (∀ a ∈ A, 1 < a) ∧ A ≠ [] ∧ ∀ d, (∀ a ∈ A, d ∣ a) → d = 1 := by
  unfold acceptsInstance
  simp only [Bool.and_eq_true, decide_eq_true_eq]
  constructor
  · rintro ⟨⟨h1, h2⟩, h3⟩
    refine ⟨l.map Int.toNat, ?_, ?_, by simpa using h2, fun d hd => ?_⟩
    · rw [List.map_map]
      conv_lhs => rw [← List.map_id l]
      refine List.map_congr_left fun x hx => ?_
      have := h1 x hx
      simp; omega
    · intro a ha
      obtain ⟨x, hx, rfl⟩ := List.mem_map.1 ha
      have := h1 x hx; omega
    · cases l with
      | nil => exact absurd rfl h2
      | cons x l =>
        have h4 := (gcdLoop_dvd l x).2.2 (d : ℤ)
        simp only [gcdLoop] at h3
        rw [h3] at h4
        have hd' : ∀ y ∈ x :: l, (d : ℤ) ∣ y := fun y hy => by
          have h5 := hd y.toNat (List.mem_map.2 ⟨y, hy, rfl⟩)
          have h6 := h1 y hy
          have : ((y.toNat : ℕ) : ℤ) = y := by omega
          rw [← this]
          exact_mod_cast h5
        have := h4 (hd' x (by simp)) fun y hy => hd' y (by simp [hy])
        have : d ∣ 1 := by exact_mod_cast this
        exact Nat.dvd_one.1 this
  · rintro ⟨A, rfl, h1, h2, h3⟩
    refine ⟨⟨fun x hx => ?_, by simpa using h2⟩, ?_⟩
    · obtain ⟨a, ha, rfl⟩ := List.mem_map.1 hx
      have := h1 a ha
      simp; omega
    · cases A with
      | nil => exact absurd rfl h2
      | cons a A =>
        unfold gcdLoop
        rw [List.map_cons]
        obtain ⟨h4, h5, _⟩ := gcdLoop_dvd (A.map Int.ofNat) (Int.ofNat a)
        simp only
        set g := (A.map Int.ofNat).foldl (fun g y => (Int.gcd g y : ℤ)) (Int.ofNat a) with hg
        have hnat := h3 g.natAbs fun x hx => by
          rw [← Int.natCast_dvd_natCast, Int.natAbs_dvd]
          rcases List.mem_cons.1 hx with rfl | hx
          · exact h4
          · exact h5 _ (List.mem_map.2 ⟨x, hx, rfl⟩)
        have hpos : 0 ≤ g := by
          rw [hg]
          have : ∀ (l : List ℤ) (g : ℤ), 0 ≤ g → 0 ≤ l.foldl (fun g y => (Int.gcd g y : ℤ)) g := by
            intro l
            induction l with
            | nil => intro g h; exact h
            | cons x l ih => intro g _; exact ih _ (Int.natCast_nonneg _)
          exact this _ _ (Int.natCast_nonneg a)
        omega

theorem mem_closure_step {A : List ℕ} {x : ℕ} (hx : 0 < x) :
    x ∈ AddSubmonoid.closure {a | a ∈ A} ↔ ∃ a ∈ A, a ≤ x ∧ x - a ∈ AddSubmonoid.closure {a | a ∈ A} := by
  constructor
  · intro h
    have key : x = 0 ∨ ∃ a ∈ A, a ≤ x ∧ x - a ∈ AddSubmonoid.closure {a | a ∈ A} := by
      clear hx
      induction h using AddSubmonoid.closure_induction with
      | mem a ha => exact Or.inr ⟨a, ha, le_refl _, by rw [Nat.sub_self]; exact AddSubmonoid.zero_mem _⟩
      | zero => exact Or.inl rfl
      | add y z hy hz ihy ihz =>
        rcases ihy with rfl | ⟨a, ha, hle, hs⟩
        · rw [Nat.zero_add]; exact ihz
        · refine Or.inr ⟨a, ha, by omega, ?_⟩
          have : y + z - a = (y - a) + z := by omega
          rw [this]
          exact AddSubmonoid.add_mem _ hs hz
    rcases key with h0 | h0
    · omega
    · exact h0
  · rintro ⟨a, ha, hle, hs⟩
    have : x = a + (x - a) := by omega
    rw [this]
    exact AddSubmonoid.add_mem _ (AddSubmonoid.subset_closure ha) hs

/-- What is true at the start of each iteration. -/
structure FrobInv (A : List ℕ) (s : FrobState) (x b : ℕ) : Prop where
  number : s.number = x
  rep : ∀ y : ℤ, y ∈ s.representable ↔ ∃ z : ℕ, y = z ∧ z < x ∧ z ∈ AddSubmonoid.closure {a | a ∈ A}
  max : s.maximum = b
  lt : b < x
  run : s.run = (x : ℤ) - 1 - b
  between : ∀ z, b < z → z < x → z ∈ AddSubmonoid.closure {a | a ∈ A}
  not : b = 0 ∧ x = 1 ∨ b ∉ AddSubmonoid.closure {a | a ∈ A}

theorem FrobInv.step {A : List ℕ} (hA : ∀ a ∈ A, 1 < a) {s : FrobState} {x b : ℕ} (h : FrobInv A s x b) :
    ∃ b', FrobInv A (frobStep (A.map Int.ofNat) s) (x + 1) b' := by
  have hx0 : 0 < x := lt_of_le_of_lt (Nat.zero_le _) h.lt
  have hiff : ((A.map Int.ofNat).any fun a => decide (s.number - a ∈ s.representable)) = true ↔
      x ∈ AddSubmonoid.closure {a | a ∈ A} := by
    rw [mem_closure_step hx0]
    simp only [List.any_eq_true, List.mem_map, decide_eq_true_eq]
    constructor
    · rintro ⟨_, ⟨a, ha, rfl⟩, hr⟩
      obtain ⟨z, h1, h2, h3⟩ := (h.rep _).1 hr
      rw [h.number] at h1
      simp only [Int.ofNat_eq_natCast] at h1
      refine ⟨a, ha, by omega, ?_⟩
      have : x - a = z := by omega
      rw [this]; exact h3
    · rintro ⟨a, ha, hle, hs⟩
      refine ⟨_, ⟨a, ha, rfl⟩, (h.rep _).2 ⟨x - a, ?_, ?_, hs⟩⟩
      · rw [h.number]; simp only [Int.ofNat_eq_natCast]; omega
      · have := hA a ha; omega
  unfold frobStep
  split
  · rename_i hc
    rw [hiff] at hc
    refine ⟨b, ⟨?_, fun y => ?_, h.max, by have := h.lt; omega, ?_, fun z h1 h2 => ?_, ?_⟩⟩
    · simp [h.number]
    · simp only [List.mem_cons, h.rep, h.number]
      constructor
      · rintro (rfl | ⟨z, h1, h2, h3⟩)
        · exact ⟨x, rfl, by omega, hc⟩
        · exact ⟨z, h1, by omega, h3⟩
      · rintro ⟨z, h1, h2, h3⟩
        rcases Nat.lt_or_ge z x with h4 | h4
        · exact Or.inr ⟨z, h1, h4, h3⟩
        · left; rw [h1]; congr 1; omega
    · simp only [h.run]; push_cast; ring
    · rcases Nat.lt_or_ge z x with h4 | h4
      · exact h.between z h1 h4
      · have : z = x := by omega
        rw [this]; exact hc
    · rcases h.not with ⟨h1, h2⟩ | h1
      · exfalso
        rw [h2, mem_closure_step (by omega)] at hc
        obtain ⟨a, ha, hle, _⟩ := hc
        have := hA a ha; omega
      · exact Or.inr h1
  · rename_i hc
    rw [hiff] at hc
    refine ⟨x, ⟨?_, fun y => ?_, h.number, by omega, ?_, fun z h1 h2 => by omega, Or.inr hc⟩⟩
    · simp [h.number]
    · simp only [h.rep]
      constructor
      · rintro ⟨z, h1, h2, h3⟩
        exact ⟨z, h1, by omega, h3⟩
      · rintro ⟨z, h1, h2, h3⟩
        refine ⟨z, h1, ?_, h3⟩
        rcases Nat.lt_or_ge z x with h4 | h4
        · exact h4
        · exfalso
          have : z = x := by omega
          rw [this] at h3; exact hc h3
    · push_cast; ring

theorem frobLoop_spec {A : List ℕ} (hA : ∀ a ∈ A, 1 < a) {m : ℕ} (hm : m ∈ A) {f : ℕ}
    (hf : FrobeniusNumber f {a | a ∈ A}) : ∀ (k fuel : ℕ) (s : FrobState) (x b : ℕ), k < fuel → FrobInv A s x b →
      f + 1 + m ≤ x + k → frobLoop (A.map Int.ofNat) m fuel s = some (f : ℤ) := by
  rw [frobeniusNumber_iff] at hf
  have hm1 := hA m hm
  have hend : ∀ (s : FrobState) (x b : ℕ), FrobInv A s x b → ¬ s.run < m → s.maximum = f := by
    intro s x b h hrun
    rw [h.run] at hrun
    have hb : b ∉ AddSubmonoid.closure {a | a ∈ A} := by
      rcases h.not with ⟨h1, h2⟩ | h1
      · omega
      · exact h1
    have hall : ∀ z, b < z → z ∈ AddSubmonoid.closure {a | a ∈ A} := by
      intro z
      induction z using Nat.strong_induction_on with
      | _ z ih =>
        intro hz
        rcases Nat.lt_or_ge z x with h4 | h4
        · exact h.between z hz h4
        · have h5 := ih (z - m) (by omega) (by omega)
          have : z = (z - m) + m := by omega
          rw [this]
          exact AddSubmonoid.add_mem _ h5 (AddSubmonoid.subset_closure hm)
    rw [h.max]
    congr 1
    rcases Nat.lt_trichotomy b f with h1 | h1 | h1
    · exact absurd (hall f h1) hf.1
    · exact h1
    · exact absurd (hf.2 b h1) hb
  have hnot : ∀ (s : FrobState) (x b : ℕ), FrobInv A s x b → s.run < m → x < f + 1 + m := by
    intro s x b h hrun
    rw [h.run] at hrun
    have hb : b ≤ f := by
      rcases h.not with ⟨h1, h2⟩ | h1
      · omega
      · by_contra hc
        exact h1 (hf.2 b (by omega))
    omega
  intro k
  induction k with
  | zero =>
    intro fuel s x b hk h hle
    obtain ⟨fuel, rfl⟩ : ∃ t, fuel = t + 1 := ⟨fuel - 1, by omega⟩
    unfold frobLoop
    split
    · rename_i hr
      have := hnot s x b h hr
      omega
    · rename_i hr
      rw [hend s x b h hr]
  | succ k ih =>
    intro fuel s x b hk h hle
    obtain ⟨fuel, rfl⟩ : ∃ t, fuel = t + 1 := ⟨fuel - 1, by omega⟩
    unfold frobLoop
    split
    · obtain ⟨b', h'⟩ := h.step hA
      exact ih fuel _ (x + 1) b' (by omega) h' (by omega)
    · rename_i hr
      rw [hend s x b h hr]

/-- C31: for every instance that is accepted, the result is the largest natural number that is not a sum of the given
numbers. The loop ends after finitely many iterations. -/
theorem C31_frobenius (l : List ℤ) (h : acceptsInstance l = true) :
    ∃ (A : List ℕ) (f F : ℕ), l = A.map Int.ofNat ∧ FrobeniusNumber f {a | a ∈ A} ∧
      ∀ fuel, F ≤ fuel → dynamicFrobenius fuel l = some (f : ℤ) := by
  obtain ⟨A, rfl, h1, h2, h3⟩ := (acceptsInstance_iff l).1 h
  have hg : Nat.setGcd {a | a ∈ A} = 1 := h3 _ fun a ha => Nat.setGcd_dvd_of_mem ha
  have hex : ∃ f, FrobeniusNumber f {a | a ∈ A} := by
    obtain ⟨N, hN⟩ := Nat.exists_mem_closure_of_ge {a | a ∈ A}
    rw [hg] at hN
    have h1' : 1 ∉ AddSubmonoid.closure {a | a ∈ A} := by
      rw [mem_closure_step (by omega)]
      rintro ⟨a, ha, hle, _⟩
      have := h1 a ha; omega
    classical
    have hP : ∃ k, k ∉ AddSubmonoid.closure {a | a ∈ A} ∧ k ≤ N :=
      ⟨1, h1', by by_contra hc; exact h1' (hN 1 (by omega) (one_dvd _))⟩
    refine ⟨Nat.findGreatest (fun k => k ∉ AddSubmonoid.closure {a | a ∈ A}) N, ?_⟩
    obtain ⟨k, hk, hkN⟩ := hP
    rw [frobeniusNumber_iff]
    refine ⟨Nat.findGreatest_spec (P := fun k => k ∉ AddSubmonoid.closure {a | a ∈ A}) hkN hk, fun z hz => ?_⟩
    rcases Nat.lt_or_ge N z with h4 | h4
    · exact hN z (by omega) (one_dvd _)
    · by_contra hc
      exact absurd (Nat.le_findGreatest (P := fun k => k ∉ AddSubmonoid.closure {a | a ∈ A}) h4 hc) (by omega)
  obtain ⟨f, hf⟩ := hex
  have hinit : FrobInv A { representable := [0], maximum := 0, run := 0, number := 1 } 1 0 := by
    refine ⟨rfl, fun y => ?_, rfl, by omega, rfl, fun z _ _ => by omega, Or.inl ⟨rfl, rfl⟩⟩
    simp only [List.mem_singleton]
    constructor
    · rintro rfl; exact ⟨0, rfl, by omega, AddSubmonoid.zero_mem _⟩
    · rintro ⟨z, rfl, hz, _⟩; have : z = 0 := by omega
      rw [this]; rfl
  have hmin : ∀ (m : ℤ), (A.map Int.ofNat).min? = some m → ∃ k ∈ A, m = (k : ℤ) := by
    intro m hm
    have := List.min?_mem hm
    obtain ⟨k, hk, rfl⟩ := List.mem_map.1 this
    exact ⟨k, hk, rfl⟩
  have hmain : ∀ m ∈ A, ∀ fuel, f + 1 + m ≤ fuel → frobLoop (A.map Int.ofNat) m fuel
      { representable := [0], maximum := 0, run := 0, number := 1 } = some (f : ℤ) := fun m hm fuel hfu =>
    frobLoop_spec h1 hm hf (f + m) fuel _ 1 0 (by omega) hinit (by omega)
  refine ⟨A, f, f + 1 + A.sum, rfl, hf, fun fuel hfuel => ?_⟩
  unfold dynamicFrobenius
  split
  · rename_i a b hab
    have hlen : A.length = 2 := by
      have := congrArg List.length hab
      simpa using this
    obtain ⟨c, d, rfl⟩ := List.length_eq_two.1 hlen
    simp only [List.map_cons, List.map_nil, List.cons.injEq, and_true] at hab
    obtain ⟨rfl, rfl⟩ := hab
    have hc := h1 c (by simp)
    have hd := h1 d (by simp)
    have hcop : Nat.Coprime c d := h3 _ fun a ha => by
      rcases List.mem_pair.1 ha with rfl | rfl
      · exact Nat.gcd_dvd_left ..
      · exact Nat.gcd_dvd_right ..
    have h4 := frobeniusNumber_pair hcop hc hd
    have hset : ({c, d} : Set ℕ) = {a | a ∈ [c, d]} := by
      ext a; simp
    rw [hset] at h4
    have h5 : f = c * d - c - d := IsGreatest.unique hf h4
    have h6 : c + d ≤ c * d := Nat.add_le_mul hc hd
    rw [h5]
    simp only [Int.ofNat_eq_natCast]
    congr 1
    push_cast [Nat.sub_sub]
    omega
  · split
    · rename_i hn
      rw [List.min?_eq_none_iff] at hn
      simp at hn
      exact absurd hn h2
    · rename_i m hm
      obtain ⟨k, hk, rfl⟩ := hmin m hm
      refine hmain k hk fuel ?_
      have := List.single_le_sum (l := A) (by simp) k hk
      omega

/-- C31: exactly the nonempty lists of integers greater than 1 whose only common divisor is 1 are accepted. -/
theorem C31_accepts (l : List ℤ) : acceptsInstance l = true ↔
    ∃ A : List ℕ, l = A.map Int.ofNat ∧ (∀ a ∈ A, 1 < a) ∧ A ≠ [] ∧ ∀ d, (∀ a ∈ A, d ∣ a) → d = 1 :=
  acceptsInstance_iff l

/-- The algorithm itself, which does not check its input, is right with 1 among two numbers but not among three: every
natural number is a multiple of 1, so the largest integer that is not representable is -1. -/
theorem C31_one : (∀ fuel, dynamicFrobenius fuel [1, 5] = some (-1)) ∧ ∀ fuel, 2 ≤ fuel → dynamicFrobenius fuel [1, 5, 7] = some 0 := by
  refine ⟨fun fuel => rfl, fun fuel h => ?_⟩
  obtain ⟨k, rfl⟩ : ∃ k, fuel = k + 2 := ⟨fuel - 2, by omega⟩
  rfl

/-! Concrete cases. -/

/-- The numbers 6, 9 and 20. -/
example : acceptsInstance [6, 9, 20] = true ∧ dynamicFrobenius 60 [6, 9, 20] = some 43 := by decide +kernel

example : acceptsInstance [6, 9, 21] = false ∧ acceptsInstance [] = false ∧ acceptsInstance [3, 1] = false ∧
    acceptsInstance [4, 7] = true ∧ dynamicFrobenius 0 [4, 7] = some 17 := by decide +kernel

end Frobby
