import Verif.SatBinomSpec
import Verif.PolyReaderCompleteLemmas

/-!
# Lemmas about saturated binomial ideals: the search for cycles
-/

namespace Frobby.SatBinom

section Search

variable (edge : ℕ → ℕ → Bool) (count : ℕ)

/-- The edges that the search follows. -/
def Edge (u v : ℕ) : Prop := v < count ∧ edge u v = true

/-- What holds between the steps of the search. -/
structure Colored (color : List ℕ) : Prop where
  length : color.length = count
  small : ∀ v, color.getD v 0 ≤ 2
  closed : ∀ v, color.getD v 0 = 2 → ∀ w, Edge edge count v w → color.getD w 0 = 2
  acyclic : ∀ v, color.getD v 0 = 2 → ¬ Relation.TransGen (Edge edge count) v v

/-- How the colors change. -/
structure Later (color color' : List ℕ) : Prop where
  gray : ∀ u, color'.getD u 0 = 1 ↔ color.getD u 0 = 1
  black : ∀ u, color.getD u 0 = 2 → color'.getD u 0 = 2
  white : color'.count 0 ≤ color.count 0

theorem Later.refl (color : List ℕ) : Later color color := ⟨fun _ => .rfl, fun _ h => h, le_rfl⟩
theorem Later.trans {a b c : List ℕ} (h : Later a b) (h' : Later b c) : Later a c :=
  ⟨fun u => (h'.gray u).trans (h.gray u), fun u hu => h'.black u (h.black u hu), h'.white.trans h.white⟩

/-- What a visit of a generator does. -/
def Visits (visit : ℕ → List ℕ → Option (Bool × List ℕ)) (fuel : ℕ) : Prop :=
  ∀ gen color, gen < count → Colored edge count color → (∀ u, color.getD u 0 = 1 → Relation.TransGen (Edge edge count) u gen) →
    color.count 0 < fuel → ∃ b color', visit gen color = some (b, color') ∧ (b = true → ∃ v, Relation.TransGen (Edge edge count) v v) ∧
      (b = false → Colored edge count color' ∧ color'.getD gen 0 = 2 ∧ Later color color')

variable {edge count}

theorem exploreAll_spec {visit : ℕ → List ℕ → Option (Bool × List ℕ)} {fuel : ℕ} (hv : Visits edge count visit fuel) {out : ℕ → Bool} :
    ∀ (gs : List ℕ) (color : List ℕ), (∀ g ∈ gs, g < count) → Colored edge count color →
      (∀ g ∈ gs, out g = true → ∀ u, color.getD u 0 = 1 → Relation.TransGen (Edge edge count) u g) → color.count 0 < fuel →
      ∃ b color', exploreAll visit out gs color = some (b, color') ∧ (b = true → ∃ v, Relation.TransGen (Edge edge count) v v) ∧
        (b = false → Colored edge count color' ∧ Later color color' ∧ ∀ g ∈ gs, out g = true → color'.getD g 0 = 2) := by
  intro gs
  induction gs with
  | nil => intro color _ hc _ _; exact ⟨false, color, rfl, nofun, fun _ => ⟨hc, Later.refl _, nofun⟩⟩
  | cons g gs ih =>
    intro color hg hc ho hw
    unfold exploreAll
    by_cases hout : out g = true
    · obtain ⟨b, color1, h1, h2, h3⟩ := hv g color (hg g (by simp)) hc (ho g (by simp) hout) hw
      rw [if_pos hout, h1]
      cases b with
      | true => exact ⟨true, color1, rfl, h2, nofun⟩
      | false =>
        obtain ⟨a1, a2, a3⟩ := h3 rfl
        obtain ⟨b, color2, b1, b2, b3⟩ := ih color1 (fun x hx => hg x (by simp [hx])) a1
          (fun x hx hox u hu => ho x (by simp [hx]) hox u ((a3.gray u).1 hu)) (lt_of_le_of_lt a3.white hw)
        refine ⟨b, color2, b1, b2, fun hb => ?_⟩
        obtain ⟨c1, c2, c3⟩ := b3 hb
        refine ⟨c1, a3.trans c2, fun x hx hox => ?_⟩
        rcases List.mem_cons.1 hx with rfl | hx
        · exact c2.black _ a2
        · exact c3 x hx hox
    · rw [if_neg hout]
      obtain ⟨b, color2, b1, b2, b3⟩ := ih color (fun x hx => hg x (by simp [hx])) hc (fun x hx => ho x (by simp [hx])) hw
      refine ⟨b, color2, b1, b2, fun hb => ?_⟩
      obtain ⟨c1, c2, c3⟩ := b3 hb
      refine ⟨c1, c2, fun x hx hox => ?_⟩
      rcases List.mem_cons.1 hx with rfl | hx
      · exact absurd hox hout
      · exact c3 x hx hox

theorem getD_set_self {l : List ℕ} {i a : ℕ} (h : i < l.length) : (l.set i a).getD i 0 = a := by
  simp [List.getD_eq_getElem?_getD, h]

theorem getD_set_other {l : List ℕ} {i j a : ℕ} (h : j ≠ i) : (l.set i a).getD j 0 = l.getD j 0 := by
  simp [List.getD_eq_getElem?_getD, List.getElem?_set_ne (Ne.symm h)]

theorem closed_trans {color : List ℕ} (hc : Colored edge count color) {v w : ℕ} (h : Relation.TransGen (Edge edge count) v w)
    (hv : color.getD v 0 = 2) : color.getD w 0 = 2 := by
  induction h with
  | single h => exact hc.closed _ hv _ h
  | tail _ h ih => exact hc.closed _ ih _ h

theorem hasCycle_visits : ∀ fuel, Visits edge count (hasCycle edge count fuel) fuel := by
  intro fuel
  induction fuel with
  | zero => intro gen color _ _ _ h; exact absurd h (by omega)
  | succ fuel ih =>
    intro gen color hgen hc hgray hw
    unfold hasCycle
    by_cases h1 : color.getD gen 0 = 1
    · rw [if_pos h1]
      exact ⟨true, color, rfl, fun _ => ⟨gen, hgray gen h1⟩, nofun⟩
    rw [if_neg h1]
    by_cases h2 : color.getD gen 0 = 2
    · rw [if_pos h2]
      exact ⟨false, color, rfl, nofun, fun _ => ⟨hc, h2, Later.refl _⟩⟩
    rw [if_neg h2]
    have h0 : color.getD gen 0 = 0 := by have := hc.small gen; omega
    have hlen : gen < color.length := by rw [hc.length]; exact hgen
    have hself : (color.set gen 1).getD gen 0 = 1 := getD_set_self hlen
    have hother : ∀ u, u ≠ gen → (color.set gen 1).getD u 0 = color.getD u 0 := fun u hu => getD_set_other hu
    have hcount : (color.set gen 1).count 0 + 1 = color.count 0 := by
      rw [List.count_set hlen]
      have he : color[gen] = 0 := by rw [← h0]; simp [hlen]
      have hp : 0 < color.count 0 := List.count_pos_iff.2 (he ▸ List.getElem_mem hlen)
      simp only [he]
      simp
      omega
    have hc1 : Colored edge count (color.set gen 1) := by
      have hb : ∀ v, (color.set gen 1).getD v 0 = 2 → v ≠ gen ∧ color.getD v 0 = 2 := by
        intro v hv
        by_cases hvg : v = gen
        · subst hvg; rw [hself] at hv; omega
        · exact ⟨hvg, by rwa [hother v hvg] at hv⟩
      refine ⟨by simp [hc.length], fun v => ?_, fun v hv w hw => ?_, fun v hv => hc.acyclic v (hb v hv).2⟩
      · by_cases hvg : v = gen
        · subst hvg; rw [hself]; omega
        · rw [hother v hvg]; exact hc.small v
      · have := hc.closed v (hb v hv).2 w hw
        by_cases hwg : w = gen
        · subst hwg; omega
        · rw [hother w hwg]; exact this
    have hgray1 : ∀ u, (color.set gen 1).getD u 0 = 1 → u = gen ∨ Relation.TransGen (Edge edge count) u gen := by
      intro u hu
      by_cases hug : u = gen
      · exact .inl hug
      · exact .inr (hgray u (by rwa [hother u hug] at hu))
    obtain ⟨b, color2, a1, a2, a3⟩ := exploreAll_spec ih (out := edge gen) (List.range count) (color.set gen 1)
      (fun g hg => List.mem_range.1 hg) hc1 (fun g hg ho u hu => by
        have he : Edge edge count gen g := ⟨List.mem_range.1 hg, ho⟩
        rcases hgray1 u hu with rfl | h
        · exact .single he
        · exact .tail h he) (by omega)
    rw [a1]
    cases b with
    | true => exact ⟨true, color2, rfl, a2, nofun⟩
    | false =>
      obtain ⟨b1, b2, b3⟩ := a3 rfl
      have hlen2 : gen < color2.length := by rw [b1.length]; exact hgen
      have hself2 : (color2.set gen 2).getD gen 0 = 2 := getD_set_self hlen2
      have hother2 : ∀ u, u ≠ gen → (color2.set gen 2).getD u 0 = color2.getD u 0 := fun u hu => getD_set_other hu
      have hg2 : color2.getD gen 0 = 1 := (b2.gray gen).2 hself
      refine ⟨false, color2.set gen 2, rfl, nofun, fun _ => ⟨⟨by simp [b1.length], fun v => ?_, fun v hv w hw => ?_, fun v hv => ?_⟩, hself2,
        ⟨fun u => ?_, fun u hu => ?_, ?_⟩⟩⟩
      · by_cases hvg : v = gen
        · subst hvg; omega
        · rw [hother2 v hvg]; exact b1.small v
      · by_cases hwg : w = gen
        · subst hwg; exact hself2
        rw [hother2 w hwg]
        by_cases hvg : v = gen
        · subst hvg; exact b3 w (List.mem_range.2 hw.1) hw.2
        · exact b1.closed v (by rwa [hother2 v hvg] at hv) w hw
      · by_cases hvg : v = gen
        · subst hvg
          intro hcyc
          have hx : ∃ s, Edge edge count v s ∧ Relation.ReflTransGen (Edge edge count) s v := Relation.TransGen.head'_iff.1 hcyc
          obtain ⟨s, hs, hsv⟩ := hx
          have hs2 : color2.getD s 0 = 2 := b3 s (List.mem_range.2 hs.1) hs.2
          rcases Relation.reflTransGen_iff_eq_or_transGen.1 hsv with h | h
          · subst h; omega
          · have := closed_trans b1 h hs2
            omega
        · exact b1.acyclic v (by rwa [hother2 v hvg] at hv)
      · by_cases hug : u = gen
        · subst hug; rw [hself2]; omega
        · rw [hother2 u hug, b2.gray u, hother u hug]
      · by_cases hug : u = gen
        · subst hug; omega
        · rw [hother2 u hug]; exact b2.black u (by rw [hother u hug]; exact hu)
      · have h3 : (color2.set gen 2).count 0 = color2.count 0 := by
          rw [List.count_set hlen2]
          have he : color2[gen] = 1 := by rw [← hg2]; simp [hlen2]
          simp [he]
        have := b2.white
        omega

/-- The search gives an answer, and the answer is whether there is a cycle. -/
theorem search_spec (hE : ∀ u v, edge u v = true → u < count) :
    ∃ b color', exploreAll (hasCycle edge count (count + 1)) (fun _ => true) (List.range count) (List.replicate count 0) = some (b, color') ∧
      (b = true ↔ ∃ v, Relation.TransGen (Edge edge count) v v) := by
  have hz : ∀ v, (List.replicate count 0).getD v 0 = 0 := by intro v; by_cases h : v < count <;> simp [List.getD_eq_getElem?_getD, h]
  have hc : Colored edge count (List.replicate count 0) :=
    ⟨by simp, fun v => by rw [hz]; omega, fun v hv => by rw [hz] at hv; omega, fun v hv => by rw [hz] at hv; omega⟩
  obtain ⟨b, color', h1, h2, h3⟩ := exploreAll_spec (hasCycle_visits (edge := edge) (count := count) (count + 1)) (out := fun _ => true)
    (List.range count) (List.replicate count 0) (fun g hg => List.mem_range.1 hg) hc (fun g _ _ u hu => by rw [hz] at hu; omega) (by simp)
  refine ⟨b, color', h1, h2, ?_⟩
  rintro ⟨v, hv⟩
  by_contra hb
  obtain ⟨a1, -, a3⟩ := h3 (by simpa using hb)
  obtain ⟨s, hs, -⟩ := Relation.TransGen.head'_iff.1 hv
  exact a1.acyclic v (a3 v (List.mem_range.2 (hE v s hs.2)) rfl) hv

end Search

end Frobby.SatBinom
