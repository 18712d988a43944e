import Verif.DisplaySpec

/-!
# C68: what `display` and `ColumnPrinter` print
-/

namespace Frobby

/-- There is no character of value zero. -/
def NoNul (t : Text) : Prop := ∀ c ∈ t, c.toNat ≠ 0

theorem cstr_eq {w : Text} (h : NoNul w) : cstr w = w := by
  unfold cstr
  induction w with
  | nil => rfl
  | cons c w ih =>
    rw [List.takeWhile_cons, if_pos (by simpa using h c List.mem_cons_self), ih fun x hx => h x (List.mem_cons_of_mem _ hx)]

theorem NoNul.append {a b : Text} (h : NoNul a) (h' : NoNul b) : NoNul (a ++ b) := fun c hc => (List.mem_append.1 hc).elim (h c) (h' c)

theorem NoNul.left {a b : Text} (h : NoNul (a ++ b)) : NoNul a := fun c hc => h c (List.mem_append_left _ hc)

theorem NoNul.right {a b : Text} (h : NoNul (a ++ b)) : NoNul b := fun c hc => h c (List.mem_append_right _ hc)

/-! ## breaking lines -/

/-- The lines after the first. -/
def nextLines (start : Text) (cs : List Text) : Text := cs.flatMap fun c => '\n' :: (start ++ c)

theorem noEndBlanks_solid {w : Text} (h : Solid w) : NoEndBlanks w :=
  ⟨fun c hc => h c (List.mem_of_mem_head? hc), fun c hc => h c (List.mem_of_getLast? hc)⟩

theorem trimmed_append {c g w : Text} (hc : NoEndBlanks c) (hw : Solid w) (hne : w ≠ []) (h : c = [] → g = []) : NoEndBlanks (c ++ g ++ w) := by
  constructor
  · intro x hx
    rw [List.append_assoc] at hx
    cases c with
    | nil =>
      rw [h rfl] at hx
      exact (noEndBlanks_solid hw).1 x hx
    | cons y c => exact hc.1 x (by simpa using hx)
  · intro x hx
    rw [List.getLast?_append_of_ne_nil _ hne] at hx
    exact (noEndBlanks_solid hw).2 x hx

theorem printWord_cases {pre ind gap word c : Text} {s : Printing} (h1 : NoNul pre) (h2 : NoNul ind) (h3 : NoNul gap) (h4 : NoNul word)
    (hs : s.size = (pre ++ ind).length + c.length) :
    (¬ (s.size ≠ 0 ∧ consoleWidth < (pre ++ ind).length + (c ++ gap ++ word).length) ∧ printWord pre ind s gap word = ⟨s.out ++ (gap ++ word), (pre ++ ind).length + (c ++ gap ++ word).length⟩) ∨
    ((s.size ≠ 0 ∧ consoleWidth < (pre ++ ind).length + (c ++ gap ++ word).length) ∧ printWord pre ind s gap word = ⟨s.out ++ nextLines (pre ++ ind) [word], (pre ++ ind).length + word.length⟩) := by
  have hc : (s.size ≠ 0 ∧ s.size + (word.length + gap.length) > consoleWidth) ↔ (s.size ≠ 0 ∧ consoleWidth < (pre ++ ind).length + (c ++ gap ++ word).length) := by
    rw [hs]
    simp only [List.length_append]
    constructor <;> rintro ⟨a, b⟩ <;> exact ⟨a, by omega⟩
  unfold printWord
  by_cases h : s.size ≠ 0 ∧ s.size + (word.length + gap.length) > consoleWidth
  · right
    refine ⟨hc.1 h, ?_⟩
    rw [if_pos h]
    simp [Printing.raw, Printing.newLine, cstr_eq, h1, h2, h4, nextLines, Nat.add_assoc]
  · left
    refine ⟨fun h' => h (hc.2 h'), ?_⟩
    rw [if_neg h]
    simp only [Printing.raw, cstr_eq, h3, h4, hs, List.length_append, List.append_assoc, Printing.mk.injEq, true_and]
    omega

/-- The condition on the piece `c` that is on the line so far. -/
structure Started (start : ℕ) (c gap : Text) : Prop where
  trimmed : NoEndBlanks c
  fits : start + c.length ≤ consoleWidth ∨ Solid c
  gaps : Blanks gap
  first : c = [] ↔ gap = []

theorem Started.fit {start : ℕ} {c gap word : Text} (h : Started start c gap) (hw : Solid word) (hne : word ≠ [])
    (hn : ¬ (start + c.length ≠ 0 ∧ consoleWidth < start + (c ++ gap ++ word).length)) :
    NoEndBlanks (c ++ gap ++ word) ∧ (start + (c ++ gap ++ word).length ≤ consoleWidth ∨ Solid (c ++ gap ++ word)) := by
  refine ⟨trimmed_append h.trimmed hw hne h.first.1, ?_⟩
  by_cases h0 : start + c.length = 0
  · have : c = [] := List.eq_nil_of_length_eq_zero (by omega)
    subst this
    rw [h.first.1 rfl]
    exact .inr hw
  · exact .inl (by
      have := not_and.1 hn h0
      omega)

theorem printLine_spec {pre ind : Text} (h1 : NoNul pre) (h2 : NoNul ind) : ∀ (cs : Text) (s : Printing) (c gap word : Text),
    NoNul cs → NoNul gap → NoNul word → '\n' ∉ cs → s.size = (pre ++ ind).length + c.length → NoEndBlanks c → ((pre ++ ind).length + c.length ≤ consoleWidth ∨ Solid c) →
    Blanks gap → (c = [] → gap = []) → (gap = [] → c = []) → Solid word → (c = [] → word = [] → ∀ x ∈ cs.head?, isSpace x = false) →
    ∃ e more s', (∀ rest, printLine pre ind s gap word (cs ++ '\n' :: rest) = (s', rest)) ∧ printLine pre ind s gap word cs = (s', []) ∧ s'.out = s.out ++ (e ++ nextLines (pre ++ ind) more) ∧
      Broken consoleWidth (pre ++ ind).length (c ++ (gap ++ (word ++ cs))) ((c ++ e) :: more) := by
  intro cs
  induction cs with
  | nil =>
    intro s c gap word _ h4 h5 _ hs ht hf hg he he' hw _
    simp only [List.nil_append, printLine, if_true]
    unfold flushWord
    by_cases hne : word = []
    · subst hne
      refine ⟨[], [], s, fun _ => by simp, by simp, by simp [nextLines], ?_⟩
      simpa using Broken.last ht hf hg
    · simp only [if_neg hne]
      rcases printWord_cases h1 h2 h4 h5 hs with ⟨hn, hp⟩ | ⟨hn, hp⟩
      · rw [hs] at hn
        obtain ⟨k1, k2⟩ := Started.fit ⟨ht, hf, hg, he, he'⟩ hw hne hn
        refine ⟨gap ++ word, [], _, fun _ => rfl, rfl, by rw [hp]; simp [nextLines], ?_⟩
        have := Broken.last (g := []) k1 k2 (by simp [Blanks])
        simpa using this
      · refine ⟨[], [word], _, fun _ => rfl, rfl, by rw [hp]; simp, ?_⟩
        have := Broken.more (c := c) (g := gap) (b := word) (c' := word) (w := word) (cs := []) ht hf hg ?_ hw (List.prefix_refl _) hn.2
          (by simpa using Broken.last (width := consoleWidth) (start := (pre ++ ind).length) (g := []) (noEndBlanks_solid hw) (.inr hw) (by simp [Blanks]))
        · simpa using this
        · by_cases hgap : gap = []
          · right
            have hc := he' hgap
            refine ⟨hc, ?_⟩
            have := hn.1
            rw [hs, hc] at this
            exact Nat.pos_of_ne_zero (by simpa only [List.length_nil, Nat.add_zero] using this)
          · exact .inl hgap
  | cons x cs ih =>
    intro s c gap word h3 h4 h5 hnl hs ht hf hg he he' hw hx
    have h3' : NoNul cs := fun y hy => h3 y (List.mem_cons_of_mem _ hy)
    have hnl' : '\n' ∉ cs := fun h => hnl (List.mem_cons_of_mem _ h)
    have hxn : x ≠ '\n' := fun h => hnl (h ▸ List.mem_cons_self)
    have h0 : x.toNat ≠ 0 := h3 x List.mem_cons_self
    simp only [List.cons_append, printLine, if_neg hxn]
    by_cases hsp : isSpace x = true
    · simp only [if_pos hsp]
      by_cases hne : word = []
      · subst hne
        have hc : c ≠ [] := by
          intro hc
          have := hx hc rfl x (by simp)
          rw [hsp] at this
          exact nomatch this
        simp only [if_true]
        obtain ⟨e, more, s', k1, k2, k3, k4⟩ := ih s c (gap ++ [x]) [] h3' (h4.append fun y hy => by simp at hy; exact hy ▸ h0) (by simp [NoNul]) hnl' hs ht hf
          (fun y hy => (List.mem_append.1 hy).elim (hg y) fun h => by simp at h; exact h ▸ hsp) (fun h => absurd h hc) (fun h => by simp at h) (by simp [Solid]) (fun h => absurd h hc)
        exact ⟨e, more, s', k1, k2, k3, by simpa using k4⟩
      · simp only [if_neg hne]
        have hgx : Blanks [x] := fun y hy => by simp at hy; exact hy ▸ hsp
        have hnx : NoNul [x] := fun y hy => by simp at hy; exact hy ▸ h0
        rcases printWord_cases h1 h2 h4 h5 hs with ⟨hn, hp⟩ | ⟨hn, hp⟩
        · rw [hs] at hn
          obtain ⟨k1, k2⟩ := Started.fit ⟨ht, hf, hg, he, he'⟩ hw hne hn
          obtain ⟨e, more, s', i1, i2, i3, i4⟩ := ih (printWord pre ind s gap word) (c ++ gap ++ word) [x] [] h3' hnx (by simp [NoNul]) hnl' (by rw [hp]) k1 k2 hgx
            (fun h => by simp [hne] at h) (fun h => by simp at h) (by simp [Solid]) (fun h => by simp [hne] at h)
          refine ⟨gap ++ word ++ e, more, s', i1, i2, by rw [i3, hp]; simp, ?_⟩
          simpa using i4
        · obtain ⟨e, more, s', i1, i2, i3, i4⟩ := ih (printWord pre ind s gap word) word [x] [] h3' hnx (by simp [NoNul]) hnl' (by rw [hp]) (noEndBlanks_solid hw) (.inr hw) hgx
            (fun h => absurd h hne) (fun h => by simp at h) (by simp [Solid]) (fun h => absurd h hne)
          refine ⟨[], (word ++ e) :: more, s', i1, i2, by rw [i3, hp]; simp [nextLines], ?_⟩
          have := Broken.more (c := c) (g := gap) (w := word) ht hf hg ?_ hw (List.prefix_append word e) hn.2 i4
          · simpa using this
          · by_cases hgap : gap = []
            · right
              have hc := he' hgap
              refine ⟨hc, ?_⟩
              have := hn.1
              rw [hs, hc] at this
              exact Nat.pos_of_ne_zero (by simpa only [List.length_nil, Nat.add_zero] using this)
            · exact .inl hgap
    · simp only [if_neg hsp]
      have hsp' : isSpace x = false := by simpa using hsp
      obtain ⟨e, more, s', k1, k2, k3, k4⟩ := ih s c gap (word ++ [x]) h3' h4 (h5.append fun y hy => by simp at hy; exact hy ▸ h0) hnl' hs ht hf hg he he'
        (fun y hy => (List.mem_append.1 hy).elim (hw y) fun h => by simp at h; exact h ▸ hsp') (fun _ h => by simp at h)
      exact ⟨e, more, s', k1, k2, k3, by simpa using k4⟩

theorem indent_split (l : Text) (h : '\n' ∉ l) :
    ∃ ind body, l = ind ++ body ∧ Blanks ind ∧ (∀ c ∈ body.head?, isSpace c = false) ∧ l.takeWhile isIndent = ind ∧ l.dropWhile isIndent = body ∧
      ∀ rest, (l ++ '\n' :: rest).takeWhile isIndent = ind ∧ (l ++ '\n' :: rest).dropWhile isIndent = body ++ '\n' :: rest := by
  have hn : isIndent '\n' = false := by decide
  induction l with
  | nil => exact ⟨[], [], rfl, by simp [Blanks], by simp, rfl, rfl, fun rest => ⟨by simp [hn], by simp [hn]⟩⟩
  | cons x l ih =>
    have hx : x ≠ '\n' := fun e => h (e ▸ List.mem_cons_self)
    by_cases hs : isSpace x = true
    · have hi : isIndent x = true := by simp [isIndent, hx, hs]
      obtain ⟨ind, body, h1, h2, h3, h4, h5, h6⟩ := ih fun e => h (List.mem_cons_of_mem _ e)
      refine ⟨x :: ind, body, by rw [h1]; rfl, fun c hc => ?_, h3, ?_, ?_, fun rest => ⟨?_, ?_⟩⟩
      · rcases List.mem_cons.1 hc with rfl | hc
        · exact hs
        · exact h2 c hc
      · rw [List.takeWhile_cons, if_pos hi, h4]
      · rw [List.dropWhile_cons, if_pos hi, h5]
      · rw [List.cons_append, List.takeWhile_cons, if_pos hi, (h6 rest).1]
      · rw [List.cons_append, List.dropWhile_cons, if_pos hi, (h6 rest).2]
    · have hi : isIndent x = false := by simp [isIndent, hs]
      exact ⟨[], x :: l, rfl, by simp [Blanks], by simpa using hs, by simp [hi], by simp [hi], fun rest => ⟨by simp [hi], by simp [hi]⟩⟩

theorem nextLines_eq (start c : Text) (cs : List Text) : start ++ c ++ nextLines start cs ++ ['\n'] = unlines ((c :: cs).map fun c => start ++ c) := by
  induction cs generalizing c with
  | nil => simp [nextLines, unlines]
  | cons d cs ih =>
    have := ih d
    simp only [nextLines, unlines, List.flatMap_cons, List.map_cons, List.cons_append, List.append_assoc, List.append_cancel_left_eq, List.cons.injEq, true_and, List.nil_append] at this ⊢
    exact this

/-- One line of the message. -/
theorem displayLoop_line {pre l : Text} (h1 : NoNul pre) (h2 : NoNul l) (h3 : '\n' ∉ l) :
    ∃ out, Laid consoleWidth pre l out ∧ (∀ fuel rest, displayLoop pre (fuel + 1) (l ++ '\n' :: rest) = unlines out ++ displayLoop pre fuel rest) ∧
      (¬ Blanks l → ∀ fuel, displayLoop pre (fuel + 1) l = unlines out) := by
  obtain ⟨ind, body, e1, e2, e3, e4, e5, e6⟩ := indent_split l h3
  have n1 : NoNul ind := (e1 ▸ h2).left
  have n2 : NoNul body := (e1 ▸ h2).right
  have hb : '\n' ∉ body := fun h => h3 (e1 ▸ List.mem_append_right _ h)
  have s0 : ((Printing.mk [] 0).raw pre).raw ind = ⟨pre ++ ind, (pre ++ ind).length⟩ := by simp [Printing.raw, cstr_eq, h1, n1]
  cases body with
  | nil =>
    rw [List.append_nil] at e1
    subst e1
    refine ⟨[pre ++ l], ⟨l, [], [[]], by simp, e2, by simp, ?_, by simp⟩, fun fuel rest => ?_, fun h => absurd e2 h⟩
    · simpa using Broken.last (width := consoleWidth) (start := pre.length + l.length) (c := []) (g := []) (by simp [NoEndBlanks]) (.inr (by simp [Solid])) (by simp [Blanks])
    · rw [displayLoop, if_neg (by simp)]
      simp only [(e6 rest).1, (e6 rest).2, List.nil_append, s0, if_true, Printing.newLine]
      simp [unlines]
  | cons x body =>
    have hx : x ≠ '\n' := fun e => hb (e ▸ List.mem_cons_self)
    obtain ⟨e, more, s', k1, k2, k3, k4⟩ := printLine_spec h1 n1 (x :: body) ⟨pre ++ ind, (pre ++ ind).length⟩ [] [] [] n2 (by simp [NoNul]) (by simp [NoNul]) hb (by simp)
      (by simp [NoEndBlanks]) (.inr (by simp [Solid])) (by simp [Blanks]) (fun _ => rfl) (fun _ => rfl) (by simp [Solid]) (fun _ _ => e3)
    have hout : s'.newLine.out = unlines ((e :: more).map fun c => pre ++ ind ++ c) := by
      rw [← nextLines_eq]
      simp [Printing.newLine, k3]
    refine ⟨(e :: more).map fun c => pre ++ ind ++ c, ⟨ind, x :: body, e :: more, e1, e2, e3, by simpa using k4, rfl⟩, fun fuel rest => ?_, fun _ fuel => ?_⟩
    · rw [displayLoop, if_neg (by simp)]
      simp only [(e6 rest).1, (e6 rest).2, List.cons_append, if_neg hx, s0]
      rw [← List.cons_append, k1]
      simp only [hout]
    · rw [displayLoop, if_neg (by rw [e1]; simp)]
      simp only [e4, e5, if_neg hx, s0, k2, hout]
      cases fuel <;> simp [displayLoop]

theorem displayLoop_blank {pre l : Text} (h1 : NoNul pre) (h2 : NoNul l) (h3 : '\n' ∉ l) (hb : Blanks l) (hne : l ≠ []) (fuel : ℕ) : displayLoop pre (fuel + 1) l = pre ++ l := by
  obtain ⟨ind, body, e1, e2, e3, e4, e5, -⟩ := indent_split l h3
  have : body = [] := by
    cases body with
    | nil => rfl
    | cons x body =>
      have h4 := e3 x rfl
      rw [hb x (e1 ▸ List.mem_append_right _ List.mem_cons_self)] at h4
      exact nomatch h4
  subst this
  rw [List.append_nil] at e1
  subst e1
  rw [displayLoop, if_neg hne]
  simp only [e4, e5]
  simp [Printing.raw, cstr_eq, h1, h2]

theorem displayLoop_lines {pre : Text} (h1 : NoNul pre) : ∀ ls : List Text, (∀ l ∈ ls, NoNul l ∧ '\n' ∉ l) →
    ∃ out, List.Forall₂ (Laid consoleWidth pre) ls out ∧ ∀ fuel rest, (unlines ls ++ rest).length ≤ fuel →
      ∃ fuel', rest.length ≤ fuel' ∧ displayLoop pre fuel (unlines ls ++ rest) = unlines out.flatten ++ displayLoop pre fuel' rest := by
  intro ls
  induction ls with
  | nil => exact fun _ => ⟨[], .nil, fun fuel rest h => ⟨fuel, by simpa [unlines] using h, by simp [unlines]⟩⟩
  | cons l ls ih =>
    intro h
    obtain ⟨out, k1, k2, -⟩ := displayLoop_line h1 (h l List.mem_cons_self).1 (h l List.mem_cons_self).2
    obtain ⟨outs, j1, j2⟩ := ih fun x hx => h x (List.mem_cons_of_mem _ hx)
    refine ⟨out :: outs, .cons k1 j1, fun fuel rest hf => ?_⟩
    cases fuel with
    | zero => simp [unlines] at hf
    | succ fuel =>
      obtain ⟨fuel', m1, m2⟩ := j2 fuel rest (by
        simp only [unlines, List.flatMap_cons, List.length_append, List.length_cons, List.length_nil] at hf ⊢
        omega)
      refine ⟨fuel', m1, ?_⟩
      have : unlines (l :: ls) ++ rest = l ++ '\n' :: (unlines ls ++ rest) := by simp [unlines]
      rw [this, k2, m2]
      simp [unlines]

/-- C68: **`display` breaks each line of the message where it has to**, and where the last line has no end it adds one, unless that line is blank. -/
theorem C68_display {pre : Text} (hpre : NoNul pre) {ls : List Text} (h : ∀ l ∈ ls, NoNul l ∧ '\n' ∉ l) :
    ∃ out, List.Forall₂ (Laid 79 pre) ls out ∧ display (unlines ls) pre = unlines out.flatten ∧ ∀ l, NoNul l → '\n' ∉ l →
      (¬ Blanks l → ∃ o, Laid 79 pre l o ∧ display (unlines ls ++ l) pre = unlines (out.flatten ++ o)) ∧
      (Blanks l → l ≠ [] → display (unlines ls ++ l) pre = unlines out.flatten ++ (pre ++ l)) := by
  obtain ⟨out, h1, h2⟩ := displayLoop_lines hpre ls h
  refine ⟨out, h1, ?_, fun l n1 n2 => ⟨fun hb => ?_, fun hb hne => ?_⟩⟩
  · obtain ⟨fuel', -, h3⟩ := h2 (unlines ls).length [] (by simp)
    rw [List.append_nil] at h3
    rw [display, h3]
    cases fuel' <;> simp [displayLoop]
  · obtain ⟨fuel', h4, h3⟩ := h2 (unlines ls ++ l).length l (by simp)
    obtain ⟨o, k1, -, k2⟩ := displayLoop_line hpre n1 n2
    refine ⟨o, k1, ?_⟩
    cases fuel' with
    | zero => exact absurd (List.eq_nil_of_length_eq_zero (Nat.le_zero.1 h4)) (by rintro rfl; exact hb (by simp [Blanks]))
    | succ fuel' =>
      rw [display, h3, k2 hb]
      simp [unlines]
  · obtain ⟨fuel', h4, h3⟩ := h2 (unlines ls ++ l).length l (by simp)
    cases fuel' with
    | zero => exact absurd (List.eq_nil_of_length_eq_zero (Nat.le_zero.1 h4)) hne
    | succ fuel' => rw [display, h3, displayLoop_blank hpre n1 n2 hb hne]

/-! ## consequences -/

theorem Broken.head {width start : ℕ} {b : Text} {cs : List Text} (h : Broken width start b cs) : ∃ c cs', cs = c :: cs' ∧ c <+: b := by
  cases h with
  | last => exact ⟨_, _, rfl, List.prefix_append _ _⟩
  | more => exact ⟨_, _, rfl, by rw [List.append_assoc]; exact List.prefix_append _ _⟩

theorem Broken.one {width start : ℕ} {b : Text} {cs : List Text} (h : Broken width start b cs) (hf : start + b.length ≤ width) (ht : ∀ c ∈ b.getLast?, isSpace c = false) : cs = [b] := by
  cases h with
  | @last c g _ _ hg =>
    rcases List.eq_nil_or_concat g with rfl | ⟨g', x, rfl⟩
    · simp
    · have h1 := ht x (by simp [List.concat_eq_append])
      rw [hg x (by simp)] at h1
      exact nomatch h1
  | @more c g b' c' w cs' _ _ _ _ _ hp hb h' =>
    obtain ⟨_, _, e, h2⟩ := h'.head
    cases e
    have := (hp.trans h2).length_le
    simp only [List.length_append] at hf hb
    omega

/-- C68: **a message whose lines fit is printed as it is**, with the prefix in front of each line. -/
theorem C68_fits {pre : Text} (hpre : NoNul pre) {ls : List Text} (h : ∀ l ∈ ls, NoNul l ∧ '\n' ∉ l) (hf : ∀ l ∈ ls, pre.length + l.length ≤ 79)
    (ht : ∀ l ∈ ls, ∀ c ∈ l.getLast?, isSpace c = false) : display (unlines ls) pre = unlines (ls.map fun l => pre ++ l) := by
  obtain ⟨out, h1, h2, -⟩ := C68_display hpre h
  rw [h2]
  congr 1
  clear h2 h
  induction h1 with
  | nil => rfl
  | @cons l o ls out hl _ ih =>
    rw [List.flatten_cons, ih (fun x hx => hf x (List.mem_cons_of_mem _ hx)) (fun x hx => ht x (List.mem_cons_of_mem _ hx)), List.map_cons]
    obtain ⟨ind, body, chunks, rfl, hi, _, hb, rfl⟩ := hl
    have h3 := hf (ind ++ body) List.mem_cons_self
    have h4 := ht (ind ++ body) List.mem_cons_self
    rw [List.length_append] at h3
    rw [hb.one (by omega) fun c hc => h4 c (by rw [List.getLast?_append]; cases hb' : body.getLast? <;> simp_all)]
    simp

/-- C68: **no line is longer than 79 characters unless it has only one word.** -/
theorem C68_width {pre line : Text} {out : List Text} (h : Laid 79 pre line out) : ∀ o ∈ out, o.length ≤ 79 ∨ ∃ ind w, Blanks ind ∧ Solid w ∧ o = pre ++ ind ++ w := by
  obtain ⟨ind, body, chunks, rfl, hi, _, hb, rfl⟩ := h
  intro o ho
  obtain ⟨c, hc, rfl⟩ := List.mem_map.1 ho
  have key : ∀ {b : Text} {cs : List Text}, Broken 79 (pre.length + ind.length) b cs → ∀ c ∈ cs, pre.length + ind.length + c.length ≤ 79 ∨ Solid c := by
    intro b cs hb
    induction hb with
    | last _ hf _ => intro c hc; simp at hc; exact hc ▸ hf
    | more _ hf _ _ _ _ _ _ ih =>
      intro c hc
      rcases List.mem_cons.1 hc with rfl | hc
      · exact hf
      · exact ih c hc
  rcases key hb c hc with h | h
  · left; simp only [List.length_append]; exact h
  · exact .inr ⟨ind, c, hi, h, rfl⟩

theorem wordsOf_append {a b : Text} {x : Char} (hx : isSpace x = true) : wordsOf (a ++ x :: b) = wordsOf a ++ wordsOf b := by
  unfold wordsOf
  rw [List.splitOnP_append_cons _ _ hx, List.filter_append]

theorem wordsOf_nil : wordsOf [] = [] := rfl

theorem wordsOf_blanks {g : Text} (hg : Blanks g) (b : Text) : wordsOf (g ++ b) = wordsOf b := by
  induction g with
  | nil => rfl
  | cons x g ih =>
    have := wordsOf_append (a := []) (b := g ++ b) (hg x List.mem_cons_self)
    rw [List.nil_append, wordsOf_nil, List.nil_append] at this
    rw [List.cons_append, this, ih fun y hy => hg y (List.mem_cons_of_mem _ hy)]

theorem wordsOf_gap {a g : Text} (hg : Blanks g) (hne : g ≠ []) (b : Text) : wordsOf (a ++ g ++ b) = wordsOf a ++ wordsOf b := by
  cases g with
  | nil => exact absurd rfl hne
  | cons x g =>
    rw [List.append_assoc, List.cons_append, wordsOf_append (hg x List.mem_cons_self), wordsOf_blanks fun y hy => hg y (List.mem_cons_of_mem _ hy)]

theorem Broken.words {width start : ℕ} {b : Text} {cs : List Text} (h : Broken width start b cs) : wordsOf b = cs.flatMap wordsOf := by
  induction h with
  | @last c g _ _ hg =>
    by_cases hne : g = []
    · simp [hne]
    · have := wordsOf_gap (a := c) hg hne []
      simpa [wordsOf_nil] using this
  | @more c g b c' w cs _ _ hg he _ _ _ _ ih =>
    rw [List.flatMap_cons, ← ih]
    rcases he with he | ⟨rfl, -⟩
    · exact wordsOf_gap hg he b
    · rw [List.nil_append, wordsOf_blanks hg, wordsOf_nil, List.nil_append]

theorem unlines_words (ls : List Text) : wordsOf (unlines ls) = ls.flatMap wordsOf := by
  induction ls with
  | nil => rfl
  | cons l ls ih =>
    have : unlines (l :: ls) = l ++ '\n' :: unlines ls := by simp [unlines]
    rw [this, wordsOf_append (by decide), ih, List.flatMap_cons]

/-- C68: **the words of the message are printed, in their order and none is torn apart**, if the prefix is blank. -/
theorem C68_words {pre : Text} (hpre : NoNul pre) (hb : Blanks pre) {ls : List Text} (h : ∀ l ∈ ls, NoNul l ∧ '\n' ∉ l) :
    wordsOf (display (unlines ls) pre) = wordsOf (unlines ls) := by
  obtain ⟨out, h1, h2, -⟩ := C68_display hpre h
  rw [h2, unlines_words, unlines_words]
  clear h2 h
  induction h1 with
  | nil => rfl
  | cons hl _ ih =>
    rw [List.flatten_cons, List.flatMap_append, ih, List.flatMap_cons]
    congr 1
    obtain ⟨ind, body, chunks, rfl, hi, _, hbr, rfl⟩ := hl
    rw [wordsOf_blanks hi, hbr.words, List.flatMap_map]
    congr 1
    funext c
    rw [List.append_assoc, wordsOf_blanks hb, wordsOf_blanks hi]

/-- Each message is some lines, and perhaps a last line without an end. -/
theorem message_lines (msg : Text) : ∃ ls l, msg = unlines ls ++ l ∧ (∀ x ∈ ls, '\n' ∉ x) ∧ '\n' ∉ l := by
  induction msg with
  | nil => exact ⟨[], [], rfl, by simp, by simp⟩
  | cons c msg ih =>
    obtain ⟨ls, l, rfl, h1, h2⟩ := ih
    by_cases hc : c = '\n'
    · exact ⟨[] :: ls, l, by simp [unlines, hc], by simpa using h1, h2⟩
    · cases ls with
      | nil => exact ⟨[], c :: l, rfl, by simp, by simp [h2, Ne.symm hc]⟩
      | cons x ls => exact ⟨(c :: x) :: ls, l, by simp [unlines], by
          intro y hy
          rcases List.mem_cons.1 hy with rfl | hy
          · simp [Ne.symm hc, h1 x List.mem_cons_self]
          · exact h1 y (List.mem_cons_of_mem _ hy), h2⟩

/-! ## columns -/

theorem lineOf_end {x : Text} (h : '\n' ∉ x) (t : Text) : lineOf (x ++ '\n' :: t) = x ∧ afterLine (x ++ '\n' :: t) = t := by
  unfold lineOf afterLine
  induction x with
  | nil => simp
  | cons c x ih =>
    have hc : c ≠ '\n' := fun e => h (by simp [e])
    have := ih fun hx => h (List.mem_cons_of_mem _ hx)
    simpa [hc] using this

theorem lineOf_last {x : Text} (h : '\n' ∉ x) : lineOf x = x ∧ afterLine x = [] := by
  unfold lineOf afterLine
  induction x with
  | nil => simp
  | cons c x ih =>
    have hc : c ≠ '\n' := fun e => h (by simp [e])
    have := ih fun hx => h (List.mem_cons_of_mem _ hx)
    simpa [hc] using this

theorem HasLines.nil {t : Text} : HasLines t [] ↔ t = [] := by
  refine ⟨fun h => ?_, fun h => ⟨by simp, .inl (by simp [h, unlines])⟩⟩
  rcases h.2 with h | ⟨ls', l, -, h, -⟩
  · simpa [unlines] using h
  · simp at h

theorem HasLines.cons {t x : Text} {ls : List Text} (h : HasLines t (x :: ls)) :
    lineOf t = x ∧ HasLines (afterLine t) ls ∧ (afterLine t).length < t.length := by
  obtain ⟨h1, h2⟩ := h
  have hx := h1 x List.mem_cons_self
  have hl : ∀ l ∈ ls, '\n' ∉ l := fun l hl => h1 l (List.mem_cons_of_mem _ hl)
  rcases h2 with h2 | ⟨ls', l, hne, h2, h3⟩
  · have : t = x ++ '\n' :: unlines ls := by simp [h2, unlines]
    obtain ⟨e1, e2⟩ := lineOf_end hx (unlines ls)
    rw [this, e1, e2]
    exact ⟨rfl, ⟨hl, .inl rfl⟩, by simp; omega⟩
  · cases ls' with
    | nil =>
      simp only [List.nil_append, List.cons.injEq] at h2
      obtain ⟨rfl, rfl⟩ := h2
      simp only [unlines, List.flatMap_nil, List.nil_append] at h3
      subst h3
      obtain ⟨e1, e2⟩ := lineOf_last hx
      rw [e1, e2]
      exact ⟨rfl, HasLines.nil.2 rfl, List.length_pos_of_ne_nil hne⟩
    | cons y ls' =>
      simp only [List.cons_append, List.cons.injEq] at h2
      obtain ⟨rfl, rfl⟩ := h2
      have : t = x ++ '\n' :: (unlines ls' ++ l) := by simp [h3, unlines]
      obtain ⟨e1, e2⟩ := lineOf_end hx (unlines ls' ++ l)
      rw [this, e1, e2]
      exact ⟨rfl, ⟨hl, .inr ⟨ls', l, hne, rfl, rfl⟩⟩, by simp; omega⟩

/-- Each text has lines. -/
theorem hasLines_exists (t : Text) : ∃ ls, HasLines t ls := by
  obtain ⟨ls, l, rfl, h1, h2⟩ := message_lines t
  by_cases h : l = []
  · exact ⟨ls, h1, .inl (by simp [h])⟩
  · refine ⟨ls ++ [l], ?_, .inr ⟨ls, l, h, rfl, rfl⟩⟩
    intro x hx
    rcases List.mem_append.1 hx with hx | hx
    · exact h1 x hx
    · simp at hx; exact hx ▸ h2

theorem HasLines.length_le {t : Text} {ls : List Text} (h : HasLines t ls) : ls.length ≤ t.length := by
  induction ls generalizing t with
  | nil => simp
  | cons x ls ih =>
    obtain ⟨-, h1, h2⟩ := h.cons
    have := ih h1
    simp only [List.length_cons]
    omega

theorem columnWidth_eq : ∀ (ls : List Text) (fuel w : ℕ) (t : Text), HasLines t ls → t.length ≤ fuel → columnWidth fuel w t = max w (largest (ls.map List.length)) := by
  intro ls
  induction ls with
  | nil =>
    intro fuel w t h _
    rw [HasLines.nil.1 h]
    cases fuel <;> simp [columnWidth, largest]
  | cons x ls ih =>
    intro fuel w t h hf
    obtain ⟨h1, h2, h3⟩ := h.cons
    cases fuel with
    | zero => omega
    | succ fuel =>
      have hne : t ≠ [] := by rintro rfl; simp at h3
      rw [columnWidth, if_neg hne, ih _ _ _ h2 (by omega), h1]
      simp only [largest, List.map_cons, List.foldr_cons]
      split <;> omega

theorem largest_pred (ns : List ℕ) : largest (ns.map fun n => n - 1) = largest ns - 1 := by
  induction ns with
  | nil => rfl
  | cons n ns ih =>
    simp only [largest, List.map_cons, List.foldr_cons] at ih ⊢
    omega

theorem le_largest {n : ℕ} {ns : List ℕ} (h : n ∈ ns) : n ≤ largest ns := by
  induction ns with
  | nil => simp at h
  | cons m ns ih =>
    simp only [largest, List.foldr_cons]
    rcases List.mem_cons.1 h with rfl | h
    · omega
    · have := ih h
      simp only [largest] at this
      omega

theorem largest_le {n : ℕ} {ns : List ℕ} (h : ∀ m ∈ ns, m ≤ n) : largest ns ≤ n := by
  induction ns with
  | nil => simp [largest]
  | cons m ns ih =>
    have := ih fun k hk => h k (List.mem_cons_of_mem _ hk)
    have := h m List.mem_cons_self
    simp only [largest, List.foldr_cons] at *
    omega

/-- A cell: the column, its width, what is left of its text, and the lines of that. -/
structure Cells where
  col : Column
  width : ℕ
  text : Text
  lines : List Text

theorem Cells.head {c : Cells} (h : HasLines c.text c.lines) : lineOf c.text = c.lines.getD 0 [] ∧ HasLines (afterLine c.text) c.lines.tail := by
  obtain ⟨col, w, t, ls⟩ := c
  cases ls with
  | nil =>
    have : t = [] := HasLines.nil.1 h
    subst this
    exact ⟨rfl, HasLines.nil.2 rfl⟩
  | cons x ls => exact ⟨(HasLines.cons h).1, (HasLines.cons h).2.1⟩

theorem printCell_eq (col : Column) (w : ℕ) (t : Text) : printCell col w t = col.pre ++ filledUp col.flushLeft w (lineOf t) ++ col.suf := by
  unfold printCell filledUp
  cases col.flushLeft <;> simp

theorem printRows_eq (pre : Text) : ∀ (fuel : ℕ) (cs : List Cells), (∀ c ∈ cs, HasLines c.text c.lines) → largest (cs.map fun c => c.lines.length) ≤ fuel →
    printRows pre fuel (cs.map fun c => (c.col, c.width, c.text)) =
      unlines ((List.range (largest (cs.map fun c => c.lines.length))).map fun i =>
        pre ++ cs.flatMap fun c => c.col.pre ++ filledUp c.col.flushLeft c.width (c.lines.getD i []) ++ c.col.suf) := by
  intro fuel
  induction fuel with
  | zero =>
    intro cs _ hf
    rw [Nat.le_zero.1 hf]
    rfl
  | succ fuel ih =>
    intro cs h hf
    rw [printRows]
    split
    · next hall =>
      have : largest (cs.map fun c => c.lines.length) = 0 := by
        refine Nat.le_zero.1 (largest_le fun m hm => ?_)
        obtain ⟨c, hc, rfl⟩ := List.mem_map.1 hm
        have h1 : c.text = [] := by
          have := List.all_eq_true.1 hall (c.col, c.width, c.text) (List.mem_map.2 ⟨c, hc, rfl⟩)
          simpa using this
        have := (h c hc).length_le
        simpa [h1] using this
      rw [this]
      rfl
    · next hall =>
      have hpos : largest (cs.map fun c => c.lines.length) ≠ 0 := by
        intro h0
        refine hall (List.all_eq_true.2 fun x hx => ?_)
        obtain ⟨c, hc, rfl⟩ := List.mem_map.1 hx
        have h1 : c.lines.length ≤ 0 := h0 ▸ le_largest (List.mem_map.2 ⟨c, hc, rfl⟩)
        have h2 : c.lines = [] := List.eq_nil_of_length_eq_zero (Nat.le_zero.1 h1)
        have h3 := h c hc
        rw [h2] at h3
        simpa using HasLines.nil.1 h3
      have h1 := ih (cs.map fun c => ⟨c.col, c.width, afterLine c.text, c.lines.tail⟩) (by
        intro c hc
        obtain ⟨c', hc', rfl⟩ := List.mem_map.1 hc
        exact (Cells.head (h c' hc')).2) (by
        have := largest_pred (cs.map fun c => c.lines.length)
        rw [List.map_map] at this ⊢
        simp only [Function.comp_def, List.length_tail] at this ⊢
        omega)
      have h2 : largest ((cs.map fun c => (⟨c.col, c.width, afterLine c.text, c.lines.tail⟩ : Cells)).map fun c => c.lines.length) + 1 = largest (cs.map fun c => c.lines.length) := by
        have := largest_pred (cs.map fun c => c.lines.length)
        rw [List.map_map] at this ⊢
        simp only [Function.comp_def, List.length_tail] at this ⊢
        omega
      rw [List.map_map] at h1
      rw [← h2, List.range_succ_eq_map, List.map_cons, List.map_map, List.map_map]
      simp only [Function.comp_def] at h1 ⊢
      rw [h1]
      simp only [unlines, List.flatMap_cons, List.flatMap_map]
      have e1 : (cs.flatMap fun c => printCell c.col c.width c.text) = cs.flatMap fun c => c.col.pre ++ filledUp c.col.flushLeft c.width (c.lines.getD 0 []) ++ c.col.suf :=
        List.flatMap_congr fun c hc => by rw [printCell_eq, (Cells.head (h c hc)).1]
      have e2 : ∀ (c : Cells) (i : ℕ), c.lines.tail.getD i [] = c.lines.getD i.succ [] := fun c i => by cases c.lines <;> simp
      simp only [e1, e2]

theorem le_sum_of_mem' {n : ℕ} {ns : List ℕ} (h : n ∈ ns) : n ≤ ns.sum := by
  induction ns with
  | nil => simp at h
  | cons m ns ih =>
    rw [List.sum_cons]
    rcases List.mem_cons.1 h with rfl | h
    · omega
    · have := ih h
      omega

/-- C68: **the columns are printed row by row**, each filled up to the length of its longest line. -/
theorem C68_columns (pre : Text) (cols : List (Column × List Text)) (h : ∀ c ∈ cols, HasLines c.1.text c.2) :
    printColumns pre (cols.map Prod.fst) = unlines (tableRows pre cols) := by
  have h1 := printRows_eq pre (((cols.map Prod.fst).map fun c => c.text.length).sum + 1) (cols.map fun c => ⟨c.1, columnWidth c.1.text.length 0 c.1.text, c.1.text, c.2⟩) (by
    intro c hc
    obtain ⟨c', hc', rfl⟩ := List.mem_map.1 hc
    exact h c' hc') (by
    refine largest_le fun m hm => ?_
    simp only [List.map_map, List.mem_map, Function.comp_def] at hm
    obtain ⟨c, hc, rfl⟩ := hm
    have h2 := (h c hc).length_le
    have h3 : c.1.text.length ≤ ((cols.map Prod.fst).map fun c => c.text.length).sum := le_sum_of_mem' (by
      simp only [List.map_map, List.mem_map, Function.comp_def]
      exact ⟨c, hc, rfl⟩)
    omega)
  unfold printColumns tableRows
  rw [List.map_map] at h1 ⊢
  simp only [Function.comp_def, List.map_map] at h1 ⊢
  rw [h1]
  congr 1
  refine List.map_congr_left fun i _ => ?_
  congr 1
  simp only [List.flatMap_map]
  refine List.flatMap_congr fun c hc => ?_
  rw [columnWidth_eq c.2 _ _ _ (h c hc) le_rfl, Nat.zero_max]

/-- C68: all rows have the same length. -/
theorem C68_rows (pre : Text) (cols : List (Column × List Text)) : ∀ r ∈ tableRows pre cols, r.length = pre.length +
    (cols.map fun c => c.1.pre.length + largest (c.2.map List.length) + c.1.suf.length).sum := by
  intro r hr
  obtain ⟨i, -, rfl⟩ := List.mem_map.1 hr
  rw [List.length_append, List.length_flatMap]
  congr 2
  refine List.map_congr_left fun c _ => ?_
  have h : (c.2.getD i []).length ≤ largest (c.2.map List.length) := by
    rw [List.getD_eq_getElem?_getD]
    cases hi : c.2[i]? with
    | none => simp
    | some x => exact le_largest (List.mem_map.2 ⟨x, List.mem_of_getElem? hi, rfl⟩)
  have h2 : (filledUp c.1.flushLeft (largest (c.2.map List.length)) (c.2.getD i [])).length = largest (c.2.map List.length) := by
    unfold filledUp
    split <;> simp only [List.length_append, List.length_replicate] <;> omega
  simp only [List.length_append, h2]

/-! ## examples -/

example : display t!"a bc\n  d\n" t!" > " = t!" > a bc\n >   d\n" := by decide +kernel

example : printColumns t!"" [⟨false, t!" ", t!"", t!"a\nbcd\n"⟩, ⟨true, t!" - ", t!"", t!"xy\nz\n"⟩] = t!"   a - xy\n bcd - z \n" := by decide +kernel

/-- A line that has to be broken. -/
example : display (List.replicate 50 'a' ++ t!"  " ++ List.replicate 40 'b' ++ t!"\n") t!"" = List.replicate 50 'a' ++ t!"\n" ++ List.replicate 40 'b' ++ t!"\n" := by decide +kernel

/-- C68: **a word that is too long for a line stands below a line of which nothing but the prefix and the indentation is printed**, contrary to the comment in
`Printer::printWord` (display.cpp:96-98), unless there are neither. -/
theorem C68_long_word_witness : display (List.replicate 77 'a' ++ t!"\n") t!"   " = t!"   \n   " ++ List.replicate 77 'a' ++ t!"\n" ∧
    display (List.replicate 90 'a' ++ t!"\n") t!"" = List.replicate 90 'a' ++ t!"\n" := by decide +kernel

/-- C68: **a last line of blanks that has no end is printed without an end.** -/
theorem C68_blank_last_witness : display t!"a\n  " t!"> " = t!"> a\n>   " ∧ display t!"a\n  b" t!"> " = t!"> a\n>   b\n" := by decide +kernel

/-- C68: **the rest of a word after a character of value zero is not printed.** -/
theorem C68_nul_witness : display ['a', Char.ofNat 0, 'b', ' ', 'c', '\n'] [] = t!"a c\n" := by decide +kernel

end Frobby
