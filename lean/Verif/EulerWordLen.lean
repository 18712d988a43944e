import Verif.PropsRsf
import Verif.PropsWord
import Verif.EulerWordModel

/-!
# The functions on ideals of packed terms do not change the size of the memory
-/

namespace Frobby

theorem putTerm_len {W i : ℕ} {mem mem' t : List Word} (h : putTerm W mem i t = some mem') : mem'.length = mem.length :=
  writeWords_length h

theorem eachTerm_len {W : ℕ} {f : List Word → Option (List Word)} : ∀ (n : ℕ) {mem mem' : List Word} {it : ℕ},
    eachTerm W f mem it n = some mem' → mem'.length = mem.length := by
  intro n
  induction n with
  | zero => intro mem mem' it h; simp only [eachTerm, Option.some.injEq] at h; rw [h]
  | succ n ih =>
    intro mem mem' it h
    unfold eachTerm at h
    split at h
    · cases h
    · split at h
      · cases h
      · split at h
        · cases h
        · rename_i hp
          rw [ih h, putTerm_len hp]

theorem swapTerms_len {W V i j : ℕ} {mem mem' : List Word} (h : swapTerms W V mem i j = some mem') :
    mem'.length = mem.length := by
  unfold swapTerms at h
  split at h
  · split at h
    · cases h
    · split at h
      · cases h
      · rename_i hp
        rw [putTerm_len h, putTerm_len hp]
  · cases h

theorem rsfMinimizeLoop_len {W start it stop : ℕ} {mem mem' : List Word} {e : ℕ}
    (h : rsfMinimizeLoop W mem start it stop = some (mem', e)) : mem'.length = mem.length := by
  fun_induction rsfMinimizeLoop W mem start it stop with
  | case1 => cases h
  | case2 => cases h
  | case3 => cases h
  | case4 mem it stop hlt hd a ha mem2 hp ih => rw [ih h, putTerm_len hp]
  | case5 mem it stop hlt hd ih => exact ih h
  | case6 mem it stop hlt =>
    simp only [Option.some.injEq, Prod.mk.injEq] at h
    rw [h.1]

theorem rsfPartitionWords_len {W V : ℕ} {p : List Word → Option Bool} {b e : ℕ} {mem mem' : List Word} {m : ℕ}
    (h : rsfPartitionWords W V p mem b e = some (mem', m)) : mem'.length = mem.length := by
  induction n : e - b using Nat.strongRecOn generalizing mem b e with
  | ind n ih =>
    unfold rsfPartitionWords at h
    split at h
    · split at h
      · cases h
      · rename_i hbe b' hb
        split at h
        · simp only [Option.some.injEq, Prod.mk.injEq] at h; rw [h.1]
        · split at h
          · cases h
          · rename_i hne e' he
            split at h
            · simp only [Option.some.injEq, Prod.mk.injEq] at h; rw [h.1]
            · split at h
              · cases h
              · rename_i hne' mem2 hs
                have h1 := findTerm_ge _ _ _ _ _ _ hb
                have h2 := skipBack_le _ _ _ _ _ _ he
                rw [ih (e' - (b' + 1)) (by omega) h rfl, swapTerms_len hs]
    · simp only [Option.some.injEq, Prod.mk.injEq] at h; rw [h.1]

theorem keepNonMultiples_len {W newMiddle : ℕ} : ∀ (n : ℕ) {mem mem' : List Word} {newEnd it e : ℕ},
    keepNonMultiples W newMiddle mem newEnd it n = some (mem', e) → mem'.length = mem.length := by
  intro n
  induction n with
  | zero =>
    intro mem mem' newEnd it e h
    simp only [keepNonMultiples, Option.some.injEq, Prod.mk.injEq] at h
    rw [h.1]
  | succ n ih =>
    intro mem mem' newEnd it e h
    unfold keepNonMultiples at h
    split at h
    · cases h
    · split at h
      · cases h
      · split at h
        · exact ih h
        · split at h
          · cases h
          · rename_i hp
            rw [ih h, putTerm_len hp]

theorem colonVarWords_len {W middle : ℕ} {mem mem' : List Word} {genCount it stop s g : ℕ}
    (h : colonVarWords W middle mem genCount it stop = some (mem', s, g)) : mem'.length = mem.length := by
  induction n : stop - it using Nat.strongRecOn generalizing mem it stop genCount with
  | ind n ih =>
    unfold colonVarWords at h
    split at h
    · split at h
      · cases h
      · split at h
        · cases h
        · split at h
          · split at h
            · cases h
            · split at h
              · cases h
              · rename_i hp
                rw [ih (stop - 1 - it) (by omega) h rfl, putTerm_len hp]
          · exact ih (stop - (it + 1)) (by omega) h rfl
    · simp only [Option.some.injEq, Prod.mk.injEq] at h
      rw [h.1]

theorem minimize_len {r r' : RsfIdeal} (h : r.minimize = some r') : r'.memory.length = r.memory.length := by
  unfold RsfIdeal.minimize at h
  split at h
  · cases h
  · rename_i hm
    cases h
    exact rsfMinimizeLoop_len hm

theorem colonVar_len {r r' : RsfIdeal} {v : ℕ} (h : r.colonVar v = some r') : r'.memory.length = r.memory.length := by
  unfold RsfIdeal.colonVar at h
  obtain ⟨mem, hm, rfl⟩ := Option.map_eq_some_iff.1 h
  exact eachTerm_len _ hm

theorem removeGenerator_len {r r' : RsfIdeal} {i : ℕ} (h : r.removeGenerator i = some r') :
    r'.memory.length = r.memory.length := by
  unfold RsfIdeal.removeGenerator at h
  simp only at h
  split at h
  · cases h
  · rename_i mem hm
    cases h
    split at hm
    · split at hm
      · cases hm
      · exact putTerm_len hm
    · cases hm; rfl

theorem swap_len {r r' : RsfIdeal} {i j : ℕ} (h : r.swap i j = some r') : r'.memory.length = r.memory.length := by
  unfold RsfIdeal.swap at h
  obtain ⟨mem, hm, rfl⟩ := Option.map_eq_some_iff.1 h
  exact swapTerms_len hm

theorem colonReminimize_len {r r' : RsfIdeal} {b : List Word} (h : r.colonReminimize b = some r') :
    r'.memory.length = r.memory.length := by
  unfold RsfIdeal.colonReminimize at h
  simp only at h
  split at h
  · cases h
  · rename_i mem middle hp
    split at h
    · cases h; exact rsfPartitionWords_len hp
    · split at h
      · cases h
      · rename_i mem2 he
        split at h
        · cases h
        · rename_i mem3 newMiddle hm
          split at h
          · cases h
          · rename_i mem4 newEnd hk
            cases h
            change mem4.length = _
            rw [keepNonMultiples_len _ hk, rsfMinimizeLoop_len hm, eachTerm_len _ he, rsfPartitionWords_len hp]

theorem colonReminimizeVar_len {r r' : RsfIdeal} {v : ℕ} (h : r.colonReminimizeVar v = some r') :
    r'.memory.length = r.memory.length := by
  unfold RsfIdeal.colonReminimizeVar at h
  simp only at h
  split at h
  · cases h
  · rename_i mem middle hp
    split at h
    · cases h; exact rsfPartitionWords_len hp
    · split at h
      · cases h
      · rename_i mem2 he
        split at h
        · cases h
          change mem2.length = _
          rw [eachTerm_len _ he, rsfPartitionWords_len hp]
        · split at h
          · cases h
          · rename_i mem3 stop genCount hk
            cases h
            change mem3.length = _
            rw [colonVarWords_len hk, eachTerm_len _ he, rsfPartitionWords_len hp]

theorem insert_len {r r' : RsfIdeal} {t : List Word} (h : r.insert t = some r') : r'.memory.length = r.memory.length := by
  unfold RsfIdeal.insert at h
  split at h
  · cases h
  · split at h
    · cases h
    · rename_i hw
      cases h
      exact writeWords_length hw

theorem foldTerms_len {W : ℕ} {f : RsfIdeal → List Word → Option RsfIdeal}
    (hf : ∀ r a r', f r a = some r' → r'.memory.length = r.memory.length) {mem : List Word} : ∀ (n : ℕ) {r r' : RsfIdeal} {it : ℕ},
    foldTerms W f r mem it n = some r' → r'.memory.length = r.memory.length := by
  intro n
  induction n with
  | zero => intro r r' it h; simp only [foldTerms, Option.some.injEq] at h; rw [h]
  | succ n ih =>
    intro r r' it h
    unfold foldTerms at h
    split at h
    · cases h
    · split at h
      · cases h
      · rename_i hr
        rw [ih h, hf _ _ _ hr]

theorem insertNonMultiples_len {r r' I : RsfIdeal} {t : List Word} (h : r.insertNonMultiples t I = some r') :
    r'.memory.length = r.memory.length := by
  refine foldTerms_len (fun r a r' h => ?_) _ h
  split at h
  · cases h
  · cases h; rfl
  · exact insert_len h

theorem insertNonMultiplesVar_len {r r' I : RsfIdeal} {v : ℕ} (h : r.insertNonMultiplesVar v I = some r') :
    r'.memory.length = r.memory.length := by
  refine foldTerms_len (fun r a r' h => ?_) _ h
  split at h
  · cases h
  · cases h; rfl
  · exact insert_len h

end Frobby
