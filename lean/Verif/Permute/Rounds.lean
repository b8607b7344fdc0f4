import Verif.Permute.Measure

/-!
# Every kind of round keeps the invariant and comes nearer to the end
-/

namespace Grey.Permute

/-- Some value of the stack is wanted. -/
def Alive (fin : List String) (s : St) : Prop := fin ≠ [] → ∃ v ∈ s.cstack, v ∈ fin

/-- The round goes on, with a state that is nearer to the end. -/
def Next (fin : List String) (reach : Nat) (s : St) (r : Step) : Prop :=
  ∃ t, r = .more t ∧ Good fin t ∧ Alive fin t ∧ Nearer fin reach s t

section
variable {fin : List String} {reach : Nat} {s t : St} {top : String}

theorem mem_unmark {S : List Int} (h : S.Nodup) (p q : Int) : p ∈ unmark S q ↔ p ≠ q ∧ p ∈ S := h.mem_erase_iff

theorem Alive.swap (h : Alive fin s) {k : Nat} (hk : 1 ≤ k) (hkl : k < s.cstack.length) (hc : t.cstack = swapTop s.cstack k) : Alive fin t := by
  intro hf
  obtain ⟨v, hv, hw⟩ := h hf
  exact ⟨v, by rw [hc]; exact (swapTop_perm hkl hk).mem_iff.2 hv, hw⟩

theorem Open.alive (h : Open fin s top) : Alive fin s := fun _ => ⟨top, List.mem_of_getElem? h.head, h.need⟩

theorem Good.out (h : Good fin s) {d : Nat} (hd : fin.length ≤ d ∨ s.cstack.length ≤ d) : pos fin d ∉ s.solved := by
  intro hm
  have := h.lt hm
  omega

/-- Garbage is not wanted at all. -/
theorem Good.garbage (h : Good fin s) {v : String} (hc : (s.reg ++ s.cstack).count v ≠ fin.count v) : v ∉ fin :=
  fun hv => hc (h.cnt v hv)

theorem bot_mem {l : List String} {d : Nat} {v : String} (h : bot l d = some v) : v ∈ l :=
  List.mem_reverse.1 (List.mem_of_getElem? h)

/-- Garbage comes to the top. -/
theorem next_garbage (h : Open fin s top) (hp : ¬ Place fin reach s) {j : Nat}
    (hj : garbageAt fin (s.reg ++ s.cstack) s.cstack reach = some j) :
    Next fin reach s (.more { s.swapped j with solved := unmark s.solved (s.base fin) }) := by
  obtain ⟨hj1, hj2, v, hv, hcv⟩ := garbageAt_spec hj
  have hjl : j < s.cstack.length := (List.getElem?_eq_some_iff.1 hv).1
  have hvf := h.good.garbage hcv
  have hbj : bot s.cstack (s.cstack.length - 1 - j) = some v := by rw [bot_index hjl, hv]
  have hunm : pos fin (s.cstack.length - 1 - j) ∉ s.solved := by
    intro hm
    have := h.good.right _ hm
    rw [hbj] at this
    exact hvf (bot_mem this.symm)
  have hmem := mem_unmark h.good.nodup (q := s.base fin)
  rw [h.base] at hmem
  refine ⟨_, rfl, ?_, ?_, ?_⟩
  · refine h.swap hj1 hjl rfl rfl rfl (h.good.nodup.erase _) ?_ ?_ ?_ ?_ ?_
    · intro d h1 _
      dsimp only
      rw [h.base, hmem]
      exact ⟨fun x => x.2, fun x => ⟨fun e => h1 (pos_inj e), x⟩⟩
    · intro p hp'
      exact .inl (List.mem_of_mem_erase hp')
    · dsimp only
      rw [h.base, hmem]
      exact fun x => x.1 rfl
    · constructor
      · intro hm
        exact absurd (List.mem_of_mem_erase hm) hunm
      · rintro ⟨h1, h2⟩
        exact absurd ⟨_, by omega, by omega, h1, hunm, by rw [h2, h.head]⟩ hp
    · intro hD
      have := csl_eq hD
      rw [hbj] at this
      exact absurd (bot_mem this.symm) hvf
  · exact h.alive.swap hj1 hjl rfl
  · refine nearer_needed ?_ ?_
    · simp [total, St.swapped, length_swapTop]
    · rw [h.needed]
      unfold topNeeded
      rw [if_pos]
      · omega
      · refine ⟨v, ?_, ?_⟩
        · dsimp only [St.swapped]
          rw [swapTop_getElem? hj1 hjl, if_pos rfl, hv]
        · dsimp only [St.swapped]
          rw [List.count_eq_zero.2 hvf, List.count_append, swapTop_count hjl hj1]
          have := List.count_pos_iff.2 (List.mem_of_getElem? hv)
          omega

/-- The top is marked. -/
theorem next_mark (hr : 1 ≤ reach) (h : Open fin s top) (hp : ¬ Place fin reach s) (hl : s.cstack.length ≤ fin.length) (hb : s.base fin ∉ s.solved)
    (hi : idx fin (s.base fin) = some top) :
    Next fin reach s (.more { s with solved := s.solved ++ [s.base fin] }) := by
  have hpl := h.pos_len
  rw [h.base] at hb hi ⊢
  have hbt : bot fin (s.cstack.length - 1) = some top := by
    rw [← hi]; exact (idx_pos (by omega)).symm
  have hmem : ∀ d, d ≠ s.cstack.length - 1 → (pos fin d ∈ s.solved ++ [pos fin (s.cstack.length - 1)] ↔ pos fin d ∈ s.solved) := by
    intro d hd
    simp only [List.mem_append, List.mem_singleton]
    exact ⟨fun x => x.resolve_right fun e => hd (pos_inj e), .inl⟩
  refine ⟨_, rfl, ⟨h.good.cnt, h.good.reg, ?_, ?_, ?_, ?_, h.good.low⟩, h.alive, ?_⟩
  · rw [List.nodup_append]
    exact ⟨h.good.nodup, by simp, fun a ha b hb' => by rw [List.mem_singleton.1 hb']; rintro rfl; exact hb ha⟩
  · intro p hp'
    rcases List.mem_append.1 hp' with hp' | hp'
    · exact h.good.inn p hp'
    · exact ⟨s.cstack.length - 1, by omega, by dsimp only; omega, List.mem_singleton.1 hp'⟩
  · intro d hd
    dsimp only at hd ⊢
    by_cases hdl : d = s.cstack.length - 1
    · rw [hdl, hbt, h.top_bot]
    · exact h.good.right d ((hmem d hdl).1 hd)
  · intro d h1 h2 h3
    exact List.mem_append_left _ (h.good.mark d h1 h2 h3)
  · have hfs : Fresh fin s := ⟨by rw [hbt, h.top_bot], hb⟩
    have hmt : pos fin (s.cstack.length - 1) ∈ s.solved ++ [pos fin (s.cstack.length - 1)] := by simp
    have hft : ¬ Fresh fin { s with solved := s.solved ++ [pos fin (s.cstack.length - 1)] } := fun x => x.2 hmt
    have hpt : ¬ Place fin reach { s with solved := s.solved ++ [pos fin (s.cstack.length - 1)] } := by
      rintro ⟨d, h1, h2, h3, h4, h5⟩
      exact hp ⟨d, h1, h2, h3, fun hm => h4 (List.mem_append_left _ hm), h5⟩
    have hu : ∀ m, m ≤ s.cstack.length - 1 → unm fin (s.solved ++ [pos fin (s.cstack.length - 1)]) m = unm fin s.solved m := by
      intro m hm
      exact unm_congr fun d hd => hmem d (by omega)
    refine nearer_inner rfl h.needed (Nat.le_refl _) (h.other hp) ?_
    have hlt := h.lt_c
    generalize ht : ({ s with solved := s.solved ++ [pos fin (s.cstack.length - 1)] } : St) = t at *
    have hc : t.cstack = s.cstack := by rw [← ht]
    have hs : t.solved = s.solved ++ [pos fin (s.cstack.length - 1)] := by rw [← ht]
    have hg : t.reg = s.reg := by rw [← ht]
    rcases Nat.lt_or_ge reach (s.cstack.length - 1 - csl fin s.cstack) with h1 | h1
    · rw [inner_far h1, inner_far (s := t) (by rw [hc]; exact h1), if_pos hfs, if_neg hft, lex4_iff]
      rw [hc, hs, hu _ (Nat.le_refl _)]
      omega
    · rcases Nat.lt_or_ge (s.cstack.length - 1 - csl fin s.cstack + 1) reach with h2 | h2
      · rw [inner_near h2, inner_near (s := t) (by rw [hc]; exact h2), if_pos hfs, if_neg hft, if_pos (by rw [hc, hs]; exact hmt), lex4_iff]
        rw [hc, hs, hg, hu _ (Nat.le_refl _)]
        omega
      · rcases Nat.eq_or_lt_of_le h1 with h3 | h3
        · rw [inner_at h3, inner_at (s := t) (by rw [hc]; exact h3), if_neg hp, if_neg hpt, if_pos hfs, if_neg hft, lex4_iff]
          rw [hc, hs, hg, hu _ (by omega)]
          omega
        · have h4 : s.cstack.length - 1 - csl fin s.cstack + 1 = reach := by omega
          rw [inner_below h4, inner_below (s := t) (by rw [hc]; exact h4), if_pos hfs, if_neg hft, if_pos (by rw [hc, hs]; exact hmt), lex4_iff]
          rw [hc, hs, hg, hu _ (by omega)]
          omega

/-- The top goes to a place of its own. -/
theorem next_place (hr : 1 ≤ reach) (h : Open fin s top) {i : Nat}
    (hi : i = lastPlace fin s.cstack s.solved top (min reach (s.cstack.length - 1))) (h1 : 1 ≤ i) (h2 : 0 ≤ s.base fin + i) :
    Next fin reach s (.more { s.swapped i with solved := unmark (s.solved ++ [s.base fin + i]) (s.base fin) }) := by
  obtain ⟨hir, hil, hqn, hqu, hqt, hql⟩ := lastPlace_some h hi h1 h2
  rw [h.base_add hil, h.base]
  generalize hq : s.cstack.length - 1 - i = q at *
  have hnd : (s.solved ++ [pos fin q]).Nodup := by
    rw [List.nodup_append]
    exact ⟨h.good.nodup, by simp, fun a ha b hb' => by rw [List.mem_singleton.1 hb']; rintro rfl; exact hqu ha⟩
  have hmem : ∀ d, d ≠ s.cstack.length - 1 → d ≠ q →
      (pos fin d ∈ unmark (s.solved ++ [pos fin q]) (pos fin (s.cstack.length - 1)) ↔ pos fin d ∈ s.solved) := by
    intro d hd hd2
    rw [mem_unmark hnd]
    simp only [List.mem_append, List.mem_singleton]
    exact ⟨fun x => x.2.resolve_right fun e => hd2 (pos_inj e), fun x => ⟨fun e => hd (pos_inj e), .inl x⟩⟩
  have hqm : pos fin q ∈ unmark (s.solved ++ [pos fin q]) (pos fin (s.cstack.length - 1)) := by
    rw [mem_unmark hnd]
    exact ⟨fun e => by have := pos_inj e; omega, by simp⟩
  have htm : pos fin (s.cstack.length - 1) ∉ unmark (s.solved ++ [pos fin q]) (pos fin (s.cstack.length - 1)) := by
    rw [mem_unmark hnd]
    exact fun x => x.1 rfl
  have hDq := h.csl_le hqu
  refine ⟨_, rfl, ?_, h.alive.swap h1 hil rfl, ?_⟩
  · refine h.swap h1 hil rfl rfl rfl (hnd.erase _) ?_ ?_ htm ?_ ?_
    · intro d hd hd2
      exact hmem d hd (by omega)
    · intro p hp'
      rw [hq]
      have := List.mem_of_mem_erase hp'
      rcases List.mem_append.1 this with h3 | h3
      · exact .inl h3
      · exact .inr (List.mem_singleton.1 h3)
    · rw [hq]
      exact ⟨fun _ => ⟨hqn, hqt⟩, fun _ => hqm⟩
    · intro _; rw [hq]; exact hqt
  · have htot : total { s.swapped i with solved := unmark (s.solved ++ [pos fin q]) (pos fin (s.cstack.length - 1)) } = total s := by
      simp [total, St.swapped, length_swapTop]
    rcases Nat.eq_or_lt_of_le hDq with h3 | h3
    · refine nearer_csl htot h.needed ?_
      refine le_csl (by omega) ?_ ?_
      · dsimp only [St.swapped]; rw [length_swapTop]; have := h.lt_c; omega
      · intro d hd
        dsimp only [St.swapped]
        rw [bot_swapTop h1 hil, if_neg (by omega), hq]
        split
        · rename_i h4
          rw [h.head, h4, hqt]
        · exact csl_eq (by omega)
    · have hcs : csl fin (swapTop s.cstack i) = csl fin s.cstack := h.swap_csl h1 hil (by omega) (by omega)
      have hother : topOther fin reach s = 1 := by
        unfold topOther
        rw [if_neg]
        rintro ⟨h4, h5⟩
        exact hql _ h3 h5 h.lt_fin h.unmarked (by rw [← h4, h.head])
      refine nearer_inner htot h.needed (by dsimp only [St.swapped]; omega) hother ?_
      have hlt := h.lt_c
      have hu : ∀ m, q < m → m ≤ s.cstack.length - 1 →
          unm fin (unmark (s.solved ++ [pos fin q]) (pos fin (s.cstack.length - 1))) m < unm fin s.solved m := by
        intro m hm1 hm2
        refine unm_lt (q := q) ?_ hm1 hqu hqm
        intro d hd hd2
        by_cases hdq : d = q
        · rw [hdq]; exact hqm
        · exact (hmem d (by omega) hdq).2 hd2
      have hlen : (swapTop s.cstack i).length = s.cstack.length := length_swapTop _ _
      generalize ht : ({ s.swapped i with solved := unmark (s.solved ++ [pos fin q]) (pos fin (s.cstack.length - 1)) } : St) = t at *
      have hc : t.cstack = swapTop s.cstack i := by rw [← ht]; rfl
      have hs : t.solved = unmark (s.solved ++ [pos fin q]) (pos fin (s.cstack.length - 1)) := by rw [← ht]
      have hg : t.reg = s.reg := by rw [← ht]; rfl
      rcases Nat.lt_or_ge reach (s.cstack.length - 1 - csl fin s.cstack) with h4 | h4
      · rw [inner_far h4, inner_far (s := t) (by rw [hc, hlen, hcs]; exact h4), lex4_iff]
        refine .inr ⟨rfl, .inr ⟨by rw [hc, hlen], .inl ?_⟩⟩
        rw [hs, hc, hlen]
        exact hu (s.cstack.length - 1) (by omega) (by omega)
      · rcases Nat.lt_or_ge (s.cstack.length - 1 - csl fin s.cstack + 1) reach with h5 | h5
        · rw [inner_near h5, inner_near (s := t) (by rw [hc, hlen, hcs]; exact h5), lex4_iff]
          refine .inr ⟨rfl, .inr ⟨by rw [hg], .inl ?_⟩⟩
          rw [hs, hc, hlen]
          exact hu (s.cstack.length - 1) (by omega) (by omega)
        · rcases Nat.eq_or_lt_of_le h4 with h6 | h6
          · rw [inner_at h6, inner_at (s := t) (by rw [hc, hlen, hcs]; exact h6), lex4_iff]
            rcases Nat.lt_or_ge q (csl fin s.cstack + reach - 1) with h7 | h7
            · refine .inr ⟨rfl, .inl ?_⟩
              rw [hs, hc, hcs]
              exact hu _ h7 (by omega)
            · have h8 : q = csl fin s.cstack + reach - 1 := by omega
              have hi1 : i = 1 := by omega
              have e1 : unm fin (unmark (s.solved ++ [pos fin q]) (pos fin (s.cstack.length - 1))) (csl fin s.cstack + reach - 1) =
                  unm fin s.solved (csl fin s.cstack + reach - 1) := unm_congr fun d hd => hmem d (by omega) (by omega)
              have hne : s.cstack[1]? ≠ some top := by
                intro e
                apply hqu
                refine h.good.mark q (by omega) hqn ?_
                rw [hqt, ← e, ← hi1, ← bot_index hil, hq]
              have e2 : (swapTop s.cstack i).take 1 = (s.cstack[1]?).toList := by
                rw [List.take_one, List.head?_eq_getElem?, swapTop_getElem? h1 hil, if_pos rfl, hi1]
              have e3 : s.cstack.take 1 = [top] := by
                rw [List.take_one, List.head?_eq_getElem?, h.head]; rfl
              have e4 : cnt (some top) (s.reg ++ (swapTop s.cstack i).take 1) < cnt (some top) (s.reg ++ s.cstack.take 1) := by
                unfold cnt
                dsimp only
                rw [e2, e3, List.count_append, List.count_append]
                have : (s.cstack[1]?).toList.count top = 0 := by
                  rw [List.count_eq_zero]
                  intro hm
                  exact hne (Option.mem_toList.1 hm)
                rw [this]
                simp
              refine .inr ⟨rfl, .inr ⟨by rw [hs, hc, hcs, e1], .inl ?_⟩⟩
              rw [hc, hcs, hg, ← h8, hqt]
              exact e4
          · have h7 : s.cstack.length - 1 - csl fin s.cstack + 1 = reach := by omega
            rw [inner_below h7, inner_below (s := t) (by rw [hc, hlen, hcs]; exact h7), lex4_iff]
            refine .inr ⟨rfl, .inl ?_⟩
            rw [hs, hc, hcs]
            exact hu (csl fin s.cstack + reach - 1) (by omega) (by omega)

end

end Grey.Permute
