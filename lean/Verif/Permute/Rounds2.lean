import Verif.Permute.Rounds

/-!
# Every kind of round keeps the invariant and comes nearer to the end, continued
-/

namespace Grey.Permute

section
variable {fin : List String} {reach : Nat} {s t : St} {top : String}

theorem save_eq {v : String} {c : List String} (hc : s.cstack = v :: c) : save s = .more
    ⟨c, s.solved, s.reg ++ [v], s.lpos, s.ids ++ [if v ∈ s.reg then .pop else .vset v]⟩ := by
  obtain ⟨cs, so, re, lp, id⟩ := s
  dsimp only at hc
  subst hc
  rfl

theorem Open.cons (h : Open fin s top) : ∃ c, s.cstack = top :: c := by
  have := h.head
  cases hc : s.cstack with
  | nil => rw [hc] at this; simp at this
  | cons a c => rw [hc] at this; simp at this; exact ⟨c, by rw [this]⟩

/-- A value less on the stack, one more in the registers. -/
theorem nearer_save (h : Open fin s top) (hp : ¬ Place fin reach s) (hlow : reach ≤ s.cstack.length - 1 - csl fin s.cstack)
    (hlen : s.cstack.length = t.cstack.length + 1) (hcs : csl fin t.cstack = csl fin s.cstack) (htot : total t = total s)
    (hun : reach = s.cstack.length - 1 - csl fin s.cstack → unm fin t.solved (s.cstack.length - 2) = unm fin s.solved (s.cstack.length - 2))
    (hcnt : reach = s.cstack.length - 1 - csl fin s.cstack →
      cnt (bot fin (s.cstack.length - 2)) t.reg = cnt (bot fin (s.cstack.length - 2)) (s.reg ++ s.cstack.take 1))
    (hr : 1 ≤ reach) : Nearer fin reach s t := by
  refine nearer_inner htot h.needed (by omega) (h.other hp) ?_
  have hlt := h.lt_c
  rcases Nat.eq_or_lt_of_le hlow with h1 | h1
  · have e : csl fin s.cstack + reach - 1 = s.cstack.length - 2 := by omega
    rw [inner_at h1.symm, inner_below (s := t) (by rw [hcs]; omega), hcs, e, hun h1, hcnt h1, lex4_iff, if_neg hp]
    refine .inr ⟨rfl, .inr ⟨rfl, .inr ⟨rfl, ?_⟩⟩⟩
    split <;> split <;> (try split) <;> omega
  · rw [inner_far h1]
    rcases Nat.lt_or_ge (reach + 1) (s.cstack.length - 1 - csl fin s.cstack) with h2 | h2
    · rw [inner_far (s := t) (by rw [hcs]; omega), lex4_iff]
      exact .inr ⟨rfl, .inl (by omega)⟩
    · rw [inner_at (s := t) (by rw [hcs]; omega), lex4_iff]
      exact .inl (by omega)

theorem take_one_eq (h : Open fin s top) : s.cstack.take 1 = [top] := by
  rw [List.take_one, List.head?_eq_getElem?, h.head]; rfl

theorem alive_of_second (hr : 1 ≤ reach) (hg : garbageAt fin (s.reg ++ s.cstack) s.cstack reach = none) {w : String}
    (hw : s.cstack[1]? = some w) : w ∈ fin :=
  need_of_count (List.mem_append_right _ (List.mem_of_getElem? hw)) (garbageAt_none hg (Nat.le_refl 1) hr hw)

/-- The top is put into a register. -/
theorem next_save (hr : 1 ≤ reach) (h : Open fin s top) (hp : ¬ Place fin reach s)
    (hg : garbageAt fin (s.reg ++ s.cstack) s.cstack reach = none) (hlow : reach ≤ s.cstack.length - 1 - csl fin s.cstack) :
    Next fin reach s (save { s with solved := unmark s.solved (s.base fin) }) := by
  obtain ⟨c, hc⟩ := h.cons
  have hlt := h.lt_c
  rw [save_eq (s := { s with solved := unmark s.solved (s.base fin) }) hc]
  dsimp only
  generalize s.ids ++ [if top ∈ s.reg then Ins.pop else Ins.vset top] = is
  have hd := Open.drop (t := ⟨c, unmark s.solved (s.base fin), s.reg ++ [top], s.lpos, is⟩) h.good hlt h.lpos hc rfl
    (.inr ⟨rfl, h.need⟩) rfl (by rw [h.base])
  have hlen : s.cstack.length = c.length + 1 := by rw [hc]; rfl
  refine ⟨_, rfl, hd.1, ?_, ?_⟩
  · intro _
    have hl1 : 1 < s.cstack.length := by omega
    refine ⟨s.cstack[1], ?_, alive_of_second hr hg (List.getElem?_eq_getElem hl1)⟩
    dsimp only
    have : s.cstack[1]? = c[0]? := by rw [hc]; rfl
    rw [List.getElem?_eq_getElem hl1] at this
    exact List.mem_of_getElem? this.symm
  · refine nearer_save h hp hlow hlen hd.2 ?_ ?_ ?_ hr
    · simp only [total, List.length_append, List.length_singleton]; omega
    · intro _
      refine unm_congr fun d hd => ?_
      dsimp only
      rw [h.base, mem_unmark h.good.nodup]
      exact ⟨fun x => x.2, fun x => ⟨fun e => by have := pos_inj e; omega, x⟩⟩
    · intro _
      rw [take_one_eq h]

/-- A value that is too high to be at its place is swapped to the top and put into a register. -/
theorem next_save_swap (hr : 1 ≤ reach) (h : Open fin s top) (hp : ¬ Place fin reach s)
    (hg : garbageAt fin (s.reg ++ s.cstack) s.cstack reach = none) (hlow : reach ≤ s.cstack.length - 1 - csl fin s.cstack)
    {k : Nat} (hk1 : 1 ≤ k) (hkr : k ≤ reach) (hkl : k < s.cstack.length) (hkn : fin.length ≤ s.cstack.length - 1 - k) :
    Next fin reach s (save { s.swapped k with solved := unmark (unmark s.solved (s.base fin + k)) (s.base fin) }) := by
  have hlt := h.lt_c
  have hltf := h.lt_fin
  obtain ⟨w, hw⟩ : ∃ w, s.cstack[k]? = some w := ⟨_, List.getElem?_eq_getElem hkl⟩
  have hwf : w ∈ fin := need_of_count (List.mem_append_right _ (List.mem_of_getElem? hw)) (garbageAt_none hg hk1 hkr hw)
  have hu1 : pos fin (s.cstack.length - 1 - k) ∉ s.solved := h.good.out (.inl hkn)
  have hu2 : pos fin (s.cstack.length - 1) ∉ s.solved := h.good.out (.inl (by omega))
  have hsol : unmark (unmark s.solved (s.base fin + k)) (s.base fin) = s.solved := by
    rw [h.base_add hkl, h.base]
    unfold unmark
    rw [List.erase_of_not_mem hu1, List.erase_of_not_mem hu2]
  rw [hsol]
  have hgw : Good fin { s.swapped k with solved := s.solved } := by
    refine h.swap hk1 hkl rfl rfl rfl h.good.nodup (fun _ _ _ => Iff.rfl) (fun _ hp' => .inl hp') hu2 ?_ ?_
    · exact ⟨fun hm => absurd hm hu1, fun x => by omega⟩
    · intro hD; omega
  have hcsw : csl fin (swapTop s.cstack k) = csl fin s.cstack := h.swap_csl hk1 hkl (by omega) (by omega)
  obtain ⟨c, hc⟩ : ∃ c, swapTop s.cstack k = w :: c := by
    have h0 := swapTop_getElem? hk1 hkl 0
    rw [if_pos rfl, hw] at h0
    cases hc : swapTop s.cstack k with
    | nil => rw [hc] at h0; simp at h0
    | cons a c => rw [hc] at h0; simp at h0; exact ⟨c, by rw [h0]⟩
  rw [save_eq (s := { s.swapped k with solved := s.solved }) hc]
  dsimp only [St.swapped]
  have hlen2 : (swapTop s.cstack k).length = s.cstack.length := length_swapTop _ _
  have hlen : s.cstack.length = c.length + 1 := by rw [← hlen2, hc]; rfl
  have hd := fun is => Open.drop (t := ⟨c, s.solved, s.reg ++ [w], s.lpos, is⟩) hgw (by dsimp only [St.swapped]; omega)
    (by dsimp only [St.swapped]; rw [hcsw]; exact h.lpos) hc rfl
    (.inr ⟨rfl, hwf⟩) rfl (by
      dsimp only [St.swapped]
      rw [hlen2, unmark, List.erase_of_not_mem hu2])
  refine ⟨_, rfl, (hd _).1, ?_, ?_⟩
  · intro _
    refine ⟨top, ?_, h.need⟩
    dsimp only
    have h1 := swapTop_getElem? hk1 hkl k
    rw [if_neg (by omega), if_pos rfl, h.head, hc] at h1
    obtain ⟨j, rfl⟩ : ∃ j, k = j + 1 := ⟨k - 1, by omega⟩
    exact List.mem_of_getElem? (by simpa using h1)
  · refine nearer_save h hp hlow hlen ((hd []).2.trans hcsw) ?_ ?_ ?_ hr
    · simp only [total, List.length_append, List.length_singleton]; omega
    · intro _; rfl
    · intro _
      rw [bot_ge (by omega)]
      rfl

theorem findFrom_spec {c : List String} {v : String} {j : Nat} (h1 : 1 ≤ j) (hj : c[j]? = some v) :
    ∃ i, findFrom c v = some i ∧ 1 ≤ i ∧ i ≤ j ∧ c[i]? = some v := by
  have hjl : j < c.length := (List.getElem?_eq_some_iff.1 hj).1
  unfold findFrom
  cases hf : (List.range c.length).find? fun i => decide (1 ≤ i ∧ c[i]? = some v) with
  | none =>
    have := List.find?_eq_none.1 hf j (List.mem_range.2 hjl)
    simp only [decide_eq_true_eq] at this
    exact absurd ⟨h1, hj⟩ this
  | some i =>
    have h2 := List.find?_some hf
    simp only [decide_eq_true_eq] at h2
    refine ⟨i, rfl, h2.1, ?_, h2.2⟩
    rcases Nat.lt_or_ge j i with h3 | h3
    · obtain ⟨_, hlt, hmin⟩ := List.find?_range_eq_some.1 hf
      have := hmin j h3
      simp only [Bool.not_eq_true', decide_eq_false_iff_not] at this
      exact absurd ⟨h1, hj⟩ this
    · exact h3

/-- The value that is missing at the lowest wrong position comes to the top. -/
theorem next_bring (h : Open fin s top) (hp : ¬ Place fin reach s) {want : String} (hw : bot fin (csl fin s.cstack) = some want)
    (hlow : s.cstack.length - 1 - csl fin s.cstack ≤ reach) (hm : want ∈ s.cstack.take (s.cstack.length - 1 - csl fin s.cstack)) :
    top ≠ want ∧ ∃ spos, findFrom s.cstack want = some spos ∧
    Next fin reach s (.more { s.swapped spos with solved := unmark (unmark s.solved (s.base fin + spos)) (s.base fin) }) := by
  have hlt := h.lt_c
  have hne : top ≠ want := by
    intro e
    have ho := h.other hp
    unfold topOther at ho
    rw [if_pos ⟨by rw [h.head, hw, e], hlow⟩] at ho
    omega
  obtain ⟨j, hj, hjw⟩ := List.mem_iff_getElem.1 hm
  rw [List.length_take] at hj
  rw [List.getElem_take] at hjw
  have hjl : j < s.cstack.length := by omega
  have hjw' : s.cstack[j]? = some want := by rw [List.getElem?_eq_getElem hjl, hjw]
  have hj1 : 1 ≤ j := by
    rcases Nat.eq_zero_or_pos j with h0 | h0
    · subst h0
      rw [h.head] at hjw'
      exact absurd (Option.some.inj hjw') hne
    · exact h0
  obtain ⟨i, hi, hi1, hij, hiw⟩ := findFrom_spec hj1 hjw'
  refine ⟨hne, i, hi, ?_⟩
  have hil : i < s.cstack.length := by omega
  rw [h.base_add hil, h.base]
  have hnd : (unmark s.solved (pos fin (s.cstack.length - 1 - i))).Nodup := h.good.nodup.erase _
  have hmem : ∀ p, p ∈ unmark (unmark s.solved (pos fin (s.cstack.length - 1 - i))) (pos fin (s.cstack.length - 1)) ↔
      p ≠ pos fin (s.cstack.length - 1) ∧ p ≠ pos fin (s.cstack.length - 1 - i) ∧ p ∈ s.solved := by
    intro p
    rw [mem_unmark hnd, mem_unmark h.good.nodup]
  refine ⟨_, rfl, ?_, h.alive.swap hi1 hil rfl, ?_⟩
  · refine h.swap hi1 hil rfl rfl rfl (hnd.erase _) ?_ ?_ ?_ ?_ ?_
    · intro d h1 h2
      dsimp only
      rw [hmem]
      exact ⟨fun x => x.2.2, fun x => ⟨fun e => h1 (pos_inj e), fun e => h2 (pos_inj e), x⟩⟩
    · intro p hp'
      exact .inl ((hmem p).1 hp').2.2
    · exact fun hp' => ((hmem _).1 hp').1 rfl
    · constructor
      · exact fun hp' => absurd rfl ((hmem _).1 hp').2.1
      · rintro ⟨h1, h2⟩
        by_cases h3 : pos fin (s.cstack.length - 1 - i) ∈ s.solved
        · have := h.good.right _ h3
          rw [bot_index hil, hiw, h2] at this
          exact absurd (Option.some.inj this).symm hne
        · exact absurd ⟨_, by omega, by omega, h1, h3, by rw [h2, h.head]⟩ hp
    · intro hD; omega
  · have hcs : csl fin (swapTop s.cstack i) = csl fin s.cstack := h.swap_csl hi1 hil (by omega) (by omega)
    refine nearer_other ?_ h.needed ?_ ?_
    · simp [total, St.swapped, length_swapTop]
    · dsimp only [St.swapped]; omega
    · rw [h.other hp]
      unfold topOther
      rw [if_pos]
      · omega
      · dsimp only [St.swapped]
        rw [hcs, length_swapTop, swapTop_getElem? hi1 hil, if_pos rfl, hiw, hw]
        exact ⟨rfl, hlow⟩

/-- Counting along two lists. -/
theorem count_le_of_pointwise {w : String} : ∀ (a b : List String), (∀ d : Nat, a[d]? = some w → b[d]? = some w) → a.count w ≤ b.count w
  | [], _, _ => by simp
  | x :: a, [], h => by
    have : w ∉ x :: a := by
      intro hm
      obtain ⟨d, hd, e⟩ := List.mem_iff_getElem.1 hm
      have := h d (by rw [List.getElem?_eq_getElem hd, e])
      simp at this
    rw [List.count_eq_zero.2 this]
    exact Nat.zero_le _
  | x :: a, y :: b, h => by
    have ih := count_le_of_pointwise a b (fun d hd => by simpa using h (d + 1) (by simpa using hd))
    have h0 := h 0
    simp only [List.getElem?_cons_zero, Option.some.injEq] at h0
    simp only [List.count_cons, beq_iff_eq]
    by_cases hx : x = w
    · rw [if_pos hx, if_pos (h0 hx)]; omega
    · rw [if_neg hx]; omega

theorem count_lt_of_pointwise {w : String} : ∀ (a b : List String) (D : Nat), (∀ d : Nat, a[d]? = some w → b[d]? = some w) →
    b[D]? = some w → a[D]? ≠ some w → a.count w < b.count w
  | [], b, D, _, hb, _ => by
    have := List.count_pos_iff.2 (List.mem_of_getElem? hb)
    simpa using this
  | x :: a, [], D, _, hb, _ => by simp at hb
  | x :: a, y :: b, 0, h, hb, ha => by
    have ih := count_le_of_pointwise a b (fun d hd => by simpa using h (d + 1) (by simpa using hd))
    simp only [List.getElem?_cons_zero, Option.some.injEq] at hb
    simp only [List.getElem?_cons_zero, ne_eq, Option.some.injEq] at ha
    simp only [List.count_cons, beq_iff_eq]
    rw [if_pos hb, if_neg ha]; omega
  | x :: a, y :: b, D + 1, h, hb, ha => by
    have ih := count_lt_of_pointwise a b D (fun d hd => by simpa using h (d + 1) (by simpa using hd)) (by simpa using hb) (by simpa using ha)
    have h0 := h 0
    simp only [List.getElem?_cons_zero, Option.some.injEq] at h0
    simp only [List.count_cons, beq_iff_eq]
    by_cases hx : x = w
    · rw [if_pos hx, if_pos (h0 hx)]; omega
    · rw [if_neg hx]; omega

/-- A value that is missing at the lowest wrong position and not at other wrong positions is in a register. -/
theorem in_reg (h : Open fin s top) {want : String} (hw : bot fin (csl fin s.cstack) = some want)
    (hall : ∀ d, bot s.cstack d = some want → bot fin d = some want) : want ∈ s.reg := by
  have h1 := count_lt_of_pointwise s.cstack.reverse fin.reverse (csl fin s.cstack) hall hw (by
    have := h.wrong
    rw [hw] at this
    exact this)
  rw [List.count_reverse, List.count_reverse] at h1
  have h2 := h.good.cnt want (bot_mem hw)
  rw [List.count_append] at h2
  exact List.count_pos_iff.1 (by omega)

/-- A register that is found is missing somewhere. -/
theorem getRegister_spec (h : Open fin s top) {r : String} (hg : getRegister fin s.reg s.cstack s.solved = some r) :
    r ∈ s.reg ∧ ∃ d, d < s.cstack.length ∧ d < fin.length ∧ pos fin d ∉ s.solved ∧ bot fin d = some r := by
  refine ⟨getRegister_mem hg, ?_⟩
  have h1 := List.find?_some hg
  obtain ⟨i, hi, h2⟩ := List.any_eq_true.1 h1
  rw [List.mem_range] at hi
  simp only [decide_eq_true_eq] at h2
  obtain ⟨h3, h4, h5, h6⟩ := h2
  refine ⟨s.cstack.length - 1 - i, by omega, by omega, ?_, ?_⟩
  · have e : pos fin (s.cstack.length - 1 - i) = (fin.length + i - s.cstack.length : Int) := by unfold pos; omega
    rw [e]; exact h6
  · have e : (i : Int) - s.cstack.length = -1 - ((s.cstack.length - 1 - i : Nat) : Int) := by omega
    rw [e, idx_neg] at h5
    exact h5

theorem getRegister_some (h : Open fin s top) {want : String} (hw : bot fin (csl fin s.cstack) = some want) (hm : want ∈ s.reg) :
    ∃ r, getRegister fin s.reg s.cstack s.solved = some r := by
  have hlt := h.lt_c
  have hltf := h.lt_fin
  unfold getRegister
  rw [← Option.isSome_iff_exists, List.find?_isSome]
  refine ⟨want, hm, ?_⟩
  rw [List.any_eq_true]
  refine ⟨s.cstack.length - 1 - csl fin s.cstack, List.mem_range.2 (by omega), ?_⟩
  simp only [decide_eq_true_eq]
  refine ⟨by omega, ?_, ?_, ?_⟩
  · rw [← bot_lt hlt, ← hw]; exact h.wrong
  · have e : ((s.cstack.length - 1 - csl fin s.cstack : Nat) : Int) - s.cstack.length = -1 - (csl fin s.cstack : Int) := by omega
    rw [e, idx_neg]; exact hw
  · have e : (fin.length + ((s.cstack.length - 1 - csl fin s.cstack : Nat) : Int) - s.cstack.length : Int) = pos fin (csl fin s.cstack) := by
      unfold pos; omega
    rw [e]; exact h.unmarked

/-- A register is fetched. -/
theorem next_fetch (h : Open fin s top) (hp : ¬ Place fin reach s) {want : String} (hw : bot fin (csl fin s.cstack) = some want)
    (hm : want ∈ s.reg) (hlow : s.cstack.length - 1 - csl fin s.cstack < reach)
    (hmk : bot s.cstack (s.cstack.length - 1) = bot fin (s.cstack.length - 1) → pos fin (s.cstack.length - 1) ∈ s.solved) (ck : Bool) :
    Next fin reach s (fetch fin reach ck s) := by
  have hlt := h.lt_c
  obtain ⟨r, hr⟩ := getRegister_some h hw hm
  obtain ⟨hrm, d, hd1, hd2, hd3, hd4⟩ := getRegister_spec h hr
  unfold fetch
  rw [if_pos (by rw [h.lpos]; omega), hr]
  dsimp only
  rw [if_neg (by
    rintro ⟨_, hx⟩
    have e : (fin.length - ((r :: s.cstack).length : Int) : Int) = pos fin s.cstack.length := by
      unfold pos; rw [List.length_cons]; omega
    rw [e] at hx
    exact h.good.out (.inr (Nat.le_refl _)) hx)]
  have hpush := Open.push (t := ⟨r :: s.cstack, s.solved, s.reg.erase r, s.lpos, s.ids ++ [.vget r]⟩) h hrm hmk rfl rfl rfl rfl
  have hDd := h.csl_le hd3
  have hcs := hpush.2
  have hrl : (s.reg.erase r).length + 1 = s.reg.length := by
    rw [List.length_erase_of_mem hrm]
    have := List.length_pos_of_mem hrm
    omega
  refine ⟨_, rfl, hpush.1, ?_, ?_⟩
  · intro _
    exact ⟨top, List.mem_cons_of_mem _ (List.mem_of_getElem? h.head), h.need⟩
  · generalize ht : (⟨r :: s.cstack, s.solved, s.reg.erase r, s.lpos, s.ids ++ [.vget r]⟩ : St) = t at *
    have hc : t.cstack = r :: s.cstack := by rw [← ht]
    have hs : t.solved = s.solved := by rw [← ht]
    have hg : t.reg = s.reg.erase r := by rw [← ht]
    have hlen : t.cstack.length = s.cstack.length + 1 := by rw [hc]; rfl
    refine nearer_inner ?_ h.needed (by omega) (h.other hp) ?_
    · unfold total; rw [hlen, hg]; omega
    · rcases Nat.lt_or_ge (s.cstack.length - 1 - csl fin s.cstack + 1) reach with h1 | h1
      · rw [inner_near h1]
        rcases Nat.lt_or_ge (s.cstack.length - 1 - csl fin s.cstack + 2) reach with h2 | h2
        · rw [inner_near (s := t) (by rw [hcs]; omega), lex4_iff]
          exact .inr ⟨rfl, .inl (by rw [hg]; omega)⟩
        · rw [inner_below (s := t) (by rw [hcs]; omega), lex4_iff]
          exact .inl (by omega)
      · rw [inner_below (s := s) (by omega), inner_at (s := t) (by rw [hcs]; omega), lex4_iff, hcs, hs]
        refine .inr ⟨rfl, .inr ⟨rfl, .inr ⟨?_, ?_⟩⟩⟩
        · rw [hg, hc]
          have hperm : (s.reg.erase r ++ (r :: s.cstack).take 1).Perm s.reg :=
            (List.perm_append_comm).trans (List.perm_cons_erase hrm).symm
          unfold cnt
          split
          · rfl
          · exact hperm.count_eq _
        · rw [if_pos]
          · split <;> (try split) <;> omega
          · refine ⟨d, by omega, by omega, hd2, by rw [hs]; exact hd3, ?_⟩
            rw [hd4, hc]; rfl

/-- The right top is swapped with another value at a wrong position. -/
theorem next_unsettle (h : Open fin s top) (hp : ¬ Place fin reach s) (hb : s.base fin ∈ s.solved) {want : String}
    (hw : bot fin (csl fin s.cstack) = some want) (hwt : want ≠ top)
    (hlow : s.cstack.length - 1 - csl fin s.cstack < reach) {i : Nat} (hi : unsolvedAt fin s.cstack s.solved reach = some i) :
    Next fin reach s (.more { s.swapped i with solved := s.solved.erase (s.base fin) }) := by
  have hlt := h.lt_c
  obtain ⟨hir, hi1, hin, hil, hiu, hine⟩ := unsolvedAt_spec hi
  have e : (fin.length - s.cstack.length + i : Int) = pos fin (s.cstack.length - 1 - i) := by unfold pos; omega
  rw [e] at hiu
  rw [h.base] at hb ⊢
  have hbl := h.good.lt hb
  have hbr := h.good.right _ hb
  rw [h.top_bot] at hbr
  have hDi := h.csl_le hiu
  have hmem : ∀ p, p ∈ s.solved.erase (pos fin (s.cstack.length - 1)) ↔ p ≠ pos fin (s.cstack.length - 1) ∧ p ∈ s.solved :=
    fun p => h.good.nodup.mem_erase_iff
  refine ⟨_, rfl, ?_, h.alive.swap hi1 hil rfl, ?_⟩
  · refine h.swap hi1 hil rfl rfl rfl (h.good.nodup.erase _) ?_ ?_ ?_ ?_ ?_
    · intro d h1 h2
      dsimp only
      rw [hmem]
      exact ⟨fun x => x.2, fun x => ⟨fun e => h1 (pos_inj e), x⟩⟩
    · intro p hp'
      exact .inl ((hmem p).1 hp').2
    · exact fun hp' => ((hmem _).1 hp').1 rfl
    · constructor
      · exact fun hp' => absurd ((hmem _).1 hp').2 hiu
      · rintro ⟨h1, h2⟩
        exact absurd ⟨_, by omega, by omega, h1, hiu, by rw [h2, h.head]⟩ hp
    · intro hD; omega
  · have hcs : csl fin (swapTop s.cstack i) = csl fin s.cstack := by
      refine csl_unique (csl_le_fin _ _) (by rw [length_swapTop]; exact csl_le_c _ _) ?_ ?_
      · intro d hd
        rw [bot_swapTop hi1 hil, if_neg (by omega), if_neg (by omega)]
        exact csl_eq hd
      · rw [bot_swapTop hi1 hil, if_neg (by omega)]
        split
        · rw [h.head, hw]
          exact fun e => hwt (Option.some.inj e).symm
        · exact h.wrong
    have hlen : (swapTop s.cstack i).length = s.cstack.length := length_swapTop _ _
    have htot : total { s.swapped i with solved := s.solved.erase (pos fin (s.cstack.length - 1)) } = total s := by
      simp [total, St.swapped, length_swapTop]
    generalize ht : ({ s.swapped i with solved := s.solved.erase (pos fin (s.cstack.length - 1)) } : St) = t at *
    have hc : t.cstack = swapTop s.cstack i := by rw [← ht]; rfl
    have hs : t.solved = s.solved.erase (pos fin (s.cstack.length - 1)) := by rw [← ht]
    have hg : t.reg = s.reg := by rw [← ht]; rfl
    have hnf : ¬ Fresh fin s := fun x => x.2 hb
    have hnft : ¬ Fresh fin t := by
      rintro ⟨h1, -⟩
      rw [hc, hlen, bot_swapTop hi1 hil, if_pos rfl, ← hbr, ← h.head] at h1
      exact hine h1.symm
    have hnm : pos fin (t.cstack.length - 1) ∉ t.solved := by
      rw [hc, hlen, hs, hmem]
      exact fun x => x.1 rfl
    have hu : ∀ m, m ≤ s.cstack.length - 1 → unm fin t.solved m = unm fin s.solved m := by
      intro m hm
      refine unm_congr fun d hd => ?_
      rw [hs, hmem]
      exact ⟨fun x => x.2, fun x => ⟨fun e => by have := pos_inj e; omega, x⟩⟩
    refine nearer_inner htot h.needed (by rw [hc]; omega) (h.other hp) ?_
    rcases Nat.lt_or_ge (s.cstack.length - 1 - csl fin s.cstack + 1) reach with h1 | h1
    · rw [inner_near h1, inner_near (s := t) (by rw [hc, hlen, hcs]; exact h1), if_neg hnf, if_neg hnft, if_neg hnm, if_pos hb, hg, hc, hlen,
        hu _ (Nat.le_refl _), lex4_iff]
      exact .inr ⟨rfl, .inr ⟨rfl, .inr ⟨rfl, by omega⟩⟩⟩
    · rw [inner_below (s := s) (by omega), inner_below (s := t) (by rw [hc, hlen, hcs]; omega), if_neg hnf, if_neg hnft, if_neg hnm, if_pos hb, hg, hc, hcs,
        hu _ (by omega), lex4_iff]
      exact .inr ⟨rfl, .inr ⟨rfl, .inr ⟨rfl, by omega⟩⟩⟩

end

end Grey.Permute
