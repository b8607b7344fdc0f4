import Verif.Permute.Rounds2

/-!
# Reordering succeeds

If every wanted value is on the stack exactly as often as it is wanted, reordering ends without an exception.
-/

namespace Grey.Permute

section
variable {fin : List String} {reach : Nat} {s t : St} {top : String}

theorem stuck_next (hr : 1 ≤ reach) (h : Open fin s top) (hp : ¬ Place fin reach s)
    (hg : garbageAt fin (s.reg ++ s.cstack) s.cstack reach = none) (hnr : bot fin (s.cstack.length - 1) ≠ some top) {i : Nat}
    (hi : i ≤ min reach (s.cstack.length - 1)) (hin : 1 ≤ i → s.base fin + i < 0) :
    Next fin reach s (stuck fin reach top i s) := by
  have hlt := h.lt_c
  have hltf := h.lt_fin
  obtain ⟨want, hw, hwf⟩ := bot_isSome hltf
  have hidx : idx fin s.lpos = some want := by rw [h.lpos, idx_neg, hw]
  have hlow : (s.cstack.length : Int) + s.lpos = ((s.cstack.length - 1 - csl fin s.cstack : Nat) : Int) := by rw [h.lpos]; omega
  have hkey : ∀ k : Nat, 1 ≤ k → k ≤ i → s.base fin + k < 0 →
      reach ≤ s.cstack.length - 1 - csl fin s.cstack →
      Next fin reach s (save { s.swapped k with solved := unmark (unmark s.solved (s.base fin + k)) (s.base fin) }) := by
    intro k h1 h2 h3 h4
    refine next_save_swap hr h hp hg h4 h1 (by omega) (by omega) ?_
    unfold St.base at h3
    omega
  unfold stuck
  dsimp only
  rw [hlow]
  have hsave : reach ≤ s.cstack.length - 1 - csl fin s.cstack → Next fin reach s
      (if i = 0 then save { s with solved := unmark s.solved (s.base fin) }
      else
        save { s.swapped (if 1 < (s.cstack.length - fin.length - 1 : Int) ∧ (s.cstack.length - fin.length - 1 : Int) < i then
            (if 1 ≤ lastPlace fin s.cstack s.solved top (s.cstack.length - fin.length - 1 : Int).toNat then
              lastPlace fin s.cstack s.solved top (s.cstack.length - fin.length - 1 : Int).toNat else i)
          else i) with solved := unmark (unmark s.solved (s.base fin + ((if 1 < (s.cstack.length - fin.length - 1 : Int) ∧ (s.cstack.length - fin.length - 1 : Int) < i then
            (if 1 ≤ lastPlace fin s.cstack s.solved top (s.cstack.length - fin.length - 1 : Int).toNat then
              lastPlace fin s.cstack s.solved top (s.cstack.length - fin.length - 1 : Int).toNat else i)
          else i : Nat) : Int))) (s.base fin) }) := by
    intro h4
    by_cases hi0 : i = 0
    · rw [if_pos hi0]
      exact next_save hr h hp hg h4
    · rw [if_neg hi0]
      refine hkey _ ?_ ?_ ?_ h4
      · split
        · split <;> omega
        · omega
      · split
        · split
          · have := lastPlace_le fin s.cstack s.solved top (s.cstack.length - fin.length - 1 : Int).toNat
            omega
          · omega
        · omega
      · split
        · split
          · have := lastPlace_le fin s.cstack s.solved top (s.cstack.length - fin.length - 1 : Int).toNat
            unfold St.base
            omega
          · exact hin (by omega)
        · exact hin (by omega)
  by_cases hlr : ((s.cstack.length - 1 - csl fin s.cstack : Nat) : Int) ≤ reach
  · rw [if_pos hlr, hidx]
    dsimp only
    by_cases hm : want ∈ s.cstack.take (s.cstack.length - 1 - csl fin s.cstack)
    · rw [if_pos ⟨hlr, by simpa using hm⟩]
      obtain ⟨hne, spos, hsp, hn⟩ := next_bring h hp hw (by omega) hm
      rw [if_neg hne, hsp]
      exact hn
    · rw [if_neg (by rintro ⟨_, hx⟩; exact hm (by simpa using hx))]
      by_cases hrl : (reach : Int) ≤ ((s.cstack.length - 1 - csl fin s.cstack : Nat) : Int)
      · rw [if_pos hrl]
        exact hsave (by omega)
      · rw [if_neg hrl]
        refine next_fetch h hp hw ?_ (by omega) ?_ true
        · refine in_reg h hw ?_
          intro d hd
          rcases Nat.lt_or_ge d (csl fin s.cstack) with h1 | h1
          · rw [← csl_eq h1]; exact hd
          · rcases Nat.eq_or_lt_of_le h1 with h2 | h2
            · rw [← h2] at hd
              exact absurd (hd.trans hw.symm) h.wrong
            · exfalso
              have hdl : d < s.cstack.length := by
                rcases Nat.lt_or_ge d s.cstack.length with h3 | h3
                · exact h3
                · rw [bot_ge h3] at hd; simp at hd
              rw [bot_lt hdl] at hd
              apply hm
              refine List.mem_of_getElem? (i := s.cstack.length - 1 - d) ?_
              rw [List.getElem?_take_of_lt (by omega)]
              exact hd
        · intro e
          rw [h.top_bot] at e
          exact absurd e.symm hnr
  · rw [if_neg hlr]
    dsimp only
    rw [if_neg (fun x => hlr x.1), if_pos (by omega)]
    exact hsave (by omega)

theorem unsettled_next (hr : 1 ≤ reach) (h : Open fin s top)
    (h3 : ¬ (s.cstack.length ≤ fin.length ∧ s.base fin ∉ s.solved ∧ idx fin (s.base fin) = some top ∧
      (!unsolved fin top (s.base fin + 1) reach s.solved) = true))
    (h4 : s.base fin ∉ s.solved ∨ unsolved fin top (s.base fin + 1) reach s.solved = true) :
    Next fin reach s (unsettled fin reach (s.reg ++ s.cstack) top s) := by
  have hlt := h.lt_c
  unfold unsettled
  dsimp only
  by_cases hi : 1 ≤ lastPlace fin s.cstack s.solved top (min reach (s.cstack.length - 1)) ∧
      0 ≤ s.base fin + (lastPlace fin s.cstack s.solved top (min reach (s.cstack.length - 1)) : Nat)
  · rw [if_pos hi]
    exact next_place hr h rfl hi.1 hi.2
  · rw [if_neg hi]
    have hp := lastPlace_none h rfl hi
    cases hg : garbageAt fin (s.reg ++ s.cstack) s.cstack reach with
    | some j => exact next_garbage h hp hg
    | none =>
      refine stuck_next hr h hp hg ?_ (lastPlace_le ..) ?_
      · intro e
        have hl : s.cstack.length ≤ fin.length := by
          have := List.getElem?_eq_some_iff.1 e
          obtain ⟨h5, _⟩ := this
          rw [List.length_reverse] at h5
          omega
        have hu : unsolved fin top (s.base fin + 1) reach s.solved = false := by
          rw [Bool.eq_false_iff]
          exact fun hx => hp ((unsolved_iff h reach hl).1 hx)
        have hb := h4.resolve_right (by rw [hu]; simp)
        refine h3 ⟨hl, hb, ?_, by rw [hu]; rfl⟩
        rw [h.base]
        exact (idx_pos (by omega)).trans e
      · intro h5
        rcases Int.lt_or_le (s.base fin + (lastPlace fin s.cstack s.solved top (min reach (s.cstack.length - 1)) : Nat)) 0 with h6 | h6
        · exact h6
        · exact absurd ⟨h5, h6⟩ hi

theorem settled_next (hr : 1 ≤ reach) (h : Open fin s top)
    (h4 : ¬ (s.base fin ∉ s.solved ∨ unsolved fin top (s.base fin + 1) reach s.solved = true)) :
    Next fin reach s (settled fin reach (s.reg ++ s.cstack) top s) := by
  have hlt := h.lt_c
  have hb : s.base fin ∈ s.solved := by
    by_cases hb : s.base fin ∈ s.solved
    · exact hb
    · exact absurd (.inl hb) h4
  have hb' := hb
  rw [h.base] at hb'
  have hbl := h.good.lt hb'
  have hl : s.cstack.length ≤ fin.length := by omega
  have hp : ¬ Place fin reach s := fun hx => h4 (.inr ((unsolved_iff h reach hl).2 hx))
  have hlow : (s.cstack.length : Int) + s.lpos = ((s.cstack.length - 1 - csl fin s.cstack : Nat) : Int) := by rw [h.lpos]; omega
  obtain ⟨want, hw, hwf⟩ := bot_isSome h.lt_fin
  have hidx : idx fin s.lpos = some want := by rw [h.lpos, idx_neg, hw]
  unfold settled
  dsimp only
  cases hg : garbageAt fin (s.reg ++ s.cstack) s.cstack reach with
  | some j => exact next_garbage h hp hg
  | none =>
    dsimp only
    rw [hlow]
    by_cases hrl : (reach : Int) ≤ ((s.cstack.length - 1 - csl fin s.cstack : Nat) : Int)
    · rw [if_pos hrl]
      exact next_save hr h hp hg (by omega)
    · rw [if_neg hrl, hidx]
      dsimp only
      have hwt : want ≠ top := by
        intro e
        have ho := h.other hp
        unfold topOther at ho
        rw [if_pos ⟨by rw [h.head, hw, e], by omega⟩] at ho
        omega
      rw [if_neg hwt]
      cases hu : unsolvedAt fin s.cstack s.solved reach with
      | some i =>
        dsimp only
        rw [if_pos hb]
        exact next_unsettle h hp hb hw hwt (by omega) hu
      | none =>
        dsimp only
        refine next_fetch h hp hw ?_ (by omega) (fun _ => hb') false
        refine in_reg h hw ?_
        intro d hd
        have hdl : d < s.cstack.length := by
          rcases Nat.lt_or_ge d s.cstack.length with h3 | h3
          · exact h3
          · rw [bot_ge h3] at hd; simp at hd
        rcases Nat.lt_or_ge d (csl fin s.cstack) with h1 | h1
        · rw [← csl_eq h1]; exact hd
        · by_cases hdm : pos fin d ∈ s.solved
          · rw [← h.good.right d hdm]; exact hd
          · exfalso
            have hd0 : d ≠ s.cstack.length - 1 := by rintro rfl; exact hdm hb'
            have := List.find?_eq_none.1 hu (s.cstack.length - 1 - d) (List.mem_range.2 (by omega))
            simp only [decide_eq_true_eq] at this
            refine this ⟨by omega, by omega, by omega, ?_, ?_⟩
            · have e : (fin.length - s.cstack.length + ((s.cstack.length - 1 - d : Nat) : Int) : Int) = pos fin d := by unfold pos; omega
              rw [e]; exact hdm
            · rw [← bot_lt hdl, hd, h.head]
              exact fun e => hwt (Option.some.inj e).symm

/-- The rest from the registers. -/
theorem getAll_ok : ∀ (l : List String) (s : St), (∀ v, s.reg.count v = l.count v) →
    ∃ t, getAll s l = .done t ∧ t.cstack = l.reverse ++ s.cstack ∧ t.reg = []
  | [], s, h => ⟨s, rfl, rfl, by
      cases hr : s.reg with
      | nil => rfl
      | cons v r => have := h v; rw [hr] at this; simp at this⟩
  | r :: l, s, h => by
    have hm : r ∈ s.reg := List.count_pos_iff.1 (by rw [h r]; simp)
    unfold getAll
    rw [if_pos hm]
    obtain ⟨t, h1, h2, h3⟩ := getAll_ok l { s with cstack := r :: s.cstack, reg := s.reg.erase r, ids := s.ids ++ [.vget r] } (by
      intro v
      dsimp only
      have h5 := (List.perm_cons_erase hm).count_eq v
      have h6 := h v
      simp only [List.count_cons] at h5 h6
      omega)
    exact ⟨t, h1, by rw [h2]; simp, h3⟩

theorem reg_count (h : Good fin s) (v : String) (p : List String) (hf : fin = p ++ s.cstack) : s.reg.count v = p.count v := by
  by_cases hv : v ∈ fin
  · have := h.cnt v hv
    rw [List.count_append] at this
    have h2 := congrArg (List.count v) hf
    rw [List.count_append] at h2
    omega
  · rw [List.count_eq_zero.2 fun hx => hv (h.reg v hx), List.count_eq_zero.2 fun hx => hv (by rw [hf]; exact List.mem_append_left _ hx)]

/-- Lists with equal bottoms. -/
theorem suffix_of_csl {c : List String} (h : csl fin c = c.length) : c = fin.drop (fin.length - c.length) := by
  have hle := csl_le_fin fin c
  apply List.ext_getElem?
  intro i
  rw [List.getElem?_drop]
  rcases Nat.lt_or_ge i c.length with h1 | h1
  · have := csl_eq (fin := fin) (c := c) (d := c.length - 1 - i) (by omega)
    rw [bot_lt (by omega), bot_lt (by omega)] at this
    rw [show c.length - 1 - (c.length - 1 - i) = i by omega, show fin.length - 1 - (c.length - 1 - i) = fin.length - c.length + i by omega] at this
    exact this
  · rw [List.getElem?_eq_none h1, List.getElem?_eq_none (by omega)]

theorem prefix_of_csl {c : List String} (h : csl fin c = fin.length) : fin = c.drop (c.length - fin.length) := by
  have hle := csl_le_c fin c
  apply List.ext_getElem?
  intro i
  rw [List.getElem?_drop]
  rcases Nat.lt_or_ge i fin.length with h1 | h1
  · have := csl_eq (fin := fin) (c := c) (d := fin.length - 1 - i) (by omega)
    rw [bot_lt (by omega), bot_lt (by omega)] at this
    rw [show fin.length - 1 - (fin.length - 1 - i) = i by omega, show c.length - 1 - (fin.length - 1 - i) = c.length - fin.length + i by omega] at this
    exact this.symm
  · rw [List.getElem?_eq_none h1, List.getElem?_eq_none (by omega)]

/-- A list that has every value as often as another one is not shorter. -/
theorem length_le_of_count : ∀ (f l : List String), (∀ v ∈ f, f.count v ≤ l.count v) → f.length ≤ l.length
  | [], _, _ => by simp
  | a :: f, l, h => by
    have ha : a ∈ l := List.count_pos_iff.1 (by have := h a List.mem_cons_self; simp at this; omega)
    have := length_le_of_count f (l.erase a) (by
      intro v hv
      have h1 := h v (List.mem_cons_of_mem _ hv)
      have h2 := (List.perm_cons_erase ha).count_eq v
      simp only [List.count_cons] at h1 h2
      omega)
    rw [List.length_erase_of_mem ha] at this
    have := List.length_pos_of_mem ha
    simp only [List.length_cons]
    omega

/-- The rest of a round, after the first checks. -/
theorem round_rest {s s' : St} {top : String} {rest : List String} (h1 : s.cstack ≠ fin)
    (h2 : ¬ ((s.reg ++ s.cstack).length < fin.length ∨ ∃ v ∈ fin, (s.reg ++ s.cstack).count v < fin.count v))
    (h3 : ¬ (s.cstack.length ≤ fin.length ∧ s.cstack ≠ [] ∧ s.cstack = fin.drop (fin.length - s.cstack.length)))
    (hs : s' = { s with lpos := advance fin s.cstack s.lpos (fin.length + s.cstack.length) }) (hc : s'.cstack = top :: rest) :
    round fin reach s =
      if fin.count top < (s'.reg ++ s'.cstack).count top then .more { s' with cstack := rest, ids := s'.ids ++ [.pop] }
      else if s'.cstack.length ≤ fin.length ∧ s'.base fin ∉ s'.solved ∧ idx fin (s'.base fin) = some top ∧
          (!unsolved fin top (s'.base fin + 1) reach s'.solved) = true then .more { s' with solved := s'.solved ++ [s'.base fin] }
      else if s'.base fin ∉ s'.solved ∨ unsolved fin top (s'.base fin + 1) reach s'.solved = true then
        unsettled fin reach (s'.reg ++ s'.cstack) top s'
      else settled fin reach (s'.reg ++ s'.cstack) top s' := by
  unfold round
  rw [if_neg h1]
  dsimp only
  rw [if_neg h2, if_neg h3]
  obtain ⟨cs, so, re, lp, id⟩ := s
  subst hs
  dsimp only at hc
  subst hc
  rfl

/-- One round: the end, or a state that is nearer to it. -/
theorem round_good (hr : 1 ≤ reach) (h : Good fin s) (ha : Alive fin s) :
    (∃ t, round fin reach s = .done t ∧ t.cstack = fin ∧ t.reg = []) ∨ Next fin reach s (round fin reach s) := by
  by_cases hcf : s.cstack = fin
  · left
    refine ⟨s, by unfold round; rw [if_pos hcf], hcf, ?_⟩
    cases hrg : s.reg with
    | nil => rfl
    | cons v r =>
      have := reg_count h v [] (by rw [hcf]; rfl)
      rw [hrg] at this
      simp at this
  · have h2 : ¬ ((s.reg ++ s.cstack).length < fin.length ∨ ∃ v ∈ fin, (s.reg ++ s.cstack).count v < fin.count v) := by
      rintro (h1 | ⟨v, hv, h1⟩)
      · have := length_le_of_count fin (s.reg ++ s.cstack) (fun v hv => by rw [h.cnt v hv]; exact Nat.le_refl _)
        omega
      · have := h.cnt v hv
        omega
    by_cases hsuf : s.cstack.length ≤ fin.length ∧ s.cstack ≠ [] ∧ s.cstack = fin.drop (fin.length - s.cstack.length)
    · left
      obtain ⟨h1, h7, h3⟩ := hsuf
      have hf : fin = fin.take (fin.length - s.cstack.length) ++ s.cstack := by
        conv => lhs; rw [← List.take_append_drop (fin.length - s.cstack.length) fin]
        rw [← h3]
      obtain ⟨t, h4, h5, h6⟩ := getAll_ok (fin.take (fin.length - s.cstack.length)).reverse s (by
        intro v
        rw [List.count_reverse]
        exact reg_count h v _ hf)
      refine ⟨t, by unfold round; rw [if_neg hcf]; dsimp only; rw [if_neg h2, if_pos ⟨h1, h7, h3⟩]; exact h4, ?_, h6⟩
      rw [h5, List.reverse_reverse, ← hf]
    · right
      obtain ⟨D, hD, hDl⟩ := h.low
      have hadv := advance_eq (fin.length + s.cstack.length) hDl (by have := csl_le_fin fin s.cstack; omega)
      rw [← hD] at hadv
      have hlen0 : s.cstack ≠ [] := by
        intro e
        have hfn : fin ≠ [] := fun e2 => hcf (by rw [e, e2])
        obtain ⟨v, hv, _⟩ := ha hfn
        rw [e] at hv
        simp at hv
      have hDc : csl fin s.cstack < s.cstack.length := by
        have := csl_le_c fin s.cstack
        have hf := csl_le_fin fin s.cstack
        rcases Nat.eq_or_lt_of_le this with h1 | h1
        · exact absurd ⟨by omega, hlen0, suffix_of_csl h1⟩ hsuf
        · exact h1
      obtain ⟨top, rest, hc⟩ := List.exists_cons_of_ne_nil hlen0
      obtain ⟨s', hs'⟩ : ∃ s', s' = ({ s with lpos := -1 - (csl fin s.cstack : Int) } : St) := ⟨_, rfl⟩
      have hc' : s'.cstack = top :: rest := by rw [hs', ← hc]
      have hmu : mu fin reach s' = mu fin reach s := by rw [hs']; rfl
      have hg' : Good fin s' := by
        rw [hs']
        exact ⟨h.cnt, h.reg, h.nodup, h.inn, h.right, h.mark, ⟨_, rfl, Nat.le_refl _⟩⟩
      have hlp : s'.lpos = -1 - (csl fin s'.cstack : Int) := by rw [hs']
      have hDc' : csl fin s'.cstack < s'.cstack.length := by rw [hs']; exact hDc
      have ha' : Alive fin s' := by rw [hs']; exact ha
      have hnear : ∀ r, Next fin reach s' r → Next fin reach s r := by
        rintro r ⟨t, h1, h2, h3, h4⟩
        refine ⟨t, h1, h2, h3, ?_⟩
        unfold Nearer at h4 ⊢
        rw [← hmu]; exact h4
      apply hnear
      rw [round_rest hcf h2 hsuf (by rw [hadv]; exact hs') hc']
      by_cases hcnt : fin.count top < (s'.reg ++ s'.cstack).count top
      · rw [if_pos hcnt]
        have htf : top ∉ fin := fun hx => by have := hg'.cnt top hx; omega
        have hbase : pos fin (s'.cstack.length - 1) ∉ s'.solved := by
          intro hm
          have h1 := hg'.right _ hm
          have h2 : bot s'.cstack (s'.cstack.length - 1) = some top := by
            rw [← Nat.sub_zero (s'.cstack.length - 1), bot_index (by omega), hc']; rfl
          rw [h2] at h1
          exact htf (bot_mem h1.symm)
        have hd := Open.drop (t := { s' with cstack := rest, ids := s'.ids ++ [.pop] }) hg' hDc' hlp hc' rfl (.inl ⟨rfl, htf⟩) rfl
          (by unfold unmark; rw [List.erase_of_not_mem hbase])
        refine ⟨_, rfl, hd.1, ?_, nearer_total ?_⟩
        · intro hf
          obtain ⟨v, hv, hvf⟩ := ha' hf
          rw [hc'] at hv
          rcases List.mem_cons.1 hv with e | hv
          · exact absurd (e ▸ hvf) htf
          · exact ⟨v, hv, hvf⟩
        · unfold total; rw [hc']; simp
      · rw [if_neg hcnt]
        have hneed : top ∈ fin := by
          have h1 : 0 < (s'.reg ++ s'.cstack).count top := List.count_pos_iff.2 (by rw [hc']; simp)
          exact List.count_pos_iff.1 (by omega)
        have hDf : csl fin s'.cstack < fin.length := by
          have := csl_le_fin fin s'.cstack
          rcases Nat.eq_or_lt_of_le this with h1 | h1
          · exfalso
            have h8 := prefix_of_csl h1
            have h3 : fin.count top + 1 ≤ s'.cstack.count top := by
              have h4 : fin.count top ≤ rest.count top := by
                have h5 : s'.cstack.length - fin.length = (rest.length - fin.length) + 1 := by
                  rw [hc', List.length_cons] at hDc' ⊢
                  rw [hc'] at h1
                  omega
                rw [h5, hc', List.drop_succ_cons] at h8
                have h6 := (List.drop_sublist (rest.length - fin.length) rest).count_le top
                rw [← h8] at h6
                exact h6
              rw [hc', List.count_cons_self]
              omega
            have := hg'.cnt top hneed
            rw [List.count_append] at this
            omega
          · exact h1
        have hO : Open fin s' top := ⟨hg', by rw [hc']; rfl, hneed, hDf, hDc', hlp⟩
        by_cases h3 : s'.cstack.length ≤ fin.length ∧ s'.base fin ∉ s'.solved ∧ idx fin (s'.base fin) = some top ∧
            (!unsolved fin top (s'.base fin + 1) reach s'.solved) = true
        · rw [if_pos h3]
          refine next_mark hr hO ?_ h3.1 h3.2.1 h3.2.2.1
          intro hx
          have := (unsolved_iff hO reach h3.1).2 hx
          have h4 := h3.2.2.2
          rw [this] at h4
          simp at h4
        · rw [if_neg h3]
          by_cases h4 : s'.base fin ∉ s'.solved ∨ unsolved fin top (s'.base fin + 1) reach s'.solved = true
          · rw [if_pos h4]
            exact unsettled_next hr hO h3 h4
          · rw [if_neg h4]
            exact settled_next hr hO h4

/-- Reordering ends, with the wanted stack and without values in registers. -/
theorem run_good (hr : 1 ≤ reach) : ∀ s, Good fin s → Alive fin s → ∃ fuel ids, run fin reach fuel s = some (some ids) := by
  intro s
  generalize hm : mu fin reach s = m
  induction m using lex8.wf.induction generalizing s with
  | _ m ih =>
    intro h ha
    rcases round_good hr h ha with ⟨t, h1, h2, h3⟩ | ⟨t, h1, h2, h3, h4⟩
    · exact ⟨1, t.ids, by unfold run; rw [h1]; dsimp only; rw [if_pos ⟨h2, h3⟩]⟩
    · obtain ⟨fuel, ids, h5⟩ := ih _ (by rw [← hm]; exact h4) t rfl h2 h3
      exact ⟨fuel + 1, ids, by unfold run; rw [h1]; exact h5⟩

end

/-! ### The initial state -/

theorem addSolved_spec (fin cstack : List String) (solved : List Int) (hnd : solved.Nodup) (m : Nat) :
    let S := (List.range m).foldl (fun s (i : Nat) =>
      if cstack.reverse[i]? = fin.reverse[i]? ∧ (fin.length - 1 - i : Int) ∉ s then s ++ [(fin.length - 1 - i : Int)] else s) solved
    S.Nodup ∧ ∀ p, p ∈ S ↔ p ∈ solved ∨ ∃ d : Nat, d < m ∧ cstack.reverse[d]? = fin.reverse[d]? ∧ p = fin.length - 1 - d := by
  induction m with
  | zero => exact ⟨hnd, fun p => by simp⟩
  | succ m ih =>
    dsimp only at ih ⊢
    rw [List.range_succ, List.foldl_append]
    generalize (List.range m).foldl (fun s (i : Nat) =>
      if cstack.reverse[i]? = fin.reverse[i]? ∧ (fin.length - 1 - i : Int) ∉ s then s ++ [(fin.length - 1 - i : Int)] else s) solved = S at ih ⊢
    obtain ⟨h1, h2⟩ := ih
    simp only [List.foldl_cons, List.foldl_nil]
    split
    · rename_i hc
      refine ⟨?_, ?_⟩
      · rw [List.nodup_append]
        exact ⟨h1, by simp, fun a ha b hb => by rw [List.mem_singleton.1 hb]; rintro rfl; exact hc.2 ha⟩
      · intro p
        rw [List.mem_append, h2, List.mem_singleton]
        constructor
        · rintro ((h3 | ⟨d, h3, h4, h5⟩) | h3)
          · exact .inl h3
          · exact .inr ⟨d, by omega, h4, h5⟩
          · exact .inr ⟨m, by omega, hc.1, h3⟩
        · rintro (h3 | ⟨d, h3, h4, h5⟩)
          · exact .inl (.inl h3)
          · rcases Nat.eq_or_lt_of_le (Nat.le_of_lt_succ h3) with h6 | h6
            · subst h6; exact .inr h5
            · exact .inl (.inr ⟨d, h6, h4, h5⟩)
    · rename_i hc
      refine ⟨h1, ?_⟩
      intro p
      rw [h2]
      constructor
      · rintro (h3 | ⟨d, h3, h4, h5⟩)
        · exact .inl h3
        · exact .inr ⟨d, by omega, h4, h5⟩
      · rintro (h3 | ⟨d, h3, h4, h5⟩)
        · exact .inl h3
        · rcases Nat.eq_or_lt_of_le (Nat.le_of_lt_succ h3) with h6 | h6
          · subst h6
            have : p ∈ S := by
              by_cases h7 : (fin.length - 1 - d : Int) ∈ S
              · rw [h5]; exact h7
              · exact absurd ⟨h4, h7⟩ hc
            exact (h2 p).1 this
          · exact .inr ⟨d, h6, h4, h5⟩

/-- C73. If every wanted value is on the stack exactly as often as it is wanted, and the positions that are marked as solved are right, then
reordering ends without an exception, however many other values are on the stack, if a `SWAP` reaches at least one position below the top;
by `permute_correct`, its instructions then produce the wanted stack. -/
theorem permute_succeeds {fin cstack : List String} {solved : List Int} {reach : Nat} (hr : 1 ≤ reach)
    (hcnt : ∀ v ∈ fin, cstack.count v = fin.count v) (hnd : solved.Nodup) (hright : ∀ p ∈ solved, Right fin cstack p) :
    ∃ fuel ids, permute fin reach fuel cstack (addSolved fin cstack solved) = some (some ids) := by
  obtain ⟨h1, h2⟩ := addSolved_spec fin cstack solved hnd (min cstack.length fin.length)
  refine run_good hr _ ⟨hcnt, by simp, h1, ?_, ?_, ?_, ⟨0, rfl, Nat.zero_le _⟩⟩ ?_
  · intro p hp
    rcases (h2 p).1 hp with h3 | ⟨d, h3, h4, h5⟩
    · obtain ⟨d, h4, h5, h6, _⟩ := hright p h3
      exact ⟨d, h4, h5, h6⟩
    · exact ⟨d, by omega, by dsimp only; omega, h5⟩
  · intro d hd
    rcases (h2 _).1 hd with h3 | ⟨e, h3, h4, h5⟩
    · obtain ⟨e, h4, h5, h6, h7⟩ := hright _ h3
      have : d = e := by unfold pos at h6; omega
      rw [this]; exact h7
    · have : d = e := by unfold pos at h5; omega
      rw [this]; exact h4
  · intro d h3 h4 h5
    dsimp only at h3
    exact (h2 _).2 (.inr ⟨d, by omega, h5, rfl⟩)
  · intro hf
    obtain ⟨v, l, rfl⟩ := List.exists_cons_of_ne_nil hf
    refine ⟨v, List.count_pos_iff.1 ?_, List.mem_cons_self⟩
    dsimp only
    rw [hcnt v List.mem_cons_self]
    simp

/-- Both together: reordering gives a sequence of instructions that turns the stack into the wanted one. -/
theorem permute_total {W : Type} {fin cstack : List String} {solved : List Int} {reach : Nat} (hr : 1 ≤ reach)
    (hcnt : ∀ v ∈ fin, cstack.count v = fin.count v) (hnd : solved.Nodup) (hright : ∀ p ∈ solved, Right fin cstack p) :
    ∃ fuel ids, permute fin reach fuel cstack (addSolved fin cstack solved) = some (some ids) ∧
      ∀ (val : String → W) (regs : String → Option W), ∃ regs', execAll reach ids (cstack.map val, regs) = some (fin.map val, regs') := by
  obtain ⟨fuel, ids, h⟩ := permute_succeeds hr hcnt hnd hright
  exact ⟨fuel, ids, h, fun val regs => permute_correct h val regs⟩

/-- The hypotheses hold for a stack with a value in its place, a value that is wanted twice, and others that are not wanted. -/
example : (∀ v ∈ ["a", "b", "c", "a", "d"], ["x", "a", "c", "b", "y", "a", "d"].count v = ["a", "b", "c", "a", "d"].count v) ∧
    Right ["a", "b", "c", "a", "d"] ["x", "a", "c", "b", "y", "a", "d"] 3 :=
  ⟨by decide, 1, by decide, by decide, by decide, by decide⟩

end Grey.Permute
