import Verif.Permute.Bottom

/-!
# The states that reordering goes through

As long as every value of the final stack is there exactly as often as it is wanted, the marks are right.
-/

namespace Grey.Permute

/-- The position of the final stack `d` above the bottom. -/
def pos (fin : List String) (d : Nat) : Int := fin.length - 1 - d

theorem pos_inj {fin : List String} {d e : Nat} (h : pos fin d = pos fin e) : d = e := by
  unfold pos at h; omega

/-- What holds before every round. -/
structure Good (fin : List String) (s : St) : Prop where
  cnt : ∀ v ∈ fin, (s.reg ++ s.cstack).count v = fin.count v
  reg : ∀ v ∈ s.reg, v ∈ fin
  nodup : s.solved.Nodup
  inn : ∀ p ∈ s.solved, ∃ d : Nat, d < fin.length ∧ d < s.cstack.length ∧ p = pos fin d
  right : ∀ d, pos fin d ∈ s.solved → bot s.cstack d = bot fin d
  mark : ∀ d, d + 1 < s.cstack.length → d < fin.length → bot s.cstack d = bot fin d → pos fin d ∈ s.solved
  low : ∃ D : Nat, s.lpos = -1 - D ∧ D ≤ csl fin s.cstack

theorem Good.lt {fin : List String} {s : St} (h : Good fin s) {d : Nat} (hd : pos fin d ∈ s.solved) :
    d < fin.length ∧ d < s.cstack.length := by
  obtain ⟨e, h1, h2, h3⟩ := h.inn _ hd
  rw [pos_inj h3]; exact ⟨h1, h2⟩

/-- The state after the first checks of a round: there is a wrong position `csl` above the bottom, and the top is needed. -/
structure Open (fin : List String) (s : St) (top : String) : Prop where
  good : Good fin s
  head : s.cstack[0]? = some top
  need : top ∈ fin
  lt_fin : csl fin s.cstack < fin.length
  lt_c : csl fin s.cstack < s.cstack.length
  lpos : s.lpos = -1 - (csl fin s.cstack : Int)

namespace Open
variable {fin : List String} {s : St} {top : String}

theorem pos_len (h : Open fin s top) : 0 < s.cstack.length := by have := h.lt_c; omega

theorem base (h : Open fin s top) : s.base fin = pos fin (s.cstack.length - 1) := by
  have := h.lt_c
  unfold St.base pos; omega

theorem base_add (_ : Open fin s top) {i : Nat} (hi : i < s.cstack.length) : s.base fin + i = pos fin (s.cstack.length - 1 - i) := by
  unfold St.base pos; omega

theorem wrong (h : Open fin s top) : bot s.cstack (csl fin s.cstack) ≠ bot fin (csl fin s.cstack) := csl_ne h.lt_fin h.lt_c

theorem unmarked (h : Open fin s top) : pos fin (csl fin s.cstack) ∉ s.solved := fun hm => h.wrong (h.good.right _ hm)

theorem marked (h : Open fin s top) {d : Nat} (hd : d < csl fin s.cstack) : pos fin d ∈ s.solved := by
  have h1 := h.lt_c
  have h2 := h.lt_fin
  exact h.good.mark d (by omega) (by omega) (csl_eq hd)

theorem top_bot (h : Open fin s top) : bot s.cstack (s.cstack.length - 1) = some top := by
  rw [← h.head, ← bot_index h.pos_len]; rfl

/-- An unmarked position is not among those at the bottom that are right. -/
theorem csl_le (h : Open fin s top) {d : Nat} (hd : pos fin d ∉ s.solved) : csl fin s.cstack ≤ d := by
  rcases Nat.lt_or_ge d (csl fin s.cstack) with h1 | h1
  · exact absurd (h.marked h1) hd
  · exact h1

end Open

/-- A place for the top within reach. -/
def Place (fin : List String) (reach : Nat) (s : St) : Prop :=
  ∃ d : Nat, d + 1 < s.cstack.length ∧ s.cstack.length - 1 - d ≤ reach ∧ d < fin.length ∧ pos fin d ∉ s.solved ∧
    bot fin d = s.cstack[0]?

/-! ### What the searches find -/

section
variable {fin : List String} {s : St} {top : String}

theorem unsolved_iff (h : Open fin s top) (reach : Nat) (hl : s.cstack.length ≤ fin.length) :
    unsolved fin top (s.base fin + 1) reach s.solved = true ↔ Place fin reach s := by
  have hp := h.pos_len
  unfold unsolved
  rw [List.any_eq_true]
  constructor
  · rintro ⟨k, hk, hd⟩
    rw [List.mem_range] at hk
    simp only [decide_eq_true_eq] at hd
    obtain ⟨h1, h2, h3⟩ := hd
    have hlt : k + 1 < s.cstack.length := by unfold St.base at h1; omega
    have e : s.base fin + 1 + k = pos fin (s.cstack.length - 1 - (k + 1)) := by
      rw [← h.base_add hlt]; omega
    rw [e] at h2 h3
    refine ⟨_, ?_, ?_, ?_, h2, ?_⟩
    · omega
    · omega
    · omega
    · rw [h.head, ← h3]
      exact (idx_pos (by omega)).symm
  · rintro ⟨d, h1, h2, h3, h4, h5⟩
    refine ⟨s.cstack.length - 1 - d - 1, by rw [List.mem_range]; omega, ?_⟩
    have e : s.base fin + 1 + ((s.cstack.length - 1 - d - 1 : Nat) : Int) = pos fin d := by
      unfold St.base pos; omega
    simp only [decide_eq_true_eq]
    rw [e]
    refine ⟨by unfold pos; omega, h4, ?_⟩
    rw [← h.head, ← h5]
    exact idx_pos h3

theorem lastPlace_spec (fin cstack : List String) (solved : List Int) (top : String) (m : Nat) :
    let i := lastPlace fin cstack solved top m
    (∀ k, i < k → k ≤ m → 0 ≤ (fin.length - cstack.length + k : Int) ∧
      ((fin.length - cstack.length + k : Int) ∈ solved ∨ idx fin (fin.length - cstack.length + k : Int) ≠ some top)) ∧
    (i = 0 ∨ ¬ (0 ≤ (fin.length - cstack.length + i : Int) ∧
      ((fin.length - cstack.length + i : Int) ∈ solved ∨ idx fin (fin.length - cstack.length + i : Int) ≠ some top))) := by
  induction m with
  | zero => exact ⟨fun k h1 h2 => by simp [lastPlace] at h1; omega, .inl rfl⟩
  | succ m ih =>
    dsimp only at ih ⊢
    unfold lastPlace
    dsimp only
    split
    · rename_i hc
      refine ⟨fun k h1 h2 => ?_, ih.2⟩
      rcases Nat.lt_or_ge m k with h3 | h3
      · have : k = m + 1 := by omega
        subst this
        simpa using hc
      · exact ih.1 k h1 h3
    · rename_i hc
      refine ⟨fun k h1 h2 => by omega, .inr ?_⟩
      simpa using hc

/-- The last place, if there is one. -/
theorem lastPlace_some (h : Open fin s top) {reach i : Nat}
    (hi : i = lastPlace fin s.cstack s.solved top (min reach (s.cstack.length - 1))) (h1 : 1 ≤ i) (h2 : 0 ≤ s.base fin + i) :
    i ≤ reach ∧ i < s.cstack.length ∧ s.cstack.length - 1 - i < fin.length ∧ pos fin (s.cstack.length - 1 - i) ∉ s.solved ∧
      bot fin (s.cstack.length - 1 - i) = some top ∧
      ∀ d, d < s.cstack.length - 1 - i → s.cstack.length - 1 - d ≤ reach → d < fin.length → pos fin d ∉ s.solved → bot fin d ≠ some top := by
  have hp := h.pos_len
  have hle := lastPlace_le fin s.cstack s.solved top (min reach (s.cstack.length - 1))
  obtain ⟨hs1, hs2⟩ := lastPlace_spec fin s.cstack s.solved top (min reach (s.cstack.length - 1))
  rw [← hi] at hle hs1 hs2
  have hil : i < s.cstack.length := by omega
  have e : (fin.length - s.cstack.length + i : Int) = pos fin (s.cstack.length - 1 - i) := by unfold pos; omega
  have hn : s.cstack.length - 1 - i < fin.length := by unfold St.base at h2; omega
  rw [e] at hs2
  have hs3 := hs2.resolve_left (by omega)
  have h0 : 0 ≤ pos fin (s.cstack.length - 1 - i) := by unfold pos; omega
  have hidx : idx fin (pos fin (s.cstack.length - 1 - i)) = bot fin (s.cstack.length - 1 - i) := idx_pos hn
  refine ⟨by omega, hil, hn, fun hm => hs3 ⟨h0, .inl hm⟩, ?_, ?_⟩
  · rw [← hidx]
    by_cases hb : idx fin (pos fin (s.cstack.length - 1 - i)) = some top
    · exact hb
    · exact absurd ⟨h0, .inr hb⟩ hs3
  · intro d hd1 hd2 hd3 hd4 hd5
    have := (hs1 (s.cstack.length - 1 - d) (by omega) (by omega)).2
    have e2 : (fin.length - s.cstack.length + (s.cstack.length - 1 - d : Nat) : Int) = pos fin d := by unfold pos; omega
    rw [e2] at this
    rcases this with h6 | h6
    · exact hd4 h6
    · exact h6 (by rw [← hd5]; exact idx_pos hd3)

/-- No place. -/
theorem lastPlace_none (h : Open fin s top) {reach i : Nat}
    (hi : i = lastPlace fin s.cstack s.solved top (min reach (s.cstack.length - 1))) (h1 : ¬ (1 ≤ i ∧ 0 ≤ s.base fin + i)) :
    ¬ Place fin reach s := by
  have hp := h.pos_len
  obtain ⟨hs1, hs2⟩ := lastPlace_spec fin s.cstack s.solved top (min reach (s.cstack.length - 1))
  rw [← hi] at hs1 hs2
  rintro ⟨d, hd1, hd2, hd3, hd4, hd5⟩
  have e2 : (fin.length - s.cstack.length + (s.cstack.length - 1 - d : Nat) : Int) = pos fin d := by unfold pos; omega
  rcases Nat.lt_or_ge i (s.cstack.length - 1 - d) with h3 | h3
  · have := (hs1 (s.cstack.length - 1 - d) h3 (by omega)).2
    rw [e2] at this
    rcases this with h6 | h6
    · exact hd4 h6
    · exact h6 (by rw [← h.head, ← hd5]; exact idx_pos hd3)
  · apply h1
    refine ⟨by omega, ?_⟩
    unfold St.base
    omega

theorem garbageAt_none {fin allel cstack : List String} {reach : Nat} (h : garbageAt fin allel cstack reach = none) {j : Nat} {v : String}
    (h1 : 1 ≤ j) (h2 : j ≤ reach) (hv : cstack[j]? = some v) : allel.count v = fin.count v := by
  have := List.find?_eq_none.1 h j (List.mem_range.2 (by omega))
  simp only [decide_eq_true_eq] at this
  by_cases hc : allel.count v = fin.count v
  · exact hc
  · exact absurd ⟨h1, v, hv, hc⟩ this

/-- Values that are as often there as they are wanted, are wanted. -/
theorem need_of_count {fin : List String} {s : St} {v : String} (hm : v ∈ s.reg ++ s.cstack)
    (hc : (s.reg ++ s.cstack).count v = fin.count v) : v ∈ fin := by
  have := List.count_pos_iff.2 hm
  exact List.count_pos_iff.1 (by omega)

end

/-! ### What the instructions do to the invariant -/

theorem Good.congr_count {fin : List String} {s t : St} (h : Good fin s) (hp : ∀ v, (t.reg ++ t.cstack).count v = (s.reg ++ s.cstack).count v) :
    ∀ v ∈ fin, (t.reg ++ t.cstack).count v = fin.count v := fun v hv => by rw [hp v, h.cnt v hv]

/-- Swapping the top with the value `k` below. -/
theorem Open.swap {fin : List String} {s t : St} {top : String} (h : Open fin s top) {k : Nat} (hk1 : 1 ≤ k) (hkl : k < s.cstack.length)
    (hc : t.cstack = swapTop s.cstack k) (hr : t.reg = s.reg) (hl : t.lpos = s.lpos) (hnd : t.solved.Nodup)
    (hsame : ∀ d, d ≠ s.cstack.length - 1 → d ≠ s.cstack.length - 1 - k → (pos fin d ∈ t.solved ↔ pos fin d ∈ s.solved))
    (hinn : ∀ p ∈ t.solved, p ∈ s.solved ∨ p = pos fin (s.cstack.length - 1 - k))
    (htop : pos fin (s.cstack.length - 1) ∉ t.solved)
    (hk : pos fin (s.cstack.length - 1 - k) ∈ t.solved ↔
      (s.cstack.length - 1 - k < fin.length ∧ bot fin (s.cstack.length - 1 - k) = some top))
    (hD : s.cstack.length - 1 - k < csl fin s.cstack → bot fin (s.cstack.length - 1 - k) = some top) : Good fin t := by
  have hlen : t.cstack.length = s.cstack.length := by rw [hc, length_swapTop]
  have hlt := h.lt_c
  refine ⟨h.good.congr_count ?_, by rw [hr]; exact h.good.reg, hnd, ?_, ?_, ?_, ?_⟩
  · intro v
    rw [hc, hr, List.count_append, List.count_append, swapTop_count hkl hk1]
  · intro p hp
    rcases hinn p hp with hp' | hp'
    · rw [hlen]; exact h.good.inn p hp'
    · refine ⟨_, (hk.1 (hp' ▸ hp)).1, by rw [hlen]; omega, hp'⟩
  · intro d hd
    rw [hc, bot_swapTop hk1 hkl]
    by_cases h1 : d = s.cstack.length - 1
    · rw [h1] at hd; exact absurd hd htop
    · rw [if_neg h1]
      by_cases h2 : d = s.cstack.length - 1 - k
      · rw [if_pos h2, h.head, h2]
        exact ((hk.1 (h2 ▸ hd)).2).symm
      · rw [if_neg h2]
        exact h.good.right d ((hsame d h1 h2).1 hd)
  · intro d h1 h2 h3
    rw [hlen] at h1
    rw [hc, bot_swapTop hk1 hkl, if_neg (by omega)] at h3
    by_cases h4 : d = s.cstack.length - 1 - k
    · rw [if_pos h4, h.head] at h3
      rw [h4]
      exact hk.2 ⟨by omega, by rw [← h4, ← h3]⟩
    · rw [if_neg h4] at h3
      exact (hsame d (by omega) h4).2 (h.good.mark d h1 h2 h3)
  · refine ⟨csl fin s.cstack, by rw [hl, h.lpos], ?_⟩
    refine le_csl (csl_le_fin _ _) (by rw [hlen]; exact csl_le_c _ _) ?_
    intro d hd
    rw [hc, bot_swapTop hk1 hkl, if_neg (by omega)]
    split
    · rename_i h4
      rw [h.head, h4]
      exact (hD (by omega)).symm
    · exact csl_eq hd

/-- The common bottom after a swap that leaves it alone. -/
theorem Open.swap_csl {fin : List String} {s : St} {top : String} (h : Open fin s top) {k : Nat} (hk1 : 1 ≤ k) (hkl : k < s.cstack.length)
    (h1 : csl fin s.cstack < s.cstack.length - 1) (h2 : csl fin s.cstack < s.cstack.length - 1 - k) :
    csl fin (swapTop s.cstack k) = csl fin s.cstack := by
  refine csl_unique (csl_le_fin _ _) (by rw [length_swapTop]; exact csl_le_c _ _) ?_ ?_
  · intro d hd
    rw [bot_swapTop hk1 hkl, if_neg (by omega), if_neg (by omega)]
    exact csl_eq hd
  · rw [bot_swapTop hk1 hkl, if_neg (by omega), if_neg (by omega)]
    exact h.wrong

/-- Taking the top off, into a register or not. -/
theorem Open.drop {fin : List String} {s t : St} {v : String} (h : Good fin s) (hl0 : csl fin s.cstack < s.cstack.length)
    (hlp : s.lpos = -1 - (csl fin s.cstack : Int))
    {c : List String} (hc : s.cstack = v :: c) (hc' : t.cstack = c) (hr : t.reg = s.reg ∧ v ∉ fin ∨ t.reg = s.reg ++ [v] ∧ v ∈ fin)
    (hl : t.lpos = s.lpos) (hs : t.solved = unmark s.solved (pos fin (s.cstack.length - 1))) :
    Good fin t ∧ csl fin t.cstack = csl fin s.cstack := by
  have hlen : s.cstack.length = t.cstack.length + 1 := by rw [hc, hc']; rfl
  have hbot : ∀ d, d < t.cstack.length → bot t.cstack d = bot s.cstack d := by
    intro d hd
    rw [hc, bot_cons, hc', if_neg (by rw [← hc']; omega)]
  have hmem : ∀ p, p ∈ t.solved ↔ p ∈ s.solved ∧ p ≠ pos fin (s.cstack.length - 1) := by
    intro p
    rw [hs, unmark, h.nodup.mem_erase_iff]
    exact And.comm
  have hcs : csl fin s.cstack ≤ csl fin t.cstack := le_csl (csl_le_fin _ _) (by omega) (fun d hd => by rw [hbot d (by omega)]; exact csl_eq hd)
  refine ⟨⟨?_, ?_, by rw [hs]; exact h.nodup.erase _, ?_, ?_, ?_, ?_⟩, ?_⟩
  · intro w hw
    rw [← h.cnt w hw, hc, hc']
    rcases hr with ⟨hr, hv⟩ | ⟨hr, hv⟩
    · rw [hr, List.count_append, List.count_append, List.count_cons_of_ne]
      intro e; exact hv (e ▸ hw)
    · rw [hr]
      simp only [List.count_append, List.count_cons, List.count_nil]
      omega
  · rcases hr with ⟨hr, hv⟩ | ⟨hr, hv⟩
    · rw [hr]; exact h.reg
    · rw [hr]
      intro w hw
      rcases List.mem_append.1 hw with hw | hw
      · exact h.reg w hw
      · rw [List.mem_singleton.1 hw]; exact hv
  · intro p hp
    obtain ⟨h1, h2⟩ := (hmem p).1 hp
    obtain ⟨d, h3, h4, h5⟩ := h.inn p h1
    refine ⟨d, h3, ?_, h5⟩
    have : d ≠ s.cstack.length - 1 := by rintro rfl; exact h2 h5
    omega
  · intro d hd
    obtain ⟨h1, h2⟩ := (hmem _).1 hd
    have h3 := h.lt h1
    have : d ≠ s.cstack.length - 1 := by rintro rfl; exact h2 rfl
    rw [hbot d (by omega)]
    exact h.right d h1
  · intro d h1 h2 h3
    rw [hbot d (by omega)] at h3
    refine (hmem _).2 ⟨h.mark d (by omega) h2 h3, ?_⟩
    intro e
    have := pos_inj e
    omega
  · exact ⟨csl fin s.cstack, by rw [hl, hlp], hcs⟩
  · refine Nat.le_antisymm ?_ hcs
    refine le_csl (csl_le_fin _ _) ?_ ?_
    · have := csl_le_c fin t.cstack; omega
    · intro d hd
      have := csl_le_c fin t.cstack
      rw [← hbot d (by omega)]
      exact csl_eq hd

/-- Fetching a register. -/
theorem Open.push {fin : List String} {s t : St} {top r : String} (h : Open fin s top) (hr : r ∈ s.reg)
    (hm : bot s.cstack (s.cstack.length - 1) = bot fin (s.cstack.length - 1) → pos fin (s.cstack.length - 1) ∈ s.solved)
    (hc : t.cstack = r :: s.cstack) (hr' : t.reg = s.reg.erase r)
    (hl : t.lpos = s.lpos) (hs : t.solved = s.solved) : Good fin t ∧ csl fin t.cstack = csl fin s.cstack := by
  have hlen : t.cstack.length = s.cstack.length + 1 := by rw [hc]; rfl
  have hlt := h.lt_c
  have hbot : ∀ d, d < s.cstack.length → bot t.cstack d = bot s.cstack d := by
    intro d hd
    rw [hc, bot_cons, if_neg (by omega)]
  have hcs : csl fin t.cstack = csl fin s.cstack := by
    refine csl_unique (csl_le_fin _ _) (by omega) ?_ ?_
    · intro d hd
      rw [hbot d (by omega)]; exact csl_eq hd
    · rw [hbot _ hlt]; exact h.wrong
  refine ⟨⟨?_, ?_, by rw [hs]; exact h.good.nodup, ?_, ?_, ?_, ?_⟩, hcs⟩
  · refine h.good.congr_count ?_
    intro v
    rw [hc, hr']
    have := (List.perm_cons_erase hr).count_eq v
    simp only [List.count_append, List.count_cons] at this ⊢
    omega
  · rw [hr']
    intro v hv
    exact h.good.reg v (List.mem_of_mem_erase hv)
  · intro p hp
    rw [hs] at hp
    obtain ⟨d, h1, h2, h3⟩ := h.good.inn p hp
    exact ⟨d, h1, by omega, h3⟩
  · intro d hd
    rw [hs] at hd
    rw [hbot d (h.good.lt hd).2]
    exact h.good.right d hd
  · intro d h1 h2 h3
    rw [hs]
    rw [hbot d (by omega)] at h3
    by_cases h4 : d = s.cstack.length - 1
    · rw [h4] at h3 ⊢; exact hm h3
    · exact h.good.mark d (by omega) h2 h3
  · exact ⟨csl fin s.cstack, by rw [hl, h.lpos], by omega⟩

end Grey.Permute
