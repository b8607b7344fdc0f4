import Verif.Permute.Partial

/-!
# Stacks seen from the bottom

Positions of the stack and of the final stack are compared from the bottom: `bot l d` is the value `d` above the lowest one.
-/

namespace Grey.Permute

/-- The value `d` above the lowest one. -/
def bot (l : List String) (d : Nat) : Option String := l.reverse[d]?

theorem bot_lt {l : List String} {d : Nat} (h : d < l.length) : bot l d = l[l.length - 1 - d]? := by
  unfold bot
  rw [List.getElem?_reverse h]

theorem bot_ge {l : List String} {d : Nat} (h : l.length ≤ d) : bot l d = none := by
  unfold bot
  rw [List.getElem?_eq_none_iff]
  simpa using h

theorem bot_index {l : List String} {i : Nat} (h : i < l.length) : bot l (l.length - 1 - i) = l[i]? := by
  rw [bot_lt (by omega)]
  congr 1
  omega

theorem bot_cons (a : String) (l : List String) (d : Nat) : bot (a :: l) d = if d = l.length then some a else bot l d := by
  unfold bot
  rw [List.reverse_cons]
  by_cases h : d = l.length
  · subst h
    rw [if_pos rfl, List.getElem?_append_right (by simp)]
    simp
  · rw [if_neg h]
    by_cases h2 : d < l.length
    · rw [List.getElem?_append_left (by simpa using h2)]
    · rw [List.getElem?_eq_none_iff.2 (by simp; omega), List.getElem?_eq_none_iff.2 (by simp; omega)]

theorem bot_isSome {l : List String} {d : Nat} (h : d < l.length) : ∃ v, bot l d = some v ∧ v ∈ l := by
  rw [bot_lt h, List.getElem?_eq_getElem (by omega)]
  exact ⟨_, rfl, List.getElem_mem _⟩

theorem length_swapTop (c : List String) (k : Nat) : (swapTop c k).length = c.length := by
  unfold swapTop
  split <;> simp

theorem swapTop_getElem? {c : List String} {k : Nat} (hk : 1 ≤ k) (hl : k < c.length) (i : Nat) :
    (swapTop c k)[i]? = if i = 0 then c[k]? else if i = k then c[0]? else c[i]? := by
  cases c with
  | nil => simp at hl
  | cons a c =>
    simp only [swapTop, List.getElem?_eq_getElem hl]
    rw [List.getElem?_set]
    simp only [List.length_set]
    by_cases h1 : k = i
    · subst h1
      rw [if_pos rfl, if_pos hl, if_neg (by omega), if_pos rfl]
      rfl
    · rw [if_neg h1, List.getElem?_set]
      by_cases h0 : i = 0
      · subst h0; simp
      · rw [if_neg (by omega), if_neg h0, if_neg (by omega)]

theorem bot_swapTop {c : List String} {k : Nat} (hk : 1 ≤ k) (hl : k < c.length) (d : Nat) :
    bot (swapTop c k) d = if d = c.length - 1 then c[k]? else if d = c.length - 1 - k then c[0]? else bot c d := by
  by_cases hd : d < c.length
  · rw [bot_lt (by rw [length_swapTop]; exact hd), length_swapTop, swapTop_getElem? hk hl]
    by_cases h1 : d = c.length - 1
    · rw [if_pos (by omega), if_pos h1]
    · rw [if_neg (by omega), if_neg h1]
      by_cases h2 : d = c.length - 1 - k
      · rw [if_pos (by omega), if_pos h2]
      · rw [if_neg (by omega), if_neg h2, bot_lt hd]
  · rw [bot_ge (by rw [length_swapTop]; omega), if_neg (by omega), if_neg (by omega), bot_ge (by omega)]

theorem swapTop_perm {c : List String} {k : Nat} (hl : k < c.length) (hk : 1 ≤ k) : (swapTop c k).Perm c := by
  cases c with
  | nil => simp at hl
  | cons a c =>
    obtain ⟨k, rfl⟩ : ∃ j, k = j + 1 := ⟨k - 1, by omega⟩
    have hl' : k < c.length := by simpa using hl
    simp only [swapTop, List.getElem?_cons_succ, List.getElem?_eq_getElem hl', List.set_cons_zero, List.set_cons_succ]
    -- c = x ++ b :: y
    have e : c = c.take k ++ c[k] :: c.drop (k + 1) := by
      rw [List.getElem_cons_drop, List.take_append_drop]
    have e2 : c.set k a = c.take k ++ a :: c.drop (k + 1) := by
      rw [List.set_eq_take_append_cons_drop, if_pos hl']
    rw [e2]
    conv => rhs; rw [e]
    refine (List.perm_middle (a := a)).cons _ |>.trans ?_
    refine (List.Perm.swap _ _ _).trans ?_
    exact (List.perm_middle (a := c[k]) (l₁ := c.take k) (l₂ := c.drop (k+1))).symm.cons a

theorem swapTop_count {c : List String} {k : Nat} (hl : k < c.length) (hk : 1 ≤ k) (v : String) : (swapTop c k).count v = c.count v :=
  (swapTop_perm hl hk).count_eq v

/-! ### The part at the bottom that is right -/

/-- The length of the longest common beginning. -/
def commonLen : List String → List String → Nat
  | a :: as, b :: bs => if a = b then commonLen as bs + 1 else 0
  | _, _ => 0

theorem commonLen_le (x y : List String) : commonLen x y ≤ x.length ∧ commonLen x y ≤ y.length := by
  induction x generalizing y with
  | nil => simp [commonLen]
  | cons a x ih =>
    cases y with
    | nil => simp [commonLen]
    | cons b y =>
      unfold commonLen
      have := ih y
      split <;> simp <;> omega

theorem commonLen_eq (x y : List String) (d : Nat) (h : d < commonLen x y) : x[d]? = y[d]? := by
  induction x generalizing y d with
  | nil => simp [commonLen] at h
  | cons a x ih =>
    cases y with
    | nil => simp [commonLen] at h
    | cons b y =>
      unfold commonLen at h
      split at h
      · rename_i hab
        cases d with
        | zero => simp [hab]
        | succ d => simpa using ih y d (by omega)
      · omega

theorem commonLen_ne (x y : List String) (h1 : commonLen x y < x.length) (h2 : commonLen x y < y.length) :
    x[commonLen x y]? ≠ y[commonLen x y]? := by
  induction x generalizing y with
  | nil => simp at h1
  | cons a x ih =>
    cases y with
    | nil => simp at h2
    | cons b y =>
      unfold commonLen at h1 h2 ⊢
      split at h1
      · rename_i hab
        rw [if_pos hab] at h2
        rw [if_pos hab]
        simpa using ih y (by simpa using h1) (by simpa using h2)
      · rename_i hab
        rw [if_neg hab]
        simpa using hab

/-- How many values at the bottom of the stack are as wanted. -/
def csl (fin c : List String) : Nat := commonLen fin.reverse c.reverse

theorem csl_le_fin (fin c : List String) : csl fin c ≤ fin.length := by
  have := (commonLen_le fin.reverse c.reverse).1
  simpa [csl] using this

theorem csl_le_c (fin c : List String) : csl fin c ≤ c.length := by
  have := (commonLen_le fin.reverse c.reverse).2
  simpa [csl] using this

theorem csl_eq {fin c : List String} {d : Nat} (h : d < csl fin c) : bot c d = bot fin d :=
  (commonLen_eq _ _ d h).symm

theorem csl_ne {fin c : List String} (h1 : csl fin c < fin.length) (h2 : csl fin c < c.length) :
    bot c (csl fin c) ≠ bot fin (csl fin c) :=
  (commonLen_ne fin.reverse c.reverse (by simpa [csl] using h1) (by simpa [csl] using h2)).symm

theorem le_csl {fin c : List String} {D : Nat} (h1 : D ≤ fin.length) (h2 : D ≤ c.length)
    (h : ∀ d < D, bot c d = bot fin d) : D ≤ csl fin c := by
  by_cases hD : D ≤ csl fin c
  · exact hD
  · exact absurd (h _ (by omega)) (csl_ne (by omega) (by omega))

theorem csl_unique {fin c : List String} {D : Nat} (h1 : D ≤ fin.length) (h2 : D ≤ c.length)
    (h : ∀ d < D, bot c d = bot fin d) (hn : bot c D ≠ bot fin D) : csl fin c = D := by
  have := le_csl h1 h2 h
  rcases Nat.lt_or_ge D (csl fin c) with h3 | h3
  · exact absurd (csl_eq h3) hn
  · omega

/-! ### Positions -/

theorem idx_neg (l : List String) (D : Nat) : idx l (-1 - D) = bot l D := by
  unfold idx
  rw [if_neg (by omega)]
  split
  · rw [bot_lt (by omega)]
    congr 1
    omega
  · rw [bot_ge (by omega)]

theorem idx_pos {l : List String} {d : Nat} (h : d < l.length) : idx l (l.length - 1 - d) = bot l d := by
  unfold idx
  rw [if_pos (by omega), bot_lt h]
  congr 1
  omega

theorem advance_eq {fin c : List String} {D : Nat} (n : Nat) (hD : D ≤ csl fin c) (hn : csl fin c - D ≤ n) :
    advance fin c (-1 - D) n = -1 - (csl fin c : Int) := by
  induction n generalizing D with
  | zero =>
    have : D = csl fin c := by omega
    simp [advance, this]
  | succ n ih =>
    unfold advance
    have hc1 := csl_le_fin fin c
    have hc2 := csl_le_c fin c
    rw [idx_neg, idx_neg]
    rcases Nat.lt_or_ge D (csl fin c) with h | h
    · rw [if_pos ⟨by omega, by omega, csl_eq h⟩]
      have := ih (D := D + 1) (by omega) (by omega)
      rw [← this]
      congr 1
      omega
    · have hDe : D = csl fin c := by omega
      split
      · rename_i h3
        exact absurd (hDe ▸ h3.2.2) (csl_ne (by omega) (by omega))
      · rw [hDe]

end Grey.Permute
