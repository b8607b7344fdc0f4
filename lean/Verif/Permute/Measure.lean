import Verif.Permute.Good

/-!
# Why reordering ends

Rounds take a value off, bring garbage to the top, make the right part at the bottom longer, bring the value that is missing there to
the top, or decrease `inner`, which depends on how far the top is above the lowest wrong position.
-/

namespace Grey.Permute
open Classical

/-- The number of values. -/
def total (s : St) : Nat := s.reg.length + s.cstack.length

/-- Is the top needed? -/
noncomputable def topNeeded (fin : List String) (s : St) : Nat :=
  if ∃ v, s.cstack[0]? = some v ∧ fin.count v < (s.reg ++ s.cstack).count v then 0 else 1

/-- Is the top another one than the one that is missing at the lowest wrong position? -/
noncomputable def topOther (fin : List String) (reach : Nat) (s : St) : Nat :=
  if s.cstack[0]? = bot fin (csl fin s.cstack) ∧ s.cstack.length - 1 - csl fin s.cstack ≤ reach then 0 else 1

/-- The number of unmarked positions less than `m` above the bottom. -/
def unm (fin : List String) (solved : List Int) (m : Nat) : Nat := (List.range m).countP fun d => decide (pos fin d ∉ solved)

theorem unm_congr {fin : List String} {S S' : List Int} {m : Nat} (h : ∀ d < m, (pos fin d ∈ S ↔ pos fin d ∈ S')) :
    unm fin S m = unm fin S' m := by
  unfold unm
  apply List.countP_congr
  intro d hd
  rw [List.mem_range] at hd
  simp [h d hd]

theorem unm_lt {fin : List String} {S S' : List Int} {m q : Nat} (h : ∀ d < m, pos fin d ∈ S → pos fin d ∈ S') (hq : q < m)
    (h1 : pos fin q ∉ S) (h2 : pos fin q ∈ S') : unm fin S' m < unm fin S m := by
  unfold unm
  induction m with
  | zero => omega
  | succ m ih =>
    rw [List.range_succ, List.countP_append, List.countP_append]
    simp only [List.countP_singleton]
    have hmono : (List.range m).countP (fun d => decide (pos fin d ∉ S')) ≤ (List.range m).countP (fun d => decide (pos fin d ∉ S)) := by
      apply List.countP_mono_left
      intro d hd
      rw [List.mem_range] at hd
      simp only [decide_eq_true_eq]
      intro h3 h4
      exact h3 (h d (by omega) h4)
    by_cases hqm : q = m
    · subst hqm
      rw [if_neg (by simp [h2]), if_pos (by simp [h1])]
      omega
    · have h3 := ih (fun d hd => h d (by omega)) (by omega)
      have h4 : (if decide (pos fin m ∉ S') = true then 1 else 0) ≤ (if decide (pos fin m ∉ S) = true then 1 else (0 : Nat)) := by
        by_cases h5 : pos fin m ∈ S
        · simp [h5, h m (by omega) h5]
        · simp only [h5, not_false_eq_true, decide_true, if_true]
          split <;> omega
      omega

/-- The top is right, but not marked. -/
def Fresh (fin : List String) (s : St) : Prop :=
  bot s.cstack (s.cstack.length - 1) = bot fin (s.cstack.length - 1) ∧ pos fin (s.cstack.length - 1) ∉ s.solved

/-- How often a value is there. -/
def cnt (o : Option String) (l : List String) : Nat :=
  match o with
  | none => 0
  | some v => l.count v

/-- The last part of the measure. With the top more than `reach` above the lowest wrong position, values are put into registers; with
the top less than `reach - 1` above it, they are fetched; in between, both happens. -/
noncomputable def inner (fin : List String) (reach : Nat) (s : St) : Nat × Nat × Nat × Nat :=
  if reach < s.cstack.length - 1 - csl fin s.cstack then
    (1, s.cstack.length, unm fin s.solved (s.cstack.length - 1), if Fresh fin s then 1 else 0)
  else if s.cstack.length - 1 - csl fin s.cstack + 1 < reach then
    (1, s.reg.length, unm fin s.solved (s.cstack.length - 1),
      if Fresh fin s then 2 else if pos fin (s.cstack.length - 1) ∈ s.solved then 1 else 0)
  else if s.cstack.length - 1 - csl fin s.cstack = reach then
    (0, unm fin s.solved (csl fin s.cstack + reach - 1), cnt (bot fin (csl fin s.cstack + reach - 1)) (s.reg ++ s.cstack.take 1),
      if Place fin reach s then 0 else if Fresh fin s then 5 else 4)
  else
    (0, unm fin s.solved (csl fin s.cstack + reach - 1), cnt (bot fin (csl fin s.cstack + reach - 1)) s.reg,
      if Fresh fin s then 3 else if pos fin (s.cstack.length - 1) ∈ s.solved then 2 else 1)

def natLt : WellFoundedRelation Nat := ⟨(· < ·), Nat.lt_wfRel.wf⟩

def lex4 : WellFoundedRelation (Nat × Nat × Nat × Nat) := Prod.lex natLt (Prod.lex natLt (Prod.lex natLt natLt))

def lex8 : WellFoundedRelation (Nat × Nat × Nat × Nat × (Nat × Nat × Nat × Nat)) :=
  Prod.lex natLt (Prod.lex natLt (Prod.lex natLt (Prod.lex natLt lex4)))

theorem lex_iff {α β : Type} (x : WellFoundedRelation α) (y : WellFoundedRelation β) (a a' : α) (b b' : β) :
    (Prod.lex x y).rel (a, b) (a', b') ↔ x.rel a a' ∨ a = a' ∧ y.rel b b' := Prod.lex_def

theorem lex4_iff (a b c d a' b' c' d' : Nat) : lex4.rel (a, b, c, d) (a', b', c', d') ↔
    a < a' ∨ a = a' ∧ (b < b' ∨ b = b' ∧ (c < c' ∨ c = c' ∧ d < d')) :=
  (lex_iff ..).trans (or_congr Iff.rfl (and_congr Iff.rfl ((lex_iff ..).trans (or_congr Iff.rfl (and_congr Iff.rfl (lex_iff ..))))))

theorem lex8_iff (a b c d a' b' c' d' : Nat) (e e' : Nat × Nat × Nat × Nat) : lex8.rel (a, b, c, d, e) (a', b', c', d', e') ↔
    a < a' ∨ a = a' ∧ (b < b' ∨ b = b' ∧ (c < c' ∨ c = c' ∧ (d < d' ∨ d = d' ∧ lex4.rel e e'))) :=
  (lex_iff ..).trans (or_congr Iff.rfl (and_congr Iff.rfl ((lex_iff ..).trans (or_congr Iff.rfl (and_congr Iff.rfl
    ((lex_iff ..).trans (or_congr Iff.rfl (and_congr Iff.rfl (lex_iff ..)))))))))

/-- The measure of a state. -/
noncomputable def mu (fin : List String) (reach : Nat) (s : St) : Nat × Nat × Nat × Nat × (Nat × Nat × Nat × Nat) :=
  (total s, topNeeded fin s, fin.length - csl fin s.cstack, topOther fin reach s, inner fin reach s)

/-- The second state is nearer to the end. -/
def Nearer (fin : List String) (reach : Nat) (s t : St) : Prop := lex8.rel (mu fin reach t) (mu fin reach s)

section
variable {fin : List String} {reach : Nat} {s t : St} {top : String}

theorem nearer_total (h : total t < total s) : Nearer fin reach s t := by
  unfold Nearer mu
  rw [lex8_iff]; exact .inl h

theorem topNeeded_le : topNeeded fin s ≤ 1 := by unfold topNeeded; split <;> omega

theorem topOther_le : topOther fin reach s ≤ 1 := by unfold topOther; split <;> omega

theorem nearer_needed (h : total t = total s) (h2 : topNeeded fin t < topNeeded fin s) : Nearer fin reach s t := by
  unfold Nearer mu
  rw [lex8_iff]; exact .inr ⟨h, .inl h2⟩

theorem nearer_csl (h : total t = total s) (h2 : topNeeded fin s = 1) (h3 : csl fin s.cstack < csl fin t.cstack) : Nearer fin reach s t := by
  unfold Nearer mu
  rw [lex8_iff]
  have := topNeeded_le (fin := fin) (s := t)
  have := csl_le_fin fin t.cstack
  omega

theorem nearer_other (h : total t = total s) (h2 : topNeeded fin s = 1) (h3 : csl fin s.cstack ≤ csl fin t.cstack)
    (h4 : topOther fin reach t < topOther fin reach s) : Nearer fin reach s t := by
  unfold Nearer mu
  rw [lex8_iff]
  have := topNeeded_le (fin := fin) (s := t)
  have := csl_le_fin fin t.cstack
  omega

theorem nearer_inner (h : total t = total s) (h2 : topNeeded fin s = 1) (h3 : csl fin s.cstack ≤ csl fin t.cstack)
    (h4 : topOther fin reach s = 1) (h5 : lex4.rel (inner fin reach t) (inner fin reach s)) : Nearer fin reach s t := by
  unfold Nearer mu
  rw [lex8_iff]
  have := topNeeded_le (fin := fin) (s := t)
  have := topOther_le (fin := fin) (reach := reach) (s := t)
  have := csl_le_fin fin t.cstack
  have h6 : topOther fin reach t < topOther fin reach s ∨ topOther fin reach t = topOther fin reach s := by omega
  rcases h6 with h6 | h6
  · omega
  · rw [h6]
    have h7 : topNeeded fin t < topNeeded fin s ∨ topNeeded fin t = topNeeded fin s := by omega
    rcases h7 with h7 | h7
    · omega
    · have h8 : fin.length - csl fin t.cstack < fin.length - csl fin s.cstack ∨
          fin.length - csl fin t.cstack = fin.length - csl fin s.cstack := by omega
      rcases h8 with h8 | h8
      · omega
      · exact .inr ⟨h, .inr ⟨h7, .inr ⟨h8, .inr ⟨rfl, h5⟩⟩⟩⟩

theorem Open.needed (h : Open fin s top) : topNeeded fin s = 1 := by
  unfold topNeeded
  rw [if_neg]
  rintro ⟨v, hv, hc⟩
  rw [h.head] at hv
  have := h.good.cnt top h.need
  have e : top = v := Option.some.inj hv
  subst e
  omega

/-- Without a place, the top is not the value missing at the lowest wrong position. -/
theorem Open.other (h : Open fin s top) (hp : ¬ Place fin reach s) : topOther fin reach s = 1 := by
  unfold topOther
  rw [if_neg]
  rintro ⟨h1, h2⟩
  have hlt := h.lt_c
  rcases Nat.lt_or_ge (csl fin s.cstack + 1) s.cstack.length with h3 | h3
  · exact hp ⟨csl fin s.cstack, h3, h2, h.lt_fin, h.unmarked, h1.symm⟩
  · have h4 : csl fin s.cstack = s.cstack.length - 1 := by omega
    apply h.wrong
    rw [← h1, h.head, h4, h.top_bot]

theorem inner_far (h : reach < s.cstack.length - 1 - csl fin s.cstack) : inner fin reach s =
    (1, s.cstack.length, unm fin s.solved (s.cstack.length - 1), if Fresh fin s then 1 else 0) := by
  unfold inner; rw [if_pos h]

theorem inner_near (h : s.cstack.length - 1 - csl fin s.cstack + 1 < reach) : inner fin reach s =
    (1, s.reg.length, unm fin s.solved (s.cstack.length - 1),
      if Fresh fin s then 2 else if pos fin (s.cstack.length - 1) ∈ s.solved then 1 else 0) := by
  unfold inner; rw [if_neg (by omega), if_pos h]

theorem inner_at (h : s.cstack.length - 1 - csl fin s.cstack = reach) : inner fin reach s =
    (0, unm fin s.solved (csl fin s.cstack + reach - 1), cnt (bot fin (csl fin s.cstack + reach - 1)) (s.reg ++ s.cstack.take 1),
      if Place fin reach s then 0 else if Fresh fin s then 5 else 4) := by
  unfold inner; rw [if_neg (by omega), if_neg (by omega), if_pos h]

theorem inner_below (h : s.cstack.length - 1 - csl fin s.cstack + 1 = reach) : inner fin reach s =
    (0, unm fin s.solved (csl fin s.cstack + reach - 1), cnt (bot fin (csl fin s.cstack + reach - 1)) s.reg,
      if Fresh fin s then 3 else if pos fin (s.cstack.length - 1) ∈ s.solved then 2 else 1) := by
  unfold inner; rw [if_neg (by omega), if_neg (by omega), if_neg (by omega)]

end

end Grey.Permute
