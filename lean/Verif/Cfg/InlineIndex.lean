/-
Where a call is after earlier inlinings in its block (src/cfg_methods/function_inlining.py:97-105, 119-123, 135-164): C25.
-/
import Mathlib.Data.List.Basic
import Mathlib.Data.List.Nodup
namespace Grey.Cfg
open List

/-! ### Model -/

/-- An instruction of the sub-blocks of an original block: a phi function, or the instruction that was at position `p` of the
original block (not counting phi functions). Renamings of variables by the inlining do not matter here. -/
inductive Item where
  | phi
  | orig (p : Nat)
  deriving DecidableEq, Repr

/-- `block.instructions_without_phi_functions()` -/
def nonPhi (b : List Item) : List Item := b.filter fun x => x != .phi

/-- src/cfg_methods/function_inlining.py:161-164 -/
def numPhis (b : List Item) : Nat := (b.filter fun x => x == .phi).length

/-- src/cfg_methods/function_inlining.py:135-158: `i` counts the blocks passed, `none` is the ValueError. -/
def determineIdx : Nat → List (List Item) → Nat → Option (Nat × Nat)
  | _, [], _ => none
  | p, b :: bs, i =>
    if p < (nonPhi b).length then some (i, p + numPhis b)
    else determineIdx (p - ((nonPhi b).length + 1)) bs (i + 1)

/-- src/cfg_methods/function_inlining.py:101-105 -/
def locateCall (p : Nat) (bs : List (List Item)) : Option (Nat × Nat) :=
  if bs.length > 1 then determineIdx p bs 0 else bs[0]?.map fun b => (0, p + numPhis b)

/-- The sub-blocks after inlining the call at position `idx` of sub-block `i` (src/cfg_methods/cfg_block_actions/inline_function.py:65-74,
105-112 and src/cfg_methods/function_inlining.py:119-123): the sub-block is split after the call, the call is removed
from the first half, `m` phi functions (one per result if the function has several exits) are put in front of the second half. -/
def inlineAt (i idx m : Nat) (bs : List (List Item)) : List (List Item) :=
  match bs[i]? with
  | none => bs
  | some b => bs.take i ++ [(b.take (idx + 1)).dropLast, replicate m .phi ++ b.drop (idx + 1)] ++ bs.drop (i + 1)

/-- Inlining the calls at the original positions `p`, in the given order; each with its number of phi functions. -/
def inlineAll : List (Nat × Nat) → List (List Item) → Option (List (List Item))
  | [], bs => some bs
  | (p, m) :: ps, bs => (locateCall p bs).bind fun r => inlineAll ps (inlineAt r.1 r.2 m bs)

/-- The original block: `f` phi functions, then `n` instructions. -/
def origBlock (f n : Nat) : List Item := replicate f .phi ++ (range n).map .orig

/-! ### Proofs -/

/-- The instructions of the original block in order; `none` stands for removed calls. -/
def layoutOf : List (List Item) → List (Option Item)
  | [] => []
  | [b] => (nonPhi b).map some
  | b :: bs => (nonPhi b).map some ++ none :: layoutOf bs

/-- Phi functions come first. -/
def PhisFirst (b : List Item) : Prop := b = replicate (numPhis b) .phi ++ nonPhi b

theorem layoutOf_cons (b : List Item) {bs : List (List Item)} (h : bs ≠ []) :
    layoutOf (b :: bs) = (nonPhi b).map some ++ none :: layoutOf bs := by
  cases bs with
  | nil => exact absurd rfl h
  | cons c bs => rfl

theorem phisFirst_mk (m : Nat) (l : List Item) (h : Item.phi ∉ l) :
    numPhis (replicate m .phi ++ l) = m ∧ nonPhi (replicate m .phi ++ l) = l := by
  have h1 : l.filter (fun x => x == .phi) = [] := by
    rw [filter_eq_nil_iff]; intro a ha; simp; rintro rfl; exact h ha
  have h2 : l.filter (fun x => x != .phi) = l := by
    rw [filter_eq_self]; intro a ha; simp; rintro rfl; exact h ha
  constructor
  · simp [numPhis, h1]
  · simp [nonPhi, h2]

theorem phi_not_mem_nonPhi (b : List Item) : Item.phi ∉ nonPhi b := by simp [nonPhi]

theorem layoutOf_two (a c : List Item) (pre post : List (List Item)) :
    layoutOf (pre ++ [a, c] ++ post) = layoutOf (pre ++ [a]) ++ none :: layoutOf (c :: post) := by
  induction pre with
  | nil => rfl
  | cons b pre ih =>
    rw [cons_append, cons_append, layoutOf_cons b (by simp), cons_append, layoutOf_cons b (by simp), ih]
    simp

theorem layoutOf_one (b : List Item) (pre post : List (List Item)) :
    layoutOf (pre ++ [b] ++ post) = (layoutOf (pre ++ [[]])) ++ layoutOf (b :: post) := by
  induction pre with
  | nil => rfl
  | cons c pre ih =>
    rw [cons_append, cons_append, layoutOf_cons c (by simp), cons_append, layoutOf_cons c (by simp), ih]
    simp

theorem layoutOf_head (b : List Item) (post : List (List Item)) :
    ∃ rest, layoutOf (b :: post) = (nonPhi b).map some ++ rest ∧ ∀ c, layoutOf (c :: post) = (nonPhi c).map some ++ rest := by
  cases post with
  | nil => exact ⟨[], by simp [layoutOf], by simp [layoutOf]⟩
  | cons d post => exact ⟨none :: layoutOf (d :: post), rfl, fun _ => rfl⟩

/-- Looking up a position that has not been removed. -/
theorem determineIdx_spec : ∀ (bs : List (List Item)) (p i : Nat) (x : Item), (∀ b ∈ bs, PhisFirst b) →
    (layoutOf bs)[p]? = some (some x) →
    ∃ j b, determineIdx p bs i = some (i + j, (p - (layoutOf (bs.take j ++ [[]])).length) + numPhis b) ∧ bs[j]? = some b ∧
      (layoutOf (bs.take j ++ [[]])).length ≤ p ∧ (nonPhi b)[p - (layoutOf (bs.take j ++ [[]])).length]? = some x := by
  intro bs
  induction bs with
  | nil => intro p i x _ h; simp [layoutOf] at h
  | cons b bs ih =>
    intro p i x hp h
    unfold determineIdx
    by_cases hlt : p < (nonPhi b).length
    · rw [if_pos hlt]
      refine ⟨0, b, by simp [layoutOf, nonPhi], by simp, by simp [layoutOf, nonPhi], ?_⟩
      obtain ⟨rest, hr, _⟩ := layoutOf_head b bs
      rw [hr, getElem?_append_left (by simpa using hlt), getElem?_map] at h
      simp only [take_zero, nil_append]
      have h0 : (layoutOf [[]]).length = 0 := by simp [layoutOf, nonPhi]
      rw [h0, Nat.sub_zero]
      obtain ⟨y, hy, hyx⟩ := Option.map_eq_some_iff.1 h
      rw [hy]
      exact hyx
    · rw [if_neg hlt]
      have hne : bs ≠ [] := by
        rintro rfl
        simp only [layoutOf] at h
        rw [getElem?_eq_none (by simpa using hlt)] at h
        cases h
      rw [layoutOf_cons b hne, getElem?_append_right (by simpa using hlt), length_map] at h
      have hpos : p - (nonPhi b).length = (p - ((nonPhi b).length + 1)) + 1 := by
        rcases Nat.eq_zero_or_pos (p - (nonPhi b).length) with h0 | h0
        · rw [h0] at h; simp at h
        · omega
      rw [hpos, getElem?_cons_succ] at h
      obtain ⟨j, c, h1, h2, h3, h4⟩ := ih _ (i + 1) x (fun c hc => hp c (mem_cons_of_mem _ hc)) h
      have hl : (layoutOf ((b :: bs).take (j + 1) ++ [[]])).length = (nonPhi b).length + 1 + (layoutOf (bs.take j ++ [[]])).length := by
        rw [take_succ_cons, cons_append, layoutOf_cons b (by simp)]
        simp; omega
      have hsub : p - (layoutOf ((b :: bs).take (j + 1) ++ [[]])).length
          = p - ((nonPhi b).length + 1) - (layoutOf (bs.take j ++ [[]])).length := by omega
      refine ⟨j + 1, c, ?_, by simpa using h2, by omega, ?_⟩
      · rw [h1, hsub]
        congr 2
        omega
      · rw [hsub, h4]

theorem locate_eq (p : Nat) (bs : List (List Item)) (x : Item) (h : (layoutOf bs)[p]? = some (some x)) :
    locateCall p bs = determineIdx p bs 0 := by
  unfold locateCall
  split
  · rfl
  · cases bs with
    | nil => rfl
    | cons b bs =>
      have : bs = [] := by
        cases bs with
        | nil => rfl
        | cons c bs => simp at *
      subst this
      simp only [layoutOf, getElem?_map] at h
      obtain ⟨y, hy, _⟩ := Option.map_eq_some_iff.1 h
      have := (List.getElem?_eq_some_iff.1 hy).1
      simp [determineIdx, this]

/-- One inlining: the pair designates the instruction, and afterwards only that instruction is missing. -/
theorem inline_step {bs : List (List Item)} {p : Nat} {x : Item} (hp : ∀ b ∈ bs, PhisFirst b)
    (h : (layoutOf bs)[p]? = some (some x)) (m : Nat) :
    ∃ r b, locateCall p bs = some r ∧ bs[r.1]? = some b ∧ b[r.2]? = some x ∧
      layoutOf (inlineAt r.1 r.2 m bs) = (layoutOf bs).set p none ∧ ∀ c ∈ inlineAt r.1 r.2 m bs, PhisFirst c := by
  obtain ⟨j, b, h1, h2, h3, h4⟩ := determineIdx_spec bs p 0 x hp h
  have hb : b ∈ bs := mem_of_getElem? h2
  have hpb : b = replicate (numPhis b) .phi ++ nonPhi b := hp b hb
  set q := p - (layoutOf (bs.take j ++ [[]])).length with hq
  have hqlt : q < (nonPhi b).length := (List.getElem?_eq_some_iff.1 h4).1
  have hsplit : bs = bs.take j ++ [b] ++ bs.drop (j + 1) := by
    have hlt := (List.getElem?_eq_some_iff.1 h2).1
    have := (List.getElem?_eq_some_iff.1 h2).2
    conv_lhs => rw [← take_append_drop j bs, drop_eq_getElem_cons hlt, this]
    simp
  have hgen : ∀ (k : Nat) (l : List Item), q < l.length → ((replicate k Item.phi ++ l).take (q + k + 1)).dropLast = replicate k Item.phi ++ l.take q ∧
      (replicate k Item.phi ++ l).drop (q + k + 1) = l.drop (q + 1) := by
    intro k l hl
    constructor
    · have hlen : ((replicate k Item.phi ++ l).take (q + k + 1)).length = q + k + 1 := by simp; omega
      rw [dropLast_eq_take, hlen, take_take, take_append, length_replicate, take_replicate]
      congr 1
      · congr 1; omega
      · congr 1; omega
    · rw [drop_append, length_replicate, drop_of_length_le (by simp; omega), nil_append]
      congr 1
      omega
  have hfirst : (b.take (q + numPhis b + 1)).dropLast = replicate (numPhis b) .phi ++ (nonPhi b).take q :=
    (congrArg (fun z => (z.take (q + numPhis b + 1)).dropLast) hpb).trans (hgen _ _ hqlt).1
  have hsecond : b.drop (q + numPhis b + 1) = (nonPhi b).drop (q + 1) :=
    (congrArg (fun z => z.drop (q + numPhis b + 1)) hpb).trans (hgen _ _ hqlt).2
  refine ⟨(j, q + numPhis b), b, ?_, h2, ?_, ?_, ?_⟩
  · rw [locate_eq p bs x h, h1]; simp
  · show b[q + numPhis b]? = some x
    conv_lhs => rw [hpb]
    rw [getElem?_append_right (by simp [phisFirst_mk _ _ (phi_not_mem_nonPhi b)])]
    simp only [length_replicate, (phisFirst_mk _ _ (phi_not_mem_nonPhi b)).1]
    rw [Nat.add_sub_cancel, h4]
  · simp only [inlineAt, h2]
    rw [hfirst, hsecond, layoutOf_two]
    conv_rhs => rw [hsplit, layoutOf_one]
    obtain ⟨rest, hr, hr'⟩ := layoutOf_head b (bs.drop (j + 1))
    have e1 : nonPhi (replicate m .phi ++ (nonPhi b).drop (q + 1)) = (nonPhi b).drop (q + 1) :=
      (phisFirst_mk _ _ (fun hh => phi_not_mem_nonPhi b (mem_of_mem_drop hh))).2
    have e2 : nonPhi (replicate (numPhis b) .phi ++ (nonPhi b).take q) = (nonPhi b).take q :=
      (phisFirst_mk _ _ (fun hh => phi_not_mem_nonPhi b (mem_of_mem_take hh))).2
    have e3 : layoutOf (bs.take j ++ [replicate (numPhis b) .phi ++ (nonPhi b).take q])
        = layoutOf (bs.take j ++ [[]]) ++ ((nonPhi b).take q).map some := by
      have := layoutOf_one (replicate (numPhis b) .phi ++ (nonPhi b).take q) (bs.take j) []
      rw [append_nil] at this
      rw [this]
      simp only [layoutOf, e2]
    rw [hr', e1, hr]
    have e4 : layoutOf (bs.take j ++ [replicate (numPhis b) .phi ++ (nonPhi b).take q])
        = layoutOf (bs.take j ++ [[]]) ++ ((nonPhi b).take q).map some := e3
    have hset : ((nonPhi b).map some ++ rest).set q none
        = ((nonPhi b).take q).map some ++ none :: (((nonPhi b).drop (q + 1)).map some ++ rest) := by
      rw [set_append_left _ _ (by simpa using hqlt), set_eq_take_append_cons_drop, if_pos (by simpa using hqlt)]
      simp [map_take, map_drop]
    rw [set_append_right _ _ h3, ← hq, hset]
    rw [e4]; simp
  · intro c hc
    simp only [inlineAt, h2] at hc
    rw [hfirst, hsecond] at hc
    simp only [mem_append, mem_cons, not_mem_nil, or_false] at hc
    rcases hc with (hc | rfl | rfl) | hc
    · exact hp c (mem_of_mem_take hc)
    · have := phisFirst_mk (numPhis b) ((nonPhi b).take q) (fun hh => phi_not_mem_nonPhi b (mem_of_mem_take hh))
      unfold PhisFirst
      rw [this.1, this.2]
    · have := phisFirst_mk m ((nonPhi b).drop (q + 1)) (fun hh => phi_not_mem_nonPhi b (mem_of_mem_drop hh))
      unfold PhisFirst
      rw [this.1, this.2]
    · exact hp c (mem_of_mem_drop hc)

/-- **C25.** A block with any phi functions followed by `n` instructions; calls at different positions `ps` have been inlined, in
any order. Then the pair computed for any other position designates exactly the instruction that was there. -/
theorem inlining_locates_call (f n : Nat) (ps : List (Nat × Nat)) (hps : ∀ p ∈ ps, p.1 < n) (hnd : (ps.map (·.1)).Nodup) :
    ∃ bs, inlineAll ps [origBlock f n] = some bs ∧
      ∀ p, p < n → p ∉ ps.map (·.1) → ∃ r b, locateCall p bs = some r ∧ bs[r.1]? = some b ∧ b[r.2]? = some (.orig p) := by
  have key : ∀ (ps : List (Nat × Nat)) (bs : List (List Item)) (gone : List Nat), (∀ p ∈ ps, p.1 < n) → (ps.map (·.1)).Nodup →
      (∀ b ∈ bs, PhisFirst b) → (∀ p ∈ ps, p.1 ∉ gone) →
      (∀ p, p < n → p ∉ gone → (layoutOf bs)[p]? = some (some (.orig p))) →
      ∃ bs', inlineAll ps bs = some bs' ∧
        ∀ p, p < n → p ∉ gone → p ∉ ps.map (·.1) → ∃ r b, locateCall p bs' = some r ∧ bs'[r.1]? = some b ∧ b[r.2]? = some (.orig p) := by
    intro ps
    induction ps with
    | nil =>
      intro bs gone _ _ hp _ hl
      refine ⟨bs, rfl, ?_⟩
      intro p hpn hpg _
      obtain ⟨r, b, h1, h2, h3, _⟩ := inline_step hp (hl p hpn hpg) 0
      exact ⟨r, b, h1, h2, h3⟩
    | cons a ps ih =>
      obtain ⟨p0, m⟩ := a
      intro bs gone hps hnd hp hg hl
      obtain ⟨r, b, h1, h2, h3, h4, h5⟩ := inline_step hp (hl p0 (hps _ mem_cons_self) (hg _ mem_cons_self)) m
      rw [map_cons, nodup_cons] at hnd
      obtain ⟨bs', hb1, hb2⟩ := ih (inlineAt r.1 r.2 m bs) (p0 :: gone) (fun p hp => hps p (mem_cons_of_mem _ hp)) hnd.2 h5
        (by
          intro q hq hqg
          rcases mem_cons.1 hqg with hqg | hqg
          · exact hnd.1 (mem_map.2 ⟨q, hq, hqg⟩)
          · exact hg q (mem_cons_of_mem _ hq) hqg)
        (by
          intro q hqn hqg
          rw [mem_cons, not_or] at hqg
          rw [h4, getElem?_set_ne (Ne.symm hqg.1)]
          exact hl q hqn hqg.2)
      · refine ⟨bs', ?_, ?_⟩
        · unfold inlineAll
          rw [h1]
          exact hb1
        · intro p hpn hpg hpp
          rw [map_cons, mem_cons, not_or] at hpp
          exact hb2 p hpn (by rw [mem_cons, not_or]; exact ⟨hpp.1, hpg⟩) hpp.2
  have h0 := phisFirst_mk f ((range n).map Item.orig) (by simp)
  obtain ⟨bs, h1, h2⟩ := key ps [origBlock f n] [] hps hnd
    (by
      intro b hb
      rw [mem_singleton] at hb
      subst hb
      unfold PhisFirst origBlock
      rw [h0.1, h0.2])
    (by simp)
    (by
      intro p hp _
      simp only [layoutOf, origBlock, h0.2]
      simp [hp])
  exact ⟨bs, h1, fun p hp hpp => h2 p hp (by simp) hpp⟩

/-! ### The theorem applies -/

/-- A block with a phi function and six instructions; the calls at 3, 1 and 4 are inlined (the second one with two phi functions). -/
example : inlineAll [(3, 0), (1, 2), (4, 1)] [origBlock 1 6]
    = some [[.phi, .orig 0], [.phi, .phi, .orig 2], [], [.phi, .orig 5]] := by decide +kernel

example : locateCall 2 [[.phi, .orig 0], [.phi, .phi, .orig 2], [], [.phi, .orig 5]] = some (1, 2)
    ∧ locateCall 5 [[.phi, .orig 0], [.phi, .phi, .orig 2], [], [.phi, .orig 5]] = some (3, 1) := by decide +kernel

end Grey.Cfg
