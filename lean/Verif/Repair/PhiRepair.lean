/-
The phi functions that are kept in memory (src/reparation/insert_placeholders.py:26-101, src/greedy/greedy_info.py:82-96) and the
variables that are out of reach in a block (src/reparation/reachability.py:66-100): C76.
-/
import Verif.Repair.Placeholders
import Verif.Repair.StorePlacement
import Verif.Repair.PhiWebs
namespace Grey.Repair
open List

/-! ### Model -/

/-- What is read of a block: its phi functions (results and arguments), `entries`, the dictionary `reachable` and the set
`unreachable` of its `GreedyInfo`. -/
structure QBlock where
  id : String
  phis : List (String × List String)
  entries : List String
  reach : Reach
  unreachable : List String

/-- `block_list.get_block`. `none`: the KeyError. -/
def getQ (bs : List QBlock) (b : String) : Option QBlock := bs.find? fun B => B.id == b

/-- `phi_def2block` (src/reparation/insert_placeholders.py:48-51): the last block counts. `none`: the KeyError. -/
def phiDef (bs : List QBlock) (v : String) : Option QBlock := bs.reverse.find? fun B => B.phis.any fun p => p.1 == v

/-- `instruction_from_out` (src/parser/cfg_block.py:722-728). Simplification: phi functions come first in a block, so only they are
looked at. -/
def phiOf (B : QBlock) (v : String) : Option (String × List String) := B.phis.find? fun p => p.1 == v

/-- What the pass changes: `phi_defs_to_solve` (block, variable), `virtual_copies` (block, variable, flag; the newest first), the
increments of `get_count` (block, variable), the calls of `join_phi`, and `handled_values`. -/
structure Fix where
  marked : List (String × String) := []
  copies : List (String × String × Bool) := []
  counts : List (String × String) := []
  joins : List (String × List String) := []
  handled : List String := []

/-- Is the variable accessible at the end of the block (src/greedy/greedy_info.py:88-90)? -/
def atEnd (E : QBlock) (a : String) : Bool := (E.reach a).any fun r => r.2.2

/-- `add_virtual_copy` (src/greedy/greedy_info.py:82-96). -/
def addCopy (E : QBlock) (a : String) (s : Fix) : Fix :=
  { s with copies := (E.id, a, atEnd E a) :: s.copies, counts := if atEnd E a then s.counts else (E.id, a) :: s.counts }

/-- The arguments of a phi function with the blocks they come from (src/reparation/insert_placeholders.py:82-97). The list `st` is
`pairs_to_traverse` without the blocks, which follow from the variables; its first element is the last one in Python. -/
def argLoop (bs : List QBlock) : List (String × String) → List String → Fix → Option (List String × Fix)
  | [], st, s => some (st, s)
  | (a, e) :: r, st, s => (getQ bs e).bind fun E =>
    if a ∈ E.unreachable ∧ a ∉ s.handled then (phiDef bs a).bind fun _ => argLoop bs r (a :: st) (addCopy E a s)
    else argLoop bs r st (addCopy E a s)

/-- The loop over `pairs_to_traverse` (src/reparation/insert_placeholders.py:71-99), with at most `n` iterations. -/
def fixLoop (bs : List QBlock) : Nat → List String → Fix → Option Fix
  | _, [], s => some s
  | 0, _ :: _, _ => none
  | n + 1, v :: st, s => (phiDef bs v).bind fun B => (phiOf B v).bind fun p =>
    (argLoop bs (p.2.zip B.entries) st { s with handled := v :: s.handled, marked := (B.id, v) :: s.marked }).bind fun r =>
      fixLoop bs n r.1 { r.2 with joins := r.2.joins ++ [(v, (p.2.zip B.entries).map Prod.fst)] }

/-- A number of iterations that is enough (`fixLoop_enough`). -/
def enough (bs : List QBlock) : Nat := 1 + ((bs.flatMap (·.phis)).map fun p => p.2.length).sum

/-- `fix_inaccessible_phi_values` (src/reparation/insert_placeholders.py:56-101); the list is the set `phi_elements_to_fix` in the order in
which it is traversed. -/
def fixPhis (bs : List QBlock) : List String → Fix → Option Fix
  | [], s => some s
  | e :: es, s => (phiDef bs e).bind fun _ => (fixLoop bs (enough bs) [e] s).bind (fixPhis bs es)

/-- `phi_elements_to_fix` (src/reparation/insert_placeholders.py:36-38). -/
def phiElements (bs : List QBlock) (toFix : List String) : List String :=
  toFix.filter fun v => match phiDef bs v with
    | some B => decide (v ∈ B.unreachable)
    | none => false

/-- The phi functions and the webs of `repair_unreachable` (src/reparation/insert_placeholders.py:32-40). -/
def repairPhis (bs : List QBlock) (toFix : List String) : Option (Fix × PhiWebs) :=
  (fixPhis bs (phiElements bs toFix) {}).map fun s => (s, joinAll s.joins)

/-- A block of the dominance tree before `unreachable` is computed. -/
structure UBlock where
  id : String
  phis : List (String × List String)
  entries : List String
  liveIn : List String
  declared : List String
  reach : Reach

/-- `block_unreachability` (src/reparation/reachability.py:66-71). -/
def unreachableOf (b : UBlock) (previous : List String) : List String :=
  (previous.filter (· ∈ b.liveIn) ++ b.declared).filter fun v => (b.reach v).isNone

/-- `construct_reachability_block` (src/reparation/reachability.py:74-92) for a list of siblings: the blocks with their `unreachable`. The
dictionary `reachable` of each block is the result of `reachability`. -/
def unreachTree : DTree UBlock → List String → DTree (UBlock × List String)
  | .nil, _ => .nil
  | .node b ch rest, previous => .node (b, unreachableOf b previous) (unreachTree ch (unreachableOf b previous)) (unreachTree rest previous)

/-- `construct_reachability` (src/reparation/reachability.py:95-100). -/
def construct (t : DTree UBlock) : DTree (UBlock × List String) := unreachTree t []

/-- The block with the information of the pass (src/reparation/reachability.py:87-89). -/
def done (x : UBlock × List String) : QBlock := ⟨x.1.id, x.1.phis, x.1.entries, x.1.reach, x.2⟩

/-! ### Specification -/

/-- The blocks have different names, and a variable is the result of at most one phi function. -/
structure Single (bs : List QBlock) : Prop where
  names : ∀ B ∈ bs, ∀ C ∈ bs, B.id = C.id → B = C
  defs : ∀ B ∈ bs, ∀ C ∈ bs, ∀ p ∈ B.phis, ∀ q ∈ C.phis, p.1 = q.1 → B = C ∧ p = q

/-- The variable `v` is the result of the phi function of `B` with the arguments `args`. -/
def IsPhi (bs : List QBlock) (v : String) (B : QBlock) (args : List String) : Prop := B ∈ bs ∧ (v, args) ∈ B.phis

/-- The phi function of `v` takes the value of `a` when control comes from `E`. -/
def Takes (bs : List QBlock) (v a : String) (E : QBlock) : Prop :=
  ∃ B args, IsPhi bs v B args ∧ E ∈ bs ∧ (a, E.id) ∈ args.zip B.entries

/-- The phi functions that have to be kept in memory: the given ones, and the arguments that are out of reach where they are taken. -/
inductive Needed (bs : List QBlock) (given : String → Prop) : String → Prop where
  | given {v} (h : given v) : Needed bs given v
  | taken {v a E} (h : Needed bs given v) (ht : Takes bs v a E) (hu : a ∈ E.unreachable) : Needed bs given a

/-- The variables to start from: those to repair that are results of phi functions and out of reach in the block of the function. -/
def Start (bs : List QBlock) (toFix : List String) (v : String) : Prop := v ∈ toFix ∧ ∃ B args, IsPhi bs v B args ∧ v ∈ B.unreachable

/-- Two variables are in one phi function that is kept in memory. -/
def Together (bs : List QBlock) (toFix : List String) (v w : String) : Prop := Needed bs (Start bs toFix) v ∧ ∃ E, Takes bs v w E

/-- A variable is out of reach at the end of a path of the dominance tree: it is declared in a block `d` of the path, it is live at the
beginning of all later blocks, and it is never reachable from `d` on. -/
def OutOfReach (path : List UBlock) (v : String) : Prop :=
  ∃ pre d post, path = pre ++ d :: post ∧ v ∈ d.declared ∧ (∀ b ∈ d :: post, b.reach v = none) ∧ ∀ b ∈ post, v ∈ b.liveIn

/-! ### Proofs -/

theorem getQ_some {bs : List QBlock} {b : String} {E : QBlock} (h : getQ bs b = some E) : E ∈ bs ∧ E.id = b :=
  ⟨mem_of_find?_eq_some h, by simpa using find?_some h⟩

theorem getQ_of {bs : List QBlock} (hs : Single bs) {E : QBlock} (h : E ∈ bs) : getQ bs E.id = some E := by
  cases hg : getQ bs E.id with
  | none =>
    unfold getQ at hg
    rw [find?_eq_none] at hg
    exact absurd (beq_self_eq_true _) (hg E h)
  | some E' =>
    obtain ⟨h1, h2⟩ := getQ_some hg
    rw [hs.names E' h1 E h h2]

theorem phiDef_some {bs : List QBlock} {v : String} {B : QBlock} (h : phiDef bs v = some B) : B ∈ bs ∧ ∃ args, (v, args) ∈ B.phis := by
  have h1 := mem_of_find?_eq_some h
  have h2 := find?_some h
  simp only [any_eq_true, beq_iff_eq] at h2
  obtain ⟨⟨u, args⟩, hp, e⟩ := h2
  exact ⟨mem_reverse.1 h1, args, by rw [← e]; exact hp⟩

theorem phiDef_of {bs : List QBlock} (hs : Single bs) {v : String} {B : QBlock} {args : List String} (h : IsPhi bs v B args) :
    phiDef bs v = some B := by
  cases hg : phiDef bs v with
  | none =>
    unfold phiDef at hg
    rw [find?_eq_none] at hg
    have := hg B (mem_reverse.2 h.1)
    simp only [any_eq_true, beq_iff_eq, not_exists, not_and] at this
    exact absurd rfl (this _ h.2)
  | some B' =>
    obtain ⟨h1, args', h2⟩ := phiDef_some hg
    rw [(hs.defs B' h1 B h.1 _ h2 _ h.2 rfl).1]

theorem phiOf_of {bs : List QBlock} (hs : Single bs) {v : String} {B : QBlock} {args : List String} (h : IsPhi bs v B args) :
    phiOf B v = some (v, args) := by
  cases hg : phiOf B v with
  | none =>
    unfold phiOf at hg
    rw [find?_eq_none] at hg
    exact absurd (beq_self_eq_true v) (hg _ h.2)
  | some p =>
    have h1 := mem_of_find?_eq_some hg
    have h2 : p.1 = v := by simpa using find?_some hg
    rw [(hs.defs B h.1 B h.1 _ h1 _ h.2 h2).2]

/-- What a list of arguments adds. -/
theorem argLoop_spec {bs : List QBlock} (r : List (String × String)) (st : List String) (s : Fix)
    (hE : ∀ q ∈ r, ∃ E, getQ bs q.2 = some E ∧ (q.1 ∈ E.unreachable → q.1 ∉ s.handled → (phiDef bs q.1).isSome)) :
    ∃ pushed s', argLoop bs r st s = some (pushed ++ st, s') ∧ s'.marked = s.marked ∧ s'.joins = s.joins ∧ s'.handled = s.handled ∧
      pushed.length ≤ r.length ∧
      (∀ a, a ∈ pushed ↔ a ∉ s.handled ∧ ∃ q ∈ r, q.1 = a ∧ ∃ E, getQ bs q.2 = some E ∧ a ∈ E.unreachable) ∧
      (∀ c, c ∈ s'.copies ↔ c ∈ s.copies ∨ ∃ q ∈ r, ∃ E, getQ bs q.2 = some E ∧ c = (E.id, q.1, atEnd E q.1)) ∧
      (∀ c, c ∈ s'.counts ↔ c ∈ s.counts ∨ ∃ q ∈ r, ∃ E, getQ bs q.2 = some E ∧ atEnd E q.1 = false ∧ c = (E.id, q.1)) := by
  induction r generalizing st s with
  | nil => exact ⟨[], s, rfl, rfl, rfl, rfl, Nat.le_refl _, by simp, by simp, by simp⟩
  | cons q r ih =>
    obtain ⟨a, e⟩ := q
    obtain ⟨E, hg, hd⟩ := hE (a, e) (by simp)
    simp only at hg hd
    have hcopy : ∀ c, c ∈ (addCopy E a s).copies ↔ c = (E.id, a, atEnd E a) ∨ c ∈ s.copies := by intro c; simp [addCopy]
    have hcount : ∀ c, c ∈ (addCopy E a s).counts ↔ (atEnd E a = false ∧ c = (E.id, a)) ∨ c ∈ s.counts := by
      intro c
      unfold addCopy
      cases atEnd E a <;> simp
    unfold argLoop
    rw [hg, Option.bind_some]
    have hfind : ∀ E', getQ bs e = some E' → E' = E := by intro E' h; rw [hg] at h; exact (Option.some.inj h).symm
    by_cases hc : a ∈ E.unreachable ∧ a ∉ s.handled
    · rw [if_pos hc]
      obtain ⟨B, hB⟩ := Option.isSome_iff_exists.1 (hd hc.1 hc.2)
      rw [hB, Option.bind_some]
      obtain ⟨pushed, s', h1, h2, h3, h4, h5, h6, h7, h8⟩ := ih (a :: st) (addCopy E a s) (fun q hq => hE q (mem_cons_of_mem _ hq))
      refine ⟨pushed ++ [a], s', by rw [h1]; simp, h2, h3, h4, by simp; omega, fun x => ?_, fun c => ?_, fun c => ?_⟩
      · rw [mem_append, h6, mem_singleton]
        constructor
        · rintro (⟨h, q, hq, e1, E', e2⟩ | rfl)
          · exact ⟨h, q, mem_cons_of_mem _ hq, e1, E', e2⟩
          · exact ⟨hc.2, (x, e), by simp, rfl, E, hg, hc.1⟩
        · rintro ⟨h, q, hq, e1, E', e2⟩
          rcases mem_cons.1 hq with rfl | hq
          · exact Or.inr e1.symm
          · exact Or.inl ⟨h, q, hq, e1, E', e2⟩
      · rw [h7, hcopy]
        constructor
        · rintro ((rfl | h) | ⟨q, hq, E', e1, e2⟩)
          · exact Or.inr ⟨(a, e), by simp, E, hg, rfl⟩
          · exact Or.inl h
          · exact Or.inr ⟨q, mem_cons_of_mem _ hq, E', e1, e2⟩
        · rintro (h | ⟨q, hq, E', e1, e2⟩)
          · exact Or.inl (Or.inr h)
          · rcases mem_cons.1 hq with rfl | hq
            · rw [hfind E' e1] at e2; exact Or.inl (Or.inl e2)
            · exact Or.inr ⟨q, hq, E', e1, e2⟩
      · rw [h8, hcount]
        constructor
        · rintro ((⟨e0, rfl⟩ | h) | ⟨q, hq, E', e1, e2⟩)
          · exact Or.inr ⟨(a, e), by simp, E, hg, e0, rfl⟩
          · exact Or.inl h
          · exact Or.inr ⟨q, mem_cons_of_mem _ hq, E', e1, e2⟩
        · rintro (h | ⟨q, hq, E', e1, e2⟩)
          · exact Or.inl (Or.inr h)
          · rcases mem_cons.1 hq with rfl | hq
            · rw [hfind E' e1] at e2; exact Or.inl (Or.inl e2)
            · exact Or.inr ⟨q, hq, E', e1, e2⟩
    · rw [if_neg hc]
      obtain ⟨pushed, s', h1, h2, h3, h4, h5, h6, h7, h8⟩ := ih st (addCopy E a s) (fun q hq => hE q (mem_cons_of_mem _ hq))
      refine ⟨pushed, s', h1, h2, h3, h4, by simp; omega, fun x => ?_, fun c => ?_, fun c => ?_⟩
      · rw [h6]
        constructor
        · rintro ⟨h, q, hq, e1, E', e2⟩
          exact ⟨h, q, mem_cons_of_mem _ hq, e1, E', e2⟩
        · rintro ⟨h, q, hq, e1, E', e2, e3⟩
          rcases mem_cons.1 hq with rfl | hq
          · rw [hfind E' e2, ← e1] at e3
            rw [← e1] at h
            exact absurd ⟨e3, h⟩ hc
          · exact ⟨h, q, hq, e1, E', e2, e3⟩
      · rw [h7, hcopy]
        constructor
        · rintro ((rfl | h) | ⟨q, hq, E', e1, e2⟩)
          · exact Or.inr ⟨(a, e), by simp, E, hg, rfl⟩
          · exact Or.inl h
          · exact Or.inr ⟨q, mem_cons_of_mem _ hq, E', e1, e2⟩
        · rintro (h | ⟨q, hq, E', e1, e2⟩)
          · exact Or.inl (Or.inr h)
          · rcases mem_cons.1 hq with rfl | hq
            · rw [hfind E' e1] at e2; exact Or.inl (Or.inl e2)
            · exact Or.inr ⟨q, hq, E', e1, e2⟩
      · rw [h8, hcount]
        constructor
        · rintro ((⟨e0, rfl⟩ | h) | ⟨q, hq, E', e1, e2⟩)
          · exact Or.inr ⟨(a, e), by simp, E, hg, e0, rfl⟩
          · exact Or.inl h
          · exact Or.inr ⟨q, mem_cons_of_mem _ hq, E', e1, e2⟩
        · rintro (h | ⟨q, hq, E', e1, e2⟩)
          · exact Or.inl (Or.inr h)
          · rcases mem_cons.1 hq with rfl | hq
            · rw [hfind E' e1] at e2; exact Or.inl (Or.inl e2)
            · exact Or.inr ⟨q, hq, E', e1, e2⟩

/-- The arguments of the phi functions that have not been handled. -/
def pending (bs : List QBlock) (handled : List String) : Nat :=
  (((bs.flatMap (·.phis)).filter fun p => decide (p.1 ∉ handled)).map fun p => p.2.length).sum

theorem sum_filter_le {α : Type} (f : α → Nat) (P : α → Bool) (l : List α) : ((l.filter P).map f).sum ≤ (l.map f).sum := by
  induction l with
  | nil => simp
  | cons a l ih =>
    rw [filter_cons]
    split
    · simp only [map_cons, sum_cons]; omega
    · simp only [map_cons, sum_cons]; omega

theorem sum_filter_mono {α : Type} (f : α → Nat) (P Q : α → Bool) (l : List α) (h : ∀ a ∈ l, P a = true → Q a = true) :
    ((l.filter P).map f).sum ≤ ((l.filter Q).map f).sum := by
  induction l with
  | nil => simp
  | cons a l ih =>
    have ih' := ih fun b hb => h b (mem_cons_of_mem _ hb)
    rw [filter_cons, filter_cons]
    by_cases hp : P a = true
    · rw [if_pos hp, if_pos (h a (by simp) hp)]
      simp only [map_cons, sum_cons]; omega
    · rw [if_neg hp]
      split
      · simp only [map_cons, sum_cons]; omega
      · exact ih'

theorem sum_filter_drop {α : Type} (f : α → Nat) (P Q : α → Bool) (l : List α) (h : ∀ a ∈ l, P a = true → Q a = true) (x : α) (hx : x ∈ l)
    (hp : P x = false) (hq : Q x = true) : ((l.filter P).map f).sum + f x ≤ ((l.filter Q).map f).sum := by
  induction l with
  | nil => simp at hx
  | cons a l ih =>
    have hm := sum_filter_mono f P Q l fun b hb => h b (mem_cons_of_mem _ hb)
    rcases mem_cons.1 hx with rfl | hx
    · rw [filter_cons, filter_cons, if_neg (by simp [hp]), if_pos hq]
      simp only [map_cons, sum_cons]; omega
    · have ih' := ih (fun b hb => h b (mem_cons_of_mem _ hb)) hx
      rw [filter_cons, filter_cons]
      by_cases hpa : P a = true
      · rw [if_pos hpa, if_pos (h a (by simp) hpa)]
        simp only [map_cons, sum_cons]; omega
      · rw [if_neg hpa]
        split
        · simp only [map_cons, sum_cons]; omega
        · exact ih'

/-- What holds between two iterations. -/
structure FixInv (bs : List QBlock) (given : String → Prop) (st : List String) (s : Fix) : Prop where
  needed : ∀ v, v ∈ s.handled ∨ v ∈ st → Needed bs given v
  marked : ∀ c, c ∈ s.marked ↔ ∃ v ∈ s.handled, ∃ B args, IsPhi bs v B args ∧ c = (B.id, v)
  copies : ∀ c, c ∈ s.copies ↔ ∃ v ∈ s.handled, ∃ a E, Takes bs v a E ∧ c = (E.id, a, atEnd E a)
  counts : ∀ c, c ∈ s.counts ↔ ∃ v ∈ s.handled, ∃ a E, Takes bs v a E ∧ atEnd E a = false ∧ c = (E.id, a)
  joins : ∀ c, c ∈ s.joins ↔ ∃ v ∈ s.handled, ∃ B args, IsPhi bs v B args ∧ c = (v, (args.zip B.entries).map Prod.fst)
  closed : ∀ v ∈ s.handled, ∀ a E, Takes bs v a E → a ∈ E.unreachable → a ∈ s.handled ∨ a ∈ st
  order : ∀ pre v post, st = pre ++ v :: post → v ∈ s.handled → ∀ a E, Takes bs v a E → a ∈ E.unreachable → a ∈ s.handled ∨ a ∈ pre

theorem takes_of {bs : List QBlock} (hs : Single bs) {v : String} {B : QBlock} {args : List String} (h : IsPhi bs v B args) (a : String) (E : QBlock) :
    Takes bs v a E ↔ E ∈ bs ∧ (a, E.id) ∈ args.zip B.entries := by
  constructor
  · rintro ⟨B', args', h', hE, hz⟩
    obtain ⟨rfl, e⟩ := hs.defs B' h'.1 B h.1 _ h'.2 _ h.2 rfl
    cases e
    exact ⟨hE, hz⟩
  · rintro ⟨hE, hz⟩
    exact ⟨B, args, h, hE, hz⟩

theorem fixLoop_spec {bs : List QBlock} (hs : Single bs) {given : String → Prop} (hphi : ∀ v, Needed bs given v → ∃ B args, IsPhi bs v B args)
    (hent : ∀ B ∈ bs, B.phis ≠ [] → ∀ e ∈ B.entries, ∃ E ∈ bs, E.id = e) : ∀ (n : Nat) (st : List String) (s : Fix), FixInv bs given st s →
    pending bs s.handled + st.length ≤ n →
    ∃ s', fixLoop bs n st s = some s' ∧ FixInv bs given [] s' ∧ ∀ v, v ∈ s.handled ∨ v ∈ st → v ∈ s'.handled := by
  intro n
  induction n with
  | zero =>
    intro st s hI hn
    cases st with
    | nil => exact ⟨s, by simp [fixLoop], hI, by simp⟩
    | cons v st => simp at hn
  | succ n ih =>
    intro st s hI hn
    cases st with
    | nil => exact ⟨s, by simp [fixLoop], hI, by simp⟩
    | cons v st =>
      obtain ⟨B, args, hp⟩ := hphi v (hI.needed v (Or.inr (by simp)))
      have hne : B.phis ≠ [] := by intro h; have := hp.2; rw [h] at this; simp at this
      unfold fixLoop
      rw [phiDef_of hs hp, Option.bind_some, phiOf_of hs hp, Option.bind_some]
      simp only
      have hq : ∀ q ∈ args.zip B.entries, ∃ E ∈ bs, E.id = q.2 ∧ getQ bs q.2 = some E ∧ Takes bs v q.1 E := by
        rintro ⟨a, e⟩ hz
        obtain ⟨E, hE, rfl⟩ := hent B hp.1 hne e (of_mem_zip hz).2
        exact ⟨E, hE, rfl, getQ_of hs hE, (takes_of hs hp a E).2 ⟨hE, hz⟩⟩
      have hvN := hI.needed v (Or.inr (by simp))
      have hpre : ∀ q ∈ args.zip B.entries, ∃ E, getQ bs q.2 = some E ∧
          (q.1 ∈ E.unreachable → q.1 ∉ (v :: s.handled) → (phiDef bs q.1).isSome) := by
        intro q hz
        obtain ⟨E, _, _, hg, ht⟩ := hq q hz
        refine ⟨E, hg, fun hu _ => ?_⟩
        obtain ⟨B', args', hp'⟩ := hphi q.1 (Needed.taken hvN ht hu)
        rw [phiDef_of hs hp']; rfl
      obtain ⟨pushed, s', h1, h2, h3, h4, h5, h6, h7, h8⟩ :=
        argLoop_spec (args.zip B.entries) st { s with handled := v :: s.handled, marked := (B.id, v) :: s.marked } hpre
      rw [h1, Option.bind_some]
      simp only at h2 h3 h4 h6 h7 h8 ⊢
      have hT : ∀ a E, Takes bs v a E ↔ ∃ q ∈ args.zip B.entries, getQ bs q.2 = some E ∧ q.1 = a := by
        intro a E
        rw [takes_of hs hp]
        constructor
        · rintro ⟨hE, hz⟩
          exact ⟨_, hz, getQ_of hs hE, rfl⟩
        · rintro ⟨⟨a', e⟩, hz, hg, rfl⟩
          obtain ⟨hE, rfl⟩ := getQ_some hg
          exact ⟨hE, hz⟩
      have hpush : ∀ a, a ∈ pushed ↔ a ∉ v :: s.handled ∧ ∃ E, Takes bs v a E ∧ a ∈ E.unreachable := by
        intro a
        rw [h6]
        constructor
        · rintro ⟨h, q, hz, e, E, hg, hu⟩
          exact ⟨h, E, (hT a E).2 ⟨q, hz, hg, e⟩, hu⟩
        · rintro ⟨h, E, ht, hu⟩
          obtain ⟨q, hz, hg, e⟩ := (hT a E).1 ht
          exact ⟨h, q, hz, e, E, hg, hu⟩
      have hI' : FixInv bs given (pushed ++ st) { s' with joins := s'.joins ++ [(v, (args.zip B.entries).map Prod.fst)] } := by
        refine ⟨?_, ?_, ?_, ?_, ?_, ?_, ?_⟩ <;> simp only [h2, h3, h4]
        · intro w hw
          rw [mem_append, mem_cons] at hw
          rcases hw with (rfl | h) | h | h
          · exact hvN
          · exact hI.needed w (Or.inl h)
          · obtain ⟨_, E, ht, hu⟩ := (hpush w).1 h
            exact Needed.taken hvN ht hu
          · exact hI.needed w (Or.inr (mem_cons_of_mem _ h))
        · intro c
          rw [mem_cons, hI.marked]
          constructor
          · rintro (rfl | ⟨w, hw, h⟩)
            · exact ⟨v, by simp, B, args, hp, rfl⟩
            · exact ⟨w, mem_cons_of_mem _ hw, h⟩
          · rintro ⟨w, hw, B', args', h, rfl⟩
            rcases mem_cons.1 hw with rfl | hw
            · rw [(hs.defs B' h.1 B hp.1 _ h.2 _ hp.2 rfl).1]; exact Or.inl rfl
            · exact Or.inr ⟨w, hw, B', args', h, rfl⟩
        · intro c
          rw [h7, hI.copies]
          constructor
          · rintro (⟨w, hw, h⟩ | ⟨q, hz, E, hg, rfl⟩)
            · exact ⟨w, mem_cons_of_mem _ hw, h⟩
            · exact ⟨v, by simp, q.1, E, (hT _ _).2 ⟨q, hz, hg, rfl⟩, rfl⟩
          · rintro ⟨w, hw, a, E, ht, rfl⟩
            rcases mem_cons.1 hw with rfl | hw
            · obtain ⟨q, hz, hg, rfl⟩ := (hT a E).1 ht
              exact Or.inr ⟨q, hz, E, hg, rfl⟩
            · exact Or.inl ⟨w, hw, a, E, ht, rfl⟩
        · intro c
          rw [h8, hI.counts]
          constructor
          · rintro (⟨w, hw, h⟩ | ⟨q, hz, E, hg, he, rfl⟩)
            · exact ⟨w, mem_cons_of_mem _ hw, h⟩
            · exact ⟨v, by simp, q.1, E, (hT _ _).2 ⟨q, hz, hg, rfl⟩, he, rfl⟩
          · rintro ⟨w, hw, a, E, ht, he, rfl⟩
            rcases mem_cons.1 hw with rfl | hw
            · obtain ⟨q, hz, hg, rfl⟩ := (hT a E).1 ht
              exact Or.inr ⟨q, hz, E, hg, he, rfl⟩
            · exact Or.inl ⟨w, hw, a, E, ht, he, rfl⟩
        · intro c
          rw [mem_append, hI.joins, mem_singleton]
          constructor
          · rintro (⟨w, hw, h⟩ | rfl)
            · exact ⟨w, mem_cons_of_mem _ hw, h⟩
            · exact ⟨v, by simp, B, args, hp, rfl⟩
          · rintro ⟨w, hw, B', args', h, rfl⟩
            rcases mem_cons.1 hw with rfl | hw
            · obtain ⟨rfl, e⟩ := hs.defs B' h.1 B hp.1 _ h.2 _ hp.2 rfl
              cases e
              exact Or.inr rfl
            · exact Or.inl ⟨w, hw, B', args', h, rfl⟩
        · intro w hw a E ht hu
          rw [mem_append]
          by_cases ha : a ∈ v :: s.handled
          · exact Or.inl ha
          rcases mem_cons.1 hw with rfl | hw
          · exact Or.inr (Or.inl ((hpush a).2 ⟨ha, E, ht, hu⟩))
          · rcases hI.closed w hw a E ht hu with h | h
            · exact absurd (mem_cons_of_mem _ h) ha
            · rcases mem_cons.1 h with rfl | h
              · exact absurd (by simp) ha
              · exact Or.inr (Or.inr h)
        · intro pre w post hst hw a E ht hu
          by_cases ha : a ∈ v :: s.handled
          · exact Or.inl ha
          refine Or.inr ?_
          have hnp : w ∉ pushed := fun h => ((hpush w).1 h).1 hw
          rcases append_eq_append_iff.1 hst with ⟨m, e1, e2⟩ | ⟨m, e1, e2⟩
          · subst e1
            rw [mem_append]
            rcases mem_cons.1 hw with rfl | hw'
            · exact Or.inl ((hpush a).2 ⟨ha, E, ht, hu⟩)
            · rcases hI.order (v :: m) w post (by rw [e2]; rfl) hw' a E ht hu with h | h
              · exact absurd (mem_cons_of_mem _ h) ha
              · rcases mem_cons.1 h with rfl | h
                · exact absurd (by simp) ha
                · exact Or.inr h
          · cases m with
            | nil =>
              simp only [append_nil, nil_append] at e1 e2
              subst e1
              rcases mem_cons.1 hw with rfl | hw'
              · exact (hpush a).2 ⟨ha, E, ht, hu⟩
              · rcases hI.order [v] w post (by rw [← e2]; rfl) hw' a E ht hu with h | h
                · exact absurd (mem_cons_of_mem _ h) ha
                · rw [mem_singleton] at h
                  subst h
                  exact absurd (by simp) ha
            | cons x m =>
              simp only [cons_append, cons.injEq] at e2
              rw [e1] at hnp
              exact absurd (by rw [e2.1]; simp) hnp
      obtain ⟨s'', r1, r2, r3⟩ := ih (pushed ++ st) _ hI' (by
        simp only [h4, length_append]
        simp only [length_cons] at hn
        by_cases hv : v ∈ s.handled
        · have hnil : pushed = [] := by
            rw [eq_nil_iff_forall_not_mem]
            intro a ha
            obtain ⟨h, E, ht, hu⟩ := (hpush a).1 ha
            rcases hI.order [] v st rfl hv a E ht hu with h' | h'
            · exact h (mem_cons_of_mem _ h')
            · simp at h'
          rw [hnil]
          have : pending bs (v :: s.handled) ≤ pending bs s.handled :=
            sum_filter_mono _ _ _ _ (by intro p _; simp)
          simp only [length_nil]
          omega
        · have : pending bs (v :: s.handled) + args.length ≤ pending bs s.handled :=
            sum_filter_drop (fun p : String × List String => p.2.length) _ _ _ (by intro p _; simp) (v, args)
              (mem_flatMap.2 ⟨B, hp.1, hp.2⟩) (by simp) (by simpa using hv)
          have hz : (args.zip B.entries).length ≤ args.length := by rw [length_zip]; omega
          omega)
      refine ⟨s'', r1, r2, fun w hw => ?_⟩
      simp only [h4] at r3
      refine r3 w ?_
      rcases hw with h | h
      · exact Or.inl (mem_cons_of_mem _ h)
      · rcases mem_cons.1 h with rfl | h
        · exact Or.inl (by simp)
        · exact Or.inr (mem_append_right _ h)

/-- The number of iterations is enough. -/
theorem fixLoop_enough (bs : List QBlock) (handled : List String) : pending bs handled + 1 ≤ enough bs := by
  have := sum_filter_le (fun p : String × List String => p.2.length) (fun p => decide (p.1 ∉ handled)) (bs.flatMap (·.phis))
  unfold pending enough
  omega

theorem fixPhis_spec {bs : List QBlock} (hs : Single bs) {given : String → Prop} (hphi : ∀ v, Needed bs given v → ∃ B args, IsPhi bs v B args)
    (hent : ∀ B ∈ bs, B.phis ≠ [] → ∀ e ∈ B.entries, ∃ E ∈ bs, E.id = e) : ∀ (es : List String) (s : Fix), (∀ e ∈ es, given e) →
    FixInv bs given [] s → ∃ s', fixPhis bs es s = some s' ∧ FixInv bs given [] s' ∧ ∀ v, v ∈ s.handled ∨ v ∈ es → v ∈ s'.handled := by
  intro es
  induction es with
  | nil => intro s _ hI; exact ⟨s, rfl, hI, by simp⟩
  | cons e es ih =>
    intro s hes hI
    have heN : Needed bs given e := .given (hes e (by simp))
    obtain ⟨B, args, hp⟩ := hphi e heN
    have hI1 : FixInv bs given [e] s := by
      refine ⟨?_, hI.marked, hI.copies, hI.counts, hI.joins, ?_, ?_⟩
      · rintro w (h | h)
        · exact hI.needed w (Or.inl h)
        · rw [mem_singleton] at h; subst h; exact heN
      · intro w hw a E ht hu
        rcases hI.closed w hw a E ht hu with h | h
        · exact Or.inl h
        · simp at h
      · intro pre w post _ hw a E ht hu
        rcases hI.closed w hw a E ht hu with h | h
        · exact Or.inl h
        · simp at h
    obtain ⟨s1, r1, r2, r3⟩ := fixLoop_spec hs hphi hent (enough bs) [e] s hI1 (fixLoop_enough bs _)
    obtain ⟨s2, t1, t2, t3⟩ := ih s1 (fun x hx => hes x (mem_cons_of_mem _ hx)) r2
    unfold fixPhis
    rw [phiDef_of hs hp, Option.bind_some, r1, Option.bind_some]
    refine ⟨s2, t1, t2, fun w hw => t3 w ?_⟩
    rcases hw with h | h
    · exact Or.inl (r3 w (Or.inl h))
    · rcases mem_cons.1 h with rfl | h
      · exact Or.inl (r3 w (Or.inr (by simp)))
      · exact Or.inr h

theorem fixInv_empty (bs : List QBlock) (given : String → Prop) : FixInv bs given [] {} := by
  refine ⟨?_, ?_, ?_, ?_, ?_, ?_, ?_⟩ <;> simp

theorem handled_exact {bs : List QBlock} {given : String → Prop} {s : Fix} (hI : FixInv bs given [] s) (he : ∀ e, given e → e ∈ s.handled) (v : String) :
    v ∈ s.handled ↔ Needed bs given v := by
  refine ⟨fun h => hI.needed v (Or.inl h), fun h => ?_⟩
  induction h with
  | given h => exact he _ h
  | taken _ ht hu ih =>
    rcases hI.closed _ ih _ _ ht hu with h | h
    · exact h
    · simp at h

theorem phiElements_spec {bs : List QBlock} (hs : Single bs) (toFix : List String) (v : String) : v ∈ phiElements bs toFix ↔ Start bs toFix v := by
  unfold phiElements Start
  rw [mem_filter]
  refine and_congr Iff.rfl ?_
  constructor
  · intro h
    cases hd : phiDef bs v with
    | none => rw [hd] at h; simp at h
    | some B =>
      rw [hd] at h
      obtain ⟨h1, args, h2⟩ := phiDef_some hd
      exact ⟨B, args, ⟨h1, h2⟩, by simpa using h⟩
  · rintro ⟨B, args, hp, hu⟩
    rw [phiDef_of hs hp]
    simpa using hu

/-- **C76, phi functions.** If only results of phi functions are out of reach, the pass ends without an exception and keeps in memory
exactly the phi functions that have to be: those to repair that are out of reach in their own block, and in turn the arguments that
are out of reach in the block they come from. For each of them, and for no other, every argument is copied at the end of the
block it comes from, with a load counted exactly if it is not reachable there. The webs are the connected components of these
phi functions. -/
theorem phi_repair_exact {bs : List QBlock} (hs : Single bs) (hent : ∀ B ∈ bs, B.phis ≠ [] → ∀ e ∈ B.entries, ∃ E ∈ bs, E.id = e)
    (hun : ∀ E ∈ bs, ∀ a ∈ E.unreachable, ∃ B args, IsPhi bs a B args) (toFix : List String) :
    ∃ s W, repairPhis bs toFix = some (s, W) ∧
      (∀ b v, (b, v) ∈ s.marked ↔ Needed bs (Start bs toFix) v ∧ ∃ B args, IsPhi bs v B args ∧ b = B.id) ∧
      (∀ e a l, (e, a, l) ∈ s.copies ↔ ∃ v E, Needed bs (Start bs toFix) v ∧ Takes bs v a E ∧ e = E.id ∧ l = atEnd E a) ∧
      (∀ e a, (e, a) ∈ s.counts ↔ ∃ v E, Needed bs (Start bs toFix) v ∧ Takes bs v a E ∧ e = E.id ∧ atEnd E a = false) ∧
      (∀ v, v ∈ W.vars ↔ Needed bs (Start bs toFix) v ∨ ∃ w, Together bs toFix w v) ∧
      ∀ v w, v ∈ W.vars → w ∈ W.vars → ((W.findSet v).1 = (W.findSet w).1 ↔ Relation.EqvGen (Together bs toFix) v w) := by
  have hphi : ∀ v, Needed bs (Start bs toFix) v → ∃ B args, IsPhi bs v B args := by
    intro v hv
    cases hv with
    | given h => obtain ⟨_, B, args, hp, _⟩ := h; exact ⟨B, args, hp⟩
    | taken _ ht hu => obtain ⟨_, _, _, hE, _⟩ := ht; exact hun _ hE _ hu
  obtain ⟨s, h1, h2, h3⟩ := fixPhis_spec hs hphi hent (phiElements bs toFix) {} (fun e he => (phiElements_spec hs toFix e).1 he)
    (fixInv_empty bs _)
  have hh := handled_exact h2 fun e he => h3 e (Or.inr ((phiElements_spec hs toFix e).2 he))
  have htog : ∀ v w, (∃ j ∈ s.joins, v = j.1 ∧ w ∈ j.2) ↔ Together bs toFix v w := by
    intro v w
    constructor
    · rintro ⟨j, hj, rfl, hw⟩
      obtain ⟨u, hu, B, args, hp, rfl⟩ := (h2.joins j).1 hj
      obtain ⟨⟨a, e⟩, hz, rfl⟩ := mem_map.1 hw
      have hne : B.phis ≠ [] := by intro h; have := hp.2; rw [h] at this; simp at this
      obtain ⟨E, hE, rfl⟩ := hent B hp.1 hne e (of_mem_zip hz).2
      exact ⟨(hh u).1 hu, E, B, args, hp, hE, hz⟩
    · rintro ⟨hv, E, B, args, hp, hE, hz⟩
      exact ⟨_, (h2.joins _).2 ⟨v, (hh v).2 hv, B, args, hp, rfl⟩, rfl, mem_map.2 ⟨_, hz, rfl⟩⟩
  obtain ⟨w1, w2⟩ := webs_exact s.joins
  have hvars : ∀ v, v ∈ (joinAll s.joins).vars ↔ Needed bs (Start bs toFix) v ∨ ∃ w, Together bs toFix w v := by
    intro v
    rw [w1]
    constructor
    · rintro ⟨j, hj, rfl | hv⟩
      · obtain ⟨u, hu, B, args, hp, rfl⟩ := (h2.joins j).1 hj
        exact Or.inl ((hh u).1 hu)
      · exact Or.inr ⟨j.1, (htog _ _).1 ⟨j, hj, rfl, hv⟩⟩
    · rintro (hv | ⟨w, hw⟩)
      · obtain ⟨B, args, hp⟩ := hphi v hv
        exact ⟨_, (h2.joins _).2 ⟨v, (hh v).2 hv, B, args, hp, rfl⟩, Or.inl rfl⟩
      · obtain ⟨j, hj, _, hv⟩ := (htog w v).2 hw
        exact ⟨j, hj, Or.inr hv⟩
  refine ⟨s, joinAll s.joins, by unfold repairPhis; rw [h1]; rfl, ?_, ?_, ?_, hvars, ?_⟩
  · intro b v
    rw [h2.marked]
    constructor
    · rintro ⟨u, hu, B, args, hp, e⟩
      cases e
      exact ⟨(hh _).1 hu, B, args, hp, rfl⟩
    · rintro ⟨hv, B, args, hp, rfl⟩
      exact ⟨v, (hh v).2 hv, B, args, hp, rfl⟩
  · intro e a l
    rw [h2.copies]
    constructor
    · rintro ⟨v, hv, a', E, ht, e⟩
      cases e
      exact ⟨v, E, (hh v).1 hv, ht, rfl, rfl⟩
    · rintro ⟨v, E, hv, ht, rfl, rfl⟩
      exact ⟨v, (hh v).2 hv, a, E, ht, rfl⟩
  · intro e a
    rw [h2.counts]
    constructor
    · rintro ⟨v, hv, a', E, ht, he, e⟩
      cases e
      exact ⟨v, E, (hh v).1 hv, ht, rfl, he⟩
    · rintro ⟨v, E, hv, ht, rfl, he⟩
      exact ⟨v, (hh v).2 hv, a, E, ht, he, rfl⟩
  · intro v w hv hw
    rw [w2 v w ((w1 v).1 hv) ((w1 w).1 hw)]
    have : Neighbours s.joins = Together bs toFix := by funext x y; exact propext (htog x y)
    unfold Connected
    rw [this]

theorem mem_unreachableOf (b : UBlock) (previous : List String) (v : String) :
    v ∈ unreachableOf b previous ↔ ((v ∈ previous ∧ v ∈ b.liveIn) ∨ v ∈ b.declared) ∧ b.reach v = none := by
  unfold unreachableOf
  simp only [mem_filter, mem_append, decide_eq_true_eq, Option.isNone_iff_eq_none]

theorem unreachTree_exact (t : DTree UBlock) (previous : List String) (anc : List (UBlock × List String)) (x : UBlock × List String)
    (h : Node (unreachTree t previous) anc x) (v : String) :
    v ∈ x.2 ↔ OutOfReach ((anc ++ [x]).map Prod.fst) v ∨ (v ∈ previous ∧ ∀ y ∈ anc ++ [x], v ∈ y.1.liveIn ∧ y.1.reach v = none) := by
  induction t generalizing previous anc with
  | nil => unfold unreachTree at h; cases h
  | node b ch rest ih1 ih2 =>
    unfold unreachTree at h
    cases h with
    | here =>
      simp only [nil_append, map_cons, map_nil, mem_singleton, forall_eq]
      rw [mem_unreachableOf]
      constructor
      · rintro ⟨⟨h1, h2⟩ | h1, h3⟩
        · exact Or.inr ⟨h1, h2, h3⟩
        · exact Or.inl ⟨[], b, [], rfl, h1, by simpa using h3, by simp⟩
      · rintro (⟨pre, d, post, e, h1, h2, h3⟩ | ⟨h1, h2, h3⟩)
        · cases pre with
          | nil =>
            simp only [nil_append, cons.injEq] at e
            obtain ⟨rfl, rfl⟩ := e
            exact ⟨Or.inr h1, h2 b (by simp)⟩
          | cons _ pre => simp at e
        · exact ⟨Or.inl ⟨h1, h2⟩, h3⟩
    | inside _ _ _ anc' _ h' =>
      rw [ih1 _ _ h', mem_unreachableOf]
      simp only [cons_append, map_cons, forall_mem_cons]
      constructor
      · rintro (⟨pre, d, post, e, h1, h2, h3⟩ | ⟨⟨⟨h1, h2⟩ | h1, h3⟩, h4⟩)
        · exact Or.inl ⟨b :: pre, d, post, by rw [e]; rfl, h1, h2, h3⟩
        · exact Or.inr ⟨h1, ⟨h2, h3⟩, h4⟩
        · refine Or.inl ⟨[], b, _, rfl, h1, ?_, ?_⟩
          · intro y hy
            rcases mem_cons.1 hy with rfl | hy
            · exact h3
            · obtain ⟨z, hz, rfl⟩ := mem_map.1 hy
              exact (h4 z hz).2
          · intro y hy
            obtain ⟨z, hz, rfl⟩ := mem_map.1 hy
            exact (h4 z hz).1
      · rintro (⟨pre, d, post, e, h1, h2, h3⟩ | ⟨h1, ⟨h2, h3⟩, h4⟩)
        · cases pre with
          | nil =>
            simp only [nil_append, cons.injEq] at e
            obtain ⟨rfl, rfl⟩ := e
            refine Or.inr ⟨⟨Or.inr h1, h2 b (by simp)⟩, fun y hy => ⟨h3 _ (mem_map_of_mem hy), h2 _ (mem_cons_of_mem _ (mem_map_of_mem hy))⟩⟩
          | cons c pre =>
            simp only [cons_append, cons.injEq] at e
            exact Or.inl ⟨pre, d, post, e.2, h1, h2, h3⟩
        · exact Or.inr ⟨⟨Or.inl ⟨h1, h2⟩, h3⟩, h4⟩
    | next _ _ _ _ _ h' => exact ih2 _ _ h'

/-- **C76, variables out of reach.** A variable is recorded as out of reach in a block exactly if it is declared in a block that dominates
it (or the block itself), is live at the beginning of the blocks in between and of the block, and is reachable in none of them. -/
theorem unreachable_exact (t : DTree UBlock) (anc : List (UBlock × List String)) (x : UBlock × List String) (h : Node (construct t) anc x)
    (v : String) : v ∈ x.2 ↔ OutOfReach ((anc ++ [x]).map Prod.fst) v := by
  rw [unreachTree_exact t [] anc x h]
  simp

theorem node_of_mem {α : Type} {t : DTree α} {a : α} (h : a ∈ nodes t) : ∃ anc, Node t anc a := by
  induction t with
  | nil => simp [nodes] at h
  | node b ch rest ih1 ih2 =>
    unfold nodes at h
    rcases mem_append.1 h with h | h
    · rcases mem_cons.1 h with rfl | h
      · exact ⟨_, .here _ _ _⟩
      · obtain ⟨anc, hn⟩ := ih1 h; exact ⟨_, .inside _ _ _ _ _ hn⟩
    · obtain ⟨anc, hn⟩ := ih2 h; exact ⟨_, .next _ _ _ _ _ hn⟩

theorem anc_mem {α : Type} {t : DTree α} {anc : List α} {a : α} (h : Node t anc a) : ∀ y ∈ anc ++ [a], y ∈ nodes t := by
  induction h with
  | here a ch rest => intro y hy; simp at hy; subst hy; simp [nodes]
  | inside a ch rest anc a' _ ih =>
    intro y hy
    unfold nodes
    rw [cons_append] at hy
    rcases mem_cons.1 hy with rfl | hy
    · simp
    · exact mem_append_left _ (mem_cons_of_mem _ (ih y hy))
  | next a ch rest anc a' _ ih => intro y hy; unfold nodes; exact mem_append_right _ (ih y hy)

/-- **C76, no exception.** On the information computed by the pass, if every variable that a block declares other than as the result of
a phi function is reachable in that block, the phi functions are repaired without an exception, for any order of the blocks. -/
theorem phi_repair_succeeds (t : DTree UBlock) (bs : List QBlock) (hbs : ∀ Q, Q ∈ bs ↔ ∃ x ∈ nodes (construct t), Q = done x) (hs : Single bs)
    (hent : ∀ B ∈ bs, B.phis ≠ [] → ∀ e ∈ B.entries, ∃ E ∈ bs, E.id = e)
    (hdecl : ∀ x ∈ nodes (construct t), ∀ v ∈ x.1.declared, (∀ args, (v, args) ∉ x.1.phis) → x.1.reach v ≠ none) (toFix : List String) :
    (repairPhis bs toFix).isSome := by
  obtain ⟨s, W, h, _⟩ := phi_repair_exact hs hent (by
    intro E hE a ha
    obtain ⟨x, hx, rfl⟩ := (hbs E).1 hE
    obtain ⟨anc, hn⟩ := node_of_mem hx
    obtain ⟨pre, d, post, e, h1, h2, _⟩ := (unreachable_exact t anc x hn a).1 ha
    obtain ⟨y, hy, rfl⟩ := mem_map.1 (show d ∈ (anc ++ [x]).map Prod.fst by rw [e]; simp)
    have hy' := anc_mem hn y hy
    by_cases hex : ∃ args, (a, args) ∈ y.1.phis
    · obtain ⟨args, hp⟩ := hex
      exact ⟨done y, args, (hbs _).2 ⟨y, hy', rfl⟩, hp⟩
    · exact absurd (h2 y.1 (by simp)) (hdecl y hy' a h1 fun args hp => hex ⟨args, hp⟩)) toFix
  rw [h]; rfl

/-! ### The theorems apply -/

def exPhiReach (l : List (String × Nat × Nat × Bool)) : Reach := fun v => l.lookup v

/-- A loop `1` with the phi functions `x = phi(a, y)` and `u = phi(a, b)`, and inside it a join `2` with `y = phi(x, x, c)`; `x` and `y` are out
of reach. -/
def exPhiTree : DTree UBlock :=
  .node ⟨"0", [], [], [], ["a"], exPhiReach [("a", 0, 1, true)]⟩
    (.node ⟨"1", [("x", ["a", "y"]), ("u", ["a", "b"])], ["0", "2"], [], ["x", "u"], exPhiReach [("u", 0, 0, true)]⟩
      (.node ⟨"3", [], ["1"], ["x"], ["c"], exPhiReach [("c", 0, 2, false)]⟩ .nil
        (.node ⟨"4", [], ["1"], ["x"], [], exPhiReach []⟩ .nil
          (.node ⟨"2", [("y", ["x", "x", "c"])], ["1", "4", "3"], ["x"], ["y", "b"], exPhiReach [("b", 0, 1, true)]⟩ .nil .nil))) .nil) .nil

def exPhiQ : List QBlock := (nodes (construct exPhiTree)).map done

theorem single_of {bs : List QBlock} (h1 : (bs.map (·.id)).Nodup) (h2 : ((bs.flatMap fun B => B.phis.map fun p => (B, p)).map (·.2.1)).Nodup) :
    Single bs := by
  refine ⟨fun B hB C hC e => inj_on_of_nodup_map h1 hB hC e, fun B hB C hC p hp q hq e => ?_⟩
  have := inj_on_of_nodup_map h2 (mem_flatMap.2 ⟨B, hB, mem_map.2 ⟨p, hp, rfl⟩⟩) (mem_flatMap.2 ⟨C, hC, mem_map.2 ⟨q, hq, rfl⟩⟩) e
  cases this
  exact ⟨rfl, rfl⟩

example : (repairPhis exPhiQ ["a", "y"]).isSome := by
  refine phi_repair_succeeds exPhiTree exPhiQ (by intro Q; unfold exPhiQ; rw [mem_map]; exact ⟨fun ⟨x, h, e⟩ => ⟨x, h, e.symm⟩, fun ⟨x, h, e⟩ => ⟨x, h, e.symm⟩⟩)
    (single_of (by decide +kernel) (by decide +kernel)) ?_ ?_ _
  · have h : ∀ B ∈ exPhiQ, ∀ e ∈ B.entries, e ∈ exPhiQ.map (·.id) := by decide +kernel
    intro B hB _ e he
    exact mem_map.1 (h B hB e he)
  · have h : ∀ x ∈ nodes (construct exPhiTree), ∀ v ∈ x.1.declared, v ∉ x.1.phis.map Prod.fst → (x.1.reach v).isSome = true := by decide +kernel
    intro x hx v hv hn hr
    have := h x hx v hv (by
      rw [mem_map]
      rintro ⟨⟨u, args⟩, hp, rfl⟩
      exact hn args hp)
    rw [hr] at this
    cases this

example : exPhiQ.map (fun B => (B.id, B.unreachable)) = [("0", []), ("1", ["x"]), ("3", ["x"]), ("4", ["x"]), ("2", ["x", "y"])] := by
  decide +kernel

example : (repairPhis exPhiQ ["a", "y"]).map (fun r => (r.1.marked, r.1.copies, r.1.counts)) =
    some ([("1", "x"), ("1", "x"), ("2", "y")],
      [("2", "y", false), ("0", "a", true), ("2", "y", false), ("0", "a", true), ("3", "c", false), ("4", "x", false), ("1", "x", false)],
      [("2", "y"), ("2", "y"), ("3", "c"), ("4", "x"), ("1", "x")]) := by decide +kernel

example : (repairPhis exPhiQ ["u"]).map (fun r => r.1.marked) = some [] := by decide +kernel

end Grey.Repair
