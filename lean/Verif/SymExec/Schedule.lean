/-
C50: a specification in which every operand is available has an accepted schedule.
-/
import Verif.SymExec.Exact
import Verif.Common.Names
open List
namespace Grey.SymExec

/-! ### Specification -/

/-- Every operand of an instruction is in the source stack or produced by an earlier instruction, and every element of the
target stack is in the source stack or produced. -/
structure Available (spec : Spec) : Prop where
  inputs : ∀ pre u post, spec.userInstrs = pre ++ u :: post → ∀ v ∈ u.inpt, v ∈ spec.src ∨ ∃ x ∈ pre, v ∈ x.outpt
  target : ∀ v ∈ spec.tgt, v ∈ spec.src ∨ ∃ x ∈ spec.userInstrs, v ∈ x.outpt

/-- The dependences relate instructions in program order. -/
def Oriented (spec : Spec) : Prop :=
  ∀ d ∈ spec.deps, [d.1, d.2] <+ spec.userInstrs.map (·.id)

/-! ### Proofs -/

theorem toString_toList (n : Nat) : (toString n).toList = Nat.toDigits 10 n := by
  show (Nat.repr n).toList = _
  rw [Nat.repr]; simp

theorem parseNat_toString (n : Nat) : parseNat (toString n).toList = some n := by
  rw [toString_toList]
  unfold parseNat
  rw [if_pos]
  · have := @Nat.ofDigitChars_ten_toDigits n
    rw [Nat.ofDigitChars_eq_foldl] at this
    exact congrArg some this
  · refine ⟨?_, ?_⟩
    · exact Nat.toDigits_ne_nil
    · rw [List.all_eq_true]
      intro c hc
      exact Nat.isDigit_of_mem_toDigits (by omega) (by omega) hc

theorem infixOf_of_prefix {p l : List Char} (h : p <+: l) : infixOf p l = true := by
  rw [infixOf_iff]; exact h.isInfix

theorem classify_dup (n : Nat) : classify ("DUP" ++ toString n) = some (.dup n) := by
  unfold classify
  have hl : ("DUP" ++ toString n).toList = "DUP".toList ++ (toString n).toList := String.toList_append
  simp only
  rw [if_neg, if_neg, if_pos]
  · rw [hl]; simp only [show "DUP".toList = ['D', 'U', 'P'] by decide, List.drop, List.cons_append, List.nil_append]
    rw [parseNat_toString]; rfl
  · rw [hl]; exact infixOf_of_prefix (List.prefix_append _ _)
  · rw [infixOf_iff, hl]
    intro h
    have hS : 'S' ∈ "DUP".toList ++ (toString n).toList := h.subset (by decide)
    rcases List.mem_append.1 hS with h | h
    · revert h; decide
    · rw [toString_toList] at h
      exact absurd (Nat.isDigit_of_mem_toDigits (by omega) (by omega) h) (by decide)
  · intro h
    have := congrArg String.toList h
    rw [hl] at this
    have := congrArg List.head? this
    revert this
    simp

theorem classify_swap (n : Nat) : classify ("SWAP" ++ toString n) = some (.swap n) := by
  unfold classify
  have hl : ("SWAP" ++ toString n).toList = "SWAP".toList ++ (toString n).toList := String.toList_append
  simp only
  rw [if_neg, if_pos]
  · rw [hl]; simp only [show "SWAP".toList = ['S', 'W', 'A', 'P'] by decide, List.drop, List.cons_append, List.nil_append]
    rw [parseNat_toString]; rfl
  · rw [hl]; exact infixOf_of_prefix (List.prefix_append _ _)
  · intro h
    have := congrArg String.toList h
    rw [hl] at this
    have := congrArg List.head? this
    revert this
    simp

/-- An id of a stack operation. -/
def StackOp (s : String) : Prop :=
  s = "POP" ∨ (∃ n : Nat, s = "DUP" ++ toString n) ∨ ∃ n : Nat, s = "SWAP" ++ toString (n + 1)

theorem beforeLastParen_close (l : List Char) : beforeLastParen (l ++ [')']) = some l := by
  induction l with
  | nil => rfl
  | cons c l ih => rw [List.cons_append, beforeLastParen, ih]

/-- The text `VGET(v)` is read as a load of `v`, unless the name contains `SWAP` or `DUP`. -/
theorem classify_vget (v : String) (h1 : ¬ "SWAP".toList <:+: ("VGET(" ++ v ++ ")").toList)
    (h2 : ¬ "DUP".toList <:+: ("VGET(" ++ v ++ ")").toList) : classify ("VGET(" ++ v ++ ")") = some (.get v) := by
  have hl : ("VGET(" ++ v ++ ")").toList = 'V' :: 'G' :: 'E' :: 'T' :: '(' :: (v.toList ++ [')']) := by
    rw [String.toList_append, String.toList_append]; rfl
  unfold classify
  simp only
  rw [if_neg, if_neg (by rwa [infixOf_iff]), if_neg (by rwa [infixOf_iff])]
  · have hm : matchCall "VGET".toList ("VGET(" ++ v ++ ")").toList = some v.toList := by
      rw [hl]
      unfold matchCall
      rw [if_pos (by simp [List.isPrefixOf])]
      exact beforeLastParen_close _
    rw [hm]
    simp
  · intro h
    have := congrArg String.toList h
    rw [hl] at this
    simp at this

/-- The text `VSET(v)` is read as a store of `v`, unless the name contains `SWAP` or `DUP`. -/
theorem classify_vset (v : String) (h1 : ¬ "SWAP".toList <:+: ("VSET(" ++ v ++ ")").toList)
    (h2 : ¬ "DUP".toList <:+: ("VSET(" ++ v ++ ")").toList) : classify ("VSET(" ++ v ++ ")") = some (.set v) := by
  have hl : ("VSET(" ++ v ++ ")").toList = 'V' :: 'S' :: 'E' :: 'T' :: '(' :: (v.toList ++ [')']) := by
    rw [String.toList_append, String.toList_append]; rfl
  unfold classify
  simp only
  rw [if_neg, if_neg (by rwa [infixOf_iff]), if_neg (by rwa [infixOf_iff])]
  · have hn : matchCall "VGET".toList ("VSET(" ++ v ++ ")").toList = none := by
      rw [hl]
      unfold matchCall
      rw [if_neg (by simp [List.isPrefixOf])]
    have hm : matchCall "VSET".toList ("VSET(" ++ v ++ ")").toList = some v.toList := by
      rw [hl]
      unfold matchCall
      rw [if_pos (by simp [List.isPrefixOf])]
      exact beforeLastParen_close _
    rw [hn, hm]
    simp
  · intro h
    have := congrArg String.toList h
    rw [hl] at this
    simp at this

example : classify "VGET(x_1)" = some (.get "x_1") ∧ classify "VSET(x_1)" = some (.set "x_1") := by decide +kernel

theorem StackOp.classify {s : String} (h : StackOp s) (i : String) : classify s ≠ some (.instr i) := by
  rcases h with rfl | ⟨n, rfl⟩ | ⟨n, rfl⟩
  · simp [SymExec.classify]
  · rw [classify_dup]; simp
  · rw [classify_swap]; simp

theorem StackOp.noSwap0 {s : String} (h : StackOp s) : SymExec.classify s ≠ some (.swap 0) := by
  rcases h with rfl | ⟨n, rfl⟩ | ⟨n, rfl⟩
  · simp [SymExec.classify]
  · rw [classify_dup]; simp
  · rw [classify_swap]; simp

theorem NameRun.append {tab : List UInstr} {a b : List String} {s s' s'' : List Var} (h : NameRun tab a s s')
    (h' : NameRun tab b s' s'') : NameRun tab (a ++ b) s s'' := by
  induction h with
  | nil => exact h'
  | cons i o is s s' _ hc hst _ ih => exact .cons i o _ s s' _ hc hst (ih h')

/-- Copies of any elements of the stack can be put on top. -/
theorem dup_all (tab : List UInstr) (vs : List Var) {s : List Var} (h : ∀ v ∈ vs, v ∈ s) :
    ∃ ids, (∀ i ∈ ids, StackOp i) ∧ NameRun tab ids s (vs ++ s) := by
  induction vs with
  | nil => exact ⟨[], by simp, .nil _⟩
  | cons v vs ih =>
    obtain ⟨ids, h1, h2⟩ := ih fun x hx => h x (by simp [hx])
    obtain ⟨a, b, hab⟩ := List.append_of_mem (List.mem_append_right vs (h v (by simp)))
    refine ⟨ids ++ ["DUP" ++ toString (a.length + 1)], ?_, h2.append ?_⟩
    · intro i hi
      rcases List.mem_append.1 hi with hi | hi
      · exact h1 i hi
      · simp only [List.mem_singleton] at hi; exact Or.inr (Or.inl ⟨_, hi⟩)
    · refine .cons _ _ _ _ _ _ (classify_dup _) ?_ (.nil _)
      rw [hab, List.cons_append, hab]
      exact .dup a v b

/-- The element below `t` can be brought to the top. -/
theorem bring_up (tab : List UInstr) (t : List Var) (y : Var) (b : List Var) :
    ∃ ids, (∀ i ∈ ids, StackOp i) ∧ NameRun tab ids (t ++ y :: b) (y :: (t ++ b)) := by
  -- rotate a prefix, from the right
  suffices h : ∀ (t : List Var) (y : Var) (b : List Var), ∃ ids, (∀ i ∈ ids, StackOp i) ∧
      NameRun tab ids (t.reverse ++ y :: b) (y :: (t.reverse ++ b)) by
    have := h t.reverse y b
    rwa [List.reverse_reverse] at this
  intro t
  induction t with
  | nil => intro y b; exact ⟨[], by simp, .nil _⟩
  | cons x t ih =>
    intro y b
    obtain ⟨ids, h1, h2⟩ := ih x (y :: b)
    refine ⟨ids ++ ["SWAP" ++ toString (t.length + 1)], ?_, ?_⟩
    · intro i hi
      rcases List.mem_append.1 hi with hi | hi
      · exact h1 i hi
      · simp only [List.mem_singleton] at hi; exact Or.inr (Or.inr ⟨_, hi⟩)
    · simp only [List.reverse_cons, List.append_assoc, List.cons_append, List.nil_append]
      refine h2.append (.cons _ _ _ _ _ _ (classify_swap _) ?_ (.nil _))
      have := NameStep.swap (tab := tab) x t.reverse y b
      rw [List.length_reverse] at this
      exact this

/-- What is below `t` can be removed. -/
theorem drop_below (tab : List UInstr) (t b : List Var) : ∃ ids, (∀ i ∈ ids, StackOp i) ∧ NameRun tab ids (t ++ b) t := by
  induction b with
  | nil => exact ⟨[], by simp, by rw [List.append_nil]; exact .nil _⟩
  | cons y b ih =>
    obtain ⟨ids, h1, h2⟩ := ih
    obtain ⟨ids', h3, h4⟩ := bring_up tab t y b
    refine ⟨ids' ++ "POP" :: ids, ?_, ?_⟩
    · intro i hi
      rcases List.mem_append.1 hi with hi | hi
      · exact h3 i hi
      · rcases List.mem_cons.1 hi with rfl | hi
        · exact Or.inl rfl
        · exact h1 i hi
    · refine h4.append (.cons _ .pop _ _ _ _ (by simp [classify]) (.pop _ _) h2)

theorem filter_stackOps {p : String → Bool} {ids : List String} (h : ∀ i ∈ ids, p i = false) : ids.filter p = [] :=
  List.filter_eq_nil_iff.2 fun i hi => by simp [h i hi]

/-- The instructions can be run in program order. -/
theorem run_all (tab : List UInstr) (p : String → Bool) (hp : ∀ i, StackOp i → p i = false)
    (hplain : ∀ u ∈ tab, classify u.id = some (.instr u.id) ∧ p u.id = true) (src : List Var)
    (us : List UInstr) : ∀ (pre : List UInstr) (s : List Var), (∀ u ∈ us, u ∈ tab) →
      (∀ a u b, us = a ++ u :: b → ∀ v ∈ u.inpt, v ∈ src ∨ ∃ x ∈ pre ++ a, v ∈ x.outpt) →
      (∀ v ∈ src, v ∈ s) → (∀ x ∈ pre, ∀ v ∈ x.outpt, v ∈ s) →
      ∃ ids s', NameRun tab ids s s' ∧ ids.filter p = us.map (·.id) ∧
        (∀ i ∈ ids, StackOp i ∨ ∃ u ∈ us, i = u.id) ∧ (∀ v ∈ s, v ∈ s') ∧ (∀ x ∈ us, ∀ v ∈ x.outpt, v ∈ s') := by
  induction us with
  | nil => intro pre s _ _ _ _; exact ⟨[], s, .nil _, rfl, by simp, fun v h => h, by simp⟩
  | cons u us ih =>
    intro pre s hm hin hsrc hpre
    have hu := hplain u (hm u (by simp))
    obtain ⟨ds, hd1, hd2⟩ := dup_all tab u.inpt (s := s) (by
      intro v hv
      rcases hin [] u us rfl v hv with h | ⟨x, hx, hv⟩
      · exact hsrc v h
      · exact hpre x (by simpa using hx) v hv)
    obtain ⟨ids, s', h1, h2, h3, h4, h5⟩ := ih (pre ++ [u]) (u.outpt ++ s) (fun x hx => hm x (by simp [hx]))
      (by
        intro a x b e v hv
        rcases hin (u :: a) x b (by rw [e]; rfl) v hv with h | ⟨y, hy, h⟩
        · exact Or.inl h
        · exact Or.inr ⟨y, by simpa using hy, h⟩)
      (fun v hv => List.mem_append_right _ (hsrc v hv))
      (by
        intro x hx v hv
        rcases List.mem_append.1 hx with hx | hx
        · exact List.mem_append_right _ (hpre x hx v hv)
        · simp only [List.mem_singleton] at hx; subst hx; exact List.mem_append_left _ hv)
    refine ⟨ds ++ u.id :: ids, s', hd2.append (.cons _ _ _ _ _ _ hu.1 (.instr u s (hm u (by simp))) h1), ?_, ?_, ?_, ?_⟩
    · rw [List.filter_append, filter_stackOps (fun i hi => hp i (hd1 i hi)), List.filter_cons_of_pos hu.2, h2]
      rfl
    · intro i hi
      rcases List.mem_append.1 hi with hi | hi
      · exact Or.inl (hd1 i hi)
      · rcases List.mem_cons.1 hi with rfl | hi
        · exact Or.inr ⟨u, by simp, rfl⟩
        · rcases h3 i hi with h | ⟨x, hx, h⟩
          · exact Or.inl h
          · exact Or.inr ⟨x, by simp [hx], h⟩
    · exact fun v hv => h4 v (List.mem_append_right _ hv)
    · intro x hx v hv
      rcases List.mem_cons.1 hx with rfl | hx
      · exact h4 v (List.mem_append_left _ hv)
      · exact h5 x hx v hv

theorem before_of_sublist {l : List String} (hnd : l.Nodup) {x y : String} (h : [x, y] <+ l) :
    ∀ i j : Nat, l[i]? = some x → l[j]? = some y → i < j := by
  induction l with
  | nil => simp at h
  | cons a l ih =>
    rw [List.nodup_cons] at hnd
    intro i j hi hj
    cases h with
    | cons _ h =>
      cases i with
      | zero => simp at hi; subst hi; exact absurd (h.subset (by simp)) hnd.1
      | succ i =>
        cases j with
        | zero => simp at hj; subst hj; exact absurd (h.subset (by simp)) hnd.1
        | succ j => have := ih hnd.2 h i j (by simpa using hi) (by simpa using hj); omega
    | cons_cons _ h =>
      cases i with
      | zero =>
        cases j with
        | zero =>
          simp at hj; subst hj
          exact absurd (h.subset (by simp)) hnd.1
        | succ j => omega
      | succ i => exact absurd (List.mem_of_getElem? (by simpa using hi)) hnd.1

/-- Order and multiplicity of the elements kept by a filter are those of the filtered list. -/
theorem order_of_filter {ids : List String} {p : String → Bool} {l : List String} (hnd : l.Nodup) (h : ids.filter p = l) {x y : String}
    (hxy : [x, y] <+ l) : ∀ i j : Nat, ids[i]? = some x → ids[j]? = some y → i < j := by
  subst h
  have hx : p x = true := (List.mem_filter.1 (hxy.subset (by simp : x ∈ [x, y]))).2
  have hy : p y = true := (List.mem_filter.1 (hxy.subset (by simp : y ∈ [x, y]))).2
  induction ids with
  | nil => simp at hxy
  | cons a ids ih =>
    intro i j hi hj
    cases hpa : p a with
    | false =>
      rw [List.filter_cons_of_neg (by simp [hpa])] at hnd hxy
      cases i with
      | zero => simp at hi; subst hi; rw [hpa] at hx; simp at hx
      | succ i =>
        cases j with
        | zero => simp at hj; subst hj; rw [hpa] at hy; simp at hy
        | succ j => have := ih hnd hxy i j (by simpa using hi) (by simpa using hj); omega
    | true =>
      rw [List.filter_cons_of_pos hpa] at hnd hxy
      rw [List.nodup_cons] at hnd
      have hnot : ∀ (k : Nat), ids[k]? ≠ some a := by
        intro k hk
        exact hnd.1 (List.mem_filter.2 ⟨List.mem_of_getElem? hk, hpa⟩)
      cases hxy with
      | cons _ h =>
        have hm : ∀ z ∈ [x, y], z ≠ a := fun z hz e => hnd.1 (by rw [← e]; exact h.subset hz)
        cases i with
        | zero => simp at hi; exact absurd hi.symm (hm x (by simp))
        | succ i =>
          cases j with
          | zero => simp at hj; exact absurd hj.symm (hm y (by simp))
          | succ j => have := ih hnd.2 h i j (by simpa using hi) (by simpa using hj); omega
      | cons_cons _ h =>
        cases i with
        | zero =>
          cases j with
          | zero =>
            simp at hj; subst hj
            exact absurd (h.subset (by simp)) hnd.1
          | succ j => omega
        | succ i => exact absurd (by simpa using hi) (hnot i)

/-- **C50.** A specification whose operands are all available, whose ids are distinct and whose dependences follow the
program order can be met: the validator accepts some schedule, even without junk on the stack. -/
theorem available_has_schedule (spec : Spec) (junk : Bool) (huniq : (spec.userInstrs.map (·.id)).Nodup)
    (hplain : ∀ u ∈ spec.userInstrs, classify u.id = some (.instr u.id))
    (htwo : ∀ u ∈ spec.userInstrs, u.commutative = true → u.inpt.length = 2)
    (hav : Available spec) (hor : Oriented spec) : ∃ ids, check spec ids junk = true := by
  let p : String → Bool := fun s => decide (s ∈ spec.userInstrs.map (·.id))
  have hp : ∀ i, StackOp i → p i = false := by
    intro i hi
    simp only [p, decide_eq_false_iff_not]
    intro hm
    obtain ⟨u, hu, rfl⟩ := List.mem_map.1 hm
    exact hi.classify _ (hplain u hu)
  obtain ⟨ids, s, h1, h2, h3, h4, h5⟩ := run_all spec.userInstrs p hp
    (fun u hu => ⟨hplain u hu, by simp only [p, decide_eq_true_eq]; exact List.mem_map.2 ⟨u, hu, rfl⟩⟩) spec.src spec.userInstrs [] spec.src
    (fun u hu => hu) (by simpa using hav.inputs) (fun v hv => hv) (by simp)
  obtain ⟨ds, hd1, hd2⟩ := dup_all spec.userInstrs spec.tgt (s := s) (by
    intro v hv
    rcases hav.target v hv with h | ⟨x, hx, h⟩
    · exact h4 v h
    · exact h5 x hx v h)
  obtain ⟨es, he1, he2⟩ := drop_below spec.userInstrs spec.tgt s
  have hfil : (ids ++ (ds ++ es)).filter p = spec.userInstrs.map (·.id) := by
    rw [List.filter_append, List.filter_append, filter_stackOps (fun i hi => hp i (hd1 i hi)),
      filter_stackOps (fun i hi => hp i (he1 i hi)), h2]
    simp
  have hmem : ∀ i, i ∈ spec.userInstrs.map (·.id) → i ∈ ids ++ (ds ++ es) := by
    intro i hi
    rw [← hfil] at hi
    exact (List.mem_filter.1 hi).1
  refine ⟨ids ++ (ds ++ es), ?_⟩
  rw [accepts_exactly_right_schedules spec _ junk huniq htwo ?_]
  · refine ⟨⟨spec.tgt, h1.append (hd2.append he2), ?_⟩, ?_, ?_⟩
    · cases junk <;> simp
    · intro d hd
      have hs := hor d hd
      exact ⟨hmem _ (hs.subset (by simp)), hmem _ (hs.subset (by simp)), order_of_filter huniq hfil hs⟩
    · intro u hu _ _
      have hc := List.count_filter (p := p) (a := u.id) (l := ids ++ (ds ++ es))
        (by simp only [p, decide_eq_true_eq]; exact List.mem_map.2 ⟨u, hu, rfl⟩)
      rw [← hc, hfil]
      rw [huniq.count, if_pos (List.mem_map.2 ⟨u, hu, rfl⟩)]
  · intro s hs
    rcases List.mem_append.1 hs with hs | hs
    · rcases h3 s hs with h | ⟨u, hu, rfl⟩
      · exact h.noSwap0
      · rw [hplain u hu]; simp
    · rcases List.mem_append.1 hs with hs | hs
      · exact (hd1 s hs).noSwap0
      · exact (he1 s hs).noSwap0

end Grey.SymExec
