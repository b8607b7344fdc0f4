import Verif.Greedy.SortLoop
import Verif.Greedy.Writes

/-!
# The plan of the scheduler

`target` (greedy_previous_param.py:1604-1724): every write of the block occurs exactly once in the plan, after all writes it depends on, and for
dependencies without cycles no assertion fails.
-/

namespace Grey.Greedy
open List SymExec

/-! ### `sort_with_deps` -/

theorem runs_flat {ops : List String} (hn : ops.Nodup) {lv : List (String × Nat)} {loads : Nat → List String} {n i : Nat}
    {es : List (List String × List String)} (h : Runs (storesAt ops lv) loads n i es) :
    (es.flatMap Prod.fst).Nodup ∧ ∀ o, o ∈ es.flatMap Prod.fst ↔ o ∈ ops ∧ isWrite o = true ∧ i ≤ posOf lv o ∧ posOf lv o < n := by
  induction h with
  | nil => refine ⟨by simp, ?_⟩; intro o; simp only [flatMap_nil, not_mem_nil, false_iff]; omega
  | @cons i j l es lt le empty hsome inner next rest ih =>
    obtain ⟨h1, h2⟩ := ih
    constructor
    · rw [flatMap_cons, nodup_append]
      refine ⟨?_, h1, ?_⟩
      · unfold storesAt
        exact nodup_reverse.2 (hn.filter _)
      · intro a ha b hb hab
        subst hab
        have := (storesAt_mem.1 ha).2.2
        have := ((h2 a).1 hb).2.2.1
        omega
    · intro o
      rw [flatMap_cons, mem_append, h2, storesAt_mem]
      constructor
      · rintro (⟨h3, h4, h5⟩ | ⟨h3, h4, h5, h6⟩)
        · exact ⟨h3, h4, by omega, by omega⟩
        · exact ⟨h3, h4, by omega, h6⟩
      · rintro ⟨h3, h4, h5, h6⟩
        by_cases hji : j ≤ posOf lv o
        · exact .inr ⟨h3, h4, hji, h6⟩
        · by_cases hi : posOf lv o = i
          · exact .inl ⟨h3, h4, hi⟩
          · have := empty (posOf lv o) (by omega) (by omega)
            have h7 : o ∈ storesAt ops lv (posOf lv o) := storesAt_mem.2 ⟨h3, h4, rfl⟩
            rw [this] at h7
            simp at h7

theorem allOps_nodup (elems : List String) (deps : List Dep) : (allOps elems deps).Nodup :=
  (perm_insertionSort _ _).nodup_iff.2 (nodup_dedup _)

theorem allOps_mem {elems : List String} {deps : List Dep} {o : String} : o ∈ allOps elems deps ↔ o ∈ depKeys deps ∨ o ∈ elems := by
  unfold allOps
  rw [(perm_insertionSort _ _).mem_iff, mem_dedup, mem_append]

theorem storesAt_top {ops : List String} {lv : List (String × Nat)} {k : Nat} (h : topLevel ops lv < k) : storesAt ops lv k = [] := by
  rw [eq_nil_iff_forall_not_mem]
  intro o ho
  obtain ⟨h1, -, h2⟩ := storesAt_mem.1 ho
  have := topLevel_le (lv := lv) h1
  omega

theorem loadsAt_top {deps : List Dep} {ops : List String} {lv : List (String × Nat)} {k : Nat} (h : topLevel ops lv < k) :
    loadsAt deps ops lv k = [] := by
  rw [eq_nil_iff_forall_not_mem]
  intro o ho
  obtain ⟨-, -, h2⟩ := loadsAt_mem.1 ho
  have := maxPos_le deps lv (topLevel ops lv) o
  omega

theorem sort_levels {P : Prog} (ask : Ask) {elems : List String} {deps : List Dep} (hP : InTable P (allOps elems deps))
    {lv : List (String × Nat)} (hlv : levels deps = some lv) (h2 : ∀ o ∈ allOps elems deps, 2 ≤ o.length) :
    ∃ order final, sortWithDeps P ask elems deps = some (order, final) ∧ (order ++ final).Pairwise (May deps) ∧
      (order.filter isWrite).Perm ((allOps elems deps).filter isWrite) ∧ (∀ y ∈ order ++ final, y ∈ allOps elems deps) ∧
      (∀ y ∈ final, isWrite y = false) ∧ (order ≠ [] → ∃ w ∈ order, isWrite w = true) := by
  unfold sortWithDeps
  rw [hlv]
  dsimp only
  have h2' : ((allOps elems deps).any fun o => decide (o.length < 2)) = false := by
    rw [any_eq_false]
    intro o ho
    have := h2 o ho
    simp
    omega
  rw [h2']
  simp only [Bool.false_eq_true, if_false]
  have hl := levels_spec hlv
  by_cases hne : allOps elems deps = []
  · refine ⟨[], [], ?_, by simp, by simp [hne], by simp, by simp, by simp⟩
    have e1 : storesAt (allOps elems deps) lv = fun _ => [] := by funext k; simp [storesAt, hne]
    have e2 : loadsAt deps (allOps elems deps) lv = fun _ => [] := by funext k; simp [loadsAt, hne]
    rw [e1, e2]
    simp [joinLevels, entries, sortLoop]
  have hruns := joinLevels_runs (stores := storesAt (allOps elems deps) lv) (loads := loadsAt deps (allOps elems deps) lv)
    (n := topLevel (allOps elems deps) lv + 1)
    (fun k hk => no_gap hl (fun e he => allOps_mem.2 (.inl he)) hne (by omega))
    (fun k hk => ⟨storesAt_top (by omega), loadsAt_top (by omega)⟩) (topLevel (allOps elems deps) lv + 1) 0 (by omega) (by omega)
  obtain ⟨⟨o, left⟩, h3, h4, h5⟩ := (sortLoop_runs ask ⟨hP, hl⟩ hruns).1 0
  rw [entries_eq, entries_eq, h3]
  refine ⟨_, _, rfl, h4.may, ?_, h4.sub, h4.fin, h4.ex⟩
  refine h5.trans ?_
  obtain ⟨h6, h7⟩ := runs_flat (allOps_nodup elems deps) hruns
  rw [perm_ext_iff_of_nodup h6 ((allOps_nodup elems deps).filter _)]
  intro a
  rw [h7, mem_filter]
  constructor
  · rintro ⟨h8, h9, -⟩
    exact ⟨h8, h9⟩
  · rintro ⟨h8, h9⟩
    have := topLevel_le (lv := lv) h8
    exact ⟨h8, h9, by omega, by omega⟩

/-! ### Checking the dependencies -/

theorem check_of_may {deps all : List Dep} (hall : ∀ d ∈ all, d ∈ deps ∧ d.1 ≠ d.2 ∧ (isWrite d.1 = true ∨ isWrite d.2 = true))
    {l : List String} (h : l.Pairwise (May deps)) : checkDependencies all l = true := by
  unfold checkDependencies
  rw [all_eq_true]
  intro d hd
  split
  · rename_i i j hi hj
    have hi' := (mem_positions_zero d.1 i l).1 (mem_of_getLast? hi)
    have hj' := (mem_positions_zero d.2 j l).1 (mem_of_getLast? hj)
    rw [decide_eq_true_eq]
    by_contra hcon
    obtain ⟨h1, h2, h3⟩ := hall d hd
    rcases Nat.lt_or_eq_of_le (Nat.le_of_not_lt hcon) with hlt | heq
    · obtain ⟨hi1, hi2⟩ := List.getElem?_eq_some_iff.1 hi'
      obtain ⟨hj1, hj2⟩ := List.getElem?_eq_some_iff.1 hj'
      have := pairwise_iff_getElem.1 h j i hj1 hi1 hlt
      rw [hi2, hj2] at this
      obtain ⟨h4, h5⟩ := this h1
      rcases h3 with h3 | h3
      · rw [h3] at h5; simp at h5
      · rw [h3] at h4; simp at h4
    · subst heq
      rw [hi'] at hj'
      exact h2 (by simpa using hj')
  · rfl

/-! ### The later steps keep the writes -/

/-- No result is named like a write. -/
def Outs (P : Prog) : Prop := ∀ o v, outOf P o = some v → isWrite v = false

theorem renameOps_writes {P : Prog} (ho : Outs P) (ask : Ask) (l final : List String) (hn : (final.filter isWrite ++ l.filter isWrite).Nodup)
    {r : List String} (h : renameOps P ask l final = some r) : r.filter isWrite = final.filter isWrite ++ l.filter isWrite := by
  induction l generalizing final with
  | nil => simp only [renameOps, Option.some.injEq] at h; subst h; simp
  | cons op l ih =>
    unfold renameOps at h
    cases hw : isWrite op with
    | true =>
      rw [hw] at h
      simp only [if_true] at h
      rw [filter_cons_of_pos hw] at hn ⊢
      have hnot : op ∉ final := by
        intro hmem
        have := (nodup_append.1 hn).2.2 op (mem_filter.2 ⟨hmem, hw⟩) op (by simp)
        exact this rfl
      rw [if_neg hnot] at h
      have hf : (final ++ [op]).filter isWrite = final.filter isWrite ++ [op] := by rw [filter_append, filter_cons_of_pos hw, filter_nil]
      rw [ih (final ++ [op]) (by rw [hf, append_assoc]; exact hn) h, hf, append_assoc]
      rfl
    | false =>
      rw [hw] at h
      simp only [Bool.false_eq_true, if_false] at h
      rw [filter_cons_of_neg (by simp [hw])] at hn ⊢
      split at h
      · rename_i chk vop hchk hv
        split at h
        · exact ih final hn h
        · have hf : (final ++ [vop]).filter isWrite = final.filter isWrite := by
            rw [filter_append, filter_cons_of_neg (by simp [ho op vop hv]), filter_nil, append_nil]
          rw [ih (final ++ [vop]) (by rw [hf]; exact hn) h, hf]
      · simp at h

theorem insertLoad_writes {P : Prog} {ask : Ask} {deps : List Dep} {op : String} (hop : isWrite op = false) {l r : List String}
    (h : insertLoad P ask deps op l = some r) : r.filter isWrite = l.filter isWrite := by
  induction l generalizing r with
  | nil => simp only [insertLoad, Option.some.injEq] at h; subst h; rfl
  | cons c l ih =>
    unfold insertLoad at h
    have e : ∀ t, (op :: t).filter isWrite = t.filter isWrite := fun t => filter_cons_of_neg (by simp [hop])
    split at h
    · simp only [Option.some.injEq] at h; subst h; rfl
    split at h
    · simp only [Option.some.injEq] at h; subst h; rw [e]
    split at h
    · simp at h
    split at h
    · simp only [Option.some.injEq] at h; subst h; rw [e]
    split at h
    · rename_i hl
      simp only [List.isEmpty_iff] at hl
      subst hl
      simp only [Option.some.injEq] at h
      subst h
      rw [show [c, op] = [c] ++ [op] from rfl, filter_append, e]
      simp
    · simp only [Option.map_eq_some_iff] at h
      obtain ⟨r', h', rfl⟩ := h
      have := ih h'
      rw [filter_cons, filter_cons, this]

theorem addLoads_writes {P : Prog} {ask : Ask} {deps : List Dep} (n : Nat) {l order r : List String} (hl : ∀ o ∈ l, isWrite o = false)
    (h : addLoads P ask deps n l order = some r) : r.filter isWrite = order.filter isWrite := by
  induction n generalizing l order with
  | zero =>
    cases l with
    | nil => simp only [addLoads, Option.some.injEq] at h; subst h; rfl
    | cons => simp [addLoads] at h
  | succ n ih =>
    cases l with
    | nil => simp only [addLoads, Option.some.injEq] at h; subst h; rfl
    | cons a l =>
      unfold addLoads at h
      split at h
      · simp at h
      rename_i i hi
      split at h
      · simp at h
      rename_i order' ho
      have hw : isWrite ((a :: l).getD i "") = false := by
        rw [getD_eq_getElem?_getD]
        cases hg : (a :: l)[i]? with
        | none => decide +kernel
        | some v => exact hl v (mem_of_getElem? hg)
      rw [ih (fun o ho => hl o ((eraseIdx_sublist _ _).subset ho)) h, insertLoad_writes hw ho]

theorem neededLoads_out {P : Prog} {ask : Ask} {fin l r : List String} (h : neededLoads P ask fin l = some r) :
    ∀ v ∈ r, ∃ o ∈ l, isWrite o = false ∧ outOf P o = some v := by
  induction l generalizing r with
  | nil => simp only [neededLoads, Option.some.injEq] at h; subst h; simp
  | cons op l ih =>
    unfold neededLoads at h
    split at h
    · intro v hv
      obtain ⟨o, h1, h2⟩ := ih h v hv
      exact ⟨o, by simp [h1], h2⟩
    · rename_i hw
      split at h
      · rename_i v names hv hnames
        simp only [Option.map_eq_some_iff] at h
        obtain ⟨r', h', rfl⟩ := h
        intro x hx
        rw [mem_append, mem_append] at hx
        have hcase : x = v ∨ x ∈ r' := by
          rcases hx with (hx | hx) | hx
          · left; split at hx <;> simp_all
          · left; split at hx <;> simp_all
          · exact .inr hx
        rcases hcase with rfl | hx
        · exact ⟨op, by simp, by simpa using hw, hv⟩
        · obtain ⟨o, h1, h2⟩ := ih h' x hx
          exact ⟨o, by simp [h1], h2⟩
      · simp at h

/-! ### The plan -/

/-- The instructions that write, by their opcodes. -/
def writesOf (tab : List UInstr) : List String := opsId tab ["TSTORE"] ++ opsId tab ["SSTORE"] ++ opsId tab memWriteOps

/-- Before in a list. -/
def Before (l : List String) (a b : String) : Prop := [a, b] <+ l

theorem before_of_may {deps : List Dep} {l : List String} (h : l.Pairwise (May deps)) {a b : String} (hd : (a, b) ∈ deps) (hab : a ≠ b)
    (hw : isWrite a = true ∨ isWrite b = true) (ha : a ∈ l) (hb : b ∈ l) : Before l a b := by
  obtain ⟨i, hi, ha⟩ := getElem_of_mem ha
  obtain ⟨j, hj, hb⟩ := getElem_of_mem hb
  have hij : i < j := by
    by_contra hcon
    rcases Nat.lt_or_eq_of_le (Nat.le_of_not_lt hcon) with hlt | heq
    · have := pairwise_iff_getElem.1 h j i hj hi hlt
      rw [ha, hb] at this
      obtain ⟨h4, h5⟩ := this hd
      rcases hw with h3 | h3
      · rw [h3] at h5; simp at h5
      · rw [h3] at h4; simp at h4
    · subst heq
      exact hab (ha.symm.trans hb)
  unfold Before
  have h1 : [a] <+ l.take j := by
    rw [singleton_sublist, mem_take_iff_getElem]
    exact ⟨i, by omega, ha⟩
  have h2 : [b] <+ l.drop j := by
    rw [singleton_sublist, mem_drop_iff_getElem]
    exact ⟨0, by omega, by simpa using hb⟩
  have := h1.append h2
  rwa [take_append_drop] at this

/-- What the plan is. -/
theorem target_some {P : Prog} {ask : Ask} {mem sto tra all : List Dep} (hP : InTable P (allOps (writesOf P.tab) (tra ++ sto ++ mem)))
    (ho : Outs P) {order rest : List String} (h : target P ask mem sto tra all = some (order, rest)) :
    ∃ raw final, sortWithDeps P ask (writesOf P.tab) (tra ++ sto ++ mem) = some (raw, final) ∧ order.filter isWrite = raw.filter isWrite ∧
      raw.Pairwise (May (tra ++ sto ++ mem)) ∧ (raw.filter isWrite).Perm ((allOps (writesOf P.tab) (tra ++ sto ++ mem)).filter isWrite) := by
  unfold target at h
  dsimp only at h
  split at h
  · simp at h
  rename_i raw final hsort
  have hsort' := hsort
  unfold sortWithDeps at hsort
  split at hsort
  · simp at hsort
  rename_i lv hlv
  dsimp only at hsort
  split at hsort
  · simp at hsort
  rename_i h2
  obtain ⟨raw', final', h3, h4, h5, -⟩ := sort_levels ask hP hlv (by
    intro o ho
    by_contra hcon
    exact h2 (any_eq_true.2 ⟨o, ho, by simpa using hcon⟩))
  have heq := hsort'.symm.trans h3
  simp only [Option.some.injEq, Prod.mk.injEq] at heq
  obtain ⟨rfl, rfl⟩ := heq
  refine ⟨raw, final, hsort', ?_, (pairwise_append.1 h4).1, h5⟩
  split at h
  · simp at h
  split at h
  · rename_i vals forced order' hvals hforced horder
    split at h
    · simp at h
    rename_i order'' hadd
    split at h
    · simp only [Option.some.injEq, Prod.mk.injEq] at h
      obtain ⟨rfl, rfl⟩ := h
      rw [addLoads_writes _ ?_ hadd, renameOps_writes ho ask raw [] ?_ horder]
      · rfl
      · simpa using h5.nodup_iff.2 ((allOps_nodup _ _).filter _)
      · intro o hmem
        rw [(perm_insertionSort _ _).mem_iff, mem_dedup] at hmem
        obtain ⟨x, -, -, hx⟩ := neededLoads_out hforced o hmem
        exact ho x o hx
    · simp at h
  · simp at h

/-- **C80**, the plan: every write of the block occurs exactly once in it, and after all writes it depends on. -/
theorem plan_writes {P : Prog} {ask : Ask} {mem sto tra all : List Dep} (hP : InTable P (allOps (writesOf P.tab) (tra ++ sto ++ mem)))
    (ho : Outs P) {order rest : List String} (h : target P ask mem sto tra all = some (order, rest)) :
    (∀ w, isWrite w = true → w ∈ writesOf P.tab → order.count w = 1) ∧
      ∀ a b, (a, b) ∈ tra ++ sto ++ mem → isWrite a = true → isWrite b = true → order.count a = 1 ∧ order.count b = 1 ∧ Before order a b := by
  obtain ⟨raw, final, h1, h2, h3, h4⟩ := target_some hP ho h
  have hnd : (order.filter isWrite).Nodup := by rw [h2]; exact h4.nodup_iff.2 ((allOps_nodup _ _).filter _)
  have hone : ∀ w, isWrite w = true → w ∈ allOps (writesOf P.tab) (tra ++ sto ++ mem) → order.count w = 1 := by
    intro w hw hm
    rw [← count_filter hw]
    refine count_eq_one_of_mem hnd ?_
    rw [h2]
    exact h4.mem_iff.2 (mem_filter.2 ⟨hm, hw⟩)
  refine ⟨fun w hw hm => hone w hw (allOps_mem.2 (.inr hm)), ?_⟩
  intro a b hd ha hb
  have ha' := hone a ha (allOps_mem.2 (.inl (depKeys_mem.2 ⟨_, hd, .inl rfl⟩)))
  have hb' := hone b hb (allOps_mem.2 (.inl (depKeys_mem.2 ⟨_, hd, .inr rfl⟩)))
  refine ⟨ha', hb', ?_⟩
  have hab : a ≠ b := by
    rintro rfl
    unfold sortWithDeps at h1
    split at h1
    · simp at h1
    rename_i lv hlv
    exact absurd ((levels_spec hlv).lt a a hd) (Nat.lt_irrefl _)
  have hmay : (order.filter isWrite).Pairwise (May (tra ++ sto ++ mem)) := by rw [h2]; exact h3.filter _
  have := before_of_may hmay hd hab (.inl ha) (mem_filter.2 ⟨count_pos_iff.1 (by omega), ha⟩) (mem_filter.2 ⟨count_pos_iff.1 (by omega), hb⟩)
  exact Sublist.trans this filter_sublist

/-! ### No assertion fails -/

theorem lookAhead_total {P : Prog} {ops : List String} (hP : InTable P ops) (op : String) (l : List String) (hl : ∀ o ∈ l, o ∈ ops) :
    ∃ r, lookAhead P op l = some r := by
  induction l with
  | nil => exact ⟨_, rfl⟩
  | cons o l ih =>
    obtain ⟨r, hr⟩ := ih fun x hx => hl x (by simp [hx])
    have hname : ∃ v, lookName P op o = some v := by
      unfold lookName
      split
      · obtain ⟨u, hu⟩ := hP.op o (hl o (by simp))
        rw [hu]
        simp only [Option.bind_some]
        split
        · rename_i h1
          exact ⟨_, List.getElem?_eq_getElem (by omega)⟩
        · exact ⟨_, rfl⟩
      · cases hw : isWrite o with
        | true => exact ⟨o, by simp⟩
        | false =>
          obtain ⟨v, hv⟩ := hP.out o (hl o (by simp)) hw
          exact ⟨v, by simp [hv]⟩
    obtain ⟨v, hv⟩ := hname
    unfold lookAhead
    rw [hv]
    dsimp only
    split
    · exact ⟨_, rfl⟩
    · rw [hr]; exact ⟨_, rfl⟩

theorem renameOps_total {P : Prog} (ask : Ask) {ops : List String} (hP : InTable P ops) (l final : List String) (hl : ∀ o ∈ l, o ∈ ops) :
    ∃ r, renameOps P ask l final = some r := by
  induction l generalizing final with
  | nil => exact ⟨_, rfl⟩
  | cons op l ih =>
    have ih' := fun f => ih f fun x hx => hl x (by simp [hx])
    unfold renameOps
    cases hw : isWrite op with
    | true => simp only [if_true]; exact ih' _
    | false =>
      simp only [Bool.false_eq_true, if_false]
      obtain ⟨chk, hchk⟩ := lookAhead_total hP op l fun x hx => hl x (by simp [hx])
      obtain ⟨v, hv⟩ := hP.out op (hl op (by simp)) hw
      rw [hchk, hv]
      exact ih' _

theorem dropTo_sub (f : String → Bool) (l : List String) : ∀ o ∈ dropTo f l, o ∈ l := by
  induction l with
  | nil => simp [dropTo]
  | cons a l ih =>
    unfold dropTo
    split
    · intro o ho; simp [ho]
    · intro o ho; exact mem_cons_of_mem _ (ih o ho)

theorem neededLoads_total {P : Prog} (ask : Ask) {ops : List String} (hP : InTable P ops) (fin l : List String) (hl : ∀ o ∈ l, o ∈ ops) :
    ∃ r, neededLoads P ask fin l = some r := by
  induction l with
  | nil => exact ⟨_, rfl⟩
  | cons op l ih =>
    obtain ⟨r, hr⟩ := ih fun x hx => hl x (by simp [hx])
    unfold neededLoads
    cases hw : isWrite op with
    | true => simp only [if_true]; exact ⟨r, hr⟩
    | false =>
      simp only [Bool.false_eq_true, if_false]
      obtain ⟨v, hv⟩ := hP.out op (hl op (by simp)) hw
      obtain ⟨names, hn⟩ := mapM_total (f := fun o => if (!isWrite o) = true then outOf P o else some o) (dropTo (stopsAt op) l) (by
        intro o ho
        have hmem := hl o (by simp [dropTo_sub _ _ o ho])
        cases hwo : isWrite o with
        | true => exact ⟨o, by simp⟩
        | false =>
          obtain ⟨w, hw⟩ := hP.out o hmem hwo
          exact ⟨w, by simp [hw]⟩)
      rw [hv, hn, hr]
      exact ⟨_, rfl⟩

/-- Whether the value at `i` may be the next one. -/
def goodPick (ask : Ask) (l : List String) (i : Nat) : Prop :=
  ∃ v, l[i]? = some v ∧ ∀ j w, 1 ≤ j → j ≠ i → l[j]? = some w → ask.computed v w = false

theorem pickLoad_total {ask : Ask} {l : List String} (n i k : Nat) (hik : i ≤ k) (hk : k < i + n) (hg : goodPick ask l k) :
    ∃ m, pickLoad ask l n i = some m ∧ m < l.length := by
  induction n generalizing i with
  | zero => omega
  | succ n ih =>
    obtain ⟨v, hv, hall⟩ := hg
    obtain ⟨hkl, -⟩ := List.getElem?_eq_some_iff.1 hv
    unfold pickLoad
    rw [List.getElem?_eq_getElem (show i < l.length by omega)]
    dsimp only
    split
    · rename_i hany
      have hne : i ≠ k := by
        rintro rfl
        rw [any_eq_true] at hany
        obtain ⟨j, -, hj⟩ := hany
        simp only [Bool.and_eq_true, decide_eq_true_eq] at hj
        obtain ⟨⟨h1, h2⟩, h3⟩ := hj
        cases hlj : l[j]? with
        | none => rw [hlj] at h3; simp at h3
        | some w =>
          rw [hlj, (List.getElem?_eq_some_iff.1 hv).2] at h3
          have := hall j w h1 h2 hlj
          simp [this] at h3
      exact ih (i + 1) (by omega) (by omega)
    · exact ⟨i, rfl, by omega⟩

theorem exists_max (r : String → Nat) (l : List String) (hl : l ≠ []) : ∃ (k : Nat) (v : String), l[k]? = some v ∧ ∀ w ∈ l, r w ≤ r v := by
  have : ∃ v ∈ l, ∀ w ∈ l, r w ≤ r v := by
    induction l with
    | nil => simp at hl
    | cons x xs ih =>
      by_cases hx : xs = []
      · subst hx; exact ⟨x, by simp⟩
      · obtain ⟨e, he, hm⟩ := ih hx
        rcases Nat.le_total (r e) (r x) with h | h
        · refine ⟨x, by simp, ?_⟩
          intro k hk
          rcases mem_cons.1 hk with rfl | hk
          · exact Nat.le_refl _
          · exact Nat.le_trans (hm k hk) h
        · refine ⟨e, by simp [he], ?_⟩
          intro k hk
          rcases mem_cons.1 hk with rfl | hk
          · exact h
          · exact hm k hk
  obtain ⟨v, hv, h⟩ := this
  obtain ⟨k, hk⟩ := List.getElem?_of_mem hv
  exact ⟨k, v, hk, h⟩

/-- Values are needed only by values of larger rank. -/
def AskOk (ask : Ask) (r : String → Nat) : Prop := ∀ v w, ask.computed v w = true → v = w ∨ r v < r w

theorem goodPick_exists {ask : Ask} {r : String → Nat} (hr : AskOk ask r) {l : List String} (hn : l.Nodup) (hl : l ≠ []) :
    ∃ k, k < l.length ∧ goodPick ask l k := by
  obtain ⟨k, v, hk, hmax⟩ := exists_max r l hl
  obtain ⟨hkl, hkv⟩ := List.getElem?_eq_some_iff.1 hk
  refine ⟨k, hkl, v, hk, ?_⟩
  intro j w h1 h2 hj
  cases hc : ask.computed v w with
  | false => rfl
  | true =>
    exfalso
    obtain ⟨hjl, hjw⟩ := List.getElem?_eq_some_iff.1 hj
    rcases hr v w hc with h | h
    · exact h2 ((hn.getElem_inj_iff).1 (by rw [hjw, hkv, h]))
    · have := hmax w (mem_of_getElem? hj)
      omega

theorem insertLoad_total {P : Prog} {ask : Ask} {deps : List Dep} {op : String} (hop : ∃ u, varInstr P op = some u) (l : List String) :
    ∃ r, insertLoad P ask deps op l = some r ∧ (l ≠ [] → op ∈ r) ∧ ∀ x ∈ l, x ∈ r := by
  induction l with
  | nil => exact ⟨[], rfl, by simp, by simp⟩
  | cons c l ih =>
    obtain ⟨r, h1, h2, h3⟩ := ih
    obtain ⟨u, hu⟩ := hop
    unfold insertLoad
    split
    · rename_i h; exact ⟨_, rfl, by simp [h], by simp⟩
    split
    · exact ⟨_, rfl, by simp, fun x hx => by simp at hx; simp [hx]⟩
    rw [hu]
    dsimp only
    split
    · exact ⟨_, rfl, by simp, fun x hx => by simp at hx; simp [hx]⟩
    split
    · rename_i hl
      simp only [List.isEmpty_iff] at hl
      subst hl
      exact ⟨_, rfl, by simp, fun x hx => by simp at hx; simp [hx]⟩
    · rename_i hl
      simp only [List.isEmpty_iff] at hl
      rw [h1]
      refine ⟨_, rfl, fun _ => by simp [h2 hl], ?_⟩
      intro x hx
      rcases mem_cons.1 hx with rfl | hx
      · simp
      · simp [h3 x hx]

theorem addLoads_total {P : Prog} {ask : Ask} {r : String → Nat} (hr : AskOk ask r) {deps : List Dep} (n : Nat) {l order : List String}
    (hn : l.Nodup) (hlen : l.length ≤ n) (hv : ∀ o ∈ l, ∃ u, varInstr P o = some u) (hne : l ≠ [] → order ≠ []) :
    ∃ res, addLoads P ask deps n l order = some res ∧ (∀ o ∈ l, o ∈ res) ∧ ∀ x ∈ order, x ∈ res := by
  induction n generalizing l order with
  | zero =>
    cases l with
    | nil => exact ⟨_, rfl, by simp, by simp⟩
    | cons => simp at hlen
  | succ n ih =>
    cases l with
    | nil => exact ⟨_, rfl, by simp, by simp⟩
    | cons a l =>
      generalize hL : a :: l = L at *
      have hLne : L ≠ [] := by rw [← hL]; simp
      unfold addLoads
      rw [← hL]
      dsimp only
      rw [hL]
      obtain ⟨k, hk, hg⟩ := goodPick_exists hr hn hLne
      obtain ⟨m, hm, hml⟩ := pickLoad_total L.length 0 k (by omega) (by omega) hg
      rw [hm]
      dsimp only
      have hget : L.getD m "" = L[m] := by rw [getD_eq_getElem?_getD, List.getElem?_eq_getElem hml]; rfl
      rw [hget]
      obtain ⟨o', h1, h2, h3⟩ := insertLoad_total (ask := ask) (deps := deps) (hv _ (getElem_mem hml)) order
      rw [h1]
      dsimp only
      have hone : o' ≠ [] := ne_nil_of_mem (h2 (hne hLne))
      obtain ⟨res, h4, h5, h6⟩ := ih (l := L.eraseIdx m) (order := o') ((eraseIdx_sublist _ _).nodup hn)
        (by rw [length_eraseIdx_of_lt hml]; omega) (fun o ho => hv o ((eraseIdx_sublist _ _).subset ho)) (fun _ => hone)
      refine ⟨res, h4, ?_, fun x hx => h6 x (h3 x hx)⟩
      intro o ho
      by_cases hom : o = L[m]
      · rw [hom]; exact h6 _ (h2 (hne hLne))
      · refine h5 o ?_
        rw [mem_eraseIdx_iff_getElem]
        obtain ⟨i, hi, rfl⟩ := getElem_of_mem ho
        exact ⟨i, hi, fun h => hom (by subst h; rfl), rfl⟩

/-- **C80**, no assertion of `target` fails: the dependencies have no cycle, each of the checked ones has a write, and results are only needed
for results of larger rank. -/
theorem plan_exists {P : Prog} {ask : Ask} {mem sto tra all : List Dep} (hP : InTable P (allOps (writesOf P.tab) (tra ++ sto ++ mem)))
    (ho : Outs P) (hv : ∀ o v, outOf P o = some v → ∃ u, varInstr P v = some u)
    (h2 : ∀ o ∈ allOps (writesOf P.tab) (tra ++ sto ++ mem), 2 ≤ o.length)
    {r : String → Nat} (hr : ∀ a b, (a, b) ∈ tra ++ sto ++ mem → r a < r b)
    (hall : ∀ d ∈ all, d ∈ tra ++ sto ++ mem ∧ (isWrite d.1 = true ∨ isWrite d.2 = true)) {k : String → Nat} (hk : AskOk ask k) :
    ∃ order rest, target P ask mem sto tra all = some (order, rest) := by
  obtain ⟨lv, hlv⟩ : ∃ lv, levels (tra ++ sto ++ mem) = some lv := peel_total r hr _ _ _ (Nat.le_refl _)
  obtain ⟨raw, final, h3, h4, h5, h6, h7, h8⟩ := sort_levels ask hP hlv h2
  have hcheck : checkDependencies all (raw ++ final) = true := by
    refine check_of_may (deps := tra ++ sto ++ mem) ?_ h4
    intro d hd
    refine ⟨(hall d hd).1, ?_, (hall d hd).2⟩
    intro hdd
    have := hr d.1 d.2 (hall d hd).1
    rw [hdd] at this
    exact Nat.lt_irrefl _ this
  obtain ⟨vals, h9⟩ := mapM_total (f := outOf P) final fun o ho => hP.out o (h6 o (mem_append_right _ ho)) (h7 o ho)
  obtain ⟨forced, h10⟩ := neededLoads_total ask hP P.fin raw fun o ho => h6 o (mem_append_left _ ho)
  obtain ⟨order, h11⟩ := renameOps_total ask hP raw [] fun o ho => h6 o (mem_append_left _ ho)
  have hfne : (forced.dedup).insertionSort (· ≤ ·) ≠ [] → order ≠ [] := by
    intro hne
    obtain ⟨v, hvm⟩ := exists_mem_of_ne_nil _ hne
    rw [(perm_insertionSort _ _).mem_iff, mem_dedup] at hvm
    obtain ⟨o, ho', -⟩ := neededLoads_out h10 v hvm
    obtain ⟨w, hw1, hw2⟩ := h8 (ne_nil_of_mem ho')
    have hw3 : w ∈ order.filter isWrite := by
      rw [renameOps_writes ho ask raw [] (by simpa using h5.nodup_iff.2 ((allOps_nodup _ _).filter _)) h11]
      simp [hw1, hw2]
    exact ne_nil_of_mem (mem_filter.1 hw3).1
  obtain ⟨res, h12, h13, -⟩ := addLoads_total hk (P := P) (deps := mem ++ sto) ((forced.dedup).insertionSort (· ≤ ·)).length
    (l := (forced.dedup).insertionSort (· ≤ ·)) (order := order) ((perm_insertionSort _ _).nodup_iff.2 (nodup_dedup _)) (Nat.le_refl _)
    (by
      intro o hmem
      rw [(perm_insertionSort _ _).mem_iff, mem_dedup] at hmem
      obtain ⟨x, -, -, hx⟩ := neededLoads_out h10 o hmem
      exact hv x o hx) hfne
  refine ⟨res, vals, ?_⟩
  unfold target
  dsimp only
  rw [show opsId P.tab ["TSTORE"] ++ opsId P.tab ["SSTORE"] ++ opsId P.tab memWriteOps = writesOf P.tab from rfl, h3]
  dsimp only
  rw [hcheck, h9, h10, h11]
  simp only [Bool.not_true, Bool.false_eq_true, if_false]
  rw [h12]
  dsimp only
  rw [if_pos]
  rw [all_eq_true]
  intro o ho
  simpa using h13 o ho

end Grey.Greedy
