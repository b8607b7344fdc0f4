import Verif.Greedy.Registers

/-!
# Every write of the plan is performed, those without a result exactly once and in the order of the plan

The main loop of the greedy scheduler (`compute`, greedy_previous_param.py:1210-1383) takes the writes of the block from a list. Arguments
are computed recursively, which may execute the instruction of a value several times, but never a write without a result.
-/

namespace Grey.Greedy
open SymExec List

/-- The instruction has no result. -/
def noResult : Item → Option String
  | .op u => if u.outpt = [] then some u.id else none
  | _ => none

/-- The instructions without a result, in order. -/
def effects (l : List Item) : List String := l.filterMap noResult

/-- A write without a result. -/
def plainWrite (P : Prog) (o : String) : Bool := isWrite o && (opInstr P o).any fun u => u.outpt.isEmpty

/-- No value on the stack and no value that is needed is named like a write. -/
def Sane (s : St) : Prop := (∀ v ∈ s.stack, isWrite v = false) ∧ ∀ p ∈ s.needed, isWrite p.1 = false

/-- From `s` to `t` the writes of `m` are performed: those without a result exactly once and in this order. -/
def Adds (P : Prog) (m : List String) (s t : St) : Prop :=
  Sane s → Sane t ∧ ∃ l, t.ids = s.ids ++ l ∧ effects l = m.filter (plainWrite P) ∧
    ∀ o ∈ m, isWrite o = true → ∃ u, opInstr P o = some u ∧ Item.op u ∈ l

theorem Adds.trans {P : Prog} {m m' : List String} {a b c : St} (h1 : Adds P m a b) (h2 : Adds P m' b c) : Adds P (m ++ m') a c := by
  intro ha
  obtain ⟨hb, l, e1, e2, e3⟩ := h1 ha
  obtain ⟨hc, l', f1, f2, f3⟩ := h2 hb
  refine ⟨hc, l ++ l', by rw [f1, e1, append_assoc], by unfold effects at *; rw [filterMap_append, e2, f2, filter_append], ?_⟩
  intro o ho hw
  rcases mem_append.1 ho with ho | ho
  · obtain ⟨u, hu, hl⟩ := e3 o ho hw
    exact ⟨u, hu, mem_append_left _ hl⟩
  · obtain ⟨u, hu, hl⟩ := f3 o ho hw
    exact ⟨u, hu, mem_append_right _ hl⟩

/-- Nothing but stack operations. -/
theorem Adds.quiet {P : Prog} {s t : St} {l : List Item} (h1 : t.ids = s.ids ++ l) (h2 : ∀ i ∈ l, noResult i = none) (h3 : Sane s → Sane t) :
    Adds P [] s t := fun hs =>
  ⟨h3 hs, l, h1, by unfold effects; rw [filterMap_eq_nil_iff.2 h2]; rfl, by simp⟩

theorem Adds.same {P : Prog} {s t : St} (h1 : t.ids = s.ids) (h2 : t.stack = s.stack) (h3 : t.needed = s.needed) : Adds P [] s t :=
  .quiet (l := []) (by simp [h1]) (by simp) (by unfold Sane; rw [h2, h3]; exact id)

theorem filter_values (P : Prog) {m : List String} (h : ∀ o ∈ m, isWrite o = false) : m.filter (plainWrite P) = [] := by
  rw [filter_eq_nil_iff]
  intro o ho
  simp [plainWrite, h o ho]

/-- Values are no writes. -/
theorem Adds.values {P : Prog} {m m' : List String} {s t : St} (h : Adds P m s t) (hm : ∀ o ∈ m, isWrite o = false)
    (hm' : ∀ o ∈ m', isWrite o = false) : Adds P m' s t := by
  intro hs
  obtain ⟨h1, l, e1, e2, e3⟩ := h hs
  refine ⟨h1, l, e1, by rw [e2, filter_values P hm, filter_values P hm'], ?_⟩
  intro o ho hw
  rw [hm' o ho] at hw
  simp at hw

theorem Adds.then {P : Prog} {m : List String} {a b c : St} (h1 : Adds P m a b) (h2 : Adds P [] b c) : Adds P m a c := by
  have := h1.trans h2
  rwa [append_nil] at this

theorem Adds.after {P : Prog} {m : List String} {a b c : St} (h1 : Adds P [] a b) (h2 : Adds P m b c) : Adds P m a c := h1.trans h2

/-! ### Dictionaries -/

theorem mem_drop_keys {d : List (String × Int)} {k : String} {p : String × Int} (h : p ∈ drop d k) : p ∈ d := (mem_filter.1 h).1

theorem keys_put {d : List (String × Int)} {k : String} {v : Int} (hk : isWrite k = false) (hd : ∀ p ∈ d, isWrite p.1 = false) :
    ∀ p ∈ put d k v, isWrite p.1 = false := by
  intro p hp
  unfold put at hp
  split at hp
  · obtain ⟨q, hq, rfl⟩ := mem_map.1 hp
    split
    · exact hk
    · exact hd q hq
  · rcases mem_append.1 hp with hp | hp
    · exact hd p hp
    · rw [mem_singleton.1 hp]; exact hk

theorem look_mem {d : List (String × Int)} {k : String} {v : Int} (h : look d k = some v) : (k, v) ∈ d := by
  unfold look at h
  induction d with
  | nil => simp at h
  | cons p d ih =>
    rw [lookup_cons] at h
    split at h
    · rename_i hb
      simp only [beq_iff_eq] at hb
      simp only [Option.some.injEq] at h
      rw [hb, ← h]; simp
    · exact mem_cons_of_mem _ (ih h)

theorem look_key {s : St} (hs : Sane s) {o : String} {n : Int} (h : look s.needed o = some n) : isWrite o = false := by
  have := hs.2 (o, n) (look_mem h)
  dsimp only at this
  exact this

/-! ### Cleaning -/

theorem cleanLoop_adds (P : Prog) (n i : Nat) (s : St) : Adds P [] s (cleanLoop P n i s) := by
  induction n generalizing i s with
  | zero => exact .same rfl rfl rfl
  | succ n ih =>
    unfold cleanLoop
    split
    · dsimp only
      split
      · refine Adds.after (b := { s with
          stack := (Permute.swapTop s.stack (cleanScan P s s.stack.length i)).tail
          needed := drop s.needed (s.stack.getD (cleanScan P s s.stack.length i) "")
          ids := s.ids ++ [.swap (cleanScan P s s.stack.length i), .pop] }) (.quiet rfl (by simp [noResult]) ?_) (ih _ _)
        intro hs
        exact ⟨fun v hv => hs.1 v (mem_swapTop (mem_of_mem_tail hv)), fun p hp => hs.2 p (mem_drop_keys hp)⟩
      · exact .same rfl rfl rfl
    · exact .same rfl rfl rfl

theorem clean_adds (P : Prog) (h : Heur) (o : String) (s : St) : Adds P [] s (cleanStack P h o s) := by
  unfold cleanStack
  split
  · exact .same rfl rfl rfl
  · exact cleanLoop_adds P _ _ s

theorem settle_adds (P : Prog) (o : String) (s : St) : Adds P [] s (settle o s) := by
  refine .same (settle_eq o s).2.1 (settle_eq o s).1 ?_
  unfold settle
  split <;> rfl

/-! ### Values -/

/-- What is proved of `compute_one_with_stack`. -/
def Performs (P : Prog) (rec : String → St → Option St) : Prop := ∀ o s t, rec o s = some t → Adds P [o] s t

/-- Pushing a value. -/
theorem push_adds {P : Prog} {s t : St} {o : String} {i : Item} (hi : noResult i = none) (h1 : t.ids = s.ids ++ [i])
    (h2 : t.stack = o :: s.stack) (h3 : isWrite o = false) (h4 : (∀ p ∈ s.needed, isWrite p.1 = false) → ∀ p ∈ t.needed, isWrite p.1 = false) :
    Adds P [o] s t := by
  refine Adds.values (m := []) (.quiet h1 (by simpa using hi) fun hs => ⟨?_, h4 hs.2⟩) (by simp) (by simpa using h3)
  rw [h2]
  intro v hv
  rcases mem_cons.1 hv with rfl | hv
  · exact h3
  · exact hs.1 v hv

theorem op_result {u : UInstr} {o : String} (h : u.outpt = [o]) : noResult (.op u) = none := by
  simp [noResult, h]

theorem pushSmall_adds {P : Prog} {h : Heur} {u : UInstr} {o : String} {s t : St} (ho : u.outpt = [o]) (hw : isWrite o = false)
    (ht : pushSmall h u o s = some t) : Adds P [o] s t := by
  unfold pushSmall at ht
  dsimp only at ht
  split at ht
  · simp only [Option.some.injEq] at ht
    subst ht
    exact push_adds (i := .op u) (op_result ho) rfl rfl hw id
  · have hs := settle_eq o { s with stack := o :: s.stack, dup := s.dup + 1, ids := s.ids ++ [Item.op u] }
    have hn : (settle o { s with stack := o :: s.stack, dup := s.dup + 1, ids := s.ids ++ [Item.op u] }).needed = s.needed := by
      unfold settle; split <;> rfl
    generalize settle o { s with stack := o :: s.stack, dup := s.dup + 1, ids := s.ids ++ [Item.op u] } = w at hs ht hn
    split at ht
    · simp only [Option.some.injEq] at ht
      subst ht
      exact push_adds (i := .op u) (op_result ho) hs.2.1 hs.1 hw (by rw [hn]; exact id)
    · split at ht
      · simp only [Option.some.injEq] at ht
        subst ht
        exact push_adds (i := .op u) (op_result ho) hs.2.1 hs.1 hw (fun hd => by dsimp only; rw [hn]; exact keys_put hw hd)
      · simp at ht

theorem dupTop_adds {P : Prog} {h : Heur} {o : String} {s t : St} (ho : isWrite o = false) (ht : dupTop h o s = some t) : Adds P [o] s t := by
  unfold dupTop at ht
  dsimp only at ht
  split at ht
  · split at ht
    · simp only [Option.some.injEq] at ht
      subst ht
      exact push_adds (i := .dup (s.stack.idxOf o + 1)) rfl rfl rfl ho fun hd => keys_put ho hd
    · simp at ht
  · split at ht
    · simp only [Option.some.injEq] at ht
      subst ht
      refine push_adds (i := .dup (s.stack.idxOf o + 1)) rfl rfl rfl ho fun hd p hp => ?_
      obtain ⟨q, hq, rfl⟩ := mem_map.1 hp
      split
      · exact hd q hq
      · exact hd q hq
    · simp at ht

theorem rotate_mem (st : List String) (n : Nat) : (∀ v ∈ (rotate st n).2, v ∈ st) ∧ ∀ i ∈ (rotate st n).1, noResult i = none := by
  induction n with
  | zero => exact ⟨fun v hv => hv, by simp [rotate]⟩
  | succ n ih =>
    unfold rotate
    dsimp only
    split
    · refine ⟨fun v hv => ih.1 v (mem_swapTop hv), fun i hi => ?_⟩
      rcases mem_append.1 hi with hi | hi
      · exact ih.2 i hi
      · rw [mem_singleton.1 hi]; rfl
    · exact ih

theorem fromStack_adds {P : Prog} {h : Heur} {maxSwap : Nat} {o : String} {s t : St} (ho : isWrite o = false)
    (ht : fromStack P h maxSwap o s = some t) : Adds P [o] s t := by
  have hv : ∀ {s t : St}, Adds P [] s t → Adds P [o] s t := fun h => h.values (by simp) (by simpa using ho)
  unfold fromStack at ht
  split at ht
  · split at ht
    · simp at ht
    · rename_i pos hpos
      split at ht
      · split at ht
        · split at ht
          · simp only [Option.some.injEq] at ht
            subst ht
            exact hv (.same rfl rfl rfl)
          · simp only [Option.some.injEq] at ht
            subst ht
            exact hv (.quiet rfl (by simp [noResult]) fun hs =>
              ⟨fun v hv => hs.1 v (mem_swapTop hv), fun p hp => hs.2 p (mem_drop_keys hp)⟩)
        · split at ht
          · exact dupTop_adds ho ht
          · split at ht
            · simp at ht
            · split at ht
              · split at ht
                · simp at ht
                · simp only [Option.some.injEq] at ht
                  subst ht
                  exact hv (.quiet rfl (rotate_mem s.stack pos).2 fun hs =>
                    ⟨fun v hv => hs.1 v ((rotate_mem s.stack pos).1 v hv), fun p hp => hs.2 p (mem_drop_keys hp)⟩)
              · exact dupTop_adds ho ht
      · exact dupTop_adds ho ht
  · exact dupTop_adds ho ht

theorem computeAll_adds {P : Prog} {rec : String → St → Option St} (hrec : Performs P rec) (os : List String) {s t : St}
    (ht : computeAll rec os s = some t) : Adds P os s t := by
  induction os generalizing s with
  | nil =>
    simp only [computeAll, Option.some.injEq] at ht
    subst ht
    exact .same rfl rfl rfl
  | cons o os ih =>
    obtain ⟨w, hw, ht⟩ := Option.bind_eq_some_iff.1 ht
    exact (hrec o s w hw).trans (ih ht)

/-- An instruction: the write `o`, or the one that computes the value `o`. -/
theorem op_adds {P : Prog} {N : String → Prop} (hP : Ok P N) {h : Heur} {o : String} {u : UInstr} (hu : instrOf P h o = some u) {s t : St}
    {n : Nat} (h1 : t.ids = s.ids ++ [.op u]) (h2 : t.stack = u.outpt ++ s.stack.drop n)
    (h3 : ∀ p ∈ t.needed, p ∈ s.needed) : Adds P [o] s t := by
  obtain ⟨hmem, -, hout⟩ := instrOf_spec hP hu
  intro hs
  refine ⟨⟨?_, fun p hp => hs.2 p (h3 p hp)⟩, [.op u], h1, ?_, ?_⟩
  · rw [h2]
    intro v hv
    rcases mem_append.1 hv with hv | hv
    · exact (hP.out u hmem v hv).1
    · exact hs.1 v (mem_of_mem_drop hv)
  · cases hw : isWrite o with
    | false => simp [effects, op_result (hout hw), plainWrite, hw]
    | true =>
      unfold instrOf at hu
      rw [if_pos hw] at hu
      have hid : u.id = o := by
        have := find?_some hu
        simpa using this
      simp only [effects, filterMap_cons, filterMap_nil, filter_cons, filter_nil, noResult, plainWrite, hw, hu, Option.any_some, Bool.true_and]
      by_cases he : u.outpt = []
      · simp [he, hid]
      · simp [he]
  · intro x hx hw
    rw [mem_singleton.1 hx] at hw ⊢
    unfold instrOf at hu
    rw [if_pos hw] at hu
    exact ⟨u, hu, by simp⟩

theorem build_adds {P : Prog} {N : String → Prop} (hP : Ok P N) {h : Heur} {rec : String → St → Option St} (hrec : Performs P rec)
    {o : String} {s t : St} (ht : build P h rec o s = some t) : Adds P [o] s t := by
  unfold build at ht
  split at ht
  · simp at ht
  split at ht
  · simp at ht
  rename_i u hu
  obtain ⟨hmem, -, -⟩ := instrOf_spec hP hu
  have hwr : ∀ v ∈ inputs s.flips u, isWrite v = false := fun v hv => (hP.inp u hmem v (mem_inputs hv)).1
  have hif : ∀ (c : Prop) [Decidable c] (d : List (String × Int)) (k : String), ∀ p ∈ (if c then drop d k else d), p ∈ d := by
    intro c _ d k p hp
    split at hp
    · exact mem_drop_keys hp
    · exact hp
  dsimp only at ht
  generalize hI : inputs s.flips u = inpts at *
  split at ht
  · simp only [Option.some.injEq] at ht
    subst ht
    exact op_adds hP hu (n := inpts.length) rfl rfl fun p hp => hif _ _ _ p (hif _ _ _ p hp)
  · split at ht
    · rename_i hc
      obtain ⟨w, hw, rfl⟩ := Option.map_eq_some_iff.1 ht
      have hy : isWrite (inpts.getD 1 "") = false := by
        refine hwr _ ?_
        rw [List.getD_eq_getElem?_getD, List.getElem?_eq_getElem (by omega)]
        exact getElem_mem _
      refine Adds.after (b := w) ?_ (op_adds hP hu (n := inpts.length) rfl rfl fun p hp => hp)
      refine Adds.after (b := { s with needed := _, dup := s.dup + 1 }) (.quiet (l := []) (by simp) (by simp) ?_)
        ((hrec _ _ w hw).values (by simpa using hy) (by simp))
      exact fun hs => ⟨hs.1, fun p hp => hs.2 p (hif _ _ _ p hp)⟩
    · generalize hA : (if mustReverse P h o inpts s = true then inpts.reverse else inpts) = args at ht
      have hAm : ∀ v ∈ args, isWrite v = false := by
        intro v hv
        rw [← hA] at hv
        split at hv
        · exact hwr v (by simpa using hv)
        · exact hwr v hv
      split at ht
      · simp at ht
      · rename_i w hw
        split at ht
        · split at ht
          · simp at ht
          · simp only [Option.some.injEq] at ht
            subst ht
            exact ((computeAll_adds hrec args hw).values hAm (by simp)).after
              (op_adds hP hu (n := args.length) rfl rfl fun p hp => hp)
        · simp at ht

theorem oneStep_adds {P : Prog} {N : String → Prop} (hP : Ok P N) (h : Heur) (maxSwap : Nat) {rec : String → St → Option St}
    (hrec : Performs P rec) : Performs P (oneStep P h maxSwap rec) := by
  intro o s t ht hs
  have hrest : oneStep.rest P h maxSwap rec o s = some t → Adds P [o] s t := by
    intro ht hsane
    unfold oneStep.rest at ht
    dsimp only at ht
    have hs : (if (look s.needed o).isSome ∧ o ∉ s.stack.take P.reach ∧ s.dup = 0 then
        { s with needed := (cleanStack P h o s).needed } else s) = { s with needed := (if (look s.needed o).isSome ∧ o ∉ s.stack.take P.reach ∧ s.dup = 0 then
        (cleanStack P h o s).needed else s.needed) } := by
      split <;> rfl
    rw [hs] at ht
    have hnd : ∀ p ∈ (if (look s.needed o).isSome ∧ o ∉ s.stack.take P.reach ∧ s.dup = 0 then (cleanStack P h o s).needed else s.needed),
        isWrite p.1 = false := by
      split
      · exact (clean_adds P h o s hsane).1.2
      · exact hsane.2
    generalize (if (look s.needed o).isSome ∧ o ∉ s.stack.take P.reach ∧ s.dup = 0 then
        (cleanStack P h o s).needed else s.needed) = nd at ht hnd
    have hsane' : Sane { s with needed := nd } := ⟨hsane.1, hnd⟩
    have key : Adds P [o] { s with needed := nd } t := by
      generalize ({ s with needed := nd } : St) = s' at ht hsane'
      split at ht
      · rename_i n hn
        have ho : isWrite o = false := look_key hsane' hn
        split at ht
        · split at ht
          · simp only [Option.some.injEq] at ht
            subst ht
            exact push_adds (i := .vget o) rfl rfl rfl ho fun hd => keys_put ho hd
          · simp at ht
        · exact fromStack_adds ho ht
      · split at ht
        · rename_i ho
          exact fromStack_adds (hsane'.1 o (mem_of_mem_take ho)) ht
        · exact build_adds hP hrec ht
    exact key hsane'
  unfold oneStep at ht
  split at ht
  · rename_i u hu
    split at ht
    · obtain ⟨h1, h2⟩ := varInstr_mem hu
      exact pushSmall_adds h2 (hP.out u h1 o (by rw [h2]; simp)).1 ht hs
    · exact hrest ht hs
  · exact hrest ht hs

theorem computeOne_adds {P : Prog} {N : String → Prop} (hP : Ok P N) (h : Heur) (maxSwap n : Nat) : Performs P (computeOne P h maxSwap n) := by
  induction n with
  | zero => intro o s t ht; simp [computeOne] at ht
  | succ n ih => exact oneStep_adds hP h maxSwap ih

/-! ### The loops -/

theorem foldlM_inv {α β : Type} {f : β → α → Option β} {I : β → Prop} (l : List α) (hf : ∀ x ∈ l, ∀ a b, I a → f a x = some b → I b) {a b : β}
    (ha : I a) (h : l.foldlM f a = some b) : I b := by
  induction l generalizing a with
  | nil =>
    simp only [foldlM_nil, Option.pure_def, Option.some.injEq] at h
    subst h; exact ha
  | cons x l ih =>
    rw [foldlM_cons] at h
    obtain ⟨c, hc, h⟩ := Option.bind_eq_some_iff.1 h
    exact ih (fun y hy => hf y (mem_cons_of_mem _ hy)) (hf x (by simp) a c ha hc) h

/-- No value that has to be computed before another one is named like a write. -/
def DepsOk (h : Heur) : Prop := ∀ o, ∀ d ∈ h.funcDeps o, isWrite d = false

theorem preList_keys {P : Prog} {h : Heur} (hd : DepsOk h) (s : St) (n : Nat) (o : String) {a b : List (String × Int) × List String}
    (ha : ∀ p ∈ a.1, isWrite p.1 = false) (ht : preList P h s n o a = some b) : ∀ p ∈ b.1, isWrite p.1 = false := by
  induction n generalizing o a b with
  | zero => simp [preList] at ht
  | succ n ih =>
    unfold preList at ht
    split at ht
    · simp only [Option.some.injEq] at ht; subst ht; exact ha
    split at ht
    · simp at ht
    split at ht
    · simp only [Option.some.injEq] at ht; subst ht; exact ha
    split at ht
    · simp at ht
    rename_i u hu
    obtain ⟨c, hc, rfl⟩ := Option.map_eq_some_iff.1 ht
    obtain ⟨d, hd1, hd2⟩ := Option.bind_eq_some_iff.1 hc
    have h1 : ∀ p ∈ d.1, isWrite p.1 = false :=
      foldlM_inv (I := fun a => ∀ p ∈ a.1, isWrite p.1 = false) _ (fun x _ a b ha hb => ih x ha hb) ha hd1
    have h2 : ∀ p ∈ c.1, isWrite p.1 = false := by
      refine foldlM_inv (I := fun a => ∀ p ∈ a.1, isWrite p.1 = false) _ (fun x hx a b ha hb => ?_) h1 hd2
      split at hb
      · simp only [Option.some.injEq] at hb; subst hb; exact ha
      · refine ih x ?_ hb
        split
        · exact keys_put (hd o x hx) ha
        · exact ha
    split
    · exact h2
    · exact h2

theorem preOne_adds {P : Prog} {N : String → Prop} (hP : Ok P N) {h : Heur} {rec : String → St → Option St} (hrec : Performs P rec)
    {o : String} {s t : St} (ht : preOne P h rec o s = some t) : Adds P [] s t := by
  unfold preOne at ht
  dsimp only at ht
  refine (clean_adds P h o s).after ?_
  generalize cleanStack P h o s = s at ht
  split at ht
  · simp at ht
  rename_i u hu
  obtain ⟨hmem, hout⟩ := varInstr_mem hu
  have hwr : ∀ v ∈ inputs s.flips u, isWrite v = false := fun v hv => (hP.inp u hmem v (mem_inputs hv)).1
  generalize hI : inputs s.flips u = inpts at *
  generalize hA : (if mustReverse P h o inpts s = true then inpts.reverse else inpts) = args at ht
  have hAm : ∀ v ∈ args, isWrite v = false := by
    intro v hv
    rw [← hA] at hv
    split at hv
    · exact hwr v (by simpa using hv)
    · exact hwr v hv
  split at ht
  · simp at ht
  rename_i w hw
  split at ht
  · simp only [Option.some.injEq] at ht
    subst ht
    refine Adds.after (b := { s with dup := 0 }) (.same rfl rfl rfl)
      (((computeAll_adds hrec args hw).values hAm (by simp)).after (Adds.then ?_ (settle_adds P o _)))
    refine .quiet (l := [.op u]) rfl (by simpa using op_result hout) fun hs => ⟨?_, hs.2⟩
    intro v hv
    rcases mem_append.1 hv with hv | hv
    · exact (hP.out u hmem v hv).1
    · exact hs.1 v (mem_of_mem_drop hv)
  · simp at ht

theorem preAll_adds {P : Prog} {N : String → Prop} (hP : Ok P N) {h : Heur} {rec : String → St → Option St} (hrec : Performs P rec)
    (os : List String) {s t : St} (ht : preAll P h rec os s = some t) : Adds P [] s t := by
  induction os generalizing s with
  | nil =>
    simp only [preAll, Option.some.injEq] at ht
    subst ht
    exact .same rfl rfl rfl
  | cons o os ih =>
    obtain ⟨w, hw, ht⟩ := Option.bind_eq_some_iff.1 ht
    exact (preOne_adds hP hrec hw).after (ih ht)

theorem finalOne_adds {P : Prog} {h : Heur} {rec : String → St → Option St} (hrec : Performs P rec) {o : String} {s t : St}
    (ht : finalOne P h rec o s = some t) : Adds P [o] s t := by
  unfold finalOne at ht
  obtain ⟨w, hw, rfl⟩ := Option.map_eq_some_iff.1 ht
  refine (clean_adds P h o s).after ?_
  generalize cleanStack P h o s = s at hw
  exact Adds.after (b := { s with dup := 0 }) (.same rfl rfl rfl) ((hrec o _ w hw).then (settle_adds P o w))

theorem pre_adds {P : Prog} {N : String → Prop} (hP : Ok P N) {h : Heur} (hd : DepsOk h) {maxSwap n : Nat} {o : String} {s w : St}
    {nd : List (String × Int)} {lord : List String} (hl : preList P h s n o (s.needed, []) = some (nd, lord))
    (hw : preAll P h (computeOne P h maxSwap n) lord { s with needed := nd } = some w) : Adds P [] s w :=
  Adds.after (b := { s with needed := nd })
    (.quiet (l := []) (by simp) (by simp) fun hs => ⟨hs.1, preList_keys hd s n o (b := (nd, lord)) hs.2 hl⟩)
    (preAll_adds hP (computeOne_adds hP h maxSwap n) lord hw)

theorem computeMem_adds {P : Prog} {N : String → Prop} (hP : Ok P N) {h : Heur} (hd : DepsOk h) {maxSwap n : Nat} {o : String} {s t : St}
    (ht : computeMem P h maxSwap n o s = some t) : Adds P [o] s t := by
  unfold computeMem at ht
  split at ht
  · simp at ht
  rename_i nd lord hl
  split at ht
  · simp at ht
  rename_i w hw
  have h1 := pre_adds hP hd hl hw
  split at ht
  · rename_i hwr
    split at ht
    · simp only [Option.some.injEq] at ht
      subst ht
      exact h1.values (by simp) (by simpa using hwr)
    · simp at ht
  · exact h1.after (finalOne_adds (computeOne_adds hP h maxSwap n) ht)

theorem computeReg_adds {P : Prog} {N : String → Prop} (hP : Ok P N) {h : Heur} (hd : DepsOk h) {maxSwap n : Nat} {o : String}
    (ho : isWrite o = false) {s t : St} (ht : computeReg P h maxSwap n o s = some t) : Adds P [] s t := by
  unfold computeReg at ht
  split at ht
  · simp at ht
  rename_i nd lord hl
  split at ht
  · simp at ht
  rename_i w hw
  have h1 := pre_adds hP hd hl hw
  split at ht
  · simp only [Option.some.injEq] at ht
    subst ht
    exact h1
  · exact (h1.after (finalOne_adds (computeOne_adds hP h maxSwap n) ht)).values (by simpa using ho) (by simp)

theorem popLoop_adds (P : Prog) (n : Nat) (s : St) : Adds P [] s (popLoop P n s) := by
  induction n generalizing s with
  | zero => exact .same rfl rfl rfl
  | succ n ih =>
    unfold popLoop
    split
    · exact .same rfl rfl rfl
    · rename_i v st hs
      split
      · refine Adds.after (b := { s with stack := st, ids := s.ids ++ [.pop] }) (.quiet rfl (by simp [noResult]) fun h => ?_) (ih _)
        exact ⟨fun x hx => h.1 x (by rw [hs]; exact mem_cons_of_mem _ hx), h.2⟩
      · exact .same rfl rfl rfl

theorem computeMems_adds {P : Prog} {N : String → Prop} (hP : Ok P N) {h : Heur} (hd : DepsOk h) {maxSwap n : Nat} (os : List String)
    {s t : St} (ht : computeMems P h maxSwap n os s = some t) : Adds P os s t := by
  induction os generalizing s with
  | nil =>
    simp only [computeMems, Option.some.injEq] at ht
    subst ht
    exact .same rfl rfl rfl
  | cons o os ih =>
    obtain ⟨w, hw, ht⟩ := Option.bind_eq_some_iff.1 ht
    exact Adds.after (b := { s with dup := 0 }) (.same rfl rfl rfl) ((computeMem_adds hP hd hw).trans (ih ht))

theorem computeMemsPop_adds {P : Prog} {N : String → Prop} (hP : Ok P N) {h : Heur} (hd : DepsOk h) {maxSwap n : Nat} (os : List String)
    {s t : St} (ht : computeMemsPop P h maxSwap n os s = some t) : Adds P os s t := by
  induction os generalizing s with
  | nil =>
    simp only [computeMemsPop, Option.some.injEq] at ht
    subst ht
    exact .same rfl rfl rfl
  | cons o os ih =>
    obtain ⟨w, hw, ht⟩ := Option.bind_eq_some_iff.1 ht
    exact Adds.after (b := { s with dup := 0 }) (.same rfl rfl rfl)
      ((computeMem_adds hP hd hw).trans ((popLoop_adds P _ w).after (ih ht)))

theorem placeCase_adds {P : Prog} {k : Nat} {s t : St} (ht : placeCase P k s = some t) : Adds P [] s t := by
  unfold placeCase at ht
  dsimp only at ht
  split at ht
  · split at ht
    · simp at ht
    · simp only [Option.some.injEq] at ht
      subst ht
      exact .same rfl rfl rfl
  · split at ht
    · simp only [Option.some.injEq] at ht
      subst ht
      exact .quiet rfl (by simp [noResult]) fun h => ⟨fun v hv => h.1 v (mem_swapTop hv), h.2⟩
    · simp at ht

theorem placeNew_adds {P : Prog} {o : String} {pos : Nat} {s t : St} (ht : placeNew P o pos s = some t) : Adds P [] s t := by
  unfold placeNew at ht
  dsimp only at ht
  obtain ⟨w, hw, rfl⟩ := Option.map_eq_some_iff.1 ht
  have h1 : Adds P [] s w := by
    split at hw
    · obtain ⟨v, hv, rfl⟩ := Option.map_eq_some_iff.1 hw
      exact .quiet (l := []) (by simp) (by simp) fun h => ⟨h.1, keys_put (h.1 v (mem_of_getElem? hv)) h.2⟩
    · rw [← Option.some.inj hw]; exact .same rfl rfl rfl
  refine h1.after ?_
  split
  · exact .quiet rfl (by simp [noResult]) fun h => ⟨fun v hv => h.1 v (mem_swapTop hv), h.2⟩
  · exact .same rfl rfl rfl

/-- The loop performed some writes, and the others are left. -/
def Took (P : Prog) (c d : Loop) : Prop := ∃ m, Adds P m c.st d.st ∧ (m ++ d.instr).filter isWrite = c.instr.filter isWrite

theorem Took.trans {P : Prog} {a b c : Loop} (h1 : Took P a b) (h2 : Took P b c) : Took P a c := by
  obtain ⟨m, e1, e2⟩ := h1
  obtain ⟨m', f1, f2⟩ := h2
  refine ⟨m ++ m', e1.trans f1, ?_⟩
  rw [append_assoc, filter_append, f2, ← filter_append, e2]

theorem makeCase_took {P : Prog} {N : String → Prop} (hP : Ok P N) {h : Heur} (hd : DepsOk h) (hfin : ∀ v ∈ P.fin, isWrite v = false)
    {maxSwap n pos : Nat} {c d : Loop} (ht : makeCase P h maxSwap n pos c = some d) : Took P c d := by
  unfold makeCase at ht
  split at ht
  · simp at ht
  rename_i o ho
  have hwo : isWrite o = false := hfin o (mem_of_getElem? ho)
  split at ht
  · simp at ht
  rename_i k hk
  dsimp only at ht
  generalize hq : (if (c.rest.any fun v => h.computed v o) = true then (c.instr, [], [], false)
        else
          match k with
          | none => ([], c.instr, c.rest, false)
          | some k =>
            if c.instr[c.instr.length - 1 - k]? = some o then
              (c.instr.take (c.instr.length - 1 - k), c.instr.drop (c.instr.length - 1 - k + 1),
                if (c.instr.drop (c.instr.length - 1 - k + 1)).isEmpty = true then [] else c.rest,
                (c.instr.drop (c.instr.length - 1 - k)).any isWrite)
            else
              (c.instr.take (c.instr.length - 1 - k + 1), c.instr.drop (c.instr.length - 1 - k + 1),
                if (c.instr.drop (c.instr.length - 1 - k + 1)).isEmpty = true then [] else c.rest, false)) = q at ht
  have hq1 : (q.1 ++ q.2.1).filter isWrite = c.instr.filter isWrite := by
    rw [← hq]
    split
    · simp
    · split
      · simp
      · rename_i k
        split
        · rename_i hi
          dsimp only
          obtain ⟨hl, he⟩ := List.getElem?_eq_some_iff.1 hi
          conv => rhs; rw [← take_append_drop (c.instr.length - 1 - k) c.instr, drop_eq_getElem_cons hl, he]
          rw [filter_append, filter_append, filter_cons, hwo]
          simp
        · dsimp only
          rw [take_append_drop]
  obtain ⟨pre, post, rest, before⟩ := q
  dsimp only at ht hq1
  split at ht
  · simp at ht
  rename_i s hs
  split at ht
  · simp at ht
  rename_i w hw
  obtain ⟨t, ht', rfl⟩ := Option.map_eq_some_iff.1 ht
  refine ⟨pre, ?_, hq1⟩
  refine (computeMems_adds hP hd pre hs).then (Adds.after (b := { s with dup := 0 }) (.same rfl rfl rfl)
    (Adds.then (b := w) ?_ (placeNew_adds ht')))
  split at hw
  · exact (computeMem_adds hP hd hw).values (by simpa using hwo) (by simp)
  · exact computeReg_adds hP hd hwo hw

theorem mainRound_took {P : Prog} {N : String → Prop} (hP : Ok P N) {h : Heur} (hd : DepsOk h) (hfin : ∀ v ∈ P.fin, isWrite v = false)
    {maxSwap n : Nat} {c d : Loop} {b : Bool} (ht : mainRound P h maxSwap n c = some (b, d)) :
    Took P c d ∧ (b = true → d.instr = []) := by
  unfold mainRound at ht
  dsimp only at ht
  obtain ⟨⟨b', e⟩, he, heq⟩ := Option.map_eq_some_iff.1 ht
  simp only [Prod.mk.injEq] at heq
  obtain ⟨rfl, rfl⟩ := heq
  suffices hs : Took P c e ∧ (b' = true → e.instr = []) by
    obtain ⟨⟨m, e1, e2⟩, e3⟩ := hs
    exact ⟨⟨m, e1.then (.same rfl rfl rfl), e2⟩, e3⟩
  have h0 := popLoop_adds P c.st.stack.length c.st
  generalize popLoop P c.st.stack.length c.st = s at he h0
  split at he
  · split at he
    · simp at he
    · rename_i o os hi
      split at he
      · simp at he
      · rename_i t hm
        have hg : Adds P [o] c.st t := h0.after (Adds.after (b := { s with dup := 0 }) (.same rfl rfl rfl) (computeMem_adds hP hd hm))
        split at he
        · split at he
          · simp at he
          · split at he
            · simp only [Option.some.injEq, Prod.mk.injEq] at he
              obtain ⟨rfl, rfl⟩ := he
              exact ⟨⟨[o], hg, by rw [hi]; rfl⟩, by simp⟩
            · simp at he
        · simp only [Option.some.injEq, Prod.mk.injEq] at he
          obtain ⟨rfl, rfl⟩ := he
          exact ⟨⟨[o], hg, by rw [hi]; rfl⟩, by simp⟩
  · split at he
    · simp at he
    · obtain ⟨t, ht2, heq⟩ := Option.map_eq_some_iff.1 he
      simp only [Prod.mk.injEq] at heq
      obtain ⟨rfl, rfl⟩ := heq
      exact ⟨⟨[], h0.after (placeCase_adds ht2), rfl⟩, by simp⟩
    · obtain ⟨t, ht2, heq⟩ := Option.map_eq_some_iff.1 he
      simp only [Prod.mk.injEq] at heq
      obtain ⟨rfl, rfl⟩ := heq
      refine ⟨Took.trans (b := ⟨s, c.instr, c.rest⟩) ⟨[], h0, rfl⟩ (makeCase_took hP hd hfin ht2), by simp⟩
    · split at he
      · obtain ⟨t, ht2, heq⟩ := Option.map_eq_some_iff.1 he
        simp only [Prod.mk.injEq] at heq
        obtain ⟨-, rfl⟩ := heq
        exact ⟨⟨c.instr, h0.after (computeMemsPop_adds hP hd _ ht2), by simp⟩, fun _ => rfl⟩
      · simp at he

theorem mainLoop_took {P : Prog} {N : String → Prop} (hP : Ok P N) {h : Heur} (hd : DepsOk h) (hfin : ∀ v ∈ P.fin, isWrite v = false)
    {maxSwap n : Nat} (f : Nat) {c d : Loop} (ht : mainLoop P h maxSwap n f c = some d) : Took P c d ∧ d.instr = [] := by
  induction f generalizing c with
  | zero => simp [mainLoop] at ht
  | succ f ih =>
    unfold mainLoop at ht
    split at ht
    · simp at ht
    · rename_i e he
      simp only [Option.some.injEq] at ht
      subst ht
      obtain ⟨h1, h2⟩ := mainRound_took hP hd hfin he
      exact ⟨h1, h2 rfl⟩
    · rename_i e he
      obtain ⟨h1, -⟩ := mainRound_took hP hd hfin he
      obtain ⟨h2, h3⟩ := ih ht
      exact ⟨h1.trans h2, h3⟩

theorem preLoop_adds {P : Prog} (n : Nat) {s t : St} (ht : preLoop P n s = some t) : Adds P [] s t := by
  induction n generalizing s with
  | zero => simp [preLoop] at ht
  | succ n ih =>
    unfold preLoop at ht
    split at ht
    · simp only [Option.some.injEq] at ht
      subst ht
      exact .same rfl rfl rfl
    · rename_i v st hs
      split at ht
      · refine Adds.after (b := { s with stack := st, needed := drop s.needed v, ids := s.ids ++ [.pop] })
          (.quiet rfl (by simp [noResult]) fun h => ?_) (ih ht)
        exact ⟨fun x hx => h.1 x (by rw [hs]; exact mem_cons_of_mem _ hx), fun p hp => h.2 p (mem_drop_keys hp)⟩
      · split at ht
        · simp only [Option.some.injEq] at ht
          subst ht
          exact .same rfl rfl rfl
        · rename_i p hp
          split at ht
          · simp at ht
          · split at ht
            · simp only [Option.some.injEq] at ht
              subst ht
              exact .same rfl rfl rfl
            · exact Adds.after (b := { s with stack := Permute.swapTop s.stack p.toNat, ids := s.ids ++ [.swap p.toNat] })
                (.quiet rfl (by simp [noResult]) fun h => ⟨fun v hv => h.1 v (mem_swapTop hv), h.2⟩) (ih ht)

theorem markSolved_keys (l f : List String) (j : Int) {a b : List (String × Int) × List Int} (ha : ∀ p ∈ a.1, isWrite p.1 = false)
    (h : markSolved l f j a = some b) : ∀ p ∈ b.1, isWrite p.1 = false := by
  induction l generalizing f j a with
  | nil =>
    cases f <;> (simp only [markSolved, Option.some.injEq] at h; subst h; exact ha)
  | cons v l ih =>
    cases f with
    | nil => simp only [markSolved, Option.some.injEq] at h; subst h; exact ha
    | cons w f =>
      unfold markSolved at h
      split at h
      · split at h
        · exact ih f _ (a := (a.1, a.2 ++ [j])) ha h
        · rename_i n hn
          split at h
          · refine ih f _ (a := (_, a.2 ++ [j])) ?_ h
            split
            · exact fun p hp => ha p (mem_drop_keys hp)
            · refine keys_put ?_ ha
              have := ha (v, n) (look_mem hn)
              dsimp only at this
              exact this
          · simp at h
      · exact ih f _ ha h

theorem precompute_adds {P : Prog} {n : Nat} {s t : St} (ht : precompute P n s = some t) : Adds P [] s t := by
  unfold precompute at ht
  split at ht
  · simp at ht
  · rename_i w hw
    obtain ⟨a, ha, rfl⟩ := Option.map_eq_some_iff.1 ht
    exact (preLoop_adds n hw).after (.quiet (l := []) (by simp) (by simp) fun h => ⟨h.1, markSolved_keys _ _ _ (b := a) h.2 ha⟩)

/-- What is assumed of a plan: no value is named like a write. -/
def PlanOk (p : Plan) : Prop := ∀ q ∈ p.needed, isWrite q.1 = false

theorem filter_writes (P : Prog) (l : List String) : (l.filter isWrite).filter (plainWrite P) = l.filter (plainWrite P) := by
  rw [filter_filter]
  congr 1
  funext o
  unfold plainWrite
  cases isWrite o <;> simp

/-- One try. -/
theorem try1_writes {P : Prog} {N : String → Prop} (hP : Ok P N) {h : Heur} (hd : DepsOk h) (hfin : ∀ v ∈ P.fin, isWrite v = false)
    (hsrc : ∀ v ∈ P.src, isWrite v = false) {maxSwap n : Nat} {p : Plan} (hp : PlanOk p) {flips flips' : List String} {l : List Item}
    (ht : try1 P h maxSwap n p flips = some (l, flips')) :
    effects l = p.instr.filter (plainWrite P) ∧ ∀ o ∈ p.instr, isWrite o = true → ∃ u, opInstr P o = some u ∧ Item.op u ∈ l := by
  unfold try1 at ht
  split at ht
  · simp at ht
  rename_i s hs
  unfold compute at ht
  split at ht
  · simp at ht
  rename_i d hdl
  obtain ⟨⟨m, e1, e2⟩, e3⟩ := mainLoop_took hP hd hfin n hdl
  rw [e3, append_nil] at e2
  obtain ⟨-, l0, f1, f2, f3⟩ := ((precompute_adds hs).after e1) ⟨hsrc, hp⟩
  dsimp only at f1 e2
  rw [nil_append] at f1
  split at ht
  · rename_i lp hl
    simp only [Option.some.injEq, Prod.mk.injEq] at ht
    obtain ⟨rfl, -⟩ := ht
    have hlp : effects (lp.map ofIns) = [] := by
      unfold effects
      rw [filterMap_eq_nil_iff]
      intro i hi
      obtain ⟨j, -, rfl⟩ := mem_map.1 hi
      cases j <;> rfl
    refine ⟨?_, ?_⟩
    · unfold effects at hlp f2 ⊢
      rw [filterMap_append, hlp, append_nil, f1, f2, ← filter_writes, e2, filter_writes]
    · intro o ho hw
      have : o ∈ m := by
        have : o ∈ m.filter isWrite := by rw [e2]; exact mem_filter.2 ⟨ho, hw⟩
        exact (mem_filter.1 this).1
      obtain ⟨u, hu, hl⟩ := f3 o this hw
      exact ⟨u, hu, mem_append_left _ (by rw [f1]; exact hl)⟩
  · simp at ht

/-! ### The text of a schedule -/

/-- The id is that of an instruction without a result. -/
def isEffect (tab : List UInstr) (i : String) : Bool := tab.any fun u => u.id == i && u.outpt.isEmpty

theorem isEffect_iff {tab : List UInstr} (hu : (tab.map (·.id)).Nodup) {u : UInstr} (hm : u ∈ tab) : isEffect tab u.id = u.outpt.isEmpty := by
  unfold isEffect
  cases he : u.outpt.isEmpty with
  | true => exact any_eq_true.2 ⟨u, hm, by simp [he]⟩
  | false =>
    rw [any_eq_false]
    intro x hx
    have : x.id = u.id → x = u := by
      intro h
      have h1 := find_unique hu hx
      have h2 := find_unique hu hm
      rw [h, h2] at h1
      exact (cons.inj h1).1.symm
    by_cases h : x.id = u.id
    · rw [this h, he]; simp
    · simp [h]

theorem plainWrite_iff {P : Prog} (hu : (P.tab.map (·.id)).Nodup) (o : String) : plainWrite P o = (isWrite o && isEffect P.tab o) := by
  unfold plainWrite
  congr 1
  cases ho : opInstr P o with
  | some u =>
    have hid : u.id = o := by
      have := find?_some ho
      simpa using this
    rw [← hid, isEffect_iff hu (opInstr_mem ho)]
    rfl
  | none =>
    simp only [Option.any_none]
    unfold isEffect
    symm
    rw [any_eq_false]
    intro x hx
    unfold opInstr at ho
    have := find?_eq_none.1 ho x (mem_reverse.2 hx)
    simp only [decide_eq_true_eq] at this
    simp [this]

/-- Dropping instructions without effect only drops `SWAP1`. -/
theorem drop_filter {f : String → Bool} (hf : f "SWAP1" = false) (acc rs : List (String × String)) (hn : Permute.Named (acc ++ rs)) :
    ((Permute.dropFrom acc rs).reverse.map Prod.snd).filter f = ((acc.reverse ++ rs).map Prod.snd).filter f := by
  induction acc, rs using Permute.dropFrom.induct with
  | case1 acc => simp [Permute.dropFrom]
  | case2 r rs ih =>
    unfold Permute.dropFrom
    rw [ih hn]; simp
  | case3 x acc r rs hc ih =>
    unfold Permute.dropFrom
    rw [if_pos hc, ih]
    · have hx := (hn x (by simp)).1 hc.1
      have hr := (hn r (by simp)).1 hc.2
      simp [hx, hr, hf]
    · intro p hp
      rcases mem_append.1 hp with hp | hp
      · exact hn p (mem_append.2 (.inl (mem_cons_of_mem _ hp)))
      · exact hn p (mem_append.2 (.inr (mem_cons_of_mem _ hp)))
  | case4 x acc r rs h1 h2 ih =>
    unfold Permute.dropFrom
    rw [if_neg h1, if_pos h2, ih]
    · have hr := (hn r (by simp)).1 h2.2
      simp [hr, hf, filter_cons]
    · intro p hp
      rcases mem_append.1 hp with hp | hp
      · exact hn p (mem_append.2 (.inl hp))
      · exact hn p (mem_append.2 (.inr (mem_cons_of_mem _ hp)))
  | case5 x acc r rs h1 h2 ih =>
    unfold Permute.dropFrom
    rw [if_neg h1, if_neg h2, ih]
    · simp
    · intro p hp
      refine hn p ?_
      simp only [mem_append, mem_cons] at hp ⊢
      rcases hp with (hp | hp | hp) | hp <;> simp [hp]

/-- The id of an instruction of the block is emitted only for this instruction. -/
theorem render_id {P : Prog} (hP : Ok P Plain) (hids : ∀ u ∈ P.tab, classify u.id = some (.instr u.id)) (h : Heur) {i : Item}
    (hi : ItemOk P Plain i) {u : UInstr} (hu : u ∈ P.tab) (he : (i.render h).2 = u.id) : i = .op u := by
  have h1 := classify_render hids h hi
  rw [he, hids u hu, Option.some.injEq] at h1
  cases i with
  | op x =>
    have hx : x.id = u.id := he
    have h3 := find_unique hP.uniq hi
    rw [hx, find_unique hP.uniq hu] at h3
    rw [(cons.inj h3).1]
  | _ => simp [Item.toOp] at h1

theorem render_effects {P : Prog} (hP : Ok P Plain) (hids : ∀ u ∈ P.tab, classify u.id = some (.instr u.id)) (h : Heur) (l : List Item)
    (hl : ∀ i ∈ l, ItemOk P Plain i) : ((l.map (Item.render h)).map Prod.snd).filter (isEffect P.tab) = effects l := by
  induction l with
  | nil => rfl
  | cons i l ih =>
    have hi := hl i (by simp)
    simp only [map_cons, filter_cons, effects, filterMap_cons]
    have ih := ih fun j hj => hl j (mem_cons_of_mem _ hj)
    unfold effects at ih
    have hother : (∀ u, i ≠ .op u) → isEffect P.tab (i.render h).2 = false := by
      intro hne
      unfold isEffect
      rw [any_eq_false]
      intro u hu
      intro hc
      simp only [Bool.and_eq_true, beq_iff_eq] at hc
      exact hne u (render_id hP hids h hi hu hc.1.symm)
    cases i with
    | op u =>
      have : isEffect P.tab (Item.render h (.op u)).2 = u.outpt.isEmpty := isEffect_iff hP.uniq hi
      rw [this, ih]
      cases hu : u.outpt with
      | nil => simp [noResult, hu, Item.render]
      | cons a b => simp [noResult, hu]
    | _ => rw [hother (by simp), ih]; rfl

/-- The text of one try. -/
theorem try_writes {P : Prog} (hP : Ok P Plain) (hids : ∀ u ∈ P.tab, classify u.id = some (.instr u.id)) {h : Heur}
    (ht : ∀ u ∈ P.tab, h.text u ≠ "SWAP1" ∧ h.text u ≠ "DUP1") (hd : DepsOk h) (hfin : ∀ v ∈ P.fin, isWrite v = false)
    (hsrc : ∀ v ∈ P.src, isWrite v = false ∧ Plain v) {maxSwap n : Nat} {p : Plan} (hp : PlanOk p) (hplan : ∀ o ∈ p.instr, Plain o)
    {flips flips' : List String} (hf : FlipOk P flips) {l : List Item} (hl : try1 P h maxSwap n p flips = some (l, flips')) :
    ((Permute.removeUseless (l.map (Item.render h))).map Prod.snd).filter (isEffect P.tab) =
        p.instr.filter (fun o => isWrite o && isEffect P.tab o) ∧
      (∀ o ∈ p.instr, isWrite o = true → o ∈ (Permute.removeUseless (l.map (Item.render h))).map Prod.snd) ∧ FlipOk P flips' := by
  obtain ⟨-, h2, h3⟩ := try1_spec hP (fun v hv => (hsrc v hv).2) hplan hf hl
  obtain ⟨e1, e2⟩ := try1_writes hP hd hfin (fun v hv => (hsrc v hv).1) hp hl
  have hnot : ∀ u ∈ P.tab, u.id ≠ "SWAP1" := by
    intro u hu he
    have := hids u hu
    rw [he] at this
    revert this
    decide +kernel
  have hkeep : ∀ f : String → Bool, f "SWAP1" = false → ((Permute.removeUseless (l.map (Item.render h))).map Prod.snd).filter f =
      ((l.map (Item.render h)).map Prod.snd).filter f := by
    intro f hf
    have e := drop_filter hf [] (l.map (Item.render h)) (named_render ht l h2)
    simp only [reverse_nil, nil_append] at e
    unfold Permute.removeUseless
    exact e
  refine ⟨?_, ?_, h3⟩
  · rw [hkeep _ ?_, render_effects hP hids h l h2, e1]
    · congr 1
      funext o
      exact plainWrite_iff hP.uniq o
    · unfold isEffect
      rw [any_eq_false]
      intro u hu
      simp [hnot u hu]
  · intro o ho hw
    obtain ⟨u, hu, hul⟩ := e2 o ho hw
    have hid : u.id = o := by
      have := find?_some hu
      simpa using this
    have hne : o ≠ "SWAP1" := by rw [← hid]; exact hnot u (opInstr_mem hu)
    have : o ∈ ((Permute.removeUseless (l.map (Item.render h))).map Prod.snd).filter (· == o) := by
      rw [hkeep _ (by simpa using fun h => hne h.symm)]
      refine mem_filter.2 ⟨?_, by simp⟩
      rw [map_map]
      exact mem_map.2 ⟨_, hul, hid⟩
    exact (mem_filter.1 this).1

/-- **C79.** Whenever the scheduler returns a schedule, then all writes of the plan occur in it. The instructions without a result that occur
are exactly the writes without a result of the plan, each as often as there and in the order of the plan. (With values allowed below the
output stack there are two plans, one for each try, and it is one of the two.) -/
theorem writes_performed {tab : List UInstr} {src tgt : List String} (hb : BlockOk tab src tgt) {deps : List (String × String)}
    {reach n : Nat} {junk : Bool} {h h' : Heur} {p p' : Plan}
    (ht : ∀ u ∈ tab, h.text u ≠ "SWAP1" ∧ h.text u ≠ "DUP1") (ht' : ∀ u ∈ tab, h'.text u ≠ "SWAP1" ∧ h'.text u ≠ "DUP1")
    (hsrc : ∀ v ∈ src, isWrite v = false) (htgt : ∀ v ∈ tgt, isWrite v = false) (hd : DepsOk h) (hd' : DepsOk h')
    (hp : ∀ o ∈ p.instr, Plain o) (hp' : ∀ o ∈ p'.instr, Plain o) (hk : PlanOk p) (hk' : PlanOk p') {r : List (String × String)}
    (hr : greedy tab src tgt deps reach n junk h h' p p' = some r) :
    ∃ q, (q = p ∨ junk = true ∧ q = p') ∧
      (r.map Prod.snd).filter (isEffect tab) = q.instr.filter (fun o => isWrite o && isEffect tab o) ∧
      ∀ o ∈ q.instr, isWrite o = true → o ∈ r.map Prod.snd := by
  have hP : Ok ⟨tab, src, tgt, reach⟩ Plain := ⟨hb.uniq, hb.two, hb.inp, hb.out, hb.tgt⟩
  have hP' : Ok ⟨tab, src, tgt ++ src, reach⟩ Plain := ⟨hb.uniq, hb.two, hb.inp, hb.out, fun v hv => by
    rcases List.mem_append.1 hv with hv | hv
    · exact hb.tgt v hv
    · exact hb.src v hv⟩
  unfold greedy at hr
  dsimp only at hr
  split at hr
  · simp at hr
  rename_i l flips hl
  obtain ⟨h1, h1', h2⟩ := try_writes hP hb.ids ht hd htgt (fun v hv => ⟨hsrc v hv, hb.src v hv⟩) hk hp (by intro u _ hu; simp at hu) hl
  split at hr
  · split at hr
    · rename_i hj
      split at hr
      · simp at hr
      rename_i l' flips' hl'
      obtain ⟨h3, h3', -⟩ := try_writes (P := ⟨tab, src, tgt ++ src, reach⟩) hP' hb.ids ht' hd' (fun v hv => by
        rcases List.mem_append.1 hv with hv | hv
        · exact htgt v hv
        · exact hsrc v hv) (fun v hv => ⟨hsrc v hv, hb.src v hv⟩) hk' hp' h2 hl'
      split at hr
      · split at hr
        · simp only [Option.some.injEq] at hr
          subst hr
          exact ⟨p', .inr ⟨hj, rfl⟩, h3, h3'⟩
        · simp only [Option.some.injEq] at hr
          subst hr
          exact ⟨p, .inl rfl, h1, h1'⟩
      · simp at hr
    · simp only [Option.some.injEq] at hr
      subst hr
      exact ⟨p, .inl rfl, h1, h1'⟩
  · simp at hr

/-- `sstore(s1, s0); v1 = s0 + v0; sstore(v1, v1)`, the second store needs a value of its own -/
def exStores : List UInstr :=
  [⟨"PUSH_0", [], ["v0"], false, false, "PUSH"⟩, ⟨"ADD_0", ["s0", "v0"], ["v1"], true, false, "ADD"⟩,
   ⟨"SSTORE_0", ["s1", "s0"], [], false, true, "SSTORE"⟩, ⟨"SSTORE_1", ["v1", "v1"], [], false, true, "SSTORE"⟩]

def exStoresPlan : Plan := ⟨["SSTORE_0", "SSTORE_1"], [], [("s0", 3), ("s1", 1), ("v1", 3)], []⟩

-- both stores are performed once and in the order of the plan
example : ∃ r, greedy exStores ["s0", "s1"] ["v1", "s0"] [("SSTORE_0", "SSTORE_1")] 16 100 false exHeur exHeur exStoresPlan (exPlan []) =
      some r ∧
    (r.map Prod.snd).filter (isEffect exStores) = ["SSTORE_0", "SSTORE_1"] := by
  obtain ⟨r, hr⟩ := Option.isSome_iff_exists.1
    (show (greedy exStores ["s0", "s1"] ["v1", "s0"] [("SSTORE_0", "SSTORE_1")] 16 100 false exHeur exHeur exStoresPlan
      (exPlan [])).isSome = true by decide +kernel)
  have hd : DepsOk exHeur := by intro o d hd; simp [exHeur] at hd
  obtain ⟨q, hq, h, -⟩ := writes_performed
    ⟨by decide +kernel, by decide +kernel, by decide +kernel, by decide +kernel, by decide +kernel, by decide +kernel, by decide +kernel⟩
    (by decide +kernel) (by decide +kernel) (by decide +kernel) (by decide +kernel) hd hd (by decide +kernel) (by decide +kernel)
    (show ∀ q ∈ exStoresPlan.needed, isWrite q.1 = false by decide +kernel) (show ∀ q ∈ (exPlan []).needed, isWrite q.1 = false by decide +kernel)
    hr
  refine ⟨r, hr, ?_⟩
  rcases hq with rfl | ⟨hj, -⟩
  · rw [h]
    decide +kernel
  · simp at hj

end Grey.Greedy
