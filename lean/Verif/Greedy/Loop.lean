import Verif.Greedy.Track
import Verif.Permute.Partial

/-!
# What the scheduler emits leads to the stack it believes to have: the loops
-/

namespace Grey.Greedy
open SymExec

/-- From `s` to `t`, with the reversed lists of arguments staying in order. -/
def Goes (P : Prog) (N : String → Prop) (s t : St) : Prop := Moves P N s t ∧ (FlipOk P s.flips → FlipOk P t.flips)

theorem Goes.same {P : Prog} {N : String → Prop} {s t : St} (h1 : t.ids = s.ids) (h2 : t.stack = s.stack) (h3 : t.flips = s.flips) :
    Goes P N s t := ⟨.same h1 h2, by rw [h3]; exact id⟩

theorem Goes.trans {P : Prog} {N : String → Prop} {a b c : St} (h1 : Goes P N a b) (h2 : Goes P N b c) : Goes P N a c :=
  ⟨h1.1.trans h2.1, fun h => h2.2 (h1.2 h)⟩

theorem settle_goes (P : Prog) (N : String → Prop) (o : String) (s : St) : Goes P N s (settle o s) :=
  .same (settle_eq o s).2.1 (settle_eq o s).1 (settle_eq o s).2.2.1

theorem clean_goes (P : Prog) (N : String → Prop) (h : Heur) (o : String) (s : St) : Goes P N s (cleanStack P h o s) :=
  ⟨(cleanStack_spec P N h o s).1, by rw [(cleanStack_spec P N h o s).2]; exact id⟩

/-- All lists of arguments as they should be, which is so in every state that is reached. -/
def Goes' (P : Prog) (N : String → Prop) (s t : St) : Prop := FlipOk P s.flips → Goes P N s t

theorem Goes'.trans {P : Prog} {N : String → Prop} {a b c : St} (h1 : Goes' P N a b) (h2 : Goes' P N b c) : Goes' P N a c :=
  fun h => (h1 h).trans (h2 ((h1 h).2 h))

theorem Goes.weak {P : Prog} {N : String → Prop} {a b : St} (h : Goes P N a b) : Goes' P N a b := fun _ => h

theorem Goes'.same {P : Prog} {N : String → Prop} {s t : St} (h1 : t.ids = s.ids) (h2 : t.stack = s.stack) (h3 : t.flips = s.flips) :
    Goes' P N s t := fun _ => .same h1 h2 h3

theorem preOne_goes {P : Prog} {N : String → Prop} (hP : Ok P N) {h : Heur} {rec : String → St → Option St} (hrec : Computes P N rec)
    {o : String} {s t : St} (ht : preOne P h rec o s = some t) : Goes' P N s t := by
  unfold preOne at ht
  dsimp only at ht
  refine Goes'.trans (clean_goes P N h o s).weak ?_
  generalize cleanStack P h o s = s at ht
  intro hf
  split at ht
  · simp at ht
  rename_i u hu
  obtain ⟨hmem, hout⟩ := varInstr_mem hu
  have hin := inputs_or hf hmem
  have hwr : ∀ v ∈ inputs s.flips u, isWrite v = false ∧ N v := fun v hv => hP.inp u hmem v (mem_inputs hv)
  generalize hI : inputs s.flips u = inpts at *
  generalize hA : (if mustReverse P h o inpts s = true then inpts.reverse else inpts) = args at ht
  have hcm : mustReverse P h o inpts s = false → u.commutative = true := by
    intro hm
    obtain ⟨v, hv, hvc⟩ := mustReverse_comm hm
    rw [hu] at hv
    rw [Option.some.inj hv]; exact hvc
  have hargs : args.reverse = u.inpt ∨ (u.commutative = true ∧ args.reverse = u.inpt.reverse) := by
    refine args_or hin ?_
    split at hA
    · exact .inl (by rw [← hA]; simp)
    · rename_i hm
      exact .inr ⟨hcm (by simpa using hm), by rw [← hA]⟩
  have hAm : ∀ v ∈ args, v ∈ inpts := by
    intro v hv
    rw [← hA] at hv
    split at hv
    · simpa using hv
    · exact hv
  split at ht
  · simp at ht
  rename_i w hw
  obtain ⟨m1, f1, -⟩ := computeAll_spec hrec args (s := { s with dup := 0 }) (fun v hv => (hwr v (hAm v hv)).2) hf hw
  split at ht
  · rename_i hpre
    simp only [Option.some.injEq] at ht
    subst ht
    obtain ⟨r, hr⟩ := List.isPrefixOf_iff_prefix.1 hpre
    have hdrop : w.stack.drop args.length = r := by
      rw [← hr]; simp [List.drop_append]
    refine Goes.trans ⟨?_, ?_⟩ (settle_goes P N o _)
    · refine Moves.trans (b := w) (Moves.trans (b := { s with dup := 0 }) (.same rfl rfl) m1) (.instr hP hmem hargs (r := r) hr.symm rfl ?_)
      dsimp only; rw [hdrop]
    · intro _
      have hf1 : FlipOk P w.flips := by rw [f1]; exact hf
      dsimp only
      split
      · exact hf1
      · rename_i hm
        split
        · intro x hx hxm
          exact hf1 x hx ((List.mem_filter.1 hxm).1)
        · intro x hx hxm
          rcases List.mem_cons.1 hxm with he | hxm
          · have : x = u := by
              have h1 := find_unique hP.uniq hx
              have h2 := find_unique hP.uniq hmem
              rw [he, h2] at h1
              exact (List.cons.inj h1).1.symm
            rw [this]
            exact hcm (by simpa using hm)
          · exact hf1 x hx hxm
  · simp at ht

theorem preAll_goes {P : Prog} {N : String → Prop} (hP : Ok P N) {h : Heur} {rec : String → St → Option St} (hrec : Computes P N rec)
    (os : List String) {s t : St} (ht : preAll P h rec os s = some t) : Goes' P N s t := by
  induction os generalizing s with
  | nil =>
    simp only [preAll, Option.some.injEq] at ht
    subst ht
    exact (Goes'.same rfl rfl rfl)
  | cons o os ih =>
    obtain ⟨w, hw, ht⟩ := Option.bind_eq_some_iff.1 ht
    exact (preOne_goes hP hrec hw).trans (ih ht)

theorem finalOne_goes {P : Prog} {N : String → Prop} {h : Heur} {rec : String → St → Option St} (hrec : Computes P N rec)
    {o : String} {s t : St} (hN : N o) (ht : finalOne P h rec o s = some t) : Goes' P N s t := by
  unfold finalOne at ht
  obtain ⟨w, hw, rfl⟩ := Option.map_eq_some_iff.1 ht
  refine Goes'.trans (clean_goes P N h o s).weak ?_
  generalize cleanStack P h o s = s at hw
  intro hf
  obtain ⟨m1, f1, -⟩ := hrec o { s with dup := 0 } w hN hf hw
  refine Goes.trans (b := w) ⟨Moves.trans (b := { s with dup := 0 }) (.same rfl rfl) m1, ?_⟩ (settle_goes P N o w)
  rw [f1]; exact id

theorem computeMem_goes {P : Prog} {N : String → Prop} (hP : Ok P N) {h : Heur} {maxSwap n : Nat} {o : String} {s t : St} (hN : N o)
    (ht : computeMem P h maxSwap n o s = some t) : Goes' P N s t := by
  unfold computeMem at ht
  split at ht
  · simp at ht
  · rename_i nd lord hl
    split at ht
    · simp at ht
    · rename_i w hw
      have h1 : Goes' P N s w := Goes'.trans (b := { s with needed := nd }) (Goes'.same rfl rfl rfl)
        (preAll_goes hP (computeOne_spec hP h maxSwap n) lord hw)
      split at ht
      · split at ht
        · simp only [Option.some.injEq] at ht
          rw [← ht]; exact h1
        · simp at ht
      · exact h1.trans (finalOne_goes (computeOne_spec hP h maxSwap n) hN ht)

theorem computeReg_goes {P : Prog} {N : String → Prop} (hP : Ok P N) {h : Heur} {maxSwap n : Nat} {o : String} {s t : St} (hN : N o)
    (ht : computeReg P h maxSwap n o s = some t) : Goes' P N s t := by
  unfold computeReg at ht
  split at ht
  · simp at ht
  · rename_i nd lord hl
    split at ht
    · simp at ht
    · rename_i w hw
      have h1 : Goes' P N s w := Goes'.trans (b := { s with needed := nd }) (Goes'.same rfl rfl rfl)
        (preAll_goes hP (computeOne_spec hP h maxSwap n) lord hw)
      split at ht
      · simp only [Option.some.injEq] at ht
        rw [← ht]; exact h1
      · exact h1.trans (finalOne_goes (computeOne_spec hP h maxSwap n) hN ht)

theorem popLoop_goes (P : Prog) (N : String → Prop) (n : Nat) (s : St) : Goes P N s (popLoop P n s) := by
  induction n generalizing s with
  | zero => exact .same rfl rfl rfl
  | succ n ih =>
    unfold popLoop
    split
    · exact .same rfl rfl rfl
    · rename_i v st hs
      split
      · refine Goes.trans (b := { s with stack := st, ids := s.ids ++ [.pop] }) ⟨.pop hs rfl rfl, id⟩ (ih _)
      · exact .same rfl rfl rfl

theorem computeMems_goes {P : Prog} {N : String → Prop} (hP : Ok P N) {h : Heur} {maxSwap n : Nat} (os : List String) {s t : St}
    (hN : ∀ o ∈ os, N o) (ht : computeMems P h maxSwap n os s = some t) : Goes' P N s t := by
  induction os generalizing s with
  | nil =>
    simp only [computeMems, Option.some.injEq] at ht
    subst ht
    exact (Goes'.same rfl rfl rfl)
  | cons o os ih =>
    obtain ⟨w, hw, ht⟩ := Option.bind_eq_some_iff.1 ht
    exact Goes'.trans (b := { s with dup := 0 }) (Goes'.same rfl rfl rfl)
      ((computeMem_goes hP (hN o (by simp)) hw).trans (ih (fun x hx => hN x (List.mem_cons_of_mem _ hx)) ht))

theorem computeMemsPop_goes {P : Prog} {N : String → Prop} (hP : Ok P N) {h : Heur} {maxSwap n : Nat} (os : List String) {s t : St}
    (hN : ∀ o ∈ os, N o) (ht : computeMemsPop P h maxSwap n os s = some t) : Goes' P N s t := by
  induction os generalizing s with
  | nil =>
    simp only [computeMemsPop, Option.some.injEq] at ht
    subst ht
    exact (Goes'.same rfl rfl rfl)
  | cons o os ih =>
    obtain ⟨w, hw, ht⟩ := Option.bind_eq_some_iff.1 ht
    exact Goes'.trans (b := { s with dup := 0 }) (Goes'.same rfl rfl rfl)
      ((computeMem_goes hP (hN o (by simp)) hw).trans
        ((popLoop_goes P N _ w).weak.trans (ih (fun x hx => hN x (List.mem_cons_of_mem _ hx)) ht)))

theorem placeCase_goes {P : Prog} {N : String → Prop} {k : Nat} {s t : St} (ht : placeCase P k s = some t) : Goes P N s t := by
  unfold placeCase at ht
  dsimp only at ht
  split at ht
  · split at ht
    · simp at ht
    · simp only [Option.some.injEq] at ht
      subst ht
      exact .same rfl rfl rfl
  · split at ht
    · rename_i h
      simp only [Option.some.injEq] at ht
      subst ht
      exact ⟨.swap (by omega) rfl rfl, id⟩
    · simp at ht

theorem placeNew_goes {P : Prog} {N : String → Prop} {o : String} {pos : Nat} (hpos : pos < P.fin.length) {s t : St}
    (ht : placeNew P o pos s = some t) : Goes P N s t := by
  unfold placeNew at ht
  dsimp only at ht
  obtain ⟨w, hw, rfl⟩ := Option.map_eq_some_iff.1 ht
  have hw' : w.ids = s.ids ∧ w.stack = s.stack ∧ w.flips = s.flips := by
    split at hw
    · obtain ⟨v, -, rfl⟩ := Option.map_eq_some_iff.1 hw
      exact ⟨rfl, rfl, rfl⟩
    · rw [← Option.some.inj hw]; exact ⟨rfl, rfl, rfl⟩
  refine Goes.trans (b := w) (.same hw'.1 hw'.2.1 hw'.2.2) ?_
  split
  · refine ⟨.swap (k := ((s.stack.length : Int) + pos - P.fin.length).toNat) ?_ rfl rfl, id⟩
    rw [hw'.2.1]; omega
  · exact .same rfl rfl rfl

/-- The writes that are left have known names. -/
def LoopOk (N : String → Prop) (c : Loop) : Prop := ∀ o ∈ c.instr, N o

theorem makeCase_goes {P : Prog} {N : String → Prop} (hP : Ok P N) {h : Heur} {maxSwap n pos : Nat} {c d : Loop} (hc : LoopOk N c)
    (ht : makeCase P h maxSwap n pos c = some d) : Goes' P N c.st d.st ∧ LoopOk N d := by
  unfold makeCase at ht
  split at ht
  · simp at ht
  rename_i o ho
  have hNo : N o := hP.fin o (List.mem_of_getElem? ho)
  have hpos : pos < P.fin.length := (List.getElem?_eq_some_iff.1 ho).1
  split at ht
  · simp at ht
  rename_i k hk
  dsimp only at ht
  generalize hq : (if (c.rest.any fun v => h.computed v o) = true then (c.instr, [], [], false)
        else
          match k with
          | none => ([], c.instr, c.rest, false)
          | some k =>
            if c.instr[c.instr.length - 1 - k]? = some o then
              (c.instr.take (c.instr.length - 1 - k), c.instr.drop (c.instr.length - 1 - k + 1),
                if (c.instr.drop (c.instr.length - 1 - k + 1)).isEmpty = true then [] else c.rest,
                (c.instr.drop (c.instr.length - 1 - k)).any isWrite)
            else
              (c.instr.take (c.instr.length - 1 - k + 1), c.instr.drop (c.instr.length - 1 - k + 1),
                if (c.instr.drop (c.instr.length - 1 - k + 1)).isEmpty = true then [] else c.rest, false)) = q at ht
  have hq1 : (∀ x ∈ q.1, N x) ∧ ∀ x ∈ q.2.1, N x := by
    rw [← hq]
    split
    · exact ⟨hc, by simp⟩
    · split
      · exact ⟨by simp, hc⟩
      · split
        · exact ⟨fun x hx => hc x (List.mem_of_mem_take hx), fun x hx => hc x (List.mem_of_mem_drop hx)⟩
        · exact ⟨fun x hx => hc x (List.mem_of_mem_take hx), fun x hx => hc x (List.mem_of_mem_drop hx)⟩
  obtain ⟨pre, post, rest, before⟩ := q
  dsimp only at ht hq1
  split at ht
  · simp at ht
  rename_i s hs
  split at ht
  · simp at ht
  rename_i w hw
  obtain ⟨t, ht', rfl⟩ := Option.map_eq_some_iff.1 ht
  refine ⟨?_, hq1.2⟩
  refine Goes'.trans (computeMems_goes hP pre hq1.1 hs) (Goes'.trans (b := { s with dup := 0 }) (Goes'.same rfl rfl rfl)
    (Goes'.trans (b := w) ?_ (placeNew_goes hpos ht').weak))
  split at hw
  · exact computeMem_goes hP hNo hw
  · exact computeReg_goes hP hNo hw

theorem mainRound_goes {P : Prog} {N : String → Prop} (hP : Ok P N) {h : Heur} {maxSwap n : Nat} {c d : Loop} {b : Bool} (hc : LoopOk N c)
    (ht : mainRound P h maxSwap n c = some (b, d)) : Goes' P N c.st d.st ∧ LoopOk N d := by
  unfold mainRound at ht
  dsimp only at ht
  obtain ⟨⟨b', e⟩, he, heq⟩ := Option.map_eq_some_iff.1 ht
  simp only [Prod.mk.injEq] at heq
  obtain ⟨rfl, rfl⟩ := heq
  suffices hs : Goes' P N c.st e.st ∧ LoopOk N e from
    ⟨hs.1.trans (Goes'.same rfl rfl rfl), hs.2⟩
  have h0 := popLoop_goes P N c.st.stack.length c.st
  generalize popLoop P c.st.stack.length c.st = s at he h0
  split at he
  · split at he
    · simp at he
    · rename_i o os hi
      have hNo : N o := hc o (by rw [hi]; simp)
      have hNos : ∀ x ∈ os, N x := fun x hx => hc x (by rw [hi]; exact List.mem_cons_of_mem _ hx)
      split at he
      · simp at he
      · rename_i t hm
        have hg := h0.weak.trans (Goes'.trans (b := { s with dup := 0 }) (Goes'.same rfl rfl rfl) (computeMem_goes hP hNo hm))
        split at he
        · split at he
          · simp at he
          · split at he
            · simp only [Option.some.injEq, Prod.mk.injEq] at he
              obtain ⟨-, rfl⟩ := he
              exact ⟨hg, hNos⟩
            · simp at he
        · simp only [Option.some.injEq, Prod.mk.injEq] at he
          obtain ⟨-, rfl⟩ := he
          exact ⟨hg, hNos⟩
  · split at he
    · simp at he
    · obtain ⟨t, ht2, heq⟩ := Option.map_eq_some_iff.1 he
      simp only [Prod.mk.injEq] at heq
      obtain ⟨-, rfl⟩ := heq
      exact ⟨h0.weak.trans (placeCase_goes ht2).weak, hc⟩
    · obtain ⟨t, ht2, heq⟩ := Option.map_eq_some_iff.1 he
      simp only [Prod.mk.injEq] at heq
      obtain ⟨-, rfl⟩ := heq
      have := makeCase_goes hP (c := ⟨s, c.instr, c.rest⟩) hc ht2
      exact ⟨h0.weak.trans this.1, this.2⟩
    · split at he
      · obtain ⟨t, ht2, heq⟩ := Option.map_eq_some_iff.1 he
        simp only [Prod.mk.injEq] at heq
        obtain ⟨-, rfl⟩ := heq
        exact ⟨h0.weak.trans (computeMemsPop_goes hP _ hc ht2), by simp [LoopOk]⟩
      · simp at he

theorem mainLoop_goes {P : Prog} {N : String → Prop} (hP : Ok P N) {h : Heur} {maxSwap n : Nat} (f : Nat) {c d : Loop} (hc : LoopOk N c)
    (ht : mainLoop P h maxSwap n f c = some d) : Goes' P N c.st d.st := by
  induction f generalizing c with
  | zero => simp [mainLoop] at ht
  | succ f ih =>
    unfold mainLoop at ht
    split at ht
    · simp at ht
    · rename_i e he
      simp only [Option.some.injEq] at ht
      subst ht
      exact (mainRound_goes hP hc he).1
    · rename_i e he
      have := mainRound_goes hP hc he
      exact this.1.trans (ih this.2 ht)

/-! ### The last phase -/

/-- What `compute_permut_and_clean` emitted so far leads to its stack, and it knows the names of its values. -/
def Sym (P : Prog) (N : String → Prop) (st : List String) (s : Permute.St) : Prop :=
  execItems P.tab (s.ids.map ofIns) st = some s.cstack ∧ (∀ v ∈ s.cstack, N v) ∧ (∀ v ∈ s.reg, N v) ∧
    ∀ i ∈ s.ids.map ofIns, ItemOk P N i

theorem sym_one {P : Prog} {N : String → Prop} {st : List String} {s t : Permute.St} {i : Permute.Ins} (h : Sym P N st s)
    (h1 : t.ids = s.ids ++ [i]) (h2 : execOp P.tab (ofIns i).toOp s.cstack = some t.cstack) (h3 : ∀ v ∈ t.cstack, N v)
    (h4 : ∀ v ∈ t.reg, N v) (h5 : ItemOk P N (ofIns i)) : Sym P N st t := by
  refine ⟨?_, h3, h4, ?_⟩
  · rw [h1, List.map_append, execItems_append, h.1]
    simp [execItems, h2]
  · intro x hx
    rw [h1, List.map_append] at hx
    rcases List.mem_append.1 hx with hx | hx
    · exact h.2.2.2 x hx
    · simp at hx; rw [hx]; exact h5

theorem sym_closed (P : Prog) (N : String → Prop) (st : List String) : Permute.Closed P.reach (Sym P N st) where
  congr h h1 h2 h3 := by
    unfold Sym at h ⊢
    rw [h1, h2, h3]; exact h
  pop h v c hc h1 h2 h3 := by
    refine sym_one h h3 (by rw [hc, h1]; rfl) (fun x hx => h.2.1 x (by rw [hc]; rw [h1] at hx; exact List.mem_cons_of_mem _ hx)) ?_ trivial
    rcases h2 with h2 | ⟨hv, h2⟩
    · rw [h2]; exact h.2.2.1
    · rw [h2]
      intro x hx
      rcases List.mem_append.1 hx with hx | hx
      · exact h.2.2.1 x hx
      · rw [List.mem_singleton.1 hx]; exact h.2.2.1 v hv
  vset h v c hc h1 h2 h3 := by
    have hv : N v := h.2.1 v (by rw [hc]; simp)
    refine sym_one h h3 (by rw [hc, h1]; simp [ofIns, Item.toOp, execOp])
      (fun x hx => h.2.1 x (by rw [hc]; rw [h1] at hx; exact List.mem_cons_of_mem _ hx)) ?_ hv
    rw [h2]
    intro x hx
    rcases List.mem_append.1 hx with hx | hx
    · exact h.2.2.1 x hx
    · rw [List.mem_singleton.1 hx]; exact hv
  vget h r hr h1 h2 h3 := by
    have hv : N r := h.2.2.1 r hr
    refine sym_one h h3 (by rw [h1]; rfl) ?_ ?_ hv
    · rw [h1]
      intro x hx
      rcases List.mem_cons.1 hx with rfl | hx
      · exact hv
      · exact h.2.1 x hx
    · rw [h2]
      intro x hx
      exact h.2.2.1 x (List.mem_of_mem_erase hx)
  swap h k hk hk' hl h1 h2 h3 := by
    refine sym_one h h3 ?_ ?_ (by rw [h2]; exact h.2.2.1) trivial
    · simp only [ofIns, Item.toOp, Int.toNat_natCast]
      rw [h1]; exact exec_swap hl
    · intro x hx
      rw [h1] at hx
      exact h.2.1 x (mem_swapTop hx)

theorem permute_sym {P : Prog} {N : String → Prop} {n : Nat} {st : List String} {solved : List Int} {l : List Permute.Ins}
    (hN : ∀ v ∈ st, N v) (h : Permute.permute P.fin P.reach n st solved = some (some l)) :
    execItems P.tab (l.map ofIns) st = some P.fin ∧ ∀ i ∈ l.map ofIns, ItemOk P N i := by
  obtain ⟨t, h1, h2, -, h3⟩ := Permute.run_closed (sym_closed P N st) n (s := ⟨st, solved, [], -1, []⟩)
    ⟨rfl, hN, by simp, by simp⟩ (by simp) h
  rw [← h3]
  exact ⟨by rw [h1.1, h2], h1.2.2.2⟩

/-! ### Before the main loop -/

theorem preLoop_goes {P : Prog} {N : String → Prop} (n : Nat) {s t : St} (ht : preLoop P n s = some t) : Goes P N s t := by
  induction n generalizing s with
  | zero => simp [preLoop] at ht
  | succ n ih =>
    unfold preLoop at ht
    split at ht
    · simp only [Option.some.injEq] at ht
      subst ht
      exact .same rfl rfl rfl
    · rename_i v st hs
      split at ht
      · exact Goes.trans (b := { s with stack := st, needed := drop s.needed v, ids := s.ids ++ [.pop] }) ⟨.pop hs rfl rfl, id⟩ (ih ht)
      · split at ht
        · simp only [Option.some.injEq] at ht
          subst ht
          exact .same rfl rfl rfl
        · rename_i p hp
          split at ht
          · simp at ht
          · split at ht
            · simp only [Option.some.injEq] at ht
              subst ht
              exact .same rfl rfl rfl
            · refine Goes.trans (b := { s with stack := Permute.swapTop s.stack p.toNat, ids := s.ids ++ [.swap p.toNat] })
                ⟨.swap ?_ rfl rfl, id⟩ (ih ht)
              -- the place is one of the stack
              unfold topPlace at hp
              rw [hs] at hp
              dsimp only at hp
              rw [hs]
              have hpos : 0 < (v :: st).length := by simp
              generalize (v :: st).length = m at *
              generalize (if P.fin.length < m then P.fin else P.fin.drop (P.fin.length - m)) = g at hp
              split at hp
              · rename_i hv
                have := List.idxOf_lt_length_iff.2 hv
                simp only [Option.some.injEq] at hp
                omega
              · simp at hp

theorem precompute_goes {P : Prog} {N : String → Prop} {n : Nat} {s t : St} (ht : precompute P n s = some t) : Goes P N s t := by
  unfold precompute at ht
  split at ht
  · simp at ht
  · rename_i w hw
    obtain ⟨a, -, rfl⟩ := Option.map_eq_some_iff.1 ht
    exact (preLoop_goes n hw).trans (.same rfl rfl rfl)

/-- One try of the scheduler leads from the input stack to the output stack. -/
theorem try1_spec {P : Prog} {N : String → Prop} (hP : Ok P N) {h : Heur} {maxSwap n : Nat} {p : Plan} {flips : List String}
    {l : List Item} {flips' : List String} (hsrc : ∀ v ∈ P.src, N v) (hplan : ∀ o ∈ p.instr, N o) (hf : FlipOk P flips)
    (ht : try1 P h maxSwap n p flips = some (l, flips')) :
    execItems P.tab l P.src = some P.fin ∧ (∀ i ∈ l, ItemOk P N i) ∧ FlipOk P flips' := by
  unfold try1 at ht
  split at ht
  · simp at ht
  rename_i s hs
  have g1 := precompute_goes (N := N) hs
  unfold compute at ht
  split at ht
  · simp at ht
  rename_i d hd
  have g2 := mainLoop_goes hP n (c := ⟨s, p.instr, p.rest⟩) hplan hd
  have g := (g1.weak.trans g2) hf
  obtain ⟨⟨⟨l0, e1, e2, e3⟩, e4⟩, e5⟩ := g
  split at ht
  · rename_i lp hl
    simp only [Option.some.injEq, Prod.mk.injEq] at ht
    obtain ⟨rfl, rfl⟩ := ht
    obtain ⟨q1, q2⟩ := permute_sym (e4 hsrc) hl
    simp only [List.nil_append] at e1
    refine ⟨?_, ?_, e5 hf⟩
    · rw [execItems_append, e1, e2, Option.bind_some, q1]
    · intro i hi
      rcases List.mem_append.1 hi with hi | hi
      · rw [e1] at hi; exact (e3 i hi).ok
      · exact q2 i hi
  · simp at ht

end Grey.Greedy
