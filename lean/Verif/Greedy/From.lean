/-
The instructions that the scheduler emits are those of the specification, whatever the specification is.
-/
import Verif.Greedy.Theorems
namespace Grey.Greedy
open SymExec List

/-- An instruction of the specification, or an operation on the stack. -/
def OfTab (P : Prog) (i : Item) : Prop := ∀ u, i = .op u → u ∈ P.tab

/-- Only such instructions are added. -/
def Keeps (P : Prog) (a b : List Item) : Prop := (∀ i ∈ a, OfTab P i) → ∀ i ∈ b, OfTab P i

theorem Keeps.rfl {P : Prog} {a : List Item} : Keeps P a a := fun h => h
theorem Keeps.trans {P : Prog} {a b c : List Item} (h1 : Keeps P a b) (h2 : Keeps P b c) : Keeps P a c := fun h => h2 (h1 h)
theorem Keeps.add {P : Prog} {a l : List Item} (hl : ∀ i ∈ l, OfTab P i) : Keeps P a (a ++ l) := by
  intro hs i hi
  rcases mem_append.1 hi with hi | hi
  · exact hs i hi
  · exact hl i hi

theorem ofTab_op {P : Prog} {u : UInstr} (h : u ∈ P.tab) : OfTab P (.op u) := fun v e => by cases e; exact h

theorem stack_op {P : Prog} {l : List Item} (h : ∀ i ∈ l, ∀ u, i ≠ .op u) : ∀ i ∈ l, OfTab P i := fun i hi u e => absurd e (h i hi u)

theorem varInstr_tab {P : Prog} {o : String} {u : UInstr} (h : varInstr P o = some u) : u ∈ P.tab := mem_reverse.1 (mem_of_find?_eq_some h)
theorem opInstr_tab {P : Prog} {o : String} {u : UInstr} (h : opInstr P o = some u) : u ∈ P.tab := mem_reverse.1 (mem_of_find?_eq_some h)

theorem instrOf_tab {P : Prog} {h : Heur} {o : String} {u : UInstr} (hu : instrOf P h o = some u) : u ∈ P.tab := by
  unfold instrOf at hu
  split at hu
  · exact opInstr_tab hu
  · split at hu
    · cases hu
    · rename_i v hv
      split at hu
      · cases hu
      · cases hu; exact varInstr_tab hv

theorem cleanLoop_keeps (P : Prog) : ∀ (n i : Nat) (s : St), Keeps P s.ids (cleanLoop P n i s).ids
  | 0, _, _ => .rfl
  | n + 1, i, s => by
    unfold cleanLoop
    split
    · dsimp only
      split
      · refine .trans ?_ (cleanLoop_keeps P n _ _)
        exact .add (stack_op (by simp))
      · exact .rfl
    · exact .rfl

theorem clean_keeps (P : Prog) (h : Heur) (o : String) (s : St) : Keeps P s.ids (cleanStack P h o s).ids := by
  unfold cleanStack
  split
  · exact .rfl
  · exact cleanLoop_keeps P _ _ _

theorem settle_keeps (P : Prog) (o : String) (s : St) : Keeps P s.ids (settle o s).ids := by
  unfold settle
  split <;> exact .rfl

theorem pushSmall_keeps {P : Prog} {h : Heur} {u : UInstr} (hu : u ∈ P.tab) {o : String} {s t : St} (ht : pushSmall h u o s = some t) : Keeps P s.ids t.ids := by
  have h1 : ∀ {r : St}, r.ids = s.ids ++ [.op u] → Keeps P s.ids r.ids := fun e => e ▸ .add (by simpa using ofTab_op hu)
  unfold pushSmall at ht
  dsimp only at ht
  split at ht
  · cases ht; exact h1 rfl
  · have h2 : (settle o { s with stack := o :: s.stack, dup := s.dup + 1, ids := s.ids ++ [Item.op u] }).ids = s.ids ++ [.op u] := by
      unfold settle; split <;> rfl
    split at ht
    · cases ht; exact h1 h2
    · split at ht
      · cases ht; exact h1 h2
      · cases ht

theorem dupTop_keeps {P : Prog} {h : Heur} {o : String} {s t : St} (ht : dupTop h o s = some t) : Keeps P s.ids t.ids := by
  have h1 : ∀ {r : St}, r.ids = s.ids ++ [.dup (s.stack.idxOf o + 1)] → Keeps P s.ids r.ids := fun e => e ▸ .add (stack_op (by simp))
  unfold dupTop at ht
  dsimp only at ht
  split at ht
  · split at ht
    · cases ht; exact h1 rfl
    · cases ht
  · split at ht
    · cases ht; exact h1 rfl
    · cases ht

theorem rotate_stack_op (st : List String) : ∀ n, ∀ i ∈ (rotate st n).1, ∀ u, i ≠ .op u
  | 0 => by simp [rotate]
  | n + 1 => by
    have ih := rotate_stack_op st n
    unfold rotate
    dsimp only
    split
    · intro i hi
      rcases mem_append.1 hi with hi | hi
      · exact ih i hi
      · rw [mem_singleton.1 hi]; simp
    · exact ih

theorem fromStack_keeps {P : Prog} {h : Heur} {maxSwap : Nat} {o : String} {s t : St} (ht : fromStack P h maxSwap o s = some t) : Keeps P s.ids t.ids := by
  unfold fromStack at ht
  repeat' split at ht
  all_goals first
    | exact dupTop_keeps ht
    | (cases ht; exact .rfl)
    | (cases ht; exact .add (stack_op (rotate_stack_op _ _)))
    | (cases ht; exact .add (stack_op (by simp)))
    | cases ht

/-- The recursive calls. -/
def Calls (P : Prog) (rec : String → St → Option St) : Prop := ∀ o s t, rec o s = some t → Keeps P s.ids t.ids

theorem computeAll_keeps {P : Prog} {rec : String → St → Option St} (hr : Calls P rec) : ∀ {os : List String} {s t : St}, computeAll rec os s = some t → Keeps P s.ids t.ids
  | [], s, t, h => by cases h; exact .rfl
  | o :: os, s, t, h => by
    obtain ⟨s', h1, h2⟩ := Option.bind_eq_some_iff.1 h
    exact (hr o s s' h1).trans (computeAll_keeps hr h2)

theorem execute_keeps {P : Prog} {u : UInstr} (hu : u ∈ P.tab) (n : Nat) (s : St) : Keeps P s.ids (execute u n s).ids :=
  .add (by simpa using ofTab_op hu)

theorem build_keeps {P : Prog} {h : Heur} {rec : String → St → Option St} (hr : Calls P rec) {o : String} {s t : St} (ht : build P h rec o s = some t) :
    Keeps P s.ids t.ids := by
  unfold build at ht
  split at ht
  · cases ht
  split at ht
  · cases ht
  rename_i u hu
  have hu := instrOf_tab hu
  dsimp only at ht
  split at ht
  · cases ht
    exact .add (by simpa using ofTab_op hu)
  split at ht
  · obtain ⟨s', h1, rfl⟩ := Option.map_eq_some_iff.1 ht
    have k := hr _ _ _ h1
    exact .trans k (execute_keeps hu _ _)
  · generalize (if mustReverse P h o (inputs s.flips u) s then (inputs s.flips u).reverse else inputs s.flips u) = args at ht
    split at ht
    · cases ht
    · rename_i s' h1
      split at ht
      · split at ht
        · cases ht
        · cases ht
          exact (computeAll_keeps hr h1).trans (execute_keeps hu _ _)
      · cases ht

theorem oneStep_keeps {P : Prog} {h : Heur} {maxSwap : Nat} {rec : String → St → Option St} (hr : Calls P rec) : Calls P (oneStep P h maxSwap rec) := by
  intro o s t ht
  have hrest : ∀ {t}, oneStep.rest P h maxSwap rec o s = some t → Keeps P s.ids t.ids := by
    intro t ht
    unfold oneStep.rest at ht
    dsimp only at ht
    generalize hs' : (if (look s.needed o).isSome ∧ o ∉ s.stack.take P.reach ∧ s.dup = 0 then
        { s with needed := (cleanStack P h o s).needed } else s) = s' at ht
    have e : Keeps P s.ids s'.ids := by
      rw [← hs']
      split <;> exact .rfl
    refine e.trans ?_
    split at ht
    · split at ht
      · split at ht
        · cases ht; exact .add (stack_op (by simp))
        · cases ht
      · exact fromStack_keeps ht
    · split at ht
      · exact fromStack_keeps ht
      · exact build_keeps hr ht
  unfold oneStep at ht
  split at ht
  · rename_i u hu
    split at ht
    · exact pushSmall_keeps (varInstr_tab hu) ht
    · exact hrest ht
  · exact hrest ht

theorem computeOne_keeps (P : Prog) (h : Heur) (maxSwap : Nat) : ∀ n, Calls P (computeOne P h maxSwap n)
  | 0 => fun _ _ _ h => nomatch h
  | n + 1 => oneStep_keeps (computeOne_keeps P h maxSwap n)

theorem preOne_keeps {P : Prog} {h : Heur} {rec : String → St → Option St} (hr : Calls P rec) {o : String} {s t : St} (ht : preOne P h rec o s = some t) : Keeps P s.ids t.ids := by
  unfold preOne at ht
  dsimp only at ht
  split at ht
  · cases ht
  rename_i u hu
  generalize (if mustReverse P h o (inputs (cleanStack P h o s).flips u) (cleanStack P h o s) = true then (inputs (cleanStack P h o s).flips u).reverse
    else inputs (cleanStack P h o s).flips u) = args at ht
  split at ht
  · cases ht
  rename_i s' h1
  split at ht
  · cases ht
    have k := computeAll_keeps hr h1
    refine .trans ((clean_keeps P h o s).trans k) (.trans ?_ (settle_keeps P o _))
    exact .add (by simpa using ofTab_op (varInstr_tab hu))
  · cases ht

theorem preAll_keeps {P : Prog} {h : Heur} {rec : String → St → Option St} (hr : Calls P rec) : ∀ {os : List String} {s t : St}, preAll P h rec os s = some t → Keeps P s.ids t.ids
  | [], s, t, h => by cases h; exact .rfl
  | o :: os, s, t, h => by
    obtain ⟨s', h1, h2⟩ := Option.bind_eq_some_iff.1 h
    exact (preOne_keeps hr h1).trans (preAll_keeps hr h2)

theorem finalOne_keeps {P : Prog} {h : Heur} {rec : String → St → Option St} (hr : Calls P rec) {o : String} {s t : St} (ht : finalOne P h rec o s = some t) : Keeps P s.ids t.ids := by
  obtain ⟨s', h1, rfl⟩ := Option.map_eq_some_iff.1 ht
  exact (clean_keeps P h o s).trans (((hr _ _ _ h1)).trans (settle_keeps P o _))

theorem computeMem_keeps {P : Prog} {h : Heur} {maxSwap n : Nat} {o : String} {s t : St} (ht : computeMem P h maxSwap n o s = some t) : Keeps P s.ids t.ids := by
  unfold computeMem at ht
  split at ht
  · cases ht
  split at ht
  · cases ht
  rename_i s' h1
  have k := (preAll_keeps (computeOne_keeps P h maxSwap n) h1)
  split at ht
  · split at ht
    · cases ht; exact k
    · cases ht
  · exact k.trans (finalOne_keeps (computeOne_keeps P h maxSwap n) ht)

theorem computeReg_keeps {P : Prog} {h : Heur} {maxSwap n : Nat} {o : String} {s t : St} (ht : computeReg P h maxSwap n o s = some t) : Keeps P s.ids t.ids := by
  unfold computeReg at ht
  split at ht
  · cases ht
  split at ht
  · cases ht
  rename_i s' h1
  have k := (preAll_keeps (computeOne_keeps P h maxSwap n) h1)
  split at ht
  · cases ht; exact k
  · exact k.trans (finalOne_keeps (computeOne_keeps P h maxSwap n) ht)

theorem popLoop_keeps (P : Prog) : ∀ (n : Nat) (s : St), Keeps P s.ids (popLoop P n s).ids
  | 0, _ => .rfl
  | n + 1, s => by
    unfold popLoop
    split
    · exact .rfl
    · split
      · refine .trans ?_ (popLoop_keeps P n _)
        exact .add (stack_op (by simp))
      · exact .rfl

theorem computeMems_keeps {P : Prog} {h : Heur} {maxSwap n : Nat} : ∀ {os : List String} {s t : St}, computeMems P h maxSwap n os s = some t → Keeps P s.ids t.ids
  | [], s, t, h => by cases h; exact .rfl
  | o :: os, s, t, h => by
    obtain ⟨s', h1, h2⟩ := Option.bind_eq_some_iff.1 h
    exact ((computeMem_keeps h1)).trans (computeMems_keeps h2)

theorem computeMemsPop_keeps {P : Prog} {h : Heur} {maxSwap n : Nat} : ∀ {os : List String} {s t : St}, computeMemsPop P h maxSwap n os s = some t → Keeps P s.ids t.ids
  | [], s, t, h => by cases h; exact .rfl
  | o :: os, s, t, h => by
    obtain ⟨s', h1, h2⟩ := Option.bind_eq_some_iff.1 h
    exact (((computeMem_keeps h1)).trans (popLoop_keeps P _ _)).trans (computeMemsPop_keeps h2)

theorem placeCase_keeps {P : Prog} {k : Nat} {s t : St} (ht : placeCase P k s = some t) : Keeps P s.ids t.ids := by
  unfold placeCase at ht
  dsimp only at ht
  repeat' split at ht
  all_goals first
    | (cases ht; first | exact .rfl | exact .add (stack_op (by simp)))
    | cases ht

theorem placeNew_keeps {P : Prog} {o : String} {pos : Nat} {s t : St} (ht : placeNew P o pos s = some t) : Keeps P s.ids t.ids := by
  unfold placeNew at ht
  dsimp only at ht
  obtain ⟨s', h1, rfl⟩ := Option.map_eq_some_iff.1 ht
  have e : Keeps P s.ids s'.ids := by
    split at h1
    · obtain ⟨v, -, rfl⟩ := Option.map_eq_some_iff.1 h1
      exact .rfl
    · cases h1; exact .rfl
  refine e.trans ?_
  split
  · exact .add (stack_op (by simp))
  · exact .rfl

theorem makeCase_keeps {P : Prog} {h : Heur} {maxSwap n pos : Nat} {c d : Loop} (ht : makeCase P h maxSwap n pos c = some d) : Keeps P c.st.ids d.st.ids := by
  unfold makeCase at ht
  split at ht
  · cases ht
  split at ht
  · cases ht
  dsimp only at ht
  split at ht
  · cases ht
  rename_i s1 h1
  split at ht
  · cases ht
  rename_i s2 h2
  obtain ⟨s3, h3, rfl⟩ := Option.map_eq_some_iff.1 ht
  have key : ∀ {b : Bool} {o : String}, (if b = true then computeMem P h maxSwap n o { s1 with dup := 0 } else computeReg P h maxSwap n o { s1 with dup := 0 }) = some s2 →
      Keeps P s1.ids s2.ids := by
    intro b o h2
    split at h2
    · have k := computeMem_keeps h2; exact k
    · have k := computeReg_keeps h2; exact k
  exact (computeMems_keeps h1).trans (.trans (key h2) (placeNew_keeps h3))

theorem mainRound_keeps {P : Prog} {h : Heur} {maxSwap n : Nat} {c d : Loop} {b : Bool} (ht : mainRound P h maxSwap n c = some (b, d)) : Keeps P c.st.ids d.st.ids := by
  unfold mainRound at ht
  dsimp only at ht
  obtain ⟨x, hx, e⟩ := Option.map_eq_some_iff.1 ht
  cases e
  have hpop := popLoop_keeps P c.st.stack.length c.st
  refine Keeps.trans (hpop.trans ?_) (.rfl)
  split at hx
  · split at hx
    · cases hx
    · split at hx
      · cases hx
      rename_i t h1
      have k := (computeMem_keeps h1)
      split at hx
      · split at hx
        · cases hx
        · split at hx
          · cases hx; exact k
          · cases hx
      · cases hx; exact k
  · split at hx
    · cases hx
    · obtain ⟨t, h1, rfl⟩ := Option.map_eq_some_iff.1 hx
      have k := placeCase_keeps h1; exact k
    · obtain ⟨t, h1, rfl⟩ := Option.map_eq_some_iff.1 hx
      exact makeCase_keeps h1
    · split at hx
      · obtain ⟨t, h1, rfl⟩ := Option.map_eq_some_iff.1 hx
        have k := computeMemsPop_keeps h1; exact k
      · cases hx

theorem mainLoop_keeps {P : Prog} {h : Heur} {maxSwap n : Nat} : ∀ {f : Nat} {c d : Loop}, mainLoop P h maxSwap n f c = some d → Keeps P c.st.ids d.st.ids
  | 0, _, _, h => nomatch h
  | f + 1, c, d, ht => by
    unfold mainLoop at ht
    split at ht
    · cases ht
    · rename_i h1; cases ht; exact mainRound_keeps h1
    · rename_i h1; exact (mainRound_keeps h1).trans (mainLoop_keeps ht)

theorem preLoop_keeps {P : Prog} : ∀ {n : Nat} {s t : St}, preLoop P n s = some t → Keeps P s.ids t.ids
  | 0, _, _, h => nomatch h
  | n + 1, s, t, ht => by
    unfold preLoop at ht
    split at ht
    · cases ht; exact .rfl
    split at ht
    · exact .trans (.add (stack_op (by simp))) (preLoop_keeps ht)
    split at ht
    · cases ht; exact .rfl
    rename_i p hp
    split at ht
    · cases ht
    split at ht
    · cases ht; exact .rfl
    · exact .trans (.add (stack_op (by simp))) (preLoop_keeps ht)

/-- The instructions of one try. -/
theorem try1_tab {P : Prog} {h : Heur} {maxSwap n : Nat} {p : Plan} {flips : List String} {l : List Item} {flips' : List String}
    (ht : try1 P h maxSwap n p flips = some (l, flips')) : ∀ i ∈ l, OfTab P i := by
  unfold try1 at ht
  split at ht
  · cases ht
  rename_i s hs
  unfold compute at ht
  split at ht
  · cases ht
  rename_i c hc
  split at ht
  · rename_i q hq
    cases ht
    have h0 : ∀ i ∈ s.ids, OfTab P i := by
      unfold precompute at hs
      split at hs
      · cases hs
      · rename_i s1 h1
        obtain ⟨a, -, rfl⟩ := Option.map_eq_some_iff.1 hs
        have k := preLoop_keeps h1 (fun i hi => by cases hi)
        exact k
    intro i hi
    rcases mem_append.1 hi with hi | hi
    · exact mainLoop_keeps hc h0 i hi
    · obtain ⟨j, -, rfl⟩ := mem_map.1 hi
      intro u e
      cases j <;> cases e
  · cases ht

/-- What the ids of a schedule are. -/
inductive ScheduledId (tab : List UInstr) (reach : Nat) : String → Prop
  | pop : ScheduledId tab reach "POP"
  | swap (k : Nat) (h1 : 1 ≤ k) (h2 : k ≤ reach) : ScheduledId tab reach ("SWAP" ++ toString k)
  | dup (k : Nat) (h1 : 1 ≤ k) (h2 : k ≤ reach) : ScheduledId tab reach ("DUP" ++ toString k)
  | vget (v : String) : ScheduledId tab reach ("VGET(" ++ v ++ ")")
  | vset (v : String) : ScheduledId tab reach ("VSET(" ++ v ++ ")")
  | op (u : UInstr) (h : u ∈ tab) : ScheduledId tab reach u.id

/-- **C89.** Every id of a schedule is `POP`, a `SWAP` or a `DUP` within reach, the load or the store of a value, or the id of an instruction of the specification. Nothing is assumed
about the specification and the choices of the scheduler. -/
theorem greedy_ids {tab : List UInstr} {src tgt : List String} {deps : List (String × String)} {reach n : Nat} {junk : Bool}
    {h h' : Heur} {p p' : Plan} {r : List (String × String)} (hr : greedy tab src tgt deps reach n junk h h' p p' = some r) :
    ∀ s ∈ r.map Prod.snd, ScheduledId tab reach s := by
  have hreach := fun k hk => greedy_within_reach hr k hk
  have key : ∀ (P : Prog) (h : Heur) (l : List Item), P.tab = tab → (∀ i ∈ l, OfTab P i) → Permute.removeUseless (l.map (Item.render h)) = r →
      ∀ s ∈ r.map Prod.snd, ScheduledId tab reach s := by
    intro P h l hP hl e s hs
    obtain ⟨q, hq, rfl⟩ := mem_map.1 hs
    have hm : q ∈ l.map (Item.render h) := by
      rw [← e] at hq
      rcases Permute.dropFrom_mem [] _ q (mem_reverse.1 hq) with h | h
      · cases h
      · exact h
    obtain ⟨i, hi, rfl⟩ := mem_map.1 hm
    cases i with
    | pop => exact .pop
    | swap k => have := hreach k (Or.inl hs); exact .swap k this.1 this.2
    | dup k => have := hreach k (Or.inr hs); exact .dup k this.1 this.2
    | vget v => exact .vget v
    | vset v => exact .vset v
    | op u => exact .op u (hP ▸ hl _ hi u rfl)
  unfold greedy at hr
  dsimp only at hr
  split at hr
  · cases hr
  rename_i l flips ht
  split at hr
  · split at hr
    · split at hr
      · cases hr
      rename_i l' flips' ht'
      split at hr
      · split at hr
        · exact key _ _ _ rfl (try1_tab ht') (Option.some.inj hr)
        · exact key _ _ _ rfl (try1_tab ht) (Option.some.inj hr)
      · cases hr
    · exact key _ _ _ rfl (try1_tab ht) (Option.some.inj hr)
  · cases hr

-- a schedule with ids of all kinds
example : ∃ r, greedy exTab ["s2", "s3", "s4", "s0", "s1"] ["s2", "v1", "s3", "s4"] [] 3 100 false exHeur exHeur
    (exPlan [("s0", 1), ("s1", 1), ("v1", 3), ("s2", 1), ("s3", 1), ("s4", 1)]) (exPlan []) = some r ∧
    (∀ s ∈ r.map Prod.snd, ScheduledId exTab 3 s) ∧ ∀ s ∈ ["POP", "SWAP3", "DUP2", "VGET(s1)", "VSET(s4)", "MUL_0"], s ∈ r.map Prod.snd := by
  cases hr : greedy exTab ["s2", "s3", "s4", "s0", "s1"] ["s2", "v1", "s3", "s4"] [] 3 100 false exHeur exHeur
    (exPlan [("s0", 1), ("s1", 1), ("v1", 3), ("s2", 1), ("s3", 1), ("s4", 1)]) (exPlan []) with
  | none => exact absurd hr (by decide +kernel)
  | some r =>
    refine ⟨r, rfl, greedy_ids hr, ?_⟩
    have : ∀ s ∈ ["POP", "SWAP3", "DUP2", "VGET(s1)", "VSET(s4)", "MUL_0"],
        s ∈ ((greedy exTab ["s2", "s3", "s4", "s0", "s1"] ["s2", "v1", "s3", "s4"] [] 3 100 false exHeur exHeur
          (exPlan [("s0", 1), ("s1", 1), ("v1", 3), ("s2", 1), ("s3", 1), ("s4", 1)]) (exPlan [])).getD []).map Prod.snd := by decide +kernel
    rw [hr] at this
    exact this

end Grey.Greedy
