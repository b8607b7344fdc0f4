import Verif.Greedy.Model
import Verif.SymExec.Exact

/-!
# What the scheduler emits leads to the stack it believes to have: single steps
-/

namespace Grey.Greedy
open SymExec

/-- The operation an instruction stands for. -/
def Item.toOp : Item → Op
  | .pop => .pop
  | .swap k => .swap k
  | .dup k => .dup k
  | .vget v => .get v
  | .vset v => .set v
  | .op u => .instr u.id

/-- Executing instructions on names of values. -/
def execItems (tab : List UInstr) : List Item → List Var → Option (List Var)
  | [], st => some st
  | i :: is, st => (execOp tab i.toOp st).bind (execItems tab is)

theorem execItems_append (tab : List UInstr) (a b : List Item) (st : List Var) :
    execItems tab (a ++ b) st = (execItems tab a st).bind (execItems tab b) := by
  induction a generalizing st with
  | nil => rfl
  | cons i is ih =>
    simp only [List.cons_append, execItems]
    cases execOp tab i.toOp st <;> simp [ih]

/-- The names of loaded and stored values are known, and the instructions are those of the specification. -/
def ItemOk (P : Prog) (N : String → Prop) : Item → Prop
  | .vget v => N v
  | .vset v => N v
  | .op u => u ∈ P.tab
  | _ => True

/-- The instructions before the last phase: no value is put into a register. -/
def MainOk (P : Prog) (N : String → Prop) : Item → Prop
  | .vget v => N v
  | .vset _ => False
  | .op u => u ∈ P.tab
  | _ => True

theorem MainOk.ok {P : Prog} {N : String → Prop} {i : Item} (h : MainOk P N i) : ItemOk P N i := by
  cases i <;> first | exact h | exact trivial | exact h.elim

/-- What is assumed of a specification: ids are unique, commutative instructions have two arguments, and no value is named like a write;
`N` holds for the names of values. -/
structure Ok (P : Prog) (N : String → Prop) : Prop where
  uniq : (P.tab.map (·.id)).Nodup
  two : ∀ u ∈ P.tab, u.commutative = true → u.inpt.length = 2
  inp : ∀ u ∈ P.tab, ∀ v ∈ u.inpt, isWrite v = false ∧ N v
  out : ∀ u ∈ P.tab, ∀ v ∈ u.outpt, isWrite v = false ∧ N v
  fin : ∀ v ∈ P.fin, N v

/-- Only lists of arguments of commutative instructions are reversed. -/
def FlipOk (P : Prog) (flips : List String) : Prop := ∀ u ∈ P.tab, u.id ∈ flips → u.commutative = true

/-- From `s` to `t`: the new instructions lead from the old stack to the new one. -/
structure Moves (P : Prog) (N : String → Prop) (s t : St) : Prop where
  emits : ∃ l, t.ids = s.ids ++ l ∧ execItems P.tab l s.stack = some t.stack ∧ ∀ i ∈ l, MainOk P N i
  names : (∀ v ∈ s.stack, N v) → ∀ v ∈ t.stack, N v

theorem Moves.same {P : Prog} {N : String → Prop} {s t : St} (h1 : t.ids = s.ids) (h2 : t.stack = s.stack) : Moves P N s t :=
  ⟨⟨[], by simp [h1], by simp [execItems, h2], by simp⟩, by rw [h2]; exact id⟩

theorem Moves.trans {P : Prog} {N : String → Prop} {a b c : St} (h1 : Moves P N a b) (h2 : Moves P N b c) : Moves P N a c := by
  obtain ⟨⟨l, e1, e2, e3⟩, n1⟩ := h1
  obtain ⟨⟨l', f1, f2, f3⟩, n2⟩ := h2
  refine ⟨⟨l ++ l', ?_, ?_, ?_⟩, fun h => n2 (n1 h)⟩
  · rw [f1, e1, List.append_assoc]
  · rw [execItems_append, e2, Option.bind_some, f2]
  · intro i hi
    rcases List.mem_append.1 hi with hi | hi
    · exact e3 i hi
    · exact f3 i hi

/-- One instruction. -/
theorem Moves.one {P : Prog} {N : String → Prop} {s t : St} {i : Item} (h1 : t.ids = s.ids ++ [i])
    (h2 : execOp P.tab i.toOp s.stack = some t.stack) (h3 : MainOk P N i) (h4 : (∀ v ∈ s.stack, N v) → ∀ v ∈ t.stack, N v) :
    Moves P N s t :=
  ⟨⟨[i], h1, by simp [execItems, h2], by simpa using h3⟩, h4⟩

theorem exec_swap {tab : List UInstr} {st : List Var} {k : Nat} (h : k < st.length) :
    execOp tab (.swap k) st = some (Permute.swapTop st k) := by
  cases st with
  | nil => simp at h
  | cons a c =>
    simp only [execOp, Permute.swapTop]
    rw [List.getElem?_eq_getElem h]
    simp

theorem mem_swapTop {st : List String} {k : Nat} {v : String} (h : v ∈ Permute.swapTop st k) : v ∈ st := by
  unfold Permute.swapTop at h
  split at h
  · rename_i a c b he
    rcases List.mem_or_eq_of_mem_set h with h | h
    · rcases List.mem_or_eq_of_mem_set h with h | h
      · exact h
      · rw [h]; exact List.mem_of_getElem? he
    · rw [h]; simp
  · exact h

theorem length_swapTop (st : List String) (k : Nat) : (Permute.swapTop st k).length = st.length := by
  unfold Permute.swapTop
  split <;> simp

theorem swapTop_zero {st : List String} {k : Nat} (h : k < st.length) : (Permute.swapTop st k)[0]? = st[k]? := by
  cases st with
  | nil => simp at h
  | cons a c =>
    simp only [Permute.swapTop, List.getElem?_eq_getElem h]
    cases k with
    | zero => simp
    | succ k => simp

theorem Moves.swap {P : Prog} {N : String → Prop} {s t : St} {k : Nat} (h0 : k < s.stack.length) (h1 : t.ids = s.ids ++ [.swap k])
    (h2 : t.stack = Permute.swapTop s.stack k) : Moves P N s t :=
  .one h1 (by rw [h2]; exact exec_swap h0) trivial (fun h v hv => h v (by rw [h2] at hv; exact mem_swapTop hv))

theorem Moves.pop {P : Prog} {N : String → Prop} {s t : St} {v : String} {st : List String} (h0 : s.stack = v :: st)
    (h1 : t.ids = s.ids ++ [.pop]) (h2 : t.stack = st) : Moves P N s t :=
  .one h1 (by rw [h0, h2]; rfl) trivial (fun h v hv => h v (by rw [h2] at hv; rw [h0]; exact List.mem_cons_of_mem _ hv))

/-! ### Instructions -/

theorem varInstr_mem {P : Prog} {o : String} {u : UInstr} (h : varInstr P o = some u) : u ∈ P.tab ∧ u.outpt = [o] := by
  refine ⟨List.mem_reverse.1 (List.mem_of_find?_eq_some h), ?_⟩
  have := List.find?_some h
  simpa using this

theorem opInstr_mem {P : Prog} {o : String} {u : UInstr} (h : opInstr P o = some u) : u ∈ P.tab :=
  List.mem_reverse.1 (List.mem_of_find?_eq_some h)

theorem exec_instr {P : Prog} {N : String → Prop} (hP : Ok P N) {u : UInstr} (hu : u ∈ P.tab) {args r : List String}
    (h : args = u.inpt ∨ (u.commutative = true ∧ args = u.inpt.reverse)) :
    execOp P.tab (.instr u.id) (args ++ r) = some (u.outpt ++ r) := by
  simp only [execOp]
  rw [find_unique hP.uniq hu]
  dsimp only
  split
  · rename_i hc
    have h2 := hP.two u hu hc
    match hi : u.inpt with
    | [a, b] =>
      rw [hi] at h
      rcases h with h | ⟨-, h⟩
      · subst h; simp [consumeComm]
      · subst h; simp [consumeComm]
    | [] | [_] | _ :: _ :: _ :: _ => rw [hi] at h2; simp at h2
  · rename_i hc
    rcases h with h | ⟨h, -⟩
    · rw [h, consume_append]; rfl
    · exact absurd h hc

theorem inputs_or {P : Prog} {flips : List String} (hf : FlipOk P flips) {u : UInstr} (hu : u ∈ P.tab) :
    inputs flips u = u.inpt ∨ (u.commutative = true ∧ inputs flips u = u.inpt.reverse) := by
  unfold inputs
  split
  · rename_i h
    exact .inr ⟨hf u hu h, rfl⟩
  · exact .inl rfl

/-- The arguments, once more in the other order if the instruction is commutative. -/
theorem args_or {u : UInstr} {a b : List String} (ha : a = u.inpt ∨ (u.commutative = true ∧ a = u.inpt.reverse))
    (hb : b = a ∨ (u.commutative = true ∧ b = a.reverse)) : b = u.inpt ∨ (u.commutative = true ∧ b = u.inpt.reverse) := by
  rcases ha with rfl | ⟨hc, rfl⟩
  · exact hb
  · rcases hb with rfl | ⟨-, rfl⟩
    · exact .inr ⟨hc, rfl⟩
    · exact .inl (by simp)

theorem mem_inputs {flips : List String} {u : UInstr} {v : String} (h : v ∈ inputs flips u) : v ∈ u.inpt := by
  unfold inputs at h
  split at h
  · simpa using h
  · exact h

/-- An instruction whose arguments are on top. -/
theorem Moves.instr {P : Prog} {N : String → Prop} (hP : Ok P N) {s t : St} {u : UInstr} (hu : u ∈ P.tab) {args r : List String}
    (h : args = u.inpt ∨ (u.commutative = true ∧ args = u.inpt.reverse)) (h0 : s.stack = args ++ r) (h1 : t.ids = s.ids ++ [.op u])
    (h2 : t.stack = u.outpt ++ r) : Moves P N s t := by
  refine .one h1 (by rw [h0, h2]; exact exec_instr hP hu h) hu ?_
  intro hn v hv
  rw [h2] at hv
  rcases List.mem_append.1 hv with hv | hv
  · exact (hP.out u hu v hv).2
  · exact hn v (by rw [h0]; exact List.mem_append.2 (.inr hv))

/-! ### Cleaning -/

theorem cleanLoop_spec (P : Prog) (N : String → Prop) (n i : Nat) (s : St) :
    Moves P N s (cleanLoop P n i s) ∧ (cleanLoop P n i s).flips = s.flips ∧ (cleanLoop P n i s).dup = s.dup := by
  induction n generalizing i s with
  | zero => exact ⟨.same rfl rfl, rfl, rfl⟩
  | succ n ih =>
    unfold cleanLoop
    split
    · dsimp only
      split
      · rename_i h
        generalize ht : ({ s with
          stack := (Permute.swapTop s.stack (cleanScan P s s.stack.length i)).tail
          needed := drop s.needed (s.stack.getD (cleanScan P s s.stack.length i) "")
          ids := s.ids ++ [.swap (cleanScan P s s.stack.length i), .pop] } : St) = t
        obtain ⟨h1, h2, h3⟩ := ih (cleanScan P s s.stack.length i) t
        refine ⟨Moves.trans ?_ h1, by rw [h2, ← ht], by rw [h3, ← ht]⟩
        generalize hk : cleanScan P s s.stack.length i = k at *
        have hlen := length_swapTop s.stack k
        refine Moves.trans (b := { s with stack := Permute.swapTop s.stack k, ids := s.ids ++ [.swap k] })
          (.swap h.2.1 rfl rfl) ?_
        cases hst : Permute.swapTop s.stack k with
        | nil => rw [hst] at hlen; simp at hlen; omega
        | cons a c =>
          refine .pop (v := a) (st := c) rfl ?_ ?_
          · rw [← ht]; simp
          · rw [← ht, hst]; rfl
      · exact ⟨.same rfl rfl, rfl, rfl⟩
    · exact ⟨.same rfl rfl, rfl, rfl⟩

theorem cleanStack_spec (P : Prog) (N : String → Prop) (h : Heur) (o : String) (s : St) :
    Moves P N s (cleanStack P h o s) ∧ (cleanStack P h o s).flips = s.flips := by
  unfold cleanStack
  split
  · exact ⟨.same rfl rfl, rfl⟩
  · have := cleanLoop_spec P N (s.stack.length + 1) 0 s
    exact ⟨this.1, this.2.1⟩

/-! ### Values -/

/-- The value is on top, and the arguments computed so far are below it. -/
def Top (o : String) (s t : St) : Prop :=
  ∃ r, t.stack = o :: r ∧ t.dup = s.dup + 1 ∧ r.take s.dup.toNat = s.stack.take s.dup.toNat

/-- What is proved of `compute_one_with_stack`. -/
def Computes (P : Prog) (N : String → Prop) (rec : String → St → Option St) : Prop :=
  ∀ o s t, N o → FlipOk P s.flips → rec o s = some t →
    Moves P N s t ∧ t.flips = s.flips ∧ (isWrite o = false → 0 ≤ s.dup → Top o s t)

theorem settle_eq (o : String) (s : St) :
    (settle o s).stack = s.stack ∧ (settle o s).ids = s.ids ∧ (settle o s).flips = s.flips ∧ (settle o s).dup = s.dup := by
  unfold settle
  split <;> simp

/-- Pushing a value. -/
theorem push_spec {P : Prog} {N : String → Prop} {s t : St} {o : String} {i : Item} (hN : N o) (h1 : t.ids = s.ids ++ [i])
    (h2 : execOp P.tab i.toOp s.stack = some (o :: s.stack)) (h3 : MainOk P N i) (h4 : t.stack = o :: s.stack)
    (h5 : t.flips = s.flips) (h6 : t.dup = s.dup + 1) :
    Moves P N s t ∧ t.flips = s.flips ∧ (isWrite o = false → 0 ≤ s.dup → Top o s t) := by
  refine ⟨.one h1 (by rw [h4]; exact h2) h3 ?_, h5, fun _ _ => ⟨s.stack, h4, h6, rfl⟩⟩
  intro hn v hv
  rw [h4] at hv
  rcases List.mem_cons.1 hv with rfl | hv
  · exact hN
  · exact hn v hv

theorem pushSmall_spec {P : Prog} {N : String → Prop} (hP : Ok P N) {h : Heur} {u : UInstr} {o : String} {s t : St} (hN : N o)
    (hu : u ∈ P.tab) (ho : u.outpt = [o]) (hi : u.inpt = []) (ht : pushSmall h u o s = some t) :
    Moves P N s t ∧ t.flips = s.flips ∧ (isWrite o = false → 0 ≤ s.dup → Top o s t) := by
  have hex : execOp P.tab (.instr u.id) s.stack = some (o :: s.stack) := by
    have := exec_instr (P := P) hP hu (args := []) (r := s.stack) (.inl hi.symm)
    rw [ho] at this
    exact this
  unfold pushSmall at ht
  dsimp only at ht
  split at ht
  · simp only [Option.some.injEq] at ht
    subst ht
    exact push_spec (i := .op u) hN rfl hex hu rfl rfl rfl
  · have hs := settle_eq o { s with stack := o :: s.stack, dup := s.dup + 1, ids := s.ids ++ [Item.op u] }
    generalize settle o { s with stack := o :: s.stack, dup := s.dup + 1, ids := s.ids ++ [Item.op u] } = w at hs ht
    split at ht
    · simp only [Option.some.injEq] at ht
      subst ht
      exact push_spec (i := .op u) hN hs.2.1 hex hu hs.1 hs.2.2.1 hs.2.2.2
    · split at ht
      · simp only [Option.some.injEq] at ht
        subst ht
        exact push_spec (i := .op u) hN hs.2.1 hex hu hs.1 hs.2.2.1 hs.2.2.2
      · simp at ht

theorem dupTop_spec {P : Prog} {N : String → Prop} {h : Heur} {o : String} {s t : St} (hN : N o) (ho : o ∈ s.stack)
    (ht : dupTop h o s = some t) : Moves P N s t ∧ t.flips = s.flips ∧ (isWrite o = false → 0 ≤ s.dup → Top o s t) := by
  have hex : execOp P.tab (.dup (s.stack.idxOf o + 1)) s.stack = some (o :: s.stack) := by
    have hlt := List.idxOf_lt_length_iff.2 ho
    simp [execOp, List.getElem?_eq_getElem hlt, List.getElem_idxOf]
  unfold dupTop at ht
  dsimp only at ht
  repeat' split at ht
  all_goals first
    | (simp at ht; done)
    | (simp only [Option.some.injEq] at ht
       subst ht
       exact push_spec (i := .dup (s.stack.idxOf o + 1)) hN rfl hex trivial rfl rfl rfl)

/-- `rotate` brings the value at `pos` to the top. -/
theorem rotate_spec (tab : List UInstr) (st : List String) (pos : Nat) (h : pos < st.length) :
    execItems tab (rotate st pos).1 st = some (rotate st pos).2 ∧
      (rotate st pos).2 = st[pos] :: (st.take pos ++ st.drop (pos + 1)) ∧ ∀ i ∈ (rotate st pos).1, ∃ k, i = .swap k := by
  induction pos with
  | zero =>
    refine ⟨rfl, ?_, by simp [rotate]⟩
    cases st with
    | nil => simp at h
    | cons a c => simp [rotate]
  | succ n ih =>
    obtain ⟨h1, h2, h3⟩ := ih (by omega)
    have hlen : (rotate st n).2.length = st.length := by
      rw [h2]; simp; omega
    have hn : (rotate st n).2[n + 1]? = some st[n + 1] := by
      rw [h2, List.getElem?_cons_succ, List.getElem?_append_right (by simp; omega)]
      simp [List.getElem?_drop, Nat.min_eq_left (Nat.le_of_lt (show n < st.length by omega)), List.getElem?_eq_getElem h]
    have h0 : (rotate st n).2[0]? = some st[n] := by rw [h2]; rfl
    have hset : ∀ x : String, ((st.take n ++ st.drop (n + 1)).set n x) = st.take n ++ x :: st.drop (n + 2) := by
      intro x
      rw [List.set_append_right _ _ (by simp; omega)]
      rw [List.length_take, Nat.min_eq_left (by omega), Nat.sub_self, List.drop_eq_getElem_cons h]
      rfl
    have htk : st.take (n + 1) = st.take n ++ [st[n]] := by rw [List.take_succ]; simp [List.getElem?_eq_getElem (show n < st.length by omega)]
    unfold rotate
    dsimp only
    split
    · rename_i hne
      refine ⟨?_, ?_, ?_⟩
      · rw [execItems_append, h1, Option.bind_some]
        simp only [execItems, Item.toOp]
        rw [exec_swap (by omega)]
        rfl
      · unfold Permute.swapTop
        rw [hn]
        rw [h2]
        dsimp only
        rw [List.set_cons_zero, List.set_cons_succ, hset, htk, List.append_assoc]
        rfl
      · intro i hi
        rcases List.mem_append.1 hi with hi | hi
        · exact h3 i hi
        · simp at hi; exact ⟨_, hi⟩
    · rename_i he
      rw [h0, hn] at he
      simp only [ne_eq, Option.some.injEq, Decidable.not_not] at he
      refine ⟨h1, ?_, h3⟩
      rw [h2, htk, List.drop_eq_getElem_cons h, he]
      simp

theorem fromStack_spec {P : Prog} {N : String → Prop} {h : Heur} {maxSwap : Nat} {o : String} {s t : St} (hN : N o)
    (ho : o ∈ s.stack) (ht : fromStack P h maxSwap o s = some t) :
    Moves P N s t ∧ t.flips = s.flips ∧ (isWrite o = false → 0 ≤ s.dup → Top o s t) := by
  unfold fromStack at ht
  split at ht
  · split at ht
    · simp at ht
    · rename_i pos hpos
      have hp : s.stack[pos]? = some o ∧ s.dup ≤ pos := by
        split at hpos
        · rename_i hlt
          obtain ⟨k, hk, rfl⟩ := Option.map_eq_some_iff.1 hpos
          rw [List.findIdx?_eq_some_iff_getElem] at hk
          obtain ⟨hk1, hk2, -⟩ := hk
          rw [List.length_drop] at hk1
          refine ⟨?_, by omega⟩
          rw [List.getElem_drop] at hk2
          simp only [beq_iff_eq] at hk2
          rw [Nat.add_comm]
          exact List.getElem?_eq_some_iff.2 ⟨by omega, hk2⟩
        · rename_i hlt
          simp only [Option.some.injEq] at hpos
          subst hpos
          refine ⟨?_, by omega⟩
          rw [List.getElem?_eq_getElem (List.idxOf_lt_length_iff.2 ho), List.getElem_idxOf]
      obtain ⟨hl, hpo⟩ := List.getElem?_eq_some_iff.1 hp.1
      split at ht
      · split at ht
        · rename_i hd
          split at ht
          · rename_i h0
            simp only [Option.some.injEq] at ht
            subst ht
            refine ⟨.same rfl rfl, rfl, fun _ _ => ?_⟩
            subst h0
            cases hs : s.stack with
            | nil => rw [hs] at hl; simp at hl
            | cons a c =>
              refine ⟨c, ?_, rfl, by simp [hd]⟩
              have := hp.1
              rw [hs] at this
              simp at this
              simp [hs, this]
          · simp only [Option.some.injEq] at ht
            subst ht
            refine ⟨.swap hl rfl rfl, rfl, fun _ _ => ?_⟩
            have h0 := swapTop_zero hl
            have hlen := length_swapTop s.stack pos
            cases hs : Permute.swapTop s.stack pos with
            | nil => rw [hs] at hlen; simp at hlen; omega
            | cons a c =>
              rw [hs, hp.1] at h0
              simp at h0
              exact ⟨c, by simp [h0], rfl, by simp [hd]⟩
        · split at ht
          · exact dupTop_spec hN ho ht
          · split at ht
            · simp at ht
            · split at ht
              · split at ht
                · simp at ht
                · simp only [Option.some.injEq] at ht
                  subst ht
                  obtain ⟨h1, h2, h3⟩ := rotate_spec P.tab s.stack pos hl
                  refine ⟨⟨⟨_, rfl, h1, ?_⟩, ?_⟩, rfl, fun _ hd => ?_⟩
                  · intro i hi
                    obtain ⟨k, rfl⟩ := h3 i hi
                    trivial
                  · intro hn v hv
                    dsimp only at hv
                    rw [h2] at hv
                    rcases List.mem_cons.1 hv with rfl | hv
                    · exact hn _ (List.getElem_mem _)
                    · rcases List.mem_append.1 hv with hv | hv
                      · exact hn v (List.mem_of_mem_take hv)
                      · exact hn v (List.mem_of_mem_drop hv)
                  · refine ⟨s.stack.take pos ++ s.stack.drop (pos + 1), ?_, rfl, ?_⟩
                    · dsimp only
                      rw [h2, hpo]
                    · rw [List.take_append_of_le_length (by simp; omega), List.take_take, Nat.min_eq_left (by omega)]
              · exact dupTop_spec hN ho ht
      · exact dupTop_spec hN ho ht
  · exact dupTop_spec hN ho ht

/-- All arguments one after the other. -/
theorem computeAll_spec {P : Prog} {N : String → Prop} {rec : String → St → Option St} (hrec : Computes P N rec) (os : List String)
    {s t : St} (hN : ∀ o ∈ os, N o) (hf : FlipOk P s.flips) (ht : computeAll rec os s = some t) :
    Moves P N s t ∧ t.flips = s.flips ∧ ((∀ o ∈ os, isWrite o = false) → 0 ≤ s.dup →
      ∃ r, t.stack = os.reverse ++ r ∧ t.dup = s.dup + os.length ∧ r.take s.dup.toNat = s.stack.take s.dup.toNat) := by
  induction os generalizing s with
  | nil =>
    simp only [computeAll, Option.some.injEq] at ht
    subst ht
    exact ⟨.same rfl rfl, rfl, fun _ _ => ⟨s.stack, rfl, by simp, rfl⟩⟩
  | cons o os ih =>
    obtain ⟨w, hw, ht⟩ := Option.bind_eq_some_iff.1 ht
    obtain ⟨m1, f1, t1⟩ := hrec o s w (hN o (by simp)) hf hw
    obtain ⟨m2, f2, t2⟩ := ih (fun x hx => hN x (List.mem_cons_of_mem _ hx)) (by rw [f1]; exact hf) ht
    refine ⟨m1.trans m2, f2.trans f1, fun hw hd => ?_⟩
    obtain ⟨r1, e1, d1, k1⟩ := t1 (hw o (by simp)) hd
    obtain ⟨r2, e2, d2, k2⟩ := t2 (fun x hx => hw x (List.mem_cons_of_mem _ hx)) (by omega)
    have hn : w.dup.toNat = s.dup.toNat + 1 := by omega
    rw [hn, e1, List.take_succ_cons, k1] at k2
    cases r2 with
    | nil => simp at k2
    | cons a r2 =>
      simp only [List.take_succ_cons, List.cons.injEq] at k2
      refine ⟨r2, ?_, ?_, k2.2⟩
      · rw [e2, k2.1]; simp
      · rw [d2, d1]; simp only [List.length_cons]; omega

theorem mustReverse_comm {P : Prog} {h : Heur} {o : String} {l : List String} {s : St} (hm : mustReverse P h o l s = false) :
    ∃ u, varInstr P o = some u ∧ u.commutative = true := by
  unfold mustReverse at hm
  split at hm
  · simp at hm
  · rename_i u hu
    refine ⟨u, hu, ?_⟩
    split at hm
    · simp at hm
    · rename_i hc; simpa using hc

theorem instrOf_spec {P : Prog} {N : String → Prop} (hP : Ok P N) {h : Heur} {o : String} {u : UInstr} (hu : instrOf P h o = some u) :
    u ∈ P.tab ∧ (∀ v, varInstr P o = some v → v = u ∧ isWrite o = false) ∧ (isWrite o = false → u.outpt = [o]) := by
  unfold instrOf at hu
  split at hu
  · rename_i hw
    refine ⟨opInstr_mem hu, ?_, ?_⟩
    · intro v hv
      obtain ⟨h1, h2⟩ := varInstr_mem hv
      have := (hP.out v h1 o (by rw [h2]; simp)).1
      rw [this] at hw
      simp at hw
    · intro hw2; rw [hw2] at hw; simp at hw
  · rename_i hw
    split at hu
    · simp at hu
    · rename_i v hv
      split at hu
      · simp at hu
      · simp only [Option.some.injEq] at hu
        subst hu
        obtain ⟨h1, h2⟩ := varInstr_mem hv
        refine ⟨h1, ?_, fun _ => h2⟩
        intro v' hv'
        rw [hv] at hv'
        exact ⟨(Option.some.inj hv').symm, by simpa using hw⟩

theorem isComm_spec {P : Prog} {o : String} (h : isComm P o = true) : ∃ u, varInstr P o = some u ∧ u.commutative = true := by
  unfold isComm at h
  split at h
  · simp at h
  · rename_i u hu; exact ⟨u, hu, h⟩

theorem build_spec {P : Prog} {N : String → Prop} (hP : Ok P N) {h : Heur} {rec : String → St → Option St} (hrec : Computes P N rec)
    {o : String} {s t : St} (hf : FlipOk P s.flips) (ht : build P h rec o s = some t) :
    Moves P N s t ∧ t.flips = s.flips ∧ (isWrite o = false → 0 ≤ s.dup → Top o s t) := by
  unfold build at ht
  split at ht
  · simp at ht
  split at ht
  · simp at ht
  rename_i u hu
  obtain ⟨hmem, hvar, hout⟩ := instrOf_spec hP hu
  have hin := inputs_or hf hmem
  have hwr : ∀ v ∈ inputs s.flips u, isWrite v = false ∧ N v := fun v hv => hP.inp u hmem v (mem_inputs hv)
  have hcomm : isComm P o = true → u.commutative = true := by
    intro hc
    obtain ⟨v, hv, hvc⟩ := isComm_spec hc
    rw [← (hvar v hv).1]; exact hvc
  dsimp only at ht
  generalize hI : inputs s.flips u = inpts at *
  split at ht
  · -- both arguments are on top
    rename_i hc
    obtain ⟨hl, hs2, hd, -, -, hor, -, -⟩ := hc
    simp only [Option.some.injEq] at ht
    subst ht
    match hst : s.stack with
    | [] | [_] => rw [hst] at hs2; simp at hs2
    | a :: b :: r =>
      rw [hst] at hor
      simp only [List.getD_cons_zero, List.getD_cons_succ] at hor
      have hargs : [a, b] = u.inpt ∨ (u.commutative = true ∧ [a, b] = u.inpt.reverse) := by
        refine args_or hin ?_
        rcases hor with hor | ⟨hc, hor⟩
        · exact .inl hor.symm
        · exact .inr ⟨hcomm hc, by rw [hor]; rfl⟩
      have hdrop : s.stack.drop inpts.length = r := by rw [hl, hst]; rfl
      refine ⟨.instr hP hmem hargs (r := r) hst rfl (by dsimp only; rw [← hst, hdrop]), rfl, fun hw _ => ⟨r, ?_, rfl, by simp [hd]⟩⟩
      dsimp only
      rw [← hst, hdrop, hout hw]; rfl
  · split at ht
    · -- one argument is on top
      rename_i hc
      obtain ⟨hl, hs1, hd, -, hcm, h0, -⟩ := hc
      obtain ⟨w, hw, rfl⟩ := Option.map_eq_some_iff.1 ht
      match hi : inpts, hl with
      | [x, y], _ =>
        simp only [List.getD_cons_zero, List.getD_cons_succ] at hw h0
        obtain ⟨m1, f1, t1⟩ := hrec y { s with needed := _, dup := s.dup + 1 } w (hwr y (by simp)).2 hf hw
        obtain ⟨r, e1, d1, k1⟩ := t1 (hwr y (by simp)).1 (by dsimp only; omega)
        dsimp only at d1 k1
        cases hst : s.stack with
        | nil => rw [hst] at hs1; simp at hs1
        | cons a c =>
          rw [hst] at h0 k1
          simp only [List.getD_cons_zero] at h0
          subst h0
          have hd1 : (s.dup + 1).toNat = 1 := by omega
          rw [hd1] at k1
          cases r with
          | nil => simp at k1
          | cons b r =>
            simp at k1
            subst k1
            have hargs : [y, b] = u.inpt ∨ (u.commutative = true ∧ [y, b] = u.inpt.reverse) :=
              args_or hin (.inr ⟨hcomm hcm, rfl⟩)
            refine ⟨Moves.trans (b := w) (Moves.trans (b := { s with needed := _, dup := s.dup + 1 }) (.same rfl rfl) m1) (.instr hP hmem hargs (r := r) e1 rfl ?_), ?_, ?_⟩
            · simp only [execute]; rw [e1]; rfl
            · simp only [execute]; exact f1
            · intro hw' _
              refine ⟨r, ?_, ?_, by simp [hd]⟩
              · simp only [execute]; rw [e1, hout hw']; rfl
              · simp only [execute]; rw [d1, hout hw']; simp; omega
    · -- all arguments are computed
      generalize hA : (if mustReverse P h o inpts s = true then inpts.reverse else inpts) = args at ht
      have hargs : args.reverse = u.inpt ∨ (u.commutative = true ∧ args.reverse = u.inpt.reverse) := by
        refine args_or hin ?_
        split at hA
        · exact .inl (by rw [← hA]; simp)
        · rename_i hm
          obtain ⟨v, hv, hvc⟩ := mustReverse_comm (by simpa using hm)
          refine .inr ⟨by rw [← (hvar v hv).1]; exact hvc, by rw [← hA]⟩
      have hAm : ∀ v ∈ args, v ∈ inpts := by
        intro v hv
        rw [← hA] at hv
        split at hv
        · simpa using hv
        · exact hv
      split at ht
      · simp at ht
      · rename_i w hw
        obtain ⟨m1, f1, t1⟩ := computeAll_spec hrec args (fun v hv => (hwr v (hAm v hv)).2) hf hw
        split at ht
        · rename_i hpre
          split at ht
          · simp at ht
          · simp only [Option.some.injEq] at ht
            subst ht
            obtain ⟨r, hr⟩ := List.isPrefixOf_iff_prefix.1 hpre
            have hdrop : w.stack.drop args.length = r := by
              rw [← hr]; simp [List.drop_append]
            refine ⟨m1.trans (.instr hP hmem hargs (r := r) hr.symm rfl ?_), ?_, ?_⟩
            · simp only [execute]; rw [hdrop]
            · simp only [execute]; exact f1
            · intro hw' hd
              obtain ⟨r', e1, d1, k1⟩ := t1 (fun v hv => (hwr v (hAm v hv)).1) hd
              refine ⟨r', ?_, ?_, k1⟩
              · simp only [execute]
                rw [hout hw', e1]; simp [List.drop_append]
              · simp only [execute]
                rw [d1, hout hw']; simp
        · simp at ht

theorem oneStep_spec {P : Prog} {N : String → Prop} (hP : Ok P N) (h : Heur) (maxSwap : Nat) {rec : String → St → Option St}
    (hrec : Computes P N rec) : Computes P N (oneStep P h maxSwap rec) := by
  intro o s t hN hf ht
  have hrest : oneStep.rest P h maxSwap rec o s = some t →
      Moves P N s t ∧ t.flips = s.flips ∧ (isWrite o = false → 0 ≤ s.dup → Top o s t) := by
    intro ht
    unfold oneStep.rest at ht
    dsimp only at ht
    have hs : (if (look s.needed o).isSome ∧ o ∉ s.stack.take P.reach ∧ s.dup = 0 then
        { s with needed := (cleanStack P h o s).needed } else s) = { s with needed := (if (look s.needed o).isSome ∧ o ∉ s.stack.take P.reach ∧ s.dup = 0 then
        (cleanStack P h o s).needed else s.needed) } := by
      split <;> rfl
    rw [hs] at ht
    generalize (if (look s.needed o).isSome ∧ o ∉ s.stack.take P.reach ∧ s.dup = 0 then
        (cleanStack P h o s).needed else s.needed) = nd at ht
    -- the dictionary does not matter
    have key : Moves P N { s with needed := nd } t ∧ t.flips = ({ s with needed := nd } : St).flips ∧
        (isWrite o = false → 0 ≤ ({ s with needed := nd } : St).dup → Top o { s with needed := nd } t) := by
      have hf' : FlipOk P ({ s with needed := nd } : St).flips := hf
      generalize ({ s with needed := nd } : St) = s' at ht hf'
      split at ht
      · split at ht
        · split at ht
          · simp only [Option.some.injEq] at ht
            subst ht
            exact push_spec (i := .vget o) hN rfl rfl hN rfl rfl rfl
          · simp at ht
        · rename_i ho
          exact fromStack_spec hN (List.mem_of_mem_take (Decidable.not_not.1 ho)) ht
      · split at ht
        · rename_i ho
          exact fromStack_spec hN (List.mem_of_mem_take ho) ht
        · exact build_spec hP hrec hf' ht
    exact ⟨Moves.trans (b := { s with needed := nd }) (.same rfl rfl) key.1, key.2.1, key.2.2⟩
  unfold oneStep at ht
  split at ht
  · rename_i u hu
    split at ht
    · rename_i hsm
      obtain ⟨h1, h2⟩ := varInstr_mem hu
      refine pushSmall_spec hP hN h1 h2 ?_ ht
      simp only [smallZeroary, hu, Bool.and_eq_true, List.isEmpty_iff] at hsm
      exact hsm.1.1
    · exact hrest ht
  · exact hrest ht

theorem computeOne_spec {P : Prog} {N : String → Prop} (hP : Ok P N) (h : Heur) (maxSwap n : Nat) :
    Computes P N (computeOne P h maxSwap n) := by
  induction n with
  | zero => intro o s t _ _ ht; simp [computeOne] at ht
  | succ n ih => exact oneStep_spec hP h maxSwap ih

end Grey.Greedy
