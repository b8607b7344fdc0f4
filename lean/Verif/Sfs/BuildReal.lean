/-
C50: the specification of a block without repeated pushes can be met.
-/
import Verif.Sfs.BuildWitness
import Verif.SymExec.Schedule
open List
namespace Grey.Sfs
open Grey.SymExec

/-! ### Specification -/

/-- Every variable that the block or its final stack uses is in the initial stack or assigned before. -/
structure ClosedBlock (instrs : List Ins) (initial stack : List String) : Prop where
  args : ∀ (n : Nat) (i : Ins), instrs[n]? = some i → ∀ v ∈ i.inArgs, IsLiteral v ∨ v ∈ initial ∨
    ∃ (m : Nat) (j : Ins), m < n ∧ instrs[m]? = some j ∧ v ∈ j.outArgs
  final : ∀ v ∈ stack, IsLiteral v ∨ v = "bottom" ∨ v ∈ initial ∨ ∃ j ∈ instrs, v ∈ j.outArgs

/-- No two instructions of the block push the same thing. -/
def NoRepeatedPush (instrs : List Ins) : Prop :=
  ∀ (m n : Nat) (i j : Ins), m < n → instrs[m]? = some i → instrs[n]? = some j → "push".toList <+: i.op.toList →
    ¬ (i.op = j.op ∧ i.lits = j.lits)

/-! ### Proofs -/

/-- What is known about the entries built so far; `A` holds for the names that have been used. -/
structure RInv (instrs : List Ins) (src : List String) (A : String → Prop) (n : Nat) (st : St) : Prop where
  flow : ∀ (k : Nat) (e : Entry), st.entries[k]? = some e → ∀ v ∈ e.instr.inpt, v ∈ src ∨
    ∃ (k' : Nat) (e' : Entry), k' < k ∧ st.entries[k']? = some e' ∧ v ∈ e'.instr.outpt
  outsIn : ∀ e ∈ st.entries, e.instr.outpt.Nodup
  outs : ∀ (k k' : Nat) (e e' : Entry) (o : String), st.entries[k]? = some e → st.entries[k']? = some e' → o ∈ e.instr.outpt →
    o ∈ e'.instr.outpt → k = k'
  fresh : ∀ e ∈ st.entries, ∀ o ∈ e.instr.outpt, o ∉ src
  names : ∀ e ∈ st.entries, ∀ o ∈ e.instr.outpt, A o
  tab : ∀ (c : String) (p : Nat), st.table.lookup ("PUSH", [c]) = some p → ∃ (e : Entry) (o : String), st.entries[p]? = some e ∧ e.instr.outpt = [o]
  tabLt : ∀ kp ∈ st.table, kp.2 < st.entries.length
  tabInj : ∀ kp ∈ st.table, ∀ kp' ∈ st.table, kp.2 = kp'.2 → kp = kp'
  keys : ∀ (m : Nat) (i : Ins) (k : String × List String) (p : Nat), n ≤ m → instrs[m]? = some i → pushLike i.op = true → i.key = some k → st.table.lookup k = some p →
    i.op = "push" ∧ ∃ (e : Entry) (o : String), st.entries[p]? = some e ∧ e.instr.outpt = [o] ∧ Generated o
  produced : ∀ (m : Nat) (i : Ins), m < n → instrs[m]? = some i → ∀ o ∈ i.outArgs, ∃ e ∈ st.entries, o ∈ e.instr.outpt
  aliases : ∀ xy ∈ st.aliases, ¬ Proper xy.1 ∧ A xy.1 ∧ (xy.1 = xy.2 ∨ ∀ e ∈ st.entries, xy.1 ∉ e.instr.outpt)
  comm : ∀ e ∈ st.entries, e.instr.commutative = true → e.instr.inpt.length = 2

variable {instrs : List Ins} {src : List String} {A : String → Prop} {n : Nat} {st : St}

theorem lookup_mem {A B : Type} [BEq A] [LawfulBEq A] {l : List (A × B)} {k : A} {v : B} (h : l.lookup k = some v) :
    (k, v) ∈ l := by
  obtain ⟨l₁, l₂, rfl, _⟩ := List.lookup_eq_some_iff.1 h
  simp

theorem getElem?_snoc {A : Type} {l : List A} {a b : A} {k : Nat} (h : (l ++ [a])[k]? = some b) :
    l[k]? = some b ∨ (k = l.length ∧ a = b) := by
  rw [List.getElem?_append] at h
  split at h
  · exact Or.inl h
  · rename_i hk
    right
    have : k - l.length = 0 := by
      cases hc : k - l.length with
      | zero => rfl
      | succ m => rw [hc] at h; simp at h
    rw [this] at h
    simp at h
    exact ⟨by omega, h⟩

theorem getElem?_snoc_left {A : Type} {l : List A} {a b : A} {k : Nat} (h : l[k]? = some b) : (l ++ [a])[k]? = some b := by
  rw [List.getElem?_append_left (List.getElem?_eq_some_iff.1 h).1]; exact h

/-- Adding an entry. -/
theorem RInv.add (h : RInv instrs src A n st) {A' : String → Prop} {n' : Nat} (key : String × List String) (name : String) (e : Entry)
    (ps : List (Nat × String)) (idx : Nat) (hA : ∀ x, A x → A' x) (hn : n ≤ n')
    (hin : ∀ v ∈ e.instr.inpt, v ∈ src ∨ ∃ e' ∈ st.entries, v ∈ e'.instr.outpt)
    (hnd : e.instr.outpt.Nodup) (hfresh : ∀ o ∈ e.instr.outpt, o ∉ src ∧ ¬ A o ∧ A' o)
    (hpush : ∀ c, key = ("PUSH", [c]) → ∃ o, e.instr.outpt = [o])
    (hkeys : ∀ (m : Nat) (i : Ins), n' ≤ m → instrs[m]? = some i → pushLike i.op = true → i.key = some key →
      i.op = "push" ∧ ∃ o, e.instr.outpt = [o] ∧ Generated o)
    (hprod : ∀ (m : Nat) (i : Ins), m < n' → ¬ m < n → instrs[m]? = some i → ∀ o ∈ i.outArgs, o ∈ e.instr.outpt)
    (hcomm : e.instr.commutative = true → e.instr.inpt.length = 2) :
    RInv instrs src A' n' { st.add key name e with positions := ps, outIdx := idx } where
  flow := by
    intro k x hx v hv
    rcases getElem?_snoc hx with hx | ⟨rfl, rfl⟩
    · rcases h.flow k x hx v hv with h1 | ⟨k', e', h1, h2, h3⟩
      · exact Or.inl h1
      · exact Or.inr ⟨k', e', h1, getElem?_snoc_left h2, h3⟩
    · rcases hin v hv with h1 | ⟨e', h1, h2⟩
      · exact Or.inl h1
      · obtain ⟨k', hk'⟩ := List.mem_iff_getElem?.1 h1
        exact Or.inr ⟨k', e', (List.getElem?_eq_some_iff.1 hk').1, getElem?_snoc_left hk', h2⟩
  outsIn := by
    intro x hx
    rcases List.mem_append.1 hx with hx | hx
    · exact h.outsIn x hx
    · simp only [List.mem_singleton] at hx; subst hx; exact hnd
  outs := by
    intro k k' x x' o hx hx' ho ho'
    rcases getElem?_snoc hx with hx | ⟨rfl, rfl⟩
    · rcases getElem?_snoc hx' with hx' | ⟨rfl, rfl⟩
      · exact h.outs k k' x x' o hx hx' ho ho'
      · exact absurd (h.names x (List.mem_of_getElem? hx) o ho) (hfresh o ho').2.1
    · rcases getElem?_snoc hx' with hx' | ⟨rfl, rfl⟩
      · exact absurd (h.names x' (List.mem_of_getElem? hx') o ho') (hfresh o ho).2.1
      · rfl
  fresh := by
    intro x hx
    rcases List.mem_append.1 hx with hx | hx
    · exact h.fresh x hx
    · simp only [List.mem_singleton] at hx; subst hx; exact fun o ho => (hfresh o ho).1
  names := by
    intro x hx
    rcases List.mem_append.1 hx with hx | hx
    · exact fun o ho => hA o (h.names x hx o ho)
    · simp only [List.mem_singleton] at hx; subst hx; exact fun o ho => (hfresh o ho).2.2
  tab := by
    intro c p hl
    simp only [St.add] at hl
    rw [lookup_cons_eq] at hl
    split at hl
    · rename_i hk
      simp only [Option.some.injEq] at hl; subst hl
      obtain ⟨o, ho⟩ := hpush c hk.symm
      exact ⟨e, o, by simp [St.add], ho⟩
    · obtain ⟨e', o, h1, h2⟩ := h.tab c p hl
      exact ⟨e', o, getElem?_snoc_left h1, h2⟩
  tabLt := by
    intro kp hkp
    simp only [St.add, List.length_append, List.length_singleton]
    rcases List.mem_cons.1 hkp with rfl | hkp
    · simp
    · have := h.tabLt kp hkp; omega
  tabInj := by
    intro kp hkp kp' hkp' he
    rcases List.mem_cons.1 hkp with rfl | hkp
    · rcases List.mem_cons.1 hkp' with rfl | hkp'
      · rfl
      · have := h.tabLt kp' hkp'; simp only at he; omega
    · rcases List.mem_cons.1 hkp' with rfl | hkp'
      · have := h.tabLt kp hkp; simp only at he; omega
      · exact h.tabInj kp hkp kp' hkp' he
  keys := by
    intro m i k p hm hi hp hk hl
    simp only [St.add] at hl
    rw [lookup_cons_eq] at hl
    split at hl
    · rename_i hkk
      subst hkk
      simp only [Option.some.injEq] at hl; subst hl
      obtain ⟨h1, o, h2, h3⟩ := hkeys m i hm hi hp hk
      exact ⟨h1, e, o, by simp [St.add], h2, h3⟩
    · obtain ⟨h1, e', o, h2, h3, h4⟩ := h.keys m i k p (by omega) hi hp hk hl
      exact ⟨h1, e', o, getElem?_snoc_left h2, h3, h4⟩
  produced := by
    intro m i hm hi o ho
    by_cases hmn : m < n
    · obtain ⟨x, hx, hxo⟩ := h.produced m i hmn hi o ho
      exact ⟨x, List.mem_append_left _ hx, hxo⟩
    · exact ⟨e, by simp [St.add], hprod m i hm hmn hi o ho⟩
  aliases := by
    intro xy hxy
    obtain ⟨h1, h2, h3⟩ := h.aliases xy hxy
    refine ⟨h1, hA _ h2, h3.imp id ?_⟩
    intro h3 x hx
    rcases List.mem_append.1 hx with hx | hx
    · exact h3 x hx
    · simp only [List.mem_singleton] at hx; subst hx
      exact fun ho => (hfresh _ ho).2.1 h2
  comm := by
    intro x hx
    rcases List.mem_append.1 hx with hx | hx
    · exact h.comm x hx
    · simp only [List.mem_singleton] at hx; subst hx; exact hcomm

theorem RInv.weaken (h : RInv instrs src A n st) {A' : String → Prop} (hA : ∀ x, A x → A' x) : RInv instrs src A' n st :=
  { h with names := fun e he o ho => hA o (h.names e he o ho)
           aliases := fun xy hxy => ⟨(h.aliases xy hxy).1, hA _ (h.aliases xy hxy).2.1, (h.aliases xy hxy).2.2⟩ }

/-- The names used before instruction `n`, with `k` generated ones. -/
def Used (instrs : List Ins) (n k : Nat) (x : String) : Prop :=
  (∃ (m : Nat) (i : Ins), m < n ∧ instrs[m]? = some i ∧ x ∈ i.outArgs) ∨ ∃ j : Nat, j < k ∧ x = "s" ++ toString j

theorem Used.mono {a b k l : Nat} (h : a ≤ b) (hk : k ≤ l) {x : String} : Used instrs a k x → Used instrs b l x
  | .inl ⟨m, i, h1, h2, h3⟩ => .inl ⟨m, i, by omega, h2, h3⟩
  | .inr ⟨j, h1, h2⟩ => .inr ⟨j, by omega, h2⟩

theorem used_generated (hb : BlockOk instrs src) {n k j : Nat} (h : Used instrs n k ("s" ++ toString j)) : j < k := by
  rcases h with ⟨m, i, _, hi, ho⟩ | ⟨j', hj, e⟩
  · exact absurd ⟨j, rfl⟩ (hb.proper i (List.mem_of_getElem? hi) _ ho).notGen
  · have := Names.prefix_inj e; omega

theorem generated_not_src (hb : BlockOk instrs src) {x : String} (h : Generated x) : x ∉ src := fun hx => hb.source x hx h

theorem comm_push (k idx : Nat) (outs : List String) : (pushEntry k idx outs).instr.commutative = false := by
  unfold pushEntry; split <;> rfl

/-- The arguments. -/
theorem buildArgs_real (hb : BlockOk instrs src) (as : List String) :
    ∀ (st : St) (xs : List String) (st' : St), RInv instrs src (Used instrs n st.outIdx) n st →
      (∀ a ∈ as, IsLiteral a ∨ a ∈ src ∨ ∃ e ∈ st.entries, a ∈ e.instr.outpt) →
      buildArgs as st = some (xs, st') →
      RInv instrs src (Used instrs n st'.outIdx) n st' ∧ (∀ x ∈ xs, x ∈ src ∨ ∃ e ∈ st'.entries, x ∈ e.instr.outpt) ∧
        xs.length = as.length ∧ ∀ e ∈ st.entries, e ∈ st'.entries := by
  induction as with
  | nil =>
    intro st xs st' h _ hs
    simp only [buildArgs, Option.some.injEq, Prod.mk.injEq] at hs
    obtain ⟨rfl, rfl⟩ := hs
    exact ⟨h, by simp, rfl, fun _ h => h⟩
  | cons a as ih =>
    intro st xs st' h has hs
    rw [buildArgs] at hs
    by_cases hc : isConst a = true
    · rw [if_pos hc] at hs
      cases hl : st.table.lookup ("PUSH", [a]) with
      | some p =>
        rw [hl] at hs
        simp only at hs
        obtain ⟨e, he, hs⟩ := Option.bind_eq_some_iff.1 hs
        obtain ⟨o, ho, hs⟩ := Option.bind_eq_some_iff.1 hs
        obtain ⟨⟨ys, st2⟩, hr, hs⟩ := Option.map_eq_some_iff.1 hs
        simp only [Prod.mk.injEq] at hs
        obtain ⟨rfl, rfl⟩ := hs
        obtain ⟨h1, h2, h3, h4⟩ := ih st ys st2 h (fun x hx => has x (by simp [hx])) hr
        refine ⟨h1, ?_, by simp [h3], h4⟩
        intro x hx
        rcases List.mem_cons.1 hx with rfl | hx
        · exact Or.inr ⟨e, h4 e (List.mem_of_getElem? he), List.mem_of_mem_head? ho⟩
        · exact h2 x hx
      | none =>
        rw [hl] at hs
        simp only at hs
        obtain ⟨st1, hp, hs⟩ := Option.bind_eq_some_iff.1 hs
        obtain ⟨⟨ys, st2⟩, hr, hs⟩ := Option.map_eq_some_iff.1 hs
        simp only [Prod.mk.injEq] at hs
        obtain ⟨rfl, rfl⟩ := hs
        unfold St.addPush at hp
        obtain ⟨k, hk, rfl⟩ := Option.map_eq_some_iff.1 hp
        have hinv := h.add (A' := Used instrs n (st.outIdx + 1)) (n' := n) ("PUSH", [a]) (if k ≠ 0 then "PUSH" else "PUSH0")
          (pushEntry k (st.idx (if k ≠ 0 then "PUSH" else "PUSH0")) ["s" ++ toString st.outIdx]) st.positions (st.outIdx + 1)
          (fun x => Used.mono (Nat.le_refl _) (by omega)) (Nat.le_refl _)
          (by rw [pushEntry_inpt]; simp)
          (by rw [pushEntry_outpt]; simp)
          (by
            rw [pushEntry_outpt]
            intro o ho
            simp only [List.mem_singleton] at ho; subst ho
            refine ⟨generated_not_src hb ⟨_, rfl⟩, fun hu => ?_, Or.inr ⟨_, by omega, rfl⟩⟩
            have := used_generated hb hu; omega)
          (by rw [pushEntry_outpt]; exact fun c _ => ⟨_, rfl⟩)
          (by
            intro m i hm hi hpl hkey
            refine ⟨?_, _, pushEntry_outpt _ _ _, ⟨_, rfl⟩⟩
            unfold Ins.key at hkey
            rw [if_pos hpl] at hkey
            obtain ⟨l, hl, he⟩ := Option.map_eq_some_iff.1 hkey
            simp only [Prod.mk.injEq] at he
            exact hb.noPush i (List.mem_of_getElem? hi) he.1)
          (fun m i h1 h2 => absurd h1 h2)
          (by rw [comm_push]; simp)
        obtain ⟨h1, h2, h3, h4⟩ := ih _ ys st2 hinv (by
          intro x hx
          rcases has x (by simp [hx]) with h | h | ⟨e, he, ho⟩
          · exact Or.inl h
          · exact Or.inr (Or.inl h)
          · exact Or.inr (Or.inr ⟨e, List.mem_append_left _ he, ho⟩)) hr
        refine ⟨h1, ?_, by simp [h3], fun e he => h4 e (List.mem_append_left _ he)⟩
        intro x hx
        rcases List.mem_cons.1 hx with rfl | hx
        · exact Or.inr ⟨pushEntry k (st.idx (if k ≠ 0 then "PUSH" else "PUSH0")) ["s" ++ toString st.outIdx],
            h4 _ (List.mem_append_right _ (by simp)), by rw [pushEntry_outpt]; simp⟩
        · exact h2 x hx
    · rw [if_neg hc] at hs
      obtain ⟨⟨ys, st2⟩, hr, hs⟩ := Option.map_eq_some_iff.1 hs
      simp only [Prod.mk.injEq] at hs
      obtain ⟨rfl, rfl⟩ := hs
      obtain ⟨h1, h2, h3, h4⟩ := ih st ys st2 h (fun x hx => has x (by simp [hx])) hr
      refine ⟨h1, ?_, by simp [h3], h4⟩
      intro x hx
      rcases List.mem_cons.1 hx with rfl | hx
      · rcases has x (by simp) with h | h | ⟨e, he, ho⟩
        · exact absurd ((isConst_iff x).2 h) hc
        · exact Or.inl h
        · exact Or.inr ⟨e, h4 e he, ho⟩
      · exact h2 x hx

/-- A push of a constant that has been used before. -/
theorem RInv.repush (hb : BlockOk instrs src) (h : RInv instrs src (Used instrs n st.outIdx) n st) {i : Ins} (hi : instrs[n]? = some i)
    (hpl : pushLike i.op = true) {k : String × List String} {p : Nat} (hk : i.key = some k) (hl : st.table.lookup k = some p) {st1 : St}
    (hdist : ∀ (m : Nat) (j : Ins), n < m → instrs[m]? = some j → pushLike j.op = true → j.key ≠ some k)
    (hs : repush i p st = some st1) : RInv instrs src (Used instrs (n + 1) st1.outIdx) (n + 1) st1 := by
  obtain ⟨_, e, old, he, hold, hgen⟩ := h.keys n i k p (Nat.le_refl _) hi hpl hk hl
  have hmem := List.mem_of_getElem? hi
  obtain ⟨_, new, hnew⟩ := hb.pushes i hmem ((pushLike_iff _).1 hpl)
  have hnp : Proper new := hb.proper i hmem new (by simp [hnew])
  have hnu : ¬ Used instrs n st.outIdx new := by
    rintro (⟨m, j, hm, hj, ho⟩ | ⟨j, _, e⟩)
    · exact not_seen hb hi (by simp [hnew]) (Or.inl ⟨m, j, hm, hj, ho⟩)
    · exact hnp.notGen ⟨j, e⟩
  have hne : new ≠ old := fun e => hnp.notGen (by rw [e]; exact hgen)
  have hemem := List.mem_of_getElem? he
  unfold Grey.Sfs.repush at hs
  rw [he, Option.bind_some, hold, List.head?_cons, Option.bind_some, hnew, List.head?_cons, Option.map_some,
    Option.some.injEq] at hs
  subst hs
  have hplt := (List.getElem?_eq_some_iff.1 he).1
  -- an entry of the new list comes from an entry at the same position
  have hget : ∀ (q : Nat) (x : Entry), ((st.entries.set p { e with instr := { e.instr with outpt := [new] } }).map fun x =>
        { x with instr := { x.instr with inpt := renameVar old new x.instr.inpt } })[q]? = some x →
      ∃ y, st.entries[q]? = some y ∧ x.instr.inpt = renameVar old new y.instr.inpt ∧
        x.instr.commutative = y.instr.commutative ∧
        ((q = p ∧ y = e ∧ x.instr.outpt = [new]) ∨ (q ≠ p ∧ x.instr.outpt = y.instr.outpt)) := by
    intro q x hx
    rw [List.getElem?_map] at hx
    obtain ⟨z, hz, rfl⟩ := Option.map_eq_some_iff.1 hx
    rw [List.getElem?_set] at hz
    by_cases hpq : p = q
    · subst hpq
      rw [if_pos rfl, if_pos hplt] at hz
      simp only [Option.some.injEq] at hz
      subst hz
      exact ⟨e, he, rfl, rfl, Or.inl ⟨rfl, rfl, rfl⟩⟩
    · rw [if_neg hpq] at hz
      exact ⟨z, hz, rfl, rfl, Or.inr ⟨fun e => hpq e.symm, rfl⟩⟩
  have hput : ∀ (q : Nat) (y : Entry), st.entries[q]? = some y → ∃ x, ((st.entries.set p { e with instr := { e.instr with outpt := [new] } }).map fun x =>
        { x with instr := { x.instr with inpt := renameVar old new x.instr.inpt } })[q]? = some x ∧
        ((q = p ∧ x.instr.outpt = [new]) ∨ (q ≠ p ∧ x.instr.outpt = y.instr.outpt)) := by
    intro q y hy
    rw [List.getElem?_map, List.getElem?_set]
    by_cases hpq : p = q
    · subst hpq
      rw [if_pos rfl, if_pos hplt]
      exact ⟨_, rfl, Or.inl ⟨rfl, rfl⟩⟩
    · rw [if_neg hpq, hy]
      exact ⟨_, rfl, Or.inr ⟨fun e => hpq e.symm, rfl⟩⟩
  -- the old name is only produced at `p`
  have honly : ∀ (q : Nat) (y : Entry), st.entries[q]? = some y → old ∈ y.instr.outpt → q = p := fun q y hy ho =>
    h.outs q p y e old hy he ho (by simp [hold])
  have hnoold : ∀ (q : Nat) (x : Entry), ((st.entries.set p { e with instr := { e.instr with outpt := [new] } }).map fun x =>
        { x with instr := { x.instr with inpt := renameVar old new x.instr.inpt } })[q]? = some x → old ∉ x.instr.outpt := by
    intro q x hx ho
    obtain ⟨y, hy, _, _, hxy⟩ := hget q x hx
    rcases hxy with ⟨_, _, h1⟩ | ⟨h1, h2⟩
    · rw [h1] at ho; simp only [List.mem_singleton] at ho; exact hne ho.symm
    · rw [h2] at ho; exact h1 (honly q y hy ho)
  have holdUsed : Used instrs n st.outIdx old := h.names e hemem old (by simp [hold])
  refine { flow := ?_, outsIn := ?_, outs := ?_, fresh := ?_, names := ?_, tab := ?_, tabLt := ?_, tabInj := ?_, keys := ?_, produced := ?_, aliases := ?_, comm := ?_ }
  · intro q x hx v hv
    obtain ⟨y, hy, hin, _, _⟩ := hget q x hx
    rw [hin] at hv
    unfold renameVar at hv
    obtain ⟨u, hu, rfl⟩ := List.mem_map.1 hv
    rcases h.flow q y hy u hu with hs | ⟨q', y', hq, hy', ho⟩
    · left
      rw [if_neg]
      · exact hs
      · intro e; exact generated_not_src hb hgen (by rw [← e]; exact hs)
    · right
      obtain ⟨x', hx', hxo⟩ := hput q' y' hy'
      refine ⟨q', x', hq, hx', ?_⟩
      by_cases hu' : u = old
      · rw [if_pos hu']
        have := honly q' y' hy' (by rw [← hu']; exact ho)
        rcases hxo with ⟨_, h1⟩ | ⟨h1, _⟩
        · simp [h1]
        · exact absurd this h1
      · rw [if_neg hu']
        rcases hxo with ⟨h1, _⟩ | ⟨_, h2⟩
        · subst h1
          rw [he] at hy'; simp only [Option.some.injEq] at hy'; subst hy'
          rw [hold] at ho; simp only [List.mem_singleton] at ho
          exact absurd ho hu'
        · rw [h2]; exact ho
  · intro x hx
    obtain ⟨q, hq⟩ := List.mem_iff_getElem?.1 hx
    obtain ⟨y, hy, _, _, hxy⟩ := hget q x hq
    rcases hxy with ⟨_, _, h1⟩ | ⟨_, h2⟩
    · rw [h1]; simp
    · rw [h2]; exact h.outsIn y (List.mem_of_getElem? hy)
  · intro q q' x x' o hx hx' ho ho'
    obtain ⟨y, hy, _, _, hxy⟩ := hget q x hx
    obtain ⟨y', hy', _, _, hxy'⟩ := hget q' x' hx'
    rcases hxy with ⟨h1, _, h2⟩ | ⟨h1, h2⟩
    · rcases hxy' with ⟨h3, _, h4⟩ | ⟨h3, h4⟩
      · rw [h1, h3]
      · rw [h2] at ho; rw [h4] at ho'
        simp only [List.mem_singleton] at ho; subst ho
        exact absurd (h.names y' (List.mem_of_getElem? hy') _ ho') hnu
    · rcases hxy' with ⟨h3, _, h4⟩ | ⟨h3, h4⟩
      · rw [h2] at ho; rw [h4] at ho'
        simp only [List.mem_singleton] at ho'; subst ho'
        exact absurd (h.names y (List.mem_of_getElem? hy) _ ho) hnu
      · rw [h2] at ho; rw [h4] at ho'
        exact h.outs q q' y y' o hy hy' ho ho'
  · intro x hx o ho
    obtain ⟨q, hq⟩ := List.mem_iff_getElem?.1 hx
    obtain ⟨y, hy, _, _, hxy⟩ := hget q x hq
    rcases hxy with ⟨_, _, h1⟩ | ⟨_, h2⟩
    · rw [h1] at ho; simp only [List.mem_singleton] at ho; subst ho
      exact hb.sourceFresh i hmem _ (by simp [hnew])
    · rw [h2] at ho; exact h.fresh y (List.mem_of_getElem? hy) o ho
  · intro x hx o ho
    obtain ⟨q, hq⟩ := List.mem_iff_getElem?.1 hx
    obtain ⟨y, hy, _, _, hxy⟩ := hget q x hq
    rcases hxy with ⟨_, _, h1⟩ | ⟨_, h2⟩
    · rw [h1] at ho; simp only [List.mem_singleton] at ho; subst ho
      exact Or.inl ⟨n, i, by omega, hi, by simp [hnew]⟩
    · rw [h2] at ho
      exact Used.mono (by omega) (Nat.le_refl _) (h.names y (List.mem_of_getElem? hy) o ho)
  · intro c q hq
    obtain ⟨y, o, hy, ho⟩ := h.tab c q hq
    obtain ⟨x, hx, hxy⟩ := hput q y hy
    rcases hxy with ⟨_, h1⟩ | ⟨_, h2⟩
    · exact ⟨x, new, hx, h1⟩
    · exact ⟨x, o, hx, by rw [h2, ho]⟩
  · intro kp hkp
    simp only [List.length_map, List.length_set]
    exact h.tabLt kp hkp
  · exact h.tabInj
  · intro m j k' q hm hj hjp hjk hjl
    obtain ⟨h1, y, o, hy, ho, hg⟩ := h.keys m j k' q (by omega) hj hjp hjk hjl
    obtain ⟨x, hx, hxy⟩ := hput q y hy
    rcases hxy with ⟨hqp, _⟩ | ⟨_, h2⟩
    · subst hqp
      have := h.tabInj _ (lookup_mem hjl) _ (lookup_mem hl) rfl
      simp only [Prod.mk.injEq, and_true] at this
      rw [this] at hjk
      exact absurd hjk (hdist m j (by omega) hj hjp)
    · exact ⟨h1, x, o, hx, by rw [h2, ho], hg⟩
  · intro m j hm hj o ho
    by_cases hmn : m < n
    · obtain ⟨y, hy, hyo⟩ := h.produced m j hmn hj o ho
      obtain ⟨q, hq⟩ := List.mem_iff_getElem?.1 hy
      obtain ⟨x, hx, hxy⟩ := hput q y hq
      refine ⟨x, List.mem_of_getElem? hx, ?_⟩
      rcases hxy with ⟨hqp, _⟩ | ⟨_, h2⟩
      · subst hqp
        rw [he] at hq; simp only [Option.some.injEq] at hq; subst hq
        rw [hold] at hyo; simp only [List.mem_singleton] at hyo; subst hyo
        exact absurd hgen (hb.proper j (List.mem_of_getElem? hj) _ ho).notGen
      · rw [h2]; exact hyo
    · have : m = n := by omega
      subst this
      rw [hi] at hj; simp only [Option.some.injEq] at hj; subst hj
      obtain ⟨x, hx, hxy⟩ := hput p e he
      refine ⟨x, List.mem_of_getElem? hx, ?_⟩
      rcases hxy with ⟨_, h1⟩ | ⟨h1, _⟩
      · rw [h1]; rw [hnew] at ho; exact ho
      · exact absurd rfl h1
  · intro xy hxy
    rcases List.mem_cons.1 hxy with rfl | hxy
    · refine ⟨fun hp => hp.notGen hgen, Used.mono (by omega) (Nat.le_refl _) holdUsed, Or.inr ?_⟩
      intro x hx
      obtain ⟨q, hq⟩ := List.mem_iff_getElem?.1 hx
      exact hnoold q x hq
    · obtain ⟨h1, h2, h3⟩ := h.aliases xy hxy
      refine ⟨h1, Used.mono (by omega) (Nat.le_refl _) h2, h3.imp id ?_⟩
      intro h3 x hx
      obtain ⟨q, hq⟩ := List.mem_iff_getElem?.1 hx
      obtain ⟨y, hy, _, _, hxy'⟩ := hget q x hq
      rcases hxy' with ⟨_, _, h4⟩ | ⟨_, h4⟩
      · rw [h4]
        simp only [List.mem_singleton]
        intro e; rw [e] at h1; exact h1 hnp
      · rw [h4]; exact h3 y (List.mem_of_getElem? hy)
  · intro x hx hc
    obtain ⟨q, hq⟩ := List.mem_iff_getElem?.1 hx
    obtain ⟨y, hy, h1, h2, _⟩ := hget q x hq
    rw [h1]
    unfold renameVar
    rw [List.length_map]
    exact h.comm y (List.mem_of_getElem? hy) (by rw [← h2]; exact hc)

theorem fresh_out (hb : BlockOk instrs src) {i : Ins} (hi : instrs[n]? = some i) {k : Nat} {o : String} (ho : o ∈ i.outArgs) :
    o ∉ src ∧ ¬ Used instrs n k o ∧ Used instrs (n + 1) k o := by
  have hmem := List.mem_of_getElem? hi
  refine ⟨hb.sourceFresh i hmem o ho, ?_, Or.inl ⟨n, i, by omega, hi, ho⟩⟩
  rintro (⟨m, j, hm, hj, hoj⟩ | ⟨j, _, e⟩)
  · exact not_seen hb hi ho (Or.inl ⟨m, j, hm, hj, hoj⟩)
  · exact (hb.proper i hmem o ho).notGen ⟨j, e⟩

theorem outArgs_nodup (hb : BlockOk instrs src) {i : Ins} (hi : i ∈ instrs) : i.outArgs.Nodup :=
  (List.nodup_flatMap.1 hb.outs).1 i hi

theorem key_distinct (hb : BlockOk instrs src) (hrep : NoRepeatedPush instrs) {i j : Ins} {m : Nat} (hi : instrs[n]? = some i)
    (hm : n < m) (hj : instrs[m]? = some j) (hjp : pushLike j.op = true) {k : String × List String} (hk : i.key = some k) :
    j.key ≠ some k := by
  intro hjk
  have hmem := List.mem_of_getElem? hi
  have hjm := List.mem_of_getElem? hj
  unfold Ins.key at hk hjk
  rw [if_pos hjp] at hjk
  obtain ⟨l, hl, he⟩ := Option.map_eq_some_iff.1 hjk
  split at hk
  · rename_i hpush
    obtain ⟨l', hl', he'⟩ := Option.map_eq_some_iff.1 hk
    rw [← he', Prod.mk.injEq] at he
    exact hrep n m i j hm hi hj ((pushLike_iff _).1 hpush) ⟨(hb.sameOp j hjm i hmem he.1).symm, by rw [hl, hl', he.2]⟩
  · rename_i hpush
    simp only [Option.some.injEq] at hk
    rw [← hk, Prod.mk.injEq] at he
    have := hb.sameOp j hjm i hmem he.1
    rw [this] at hjp
    exact absurd hjp hpush

theorem stepIns_real (hb : BlockOk instrs src) {stack : List String} (hcl : ClosedBlock instrs src stack) (hrep : NoRepeatedPush instrs)
    (htwo : ∀ i ∈ instrs, i.name ∈ ["ADD", "MUL", "EQ", "AND", "OR", "XOR"] → i.inArgs.length = 2) {i : Ins} (hi : instrs[n]? = some i)
    (h : RInv instrs src (Used instrs n st.outIdx) n st) {st1 : St} (hs : stepIns n i st = some st1) :
    RInv instrs src (Used instrs (n + 1) st1.outIdx) (n + 1) st1 := by
  have hmem := List.mem_of_getElem? hi
  have hprodN : ∀ (m : Nat) (j : Ins), m < n + 1 → ¬ m < n → instrs[m]? = some j → j = i := by
    intro m j h1 h2 h3
    have : m = n := by omega
    subst this
    rw [hi] at h3; exact (Option.some.inj h3).symm
  unfold stepIns at hs
  obtain ⟨k, hk, hs⟩ := Option.bind_eq_some_iff.1 hs
  simp only at hs
  have hbuild : ∀ {st1 : St}, ((if "LiteralAssignment".toList.isPrefixOf i.op.toList then
        i.inArgs.head?.bind fun c => (intHex c).map fun v =>
          st.add ("LITERALASSIGMENT", i.inArgs) (if v ≠ 0 then "PUSH" else "PUSH0")
            (pushEntry v (st.idx (if v ≠ 0 then "PUSH" else "PUSH0")) i.outArgs)
      else buildIns i st).bind fun st1 =>
        st1.entries.getLast?.map fun e => { st1 with positions := (n, e.instr.id) :: st1.positions }) = some st1 →
      RInv instrs src (Used instrs (n + 1) st1.outIdx) (n + 1) st1 := by
    intro st1 hs
    obtain ⟨st2, h2, hs⟩ := Option.bind_eq_some_iff.1 hs
    obtain ⟨el, _, rfl⟩ := Option.map_eq_some_iff.1 hs
    split at h2
    · rename_i hpre
      have hlit : i.op = "LiteralAssignment" := by
        apply hb.prefixOnly i hmem
        rw [List.isPrefixOf_iff_prefix] at hpre
        exact (show "LiteralAssig".toList <+: "LiteralAssignment".toList by decide).trans hpre
      obtain ⟨c, o, hin, hout⟩ := hb.literal i hmem hlit
      rw [hin, List.head?_cons, Option.bind_some] at h2
      obtain ⟨v, hv, rfl⟩ := Option.map_eq_some_iff.1 h2
      exact h.add (A' := Used instrs (n + 1) st.outIdx) ("LITERALASSIGMENT", [c]) (if v ≠ 0 then "PUSH" else "PUSH0")
        (pushEntry v (st.idx (if v ≠ 0 then "PUSH" else "PUSH0")) i.outArgs)
        ((n, el.instr.id) :: st.positions) st.outIdx (fun x => Used.mono (by omega) (Nat.le_refl _)) (by omega)
        (by rw [pushEntry_inpt]; simp)
        (by rw [pushEntry_outpt]; exact outArgs_nodup hb hmem)
        (by rw [pushEntry_outpt]; exact fun o ho => fresh_out hb hi ho)
        (by
          intro c' hc'
          simp only [Prod.mk.injEq] at hc'
          exact absurd hc'.1 (by decide))
        (by
          intro m j _ hj hjp hjk
          exfalso
          unfold Ins.key at hjk
          rw [if_pos hjp] at hjk
          obtain ⟨l, hl, he⟩ := Option.map_eq_some_iff.1 hjk
          simp only [Prod.mk.injEq] at he
          have := pushLike_name hjp
          rw [he.1] at this
          exact absurd this (by decide))
        (by
          intro m j h1 h2 h3 o ho
          rw [hprodN m j h1 h2 h3] at ho
          rw [pushEntry_outpt]; exact ho)
        (by rw [comm_push]; simp)
    · rename_i hpre
      have hlit : i.op ≠ "LiteralAssignment" := by
        intro e; apply hpre; rw [e]; decide
      unfold buildIns at h2
      obtain ⟨⟨xs, st3⟩, hargs, h2⟩ := Option.bind_eq_some_iff.1 h2
      obtain ⟨e, hent, h2⟩ := Option.bind_eq_some_iff.1 h2
      obtain ⟨k', hk', rfl⟩ := Option.map_eq_some_iff.1 h2
      simp only at hent hk'
      obtain ⟨h3, h4, h5, h6⟩ := buildArgs_real hb i.inArgs st xs st3 h (by
        intro a ha
        rcases hcl.args n i hi a ha with h1 | h1 | ⟨m, j, h1, h2, h3⟩
        · exact Or.inl h1
        · exact Or.inr (Or.inl h1)
        · exact Or.inr (Or.inr (h.produced m j h1 h2 a h3))) hargs
      obtain ⟨hex, hnone, hpl⟩ := (hb.known i hmem).resolve_left hlit
      have hshape : e.instr.outpt = i.outArgs ∧ (∀ x ∈ e.instr.inpt, x ∈ xs) ∧
          (e.instr.commutative = true → e.instr.inpt.length = 2) := by
        unfold buildEntry at hent
        have hv : ¬ infixOf "VERBATIM".toList i.name.toList = true := by
          rw [infixOf_iff]; exact hpl "VERBATIM" (by simp)
        rw [if_neg hv, if_pos hex] at hent
        have hins : ∀ v : Option (List String), instrEntry i.name (st3.idx i.name) xs i.outArgs v = e →
            e.instr.outpt = i.outArgs ∧ (∀ x ∈ e.instr.inpt, x ∈ xs) ∧
            (e.instr.commutative = true → e.instr.inpt.length = 2) := by
          rintro v rfl
          refine ⟨rfl, fun x hx => hx, fun hc => ?_⟩
          simp only [instrEntry, Opcodes.isCommutative, decide_eq_true_eq] at hc
          show xs.length = 2
          rw [h5]
          exact htwo i hmem hc
        split at hent
        · exact hins _ (Option.some.inj hent)
        · split at hent
          · rename_i hp
            obtain ⟨c, hc, hc0⟩ := hb.push i hmem hp
            rw [hc, Option.bind_some, List.head?_cons, Option.bind_some] at hent
            obtain ⟨v, hv, rfl⟩ := Option.map_eq_some_iff.1 hent
            exact ⟨pushEntry_outpt _ _ _, by rw [pushEntry_inpt]; simp, by rw [comm_push]; simp⟩
          · exact hins _ (Option.some.inj hent)
      obtain ⟨s1, s2, s3⟩ := hshape
      rw [hk] at hk'; simp only [Option.some.injEq] at hk'; subst hk'
      exact h3.add (A' := Used instrs (n + 1) st3.outIdx) k i.name e
        ((n, el.instr.id) :: st3.positions) st3.outIdx (fun x => Used.mono (by omega) (Nat.le_refl _)) (by omega)
        (fun v hv => h4 v (s2 v hv))
        (by rw [s1]; exact outArgs_nodup hb hmem)
        (by rw [s1]; exact fun o ho => fresh_out hb hi ho)
        (by
          intro c hkc
          subst hkc
          rw [s1]
          have hname : i.name = "PUSH" := by
            unfold Ins.key at hk
            split at hk
            · obtain ⟨l, _, he⟩ := Option.map_eq_some_iff.1 hk
              simp only [Prod.mk.injEq] at he; exact he.1
            · simp only [Option.some.injEq, Prod.mk.injEq] at hk; exact hk.1
          obtain ⟨_, o, ho⟩ := hb.pushes i hmem (by rw [hb.noPush i hmem hname]; decide)
          exact ⟨o, ho⟩)
        (fun m j hm hj hjp hjk => absurd hjk (key_distinct hb hrep hi (by omega) hj hjp hk))
        (by
          intro m j h1 h2 h3 o ho
          rw [hprodN m j h1 h2 h3] at ho
          rw [s1]; exact ho)
        s3
  cases hl : st.table.lookup k with
  | none =>
    rw [hl] at hs
    exact hbuild hs
  | some p =>
    rw [hl] at hs
    simp only at hs
    have hmo : i.memoryOperation = true := by
      rcases hb.known i hmem with hlit | ⟨_, hnone, _⟩
      · apply memOp_of_none; rw [hlit]; exact literal_lookup
      · exact memOp_of_none hnone
    by_cases hpl : pushLike i.op = true
    · rw [if_pos (by simp [hpl])] at hs
      rw [if_pos (h.keys n i k p (Nat.le_refl _) hi hpl hk hl).1] at hs
      exact h.repush hb hi hpl hk hl (fun m j hm hj hjp => key_distinct hb hrep hi hm hj hjp hk) hs
    · rw [if_neg (by simp [hpl, hmo])] at hs
      split at hs
      · simp at hs
      · obtain ⟨e, he, hs⟩ := Option.bind_eq_some_iff.1 hs
        split at hs
        · exact hbuild hs
        · rename_i hne
          exfalso
          simp only [not_or, Classical.not_not] at hne
          obtain ⟨h1, h2⟩ := hne
          obtain ⟨x, hx⟩ := List.exists_mem_of_ne_nil _ h1
          exact (fresh_out hb hi (k := st.outIdx) (by rw [← h2]; exact hx)).2.1 (h.names e (List.mem_of_getElem? he) x hx)

theorem buildLoop_real (hb : BlockOk instrs src) {stack : List String} (hcl : ClosedBlock instrs src stack) (hrep : NoRepeatedPush instrs)
    (htwo : ∀ i ∈ instrs, i.name ∈ ["ADD", "MUL", "EQ", "AND", "OR", "XOR"] → i.inArgs.length = 2) (l : List Ins) :
    ∀ (n : Nat) (st st1 : St), instrs.drop n = l → RInv instrs src (Used instrs n st.outIdx) n st → buildLoop n l st = some st1 →
      ∃ n', instrs.length ≤ n' ∧ RInv instrs src (Used instrs n' st1.outIdx) n' st1 := by
  induction l with
  | nil =>
    intro n st st1 hd h hs
    simp only [buildLoop, Option.some.injEq] at hs
    subst hs
    exact ⟨n, by simpa using hd, h⟩
  | cons i l ih =>
    intro n st st1 hd h hs
    rw [buildLoop] at hs
    obtain ⟨st2, h2, hs⟩ := Option.bind_eq_some_iff.1 hs
    have hn : instrs[n]? = some i := by
      have := congrArg (fun l => l[0]?) hd
      simpa [List.getElem?_drop] using this
    refine ih (n + 1) st2 st1 ?_ (stepIns_real hb hcl hrep htwo hn h h2) hs
    have := congrArg (List.drop 1) hd
    simpa [List.drop_drop, Nat.add_comm] using this

theorem RInv.withAlias (h : RInv instrs src A n st) {A' : String → Prop} {x y : String} (hA : ∀ z, A z → A' z) (hx : ¬ Proper x) (hx' : A' x)
    (hxy : x = y ∨ ∀ e ∈ st.entries, x ∉ e.instr.outpt) :
    RInv instrs src A' n { st with aliases := (x, y) :: st.aliases } :=
  { h.weaken hA with
    aliases := by
      intro z hz
      rcases List.mem_cons.1 hz with rfl | hz
      · exact ⟨hx, hx', hxy⟩
      · exact (h.weaken hA).aliases z hz }

theorem assignLoop_real (hb : BlockOk instrs src) (hsource : ∀ v ∈ src, Proper v) (hn : instrs.length ≤ n) (d : List (String × String))
    (hd : ∀ oc ∈ d, ¬ Proper oc.1 ∧ isConst oc.2 = true ) :
    ∀ (st st1 : St), (d.map (·.1)).Nodup → RInv instrs src (fun x => x ∉ d.map (·.1)) n st → assignLoop d st = some st1 →
      RInv instrs src (fun _ => True) n st1 ∧
      (∀ oc ∈ d, ∃ y, st1.aliases.lookup oc.1 = some y ∧ ∃ e ∈ st1.entries, y ∈ e.instr.outpt) ∧
      (∀ e ∈ st.entries, e ∈ st1.entries) ∧ (∀ x, x ∉ d.map (·.1) → st1.aliases.lookup x = st.aliases.lookup x) := by
  induction d with
  | nil =>
    intro st st1 _ h hs
    simp only [assignLoop, Option.some.injEq] at hs
    subst hs
    exact ⟨h.weaken (fun _ _ => trivial), by simp, fun _ h => h, fun _ _ => rfl⟩
  | cons oc d ih =>
    obtain ⟨o, c⟩ := oc
    intro st st1 hnd h hs
    have ih := ih fun x hx => hd x (by simp [hx])
    rw [assignLoop] at hs
    obtain ⟨ho, hc⟩ := hd (o, c) (by simp)
    rw [List.map_cons, List.nodup_cons] at hnd
    rw [if_pos hc] at hs
    have hA : ∀ z, z ∉ ((o, c) :: d).map (·.1) → z ∉ d.map (·.1) := fun z hz hm => hz (by simp at hm ⊢; exact Or.inr hm)
    have hsrc : o ∉ src := fun hm => ho (hsource o hm)
    have hnot : ∀ e ∈ st.entries, o ∉ e.instr.outpt := fun e he hm => h.names e he o hm (by simp)
    have hfin : ∀ (st2 : St) (y : String), RInv instrs src (fun x => x ∉ d.map (·.1)) n st2 → st2.aliases = (o, y) :: st.aliases →
        (∀ e ∈ st.entries, e ∈ st2.entries) → (∃ e ∈ st2.entries, y ∈ e.instr.outpt) → assignLoop d st2 = some st1 →
        RInv instrs src (fun _ => True) n st1 ∧
        (∀ oc ∈ (o, c) :: d, ∃ y, st1.aliases.lookup oc.1 = some y ∧ ∃ e ∈ st1.entries, y ∈ e.instr.outpt) ∧
        (∀ e ∈ st.entries, e ∈ st1.entries) ∧ (∀ x, x ∉ ((o, c) :: d).map (·.1) → st1.aliases.lookup x = st.aliases.lookup x) := by
      intro st2 y h2 ha hsub hprod hs
      obtain ⟨g1, g2, g3, g4⟩ := ih st2 st1 hnd.2 h2 hs
      refine ⟨g1, ?_, fun e he => g3 e (hsub e he), ?_⟩
      · intro oc hoc
        rcases List.mem_cons.1 hoc with rfl | hoc
        · refine ⟨y, ?_, ?_⟩
          · rw [g4 o hnd.1, ha, lookup_cons_eq, if_pos rfl]
          · obtain ⟨e, he, hy⟩ := hprod; exact ⟨e, g3 e he, hy⟩
        · exact g2 oc hoc
      · intro x hx
        rw [g4 x (hA x hx), ha, lookup_cons_eq, if_neg]
        intro e; apply hx; simp [e]
    cases hl : st.table.lookup ("PUSH", [c]) with
    | none =>
      rw [hl] at hs
      simp only at hs
      obtain ⟨st2, hp, hs⟩ := Option.bind_eq_some_iff.1 hs
      unfold St.addPush at hp
      obtain ⟨k, hk, rfl⟩ := Option.map_eq_some_iff.1 hp
      have hadd := h.add (A' := fun x => x ∉ d.map (·.1)) (n' := n) ("PUSH", [c]) (if k ≠ 0 then "PUSH" else "PUSH0")
          (pushEntry k (st.idx (if k ≠ 0 then "PUSH" else "PUSH0")) [o]) st.positions st.outIdx hA (Nat.le_refl _)
          (by rw [pushEntry_inpt]; simp) (by rw [pushEntry_outpt]; simp)
          (by
            rw [pushEntry_outpt]
            intro x hx
            simp only [List.mem_singleton] at hx; subst hx
            exact ⟨hsrc, by simp, hnd.1⟩)
          (by rw [pushEntry_outpt]; exact fun c _ => ⟨_, rfl⟩)
          (by
            intro m i hm hi
            have := (List.getElem?_eq_some_iff.1 hi).1; omega)
          (fun m i h1 h2 => absurd h1 h2)
          (by rw [comm_push]; simp)
      refine hfin _ o (hadd.withAlias (fun _ h => h) ho hnd.1 (Or.inl rfl)) rfl (fun e he => List.mem_append_left _ he)
        ⟨pushEntry k (st.idx (if k ≠ 0 then "PUSH" else "PUSH0")) [o], List.mem_append_right _ (by simp), by rw [pushEntry_outpt]; simp⟩ hs
    | some p =>
      rw [hl] at hs
      simp only at hs
      obtain ⟨e, he, hs⟩ := Option.bind_eq_some_iff.1 hs
      obtain ⟨x, hx, hs⟩ := Option.bind_eq_some_iff.1 hs
      exact hfin _ x (h.withAlias hA ho hnd.1 (Or.inr hnot)) rfl (fun e he => he)
        ⟨e, List.mem_of_getElem? he, List.mem_of_mem_head? hx⟩ hs

theorem setKey_keys (d : List (String × String)) (k v : String) :
    (setKey d k v).map (·.1) = if k ∈ d.map (·.1) then d.map (·.1) else d.map (·.1) ++ [k] := by
  have hiff : (d.any fun e => e.1 == k) = true ↔ k ∈ d.map (·.1) := by
    simp only [List.any_eq_true, beq_iff_eq, List.mem_map]
  unfold setKey
  by_cases h : k ∈ d.map (·.1)
  · rw [if_pos (hiff.2 h), if_pos h, List.map_map]
    apply List.map_congr_left
    intro e _
    simp only [Function.comp]
    split
    · rename_i hk; exact hk.symm
    · rfl
  · rw [if_neg (fun hc => h (hiff.1 hc)), if_neg h]
    simp

theorem addConstants_keys (l : List String) : ∀ d : List (String × String), (d.map (·.1)).Nodup →
    ((addConstants l d).map (·.1)).Nodup ∧ (∀ x ∈ d.map (·.1), x ∈ (addConstants l d).map (·.1)) ∧
    (∀ x ∈ l, x = "bottom" ∨ isConst x = true → x ∈ (addConstants l d).map (·.1)) := by
  induction l with
  | nil => intro d h; exact ⟨h, fun x hx => hx, by simp⟩
  | cons x xs ih =>
    intro d h
    rw [addConstants]
    by_cases hx : x = "bottom" ∨ isConst x = true
    · rw [if_pos hx]
      have hk := setKey_keys d x (if x = "bottom" then "0x00" else x)
      have hnd : ((setKey d x (if x = "bottom" then "0x00" else x)).map (·.1)).Nodup := by
        rw [hk]
        split
        · exact h
        · rename_i hn
          rw [List.nodup_append]
          refine ⟨h, by simp, ?_⟩
          intro a ha b hb hab
          simp only [List.mem_singleton] at hb
          exact hn (by rw [← hb, ← hab]; exact ha)
      obtain ⟨h1, h2, h3⟩ := ih _ hnd
      have hxm : x ∈ (setKey d x (if x = "bottom" then "0x00" else x)).map (·.1) := by
        rw [hk]; split
        · assumption
        · simp
      refine ⟨h1, ?_, ?_⟩
      · intro y hy
        apply h2
        rw [hk]; split
        · exact hy
        · exact List.mem_append_left _ hy
      · intro y hy hyc
        rcases List.mem_cons.1 hy with rfl | hy
        · exact h2 _ hxm
        · exact h3 y hy hyc
    · rw [if_neg hx]
      obtain ⟨h1, h2, h3⟩ := ih d h
      refine ⟨h1, h2, ?_⟩
      intro y hy hyc
      rcases List.mem_cons.1 hy with rfl | hy
      · exact absurd hyc hx
      · exact h3 y hy hyc

theorem literal_not_generated {x : String} (h : IsLiteral x) : ¬ Generated x := by
  obtain ⟨l, hl⟩ := h
  apply not_generated
  rw [hl]; simp

/-- An interpretation in which operations only have the right number of results. -/
def unitInterp (instrs : List Ins) : Interp Unit Unit where
  num := fun _ => ()
  op := fun name _ _ w => (List.replicate (((instrs.find? fun i => i.name == name).map (·.outArgs.length)).getD 0) (), w)

theorem unitInterp_ok (hb : BlockOk instrs src)
    (har : ∀ i ∈ instrs, ∀ j ∈ instrs, i.name = j.name → i.outArgs.length = j.outArgs.length) : InterpOk (unitInterp instrs) instrs where
  arity := by
    intro i hi env w
    unfold Interp.ins
    split
    · rename_i h
      obtain ⟨c, o, h1, h2⟩ := hb.literal i hi h
      simp [h1, h2]
    · split
      · rename_i h
        obtain ⟨c, h1, _⟩ := hb.push i hi h
        obtain ⟨_, o, h2⟩ := hb.pushes i hi (by rw [h]; decide)
        simp [h1, h2]
      · simp only [unitInterp, List.length_replicate]
        cases hf : instrs.find? fun j => j.name == i.name with
        | none =>
          rw [List.find?_eq_none] at hf
          exact absurd (hf i hi) (by simp)
        | some j =>
          have h1 := List.find?_some hf
          have h2 := List.mem_of_find?_eq_some hf
          simp only [Option.map_some, Option.getD_some]
          exact har j h2 i hi (by simpa using h1)
  quiet := fun _ _ _ _ _ _ => rfl
  const := fun _ _ _ _ _ _ => rfl
  comm := fun _ _ _ _ _ _ => rfl

theorem real_init (instrs : List Ins) (src : List String) : RInv instrs src (Used instrs 0 St.init.outIdx) 0 St.init where
  flow := by simp [St.init]
  outsIn := by simp [St.init]
  outs := by simp [St.init]
  fresh := by simp [St.init]
  names := by simp [St.init]
  tab := by simp [St.init]
  tabLt := by simp [St.init]
  tabInj := by simp [St.init]
  keys := by simp [St.init]
  produced := by simp
  aliases := by simp [St.init]
  comm := by simp [St.init]

/-- **C50, proved part.** If no two instructions of the block push the same thing (the restriction that the witnesses
above show to be needed), the block only uses variables of its initial stack and its own, and the dependences follow the
order of the block, then the specification built for the block can be met: the validator accepts some schedule, with or
without junk. -/
theorem built_has_schedule_partial (instrs : List Ins) (split : Option Ins) (initial final : List String) (hb : BlockOk instrs initial)
    (hsource : ∀ v ∈ initial, Proper v) (hcl : ClosedBlock instrs initial (beforeSplit split final)) (hrep : NoRepeatedPush instrs)
    (har : ∀ i ∈ instrs, ∀ j ∈ instrs, i.name = j.name → i.outArgs.length = j.outArgs.length)
    (htwo : ∀ i ∈ instrs, i.name ∈ ["ADD", "MUL", "EQ", "AND", "OR", "XOR"] → i.inArgs.length = 2)
    (built : Built) (hbuild : buildSequence instrs split [] initial final = some built)
    (deps : List (String × String)) (hdeps : ∀ d ∈ deps, [d.1, d.2] <+ built.entries.map (·.instr.id)) (junk : Bool) :
    ∃ ids, check ⟨built.entries.map (·.instr), built.src, built.tgt, deps⟩ ids junk = true := by
  unfold buildSequence at hbuild
  obtain ⟨st1, h1, hbuild⟩ := Option.bind_eq_some_iff.1 hbuild
  obtain ⟨st2, h2, rfl⟩ := Option.map_eq_some_iff.1 hbuild
  have hfinal : ∀ v ∈ beforeSplit split final, ¬ Generated v := by
    intro v hv
    rcases hcl.final v hv with h | rfl | h | ⟨j, hj, h⟩
    · exact literal_not_generated h
    · exact not_generated (by decide)
    · exact hb.source v h
    · exact (hb.proper j hj v h).notGen
  -- the ids
  obtain ⟨val, hinv1⟩ := buildLoop_inv hb (unitInterp_ok hb har) (fun _ => ()) () instrs 0 _ St.init st1 (by simp)
    (by simpa [blockRun] using inv_init (unitInterp instrs) instrs (blockRun (unitInterp instrs) instrs (fun _ => ()) ()).1 () (Seen instrs 0)) h1
  have hinv1' := hinv1.weaken (P' := fun _ => True) (Nat.le_refl _) (fun _ _ => trivial)
  obtain ⟨hinv, _⟩ := assignLoop_inv hb (addConstants (beforeSplit split final) []) (by
    intro oc hoc hlit
    rcases addConstants_mem _ _ _ hoc with hoc | ⟨x, hx, hx' | hx'⟩
    · simp at hoc
    · rw [hx'.2]; exact ⟨by rw [← hx'.1]; exact hfinal x hx, rfl, fun ht => (isTag_proper hb ht).notBottom rfl⟩
    · rw [hx'.2.2]; exact ⟨hfinal x hx, rfl, fun ht => (isTag_proper hb ht).notLit hx'.1⟩) st1 st2 hinv1' h2
  -- the variables
  obtain ⟨n', hn', hr1⟩ := buildLoop_real hb hcl hrep htwo instrs 0 St.init st1 (by simp) (real_init instrs initial) h1
  obtain ⟨hknd, _, hkall⟩ := addConstants_keys (beforeSplit split final) [] (by simp)
  have hkey : ∀ oc ∈ addConstants (beforeSplit split final) [], ¬ Proper oc.1 ∧ isConst oc.2 = true ∧ ¬ Generated oc.1 := by
    intro oc hoc
    rcases addConstants_mem _ _ _ hoc with hoc | ⟨x, hx, hx' | hx'⟩
    · simp at hoc
    · rw [hx'.2]; exact ⟨fun h => h.notBottom rfl, by decide, by rw [← hx'.1]; exact hfinal x hx⟩
    · rw [hx'.2.2]; exact ⟨fun h => h.notLit hx'.1, (isConst_iff x).2 hx'.1, hfinal x hx⟩
  obtain ⟨hr, hres, hsub, hlook⟩ := assignLoop_real hb hsource hn' (addConstants (beforeSplit split final) [])
    (fun oc hoc => ⟨(hkey oc hoc).1, (hkey oc hoc).2.1⟩) st1 st2 hknd
    (hr1.weaken (by
      intro x hx hm
      obtain ⟨oc, hoc, rfl⟩ := List.mem_map.1 hm
      obtain ⟨k1, _, k3⟩ := hkey oc hoc
      rcases hx with ⟨m, i, _, hi, ho⟩ | ⟨j, _, e⟩
      · exact k1 (hb.proper i (List.mem_of_getElem? hi) _ ho)
      · exact k3 ⟨j, e⟩)) h2
  -- aliases do not change the entries
  have hsame : ∀ x, (x ∈ initial ∨ ∃ e ∈ st2.entries, x ∈ e.instr.outpt) → resolve st2.aliases x = x := by
    intro x hx
    unfold resolve
    cases hl : st2.aliases.lookup x with
    | none => rfl
    | some y =>
      obtain ⟨k1, _, k3⟩ := hr.aliases _ (lookup_mem hl)
      simp only at k1 k3
      rcases hx with hx | ⟨e, he, ho⟩
      · exact absurd (hsource x hx) k1
      · rcases k3 with k3 | k3
        · exact k3.symm
        · exact absurd ho (k3 e he)
  have hrepl : ∀ e ∈ st2.entries, replaceEntry st2.aliases e = e := by
    intro e he
    obtain ⟨k, hk⟩ := List.mem_iff_getElem?.1 he
    unfold replaceEntry
    have h1 : e.instr.inpt.map (resolve st2.aliases) = e.instr.inpt := by
      conv => rhs; rw [← List.map_id e.instr.inpt]
      apply List.map_congr_left
      intro v hv
      rcases hr.flow k e hk v hv with h | ⟨k', e', _, he', ho⟩
      · exact hsame v (Or.inl h)
      · exact hsame v (Or.inr ⟨e', List.mem_of_getElem? he', ho⟩)
    have h2 : e.instr.outpt.map (resolve st2.aliases) = e.instr.outpt := by
      conv => rhs; rw [← List.map_id e.instr.outpt]
      apply List.map_congr_left
      intro v hv
      exact hsame v (Or.inr ⟨e, he, hv⟩)
    rw [h1, h2]
  simp only at hdeps ⊢
  generalize htgt : (beforeSplit split final).map (resolve st2.aliases) = tgt at *
  have hents : (if st2.aliases = [] then st2.entries.filter fun e => decide (e.instr.id ∉ detectUnused (st2.entries.map (·.instr)) tgt)
      else (st2.entries.filter fun e => decide (e.instr.id ∉ detectUnused (st2.entries.map (·.instr)) tgt)).map (replaceEntry st2.aliases)) =
      st2.entries.filter fun e => decide (e.instr.id ∉ detectUnused (st2.entries.map (·.instr)) tgt) := by
    split
    · rfl
    · conv => rhs; rw [← List.map_id (st2.entries.filter _)]
      apply List.map_congr_left
      intro e he
      exact hrepl e (List.mem_filter.1 he).1
  rw [hents] at hdeps ⊢
  have hids : ((st2.entries.map (·.instr)).map (·.id)).Nodup := by rw [List.map_map]; exact hinv.nodup
  have houts : ((st2.entries.map (·.instr)).flatMap (·.outpt)).Nodup := by
    rw [List.flatMap_map, List.nodup_flatMap]
    refine ⟨hr.outsIn, ?_⟩
    rw [List.pairwise_iff_getElem]
    intro a b ha hb' hab x hx hx'
    have := hr.outs a b _ _ x (List.getElem?_eq_getElem ha) (List.getElem?_eq_getElem hb') hx hx'
    omega
  have hneed : ∀ e ∈ st2.entries, (decide (e.instr.id ∉ detectUnused (st2.entries.map (·.instr)) tgt) = true ↔
      Needed (st2.entries.map (·.instr)) tgt e.instr) := by
    intro e he
    rw [decide_eq_true_eq, unused_iff_not_needed _ _ hids houts e.instr (List.mem_map.2 ⟨e, he, rfl⟩), Classical.not_not]
  -- elements of the target
  have htavail : ∀ v ∈ tgt, v ∈ initial ∨ ∃ e ∈ st2.entries, v ∈ e.instr.outpt := by
    intro v hv
    rw [← htgt] at hv
    obtain ⟨x, hx, rfl⟩ := List.mem_map.1 hv
    have hconst : x = "bottom" ∨ isConst x = true → resolve st2.aliases x ∈ initial ∨ ∃ e ∈ st2.entries, resolve st2.aliases x ∈ e.instr.outpt := by
      intro hc
      obtain ⟨oc, hoc, rfl⟩ := List.mem_map.1 (hkall x hx hc)
      obtain ⟨y, hy, he⟩ := hres oc hoc
      right
      unfold resolve
      rw [hy]; exact he
    rcases hcl.final x hx with h | h | h | ⟨j, hj, h⟩
    · exact hconst (Or.inr ((isConst_iff x).2 h))
    · exact hconst (Or.inl h)
    · left; rw [hsame x (Or.inl h)]; exact h
    · right
      obtain ⟨m, hm⟩ := List.mem_iff_getElem?.1 hj
      have hlt := (List.getElem?_eq_some_iff.1 hm).1
      obtain ⟨e, he, ho⟩ := hr.produced m j (by omega) hm x h
      rw [hsame x (Or.inr ⟨e, he, ho⟩)]
      exact ⟨e, he, ho⟩
  refine available_has_schedule ⟨_, initial, tgt, deps⟩ junk ?_ ?_ ?_ ⟨?_, ?_⟩ ?_
  · show (((st2.entries.filter _).map (·.instr)).map (·.id)).Nodup
    rw [List.map_map]
    exact hinv.nodup.sublist (List.filter_sublist.map _)
  · intro u hu
    obtain ⟨e, he, rfl⟩ := List.mem_map.1 hu
    obtain ⟨name, k, hid, _, hp⟩ := hinv.ids e (List.mem_filter.1 he).1
    rw [hid]; exact classify_plain hp k
  · intro u hu hc
    obtain ⟨e, he, rfl⟩ := List.mem_map.1 hu
    exact hr.comm e (List.mem_filter.1 he).1 hc
  · intro pre u post he v hv
    simp only at he ⊢
    obtain ⟨l₁, l₂, hl, hp1, hp2⟩ := List.map_eq_append_iff.1 he
    obtain ⟨e, l₃, rfl, rfl, rfl⟩ := List.map_eq_cons_iff.1 hp2
    obtain ⟨m₁, m₂, hm, hm1, hm2⟩ := List.filter_eq_append_iff.1 hl
    obtain ⟨n₁, n₂, rfl, hn1, hpe, hn2⟩ := List.filter_eq_cons_iff.1 hm2
    have hke : st2.entries[(m₁ ++ n₁).length]? = some e := by
      rw [hm, ← List.append_assoc]; simp
    have hemem := List.mem_of_getElem? hke
    rcases hr.flow _ e hke v hv with h | ⟨k', e', hk', he', ho⟩
    · exact Or.inl h
    · right
      have he'mem := List.mem_of_getElem? he'
      have hneed' : Needed (st2.entries.map (·.instr)) tgt e'.instr :=
        .arg (List.mem_map.2 ⟨e', he'mem, rfl⟩) ho hv ((hneed e hemem).1 hpe)
      have hin : e' ∈ m₁ ++ n₁ := by
        rw [hm, ← List.append_assoc, List.getElem?_append_left hk'] at he'
        exact List.mem_of_getElem? he'
      have hq := (hneed e' he'mem).2 hneed'
      refine ⟨e'.instr, ?_, ho⟩
      rw [← hp1]
      apply List.mem_map.2
      refine ⟨e', ?_, rfl⟩
      rcases List.mem_append.1 hin with h | h
      · rw [← hm1]; exact List.mem_filter.2 ⟨h, hq⟩
      · exact absurd hq (by simpa using hn1 e' h)
  · intro v hv
    rcases htavail v hv with h | ⟨e, he, ho⟩
    · exact Or.inl h
    · right
      refine ⟨e.instr, List.mem_map.2 ⟨e, List.mem_filter.2 ⟨he, ?_⟩, rfl⟩, ho⟩
      exact (hneed e he).2 (.final (List.mem_map.2 ⟨e, he, rfl⟩) ho hv)
  · intro d hd
    have := hdeps d hd
    show [d.1, d.2] <+ ((st2.entries.filter _).map (·.instr)).map (·.id)
    rw [List.map_map]
    exact this

/-- The hypotheses hold for the block of C49. -/
example : ∃ ids, check ⟨exBuilt.entries.map (·.instr), exBuilt.src, exBuilt.tgt, [("SSTORE_0", "SLOAD_0")]⟩ ids false = true := by
  refine built_has_schedule_partial exIns none ["a"] ["z", "bottom"] exBlockOk
    (by
      intro v hv
      simp only [List.mem_singleton] at hv; subst hv
      exact ⟨not_generated (by decide), not_literal (by decide), by decide⟩) ⟨?_, ?_⟩ ?_ ?_ ?_ exBuilt exBuilt_eq _ ?_ false
  · intro n i hi v hv
    have hlt : n < 3 := by
      have := (List.getElem?_eq_some_iff.1 hi).1
      simpa [exIns] using this
    have hall : ∀ n, n < 3 → ∀ v ∈ ((exIns[n]?).map (·.inArgs)).getD [], isConst v = true ∨ v ∈ ["a"] ∨
        ∃ m, m < n ∧ v ∈ ((exIns[m]?).map (·.outArgs)).getD [] := by unfold exIns; decide +kernel
    rcases hall n hlt v (by rw [hi]; exact hv) with h | h | ⟨m, hm, h⟩
    · exact Or.inl ((isConst_iff v).1 h)
    · exact Or.inr (Or.inl h)
    · have hm3 : m < exIns.length := by simp [exIns]; omega
      refine Or.inr (Or.inr ⟨m, exIns[m], hm, List.getElem?_eq_getElem hm3, ?_⟩)
      rw [List.getElem?_eq_getElem hm3] at h; exact h
  · intro v hv
    have hall : ∀ v ∈ beforeSplit none ["z", "bottom"], v = "bottom" ∨ ∃ j ∈ exIns, v ∈ j.outArgs := by unfold exIns; decide +kernel
    rcases hall v hv with h | h
    · exact Or.inr (Or.inl h)
    · exact Or.inr (Or.inr (Or.inr h))
  · intro m n i j _ hi _ hp
    have : ∀ i ∈ exIns, ¬ "push".toList <+: i.op.toList := by unfold exIns; decide +kernel
    exact absurd hp (this i (List.mem_of_getElem? hi))
  · unfold exIns; decide +kernel
  · unfold exIns; decide +kernel
  · decide +kernel

end Grey.Sfs
