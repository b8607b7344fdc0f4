import Verif.SymExec.Spec
namespace Grey.SymExec

/-! ### Positions, dependences, uniqueness -/

theorem mem_positions (x : String) (k i : Nat) (ids : List String) :
    i ∈ positions x k ids ↔ ∃ j, i = k + j ∧ ids[j]? = some x := by
  induction ids generalizing k with
  | nil => simp [positions]
  | cons s ss ih =>
    by_cases h : s = x
    · simp only [positions, h, if_true, List.mem_cons, ih]
      constructor
      · rintro (rfl | ⟨j, rfl, hj⟩)
        · exact ⟨0, by simp⟩
        · exact ⟨j + 1, by omega, by simpa using hj⟩
      · rintro ⟨j, rfl, hj⟩
        cases j with
        | zero => left; simp
        | succ j => right; exact ⟨j, by omega, by simpa using hj⟩
    · simp only [positions, h, if_false, ih]
      constructor
      · rintro ⟨j, rfl, hj⟩
        exact ⟨j + 1, by omega, by simpa using hj⟩
      · rintro ⟨j, rfl, hj⟩
        cases j with
        | zero => simp [h] at hj
        | succ j => exact ⟨j, by omega, by simpa using hj⟩

theorem mem_positions_zero (x : String) (i : Nat) (ids : List String) :
    i ∈ positions x 0 ids ↔ ids[i]? = some x := by
  rw [mem_positions]; simp

theorem positions_ne_nil {x : String} {ids : List String} :
    positions x 0 ids ≠ [] ↔ x ∈ ids := by
  constructor
  · intro h
    obtain ⟨i, hi⟩ := List.exists_mem_of_ne_nil _ h
    rw [mem_positions_zero] at hi
    exact List.mem_of_getElem? hi
  · intro h e
    obtain ⟨i, hi⟩ := List.getElem?_of_mem h
    rw [← mem_positions_zero, e] at hi
    simp at hi

theorem checkDeps_iff (ids : List String) (deps : List (String × String)) :
    checkDeps ids deps = some true ↔
      ∀ d ∈ deps, d.1 ∈ ids ∧ d.2 ∈ ids ∧
        ∀ (i j : Nat), ids[i]? = some d.1 → ids[j]? = some d.2 → i < j := by
  induction deps with
  | nil => simp [checkDeps]
  | cons d ds ih =>
    rw [checkDeps]
    constructor
    · intro h
      split at h
      · rename_i M m hM hm
        rw [List.max?_eq_some_iff] at hM
        rw [List.min?_eq_some_iff] at hm
        split at h
        · rename_i hlt
          intro e he
          rcases List.mem_cons.1 he with rfl | he
          · refine ⟨List.mem_of_getElem? ((mem_positions_zero _ _ _).1 hM.1),
              List.mem_of_getElem? ((mem_positions_zero _ _ _).1 hm.1), ?_⟩
            intro i j hi hj
            have h1 := hM.2 i ((mem_positions_zero _ _ _).2 hi)
            have h2 := hm.2 j ((mem_positions_zero _ _ _).2 hj)
            omega
          · exact ih.1 h e he
        · simp at h
      · simp at h
    · intro h
      have hd := h d (by simp)
      have hM : ∃ M, (positions d.1 0 ids).max? = some M := by
        cases hx : (positions d.1 0 ids).max? with
        | none => rw [List.max?_eq_none_iff] at hx; exact absurd hx (positions_ne_nil.2 hd.1)
        | some M => exact ⟨M, rfl⟩
      have hm : ∃ M, (positions d.2 0 ids).min? = some M := by
        cases hx : (positions d.2 0 ids).min? with
        | none => rw [List.min?_eq_none_iff] at hx; exact absurd hx (positions_ne_nil.2 hd.2.1)
        | some M => exact ⟨M, rfl⟩
      obtain ⟨M, hM⟩ := hM
      obtain ⟨m, hm⟩ := hm
      rw [hM, hm]
      rw [List.max?_eq_some_iff] at hM
      rw [List.min?_eq_some_iff] at hm
      have hlt : M < m := hd.2.2 M m ((mem_positions_zero _ _ _).1 hM.1) ((mem_positions_zero _ _ _).1 hm.1)
      simp only [hlt, if_true]
      exact ih.2 fun e he => h e (by simp [he])

theorem idsUniqueFrom_iff (acc : List String) (tab : List UInstr) :
    idsUniqueFrom acc tab = true ↔ (tab.map (·.id)).Nodup ∧ ∀ u ∈ tab, u.id ∉ acc := by
  induction tab generalizing acc with
  | nil => simp [idsUniqueFrom]
  | cons u us ih =>
    rw [idsUniqueFrom]
    split
    · rename_i h
      simp [h]
    · rename_i h
      rw [ih]
      simp only [List.map_cons, List.nodup_cons, List.mem_map, List.mem_cons, not_or, forall_eq_or_imp]
      constructor
      · rintro ⟨h1, h2⟩
        exact ⟨⟨by rintro ⟨v, hv, e⟩; exact (h2 v hv).1 e, h1⟩, h, fun v hv => (h2 v hv).2⟩
      · rintro ⟨⟨h1, h2⟩, _, h3⟩
        exact ⟨h2, fun v hv => ⟨fun e => h1 ⟨v, hv, e⟩, h3 v hv⟩⟩

theorem varsUniqueStep_eq (acc vs : List Var) :
    varsUniqueStep acc vs = if vs.Nodup ∧ (∀ v ∈ vs, v ∉ acc) then some (vs.reverse ++ acc) else none := by
  induction vs generalizing acc with
  | nil => simp [varsUniqueStep]
  | cons v vs ih =>
    rw [varsUniqueStep]
    by_cases h : v ∈ acc
    · simp [h]
    · simp only [h, if_false, ih]
      have : (vs.Nodup ∧ ∀ w ∈ vs, w ∉ v :: acc) ↔ ((v :: vs).Nodup ∧ ∀ w ∈ v :: vs, w ∉ acc) := by
        simp only [List.nodup_cons, List.mem_cons, not_or, forall_eq_or_imp]
        constructor
        · rintro ⟨h1, h2⟩
          exact ⟨⟨fun hv => (h2 v hv).1 rfl, h1⟩, h, fun w hw => (h2 w hw).2⟩
        · rintro ⟨⟨h1, h2⟩, _, h3⟩
          exact ⟨h2, fun w hw => ⟨fun e => h1 (e ▸ hw), h3 w hw⟩⟩
      by_cases hc : (v :: vs).Nodup ∧ ∀ w ∈ v :: vs, w ∉ acc
      · rw [if_pos hc, if_pos (this.2 hc)]; simp
      · rw [if_neg hc, if_neg (fun h' => hc (this.1 h'))]

theorem varsUniqueFrom_iff (acc : List Var) (tab : List UInstr) :
    varsUniqueFrom acc tab = true ↔
      (tab.flatMap (·.outpt)).Nodup ∧ ∀ v ∈ tab.flatMap (·.outpt), v ∉ acc := by
  induction tab generalizing acc with
  | nil => simp [varsUniqueFrom]
  | cons u us ih =>
    rw [varsUniqueFrom, varsUniqueStep_eq]
    by_cases hc : u.outpt.Nodup ∧ ∀ v ∈ u.outpt, v ∉ acc
    · rw [if_pos hc]
      simp only [ih, List.flatMap_cons, List.nodup_append, List.mem_append, List.mem_reverse, not_or]
      constructor
      · rintro ⟨h1, h2⟩
        refine ⟨⟨hc.1, h1, ?_⟩, ?_⟩
        · intro a ha b hb e; exact (h2 b hb).1 (e ▸ ha)
        · rintro v (hv | hv)
          · exact hc.2 v hv
          · exact (h2 v hv).2
      · rintro ⟨⟨_, h1, h2⟩, h3⟩
        exact ⟨h1, fun v hv => ⟨fun hv' => h2 v hv' v hv rfl, h3 v (Or.inr hv)⟩⟩
    · rw [if_neg hc]
      simp only [List.flatMap_cons, List.nodup_append, List.mem_append]
      constructor
      · intro h; simp at h
      · rintro ⟨⟨h1, _⟩, h2⟩
        exact absurd ⟨h1, fun v hv => h2 v (Or.inl hv)⟩ hc

/-! ### Simulation -/

/-- The world evolves from `w` to `w'` along the schedule when every operation is applied to the values
of its declared inputs, and every operation then returns the values of its declared outputs. -/
inductive Good {V σ : Type} (tab : List UInstr) (sem : Sem V σ) (val : Var → V) :
    List String → σ → σ → Prop
  | nil (w) : Good tab sem val [] w w
  | skip (s o ss w w') (hc : classify s = some o) (ho : ∀ i, o ≠ .instr i)
      (h : Good tab sem val ss w w') : Good tab sem val (s :: ss) w w'
  | instr (s u ss w w') (hc : classify s = some (.instr u.id)) (hu : u ∈ tab)
      (hout : (sem u (u.inpt.map val) w).1 = u.outpt.map val)
      (h : Good tab sem val ss (sem u (u.inpt.map val) w).2 w') : Good tab sem val (s :: ss) w w'

theorem filter_id_eq {tab : List UInstr} (huniq : (tab.map (·.id)).Nodup) {u u' : UInstr} {l : List UInstr}
    (h : tab.filter (fun x => x.id == u.id) = u' :: l) (hu : u ∈ tab) : u' = u := by
  have h' : u' ∈ tab.filter (fun x => x.id == u.id) := by rw [h]; simp
  rw [List.mem_filter] at h'
  have hid : u'.id = u.id := by simpa using h'.2
  exact inj_of_nodup huniq h'.1 hu hid
where
  inj_of_nodup {tab : List UInstr} (huniq : (tab.map (·.id)).Nodup) {u u' : UInstr}
      (h' : u' ∈ tab) (hu : u ∈ tab) (hid : u'.id = u.id) : u' = u := by
    induction tab with
    | nil => simp at h'
    | cons t ts ih =>
      simp only [List.map_cons, List.nodup_cons, List.mem_map, not_exists, not_and] at huniq
      rcases List.mem_cons.1 h' with h1 | h1 <;> rcases List.mem_cons.1 hu with h2 | h2
      · rw [h1, h2]
      · exact absurd (h1 ▸ hid.symm) (huniq.1 _ h2)
      · exact absurd (h2 ▸ hid) (huniq.1 _ h1)
      · exact ih huniq.2 h1 h2

theorem consume_eq {xs st st' : List Var} (h : consume xs st = some st') : st = xs ++ st' := by
  induction xs generalizing st with
  | nil => simpa [consume] using h
  | cons x xs ih =>
    cases st with
    | nil => simp [consume] at h
    | cons s st =>
      rw [consume] at h
      split at h
      · rename_i e; subst e; simp [ih h]
      · simp at h

theorem consumeComm_eq {xs st st' : List Var} (h : consumeComm xs st = some st') :
    ∃ a b, xs = [a, b] ∧ (st = a :: b :: st' ∨ st = b :: a :: st') := by
  unfold consumeComm at h
  split at h
  · rename_i a b s0 s1 st''
    split at h
    · rename_i hc
      obtain rfl : st'' = st' := by simpa using h
      refine ⟨a, b, rfl, ?_⟩
      rcases hc with ⟨rfl, rfl⟩ | ⟨rfl, rfl⟩ <;> simp
    · simp at h
  · simp at h

theorem split_at_get {α : Type} {l : List α} {n : Nat} {y : α} (h : l[n]? = some y) :
    ∃ a b, l = a ++ y :: b ∧ a.length = n := by
  obtain ⟨hn, e⟩ := List.getElem?_eq_some_iff.1 h
  refine ⟨l.take n, l.drop (n + 1), ?_, by simp; omega⟩
  subst e
  rw [List.getElem_cons_drop]; simp

/-- The slots after one operation. -/
def slotAfter {V : Type} (val : Var → V) (m : Var → V) : Op → Var → V
  | .set v => fun u => if u = v then val v else m u
  | _ => m

/-- One symbolic step is matched by one machine step. -/
theorem step_sim {V σ : Type} {tab : List UInstr} {sem : Sem V σ} {val : Var → V}
    (hcomm : sem.RespectsComm tab) (huniq : (tab.map (·.id)).Nodup)
    {o : Op} {st st' : List Var} (hex : execOp tab o st = some st')
    (hsw : o ≠ .swap 0) (m : Var → V) (hm : ∀ v, o = .get v → m v = val v) (rest : List V) (w : σ)
    (w' : σ)
    (hw : (∀ i, o ≠ .instr i) ∧ w' = w ∨ ∃ u ∈ tab, o = .instr u.id ∧
      (sem u (u.inpt.map val) w).1 = u.outpt.map val ∧ w' = (sem u (u.inpt.map val) w).2) :
    Step tab sem o ⟨st.map val ++ rest, m, w⟩
      ⟨st'.map val ++ rest, slotAfter val m o, w'⟩ := by
  cases o with
  | pop =>
    cases st with
    | nil => simp [execOp] at hex
    | cons x st =>
      obtain rfl : st = st' := by simpa [execOp] using hex
      obtain rfl : w' = w := by
        rcases hw with ⟨_, h⟩ | ⟨u, _, h, _⟩
        · exact h
        · simp at h
      exact Step.pop _ _ _ _
  | swap n =>
    obtain rfl : w' = w := by
      rcases hw with ⟨_, h⟩ | ⟨u, _, h, _⟩
      · exact h
      · simp at h
    simp only [execOp] at hex
    split at hex
    · rename_i x y hx hy
      cases n with
      | zero => exact absurd rfl hsw
      | succ n =>
        cases st with
        | nil => simp at hx
        | cons x' st =>
          obtain rfl : x' = x := by simpa using hx
          have hy' : st[n]? = some y := by simpa using hy
          obtain ⟨a, b, rfl, hl⟩ := split_at_get hy'
          have : st' = y :: (a ++ x' :: b) := by
            have := Option.some.inj hex
            rw [← this]
            simp only [List.set_cons_zero, List.set_cons_succ]
            congr 1
            rw [List.set_append]
            simp [hl]
          subst this
          have := Step.swap (tab := tab) (sem := sem) (n + 1) (val x') (a.map val) (val y) (b.map val ++ rest) m w'
            (by simp [hl])
          simpa [slotAfter] using this
    · simp at hex
  | dup n =>
    obtain rfl : w' = w := by
      rcases hw with ⟨_, h⟩ | ⟨u, _, h, _⟩
      · exact h
      · simp at h
    simp only [execOp] at hex
    split at hex
    · simp at hex
    · rename_i hn
      obtain ⟨y, hy, rfl⟩ := Option.map_eq_some_iff.1 hex
      obtain ⟨a, b, rfl, hl⟩ := split_at_get hy
      have := Step.dup (tab := tab) (sem := sem) n (a.map val) (val y) (b.map val ++ rest) m w'
        (by simp [hl]; omega)
      simpa [slotAfter] using this
  | get v =>
    obtain rfl : w' = w := by
      rcases hw with ⟨_, h⟩ | ⟨u, _, h, _⟩
      · exact h
      · simp at h
    obtain rfl : v :: st = st' := by simpa [execOp] using hex
    have := Step.get (tab := tab) (sem := sem) v (st.map val ++ rest) m w'
    rw [hm v rfl] at this
    simpa [slotAfter] using this
  | set v =>
    obtain rfl : w' = w := by
      rcases hw with ⟨_, h⟩ | ⟨u, _, h, _⟩
      · exact h
      · simp at h
    cases st with
    | nil => simp [execOp] at hex
    | cons x st =>
      simp only [execOp] at hex
      split at hex
      · rename_i e; subst e
        obtain rfl : st = st' := by simpa using hex
        exact Step.set _ _ _ _ _
      · simp at hex
  | instr i =>
    rcases hw with ⟨h, _⟩ | ⟨u, hu, h, hout, rfl⟩
    · exact absurd rfl (h i)
    · obtain rfl : i = u.id := by simpa using h
      simp only [execOp] at hex
      split at hex
      · simp at hex
      · rename_i u' l hf
        obtain rfl := filter_id_eq huniq hf hu
        obtain ⟨st'', hst, rfl⟩ := Option.map_eq_some_iff.1 hex
        by_cases hc : u'.commutative = true
        · simp only [hc, if_true] at hst
          obtain ⟨a, b, hab, h⟩ := consumeComm_eq hst
          rcases h with rfl | rfl
          · have := Step.instr (sem := sem) u' [val a, val b] (st''.map val ++ rest) m w hu (by simp [hab])
            simp only [hab, List.map_cons, List.map_nil] at hout
            simp only [hout] at this
            simpa [hab, slotAfter] using this
          · have := Step.instr (sem := sem) u' [val b, val a] (st''.map val ++ rest) m w hu (by simp [hab])
            rw [hcomm u' hu _ _ _ hc] at this
            simp only [hab, List.map_cons, List.map_nil] at hout
            simp only [hout] at this
            simpa [hab, slotAfter] using this
        · simp only [hc] at hst
          obtain rfl := consume_eq (by simpa using hst)
          have := Step.instr (sem := sem) u' (u'.inpt.map val) (st''.map val ++ rest) m w hu (by simp)
          rw [hout] at this
          simpa [slotAfter] using this

/-- Simulation of a whole schedule. -/
theorem run_sim {V σ : Type} {tab : List UInstr} {sem : Sem V σ} {val : Var → V}
    (hcomm : sem.RespectsComm tab) (huniq : (tab.map (·.id)).Nodup)
    {ids : List String} {w w' : σ} (hgood : Good tab sem val ids w w')
    {st st' : List Var} (hex : execIds tab ids st = some st')
    (hsw : ∀ s ∈ ids, classify s ≠ some (.swap 0))
    (m : Var → V) (hslots : SlotsReady val m ids) (rest : List V) :
    ∃ m', Run tab sem ids ⟨st.map val ++ rest, m, w⟩ ⟨st'.map val ++ rest, m', w'⟩ := by
  induction hgood generalizing st m with
  | nil w =>
    obtain rfl : st = st' := by simpa [execIds] using hex
    exact ⟨m, Run.nil _⟩
  | skip s o ss w w' hc ho h ih =>
    rw [execIds] at hex
    obtain ⟨st1, h1, h2⟩ := Option.bind_eq_some_iff.1 hex
    simp only [execId, hc, Option.bind_some] at h1
    have hm : ∀ v, o = .get v → m v = val v := by
      rintro v rfl
      rcases hslots [] s ss v rfl hc with h | ⟨t, ht, _⟩
      · exact h
      · simp at ht
    have hstep := step_sim (val := val) hcomm huniq h1 (fun e => hsw s (by simp) (by rw [hc, e])) m hm rest w w
      (Or.inl ⟨ho, rfl⟩)
    obtain ⟨m', hrun⟩ := ih h2 (fun t ht => hsw t (by simp [ht])) (slotAfter val m o) (by
      intro pre t post v e hcl
      rcases hslots (s :: pre) t post v (by rw [e]; rfl) hcl with h | ⟨t', ht', h'⟩
      · left
        cases o with
        | set v' =>
          by_cases e' : v = v'
          · subst e'; simp [slotAfter]
          · simp [slotAfter, e', h]
        | _ => exact h
      · rcases List.mem_cons.1 ht' with rfl | ht'
        · left
          rw [hc] at h'
          cases h'
          simp [slotAfter]
        · exact Or.inr ⟨t', ht', h'⟩)
    exact ⟨m', Run.cons s o ss _ _ _ hc hstep hrun⟩
  | instr s u ss w w' hc hu hout h ih =>
    rw [execIds] at hex
    obtain ⟨st1, h1, h2⟩ := Option.bind_eq_some_iff.1 hex
    simp only [execId, hc, Option.bind_some] at h1
    have hstep := step_sim (val := val) hcomm huniq h1 (by simp) m (by simp) rest w _
      (Or.inr ⟨u, hu, rfl, hout, rfl⟩)
    obtain ⟨m', hrun⟩ := ih h2 (fun t ht => hsw t (by simp [ht])) m (by
      intro pre t post v e hcl
      rcases hslots (s :: pre) t post v (by rw [e]; rfl) hcl with h | ⟨t', ht', h'⟩
      · exact Or.inl h
      · rcases List.mem_cons.1 ht' with rfl | ht'
        · rw [hc] at h'; simp at h'
        · exact Or.inr ⟨t', ht', h'⟩)
    exact ⟨m', Run.cons s _ ss _ _ _ hc hstep hrun⟩

/-- When every symbolic step succeeds, each `.instr` id names an instruction of the table. -/
theorem instr_mem_of_exec {tab : List UInstr} {i : String} {st st' : List Var}
    (h : execOp tab (.instr i) st = some st') : ∃ u ∈ tab, u.id = i := by
  simp only [execOp] at h
  split at h
  · simp at h
  · rename_i u l hf
    have : u ∈ tab.filter (fun x => x.id == i) := by rw [hf]; simp
    rw [List.mem_filter] at this
    exact ⟨u, this.1, by simpa using this.2⟩

/-- For a world-independent interpretation and a valuation that satisfies every instruction, every
executable schedule is good. -/
theorem good_of_pure {V : Type} {tab : List UInstr} {f : UInstr → List V → List V} {val : Var → V}
    (hval : ∀ u ∈ tab, f u (u.inpt.map val) = u.outpt.map val)
    {ids : List String} {st st' : List Var} (hex : execIds tab ids st = some st') :
    Good tab (fun u a (w : Unit) => (f u a, w)) val ids () () := by
  induction ids generalizing st with
  | nil => exact Good.nil _
  | cons s ss ih =>
    rw [execIds] at hex
    obtain ⟨st1, h1, h2⟩ := Option.bind_eq_some_iff.1 hex
    obtain ⟨o, hc, h1⟩ := Option.bind_eq_some_iff.1 h1
    by_cases ho : ∃ i, o = .instr i
    · obtain ⟨i, rfl⟩ := ho
      obtain ⟨u, hu, rfl⟩ := instr_mem_of_exec h1
      exact Good.instr s u ss _ _ hc hu (hval u hu) (ih h2)
    · exact Good.skip s o ss _ _ hc (fun i e => ho ⟨i, e⟩) (ih h2)

/-! ### Determinism of the machine -/

theorem Step.det {V σ : Type} {tab : List UInstr} {sem : Sem V σ} (huniq : (tab.map (·.id)).Nodup)
    {o : Op} {M M1 M2 : Machine V σ} (h1 : Step tab sem o M M1) (h2 : Step tab sem o M M2) : M1 = M2 := by
  cases h1 with
  | pop x s m w => cases h2; rfl
  | swap n x a y b m w h =>
    generalize hM : (⟨x :: (a ++ y :: b), m, w⟩ : Machine V σ) = M at h2
    cases h2 with
    | swap _ x' a' y' b' m' w' h' =>
      simp only [Machine.mk.injEq, List.cons.injEq] at hM
      obtain ⟨⟨rfl, hl⟩, rfl, rfl⟩ := hM
      have := List.append_inj hl (by omega)
      simp only [List.cons.injEq] at this
      obtain ⟨rfl, rfl, rfl⟩ := this
      rfl
  | dup n a y b m w h =>
    generalize hM : (⟨a ++ y :: b, m, w⟩ : Machine V σ) = M at h2
    cases h2 with
    | dup _ a' y' b' m' w' h' =>
      simp only [Machine.mk.injEq] at hM
      obtain ⟨hl, rfl, rfl⟩ := hM
      have := List.append_inj hl (by omega)
      simp only [List.cons.injEq] at this
      obtain ⟨rfl, rfl, rfl⟩ := this
      rfl
  | get v s m w => cases h2; rfl
  | set v x s m w => cases h2; rfl
  | instr u args s m w hu ha =>
    generalize hM : (⟨args ++ s, m, w⟩ : Machine V σ) = M at h2
    generalize ho : Op.instr u.id = o at h2
    cases h2 with
    | instr u' args' s' m' w' hu' ha' =>
      have hid : u.id = u'.id := by simpa using ho
      obtain rfl := filter_id_eq.inj_of_nodup huniq hu hu' hid
      simp only [Machine.mk.injEq] at hM
      obtain ⟨hl, rfl, rfl⟩ := hM
      have := List.append_inj hl (by omega)
      obtain ⟨rfl, rfl⟩ := this
      rfl
    | _ => simp at ho

theorem Run.det {V σ : Type} {tab : List UInstr} {sem : Sem V σ} (huniq : (tab.map (·.id)).Nodup)
    {ids : List String} {M M1 M2 : Machine V σ} (h1 : Run tab sem ids M M1) (h2 : Run tab sem ids M M2) :
    M1 = M2 := by
  induction h1 with
  | nil M => cases h2; rfl
  | cons s o ss M M' M'' hc h hs ih =>
    cases h2 with
    | cons _ o' _ _ N' _ hc' h' hs' =>
      rw [hc] at hc'
      cases hc'
      obtain rfl := Step.det huniq h h'
      exact ih hs'

end Grey.SymExec

namespace Grey.SymExec
theorem infixOf_iff {pat l : List Char} : infixOf pat l = true ↔ pat <:+: l := by
  induction l with
  | nil => simp [infixOf]
  | cons c cs ih =>
    rw [infixOf, Bool.or_eq_true, ih, List.isPrefixOf_iff_prefix, List.infix_cons_iff]
end Grey.SymExec
