import Verif.Greedy.Target

/-!
# Schedules perform every write once and in order

The plan (`Verif/Greedy/Target.lean`) and the schedule made from it (`Verif/Greedy/Writes.lean`) together.
-/

namespace Grey.Greedy
open List SymExec

theorem writesOf_mem {tab : List UInstr} {u : UInstr} (hu : u ∈ tab) (h : writeOps.contains u.disasm = true) : u.id ∈ writesOf tab := by
  have hcase : u.disasm = "TSTORE" ∨ u.disasm = "SSTORE" ∨ u.disasm ∈ memWriteOps := by
    simp only [writeOps, memWriteOps, contains_eq_mem, decide_eq_true_eq, mem_cons, not_mem_nil, or_false] at h ⊢
    rcases h with h | h | h
    · exact .inr (.inl h)
    · exact .inl h
    · exact .inr (.inr (by simpa using h))
  unfold writesOf opsId
  rw [mem_append, mem_append]
  rcases hcase with h | h | h
  · exact .inl (.inl (mem_map.2 ⟨u, mem_filter.2 ⟨hu, by simp [h]⟩, rfl⟩))
  · exact .inl (.inr (mem_map.2 ⟨u, mem_filter.2 ⟨hu, by simp [h]⟩, rfl⟩))
  · exact .inr (mem_map.2 ⟨u, mem_filter.2 ⟨hu, by simpa using h⟩, rfl⟩)

theorem outs_of_block {tab : List UInstr} (h : ∀ u ∈ tab, ∀ v ∈ u.outpt, isWrite v = false) (src fin : List String) (reach : Nat) :
    Outs ⟨tab, src, fin, reach⟩ := by
  intro o v hv
  unfold outOf at hv
  cases hu : opInstr ⟨tab, src, fin, reach⟩ o with
  | none => rw [hu] at hv; simp at hv
  | some u =>
    rw [hu] at hv
    simp only [Option.bind_some] at hv
    exact h u (opInstr_mem hu) v (mem_of_getElem? hv)

/-- Instructions that write and have no result. -/
def Effect (tab : List UInstr) (u : UInstr) : Prop := u ∈ tab ∧ writeOps.contains u.disasm = true ∧ u.outpt = []

/-- **C80.** Every schedule the scheduler returns, made from the plans of `target`, performs every instruction of the block that writes and
has no result exactly once, and every two of them in the order of the dependencies. This holds for both tries, although the code checks the
dependencies for the first one only. -/
theorem effects_once_in_order {tab : List UInstr} {src tgt : List String} (hb : BlockOk tab src tgt) {deps : List (String × String)}
    {reach n : Nat} {junk : Bool} {h h' : Heur} {p p' : Plan}
    (ht : ∀ u ∈ tab, h.text u ≠ "SWAP1" ∧ h.text u ≠ "DUP1") (ht' : ∀ u ∈ tab, h'.text u ≠ "SWAP1" ∧ h'.text u ≠ "DUP1")
    (hsrc : ∀ v ∈ src, isWrite v = false) (htgt : ∀ v ∈ tgt, isWrite v = false) (hd : DepsOk h) (hd' : DepsOk h')
    (hp : ∀ o ∈ p.instr, Plain o) (hp' : ∀ o ∈ p'.instr, Plain o) (hk : PlanOk p) (hk' : PlanOk p')
    -- ids are named after the opcodes
    (hid : ∀ u ∈ tab, isWrite u.id = writeOps.contains u.disasm)
    -- both plans are from `target`
    {ask ask' : Ask} {mem sto tra mem' sto' tra' : List Dep}
    (hP : InTable ⟨tab, src, tgt, reach⟩ (allOps (writesOf tab) (tra ++ sto ++ mem)))
    (hP' : InTable ⟨tab, src, tgt ++ src, reach⟩ (allOps (writesOf tab) (tra' ++ sto' ++ mem')))
    (hplan : target ⟨tab, src, tgt, reach⟩ ask mem sto tra deps = some (p.instr, p.rest))
    (hplan' : junk = true → target ⟨tab, src, tgt ++ src, reach⟩ ask' mem' sto' tra' deps = some (p'.instr, p'.rest))
    {r : List (String × String)} (hr : greedy tab src tgt deps reach n junk h h' p p' = some r) :
    (∀ u, Effect tab u → (r.map Prod.snd).count u.id = 1) ∧
      ∀ a b, Effect tab a → Effect tab b → (a.id, b.id) ∈ tra ++ sto ++ mem → (a.id, b.id) ∈ tra' ++ sto' ++ mem' →
        Before (r.map Prod.snd) a.id b.id := by
  obtain ⟨q, hq, heq, -⟩ := writes_performed hb ht ht' hsrc htgt hd hd' hp hp' hk hk' hr
  have hout : ∀ u ∈ tab, ∀ v ∈ u.outpt, isWrite v = false := fun u hu v hv => (hb.out u hu v hv).1
  have key : (∀ w, isWrite w = true → w ∈ writesOf tab → q.instr.count w = 1) ∧
      ∀ a b, (a, b) ∈ tra ++ sto ++ mem → (a, b) ∈ tra' ++ sto' ++ mem' → isWrite a = true → isWrite b = true → Before q.instr a b := by
    rcases hq with rfl | ⟨hj, rfl⟩
    · obtain ⟨h1, h2⟩ := plan_writes hP (outs_of_block hout _ _ _) hplan
      exact ⟨h1, fun a b ha _ hwa hwb => (h2 a b ha hwa hwb).2.2⟩
    · obtain ⟨h1, h2⟩ := plan_writes hP' (outs_of_block hout _ _ _) (hplan' hj)
      exact ⟨h1, fun a b _ ha hwa hwb => (h2 a b ha hwa hwb).2.2⟩
  have heff : ∀ u, Effect tab u → isEffect tab u.id = true ∧ isWrite u.id = true := by
    rintro u ⟨h1, h2, h3⟩
    refine ⟨?_, by rw [hid u h1]; exact h2⟩
    rw [isEffect_iff hb.uniq h1, h3]
    rfl
  constructor
  · intro u hu
    obtain ⟨h1, h2⟩ := heff u hu
    rw [← count_filter h1, heq, count_filter (p := fun o => isWrite o && isEffect tab o) (by simp [h1, h2])]
    exact key.1 _ h2 (writesOf_mem hu.1 hu.2.1)
  · intro a b ha hb' hab hab'
    obtain ⟨h1, h2⟩ := heff a ha
    obtain ⟨h3, h4⟩ := heff b hb'
    have := key.2 _ _ hab hab' h2 h4
    unfold Before at this ⊢
    refine Sublist.trans ?_ (filter_sublist (p := isEffect tab))
    rw [heq]
    have hs := this.filter (fun o => isWrite o && isEffect tab o)
    rwa [filter_cons_of_pos (by simp [h1, h2]), filter_cons_of_pos (by simp [h3, h4]), filter_nil] at hs

/-! ### Examples -/

def exAsk : Ask := ⟨fun v w => v == w, fun w v => v == w && !isWrite w, fun v w => v == w⟩

theorem inTable_of {P : Prog} {ops : List String} (h : (ops.all fun o => (opInstr P o).isSome && (isWrite o || (outOf P o).isSome)) = true) :
    InTable P ops := by
  rw [all_eq_true] at h
  refine ⟨fun o ho => ?_, fun o ho hw => ?_⟩
  · have := h o ho
    simp only [Bool.and_eq_true] at this
    exact Option.isSome_iff_exists.1 this.1
  · have := h o ho
    simp only [Bool.and_eq_true, hw, Bool.false_or] at this
    exact Option.isSome_iff_exists.1 this.2

-- two stores, one after the other
example : ∃ r, greedy exStores ["s0", "s1"] ["v1", "s0"] [("SSTORE_0", "SSTORE_1")] 16 100 false exHeur exHeur exStoresPlan (exPlan []) =
      some r ∧ (r.map Prod.snd).count "SSTORE_1" = 1 ∧ Before (r.map Prod.snd) "SSTORE_0" "SSTORE_1" := by
  obtain ⟨r, hr⟩ := Option.isSome_iff_exists.1
    (show (greedy exStores ["s0", "s1"] ["v1", "s0"] [("SSTORE_0", "SSTORE_1")] 16 100 false exHeur exHeur exStoresPlan
      (exPlan [])).isSome = true by decide +kernel)
  have hd : DepsOk exHeur := by intro o d hd; simp [exHeur] at hd
  obtain ⟨h1, h2⟩ := effects_once_in_order (ask := exAsk) (ask' := exAsk) (mem := []) (sto := [("SSTORE_0", "SSTORE_1")]) (tra := [])
    (mem' := []) (sto' := [("SSTORE_0", "SSTORE_1")]) (tra' := [])
    ⟨by decide +kernel, by decide +kernel, by decide +kernel, by decide +kernel, by decide +kernel, by decide +kernel, by decide +kernel⟩
    (by decide +kernel) (by decide +kernel) (by decide +kernel) (by decide +kernel) hd hd (by decide +kernel) (by decide +kernel)
    (show ∀ q ∈ exStoresPlan.needed, isWrite q.1 = false by decide +kernel) (show ∀ q ∈ (exPlan []).needed, isWrite q.1 = false by decide +kernel)
    (by decide +kernel) (inTable_of (by decide +kernel)) (inTable_of (by decide +kernel)) (by decide +kernel) (by simp) hr
  have e0 : Effect exStores ⟨"SSTORE_0", ["s1", "s0"], [], false, true, "SSTORE"⟩ := ⟨by simp [exStores], by decide +kernel, rfl⟩
  have e1 : Effect exStores ⟨"SSTORE_1", ["v1", "v1"], [], false, true, "SSTORE"⟩ := ⟨by simp [exStores], by decide +kernel, rfl⟩
  exact ⟨r, hr, h1 _ e1, h2 _ _ e0 e1 (by simp) (by simp)⟩

/-- `mstore(0x40, s0); sstore(s1, s0); v1 = mload(0x80); v2 = sload(v1); mstore(0x40, s1); mstore(s2, s1)` -/
def lostTab : List UInstr :=
  [⟨"PUSH_0", [], ["v40"], false, false, "PUSH"⟩, ⟨"PUSH_1", [], ["v80"], false, false, "PUSH"⟩,
   ⟨"MSTORE_0", ["v40", "s0"], [], false, true, "MSTORE"⟩, ⟨"SSTORE_0", ["s1", "s0"], [], false, true, "SSTORE"⟩,
   ⟨"MLOAD_0", ["v80"], ["v1"], false, false, "MLOAD"⟩, ⟨"SLOAD_0", ["v1"], ["v2"], false, false, "SLOAD"⟩,
   ⟨"MSTORE_1", ["v40", "s1"], [], false, true, "MSTORE"⟩, ⟨"MSTORE_2", ["s2", "s1"], [], false, true, "MSTORE"⟩]

/-- The dependencies of memory: the last store may change what `MLOAD_0` reads. -/
def lostMem : List Dep := [("MSTORE_0", "MSTORE_1"), ("MSTORE_1", "MSTORE_2"), ("MLOAD_0", "MSTORE_2")]

/-- The dependencies of storage, the second one is added by `extend_dependencies` (greedy_previous_param.py:587-613). -/
def lostSto : List Dep := [("SSTORE_0", "SLOAD_0"), ("MLOAD_0", "SLOAD_0")]

/-- Which value needs which: `v2` needs `v1`, and `v1` needs `v80`. -/
def lostAsk : Ask where
  needs v w := v == w || (v, w) ∈ [("v1", "v2"), ("v80", "v1"), ("v80", "v2")]
  allNeeded w v := (v == w && !w.startsWith "M" && !w.startsWith "S") || (v, w) ∈ [("v1", "v2"), ("v80", "v1"), ("v80", "v2")]
  computed v w := v == w || (v, w) ∈ [("v1", "v2"), ("v80", "v1"), ("v80", "v2")]

def lostHeur : Heur := { exHeur with hasValue := fun v => v == "v40" || v == "v80" }

def lostPlan : Plan := ⟨["SSTORE_0", "MSTORE_0", "MSTORE_1", "MSTORE_2"], ["v2"], [("s0", 2), ("s1", 3), ("s2", 1), ("v40", 2)], []⟩

-- a plan for stores and loads
example : ∃ order rest, target ⟨lostTab, ["s0", "s1", "s2"], ["v2"], 16⟩ lostAsk lostMem lostSto [] (("SSTORE_0", "SLOAD_0") :: lostMem) =
    some (order, rest) ∧ order.count "MSTORE_2" = 1 ∧ Before order "MSTORE_0" "MSTORE_1" := by
  have hin : InTable ⟨lostTab, ["s0", "s1", "s2"], ["v2"], 16⟩ (allOps (writesOf lostTab) ([] ++ lostSto ++ lostMem)) :=
    inTable_of (by decide +kernel)
  have hout : Outs ⟨lostTab, ["s0", "s1", "s2"], ["v2"], 16⟩ := outs_of_block (by decide +kernel) _ _ _
  let rank : String → Nat := fun o =>
    if o = "MSTORE_1" ∨ o = "SLOAD_0" ∨ o = "v1" then 1 else if o = "MSTORE_2" ∨ o = "v2" then 2 else 0
  obtain ⟨order, rest, h⟩ := plan_exists (ask := lostAsk) (mem := lostMem) (sto := lostSto) (tra := [])
    (all := ("SSTORE_0", "SLOAD_0") :: lostMem) hin hout
    (by
      intro o v hv
      have hmem : v ∈ lostTab.flatMap (·.outpt) := by
        unfold outOf at hv
        cases hu : opInstr ⟨lostTab, ["s0", "s1", "s2"], ["v2"], 16⟩ o with
        | none => rw [hu] at hv; simp at hv
        | some u =>
          rw [hu] at hv
          simp only [Option.bind_some] at hv
          exact mem_flatMap.2 ⟨u, opInstr_mem hu, mem_of_getElem? hv⟩
      refine Option.isSome_iff_exists.1 ?_
      revert v
      have : ∀ v ∈ lostTab.flatMap (·.outpt), (varInstr ⟨lostTab, ["s0", "s1", "s2"], ["v2"], 16⟩ v).isSome = true := by decide +kernel
      exact fun v _ hm => this v hm)
    (by decide +kernel) (r := rank)
    (by
      have : ∀ d ∈ ([] ++ lostSto ++ lostMem), rank d.1 < rank d.2 := by decide +kernel
      exact fun a b hab => this (a, b) hab)
    (by decide +kernel) (k := rank)
    (by
      intro v w hvw
      simp only [lostAsk, Bool.or_eq_true, beq_iff_eq, decide_eq_true_eq] at hvw
      rcases hvw with rfl | hvw
      · exact .inl rfl
      · right
        have : ∀ d ∈ [("v1", "v2"), ("v80", "v1"), ("v80", "v2")], rank d.1 < rank d.2 := by decide +kernel
        exact this (v, w) hvw)
  obtain ⟨h1, h2⟩ := plan_writes hin hout h
  exact ⟨order, rest, h, h1 _ (by decide +kernel) (by decide +kernel), (h2 _ _ (by decide +kernel) (by decide +kernel) (by decide +kernel)).2.2⟩

theorem lost_plan : target ⟨lostTab, ["s0", "s1", "s2"], ["v2"], 16⟩ lostAsk lostMem lostSto [] (("SSTORE_0", "SLOAD_0") :: lostMem) =
    some (lostPlan.instr, lostPlan.rest) := by decide +kernel

/-- **C80**, what does not hold: the plan of a valid block may drop a load that has to be executed before a store (here `MLOAD_0` before
`MSTORE_2`), since its level is joined with that of another store. The value is then computed after the store, which the check at the end
rejects: there is no schedule, although there is a correct one, whose stack and dependencies are right. -/
theorem load_dropped :
    ("MLOAD_0", "MSTORE_2") ∈ lostMem ∧
    target ⟨lostTab, ["s0", "s1", "s2"], ["v2"], 16⟩ lostAsk lostMem lostSto [] (("SSTORE_0", "SLOAD_0") :: lostMem) =
      some (lostPlan.instr, lostPlan.rest) ∧
    "v1" ∉ lostPlan.instr ∧
    greedy lostTab ["s0", "s1", "s2"] ["v2"] (("SSTORE_0", "SLOAD_0") :: lostMem) 16 1000 false lostHeur lostHeur lostPlan lostPlan = none ∧
    (∃ r, greedy lostTab ["s0", "s1", "s2"] ["v2"] [] 16 1000 false lostHeur lostHeur lostPlan lostPlan = some r ∧
      Before (r.map Prod.snd) "MSTORE_2" "MLOAD_0") ∧
    let ids := ["DUP2", "DUP2", "SWAP1", "SSTORE_0", "PUSH_0", "MSTORE_0", "PUSH_1", "MLOAD_0", "SLOAD_0", "SWAP2", "SWAP1", "DUP1",
      "PUSH_0", "MSTORE_1", "SWAP1", "MSTORE_2"]
    execIds lostTab ids ["s0", "s1", "s2"] = some ["v2"] ∧ checkDependencies (("SSTORE_0", "SLOAD_0") :: lostMem) ids = true ∧
      checkOnce lostTab ids = true := by
  refine ⟨by decide +kernel, lost_plan, by decide +kernel, by decide +kernel, ?_, by decide +kernel⟩
  refine ⟨_, Option.eq_some_of_isSome (by decide +kernel), ?_⟩
  unfold Before
  decide +kernel

end Grey.Greedy
