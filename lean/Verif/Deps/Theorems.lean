/-
Property theorems about the dependence analysis: C05, C06, C07, C08.
-/
import Verif.Deps.Lemmas
import Mathlib.Tactic.Tauto
import Mathlib.Tactic.ByContra
namespace Grey.Deps

/-! ### C05 -/

/-- **C05.** Two constant intervals of non-zero size are reported as dependent exactly when they share a byte. -/
theorem overlap_iff_shared_byte (i1 o1 i2 o2 : Int) (h1 : 0 < o1) (h2 : 0 < o2) :
    overlap i1 o1 i2 o2 = true ↔ ∃ k : Int, (i1 ≤ k ∧ k < i1 + o1) ∧ (i2 ≤ k ∧ k < i2 + o2) := by
  simp only [overlap, Bool.or_eq_true, Bool.and_eq_true, decide_eq_true_eq]
  constructor
  · rintro (h | h)
    · exact ⟨i2, by omega, by omega⟩
    · exact ⟨i1, by omega, by omega⟩
  · rintro ⟨k, h, h'⟩; omega

/-- **C05.** Whatever the sizes, intervals reported independent share no byte. -/
theorem no_overlap_disjoint (i1 o1 i2 o2 : Int) (h : overlap i1 o1 i2 o2 = false) (k : Int) :
    ¬ ((i1 ≤ k ∧ k < i1 + o1) ∧ (i2 ≤ k ∧ k < i2 + o2)) := by
  intro hk
  have : overlap i1 o1 i2 o2 = true := by
    simp only [overlap, Bool.or_eq_true, Bool.and_eq_true, decide_eq_true_eq]; omega
  rw [this] at h; simp at h

/-- **C05.** On constants the interval test is the overlap test; any non-constant bound is reported dependent. -/
theorem interval_test_exact (x y : Expr × Expr) :
    depInterval x y = false ↔ ∃ a m b n, x = (.const a, .const m) ∧ y = (.const b, .const n) ∧
      overlap a m b n = false := by
  obtain ⟨x1, x2⟩ := x
  obtain ⟨y1, y2⟩ := y
  constructor
  · intro h
    unfold depInterval at h
    split at h
    · rename_i a m b n e1 e2 e3 e4
      simp only at e1 e2 e3 e4
      subst e1 e2 e3 e4
      exact ⟨a, m, b, n, rfl, rfl, h⟩
    · simp at h
  · rintro ⟨a, m, b, n, e1, e2, h⟩
    simp only [Prod.mk.injEq] at e1 e2
    obtain ⟨rfl, rfl⟩ := e1
    obtain ⟨rfl, rfl⟩ := e2
    exact h

example : overlap 0 32 32 32 = false ∧ overlap 0 32 31 1 = true := by decide

/-! ### C06 -/

/-- **C06.** Two instructions of a block that are not reported as memory dependent never conflict on a byte of
memory, whatever the values of the variables. `return` and `revert`, which the analysis ignores, only end
blocks (there they are executed last). -/
theorem memory_deps_cover (L : List Instr) (deps : List (Nat × Nat)) (h : memoryDeps L = some deps)
    (i j : Nat) (hij : i < j) (a b : Instr) (ha : L[i]? = some a) (hb : L[j]? = some b)
    (hea : ¬ (a.op = "return" ∨ a.op = "revert")) (heb : ¬ (b.op = "return" ∨ b.op = "revert"))
    (hnot : (i, j) ∉ deps) (env : String → Nat) (henv : Lits env) (k : Nat) :
    ¬ (Writes a.op (a.ins.map env) k ∧ (Reads b.op (b.ins.map env) k ∨ Writes b.op (b.ins.map env) k)) ∧
    ¬ (Reads a.op (a.ins.map env) k ∧ Writes b.op (b.ins.map env) k) := by
  unfold memoryDeps at h
  obtain ⟨l, hl, rfl⟩ := Option.map_eq_some_iff.1 h
  obtain ⟨hpw, _⟩ := pos_memAccesses hl
  obtain ⟨accA, hA, hAl⟩ := mem_memAccesses hl ha
  obtain ⟨accB, hB, hBl⟩ := mem_memAccesses hl hb
  have hilt : i < L.length := (List.getElem?_eq_some_iff.1 ha).1
  have hjlt : j < L.length := (List.getElem?_eq_some_iff.1 hb).1
  have pA : ∀ x ∈ accA, x.pos = i := fun x hx => by
    have := pos_memAccessAt hA x hx; simp at this; omega
  have pB : ∀ x ∈ accB, x.pos = j := fun x hx => by
    have := pos_memAccessAt hB x hx; simp at this; omega
  have key : ∀ x ∈ accA, ∀ y ∈ accB, (x.type = some .write ∨ y.type = some .write) →
      Covers x.iv k → Covers y.iv k → False := by
    intro x hx y hy ht hcx hcy
    have := pair_reported hpw (hAl x hx) (hBl y hy) (by rw [pA x hx, pB y hy]; exact hij)
      (by unfold generateDep; rcases ht with h | h <;> simp [h]) (depInterval_of_covers hcx hcy)
    rw [pA x hx, pB y hy] at this
    exact hnot this
  constructor
  · rintro ⟨hw, hr⟩
    obtain ⟨x, hx, htx, hcx⟩ := write_recorded henv hA hw
    rcases hr with hr | hr
    · obtain ⟨y, hy, hcy⟩ := read_recorded henv hB heb hr
      exact key x hx y hy (Or.inl htx) hcx hcy
    · obtain ⟨y, hy, _, hcy⟩ := write_recorded henv hB hr
      exact key x hx y hy (Or.inl htx) hcx hcy
  · rintro ⟨hr, hw⟩
    obtain ⟨x, hx, hcx⟩ := read_recorded henv hA hea hr
    obtain ⟨y, hy, hty, hcy⟩ := write_recorded henv hB hw
    exact key x hx y hy (Or.inr hty) hcx hcy

/-- A name environment that gives literals their value and 5 to everything else. -/
def litEnv (s : String) : Nat := if isLit s then (parseHex s).getD 0 else 5

theorem litEnv_lits : Lits litEnv := by
  intro ds hne hds
  have hd : ∀ d < 16, ∀ b, hexDigit (digitChar d b) = some d := by decide
  have hp : ∀ (ds : List (Nat × Bool)) (m : Nat), (∀ d ∈ ds, d.1 < 16) →
      parseHexFrom m (ds.map fun d => digitChar d.1 d.2) = some ((ds.map (·.1)).foldl (fun n d => 16 * n + d) m) := by
    intro ds
    induction ds with
    | nil => intro m _; rfl
    | cons d ds ih =>
      intro m h
      simp only [List.map_cons, parseHexFrom, hd d.1 (h d (by simp)) d.2, Option.bind_some]
      rw [ih _ (fun e he => h e (by simp [he]))]
      rfl
  have hl : isLit (String.ofList ('0' :: 'x' :: ds.map fun d => digitChar d.1 d.2)) = true := by
    simp [isLit]
  unfold litEnv
  rw [hl, if_pos rfl]
  unfold parseHex
  simp only [String.toList_ofList, List.drop_succ_cons, List.drop_zero]
  cases ds with
  | nil => exact absurd rfl hne
  | cons d ds =>
    have := hp (d :: ds) 0 hds
    simp only [List.map_cons] at this ⊢
    rw [this]
    rfl

/-- Non-vacuity of C06: stores at 0x00 and 0x20 are not reported, a load at 0x1f is reported with both. -/
example : memoryDeps [⟨"mstore", ["0x00", "x"], []⟩, ⟨"mstore", ["0x20", "y"], []⟩, ⟨"mload", ["0x1f"], ["z"]⟩] =
    some [(0, 2), (1, 2)] := by decide

/-! ### C07 -/

/-- **C07, refuted.** A store at `x` and a load at `x + 0` are reported independent although they always
access the same key. -/
theorem storage_alias_missed :
    ∃ (L : List Instr) (env : String → Nat), Lits env ∧ AddOk env (L.map fun x => (x.op, x.ins, x.outs)) ∧
      storageDeps L = some [] ∧
      (∃ a b, L[1]? = some a ∧ L[2]? = some b ∧
        ∃ k, WritesKey "sstore" a.op (a.ins.map env) k ∧ ReadsKey "sload" b.op (b.ins.map env) k ∧ a.op = "sstore") := by
  refine ⟨[⟨"add", ["x", "0x00"], ["t"]⟩, ⟨"sstore", ["x", "v"], []⟩, ⟨"sload", ["t"], ["r"]⟩], litEnv, litEnv_lits,
    ?_, by decide, _, _, rfl, rfl, 5, Or.inl ⟨rfl, by decide⟩, Or.inl ⟨rfl, by decide⟩, rfl⟩
  intro a b c h
  simp at h
  obtain ⟨⟨rfl, rfl⟩, rfl⟩ := h
  decide

/-- **C07, refuted.** Contract creation runs foreign code, which may call back and change storage, but is never
ordered with storage accesses. -/
theorem create_vs_storage_missed :
    storageDeps [⟨"sstore", ["0x00", "v"], []⟩, ⟨"create", ["0x00", "0x00", "0x20"], ["a"]⟩,
      ⟨"sload", ["0x00"], ["r"]⟩] = some [(0, 2)] := by decide

theorem var_of_getExpr {fuel : Nat} {pre : List Instr} {w v : String} (h : getExpr fuel pre w = some (.var v)) : w = v := by
  cases fuel with
  | zero => simp [getExpr] at h
  | succ f =>
    rw [getExpr] at h
    split at h
    · obtain ⟨n, _, h⟩ := Option.map_eq_some_iff.1 h; simp at h
    · split at h
      · simpa using h
      · split at h
        · obtain ⟨n, _, h⟩ := Option.map_eq_some_iff.1 h; simp at h
        · simp at h

mutual
theorem feeds_of_isMember {pre : List Instr} {v : String} {fuel : Nat} {w : String} {e : Expr}
    (h : getExpr fuel pre w = some e) (hm : isMember v e = true) (hne : e ≠ .var v) :
    Feeds (pre.map fun x => (x.op, x.ins, x.outs)) v w := by
  cases fuel with
  | zero => simp [getExpr] at h
  | succ f =>
    rw [getExpr] at h
    split at h
    · obtain ⟨n, _, rfl⟩ := Option.map_eq_some_iff.1 h
      simp [isMember] at hm
    · split at h
      · obtain rfl := Option.some.inj h
        rw [isMember] at hm
        exact absurd (by rw [(by simpa using hm : v = w)]) hne
      · rename_i c cs hf
        split at h
        · obtain ⟨args, ha, rfl⟩ := Option.map_eq_some_iff.1 h
          have hc : c ∈ pre ∧ w ∈ c.outs := by
            have : c ∈ pre.filter (fun x => decide (w ∈ x.outs)) := by rw [hf]; simp
            simpa using this
          rw [isMember] at hm
          rcases feeds_of_isMemberL ha hm with hx | ⟨y, hy, hx⟩
          · exact .direct (List.mem_map.2 ⟨c, hc.1, rfl⟩) hc.2 hx
          · exact .through (List.mem_map.2 ⟨c, hc.1, rfl⟩) hc.2 hy hx
        · simp at h
theorem feeds_of_isMemberL {pre : List Instr} {v : String} {fuel : Nat} {ws : List String} {es : List Expr}
    (h : ws.mapM (getExpr fuel pre) = some es) (hm : isMemberL v es = true) :
    v ∈ ws ∨ ∃ y ∈ ws, Feeds (pre.map fun x => (x.op, x.ins, x.outs)) v y := by
  cases ws with
  | nil =>
    obtain rfl : [] = es := by simpa using h
    simp [isMemberL] at hm
  | cons w ws =>
    rw [List.mapM_cons] at h
    obtain ⟨e, he, h⟩ := Option.bind_eq_some_iff.1 h
    obtain ⟨es', hes, h⟩ := Option.bind_eq_some_iff.1 h
    obtain rfl := Option.some.inj h
    rw [isMemberL, Bool.or_eq_true] at hm
    rcases hm with hm | hm
    · by_cases hv : e = .var v
      · subst hv
        left
        rw [var_of_getExpr he]
        simp
      · right; exact ⟨w, by simp, feeds_of_isMember he hm hv⟩
    · rcases feeds_of_isMemberL hes hm with h | ⟨y, hy, h⟩
      · left; simp [h]
      · right; exact ⟨y, by simp [hy], h⟩
end


theorem depAccess_false {e1 e2 : Expr} (h : depAccess e1 e2 = false) :
    (∃ a b, e1 = .const a ∧ e2 = .const b ∧ a ≠ b) ∨
    (∃ v, e1 = .var v ∧ isMember v e2 = true ∧ e2 ≠ .var v) ∨ (∃ v, e2 = .var v ∧ isMember v e1 = true ∧ e1 ≠ .var v) := by
  unfold depAccess at h
  split at h
  · simp at h
  · simp at h
  · rename_i a b
    exact Or.inl ⟨a, b, rfl, rfl, by simpa using h⟩
  · simp at h
  · rename_i v op args _
    exact Or.inr (Or.inl ⟨v, rfl, by simpa using h, by simp⟩)
  · rename_i op args v _
    exact Or.inr (Or.inr ⟨v, rfl, by simpa using h, by simp⟩)
  · simp at h

theorem Feeds.mono {l l' : List (String × List String × List String)} (h : ∀ x ∈ l, x ∈ l') {x v : String}
    (f : Feeds l x v) : Feeds l' x v := by
  induction f with
  | direct h1 h2 h3 => exact .direct (h _ h1) h2 h3
  | through h1 h2 h3 _ ih => exact .through (h _ h1) h2 h3 ih

/-- How one instruction is recorded by the key analyses. -/
theorem keyAccessAt_of_touch {load store : String} {pre : List Instr} {x : Instr} {acc : List KeyAccess}
    (hstore : typeMemOp store = some .write)
    (hcall : ∀ op ∈ ["call", "callcode", "delegatecall", "staticcall"], op ≠ load ∧ op ≠ store)
    (h : keyAccessAt [load, store] pre x = some acc) (hx : x.op ≠ "create" ∧ x.op ≠ "create2")
    {args : List Nat} {k : Nat} (ht : ReadsKey load x.op args k ∨ WritesKey store x.op args k) :
    (∃ v e, x.ins[0]? = some v ∧ expr pre v = some e ∧ acc = [⟨pre.length, e, typeMemOp x.op⟩] ∧
        (WritesKey store x.op args k → typeMemOp x.op = some .write) ∧ args[0]? = some k ∧ x.op ∈ [load, store]) ∨
      acc = [⟨pre.length, .var "inf", some .write⟩] := by
  unfold keyAccessAt at h
  split at h
  · rename_i hop
    obtain ⟨v, hv, h⟩ := Option.bind_eq_some_iff.1 h
    obtain ⟨e, he, rfl⟩ := Option.map_eq_some_iff.1 h
    have hnc : ∀ op ∈ ["call", "callcode", "delegatecall", "staticcall"], x.op ≠ op := by
      intro op hop' e
      have := hcall op hop'
      simp only [List.mem_cons, List.not_mem_nil, or_false] at hop
      rw [e] at hop
      tauto
    simp only [List.mem_cons, List.not_mem_nil, or_false, forall_eq_or_imp, forall_eq] at hnc
    refine Or.inl ⟨v, e, hv, he, rfl, ?_, ?_, hop⟩
    · intro hw
      unfold WritesKey at hw
      simp only [List.mem_cons, List.not_mem_nil, or_false] at hw
      rcases hw with ⟨e, _⟩ | hw
      · rw [e]; exact hstore
      · exfalso; tauto
    · unfold ReadsKey WritesKey at ht
      simp only [List.mem_cons, List.not_mem_nil, or_false] at ht
      tauto
  · rename_i hop
    simp only [List.mem_cons, List.not_mem_nil, or_false, not_or] at hop
    have hc : x.op ∈ ["call", "delegatecall", "staticcall", "callcode"] := by
      unfold ReadsKey WritesKey at ht
      obtain ⟨h1, h2⟩ := hx
      simp only [List.mem_cons, List.not_mem_nil, or_false] at ht ⊢
      tauto
    rw [if_pos hc] at h
    exact Or.inr (Option.some.inj h).symm

theorem key_deps_cover_aux (load store : String)
    (hstore : typeMemOp store = some .write)
    (hcall : ∀ op ∈ ["call", "callcode", "delegatecall", "staticcall"], op ≠ load ∧ op ≠ store) (L : List Instr)
    (l : List KeyAccess) (hl : keyAccesses [load, store] [] L = some l)
    (i j : Nat) (hij : i < j) (a b : Instr) (ha : L[i]? = some a) (hb : L[j]? = some b)
    (hca : a.op ≠ "create" ∧ a.op ≠ "create2") (hcb : b.op ≠ "create" ∧ b.op ≠ "create2")
    (hnot : (i, j) ∉ keyPairs l) (env : String → Nat) (henv : Lits env) (k : Nat)
    (hconf : (WritesKey store a.op (a.ins.map env) k ∧
        (ReadsKey load b.op (b.ins.map env) k ∨ WritesKey store b.op (b.ins.map env) k)) ∨
      (ReadsKey load a.op (a.ins.map env) k ∧ WritesKey store b.op (b.ins.map env) k)) :
    a.op ∈ [load, store] ∧ b.op ∈ [load, store] ∧ ∃ u v, a.ins[0]? = some u ∧ b.ins[0]? = some v ∧ env u = env v ∧
      (Feeds (L.map fun x => (x.op, x.ins, x.outs)) u v ∨ Feeds (L.map fun x => (x.op, x.ins, x.outs)) v u) := by
  obtain ⟨hpw, _⟩ := pos_keyAccesses hl
  obtain ⟨accA, hA, hAl⟩ := mem_keyAccesses hl ha
  obtain ⟨accB, hB, hBl⟩ := mem_keyAccesses hl hb
  have hilt : i < L.length := (List.getElem?_eq_some_iff.1 ha).1
  have hjlt : j < L.length := (List.getElem?_eq_some_iff.1 hb).1
  have lenA : ([] ++ L.take i).length = i := by simp; omega
  have lenB : ([] ++ L.take j).length = j := by simp; omega
  have key : ∀ ea ta eb tb, accA = [⟨([] ++ L.take i).length, ea, ta⟩] → accB = [⟨([] ++ L.take j).length, eb, tb⟩] →
      generateDep ta tb = true → depAccess ea eb = false := by
    intro ea ta eb tb hA' hB' hg
    by_contra hd
    have := key_pair_reported hpw (hAl ⟨([] ++ L.take i).length, ea, ta⟩ (by rw [hA']; simp))
      (hBl ⟨([] ++ L.take j).length, eb, tb⟩ (by rw [hB']; simp))
      (by simp only [lenA, lenB]; exact hij) hg (by simpa using hd)
    simp only [lenA, lenB] at this
    exact hnot this
  have hta : ReadsKey load a.op (a.ins.map env) k ∨ WritesKey store a.op (a.ins.map env) k := by tauto
  have htb : ReadsKey load b.op (b.ins.map env) k ∨ WritesKey store b.op (b.ins.map env) k := by tauto
  rcases keyAccessAt_of_touch hstore hcall hA hca hta with ⟨u, ea, hu, hea, rA, opA, kA, memA⟩ | rA
  · rcases keyAccessAt_of_touch hstore hcall hB hcb htb with ⟨v, eb, hv, heb, rB, opB, kB, memB⟩ | rB
    · refine ⟨memA, memB, u, v, hu, hv, ?_, ?_⟩
      · rw [List.getElem?_map, hu, Option.map_some, Option.some.injEq] at kA
        rw [List.getElem?_map, hv, Option.map_some, Option.some.injEq] at kB
        omega
      have hg : generateDep (typeMemOp a.op) (typeMemOp b.op) = true := by
        unfold generateDep
        rcases hconf with ⟨h, _⟩ | ⟨_, h⟩
        · simp [opA h]
        · simp [opB h]
      have hd := key _ _ _ _ rA rB hg
      have memPre : ∀ n, ∀ x ∈ (([] ++ L.take n).map fun x : Instr => (x.op, x.ins, x.outs)),
          x ∈ L.map fun x => (x.op, x.ins, x.outs) := by
        intro n x hx
        obtain ⟨y, hy, rfl⟩ := List.mem_map.1 hx
        exact List.mem_map.2 ⟨y, List.mem_of_mem_take (by simpa using hy), rfl⟩
      rcases depAccess_false hd with ⟨m, n, rfl, rfl, hmn⟩ | ⟨x, rfl, hm, hne⟩ | ⟨x, rfl, hm, hne⟩
      · exfalso
        have h1 := expr_const_env henv hea
        have h2 := expr_const_env henv heb
        rw [List.getElem?_map, hu, Option.map_some, Option.some.injEq] at kA
        rw [List.getElem?_map, hv, Option.map_some, Option.some.injEq] at kB
        omega
      · have : u = x := var_of_getExpr hea
        subst this
        exact Or.inl ((feeds_of_isMember heb hm hne).mono (memPre _))
      · have : v = x := var_of_getExpr heb
        subst this
        exact Or.inr ((feeds_of_isMember hea hm hne).mono (memPre _))
    · exfalso
      have := key _ _ _ _ rA rB (by unfold generateDep; simp)
      unfold depAccess at this
      split at this <;> simp_all
  · exfalso
    rcases keyAccessAt_of_touch hstore hcall hB hcb htb with ⟨v, eb, hv, heb, rB, opB, kB, memB⟩ | rB
    · have := key _ _ _ _ rA rB (by unfold generateDep; simp)
      simp [depAccess] at this
    · have := key _ _ _ _ rA rB (by unfold generateDep; simp)
      simp [depAccess] at this

/-- **C07 (partial).** If two storage accesses not reported as dependent touch the same key in some execution
and one of them writes, then they are a load or a store of the block itself and the key of one of them goes into the computation of the key of the other.
Missing for C07: that last case (refuted by `storage_alias_missed`) and contract creation (refuted by
`create_vs_storage_missed`). -/
theorem storage_deps_cover_partial (L : List Instr) (deps : List (Nat × Nat)) (h : storageDeps L = some deps)
    (i j : Nat) (hij : i < j) (a b : Instr) (ha : L[i]? = some a) (hb : L[j]? = some b)
    (hca : a.op ≠ "create" ∧ a.op ≠ "create2") (hcb : b.op ≠ "create" ∧ b.op ≠ "create2")
    (hnot : (i, j) ∉ deps) (env : String → Nat) (henv : Lits env) (k : Nat)
    (hconf : (WritesKey "sstore" a.op (a.ins.map env) k ∧
        (ReadsKey "sload" b.op (b.ins.map env) k ∨ WritesKey "sstore" b.op (b.ins.map env) k)) ∨
      (ReadsKey "sload" a.op (a.ins.map env) k ∧ WritesKey "sstore" b.op (b.ins.map env) k)) :
    a.op ∈ ["sload", "sstore"] ∧ b.op ∈ ["sload", "sstore"] ∧ ∃ u v, a.ins[0]? = some u ∧ b.ins[0]? = some v ∧ env u = env v ∧
      (Feeds (L.map fun x => (x.op, x.ins, x.outs)) u v ∨ Feeds (L.map fun x => (x.op, x.ins, x.outs)) v u) := by
  unfold storageDeps at h
  obtain ⟨l, hl, rfl⟩ := Option.map_eq_some_iff.1 h
  exact key_deps_cover_aux "sload" "sstore" (by decide) (by decide) L l hl i j hij a b ha hb hca hcb hnot env henv k hconf

/-- **C07 (partial).** The same for transient storage. -/
theorem transient_deps_cover_partial (L : List Instr) (deps : List (Nat × Nat)) (h : transientDeps L = some deps)
    (i j : Nat) (hij : i < j) (a b : Instr) (ha : L[i]? = some a) (hb : L[j]? = some b)
    (hca : a.op ≠ "create" ∧ a.op ≠ "create2") (hcb : b.op ≠ "create" ∧ b.op ≠ "create2")
    (hnot : (i, j) ∉ deps) (env : String → Nat) (henv : Lits env) (k : Nat)
    (hconf : (WritesKey "tstore" a.op (a.ins.map env) k ∧
        (ReadsKey "tload" b.op (b.ins.map env) k ∨ WritesKey "tstore" b.op (b.ins.map env) k)) ∨
      (ReadsKey "tload" a.op (a.ins.map env) k ∧ WritesKey "tstore" b.op (b.ins.map env) k)) :
    a.op ∈ ["tload", "tstore"] ∧ b.op ∈ ["tload", "tstore"] ∧ ∃ u v, a.ins[0]? = some u ∧ b.ins[0]? = some v ∧ env u = env v ∧
      (Feeds (L.map fun x => (x.op, x.ins, x.outs)) u v ∨ Feeds (L.map fun x => (x.op, x.ins, x.outs)) v u) := by
  unfold transientDeps at h
  obtain ⟨l, hl, rfl⟩ := Option.map_eq_some_iff.1 h
  exact key_deps_cover_aux "tload" "tstore" (by decide) (by decide) L l hl i j hij a b ha hb hca hcb hnot env henv k hconf

/-- Non-vacuity of C07: distinct constant keys are not reported, equal ones and unknown ones are. -/
example : storageDeps [⟨"sstore", ["0x00", "v"], []⟩, ⟨"sload", ["0x01"], ["r"]⟩, ⟨"sload", ["0x00"], ["s"]⟩,
    ⟨"sstore", ["k", "v"], []⟩] = some [(0, 2), (0, 3), (1, 3), (2, 3)] := by decide
example : transientDeps [⟨"tstore", ["0x00", "v"], []⟩, ⟨"tload", ["0x01"], ["r"]⟩, ⟨"tload", ["0x00"], ["s"]⟩] =
    some [(0, 2)] := by decide

/-! ### C08 -/

/-- **C08.** Every reported memory dependence goes from an earlier to a later instruction of the block. -/
theorem memory_deps_forward (L : List Instr) (deps : List (Nat × Nat)) (h : memoryDeps L = some deps)
    (p : Nat × Nat) (hp : p ∈ deps) : p.1 < p.2 ∧ p.2 < L.length := by
  unfold memoryDeps at h
  obtain ⟨l, hl, rfl⟩ := Option.map_eq_some_iff.1 h
  obtain ⟨hpw, hr⟩ := pos_memAccesses hl
  obtain ⟨s, t, a, b, u, e, hne, -, -, rfl⟩ := mem_memPairs.1 hp
  have h1 := pairwise_split_pos (f := MemAccess.pos) (R := (· ≤ ·)) hpw e
  have h2 := hr b (by rw [e]; simp)
  simp only [List.length_nil] at h2 ⊢
  omega

/-- **C08.** Every reported storage dependence goes from an earlier to a later instruction of the block. -/
theorem storage_deps_forward (L : List Instr) (deps : List (Nat × Nat)) (h : storageDeps L = some deps)
    (p : Nat × Nat) (hp : p ∈ deps) : p.1 < p.2 ∧ p.2 < L.length := by
  unfold storageDeps at h
  obtain ⟨l, hl, rfl⟩ := Option.map_eq_some_iff.1 h
  obtain ⟨hpw, hr⟩ := pos_keyAccesses hl
  obtain ⟨s, t, a, b, u, e, -, -, rfl⟩ := mem_keyPairs.1 hp
  have h1 := pairwise_split_pos (f := KeyAccess.pos) (R := (· < ·)) hpw e
  have h2 := hr b (by rw [e]; simp)
  simp only [List.length_nil] at h2 ⊢
  omega

/-- **C08.** Every reported transient-storage dependence goes from an earlier to a later instruction. -/
theorem transient_deps_forward (L : List Instr) (deps : List (Nat × Nat)) (h : transientDeps L = some deps)
    (p : Nat × Nat) (hp : p ∈ deps) : p.1 < p.2 ∧ p.2 < L.length := by
  unfold transientDeps at h
  obtain ⟨l, hl, rfl⟩ := Option.map_eq_some_iff.1 h
  obtain ⟨hpw, hr⟩ := pos_keyAccesses hl
  obtain ⟨s, t, a, b, u, e, -, -, rfl⟩ := mem_keyPairs.1 hp
  have h1 := pairwise_split_pos (f := KeyAccess.pos) (R := (· < ·)) hpw e
  have h2 := hr b (by rw [e]; simp)
  simp only [List.length_nil] at h2 ⊢
  omega

/-- **C08.** The gas dependences are exactly the pairs of `gas` instructions, in program order. -/
theorem gas_deps_exact (L : List Instr) (p : Nat × Nat) :
    p ∈ gasDeps L ↔ p.1 < p.2 ∧ (∃ x, L[p.1]? = some x ∧ x.op = "gas") ∧ (∃ x, L[p.2]? = some x ∧ x.op = "gas") := by
  have hm : ∀ (l : List Instr) (i n : Nat), n ∈ gasPositions i l ↔ i ≤ n ∧ ∃ x, l[n - i]? = some x ∧ x.op = "gas" := by
    intro l
    induction l with
    | nil => intro i n; simp [gasPositions]
    | cons y ys ih =>
      intro i n
      have step : (i ≤ n ∧ ∃ x, (y :: ys)[n - i]? = some x ∧ x.op = "gas") ↔
          (n = i ∧ y.op = "gas") ∨ (i + 1 ≤ n ∧ ∃ x, ys[n - (i + 1)]? = some x ∧ x.op = "gas") := by
        constructor
        · rintro ⟨h1, x, hx, hg⟩
          rcases Nat.eq_or_lt_of_le h1 with e | h
          · subst e; simp at hx; subst hx; exact Or.inl ⟨rfl, hg⟩
          · right
            refine ⟨h, x, ?_, hg⟩
            have : n - i = (n - (i + 1)) + 1 := by omega
            rwa [this, List.getElem?_cons_succ] at hx
        · rintro (⟨rfl, hg⟩ | ⟨h, x, hx, hg⟩)
          · exact ⟨Nat.le_refl _, y, by simp, hg⟩
          · refine ⟨by omega, x, ?_, hg⟩
            have : n - i = (n - (i + 1)) + 1 := by omega
            rwa [this, List.getElem?_cons_succ]
      rw [step, gasPositions]
      by_cases hy : y.op = "gas"
      · simp [hy, ih]
      · simp [hy, ih]
  unfold gasDeps
  rw [mem_natPairs (gasPositions_spec 0 L).1, hm, hm]
  simp only [Nat.zero_le, true_and, Nat.sub_zero]
  tauto

/-- **C08.** Keeping the program order satisfies every reported dependence: the constraints of a block never
contradict each other. -/
theorem program_order_satisfies (L : List Instr) (d1 d2 d3 : List (Nat × Nat)) (h1 : memoryDeps L = some d1)
    (h2 : storageDeps L = some d2) (h3 : transientDeps L = some d3) :
    ∀ p ∈ d1 ++ d2 ++ d3 ++ gasDeps L, ∃ s t u : List Nat,
      List.range L.length = s ++ p.1 :: t ++ p.2 :: u := by
  intro p hp
  have hlt : p.1 < p.2 ∧ p.2 < L.length := by
    simp only [List.mem_append] at hp
    rcases hp with ((hp | hp) | hp) | hp
    · exact memory_deps_forward L d1 h1 p hp
    · exact storage_deps_forward L d2 h2 p hp
    · exact transient_deps_forward L d3 h3 p hp
    · obtain ⟨ha, -, x, hx, -⟩ := (gas_deps_exact L p).1 hp
      exact ⟨ha, (List.getElem?_eq_some_iff.1 hx).1⟩
  obtain ⟨ha, hb⟩ := hlt
  refine ⟨List.range p.1, (List.range (p.2 - p.1 - 1)).map (p.1 + 1 + ·),
    (List.range (L.length - p.2 - 1)).map (p.2 + 1 + ·), ?_⟩
  have e1 : L.length = p.1 + ((p.2 - p.1 - 1 + 1) + (L.length - p.2 - 1 + 1)) := by omega
  conv => lhs; rw [e1]
  rw [List.range_add, List.range_add, List.range_succ_eq_map, List.range_succ_eq_map]
  simp only [List.map_append, List.map_cons, List.map_map, List.append_assoc, List.cons_append]
  refine congrArg _ (congrArg₂ _ (by omega) (congrArg₂ _ ?_ (congrArg₂ _ (by omega) ?_)))
  · exact List.map_congr_left fun x _ => by simp; omega
  · exact List.map_congr_left fun x _ => by simp; omega

example : gasDeps [⟨"gas", [], ["a"]⟩, ⟨"add", ["a", "a"], ["b"]⟩, ⟨"gas", [], ["c"]⟩] = [(0, 2)] := by decide

end Grey.Deps
