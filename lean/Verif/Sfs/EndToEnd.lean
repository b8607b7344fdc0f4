/-
C51: the specification of a block *with the dependences computed for it* stands for the block, on the EVM state.
-/
import Verif.Sfs.BuildTheorems
import Verif.Sfs.EvmSpec
import Verif.Sfs.Theorems
open List
namespace Grey.Sfs
open Grey.SymExec
open Grey.Deps (Lits memoryDeps storageDeps transientDeps gasDeps digitsVal digitChar)

/-- The instruction as the dependence analyses see it. -/
def Ins.toDeps (i : Ins) : Deps.Instr := ⟨i.op, i.inArgs, i.outArgs⟩

/-- One of the four lists of `_process_dependences` (src/parser/cfg_block.py:367-389), without the unused instructions
(src/parser/utils_parser.py:258-263). -/
def depsById (b : Built) (deps : List (Nat × Nat)) : Option (List (String × String)) :=
  (replacePos (fun n => b.positions.lookup n) (simplify deps)).map (dropUnused b.unused)

/-- `build_spec` (src/parser/cfg_block.py:634-658): the specification and its field `"dependencies"`. -/
def buildSpec (instrs : List Ins) (split : Option Ins) (assign : List (String × String))
    (initial final : List String) : Option (Built × List (String × String)) :=
  (buildSequence instrs split assign initial final).bind fun b =>
    (storageDeps (instrs.map Ins.toDeps)).bind fun sto => (depsById b sto).bind fun stoDeps =>
    (memoryDeps (instrs.map Ins.toDeps)).bind fun mem => (depsById b mem).bind fun memDeps =>
    (transientDeps (instrs.map Ins.toDeps)).bind fun trans => (depsById b trans).bind fun transDeps =>
    (depsById b (gasDeps (instrs.map Ins.toDeps))).map fun gas =>
      (b, stoDeps ++ memDeps ++ transDeps ++ gas)

/-! ### The values of constants -/

theorem hexNumber_digits (ds : List (Nat × Bool)) (h : ∀ d ∈ ds, d.1 < 16) :
    hexNumber (ds.map fun d => digitChar d.1 d.2) = digitsVal (ds.map (·.1)) := by
  have hd : ∀ d < 16, ∀ b, "0123456789abcdef".toList.idxOf (digitChar d b).toLower = d := by decide
  unfold hexNumber digitsVal
  rw [List.foldl_map, List.foldl_map]
  generalize 0 = z
  induction ds generalizing z with
  | nil => rfl
  | cons d ds ih =>
    rw [List.foldl_cons, List.foldl_cons, hd d.1 (h d (by simp)) d.2]
    exact ih (fun e he => h e (by simp [he])) _

theorem read_lits {σ : Type} (I : Interp Nat σ) (hnum : ∀ n, I.num n = n) (env : String → Nat) : Lits (I.read env) := by
  intro ds _ hds
  have hl : IsLiteral (String.ofList ('0' :: 'x' :: ds.map fun d => digitChar d.1 d.2)) := ⟨ds.map fun d => digitChar d.1 d.2, by simp⟩
  unfold Interp.read
  rw [if_pos hl, hnum]
  unfold constNumber
  rw [String.toList_ofList]
  exact hexNumber_digits ds hds

/-! ### Instructions that touch different places do not influence each other -/

/-- Two instructions conflict: both touch a place and one of them writes it. -/
def Conflict (a b : String × List Nat) : Prop :=
  ∃ l, (MayWrite a.1 a.2 l ∧ (MayRead b.1 b.2 l ∨ MayWrite b.1 b.2 l)) ∨ (MayRead a.1 a.2 l ∧ MayWrite b.1 b.2 l)

theorem independent_of_local {C : Type} {I : Interp Nat (Loc → C)} {instrs : List Ins} (hl : LocalOk I instrs)
    {a b : Ins} (ha : a ∈ instrs) (hb : b ∈ instrs) (env : String → Nat)
    (hc : ¬ Conflict (a.op, a.inArgs.map (I.read env)) (b.op, b.inArgs.map (I.read env))) : IndependentIns I env a b := by
  simp only [Conflict, not_exists, not_or, not_and] at hc
  have hra : ∀ w l, MayRead a.op (a.inArgs.map (I.read env)) l → (I.ins b env w).2 l = w l := fun w l h =>
    hl.untouched b hb env w l fun h' => (hc l).2 h h'
  have hrb : ∀ w l, MayRead b.op (b.inArgs.map (I.read env)) l → (I.ins a env w).2 l = w l := fun w l h =>
    hl.untouched a ha env w l fun h' => ((hc l).1 h').1 h
  refine ⟨fun w => ?_, fun w => hl.result a ha env _ _ (hra w), fun w => hl.result b hb env _ _ (hrb w)⟩
  funext l
  by_cases hwa : MayWrite a.op (a.inArgs.map (I.read env)) l
  · have hwb : ¬ MayWrite b.op (b.inArgs.map (I.read env)) l := ((hc l).1 hwa).2
    rw [hl.untouched b hb env _ l hwb]
    exact hl.written a ha env _ _ (hra w) l (hl.untouched b hb env w l hwb)
  · rw [hl.untouched a ha env _ l hwa]
    exact hl.written b hb env _ _ (fun l h => (hrb w l h).symm) l (hl.untouched a ha env w l hwa).symm

/-! ### The analysed operations -/

theorem memAccessAt_ops {pre : List Deps.Instr} {x : Deps.Instr} {acc : List Deps.MemAccess}
    (h : Deps.memAccessAt pre x = some acc) (hne : acc ≠ []) : x.op ∈ analysedOps := by
  unfold Deps.memAccessAt at h
  split at h
  · rename_i hm; revert hm; unfold Deps.memAccessOps analysedOps; simp only [List.mem_cons, List.not_mem_nil, or_false]; tauto
  · split at h
    · rename_i hm; rw [hm]; decide
    · split at h
      · rename_i hm; revert hm; unfold Deps.memOffsetOps analysedOps; simp only [List.mem_cons, List.not_mem_nil, or_false]; tauto
      · simp only [Option.some.injEq] at h; exact absurd h.symm hne

theorem keyAccessAt_ops {ops : List String} (hops : ∀ o ∈ ops, o ∈ analysedOps) {pre : List Deps.Instr} {x : Deps.Instr}
    {acc : List Deps.KeyAccess} (h : Deps.keyAccessAt ops pre x = some acc) (hne : acc ≠ []) : x.op ∈ analysedOps := by
  unfold Deps.keyAccessAt at h
  split at h
  · rename_i hm; exact hops _ hm
  · split at h
    · rename_i hm; revert hm; unfold analysedOps; simp only [List.mem_cons, List.not_mem_nil, or_false]; tauto
    · simp only [Option.some.injEq] at h; exact absurd h.symm hne

theorem memAccesses_ops {pre rest : List Deps.Instr} {l : List Deps.MemAccess} (h : Deps.memAccesses pre rest = some l) :
    ∀ a ∈ l, ∃ x, (pre ++ rest)[a.pos]? = some x ∧ x.op ∈ analysedOps := by
  induction rest generalizing pre l with
  | nil =>
    obtain rfl : [] = l := by simpa [Deps.memAccesses] using h
    simp
  | cons y ys ih =>
    rw [Deps.memAccesses] at h
    obtain ⟨acc, hacc, h⟩ := Option.bind_eq_some_iff.1 h
    obtain ⟨l', hl', rfl⟩ := Option.map_eq_some_iff.1 h
    intro a ha
    rcases List.mem_append.1 ha with ha | ha
    · refine ⟨y, ?_, memAccessAt_ops hacc (by intro e; rw [e] at ha; simp at ha)⟩
      rw [Deps.pos_memAccessAt hacc a ha]; simp
    · simpa using ih hl' a ha

theorem keyAccesses_ops {ops : List String} (hops : ∀ o ∈ ops, o ∈ analysedOps) {pre rest : List Deps.Instr}
    {l : List Deps.KeyAccess} (h : Deps.keyAccesses ops pre rest = some l) :
    ∀ a ∈ l, ∃ x, (pre ++ rest)[a.pos]? = some x ∧ x.op ∈ analysedOps := by
  induction rest generalizing pre l with
  | nil =>
    obtain rfl : [] = l := by simpa [Deps.keyAccesses] using h
    simp
  | cons y ys ih =>
    rw [Deps.keyAccesses] at h
    obtain ⟨acc, hacc, h⟩ := Option.bind_eq_some_iff.1 h
    obtain ⟨l', hl', rfl⟩ := Option.map_eq_some_iff.1 h
    intro a ha
    rcases List.mem_append.1 ha with ha | ha
    · refine ⟨y, ?_, keyAccessAt_ops hops hacc (by intro e; rw [e] at ha; simp at ha)⟩
      have : a.pos = pre.length := by
        unfold Deps.keyAccessAt at hacc
        split at hacc
        · obtain ⟨v, _, hacc⟩ := Option.bind_eq_some_iff.1 hacc
          obtain ⟨e, _, rfl⟩ := Option.map_eq_some_iff.1 hacc
          simp only [List.mem_singleton] at ha; rw [ha]
        · split at hacc
          · simp only [Option.some.injEq] at hacc; subst hacc
            simp only [List.mem_singleton] at ha; rw [ha]
          · simp only [Option.some.injEq] at hacc; subst hacc; simp at ha
      rw [this]; simp
    · simpa using ih hl' a ha

/-- Both ends of every dependence are instructions the analyses look at. -/
def EndsAnalysed (L : List Deps.Instr) (deps : List (Nat × Nat)) : Prop :=
  ∀ d ∈ deps, (∃ x, L[d.1]? = some x ∧ x.op ∈ analysedOps) ∧ ∃ x, L[d.2]? = some x ∧ x.op ∈ analysedOps

theorem memoryDeps_ends {L : List Deps.Instr} {deps : List (Nat × Nat)} (h : memoryDeps L = some deps) :
    EndsAnalysed L deps := by
  unfold memoryDeps at h
  obtain ⟨l, hl, rfl⟩ := Option.map_eq_some_iff.1 h
  intro d hd
  obtain ⟨s, t, a, b, u, e, _, _, _, rfl⟩ := Deps.mem_memPairs.1 hd
  exact ⟨by simpa using memAccesses_ops hl a (by rw [e]; simp), by simpa using memAccesses_ops hl b (by rw [e]; simp)⟩

theorem keyDeps_ends {ops : List String} (hops : ∀ o ∈ ops, o ∈ analysedOps) {L : List Deps.Instr}
    {deps : List (Nat × Nat)} (h : (Deps.keyAccesses ops [] L).map Deps.keyPairs = some deps) : EndsAnalysed L deps := by
  obtain ⟨l, hl, rfl⟩ := Option.map_eq_some_iff.1 h
  intro d hd
  obtain ⟨s, t, a, b, u, e, _, _, rfl⟩ := Deps.mem_keyPairs.1 hd
  exact ⟨by simpa using keyAccesses_ops hops hl a (by rw [e]; simp),
    by simpa using keyAccesses_ops hops hl b (by rw [e]; simp)⟩

theorem chain_first {A : Type} {deps : List (A × A)} {a b : A} (h : Grey.Trace.Chain deps a b) : ∃ c, (a, c) ∈ deps := by
  cases h with
  | single h => exact ⟨_, h⟩
  | step h _ => exact ⟨_, h⟩

theorem chain_mono {A : Type} {deps deps' : List (A × A)} (hs : ∀ d ∈ deps, d ∈ deps') {a b : A}
    (h : Grey.Trace.Chain deps a b) : Grey.Trace.Chain deps' a b := by
  induction h with
  | single h => exact .single (hs _ h)
  | step h _ ih => exact .step (hs _ h) ih

/-- A dependence between positions survives as a chain of dependences between ids. -/
theorem depsById_chain {instrs : List Ins} {b : Built} {value : String → Nat}
    (hok : Analysable instrs b.positions b.unused value)
    {deps : List (Nat × Nat)} (hfw : ∀ d ∈ deps, d.1 < d.2) (hends : EndsAnalysed (instrs.map Ins.toDeps) deps)
    {out : List (String × String)} (h : depsById b deps = some out) {m n : Nat} (hd : (m, n) ∈ deps) {x y : String}
    (hx : b.positions.lookup m = some x) (hy : b.positions.lookup n = some y) : Grey.Trace.Chain out x y := by
  unfold depsById at h
  obtain ⟨byId, hr, rfl⟩ := Option.map_eq_some_iff.1 h
  have hused : ∀ (k : Nat) (c : String), (∃ z, (instrs.map Ins.toDeps)[k]? = some z ∧ z.op ∈ analysedOps) →
      b.positions.lookup k = some c → c ∉ b.unused := by
    rintro k c ⟨z, hz, hop⟩ hc
    rw [List.getElem?_map] at hz
    obtain ⟨i, hi, rfl⟩ := Option.map_eq_some_iff.1 hz
    exact hok.used k i c hi hc hop
  obtain ⟨e1, e2⟩ := hends _ hd
  refine removal_keeps_order_partial deps hfw _ b.unused byId hr m n x y hx hy (hused m x e1 hx) (hused n y e2 hy) ?_
    (.single hd)
  intro k c _ h2 hc
  obtain ⟨z, hz⟩ := chain_first h2
  exact hused k c (hends _ hz).1 hc

/-- Two instructions of the block that are not ordered by any of the dependences do not conflict. -/
theorem no_conflict {instrs : List Ins} {b : Built} {value : String → Nat} (hval : Lits value)
    (hok : Analysable instrs b.positions b.unused value)
    {sto mem trans : List (Nat × Nat)} (hsto : storageDeps (instrs.map Ins.toDeps) = some sto)
    (hmem : memoryDeps (instrs.map Ins.toDeps) = some mem) (htrans : transientDeps (instrs.map Ins.toDeps) = some trans)
    {m n : Nat} (hmn : m < n) {a c : Ins} (ha : instrs[m]? = some a) (hc : instrs[n]? = some c)
    (h1 : (m, n) ∉ sto) (h2 : (m, n) ∉ mem) (h3 : (m, n) ∉ trans) :
    ¬ Conflict (a.op, a.inArgs.map value) (c.op, c.inArgs.map value) := by
  have ha' : (instrs.map Ins.toDeps)[m]? = some a.toDeps := by rw [List.getElem?_map, ha]; rfl
  have hc' : (instrs.map Ins.toDeps)[n]? = some c.toDeps := by rw [List.getElem?_map, hc]; rfl
  have hma := List.mem_of_getElem? ha
  have hmc := List.mem_of_getElem? hc
  have hfeed : (instrs.map Ins.toDeps).map (fun x => (x.op, x.ins, x.outs)) =
      instrs.map fun i => (i.op, i.inArgs, i.outArgs) := by rw [List.map_map]; rfl
  -- conflicts on a key
  have hkey : ∀ (load store : String) (l : List Deps.KeyAccess), [load, store] ∈ [["sload", "sstore"], ["tload", "tstore"]] →
      Deps.typeMemOp store = some .write →
      (∀ op ∈ ["call", "callcode", "delegatecall", "staticcall"], op ≠ load ∧ op ≠ store) →
      Deps.keyAccesses [load, store] [] (instrs.map Ins.toDeps) = some l → (m, n) ∉ Deps.keyPairs l → ∀ k,
      ¬ ((Deps.WritesKey store a.op (a.inArgs.map value) k ∧ (Deps.ReadsKey load c.op (c.inArgs.map value) k ∨
          Deps.WritesKey store c.op (c.inArgs.map value) k)) ∨
        (Deps.ReadsKey load a.op (a.inArgs.map value) k ∧ Deps.WritesKey store c.op (c.inArgs.map value) k)) := by
    intro load store l hops hst hcall hl hnot k hconf
    by_cases hcre : (a.op ≠ "create" ∧ a.op ≠ "create2") ∧ (c.op ≠ "create" ∧ c.op ≠ "create2")
    · obtain ⟨o1, o2, u, v, hu, hv, huv, hf⟩ := Deps.key_deps_cover_aux load store hst hcall _ l hl m n hmn a.toDeps c.toDeps
        ha' hc' hcre.1 hcre.2 hnot value hval k hconf
      rw [hfeed] at hf
      rcases hf with hf | hf
      · exact hok.keys _ hops a hma c hmc o1 o2 u v hu hv hf huv
      · exact hok.keys _ hops c hmc a hma o2 o1 v u hv hu hf huv.symm
    · have hcr : a.op ∈ createOps ∨ c.op ∈ createOps := by
        
        by_contra hcr
        rw [not_or] at hcr
        refine hcre ⟨⟨?_, ?_⟩, ?_, ?_⟩ <;> intro e
        · exact hcr.1 (by rw [e]; decide)
        · exact hcr.1 (by rw [e]; decide)
        · exact hcr.2 (by rw [e]; decide)
        · exact hcr.2 (by rw [e]; decide)
      have htouch : ∀ (i : Ins) (k : Nat), Deps.ReadsKey load i.op (i.inArgs.map value) k ∨ Deps.WritesKey store i.op (i.inArgs.map value) k →
          i.op ∈ [load, store] ∨ i.op ∈ envWriters := by
        intro i k h
        have hcc : ∀ o ∈ ["call", "callcode", "delegatecall", "staticcall", "create", "create2"], o ∈ envWriters := by decide
        have hcc' : ∀ o ∈ ["call", "callcode", "delegatecall", "create", "create2"], o ∈ envWriters := by decide
        rcases h with (⟨h, _⟩ | h) | (⟨h, _⟩ | h)
        · exact Or.inl (by rw [h]; simp)
        · exact Or.inr (hcc _ h)
        · exact Or.inl (by rw [h]; simp)
        · exact Or.inr (hcc' _ h)
      have hin : ∀ i : Ins, i.op ∈ [load, store] → i.op ∈ ["sload", "sstore", "tload", "tstore"] := by
        intro i h
        have hsub : ∀ l ∈ [["sload", "sstore"], ["tload", "tstore"]], ∀ o ∈ l, o ∈ ["sload", "sstore", "tload", "tstore"] := by
          decide
        exact hsub _ hops _ h
      have hcw : ∀ i : Ins, i.op ∈ createOps → i.op ∈ envWriters := by
        intro i h; exact (by decide : ∀ o ∈ createOps, o ∈ envWriters) _ h
      have hwr : ∀ i : Ins, i.op ∈ envWriters → i.op ∈ envReaders := by
        intro i h; exact (by decide : ∀ o ∈ envWriters, o ∈ envReaders) _ h
      have hnc : ∀ i : Ins, i.op ∈ createOps → i.op ∉ callOps := by
        intro i h; exact (by decide : ∀ o ∈ createOps, o ∉ callOps) _ h
      have hta : a.op ∈ [load, store] ∨ a.op ∈ envWriters := htouch a k (hconf.elim (fun h => Or.inr h.1) (fun h => Or.inl h.1))
      have htc : c.op ∈ [load, store] ∨ c.op ∈ envWriters := htouch c k (hconf.elim (fun h => h.2) (fun h => Or.inr h.2))
      rcases hcr with hcr | hcr
      · rcases htc with h | h
        · exact hok.create a hma hcr c hmc (hin c h)
        · exact hnc a hcr (hok.env m n a c hmn ha hc (Or.inl ⟨hcw a hcr, hwr c h⟩)).1
      · rcases hta with h | h
        · exact hok.create c hmc hcr a hma (hin a h)
        · exact hnc c hcr (hok.env m n a c hmn ha hc (Or.inl ⟨h, hwr c (hcw c hcr)⟩)).2
  rintro ⟨l, hl⟩
  cases l with
  | mem k =>
    obtain ⟨g1, g2⟩ := Deps.memory_deps_cover _ mem hmem m n hmn a.toDeps c.toDeps ha' hc' (hok.noExit a hma)
      (hok.noExit c hmc) h2 value hval k
    rcases hl with hl | hl
    · exact g1 hl
    · exact g2 hl
  | sto k =>
    unfold storageDeps at hsto
    obtain ⟨l, hl', rfl⟩ := Option.map_eq_some_iff.1 hsto
    exact hkey "sload" "sstore" l (by simp) (by decide) (by decide) hl' h1 k hl
  | trans k =>
    unfold transientDeps at htrans
    obtain ⟨l, hl', rfl⟩ := Option.map_eq_some_iff.1 htrans
    exact hkey "tload" "tstore" l (by simp) (by decide) (by decide) hl' h3 k hl
  | env =>
    have hwr : ∀ i : Ins, i.op ∈ envWriters → i.op ∈ envReaders := by
      intro i h; exact (by decide : ∀ o ∈ envWriters, o ∈ envReaders) _ h
    have hcc : a.op ∈ callOps ∧ c.op ∈ callOps := by
      refine hok.env m n a c hmn ha hc ?_
      rcases hl with ⟨h, h' | h'⟩ | ⟨h, h'⟩
      · exact Or.inl ⟨h, h'⟩
      · exact Or.inl ⟨h, hwr c h'⟩
      · exact Or.inr ⟨h, h'⟩
    -- two calls are ordered by the storage dependences
    unfold storageDeps at hsto
    obtain ⟨l, hl', rfl⟩ := Option.map_eq_some_iff.1 hsto
    have hnokey : ∀ i : Ins, i.op ∈ callOps → i.op ∉ ["sload", "sstore"] := by
      intro i h; exact (by decide : ∀ o ∈ callOps, o ∉ ["sload", "sstore"]) _ h
    obtain ⟨hpw, _⟩ := Deps.pos_keyAccesses hl'
    obtain ⟨accA, hA, hAl⟩ := Deps.mem_keyAccesses hl' ha'
    obtain ⟨accB, hB, hBl⟩ := Deps.mem_keyAccesses hl' hc'
    have hacc : ∀ (i : Ins) pre acc, i.op ∈ callOps → Deps.keyAccessAt ["sload", "sstore"] pre i.toDeps = some acc →
        acc = [⟨pre.length, .var "inf", some .write⟩] := by
      intro i pre acc hi h
      unfold Deps.keyAccessAt at h
      rw [if_neg (show i.toDeps.op ∉ _ from hnokey i hi), if_pos (show i.toDeps.op ∈ _ from (by decide : ∀ o ∈ callOps, o ∈ ["call", "delegatecall", "staticcall", "callcode"]) _ hi)] at h
      exact (Option.some.inj h).symm
    have hilt : m < (instrs.map Ins.toDeps).length := (List.getElem?_eq_some_iff.1 ha').1
    have hjlt : n < (instrs.map Ins.toDeps).length := (List.getElem?_eq_some_iff.1 hc').1
    have lenA : ([] ++ (instrs.map Ins.toDeps).take m).length = m := by
      rw [List.nil_append, List.length_take]; omega
    have lenB : ([] ++ (instrs.map Ins.toDeps).take n).length = n := by
      rw [List.nil_append, List.length_take]; omega
    have eA := hacc a _ _ hcc.1 hA
    have eB := hacc c _ _ hcc.2 hB
    have := Deps.key_pair_reported hpw
      (hAl ⟨([] ++ (instrs.map Ins.toDeps).take m).length, .var "inf", some .write⟩ (by rw [eA]; simp))
      (hBl ⟨([] ++ (instrs.map Ins.toDeps).take n).length, .var "inf", some .write⟩ (by rw [eB]; simp))
      (by simp only [lenA, lenB]; exact hmn) (by rfl) (by rfl)
    simp only [lenA, lenB] at this
    exact h1 this

/-- `built_schedule_good` for the dependences that are computed for the block. -/
theorem compiled_block_good {C : Type} (I : Interp Nat (Loc → C)) (hnum : ∀ n, I.num n = n)
    (instrs : List Ins) (split : Option Ins) (assign : List (String × String)) (initial final : List String)
    (hb : BlockOk instrs initial) (hi : InterpOk I instrs) (hloc : LocalOk I instrs)
    (built : Built) (deps : List (String × String))
    (hbuild : buildSpec instrs split assign initial final = some (built, deps))
    (hfinal : ∀ v ∈ beforeSplit split final, ¬ Generated v)
    (env0 : String → Nat) (w0 : Loc → C)
    (hassign : ∀ oc ∈ assign, IsLiteral oc.2 →
      Proper oc.1 ∧ env0 oc.1 = constNumber oc.2 ∧ ∀ i ∈ instrs, oc.1 ∉ i.outArgs)
    (hok : Analysable instrs built.positions built.unused (I.read (blockRun I instrs env0 w0).1))
    (sem : Sem Nat (Loc → C)) (hsem : ∀ e ∈ built.entries, sem e.instr = e.sem I)
    (ids : List String) (junk : Bool)
    (hacc : check ⟨built.entries.map (·.instr), built.src, built.tgt, deps⟩ ids junk = true) :
    ∃ val cstack, (∀ x, ¬ Generated x → val x = I.read (blockRun I instrs env0 w0).1 x) ∧
      sem.RespectsComm (built.entries.map (·.instr)) ∧ ((built.entries.map (·.instr)).map (·.id)).Nodup ∧
      execIds (built.entries.map (·.instr)) ids built.src = some cstack ∧
      Good (built.entries.map (·.instr)) sem val ids w0 (blockRun I instrs env0 w0).2 ∧
      built.src.map val = initial.map (I.read env0) ∧
      built.tgt.map val = (beforeSplit split final).map (I.read (blockRun I instrs env0 w0).1) ∧
      cstack.take built.tgt.length = built.tgt ∧ (junk = false → cstack = built.tgt) ∧
      ∀ u ∈ built.entries.map (·.instr), (∃ k, ∀ args w, sem u args w = ([I.num k], w)) ∨
        ∃ i ∈ instrs, ∀ w, sem u (u.inpt.map val) w = I.ins i (blockRun I instrs env0 w0).1 w := by
  unfold buildSpec at hbuild
  obtain ⟨b, hb1, hbuild⟩ := Option.bind_eq_some_iff.1 hbuild
  obtain ⟨sto, hsto, hbuild⟩ := Option.bind_eq_some_iff.1 hbuild
  obtain ⟨stoD, hstoD, hbuild⟩ := Option.bind_eq_some_iff.1 hbuild
  obtain ⟨mem, hmem, hbuild⟩ := Option.bind_eq_some_iff.1 hbuild
  obtain ⟨memD, hmemD, hbuild⟩ := Option.bind_eq_some_iff.1 hbuild
  obtain ⟨trans, htrans, hbuild⟩ := Option.bind_eq_some_iff.1 hbuild
  obtain ⟨transD, htransD, hbuild⟩ := Option.bind_eq_some_iff.1 hbuild
  obtain ⟨gas, _, hbuild⟩ := Option.map_eq_some_iff.1 hbuild
  simp only [Prod.mk.injEq] at hbuild
  obtain ⟨rfl, hdeps⟩ := hbuild
  have hval := read_lits I hnum (blockRun I instrs env0 w0).1
  refine built_schedule_good I instrs split assign initial final hb hi b hb1 hfinal env0 w0
    (by simpa [hnum] using hassign) sem hsem deps ?_ ids junk hacc
  intro m n a c x y hmn ha hc _ hx hy _ _ hch
  refine independent_of_local hloc (List.mem_of_getElem? ha) (List.mem_of_getElem? hc) _ ?_
  refine no_conflict hval hok hsto hmem htrans hmn ha hc ?_ ?_ ?_
  · intro hd
    refine hch (chain_mono ?_ (depsById_chain hok (fun d hd => (Deps.storage_deps_forward _ sto hsto d hd).1)
      (keyDeps_ends (by decide) hsto) hstoD hd hx hy))
    intro d hd; rw [← hdeps]; simp [hd]
  · intro hd
    refine hch (chain_mono ?_ (depsById_chain hok (fun d hd => (Deps.memory_deps_forward _ mem hmem d hd).1)
      (memoryDeps_ends hmem) hmemD hd hx hy))
    intro d hd; rw [← hdeps]; simp [hd]
  · intro hd
    refine hch (chain_mono ?_ (depsById_chain hok (fun d hd => (Deps.transient_deps_forward _ trans htrans d hd).1)
      (keyDeps_ends (by decide) htrans) htransD hd hx hy))
    intro d hd; rw [← hdeps]; simp [hd]

/-- **C51 (partial).** Compile a block with the dependences that are computed for it, and run any schedule that the validator
accepts: the machine ends with the values and with the EVM state (memory, storage, transient storage, environment) in which
the block itself ends. The interpretation of the operations is arbitrary, as long as every operation only reads and writes
what the EVM operation of that name may read and write. Missing: the blocks excluded by `Analysable`. -/
theorem compiled_block_runs_partial {C : Type} (I : Interp Nat (Loc → C)) (hnum : ∀ n, I.num n = n)
    (instrs : List Ins) (split : Option Ins) (assign : List (String × String)) (initial final : List String)
    (hb : BlockOk instrs initial) (hi : InterpOk I instrs) (hloc : LocalOk I instrs)
    (built : Built) (deps : List (String × String))
    (hbuild : buildSpec instrs split assign initial final = some (built, deps))
    (hfinal : ∀ v ∈ beforeSplit split final, ¬ Generated v)
    (env0 : String → Nat) (w0 : Loc → C)
    (hassign : ∀ oc ∈ assign, IsLiteral oc.2 →
      Proper oc.1 ∧ env0 oc.1 = constNumber oc.2 ∧ ∀ i ∈ instrs, oc.1 ∉ i.outArgs)
    (hok : Analysable instrs built.positions built.unused (I.read (blockRun I instrs env0 w0).1))
    (sem : Sem Nat (Loc → C)) (hsem : ∀ e ∈ built.entries, sem e.instr = e.sem I)
    (ids : List String) (junk : Bool)
    (hacc : check ⟨built.entries.map (·.instr), built.src, built.tgt, deps⟩ ids junk = true)
    (hsw : ∀ s ∈ ids, classify s ≠ some (.swap 0))
    (slot : Var → Nat) (hslots : BlockSlots I (blockRun I instrs env0 w0).1 slot ids) (rest : List Nat) :
    ∃ slot' extra,
      Run (built.entries.map (·.instr)) sem ids
        ⟨initial.map (I.read env0) ++ rest, slot, w0⟩
        ⟨(beforeSplit split final).map (I.read (blockRun I instrs env0 w0).1) ++ extra ++ rest, slot',
          (blockRun I instrs env0 w0).2⟩ ∧
      (junk = false → extra = []) := by
  obtain ⟨val, cstack, hbase, hcomm, hnod, hex, hgood, hsrc, htgt, htake, hjunk, -⟩ :=
    compiled_block_good I hnum instrs split assign initial final hb hi hloc built deps hbuild hfinal env0 w0 hassign hok sem
      hsem ids junk hacc
  obtain ⟨slot', hrun⟩ := run_sim hcomm hnod hgood hex hsw slot (by
    intro pre s post v e hc
    rcases hslots pre s post v e hc with ⟨hg, hv⟩ | h
    · exact Or.inl (by rw [hv, hbase v hg])
    · exact Or.inr h) rest
  refine ⟨slot', (cstack.drop built.tgt.length).map val, ?_, fun h => by rw [hjunk h]; simp⟩
  have : cstack.map val = built.tgt.map val ++ (cstack.drop built.tgt.length).map val := by
    conv => lhs; rw [← List.take_append_drop built.tgt.length cstack]
    rw [List.map_append, htake]
  rw [← hsrc, ← htgt, ← this]
  exact hrun

end Grey.Sfs
