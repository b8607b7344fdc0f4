/-
The repair of a whole program (src/execution/main_execution.py:72-83, src/greedy/ids_from_spec.py:56-114,
src/reparation/repair_unreachable.py:19-101): which block lists are repaired, and what is handed to the assembler. C82.
-/
import Verif.Repair.Cells
import Verif.Stored.Model
import Verif.Greedy.Theorems
namespace Grey.RepairAll
open List Grey.Repair Grey.Stored

/-! ### Model -/

/-- A block list as the repair sees it: the dominance tree of its blocks (with the annotations of the phi functions, see `CBlock`), the phi
webs and the class of each variable, the instructions of each block, and for each block and colouring the phi functions to solve in its
successors (the argument for the block, and the colour of the phi function; src/reparation/tree_scan.py:164-180). `start` is the
start block, the root of the tree, and `below` are its children. Simplification: all blocks of the list are in the dominance tree. -/
structure RList where
  start : CBlock
  below : DTree CBlock
  webs : PhiWebs
  web : String → Option Nat
  tab : CBlock → List SymExec.UInstr
  args : CBlock → (String → Option Nat) → List (String × Nat)

/-- The dominance tree. -/
def RList.tree (l : RList) : DTree CBlock := .node l.start l.below .nil

/-- `needs_repair` of a block list (src/greedy/ids_from_spec.py:61-71). -/
def needsRepair (l : RList) : Bool := (nodes l.tree).any fun B => (initialGetCount B.ids).2.2

/-- The instruction ids of the blocks as the scheduler returns them. -/
def schedules (l : RList) : List (List String) := (nodes l.tree).map (·.ids)

/-- The blocks of the tree of the scan. -/
def scanned : DomForest → List RBlock
  | .nil => []
  | .node b ch rest => b :: scanned ch ++ scanned rest

/-- The loop over the ids of a block (src/reparation/tree_scan.py:131-154), on ids as the scan reads them; `emitRead_readAs` relates it to
`emitIds`. -/
def emitRead (cell : String → Option Nat) : List RId → Option (List SOp)
  | [] => some []
  | .get v :: is => (cell v).bind fun a => (emitRead cell is).map (.load v a :: ·)
  | .set v :: is => (cell v).bind fun a => (emitRead cell is).map (.store v a :: ·)
  | .dupSet v d :: is => (cell v).bind fun a => (emitRead cell is).map fun r => .dup (d + 1) :: .store v a :: r
  | .other s :: is => (emitRead cell is).map (.id s :: ·)

/-- What is written for a block (src/reparation/tree_scan.py:127-202), with the constants of the colours. Simplification: the position of an
argument that is not in `reachable` (an exception in the code) is 0. -/
def emitOne (l : RList) (consts : List String) (colour : String → Option Nat) (p : CBlock × RBlock) : Option (List String) :=
  (emitRead (fun v => (colour v).bind fun c => (consts[c]?).map intOf) p.2.ids).bind fun ops =>
    if p.1.copies.isEmpty then some (ops.flatMap SOp.texts)
    else (phiCopies consts colour (fun v => ((p.1.reach v).map (·.1)).getD 0) (l.args p.1 colour)).map fun es => ops.flatMap SOp.texts ++ es.map textOf

/-- The second half of `repair_unreachable_blocklist` (src/reparation/repair_unreachable.py:95-98) with the constant `base`: the stores are put
into the blocks (`f`), the colours are assigned, `cs` are the used ones, and the blocks become `outs`. -/
structure WithCells (l : RList) (base : String) (f : DomForest) (colour : String → Option Nat) (cs : List Nat) (outs : List (List String)) : Prop where
  inserted : Inserted l.tree (storeAll (sTree l.tree)).1 f
  scan : treeScan l.web f (numCells l.tree l.webs) = some colour
  used : ∀ c, c ∈ cs ↔ ∃ v, colour v = some c
  emit : ((nodes l.tree).zip (scanned f)).mapM (emitOne l (slotConstants base (numCells l.tree l.webs)) colour) = some outs

/-- What `repair_unreachable_blocklist` can return (src/reparation/repair_unreachable.py:66-101): the blocks, and the constant for the next list.
Without values to store the constant stays as it is and the code leaves the blocks as they are; here they are arbitrary in that case, as
`repaired_has_cells` shows that it does not occur. -/
inductive Repaired (l : RList) (base : String) : List (List String) → String → Prop where
  | nothing (outs : List (List String)) : numCells l.tree l.webs = 0 → Repaired l base outs base
  | cells (f : DomForest) (colour : String → Option Nat) (cs : List Nat) (outs : List (List String)) (next : String) :
      numCells l.tree l.webs ≠ 0 → WithCells l base f colour cs outs → nextBase base (numCells l.tree l.webs) cs = some next → Repaired l base outs next

/-- An object: the block list of the main code, those of the functions, and what `get_first_constant` returns for the main code
(src/reparation/repair_unreachable.py:104-116; `none`: the first instruction is of another kind). -/
structure RObject where
  main : RList
  funs : List RList
  first : Option String

def RObject.lists (o : RObject) : List RList := o.main :: o.funs

/-- src/reparation/repair_unreachable.py:36-57: the block lists one after the other, `mx` is `max_constant`; `one` is
`repair_unreachable_blocklist`. `none`: an exception (a missing first constant is the TypeError of `int(None, 16)`). -/
def repairEach (one : RList → String → Option (List (List String) × String)) (first : Option String) :
    List RList → Option String → Option (List (List (List String)) × Option String)
  | [], mx => some ([], mx)
  | l :: ls, mx =>
    if needsRepair l then
      (mx.or first).bind fun base => (one l base).bind fun r => (repairEach one first ls (some r.2)).map fun q => (r.1 :: q.1, q.2)
    else (repairEach one first ls mx).map fun q => (schedules l :: q.1, q.2)

/-- `set_first_constant` on the blocks of the main code (src/reparation/repair_unreachable.py:119-139). -/
def setFirst (c : String) : List (List (List String)) → Option (List (List (List String)))
  | (b :: bs) :: fs => (setFirstConstant c b).map fun b' => (b' :: bs) :: fs
  | _ => none

/-- `repair_cfg_objects` (src/reparation/repair_unreachable.py:32-63). -/
def repairObject (one : RList → String → Option (List (List String) × String)) (o : RObject) : Option (List (List (List String))) :=
  (repairEach one o.first o.lists none).bind fun r =>
    match r.2 with
    | none => some r.1
    | some m => if o.first = some m then some r.1 else setFirst m r.1

/-- The objects of a program, each with the program of its sub-object. -/
inductive RCfg where
  | nil
  | obj (o : RObject) (sub rest : RCfg)

/-- All objects, in the order they are traversed. -/
def objects : RCfg → List RObject
  | .nil => []
  | .obj o sub rest => o :: objects sub ++ objects rest

/-- `needs_repair` of an object (src/greedy/ids_from_spec.py:76-86). -/
def objectNeeds (o : RObject) : Bool := needsRepair o.main || o.funs.any needsRepair

/-- The result of `recursive_cfg_spec_ids` (src/greedy/ids_from_spec.py:89-104). -/
def cfgNeeds : RCfg → Bool
  | .nil => false
  | .obj o sub rest => objectNeeds o || cfgNeeds sub || cfgNeeds rest

/-- `repair_cfg` (src/reparation/repair_unreachable.py:19-29). -/
def repairCfg (one : RList → String → Option (List (List String) × String)) : RCfg → Option (List (List (List (List String))))
  | .nil => some []
  | .obj o sub rest => (repairObject one o).bind fun a => (repairCfg one sub).bind fun b => (repairCfg one rest).map fun c => a :: b ++ c

/-- The instruction ids that the assembler gets (src/execution/main_execution.py:65-83): for each object, list and block. -/
def idsForAssembly (one : RList → String → Option (List (List String) × String)) (g : RCfg) : Option (List (List (List (List String)))) :=
  if cfgNeeds g then repairCfg one g else some ((objects g).map fun o => o.lists.map schedules)

/-! ### Specification -/

/-- An id the assembler can translate: an instruction of the block, an instruction on the stack, or one of those that access the memory cells of
the repair. -/
def Assembles (tab : List SymExec.UInstr) (s : String) : Prop :=
  (∃ u ∈ tab, u.id = s) ∨ s = "POP" ∨ (∃ k : Nat, s = "SWAP" ++ toString k) ∨ (∃ k : Nat, s = "DUP" ++ toString k) ∨
  (∃ c, s = "PUSH " ++ c) ∨ s = "MLOAD" ∨ s = "MSTORE"

/-- A schedule of the scheduler for a block with these instructions, none of which is named like a placeholder. -/
def Scheduled (tab : List SymExec.UInstr) (ids : List String) : Prop :=
  ∃ (src tgt : List String) (deps : List (String × String)) (reach n : Nat) (junk : Bool) (h h' : Greedy.Heur)
    (p p' : Greedy.Plan) (r : List (String × String)), Greedy.BlockOk tab src tgt ∧ Greedy.NoVars tab ∧
    (∀ u ∈ tab, h.text u ≠ "SWAP1" ∧ h.text u ≠ "DUP1") ∧ (∀ u ∈ tab, h'.text u ≠ "SWAP1" ∧ h'.text u ≠ "DUP1") ∧
    (∀ o ∈ p.instr, Greedy.Plain o) ∧ (∀ o ∈ p'.instr, Greedy.Plain o) ∧
    Greedy.greedy tab src tgt deps reach n junk h h' p p' = some r ∧ ids = r.map Prod.snd

/-- All schedules of a program come from the scheduler. -/
def AllScheduled (g : RCfg) : Prop := ∀ o ∈ objects g, ∀ l ∈ o.lists, ∀ B ∈ nodes l.tree, Scheduled (l.tab B) B.ids

/-- The texts of a load and a store of a variable. -/
def loadText (v : String) : String := "VGET(" ++ v ++ ")"
def storeText (v : String) : String := "VSET(" ++ v ++ ")"

/-! ### Proofs -/

theorem emitRead_readAs (cell : String → Option Nat) (l : List PId) : emitRead cell (l.map readAs) = emitIds cell l := by
  induction l with
  | nil => rfl
  | cons p l ih =>
    cases p with
    | dupSet v d => simp only [map_cons, readAs, emitRead, emitIds, ih]
    | id s =>
      simp only [map_cons, readAs, emitIds]
      cases hg : vgetOf s with
      | some v => simp only [emitRead, ih]
      | none =>
        cases hs : vsetOf s with
        | some v => simp only [emitRead, ih]
        | none => simp only [emitRead, ih]

/-- What the ids of a schedule are. -/
theorem greedy_ids_known {tab : List SymExec.UInstr} {ids : List String} (hs : Scheduled tab ids) {s : String} (h : s ∈ ids) :
    (∃ u ∈ tab, u.id = s) ∨ s = "POP" ∨ (∃ k : Nat, s = "SWAP" ++ toString k) ∨ (∃ k : Nat, s = "DUP" ++ toString k) ∨
      (∃ v, s = loadText v) ∨ (∃ v, s = storeText v) := by
  obtain ⟨src, tgt, deps, reach, n, junk, hh, hh', p, p', r, hb, hv, ht, ht', hp, hp', hr, rfl⟩ := hs
  have hP : Greedy.Ok ⟨tab, src, tgt, reach⟩ Greedy.Plain := ⟨hb.uniq, hb.two, hb.inp, hb.out, hb.tgt⟩
  have hP' : Greedy.Ok ⟨tab, src, tgt ++ src, reach⟩ Greedy.Plain := ⟨hb.uniq, hb.two, hb.inp, hb.out, fun v hv => by
    rcases List.mem_append.1 hv with hv | hv
    · exact hb.tgt v hv
    · exact hb.src v hv⟩
  have key : ∀ (P : Greedy.Prog) (l : List Greedy.Item) (H : Greedy.Heur), P.tab = tab → (∀ i ∈ l, Greedy.ItemOk P Greedy.Plain i) →
      s ∈ (Permute.removeUseless (l.map (Greedy.Item.render H))).map Prod.snd →
      (∃ u ∈ tab, u.id = s) ∨ s = "POP" ∨ (∃ k : Nat, s = "SWAP" ++ toString k) ∨ (∃ k : Nat, s = "DUP" ++ toString k) ∨
        (∃ v, s = loadText v) ∨ (∃ v, s = storeText v) := by
    intro P l H hPt hl hs
    obtain ⟨q, hq, rfl⟩ := List.mem_map.1 hs
    rcases Permute.dropFrom_mem [] _ q (List.mem_reverse.1 hq) with h | h
    · simp at h
    · obtain ⟨i, hi, rfl⟩ := mem_map.1 h
      have hi := hl i hi
      cases i with
      | pop => exact .inr (.inl rfl)
      | swap k => exact .inr (.inr (.inl ⟨k, rfl⟩))
      | dup k => exact .inr (.inr (.inr (.inl ⟨k, rfl⟩)))
      | vget v => exact .inr (.inr (.inr (.inr (.inl ⟨v, rfl⟩))))
      | vset v => exact .inr (.inr (.inr (.inr (.inr ⟨v, rfl⟩))))
      | op u => exact .inl ⟨u, hPt ▸ hi, rfl⟩
  unfold Greedy.greedy at hr
  dsimp only at hr
  split at hr
  · simp at hr
  rename_i l flips hl
  obtain ⟨-, h1, h2⟩ := Greedy.try1_spec hP hb.src hp (by intro u _ hu; simp at hu) hl
  split at hr
  · split at hr
    · split at hr
      · simp at hr
      rename_i l' flips' hl'
      obtain ⟨-, h3, -⟩ := Greedy.try1_spec hP' hb.src hp' h2 hl'
      split at hr
      · split at hr
        · simp only [Option.some.injEq] at hr
          subst hr
          exact key _ l' hh' rfl h3 h
        · simp only [Option.some.injEq] at hr
          subst hr
          exact key _ l hh rfl h1 h
      · simp at hr
    · simp only [Option.some.injEq] at hr
      subst hr
      exact key _ l hh rfl h1 h
  · simp at hr

theorem scheduled_fromGreedy {tab : List SymExec.UInstr} {ids : List String} (h : Scheduled tab ids) : FromGreedy ids := by
  obtain ⟨src, tgt, deps, reach, n, junk, hh, hh', p, p', r, h⟩ := h
  exact ⟨tab, src, tgt, deps, reach, n, junk, hh, hh', p, p', r, h⟩

theorem getCountLoop_has (ids acc : List String) (cnt : String → Nat) (dom : Nat) (has : Bool) :
    (getCountLoop ids acc cnt dom has).2.2 = (has || ids.any fun s => (vgetOf s).isSome) := by
  induction ids generalizing acc cnt dom has with
  | nil => simp [getCountLoop]
  | cons s ss ih =>
    unfold getCountLoop
    cases hg : vgetOf s with
    | some v =>
      dsimp only
      split
      · rw [ih]; simp [hg]
      · rw [ih]; simp [hg]
    | none =>
      dsimp only
      cases hs : vsetOf s with
      | some v => dsimp only; rw [ih]; simp [hg]
      | none => dsimp only; rw [ih]; simp [hg]

/-- `has_vget` of a block. -/
theorem has_iff (ids : List String) : (initialGetCount ids).2.2 = true ↔ ∃ s ∈ ids, ∃ v, vgetOf s = some v := by
  unfold initialGetCount
  rw [getCountLoop_has]
  simp [Option.isSome_iff_exists]

/-- Without loads there are no stores. -/
theorem no_stores {ids : List String} (h : FromGreedy ids) (hn : (initialGetCount ids).2.2 = false) : ∀ s ∈ ids, vgetOf s = none ∧ vsetOf s = none := by
  obtain ⟨tab, src, tgt, deps, reach, n, junk, h, h', p, p', r, h1, h2, h3, h4, h5, h6, h7, h8⟩ := h
  have hst := Greedy.greedy_stores h1 h2 h3 h4 h5 h6 h7
  rw [← h8] at hst
  have hg : ∀ s ∈ ids, vgetOf s = none := by
    intro s hs
    cases hv : vgetOf s with
    | none => rfl
    | some v =>
      have := (has_iff ids).2 ⟨s, hs, v, hv⟩
      rw [hn] at this
      cases this
  have h0 : ∀ (l acc : List String), (∀ s ∈ l, vgetOf s = none) → Greedy.ownLoads acc l = 0 := by
    intro l
    induction l with
    | nil => intros; rfl
    | cons s l ih =>
      intro acc hl
      unfold Greedy.ownLoads
      rw [hl s (by simp)]
      dsimp only
      cases vsetOf s with
      | some v => exact ih _ fun s hs => hl s (mem_cons_of_mem _ hs)
      | none => exact ih _ fun s hs => hl s (mem_cons_of_mem _ hs)
  unfold initialGetCount at hst
  rw [Greedy.getCountLoop_loads, h0 ids [] hg] at hst
  have h9 : ids.filterMap vsetOf = [] := length_eq_zero_iff.1 (by omega)
  rw [filterMap_eq_nil_iff] at h9
  exact fun s hs => ⟨hg s hs, h9 s hs⟩

end Grey.RepairAll
