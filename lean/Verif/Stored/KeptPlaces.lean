/-
The places that the reparation chooses are right, along the dominance tree: C95.
-/
import Verif.Stored.Kept
import Verif.Repair.Program
namespace Grey.Kept
open List Grey.Repair Grey.Stored Grey.SymExec Grey.Layout Grey.Sfs Grey.Program

/-! ### Specification -/

/-- What the scan of the tree reads of a block, when no phi function is kept in memory (src/reparation/tree_scan.py:60-101). -/
def scanned (W : Written) (f b : String) : RBlock := ⟨[], [], (W.pids f b).map readAs, []⟩

/-- The variable is loaded in the block. -/
def Loads (W : Written) (f b v : String) : Prop := RId.get v ∈ (scanned W f b).ids

/-- The variables that are stored in the block. -/
def storesIn (W : Written) (f b : String) : List String := idStores (scanned W f b).ids

/-- The variable is stored in one of the blocks. -/
def StoredIn (W : Written) (f : String) (bs : List String) (v : String) : Prop := ∃ a ∈ bs, v ∈ storesIn W f a

/-- The tree for the scan (src/reparation/repair_unreachable.py:142-166). -/
def scanTree (W : Written) (T : String → DTree String) (f : String) : DomForest := forestOf (scanned W f) (T f)

/-- Along some path of the control flow from the beginning of the block, the variable is loaded and not stored before. -/
inductive Needed (F : Fn) (W : Written) (f : String) : String → String → Prop where
  | load (b v : String) : Loads W f b v → Needed F W f b v
  | later (B : LBlock) (s v : String) : B ∈ F.graph.blocks → s ∈ B.succs → v ∉ storesIn W f B.id → Needed F W f s v → Needed F W f B.id v

/-- `f` calls `g`, directly or not, or is `g`. -/
inductive CallsTo (P : Prog) : String → String → Prop where
  | self (f : String) : CallsTo P f f
  | call (f g h : String) (F : Fn) (B : LBlock) : P.fns f = some F → B ∈ F.graph.blocks → P.exit F B = .call g → CallsTo P g h → CallsTo P f h

/-- No other variable of the component has the cell. -/
def Alone (W : Written) (cell : String → String → Option Nat) (T : String → DTree String) (f v : String) : Prop :=
  ∀ w ∈ allStores (scanTree W T f), w ≠ v → cell f w ≠ cell f v

/-- What the repair of the code does not check about the stores that are written (`W`) and the trees (`T`) of the components:

* `unsolved`: no phi function is kept in memory;
* `released`: a block that loads a variable that is needed at the next block `S`, and is below the blocks above `S`, is above another block that loads it,
  so that the scan does not give its cell to another variable; or no other variable has its cell;
* `proper`: what is kept in memory are variables of the program;
* `recursion`: a component does not keep a variable in memory during a call that comes back to it. -/
structure Uses (P : Prog) (W : Written) (cell : String → String → Option Nat) (T : String → DTree String) : Prop where
  unsolved : ∀ f F, P.fns f = some F → ∀ B ∈ F.graph.blocks, W.regs f B.id = [] ∧ W.dups f B.id = []
  released : ∀ f F, P.fns f = some F → ∀ B ∈ F.graph.blocks, ∀ S ∈ F.graph.blocks, S.id ∈ B.succs → ∀ ancB ancS mid, Node (T f) ancB B.id →
    Node (T f) ancS S.id → ancB ++ [B.id] = ancS ++ mid → ∀ x ∈ mid, ∀ v, Loads W f x v → StoredIn W f ancS v → Needed F W f S.id v →
    (∃ anc y, Node (T f) anc y ∧ x ∈ anc ∧ Loads W f y v) ∨ Alone W cell T f v
  proper : ∀ f F, P.fns f = some F → ∀ v ∈ allStores (scanTree W T f), Proper v ∧ ¬ Padding v ∧ ¬ Generated v
  recursion : ∀ f F, P.fns f = some F → ∀ B ∈ F.graph.blocks, ∀ g, P.exit F B = .call g → ∀ S ∈ F.graph.blocks, S.id ∈ B.succs → ∀ anc, Node (T f) anc S.id →
    ∀ v, StoredIn W f anc v → Needed F W f S.id v → ¬ CallsTo P g f

/-- As `Uses`, and every variable has one store (`stores_once_placed`), the cells are the colours of the scan of the trees, from a base address, and the components have different cells (`cells_of_driver`). -/
structure Cells (P : Prog) (W : Written) (cell : String → String → Option Nat) (T : String → DTree String) (base size : String → Nat) : Prop
    extends Uses P W cell T where
  once : ∀ f F, P.fns f = some F → (allStores (scanTree W T f)).Nodup
  scan : ∀ f F, P.fns f = some F → ∃ web num colour, treeScan web (scanTree W T f) num = some colour ∧
    ∀ v, cell f v = (colour v).map (base f + 32 * ·)
  few : ∀ f F, P.fns f = some F → ∀ v a, cell f v = some a → a + 32 ≤ base f + 32 * size f
  apart : ∀ f F g G, P.fns f = some F → P.fns g = some G → f ≠ g → base f + 32 * size f ≤ base g ∨ base g + 32 * size g ≤ base f

/-- As `Cells`, and the tree contains every block once, and the block above a block is above all its predecessors, as in the tree of
dominators; and variables are not assigned after they have been stored, as in single assignment form (`arranged_of_tree`). -/
structure Arranged (P : Prog) (W : Written) (cell : String → String → Option Nat) (T : String → DTree String) (base size : String → Nat) : Prop
    extends Cells P W cell T base size where
  blocks : ∀ f F, P.fns f = some F → ∀ B ∈ F.graph.blocks, B.id ∈ nodes (T f)
  names : ∀ f F, P.fns f = some F → (nodes (T f)).Nodup
  start : ∀ f F, P.fns f = some F → Node (T f) [] F.graph.start
  above : ∀ f F, P.fns f = some F → ∀ B ∈ F.graph.blocks, ∀ S ∈ F.graph.blocks, S.id ∈ B.succs → ∀ ancB ancS, Node (T f) ancB B.id → Node (T f) ancS S.id →
    ancS <+: ancB ++ [B.id]
  ssa : ∀ f F, P.fns f = some F → ∀ B ∈ F.graph.blocks, ∀ anc, Node (T f) anc B.id → ∀ v, StoredIn W f anc v →
    (∀ i ∈ F.instrs B.id, v ∉ i.outArgs) ∧ ∀ p ∈ B.phis, p.out ≠ v
  results : ∀ f F, P.fns f = some F → ∀ B ∈ F.graph.blocks, ∀ anc, Node (T f) anc B.id → ∀ v, StoredIn W f (anc ++ [B.id]) v → v ∉ F.exitOuts B

/-- As `Arranged`, and the store of a variable is before all its loads in the tree (C31). -/
structure Placed (P : Prog) (W : Written) (cell : String → String → Option Nat) (T : String → DTree String) (base size : String → Nat) : Prop
    extends Arranged P W cell T base size where
  stored : ∀ f F, P.fns f = some F → ReadsStored (scanTree W T f)

/-! ### The places -/

open Classical in
/-- What is in memory before and after a block: the variables whose cells the scan has not released, and those that have a cell of their own, if they are needed. -/
noncomputable def placesOf (P : Prog) (W : Written) (cell : String → String → Option Nat) (T : String → DTree String) (fs : List String) : Places where
  before f b := ((allStores (scanTree W T f)).filter fun v => decide (∃ F, P.fns f = some F ∧ Needed F W f b v ∧
    ∃ anc c H, At (scanned W f) [] (T f) anc b c H ∧ (v ∈ H ∨ Alone W cell T f v ∧ StoredIn W f anc v))).filterMap fun v => (cell f v).map (v, ·)
  after f b := ((allStores (scanTree W T f)).filter fun v => decide (∃ F, P.fns f = some F ∧ (v ∈ storesIn W f b ∨ Needed F W f b v) ∧
    ∃ anc c H, At (scanned W f) [] (T f) anc b c H ∧ (v ∈ heldEnd (scanned W f) b c H ∨ Alone W cell T f v ∧ StoredIn W f (anc ++ [b]) v))).filterMap
      fun v => (cell f v).map (v, ·)
  writes f := fs.flatMap fun g => if CallsTo P f g then (allStores (scanTree W T g)).filterMap (cell g) else []
  cell a := ∃ f F, P.fns f = some F ∧ ∃ v ∈ allStores (scanTree W T f), cell f v = some a

/-! ### Proofs -/

section
variable {P : Prog} {W : Written} {cell : String → String → Option Nat} {T : String → DTree String} {base size : String → Nat} {fs : List String}

theorem mem_before {f b : String} {p : String × Nat} : p ∈ (placesOf P W cell T fs).before f b ↔
    p.1 ∈ allStores (scanTree W T f) ∧ cell f p.1 = some p.2 ∧ ∃ F, P.fns f = some F ∧ Needed F W f b p.1 ∧
      ∃ anc c H, At (scanned W f) [] (T f) anc b c H ∧ (p.1 ∈ H ∨ Alone W cell T f p.1 ∧ StoredIn W f anc p.1) := by
  obtain ⟨v, a⟩ := p
  simp only [placesOf, mem_filterMap, mem_filter, decide_eq_true_eq, Option.map_eq_some_iff, Prod.mk.injEq]
  constructor
  · rintro ⟨u, ⟨h1, h2⟩, a', h3, rfl, rfl⟩
    exact ⟨h1, h3, h2⟩
  · rintro ⟨h1, h3, h2⟩
    exact ⟨v, ⟨h1, h2⟩, a, h3, rfl, rfl⟩

theorem mem_after {f b : String} {p : String × Nat} : p ∈ (placesOf P W cell T fs).after f b ↔
    p.1 ∈ allStores (scanTree W T f) ∧ cell f p.1 = some p.2 ∧ ∃ F, P.fns f = some F ∧ (p.1 ∈ storesIn W f b ∨ Needed F W f b p.1) ∧
      ∃ anc c H, At (scanned W f) [] (T f) anc b c H ∧ (p.1 ∈ heldEnd (scanned W f) b c H ∨ Alone W cell T f p.1 ∧ StoredIn W f (anc ++ [b]) p.1) := by
  obtain ⟨v, a⟩ := p
  simp only [placesOf, mem_filterMap, mem_filter, decide_eq_true_eq, Option.map_eq_some_iff, Prod.mk.injEq]
  constructor
  · rintro ⟨u, ⟨h1, h2⟩, a', h3, rfl, rfl⟩
    exact ⟨h1, h3, h2⟩
  · rintro ⟨h1, h3, h2⟩
    exact ⟨v, ⟨h1, h2⟩, a, h3, rfl, rfl⟩

theorem mem_writes {f : String} {a : Nat} : a ∈ (placesOf P W cell T fs).writes f ↔
    ∃ g ∈ fs, CallsTo P f g ∧ ∃ v ∈ allStores (scanTree W T g), cell g v = some a := by
  simp only [placesOf, mem_flatMap]
  constructor
  · rintro ⟨g, hg, h⟩
    split at h
    · rename_i hc
      obtain ⟨v, hv, h⟩ := mem_filterMap.1 h
      exact ⟨g, hg, hc, v, hv, h⟩
    · cases h
  · rintro ⟨g, hg, hc, v, hv, h⟩
    refine ⟨g, hg, ?_⟩
    rw [if_pos hc]
    exact mem_filterMap.2 ⟨v, hv, h⟩

theorem noPhis (W : Written) (f : String) : NoPhis (scanned W f) := fun _ => ⟨rfl, rfl⟩

/-- What the scan holds at the beginning of a block is stored in a block above. -/
theorem held_stored {f b : String} {anc : List String} {c : DTree String} {H : List String} (h : At (scanned W f) [] (T f) anc b c H) {v : String} (hv : v ∈ H) :
    StoredIn W f anc v := by
  rcases h.held_sub v hv with h | ⟨a, ha, h⟩
  · cases h
  · rw [stores_of (noPhis W f)] at h
    exact ⟨a, ha, h⟩

theorem stored_all {f : String} {anc : List String} {b : String} (h : Node (T f) anc b) {v : String} (hv : StoredIn W f (anc ++ [b]) v) :
    v ∈ allStores (scanTree W T f) := by
  obtain ⟨a, ha, hv⟩ := hv
  have key : ∀ anc' a, Node (T f) anc' a → v ∈ storesIn W f a → v ∈ allStores (scanTree W T f) := by
    intro anc' a h hv
    exact node_stores h v (by rw [stores_of (noPhis W f)]; exact hv)
  rcases mem_append.1 ha with ha | ha
  · obtain ⟨anc', h'⟩ := node_anc h a ha
    exact key anc' a h' hv
  · rw [mem_singleton] at ha
    exact key anc b h (ha ▸ hv)

/-- What is stored above a block is not stored in it. -/
theorem stores_once {rb : String → RBlock} (hp : NoPhis rb) {t : DTree String} {anc : List String} {n : String} (h : Node t anc n) :
    (allStores (forestOf rb t)).Nodup → ∀ a ∈ anc, ∀ v ∈ idStores (rb a).ids, v ∉ idStores (rb n).ids := by
  induction h with
  | here => intro _ a ha; cases ha
  | inside b ch rest anc n h ih =>
    intro hn a ha v hv hv'
    simp only [forestOf, allStores] at hn
    rw [stores_of hp, nodup_append, nodup_append] at hn
    rcases mem_cons.1 ha with rfl | ha
    · exact hn.1.2.2 v hv v (node_stores h v (by rw [stores_of hp]; exact hv')) rfl
    · exact ih hn.1.2.1 a ha v hv hv'
  | next b ch rest anc n h ih =>
    intro hn
    simp only [forestOf, allStores] at hn
    rw [nodup_append] at hn
    exact ih hn.2.1

theorem emit_stores {cell : String → Option Nat} {v : String} {a : Nat} : ∀ (pids : List PId) (ops : List SOp), emitIds cell pids = some ops → SOp.store v a ∈ ops →
    v ∈ idStores (pids.map readAs) ∧ cell v = some a := by
  intro pids
  induction pids with
  | nil => intro ops h hm; cases h; cases hm
  | cons x pids ih =>
    intro ops h hm
    have hmono : ∀ y, v ∈ idStores (pids.map readAs) → v ∈ idStores (y :: pids.map readAs) := by
      intro y hv
      cases y <;> simp [idStores, hv]
    cases x with
    | dupSet u d =>
      rw [emitIds] at h
      obtain ⟨a', ha, h⟩ := Option.bind_eq_some_iff.1 h
      obtain ⟨r, hr, rfl⟩ := Option.map_eq_some_iff.1 h
      simp only [mem_cons, reduceCtorEq, false_or, SOp.store.injEq] at hm
      rcases hm with ⟨rfl, rfl⟩ | hm
      · exact ⟨by simp [readAs, idStores], ha⟩
      · exact ⟨hmono _ (ih r hr hm).1, (ih r hr hm).2⟩
    | id s =>
      rw [emitIds] at h
      split at h
      · obtain ⟨a', ha, h⟩ := Option.bind_eq_some_iff.1 h
        obtain ⟨r, hr, rfl⟩ := Option.map_eq_some_iff.1 h
        simp only [mem_cons, reduceCtorEq, false_or] at hm
        exact ⟨hmono _ (ih r hr hm).1, (ih r hr hm).2⟩
      · rename_i hg
        split at h
        · rename_i u hu
          obtain ⟨a', ha, h⟩ := Option.bind_eq_some_iff.1 h
          obtain ⟨r, hr, rfl⟩ := Option.map_eq_some_iff.1 h
          simp only [mem_cons, SOp.store.injEq] at hm
          rcases hm with ⟨rfl, rfl⟩ | hm
          · exact ⟨by simp [readAs, hg, hu, idStores], ha⟩
          · exact ⟨hmono _ (ih r hr hm).1, (ih r hr hm).2⟩
        · obtain ⟨r, hr, rfl⟩ := Option.map_eq_some_iff.1 h
          simp only [mem_cons, reduceCtorEq, false_or] at hm
          exact ⟨hmono _ (ih r hr hm).1, (ih r hr hm).2⟩

/-- The cells of a component. -/
theorem Placed.range (hP : Placed P W cell T base size) {f : String} {F : Fn} (hF : P.fns f = some F) {v : String} {a : Nat} (h : cell f v = some a) :
    ∃ c, a = base f + 32 * c ∧ c < size f := by
  have hfew := hP.few f F hF v a h
  obtain ⟨web, num, colour, -, h2⟩ := hP.scan f F hF
  rw [h2] at h
  obtain ⟨c, hc, rfl⟩ := Option.map_eq_some_iff.1 h
  exact ⟨c, rfl, by omega⟩

theorem Placed.wellPlaced (hP : Placed P W cell T base size) {f : String} {F : Fn} (hF : P.fns f = some F) (web : String → Option Nat) :
    WellPlaced web (scanTree W T f) := by
  refine ⟨hP.once f F hF, ?_, ?_⟩
  · intro anc b ch h
    obtain ⟨anc', n, c, -, -, rfl, -⟩ := in_forest h
    exact ⟨(hP.stored f F hF _ _ _ h).1, nodup_nil, fun v hv => by cases hv⟩
  · intro anc b ch h p hp
    obtain ⟨anc', n, c, -, -, rfl, -⟩ := in_forest h
    cases hp

/-- Two variables that the scan holds at the same point have different cells. -/
theorem Placed.distinct (hP : Placed P W cell T base size) {f : String} {F : Fn} (hF : P.fns f = some F) {anc : List String} {b : String} {c : DTree String}
    {H : List String} (hat : At (scanned W f) [] (T f) anc b c H) (i : Nat) :
    (∀ v ∈ heldAfter (idEvs (lastUse (scanned W f b) (forestOf (scanned W f) c)) 0 ((scanned W f b).ids.take i)) H, ∃ a, cell f v = some a) ∧
    ∀ v ∈ heldAfter (idEvs (lastUse (scanned W f b) (forestOf (scanned W f) c)) 0 ((scanned W f b).ids.take i)) H,
      ∀ w ∈ heldAfter (idEvs (lastUse (scanned W f b) (forestOf (scanned W f) c)) 0 ((scanned W f b).ids.take i)) H, v ≠ w → cell f v ≠ cell f w := by
  obtain ⟨web, num, colour, h1, h2⟩ := hP.scan f F hF
  obtain ⟨sh, hs, rfl⟩ := Option.map_eq_some_iff.1 h1
  have hev : blockEvs (scanned W f b) (lastUse (scanned W f b) (forestOf (scanned W f) c)) =
      idEvs (lastUse (scanned W f b) (forestOf (scanned W f) c)) 0 ((scanned W f b).ids.take i) ++
      idEvs (lastUse (scanned W f b) (forestOf (scanned W f) c)) (0 + ((scanned W f b).ids.take i).length) ((scanned W f b).ids.drop i) := by
    rw [events_of (noPhis W f), ← idEvs_append, take_append_drop]
  obtain ⟨k1, k2⟩ := held_distinct (T f) [] _ sh _ ⟨by simp, by simp, by simp⟩ (wellPlaced_ok (hP.wellPlaced hF web)) (hP.once f F hF) (by simp) hs _ _ _ _ hat _ _ hev
  refine ⟨fun v hv => ?_, fun v hv w hw hvw => ?_⟩
  · obtain ⟨k, hk⟩ := k1 v hv
    exact ⟨_, by rw [h2, hk]; rfl⟩
  · obtain ⟨k, hk⟩ := k1 v hv
    obtain ⟨k', hk'⟩ := k1 w hw
    have := k2 v hv w hw hvw
    rw [hk, hk'] at this
    rw [h2, h2, hk, hk', Option.map_some, Option.map_some]
    intro h
    apply this
    rw [Option.some.injEq] at h ⊢
    omega

theorem at_of_block (hP : Placed P W cell T base size) {f : String} {F : Fn} (hF : P.fns f = some F) {B : LBlock} (hB : B ∈ F.graph.blocks) :
    ∃ anc c H, At (scanned W f) [] (T f) anc B.id c H := by
  obtain ⟨anc, h⟩ := node_of_mem (hP.blocks f F hF B hB)
  obtain ⟨c, H, h⟩ := at_of_node h []
  exact ⟨anc, c, H, h⟩

theorem before_stored {f b : String} {anc : List String} {H : List String} {c : DTree String} (h : At (scanned W f) [] (T f) anc b c H) {v : String}
    (hv : v ∈ H ∨ Alone W cell T f v ∧ StoredIn W f anc v) : StoredIn W f anc v := hv.elim (held_stored h) fun h => h.2

theorem callsTo_trans {f g h : String} (h1 : CallsTo P f g) (h2 : CallsTo P g h) : CallsTo P f h := by
  induction h1 with
  | self => exact h2
  | call f g _ F B h1 h3 h4 _ ih => exact .call f g h F B h1 h3 h4 (ih h2)

theorem sourceOf_self {S : LBlock} {k : Nat} {v : String} (h : ∀ p ∈ S.phis, p.out ≠ v) : sourceOf S k v = v := by
  unfold sourceOf
  split
  · rename_i p hp
    have h1 := find?_some hp
    exact absurd (by simpa using h1) (h p (mem_of_find?_eq_some hp))
  · rfl

/-- The places are right. -/
theorem places_right (hP : Placed P W cell T base size) (hfs : ∀ f F, P.fns f = some F → f ∈ fs) (hcallee : ∀ f F, P.fns f = some F → ∀ B ∈ F.graph.blocks, ∀ g,
    P.exit F B = .call g → (P.fns g).isSome) (hfs' : ∀ f ∈ fs, (P.fns f).isSome) : PlacesOk P (placesOf P W cell T fs) := by
  have hcalls : ∀ f g, CallsTo P f g → (P.fns f).isSome → (P.fns g).isSome := by
    intro f g h
    induction h with
    | self => exact id
    | call f g h F B h1 h2 h3 _ ih => exact fun _ => ih (hcallee f F h1 B h2 g h3)
  -- an edge
  have hedge : ∀ f F, P.fns f = some F → ∀ B ∈ F.graph.blocks, ∀ S ∈ F.graph.blocks, S.id ∈ B.succs → ∀ p ∈ (placesOf P W cell T fs).before f S.id,
      p ∈ (placesOf P W cell T fs).after f B.id ∧ (∀ q ∈ S.phis, q.out ≠ p.1) ∧ p.1 ∉ F.exitOuts B ∧ ∃ anc, Node (T f) anc S.id ∧ StoredIn W f anc p.1 ∧
        Needed F W f S.id p.1 := by
    intro f F hF B hB S hS hBS p hp
    obtain ⟨h1, h2, F', hF', h3, ancS, cS, HS, hatS, h4⟩ := mem_before.1 hp
    rw [hF] at hF'
    cases hF'
    obtain ⟨ancB, cB, HB, hatB⟩ := at_of_block hP hF hB
    have hst := before_stored hatS h4
    obtain ⟨mid, hmid⟩ := hP.above f F hF B hB S hS hBS ancB ancS hatB.node hatS.node
    have hstB : StoredIn W f (ancB ++ [B.id]) p.1 := by
      obtain ⟨a, ha, h⟩ := hst
      exact ⟨a, by rw [← hmid]; exact mem_append_left _ ha, h⟩
    refine ⟨mem_after.2 ⟨h1, h2, F, hF, ?_, ancB, cB, HB, hatB, ?_⟩, (hP.ssa f F hF S hS ancS hatS.node _ hst).2, hP.results f F hF B hB ancB hatB.node _ hstB,
      ancS, hatS.node, hst, h3⟩
    · by_cases h : p.1 ∈ storesIn W f B.id
      · exact .inl h
      · exact .inr (.later B S.id _ hB hBS h h3)
    · by_cases hal : Alone W cell T f p.1
      · exact .inr ⟨hal, hstB⟩
      · refine .inl (edge_kept (hP.names f F hF) hatS hatB hmid.symm (fun x hx => keeps_of (noPhis W f) (hP.names f F hF) fun hl => ?_) (h4.resolve_right fun h => hal h.1))
        exact (hP.released f F hF B hB S hS hBS ancB ancS mid hatB.node hatS.node hmid.symm x hx _ hl hst h3).resolve_right hal
  have hrange : ∀ a, (placesOf P W cell T fs).cell a → ∃ f F, P.fns f = some F ∧ ∃ c, a = base f + 32 * c ∧ c < size f := by
    rintro a ⟨f, F, hF, v, -, hv⟩
    exact ⟨f, F, hF, hP.range hF hv⟩
  refine ⟨?_, ?_, ?_, ?_, ?_, ?_, ?_⟩
  · intro a b ha hb hab
    obtain ⟨f, F, hF, c, rfl, hc⟩ := hrange a ha
    obtain ⟨g, G, hG, d, rfl, hd⟩ := hrange b hb
    intro x
    by_cases hfg : f = g
    · subst hfg
      omega
    · have := hP.apart f F g G hF hG hfg
      omega
  · intro f b p hp
    obtain ⟨h1, h2, F, hF, -⟩ := mem_before.1 hp
    obtain ⟨k1, k2, -⟩ := hP.proper f F hF _ h1
    exact ⟨⟨f, F, hF, p.1, h1, h2⟩, k1, k2⟩
  · intro f a ha
    obtain ⟨g, hg, -, v, hv, h⟩ := mem_writes.1 ha
    obtain ⟨G, hG⟩ := Option.isSome_iff_exists.1 (hfs' g hg)
    exact ⟨g, G, hG, v, hv, h⟩
  · intro f F hF
    rw [eq_nil_iff_forall_not_mem]
    intro p hp
    obtain ⟨h1, h2, F', -, -, anc, c, H, hat, h4⟩ := mem_before.1 hp
    have := Node.unique (hP.names f F hF) hat.node (hP.start f F hF)
    subst this
    obtain ⟨a, ha, -⟩ := before_stored hat h4
    cases ha
  · intro f F hF B hB g hg a ha
    obtain ⟨h, hh, hc, v, hv, hva⟩ := mem_writes.1 ha
    exact mem_writes.2 ⟨h, hh, .call f g h F B hF hB hg hc, v, hv, hva⟩
  · intro f F hF B hB S hS hBS p hp
    obtain ⟨h1, h2, -⟩ := hedge f F hF B hB S hS hBS p hp
    rw [sourceOf_self h2]
    exact h1
  · intro f F hF B hB g hg S hS hBS p hp
    obtain ⟨-, h2, h3, anc, h4, h5, h6⟩ := hedge f F hF B hB S hS hBS p hp
    rw [sourceOf_self h2]
    refine ⟨h3, fun hw => ?_⟩
    obtain ⟨h, hh, hc, v, hv, hva⟩ := mem_writes.1 hw
    have hne : f ≠ h := by
      rintro rfl
      exact hP.recursion f F hF B hB g hg S hS hBS anc h4 _ h5 h6 hc
    obtain ⟨-, h8, -⟩ := mem_before.1 hp
    obtain ⟨H, hH⟩ := Option.isSome_iff_exists.1 (hfs' h hh)
    obtain ⟨c, hc1, hc2⟩ := hP.range hF h8
    obtain ⟨d, hd1, hd2⟩ := hP.range hH hva
    have := hP.apart f F h H hF hH hne
    omega

/-- What is written for a block is right. -/
theorem block_right (hP : Placed P W cell T base size) {f : String} {F : Fn} (hF : P.fns f = some F) {B : LBlock} (hB : B ∈ F.graph.blocks) {tab : List UInstr}
    {src fin : List String} {ops : List SOp} (hr : runP tab (W.pids f B.id) src = some fin) (hs : StoresRight tab src (W.pids f B.id))
    (hn : NamesOk (originals (W.pids f B.id))) (he : emitBlock (cell f) (W.pids f B.id) (W.regs f B.id) (W.dups f B.id) = some ops) :
    ∃ K, flow tab ops (src, unassigned (F.instrs B.id) ((placesOf P W cell T fs).before f B.id)) = some (fin, K) ∧
      ∀ p ∈ (placesOf P W cell T fs).after f B.id, p ∈ K ∧ ¬ Generated p.1 ∧ ¬ Padding p.1 := by
  obtain ⟨anc, c, H, hat⟩ := at_of_block hP hF hB
  obtain ⟨u1, u2⟩ := hP.unsolved f F hF B hB
  have he' : emitIds (cell f) (W.pids f B.id) = some ops := by
    unfold emitBlock at he
    rw [u1, u2] at he
    obtain ⟨r, hr, rfl⟩ := Option.map_eq_some_iff.1 he
    rw [hr]
    simp [emitPhis]
  let evs := fun i => idEvs (lastUse (scanned W f B.id) (forestOf (scanned W f) c)) 0 ((scanned W f B.id).ids.take i)
  let need : Nat → String → Prop := fun i v => (v ∈ storesIn W f B.id ∨ Needed F W f B.id v) ∧
    (v ∈ heldAfter (evs i) H ∨ Alone W cell T f v ∧ (StoredIn W f anc v ∨ v ∈ idStores ((scanned W f B.id).ids.take i)))
  have hids : ∀ i x, (W.pids f B.id)[i]? = some x → (scanned W f B.id).ids.take (i + 1) = (scanned W f B.id).ids.take i ++ [readAs x] := by
    intro i x hx
    rw [take_add_one]
    simp [scanned, hx]
  have hself : ∀ i v, v ∈ idStores ((scanned W f B.id).ids.take i) → v ∈ storesIn W f B.id := by
    intro i v hv
    unfold storesIn
    rw [← take_append_drop i (scanned W f B.id).ids, idStores_app]
    exact mem_append_left _ hv
  have hstep : ∀ i x v, (W.pids f B.id)[i]? = some x → v ∈ heldAfter (evs (i + 1)) H → v ∈ heldAfter (evs i) H ∨ v ∈ idStores [readAs x] := by
    intro i x v hx hv
    simp only [evs] at hv ⊢
    rw [hids i x hx, idEvs_append, heldAfter_append] at hv
    rcases heldAfter_sub _ _ hv with h | h
    · exact .inl h
    · rw [idEvs_picks] at h
      exact .inr h
  have key : ∃ K', flow tab ops (src, unassigned (F.instrs B.id) ((placesOf P W cell T fs).before f B.id)) = some (fin, K') ∧
      InMemory (cell f) (need (W.pids f B.id).length) K' := by
    refine flow_right (W.pids f B.id) need (unassigned (F.instrs B.id) ((placesOf P W cell T fs).before f B.id)) src fin ops hr hs hn ?_ ?_ ?_ ?_ he'
    · -- loads
      intro i v hi
      refine ⟨.inr (.load _ _ (mem_of_getElem? hi)), .inl ?_⟩
      exact read_held (noPhis W f) hat hi ((hP.stored f F hF _ _ _ hat.isIn).1 i v hi)
    · -- what is needed has been needed
      rintro i x v hx ⟨h1, h2⟩
      rcases h2 with h2 | ⟨h2, h3⟩
      · exact (hstep i x v hx h2).imp (fun h => ⟨h1, .inl h⟩) id
      · rw [hids i x hx, idStores_app, mem_append] at h3
        rcases h3 with h3 | h3 | h3
        · exact .inl ⟨h1, .inr ⟨h2, .inl h3⟩⟩
        · exact .inl ⟨h1, .inr ⟨h2, .inr h3⟩⟩
        · exact .inr h3
    · -- stores
      rintro i x v u hx hv ⟨h1, h2⟩ huv
      have hvs : v ∈ idStores ((scanned W f B.id).ids.take (i + 1)) := by
        rw [hids i x hx, idStores_app]
        exact mem_append_right _ hv
      have hvall : v ∈ allStores (scanTree W T f) := stored_all hat.node ⟨B.id, by simp, hself _ _ hvs⟩
      rcases h2 with h2 | ⟨h2, -⟩
      · refine (hP.distinct hF hat (i + 1)).2 u h2 v ?_ huv
        rw [hids i x hx, idEvs_append, heldAfter_append]
        refine heldAfter_mem _ _ (.inr (by rw [idEvs_picks]; exact hv)) ?_
        cases hx' : readAs x with
        | set w => simp [idEvs, evFrees]
        | dupSet w d => simp [idEvs, evFrees]
        | get w => rw [hx'] at hv; cases hv
        | other w => rw [hx'] at hv; cases hv
      · exact (h2 v hvall (Ne.symm huv)).symm
    · -- the beginning
      rintro v ⟨h1, h2⟩
      have h3 : v ∈ H ∨ Alone W cell T f v ∧ StoredIn W f anc v := by
        rcases h2 with h2 | ⟨h2, h3 | h3⟩
        · exact .inl h2
        · exact .inr ⟨h2, h3⟩
        · cases h3
      have hst := before_stored hat h3
      have hnot : v ∉ storesIn W f B.id := by
        obtain ⟨a, ha, h⟩ := hst
        exact stores_once (noPhis W f) hat.node (hP.once f F hF) a ha v h
      have hall : v ∈ allStores (scanTree W T f) := by
        obtain ⟨a, ha, h⟩ := hst
        exact stored_all hat.node ⟨a, mem_append_left _ ha, h⟩
      have hcell : ∃ a, cell f v = some a := by
        obtain ⟨web, num, colour, s1, s2⟩ := hP.scan f F hF
        obtain ⟨k, hk⟩ := Option.isSome_iff_exists.1 ((Grey.RepairAll.coloured_iff s1 v).2 hall)
        exact ⟨_, by rw [s2, hk]; rfl⟩
      obtain ⟨a, ha⟩ := hcell
      refine ⟨a, ha, ?_⟩
      unfold unassigned
      rw [mem_filter]
      refine ⟨mem_before.2 ⟨hall, ha, F, hF, h1.resolve_left hnot, anc, c, H, hat, h3⟩, ?_⟩
      rw [decide_eq_true_eq]
      exact (hP.ssa f F hF B hB anc hat.node v hst).1
  obtain ⟨K', k1, k2⟩ := key
  refine ⟨K', k1, fun p hp => ?_⟩
  obtain ⟨h1, h2, F', hF', h3, anc', c', H', hat', h4⟩ := mem_after.1 hp
  rw [hF] at hF'
  cases hF'
  obtain ⟨rfl, rfl, rfl⟩ := At.unique (hP.names f F hF) hat hat'
  obtain ⟨-, p2, p3⟩ := hP.proper f F hF _ h1
  refine ⟨?_, p3, p2⟩
  have hfull : (scanned W f B.id).ids.take (W.pids f B.id).length = (scanned W f B.id).ids := by
    rw [take_of_length_le]
    simp [scanned]
  obtain ⟨a, ha, hK⟩ := k2 p.1 ⟨h3, by
    rcases h4 with h | ⟨h, a, ha, h'⟩
    · left
      simp only [evs]
      rw [hfull]
      unfold heldEnd at h
      rw [events_of (noPhis W f)] at h
      exact h
    · right
      rw [hfull]
      rcases mem_append.1 ha with ha | ha
      · exact ⟨h, .inl ⟨a, ha, h'⟩⟩
      · rw [mem_singleton] at ha
        subst ha
        exact ⟨h, .inr h'⟩⟩
  rw [h2] at ha
  cases ha
  exact hK

/-- The cells that a block stores to are listed. -/
theorem stores_listed (hP : Placed P W cell T base size) (hfs : ∀ f F, P.fns f = some F → f ∈ fs) {f : String} {F : Fn} (hF : P.fns f = some F) {B : LBlock}
    (hB : B ∈ F.graph.blocks) {ops : List SOp} (he : emitBlock (cell f) (W.pids f B.id) (W.regs f B.id) (W.dups f B.id) = some ops) :
    ∀ v a, SOp.store v a ∈ ops → a ∈ (placesOf P W cell T fs).writes f ∧ ¬ Generated v ∧ ¬ Padding v := by
  intro v a hm
  obtain ⟨u1, u2⟩ := hP.unsolved f F hF B hB
  unfold emitBlock at he
  rw [u1, u2] at he
  obtain ⟨r, hr, rfl⟩ := Option.map_eq_some_iff.1 he
  have hm' : SOp.store v a ∈ r := by simpa [emitPhis] using hm
  obtain ⟨h1, h2⟩ := emit_stores _ _ hr hm'
  obtain ⟨anc, c, H, hat⟩ := at_of_block hP hF hB
  have hall : v ∈ allStores (scanTree W T f) := stored_all hat.node ⟨B.id, by simp, h1⟩
  obtain ⟨-, p2, p3⟩ := hP.proper f F hF _ hall
  exact ⟨mem_writes.2 ⟨f, hfs f F hF, .self f, v, hall, h2⟩, p3, p2⟩

end
end Grey.Kept
