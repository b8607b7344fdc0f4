/-
C95: the object of `PlacedExample` meets the hypotheses.
-/
import Verif.Whole.PlacedExample
namespace Grey.Whole
open List Grey.Cfg Grey.Inline Grey.Lower Grey.Sfs Grey.Program Grey.SymExec Grey.Front Grey.Stored Grey.Repair

theorem de_fns {names' : List String} {O' : Obj} {T : TagDict} (h1 : frontEnd [] [] deObj = some (names', O', T)) :
    deProg = programOf names' whDec "main" deChoices (fun _ => true) O' ∧ names' = [] ∧ deFn.graph.start = O'.main.start.getD "" ∧
    ∀ f F, deProg.fns f = some F → f = "main" ∧ F = deFn := by
  obtain ⟨names2, O2, T2, g1, -, g3, -⟩ := whole_compiler_partial deObj_compilable deObj_order deObj_ending deObj_ops (main := "main") (by decide +kernel)
    deObj_emittable whTag_meaning (fun _ => rfl)
  rw [h1] at g1
  cases g1
  have hl : deLow = (names', O', T) := by unfold deLow; rw [h1]; rfl
  have hp : deProg = programOf names' whDec "main" deChoices (fun _ => true) O' := by unfold deProg; rw [hl]
  have hnames : names' = [] := by
    have : deLow.1 = [] := by decide +kernel
    rw [hl] at this
    exact this
  have hstart : deFn.graph.start = deLow.2.1.main.start.getD "" := by decide +kernel
  rw [hl] at hstart
  refine ⟨hp, hnames, hstart, ?_⟩
  intro f F hF
  by_cases hf : f = "main"
  · subst hf
    exact ⟨rfl, by unfold deFn; rw [hF]; rfl⟩
  · exfalso
    have hF' := hF
    rw [hp] at hF'
    unfold programOf toProg at hF'
    simp only [if_neg hf, Option.map_eq_some_iff] at hF'
    obtain ⟨G, hG, -⟩ := hF'
    have := (g3 f).2 ⟨G, hG⟩
    rw [hnames] at this
    cases this

theorem de_node {anc : List String} {b : String} (h : Node deTree anc b) : (b = "o_Block0" ∧ anc = []) ∨ (b ≠ "o_Block0" ∧ anc = ["o_Block0"]) := by
  unfold deTree at h
  cases h with
  | here => exact .inl ⟨rfl, rfl⟩
  | inside _ _ _ anc _ h =>
    right
    cases h with
    | here => exact ⟨by decide, rfl⟩
    | inside _ _ _ _ _ h => cases h
    | next _ _ _ _ _ h =>
      cases h with
      | here => exact ⟨by decide, rfl⟩
      | inside _ _ _ _ _ h => cases h
      | next _ _ _ _ _ h => cases h
  | next _ _ _ _ _ h => cases h

theorem de_stored {v : String} (h : Kept.StoredIn deW "main" ["o_Block0"] v) : v = "v9" := by
  obtain ⟨a, ha, hv⟩ := h
  rw [mem_singleton.1 ha, de_scanned.1.1] at hv
  simpa using hv

theorem de_built : deTree = Kept.domTree (Kept.blockIds deFn.graph) (Kept.edgesOf deFn.graph) deFn.graph.start (nodes deTree) := by decide +kernel

/-- The scheduler stores no variable itself. -/
theorem de_sets : Kept.setsOf (deSched "main") deTree = [] := by decide +kernel

theorem de_tree : Kept.BuiltTree deFn.graph deTree := by
  have hr : Graphs.reached (Kept.blockIds deFn.graph) (Kept.edgesOf deFn.graph) deFn.graph.start ~ nodes deTree := by decide +kernel
  exact ⟨nodes deTree, by decide, fun b => hr.symm.mem_iff, de_built⟩

theorem de_single : Kept.Single deFn := by
  obtain ⟨-, -, -, hB⟩ := de_graph
  have hin : deFn.graph.inputs = [] := by decide +kernel
  have key : ∀ B ∈ deFn.graph.blocks, ∀ x, Kept.Assigns deFn B x → B.id = "o_Block0" := by
    rintro B h1 x (⟨p, hp, -⟩ | ⟨i, hi, h⟩ | h)
    · rw [(hB B h1).2.1] at hp
      cases hp
    · by_contra hne
      rw [((hB B h1).2.2.2.2.1 hne).2.2 i hi] at h
      cases h
    · rw [(hB B h1).2.2.2.1] at h
      cases h
  refine ⟨fun B _ x _ => by rw [hin]; simp, fun B h1 C h2 x h3 h4 => (key B h1 x h3).trans (key C h2 x h4).symm, fun B h1 x hx => ?_⟩
  rw [(hB B h1).2.2.2.1] at hx
  cases hx

/-- What the repair computes: one component, with two values, from the address 128. -/
def deDriver : Kept.Driver where
  comps := ["main"]
  web _ _ := none
  num _ := 2
  colour _ v := if v = "v9" then some 0 else if v = "v8" then some 1 else none
  used _ := [0, 1]
  first := "80"
  bases := ["80"]
  last := "c0"

theorem de_driver (hfns : ∀ f F, deProg.fns f = some F → f = "main" ∧ F = deFn) : deDriver.Gives deProg deW (fun _ => deTree) deChoice.cell := by
  obtain ⟨-, hall, hscan, -⟩ := de_scanned
  refine ⟨by decide, fun f F hF => ?_, ?_, ?_, ?_, by decide +kernel, ?_⟩
  · rw [(hfns f F hF).1]
    simp [deDriver]
  all_goals intro f F hF; obtain ⟨rfl, rfl⟩ := hfns f F hF
  · obtain ⟨colour, hc, hcs⟩ := Option.map_eq_some_iff.1 hscan
    have h9 : colour "v9" = some 0 := congrArg Prod.fst hcs
    have h8 : colour "v8" = some 1 := congrArg Prod.snd hcs
    have : colour = deDriver.colour "main" := by
      funext v
      show colour v = if v = "v9" then some 0 else if v = "v8" then some 1 else none
      by_cases e9 : v = "v9"
      · rw [e9, h9]; rfl
      · by_cases e8 : v = "v8"
        · rw [e8, h8]; rfl
        · rw [if_neg e9, if_neg e8]
          cases e : colour v with
          | none => rfl
          | some k =>
            have := (RepairAll.coloured_iff hc v).1 (by rw [e]; rfl)
            rw [hall] at this
            simp only [mem_cons, not_mem_nil, or_false] at this
            rcases this with h | h
            · exact absurd h e9
            · exact absurd h e8
    rw [← this]
    exact hc
  · rw [hall]
    decide
  · intro v c hc
    have hc' : (if v = "v9" then some 0 else if v = "v8" then some 1 else none) = some c := hc
    show c ∈ [0, 1]
    split at hc'
    · cases hc'; decide
    · split at hc' <;> cases hc'
      decide
  · intro v
    have h0 : slotAddress (deDriver.baseText "main") 2 0 = some 128 := by decide +kernel
    have h1 : slotAddress (deDriver.baseText "main") 2 1 = some 160 := by decide +kernel
    show (if v = "v9" then some 128 else if v = "v8" then some 160 else none) =
      (if v = "v9" then some 0 else if v = "v8" then some 1 else none : Option Nat).bind (slotAddress (deDriver.baseText "main") 2)
    split
    · rw [Option.bind_some, h0]
    · split
      · rw [Option.bind_some, h1]
      · rfl

theorem de_uses (hfns : ∀ f F, deProg.fns f = some F → f = "main" ∧ F = deFn) :
    Kept.Uses deProg deW deChoice.cell (fun _ => deTree) := by
  obtain ⟨hstart, -, -, hB⟩ := de_graph
  obtain ⟨hst, hall, hscan, -⟩ := de_scanned
  have hedge : ∀ B ∈ deFn.graph.blocks, ∀ S ∈ deFn.graph.blocks, S.id ∈ B.succs → B.id = "o_Block0" ∧ S.id ≠ "o_Block0" := by
    intro B h1 S h2 h
    by_cases e : B.id = "o_Block0"
    · refine ⟨e, ?_⟩
      rw [((hB B h1).2.2.2.2.2.1 e).2.2] at h
      simp only [mem_cons, not_mem_nil, or_false] at h
      rcases h with h | h <;> rw [h] <;> decide
    · rw [((hB B h1).2.2.2.2.1 e).1] at h
      cases h
  have hnode : ∀ B ∈ deFn.graph.blocks, ∀ S ∈ deFn.graph.blocks, S.id ∈ B.succs → ∀ ancB ancS, Node deTree ancB B.id → Node deTree ancS S.id →
      ancB = [] ∧ ancS = ["o_Block0"] ∧ B.id = "o_Block0" := by
    intro B h1 S h2 h ancB ancS n1 n2
    obtain ⟨e1, e2⟩ := hedge B h1 S h2 h
    rcases de_node n1 with ⟨-, rfl⟩ | ⟨h', -⟩
    · rcases de_node n2 with ⟨h', -⟩ | ⟨-, rfl⟩
      · exact absurd h' e2
      · exact ⟨rfl, rfl, e1⟩
    · exact absurd e1 h'
  refine ⟨?_, ?_, ?_, ?_⟩ <;> intro f F hF <;> obtain ⟨rfl, rfl⟩ := hfns f F hF
  · exact fun _ _ => ⟨rfl, rfl⟩
  · intro B h1 S h2 h ancB ancS mid n1 n2 he x hx
    obtain ⟨rfl, rfl, e⟩ := hnode B h1 S h2 h ancB ancS n1 n2
    rw [e] at he
    simp only [nil_append, cons_append, cons.injEq, true_and] at he
    rw [← he] at hx
    cases hx
  · intro v hv
    rw [hall] at hv
    simp only [mem_cons, not_mem_nil, or_false] at hv
    rcases hv with rfl | rfl <;> exact ⟨(okName (by decide)).1, (okName (by decide)).2, (okName (by decide)).1.1⟩
  · intro B h1 g hg
    have := (hB B h1).2.2.2.2.2.2.1
    rw [hg] at this
    cases this

/-- A variable that only sums are assigned to, or that had a value of 256 bits before, has a value of 256 bits. -/
theorem sum_bound (v : String) : ∀ (is : List Ins) (env : String → Nat) (w : Loc → Nat),
    (∀ i ∈ is, v ∈ i.outArgs → i.op = "add" ∧ i.lits = none ∧ i.inArgs.length = 2 ∧ i.outArgs = [v]) → env v < 2 ^ 256 ∨ (∃ i ∈ is, v ∈ i.outArgs) →
    (blockRun (evmTag whTag) is env w).1 v < 2 ^ 256 := by
  have hkeep : ∀ (vs : List String) (xs : List Nat) (env : String → Nat), v ∉ vs → SymExec.assign env vs xs v = env v := by
    intro vs
    induction vs with
    | nil => intro xs env _; cases xs <;> rfl
    | cons u vs ih =>
      intro xs env h
      cases xs with
      | nil => rfl
      | cons x xs =>
        rw [SymExec.assign, ih _ _ (fun h' => h (mem_cons_of_mem _ h')), if_neg (show ¬ v = u from fun e => h (e ▸ mem_cons_self))]
  intro is
  induction is with
  | nil =>
    intro env w _ h
    rcases h with h | ⟨i, hi, -⟩
    · exact h
    · cases hi
  | cons i is ih =>
    intro env w hall h
    rw [blockRun]
    refine ih _ _ (fun j hj => hall j (mem_cons_of_mem _ hj)) ?_
    by_cases hv : v ∈ i.outArgs
    · left
      obtain ⟨h1, h2, h3, h4⟩ := hall i mem_cons_self hv
      obtain ⟨op, ins, outs, lits⟩ := i
      simp only at h1 h2 h3 h4
      subst h1 h2 h4
      obtain ⟨p, q, rfl⟩ := length_eq_two.1 h3
      rw [wh_add]
      simp only [SymExec.assign, if_true]
      exact Nat.mod_lt _ (by decide)
    · rcases h with h | ⟨j, hj, hvj⟩
      · left
        rw [hkeep _ _ _ hv]
        exact h
      · rcases mem_cons.1 hj with rfl | hj
        · exact absurd hvj hv
        · exact .inr ⟨j, hj, hvj⟩

/-- Where the program goes, and that `v8` has a value of 256 bits after the first block. -/
theorem de_invariant (hfns : ∀ f F, deProg.fns f = some F → f = "main" ∧ F = deFn) {c x : Program.Config Nat (Loc → Nat)} {tr : List (String × String × (Loc → Nat))}
    (hr : Program.Runs deProg (evmTag whTag) c tr (.inl x)) (hc : c.block = "o_Block0" ∨ c.env "v8" < 2 ^ 256) : x.block = "o_Block0" ∨ x.env "v8" < 2 ^ 256 := by
  obtain ⟨-, -, -, hB⟩ := de_graph
  generalize he : (Sum.inl x : Program.Config Nat (Loc → Nat) ⊕ Halted Nat (Loc → Nat)) = y at hr
  induction hr with
  | nil c => cases he; exact hc
  | halt => cases he
  | cons hs _ ih =>
    rename_i c c' tr y _
    refine ih ?_ he
    right
    unfold Program.step at hs
    obtain ⟨F, hF, hs⟩ := Option.bind_eq_some_iff.1 hs
    obtain ⟨B, hBl, hs⟩ := Option.bind_eq_some_iff.1 hs
    obtain ⟨hfn, rfl⟩ := hfns _ _ hF
    have hmem : B ∈ deFn.graph.blocks := mem_of_find?_eq_some hBl
    obtain ⟨-, -, -, -, -, -, hex, hins, hdef⟩ := hB B hmem
    dsimp only at hs
    have hgo : ∀ target env frames w, (Program.goto (evmTag whTag) c.fn deFn B target env frames w).map Sum.inl = some (Sum.inl c' : Program.Config Nat (Loc → Nat) ⊕ Halted Nat (Loc → Nat)) →
        c'.env "v8" = env "v8" := by
      intro target env frames w h
      obtain ⟨d, hd, e⟩ := Option.map_eq_some_iff.1 h
      cases e
      unfold Program.goto at hd
      obtain ⟨S, hS, rfl⟩ := Option.map_eq_some_iff.1 hd
      obtain ⟨t, -, hS⟩ := Option.bind_eq_some_iff.1 hS
      have hSm : S ∈ deFn.graph.blocks := mem_of_find?_eq_some hS
      show enter _ S.phis _ _ "v8" = _
      rw [(hB S hSm).2.1]
      rfl
    cases hexit : deProg.exit deFn B with
    | branch =>
      rw [hexit] at hex hs
      have hid : B.id = "o_Block0" := by simpa using hex
      rw [hgo _ _ _ _ hs]
      refine sum_bound "v8" _ _ _ ?_ (.inr (hdef hid "v8" (by simp)))
      intro i hi hv
      exact ((hins i hi).2 "v8" (by simp) hv).2
    | halt =>
      rw [hexit] at hs
      simp at hs
    | fall => rw [hexit] at hex; cases hex
    | jump => rw [hexit] at hex; cases hex
    | call g => rw [hexit] at hex; cases hex
    | ret => rw [hexit] at hex; cases hex

theorem de_keeps (hfns : ∀ f F, deProg.fns f = some F → f = "main" ∧ F = deFn) {L : Places} (hL : L = Kept.placesOf deProg deW deChoice.cell (fun _ => deTree) ["main"])
    {c : Program.Config Nat (Loc → Nat)} (hc : c.block = "o_Block0" ∨ c.env "v8" < 2 ^ 256) : KeepsAway deProg (evmTag whTag) L deW c := by
  obtain ⟨-, -, -, hB⟩ := de_graph
  intro F B hF hBl
  obtain ⟨hfn, rfl⟩ := hfns _ _ hF
  have hmem : B ∈ deFn.graph.blocks := mem_of_find?_eq_some hBl
  have hid : B.id = c.block := by simpa using find?_some hBl
  obtain ⟨hn, -, -, -, -, -, -, hins, hdef⟩ := hB B hmem
  refine ⟨?_, ?_⟩
  · intro i hi a ha l hl
    have hops : i.op ∈ ["sload", "sstore", "add", "PUSH [tag]"] := by
      obtain ⟨_, h⟩ := (hins i hi).1
      rcases h with ⟨e, _⟩ | ⟨e, _⟩ | ⟨e, _⟩ | ⟨e, _⟩ <;> rw [e] <;> simp
    obtain ⟨k, rfl, _⟩ := hl
    simp only [MayRead, MayWrite]
    generalize i.inArgs.map _ = args
    simp only [mem_cons, not_mem_nil, or_false] at hops
    rcases hops with e | e | e | e <;> rw [e] <;> constructor <;> intro hh <;> revert hh <;> simp [Deps.Reads, Deps.Writes]
  · intro v a hs
    rw [hfn] at hs
    have hv : v ∈ Kept.storesIn deW "main" B.id := by
      have he : emitBlock (deChoice.cell "main") (deW.pids "main" B.id) [] [] = some (deW.ops "main" B.id) := by
        have : ∀ b ∈ nodes deTree, (repairedOps deChoice deSched "main" b).isSome := by decide +kernel
        obtain ⟨r, hr⟩ := Option.isSome_iff_exists.1 (this _ hn)
        have e1 : deW.ops "main" B.id = r := by
          show (repairedOps deChoice deSched "main" B.id).getD [] = r
          rw [hr]
          rfl
        unfold repairedOps at hr
        obtain ⟨g, hg, hr⟩ := Option.bind_eq_some_iff.1 hr
        have e2 : deW.pids "main" B.id = g := by
          show (placedIds deChoice deSched "main" B.id).getD [] = g
          rw [hg]
          rfl
        rw [e1, e2]
        exact hr
      unfold emitBlock at he
      obtain ⟨r, hr, e⟩ := Option.map_eq_some_iff.1 he
      rw [← e] at hs
      exact (Kept.emit_stores _ _ hr (by simpa [emitPhis] using hs)).1
    have hstored : v = "v9" ∧ B.id = "o_Block0" ∨ v = "v8" ∧ B.id = "o_M1" := by
      simp only [deTree, nodes, cons_append, nil_append, append_nil, mem_cons, not_mem_nil, or_false] at hn
      rcases hn with e | e | e <;> rw [e] at hv
      · rw [de_scanned.1.1] at hv
        exact .inl ⟨by simpa using hv, e⟩
      · rw [de_scanned.1.2.1] at hv
        exact .inr ⟨by simpa using hv, e⟩
      · rw [de_scanned.1.2.2] at hv
        cases hv
    rcases hstored with ⟨rfl, hb⟩ | ⟨rfl, hb⟩
    · rw [read_proper (okName (by decide)).1]
      refine sum_bound "v9" _ _ _ ?_ (.inr (hdef hb "v9" (by simp)))
      intro i hi h
      exact ((hins i hi).2 "v9" (by simp) h).2
    · rw [read_proper (okName (by decide)).1]
      refine sum_bound "v8" _ _ _ ?_ (.inl ?_)
      · intro i hi h
        exact ((hins i hi).2 "v8" (by simp) h).2
      · rcases hc with e | h
        · rw [← hid, hb] at e
          exact absurd e (by decide)
        · exact h

theorem de_unensured (hfns : ∀ f F, deProg.fns f = some F → f = "main" ∧ F = deFn) :
    UnensuredPlaced deProg (evmTag whTag) deChoice deSched (fun _ => deTree) (fun _ _ _ => true) deDriver := by
  obtain ⟨-, hids, hone, hB⟩ := de_graph
  obtain ⟨hch, hkept, hload⟩ := de_chosen
  have hout : ∀ v, v ∉ ["v8", "v9"] → (∀ a ∈ nodes (Kept.placement (deSched "main") (deChoice.reach "main") (fun _ _ => true) deTree).1, a.2 v = false) ∧
      (Kept.placement (deSched "main") (deChoice.reach "main") (fun _ _ => true) deTree).2 v = false :=
    fun v hv => Kept.not_loaded fun b hb h => hv (hload b hb v h)
  have mem : ∀ st, Layout.drive deFn.graph = .ok st → ∀ b src tgt, (b, src, tgt) ∈ st.specs → (b, src, tgt) ∈ Layout.specsOf deFn.graph := by
    intro st hst b src tgt hs
    unfold Layout.specsOf; rw [hst]; exact hs
  refine ⟨?_, ?_, ?_, ?_, ?_, ?_, ?_, ?_, ?_, ?_, ?_, ?_, ?_, de_driver hfns, de_uses hfns⟩ <;> intro f F hF <;> obtain ⟨rfl, rfl⟩ := hfns f F hF
  · exact hone
  · refine ⟨?_, ?_, ?_⟩
    · have : ∀ B ∈ deFn.graph.blocks, ∀ C ∈ deFn.graph.blocks, B.fallsTo.isSome → B.fallsTo = C.fallsTo → B = C := by decide +kernel
      exact fun B hB C hC d h1 h2 => this B hB C hC (by rw [h1]; rfl) (by rw [h1, h2])
    · have : ∀ B ∈ deFn.graph.blocks, B.jumpTo.isSome → B.fallsTo.isSome → ∀ C ∈ deFn.graph.blocks,
          C.fallsTo ≠ B.jumpTo ∧ (C.jumpTo = B.jumpTo → C = B) := by decide +kernel
      intro B hB j d h1 h2 C hC
      rw [← h1]
      exact this B hB (by rw [h1]; rfl) (by rw [h2]; rfl) C hC
    · intro B h1 C h2 d h3 h4
      exfalso
      have e1 : B.id = "o_Block0" := by
        by_contra h
        rw [((hB B h1).2.2.2.2.1 h).2.1] at h3
        cases h3
      have e2 : C.id = "o_Block0" := by
        by_contra h
        rw [((hB C h2).2.2.2.2.1 h).2.1] at h4
        cases h4
      rw [((hB B h1).2.2.2.2.2.1 e1).2.1, e2] at h3
      exact absurd h3 (by decide)
  · intro st hst B h1 src tgt hs
    exact (de_specs _ (mem st hst _ _ _ hs)).2.1
  · intro st hst B h1 src tgt hs built deps hb env w
    have h := (de_specs _ (mem st hst _ _ _ hs)).2.2
    simp only [hb, Bool.and_eq_true, List.isEmpty_iff] at h
    rw [h.1]
    exact okAnalysable (de_okBlocks _ (mem st hst _ _ _ hs)) (de_keys _ (mem st hst _ _ _ hs)) _
  · exact de_scanned.2.2.2
  · intro st hst B h1 src tgt hs built deps hb
    obtain ⟨hl, -, h⟩ := de_specs _ (mem st hst _ _ _ hs)
    simp only [hb, Bool.and_eq_true] at h
    rw [if_neg (hB B h1).2.2.1]
    obtain ⟨r, hr⟩ := Option.isSome_iff_exists.1 h.2
    show _ = some (deReach B.id)
    have : deReach B.id = r := by
      unfold deReach
      simp only at hl
      simp only [hl, hb, hr]
      rfl
    rw [this]
    exact hr
  · exact fun B h1 h => absurd h (hB B h1).2.2.1
  · exact de_tree
  · exact Kept.chosen_of_check _ _ hch fun v hv => (hout v hv).1
  · intro v
    by_cases hv : v ∈ ["v8", "v9"]
    · exact hkept v hv
    · exact (hout v hv).2
  · intro B _
    show (if B.id = "o_Block0" then ["v9"] else if B.id = "o_M1" then ["v8"] else []).Nodup
    split
    · decide
    · split <;> decide
  · exact ⟨by rw [de_sets]; exact nodup_nil, fun v hv => by rw [de_sets] at hv; cases hv⟩
  · exact de_single

/-- The object meets the hypotheses of C95: the compiler writes its assembly, with two variables in memory, and the assembly does what the object does. -/
theorem de_placed : ∃ code, compileStored [] [] whDec "main" deChoices (fun _ => true) deGuide deChoice deObj = some code ∧
    ∀ w, ¬ Wrong (run (meaning (evmTag whTag) whDec) (zeros (evmTag whTag)) deObj (w, none)) none →
      ∃ cells : Nat → Prop, (∀ a, cells a ↔ a = 128 ∨ a = 160) ∧ SameBehaviour (evmTag whTag) exArity code cells
        (fun h => ∃ s, Ends (run (meaning (evmTag whTag) whDec) (zeros (evmTag whTag)) deObj (w, none)) none s ∧ haltedOf s = h) w := by
  obtain ⟨code, hc⟩ := Option.isSome_iff_exists.1
    (show (compileStored [] [] whDec "main" deChoices (fun _ => true) deGuide deChoice deObj).isSome by decide +kernel)
  refine ⟨code, hc, ?_⟩
  obtain ⟨names', O', T, h1, h2⟩ := placed_like_source_partial deObj_compilable deObj_order deObj_ending deObj_ops (main := "main") (by decide +kernel)
    deObj_emittable whTag_meaning (fun _ => rfl) (evm_memory whTag) deObj_evm hc
  obtain ⟨hp, hn, hstart, hfns⟩ := de_fns h1
  subst hn
  rw [← hp] at h2
  intro w hw
  refine ⟨_, ?_, h2 _ _ _ (de_unensured hfns) w hw fun tr c hr => de_keeps hfns rfl (de_invariant hfns hr (.inl ?_))⟩
  · have hF : deProg.fns "main" = some deFn := by
      have : (deProg.fns "main").isSome := by decide +kernel
      obtain ⟨F, hF⟩ := Option.isSome_iff_exists.1 this
      rw [hF, (hfns _ _ hF).2]
    intro a
    constructor
    · rintro ⟨f, F, hF', v, hv, ha⟩
      obtain ⟨rfl, rfl⟩ := hfns f F hF'
      have hv' : v ∈ allStores (Kept.scanTree deW (fun _ => deTree) "main") := hv
      rw [de_scanned.2.1] at hv'
      simp only [mem_cons, not_mem_nil, or_false] at hv'
      rcases hv' with rfl | rfl
      · exact .inl (Option.some.inj ha).symm
      · exact .inr (Option.some.inj ha).symm
    · have hall : ∀ v, v ∈ ["v9", "v8"] → v ∈ allStores (Kept.scanTree deW (fun _ => deTree) "main") := by rw [de_scanned.2.1]; exact fun _ h => h
      rintro (rfl | rfl)
      · exact ⟨_, _, hF, "v9", hall _ (by simp), rfl⟩
      · exact ⟨_, _, hF, "v8", hall _ (by simp), rfl⟩
  · show O'.main.start.getD "" = "o_Block0"
    rw [← hstart]
    exact de_graph.1

end Grey.Whole
