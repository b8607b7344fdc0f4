/-
Deciding that concrete objects are compilable, and an example for C63.
-/
import Verif.Front.Theorem
import Verif.Lower.Check
namespace Grey.Front
open List Grey.Cfg Grey.Inline Grey.Prep Grey.Lower Grey.Sfs

/-- Every block is the first one or a successor of a block that is listed before. -/
def reachB (G : BlockList) : Bool :=
  G.blocks.zipIdx.all fun q => decide (G.start = some q.1.id) || (G.blocks.take q.2).any fun Y => decide (q.1.id ∈ Y.succs)

theorem reach_of_check {G : BlockList} (hn : (G.blocks.map (·.id)).Nodup) (h : reachB G = true) {s : String} (hs : G.start = some s) :
    ∀ x X, G.get x = some X → Graph.Reach G.succ s x := by
  unfold reachB at h
  simp only [all_eq_true, Bool.or_eq_true, decide_eq_true_eq, any_eq_true] at h
  have key : ∀ (n k : Nat) (X : Block), k < n → G.blocks[k]? = some X → Graph.Reach G.succ s X.id := by
    intro n
    induction n with
    | zero => intro k X hk; omega
    | succ n ih =>
      intro k X hk hX
      rcases h (X, k) (mem_zipIdx_iff_getElem?.2 hX) with h1 | ⟨Y, hY, h1⟩
      · rw [hs] at h1
        rw [← Option.some.inj h1]
        exact Relation.ReflTransGen.refl
      · obtain ⟨j, hj, rfl⟩ := mem_take_iff_getElem.1 hY
        have hY' : G.blocks[j]? = some G.blocks[j] := getElem?_eq_getElem _
        refine (ih j _ (by omega) hY').tail ?_
        show X.id ∈ G.succ _
        unfold BlockList.succ
        rw [get_of_mem hn (getElem_mem _)]
        exact h1
  intro x X hX
  obtain ⟨k, hk⟩ := mem_iff_getElem?.1 (get_mem hX)
  rw [← get_id hX]
  exact key (k + 1) k X (Nat.lt_succ_self k) hk

/-- A certificate for `Compilable`. -/
def compilableB (cert : Option String → (String → List String) × List String) (grp rank : Option String → String → Nat) (main : BlockList)
    (fns : List (String × Component)) : Bool :=
  sourceB cert main fns && lowerB main fns &&
  (compsOf main fns).all fun p => tidyB (grp p.1) (rank p.1) p.2.body && reachB p.2.body &&
    p.2.body.blocks.all fun X => X.jumpType != "sub_block" && !(X.succs.isEmpty && X.instrs.isEmpty)

theorem compilable_of_check {cert : Option String → (String → List String) × List String} {grp rank : Option String → String → Nat}
    {main : BlockList} {fns : List (String × Component)} (h : compilableB cert grp rank main fns = true) :
    Compilable (fns.map Prod.fst) (Obj.ofList main fns) := by
  unfold compilableB at h
  simp only [Bool.and_eq_true, all_eq_true, bne_iff_ne] at h
  obtain ⟨⟨h1, h2⟩, h3⟩ := h
  have L := lowerable_of_check h2
  have hn : ∀ c C, (Obj.ofList main fns).comp c = some C → (C.body.blocks.map (·.id)).Nodup := fun c C hC => (L.sane c C hC).coherent.ids
  have hsuccs : ∀ X : Block, X.succs = [] ↔ X.jumpTo = none ∧ X.fallsTo = none := by
    intro X
    unfold Block.succs
    cases X.jumpTo <;> cases X.fallsTo <;> simp
  refine ⟨L.nodup, L.fns, source_of_check h1, fun c C hC => tidy_of_check (hn c C hC) (h3 _ (mem_compsOf hC)).1.1,
    fun c C hC s hs x X hX => reach_of_check (hn c C hC) (h3 _ (mem_compsOf hC)).1.2 hs x X hX, ?_,
    fun c C hC x X hX => ⟨(L.blocks c C hC x X hX).2, ((h3 _ (mem_compsOf hC)).2 X (get_mem hX)).1⟩,
    fun c C hC x X hX => (L.blocks c C hC x X hX).1.phiEntries, ?_, ?_, fun c C hC x X hX => (L.blocks c C hC x X hX).1.ops, L.names⟩
  · intro c C hC x X hX hs hi
    have := ((h3 _ (mem_compsOf hC)).2 X (get_mem hX)).2
    rw [hs, hi] at this
    cases this
  · intro c C hC x X hX l i l' hl hi
    rw [hsuccs]
    exact (L.blocks c C hC x X hX).1.ends l i l' hl hi
  · intro c C hC x X hX l i l' F hl hF
    rw [hsuccs]
    exact (L.blocks c C hC x X hX).1.tails l i l' F hl hF

/-! ### An object -/

/-- A loop that calls `f` once and `m` twice, and fails with `r` if the first value is zero. All components use the names `x` and `y`. -/
def frMain : BlockList :=
  { start := some "A0"
    terminals := ["A3", "A4"]
    blocks := [
      { id := "A0", jumpType := "conditional", instrs := [⟨"calldataload", ["0x00"], ["x"]⟩, ⟨"iszero", ["x"], ["z"]⟩], jumpTo := some "A4",
        fallsTo := some "A5", cond := some "z" },
      { id := "A5", jumpType := "unconditional", instrs := [], comesFrom := ["A0"], jumpTo := some "A1" },
      { id := "A1", jumpType := "conditional", instrs := [⟨"PhiFunction", ["x", "v"], ["y"]⟩, ⟨"lt", ["0x10", "y"], ["c"]⟩],
        comesFrom := ["A5", "A2"], entries := ["A5", "A2"], jumpTo := some "A3", fallsTo := some "A2", cond := some "c" },
      { id := "A2", jumpType := "unconditional", instrs := [⟨"m", ["y"], ["u"]⟩, ⟨"f", ["u", "x"], ["w"]⟩, ⟨"m", ["w"], ["v"]⟩],
        comesFrom := ["A1"], jumpTo := some "A1" },
      { id := "A3", jumpType := "mainExit", instrs := [⟨"sstore", ["y", "x"], []⟩, ⟨"stop", [], []⟩], comesFrom := ["A1"] },
      { id := "A4", jumpType := "terminal", instrs := [⟨"r", ["x"], []⟩], comesFrom := ["A0"] }] }

/-- A function that does not return. -/
def frR : Component :=
  { args := ["x"]
    body := { start := some "R0", terminals := ["R0"], returns := []
              blocks := [{ id := "R0", jumpType := "terminal", instrs := [⟨"add", ["x", "x"], ["y"]⟩, ⟨"revert", ["y", "y"], []⟩] }] } }

def frFns : List (String × Component) := [("f", srcF), ("m", srcM), ("r", frR)]
def frObj : Obj := Obj.ofList frMain frFns

def frCert (c : Option String) : (String → List String) × List String :=
  match c with
  | none => (fun b => if b = "A0" then [] else if b = "A1" then ["x", "z", "y"] else if b = "A5" then ["x", "z"] else if b = "A4" then ["x", "z"]
      else ["x", "z", "y", "c"], ["x", "z", "y", "c", "u", "w", "v"])
  | some "f" => (fun b => if b = "F0" then ["x", "y"] else ["x", "y", "c"], ["x", "y", "c", "d"])
  | _ => (fun _ => ["x"], ["x", "y"])

theorem frObj_compilable : Compilable ["f", "m", "r"] frObj :=
  compilable_of_check (cert := frCert) (grp := fun _ b => if b = "A0" then 0 else if b = "A5" then 1 else if b = "A1" then 2 else if b = "A2" then 3
    else if b = "A3" then 4 else if b = "A4" then 5 else if b = "F0" then 6 else if b = "F1" then 7 else 8) (rank := fun _ _ => 0)
    (main := frMain) (fns := frFns) (by decide +kernel)

theorem frObj_order : CalleesFirst frObj ["m", "f", "r"] :=
  order_of_check frObj_compilable.source.comps (by decide +kernel)

theorem frObj_ops : OpsOk ["f", "m", "r"] (fun o => (o, none)) exInterp frObj := by
  refine ⟨fun o _ => rfl, ?_, fun t w => rfl⟩
  intro c C x X i hC hX hi hop
  have hall : ((compsOf frMain frFns).all fun p => p.2.body.blocks.all fun Y => (code Y).all fun j =>
      decide (j.op ∈ ["functionReturn"] ++ haltOps ++ ["f", "m", "r"]) || decide ((j.op = "calldataload" ∧ j.outs.length = 1) ∨ (j.op = "lt" ∧ j.outs.length = 1) ∨
        (j.op = "add" ∧ j.outs.length = 1) ∨ (j.op = "iszero" ∧ j.outs.length = 1) ∨ (j.op = "sstore" ∧ j.outs.length = 0))) = true := by decide +kernel
  simp only [all_eq_true, Bool.or_eq_true, decide_eq_true_eq] at hall
  have h := (hall _ (mem_compsOf hC) X (get_mem hX) i hi).resolve_left hop
  have hc : ("calldataload".map Char.toUpper) = "CALLDATALOAD" ∧ ("lt".map Char.toUpper) = "LT" ∧ ("add".map Char.toUpper) = "ADD" ∧
      ("sstore".map Char.toUpper) = "SSTORE" ∧ ("iszero".map Char.toUpper) = "ISZERO" := by decide +kernel
  obtain ⟨c1, c2, c3, c4, c5⟩ := hc
  rcases h with ⟨h, ho⟩ | ⟨h, ho⟩ | ⟨h, ho⟩ | ⟨h, ho⟩ | ⟨h, ho⟩ <;> simp only [h, ho, operation, c1, c2, c3, c4, c5, exInterp] <;> simp

/-- The hypotheses of `front_end_preserves` hold. -/
example (A : Option String → Analysis) : ∃ names' O' T, frontEnd ["f", "m", "r"] ["m", "f", "r"] frObj = some (names', O', T) ∧
    ∀ w, RunsLike exInterp (fun o => (o, none)) (toProg names' (fun o => (o, none)) "main" A O') (entry exInterp "main" O' w) frObj w := by
  obtain ⟨names', O', T, h1, _, h2⟩ := front_end_preserves frObj_compilable frObj_order
  exact ⟨names', O', T, h1, fun w => h2 _ _ _ _ _ A frObj_ops (by decide +kernel) w⟩

/-- What results: `f` and `r` have been inlined, the calls of `m` have been split off. -/
example : ((frontEnd ["f", "m", "r"] ["m", "f", "r"] frObj).map fun r => (r.1, (r.2.1.main.blocks.filter fun X => X.id ∈ ["A4f", "F2", "A2f", "A2sf"]).map
      fun X => (X.id, X.instrs))) =
    some (["m"], [("F2", [⟨"add", ["v0", "0x01"], ["v10"]⟩, ⟨"PUSH [tag]", [], ["5"]⟩, ⟨"JUMP", ["5"], []⟩]),
      ("A2f", [⟨"PUSH [tag]", [], ["7"]⟩, ⟨"PUSH [tag]", [], ["6"]⟩, ⟨"m", ["6", "v2", "7"], ["v4"]⟩]),
      ("A4f", [⟨"add", ["v0", "v0"], ["v14"]⟩, ⟨"revert", ["v14", "v14"], []⟩]),
      ("A2sf", [⟨"PhiFunction", ["v4", "v10"], ["v5"]⟩, ⟨"PUSH [tag]", [], ["6"]⟩, ⟨"PUSH [tag]", [], ["8"]⟩, ⟨"m", ["6", "v5", "8"], ["v6"]⟩])]) := by
  decide +kernel

end Grey.Front
