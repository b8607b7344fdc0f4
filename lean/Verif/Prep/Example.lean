/-
Deciding that objects are well-formed before renaming, and an object that is renamed, inlined and combined.
-/
import Verif.Prep.Pipeline
import Verif.Prep.Check
namespace Grey.Prep
open List Grey.Cfg Grey.Inline

/-- A certificate for `SourceOk`. -/
def sourceB (cert : Option String → (String → List String) × List String) (main : BlockList) (fns : List (String × Component)) : Bool :=
  ((compsOf main fns).all fun p => compB (cert p.1).1 (cert p.1).2 p.2 && namesOwnB p.2 &&
    p.2.body.names.all fun x => isConst x || decide (x ∈ p.2.defs)) &&
  ((compsOf main fns).all fun p => (compsOf main fns).all fun q => p.1 == q.1 || namesB p.2 q.2) &&
  ((compsOf main fns).all fun p => p.2.body.blocks.all fun X => X.instrs.all fun i => (fns.lookup i.op).all fun F => fitsB F i) &&
  decide (fns.lookup "functionReturn" = none) && decide (fns.lookup "PhiFunction" = none)

theorem source_of_check {cert : Option String → (String → List String) × List String} {main : BlockList} {fns : List (String × Component)}
    (h : sourceB cert main fns = true) : SourceOk (Obj.ofList main fns) := by
  unfold sourceB at h
  simp only [Bool.and_eq_true, all_eq_true, decide_eq_true_eq, Bool.or_eq_true, beq_iff_eq] at h
  obtain ⟨⟨⟨⟨h1, h2⟩, h3⟩, h4⟩, h5⟩ := h
  have one : ∀ {c C D}, (Obj.ofList main fns).comp c = some C → (Obj.ofList main fns).comp c = some D → C = D := by
    intro c C D hC hD
    rw [hC] at hD
    exact Option.some.inj hD
  refine ⟨?_, ?_, ?_, ?_, h4, h5⟩
  · intro c C hC
    exact comp_of_check (h1 _ (mem_compsOf hC)).1.1
  · intro c C hC x hx hc
    rcases (h1 _ (mem_compsOf hC)).2 x hx with h | h
    · rw [hc] at h; cases h
    · exact h
  · intro c d C D hC hD x y X Y hX hY w hw e
    have hpre : (X.id.toList.isPrefixOf Y.id.toList && halvesB (Y.id.toList.drop X.id.toList.length)) = true := by
      rw [get_id hX, get_id hY, e, Bool.and_eq_true]
      refine ⟨by rw [isPrefixOf_iff_prefix]; exact prefix_append _ _, ?_⟩
      rw [drop_left']
      · exact halves_of_check hw
      · rfl
    rcases h2 _ (mem_compsOf hC) _ (mem_compsOf hD) with h | h
    · have h' : c = d := h
      subst h'
      obtain rfl := one hC hD
      have := (h1 _ (mem_compsOf hC)).1.2
      unfold namesOwnB at this
      simp only [all_eq_true] at this
      have := this X (get_mem hX) Y (get_mem hY)
      rw [hpre] at this
      simp only [Bool.not_true, Bool.false_or, beq_iff_eq] at this
      rw [get_id hX, get_id hY] at this
      subst this
      exact ⟨by simpa using e, rfl⟩
    · unfold namesB at h
      simp only [all_eq_true] at h
      have := h X (get_mem hX) Y (get_mem hY)
      rw [hpre] at this
      cases this
  · intro c C x X i F hC hX hi hF
    have := h3 _ (mem_compsOf hC) X (get_mem hX) i hi
    have hF' : fns.lookup i.op = some F := hF
    rw [hF'] at this
    simp only [Option.all_some, fitsB, Bool.and_eq_true, decide_eq_true_eq, all_eq_true] at this
    refine ⟨this.1, ?_⟩
    intro y Y r hY hj hr
    have := this.2 Y (get_mem hY)
    rw [hj, hr] at this
    simpa using this

/-! ### An object -/

/-- A loop that calls `f` once and `m` twice. All components use the names `x` and `y`. -/
def srcMain : BlockList :=
  { start := some "A0"
    terminals := ["A3"]
    blocks := [
      { id := "A0", jumpType := "unconditional", instrs := [⟨"calldataload", ["0x00"], ["x"]⟩], jumpTo := some "A1" },
      { id := "A1", jumpType := "conditional", instrs := [⟨"PhiFunction", ["x", "v"], ["y"]⟩, ⟨"lt", ["0x10", "y"], ["c"]⟩],
        comesFrom := ["A0", "A2"], entries := ["A0", "A2"], jumpTo := some "A3", fallsTo := some "A2", cond := some "c" },
      { id := "A2", jumpType := "unconditional", instrs := [⟨"m", ["y"], ["u"]⟩, ⟨"f", ["u", "x"], ["w"]⟩, ⟨"m", ["w"], ["v"]⟩],
        comesFrom := ["A1"], jumpTo := some "A1" },
      { id := "A3", jumpType := "mainExit", instrs := [⟨"sstore", ["y", "x"], []⟩, ⟨"stop", [], []⟩], comesFrom := ["A1"] }] }

def srcF : Component :=
  { args := ["x", "y"]
    body := {
      start := some "F0"
      terminals := ["F1", "F2"]
      returns := ["F1", "F2"]
      blocks := [
        { id := "F0", jumpType := "conditional", instrs := [⟨"iszero", ["x"], ["c"]⟩], jumpTo := some "F1", fallsTo := some "F2",
          cond := some "c" },
        { id := "F1", jumpType := "FunctionReturn", instrs := [⟨"functionReturn", ["y"], []⟩], comesFrom := ["F0"] },
        { id := "F2", jumpType := "FunctionReturn", instrs := [⟨"add", ["x", "0x01"], ["d"]⟩, ⟨"functionReturn", ["d"], []⟩],
          comesFrom := ["F0"] }] } }

def srcM : Component :=
  { args := ["x"]
    body := { start := some "M0", terminals := ["M0"], returns := ["M0"],
              blocks := [{ id := "M0", jumpType := "FunctionReturn", instrs := [⟨"add", ["x", "x"], ["y"]⟩, ⟨"functionReturn", ["y"], []⟩] }] } }

def srcFns : List (String × Component) := [("f", srcF), ("m", srcM)]

def srcObj : Obj := Obj.ofList srcMain srcFns

def srcCert (c : Option String) : (String → List String) × List String :=
  match c with
  | none => (fun b => if b = "A0" then [] else if b = "A1" then ["x", "y"] else ["x", "y", "c"], ["x", "y", "c", "u", "w", "v"])
  | some "f" => (fun b => if b = "F0" then ["x", "y"] else ["x", "y", "c"], ["x", "y", "c", "d"])
  | _ => (fun _ => ["x"], ["x", "y"])

theorem srcObj_ok : SourceOk srcObj := source_of_check (cert := srcCert) (by decide +kernel)

theorem srcObj_fns (f : String) : f ∈ ["f", "m"] ↔ ∃ F, srcObj.fns f = some F := mem_fnames (main := srcMain) (fns := srcFns)

/-- The hypotheses of `renaming_preserves` hold, although the components share variables. -/
example : SameRuns srcObj (renameObj ["f", "m"] srcObj) ∧ ObjOk (renameObj ["f", "m"] srcObj) :=
  have h := renaming_preserves srcObj_fns srcObj_ok
  ⟨h.1, h.2.1⟩

example : ¬ ObjOk srcObj := fun h => h.vars (some "f") (some "m") srcF srcM rfl rfl (by decide) "x" (by decide +kernel) (by decide +kernel)
  (by decide +kernel)

theorem srcObj_order : CalleesFirst srcObj ["m", "f"] := order_of_check srcObj_ok.comps (by decide +kernel)

def srcGrp (x : String) : Nat := ["A0", "A1", "A2", "A3", "F0", "F1", "F2", "M0"].idxOf x

theorem srcObj_tidy : ∀ c C, srcObj.comp c = some C → Tidy C.body := by
  intro c C hC
  have hall : ∀ p ∈ compsOf srcMain srcFns, saneB p.2.body = true ∧ tidyB srcGrp (fun _ => 0) p.2.body = true := by decide +kernel
  have h := hall (c, C) (mem_compsOf hC)
  exact tidy_of_check (sane_of_check h.1).coherent.ids h.2

/-- The hypotheses of `preprocessing_preserves` hold. -/
example : ∃ O', preprocess ["f", "m"] ["m", "f"] srcObj = some O' ∧ SameRuns srcObj O' ∧
    ∀ f ∈ ["f", "m"], (O'.fns f = none ↔ CalledOnce srcObj f) :=
  preprocessing_preserves (by decide) srcObj_fns srcObj_ok srcObj_tidy srcObj_order


/-- What results: `f` is inlined, its variables are renamed, its result is a phi function; a block that ends with a call is not merged. -/
example : ((preprocess ["f", "m"] ["m", "f"] srcObj).map fun O => O.main.blocks.map fun X => (X.id, X.instrs, X.succs))
    = some [("A0", [⟨"calldataload", ["0x00"], ["v0"]⟩], ["A1"]),
        ("A1", [⟨"PhiFunction", ["v0", "v5"], ["v1"]⟩, ⟨"lt", ["0x10", "v1"], ["v2"]⟩], ["A3", "A2f"]),
        ("A3", [⟨"sstore", ["v1", "v0"], []⟩, ⟨"stop", [], []⟩], []),
        ("F0", [⟨"iszero", ["v0"], ["v8"]⟩], ["F1", "F2"]), ("F1", [], ["A2s"]), ("F2", [⟨"add", ["v0", "0x01"], ["v9"]⟩], ["A2s"]),
        ("A2f", [⟨"m", ["v1"], ["v3"]⟩], ["F0"]),
        ("A2s", [⟨"PhiFunction", ["v3", "v9"], ["v4"]⟩, ⟨"m", ["v4"], ["v5"]⟩], ["A1"])] := by decide +kernel

end Grey.Prep
