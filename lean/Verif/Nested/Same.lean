/-
C69: two objects with the same name. Every level of a document is a dictionary, but the same name can occur in several places: solc writes the object
of a contract `C` wherever some code creates a `C`, for example in the creation code and in the deployed code of another contract. The tags of all these
objects are kept under one key.
-/
import Verif.Nested.Theorem
namespace Grey.Nested
open List Grey.Cfg Grey.Inline Grey.Prep Grey.Lower Grey.Program Grey.Parser Grey.Sfs Grey.SymExec Grey.Front Grey.Whole

/-- Every tag that is pushed is the tag of exactly one place of the code. -/
def TagsResolve (code : List Output.Asm) : Prop :=
  ∀ e ∈ code, e.name = "PUSH [tag]" → (code.filter fun x => decide (x.name = "tag" ∧ x.value = e.value)).length = 1

instance (code : List Output.Asm) : Decidable (TagsResolve code) := by unfold TagsResolve; infer_instance

/-- A contract with two functions: `a := sload(0); b := f(a); c := f(b); d := g(c); sstore(0, d); stop`, with `f(x) := g(x)` and `g(x) := x + 1`. -/
def chDoc : JObj where
  name := "C"
  blocks := [
    { id := "Block0", instrs := [⟨"sload", ["0x00"], ["a"]⟩, ⟨"f", ["a"], ["b"]⟩, ⟨"f", ["b"], ["c"]⟩, ⟨"g", ["c"], ["d"]⟩, ⟨"sstore", ["d", "0x00"], []⟩,
        ⟨"stop", [], []⟩],
      exit := { type := "Terminated" } }]
  functions := [
    ("f", ⟨["x"], "Block0", [⟨"Block0", [⟨"g", ["x"], ["y"]⟩], { type := "FunctionReturn", returnValues := some ["y"] }, "", []⟩]⟩),
    ("g", ⟨["x"], "Block0", [⟨"Block0", [⟨"add", ["0x01", "x"], ["y"]⟩], { type := "FunctionReturn", returnValues := some ["y"] }, "", []⟩]⟩)]

/-- An object that does nothing. -/
def idleDoc (n : String) : JObj where
  name := n
  blocks := [{ id := "Block0", instrs := [⟨"stop", [], []⟩], exit := { type := "Terminated" } }]
  functions := []

/-- The functions are visited in the order `g`, `f`, as far as they are called. -/
def exTopo (info : CallInfo) : List String := ["g", "f"].filter fun f => info f != []

def chSched (_ b : String) : List String :=
  if b = "C_Block0f" then ["PUSH [TAG]_1", "PUSH0_0", "SLOAD_0", "PUSH [TAG]_0"]
  else if b = "C_Block0sf" ∨ b = "C_Block0ssf" ∨ b = "f_Block0f" then ["PUSH [TAG]_1", "SWAP1", "PUSH [TAG]_0"]
  else if b = "C_Block0sss" then ["PUSH0_0", "SSTORE_0"]
  else if b = "f_Block0s" then ["SWAP1"]
  else if b = "g_Block0" then ["PUSH_0", "ADD_0", "SWAP1"]
  else []

/-- What is live in the blocks of the contract. -/
def chAna (c : Option String) : Analysis where
  junk := true
  inLoop := fun _ => false
  liveIn := fun b => match c with
    | some "f" => if b = "f_Block0f" then ["v4", "out_f"] else ["v5", "out_f"]
    | some _ => ["v6", "out_g"]
    | none => if b = "C_Block0sf" then ["v1"] else if b = "C_Block0ssf" then ["v2"] else if b = "C_Block0sss" then ["v3"] else []
  liveOut := fun b => if b = "C_Block0f" then ["v1"] else if b = "C_Block0sf" then ["v2"] else if b = "C_Block0ssf" then ["v3"]
    else if b = "f_Block0f" then ["v5", "out_f"] else []
  depth := fun _ _ => [0]
  level := fun b => if b = "C_Block0sf" ∨ b = "f_Block0s" then some 1 else if b = "C_Block0ssf" then some 2 else if b = "C_Block0sss" then some 3 else some 0
  domPath := fun _ _ => none

def chPlan (u : CObj) : Plan := ⟨u, fun o => (o, none), "main", chAna, chSched, 10⟩

/-- The output for a document, with these analyses and schedules. -/
def outputOf (docs : List (Tree JObj)) : Option Assembly :=
  (parseDocs docs).bind fun cs => (frontDocs exTopo cs).bind fun r => asmDocs r.2 (mapTs chPlan r.1)

/-- The contract occurs in one place. -/
def onceDocs : List (Tree JObj) := [.node (idleDoc "F") [.node (idleDoc "F_deployed") [], .node chDoc []]]

/-- The contract occurs in two places: the creation code and the deployed code of `F` need it. -/
def twiceDocs : List (Tree JObj) := [.node (idleDoc "F") [.node (idleDoc "F_deployed") [.node chDoc []], .node chDoc []]]

/-- **Distinct names are needed in C69.** If the contract occurs in one place, all its jumps find their tags. If it occurs in two places, its code in
neither of them is right: in one, the tag of `f` is missing, in the other, a tag is set twice. -/
theorem same_name_breaks_tags :
    (∃ a b, outputOf onceDocs = some a ∧ a.at [1] = some b ∧ TagsResolve b.code) ∧
    ∃ a b c, outputOf twiceDocs = some a ∧ a.at [0, 0] = some b ∧ a.at [1] = some c ∧
      (⟨"PUSH [tag]", some "1", none⟩ ∈ b.code ∧ ⟨"tag", some "1", none⟩ ∉ b.code) ∧
      (⟨"PUSH [tag]", some "8", none⟩ ∈ c.code ∧ (c.code.filter (· = ⟨"tag", some "8", none⟩)).length = 2) ∧
      ¬ TagsResolve b.code ∧ ¬ TagsResolve c.code := by
  have h1 : ((outputOf onceDocs).bind fun a => (a.at [1]).map fun b => decide (TagsResolve b.code)) = some true := by decide +kernel
  have h2 : ((outputOf twiceDocs).bind fun a => (a.at [0, 0]).bind fun b => (a.at [1]).map fun c =>
      decide ((⟨"PUSH [tag]", some "1", none⟩ ∈ b.code ∧ ⟨"tag", some "1", none⟩ ∉ b.code) ∧
      (⟨"PUSH [tag]", some "8", none⟩ ∈ c.code ∧ (c.code.filter (· = ⟨"tag", some "8", none⟩)).length = 2) ∧
      ¬ TagsResolve b.code ∧ ¬ TagsResolve c.code)) = some true := by decide +kernel
  obtain ⟨a, ha, h1⟩ := Option.bind_eq_some_iff.1 h1
  obtain ⟨b, hb, h1⟩ := Option.map_eq_some_iff.1 h1
  obtain ⟨a', ha', h2⟩ := Option.bind_eq_some_iff.1 h2
  obtain ⟨b', hb', h2⟩ := Option.bind_eq_some_iff.1 h2
  obtain ⟨c', hc', h2⟩ := Option.map_eq_some_iff.1 h2
  exact ⟨⟨a, b, ha, hb, of_decide_eq_true h1⟩, a', b', c', ha', hb', hc', of_decide_eq_true h2⟩

end Grey.Nested
