/-
Specification for C69 and C70: the objects of a document with subobjects, the code at the corresponding places of the output, and what is assumed.
-/
import Verif.Nested.Model
import Verif.Whole.Document
import Verif.Prep.Order
namespace Grey.Nested
open List Grey.Cfg Grey.Inline Grey.Prep Grey.Lower Grey.Program Grey.Parser Grey.Sfs Grey.SymExec Grey.Front Grey.Whole

mutual
/-- All objects, at every depth. -/
def Tree.all {α : Type} : Tree α → List α
  | .node a ts => a :: Tree.alls ts
def Tree.alls {α : Type} : List (Tree α) → List α
  | [] => []
  | t :: ts => t.all ++ Tree.alls ts
end

/-- The object at a place: the empty list is the object itself, and `i :: p` is the place `p` below the subobject number `i`. -/
def Tree.at {α : Type} : Tree α → List Nat → Option (Tree α)
  | t, [] => some t
  | t, i :: p => (t.subs[i]?).bind (·.at p)

/-- The code at a place of the output: `i :: p` is the place `p` below the entry of `.data` whose key is the number `i` in hexadecimal notation. -/
def Assembly.at : Assembly → List Nat → Option Assembly
  | a, [] => some a
  | a, i :: p => (a.data.find? fun e => hexNumber e.1.toList == i).bind fun e => e.2.at p

section
variable {C : Type}

/-- What is assumed about an object: the hypotheses of C67. The functions are visited in an order as the code computes it, and there is no cycle
of calls with functions that are called once. -/
structure Fit (topo : CallInfo → List String) (dec : String → String × Option (List String)) (I : Interp Nat (Loc → C)) (arity : String → Nat)
    (main : String) (J : JObj) : Prop where
  doc : DocOk J
  results : Underscores J
  compilable : ∀ O, parseObject J = some O → Compilable (J.functions.map (·.1)) O
  topological : ∀ O, parseObject J = some O → TopologicalOrder (J.functions.map (·.1)) (callSites (J.functions.map (·.1)) (renameObj (J.functions.map (·.1)) O))
    (topo (callSites (J.functions.map (·.1)) (renameObj (J.functions.map (·.1)) O)))
  recursion : ∀ O, parseObject J = some O → NoSingleCycle O
  ending : ∀ O, parseObject J = some O → Ending (J.functions.map (·.1)) O
  ops : ∀ O, parseObject J = some O → OpsOk (J.functions.map (·.1)) dec I O
  main : main ∉ J.functions.map (·.1) ++ Lower.haltOps
  emittable : ∀ O, parseObject J = some O → Emittable dec I arity (J.functions.map (·.1)) O
  tags : ∃ val : Nat → Nat, TagMeaning I val
  nums : ∀ n, I.num n = n

theorem Fit.order {topo : CallInfo → List String} {dec : String → String × Option (List String)} {I : Interp Nat (Loc → C)} {arity : String → Nat}
    {main : String} {J : JObj} (h : Fit topo dec I arity main J) (O : Obj) (hO : parseObject J = some O) :
    CalleesFirst O (topo (callSites (J.functions.map (·.1)) (renameObj (J.functions.map (·.1)) O))) :=
  computed_callees_first (h.compilable O hO).fns (h.compilable O hO).source (h.topological O hO) (h.recursion O hO)

/-- What is assumed about the analyses and schedules of an object: those of C67. -/
structure PlanOk (dec : String → String × Option (List String)) (I : Interp Nat (Loc → C)) (main : String) (p : Plan) : Prop where
  dec : p.dec = dec
  main : p.main = main
  checked : Checked p.prog I p.sched
  fuel : ∀ f F, p.prog.fns f = some F → F.graph.blocks.length ≤ p.fuel

end

/-- Two plans and documents have the same form, and the plans are made for the given objects. -/
def PlansFor (plans : List (Tree Plan)) (fs : List (Tree CObj)) : Prop := mapTrees (fun p => some p.base) plans = some fs

end Grey.Nested
