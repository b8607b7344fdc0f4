/-
C94: the compiler as one function from a document with subobjects to the assembly.
-/
import Verif.Nested.Theorem
import Verif.Nested.CompileSpec
namespace Grey.Nested
open List Grey.Cfg Grey.Inline Grey.Prep Grey.Lower Grey.Program Grey.Parser Grey.Sfs Grey.SymExec Grey.Front Grey.Whole Grey.Stored

/-! ### Model -/

/-- The analyses, layouts, schedules and the reparation of one object (src/liveness/layout_generation.py:426-450, src/greedy/ids_from_spec.py:78-104,
src/reparation/repair_unreachable.py:169-200), as in `compileScheduled` and `compileStored`. `none` is an exception. -/
def planOne (o : Options) (u : CObj) : Option Plan :=
  if (none :: u.fns.map some).all fun c => (computed o.ch o.junk u.obj c).isSome then
    let P := programOf u.fns o.dec o.main o.ch o.junk u.obj
    let ids := scheduledIds P o.guide
    if (o.main :: u.fns).all (acceptsFn P ids) then
      let plan (sched : String → String → List String) : Plan :=
        ⟨u, o.dec, o.main, fun c => (computed o.ch o.junk u.obj c).getD noAnalysis, sched, allBlocks P (o.main :: u.fns)⟩
      match o.repair with
      | none => if (o.main :: u.fns).all (storesNothing P ids) then some (plan ids) else none
      | some R => if (o.main :: u.fns).all (repairsFn P R ids) then some (plan (writtenBy R ids).sched) else none
    else none
  else none

/-- `analyze_single_cfg` (src/execution/main_execution.py:49-104) after `Parser.parse_json`: parsing, the front end over all objects, the later phases for every object, the
assembly of the first object. `opts` gives the parameters of the object with the given name. Simplification: the phases are executed object by object; they do not depend on
other objects, and nothing is written if there is an exception in any of them. -/
def compileDocs (topo : CallInfo → List String) (opts : String → Options) (docs : List (Tree JObj)) : Option Assembly :=
  (parseDocs docs).bind fun cs => (frontDocs topo cs).bind fun r =>
    (mapTrees (fun u => planOne (opts u.name) u) r.1).bind fun plans => asmDocs r.2 plans

/-! ### Proofs -/

theorem planOne_base {o : Options} {u : CObj} {p : Plan} (h : planOne o u = some p) : p.base = u := by
  unfold planOne at h
  dsimp only at h
  repeat' split at h
  all_goals cases h
  all_goals rfl

/-- What is written for an object is what is written if it is the only one. -/
theorem planOne_alone {o : Options} {names order : List String} {O : Obj} {n : String} {names' : List String} {O' : Obj} {T : TagDict} {p : Plan} {code : List Output.Asm}
    (hf : frontEnd names order O = some (names', O', T)) (h : planOne o ⟨n, names', O'⟩ = some p)
    (hc : assemble p.prog p.base.fns (tagOf T) p.sched p.fuel = some code) :
    (o.repair = none → compileScheduled names order o.dec o.main o.ch o.junk o.guide O = some code) ∧
    ∀ R, o.repair = some R → compileStored names order o.dec o.main o.ch o.junk o.guide R O = some code := by
  unfold planOne at h
  dsimp only at h
  split at h
  case isFalse => cases h
  case isTrue h1 =>
  split at h
  case isFalse => cases h
  case isTrue h2 =>
  refine ⟨fun hr => ?_, fun R hr => ?_⟩
  · rw [hr] at h
    dsimp only at h
    split at h
    case isFalse => cases h
    case isTrue h3 =>
    cases h
    unfold compileScheduled compileObject
    simp only [hf, Option.bind_some]
    rw [if_pos h3, if_pos h1, if_pos h2]
    exact hc
  · rw [hr] at h
    dsimp only at h
    split at h
    case isFalse => cases h
    case isTrue h3 =>
    cases h
    unfold compileStored
    simp only [hf, Option.bind_some]
    rw [if_pos h1, if_pos (by rw [h2, h3]; rfl)]
    exact hc

mutual
theorem mapTree_all {α β : Type} {f : α → Option β} : ∀ {t : Tree α} {u : Tree β}, mapTree f t = some u → ∀ b ∈ u.all, ∃ a ∈ t.all, f a = some b
  | .node a ts, u, h, b, hb => by
    simp only [mapTree] at h
    obtain ⟨c, hc, h⟩ := Option.bind_eq_some_iff.1 h
    obtain ⟨us, hu, rfl⟩ := Option.map_eq_some_iff.1 h
    simp only [Tree.all, mem_cons] at hb ⊢
    rcases hb with rfl | hb
    · exact ⟨a, Or.inl rfl, hc⟩
    · obtain ⟨x, hx, hfx⟩ := mapTrees_alls hu b hb
      exact ⟨x, Or.inr hx, hfx⟩
theorem mapTrees_alls {α β : Type} {f : α → Option β} : ∀ {ts : List (Tree α)} {us : List (Tree β)}, mapTrees f ts = some us →
    ∀ b ∈ Tree.alls us, ∃ a ∈ Tree.alls ts, f a = some b
  | [], us, h, b, hb => by
    simp only [mapTrees, Option.some.injEq] at h
    subst h
    simp [Tree.alls] at hb
  | t :: ts, us, h, b, hb => by
    simp only [mapTrees] at h
    obtain ⟨u, hu, h⟩ := Option.bind_eq_some_iff.1 h
    obtain ⟨vs, hv, rfl⟩ := Option.map_eq_some_iff.1 h
    simp only [Tree.alls, mem_append] at hb ⊢
    rcases hb with hb | hb
    · obtain ⟨x, hx, hfx⟩ := mapTree_all hu b hb
      exact ⟨x, Or.inl hx, hfx⟩
    · obtain ⟨x, hx, hfx⟩ := mapTrees_alls hv b hb
      exact ⟨x, Or.inr hx, hfx⟩
end

mutual
theorem mapTree_back {α β : Type} {f : α → Option β} {g : β → α} (hg : ∀ a b, f a = some b → g b = a) :
    ∀ {t : Tree α} {u : Tree β}, mapTree f t = some u → mapTree (fun b => some (g b)) u = some t
  | .node a ts, u, h => by
    simp only [mapTree] at h
    obtain ⟨c, hc, h⟩ := Option.bind_eq_some_iff.1 h
    obtain ⟨us, hu, rfl⟩ := Option.map_eq_some_iff.1 h
    simp [mapTree, mapTrees_back hg hu, hg a c hc]
theorem mapTrees_back {α β : Type} {f : α → Option β} {g : β → α} (hg : ∀ a b, f a = some b → g b = a) :
    ∀ {ts : List (Tree α)} {us : List (Tree β)}, mapTrees f ts = some us → mapTrees (fun b => some (g b)) us = some ts
  | [], us, h => by
    simp only [mapTrees, Option.some.injEq] at h
    subst h
    rfl
  | t :: ts, us, h => by
    simp only [mapTrees] at h
    obtain ⟨u, hu, h⟩ := Option.bind_eq_some_iff.1 h
    obtain ⟨vs, hv, rfl⟩ := Option.map_eq_some_iff.1 h
    simp [mapTrees, mapTree_back hg hu, mapTrees_back hg hv]
end

mutual
theorem asmTree_code {D : String → Option TagDict} : ∀ {p : Tree Plan} {a : Assembly}, asmTree D p = some a →
    ∀ q ∈ p.all, ∃ T code, D q.base.name = some T ∧ assemble q.prog q.base.fns (tagOf T) q.sched q.fuel = some code
  | .node q ps, a, h, r, hr => by
    simp only [asmTree] at h
    obtain ⟨T, hT, h⟩ := Option.bind_eq_some_iff.1 h
    obtain ⟨code, hc, h⟩ := Option.bind_eq_some_iff.1 h
    obtain ⟨l, hl, -⟩ := Option.map_eq_some_iff.1 h
    simp only [Tree.all, mem_cons] at hr
    rcases hr with rfl | hr
    · exact ⟨T, code, hT, hc⟩
    · exact asmTrees_code hl r hr
theorem asmTrees_code {D : String → Option TagDict} : ∀ {ps : List (Tree Plan)} {l : List Assembly}, asmTrees D ps = some l →
    ∀ q ∈ Tree.alls ps, ∃ T code, D q.base.name = some T ∧ assemble q.prog q.base.fns (tagOf T) q.sched q.fuel = some code
  | [], l, h, q, hq => by simp [Tree.alls] at hq
  | p :: ps, l, h, q, hq => by
    simp only [asmTrees] at h
    obtain ⟨a, ha, h⟩ := Option.bind_eq_some_iff.1 h
    obtain ⟨l', hl, -⟩ := Option.map_eq_some_iff.1 h
    simp only [Tree.alls, mem_append] at hq
    rcases hq with hq | hq
    · exact asmTree_code ha q hq
    · exact asmTrees_code hl q hq
end

/-- What holds for every object that is compiled for itself holds at every place of what is written for a document with subobjects. -/
theorem contract_each {C : Type} [Nonempty C] {topo : CallInfo → List String} {opts : String → Options} {t : Tree JObj} {rest : List (Tree JObj)}
    {I : JObj → Interp Nat (Loc → C)} {arity : JObj → String → Nat} (hn : ((Tree.alls (t :: rest)).map (·.name)).Nodup)
    (hfit : ∀ J ∈ Tree.alls (t :: rest), FitAll topo (opts J.name) (I J) (arity J) J) {a : Assembly} (hc : compileDocs topo opts (t :: rest) = some a)
    {Q : JObj → List String → Obj → List Output.Asm → Prop}
    (hQ : ∀ J ∈ Tree.alls (t :: rest), ∀ O names' O' T code, parseObject J = some O →
      frontEnd (J.functions.map (·.1)) (topo (callSites (J.functions.map (·.1)) (renameObj (J.functions.map (·.1)) O))) O = some (names', O', T) →
      ((opts J.name).repair = none → compileScheduled (J.functions.map (·.1)) (topo (callSites (J.functions.map (·.1)) (renameObj (J.functions.map (·.1)) O)))
        (opts J.name).dec (opts J.name).main (opts J.name).ch (opts J.name).junk (opts J.name).guide O = some code) →
      (∀ R, (opts J.name).repair = some R → compileStored (J.functions.map (·.1)) (topo (callSites (J.functions.map (·.1)) (renameObj (J.functions.map (·.1)) O)))
        (opts J.name).dec (opts J.name).main (opts J.name).ch (opts J.name).junk (opts J.name).guide R O = some code) → Q J names' O' code) (path : List Nat) :
    (∀ J, (t.at path).map (·.root) = some J → ∃ b names' O', a.at path = some b ∧ FrontOf topo J names' O' ∧ Q J names' O' b.code) ∧
    (t.at path = none → a.at path = none) := by
  classical
  have hp : ∀ J : JObj, ∃ (O : Obj) (names' : List String) (O' : Obj) (T : TagDict), J ∈ Tree.alls (t :: rest) →
      Done topo (opts J.name).dec (I J) (arity J) (opts J.name).main J O names' O' T := by
    intro J
    by_cases hJ : J ∈ Tree.alls (t :: rest)
    · obtain ⟨O, names', O', T, h⟩ := done_of_fit (hfit J hJ).toFit
      exact ⟨O, names', O', T, fun _ => h⟩
    · exact ⟨⟨⟨[], none, [], []⟩, fun _ => none⟩, [], ⟨⟨[], none, [], []⟩, fun _ => none⟩, [], fun h => absurd h hJ⟩
  choose O names' O' T hq using hp
  have e1 : parseDocs (t :: rest) = some (mapTs (fun J => ⟨J.name, J.functions.map (·.1), O J⟩) (t :: rest)) := by
    refine mapTrees_some _ _ _ fun J hJ => ?_
    unfold parseOne
    rw [(hq J hJ).parse]
    rfl
  obtain ⟨tags, e2, e3⟩ := frontDocs_eq (topo := topo) (ts := t :: rest) (g := fun J => ⟨J.name, J.functions.map (·.1), O J⟩)
    (by simpa [namesOf, Function.comp_def] using hn) (names' := names') (O' := O') (T := T)
    (by
      intro J hJ
      dsimp only
      exact (hq J hJ).front)
  unfold compileDocs at hc
  rw [e1, Option.bind_some, e2, Option.bind_some] at hc
  obtain ⟨plans, hplans, hc⟩ := Option.bind_eq_some_iff.1 hc
  unfold asmDocs at hc
  obtain ⟨l, hl, hhead⟩ := Option.bind_eq_some_iff.1 hc
  have hback := mapTrees_back (g := Plan.base) (fun u p h => planOne_base h) hplans
  obtain ⟨l', a1, a2, a3⟩ := asmTrees_eq (D := tags) (fr := fun J => (⟨J.name, names' J, O' J⟩ : CObj))
    (P := fun J code => FrontOf topo J (names' J) (O' J) ∧ Q J (names' J) (O' J) code) (t :: rest) plans hback (by
      intro J hJ p hp hb
      obtain ⟨T', code, c1, c2⟩ := asmTrees_code hl p hp
      obtain ⟨u, hu, hplan⟩ := mapTrees_alls hplans p hp
      have hub := planOne_base hplan
      rw [hub] at hb
      subst hb
      rw [hub] at c1
      have ht := e3 J hJ
      have hT : T' = T J := Option.some.inj (c1.symm.trans ht)
      subst hT
      refine ⟨T J, code, ht, c2, ⟨O J, T J, (hq J hJ).parse, (hq J hJ).front⟩, ?_⟩
      have halone := planOne_alone (hq J hJ).front hplan c2
      exact hQ J hJ _ _ _ _ _ (hq J hJ).parse (hq J hJ).front halone.1 halone.2)
  obtain rfl : l' = l := Option.some.inj (a1.symm.trans hl)
  obtain ⟨a', b1, b2⟩ := a3 0 t rfl
  obtain rfl : a' = a := by
    rw [head?_eq_getElem?, b1] at hhead
    exact Option.some.inj hhead
  refine ⟨fun J hJ => ?_, (b2 path).2⟩
  obtain ⟨b, h1, h2, h3⟩ := (b2 path).1 J hJ
  exact ⟨b, names' J, O' J, h1, h2, h3⟩

/-- **C94.** If the compiler writes an assembly for a document with subobjects, then at every place where the document has an object, the assembly has code, which does what the document
says for this object (up to what the compiler does not ensure for it, `CodeFor`), and there is no other code. All objects, at every depth, have distinct names and meet the hypotheses of
C86; nothing is assumed about the layouts and schedules that are found.

Partial: as C86, what the compiler does not ensure is assumed; the names are distinct, see `same_name_breaks_tags`. -/
theorem contract_compiled_partial {C : Type} [Nonempty C] {topo : CallInfo → List String} {opts : String → Options} {t : Tree JObj} {rest : List (Tree JObj)}
    {I : JObj → Interp Nat (Loc → C)} {arity : JObj → String → Nat} (hn : ((Tree.alls (t :: rest)).map (·.name)).Nodup)
    (hfit : ∀ J ∈ Tree.alls (t :: rest), FitAll topo (opts J.name) (I J) (arity J) J) {a : Assembly} (hc : compileDocs topo opts (t :: rest) = some a) (path : List Nat) :
    (∀ J, (t.at path).map (·.root) = some J →
      ∃ b names' O', a.at path = some b ∧ FrontOf topo J names' O' ∧ CodeFor (opts J.name) (I J) (arity J) J names' O' b.code) ∧
    (t.at path = none → a.at path = none) := by
  refine contract_each hn hfit hc ?_ path
  intro J hJ O names' O' T code hO hfr h1 h2
  have hf := hfit J hJ
  unfold CodeFor
  dsimp only
  obtain ⟨val, hval⟩ := hf.tags
  cases hr : (opts J.name).repair with
  | none =>
    dsimp only
    obtain ⟨O2, hO2, h⟩ := scheduled_like_document_partial (order := topo (callSites (J.functions.map (·.1)) (renameObj (J.functions.map (·.1)) O)))
      (dec := (opts J.name).dec) (I := I J) (arity := arity J) (val := val) (main := (opts J.name).main) hf.doc hf.results
    obtain rfl : O = O2 := Option.some.inj (hO.symm.trans hO2)
    obtain ⟨n2, O2', T2, g1, g2⟩ := h (hf.compilable _ hO2) (hf.order _ hO2) (hf.ending _ hO2) (hf.ops _ hO2) hf.main (hf.emittable _ hO2) hval hf.nums (hf.evm _ hO2)
      _ _ _ _ (h1 hr)
    rw [hfr] at g1
    cases g1
    exact g2
  | some R =>
    dsimp only
    obtain ⟨O2, hO2, h⟩ := stored_like_document_partial (order := topo (callSites (J.functions.map (·.1)) (renameObj (J.functions.map (·.1)) O)))
      (dec := (opts J.name).dec) (I := I J) (arity := arity J) (val := val) (main := (opts J.name).main) hf.doc hf.results
    obtain rfl : O = O2 := Option.some.inj (hO.symm.trans hO2)
    obtain ⟨n2, O2', T2, g1, g2⟩ := h (hf.compilable _ hO2) (hf.order _ hO2) (hf.ending _ hO2) (hf.ops _ hO2) hf.main (hf.emittable _ hO2) hval hf.nums
      (hf.memory (by rw [hr]; rfl)) (hf.evm _ hO2) _ _ _ _ _ (h2 R hr)
    rw [hfr] at g1
    cases g1
    exact g2

end Grey.Nested
