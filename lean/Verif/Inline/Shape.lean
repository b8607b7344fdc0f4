/-
The graph after the inlining of a call.
-/
import Verif.Inline.Model
import Verif.Cfg.Split
import Verif.Cfg.Exits
namespace Grey.Inline
open List Grey.Cfg

/-! ### The blocks of the result -/

/-- The parameters are replaced by the arguments. -/
def inMap (F : Component) (call : Instr) : String → String := renameVar (dictOf (F.args.zip call.ins.reverse))

/-- The values returned at an exit. -/
def retOf (F : Component) (call : Instr) (e : String) : List String :=
  (((F.body.get e).bind returned).getD []).map (inMap F call)

/-- The values returned at the exits. -/
def retsOf (F : Component) (call : Instr) : List (List String) := F.body.returns.map (retOf F call)

/-- The renaming of the results, if there is one exit. -/
def outMap (F : Component) (call : Instr) : String → String :=
  match retsOf F call with
  | [r] => renameVar (dictOf (call.outs.zip r))
  | _ => id

/-- The phi functions for the results, if there are several exits. -/
def phisOf (F : Component) (call : Instr) : List Instr :=
  match retsOf F call with
  | [] => []
  | [_] => []
  | rets => ((call.outs.zipIdx).map fun p => (⟨"PhiFunction", rets.map fun r => r.getD p.2 "", [p.1]⟩ : Instr)).reverse

def entriesOf (F : Component) (call : Instr) : List String :=
  match retsOf F call with
  | [] => []
  | [_] => []
  | _ => F.body.returns

def firstBlock (s b : String) (k : Nat) (blk : Block) : Block :=
  { id := firstId b, instrs := blk.instrs.take k, jumpType := "sub_block", jumpTo := none, fallsTo := some s, cond := none,
    comesFrom := blk.comesFrom, entries := blk.entries }

def secondBlock (F : Component) (call : Instr) (b : String) (k : Nat) (blk : Block) : Block :=
  { id := secondId b, instrs := phisOf F call ++ blk.instrs.drop (k + 1), jumpType := blk.jumpType, jumpTo := blk.jumpTo,
    fallsTo := blk.fallsTo, cond := blk.cond, comesFrom := F.body.returns, entries := entriesOf F call }

/-- A block of the function before it is connected. -/
def calleeBase (F : Component) (call : Instr) (B : Block) : Block := unreturn (renameBlock (inMap F call) B)

def calleeBlock (F : Component) (call : Instr) (s b x : String) (B : Block) : Block :=
  { calleeBase F call B with
    instrs := if x ∈ F.body.returns then (calleeBase F call B).instrs.dropLast else (calleeBase F call B).instrs
    jumpTo := if x ∈ F.body.returns then some (secondId b) else B.jumpTo
    comesFrom := if x = s then B.comesFrom ++ [firstId b] else B.comesFrom }

/-- The result of inlining. -/
structure Shape (F : Component) (call : Instr) (s b : String) (k : Nat) (blk : Block) (G G' : BlockList) : Prop where
  start : G'.start = if G.start = some b then some (firstId b) else G.start
  ids : (G'.blocks.map (·.id)).Nodup
  get : ∀ x, G'.get x = if x = secondId b then some (renameBlock (outMap F call) (secondBlock F call b k blk))
    else if x = firstId b then some (renameBlock (outMap F call) (firstBlock s b k blk))
    else if x = b then none
    else match F.body.get x with
      | some B => some (renameBlock (outMap F call) (calleeBlock F call s b x B))
      | none => (G.get x).map fun B => renameBlock (outMap F call) (fixOther b blk x B)

/-- What the inlining of the call at position `k` of block `b` relies on, as far as the graphs are concerned. -/
structure Fits (f : String) (F : Component) (call : Instr) (s b : String) (k : Nat) (blk : Block) (G : BlockList) : Prop where
  saneG : Sane G
  saneF : Sane F.body
  start : F.body.start = some s
  block : G.get b = some blk
  callAt : blk.instrs[k]? = some call
  op : call.op = f
  arity : F.args.length = call.ins.length
  self : b ∉ blk.succs
  disj : ∀ x X, F.body.get x = some X → G.get x = none
  freshF : G.get (firstId b) = none ∧ F.body.get (firstId b) = none
  freshS : G.get (secondId b) = none ∧ F.body.get (secondId b) = none
  exits : ExactExits F.body
  returns : ∀ x X, F.body.get x = some X → X.jumpType = "FunctionReturn" → X.succs = [] ∧
    ∃ i, X.instrs.getLast? = some i ∧ i.op = "functionReturn" ∧ i.ins.length = call.outs.length
  argsNew : ∀ p ∈ F.args.zip call.ins.reverse, dictOf (F.args.zip call.ins.reverse) p.1 ≠ some p.1
  outsNew : ∀ r, retsOf F call = [r] → ∀ p ∈ call.outs.zip r, dictOf (call.outs.zip r) p.1 ≠ some p.1

/-! ### Steps -/

theorem addAll_spec : ∀ (bs : List Block) (G : BlockList), G.blocks ≠ [] → (bs.map (·.id)).Nodup →
    (∀ y ∈ G.blocks, ∀ z ∈ bs, y.id ≠ z.id) → ∃ G1, addAll bs G = some G1 ∧ G1.blocks = G.blocks ++ bs ∧ G1.start = G.start
  | [], G, _, _, _ => ⟨G, rfl, by simp, rfl⟩
  | a :: bs, G, hne, hnd, hdis => by
    obtain ⟨G0, h1, h2, h3⟩ := add_succeeds (G := G) (b := a) (st := false) (by simp [hne])
    have h4 := h3 (fun y hy => hdis y hy a mem_cons_self)
    rw [map_cons, nodup_cons] at hnd
    obtain ⟨G1, g1, g2, g3⟩ := addAll_spec bs G0 (by rw [h4]; simp) hnd.2 (by
      intro y hy z hz
      rw [h4, mem_append, mem_singleton] at hy
      rcases hy with hy | rfl
      · exact hdis y hy z (mem_cons_of_mem _ hz)
      · intro he
        exact hnd.1 (he ▸ mem_map_of_mem hz))
    refine ⟨G1, ?_, by rw [g2, h4]; simp, ?_⟩
    · unfold addAll
      rw [h1]
      exact g1
    · rw [g3, h2]
      simp [hne]

theorem get_append {G G1 : BlockList} {bs : List Block} (h : G1.blocks = G.blocks ++ bs) (x : String) :
    G1.get x = (G.get x).or (bs.find? fun y => y.id == x) := by
  unfold BlockList.get
  rw [h, find?_append]

theorem calleeBase_id (F : Component) (call : Instr) (B : Block) : (calleeBase F call B).id = B.id := rfl

/-- The union of both graphs. -/
theorem union_spec {f : String} {F : Component} {call : Instr} {s b : String} {k : Nat} {blk : Block} {G : BlockList}
    (h : Fits f F call s b k blk G) :
    ∃ G1, addAll ((renameBlockList (inMap F call) F.body).blocks.map unreturn) G = some G1 ∧ G1.start = G.start ∧ Sane G1 ∧
      ∀ x, G1.get x = match F.body.get x with
        | some B => some (calleeBase F call B)
        | none => G.get x := by
  have hids : ((renameBlockList (inMap F call) F.body).blocks.map unreturn).map (·.id) = F.body.blocks.map (·.id) := by
    simp only [renameBlockList, map_map]
    apply map_congr_left
    intro y _
    rfl
  obtain ⟨G1, h1, h2, h3⟩ := addAll_spec ((renameBlockList (inMap F call) F.body).blocks.map unreturn) G
    (by intro hh; have := get_mem h.block; rw [hh] at this; cases this)
    (by rw [hids]; exact h.saneF.coherent.ids)
    (by
      intro y hy z hz he
      have hz' : z.id ∈ F.body.blocks.map (·.id) := by rw [← hids]; exact mem_map_of_mem hz
      obtain ⟨Z, hZ⟩ := get_isSome_iff.2 hz'
      have := h.disj _ _ hZ
      rw [get_none_iff, ← he] at this
      exact this (mem_map_of_mem hy))
  have hget : ∀ x, G1.get x = match F.body.get x with
        | some B => some (calleeBase F call B)
        | none => G.get x := by
    intro x
    have e : (((renameBlockList (inMap F call) F.body).blocks.map unreturn).find? fun y => y.id == x)
        = (F.body.get x).map (calleeBase F call) := by
      rw [find_map_id (by intro c _; rfl)]
      unfold renameBlockList BlockList.get
      simp only
      rw [find_map_id (by intro c _; rfl)]
      rw [Option.map_map]
      rfl
    rw [get_append h2, e]
    cases hF : F.body.get x with
    | none => simp
    | some X => simp [h.disj x X hF]
  have hgetF : ∀ x X, F.body.get x = some X → G1.get x = some (calleeBase F call X) := by
    intro x X hX; rw [hget, hX]
  have hgetG : ∀ x X, G.get x = some X → G1.get x = some X := by
    intro x X hX
    rw [hget]
    cases hF : F.body.get x with
    | none => exact hX
    | some Y => rw [h.disj x Y hF] at hX; cases hX
  have hcases : ∀ x X, G1.get x = some X → (∃ Y, F.body.get x = some Y ∧ X = calleeBase F call Y) ∨ G.get x = some X := by
    intro x X hX
    rw [hget] at hX
    cases hF : F.body.get x with
    | none => rw [hF] at hX; exact Or.inr hX
    | some Y => rw [hF] at hX; simp only [Option.some.injEq] at hX; exact Or.inl ⟨Y, rfl, hX.symm⟩
  have hnot : ∀ x Y X, F.body.get x = some Y → G.get x = some X → False := by
    intro x Y X h5 h6; rw [h.disj x Y h5] at h6; cases h6
  refine ⟨G1, h1, h3, ⟨⟨?_, ?_, ?_, ?_, ?_⟩, ?_, ?_, ?_⟩, hget⟩
  · rw [h2, map_append, nodup_append, hids]
    refine ⟨h.saneG.coherent.ids, h.saneF.coherent.ids, ?_⟩
    intro a ha c hc hac
    subst hac
    obtain ⟨X, hX⟩ := get_isSome_iff.2 ha
    obtain ⟨Y, hY⟩ := get_isSome_iff.2 hc
    exact hnot _ _ _ hY hX
  · intro p q P Q hP hQ
    rcases hcases p P hP with ⟨P0, hP0, rfl⟩ | hP0 <;> rcases hcases q Q hQ with ⟨Q0, hQ0, rfl⟩ | hQ0
    · exact h.saneF.coherent.edges p q P0 Q0 hP0 hQ0
    · constructor
      · intro hp
        obtain ⟨Z, hZ⟩ := h.saneG.coherent.preds q Q hQ0 p hp
        exact (hnot _ _ _ hP0 hZ).elim
      · intro hq
        obtain ⟨Z, hZ⟩ := h.saneF.coherent.targets p P0 hP0 q hq
        exact (hnot _ _ _ hZ hQ0).elim
    · constructor
      · intro hp
        obtain ⟨Z, hZ⟩ := h.saneF.coherent.preds q Q0 hQ0 p hp
        exact (hnot _ _ _ hZ hP0).elim
      · intro hq
        obtain ⟨Z, hZ⟩ := h.saneG.coherent.targets p P hP0 q hq
        exact (hnot _ _ _ hQ0 hZ).elim
    · exact h.saneG.coherent.edges p q P Q hP0 hQ0
  · intro q Q hQ x hx
    rcases hcases q Q hQ with ⟨Q0, hQ0, rfl⟩ | hQ0
    · obtain ⟨Z, hZ⟩ := h.saneF.coherent.preds q Q0 hQ0 x hx
      exact ⟨_, hgetF x Z hZ⟩
    · obtain ⟨Z, hZ⟩ := h.saneG.coherent.preds q Q hQ0 x hx
      exact ⟨_, hgetG x Z hZ⟩
  · intro q Q hQ x hx
    rcases hcases q Q hQ with ⟨Q0, hQ0, rfl⟩ | hQ0
    · obtain ⟨Z, hZ⟩ := h.saneF.coherent.targets q Q0 hQ0 x hx
      exact ⟨_, hgetF x Z hZ⟩
    · obtain ⟨Z, hZ⟩ := h.saneG.coherent.targets q Q hQ0 x hx
      exact ⟨_, hgetG x Z hZ⟩
  · intro q Q hQ
    rcases hcases q Q hQ with ⟨Q0, hQ0, rfl⟩ | hQ0
    · exact h.saneF.coherent.once q Q0 hQ0
    · exact h.saneG.coherent.once q Q hQ0
  · intro q Q hQ
    rcases hcases q Q hQ with ⟨Q0, hQ0, rfl⟩ | hQ0
    · exact h.saneF.noDouble q Q0 hQ0
    · exact h.saneG.noDouble q Q hQ0
  · intro q Q hQ
    rcases hcases q Q hQ with ⟨Q0, hQ0, rfl⟩ | hQ0
    · exact h.saneF.entries q Q0 hQ0
    · exact h.saneG.entries q Q hQ0
  · obtain ⟨t, T, hs1, hs2⟩ := h.saneG.start
    exact ⟨t, T, by rw [h3, hs1], hgetG t T hs2⟩

theorem connectExits_spec (s1 : String) : ∀ (es : List String) (G : BlockList), es.Nodup → s1 ∉ es →
    (∀ S, G.get s1 = some S → ∀ e ∈ es, e ∉ S.comesFrom) → ∀ (rs : String → List String),
    (∀ e ∈ es, (G.get e).bind returned = some (rs e)) →
    ∃ G', connectExits s1 es G = some (G', es.map rs) ∧ G'.start = G.start ∧ G'.blocks.map (·.id) = G.blocks.map (·.id) ∧
      ∀ x, G'.get x = (G.get x).map fun B => if x ∈ es then { B with jumpTo := some s1 } else if x = s1 then
        { B with comesFrom := B.comesFrom ++ es } else B
  | [], G, _, _, _, rs, _ => ⟨G, rfl, rfl, rfl, by intro x; simp⟩
  | e :: es, G, hnd, hs1, hcf, rs, hr => by
    rw [nodup_cons] at hnd
    rw [mem_cons, not_or] at hs1
    have hre := hr e mem_cons_self
    obtain ⟨E, hE, hret⟩ := Option.bind_eq_some_iff.1 hre
    set G1 := G.modify e fun x => { x with jumpTo := some s1 } with hG1
    set G2 := G1.modify s1 fun x => { x with comesFrom := if e ∈ x.comesFrom then x.comesFrom else x.comesFrom ++ [e] } with hG2
    have g1 : ∀ x, G1.get x = (G.get x).map fun y => if x = e then { y with jumpTo := some s1 } else y :=
      get_modify (by intro; rfl)
    have g2 : ∀ x, G2.get x = (G1.get x).map fun y => if x = s1 then { y with comesFrom := if e ∈ y.comesFrom then y.comesFrom
      else y.comesFrom ++ [e] } else y := get_modify (by intro; rfl)
    have g12 : ∀ x, G2.get x = (G.get x).map fun B => if x = e then { B with jumpTo := some s1 } else if x = s1 then
        { B with comesFrom := B.comesFrom ++ [e] } else B := by
      intro x
      rw [g2, g1]
      cases hx : G.get x with
      | none => rfl
      | some B =>
        simp only [Option.map_some, Option.some.injEq]
        by_cases h1 : x = e
        · subst h1
          rw [if_neg (Ne.symm hs1.1), if_pos rfl, if_pos rfl]
        · rw [if_neg h1, if_neg h1]
          by_cases h2 : x = s1
          · subst h2
            rw [if_pos rfl, if_pos rfl, if_neg (hcf B hx e mem_cons_self)]
          · rw [if_neg h2, if_neg h2]
    obtain ⟨G', c1, c2, c3, c4⟩ := connectExits_spec s1 es G2 hnd.2 hs1.2 (by
      intro S hS e' he' hin
      rw [g12] at hS
      cases hx : G.get s1 with
      | none => rw [hx] at hS; simp at hS
      | some S0 =>
        rw [hx] at hS
        simp only [Option.map_some, Option.some.injEq] at hS
        simp only [if_neg hs1.1, if_true] at hS
        subst hS
        simp only [mem_append, mem_singleton] at hin
        rcases hin with hin | rfl
        · exact hcf S0 hx e' (mem_cons_of_mem _ he') hin
        · exact hnd.1 he') rs (by
      intro e' he'
      have := hr e' (mem_cons_of_mem _ he')
      obtain ⟨E', hE', hret'⟩ := Option.bind_eq_some_iff.1 this
      rw [g12, hE']
      have hne : e' ≠ e := by rintro rfl; exact hnd.1 he'
      have hne2 : e' ≠ s1 := by rintro rfl; exact hs1.2 he'
      simp only [Option.map_some, Option.bind_some, if_neg hne, if_neg hne2, hret'])
    refine ⟨G', ?_, c2.trans (by rfl), c3.trans ((ids_modify (by intro; rfl)).trans (ids_modify (by intro; rfl))), ?_⟩
    · unfold connectExits setJumpTo
      rw [hE]
      simp only [Option.map_some, Option.bind_some]
      rw [← hG1, ← hG2, g12, hE]
      simp only [Option.map_some, Option.bind_some, if_true]
      have : returned { E with jumpTo := some s1 } = some (rs e) := hret
      rw [this]
      simp only [Option.bind_some]
      rw [c1]
      rfl
    · intro x
      rw [c4, g12]
      cases hx : G.get x with
      | none => rfl
      | some B =>
        simp only [Option.map_some, Option.some.injEq, mem_cons]
        by_cases h1 : x = e
        · subst h1
          rw [if_neg hnd.1, if_neg (Ne.symm hs1.1)]
          simp
        · by_cases h3 : x ∈ es
          · have h2 : x ≠ s1 := by rintro rfl; exact hs1.2 h3
            simp [h1, h3, h2]
          · by_cases h2 : x = s1
            · subst h2
              simp [hs1.1, hs1.2]
            · simp [h1, h2, h3]

theorem dropReturns_spec : ∀ (es : List String) (G : BlockList), es.Nodup → (∀ e ∈ es, ∃ r, (G.get e).bind returned = some r) →
    ∃ G', dropReturns es G = some G' ∧ G'.start = G.start ∧ G'.blocks.map (·.id) = G.blocks.map (·.id) ∧
      ∀ x, G'.get x = (G.get x).map fun B => if x ∈ es then { B with instrs := B.instrs.dropLast } else B
  | [], G, _, _ => ⟨G, rfl, rfl, rfl, by intro x; simp⟩
  | e :: es, G, hnd, hr => by
    rw [nodup_cons] at hnd
    obtain ⟨r, hre⟩ := hr e mem_cons_self
    set G1 := G.modify e fun x => { x with instrs := x.instrs.dropLast } with hG1
    have g1 : ∀ x, G1.get x = (G.get x).map fun y => if x = e then { y with instrs := y.instrs.dropLast } else y :=
      get_modify (by intro; rfl)
    obtain ⟨G', c1, c2, c3, c4⟩ := dropReturns_spec es G1 hnd.2 (by
      intro e' he'
      obtain ⟨r', hr'⟩ := hr e' (mem_cons_of_mem _ he')
      obtain ⟨E', hE', hret'⟩ := Option.bind_eq_some_iff.1 hr'
      have hne : e' ≠ e := by rintro rfl; exact hnd.1 he'
      exact ⟨r', by rw [g1, hE']; simp only [Option.map_some, Option.bind_some, if_neg hne, hret']⟩)
    refine ⟨G', ?_, c2, c3.trans (ids_modify (by intro; rfl)), ?_⟩
    · unfold dropReturns
      rw [hre]
      exact c1
    · intro x
      rw [c4, g1]
      cases hx : G.get x with
      | none => rfl
      | some B =>
        simp only [Option.map_some, Option.some.injEq, mem_cons]
        by_cases h1 : x = e
        · subst h1
          simp [hnd.1]
        · simp [h1]

theorem column_eq : ∀ (i : Nat) (rets : List (List String)), (∀ r ∈ rets, i < r.length) →
    column i rets = some (rets.map fun r => r.getD i "")
  | _, [], _ => rfl
  | i, r :: rs, h => by
    unfold column
    have h1 : r[i]? = some (r.getD i "") := by
      rw [getD_eq_getElem?_getD, getElem?_eq_getElem (h r mem_cons_self)]; rfl
    rw [h1, Option.bind_some, column_eq i rs (fun r' hr' => h r' (mem_cons_of_mem _ hr'))]
    rfl

theorem exitPhis_eq (rets : List (List String)) : ∀ (outs : List String) (i : Nat) (acc : List Instr),
    (∀ r ∈ rets, i + outs.length ≤ r.length) → exitPhis rets outs i acc
      = some (((outs.zipIdx i).map fun p => (⟨"PhiFunction", rets.map fun r => r.getD p.2 "", [p.1]⟩ : Instr)).reverse ++ acc)
  | [], _, _, _ => rfl
  | o :: os, i, acc, h => by
    unfold exitPhis
    rw [column_eq i rets (by intro r hr; have := h r hr; simp at this; omega), Option.bind_some,
      exitPhis_eq rets os (i + 1) _ (by intro r hr; have := h r hr; simp at this; omega)]
    simp

theorem renamesAll_of {l : List (String × String)} (h : ∀ p ∈ l, dictOf l p.1 ≠ some p.1) : renamesAll l = true := by
  unfold renamesAll
  rw [all_eq_true]
  intro p hp
  simpa using h p hp

theorem renameBlock_id (B : Block) : renameBlock id B = B := by
  have : ∀ i : Instr, renameInstr id i = i := by intro i; simp [renameInstr]
  have h2 : (renameInstr id) = id := funext this
  simp [renameBlock, h2]

theorem returned_rename (r : String → String) (B : Block) : returned (renameBlock r B) = (returned B).map (·.map r) := by
  unfold returned renameBlock
  simp only [getLast?_map]
  cases B.instrs.getLast? with
  | none => rfl
  | some i =>
    simp only [Option.map_some, Option.bind_some, renameInstr]
    split <;> rfl

theorem returned_unreturn (B : Block) : returned (unreturn B) = returned B := rfl

/-- The steps together. -/
theorem inline_shape {f : String} {F : Component} {call : Instr} {s b : String} {k : Nat} {blk : Block} {G : BlockList}
    (h : Fits f F call s b k blk G) : ∃ G', inlineCall k b f F G = some G' ∧ Shape F call s b k blk G G' := by
  have hbid := get_id h.block
  obtain ⟨G1, u1, u2, u3, u4⟩ := union_spec h
  have hFb : F.body.get b = none := by
    cases hF : F.body.get b with
    | none => rfl
    | some X => have := h.block; rw [h.disj b X hF] at this; cases this
  have hb1 : G1.get b = some blk := by rw [u4, hFb]; exact h.block
  obtain ⟨G2, v1, v2, v3, v4⟩ := split_spec u3 hb1 h.self (by rw [u4, h.freshF.2]; exact h.freshF.1)
    (by rw [u4, h.freshS.2]; exact h.freshS.1) k
  have hk : k < blk.instrs.length := (List.getElem?_eq_some_iff.1 h.callAt).1
  obtain ⟨S0, hS0⟩ : ∃ S0, F.body.get s = some S0 := by
    obtain ⟨t, T, ht1, ht2⟩ := h.saneF.start
    rw [h.start] at ht1
    cases ht1
    exact ⟨T, ht2⟩
  have hFf : ∀ x X, F.body.get x = some X → x ≠ firstId b ∧ x ≠ secondId b ∧ x ≠ b := by
    intro x X hX
    refine ⟨?_, ?_, ?_⟩
    · rintro rfl; rw [h.freshF.2] at hX; cases hX
    · rintro rfl; rw [h.freshS.2] at hX; cases hX
    · rintro rfl; rw [hFb] at hX; cases hX
  -- the blocks of the function are not changed by the split
  have hfix : ∀ x X, F.body.get x = some X → fixOther b blk x (calleeBase F call X) = calleeBase F call X := by
    intro x X hX
    have h1 : b ∉ X.succs := by
      intro hin
      obtain ⟨Z, hZ⟩ := h.saneF.coherent.targets x X hX b hin
      rw [hFb] at hZ; cases hZ
    have h2 : x ∉ blk.succs := by
      intro hin
      obtain ⟨Z, hZ⟩ := h.saneG.coherent.targets b blk h.block x hin
      rw [h.disj x X hX] at hZ; cases hZ
    rw [mem_succs, not_or] at h1
    unfold fixOther
    rw [if_neg h2, if_neg h2]
    have e1 : redirect b (firstId b) (calleeBase F call X).jumpTo = (calleeBase F call X).jumpTo := redirect_of_ne h1.1
    have e2 : redirect b (firstId b) (calleeBase F call X).fallsTo = (calleeBase F call X).fallsTo := redirect_of_ne h1.2
    rw [e1, e2]
  -- the first half
  set G3 := G2.modify (firstId b) fun x => { x with instrs := x.instrs.dropLast } with hG3
  have g3 : ∀ x, G3.get x = (G2.get x).map fun y => if x = firstId b then { y with instrs := y.instrs.dropLast } else y :=
    get_modify (by intro; rfl)
  have hfs : firstId b ≠ secondId b := firstId_ne_secondId b
  have g3f : G3.get (firstId b) = some { firstHalf k blk with instrs := blk.instrs.take k } := by
    rw [g3, v4, if_neg hfs, if_pos rfl]
    simp only [Option.map_some, if_true, firstHalf]
    congr 2
    rw [dropLast_eq_take, length_take, take_take]
    congr 1
    omega
  set G4 := G3.modify (firstId b) fun x => { x with fallsTo := some s } with hG4
  have m4 : modifySuccessors (firstId b) (secondId b) s G3 = some G4 := by
    unfold modifySuccessors
    rw [g3f]
    simp only [Option.bind_some, firstHalf, hbid]
    rfl
  have g4 : ∀ x, G4.get x = (G3.get x).map fun y => if x = firstId b then { y with fallsTo := some s } else y :=
    get_modify (by intro; rfl)
  set G5 := G4.modify s fun x => { x with comesFrom := x.comesFrom ++ [firstId b] } with hG5
  have g5 : ∀ x, G5.get x = (G4.get x).map fun y => if x = s then { y with comesFrom := y.comesFrom ++ [firstId b] } else y :=
    get_modify (by intro; rfl)
  have hs := hFf s S0 hS0
  have m5 : addComesFrom s (firstId b) G4 = some G5 := by
    unfold addComesFrom
    rw [g4, g3, v4, if_neg hs.2.1, if_neg hs.1, if_neg hs.2.2, u4, hS0]
    rfl
  set G6 := G5.modify (secondId b) fun x => { x with comesFrom := [] } with hG6
  have g6 : ∀ x, G6.get x = (G5.get x).map fun y => if x = secondId b then { y with comesFrom := [] } else y :=
    get_modify (by intro; rfl)
  -- all blocks so far
  have key : ∀ x, G6.get x = if x = secondId b then some { secondHalf k blk with comesFrom := [] }
      else if x = firstId b then some (firstBlock s b k blk)
      else if x = b then none
      else match F.body.get x with
        | some B => some { calleeBase F call B with comesFrom := if x = s then B.comesFrom ++ [firstId b] else B.comesFrom }
        | none => (G.get x).map (fixOther b blk x) := by
    intro x
    rw [g6, g5, g4]
    by_cases h1 : x = secondId b
    · subst h1
      rw [if_pos rfl, g3, v4, if_pos rfl]
      have hss : secondId b ≠ s := Ne.symm hs.2.1
      simp [Ne.symm hfs, hss]
    · rw [if_neg h1]
      by_cases h2 : x = firstId b
      · subst h2
        rw [if_pos rfl, g3f]
        have : firstId b ≠ s := Ne.symm hs.1
        simp only [Option.map_some, if_neg this, if_neg hfs, if_true, firstHalf, firstBlock, hbid]
      · rw [if_neg h2, g3, v4, if_neg h1, if_neg h2]
        by_cases h3 : x = b
        · subst h3
          simp
        · rw [if_neg h3, if_neg h3, u4]
          cases hF : F.body.get x with
          | none =>
            have hxs : x ≠ s := by rintro rfl; rw [hS0] at hF; cases hF
            cases G.get x with
            | none => rfl
            | some X => simp [h1, h2, hxs]
          | some X =>
            simp only [Option.map_some, if_neg h1, if_neg h2]
            rw [hfix x X hF]
            by_cases hxs : x = s
            · simp [hxs, calleeBase, unreturn, renameBlock]
            · simp [hxs, calleeBase, unreturn, renameBlock]
  have hret : ∀ e ∈ F.body.returns, ∃ E, F.body.get e = some E ∧ returned (calleeBase F call E) = some (retOf F call e) ∧
      (retOf F call e).length = call.outs.length := by
    intro e he
    obtain ⟨E, hE, hjt⟩ := (h.exits.returns e).1 he
    obtain ⟨_, i, hi1, hi2, hi3⟩ := h.returns e E hE hjt
    have hr0 : returned E = some i.ins := by unfold returned; rw [hi1]; simp [hi2]
    refine ⟨E, hE, ?_, ?_⟩
    · unfold calleeBase
      rw [returned_unreturn, returned_rename, hr0]
      unfold retOf
      rw [hE, Option.bind_some, hr0]
      rfl
    · unfold retOf
      rw [hE, Option.bind_some, hr0]
      simpa using hi3
  have hs1ex : secondId b ∉ F.body.returns := by
    intro hin
    obtain ⟨E, hE, _⟩ := hret _ hin
    exact (hFf _ E hE).2.1 rfl
  obtain ⟨G7, w1, w2, w3, w4⟩ := connectExits_spec (secondId b) F.body.returns G6 h.exits.once.2 hs1ex (by
      intro S hS e _
      rw [key, if_pos rfl] at hS
      simp only [Option.some.injEq] at hS
      subst hS
      simp) (retOf F call) (by
      intro e he
      obtain ⟨E, hE, hr, _⟩ := hret e he
      have := hFf e E hE
      rw [key, if_neg this.2.1, if_neg this.1, if_neg this.2.2, hE]
      exact hr)
  have key7 : ∀ x, G7.get x = if x = secondId b then some { secondHalf k blk with comesFrom := F.body.returns }
      else if x = firstId b then some (firstBlock s b k blk)
      else if x = b then none
      else match F.body.get x with
        | some B => some { calleeBase F call B with
            jumpTo := if x ∈ F.body.returns then some (secondId b) else B.jumpTo
            comesFrom := if x = s then B.comesFrom ++ [firstId b] else B.comesFrom }
        | none => (G.get x).map (fixOther b blk x) := by
    intro x
    rw [w4, key]
    by_cases h1 : x = secondId b
    · subst h1
      simp [hs1ex]
    · rw [if_neg h1, if_neg h1]
      by_cases h2 : x = firstId b
      · subst h2
        have : firstId b ∉ F.body.returns := by
          intro hin
          obtain ⟨E, hE, _⟩ := hret _ hin
          exact (hFf _ E hE).1 rfl
        simp [this, hfs]
      · rw [if_neg h2, if_neg h2]
        by_cases h3 : x = b
        · subst h3; simp
        · rw [if_neg h3, if_neg h3]
          cases hF : F.body.get x with
          | none =>
            have : x ∉ F.body.returns := by
              intro hin
              obtain ⟨E, hE, _⟩ := hret _ hin
              rw [hF] at hE; cases hE
            cases G.get x with
            | none => rfl
            | some X => simp [this, h1]
          | some X =>
            simp only [Option.map_some, Option.some.injEq, if_neg h1]
            split
            · rfl
            · rfl
  -- the results
  set rets := retsOf F call with hrets
  have hlen : ∀ r ∈ rets, r.length = call.outs.length := by
    intro r hr
    rw [hrets, retsOf, mem_map] at hr
    obtain ⟨e, he, rfl⟩ := hr
    obtain ⟨_, _, _, h3⟩ := hret e he
    exact h3
  obtain ⟨G8, x1, x2, x3, x4⟩ : ∃ G8, bindResults call (secondId b) F.body.returns rets G7 = some G8 ∧ G8.start = G7.start ∧
      G8.blocks.map (·.id) = G7.blocks.map (·.id) ∧ ∀ x, G8.get x = (G7.get x).map fun B => renameBlock (outMap F call)
        (if x = secondId b then { B with instrs := phisOf F call ++ B.instrs, entries := if entriesOf F call = [] then B.entries else entriesOf F call } else B) := by
    unfold bindResults outMap phisOf entriesOf
    rw [← hrets]
    match hr : rets with
    | [] =>
      refine ⟨G7, rfl, rfl, rfl, ?_⟩
      intro x
      cases G7.get x with
      | none => rfl
      | some B => simp [renameBlock_id]
    | [r] =>
      have hl := hlen r (by simp)
      simp only []
      rw [if_pos hl, if_pos (renamesAll_of (h.outsNew r hrets.symm))]
      refine ⟨_, rfl, rfl, ?_, ?_⟩
      · simp only [renameBlockList, map_map]
        apply map_congr_left
        intro y _
        rfl
      · intro x
        rw [get_rename]
        cases G7.get x with
        | none => rfl
        | some B => simp
    | r1 :: r2 :: rs =>
      rw [exitPhis_eq _ _ _ _ (by intro r hr'; have := hlen r hr'; omega)]
      refine ⟨_, rfl, rfl, ids_modify (by intro; rfl), ?_⟩
      intro x
      rw [get_modify (by intro; rfl)]
      have hne : F.body.returns ≠ [] := by
        intro h0
        have h1 : retsOf F call = [] := by rw [retsOf, h0]; rfl
        rw [← hrets] at h1
        cases h1
      cases G7.get x with
      | none => rfl
      | some B =>
        simp only [Option.map_some, hne, if_false, append_nil, Option.some.injEq]
        rw [renameBlock_id]
  obtain ⟨G9, y1, y2, y3, y4⟩ := dropReturns_spec F.body.returns G8 h.exits.once.2 (by
    intro e he
    obtain ⟨E, hE, hr, _⟩ := hret e he
    have := hFf e E hE
    rw [x4, key7, if_neg this.2.1, if_neg this.1, if_neg this.2.2, hE]
    simp only [Option.map_some, Option.bind_some, if_neg this.2.1]
    refine ⟨(retOf F call e).map (outMap F call), ?_⟩
    rw [returned_rename]
    have : ∀ (j : Option String) (cf : List String), returned { calleeBase F call E with jumpTo := j, comesFrom := cf }
      = returned (calleeBase F call E) := fun _ _ => rfl
    rw [this, hr]
    rfl)
  refine ⟨G9, ?_, ?_, ?_, ?_⟩
  · unfold inlineCall
    rw [h.block, Option.bind_some, h.callAt, Option.bind_some, h.start, Option.bind_some]
    have c1 : call.op.toList.isPrefixOf f.toList = true := by rw [h.op, isPrefixOf_iff_prefix]; exact prefix_rfl
    rw [if_pos (by rw [c1, renamesAll_of h.argsNew]; simp [h.arity])]
    have u1' : addAll ((renameBlockList (renameVar (dictOf (F.args.zip call.ins.reverse))) F.body).blocks.map unreturn) G = some G1 := u1
    rw [u1', Option.bind_some, v1, Option.bind_some, ← hG3, m4, Option.bind_some, m5, Option.bind_some, ← hG6, w1, Option.bind_some]
    have x1' : bindResults call (secondId b) F.body.returns (F.body.returns.map (retOf F call)) G7 = some G8 := x1
    simp only [x1', Option.bind_some, y1]
  · rw [y2, x2, w2]
    show G2.start = _
    rw [v2, u2]
  · rw [y3, x3, w3]
    have : G6.blocks.map (·.id) = G2.blocks.map (·.id) :=
      (ids_modify (by intro; rfl)).trans ((ids_modify (by intro; rfl)).trans ((ids_modify (by intro; rfl)).trans (ids_modify (by intro; rfl))))
    rw [this]
    exact v3
  · intro x
    rw [y4, x4, key7]
    by_cases h1 : x = secondId b
    · subst h1
      simp only [if_true, Option.map_some, if_neg hs1ex]
      have : (if entriesOf F call = [] then (secondHalf k blk).entries else entriesOf F call) = entriesOf F call := by
        split
        · rename_i h0; rw [h0]; rfl
        · rfl
      simp only [secondBlock, secondHalf, hbid] at *
      rw [this]
    · rw [if_neg h1, if_neg h1]
      by_cases h2 : x = firstId b
      · subst h2
        have : firstId b ∉ F.body.returns := by
          intro hin
          obtain ⟨E, hE, _⟩ := hret _ hin
          exact (hFf _ E hE).1 rfl
        simp [this, hfs]
      · rw [if_neg h2, if_neg h2]
        by_cases h3 : x = b
        · subst h3; simp
        · rw [if_neg h3, if_neg h3]
          cases hF : F.body.get x with
          | none =>
            have : x ∉ F.body.returns := by
              intro hin
              obtain ⟨E, hE, _⟩ := hret _ hin
              rw [hF] at hE; cases hE
            cases G.get x with
            | none => rfl
            | some X => simp [this, h1]
          | some X =>
            simp only [Option.map_some, Option.some.injEq, if_neg h1]
            by_cases hx : x ∈ F.body.returns
            · simp only [if_pos hx, calleeBlock]
              simp only [renameBlock, map_dropLast]
            · simp only [if_neg hx, calleeBlock]

end Grey.Inline
