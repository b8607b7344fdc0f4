/-
C81: the pass as it is shipped changes nothing; when it succeeds; the additions to the assignments; examples; the rule in the comments of
the code would break phi functions.
-/
import Verif.Consts.Main
namespace Grey.Consts
open List Grey.Cfg Grey.Repair

/-! ### Success -/

theorem mapM_some_of {α β : Type} {f : α → Option β} : ∀ {l : List α}, (∀ x ∈ l, ∃ y, f x = some y) → ∃ r, l.mapM f = some r := by
  intro l
  induction l with
  | nil => intro _; exact ⟨[], rfl⟩
  | cons a l ih =>
    intro h
    obtain ⟨y, hy⟩ := h a (by simp)
    obtain ⟨r, hr⟩ := ih fun x hx => h x (by simp [hx])
    exact ⟨y :: r, by rw [mapM_cons, hy, hr]; rfl⟩

theorem noted_some {G : BlockList} (h : ∀ B ∈ G.blocks, ∀ i ∈ B.instrs, i.op = "PhiFunction" → i.ins.length ≤ B.entries.length) :
    ∃ note, noted G = some note := by
  unfold noted
  obtain ⟨r, hr⟩ := mapM_some_of (l := G.blocks) (f := fun (b : Block) => (b.instrs.mapM (notedInstr b)).map flatten) fun B hB => by
    obtain ⟨r, hr⟩ := mapM_some_of (l := B.instrs) (f := notedInstr B) fun i hi => by
      unfold notedInstr
      obtain ⟨r, hr⟩ := mapM_some_of (l := i.ins.zipIdx) (f := fun p => notedArg B i p.1 p.2) fun p hp => by
        obtain ⟨a, k⟩ := p
        rw [mem_zipIdx_iff_getElem?] at hp
        unfold notedArg
        split
        · split
          · next hphi =>
            have hk : k < B.entries.length := Nat.lt_of_lt_of_le (List.getElem?_eq_some_iff.1 hp).1 (h B hB i hi hphi)
            exact ⟨_, by rw [getElem?_eq_getElem hk]; rfl⟩
          · exact ⟨_, rfl⟩
        · exact ⟨_, rfl⟩
      exact ⟨_, by rw [hr]; rfl⟩
    exact ⟨_, by rw [hr]; rfl⟩
  exact ⟨_, by rw [hr]; rfl⟩

theorem visit_some {note : List (String × String)} {rule : String → Bool} {order : List String → List String} {push : String → String} :
    ∀ (t : DTree String) (d : Dict) (n : Nat) (G : BlockList), (∀ b ∈ nodes t, ∃ B, G.get b = some B) →
    ∃ G' n' A, visit note rule order push t d n G = some (G', n', A) ∧ ∀ b, (∃ B, G.get b = some B) → ∃ B, G'.get b = some B := by
  intro t
  induction t with
  | nil => intro d n G _; exact ⟨G, n, [], rfl, fun _ h => h⟩
  | node b ch rest ih1 ih2 =>
    intro d n G h
    obtain ⟨B, hB⟩ := h b (by simp [nodes])
    have hmod : ∀ D new x, (∃ B, G.get x = some B) → ∃ B, (G.modify b (edit push D new)).get x = some B := by
      rintro D new x ⟨X, hX⟩
      rw [get_modify (fun _ => edit_id), hX]
      exact ⟨_, rfl⟩
    obtain ⟨G1, n1, A1, h1, k1⟩ := ih1 (fresh (toIntroduce note rule order d b) n ++ d) (n + (fresh (toIntroduce note rule order d b) n).length)
      (G.modify b (edit push (fresh (toIntroduce note rule order d b) n ++ d) (fresh (toIntroduce note rule order d b) n)))
      fun x hx => hmod _ _ x (h x (by simp [nodes, hx]))
    obtain ⟨G2, n2, A2, h2, k2⟩ := ih2 d n1 G1 fun x hx => k1 x (hmod _ _ x (h x (by simp [nodes, hx])))
    refine ⟨G2, n2, (fresh (toIntroduce note rule order d b) n).map Prod.swap ++ (A1 ++ A2), ?_, fun x hx => k2 x (k1 x (hmod _ _ x hx))⟩
    simp only [visit, hB, Option.bind_some, h1, h2, Option.map_some]

/-- C81: the pass succeeds if the tree consists of blocks and there is an entry for every argument of a phi function. -/
theorem constants_succeed (rule : (String → Nat) → String → Bool) (order : List String → List String) (push : String → String)
    {t : DTree String} {G : BlockList} (htree : ∀ b ∈ nodes t, ∃ B, G.get b = some B)
    (hphi : ∀ B ∈ G.blocks, ∀ i ∈ B.instrs, i.op = "PhiFunction" → i.ins.length ≤ B.entries.length) :
    ∃ G' A, insertConstants rule order push t G = some (G', A) := by
  obtain ⟨note, hn⟩ := noted_some hphi
  obtain ⟨G', n', A, h, -⟩ := visit_some (note := note) (rule := rule (usesOf G)) (order := order) (push := push) t [] 0 G htree
  exact ⟨G', A, by rw [insertConstants, hn, Option.bind_some, h]; rfl⟩

/-! ### The rule of the code -/

theorem modify_same {G : BlockList} {b : String} {f : Block → Block} (h : ∀ B ∈ G.blocks, f B = B) : G.modify b f = G := by
  unfold BlockList.modify
  have : G.blocks.map (fun x => if x.id = b then f x else x) = G.blocks := by
    conv => rhs; rw [← map_id G.blocks]
    refine map_congr_left fun B hB => ?_
    rw [h B hB]
    simp
  rw [this]

/-- C81: the pass as it is shipped changes nothing. -/
theorem shipped_changes_nothing {order : List String → List String} (hord : ∀ l, (order l).Perm l) (push : String → String)
    {t : DTree String} {G : BlockList} (htree : ∀ b ∈ nodes t, ∃ B, G.get b = some B)
    (hphi : ∀ B ∈ G.blocks, ∀ i ∈ B.instrs, i.op = "PhiFunction" → i.ins.length ≤ B.entries.length) :
    insertConstants shippedRule order push t G = some (G, []) := by
  obtain ⟨note, hn⟩ := noted_some hphi
  have hnil : ∀ d b, toIntroduce note (shippedRule (usesOf G)) order d b = [] := by
    intro d b
    unfold toIntroduce
    have : ∀ l : List String, l.filter (shippedRule (usesOf G)) = [] := fun l => filter_eq_nil_iff.2 fun _ _ => by simp [shippedRule]
    rw [this]
    exact (hord []).eq_nil
  have hvisit : ∀ (t : DTree String) (n : Nat), (∀ b ∈ nodes t, ∃ B, G.get b = some B) →
      visit note (shippedRule (usesOf G)) order push t [] n G = some (G, n, []) := by
    intro t
    induction t with
    | nil => intro n _; rfl
    | node b ch rest ih1 ih2 =>
      intro n h
      obtain ⟨B, hB⟩ := h b (by simp [nodes])
      have hf : fresh [] n = [] := rfl
      have hmod : G.modify b (edit push [] []) = G := modify_same fun B hB => edit_nil (hphi B hB)
      simp only [visit, hnil, hf, hB, Option.bind_some, nil_append, length_nil, Nat.add_zero, hmod,
        ih1 n (fun x hx => h x (by simp [nodes, hx])), ih2 n (fun x hx => h x (by simp [nodes, hx])), Option.map_some, map_nil]
  rw [insertConstants, hn, Option.bind_some, hvisit t 0 htree]
  rfl

/-- C81: the assignments added to the block list are those of `c0`, `c1`, ..., each one assigned the constant by an operation of the block
in which it is introduced. -/
theorem assignments_are_pushes {rule : (String → Nat) → String → Bool} {order : List String → List String} {push : String → String}
    {t : DTree String} {G G' : BlockList} {A : Dict} {s : String} (hord : ∀ l, (order l).Perm l) (hfit : Fits G s t)
    (hop : ∀ c, push c ≠ "PhiFunction") (hpass : insertConstants rule order push t G = some (G', A)) :
    A.map Prod.fst = (range A.length).map (fun n => "c" ++ toString n) ∧
    ∀ x c, (x, c) ∈ A → rule (usesOf G) c = true ∧
      ∃ b B', Needed G b c ∧ G'.get b = some B' ∧ (⟨push c, [], [x]⟩ : Instr) ∈ B'.instrs := by
  obtain ⟨D, new, hget, -, hmine, hnames, hall⟩ := pass_done hord hfit hpass
  refine ⟨hnames, fun x c hxc => ?_⟩
  obtain ⟨b, B, hB, hb⟩ := hall _ hxc
  obtain ⟨-, h2, h3, -⟩ := hmine b _ hb
  refine ⟨h3, b, edit push (D b) (new b) B, h2, by rw [hget, hB]; rfl, mem_map.2 ⟨⟨push c, [], [x]⟩, ?_, ?_⟩⟩
  · rw [hfit.phisFirst B (get_mem hB), insertPushes_eq push (new b) _ _ (fun i hi => (mem_filter.1 hi).2)
      (fun i hi => by simpa using (mem_filter.1 hi).2)]
    exact mem_append_left _ (mem_append_right _ (mem_map.2 ⟨(c, x), mem_reverse.2 hb, rfl⟩))
  · unfold replaceArgs
    rw [if_neg (hop c)]
    split <;> rfl

/-! ### Examples -/

/-- The operation that pushes a literal, in the examples. -/
def exPush (c : String) : String := "push " ++ c

/-- A branch, with the constant in three places: the first block, and a phi function of the last block (for the way from `P`), which also
uses another constant. -/
def exGraph : BlockList :=
  { blocks := [
      { id := "S", instrs := [⟨"mstore", ["0x123456", "0x01"], []⟩, ⟨"sload", ["0x123456"], ["k"]⟩], jumpType := "conditional",
        jumpTo := some "Q", fallsTo := some "P", cond := some "k" },
      { id := "P", instrs := [], jumpType := "unconditional", jumpTo := some "J", comesFrom := ["S"] },
      { id := "Q", instrs := [⟨"add", ["k", "0x123456"], ["y"]⟩], jumpType := "unconditional", jumpTo := some "J", comesFrom := ["S"] },
      { id := "J", instrs := [⟨"PhiFunction", ["0x123456", "y"], ["x"]⟩, ⟨"sstore", ["0x02", "x"], []⟩], jumpType := "mainExit",
        comesFrom := ["P", "Q"], entries := ["P", "Q"] }],
    start := some "S" }

/-- The dominance tree of the examples. -/
def exDom : DTree String := .node "S" (.node "P" .nil (.node "Q" .nil (.node "J" .nil .nil))) .nil

/-- The constant gets a variable in the first block, which is used in the others. -/
def exGraphAfter : BlockList :=
  { blocks := [
      { id := "S", instrs := [⟨"push 0x123456", [], ["c0"]⟩, ⟨"mstore", ["c0", "0x01"], []⟩, ⟨"sload", ["c0"], ["k"]⟩], jumpType := "conditional",
        jumpTo := some "Q", fallsTo := some "P", cond := some "k" },
      { id := "P", instrs := [], jumpType := "unconditional", jumpTo := some "J", comesFrom := ["S"] },
      { id := "Q", instrs := [⟨"add", ["k", "c0"], ["y"]⟩], jumpType := "unconditional", jumpTo := some "J", comesFrom := ["S"] },
      { id := "J", instrs := [⟨"PhiFunction", ["c0", "y"], ["x"]⟩, ⟨"sstore", ["0x02", "x"], []⟩], jumpType := "mainExit",
        comesFrom := ["P", "Q"], entries := ["P", "Q"] }],
    start := some "S" }

theorem exGraph_pass : insertConstants writtenRule id exPush exDom exGraph = some (exGraphAfter, [("c0", "0x123456")]) := by decide +kernel

theorem walk_start {G : BlockList} {s b : String} {l : List String} (h : Walk G s b l) (hb : b ≠ s) : s ∈ l := by
  induction h with
  | here => exact absurd rfl hb
  | @step p q l _ _ ih =>
    by_cases e : p = s
    · simp [e]
    · exact mem_cons_of_mem _ (ih e)

theorem exDom_above {G : BlockList} {a b : String} (h : Above exDom a b) : Dominates G "S" a b := by
  have ha : a = "S" ∧ b ≠ "S" := by
    cases h with
    | root h => exact ⟨rfl, by rintro rfl; revert h; decide⟩
    | child h =>
      cases h with
      | root h => cases h
      | child h => cases h
      | sibling h =>
        cases h with
        | root h => cases h
        | child h => cases h
        | sibling h =>
          cases h with
          | root h => cases h
          | child h => cases h
          | sibling h => cases h
    | sibling h => cases h
  obtain ⟨rfl, hb⟩ := ha
  exact ⟨fun e => hb e.symm, fun l hl => walk_start hl hb⟩

theorem not_numbered {x : String} (h : (x.toList.head? == some 'c') = false) : ¬ Numbered x := by
  rintro ⟨n, rfl⟩
  simp at h

theorem exGraph_fits : Fits exGraph "S" exDom where
  phisFirst := by decide +kernel
  phiArgs := by decide +kernel
  unused := by
    intro B hB
    have h : (∀ i ∈ B.instrs, ∀ x ∈ i.ins ++ i.outs, (x.toList.head? == some 'c') = false) ∧
        ∀ x ∈ B.cond.toList, (x.toList.head? == some 'c') = false := by
      revert B
      decide +kernel
    exact ⟨fun i hi x hx => not_numbered (h.1 i hi x hx), fun x hx => not_numbered (h.2 x (by simp [hx]))⟩
  consts := by decide +kernel
  tree := ⟨by decide +kernel, fun _ _ => exDom_above⟩

/-- The hypotheses of the theorem are met: the constant of the phi function gets its variable in another block. -/
example {V W : Type} (sem : Sem V W) (st : St V W) (hpush : ∀ c w, isConst c = true → sem.op (exPush c) [] w = ([st.env c], w, true)) :
    AgreeOnBehaviour (stepBlock sem exGraph) (stepBlock sem exGraphAfter) (init "S" st) (init "S" st) := by
  refine constants_keep_behaviour (order := id) (fun _ => .refl _) exGraph_fits ?_ exGraph_pass sem st hpush ?_
  · intro b B hB i hi hphi a ha hneed
    have hJ : B.id = "J" ∧ (a = "0x123456" ∨ a = "y") := by
      have hall : ∀ B ∈ exGraph.blocks, ∀ i ∈ B.instrs, i.op = "PhiFunction" → ∀ a ∈ i.ins, B.id = "J" ∧ (a = "0x123456" ∨ a = "y") := by
        decide +kernel
      exact hall B (get_mem hB) i hi hphi a ha
    have hb : b = "J" := (get_id hB).symm.trans hJ.1
    subst hb
    exfalso
    obtain ⟨note, hn⟩ : ∃ note, noted exGraph = some note := Option.isSome_iff_exists.1 (by decide +kernel)
    have hin := (noted_iff hn "J" a).2 hneed
    have : ∀ note, noted exGraph = some note → ("J", "0x123456") ∉ note ∧ ("J", "y") ∉ note := by
      intro note h
      have e : noted exGraph = some [("S", "0x123456"), ("S", "0x01"), ("S", "0x123456"), ("Q", "0x123456"), ("P", "0x123456"), ("J", "0x02")] := by
        decide +kernel
      rw [e] at h
      injection h with h
      subst h
      decide
    rcases hJ.2 with rfl | rfl
    · exact (this note hn).1 hin
    · exact (this note hn).2 hin
  · intro c h
    have := congrArg (fun x : String => x.toList.head?) h
    simp [exPush] at this

example : insertConstants shippedRule id exPush exDom exGraph = some (exGraph, []) :=
  shipped_changes_nothing (fun _ => .refl _) exPush (by
    intro b hb
    exact Option.isSome_iff_exists.1 (by revert b; decide +kernel)) (by decide +kernel)

/-! ### What would go wrong -/

/-- The last block uses the constant itself, too. -/
def badGraph : BlockList :=
  { blocks := [
      { id := "S", instrs := [⟨"sload", ["0x01"], ["k"]⟩], jumpType := "conditional", jumpTo := some "Q", fallsTo := some "P", cond := some "k" },
      { id := "P", instrs := [], jumpType := "unconditional", jumpTo := some "J", comesFrom := ["S"] },
      { id := "Q", instrs := [⟨"sload", ["0x02"], ["y"]⟩], jumpType := "unconditional", jumpTo := some "J", comesFrom := ["S"] },
      { id := "J", instrs := [⟨"PhiFunction", ["0x123456", "y"], ["x"]⟩, ⟨"mstore", ["0x123456", "0x123456"], []⟩], jumpType := "mainExit",
        comesFrom := ["P", "Q"], entries := ["P", "Q"] }],
    start := some "S" }

def badGraphAfter : BlockList :=
  { blocks := [
      { id := "S", instrs := [⟨"sload", ["0x01"], ["k"]⟩], jumpType := "conditional", jumpTo := some "Q", fallsTo := some "P", cond := some "k" },
      { id := "P", instrs := [⟨"push 0x123456", [], ["c0"]⟩], jumpType := "unconditional", jumpTo := some "J", comesFrom := ["S"] },
      { id := "Q", instrs := [⟨"sload", ["0x02"], ["y"]⟩], jumpType := "unconditional", jumpTo := some "J", comesFrom := ["S"] },
      { id := "J", instrs := [⟨"PhiFunction", ["c1", "y"], ["x"]⟩, ⟨"push 0x123456", [], ["c1"]⟩, ⟨"mstore", ["c1", "c1"], []⟩], jumpType := "mainExit",
        comesFrom := ["P", "Q"], entries := ["P", "Q"] }],
    start := some "S" }

/-- Constants have the value 7, variables start with 0, loading gives 0. -/
def exSem : Sem Nat Unit where
  op o _ w := (if o = "push 0x123456" then [7] else if o = "sload" then [0] else [], w, true)
  truth v := v != 0

def exSt : St Nat Unit := ⟨fun x => if x = "0x123456" then 7 else 0, ()⟩

/-- At most `k` blocks. -/
def outcome (f : Config Nat Unit → Out (Config Nat Unit) (St Nat Unit)) : Nat → Config Nat Unit → Option (St Nat Unit)
  | 0, _ => none
  | k + 1, c => match f c with
    | .halt s => some s
    | .goto d => outcome f k d
    | .stuck => none

theorem outcome_ends {f : Config Nat Unit → Out (Config Nat Unit) (St Nat Unit)} {s : St Nat Unit} : ∀ {k : Nat} {c : Config Nat Unit},
    outcome f k c = some s → Ends f c s ∧ ∀ s', Ends f c s' → s' = s := by
  intro k
  induction k with
  | zero => intro c h; cases h
  | succ k ih =>
    intro c h
    rw [outcome] at h
    split at h
    · next e =>
      injection h with h
      subst h
      refine ⟨.now e, fun s' hs => ?_⟩
      cases hs with
      | now e' => rw [e] at e'; injection e' with e'; exact e'.symm
      | later e' => rw [e] at e'; cases e'
    · next e =>
      obtain ⟨h1, h2⟩ := ih h
      refine ⟨.later e h1, fun s' hs => ?_⟩
      cases hs with
      | now e' => rw [e] at e'; cases e'
      | later e' he => rw [e] at e'; injection e' with e'; subst e'; exact h2 s' he
    · cases h

/-- With the rule in the comments of the code, the phi function of the last block would read a variable that is assigned only after it. -/
theorem written_rule_breaks_phi : insertConstants writtenRule id exPush exDom badGraph = some (badGraphAfter, [("c0", "0x123456"), ("c1", "0x123456")]) ∧
    ¬ AgreeOnBehaviour (stepBlock exSem badGraph) (stepBlock exSem badGraphAfter) (init "S" exSt) (init "S" exSt) := by
  refine ⟨by decide +kernel, fun h => ?_⟩
  have h1 : (outcome (stepBlock exSem badGraph) 5 (init "S" exSt)).map (fun s => s.env "x") = some 7 := by decide +kernel
  have h2 : (outcome (stepBlock exSem badGraphAfter) 5 (init "S" exSt)).map (fun s => s.env "x") = some 0 := by decide +kernel
  obtain ⟨s, hs, e⟩ := Option.map_eq_some_iff.1 h1
  obtain ⟨s', hs', e'⟩ := Option.map_eq_some_iff.1 h2
  obtain ⟨u, hu, ha⟩ := h.1 s (outcome_ends hs).1
  have := (outcome_ends hs').2 u hu
  subst this
  have := ha.2 "x" (not_numbered (by decide +kernel))
  rw [e, e'] at this
  cases this

/-- A phi function with more arguments than entries loses arguments, even with the rule of the code. -/
theorem short_entries_lose_arguments :
    insertConstants shippedRule id exPush (.node "J" .nil .nil)
      { blocks := [{ id := "J", instrs := [⟨"PhiFunction", ["a", "b"], ["x"]⟩], jumpType := "mainExit", entries := ["P"] }], start := some "J" } =
    some ({ blocks := [{ id := "J", instrs := [⟨"PhiFunction", ["a"], ["x"]⟩], jumpType := "mainExit", entries := ["P"] }], start := some "J" }, []) := by
  decide +kernel

end Grey.Consts
