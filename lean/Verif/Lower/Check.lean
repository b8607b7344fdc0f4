/-
Deciding that concrete objects can be lowered, and examples for C61 and C62.
-/
import Verif.Lower.Theorem
import Verif.Prep.Example
namespace Grey.Lower
open List Grey.Cfg Grey.Inline Grey.Prep Grey.Sfs

/-- Names that do not begin with a digit or `out_` are plain, and `bottom` is not; constants `0x…` are plain as well. -/
def plainB (x : String) : Bool :=
  (match x.toList with
   | [] => true
   | '0' :: 'x' :: _ => true
   | c :: _ => !c.isDigit) && !("out_".toList.isPrefixOf x.toList) && x != "bottom"

theorem plain_of_check {x : String} (h : plainB x = true) : Plain x := by
  unfold plainB at h
  simp only [Bool.and_eq_true, Bool.not_eq_true', bne_iff_ne] at h
  obtain ⟨⟨h1, h2⟩, h3⟩ := h
  refine ⟨?_, ?_, h3⟩
  · rintro n rfl
    have hd : ∀ c ∈ (toString n).toList, c.isDigit = true := by
      intro c hc
      exact Nat.isDigit_of_mem_toDigits (b := 10) (n := n) (by omega) (by omega) (by simpa using hc)
    have hne : (toString n).toList ≠ [] := by simp [Nat.toDigits_ne_nil]
    generalize hl : (toString n).toList = l at h1 hd hne
    split at h1
    · exact hne rfl
    · exact absurd (hd 'x' (by simp)) (by decide)
    · rename_i c l' _
      rw [hd c (by simp)] at h1
      cases h1
  · rintro f rfl
    have : "out_".toList.isPrefixOf ("out_" ++ f).toList = true := by
      rw [isPrefixOf_iff_prefix, String.toList_append]
      exact prefix_append _ _
    rw [this] at h2
    cases h2

def returnsB (F : Component) : Bool := F.body.blocks.any fun X => X.jumpType == "FunctionReturn"

def kindB (fns : List (String × Component)) (main : Bool) (X : Block) : Bool :=
  (X.jumpType == "unconditional" && X.jumpTo.isSome && X.fallsTo.isNone) ||
  (X.jumpType == "conditional" && X.jumpTo.isSome && X.fallsTo.isSome && X.cond.isSome) ||
  (X.jumpType == "FunctionReturn" && !main && X.jumpTo.isNone && X.fallsTo.isNone && X.instrs.getLast?.any fun i => i.op == "functionReturn") ||
  (decide (X.jumpType ∈ ["terminal", "mainExit"]) && X.jumpTo.isNone && X.fallsTo.isNone) ||
  (X.jumpType == "sub_block" && X.jumpTo.isNone && X.fallsTo.isSome && X.instrs.getLast?.any fun i => (fns.lookup i.op).isSome)

theorem kind_of_check {main0 : BlockList} {fns : List (String × Component)} {main : Bool} {X : Block} (h : kindB fns main X = true) :
    KindOk (Obj.ofList main0 fns) main X := by
  unfold kindB at h
  simp only [Bool.or_eq_true, Bool.and_eq_true, beq_iff_eq, Bool.not_eq_true', Option.isNone_iff_eq_none, Option.isSome_iff_exists, decide_eq_true_eq,
    Option.any_eq_true] at h
  rcases h with (((⟨⟨h1, h2⟩, h3⟩ | ⟨⟨⟨h1, h2⟩, h3⟩, h4⟩) | ⟨⟨⟨⟨h1, h2⟩, h3⟩, h4⟩, i, h5, h6⟩) | ⟨⟨h1, h2⟩, h3⟩) | ⟨⟨⟨h1, h2⟩, h3⟩, i, h4, F, h5⟩
  · exact Or.inl ⟨h1, h2, h3⟩
  · exact Or.inr (Or.inl ⟨h1, h2, h3, h4⟩)
  · exact Or.inr (Or.inr (Or.inl ⟨h1, h2, h3, h4, i, h5, h6⟩))
  · exact Or.inr (Or.inr (Or.inr (Or.inl ⟨h1, h2, h3⟩)))
  · exact Or.inr (Or.inr (Or.inr (Or.inr ⟨h1, h2, h3, i, F, h4, h5⟩)))

def isLast (X : Block) (k : Nat) : Bool := decide (k + 1 = X.instrs.length)

def blockB (fns : List (String × Component)) (X : Block) : Bool :=
  decide (X.instrs = phis X ++ code X) &&
  ((phis X).all fun i => decide (i.ins.length = X.entries.length) && decide (i.outs.length = 1)) &&
  decide ((phis X).flatMap (·.outs)).Nodup &&
  ((phis X).isEmpty || X.comesFrom.all fun p => decide (p ∈ X.entries)) &&
  (X.instrs.zipIdx.all fun q => q.1.op != "functionReturn" || (isLast X q.2 && X.jumpType == "FunctionReturn")) &&
  (X.instrs.zipIdx.all fun q => decide (q.1.op ∉ haltOps) || (isLast X q.2 && X.jumpTo.isNone && X.fallsTo.isNone)) &&
  (X.instrs.zipIdx.all fun q => (fns.lookup q.1.op).all fun F => (!returnsB F) == (isLast X q.2 && X.jumpTo.isNone && X.fallsTo.isNone)) &&
  (X.instrs.all fun i => decide (i.op ∉ ["JUMP", "JUMPI", "PUSH [tag]", "invalid"])) &&
  (X.instrs.all fun i => (i.ins ++ i.outs).all plainB && i.outs.all fun x => !Cfg.isConst x) &&
  X.cond.all plainB

theorem block_of_check {main : BlockList} {fns : List (String × Component)} (hids : ∀ p ∈ fns, (p.2.body.blocks.map (·.id)).Nodup) {X : Block}
    (h : blockB fns X = true) : BlockOk (Obj.ofList main fns) X := by
  unfold blockB at h
  simp only [Bool.and_eq_true, all_eq_true, decide_eq_true_eq, Bool.or_eq_true, List.isEmpty_iff, bne_iff_ne, beq_iff_eq, Bool.not_eq_true',
    Option.isNone_iff_eq_none, isLast] at h
  obtain ⟨⟨⟨⟨⟨⟨⟨⟨⟨h1, h2⟩, h3⟩, h4⟩, h5⟩, h6⟩, h7⟩, h8⟩, h9⟩, h10⟩ := h
  have at_ : ∀ {l i l'}, X.instrs = l ++ i :: l' → (i, l.length) ∈ X.instrs.zipIdx ∧ (l' = [] ↔ l.length + 1 = X.instrs.length) := by
    intro l i l' hl
    refine ⟨mem_zipIdx_iff_getElem?.2 (by rw [hl]; simp), ?_⟩
    rw [hl, length_append, length_cons, ← length_eq_zero_iff]
    omega
  have hret : ∀ f F, (Obj.ofList main fns).fns f = some F → (returnsB F = true ↔ Returns F) := by
    intro f F hF
    have hmem : (f, F) ∈ fns := by
      have hF' : fns.lookup f = some F := hF
      rw [List.lookup_eq_some_iff] at hF'
      obtain ⟨l1, l2, rfl, _⟩ := hF'
      simp
    unfold returnsB Returns
    simp only [any_eq_true, beq_iff_eq]
    constructor
    · rintro ⟨Y, hY, hty⟩; exact ⟨Y.id, Y, get_of_mem (hids _ hmem) hY, hty⟩
    · rintro ⟨x, Y, hY, hty⟩; exact ⟨Y, get_mem hY, hty⟩
  refine ⟨h1, ?_, h3, ?_, ?_, ?_, ?_, h8, ?_, ?_, ?_⟩
  · intro i hi
    exact ⟨(h2 i hi).1, length_eq_one_iff.1 (h2 i hi).2⟩
  · intro hne
    rcases h4 with h | h
    · exact absurd h hne
    · exact h
  · intro l i l' hl hi
    obtain ⟨e1, e2⟩ := at_ hl
    rcases h5 _ e1 with h | h
    · exact absurd hi h
    · exact ⟨e2.2 h.1, h.2⟩
  · intro l i l' hl hi
    obtain ⟨e1, e2⟩ := at_ hl
    rcases h6 _ e1 with h | h
    · exact absurd hi h
    · exact ⟨e2.2 h.1.1, h.1.2, h.2⟩
  · intro l i l' F hl hF
    obtain ⟨e1, e2⟩ := at_ hl
    have := h7 _ e1
    rw [show fns.lookup i.op = some F from hF] at this
    simp only [Option.all_some, beq_iff_eq] at this
    rw [e2, ← hret _ F hF, Bool.not_eq_true, ← Bool.not_eq_true', this]
    simp [and_assoc]
  · intro i hi x hx
    exact plain_of_check ((h9 i hi).1 x hx)
  · intro x hx
    rw [hx] at h10
    exact plain_of_check h10
  · intro i hi x hx
    exact (h9 i hi).2 x hx

/-- A decision procedure for `Lowerable`. -/
def lowerB (main : BlockList) (fns : List (String × Component)) : Bool :=
  decide (fns.map Prod.fst).Nodup &&
  ((compsOf main fns).all fun p => saneB p.2.body && namesOwnB p.2 &&
    (p.2.body.blocks.all fun X => decide (X.id ∉ X.succs) && blockB fns X && kindB fns p.1.isNone X) &&
    decide (p.2.body.terminals = (p.2.body.blocks.filter fun X => exitType X.jumpType).map (·.id)) &&
    decide (p.2.body.returns = (p.2.body.blocks.filter fun X => X.jumpType == "FunctionReturn").map (·.id)) &&
    (match p.2.body.start with
     | none => true
     | some s => (p.2.body.get s).all fun S => (phis S).isEmpty) &&
    p.2.args.all fun x => plainB x && !Cfg.isConst x) &&
  ((compsOf main fns).all fun p => (compsOf main fns).all fun q => p.1 == q.1 || namesB p.2 q.2) &&
  (fns.all fun p => decide (p.1 ∉ ["PhiFunction", "functionReturn", "JUMP", "JUMPI", "PUSH [tag]"] ++ haltOps))

theorem lowerable_of_check {main : BlockList} {fns : List (String × Component)} (h : lowerB main fns = true) :
    Lowerable (fns.map Prod.fst) (Obj.ofList main fns) := by
  unfold lowerB at h
  simp only [Bool.and_eq_true, all_eq_true, decide_eq_true_eq, Bool.or_eq_true, beq_iff_eq, Bool.not_eq_true'] at h
  obtain ⟨⟨⟨h1, h2⟩, h3⟩, h4⟩ := h
  have hsane : ∀ p ∈ compsOf main fns, Sane p.2.body := fun p hp => sane_of_check (h2 p hp).1.1.1.1.1.1
  have one : ∀ {c C D}, (Obj.ofList main fns).comp c = some C → (Obj.ofList main fns).comp c = some D → C = D := by
    intro c C D hC hD
    rw [hC] at hD
    exact Option.some.inj hD
  refine ⟨h1, fun f => mem_fnames, fun c C hC => hsane _ (mem_compsOf hC), ?_, ?_, ?_, ?_, ?_, ?_, ?_⟩
  · intro c C hC x X hX
    have := ((h2 _ (mem_compsOf hC)).1.1.1.1.2 X (get_mem hX)).1.1
    rwa [get_id hX] at this
  · intro c C hC
    obtain ⟨⟨⟨⟨⟨_, _⟩, e1⟩, e2⟩, _⟩, _⟩ := h2 _ (mem_compsOf hC)
    have hs := hsane _ (mem_compsOf hC)
    have mem_exits : ∀ (p : Block → Bool) x, x ∈ (C.body.blocks.filter p).map (·.id) ↔ ∃ X, C.body.get x = some X ∧ p X = true := by
      intro p x
      rw [mem_map]
      constructor
      · rintro ⟨X, hX, rfl⟩
        exact ⟨X, get_of_mem hs.coherent.ids (mem_filter.1 hX).1, (mem_filter.1 hX).2⟩
      · rintro ⟨X, hX, hp⟩
        exact ⟨X, mem_filter.2 ⟨get_mem hX, hp⟩, get_id hX⟩
    have nod : ∀ p : Block → Bool, ((C.body.blocks.filter p).map (·.id)).Nodup := fun p =>
      hs.coherent.ids.sublist ((filter_sublist (p := p)).map _)
    refine ⟨?_, ?_, ?_⟩
    · intro x
      rw [e1, mem_exits]
      simp only [exitType, Bool.or_eq_true, beq_iff_eq, or_assoc]
    · intro x
      rw [e2, mem_exits]
      simp only [beq_iff_eq]
    · rw [e1, e2]; exact ⟨nod _, nod _⟩
  · intro c C hC s S hs hS
    have := (h2 _ (mem_compsOf hC)).1.2
    rw [show (c, C).2.body.start = some s from hs] at this
    simp only at this
    rw [show C.body.get s = some S from hS] at this
    simpa using this
  · intro c C hC x X hX
    have := (h2 _ (mem_compsOf hC)).1.1.1.1.2 X (get_mem hX)
    refine ⟨block_of_check ?_ this.1.2, kind_of_check this.2⟩
    intro p hp
    exact (hsane (some p.1, p.2) (mem_cons_of_mem _ (mem_map.2 ⟨p, hp, rfl⟩))).coherent.ids
  · intro f F hF x hx
    have := (h2 _ (mem_compsOf (c := some f) hF)).2 x hx
    exact ⟨plain_of_check this.1, this.2⟩
  · intro c d C D hC hD x y X Y hX hY w hw e
    have hpre : (X.id.toList.isPrefixOf Y.id.toList && halvesB (Y.id.toList.drop X.id.toList.length)) = true := by
      rw [get_id hX, get_id hY, e, Bool.and_eq_true]
      refine ⟨by rw [isPrefixOf_iff_prefix]; exact prefix_append _ _, ?_⟩
      rw [drop_left']
      · exact halves_of_check hw
      · rfl
    rcases h3 _ (mem_compsOf hC) _ (mem_compsOf hD) with h | h
    · have h' : c = d := h
      subst h'
      obtain rfl := one hC hD
      have := (h2 _ (mem_compsOf hC)).1.1.1.1.1.2
      unfold namesOwnB at this
      simp only [all_eq_true] at this
      have := this X (get_mem hX) Y (get_mem hY)
      rw [hpre] at this
      simp only [Bool.not_true, Bool.false_or, beq_iff_eq] at this
      rw [get_id hX, get_id hY] at this
      subst this
      exact ⟨by simpa using e, rfl⟩
    · unfold namesB at h
      simp only [all_eq_true] at h
      have := h X (get_mem hX) Y (get_mem hY)
      rw [hpre] at this
      cases this
  · intro f hf
    obtain ⟨p, hp, rfl⟩ := mem_map.1 hf
    exact h4 p hp

/-! ### An object that is lowered -/

def exMain : BlockList :=
  { start := some "A0", terminals := ["A3"], returns := []
    blocks := [
      { id := "A0", jumpType := "unconditional", instrs := [⟨"calldataload", ["0x00"], ["v0"]⟩], jumpTo := some "A1" },
      { id := "A1", jumpType := "conditional", instrs := [⟨"PhiFunction", ["v0", "v4"], ["v1"]⟩, ⟨"f", ["v1"], ["v2"]⟩, ⟨"lt", ["0x10", "v2"], ["v3"]⟩],
        jumpTo := some "A3", fallsTo := some "A2", cond := some "v3", comesFrom := ["A0", "A2"], entries := ["A0", "A2"] },
      { id := "A2", jumpType := "sub_block", instrs := [⟨"f", ["v2"], ["v5"]⟩, ⟨"f", ["v5"], ["v4"]⟩], fallsTo := some "A1", comesFrom := ["A1"] },
      { id := "A3", jumpType := "mainExit", instrs := [⟨"sstore", ["v1", "v2"], []⟩, ⟨"g", ["v2"], []⟩], comesFrom := ["A1"] }] }

def exF : Component :=
  { args := ["u0"]
    body := { start := some "F0", terminals := ["F0"], returns := ["F0"]
              blocks := [{ id := "F0", jumpType := "FunctionReturn", instrs := [⟨"add", ["u0", "0x01"], ["u1"]⟩, ⟨"functionReturn", ["u1"], []⟩] }] } }

def exG : Component :=
  { args := ["w0"]
    body := { start := some "G0", terminals := ["G0"], returns := []
              blocks := [{ id := "G0", jumpType := "terminal", instrs := [⟨"f", ["w0"], ["w1"]⟩, ⟨"revert", ["0x00", "w1"], []⟩] }] } }

def exFns : List (String × Component) := [("f", exF), ("g", exG)]
def exObj : Obj := Obj.ofList exMain exFns

theorem exObj_lowerable : Lowerable ["f", "g"] exObj := lowerable_of_check (main := exMain) (fns := exFns) (by decide +kernel)

/-- Operations on numbers; the world is a list of what has been stored. -/
def exInterp : Interp Int (List Int) where
  num n := n
  op o _ args w :=
    if o = "SSTORE" then ([], w ++ args)
    else if o = "ADD" then ([args.sum], w)
    else if o = "LT" then ([if args.getD 0 0 < args.getD 1 0 then 1 else 0], w)
    else ([7], w)

theorem exObj_ops : OpsOk ["f", "g"] (fun o => (o, none)) exInterp exObj := by
  refine ⟨fun o _ => rfl, ?_, fun t w => rfl⟩
  intro c C x X i hC hX hi hop
  have hall : ((compsOf exMain exFns).all fun p => p.2.body.blocks.all fun Y => (code Y).all fun j =>
      decide (j.op ∈ ["functionReturn"] ++ haltOps ++ ["f", "g"]) || decide ((j.op = "calldataload" ∧ j.outs.length = 1) ∨ (j.op = "lt" ∧ j.outs.length = 1) ∨
        (j.op = "add" ∧ j.outs.length = 1) ∨ (j.op = "sstore" ∧ j.outs.length = 0))) = true := by decide +kernel
  simp only [all_eq_true, Bool.or_eq_true, decide_eq_true_eq] at hall
  have h := (hall _ (mem_compsOf hC) X (get_mem hX) i hi).resolve_left hop
  have hc : ("calldataload".map Char.toUpper) = "CALLDATALOAD" ∧ ("lt".map Char.toUpper) = "LT" ∧ ("add".map Char.toUpper) = "ADD" ∧
      ("sstore".map Char.toUpper) = "SSTORE" := by decide +kernel
  obtain ⟨c1, c2, c3, c4⟩ := hc
  rcases h with ⟨h, ho⟩ | ⟨h, ho⟩ | ⟨h, ho⟩ | ⟨h, ho⟩ <;> simp only [h, ho, operation, c1, c2, c3, c4, exInterp] <;> simp

/-- The hypotheses of `lowering_preserves_program` hold. -/
example (A : Option String → Analysis) : ∃ O' T, lower ["f", "g"] exObj = some (O', T) ∧
    ∀ w, RunsLike exInterp (fun o => (o, none)) (toProg ["f", "g"] (fun o => (o, none)) "main" A O') (entry exInterp "main" O' w) exObj w := by
  obtain ⟨O', T, h1, h2⟩ := lowering_preserves_program exObj_lowerable
  exact ⟨O', T, h1, fun w => h2 _ _ _ _ _ A exObj_ops (by decide +kernel) w⟩

/-- What results: calls are split off, with tags. -/
example : ((lower ["f", "g"] exObj).map fun r => r.1.main.blocks.map fun X => (X.id, X.instrs)) =
    some [("A0", [⟨"calldataload", ["0x00"], ["v0"]⟩, ⟨"PUSH [tag]", [], ["1"]⟩, ⟨"JUMP", ["1"], []⟩]),
      ("A3", [⟨"PUSH [tag]", [], ["4"]⟩, ⟨"sstore", ["v1", "v2"], []⟩, ⟨"g", ["4", "v2"], []⟩]),
      ("A1f", [⟨"PhiFunction", ["v0", "v4"], ["v1"]⟩, ⟨"PUSH [tag]", [], ["3"]⟩, ⟨"PUSH [tag]", [], ["5"]⟩, ⟨"f", ["3", "v1", "5"], ["v2"]⟩]),
      ("A1s", [⟨"lt", ["0x10", "v2"], ["v3"]⟩, ⟨"PUSH [tag]", [], ["2"]⟩, ⟨"JUMPI", ["2", "v3"], []⟩]),
      ("A2f", [⟨"PUSH [tag]", [], ["3"]⟩, ⟨"PUSH [tag]", [], ["6"]⟩, ⟨"f", ["3", "v2", "6"], ["v5"]⟩]),
      ("A2s", [⟨"PUSH [tag]", [], ["1"]⟩, ⟨"PUSH [tag]", [], ["3"]⟩, ⟨"f", ["3", "v5", "1"], ["v4"]⟩])] := by decide +kernel

example : ((lower ["f", "g"] exObj).map fun r => r.2) = some [("A3", 2), ("F0", 3), ("A1f", 1), ("A1s", 5), ("A2s", 6), ("G0f", 4), ("G0s", 7)] := by decide +kernel

end Grey.Lower
