/-
The variables of the object and of the program: both machines give the same values to the variables of the object.
-/
import Verif.Lower.Deco
import Verif.Sfs.BuildInv
import Verif.SymExec.Refine
namespace Grey.Lower
open List Grey.Cfg Grey.Inline Grey.Sfs

theorem isConst_literal {x : String} : Cfg.isConst x = true ↔ IsLiteral x := by
  unfold Cfg.isConst IsLiteral
  rw [beq_iff_eq]
  constructor
  · intro h
    refine ⟨x.toList.drop 2, ?_⟩
    conv_lhs => rw [← take_append_drop 2 x.toList, h]
    rfl
  · rintro ⟨l, hl⟩
    rw [hl]; rfl

theorem not_literal {x : String} (h : Cfg.isConst x = false) : ¬ IsLiteral x := by
  intro hl
  rw [isConst_literal.2 hl] at h
  cases h

section
variable {V σ : Type} (I : Interp V σ)

/-- The environments agree on the variables of the object. -/
def EnvRel (e e' : String → V) : Prop := ∀ x, Plain x → e x = I.read e' x

variable {I}

theorem read_var {e : String → V} {x : String} (h : Cfg.isConst x = false) (hb : x ≠ "bottom") : I.read e x = e x := by
  unfold Interp.read
  rw [if_neg (not_literal h), if_neg hb]

theorem rel_zeros : EnvRel I (zeros I) (fun _ => I.num 0) := fun _ _ => rfl

theorem rel_update {e e' : String → V} (h : EnvRel I e e') {v : String} (hv : Cfg.isConst v = false) (hb : v ≠ "bottom") (y : V) :
    EnvRel I (fun u => if u = v then y else e u) (fun u => if u = v then y else e' u) := by
  intro x hx
  by_cases hxv : x = v
  · subst hxv
    rw [read_var hv hb]
    simp
  · simp only [hxv, if_false]
    rw [h x hx]
    exact read_congr (by simp [hxv])

theorem rel_assign {e e' : String → V} (h : EnvRel I e e') : ∀ (vs : List String) (xs : List V), (∀ v ∈ vs, Cfg.isConst v = false ∧ v ≠ "bottom") →
    EnvRel I (Cfg.assign e (vs.zip xs)) (SymExec.assign e' vs xs) := by
  intro vs
  induction vs generalizing e e' with
  | nil => intro xs _; exact h
  | cons v vs ih =>
    intro xs hv
    cases xs with
    | nil => exact h
    | cons y xs =>
      have h1 := hv v mem_cons_self
      exact ih (rel_update h h1.1 h1.2 y) xs fun u hu => hv u (mem_cons_of_mem _ hu)

/-- Assignments to names that the lowering introduces do not matter. -/
theorem rel_other {e e' : String → V} (h : EnvRel I e e') (vs : List String) (xs : List V) (hv : ∀ v ∈ vs, ¬ Plain v) :
    EnvRel I e (SymExec.assign e' vs xs) := by
  intro x hx
  rw [h x hx]
  exact read_congr (SymExec.assign_notin _ _ _ _ fun hm => hv x hm hx).symm

theorem tag_not_plain (t : Nat) : ¬ Plain (toString t) := fun h => h.1 t rfl
theorem out_not_plain (f : String) : ¬ Plain ("out_" ++ f) := fun h => h.2.1 f rfl

theorem assign_snoc {e : String → V} {vs : List String} {xs : List V} (h : vs.length = xs.length) (v : String) (y : V) :
    SymExec.assign e (vs ++ [v]) (xs ++ [y]) = SymExec.assign (SymExec.assign e vs xs) [v] [y] := by
  induction vs generalizing e xs with
  | nil => cases xs with
    | nil => rfl
    | cons _ _ => simp at h
  | cons u vs ih => cases xs with
    | nil => simp at h
    | cons x xs =>
      simp only [cons_append, SymExec.assign]
      exact ih (by simpa using h)

theorem map_rel {e e' : String → V} (h : EnvRel I e e') {l : List String} (hl : ∀ x ∈ l, Plain x) : l.map e = l.map (I.read e') :=
  map_congr_left fun x hx => h x (hl x hx)

/-- What an ordinary instruction is: it neither calls nor returns nor ends the execution, and it has names of the object. -/
structure Ordinary (names : List String) (dec : String → String × Option (List String)) (I : Interp V σ) (i : Instr) : Prop where
  notCall : i.op ∉ names
  notRet : i.op ≠ "functionReturn"
  notHalt : i.op ∉ haltOps
  notTag : (dec i.op).1.map Char.toUpper ≠ "PUSH [TAG]"
  arity : ∀ args w, args.length = i.ins.length → (operation I (dec i.op).1 (dec i.op).2 args w).1.length = i.outs.length
  literal : (dec i.op).1 = "LiteralAssignment" → ∀ x ∈ i.ins, Cfg.isConst x = true
  ins : ∀ x ∈ i.ins, Plain x
  outs : ∀ x ∈ i.outs, Cfg.isConst x = false ∧ x ≠ "bottom"

theorem ins_eq {names : List String} {dec : String → String × Option (List String)} {i : Instr} (hi : Ordinary names dec I i) {e e' : String → V}
    (h : EnvRel I e e') (w : σ) : I.ins (toIns dec i) e' w = operation I (dec i.op).1 (dec i.op).2 (i.ins.map e) w := by
  unfold Interp.ins operation
  by_cases h1 : (dec i.op).1 = "LiteralAssignment"
  · have h1' : (toIns dec i).op = "LiteralAssignment" := h1
    rw [if_pos h1, if_pos h1']
    show (map (fun c => I.num (constNumber c)) (take 1 i.ins), w) = _
    rw [← map_take]
    congr 1
    refine map_congr_left fun x hx => ?_
    have hx' := mem_of_mem_take hx
    rw [h x (hi.ins x hx')]
    unfold Interp.read
    rw [if_pos (isConst_literal.1 (hi.literal h1 x hx'))]
  · have h1' : ¬ (toIns dec i).op = "LiteralAssignment" := h1
    rw [if_neg h1, if_neg h1']
    by_cases h2 : (dec i.op).1 = "push"
    · have h2' : (toIns dec i).op = "push" := h2
      rw [if_pos h2, if_pos h2']; rfl
    · have h2' : ¬ (toIns dec i).op = "push" := h2
      rw [if_neg h2, if_neg h2', map_rel h hi.ins]
      have h3 : (toIns dec i).extra = if (dec i.op).1 ∈ literalArgOps then (dec i.op).2 else none := by
        unfold Ins.extra
        have : ¬ (toIns dec i).name = "PUSH [TAG]" := hi.notTag
        rw [if_neg this]; rfl
      rw [h3]; rfl

theorem step_ordinary {names : List String} {dec : String → String × Option (List String)} {H : Obj} (hfns : ∀ f, f ∈ names ↔ ∃ F, H.fns f = some F)
    {comp : Option String} {C : Component} (hC : H.comp comp = some C) {i : Instr} (hi : Ordinary names dec I i) (base : String → V) (b : String)
    (is : List Instr) (e : String → V) (st : List (Frame V × List String)) (w : σ) :
    step (meaning I dec) base H ⟨⟨comp, b, i :: is, e⟩, st, (w, none)⟩ =
      .goto ⟨⟨comp, b, is, Cfg.assign e (i.outs.zip (operation I (dec i.op).1 (dec i.op).2 (i.ins.map e) w).1)⟩, st,
        ((operation I (dec i.op).1 (dec i.op).2 (i.ins.map e) w).2, none)⟩ := by
  have hn : H.fns i.op = none := by
    cases hF : H.fns i.op with
    | none => rfl
    | some F => exact absurd ((hfns _).2 ⟨F, hF⟩) hi.notCall
  unfold step
  simp only [hC, hn, hi.notRet, if_false]
  unfold operate meaning
  simp only [hi.notHalt, if_false, if_true]
  rw [if_pos (hi.arity _ _ (length_map ..))]

/-- A row of ordinary instructions. -/
theorem gets_code {names : List String} {dec : String → String × Option (List String)} {H : Obj} (hfns : ∀ f, f ∈ names ↔ ∃ F, H.fns f = some F)
    {comp : Option String} {C : Component} (hC : H.comp comp = some C) (base : String → V) (w0 : σ × Option (String × List V)) (b : String)
    (st : List (Frame V × List String)) (rest : List Instr) : ∀ (l : List Instr) (e e' : String → V) (w : σ), EnvRel I e e' →
    (∀ i ∈ l, Ordinary names dec I i) → ∃ e1, EnvRel I e1 (blockRun I (l.map (toIns dec)) e' w).1 ∧
      Gets (run (meaning I dec) base H w0) (some ⟨⟨comp, b, l ++ rest, e⟩, st, (w, none)⟩)
        (some ⟨⟨comp, b, rest, e1⟩, st, ((blockRun I (l.map (toIns dec)) e' w).2, none)⟩) := by
  intro l
  induction l with
  | nil => intro e e' w h _; exact ⟨e, h, .refl _⟩
  | cons i l ih =>
    intro e e' w h hl
    have hi := hl i mem_cons_self
    have hrel : EnvRel I (Cfg.assign e (i.outs.zip (operation I (dec i.op).1 (dec i.op).2 (i.ins.map e) w).1))
        (SymExec.assign e' (toIns dec i).outArgs (I.ins (toIns dec i) e' w).1) := by
      rw [ins_eq hi h]
      exact rel_assign h _ _ hi.outs
    obtain ⟨e1, h1, h2⟩ := ih _ _ (I.ins (toIns dec i) e' w).2 hrel fun j hj => hl j (mem_cons_of_mem _ hj)
    refine ⟨e1, h1, .step ?_ h2⟩
    show (step _ _ _ _).map some = _
    rw [cons_append, step_ordinary hfns hC hi, ← ins_eq hi h]
    rfl

/-- Pushing a tag does not matter for the variables of the object. -/
theorem pushTag_run {dec : String → String × Option (List String)} (hd : dec "PUSH [tag]" = ("PUSH [tag]", none))
    (ht : ∀ t w, (I.op "PUSH [TAG]" (some [t]) [] w).2 = w) (t : Nat) (l : List Ins) {e e' : String → V} (h : EnvRel I e e') (w : σ) :
    ∃ e1', EnvRel I e e1' ∧ blockRun I (toIns dec (pushTag t) :: l) e' w = blockRun I l e1' w := by
  have hop : (toIns dec (pushTag t)).op = "PUSH [tag]" := by show (dec "PUSH [tag]").1 = _; rw [hd]
  have hname : (toIns dec (pushTag t)).name = "PUSH [TAG]" := by unfold Ins.name; rw [hop]; decide +kernel
  have hins : I.ins (toIns dec (pushTag t)) e' w = I.op "PUSH [TAG]" (some [toString t]) [] w := by
    unfold Interp.ins
    rw [if_neg (by rw [hop]; decide), if_neg (by rw [hop]; decide), hname]
    unfold Ins.extra
    rw [if_neg (by rw [hop]; decide), if_pos hname]
    rfl
  refine ⟨SymExec.assign e' [toString t] (I.ins (toIns dec (pushTag t)) e' w).1, rel_other h _ _ (by simpa using tag_not_plain t), ?_⟩
  show blockRun I l (SymExec.assign e' [toString t] _) _ = _
  rw [hins, ht]

end
end Grey.Lower
