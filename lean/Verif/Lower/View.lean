/-
The blocks of the lowered object: the last instruction, which is split off, and the ones before.
-/
import Verif.Lower.Blocks
import Verif.Lower.Fine
namespace Grey.Lower
open List Grey.Cfg Grey.Inline Grey.Sfs

/-- The split instruction of the lowered block and the instructions before it (without phi functions), and how the block ends, for each kind
of block `X`. -/
inductive View (names : List String) (H : Obj) (T : TagDict) (ret : Option String) (X : Block) :
    Option Instr → List Instr → Program.Exit → Prop
  | stop (hty : X.jumpType ∈ ["terminal", "mainExit"]) (hj : X.jumpTo = none) (hf : X.fallsTo = none) (hc : ∀ i ∈ X.instrs, i.op ∉ names)
      (hq : ∀ i, X.instrs.getLast? = some i → i.op ∉ haltOps ++ names) : View names H T ret X none (code X) .halt
  | halt (l : List Instr) (i : Instr) (hty : X.jumpType ∈ ["terminal", "mainExit"]) (hj : X.jumpTo = none) (hf : X.fallsTo = none)
      (hc : ∀ i ∈ X.instrs, i.op ∉ names) (hl : X.instrs = l ++ [i]) (hi : i.op ∈ haltOps) :
      View names H T ret X (some i) (l.filter fun i => !isPhi i) .halt
  | jump (y : String) (t : Nat) (hty : X.jumpType = "unconditional") (hj : X.jumpTo = some y) (hf : X.fallsTo = none) (ht : tagOf T y = some t)
      (hc : ∀ i ∈ X.instrs, i.op ∉ names) : View names H T ret X (some ⟨"JUMP", [toString t], []⟩) (code X ++ [pushTag t]) .jump
  | branch (y z c : String) (t : Nat) (hty : X.jumpType = "conditional") (hj : X.jumpTo = some y) (hf : X.fallsTo = some z)
      (hcond : X.cond = some c) (ht : tagOf T y = some t) (hc : ∀ i ∈ X.instrs, i.op ∉ names) :
      View names H T ret X (some ⟨"JUMPI", [toString t, c], []⟩) (code X ++ [pushTag t]) .branch
  | ret (o : String) (l : List Instr) (i : Instr) (hty : X.jumpType = "FunctionReturn") (hj : X.jumpTo = none) (hf : X.fallsTo = none)
      (hl : X.instrs = l ++ [i]) (hi : i.op = "functionReturn") (ho : ret = some o) (hc : ∀ i ∈ l, i.op ∉ names) :
      View names H T ret X (some { i with ins := o :: i.ins }) (l.filter fun i => !isPhi i) .ret
  | call (l : List Instr) (i : Instr) (n : String) (ft rt : Nat) (ts : List Nat) (hts : ts = [ft, rt] ∨ ts = [rt, ft]) (hty : X.jumpType = "sub_block")
      (hl : X.instrs = l ++ [i]) (hi : i.op ∈ names) (hc : ∀ j ∈ l, j.op ∉ names) (hj : X.jumpTo = none) (hf : X.fallsTo = some n)
      (hrt : tagOf T n = some rt) (hft : FnTag H T i.op ft) :
      View names H T ret X (some (tagCall ft (some rt) i)) (ts.map pushTag ++ l.filter fun i => !isPhi i) (.call i.op)
  | tail (l : List Instr) (i : Instr) (ft : Nat) (hty : X.jumpType ∈ ["terminal", "mainExit"]) (hl : X.instrs = l ++ [i]) (hi : i.op ∈ names)
      (hc : ∀ j ∈ l, j.op ∉ names) (hj : X.jumpTo = none) (hf : X.fallsTo = none) (hft : FnTag H T i.op ft) :
      View names H T ret X (some (tagCall ft none i)) ([ft].map pushTag ++ l.filter fun i => !isPhi i) (.call i.op)

section
variable {names : List String} {R : Option String → Option String} {T : TagDict} {H : Obj}

theorem not_quiet {X : Block} (hok : PartOk R names X) (hty : X.jumpType ∈ ["terminal", "mainExit"]) (hc : ∀ i ∈ X.instrs, i.op ∉ names) {i : Instr}
    (hi' : i ∈ X.instrs) (h3 : i.op ∉ haltOps) : i.op ∉ names ++ ["JUMP", "JUMPI"] ++ terminalOps := by
  intro hmem
  have h1 := hc i hi'
  have h2 : i.op ≠ "functionReturn" := by
    intro h
    obtain ⟨p, q, hl⟩ := append_of_mem hi'
    rw [(hok.onlyReturns p i q hl h).2] at hty
    simp at hty
  have h4 := hok.ops i hi'
  simp only [haltOps, terminalOps, mem_cons, not_mem_nil, or_false, not_or, mem_append] at h3 h4 hmem
  rcases hmem with (h | h | h) | h | h | h | h | h
  · exact h1 h
  · exact h4.1 h
  · exact h4.2.1 h
  · exact h2 h
  · exact h3.1 h
  · exact h3.2.1 h
  · exact h3.2.2.1 h
  · exact h3.2.2.2.1 h

/-- The lowered block is as the view says. -/
theorem deco_view (hnames : ∀ f ∈ names, f ∉ ["PhiFunction", "functionReturn", "JUMP", "JUMPI", "PUSH [tag]"] ++ haltOps) {ret : Option String}
    {X : Block} (hok : PartOk R names X) {D : List Instr} (hd : Deco names H T ret False X D) :
    ∃ s body e, View names H T ret X s body e ∧ splitInstr names { X with instrs := D } = s ∧
      (if s.isSome then (code { X with instrs := D }).dropLast else code { X with instrs := D }) = body := by
  have callCode : ∀ (ts : List Nat) (rt : Option Nat) (ft : Nat) (l : List Instr) (i : Instr), i.op ∈ names →
      code { X with instrs := afterPhis (ts.map pushTag) (l ++ [tagCall ft rt i]) } = ts.map pushTag ++ l.filter (fun i => !isPhi i) ++ [tagCall ft rt i] := by
    intro ts rt ft l i hi
    have hphi : isPhi (tagCall ft rt i) = false := not_phi rfl (by
      rintro h
      exact hnames _ hi (by rw [show i.op = _ from h]; simp))
    unfold code
    rw [code_afterPhis (by simp [pushTag_not_phi]), code_snoc hphi, append_assoc]
  have callSplit : ∀ (ts : List Nat) (rt : Option Nat) (ft : Nat) (l : List Instr) (i : Instr), i.op ∈ names →
      splitInstr names { X with instrs := afterPhis (ts.map pushTag) (l ++ [tagCall ft rt i]) } = some (tagCall ft rt i) := by
    intro ts rt ft l i hi
    have hphi : isPhi (tagCall ft rt i) = false := not_phi rfl (by
      rintro h
      exact hnames _ hi (by rw [show i.op = _ from h]; simp))
    exact splitInstr_snoc (getLast_afterPhis hphi) (mem_append_left _ (mem_append_left _ hi))
  cases hd with
  | exit hty hj hf hc =>
    have hc := hc.resolve_left id
    by_cases hlast : ∃ l i, X.instrs = l ++ [i] ∧ i.op ∈ haltOps
    · obtain ⟨l, i, hl, hi⟩ := hlast
      have hphi : isPhi i = false := not_phi rfl (by rintro h; rw [h] at hi; simp [haltOps] at hi)
      have hi' : i.op ∈ terminalOps := by
        have := hok.ops i (by rw [hl]; simp)
        simp only [haltOps, terminalOps, mem_cons, not_mem_nil, or_false, not_or] at hi this ⊢
        rcases hi with h | h | h | h | h
        · exact Or.inr (Or.inl h)
        · exact Or.inr (Or.inr (Or.inl h))
        · exact Or.inr (Or.inr (Or.inr (Or.inl h)))
        · exact Or.inr (Or.inr (Or.inr (Or.inr h)))
        · exact absurd h this.2.2.2
      refine ⟨_, _, _, .halt l i hty hj hf hc hl hi, splitInstr_snoc (by simp [hl]) (mem_append_right _ hi'), ?_⟩
      rw [if_pos Option.isSome_some]
      show (X.instrs.filter fun i => !isPhi i).dropLast = _
      rw [hl, code_snoc hphi, dropLast_concat]
    · have hnhalt : ∀ i ∈ X.instrs, i.op ∉ haltOps := by
        intro i hi h
        obtain ⟨p, q, hl⟩ := append_of_mem hi
        have := (hok.ends p i q hl h).1
        subst this
        exact hlast ⟨p, i, hl, h⟩
      refine ⟨_, _, _, .stop hty hj hf hc ?_, splitInstr_none fun i hi => ?_, if_neg (by simp)⟩
      · intro i hi h
        rcases mem_append.1 h with h | h
        · exact hnhalt i (mem_of_getLast? hi) h
        · exact hc i (mem_of_getLast? hi) h
      · exact not_quiet hok hty hc (mem_of_getLast? hi) (hnhalt i (mem_of_getLast? hi))
  | jump y t hty hj hf ht hc =>
    refine ⟨_, _, _, .jump y t hty hj hf ht (hc.resolve_left id), splitInstr_snoc (by simp) (by simp), ?_⟩
    rw [if_pos Option.isSome_some]
    unfold code
    simp [filter_append, pushTag, isPhi]
  | branch y z c t hty hj hf hcond ht hc =>
    refine ⟨_, _, _, .branch y z c t hty hj hf hcond ht (hc.resolve_left id), splitInstr_snoc (by simp) (by simp), ?_⟩
    rw [if_pos Option.isSome_some]
    unfold code
    simp [filter_append, pushTag, isPhi]
  | ret o l i hty hj hf hl hi ho hc =>
    refine ⟨_, _, _, .ret o l i hty hj hf hl hi ho (hc.resolve_left id), splitInstr_snoc (by simp) (by simp [hi, terminalOps]), ?_⟩
    rw [if_pos Option.isSome_some]
    show ((l ++ [{ i with ins := o :: i.ins }]).filter fun i => !isPhi i).dropLast = _
    rw [code_snoc (not_phi (show ({ i with ins := o :: i.ins } : Instr).op = "functionReturn" from hi) (by decide)), dropLast_concat]
  | sub l i n hty hl hi hj hf hraw => exact hraw.elim
  | call l i n ft rt ts hts hty hl hi hn hj hf hrt hft hraw =>
    refine ⟨_, _, _, .call l i n ft rt ts hts hty hl hi hn hj hf hrt hft, callSplit ts _ ft l i hi, ?_⟩
    rw [if_pos Option.isSome_some, callCode ts _ ft l i hi, dropLast_concat]
  | tail l i ft hty hl hi hn hj hf hft hraw =>
    refine ⟨_, _, _, .tail l i ft hty hl hi hn hj hf hft, callSplit [ft] none ft l i hi, ?_⟩
    rw [if_pos Option.isSome_some]
    exact (congrArg dropLast (callCode [ft] none ft l i hi)).trans dropLast_concat

/-- What the instructions before the split instruction are. -/
theorem view_body {ret : Option String} {X : Block} (hok : PartOk R names X) {s : Option Instr} {body : List Instr} {e : Program.Exit}
    (hv : View names H T ret X s body e)
    (hne : ∀ f n ft rt, X.jumpType = "sub_block" → X.fallsTo = some n → tagOf T n = some rt → FnTag H T f ft → ft ≠ rt) :
    ∃ (pre : List Nat) (own : List Instr) (post : List Nat), body = pre.map pushTag ++ own ++ post.map pushTag ∧ own.Sublist (code X) ∧ (pre ++ post).Nodup ∧
      (∀ j ∈ own, j.op ∉ ["functionReturn"] ++ haltOps ++ names) := by
  have quiet : ∀ l : List Instr, (∀ i ∈ l, i.op ∉ names) → (∀ i ∈ l, i.op ≠ "functionReturn") → (∀ i ∈ l, i.op ∉ haltOps) →
      ∀ j ∈ l.filter (fun i => !isPhi i), j.op ∉ ["functionReturn"] ++ haltOps ++ names := by
    intro l h1 h2 h3 j hj
    have hj := (mem_filter.1 hj).1
    simp only [cons_append, nil_append, mem_cons, mem_append, not_or]
    exact ⟨h2 j hj, h3 j hj, h1 j hj⟩
  have sub : ∀ (l : List Instr) (i : Instr), X.instrs = l ++ [i] → (l.filter fun i => !isPhi i).Sublist (code X) := by
    intro l i hl
    unfold code
    rw [hl]
    exact (sublist_append_left l [i]).filter _
  cases hv with
  | stop hty hj hf hc hq =>
    refine ⟨[], code X, [], by simp, Sublist.refl _, by simp, quiet _ hc ?_ ?_⟩
    · intro i hi h
      obtain ⟨p, q, hl⟩ := append_of_mem hi
      rw [(hok.onlyReturns p i q hl h).2] at hty
      simp at hty
    · intro i hi h
      obtain ⟨p, q, hl⟩ := append_of_mem hi
      have := (hok.ends p i q hl h).1
      subst this
      exact hq i (by rw [hl]; simp) (mem_append_left _ h)
  | halt l i hty hj hf hc hl hi =>
    have hq := init_quiet hok hl (by simp)
    exact ⟨[], _, [], by simp, sub l i hl, by simp, quiet l (fun j h => hc j (by rw [hl]; simp [h])) hq.1 hq.2⟩
  | jump y t hty hj hf ht hc =>
    have hq := succ_quiet hok (by rw [hty]; decide) (Or.inl (by rw [hj]; simp))
    exact ⟨[], code X, [t], by simp, Sublist.refl _, by simp, quiet _ hc hq.1 hq.2⟩
  | branch y z c t hty hj hf hcond ht hc =>
    have hq := succ_quiet hok (by rw [hty]; decide) (Or.inl (by rw [hj]; simp))
    exact ⟨[], code X, [t], by simp, Sublist.refl _, by simp, quiet _ hc hq.1 hq.2⟩
  | ret o l i hty hj hf hl hi ho hc =>
    have hq := init_quiet hok hl (by simp)
    exact ⟨[], _, [], by simp, sub l i hl, by simp, quiet l hc hq.1 hq.2⟩
  | call l i n ft rt ts hts hty hl hi hc hj hf hrt hft =>
    have hq := init_quiet hok hl (by simp)
    exact ⟨ts, _, [], by simp, sub l i hl, by rcases hts with rfl | rfl <;> simp [hne _ _ _ _ hty hf hrt hft, Ne.symm (hne _ _ _ _ hty hf hrt hft)], quiet l hc hq.1 hq.2⟩
  | tail l i ft hty hl hi hc hj hf hft =>
    have hq := init_quiet hok hl (by simp)
    exact ⟨[ft], _, [], by simp, sub l i hl, by simp, quiet l hc hq.1 hq.2⟩

end
end Grey.Lower
