/-
Objects to which the inlining pass applies.
-/
import Verif.Inline.Lockstep
namespace Grey.Inline
open List Grey.Cfg

/-- A suffix which splitting appends to names of blocks. -/
def Halves (w : List Char) : Prop := ∀ c ∈ w, c = 'f' ∨ c = 's'

/-- The result arity and the parameters of a function fit a call. -/
def FitsCall (F : Component) (i : Instr) : Prop :=
  F.args.length = i.ins.length ∧
  ∀ x X r, F.body.get x = some X → X.jumpType = "FunctionReturn" → X.instrs.getLast? = some r → r.ins.length = i.outs.length

/-- The variables have an order in which the results of instructions other than phi functions come after the arguments: no value is
computed from itself within one iteration of a loop. -/
def Ordered (C : Component) : Prop :=
  ∃ rank : String → Nat, ∀ x X i, C.body.get x = some X → i ∈ code X → ∀ u ∈ i.ins, isConst u = false → ∀ v ∈ i.outs, rank u < rank v

/-- Well-formed components: the graph is coherent and in strict single assignment form, the list of exits is right, phi functions come
first, no block is its own successor, and the blocks that return, and only those, end with `functionReturn`. -/
structure CompOk (C : Component) : Prop where
  sane : Sane C.body
  ssa : StrictSSA C
  ordered : Ordered C
  exits : ExactExits C.body
  phisFirst : ∀ x X, C.body.get x = some X → X.instrs = phis X ++ code X
  noSelf : ∀ x X, C.body.get x = some X → x ∉ X.succs
  returns : ∀ x X, C.body.get x = some X → X.jumpType = "FunctionReturn" → X.succs = [] ∧ X.cond = none ∧
    ∃ i, X.instrs.getLast? = some i ∧ i.op = "functionReturn"
  onlyReturns : ∀ x X, C.body.get x = some X → ∀ j i, X.instrs[j]? = some i → i.op = "functionReturn" →
    X.jumpType = "FunctionReturn" ∧ j + 1 = X.instrs.length

/-- Well-formed objects: components are well-formed, they share neither variables nor names of blocks, no name of a block is another one
with the letters of halves appended, and calls have the right numbers of arguments and results. -/
structure ObjOk (O : Obj) : Prop where
  comps : ∀ c C, O.comp c = some C → CompOk C
  vars : ∀ c d C D, O.comp c = some C → O.comp d = some D → c ≠ d → ∀ x ∈ C.args ++ C.body.names, isConst x = false →
    x ∉ D.args ++ D.body.names
  names : ∀ c d C D, O.comp c = some C → O.comp d = some D → ∀ x y X Y, C.body.get x = some X → D.body.get y = some Y →
    ∀ w, Halves w → y.toList = x.toList ++ w → w = [] ∧ c = d
  calls : ∀ c C x X i F, O.comp c = some C → C.body.get x = some X → i ∈ X.instrs → O.fns i.op = some F → FitsCall F i
  noReturn : O.fns "functionReturn" = none
  noPhi : O.fns "PhiFunction" = none

/-- The instruction at position `j` of block `x` of component `c` calls `f`. -/
def Calls (O : Obj) (f : String) (c : Option String) (x : String) (j : Nat) : Prop :=
  ∃ C X i, O.comp c = some C ∧ C.body.get x = some X ∧ X.instrs[j]? = some i ∧ i.op = f

theorem toList_first (b : String) : (firstId b).toList = b.toList ++ ['f'] := by simp [firstId]
theorem toList_second (b : String) : (secondId b).toList = b.toList ++ ['s'] := by simp [secondId]

theorem halves_f : Halves ['f'] := by intro c hc; rw [mem_singleton] at hc; exact Or.inl hc
theorem halves_s : Halves ['s'] := by intro c hc; rw [mem_singleton] at hc; exact Or.inr hc

theorem drop_not_phi {B : Block} (h : B.instrs = phis B ++ code B) {k : Nat} {i : Instr} (hk : B.instrs[k]? = some i) (hi : isPhi i = false) :
    ∀ j ∈ B.instrs.drop (k + 1), isPhi j = false := by
  have hlt : (phis B).length ≤ k := by
    rcases Nat.lt_or_ge k (phis B).length with hc | hc
    · rw [h, getElem?_append_left hc] at hk
      have := (mem_filter.1 (mem_of_getElem? hk)).2
      rw [hi] at this; cases this
    · exact hc
  intro j hj
  rw [h, drop_append, drop_eq_nil_of_le (by omega), nil_append] at hj
  have := (mem_filter.1 (mem_of_mem_drop hj)).2
  simpa using this

/-- The only call of a function that is not recursive. -/
theorem Site.of_ok {O : Obj} (ok : ObjOk O) {h : Option String} {f b : String} {k : Nat} (hc : Calls O f h b k)
    (only : ∀ c x j, Calls O f c x j → c = h ∧ x = b ∧ j = k) {F : Component} (hF : O.fns f = some F) (hne : h ≠ some f) :
    ∃ H s blk call, Site O h f H F s b k blk call := by
  obtain ⟨H, blk, call, hH, hb, hk, hop⟩ := hc
  have okH := ok.comps h H hH
  have hFc : O.comp (some f) = some F := hF
  have okF := ok.comps (some f) F hFc
  obtain ⟨s, S0, hs, hS0⟩ := okF.sane.start
  have hcall := ok.calls h H b blk call F hH hb (mem_of_getElem? hk) (by rw [hop]; exact hF)
  have hphi : isPhi call = false := by
    unfold isPhi
    rw [beq_eq_false_iff_ne]
    intro hc
    have h1 := ok.noPhi
    rw [← hc, hop, hF] at h1
    cases h1
  have fresh : ∀ c C x X w, O.comp c = some C → C.body.get x = some X → Halves w → w ≠ [] → x.toList ≠ b.toList ++ w := by
    intro c C x X w hC hX hw hw0 e
    exact hw0 (ok.names h c H C hH hC b x blk X hb hX w hw e).1
  have none_of : ∀ c C y, O.comp c = some C → (∀ X, C.body.get y = some X → False) → C.body.get y = none := by
    intro c C y _ hy
    cases hg : C.body.get y with
    | none => rfl
    | some X => exact (hy X hg).elim
  refine ⟨H, s, blk, call, ⟨hH, hF, hne, okH.sane, okF.sane, hs, hb, hk, hop, ?_, hcall.1, ?_, okH.noSelf b blk hb, ?_, ?_, ?_, ?_,
    okF.exits, ?_, okF.onlyReturns, ok.noReturn, ok.noPhi, okH.ssa, okF.ssa, ?_⟩⟩
  · intro c C x X hC hX j i hi ho
    exact only c x j ⟨C, X, i, hC, hX, hi, ho⟩
  · intro x hx ho
    obtain ⟨rank, hr⟩ := okH.ordered
    have hm := mem_of_getElem? hk
    exact Nat.lt_irrefl _ (hr b blk call hb (mem_filter.2 ⟨hm, by simp [hphi]⟩) x hx (okH.ssa.noConst x (outs_mem_defs hb hm ho)) x ho)
  · exact drop_not_phi (okH.phisFirst b blk hb) hk hphi
  · intro x X hX
    refine none_of h H x hH fun Y hY => ?_
    exact hne (ok.names h (some f) H F hH hFc x x Y X hY hX [] (by intro c hc; cases hc) (by simp)).2
  · exact ⟨none_of h H _ hH fun X hX => fresh h H _ X ['f'] hH hX halves_f (by simp) (toList_first b),
      none_of (some f) F _ hFc fun X hX => fresh (some f) F _ X ['f'] hFc hX halves_f (by simp) (toList_first b)⟩
  · exact ⟨none_of h H _ hH fun X hX => fresh h H _ X ['s'] hH hX halves_s (by simp) (toList_second b),
      none_of (some f) F _ hFc fun X hX => fresh (some f) F _ X ['s'] hFc hX halves_s (by simp) (toList_second b)⟩
  · intro x X hX hj
    obtain ⟨h1, _, i, h2, h3⟩ := okF.returns x X hX hj
    exact ⟨h1, i, h2, h3, hcall.2 x X i hX hj h2⟩
  · exact ok.vars (some f) h F H hFc hH (Ne.symm hne)

end Grey.Inline
