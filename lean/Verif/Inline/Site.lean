/-
What the inlining of the only call of a function relies on, and the renamings it performs.
-/
import Verif.Inline.Shape
import Verif.Inline.Path
namespace Grey.Inline
open List Grey.Cfg

/-- The call at position `k` of block `b` of the component `h` is the only call of the function `f`. -/
structure Site (O : Obj) (h : Option String) (f : String) (H F : Component) (s b : String) (k : Nat) (blk : Block) (call : Instr) :
    Prop where
  comp : O.comp h = some H
  fn : O.fns f = some F
  other : h ≠ some f
  saneH : Sane H.body
  saneF : Sane F.body
  start : F.body.start = some s
  block : H.body.get b = some blk
  callAt : blk.instrs[k]? = some call
  op : call.op = f
  only : ∀ c C x X, O.comp c = some C → C.body.get x = some X → ∀ j i, X.instrs[j]? = some i → i.op = f → c = h ∧ x = b ∧ j = k
  arity : F.args.length = call.ins.length
  own : ∀ x ∈ call.ins, x ∉ call.outs
  self : b ∉ blk.succs
  phisFirst : ∀ i ∈ blk.instrs.drop (k + 1), isPhi i = false
  disj : ∀ x X, F.body.get x = some X → H.body.get x = none
  freshF : H.body.get (firstId b) = none ∧ F.body.get (firstId b) = none
  freshS : H.body.get (secondId b) = none ∧ F.body.get (secondId b) = none
  exits : ExactExits F.body
  returns : ∀ x X, F.body.get x = some X → X.jumpType = "FunctionReturn" → X.succs = [] ∧
    ∃ i, X.instrs.getLast? = some i ∧ i.op = "functionReturn" ∧ i.ins.length = call.outs.length
  onlyReturns : ∀ x X, F.body.get x = some X → ∀ j i, X.instrs[j]? = some i → i.op = "functionReturn" →
    X.jumpType = "FunctionReturn" ∧ j + 1 = X.instrs.length
  noReturn : O.fns "functionReturn" = none
  noPhi : O.fns "PhiFunction" = none
  ssaH : StrictSSA H
  ssaF : StrictSSA F
  vars : ∀ x ∈ F.args ++ F.body.names, isConst x = false → x ∉ H.args ++ H.body.names

/-! ### Dictionaries -/

theorem dictOf_some {l : List (String × String)} {x y : String} (h : dictOf l x = some y) : (x, y) ∈ l := by
  unfold dictOf at h
  rw [List.lookup_eq_some_iff] at h
  obtain ⟨l1, l2, e, _⟩ := h
  have : (x, y) ∈ l.reverse := by rw [e]; simp
  exact mem_reverse.1 this

theorem dictOf_none {l : List (String × String)} {x : String} (h : x ∉ l.map Prod.fst) : dictOf l x = none := by
  unfold dictOf
  rw [List.lookup_eq_none_iff]
  intro p hp
  rw [bne_iff_ne]
  rintro rfl
  exact h (mem_map_of_mem (mem_reverse.1 hp))

theorem nodup_keys_unique {β : Type} : ∀ {l : List (String × β)}, (l.map Prod.fst).Nodup → ∀ {x : String} {y y' : β}, (x, y) ∈ l → (x, y') ∈ l → y = y'
  | [], _, _, _, _, h, _ => by cases h
  | p :: l, hnd, x, y, y', h1, h2 => by
    rw [map_cons, nodup_cons] at hnd
    rcases mem_cons.1 h1 with e1 | h1 <;> rcases mem_cons.1 h2 with e2 | h2
    · rw [← e1] at e2; exact (Prod.mk.inj e2).2.symm
    · exfalso; apply hnd.1; rw [← e1]; exact mem_map.2 ⟨_, h2, rfl⟩
    · exfalso; apply hnd.1; rw [← e2]; exact mem_map.2 ⟨_, h1, rfl⟩
    · exact nodup_keys_unique hnd.2 h1 h2

theorem dictOf_mem {l : List (String × String)} (hnd : (l.map Prod.fst).Nodup) {x y : String} (h : (x, y) ∈ l) : dictOf l x = some y := by
  cases e : dictOf l x with
  | none =>
    exfalso
    unfold dictOf at e
    rw [List.lookup_eq_none_iff] at e
    have := e (x, y) (mem_reverse.2 h)
    rw [bne_iff_ne] at this
    exact this rfl
  | some z => rw [nodup_keys_unique hnd (dictOf_some e) h]

theorem assign_not_mem {V : Type} : ∀ {l : List (String × V)} {e : String → V} {x : String}, x ∉ l.map Prod.fst → assign e l x = e x
  | [], _, _, _ => rfl
  | (a, v) :: l, e, x, h => by
    rw [map_cons, mem_cons, not_or] at h
    unfold assign
    rw [assign_not_mem h.2, if_neg h.1]

theorem assign_mem {V : Type} : ∀ {l : List (String × V)} {e : String → V} {x : String} {v : V}, (l.map Prod.fst).Nodup → (x, v) ∈ l →
    assign e l x = v
  | [], _, _, _, _, h => by cases h
  | (a, u) :: l, e, x, v, hnd, h => by
    rw [map_cons, nodup_cons] at hnd
    unfold assign
    rcases mem_cons.1 h with e1 | h
    · cases e1
      rw [assign_not_mem hnd.1, if_pos rfl]
    · exact assign_mem hnd.2 h

/-- Assignment of renamed variables. -/
theorem assign_rel {V : Type} {ρ : String → String} : ∀ {l : List (String × V)} {e e' : String → V} {w : String},
    (∀ p ∈ l, ρ p.1 = ρ w → p.1 = w) → (w ∈ l.map Prod.fst ∨ e' (ρ w) = e w) →
    assign e' (l.map fun p => (ρ p.1, p.2)) (ρ w) = assign e l w
  | [], _, _, _, _, h => by
    rcases h with h | h
    · cases h
    · exact h
  | (a, v) :: l, e, e', w, hinj, h => by
    rw [map_cons]
    unfold assign
    refine assign_rel (fun p hp => hinj p (mem_cons_of_mem _ hp)) ?_
    by_cases haw : a = w
    · right; simp [haw]
    · rcases h with h | h
      · rw [map_cons, mem_cons] at h
        rcases h with h | h
        · exact absurd h.symm haw
        · exact Or.inl h
      · right
        have h1 : ρ w ≠ ρ a := fun hh => haw (hinj (a, v) mem_cons_self hh.symm)
        have h2 : w ≠ a := fun hh => haw hh.symm
        simp only [if_neg h1, if_neg h2, h]

theorem zip_fst_sub {α β : Type} {l : List α} {l' : List β} : (l.zip l').map Prod.fst ⊆ l := by
  intro x hx
  obtain ⟨p, hp, rfl⟩ := mem_map.1 hx
  exact (of_mem_zip (show (p.1, p.2) ∈ l.zip l' from hp)).1

theorem zip_fst_eq {α β : Type} {l : List α} {l' : List β} (h : l.length = l'.length) : (l.zip l').map Prod.fst = l :=
  map_fst_zip (Nat.le_of_eq h)

theorem zip_fst_sublist {α β : Type} : ∀ {l : List α} {l' : List β}, (l.zip l').map Prod.fst <+ l
  | [], _ => by simp
  | _ :: _, [] => by simp
  | a :: l, c :: l' => by
    rw [zip_cons_cons, map_cons]
    exact zip_fst_sublist.cons_cons a

theorem zip_fst_nodup {α β : Type} {l : List α} {l' : List β} (h : l.Nodup) : ((l.zip l').map Prod.fst).Nodup :=
  h.sublist zip_fst_sublist

theorem outMap_cases (F : Component) (call : Instr) :
    (∃ r, retsOf F call = [r] ∧ outMap F call = renameVar (dictOf (call.outs.zip r))) ∨
    ((∀ r, retsOf F call ≠ [r]) ∧ outMap F call = id) := by
  unfold outMap
  cases h : retsOf F call with
  | nil => exact Or.inr ⟨by simp, rfl⟩
  | cons r rs =>
    cases rs with
    | nil => exact Or.inl ⟨r, rfl, rfl⟩
    | cons r2 rs => exact Or.inr ⟨by simp, rfl⟩

section
variable {O : Obj} {h : Option String} {f : String} {H F : Component} {s b : String} {k : Nat} {blk : Block} {call : Instr}
  (S : Site O h f H F s b k blk call)
include S

namespace Site

/-- The instructions of the block after the call. -/
theorem split : blk.instrs = blk.instrs.take k ++ call :: blk.instrs.drop (k + 1) := by
  obtain ⟨h1, h2⟩ := List.getElem?_eq_some_iff.1 S.callAt
  rw [← h2, ← drop_eq_getElem_cons h1, take_append_drop]

theorem call_mem : call ∈ blk.instrs := mem_of_getElem? S.callAt

theorem call_not_phi : isPhi call = false := by
  unfold isPhi
  rw [beq_eq_false_iff_ne]
  intro hc
  have h1 := S.noPhi
  rw [← hc, S.op, S.fn] at h1
  cases h1

theorem code_blk : code blk = (blk.instrs.take k).filter (fun i => !isPhi i) ++ call :: blk.instrs.drop (k + 1) := by
  unfold code
  conv_lhs => rw [S.split]
  rw [filter_append, filter_cons, S.call_not_phi]
  simp only [Bool.not_false, if_true]
  congr 2
  rw [filter_eq_self]
  intro i hi
  rw [S.phisFirst i hi]; rfl

theorem phis_blk : phis blk = (blk.instrs.take k).filter isPhi := by
  unfold phis
  conv_lhs => rw [S.split]
  rw [filter_append, filter_cons, S.call_not_phi]
  simp only [Bool.false_eq_true, if_false]
  rw [show (blk.instrs.drop (k + 1)).filter isPhi = [] from by
    rw [filter_eq_nil_iff]; intro i hi; rw [S.phisFirst i hi]; simp, append_nil]

theorem call_suffix : call :: blk.instrs.drop (k + 1) <:+ code blk := by
  rw [S.code_blk]; exact suffix_append _ _

/-- The call is the only instruction that calls the function. -/
theorem is_call {x : String} {X : Block} (hX : H.body.get x = some X) {i : Instr} {is : List Instr} (hs : i :: is <:+ code X)
    (hi : i.op = f) : x = b ∧ i :: is = call :: blk.instrs.drop (k + 1) := by
  have hpos : ∀ i ∈ blk.instrs, i.op = f → ∀ j, blk.instrs[j]? = some i → j = k :=
    fun i _ hi j hj => (S.only h H b blk S.comp S.block j i hj hi).2.2
  obtain ⟨j, hj⟩ := getElem?_of_mem (code_mem (suffix_head_mem hs))
  obtain ⟨_, rfl, -⟩ := S.only h H x X S.comp hX j i hj hi
  have hXb : X = blk := by rw [S.block] at hX; exact (Option.some.inj hX).symm
  subst hXb
  refine ⟨rfl, ?_⟩
  have hpost : ∀ i' ∈ X.instrs.drop (k + 1), i'.op ≠ f := by
    intro i' hi' ho
    obtain ⟨j', hj'⟩ := getElem?_of_mem hi'
    rw [getElem?_drop] at hj'
    have := hpos i' (mem_of_mem_drop hi') ho _ hj'
    omega
  have hpre : ∀ i' ∈ (X.instrs.take k).filter (fun i => !isPhi i), i'.op ≠ f := by
    intro i' hi' ho
    obtain ⟨j', hj'⟩ := getElem?_of_mem (mem_filter.1 hi').1
    have hjk : j' < k := by
      have := (List.getElem?_eq_some_iff.1 hj').1
      rw [length_take] at this
      omega
    rw [getElem?_take_of_lt hjk] at hj'
    have := hpos i' (mem_of_mem_take (mem_filter.1 hi').1) ho _ hj'
    omega
  rcases suffix_or_suffix_of_suffix hs S.call_suffix with h1 | h1
  · rcases suffix_cons_iff.1 h1 with h2 | h2
    · exact h2
    · exact absurd hi (hpost i (h2.subset mem_cons_self))
  · rcases suffix_cons_iff.1 h1 with h2 | h2
    · exact h2.symm
    · exfalso
      obtain ⟨U, hU⟩ := h2
      obtain ⟨T, hT⟩ := hs
      rw [S.code_blk, ← hU] at hT
      have e : T ++ i :: U = (X.instrs.take k).filter (fun i => !isPhi i) := by
        apply append_cancel_right (bs := call :: X.instrs.drop (k + 1))
        rw [← hT]; simp
      exact hpre i (by rw [← e]; simp) hi

/-! ### The variables -/

theorem call_outs_defs {x : String} (hx : x ∈ call.outs) : x ∈ H.defs := outs_mem_defs S.block S.call_mem hx

theorem call_outs_var {x : String} (hx : x ∈ call.outs) : isConst x = false := S.ssaH.noConst x (S.call_outs_defs hx)

omit S in
theorem instr_names {c : Component} {x : String} {X : Block} (hX : c.body.get x = some X) {i : Instr} (hi : i ∈ X.instrs) {v : String}
    (hv : v ∈ i.ins ++ i.outs) : v ∈ c.args ++ c.body.names :=
  mem_append.2 (Or.inr (mem_flatMap.2 ⟨X, get_mem hX, mem_append.2 (Or.inl (mem_flatMap.2 ⟨i, hi, hv⟩))⟩))

omit S in
theorem cond_names {c : Component} {x : String} {X : Block} (hX : c.body.get x = some X) {v : String} (hv : X.cond = some v) :
    v ∈ c.args ++ c.body.names :=
  mem_append.2 (Or.inr (mem_flatMap.2 ⟨X, get_mem hX, mem_append.2 (Or.inr (by rw [hv]; simp))⟩))

omit S in
theorem defs_names {c : Component} {v : String} (hv : v ∈ c.defs) : v ∈ c.args ++ c.body.names := by
  rcases mem_append.1 hv with hv | hv
  · exact mem_append.2 (Or.inl hv)
  · obtain ⟨X, hX, hv⟩ := mem_flatMap.1 hv
    obtain ⟨i, hi, hv⟩ := mem_flatMap.1 hv
    exact mem_append.2 (Or.inr (mem_flatMap.2 ⟨X, hX, mem_append.2 (Or.inl (mem_flatMap.2 ⟨i, hi, mem_append.2 (Or.inr hv)⟩))⟩))

theorem call_ins_names {x : String} (hx : x ∈ call.ins) : x ∈ H.args ++ H.body.names :=
  instr_names S.block S.call_mem (mem_append.2 (Or.inl hx))

theorem args_nodup : F.args.Nodup := (nodup_append.1 S.ssaF.once).1

theorem outs_nodup : call.outs.Nodup := by
  have := defs_block S.ssaH.once S.block
  rw [nodup_flatMap] at this
  exact this.1 call S.call_mem

theorem args_var {x : String} (hx : x ∈ F.args) : isConst x = false := S.ssaF.noConst x (mem_append.2 (Or.inl hx))

omit S in
theorem in_const {x : String} (hx : isConst x = true) : inMap F call x = x := by simp [inMap, renameVar, hx]

omit S in
theorem out_const {x : String} (hx : isConst x = true) : outMap F call x = x := by
  rcases outMap_cases F call with ⟨r, _, e⟩ | ⟨_, e⟩
  · rw [e]; simp [renameVar, hx]
  · rw [e]; rfl

omit S in
theorem in_not_arg {x : String} (hx : x ∉ F.args) : inMap F call x = x := by
  unfold inMap renameVar
  rw [dictOf_none fun hh => hx (zip_fst_sub hh)]
  simp

theorem in_arg {x : String} (hx : x ∈ F.args) : (x, inMap F call x) ∈ F.args.zip call.ins.reverse := by
  have hl : F.args.length = call.ins.reverse.length := by rw [length_reverse]; exact S.arity
  have h1 : x ∈ (F.args.zip call.ins.reverse).map Prod.fst := by rw [zip_fst_eq hl]; exact hx
  obtain ⟨p, hp, rfl⟩ := mem_map.1 h1
  have h2 : dictOf (F.args.zip call.ins.reverse) p.1 = some p.2 := dictOf_mem (zip_fst_nodup S.args_nodup) hp
  have h3 : inMap F call p.1 = p.2 := by
    unfold inMap renameVar
    rw [S.args_var hx, h2]; rfl
  rw [h3]; exact hp

theorem in_arg_mem {x : String} (hx : x ∈ F.args) : inMap F call x ∈ call.ins :=
  mem_reverse.1 (of_mem_zip (S.in_arg hx)).2

omit S in
theorem out_not_out {x : String} (hx : x ∉ call.outs) : outMap F call x = x := by
  rcases outMap_cases F call with ⟨r, _, e⟩ | ⟨_, e⟩
  · rw [e]
    unfold renameVar
    rw [dictOf_none fun hh => hx (zip_fst_sub hh)]
    simp
  · rw [e]; rfl

/-- The values that are returned at an exit. -/
theorem ret_at {e : String} (he : e ∈ F.body.returns) : ∃ E i pre, F.body.get e = some E ∧ E.instrs = pre ++ [i] ∧ i.op = "functionReturn" ∧
    i.ins.length = call.outs.length ∧ retOf F call e = i.ins.map (inMap F call) ∧ E.succs = [] := by
  obtain ⟨E, hE, hjt⟩ := (S.exits.returns e).1 he
  obtain ⟨hsu, i, hi1, hi2, hi3⟩ := S.returns e E hE hjt
  obtain ⟨pre, hpre⟩ := getLast?_eq_some_iff.1 hi1
  refine ⟨E, i, pre, hE, hpre, hi2, hi3, ?_, hsu⟩
  have hr0 : returned E = some i.ins := by unfold returned; rw [hi1]; simp [hi2]
  unfold retOf
  rw [hE, Option.bind_some, hr0]
  rfl

/-- A result is left as it is, or it is replaced by the value returned at the only exit. -/
theorem out_cases {x : String} (hx : x ∈ call.outs) : (outMap F call x = x ∧ ∀ e, F.body.returns ≠ [e]) ∨ ∃ e, F.body.returns = [e] ∧
    (x, outMap F call x) ∈ call.outs.zip (retOf F call e) := by
  rcases outMap_cases F call with ⟨r, hr, hm⟩ | ⟨hr, hm⟩
  · rw [hm]
    right
    unfold retsOf at hr
    rw [map_eq_cons_iff] at hr
    obtain ⟨e, es, h1, h2, h3⟩ := hr
    rw [map_eq_nil_iff] at h3
    subst h3
    refine ⟨e, h1, ?_⟩
    obtain ⟨E, i, pre, hE, _, _, hl, hro, _⟩ := S.ret_at (e := e) (by rw [h1]; simp)
    have hlen : call.outs.length = (retOf F call e).length := by rw [hro, length_map, hl]
    have hx' : x ∈ (call.outs.zip (retOf F call e)).map Prod.fst := by rw [zip_fst_eq hlen]; exact hx
    obtain ⟨p, hp, rfl⟩ := mem_map.1 hx'
    have h4 : dictOf (call.outs.zip (retOf F call e)) p.1 = some p.2 := dictOf_mem (zip_fst_nodup S.outs_nodup) hp
    have h5 : renameVar (dictOf (call.outs.zip r)) p.1 = p.2 := by
      unfold renameVar
      rw [S.call_outs_var hx, ← h2, h4]; rfl
    rw [h5]; exact hp
  · rw [hm]
    left
    refine ⟨rfl, ?_⟩
    intro e he
    exact hr (retOf F call e) (by unfold retsOf; rw [he]; rfl)

/-- A variable of the caller is not a variable of the function. -/
theorem apart {x : String} (hF : x ∈ F.args ++ F.body.names) (hH : x ∈ H.args ++ H.body.names) (hc : isConst x = false) : False :=
  S.vars x hF hc hH

/-- What a result may be replaced with. -/
theorem out_value {x : String} (hx : x ∈ call.outs) : outMap F call x = x ∨ isConst (outMap F call x) = true ∨
    outMap F call x ∈ call.ins ∨ outMap F call x ∈ F.args ++ F.body.names := by
  rcases S.out_cases hx with ⟨h1, _⟩ | ⟨e, he, hz⟩
  · exact Or.inl h1
  · obtain ⟨E, i, pre, hE, hpre, _, hl, hro, _⟩ := S.ret_at (e := e) (by rw [he]; simp)
    have h2 := (of_mem_zip hz).2
    rw [hro] at h2
    obtain ⟨y, hy, hyx⟩ := mem_map.1 h2
    by_cases ha : y ∈ F.args
    · exact Or.inr (Or.inr (Or.inl (hyx ▸ S.in_arg_mem ha)))
    · rw [in_not_arg ha] at hyx
      rw [← hyx]
      exact Or.inr (Or.inr (Or.inr (instr_names hE (i := i) (by rw [hpre]; simp) (mem_append.2 (Or.inl hy)))))

/-- The names of the function after both renamings. -/
theorem out_in {x : String} (hx : x ∈ F.args ++ F.body.names) : outMap F call (inMap F call x) = inMap F call x := by
  cases hc : isConst x with
  | true => rw [in_const hc, out_const hc]
  | false =>
    by_cases ha : x ∈ F.args
    · exact out_not_out (S.own _ (S.in_arg_mem ha))
    · rw [in_not_arg ha]
      exact out_not_out fun ho => S.apart hx (instr_names S.block S.call_mem (mem_append.2 (Or.inr ho))) hc

/-- A variable defined by an instruction of the function keeps its name. -/
theorem in_out_def {x : String} {X : Block} (hX : F.body.get x = some X) {i : Instr} (hi : i ∈ X.instrs) {v : String} (hv : v ∈ i.outs) :
    inMap F call v = v ∧ outMap F call (inMap F call v) = v := by
  have h1 : inMap F call v = v := in_not_arg (defs_args S.ssaF.once hX hi hv)
  exact ⟨h1, by rw [S.out_in (instr_names hX hi (mem_append.2 (Or.inr hv))), h1]⟩

/-- Different variables of the function are not confused by the assignment of one. -/
theorem in_inj {x : String} {X : Block} (hX : F.body.get x = some X) {i : Instr} (hi : i ∈ X.instrs) {v w : String} (hv : v ∈ i.outs)
    (hw : w ∈ F.defs) (e : outMap F call (inMap F call v) = outMap F call (inMap F call w)) : v = w := by
  rw [(S.in_out_def hX hi hv).2, S.out_in (defs_names hw)] at e
  by_cases ha : w ∈ F.args
  · exfalso
    have h1 := S.call_ins_names (S.in_arg_mem ha)
    rw [← e] at h1
    exact S.apart (instr_names hX hi (mem_append.2 (Or.inr hv))) h1 (S.ssaF.noConst v (outs_mem_defs hX hi hv))
  · rw [in_not_arg ha] at e
    exact e

/-- The variables of the caller that are defined by other instructions than the call keep their names. -/
theorem not_out_of {x : String} {X : Block} (hX : H.body.get x = some X) {i : Instr} {is : List Instr} (hs : i :: is <:+ code X)
    (hne : i.op ≠ f) {v : String} (hv : v ∈ i.outs) : v ∉ call.outs := by
  intro ho
  have := (def_unique S.ssaH.once hX S.block hs S.call_suffix hv ho).2
  rw [cons.injEq] at this
  rw [this.1] at hne
  exact hne S.op

theorem not_out_phi {x : String} {X : Block} (hX : H.body.get x = some X) {i : Instr} (hi : i ∈ phis X) {v : String} (hv : v ∈ i.outs) :
    v ∉ call.outs :=
  fun ho => def_phi_code S.ssaH.once S.block hX (suffix_head_mem S.call_suffix) hi ho hv

/-- If a result of the call is replaced by a variable of the caller, then this is an argument of the call. -/
theorem out_alias {v w : String} (hv : v ∈ H.defs) (hvo : v ∉ call.outs) (hne : v ≠ w) (e : outMap F call v = outMap F call w) :
    w ∈ call.outs ∧ v ∈ call.ins := by
  rw [out_not_out hvo] at e
  by_cases hw : w ∈ call.outs
  · refine ⟨hw, ?_⟩
    rcases S.out_value hw with h1 | h1 | h1 | h1
    · rw [h1] at e; exact absurd e hne
    · rw [← e, S.ssaH.noConst v hv] at h1; cases h1
    · rw [e]; exact h1
    · rw [← e] at h1
      exact (S.apart h1 (defs_names hv) (S.ssaH.noConst v hv)).elim
  · rw [out_not_out hw] at e
    exact absurd e hne

/-- The assignment of a variable of the caller does not change the others that are available afterwards. -/
theorem out_inj_instr {x : String} {X : Block} (hX : H.body.get x = some X) {i : Instr} {is : List Instr} (hs : i :: is <:+ code X)
    (hne : i.op ≠ f) (hr : Clear H [] x (i :: is)) {v w : String} (hv : v ∈ i.outs) (hw : ¬ Clear H [w] x is)
    (e : outMap F call v = outMap F call w) : v = w := by
  by_contra hvw
  have hvd := outs_mem_defs hX (code_mem (suffix_head_mem hs)) hv
  obtain ⟨h1, h2⟩ := S.out_alias hvd (S.not_out_of hX hs hne hv) hvw e
  apply hw
  refine .instr (outs_clear_at_def S.ssaH S.block S.call_suffix h2 (S.ssaH.noConst v hvd) h1 hr hv) ?_
  intro y hy
  rw [mem_singleton] at hy
  subst hy
  intro hy2
  exact S.not_out_of hX hs hne hy2 h1

theorem out_inj_phi {t : String} {T : Block} (hT : H.body.get t = some T) (hr : Clear H [] t (code T)) {i : Instr} (hi : i ∈ phis T)
    {v w : String} (hv : v ∈ i.outs) (hw : ¬ Clear H [w] t (code T)) (e : outMap F call v = outMap F call w) : v = w := by
  by_contra hvw
  have hvd := outs_mem_defs hT (phis_mem hi) hv
  obtain ⟨h1, h2⟩ := S.out_alias hvd (S.not_out_phi hT hi hv) hvw e
  exact hw (outs_clear_at_phi S.ssaH S.block S.call_suffix h2 (S.ssaH.noConst v hvd) h1 hT hr hi hv)

theorem fits : Fits f F call s b k blk H.body where
  saneG := S.saneH
  saneF := S.saneF
  start := S.start
  block := S.block
  callAt := S.callAt
  op := S.op
  arity := S.arity
  self := S.self
  disj := S.disj
  freshF := S.freshF
  freshS := S.freshS
  exits := S.exits
  returns := S.returns
  argsNew := by
    intro p hp hd
    have h1 := dictOf_some hd
    have h2 := (of_mem_zip h1).1
    have h3 := mem_reverse.1 (of_mem_zip h1).2
    exact S.apart (mem_append.2 (Or.inl h2)) (S.call_ins_names h3) (S.args_var h2)
  outsNew := by
    intro r hr p hp hd
    have h1 := dictOf_some hd
    have h2 := (of_mem_zip h1).1
    have h3 := (of_mem_zip h1).2
    have hH := instr_names S.block S.call_mem (mem_append.2 (Or.inr h2))
    have hc := S.call_outs_var h2
    unfold retsOf at hr
    rw [map_eq_cons_iff] at hr
    obtain ⟨e, es, g1, g2, g3⟩ := hr
    obtain ⟨E, i, pre, hE, hpre, _, hl, hro, _⟩ := S.ret_at (e := e) (by rw [g1]; simp)
    rw [← g2, hro] at h3
    obtain ⟨y, hy, hyx⟩ := mem_map.1 h3
    by_cases ha : y ∈ F.args
    · have := S.in_arg_mem ha
      rw [hyx] at this
      exact S.own _ this h2
    · rw [in_not_arg ha] at hyx
      subst hyx
      exact S.apart (instr_names hE (i := i) (by rw [hpre]; simp) (mem_append.2 (Or.inl hy))) hH hc

end Site
end

end Grey.Inline
