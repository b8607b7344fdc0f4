/-
Strict single assignment form after the inlining of a call.
-/
import Verif.Inline.Kinds
namespace Grey.Inline
open List Grey.Cfg

/-! ### Definitions -/

/-- What makes the definitions of a component different. -/
theorem defs_nodup_of {C : Component} (hids : (C.body.blocks.map (·.id)).Nodup) (ha : C.args.Nodup)
    (h1 : ∀ x X, C.body.get x = some X → (X.instrs.flatMap (·.outs)).Nodup)
    (h2 : ∀ x X y Y, C.body.get x = some X → C.body.get y = some Y → x ≠ y → ∀ v, v ∈ X.instrs.flatMap (·.outs) → v ∉ Y.instrs.flatMap (·.outs))
    (h3 : ∀ x X, C.body.get x = some X → ∀ v, v ∈ X.instrs.flatMap (·.outs) → v ∉ C.args) : C.defs.Nodup := by
  have hget : ∀ X ∈ C.body.blocks, C.body.get X.id = some X := by
    intro X hX
    obtain ⟨Y, hY⟩ := get_isSome_iff.2 (mem_map_of_mem (f := (·.id)) hX)
    have := inj_on_of_nodup_map hids (get_mem hY) hX (get_id hY)
    rw [this] at hY; exact hY
  unfold Component.defs
  rw [nodup_append]
  refine ⟨ha, ?_, ?_⟩
  · rw [nodup_flatMap]
    refine ⟨fun X hX => h1 _ X (hget X hX), ?_⟩
    have : C.body.blocks.Pairwise fun X Y => X.id ≠ Y.id := by
      rw [← pairwise_map]; exact hids
    refine this.imp_of_mem ?_
    intro X Y hX hY hne v hv hv'
    exact h2 _ X _ Y (hget X hX) (hget Y hY) hne v hv hv'
  · intro v hv w hw e
    subst e
    obtain ⟨X, hX, hw⟩ := mem_flatMap.1 hw
    exact h3 _ X (hget X hX) v hw hv

theorem flatMap_outs_rename {ρ : String → String} {l : List Instr} (h : ∀ i ∈ l, ∀ v ∈ i.outs, ρ v = v) :
    (l.map (renameInstr ρ)).flatMap (·.outs) = l.flatMap (·.outs) := by
  rw [flatMap_map]
  induction l with
  | nil => rfl
  | cons i l ih =>
    rw [flatMap_cons, flatMap_cons, ih fun j hj => h j (mem_cons_of_mem _ hj)]
    congr 1
    show i.outs.map ρ = i.outs
    rw [map_congr_left (g := id) (fun v hv => h i mem_cons_self v hv), map_id]

theorem flatMap_fst : ∀ l : List (String × Nat), (l.flatMap fun p => [p.1]) = l.map Prod.fst
  | [] => rfl
  | p :: l => by rw [flatMap_cons, map_cons, flatMap_fst l]; rfl

section
variable {O : Obj} {h : Option String} {f : String} {H F : Component} {s b : String} {k : Nat} {blk : Block} {call : Instr}
  {G' : BlockList} (S : Site O h f H F s b k blk call) (Sh : Shape F call s b k blk H.body G')

namespace Site
include S

theorem pre_mem {i : Instr} (hi : i ∈ blk.instrs.take k) : i ∈ blk.instrs ∧ i.op ≠ f := by
  refine ⟨mem_of_mem_take hi, fun ho => ?_⟩
  obtain ⟨j, hj⟩ := getElem?_of_mem hi
  have hlt := (List.getElem?_eq_some_iff.1 hj).1
  rw [length_take] at hlt
  rw [getElem?_take_of_lt (by omega)] at hj
  have := (S.only h H b blk S.comp S.block j i hj ho).2.2
  omega

theorem post_mem {i : Instr} (hi : i ∈ blk.instrs.drop (k + 1)) : i ∈ blk.instrs ∧ i.op ≠ f := by
  refine ⟨mem_of_mem_drop hi, fun ho => ?_⟩
  obtain ⟨j, hj⟩ := getElem?_of_mem hi
  rw [getElem?_drop] at hj
  have := (S.only h H b blk S.comp S.block _ i hj ho).2.2
  omega

/-- Instructions of the caller other than the call do not define its results. -/
theorem keep_out {x : String} {X : Block} (hX : H.body.get x = some X) {i : Instr} (hi : i ∈ X.instrs) (hne : i.op ≠ f) {v : String}
    (hv : v ∈ i.outs) : v ∉ call.outs := by
  cases hp : isPhi i with
  | true => exact S.not_out_phi hX (mem_filter.2 ⟨hi, hp⟩) hv
  | false =>
    have hc : i ∈ code X := mem_filter.2 ⟨hi, by simp [hp]⟩
    obtain ⟨l1, l2, e⟩ := append_of_mem hc
    exact S.not_out_of hX ⟨l1, e.symm⟩ hne hv

theorem other_op {x : String} {X : Block} (hx : x ≠ b) (hX : H.body.get x = some X) {i : Instr} (hi : i ∈ X.instrs) : i.op ≠ f := by
  intro ho
  obtain ⟨j, hj⟩ := getElem?_of_mem hi
  exact hx (S.only h H x X S.comp hX j i hj ho).2.1

theorem outs_first : (renameBlock (outMap F call) (firstBlock s b k blk)).instrs.flatMap (·.outs) = (blk.instrs.take k).flatMap (·.outs) :=
  flatMap_outs_rename fun _ hi _ hv => out_not_out (S.keep_out S.block (S.pre_mem hi).1 (S.pre_mem hi).2 hv)

theorem outs_other {x : String} {X : Block} (hx : x ≠ b) (hX : H.body.get x = some X) :
    (renameBlock (outMap F call) (fixOther b blk x X)).instrs.flatMap (·.outs) = X.instrs.flatMap (·.outs) :=
  flatMap_outs_rename fun _ hi _ hv => out_not_out (S.keep_out hX hi (S.other_op hx hX hi) hv)

theorem callee_instrs {x : String} {X : Block} : (renameBlock (outMap F call) (calleeBlock F call s b x X)).instrs
    = (if x ∈ F.body.returns then X.instrs.dropLast else X.instrs).map (renameInstr (bothMap F call)) := by
  have e : renameInstr (outMap F call) ∘ renameInstr (inMap F call) = renameInstr (bothMap F call) := funext fun i => renameInstr_both F call i
  show (if x ∈ F.body.returns then (X.instrs.map (renameInstr (inMap F call))).dropLast else X.instrs.map (renameInstr (inMap F call))).map
    (renameInstr (outMap F call)) = _
  split
  · rw [← map_dropLast, map_map, e]
  · rw [map_map, e]

theorem outs_callee {x : String} {X : Block} (hX : F.body.get x = some X) :
    (renameBlock (outMap F call) (calleeBlock F call s b x X)).instrs.flatMap (·.outs) <+ X.instrs.flatMap (·.outs) := by
  have hsub : (if x ∈ F.body.returns then X.instrs.dropLast else X.instrs) <+ X.instrs := by
    split
    · exact dropLast_sublist _
    · exact Sublist.refl _
  rw [S.callee_instrs, flatMap_outs_rename]
  · exact hsub.flatMap _
  · intro i hi v hv
    exact (S.in_out_def hX (hsub.subset hi) hv).2

/-- The results of the phi functions. -/
theorem outs_phisOf : (phisOf F call).flatMap (·.outs) = call.outs.reverse ∧ (∃ r1 r2 rs, F.body.returns = r1 :: r2 :: rs) ∧ outMap F call = id ∨
    phisOf F call = [] ∧ ∀ r1 r2 rs, F.body.returns ≠ r1 :: r2 :: rs := by
  match hr : F.body.returns with
  | [] => right; exact ⟨by unfold phisOf retsOf; rw [hr]; rfl, by simp⟩
  | [e] => right; exact ⟨by unfold phisOf retsOf; rw [hr]; rfl, by simp⟩
  | r1 :: r2 :: rs =>
    left
    refine ⟨?_, ⟨r1, r2, rs, rfl⟩, by unfold outMap retsOf; rw [hr]; rfl⟩
    have hpo : phisOf F call = ((call.outs.zipIdx).map fun p => (⟨"PhiFunction", (retsOf F call).map fun r => r.getD p.2 "", [p.1]⟩ : Instr)).reverse := by
      unfold phisOf retsOf; rw [hr]; rfl
    rw [hpo, ← map_reverse, flatMap_map]
    show (call.outs.zipIdx.reverse.flatMap fun p => [p.1]) = _
    rw [flatMap_fst, map_reverse, zipIdx_map_fst]

theorem outs_second : (renameBlock (outMap F call) (secondBlock F call b k blk)).instrs.flatMap (·.outs)
    = (phisOf F call).flatMap (·.outs) ++ (blk.instrs.drop (k + 1)).flatMap (·.outs) := by
  show ((phisOf F call ++ blk.instrs.drop (k + 1)).map (renameInstr (outMap F call))).flatMap (·.outs) = _
  rw [map_append, flatMap_append, flatMap_outs_rename fun _ hi _ hv => out_not_out (S.keep_out S.block (S.post_mem hi).1 (S.post_mem hi).2 hv)]
  congr 1
  rcases S.outs_phisOf with ⟨_, _, e⟩ | ⟨e, _⟩
  · rw [e]
    congr 1
    have : (renameInstr id) = id := funext fun i => by simp [renameInstr]
    rw [this, map_id]
  · rw [e]; rfl

theorem outs_blk : blk.instrs.flatMap (·.outs) = (blk.instrs.take k).flatMap (·.outs) ++ (call.outs ++ (blk.instrs.drop (k + 1)).flatMap (·.outs)) := by
  conv_lhs => rw [S.split]
  rw [flatMap_append, flatMap_cons]

theorem phis_outs_sub : (phisOf F call).flatMap (·.outs) ⊆ call.outs ∧ ((phisOf F call).flatMap (·.outs)).Nodup := by
  rcases S.outs_phisOf with ⟨e, _⟩ | ⟨e, _⟩
  · rw [e]; exact ⟨fun x hx => mem_reverse.1 hx, nodup_reverse.2 S.outs_nodup⟩
  · rw [e]; exact ⟨by simp, by simp⟩

include Sh

/-- The source of a definition. -/
theorem defs_source {x : String} {X' : Block} (hX : G'.get x = some X') {v : String} (hv : v ∈ X'.instrs.flatMap (·.outs)) :
    (∃ X, F.body.get x = some X ∧ v ∈ X.instrs.flatMap (·.outs)) ∨
    (∃ X, x ≠ b ∧ H.body.get x = some X ∧ v ∈ X.instrs.flatMap (·.outs)) ∨
    (x = firstId b ∧ v ∈ (blk.instrs.take k).flatMap (·.outs)) ∨
    (x = secondId b ∧ v ∈ call.outs ++ (blk.instrs.drop (k + 1)).flatMap (·.outs)) := by
  rcases kinds Sh hX with ⟨rfl, rfl⟩ | ⟨rfl, rfl⟩ | ⟨X, hX0, rfl⟩ | ⟨X, hxb, hX0, rfl⟩
  · rw [S.outs_second] at hv
    refine Or.inr (Or.inr (Or.inr ⟨rfl, ?_⟩))
    rcases mem_append.1 hv with hv | hv
    · exact mem_append.2 (Or.inl (S.phis_outs_sub.1 hv))
    · exact mem_append.2 (Or.inr hv)
  · rw [S.outs_first] at hv
    exact Or.inr (Or.inr (Or.inl ⟨rfl, hv⟩))
  · exact Or.inl ⟨X, hX0, (S.outs_callee hX0).subset hv⟩
  · rw [S.outs_other hxb hX0] at hv
    exact Or.inr (Or.inl ⟨X, hxb, hX0, hv⟩)

/-- A definition of the result is one of the caller or one of the function. -/
theorem defs_origin {x : String} {X' : Block} (hX : G'.get x = some X') {v : String} (hv : v ∈ X'.instrs.flatMap (·.outs)) :
    (∃ y Y, F.body.get y = some Y ∧ v ∈ Y.instrs.flatMap (·.outs)) ∨ ∃ y Y, H.body.get y = some Y ∧ v ∈ Y.instrs.flatMap (·.outs) := by
  rcases S.defs_source Sh hX hv with ⟨X, hX, hv⟩ | ⟨X, _, hX, hv⟩ | ⟨_, hv⟩ | ⟨_, hv⟩
  · exact Or.inl ⟨x, X, hX, hv⟩
  · exact Or.inr ⟨x, X, hX, hv⟩
  · exact Or.inr ⟨b, blk, S.block, by rw [S.outs_blk]; exact mem_append.2 (Or.inl hv)⟩
  · exact Or.inr ⟨b, blk, S.block, by rw [S.outs_blk]; exact mem_append.2 (Or.inr hv)⟩

omit S Sh in
theorem flat_defs {c : Component} {x : String} {X : Block} (hX : c.body.get x = some X) {v : String} (hv : v ∈ X.instrs.flatMap (·.outs)) :
    v ∈ c.defs := mem_append.2 (Or.inr (mem_flatMap.2 ⟨X, get_mem hX, hv⟩))

omit S Sh in
theorem flat_args {c : Component} (hc : c.defs.Nodup) {x : String} {X : Block} (hX : c.body.get x = some X) {v : String}
    (hv : v ∈ X.instrs.flatMap (·.outs)) : v ∉ c.args := by
  obtain ⟨i, hi, hv⟩ := mem_flatMap.1 hv
  exact defs_args hc hX hi hv

theorem once_after : (⟨H.args, G'⟩ : Component).defs.Nodup := by
  have hH := S.ssaH.once
  have hF := S.ssaF.once
  have hblk := defs_block hH S.block
  rw [S.outs_blk] at hblk
  have apart : ∀ {x X y Y v}, F.body.get x = some X → v ∈ X.instrs.flatMap (·.outs) → H.body.get y = some Y → v ∈ Y.instrs.flatMap (·.outs) → False := by
    intro x X y Y v hX hv hY hv'
    have hd := flat_defs hX hv
    exact S.apart (defs_names hd) (defs_names (flat_defs hY hv')) (S.ssaF.noConst v hd)
  have inB1 : ∀ {v}, v ∈ (blk.instrs.take k).flatMap (·.outs) → v ∈ blk.instrs.flatMap (·.outs) := by
    intro v hv; rw [S.outs_blk]; exact mem_append.2 (Or.inl hv)
  have inB2 : ∀ {v}, v ∈ call.outs ++ (blk.instrs.drop (k + 1)).flatMap (·.outs) → v ∈ blk.instrs.flatMap (·.outs) := by
    intro v hv; rw [S.outs_blk]; exact mem_append.2 (Or.inr hv)
  have sameH : ∀ {x X y Y v}, H.body.get x = some X → v ∈ X.instrs.flatMap (·.outs) → H.body.get y = some Y → v ∈ Y.instrs.flatMap (·.outs) → x = y := by
    intro x X y Y v hX hv hY hv'
    have := defs_blocks hH (get_mem hX) (get_mem hY) hv hv'
    rw [← get_id hX, ← get_id hY, this]
  have sameF : ∀ {x X y Y v}, F.body.get x = some X → v ∈ X.instrs.flatMap (·.outs) → F.body.get y = some Y → v ∈ Y.instrs.flatMap (·.outs) → x = y := by
    intro x X y Y v hX hv hY hv'
    have := defs_blocks hF (get_mem hX) (get_mem hY) hv hv'
    rw [← get_id hX, ← get_id hY, this]
  have halves : ∀ {v}, v ∈ (blk.instrs.take k).flatMap (·.outs) → v ∈ call.outs ++ (blk.instrs.drop (k + 1)).flatMap (·.outs) → False := by
    intro v h1 h2
    exact (nodup_append.1 hblk).2.2 v h1 v h2 rfl
  refine defs_nodup_of Sh.ids (nodup_append.1 hH).1 ?_ ?_ ?_
  · intro x X' hX
    rcases kinds Sh hX with ⟨rfl, rfl⟩ | ⟨rfl, rfl⟩ | ⟨X, hX0, rfl⟩ | ⟨X, hxb, hX0, rfl⟩
    · rw [S.outs_second, nodup_append]
      have h2 := nodup_append.1 (nodup_append.1 hblk).2.1
      refine ⟨S.phis_outs_sub.2, h2.2.1, fun a ha c hc => h2.2.2 a (S.phis_outs_sub.1 ha) c hc⟩
    · rw [S.outs_first]
      exact (nodup_append.1 hblk).1
    · exact (defs_block hF hX0).sublist (S.outs_callee hX0)
    · rw [S.outs_other hxb hX0]
      exact defs_block hH hX0
  · intro x X y Y hX hY hne v hv hv'
    rcases S.defs_source Sh hX hv with ⟨X0, h1, h2⟩ | ⟨X0, h0, h1, h2⟩ | ⟨h1, h2⟩ | ⟨h1, h2⟩ <;>
    rcases S.defs_source Sh hY hv' with ⟨Y0, g1, g2⟩ | ⟨Y0, g0, g1, g2⟩ | ⟨g1, g2⟩ | ⟨g1, g2⟩
    · exact hne (sameF h1 h2 g1 g2)
    · exact apart h1 h2 g1 g2
    · exact apart h1 h2 S.block (inB1 g2)
    · exact apart h1 h2 S.block (inB2 g2)
    · exact apart g1 g2 h1 h2
    · exact hne (sameH h1 h2 g1 g2)
    · exact h0 (sameH h1 h2 S.block (inB1 g2))
    · exact h0 (sameH h1 h2 S.block (inB2 g2))
    · exact apart g1 g2 S.block (inB1 h2)
    · exact g0 (sameH g1 g2 S.block (inB1 h2))
    · exact hne (h1.trans g1.symm)
    · exact halves h2 g2
    · exact apart g1 g2 S.block (inB2 h2)
    · exact g0 (sameH g1 g2 S.block (inB2 h2))
    · exact halves g2 h2
    · exact hne (h1.trans g1.symm)
  · intro x X' hX v hv ha
    rcases S.defs_origin Sh hX hv with ⟨y, Y, hY, hv⟩ | ⟨y, Y, hY, hv⟩
    · have hd := flat_defs hY hv
      exact S.apart (defs_names hd) (mem_append.2 (Or.inl ha)) (S.ssaF.noConst v hd)
    · exact flat_args hH hY hv ha

theorem noConst_after : ∀ v ∈ (⟨H.args, G'⟩ : Component).defs, isConst v = false := by
  intro v hv
  rcases mem_append.1 hv with hv | hv
  · exact S.ssaH.noConst v (mem_append.2 (Or.inl hv))
  · obtain ⟨X, hX, hv⟩ := mem_flatMap.1 hv
    obtain ⟨Y, hY⟩ := get_isSome_iff.2 (mem_map_of_mem (f := (·.id)) hX)
    have e := inj_on_of_nodup_map Sh.ids (get_mem hY) hX (get_id hY)
    subst e
    rcases S.defs_origin Sh hY hv with ⟨y, Y, hY, hv⟩ | ⟨y, Y, hY, hv⟩
    · exact S.ssaF.noConst v (flat_defs hY hv)
    · exact S.ssaH.noConst v (flat_defs hY hv)

/-! ### Paths -/

omit S Sh in
/-- The points of the result that are reached without defining `y`. -/
def Reached (H F : Component) (call : Instr) (b : String) (k : Nat) (blk : Block) (y x' : String) (rest' : List Instr) : Prop :=
  (∃ x rest, Point H F call b k blk x rest x' rest' ∧ ∀ w, outMap F call w = y → Clear H [w] x rest) ∨
  (∃ X rest, F.body.get x' = some X ∧ rest <:+ code X ∧ (x' ∈ F.body.returns → rest ≠ []) ∧ rest' = calleeRest F call x' rest ∧
    (∀ w, outMap F call w = y → Clear H [w] b (call :: blk.instrs.drop (k + 1))) ∧ ∀ v, bothMap F call v = y → Clear F [v] x' rest)

omit S Sh in
theorem rename_outs {ρ : String → String} {i : Instr} {w y : String} (e : ρ w = y) (hw : w ∈ i.outs) : y ∈ (renameInstr ρ i).outs :=
  e ▸ mem_map_of_mem hw

/-- Entering a block of the caller. -/
theorem enter_host {y t : String} {T T' : Block} (hT : H.body.get t = some T) (hT' : G'.get (target b t) = some T')
    (hp : ∀ i ∈ phis T', y ∉ i.outs) (hc : ∀ w, outMap F call w = y → (∀ v ∈ [w], ∀ i ∈ phis T, v ∉ i.outs) → Clear H [w] t (code T)) :
    Reached H F call b k blk y (target b t) (code T') := by
  by_cases htb : t = b
  · subst htb
    have e : T = blk := by rw [S.block] at hT; exact (Option.some.inj hT).symm
    subst e
    have et : target t t = firstId t := by simp [target]
    rw [et] at hT' ⊢
    rw [get_first Sh] at hT'
    cases hT'
    left
    refine ⟨t, code T, ?_, fun w hw => hc w hw ?_⟩
    · rw [S.first_code, S.code_blk]; exact .first suffix_rfl
    · intro v hv i hi ho
      rw [mem_singleton] at hv; subst hv
      exact hp (renameInstr (outMap F call) i) (by rw [S.first_phis]; exact mem_map_of_mem hi) (rename_outs hw ho)
  · have et : target b t = t := by simp [target, htb]
    rw [et] at hT' ⊢
    rw [S.get_other Sh htb hT] at hT'
    cases hT'
    left
    have e1 : code (renameBlock (outMap F call) (fixOther b blk t T)) = (code T).map (renameInstr (outMap F call)) := code_rename _ _
    have e2 : phis (renameBlock (outMap F call) (fixOther b blk t T)) = (phis T).map (renameInstr (outMap F call)) := phis_rename _ _
    refine ⟨t, code T, ?_, fun w hw => hc w hw ?_⟩
    · rw [e1]; exact .other htb hT suffix_rfl
    · intro v hv i hi ho
      rw [mem_singleton] at hv; subst hv
      exact hp (renameInstr (outMap F call) i) (by rw [e2]; exact mem_map_of_mem hi) (rename_outs hw ho)

omit Sh in
theorem point_cons {x x' : String} {rest : List Instr} {i' : Instr} {is' : List Instr} (hp : Point H F call b k blk x rest x' (i' :: is')) :
    ∃ i is, rest = i :: is ∧ i' = renameInstr (outMap F call) i ∧ Point H F call b k blk x is x' is' := by
  generalize hr : i' :: is' = rest' at hp
  cases hp with
  | @other _ X _ hx hX hs =>
    obtain ⟨i, is, e1, e2, e3⟩ := map_eq_cons_iff.1 hr.symm
    subst e1
    refine ⟨i, is, rfl, e2.symm, ?_⟩
    rw [← e3]
    exact .other hx hX ((suffix_cons _ _).trans hs)
  | @first pre hs =>
    obtain ⟨i, is, e1, e2, e3⟩ := map_eq_cons_iff.1 hr.symm
    subst e1
    refine ⟨i, _, rfl, e2.symm, ?_⟩
    rw [← e3]
    exact .first ((suffix_cons _ _).trans hs)
  | second hs =>
    obtain ⟨i, is, e1, e2, e3⟩ := map_eq_cons_iff.1 hr.symm
    subst e1
    refine ⟨i, is, rfl, e2.symm, ?_⟩
    rw [← e3]
    exact .second ((suffix_cons _ _).trans hs)

omit S Sh in
theorem calleeRest_cons {x : String} {rest : List Instr} {i' : Instr} {is' : List Instr} (hr : x ∈ F.body.returns → rest ≠ [])
    (h : calleeRest F call x rest = i' :: is') : ∃ i is, rest = i :: is ∧ i' = renameInstr (bothMap F call) i ∧
      is' = calleeRest F call x is ∧ (x ∈ F.body.returns → is ≠ []) := by
  cases rest with
  | nil => unfold calleeRest at h; simp at h
  | cons i is =>
    have hne : x ∈ F.body.returns → is ≠ [] := by
      rintro hx rfl
      unfold calleeRest at h
      rw [if_pos hx] at h
      simp at h
    rw [calleeRest_tail hne, cons.injEq] at h
    exact ⟨i, is, rfl, h.1.symm, h.2.symm, hne⟩

omit S Sh in
theorem calleeRest_nil {x : String} {rest : List Instr} (hr : x ∈ F.body.returns → rest ≠ []) (h : [] = calleeRest F call x rest) :
    (x ∈ F.body.returns ∧ ∃ i, rest = [i]) ∨ (x ∉ F.body.returns ∧ rest = []) := by
  unfold calleeRest at h
  by_cases hx : x ∈ F.body.returns
  · rw [if_pos hx] at h
    have h2 := (map_eq_nil_iff.1 h.symm)
    left
    refine ⟨hx, ?_⟩
    match rest, hr hx, h2 with
    | [i], _, _ => exact ⟨i, rfl⟩
  · rw [if_neg hx] at h
    exact Or.inr ⟨hx, map_eq_nil_iff.1 h.symm⟩

omit Sh in
/-- The returned values are available where they are returned. -/
theorem ret_avail {x : String} {X : Block} (hX : F.body.get x = some X) {i : Instr} (hs : [i] <:+ code X) {z y : String} (hz : z ∈ i.ins)
    (e : inMap F call z = y) (hy : isConst y = false) (hc : ∀ v, bothMap F call v = y → Clear F [v] x [i]) : False := by
  have hzc : isConst z = false := by
    cases h : isConst z with
    | false => rfl
    | true => rw [in_const h] at e; rw [e, hy] at h; cases h
  refine S.ssaF.ins x X i [] hX hs z hz hzc (hc z ?_)
  rw [bothMap, S.out_in (instr_names hX (code_mem (suffix_head_mem hs)) (mem_append.2 (Or.inl hz))), e]

omit Sh in
/-- The return of an exit. -/
theorem ret_single {x : String} {X : Block} (hX : F.body.get x = some X) (hx : x ∈ F.body.returns) {i : Instr} (hs : [i] <:+ code X) :
    retOf F call x = i.ins.map (inMap F call) ∧ i.ins.length = call.outs.length := by
  obtain ⟨i0, pre, h1, h2, h3, h4, h5, h6, h7, h8⟩ := S.ret_block hx hX
  have hi : i = i0 := by
    obtain ⟨t, ht⟩ := hs
    rw [h6] at ht
    exact (append_inj' ht rfl).2 |> fun e => by simpa using e
  subst hi
  exact ⟨h4, h3⟩

/-- What is reached without defining `y` after inlining is reached before without defining the variables that become `y`. -/
theorem reached {y : String} (hy : isConst y = false) {x' : String} {rest' : List Instr} (hc : Clear ⟨H.args, G'⟩ [y] x' rest') :
    Reached H F call b k blk y x' rest' := by
  have one : ∀ {P : String → Prop}, (∀ v ∈ [y], P v) → P y := fun h => h y (by simp)
  induction hc with
  | @start s0 S0 hs hS ha hp =>
    obtain ⟨t, T, ht, hT⟩ := S.saneH.start
    have hs' : G'.start = some s0 := hs
    rw [start_eq Sh, ht, Option.map_some, Option.some.injEq] at hs'
    subst hs'
    refine S.enter_host Sh hT hS (one hp) ?_
    intro w hw hph
    refine .start ht hT ?_ hph
    intro v hv hva
    rw [mem_singleton] at hv; subst hv
    rw [out_not_out fun ho => defs_args S.ssaH.once S.block S.call_mem ho hva] at hw
    exact one ha (hw ▸ hva)
  | @instr x' i' is' _ ho ih =>
    rcases ih with ⟨x, rest, hpt, hcl⟩ | ⟨X, rest, hX, hs, hr, e, hcl, hcf⟩
    · obtain ⟨i, is, rfl, rfl, hpt'⟩ := S.point_cons hpt
      refine Or.inl ⟨x, is, hpt', fun w hw => .instr (hcl w hw) ?_⟩
      intro v hv hvo
      rw [mem_singleton] at hv; subst hv
      exact one ho (rename_outs hw hvo)
    · obtain ⟨i, is, rfl, rfl, rfl, hne⟩ := calleeRest_cons hr e.symm
      refine Or.inr ⟨X, is, hX, (suffix_cons _ _).trans hs, hne, rfl, hcl, fun v hv => .instr (hcf v hv) ?_⟩
      intro u hu huo
      rw [mem_singleton] at hu; subst hu
      exact one ho (rename_outs hv huo)
  | @edge x' t' B' T' _ hB ht hT hp ih =>
    have hp' : ∀ i ∈ phis T', y ∉ i.outs := one hp
    have hB' : G'.get x' = some B' := hB
    have hT' : G'.get t' = some T' := hT
    rcases ih with ⟨x, rest, hpt, hcl⟩ | ⟨X, rest, hX, hs, hr, e, hcl, hcf⟩
    · generalize hr : ([] : List Instr) = rest' at hpt
      cases hpt with
      | @other _ X _ hx hX hs =>
        have hn := map_eq_nil_iff.1 hr.symm
        subst hn
        rw [S.get_other Sh hx hX] at hB'
        cases hB'
        rw [succs_other] at ht
        obtain ⟨t, ht0, rfl⟩ := mem_map.1 ht; replace ht := ht0
        obtain ⟨T, hTH⟩ := S.saneH.coherent.targets _ X hX t ht
        exact S.enter_host Sh hTH hT' hp' fun w hw hph => .edge (hcl w hw) hX ht hTH hph
      | @first pre hs =>
        have hn := map_eq_nil_iff.1 hr.symm
        subst hn
        rw [get_first Sh] at hB'
        cases hB'
        rw [succs_first, mem_singleton] at ht
        subst ht
        obtain ⟨T, hTF⟩ := S.start_get
        rw [S.get_callee Sh hTF] at hT'
        cases hT'
        refine Or.inr ⟨T, code T, hTF, suffix_rfl, S.nonempty_rest hTF, S.callee_code hTF, hcl, ?_⟩
        intro v hv
        refine .start S.start hTF ?_ ?_
        · intro u hu hua
          rw [mem_singleton] at hu; subst hu
          have h1 := S.in_arg_mem hua
          have h2 : inMap F call u = y := by rw [← hv, bothMap, S.out_in (mem_append.2 (Or.inl hua))]
          rw [h2] at h1
          have h3 := hcl y (out_not_out (S.own y h1))
          exact S.ssaH.ins b blk call _ S.block S.call_suffix y h1 hy h3
        · intro u hu i hi hui
          rw [mem_singleton] at hu; subst hu
          exact hp' (renameInstr (bothMap F call) i) (by rw [S.callee_phis hTF]; exact mem_map_of_mem hi) (rename_outs hv hui)
      | second hs =>
        have hn := map_eq_nil_iff.1 hr.symm
        subst hn
        rw [get_second Sh] at hB'
        cases hB'
        rw [succs_second] at ht
        obtain ⟨T, hTH⟩ := S.saneH.coherent.targets b blk S.block t' ht
        have htb : t' ≠ b := by rintro rfl; exact S.self ht
        have et : target b t' = t' := by simp [target, htb]
        rw [← et] at hT' ⊢
        exact S.enter_host Sh hTH hT' hp' fun w hw hph => .edge (hcl w hw) S.block ht hTH hph
    · rw [S.get_callee Sh hX] at hB'
      cases hB'
      rw [S.succs_callee hX] at ht
      rcases calleeRest_nil hr e with ⟨hx, i, rfl⟩ | ⟨hx, rfl⟩
      · rw [if_pos hx, mem_singleton] at ht
        subst ht
        rw [get_second Sh] at hT'
        cases hT'
        left
        refine ⟨b, blk.instrs.drop (k + 1), by rw [S.second_code]; exact .second suffix_rfl, ?_⟩
        intro w hw
        refine .instr (hcl w hw) ?_
        intro v hv hvo
        rw [mem_singleton] at hv; subst hv
        rcases S.out_cases hvo with ⟨h1, hno⟩ | ⟨e0, he0, hz⟩
        · rcases S.outs_phisOf with ⟨h2, _, _⟩ | ⟨_, h2⟩
          · have h3 : v ∈ (phisOf F call).flatMap (·.outs) := by rw [h2]; exact mem_reverse.2 hvo
            obtain ⟨j, hj, hvj⟩ := mem_flatMap.1 h3
            exact hp' (renameInstr (outMap F call) j) (by rw [S.second_phis]; exact mem_map_of_mem hj) (rename_outs hw hvj)
          · match hr : F.body.returns with
            | [] => rw [hr] at hx; cases hx
            | [e0] => exact hno e0 hr
            | r1 :: r2 :: rs => exact h2 r1 r2 rs hr
        · have hxe : x' = e0 := by rw [he0, mem_singleton] at hx; exact hx
          subst hxe
          have h4 := (of_mem_zip hz).2
          rw [(S.ret_single hX hx hs).1] at h4
          obtain ⟨z, hz1, hz2⟩ := mem_map.1 h4
          exact S.ret_avail hX hs hz1 (hz2.trans hw) hy hcf
      · rw [if_neg hx] at ht
        obtain ⟨T, hTF⟩ := S.saneF.coherent.targets x' X hX t' ht
        rw [S.get_callee Sh hTF] at hT'
        cases hT'
        refine Or.inr ⟨T, code T, hTF, suffix_rfl, S.nonempty_rest hTF, S.callee_code hTF, hcl, ?_⟩
        intro v hv
        refine .edge (hcf v hv) hX ht hTF ?_
        intro u hu i hi hui
        rw [mem_singleton] at hu; subst hu
        exact hp' (renameInstr (bothMap F call) i) (by rw [S.callee_phis hTF]; exact mem_map_of_mem hi) (rename_outs hv hui)

/-! ### Uses -/

omit S Sh in
theorem var_of_out {w : String} (hw : isConst (outMap F call w) = false) : isConst w = false := by
  cases h : isConst w with
  | false => rfl
  | true => rw [out_const h, h] at hw; cases hw

omit S Sh in
theorem var_of_both {w : String} (hw : isConst (bothMap F call w) = false) : isConst w = false := by
  cases h : isConst w with
  | false => rfl
  | true => rw [both_const h, h] at hw; cases hw

theorem ins_after {x' : String} {i' : Instr} {is' : List Instr} {u : String} (hu : u ∈ i'.ins) (hc : isConst u = false) :
    ¬ Clear ⟨H.args, G'⟩ [u] x' (i' :: is') := by
  intro hcl0
  rcases S.reached Sh hc hcl0 with ⟨x, rest, hpt, hcl⟩ | ⟨X, rest, hX, hs, hr, e, _, hcf⟩
  · obtain ⟨i, is, rfl, rfl, _⟩ := S.point_cons hpt
    obtain ⟨w, hw, rfl⟩ := mem_map.1 hu
    obtain ⟨X, hX, hs⟩ := S.point_some hpt
    exact S.ssaH.ins x X i is hX hs w hw (var_of_out hc) (hcl w rfl)
  · obtain ⟨i, is, rfl, rfl, rfl, _⟩ := calleeRest_cons hr e.symm
    obtain ⟨w, hw, rfl⟩ := mem_map.1 hu
    exact S.ssaF.ins x' X i is hX hs w hw (var_of_both hc) (hcf w rfl)

/-- Which points are the ends of blocks. -/
theorem end_cases {y x' : String} (hy : isConst y = false) (hcl : Clear ⟨H.args, G'⟩ [y] x' []) :
    (∃ X, x' ≠ b ∧ H.body.get x' = some X ∧ ∀ w, outMap F call w = y → Clear H [w] x' []) ∨ x' = firstId b ∨
    (x' = secondId b ∧ ∀ w, outMap F call w = y → Clear H [w] b []) ∨
    (∃ X, F.body.get x' = some X ∧ x' ∉ F.body.returns ∧ ∀ v, bothMap F call v = y → Clear F [v] x' []) ∨
    (∃ X i, F.body.get x' = some X ∧ x' ∈ F.body.returns ∧ [i] <:+ code X ∧ ∀ v, bothMap F call v = y → Clear F [v] x' [i]) := by
  rcases S.reached Sh hy hcl with ⟨x, rest, hpt, hcl⟩ | ⟨X, rest, hX, hs, hr, e, _, hcf⟩
  · generalize hr : ([] : List Instr) = rest' at hpt
    cases hpt with
    | @other _ X _ hx hX hs =>
      have hn := map_eq_nil_iff.1 hr.symm
      subst hn
      exact Or.inl ⟨X, hx, hX, hcl⟩
    | first hs => exact Or.inr (Or.inl rfl)
    | second hs =>
      have hn := map_eq_nil_iff.1 hr.symm
      subst hn
      exact Or.inr (Or.inr (Or.inl ⟨rfl, hcl⟩))
  · rcases calleeRest_nil hr e with ⟨hx, i, rfl⟩ | ⟨hx, rfl⟩
    · exact Or.inr (Or.inr (Or.inr (Or.inr ⟨X, i, hX, hx, hs, hcf⟩)))
    · exact Or.inr (Or.inr (Or.inr (Or.inl ⟨X, hX, hx, hcf⟩)))

theorem cond_after (okF : CompOk F) {x' : String} {X' : Block} {u : String} (hX' : G'.get x' = some X') (hu : X'.cond = some u)
    (hc : isConst u = false) : ¬ Clear ⟨H.args, G'⟩ [u] x' [] := by
  intro hcl0
  rcases S.end_cases Sh hc hcl0 with ⟨X, hxb, hX, hcl⟩ | rfl | ⟨rfl, hcl⟩ | ⟨X, hX, hx, hcf⟩ | ⟨X, i, hX, hx, hs, hcf⟩
  · rw [S.get_other Sh hxb hX] at hX'
    cases hX'
    obtain ⟨w, hw, rfl⟩ := Option.map_eq_some_iff.1 (show X.cond.map (outMap F call) = some u from hu)
    exact S.ssaH.cond x' X w hX hw (var_of_out hc) (hcl w rfl)
  · rw [get_first Sh] at hX'
    cases hX'
    have hu' : (none : Option String) = some u := hu
    cases hu'
  · rw [get_second Sh] at hX'
    cases hX'
    obtain ⟨w, hw, rfl⟩ := Option.map_eq_some_iff.1 (show blk.cond.map (outMap F call) = some u from hu)
    exact S.ssaH.cond b blk w S.block hw (var_of_out hc) (hcl w rfl)
  · rw [S.get_callee Sh hX] at hX'
    cases hX'
    obtain ⟨w', hw', rfl⟩ := Option.map_eq_some_iff.1 (show (X.cond.map (inMap F call)).map (outMap F call) = some u from hu)
    obtain ⟨w, hw, rfl⟩ := Option.map_eq_some_iff.1 hw'
    exact S.ssaF.cond x' X w hX hw (var_of_both hc) (hcf w rfl)
  · rw [S.get_callee Sh hX] at hX'
    cases hX'
    obtain ⟨E, hE, hj⟩ := (S.exits.returns x').1 hx
    rw [hX] at hE
    cases hE
    have hu' : (X.cond.map (inMap F call)).map (outMap F call) = some u := hu
    rw [(okF.returns x' X hX hj).2.1] at hu'
    cases hu'

omit Sh in
/-- The phi functions for the results. -/
theorem phisOf_mem {i : Instr} (hi : i ∈ phisOf F call) : ∃ o n, (o, n) ∈ call.outs.zipIdx ∧
    i = ⟨"PhiFunction", (retsOf F call).map fun r => r.getD n "", [o]⟩ ∧ entriesOf F call = F.body.returns ∧ outMap F call = id := by
  rcases S.outs_phisOf with ⟨_, ⟨r1, r2, rs, hr⟩, hid⟩ | ⟨h0, _⟩
  · have hpo : phisOf F call = ((call.outs.zipIdx).map fun p => (⟨"PhiFunction", (retsOf F call).map fun r => r.getD p.2 "", [p.1]⟩ : Instr)).reverse := by
      unfold phisOf retsOf; rw [hr]; rfl
    have hen : entriesOf F call = F.body.returns := by unfold entriesOf retsOf; rw [hr]; rfl
    rw [hpo, mem_reverse] at hi
    obtain ⟨p, hp, rfl⟩ := mem_map.1 hi
    exact ⟨p.1, p.2, hp, rfl, hen, hid⟩
  · rw [h0] at hi; cases hi

theorem shape_after {x' : String} {X' : Block} {i' : Instr} (hX' : G'.get x' = some X') (hi : i' ∈ phis X') :
    i'.ins.length = X'.entries.length ∧ ∃ v, i'.outs = [v] := by
  have base : ∀ {c : Component} {x : String} {X : Block} {i : Instr} (ρ : String → String), StrictSSA c → c.body.get x = some X → i ∈ phis X →
      (renameInstr ρ i).ins.length = X.entries.length ∧ ∃ v, (renameInstr ρ i).outs = [v] := by
    intro c x X i ρ hc hX hi
    obtain ⟨h1, v, h2⟩ := hc.shape x X i hX hi
    refine ⟨by simpa [renameInstr] using h1, ρ v, by simp [renameInstr, h2]⟩
  rcases kinds Sh hX' with ⟨rfl, rfl⟩ | ⟨rfl, rfl⟩ | ⟨X, hX, rfl⟩ | ⟨X, hxb, hX, rfl⟩
  · rw [S.second_phis] at hi
    obtain ⟨i, hi0, rfl⟩ := mem_map.1 hi; replace hi := hi0
    obtain ⟨o, n, _, rfl, hen, hid⟩ := S.phisOf_mem hi
    refine ⟨?_, _, rfl⟩
    show (((retsOf F call).map fun r => r.getD n "").map (outMap F call)).length = (entriesOf F call).length
    rw [hen, length_map, length_map, retsOf, length_map]
  · rw [S.first_phis] at hi
    obtain ⟨i, hi0, rfl⟩ := mem_map.1 hi; replace hi := hi0
    have := base (outMap F call) S.ssaH S.block hi
    exact this
  · rw [S.callee_phis hX] at hi
    obtain ⟨i, hi0, rfl⟩ := mem_map.1 hi; replace hi := hi0
    have := base (bothMap F call) S.ssaF hX hi
    exact this
  · have e2 : phis (renameBlock (outMap F call) (fixOther b blk x' X)) = (phis X).map (renameInstr (outMap F call)) := phis_rename _ _
    rw [e2] at hi
    obtain ⟨i, hi0, rfl⟩ := mem_map.1 hi; replace hi := hi0
    obtain ⟨h1, h2⟩ := base (outMap F call) S.ssaH hX hi
    refine ⟨h1.trans ?_, h2⟩
    show X.entries.length = (if x' ∈ blk.succs then replaceName b (secondId b) X.entries else X.entries).length
    split
    · rw [replaceName, length_map]
    · rfl

theorem phis_after {x' : String} {X' : Block} {i' : Instr} (hX' : G'.get x' = some X') (hi : i' ∈ phis X') {n : Nat} {p u : String}
    (hp : X'.entries[n]? = some p) (hu : i'.ins[n]? = some u) (hc : isConst u = false) : ¬ Clear ⟨H.args, G'⟩ [u] p [] := by
  intro hcl0
  have hend := S.end_cases Sh hc hcl0
  rcases kinds Sh hX' with ⟨rfl, rfl⟩ | ⟨rfl, rfl⟩ | ⟨X, hX, rfl⟩ | ⟨X, hxb, hX, rfl⟩
  · rw [S.second_phis] at hi
    obtain ⟨i, hi0, rfl⟩ := mem_map.1 hi; replace hi := hi0
    obtain ⟨o, m, hom, rfl, hen, hid⟩ := S.phisOf_mem hi
    have hp' : F.body.returns[n]? = some p := by rw [← hen]; exact hp
    have hpr := mem_of_getElem? hp'
    obtain ⟨P, hP⟩ := S.ret_get hpr
    have hne := S.F_ne hP
    rcases hend with ⟨X, _, hX, _⟩ | rfl | ⟨rfl, _⟩ | ⟨X, _, hx, _⟩ | ⟨X, j, hX, hx, hs, hcf⟩
    · rw [S.disj p P hP] at hX; cases hX
    · exact hne.1 rfl
    · exact hne.2.1 rfl
    · exact hx hpr
    · have hu' : (((retsOf F call).map fun r => r.getD m "").map (outMap F call))[n]? = some u := hu
      rw [hid, map_id, getElem?_map, retsOf, getElem?_map, hp'] at hu'
      simp only [Option.map_some, Option.some.injEq] at hu'
      obtain ⟨h1, h2⟩ := S.ret_single hX hx hs
      have hm : m < j.ins.length := by
        have := (mem_zipIdx hom).2.1
        omega
      rw [h1, getD_eq_getElem?_getD, getElem?_map, getElem?_eq_getElem hm] at hu'
      exact S.ret_avail hX hs (getElem_mem hm) (by simpa using hu') hc hcf
  · rw [S.first_phis] at hi
    obtain ⟨i, hi0, rfl⟩ := mem_map.1 hi; replace hi := hi0
    have hp' : blk.entries[n]? = some p := hp
    have hpc := S.saneH.entries b blk S.block p (mem_of_getElem? hp')
    have hne := S.pred_H S.block hpc
    obtain ⟨w, hw, rfl⟩ := Option.map_eq_some_iff.1 (by rw [← getElem?_map]; exact hu)
    rcases hend with ⟨X, _, hX, hcl⟩ | rfl | ⟨rfl, _⟩ | ⟨X, hX, _⟩ | ⟨X, j, hX, _⟩
    · exact S.ssaH.phis b blk i S.block hi n p w hp' hw (var_of_out hc) (hcl w rfl)
    · exact hne.1 rfl
    · exact hne.2.1 rfl
    · rw [hne.2.2] at hX; cases hX
    · rw [hne.2.2] at hX; cases hX
  · rw [S.callee_phis hX] at hi
    obtain ⟨i, hi0, rfl⟩ := mem_map.1 hi; replace hi := hi0
    have hp' : X.entries[n]? = some p := hp
    have hpc := S.saneF.entries x' X hX p (mem_of_getElem? hp')
    have hne := S.pred_F hX hpc
    obtain ⟨w, hw, rfl⟩ := Option.map_eq_some_iff.1 (by rw [← getElem?_map]; exact hu)
    obtain ⟨P, hP⟩ := S.saneF.coherent.preds x' X hX p hpc
    rcases hend with ⟨Y, _, hY, hcl⟩ | rfl | ⟨rfl, _⟩ | ⟨Y, hY, _, hcf⟩ | ⟨Y, j, hY, hx, _⟩
    · rw [S.disj p P hP] at hY; cases hY
    · exact hne.1 rfl
    · exact hne.2.1 rfl
    · exact S.ssaF.phis x' X i hX hi n p w hp' hw (var_of_both hc) (hcf w rfl)
    · have h1 := (S.saneF.coherent.edges p x' P X hP hX).1 hpc
      obtain ⟨_, _, _, _, _, _, hs, _⟩ := S.ret_block hx hP
      rw [hs] at h1; cases h1
  · have e2 : phis (renameBlock (outMap F call) (fixOther b blk x' X)) = (phis X).map (renameInstr (outMap F call)) := phis_rename _ _
    rw [e2] at hi
    obtain ⟨i, hi0, rfl⟩ := mem_map.1 hi; replace hi := hi0
    obtain ⟨w, hw, rfl⟩ := Option.map_eq_some_iff.1 (by rw [← getElem?_map]; exact hu)
    have hp1 : (if x' ∈ blk.succs then replaceName b (secondId b) X.entries else X.entries)[n]? = some p := hp
    have hq : ∃ q, X.entries[n]? = some q ∧ p = if q = b then secondId b else q := by
      split at hp1
      · rw [replaceName, getElem?_map] at hp1
        obtain ⟨q, hq, e⟩ := Option.map_eq_some_iff.1 hp1
        exact ⟨q, hq, e.symm⟩
      · next hxs =>
        refine ⟨p, hp1, ?_⟩
        rw [if_neg]
        rintro rfl
        exact hxs ((S.saneH.coherent.edges p x' blk X S.block hX).1 (S.saneH.entries x' X hX p (mem_of_getElem? hp1)))
    obtain ⟨q, hq, hpq⟩ := hq
    have hqc := S.saneH.entries x' X hX q (mem_of_getElem? hq)
    have hne := S.pred_H hX hqc
    have hclq : Clear H [w] q [] := by
      by_cases hqb : q = b
      · rw [if_pos hqb] at hpq
        subst hpq
        rcases hend with ⟨Y, _, hY, _⟩ | e | ⟨_, hcl⟩ | ⟨Y, hY, _⟩ | ⟨Y, j, hY, _⟩
        · exact absurd rfl (S.H_ne hY).2.1
        · exact absurd e.symm (firstId_ne_secondId b)
        · rw [hqb]; exact hcl w rfl
        · exact absurd rfl (S.F_ne hY).2.1
        · exact absurd rfl (S.F_ne hY).2.1
      · rw [if_neg hqb] at hpq
        subst hpq
        rcases hend with ⟨Y, _, hY, hcl⟩ | e | ⟨e, _⟩ | ⟨Y, hY, _⟩ | ⟨Y, j, hY, _⟩
        · exact hcl w rfl
        · exact absurd e hne.1
        · exact absurd e hne.2.1
        · rw [hne.2.2] at hY; cases hY
        · rw [hne.2.2] at hY; cases hY
    exact S.ssaH.phis x' X i hX hi n q w hq hw (var_of_out hc) hclq

theorem ssa_after (okF : CompOk F) : StrictSSA ⟨H.args, G'⟩ where
  once := S.once_after Sh
  noConst := S.noConst_after Sh
  ins := fun _ _ _ _ _ _ _ hu hc => S.ins_after Sh hu hc
  cond := fun _ _ _ hX hu hc => S.cond_after Sh okF hX hu hc
  shape := fun _ _ _ hX hi => S.shape_after Sh hX hi
  phis := fun _ _ _ hX hi _ _ _ hp hu hc => S.phis_after Sh hX hi hp hu hc

end Site
end

end Grey.Inline
