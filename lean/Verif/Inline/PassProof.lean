/-
The inlining pass finds the calls and preserves the executions: C57.
-/
import Verif.Inline.Pass
namespace Grey.Inline
open List Grey.Cfg

theorem SameRuns.refl (O : Obj) : SameRuns O O := fun _ _ _ _ _ => ⟨fun _ => Iff.rfl, Iff.rfl⟩

theorem SameRuns.trans {O O' O'' : Obj} (h : SameRuns O O') (h' : SameRuns O' O'') : SameRuns O O'' :=
  fun V W sem base w => (h V W sem base w).trans (h' V W sem base w)

/-! ### The parts of a block -/

/-- An instruction stands for an item: a phi function, or a (renamed) instruction of the original block. -/
def Stands (B0 : Block) (i : Instr) : Item → Prop
  | .phi => isPhi i = true
  | .orig p => isPhi i = false ∧ ∃ i0, (code B0)[p]? = some i0 ∧ i0.op = i.op

/-- The blocks `xs` are the parts of an original block. -/
def Parts (G : BlockList) (B0 : Block) (xs : List String) (bs : List (List Item)) : Prop :=
  Forall₂ (fun x its => ∃ X, G.get x = some X ∧ Forall₂ (Stands B0) X.instrs its) xs bs

theorem stands_rename {B0 : Block} {r : String → String} {l : List Instr} {its : List Item} (h : Forall₂ (Stands B0) l its) :
    Forall₂ (Stands B0) (l.map (renameInstr r)) its := by
  rw [forall₂_map_left_iff]
  refine h.imp ?_
  intro i it hi
  cases it <;> exact hi

theorem stands_length {B0 : Block} {l : List Instr} {its : List Item} (h : Forall₂ (Stands B0) l its) :
    (l.filter isPhi).length = numPhis its ∧ (l.filter fun i => !isPhi i).length = (nonPhi its).length := by
  unfold numPhis nonPhi
  induction h with
  | nil => exact ⟨rfl, rfl⟩
  | @cons i it l its hi _ ih =>
    cases it with
    | phi =>
      have hi' : isPhi i = true := hi
      simp [hi', ih.1, ih.2]
    | orig p =>
      have hi' : isPhi i = false := hi.1
      simp [hi', ih.1, ih.2]

theorem determine_eq {G : BlockList} {B0 : Block} {xs : List String} {bs : List (List Item)} (h : Parts G B0 xs bs) :
    ∀ p i, determine G p xs i = determineIdx p bs i := by
  induction h with
  | nil => intro p i; rfl
  | @cons x its xs bs hx _ ih =>
    obtain ⟨X, hX, hs⟩ := hx
    intro p i
    unfold determine determineIdx
    rw [hX, Option.bind_some]
    have := stands_length hs
    rw [show (code X).length = (nonPhi its).length from this.2, show (phis X).length = numPhis its from this.1, ih]

theorem locate_parts {G : BlockList} {B0 : Block} {xs : List String} {bs : List (List Item)} (h : Parts G B0 xs bs) (p : Nat) :
    locate G p xs = locateCall p bs := by
  unfold locate locateCall
  rw [Forall₂.length_eq h, determine_eq h]
  split
  · rfl
  · cases h with
    | nil => rfl
    | cons hx _ =>
      obtain ⟨X, hX, hs⟩ := hx
      simp only [getElem?_cons_zero, Option.bind_some, Option.map_some, hX]
      rw [show (phis X).length = _ from (stands_length hs).1]

theorem forall₂_get {α β : Type} {R : α → β → Prop} {l : List α} {m : List β} (h : Forall₂ R l m) {n : Nat} {y : β} (hy : m[n]? = some y) :
    ∃ x, l[n]? = some x ∧ R x y := by
  induction h generalizing n with
  | nil => simp at hy
  | cons hab _ ih =>
    cases n with
    | zero => simp only [getElem?_cons_zero, Option.some.injEq] at hy; subst hy; exact ⟨_, rfl, hab⟩
    | succ n => simp only [getElem?_cons_succ] at hy ⊢; exact ih hy

theorem forall₂_replicate {α β : Type} {R : α → β → Prop} {l : List α} {y : β} (h : ∀ x ∈ l, R x y) : Forall₂ R l (replicate l.length y) := by
  induction l with
  | nil => exact .nil
  | cons a l ih => exact .cons (h a mem_cons_self) (ih fun x hx => h x (mem_cons_of_mem _ hx))

theorem forall₂_map_imp {α β : Type} {R R' : α → β → Prop} {l : List α} {m : List β} (h : Forall₂ R l m) (hi : ∀ a ∈ l, ∀ b, R a b → R' a b) :
    Forall₂ R' l m := by
  induction h with
  | nil => exact .nil
  | @cons a b l m hab _ ih => exact .cons (hi a mem_cons_self b hab) (ih fun x hx => hi x (mem_cons_of_mem _ hx))

section
variable {O : Obj} {h : Option String} {f : String} {H F : Component} {s x : String} {k : Nat} {blk : Block} {call : Instr}
  {G' : BlockList} (S : Site O h f H F s x k blk call) (Sh : Shape F call s x k blk H.body G')

namespace Site
include S Sh

/-- Blocks other than the one with the call keep their instructions. -/
theorem parts_other {B0 : Block} {xs : List String} {bs : List (List Item)} (hp : Parts H.body B0 xs bs) (hx : x ∉ xs) :
    Parts G' B0 xs bs := by
  refine forall₂_map_imp hp ?_
  rintro y hy its ⟨Y, hY, hs⟩
  have hne : y ≠ x := by rintro rfl; exact hx hy
  exact ⟨_, S.get_other Sh hne hY, stands_rename hs⟩

/-- The parts of the block with the call. -/
theorem parts_split {B0 : Block} {xs : List String} {bs : List (List Item)} (hp : Parts H.body B0 xs bs) {n : Nat} (hx : xs[n]? = some x)
    (hnd : xs.Nodup) :
    Parts G' B0 (xs.take n ++ [firstId x, secondId x] ++ xs.drop (n + 1)) (inlineAt n k (phisOf F call).length bs) := by
  have hlt := (List.getElem?_eq_some_iff.1 hx).1
  have hlt' : n < bs.length := by rw [← Forall₂.length_eq hp]; exact hlt
  have hsplit : xs = xs.take n ++ x :: xs.drop (n + 1) := by
    conv_lhs => rw [← take_append_drop n xs, drop_eq_getElem_cons hlt, (List.getElem?_eq_some_iff.1 hx).2]
  have hn2 := hnd
  rw [hsplit, nodup_append] at hn2
  obtain ⟨h1, h2, h3⟩ := hn2
  obtain ⟨y, hy, Y, hY, hs⟩ := forall₂_get hp (getElem?_eq_getElem hlt')
  rw [hx] at hy
  obtain rfl := Option.some.inj hy
  have e := S.block
  rw [hY] at e
  obtain rfl := Option.some.inj e
  unfold inlineAt
  rw [getElem?_eq_getElem hlt']
  refine rel_append (rel_append (S.parts_other Sh (forall₂_take n hp) ?_) ?_) (S.parts_other Sh (forall₂_drop (n + 1) hp) ?_)
  · intro hm; exact h3 x hm x mem_cons_self rfl
  · refine .cons ⟨_, get_first Sh, ?_⟩ (.cons ⟨_, get_second Sh, ?_⟩ .nil)
    · refine stands_rename ?_
      show Forall₂ _ (Y.instrs.take k) _
      have hk := (List.getElem?_eq_some_iff.1 S.callAt).1
      have hl := Forall₂.length_eq hs
      rw [dropLast_eq_take, length_take, take_take, show min (min (k + 1) (bs[n]'hlt').length - 1) (k + 1) = k by omega]
      exact forall₂_take k hs
    · refine stands_rename ?_
      show Forall₂ _ (phisOf F call ++ Y.instrs.drop (k + 1)) _
      exact rel_append (R := Stands B0) (forall₂_replicate (R := Stands B0) (y := Item.phi) fun i hi => S.phisOf_phi hi) (forall₂_drop (k + 1) hs)
  · intro hm; exact (nodup_cons.1 h2).1 hm

end Site
end

/-! ### The loop -/

theorem Site.nodup_split {O : Obj} {h : Option String} {f : String} {H F : Component} {s x : String} {k : Nat} {blk : Block} {call : Instr}
    (S : Site O h f H F s x k blk call) {B0 : Block} {xs : List String} {bs : List (List Item)} (hp : Parts H.body B0 xs bs) {n : Nat}
    (hx : xs[n]? = some x) (hnd : xs.Nodup) : (xs.take n ++ [firstId x, secondId x] ++ xs.drop (n + 1)).Nodup := by
  have hlt := (List.getElem?_eq_some_iff.1 hx).1
  have hsplit : xs = xs.take n ++ x :: xs.drop (n + 1) := by
    conv_lhs => rw [← take_append_drop n xs, drop_eq_getElem_cons hlt, (List.getElem?_eq_some_iff.1 hx).2]
  have hget : ∀ y ∈ xs, y ≠ firstId x ∧ y ≠ secondId x := by
    intro y hy
    obtain ⟨m, hm⟩ := getElem?_of_mem hy
    have hl := (List.getElem?_eq_some_iff.1 hm).1
    obtain ⟨z, hz, Z, hZ, _⟩ := forall₂_get hp (getElem?_eq_getElem (by rw [← Forall₂.length_eq hp]; exact hl))
    rw [hm] at hz
    obtain rfl := Option.some.inj hz
    obtain ⟨h1, h2, _⟩ := S.H_ne hZ
    exact ⟨h1, h2⟩
  have hn2 := hnd
  rw [hsplit, nodup_append] at hn2
  obtain ⟨h1, h2, h3⟩ := hn2
  rw [append_assoc, nodup_append]
  refine ⟨h1, ?_, ?_⟩
  · rw [cons_append, cons_append, nil_append, nodup_cons, nodup_cons, mem_cons, not_or]
    exact ⟨⟨firstId_ne_secondId x, fun hm => (hget _ (mem_of_mem_drop hm)).1 rfl⟩, fun hm => (hget _ (mem_of_mem_drop hm)).2 rfl,
      (nodup_cons.1 h2).2⟩
  · intro y hy z hz e
    subst e
    simp only [cons_append, nil_append, mem_cons] at hz
    rcases hz with rfl | rfl | hz
    · exact (hget _ (mem_of_mem_take hy)).1 rfl
    · exact (hget _ (mem_of_mem_take hy)).2 rfl
    · exact h3 y hy y (mem_cons_of_mem _ hz) rfl

/-- Two blocks with parts of the same name are the same block. -/
theorem same_block {O : Obj} (ok : ObjOk O) {c d : Option String} {C D : Component} (hC : O.comp c = some C) (hD : O.comp d = some D)
    {x y : String} {X Y : Block} (hX : C.body.get x = some X) (hY : D.body.get y = some Y) {w w' : List Char} (hw : Halves w)
    (hw' : Halves w') (e : x.toList ++ w = y.toList ++ w') : x = y ∧ c = d := by
  rcases append_eq_append_iff.1 e with ⟨u, h1, h2⟩ | ⟨u, h1, h2⟩
  · have hu : Halves u := fun a ha => hw a (by rw [h2]; exact mem_append.2 (Or.inl ha))
    obtain ⟨h3, h4⟩ := ok.names c d C D hC hD x y X Y hX hY u hu h1
    rw [h3, append_nil] at h1
    exact ⟨String.toList_injective h1.symm, h4⟩
  · have hu : Halves u := fun a ha => hw' a (by rw [h2]; exact mem_append.2 (Or.inl ha))
    obtain ⟨h3, h4⟩ := ok.names d c D C hD hC y x Y X hY hX u hu h1
    rw [h3, append_nil] at h1
    exact ⟨String.toList_injective h1, h4.symm⟩

theorem halves_snoc {w : List Char} (hw : Halves w) {a : Char} (ha : a = 'f' ∨ a = 's') : Halves (w ++ [a]) := by
  intro c hc
  rcases mem_append.1 hc with h | h
  · exact hw c h
  · rw [mem_singleton] at h; subst h; exact ha

/-- Where the call of a function that has not been visited is. -/
def Located (O0 : Obj) (items : String → List (List Item)) (st : PassState) (f : String) (q : Nat × String × Option String) : Prop :=
  ∃ C0 B0 C i0, O0.comp q.2.2 = some C0 ∧ C0.body.get q.2.1 = some B0 ∧ (code B0)[q.1]? = some i0 ∧ i0.op = f ∧ st.1.comp q.2.2 = some C ∧
    Parts C.body B0 (st.2 q.2.1) (items q.2.1) ∧ (∀ l ∈ items q.2.1, PhisFirst l) ∧ (layoutOf (items q.2.1))[q.1]? = some (some (.orig q.1)) ∧ (st.2 q.2.1).Nodup

/-- What holds when the functions `rest` are still to be visited. -/
structure Inv (Q : Obj → Prop) (O0 : Obj) (sites : String → List (Nat × String × Option String)) (items : String → List (List Item)) (rest : List String)
    (st : PassState) : Prop where
  ok : ObjOk st.1
  runs : SameRuns O0 st.1
  kept : ∀ f F, O0.fns f = some F → (¬ CalledOnce O0 f ∨ f ∈ rest) → ∃ F', st.1.fns f = some F'
  gone : ∀ f, CalledOnce O0 f → f ∉ rest → st.1.fns f = none
  once : ∀ f ∈ rest, CalledOnce O0 f → AtMostOnce st.1 f
  located : ∀ f ∈ rest, ∀ q, sites f = [q] → Located O0 items st f q
  names : ∀ b, ∀ x ∈ st.2 b, ∃ w, Halves w ∧ x.toList = b.toList ++ w
  extra : Q st.1

/-- Something that the inlining of any call preserves. -/
def Kept (Q : Obj → Prop) : Prop := ∀ O O' h f H F s b k blk call G', Site O h f H F s b k blk call → Shape F call s b k blk H.body G' →
  After O O' h f H G' → Q O → Q O'

theorem pass_step {Q : Obj → Prop} (hQ : Kept Q) {O0 : Obj} (ok0 : ObjOk O0) {names : List String} (hn : ∀ f F, O0.fns f = some F → f ∈ names) (hnd : names.Nodup)
    {f : String} {rest : List String} {st : PassState} {items : String → List (List Item)} (hfn : ∃ F, O0.fns f = some F) (hrest : ∀ g ∈ rest, ∃ F, O0.fns g = some F)
    (hfr : f ∉ rest) (hself : CalledOnce O0 f → ∀ x j, ¬ Calls O0 f (some f) x j)
    (hsort : ∀ g ∈ rest, CalledOnce O0 g → CalledOnce O0 f → ∀ x j, ¬ Calls O0 g (some f) x j)
    (I : Inv Q O0 (callSites names O0) items (f :: rest) st) :
    ∃ st' items', passStep (callSites names O0) f st = some st' ∧ Inv Q O0 (callSites names O0) items' rest st' := by
  have hphi : ∀ {g F}, O0.fns g = some F → g ≠ "PhiFunction" := by
    rintro g F hg rfl
    rw [ok0.noPhi] at hg; cases hg
  obtain ⟨F0, hF0⟩ := hfn
  obtain ⟨F, hF⟩ := I.kept f F0 hF0 (Or.inr mem_cons_self)
  by_cases hone : CalledOnce O0 f
  · obtain ⟨⟨p, b, c⟩, hq⟩ := (calledOnce_iff ok0 hn hnd (hphi hF0)).1 hone
    obtain ⟨C0, B0, C, i0, hC0, hB0, hi0, ho, hC, hparts, hpf, hlay, hnodup⟩ := I.located f mem_cons_self _ hq
    simp only at hC0 hB0 hi0 hC hparts hpf hlay hnodup
    -- the block and the position
    obtain ⟨r, its, l1, l2, l3, _⟩ := inline_step hpf hlay 0
    obtain ⟨x, hx, X, hX, hs⟩ := forall₂_get hparts l2
    obtain ⟨i, hi, hst⟩ := forall₂_get hs l3
    obtain ⟨_, i0', hi0', ho'⟩ := hst
    rw [hi0] at hi0'
    obtain rfl := Option.some.inj hi0'
    have hcall : Calls st.1 f c x r.2 := ⟨C, X, i, hC, hX, hi, by rw [← ho', ho]⟩
    have hcf : c ≠ some f := by
      rintro rfl
      refine hself hone b _ ⟨C0, B0, i0, hC0, hB0, (code_position ((ok0.comps _ C0 hC0).phisFirst b B0 hB0)).1 hi0, ho⟩
    obtain ⟨H, s, blk, call, S⟩ := Site.of_ok I.ok hcall (fun c' x' j' h' => I.once f mem_cons_self hone _ _ _ _ _ _ h' hcall) hF hcf
    obtain ⟨O', G', e, hG, A, Sh⟩ := S.after
    have eC := S.comp
    rw [hC] at eC
    obtain rfl := Option.some.inj eC
    refine ⟨(O', fun y => if y = b then (st.2 b).take r.1 ++ [firstId x, secondId x] ++ (st.2 b).drop (r.1 + 1) else st.2 y),
      fun y => if y = b then inlineAt r.1 r.2 (phisOf F call).length (items b) else items y, ?_, ?_⟩
    · unfold passStep
      rw [hF, Option.bind_some, hq]
      simp only
      rw [hC, Option.bind_some, locate_parts hparts, l1, Option.bind_some, hx, Option.bind_some, e]
      rfl
    · obtain ⟨wx, hwx, ewx⟩ := I.names b x (mem_of_getElem? hx)
      refine ⟨S.obj_after Sh A I.ok hG, I.runs.trans (S.sameRuns A Sh), ?_, ?_, ?_, ?_, ?_, hQ _ _ _ _ _ _ _ _ _ _ _ _ S Sh A I.extra⟩
      · intro g K hg hor
        have hgf : g ≠ f := by
          rintro rfl
          rcases hor with h1 | h1
          · exact h1 hone
          · exact hfr h1
        obtain ⟨K', hK'⟩ := I.kept g K hg (hor.imp_right (mem_cons_of_mem _))
        exact S.fn_after A hK' hgf
      · intro g hg hgr
        by_cases hgf : g = f
        · subst hgf; exact A.gone
        · have hnone := I.gone g hg (by rw [mem_cons, not_or]; exact ⟨hgf, hgr⟩)
          cases hc : O'.fns g with
          | none => rfl
          | some K =>
            obtain ⟨_, D, hD⟩ := S.fn_before A hc
            rw [hnone] at hD; cases hD
      · intro g hg ho1
        obtain ⟨K, hK⟩ := hrest g hg
        exact S.once_after_inlining Sh A (hphi hK) (I.once g (mem_cons_of_mem _ hg) ho1)
      · rintro g hg ⟨p', b', c'⟩ hq'
        obtain ⟨K, hK⟩ := hrest g hg
        have hgf : g ≠ f := by rintro rfl; exact hfr hg
        obtain ⟨C0', B0', C', i0', hC0', hB0', hi0', ho', hC', hparts', hpf', hlay', hnodup'⟩ := I.located g (mem_cons_of_mem _ hg) _ hq'
        simp only at hC0' hB0' hi0' hC' hparts' hpf' hlay' hnodup'
        have hgone : CalledOnce O0 g := (calledOnce_iff ok0 hn hnd (hphi hK)).2 ⟨_, hq'⟩
        have hc'f : c' ≠ some f := by
          rintro rfl
          exact hsort g hg hgone hone b' _ ⟨C0', B0', i0', hC0', hB0',
            (code_position ((ok0.comps _ C0' hC0').phisFirst b' B0' hB0')).1 hi0', ho'⟩
        by_cases hcc : c' = c
        · subst hcc
          rw [hC] at hC'
          obtain rfl := Option.some.inj hC'
          rw [hC0] at hC0'
          obtain rfl := Option.some.inj hC0'
          by_cases hbb : b' = b
          · subst hbb
            rw [hB0] at hB0'
            obtain rfl := Option.some.inj hB0'
            have hpp : p ≠ p' := by
              rintro rfl
              rw [hi0] at hi0'
              obtain rfl := Option.some.inj hi0'
              exact hgf (ho'.symm.trans ho)
            obtain ⟨r', its', m1, m2, m3, m4, m5⟩ := inline_step hpf hlay (phisOf F call).length
            rw [l1] at m1
            obtain rfl := Option.some.inj m1
            refine ⟨C0, B0, ⟨C.args, G'⟩, i0', hC0, hB0, hi0', ho', A.host, ?_, ?_, ?_, ?_⟩
            · simp only [if_true]
              exact S.parts_split Sh hparts hx hnodup
            · simp only [if_true]; exact m5
            · simp only [if_true]
              rw [m4, getElem?_set_ne hpp]; exact hlay'
            · simp only [if_true]
              exact S.nodup_split hparts hx hnodup
          · refine ⟨C0, B0', ⟨C.args, G'⟩, i0', hC0, hB0', hi0', ho', A.host, ?_, ?_, ?_, ?_⟩
            · simp only [if_neg hbb]
              refine S.parts_other Sh hparts' ?_
              intro hm
              obtain ⟨w, hw, ew⟩ := I.names b' x hm
              exact hbb (same_block ok0 hC0 hC0 hB0' hB0 hw hwx (by rw [← ew, ← ewx])).1
            · simp only [if_neg hbb]; exact hpf'
            · simp only [if_neg hbb]; exact hlay'
            · simp only [if_neg hbb]; exact hnodup'
        · have hbb : b' ≠ b := by
            rintro rfl
            exact hcc (same_block ok0 hC0' hC0 hB0' hB0 halves_nil halves_nil rfl).2
          refine ⟨C0', B0', C', i0', hC0', hB0', hi0', ho', by rw [A.other c' hcc hc'f]; exact hC', ?_, ?_, ?_, ?_⟩
          · simp only [if_neg hbb]; exact hparts'
          · simp only [if_neg hbb]; exact hpf'
          · simp only [if_neg hbb]; exact hlay'
          · simp only [if_neg hbb]; exact hnodup'
      · intro y z hz
        simp only at hz
        split at hz
        · next hy =>
          subst hy
          rcases mem_append.1 hz with hz | hz
          · rcases mem_append.1 hz with hz | hz
            · exact I.names y z (mem_of_mem_take hz)
            · rcases mem_cons.1 hz with rfl | hz
              · exact ⟨wx ++ ['f'], halves_snoc hwx (Or.inl rfl), by rw [toList_first, ewx, append_assoc]⟩
              · rw [mem_singleton] at hz
                subst hz
                exact ⟨wx ++ ['s'], halves_snoc hwx (Or.inr rfl), by rw [toList_second, ewx, append_assoc]⟩
          · exact I.names y z (mem_of_mem_drop hz)
        · exact I.names y z hz
  · have hstep : passStep (callSites names O0) f st = some st := by
      unfold passStep
      rw [hF, Option.bind_some]
      split
      · next p b c hq => exact absurd ((calledOnce_iff ok0 hn hnd (hphi hF0)).2 ⟨_, hq⟩) hone
      · rfl
    refine ⟨st, items, hstep, I.ok, I.runs, ?_, ?_, ?_, ?_, I.names, I.extra⟩
    · intro g K hg hor
      exact I.kept g K hg (hor.imp_right (mem_cons_of_mem _))
    · intro g hg hgr
      refine I.gone g hg ?_
      rw [mem_cons, not_or]
      exact ⟨fun e => hone (e ▸ hg), hgr⟩
    · intro g hg; exact I.once g (mem_cons_of_mem _ hg)
    · intro g hg; exact I.located g (mem_cons_of_mem _ hg)

/-- The items of a block before any inlining. -/
noncomputable def items0 (O : Obj) (b : String) : List (List Item) :=
  open Classical in
  if h : ∃ X : Block, ∃ c C, O.comp c = some C ∧ C.body.get b = some X then [origBlock (phis h.choose).length (code h.choose).length] else []

theorem items0_eq {O : Obj} (ok : ObjOk O) {c : Option String} {C : Component} {b : String} {X : Block} (hC : O.comp c = some C)
    (hX : C.body.get b = some X) : items0 O b = [origBlock (phis X).length (code X).length] := by
  have h : ∃ X : Block, ∃ c C, O.comp c = some C ∧ C.body.get b = some X := ⟨X, c, C, hC, hX⟩
  have e : h.choose = X := by
    obtain ⟨c', C', hC', hX'⟩ := h.choose_spec
    obtain ⟨_, e⟩ := same_block ok hC' hC hX' hX halves_nil halves_nil rfl
    rw [e, hC] at hC'
    rw [← Option.some.inj hC', hX] at hX'
    exact (Option.some.inj hX').symm
  unfold items0
  rw [dif_pos h, e]

theorem stands_orig {X : Block} (hX : X.instrs = phis X ++ code X) : Forall₂ (Stands X) X.instrs (origBlock (phis X).length (code X).length) := by
  conv => arg 2; rw [hX]
  refine rel_append (R := Stands X) (forall₂_replicate (R := Stands X) (y := Item.phi) fun i hi => (mem_filter.1 hi).2) ?_
  rw [forall₂_iff_get]
  refine ⟨by simp, ?_⟩
  intro n h1 h2
  simp only [get_eq_getElem, getElem_map, getElem_range]
  refine ⟨?_, _, getElem?_eq_getElem h1, rfl⟩
  have := (mem_filter.1 (getElem_mem h1)).2
  simpa using this

theorem pass_loop {Q : Obj → Prop} (hQ : Kept Q) {O0 : Obj} (ok0 : ObjOk O0) {names : List String} (hn : ∀ f F, O0.fns f = some F → f ∈ names) (hnd : names.Nodup)
    (hself : ∀ f, CalledOnce O0 f → ∀ x j, ¬ Calls O0 f (some f) x j) :
    ∀ (order : List String) (st : PassState) (items : String → List (List Item)), order.Nodup → (∀ f ∈ order, ∃ F, O0.fns f = some F) →
      (order.Pairwise fun g f => CalledOnce O0 f → CalledOnce O0 g → ∀ x j, ¬ Calls O0 f (some g) x j) →
      Inv Q O0 (callSites names O0) items order st →
      ∃ st' items', passLoop (callSites names O0) order st = some st' ∧ Inv Q O0 (callSites names O0) items' [] st' := by
  intro order
  induction order with
  | nil => intro st items _ _ _ I; exact ⟨st, items, rfl, I⟩
  | cons f fs ih =>
    intro st items h1 h2 h3 I
    rw [nodup_cons] at h1
    rw [pairwise_cons] at h3
    obtain ⟨st', items', e, I'⟩ := pass_step hQ ok0 hn hnd (h2 f mem_cons_self) (fun g hg => h2 g (mem_cons_of_mem _ hg)) h1.1 (hself f)
      (fun g hg => h3.1 g hg) I
    obtain ⟨st'', items'', e', I''⟩ := ih st' items' h1.2 (fun g hg => h2 g (mem_cons_of_mem _ hg)) h3.2 I'
    refine ⟨st'', items'', ?_, I''⟩
    unfold passLoop
    rw [e, Option.bind_some, e']

/-- The pass, and something that every inlining preserves. -/
theorem inlining_pass_keeps {Q : Obj → Prop} (hQ : Kept Q) {O : Obj} (ok : ObjOk O) (hq : Q O) {names order : List String} (hnd : names.Nodup)
    (hn : ∀ f, f ∈ names ↔ ∃ F, O.fns f = some F) (ho : CalleesFirst O order) :
    ∃ O', inlinePass names order O = some O' ∧ SameRuns O O' ∧ ObjOk O' ∧
      (∀ f ∈ names, (O'.fns f = none ↔ CalledOnce O f)) ∧ Q O' := by
  have hn' : ∀ f F, O.fns f = some F → f ∈ names := fun f F hF => (hn f).2 ⟨F, hF⟩
  have hphi : ∀ {g F}, O.fns g = some F → g ≠ "PhiFunction" := by
    rintro g F hg rfl
    rw [ok.noPhi] at hg; cases hg
  have I0 : Inv Q O (callSites names O) (items0 O) order (O, fun b => [b]) := by
    refine ⟨ok, .refl O, fun f F hF _ => ⟨F, hF⟩, ?_, ?_, ?_, ?_, hq⟩
    · intro f hf hfo
      cases hF : O.fns f with
      | none => rfl
      | some F =>
        obtain ⟨c, x, j, hc, _⟩ := hf
        exact absurd (ho.called f F c x j hF hc) hfo
    · rintro f _ ⟨c0, x0, j0, _, hu⟩ c x j c' x' j' h1 h2
      obtain ⟨rfl, rfl, rfl⟩ := hu _ _ _ h1
      obtain ⟨rfl, rfl, rfl⟩ := hu _ _ _ h2
      exact ⟨rfl, rfl, rfl⟩
    · rintro f hf ⟨p, b, c⟩ hq
      obtain ⟨C, hC, X, hX, e, i, hi, hop⟩ := (mem_callSites hn' (f := f) (q := (p, b, c))).1 (by rw [hq]; simp)
      simp only at hC e hi
      obtain ⟨Y, hY⟩ := get_isSome_iff.2 (mem_map_of_mem (f := (·.id)) hX)
      have hg := hY
      rw [inj_on_of_nodup_map (ok.comps c C hC).sane.coherent.ids (get_mem hY) hX (get_id hY), e] at hg
      have hfst := (ok.comps c C hC).phisFirst b X hg
      have hi2 := items0_eq ok hC hg
      have hm := phisFirst_mk (phis X).length ((range (code X).length).map Item.orig) (by simp)
      refine ⟨C, X, C, i, hC, hg, hi, hop, hC, ?_, ?_, ?_, ?_⟩
      · simp only [hi2]
        exact .cons ⟨X, hg, stands_orig hfst⟩ .nil
      · simp only [hi2]
        intro l hl
        rw [mem_singleton] at hl
        subst hl
        unfold PhisFirst origBlock
        rw [hm.1, hm.2]
      · simp only [hi2]
        have hlt := (List.getElem?_eq_some_iff.1 hi).1
        simp [layoutOf, origBlock, hm.2, hlt]
      · simp
    · intro b x hx
      rw [mem_singleton] at hx
      subst hx
      exact ⟨[], halves_nil, by simp⟩
  obtain ⟨st, items, e, I⟩ := pass_loop hQ ok hn' hnd ho.noSelf order _ _ ho.nodup ho.functions ho.sorted I0
  refine ⟨st.1, by unfold inlinePass; rw [e]; rfl, I.runs, I.ok, ?_, I.extra⟩
  intro f hf
  obtain ⟨F, hF⟩ := (hn f).1 hf
  constructor
  · intro hnone
    by_contra hc
    obtain ⟨F', hF'⟩ := I.kept f F hF (Or.inl hc)
    rw [hnone] at hF'; cases hF'
  · intro hc
    exact I.gone f hc (by simp)

/-- **C57.** Inlining all functions that are called once, callees before callers: the pass succeeds, the executions of the object are
preserved, the object stays well-formed, and exactly the functions that are called once disappear. -/
theorem inlining_pass_preserves {O : Obj} (ok : ObjOk O) {names order : List String} (hnd : names.Nodup)
    (hn : ∀ f, f ∈ names ↔ ∃ F, O.fns f = some F) (ho : CalleesFirst O order) :
    ∃ O', inlinePass names order O = some O' ∧ SameRuns O O' ∧ ObjOk O' ∧
      ∀ f ∈ names, (O'.fns f = none ↔ CalledOnce O f) := by
  obtain ⟨O', h1, h2, h3, h4, -⟩ := inlining_pass_keeps (Q := fun _ => True) (fun _ _ _ _ _ _ _ _ _ _ _ _ _ _ _ _ => trivial) ok trivial hnd hn ho
  exact ⟨O', h1, h2, h3, h4⟩

end Grey.Inline
