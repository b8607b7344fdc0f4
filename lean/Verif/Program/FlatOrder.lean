/-
The order of the blocks in the assembly of an object.
-/
import Verif.Program.FlatLemmas
namespace Grey.Program
open List Grey.Layout Grey.Sfs Grey.SymExec Grey.Output

section
variable {V σ : Type} {P : Prog} {I : Interp V σ} {sched : String → String → List String}
  {dest : V → Option (String × String)} (hok : ∀ f F, P.fns f = some F → FnOk P I dest f F) {names : List String}
  {tags : String → Option Nat} {arity : String → Nat} (hitems : ItemsOk P I arity names tags sched)
  (hplace : ∀ f F, P.fns f = some F → PlaceOk P arity F) (ht : TagsOk P I dest names tags)

theorem block_mem {f : String} {F : Fn} (hF : P.fns f = some F) {b : String} {x : Block} (h : outBlocks P names tags sched f b = some x) :
    ∃ B ∈ F.graph.blocks, B.id = b ∧ x.exit = exitOf B := by
  unfold outBlocks at h
  rw [hF, Option.bind_some] at h
  obtain ⟨B, hB, h⟩ := Option.bind_eq_some_iff.1 h
  obtain ⟨built, _, h⟩ := Option.bind_eq_some_iff.1 h
  obtain ⟨items, _, rfl⟩ := Option.map_eq_some_iff.1 h
  exact ⟨B, (block_some hB).1, (block_some hB).2, rfl⟩

/-- The block to which control passes without a jump, and the one that is jumped to. -/
def exitFalls : Output.Exit → Option String
  | .conditional _ d => some d
  | .fallsTo d => some d
  | .subBlock d => some d
  | _ => none
def exitJumps : Output.Exit → Option String
  | .conditional j _ => some j
  | .unconditional j => some j
  | _ => none

theorem fallsTo_eq (B : Blocks) (b : String) : fallsTo B b = (B b).bind fun x => exitFalls x.exit := by
  unfold fallsTo
  congr 1

theorem jumpsTo_eq (B : Blocks) (b : String) : jumpsTo B b = (B b).bind fun x => exitJumps x.exit := by
  unfold jumpsTo
  congr 1

theorem exit_falls {B : LBlock} {d : String} (h : exitFalls (exitOf B) = some d) : B.fallsTo = some d := by
  unfold exitOf at h
  cases hj : B.jumpTo <;> cases hf : B.fallsTo <;> simp only [hj, hf] at h <;> repeat' split at h
  all_goals simp_all [exitFalls]

theorem exit_jumps {B : LBlock} {d : String} (h : exitJumps (exitOf B) = some d) : B.jumpTo = some d := by
  unfold exitOf at h
  cases hj : B.jumpTo <;> cases hf : B.fallsTo <;> simp only [hj, hf] at h <;> repeat' split at h
  all_goals simp_all [exitJumps]

theorem out_falls {f : String} {F : Fn} (hF : P.fns f = some F) {b d : String} (h : fallsTo (outBlocks P names tags sched f) b = some d) :
    ∃ B ∈ F.graph.blocks, B.id = b ∧ B.fallsTo = some d := by
  rw [fallsTo_eq] at h
  obtain ⟨x, hx, h⟩ := Option.bind_eq_some_iff.1 h
  obtain ⟨B, hB, hid, he⟩ := block_mem hF hx
  simp only [he] at h
  exact ⟨B, hB, hid, exit_falls h⟩

theorem out_jumps {f : String} {F : Fn} (hF : P.fns f = some F) {b d : String} (h : jumpsTo (outBlocks P names tags sched f) b = some d) :
    ∃ B ∈ F.graph.blocks, B.id = b ∧ B.jumpTo = some d := by
  rw [jumpsTo_eq] at h
  obtain ⟨x, hx, h⟩ := Option.bind_eq_some_iff.1 h
  obtain ⟨B, hB, hid, he⟩ := block_mem hF hx
  simp only [he] at h
  exact ⟨B, hB, hid, exit_jumps h⟩

theorem out_succ {f : String} {F : Fn} (hF : P.fns f = some F) {b d : String} (h : Succ (outBlocks P names tags sched f) b d) :
    ∃ B ∈ F.graph.blocks, B.id = b ∧ d ∈ B.succs := by
  rcases h with h | h
  · obtain ⟨B, hB, hid, h⟩ := out_falls hF h
    exact ⟨B, hB, hid, by simp [LBlock.succs, h]⟩
  · obtain ⟨B, hB, hid, h⟩ := out_jumps hF h
    exact ⟨B, hB, hid, by simp [LBlock.succs, h]⟩

/-- The exit of a block that ends as its type says. -/
theorem end_exit {f : String} {F : Fn} (ok : FnOk P I dest f F) {B : LBlock} (hB : B ∈ F.graph.blocks) (he : EndOk P arity F B) :
    exitOf B ≠ .other ∧ exitFalls (exitOf B) = B.fallsTo ∧ exitJumps (exitOf B) = B.jumpTo ∧ (exitOf B = .mainExit ↔ P.exit F B = .halt ∧ F.split B.id = none) := by
  unfold EndOk at he
  cases hex : P.exit F B with
  | fall =>
    rw [hex] at he
    obtain ⟨h1, h2⟩ := he
    have : B.fallsTo.isSome := by
      unfold Prog.exit at hex
      cases hs : F.split B.id with
      | none => rw [hs] at hex; simp only at hex; split at hex
                · assumption
                · simp at hex
      | some i =>
        rw [hs] at hex
        simp only at hex
        split at hex
        · simp at hex
        split at hex
        · simp at hex
        split at hex
        · simp at hex
        split at hex <;> simp at hex
    obtain ⟨d, hd⟩ := Option.isSome_iff_exists.1 this
    simp [exitOf, exitFalls, exitJumps, hex, h1, h2, hd]
  | jump =>
    rw [hex] at he
    obtain ⟨h1, h2, _⟩ := he
    obtain ⟨t, n, _, hn, _⟩ := ok.jumps B hB hex
    simp [exitOf, exitFalls, exitJumps, hex, h1, h2, hn]
  | branch =>
    rw [hex] at he
    obtain ⟨h1, h2, _⟩ := he
    obtain ⟨t, c, n, _, hn, _⟩ := ok.branches B hB hex
    obtain ⟨d, hd⟩ := Option.isSome_iff_exists.1 h2
    simp [exitOf, exitFalls, exitJumps, hex, h1, hd, hn]
  | call g =>
    rw [hex] at he
    obtain ⟨h1, ⟨h2 | h2, h3⟩ | ⟨h2, h3⟩⟩ := he
    · obtain ⟨d, hd⟩ := Option.isSome_iff_exists.1 h3
      simp [exitOf, exitFalls, exitJumps, hex, h1, h2, hd]
    · obtain ⟨d, hd⟩ := Option.isSome_iff_exists.1 h3
      simp [exitOf, exitFalls, exitJumps, hex, h1, h2, hd]
    · simp [exitOf, exitFalls, exitJumps, hex, h1, h2, h3]
  | ret =>
    rw [hex] at he
    obtain ⟨h1, h2, h3⟩ := he
    simp [exitOf, exitFalls, exitJumps, hex, h1, h2, h3]
  | halt =>
    rw [hex] at he
    obtain ⟨h1, h2, h3⟩ := he
    cases hs : F.split B.id with
    | none => rw [hs] at h3; simp only at h3; simp [exitOf, exitFalls, exitJumps, hex, hs, h1, h2, h3]
    | some i => rw [hs] at h3; simp only at h3; simp [exitOf, exitFalls, exitJumps, hex, h1, h2, h3]

include hok hitems hplace in
theorem out_good {f : String} {F : Fn} (hF : P.fns f = some F) :
    Good (outBlocks P names tags sched f) F.graph.start (F.graph.blocks.map (·.id)) := by
  have ok := hok f F hF
  have fl := hplace f F hF
  have hmem : ∀ {B S : LBlock}, B ∈ F.graph.blocks → S ∈ F.graph.blocks → B.id = S.id → B = S := fun hB hS h => same_id ok.wf hB hS h
  constructor
  · obtain ⟨S, hS, hid, _⟩ := ok.start
    exact mem_map.2 ⟨S, hS, hid⟩
  · intro b hb
    obtain ⟨B, hB, rfl⟩ := mem_map.1 hb
    obtain ⟨seg, last, hout, _⟩ := hitems f F hF B hB
    refine ⟨⟨_, hout, (end_exit ok hB (fl.ends B hB)).1⟩, fun c hc => ?_⟩
    obtain ⟨B', hB', hid, hsucc⟩ := out_succ hF hc
    obtain ⟨S, hS, rfl⟩ := fl.place.known B' hB' c hsucc
    exact mem_map.2 ⟨S, hS, rfl⟩
  · intro b x hx
    obtain ⟨B, hB, rfl, _⟩ := block_mem hF hx
    obtain ⟨seg, last, hout, hlast, hnil, _⟩ := hitems f F hF B hB
    rw [hx, Option.some.injEq] at hout
    subst hout
    intro hcode
    unfold Block.code at hcode
    simp only [append_eq_nil_iff] at hcode
    obtain ⟨⟨h1, rfl, rfl⟩, h3⟩ := hcode
    unfold LastItems at hlast
    cases hex : P.exit F B with
    | fall =>
      rcases hnil hex with h | h
      · cases htag : tags B.id with
        | none => exact h htag
        | some t => rw [htag] at h1; simp at h1
      · exact h rfl
    | jump => rw [hex] at hlast; simp at hlast
    | branch => rw [hex] at hlast; simp at hlast
    | call g => rw [hex] at hlast; simp at hlast
    | ret => rw [hex] at hlast; simp at hlast
    | halt =>
      rw [hex] at hlast
      simp only at hlast
      have hs : F.split B.id = none := by
        cases hs : F.split B.id with
        | none => rfl
        | some i => rw [hs] at hlast; simp at hlast
      have := (end_exit ok hB (fl.ends B hB)).2.2.2.2 ⟨hex, hs⟩
      rw [if_pos this] at h3
      simp at h3
  · intro b c d hb hc
    obtain ⟨B, hB, rfl, h1⟩ := out_falls hF hb
    obtain ⟨B', hB', rfl, h2⟩ := out_falls hF hc
    rw [fl.place.oneFall B hB B' hB' d h1 h2]
  · intro b hb
    obtain ⟨B, hB, rfl, h1⟩ := out_falls hF hb
    exact fl.place.noSelf B hB h1
  · intro b j d hj hd
    obtain ⟨B, hB, rfl, h1⟩ := out_falls hF hd
    obtain ⟨B', hB', hid, h2⟩ := out_jumps hF hj
    obtain rfl := hmem hB' hB hid
    refine ⟨fun c hc => ?_, fun c hc => ?_⟩
    · obtain ⟨C', hC, _, h3⟩ := out_falls hF hc
      exact (fl.place.condJump _ hB j d h2 h1 C' hC).1 h3
    · obtain ⟨C', hC, rfl, h3⟩ := out_jumps hF hc
      rw [(fl.place.condJump _ hB j d h2 h1 C' hC).2 h3]
  · intro b c d hb hc hr
    obtain ⟨B, hB, rfl, h1⟩ := out_falls hF hb
    obtain ⟨C', hC, rfl, h2⟩ := out_falls hF hc
    refine fl.place.chain B hB C' hC d h1 h2 ?_
    clear h2 hc
    induction hr with
    | refl => exact .start
    | step x y hx hne hsucc ih =>
      obtain ⟨B', hB', rfl, h3⟩ := out_succ hF hsucc
      exact .step ih hB' hne h3

/-- The items of a block. -/
def textOf (P : Prog) (names : List String) (tags : String → Option Nat) (sched : String → String → List String) (p : String × String) :
    List Asm :=
  (outBlocks P names tags sched p.1 p.2).toList.flatMap Block.text

theorem codeOf_snd (B : Blocks) (order : List String) : (codeOf B order).map Prod.snd = order.flatMap fun b => (B b).toList.flatMap Block.text := by
  unfold codeOf
  rw [map_flatMap]
  congr 1
  funext b
  simp [Function.comp_def]

include hok hitems hplace in
theorem assembleFn_ok {f : String} {F : Fn} (hF : P.fns f = some F) (fuel : Nat) (hfuel : F.graph.blocks.length ≤ fuel) :
    ∃ order : List String, assembleFn P names tags sched fuel f = some ((order.map fun b => (f, b)).flatMap (textOf P names tags sched)) ∧
      order.Nodup ∧ (∀ b, b ∈ order ↔ ∃ B ∈ F.graph.blocks, B.id = b) ∧ order.head? = some F.graph.start ∧
      ∀ B ∈ F.graph.blocks, ∀ d, B.fallsTo = some d → ∃ l r, order = l ++ B.id :: d :: r := by
  have ok := hok f F hF
  have fl := hplace f F hF
  have good := out_good hok hitems hplace hF
  obtain ⟨order, hgen, hnd, hmem, hadj⟩ := placement_exact_partial _ _ _ good fuel (by simpa using hfuel)
  have hin : ∀ B ∈ F.graph.blocks, B.id ∈ order := by
    intro B hB
    rw [hmem]
    have := fl.place.reach B hB
    clear hB
    generalize B.id = b at this
    induction this with
    | start => exact .refl
    | @step B S _ hB hS hs ih =>
      refine .step _ _ ih trivial ?_
      obtain ⟨seg, last, hout, _⟩ := hitems f F hF B hB
      obtain ⟨_, e1, e2, _⟩ := end_exit ok hB (fl.ends B hB)
      unfold LBlock.succs at hs
      rcases mem_append.1 hs with h | h
      · right
        rw [jumpsTo_eq, hout, Option.bind_some, e2]
        simpa using h
      · left
        rw [fallsTo_eq, hout, Option.bind_some, e1]
        simpa using h
  have hmem' : ∀ b, b ∈ order ↔ ∃ B ∈ F.graph.blocks, B.id = b := by
    intro b
    refine ⟨fun h => ?_, fun ⟨B, hB, h⟩ => h ▸ hin B hB⟩
    rw [hmem] at h
    cases h with
    | refl => obtain ⟨S, hS, hid, _⟩ := ok.start; exact ⟨S, hS, hid⟩
    | step x y _ _ hs =>
      obtain ⟨B, hB, _, hsucc⟩ := out_succ hF hs
      exact fl.place.known B hB b hsucc
  obtain ⟨S, hS, hSid, hSc⟩ := ok.start
  have hhead : order.head? = some F.graph.start := by
    obtain ⟨seg, last, hout, _⟩ := hitems f F hF S hS
    rw [hSid] at hout
    have hno : ∀ c, fallsTo (outBlocks P names tags sched f) c ≠ some F.graph.start := by
      intro c hc
      obtain ⟨B, hB, _, h⟩ := out_falls hF hc
      have := (ok.wf.edges B hB S hS).1 (by rw [hSid]; simp [LBlock.succs, h])
      rw [hSc] at this
      simp at this
    have hfirst := placement_entry_first _ _ _ hout (good.nonempty _ _ hout) hno fuel _ hgen
    cases order with
    | nil => simp [codeOf] at hfirst
    | cons o order =>
      obtain ⟨B, hB, rfl⟩ := (hmem' o).1 (by simp)
      obtain ⟨_, _, hout', _⟩ := hitems f F hF B hB
      have hne := good.nonempty _ _ hout'
      rw [show B.id :: order = [B.id] ++ order from rfl, codeOf_append, codeOf_single hout'] at hfirst
      obtain ⟨a, l, hal⟩ := exists_cons_of_ne_nil hne
      rw [hal] at hfirst
      simpa using hfirst
  refine ⟨order, ?_, hnd, hmem', hhead, ?_⟩
  · unfold assembleFn
    rw [hF, Option.bind_some, if_pos, hgen, Option.map_some, codeOf_snd, flatMap_map]
    · rfl
    · obtain ⟨l, r, hlr⟩ := fl.place.entry
      rw [infixOf_iff, hlr, String.toList_append, String.toList_append]
      exact ⟨_, _, rfl⟩
  · intro B hB d hd
    obtain ⟨seg, last, hout, _⟩ := hitems f F hF B hB
    obtain ⟨_, e1, e2, _⟩ := end_exit ok hB (fl.ends B hB)
    refine hadj B.id d (hin B hB) ?_
    rw [fallsTo_eq, hout, Option.bind_some, e1]
    exact hd

include hok hitems hplace ht in
theorem assemble_ok {M : Fn} (hM : P.fns P.main = some M) (fuel : Nat) (hfuel : ∀ f F, P.fns f = some F → F.graph.blocks.length ≤ fuel) :
    ∃ all : List (String × String), assemble P names tags sched fuel = some (all.flatMap (textOf P names tags sched)) ∧ all.Nodup ∧
      (∀ f b, (f, b) ∈ all ↔ ∃ F, P.fns f = some F ∧ ∃ B ∈ F.graph.blocks, B.id = b) ∧ all.head? = some (P.main, M.graph.start) ∧
      ∀ f F, P.fns f = some F → ∀ B ∈ F.graph.blocks, ∀ d, B.fallsTo = some d → ∃ l r, all = l ++ (f, B.id) :: (f, d) :: r := by
  have hfns : ∀ gs : List String, gs.Nodup → (∀ g ∈ gs, g ≠ P.main ∧ (P.fns g).isSome) → ∃ all : List (String × String),
      assembleFns P names tags sched fuel gs = some (all.flatMap (textOf P names tags sched)) ∧ all.Nodup ∧
      (∀ f b, (f, b) ∈ all ↔ f ∈ gs ∧ ∃ F, P.fns f = some F ∧ ∃ B ∈ F.graph.blocks, B.id = b) ∧
      ∀ f F, f ∈ gs → P.fns f = some F → ∀ B ∈ F.graph.blocks, ∀ d, B.fallsTo = some d → ∃ l r, all = l ++ (f, B.id) :: (f, d) :: r := by
    intro gs
    induction gs with
    | nil => intro _ _; exact ⟨[], rfl, by simp, by simp, by simp⟩
    | cons g gs ih =>
      intro hn hg
      rw [nodup_cons] at hn
      obtain ⟨all, h1, h2, h3, h4⟩ := ih hn.2 (fun x hx => hg x (mem_cons_of_mem _ hx))
      obtain ⟨G, hG⟩ := Option.isSome_iff_exists.1 (hg g (by simp)).2
      obtain ⟨order, g1, g2, g3, _, g5⟩ := assembleFn_ok hok hitems hplace hG fuel (hfuel g G hG)
      refine ⟨order.map (fun b => (g, b)) ++ all, ?_, ?_, ?_, ?_⟩
      · rw [assembleFns, g1, Option.bind_some, h1, Option.map_some, flatMap_append]
      · rw [nodup_append]
        refine ⟨g2.map (fun a b hab => by simpa using hab), h2, ?_⟩
        intro p hp q hq
        obtain ⟨b, _, rfl⟩ := mem_map.1 hp
        rintro rfl
        exact hn.1 ((h3 _ _).1 hq).1
      · intro f b
        rw [mem_append, h3, mem_map]
        constructor
        · rintro (⟨b', hb', he⟩ | ⟨h, h'⟩)
          · simp only [Prod.mk.injEq] at he
            obtain ⟨rfl, rfl⟩ := he
            exact ⟨by simp, G, hG, (g3 _).1 hb'⟩
          · exact ⟨mem_cons_of_mem _ h, h'⟩
        · rintro ⟨h, F, hF, hb⟩
          rcases mem_cons.1 h with rfl | h
          · rw [hG, Option.some.injEq] at hF
            subst hF
            exact Or.inl ⟨b, (g3 b).2 hb, rfl⟩
          · exact Or.inr ⟨h, F, hF, hb⟩
      · intro f F hf hF B hB d hd
        rcases mem_cons.1 hf with rfl | hf
        · rw [hG, Option.some.injEq] at hF
          subst hF
          obtain ⟨l, r, hlr⟩ := g5 B hB d hd
          exact ⟨l.map (fun b => (f, b)), r.map (fun b => (f, b)) ++ all, by rw [hlr]; simp⟩
        · obtain ⟨l, r, hlr⟩ := h4 f F hf hF B hB d hd
          exact ⟨order.map (fun b => (g, b)) ++ l, r, by rw [hlr]; simp⟩
  obtain ⟨all, h1, h2, h3, h4⟩ := hfns names ht.nodup (fun g hg => (ht.functions g).1 hg)
  obtain ⟨order, g1, g2, g3, g4, g5⟩ := assembleFn_ok hok hitems hplace hM fuel (hfuel _ M hM)
  refine ⟨order.map (fun b => (P.main, b)) ++ all, ?_, ?_, ?_, ?_, ?_⟩
  · rw [assemble, g1, Option.bind_some, h1, Option.map_some, flatMap_append]
  · rw [nodup_append]
    refine ⟨g2.map (fun a b hab => by simpa using hab), h2, ?_⟩
    intro p hp q hq
    obtain ⟨b, _, rfl⟩ := mem_map.1 hp
    rintro rfl
    exact ((ht.functions _).1 ((h3 _ _).1 hq).1).1 rfl
  · intro f b
    rw [mem_append, h3, mem_map]
    constructor
    · rintro (⟨b', hb', he⟩ | ⟨h, h'⟩)
      · simp only [Prod.mk.injEq] at he
        obtain ⟨rfl, rfl⟩ := he
        exact ⟨M, hM, (g3 _).1 hb'⟩
      · exact h'
    · rintro ⟨F, hF, hb⟩
      by_cases hf : f = P.main
      · subst hf
        rw [hM, Option.some.injEq] at hF
        subst hF
        exact Or.inl ⟨b, (g3 b).2 hb, rfl⟩
      · exact Or.inr ⟨(ht.functions f).2 ⟨hf, by rw [hF]; rfl⟩, F, hF, hb⟩
  · cases order with
    | nil => simp at g4
    | cons o order => simpa using g4
  · intro f F hF B hB d hd
    by_cases hf : f = P.main
    · subst hf
      rw [hM, Option.some.injEq] at hF
      subst hF
      obtain ⟨l, r, hlr⟩ := g5 B hB d hd
      exact ⟨l.map (fun b => (P.main, b)), r.map (fun b => (P.main, b)) ++ all, by rw [hlr]; simp⟩
    · obtain ⟨l, r, hlr⟩ := h4 f F ((ht.functions f).2 ⟨hf, by rw [hF]; rfl⟩) hF B hB d hd
      exact ⟨order.map (fun b => (P.main, b)) ++ l, r, by rw [hlr]; simp⟩

end
end Grey.Program
