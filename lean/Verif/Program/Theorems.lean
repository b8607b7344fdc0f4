/-
C53: the compiled program does what the control flow graphs say.
-/
import Verif.Program.Generic
namespace Grey.Program
open List Grey.Layout Grey.Sfs Grey.SymExec

section
variable {V σ : Type} {P : Prog} {I : Interp V σ} {code : String → String → Option (Code V σ)} {dest : V → Option (String × String)}

/-- The machine is where the program is, and has the values of the variables on its stack. -/
def Sim (P : Prog) (I : Interp V σ) (dest : V → Option (String × String)) (c : Config V σ) (m : MConfig V σ) : Prop :=
  m.fn = c.fn ∧ m.block = c.block ∧ m.world = c.world ∧ ∃ F B st src tgt vals rest, P.fns c.fn = some F ∧
    F.graph.block c.block = some B ∧ Reachable F.graph B.id ∧ drive F.graph = .ok st ∧ (B.id, src, tgt) ∈ st.specs ∧
    m.stack = vals ++ rest ∧ Match I src vals c.env ∧ Rest P I dest c.fn c.env c.frames rest

variable (hok : ∀ f F, P.fns f = some F → FnOk P I dest f F) (hcomp : ∀ f F, P.fns f = some F → ∃ st, Compiled P I code f F st)

/-- The machine with slots, as a machine whose memory is the slots and the world. -/
def slotCode (code : String → String → Option (Code V σ)) (f b : String) : Option (GCode V ((Var → V) × σ)) :=
  (code f b).map fun k => ⟨fun s m s' m' => Run k.tab k.sem k.ids ⟨s, m.1, m.2⟩ ⟨s', m'.1, m'.2⟩, k.last⟩

/-- The world is that of the program. -/
def slotLink (c : Config V σ) (m : (Var → V) × σ) : Prop := m.2 = c.world

theorem step_world {c : Config V σ} {F : Fn} (hF : P.fns c.fn = some F) {B : LBlock} (hB : F.graph.block c.block = some B)
    {x : Config V σ ⊕ Halted V σ} (h : step P I c = some x) :
    (∀ c', x = .inl c' → c'.world = (blockRun I (F.instrs B.id) c.env c.world).2) ∧
    ∀ hl, x = .inr hl → hl.world = (blockRun I (F.instrs B.id) c.env c.world).2 := by
  have hgoto : ∀ {f F' B' t env fr w} {y : Config V σ ⊕ Halted V σ}, (goto I f F' B' t env fr w).map Sum.inl = some y →
      (∀ c' : Config V σ, y = .inl c' → c'.world = w) ∧ ∀ hl : Halted V σ, y = .inr hl → hl.world = w := by
    intro f F' B' t env fr w y hy
    obtain ⟨c', hc, rfl⟩ := Option.map_eq_some_iff.1 hy
    unfold goto at hc
    obtain ⟨S, _, rfl⟩ := Option.map_eq_some_iff.1 hc
    exact ⟨fun c' e => by simp only [Sum.inl.injEq] at e; subst e; rfl, by simp⟩
  unfold step at h
  rw [hF, Option.bind_some, hB, Option.bind_some] at h
  simp only at h
  split at h
  · exact hgoto h
  · exact hgoto h
  · exact hgoto h
  · obtain ⟨G, _, h⟩ := Option.bind_eq_some_iff.1 h
    split at h
    · simp only [Option.some.injEq] at h
      subst h
      exact ⟨fun c' e => by simp only [Sum.inl.injEq] at e; subst e; rfl, by simp⟩
    · simp at h
  · split at h
    · simp at h
    · obtain ⟨F', _, h⟩ := Option.bind_eq_some_iff.1 h
      obtain ⟨B', _, h⟩ := Option.bind_eq_some_iff.1 h
      split at h
      · exact hgoto h
      · simp at h
  · simp only [Option.some.injEq] at h
    subst h
    exact ⟨by simp, fun hl e => by simp only [Sum.inr.injEq] at e; subst e; rfl⟩

include hok hcomp in
theorem slot_compiled : ∀ f F, P.fns f = some F → ∃ st, GCompiled P I slotLink (fun w m => m.2 = w) (slotCode code) f F st := by
  intro f F hF
  have ok := hok f F hF
  obtain ⟨st, comp⟩ := hcomp f F hF
  refine ⟨st, comp.layouts, ?_, comp.copies, comp.fresh⟩
  intro B hB src tgt hspec
  obtain ⟨k, hk, hlast, hrun⟩ := comp.code B hB src tgt hspec
  refine ⟨_, by unfold slotCode; rw [hk]; rfl, hlast, ?_⟩
  rintro c ⟨slot, w⟩ hf hb hL env' hsame rest
  simp only [slotLink] at hL
  subst hL
  obtain ⟨slot', extra, hr, hx⟩ := hrun env' c.world slot rest
  refine ⟨(slot', _), extra, hr, hx, ?_⟩
  intro x hx
  have hBb : F.graph.block c.block = some B := by
    rw [hb]
    cases hc : F.graph.block B.id with
    | none =>
      have := find?_eq_none.1 hc B hB
      simp at this
    | some S' =>
      obtain ⟨h1, h2⟩ := block_some hc
      rw [same_id ok.wf h1 hB h2]
  obtain ⟨h1, h2⟩ := step_world (hf ▸ hF) hBb hx
  have hw := (blockRun_same (I := I) (ok.namesIns B hB) hsame c.world).2
  cases x with
  | inl c' => exact hw.symm.trans (h1 c' rfl).symm
  | inr hl => exact hw.symm.trans (h2 hl rfl).symm

/-- A block of the machine with slots. -/
theorem slot_step {m : MConfig V σ} {y : GConfig V ((Var → V) × σ) ⊕ Halted V ((Var → V) × σ)} {zero : V}
    (h : GStep zero (slotCode code) dest ⟨m.fn, m.block, m.stack, (m.slot, m.world)⟩ y) :
    (∀ m', y = .inl m' → MStep zero code dest m (.inl ⟨m'.fn, m'.block, m'.stack, m'.mem.1, m'.mem.2⟩)) ∧
    ∀ hl, y = .inr hl → MStep zero code dest m (.inr ⟨hl.op, hl.args, hl.world.2⟩) := by
  obtain ⟨mf, mb, ms, mslot, mw⟩ := m
  have hcode : ∀ {k}, slotCode code mf mb = some k → ∃ k', code mf mb = some k' ∧
      k = ⟨fun s m s' m' => Run k'.tab k'.sem k'.ids ⟨s, m.1, m.2⟩ ⟨s', m'.1, m'.2⟩, k'.last⟩ := by
    intro k hk
    unfold slotCode at hk
    obtain ⟨k', h1, rfl⟩ := Option.map_eq_some_iff.1 hk
    exact ⟨k', h1, rfl⟩
  cases h with
  | next hc hl hr =>
    obtain ⟨k', h1, rfl⟩ := hcode hc
    exact ⟨fun m' e => by simp only [Sum.inl.injEq] at e; subst e; exact .next h1 hl hr, by simp⟩
  | jump hc hl hr ht =>
    obtain ⟨k', h1, rfl⟩ := hcode hc
    exact ⟨fun m' e => by simp only [Sum.inl.injEq] at e; subst e; exact .jump h1 hl hr ht, by simp⟩
  | taken hc hl hr hz ht =>
    obtain ⟨k', h1, rfl⟩ := hcode hc
    exact ⟨fun m' e => by simp only [Sum.inl.injEq] at e; subst e; exact .taken h1 hl hr hz ht, by simp⟩
  | notTaken hc hl hr =>
    obtain ⟨k', h1, rfl⟩ := hcode hc
    exact ⟨fun m' e => by simp only [Sum.inl.injEq] at e; subst e; exact .notTaken h1 hl hr, by simp⟩
  | stop hc hl hn hr =>
    obtain ⟨k', h1, rfl⟩ := hcode hc
    exact ⟨by simp, fun h e => by simp only [Sum.inr.injEq] at e; subst e; exact .stop h1 hl hn hr⟩

theorem sim_generic {c : Config V σ} {m : MConfig V σ} :
    Sim P I dest c m ↔ GSim P I dest slotLink c ⟨m.fn, m.block, m.stack, (m.slot, m.world)⟩ := Iff.rfl

include hok hcomp in
/-- One block of the program is one block of the machine. -/
theorem sim_step {c : Config V σ} {m : MConfig V σ} (h : Sim P I dest c m) {x : Config V σ ⊕ Halted V σ}
    (hs : step P I c = some x) :
    (∃ c', x = .inl c' ∧ ∃ m', MStep (I.num 0) code dest m (.inl m') ∧ Sim P I dest c' m') ∨
    ∃ hl, x = .inr hl ∧ MStep (I.num 0) code dest m (.inr hl) := by
  rcases gsim_step hok (slot_compiled hok hcomp) (sim_generic.1 h) hs with ⟨c', rfl, m', hm, hsim⟩ | ⟨hl, hl', rfl, hm, h1, h2, h3⟩
  · exact Or.inl ⟨c', rfl, _, (slot_step hm).1 _ rfl, hsim⟩
  · refine Or.inr ⟨hl, rfl, ?_⟩
    have := (slot_step hm).2 _ rfl
    rwa [h1, h2, h3] at this

include hok hcomp in
theorem sim_runs {c : Config V σ} {tr : List (String × String × σ)} {x : Config V σ ⊕ Halted V σ} (hr : Runs P I c tr x)
    {m : MConfig V σ} (h : Sim P I dest c m) : ∃ y, MRuns (I.num 0) code dest m tr y ∧ Agree x y := by
  induction hr generalizing m with
  | nil c => exact ⟨.inl m, .nil m, h.1, h.2.1, h.2.2.1⟩
  | halt hs =>
    rcases sim_step hok hcomp h hs with ⟨_, h', _⟩ | ⟨hl, h', hm⟩
    · simp at h'
    · rw [← h.1, ← h.2.1, ← h.2.2.1]
      simp only [Sum.inr.injEq] at h'
      subst h'
      exact ⟨_, .halt hm, rfl⟩
  | cons hs _ ih =>
    rcases sim_step hok hcomp h hs with ⟨c', h', m', hm, hsim⟩ | ⟨hl, h', _⟩
    · simp only [Sum.inl.injEq] at h'
      subst h'
      obtain ⟨y, hy, ha⟩ := ih hsim
      rw [← h.1, ← h.2.1, ← h.2.2.1]
      exact ⟨y, .cons hm hy, ha⟩
    · simp at h'

include hok hcomp in
theorem sim_start {F : Fn} (hF : P.fns P.main = some F) (env : String → V) (w : σ) (slot : Var → V) (below : List V) :
    Sim P I dest ⟨P.main, F.graph.start, env, [], w⟩ ⟨P.main, F.graph.start, below, slot, w⟩ :=
  gsim_start hok (slot_compiled hok hcomp) hF env w (slot, w) rfl below

include hok hcomp in
/-- **C53.** Whatever the control flow graphs of the program do, block by block, the compiled program does: from the first block
of the main code it executes the same blocks in the same worlds, and where the program ends it ends, with the same operation
on the same arguments. The variables start with any values, and so do the stack and the slots. -/
theorem compiled_program_runs {F : Fn} (hF : P.fns P.main = some F) (env : String → V) (w : σ) (slot : Var → V) (below : List V)
    {tr : List (String × String × σ)} {x : Config V σ ⊕ Halted V σ} (hr : Runs P I ⟨P.main, F.graph.start, env, [], w⟩ tr x) :
    ∃ y, MRuns (I.num 0) code dest ⟨P.main, F.graph.start, below, slot, w⟩ tr y ∧ Agree x y :=
  sim_runs hok hcomp hr (sim_start hok hcomp hF env w slot below)

/-- The machine is deterministic, if no block has two instructions with the same id. -/
theorem machine_deterministic {zero : V} (hids : ∀ f b k, code f b = some k → (k.tab.map (·.id)).Nodup) {m : MConfig V σ}
    {x y : MConfig V σ ⊕ Halted V σ} (h1 : MStep zero code dest m x) (h2 : MStep zero code dest m y) : x = y := by
  have key : ∀ {f b : String} {k k' : Code V σ} {s s1 s2 : Machine V σ}, code f b = some k → code f b = some k' →
      Run k.tab k.sem k.ids s s1 → Run k'.tab k'.sem k'.ids s s2 → k = k' ∧ s1 = s2 := by
    intro f b k k' s s1 s2 hk hk' hr1 hr2
    rw [hk, Option.some.injEq] at hk'
    subst hk'
    exact ⟨rfl, run_deterministic _ _ (hids _ _ _ hk) _ _ _ _ hr1 hr2⟩
  cases h1 with
  | next hc hl hr =>
    cases h2 with
    | next hc2 hl2 hr2 =>
      obtain ⟨rfl, he⟩ := key hc hc2 hr hr2
      rw [hl] at hl2
      simp_all
    | jump hc2 hl2 hr2 => obtain ⟨rfl, he⟩ := key hc hc2 hr hr2; rw [hl] at hl2; simp at hl2
    | taken hc2 hl2 hr2 => obtain ⟨rfl, he⟩ := key hc hc2 hr hr2; rw [hl] at hl2; simp at hl2
    | notTaken hc2 hl2 hr2 => obtain ⟨rfl, he⟩ := key hc hc2 hr hr2; rw [hl] at hl2; simp at hl2
    | stop hc2 hl2 _ hr2 => obtain ⟨rfl, he⟩ := key hc hc2 hr hr2; rw [hl] at hl2; simp at hl2
  | jump hc hl hr ht =>
    cases h2 with
    | next hc2 hl2 hr2 => obtain ⟨rfl, he⟩ := key hc hc2 hr hr2; rw [hl] at hl2; simp at hl2
    | jump hc2 hl2 hr2 ht2 =>
      obtain ⟨rfl, he⟩ := key hc hc2 hr hr2
      simp only [Machine.mk.injEq, cons.injEq] at he
      obtain ⟨⟨rfl, rfl⟩, rfl, rfl⟩ := he
      rw [ht] at ht2
      simp_all
    | taken hc2 hl2 hr2 => obtain ⟨rfl, he⟩ := key hc hc2 hr hr2; rw [hl] at hl2; simp at hl2
    | notTaken hc2 hl2 hr2 => obtain ⟨rfl, he⟩ := key hc hc2 hr hr2; rw [hl] at hl2; simp at hl2
    | stop hc2 hl2 _ hr2 => obtain ⟨rfl, he⟩ := key hc hc2 hr hr2; rw [hl] at hl2; simp at hl2
  | taken hc hl hr hz ht =>
    cases h2 with
    | next hc2 hl2 hr2 => obtain ⟨rfl, he⟩ := key hc hc2 hr hr2; rw [hl] at hl2; simp at hl2
    | jump hc2 hl2 hr2 ht2 => obtain ⟨rfl, he⟩ := key hc hc2 hr hr2; rw [hl] at hl2; simp at hl2
    | taken hc2 hl2 hr2 hz2 ht2 =>
      obtain ⟨rfl, he⟩ := key hc hc2 hr hr2
      simp only [Machine.mk.injEq, cons.injEq] at he
      obtain ⟨⟨rfl, rfl, rfl⟩, rfl, rfl⟩ := he
      rw [ht] at ht2
      simp_all
    | notTaken hc2 hl2 hr2 =>
      obtain ⟨rfl, he⟩ := key hc hc2 hr hr2
      simp only [Machine.mk.injEq, cons.injEq] at he
      exact absurd he.1.2.1 hz
    | stop hc2 hl2 _ hr2 => obtain ⟨rfl, he⟩ := key hc hc2 hr hr2; rw [hl] at hl2; simp at hl2
  | notTaken hc hl hr =>
    cases h2 with
    | next hc2 hl2 hr2 => obtain ⟨rfl, he⟩ := key hc hc2 hr hr2; rw [hl] at hl2; simp at hl2
    | jump hc2 hl2 hr2 ht2 => obtain ⟨rfl, he⟩ := key hc hc2 hr hr2; rw [hl] at hl2; simp at hl2
    | taken hc2 hl2 hr2 hz2 ht2 =>
      obtain ⟨rfl, he⟩ := key hc hc2 hr hr2
      simp only [Machine.mk.injEq, cons.injEq] at he
      exact absurd he.1.2.1.symm hz2
    | notTaken hc2 hl2 hr2 =>
      obtain ⟨rfl, he⟩ := key hc hc2 hr hr2
      rw [hl] at hl2
      simp_all
    | stop hc2 hl2 _ hr2 => obtain ⟨rfl, he⟩ := key hc hc2 hr hr2; rw [hl] at hl2; simp at hl2
  | stop hc hl hn hr =>
    cases h2 with
    | next hc2 hl2 hr2 => obtain ⟨rfl, he⟩ := key hc hc2 hr hr2; rw [hl] at hl2; simp at hl2
    | jump hc2 hl2 hr2 => obtain ⟨rfl, he⟩ := key hc hc2 hr hr2; rw [hl] at hl2; simp at hl2
    | taken hc2 hl2 hr2 => obtain ⟨rfl, he⟩ := key hc hc2 hr hr2; rw [hl] at hl2; simp at hl2
    | notTaken hc2 hl2 hr2 => obtain ⟨rfl, he⟩ := key hc hc2 hr hr2; rw [hl] at hl2; simp at hl2
    | stop hc2 hl2 hn2 hr2 =>
      obtain ⟨rfl, he⟩ := key hc hc2 hr hr2
      simp only [Machine.mk.injEq] at he
      rw [hl] at hl2
      simp only [Last.stop.injEq] at hl2
      obtain ⟨rfl, rfl⟩ := hl2
      have := append_inj he.1 (hn.trans hn2.symm)
      rw [this.1, he.2.2]

include hok hcomp in
theorem sim_back (hids : ∀ f b k, code f b = some k → (k.tab.map (·.id)).Nodup) {m : MConfig V σ} {tr : List (String × String × σ)}
    {y : MConfig V σ ⊕ Halted V σ} (hr : MRuns (I.num 0) code dest m tr y) {c : Config V σ} (h : Sim P I dest c m) :
    (∃ x, Runs P I c tr x ∧ Agree x y) ∨ ∃ tr' c', tr' <+: tr ∧ Runs P I c tr' (.inl c') ∧ step P I c' = none := by
  induction hr generalizing c with
  | nil m => exact Or.inl ⟨.inl c, .nil c, h.1, h.2.1, h.2.2.1⟩
  | halt hs =>
    cases hst : step P I c with
    | none => exact Or.inr ⟨[], c, nil_prefix, .nil c, hst⟩
    | some x =>
      rcases sim_step hok hcomp h hst with ⟨_, _, m', hm, _⟩ | ⟨hl, rfl, hm⟩
      · exact absurd (machine_deterministic hids hs hm) (by simp)
      · have := machine_deterministic hids hs hm
        simp only [Sum.inr.injEq] at this
        subst this
        rw [h.1, h.2.1, h.2.2.1]
        exact Or.inl ⟨_, .halt hst, rfl⟩
  | cons hs _ ih =>
    cases hst : step P I c with
    | none => exact Or.inr ⟨[], c, nil_prefix, .nil c, hst⟩
    | some x =>
      rcases sim_step hok hcomp h hst with ⟨c', rfl, m', hm, hsim⟩ | ⟨hl, rfl, hm⟩
      · have := machine_deterministic hids hs hm
        simp only [Sum.inl.injEq] at this
        subst this
        rw [h.1, h.2.1, h.2.2.1]
        rcases ih hsim with ⟨x, hx, ha⟩ | ⟨tr', c'', hp, hx, hn⟩
        · exact Or.inl ⟨x, .cons hst hx, ha⟩
        · exact Or.inr ⟨_, c'', prefix_cons_inj _ |>.2 hp, .cons hst hx, hn⟩
      · exact absurd (machine_deterministic hids hs hm) (by simp)

include hok hcomp in
/-- **C53**, the other direction: every run of the compiled program is a run of the control flow graphs, as long as those do not
get stuck (which they do only if a number of arguments or results is wrong or a block is missing). -/
theorem compiled_program_only_runs {F : Fn} (hF : P.fns P.main = some F)
    (hids : ∀ f b k, code f b = some k → (k.tab.map (·.id)).Nodup) (env : String → V) (w : σ) (slot : Var → V) (below : List V)
    {tr : List (String × String × σ)} {y : MConfig V σ ⊕ Halted V σ}
    (hr : MRuns (I.num 0) code dest ⟨P.main, F.graph.start, below, slot, w⟩ tr y) :
    (∃ x, Runs P I ⟨P.main, F.graph.start, env, [], w⟩ tr x ∧ Agree x y) ∨
    ∃ tr' c', tr' <+: tr ∧ Runs P I ⟨P.main, F.graph.start, env, [], w⟩ tr' (.inl c') ∧ step P I c' = none :=
  sim_back hok hcomp hids hr (sim_start hok hcomp hF env w slot below)

end

/-- The code that grey generates for a block is what `Compiled` asks for: the specification is built from the layouts of the
block, the schedule is one that the validator accepts, and it loads only what it has stored itself. The hypotheses are those of
C51 (`compiled_block_runs_partial`), for all values of the variables. -/
theorem block_compiled_partial {C : Type} (I : Interp Nat (Loc → C)) (hnum : ∀ n, I.num n = n)
    (instrs : List Ins) (split : Option Ins) (src tgt : List String)
    (hb : BlockOk instrs (substDuplicates src)) (hi : InterpOk I instrs) (hloc : LocalOk I instrs)
    (built : Built) (deps : List (String × String))
    (hbuild : buildSpec instrs split [] (substDuplicates src) tgt = some (built, deps))
    (hfinal : ∀ v ∈ beforeSplit split tgt, ¬ Generated v)
    (hok : ∀ env w, Analysable instrs built.positions built.unused (I.read (blockRun I instrs env w).1))
    (sem : Sem Nat (Loc → C)) (hsem : ∀ e ∈ built.entries, sem e.instr = e.sem I)
    (ids : List String) (junk : Bool)
    (hacc : check ⟨built.entries.map (·.instr), built.src, built.tgt, deps⟩ ids junk = true)
    (hsw : ∀ s ∈ ids, classify s ≠ some (.swap 0))
    (hslots : ∀ pre s post v, ids = pre ++ s :: post → classify s = some (.get v) → ∃ t ∈ pre, classify t = some (.set v))
    (last : Last) : BlockCompiled I instrs split src tgt junk ⟨built.entries.map (·.instr), sem, ids, last⟩ := by
  intro env w slot rest
  exact compiled_block_runs_partial I hnum instrs split [] _ tgt hb hi hloc built deps hbuild hfinal env w (by simp) (hok env w)
    sem hsem ids junk hacc hsw slot (fun pre s post v h1 h2 => Or.inr (hslots pre s post v h1 h2)) rest

end Grey.Program
