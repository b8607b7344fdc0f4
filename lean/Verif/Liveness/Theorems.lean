/-
C11 (liveness is sound), C12 (liveness is precise), C13 (the fixpoint engine).
`run cfg blocks initial fuel = some st` reads: the analysis started at the blocks `initial` stops after at most `fuel`
iterations; `st.info b` is then the pair (variables live at the end of `b`, variables live at its beginning), or `none` if
`b` was never visited. `Live`, `PhiDef`, `WF` are the path-based specification of `Spec.lean`.
-/
import Verif.Liveness.Termination
namespace Grey.Liveness

private theorem run_some {cfg : String → Block} (wf : WF cfg) {blocks initial : List String} {f : Nat} {st : St}
    (h : run cfg blocks initial f = some st) :
    ∃ V, (∀ b, InfoSpec cfg b (V b)) ∧ analyze V f (start initial) = some st := by
  unfold run at h
  split at h
  · refine ⟨_, ?_, h⟩
    intro b
    obtain ⟨V, hV, hs⟩ := blockInfo_spec wf b
    rw [hV]; exact hs
  · simp at h

private theorem precise_start (cfg : String → Block) (initial : List String) : Precise cfg (start initial).info := by
  intro b o i h
  simp only [start] at h
  split at h
  · simp only [Option.some.injEq, Prod.mk.injEq] at h
    obtain ⟨rfl, rfl⟩ := h
    simp
  · simp at h

private theorem hasPhi_start (V : String → Info) (initial : List String) : HasPhiUses V initial (start initial).info := by
  intro b o i h
  simp only [start] at h
  split at h
  · next hb => exact Or.inl hb
  · simp at h

private theorem backward_start (cfg : String → Block) (initial : List String) :
    Backward cfg initial (start initial).info := by
  intro b o i h
  simp only [start] at h
  split at h
  · next hb => exact ⟨b, hb, Relation.ReflTransGen.refl⟩
  · simp at h

/-- **C12.** Every variable in a computed live set is live: at the end of the block, or at its beginning (where the
results of the block's own phi functions are included as well). -/
theorem live_precise {cfg : String → Block} (wf : WF cfg) {blocks initial : List String} {f : Nat} {st : St}
    (h : run cfg blocks initial f = some st) {b : String} {out : List String} {inn : Option (List String)}
    (hb : st.info b = some (out, inn)) :
    (∀ x ∈ out, Live cfg false b x) ∧ (∀ l, inn = some l → ∀ x ∈ l, Live cfg true b x ∨ PhiDef cfg b x) := by
  obtain ⟨V, hV, hA⟩ := run_some wf h
  exact (analyze_inv (I := fun s => Precise cfg s.info) (fun b rest info st' hI hi => precise_iterate wf hV hI hi) f _ _
    (precise_start cfg initial) hA).1 b out inn hb

/-- States the engine goes through. -/
inductive Steps (V : String → Info) (initial : List String) : St → Prop
  | start : Steps V initial (start initial)
  | step {b rest info st'} (h : Steps V initial ⟨info, b :: rest⟩) (hi : iterate V b ⟨info, rest⟩ = some st') :
      Steps V initial st'

/-- **C12, at every step.** The same holds in every intermediate state of the iteration, whether or not it ever stops. -/
theorem live_precise_always {cfg : String → Block} (wf : WF cfg) {initial : List String} {st : St}
    (h : Steps (fun b => (blockInfo cfg b).getD ⟨[], [], [], [], [], []⟩) initial st) {b : String} {out : List String}
    {inn : Option (List String)} (hb : st.info b = some (out, inn)) :
    (∀ x ∈ out, Live cfg false b x) ∧ (∀ l, inn = some l → ∀ x ∈ l, Live cfg true b x ∨ PhiDef cfg b x) := by
  have hV : ∀ b, InfoSpec cfg b ((blockInfo cfg b).getD ⟨[], [], [], [], [], []⟩) := by
    intro b
    obtain ⟨V, hV, hs⟩ := blockInfo_spec wf b
    rw [hV]; exact hs
  have : Precise cfg st.info := by
    clear hb
    induction h with
    | start => exact precise_start cfg initial
    | step _ hi ih => exact precise_iterate wf hV ih hi
  exact this b out inn hb

/-- **C13, first half.** When the worklist is empty, every visited block satisfies the data-flow equations: its entry set is
computed from its exit set, every predecessor has been visited, and the exit set of each predecessor includes the entry set
except the results of phi functions of successors of that predecessor. -/
theorem stops_at_solution {cfg : String → Block} (wf : WF cfg) {blocks initial : List String} {f : Nat} {st : St}
    (h : run cfg blocks initial f = some st) {b : String} {out : List String} {inn : Option (List String)}
    (hb : st.info b = some (out, inn)) :
    ∃ l, inn = some l ∧
      (∀ x, x ∈ l ↔ UseFirst cfg b x ∨ PhiDef cfg b x ∨ (x ∈ out ∧ ¬ Def cfg b x)) ∧
      ∀ p ∈ (cfg b).comesFrom, ∃ o i, st.info p = some (o, i) ∧
        ∀ x ∈ l, (∀ s ∈ (cfg p).succs, ¬ PhiDef cfg s x) → x ∈ o := by
  obtain ⟨V, hV, hA⟩ := run_some wf h
  obtain ⟨hI, hp⟩ := analyze_inv (I := Inv V initial) (fun b rest info st' hI hi => inv_iterate hI hi) f _ _
    (inv_start V initial) hA
  have hd := hI.done b out inn hb (by rw [hp]; simp)
  subst hd
  refine ⟨_, rfl, ?_, ?_⟩
  · intro x
    rw [mem_transfer, (hV b).upward, (hV b).defs, or_assoc]
  · intro p hpp
    obtain ⟨o, i, h1, h2⟩ := hI.flow b out _ hb p (by rw [(hV b).comesFrom]; exact hpp)
    refine ⟨o, i, h1, fun x hx hn => h2 x hx ?_⟩
    rw [(hV p).predPhiDefs]
    rintro ⟨s, hs, hd⟩
    exact hn s hs hd

/-- **C13, coverage.** The visited blocks are exactly those from which some initial (terminal) block can be reached. -/
theorem visited_iff {cfg : String → Block} (wf : WF cfg) {blocks initial : List String} {f : Nat} {st : St}
    (h : run cfg blocks initial f = some st) (b : String) :
    (st.info b).isSome ↔ ∃ t ∈ initial, Relation.ReflTransGen (fun a c => c ∈ (cfg a).succs) b t := by
  obtain ⟨V, hV, hA⟩ := run_some wf h
  obtain ⟨hI, hp⟩ := analyze_inv (I := Inv V initial) (fun b rest info st' hI hi => inv_iterate hI hi) f _ _
    (inv_start V initial) hA
  constructor
  · intro hs
    obtain ⟨⟨o, i⟩, hx⟩ := Option.isSome_iff_exists.1 hs
    exact (analyze_inv (I := fun s => Backward cfg initial s.info)
      (fun b rest info st' hI hi => backward_iterate wf hV hI hi) f _ _ (backward_start cfg initial) hA).1 b o i hx
  · rintro ⟨t, ht, hr⟩
    induction hr using Relation.ReflTransGen.head_induction_on with
    | refl => exact hI.init t ht
    | head h1 _ ih =>
      obtain ⟨⟨o, i⟩, hx⟩ := Option.isSome_iff_exists.1 ih
      obtain ⟨l, _, _, h3⟩ := stops_at_solution wf h hx
      obtain ⟨o', i', h4, _⟩ := h3 _ ((wf.edges _ _).1 h1)
      simp [h4]

/-- **C11 (partial).** A variable live at a point of a visited region of the graph is in the computed set, provided no
successor of a block assigns with a phi function a variable that is live into a sibling (and not assigned there by a phi
function too). Missing: graphs that violate the proviso — there the claim is false, see `live_sound_fails`. -/
theorem live_sound_partial {cfg : String → Block} (wf : WF cfg) {blocks initial : List String} {f : Nat} {st : St}
    (h : run cfg blocks initial f = some st)
    (hterm : ∀ b ∈ initial, (cfg b).succs = [])
    (hvis : ∀ b s, (st.info b).isSome → s ∈ (cfg b).succs → (st.info s).isSome)
    (hsib : ∀ b s t x, s ∈ (cfg b).succs → t ∈ (cfg b).succs → PhiDef cfg s x → Live cfg true t x → PhiDef cfg t x)
    {b x : String} {out l : List String} (hb : st.info b = some (out, some l)) :
    (Live cfg false b x → x ∈ out) ∧ (Live cfg true b x → x ∈ l) := by
  obtain ⟨V, hV, hA⟩ := run_some wf h
  have hphi := (analyze_inv (I := fun s => HasPhiUses V initial s.info)
      (fun b rest info st' hI hi => phiUses_iterate hI hi) f _ _ (hasPhi_start V initial) hA).1
  have main : ∀ (e : Bool) (b x : String), Live cfg e b x → ∀ out l, st.info b = some (out, some l) →
      if e then x ∈ l else x ∈ out := by
    intro e b x hl
    induction hl with
    | @use b x h1 =>
      intro out l hb
      obtain ⟨l', e, hl', _⟩ := stops_at_solution wf h hb
      simp only [Option.some.injEq] at e; subst e
      exact (hl' x).2 (Or.inl h1)
    | @thru b x h1 hd ih =>
      intro out l hb
      obtain ⟨l', e, hl', _⟩ := stops_at_solution wf h hb
      simp only [Option.some.injEq] at e; subst e
      exact (hl' x).2 (Or.inr (Or.inr ⟨ih out l hb, hd⟩))
    | @phi b s x hs hp =>
      intro out l hb
      rcases hphi b out _ hb with hi | hi
      · rw [hterm b hi] at hs; simp at hs
      · exact hi x (((hV b).phiUses x).2 ⟨s, hs, hp⟩)
    | @succ b s x hs h1 hp ih =>
      intro out l hb
      obtain ⟨⟨o, i⟩, hso⟩ := Option.isSome_iff_exists.1 (hvis b s (by simp [hb]) hs)
      obtain ⟨l', e, _, hflow⟩ := stops_at_solution wf h hso
      subst e
      obtain ⟨o', i', h2, h3⟩ := hflow b ((wf.edges b s).1 hs)
      rw [hb] at h2
      simp only [Option.some.injEq, Prod.mk.injEq] at h2
      have hx := ih o l' hso
      simp only [if_true] at hx
      have := h3 x hx (fun t ht hd => hp (hsib b t s x ht hs hd h1))
      rw [← h2.1] at this
      exact this
  exact ⟨fun hl => main false b x hl out l hb, fun hl => main true b x hl out l hb⟩

/-- **C13, second half (partial).** The iteration terminates if the blocks can be ranked so that the rank grows along every
edge `p → b` where some variable assigned by a phi function of a successor of `p` is live into `b` or assigned by a phi
function of `b`; i.e. if no cycle consists of such edges only. Missing: the other graphs — there termination fails, see
`never_stops`. -/
theorem terminates_partial {cfg : String → Block} (wf : WF cfg) {blocks initial : List String}
    (hi : ∀ b ∈ initial, b ∈ blocks) (hclosed : ∀ b ∈ blocks, ∀ p ∈ (cfg b).comesFrom, p ∈ blocks)
    (rank : String → Nat)
    (hr : ∀ b p s x, p ∈ (cfg b).comesFrom → s ∈ (cfg p).succs → PhiDef cfg s x →
      (Live cfg true b x ∨ PhiDef cfg b x) → rank p < rank b) :
    ∃ f st, run cfg blocks initial f = some st := by
  have hall : (blocks.all fun b => (blockInfo cfg b).isSome) = true := by
    rw [List.all_eq_true]
    intro b _
    obtain ⟨V, hV, _⟩ := blockInfo_spec wf b
    simp [hV]
  have hV : ∀ b, InfoSpec cfg b ((blockInfo cfg b).getD ⟨[], [], [], [], [], []⟩) := by
    intro b
    obtain ⟨V, hV, hs⟩ := blockInfo_spec wf b
    rw [hV]; exact hs
  unfold run
  simp only [hall, if_true]
  generalize hVe : (fun b => (blockInfo cfg b).getD ⟨[], [], [], [], [], []⟩) = V
  have hV' : ∀ b, InfoSpec cfg b (V b) := by intro b; rw [← hVe]; exact hV b
  have hex : ∀ l : List String, ∃ K, ∀ b ∈ l, (V b).comesFrom.length ≤ K := by
    intro l
    induction l with
    | nil => exact ⟨0, by simp⟩
    | cons a l ih =>
      obtain ⟨K, hK⟩ := ih
      refine ⟨K + (V a).comesFrom.length, ?_⟩
      intro b hb
      rcases List.mem_cons.1 hb with rfl | hb
      · omega
      · exact Nat.le_add_right_of_le (hK b hb)
  obtain ⟨K, hK⟩ := hex blocks
  refine analyze_terminates wf hV' (initial := initial) (U := blocks)
    (W := blocks.flatMap fun b => (V b).upward ++ (V b).phiDefs ++ (V b).phiUses) (r := rank) (K := K) ?_ ?_ hK hr _ _ (start initial)
    (Nat.le_refl _) (Nat.le_refl _) (inv_start V initial) (precise_start cfg initial) ?_
  · intro b hb p hp
    rw [(hV' b).comesFrom] at hp
    exact hclosed b hb p hp
  · intro b hb x hx
    rw [List.mem_flatMap]
    refine ⟨b, hb, ?_⟩
    simp only [List.mem_append]
    rcases hx with h | h | h
    · exact Or.inl (Or.inl h)
    · exact Or.inl (Or.inr h)
    · exact Or.inr h
  · intro b o i hb
    simp only [start] at hb
    split at hb
    · next hm =>
      simp only [Option.some.injEq, Prod.mk.injEq] at hb
      obtain ⟨rfl, rfl⟩ := hb
      exact ⟨⟨hi b hm, by simp⟩, by simp⟩
    · simp at hb

/-- **C13, refuted half.** The iteration never stops once it can reach a set `C` of blocks in which every block has a phi
function (result `d b`) and a predecessor in `C` that does not itself pass `d b` to a phi function. A cycle of blocks with
phi functions is enough. -/
theorem never_stops {cfg : String → Block} (wf : WF cfg) {blocks initial : List String}
    (C : String → Prop) (d : String → String)
    (hphi : ∀ b, C b → PhiDef cfg b (d b))
    (hpred : ∀ b, C b → ∃ p ∈ (cfg b).comesFrom, C p)
    (harg : ∀ b p s, C b → C p → p ∈ (cfg b).comesFrom → s ∈ (cfg p).succs → ¬ PhiArg cfg p s (d b))
    (hreach : ∃ b, C b ∧ ∃ t ∈ initial, Relation.ReflTransGen (fun a c => c ∈ (cfg a).succs) b t) :
    ∀ f, run cfg blocks initial f = none := by
  intro f
  by_contra hne
  obtain ⟨st, h⟩ := Option.ne_none_iff_exists'.1 hne
  obtain ⟨V, hV, hA⟩ := run_some wf h
  obtain ⟨hB, hp⟩ := analyze_inv (I := Busy V C d) (fun b rest info st' hI hi => busy_iterate
    (fun b hb => ((hV b).phiDefs _).2 (hphi b hb))
    (fun b hb => by obtain ⟨p, hp, hc⟩ := hpred b hb; exact ⟨p, by rw [(hV b).comesFrom]; exact hp, hc⟩)
    (fun b p hb hp hm => by
      rw [(hV b).comesFrom] at hm
      refine ⟨((hV p).predPhiDefs _).2 ⟨b, (wf.edges p b).2 hm, hphi b hb⟩, ?_⟩
      rw [(hV p).phiUses]
      rintro ⟨s, hs, ha⟩
      exact harg b p s hb hp hm hs ha) hI hi) f _ _ (by
        refine ⟨?_, ?_⟩
        · intro b p o i _ _ _ hs
          simp only [start] at hs
          split at hs
          · simp only [Option.some.injEq, Prod.mk.injEq] at hs; rw [← hs.1]; simp
          · simp at hs
        · rintro ⟨b, hb, hs⟩
          refine ⟨b, hb, ?_⟩
          simp only [start] at hs ⊢
          by_cases hm : b ∈ initial
          · simp [hm]
          · simp [hm] at hs) hA
  obtain ⟨b, hb, hr⟩ := hreach
  obtain ⟨c, _, hc⟩ := hB.pend ⟨b, hb, (visited_iff wf h b).2 hr⟩
  rw [hp] at hc
  simp at hc

/-! ### Concrete graphs -/

/-- A diamond-shaped loop: `E → H`, `H → {B, X}`, `B → H`; `H` joins `i` with a phi function, `X` uses `i` and `a`. -/
def loopG (b : String) : Block :=
  if b = "E" then ⟨[⟨"calldataload", ["0x00"], ["a"]⟩], ["H"], [], []⟩
  else if b = "H" then ⟨[⟨"PhiFunction", ["0x00", "j"], ["i"]⟩, ⟨"lt", ["i", "a"], ["c"]⟩], ["B", "X"], ["E", "B"], ["E", "B"]⟩
  else if b = "B" then ⟨[⟨"add", ["i", "0x01"], ["j"]⟩], ["H"], ["H"], []⟩
  else if b = "X" then ⟨[⟨"sstore", ["i", "a"], []⟩], [], ["H"], []⟩
  else ⟨[], [], [], []⟩

/-- Well-formedness is decidable on the named blocks. -/
def wfOn (cfg : String → Block) (blocks : List String) : Bool :=
  blocks.all fun b =>
    ((cfg b).succs.all fun s => decide (s ∈ blocks) && decide (b ∈ (cfg s).comesFrom) &&
      ((cfg s).entries.isEmpty || decide (b ∈ (cfg s).entries))) &&
    ((cfg b).comesFrom.all fun p => decide (p ∈ blocks) && decide (b ∈ (cfg p).succs)) &&
    (((cfg b).instrs.dropWhile Instr.isPhi).all fun i => !i.isPhi) &&
    ((cfg b).instrs.all fun i => !i.isPhi || (!(cfg b).entries.isEmpty && decide (i.ins.length = (cfg b).entries.length))) &&
    decide (cfg b).entries.Nodup

theorem wf_of_wfOn {cfg : String → Block} {blocks : List String} (h : wfOn cfg blocks = true)
    (hout : ∀ b, b ∉ blocks → cfg b = ⟨[], [], [], []⟩) : WF cfg := by
  have hb : ∀ b ∈ blocks, _ := fun b hb => List.all_eq_true.1 h b hb
  have hin : ∀ b, (cfg b) ≠ ⟨[], [], [], []⟩ → b ∈ blocks := fun b hne => by
    by_contra hn; exact hne (hout b hn)
  simp only [Bool.and_eq_true, List.all_eq_true, decide_eq_true_eq, Bool.or_eq_true, List.isEmpty_iff, Bool.not_eq_true',
    Bool.eq_false_iff] at hb
  refine ⟨?_, ?_, ?_, ?_, ?_⟩
  · intro b s
    constructor
    · intro hs
      exact ((hb b (hin b (by intro e; rw [e] at hs; simp at hs))).1.1.1.1 s hs).1.2
    · intro hs
      exact ((hb s (hin s (by intro e; rw [e] at hs; simp at hs))).1.1.1.2 b hs).2
  · intro b pre i post e hop
    have hbm := hin b (by intro e'; rw [e'] at e; simp at e)
    have h3 := (hb b hbm).1.1.2
    rw [e] at h3
    clear e hbm
    induction pre with
    | nil => simp
    | cons a pre ih =>
      by_cases ha : a.isPhi = true
      · simp only [List.cons_append, List.dropWhile_cons, ha, if_true] at h3
        intro j hj
        rcases List.mem_cons.1 hj with rfl | hj
        · exact (isPhi_iff _).1 ha
        · exact ih h3 j hj
      · simp only [List.cons_append, List.dropWhile_cons, ha] at h3
        exact absurd ((isPhi_iff i).2 hop) (h3 i (by simp))
  · intro b i hi hop
    have hbm := hin b (by intro e'; rw [e'] at hi; simp at hi)
    rcases (hb b hbm).1.2 i hi with h | ⟨h1, h2⟩
    · exact absurd ((isPhi_iff i).2 hop) h
    · exact ⟨fun e => h1 (by simp [e]), h2⟩
  · intro b s hs hne
    have hbm := hin b (by intro e'; rw [e'] at hs; simp at hs)
    rcases ((hb b hbm).1.1.1.1 s hs).2 with h | h
    · exact absurd h hne
    · exact h
  · intro b
    by_cases hbm : b ∈ blocks
    · exact (hb b hbm).2
    · rw [hout b hbm]; simp

theorem loopG_wf : WF loopG := wf_of_wfOn (blocks := ["E", "H", "B", "X"]) (by decide) (by
  intro b hb
  simp only [List.mem_cons, List.not_mem_nil, or_false, not_or] at hb
  simp [loopG, hb])

theorem loopG_phi {s x : String} (hd : PhiDef loopG s x) : s = "H" := by
  obtain ⟨i, hi, hop, _⟩ := hd
  by_contra hne
  unfold loopG at hi
  simp only [hne, if_false] at hi
  split at hi
  · simp at hi; subst hi; simp at hop
  · split at hi
    · simp at hi; subst hi; simp at hop
    · split at hi
      · simp at hi; subst hi; simp at hop
      · simp at hi

/-- The analysis of `loopG` stops, with the expected sets: `a` and `i` live out of `H`, `a` and `j` out of `B`. -/
example : ∃ st, run loopG ["E", "H", "B", "X"] ["X"] 20 = some st ∧
    (st.info "H").map (fun p => (decide ("a" ∈ p.1), decide ("i" ∈ p.1), decide ("j" ∈ p.1))) = some (true, true, false) ∧
    (st.info "B").map (fun p => (decide ("a" ∈ p.1), decide ("i" ∈ p.1), decide ("j" ∈ p.1))) = some (true, false, true) :=
  ⟨_, rfl, by decide, by decide⟩

/-- The hypotheses of `terminates_partial` are met by `loopG`: the ranks of `E`, `B` lie below the rank of `H`. -/
example : ∃ rank : String → Nat, ∀ b p s x, p ∈ (loopG b).comesFrom → s ∈ (loopG p).succs → PhiDef loopG s x →
    (Live loopG true b x ∨ PhiDef loopG b x) → rank p < rank b := by
  refine ⟨fun b => if b = "H" then 1 else 0, ?_⟩
  intro b p s x hp hs hd hx
  have hsH := loopG_phi hd
  subst hsH
  have hpc := (loopG_wf.edges p "H").1 hs
  have : p = "E" ∨ p = "B" := by simpa [loopG] using hpc
  have hbs := (loopG_wf.edges p b).2 hp
  have hbH : b = "H" := by
    rcases this with rfl | rfl <;> simpa [loopG] using hbs
  subst hbH
  rcases this with rfl | rfl <;> simp

/-- The do-while loop on which liveness is unsound: the exit `X` of the loop uses `x`, which the loop header `H`, the other
successor of the latch `L`, assigns with a phi function. -/
def latchG (b : String) : Block :=
  if b = "E" then ⟨[⟨"calldataload", ["0x00"], ["a"]⟩], ["H"], [], []⟩
  else if b = "H" then ⟨[⟨"PhiFunction", ["a", "y"], ["x"]⟩], ["L"], ["E", "L"], ["E", "L"]⟩
  else if b = "L" then ⟨[⟨"add", ["x", "0x01"], ["y"]⟩], ["H", "X"], ["H"], []⟩
  else if b = "X" then ⟨[⟨"sstore", ["x", "0x00"], []⟩], [], ["L"], []⟩
  else ⟨[], [], [], []⟩

theorem latchG_wf : WF latchG := wf_of_wfOn (blocks := ["E", "H", "L", "X"]) (by decide) (by
  intro b hb
  simp only [List.mem_cons, List.not_mem_nil, or_false, not_or] at hb
  simp [latchG, hb])

/-- **C11, refuted in general.** On the well-formed graph `latchG` the analysis stops after visiting every block, the
variable `x` is live at the end of `L` (the exit block stores it), yet it is not in the computed set. -/
theorem live_sound_fails :
    WF latchG ∧ ∃ st out inn, run latchG ["E", "H", "L", "X"] ["X"] 20 = some st ∧
      (∀ b ∈ ["E", "H", "L", "X"], (st.info b).isSome) ∧
      st.info "L" = some (out, inn) ∧ Live latchG false "L" "x" ∧ "x" ∉ out := by
  refine ⟨latchG_wf, _, _, _, rfl, by decide, rfl, ?_, by decide⟩
  refine .succ (s := "X") (by decide) (.use ⟨[], ⟨"sstore", ["x", "0x00"], []⟩, [], rfl, by decide, by decide, by decide, ?_⟩) ?_
  · simp
  · rintro ⟨i, hi, hop, _⟩
    have : i = ⟨"sstore", ["x", "0x00"], []⟩ := by simpa [latchG] using hi
    subst this
    simp at hop

/-- A loop whose header `H` and join block `M` both have phi functions, with an edge `H → M`. -/
def spinG (b : String) : Block :=
  if b = "E" then ⟨[⟨"calldataload", ["0x00"], ["a"]⟩], ["H"], [], []⟩
  else if b = "H" then ⟨[⟨"PhiFunction", ["a", "z"], ["x"]⟩], ["T", "M"], ["E", "M"], ["E", "M"]⟩
  else if b = "T" then ⟨[⟨"add", ["x", "0x01"], ["w"]⟩], ["M"], ["H"], []⟩
  else if b = "M" then ⟨[⟨"PhiFunction", ["x", "w"], ["z"]⟩], ["H", "X"], ["H", "T"], ["H", "T"]⟩
  else if b = "X" then ⟨[⟨"stop", [], []⟩], [], ["M"], []⟩
  else ⟨[], [], [], []⟩

theorem spinG_wf : WF spinG := wf_of_wfOn (blocks := ["E", "H", "T", "M", "X"]) (by decide) (by
  intro b hb
  simp only [List.mem_cons, List.not_mem_nil, or_false, not_or] at hb
  simp [spinG, hb])

/-- **C13, refuted in general.** On the well-formed, reducible graph `spinG` the analysis started at its only terminal
block never stops. -/
theorem spinG_never_stops : ∀ f, run spinG ["E", "H", "T", "M", "X"] ["X"] f = none := by
  refine never_stops spinG_wf (fun b => b = "H" ∨ b = "M") (fun b => if b = "H" then "x" else "z") ?_ ?_ ?_ ?_
  · rintro b (rfl | rfl)
    · exact ⟨⟨"PhiFunction", ["a", "z"], ["x"]⟩, by decide, by decide, by decide⟩
    · exact ⟨⟨"PhiFunction", ["x", "w"], ["z"]⟩, by decide, by decide, by decide⟩
  · rintro b (rfl | rfl)
    · exact ⟨"M", by decide, Or.inr rfl⟩
    · exact ⟨"H", by decide, Or.inl rfl⟩
  · rintro b p s (rfl | rfl) (rfl | rfl) hp hs ⟨k, i, hk, hi, hop, hx, _⟩
    · revert hp; decide
    · have hs' : s = "H" ∨ s = "X" := by simpa [spinG] using hs
      rcases hs' with rfl | rfl
      · have : i = ⟨"PhiFunction", ["a", "z"], ["x"]⟩ := by simpa [spinG] using hi
        subst this
        match k with
        | 0 => simp at hx
        | 1 => simp at hx
        | k + 2 => simp at hx
      · simp [spinG] at hk
    · have hs' : s = "T" ∨ s = "M" := by simpa [spinG] using hs
      rcases hs' with rfl | rfl
      · simp [spinG] at hk
      · have : i = ⟨"PhiFunction", ["x", "w"], ["z"]⟩ := by simpa [spinG] using hi
        subst this
        match k with
        | 0 => simp at hx
        | 1 => simp at hx
        | k + 2 => simp at hx
    · revert hp; decide
  · exact ⟨"M", Or.inr rfl, "X", by decide, Relation.ReflTransGen.single (by decide)⟩

/-- The hypotheses of `live_sound_partial` are met by `loopG`. -/
example : (∃ st, run loopG ["E", "H", "B", "X"] ["X"] 20 = some st ∧
      ∀ b s, (st.info b).isSome → s ∈ (loopG b).succs → (st.info s).isSome) ∧ (∀ b ∈ ["X"], (loopG b).succs = []) ∧
    (∀ b s t x, s ∈ (loopG b).succs → t ∈ (loopG b).succs → PhiDef loopG s x → Live loopG true t x → PhiDef loopG t x) := by
  refine ⟨⟨_, rfl, ?_⟩, by decide, ?_⟩
  · intro b s _ hs
    have : s = "H" ∨ s = "B" ∨ s = "X" := by
      unfold loopG at hs
      split at hs
      · simp at hs; simp [hs]
      · split at hs
        · simp at hs; rcases hs with h | h <;> simp [h]
        · split at hs
          · simp at hs; simp [hs]
          · split at hs <;> simp at hs
    rcases this with rfl | rfl | rfl <;> decide
  intro b s t x hs ht hd _
  have hsH := loopG_phi hd
  subst hsH
  have hpc := (loopG_wf.edges b "H").1 hs
  have : b = "E" ∨ b = "B" := by simpa [loopG] using hpc
  have htH : t = "H" := by
    rcases this with rfl | rfl <;> simpa [loopG] using ht
  subst htH
  exact hd

end Grey.Liveness
