/-
C11: exactly which variables the liveness analysis finds, and exactly when it finds all live variables.
-/
import Verif.Liveness.Theorems
namespace Grey.Liveness
open List

/-! ### Specification -/

/-- Some terminal block can be reached from the block. -/
def CanEnd (cfg : String → Block) (initial : List String) (b : String) : Prop :=
  ∃ t ∈ initial, Relation.ReflTransGen (fun a c => c ∈ (cfg a).succs) b t

/-- As `Live`, along a path that ends, and such that no successor of a block on the way, not even one that the path does not take, assigns the variable with a
phi function. -/
inductive Unhidden (cfg : String → Block) (initial : List String) : Bool → String → String → Prop
  | use {b x} (h : UseFirst cfg b x) : Unhidden cfg initial true b x
  | thru {b x} (h : Unhidden cfg initial false b x) (hd : ¬ Def cfg b x) : Unhidden cfg initial true b x
  | phi {b s x} (hs : s ∈ (cfg b).succs) (h : PhiArg cfg b s x) : Unhidden cfg initial false b x
  | succ {b s x} (hs : s ∈ (cfg b).succs) (he : CanEnd cfg initial s) (h : Unhidden cfg initial true s x)
      (hp : ∀ t ∈ (cfg b).succs, ¬ PhiDef cfg t x) : Unhidden cfg initial false b x

/-- A variable that is live into a successor of a block, and assigned by a phi function of another successor but not of this one, is an argument of a phi
function for this block. -/
def Shown (cfg : String → Block) (initial : List String) : Prop :=
  ∀ b, CanEnd cfg initial b → ∀ s ∈ (cfg b).succs, ∀ t ∈ (cfg b).succs, ∀ x, Live cfg true s x → ¬ PhiDef cfg s x → PhiDef cfg t x →
    ∃ u ∈ (cfg b).succs, PhiArg cfg b u x

/-! ### Proofs -/

theorem Unhidden.live {cfg : String → Block} {initial : List String} {e : Bool} {b x : String} (h : Unhidden cfg initial e b x) : Live cfg e b x := by
  induction h with
  | use h => exact .use h
  | thru _ hd ih => exact .thru ih hd
  | phi hs h => exact .phi hs h
  | succ hs _ _ hp ih => exact .succ hs ih (hp _ hs)

theorem run_info {cfg : String → Block} (wf : WF cfg) {blocks initial : List String} {f : Nat} {st : St} (h : run cfg blocks initial f = some st) :
    ∃ V, (∀ b, InfoSpec cfg b (V b)) ∧ analyze V f (start initial) = some st := by
  unfold run at h
  split at h
  · refine ⟨_, ?_, h⟩
    intro b
    obtain ⟨V, hV, hs⟩ := blockInfo_spec wf b
    rw [hV]; exact hs
  · simp at h

variable {cfg : String → Block} {blocks initial : List String} {f : Nat} {st : St}

/-- What has been found so far: the blocks are those from which the program can end, and the variables are unhidden. -/
def Found (cfg : String → Block) (initial : List String) (info : String → Option (List String × Option (List String))) : Prop :=
  ∀ b o i, info b = some (o, i) → (CanEnd cfg initial b ∧ ∀ x ∈ o, Unhidden cfg initial false b x) ∧
    ∀ l, i = some l → CanEnd cfg initial b ∧ ∀ x ∈ l, Unhidden cfg initial true b x ∨ PhiDef cfg b x

theorem found_iterate (wf : WF cfg) {V : String → Info} (hV : ∀ b, InfoSpec cfg b (V b)) {b : String} {rest : List String} {info} {st' : St}
    (hI : Found cfg initial info) (h : iterate V b ⟨info, rest⟩ = some st') : Found cfg initial st'.info := by
  have hedge : ∀ {b p : String}, p ∈ (V b).comesFrom → b ∈ (cfg p).succs := fun {b p} hp => (wf.edges p b).2 (by rwa [← (hV b).comesFrom])
  have hend : ∀ {b p : String}, p ∈ (V b).comesFrom → CanEnd cfg initial b → CanEnd cfg initial p :=
    fun hp ⟨t, ht, hr⟩ => ⟨t, ht, .head (hedge hp) hr⟩
  have hprop : ∀ (b : String) (inn : List String) (p : String), p ∈ (V b).comesFrom → CanEnd cfg initial b →
      (∀ x ∈ inn, Unhidden cfg initial true b x ∨ PhiDef cfg b x) → ∀ x ∈ inn, x ∉ (V p).predPhiDefs → Unhidden cfg initial false p x := by
    intro b inn p hp he hl x hx hn
    have hs := hedge hp
    have hnp : ∀ t ∈ (cfg p).succs, ¬ PhiDef cfg t x := fun t ht h => hn (((hV p).predPhiDefs x).2 ⟨t, ht, h⟩)
    exact .succ hs he ((hl x hx).resolve_right (hnp b hs)) hnp
  have huse : ∀ p x, x ∈ (V p).phiUses → Unhidden cfg initial false p x := by
    intro p x hx
    obtain ⟨s, hs, h⟩ := ((hV p).phiUses x).1 hx
    exact .phi hs h
  refine sets_iterate (O := fun b o => CanEnd cfg initial b ∧ ∀ x ∈ o, Unhidden cfg initial false b x)
    (I := fun b l => CanEnd cfg initial b ∧ ∀ x ∈ l, Unhidden cfg initial true b x ∨ PhiDef cfg b x) ?_ ?_ ?_ hI h
  · rintro b out ⟨he, hO⟩
    refine ⟨he, fun x hx => ?_⟩
    rw [mem_transfer, (hV b).upward] at hx
    rcases hx with (h | h) | ⟨h, hd⟩
    · exact Or.inl (.use h)
    · exact Or.inr h
    · exact Or.inl (.thru (hO x h) (fun h' => hd (((hV b).defs x).2 h')))
  · rintro b inn p hp ⟨he, hin⟩
    refine ⟨hend hp he, fun x hx => ?_⟩
    rw [mem_propagate] at hx
    rcases hx with h | h | ⟨h, hn⟩
    · simp at h
    · exact huse p x h
    · exact hprop b inn p hp he hin x h hn
  · rintro b inn p out hp ⟨he, hin⟩ ⟨hep, hO⟩
    refine ⟨hep, fun x hx => ?_⟩
    rw [mem_propagate] at hx
    rcases hx with h | h | ⟨h, hn⟩
    · exact hO x h
    · exact huse p x h
    · exact hprop b inn p hp he hin x h hn

theorem found_start : Found cfg initial (start initial).info := by
  intro b o i h
  simp only [start] at h
  split at h
  · next hb =>
    simp only [Option.some.injEq, Prod.mk.injEq] at h
    obtain ⟨rfl, rfl⟩ := h
    exact ⟨⟨⟨b, hb, .refl⟩, by simp⟩, by simp⟩
  · simp at h

theorem phiUses_start (V : String → Info) : HasPhiUses V initial (start initial).info := by
  intro b o i h
  simp only [start] at h
  split at h
  · next hb => exact Or.inl hb
  · simp at h

/-- **C11, C12.** The computed sets, exactly: at the end of a block the unhidden variables, at its beginning these and the results of its phi functions. -/
theorem live_exact (wf : WF cfg) (h : run cfg blocks initial f = some st) (hterm : ∀ b ∈ initial, (cfg b).succs = [])
    {b : String} {out l : List String} (hb : st.info b = some (out, some l)) (x : String) :
    (x ∈ out ↔ Unhidden cfg initial false b x) ∧ (x ∈ l ↔ Unhidden cfg initial true b x ∨ PhiDef cfg b x) := by
  obtain ⟨V, hV, hA⟩ := run_info wf h
  have hfound := (analyze_inv (I := fun s => Found cfg initial s.info) (fun b rest info st' hI hi => found_iterate wf hV hI hi) f _ _ found_start hA).1
  have hphi := (analyze_inv (I := fun s => HasPhiUses V initial s.info)
      (fun b rest info st' hI hi => phiUses_iterate hI hi) f _ _ (phiUses_start V) hA).1
  have main : ∀ (e : Bool) (b x : String), Unhidden cfg initial e b x → ∀ out l, st.info b = some (out, some l) → if e then x ∈ l else x ∈ out := by
    intro e b x hl
    induction hl with
    | @use b x h1 =>
      intro out l hb
      obtain ⟨l', e, hl', _⟩ := stops_at_solution wf h hb
      simp only [Option.some.injEq] at e; subst e
      exact (hl' x).2 (Or.inl h1)
    | @thru b x h1 hd ih =>
      intro out l hb
      obtain ⟨l', e, hl', _⟩ := stops_at_solution wf h hb
      simp only [Option.some.injEq] at e; subst e
      exact (hl' x).2 (Or.inr (Or.inr ⟨ih out l hb, hd⟩))
    | @phi b s x hs hp =>
      intro out l hb
      rcases hphi b out _ hb with hi | hi
      · rw [hterm b hi] at hs; simp at hs
      · exact hi x (((hV b).phiUses x).2 ⟨s, hs, hp⟩)
    | @succ b s x hs he h1 hp ih =>
      intro out l hb
      obtain ⟨⟨o, i⟩, hso⟩ := Option.isSome_iff_exists.1 ((visited_iff wf h s).2 he)
      obtain ⟨l', e, _, hflow⟩ := stops_at_solution wf h hso
      subst e
      obtain ⟨o', i', h2, h3⟩ := hflow b ((wf.edges b s).1 hs)
      rw [hb] at h2
      simp only [Option.some.injEq, Prod.mk.injEq] at h2
      have hx := ih o l' hso
      simp only [if_true] at hx
      have := h3 x hx hp
      rw [← h2.1] at this
      exact this
  obtain ⟨⟨-, f1⟩, f2⟩ := hfound b out _ hb
  obtain ⟨l', e, hl', -⟩ := stops_at_solution wf h hb
  cases e
  exact ⟨⟨f1 x, fun h => main false b x h out l hb⟩, (f2 l rfl).2 x, fun h => h.elim (fun h => main true b x h out l hb) fun h => (hl' x).2 (.inr (.inl h))⟩

theorem unhidden_of_shown (hend : ∀ b s, CanEnd cfg initial b → s ∈ (cfg b).succs → CanEnd cfg initial s) (hs : Shown cfg initial) {e : Bool} {b x : String}
    (h : Live cfg e b x) : CanEnd cfg initial b → Unhidden cfg initial e b x := by
  induction h with
  | use h => exact fun _ => .use h
  | thru _ hd ih => exact fun he => .thru (ih he) hd
  | phi hs h => exact fun _ => .phi hs h
  | @succ b s x hsu hl hp ih =>
    intro he
    by_cases ht : ∃ t ∈ (cfg b).succs, PhiDef cfg t x
    · obtain ⟨t, ht, hd⟩ := ht
      obtain ⟨u, hu, ha⟩ := hs b he s hsu t ht x hl hp hd
      exact .phi hu ha
    · exact .succ hsu (hend b s he hsu) (ih (hend b s he hsu)) fun t ht' hd => ht ⟨t, ht', hd⟩

/-- **C11, exactly.** If the analysis stops and the program can end from every block that follows such a block, then all live variables are in the computed sets
if and only if every variable that a phi function of a sibling assigns is shown by another phi function. -/
theorem live_sound_iff (wf : WF cfg) (h : run cfg blocks initial f = some st) (hterm : ∀ b ∈ initial, (cfg b).succs = [])
    (hend : ∀ b s, CanEnd cfg initial b → s ∈ (cfg b).succs → CanEnd cfg initial s) :
    (∀ b out l, st.info b = some (out, some l) → ∀ x, (Live cfg false b x → x ∈ out) ∧ (Live cfg true b x → x ∈ l)) ↔ Shown cfg initial := by
  constructor
  · intro hall b he s hs t ht x hl hp hd
    obtain ⟨⟨out, inn⟩, hi⟩ := Option.isSome_iff_exists.1 ((visited_iff wf h b).2 he)
    obtain ⟨l, rfl, -⟩ := stops_at_solution wf h hi
    have hx := (live_exact wf h hterm hi x).1.1 ((hall b out l hi x).1 (.succ hs hl hp))
    cases hx with
    | phi hu ha => exact ⟨_, hu, ha⟩
    | succ _ _ _ hn => exact absurd hd (hn t ht)
  · intro hs b out l hi x
    have he := (visited_iff wf h b).1 (by rw [hi]; rfl)
    obtain ⟨e1, e2⟩ := live_exact wf h hterm hi x
    exact ⟨fun hl => e1.2 (unhidden_of_shown hend hs hl he), fun hl => e2.2 (.inl (unhidden_of_shown hend hs hl he))⟩

/-! ### Examples -/

/-- `latchG` with the phi function keeping its own result: `x` is live into the exit of the loop and assigned by a phi function of the header, and it is shown, as
the argument of that phi function for the latch. -/
def keepG (b : String) : Block :=
  if b = "E" then ⟨[⟨"calldataload", ["0x00"], ["a"]⟩], ["H"], [], []⟩
  else if b = "H" then ⟨[⟨"PhiFunction", ["a", "x"], ["x"]⟩], ["L"], ["E", "L"], ["E", "L"]⟩
  else if b = "L" then ⟨[⟨"add", ["x", "0x01"], ["y"]⟩], ["H", "X"], ["H"], []⟩
  else if b = "X" then ⟨[⟨"sstore", ["x", "0x00"], []⟩], [], ["L"], []⟩
  else ⟨[], [], [], []⟩

theorem keepG_wf : WF keepG := wf_of_wfOn (blocks := ["E", "H", "L", "X"]) (by decide) (by
  intro b hb
  simp only [mem_cons, not_mem_nil, or_false, not_or] at hb
  simp [keepG, hb])

theorem keepG_phi {t x : String} (h : PhiDef keepG t x) : t = "H" ∧ x = "x" := by
  obtain ⟨i, hi, hop, hx⟩ := h
  by_cases hm : t ∈ ["E", "H", "L", "X"]
  · have : ∀ t ∈ ["E", "H", "L", "X"], ∀ i ∈ (keepG t).instrs, i.op = "PhiFunction" → ∀ x ∈ i.outs, t = "H" ∧ x = "x" := by decide
    exact this t hm i hi hop x hx
  · simp only [mem_cons, not_mem_nil, or_false, not_or] at hm
    simp [keepG, hm] at hi

theorem keepG_shown : Shown keepG ["X"] := by
  intro b _ s hs t ht x _ hp hd
  obtain ⟨rfl, rfl⟩ := keepG_phi hd
  have hb : b = "E" ∨ b = "L" := by simpa [keepG] using (keepG_wf.edges b "H").1 ht
  rcases hb with rfl | rfl
  · have : s = "H" := by simpa [keepG] using hs
    exact absurd (this ▸ hd) hp
  · exact ⟨"H", by decide, 1, ⟨"PhiFunction", ["a", "x"], ["x"]⟩, by decide, by decide, rfl, rfl, by decide⟩

theorem keepG_end : ∀ b s, CanEnd keepG ["X"] b → s ∈ (keepG b).succs → CanEnd keepG ["X"] s := by
  intro b s _ hs
  have x : Relation.ReflTransGen (fun a c => c ∈ (keepG a).succs) "X" "X" := .refl
  have l : Relation.ReflTransGen (fun a c => c ∈ (keepG a).succs) "L" "X" := .head (by decide) x
  have hm : b ∈ ["E", "H", "L", "X"] := by
    by_contra hm
    simp only [mem_cons, not_mem_nil, or_false, not_or] at hm
    simp [keepG, hm] at hs
  have : ∀ b ∈ ["E", "H", "L", "X"], ∀ s ∈ (keepG b).succs, s = "H" ∨ s = "L" ∨ s = "X" := by decide
  refine ⟨"X", by simp, ?_⟩
  rcases this b hm s hs with rfl | rfl | rfl
  · exact .head (by decide) l
  · exact l
  · exact x

/-- `keepG` meets the hypotheses of `live_sound_iff` and its condition, although a successor of `L` assigns with a phi function what is live into the other. -/
theorem keepG_all : ∃ st, run keepG ["E", "H", "L", "X"] ["X"] 20 = some st ∧ (∀ b ∈ ["E", "H", "L", "X"], (st.info b).isSome) ∧
    ∀ b out l, st.info b = some (out, some l) → ∀ x, (Live keepG false b x → x ∈ out) ∧ (Live keepG true b x → x ∈ l) :=
  ⟨_, rfl, by decide, (live_sound_iff (blocks := ["E", "H", "L", "X"]) (f := 20) keepG_wf rfl (by decide) keepG_end).2 keepG_shown⟩

end Grey.Liveness
