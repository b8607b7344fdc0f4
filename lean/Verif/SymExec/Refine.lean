/-
Property theorem C41: an accepted schedule refines the program-order execution of the block.
-/
import Verif.SymExec.RefineSpec
import Verif.SymExec.Theorems
import Verif.Trace.Theorems
import Mathlib.Data.List.Induction
open List
namespace Grey.SymExec
open Grey.Trace (exec exec_append Chain Respects)

section lemmas
variable {V σ : Type} (sem : Sem V σ)

theorem assign_notin (env : Var → V) (vs : List Var) (xs : List V) (v : Var) (h : v ∉ vs) :
    assign env vs xs v = env v := by
  induction vs generalizing env xs with
  | nil => rfl
  | cons a vs ih =>
    cases xs with
    | nil => rfl
    | cons x xs =>
      simp only [List.mem_cons, not_or] at h
      rw [assign, ih _ _ h.2]; simp [h.1]

theorem map_assign (env : Var → V) (vs : List Var) (xs : List V) (hn : vs.Nodup) (hl : xs.length = vs.length) :
    vs.map (assign env vs xs) = xs := by
  induction vs generalizing env xs with
  | nil => cases xs with
    | nil => rfl
    | cons _ _ => simp at hl
  | cons a vs ih =>
    cases xs with
    | nil => simp at hl
    | cons x xs =>
      rw [List.nodup_cons] at hn
      simp only [List.map_cons, assign]
      rw [ih _ _ hn.2 (by simpa using hl), assign_notin _ _ _ _ hn.1]
      simp

theorem ssaRun_append (l l' : List UInstr) (env : Var → V) (w : σ) :
    ssaRun sem (l ++ l') env w = ssaRun sem l' (ssaRun sem l env w).1 (ssaRun sem l env w).2 := by
  induction l generalizing env w with
  | nil => rfl
  | cons u l ih => simp only [List.cons_append, ssaRun, ih]

theorem ssaRun_notin (l : List UInstr) (env : Var → V) (w : σ) (v : Var) (h : ∀ u ∈ l, v ∉ u.outpt) :
    (ssaRun sem l env w).1 v = env v := by
  induction l generalizing env w with
  | nil => rfl
  | cons u l ih =>
    rw [ssaRun, ih _ _ (fun u' hu => h u' (by simp [hu])), assign_notin _ _ _ _ (h u (by simp))]

/-- World transformer and outputs of an instruction on the final values of its inputs. -/
def stepV (val : Var → V) (u : UInstr) (w : σ) : σ := (sem u (u.inpt.map val) w).2
def outV (val : Var → V) (u : UInstr) (w : σ) : List V := (sem u (u.inpt.map val) w).1

variable {tab : List UInstr} {src : List Var}

theorem inputs_stable (h : SSA tab src) (env0 : Var → V) (w0 : σ) (pre post : List UInstr) (u : UInstr)
    (e : tab = pre ++ u :: post) :
    u.inpt.map (ssaRun sem tab env0 w0).1 = u.inpt.map (ssaRun sem pre env0 w0).1 := by
  apply List.map_congr_left
  intro v hv
  rw [e, ssaRun_append]
  apply ssaRun_notin
  intro u' hu' ho
  obtain ⟨a, b, hab⟩ := List.append_of_mem hu'
  have e' : tab = (pre ++ a) ++ u' :: b := by rw [e, hab]; simp
  refine h.defBeforeUse (pre ++ a) u' b e' v ho u ?_ hv
  cases a with
  | nil => simp only [List.nil_append, List.cons.injEq] at hab; simp [hab.1]
  | cons x a => simp only [List.cons_append, List.cons.injEq] at hab; simp [hab.1]

theorem world_eq (h : SSA tab src) (env0 : Var → V) (w0 : σ) (pre post : List UInstr) (e : tab = pre ++ post) :
    (ssaRun sem pre env0 w0).2 = exec (stepV sem (ssaRun sem tab env0 w0).1) pre w0 := by
  induction pre using List.reverseRecOn generalizing post with
  | nil => rfl
  | append_singleton pre u ih =>
    rw [ssaRun_append, exec_append, ← ih (u :: post) (by rw [e]; simp)]
    simp only [ssaRun, Grey.Trace.exec_cons, Grey.Trace.exec_nil, stepV]
    rw [inputs_stable sem h env0 w0 pre post u (by rw [e]; simp)]

theorem outputs_eq (h : SSA tab src)
    (hlen : ∀ u ∈ tab, ∀ args w, (sem u args w).1.length = u.outpt.length)
    (env0 : Var → V) (w0 : σ) (pre post : List UInstr) (u : UInstr) (e : tab = pre ++ u :: post) :
    outV sem (ssaRun sem tab env0 w0).1 u (exec (stepV sem (ssaRun sem tab env0 w0).1) pre w0) =
      u.outpt.map (ssaRun sem tab env0 w0).1 := by
  rw [← world_eq sem h env0 w0 pre (u :: post) e, outV, inputs_stable sem h env0 w0 pre post u e]
  have hno : (u.outpt).Nodup ∧ ∀ v ∈ u.outpt, ∀ u' ∈ post, v ∉ u'.outpt := by
    have := h.outs
    rw [e, List.flatMap_append, List.flatMap_cons, List.nodup_append] at this
    have h2 := List.nodup_append.1 this.2.1
    refine ⟨h2.1, fun v hv u' hu' hv' => h2.2.2 v hv v ?_ rfl⟩
    exact List.mem_flatMap.2 ⟨u', hu', hv'⟩
  have : u.outpt.map (ssaRun sem tab env0 w0).1 =
      u.outpt.map (assign (ssaRun sem pre env0 w0).1 u.outpt
        (sem u (u.inpt.map (ssaRun sem pre env0 w0).1) (ssaRun sem pre env0 w0).2).1) := by
    apply List.map_congr_left
    intro v hv
    conv => lhs; rw [e]
    rw [ssaRun_append, ssaRun]
    exact ssaRun_notin sem post _ _ v (hno.2 v hv)
  rw [this, map_assign _ _ _ hno.1 (hlen u (by rw [e]; simp) _ _)]

end lemmas

/-- The table instructions executed by a schedule. -/
def instrsOf (tab : List UInstr) (ids : List String) : List UInstr :=
  ids.filterMap fun s => tab.find? (fun u => u.id == s)

theorem find_id {tab : List UInstr} (hn : (tab.map (·.id)).Nodup) {u : UInstr} (hu : u ∈ tab) :
    tab.find? (fun x => x.id == u.id) = some u := by
  cases hf : tab.find? (fun x => x.id == u.id) with
  | none =>
    have := List.find?_eq_none.1 hf u hu
    simp at this
  | some x =>
    have h1 := List.mem_of_find?_eq_some hf
    have h2 : x.id = u.id := by simpa using List.find?_some hf
    rw [filter_id_eq.inj_of_nodup hn h1 hu h2]

theorem find_some {tab : List UInstr} {s : String} {u : UInstr}
    (h : tab.find? (fun x => x.id == s) = some u) : u ∈ tab ∧ u.id = s :=
  ⟨List.mem_of_find?_eq_some h, by simpa using List.find?_some h⟩

theorem count_instrsOf {tab : List UInstr} (hn : (tab.map (·.id)).Nodup) {u : UInstr} (hu : u ∈ tab)
    (ids : List String) : (instrsOf tab ids).count u = ids.count u.id := by
  induction ids with
  | nil => rfl
  | cons s ids ih =>
    by_cases h : s = u.id
    · subst h
      have : instrsOf tab (u.id :: ids) = u :: instrsOf tab ids := by
        simp [instrsOf, find_id hn hu]
      rw [this, List.count_cons_self, List.count_cons_self, ih]
    · rw [List.count_cons_of_ne h, ← ih]
      unfold instrsOf
      rw [List.filterMap_cons]
      split
      · rfl
      · rename_i x hx
        have := find_some hx
        rw [List.count_cons_of_ne]
        rintro rfl
        exact h this.2.symm

theorem sublist_instrsOf {tab : List UInstr} {a b : UInstr} {ids : List String}
    (h : [a, b] <+ instrsOf tab ids) : [a.id, b.id] <+ ids := by
  have h1 : (instrsOf tab ids).map (·.id) <+ ids := by
    unfold instrsOf
    induction ids with
    | nil => simp
    | cons s ids ih =>
      rw [List.filterMap_cons]
      split
      · rename_i hx
        refine List.Sublist.cons s (ih ?_)
        simpa [instrsOf, hx] using h
      · rename_i x hx
        rw [List.map_cons, (find_some hx).2]
        refine List.Sublist.cons_cons s ?_
        clear ih h
        induction ids with
        | nil => simp
        | cons t ids ih =>
          rw [List.filterMap_cons]
          split
          · exact List.Sublist.cons t ih
          · rename_i y hy
            rw [List.map_cons, (find_some hy).2]
            exact List.Sublist.cons_cons t ih
  exact (h.map (·.id)).trans h1

theorem sublist_of_idxOf_lt {A : Type} [DecidableEq A] {l : List A} {a b : A} (ha : a ∈ l) (hb : b ∈ l)
    (h : l.idxOf a < l.idxOf b) : [a, b] <+ l := by
  induction l with
  | nil => simp at ha
  | cons x l ih =>
    by_cases hxa : x = a
    · subst hxa
      refine List.Sublist.cons_cons x (List.singleton_sublist.2 ?_)
      rcases List.mem_cons.1 hb with rfl | hb
      · omega
      · exact hb
    · by_cases hxb : x = b
      · subst hxb; simp at h
      · rw [List.idxOf_cons_ne _ hxa, List.idxOf_cons_ne _ hxb] at h
        exact List.Sublist.cons x (ih (by simpa [Ne.symm hxa] using ha)
          (by simpa [Ne.symm hxb] using hb) (by omega))

theorem good_of_outputs {V σ : Type} {tab : List UInstr} {sem : Sem V σ} {val : Var → V}
    (hplain : ∀ u ∈ tab, classify u.id = some (.instr u.id)) (hn : (tab.map (·.id)).Nodup)
    (w0 : σ) (done ids : List String) {st st' : List Var} (hex : execIds tab ids st = some st')
    (hout : ∀ P o Q, instrsOf tab (done ++ ids) = P ++ o :: Q →
      outV sem val o (exec (stepV sem val) P w0) = o.outpt.map val) :
    Good tab sem val ids (exec (stepV sem val) (instrsOf tab done) w0)
      (exec (stepV sem val) (instrsOf tab (done ++ ids)) w0) := by
  induction ids generalizing done st with
  | nil => simpa using Good.nil _
  | cons s ss ih =>
    rw [execIds] at hex
    obtain ⟨st1, h1, h2⟩ := Option.bind_eq_some_iff.1 hex
    obtain ⟨o, hc, h1⟩ := Option.bind_eq_some_iff.1 h1
    have ih' := ih (done ++ [s]) h2 (by simpa using hout)
    rw [show done ++ s :: ss = done ++ [s] ++ ss by simp]
    by_cases ho : ∃ i, o = .instr i
    · obtain ⟨i, rfl⟩ := ho
      obtain ⟨u, hu, rfl⟩ := instr_mem_of_exec h1
      have hs : s = u.id := by
        have hcs := hc
        unfold classify at hcs
        simp only at hcs
        split at hcs
        · simp at hcs
        · split at hcs
          · obtain ⟨n, _, hn⟩ := Option.map_eq_some_iff.1 hcs; simp at hn
          · split at hcs
            · obtain ⟨n, _, hn⟩ := Option.map_eq_some_iff.1 hcs; simp at hn
            · split at hcs
              · simp at hcs
              · split at hcs
                · simp at hcs
                · simpa using hcs
      subst hs
      have hone : instrsOf tab (done ++ [u.id]) = instrsOf tab done ++ [u] := by
        simp [instrsOf, find_id hn hu]
      refine Good.instr u.id u ss _ _ hc hu ?_ ?_
      · refine hout (instrsOf tab done) u (instrsOf tab ss) ?_
        rw [show done ++ u.id :: ss = done ++ [u.id] ++ ss by simp]
        conv => lhs; unfold instrsOf
        rw [List.filterMap_append]
        change instrsOf tab (done ++ [u.id]) ++ instrsOf tab ss = _
        rw [hone]; simp
      · rw [hone, exec_append] at ih'
        exact ih'
    · refine Good.skip s o ss _ _ hc (fun i e => ho ⟨i, e⟩) ?_
      have hnone : instrsOf tab (done ++ [s]) = instrsOf tab done := by
        have : tab.find? (fun u => u.id == s) = none := by
          cases hf : tab.find? (fun u => u.id == s) with
          | none => rfl
          | some u =>
            obtain ⟨hu, rfl⟩ := find_some hf
            rw [hplain u hu] at hc
            exact absurd ⟨_, (Option.some.inj hc).symm⟩ ho
        simp [instrsOf, this]
      rw [hnone] at ih'
      exact ih'

theorem Describes.world {V σ : Type} {sem : Sem V σ} {val : Var → V} {tab : List UInstr} {w w' : σ}
    (h : Describes sem val tab w w') : exec (stepV sem val) tab w = w' := by
  induction h with
  | nil w => rfl
  | cons u us w w' ho h ih => simpa [Grey.Trace.exec_cons, stepV] using ih

theorem Describes.out {V σ : Type} {sem : Sem V σ} {val : Var → V} {tab : List UInstr} {w w' : σ}
    (h : Describes sem val tab w w') (pre post : List UInstr) (u : UInstr) (e : tab = pre ++ u :: post) :
    outV sem val u (exec (stepV sem val) pre w) = u.outpt.map val := by
  induction h generalizing pre with
  | nil w => simp at e
  | cons x us w w' ho h ih =>
    cases pre with
    | nil =>
      simp only [List.nil_append, List.cons.injEq] at e
      rw [← e.1]; exact ho
    | cons y pre =>
      simp only [List.cons_append, List.cons.injEq] at e
      rw [← e.1, Grey.Trace.exec_cons]
      exact ih pre e.2

/-- What acceptance means for the values: executing the schedule on names gives the target, and every instruction of the
schedule, on the values of its inputs, produces the values of its outputs. -/
theorem accepted_good {V σ : Type} (spec : Spec) (ids : List String) (junk : Bool)
    (sem : Sem V σ)
    (hids : (spec.userInstrs.map (·.id)).Nodup)
    (hplain : ∀ u ∈ spec.userInstrs, classify u.id = some (.instr u.id))
    (hquiet : ∀ u ∈ spec.userInstrs, ¬ IsEffect u → ∀ args w, (sem u args w).2 = w)
    (val : Var → V) (w0 w1 : σ) (hdesc : Describes sem val spec.userInstrs w0 w1)
    (hindep : ∀ a b, [a, b] <+ spec.userInstrs → IsEffect a ∨ IsEffect b →
      ¬ Chain spec.deps a.id b.id → Independent sem val a b)
    (hacc : check spec ids junk = true) :
    ∃ cstack, execIds spec.userInstrs ids spec.src = some cstack ∧ Good spec.userInstrs sem val ids w0 w1 ∧
      cstack.take spec.tgt.length = spec.tgt ∧ (junk = false → cstack = spec.tgt) := by
  have hdeps : Respects spec.deps ids :=
    fun d hd => accepted_respects_deps spec ids junk hacc d.1 d.2 hd
  have honce := accepted_effects_once spec ids junk hacc
  unfold check at hacc
  split at hacc
  · simp at hacc
  rename_i cstack hex
  simp only [Bool.and_eq_true, decide_eq_true_eq] at hacc
  obtain ⟨⟨hcmp, _⟩, _⟩ := hacc
  generalize htab : spec.userInstrs = tab at *
  have hnd : tab.Nodup := List.Pairwise.of_map (fun u : UInstr => u.id) (fun a b h e => h (by rw [e])) hids
  let eff : UInstr → Bool := fun u => u.storage && !(infixOf "GAS".toList u.disasm.toList)
  have heff : ∀ u, eff u = true ↔ IsEffect u := by
    intro u
    simp only [eff, IsEffect, Bool.and_eq_true, Bool.not_eq_true', ← infixOf_iff, Bool.not_eq_true]
  have hindep' : ∀ a b, Grey.Trace.Conf (stepV sem val) (outV sem val) tab a b → a ∈ tab → b ∈ tab →
      Chain spec.deps a.id b.id := by
    intro a b hc ha hb
    apply Classical.byContradiction
    intro hch
    apply hc.2
    by_cases he : IsEffect a ∨ IsEffect b
    · have hi := hindep a b (sublist_of_idxOf_lt ha hb hc.1) he hch
      exact ⟨hi.world, hi.left, hi.right⟩
    · have ha' := hquiet a ha (fun h => he (Or.inl h))
      have hb' := hquiet b hb (fun h => he (Or.inr h))
      exact ⟨fun w => by simp [stepV, ha', hb'], fun w => by simp [stepV, hb'], fun w => by simp [stepV, ha']⟩
  have hsub : ∀ x ∈ instrsOf tab ids, x ∈ tab := by
    intro x hx
    obtain ⟨s, _, hs⟩ := List.mem_filterMap.1 hx
    exact (find_some hs).1
  have href := Grey.Trace.schedule_refines (stepV sem val) (outV sem val) eff tab (instrsOf tab ids) hnd hsub
    (fun a ha he w => hquiet a ha (fun h => by rw [(heff a).2 h] at he; simp at he) _ w)
    (fun a ha he => by
      rw [count_instrsOf hids ha]
      exact honce a ha ((heff a).1 he).1 ((heff a).1 he).2)
    (fun a b hc hs => by
      have ha := hsub a (hs.subset (by simp))
      have hb := hsub b (hs.subset (by simp))
      exact (hindep' a b hc ha hb).no_inversion hdeps (sublist_instrsOf hs))
    w0
  have hout : ∀ P o Q, instrsOf tab ([] ++ ids) = P ++ o :: Q →
      outV sem val o (exec (stepV sem val) P w0) = o.outpt.map val := by
    intro P o Q e
    have ho : o ∈ tab := hsub o (by rw [List.nil_append] at e; rw [e]; simp)
    obtain ⟨pre, post, ep⟩ := List.append_of_mem ho
    rw [href.2 P o Q pre post (by simpa using e) ep]
    exact hdesc.out pre post o ep
  have hgood := good_of_outputs hplain hids w0 [] ids hex hout
  have hw : exec (stepV sem val) (instrsOf tab ([] ++ ids)) w0 = w1 := by
    rw [List.nil_append, href.1, hdesc.world]
  rw [hw] at hgood
  refine ⟨cstack, hex, hgood, ?_, ?_⟩
  · cases junk with
    | false => simp only [Bool.false_eq_true, if_false] at hcmp; rw [hcmp, List.take_length]
    | true => simpa using hcmp
  · rintro rfl
    simpa using hcmp

/-- The general form of C41: the reference execution is given by the values it assigns to the names. -/
theorem accepted_refines_valuation {V σ : Type} (spec : Spec) (ids : List String) (junk : Bool)
    (sem : Sem V σ) (hcomm : sem.RespectsComm spec.userInstrs)
    (hids : (spec.userInstrs.map (·.id)).Nodup)
    (hplain : ∀ u ∈ spec.userInstrs, classify u.id = some (.instr u.id))
    (hquiet : ∀ u ∈ spec.userInstrs, ¬ IsEffect u → ∀ args w, (sem u args w).2 = w)
    (val : Var → V) (w0 w1 : σ) (hdesc : Describes sem val spec.userInstrs w0 w1)
    (hindep : ∀ a b, [a, b] <+ spec.userInstrs → IsEffect a ∨ IsEffect b →
      ¬ Chain spec.deps a.id b.id → Independent sem val a b)
    (hacc : check spec ids junk = true)
    (hsw : ∀ s ∈ ids, classify s ≠ some (.swap 0))
    (slot : Var → V) (hslots : SlotsReady val slot ids) (rest : List V) :
    ∃ slot' extra,
      Run spec.userInstrs sem ids
        ⟨spec.src.map val ++ rest, slot, w0⟩ ⟨spec.tgt.map val ++ extra ++ rest, slot', w1⟩ ∧
      (junk = false → extra = []) := by
  obtain ⟨cstack, hex, hgood, htake, hjunk⟩ := accepted_good spec ids junk sem hids hplain hquiet val w0 w1 hdesc hindep hacc
  obtain ⟨slot', hrun⟩ := run_sim hcomm hids hgood hex hsw slot hslots rest
  refine ⟨slot', (cstack.drop spec.tgt.length).map val, ?_, fun h => by rw [hjunk h]; simp⟩
  have : cstack.map val = spec.tgt.map val ++ (cstack.drop spec.tgt.length).map val := by
    conv => lhs; rw [← List.take_append_drop spec.tgt.length cstack]
    rw [List.map_append, htake]
  rw [← this]
  exact hrun

theorem describes_ssaRun {V σ : Type} (sem : Sem V σ) {tab : List UInstr} {src : List Var} (h : SSA tab src)
    (hlen : ∀ u ∈ tab, ∀ args w, (sem u args w).1.length = u.outpt.length) (env0 : Var → V) (w0 : σ) :
    ∀ pre post, tab = pre ++ post → Describes sem (ssaRun sem tab env0 w0).1 post
      (exec (stepV sem (ssaRun sem tab env0 w0).1) pre w0) (ssaRun sem tab env0 w0).2 := by
  intro pre post
  induction post generalizing pre with
  | nil =>
    intro e
    rw [List.append_nil] at e
    rw [← e, ← world_eq sem h env0 w0 tab [] (by simp)]
    exact .nil _
  | cons u post ih =>
    intro e
    refine .cons u post _ _ (outputs_eq sem h hlen env0 w0 pre post u e) ?_
    have := ih (pre ++ [u]) (by rw [e]; simp)
    rw [exec_append] at this
    exact this


/-- **C41.** Let the validator accept `ids` for a block in SSA form. Take any interpretation of the
operations over any world (memory, storage, logs, ...) in which only the effects change the world, and
in which two instructions of the block — one of them an effect — that are not ordered by a chain of
dependences do not influence each other. Then the schedule runs without underflow from the source
layout and ends with the values of the target layout *as computed by the program-order run of the block on named
variables*, and with the same world as that run. -/
theorem accepted_refines_block {V σ : Type} (spec : Spec) (ids : List String) (junk : Bool)
    (sem : Sem V σ) (hcomm : sem.RespectsComm spec.userInstrs)
    (hssa : SSA spec.userInstrs spec.src)
    (hplain : ∀ u ∈ spec.userInstrs, classify u.id = some (.instr u.id))
    (hlen : ∀ u ∈ spec.userInstrs, ∀ args w, (sem u args w).1.length = u.outpt.length)
    (hquiet : ∀ u ∈ spec.userInstrs, ¬ IsEffect u → ∀ args w, (sem u args w).2 = w)
    (env0 : Var → V) (w0 : σ)
    (hindep : ∀ a b, [a, b] <+ spec.userInstrs → IsEffect a ∨ IsEffect b →
      ¬ Chain spec.deps a.id b.id → Independent sem (ssaRun sem spec.userInstrs env0 w0).1 a b)
    (hacc : check spec ids junk = true)
    (hsw : ∀ s ∈ ids, classify s ≠ some (.swap 0))
    (slot : Var → V) (hslots : SlotsReady (ssaRun sem spec.userInstrs env0 w0).1 slot ids) (rest : List V) :
    ∃ slot' extra,
      Run spec.userInstrs sem ids
        ⟨spec.src.map env0 ++ rest, slot, w0⟩
        ⟨spec.tgt.map (ssaRun sem spec.userInstrs env0 w0).1 ++ extra ++ rest, slot',
          (ssaRun sem spec.userInstrs env0 w0).2⟩ ∧
      (junk = false → extra = []) := by
  have hd := describes_ssaRun sem hssa hlen env0 w0 [] spec.userInstrs rfl
  have hsrc : spec.src.map (ssaRun sem spec.userInstrs env0 w0).1 = spec.src.map env0 := by
    apply List.map_congr_left
    intro v hv
    exact ssaRun_notin sem spec.userInstrs env0 w0 v (fun u hu ho => hssa.fresh u hu v ho hv)
  have := accepted_refines_valuation spec ids junk sem hcomm hssa.ids hplain hquiet _ w0 _ hd hindep hacc hsw slot
    hslots rest
  rw [hsrc] at this
  exact this

end Grey.SymExec
