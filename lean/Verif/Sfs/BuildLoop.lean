/-
The invariant behind C49 holds after the loops over the instructions and over the assignments.
-/
import Verif.Sfs.BuildSteps
open List
namespace Grey.Sfs
open Grey.SymExec

section
variable {V σ : Type} {I : Interp V σ} {instrs : List Ins} {src : List String} {fin : String → V} {w0 : σ}
  {P : String → Prop} {val : String → V} {n : Nat} {w : σ} {st : St}

theorem proper_val (h : Inv I instrs fin w0 P val n w st) {x : String} (hx : Proper x) : val x = fin x := by
  rw [h.base x hx.notGen]
  unfold Interp.read
  rw [if_neg hx.notLit, if_neg hx.notBottom]

theorem forall₂_set_map {A : Type} {R : A → A → Prop} {l : List A} {p : Nat} {e e' : A} {f : A → A} (h : l[p]? = some e)
    (he : R e (f e')) (hr : ∀ x ∈ l, R x (f x)) : List.Forall₂ R l ((l.set p e').map f) := by
  induction l generalizing p with
  | nil => simp at h
  | cons a l ih =>
    cases p with
    | zero =>
      simp at h; subst h
      refine .cons he ?_
      clear ih
      have hr' : ∀ x ∈ l, R x (f x) := fun x hx => hr x (by simp [hx])
      clear hr he
      induction l with
      | nil => exact .nil
      | cons b l ih => exact .cons (hr' b (by simp)) (ih fun x hx => hr' x (by simp [hx]))
    | succ p =>
      exact .cons (hr a (by simp)) (ih (by simpa using h) fun x hx => hr x (by simp [hx]))

/-- A repeated push. -/
theorem Inv.repush (h : Inv I instrs fin w0 P val n w st) {i : Ins} {p : Nat} {e : Entry} {old new : String} {st1 : St}
    (he : st.entries[p]? = some e) (hold : e.instr.outpt = [old]) (hnew : i.outArgs = [new]) (hv : val old = val new)
    (hn : Older st.outIdx new) (hP : P new) (hto : ¬ IsTag instrs old) (htn : ¬ IsTag instrs new)
    (hs : repush i p st = some st1) :
    Inv I instrs fin w0 P val n w st1 ∧ st1.positions = st.positions := by
  unfold Grey.Sfs.repush at hs
  rw [he, Option.bind_some, hold, List.head?_cons, Option.bind_some, hnew, List.head?_cons, Option.map_some,
    Option.some.injEq] at hs
  subst hs
  refine ⟨?_, rfl⟩
  have hemem := List.mem_of_getElem? he
  have holdOlder : Older st.outIdx old := h.names e hemem old (by simp [hold])
  have hin : ∀ x ∈ st.entries, (renameVar old new x.instr.inpt).map val = x.instr.inpt.map val := by
    intro x _
    unfold renameVar
    rw [List.map_map]
    apply List.map_congr_left
    intro v _
    simp only [Function.comp]
    split
    · rename_i hv'; rw [hv', hv]
    · rfl
  have hinNames : ∀ x ∈ st.entries, ∀ v ∈ renameVar old new x.instr.inpt, Older st.outIdx v := by
    intro x hx v hvm
    unfold renameVar at hvm
    obtain ⟨u, hu, rfl⟩ := List.mem_map.1 hvm
    split
    · exact hn
    · exact h.names x hx u (by simp [hu])
  have hsim : List.Forall₂ (Similar instrs val st.outIdx P) st.entries
      ((st.entries.set p { e with instr := { e.instr with outpt := [new] } }).map fun x =>
        { x with instr := { x.instr with inpt := renameVar old new x.instr.inpt } }) := by
    refine forall₂_set_map he ?_ ?_
    · refine ⟨rfl, rfl, rfl, rfl, rfl, hin e hemem, Or.inr ⟨old, new, hold, rfl, hv, htn⟩, ?_, ?_, ?_⟩
      · intro v hvm
        rcases List.mem_append.1 hvm with hvm | hvm
        · exact hinNames e hemem v hvm
        · simp only [List.mem_singleton] at hvm; subst hvm; exact hn
      · intro v hvm
        simp only [List.mem_singleton] at hvm; subst hvm; exact hP
      · intro ht
        exact absurd (h.tagOuts e hemem ht old (by rw [hold]; simp)) hto
    · intro x hx
      refine ⟨rfl, rfl, rfl, rfl, rfl, hin x hx, Or.inl rfl, ?_, h.outs x hx, fun _ => rfl⟩
      intro v hvm
      rcases List.mem_append.1 hvm with hvm | hvm
      · exact hinNames x hx v hvm
      · exact h.names x hx v (by simp [hvm])
  exact (h.replace _ hsim).withAlias hv holdOlder hn hto

/-- The output names after `n` instructions. -/
def Seen (instrs : List Ins) (n : Nat) (x : String) : Prop :=
  (∃ m i, m < n ∧ instrs[m]? = some i ∧ x ∈ i.outArgs) ∨ Generated x

theorem Seen.mono {a b : Nat} (h : a ≤ b) {x : String} : Seen instrs a x → Seen instrs b x
  | .inl ⟨m, i, h1, h2, h3⟩ => .inl ⟨m, i, by omega, h2, h3⟩
  | .inr h => .inr h

theorem not_seen (hb : BlockOk instrs src) {i : Ins} (hi : instrs[n]? = some i) {x : String} (hx : x ∈ i.outArgs) :
    ¬ Seen instrs n x := by
  rintro (⟨m, j, hm, hj, hxj⟩ | hg)
  · have hnd := hb.outs
    obtain ⟨hn, rfl⟩ := List.getElem?_eq_some_iff.1 hi
    have hmem : j ∈ instrs.take n := by
      refine List.mem_iff_getElem?.2 ⟨m, ?_⟩
      rw [List.getElem?_take, if_pos hm]; exact hj
    have e : instrs = instrs.take n ++ instrs[n] :: instrs.drop (n + 1) := by
      rw [← List.drop_eq_getElem_cons hn, List.take_append_drop]
    rw [e, List.flatMap_append, List.flatMap_cons, List.nodup_append] at hnd
    exact hnd.2.2 x (List.mem_flatMap.2 ⟨j, hmem, hxj⟩) x (by simp [hx]) rfl
  · exact (hb.proper i (List.mem_of_getElem? hi) x hx).notGen hg

theorem memOp_of_none {i : Ins} (h : (Opcodes.opcodes.lookup i.op).isNone) : i.memoryOperation = true := by
  unfold Ins.memoryOperation; rw [h]; simp

theorem literal_lookup : (Opcodes.opcodes.lookup "LiteralAssignment").isNone := by decide +kernel

theorem map_fin (h : Inv I instrs fin w0 P val n w st) {l : List String} (hl : ∀ v ∈ l, Proper v) :
    l.map val = l.map fin := List.map_congr_left fun v hv => proper_val h (hl v hv)

/-- The state after the entry of the `n`-th instruction has been built. -/
theorem buildIns_inv (hb : BlockOk instrs src) (hi : InterpOk I instrs) {i : Ins} (hn : instrs[n]? = some i)
    (hlit : i.op ≠ "LiteralAssignment") {w' : σ} (hstep : I.ins i fin w = (i.outArgs.map fin, w'))
    (h : Inv I instrs fin w0 (Seen instrs n) val n w st) {st1 : St} (hs : buildIns i st = some st1) :
    ∃ val' e, st1.entries.getLast? = some e ∧
      Inv I instrs fin w0 (Seen instrs (n + 1)) val' (n + 1) w' { st1 with positions := (n, e.instr.id) :: st1.positions } := by
  have hmem := List.mem_of_getElem? hn
  unfold buildIns at hs
  obtain ⟨⟨xs, st2⟩, hargs, hs⟩ := Option.bind_eq_some_iff.1 hs
  obtain ⟨e, hent, hs⟩ := Option.bind_eq_some_iff.1 hs
  obtain ⟨k, hk, rfl⟩ := Option.map_eq_some_iff.1 hs
  simp only at hent hk
  obtain ⟨val', h1, h2, h3, h4, h5, h6⟩ := buildArgs_inv (P := Seen instrs n) hb (fun x hx => Or.inr hx) i.inArgs
    (hb.inputs i hmem) val st xs st2 h hargs
  obtain ⟨hex, hnone, hpl⟩ := (hb.known i hmem).resolve_left hlit
  have hproper := hb.proper i hmem
  have hmapout := map_fin h1 hproper
  have hplain : PlainName i.name := fun p hp => hpl p (by
    simp only [List.mem_cons, List.not_mem_nil, or_false] at hp ⊢; tauto)
  -- the shape of the entry
  have hshape : e.instr.outpt = i.outArgs ∧ (∀ x ∈ e.instr.inpt, Older st2.outIdx x) ∧
      e.instr.id = i.name ++ "_" ++ toString (st2.idx i.name) ∧ Flags I e ∧
      (∀ w, e.sem I (e.instr.inpt.map val') w = I.ins i fin w) ∧ (IsEffect e.instr → i.Effect) ∧
      (e.instr.disasm = "PUSH [TAG]" → i.name = "PUSH [TAG]") := by
    unfold buildEntry at hent
    have hv : ¬ infixOf "VERBATIM".toList i.name.toList = true := by
      rw [infixOf_iff]; exact hpl "VERBATIM" (by simp)
    rw [if_neg hv, if_pos hex] at hent
    have hinstr : ∀ v : Option (List String), ((i.op ∈ literalOps ∧ v = i.lits) ∨ (i.op ∉ literalOps ∧ i.op ≠ "push" ∧ v = none)) →
        instrEntry i.name (st2.idx i.name) xs i.outArgs v = e →
        e.instr.outpt = i.outArgs ∧ (∀ x ∈ e.instr.inpt, Older st2.outIdx x) ∧
        e.instr.id = i.name ++ "_" ++ toString (st2.idx i.name) ∧ Flags I e ∧
        (∀ w, e.sem I (e.instr.inpt.map val') w = I.ins i fin w) ∧ (IsEffect e.instr → i.Effect) ∧
      (e.instr.disasm = "PUSH [TAG]" → i.name = "PUSH [TAG]") := by
      rintro v hvl rfl
      have heff : IsEffect (instrEntry i.name (st2.idx i.name) xs i.outArgs v).instr ↔ i.Effect :=
        effect_iff i _ rfl rfl
      have hsem : ∀ args (w : σ), (instrEntry i.name (st2.idx i.name) xs i.outArgs v).sem I args w =
          I.op i.name (v.or (if i.name = "PUSH [TAG]" then some i.outArgs else none)) args w := by
        intro args w
        unfold Entry.sem instrEntry
        cases v <;> rfl
      refine ⟨rfl, h3, rfl, ⟨?_, ?_⟩, ?_, heff.1, id⟩
      · intro hc
        refine ⟨?_, ?_⟩
        · intro k; unfold instrEntry; cases v <;> simp
        · simp only [instrEntry, Opcodes.isCommutative, decide_eq_true_eq] at hc
          exact hc
      · intro hne args w
        rw [hsem]
        exact hi.quiet i hmem (fun he => hne (heff.2 he)) _ _ _
      · intro w
        rw [hsem]
        show I.op i.name _ (xs.map val') w = _
        rw [h2]
        unfold Interp.ins
        rw [if_neg hlit]
        rcases hvl with ⟨ho, rfl⟩ | ⟨ho, hp, rfl⟩
        · have hp : i.op ≠ "push" := by
            intro e; rw [e] at ho; revert ho; decide
          have ht : i.name ≠ "PUSH [TAG]" := fun e => by
            rw [hb.tagOp i hmem e] at ho; revert ho; decide
          rw [if_neg hp, Ins.extra, if_pos (show i.op ∈ literalArgOps from ho), if_neg ht, Option.or_none]
        · rw [if_neg hp, Ins.extra, if_neg (show i.op ∉ literalArgOps from ho), Option.none_or]
    split at hent
    · rename_i ho
      exact hinstr i.lits (Or.inl ⟨ho, rfl⟩) (Option.some.inj hent)
    · rename_i ho
      split at hent
      · rename_i hp
        obtain ⟨c, hc, hc0⟩ := hb.push i hmem hp
        rw [hc, Option.bind_some, List.head?_cons, Option.bind_some] at hent
        obtain ⟨v, hv, rfl⟩ := Option.map_eq_some_iff.1 hent
        have hvc := intHex_spec hv
        have hv0 : v ≠ 0 := by rw [hvc]; exact hc0
        refine ⟨pushEntry_outpt _ _ _, by rw [pushEntry_inpt]; simp, ?_, flags_push _ _ _, ?_,
          fun he => absurd he (pushEntry_quiet _ _ _), fun he => absurd he (pushEntry_tag _ _ _)⟩
        · rw [pushEntry_id, if_pos hv0]
          have : i.name = "PUSH" := by unfold Ins.name; rw [hp]; decide +kernel
          rw [this]
        · intro w
          rw [pushEntry_sem]
          unfold Interp.ins
          rw [if_neg hlit, if_pos hp, hc, hvc]
          rfl
      · rename_i hp
        exact hinstr none (Or.inr ⟨ho, hp, rfl⟩) (Option.some.inj hent)
  obtain ⟨s1, s2, s3, s4, s5, s6, s7⟩ := hshape
  refine ⟨val', e, by simp [St.add], ?_⟩
  have hout : (e.sem I (e.instr.inpt.map val') w).1 = e.instr.outpt.map val' := by
    rw [s5, hstep, s1, hmapout]
  have hw : (e.sem I (e.instr.inpt.map val') w).2 = w' := by rw [s5, hstep]
  have h1' := h1.weaken (n' := n) (P' := Seen instrs (n + 1)) (Nat.le_refl _) (fun x => Seen.mono (by omega))
  have := h1'.add k i.name e ((n, e.instr.id) :: st2.positions) (some n) (n + 1) (by omega)
    (by
      intro m hm
      rw [lookup_cons_eq, if_neg (by omega)])
    hout
    ⟨i, hn, by rw [lookup_cons_eq, if_pos rfl], s5, s6⟩
    (by intro m hm; simp only [Option.some.injEq] at hm; omega)
    (by
      intro c hkc
      subst hkc
      unfold Ins.key at hk
      split at hk
      · rename_i hpush
        obtain ⟨l, hl, he⟩ := Option.map_eq_some_iff.1 hk
        simp only [Prod.mk.injEq] at he
        have hop := hb.noPush i hmem he.1
        obtain ⟨_, o, ho⟩ := hb.pushes i hmem ((pushLike_iff _).1 hpush)
        refine ⟨o, by rw [s1, ho], ?_, fun ht => pushLike_not_tag hb hmem hpush
          (isTag_name hb hmem (by rw [ho]; simp) ht)⟩
        have hins : I.ins i fin w = ([I.num (constNumber c)], w) := by
          unfold Interp.ins; rw [if_neg hlit, if_pos hop, hl, he.2]; rfl
        rw [hins, ho] at hstep
        simp only [List.map_cons, List.map_nil, Prod.mk.injEq, List.cons.injEq, and_true] at hstep
        rw [proper_val h1 (hproper o (by rw [ho]; simp))]
        exact hstep.1.symm
      · rename_i hpush
        simp only [Option.some.injEq, Prod.mk.injEq] at hk
        have hop := hb.noPush i hmem hk.1
        exact absurd (show pushLike i.op = true by rw [hop]; decide) hpush)
    (by
      intro j hj hjp hjk
      have hsame : j.op = i.op ∧ j.lits = i.lits := by
        unfold Ins.key at hk hjk
        rw [if_pos hjp] at hjk
        obtain ⟨l, hl, he⟩ := Option.map_eq_some_iff.1 hjk
        split at hk
        · rename_i hpush
          obtain ⟨l', hl', he'⟩ := Option.map_eq_some_iff.1 hk
          rw [← he', Prod.mk.injEq] at he
          exact ⟨hb.sameOp j hj i hmem he.1, by rw [hl, hl', he.2]⟩
        · rename_i hpush
          simp only [Option.some.injEq] at hk
          rw [← hk, Prod.mk.injEq] at he
          have := hb.sameOp j hj i hmem he.1
          rw [this] at hjp
          exact absurd hjp hpush
      have hip : pushLike i.op = true := by rw [← hsame.1]; exact hjp
      obtain ⟨hia, o, ho⟩ := hb.pushes i hmem ((pushLike_iff _).1 hip)
      obtain ⟨hja, _⟩ := hb.pushes j hj ((pushLike_iff _).1 hjp)
      have hname : j.name = i.name := by unfold Ins.name; rw [hsame.1]
      have hji : ∀ w : σ, I.ins j fin w = I.ins i fin w := by
        intro w
        unfold Interp.ins Ins.extra
        rw [hname, if_neg (pushLike_not_tag hb hmem hip), if_neg (pushLike_not_tag hb hmem hip), hsame.1, hsame.2, hja, hia]
      refine ⟨o, by rw [s1, ho], fun u => ?_, fun ht => pushLike_not_tag hb hmem hip
        (isTag_name hb hmem (by rw [ho]; simp) ht)⟩
      rw [hji u]
      have hconst : ∀ u u' : σ, I.ins i fin u = ((I.ins i fin u').1, u) := by
        intro u u'
        unfold Interp.ins
        rw [if_neg hlit, if_neg hlit, hia]
        split
        · rfl
        · refine Prod.ext (hi.const i hmem ((pushLike_iff _).1 hip) _ u u') ?_
          refine hi.quiet i hmem ?_ _ _ _
          intro he
          have hp := pushLike_name hip
          have : ∀ s ∈ effectOps, ¬ "PUSH".toList <+: (s.map Char.toUpper).toList := by decide +kernel
          apply this _ he
          rw [name_lower_upper]; exact hp
      rw [hconst u w, hstep, ho]
      simp only [List.map_cons, List.map_nil]
      rw [proper_val h1 (hproper o (by rw [ho]; simp))])
    (by
      intro x hx
      rcases List.mem_append.1 hx with hx | hx
      · exact s2 x hx
      · rw [s1] at hx; exact older_of_not_generated (hproper x hx).notGen)
    s3 hplain s4
    (by
      intro x hx
      rw [s1] at hx
      exact Or.inl ⟨n, i, by omega, hn, hx⟩)
    (fun ht x hx => ⟨i, hmem, s7 ht, by rw [← s1]; exact hx⟩)
  rw [hw] at this
  exact this

theorem stepIns_inv (hb : BlockOk instrs src) (hi : InterpOk I instrs) {i : Ins} (hn : instrs[n]? = some i)
    {w' : σ} (hstep : I.ins i fin w = (i.outArgs.map fin, w'))
    (h : Inv I instrs fin w0 (Seen instrs n) val n w st) {st1 : St} (hs : stepIns n i st = some st1) :
    ∃ val', Inv I instrs fin w0 (Seen instrs (n + 1)) val' (n + 1) w' st1 := by
  have hmem := List.mem_of_getElem? hn
  have hproper := hb.proper i hmem
  unfold stepIns at hs
  obtain ⟨k, hk, hs⟩ := Option.bind_eq_some_iff.1 hs
  simp only at hs
  -- a new entry
  have hbuild : ∀ {st1 : St}, ((if "LiteralAssignment".toList.isPrefixOf i.op.toList then
        i.inArgs.head?.bind fun c => (intHex c).map fun v =>
          st.add ("LITERALASSIGMENT", i.inArgs) (if v ≠ 0 then "PUSH" else "PUSH0")
            (pushEntry v (st.idx (if v ≠ 0 then "PUSH" else "PUSH0")) i.outArgs)
      else buildIns i st).bind fun st1 =>
        st1.entries.getLast?.map fun e => { st1 with positions := (n, e.instr.id) :: st1.positions }) = some st1 →
      ∃ val', Inv I instrs fin w0 (Seen instrs (n + 1)) val' (n + 1) w' st1 := by
    intro st1 hs
    obtain ⟨st2, h2, hs⟩ := Option.bind_eq_some_iff.1 hs
    obtain ⟨e, he, rfl⟩ := Option.map_eq_some_iff.1 hs
    split at h2
    · rename_i hpre
      have hlit : i.op = "LiteralAssignment" := by
        apply hb.prefixOnly i hmem
        rw [List.isPrefixOf_iff_prefix] at hpre
        exact (show "LiteralAssig".toList <+: "LiteralAssignment".toList by decide).trans hpre
      obtain ⟨c, o, hin, hout⟩ := hb.literal i hmem hlit
      rw [hin, List.head?_cons, Option.bind_some] at h2
      obtain ⟨v, hv, rfl⟩ := Option.map_eq_some_iff.1 h2
      have hvc := intHex_spec hv
      rw [hout] at he ⊢
      simp only [St.add, List.getLast?_append, List.getLast?_singleton, Option.some_or, Option.some.injEq] at he
      subst he
      have hins : ∀ w : σ, I.ins i fin w = ([I.num (constNumber c)], w) := by
        intro w; unfold Interp.ins; rw [if_pos hlit, hin]; rfl
      rw [hins, hout] at hstep
      simp only [List.map_cons, List.map_nil, Prod.mk.injEq, List.cons.injEq, and_true] at hstep
      obtain ⟨hfin, rfl⟩ := hstep
      have hvo : val o = I.num (constNumber c) := by
        rw [proper_val h (hproper o (by rw [hout]; simp)), ← hfin]
      refine ⟨val, ?_⟩
      have h1' := h.weaken (n' := n) (P' := Seen instrs (n + 1)) (Nat.le_refl _) (fun x => Seen.mono (by omega))
      have := h1'.add ("LITERALASSIGMENT", [c]) (if v ≠ 0 then "PUSH" else "PUSH0")
        (pushEntry v (st.idx (if v ≠ 0 then "PUSH" else "PUSH0")) [o])
        ((n, (pushEntry v (st.idx (if v ≠ 0 then "PUSH" else "PUSH0")) [o]).instr.id) :: st.positions) (some n) (n + 1)
        (by omega)
        (by intro m hm; rw [lookup_cons_eq, if_neg (by omega)])
        (by rw [pushEntry_sem, pushEntry_outpt]; simp [hvo, hvc])
        ⟨i, hn, by rw [lookup_cons_eq, if_pos rfl], fun w => by rw [pushEntry_sem, hins, hvc],
          fun he => absurd he (pushEntry_quiet _ _ _)⟩
        (by intro m hm; simp only [Option.some.injEq] at hm; omega)
        (by
          intro c' hc'
          simp only [Prod.mk.injEq] at hc'
          exact absurd hc'.1 (by decide))
        (by
          intro j hj hjp hjk
          exfalso
          unfold Ins.key at hjk
          rw [if_pos hjp] at hjk
          obtain ⟨l, hl, he⟩ := Option.map_eq_some_iff.1 hjk
          simp only [Prod.mk.injEq] at he
          have := pushLike_name hjp
          rw [he.1] at this
          exact absurd this (by decide))
        (by
          rw [pushEntry_inpt, pushEntry_outpt]
          intro x hx
          simp only [List.nil_append, List.mem_singleton] at hx; subst hx
          exact older_of_not_generated (hproper x (by rw [hout]; simp)).notGen)
        (pushEntry_id _ _ _) (plain_ite v) (flags_push _ _ _)
        (by
          rw [pushEntry_outpt]
          intro x hx
          simp only [List.mem_singleton] at hx; subst hx
          exact Or.inl ⟨n, i, by omega, hn, by rw [hout]; simp⟩)
        (fun h => absurd h (pushEntry_tag _ _ _))
      rw [pushEntry_sem] at this
      exact this
    · rename_i hpre
      have hlit : i.op ≠ "LiteralAssignment" := by
        intro e; apply hpre; rw [e]; decide
      obtain ⟨val', e', he', hinv⟩ := buildIns_inv hb hi hn hlit hstep h h2
      rw [he] at he'; simp only [Option.some.injEq] at he'; subst he'
      exact ⟨val', hinv⟩
  cases hl : st.table.lookup k with
  | none =>
    rw [hl] at hs
    exact hbuild hs
  | some p =>
    rw [hl] at hs
    simp only at hs
    have hmo : i.memoryOperation = true := by
      rcases hb.known i hmem with hlit | ⟨_, hnone, _⟩
      · apply memOp_of_none; rw [hlit]; exact literal_lookup
      · exact memOp_of_none hnone
    by_cases hpl : pushLike i.op = true
    · rw [if_pos (by simp [hpl])] at hs
      obtain ⟨e, o, he, ho, hval, hto⟩ := h.insTab i hmem hpl k p hk hl
      obtain ⟨_, x, hx⟩ := hb.pushes i hmem ((pushLike_iff _).1 hpl)
      have hxp := hproper x (by rw [hx]; simp)
      have htx : ¬ IsTag instrs x := fun ht => pushLike_not_tag hb hmem hpl
        (isTag_name hb hmem (by rw [hx]; simp) ht)
      rw [hval, hx] at hstep
      simp only [List.map_cons, List.map_nil, Prod.mk.injEq, List.cons.injEq, and_true] at hstep
      obtain ⟨hfx, rfl⟩ := hstep
      have hvx : val o = val x := by rw [hfx, proper_val h hxp]
      have hoOld : Older st.outIdx o := h.names e (List.mem_of_getElem? he) o (by simp [ho])
      have hxOld : Older st.outIdx x := older_of_not_generated hxp.notGen
      have h1' := h.weaken (n' := n + 1) (P' := Seen instrs (n + 1)) (by omega) (fun x => Seen.mono (by omega))
      split at hs
      · exact ⟨val, (h1'.repush he ho hx hvx hxOld (Or.inl ⟨n, i, by omega, hn, by rw [hx]; simp⟩) hto htx hs).1⟩
      · rw [he, Option.bind_some, ho, List.head?_cons, Option.bind_some, hx, List.head?_cons, Option.map_some,
          Option.some.injEq] at hs
        subst hs
        exact ⟨val, h1'.withAlias hvx.symm hxOld hoOld htx⟩
    · rw [if_neg (by simp [hpl, hmo])] at hs
      split at hs
      · simp at hs
      · obtain ⟨e, he, hs⟩ := Option.bind_eq_some_iff.1 hs
        split at hs
        · exact hbuild hs
        · rename_i hne
          exfalso
          simp only [not_or, Classical.not_not] at hne
          obtain ⟨h1, h2⟩ := hne
          obtain ⟨x, hx⟩ := List.exists_mem_of_ne_nil _ h1
          exact not_seen hb hn (by rw [← h2]; exact hx) (h.outs e (List.mem_of_getElem? he) x hx)

theorem buildLoop_inv (hb : BlockOk instrs src) (hi : InterpOk I instrs) (env0 : String → V) (w0 : σ) (l : List Ins) :
    ∀ (n : Nat) (val : String → V) (st st1 : St), instrs.drop n = l →
      Inv I instrs (blockRun I instrs env0 w0).1 w0 (Seen instrs n) val n (blockRun I (instrs.take n) env0 w0).2 st →
      buildLoop n l st = some st1 →
      ∃ val', Inv I instrs (blockRun I instrs env0 w0).1 w0 (Seen instrs instrs.length) val' instrs.length
        (blockRun I instrs env0 w0).2 st1 := by
  induction l with
  | nil =>
    intro n val st st1 hd h hs
    simp only [buildLoop, Option.some.injEq] at hs
    subst hs
    have hle : instrs.length ≤ n := by simpa using hd
    rw [List.take_of_length_le hle] at h
    obtain ⟨orig, h1, h2, h3⟩ := h.orig
    refine ⟨val, { h with orig := ⟨orig, h1, h2, ?_⟩, outs := ?_ }⟩
    · intro m hm
      -- every origin is a position of the block
      obtain ⟨o, ho, hom⟩ := List.mem_filterMap.1 hm
      simp only [id] at hom
      subst hom
      have : ∀ (l : List Entry) (os : List (Option Nat)), List.Forall₂ (FromBlock I instrs (blockRun I instrs env0 w0).1 val st.positions) l os →
          ∀ m, some m ∈ os → m < instrs.length := by
        intro l os hf
        induction hf with
        | nil => simp
        | @cons e o l os hf _ ih =>
          intro m hm
          rcases List.mem_cons.1 hm with e | hm
          · subst e
            obtain ⟨i, hi, _⟩ := hf
            exact (List.getElem?_eq_some_iff.1 hi).1
          · exact ih m hm
      exact this _ _ h1 m ho
    · intro e he o ho
      rcases h.outs e he o ho with ⟨m, i, hm, hi, hx⟩ | hg
      · exact Or.inl ⟨m, i, (List.getElem?_eq_some_iff.1 hi).1, hi, hx⟩
      · exact Or.inr hg
  | cons i l ih =>
    intro n val st st1 hd h hs
    rw [buildLoop] at hs
    obtain ⟨st2, h2, hs⟩ := Option.bind_eq_some_iff.1 hs
    have hn : instrs[n]? = some i := by
      have := congrArg (fun l => l[0]?) hd
      simpa [List.getElem?_drop] using this
    obtain ⟨val', h'⟩ := stepIns_inv hb hi hn (block_step hb hi env0 w0 hn) h h2
    refine ih (n + 1) val' st2 st1 ?_ h' hs
    have := congrArg (List.drop 1) hd
    simpa [List.drop_drop, Nat.add_comm] using this

/-- The loop over the assignments. -/
theorem assignLoop_inv (hb : BlockOk instrs src) (d : List (String × String))
    (hd : ∀ oc ∈ d, IsLiteral oc.2 → ¬ Generated oc.1 ∧ I.read fin oc.1 = I.num (constNumber oc.2) ∧ ¬ IsTag instrs oc.1) :
    ∀ (st st1 : St), Inv I instrs fin w0 (fun _ => True) val n w st → assignLoop d st = some st1 →
      Inv I instrs fin w0 (fun _ => True) val n w st1 ∧ st1.positions = st.positions := by
  induction d with
  | nil =>
    intro st st1 h hs
    simp only [assignLoop, Option.some.injEq] at hs
    subst hs
    exact ⟨h, rfl⟩
  | cons oc d ih =>
    obtain ⟨o, c⟩ := oc
    intro st st1 h hs
    have ih := ih fun x hx => hd x (by simp [hx])
    rw [assignLoop] at hs
    split at hs
    · rename_i hc
      obtain ⟨hg, hread, htg⟩ := hd (o, c) (by simp) ((isConst_iff c).1 hc)
      have hvo : val o = I.num (constNumber c) := by rw [h.base o hg]; exact hread
      cases hl : st.table.lookup ("PUSH", [c]) with
      | none =>
        rw [hl] at hs
        simp only at hs
        obtain ⟨st2, hp, hs⟩ := Option.bind_eq_some_iff.1 hs
        obtain ⟨h1, h2, h3, h4⟩ := h.addPush hb hp hvo (older_of_not_generated hg) trivial htg
        obtain ⟨g1, g2⟩ := ih _ st1 (h1.withAlias rfl (older_of_not_generated hg) (older_of_not_generated hg) htg) hs
        exact ⟨g1, by rw [g2]; exact h2⟩
      | some p =>
        rw [hl] at hs
        simp only at hs
        obtain ⟨e, he, hs⟩ := Option.bind_eq_some_iff.1 hs
        obtain ⟨x, hx, hs⟩ := Option.bind_eq_some_iff.1 hs
        obtain ⟨e', y, he', hy, hv, _⟩ := h.pushTab c p hl
        rw [he] at he'; simp only [Option.some.injEq] at he'; subst he'
        rw [hy] at hx; simp only [List.head?_cons, Option.some.injEq] at hx; subst hx
        obtain ⟨g1, g2⟩ := ih _ st1 (h.withAlias (by rw [hvo, hv]) (older_of_not_generated hg)
          (h.names e (List.mem_of_getElem? he) y (by simp [hy])) htg) hs
        exact ⟨g1, g2⟩
    · exact ih st st1 h hs

end

end Grey.Sfs
