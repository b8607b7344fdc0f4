/-
Property theorem: C49 (the specification built for a block stands for the block).
-/
import Verif.Sfs.BuildLoop
import Verif.Sfs.Theorems
import Verif.SymExec.Refine
open List
namespace Grey.Sfs
open Grey.SymExec

section
variable {V σ : Type} {I : Interp V σ} {instrs : List Ins} {src : List String} {fin : String → V} {w0 : σ}
  {P : String → Prop} {val : String → V} {n : Nat} {w : σ} {st : St}

theorem inv_init (I : Interp V σ) (instrs : List Ins) (fin : String → V) (w0 : σ) (P : String → Prop) :
    Inv I instrs fin w0 P (I.read fin) 0 w0 St.init where
  base := fun _ _ => rfl
  desc := rfl
  orig := ⟨[], .nil, by simp, by simp⟩
  pushTab := by simp [St.init]
  insTab := by simp [St.init]
  aliasOk := by simp [St.init]
  names := by simp [St.init]
  aliasNames := by simp [St.init]
  ids := by simp [St.init]
  nodup := by simp [St.init]
  flags := by simp [St.init]
  outs := by simp [St.init]
  tagOuts := by simp [St.init]
  aliasTag := by simp [St.init]

theorem setKey_mem {d : List (String × String)} {k v : String} {oc : String × String} (h : oc ∈ setKey d k v) :
    oc ∈ d ∨ oc = (k, v) := by
  unfold setKey at h
  split at h
  · obtain ⟨e, he, rfl⟩ := List.mem_map.1 h
    split
    · exact Or.inr rfl
    · exact Or.inl he
  · simpa using h

theorem addConstants_mem (l : List String) : ∀ (d : List (String × String)) (oc : String × String), oc ∈ addConstants l d →
    oc ∈ d ∨ ∃ x ∈ l, (x = "bottom" ∧ oc = ("bottom", "0x00")) ∨ (IsLiteral x ∧ x ≠ "bottom" ∧ oc = (x, x)) := by
  induction l with
  | nil => intro d oc h; exact Or.inl h
  | cons x xs ih =>
    intro d oc h
    rw [addConstants] at h
    rcases ih _ _ h with h | ⟨y, hy, h⟩
    · split at h
      · rename_i hx
        rcases setKey_mem h with h | h
        · exact Or.inl h
        · refine Or.inr ⟨x, by simp, ?_⟩
          by_cases hb : x = "bottom"
          · rw [if_pos hb] at h
            exact Or.inl ⟨hb, by rw [h, hb]⟩
          · rw [if_neg hb] at h
            exact Or.inr ⟨(isConst_iff x).1 (hx.resolve_left hb), hb, h⟩
      · exact Or.inl h
    · exact Or.inr ⟨y, by simp [hy], h⟩

theorem resolve_val (h : Inv I instrs fin w0 P val n w st) (x : String) : val (resolve st.aliases x) = val x := by
  unfold resolve
  cases hl : st.aliases.lookup x with
  | none => rfl
  | some y =>
    obtain ⟨l₁, l₂, he, _⟩ := List.lookup_eq_some_iff.1 hl
    exact (h.aliasOk (x, y) (by rw [he]; simp)).symm

theorem forall₂_sublist {A B : Type} {R : A → B → Prop} {s l : List A} (hs : s <+ l) :
    ∀ {l' : List B}, List.Forall₂ R l l' → ∃ s', s' <+ l' ∧ List.Forall₂ R s s' := by
  induction hs with
  | slnil => intro l' h; exact ⟨l', Sublist.refl _, h⟩
  | cons a _ ih =>
    intro l' h
    cases h with
    | cons h1 h2 =>
      obtain ⟨s', h3, h4⟩ := ih h2
      exact ⟨s', h3.cons _, h4⟩
  | cons_cons a _ ih =>
    intro l' h
    cases h with
    | cons h1 h2 =>
      obtain ⟨s', h3, h4⟩ := ih h2
      exact ⟨_, h3.cons_cons _, .cons h1 h4⟩

theorem descE_filter {p : Entry → Bool} {l : List Entry} (hq : ∀ e ∈ l, p e = false → ∀ args w, (e.sem I args w).2 = w)
    {a b : σ} (h : DescE I val l a b) : DescE I val (l.filter p) a b := by
  induction l generalizing a with
  | nil => exact h
  | cons e l ih =>
    have ih := ih (fun x hx => hq x (by simp [hx])) h.2
    cases hp : p e with
    | true => rw [List.filter_cons_of_pos hp]; exact ⟨h.1, ih⟩
    | false =>
      rw [List.filter_cons_of_neg (by simp [hp])]
      rw [hq e (by simp) hp] at ih
      exact ih

theorem describes_of_descE {sem : Sem V σ} {l : List Entry} (hs : ∀ e ∈ l, sem e.instr = e.sem I) {a b : σ}
    (h : DescE I val l a b) : Describes sem val (l.map (·.instr)) a b := by
  induction l generalizing a with
  | nil => simp only [DescE] at h; subst h; exact .nil _
  | cons e l ih =>
    refine .cons _ _ _ _ ?_ ?_
    · rw [hs e (by simp)]; exact h.1
    · rw [hs e (by simp)]; exact ih (fun x hx => hs x (by simp [hx])) h.2

end

theorem forall₂_mem_left {A B : Type} {R : A → B → Prop} {l : List A} {l' : List B} (h : List.Forall₂ R l l') {a : A}
    (ha : a ∈ l) : ∃ b, R a b := by
  induction h with
  | nil => simp at ha
  | cons hr _ ih =>
    rcases List.mem_cons.1 ha with rfl | ha
    · exact ⟨_, hr⟩
    · exact ih ha

/-- What acceptance of a schedule means for the values of the block: every name has a value, the names of the block the value
it has when the block ends, and every instruction of the schedule does on these values what an instruction of the block
does. -/
theorem built_schedule_good {V σ : Type} (I : Interp V σ) (instrs : List Ins) (split : Option Ins)
    (assign : List (String × String)) (initial final : List String) (hb : BlockOk instrs initial) (hi : InterpOk I instrs)
    (built : Built) (hbuild : buildSequence instrs split assign initial final = some built)
    (hfinal : ∀ v ∈ beforeSplit split final, ¬ Generated v)
    (env0 : String → V) (w0 : σ)
    (hassign : ∀ oc ∈ assign, IsLiteral oc.2 →
      Proper oc.1 ∧ env0 oc.1 = I.num (constNumber oc.2) ∧ ∀ i ∈ instrs, oc.1 ∉ i.outArgs)
    (sem : Sem V σ) (hsem : ∀ e ∈ built.entries, sem e.instr = e.sem I)
    (deps : List (String × String))
    (hdeps : ∀ m n a b x y, m < n → instrs[m]? = some a → instrs[n]? = some b → a.Effect ∨ b.Effect →
      built.positions.lookup m = some x → built.positions.lookup n = some y →
      x ∈ built.entries.map (·.instr.id) → y ∈ built.entries.map (·.instr.id) →
      ¬ Grey.Trace.Chain deps x y → IndependentIns I (blockRun I instrs env0 w0).1 a b)
    (ids : List String) (junk : Bool)
    (hacc : check ⟨built.entries.map (·.instr), built.src, built.tgt, deps⟩ ids junk = true) :
    ∃ val cstack, (∀ x, ¬ Generated x → val x = I.read (blockRun I instrs env0 w0).1 x) ∧
      sem.RespectsComm (built.entries.map (·.instr)) ∧ ((built.entries.map (·.instr)).map (·.id)).Nodup ∧
      execIds (built.entries.map (·.instr)) ids built.src = some cstack ∧
      Good (built.entries.map (·.instr)) sem val ids w0 (blockRun I instrs env0 w0).2 ∧
      built.src.map val = initial.map (I.read env0) ∧
      built.tgt.map val = (beforeSplit split final).map (I.read (blockRun I instrs env0 w0).1) ∧
      cstack.take built.tgt.length = built.tgt ∧ (junk = false → cstack = built.tgt) ∧
      ∀ u ∈ built.entries.map (·.instr), (∃ k, ∀ args w, sem u args w = ([I.num k], w)) ∨
        ∃ i ∈ instrs, ∀ w, sem u (u.inpt.map val) w = I.ins i (blockRun I instrs env0 w0).1 w := by
  generalize hfin : (blockRun I instrs env0 w0).1 = fin at *
  unfold buildSequence at hbuild
  obtain ⟨st1, h1, hbuild⟩ := Option.bind_eq_some_iff.1 hbuild
  obtain ⟨st2, h2, rfl⟩ := Option.map_eq_some_iff.1 hbuild
  obtain ⟨val, hinv1⟩ := buildLoop_inv hb hi env0 w0 instrs 0 _ St.init st1 (by simp)
    (by simpa [blockRun] using inv_init I instrs (blockRun I instrs env0 w0).1 w0 (Seen instrs 0)) h1
  rw [hfin] at hinv1
  have hinv1' := hinv1.weaken (P' := fun _ => True) (Nat.le_refl _) (fun _ _ => trivial)
  obtain ⟨hinv, hpos⟩ := assignLoop_inv hb (addConstants (beforeSplit split final) assign) (by
    intro oc hoc hlit
    rcases addConstants_mem _ _ _ hoc with hoc | ⟨x, hx, hx' | hx'⟩
    · obtain ⟨hp, hv, hno⟩ := hassign oc hoc hlit
      refine ⟨hp.notGen, ?_, fun ⟨i, hi, _, ho⟩ => hno i hi ho⟩
      unfold Interp.read
      rw [if_neg hp.notLit, if_neg hp.notBottom, ← hfin, blockRun_notin _ _ _ _ hno, hv]
    · rw [hx'.2]
      refine ⟨by rw [← hx'.1]; exact hfinal x hx, ?_, fun ht => (isTag_proper hb ht).notBottom rfl⟩
      have hnl : ¬ IsLiteral "bottom" := by rw [← isConst_iff]; decide
      unfold Interp.read
      rw [if_neg hnl, if_pos rfl]
      rfl
    · rw [hx'.2.2]
      refine ⟨hfinal x hx, ?_, fun ht => (isTag_proper hb ht).notLit hx'.1⟩
      unfold Interp.read
      rw [if_pos hx'.1]) st1 st2 hinv1' h2
  simp only at hsem hdeps hacc ⊢
  generalize htgt : (beforeSplit split final).map (resolve st2.aliases) = tgt at *
  generalize hun : detectUnused (st2.entries.map (·.instr)) tgt = unused at *
  -- the entries of the specification
  let rep : Entry → Entry := if st2.aliases = [] then id else replaceEntry st2.aliases
  have hents : (if st2.aliases = [] then st2.entries.filter fun e => decide (e.instr.id ∉ unused)
      else (st2.entries.filter fun e => decide (e.instr.id ∉ unused)).map (replaceEntry st2.aliases)) =
      (st2.entries.filter fun e => decide (e.instr.id ∉ unused)).map rep := by
    by_cases h : st2.aliases = []
    · simp [rep, h]
    · simp [rep, h]
  rw [hents] at hsem hdeps hacc ⊢
  generalize hkept : (st2.entries.filter fun e => decide (e.instr.id ∉ unused)) = kept at *
  have hksub : kept <+ st2.entries := by rw [← hkept]; exact List.filter_sublist
  have hrep : ∀ e, (rep e).value = e.value ∧ (rep e).instr.disasm = e.instr.disasm ∧ (rep e).instr.id = e.instr.id ∧
      (rep e).instr.storage = e.instr.storage ∧ (rep e).instr.commutative = e.instr.commutative ∧
      (rep e).instr.inpt.map val = e.instr.inpt.map val ∧ (rep e).instr.outpt.map val = e.instr.outpt.map val := by
    intro e
    by_cases h : st2.aliases = []
    · simp [rep, h]
    · simp only [rep, if_neg h]
      refine ⟨rfl, rfl, rfl, rfl, rfl, ?_, ?_⟩
      · simp only [replaceEntry, List.map_map]
        exact List.map_congr_left fun v _ => resolve_val hinv v
      · simp only [replaceEntry, List.map_map]
        exact List.map_congr_left fun v _ => resolve_val hinv v
  have hreptag : ∀ e ∈ st2.entries, e.instr.disasm = "PUSH [TAG]" → (rep e).instr.outpt = e.instr.outpt := by
    intro e he ht
    by_cases h : st2.aliases = []
    · simp [rep, h]
    · simp only [rep, if_neg h, replaceEntry]
      conv => rhs; rw [← List.map_id e.instr.outpt]
      apply List.map_congr_left
      intro o ho
      unfold resolve
      cases hl : st2.aliases.lookup o with
      | none => rfl
      | some y =>
        obtain ⟨l₁, l₂, hal, _⟩ := List.lookup_eq_some_iff.1 hl
        exact absurd (hinv.tagOuts e he ht o ho) (hinv.aliasTag (o, y) (by rw [hal]; simp))
  have hrepsem : ∀ e ∈ st2.entries, (rep e).sem (σ := σ) I = e.sem I := by
    intro e he; funext args w; unfold Entry.sem; rw [(hrep e).1, (hrep e).2.1]
    by_cases ht : e.instr.disasm = "PUSH [TAG]"
    · rw [hreptag e he ht]
    · rw [if_neg ht, if_neg ht]
  have hsem' : ∀ e ∈ kept, sem (rep e).instr = e.sem I := by
    intro e he
    rw [hsem (rep e) (List.mem_map.2 ⟨e, he, rfl⟩), hrepsem e (hksub.subset he)]
  have heff : ∀ e, IsEffect (rep e).instr ↔ IsEffect e.instr := by
    intro e; unfold IsEffect; rw [(hrep e).2.1, (hrep e).2.2.2.1]
  -- the description
  have hdesc1 : DescE I val kept w0 (blockRun I instrs env0 w0).2 := by
    rw [← hkept]
    refine descE_filter ?_ hinv.desc
    intro e he hp
    apply (hinv.flags e he).quiet
    intro hs
    have := effects_never_unused (st2.entries.map (·.instr)) tgt e.instr (List.mem_map.2 ⟨e, he, rfl⟩) hs.1
    unfold keepUsed at this
    rw [hun, List.mem_filter] at this
    rw [this.2] at hp
    simp at hp
  have hdesc : Describes sem val ((kept.map rep).map (·.instr)) w0 (blockRun I instrs env0 w0).2 := by
    refine describes_of_descE hsem (DescE.congr ?_ hdesc1)
    have hreptag' : ∀ e ∈ kept, e.instr.disasm = "PUSH [TAG]" → (rep e).instr.outpt = e.instr.outpt :=
      fun e he => hreptag e (hksub.subset he)
    clear hacc hdeps hsem hsem' hdesc1 hents hksub hkept
    induction kept with
    | nil => exact .nil
    | cons e l ih =>
      obtain ⟨a1, a2, a3, a4, a5, a6, a7⟩ := hrep e
      exact .cons ⟨a1, a2, a6, a7, hreptag' e (by simp)⟩ (ih fun x hx => hreptag' x (by simp [hx]))
  have hmemk : ∀ {u : UInstr}, u ∈ (kept.map rep).map (·.instr) → ∃ e ∈ kept, (rep e).instr = u := by
    intro u hu
    obtain ⟨x, hx, rfl⟩ := List.mem_map.1 hu
    obtain ⟨e, he, rfl⟩ := List.mem_map.1 hx
    exact ⟨e, he, rfl⟩
  have hcomm : sem.RespectsComm ((kept.map rep).map (·.instr)) :=
    (by
      intro u hu a b w hc
      obtain ⟨e, he, rfl⟩ := hmemk hu
      rw [(hrep e).2.2.2.2.1] at hc
      obtain ⟨hv, hd⟩ := (hinv.flags e (hksub.subset he)).comm hc
      rw [hsem' e he]
      unfold Entry.sem
      split
      · rename_i k hk; exact absurd hk (hv k)
      · exact hi.comm _ hd _ _ _ _
      · exact hi.comm _ hd _ _ _ _)
  have hnod : (((kept.map rep).map (·.instr)).map (·.id)).Nodup :=
    (by
      have h3 : ((kept.map rep).map (·.instr)).map (·.id) = kept.map (·.instr.id) := by
        rw [List.map_map, List.map_map]
        exact List.map_congr_left fun e _ => (hrep e).2.2.1
      show (((kept.map rep).map (·.instr)).map (·.id)).Nodup
      rw [h3]
      exact hinv.nodup.sublist (hksub.map _))
  obtain ⟨cstack, hex, hgood, htake, hjunk⟩ := accepted_good ⟨(kept.map rep).map (·.instr), initial, tgt, deps⟩ ids junk sem hnod
    (by
      intro u hu
      obtain ⟨e, he, rfl⟩ := hmemk hu
      obtain ⟨name, k, hid, _, hp⟩ := hinv.ids e (hksub.subset he)
      rw [(hrep e).2.2.1, hid]
      exact classify_plain hp k)
    (by
      intro u hu hne
      obtain ⟨e, he, rfl⟩ := hmemk hu
      rw [hsem' e he]
      exact (hinv.flags e (hksub.subset he)).quiet (fun h => hne ((heff e).2 h)))
    val w0 _ hdesc
    (by
      intro a b hab hE hch
      simp only at hab hch
      rw [List.map_map] at hab
      obtain ⟨s, hs, hsab⟩ := List.sublist_map_iff.1 hab
      match s, hsab with
      | [e1, e2], hsab =>
        simp only [List.map_cons, List.map_nil, Function.comp, List.cons.injEq, and_true] at hsab
        obtain ⟨rfl, rfl⟩ := hsab
        have hk1 : e1 ∈ kept := hs.subset (by simp)
        have hk2 : e2 ∈ kept := hs.subset (by simp)
        have hsem1 : ∀ w, sem (rep e1).instr ((rep e1).instr.inpt.map val) w = e1.sem I (e1.instr.inpt.map val) w := by
          intro w; rw [hsem' e1 hk1, (hrep e1).2.2.2.2.2.1]
        have hsem2 : ∀ w, sem (rep e2).instr ((rep e2).instr.inpt.map val) w = e2.sem I (e2.instr.inpt.map val) w := by
          intro w; rw [hsem' e2 hk2, (hrep e2).2.2.2.2.2.1]
        obtain ⟨orig, ho, hord, _⟩ := hinv.orig
        obtain ⟨os, hos, hf⟩ := forall₂_sublist (hs.trans hksub) ho
        rw [heff, heff] at hE
        match os, hf with
        | [o1, o2], .cons f1 (.cons f2 .nil) =>
          cases o1 with
          | none =>
            obtain ⟨k, hk⟩ := f1
            have hc : ∀ args (w : σ), e1.sem I args w = ([I.num k], w) := by
              intro args w; unfold Entry.sem; rw [hk]
            constructor <;> intro w <;> simp only [hsem1, hsem2, hc]
          | some m1 =>
            cases o2 with
            | none =>
              obtain ⟨k, hk⟩ := f2
              have hc : ∀ args (w : σ), e2.sem I args w = ([I.num k], w) := by
                intro args w; unfold Entry.sem; rw [hk]
              constructor <;> intro w <;> simp only [hsem1, hsem2, hc]
            | some m2 =>
              have hlt : m1 < m2 := by
                have := hord.sublist (hos.filterMap id)
                simpa using this
              obtain ⟨i1, hi1, hp1, hs1, he1⟩ := f1
              obtain ⟨i2, hi2, hp2, hs2, he2⟩ := f2
              have hmem : ∀ e ∈ kept, e.instr.id ∈ (kept.map rep).map (·.instr.id) := by
                intro e he
                rw [List.map_map]
                exact List.mem_map.2 ⟨e, he, (hrep e).2.2.1⟩
              have hind := hdeps m1 m2 i1 i2 _ _ hlt hi1 hi2 (hE.imp he1 he2) hp1 hp2 (hmem e1 hk1) (hmem e2 hk2)
                (by rw [← (hrep e1).2.2.1, ← (hrep e2).2.2.1]; exact hch)
              constructor <;> intro w <;> simp only [hsem1, hsem2, hs1, hs2]
              · exact hind.world w
              · exact hind.left w
              · exact hind.right w)
    hacc
  have hsrc : initial.map val = initial.map (I.read env0) := by
    apply List.map_congr_left
    intro v hv
    rw [hinv.base v (hb.source v hv), ← hfin]
    unfold Interp.read
    rw [blockRun_notin _ _ _ _ fun i hi ho => hb.sourceFresh i hi v ho hv]
  have htgtv : tgt.map val = (beforeSplit split final).map (I.read fin) := by
    rw [← htgt, List.map_map]
    apply List.map_congr_left
    intro v hv
    show val (resolve st2.aliases v) = _
    rw [resolve_val hinv, hinv.base v (hfinal v hv)]
  refine ⟨val, cstack, fun x hx => hinv.base x hx, hcomm, hnod, hex, hgood, hsrc, htgtv, htake, hjunk, ?_⟩
  intro u hu
  obtain ⟨e, he, rfl⟩ := hmemk hu
  obtain ⟨orig, ho, -, -⟩ := hinv.orig
  obtain ⟨o, ho⟩ := forall₂_mem_left ho (hksub.subset he)
  cases o with
  | none =>
    obtain ⟨k, hk⟩ := ho
    refine Or.inl ⟨k, fun args w => ?_⟩
    rw [hsem' e he]
    unfold Entry.sem
    rw [hk]
  | some m =>
    obtain ⟨i, hi', -, hs, -⟩ := ho
    refine Or.inr ⟨i, List.mem_of_getElem? hi', fun w => ?_⟩
    rw [hsem' e he, (hrep e).2.2.2.2.2.1]
    exact hs w

/-- **C49.** The specification that is built for a block stands for the block. Take a block in single assignment form, any
interpretation of the operations in which only the effects change the world, and any schedule that the validator accepts
for the built specification and some dependences. Assume that two instructions of the block of which one is an effect, and
which are not ordered by the dependences, do not influence each other. Then the schedule, run on the stack machine from the
values of the initial stack, ends with the values that running *the block itself* gives to the names of the final stack
(constants and gaps included), and with the world in which the block ends. -/
theorem built_schedule_runs_block {V σ : Type} (I : Interp V σ) (instrs : List Ins) (split : Option Ins)
    (assign : List (String × String)) (initial final : List String) (hb : BlockOk instrs initial) (hi : InterpOk I instrs)
    (built : Built) (hbuild : buildSequence instrs split assign initial final = some built)
    (hfinal : ∀ v ∈ beforeSplit split final, ¬ Generated v)
    (env0 : String → V) (w0 : σ)
    (hassign : ∀ oc ∈ assign, IsLiteral oc.2 →
      Proper oc.1 ∧ env0 oc.1 = I.num (constNumber oc.2) ∧ ∀ i ∈ instrs, oc.1 ∉ i.outArgs)
    (sem : Sem V σ) (hsem : ∀ e ∈ built.entries, sem e.instr = e.sem I)
    (deps : List (String × String))
    (hdeps : ∀ m n a b x y, m < n → instrs[m]? = some a → instrs[n]? = some b → a.Effect ∨ b.Effect →
      built.positions.lookup m = some x → built.positions.lookup n = some y →
      x ∈ built.entries.map (·.instr.id) → y ∈ built.entries.map (·.instr.id) →
      ¬ Grey.Trace.Chain deps x y → IndependentIns I (blockRun I instrs env0 w0).1 a b)
    (ids : List String) (junk : Bool)
    (hacc : check ⟨built.entries.map (·.instr), built.src, built.tgt, deps⟩ ids junk = true)
    (hsw : ∀ s ∈ ids, classify s ≠ some (.swap 0))
    (slot : Var → V) (hslots : BlockSlots I (blockRun I instrs env0 w0).1 slot ids) (rest : List V) :
    ∃ slot' extra,
      Run (built.entries.map (·.instr)) sem ids
        ⟨initial.map (I.read env0) ++ rest, slot, w0⟩
        ⟨(beforeSplit split final).map (I.read (blockRun I instrs env0 w0).1) ++ extra ++ rest, slot',
          (blockRun I instrs env0 w0).2⟩ ∧
      (junk = false → extra = []) := by
  obtain ⟨val, cstack, hbase, hcomm, hnod, hex, hgood, hsrc, htgt, htake, hjunk, -⟩ :=
    built_schedule_good I instrs split assign initial final hb hi built hbuild hfinal env0 w0 hassign sem hsem deps hdeps
      ids junk hacc
  obtain ⟨slot', hrun⟩ := run_sim hcomm hnod hgood hex hsw slot (by
    intro pre s post v e hc
    rcases hslots pre s post v e hc with ⟨hg, hv⟩ | h
    · exact Or.inl (by rw [hv, hbase v hg])
    · exact Or.inr h) rest
  refine ⟨slot', (cstack.drop built.tgt.length).map val, ?_, fun h => by rw [hjunk h]; simp⟩
  have : cstack.map val = built.tgt.map val ++ (cstack.drop built.tgt.length).map val := by
    conv => lhs; rw [← List.take_append_drop built.tgt.length cstack]
    rw [List.map_append, htake]
  rw [← hsrc, ← htgt, ← this]
  exact hrun

/-! A block that stores, loads and adds, with a constant used twice and a gap in the final stack. -/
section example49

def exIns : List Ins :=
  [⟨"sstore", ["0x05", "a"], [], none⟩, ⟨"sload", ["0x05"], ["y"], none⟩, ⟨"add", ["y", "0x01"], ["z"], none⟩]

def exInterp : Interp Nat (List (Nat × Nat)) where
  num := id
  op := fun name _ args w =>
    match args with
    | [x] => if name = "SLOAD" then ([(w.lookup x).getD 0], w) else ([], w)
    | [x, y] => if name = "ADD" then ([x + y], w) else if name = "SSTORE" then ([], (x, y) :: w) else ([], w)
    | _ => ([], w)

theorem not_generated {x : String} (h : x.toList.head? ≠ some 's') : ¬ Generated x := by
  rintro ⟨j, rfl⟩
  rw [String.toList_append] at h
  exact h rfl

theorem not_literal {x : String} (h : isConst x = false) : ¬ IsLiteral x := by
  rw [← isConst_iff, h]; simp

theorem exBlockOk : BlockOk exIns ["a"] where
  known := by unfold exIns; decide +kernel
  prefixOnly := by unfold exIns; decide +kernel
  literal := by
    intro i hi h
    have : ∀ i ∈ exIns, i.op ≠ "LiteralAssignment" := by unfold exIns; decide +kernel
    exact absurd h (this i hi)
  push := by
    intro i hi h
    have : ∀ i ∈ exIns, i.op ≠ "push" := by unfold exIns; decide +kernel
    exact absurd h (this i hi)
  pushes := by
    intro i hi h
    have : ∀ i ∈ exIns, ¬ "push".toList <+: i.op.toList := by unfold exIns; decide +kernel
    exact absurd h (this i hi)
  noPush := by unfold exIns; decide +kernel
  tagOp := by unfold exIns; decide +kernel
  sameOp := by unfold exIns; decide +kernel
  outs := by unfold exIns; decide +kernel
  defBeforeUse := by
    intro pre i post h v hv j hj
    have hall : ∀ k, k < 3 → ∀ v ∈ ((exIns[k]?).map (·.outArgs)).getD [], ∀ j ∈ exIns.take (k + 1), v ∉ j.inArgs := by
      unfold exIns; decide +kernel
    have hlen : pre.length < 3 := by
      have := congrArg List.length h
      simp [exIns] at this; omega
    refine hall pre.length hlen v ?_ j ?_
    · rw [h]; simpa using hv
    · rw [h, List.take_append, List.take_of_length_le (by omega)]
      simpa using hj
  proper := by
    intro i hi v hv
    have : ∀ i ∈ exIns, ∀ v ∈ i.outArgs, v.toList.head? ≠ some 's' ∧ isConst v = false ∧ v ≠ "bottom" := by
      unfold exIns; decide +kernel
    obtain ⟨h1, h2, h3⟩ := this i hi v hv
    exact ⟨not_generated h1, not_literal h2, h3⟩
  inputs := by
    intro i hi v hv
    have : ∀ i ∈ exIns, ∀ v ∈ i.inArgs, v.toList.head? ≠ some 's' ∧ v ≠ "bottom" := by
      unfold exIns; decide +kernel
    obtain ⟨h1, h2⟩ := this i hi v hv
    exact ⟨not_generated h1, h2⟩
  source := by
    intro v hv
    simp only [List.mem_singleton] at hv; subst hv
    exact not_generated (by decide)
  sourceFresh := by unfold exIns; decide +kernel

theorem exUp1 : "sstore".map Char.toUpper = "SSTORE" := by decide +kernel
theorem exUp2 : "sload".map Char.toUpper = "SLOAD" := by decide +kernel
theorem exUp3 : "add".map Char.toUpper = "ADD" := by decide +kernel

theorem exInterpOk : InterpOk exInterp exIns where
  arity := by
    intro i hi env w
    simp only [exIns, List.mem_cons, List.not_mem_nil, or_false] at hi
    rcases hi with rfl | rfl | rfl <;> simp [Interp.ins, exInterp, Ins.name, exUp1, exUp2, exUp3]
  quiet := by
    intro i hi hne lits args w
    simp only [exIns, List.mem_cons, List.not_mem_nil, or_false] at hi
    rcases hi with rfl | rfl | rfl
    · exact absurd (by unfold Ins.Effect; decide +kernel) hne
    · have : (Ins.mk "sload" ["0x05"] ["y"] none).name = "SLOAD" := by decide +kernel
      rw [this]
      simp only [exInterp]
      repeat' split
      all_goals simp_all
    · have : (Ins.mk "add" ["y", "0x01"] ["z"] none).name = "ADD" := by decide +kernel
      rw [this]
      simp only [exInterp]
      repeat' split
      all_goals simp_all
  const := by
    intro i hi h
    have : ∀ i ∈ exIns, ¬ "push".toList <+: i.op.toList := by unfold exIns; decide +kernel
    exact absurd h (this i hi)
  comm := by
    intro o ho lits a b w
    simp only [List.mem_cons, List.not_mem_nil, or_false] at ho
    rcases ho with rfl | rfl | rfl | rfl | rfl | rfl <;> simp [exInterp, Nat.add_comm]

def exBuilt : Built where
  entries := [⟨⟨"PUSH_0", [], ["s0"], false, false, "PUSH"⟩, some (.num 5)⟩,
    ⟨⟨"SSTORE_0", ["s0", "a"], [], false, true, "SSTORE"⟩, none⟩,
    ⟨⟨"SLOAD_0", ["s0"], ["y"], false, false, "SLOAD"⟩, none⟩,
    ⟨⟨"PUSH_1", [], ["s1"], false, false, "PUSH"⟩, some (.num 1)⟩,
    ⟨⟨"ADD_0", ["y", "s1"], ["z"], true, false, "ADD"⟩, none⟩,
    ⟨⟨"PUSH0_0", [], ["bottom"], false, false, "PUSH0"⟩, some (.num 0)⟩]
  src := ["a"]
  tgt := ["z", "bottom"]
  positions := [(2, "ADD_0"), (1, "SLOAD_0"), (0, "SSTORE_0")]
  unused := []

theorem exBuilt_eq : buildSequence exIns none [] ["a"] ["z", "bottom"] = some exBuilt := by decide +kernel

/-- The entry of an instruction, by its id. -/
def exSem : Sem Nat (List (Nat × Nat)) := fun u args w =>
  match exBuilt.entries.find? (·.instr.id == u.id) with
  | some e => e.sem exInterp args w
  | none => ([], w)

def exIds : List String := ["PUSH_0", "SSTORE_0", "PUSH0_0", "PUSH_0", "SLOAD_0", "PUSH_1", "ADD_0"]

/-- All hypotheses of C49 hold for this block and the schedule `exIds`, whatever the value of `a`. -/
example (a : Nat) (rest : List Nat) :
    ∃ slot' extra,
      Run (exBuilt.entries.map (·.instr)) exSem exIds ⟨[a] ++ rest, fun _ => 0, []⟩
        ⟨[a + 1, 0] ++ extra ++ rest, slot', [(5, a)]⟩ ∧ (false = false → extra = []) := by
  have hmem5 : IsLiteral "0x05" := (isConst_iff _).1 (by decide)
  have hmem1 : IsLiteral "0x01" := (isConst_iff _).1 (by decide)
  have hna : ¬ IsLiteral "a" := not_literal (by decide)
  have hny : ¬ IsLiteral "y" := not_literal (by decide)
  have hnz : ¬ IsLiteral "z" := not_literal (by decide)
  have hnb : ¬ IsLiteral "bottom" := not_literal (by decide)
  have h5 : constNumber "0x05" = 5 := by decide +kernel
  have h1 : constNumber "0x01" = 1 := by decide +kernel
  have hrun := built_schedule_runs_block exInterp exIns none [] ["a"] ["z", "bottom"] exBlockOk exInterpOk exBuilt
    exBuilt_eq
    (by
      intro v hv
      simp only [beforeSplit, List.mem_cons, List.not_mem_nil, or_false] at hv
      rcases hv with rfl | rfl <;> exact not_generated (by decide))
    (fun _ => a) [] (by simp) exSem
    (by
      intro e he
      simp only [exBuilt, List.mem_cons, List.not_mem_nil, or_false] at he
      rcases he with rfl | rfl | rfl | rfl | rfl | rfl <;> rfl)
    [("SSTORE_0", "SLOAD_0")]
    (by
      intro m n i j x y hmn hm hn he hx hy _ _ hch
      have hn3 : n < 3 := by
        have := (List.getElem?_eq_some_iff.1 hn).1
        simpa [exIns] using this
      have hcases : (m = 0 ∧ n = 1) ∨ (m = 0 ∧ n = 2) ∨ (m = 1 ∧ n = 2) := by omega
      rcases hcases with ⟨rfl, rfl⟩ | ⟨rfl, rfl⟩ | ⟨rfl, rfl⟩
      · simp [exBuilt, List.lookup] at hx hy
        subst hx hy
        exact absurd (Grey.Trace.Chain.single (by simp)) hch
      · simp [exIns] at hm hn
        subst hm hn
        constructor <;> intro w <;> simp [Interp.ins, exInterp, Ins.name, exUp1, exUp3]
      · exfalso
        simp [exIns] at hm hn
        subst hm hn
        revert he
        unfold Ins.Effect
        decide +kernel)
    exIds false (by decide +kernel) (by decide +kernel) (fun _ => 0)
    (by
      intro pre s post v e hc
      exfalso
      have : ∀ s ∈ exIds, classify s = some (.instr s) := by decide +kernel
      rw [this s (by rw [e]; simp)] at hc
      simp at hc)
    rest
  have hfin : blockRun exInterp exIns (fun _ => a) [] =
      (fun v => if v = "z" then a + 1 else if v = "y" then a else a, [(5, a)]) := by
    have e : blockRun exInterp exIns (fun _ => a) [] = ((blockRun exInterp exIns (fun _ => a) []).1, (blockRun exInterp exIns (fun _ => a) []).2) := rfl
    rw [e]
    simp [exIns, blockRun, Interp.ins, exInterp, Ins.name, exUp1, exUp2, exUp3, SymExec.assign, Interp.read, hmem5, hmem1, hna, hny, h5, h1,
      List.lookup, literalArgOps]
  rw [hfin] at hrun
  simpa [beforeSplit, Interp.read, hna, hnz, hnb, exInterp] using hrun

/-- Two tags pushed in the same block are different values: each entry stands for its own tag. -/
def exTagInterp : Interp String Unit where
  num := toString
  op := fun name extra _ w => if name = "PUSH [TAG]" then ([String.join (extra.getD [])], w) else ([], w)

def exTags : List Ins := [⟨"PUSH [tag]", [], ["tag7"], none⟩, ⟨"PUSH [tag]", [], ["tag9"], none⟩]

example : ((buildSequence exTags none [] [] ["tag9", "tag7"]).map fun b =>
      b.entries.map fun e => (e.instr.id, (e.sem exTagInterp [] ()).1)) =
    some [("PUSH [TAG]_0", ["tag7"]), ("PUSH [TAG]_1", ["tag9"])] := by decide +kernel

example : exTags.map Ins.extra = [some ["tag7"], some ["tag9"]] := by decide +kernel

end example49

end Grey.Sfs
