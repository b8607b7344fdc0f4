/-
The items that are written for a block do what its schedule does.
-/
import Verif.Program.FlatSpec
import Verif.Program.Compile
import Verif.SymExec.Schedule
namespace Grey.Program
open List Grey.Layout Grey.Sfs Grey.SymExec Grey.Output

/-! ### Numbers -/

theorem hexNumber_append (l : List Char) (c : Char) :
    hexNumber (l ++ [c]) = 16 * hexNumber l + "0123456789abcdef".toList.idxOf c.toLower := by
  simp [hexNumber, foldl_append]

theorem hexNumber_upper_digits (n : Nat) : hexNumber ((Nat.toDigits 16 n).map Char.toUpper) = n := by
  have hd : ∀ d < 16, "0123456789abcdef".toList.idxOf ((Nat.digitChar d).toUpper).toLower = d := by decide
  induction n using Nat.strongRecOn with
  | ind n ih =>
    by_cases h : n < 16
    · rw [Nat.toDigits_of_lt_base h]
      simp only [map_cons, map_nil]
      rw [show [(Nat.digitChar n).toUpper] = [] ++ [(Nat.digitChar n).toUpper] from rfl, hexNumber_append, hd n h]
      simp [hexNumber]
    · have h' : 16 ≤ n := by omega
      rw [Nat.toDigits_of_base_le (by decide) h', map_append, map_cons, map_nil, hexNumber_append, ih (n / 16) (by omega),
        hd (n % 16) (by omega)]
      omega

theorem hexNumber_hexText (n : Nat) : hexNumber (upper (hexText n)).toList = n := by
  unfold upper hexText
  rw [String.toList_map, String.toList_ofList]
  exact hexNumber_upper_digits n

theorem toUpper_toUpper (c : Char) : c.toUpper.toUpper = c.toUpper := by
  unfold Char.toUpper
  by_cases h : c.val ≥ 'a'.val ∧ c.val ≤ 'z'.val
  · simp only [h]
    rw [dif_neg]
    intro h2
    have h3 := h2.1
    simp only [ge_iff_le, UInt32.le_iff_toNat_le] at h3 h
    simp at h3 h
    omega
  · simp only [h, dite_false]

theorem sameLiteral_upper (l : String) : SameLiteral l (upper l) := by
  left
  apply String.toList_inj.1
  unfold upper
  rw [String.toList_map, String.toList_map, String.toList_map, map_map]
  apply map_congr_left
  intro c _
  simp only [Function.comp]
  rw [toUpper_toUpper]

theorem sameLiteral_hex (l : String) : SameLiteral l (upper (hexDefault l)) := by
  unfold hexDefault
  cases h : parseNat l.toList with
  | none => exact sameLiteral_upper l
  | some n =>
    right
    unfold parseNat at h
    split at h
    · rename_i hc
      refine ⟨hc.1, by simpa using hc.2, ?_⟩
      simp only [Option.map_some, Option.getD_some]
      rw [hexNumber_hexText]
      simpa [decNumber] using h
    · simp at h

/-! ### The entries of a specification -/

/-- What an entry may look like: a constant, or an instruction of the block. -/
def Shape (instrs : List Ins) (e : Entry) : Prop :=
  (∃ n, e.value = some (.num n) ∧ e.instr.inpt = [] ∧ e.instr.disasm = if n = 0 then "PUSH0" else "PUSH") ∨
  (∃ i ∈ instrs, i.op ≠ "LiteralAssignment" ∧ i.op ≠ "push" ∧ e.instr.disasm = i.name ∧
    e.value = (if i.op ∈ literalOps then i.lits.map .lits else none) ∧ e.instr.inpt.length = i.inArgs.length ∧
    (e.instr.outpt.length = i.outArgs.length ∨ e.instr.outpt.length = 1))

theorem shape_push (instrs : List Ins) (n idx : Nat) (outs : List String) : Shape instrs (pushEntry n idx outs) := by
  left
  unfold pushEntry
  split
  · rename_i h; exact ⟨n, rfl, rfl, by simp [h]⟩
  · rename_i h; exact ⟨n, rfl, rfl, by simp [h]⟩

theorem shape_add {instrs : List Ins} {st : St} (h : ∀ e ∈ st.entries, Shape instrs e) {k : String × List String} {name : String}
    {e : Entry} (he : Shape instrs e) : ∀ e' ∈ (st.add k name e).entries, Shape instrs e' := by
  intro e' he'
  simp only [St.add, mem_append, mem_singleton] at he'
  rcases he' with h' | rfl
  · exact h e' h'
  · exact he

theorem shape_addPush {instrs : List Ins} {st st' : St} (h : ∀ e ∈ st.entries, Shape instrs e) {k c : String}
    {outs : List String} (hs : st.addPush k c outs = some st') : ∀ e ∈ st'.entries, Shape instrs e := by
  unfold St.addPush at hs
  obtain ⟨n, _, rfl⟩ := Option.map_eq_some_iff.1 hs
  exact shape_add h (shape_push _ _ _ _)

theorem shape_args {instrs : List Ins} : ∀ (as : List String) (st : St) (r : List String × St), buildArgs as st = some r →
    (∀ e ∈ st.entries, Shape instrs e) → r.1.length = as.length ∧ ∀ e ∈ r.2.entries, Shape instrs e := by
  intro as
  induction as with
  | nil => intro st r h hs; simp only [buildArgs, Option.some.injEq] at h; subst h; exact ⟨rfl, hs⟩
  | cons a as ih =>
    intro st r h hs
    unfold buildArgs at h
    split at h
    · split at h
      · obtain ⟨e, _, h⟩ := Option.bind_eq_some_iff.1 h
        obtain ⟨o, _, h⟩ := Option.bind_eq_some_iff.1 h
        obtain ⟨r', h', rfl⟩ := Option.map_eq_some_iff.1 h
        obtain ⟨h1, h2⟩ := ih st r' h' hs
        exact ⟨by simp [h1], h2⟩
      · obtain ⟨st1, h1, h⟩ := Option.bind_eq_some_iff.1 h
        obtain ⟨r', h', rfl⟩ := Option.map_eq_some_iff.1 h
        obtain ⟨h2, h3⟩ := ih _ r' h' (by have := shape_addPush hs h1; exact this)
        exact ⟨by simp [h2], h3⟩
    · obtain ⟨r', h', rfl⟩ := Option.map_eq_some_iff.1 h
      obtain ⟨h1, h2⟩ := ih st r' h' hs
      exact ⟨by simp [h1], h2⟩

theorem shape_ins {instrs : List Ins} {src : List String} (hb : BlockOk instrs src) {i : Ins} (hi : i ∈ instrs)
    (hlit : i.op ≠ "LiteralAssignment") {st st' : St} (h : buildIns i st = some st')
    (hs : ∀ e ∈ st.entries, Shape instrs e) : ∀ e ∈ st'.entries, Shape instrs e := by
  unfold buildIns at h
  obtain ⟨r, hr, h⟩ := Option.bind_eq_some_iff.1 h
  obtain ⟨e, he, h⟩ := Option.bind_eq_some_iff.1 h
  obtain ⟨k, _, rfl⟩ := Option.map_eq_some_iff.1 h
  obtain ⟨h1, h2⟩ := shape_args _ _ _ hr hs
  refine shape_add h2 ?_
  obtain ⟨hex, _, hno⟩ := (hb.known i hi).resolve_left hlit
  unfold buildEntry at he
  have hv : infixOf "VERBATIM".toList i.name.toList = false := by
    rw [Bool.eq_false_iff]
    intro hv
    exact hno "VERBATIM" (by simp) (infixOf_iff.1 hv)
  rw [hv, hex] at he
  simp only [Bool.false_eq_true, if_false, if_true] at he
  split at he
  · rename_i hl
    simp only [Option.some.injEq] at he
    subst he
    right
    refine ⟨i, hi, hlit, ?_, rfl, by simp [instrEntry, hl], by simpa [instrEntry] using h1, Or.inl rfl⟩
    intro e; rw [e] at hl; revert hl; decide
  · rename_i hl
    split at he
    · obtain ⟨l, _, he⟩ := Option.bind_eq_some_iff.1 he
      obtain ⟨c, _, he⟩ := Option.bind_eq_some_iff.1 he
      obtain ⟨n, _, rfl⟩ := Option.map_eq_some_iff.1 he
      exact shape_push _ _ _ _
    · rename_i hp
      simp only [Option.some.injEq] at he
      subst he
      right
      exact ⟨i, hi, hlit, hp, rfl, by simp [instrEntry, hl], by simpa [instrEntry] using h1, Or.inl rfl⟩

theorem shape_repush {instrs : List Ins} {src : List String} (hb : BlockOk instrs src) {i : Ins} (hi : i ∈ instrs) (hp : i.op = "push")
    {p : Nat} {st st' : St} (h : repush i p st = some st') (hs : ∀ e ∈ st.entries, Shape instrs e) :
    ∀ e ∈ st'.entries, Shape instrs e := by
  unfold repush at h
  obtain ⟨e, he, h⟩ := Option.bind_eq_some_iff.1 h
  obtain ⟨old, _, h⟩ := Option.bind_eq_some_iff.1 h
  obtain ⟨new, _, rfl⟩ := Option.map_eq_some_iff.1 h
  obtain ⟨_, o, ho⟩ := hb.pushes i hi (by rw [hp]; decide)
  have hren : ∀ x, Shape instrs x → Shape instrs { x with instr := { x.instr with inpt := renameVar old new x.instr.inpt } } := by
    intro x hx
    rcases hx with ⟨n, h1, h2, h3⟩ | ⟨j, hj, h1, h2, h3, h4, h5, h6⟩
    · exact Or.inl ⟨n, h1, by simp [h2, renameVar], h3⟩
    · exact Or.inr ⟨j, hj, h1, h2, h3, h4, by simpa [renameVar] using h5, h6⟩
  intro e' he'
  simp only [mem_map] at he'
  obtain ⟨x, hx, rfl⟩ := he'
  refine hren x ?_
  rcases mem_or_eq_of_mem_set hx with hx | rfl
  · exact hs x hx
  · rcases hs e (mem_of_getElem? he) with ⟨n, h1, h2, h3⟩ | ⟨j, hj, h1, h2, h3, h4, h5, h6⟩
    · exact Or.inl ⟨n, h1, h2, h3⟩
    · exact Or.inr ⟨j, hj, h1, h2, h3, h4, h5, Or.inr (by simp [ho])⟩

theorem shape_step {instrs : List Ins} {src : List String} (hb : BlockOk instrs src) {i : Ins} (hi : i ∈ instrs) {n : Nat} {st st' : St}
    (h : stepIns n i st = some st') (hs : ∀ e ∈ st.entries, Shape instrs e) : ∀ e ∈ st'.entries, Shape instrs e := by
  unfold stepIns at h
  obtain ⟨k, _, h⟩ := Option.bind_eq_some_iff.1 h
  dsimp only at h
  have hreuse : ∀ (p : Nat) (st0 : St), (∀ e ∈ st0.entries, Shape instrs e) → ∀ st1, (if i.op = "push" then repush i p st0
      else (st0.entries[p]?).bind fun e => e.instr.outpt.head?.bind fun o =>
        i.outArgs.head?.map fun x => { st0 with aliases := (x, o) :: st0.aliases }) = some st1 →
      ∀ e ∈ st1.entries, Shape instrs e := by
    intro p st0 h0 st1 h1
    split at h1
    · rename_i hp; exact shape_repush hb hi hp h1 h0
    · obtain ⟨e, _, h1⟩ := Option.bind_eq_some_iff.1 h1
      obtain ⟨o, _, h1⟩ := Option.bind_eq_some_iff.1 h1
      obtain ⟨x, _, rfl⟩ := Option.map_eq_some_iff.1 h1
      exact h0
  have hbuild : ∀ st1, ((if "LiteralAssignment".toList.isPrefixOf i.op.toList then
        i.inArgs.head?.bind fun c => (intHex c).map fun v =>
          st.add ("LITERALASSIGMENT", i.inArgs) (if v ≠ 0 then "PUSH" else "PUSH0") (pushEntry v (st.idx (if v ≠ 0 then "PUSH" else "PUSH0")) i.outArgs)
      else buildIns i st).bind fun st1 =>
        st1.entries.getLast?.map fun e => { st1 with positions := (n, e.instr.id) :: st1.positions }) = some st1 →
      ∀ e ∈ st1.entries, Shape instrs e := by
    intro st1 h1
    obtain ⟨st2, h2, h1⟩ := Option.bind_eq_some_iff.1 h1
    obtain ⟨e, _, rfl⟩ := Option.map_eq_some_iff.1 h1
    simp only
    split at h2
    · obtain ⟨c, _, h2⟩ := Option.bind_eq_some_iff.1 h2
      obtain ⟨v, _, rfl⟩ := Option.map_eq_some_iff.1 h2
      exact shape_add hs (shape_push _ _ _ _)
    · rename_i hl
      exact shape_ins hb hi (fun e => hl (by rw [e]; decide)) h2 hs
  cases hk : st.table.lookup k with
  | none => rw [hk] at h; exact hbuild _ h
  | some p =>
    rw [hk] at h
    simp only at h
    split at h
    · exact hreuse p st hs _ h
    · split at h
      · simp at h
      · obtain ⟨e, _, h⟩ := Option.bind_eq_some_iff.1 h
        split at h
        · exact hbuild _ h
        · exact hreuse p _ (by exact hs) _ h

theorem shape_loop {instrs : List Ins} {src : List String} (hb : BlockOk instrs src) : ∀ (is : List Ins) (n : Nat) (st st' : St),
    (∀ i ∈ is, i ∈ instrs) → buildLoop n is st = some st' → (∀ e ∈ st.entries, Shape instrs e) →
    ∀ e ∈ st'.entries, Shape instrs e := by
  intro is
  induction is with
  | nil => intro n st st' _ h hs; simp only [buildLoop, Option.some.injEq] at h; subst h; exact hs
  | cons i is ih =>
    intro n st st' hm h hs
    unfold buildLoop at h
    obtain ⟨st1, h1, h2⟩ := Option.bind_eq_some_iff.1 h
    exact ih (n + 1) st1 st' (fun j hj => hm j (mem_cons_of_mem _ hj)) h2 (shape_step hb (hm i mem_cons_self) h1 hs)

theorem shape_assign {instrs : List Ins} : ∀ (d : List (String × String)) (st st' : St), assignLoop d st = some st' →
    (∀ e ∈ st.entries, Shape instrs e) → ∀ e ∈ st'.entries, Shape instrs e := by
  intro d
  induction d with
  | nil => intro st st' h hs; simp only [assignLoop, Option.some.injEq] at h; subst h; exact hs
  | cons oc d ih =>
    intro st st' h hs
    obtain ⟨o, c⟩ := oc
    unfold assignLoop at h
    split at h
    · split at h
      · obtain ⟨st1, h1, h2⟩ := Option.bind_eq_some_iff.1 h
        exact ih _ st' h2 (by have := shape_addPush hs h1; exact this)
      · obtain ⟨e, _, h⟩ := Option.bind_eq_some_iff.1 h
        obtain ⟨x, _, h2⟩ := Option.bind_eq_some_iff.1 h
        exact ih _ st' h2 hs
    · exact ih _ st' h hs

/-- The entries of a specification. -/
theorem built_shape {V σ : Type} (I : Interp V σ) (instrs : List Ins) (split : Option Ins) (initial final : List String)
    (hb : BlockOk instrs initial) (hi : InterpOk I instrs) (built : Built)
    (hbuild : buildSequence instrs split [] initial final = some built) (hfinal : ∀ v ∈ beforeSplit split final, ¬ Generated v)
    (env0 : String → V) (w0 : σ) : ∀ e ∈ built.entries, Shape instrs e ∧
      (∃ name k, e.instr.id = name ++ "_" ++ toString (k : Nat) ∧ PlainName name) ∧
      (e.instr.disasm = "PUSH [TAG]" → ∀ o ∈ e.instr.outpt, IsTag instrs o) := by
  generalize hfin : (blockRun I instrs env0 w0).1 = fin at *
  unfold buildSequence at hbuild
  obtain ⟨st1, h1, hbuild⟩ := Option.bind_eq_some_iff.1 hbuild
  obtain ⟨st2, h2, rfl⟩ := Option.map_eq_some_iff.1 hbuild
  obtain ⟨val, hinv1⟩ := buildLoop_inv hb hi env0 w0 instrs 0 _ St.init st1 (by simp)
    (by simpa [blockRun] using inv_init I instrs (blockRun I instrs env0 w0).1 w0 (Seen instrs 0)) h1
  rw [hfin] at hinv1
  have hinv1' := hinv1.weaken (P' := fun _ => True) (Nat.le_refl _) (fun _ _ => trivial)
  obtain ⟨hinv, hpos⟩ := assignLoop_inv hb (addConstants (beforeSplit split final) []) (by
    intro oc hoc hlit
    rcases addConstants_mem _ _ _ hoc with hoc | ⟨x, hx, hx' | hx'⟩
    · simp at hoc
    · rw [hx'.2]
      refine ⟨by rw [← hx'.1]; exact hfinal x hx, ?_, fun ht => (isTag_proper hb ht).notBottom rfl⟩
      have hnl : ¬ IsLiteral "bottom" := by rw [← isConst_iff]; decide
      unfold Interp.read
      rw [if_neg hnl, if_pos rfl]
      rfl
    · rw [hx'.2.2]
      refine ⟨hfinal x hx, ?_, fun ht => (isTag_proper hb ht).notLit hx'.1⟩
      unfold Interp.read
      rw [if_pos hx'.1]) st1 st2 hinv1' h2
  have hshape := shape_assign _ _ _ h2 (shape_loop hb instrs 0 _ _ (fun _ h => h) h1 (by simp [St.init]))
  have hres : ∀ o, IsTag instrs o → resolve st2.aliases o = o := by
    intro o ho
    unfold resolve
    cases hl : st2.aliases.lookup o with
    | none => rfl
    | some y => exact absurd ho (hinv.aliasTag _ (mem_of_lookup hl))
  have base : ∀ e ∈ st2.entries, Shape instrs e ∧ (∃ name k, e.instr.id = name ++ "_" ++ toString (k : Nat) ∧ PlainName name) ∧
      (e.instr.disasm = "PUSH [TAG]" → ∀ o ∈ e.instr.outpt, IsTag instrs o) := by
    intro e he
    obtain ⟨name, k, h1, _, h3⟩ := hinv.ids e he
    exact ⟨hshape e he, ⟨name, k, h1, h3⟩, hinv.tagOuts e he⟩
  intro e he
  simp only at he
  split at he
  · exact base e (mem_of_mem_filter he)
  · obtain ⟨x, hx, rfl⟩ := mem_map.1 he
    obtain ⟨g1, g2, g3⟩ := base x (mem_of_mem_filter hx)
    refine ⟨?_, g2, ?_⟩
    · rcases g1 with ⟨n, h1, h2, h3⟩ | ⟨j, hj, h1, h2, h3, h4, h5, h6⟩
      · exact Or.inl ⟨n, h1, by simp [replaceEntry, h2], h3⟩
      · exact Or.inr ⟨j, hj, h1, h2, h3, h4, by simpa [replaceEntry] using h5, by simpa [replaceEntry] using h6⟩
    · intro hd o ho
      simp only [replaceEntry, mem_map] at ho
      obtain ⟨o', ho', rfl⟩ := ho
      have := g3 hd o' ho'
      rw [hres o' this]
      exact this

/-! ### From entries to items -/

theorem upper_digits (n : Nat) : upper (toString n) = toString n := by
  apply String.toList_inj.1
  unfold upper
  rw [String.toList_map]
  conv_rhs => rw [← map_id (toString n).toList]
  apply map_congr_left
  intro c hc
  have h' : c ∈ Nat.toDigits 10 n := by simpa using hc
  have := Nat.isDigit_of_mem_toDigits (by omega) (by omega) h'
  unfold Char.toUpper
  rw [dif_neg, id]
  simp only [Char.isDigit, Bool.and_eq_true, decide_eq_true_eq, ge_iff_le, UInt32.le_iff_toNat_le] at this ⊢
  simp at this ⊢
  omega

section
variable {V σ : Type} {I : Interp V σ} {arity : String → Nat}

theorem entry_item {instrs : List Ins} {src : List String} (hb : BlockOk instrs src) (hw : ∀ i ∈ instrs, Writable I arity i) {e : Entry}
    (hs : Shape instrs e) (ht : e.instr.disasm = "PUSH [TAG]" → ∀ o ∈ e.instr.outpt, IsTag instrs o) :
    ∃ a, entryAsm e = some a ∧ a.name ≠ "tag" ∧ ∀ (code : List Asm) (pc : Nat) (args s : List V) (w : σ), code[pc]? = some a →
      args.length = e.instr.inpt.length →
      FStep code I arity ⟨pc, args ++ s, w⟩ (.inl ⟨pc + 1, (e.sem I args w).1 ++ s, (e.sem I args w).2⟩) := by
  rcases hs with ⟨n, h1, h2, h3⟩ | ⟨i, hi, h1, h2, h3, h4, h5, h6⟩
  · have hsem : ∀ (code : List Asm) (pc : Nat) (args s : List V) (w : σ) (v : String), code[pc]? = some ⟨"PUSH", some v, none⟩ →
        hexNumber v.toList = n → args.length = e.instr.inpt.length →
        FStep code I arity ⟨pc, args ++ s, w⟩ (.inl ⟨pc + 1, (e.sem I args w).1 ++ s, (e.sem I args w).2⟩) := by
      intro code pc args s w v hc hv ha
      rw [h2] at ha
      simp only [length_nil, length_eq_zero_iff] at ha
      subst ha
      unfold Entry.sem
      rw [h1]
      subst hv
      exact .push hc
    by_cases hn : n = 0
    · subst hn
      simp only [if_true] at h3
      refine ⟨asmOf "PUSH" (some "0"), by simp [entryAsm, h3], by decide, fun code pc args s w hc => hsem code pc args s w _ hc ?_⟩
      decide +kernel
    · rw [if_neg hn] at h3
      refine ⟨asmOf "PUSH" (some (hexText n)), ?_, by simp [asmOf], fun code pc args s w hc => hsem code pc args s w _ hc (hexNumber_hexText n)⟩
      simp [entryAsm, h3, hexOps, h1, firstHex]
  · cases hw i hi with
    | const h => rcases h with h | h
                 · exact absurd h h1
                 · exact absurd h h2
    | tag n h ha ho =>
      have hname : i.name = "PUSH [TAG]" := by unfold Ins.name; rw [h]; decide +kernel
      rw [hname] at h3
      have hval : e.value = none := by rw [h4, if_neg]; rw [h]; decide
      have hlen : e.instr.outpt.length = 1 := by
        rcases h6 with h6 | h6
        · rw [h6, ho]; rfl
        · exact h6
      obtain ⟨o, hout⟩ := length_eq_one_iff.1 hlen
      obtain ⟨j, hj, hjn, hjo⟩ := ht h3 o (by rw [hout]; simp)
      obtain ⟨m, rfl⟩ : ∃ m : Nat, o = toString m := by
        cases hw j hj with
        | const h' =>
          rw [hb.tagOp j hj hjn] at h'
          simp at h'
        | tag m _ _ ho' => rw [ho'] at hjo; exact ⟨m, by simpa using hjo⟩
        | op _ h2' => rw [hjn] at h2'; simp at h2'
      refine ⟨asmOf "PUSH [tag]" (some (toString m)), ?_, by simp [asmOf], ?_⟩
      · simp only [entryAsm, h3, hout, head?_cons, Option.bind_some, parseNat_toString, Option.map_some]
        rw [if_neg (by decide), if_neg (by decide), if_pos trivial]
      · intro code pc args s w hc hargs
        rw [h5, ha] at hargs
        simp only [length_nil, length_eq_zero_iff] at hargs
        subst hargs
        unfold Entry.sem
        rw [hval, h3, hout]
        simp only [if_true]
        unfold asmOf at hc
        rw [Option.map_some, upper_digits] at hc
        exact .pushTag hc
    | op g1 g2 ha hv hl =>
      have hpush : i.name ≠ "PUSH" := fun e => g1 (by rw [e]; decide +kernel)
      have hnt : i.name ≠ "tag" := fun e => g1 (by rw [e]; decide +kernel)
      have hpush0 : i.name ≠ "PUSH0" := fun e => g2 (by rw [e]; decide)
      have hdata : i.name ≠ "PUSH data" := fun e => g2 (by rw [e]; decide)
      have htag : i.name ≠ "PUSH [TAG]" := fun e => g2 (by rw [e]; decide)
      have hhex : i.name ∈ hexOps ↔ i.name ∈ ["PUSHIMMUTABLE", "ASSIGNIMMUTABLE"] := by
        unfold hexOps
        simp [hpush, hdata]
      by_cases hlit : i.op ∈ literalArgOps
      · obtain ⟨l, hl1, hl2⟩ := hl hlit
        have hval : e.value = some (.lits [l]) := by rw [h4, if_pos (show i.op ∈ literalOps from hlit), hl1]; rfl
        obtain ⟨l', hl', has⟩ : ∃ l', SameLiteral l l' ∧ entryAsm e = some ⟨i.name, some l', none⟩ := by
          by_cases hh : i.name ∈ hexOps
          · refine ⟨_, sameLiteral_hex l, ?_⟩
            unfold entryAsm
            rw [h3, if_neg hpush0, if_pos hh, hval]
            rfl
          · refine ⟨_, sameLiteral_upper l, ?_⟩
            unfold entryAsm
            rw [h3, if_neg hpush0, if_neg hh, if_neg htag, hval]
            rfl
        refine ⟨_, has, hnt, ?_⟩
        intro code pc args s w hc hargs
        have : e.sem I args w = I.op i.name ((some l').map fun x => [x]) args w := by
          unfold Entry.sem
          rw [hval, h3]
          exact hl2 l' hl' args w
        rw [this]
        exact .op hc g1 (by rw [hargs, h5, ha])
      · have hval : e.value = none := by rw [h4, if_neg (show i.op ∉ literalOps from hlit)]
        have hh : i.name ∉ hexOps := fun hh => hlit (hv (hhex.1 hh))
        refine ⟨⟨i.name, none, none⟩, ?_, hnt, ?_⟩
        · unfold entryAsm
          rw [h3, if_neg hpush0, if_neg hh, if_neg htag, hval]
          rfl
        · intro code pc args s w hc hargs
          have : e.sem I args w = I.op i.name ((none : Option String).map fun x => [x]) args w := by
            unfold Entry.sem
            rw [hval, h3]
            simp only [if_neg htag]
            rfl
          rw [this]
          exact .op hc g1 (by rw [hargs, h5, ha])

theorem id_ne_plain {name : String} (k : Nat) {s : String} (hs : '_' ∉ s.toList) : name ++ "_" ++ toString k ≠ s := by
  rintro rfl
  apply hs
  rw [String.toList_append, String.toList_append]
  simp

theorem frun_append {code : List Asm} {s s' : FState V σ} {n m : Nat} {x : FState V σ ⊕ Halted V σ} (h : FRuns code I arity s n (.inl s'))
    (h' : FRuns code I arity s' m x) : FRuns code I arity s (n + m) x := by
  generalize hy : (Sum.inl s' : FState V σ ⊕ Halted V σ) = y at h
  induction h with
  | nil s => simp only [Sum.inl.injEq] at hy; subst hy; simpa using h'
  | halt => simp at hy
  | cons hs _ ih =>
    have := FRuns.cons hs (ih hy)
    rwa [show ∀ a b : Nat, a + 1 + b = a + b + 1 by omega]

/-- The items for a schedule do what the schedule does. -/
theorem segment_runs {es : List Entry} (hn : (es.map (·.instr.id)).Nodup)
    (hid : ∀ e ∈ es, ∃ name k, e.instr.id = name ++ "_" ++ toString (k : Nat) ∧ PlainName name)
    (hes : ∀ e ∈ es, ∃ a, entryAsm e = some a ∧ a.name ≠ "tag" ∧ ∀ (code : List Asm) (pc : Nat) (args s : List V) (w : σ), code[pc]? = some a →
      args.length = e.instr.inpt.length →
      FStep code I arity ⟨pc, args ++ s, w⟩ (.inl ⟨pc + 1, (e.sem I args w).1 ++ s, (e.sem I args w).2⟩))
    {ids : List String} {M M' : Machine V σ} (hr : Run (es.map (·.instr)) (semOf I es) ids M M') (hp : PlainIds ids) :
    ∃ seg, asmFromIds es ids = some seg ∧ (seg = [] ↔ ∀ s ∈ ids, s = "NOP") ∧ (∀ a ∈ seg, a.name ≠ "tag") ∧ ∀ (code : List Asm) (pc : Nat), (∀ i < seg.length, code[pc + i]? = seg[i]?) →
      FRuns code I arity ⟨pc, M.stack, M.world⟩ seg.length (.inl ⟨pc + seg.length, M'.stack, M'.world⟩) := by
  induction hr with
  | nil M => exact ⟨[], rfl, by simp, by simp, fun code pc _ => .nil _⟩
  | cons s o ss M M' M'' hc hstep _ ih =>
    obtain ⟨seg, hseg, _, hnt, hrun⟩ := ih ⟨fun t ht => hp.dup t (mem_cons_of_mem _ ht), fun t ht => hp.swap t (mem_cons_of_mem _ ht),
      fun t ht => hp.get t (mem_cons_of_mem _ ht), fun t ht => hp.set t (mem_cons_of_mem _ ht)⟩
    have hnone : (∀ u, o ≠ .instr u) → es.reverse.find? (fun e => e.instr.id == s) = none := by
      intro ho
      rw [find?_eq_none]
      intro e he heq
      obtain ⟨name, k, h1, h2⟩ := hid e (mem_reverse.1 he)
      rw [← beq_iff_eq.1 heq, h1, classify_plain h2 k] at hc
      exact ho _ (by simpa using hc.symm)
    suffices ∃ a, s ≠ "NOP" ∧ idToAsm es s = some a ∧ a.name ≠ "tag" ∧ ∀ (code : List Asm) (pc : Nat), code[pc]? = some a →
        FStep code I arity ⟨pc, M.stack, M.world⟩ (.inl ⟨pc + 1, M'.stack, M'.world⟩) by
      obtain ⟨a, h1, h2, hat, h3⟩ := this
      refine ⟨a :: seg, ?_, ⟨by simp, fun h => absurd (h s (by simp)) h1⟩, ?_, ?_⟩
      · unfold asmFromIds at hseg ⊢
        rw [filter_cons_of_pos (by simpa using h1), asmAll, h2, Option.bind_some, hseg]
        rfl
      · intro b hb
        rcases mem_cons.1 hb with rfl | hb
        · exact hat
        · exact hnt b hb
      · intro code pc hat
        have := hrun code (pc + 1) (fun i hi => by
          have := hat (i + 1) (by simpa using hi)
          rw [getElem?_cons_succ] at this
          rw [← this, show pc + 1 + i = pc + (i + 1) by omega])
        have h0 := h3 code pc (by simpa using hat 0 (by simp))
        have h' := FRuns.cons h0 this
        rwa [show pc + 1 + seg.length = pc + (a :: seg).length by simp only [length_cons]; omega] at h'
    have hid1 : ∀ t : String, infixOf "PUSH".toList t.toList = false → (∀ u, o ≠ .instr u) → s = t → t ≠ "NOP" → s ≠ "NOP" ∧ idToAsm es s = some ⟨t, none, none⟩ := by
      intro t ht ho hst hnop
      refine ⟨hst ▸ hnop, ?_⟩
      unfold idToAsm
      rw [hnone ho]
      subst hst
      simp only [ht]
      rfl
    cases hstep with
    | pop x st m w =>
      have hs : s = "POP" := by
        unfold classify at hc
        simp only at hc
        split at hc
        · assumption
        split at hc
        · simp at hc
        split at hc
        · simp at hc
        split at hc
        · simp at hc
        split at hc <;> simp at hc
      obtain ⟨h1, h2⟩ := hid1 "POP" (by decide +kernel) (by simp) hs (by decide)
      exact ⟨_, h1, h2, by decide, fun code pc hpc => .pop hpc⟩
    | swap n x a y b m w hl =>
      obtain ⟨h16, hs⟩ := hp.swap s (by simp) n hc
      subst hl
      have : ∀ k < 16, infixOf "PUSH".toList ("SWAP" ++ toString (k + 1)).toList = false ∧ "SWAP" ++ toString (k + 1) ≠ "NOP" ∧ "SWAP" ++ toString (k + 1) ≠ "tag" := by decide +kernel
      obtain ⟨t1, t2, t3⟩ := this a.length (by omega)
      obtain ⟨h1, h2⟩ := hid1 _ t1 (by simp) hs t2
      exact ⟨_, h1, h2, t3, fun code pc hpc => .swap (by omega) hpc⟩
    | dup n a y b m w hl =>
      obtain ⟨h16, hs⟩ := hp.dup s (by simp) n hc
      subst hl
      have : ∀ k < 16, infixOf "PUSH".toList ("DUP" ++ toString (k + 1)).toList = false ∧ "DUP" ++ toString (k + 1) ≠ "NOP" ∧ "DUP" ++ toString (k + 1) ≠ "tag" := by decide +kernel
      obtain ⟨t1, t2, t3⟩ := this a.length (by omega)
      obtain ⟨h1, h2⟩ := hid1 _ t1 (by simp) hs t2
      exact ⟨_, h1, h2, t3, fun code pc hpc => .dup (by omega) hpc⟩
    | get v st m w => exact absurd hc (hp.get s (by simp) v)
    | set v x st m w => exact absurd hc (hp.set s (by simp) v)
    | instr u args st m w hu ha =>
      obtain ⟨e, he, rfl⟩ := mem_map.1 hu
      have hs : s = e.instr.id := by
        unfold classify at hc
        simp only at hc
        split at hc
        · simp at hc
        split at hc
        · simp at hc
        split at hc
        · simp at hc
        split at hc
        · simp at hc
        split at hc
        · simp at hc
        · simpa using hc
      obtain ⟨a, h1, hta, h2⟩ := hes e he
      obtain ⟨name, k, hname, _⟩ := hid e he
      refine ⟨a, ?_, ?_, hta, ?_⟩
      · rw [hs, hname]
        exact id_ne_plain k (by decide)
      · unfold idToAsm
        cases hf : es.reverse.find? (fun e => e.instr.id == s) with
        | none =>
          have := find?_eq_none.1 hf e (mem_reverse.2 he)
          simp [hs] at this
        | some e' =>
          have g1 := mem_reverse.1 (mem_of_find?_eq_some hf)
          have g2 := find?_some hf
          simp only [beq_iff_eq] at g2
          rw [inj_on_of_nodup_map hn g1 he (by rw [g2, hs])]
          exact h1
      · intro code pc hpc
        have := h2 code pc args st w hpc ha
        simp only
        rwa [semOf_entry I hn e he]

end

end Grey.Program
