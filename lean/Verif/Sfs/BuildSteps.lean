/-
The invariant behind C49 is kept by every step of the construction.
-/
import Verif.Sfs.BuildInv
open List
namespace Grey.Sfs
open Grey.SymExec

/-! ### Letters -/

theorem toUpper_toLower_toUpper (c : Char) : c.toUpper.toLower.toUpper = c.toUpper := by
  by_cases h : 97 ≤ c.toNat ∧ c.toNat ≤ 122
  · generalize hk : c.toNat = k at h
    rw [char_eq_of_toNat hk]
    obtain ⟨h1, h2⟩ := h
    interval_cases k <;> decide
  · have h1 : c.toUpper = c := by
      unfold Char.toUpper
      rw [dif_neg]
      rintro ⟨a, b⟩
      exact h ⟨a, b⟩
    rw [h1]
    by_cases h2 : 65 ≤ c.toNat ∧ c.toNat ≤ 90
    · generalize hk : c.toNat = k at h2
      rw [char_eq_of_toNat hk]
      obtain ⟨h3, h4⟩ := h2
      interval_cases k <;> decide
    · have h3 : c.toLower = c := by
        unfold Char.toLower
        rw [dif_neg]
        rintro ⟨a, b⟩
        exact h2 ⟨a, b⟩
      rw [h3, h1]

theorem map_toList (s : String) (f : Char → Char) : (s.map f).toList = s.toList.map f := by
  simp [String.toList_map]

theorem name_lower_upper (i : Ins) : (i.name.map Char.toLower).map Char.toUpper = i.name := by
  apply String.toList_inj.1
  rw [map_toList, map_toList, Ins.name, map_toList, List.map_map, List.map_map]
  apply List.map_congr_left
  intro c _
  exact toUpper_toLower_toUpper c

theorem mem_storage_iff (s : String) : s ∈ Opcodes.memoryStorageInstructions ↔ s = "gas" ∨ s ∈ effectOps := by
  unfold Opcodes.memoryStorageInstructions effectOps
  simp only [List.mem_cons, List.not_mem_nil, or_false]
  constructor <;> intro h
  · rcases h with h | h | h | h | h | h | h | h | h | h | h | h | h | h | h | h | h | h | h | h | h | h <;> simp [h]
  · rcases h with h | h
    · simp [h]
    · rcases h with h | h | h | h | h | h | h | h | h | h | h | h | h | h | h | h | h | h | h | h | h <;> simp [h]

theorem gas_not_effect : ∀ s ∈ effectOps, infixOf "GAS".toList (s.map Char.toUpper).toList = false := by
  decide +kernel

theorem effect_iff (i : Ins) (u : UInstr) (hs : u.storage = decide (i.name.map Char.toLower ∈ Opcodes.memoryStorageInstructions))
    (hd : u.disasm = i.name) : IsEffect u ↔ i.Effect := by
  unfold IsEffect Ins.Effect
  rw [hs, hd, decide_eq_true_eq, mem_storage_iff]
  constructor
  · rintro ⟨h | h, hg⟩
    · exfalso
      apply hg
      rw [← name_lower_upper i, h, ← infixOf_iff]
      decide +kernel
    · exact h
  · intro h
    refine ⟨Or.inr h, ?_⟩
    rw [← infixOf_iff, Bool.not_eq_true]
    have := gas_not_effect _ h
    rw [name_lower_upper] at this
    exact this

theorem pushLike_iff (op : String) : pushLike op = true ↔ "push".toList <+: op.toList := by
  unfold pushLike; exact List.isPrefixOf_iff_prefix

theorem pushLike_name {i : Ins} (h : pushLike i.op = true) : "PUSH".toList <+: i.name.toList := by
  rw [pushLike_iff] at h
  obtain ⟨t, ht⟩ := h
  rw [Ins.name, map_toList, ← ht, List.map_append]
  exact ⟨t.map Char.toUpper, by rw [show "push".toList.map Char.toUpper = "PUSH".toList by decide]⟩

theorem plain_push : PlainName "PUSH" := by unfold PlainName; decide +kernel
theorem plain_push0 : PlainName "PUSH0" := by unfold PlainName; decide +kernel

section
variable {V σ : Type} {I : Interp V σ} {instrs : List Ins} {src : List String} {fin : String → V} {w0 : σ}
  {P : String → Prop} {val : String → V} {n : Nat} {w : σ} {st : St}

theorem Inv.weaken {P' : String → Prop} {n' : Nat} (h : Inv I instrs fin w0 P val n w st) (hn : n ≤ n')
    (hP : ∀ x, P x → P' x) : Inv I instrs fin w0 P' val n' w st := by
  obtain ⟨orig, h1, h2, h3⟩ := h.orig
  exact { h with orig := ⟨orig, h1, h2, fun m hm => Nat.lt_of_lt_of_le (h3 m hm) hn⟩,
                 outs := fun e he o ho => hP o (h.outs e he o ho) }

theorem Inv.bump (h : Inv I instrs fin w0 P val n w st) {k : Nat} (hk : st.outIdx ≤ k) :
    Inv I instrs fin w0 P val n w { st with outIdx := k } :=
  { h with names := fun e he x hx => (h.names e he x hx).mono hk
           aliasNames := fun xy hxy => ⟨(h.aliasNames xy hxy).1.mono hk, (h.aliasNames xy hxy).2.mono hk⟩ }

theorem Inv.withAlias (h : Inv I instrs fin w0 P val n w st) {x y : String} (hv : val x = val y)
    (hx : Older st.outIdx x) (hy : Older st.outIdx y) (ht : ¬ IsTag instrs x) :
    Inv I instrs fin w0 P val n w { st with aliases := (x, y) :: st.aliases } :=
  { h with
    aliasOk := by
      intro xy hxy
      rcases List.mem_cons.1 hxy with rfl | hxy
      · exact hv
      · exact h.aliasOk xy hxy
    aliasNames := by
      intro xy hxy
      rcases List.mem_cons.1 hxy with rfl | hxy
      · exact ⟨hx, hy⟩
      · exact h.aliasNames xy hxy
    aliasTag := by
      intro xy hxy
      rcases List.mem_cons.1 hxy with rfl | hxy
      · exact ht
      · exact h.aliasTag xy hxy }

theorem flags_push (k idx : Nat) (outs : List String) : Flags I (pushEntry k idx outs) := by
  unfold pushEntry
  split <;> exact ⟨by simp, by simp [Entry.sem]⟩

theorem pushEntry_value (k idx : Nat) (outs : List String) : (pushEntry k idx outs).value = some (.num k) := by
  unfold pushEntry; split <;> rfl

theorem pushEntry_outpt (k idx : Nat) (outs : List String) : (pushEntry k idx outs).instr.outpt = outs := by
  unfold pushEntry; split <;> rfl

theorem pushEntry_inpt (k idx : Nat) (outs : List String) : (pushEntry k idx outs).instr.inpt = [] := by
  unfold pushEntry; split <;> rfl

theorem pushEntry_sem (k idx : Nat) (outs : List String) (args : List V) (w : σ) :
    (pushEntry k idx outs).sem I args w = ([I.num k], w) := by
  unfold Entry.sem; rw [pushEntry_value]

theorem pushEntry_quiet (k idx : Nat) (outs : List String) : ¬ IsEffect (pushEntry k idx outs).instr := by
  unfold pushEntry IsEffect; split <;> simp

theorem pushEntry_tag (k idx : Nat) (outs : List String) : (pushEntry k idx outs).instr.disasm ≠ "PUSH [TAG]" := by
  unfold pushEntry; split <;> simp

/-- Only the instruction `PUSH [tag]` has a tag as its result. -/
theorem isTag_name (hb : BlockOk instrs src) {i : Ins} (hi : i ∈ instrs) {o : String} (ho : o ∈ i.outArgs)
    (ht : IsTag instrs o) : i.name = "PUSH [TAG]" := by
  obtain ⟨j, hj, hn, hoj⟩ := ht
  have : ∀ l : List Ins, (l.flatMap (·.outArgs)).Nodup → i ∈ l → j ∈ l → i = j := by
    intro l
    induction l with
    | nil => intro _ h; simp at h
    | cons a l ih =>
      intro hnd hi hj
      rw [List.flatMap_cons, List.nodup_append] at hnd
      rcases List.mem_cons.1 hi with rfl | hi' <;> rcases List.mem_cons.1 hj with rfl | hj'
      · rfl
      · exact absurd rfl (hnd.2.2 o ho o (List.mem_flatMap.2 ⟨j, hj', hoj⟩))
      · exact absurd rfl (hnd.2.2 o hoj o (List.mem_flatMap.2 ⟨i, hi', ho⟩))
      · exact ih hnd.2.1 hi' hj'
  rw [this instrs hb.outs hi hj]; exact hn

theorem isTag_proper (hb : BlockOk instrs src) {o : String} (ht : IsTag instrs o) : Proper o := by
  obtain ⟨i, hi, _, ho⟩ := ht
  exact hb.proper i hi o ho

theorem pushLike_not_tag (hb : BlockOk instrs src) {i : Ins} (hi : i ∈ instrs) (h : pushLike i.op = true) :
    i.name ≠ "PUSH [TAG]" := fun e => by
  rw [hb.tagOp i hi e] at h
  exact absurd h (by decide)

theorem pushEntry_id (k idx : Nat) (outs : List String) :
    (pushEntry k idx outs).instr.id = (if k ≠ 0 then "PUSH" else "PUSH0") ++ "_" ++ toString idx := by
  unfold pushEntry
  by_cases h : k = 0
  · rw [if_pos h, if_neg (by simp [h])]; rfl
  · rw [if_neg h, if_pos h]; rfl

theorem plain_ite (k : Nat) : PlainName (if k ≠ 0 then "PUSH" else "PUSH0") := by
  split
  · exact plain_push
  · exact plain_push0

/-- A constant gets a push instruction. -/
theorem Inv.addPush (hb : BlockOk instrs src) (h : Inv I instrs fin w0 P val n w st) {c o : String} {st1 : St}
    (hs : st.addPush "PUSH" c [o] = some st1) (hv : val o = I.num (constNumber c)) (ho : Older st.outIdx o) (hP : P o)
    (ht : ¬ IsTag instrs o) :
    Inv I instrs fin w0 P val n w st1 ∧ st1.positions = st.positions ∧ st1.outIdx = st.outIdx ∧
      st1.aliases = st.aliases := by
  unfold St.addPush at hs
  obtain ⟨k, hk, rfl⟩ := Option.map_eq_some_iff.1 hs
  have hkc := intHex_spec hk
  refine ⟨?_, rfl, rfl, rfl⟩
  have := h.add ("PUSH", [c]) (if k ≠ 0 then "PUSH" else "PUSH0")
    (pushEntry k (st.idx (if k ≠ 0 then "PUSH" else "PUSH0")) [o]) st.positions none n (Nat.le_refl _) (fun _ _ => rfl)
    (by rw [pushEntry_sem, pushEntry_outpt]; simp [hv, hkc])
    ⟨k, pushEntry_value _ _ _⟩ (by simp)
    (by
      intro c' hc'
      simp only [Prod.mk.injEq, List.cons.injEq, and_true, true_and] at hc'
      exact ⟨o, pushEntry_outpt _ _ _, by rw [← hc']; exact hv, ht⟩)
    (by
      intro i hi hpl hkey
      unfold Ins.key at hkey
      rw [if_pos hpl] at hkey
      obtain ⟨l, hl, he⟩ := Option.map_eq_some_iff.1 hkey
      simp only [Prod.mk.injEq] at he
      have hop := hb.noPush i hi he.1
      refine ⟨o, pushEntry_outpt _ _ _, fun w => ?_, ht⟩
      unfold Interp.ins
      rw [if_neg (by rw [hop]; decide), if_pos hop, hl, he.2, hv]
      rfl)
    (by rw [pushEntry_inpt, pushEntry_outpt]; simpa using ho)
    (pushEntry_id _ _ _) (plain_ite k) (flags_push _ _ _) (by rw [pushEntry_outpt]; simpa using hP)
    (fun h => absurd h (pushEntry_tag _ _ _))
  rw [pushEntry_sem] at this
  exact this

theorem generated_older {k : Nat} : Older (k + 1) ("s" ++ toString k) := fun j e => by
  have := Names.prefix_inj e; omega

theorem older_of_not_generated {k : Nat} {x : String} (h : ¬ Generated x) : Older k x := fun j e => absurd ⟨j, e⟩ h

theorem buildArgs_inv (hb : BlockOk instrs src) (hPg : ∀ x, Generated x → P x) (as : List String)
    (has : ∀ a ∈ as, ¬ Generated a ∧ a ≠ "bottom") :
    ∀ (val : String → V) (st : St) (xs : List String) (st' : St), Inv I instrs fin w0 P val n w st →
      buildArgs as st = some (xs, st') →
      ∃ val', Inv I instrs fin w0 P val' n w st' ∧ xs.map val' = as.map (I.read fin) ∧
        (∀ x ∈ xs, Older st'.outIdx x) ∧ st'.positions = st.positions ∧ st.outIdx ≤ st'.outIdx ∧
        (∀ x, Older st.outIdx x → val' x = val x) := by
  induction as with
  | nil =>
    intro val st xs st' h hs
    simp only [buildArgs, Option.some.injEq, Prod.mk.injEq] at hs
    obtain ⟨rfl, rfl⟩ := hs
    exact ⟨val, h, rfl, by simp, rfl, Nat.le_refl _, fun _ _ => rfl⟩
  | cons a as ih =>
    intro val st xs st' h hs
    have ih := ih (fun x hx => has x (by simp [hx]))
    rw [buildArgs] at hs
    by_cases hc : isConst a = true
    · rw [if_pos hc] at hs
      have hread : I.read fin a = I.num (constNumber a) := by
        unfold Interp.read; rw [if_pos ((isConst_iff a).1 hc)]
      cases hl : st.table.lookup ("PUSH", [a]) with
      | some p =>
        rw [hl] at hs
        simp only at hs
        obtain ⟨e, he, hs⟩ := Option.bind_eq_some_iff.1 hs
        obtain ⟨o, ho, hs⟩ := Option.bind_eq_some_iff.1 hs
        obtain ⟨⟨ys, st2⟩, hr, hs⟩ := Option.map_eq_some_iff.1 hs
        simp only [Prod.mk.injEq] at hs
        obtain ⟨rfl, rfl⟩ := hs
        obtain ⟨e', o', he', ho', hv, _⟩ := h.pushTab a p hl
        rw [he] at he'; simp only [Option.some.injEq] at he'; subst he'
        rw [ho'] at ho; simp only [List.head?_cons, Option.some.injEq] at ho; subst ho
        have hold : Older st.outIdx o' := h.names e (List.mem_of_getElem? he) o' (by simp [ho'])
        obtain ⟨val', h1, h2, h3, h4, h5, h6⟩ := ih val st ys st2 h hr
        refine ⟨val', h1, ?_, ?_, h4, h5, h6⟩
        · rw [List.map_cons, List.map_cons, h2, h6 o' hold, hv, hread]
        · intro x hx
          rcases List.mem_cons.1 hx with rfl | hx
          · exact hold.mono h5
          · exact h3 x hx
      | none =>
        rw [hl] at hs
        simp only at hs
        obtain ⟨st1, hp, hs⟩ := Option.bind_eq_some_iff.1 hs
        obtain ⟨⟨ys, st2⟩, hr, hs⟩ := Option.map_eq_some_iff.1 hs
        simp only [Prod.mk.injEq] at hs
        obtain ⟨rfl, rfl⟩ := hs
        let val1 : String → V := fun x => if x = "s" ++ toString st.outIdx then I.num (constNumber a) else val x
        have hne : ∀ x, x ≠ "s" ++ toString st.outIdx → val1 x = val x := fun x hx => by simp only [val1, if_neg hx]
        have hb1 : Inv I instrs fin w0 P val1 n w { st with outIdx := st.outIdx + 1 } :=
          (h.reval hne).bump (by omega)
        have hp' : ({ st with outIdx := st.outIdx + 1 } : St).addPush "PUSH" a ["s" ++ toString st.outIdx] =
            some { st1 with outIdx := st.outIdx + 1 } := by
          unfold St.addPush at hp ⊢
          obtain ⟨k, hk, rfl⟩ := Option.map_eq_some_iff.1 hp
          rw [hk]; rfl
        obtain ⟨h1, h2, h3, h4⟩ := hb1.addPush hb hp' (by simp only [val1, if_pos]) generated_older (hPg _ ⟨_, rfl⟩)
          (fun ht => (isTag_proper hb ht).notGen ⟨_, rfl⟩)
        have hidx : st1.outIdx = st.outIdx := by
          unfold St.addPush at hp
          obtain ⟨k, hk, rfl⟩ := Option.map_eq_some_iff.1 hp; rfl
        rw [hidx] at hr
        obtain ⟨val', g1, g2, g3, g4, g5, g6⟩ := ih val1 _ ys st2 h1 hr
        simp only at g4 g5 g6
        refine ⟨val', g1, ?_, ?_, ?_, by omega, ?_⟩
        · rw [List.map_cons, List.map_cons, g2, g6 _ generated_older, hread]
          simp only [val1, if_pos]
        · intro x hx
          rcases List.mem_cons.1 hx with rfl | hx
          · exact generated_older.mono g5
          · exact g3 x hx
        · rw [g4]; exact h2
        · intro x hx
          rw [g6 x (hx.mono (by omega)), hne x (older_ne hx)]
    · rw [if_neg hc] at hs
      obtain ⟨⟨ys, st2⟩, hr, hs⟩ := Option.map_eq_some_iff.1 hs
      simp only [Prod.mk.injEq] at hs
      obtain ⟨rfl, rfl⟩ := hs
      obtain ⟨val', h1, h2, h3, h4, h5, h6⟩ := ih val st ys st2 h hr
      refine ⟨val', h1, ?_, ?_, h4, h5, h6⟩
      · rw [List.map_cons, List.map_cons, h2, h1.base a (has a (by simp)).1]
      · intro x hx
        rcases List.mem_cons.1 hx with rfl | hx
        · exact older_of_not_generated (has x (by simp)).1
        · exact h3 x hx

/-- What may change in an entry without changing its meaning. -/
structure Similar (instrs : List Ins) (val : String → V) (k : Nat) (P : String → Prop) (x y : Entry) : Prop where
  id : y.instr.id = x.instr.id
  value : y.value = x.value
  disasm : y.instr.disasm = x.instr.disasm
  storage : y.instr.storage = x.instr.storage
  commutative : y.instr.commutative = x.instr.commutative
  inpt : y.instr.inpt.map val = x.instr.inpt.map val
  outpt : y.instr.outpt = x.instr.outpt ∨ ∃ a b, x.instr.outpt = [a] ∧ y.instr.outpt = [b] ∧
    val a = val b ∧ ¬ IsTag instrs b
  names : ∀ v ∈ y.instr.inpt ++ y.instr.outpt, Older k v
  outs : ∀ v ∈ y.instr.outpt, P v
  tag : x.instr.disasm = "PUSH [TAG]" → y.instr.outpt = x.instr.outpt

theorem Similar.outMap {k : Nat} {x y : Entry} (h : Similar instrs val k P x y) :
    y.instr.outpt.map val = x.instr.outpt.map val := by
  rcases h.outpt with h | ⟨a, b, h1, h2, h3, _⟩
  · rw [h]
  · rw [h1, h2]; simp [h3]

theorem Similar.sem {k : Nat} {x y : Entry} (h : Similar instrs val k P x y) (args : List V) (w : σ) :
    y.sem I args w = x.sem I args w := by
  unfold Entry.sem; rw [h.value, h.disasm]
  by_cases ht : x.instr.disasm = "PUSH [TAG]"
  · rw [h.tag ht]
  · rw [if_neg ht, if_neg ht]

theorem Similar.effect {k : Nat} {x y : Entry} (h : Similar instrs val k P x y) : IsEffect y.instr ↔ IsEffect x.instr := by
  unfold IsEffect; rw [h.storage, h.disasm]

theorem forall₂_get {A B : Type} {R : A → B → Prop} {l : List A} {l' : List B} (h : List.Forall₂ R l l') {p : Nat} {x : A}
    (hx : l[p]? = some x) : ∃ y, l'[p]? = some y ∧ R x y := by
  induction h generalizing p with
  | nil => simp at hx
  | @cons a b l l' hab _ ih =>
    cases p with
    | zero => simp at hx; subst hx; exact ⟨b, by simp, hab⟩
    | succ p => simpa using ih (by simpa using hx)

theorem forall₂_mem_right {A B : Type} {R : A → B → Prop} {l : List A} {l' : List B} (h : List.Forall₂ R l l') {y : B}
    (hy : y ∈ l') : ∃ x ∈ l, R x y := by
  induction h with
  | nil => simp at hy
  | @cons a b l l' hab _ ih =>
    rcases List.mem_cons.1 hy with rfl | hy
    · exact ⟨a, by simp, hab⟩
    · obtain ⟨x, hx, hr⟩ := ih hy
      exact ⟨x, by simp [hx], hr⟩

theorem Inv.replace (h : Inv I instrs fin w0 P val n w st) {P' : String → Prop} (es : List Entry)
    (hes : List.Forall₂ (Similar instrs val st.outIdx P') st.entries es) :
    Inv I instrs fin w0 P' val n w { st with entries := es } := by
  have hfrom : ∀ {x y : Entry} {o : Option Nat}, Similar instrs val st.outIdx P' x y →
      FromBlock I instrs fin val st.positions x o → FromBlock I instrs fin val st.positions y o := by
    intro x y o hs hf
    cases o with
    | none => obtain ⟨k, hk⟩ := hf; exact ⟨k, by rw [hs.value]; exact hk⟩
    | some m =>
      obtain ⟨i, a, b, c, d⟩ := hf
      exact ⟨i, a, by rw [hs.id]; exact b, fun w => by rw [hs.sem, hs.inpt]; exact c w, fun he => d (hs.effect.1 he)⟩
  refine { base := h.base, desc := ?_, orig := ?_, pushTab := ?_, insTab := ?_, aliasOk := h.aliasOk, names := ?_,
           aliasNames := h.aliasNames, ids := ?_, nodup := ?_, flags := ?_, outs := ?_, tagOuts := ?_, aliasTag := h.aliasTag }
  · exact DescE.congr (hes.imp fun x y hs => ⟨hs.value, hs.disasm, hs.inpt, hs.outMap, hs.tag⟩) h.desc
  · obtain ⟨orig, h1, h2, h3⟩ := h.orig
    refine ⟨orig, ?_, h2, h3⟩
    show List.Forall₂ _ es orig
    clear h2 h3
    have : ∀ (l es : List Entry) (os : List (Option Nat)), List.Forall₂ (Similar instrs val st.outIdx P') l es →
        List.Forall₂ (FromBlock I instrs fin val st.positions) l os →
        List.Forall₂ (FromBlock I instrs fin val st.positions) es os := by
      intro l es os h1 h2
      induction h1 generalizing os with
      | nil => cases h2; exact .nil
      | cons hs _ ih =>
        cases h2 with
        | cons a b => exact .cons (hfrom hs a) (ih _ b)
    exact this _ _ _ hes h1
  · intro c p hp
    obtain ⟨e, o, h1, h2, h3⟩ := h.pushTab c p hp
    obtain ⟨y, hy, hs⟩ := forall₂_get hes h1
    rcases hs.outpt with h4 | ⟨a, b, h4, h5, h6, h7⟩
    · exact ⟨y, o, hy, by rw [h4]; exact h2, h3⟩
    · rw [h2] at h4; simp only [List.cons.injEq, and_true] at h4; subst h4
      exact ⟨y, b, hy, h5, by rw [← h6]; exact h3.1, h7⟩
  · intro i hi hpl k p hk hp
    obtain ⟨e, o, h1, h2, h3⟩ := h.insTab i hi hpl k p hk hp
    obtain ⟨y, hy, hs⟩ := forall₂_get hes h1
    rcases hs.outpt with h4 | ⟨a, b, h4, h5, h6, h7⟩
    · exact ⟨y, o, hy, by rw [h4]; exact h2, h3⟩
    · rw [h2] at h4; simp only [List.cons.injEq, and_true] at h4; subst h4
      exact ⟨y, b, hy, h5, by rw [← h6]; exact h3.1, h7⟩
  · intro y hy
    obtain ⟨x, _, hs⟩ := forall₂_mem_right hes hy
    exact hs.names
  · intro y hy
    obtain ⟨x, hx, hs⟩ := forall₂_mem_right hes hy
    obtain ⟨nm, k, a, b, c⟩ := h.ids x hx
    exact ⟨nm, k, by rw [hs.id]; exact a, b, c⟩
  · have : es.map (·.instr.id) = st.entries.map (·.instr.id) := by
      have : ∀ (l es : List Entry), List.Forall₂ (Similar instrs val st.outIdx P') l es →
          es.map (·.instr.id) = l.map (·.instr.id) := by
        intro l es h1
        induction h1 with
        | nil => rfl
        | cons hs _ ih => rw [List.map_cons, List.map_cons, ih, hs.id]
      exact this _ _ hes
    show (es.map (·.instr.id)).Nodup
    rw [this]; exact h.nodup
  · intro y hy
    obtain ⟨x, hx, hs⟩ := forall₂_mem_right hes hy
    have := h.flags x hx
    exact ⟨fun hc => by rw [hs.value, hs.disasm]; exact this.comm (by rw [← hs.commutative]; exact hc),
      fun he args w => by rw [hs.sem]; exact this.quiet (fun h => he (hs.effect.2 h)) args w⟩
  · intro y hy
    obtain ⟨x, _, hs⟩ := forall₂_mem_right hes hy
    exact hs.outs
  · intro y hy ht
    obtain ⟨x, hx, hs⟩ := forall₂_mem_right hes hy
    rw [hs.disasm] at ht
    rw [hs.tag ht]
    exact h.tagOuts x hx ht

end

end Grey.Sfs
