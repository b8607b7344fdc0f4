/-
The invariant behind C49: what the entries built so far have to do with the block.
-/
import Verif.Sfs.BuildLemmas
open List
namespace Grey.Sfs
open Grey.SymExec

section block
variable {V σ : Type} {I : Interp V σ} {instrs : List Ins} {src : List String}

theorem blockRun_append (l l' : List Ins) (env : String → V) (w : σ) :
    blockRun I (l ++ l') env w = blockRun I l' (blockRun I l env w).1 (blockRun I l env w).2 := by
  induction l generalizing env w with
  | nil => rfl
  | cons i l ih => simp only [List.cons_append, blockRun, ih]

theorem blockRun_notin (l : List Ins) (env : String → V) (w : σ) (v : String) (h : ∀ i ∈ l, v ∉ i.outArgs) :
    (blockRun I l env w).1 v = env v := by
  induction l generalizing env w with
  | nil => rfl
  | cons i l ih =>
    rw [blockRun, ih _ _ (fun j hj => h j (by simp [hj])), assign_notin _ _ _ _ (h i (by simp))]

theorem read_congr {env env' : String → V} {x : String} (h : env x = env' x) : I.read env x = I.read env' x := by
  unfold Interp.read; split
  · rfl
  · split
    · rfl
    · exact h

theorem ins_congr {env env' : String → V} {i : Ins} (h : ∀ v ∈ i.inArgs, env v = env' v) (w : σ) :
    I.ins i env w = I.ins i env' w := by
  unfold Interp.ins
  have : i.inArgs.map (I.read env) = i.inArgs.map (I.read env') :=
    List.map_congr_left fun v hv => read_congr (h v hv)
  rw [this]

/-- Every instruction of the block, run on the final values of its arguments, produces the final values of its results. -/
theorem block_step (hb : BlockOk instrs src) (hi : InterpOk I instrs) (env0 : String → V) (w0 : σ) {n : Nat} {i : Ins}
    (h : instrs[n]? = some i) :
    I.ins i (blockRun I instrs env0 w0).1 (blockRun I (instrs.take n) env0 w0).2 =
      (i.outArgs.map (blockRun I instrs env0 w0).1, (blockRun I (instrs.take (n + 1)) env0 w0).2) := by
  obtain ⟨hn, rfl⟩ := List.getElem?_eq_some_iff.1 h
  have e : instrs = instrs.take n ++ instrs[n] :: instrs.drop (n + 1) := by
    rw [← List.drop_eq_getElem_cons hn, List.take_append_drop]
  have hmem : instrs[n] ∈ instrs := List.getElem_mem hn
  have hin : ∀ v ∈ instrs[n].inArgs, (blockRun I instrs env0 w0).1 v = (blockRun I (instrs.take n) env0 w0).1 v := by
    intro v hv
    conv => lhs; rw [e]
    rw [blockRun_append]
    apply blockRun_notin
    intro j hj ho
    obtain ⟨a, b, hab⟩ := List.append_of_mem hj
    have e' : instrs = (instrs.take n ++ a) ++ j :: b := by rw [List.append_assoc, ← hab]; exact e
    refine hb.defBeforeUse _ j b e' v ho instrs[n] ?_ hv
    cases a with
    | nil => simp only [List.nil_append, List.cons.injEq] at hab; simp [hab.1]
    | cons x a => simp only [List.cons_append, List.cons.injEq] at hab; simp [hab.1]
  rw [ins_congr hin]
  have hno : (instrs[n].outArgs).Nodup ∧ ∀ v ∈ instrs[n].outArgs, ∀ j ∈ instrs.drop (n + 1), v ∉ j.outArgs := by
    have := hb.outs
    rw [e, List.flatMap_append, List.flatMap_cons, List.nodup_append] at this
    have h2 := List.nodup_append.1 this.2.1
    refine ⟨h2.1, fun v hv u' hu' hv' => h2.2.2 v hv v ?_ rfl⟩
    exact List.mem_flatMap.2 ⟨u', hu', hv'⟩
  have hout : instrs[n].outArgs.map (blockRun I instrs env0 w0).1 =
      (I.ins instrs[n] (blockRun I (instrs.take n) env0 w0).1 (blockRun I (instrs.take n) env0 w0).2).1 := by
    rw [← map_assign (blockRun I (instrs.take n) env0 w0).1 instrs[n].outArgs _ hno.1 (hi.arity _ hmem _ _)]
    apply List.map_congr_left
    intro v hv
    conv => lhs; rw [e]
    rw [blockRun_append, blockRun]
    exact blockRun_notin _ _ _ v (hno.2 v hv)
  have hw : (blockRun I (instrs.take (n + 1)) env0 w0).2 =
      (I.ins instrs[n] (blockRun I (instrs.take n) env0 w0).1 (blockRun I (instrs.take n) env0 w0).2).2 := by
    rw [List.take_succ_eq_append_getElem hn, blockRun_append]
    simp only [blockRun]
  rw [hw, hout]

end block

section invariant
variable {V σ : Type} (I : Interp V σ)

/-- `val` gives the value of every name in an execution of the entries in this order. -/
def DescE (val : String → V) : List Entry → σ → σ → Prop
  | [], w, w' => w = w'
  | e :: es, w, w' => (e.sem I (e.instr.inpt.map val) w).1 = e.instr.outpt.map val ∧
      DescE val es (e.sem I (e.instr.inpt.map val) w).2 w'

/-- The entry is a constant, or comes from the `m`-th instruction of the block and means the same. -/
def FromBlock (instrs : List Ins) (fin val : String → V) (positions : List (Nat × String)) (e : Entry) : Option Nat → Prop
  | none => ∃ k, e.value = some (.num k)
  | some m => ∃ i, instrs[m]? = some i ∧ positions.lookup m = some e.instr.id ∧
      (∀ w, e.sem I (e.instr.inpt.map val) w = I.ins i fin w) ∧ (IsEffect e.instr → i.Effect)

/-- The flags of an entry. -/
structure Flags (e : Entry) : Prop where
  comm : e.instr.commutative = true → (∀ k, e.value ≠ some (.num k)) ∧
    e.instr.disasm ∈ ["ADD", "MUL", "EQ", "AND", "OR", "XOR"]
  quiet : ¬ IsEffect e.instr → ∀ args w, (e.sem I args w).2 = w

/-- The names of the state are older than the next generated one. -/
def Older (n : Nat) (x : String) : Prop := ∀ j : Nat, x = "s" ++ toString j → j < n

/-- The tags pushed by the block. -/
def IsTag (instrs : List Ins) (o : String) : Prop := ∃ i ∈ instrs, i.name = "PUSH [TAG]" ∧ o ∈ i.outArgs

/-- The invariant. `P` is a property of all output names. -/
structure Inv (instrs : List Ins) (fin : String → V) (w0 : σ) (P : String → Prop) (val : String → V) (n : Nat) (w : σ)
    (st : St) : Prop where
  base : ∀ x, ¬ Generated x → val x = I.read fin x
  desc : DescE I val st.entries w0 w
  orig : ∃ orig : List (Option Nat), List.Forall₂ (FromBlock I instrs fin val st.positions) st.entries orig ∧
    (orig.filterMap id).Pairwise (· < ·) ∧ ∀ m ∈ orig.filterMap id, m < n
  pushTab : ∀ c p, st.table.lookup ("PUSH", [c]) = some p →
    ∃ e o, st.entries[p]? = some e ∧ e.instr.outpt = [o] ∧ val o = I.num (constNumber c) ∧ ¬ IsTag instrs o
  insTab : ∀ i ∈ instrs, pushLike i.op = true → ∀ k p, i.key = some k → st.table.lookup k = some p →
    ∃ e o, st.entries[p]? = some e ∧ e.instr.outpt = [o] ∧ (∀ w, I.ins i fin w = ([val o], w)) ∧ ¬ IsTag instrs o
  aliasOk : ∀ xy ∈ st.aliases, val xy.1 = val xy.2
  names : ∀ e ∈ st.entries, ∀ x ∈ e.instr.inpt ++ e.instr.outpt, Older st.outIdx x
  aliasNames : ∀ xy ∈ st.aliases, Older st.outIdx xy.1 ∧ Older st.outIdx xy.2
  ids : ∀ e ∈ st.entries, ∃ name k, e.instr.id = name ++ "_" ++ toString k ∧ k < st.idx name ∧ PlainName name
  nodup : (st.entries.map (·.instr.id)).Nodup
  flags : ∀ e ∈ st.entries, Flags I e
  outs : ∀ e ∈ st.entries, ∀ o ∈ e.instr.outpt, P o
  tagOuts : ∀ e ∈ st.entries, e.instr.disasm = "PUSH [TAG]" → ∀ o ∈ e.instr.outpt, IsTag instrs o
  aliasTag : ∀ xy ∈ st.aliases, ¬ IsTag instrs xy.1

variable {I}
variable {instrs : List Ins} {fin : String → V} {w0 : σ} {P : String → Prop} {val : String → V} {n : Nat} {w : σ} {st : St}

theorem DescE.append {l l' : List Entry} {a b c : σ} (h : DescE I val l a b) (h' : DescE I val l' b c) :
    DescE I val (l ++ l') a c := by
  induction l generalizing a with
  | nil => simp only [DescE] at h; subst h; exact h'
  | cons e l ih => exact ⟨h.1, ih h.2⟩

/-- The description only depends on the values of the names. -/
theorem DescE.congr {val' : String → V} {l l' : List Entry} {a b : σ}
    (h : List.Forall₂ (fun e e' => e'.value = e.value ∧ e'.instr.disasm = e.instr.disasm ∧
      e'.instr.inpt.map val' = e.instr.inpt.map val ∧ e'.instr.outpt.map val' = e.instr.outpt.map val ∧
      (e.instr.disasm = "PUSH [TAG]" → e'.instr.outpt = e.instr.outpt)) l l')
    (hd : DescE I val l a b) : DescE I val' l' a b := by
  induction h generalizing a with
  | nil => exact hd
  | @cons e e' l l' he _ ih =>
    obtain ⟨h1, h2, h3, h4, h5⟩ := he
    have hs : e'.sem I (e'.instr.inpt.map val') = e.sem I (e.instr.inpt.map val) := by
      funext w; unfold Entry.sem; rw [h1, h2, h3]
      by_cases ht : e.instr.disasm = "PUSH [TAG]"
      · rw [h5 ht]
      · rw [if_neg ht, if_neg ht]
    exact ⟨by rw [hs, h4]; exact hd.1, by rw [hs]; exact ih hd.2⟩

theorem forall₂_self {A : Type} {R : A → A → Prop} {l : List A} (h : ∀ x ∈ l, R x x) : List.Forall₂ R l l := by
  induction l with
  | nil => exact .nil
  | cons a l ih => exact .cons (h a (by simp)) (ih fun x hx => h x (by simp [hx]))

theorem sem_congr {val' : String → V} {e : Entry} (h : ∀ x ∈ e.instr.inpt, val' x = val x) :
    e.sem I (e.instr.inpt.map val') = e.sem (σ := σ) I (e.instr.inpt.map val) := by
  rw [List.map_congr_left h]

theorem older_ne {k : Nat} {x : String} (h : Older k x) : x ≠ "s" ++ toString k := fun e => absurd (h k e) (by omega)

theorem Older.mono {a b : Nat} {x : String} (h : Older a x) (hab : a ≤ b) : Older b x := fun j e => by
  have := h j e; omega

/-- Changing the value of the next generated name does not matter. -/
theorem Inv.reval (h : Inv I instrs fin w0 P val n w st) {val' : String → V}
    (hv : ∀ x, x ≠ "s" ++ toString st.outIdx → val' x = val x) : Inv I instrs fin w0 P val' n w st := by
  have hold : ∀ x, Older st.outIdx x → val' x = val x := fun x hx => hv x (older_ne hx)
  have hin : ∀ e ∈ st.entries, ∀ x ∈ e.instr.inpt, val' x = val x :=
    fun e he x hx => hold x (h.names e he x (by simp [hx]))
  have hout : ∀ e ∈ st.entries, ∀ x ∈ e.instr.outpt, val' x = val x :=
    fun e he x hx => hold x (h.names e he x (by simp [hx]))
  refine { base := ?_, desc := ?_, orig := ?_, pushTab := ?_, insTab := ?_, aliasOk := ?_, names := h.names,
           aliasNames := h.aliasNames, ids := h.ids, nodup := h.nodup, flags := h.flags, outs := h.outs,
           tagOuts := h.tagOuts, aliasTag := h.aliasTag }
  · intro x hx
    rw [hv x (fun e => hx ⟨_, e⟩)]
    exact h.base x hx
  · refine DescE.congr (forall₂_self ?_) h.desc
    intro e he
    exact ⟨rfl, rfl, List.map_congr_left (hin e he), List.map_congr_left (hout e he), fun _ => rfl⟩
  · obtain ⟨orig, h1, h2, h3⟩ := h.orig
    refine ⟨orig, ?_, h2, h3⟩
    have : ∀ (l : List Entry) (o : List (Option Nat)), (∀ e ∈ l, e ∈ st.entries) →
        List.Forall₂ (FromBlock I instrs fin val st.positions) l o →
        List.Forall₂ (FromBlock I instrs fin val' st.positions) l o := by
      intro l o hl hf
      induction hf with
      | nil => exact .nil
      | @cons e o l os hf _ ih =>
        refine .cons ?_ (ih fun x hx => hl x (by simp [hx]))
        cases o with
        | none => exact hf
        | some m =>
          obtain ⟨i, a, b, c, d⟩ := hf
          exact ⟨i, a, b, fun w => by rw [sem_congr (hin e (hl e (by simp)))]; exact c w, d⟩
    exact this _ _ (fun e he => he) h1
  · intro c p hp
    obtain ⟨e, o, h1, h2, h3⟩ := h.pushTab c p hp
    exact ⟨e, o, h1, h2, by rw [hout e (List.mem_of_getElem? h1) o (by rw [h2]; simp)]; exact h3.1, h3.2⟩
  · intro i hi hpl k p hk hp
    obtain ⟨e, o, h1, h2, h3⟩ := h.insTab i hi hpl k p hk hp
    exact ⟨e, o, h1, h2, fun w => by rw [hout e (List.mem_of_getElem? h1) o (by rw [h2]; simp)]; exact h3.1 w, h3.2⟩
  · intro xy hxy
    obtain ⟨h1, h2⟩ := h.aliasNames xy hxy
    rw [hold _ h1, hold _ h2]
    exact h.aliasOk xy hxy

theorem lookup_cons_eq {A B : Type} [BEq A] [LawfulBEq A] (a : A) (b : B) (l : List (A × B)) (k : A) [Decidable (k = a)] :
    ((a, b) :: l).lookup k = if k = a then some b else l.lookup k := by
  rw [List.lookup_cons]
  by_cases h : k = a
  · simp [h]
  · rw [if_neg h]
    have : (k == a) = false := by simpa using h
    rw [this]

theorem idx_add (key : String × List String) (name : String) (e : Entry) (m : String) :
    (st.add key name e).idx m = if m = name then st.idx name + 1 else st.idx m := by
  unfold St.idx St.add
  simp only
  rw [lookup_cons_eq]
  split <;> rfl

/-- Adding an entry. -/
theorem Inv.add (h : Inv I instrs fin w0 P val n w st) (key : String × List String) (name : String) (e : Entry)
    (ps : List (Nat × String)) (o : Option Nat) (n' : Nat) (hn : n ≤ n')
    (hps : ∀ m < n, ps.lookup m = st.positions.lookup m)
    (hout : (e.sem I (e.instr.inpt.map val) w).1 = e.instr.outpt.map val)
    (hfrom : FromBlock I instrs fin val ps e o) (ho : ∀ m, o = some m → n ≤ m ∧ m < n')
    (hpush : ∀ c, key = ("PUSH", [c]) → ∃ x, e.instr.outpt = [x] ∧ val x = I.num (constNumber c) ∧ ¬ IsTag instrs x)
    (hins : ∀ i ∈ instrs, pushLike i.op = true → i.key = some key →
      ∃ x, e.instr.outpt = [x] ∧ (∀ w, I.ins i fin w = ([val x], w)) ∧ ¬ IsTag instrs x)
    (hnames : ∀ x ∈ e.instr.inpt ++ e.instr.outpt, Older st.outIdx x)
    (hid : e.instr.id = name ++ "_" ++ toString (st.idx name)) (hplain : PlainName name) (hflags : Flags I e)
    (houts : ∀ x ∈ e.instr.outpt, P x)
    (htag : e.instr.disasm = "PUSH [TAG]" → ∀ x ∈ e.instr.outpt, IsTag instrs x) :
    Inv I instrs fin w0 P val n' (e.sem I (e.instr.inpt.map val) w).2 { st.add key name e with positions := ps } := by
  have hidx : ∀ m, st.idx m ≤ (st.add key name e).idx m := by
    intro m; rw [idx_add]; split
    · rename_i hm; rw [hm]; omega
    · exact Nat.le_refl _
  refine { base := h.base, desc := ?_, orig := ?_, pushTab := ?_, insTab := ?_, aliasOk := h.aliasOk, names := ?_,
           aliasNames := h.aliasNames, ids := ?_, nodup := ?_, flags := ?_, outs := ?_, tagOuts := ?_,
           aliasTag := h.aliasTag }
  · exact h.desc.append ⟨hout, rfl⟩
  · obtain ⟨orig, h1, h2, h3⟩ := h.orig
    have h1' : List.Forall₂ (FromBlock I instrs fin val ps) st.entries orig := by
      have : ∀ (l : List Entry) (os : List (Option Nat)), (∀ m ∈ os.filterMap id, m < n) →
          List.Forall₂ (FromBlock I instrs fin val st.positions) l os → List.Forall₂ (FromBlock I instrs fin val ps) l os := by
        intro l os hlt hf
        induction hf with
        | nil => exact .nil
        | @cons e o l os hf _ ih =>
          cases o with
          | none => exact .cons hf (ih (by simpa using hlt))
          | some m =>
            simp only [List.filterMap_cons, id, List.mem_cons, forall_eq_or_imp] at hlt
            obtain ⟨i, a, b, c, d⟩ := hf
            exact .cons ⟨i, a, by rw [hps m hlt.1]; exact b, c, d⟩ (ih hlt.2)
      exact this _ _ h3 h1
    refine ⟨orig ++ [o], ?_, ?_, ?_⟩
    · exact List.rel_append h1' (.cons hfrom .nil)
    · rw [List.filterMap_append, List.pairwise_append]
      refine ⟨h2, ?_, ?_⟩
      · cases o <;> simp
      · intro a ha b hb
        cases o with
        | none => simp at hb
        | some m =>
          simp at hb; subst hb
          exact Nat.lt_of_lt_of_le (h3 a ha) (ho b rfl).1
    · intro m hm
      rw [List.filterMap_append, List.mem_append] at hm
      rcases hm with hm | hm
      · exact Nat.lt_of_lt_of_le (h3 m hm) hn
      · cases o with
        | none => simp at hm
        | some k => simp at hm; subst hm; exact (ho m rfl).2
  · intro c p hp
    simp only [St.add] at hp ⊢
    rw [lookup_cons_eq] at hp
    split at hp
    · rename_i hk
      obtain ⟨x, hx, hv⟩ := hpush c hk.symm
      simp only [Option.some.injEq] at hp; subst hp
      exact ⟨e, x, by simp, hx, hv⟩
    · obtain ⟨e', x, h1, h2, h3⟩ := h.pushTab c p hp
      have hlt := (List.getElem?_eq_some_iff.1 h1).1
      exact ⟨e', x, by rw [List.getElem?_append_left hlt]; exact h1, h2, h3⟩
  · intro i hi hpl k p hk hp
    simp only [St.add] at hp ⊢
    rw [lookup_cons_eq] at hp
    split at hp
    · rename_i hkk
      obtain ⟨x, hx, hv⟩ := hins i hi hpl (by rw [← hkk]; exact hk)
      simp only [Option.some.injEq] at hp; subst hp
      exact ⟨e, x, by simp, hx, hv⟩
    · obtain ⟨e', x, h1, h2, h3⟩ := h.insTab i hi hpl k p hk hp
      have hlt := (List.getElem?_eq_some_iff.1 h1).1
      exact ⟨e', x, by rw [List.getElem?_append_left hlt]; exact h1, h2, h3⟩
  · intro e' he'
    simp only [St.add, List.mem_append, List.mem_singleton] at he'
    rcases he' with he' | rfl
    · exact h.names e' he'
    · exact hnames
  · intro e' he'
    simp only [St.add, List.mem_append, List.mem_singleton] at he'
    rcases he' with he' | rfl
    · obtain ⟨nm, k, a, b, c⟩ := h.ids e' he'
      exact ⟨nm, k, a, Nat.lt_of_lt_of_le b (hidx nm), c⟩
    · refine ⟨name, _, hid, ?_, hplain⟩
      show _ < (st.add key name e').idx name
      rw [idx_add, if_pos rfl]; omega
  · simp only [St.add, List.map_append, List.map_cons, List.map_nil]
    rw [List.nodup_append]
    refine ⟨h.nodup, by simp, ?_⟩
    intro a ha b hb hab
    simp only [List.mem_singleton] at hb
    obtain ⟨e', he', rfl⟩ := List.mem_map.1 ha
    obtain ⟨nm, k, h1, h2, _⟩ := h.ids e' he'
    rw [h1, hb, hid] at hab
    obtain ⟨h3, h4⟩ := id_inj hab
    rw [h3, h4] at h2
    exact absurd h2 (by omega)
  · intro e' he'
    simp only [St.add, List.mem_append, List.mem_singleton] at he'
    rcases he' with he' | rfl
    · exact h.flags e' he'
    · exact hflags
  · intro e' he'
    simp only [St.add, List.mem_append, List.mem_singleton] at he'
    rcases he' with he' | rfl
    · exact h.outs e' he'
    · exact houts
  · intro e' he'
    simp only [St.add, List.mem_append, List.mem_singleton] at he'
    rcases he' with he' | rfl
    · exact h.tagOuts e' he'
    · exact htag

end invariant

end Grey.Sfs
