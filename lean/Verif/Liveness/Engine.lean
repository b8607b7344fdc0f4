/-
Helper lemmas on the worklist engine: invariants, precision and the termination measure.
-/
import Verif.Liveness.Lemmas
import Mathlib.Logic.Relation
import Mathlib.Tactic.ByContra
namespace Grey.Liveness

theorem leq_iff (a b : List String) : leq a b = true ↔ ∀ x ∈ a, x ∈ b := by simp [leq]

theorem mem_transfer (i : Info) (out : List String) (x : String) :
    x ∈ transfer i out ↔ (x ∈ i.upward ∨ x ∈ i.phiDefs) ∨ (x ∈ out ∧ x ∉ i.defs) := by
  simp [transfer, or_assoc]

theorem mem_propagate (i : Info) (out cur : List String) (x : String) :
    x ∈ propagate i out cur ↔ x ∈ out ∨ x ∈ i.phiUses ∨ (x ∈ cur ∧ x ∉ i.predPhiDefs) := by
  simp [propagate]

/-- What a step keeps and adds. -/
structure Ext (st st' : St) : Prop where
  grow : ∀ b o i, st.info b = some (o, i) → ∃ o', st'.info b = some (o', i) ∧ ∀ x ∈ o, x ∈ o'
  pend : ∀ b ∈ st.pending, b ∈ st'.pending
  changed : ∀ b, st'.info b ≠ st.info b → b ∈ st'.pending
  fresh : ∀ b o i, st.info b = none → st'.info b = some (o, i) → i = none
  newPend : ∀ b ∈ st'.pending, b ∈ st.pending ∨ (st'.info b).isSome

theorem Ext.refl (st : St) : Ext st st :=
  ⟨fun b o i h => ⟨o, h, fun _ h => h⟩, fun _ h => h, fun _ h => absurd rfl h, fun b o i h h' => by rw [h] at h'; simp at h',
   fun _ h => Or.inl h⟩

theorem Ext.some {st st' : St} (h : Ext st st') {b : String} (hb : (st.info b).isSome) : (st'.info b).isSome := by
  obtain ⟨⟨o, i⟩, hx⟩ := Option.isSome_iff_exists.1 hb
  obtain ⟨o', h', _⟩ := h.grow b o i hx
  simp [h']

theorem Ext.trans {a b c : St} (h : Ext a b) (h' : Ext b c) : Ext a c := by
  refine ⟨?_, fun x hx => h'.pend x (h.pend x hx), ?_, ?_, ?_⟩
  · intro x o i hx
    obtain ⟨o1, h1, s1⟩ := h.grow x o i hx
    obtain ⟨o2, h2, s2⟩ := h'.grow x o1 i h1
    exact ⟨o2, h2, fun y hy => s2 y (s1 y hy)⟩
  · intro x hx
    by_cases hbc : c.info x = b.info x
    · exact h'.pend x (h.changed x (by rw [← hbc]; exact hx))
    · exact h'.changed x hbc
  · intro x o i hx hc
    cases hb : b.info x with
    | none => exact h'.fresh x o i hb hc
    | some y =>
      obtain ⟨o1, i1⟩ := y
      have e1 := h.fresh x o1 i1 hx hb
      obtain ⟨o2, h2, _⟩ := h'.grow x o1 i1 hb
      rw [hc] at h2
      simp only [Option.some.injEq, Prod.mk.injEq] at h2
      rw [h2.2, e1]
  · intro x hx
    rcases h'.newPend x hx with h1 | h1
    · rcases h.newPend x h1 with h2 | h2
      · exact Or.inl h2
      · exact Or.inr (h'.some h2)
    · exact Or.inr h1

theorem jumpStep_ext (V : String → Info) (cur : List String) (st : St) (p : String) :
    Ext st (jumpStep V cur st p) ∧
    (∃ o i, (jumpStep V cur st p).info p = some (o, i) ∧ ∀ x ∈ cur, x ∉ (V p).predPhiDefs → x ∈ o) := by
  unfold jumpStep
  cases hp : st.info p with
  | none =>
    simp only
    refine ⟨⟨?_, ?_, ?_, ?_, ?_⟩, ?_⟩
    · intro b o i hb
      have : b ≠ p := by rintro rfl; rw [hp] at hb; simp at hb
      exact ⟨o, by simp [setInfo, this, hb], fun _ h => h⟩
    · intro b hb; simp [hb]
    · intro b hb
      simp only [setInfo] at hb
      by_cases h : b = p
      · simp [h]
      · simp [h] at hb
    · intro b o i hb hb'
      simp only [setInfo] at hb'
      by_cases h : b = p
      · simp [h] at hb'; exact hb'.2.symm
      · rw [if_neg h, hb] at hb'; simp at hb'
    · intro b hb
      rcases List.mem_cons.1 hb with rfl | h
      · right; simp [setInfo]
      · exact Or.inl h
    · refine ⟨propagate (V p) [] cur, none, by simp [setInfo], ?_⟩
      intro x hx hn; rw [mem_propagate]; exact Or.inr (Or.inr ⟨hx, hn⟩)
  | some y =>
    obtain ⟨out, inn⟩ := y
    simp only
    by_cases hl : leq cur out = true
    · simp only [hl, Bool.not_true, Bool.false_eq_true, if_false]
      exact ⟨Ext.refl st, out, inn, hp, fun x hx _ => (leq_iff _ _).1 hl x hx⟩
    · have hl' : (!leq cur out) = true := by simpa using hl
      rw [if_pos hl']
      refine ⟨⟨?_, ?_, ?_, ?_, ?_⟩, ?_⟩
      · intro b o i hb
        by_cases h : b = p
        · subst h
          rw [hp] at hb
          simp only [Option.some.injEq, Prod.mk.injEq] at hb
          obtain ⟨rfl, rfl⟩ := hb
          exact ⟨propagate (V b) out cur, by simp [setInfo], fun x hx => by rw [mem_propagate]; exact Or.inl hx⟩
        · exact ⟨o, by simp [setInfo, h, hb], fun _ h => h⟩
      · intro b hb; simp [hb]
      · intro b hb
        simp only [setInfo] at hb
        by_cases h : b = p
        · simp [h]
        · simp [h] at hb
      · intro b o i hb hb'
        simp only [setInfo] at hb'
        by_cases h : b = p
        · rw [h, hp] at hb; simp at hb
        · rw [if_neg h, hb] at hb'; simp at hb'
      · intro b hb
        rcases List.mem_cons.1 hb with rfl | h
        · right; simp [setInfo]
        · exact Or.inl h
      · refine ⟨propagate (V p) out cur, inn, by simp [setInfo], ?_⟩
        intro x hx hn; rw [mem_propagate]; exact Or.inr (Or.inr ⟨hx, hn⟩)

theorem jumps_ext (V : String → Info) (cur : List String) (ps : List String) (st : St) :
    Ext st (ps.foldl (jumpStep V cur) st) ∧
    ∀ p ∈ ps, ∃ o i, (ps.foldl (jumpStep V cur) st).info p = some (o, i) ∧
      ∀ x ∈ cur, x ∉ (V p).predPhiDefs → x ∈ o := by
  induction ps generalizing st with
  | nil => exact ⟨Ext.refl st, by simp⟩
  | cons p ps ih =>
    obtain ⟨h1, o, i, h2, h3⟩ := jumpStep_ext V cur st p
    obtain ⟨h4, h5⟩ := ih (jumpStep V cur st p)
    refine ⟨h1.trans h4, ?_⟩
    intro q hq
    rcases List.mem_cons.1 hq with rfl | hq
    · obtain ⟨o', h6, h7⟩ := h4.grow _ _ _ h2
      exact ⟨o', i, h6, fun x hx hn => h7 x (h3 x hx hn)⟩
    · exact h5 q hq

/-- The engine's invariant. -/
structure Inv (V : String → Info) (initial : List String) (st : St) : Prop where
  pend : ∀ b ∈ st.pending, (st.info b).isSome
  done : ∀ b o i, st.info b = some (o, i) → b ∉ st.pending → i = some (transfer (V b) o)
  flow : ∀ b o inn, st.info b = some (o, some inn) → ∀ p ∈ (V b).comesFrom, ∃ o' i', st.info p = some (o', i') ∧
    ∀ x ∈ inn, x ∉ (V p).predPhiDefs → x ∈ o'
  init : ∀ b ∈ initial, (st.info b).isSome

theorem inv_start (V : String → Info) (initial : List String) : Inv V initial (start initial) := by
  refine ⟨?_, ?_, ?_, ?_⟩
  · intro b hb
    simp only [start, List.mem_reverse] at hb ⊢
    simp [hb]
  · intro b o i hb hn
    simp only [start, List.mem_reverse] at hb hn
    simp [hn] at hb
  · intro b o inn hb
    simp only [start] at hb
    split at hb <;> simp at hb
  · intro b hb; simp [start, hb]

/-- The state on which the jumps of block `b` are processed. -/
def mid (V : String → Info) (b : String) (out : List String) (st : St) : St :=
  ⟨setInfo st.info b (out, some (transfer (V b) out)), st.pending⟩

theorem iterate_eq {V : String → Info} {b : String} {st : St} {out inn} (h : st.info b = some (out, inn)) :
    iterate V b st = some ((V b).comesFrom.foldl (jumpStep V (transfer (V b) out)) (mid V b out st)) := by
  simp [iterate, h, mid]

theorem inv_iterate {V : String → Info} {initial : List String} {b : String} {rest : List String} {info}
    {st' : St} (hI : Inv V initial ⟨info, b :: rest⟩) (h : iterate V b ⟨info, rest⟩ = some st') : Inv V initial st' := by
  obtain ⟨⟨out, inn⟩, hb⟩ := Option.isSome_iff_exists.1 (hI.pend b (by simp))
  have hb' : (⟨info, rest⟩ : St).info b = some (out, inn) := hb
  rw [iterate_eq hb'] at h
  simp only [Option.some.injEq] at h
  subst h
  obtain ⟨hE, hP⟩ := jumps_ext V (transfer (V b) out) (V b).comesFrom (mid V b out ⟨info, rest⟩)
  have hm : ∀ c, (mid V b out ⟨info, rest⟩).info c = if c = b then some (out, some (transfer (V b) out)) else info c :=
    fun c => rfl
  refine ⟨?_, ?_, ?_, ?_⟩
  · intro c hc
    rcases hE.newPend c hc with h | h
    · refine hE.some ?_
      rw [hm]
      by_cases hcb : c = b
      · simp [hcb]
      · simp only [hcb, if_false]; exact hI.pend c (by simp only [mid] at h; simp [h])
    · exact h
  · intro c o i hc hn
    have heq : ((V b).comesFrom.foldl (jumpStep V (transfer (V b) out)) (mid V b out ⟨info, rest⟩)).info c =
        (mid V b out ⟨info, rest⟩).info c := by
      by_contra hne; exact hn (hE.changed c hne)
    rw [heq, hm] at hc
    by_cases hcb : c = b
    · subst hcb
      simp only [if_true, Option.some.injEq, Prod.mk.injEq] at hc
      rw [← hc.1, hc.2]
    · simp only [hcb, if_false] at hc
      refine hI.done c o i hc ?_
      simp only [List.mem_cons, not_or]
      exact ⟨hcb, fun h => hn (hE.pend c h)⟩
  · intro c o cin hc p hp
    have hold : ∃ o0, (mid V b out ⟨info, rest⟩).info c = some (o0, some cin) := by
      cases hmc : (mid V b out ⟨info, rest⟩).info c with
      | none => have := hE.fresh c o (some cin) hmc hc; simp at this
      | some y =>
        obtain ⟨o0, i0⟩ := y
        obtain ⟨o1, h1, _⟩ := hE.grow c o0 i0 hmc
        rw [hc] at h1
        simp only [Option.some.injEq, Prod.mk.injEq] at h1
        exact ⟨o0, by rw [← h1.2]⟩
    obtain ⟨o0, hold⟩ := hold
    rw [hm] at hold
    by_cases hcb : c = b
    · subst hcb
      simp only [if_true, Option.some.injEq, Prod.mk.injEq] at hold
      obtain ⟨o', i', h1, h2⟩ := hP p hp
      exact ⟨o', i', h1, fun x hx hn => h2 x (by rw [hold.2]; exact hx) hn⟩
    · simp only [hcb, if_false] at hold
      obtain ⟨o', i', h1, h2⟩ := hI.flow c o0 cin hold p hp
      have h1m : ∃ i'', (mid V b out ⟨info, rest⟩).info p = some (o', i'') := by
        rw [hm]
        by_cases hpb : p = b
        · subst hpb
          have : info p = some (o', i') := h1
          rw [show info p = some (out, inn) from hb] at this
          simp only [Option.some.injEq, Prod.mk.injEq] at this
          exact ⟨some (transfer (V p) out), by simp [this.1]⟩
        · simp only [hpb, if_false]; exact ⟨i', h1⟩
      obtain ⟨i'', h1m⟩ := h1m
      obtain ⟨o2, h3, h4⟩ := hE.grow p o' i'' h1m
      exact ⟨o2, i'', h3, fun x hx hn => h4 x (h2 x hx hn)⟩
  · intro c hc
    refine hE.some ?_
    rw [hm]
    by_cases hcb : c = b
    · simp [hcb]
    · simp only [hcb, if_false]; exact hI.init c hc

/-- Invariants of single iterations hold when the engine stops. -/
theorem analyze_inv {V : String → Info} {I : St → Prop}
    (hstep : ∀ b rest info st', I ⟨info, b :: rest⟩ → iterate V b ⟨info, rest⟩ = some st' → I st') :
    ∀ (f : Nat) (st st' : St), I st → analyze V f st = some st' → I st' ∧ st'.pending = [] := by
  intro f
  induction f with
  | zero =>
    intro st st' hI h
    unfold analyze at h
    split at h
    · next he => simp only [Option.some.injEq] at h; subst h; exact ⟨hI, he⟩
    · simp at h
  | succ f ih =>
    intro st st' hI h
    unfold analyze at h
    obtain ⟨info, pending⟩ := st
    cases pending with
    | nil => simp only [Option.some.injEq] at h; subst h; exact ⟨hI, rfl⟩
    | cons b rest =>
      simp only [Option.bind_eq_some_iff] at h
      obtain ⟨st1, h1, h2⟩ := h
      exact ih st1 st' (hstep b rest info st1 hI h1) h2

/-! ### Invariants on the sets -/

/-- Invariants on the sets of each block, checked on the operations of the engine. -/
theorem sets_iterate {V : String → Info} {O I : String → List String → Prop}
    (hT : ∀ b out, O b out → I b (transfer (V b) out))
    (hPnew : ∀ b inn p, p ∈ (V b).comesFrom → I b inn → O p (propagate (V p) [] inn))
    (hP : ∀ b inn p out, p ∈ (V b).comesFrom → I b inn → O p out → O p (propagate (V p) out inn))
    {b : String} {rest : List String} {info} {st' : St}
    (hI : ∀ c o i, info c = some (o, i) → O c o ∧ ∀ l, i = some l → I c l)
    (h : iterate V b ⟨info, rest⟩ = some st') :
    ∀ c o i, st'.info c = some (o, i) → O c o ∧ ∀ l, i = some l → I c l := by
  unfold iterate at h
  simp only [Option.map_eq_some_iff] at h
  obtain ⟨⟨out, inn⟩, hb, rfl⟩ := h
  have hO := (hI b out inn hb).1
  have hin := hT b out hO
  have key : ∀ (ps : List String) (st : St), (∀ p ∈ ps, p ∈ (V b).comesFrom) →
      (∀ c o i, st.info c = some (o, i) → O c o ∧ ∀ l, i = some l → I c l) →
      ∀ c o i, (ps.foldl (jumpStep V (transfer (V b) out)) st).info c = some (o, i) → O c o ∧ ∀ l, i = some l → I c l := by
    intro ps
    induction ps with
    | nil => intro st _ hst; exact hst
    | cons p ps ih =>
      intro st hps hst
      rw [List.foldl_cons]
      refine ih _ (fun q hq => hps q (by simp [hq])) ?_
      intro c o i hc
      unfold jumpStep at hc
      cases hp : st.info p with
      | none =>
        rw [hp] at hc
        simp only [setInfo] at hc
        by_cases hcp : c = p
        · subst hcp
          simp only [if_true, Option.some.injEq, Prod.mk.injEq] at hc
          obtain ⟨rfl, rfl⟩ := hc
          exact ⟨hPnew b _ _ (hps _ (by simp)) hin, by simp⟩
        · simp only [hcp, if_false] at hc; exact hst c o i hc
      | some y =>
        obtain ⟨po, pi⟩ := y
        rw [hp] at hc
        simp only at hc
        by_cases hl : (!leq (transfer (V b) out) po) = true
        · rw [if_pos hl] at hc
          simp only [setInfo] at hc
          by_cases hcp : c = p
          · subst hcp
            simp only [if_true, Option.some.injEq, Prod.mk.injEq] at hc
            obtain ⟨rfl, rfl⟩ := hc
            obtain ⟨h1, h2⟩ := hst _ _ _ hp
            exact ⟨hP b _ _ _ (hps _ (by simp)) hin h1, h2⟩
          · simp only [hcp, if_false] at hc; exact hst c o i hc
        · rw [if_neg hl] at hc; exact hst c o i hc
  refine key _ _ (fun _ h => h) ?_
  intro c o i hc
  simp only [setInfo] at hc
  by_cases hcb : c = b
  · subst hcb
    simp only [if_true, Option.some.injEq, Prod.mk.injEq] at hc
    obtain ⟨rfl, rfl⟩ := hc
    exact ⟨hO, fun l hl => by simp only [Option.some.injEq] at hl; subst hl; exact hin⟩
  · simp only [hcb, if_false] at hc; exact hI c o i hc

/-- Sets that contain only live variables. -/
def Precise (cfg : String → Block) (info : String → Option (List String × Option (List String))) : Prop :=
  ∀ b o i, info b = some (o, i) → (∀ x ∈ o, Live cfg false b x) ∧
    ∀ l, i = some l → ∀ x ∈ l, Live cfg true b x ∨ PhiDef cfg b x

theorem precise_iterate {cfg : String → Block} (wf : WF cfg) {V : String → Info} (hV : ∀ b, InfoSpec cfg b (V b))
    {b : String} {rest : List String} {info} {st' : St} (hI : Precise cfg info)
    (h : iterate V b ⟨info, rest⟩ = some st') : Precise cfg st'.info := by
  have hprop : ∀ (b : String) (inn : List String) (p : String), p ∈ (V b).comesFrom → (∀ x ∈ inn, Live cfg true b x ∨ PhiDef cfg b x) →
      ∀ x ∈ inn, x ∉ (V p).predPhiDefs → Live cfg false p x := by
    intro b inn p hp hl x hx hn
    rw [(hV b).comesFrom] at hp
    have hs := (wf.edges p b).2 hp
    have hnp : ¬ PhiDef cfg b x := fun h => hn (((hV p).predPhiDefs x).2 ⟨b, hs, h⟩)
    exact .succ hs ((hl x hx).resolve_right hnp) hnp
  have huse : ∀ p x, x ∈ (V p).phiUses → Live cfg false p x := by
    intro p x hx
    obtain ⟨s, hs, h⟩ := ((hV p).phiUses x).1 hx
    exact .phi hs h
  refine sets_iterate (O := fun b o => ∀ x ∈ o, Live cfg false b x)
    (I := fun b l => ∀ x ∈ l, Live cfg true b x ∨ PhiDef cfg b x) ?_ ?_ ?_ hI h
  · intro b out hO x hx
    rw [mem_transfer, (hV b).upward] at hx
    rcases hx with (h | h) | ⟨h, hd⟩
    · exact Or.inl (.use h)
    · exact Or.inr h
    · exact Or.inl (.thru (hO x h) (fun h' => hd (((hV b).defs x).2 h')))
  · intro b inn p hp hin x hx
    rw [mem_propagate] at hx
    rcases hx with h | h | ⟨h, hn⟩
    · simp at h
    · exact huse p x h
    · exact hprop b inn p hp hin x h hn
  · intro b inn p out hp hin hO x hx
    rw [mem_propagate] at hx
    rcases hx with h | h | ⟨h, hn⟩
    · exact hO x h
    · exact huse p x h
    · exact hprop b inn p hp hin x h hn

/-- Blocks created after the start hold the phi arguments for their successors. -/
def HasPhiUses (V : String → Info) (initial : List String) (info : String → Option (List String × Option (List String))) :
    Prop :=
  ∀ b o i, info b = some (o, i) → b ∈ initial ∨ ∀ x ∈ (V b).phiUses, x ∈ o

theorem phiUses_iterate {V : String → Info} {initial : List String} {b : String} {rest : List String} {info} {st' : St}
    (hI : HasPhiUses V initial info) (h : iterate V b ⟨info, rest⟩ = some st') : HasPhiUses V initial st'.info := by
  have := sets_iterate (V := V) (O := fun b o => b ∈ initial ∨ ∀ x ∈ (V b).phiUses, x ∈ o) (I := fun _ _ => True)
    (by simp) (fun b inn p _ _ => Or.inr fun x hx => by rw [mem_propagate]; exact Or.inr (Or.inl hx))
    (fun b inn p out _ _ _ => Or.inr fun x hx => by rw [mem_propagate]; exact Or.inr (Or.inl hx))
    (fun c o i hc => ⟨hI c o i hc, by simp⟩) h
  exact fun c o i hc => (this c o i hc).1

/-- Analysed blocks have a path to a block the analysis started from. -/
def Backward (cfg : String → Block) (initial : List String)
    (info : String → Option (List String × Option (List String))) : Prop :=
  ∀ b o i, info b = some (o, i) → ∃ t ∈ initial, Relation.ReflTransGen (fun a c => c ∈ (cfg a).succs) b t

theorem backward_iterate {cfg : String → Block} (wf : WF cfg) {V : String → Info} (hV : ∀ b, InfoSpec cfg b (V b))
    {initial : List String} {b : String} {rest : List String} {info} {st' : St}
    (hI : Backward cfg initial info) (h : iterate V b ⟨info, rest⟩ = some st') : Backward cfg initial st'.info := by
  have hstep : ∀ b p, p ∈ (V b).comesFrom →
      (∃ t ∈ initial, Relation.ReflTransGen (fun a c => c ∈ (cfg a).succs) b t) →
      ∃ t ∈ initial, Relation.ReflTransGen (fun a c => c ∈ (cfg a).succs) p t := by
    rintro b p hp ⟨t, ht, hr⟩
    rw [(hV b).comesFrom] at hp
    exact ⟨t, ht, Relation.ReflTransGen.head ((wf.edges p b).2 hp) hr⟩
  have := sets_iterate (V := V)
    (O := fun b _ => ∃ t ∈ initial, Relation.ReflTransGen (fun a c => c ∈ (cfg a).succs) b t)
    (I := fun b _ => ∃ t ∈ initial, Relation.ReflTransGen (fun a c => c ∈ (cfg a).succs) b t)
    (fun b out h => h) (fun b inn p hp h => hstep b p hp h) (fun b inn p out hp h _ => hstep b p hp h)
    (fun c o i hc => ⟨hI c o i hc, fun _ _ => hI c o i hc⟩) h
  exact fun c o i hc => (this c o i hc).1

end Grey.Liveness
