/-
C81: introducing variables for constants does not change what a program does; the rule of the code introduces none.
-/
import Verif.Consts.Visit
namespace Grey.Consts
open List Grey.Cfg Grey.Repair

/-! ### Instructions of a changed block -/

theorem insertPushes_eq (push : String → String) (new : Dict) (P C : List Instr) (hP : ∀ i ∈ P, isPhi i = true)
    (hC : ∀ i ∈ C, isPhi i = false) :
    insertPushes push new (P ++ C) = P ++ (new.reverse.map fun p => ⟨push p.1, [], [p.2]⟩) ++ C := by
  have hk : ((P ++ C).filter isPhi).length = P.length := by
    rw [filter_append, filter_eq_self.2 hP, filter_eq_nil_iff.2 (fun i hi => by simp [hC i hi]), append_nil]
  unfold insertPushes
  rw [hk]
  clear hk
  have : ∀ (new : Dict) (X : List Instr),
      new.foldl (fun l p => insertAt P.length (⟨push p.1, [], [p.2]⟩ : Instr) l) (P ++ X) =
        P ++ (new.reverse.map fun p => (⟨push p.1, [], [p.2]⟩ : Instr)) ++ X := by
    intro new
    induction new with
    | nil => intro X; simp
    | cons p new ih =>
      intro X
      rw [foldl_cons]
      have : insertAt P.length (⟨push p.1, [], [p.2]⟩ : Instr) (P ++ X) = P ++ (⟨push p.1, [], [p.2]⟩ :: X) := by
        simp [insertAt]
      rw [this, ih]
      simp
  exact this new C

theorem look_nil (a : String) : look [] a = a := rfl

theorem replaceArgs_nil {entries : List String} {i : Instr} (h : i.op = "PhiFunction" → i.ins.length ≤ entries.length) :
    replaceArgs [] entries i = i := by
  unfold replaceArgs
  split
  · next hp =>
    have : (i.ins.zip entries).map (fun p => look [] p.1) = i.ins := by
      show (i.ins.zip entries).map Prod.fst = i.ins
      exact map_fst_zip (h hp)
    rw [this]
  · split
    · rfl
    · have : i.ins.map (look []) = i.ins := by
        show i.ins.map id = i.ins
        simp
      rw [this]

theorem edit_nil {push : String → String} {B : Block} (h : ∀ i ∈ B.instrs, i.op = "PhiFunction" → i.ins.length ≤ B.entries.length) :
    edit push [] [] B = B := by
  unfold edit
  have : (insertPushes push [] B.instrs).map (replaceArgs [] B.entries) = B.instrs := by
    show B.instrs.map (replaceArgs [] B.entries) = B.instrs
    conv => rhs; rw [← map_id B.instrs]
    exact map_congr_left fun i hi => replaceArgs_nil (h i hi)
  rw [this]

theorem replaceArgs_phi {D : Dict} {entries : List String} {i : Instr} : isPhi (replaceArgs D entries i) = isPhi i := by
  have : (replaceArgs D entries i).op = i.op := by
    unfold replaceArgs
    repeat' split
    all_goals rfl
  unfold isPhi
  rw [this]

/-! ### Executions -/

section
variable {V W : Type}

/-- Both executions go the same way. -/
inductive OutRel (R : Config V W → Config V W → Prop) (Q : St V W → St V W → Prop) :
    Out (Config V W) (St V W) → Out (Config V W) (St V W) → Prop where
  | goto {c c' : Config V W} : R c c' → OutRel R Q (.goto c) (.goto c')
  | halt {s s' : St V W} : Q s s' → OutRel R Q (.halt s) (.halt s')
  | stuck : OutRel R Q .stuck .stuck

theorem simulates {f f' : Config V W → Out (Config V W) (St V W)} {R : Config V W → Config V W → Prop} {Q : St V W → St V W → Prop}
    (h : ∀ c c', R c c' → OutRel R Q (f c) (f' c')) {c c' : Config V W} (hc : R c c') :
    (∀ s, Ends f c s → ∃ s', Ends f' c' s' ∧ Q s s') ∧ (∀ s', Ends f' c' s' → ∃ s, Ends f c s ∧ Q s s') ∧ (Wrong f c ↔ Wrong f' c') := by
  refine ⟨fun s he => ?_, fun s' he => ?_, fun hw => ?_, fun hw => ?_⟩
  · induction he generalizing c' with
    | now e =>
      have := h _ _ hc
      rw [e] at this
      generalize e' : f' c' = o' at this
      cases this with
      | halt q => exact ⟨_, .now e', q⟩
    | later e _ ih =>
      have := h _ _ hc
      rw [e] at this
      generalize e' : f' c' = o' at this
      cases this with
      | goto r =>
        obtain ⟨s', hs, q⟩ := ih r
        exact ⟨s', .later e' hs, q⟩
  · induction he generalizing c with
    | now e' =>
      have := h _ _ hc
      rw [e'] at this
      generalize e : f c = o at this
      cases this with
      | halt q => exact ⟨_, .now e, q⟩
    | later e' _ ih =>
      have := h _ _ hc
      rw [e'] at this
      generalize e : f c = o at this
      cases this with
      | goto r =>
        obtain ⟨s', hs, q⟩ := ih r
        exact ⟨s', .later e hs, q⟩
  · induction hw generalizing c' with
    | now e =>
      have := h _ _ hc
      rw [e] at this
      generalize e' : f' c' = o' at this
      cases this with
      | stuck => exact .now e'
    | later e _ ih =>
      have := h _ _ hc
      rw [e] at this
      generalize e' : f' c' = o' at this
      cases this with
      | goto r => exact .later e' (ih r)
  · induction hw generalizing c with
    | now e' =>
      have := h _ _ hc
      rw [e'] at this
      generalize e : f c = o at this
      cases this with
      | stuck => exact .now e
    | later e' _ ih =>
      have := h _ _ hc
      rw [e'] at this
      generalize e : f c = o at this
      cases this with
      | goto r => exact .later e (ih r)

/-- The variables of the program have the same values, the constants theirs (`v`), and the variables `H` those of the constants they
stand for (`T`). -/
structure Match (v : String → V) (T : String → String) (H : String → Prop) (e e' : String → V) : Prop where
  same : ∀ x, ¬ Numbered x → e' x = e x
  const : ∀ c, isConst c = true → e c = v c
  held : ∀ x, H x → e' x = v (T x)

theorem Match.assign {v : String → V} {T : String → String} {H : String → Prop} (hH : ∀ x, H x → Numbered x) :
    ∀ {l : List (String × V)} {e e' : String → V}, (∀ p ∈ l, ¬ Numbered p.1 ∧ isConst p.1 = false) → Match v T H e e' →
    Match v T H (Cfg.assign e l) (Cfg.assign e' l)
  | [], _, _, _, h => h
  | (a, u) :: l, e, e', hl, h => by
    unfold Cfg.assign
    obtain ⟨h1, h2⟩ := hl (a, u) (by simp)
    refine Match.assign hH (fun p hp => hl p (by simp [hp])) ⟨?_, ?_, ?_⟩
    · intro x hx
      split
      · rfl
      · exact h.same x hx
    · intro c hc
      rw [if_neg (by rintro rfl; simp [hc] at h2)]
      exact h.const c hc
    · intro x hx
      rw [if_neg (by rintro rfl; exact h1 (hH x hx))]
      exact h.held x hx

theorem zip_fst_mem {α β : Type} {l : List α} {m : List β} {p : α × β} (h : p ∈ l.zip m) : p.1 ∈ l := (of_mem_zip (a := p.1) (b := p.2) h).1

/-- An argument and what it is replaced by have the same value. -/
theorem look_value {v : String → V} {T : String → String} {H : String → Prop} {e e' : String → V} (hm : Match v T H e e') {D : Dict}
    (hD : ∀ p ∈ D, isConst p.1 = true ∧ T p.2 = p.1) {a : String} (ha : ¬ Numbered a) (hheld : ∀ x, (a, x) ∈ D → H x) :
    e' (look D a) = e a := by
  unfold look
  cases hl : D.lookup a with
  | none => exact hm.same a ha
  | some x =>
    obtain ⟨l1, l2, rfl, -⟩ := lookup_eq_some_iff.1 hl
    have hmem : (a, x) ∈ l1 ++ (a, x) :: l2 := by simp
    obtain ⟨h1, h2⟩ := hD _ hmem
    rw [Option.getD_some, hm.held x (hheld x hmem), h2, hm.const a h1]

/-- The operations of a block. -/
theorem code_match {sem : Sem V W} {v : String → V} {T : String → String} {H : String → Prop} (hH : ∀ x, H x → Numbered x) {D : Dict}
    (hD : ∀ p ∈ D, isConst p.1 = true ∧ T p.2 = p.1 ∧ H p.2) {entries : List String} :
    ∀ (C : List Instr) (e e' : String → V) (w : W), (∀ i ∈ C, isPhi i = false) → (∀ i ∈ C, ∀ x ∈ i.ins ++ i.outs, ¬ Numbered x) →
    (∀ i ∈ C, ∀ x ∈ i.outs, isConst x = false) → Match v T H e e' →
    (∃ f f' w', execAll sem C ⟨e, w⟩ = .next ⟨f, w'⟩ ∧ execAll sem (C.map (replaceArgs D entries)) ⟨e', w⟩ = .next ⟨f', w'⟩ ∧ Match v T H f f') ∨
    (∃ f f' w', execAll sem C ⟨e, w⟩ = .stop ⟨f, w'⟩ ∧ execAll sem (C.map (replaceArgs D entries)) ⟨e', w⟩ = .stop ⟨f', w'⟩ ∧ Match v T H f f') := by
  intro C
  induction C with
  | nil => intro e e' w _ _ _ hm; exact .inl ⟨e, e', w, rfl, rfl, hm⟩
  | cons i C ih =>
    intro e e' w hphi hnum hcon hm
    have hargs : (replaceArgs D entries i).ins.map e' = i.ins.map e := by
      have hp : i.op ≠ "PhiFunction" := by
        have := hphi i (by simp)
        unfold isPhi at this
        simpa using this
      have hin : ∀ a ∈ i.ins, ¬ Numbered a := fun a ha => hnum i (by simp) a (by simp [ha])
      unfold replaceArgs
      rw [if_neg hp]
      split
      · exact map_congr_left fun a ha => hm.same a (hin a ha)
      · dsimp only
        rw [map_map]
        exact map_congr_left fun a ha => look_value hm (fun p hp => ⟨(hD p hp).1, (hD p hp).2.1⟩) (hin a ha) (fun x hx => (hD _ hx).2.2)
    have hop : (replaceArgs D entries i).op = i.op ∧ (replaceArgs D entries i).outs = i.outs := by
      unfold replaceArgs
      repeat' split
      all_goals exact ⟨rfl, rfl⟩
    have hm' : Match v T H (Cfg.assign e (i.outs.zip (sem.op i.op (i.ins.map e) w).1)) (Cfg.assign e' (i.outs.zip (sem.op i.op (i.ins.map e) w).1)) :=
      hm.assign hH fun p hp => ⟨hnum i (by simp) _ (by simp [zip_fst_mem hp]), hcon i (by simp) _ (zip_fst_mem hp)⟩
    simp only [map_cons, execAll, execInstr, hargs, hop.1, hop.2]
    cases (sem.op i.op (i.ins.map e) w).2.2
    · exact .inr ⟨_, _, _, rfl, rfl, hm'⟩
    · exact ih _ _ _ (fun j hj => hphi j (by simp [hj])) (fun j hj => hnum j (by simp [hj])) (fun j hj => hcon j (by simp [hj])) hm'

/-- The pushes at the start of a block. -/
theorem pushes_match {sem : Sem V W} {push : String → String} {v : String → V} {T : String → String} (D : Dict) (entries : List String) :
    ∀ (new : Dict) (H : String → Prop) (e e' : String → V) (w : W), (∀ x, H x → Numbered x) →
    (∀ p ∈ new, Numbered p.2 ∧ T p.2 = p.1 ∧ sem.op (push p.1) [] w = ([v p.1], w, true)) → (∀ p ∈ new, push p.1 ≠ "PhiFunction") →
    Match v T H e e' →
    ∃ f', execAll sem ((new.map fun p => (⟨push p.1, [], [p.2]⟩ : Instr)).map (replaceArgs D entries)) ⟨e', w⟩ = .next ⟨f', w⟩ ∧
      Match v T (fun x => H x ∨ ∃ c, (c, x) ∈ new) e f' := by
  intro new
  induction new with
  | nil => intro H e e' w _ _ _ hm; exact ⟨e', rfl, ⟨hm.same, hm.const, fun x hx => hm.held x (by simpa using hx)⟩⟩
  | cons p new ih =>
    intro H e e' w hH hp hphi hm
    obtain ⟨h1, h2, h3⟩ := hp p (by simp)
    have hr : replaceArgs D entries ⟨push p.1, [], [p.2]⟩ = ⟨push p.1, [], [p.2]⟩ := by
      unfold replaceArgs
      rw [if_neg (hphi p (by simp))]
      split <;> rfl
    have hm' : Match v T (fun x => H x ∨ x = p.2) e (fun y => if y = p.2 then v p.1 else e' y) := by
      refine ⟨fun x hx => ?_, hm.const, fun x hx => ?_⟩
      · rw [if_neg (by rintro rfl; exact hx h1)]
        exact hm.same x hx
      · split
        · next e => rw [e, h2]
        · next e => exact hm.held x (hx.resolve_right e)
    obtain ⟨f', hf, hmf⟩ := ih (fun x => H x ∨ x = p.2) e _ w (fun x hx => hx.elim (hH x) (fun e => e ▸ h1))
      (fun q hq => hp q (by simp [hq])) (fun q hq => hphi q (by simp [hq])) hm'
    refine ⟨f', ?_, hmf.same, hmf.const, fun x hx => hmf.held x ?_⟩
    · simp only [map_cons, hr, execAll, execInstr, map_nil, h3, if_true]
      exact hf
    · rcases hx with hx | ⟨c, hx⟩
      · exact .inl (.inl hx)
      · rcases mem_cons.1 hx with hx | hx
        · exact .inl (.inr (by rw [← hx]))
        · exact .inr ⟨c, hx⟩

theorem execAll_append (sem : Sem V W) (l l' : List Instr) (s : St V W) :
    execAll sem (l ++ l') s = match execAll sem l s with | .next s' => execAll sem l' s' | .stop s' => .stop s' := by
  induction l generalizing s with
  | nil => rfl
  | cons i l ih =>
    simp only [cons_append, execAll]
    cases execInstr sem i s with
    | next s' => exact ih s'
    | stop s' => rfl

def phiPair (e : String → V) (k : Nat) (i : Instr) : Option (String × V) :=
  match i.outs, i.ins[k]? with
  | [x], some a => some (x, e a)
  | _, _ => none

theorem execPhis_eq (e : String → V) (k : Nat) (P : List Instr) : execPhis e k P = Cfg.assign e (P.filterMap (phiPair e k)) := rfl

/-- The phi functions of a block. -/
theorem phis_match {v : String → V} {T : String → String} {H : String → Prop} (hH : ∀ x, H x → Numbered x) {D : Dict}
    (hD : ∀ p ∈ D, isConst p.1 = true ∧ T p.2 = p.1) {entries : List String} {P : List Instr} {k : Nat} (hk : k < entries.length) {e e' : String → V}
    (hphi : ∀ i ∈ P, isPhi i = true) (hlen : ∀ i ∈ P, i.ins.length ≤ entries.length)
    (hnum : ∀ i ∈ P, ∀ x ∈ i.ins ++ i.outs, ¬ Numbered x) (hcon : ∀ i ∈ P, ∀ x ∈ i.outs, isConst x = false)
    (hheld : ∀ i ∈ P, ∀ a ∈ i.ins, ∀ x, (a, x) ∈ D → H x) (hm : Match v T H e e') :
    Match v T H (execPhis e k P) (execPhis e' k (P.map (replaceArgs D entries))) := by
  have key : (P.map (replaceArgs D entries)).filterMap (phiPair e' k) = P.filterMap (phiPair e k) := by
    rw [filterMap_map]
    refine filterMap_congr fun i hi => ?_
    have hp : i.op = "PhiFunction" := by
      have := hphi i hi
      unfold isPhi at this
      simpa using this
    have hins : (replaceArgs D entries i).ins[k]? = i.ins[k]?.map (look D) := by
      unfold replaceArgs
      rw [if_pos hp]
      dsimp only
      rw [getElem?_map, zip, getElem?_zipWith]
      cases hik : i.ins[k]? with
      | none => rfl
      | some a => rw [getElem?_eq_getElem hk]; rfl
    have houts : (replaceArgs D entries i).outs = i.outs := by
      unfold replaceArgs
      rw [if_pos hp]
    show phiPair e' k (replaceArgs D entries i) = phiPair e k i
    unfold phiPair
    rw [hins, houts]
    cases hik : i.ins[k]? with
    | none => rcases i.outs with _ | ⟨x, _ | ⟨y, l⟩⟩ <;> rfl
    | some a =>
      have ha : a ∈ i.ins := mem_of_getElem? hik
      have := look_value hm hD (hnum i hi a (by simp [ha])) (hheld i hi a ha)
      rcases i.outs with _ | ⟨x, _ | ⟨y, l⟩⟩
      · rfl
      · show some (x, e' (look D a)) = some (x, e a)
        rw [this]
      · rfl
  rw [execPhis_eq, execPhis_eq, key]
  refine hm.assign hH ?_
  intro p hp
  obtain ⟨i, hi, he⟩ := mem_filterMap.1 hp
  unfold phiPair at he
  split at he
  · next x a ho ha =>
    injection he with he
    subst he
    exact ⟨hnum i hi _ (by simp [ho]), hcon i hi _ (by simp [ho])⟩
  · cases he

end
end Grey.Consts
