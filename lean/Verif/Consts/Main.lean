/-
C81: introducing variables for constants does not change what a program does; the rule of the code introduces none.
-/
import Verif.Consts.Theorem
namespace Grey.Consts
open List Grey.Cfg Grey.Repair

theorem lookup_of_mem : ∀ {A : Dict} {x c : String}, (A.map Prod.fst).Nodup → (x, c) ∈ A → A.lookup x = some c := by
  intro A
  induction A with
  | nil => intro x c _ h; cases h
  | cons p A ih =>
    intro x c hnd h
    rw [map_cons, nodup_cons] at hnd
    rcases mem_cons.1 h with rfl | h'
    · simp [lookup]
    · have hne : x ≠ p.1 := by rintro rfl; exact hnd.1 (mem_map.2 ⟨_, h', rfl⟩)
      obtain ⟨q, r⟩ := p
      rw [lookup_cons, beq_false_of_ne hne]
      exact ih hnd.2 h'

/-- What the pass does, block by block. -/
theorem pass_done {rule : (String → Nat) → String → Bool} {order : List String → List String} {push : String → String} {t : DTree String}
    {G G' : BlockList} {A : Dict} {s : String} (hord : ∀ l, (order l).Perm l) (hfit : Fits G s t)
    (hpass : insertConstants rule order push t G = some (G', A)) :
    ∃ D new : String → Dict, (∀ b, G'.get b = (G.get b).map (edit push (D b) (new b))) ∧
      (∀ b, ∀ p ∈ D b, p ∈ new b ∨ ∃ a, Dominates G s a b ∧ p ∈ new a) ∧
      (∀ b, ∀ p ∈ new b, p ∈ D b ∧ Needed G b p.1 ∧ rule (usesOf G) p.1 = true ∧ (p.2, p.1) ∈ A) ∧
      A.map Prod.fst = (range A.length).map nameOf ∧ (∀ q ∈ A, ∃ b B, G.get b = some B ∧ (q.2, q.1) ∈ new b) := by
  obtain ⟨note, hnote, hw⟩ := Option.bind_eq_some_iff.1 hpass
  obtain ⟨⟨G1, n1, A1⟩, hv, he⟩ := Option.map_eq_some_iff.1 hw
  simp only [Prod.mk.injEq] at he
  obtain ⟨rfl, rfl⟩ := he
  obtain ⟨D, new, H⟩ := visit_done (fun l => (hord l).subset) t [] 0 G G1 n1 A1 hfit.tree.1 hv
  refine ⟨fun b => if b ∈ nodes t then D b else [], fun b => if b ∈ nodes t then new b else [], fun b => ?_, fun b p hp => ?_, fun b p hp => ?_, ?_, ?_⟩
  · dsimp only
    split
    · next hb => exact (H.get b hb).2
    · next hb =>
      rw [H.other b hb]
      cases hG : G.get b with
      | none => rfl
      | some B => rw [Option.map_some, edit_nil (hfit.phiArgs B (get_mem hG))]
  · dsimp only at hp ⊢
    split at hp
    · next hb =>
      rcases H.known b hb p hp with h | h | ⟨a, ha, hpa⟩
      · cases h
      · left; rw [if_pos hb]; exact h
      · exact .inr ⟨a, hfit.tree.2 a b ha, by rw [if_pos (above_mem ha).1]; exact hpa⟩
    · cases hp
  · dsimp only at hp ⊢
    split at hp
    · next hb =>
      obtain ⟨h1, h2, h3, h4⟩ := H.mine b hb p hp
      exact ⟨by rw [if_pos hb]; exact h1, (noted_iff hnote b p.1).1 h2, h3, h4⟩
    · cases hp
  · rw [H.names, range_eq_range']
  · intro q hq
    obtain ⟨b, hb, h⟩ := H.all q hq
    obtain ⟨B, hB⟩ := (H.get b hb).1
    exact ⟨b, B, hB, by dsimp only; rw [if_pos hb]; exact h⟩

theorem names_nodup {A : Dict} (h : A.map Prod.fst = (range A.length).map nameOf) : (A.map Prod.fst).Nodup := by
  rw [h]
  exact Nodup.map (fun m n e => Names.prefix_inj e) nodup_range

section
variable {V W : Type}

/-- C81: whatever rule decides which constants get a variable, the program behaves as before, provided that no constant gets its variable
in a block whose own phi functions use the constant. -/
theorem constants_keep_behaviour {rule : (String → Nat) → String → Bool} {order : List String → List String} {push : String → String}
    {t : DTree String} {G G' : BlockList} {A : Dict} {s : String} (hord : ∀ l, (order l).Perm l) (hfit : Fits G s t)
    (hphi : ∀ b B, G.get b = some B → ∀ i ∈ B.instrs, i.op = "PhiFunction" → ∀ a ∈ i.ins, Needed G b a → rule (usesOf G) a = false)
    (hpass : insertConstants rule order push t G = some (G', A)) (sem : Sem V W) (st : St V W)
    (hpush : ∀ c w, isConst c = true → sem.op (push c) [] w = ([st.env c], w, true)) (hop : ∀ c, push c ≠ "PhiFunction") :
    AgreeOnBehaviour (stepBlock sem G) (stepBlock sem G') (init s st) (init s st) := by
  obtain ⟨D, new, hget, hknown, hmine, hnames, -⟩ := pass_done hord hfit hpass
  have hnd := names_nodup hnames
  let T : String → String := fun x => (A.lookup x).getD x
  have hnew : ∀ b, ∀ p ∈ new b, isConst p.1 = true ∧ T p.2 = p.1 ∧ Numbered p.2 := by
    intro b p hp
    obtain ⟨-, h2, -, h4⟩ := hmine b p hp
    refine ⟨h2.1, ?_, ?_⟩
    · show (A.lookup p.2).getD p.2 = p.1
      rw [lookup_of_mem hnd h4, Option.getD_some]
    · have := mem_map_of_mem (f := Prod.fst) h4
      rw [hnames] at this
      obtain ⟨n, -, hn⟩ := mem_map.1 this
      exact ⟨n, hn.symm⟩
  have hDall : ∀ b, ∀ p ∈ D b, isConst p.1 = true ∧ T p.2 = p.1 := by
    intro b p hp
    rcases hknown b p hp with h | ⟨a, -, h⟩
    · exact ⟨(hnew b p h).1, (hnew b p h).2.1⟩
    · exact ⟨(hnew a p h).1, (hnew a p h).2.1⟩
  let Hl : List String → String → Prop := fun l x => ∃ a ∈ l, ∃ k, (k, x) ∈ new a
  have hHl : ∀ l x, Hl l x → Numbered x := by
    rintro l x ⟨a, -, k, h⟩
    exact (hnew a _ h).2.2
  let R : Config V W → Config V W → Prop := fun c c' => c'.prev = c.prev ∧ c'.cur = c.cur ∧ c'.st.world = c.st.world ∧
    ∃ l, Walk G s c.cur l ∧ Match st.env T (Hl l) c.st.env c'.st.env
  refine simulates (R := R) (Q := Agree) ?_ ?_
  · rintro ⟨prev, cur, ⟨e, w⟩⟩ ⟨prev', cur', ⟨e', w'⟩⟩ ⟨h1, h2, h3, l, hwalk, hm⟩
    dsimp only at h1 h2 h3 hwalk hm
    subst h1 h2 h3
    unfold stepBlock
    dsimp only
    rw [hget cur']
    cases hB : G.get cur' with
    | none => exact .stuck
    | some B =>
      rw [Option.map_some]
      have hBm : B ∈ G.blocks := get_mem hB
      have hid : B.id = cur' := get_id hB
      generalize hP : B.instrs.filter isPhi = P
      generalize hC : B.instrs.filter (fun i => !isPhi i) = C
      have hPphi : ∀ i ∈ P, isPhi i = true := by intro i hi; rw [← hP] at hi; exact (mem_filter.1 hi).2
      have hCphi : ∀ i ∈ C, isPhi i = false := by intro i hi; rw [← hC] at hi; simpa using (mem_filter.1 hi).2
      have hPm : ∀ i ∈ P, i ∈ B.instrs := by intro i hi; rw [← hP] at hi; exact (mem_filter.1 hi).1
      have hCm : ∀ i ∈ C, i ∈ B.instrs := by intro i hi; rw [← hC] at hi; exact (mem_filter.1 hi).1
      have hins : B.instrs = P ++ C := by rw [← hP, ← hC]; exact hfit.phisFirst B hBm
      let N : List Instr := (new cur').reverse.map fun p => ⟨push p.1, [], [p.2]⟩
      have hNphi : ∀ i ∈ N, isPhi i = false := by
        intro i hi
        obtain ⟨p, -, rfl⟩ := mem_map.1 hi
        unfold isPhi
        exact beq_false_of_ne (hop p.1)
      have hedit : (edit push (D cur') (new cur') B).instrs = (P ++ N ++ C).map (replaceArgs (D cur') B.entries) := by
        show (insertPushes push (new cur') B.instrs).map _ = _
        rw [hins, insertPushes_eq push (new cur') P C hPphi hCphi]
      have hcomp : isPhi ∘ replaceArgs (D cur') B.entries = isPhi := funext fun i => replaceArgs_phi
      have hcompn : (fun i => !isPhi i) ∘ replaceArgs (D cur') B.entries = fun i => !isPhi i := by
        funext i
        show (!isPhi (replaceArgs (D cur') B.entries i)) = !isPhi i
        rw [replaceArgs_phi]
      have hP' : (edit push (D cur') (new cur') B).instrs.filter isPhi = P.map (replaceArgs (D cur') B.entries) := by
        rw [hedit, filter_map, hcomp, filter_append, filter_append, filter_eq_self.2 hPphi,
          filter_eq_nil_iff.2 (fun i hi => by simp [hNphi i hi]), filter_eq_nil_iff.2 (fun i hi => by simp [hCphi i hi]), append_nil, append_nil]
      have hC' : (edit push (D cur') (new cur') B).instrs.filter (fun i => !isPhi i) = (N ++ C).map (replaceArgs (D cur') B.entries) := by
        rw [hedit, filter_map, hcompn, filter_append, filter_append, filter_eq_nil_iff.2 (fun i hi => by simp [hPphi i hi]),
          filter_eq_self.2 (fun i hi => by simp [hNphi i hi]), filter_eq_self.2 (fun i hi => by simp [hCphi i hi]), nil_append]
      dsimp only
      rw [hC', hC]
      obtain ⟨hun, huncond⟩ := hfit.unused B hBm
      -- the phi functions
      have hent : (∃ f f', enter B prev' e = some f ∧ enter (edit push (D cur') (new cur') B) prev' e' = some f' ∧ Match st.env T (Hl l) f f') ∨
          (enter B prev' e = none ∧ enter (edit push (D cur') (new cur') B) prev' e' = none) := by
        unfold enter
        rw [hP', hP]
        show (∃ f f', enterWith P B.entries prev' e = some f ∧ enterWith (P.map _) B.entries prev' e' = some f' ∧ _) ∨
          (_ ∧ enterWith (P.map _) B.entries prev' e' = none)
        unfold enterWith
        by_cases hnil : P = []
        · left
          exact ⟨e, e', by rw [if_pos hnil], by rw [if_pos (by rw [hnil]; rfl)], hm⟩
        · have hnil' : P.map (replaceArgs (D cur') B.entries) ≠ [] := fun h => hnil (map_eq_nil_iff.1 h)
          rw [if_neg hnil, if_neg hnil']
          cases prev' with
          | none => exact .inr ⟨rfl, rfl⟩
          | some q =>
            dsimp only [Option.bind_some]
            cases hk : B.entries.idxOf? q with
            | none => exact .inr ⟨rfl, rfl⟩
            | some k =>
              left
              refine ⟨_, _, rfl, rfl, ?_⟩
              have hkl : k < B.entries.length := by
                rw [idxOf?_eq_some_iff] at hk
                obtain ⟨hk, -⟩ := hk
                exact hk
              refine phis_match (hHl l) (hDall cur') hkl hPphi ?_ ?_ ?_ ?_ hm
              · intro i hi
                exact hfit.phiArgs B hBm i (hPm i hi) (by simpa [isPhi] using hPphi i hi)
              · intro i hi
                exact hun i (hPm i hi)
              · intro i hi
                exact hfit.consts B hBm i (hPm i hi)
              · intro i hi a ha x hx
                rcases hknown cur' _ hx with h | ⟨b, hb, h⟩
                · have hr := hphi cur' B hB i (hPm i hi) (by simpa [isPhi] using hPphi i hi) a ha (hmine cur' _ h).2.1
                  have hr' := (hmine cur' _ h).2.2.1
                  dsimp only at hr'
                  rw [hr] at hr'
                  cases hr'
                · exact ⟨b, hb.2 l hwalk, a, h⟩
      rcases hent with ⟨f, f', hf, hf', hmf⟩ | ⟨hf, hf'⟩
      · rw [hf, hf']
        dsimp only
        -- the pushes
        obtain ⟨g', hg, hmg⟩ := pushes_match (sem := sem) (push := push) (D cur') B.entries (new cur').reverse (Hl l) f f' w' (hHl l)
          (fun p hp => ⟨(hnew cur' p (mem_reverse.1 hp)).2.2, (hnew cur' p (mem_reverse.1 hp)).2.1, hpush p.1 w' (hnew cur' p (mem_reverse.1 hp)).1⟩)
          (fun p _ => hop p.1) hmf
        rw [map_append, execAll_append, hg]
        dsimp only
        have hmg' : Match st.env T (Hl (cur' :: l)) f g' := by
          refine ⟨hmg.same, hmg.const, fun x hx => hmg.held x ?_⟩
          obtain ⟨a, ha, k, hk⟩ := hx
          rcases mem_cons.1 ha with rfl | ha
          · exact .inr ⟨k, mem_reverse.2 hk⟩
          · exact .inl ⟨a, ha, k, hk⟩
        -- the operations
        have hDH : ∀ p ∈ D cur', isConst p.1 = true ∧ T p.2 = p.1 ∧ Hl (cur' :: l) p.2 := by
          intro p hp
          refine ⟨(hDall cur' p hp).1, (hDall cur' p hp).2, ?_⟩
          rcases hknown cur' p hp with h | ⟨a, ha, h⟩
          · exact ⟨cur', by simp, p.1, h⟩
          · exact ⟨a, by simp [ha.2 l hwalk], p.1, h⟩
        rcases code_match (sem := sem) (hHl (cur' :: l)) hDH (entries := B.entries) C f g' w' hCphi (fun i hi => hun i (hCm i hi))
          (fun i hi => hfit.consts B hBm i (hCm i hi)) hmg' with ⟨u, u', w, hu, hu', hmu⟩ | ⟨u, u', w, hu, hu', hmu⟩
        · rw [hu, hu']
          dsimp only
          have hgo : ∀ y, y ∈ B.succs → R ⟨some B.id, y, u, w⟩ ⟨some B.id, y, u', w⟩ := by
            intro y hy
            refine ⟨rfl, rfl, rfl, cur' :: l, .step hwalk ?_, hmu⟩
            unfold BlockList.succ
            rw [hB]
            exact hy
          unfold leave
          show OutRel R Agree _ (match B.jumpTo, B.fallsTo with
            | none, none => .halt _
            | some y, none => .goto ⟨some B.id, y, _⟩
            | none, some y => .goto ⟨some B.id, y, _⟩
            | some y, some z => match B.cond with
              | some c => if sem.truth _ then .goto ⟨some B.id, y, _⟩ else .goto ⟨some B.id, z, _⟩
              | none => .stuck)
          cases hj : B.jumpTo <;> cases hfa : B.fallsTo
          · exact .halt ⟨rfl, hmu.same⟩
          · exact .goto (hgo _ (by simp [Block.succs, hfa]))
          · exact .goto (hgo _ (by simp [Block.succs, hj]))
          · cases hc : B.cond with
            | none => exact .stuck
            | some c =>
              dsimp only
              have ht : sem.truth (u' c) = sem.truth (u c) := by rw [hmu.same c (huncond c hc)]
              by_cases hb : sem.truth (u c) = true
              · rw [if_pos hb, if_pos (ht.trans hb)]
                exact .goto (hgo _ (by simp [Block.succs, hj]))
              · rw [if_neg hb, if_neg (fun h => hb (ht.symm.trans h))]
                exact .goto (hgo _ (by simp [Block.succs, hfa]))
        · rw [hu, hu']
          exact .halt ⟨rfl, hmu.same⟩
      · rw [hf, hf']
        exact .stuck
  · refine ⟨rfl, rfl, rfl, [], .here, ⟨fun _ _ => rfl, fun _ _ => rfl, ?_⟩⟩
    rintro x ⟨a, ha, -⟩
    cases ha

end
end Grey.Consts
