/-
What is stored has been assigned, so that in single assignment form nothing is assigned after it has been stored: C95.
-/
import Verif.Stored.DomTree
import Verif.Program.Assigned
namespace Grey.Kept
open List Grey.Repair Grey.Stored Grey.SymExec Grey.Layout Grey.Sfs Grey.Program Grey.Graphs

/-! ### Specification -/

/-- The block assigns the variable, by a phi function, an instruction, or the call at its end. -/
def Assigns (F : Fn) (B : LBlock) (x : String) : Prop := (∃ p ∈ B.phis, p.out = x) ∨ (∃ i ∈ F.instrs B.id, x ∈ i.outArgs) ∨ x ∈ F.exitOuts B

/-- Static single assignment: a variable is a parameter or is assigned in one block, and a result of the call at the end of the block is not assigned in it before. -/
structure Single (F : Fn) : Prop where
  params : ∀ B ∈ F.graph.blocks, ∀ x, Assigns F B x → x ∉ F.graph.inputs
  one : ∀ B ∈ F.graph.blocks, ∀ C ∈ F.graph.blocks, ∀ x, Assigns F B x → Assigns F C x → B.id = C.id
  results : ∀ B ∈ F.graph.blocks, ∀ x ∈ F.exitOuts B, (∀ p ∈ B.phis, p.out ≠ x) ∧ ∀ i ∈ F.instrs B.id, x ∉ i.outArgs

/-- What the validator has checked about the ids of the blocks, and that the inserted stores duplicate their variables. -/
def BlocksRun (F : Fn) (st : DState) (W : Written) (f : String) : Prop :=
  ∀ B ∈ F.graph.blocks, ∃ src tgt built deps, (B.id, src, tgt) ∈ st.specs ∧
    buildSpec (F.instrs B.id) (F.split B.id) [] (substDuplicates src) tgt = some (built, deps) ∧
    check ⟨built.entries.map (·.instr), built.src, built.tgt, deps⟩ (originals (W.pids f B.id)) (F.graph.canJunk B.id) = true ∧
    (runP (built.entries.map (·.instr)) (W.pids f B.id) built.src).isSome ∧ StoresRight (built.entries.map (·.instr)) built.src (W.pids f B.id) ∧
    NamesOk (originals (W.pids f B.id))

/-! ### Proofs -/

theorem mem_originals {s : String} : ∀ {l : List PId}, PId.id s ∈ l → s ∈ originals l
  | .id t :: l, h => by
    rw [originals]
    rcases mem_cons.1 h with h | h
    · cases h; exact mem_cons_self
    · exact mem_cons_of_mem _ (mem_originals h)
  | .dupSet _ _ :: l, h => by
    rw [originals]
    rcases mem_cons.1 h with h | h
    · cases h
    · exact mem_originals h

/-- A variable that is not on the stack at the beginning and is not computed, and that is loaded only after it has been stored, is not stored. -/
theorem not_stored_run {tab : List UInstr} {src : List String} {pids : List PId} {x : String} (hx : x ∉ src) (ht : ∀ u ∈ tab, ∀ o ∈ u.outpt, o ≠ x)
    (hrun : (runP tab pids src).isSome) (hs : StoresRight tab src pids) (hn : NamesOk (originals pids))
    (hget : ∀ i, (pids.map readAs)[i]? = some (.get x) → x ∈ idStores ((pids.map readAs).take i)) :
    ∀ n, x ∉ idStores ((pids.map readAs).take n) ∧ ∀ st, runP tab (pids.take n) src = some st → x ∉ st := by
  intro n
  induction n with
  | zero => exact ⟨by simp [idStores], fun st h => by cases h; exact hx⟩
  | succ n ih =>
    cases hp : pids[n]? with
    | none =>
      have hle : pids.length ≤ n := getElem?_eq_none_iff.1 hp
      rw [take_of_length_le (by simpa using hle)] at ih
      rw [take_of_length_le (by simp; omega), take_of_length_le (by omega)]
      rw [take_of_length_le hle] at ih
      exact ih
    | some p =>
      have hsplit : pids.take (n + 1) = pids.take n ++ [p] := by rw [take_add_one, hp]; rfl
      have hmsplit : (pids.map readAs).take (n + 1) = (pids.map readAs).take n ++ [readAs p] := by rw [take_add_one, getElem?_map, hp]; rfl
      have hlt : n < pids.length := (List.getElem?_eq_some_iff.1 hp).1
      have hdec : pids = pids.take n ++ p :: pids.drop (n + 1) := by
        conv_lhs => rw [← take_append_drop n pids, drop_eq_getElem_cons hlt]
        rw [(List.getElem?_eq_some_iff.1 hp).2]
      have hpre : ∃ st0, runP tab (pids.take n) src = some st0 := by
        rw [hdec, runP_append] at hrun
        cases e : runP tab (pids.take n) src with
        | none => rw [e] at hrun; cases hrun
        | some st0 => exact ⟨st0, rfl⟩
      obtain ⟨st0, h0⟩ := hpre
      have hx0 := ih.2 st0 h0
      rw [hmsplit, idStores_app, hsplit]
      have hrun1 : ∃ st1, runP tab [p] st0 = some st1 := by
        rw [hdec, runP_append, h0, Option.bind_some, show p :: pids.drop (n + 1) = [p] ++ pids.drop (n + 1) from rfl, runP_append] at hrun
        cases e : runP tab [p] st0 with
        | none => rw [e] at hrun; cases hrun
        | some st1 => exact ⟨st1, rfl⟩
      obtain ⟨st1, h1⟩ := hrun1
      have hgoal : x ∉ idStores [readAs p] ∧ x ∉ st1 := by
        cases p with
        | dupSet v d =>
          refine ⟨?_, ?_⟩
          · simp only [readAs, idStores, mem_singleton]
            rintro rfl
            obtain ⟨st, k1, k2, -⟩ := hs _ _ _ _ hdec
            rw [h0] at k1
            cases k1
            exact hx0 (mem_of_getElem? k2)
          · rw [runP] at h1
            split at h1
            · cases h1; exact hx0
            · cases h1
        | id s =>
          have hmem : s ∈ originals pids := mem_originals (mem_of_getElem? hp)
          obtain ⟨n1, n2⟩ := hn s hmem
          rw [runP] at h1
          obtain ⟨st2, h2, h3⟩ := Option.bind_eq_some_iff.1 h1
          cases h3
          unfold execId at h2
          obtain ⟨o, ho, h2⟩ := Option.bind_eq_some_iff.1 h2
          have hng : vgetOf s ≠ some x := by
            intro hv
            exact ih.1 (hget n (by rw [getElem?_map, hp]; simp [readAs, hv]))
          refine ⟨?_, ?_⟩
          · intro hin
            simp only [readAs] at hin
            cases e : vgetOf s with
            | some v => rw [e] at hin; simp [idStores] at hin
            | none =>
              rw [e] at hin
              cases e2 : vsetOf s with
              | none => rw [e2] at hin; simp [idStores] at hin
              | some v =>
                rw [e2] at hin
                simp only [idStores, mem_singleton] at hin
                subst hin
                rw [(n2 x).1 e2] at ho
                cases ho
                cases st0 with
                | nil => simp [execOp] at h2
                | cons y st0 =>
                  simp only [execOp] at h2
                  split at h2
                  · rename_i hxy
                    exact hx0 (hxy ▸ mem_cons_self)
                  · cases h2
          · have := execOp_from (P := fun z => z ≠ x) ht (fun v hv => by
              rintro rfl
              subst hv
              exact hng ((n1 v).2 ho)) h2 (fun z hz e => hx0 (e ▸ hz))
            exact fun h => this x h rfl
      refine ⟨fun h => ?_, fun st hst => ?_⟩
      · rcases mem_append.1 h with h | h
        · exact ih.1 h
        · exact hgoal.1 h
      · rw [runP_append, h0, Option.bind_some, h1] at hst
        cases hst
        exact hgoal.2

section
variable {F : Fn} {st : DState} {W : Written} {f : String} {T : String → DTree String}

theorem not_own {x : String} (hx : Proper x) (hp : ¬ Padding x) {instrs : List Ins} (hi : ∀ i ∈ instrs, x ∉ i.outArgs) : ¬ Own instrs x := by
  rintro (⟨i, hi', h⟩ | h | h | h)
  · exact hi i hi' h
  · exact hx.notGen h
  · exact hx.notLit ((isConst_iff x).1 h)
  · exact hx.notBottom h

/-- A variable that is not on the stack at the beginning of a block, is not computed in it, and is not stored above it, is not stored in it and not loaded. -/
theorem not_stored (hrs : ReadsStored (scanTree W T f)) {B : LBlock} {src tgt : List String} {built : Built} {deps : List (String × String)}
    (hb : buildSpec (F.instrs B.id) (F.split B.id) [] (substDuplicates src) tgt = some (built, deps))
    (hrun : (runP (built.entries.map (·.instr)) (W.pids f B.id) built.src).isSome) (hsr : StoresRight (built.entries.map (·.instr)) built.src (W.pids f B.id))
    (hn : NamesOk (originals (W.pids f B.id))) {anc : List String} (hnode : Node (T f) anc B.id) {x : String} (hx : Proper x) (hp : ¬ Padding x)
    (hsrc : x ∉ src) (hab : ∀ a ∈ anc, x ∉ storesIn W f a) (hi : ∀ i ∈ F.instrs B.id, x ∉ i.outArgs) : x ∉ storesIn W f B.id ∧ ¬ Loads W f B.id x := by
  obtain ⟨houts, hsrc'⟩ := built_outs hb
  obtain ⟨c, H, hat⟩ := at_of_node (rb := scanned W f) hnode []
  have hget : ∀ i, ((W.pids f B.id).map readAs)[i]? = some (.get x) → x ∈ idStores (((W.pids f B.id).map readAs).take i) := by
    intro i h
    rcases (hrs _ _ _ hat.isIn).1 i x h with ⟨a, ha, h⟩ | h | h
    · obtain ⟨a', ha', rfl⟩ := mem_map.1 ha
      rcases mem_append.1 h with h | h
      · cases h
      · exact absurd h (hab a' ha')
    · cases h
    · exact h
  have key := not_stored_run (x := x) (by
      rw [hsrc']
      intro h
      rcases mem_substDuplicates h with h | h
      · exact hsrc h
      · exact hp (Or.inl h)) (fun u hu o ho e => not_own hx hp hi (e ▸ houts u hu o ho)) hrun hsr hn hget
  refine ⟨?_, ?_⟩
  · have := (key (W.pids f B.id).length).1
    rw [take_of_length_le (by simp)] at this
    exact this
  · intro h
    obtain ⟨i, h⟩ := mem_iff_getElem?.1 h
    exact (key i).1 (hget i h)

/-- **C88, stores.** If there is a path to a block that does not assign the variable, then the variable is not on the stack with which the block starts and has not been stored
above the block. -/
theorem unassigned_not_stored (hF : Laid F) (hd : drive F.graph = .ok st) (ha : BlocksRun F st W f) (hrs : ReadsStored (scanTree W T f)) (hT : TreeOf F.graph (T f))
    {x : String} (hx : Proper x) (hp : ¬ Padding x) {b : String} (h : Unassigned F x b) :
    (∀ src tgt, (b, src, tgt) ∈ st.specs → x ∉ src) ∧ ∀ anc, Node (T f) anc b → ∀ a ∈ anc, x ∉ storesIn W f a := by
  have hfin : Finite (blockIds F.graph) (edgesOf F.graph) F.graph.start := by
    obtain ⟨S, hS, e, -⟩ := hF.start
    exact finite_edges ⟨S, hS, e⟩
  induction h with
  | start hS hid hin hphi =>
    rename_i S
    obtain ⟨S', hS', hid', h0⟩ := hF.start
    obtain rfl := same_id hF.wf hS hS' (hid.trans hid'.symm)
    refine ⟨fun src tgt hs hm => hin ((layout_of_start hF.wf hF.one hd hS h0 hs).1.subset hm), fun anc hn => ?_⟩
    rw [hid] at hn
    rw [Node.unique hT.once hn (hT.start hfin)]
    simp
  | edge h hB hins hout hS hsucc hphi ih =>
    rename_i B S
    have hreach : ∀ {y : String}, Unassigned F x y → Reachable F.graph y := by
      intro y hy
      induction hy with
      | start hS hid => rw [hid]; exact .start
      | edge _ hB _ _ hS hs _ ih => exact .step ih hB hS hs
    obtain ⟨srcB, tgtB, built, deps, hsB, hb, hc, hrun, hsr, hn⟩ := ha B hB
    have hBn : B.id ∈ nodes (T f) := (hT.all _).2 ((mem_reached hfin _).2 (reach_edges hF.wf.ids (hreach h)))
    obtain ⟨ancB, hnB⟩ := Kept.node_of_mem hBn
    obtain ⟨k1, k2⟩ := not_stored hrs hb hrun hsr hn hnB hx hp (ih.1 _ _ hsB) (ih.2 _ hnB) hins
    refine ⟨fun src tgt hs hm => ?_, fun anc hnS a haS => ?_⟩
    · obtain ⟨h1, h2⟩ := layouts_agree_on_edges hF.wf hF.one hd hB hS hsucc hsB hs
      have hcf : B.id ∈ S.comesFrom := (hF.wf.edges B hB S hS).1 hsucc
      obtain ⟨k, hk⟩ := mem_iff_getElem?.1 ((preds_perm hF.wf hS).mem_iff.2 hcf)
      have hmem' : x ∈ tgtB := edge_same (h1 k hk) (hF.wf.phiOuts S hS) hm (fun n e => hp (Or.inr ⟨n, e⟩)) hphi
      have hfrom : ∀ z ∈ beforeSplit (F.split B.id) tgtB, (z ∈ substDuplicates srcB ∨ Own (F.instrs B.id) z) ∨ z ≠ x := by
        refine reached_from_or (Q := fun z => z ≠ x) hb hc fun pre s post v e hcl => .inl ?_
        rintro rfl
        have hs : s ∈ originals (W.pids f B.id) := by rw [e]; simp
        have hg := ((hn s hs).1 v).2 hcl
        have hm : PId.id s ∈ W.pids f B.id := by
          clear * - hs
          generalize W.pids f B.id = l at hs
          induction l with
          | nil => cases hs
          | cons p l ih =>
            cases p with
            | id t =>
              rw [originals] at hs
              rcases mem_cons.1 hs with rfl | hs
              · exact mem_cons_self
              · exact mem_cons_of_mem _ (ih hs)
            | dupSet v d => rw [originals] at hs; exact mem_cons_of_mem _ (ih hs)
        exact k2 (mem_map.2 ⟨_, hm, by simp [readAs, hg]⟩)
      rcases left_from_or hF hd hx hp hB hsB hfrom hmem' with (h | ⟨i, hi, h⟩ | h) | h
      · exact ih.1 _ _ hsB h
      · exact hins i hi h
      · exact hout h
      · exact h rfl
    · have := (hT.above hfin hnB hnS (mem_edges hF.wf.ids hB hS hsucc)).subset haS
      rcases mem_append.1 this with h | h
      · exact ih.2 _ hnB a h
      · rw [mem_singleton.1 h]
        exact k1

end

/-- What is above a block dominates it, and is not the block. -/
theorem DominanceTree.dominates {ns : List String} {succ : String → List String} {s : String} {t : DTree String} (fin : Finite ns succ s) (hT : DominanceTree ns succ s t) {d : String} :
    ∀ (n : Nat) (anc : List String) (b : String), anc.length = n → Node t anc b → d ∈ anc → Dominates succ s d b ∧ d ≠ b
  | 0, anc, b, hn, _, hd => by
    obtain rfl := length_eq_zero_iff.1 hn
    cases hd
  | n + 1, anc, b, hn, h, hd => by
    cases anc using List.reverseRecOn with
    | nil => cases hn
    | append_singleton anc c =>
      have hi := idom_some fin (hT.edge _ _ _ h)
      rcases mem_append.1 hd with hd | hd
      · obtain ⟨h1, h2⟩ := DominanceTree.dominates fin hT n anc c (by simpa using hn) (node_above h anc c [] rfl) hd
        refine ⟨h1.trans hi.2.1, ?_⟩
        rintro rfl
        exact h2 (h1.antisymm hi.2.1)
      · rw [mem_singleton.1 hd]
        exact ⟨hi.2.1, hi.1⟩

section
variable {F : Fn} {st : DState} {W : Written} {f : String} {T : String → DTree String}

theorem avoids {E : String → String → Prop} {v u x : String} (h : PathAvoiding E v u x) : x ≠ v := by
  cases h with
  | refl h => exact h
  | step _ _ h _ _ => exact h

/-- In single assignment form, a variable that is stored in a block is not assigned in a block below, and not by the call at the end of the block. -/
theorem stored_then_constant (hF : Laid F) (hd : drive F.graph = .ok st) (ha : BlocksRun F st W f) (hrs : ReadsStored (scanTree W T f)) (hT : TreeOf F.graph (T f))
    (hS : Single F) {x : String} (hx : Proper x) (hp : ¬ Padding x) {B : LBlock} (hB : B ∈ F.graph.blocks) {anc : List String} (hn : Node (T f) anc B.id) :
    (StoredIn W f anc x → ¬ Assigns F B x) ∧ (StoredIn W f (anc ++ [B.id]) x → x ∉ F.exitOuts B) := by
  have hstart : ∃ S ∈ F.graph.blocks, S.id = F.graph.start := by
    obtain ⟨S, hS, e, -⟩ := hF.start
    exact ⟨S, hS, e⟩
  have hfin := finite_edges hstart
  have hcfg : ∀ C ∈ F.graph.blocks, ∀ y ∈ edgesOf F.graph C.id, ∃ D ∈ F.graph.blocks, D.id = y ∧ D.id ∈ C.succs := by
    intro C hC y hy
    obtain ⟨h1, h2⟩ := mem_filter.1 hy
    rw [contains_iff_mem] at h2
    obtain ⟨D, hD, rfl⟩ := mem_map.1 h2
    refine ⟨D, hD, rfl, ?_⟩
    unfold Layout.Component.cfgSuccs at h1
    rw [block_of_mem hF.wf.ids hC] at h1
    simpa using h1
  have stored : ∀ A ∈ F.graph.blocks, ∀ ancA, Node (T f) ancA A.id → Unassigned F x A.id → (∀ i ∈ F.instrs A.id, x ∉ i.outArgs) → x ∉ storesIn W f A.id := by
    intro A hA ancA hnA hun hi
    obtain ⟨src, tgt, built, deps, hs, hb, hc, hrun, hsr, hno⟩ := ha A hA
    obtain ⟨k1, k2⟩ := unassigned_not_stored hF hd ha hrs hT hx hp hun
    exact (not_stored hrs hb hrun hsr hno hnA hx hp (k1 _ _ hs) (k2 _ hnA) hi).1
  have first : StoredIn W f anc x → ¬ Assigns F B x := by
    rintro ⟨a, ha', hst⟩ hasg
    obtain ⟨p, q, e⟩ := append_of_mem ha'
    have hna : Node (T f) p a := node_above hn p a q e
    obtain ⟨A, hA, rfl⟩ := tree_blocks hstart hT (node_mem hna)
    obtain ⟨hdom, hne⟩ := hT.dominates hfin _ anc B.id rfl hn ha'
    have hnot : ∀ C ∈ F.graph.blocks, C.id ≠ B.id → ¬ Assigns F C x := fun C hC h h' => h (hS.one C hC B hB x h' hasg)
    have hpath : PathAvoiding (fun x y => y ∈ edgesOf F.graph x) B.id A.id F.graph.start := by
      by_contra h
      exact hne (hdom.antisymm ⟨hdom.reached, h⟩)
    have hun : ∀ y, PathAvoiding (fun x y => y ∈ edgesOf F.graph x) B.id A.id y → Unassigned F x y → Unassigned F x A.id := by
      intro y hy
      induction hy with
      | refl _ => exact id
      | step y z hyB hyz hz ih =>
        intro hu
        apply ih
        have hY : ∃ Y ∈ F.graph.blocks, Y.id = y := by
          cases hu with
          | start hS => exact ⟨_, hS, rfl⟩
          | edge _ _ _ _ hS => exact ⟨_, hS, rfl⟩
        obtain ⟨Y, hY, rfl⟩ := hY
        obtain ⟨Z, hZ, rfl, hsucc⟩ := hcfg Y hY z hyz
        have hzB : Z.id ≠ B.id := avoids hz
        have h1 := hnot Y hY hyB
        have h2 := hnot Z hZ hzB
        exact .edge hu hY (fun i hi h => h1 (.inr (.inl ⟨i, hi, h⟩))) (fun h => h1 (.inr (.inr h))) hZ hsucc fun p hp h => h2 (.inl ⟨p, hp, h⟩)
    obtain ⟨S, hSm, hSid⟩ := hstart
    have hu0 : Unassigned F x F.graph.start := by
      have hsB : S.id ≠ B.id := by
        rw [hSid]
        exact avoids hpath
      rw [← hSid]
      exact .start hSm hSid (hS.params B hB x hasg) fun p hp h => hnot S hSm hsB (.inl ⟨p, hp, h⟩)
    have hA' := hnot A hA hne
    exact stored A hA p hna (hun _ hpath hu0) (fun i hi h => hA' (.inr (.inl ⟨i, hi, h⟩))) hst
  refine ⟨first, ?_⟩
  rintro ⟨a, ha', hst⟩ hex
  rcases mem_append.1 ha' with ha' | ha'
  · exact first ⟨a, ha', hst⟩ (.inr (.inr hex))
  · rw [mem_singleton.1 ha'] at hst
    have hasg : Assigns F B x := .inr (.inr hex)
    have hphi : ∀ C ∈ F.graph.blocks, ∀ p ∈ C.phis, p.out ≠ x := by
      intro C hC p hp h
      have := hS.one C hC B hB x (.inl ⟨p, hp, h⟩) hasg
      obtain rfl := same_id hF.wf hC hB this
      exact (hS.results C hC x hex).1 p hp h
    have hins : ∀ C ∈ F.graph.blocks, ∀ i ∈ F.instrs C.id, x ∉ i.outArgs := by
      intro C hC i hi h
      have := hS.one C hC B hB x (.inr (.inl ⟨i, hi, h⟩)) hasg
      obtain rfl := same_id hF.wf hC hB this
      exact (hS.results C hC x hex).2 i hi h
    have hun : ∀ y, Graph.Reach (edgesOf F.graph) F.graph.start y → Unassigned F x y ∨ Unassigned F x B.id := by
      intro y hy
      induction hy with
      | refl =>
        obtain ⟨S, hSm, hSid⟩ := hstart
        left
        rw [← hSid]
        exact .start hSm hSid (hS.params B hB x hasg) (hphi S hSm)
      | tail _ hyz ih =>
        rename_i y z _
        rcases ih with hu | hu
        · have hY : ∃ Y ∈ F.graph.blocks, Y.id = y := by
            cases hu with
            | start hS => exact ⟨_, hS, rfl⟩
            | edge _ _ _ _ hS => exact ⟨_, hS, rfl⟩
          obtain ⟨Y, hY, rfl⟩ := hY
          by_cases e : Y.id = B.id
          · right; rw [← e]; exact hu
          · obtain ⟨Z, hZ, rfl, hsucc⟩ := hcfg Y hY z hyz
            exact .inl (.edge hu hY (hins Y hY) (fun h => e (hS.one Y hY B hB x (.inr (.inr h)) hasg)) hZ hsucc (hphi Z hZ))
        · exact .inr hu
    have hu : Unassigned F x B.id := by
      rcases hun B.id (hT.reach hfin (node_mem hn)) with h | h <;> exact h
    exact stored B hB anc hn hu (hins B hB) hst

end

/-- If the trees are the trees of dominators of the components, whose blocks can all be reached, then the tree contains every block once, and the block above a block is above all
its predecessors; if the components are in single assignment form, then nothing is assigned after it has been stored. -/
theorem arranged_of_tree {P : Prog} {W : Written} {cell : String → String → Option Nat} {T : String → DTree String} {base size : String → Nat}
    (hc : Cells P W cell T base size) (hL : ∀ f F, P.fns f = some F → Laid F)
    (hr : ∀ f F, P.fns f = some F → ∀ B ∈ F.graph.blocks, Layout.Reachable F.graph B.id) (hT : ∀ f F, P.fns f = some F → TreeOf F.graph (T f))
    (hrs : ∀ f F, P.fns f = some F → ReadsStored (scanTree W T f)) (hrun : ∀ f F, P.fns f = some F → ∃ st, drive F.graph = .ok st ∧ BlocksRun F st W f)
    (hS : ∀ f F, P.fns f = some F → Single F) : Arranged P W cell T base size := by
  have hstart : ∀ f F, P.fns f = some F → ∃ S ∈ F.graph.blocks, S.id = F.graph.start := by
    intro f F hF
    obtain ⟨S, hS, e, -⟩ := (hL f F hF).start
    exact ⟨S, hS, e⟩
  have hst : ∀ f F, P.fns f = some F → ∀ anc b v, Node (T f) anc b → v ∈ storesIn W f b → v ∈ allStores (scanTree W T f) :=
    fun f F hF anc b v hn hv => node_stores (rb := scanned W f) hn v (mem_append_right _ hv)
  have hmem : ∀ f F, P.fns f = some F → ∀ anc b v, Node (T f) anc b → StoredIn W f (anc ++ [b]) v → Proper v ∧ ¬ Padding v := by
    rintro f F hF anc b v hn ⟨a, ha, hv⟩
    have : v ∈ allStores (scanTree W T f) := by
      rcases mem_append.1 ha with ha | ha
      · obtain ⟨p, q, e⟩ := append_of_mem ha
        exact hst f F hF p a v (node_above hn p a q e) hv
      · rw [mem_singleton.1 ha] at hv
        exact hst f F hF anc b v hn hv
    exact ⟨(hc.proper f F hF v this).1, (hc.proper f F hF v this).2.1⟩
  refine ⟨hc, ?_, ?_, ?_, ?_, ?_, ?_⟩ <;> intro f F hF
  · intro B hB
    exact ((hT f F hF).all _).2 ((mem_reached (finite_edges (hstart f F hF)) _).2 (reach_edges (hL f F hF).wf.ids (hr f F hF B hB)))
  · exact (hT f F hF).once
  · exact (hT f F hF).start (finite_edges (hstart f F hF))
  · intro B hB S hS he ancB ancS nB nS
    exact (hT f F hF).above (finite_edges (hstart f F hF)) nB nS (mem_edges (hL f F hF).wf.ids hB hS he)
  · intro B hB anc hn v hv
    obtain ⟨h1, h2⟩ := hmem f F hF anc B.id v hn (by
      obtain ⟨a, ha, hv⟩ := hv
      exact ⟨a, mem_append_left _ ha, hv⟩)
    obtain ⟨st, hd, hb⟩ := hrun f F hF
    have := (stored_then_constant (hL f F hF) hd hb (hrs f F hF) (hT f F hF) (hS f F hF) h1 h2 hB hn).1 hv
    exact ⟨fun i hi h => this (.inr (.inl ⟨i, hi, h⟩)), fun p hp h => this (.inl ⟨p, hp, h⟩)⟩
  · intro B hB anc hn v hv
    obtain ⟨h1, h2⟩ := hmem f F hF anc B.id v hn hv
    obtain ⟨st, hd, hb⟩ := hrun f F hF
    exact (stored_then_constant (hL f F hF) hd hb (hrs f F hF) (hT f F hF) (hS f F hF) h1 h2 hB hn).2 hv

end Grey.Kept
