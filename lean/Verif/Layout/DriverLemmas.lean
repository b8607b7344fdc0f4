/-
Invariants of the driver of the layout generation.
-/
import Verif.Layout.DriverSpec
import Verif.Layout.Theorems
namespace Grey.Layout
open List

theorem lookup_some_mem {B : Type} {l : List (String × B)} {x : String} {b : B} (h : l.lookup x = some b) : (x, b) ∈ l := by
  induction l with
  | nil => simp at h
  | cons q l ih =>
    obtain ⟨y, c⟩ := q
    rw [lookup_cons] at h
    by_cases e : x = y
    · subst e
      simp only [beq_self_eq_true, Option.some.injEq] at h
      subst h
      exact mem_cons_self
    · have : (x == y) = false := by simpa using e
      rw [this] at h
      exact mem_cons_of_mem _ (ih h)

theorem lookup_isSome_iff {B : Type} {l : List (String × B)} {x : String} : (l.lookup x).isSome ↔ x ∈ l.map (·.1) := by
  induction l with
  | nil => simp
  | cons q l ih =>
    obtain ⟨y, c⟩ := q
    rw [lookup_cons]
    by_cases e : x = y
    · subst e; simp
    · have : (x == y) = false := by simpa using e
      rw [this]
      simpa [e] using ih

/-- The names at the positions of `C` are, in `s`, the arguments of the phi functions or the names themselves. -/
def Agree (phis : List Phi) (k : Nat) (s C : List String) : Prop :=
  C.length ≤ s.length ∧ ∀ (i : Nat) (x : String), C[i]? = some x → (∀ n, x ≠ pseudoName n) →
    ∃ y, s[i]? = some y ∧ (∀ f ∈ phis, f.out = x → f.args[k]? = some y) ∧ ((∀ f ∈ phis, f.out ≠ x) → y = x)

theorem Agree.edge {phis : List Phi} {k : Nat} {s C : List String} (h : Agree phis k s C) : EdgeAgree phis k s C := by
  refine ⟨h.1, fun i x hi hx => ?_⟩
  obtain ⟨y, hy, h1, h2⟩ := h.2 i x hi hx
  refine ⟨y, hy, fun V ρ ρ' hE => ?_⟩
  by_cases hf : ∃ f ∈ phis, f.out = x
  · obtain ⟨f, hf, rfl⟩ := hf
    exact (hE.phi f hf y (h1 f hf rfl)).symm
  · have hn : ∀ f ∈ phis, f.out ≠ x := fun f hf' e => hf ⟨f, hf', e⟩
    rw [h2 hn, hE.other x hn]

theorem Agree.mono {phis : List Phi} {k : Nat} {s t C D : List String} (h : Agree phis k s C) (hs : s <+: t) (hD : D <+: C) :
    Agree phis k t D := by
  obtain ⟨s', rfl⟩ := hs
  obtain ⟨C', rfl⟩ := hD
  refine ⟨?_, fun i x hi hx => ?_⟩
  · have := h.1; simp only [length_append] at this ⊢; omega
  · have hlt : i < D.length := (List.getElem?_eq_some_iff.1 hi).1
    obtain ⟨y, hy, h1⟩ := h.2 i x (by rw [getElem?_append_left hlt]; exact hi) hx
    exact ⟨y, by rw [getElem?_append_left (List.getElem?_eq_some_iff.1 hy).1]; exact hy, h1⟩

theorem agree_nil {k : Nat} {s C : List String} (h : C <+: s) : Agree [] k s C := by
  obtain ⟨s', rfl⟩ := h
  refine ⟨by simp, fun i x hi _ => ⟨x, ?_, by simp, fun _ => rfl⟩⟩
  rw [getElem?_append_left (List.getElem?_eq_some_iff.1 hi).1]; exact hi

theorem agree_joint {dict : List (String × String)} {phis : List Phi} {k : Nat} (hlen : ∀ f ∈ phis, k < f.args.length)
    (hd : ∀ x, (∀ i, x ≠ pseudoName i) → (∀ f ∈ phis, ∀ a, f.out = x → f.args[k]? = some a → Layout.lookup dict x = some a) ∧
      ((∀ f ∈ phis, f.out ≠ x) → Layout.lookup dict x = none))
    {s C : List String} (hl : C.length ≤ s.length) (hs : s.take C.length = unifyJoint dict C) : Agree phis k s C := by
  refine ⟨hl, fun i x hi hx => ⟨(Layout.lookup dict x).getD x, ?_, ?_, ?_⟩⟩
  · have hlt : i < C.length := (List.getElem?_eq_some_iff.1 hi).1
    rw [← getElem?_take_of_lt hlt, hs]
    simp [unifyJoint, hi]
  · rintro f hf rfl
    have ha := getElem?_eq_getElem (hlen f hf)
    rw [(hd _ hx).1 f hf _ rfl ha, Option.getD_some, ha]
  · intro hn
    rw [(hd _ hx).2 hn, Option.getD_none]

theorem brothers_agree {target : String} {preds : List String} {live : String → List String}
    {phis : List Phi} {depth : String → List Int} {original : String} {originalIn : List String} {canJunk : Bool}
    (hpreds : preds.Nodup) (houts : (phis.map (·.out)).Nodup) (hargs : ∀ f ∈ phis, f.args.length = preds.length)
    {u : Unified} (hu : unifyBrothers target preds live phis depth original originalIn canJunk = u) :
    u.stacks.map (·.1) = preds ∧
    ∀ (k : Nat) (p : String) (s : List String), preds[k]? = some p → (p, s) ∈ u.stacks →
      Agree phis k s u.combined ∧ (canJunk = false → s.length = u.combined.length) := by
  obtain ⟨h1, h2, h3, h4⟩ := unifyWith_spec (phiFunc target preds live phis)
    ((List.range (numPseudo target preds live phis)).map pseudoName) target preds live depth original originalIn canJunk
  change unifyWith _ _ _ _ _ _ _ _ _ = u at hu
  rw [hu] at h3 h4
  refine ⟨h3, fun k p s hk hs => ?_⟩
  obtain ⟨h5, h6, h7⟩ := h4 p s hs
  have hkl : k < preds.length := (List.getElem?_eq_some_iff.1 hk).1
  refine ⟨?_, fun hj => h6 (Or.inr hj)⟩
  exact agree_joint (fun f hf => by rw [hargs f hf]; exact hkl) (dict := phiFunc target preds live phis p)
    (fun z hz => ⟨fun f hf a ho ha => by
        subst ho
        rw [lookup_phiFunc hz]; exact lookup_phiDict_some hpreds hk houts hf ha,
      fun hn => by rw [lookup_phiFunc hz]; exact lookup_phiDict_none hpreds hk hn⟩) h7 h5

theorem dominant_agree {target : String} {preds : List String} {live : String → List String}
    {phis : List Phi} {depth : String → List Int} {original : String} {originalIn : List String} {canJunk : Bool}
    (hpreds : preds.Nodup) (houts : (phis.map (·.out)).Nodup)
    (hargs : ∀ f ∈ phis, f.args.length = preds.length ∧ "bottom" ∉ f.args)
    {u : Unified} (hu : unifyDominant target preds live phis depth original originalIn canJunk = some u) :
    u.stacks.map (·.1) = preds ∧
    ∀ (k : Nat) (p : String) (s : List String), preds[k]? = some p → (p, s) ∈ u.stacks →
      Agree phis k s u.combined ∧ (canJunk = false → s.length = u.combined.length) := by
  unfold unifyDominant at hu
  simp only at hu
  split at hu
  · simp only [Option.some.injEq] at hu
    obtain ⟨h1, h2, h3, h4⟩ := unifyWith_spec (fillBottom (phiFunc target preds live phis) original)
      ((List.range (numPseudo target preds live phis)).map pseudoName) target preds live depth original originalIn canJunk
    rw [hu] at h3 h4
    refine ⟨h3, fun k p s hk hs => ?_⟩
    obtain ⟨h5, h6, h7⟩ := h4 p s hs
    have hkl : k < preds.length := (List.getElem?_eq_some_iff.1 hk).1
    have hsome : ∀ z, (∀ i, z ≠ pseudoName i) → ∀ f ∈ phis, ∀ a, f.out = z → f.args[k]? = some a →
        Layout.lookup (phiFunc target preds live phis p) z = some a := by
      intro z hz f hf a ho ha
      subst ho
      rw [lookup_phiFunc hz]; exact lookup_phiDict_some hpreds hk houts hf ha
    have hnone : ∀ z, (∀ i, z ≠ pseudoName i) → (∀ f ∈ phis, f.out ≠ z) →
        Layout.lookup (phiFunc target preds live phis p) z = none := by
      intro z hz hn
      rw [lookup_phiFunc hz]; exact lookup_phiDict_none hpreds hk hn
    refine ⟨?_, fun hj => h6 (Or.inr hj)⟩
    refine agree_joint (fun f hf => by rw [(hargs f hf).1]; exact hkl) (fun z hz => ?_) h7 h5
    unfold fillBottom
    by_cases hpo : p = original
    · rw [if_pos hpo]
      exact ⟨hsome z hz, hnone z hz⟩
    · rw [if_neg hpo]
      rw [lookup_map (phiFunc target preds live phis p)
        (fun y b => if b = "bottom" then (Layout.lookup (phiFunc target preds live phis original) y).getD "bottom" else b)]
      refine ⟨?_, ?_⟩
      · intro f hf a ho ha
        have hab : a ≠ "bottom" := by rintro rfl; exact (hargs f hf).2 (mem_of_getElem? ha)
        rw [hsome z hz f hf a ho ha]; simp [hab]
      · intro hn; rw [hnone z hz hn]; rfl
  · simp at hu

/-- The stacks `outs` before the join `J` fit the stack `C` of the join. -/
def Unif (c : Component) (outs : List (String × List String)) (J : LBlock) (C : List String) : Prop :=
  ∀ k p, J.preds[k]? = some p → ∃ s, outs.lookup p = some s ∧ Agree J.phis k s C ∧ (NoJunk c → s.length = C.length)

/-- The stack `t` begins with the names `final`, and repeats one of them only if it is in the stack `s`. -/
def Begins (final s t : List String) : Prop := ∃ mid, t = final ++ mid ∧ ∀ x ∈ mid, x ∈ final → x ∈ s

/-- The invariant of the driver. -/
structure DInv (c : Component) (st : DState) : Prop where
  nodup : st.traversed.Nodup
  specs : st.specs.map (·.1) = st.traversed
  blocks : ∀ b ∈ st.traversed, ∃ B ∈ c.blocks, B.id = b
  out : ∀ b s t, (b, s, t) ∈ st.specs → ∃ o, st.outStacks.lookup b = some o ∧ o <+: t ∧ (NoJunk c → o = t)
  early : ∀ b, (st.outStacks.lookup b).isSome → b ∈ st.traversed ∨ ∃ J ∈ c.blocks, 1 < J.comesFrom.length ∧ b ∈ J.comesFrom
  join : ∀ J ∈ c.blocks, 1 < J.comesFrom.length →
    ((∀ p ∈ J.comesFrom, st.outStacks.lookup p = none) ∧ J.id ∉ st.traversed) ∨
    ∃ C, Unif c st.outStacks J C ∧ (J.id ∉ st.traversed → st.inStacks.lookup J.id = some C) ∧
      ∀ s t, (J.id, s, t) ∈ st.specs → s <+: C ∧ (NoJunk c → s = C)
  single : ∀ S ∈ c.blocks, ∀ p, S.comesFrom = [p] → ∀ s t, (S.id, s, t) ∈ st.specs →
    ∃ o, st.outStacks.lookup p = some o ∧ s <+: o ∧ (NoJunk c → s = o)
  start : ∀ S ∈ c.blocks, S.comesFrom = [] → ∀ s t, (S.id, s, t) ∈ st.specs → s <+: c.inputs ∧ (NoJunk c → s = c.inputs)
  extra : ∀ e ∈ st.extra, ∃ B ∈ c.blocks, B.id = e.1 ∧ B.succs ≠ []
  final : ∀ B ∈ c.blocks, ∀ s t, (B.id, s, t) ∈ st.specs →
    (∃ J ∈ c.blocks, 1 < J.comesFrom.length ∧ B.id ∈ J.comesFrom) ∨ (Begins B.finalElems s t ∧ (NoJunk c → B.succs = [] →
      c.liveOut B.id = [] → B.finalElems = [] → B.jumpType ∉ ["terminal", "mainExit"] →
      B.previousType ∉ ["terminal", "mainExit"] → t = []))

theorem dfs_mem {succ : String → List String} : ∀ {f : Nat} {vis : List String} {n x : String}, x ∈ Graph.dfs succ f vis n →
    x ∈ vis ∨ x = n ∨ ∃ y, x ∈ succ y
  | 0, _, _, _, h => Or.inl h
  | f + 1, vis, n, x, h => by
    simp only [Graph.dfs] at h
    split at h
    · exact Or.inl h
    · have hfold : ∀ (l : List String) (v : List String), (∀ y ∈ l, y ∈ succ n) → x ∈ l.foldl (Graph.dfs succ f) v →
          x ∈ v ∨ ∃ y, x ∈ succ y := by
        intro l
        induction l with
        | nil => intro v _ h; exact Or.inl h
        | cons a l ih =>
          intro v hl h
          rcases ih _ (fun y hy => hl y (mem_cons_of_mem _ hy)) h with h | h
          · rcases dfs_mem h with h | rfl | h
            · exact Or.inl h
            · exact Or.inr ⟨n, hl _ mem_cons_self⟩
            · exact Or.inr h
          · exact Or.inr h
      rcases hfold _ _ (fun y hy => hy) h with h | h
      · rcases mem_cons.1 h with h | h
        · exact Or.inr (Or.inl h)
        · exact Or.inl h
      · exact Or.inr (Or.inr h)

theorem ownOutput_ok {c : Component} {st : DState} {b : LBlock} {input : List String} {w : List String × Nat}
    (h : ownOutput c st b input = .ok w) : Begins b.finalElems input w.1 ∧ (NoJunk c → w.1.take w.2 = w.1) ∧
      (NoJunk c → st.vars c.liveOut b.id = [] → b.finalElems = [] → b.jumpType ∉ ["terminal", "mainExit"] →
        b.previousType ∉ ["terminal", "mainExit"] → w.1 = []) := by
  unfold ownOutput at h
  split at h
  · rename_i ht
    obtain ⟨out, bottom, placed, o, he, hout, _, _, hpl, _, hbo, _⟩ := terminal_layout input b.finalElems (st.vars c.liveIn b.id)
      (st.vars c.liveOut b.id) (c.depth b.id) b.splitArgs
    rw [he] at h
    simp only [orKey, Except.map, Except.ok.injEq] at h
    subst h
    refine ⟨⟨_, hout, fun x hx hf => ?_⟩, fun _ => by simp, fun _ _ _ h1 h2 => absurd ht (by simp only [not_or]; exact ⟨h1, h2⟩)⟩
    rcases mem_append.1 (mem_of_mem_drop hx) with hx | hx
    · exact absurd hf ((hpl x).1 hx).2.1
    · exact hbo.subset hx
  · obtain ⟨mid, junk, h1, h2, _, h4, h5, h6⟩ := output_layout_exact input b.finalElems (st.vars c.liveOut b.id) (c.depth b.id)
      (c.canJunk b.id)
    simp only [Except.ok.injEq] at h
    subst h
    simp only
    rw [h1, h2, names_map_some]
    refine ⟨⟨mid ++ junk, by rw [append_assoc], fun x hx hf => ?_⟩, fun hn => ?_, fun hn hv hf _ _ => ?_⟩
    · rcases mem_append.1 hx with hx | hx
      · exact ((h4 x).1 hx).2.resolve_right (fun h => h hf)
      · exact h5.subset hx
    · rw [h6 (hn _), append_nil, take_length]
    · rw [h6 (hn _), hf]
      have : mid = [] := eq_nil_iff_forall_not_mem.2 fun x hx => by
        have := ((h4 x).1 hx).1
        rw [hv] at this; simp at this
      rw [this]; rfl

section
variable {c : Component} (wf : WellFormed c)
include wf

theorem preds_perm {J : LBlock} (hJ : J ∈ c.blocks) : J.preds.Perm J.comesFrom := by
  unfold LBlock.preds
  split
  · exact Perm.refl _
  · rename_i h
    exact (wf.entries J hJ).resolve_left h

theorem same_id {A B : LBlock} (hA : A ∈ c.blocks) (hB : B ∈ c.blocks) (h : A.id = B.id) : A = B :=
  inj_on_of_nodup_map wf.ids hA hB h

theorem unif_some {b : String} {j : LBlock} (h : c.unif b = some j) : j ∈ c.blocks ∧ 1 < j.comesFrom.length ∧ b ∈ j.comesFrom := by
  have h1 := mem_of_find?_eq_some h
  have h2 := find?_some h
  simp only [Bool.and_eq_true, decide_eq_true_eq] at h2
  exact ⟨mem_reverse.1 h1, h2⟩

theorem unif_none {b : String} (h : c.unif b = none) {j : LBlock} (hj : j ∈ c.blocks) (hl : 1 < j.comesFrom.length) : b ∉ j.comesFrom := by
  intro hb
  have := find?_eq_none.1 h j (mem_reverse.2 hj)
  simp [hl, hb] at this

theorem preds_nodup {J : LBlock} (hJ : J ∈ c.blocks) : J.preds.Nodup :=
  (preds_perm wf hJ).nodup_iff.2 (wf.once J hJ)

theorem unifyAt_ok {st st1 : DState} {b j : LBlock} {input : List String} (hj : j ∈ c.blocks)
    (h : unifyAt c st b input j = .ok st1) :
    ∃ (u : Unified) (e : List (String × String)), st1 = { st with outStacks := u.stacks ++ st.outStacks, inStacks := (j.id, u.combined) :: st.inStacks, extra := e } ∧
      u.stacks.map (·.1) = j.preds ∧
      (∀ k p s, j.preds[k]? = some p → (p, s) ∈ u.stacks → Agree j.phis k s u.combined ∧ (NoJunk c → s.length = u.combined.length)) ∧
      ∀ x ∈ e, x ∈ st.extra ∨ ∃ B ∈ c.blocks, B.id = x.1 ∧ B.succs ≠ [] := by
  have hdom : ∀ path : List String, (match unifyDominant j.id j.preds (fun x => if x = j.id then st.vars c.liveIn j.id else st.vars c.liveOut x)
        j.phis (c.depth j.id) b.id input (c.canJunk b.id) with
      | some u =>
        match (path.getLast?).bind fun p => u.stacks.lookup p with
        | some s =>
          (preservePath c st path s (valuesToPropagate (phiFunc j.id j.preds
            (fun x => if x = j.id then st.vars c.liveIn j.id else st.vars c.liveOut x) j.phis) j.preds b.id)).map
            (fun st : DState => { st with outStacks := u.stacks ++ st.outStacks, inStacks := (j.id, u.combined) :: st.inStacks })
        | none => .error .key
      | none => .error .assertion) = .ok st1 →
      ∃ (u : Unified) (e : List (String × String)), st1 = { st with outStacks := u.stacks ++ st.outStacks, inStacks := (j.id, u.combined) :: st.inStacks, extra := e } ∧
        u.stacks.map (·.1) = j.preds ∧
        (∀ k p s, j.preds[k]? = some p → (p, s) ∈ u.stacks → Agree j.phis k s u.combined ∧ (NoJunk c → s.length = u.combined.length)) ∧
        ∀ x ∈ e, x ∈ st.extra ∨ ∃ B ∈ c.blocks, B.id = x.1 ∧ B.succs ≠ [] := by
    intro path h
    cases hu : unifyDominant j.id j.preds (fun x => if x = j.id then st.vars c.liveIn j.id else st.vars c.liveOut x)
        j.phis (c.depth j.id) b.id input (c.canJunk b.id) with
    | none => rw [hu] at h; simp at h
    | some u =>
      rw [hu] at h
      simp only at h
      cases hs : (path.getLast?).bind fun p => u.stacks.lookup p with
      | none => rw [hs] at h; simp at h
      | some s =>
        rw [hs] at h
        simp only at h
        obtain ⟨h1, h2⟩ := dominant_agree (preds_nodup wf hj) (wf.phiOuts j hj) (wf.phiArgs j hj) hu
        have h2' : ∀ k p s, j.preds[k]? = some p → (p, s) ∈ u.stacks →
            Agree j.phis k s u.combined ∧ (NoJunk c → s.length = u.combined.length) :=
          fun k p s hk hp => ⟨(h2 k p s hk hp).1, fun hn => (h2 k p s hk hp).2 (hn _)⟩
        unfold preservePath at h
        split at h
        · rename_i first last hfirst hlast
          simp only at h
          split at h
          · simp only [Except.map, Except.ok.injEq] at h
            exact ⟨u, st.extra, h.symm, h1, h2', fun x hx => Or.inl hx⟩
          · simp only [Except.map, Except.ok.injEq] at h
            refine ⟨u, _, h.symm, h1, h2', fun x hx => ?_⟩
            rcases mem_append.1 hx with hx | hx
            · right
              obtain ⟨b', hb', hx⟩ := mem_flatMap.1 hx
              obtain ⟨v, _, rfl⟩ := mem_map.1 hx
              have hne := (mem_filter.1 hb').2
              rcases dfs_mem (mem_filter.1 hb').1 with hm | hm | ⟨y, hm⟩
              · simp only [mem_singleton] at hm
                simp [hm] at hne
              · subst hm
                rw [hlast, Option.bind_some] at hs
                have hp : b' ∈ j.preds := by
                  rw [← h1, ← lookup_isSome_iff, hs]; rfl
                have hp := (preds_perm wf hj).mem_iff.1 hp
                obtain ⟨B, hB, rfl⟩ := wf.known j hj b' hp
                exact ⟨B, hB, rfl, ne_nil_of_mem ((wf.edges B hB j hj).2 hp)⟩
              · obtain ⟨B, hB, e⟩ := mem_map.1 hm
                have := (mem_filter.1 hB)
                simp only [decide_eq_true_eq] at this
                exact ⟨B, this.1, e, ne_nil_of_mem this.2⟩
            · exact Or.inl hx
        · simp [Except.map] at h
  unfold unifyAt at h
  simp only at h
  split at h
  · exact hdom _ h
  · simp only [Except.ok.injEq] at h
    obtain ⟨h1, h2⟩ := brothers_agree (target := j.id)
      (live := fun x => if x = j.id then st.vars c.liveIn j.id else st.vars c.liveOut x) (depth := c.depth j.id)
      (original := b.id) (originalIn := input) (canJunk := c.canJunk b.id)
      (preds_nodup wf hj) (wf.phiOuts j hj) (fun f hf => (wf.phiArgs j hj f hf).1) rfl
    exact ⟨_, st.extra, h.symm, h1, fun k p s hk hp => ⟨(h2 k p s hk hp).1, fun hn => (h2 k p s hk hp).2 (hn _)⟩,
      fun x hx => Or.inl hx⟩

/-- What the driver knows about the input stack it chooses. -/
theorem inputStack_ok {st : DState} (inv : DInv c st) {B : LBlock} (hB : B ∈ c.blocks) (hb : B.id ∉ st.traversed)
    {input : List String} (h : inputStack c st B = .ok input) :
    (∀ p, B.comesFrom = [p] → st.outStacks.lookup p = some input) ∧
    (1 < B.comesFrom.length → Unif c st.outStacks B input) ∧ (B.comesFrom = [] → input = c.inputs) := by
  unfold inputStack at h
  refine ⟨?_, ?_, ?_⟩
  · intro p hp
    rw [hp] at h
    have hle : ¬ 1 < (filter (fun p => (st.outStacks.lookup p).isSome) [p]).length := by
      have := length_filter_le (fun p => (st.outStacks.lookup p).isSome) [p]
      simp only [length_cons, length_nil] at this
      omega
    rw [if_pos (by simp), if_neg hle] at h
    simp only [head?_cons, Option.bind_some] at h
    cases ho : st.outStacks.lookup p with
    | none => rw [ho] at h; simp [orKey] at h
    | some o => rw [ho] at h; simpa [orKey] using h
  · intro hl
    rcases inv.join B hB hl with ⟨h1, _⟩ | ⟨C, h1, h2, _⟩
    · exfalso
      have h0 : B.comesFrom ≠ [] := by rintro e; rw [e] at hl; simp at hl
      have hle : ¬ 1 < (B.comesFrom.filter (fun p => (st.outStacks.lookup p).isSome)).length := by
        rw [filter_eq_nil_iff.2 (fun p hp => by rw [h1 p hp]; simp)]
        simp
      rw [if_pos h0, if_neg hle] at h
      cases hh : B.comesFrom with
      | nil => exact h0 hh
      | cons p l =>
        rw [hh] at h
        simp only [head?_cons, Option.bind_some] at h
        rw [h1 p (by rw [hh]; exact mem_cons_self)] at h
        simp [orKey] at h
    · have h0 : B.comesFrom ≠ [] := by rintro e; rw [e] at hl; simp at hl
      have hf : B.comesFrom.filter (fun p => (st.outStacks.lookup p).isSome) = B.comesFrom := by
        rw [filter_eq_self]
        intro p hp
        obtain ⟨k, hk⟩ := mem_iff_getElem?.1 ((preds_perm wf hB).mem_iff.2 hp)
        obtain ⟨s, hs, _⟩ := h1 k p hk
        rw [hs]; rfl
      rw [if_pos h0, if_pos (by rw [hf]; exact hl), h2 hb] at h
      simp only [orKey, Except.ok.injEq] at h
      exact h ▸ h1
  · intro h0
    rw [if_neg (by simp [h0])] at h
    simpa using h.symm

theorem Unif.mono {outs outs2 : List (String × List String)} {J : LBlock} {C : List String} (h : Unif c outs J C)
    (hm : ∀ p s, outs.lookup p = some s → outs2.lookup p = some s) : Unif c outs2 J C := by
  intro k p hk
  obtain ⟨s, hs, ha⟩ := h k p hk
  exact ⟨s, hm p s hs, ha⟩

/-- The effect of choosing the output stack of `B`. -/
theorem outputStack_ok (one : OneJoin c) {st : DState} (inv : DInv c st) {B : LBlock} (hB : B ∈ c.blocks) (hb : B.id ∉ st.traversed)
    {st' : DState} (ho : st'.outStacks = st.outStacks) (hex : st'.extra = st.extra) {input : List String} {r : DState × List String}
    (hin : ∀ n, n ≠ B.id → st'.inStacks.lookup n = st.inStacks.lookup n)
    (h : outputStack c st' B input = .ok r) :
    (r.1.traversed = st'.traversed ∧ r.1.specs = st'.specs ∧ r.1.heap = st'.heap) ∧
    (∀ p s, st.outStacks.lookup p = some s → r.1.outStacks.lookup p = some s) ∧
    (∃ o, r.1.outStacks.lookup B.id = some o ∧ o <+: r.2 ∧ (NoJunk c → o = r.2)) ∧
    (∀ e ∈ r.1.extra, ∃ B ∈ c.blocks, B.id = e.1 ∧ B.succs ≠ []) ∧
    ((∃ J ∈ c.blocks, 1 < J.comesFrom.length ∧ B.id ∈ J.comesFrom) ∨ (Begins B.finalElems input r.2 ∧ (NoJunk c → B.succs = [] →
      c.liveOut B.id = [] → B.finalElems = [] → B.jumpType ∉ ["terminal", "mainExit"] →
      B.previousType ∉ ["terminal", "mainExit"] → r.2 = []))) ∧
    (∀ p, (r.1.outStacks.lookup p).isSome → (st.outStacks.lookup p).isSome ∨ p = B.id ∨
      ∃ J ∈ c.blocks, 1 < J.comesFrom.length ∧ p ∈ J.comesFrom) ∧
    (∀ J ∈ c.blocks, 1 < J.comesFrom.length → J.id ≠ B.id →
      (r.1.inStacks.lookup J.id = st.inStacks.lookup J.id ∧
        ((∀ p ∈ J.comesFrom, st.outStacks.lookup p = none) → ∀ p ∈ J.comesFrom, r.1.outStacks.lookup p = none)) ∨
      ((∀ p ∈ J.comesFrom, st.outStacks.lookup p = none) ∧
        ∃ C, Unif c r.1.outStacks J C ∧ r.1.inStacks.lookup J.id = some C)) := by
  unfold outputStack at h
  simp only at h
  cases hu : c.unif B.id with
  | none =>
    rw [hu] at h
    simp only at h
    have hnone : st.outStacks.lookup B.id = none := by
      cases hl : st.outStacks.lookup B.id with
      | none => rfl
      | some o =>
        rcases inv.early B.id (by rw [hl]; rfl) with h1 | ⟨J, hJ, hl1, hp⟩
        · exact absurd h1 hb
        · exact absurd hp (unif_none wf hu hJ hl1)
    cases hw : ownOutput c st' B input with
    | error e => rw [hw] at h; simp [Except.map] at h
    | ok w =>
      rw [hw] at h
      simp only [Except.map, Except.ok.injEq] at h
      subst h
      have hother : ∀ p, p ≠ B.id → List.lookup p ((B.id, w.1.take w.2) :: st'.outStacks) = st.outStacks.lookup p := by
        intro p hp
        rw [lookup_cons, ho]
        have : (p == B.id) = false := by simpa using hp
        rw [this]
      obtain ⟨hw1, hw2, hw3⟩ := ownOutput_ok hw
      refine ⟨⟨rfl, rfl, rfl⟩, ?_, ⟨w.1.take w.2, ?_, take_prefix _ _, hw2⟩, by rw [hex]; exact inv.extra,
        Or.inr ⟨hw1, fun hn hs hl hf h1 h2 => hw3 hn ?_ hf h1 h2⟩, ?_, ?_⟩
      · intro p s hp
        rw [hother p (by rintro rfl; rw [hnone] at hp; simp at hp)]
        exact hp
      · rw [lookup_cons]; simp
      · have : st'.extra.filter (fun e => e.1 == B.id) = [] := by
          rw [filter_eq_nil_iff]
          intro e he hb'
          rw [hex] at he
          obtain ⟨A, hA, hid, hne⟩ := inv.extra e he
          rw [← hid] at hb'
          obtain rfl := same_id wf hA hB (by simpa using hb')
          exact hne hs
        simp [DState.vars, hl, this]
      · intro p hp
        by_cases e : p = B.id
        · exact Or.inr (Or.inl e)
        · rw [hother p e] at hp; exact Or.inl hp
      · intro J hJ hl hne
        refine Or.inl ⟨hin _ hne, fun hn p hp => ?_⟩
        rw [hother p (by rintro rfl; exact unif_none wf hu hJ hl hp)]
        exact hn p hp
  | some j =>
    obtain ⟨hj, hjl, hbj⟩ := unif_some wf hu
    rw [hu] at h
    simp only at h
    rw [if_pos (by rw [(preds_perm wf hj).length_eq]; exact hjl)] at h
    cases hl : st'.outStacks.lookup B.id with
    | some o =>
      rw [hl] at h
      simp only [Except.ok.injEq] at h
      subst h
      rw [ho]
      refine ⟨⟨rfl, rfl, rfl⟩, fun p s hp => hp, ⟨o, by rw [← ho]; exact hl, prefix_rfl, fun _ => rfl⟩,
        by rw [hex]; exact inv.extra, Or.inl ⟨j, hj, hjl, hbj⟩, fun p hp => Or.inl hp, ?_⟩
      intro J hJ hl2 hne
      exact Or.inl ⟨hin _ hne, fun hn => hn⟩
    | none =>
      rw [hl] at h
      simp only at h
      cases hun : unifyAt c st' B input j with
      | error e => rw [hun] at h; simp [Except.bind] at h
      | ok st1 =>
        rw [hun] at h
        obtain ⟨u, e, rfl, hk, hag, hee⟩ := unifyAt_ok wf hj hun
        simp only [Except.bind] at h
        cases ho1 : List.lookup B.id (u.stacks ++ st'.outStacks) with
        | none => rw [ho1] at h; simp [orKey, Except.map] at h
        | some o =>
          rw [ho1] at h
          simp only [orKey, Except.map, Except.ok.injEq] at h
          subst h
          have hleft : (∀ p ∈ j.comesFrom, st.outStacks.lookup p = none) := by
            rcases inv.join j hj hjl with ⟨h1, _⟩ | ⟨C, h1, _⟩
            · exact h1
            · obtain ⟨k, hk⟩ := mem_iff_getElem?.1 ((preds_perm wf hj).mem_iff.2 hbj)
              obtain ⟨s, hs, _⟩ := h1 k _ hk
              rw [← ho, hl] at hs
              simp at hs
          have hkeys : ∀ p, (u.stacks.lookup p).isSome ↔ p ∈ j.comesFrom := by
            intro p; rw [lookup_isSome_iff, hk]; exact (preds_perm wf hj).mem_iff
          have hother : ∀ p, p ∉ j.comesFrom → List.lookup p (u.stacks ++ st'.outStacks) = st.outStacks.lookup p := by
            intro p hp
            rw [List.lookup_append, ho]
            have : u.stacks.lookup p = none := by
              rw [← Option.not_isSome_iff_eq_none, hkeys]; exact hp
            rw [this]; rfl
          refine ⟨⟨rfl, rfl, rfl⟩, ?_, ⟨o, ho1, prefix_rfl, fun _ => rfl⟩,
            fun x hx => (hee x hx).elim (fun h => inv.extra x (hex ▸ h)) id, Or.inl ⟨j, hj, hjl, hbj⟩, ?_, ?_⟩
          · intro p s hp
            simp only
            rw [hother p (fun hc => by rw [hleft p hc] at hp; simp at hp)]
            exact hp
          · intro p hp
            by_cases hc : p ∈ j.comesFrom
            · exact Or.inr (Or.inr ⟨j, hj, hjl, hc⟩)
            · simp only at hp
              rw [hother p hc] at hp; exact Or.inl hp
          · intro J hJ hJl hne
            by_cases e : J = j
            · subst e
              refine Or.inr ⟨hleft, u.combined, ?_, by simp⟩
              intro k p hk2
              have hpc : p ∈ J.comesFrom := (preds_perm wf hJ).mem_iff.1 (mem_of_getElem? hk2)
              obtain ⟨s, hs⟩ := Option.isSome_iff_exists.1 ((hkeys p).2 hpc)
              refine ⟨s, ?_, hag k p s hk2 (lookup_some_mem hs)⟩
              simp only
              rw [List.lookup_append, hs]; rfl
            · have hid : J.id ≠ j.id := fun e' => e (same_id wf hJ hj e')
              refine Or.inl ⟨?_, fun hn p hp => ?_⟩
              · simp only
                rw [lookup_cons]
                have : (J.id == j.id) = false := by simpa using hid
                rw [this]
                exact hin _ hne
              · simp only
                rw [hother p (fun hc => e (one J hJ j hj hJl hjl p hp hc))]
                exact hn p hp

/-- Constructing one more block keeps the invariant. -/
theorem construct_inv (one : OneJoin c) {st : DState} (inv : DInv c st) {B : LBlock} (hB : B ∈ c.blocks) (hb : B.id ∉ st.traversed)
    {heap : List (Nat × Nat × String)} {st1 : DState}
    (h : constructBlock c { st with heap := heap, traversed := B.id :: st.traversed } B = .ok st1) :
    DInv c st1 ∧ st1.traversed = B.id :: st.traversed ∧ st1.heap = heap := by
  unfold constructBlock at h
  cases hi : inputStack c { st with heap := heap, traversed := B.id :: st.traversed } B with
  | error e => rw [hi] at h; simp [Except.bind] at h
  | ok input0 =>
    rw [hi] at h
    simp only [Except.bind] at h
    obtain ⟨hs1, hs2, hs3⟩ := inputStack_ok wf inv hB hb (input := input0) hi
    generalize hinp : (if c.canJunk B.id = true then forgetValues input0
      (DState.vars { st with heap := heap, traversed := B.id :: st.traversed } c.liveIn B.id) else input0) = input at h
    have hpre : input <+: input0 := by
      rw [← hinp]
      split
      · unfold forgetValues; exact take_prefix _ _
      · exact prefix_rfl
    have hpre2 : NoJunk c → input = input0 := fun hn => by rw [← hinp, hn B.id]; simp
    cases hout : outputStack c { st with heap := heap, traversed := B.id :: st.traversed, inStacks := (B.id, input) :: st.inStacks }
        B input with
    | error e => rw [hout] at h; simp [Except.map] at h
    | ok r =>
      rw [hout] at h
      simp only [Except.map, Except.ok.injEq] at h
      subst h
      obtain ⟨⟨ht, hsp, hh⟩, hmono, ⟨o, ho, hop⟩, hextra, hfinal, hearly, hjoin⟩ := outputStack_ok wf one inv hB hb
        (st' := { st with heap := heap, traversed := B.id :: st.traversed, inStacks := (B.id, input) :: st.inStacks }) rfl rfl
        (fun n hn => by
          have : (n == B.id) = false := by simpa using hn
          simp only [lookup_cons, this]) hout
      simp only at ht hsp hh
      have hkeys : ∀ n s t, (n, s, t) ∈ st.specs → n ∈ st.traversed := by
        intro n s t hm
        rw [← inv.specs]
        exact mem_map.2 ⟨_, hm, rfl⟩
      refine ⟨?_, ht, hh⟩
      constructor
      · simp only [ht]; exact nodup_cons.2 ⟨hb, inv.nodup⟩
      · simp only [ht, hsp, map_cons, inv.specs]
      · simp only [ht]
        intro b hm
        rcases mem_cons.1 hm with rfl | hm
        · exact ⟨B, hB, rfl⟩
        · exact inv.blocks b hm
      · intro b s t hm
        simp only [hsp] at hm
        rcases mem_cons.1 hm with e | hm
        · simp only [Prod.mk.injEq] at e
          obtain ⟨rfl, rfl, rfl⟩ := e
          exact ⟨o, ho, hop⟩
        · obtain ⟨o', ho', hp'⟩ := inv.out b s t hm
          exact ⟨o', hmono _ _ ho', hp'⟩
      · intro b hs
        simp only [ht]
        rcases hearly b hs with h1 | h1 | h1
        · rcases inv.early b h1 with h2 | h2
          · exact Or.inl (mem_cons_of_mem _ h2)
          · exact Or.inr h2
        · exact Or.inl (h1 ▸ mem_cons_self)
        · exact Or.inr h1
      · intro J hJ hl
        simp only [ht, hsp]
        by_cases e : J = B
        · subst e
          refine Or.inr ⟨input0, Unif.mono wf (hs2 hl) hmono, fun hn => absurd mem_cons_self hn, ?_⟩
          intro s t hm
          rcases mem_cons.1 hm with e | hm
          · simp only [Prod.mk.injEq] at e
            exact e.2.1 ▸ ⟨hpre, hpre2⟩
          · exact absurd (hkeys _ _ _ hm) hb
        · have hid : J.id ≠ B.id := fun e' => e (same_id wf hJ hB e')
          have hspec : ∀ s t, (J.id, s, t) ∈ (B.id, input, r.2) :: st.specs → (J.id, s, t) ∈ st.specs := by
            intro s t hm
            rcases mem_cons.1 hm with e | hm
            · simp only [Prod.mk.injEq] at e; exact absurd e.1 hid
            · exact hm
          rcases inv.join J hJ hl with ⟨h1, h2⟩ | ⟨C, h1, h2, h3⟩
          · rcases hjoin J hJ hl hid with ⟨_, h4⟩ | ⟨_, C, h4, h5⟩
            · exact Or.inl ⟨h4 h1, fun hm => (mem_cons.1 hm).elim hid h2⟩
            · exact Or.inr ⟨C, h4, fun _ => h5, fun s t hm => absurd (hkeys _ _ _ (hspec s t hm)) h2⟩
          · refine Or.inr ⟨C, Unif.mono wf h1 hmono, fun hn => ?_, fun s t hm => h3 s t (hspec s t hm)⟩
            rcases hjoin J hJ hl hid with ⟨h4, _⟩ | ⟨h4, _⟩
            · rw [h4]; exact h2 (fun hm => hn (mem_cons_of_mem _ hm))
            · exfalso
              have : J.preds ≠ [] := by
                intro e'
                have := (preds_perm wf hJ).length_eq
                rw [e'] at this; simp at this; rw [← this] at hl; simp at hl
              obtain ⟨p, l, hp⟩ := exists_cons_of_ne_nil this
              obtain ⟨s, hs, _⟩ := h1 0 p (by rw [hp]; rfl)
              rw [h4 p ((preds_perm wf hJ).mem_iff.1 (by rw [hp]; exact mem_cons_self))] at hs
              simp at hs
      · intro S hS p hp s t hm
        simp only [hsp] at hm
        rcases mem_cons.1 hm with e | hm
        · simp only [Prod.mk.injEq] at e
          obtain rfl := same_id wf hS hB e.1
          exact ⟨input0, hmono _ _ (hs1 p hp), e.2.1 ▸ ⟨hpre, hpre2⟩⟩
        · obtain ⟨o', ho', hp'⟩ := inv.single S hS p hp s t hm
          exact ⟨o', hmono _ _ ho', hp'⟩
      · intro S hS h0 s t hm
        simp only [hsp] at hm
        rcases mem_cons.1 hm with e | hm
        · simp only [Prod.mk.injEq] at e
          obtain rfl := same_id wf hS hB e.1
          rw [← hs3 h0]
          exact e.2.1 ▸ ⟨hpre, hpre2⟩
        · exact inv.start S hS h0 s t hm
      · exact hextra
      · intro A hA s t hm
        simp only [hsp] at hm
        rcases mem_cons.1 hm with e | hm
        · simp only [Prod.mk.injEq] at e
          obtain rfl := same_id wf hA hB e.1
          rw [e.2.1, e.2.2]
          exact hfinal
        · exact inv.final A hA s t hm

end

end Grey.Layout
