/-
The passes over all objects do for every object what they do for it alone, if the names of the objects are distinct.
-/
import Verif.Nested.Spec
namespace Grey.Nested
open List Grey.Cfg Grey.Inline Grey.Prep Grey.Lower Grey.Program Grey.Parser Grey.Sfs Grey.SymExec Grey.Front Grey.Whole

section
variable {α β γ : Type}

mutual
/-- Applying a function to every object. -/
def mapT (f : α → β) : Tree α → Tree β
  | .node a ts => .node (f a) (mapTs f ts)
def mapTs (f : α → β) : List (Tree α) → List (Tree β)
  | [] => []
  | t :: ts => mapT f t :: mapTs f ts
end

mutual
theorem mapTree_comp (f : β → Option γ) (g : α → β) (h : α → γ) : ∀ t : Tree α, (∀ a ∈ t.all, f (g a) = some (h a)) → mapTree f (mapT g t) = some (mapT h t)
  | .node a ts, hh => by
    have h1 := hh a (by simp [Tree.all])
    have h2 := mapTrees_comp f g h ts fun b hb => hh b (by simp [Tree.all, hb])
    simp [mapTree, mapT, h1, h2]
theorem mapTrees_comp (f : β → Option γ) (g : α → β) (h : α → γ) : ∀ ts : List (Tree α), (∀ a ∈ Tree.alls ts, f (g a) = some (h a)) →
    mapTrees f (mapTs g ts) = some (mapTs h ts)
  | [], _ => by simp [mapTrees, mapTs]
  | t :: ts, hh => by
    have h1 := mapTree_comp f g h t fun b hb => hh b (by simp [Tree.alls, hb])
    have h2 := mapTrees_comp f g h ts fun b hb => hh b (by simp [Tree.alls, hb])
    simp [mapTrees, mapTs, h1, h2]
end

mutual
theorem mapTree_some (f : α → Option β) (g : α → β) : ∀ t : Tree α, (∀ a ∈ t.all, f a = some (g a)) → mapTree f t = some (mapT g t)
  | .node a ts, h => by
    have h1 := h a (by simp [Tree.all])
    have h2 := mapTrees_some f g ts fun b hb => h b (by simp [Tree.all, hb])
    simp [mapTree, mapT, h1, h2]
theorem mapTrees_some (f : α → Option β) (g : α → β) : ∀ ts : List (Tree α), (∀ a ∈ Tree.alls ts, f a = some (g a)) → mapTrees f ts = some (mapTs g ts)
  | [], _ => by simp [mapTrees, mapTs]
  | t :: ts, h => by
    have h1 := mapTree_some f g t fun b hb => h b (by simp [Tree.alls, hb])
    have h2 := mapTrees_some f g ts fun b hb => h b (by simp [Tree.alls, hb])
    simp [mapTrees, mapTs, h1, h2]
end

mutual
theorem mapT_all (g : α → β) : ∀ t : Tree α, (mapT g t).all = t.all.map g
  | .node a ts => by simp [mapT, Tree.all, mapTs_alls g ts]
theorem mapTs_alls (g : α → β) : ∀ ts : List (Tree α), Tree.alls (mapTs g ts) = (Tree.alls ts).map g
  | [] => by simp [mapTs, Tree.alls]
  | t :: ts => by simp [mapTs, Tree.alls, mapT_all g t, mapTs_alls g ts]
end

mutual
theorem mapT_mapT (g : α → β) (h : β → γ) : ∀ t : Tree α, mapT h (mapT g t) = mapT (fun a => h (g a)) t
  | .node a ts => by simp [mapT, mapTs_mapTs g h ts]
theorem mapTs_mapTs (g : α → β) (h : β → γ) : ∀ ts : List (Tree α), mapTs h (mapTs g ts) = mapTs (fun a => h (g a)) ts
  | [] => by simp [mapTs]
  | t :: ts => by simp [mapTs, mapT_mapT g h t, mapTs_mapTs g h ts]
end

end

mutual
theorem mapT_id {α : Type} : ∀ t : Tree α, mapT (fun a => a) t = t
  | .node a ts => by simp [mapT, mapTs_id ts]
theorem mapTs_id {α : Type} : ∀ ts : List (Tree α), mapTs (fun a => a) ts = ts
  | [] => by simp [mapTs]
  | t :: ts => by simp [mapTs, mapT_id t, mapTs_id ts]
end

/-! ### Inlining -/

/-- The names of the objects. -/
def namesOf (us : List CObj) : List String := us.map (·.name)

mutual
theorem infoTree_eq : ∀ (t : Tree CObj) (d : String → Option CallInfo), (namesOf t.all).Nodup →
    (∀ u ∈ t.all, infoTree d t u.name = some (callSites u.fns u.obj)) ∧ ∀ n, n ∉ namesOf t.all → infoTree d t n = d n
  | .node u ts, d, hn => by
    simp only [Tree.all, namesOf, map_cons, nodup_cons] at hn
    obtain ⟨h1, h2⟩ := infoTrees_eq ts (fun _ => none) hn.2
    refine ⟨?_, ?_⟩
    · intro v hv
      simp only [Tree.all, mem_cons] at hv
      rcases hv with rfl | hv
      · simp only [infoTree, dmerge, h2 _ hn.1]
        simp [dset]
      · simp only [infoTree, dmerge, h1 v hv]
        simp
    · intro n hn'
      simp only [Tree.all, namesOf, map_cons, mem_cons, not_or] at hn'
      simp only [infoTree, dmerge, h2 n hn'.2]
      simp [dset, hn'.1]
theorem infoTrees_eq : ∀ (ts : List (Tree CObj)) (d : String → Option CallInfo), (namesOf (Tree.alls ts)).Nodup →
    (∀ u ∈ Tree.alls ts, infoTrees d ts u.name = some (callSites u.fns u.obj)) ∧ ∀ n, n ∉ namesOf (Tree.alls ts) → infoTrees d ts n = d n
  | [], d, _ => ⟨by simp [Tree.alls], by simp [infoTrees]⟩
  | t :: ts, d, hn => by
    simp only [Tree.alls, namesOf, map_append] at hn
    obtain ⟨n1, n2, n3⟩ := nodup_append.1 hn
    obtain ⟨h1, h2⟩ := infoTree_eq t d n1
    obtain ⟨h3, h4⟩ := infoTrees_eq ts (infoTree d t) n2
    refine ⟨?_, ?_⟩
    · intro v hv
      simp only [Tree.alls, mem_append] at hv
      rcases hv with hv | hv
      · have : v.name ∉ namesOf (Tree.alls ts) := fun h => n3 v.name (mem_map.2 ⟨v, hv, rfl⟩) v.name h rfl
        simp only [infoTrees, h4 _ this]
        exact h1 v hv
      · exact h3 v hv
    · intro n hn'
      simp only [Tree.alls, namesOf, map_append, mem_append, not_or] at hn'
      simp only [infoTrees, h4 n hn'.2]
      exact h2 n hn'.1
end

/-- Inlining in one object, with the information about its own calls. -/
def inlineSelf (topo : CallInfo → List String) (u : CObj) : Option CObj := inlineOne topo (callSites u.fns u.obj) u

mutual
theorem inlineTree_eq (topo : CallInfo → List String) : ∀ (t : Tree CObj) (d : String → Option CallInfo), (namesOf t.all).Nodup →
    d t.root.name = some (callSites t.root.fns t.root.obj) → inlineTree topo d t = mapTree (inlineSelf topo) t
  | .node u ts, d, hn, hd => by
    simp only [Tree.all, namesOf, map_cons, nodup_cons] at hn
    have := inlineTrees_eq topo ts (infoTrees (fun _ => none) ts) hn.2 (infoTrees_eq ts _ hn.2).1
    simp only [Tree.root] at hd
    simp only [inlineTree, mapTree, hd, this, inlineSelf, Option.bind_some]
theorem inlineTrees_eq (topo : CallInfo → List String) : ∀ (ts : List (Tree CObj)) (d : String → Option CallInfo), (namesOf (Tree.alls ts)).Nodup →
    (∀ u ∈ Tree.alls ts, d u.name = some (callSites u.fns u.obj)) → inlineTrees topo d ts = mapTrees (inlineSelf topo) ts
  | [], d, _, _ => by simp [inlineTrees, mapTrees]
  | t :: ts, d, hn, hd => by
    simp only [Tree.alls, namesOf, map_append] at hn
    obtain ⟨n1, n2, n3⟩ := nodup_append.1 hn
    have hr : t.root ∈ t.all := by cases t; simp [Tree.root, Tree.all]
    have h1 := inlineTree_eq topo t d n1 (hd _ (by simp [Tree.alls, hr]))
    have h2 := inlineTrees_eq topo ts d n2 fun u hu => hd u (by simp [Tree.alls, hu])
    simp only [inlineTrees, mapTrees, h1, h2]
end

/-! ### Jumps and tags -/

section
variable {α : Type} {g : α → CObj} {f : α → Obj} {T : α → TagDict}

mutual
theorem insertTree_eq : ∀ (t : Tree α) (d : String → Option TagDict), (namesOf (t.all.map g)).Nodup →
    (∀ u ∈ t.all, insertObj (g u).fns (g u).obj = some (f u, T u)) →
    ∃ e, insertTree d (mapT g t) = some (mapT (fun u => { g u with obj := f u }) t, e) ∧ (∀ u ∈ t.all, e (g u).name = some (T u)) ∧
      ∀ n, n ∉ namesOf (t.all.map g) → e n = d n
  | .node u ts, d, hn, h => by
    simp only [Tree.all, namesOf, map_cons, nodup_cons] at hn
    obtain ⟨e, h1, h2, h3⟩ := insertTrees_eq ts (fun _ => none) hn.2 fun v hv => h v (by simp [Tree.all, hv])
    refine ⟨dmerge (dset d (g u).name (T u)) e, ?_, ?_, ?_⟩
    · simp [insertTree, mapT, h u (by simp [Tree.all]), h1]
    · intro v hv
      simp only [Tree.all, mem_cons] at hv
      rcases hv with rfl | hv
      · simp only [dmerge, h3 _ hn.1]
        simp [dset]
      · simp [dmerge, h2 v hv]
    · intro n hn'
      simp only [Tree.all, namesOf, map_cons, mem_cons, not_or] at hn'
      simp only [dmerge, h3 n hn'.2]
      simp [dset, hn'.1]
theorem insertTrees_eq : ∀ (ts : List (Tree α)) (d : String → Option TagDict), (namesOf ((Tree.alls ts).map g)).Nodup →
    (∀ u ∈ Tree.alls ts, insertObj (g u).fns (g u).obj = some (f u, T u)) →
    ∃ e, insertTrees d (mapTs g ts) = some (mapTs (fun u => { g u with obj := f u }) ts, e) ∧ (∀ u ∈ Tree.alls ts, e (g u).name = some (T u)) ∧
      ∀ n, n ∉ namesOf ((Tree.alls ts).map g) → e n = d n
  | [], d, _, _ => ⟨d, by simp [insertTrees, mapTs], by simp [Tree.alls], by simp⟩
  | t :: ts, d, hn, h => by
    simp only [Tree.alls, namesOf, map_append] at hn
    obtain ⟨n1, n2, n3⟩ := nodup_append.1 hn
    obtain ⟨e, h1, h2, h3⟩ := insertTree_eq t d n1 fun v hv => h v (by simp [Tree.alls, hv])
    obtain ⟨e', h4, h5, h6⟩ := insertTrees_eq ts e n2 fun v hv => h v (by simp [Tree.alls, hv])
    refine ⟨e', by simp [insertTrees, mapTs, h1, h4], ?_, ?_⟩
    · intro v hv
      simp only [Tree.alls, mem_append] at hv
      rcases hv with hv | hv
      · rw [h6 _ fun h => n3 (g v).name (mem_map.2 ⟨g v, mem_map.2 ⟨v, hv, rfl⟩, rfl⟩) (g v).name h rfl]
        exact h2 v hv
      · exact h5 v hv
    · intro n hn'
      simp only [Tree.alls, namesOf, map_append, mem_append, not_or] at hn'
      rw [h6 n hn'.2, h3 n hn'.1]
end

end

/-! ### Splitting -/

section
variable {α : Type} {g : α → CObj} {S : α → TagDict} {f : α → Obj} {T : α → TagDict}

mutual
theorem splitTree_eq : ∀ (t : Tree α) (d : String → Option TagDict), (namesOf (t.all.map g)).Nodup → (∀ u ∈ t.all, d (g u).name = some (S u)) →
    (∀ u ∈ t.all, splitObj (g u).fns (g u).obj (S u) = some (f u, T u)) →
    ∃ e, splitTree d (mapT g t) = some (mapT (fun u => { g u with obj := f u }) t, e) ∧ (∀ u ∈ t.all, e (g u).name = some (T u)) ∧
      ∀ n, n ∉ namesOf (t.all.map g) → e n = d n
  | .node u ts, d, hn, hd, h => by
    simp only [Tree.all, namesOf, map_cons, nodup_cons] at hn
    obtain ⟨e, h1, h2, h3⟩ := splitTrees_eq ts (dset d (g u).name (T u)) hn.2 (by
      intro v hv
      have : (g v).name ≠ (g u).name := fun e => hn.1 (e ▸ mem_map.2 ⟨g v, mem_map.2 ⟨v, hv, rfl⟩, rfl⟩)
      simp only [dset, if_neg this]
      exact hd v (by simp [Tree.all, hv])) fun v hv => h v (by simp [Tree.all, hv])
    refine ⟨e, ?_, ?_, ?_⟩
    · simp [splitTree, mapT, hd u (by simp [Tree.all]), h u (by simp [Tree.all]), h1]
    · intro v hv
      simp only [Tree.all, mem_cons] at hv
      rcases hv with rfl | hv
      · rw [h3 _ hn.1]
        simp [dset]
      · exact h2 v hv
    · intro n hn'
      simp only [Tree.all, namesOf, map_cons, mem_cons, not_or] at hn'
      rw [h3 n hn'.2]
      simp [dset, hn'.1]
theorem splitTrees_eq : ∀ (ts : List (Tree α)) (d : String → Option TagDict), (namesOf ((Tree.alls ts).map g)).Nodup →
    (∀ u ∈ Tree.alls ts, d (g u).name = some (S u)) → (∀ u ∈ Tree.alls ts, splitObj (g u).fns (g u).obj (S u) = some (f u, T u)) →
    ∃ e, splitTrees d (mapTs g ts) = some (mapTs (fun u => { g u with obj := f u }) ts, e) ∧ (∀ u ∈ Tree.alls ts, e (g u).name = some (T u)) ∧
      ∀ n, n ∉ namesOf ((Tree.alls ts).map g) → e n = d n
  | [], d, _, _, _ => ⟨d, by simp [splitTrees, mapTs], by simp [Tree.alls], by simp⟩
  | t :: ts, d, hn, hd, h => by
    simp only [Tree.alls, namesOf, map_append] at hn
    obtain ⟨n1, n2, n3⟩ := nodup_append.1 hn
    obtain ⟨e, h1, h2, h3⟩ := splitTree_eq t d n1 (fun v hv => hd v (by simp [Tree.alls, hv])) fun v hv => h v (by simp [Tree.alls, hv])
    obtain ⟨e', h4, h5, h6⟩ := splitTrees_eq ts e n2 (by
      intro v hv
      rw [h3 _ fun h => n3 (g v).name h (g v).name (mem_map.2 ⟨g v, mem_map.2 ⟨v, hv, rfl⟩, rfl⟩) rfl]
      exact hd v (by simp [Tree.alls, hv])) fun v hv => h v (by simp [Tree.alls, hv])
    refine ⟨e', by simp [splitTrees, mapTs, h1, h4], ?_, ?_⟩
    · intro v hv
      simp only [Tree.alls, mem_append] at hv
      rcases hv with hv | hv
      · rw [h6 _ fun h => n3 (g v).name (mem_map.2 ⟨g v, mem_map.2 ⟨v, hv, rfl⟩, rfl⟩) (g v).name h rfl]
        exact h2 v hv
      · exact h5 v hv
    · intro n hn'
      simp only [Tree.alls, namesOf, map_append, mem_append, not_or] at hn'
      rw [h6 n hn'.2, h3 n hn'.1]
end

end

/-! ### The front end -/

theorem combineComps_isSome {names : List String} (x : String) : ∀ (cs : List (Option String)) (O O' : Obj), combineComps names cs O = some O' →
    (O'.fns x).isSome = (O.fns x).isSome := by
  intro cs
  induction cs with
  | nil => intro O O' h; simp only [combineComps, Option.some.injEq] at h; rw [h]
  | cons c cs ih =>
    intro O O' h
    simp only [combineComps] at h
    obtain ⟨K, -, h⟩ := Option.bind_eq_some_iff.1 h
    obtain ⟨G, -, h⟩ := Option.bind_eq_some_iff.1 h
    rw [ih _ _ h]
    cases c with
    | none => rfl
    | some g =>
      simp only [Obj.set]
      by_cases e : x = g <;> simp [e]

/-- The passes, for one object. -/
theorem frontEnd_passes {topo : CallInfo → List String} {u : CObj} {names' : List String} {O' : Obj} {T : TagDict}
    (h : frontEnd u.fns (topo (callSites u.fns (renameObj u.fns u.obj))) u.obj = some (names', O', T)) :
    ∃ O1 O2 O3 T3, inlineSelf topo (renameOne u) = some ⟨u.name, names', O1⟩ ∧ combineOne ⟨u.name, names', O1⟩ = some ⟨u.name, names', O2⟩ ∧
      insertObj names' O2 = some (O3, T3) ∧ splitObj names' O3 T3 = some (O', T) := by
  simp only [frontEnd, preprocess, inlinePass] at h
  obtain ⟨O2, h1, h2⟩ := Option.bind_eq_some_iff.1 h
  obtain ⟨O1, h3, h4⟩ := Option.bind_eq_some_iff.1 h1
  obtain ⟨st, h5, rfl⟩ := Option.map_eq_some_iff.1 h3
  have hf : (u.fns.filter fun f => (O2.fns f).isSome) = u.fns.filter fun f => (st.1.fns f).isSome := by
    congr 1
    funext f
    exact combineComps_isSome f _ _ _ h4
  rw [hf] at h2
  obtain ⟨⟨O5, T5⟩, h6, h7⟩ := Option.map_eq_some_iff.1 h2
  simp only [Prod.mk.injEq] at h7
  obtain ⟨rfl, rfl, rfl⟩ := h7
  simp only [lower] at h6
  obtain ⟨⟨O3, T3⟩, h8, h9⟩ := Option.bind_eq_some_iff.1 h6
  refine ⟨st.1, O2, O3, T3, ?_, ?_, h8, h9⟩
  · simp only [inlineSelf, inlineOne, renameOne]
    rw [h5]
    rfl
  · simp only [combineOne, h4]
    rfl

/-- **The front end works on every object by itself**, if the names of all objects are distinct. -/
theorem frontDocs_eq {α : Type} {topo : CallInfo → List String} {ts : List (Tree α)} {g : α → CObj} (hn : (namesOf ((Tree.alls ts).map g)).Nodup)
    {names' : α → List String} {O' : α → Obj} {T : α → TagDict}
    (h : ∀ u ∈ Tree.alls ts, frontEnd (g u).fns (topo (callSites (g u).fns (renameObj (g u).fns (g u).obj))) (g u).obj = some (names' u, O' u, T u)) :
    ∃ e, frontDocs topo (mapTs g ts) = some (mapTs (fun u => ⟨(g u).name, names' u, O' u⟩) ts, e) ∧ ∀ u ∈ Tree.alls ts, e (g u).name = some (T u) := by
  classical
  have hp : ∀ u : α, ∃ q : Obj × Obj × Obj × TagDict, u ∈ Tree.alls ts →
      inlineSelf topo (renameOne (g u)) = some ⟨(g u).name, names' u, q.1⟩ ∧
        combineOne ⟨(g u).name, names' u, q.1⟩ = some ⟨(g u).name, names' u, q.2.1⟩ ∧
        insertObj (names' u) q.2.1 = some (q.2.2.1, q.2.2.2) ∧ splitObj (names' u) q.2.2.1 q.2.2.2 = some (O' u, T u) := by
    intro u
    by_cases hu : u ∈ Tree.alls ts
    · obtain ⟨O1, O2, O3, T3, hq⟩ := frontEnd_passes (h u hu)
      exact ⟨(O1, O2, O3, T3), fun _ => hq⟩
    · exact ⟨((g u).obj, (g u).obj, (g u).obj, []), fun h => absurd h hu⟩
  choose q hq using hp
  have hsame : ∀ k : α → CObj, (∀ u, (k u).name = (g u).name) → (namesOf ((Tree.alls ts).map k)).Nodup := by
    intro k hk
    have : namesOf ((Tree.alls ts).map k) = namesOf ((Tree.alls ts).map g) := by simp [namesOf, Function.comp_def, hk]
    rw [this]
    exact hn
  have e1 : mapTrees (fun u => some (renameOne u)) (mapTs g ts) = some (mapTs (fun u => renameOne (g u)) ts) := mapTrees_comp _ _ _ ts fun _ _ => rfl
  have n1 : (namesOf (Tree.alls (mapTs (fun u => renameOne (g u)) ts))).Nodup := by
    rw [mapTs_alls]
    exact hsame _ fun _ => rfl
  have e2 : inlineTrees topo (infoTrees (fun _ => none) (mapTs (fun u => renameOne (g u)) ts)) (mapTs (fun u => renameOne (g u)) ts) =
      some (mapTs (fun u => ⟨(g u).name, names' u, (q u).1⟩) ts) := by
    rw [inlineTrees_eq topo _ _ n1 (infoTrees_eq _ _ n1).1]
    exact mapTrees_comp _ _ _ ts fun u hu => (hq u hu).1
  have e3 : mapTrees combineOne (mapTs (fun u => (⟨(g u).name, names' u, (q u).1⟩ : CObj)) ts) =
      some (mapTs (fun u => ⟨(g u).name, names' u, (q u).2.1⟩) ts) := mapTrees_comp _ _ _ ts fun u hu => (hq u hu).2.1
  obtain ⟨d, e4, d1, -⟩ := insertTrees_eq (g := fun u => ⟨(g u).name, names' u, (q u).2.1⟩) (f := fun u => (q u).2.2.1) (T := fun u => (q u).2.2.2) ts
    (fun _ => none) (hsame _ fun _ => rfl) fun u hu => (hq u hu).2.2.1
  obtain ⟨e, e5, d2, -⟩ := splitTrees_eq (g := fun u => ⟨(g u).name, names' u, (q u).2.2.1⟩) (S := fun u => (q u).2.2.2) (f := O') (T := T) ts d
    (hsame _ fun _ => rfl) d1 fun u hu => (hq u hu).2.2.2
  refine ⟨e, ?_, d2⟩
  simp only [frontDocs, e1, Option.bind_some, e2, e3, e4]
  exact e5

end Grey.Nested
