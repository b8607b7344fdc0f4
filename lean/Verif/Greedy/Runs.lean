import Verif.Greedy.Levels

/-!
# The order of writes and loads

What `sortLoop` (the main loop of `sort_with_deps`) gives for joined levels.
-/

namespace Grey.Greedy
open List

/-! ### Runs of levels -/

/-- How `joinLevels` cuts the levels from `i` up to `n`: each entry is a run of levels, with writes only in the first one, and after an entry
with loads there is none without writes. -/
inductive Runs (stores loads : Nat → List String) (n : Nat) : Nat → List (List String × List String) → Prop
  | nil : Runs stores loads n n []
  | cons {i j : Nat} {l : List String} {es : List (List String × List String)} (lt : i < j) (le : j ≤ n)
      (empty : ∀ k, i < k → k < j → stores k = []) (some : stores i ≠ [] ∨ l ≠ [])
      (inner : ∀ o, o ∈ l → ∃ k, i ≤ k ∧ k < j ∧ o ∈ loads k) (next : l ≠ [] → j < n → stores j ≠ [])
      (rest : Runs stores loads n j es) : Runs stores loads n i ((stores i, l) :: es)

theorem joinLoads_spec {stores loads : Nat → List String} {n : Nat} (hg : ∀ k, k < n → stores k ≠ [] ∨ loads k ≠ [])
    (he : ∀ k, n ≤ k → loads k = []) (f i : Nat) (hi : i ≤ n) (hf : n ≤ i + f) :
    i ≤ (joinLoads stores loads f i).2 ∧ (joinLoads stores loads f i).2 ≤ n ∧
      (∀ k, i ≤ k → k < (joinLoads stores loads f i).2 → stores k = []) ∧
      (∀ o ∈ (joinLoads stores loads f i).1, ∃ k, i ≤ k ∧ k < (joinLoads stores loads f i).2 ∧ o ∈ loads k) ∧
      ((joinLoads stores loads f i).2 < n → stores (joinLoads stores loads f i).2 ≠ []) := by
  induction f generalizing i with
  | zero =>
    simp only [joinLoads]
    exact ⟨Nat.le_refl _, hi, fun k h1 h2 => by omega, by simp, fun h => by omega⟩
  | succ f ih =>
    unfold joinLoads
    split
    · rename_i h
      simp only [Bool.and_eq_true, Bool.not_eq_true', isEmpty_eq_false_iff, List.isEmpty_iff] at h
      have hin : i < n := by
        by_contra hcon
        exact h.1 (he i (by omega))
      obtain ⟨h1, h2, h3, h4, h5⟩ := ih (i + 1) hin (by omega)
      refine ⟨by dsimp only; omega, h2, ?_, ?_, h5⟩
      · intro k hk1 hk2
        by_cases hki : k = i
        · subst hki; exact h.2
        · exact h3 k (by omega) hk2
      · intro o ho
        dsimp only at ho
        rcases mem_append.1 ho with ho | ho
        · exact ⟨i, Nat.le_refl _, by dsimp only; omega, ho⟩
        · obtain ⟨k, hk1, hk2, hk3⟩ := h4 o ho
          exact ⟨k, by omega, hk2, hk3⟩
    · rename_i h
      refine ⟨Nat.le_refl _, hi, fun k h1 h2 => by dsimp only at h2; omega, by simp, ?_⟩
      intro hin
      dsimp only at hin ⊢
      simp only [Bool.and_eq_true, Bool.not_eq_true', isEmpty_eq_false_iff, List.isEmpty_iff, not_and] at h
      rcases hg i hin with hs | hl
      · exact hs
      · exact h hl

theorem joinLevels_runs {stores loads : Nat → List String} {n : Nat} (hg : ∀ k, k < n → stores k ≠ [] ∨ loads k ≠ [])
    (he : ∀ k, n ≤ k → stores k = [] ∧ loads k = []) (f i : Nat) (hi : i ≤ n) (hf : n ≤ i + f) :
    Runs stores loads n i (joinLevels stores loads n f i) := by
  induction f generalizing i with
  | zero =>
    obtain rfl : i = n := by omega
    exact .nil
  | succ f ih =>
    unfold joinLevels
    split
    · rename_i h
      simp only [Bool.and_eq_true, List.isEmpty_iff] at h
      obtain rfl : i = n := by
        by_contra hcon
        rcases hg i (by omega) with h' | h'
        · exact h' h.2
        · exact h' h.1
      exact .nil
    rename_i h
    simp only [Bool.and_eq_true, List.isEmpty_iff] at h
    have hin : i < n := by
      by_contra hcon
      exact h (he i (by omega)).symm
    split
    · rename_i hl
      simp only [List.isEmpty_iff] at hl
      exact .cons (by omega) hin (fun k h1 h2 => by omega) (.inl fun hs => h ⟨hl, hs⟩) (by simp) (by simp) (ih _ hin (by omega))
    · rename_i hl
      simp only [List.isEmpty_iff] at hl
      obtain ⟨h1, h2, h3, h4, h5⟩ := joinLoads_spec hg (fun k hk => (he k hk).2) n (i + 1) hin (by omega)
      dsimp only
      refine .cons (by omega) h2 (fun k hk1 hk2 => h3 k hk1 hk2) (.inr ?_) ?_ (fun _ => h5) (ih _ h2 (by omega))
      · intro hcon
        rw [append_eq_nil_iff] at hcon
        exact hl hcon.1
      · intro o ho
        rcases mem_append.1 ho with ho | ho
        · exact ⟨i, Nat.le_refl _, by omega, ho⟩
        · obtain ⟨k, hk1, hk2, hk3⟩ := h4 o ho
          exact ⟨k, by omega, hk2, hk3⟩

/-! ### One position -/

/-- `y` may come after `x`: it need not be executed before, unless neither of the two is a write. -/
def May (deps : List Dep) (x y : String) : Prop := (y, x) ∈ deps → isWrite x = false ∧ isWrite y = false

theorem emitStores_mem {deps : List Dep} {nostores l done : List String} {y : String} (h : y ∈ emitStores deps nostores l done) :
    y ∈ l ∨ (y ∈ nostores ∧ y ∉ done) := by
  induction l generalizing done with
  | nil => simp [emitStores] at h
  | cons so l ih =>
    unfold emitStores at h
    dsimp only at h
    rcases mem_append.1 h with h | h
    · simp only [depLoads, mem_filter, decide_eq_true_eq] at h
      exact .inr ⟨h.1.1, h.2⟩
    · rcases mem_cons.1 h with rfl | h
      · simp
      · rcases ih h with h | ⟨h1, h2⟩
        · simp [h]
        · exact .inr ⟨h1, fun hd => h2 (by simp [hd])⟩

theorem emitStores_may {deps : List Dep} {nostores l : List String} (done : List String) (hw : ∀ s ∈ l, isWrite s = true)
    (hn : ∀ o ∈ nostores, isWrite o = false) (h1 : ∀ s ∈ l, ∀ o ∈ nostores, (s, o) ∉ deps) (h2 : ∀ s ∈ l, ∀ t ∈ l, (s, t) ∉ deps) :
    (emitStores deps nostores l done).Pairwise (May deps) := by
  induction l generalizing done with
  | nil => simp [emitStores]
  | cons so l ih =>
    unfold emitStores
    dsimp only
    set new := (depLoads deps nostores so).filter fun lo => decide (lo ∉ done) with hnew
    have hnm : ∀ x ∈ new, x ∈ nostores := by
      intro x hx
      simp only [hnew, depLoads, mem_filter] at hx
      exact hx.1.1
    have ih' := ih (done ++ new) (fun s hs => hw s (by simp [hs])) (fun s hs o ho => h1 s (by simp [hs]) o ho)
      (fun s hs t ht => h2 s (by simp [hs]) t (by simp [ht]))
    rw [pairwise_append, pairwise_cons]
    refine ⟨?_, ⟨?_, ih'⟩, ?_⟩
    · rw [pairwise_iff_forall_sublist]
      intro x y hxy _
      exact ⟨hn x (hnm x (hxy.subset (by simp))), hn y (hnm y (hxy.subset (by simp)))⟩
    · intro y hy hd
      rcases emitStores_mem hy with hy | ⟨hy, hyd⟩
      · exact absurd hd (h2 y (by simp [hy]) so (by simp))
      · refine absurd ?_ hyd
        rw [mem_append]
        by_cases hdone : y ∈ done
        · exact .inl hdone
        · right
          simp only [hnew, depLoads, mem_filter]
          exact ⟨⟨hy, by simpa using hd⟩, by simpa using hdone⟩
    · intro x hx y hy hd
      have hcase : y ∈ so :: l ∨ y ∈ nostores := by
        rcases mem_cons.1 hy with rfl | hy
        · simp
        · rcases emitStores_mem hy with hy | ⟨hy, -⟩
          · simp [hy]
          · exact .inr hy
      rcases hcase with hy | hy
      · exact absurd hd (h1 y hy x (hnm x hx))
      · exact ⟨hn x (hnm x hx), hn y hy⟩

theorem emitStores_writes {deps : List Dep} {nostores l : List String} (done : List String) (hw : ∀ s ∈ l, isWrite s = true)
    (hn : ∀ o ∈ nostores, isWrite o = false) : (emitStores deps nostores l done).filter isWrite = l := by
  induction l generalizing done with
  | nil => simp [emitStores]
  | cons so l ih =>
    unfold emitStores
    dsimp only
    rw [filter_append, filter_cons_of_pos (hw so (by simp)), ih _ (fun s hs => hw s (by simp [hs]))]
    rw [filter_eq_nil_iff.2, nil_append]
    intro x hx
    simp only [depLoads, mem_filter] at hx
    simp [hn x hx.1.1]

theorem mapM_total {α β : Type} {f : α → Option β} (l : List α) (h : ∀ x ∈ l, ∃ y, f x = some y) : ∃ ys, l.mapM f = some ys := by
  induction l with
  | nil => exact ⟨[], rfl⟩
  | cons a l ih =>
    obtain ⟨y, hy⟩ := h a (by simp)
    obtain ⟨ys, hys⟩ := ih fun x hx => h x (by simp [hx])
    exact ⟨y :: ys, by simp [mapM_cons, hy, hys]⟩

theorem map_total {α β : Type} {o : Option α} {g : α → β} (h : ∃ y, o = some y) : ∃ z, o.map g = some z := by
  obtain ⟨y, rfl⟩ := h
  exact ⟨_, rfl⟩

theorem mapM_fst {α β : Type} {f : α → Option β} {l : List α} {r : List (α × β)}
    (h : l.mapM (fun x => (f x).map fun y => (x, y)) = some r) : r.map Prod.fst = l := by
  induction l generalizing r with
  | nil => simp only [mapM_nil] at h; cases h; rfl
  | cons a l ih =>
    rw [mapM_cons] at h
    cases hf : f a with
    | none => rw [hf] at h; simp at h
    | some y =>
      cases hl : l.mapM (fun x => (f x).map fun y => (x, y)) with
      | none => rw [hf, hl] at h; simp at h
      | some r' =>
        rw [hf, hl] at h
        simp at h
        subst h
        simp [ih hl]

/-- Instructions have entries in the table, and all but writes have a result. -/
structure InTable (P : Prog) (ops : List String) : Prop where
  op : ∀ o ∈ ops, ∃ u, opInstr P o = some u
  out : ∀ o ∈ ops, isWrite o = false → ∃ v, outOf P o = some v

theorem extraLoads_total {P : Prog} (ask : Ask) {deps : List Dep} {nostores : List String} {so : String} {ops : List String}
    (hP : InTable P ops) (hn : ∀ o ∈ nostores, o ∈ ops ∧ isWrite o = false) (hs : so ∈ ops) :
    ∃ l, extraLoads P ask deps nostores so = some l := by
  unfold extraLoads
  dsimp only
  refine map_total (mapM_total _ ?_)
  intro lo hlo
  simp only [depLoads, mem_filter] at hlo
  obtain ⟨v, hv⟩ := hP.out lo (hn lo hlo.1).1 (hn lo hlo.1).2
  obtain ⟨u, hu⟩ := hP.op so hs
  unfold outOf at hv
  rw [hv, hu]
  exact ⟨_, rfl⟩

theorem orderStores_spec {P : Prog} (ask : Ask) {deps : List Dep} {nostores stores : List String} {ops : List String} (hP : InTable P ops)
    (hn : ∀ o ∈ nostores, o ∈ ops ∧ isWrite o = false) (hs : ∀ s ∈ stores, s ∈ ops ∧ isWrite s = true)
    (h1 : ∀ s ∈ stores, ∀ o ∈ nostores, (s, o) ∉ deps) (h2 : ∀ s ∈ stores, ∀ t ∈ stores, (s, t) ∉ deps) :
    ∃ l, orderStores P ask deps nostores stores = some l ∧ l.Pairwise (May deps) ∧ (l.filter isWrite).Perm stores ∧
      ∀ y ∈ l, y ∈ stores ∨ y ∈ nostores := by
  unfold orderStores
  obtain ⟨r, hr⟩ := mapM_total (f := fun so => (extraLoads P ask deps nostores so).map fun l => (so, l.length)) stores (by
    intro so hso
    obtain ⟨l, hl⟩ := extraLoads_total ask (deps := deps) (so := so) hP hn (hs so hso).1
    exact ⟨(so, l.length), by rw [hl]; rfl⟩)
  have hfst : r.map Prod.fst = stores := by
    refine mapM_fst (f := fun so => (extraLoads P ask deps nostores so).map List.length) ?_
    rw [← hr]
    congr 1
    funext x
    cases extraLoads P ask deps nostores x <;> rfl
  rw [hr]
  set q := ((r.insertionSort fun a b => a.1 ≤ b.1).insertionSort fun a b => a.2 ≤ b.2).map Prod.fst with hq
  have hperm : q.Perm stores := by
    rw [← hfst, hq]
    exact ((perm_insertionSort _ _).trans (perm_insertionSort _ _)).map _
  refine ⟨_, rfl, ?_, ?_, ?_⟩
  · exact emitStores_may [] (fun s hs' => (hs s (hperm.mem_iff.1 hs')).2) (fun o ho => (hn o ho).2)
      (fun s hs' => h1 s (hperm.mem_iff.1 hs')) (fun s hs' t ht => h2 s (hperm.mem_iff.1 hs') t (hperm.mem_iff.1 ht))
  · rw [emitStores_writes [] (fun s hs' => (hs s (hperm.mem_iff.1 hs')).2) (fun o ho => (hn o ho).2)]
    exact hperm
  · intro y hy
    rcases emitStores_mem hy with hy | ⟨hy, -⟩
    · exact .inl (hperm.mem_iff.1 hy)
    · exact .inr hy

end Grey.Greedy
