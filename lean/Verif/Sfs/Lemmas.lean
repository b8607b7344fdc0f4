/-
Helper lemmas for the construction of specifications.
-/
import Verif.Sfs.Model
import Verif.Sfs.Spec
import Verif.Trace.Theorems
import Mathlib.Data.List.Induction
namespace Grey.Sfs
open Grey.SymExec
open Grey.Trace (Chain)

theorem var2id_some {instrs : List UInstr} {v : Var} {i : String} (h : var2id instrs v = some i) :
    ∃ u ∈ instrs, v ∈ u.outpt ∧ u.id = i := by
  unfold var2id at h
  obtain ⟨u, hu, rfl⟩ := Option.map_eq_some_iff.1 h
  refine ⟨u, by simpa using List.mem_of_find?_eq_some hu, ?_, rfl⟩
  simpa using List.find?_some hu

/-- With single producers the dict gives the producer. -/
theorem var2id_of_mem {instrs : List UInstr} (hnd : (instrs.flatMap (·.outpt)).Nodup) {u : UInstr} (hu : u ∈ instrs)
    {v : Var} (hv : v ∈ u.outpt) : var2id instrs v = some u.id := by
  have huniq : ∀ u' ∈ instrs, v ∈ u'.outpt → u' = u := by
    intro u' hu' hv'
    obtain ⟨s, t, rfl⟩ := List.append_of_mem hu
    rw [List.flatMap_append, List.flatMap_cons, List.nodup_append, List.nodup_append] at hnd
    obtain ⟨_, ⟨_, _, h3⟩, h4⟩ := hnd
    simp only [List.mem_append, List.mem_cons] at hu'
    rcases hu' with h | h | h
    · exact absurd rfl (h4 v (List.mem_flatMap.2 ⟨u', h, hv'⟩) v (List.mem_append.2 (Or.inl hv)))
    · exact h
    · exact absurd rfl (h3 v hv v (List.mem_flatMap.2 ⟨u', h, hv'⟩))
  unfold var2id
  cases hf : instrs.reverse.find? fun u => decide (v ∈ u.outpt) with
  | none =>
    have := List.find?_eq_none.1 hf u (by simpa using hu)
    simp [hv] at this
  | some u' =>
    have := huniq u' (by simpa using List.mem_of_find?_eq_some hf) (by simpa using List.find?_some hf)
    simp [this]

theorem mem_depSucc {instrs : List UInstr} {i j : String} :
    j ∈ depSucc instrs i ↔ ∃ u ∈ instrs, u.id = i ∧ ∃ v ∈ u.inpt, var2id instrs v = some j := by
  simp [depSucc, List.mem_flatMap, and_assoc]

theorem mem_reachable {instrs : List UInstr} {finalStack : List Var} {i : String} :
    i ∈ Graph.dfsAll (depSucc instrs) (instrs.length + 1) (roots instrs finalStack) [] ↔
      ∃ r ∈ roots instrs finalStack, Graph.Reach (depSucc instrs) r i := by
  apply Graph.dfsAll_exact (U := instrs.map (·.id))
  · intro x _ y hy
    obtain ⟨u, _, _, v, _, hv⟩ := mem_depSucc.1 hy
    obtain ⟨u', hu', _, rfl⟩ := var2id_some hv
    exact List.mem_map.2 ⟨u', hu', rfl⟩
  · intro x hx
    unfold roots at hx
    rcases List.mem_append.1 hx with h | h
    · obtain ⟨v, _, hv⟩ := List.mem_filterMap.1 h
      obtain ⟨u', hu', _, rfl⟩ := var2id_some hv
      exact List.mem_map.2 ⟨u', hu', rfl⟩
    · obtain ⟨u, hu, rfl⟩ := List.mem_map.1 h
      exact List.mem_map.2 ⟨u, (List.mem_filter.1 hu).1, rfl⟩
  · simp

theorem reachable_iff_needed {instrs : List UInstr} {finalStack : List Var}
    (hids : (instrs.map (·.id)).Nodup) (houts : (instrs.flatMap (·.outpt)).Nodup) {u : UInstr} (hu : u ∈ instrs) :
    (∃ r ∈ roots instrs finalStack, Graph.Reach (depSucc instrs) r u.id) ↔ Needed instrs finalStack u := by
  have hinj : ∀ a ∈ instrs, ∀ b ∈ instrs, a.id = b.id → a = b := fun a ha b hb e =>
    List.inj_on_of_nodup_map hids ha hb e
  constructor
  · rintro ⟨r, hr, hreach⟩
    have gen : ∀ i, Graph.Reach (depSucc instrs) r i → ∀ u ∈ instrs, u.id = i → Needed instrs finalStack u := by
      intro i hi
      induction hi with
      | refl =>
        intro u hu e
        unfold roots at hr
        rcases List.mem_append.1 hr with h | h
        · obtain ⟨v, hv, hv'⟩ := List.mem_filterMap.1 h
          obtain ⟨u', hu', hvo, he⟩ := var2id_some hv'
          obtain rfl := hinj _ hu _ hu' (by rw [e, he])
          exact .final hu hvo hv
        · obtain ⟨u', hu', he⟩ := List.mem_map.1 h
          obtain rfl := hinj _ hu _ (List.mem_filter.1 hu').1 (by rw [e, he])
          exact .effect hu (by simpa using (List.mem_filter.1 hu').2)
      | tail _ hs ih =>
        intro u hu e
        obtain ⟨u', hu', he, v, hv, hv'⟩ := mem_depSucc.1 hs
        obtain ⟨u'', hu'', hvo, he'⟩ := var2id_some hv'
        obtain rfl := hinj _ hu _ hu'' (by rw [e, he'])
        exact .arg hu hvo hv (ih u' hu' he)
    exact gen _ hreach u hu rfl
  · intro h
    induction h with
    | @effect u h hs =>
      exact ⟨u.id, List.mem_append.2 (Or.inr (List.mem_map.2 ⟨u, List.mem_filter.2 ⟨h, hs⟩, rfl⟩)), .refl⟩
    | @final u v h hv hf =>
      exact ⟨u.id, List.mem_append.2 (Or.inl (List.mem_filterMap.2 ⟨v, hf, var2id_of_mem houts h hv⟩)), .refl⟩
    | @arg u u' v h hv hi n ih =>
      have hu' : u' ∈ instrs := by cases n <;> assumption
      obtain ⟨r, hr, hre⟩ := ih hu'
      exact ⟨r, hr, hre.tail (mem_depSucc.2 ⟨u', hu', rfl, v, hi, var2id_of_mem houts h hv⟩)⟩

/-! ### Transitive reduction -/

theorem mem_posSucc {deps : List (Nat × Nat)} {i j : Nat} : j ∈ posSucc deps i ↔ (i, j) ∈ deps := by
  unfold posSucc
  constructor
  · intro h
    obtain ⟨d, hd, rfl⟩ := List.mem_map.1 h
    obtain ⟨hd, he⟩ := List.mem_filter.1 hd
    have : d.1 = i := by simpa using he
    rw [← this]; exact hd
  · intro h
    exact List.mem_map.2 ⟨(i, j), List.mem_filter.2 ⟨h, by simp⟩, rfl⟩

theorem chain_of_descendants {deps : List (Nat × Nat)} {f v y : Nat} (h : y ∈ descendants deps f v) :
    Chain deps v y := by
  induction f generalizing v with
  | zero => simp [descendants] at h
  | succ f ih =>
    rw [descendants, List.mem_append, List.mem_flatMap] at h
    rcases h with h | ⟨w, hw, h⟩
    · exact .single (mem_posSucc.1 h)
    · exact .step (mem_posSucc.1 hw) (ih h)

theorem reduce_removed (D : Nat → List Nat) :
    ∀ (l cur : List Nat) (x : Nat), x ∈ cur →
      x ∉ l.foldl (fun cur v => if v ∈ cur then cur.filter fun x => decide (x ∉ D v) else cur) cur →
      ∃ w ∈ l, x ∈ D w := by
  intro l
  induction l with
  | nil => intro cur x hx h; exact absurd hx h
  | cons a l ih =>
    intro cur x hx h
    rw [List.foldl_cons] at h
    by_cases hD : x ∈ D a
    · exact ⟨a, by simp, hD⟩
    · obtain ⟨w, hw, hw'⟩ := ih _ x (by split <;> simp [hx, hD]) h
      exact ⟨w, by simp [hw], hw'⟩

theorem reduce_subset (D : Nat → List Nat) :
    ∀ (l cur : List Nat) (x : Nat),
      x ∈ l.foldl (fun cur v => if v ∈ cur then cur.filter fun x => decide (x ∉ D v) else cur) cur → x ∈ cur := by
  intro l
  induction l with
  | nil => intro cur x h; exact h
  | cons a l ih =>
    intro cur x h
    rw [List.foldl_cons] at h
    have := ih _ x h
    split at this
    · exact (List.mem_filter.1 this).1
    · exact this

theorem mem_simplify {deps : List (Nat × Nat)} {u v : Nat} :
    (u, v) ∈ simplify deps ↔ (u, v) ∈ deps ∧ v ∈ reduceNbrs deps u := by
  unfold simplify
  simp only [List.mem_flatMap, List.mem_map, List.mem_dedup]
  constructor
  · rintro ⟨a, ⟨d, _, rfl⟩, b, hb, e⟩
    simp only [Prod.mk.injEq] at e
    obtain ⟨rfl, rfl⟩ := e
    exact ⟨mem_posSucc.1 (reduce_subset _ _ _ _ hb), hb⟩
  · rintro ⟨h, hn⟩
    exact ⟨u, ⟨_, h, rfl⟩, v, hn, rfl⟩

theorem Chain.append {A : Type} {deps : List (A × A)} {a b c : A} (h : Chain deps a b) (h' : Chain deps b c) :
    Chain deps a c := by
  induction h with
  | single h => exact .step h h'
  | step h _ ih => exact .step h (ih h')

theorem chain_lt {deps : List (Nat × Nat)} (hfw : ∀ d ∈ deps, d.1 < d.2) {a b : Nat} (h : Chain deps a b) : a < b := by
  induction h with
  | single h => exact hfw _ h
  | step h _ ih => exact Nat.lt_trans (hfw _ h) ih

theorem edge_simplify {deps : List (Nat × Nat)} (hfw : ∀ d ∈ deps, d.1 < d.2) :
    ∀ (n u v : Nat), v - u = n → (u, v) ∈ deps → Chain (simplify deps) u v := by
  intro n
  induction n using Nat.strongRecOn with
  | ind n ih =>
    intro u v hn hd
    by_cases hk : v ∈ reduceNbrs deps u
    · exact .single (mem_simplify.2 ⟨hd, hk⟩)
    · obtain ⟨w, hw, hv⟩ := reduce_removed (descendants deps (maxPos deps)) _ _ _ (mem_posSucc.2 hd) hk
      have hw := mem_posSucc.1 hw
      have hc := chain_of_descendants hv
      have h1 : u < w := hfw _ hw
      have h2 : w < v := chain_lt hfw hc
      have hsub : ∀ a b, Chain deps a b → w ≤ a → b ≤ v → Chain (simplify deps) a b := by
        intro a b hab
        induction hab with
        | single h =>
          intro h3 h4
          have := hfw _ h
          simp only at this
          exact ih _ (by omega) _ _ rfl h
        | step h t ih' =>
          intro h3 h4
          have := hfw _ h
          have ht := chain_lt hfw t
          simp only at this
          exact Chain.append (ih _ (by omega) _ _ rfl h) (ih' (by omega) h4)
      exact Chain.append (ih _ (by omega) _ _ rfl hw) (hsub _ _ hc (Nat.le_refl _) (Nat.le_refl _))

theorem le_maxPos {deps : List (Nat × Nat)} {d : Nat × Nat} (h : d ∈ deps) : d.2 ≤ maxPos deps := by
  induction deps with
  | nil => cases h
  | cons e es ih =>
    have : maxPos (e :: es) = max e.2 (maxPos es) := rfl
    rw [this]
    rcases List.mem_cons.1 h with rfl | h
    · omega
    · have := ih h; omega

theorem chain_le_maxPos {deps : List (Nat × Nat)} {a b : Nat} (h : Chain deps a b) : b ≤ maxPos deps := by
  induction h with
  | single h => exact le_maxPos h
  | step _ _ ih => exact ih

/-- The bound on the depth is large enough. -/
theorem mem_descendants {deps : List (Nat × Nat)} (hfw : ∀ d ∈ deps, d.1 < d.2) {a b : Nat} (h : Chain deps a b) :
    b ∈ descendants deps (maxPos deps) a := by
  have gen : ∀ (f : Nat) (a : Nat), Chain deps a b → b - a ≤ f → b ∈ descendants deps f a := by
    intro f
    induction f with
    | zero => intro a h hf; have := chain_lt hfw h; omega
    | succ f ih =>
      intro a h hf
      rw [descendants, List.mem_append, List.mem_flatMap]
      cases h with
      | single h => exact .inl (mem_posSucc.2 h)
      | @step _ k _ he t =>
        refine .inr ⟨k, mem_posSucc.2 he, ih k t ?_⟩
        have := hfw _ he
        have := chain_lt hfw t
        simp only at *
        omega
  exact gen _ a h (by have := chain_le_maxPos h; omega)

/-- What is kept is not reached from any neighbour. -/
theorem reduce_closed {deps : List (Nat × Nat)} (hfw : ∀ d ∈ deps, d.1 < d.2) {u w x : Nat} (hw : w ∈ posSucc deps u)
    (hx : x ∈ reduceNbrs deps u) : x ∉ descendants deps (maxPos deps) w := by
  have gen : ∀ (l done cur : List Nat), posSucc deps u = done ++ l →
      (∀ y ∈ done, ∀ z ∈ cur, z ∉ descendants deps (maxPos deps) y) →
      (∀ y ∈ posSucc deps u, y ∉ cur → ∃ y' ∈ done, y ∈ descendants deps (maxPos deps) y') →
      ∀ z ∈ l.foldl (fun cur v => if v ∈ cur then cur.filter fun x => decide (x ∉ descendants deps (maxPos deps) v) else cur) cur,
        ∀ y ∈ posSucc deps u, z ∉ descendants deps (maxPos deps) y := by
    intro l
    induction l with
    | nil =>
      intro done cur he h1 _ z hz y hy
      rw [he, List.append_nil] at hy
      exact h1 y hy z hz
    | cons v l ih =>
      intro done cur he h1 h2
      rw [List.foldl_cons]
      refine ih (done ++ [v]) _ (by rw [he]; simp) ?_ ?_
      · intro y hy z hz
        rcases List.mem_append.1 hy with hy | hy
        · refine h1 y hy z ?_
          split at hz
          · exact (List.mem_filter.1 hz).1
          · exact hz
        · obtain rfl := List.mem_singleton.1 hy
          split at hz
          · have := (List.mem_filter.1 hz).2
            rwa [decide_eq_true_eq] at this
          · rename_i hv
            obtain ⟨y', hy', hd⟩ := h2 y (by rw [he]; simp) hv
            intro hzd
            exact h1 y' hy' z hz (mem_descendants hfw (Chain.append (chain_of_descendants hd) (chain_of_descendants hzd)))
      · intro y hy hn
        by_cases hyc : y ∈ cur
        · split at hn
          · rw [List.mem_filter, decide_eq_true_eq] at hn
            refine ⟨v, by simp, ?_⟩
            by_contra hcon
            exact hn ⟨hyc, hcon⟩
          · exact absurd hyc hn
        · obtain ⟨y', hy', hd⟩ := h2 y hy hyc
          exact ⟨y', List.mem_append_left _ hy', hd⟩
  exact gen _ [] _ rfl (by simp) (fun y hy hn => absurd hy hn) x hx w hw

theorem mem_replacePos {m : Nat → Option String} {deps : List (Nat × Nat)} {out : List (String × String)}
    (h : replacePos m deps = some out) {a b : String} :
    (a, b) ∈ out ↔ ∃ i j, (i, j) ∈ deps ∧ m i = some a ∧ m j = some b := by
  induction deps generalizing out with
  | nil => simp [replacePos] at h; subst h; simp
  | cons d ds ih =>
    obtain ⟨i, j⟩ := d
    rw [replacePos] at h
    obtain ⟨x, hx, h⟩ := Option.bind_eq_some_iff.1 h
    obtain ⟨y, hy, h⟩ := Option.bind_eq_some_iff.1 h
    obtain ⟨t, ht, rfl⟩ := Option.map_eq_some_iff.1 h
    rw [List.mem_cons, ih ht]
    constructor
    · rintro (e | ⟨i', j', h1, h2, h3⟩)
      · simp only [Prod.mk.injEq] at e
        obtain ⟨rfl, rfl⟩ := e
        exact ⟨i, j, by simp, hx, hy⟩
      · exact ⟨i', j', by simp [h1], h2, h3⟩
    · rintro ⟨i', j', h1, h2, h3⟩
      rcases List.mem_cons.1 h1 with e | h1
      · simp only [Prod.mk.injEq] at e
        obtain ⟨rfl, rfl⟩ := e
        left
        rw [hx] at h2; rw [hy] at h3
        rw [Option.some.inj h2, Option.some.inj h3]
      · exact Or.inr ⟨i', j', h1, h2, h3⟩

/-- Removing instructions that no kept instruction reads does not change what the kept ones compute. -/
theorem run_filter {V σ : Type} (sem : Sem V σ) (keep : UInstr → Bool) (instrs : List UInstr)
    (hquiet : ∀ u ∈ instrs, keep u = false → ∀ args w, (sem u args w).2 = w)
    (D : Var → Prop) (hD : ∀ u ∈ instrs, keep u = false → ∀ v ∈ u.outpt, D v)
    (hclosed : ∀ u ∈ instrs, keep u = true → ∀ v ∈ u.inpt, ¬ D v)
    (hlen : ∀ u ∈ instrs, ∀ args w, (sem u args w).1.length = u.outpt.length) :
    ∀ (env env' : Var → V) (w : σ), (∀ v, ¬ D v → env' v = env v) →
      (ssaRun sem (instrs.filter keep) env' w).2 = (ssaRun sem instrs env w).2 ∧
      ∀ v, ¬ D v → (ssaRun sem (instrs.filter keep) env' w).1 v = (ssaRun sem instrs env w).1 v := by
  have hassign_eq : ∀ (vs : List Var) (xs : List V) (e e' : Var → V), (∀ v, ¬ D v → e' v = e v) →
      ∀ v, ¬ D v → assign e' vs xs v = assign e vs xs v := by
    intro vs
    induction vs with
    | nil => intro xs e e' h v hv; cases xs <;> exact h v hv
    | cons a vs ih =>
      intro xs e e' h v hv
      cases xs with
      | nil => exact h v hv
      | cons x xs =>
        rw [assign, assign]
        apply ih _ _ _ _ v hv
        intro v hv
        split
        · rfl
        · exact h v hv
  have hassign_out : ∀ (vs : List Var) (xs : List V) (e : Var → V), (∀ v ∈ vs, D v) →
      ∀ v, ¬ D v → assign e vs xs v = e v := by
    intro vs
    induction vs with
    | nil => intro xs e h v hv; cases xs <;> rfl
    | cons a vs ih =>
      intro xs e h v hv
      cases xs with
      | nil => rfl
      | cons x xs =>
        rw [assign, ih _ _ (fun v hv => h v (by simp [hv])) v hv]
        rw [if_neg]
        rintro rfl
        exact hv (h _ (by simp))
  induction instrs with
  | nil => intro env env' w h; exact ⟨rfl, h⟩
  | cons u us ih =>
    intro env env' w h
    have ih' := ih (fun x hx => hquiet x (by simp [hx])) (fun x hx => hD x (by simp [hx]))
      (fun x hx => hclosed x (by simp [hx])) (fun x hx => hlen x (by simp [hx]))
    cases hk : keep u with
    | false =>
      rw [List.filter_cons, hk]
      simp only [Bool.false_eq_true, if_false]
      rw [ssaRun, hquiet u (by simp) hk]
      apply ih'
      intro v hv
      rw [hassign_out _ _ _ (hD u (by simp) hk) v hv]
      exact h v hv
    | true =>
      rw [List.filter_cons, hk]
      simp only [if_true]
      rw [ssaRun, ssaRun]
      have hargs : u.inpt.map env' = u.inpt.map env :=
        List.map_congr_left fun v hv => h v (hclosed u (by simp) hk v hv)
      rw [hargs]
      exact ih' _ _ _ (hassign_eq _ _ _ _ h)

end Grey.Sfs
