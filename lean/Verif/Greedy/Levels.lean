import Verif.Greedy.Order
import Mathlib.Data.List.Dedup
import Mathlib.Data.List.Infix

/-!
# Levels of dependencies

Facts about `levels` (`get_min_deps_map`), `storesAt`, `loadsAt` and `joinLevels` (`join_positions`): no level between the first and the
last one is empty, so joining the levels loses none.
-/

namespace Grey.Greedy
open List

/-! ### Levels -/

theorem peel_spec {deps : List Dep} (n c : Nat) (keys : List String) (hk : keys.Nodup) {lv : List (String × Nat)}
    (h : peel deps n c keys = some lv) :
    (lv.map Prod.fst).Perm keys ∧ (∀ p ∈ lv, c ≤ p.2) ∧
      (∀ a la b lb, (a, la) ∈ lv → (b, lb) ∈ lv → (a, b) ∈ deps → la < lb) ∧
      (∀ e, (e, c) ∈ lv → ∀ k ∈ keys, (k, e) ∉ deps) ∧
      (∀ e l, (e, l + 1) ∈ lv → c ≤ l → ∃ a, (a, l) ∈ lv ∧ (a, e) ∈ deps) := by
  induction n generalizing c keys lv with
  | zero =>
    cases keys with
    | nil => simp only [peel, Option.some.injEq] at h; subst h; simp
    | cons => simp [peel] at h
  | succ n ih =>
    cases keys with
    | nil => simp only [peel, Option.some.injEq] at h; subst h; simp
    | cons k0 ks =>
      unfold peel at h
      dsimp only at h
      generalize hkeys : k0 :: ks = keys at h hk
      set ready := keys.filter fun e => keys.all fun k => decide ((k, e) ∉ deps) with hready
      split at h
      · simp at h
      simp only [Option.map_eq_some_iff] at h
      obtain ⟨lv', h', rfl⟩ := h
      have hk' : (keys.filter fun e => decide (e ∉ ready)).Nodup := hk.filter _
      obtain ⟨i1, i2, i3, i4, i5⟩ := ih _ _ hk' h'
      have hr : ∀ e, e ∈ ready ↔ e ∈ keys ∧ ∀ k ∈ keys, (k, e) ∉ deps := by
        intro e; rw [hready, mem_filter]; simp
      have hmem : ∀ e l, (e, l) ∈ lv' → e ∈ keys ∧ e ∉ ready := by
        intro e l he
        have : e ∈ keys.filter fun e => decide (e ∉ ready) := i1.mem_iff.1 (mem_map.2 ⟨_, he, rfl⟩)
        simpa using this
      have hlv : ∀ e l, (e, l) ∈ ready.map (fun e => (e, c)) ++ lv' ↔ (e ∈ ready ∧ l = c) ∨ (e, l) ∈ lv' := by
        intro e l
        rw [mem_append, mem_map]
        constructor
        · rintro (⟨x, hx, hxe⟩ | hx)
          · cases hxe; exact .inl ⟨hx, rfl⟩
          · exact .inr hx
        · rintro (⟨hx, rfl⟩ | hx)
          · exact .inl ⟨_, hx, rfl⟩
          · exact .inr hx
      refine ⟨?_, ?_, ?_, ?_, ?_⟩
      · rw [map_append, map_map]
        have e1 : (ready.map (Prod.fst ∘ fun e => (e, c))) = ready := by
          rw [show (Prod.fst ∘ fun e : String => (e, c)) = id from rfl, map_id]
        rw [e1]
        refine (i1.append_left ready).trans ?_
        rw [perm_iff_count]
        intro a
        rw [count_append]
        by_cases ha : a ∈ ready
        · rw [count_eq_zero_of_not_mem (l := keys.filter fun e => decide (e ∉ ready)) (by simp [ha])]
          have : a ∈ keys := ((hr a).1 ha).1
          rw [count_eq_one_of_mem hk this, count_eq_one_of_mem (hk.filter _) ha]
        · rw [count_eq_zero_of_not_mem ha, count_filter (by simpa using ha), Nat.zero_add]
      · intro p hp
        rcases (hlv p.1 p.2).1 hp with ⟨-, h⟩ | h
        · omega
        · have := i2 _ h; dsimp only at this; omega
      · intro a la b lb ha hb hd
        rcases (hlv _ _).1 hb with ⟨hb', -⟩ | hb'
        · have hka : a ∈ keys := by
            rcases (hlv _ _).1 ha with ⟨ha', -⟩ | ha'
            · exact ((hr a).1 ha').1
            · exact (hmem _ _ ha').1
          exact absurd hd (((hr b).1 hb').2 a hka)
        · rcases (hlv _ _).1 ha with ⟨-, ha'⟩ | ha'
          · have := i2 _ hb'; dsimp only at this; omega
          · exact i3 _ _ _ _ ha' hb' hd
      · intro e he
        rcases (hlv _ _).1 he with ⟨he, -⟩ | he
        · exact ((hr e).1 he).2
        · have := i2 _ he; dsimp only at this; omega
      · intro e l he hc
        rcases (hlv _ _).1 he with ⟨-, h⟩ | he'
        · omega
        · by_cases hl : l = c
          · subst hl
            obtain ⟨hek, her⟩ := hmem _ _ he'
            have : ∃ k ∈ keys, (k, e) ∈ deps := by
              by_contra hcon
              exact her ((hr e).2 ⟨hek, fun k hk hd => hcon ⟨k, hk, hd⟩⟩)
            obtain ⟨k, hkk, hd⟩ := this
            refine ⟨k, (hlv _ _).2 (.inl ⟨?_, rfl⟩), hd⟩
            by_contra hkr
            exact i4 e he' k (by simp [hkk, hkr]) hd
          · obtain ⟨a, ha, hd⟩ := i5 e l he' (by omega)
            exact ⟨a, (hlv _ _).2 (.inr ha), hd⟩

theorem lookup_of_mem {lv : List (String × Nat)} (hn : (lv.map Prod.fst).Nodup) {e : String} {l : Nat} (h : (e, l) ∈ lv) : posOf lv e = l := by
  unfold posOf
  induction lv with
  | nil => simp at h
  | cons p lv ih =>
    rw [map_cons, nodup_cons] at hn
    obtain ⟨a, k⟩ := p
    rw [lookup_cons]
    by_cases he : e = a
    · subst he
      simp only [beq_self_eq_true]
      rcases mem_cons.1 h with h | h
      · cases h; rfl
      · exact absurd (mem_map.2 ⟨_, h, rfl⟩) hn.1
    · simp only [beq_eq_false_iff_ne.2 he]
      rcases mem_cons.1 h with h | h
      · cases h; exact absurd rfl he
      · exact ih hn.2 h

theorem depKeys_mem {deps : List Dep} {e : String} : e ∈ depKeys deps ↔ ∃ p ∈ deps, p.1 = e ∨ p.2 = e := by
  simp [depKeys, mem_flatMap, eq_comm]

/-- What the levels are: 0 without dependencies, larger than those of all predecessors, and one more than one of them. -/
structure IsLevels (deps : List Dep) (lv : List (String × Nat)) : Prop where
  lt : ∀ a b, (a, b) ∈ deps → posOf lv a < posOf lv b
  pred : ∀ e l, posOf lv e = l + 1 → ∃ a, (a, e) ∈ deps ∧ posOf lv a = l

theorem levels_spec {deps : List Dep} {lv : List (String × Nat)} (h : levels deps = some lv) : IsLevels deps lv := by
  unfold levels at h
  dsimp only at h
  obtain ⟨h1, -, h3, -, h5⟩ := peel_spec _ _ _ (nodup_dedup _) h
  have hn : (lv.map Prod.fst).Nodup := h1.nodup_iff.2 (nodup_dedup _)
  have key : ∀ e, e ∈ depKeys deps → (e, posOf lv e) ∈ lv := by
    intro e he
    have : e ∈ lv.map Prod.fst := h1.mem_iff.2 (mem_dedup.2 he)
    obtain ⟨⟨e', l⟩, hp, rfl⟩ := mem_map.1 this
    rw [lookup_of_mem hn hp]
    exact hp
  refine ⟨fun a b hd => h3 _ _ _ _ (key a (depKeys_mem.2 ⟨_, hd, .inl rfl⟩)) (key b (depKeys_mem.2 ⟨_, hd, .inr rfl⟩)) hd, ?_⟩
  intro e l he
  have hmem : (e, l + 1) ∈ lv := by
    unfold posOf at he
    cases hl : lv.lookup e with
    | none => rw [hl] at he; simp at he
    | some k =>
      rw [hl] at he
      simp only [Option.getD_some] at he
      subst he
      rw [List.lookup_eq_some_iff] at hl
      obtain ⟨l1, l2, rfl, -⟩ := hl
      simp
  obtain ⟨a, ha, hd⟩ := h5 e l hmem (Nat.zero_le _)
  exact ⟨a, hd, lookup_of_mem hn ha⟩

/-- Without cycles there are levels. -/
theorem peel_total {deps : List Dep} (r : String → Nat) (hr : ∀ a b, (a, b) ∈ deps → r a < r b) (n c : Nat) (keys : List String)
    (hn : keys.length ≤ n) : ∃ lv, peel deps n c keys = some lv := by
  induction n generalizing c keys with
  | zero =>
    cases keys with
    | nil => exact ⟨_, rfl⟩
    | cons => simp at hn
  | succ n ih =>
    cases keys with
    | nil => exact ⟨_, rfl⟩
    | cons k0 ks =>
      unfold peel
      dsimp only
      generalize hkeys : k0 :: ks = keys at hn
      have hne : keys ≠ [] := by rw [← hkeys]; simp
      have hmin : ∃ e ∈ keys, ∀ k ∈ keys, r e ≤ r k := by
        clear ih hn hkeys
        induction keys with
        | nil => simp at hne
        | cons x xs ih =>
          by_cases hx : xs = []
          · subst hx; exact ⟨x, by simp⟩
          · obtain ⟨e, he, hm⟩ := ih hx
            rcases Nat.le_total (r x) (r e) with h | h
            · refine ⟨x, by simp, ?_⟩
              intro k hk
              rcases mem_cons.1 hk with rfl | hk
              · exact Nat.le_refl _
              · exact Nat.le_trans h (hm k hk)
            · refine ⟨e, by simp [he], ?_⟩
              intro k hk
              rcases mem_cons.1 hk with rfl | hk
              · exact h
              · exact hm k hk
      obtain ⟨e, he, hm⟩ := hmin
      have her : e ∈ keys.filter fun e => keys.all fun k => decide ((k, e) ∉ deps) := by
        rw [mem_filter]
        refine ⟨he, ?_⟩
        simp only [all_eq_true, decide_eq_true_eq]
        intro k hk hd
        exact absurd (hr k e hd) (Nat.not_lt.2 (hm k hk))
      generalize (keys.filter fun e => keys.all fun k => decide ((k, e) ∉ deps)) = ready at her
      rw [if_neg (by simpa using ne_nil_of_mem her)]
      obtain ⟨lv, hlv⟩ := ih (c + 1) (keys.filter fun e => decide (e ∉ ready)) (by
        have : (keys.filter fun e => decide (e ∉ ready)).length < keys.length := by
          rw [← not_le]
          intro hle
          have := (filter_sublist (p := fun e => decide (e ∉ ready)) (l := keys)).eq_of_length_le hle
          have he' : e ∈ keys.filter fun e => decide (e ∉ ready) := by rw [this]; exact he
          simp [her] at he'
        omega)
      rw [hlv]
      exact ⟨_, rfl⟩

/-! ### The last level -/

theorem le_foldl_max (l : List Nat) (m : Nat) : m ≤ l.foldl max m ∧ ∀ x ∈ l, x ≤ l.foldl max m := by
  induction l generalizing m with
  | nil => simp
  | cons a l ih =>
    rw [foldl_cons]
    obtain ⟨h1, h2⟩ := ih (max m a)
    refine ⟨by omega, ?_⟩
    intro x hx
    rcases mem_cons.1 hx with rfl | hx
    · omega
    · exact h2 x hx

theorem foldl_max_mem (l : List Nat) (m : Nat) : l.foldl max m = m ∨ l.foldl max m ∈ l := by
  induction l generalizing m with
  | nil => simp
  | cons a l ih =>
    rw [foldl_cons]
    rcases ih (max m a) with h | h
    · rw [h]
      rcases Nat.le_total m a with h' | h'
      · right; rw [max_eq_right h']; simp
      · left; exact max_eq_left h'
    · right; exact mem_cons_of_mem _ h

theorem topLevel_le {ops : List String} {lv : List (String × Nat)} {o : String} (h : o ∈ ops) : posOf lv o ≤ topLevel ops lv :=
  (le_foldl_max _ 0).2 _ (mem_map.2 ⟨o, h, rfl⟩)

theorem topLevel_mem {ops : List String} {lv : List (String × Nat)} (h : ops ≠ []) : ∃ o ∈ ops, posOf lv o = topLevel ops lv := by
  rcases foldl_max_mem (ops.map (posOf lv)) 0 with h' | h'
  · obtain ⟨o, ho⟩ := exists_mem_of_ne_nil _ h
    refine ⟨o, ho, ?_⟩
    have := topLevel_le (lv := lv) ho
    unfold topLevel at this ⊢
    omega
  · obtain ⟨o, ho, he⟩ := mem_map.1 h'
    exact ⟨o, ho, he⟩

theorem foldl_min (l : List Dep) (f : Dep → Nat) (m : Nat) :
    l.foldl (fun m p => min m (f p)) m ≤ m ∧ (∀ p ∈ l, l.foldl (fun m p => min m (f p)) m ≤ f p) ∧
      ∀ k, k ≤ m → (∀ p ∈ l, k ≤ f p) → k ≤ l.foldl (fun m p => min m (f p)) m := by
  induction l generalizing m with
  | nil => simp
  | cons a l ih =>
    rw [foldl_cons]
    obtain ⟨h1, h2, h3⟩ := ih (min m (f a))
    refine ⟨by omega, ?_, ?_⟩
    · intro p hp
      rcases mem_cons.1 hp with rfl | hp
      · omega
      · exact h2 p hp
    · intro k hk hl
      exact h3 k (by have := hl a (by simp); omega) (fun p hp => hl p (by simp [hp]))

theorem maxPos_le (deps : List Dep) (lv : List (String × Nat)) (t : Nat) (o : String) : maxPos deps lv t o ≤ t := (foldl_min _ _ _).1

theorem maxPos_lt {deps : List Dep} {lv : List (String × Nat)} (hl : IsLevels deps lv) {t : Nat} {o b : String} (h : (o, b) ∈ deps) :
    maxPos deps lv t o < posOf lv b := by
  have h1 := (foldl_min (deps.filter fun p => p.1 = o) (fun p => posOf lv p.2 - 1) t).2.1 (o, b) (by simp [h])
  have h2 := hl.lt _ _ h
  unfold maxPos
  dsimp only at h1
  omega

theorem le_maxPos {deps : List Dep} {lv : List (String × Nat)} (hl : IsLevels deps lv) {t : Nat} {o : String} (h : posOf lv o ≤ t) :
    posOf lv o ≤ maxPos deps lv t o := by
  refine (foldl_min (deps.filter fun p => p.1 = o) (fun p => posOf lv p.2 - 1) t).2.2 _ h ?_
  intro p hp
  obtain ⟨hp, he⟩ := mem_filter.1 hp
  simp only [decide_eq_true_eq] at he
  have := hl.lt p.1 p.2 hp
  rw [he] at this
  omega

/-! ### No gaps -/

theorem chain {deps : List Dep} {lv : List (String × Nat)} (hl : IsLevels deps lv) (k : Nat) (o : String) {i : Nat} (h : posOf lv o = i + k) :
    ∃ e, posOf lv e = i ∧ (e = o ∧ k = 0 ∨ ∃ b, (e, b) ∈ deps ∧ posOf lv b = i + 1) := by
  induction k generalizing o with
  | zero => exact ⟨o, h, .inl ⟨rfl, rfl⟩⟩
  | succ k ih =>
    obtain ⟨a, hd, ha⟩ := hl.pred o (i + k) (by omega)
    obtain ⟨e, he, h' | h'⟩ := ih a ha
    · obtain ⟨rfl, rfl⟩ := h'
      exact ⟨e, he, .inr ⟨o, hd, by omega⟩⟩
    · exact ⟨e, he, .inr h'⟩

/-- No level up to the last one is empty. -/
theorem no_gap {deps : List Dep} {lv : List (String × Nat)} (hl : IsLevels deps lv) {ops : List String} (hops : ∀ e ∈ depKeys deps, e ∈ ops)
    (hne : ops ≠ []) {i : Nat} (hi : i ≤ topLevel ops lv) : storesAt ops lv i ≠ [] ∨ loadsAt deps ops lv i ≠ [] := by
  obtain ⟨o, ho, ht⟩ := topLevel_mem (lv := lv) hne
  obtain ⟨e, he, h⟩ := chain hl (topLevel ops lv - i) o (i := i) (by omega)
  have heo : e ∈ ops := by
    rcases h with ⟨rfl, -⟩ | ⟨b, hd, -⟩
    · exact ho
    · exact hops e (depKeys_mem.2 ⟨_, hd, .inl rfl⟩)
  cases hw : isWrite e with
  | true =>
    left
    refine ne_nil_of_mem (a := e) ?_
    simp only [storesAt, mem_reverse, mem_filter]
    simp [heo, hw, he]
  | false =>
    right
    refine ne_nil_of_mem (a := e) ?_
    simp only [loadsAt, mem_filter]
    refine ⟨heo, ?_⟩
    have h1 := le_maxPos hl (topLevel_le (lv := lv) heo)
    have h2 : maxPos deps lv (topLevel ops lv) e ≤ i := by
      rcases h with ⟨rfl, hk⟩ | ⟨b, hd, hb⟩
      · have := maxPos_le deps lv (topLevel ops lv) e
        omega
      · have := maxPos_lt hl (t := topLevel ops lv) hd
        omega
    simp [hw]
    omega

theorem storesAt_mem {ops : List String} {lv : List (String × Nat)} {i : Nat} {o : String} :
    o ∈ storesAt ops lv i ↔ o ∈ ops ∧ isWrite o = true ∧ posOf lv o = i := by
  simp [storesAt, and_assoc]

theorem loadsAt_mem {deps : List Dep} {ops : List String} {lv : List (String × Nat)} {i : Nat} {o : String} :
    o ∈ loadsAt deps ops lv i ↔ o ∈ ops ∧ isWrite o = false ∧ maxPos deps lv (topLevel ops lv) o = i := by
  simp [loadsAt, and_assoc]

end Grey.Greedy
