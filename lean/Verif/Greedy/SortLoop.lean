import Verif.Greedy.Runs

/-!
# The main loop of `sort_with_deps`

No assertion of it fails, it keeps every write, and the order it gives agrees with the dependencies.
-/

namespace Grey.Greedy
open List

def entriesFrom (m : Nat) (l : List (List String)) : List (Nat × List String) :=
  (l.zipIdx m).filterMap fun p => if p.1.isEmpty then none else some (p.2, p.1)

theorem entries_eq (l : List (List String)) : entries l = entriesFrom 0 l := rfl

theorem entriesFrom_nil (m : Nat) : entriesFrom m [] = [] := rfl

theorem entriesFrom_empty (m : Nat) (l : List (List String)) : entriesFrom m ([] :: l) = entriesFrom (m + 1) l := by
  unfold entriesFrom
  rw [zipIdx_cons]
  rfl

theorem entriesFrom_cons (m : Nat) {a : List String} (l : List (List String)) (h : a ≠ []) :
    entriesFrom m (a :: l) = (m, a) :: entriesFrom (m + 1) l := by
  unfold entriesFrom
  rw [zipIdx_cons, filterMap_cons]
  have : a.isEmpty = false := by simpa using h
  simp [this]

theorem entriesFrom_le (m : Nat) (l : List (List String)) : ∀ e ∈ entriesFrom m l, m ≤ e.1 := by
  induction l generalizing m with
  | nil => simp [entriesFrom_nil]
  | cons a l ih =>
    by_cases h : a = []
    · subst h
      rw [entriesFrom_empty]
      intro e he
      have := ih (m + 1) e he
      omega
    · rw [entriesFrom_cons m l h]
      intro e he
      rcases mem_cons.1 he with rfl | he
      · exact Nat.le_refl _
      · have := ih (m + 1) e he
        omega

theorem head_all (m : Nat) (a : List String) (l : List (List String)) :
    ((entriesFrom m (a :: l)).head?.all fun e => decide (e.1 ≠ m)) = a.isEmpty := by
  by_cases h : a = []
  · subst h
    rw [entriesFrom_empty]
    cases hc : entriesFrom (m + 1) l with
    | nil => rfl
    | cons e es =>
      have := entriesFrom_le (m + 1) l e (by rw [hc]; simp)
      simp
      omega
  · rw [entriesFrom_cons m l h]
    have : a.isEmpty = false := by simpa using h
    simp [this]

theorem head_any (m : Nat) (a : List String) (l : List (List String)) :
    ((entriesFrom m (a :: l)).head?.any fun e => decide (e.1 = m)) = !a.isEmpty := by
  have := head_all m a l
  rw [← this]
  cases (entriesFrom m (a :: l)).head? <;> simp

/-- The situation of `sort_with_deps`. -/
structure Sit (P : Prog) (ops : List String) (deps : List Dep) (lv : List (String × Nat)) : Prop where
  tab : InTable P ops
  lev : IsLevels deps lv

/-- What holds of the result from level `i` (writes) and `i'` (loads) on. -/
structure Res (ops : List String) (deps : List Dep) (lv : List (String × Nat)) (i i' : Nat) (r : List String × List (Nat × List String)) : Prop where
  may : (r.1 ++ r.2.flatMap Prod.snd).Pairwise (May deps)
  sub : ∀ y ∈ r.1 ++ r.2.flatMap Prod.snd, y ∈ ops
  wr : ∀ y ∈ r.1 ++ r.2.flatMap Prod.snd, isWrite y = true → i ≤ posOf lv y
  ld : ∀ y ∈ r.1 ++ r.2.flatMap Prod.snd, isWrite y = false → i' ≤ maxPos deps lv (topLevel ops lv) y
  fin : ∀ y ∈ r.2.flatMap Prod.snd, isWrite y = false
  lev : (r.1.filter isWrite).Pairwise fun a b => posOf lv a ≤ posOf lv b
  ex : r.1 ≠ [] → ∃ w ∈ r.1, isWrite w = true

theorem Res.mono {ops : List String} {deps : List Dep} {lv : List (String × Nat)} {i i' k k' : Nat}
    {r : List String × List (Nat × List String)} (h : Res ops deps lv i i' r) (h1 : k ≤ i) (h2 : k' ≤ i') : Res ops deps lv k k' r :=
  ⟨h.may, h.sub, fun y hy hw => Nat.le_trans h1 (h.wr y hy hw), fun y hy hw => Nat.le_trans h2 (h.ld y hy hw), h.fin, h.lev, h.ex⟩

/-- The result after a segment `l` of writes of level `j` and loads up to it. -/
theorem Res.append {ops : List String} {deps : List Dep} {lv : List (String × Nat)} (hl : IsLevels deps lv) {i j : Nat} (hij : i ≤ j)
    {r : List String × List (Nat × List String)} (h : Res ops deps lv (j + 1) j r) {l : List String} (hm : l.Pairwise (May deps))
    (ho : ∀ y ∈ l, y ∈ ops) (hw : ∀ y ∈ l, isWrite y = true → posOf lv y = j)
    (hd : ∀ y ∈ l, isWrite y = false → i ≤ maxPos deps lv (topLevel ops lv) y ∧ maxPos deps lv (topLevel ops lv) y < j)
    (hex : l ≠ [] → ∃ w ∈ l, isWrite w = true) :
    Res ops deps lv j i (l ++ r.1, r.2) := by
  refine ⟨?_, ?_, ?_, ?_, h.fin, ?_, ?_⟩
  · dsimp only
    rw [append_assoc, pairwise_append]
    refine ⟨hm, h.may, ?_⟩
    intro x hx y hy hdep
    cases hwy : isWrite y with
    | true =>
      exfalso
      have h1 := h.wr y hy hwy
      have h2 := hl.lt y x hdep
      cases hwx : isWrite x with
      | true => have := hw x hx hwx; omega
      | false =>
        have h3 := hd x hx hwx
        have h4 := le_maxPos hl (topLevel_le (lv := lv) (ho x hx))
        omega
    | false =>
      cases hwx : isWrite x with
      | true =>
        exfalso
        have h1 := h.ld y hy hwy
        have h2 := maxPos_lt hl (t := topLevel ops lv) hdep
        have := hw x hx hwx
        omega
      | false => exact ⟨rfl, rfl⟩
  · dsimp only
    intro y hy
    rw [append_assoc] at hy
    rcases mem_append.1 hy with hy | hy
    · exact ho y hy
    · exact h.sub y hy
  · dsimp only
    intro y hy hwy
    rw [append_assoc] at hy
    rcases mem_append.1 hy with hy | hy
    · exact Nat.le_of_eq (hw y hy hwy).symm
    · have := h.wr y hy hwy; omega
  · dsimp only
    intro y hy hwy
    rw [append_assoc] at hy
    rcases mem_append.1 hy with hy | hy
    · exact (hd y hy hwy).1
    · have := h.ld y hy hwy; omega
  · dsimp only
    rw [filter_append, pairwise_append]
    refine ⟨?_, h.lev, ?_⟩
    · rw [pairwise_iff_forall_sublist]
      intro a b hab
      have ha := mem_filter.1 (hab.subset (show a ∈ [a, b] by simp))
      have hb := mem_filter.1 (hab.subset (show b ∈ [a, b] by simp))
      rw [hw a ha.1 ha.2, hw b hb.1 hb.2]
    · intro a ha b hb
      obtain ⟨ha, ha'⟩ := mem_filter.1 ha
      obtain ⟨hb, hb'⟩ := mem_filter.1 hb
      rw [hw a ha ha']
      have := h.wr b (mem_append_left _ hb) hb'
      omega
  · dsimp only
    intro hne
    by_cases hle : l = []
    · subst hle
      obtain ⟨w, hw1, hw2⟩ := h.ex (by simpa using hne)
      exact ⟨w, by simpa using hw1, hw2⟩
    · obtain ⟨w, hw1, hw2⟩ := hex hle
      exact ⟨w, mem_append_left _ hw1, hw2⟩

theorem Runs.head {stores loads : Nat → List String} {n i : Nat} {e : List String × List String} {es : List (List String × List String)}
    (h : Runs stores loads n i (e :: es)) : e.1 = stores i ∧ i < n := by
  cases h with
  | cons lt le => exact ⟨rfl, Nat.lt_of_lt_of_le lt le⟩

theorem sortLoop_runs {P : Prog} (ask : Ask) {ops : List String} {deps : List Dep} {lv : List (String × Nat)} (hs : Sit P ops deps lv)
    {n i : Nat} {es : List (List String × List String)} (hr : Runs (storesAt ops lv) (loadsAt deps ops lv) n i es) :
    (∀ m, ∃ r, sortLoop P ask deps (entriesFrom m (es.map Prod.fst)) (entriesFrom m (es.map Prod.snd)) m = some r ∧ Res ops deps lv i i r ∧
      (r.1.filter isWrite).Perm (es.flatMap Prod.fst)) ∧
    ∀ e es', es = e :: es' → ∀ m, ∃ r, sortLoop P ask deps (entriesFrom (m + 1) (es'.map Prod.fst)) (entriesFrom m (es.map Prod.snd))
      (if e.2.isEmpty then m + 1 else m) = some r ∧ Res ops deps lv (i + 1) i r ∧ (r.1.filter isWrite).Perm (es'.flatMap Prod.fst) := by
  induction hr with
  | nil =>
    refine ⟨fun m => ⟨([], []), rfl, ?_, ?_⟩, fun e es' h => by simp at h⟩
    · exact ⟨by simp, by simp, by simp, by simp, by simp, by simp, by simp⟩
    · simp
  | @cons i j l es lt le empty hsome inner next rest ih =>
    obtain ⟨ihA, ihC⟩ := ih
    -- the loads of this run
    have hload : ∀ o ∈ l, o ∈ ops ∧ isWrite o = false ∧ i ≤ maxPos deps lv (topLevel ops lv) o ∧ maxPos deps lv (topLevel ops lv) o < j := by
      intro o ho
      obtain ⟨k, h1, h2, h3⟩ := inner o ho
      obtain ⟨h4, h5, h6⟩ := loadsAt_mem.1 h3
      exact ⟨h4, h5, by omega, by omega⟩
    have hstore : ∀ k, ∀ o ∈ storesAt ops lv k, o ∈ ops ∧ isWrite o = true ∧ posOf lv o = k := fun k o ho => storesAt_mem.1 ho
    have C : ∀ m, ∃ r, sortLoop P ask deps (entriesFrom (m + 1) (es.map Prod.fst)) (entriesFrom m (((storesAt ops lv i, l) :: es).map Prod.snd))
        (if l.isEmpty then m + 1 else m) = some r ∧ Res ops deps lv (i + 1) i r ∧ (r.1.filter isWrite).Perm (es.flatMap Prod.fst) := by
      intro m
      by_cases hl : l = []
      · subst hl
        obtain ⟨r, h1, h2, h3⟩ := ihA (m + 1)
        refine ⟨r, ?_, h2.mono (by omega) (by omega), h3⟩
        rw [map_cons, entriesFrom_empty]
        exact h1
      · have hle : l.isEmpty = false := by simpa using hl
        rw [map_cons]
        dsimp only
        rw [entriesFrom_cons m _ hl]
        simp only [hle, Bool.false_eq_true, if_false]
        cases es with
        | nil =>
          rw [map_nil, map_nil, entriesFrom_nil]
          refine ⟨([], [(m, l)]), rfl, ?_, by simp⟩
          refine ⟨?_, ?_, ?_, ?_, ?_, by simp, by simp⟩
          · simp only [nil_append, flatMap_cons, flatMap_nil, append_nil]
            rw [pairwise_iff_forall_sublist]
            intro x y hxy _
            exact ⟨(hload x (hxy.subset (by simp))).2.1, (hload y (hxy.subset (by simp))).2.1⟩
          · intro y hy
            exact (hload y (by simpa using hy)).1
          · intro y hy hw
            have := (hload y (by simpa using hy)).2.1
            rw [this] at hw
            simp at hw
          · intro y hy _
            exact (hload y (by simpa using hy)).2.2.1
          · intro y hy
            exact (hload y (by simpa using hy)).2.1
        | cons e' es'' =>
          obtain ⟨he, hjn⟩ := rest.head
          have hne : e'.1 ≠ [] := by rw [he]; exact next hl hjn
          rw [map_cons, entriesFrom_cons (m + 1) _ hne]
          unfold sortLoop
          rw [if_neg (by omega)]
          dsimp only
          rw [if_pos ⟨rfl, rfl⟩]
          obtain ⟨o, ho1, ho2, ho3, ho4⟩ := orderStores_spec ask (deps := deps) (nostores := l) (stores := e'.1) hs.tab
            (fun x hx => ⟨(hload x hx).1, (hload x hx).2.1⟩)
            (fun x hx => by rw [he] at hx; exact ⟨(hstore j x hx).1, (hstore j x hx).2.1⟩)
            (fun x hx y hy hd => by
              rw [he] at hx
              have h1 := (hstore j x hx).2.2
              have h2 := hload y hy
              have h3 := hs.lev.lt x y hd
              have h4 := le_maxPos hs.lev (topLevel_le (lv := lv) h2.1)
              omega)
            (fun x hx y hy hd => by
              rw [he] at hx hy
              have h1 := (hstore j x hx).2.2
              have h2 := (hstore j y hy).2.2
              have h3 := hs.lev.lt x y hd
              omega)
          rw [ho1]
          dsimp only
          rw [map_cons, head_any]
          obtain ⟨r, h1, h2, h3⟩ := ihC e' es'' rfl (m + 1)
          have hcur : (if (!e'.2.isEmpty) = true then m + 1 else m + 2) = if e'.2.isEmpty = true then m + 1 + 1 else m + 1 := by
            cases e'.2.isEmpty <;> simp
          rw [hcur]
          rw [map_cons] at h1
          rw [h1]
          refine ⟨_, rfl, ?_, ?_⟩
          · refine (Res.append hs.lev (i := i) (j := j) (by omega) h2 ho2 ?_ ?_ ?_ ?_).mono (by omega) (Nat.le_refl _)
            · intro y hy
              rcases ho4 y hy with hy | hy
              · rw [he] at hy; exact (hstore j y hy).1
              · exact (hload y hy).1
            · intro y hy hw
              rcases ho4 y hy with hy | hy
              · rw [he] at hy; exact (hstore j y hy).2.2
              · rw [(hload y hy).2.1] at hw; simp at hw
            · intro y hy hw
              rcases ho4 y hy with hy | hy
              · rw [he] at hy; rw [(hstore j y hy).2.1] at hw; simp at hw
              · exact (hload y hy).2.2
            · intro _
              obtain ⟨x, hx⟩ := exists_mem_of_ne_nil _ hne
              obtain ⟨h4, h5⟩ := mem_filter.1 (ho3.mem_iff.2 hx)
              exact ⟨x, h4, h5⟩
          · dsimp only
            rw [filter_append, flatMap_cons]
            exact ho3.append h3
    refine ⟨?_, ?_⟩
    · intro m
      obtain ⟨r, h1, h2, h3⟩ := C m
      by_cases hst : storesAt ops lv i = []
      · have hl : l ≠ [] := by
          rcases hsome with h | h
          · exact absurd hst h
          · exact h
        have hle : l.isEmpty = false := by simpa using hl
        simp only [hle, Bool.false_eq_true, if_false] at h1
        refine ⟨r, ?_, h2.mono (by omega) (Nat.le_refl _), ?_⟩
        · rw [map_cons, hst, entriesFrom_empty]
          exact h1
        · rw [flatMap_cons, hst, nil_append]
          exact h3
      · rw [map_cons, entriesFrom_cons m _ hst]
        unfold sortLoop
        rw [if_pos rfl]
        rw [map_cons] at h1 ⊢
        rw [head_all, h1]
        refine ⟨_, rfl, ?_, ?_⟩
        · refine Res.append hs.lev (i := i) (j := i) (Nat.le_refl _) h2 ?_ ?_ ?_ ?_ ?_
          · rw [pairwise_iff_forall_sublist]
            intro x y hxy hd
            have hx := hstore i x (hxy.subset (by simp))
            have hy := hstore i y (hxy.subset (by simp))
            have := hs.lev.lt y x hd
            omega
          · exact fun y hy => (hstore i y hy).1
          · exact fun y hy _ => (hstore i y hy).2.2
          · intro y hy hw
            rw [(hstore i y hy).2.1] at hw
            simp at hw
          · intro _
            obtain ⟨x, hx⟩ := exists_mem_of_ne_nil _ hst
            exact ⟨x, hx, (hstore i x hx).2.1⟩
        · dsimp only
          rw [filter_append, flatMap_cons]
          refine Perm.append ?_ h3
          rw [filter_eq_self.2 fun y hy => (hstore i y hy).2.1]
    · intro e es' he
      cases he
      exact C

end Grey.Greedy
