/-
Helper lemmas for the stack layouts.
-/
import Verif.Layout.Spec
import Mathlib.Data.List.Basic
import Mathlib.Data.List.Perm.Subperm
namespace Grey.Layout
open List

theorem names_append (a b : List (Option String)) : names (a ++ b) = names a ++ names b := by simp [names]
theorem names_map_some (a : List String) : names (a.map some) = a := by
  induction a with
  | nil => rfl
  | cons x a ih => simp [names] at ih ⊢
theorem names_reverse (a : List (Option String)) : names a.reverse = (names a).reverse := by simp [names]
theorem mem_names (a : List (Option String)) (x : String) : x ∈ names a ↔ some x ∈ a := by simp [names]

theorem map_names_of_no_gap (a : List (Option String)) (h : none ∉ a) : (names a).map some = a := by
  induction a with
  | nil => rfl
  | cons o a ih =>
    cases o with
    | none => simp at h
    | some x => simp only [names, filterMap_cons, id, map_cons] at ih ⊢; rw [ih (by simpa using h)]

theorem gaps_eq_zero (a : List (Option String)) : gaps a = 0 ↔ none ∉ a := by
  unfold gaps
  rw [countP_eq_zero]
  constructor
  · intro h hn; exact h none hn rfl
  · intro h o ho hn
    cases o with
    | none => exact h ho
    | some x => simp at hn

theorem gaps_append (a b : List (Option String)) : gaps (a ++ b) = gaps a + gaps b := by simp [gaps]
theorem gaps_reverse (a : List (Option String)) : gaps a.reverse = gaps a := by simp [gaps]
theorem gaps_map_some (a : List String) : gaps (a.map some) = 0 := by
  rw [gaps_eq_zero]; simp

/-! ### fillRev -/

theorem fillRev_perm (l : List (Option String)) (s : List String) :
    (names (fillRev l s).1 ++ (fillRev l s).2) ~ (names l ++ s) := by
  fun_induction fillRev l s with
  | case1 s => simp [names]
  | case2 o l => simp
  | case3 l b s r ih =>
    simp only [names, filterMap_cons, id] at ih ⊢
    refine (Perm.cons b ih).trans ?_
    exact perm_middle.symm
  | case4 a l b s r ih =>
    simp only [names, filterMap_cons, id] at ih ⊢
    exact Perm.cons a ih

theorem fillRev_length (l : List (Option String)) (s : List String) : (fillRev l s).1.length = l.length := by
  fun_induction fillRev l s with
  | case1 s => simp
  | case2 o l => simp
  | case3 l b s r ih => simpa [r] using ih
  | case4 a l b s r ih => simpa [r] using ih

theorem fillRev_gaps (l : List (Option String)) (s : List String) :
    gaps (fillRev l s).1 = gaps l - s.length ∧ (fillRev l s).2.length = s.length - gaps l := by
  fun_induction fillRev l s with
  | case1 s => simp [gaps]
  | case2 o l => simp
  | case3 l b s r ih =>
    simp only [gaps, countP_cons, Option.isNone_some, Option.isNone_none, length_cons, if_true] at ih ⊢
    simp at ih ⊢
    omega
  | case4 a l b s r ih =>
    simp only [gaps, countP_cons, Option.isNone_some, length_cons] at ih ⊢
    simp at ih ⊢
    omega

theorem fillRev_keeps (l : List (Option String)) (s : List String) (k : Nat) (a : String)
    (h : l[k]? = some (some a)) : (fillRev l s).1[k]? = some (some a) := by
  fun_induction fillRev l s generalizing k with
  | case1 s => simp at h
  | case2 o l => exact h
  | case3 l b s r ih =>
    cases k with
    | zero => simp at h
    | succ k => simp at h ⊢; exact ih k h
  | case4 c l b s r ih =>
    cases k with
    | zero => simpa using h
    | succ k => simp at h ⊢; exact ih k h

/-! ### The scan for the junk suffix -/

theorem surplus_cons (o : Option String) (l : List (Option String)) :
    surplus (o :: l) = (if o.isNone then 1 else -1) + surplus l := by simp [surplus]

structure ScanOk (l : List (Option String)) (s : Scan) : Prop where
  cur : s.cur = surplus l
  len : s.len = l.length
  le : s.bestLen ≤ l.length
  val : surplus (l.drop (l.length - s.bestLen)) = s.best
  max : ∀ t, t <:+ l → surplus t ≤ s.best
  short : ∀ t, t <:+ l → surplus t = s.best → s.bestLen ≤ t.length

theorem scan_ok (l : List (Option String)) : ScanOk l (l.foldr scanStep ⟨0, 0, 0, 0⟩) := by
  induction l with
  | nil =>
    refine ⟨by simp [surplus], by simp, by simp, by simp [surplus], ?_, ?_⟩
    · intro t ht; simp at ht; simp [ht, surplus]
    · intro t ht; simp at ht; simp [ht]
  | cons o l ih =>
    simp only [foldr_cons]
    generalize l.foldr scanStep ⟨0, 0, 0, 0⟩ = s at ih
    have hcur : s.cur + (if o.isNone then 1 else -1) = surplus (o :: l) := by rw [surplus_cons, ih.cur]; omega
    unfold scanStep
    simp only [hcur]
    by_cases hgt : surplus (o :: l) > s.best
    · rw [if_pos hgt]
      refine ⟨rfl, by simp [ih.len], by simp [ih.len], by simp [ih.len], ?_, ?_⟩
      · intro t ht
        rcases suffix_cons_iff.1 ht with rfl | h
        · exact Int.le_refl _
        · have := ih.max t h; simp only; omega
      · intro t ht he
        rcases suffix_cons_iff.1 ht with rfl | h
        · simp [ih.len]
        · have := ih.max t h; simp only at he; omega
    · rw [if_neg hgt]
      refine ⟨rfl, by simp [ih.len], by simp; exact Nat.le_succ_of_le ih.le, ?_, ?_, ?_⟩
      · simp only [length_cons]
        have : l.length + 1 - s.bestLen = (l.length - s.bestLen) + 1 := by have := ih.le; omega
        rw [this, drop_succ_cons]
        exact ih.val
      · intro t ht
        rcases suffix_cons_iff.1 ht with rfl | h
        · simp only; omega
        · exact ih.max t h
      · intro t ht he
        rcases suffix_cons_iff.1 ht with rfl | h
        · simp; exact Nat.le_succ_of_le ih.le
        · exact ih.short t h he

/-! ### Swapping the topmost elements into the gaps -/

theorem names_set (m : List (Option String)) (k : Nat) (a : String) (h : m[k]? = some none) :
    names (m.set k (some a)) ~ (a :: names m) := by
  induction m generalizing k with
  | nil => simp at h
  | cons o m ih =>
    cases k with
    | zero =>
      simp only [getElem?_cons_zero, Option.some.injEq] at h
      subst h
      simp [names]
    | succ k =>
      simp only [getElem?_cons_succ] at h
      have := ih k h
      cases o with
      | none => simpa [names] using this
      | some b =>
        simp only [set_cons_succ, names, filterMap_cons, id] at this ⊢
        exact (Perm.cons b this).trans (Perm.swap a b _)

theorem swapLoop_spec (f : Nat) : ∀ (l : List (Option String)) (i j : Nat), j - i ≤ f → i ≤ j → j ≤ l.length →
    (∀ k, j ≤ k → l[k]? ≠ some none) →
    names ((swapLoop f l i j).1.drop (swapLoop f l i j).2) ~ names (l.drop i) ∧
      none ∉ (swapLoop f l i j).1.drop (swapLoop f l i j).2 := by
  have hend : ∀ (l : List (Option String)) (i j : Nat), j ≤ i → (∀ k, j ≤ k → l[k]? ≠ some none) → none ∉ l.drop i := by
    intro l i j hij h hm
    obtain ⟨k, hk⟩ := mem_iff_getElem?.1 hm
    rw [getElem?_drop] at hk
    exact h (i + k) (by omega) hk
  induction f with
  | zero =>
    intro l i j hf hij hj h
    simp only [swapLoop]
    exact ⟨Perm.refl _, hend l i j (by omega) h⟩
  | succ f ih =>
    intro l i j hf hij hj h
    unfold swapLoop
    by_cases hlt : i < j
    · rw [if_pos hlt]
      have hi : i < l.length := by omega
      have hj1 : j - 1 < l.length := by omega
      have hdrop : l.drop i = l[i] :: l.drop (i + 1) := drop_eq_getElem_cons hi
      have hgi : l[i]? = some l[i] := getElem?_eq_getElem hi
      have hgj : l[j - 1]? = some l[j - 1] := getElem?_eq_getElem hj1
      rw [hgi, hgj]
      cases hli : l[i] with
      | none =>
        simp only
        have := ih l (i + 1) j (by omega) (by omega) hj h
        refine ⟨this.1.trans ?_, this.2⟩
        rw [hdrop, hli]; simp [names]
      | some a =>
        simp only
        cases hlj : l[j - 1] with
        | none =>
          simp only
          have hne : i ≠ j - 1 := by intro e; subst e; rw [hli] at hlj; simp at hlj
          have := ih (l.set (j - 1) (some a)) (i + 1) (j - 1) (by omega) (by omega) (by simp; omega) (by
            intro k hk
            rw [getElem?_set]
            by_cases he : j - 1 = k
            · simp only [he, if_true]; split <;> simp
            · rw [if_neg he]; exact h k (by omega))
          refine ⟨this.1.trans ?_, this.2⟩
          rw [hdrop, hli, drop_set, if_neg (by omega)]
          have hk : (l.drop (i + 1))[j - 1 - (i + 1)]? = some none := by
            rw [getElem?_drop, show i + 1 + (j - 1 - (i + 1)) = j - 1 by omega, hgj, hlj]
          exact (names_set _ _ a hk).trans (by simp [names])
        | some b =>
          simp only
          exact ih l i (j - 1) (by omega) (by omega) (by omega) (by
            intro k hk
            by_cases he : k = j - 1
            · rw [he, hgj, hlj]; simp
            · exact h k (by omega))
    · rw [if_neg hlt]
      exact ⟨Perm.refl _, hend l i j (by omega) h⟩

theorem mergeTopmost_spec (l : List (Option String)) : names (mergeTopmost l) ~ names l ∧ none ∉ mergeTopmost l := by
  have := swapLoop_spec l.length l 0 l.length (by omega) (by omega) (Nat.le_refl _) (by
    intro k hk; rw [getElem?_eq_none hk]; simp)
  unfold mergeTopmost
  simpa using this

theorem combineOrder_perm (o : List (Option String)) (s : List String) : names (combineOrder o s) ~ (names o ++ s) := by
  unfold combineOrder
  simp only [names_append, names_map_some, names_reverse]
  have h := fillRev_perm o.reverse s.reverse
  rw [names_reverse] at h
  refine Perm.trans ?_ (h.trans ((reverse_perm _).append (reverse_perm _)))
  exact perm_append_comm.trans ((reverse_perm _).append (reverse_perm _))

theorem combineOrder_gaps (o : List (Option String)) (s : List String) : gaps (combineOrder o s) = gaps o - s.length := by
  unfold combineOrder
  have h := (fillRev_gaps o.reverse s.reverse).1
  rw [gaps_reverse, length_reverse] at h
  simp only [gaps_append, gaps_map_some, gaps_reverse, h, Nat.zero_add]

theorem combineJunk_spec (o : List (Option String)) (s : List String) (c : Bool) :
    names (combineJunk o s c).1 ~ (names o ++ s) ∧ none ∉ (combineJunk o s c).1 ∧
      (combineJunk o s c).2 = (if c then o.length - (findLongest o).1 else 0) := by
  unfold combineJunk
  cases c with
  | false =>
    simp only [Bool.false_eq_true, if_false, and_true]
    exact ⟨(mergeTopmost_spec _).1.trans (combineOrder_perm o s), (mergeTopmost_spec _).2⟩
  | true =>
    simp only [if_true, and_true]
    refine ⟨(mergeTopmost_spec _).1.trans ((combineOrder_perm _ _).trans ?_), (mergeTopmost_spec _).2⟩
    have : names o = names (o.take (findLongest o).1) ++ names (o.drop (findLongest o).1) := by
      rw [← names_append, take_append_drop]
    rw [this]
    change (names (o.take _) ++ (s ++ names (o.drop _))) ~ _
    rw [append_assoc]
    exact Perm.append_left _ perm_append_comm

/-! ### The input stack filtered by liveness -/

theorem relRev_spec (live : List String) (seen l : List String) :
    (names (relRev live seen l)).Nodup ∧ (∀ x, x ∈ names (relRev live seen l) ↔ x ∈ l ∧ x ∈ live ∧ x ∉ seen) ∧
      (relRev live seen l).length = l.length := by
  induction l generalizing seen with
  | nil => simp [relRev, names]
  | cons a l ih =>
    unfold relRev
    by_cases h : a ∈ live ∧ a ∉ seen
    · rw [if_pos h]
      obtain ⟨h1, h2, h3⟩ := ih (a :: seen)
      refine ⟨?_, ?_, by simp [h3]⟩
      · simp only [names, filterMap_cons, id, nodup_cons] at h1 ⊢
        refine ⟨?_, h1⟩
        intro hm
        have := (h2 a).1 hm
        simp at this
      · intro x
        have := h2 x
        simp only [names, filterMap_cons, id, mem_cons] at this ⊢
        rw [this]
        simp only [not_or]
        constructor
        · rintro (rfl | ⟨h4, h5, h6, h7⟩)
          · exact ⟨Or.inl rfl, h⟩
          · exact ⟨Or.inr h4, h5, h7⟩
        · rintro ⟨h4, h5, h6⟩
          by_cases hxa : x = a
          · exact Or.inl hxa
          · exact Or.inr ⟨h4.resolve_left hxa, h5, hxa, h6⟩
    · rw [if_neg h]
      obtain ⟨h1, h2, h3⟩ := ih seen
      refine ⟨by simpa [names] using h1, ?_, by simp [h3]⟩
      intro x
      have := h2 x
      simp only [names, filterMap_cons, id, mem_cons] at this ⊢
      rw [this]
      constructor
      · rintro ⟨h4, h5⟩; exact ⟨Or.inr h4, h5⟩
      · rintro ⟨rfl | h4, h5⟩
        · exact absurd h5 h
        · exact ⟨h4, h5⟩

theorem names_dropWhile (l : List (Option String)) : names (l.dropWhile Option.isNone) = names l := by
  induction l with
  | nil => rfl
  | cons o l ih =>
    cases o with
    | none => simpa [names] using ih
    | some x => simp

/-! ### Trimming and pruning -/

theorem lastLive_le (l live : List String) (lo k : Nat) : lastLive l live lo k ≤ k := by
  induction k with
  | zero => simp [lastLive]
  | succ k ih => unfold lastLive; split <;> omega

theorem lastLive_spec (l live : List String) (lo k : Nat) (hk : k ≤ l.length) :
    (∀ i x, lastLive l live lo k ≤ i → i < k → l[i]? = some x → x ∉ live) ∧
    (lo < lastLive l live lo k → ∃ x, l[lastLive l live lo k - 1]? = some x ∧ x ∈ live) ∧
    (lo ≤ k → lo ≤ lastLive l live lo k ∨ lo = 0) := by
  induction k with
  | zero => simp [lastLive]
  | succ k ih =>
    have hlt : k < l.length := by omega
    unfold lastLive
    by_cases hc : lo ≤ k ∧ (l[k]?).any (fun x => decide (x ∉ live)) = true
    · rw [if_pos hc]
      obtain ⟨h1, h2, h3⟩ := ih (by omega)
      refine ⟨?_, h2, ?_⟩
      · intro i x hi hik hx
        by_cases he : i = k
        · subst he
          have := hc.2
          rw [hx] at this
          simpa using this
        · exact h1 i x hi (by omega) hx
      · intro _; exact h3 hc.1
    · rw [if_neg hc]
      refine ⟨by intro i x hi hik; omega, ?_, by intro h; left; exact h⟩
      intro hlo
      rw [getElem?_eq_getElem hlt] at hc
      simp only [Option.any_some, decide_eq_true_eq, not_and, not_not] at hc
      exact ⟨l[k], by simp [getElem?_eq_getElem hlt], hc (by omega)⟩

theorem swapIdx_spec (l live : List String) (j : Nat) (hj : j < l.length) :
    ∃ i, swapIdx l live j = some i ∧ i ≤ j ∧ (i ≠ 0 → ∃ y, l[i]? = some y ∧ y ∉ live) := by
  induction j with
  | zero => exact ⟨0, rfl, Nat.le_refl _, by simp⟩
  | succ j ih =>
    unfold swapIdx
    rw [getElem?_eq_getElem hj, Option.bind_some]
    by_cases h : l[j + 1] ∈ live
    · rw [if_pos h]
      obtain ⟨i, h1, h2, h3⟩ := ih (by omega)
      exact ⟨i, h1, by omega, h3⟩
    · rw [if_neg h]
      exact ⟨j + 1, rfl, Nat.le_refl _, fun _ => ⟨_, getElem?_eq_getElem hj, h⟩⟩

theorem set_set_perm (l : List String) (x y : String) (rest : List String) (j : Nat) (hl : l = x :: rest)
    (hj : j ≠ 0) (hy : l[j]? = some y) : ((l.set j x).set 0 y) ~ l := by
  subst hl
  obtain ⟨j, rfl⟩ := Nat.exists_eq_succ_of_ne_zero hj
  simp only [Nat.succ_eq_add_one, set_cons_succ, set_cons_zero, getElem?_cons_succ] at hy ⊢
  clear hj
  induction rest generalizing j with
  | nil => simp at hy
  | cons a rest ih =>
    cases j with
    | zero =>
      simp only [getElem?_cons_zero, Option.some.injEq] at hy
      subst hy
      exact Perm.swap _ _ _
    | succ j =>
      simp only [getElem?_cons_succ, set_cons_succ] at hy ⊢
      exact (Perm.swap _ _ _).trans ((Perm.cons a (ih j hy)).trans (Perm.swap _ _ _))

theorem pruneLoop_spec (live : List String) (f : Nat) : ∀ (l : List String) (n : Nat), n + maxDepth ≤ l.length →
    (2 * n ≤ f ∨ ((∃ x rest, l = x :: rest ∧ x ∉ live) ∧ 2 * n ≤ f + 1)) →
    ∃ r, pruneLoop live f l n = some r ∧ (r.filter fun x => decide (x ∈ live)) ~ (l.filter fun x => decide (x ∈ live)) ∧
      r <+~ l := by
  induction f with
  | zero =>
    intro l n hn hf
    have : n = 0 := by rcases hf with h | ⟨_, h⟩ <;> omega
    subst this
    exact ⟨l, by simp [pruneLoop], Perm.refl _, Subperm.refl _⟩
  | succ f ih =>
    intro l n hn hf
    cases n with
    | zero => exact ⟨l, by simp [pruneLoop], Perm.refl _, Subperm.refl _⟩
    | succ k =>
      cases l with
      | nil => simp [maxDepth] at hn
      | cons x rest =>
        unfold pruneLoop
        simp only
        by_cases hx : x ∉ live
        · rw [if_pos hx]
          obtain ⟨r, h1, h2, h3⟩ := ih rest k (by simp at hn; omega) (by
            rcases hf with h | ⟨_, h⟩ <;> (left; omega))
          refine ⟨r, h1, ?_, h3.trans (sublist_cons_self _ _).subperm⟩
          simpa [hx] using h2
        · rw [if_neg hx]
          have hlen : min (maxDepth - 1) (x :: rest).length < (x :: rest).length := by simp [maxDepth] at hn ⊢; omega
          obtain ⟨i, h1, h2, h3⟩ := swapIdx_spec (x :: rest) live _ hlen
          rw [h1, Option.bind_some]
          by_cases hi : i = 0
          · rw [if_pos hi]; exact ⟨_, rfl, Perm.refl _, Subperm.refl _⟩
          · rw [if_neg hi]
            obtain ⟨y, hy, hyl⟩ := h3 hi
            rw [hy, Option.bind_some]
            have hp := set_set_perm (x :: rest) x y rest i rfl hi hy
            have hf' : 2 * (k + 1) ≤ f + 1 := by
              rcases hf with h | ⟨⟨x', rest', e, hx'⟩, _⟩
              · omega
              · simp only [cons.injEq] at e; rw [e.1] at hx; exact absurd hx' hx
            obtain ⟨r, h4, h5, h6⟩ := ih (((x :: rest).set i x).set 0 y) (k + 1) (by simpa using hn) (by
              right
              refine ⟨?_, hf'⟩
              obtain ⟨i, rfl⟩ := Nat.exists_eq_succ_of_ne_zero hi
              exact ⟨y, rest.set i x, by simp, hyl⟩)
            exact ⟨r, h4, h5.trans (hp.filter _), h6.trans hp.subperm⟩

theorem removeTillAccessible_spec (l live : List String) :
    ∃ r, removeTillAccessible l live = some r ∧
      (r.filter fun x => decide (x ∈ live)) ~ (l.filter fun x => decide (x ∈ live)) ∧ r <+~ l := by
  unfold removeTillAccessible
  simp only
  split
  · next h =>
    refine pruneLoop_spec live _ l _ ?_ (Or.inl (by omega))
    have := lastLive_le l live maxDepth l.length
    omega
  · exact ⟨l, rfl, Perm.refl _, Subperm.refl _⟩

theorem overlapLoop_spec (l1 l2 live : List String) (n : Nat) : ∀ (i best : Nat), 1 ≤ i → best < i →
    l1.drop (l1.length - best) = l2.take best → (∀ x ∈ l2.take (i - 1), x ∉ live) → best ≤ l1.length →
    i + n ≤ l1.length + 1 →
    l1.drop (l1.length - overlapLoop l1 l2 live n i best) = l2.take (overlapLoop l1 l2 live n i best) ∧
    (∀ x ∈ l2.take (overlapLoop l1 l2 live n i best), x ∉ live) ∧ overlapLoop l1 l2 live n i best ≤ l1.length := by
  have hsub : ∀ (i best : Nat), 1 ≤ i → best < i → (∀ x ∈ l2.take (i - 1), x ∉ live) → ∀ x ∈ l2.take best, x ∉ live :=
    fun i best hi hb hl x hx => hl x ((take_subset_take_left l2 (by omega)) hx)
  induction n with
  | zero => intro i best hi hb he hl hbl _; exact ⟨he, hsub i best hi hb hl, hbl⟩
  | succ n ih =>
    intro i best hi hb he hl hbl hn
    unfold overlapLoop
    cases hx : l2[i - 1]? with
    | none => exact ⟨he, hsub i best hi hb hl, hbl⟩
    | some x =>
      simp only
      by_cases hxl : x ∈ live
      · rw [if_pos hxl]; exact ⟨he, hsub i best hi hb hl, hbl⟩
      · rw [if_neg hxl]
        have hnew : ∀ y ∈ l2.take (i + 1 - 1), y ∉ live := by
          intro y hy
          rw [show i + 1 - 1 = (i - 1) + 1 by omega, take_add_one, hx] at hy
          rcases mem_append.1 hy with h | h
          · exact hl y h
          · simp at h; rw [h]; exact hxl
        by_cases hc : l1.drop (l1.length - i) = l2.take i
        · rw [if_pos hc]; exact ih (i + 1) i (by omega) (by omega) hc hnew (by omega) (by omega)
        · rw [if_neg hc]; exact ih (i + 1) best (by omega) (by omega) he hnew hbl (by omega)

theorem overlap_spec (l1 l2 live : List String) :
    l1.drop (l1.length - overlap l1 l2 live) = l2.take (overlap l1 l2 live) ∧
    (∀ x ∈ l2.take (overlap l1 l2 live), x ∉ live) ∧ overlap l1 l2 live ≤ l1.length := by
  unfold overlap
  exact overlapLoop_spec l1 l2 live _ 1 0 (Nat.le_refl _) (by omega) (by simp) (by simp) (by omega) (by omega)

end Grey.Layout
