/-
Order-independence of schedules (Mazurkiewicz traces), used for C04 and C41.
-/
import Mathlib.Data.List.Basic
open List
namespace Grey.Trace

/-- Running a list of operations. -/
def exec {A σ : Type} (step : A → σ → σ) (l : List A) (w : σ) : σ := l.foldl (fun w a => step a w) w

@[simp] theorem exec_nil {A σ : Type} (step : A → σ → σ) (w : σ) : exec step [] w = w := rfl
@[simp] theorem exec_cons {A σ : Type} (step : A → σ → σ) (a : A) (l : List A) (w : σ) :
    exec step (a :: l) w = exec step l (step a w) := rfl
theorem exec_append {A σ : Type} (step : A → σ → σ) (l l' : List A) (w : σ) :
    exec step (l ++ l') w = exec step l' (exec step l w) := by
  simp [exec, List.foldl_append]

/-- The two operations commute on every state. -/
def Commute {A σ : Type} (step : A → σ → σ) (a b : A) : Prop := ∀ w, step a (step b w) = step b (step a w)

theorem exec_move {A σ : Type} (step : A → σ → σ) (a : A) (p : List A)
    (h : ∀ x ∈ p, Commute step a x) (w : σ) : exec step p (step a w) = step a (exec step p w) := by
  induction p generalizing w with
  | nil => rfl
  | cons x p ih =>
    simp only [exec_cons]
    rw [← h x (by simp) w, ih (fun y hy => h y (by simp [hy]))]

/-- Core lemma: permutations that keep the order of related elements, unrelated elements commuting. -/
theorem exec_perm {A σ : Type} (step : A → σ → σ) (R : A → A → Prop) (l1 l2 : List A)
    (hp : l1.Perm l2) (hn : l1.Nodup)
    (h1 : l1.Pairwise (fun x y => ¬ R y x)) (h2 : l2.Pairwise (fun x y => ¬ R y x))
    (hcov : ∀ a ∈ l1, ∀ b ∈ l1, a ≠ b → Commute step a b ∨ R a b ∨ R b a) (w : σ) :
    exec step l1 w = exec step l2 w := by
  induction l1 generalizing l2 w with
  | nil => rw [List.nil_perm] at hp; subst hp; rfl
  | cons a l1 ih =>
    have ha : a ∈ l2 := hp.subset (by simp)
    obtain ⟨p, q, rfl⟩ := List.append_of_mem ha
    have hp' : l1.Perm (p ++ q) := by
      have : (p ++ a :: q).Perm (a :: (p ++ q)) := List.perm_middle
      exact (hp.trans this).cons_inv
    have hn2 : (p ++ a :: q).Nodup := hp.nodup_iff.1 hn
    have hmem : ∀ x ∈ p, x ∈ l1 := fun x hx => hp'.symm.subset (by simp [hx])
    have hne : ∀ x ∈ p, x ≠ a := by
      intro x hx e; subst e
      exact (List.nodup_cons.1 hn).1 (hmem x hx)
    have hcomm : ∀ x ∈ p, Commute step a x := by
      intro x hx
      rcases hcov a (by simp) x (by simp [hmem x hx]) (hne x hx).symm with h | h | h
      · exact h
      · exact absurd h ((List.pairwise_append.1 h2).2.2 x hx a (by simp))
      · exact absurd h ((List.pairwise_cons.1 h1).1 x (hmem x hx))
    rw [exec_cons, ih (p ++ q) hp' (List.nodup_cons.1 hn).2 (List.pairwise_cons.1 h1).2
      (h2.sublist (by simp))
      (fun x hx y hy => hcov x (by simp [hx]) y (by simp [hy]))]
    rw [exec_append, exec_append, exec_cons, exec_move step a p hcomm]

/-- Two operations do not influence each other: neither the state they produce together nor what each of
them returns depends on their order. -/
structure Indep {A σ O : Type} (step : A → σ → σ) (out : A → σ → O) (a b : A) : Prop where
  comm : Commute step a b
  outL : ∀ w, out a (step b w) = out a w
  outR : ∀ w, out b (step a w) = out b w

theorem Indep.symm {A σ O : Type} {step : A → σ → σ} {out : A → σ → O} {a b : A}
    (h : Indep step out a b) : Indep step out b a :=
  ⟨fun w => (h.comm w).symm, h.outR, h.outL⟩

theorem exec_filter {A σ : Type} (step : A → σ → σ) (eff : A → Bool) (l : List A)
    (h : ∀ a ∈ l, eff a = false → ∀ w, step a w = w) (w : σ) :
    exec step (l.filter eff) w = exec step l w := by
  induction l generalizing w with
  | nil => rfl
  | cons a l ih =>
    have ih' := ih (fun b hb => h b (by simp [hb]))
    cases he : eff a with
    | true => simp [he, ih']
    | false => simp [he, ih', h a (by simp) he]

theorem out_exec_of_indep {A σ O : Type} (step : A → σ → σ) (out : A → σ → O) (o : A) (B : List A)
    (h : ∀ b ∈ B, ∀ w, out o (step b w) = out o w) (w : σ) : out o (exec step B w) = out o w := by
  induction B generalizing w with
  | nil => rfl
  | cons b B ih => rw [exec_cons, ih (fun x hx => h x (by simp [hx])), h b (by simp)]

theorem idxOf_lt_of_split {A : Type} [DecidableEq A] {tab pre post : List A} {o x : A}
    (hnd : tab.Nodup) (h : tab = pre ++ o :: post) (hx : x ∈ tab) :
    x ∈ pre ↔ tab.idxOf x < tab.idxOf o := by
  subst h
  have ho : o ∉ pre := by
    intro hc
    exact (List.nodup_append.1 hnd).2.2 o hc o (by simp) rfl
  have e : (pre ++ o :: post).idxOf o = pre.length := by
    rw [List.idxOf_append_of_notMem ho]; simp
  rw [e]
  constructor
  · intro hx'
    rw [List.idxOf_append_of_mem hx']
    exact List.idxOf_lt_length_of_mem hx'
  · intro hlt
    by_cases hx' : x ∈ pre
    · exact hx'
    · rw [List.idxOf_append_of_notMem hx'] at hlt
      omega

theorem nodup_filter_of_count {A : Type} [DecidableEq A] {L : List A} {eff : A → Bool}
    (h : ∀ a ∈ L, eff a = true → L.count a = 1) : (L.filter eff).Nodup := by
  rw [List.nodup_iff_count]
  intro a
  by_cases ha : a ∈ L.filter eff
  · have := List.mem_filter.1 ha
    rw [List.count_filter this.2, h a this.1 this.2]
    exact Nat.le_refl 1
  · rw [List.count_eq_zero_of_not_mem ha]; omega

/-- `[b, a] <+ L`: some occurrence of `b` comes before some occurrence of `a`. -/
theorem pairwise_of_no_inversion {A : Type} {L : List A} {R : A → A → Prop}
    (h : ∀ x y, R y x → ¬ ([x, y] <+ L)) : L.Pairwise (fun x y => ¬ R y x) := by
  rw [List.pairwise_iff_forall_sublist]
  intro x y hxy hr
  exact h x y hr hxy

section
variable {A σ O : Type} [DecidableEq A] (step : A → σ → σ) (out : A → σ → O) (eff : A → Bool)
  (tab L : List A)

/-- The conflict order of the reference program. -/
def Conf (a b : A) : Prop := tab.idxOf a < tab.idxOf b ∧ ¬ Indep step out a b

theorem cover {tab : List A} {a b : A} (ha : a ∈ tab) (hab : a ≠ b) :
    Commute step a b ∨ Conf step out tab a b ∨ Conf step out tab b a := by
  by_cases h : Indep step out a b
  · exact Or.inl h.comm
  · right
    rcases Nat.lt_trichotomy (tab.idxOf a) (tab.idxOf b) with h' | h' | h'
    · exact Or.inl ⟨h', h⟩
    · exact absurd ((List.idxOf_inj ha).1 h') hab
    · exact Or.inr ⟨h', fun hi => h hi.symm⟩

theorem pairwise_tab {tab : List A} (hnd : tab.Nodup) : tab.Pairwise (fun x y => ¬ Conf step out tab y x) := by
  rw [List.pairwise_iff_getElem]
  intro i j hi hj hij hc
  have h1 := hnd.idxOf_getElem i hi
  have h2 := hnd.idxOf_getElem j hj
  have := hc.1
  rw [h1, h2] at this
  omega

/-- The schedule `L` of the operations of `tab` (effects exactly once, the others any number of times)
reaches the same state as `tab`, and each of its operations returns what it returns in `tab`, provided
that conflicting operations are never inverted. -/
theorem schedule_refines (hnd : tab.Nodup) (hsub : ∀ x ∈ L, x ∈ tab)
    (hpure : ∀ a ∈ tab, eff a = false → ∀ w, step a w = w)
    (honce : ∀ a ∈ tab, eff a = true → L.count a = 1)
    (hord : ∀ a b, Conf step out tab a b → ¬ ([b, a] <+ L)) (w : σ) :
    exec step L w = exec step tab w ∧
    ∀ P o Q pre post, L = P ++ o :: Q → tab = pre ++ o :: post →
      out o (exec step P w) = out o (exec step pre w) := by
  have hL : L.Pairwise (fun x y => ¬ Conf step out tab y x) :=
    pairwise_of_no_inversion fun x y hr => hord y x hr
  have hT := pairwise_tab step out hnd
  have hpureL : ∀ a ∈ L, eff a = false → ∀ w, step a w = w := fun a ha => hpure a (hsub a ha)
  have hSnd : (L.filter eff).Nodup := nodup_filter_of_count fun a ha he => honce a (hsub a ha) he
  have hEnd : (tab.filter eff).Nodup := hnd.sublist List.filter_sublist
  have hcov : ∀ l : List A, (∀ x ∈ l, x ∈ tab) →
      ∀ a ∈ l, ∀ b ∈ l, a ≠ b → Commute step a b ∨ Conf step out tab a b ∨ Conf step out tab b a :=
    fun l hl a ha b _ hab => cover step out (hl a ha) hab
  have hEL : ∀ a ∈ tab, eff a = true → a ∈ L := by
    intro a ha he
    have := honce a ha he
    exact List.count_pos_iff.1 (by omega)
  have permOf : ∀ {l l' : List A}, l.Nodup → l'.Nodup → (∀ x, x ∈ l ↔ x ∈ l') → l.Perm l' := by
    intro l l' h h' hm
    rw [List.perm_iff_count]
    intro a
    have c1 := List.nodup_iff_count.1 h a
    have c2 := List.nodup_iff_count.1 h' a
    by_cases ha : a ∈ l
    · have p1 := List.count_pos_iff.2 ha
      have p2 := List.count_pos_iff.2 ((hm a).1 ha)
      omega
    · rw [List.count_eq_zero_of_not_mem ha, List.count_eq_zero_of_not_mem (fun h => ha ((hm a).2 h))]
  constructor
  · rw [← exec_filter step eff L hpureL, ← exec_filter step eff tab hpure]
    refine exec_perm step (Conf step out tab) _ _ (permOf hSnd hEnd ?_) hSnd
      (hL.sublist List.filter_sublist) (hT.sublist List.filter_sublist)
      (hcov _ (fun x hx => hsub x (List.mem_filter.1 hx).1)) w
    intro x
    simp only [List.mem_filter]
    exact ⟨fun h => ⟨hsub x h.1, h.2⟩, fun h => ⟨hEL x h.1 h.2, h.2⟩⟩
  · intro P o Q pre post hLs hTs
    have hpre : ∀ x ∈ tab, (x ∈ pre ↔ tab.idxOf x < tab.idxOf o) := fun x hx => idxOf_lt_of_split hnd hTs hx
    have hoT : o ∈ tab := by rw [hTs]; simp
    have hPsub : P <+ L := by rw [hLs]; simp
    have hpresub : pre <+ tab := by rw [hTs]; simp
    have hPT : ∀ x ∈ P, x ∈ tab := fun x hx => hsub x (hPsub.subset hx)
    have hpT : ∀ x ∈ pre, x ∈ tab := fun x hx => hpresub.subset hx
    have hPE : (P.filter eff).Nodup := hSnd.sublist (hPsub.filter _)
    have hpE : (pre.filter eff).Nodup := hEnd.sublist (hpresub.filter _)
    have hpo : o ∉ pre := by
      intro h
      have := (hpre o hoT).1 h
      omega
    have hbefore : ∀ b ∈ P, [b, o] <+ L := by
      intro b hb
      rw [hLs]
      exact (List.singleton_sublist.2 hb).append (List.singleton_sublist.2 (by simp))
    -- splitting a duplicate-free list by a predicate
    have split : ∀ (l : List A) (p : A → Bool), l.Perm (l.filter p ++ l.filter (fun x => !p x)) :=
      fun l p => (List.filter_append_perm p l).symm
    -- P, reordered
    have e1 : exec step (P.filter eff) w =
        exec step ((P.filter eff).filter (fun x => decide (x ∈ pre)) ++
          (P.filter eff).filter (fun x => !decide (x ∈ pre))) w := by
      have pwP : (P.filter eff).Pairwise (fun x y => ¬ Conf step out tab y x) :=
        hL.sublist (List.filter_sublist.trans hPsub)
      refine exec_perm step (Conf step out tab) _ _ (split _ _) hPE pwP ?_
        (hcov _ (fun x hx => hPT x (List.mem_filter.1 hx).1)) w
      rw [List.pairwise_append]
      refine ⟨pwP.sublist List.filter_sublist, pwP.sublist List.filter_sublist, ?_⟩
      intro a ha b hb hc
      simp only [List.mem_filter, decide_eq_true_eq, Bool.not_eq_true', decide_eq_false_iff_not] at ha hb
      have h1 := (hpre a (hPT a ha.1.1)).1 ha.2
      exact hb.2 ((hpre b (hPT b hb.1.1)).2 (by have := hc.1; omega))
    have e2 : ∀ w, out o (exec step ((P.filter eff).filter (fun x => !decide (x ∈ pre))) w) = out o w := by
      intro w
      apply out_exec_of_indep
      intro b hb
      simp only [List.mem_filter, Bool.not_eq_true', decide_eq_false_iff_not] at hb
      have hbT := hPT b hb.1.1
      have hbo : b ≠ o := by
        rintro rfl
        have h1 := honce b hbT hb.1.2
        rw [hLs, List.count_append, List.count_cons_self] at h1
        have := List.count_pos_iff.2 hb.1.1
        omega
      have hidx : tab.idxOf o < tab.idxOf b := by
        rcases Nat.lt_trichotomy (tab.idxOf b) (tab.idxOf o) with h' | h' | h'
        · exact absurd ((hpre b hbT).2 h') hb.2
        · exact absurd ((List.idxOf_inj hbT).1 h') hbo
        · exact h'
      by_cases hi : Indep step out o b
      · exact hi.outL
      · exact absurd (hbefore b hb.1.1) (hord o b ⟨hidx, hi⟩)
    -- pre, reordered
    have e3 : exec step (pre.filter eff) w =
        exec step ((pre.filter eff).filter (fun x => decide (x ∈ P)) ++
          (pre.filter eff).filter (fun x => !decide (x ∈ P))) w := by
      have pwP : (pre.filter eff).Pairwise (fun x y => ¬ Conf step out tab y x) :=
        hT.sublist (List.filter_sublist.trans hpresub)
      refine exec_perm step (Conf step out tab) _ _ (split _ _) hpE pwP ?_
        (hcov _ (fun x hx => hpT x (List.mem_filter.1 hx).1)) w
      rw [List.pairwise_append]
      refine ⟨pwP.sublist List.filter_sublist, pwP.sublist List.filter_sublist, ?_⟩
      intro c hc d hd hcf
      simp only [List.mem_filter, decide_eq_true_eq, Bool.not_eq_true', decide_eq_false_iff_not] at hc hd
      have hdL := hEL d (hpT d hd.1.1) hd.1.2
      rw [hLs, List.mem_append] at hdL
      rcases hdL with h | h
      · exact hd.2 h
      · refine hord d c hcf ?_
        rw [hLs]
        exact (List.singleton_sublist.2 hc.2).append (List.singleton_sublist.2 h)
    have e4 : ∀ w, out o (exec step ((pre.filter eff).filter (fun x => !decide (x ∈ P))) w) = out o w := by
      intro w
      apply out_exec_of_indep
      intro d hd
      simp only [List.mem_filter, Bool.not_eq_true', decide_eq_false_iff_not] at hd
      have hdT := hpT d hd.1.1
      have hidx := (hpre d hdT).1 hd.1.1
      by_cases hi : Indep step out d o
      · exact hi.outR
      · exfalso
        have hdL := hEL d hdT hd.1.2
        rw [hLs, List.mem_append] at hdL
        rcases hdL with h | h
        · exact hd.2 h
        · rcases List.mem_cons.1 h with rfl | h
          · exact hpo hd.1.1
          · refine hord d o ⟨hidx, hi⟩ ?_
            rw [hLs]
            refine List.Sublist.trans ?_ (List.sublist_append_right P _)
            exact (List.singleton_sublist.2 h).cons_cons o
    have e5 : exec step ((P.filter eff).filter (fun x => decide (x ∈ pre))) w =
        exec step ((pre.filter eff).filter (fun x => decide (x ∈ P))) w := by
      refine exec_perm step (Conf step out tab) _ _
        (permOf (hPE.sublist List.filter_sublist) (hpE.sublist List.filter_sublist) ?_)
        (hPE.sublist List.filter_sublist)
        (hL.sublist (List.filter_sublist.trans (List.filter_sublist.trans hPsub)))
        (hT.sublist (List.filter_sublist.trans (List.filter_sublist.trans hpresub)))
        (hcov _ (fun x hx => hPT x (List.mem_filter.1 (List.mem_filter.1 hx).1).1)) w
      intro x
      simp only [List.mem_filter, decide_eq_true_eq]
      constructor
      · rintro ⟨⟨h1, h2⟩, h3⟩; exact ⟨⟨h3, h2⟩, h1⟩
      · rintro ⟨⟨h1, h2⟩, h3⟩; exact ⟨⟨h3, h2⟩, h1⟩
    rw [← exec_filter step eff P (fun a ha => hpureL a (hPsub.subset ha)),
      ← exec_filter step eff pre (fun a ha => hpure a (hpT a ha)), e1, e3, exec_append, exec_append, e2, e4, e5]

end

end Grey.Trace
