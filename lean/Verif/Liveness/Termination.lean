/-
Helper lemmas: the termination measure of the worklist engine, and the invariant behind its divergence.
-/
import Verif.Liveness.Engine
namespace Grey.Liveness

/-- Variables of `W` missing in `o`. -/
def missing (W o : List String) : Nat := (W.filter fun x => decide (x ∉ o)).length

def cost (W : List String) : Option (List String × Option (List String)) → Nat
  | none => W.length + 1
  | some (o, _) => missing W o

def measure (U W : List String) (info : String → Option (List String × Option (List String))) : Nat :=
  (U.map fun b => cost W (info b)).sum

def weight (K : Nat) (r : String → Nat) (l : List String) : Nat := (l.map fun b => (K + 1) ^ r b).sum

theorem filter_len_le {α} {p q : α → Bool} (l : List α) (h : ∀ x, p x = true → q x = true) :
    (l.filter p).length ≤ (l.filter q).length := by
  induction l with
  | nil => simp
  | cons a l ih =>
    by_cases hp : p a = true
    · simp [hp, h a hp, ih]
    · by_cases hq : q a = true
      · simp [hp, hq]; omega
      · simp [hp, hq, ih]

theorem filter_len_lt {α} {p q : α → Bool} (l : List α) (h : ∀ x, p x = true → q x = true) {a : α} (ha : a ∈ l)
    (hp : p a = false) (hq : q a = true) : (l.filter p).length < (l.filter q).length := by
  induction l with
  | nil => simp at ha
  | cons b l ih =>
    rcases List.mem_cons.1 ha with rfl | ha
    · simp only [List.filter_cons, hp, hq]
      have := filter_len_le l h
      simp; omega
    · have := ih ha
      by_cases hpb : p b = true
      · simp [hpb, h b hpb, this]
      · by_cases hqb : q b = true
        · simp [hpb, hqb]; omega
        · simp [hpb, hqb, this]

theorem missing_le {W o o' : List String} (h : ∀ x ∈ o, x ∈ o') : missing W o' ≤ missing W o := by
  apply filter_len_le
  intro x hx
  simp only [decide_eq_true_eq] at hx ⊢
  exact fun hm => hx (h x hm)

theorem missing_lt {W o o' : List String} (h : ∀ x ∈ o, x ∈ o') {a} (ha : a ∈ W) (h1 : a ∉ o) (h2 : a ∈ o') :
    missing W o' < missing W o := by
  apply filter_len_lt (a := a)
  · intro x hx
    simp only [decide_eq_true_eq] at hx ⊢
    exact fun hm => hx (h x hm)
  · exact ha
  · simp [h2]
  · simp [h1]

theorem missing_le_len (W o : List String) : missing W o ≤ W.length := List.length_filter_le _ _

theorem sum_map_le {α} {f g : α → Nat} (l : List α) (h : ∀ x ∈ l, f x ≤ g x) : (l.map f).sum ≤ (l.map g).sum := by
  induction l with
  | nil => simp
  | cons a l ih =>
    have h1 := h a (by simp)
    have h2 := ih fun x hx => h x (by simp [hx])
    simp; omega

theorem sum_map_lt {α} {f g : α → Nat} (l : List α) (h : ∀ x ∈ l, f x ≤ g x) {a} (ha : a ∈ l) (hlt : f a < g a) :
    (l.map f).sum < (l.map g).sum := by
  induction l with
  | nil => simp at ha
  | cons b l ih =>
    have h1 := h b (by simp)
    have h3 := sum_map_le l fun x hx => h x (by simp [hx])
    rcases List.mem_cons.1 ha with rfl | ha
    · simp; omega
    · have h2 := ih (fun x hx => h x (by simp [hx])) ha
      simp; omega

theorem cost_le_of_ext {W : List String} {st st' : St} (h : Ext st st') (b : String) :
    cost W (st'.info b) ≤ cost W (st.info b) := by
  cases hb : st.info b with
  | none =>
    cases hb' : st'.info b with
    | none => exact Nat.le_refl _
    | some y => obtain ⟨o, i⟩ := y; exact Nat.le_succ_of_le (missing_le_len W o)
  | some y =>
    obtain ⟨o, i⟩ := y
    obtain ⟨o', h1, h2⟩ := h.grow b o i hb
    rw [h1]
    exact missing_le h2

theorem measure_le_of_ext {U W : List String} {st st' : St} (h : Ext st st') :
    measure U W st'.info ≤ measure U W st.info := sum_map_le _ fun b _ => cost_le_of_ext h b

theorem jumpStep_measure {V : String → Info} {U W : List String} {r : String → Nat} {K : Nat} {b p : String}
    {cur : List String} (hp : p ∈ U) (hcur : ∀ x ∈ cur, x ∈ W)
    (hr : (∃ x ∈ cur, x ∈ (V p).predPhiDefs) → r p < r b) (st : St) :
    measure U W (jumpStep V cur st p).info < measure U W st.info ∨
    (measure U W (jumpStep V cur st p).info ≤ measure U W st.info ∧
     (K + 1) * weight K r (jumpStep V cur st p).pending ≤ (K + 1) * weight K r st.pending + (K + 1) ^ r b) := by
  have hE := (jumpStep_ext V cur st p).1
  have hcl := cost_le_of_ext (W := W) hE
  have hm : ∀ (h : cost W ((jumpStep V cur st p).info p) < cost W (st.info p)),
      measure U W (jumpStep V cur st p).info < measure U W st.info :=
    fun h => sum_map_lt _ (fun b _ => hcl b) hp h
  cases hpi : st.info p with
  | none =>
    left
    apply hm
    have : (jumpStep V cur st p).info p = some (propagate (V p) [] cur, none) := by simp [jumpStep, hpi, setInfo]
    rw [this, hpi]
    exact Nat.lt_succ_of_le (missing_le_len _ _)
  | some y =>
    obtain ⟨out, inn⟩ := y
    by_cases hl : leq cur out = true
    · right
      have : jumpStep V cur st p = st := by simp [jumpStep, hpi, hl]
      rw [this]
      exact ⟨Nat.le_refl _, Nat.le_add_right _ _⟩
    · have he : jumpStep V cur st p = ⟨setInfo st.info p (propagate (V p) out cur, inn), p :: st.pending⟩ := by
        simp [jumpStep, hpi, hl]
      have hex : ∃ x ∈ cur, x ∉ out := by
        by_contra hcon
        apply hl
        rw [leq_iff]
        intro x hx
        by_contra hx'
        exact hcon ⟨x, hx, hx'⟩
      obtain ⟨x, hx, hxo⟩ := hex
      by_cases hxp : x ∈ (V p).predPhiDefs
      · right
        have hlt := hr ⟨x, hx, hxp⟩
        refine ⟨measure_le_of_ext hE, ?_⟩
        rw [he]
        have : (K + 1) ^ (r p + 1) ≤ (K + 1) ^ r b := Nat.pow_le_pow_right (by omega) hlt
        simp only [weight, List.map_cons, List.sum_cons, Nat.mul_add]
        rw [Nat.pow_succ, Nat.mul_comm] at this
        omega
      · left
        apply hm
        rw [hpi, he]
        simp only [setInfo, if_true, cost]
        refine missing_lt (fun y hy => ?_) (hcur x hx) hxo ?_
        · rw [mem_propagate]; exact Or.inl hy
        · rw [mem_propagate]; exact Or.inr (Or.inr ⟨hx, hxp⟩)

theorem jumps_measure {V : String → Info} {U W : List String} {r : String → Nat} {K : Nat} {b : String}
    {cur : List String} (hcur : ∀ x ∈ cur, x ∈ W) :
    ∀ (ps : List String) (st : St), (∀ p ∈ ps, p ∈ U) →
      (∀ p ∈ ps, (∃ x ∈ cur, x ∈ (V p).predPhiDefs) → r p < r b) →
      measure U W (ps.foldl (jumpStep V cur) st).info < measure U W st.info ∨
      (measure U W (ps.foldl (jumpStep V cur) st).info ≤ measure U W st.info ∧
       (K + 1) * weight K r (ps.foldl (jumpStep V cur) st).pending ≤
         (K + 1) * weight K r st.pending + ps.length * (K + 1) ^ r b) := by
  intro ps
  induction ps with
  | nil => intro st _ _; right; simp
  | cons p ps ih =>
    intro st hU hr
    rw [List.foldl_cons]
    have h1 := jumpStep_measure (V := V) (K := K) (hU p (by simp)) hcur (hr p (by simp)) st
    have h2 := ih (jumpStep V cur st p) (fun q hq => hU q (by simp [hq])) (fun q hq => hr q (by simp [hq]))
    have e : (p :: ps).length * (K + 1) ^ r b = ps.length * (K + 1) ^ r b + (K + 1) ^ r b := by
      rw [List.length_cons, Nat.succ_mul]
    rw [e]
    rcases h1 with h1 | ⟨h1, h1'⟩
    · left
      rcases h2 with h2 | ⟨h2, _⟩ <;> omega
    · rcases h2 with h2 | ⟨h2, h2'⟩
      · left; omega
      · right; exact ⟨by omega, by omega⟩

/-- The universe of an execution. -/
def Within (U W : List String) (info : String → Option (List String × Option (List String))) : Prop :=
  ∀ b o i, info b = some (o, i) → (b ∈ U ∧ ∀ x ∈ o, x ∈ W) ∧ ∀ l, i = some l → (b ∈ U ∧ ∀ x ∈ l, x ∈ W)

theorem within_iterate {V : String → Info} {U W : List String} (hU : ∀ b ∈ U, ∀ p ∈ (V b).comesFrom, p ∈ U)
    (hW : ∀ b ∈ U, ∀ x, x ∈ (V b).upward ∨ x ∈ (V b).phiDefs ∨ x ∈ (V b).phiUses → x ∈ W)
    {b : String} {rest : List String} {info} {st' : St}
    (hI : Within U W info) (h : iterate V b ⟨info, rest⟩ = some st') : Within U W st'.info := by
  refine sets_iterate (O := fun b o => b ∈ U ∧ ∀ x ∈ o, x ∈ W) (I := fun b l => b ∈ U ∧ ∀ x ∈ l, x ∈ W) ?_ ?_ ?_ hI h
  · rintro b out ⟨hb, ho⟩
    refine ⟨hb, fun x hx => ?_⟩
    rw [mem_transfer] at hx
    rcases hx with (h | h) | ⟨h, _⟩
    · exact hW b hb x (Or.inl h)
    · exact hW b hb x (Or.inr (Or.inl h))
    · exact ho x h
  · rintro b inn p hp ⟨hb, hl⟩
    refine ⟨hU b hb p hp, fun x hx => ?_⟩
    rw [mem_propagate] at hx
    rcases hx with h | h | ⟨h, _⟩
    · simp at h
    · exact hW p (hU b hb p hp) x (Or.inr (Or.inr h))
    · exact hl x h
  · rintro b inn p out hp ⟨hb, hl⟩ ⟨_, ho⟩
    refine ⟨hU b hb p hp, fun x hx => ?_⟩
    rw [mem_propagate] at hx
    rcases hx with h | h | ⟨h, _⟩
    · exact ho x h
    · exact hW p (hU b hb p hp) x (Or.inr (Or.inr h))
    · exact hl x h

theorem analyze_terminates {cfg : String → Block} (wf : WF cfg) {V : String → Info} (hV : ∀ b, InfoSpec cfg b (V b))
    {initial U W : List String} {r : String → Nat} {K : Nat}
    (hU : ∀ b ∈ U, ∀ p ∈ (V b).comesFrom, p ∈ U)
    (hW : ∀ b ∈ U, ∀ x, x ∈ (V b).upward ∨ x ∈ (V b).phiDefs ∨ x ∈ (V b).phiUses → x ∈ W)
    (hK : ∀ b ∈ U, (V b).comesFrom.length ≤ K)
    (hr : ∀ b p s x, p ∈ (cfg b).comesFrom → s ∈ (cfg p).succs → PhiDef cfg s x →
      (Live cfg true b x ∨ PhiDef cfg b x) → r p < r b) :
    ∀ (m w : Nat) (st : St), measure U W st.info ≤ m → weight K r st.pending ≤ w →
      Inv V initial st → Precise cfg st.info → Within U W st.info →
      ∃ f st', analyze V f st = some st' := by
  intro m
  induction m using Nat.strongRecOn with
  | _ m ihm =>
    intro w
    induction w using Nat.strongRecOn with
    | _ w ihw =>
      intro st hm hw hI hP hWi
      obtain ⟨info, pending⟩ := st
      cases pending with
      | nil => exact ⟨0, ⟨info, []⟩, by simp [analyze]⟩
      | cons b rest =>
        obtain ⟨⟨out, inn⟩, hb⟩ := Option.isSome_iff_exists.1 (hI.pend b (by simp))
        have hb' : (⟨info, rest⟩ : St).info b = some (out, inn) := hb
        have hit := iterate_eq (V := V) hb'
        have hbU := (hWi b out inn hb).1.1
        have hI' := inv_iterate hI hit
        have hP' := precise_iterate wf hV hP hit
        have hW' := within_iterate hU hW hWi hit
        have hcurW : ∀ x ∈ transfer (V b) out, x ∈ W := by
          intro x hx
          rw [mem_transfer] at hx
          rcases hx with (h | h) | ⟨h, _⟩
          · exact hW b hbU x (Or.inl h)
          · exact hW b hbU x (Or.inr (Or.inl h))
          · exact (hWi b out inn hb).1.2 x h
        have hrank : ∀ p ∈ (V b).comesFrom, (∃ x ∈ transfer (V b) out, x ∈ (V p).predPhiDefs) → r p < r b := by
          rintro p hp ⟨x, hx, hxp⟩
          obtain ⟨s, hs, hd⟩ := ((hV p).predPhiDefs x).1 hxp
          refine hr b p s x (by rw [← (hV b).comesFrom]; exact hp) hs hd ?_
          rw [mem_transfer, (hV b).upward] at hx
          rcases hx with (h | h) | ⟨h, hd⟩
          · exact Or.inl (.use h)
          · exact Or.inr h
          · exact Or.inl (.thru ((hP b out inn hb).1 x h) (fun h' => hd (((hV b).defs x).2 h')))
        have hmeas := jumps_measure (V := V) (U := U) (W := W) (r := r) (K := K) (b := b) hcurW (V b).comesFrom
          (mid V b out ⟨info, rest⟩) (hU b hbU) hrank
        have hmid : measure U W (mid V b out ⟨info, rest⟩).info = measure U W info := by
          unfold measure
          congr 1
          apply List.map_congr_left
          intro c _
          simp only [mid, setInfo]
          by_cases hc : c = b
          · subst hc; rw [if_pos rfl, show info c = some (out, inn) from hb]; rfl
          · rw [if_neg hc]
        rw [hmid] at hmeas
        have hfin : ∃ f st', analyze V f ((V b).comesFrom.foldl (jumpStep V (transfer (V b) out)) (mid V b out ⟨info, rest⟩)) =
            some st' := by
          simp only at hm hw
          rcases hmeas with h | ⟨h, h'⟩
          · exact ihm _ (Nat.lt_of_lt_of_le h hm) _ _ (Nat.le_refl _) (Nat.le_refl _) hI' hP' hW'
          · refine ihw _ ?_ _ (Nat.le_trans h hm) (Nat.le_refl _) hI' hP' hW'
            have hwc : weight K r (b :: rest) = (K + 1) ^ r b + weight K r rest := by simp [weight]
            have hpend : (mid V b out ⟨info, rest⟩).pending = rest := rfl
            rw [hpend] at h'
            rw [hwc] at hw
            have hpos : 0 < (K + 1) ^ r b := Nat.pow_pos (by omega)
            have hKb : (V b).comesFrom.length * (K + 1) ^ r b ≤ K * (K + 1) ^ r b := Nat.mul_le_mul_right _ (hK b hbU)
            have hlt : (K + 1) * weight K r
                ((V b).comesFrom.foldl (jumpStep V (transfer (V b) out)) (mid V b out ⟨info, rest⟩)).pending <
                (K + 1) * (weight K r rest + (K + 1) ^ r b) := by
              rw [Nat.mul_add, Nat.succ_mul K ((K + 1) ^ r b)]
              omega
            have := Nat.lt_of_mul_lt_mul_left hlt
            omega
        obtain ⟨f, st', hf⟩ := hfin
        exact ⟨f + 1, st', by rw [analyze]; simp only; rw [hit]; exact hf⟩

/-! ### Divergence -/

/-- The blocks of `C` keep the worklist busy. -/
structure Busy (V : String → Info) (C : String → Prop) (d : String → String) (st : St) : Prop where
  out : ∀ b p o i, C b → C p → p ∈ (V b).comesFrom → st.info p = some (o, i) → d b ∉ o
  pend : (∃ b, C b ∧ (st.info b).isSome) → ∃ b, C b ∧ b ∈ st.pending

theorem busy_iterate {V : String → Info} {C : String → Prop} {d : String → String}
    (hd : ∀ b, C b → d b ∈ (V b).phiDefs)
    (hpred : ∀ b, C b → ∃ p ∈ (V b).comesFrom, C p)
    (hpd : ∀ b p, C b → C p → p ∈ (V b).comesFrom → d b ∈ (V p).predPhiDefs ∧ d b ∉ (V p).phiUses)
    {b : String} {rest : List String} {info} {st' : St}
    (hI : Busy V C d ⟨info, b :: rest⟩) (h : iterate V b ⟨info, rest⟩ = some st') : Busy V C d st' := by
  have hout : ∀ b p o i, C b → C p → p ∈ (V b).comesFrom → st'.info p = some (o, i) → d b ∉ o := by
    have := sets_iterate (V := V) (O := fun p o => ∀ b, C b → C p → p ∈ (V b).comesFrom → d b ∉ o) (I := fun _ _ => True)
      (by simp) ?_ ?_ (fun c o i hc => ⟨fun b hb hc' hm => hI.out b c o i hb hc' hm hc, by simp⟩) h
    · exact fun b p o i hb hp hm hs => (this p o i hs).1 b hb hp hm
    · intro c inn p hp _ b hb hp' hm hx
      rw [mem_propagate] at hx
      rcases hx with h | h | ⟨h, hn⟩
      · simp at h
      · exact (hpd b p hb hp' hm).2 h
      · exact hn (hpd b p hb hp' hm).1
    · intro c inn p out hp _ hO b hb hp' hm hx
      rw [mem_propagate] at hx
      rcases hx with h | h | ⟨h, hn⟩
      · exact hO b hb hp' hm h
      · exact (hpd b p hb hp' hm).2 h
      · exact hn (hpd b p hb hp' hm).1
  refine ⟨hout, ?_⟩
  rintro ⟨c, hc, hcs⟩
  have h0 := h
  unfold iterate at h
  simp only [Option.map_eq_some_iff] at h
  obtain ⟨⟨out, inn⟩, hb, rfl⟩ := h
  obtain ⟨hE, _⟩ := jumps_ext V (transfer (V b) out) (V b).comesFrom (mid V b out ⟨info, rest⟩)
  change ∃ b', C b' ∧ b' ∈ ((V b).comesFrom.foldl (jumpStep V (transfer (V b) out)) (mid V b out ⟨info, rest⟩)).pending
  by_cases hCb : C b
  · obtain ⟨p, hp, hCp⟩ := hpred b hCb
    refine ⟨p, hCp, ?_⟩
    -- some step of the fold pushes `p`
    have hin : d b ∈ transfer (V b) out := by rw [mem_transfer]; exact Or.inl (Or.inr (hd b hCb))
    obtain ⟨l1, l2, hl⟩ := List.append_of_mem hp
    have hsub := (jumps_ext V (transfer (V b) out) l2
      (jumpStep V (transfer (V b) out) (l1.foldl (jumpStep V (transfer (V b) out)) (mid V b out ⟨info, rest⟩)) p)).1
    rw [hl, List.foldl_append, List.foldl_cons]
    apply hsub.pend
    have hE1 := (jumps_ext V (transfer (V b) out) l1 (mid V b out ⟨info, rest⟩)).1
    have hE2 := (jumpStep_ext V (transfer (V b) out) (l1.foldl (jumpStep V (transfer (V b) out)) (mid V b out ⟨info, rest⟩)) p).1
    generalize hs1 : l1.foldl (jumpStep V (transfer (V b) out)) (mid V b out ⟨info, rest⟩) = s1 at *
    cases hpi : s1.info p with
    | none => simp [jumpStep, hpi]
    | some y =>
      obtain ⟨po, pi⟩ := y
      have hno : d b ∉ po := by
        obtain ⟨o2, h2, hsub2⟩ := (hE2.trans hsub).grow p po pi hpi
        intro hm
        refine hout b p o2 pi hCb hCp hp ?_ (hsub2 _ hm)
        rw [← h2]
        change ((V b).comesFrom.foldl (jumpStep V (transfer (V b) out)) (mid V b out ⟨info, rest⟩)).info p = _
        rw [hl, List.foldl_append, List.foldl_cons, hs1]
      have hl' : leq (transfer (V b) out) po ≠ true := by
        rw [Ne, leq_iff]; exact fun h => hno (h _ hin)
      simp [jumpStep, hpi, hl']
  · by_cases hnew : info c = none
    · refine ⟨c, hc, hE.changed c ?_⟩
      have hcb : c ≠ b := by rintro rfl; exact hCb hc
      simp only [mid, setInfo, hcb, if_false, hnew]
      intro h
      have hcs' : (((V b).comesFrom.foldl (jumpStep V (transfer (V b) out)) (mid V b out ⟨info, rest⟩)).info c).isSome := hcs
      simp only [mid] at hcs'
      rw [h] at hcs'
      simp at hcs'
    · obtain ⟨q, hq, hqm⟩ := hI.pend ⟨c, hc, by
        have : info c ≠ none := hnew
        exact Option.isSome_iff_ne_none.2 this⟩
      have hqb : q ≠ b := by rintro rfl; exact hCb hq
      refine ⟨q, hq, hE.pend q ?_⟩
      rcases List.mem_cons.1 hqm with h | h
      · exact absurd h hqb
      · exact h

end Grey.Liveness
