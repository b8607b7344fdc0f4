/-
C13: exactly when the liveness analysis stops.
-/
import Verif.Liveness.Exact
namespace Grey.Liveness

/-! ### Specification -/

/-- The block `b`, from which the program can end, follows `p`, and a variable that is found at the beginning of `b` is never found at the end of `p`: a phi
function of a successor of `p` assigns it, and it is no argument of a phi function for `p`. -/
def Restless (cfg : String → Block) (initial : List String) (p b : String) : Prop :=
  b ∈ (cfg p).succs ∧ CanEnd cfg initial b ∧ ∃ x, (Unhidden cfg initial true b x ∨ PhiDef cfg b x) ∧ (∃ s ∈ (cfg p).succs, PhiDef cfg s x) ∧
    ¬ ∃ s ∈ (cfg p).succs, PhiArg cfg p s x

/-! ### Proofs: the analysis stops without cycles of such edges -/

theorem phiUses_jump {V : String → Info} {initial cur : List String} {st : St} {p : String} (h : HasPhiUses V initial st.info) :
    HasPhiUses V initial (jumpStep V cur st p).info := by
  have new : ∀ out i, HasPhiUses V initial (setInfo st.info p (propagate (V p) out cur, i)) := by
    intro out i b o i' hb
    simp only [setInfo] at hb
    split at hb
    · next e =>
      subst e
      cases hb
      exact .inr fun x hx => by rw [mem_propagate]; exact .inr (.inl hx)
    · exact h b o i' hb
  unfold jumpStep
  split
  · exact new _ _
  · split
    · exact new _ _
    · exact h

theorem jumpStep_measure_phi {V : String → Info} {U W : List String} {r : String → Nat} {K : Nat} {b p : String}
    {cur : List String} (hp : p ∈ U) (hcur : ∀ x ∈ cur, x ∈ W)
    (hr : (∃ x ∈ cur, x ∈ (V p).predPhiDefs ∧ x ∉ (V p).phiUses) → r p < r b) (st : St)
    {initial : List String} (hH : HasPhiUses V initial st.info) (hpi : p ∉ initial) :
    measure U W (jumpStep V cur st p).info < measure U W st.info ∨
    (measure U W (jumpStep V cur st p).info ≤ measure U W st.info ∧
     (K + 1) * weight K r (jumpStep V cur st p).pending ≤ (K + 1) * weight K r st.pending + (K + 1) ^ r b) := by
  have hE := (jumpStep_ext V cur st p).1
  have hcl := cost_le_of_ext (W := W) hE
  have hm : ∀ (h : cost W ((jumpStep V cur st p).info p) < cost W (st.info p)),
      measure U W (jumpStep V cur st p).info < measure U W st.info :=
    fun h => sum_map_lt _ (fun b _ => hcl b) hp h
  cases hst : st.info p with
  | none =>
    left
    apply hm
    have : (jumpStep V cur st p).info p = some (propagate (V p) [] cur, none) := by simp [jumpStep, hst, setInfo]
    rw [this, hst]
    exact Nat.lt_succ_of_le (missing_le_len _ _)
  | some y =>
    obtain ⟨out, inn⟩ := y
    by_cases hl : leq cur out = true
    · right
      have : jumpStep V cur st p = st := by simp [jumpStep, hst, hl]
      rw [this]
      exact ⟨Nat.le_refl _, Nat.le_add_right _ _⟩
    · have he : jumpStep V cur st p = ⟨setInfo st.info p (propagate (V p) out cur, inn), p :: st.pending⟩ := by
        simp [jumpStep, hst, hl]
      have hex : ∃ x ∈ cur, x ∉ out := by
        by_contra hcon
        apply hl
        rw [leq_iff]
        intro x hx
        by_contra hx'
        exact hcon ⟨x, hx, hx'⟩
      obtain ⟨x, hx, hxo⟩ := hex
      by_cases hxp : x ∈ (V p).predPhiDefs
      · right
        have hlt := hr ⟨x, hx, hxp, fun h => hxo ((hH p out inn hst).resolve_left hpi x h)⟩
        refine ⟨measure_le_of_ext hE, ?_⟩
        rw [he]
        have : (K + 1) ^ (r p + 1) ≤ (K + 1) ^ r b := Nat.pow_le_pow_right (by omega) hlt
        simp only [weight, List.map_cons, List.sum_cons, Nat.mul_add]
        rw [Nat.pow_succ, Nat.mul_comm] at this
        omega
      · left
        apply hm
        rw [hst, he]
        simp only [setInfo, if_true, cost]
        refine missing_lt (fun y hy => ?_) (hcur x hx) hxo ?_
        · rw [mem_propagate]; exact Or.inl hy
        · rw [mem_propagate]; exact Or.inr (Or.inr ⟨hx, hxp⟩)

theorem jumps_measure_phi {V : String → Info} {U W : List String} {r : String → Nat} {K : Nat} {b : String}
    {cur : List String} (hcur : ∀ x ∈ cur, x ∈ W) {initial : List String} :
    ∀ (ps : List String) (st : St), (∀ p ∈ ps, p ∈ U) → HasPhiUses V initial st.info → (∀ p ∈ ps, p ∉ initial) →
      (∀ p ∈ ps, (∃ x ∈ cur, x ∈ (V p).predPhiDefs ∧ x ∉ (V p).phiUses) → r p < r b) →
      measure U W (ps.foldl (jumpStep V cur) st).info < measure U W st.info ∨
      (measure U W (ps.foldl (jumpStep V cur) st).info ≤ measure U W st.info ∧
       (K + 1) * weight K r (ps.foldl (jumpStep V cur) st).pending ≤
         (K + 1) * weight K r st.pending + ps.length * (K + 1) ^ r b) := by
  intro ps
  induction ps with
  | nil => intro st _ _ _ _; right; simp
  | cons p ps ih =>
    intro st hU hH hn hr
    rw [List.foldl_cons]
    have h1 := jumpStep_measure_phi (V := V) (K := K) (hU p (by simp)) hcur (hr p (by simp)) st hH (hn p (by simp))
    have h2 := ih (jumpStep V cur st p) (fun q hq => hU q (by simp [hq])) (phiUses_jump hH) (fun q hq => hn q (by simp [hq])) (fun q hq => hr q (by simp [hq]))
    have e : (p :: ps).length * (K + 1) ^ r b = ps.length * (K + 1) ^ r b + (K + 1) ^ r b := by
      rw [List.length_cons, Nat.succ_mul]
    rw [e]
    rcases h1 with h1 | ⟨h1, h1'⟩
    · left
      rcases h2 with h2 | ⟨h2, _⟩ <;> omega
    · rcases h2 with h2 | ⟨h2, h2'⟩
      · left; omega
      · right; exact ⟨by omega, by omega⟩

theorem analyze_stops {cfg : String → Block} (wf : WF cfg) {V : String → Info} (hV : ∀ b, InfoSpec cfg b (V b))
    {initial U W : List String} {r : String → Nat} {K : Nat}
    (hU : ∀ b ∈ U, ∀ p ∈ (V b).comesFrom, p ∈ U)
    (hW : ∀ b ∈ U, ∀ x, x ∈ (V b).upward ∨ x ∈ (V b).phiDefs ∨ x ∈ (V b).phiUses → x ∈ W)
    (hK : ∀ b ∈ U, (V b).comesFrom.length ≤ K)
    (hterm : ∀ b ∈ initial, (cfg b).succs = []) (hr : ∀ p b, Restless cfg initial p b → r p < r b) :
    ∀ (m w : Nat) (st : St), measure U W st.info ≤ m → weight K r st.pending ≤ w →
      Inv V initial st → Found cfg initial st.info → HasPhiUses V initial st.info → Within U W st.info →
      ∃ f st', analyze V f st = some st' := by
  intro m
  induction m using Nat.strongRecOn with
  | _ m ihm =>
    intro w
    induction w using Nat.strongRecOn with
    | _ w ihw =>
      intro st hm hw hI hP hH hWi
      obtain ⟨info, pending⟩ := st
      cases pending with
      | nil => exact ⟨0, ⟨info, []⟩, by simp [analyze]⟩
      | cons b rest =>
        obtain ⟨⟨out, inn⟩, hb⟩ := Option.isSome_iff_exists.1 (hI.pend b (by simp))
        have hb' : (⟨info, rest⟩ : St).info b = some (out, inn) := hb
        have hit := iterate_eq (V := V) hb'
        have hbU := (hWi b out inn hb).1.1
        have hI' := inv_iterate hI hit
        have hP' := found_iterate wf hV hP hit
        have hH' := phiUses_iterate hH hit
        have hW' := within_iterate hU hW hWi hit
        have hcurW : ∀ x ∈ transfer (V b) out, x ∈ W := by
          intro x hx
          rw [mem_transfer] at hx
          rcases hx with (h | h) | ⟨h, _⟩
          · exact hW b hbU x (Or.inl h)
          · exact hW b hbU x (Or.inr (Or.inl h))
          · exact (hWi b out inn hb).1.2 x h
        have hsucc : ∀ p ∈ (V b).comesFrom, b ∈ (cfg p).succs := fun p hp => (wf.edges p b).2 (by rwa [← (hV b).comesFrom])
        have hnin : ∀ p ∈ (V b).comesFrom, p ∉ initial := by
          intro p hp hin
          have := hsucc p hp
          rw [hterm p hin] at this
          cases this
        have hrank : ∀ p ∈ (V b).comesFrom, (∃ x ∈ transfer (V b) out, x ∈ (V p).predPhiDefs ∧ x ∉ (V p).phiUses) → r p < r b := by
          rintro p hp ⟨x, hx, hxp, hxu⟩
          refine hr p b ⟨hsucc p hp, (hP b out inn hb).1.1, x, ?_, ((hV p).predPhiDefs x).1 hxp, fun h => hxu (((hV p).phiUses x).2 h)⟩
          rw [mem_transfer, (hV b).upward] at hx
          rcases hx with (h | h) | ⟨h, hd⟩
          · exact Or.inl (.use h)
          · exact Or.inr h
          · exact Or.inl (.thru ((hP b out inn hb).1.2 x h) (fun h' => hd (((hV b).defs x).2 h')))
        have hHm : HasPhiUses V initial (mid V b out ⟨info, rest⟩).info := by
          intro c o i hc
          simp only [mid, setInfo] at hc
          split at hc
          · next e =>
            subst e
            cases hc
            exact hH c out inn hb
          · exact hH c o i hc
        have hmeas := jumps_measure_phi (V := V) (U := U) (W := W) (r := r) (K := K) (b := b) hcurW (V b).comesFrom
          (mid V b out ⟨info, rest⟩) (hU b hbU) hHm hnin hrank
        have hmid : measure U W (mid V b out ⟨info, rest⟩).info = measure U W info := by
          unfold measure
          congr 1
          apply List.map_congr_left
          intro c _
          simp only [mid, setInfo]
          by_cases hc : c = b
          · subst hc; rw [if_pos rfl, show info c = some (out, inn) from hb]; rfl
          · rw [if_neg hc]
        rw [hmid] at hmeas
        have hfin : ∃ f st', analyze V f ((V b).comesFrom.foldl (jumpStep V (transfer (V b) out)) (mid V b out ⟨info, rest⟩)) =
            some st' := by
          simp only at hm hw
          rcases hmeas with h | ⟨h, h'⟩
          · exact ihm _ (Nat.lt_of_lt_of_le h hm) _ _ (Nat.le_refl _) (Nat.le_refl _) hI' hP' hH' hW'
          · refine ihw _ ?_ _ (Nat.le_trans h hm) (Nat.le_refl _) hI' hP' hH' hW'
            have hwc : weight K r (b :: rest) = (K + 1) ^ r b + weight K r rest := by simp [weight]
            have hpend : (mid V b out ⟨info, rest⟩).pending = rest := rfl
            rw [hpend] at h'
            rw [hwc] at hw
            have hpos : 0 < (K + 1) ^ r b := Nat.pow_pos (by omega)
            have hKb : (V b).comesFrom.length * (K + 1) ^ r b ≤ K * (K + 1) ^ r b := Nat.mul_le_mul_right _ (hK b hbU)
            have hlt : (K + 1) * weight K r
                ((V b).comesFrom.foldl (jumpStep V (transfer (V b) out)) (mid V b out ⟨info, rest⟩)).pending <
                (K + 1) * (weight K r rest + (K + 1) ^ r b) := by
              rw [Nat.mul_add, Nat.succ_mul K ((K + 1) ^ r b)]
              omega
            have := Nat.lt_of_mul_lt_mul_left hlt
            omega
        obtain ⟨f, st', hf⟩ := hfin
        exact ⟨f + 1, st', by rw [analyze]; simp only; rw [hit]; exact hf⟩

/-! ### Proofs: the analysis of a program stops only without such cycles -/

/-- The blocks are marked with times: a block that has found such a variable has been visited before its predecessor, unless the predecessor waits. -/
structure Timed (V : String → Info) (t : String → Nat) (n : Nat) (st : St) : Prop where
  out : ∀ p o i x, st.info p = some (o, i) → x ∈ (V p).predPhiDefs → x ∉ (V p).phiUses → x ∉ o
  bound : ∀ b, t b ≤ n
  later : ∀ b p o l x, st.info b = some (o, some l) → x ∈ l → p ∈ (V b).comesFrom → x ∈ (V p).predPhiDefs → x ∉ (V p).phiUses →
    p ∈ st.pending ∨ t b < t p

theorem jumps_push {V : String → Info} {cur : List String} {x : String} (hx : x ∈ cur) {p : String} {ps : List String} (hp : p ∈ ps) {st : St}
    (hout : ∀ o i, (ps.foldl (jumpStep V cur) st).info p = some (o, i) → x ∉ o) : p ∈ (ps.foldl (jumpStep V cur) st).pending := by
  obtain ⟨l1, l2, rfl⟩ := List.append_of_mem hp
  rw [List.foldl_append, List.foldl_cons] at *
  have hsub := (jumps_ext V cur l2 (jumpStep V cur (l1.foldl (jumpStep V cur) st) p)).1
  have hE2 := (jumpStep_ext V cur (l1.foldl (jumpStep V cur) st) p).1
  apply hsub.pend
  generalize l1.foldl (jumpStep V cur) st = s1 at *
  cases hpi : s1.info p with
  | none => simp [jumpStep, hpi]
  | some y =>
    obtain ⟨po, pi⟩ := y
    have hno : x ∉ po := by
      obtain ⟨o2, h2, hsub2⟩ := (hE2.trans hsub).grow p po pi hpi
      exact fun hm => hout o2 pi h2 (hsub2 _ hm)
    have hl' : leq cur po ≠ true := by
      rw [Ne, leq_iff]; exact fun h => hno (h _ hx)
    simp [jumpStep, hpi, hl']

theorem timed_iterate {V : String → Info} {t : String → Nat} {n : Nat} {b : String} {rest : List String} {info} {st' : St}
    (hI : Timed V t n ⟨info, b :: rest⟩) (h : iterate V b ⟨info, rest⟩ = some st') :
    Timed V (fun c => if c = b then n + 1 else t c) (n + 1) st' := by
  have hout : ∀ p o i x, st'.info p = some (o, i) → x ∈ (V p).predPhiDefs → x ∉ (V p).phiUses → x ∉ o := by
    have := sets_iterate (V := V) (O := fun p o => ∀ x, x ∈ (V p).predPhiDefs → x ∉ (V p).phiUses → x ∉ o) (I := fun _ _ => True)
      (by simp) ?_ ?_ (fun c o i hc => ⟨fun x h1 h2 => hI.out c o i x hc h1 h2, by simp⟩) h
    · exact fun p o i x hs => (this p o i hs).1 x
    · intro c inn p hp _ x h1 h2 hx
      rw [mem_propagate] at hx
      rcases hx with h | h | ⟨h, hn⟩
      · simp at h
      · exact h2 h
      · exact hn h1
    · intro c inn p out hp _ hO x h1 h2 hx
      rw [mem_propagate] at hx
      rcases hx with h | h | ⟨h, hn⟩
      · exact hO x h1 h2 h
      · exact h2 h
      · exact hn h1
  refine ⟨hout, ?_, ?_⟩
  · intro c
    have := hI.bound c
    split <;> omega
  unfold iterate at h
  simp only [Option.map_eq_some_iff] at h
  obtain ⟨⟨out, inn⟩, hb, rfl⟩ := h
  obtain ⟨hE, _⟩ := jumps_ext V (transfer (V b) out) (V b).comesFrom (mid V b out ⟨info, rest⟩)
  change ∀ c p o l x, ((V b).comesFrom.foldl (jumpStep V (transfer (V b) out)) (mid V b out ⟨info, rest⟩)).info c = some (o, some l) → _ at *
  intro c p o l x hc hx hp hd hu
  change p ∈ ((V b).comesFrom.foldl (jumpStep V (transfer (V b) out)) (mid V b out ⟨info, rest⟩)).pending ∨ _
  -- what a block has found at its beginning is kept by the jumps
  have old : ∃ o', (mid V b out ⟨info, rest⟩).info c = some (o', some l) := by
    cases hm : (mid V b out ⟨info, rest⟩).info c with
    | none => exact absurd (hE.fresh c o _ hm hc) (by simp)
    | some y =>
      obtain ⟨o', i'⟩ := y
      obtain ⟨o2, h2, -⟩ := hE.grow c o' i' hm
      rw [hc] at h2
      simp only [Option.some.injEq, Prod.mk.injEq] at h2
      exact ⟨o', by rw [← h2.2]⟩
  obtain ⟨o', ho'⟩ := old
  simp only [mid, setInfo] at ho'
  by_cases hcb : c = b
  · subst hcb
    simp only [if_true, Option.some.injEq, Prod.mk.injEq] at ho'
    obtain ⟨-, rfl⟩ := ho'
    exact .inl (jumps_push hx hp fun o i ho => hout p o i x ho hd hu)
  · rw [if_neg hcb] at ho'
    have hlt := hI.bound c
    by_cases hpb : p = b
    · right
      simp only [hcb, hpb, if_true, if_false]
      omega
    · rcases hI.later c p o' l x ho' hx hp hd hu with h | h
      · refine .inl (hE.pend p ?_)
        rcases List.mem_cons.1 h with h | h
        · exact absurd h hpb
        · exact h
      · right
        simpa only [hcb, hpb, if_false] using h

theorem timed_start (V : String → Info) (initial : List String) : Timed V (fun _ => 0) 0 (start initial) := by
  refine ⟨?_, fun _ => Nat.le_refl _, ?_⟩
  · intro p o i x h _ _
    simp only [start] at h
    split at h
    · cases h; simp
    · cases h
  · intro b p o l x h
    simp only [start] at h
    split at h <;> cases h

/-! ### C13 -/

theorem rank_of_stops {cfg : String → Block} (wf : WF cfg) {blocks initial : List String} {f : Nat} {st : St} (h : run cfg blocks initial f = some st)
    (hterm : ∀ b ∈ initial, (cfg b).succs = []) : ∃ rank : String → Nat, ∀ p b, Restless cfg initial p b → rank p < rank b := by
  obtain ⟨V, hV, hA⟩ := run_info wf h
  obtain ⟨⟨t, n, hT⟩, hend⟩ := analyze_inv (I := fun s => ∃ t n, Timed V t n s)
    (fun b rest info st' hI hi => by obtain ⟨t, n, hI⟩ := hI; exact ⟨_, _, timed_iterate hI hi⟩) f _ _ ⟨_, _, timed_start V initial⟩ hA
  refine ⟨fun b => n - t b, ?_⟩
  rintro p b ⟨hs, he, x, hx, hd, hu⟩
  obtain ⟨⟨o, i⟩, hi⟩ := Option.isSome_iff_exists.1 ((visited_iff wf h b).2 he)
  obtain ⟨l, rfl, -⟩ := stops_at_solution wf h hi
  have hl := (live_exact wf h hterm hi x).2.2 hx
  have := hT.later b p o l x hi hl (by rw [(hV b).comesFrom]; exact (wf.edges p b).1 hs) (((hV p).predPhiDefs x).2 hd)
    (fun h => hu (((hV p).phiUses x).1 h))
  rw [hend] at this
  have h1 := hT.bound p
  rcases this with h | h
  · cases h
  · show n - t p < n - t b
    omega

theorem stops_of_rank {cfg : String → Block} (wf : WF cfg) {blocks initial : List String} (hi : ∀ b ∈ initial, b ∈ blocks)
    (hclosed : ∀ b ∈ blocks, ∀ p ∈ (cfg b).comesFrom, p ∈ blocks) (hterm : ∀ b ∈ initial, (cfg b).succs = [])
    (rank : String → Nat) (hr : ∀ p b, Restless cfg initial p b → rank p < rank b) : ∃ f st, run cfg blocks initial f = some st := by
  have hall : (blocks.all fun b => (blockInfo cfg b).isSome) = true := by
    rw [List.all_eq_true]
    intro b _
    obtain ⟨V, hV, _⟩ := blockInfo_spec wf b
    simp [hV]
  have hV : ∀ b, InfoSpec cfg b ((blockInfo cfg b).getD ⟨[], [], [], [], [], []⟩) := by
    intro b
    obtain ⟨V, hV, hs⟩ := blockInfo_spec wf b
    rw [hV]; exact hs
  unfold run
  simp only [hall, if_true]
  generalize hVe : (fun b => (blockInfo cfg b).getD ⟨[], [], [], [], [], []⟩) = V
  have hV' : ∀ b, InfoSpec cfg b (V b) := by intro b; rw [← hVe]; exact hV b
  have hex : ∀ l : List String, ∃ K, ∀ b ∈ l, (V b).comesFrom.length ≤ K := by
    intro l
    induction l with
    | nil => exact ⟨0, by simp⟩
    | cons a l ih =>
      obtain ⟨K, hK⟩ := ih
      refine ⟨K + (V a).comesFrom.length, ?_⟩
      intro b hb
      rcases List.mem_cons.1 hb with rfl | hb
      · omega
      · exact Nat.le_add_right_of_le (hK b hb)
  obtain ⟨K, hK⟩ := hex blocks
  refine analyze_stops wf hV' (initial := initial) (U := blocks)
    (W := blocks.flatMap fun b => (V b).upward ++ (V b).phiDefs ++ (V b).phiUses) (r := rank) (K := K) ?_ ?_ hK hterm hr _ _ (start initial)
    (Nat.le_refl _) (Nat.le_refl _) (inv_start V initial) found_start (phiUses_start V) ?_
  · intro b hb p hp
    rw [(hV' b).comesFrom] at hp
    exact hclosed b hb p hp
  · intro b hb x hx
    rw [List.mem_flatMap]
    refine ⟨b, hb, ?_⟩
    simp only [List.mem_append]
    rcases hx with h | h | h
    · exact Or.inl (Or.inl h)
    · exact Or.inl (Or.inr h)
    · exact Or.inr h
  · intro b o i hb
    simp only [start] at hb
    split at hb
    · next hm =>
      simp only [Option.some.injEq, Prod.mk.injEq] at hb
      obtain ⟨rfl, rfl⟩ := hb
      exact ⟨⟨hi b hm, by simp⟩, by simp⟩
    · simp at hb

/-- **C13, second half, exactly.** From terminal blocks without successors, and over blocks closed under predecessors, the iteration stops if and only if no cycle
of the graph consists of restless edges only. -/
theorem stops_iff {cfg : String → Block} (wf : WF cfg) {blocks initial : List String} (hi : ∀ b ∈ initial, b ∈ blocks)
    (hclosed : ∀ b ∈ blocks, ∀ p ∈ (cfg b).comesFrom, p ∈ blocks) (hterm : ∀ b ∈ initial, (cfg b).succs = []) :
    (∃ f st, run cfg blocks initial f = some st) ↔ ¬ ∃ b, Relation.TransGen (Restless cfg initial) b b := by
  constructor
  · rintro ⟨f, st, h⟩ ⟨b, hb⟩
    obtain ⟨rank, hr⟩ := rank_of_stops wf h hterm
    have : ∀ c, Relation.TransGen (Restless cfg initial) b c → rank b < rank c := by
      intro c hc
      induction hc with
      | single h => exact hr _ _ h
      | tail _ h ih => exact Nat.lt_trans ih (hr _ _ h)
    exact Nat.lt_irrefl _ (this b hb)
  · intro hn
    classical
    have hmem : ∀ b, CanEnd cfg initial b → b ∈ blocks := by
      rintro b ⟨t, ht, hbt⟩
      induction hbt using Relation.ReflTransGen.head_induction_on with
      | refl => exact hi t ht
      | head h _ ih => exact hclosed _ ih _ ((wf.edges _ _).1 h)
    refine stops_of_rank wf hi hclosed hterm
      (fun b => (blocks.filter fun q => decide (Relation.TransGen (Restless cfg initial) q b)).length) ?_
    intro p b h
    have hp : p ∈ blocks := hclosed b (hmem b h.2.1) p ((wf.edges p b).1 h.1)
    refine filter_len_lt blocks ?_ hp ?_ ?_
    · intro q hq
      simp only [decide_eq_true_eq] at hq ⊢
      exact hq.tail h
    · simpa using fun hc => hn ⟨p, hc⟩
    · simpa using Relation.TransGen.single h

/-! ### Examples -/

/-- In `keepG`, a loop with a phi function, no cycle is restless: the analysis stops. -/
theorem keepG_quiet : ¬ ∃ b, Relation.TransGen (Restless keepG ["X"]) b b :=
  (stops_iff (blocks := ["E", "H", "L", "X"]) keepG_wf (by decide) (by decide) (by decide)).1 ⟨20, _, rfl⟩

/-- The cycle of blocks with phi functions of `spinG` is restless. -/
theorem spinG_restless : ∃ b, Relation.TransGen (Restless spinG ["X"]) b b := by
  by_contra h
  obtain ⟨f, st, hs⟩ := (stops_iff (blocks := ["E", "H", "T", "M", "X"]) spinG_wf (by decide) (by decide) (by decide)).2 h
  rw [spinG_never_stops f] at hs
  cases hs

/-- The edge of `keepG` into its loop is restless: the header assigns `x` with a phi function that takes `a` from the entry. -/
example : Restless keepG ["X"] "E" "H" := by
  refine ⟨by decide, ⟨"X", by simp, .head (b := "L") (by decide) (.head (by decide) .refl)⟩, "x", .inr ?_, ⟨"H", by decide, ?_⟩, ?_⟩
  · exact ⟨⟨"PhiFunction", ["a", "x"], ["x"]⟩, by decide, rfl, by decide⟩
  · exact ⟨⟨"PhiFunction", ["a", "x"], ["x"]⟩, by decide, rfl, by decide⟩
  · rintro ⟨s, hs, ha⟩
    have : s = "H" := by simpa [keepG] using hs
    subst this
    obtain ⟨k, i, hk, hi, -, hx, -⟩ := ha
    have hi' : i = ⟨"PhiFunction", ["a", "x"], ["x"]⟩ := by simpa [keepG] using hi
    subst hi'
    match k with
    | 0 => simp at hx
    | 1 => simp [keepG] at hk
    | _ + 2 => simp at hx

end Grey.Liveness
