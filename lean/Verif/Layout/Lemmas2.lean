/-
Helper lemmas for the unification of stacks before a join and for the names of repeated elements.
-/
import Verif.Layout.Lemmas
import Verif.Common.Names
namespace Grey.Layout
open List

/-! ### Output layouts -/

theorem outputLayout_spec (input final live : List String) (depth : String → List Int) (canJunk : Bool) :
    ∃ mid junk, (outputLayout input final live depth canJunk).1 = (final ++ mid ++ junk).map some ∧
      (outputLayout input final live depth canJunk).2 = (final ++ mid).length ∧
      mid.Nodup ∧ (∀ x, x ∈ mid ↔ x ∈ live ∧ (x ∈ input ∨ x ∉ final)) ∧ junk <:+ input ∧ (canJunk = false → junk = []) := by
  obtain ⟨hr1, hr2, hr3⟩ := relRev_spec live [] input.reverse
  unfold outputLayout
  simp only
  generalize hrel : (relRev live [] input.reverse).reverse = rel
  generalize ht : trimNone rel = t
  have htn : names t.1 = names rel := by rw [← ht]; exact names_dropWhile _
  have hrn : names rel = (names (relRev live [] input.reverse)).reverse := by rw [← hrel, names_reverse]
  have hmem : ∀ x, x ∈ names t.1 ↔ x ∈ input ∧ x ∈ live := by
    intro x; rw [htn, hrn, mem_reverse, hr2]; simp
  have hnd : (names t.1).Nodup := by rw [htn, hrn]; exact nodup_reverse.2 hr1
  have htg : t.2 = gaps t.1 := by rw [← ht]; rfl
  have htl : t.1.length ≤ input.length := by
    rw [← ht]
    refine Nat.le_trans (dropWhile_sublist _).length_le ?_
    rw [← hrel, length_reverse, hr3, length_reverse]
    exact Nat.le_refl _
  generalize hP : sorted (keyLe depth) (live.filter fun x => decide (x ∉ final) && decide (some x ∉ t.1)).dedup = P
  have hPm : ∀ x, x ∈ P ↔ x ∈ live ∧ x ∉ final ∧ x ∉ names t.1 := by
    intro x
    rw [← hP, (sorted_perm _ _).mem_iff, mem_dedup, mem_filter, mem_names]
    simp
  have hPn : P.Nodup := by rw [← hP]; exact (sorted_perm _ _).nodup_iff.2 (nodup_dedup _)
  have hall : ∀ m : List String, m ~ (names t.1 ++ P) → m.Nodup ∧ ∀ x, x ∈ m ↔ x ∈ live ∧ (x ∈ input ∨ x ∉ final) := by
    intro m hm
    refine ⟨hm.nodup_iff.2 ?_, ?_⟩
    · rw [nodup_append]
      refine ⟨hnd, hPn, ?_⟩
      rintro a ha b hb rfl
      exact ((hPm a).1 hb).2.2 ha
    · intro x
      rw [hm.mem_iff, mem_append, hPm, hmem]
      constructor
      · rintro (⟨h1, h2⟩ | ⟨h1, h2, _⟩)
        · exact ⟨h2, Or.inl h1⟩
        · exact ⟨h1, Or.inr h2⟩
      · rintro ⟨h1, h2 | h2⟩
        · exact Or.inl ⟨h2, h1⟩
        · by_cases h3 : x ∈ input
          · exact Or.inl ⟨h3, h1⟩
          · exact Or.inr ⟨h1, h2, fun h => h3 h.1⟩
  by_cases hc : P.length ≥ t.2
  · rw [if_pos hc]
    have hg : none ∉ combineOrder t.1 P := by
      rw [← gaps_eq_zero, combineOrder_gaps, ← htg]; omega
    obtain ⟨h1, h2⟩ := hall _ (combineOrder_perm t.1 P)
    refine ⟨names (combineOrder t.1 P), [], ?_, ?_, h1, h2, nil_suffix, fun _ => rfl⟩
    · simp [map_names_of_no_gap _ hg]
    · have : (names (combineOrder t.1 P)).length = (combineOrder t.1 P).length := by
        conv_rhs => rw [← map_names_of_no_gap _ hg, length_map]
      simp only [length_append, this]; omega
  · rw [if_neg hc]
    obtain ⟨h0, hg, hj⟩ := combineJunk_spec t.1 P canJunk
    obtain ⟨h1, h2⟩ := hall _ h0
    refine ⟨names (combineJunk t.1 P canJunk).1, input.drop (input.length - (combineJunk t.1 P canJunk).2), ?_, ?_, h1, h2,
      drop_suffix _ _, ?_⟩
    · simp [map_names_of_no_gap _ hg]
    · have : (names (combineJunk t.1 P canJunk).1).length = (combineJunk t.1 P canJunk).1.length := by
        conv_rhs => rw [← map_names_of_no_gap _ hg, length_map]
      simp only [length_append, this]; omega
    · intro hcj; rw [hj, hcj]; simp

/-! ### Dictionaries of phi functions -/

theorem lookup_mem {d : List (String × String)} {x a : String} (h : lookup d x = some a) : (x, a) ∈ d := by
  unfold lookup at h
  simp only [Option.map_eq_some_iff] at h
  obtain ⟨q, hq, rfl⟩ := h
  have h1 := find?_some hq
  have h2 := mem_of_find?_eq_some hq
  simp only [beq_iff_eq] at h1
  rw [← h1]; exact h2

theorem lookup_none {d : List (String × String)} {x : String} : lookup d x = none ↔ ∀ q ∈ d, q.1 ≠ x := by
  unfold lookup
  rw [Option.map_eq_none_iff, find?_eq_none]
  simp

theorem lookup_append (d e : List (String × String)) (x : String) :
    lookup (d ++ e) x = (lookup d x).or (lookup e x) := by
  unfold lookup
  rw [find?_append]
  cases d.find? _ <;> simp

theorem lookup_of_mem {d : List (String × String)} (hnd : (d.map (·.1)).Nodup) {x a : String} (h : (x, a) ∈ d) :
    lookup d x = some a := by
  cases hl : lookup d x with
  | none => exact absurd rfl (lookup_none.1 hl _ h)
  | some b =>
    have hm := lookup_mem hl
    have := inj_on_of_nodup_map hnd hm h rfl
    simp only [Prod.mk.injEq, true_and] at this
    rw [this]

theorem zip_filter {args preds : List String} {p : String} {k : Nat} (hnd : preds.Nodup) (hk : preds[k]? = some p) :
    ((args.zip preds).filter fun q => q.2 == p).map (·.1) = (args[k]?).toList := by
  induction preds generalizing args k with
  | nil => simp at hk
  | cons b preds ih =>
    cases args with
    | nil => simp
    | cons a args =>
      rw [nodup_cons] at hnd
      cases k with
      | zero =>
        simp only [getElem?_cons_zero, Option.some.injEq] at hk
        subst hk
        have : ((args.zip preds).filter fun q => q.2 == b) = [] := by
          rw [filter_eq_nil_iff]
          rintro ⟨u, v⟩ hq hv
          simp only [beq_iff_eq] at hv
          exact hnd.1 (hv ▸ (of_mem_zip hq).2)
        simp [this]
      | succ k =>
        simp only [getElem?_cons_succ] at hk
        have hne : b ≠ p := by
          rintro rfl
          exact hnd.1 (mem_of_getElem? hk)
        simp only [zip_cons_cons, filter_cons, beq_iff_eq, hne, if_false, getElem?_cons_succ]
        exact ih hnd.2 hk

theorem mem_phiDict {preds : List String} {phis : List Phi} {p : String} {k : Nat} (hnd : preds.Nodup)
    (hk : preds[k]? = some p) (x a : String) :
    (x, a) ∈ phiDict preds phis p ↔ ∃ f ∈ phis, f.out = x ∧ f.args[k]? = some a := by
  unfold phiDict
  simp only [mem_reverse, mem_flatMap, mem_map, Prod.mk.injEq]
  constructor
  · rintro ⟨f, hf, q, hq, rfl, rfl⟩
    refine ⟨f, hf, rfl, ?_⟩
    have : q.1 ∈ ((f.args.zip preds).filter fun q => q.2 == p).map (·.1) := mem_map_of_mem hq
    rw [zip_filter hnd hk] at this
    simpa using this
  · rintro ⟨f, hf, rfl, ha⟩
    have : a ∈ ((f.args.zip preds).filter fun q => q.2 == p).map (·.1) := by
      rw [zip_filter hnd hk, ha]; simp
    obtain ⟨q, hq, rfl⟩ := mem_map.1 this
    exact ⟨f, hf, q, hq, rfl, rfl⟩

theorem lookup_phiDict_some {preds : List String} {phis : List Phi} {p : String} {k : Nat} (hnd : preds.Nodup)
    (hk : preds[k]? = some p) (hout : (phis.map (·.out)).Nodup) {f : Phi} (hf : f ∈ phis) {a : String}
    (ha : f.args[k]? = some a) : lookup (phiDict preds phis p) f.out = some a := by
  cases hl : lookup (phiDict preds phis p) f.out with
  | none => exact absurd rfl (lookup_none.1 hl _ ((mem_phiDict hnd hk _ _).2 ⟨f, hf, rfl, ha⟩))
  | some b =>
    obtain ⟨g, hg, h1, h2⟩ := (mem_phiDict hnd hk _ _).1 (lookup_mem hl)
    have := inj_on_of_nodup_map hout hg hf h1
    subst this
    rw [ha] at h2
    exact h2.symm

theorem lookup_phiDict_none {preds : List String} {phis : List Phi} {p : String} {k : Nat} (hnd : preds.Nodup)
    (hk : preds[k]? = some p) {x : String} (hx : ∀ f ∈ phis, f.out ≠ x) : lookup (phiDict preds phis p) x = none := by
  rw [lookup_none]
  rintro ⟨y, a⟩ hq rfl
  obtain ⟨f, hf, h1, _⟩ := (mem_phiDict hnd hk _ _).1 hq
  exact hx f hf h1

theorem lookup_phiFunc {target : String} {preds : List String} {live : String → List String} {phis : List Phi}
    {p x : String} (hx : ∀ i, x ≠ pseudoName i) :
    lookup (phiFunc target preds live phis p) x = lookup (phiDict preds phis p) x := by
  unfold phiFunc
  rw [lookup_append]
  have : lookup ((List.range (numPseudo target preds live phis)).map fun i =>
      (pseudoName i, ((toRemove target preds live phis p)[i]?).getD "bottom")).reverse x = none := by
    rw [lookup_none]
    intro q hq
    simp only [mem_reverse, mem_map] at hq
    obtain ⟨i, _, rfl⟩ := hq
    exact fun h => hx i h.symm
  rw [this, Option.none_or]

theorem lookup_phiFunc_pseudo {target : String} {preds : List String} {live : String → List String} {phis : List Phi}
    {p : String} {i : Nat} (hi : i < numPseudo target preds live phis) :
    lookup (phiFunc target preds live phis p) (pseudoName i) =
      some (((toRemove target preds live phis p)[i]?).getD "bottom") := by
  unfold phiFunc
  rw [lookup_append]
  have : lookup ((List.range (numPseudo target preds live phis)).map fun i =>
      (pseudoName i, ((toRemove target preds live phis p)[i]?).getD "bottom")).reverse (pseudoName i) =
      some (((toRemove target preds live phis p)[i]?).getD "bottom") := by
    apply lookup_of_mem
    · rw [map_reverse, nodup_reverse, map_map]
      refine (nodup_range).map ?_
      intro a b h
      exact Names.prefix_inj h
    · rw [mem_reverse, mem_map]
      exact ⟨i, mem_range.2 hi, rfl⟩
  rw [this]; rfl

theorem le_foldr_max (l : List Nat) : ∀ x ∈ l, x ≤ l.foldr max 0 := by
  induction l with
  | nil => simp
  | cons a l ih =>
    intro x hx
    simp only [foldr_cons]
    rcases mem_cons.1 hx with rfl | h
    · exact Nat.le_max_left _ _
    · exact Nat.le_trans (ih x h) (Nat.le_max_right _ _)

theorem toRemove_len {target : String} {preds : List String} {live : String → List String} {phis : List Phi}
    {p : String} (hp : p ∈ preds) : (toRemove target preds live phis p).length ≤ numPseudo target preds live phis := by
  unfold numPseudo
  exact le_foldr_max _ _ (mem_map.2 ⟨p, hp, rfl⟩)

/-! ### Unification -/

theorem unifyWith_spec (dict : String → List (String × String)) (pseudo : List String) (target : String)
    (preds : List String) (live : String → List String) (depth : String → List Int) (original : String)
    (originalIn : List String) (canJunk : Bool) :
    let u := unifyWith dict pseudo target preds live depth original originalIn canJunk
    u.combined.Nodup ∧ (∀ x, x ∈ u.combined ↔ x ∈ live target ∨ x ∈ pseudo) ∧
      u.stacks.map (·.1) = preds ∧
      ∀ p s, (p, s) ∈ u.stacks → (s.take u.combined.length = unifyJoint (dict p) u.combined) ∧
        (p ≠ original ∨ canJunk = false → s.length = u.combined.length) ∧ u.combined.length ≤ s.length := by
  simp only [unifyWith]
  generalize hinit : combinedInit originalIn (live target ++ pseudo) (dict original) = init
  obtain ⟨mid, junk, h1, h2, h3, h4, h5, h6⟩ := outputLayout_spec init [] (live target ++ pseudo)
    (fun x => if x ∈ pseudo then [0] else depth x) canJunk
  rw [h1, h2]
  simp only [nil_append, names_map_some]
  have htake : (mid ++ junk).take mid.length = mid := by simp
  rw [htake]
  refine ⟨h3, ?_, ?_, ?_⟩
  · intro x; rw [h4]; simp
  · rw [map_map]; simp [Function.comp_def]
  · intro p s hs
    rw [mem_map] at hs
    obtain ⟨q, hq, he⟩ := hs
    simp only [Prod.mk.injEq] at he
    obtain ⟨rfl, rfl⟩ := he
    have hj : (unifyJoint (dict q) (mid ++ junk)).take mid.length = unifyJoint (dict q) mid := by
      unfold unifyJoint; rw [← map_take, htake]
    have hlen : (unifyJoint (dict q) mid).length = mid.length := by simp [unifyJoint]
    by_cases hqo : q = original
    · simp only [hqo, if_true]
      rw [hqo] at hj
      refine ⟨hj, ?_, by simp [unifyJoint]⟩
      rintro (h | h)
      · exact absurd rfl h
      · simp [unifyJoint, h6 h]
    · simp only [hqo, if_false]
      rw [take_take, Nat.min_self, hj]
      exact ⟨rfl, fun _ => hlen, Nat.le_of_eq hlen.symm⟩

/-! ### Names of repeated elements -/

theorem substRev_get (l : List String) : ∀ (added : List String), added.Nodup → ∀ (i : Nat) (x : String), l[i]? = some x →
    (substRev added l)[i]? = some (if x ∈ added ++ l.take i then "a" ++ toString (added ++ l.take i).dedup.length else x) := by
  induction l with
  | nil => intro added _ i x h; simp at h
  | cons y l ih =>
    intro added hnd i x h
    unfold substRev
    have hdl : added.dedup.length = added.length := by rw [hnd.dedup]
    cases i with
    | zero =>
      simp only [getElem?_cons_zero, Option.some.injEq] at h
      subst h
      by_cases hy : y ∈ added
      · simp [hy, hnd.dedup]
      · simp [hy]
    | succ i =>
      simp only [getElem?_cons_succ] at h
      by_cases hy : y ∈ added
      · rw [if_pos hy]
        simp only [getElem?_cons_succ, take_succ_cons]
        rw [ih added hnd i x h]
        have hm : ∀ z, z ∈ added ++ y :: l.take i ↔ z ∈ added ++ l.take i := by
          intro z; simp only [mem_append, mem_cons]
          constructor
          · rintro (h | rfl | h)
            · exact Or.inl h
            · exact Or.inl hy
            · exact Or.inr h
          · rintro (h | h)
            · exact Or.inl h
            · exact Or.inr (Or.inr h)
        have hl : (added ++ y :: l.take i).dedup.length = (added ++ l.take i).dedup.length :=
          ((perm_ext_iff_of_nodup (nodup_dedup _) (nodup_dedup _)).2 (by intro z; rw [mem_dedup, mem_dedup, hm])).length_eq
        simp only [hm, hl]
      · rw [if_neg hy]
        simp only [getElem?_cons_succ, take_succ_cons]
        rw [ih (y :: added) (nodup_cons.2 ⟨hy, hnd⟩) i x h]
        have hm : ∀ z, z ∈ added ++ y :: l.take i ↔ z ∈ y :: added ++ l.take i := by
          intro z; simp only [mem_append, mem_cons]; tauto
        have hl : (added ++ y :: l.take i).dedup.length = (y :: added ++ l.take i).dedup.length :=
          ((perm_ext_iff_of_nodup (nodup_dedup _) (nodup_dedup _)).2 (by intro z; rw [mem_dedup, mem_dedup, hm])).length_eq
        simp only [hm, hl]

theorem substRev_length (l : List String) : ∀ added, (substRev added l).length = l.length := by
  induction l with
  | nil => intro added; rfl
  | cons y l ih => intro added; unfold substRev; split <;> simp [ih]

end Grey.Layout
