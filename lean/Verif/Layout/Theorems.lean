/-
C14 (combining layouts), C15 (junk suffix), C16 (output layouts), C17 (joins), C18 (repeated elements), C43 (layouts of
terminal blocks) and C44 (forgetting dead elements).
-/
import Verif.Layout.Lemmas2
namespace Grey.Layout
open List

/-! ### C14 -/

/-- **C14.** Filling the gaps of a partial stack with the elements to place: what was kept and what was to be placed occur
in the result, each as many times as given; one gap per placed element disappears; and the kept elements do not move
(counted from the bottom of the stack). -/
theorem combine_order_exact (kept : List (Option String)) (new : List String) :
    names (combineOrder kept new) ~ (names kept ++ new) ∧
    gaps (combineOrder kept new) = gaps kept - new.length ∧
    ∀ (k : Nat) (x : String), kept.reverse[k]? = some (some x) → (combineOrder kept new).reverse[k]? = some (some x) := by
  refine ⟨combineOrder_perm kept new, combineOrder_gaps kept new, ?_⟩
  intro k x h
  have h1 := fillRev_keeps kept.reverse new.reverse k x h
  unfold combineOrder
  simp only [reverse_append, reverse_reverse]
  rw [getElem?_append_left (List.getElem?_eq_some_iff.1 h1).1]
  exact h1

/-- **C14.** Closing the remaining gaps by moving elements from the top keeps exactly the elements. -/
theorem merge_topmost_exact (l : List (Option String)) : names (mergeTopmost l) ~ names l ∧ none ∉ mergeTopmost l :=
  mergeTopmost_spec l

/-- **C14.** Combining with junk: no gap is left, the kept and the placed elements all occur exactly as often as given, and
the returned number is the size of the chosen junk suffix (zero if no junk is allowed). -/
theorem combine_junk_exact (kept : List (Option String)) (new : List String) (canJunk : Bool) :
    names (combineJunk kept new canJunk).1 ~ (names kept ++ new) ∧ none ∉ (combineJunk kept new canJunk).1 ∧
    (combineJunk kept new canJunk).2 = (if canJunk then (kept.drop (findLongest kept).1).length else 0) := by
  obtain ⟨h1, h2, h3⟩ := combineJunk_spec kept new canJunk
  exact ⟨h1, h2, by rw [h3, length_drop]⟩

example : combineOrder [some "x", none, some "y", none] ["p", "q", "r"] = [some "p", some "x", some "q", some "y", some "r"] ∧
    combineJunk [some "x", none, some "y", none, none] ["p"] true = ([some "x", some "p", some "y"], 2) ∧
    combineJunk [some "x", none, some "y", none, none] ["p"] false = ([some "y", some "x", some "p"], 0) := by decide +kernel

/-! ### C15 -/

/-- **C15.** The chosen suffix is a suffix of the list whose surplus of gaps over elements is the returned count; no suffix has a
larger surplus, and no shorter suffix has the same one. -/
theorem junk_suffix_optimal (l : List (Option String)) :
    surplus (l.drop (findLongest l).1) = (findLongest l).2 ∧ (findLongest l).1 ≤ l.length ∧
    (∀ t, t <:+ l → surplus t ≤ (findLongest l).2) ∧
    (∀ t, t <:+ l → surplus t = (findLongest l).2 → (l.drop (findLongest l).1).length ≤ t.length) := by
  have h := scan_ok l
  have hle := h.le
  unfold findLongest
  simp only
  refine ⟨h.val, by omega, h.max, ?_⟩
  intro t ht he
  have := h.short t ht he
  rw [length_drop]; omega

example : findLongest [some "x", none, some "y", none, none] = (3, 2) ∧
    findLongest [none, none, some "y", none] = (0, 2) ∧ findLongest [some "x", none, some "y"] = (3, 0) := by decide +kernel

/-! ### C16 -/

/-- **C16.** The output layout consists of the required top elements, then (without repetitions) precisely the live variables
that are on the input stack or not among the required top elements, then possibly junk: an untouched bottom part of the
input stack, only where junk is allowed. The returned index is where the junk starts. In particular every live variable is
above the junk, and there are no gaps. -/
theorem output_layout_exact (input final live : List String) (depth : String → List Int) (canJunk : Bool) :
    ∃ mid junk, (outputLayout input final live depth canJunk).1 = (final ++ mid ++ junk).map some ∧
      (outputLayout input final live depth canJunk).2 = (final ++ mid).length ∧
      mid.Nodup ∧ (∀ x, x ∈ mid ↔ x ∈ live ∧ (x ∈ input ∨ x ∉ final)) ∧ junk <:+ input ∧ (canJunk = false → junk = []) :=
  outputLayout_spec input final live depth canJunk

/-- Every live variable is in the part of the layout above the junk. -/
theorem output_layout_complete (input final live : List String) (depth : String → List Int) (canJunk : Bool) :
    ∀ x ∈ live, some x ∈ (outputLayout input final live depth canJunk).1.take (outputLayout input final live depth canJunk).2 := by
  intro x hx
  obtain ⟨mid, junk, h1, h2, _, h4, _, _⟩ := outputLayout_spec input final live depth canJunk
  rw [h1, h2, ← map_take]
  have : (final ++ mid ++ junk).take (final ++ mid).length = final ++ mid := take_left
  rw [this]
  apply mem_map_of_mem
  by_cases hf : x ∈ final
  · simp [hf]
  · simp only [mem_append]; exact Or.inr ((h4 x).2 ⟨hx, Or.inr hf⟩)

example : outputLayout ["a", "b", "c", "d", "e"] ["r"] ["b", "n"] (fun _ => [0]) true =
    ([some "r", some "n", some "b", some "c", some "d", some "e"], 3) ∧
    outputLayout ["a", "b", "c", "d", "e"] ["r"] ["b", "n"] (fun _ => [0]) false = ([some "r", some "b", some "n"], 3) := by
  decide +kernel

/-! ### C17 -/

/-- The semantic core of C17 for a stack obtained from the dictionaries of the phi functions. -/
private theorem joint_sound {V : Type} {dict : List (String × String)} {phis : List Phi} {k : Nat} {ρ ρ' : String → V}
    (hE : Enter phis k ρ ρ') (hlen : ∀ f ∈ phis, k < f.args.length)
    (hd : ∀ x, (∀ i, x ≠ pseudoName i) → (∀ f ∈ phis, ∀ a, f.out = x → f.args[k]? = some a → lookup dict x = some a) ∧
      ((∀ f ∈ phis, f.out ≠ x) → lookup dict x = none))
    {combined : List String} {i : Nat} {x : String} (hi : combined[i]? = some x) (hx : ∀ j, x ≠ pseudoName j) :
    ∃ y, (unifyJoint dict combined)[i]? = some y ∧ ρ y = ρ' x := by
  refine ⟨(lookup dict x).getD x, by simp [unifyJoint, hi], ?_⟩
  by_cases hf : ∃ f ∈ phis, f.out = x
  · obtain ⟨f, hf, rfl⟩ := hf
    have ha := getElem?_eq_getElem (hlen f hf)
    rw [(hd _ hx).1 f hf _ rfl ha, Option.getD_some]
    exact (hE.phi f hf _ ha).symm
  · have hn : ∀ f ∈ phis, f.out ≠ x := fun f hf' h => hf ⟨f, hf', h⟩
    rw [(hd _ hx).2 hn, Option.getD_none]
    exact (hE.other x hn).symm

/-- **C17.** Unifying the stacks before a join. The join's input stack holds, without repetitions, the variables live into
the join and the padding names `b0, b1, ...`. Every predecessor gets a stack; the stacks of all predecessors but the one
the unification starts from have the length of the join's input stack, that one may have junk below it. And for every
state `ρ` at the end of the `k`-th predecessor, with `ρ'` the state after the phi functions have been executed in parallel,
position by position the stack left by the predecessor holds (in `ρ`) the value which the join's input stack expects (in
`ρ'`). -/
theorem join_stacks_agree {V : Type} (target : String) (preds : List String) (live : String → List String)
    (phis : List Phi) (depth : String → List Int) (original : String) (originalIn : List String) (canJunk : Bool)
    (hpreds : preds.Nodup) (houts : (phis.map (·.out)).Nodup) (hargs : ∀ f ∈ phis, f.args.length = preds.length)
    (hfresh : ∀ x ∈ live target, ∀ i, x ≠ pseudoName i) :
    let u := unifyBrothers target preds live phis depth original originalIn canJunk
    u.combined.Nodup ∧ (∀ x ∈ live target, x ∈ u.combined) ∧
    (∀ x ∈ u.combined, x ∈ live target ∨ ∃ i, x = pseudoName i) ∧
    u.stacks.map (·.1) = preds ∧
    ∀ (k : Nat) (p : String) (s : List String), preds[k]? = some p → (p, s) ∈ u.stacks →
      (p ≠ original ∨ canJunk = false → s.length = u.combined.length) ∧ u.combined.length ≤ s.length ∧
      ∀ (ρ ρ' : String → V), Enter phis k ρ ρ' → ∀ (i : Nat) (x : String), u.combined[i]? = some x → x ∈ live target →
        ∃ y, s[i]? = some y ∧ ρ y = ρ' x := by
  intro u
  obtain ⟨h1, h2, h3, h4⟩ := unifyWith_spec (phiFunc target preds live phis)
    ((List.range (numPseudo target preds live phis)).map pseudoName) target preds live depth original originalIn canJunk
  change u.combined.Nodup at h1
  refine ⟨h1, fun x hx => (h2 x).2 (Or.inl hx), ?_, h3, ?_⟩
  · intro x hx
    rcases (h2 x).1 hx with h | h
    · exact Or.inl h
    · obtain ⟨i, _, rfl⟩ := mem_map.1 h; exact Or.inr ⟨i, rfl⟩
  · intro k p s hk hs
    obtain ⟨h5, h6, h7⟩ := h4 p s hs
    refine ⟨h6, h7, ?_⟩
    intro ρ ρ' hE i x hi hx
    have hkl : k < preds.length := (List.getElem?_eq_some_iff.1 hk).1
    obtain ⟨y, hy, he⟩ := joint_sound hE (fun f hf => by rw [hargs f hf]; exact hkl) (dict := phiFunc target preds live phis p)
      (fun z hz => ⟨fun f hf a ho ha => by
          subst ho
          rw [lookup_phiFunc hz]; exact lookup_phiDict_some hpreds hk houts hf ha,
        fun hn => by rw [lookup_phiFunc hz]; exact lookup_phiDict_none hpreds hk hn⟩) hi (hfresh x hx)
    refine ⟨y, ?_, he⟩
    have hlt : i < u.combined.length := (List.getElem?_eq_some_iff.1 hi).1
    have : (s.take u.combined.length)[i]? = some y := by
      change s.take u.combined.length = unifyJoint _ u.combined at h5
      rw [h5]; exact hy
    rwa [getElem?_take_of_lt hlt] at this

/-- **C17.** Nothing is lost on the way into the join: a variable live at the end of a predecessor is on the stack of that
predecessor, if the results of the phi functions are live into the join (they are, `Liveness.stops_at_solution`) and the
variable is not itself the result of one of them. -/
theorem join_keeps_live (target : String) (preds : List String) (live : String → List String)
    (phis : List Phi) (depth : String → List Int) (original : String) (originalIn : List String) (canJunk : Bool)
    (hpreds : preds.Nodup) (houts : (phis.map (·.out)).Nodup)
    (hfresh : ∀ x ∈ live target, ∀ i, x ≠ pseudoName i) (hlive : ∀ f ∈ phis, f.out ∈ live target)
    {p : String} {s : List String}
    (hs : (p, s) ∈ (unifyBrothers target preds live phis depth original originalIn canJunk).stacks)
    {x : String} (hx : x ∈ live p) (hxo : ∀ f ∈ phis, f.out ≠ x) : x ∈ s := by
  obtain ⟨h1, h2, h3, h4⟩ := unifyWith_spec (phiFunc target preds live phis)
    ((List.range (numPseudo target preds live phis)).map pseudoName) target preds live depth original originalIn canJunk
  have hpm : p ∈ preds := by
    rw [← h3]; exact mem_map.2 ⟨(p, s), hs, rfl⟩
  obtain ⟨k, hk⟩ := mem_iff_getElem?.1 hpm
  obtain ⟨h5, _, _⟩ := h4 p s hs
  have key : ∀ z, z ∈ (unifyBrothers target preds live phis depth original originalIn canJunk).combined →
      (lookup (phiFunc target preds live phis p) z).getD z ∈ s := by
    intro z hz
    have : (lookup (phiFunc target preds live phis p) z).getD z ∈
        unifyJoint (phiFunc target preds live phis p) (unifyBrothers target preds live phis depth original originalIn canJunk).combined :=
      mem_map.2 ⟨z, hz, rfl⟩
    exact mem_of_mem_take (h5 ▸ this)
  by_cases ht : x ∈ live target
  · have := key x ((h2 x).2 (Or.inl ht))
    rw [lookup_phiFunc (hfresh x ht), lookup_phiDict_none hpreds hk hxo] at this
    exact this
  · by_cases hv : x ∈ (phiDict preds phis p).map (·.2)
    · obtain ⟨⟨o, a⟩, hq, rfl⟩ := mem_map.1 hv
      obtain ⟨f, hf, rfl, ha⟩ := (mem_phiDict hpreds hk _ _).1 hq
      have := key f.out ((h2 _).2 (Or.inl (hlive f hf)))
      rw [lookup_phiFunc (hfresh _ (hlive f hf)), lookup_phiDict_some hpreds hk houts hf ha] at this
      exact this
    · have hr : x ∈ toRemove target preds live phis p := by
        unfold toRemove
        rw [mem_filter]
        exact ⟨hx, by simp [ht] ; simpa using hv⟩
      obtain ⟨i, hi⟩ := mem_iff_getElem?.1 hr
      have hil : i < (toRemove target preds live phis p).length := (List.getElem?_eq_some_iff.1 hi).1
      have hin : i < numPseudo target preds live phis := Nat.lt_of_lt_of_le hil (toRemove_len hpm)
      have := key (pseudoName i) ((h2 _).2 (Or.inr (mem_map.2 ⟨i, mem_range.2 hin, rfl⟩)))
      rw [lookup_phiFunc_pseudo hin, hi] at this
      exact this

theorem lookup_map (d : List (String × String)) (g : String → String → String) (x : String) :
    lookup (d.map fun q => (q.1, g q.1 q.2)) x = (lookup d x).map (g x) := by
  induction d with
  | nil => rfl
  | cons q d ih =>
    unfold lookup at ih ⊢
    simp only [map_cons, find?_cons]
    by_cases h : q.1 = x
    · simp [h]
    · have : (q.1 == x) = false := by simpa using h
      simp only [this]
      exact ih

/-- **C17, for a dominating predecessor.** The variant used when one predecessor dominates the other satisfies the same. -/
theorem join_stacks_agree_dominant {V : Type} (target : String) (preds : List String) (live : String → List String)
    (phis : List Phi) (depth : String → List Int) (original : String) (originalIn : List String) (canJunk : Bool)
    (hpreds : preds.Nodup) (houts : (phis.map (·.out)).Nodup) (hargs : ∀ f ∈ phis, f.args.length = preds.length)
    (hbot : ∀ f ∈ phis, "bottom" ∉ f.args) (hfresh : ∀ x ∈ live target, ∀ i, x ≠ pseudoName i) {u : Unified}
    (hu : unifyDominant target preds live phis depth original originalIn canJunk = some u) :
    u.combined.Nodup ∧ (∀ x ∈ live target, x ∈ u.combined) ∧ u.stacks.map (·.1) = preds ∧
    ∀ (k : Nat) (p : String) (s : List String), preds[k]? = some p → (p, s) ∈ u.stacks →
      (p ≠ original ∨ canJunk = false → s.length = u.combined.length) ∧ u.combined.length ≤ s.length ∧
      ∀ (ρ ρ' : String → V), Enter phis k ρ ρ' → ∀ (i : Nat) (x : String), u.combined[i]? = some x → x ∈ live target →
        ∃ y, s[i]? = some y ∧ ρ y = ρ' x := by
  unfold unifyDominant at hu
  simp only at hu
  split at hu
  · simp only [Option.some.injEq] at hu
    obtain ⟨h1, h2, h3, h4⟩ := unifyWith_spec (fillBottom (phiFunc target preds live phis) original)
      ((List.range (numPseudo target preds live phis)).map pseudoName) target preds live depth original originalIn canJunk
    rw [hu] at h1 h2 h3 h4
    refine ⟨h1, fun x hx => (h2 x).2 (Or.inl hx), h3, ?_⟩
    intro k p s hk hs
    obtain ⟨h5, h6, h7⟩ := h4 p s hs
    refine ⟨h6, h7, ?_⟩
    intro ρ ρ' hE i x hi hx
    have hkl : k < preds.length := (List.getElem?_eq_some_iff.1 hk).1
    have hsome : ∀ z, (∀ i, z ≠ pseudoName i) → ∀ f ∈ phis, ∀ a, f.out = z → f.args[k]? = some a →
        lookup (phiFunc target preds live phis p) z = some a := by
      intro z hz f hf a ho ha
      subst ho
      rw [lookup_phiFunc hz]; exact lookup_phiDict_some hpreds hk houts hf ha
    have hnone : ∀ z, (∀ i, z ≠ pseudoName i) → (∀ f ∈ phis, f.out ≠ z) →
        lookup (phiFunc target preds live phis p) z = none := by
      intro z hz hn
      rw [lookup_phiFunc hz]; exact lookup_phiDict_none hpreds hk hn
    have hd : ∀ z, (∀ i, z ≠ pseudoName i) → (∀ f ∈ phis, ∀ a, f.out = z → f.args[k]? = some a →
        lookup (fillBottom (phiFunc target preds live phis) original p) z = some a) ∧
        ((∀ f ∈ phis, f.out ≠ z) → lookup (fillBottom (phiFunc target preds live phis) original p) z = none) := by
      intro z hz
      unfold fillBottom
      by_cases hpo : p = original
      · rw [if_pos hpo]
        exact ⟨hsome z hz, hnone z hz⟩
      · rw [if_neg hpo]
        rw [lookup_map (phiFunc target preds live phis p)
          (fun y b => if b = "bottom" then (lookup (phiFunc target preds live phis original) y).getD "bottom" else b)]
        refine ⟨?_, ?_⟩
        · intro f hf a ho ha
          have hab : a ≠ "bottom" := by rintro rfl; exact hbot f hf (mem_of_getElem? ha)
          rw [hsome z hz f hf a ho ha]; simp [hab]
        · intro hn; rw [hnone z hz hn]; rfl
    obtain ⟨y, hy, he⟩ := joint_sound hE (fun f hf => by rw [hargs f hf]; exact hkl) hd hi (hfresh x hx)
    refine ⟨y, ?_, he⟩
    have hlt : i < u.combined.length := (List.getElem?_eq_some_iff.1 hi).1
    have : (s.take u.combined.length)[i]? = some y := by rw [h5]; exact hy
    rwa [getElem?_take_of_lt hlt] at this
  · simp at hu

theorem pseudoName_ne_bottom (i : Nat) : pseudoName i ≠ "bottom" := by
  intro h
  have h' := congrArg String.toList h
  unfold pseudoName at h'
  rw [String.toList_append] at h'
  have h2 : (toString i).toList = ['o', 't', 't', 'o', 'm'] := by simpa using h'
  have h3 : 'o' ∈ (toString i).toList := by rw [h2]; simp
  rw [show (toString i).toList = Nat.toDigits 10 i by simp [Nat.repr]] at h3
  exact absurd (Nat.isDigit_of_mem_toDigits (by omega) (by omega) h3) (by decide)

/-- **C17, no gaps.** When the dominating predecessor determines the stack, the other predecessor never has to put a
placeholder on it: every position holds a value. -/
theorem join_dominant_no_gaps (target : String) (preds : List String) (live : String → List String)
    (phis : List Phi) (depth : String → List Int) (original : String) (originalIn : List String) (canJunk : Bool)
    (hbot : ∀ f ∈ phis, "bottom" ∉ f.args) (hlive : "bottom" ∉ live target) {u : Unified}
    (hu : unifyDominant target preds live phis depth original originalIn canJunk = some u)
    (p : String) (s : List String) (hp : p ≠ original) (hs : (p, s) ∈ u.stacks) : "bottom" ∉ s := by
  unfold unifyDominant at hu
  simp only at hu
  split at hu
  · rename_i hall
    simp only [Option.some.injEq] at hu
    obtain ⟨h1, h2, h3, h4⟩ := unifyWith_spec (fillBottom (phiFunc target preds live phis) original)
      ((List.range (numPseudo target preds live phis)).map pseudoName) target preds live depth original originalIn canJunk
    rw [hu] at h1 h2 h3 h4
    obtain ⟨h5, h6, _⟩ := h4 p s hs
    rw [List.take_of_length_le (Nat.le_of_eq (h6 (Or.inl hp)))] at h5
    rw [h5]
    unfold unifyJoint
    intro hm
    obtain ⟨x, hx, he⟩ := mem_map.1 hm
    unfold fillBottom at he
    rw [if_neg hp, lookup_map (phiFunc target preds live phis p)
      (fun y b => if b = "bottom" then (lookup (phiFunc target preds live phis original) y).getD "bottom" else b)] at he
    cases hl : lookup (phiFunc target preds live phis p) x with
    | none =>
      rw [hl] at he
      simp only [Option.map_none, Option.getD_none] at he
      rcases (h2 x).1 hx with hx | hx
      · exact hlive (he ▸ hx)
      · obtain ⟨i, _, rfl⟩ := mem_map.1 hx
        exact pseudoName_ne_bottom i he
    | some b =>
      rw [hl] at he
      simp only [Option.map_some, Option.getD_some] at he
      by_cases hb : b = "bottom"
      · rw [if_pos hb] at he
        subst hb
        have hmem := lookup_mem hl
        unfold phiFunc at hmem
        rcases mem_append.1 hmem with hmem | hmem
        · rw [mem_reverse] at hmem
          obtain ⟨i, hi, e⟩ := mem_map.1 hmem
          simp only [Prod.mk.injEq] at e
          cases hlo : lookup (phiFunc target preds live phis original) x with
          | none =>
            refine lookup_none.1 hlo (pseudoName i, ((toRemove target preds live phis original)[i]?).getD "bottom") ?_ e.1
            unfold phiFunc
            exact mem_append_left _ (mem_reverse.2 (mem_map.2 ⟨i, hi, rfl⟩))
          | some c =>
            rw [hlo] at he
            have := all_eq_true.1 hall _ (lookup_mem hlo)
            simp only [Option.getD_some] at he
            rw [he] at this
            simp at this
        · unfold phiDict at hmem
          rw [mem_reverse] at hmem
          obtain ⟨f, hf, hq⟩ := mem_flatMap.1 hmem
          obtain ⟨q, hq, e⟩ := mem_map.1 hq
          simp only [Prod.mk.injEq] at e
          have hz := (mem_filter.1 hq).1
          exact hbot f hf (e.2 ▸ (of_mem_zip hz).1)
      · rw [if_neg hb] at he
        exact hb he
  · simp at hu

/-- A join of `A` and `B` with one phi function; `A` also keeps `t` alive, which the join does not need. -/
def exLive : String → List String
  | "J" => ["x", "v"]
  | "A" => ["a", "v", "t"]
  | _ => ["b", "v"]

example : unifyBrothers "J" ["A", "B"] exLive [⟨"x", ["a", "b"]⟩] (fun _ => [0]) "A" ["t", "v", "a"] false =
    ⟨["b0", "v", "x"], [("A", ["t", "v", "a"]), ("B", ["bottom", "v", "b"])]⟩ ∧
    (["A", "B"] : List String).Nodup ∧ (∀ f ∈ [(⟨"x", ["a", "b"]⟩ : Phi)], f.args.length = 2 ∧ f.out ∈ exLive "J") ∧
    Enter [(⟨"x", ["a", "b"]⟩ : Phi)] 1 (fun y => if y = "b" then 7 else 0) (fun y => if y = "b" ∨ y = "x" then 7 else 0) := by
  refine ⟨by decide +kernel, by decide, by decide, ?_, ?_⟩
  · intro f hf a ha
    simp only [mem_singleton] at hf
    subst hf
    simp at ha
    subst ha
    simp
  · intro y hy
    have := hy ⟨"x", ["a", "b"]⟩ (by simp)
    simp only [ne_eq] at this
    simp [Ne.symm this]

/-- `A` dominates `B` and keeps `t`: the other stack gets `t` too. If the dominating block had a gap, there would be no
stack. -/
example : unifyDominant "J" ["A", "B"] exLive [⟨"x", ["a", "b"]⟩] (fun _ => [0]) "A" ["t", "v", "a"] false =
      some ⟨["b0", "v", "x"], [("A", ["t", "v", "a"]), ("B", ["t", "v", "b"])]⟩ ∧
    unifyDominant "J" ["A", "B"] exLive [⟨"x", ["a", "b"]⟩] (fun _ => [0]) "B" ["v", "b"] false = none := by
  decide +kernel

/-- The names of the live variables of the example are no padding names. -/
example : ∀ x ∈ exLive "J", ∀ i, x ≠ pseudoName i := by
  intro x hx i h
  have h' := congrArg String.toList h
  have : x = "x" ∨ x = "v" := by simpa [exLive] using hx
  rcases this with rfl | rfl <;> simp [pseudoName] at h'

/-! ### C18 -/

/-- **C18, first half.** Replacing repeated elements keeps the length, and keeps the deepest copy of every variable where it
is. -/
theorem substitution_keeps_deepest (input : List String) :
    (substDuplicates input).length = input.length ∧
    ∀ (i : Nat) (x : String), input[i]? = some x → x ∉ input.drop (i + 1) → (substDuplicates input)[i]? = some x := by
  unfold substDuplicates
  refine ⟨by rw [length_reverse, substRev_length, length_reverse], ?_⟩
  intro i x hi hx
  have hlt : i < input.length := (List.getElem?_eq_some_iff.1 hi).1
  have hrev : input.reverse[input.length - 1 - i]? = some x := by
    rw [getElem?_reverse (by omega), show input.length - 1 - (input.length - 1 - i) = i by omega]; exact hi
  have h := substRev_get input.reverse [] nodup_nil _ _ hrev
  have htake : input.reverse.take (input.length - 1 - i) = (input.drop (i + 1)).reverse := by
    rw [take_reverse, show input.length - (input.length - 1 - i) = i + 1 by omega]
  rw [htake] at h
  rw [getElem?_reverse (by rw [substRev_length, length_reverse]; exact hlt), substRev_length, length_reverse, h]
  simp [hx]

/-- **C18, refuted in general.** With three copies of a variable the two replaced copies get the same name. -/
theorem substitution_collides : substDuplicates ["x", "x", "x"] = ["a1", "a1", "x"] ∧ ¬ (substDuplicates ["x", "x", "x"]).Nodup := by
  decide +kernel

/-- **C18 (partial).** The result has no repetitions, provided that between any two replaced copies lies the deepest copy of
some variable, and that no variable has a name of the form `a0, a1, ...`. Missing: the other stacks, where it is false. -/
theorem substitution_distinct_partial (input : List String) (hname : ∀ x ∈ input, ∀ n : Nat, x ≠ "a" ++ toString n)
    (hsep : ∀ (i j : Nat) (x y : String), i < j → input[i]? = some x → input[j]? = some y → x ∈ input.drop (i + 1) →
      y ∈ input.drop (j + 1) → ∃ (k : Nat) (z : String), i < k ∧ k < j ∧ input[k]? = some z ∧ z ∉ input.drop (k + 1)) :
    (substDuplicates input).Nodup := by
  have hget : ∀ (i : Nat) (x : String), input[i]? = some x → (substDuplicates input)[i]? =
      some (if x ∈ input.drop (i + 1) then "a" ++ toString (input.drop (i + 1)).reverse.dedup.length else x) := by
    intro i x hi
    have hlt : i < input.length := (List.getElem?_eq_some_iff.1 hi).1
    have hrev : input.reverse[input.length - 1 - i]? = some x := by
      rw [getElem?_reverse (by omega), show input.length - 1 - (input.length - 1 - i) = i by omega]; exact hi
    have h := substRev_get input.reverse [] nodup_nil _ _ hrev
    have htake : input.reverse.take (input.length - 1 - i) = (input.drop (i + 1)).reverse := by
      rw [take_reverse, show input.length - (input.length - 1 - i) = i + 1 by omega]
    rw [htake] at h
    unfold substDuplicates
    rw [getElem?_reverse (by rw [substRev_length, length_reverse]; exact hlt), substRev_length, length_reverse, h]
    simp
  have hlen := (substitution_keeps_deepest input).1
  -- the number of distinct elements below a position
  have hmono : ∀ a b : Nat, a ≤ b → (input.drop b).reverse.dedup.length ≤ (input.drop a).reverse.dedup.length := by
    intro a b hab
    apply Subperm.length_le
    apply subperm_of_subset (nodup_dedup _)
    intro z hz
    rw [mem_dedup, mem_reverse] at hz ⊢
    exact (drop_suffix_drop_left input hab).subset hz
  rw [nodup_iff_getElem?_ne_getElem?]
  intro i j hij hj heq
  rw [hlen] at hj
  have hi : i < input.length := by omega
  have gi := getElem?_eq_getElem hi
  have gj := getElem?_eq_getElem hj
  rw [hget i _ gi, hget j _ gj, Option.some.injEq] at heq
  by_cases hri : input[i] ∈ input.drop (i + 1)
  · by_cases hrj : input[j] ∈ input.drop (j + 1)
    · rw [if_pos hri, if_pos hrj] at heq
      obtain ⟨k, z, h1, h2, h3, h4⟩ := hsep i j _ _ hij gi gj hri hrj
      have e := Names.prefix_inj heq
      have hk : k < input.length := (List.getElem?_eq_some_iff.1 h3).1
      have hm1 := hmono (i + 1) k (by omega)
      have hm2 := hmono (k + 1) (j + 1) (by omega)
      have hstep : (input.drop (k + 1)).reverse.dedup.length < (input.drop k).reverse.dedup.length := by
        have : (z :: (input.drop (k + 1)).reverse.dedup).length ≤ (input.drop k).reverse.dedup.length := by
          apply Subperm.length_le
          apply subperm_of_subset
          · rw [nodup_cons]; exact ⟨by simpa using h4, nodup_dedup _⟩
          · intro w hw
            rw [mem_dedup, mem_reverse, drop_eq_getElem_cons hk]
            rw [getElem?_eq_getElem hk, Option.some.injEq] at h3
            rw [h3]
            rcases mem_cons.1 hw with rfl | hw
            · simp
            · rw [mem_dedup, mem_reverse] at hw; simp [hw]
        rw [length_cons] at this; omega
      omega
    · rw [if_pos hri, if_neg hrj] at heq
      exact hname _ (getElem_mem hj) _ heq.symm
  · by_cases hrj : input[j] ∈ input.drop (j + 1)
    · rw [if_neg hri, if_pos hrj] at heq
      exact hname _ (getElem_mem hi) _ heq
    · rw [if_neg hri, if_neg hrj] at heq
      apply hri
      rw [heq]
      rw [mem_drop_iff_getElem]
      exact ⟨j - (i + 1), by omega, by simp only [show i + 1 + (j - (i + 1)) = j by omega]⟩

/-- Is position `i` a repeated element (not the deepest copy)? -/
def exRepeated (i : Nat) : Bool := decide (["y", "w", "x", "x", "y"].getD i "" ∈ ["y", "w", "x", "x", "y"].drop (i + 1))

example : substDuplicates ["y", "w", "x", "x", "y"] = ["a3", "w", "a2", "x", "y"] ∧
    ((List.range 5).filter exRepeated) = [0, 2] ∧ exRepeated 1 = false := by
  decide +kernel

/-! ### C43, C44 -/

/-- **C43.** The layout of a block that leaves the program never fails to be built and starts with the required elements; all
live variables are on it. It consists of the required elements, the live variables not yet present, and a part of the input
stack from which only elements that are dead on entry are missing; elements on its top that coincide with the last
arguments of the final instruction, and are dead afterwards, are left to be consumed by it. -/
theorem terminal_layout (input final inLive live : List String) (depth : String → List Int) (splitArgs : List String) :
    ∃ out bottom placed o, propagateOutput input final inLive live depth splitArgs = some out ∧
      out = final ++ (placed ++ bottom).drop o ∧
      (∀ x ∈ live, x ∈ out) ∧
      placed.Nodup ∧ (∀ x, x ∈ placed ↔ x ∈ live ∧ x ∉ final ∧ x ∉ bottom) ∧
      (bottom.filter fun x => decide (x ∈ inLive)) ~ (input.filter fun x => decide (x ∈ inLive)) ∧ bottom <+~ input ∧
      (input.length < maxDepth → bottom = input) ∧
      splitArgs.drop (splitArgs.length - o) = (placed ++ bottom).take o ∧ o ≤ splitArgs.length := by
  have hb : ∃ bottom, (if input.length ≥ maxDepth then removeTillAccessible input inLive else some input) = some bottom ∧
      (bottom.filter fun x => decide (x ∈ inLive)) ~ (input.filter fun x => decide (x ∈ inLive)) ∧ bottom <+~ input ∧
      (input.length < maxDepth → bottom = input) := by
    by_cases h : input.length ≥ maxDepth
    · rw [if_pos h]
      obtain ⟨r, h1, h2, h3⟩ := removeTillAccessible_spec input inLive
      exact ⟨r, h1, h2, h3, fun hlt => by omega⟩
    · rw [if_neg h]
      exact ⟨input, rfl, Perm.refl _, Subperm.refl _, fun _ => rfl⟩
  obtain ⟨bottom, hbe, hb1, hb2, hb3⟩ := hb
  unfold propagateOutput
  rw [hbe]
  simp only [Option.map_some]
  generalize hP : sorted (keyLe depth) (live.filter fun x => decide (x ∉ final) && decide (x ∉ bottom)).dedup = P
  have hPm : ∀ x, x ∈ P ↔ x ∈ live ∧ x ∉ final ∧ x ∉ bottom := by
    intro x
    rw [← hP, (sorted_perm _ _).mem_iff, mem_dedup, mem_filter]
    simp
  have hPn : P.Nodup := by rw [← hP]; exact (sorted_perm _ _).nodup_iff.2 (nodup_dedup _)
  have ho := overlap_spec splitArgs (P ++ bottom) live
  have hcase : ∃ o, (if final = [] ∧ P.length = 0 then overlap splitArgs (P ++ bottom) live else 0) = o ∧
      splitArgs.drop (splitArgs.length - o) = (P ++ bottom).take o ∧ (∀ x ∈ (P ++ bottom).take o, x ∉ live) ∧
      o ≤ splitArgs.length := by
    split
    · exact ⟨_, rfl, ho⟩
    · exact ⟨0, rfl, by simp⟩
  obtain ⟨o, hoe, ho1, ho2, ho3⟩ := hcase
  rw [hoe]
  refine ⟨_, bottom, P, o, rfl, rfl, ?_, hPn, hPm, hb1, hb2, hb3, ho1, ho3⟩
  intro x hx
  by_cases hf : x ∈ final
  · simp [hf]
  · rw [mem_append]
    right
    have hmem : x ∈ P ++ bottom := by
      rw [mem_append]
      by_cases hxb : x ∈ bottom
      · exact Or.inr hxb
      · exact Or.inl ((hPm x).2 ⟨hx, hf, hxb⟩)
    rw [← take_append_drop o (P ++ bottom), mem_append] at hmem
    rcases hmem with h | h
    · exact absurd hx (ho2 x h)
    · exact h

example : propagateOutput ["p", "q", "k"] [] ["p", "q", "k"] ["k"] (fun _ => [0]) ["0x00", "p", "q"] = some ["k"] ∧
    propagateOutput ["p", "q"] ["r"] ["p"] ["z"] (fun _ => [0]) [] = some ["r", "z", "p", "q"] := by decide +kernel

/-- **C44.** Forgetting dead elements only removes a bottom part of the stack, made of dead elements, and afterwards the
deepest element (if any) is live. -/
theorem forget_exact (input live : List String) :
    ∃ dropped, input = forgetValues input live ++ dropped ∧ (∀ x ∈ dropped, x ∉ live) ∧
      (∀ x, (forgetValues input live).getLast? = some x → x ∈ live) := by
  obtain ⟨h1, h2, _⟩ := lastLive_spec input live 0 input.length (Nat.le_refl _)
  have hle := lastLive_le input live 0 input.length
  refine ⟨input.drop (lastLive input live 0 input.length), (take_append_drop _ _).symm, ?_, ?_⟩
  · intro x hx
    obtain ⟨k, hk⟩ := mem_iff_getElem?.1 hx
    rw [getElem?_drop] at hk
    exact h1 _ x (by omega) (List.getElem?_eq_some_iff.1 hk).1 hk
  · intro x hx
    unfold forgetValues at hx
    have hpos : 0 < lastLive input live 0 input.length := by
      rcases Nat.eq_zero_or_pos (lastLive input live 0 input.length) with h | h
      · rw [h] at hx; simp at hx
      · exact h
    obtain ⟨y, hy, hyl⟩ := h2 hpos
    rw [getLast?_eq_getElem?, length_take, Nat.min_eq_left hle, getElem?_take_of_lt (by omega), hy] at hx
    simp only [Option.some.injEq] at hx
    rw [← hx]; exact hyl

example : forgetValues ["a", "b", "c", "d"] ["b"] = ["a", "b"] := by decide +kernel

end Grey.Layout
