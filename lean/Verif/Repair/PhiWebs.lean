/-
Phi webs: a union-find structure (src/reparation/phi_webs.py): C28.
-/
import Mathlib.Data.List.Basic
import Mathlib.Data.List.Dedup
import Mathlib.Data.Finset.Card
import Mathlib.Data.Finset.Range
import Mathlib.Data.Finset.Filter
import Mathlib.Logic.Relation
import Mathlib.Tactic.Tauto
import Mathlib.Tactic.ByContra
namespace Grey.Repair
open List

/-! ### Model -/

/-- src/reparation/phi_webs.py:16-21. `_var2class` is the list of its keys: line 25 gives the key added as the k-th one (from
0) the value k. -/
structure PhiWebs where
  vars : List String := []
  parent : List Nat := []
  size : List Nat := []
  rank : List Nat := []
  numSets : Int := 0
  deriving DecidableEq, Repr

/-- `self._class2parent[index]` -/
def par (P : List Nat) (i : Nat) : Nat := P.getD i i

/-- src/reparation/phi_webs.py:23-30 -/
def PhiWebs.initElement (v : String) (W : PhiWebs) : PhiWebs :=
  if v ∈ W.vars then W else
    { vars := W.vars ++ [v], parent := W.parent ++ [W.parent.length], size := W.size ++ [1], rank := W.rank ++ [0],
      numSets := W.numSets + 1 }

/-- src/reparation/phi_webs.py:52-55, with path compression. The fuel bounds the recursion (`find_spec` shows that the
number of elements suffices: the recursion of the code ends). -/
def findIndex : Nat → List Nat → Nat → Nat × List Nat
  | 0, P, i => (i, P)
  | n + 1, P, i =>
    if par P i ≠ i then
      let r := findIndex n P (par P i)
      (r.1, r.2.set i r.1)
    else (i, P)

/-- src/reparation/phi_webs.py:57-58: the class, and the structure after path compression (the KeyError for unknown variables is
not modelled: callers have added them). -/
def PhiWebs.findSet (v : String) (W : PhiWebs) : Nat × PhiWebs :=
  let r := findIndex W.parent.length W.parent (W.vars.idxOf v)
  (r.1, { W with parent := r.2 })

/-- src/reparation/phi_webs.py:60-76 -/
def PhiWebs.unionSet (v1 v2 : String) (W : PhiWebs) : PhiWebs :=
  let r1 := W.findSet v1
  let r2 := r1.2.findSet v2
  let W2 := r2.2
  let c1 := r1.1
  let c2 := r2.1
  if c1 ≠ c2 then
    if W2.rank.getD c1 0 > W2.rank.getD c2 0 then
      { W2 with parent := W2.parent.set c2 c1
                size := (W2.size.set c1 (W2.size.getD c1 0 + W2.size.getD c2 0)).set c2 0
                numSets := W2.numSets - 1 }
    else
      { W2 with parent := W2.parent.set c1 c2
                size := (W2.size.set c2 (W2.size.getD c2 0 + W2.size.getD c1 0)).set c1 0
                rank := if W2.rank.getD c1 0 = W2.rank.getD c2 0 then W2.rank.set c2 (W2.rank.getD c2 0 + 1) else W2.rank
                numSets := W2.numSets - 1 }
  else W2

/-- src/reparation/phi_webs.py:78-82. The set of values is traversed in some order. -/
def PhiWebs.joinPhi (d : String) (vals : List String) (W : PhiWebs) : PhiWebs :=
  vals.foldl (fun W v => (W.initElement v).unionSet d v) (W.initElement d)

/-- The webs after a sequence of calls of `join_phi`. -/
def joinAll (js : List (String × List String)) : PhiWebs := js.foldl (fun W j => W.joinPhi j.1 j.2) {}

/-- src/reparation/phi_webs.py:44-50 (in increasing order) -/
def PhiWebs.classesWithElements (W : PhiWebs) : List Nat := (range W.size.length).filter fun c => decide (W.size.getD c 0 > 0)

/-! ### Specification -/

/-- The phi functions joined so far make `v` and `w` neighbours: one is defined by a phi with the other as argument. -/
def Neighbours (js : List (String × List String)) (v w : String) : Prop := ∃ j ∈ js, v = j.1 ∧ w ∈ j.2

/-- Connected through a chain of phi functions. -/
def Connected (js : List (String × List String)) : String → String → Prop := Relation.EqvGen (Neighbours js)

/-! ### Proofs: forests -/

/-- The root of `i`. -/
inductive IsRoot (P : List Nat) : Nat → Nat → Prop where
  | root {i} : par P i = i → IsRoot P i i
  | step {i r} : par P i ≠ i → IsRoot P (par P i) r → IsRoot P i r

theorem IsRoot.isRoot {P : List Nat} {i r : Nat} (h : IsRoot P i r) : par P r = r := by
  induction h with
  | root h => exact h
  | step _ _ ih => exact ih

theorem IsRoot.unique {P : List Nat} {i r s : Nat} (h : IsRoot P i r) (h' : IsRoot P i s) : r = s := by
  induction h with
  | root h =>
    cases h' with
    | root _ => rfl
    | step h1 _ => exact absurd h h1
  | step h1 _ ih =>
    cases h' with
    | root h => exact absurd h h1
    | step _ h2 => exact ih h2

/-- Parents are elements, and ranks grow along them. -/
structure Forest (n : Nat) (P : List Nat) (rk : Nat → Nat) : Prop where
  len : P.length = n
  lt : ∀ i, i < n → par P i < n
  rank : ∀ i, i < n → par P i ≠ i → rk i < rk (par P i)

/-- The elements of larger rank: what the recursion still can visit. -/
def above (n : Nat) (rk : Nat → Nat) (i : Nat) : Nat := ((Finset.range n).filter fun j => rk i < rk j).card

theorem above_lt {n : Nat} {rk : Nat → Nat} {i k : Nat} (hk : k < n) (h : rk i < rk k) : above n rk k < above n rk i := by
  apply Finset.card_lt_card
  rw [Finset.ssubset_iff_of_subset]
  · refine ⟨k, ?_, ?_⟩
    · simp [hk, h]
    · simp
  · intro j hj
    simp only [Finset.mem_filter, Finset.mem_range] at hj ⊢
    exact ⟨hj.1, by omega⟩

theorem above_lt_n {n : Nat} {rk : Nat → Nat} {i : Nat} (hi : i < n) : above n rk i < n := by
  have : above n rk i < (Finset.range n).card := by
    apply Finset.card_lt_card
    rw [Finset.ssubset_iff_of_subset (Finset.filter_subset _ _)]
    exact ⟨i, by simp [hi], by simp⟩
  simpa using this

theorem Forest.exists_root {n : Nat} {P : List Nat} {rk : Nat → Nat} (h : Forest n P rk) {i : Nat} (hi : i < n) :
    ∃ r, IsRoot P i r ∧ r < n ∧ (r ≠ i → rk i < rk r) := by
  generalize hm : above n rk i = m
  induction m using Nat.strongRecOn generalizing i with
  | _ m ih =>
    by_cases hp : par P i = i
    · exact ⟨i, .root hp, hi, fun hh => absurd rfl hh⟩
    · have hk := h.rank i hi hp
      obtain ⟨r, h1, h2, h3⟩ := ih _ (by rw [← hm]; exact above_lt (h.lt i hi) hk) (h.lt i hi) rfl
      refine ⟨r, .step hp h1, h2, ?_⟩
      intro hne
      by_cases hr : r = par P i
      · rw [hr]; exact hk
      · have := h3 hr; omega

theorem par_set {P : List Nat} {i r j : Nat} (hi : i < P.length) : par (P.set i r) j = if j = i then r else par P j := by
  unfold par
  by_cases hj : j = i
  · subst hj
    rw [if_pos rfl]
    simp [getD_eq_getElem?_getD, hi]
  · rw [if_neg hj]
    simp [getD_eq_getElem?_getD, getElem?_set_ne (Ne.symm hj)]

/-- Path compression: pointing an element at its root changes no root. -/
theorem compress {n : Nat} {P : List Nat} {rk : Nat → Nat} (h : Forest n P rk) {i r : Nat} (hi : i < n) (hr : IsRoot P i r) :
    Forest n (P.set i r) rk ∧ ∀ j s, j < n → (IsRoot (P.set i r) j s ↔ IsRoot P j s) := by
  have hl : i < P.length := by rw [h.len]; exact hi
  obtain ⟨r', hr', hrn, hrk⟩ := h.exists_root hi
  have hrr := hr.unique hr'
  subst hrr
  have hroot : par P r = r := hr.isRoot
  have hF : Forest n (P.set i r) rk := by
    refine ⟨by rw [length_set, h.len], ?_, ?_⟩
    · intro j hj
      rw [par_set hl]
      split
      · exact hrn
      · exact h.lt j hj
    · intro j hj
      rw [par_set hl]
      split
      · rename_i hji
        subst hji
        intro hne
        exact hrk hne
      · exact h.rank j hj
  have hforward : ∀ j s, IsRoot P j s → IsRoot (P.set i r) j s := by
    intro j s hjs
    induction hjs with
    | @root j hj =>
      apply IsRoot.root
      rw [par_set hl]
      split
      · rename_i hji
        subst hji
        exact hr.unique (.root hj)
      · exact hj
    | @step j s hj hs ih =>
      by_cases hji : j = i
      · subst hji
        have hsr : s = r := (IsRoot.step hj hs).unique hr
        subst hsr
        by_cases hjr : s = j
        · subst hjr
          exact .root (by rw [par_set hl, if_pos rfl])
        · refine .step (by rw [par_set hl, if_pos rfl]; exact hjr) ?_
          rw [par_set hl, if_pos rfl]
          exact .root (by rw [par_set hl, if_neg hjr]; exact hroot)
      · refine .step (by rw [par_set hl, if_neg hji]; exact hj) ?_
        rw [par_set hl, if_neg hji]
        exact ih
  refine ⟨hF, fun j s hj => ⟨fun h' => ?_, hforward j s⟩⟩
  obtain ⟨t, ht, _⟩ := h.exists_root hj
  have := (hforward j t ht).unique h'
  rw [← this]
  exact ht

/-- `_find_index` returns the root and changes no root. -/
theorem find_spec {n : Nat} {rk : Nat → Nat} : ∀ (fuel : Nat) {P : List Nat} {i : Nat}, Forest n P rk → i < n → above n rk i < fuel →
    IsRoot P i (findIndex fuel P i).1 ∧ Forest n (findIndex fuel P i).2 rk ∧
      ∀ j s, j < n → (IsRoot (findIndex fuel P i).2 j s ↔ IsRoot P j s) := by
  intro fuel
  induction fuel with
  | zero => intro P i _ _ h; omega
  | succ fuel ih =>
    intro P i hF hi hf
    unfold findIndex
    by_cases hp : par P i = i
    · rw [if_neg (by simpa using hp)]
      exact ⟨.root hp, hF, fun _ _ _ => Iff.rfl⟩
    · rw [if_pos hp]
      have hk := hF.rank i hi hp
      obtain ⟨h1, h2, h3⟩ := ih hF (hF.lt i hi) (by have := above_lt (n := n) (hF.lt i hi) hk; omega)
      have hr : IsRoot P i (findIndex fuel P (par P i)).1 := .step hp h1
      obtain ⟨c1, c2⟩ := compress h2 hi ((h3 i _ hi).2 hr)
      exact ⟨hr, c1, fun j s hj => (c2 j s hj).trans (h3 j s hj)⟩

/-- Hanging one root below another. -/
theorem link {n : Nat} {P : List Nat} {rk rk' : Nat → Nat} (h : Forest n P rk) {a b : Nat} (ha : a < n) (hb : b < n)
    (hra : par P a = a) (hrb : par P b = b) (hab : a ≠ b) (hle : ∀ j, j ≠ b → rk' j = rk j) (hlb : rk b ≤ rk' b) (hlt : rk a < rk' b) :
    Forest n (P.set a b) rk' ∧ ∀ j s, j < n → (IsRoot (P.set a b) j s ↔ if s = b then IsRoot P j a ∨ IsRoot P j b else s ≠ a ∧ IsRoot P j s) := by
  have hl : a < P.length := by rw [h.len]; exact ha
  have hF : Forest n (P.set a b) rk' := by
    refine ⟨by rw [length_set, h.len], ?_, ?_⟩
    · intro j hj
      rw [par_set hl]
      split
      · exact hb
      · exact h.lt j hj
    · intro j hj
      rw [par_set hl]
      split
      · rename_i hja
        subst hja
        intro _
        rw [hle j hab]
        exact hlt
      · intro hne
        have hjb : j ≠ b := by rintro rfl; exact hne hrb
        rw [hle j hjb]
        have := h.rank j hj hne
        by_cases hpb : par P j = b
        · rw [hpb] at this ⊢; omega
        · rw [hle _ hpb]; exact this
  have hba : IsRoot (P.set a b) b b := .root (by rw [par_set hl, if_neg (Ne.symm hab)]; exact hrb)
  have hforward : ∀ j s, IsRoot P j s → IsRoot (P.set a b) j (if s = a then b else s) := by
    intro j s hjs
    induction hjs with
    | @root j hj =>
      by_cases hja : j = a
      · subst hja
        rw [if_pos rfl]
        refine .step (by rw [par_set hl, if_pos rfl]; exact Ne.symm hab) ?_
        rw [par_set hl, if_pos rfl]
        exact hba
      · rw [if_neg hja]
        exact .root (by rw [par_set hl, if_neg hja]; exact hj)
    | @step j s hj hs ih =>
      have hja : j ≠ a := by rintro rfl; exact hj hra
      refine .step (by rw [par_set hl, if_neg hja]; exact hj) ?_
      rw [par_set hl, if_neg hja]
      exact ih
  refine ⟨hF, fun j s hj => ?_⟩
  obtain ⟨t, ht, _⟩ := h.exists_root hj
  have hft := hforward j t ht
  by_cases hs : s = b
  · subst hs
    rw [if_pos rfl]
    constructor
    · intro h'
      have := hft.unique h'
      by_cases hta : t = a
      · subst hta; exact Or.inl ht
      · rw [if_neg hta] at this; subst this; exact Or.inr ht
    · rintro (h' | h')
      · have := hforward j a h'; rwa [if_pos rfl] at this
      · have := hforward j s h'; rwa [if_neg (Ne.symm hab)] at this
  · rw [if_neg hs]
    constructor
    · intro h'
      have := hft.unique h'
      by_cases hta : t = a
      · rw [if_pos hta] at this; exact absurd this.symm hs
      · rw [if_neg hta] at this; subst this; exact ⟨hta, ht⟩
    · rintro ⟨hsa, h'⟩
      have := hforward j s h'
      rwa [if_neg hsa] at this

/-! ### Proofs: the invariant -/

/-- Class of a variable. -/
def ClassOf (W : PhiWebs) (v : String) (c : Nat) : Prop := IsRoot W.parent (W.vars.idxOf v) c

open Classical in
/-- The structure represents the equivalence `R` on its variables, with the right counters. -/
structure Good (W : PhiWebs) (R : String → String → Prop) : Prop where
  nodup : W.vars.Nodup
  forest : Forest W.vars.length W.parent (fun i => W.rank.getD i 0)
  lenS : W.size.length = W.vars.length
  lenR : W.rank.length = W.vars.length
  sizes : ∀ c, c < W.vars.length → W.size.getD c 0 = ((Finset.range W.vars.length).filter fun j => IsRoot W.parent j c).card
  sets : W.numSets = ((Finset.range W.vars.length).filter fun c => par W.parent c = c).card
  rel : ∀ v w, v ∈ W.vars → w ∈ W.vars → (R v w ↔ ∃ c, ClassOf W v c ∧ ClassOf W w c)
  out : ∀ v w, R v w → v = w ∨ (v ∈ W.vars ∧ w ∈ W.vars)
  refl : ∀ v, R v v

theorem par_append {P : List Nat} {x i : Nat} : par (P ++ [x]) i = if i = P.length then x else par P i := by
  unfold par
  by_cases hi : i = P.length
  · subst hi; simp
  · rw [if_neg hi]
    rcases Nat.lt_or_ge i P.length with h | h
    · simp [getD_eq_getElem?_getD, getElem?_append_left h]
    · simp [getD_eq_getElem?_getD, getElem?_eq_none h, getElem?_eq_none (l := P ++ [x]) (i := i) (by simp; omega)]

theorem isRoot_append {n : Nat} {P : List Nat} {rk : Nat → Nat} (h : Forest n P rk) {j s : Nat} :
    (j < n → (IsRoot (P ++ [n]) j s ↔ IsRoot P j s)) ∧ (IsRoot (P ++ [n]) n s ↔ s = n) := by
  have hpn : par (P ++ [n]) n = n := by rw [par_append, h.len, if_pos rfl]
  constructor
  · intro hj
    have hf : ∀ j s, j < n → IsRoot P j s → IsRoot (P ++ [n]) j s := by
      intro j s hj hjs
      induction hjs with
      | @root j hp => exact .root (by rw [par_append, h.len, if_neg (by omega)]; exact hp)
      | @step j s hp hs ih =>
        have : par (P ++ [n]) j = par P j := by rw [par_append, h.len, if_neg (by omega)]
        exact .step (by rw [this]; exact hp) (by rw [this]; exact ih (h.lt j hj))
    refine ⟨fun h' => ?_, hf j s hj⟩
    obtain ⟨t, ht, _⟩ := h.exists_root hj
    rw [← (hf j t hj ht).unique h']
    exact ht
  · constructor
    · intro h'
      exact h'.unique (.root hpn)
    · rintro rfl
      exact .root hpn

theorem getD_append_one {l : List Nat} {x i : Nat} : (l ++ [x]).getD i 0 = if i = l.length then x else l.getD i 0 := by
  by_cases hi : i = l.length
  · subst hi; simp
  · rw [if_neg hi]
    rcases Nat.lt_or_ge i l.length with h | h
    · simp [getD_eq_getElem?_getD, getElem?_append_left h]
    · simp [getD_eq_getElem?_getD, getElem?_eq_none h, getElem?_eq_none (l := l ++ [x]) (i := i) (by simp; omega)]

open Classical in
theorem good_init {W : PhiWebs} {R : String → String → Prop} (h : Good W R) (v : String) :
    Good (W.initElement v) R ∧ v ∈ (W.initElement v).vars ∧ (∀ w, w ∈ (W.initElement v).vars ↔ w ∈ W.vars ∨ w = v) := by
  unfold PhiWebs.initElement
  by_cases hv : v ∈ W.vars
  · rw [if_pos hv]
    exact ⟨h, hv, fun w => ⟨Or.inl, by rintro (h | rfl) <;> assumption⟩⟩
  · rw [if_neg hv]
    refine ⟨?_, by simp, by simp⟩
    have hn := h.forest.len
    have hidx : ∀ w, w ∈ W.vars → (W.vars ++ [v]).idxOf w = W.vars.idxOf w := fun w hw => idxOf_append_of_mem hw
    have hidxv : (W.vars ++ [v]).idxOf v = W.vars.length := by rw [idxOf_append_of_notMem hv]; simp
    have hroot := fun j s => isRoot_append (j := j) (s := s) h.forest
    refine ⟨?_, ?_, by simp [h.lenS], by simp [h.lenR], ?_, ?_, ?_, ?_, h.refl⟩
    · exact nodup_append.2 ⟨h.nodup, by simp, by rintro a ha b hb; rw [mem_singleton] at hb; subst hb; rintro rfl; exact hv ha⟩
    · refine ⟨by simp [hn], ?_, ?_⟩
      · intro i hi
        simp only [length_append, length_singleton] at hi ⊢
        rw [par_append]
        split
        · omega
        · have := h.forest.lt i (by rw [← hn]; omega); omega
      · intro i hi
        simp only [length_append, length_singleton] at hi ⊢
        rw [par_append]
        split
        · rename_i hh; intro hne; exact absurd hh.symm hne
        · rename_i hh
          intro hne
          have hi' : i < W.vars.length := by rw [hn] at hh; omega
          have hp := h.forest.lt i hi'
          have := h.forest.rank i hi' hne
          simp only [getD_append_one, h.lenR]
          rw [if_neg (by omega), if_neg (by omega)]
          exact this
    · intro c hc
      simp only [length_append, length_singleton] at hc ⊢
      rw [getD_append_one, h.lenS, Finset.range_add_one, Finset.filter_insert]
      by_cases hcn : c = W.vars.length
      · rw [if_pos hcn, if_pos (by rw [hn]; exact (hroot W.vars.length c).2.2 hcn)]
        have : (Finset.filter (fun j => IsRoot (W.parent ++ [W.parent.length]) j c) (Finset.range W.vars.length)) = ∅ := by
          rw [Finset.filter_eq_empty_iff]
          intro j hj hjc
          rw [hn] at hjc
          have hjc' := ((hroot j c).1 (by simpa using hj)).1 hjc
          obtain ⟨t, ht, htn, _⟩ := h.forest.exists_root (i := j) (by simpa using hj)
          have := ht.unique hjc'
          omega
        rw [Finset.card_insert_of_notMem (by rw [this]; simp), this]
        simp
      · rw [if_neg hcn, if_neg (by rw [hn]; exact fun hh => hcn ((hroot W.vars.length c).2.1 hh)), h.sizes c (by omega)]
        congr 1
        apply Finset.filter_congr
        intro j hj
        rw [hn]
        exact ((hroot j c).1 (by simpa using hj)).symm
    · simp only [length_append, length_singleton]
      rw [Finset.range_add_one, Finset.filter_insert, if_pos (by rw [par_append, hn, if_pos rfl]),
        Finset.card_insert_of_notMem (by simp), h.sets]
      have : (Finset.filter (fun c => par W.parent c = c) (Finset.range W.vars.length))
          = (Finset.filter (fun c => par (W.parent ++ [W.parent.length]) c = c) (Finset.range W.vars.length)) := by
        apply Finset.filter_congr
        intro j hj
        have : j < W.vars.length := by simpa using hj
        rw [par_append, if_neg (by omega)]
      rw [this]
      simp
    · intro a b ha hb
      unfold ClassOf
      simp only
      rw [hn]
      by_cases ha' : a ∈ W.vars
      · rw [hidx a ha']
        have hia : W.vars.idxOf a < W.vars.length := idxOf_lt_length_iff.2 ha'
        by_cases hb' : b ∈ W.vars
        · rw [hidx b hb', h.rel a b ha' hb']
          have hib : W.vars.idxOf b < W.vars.length := idxOf_lt_length_iff.2 hb'
          simp only [ClassOf, (hroot _ _).1 hia, (hroot _ _).1 hib]
        · have hbv : b = v := by simpa [hb'] using hb
          subst hbv
          rw [hidxv]
          constructor
          · intro hR
            rcases h.out a b hR with rfl | h'
            · exact absurd ha' hb'
            · exact absurd h'.2 hb'
          · rintro ⟨c, h1, h2⟩
            rw [(hroot _ _).1 hia] at h1
            rw [(hroot 0 c).2] at h2
            obtain ⟨t, ht, htn, _⟩ := h.forest.exists_root hia
            have := ht.unique h1
            omega
      · have hav : a = v := by simpa [ha'] using ha
        subst hav
        rw [hidxv]
        by_cases hb' : b ∈ W.vars
        · rw [hidx b hb']
          have hib : W.vars.idxOf b < W.vars.length := idxOf_lt_length_iff.2 hb'
          constructor
          · intro hR
            rcases h.out a b hR with rfl | h'
            · exact absurd hb' ha'
            · exact absurd h'.1 ha'
          · rintro ⟨c, h1, h2⟩
            rw [(hroot _ _).1 hib] at h2
            rw [(hroot 0 c).2] at h1
            obtain ⟨t, ht, htn, _⟩ := h.forest.exists_root hib
            have := ht.unique h2
            omega
        · have hbv : b = a := by simpa [hb'] using hb
          subst hbv
          rw [hidxv]
          exact ⟨fun _ => ⟨W.vars.length, (hroot 0 W.vars.length).2.2 rfl, (hroot 0 W.vars.length).2.2 rfl⟩, fun _ => h.refl b⟩
    · intro a b hR
      rcases h.out a b hR with rfl | h'
      · exact Or.inl rfl
      · exact Or.inr ⟨mem_append.2 (Or.inl h'.1), mem_append.2 (Or.inl h'.2)⟩

open Classical in
theorem good_find {W : PhiWebs} {R : String → String → Prop} (h : Good W R) {v : String} (hv : v ∈ W.vars) :
    Good (W.findSet v).2 R ∧ (W.findSet v).2.vars = W.vars ∧ (W.findSet v).1 < W.vars.length ∧ ClassOf W v (W.findSet v).1 ∧
      ∀ j s, j < W.vars.length → (IsRoot (W.findSet v).2.parent j s ↔ IsRoot W.parent j s) := by
  have hi : W.vars.idxOf v < W.vars.length := idxOf_lt_length_iff.2 hv
  obtain ⟨h1, h2, h3⟩ := find_spec W.parent.length h.forest hi (by rw [h.forest.len]; exact above_lt_n hi)
  have hr : ∀ j, j < W.vars.length → (par (W.findSet v).2.parent j = j ↔ par W.parent j = j) := by
    intro j hj
    constructor
    · intro hh; exact ((h3 j j hj).1 (.root hh)).isRoot
    · intro hh; exact ((h3 j j hj).2 (.root hh)).isRoot
  obtain ⟨t, ht, htn, _⟩ := h.forest.exists_root hi
  refine ⟨⟨h.nodup, h2, h.lenS, h.lenR, ?_, ?_, ?_, h.out, h.refl⟩, rfl, by have := ht.unique h1; unfold PhiWebs.findSet; simp only; rw [← this]; exact htn, h1, h3⟩
  · intro c hc
    refine (h.sizes c hc).trans ?_
    congr 1
    apply Finset.filter_congr
    intro j hj
    exact (h3 j c (by simpa using hj)).symm
  · refine h.sets.trans ?_
    congr 2
    apply Finset.filter_congr
    intro j hj
    exact (hr j (by simpa using hj)).symm
  · intro a b ha hb
    rw [h.rel a b ha hb]
    have hia : W.vars.idxOf a < W.vars.length := idxOf_lt_length_iff.2 ha
    have hib : W.vars.idxOf b < W.vars.length := idxOf_lt_length_iff.2 hb
    have e1 : ∀ c, ClassOf (W.findSet v).2 a c ↔ ClassOf W a c := fun c => h3 _ c hia
    have e2 : ∀ c, ClassOf (W.findSet v).2 b c ↔ ClassOf W b c := fun c => h3 _ c hib
    simp only [e1, e2]

/-- Joining two classes of an equivalence. -/
def Joined (R : String → String → Prop) (a b : String) (v w : String) : Prop := R v w ∨ (R v a ∧ R b w) ∨ (R v b ∧ R a w)

theorem getD_set {l : List Nat} {i x j : Nat} (hi : i < l.length) : (l.set i x).getD j 0 = if j = i then x else l.getD j 0 := by
  by_cases hj : j = i
  · subst hj; simp [getD_eq_getElem?_getD, hi]
  · rw [if_neg hj]; simp [getD_eq_getElem?_getD, getElem?_set_ne (Ne.symm hj)]

open Classical in
/-- Hanging root `a` below root `b`: the equivalence joined, the counters adjusted. -/
theorem good_link {W : PhiWebs} {R : String → String → Prop} (h : Good W R) {v w : String} (hv : v ∈ W.vars) (hw : w ∈ W.vars)
    {a b : Nat} (ha : ClassOf W v a) (hb : ClassOf W w b) (hab : a ≠ b) (rank' : List Nat) (hlen : rank'.length = W.vars.length)
    (hle : ∀ j, j ≠ b → rank'.getD j 0 = W.rank.getD j 0) (hlb : W.rank.getD b 0 ≤ rank'.getD b 0)
    (hlt : W.rank.getD a 0 < rank'.getD b 0) :
    Good { W with parent := W.parent.set a b
                  size := (W.size.set b (W.size.getD b 0 + W.size.getD a 0)).set a 0
                  rank := rank'
                  numSets := W.numSets - 1 } (Joined R v w) := by
  have hiv : W.vars.idxOf v < W.vars.length := idxOf_lt_length_iff.2 hv
  have hiw : W.vars.idxOf w < W.vars.length := idxOf_lt_length_iff.2 hw
  obtain ⟨ta, hta, htan, _⟩ := h.forest.exists_root hiv
  obtain ⟨tb, htb, htbn, _⟩ := h.forest.exists_root hiw
  have e1 : ta = a := hta.unique ha
  have e2 : tb = b := htb.unique hb
  subst e1 e2
  obtain ⟨l1, l2⟩ := link (rk' := fun i => rank'.getD i 0) h.forest htan htbn hta.isRoot htb.isRoot hab hle hlb hlt
  have hroot : ∀ u, u ∈ W.vars → ∃ c, ClassOf W u c ∧ c < W.vars.length := by
    intro u hu
    obtain ⟨t, h1, h2, _⟩ := h.forest.exists_root (idxOf_lt_length_iff.2 hu)
    exact ⟨t, h1, h2⟩
  refine ⟨h.nodup, l1, by simp [h.lenS], hlen, ?_, ?_, ?_, ?_, fun u => Or.inl (h.refl u)⟩
  · intro c hc
    simp only
    rw [getD_set (by simp [h.lenS]; exact htan), getD_set (by rw [h.lenS]; exact htbn)]
    have hcongr : ((Finset.range W.vars.length).filter fun j => IsRoot (W.parent.set ta tb) j c)
        = ((Finset.range W.vars.length).filter fun j => if c = tb then IsRoot W.parent j ta ∨ IsRoot W.parent j tb
            else c ≠ ta ∧ IsRoot W.parent j c) := by
      apply Finset.filter_congr
      intro j hj
      exact l2 j c (by simpa using hj)
    rw [hcongr]
    by_cases hca : c = ta
    · subst hca
      rw [if_pos rfl]
      simp [hab]
    · rw [if_neg hca]
      by_cases hcb : c = tb
      · subst hcb
        rw [if_pos rfl, h.sizes c hc, h.sizes ta htan]
        simp only [if_true]
        rw [Finset.filter_or, Finset.card_union_of_disjoint, Nat.add_comm]
        rw [Finset.disjoint_filter]
        intro j _ h1 h2
        exact hab (h1.unique h2)
      · rw [if_neg hcb, h.sizes c hc]
        simp only [hcb, if_false, hca, ne_eq, not_false_eq_true, true_and]
  · simp only
    have hset : ((Finset.range W.vars.length).filter fun c => par (W.parent.set ta tb) c = c)
        = ((Finset.range W.vars.length).filter fun c => par W.parent c = c).erase ta := by
      ext c
      simp only [Finset.mem_filter, Finset.mem_range, Finset.mem_erase]
      have hl : ta < W.parent.length := by rw [h.forest.len]; exact htan
      rw [par_set hl]
      by_cases hc : c = ta
      · subst hc; simp [Ne.symm hab]
      · simp [hc]
    have hmem : ta ∈ ((Finset.range W.vars.length).filter fun c => par W.parent c = c) := by
      simp [htan, hta.isRoot]
    rw [hset, Finset.card_erase_of_mem hmem, h.sets]
    have : 0 < ((Finset.range W.vars.length).filter fun c => par W.parent c = c).card := Finset.card_pos.2 ⟨_, hmem⟩
    omega
  · intro x y hx hy
    have hix : W.vars.idxOf x < W.vars.length := idxOf_lt_length_iff.2 hx
    have hiy : W.vars.idxOf y < W.vars.length := idxOf_lt_length_iff.2 hy
    obtain ⟨cx, hcx, _⟩ := hroot x hx
    obtain ⟨cy, hcy, _⟩ := hroot y hy
    -- the class of a variable after the join
    have hnew : ∀ u c, u ∈ W.vars → ClassOf W u c → IsRoot (W.parent.set ta tb) (W.vars.idxOf u) (if c = ta then tb else c) := by
      intro u c hu hc
      rw [l2 _ _ (idxOf_lt_length_iff.2 hu)]
      by_cases hca : c = ta
      · subst hca; rw [if_pos rfl, if_pos rfl]; exact Or.inl hc
      · rw [if_neg hca]
        by_cases hcb : c = tb
        · subst hcb; rw [if_pos rfl]; exact Or.inr hc
        · rw [if_neg hcb]; exact ⟨hca, hc⟩
    have hR : ∀ u u' c c', u ∈ W.vars → u' ∈ W.vars → ClassOf W u c → ClassOf W u' c' → (R u u' ↔ c = c') := by
      intro u u' c c' hu hu' hc hc'
      rw [h.rel u u' hu hu']
      constructor
      · rintro ⟨d, h1, h2⟩; rw [hc.unique h1, hc'.unique h2]
      · rintro rfl; exact ⟨c, hc, hc'⟩
    unfold Joined
    rw [hR x y cx cy hx hy hcx hcy, hR x v cx ta hx hv hcx hta, hR w y tb cy hw hy htb hcy, hR x w cx tb hx hw hcx htb,
      hR v y ta cy hv hy hta hcy]
    have nx := hnew x cx hx hcx
    have ny := hnew y cy hy hcy
    constructor
    · intro hh
      refine ⟨_, nx, ?_⟩
      have : (if cx = ta then tb else cx) = (if cy = ta then tb else cy) := by
        rcases hh with rfl | ⟨rfl, rfl⟩ | ⟨rfl, rfl⟩
        · rfl
        · simp [Ne.symm hab]
        · simp [Ne.symm hab]
      rw [this]
      exact ny
    · rintro ⟨d, h1, h2⟩
      have e1 := nx.unique h1
      have e2 := ny.unique h2
      rw [← e2] at e1
      by_cases hx' : cx = ta
      · by_cases hy' : cy = ta
        · exact Or.inl (hx'.trans hy'.symm)
        · rw [if_pos hx', if_neg hy'] at e1
          exact Or.inr (Or.inl ⟨hx', e1⟩)
      · by_cases hy' : cy = ta
        · rw [if_neg hx', if_pos hy'] at e1
          exact Or.inr (Or.inr ⟨e1, hy'.symm⟩)
        · rw [if_neg hx', if_neg hy'] at e1
          exact Or.inl e1
  · intro x y hxy
    rcases hxy with hxy | ⟨h1, h2⟩ | ⟨h1, h2⟩
    · exact h.out x y hxy
    · refine Or.inr ⟨?_, ?_⟩
      · rcases h.out _ _ h1 with rfl | h'
        · exact hv
        · exact h'.1
      · rcases h.out _ _ h2 with rfl | h'
        · exact hw
        · exact h'.2
    · refine Or.inr ⟨?_, ?_⟩
      · rcases h.out _ _ h1 with rfl | h'
        · exact hw
        · exact h'.1
      · rcases h.out _ _ h2 with rfl | h'
        · exact hv
        · exact h'.2

/-- Connection by the given edges. -/
def Conn (E : List (String × String)) : String → String → Prop := Relation.EqvGen fun a b => (a, b) ∈ E

theorem conn_snoc (E : List (String × String)) (a b : String) : Conn (E ++ [(a, b)]) = Joined (Conn E) a b := by
  funext v w
  apply propext
  constructor
  · intro h
    induction h with
    | rel x y h =>
      rcases mem_append.1 h with h | h
      · exact Or.inl (.rel _ _ h)
      · rw [mem_singleton] at h
        cases h
        exact Or.inr (Or.inl ⟨.refl _, .refl _⟩)
    | refl x => exact Or.inl (.refl _)
    | symm x y _ ih =>
      rcases ih with h | ⟨h1, h2⟩ | ⟨h1, h2⟩
      · exact Or.inl (.symm _ _ h)
      · exact Or.inr (Or.inr ⟨.symm _ _ h2, .symm _ _ h1⟩)
      · exact Or.inr (Or.inl ⟨.symm _ _ h2, .symm _ _ h1⟩)
    | trans x y z _ _ ih1 ih2 =>
      rcases ih1 with h | ⟨h1, h2⟩ | ⟨h1, h2⟩ <;> rcases ih2 with k | ⟨k1, k2⟩ | ⟨k1, k2⟩
      · exact Or.inl (.trans _ _ _ h k)
      · exact Or.inr (Or.inl ⟨.trans _ _ _ h k1, k2⟩)
      · exact Or.inr (Or.inr ⟨.trans _ _ _ h k1, k2⟩)
      · exact Or.inr (Or.inl ⟨h1, .trans _ _ _ h2 k⟩)
      · exact Or.inr (Or.inl ⟨h1, k2⟩)
      · exact Or.inl (.trans _ _ _ h1 k2)
      · exact Or.inr (Or.inr ⟨h1, .trans _ _ _ h2 k⟩)
      · exact Or.inl (.trans _ _ _ h1 k2)
      · exact Or.inr (Or.inr ⟨h1, k2⟩)
  · have hm : ∀ x y, Conn E x y → Conn (E ++ [(a, b)]) x y := fun x y h => h.mono fun _ _ h => mem_append.2 (Or.inl h)
    have hab : Conn (E ++ [(a, b)]) a b := .rel _ _ (by simp)
    rintro (h | ⟨h1, h2⟩ | ⟨h1, h2⟩)
    · exact hm _ _ h
    · exact .trans _ _ _ (hm _ _ h1) (.trans _ _ _ hab (hm _ _ h2))
    · exact .trans _ _ _ (hm _ _ h1) (.trans _ _ _ (.symm _ _ hab) (hm _ _ h2))

theorem good_union {W : PhiWebs} {E : List (String × String)} (h : Good W (Conn E)) {v w : String} (hv : v ∈ W.vars) (hw : w ∈ W.vars) :
    Good (W.unionSet v w) (Conn (E ++ [(v, w)])) ∧ (W.unionSet v w).vars = W.vars := by
  obtain ⟨g1, v1, n1, c1, r1⟩ := good_find h hv
  obtain ⟨g2, v2, n2, c2, r2⟩ := good_find (W := (W.findSet v).2) (v := w) g1 (by rw [v1]; exact hw)
  have hW2 : ((W.findSet v).2.findSet w).2.vars = W.vars := v2.trans v1
  have hiv : W.vars.idxOf v < W.vars.length := idxOf_lt_length_iff.2 hv
  have hiw : W.vars.idxOf w < W.vars.length := idxOf_lt_length_iff.2 hw
  have hcv : ClassOf ((W.findSet v).2.findSet w).2 v (W.findSet v).1 := by
    unfold ClassOf
    rw [hW2]
    exact (r2 _ _ (by rw [v1]; exact hiv)).2 ((r1 _ _ hiv).2 c1)
  have hcw : ClassOf ((W.findSet v).2.findSet w).2 w ((W.findSet v).2.findSet w).1 := by
    unfold ClassOf
    rw [hW2]
    refine (r2 _ _ (by rw [v1]; exact hiw)).2 ?_
    have := c2
    unfold ClassOf at this
    rw [v1] at this
    exact this
  rw [conn_snoc]
  unfold PhiWebs.unionSet
  simp only
  split
  · rename_i hne
    split
    · rename_i hgt
      refine ⟨?_, hW2⟩
      have hg := good_link g2 (v := w) (w := v) (by rw [hW2]; exact hw) (by rw [hW2]; exact hv) hcw hcv (Ne.symm hne)
        ((W.findSet v).2.findSet w).2.rank g2.lenR (fun _ _ => rfl) (Nat.le_refl _) hgt
      have hsymm : Joined (Conn E) v w = Joined (Conn E) w v := by
        funext x y
        apply propext
        unfold Joined
        constructor
        · rintro (h | h | h)
          · exact Or.inl h
          · exact Or.inr (Or.inr h)
          · exact Or.inr (Or.inl h)
        · rintro (h | h | h)
          · exact Or.inl h
          · exact Or.inr (Or.inr h)
          · exact Or.inr (Or.inl h)
      rw [hsymm]
      exact hg
    · rename_i hgt
      refine ⟨?_, hW2⟩
      have hcn : ((W.findSet v).2.findSet w).1 < ((W.findSet v).2.findSet w).2.rank.length := by
        rw [g2.lenR, hW2, ← v1]; exact n2
      split
      · rename_i heq
        refine good_link g2 (by rw [hW2]; exact hv) (by rw [hW2]; exact hw) hcv hcw hne
          _ (by rw [length_set]; exact g2.lenR) ?_ ?_ ?_
        · intro j hj; rw [getD_set hcn, if_neg hj]
        · rw [getD_set hcn, if_pos rfl]; omega
        · rw [getD_set hcn, if_pos rfl]; omega
      · rename_i hneq
        exact good_link g2 (by rw [hW2]; exact hv) (by rw [hW2]; exact hw) hcv hcw hne
          _ g2.lenR (fun _ _ => rfl) (Nat.le_refl _) (by omega)
  · rename_i heq
    refine ⟨?_, hW2⟩
    have heq' : (W.findSet v).1 = ((W.findSet v).2.findSet w).1 := by
      by_contra hh
      exact heq hh
    have hvw : Conn E v w := (g2.rel v w (by rw [hW2]; exact hv) (by rw [hW2]; exact hw)).2 ⟨_, hcv, by rw [heq']; exact hcw⟩
    have : Joined (Conn E) v w = Conn E := by
      funext x y
      apply propext
      constructor
      · rintro (h | ⟨h1, h2⟩ | ⟨h1, h2⟩)
        · exact h
        · exact .trans _ _ _ h1 (.trans _ _ _ hvw h2)
        · exact .trans _ _ _ h1 (.trans _ _ _ (.symm _ _ hvw) h2)
      · exact Or.inl
    rw [this]
    exact g2

theorem good_join {W : PhiWebs} {E : List (String × String)} (h : Good W (Conn E)) (d : String) (vals : List String) :
    Good (W.joinPhi d vals) (Conn (E ++ vals.map fun v => (d, v))) ∧
      ∀ x, x ∈ (W.joinPhi d vals).vars ↔ x ∈ W.vars ∨ x = d ∨ x ∈ vals := by
  obtain ⟨g0, hd0, hm0⟩ := good_init h d
  have key : ∀ (vals : List String) (W : PhiWebs) (E : List (String × String)), Good W (Conn E) → d ∈ W.vars →
      Good (vals.foldl (fun W v => (W.initElement v).unionSet d v) W) (Conn (E ++ vals.map fun v => (d, v))) ∧
      ∀ x, x ∈ (vals.foldl (fun W v => (W.initElement v).unionSet d v) W).vars ↔ x ∈ W.vars ∨ x ∈ vals := by
    intro vals
    induction vals with
    | nil => intro W E h _; simpa using h
    | cons v vals ih =>
      intro W E h hd
      obtain ⟨g1, hv1, hm1⟩ := good_init h v
      obtain ⟨g2, hv2⟩ := good_union g1 (v := d) (w := v) ((hm1 d).2 (Or.inl hd)) hv1
      obtain ⟨g3, hm3⟩ := ih _ _ g2 (by rw [hv2]; exact (hm1 d).2 (Or.inl hd))
      rw [foldl_cons, map_cons]
      refine ⟨?_, ?_⟩
      · rw [show E ++ (d, v) :: vals.map (fun v => (d, v)) = E ++ [(d, v)] ++ vals.map (fun v => (d, v)) by simp]
        exact g3
      · intro x
        rw [hm3 x, hv2, hm1 x, mem_cons]
        tauto
  obtain ⟨g, hm⟩ := key vals _ E g0 hd0
  refine ⟨g, ?_⟩
  intro x
  unfold PhiWebs.joinPhi
  rw [hm x, hm0 x]
  tauto

/-- The variables of the phi functions. -/
def mentioned (js : List (String × List String)) (v : String) : Prop := ∃ j ∈ js, v = j.1 ∨ v ∈ j.2

theorem good_joinAll (js : List (String × List String)) :
    Good (joinAll js) (Connected js) ∧ ∀ v, v ∈ (joinAll js).vars ↔ mentioned js v := by
  have key : ∀ (js : List (String × List String)) (W : PhiWebs) (E : List (String × String)), Good W (Conn E) →
      Good (js.foldl (fun W j => W.joinPhi j.1 j.2) W) (Conn (E ++ js.flatMap fun j => j.2.map fun v => (j.1, v))) ∧
      ∀ v, v ∈ (js.foldl (fun W j => W.joinPhi j.1 j.2) W).vars ↔ v ∈ W.vars ∨ mentioned js v := by
    intro js
    induction js with
    | nil => intro W E h; simpa [mentioned] using h
    | cons j js ih =>
      intro W E h
      obtain ⟨g1, m1⟩ := good_join h j.1 j.2
      obtain ⟨g2, m2⟩ := ih _ _ g1
      rw [foldl_cons, flatMap_cons, ← append_assoc]
      refine ⟨g2, ?_⟩
      intro v
      rw [m2 v, m1 v]
      simp only [mentioned, mem_cons, exists_eq_or_imp]
      rw [or_assoc]
  have h0 : Good {} (Conn []) := by
    refine ⟨by simp, ⟨rfl, ?_, ?_⟩, rfl, rfl, ?_, ?_, ?_, ?_, fun v => .refl v⟩
    · intro i hi; simp at hi
    · intro i hi; simp at hi
    · intro c hc; simp at hc
    · simp
    · intro v w hv; simp at hv
    · intro v w h
      refine Or.inl ?_
      induction h with
      | rel _ _ h => simp at h
      | refl _ => rfl
      | symm _ _ _ ih => exact ih.symm
      | trans _ _ _ _ _ ih1 ih2 => exact ih1.trans ih2
  obtain ⟨g, m⟩ := key js {} [] h0
  have he : Conn ([] ++ js.flatMap fun j => j.2.map fun v => (j.1, v)) = Connected js := by
    funext v w
    apply propext
    constructor
    · intro h
      refine h.mono ?_
      intro a b hab
      rw [nil_append, mem_flatMap] at hab
      obtain ⟨j, hj, hab⟩ := hab
      obtain ⟨x, hx, he⟩ := mem_map.1 hab
      cases he
      exact ⟨j, hj, rfl, hx⟩
    · intro h
      refine h.mono ?_
      rintro a b ⟨j, hj, rfl, hb⟩
      rw [nil_append]
      exact mem_flatMap.2 ⟨j, hj, mem_map.2 ⟨b, hb, rfl⟩⟩
  rw [he] at g
  refine ⟨g, fun v => (m v).trans ?_⟩
  simp

/-- **C28, webs.** After any sequence of joins the variables of the structure are exactly those of the phi functions, and two of
them are in the same web exactly when a chain of phi functions connects them. -/
theorem webs_exact (js : List (String × List String)) :
    (∀ v, v ∈ (joinAll js).vars ↔ mentioned js v) ∧
    ∀ v w, mentioned js v → mentioned js w → (((joinAll js).findSet v).1 = ((joinAll js).findSet w).1 ↔ Connected js v w) := by
  obtain ⟨g, m⟩ := good_joinAll js
  refine ⟨m, ?_⟩
  intro v w hv hw
  rw [g.rel v w ((m v).2 hv) ((m w).2 hw)]
  obtain ⟨_, _, _, cv, _⟩ := good_find g ((m v).2 hv)
  obtain ⟨_, _, _, cw, _⟩ := good_find g ((m w).2 hw)
  constructor
  · intro h
    exact ⟨_, cv, by rw [h]; exact cw⟩
  · rintro ⟨c, h1, h2⟩
    rw [cv.unique h1, cw.unique h2]

/-- Looking up a variable does not change any answer (path compression is invisible). -/
theorem find_invisible (js : List (String × List String)) (u v : String) (hu : mentioned js u) (hv : mentioned js v) :
    (((joinAll js).findSet u).2.findSet v).1 = ((joinAll js).findSet v).1 := by
  obtain ⟨g, m⟩ := good_joinAll js
  obtain ⟨g1, v1, _, _, r1⟩ := good_find g ((m u).2 hu)
  obtain ⟨_, _, _, c2, _⟩ := good_find g1 (v := v) (by rw [v1]; exact (m v).2 hv)
  obtain ⟨_, _, _, c3, _⟩ := good_find g ((m v).2 hv)
  unfold ClassOf at c2
  rw [v1] at c2
  exact ((r1 _ _ (idxOf_lt_length_iff.2 ((m v).2 hv))).1 c2).unique c3

/-- **C28, counters.** The reported number of elements, number of webs and number of members of each web are exact, and the classes
reported as having elements are those of the webs. -/
theorem webs_counts (js : List (String × List String)) :
    let W := joinAll js
    W.vars.Nodup ∧ W.numSets = ((W.vars.map fun v => (W.findSet v).1).dedup.length : Nat) ∧
    (∀ v ∈ W.vars, W.size.getD (W.findSet v).1 0 = (W.vars.filter fun w => (W.findSet w).1 == (W.findSet v).1).length) ∧
    (∀ c, c ∈ W.classesWithElements ↔ ∃ v ∈ W.vars, (W.findSet v).1 = c) := by
  classical
  intro W
  obtain ⟨g, m⟩ := good_joinAll js
  have hcls : ∀ v ∈ W.vars, ClassOf W v (W.findSet v).1 ∧ (W.findSet v).1 < W.vars.length := by
    intro v hv
    obtain ⟨_, _, n, c, _⟩ := good_find g hv
    exact ⟨c, n⟩
  have hget : ∀ j, j < W.vars.length → ∃ v ∈ W.vars, W.vars.idxOf v = j := by
    intro j hj
    exact ⟨W.vars[j], getElem_mem hj, g.nodup.idxOf_getElem j hj⟩
  refine ⟨g.nodup, ?_, ?_, ?_⟩
  · rw [g.sets]
    congr 1
    have : ((Finset.range (joinAll js).vars.length).filter fun c => par (joinAll js).parent c = c)
        = (W.vars.map fun v => (W.findSet v).1).toFinset := by
      ext c
      simp only [Finset.mem_filter, Finset.mem_range, List.mem_toFinset, mem_map]
      constructor
      · rintro ⟨hc, hp⟩
        obtain ⟨v, hv, hi⟩ := hget c hc
        refine ⟨v, hv, ?_⟩
        have := (hcls v hv).1
        unfold ClassOf at this
        rw [hi] at this
        exact this.unique (.root hp)
      · rintro ⟨v, hv, rfl⟩
        exact ⟨(hcls v hv).2, (hcls v hv).1.isRoot⟩
    rw [this, List.card_toFinset]
  · intro v hv
    rw [g.sizes _ (hcls v hv).2, ← List.toFinset_card_of_nodup (g.nodup.filter _)]
    refine Finset.card_bij' (fun j hj => W.vars[j]'(by simp at hj; exact hj.1)) (fun w _ => W.vars.idxOf w) ?_ ?_ ?_ ?_
    · intro j hj
      simp only [Finset.mem_filter, Finset.mem_range] at hj
      simp only [List.mem_toFinset, mem_filter, beq_iff_eq]
      refine ⟨getElem_mem _, ?_⟩
      have := (hcls W.vars[j] (getElem_mem hj.1)).1
      unfold ClassOf at this
      rw [g.nodup.idxOf_getElem j hj.1] at this
      exact this.unique hj.2
    · intro w hw
      simp only [List.mem_toFinset, mem_filter, beq_iff_eq] at hw
      simp only [Finset.mem_filter, Finset.mem_range]
      refine ⟨idxOf_lt_length_iff.2 hw.1, ?_⟩
      rw [← hw.2]
      exact (hcls w hw.1).1
    · intro j hj
      simp only [Finset.mem_filter, Finset.mem_range] at hj
      exact g.nodup.idxOf_getElem j hj.1
    · intro w hw
      simp
  · intro c
    unfold PhiWebs.classesWithElements
    simp only [mem_filter, mem_range, decide_eq_true_eq]
    constructor
    · rintro ⟨hc, hpos⟩
      have hc' : c < (joinAll js).vars.length := by rw [← g.lenS]; exact hc
      rw [g.sizes c hc'] at hpos
      obtain ⟨j, hj⟩ := Finset.card_pos.1 hpos
      simp only [Finset.mem_filter, Finset.mem_range] at hj
      obtain ⟨v, hv, hi⟩ := hget j hj.1
      refine ⟨v, hv, ?_⟩
      have := (hcls v hv).1
      unfold ClassOf at this
      rw [hi] at this
      exact this.unique hj.2
    · rintro ⟨v, hv, rfl⟩
      refine ⟨by rw [g.lenS]; exact (hcls v hv).2, ?_⟩
      rw [g.sizes _ (hcls v hv).2]
      apply Finset.card_pos.2
      refine ⟨W.vars.idxOf v, ?_⟩
      simp only [Finset.mem_filter, Finset.mem_range]
      exact ⟨idxOf_lt_length_iff.2 hv, (hcls v hv).1⟩

/-! ### The theorems apply -/

def exJoins : List (String × List String) := [("x", ["a", "b"]), ("y", ["c"]), ("z", []), ("w", ["y", "e"]), ("b", ["f"])]

example : (joinAll exJoins).numSets = 3 ∧ (joinAll exJoins).vars.length = 9 ∧
    ((joinAll exJoins).findSet "f").1 = ((joinAll exJoins).findSet "a").1 ∧
    ((joinAll exJoins).findSet "c").1 ≠ ((joinAll exJoins).findSet "a").1 := by decide +kernel

example : mentioned exJoins "e" ∧ mentioned exJoins "z" := ⟨⟨("w", ["y", "e"]), by decide, by decide⟩, ⟨("z", []), by decide, by decide⟩⟩

end Grey.Repair
