/-
Where values can be reached on the stack (src/reparation/reachability.py:19-63), the insertion of stores in a schedule
and the count of loads (src/greedy/greedy_info.py:49-72, 98-113): C32.
-/
import Verif.SymExec.Model
import Mathlib.Data.List.Nodup
namespace Grey.Repair
open List

/-! ### Model -/

/-- The dictionary `reachable`: stack position, number of instructions executed before, is it the end of the block
(src/greedy/greedy_info.py:25-26). -/
abbrev Reach := String → Option (Nat × Nat × Bool)

/-- src/reparation/reachability.py:22-24, from position `i` on. -/
def updLoop (idx : Nat) (last : Bool) (forb : List String) : Nat → List String → Reach → Reach
  | _, [], R => R
  | i, x :: xs, R => updLoop idx last forb (i + 1) xs (if x ∈ forb then R else fun u => if u = x then some (i, idx, last) else R u)

/-- src/reparation/reachability.py:19-25; `depth` is `MAX_STACK_DEPTH`. -/
def updateReachable (depth : Nat) (stack : List String) (idx : Nat) (last : Bool) (forb : List String) (R : Reach) : Reach :=
  updLoop idx last forb 0 (stack.take depth) R

/-- The argument of a `VGET` (src/reparation/utils.py:6-8), if the id starts so. -/
def vgetOf (s : String) : Option String := if "VGET".toList.isPrefixOf s.toList then some (String.ofList (s.toList.drop 5).dropLast) else none

/-- The argument of a `VSET` (src/reparation/utils.py:9-10), if the id starts so. -/
def vsetOf (s : String) : Option String := if "VSET".toList.isPrefixOf s.toList then some (String.ofList (s.toList.drop 5).dropLast) else none

/-- src/reparation/reachability.py:40-53. `n` is `num_instr` before the iteration, `total` the number of instructions, `split` whether
there is a split instruction. `none`: an exception in the symbolic execution. -/
def reachLoop (depth : Nat) (tab : List SymExec.UInstr) (total : Nat) (split : Bool) :
    List String → Nat → List String → List String → Reach → Option (Nat × List String × List String × Reach)
  | [], n, st, forb, R => some (n, st, forb, R)
  | s :: ss, n, st, forb, R =>
    match SymExec.execId tab s st with
    | none => none
    | some st' =>
      reachLoop depth tab total split ss (n + 1) st' ((vgetOf s).toList ++ forb)
        (updateReachable depth st' (n + 1) (!split && n + 1 == total) ((vgetOf s).toList ++ forb) R)

/-- src/reparation/reachability.py:28-63. The split instruction is given by its arguments and results. -/
def reachability (depth : Nat) (tab : List SymExec.UInstr) (ids : List String) (src : List String) (split : Option (List String × List String)) :
    Option Reach :=
  (reachLoop depth tab ids.length split.isSome ids 0 src [] (updateReachable depth src 0 (ids.length == 0) [] (fun _ => none))).map fun r =>
    match split with
    | none => r.2.2.2
    | some c => updateReachable depth (c.2 ++ r.2.1.drop c.1.length) (r.1 + 1) true r.2.2.1 r.2.2.2

/-- Instruction ids once stores are inserted; `dupSet v d` is the text `DUP-VSET(v,d)`. -/
inductive PId where
  | id (s : String)
  | dupSet (v : String) (d : Nat)
  deriving DecidableEq, Repr

/-- src/greedy/greedy_info.py:98-113. `none`: the KeyError. `list.insert` beyond the end appends. -/
def insertDupVset (v : String) (g : List PId × Reach) : Option (List PId × Reach) :=
  (g.2 v).map fun e =>
    (g.1.take e.2.1 ++ .dupSet v e.1 :: g.1.drop e.2.1,
      fun u => (g.2 u).map fun e' => if e'.2.1 ≥ e.2.1 then (e'.1, e'.2.1 + 1, e'.2.2) else e')

/-- Insertions one after another (src/reparation/insert_placeholders.py:266-272). -/
def insertAll : List String → List PId × Reach → Option (List PId × Reach)
  | [], g => some g
  | v :: vs, g => (insertDupVset v g).bind (insertAll vs)

/-- src/greedy/greedy_info.py:57-72: the counter, the number of loads of values stored before in the block, and whether there is any load. -/
def getCountLoop : List String → List String → (String → Nat) → Nat → Bool → (String → Nat) × Nat × Bool
  | [], _, cnt, dom, has => (cnt, dom, has)
  | s :: ss, acc, cnt, dom, has =>
    match vgetOf s with
    | some v =>
      if v ∈ acc then getCountLoop ss acc cnt (dom + 1) true
      else getCountLoop ss acc (fun u => if u = v then cnt u + 1 else cnt u) dom true
    | none =>
      match vsetOf s with
      | some v => getCountLoop ss (v :: acc) cnt dom has
      | none => getCountLoop ss acc cnt dom has

def initialGetCount (ids : List String) : (String → Nat) × Nat × Bool := getCountLoop ids [] (fun _ => 0) 0 false

/-! ### Specification -/

/-- Running a schedule with stores: `DUP-VSET(v,d)` needs `d + 1` elements and leaves the stack as it was. -/
def runP (tab : List SymExec.UInstr) : List PId → List String → Option (List String)
  | [], st => some st
  | .id s :: is, st => (SymExec.execId tab s st).bind (runP tab is)
  | .dupSet _ d :: is, st => if d < st.length then runP tab is st else none

/-- `v` can be stored after the first `n` instructions: it is in one of the `depth` first positions of the stack, and it has not been loaded. -/
def CanStore (depth : Nat) (tab : List SymExec.UInstr) (ids : List String) (src : List String) (v : String) (n : Nat) : Prop :=
  n ≤ ids.length ∧ (∀ s ∈ ids.take n, vgetOf s ≠ some v) ∧ ∃ st, SymExec.execIds tab (ids.take n) src = some st ∧ v ∈ st.take depth

/-- The original instructions of a schedule with stores. -/
def originals : List PId → List String
  | [] => []
  | .id s :: is => s :: originals is
  | .dupSet _ _ :: is => originals is

/-! ### Proofs -/

theorem updLoop_spec (idx : Nat) (last : Bool) (forb : List String) (v : String) : ∀ (xs : List String) (i : Nat) (R : Reach),
    ((v ∈ forb ∨ v ∉ xs) → updLoop idx last forb i xs R v = R v) ∧
    (v ∉ forb → v ∈ xs → ∃ k, xs[k]? = some v ∧ updLoop idx last forb i xs R v = some (i + k, idx, last)) := by
  intro xs
  induction xs with
  | nil => intro i R; exact ⟨fun _ => rfl, fun _ h => by cases h⟩
  | cons x xs ih =>
    intro i R
    obtain ⟨h1, h2⟩ := ih (i + 1) (if x ∈ forb then R else fun u => if u = x then some (i, idx, last) else R u)
    constructor
    · intro h
      unfold updLoop
      rw [h1 (h.imp id fun h h' => h (mem_cons_of_mem _ h'))]
      split
      · rfl
      · rename_i hx
        have hvx : v ≠ x := by
          rintro rfl
          rcases h with h | h
          · exact hx h
          · exact h mem_cons_self
        simp [hvx]
    · intro hf hm
      unfold updLoop
      by_cases hxs : v ∈ xs
      · obtain ⟨k, hk, he⟩ := h2 hf hxs
        refine ⟨k + 1, by simpa using hk, ?_⟩
        rw [he]
        congr 2
        omega
      · have hvx : v = x := (mem_cons.1 hm).resolve_right hxs
        subst hvx
        refine ⟨0, rfl, ?_⟩
        rw [h1 (.inr hxs), if_neg hf]
        simp

theorem updateReachable_skip {depth : Nat} {st : List String} {idx : Nat} {last : Bool} {forb : List String} {R : Reach} {v : String}
    (h : v ∈ forb ∨ v ∉ st.take depth) : updateReachable depth st idx last forb R v = R v := (updLoop_spec idx last forb v _ 0 R).1 h

theorem updateReachable_hit {depth : Nat} {st : List String} {idx : Nat} {last : Bool} {forb : List String} {R : Reach} {v : String}
    (h1 : v ∉ forb) (h2 : v ∈ st.take depth) : ∃ d, d < depth ∧ st[d]? = some v ∧ updateReachable depth st idx last forb R v = some (d, idx, last) := by
  obtain ⟨k, hk, he⟩ := (updLoop_spec idx last forb v _ 0 R).2 h1 h2
  rw [getElem?_take] at hk
  split at hk
  · rename_i hlt
    exact ⟨k, hlt, hk, by unfold updateReachable; rw [he]; simp⟩
  · cases hk

/-- What the dictionary says after the first `n` instructions. -/
structure ReachInv (depth : Nat) (tab : List SymExec.UInstr) (ids : List String) (src : List String) (split : Bool) (n : Nat) (R : Reach) : Prop where
  sound : ∀ v d m l, R v = some (d, m, l) → m ≤ n ∧ CanStore depth tab ids src v m ∧
    (∃ st, SymExec.execIds tab (ids.take m) src = some st ∧ st[d]? = some v ∧ d < depth) ∧
    (split = false → (l = true ↔ m = ids.length)) ∧ ∀ m', m < m' → m' ≤ n → ¬ CanStore depth tab ids src v m'
  complete : ∀ v, R v = none → ∀ m', m' ≤ n → ¬ CanStore depth tab ids src v m'

theorem execIds_append (tab : List SymExec.UInstr) (p q : List String) (st : List String) :
    SymExec.execIds tab (p ++ q) st = (SymExec.execIds tab p st).bind (SymExec.execIds tab q) := by
  induction p generalizing st with
  | nil => rfl
  | cons s p ih =>
    rw [cons_append, SymExec.execIds, SymExec.execIds]
    cases SymExec.execId tab s st with
    | none => rfl
    | some st' => exact ih st'

/-- One step of the construction. -/
theorem reachInv_step {depth : Nat} {tab : List SymExec.UInstr} {ids : List String} {src : List String} {split : Bool} {n : Nat} {R : Reach}
    {st : List String} {forb : List String} {last : Bool} (hn : n ≤ ids.length)
    (hR : ∀ v d m l, R v = some (d, m, l) → m < n ∧ CanStore depth tab ids src v m ∧
      (∃ st, SymExec.execIds tab (ids.take m) src = some st ∧ st[d]? = some v ∧ d < depth) ∧
      (split = false → (l = true ↔ m = ids.length)) ∧ ∀ m', m < m' → m' < n → ¬ CanStore depth tab ids src v m')
    (hR' : ∀ v, R v = none → ∀ m', m' < n → ¬ CanStore depth tab ids src v m')
    (hst : SymExec.execIds tab (ids.take n) src = some st) (hforb : ∀ v, v ∈ forb ↔ ∃ s ∈ ids.take n, vgetOf s = some v)
    (hlast : split = false → (last = true ↔ n = ids.length)) :
    ReachInv depth tab ids src split n (updateReachable depth st n last forb R) := by
  have hcan : ∀ v, CanStore depth tab ids src v n ↔ v ∉ forb ∧ v ∈ st.take depth := by
    intro v
    constructor
    · rintro ⟨_, h1, st', h2, h3⟩
      rw [hst] at h2
      cases h2
      exact ⟨fun h => by obtain ⟨s, hs, he⟩ := (hforb v).1 h; exact h1 s hs he, h3⟩
    · rintro ⟨h1, h2⟩
      exact ⟨hn, fun s hs he => h1 ((hforb v).2 ⟨s, hs, he⟩), st, hst, h2⟩
  constructor
  · intro v d m l hv
    by_cases hc : v ∉ forb ∧ v ∈ st.take depth
    · obtain ⟨d', hd1, hd2, he⟩ := updateReachable_hit (idx := n) (last := last) (R := R) hc.1 hc.2
      rw [he] at hv
      cases hv
      exact ⟨Nat.le_refl _, (hcan v).2 hc, ⟨st, hst, hd2, hd1⟩, hlast, fun m' h1 h2 => by omega⟩
    · have hc' : v ∈ forb ∨ v ∉ st.take depth := by
        by_cases h : v ∈ forb
        · exact .inl h
        · exact .inr fun h' => hc ⟨h, h'⟩
      rw [updateReachable_skip hc'] at hv
      obtain ⟨h1, h2, h3, h4, h5⟩ := hR v d m l hv
      refine ⟨by omega, h2, h3, h4, ?_⟩
      intro m' hm1 hm2
      rcases Nat.lt_or_ge m' n with h | h
      · exact h5 m' hm1 h
      · rw [show m' = n by omega, hcan]
        exact hc
  · intro v hv m' hm'
    by_cases hc : v ∉ forb ∧ v ∈ st.take depth
    · obtain ⟨d', _, _, he⟩ := updateReachable_hit (idx := n) (last := last) (R := R) hc.1 hc.2
      rw [he] at hv
      cases hv
    · have hc' : v ∈ forb ∨ v ∉ st.take depth := by
        by_cases h : v ∈ forb
        · exact .inl h
        · exact .inr fun h' => hc ⟨h, h'⟩
      rw [updateReachable_skip hc'] at hv
      rcases Nat.lt_or_ge m' n with h | h
      · exact hR' v hv m' h
      · rw [show m' = n by omega, hcan]
        exact hc

theorem reachLoop_spec {depth : Nat} {tab : List SymExec.UInstr} {ids : List String} {src : List String} {split : Bool} :
    ∀ (ss : List String) (n : Nat) (st forb : List String) (R : Reach) (r : Nat × List String × List String × Reach),
    ids.drop n = ss → n ≤ ids.length → SymExec.execIds tab (ids.take n) src = some st →
    (∀ v, v ∈ forb ↔ ∃ s ∈ ids.take n, vgetOf s = some v) → ReachInv depth tab ids src split n R →
    reachLoop depth tab ids.length split ss n st forb R = some r →
    r.1 = ids.length ∧ SymExec.execIds tab ids src = some r.2.1 ∧ (∀ v, v ∈ r.2.2.1 ↔ ∃ s ∈ ids, vgetOf s = some v) ∧
      ReachInv depth tab ids src split ids.length r.2.2.2 := by
  intro ss
  induction ss with
  | nil =>
    intro n st forb R r hd hn hst hf hR h
    have hn' : n = ids.length := by
      have := congrArg List.length hd
      rw [length_drop, length_nil] at this
      omega
    subst hn'
    cases h
    rw [take_length] at hst hf
    exact ⟨rfl, hst, hf, hR⟩
  | cons s ss ih =>
    intro n st forb R r hd hn hst hf hR h
    have hlt : n < ids.length := by
      have := congrArg List.length hd
      rw [length_drop, length_cons] at this
      omega
    have hget : ids[n]? = some s := by
      have := congrArg (fun l => l[0]?) hd
      simpa using this
    have htake : ids.take (n + 1) = ids.take n ++ [s] := by rw [take_add_one, hget]; rfl
    unfold reachLoop at h
    split at h
    · cases h
    · rename_i st' hs
      have hst' : SymExec.execIds tab (ids.take (n + 1)) src = some st' := by
        rw [htake, execIds_append, hst, Option.bind_some, SymExec.execIds, hs]
        rfl
      have hf' : ∀ v, v ∈ (vgetOf s).toList ++ forb ↔ ∃ t ∈ ids.take (n + 1), vgetOf t = some v := by
        intro v
        rw [mem_append, hf, htake]
        simp only [mem_append, mem_singleton, Option.mem_toList, Option.mem_def]
        constructor
        · rintro (h | ⟨t, ht, he⟩)
          · exact ⟨s, .inr rfl, h⟩
          · exact ⟨t, .inl ht, he⟩
        · rintro ⟨t, ht | rfl, he⟩
          · exact .inr ⟨t, ht, he⟩
          · exact .inl he
      refine ih (n + 1) st' _ _ r ?_ hlt hst' hf' ?_ h
      · rw [← tail_drop, hd, tail_cons]
      · refine reachInv_step hlt ?_ ?_ hst' hf' ?_
        · intro v d m l hv
          obtain ⟨h1, h2, h3, h4, h5⟩ := hR.sound v d m l hv
          exact ⟨by omega, h2, h3, h4, fun m' a b => h5 m' a (by omega)⟩
        · intro v hv m' hm'
          exact hR.complete v hv m' (by omega)
        · rintro rfl
          simp

/-- **C32, positions.** For a block without split instruction: a variable is recorded exactly if there is a point of the schedule at
which it can be stored; the recorded point is the last one, the recorded position is a position of the variable on the stack at
that point and can be duplicated, and it is marked as reachable at the end exactly if the point is the end. -/
theorem reachability_exact (depth : Nat) (tab : List SymExec.UInstr) (ids src : List String) (R : Reach)
    (h : reachability depth tab ids src none = some R) (v : String) :
    (R v = none → ∀ n, ¬ CanStore depth tab ids src v n) ∧
    (∀ d n l, R v = some (d, n, l) → CanStore depth tab ids src v n ∧ (∀ n', CanStore depth tab ids src v n' → n' ≤ n) ∧
      (∃ st, SymExec.execIds tab (ids.take n) src = some st ∧ st[d]? = some v ∧ d < depth) ∧ (l = true ↔ n = ids.length)) := by
  unfold reachability at h
  obtain ⟨r, hr, he⟩ := Option.map_eq_some_iff.1 h
  simp only at he
  subst he
  have h0 : ReachInv depth tab ids src false 0 (updateReachable depth src 0 (ids.length == 0) [] (fun _ => none)) := by
    refine reachInv_step (Nat.zero_le _) (by simp) (fun _ _ _ h => by omega) rfl (by simp) ?_
    intro _
    rw [beq_iff_eq]; exact eq_comm
  obtain ⟨_, _, _, hi⟩ := reachLoop_spec ids 0 src [] _ r rfl (Nat.zero_le _) rfl (by simp) h0 hr
  constructor
  · intro hv n hc
    exact hi.complete v hv n hc.1 hc
  · intro d n l hv
    obtain ⟨h1, h2, h3, h4, h5⟩ := hi.sound v d n l hv
    refine ⟨h2, ?_, h3, h4 rfl⟩
    intro n' hc
    rcases Nat.lt_or_ge n n' with h | h
    · exact absurd hc (h5 n' h hc.1)
    · exact h

theorem runP_append (tab : List SymExec.UInstr) (p q : List PId) (st : List String) : runP tab (p ++ q) st = (runP tab p st).bind (runP tab q) := by
  induction p generalizing st with
  | nil => rfl
  | cons i p ih =>
    cases i with
    | id s =>
      rw [cons_append, runP, runP]
      cases SymExec.execId tab s st with
      | none => rfl
      | some st' => exact ih st'
    | dupSet v d =>
      rw [cons_append, runP, runP]
      split
      · exact ih st
      · rfl

theorem originals_append (p q : List PId) : originals (p ++ q) = originals p ++ originals q := by
  induction p with
  | nil => rfl
  | cons i p ih => cases i <;> simp [originals, ih]

/-- The invariant of insertions. -/
structure PInv (depth : Nat) (tab : List SymExec.UInstr) (ids src : List String) (fin : List String) (g : List PId × Reach) : Prop where
  orig : originals g.1 = ids
  final : runP tab g.1 src = some fin
  entries : ∀ v d n l, g.2 v = some (d, n, l) → n ≤ g.1.length ∧ (∃ st, runP tab (g.1.take n) src = some st ∧ st[d]? = some v ∧ d < depth) ∧
    ∀ s, PId.id s ∈ g.1.take n → vgetOf s ≠ some v
  stores : ∀ p v d q, g.1 = p ++ .dupSet v d :: q → (∃ st, runP tab p src = some st ∧ st[d]? = some v ∧ d < depth) ∧
    ∀ s, PId.id s ∈ p → vgetOf s ≠ some v

theorem insert_run {tab : List SymExec.UInstr} {p q : List PId} {src st : List String} {v : String} {d : Nat} (hp : runP tab p src = some st)
    (hd : d < st.length) : runP tab (p ++ .dupSet v d :: q) src = runP tab (p ++ q) src := by
  rw [runP_append, runP_append, hp, Option.bind_some, Option.bind_some, runP, if_pos hd]

theorem insert_inv {depth : Nat} {tab : List SymExec.UInstr} {ids src fin : List String} {g g' : List PId × Reach} {v : String}
    (hi : PInv depth tab ids src fin g) (h : insertDupVset v g = some g') : PInv depth tab ids src fin g' := by
  obtain ⟨⟨d, n, l⟩, hv, he⟩ := Option.map_eq_some_iff.1 h
  subst he
  obtain ⟨hn, ⟨st, hst, hd, hdep⟩, hget⟩ := hi.entries v d n l hv
  have hdl : d < st.length := (List.getElem?_eq_some_iff.1 hd).1
  -- taking `m` instructions of the new list
  have take_lt : ∀ m, m ≤ n → (g.1.take n ++ PId.dupSet v d :: g.1.drop n).take m = g.1.take m := by
    intro m hm
    rw [take_append_of_le_length (by rw [length_take]; omega), take_take, Nat.min_eq_left hm]
  have take_ge : ∀ m, n ≤ m → m ≤ g.1.length →
      (g.1.take n ++ PId.dupSet v d :: g.1.drop n).take (m + 1) = g.1.take n ++ PId.dupSet v d :: (g.1.drop n).take (m - n) := by
    intro m hm hm'
    have e : m + 1 = (g.1.take n).length + (m - n + 1) := by rw [length_take]; omega
    rw [e, take_length_add_append, take_succ_cons]
  have split_take : ∀ m, n ≤ m → g.1.take n ++ (g.1.drop n).take (m - n) = g.1.take m := by
    intro m hm
    rw [← drop_take]
    conv => rhs; rw [← take_append_drop n (g.1.take m)]
    rw [take_take, Nat.min_eq_left hm]
  refine ⟨?_, ?_, ?_, ?_⟩
  · simp only
    rw [originals_append, originals, ← originals_append, take_append_drop]
    exact hi.orig
  · simp only
    rw [insert_run hst hdl, take_append_drop]
    exact hi.final
  · intro u d' m l' hu
    simp only at hu
    obtain ⟨⟨d1, m1, l1⟩, hu1, hu2⟩ := Option.map_eq_some_iff.1 hu
    obtain ⟨hm, ⟨st', hst', hd'⟩, hg'⟩ := hi.entries u d1 m1 l1 hu1
    simp only at hu2 ⊢
    split at hu2
    · rename_i hge
      cases hu2
      refine ⟨by simp only [length_append, length_cons, length_take, length_drop]; omega, ⟨st', ?_, hd'⟩, ?_⟩
      · rw [take_ge m1 hge hm, insert_run hst hdl, split_take m1 hge]
        exact hst'
      · intro s hs
        rw [take_ge m1 hge hm] at hs
        apply hg' s
        rw [← split_take m1 hge]
        simpa using hs
    · rename_i hlt
      cases hu2
      refine ⟨by simp only [length_append, length_cons, length_take, length_drop]; omega, ⟨st', ?_, hd'⟩, ?_⟩
      · rw [take_lt m (by omega)]; exact hst'
      · intro s hs
        rw [take_lt m (by omega)] at hs
        exact hg' s hs
  · intro p u d' q he
    simp only at he
    rcases append_eq_append_iff.1 he.symm with ⟨r, h1, h2⟩ | ⟨r, h1, h2⟩
    · -- before the inserted instruction
      cases r with
      | nil =>
        simp only [nil_append, cons.injEq, PId.dupSet.injEq] at h2
        obtain ⟨⟨rfl, rfl⟩, rfl⟩ := h2
        rw [append_nil] at h1
        rw [← h1]
        exact ⟨⟨st, hst, hd, hdep⟩, hget⟩
      | cons x r =>
        rw [cons_append, cons.injEq] at h2
        obtain ⟨rfl, rfl⟩ := h2
        exact hi.stores p u d' (r ++ g.1.drop n) (by
          conv => lhs; rw [← take_append_drop n g.1, h1]
          simp)
    · cases r with
      | nil =>
        simp only [nil_append, cons.injEq, PId.dupSet.injEq] at h2
        obtain ⟨⟨rfl, rfl⟩, rfl⟩ := h2
        rw [append_nil] at h1
        rw [h1]
        exact ⟨⟨st, hst, hd, hdep⟩, hget⟩
      | cons x r =>
        rw [cons_append, cons.injEq] at h2
        obtain ⟨rfl, h2⟩ := h2
        obtain ⟨⟨st', hst', hd'⟩, hg'⟩ := hi.stores (g.1.take n ++ r) u d' q (by
          conv => lhs; rw [← take_append_drop n g.1, h2]
          simp)
        subst h1
        refine ⟨⟨st', ?_, hd'⟩, ?_⟩
        · rw [insert_run hst hdl]; exact hst'
        · intro s hs
          apply hg' s
          simpa using hs

theorem insertAll_inv {depth : Nat} {tab : List SymExec.UInstr} {ids src fin : List String} : ∀ (vs : List String) {g g' : List PId × Reach},
    PInv depth tab ids src fin g → insertAll vs g = some g' → PInv depth tab ids src fin g' := by
  intro vs
  induction vs with
  | nil => intro g g' hi h; cases h; exact hi
  | cons v vs ih =>
    intro g g' hi h
    obtain ⟨g1, h1, h2⟩ := Option.bind_eq_some_iff.1 h
    exact ih (insert_inv hi h1) h2

theorem runP_ids (tab : List SymExec.UInstr) (ids st : List String) : runP tab (ids.map .id) st = SymExec.execIds tab ids st := by
  induction ids generalizing st with
  | nil => rfl
  | cons s ids ih =>
    rw [map_cons, runP, SymExec.execIds]
    cases SymExec.execId tab s st with
    | none => rfl
    | some st' => exact ih st'

theorem originals_ids (ids : List String) : originals (ids.map .id) = ids := by
  induction ids with
  | nil => rfl
  | cons s ids ih => rw [map_cons, originals, ih]

theorem insertAll_total {depth : Nat} {tab : List SymExec.UInstr} {ids src fin : List String} : ∀ (vs : List String) (g : List PId × Reach),
    PInv depth tab ids src fin g → (∀ v ∈ vs, (g.2 v).isSome) → ∃ g', insertAll vs g = some g' := by
  intro vs
  induction vs with
  | nil => intro g _ _; exact ⟨g, rfl⟩
  | cons v vs ih =>
    intro g hi h
    obtain ⟨e, he⟩ := Option.isSome_iff_exists.1 (h v mem_cons_self)
    have h1 : insertDupVset v g = some (g.1.take e.2.1 ++ .dupSet v e.1 :: g.1.drop e.2.1,
      fun u => (g.2 u).map fun e' => if e'.2.1 ≥ e.2.1 then (e'.1, e'.2.1 + 1, e'.2.2) else e') := by unfold insertDupVset; rw [he]; rfl
    obtain ⟨g', hg'⟩ := ih _ (insert_inv hi h1) (by
      intro u hu
      simp only [Option.isSome_map]
      exact h u (mem_cons_of_mem _ hu))
    exact ⟨g', by rw [insertAll, h1]; exact hg'⟩

theorem dupSet_mem_insertAll {v : String} : ∀ (vs : List String) {g g' : List PId × Reach}, insertAll vs g = some g' →
    (v ∈ vs ∨ ∃ d, PId.dupSet v d ∈ g.1) → ∃ d, PId.dupSet v d ∈ g'.1 := by
  intro vs
  induction vs with
  | nil => intro g g' h hv; cases h; simpa using hv
  | cons u vs ih =>
    intro g g' h hv
    obtain ⟨g1, h1, h2⟩ := Option.bind_eq_some_iff.1 h
    refine ih h2 ?_
    obtain ⟨e, _, rfl⟩ := Option.map_eq_some_iff.1 h1
    rcases hv with hv | ⟨d, hd⟩
    · rcases mem_cons.1 hv with rfl | hv
      · exact .inr ⟨e.1, by simp⟩
      · exact .inl hv
    · refine .inr ⟨d, ?_⟩
      rw [← take_append_drop e.2.1 g.1, mem_append] at hd
      simp only [mem_append, mem_cons]
      exact hd.imp id .inr

/-- **C32, insertions (partial: blocks that end with a function call are missing, see `store_before_call`).** For a block without split instruction whose schedule runs, and any variables recorded as reachable: inserting
their stores one after another succeeds; the original instructions are the same in the same order; the schedule computes the same
final stack; every variable has a store; every store duplicates, from a position that can be duplicated, its variable, at a
point before all loads of the variable; and the recorded positions still describe the stack. -/
theorem insertions_consistent_partial (depth : Nat) (tab : List SymExec.UInstr) (ids src : List String) (R : Reach)
    (h : reachability depth tab ids src none = some R) (vs : List String) (hvs : ∀ v ∈ vs, (R v).isSome) :
    ∃ g fin, insertAll vs (ids.map .id, R) = some g ∧ originals g.1 = ids ∧ SymExec.execIds tab ids src = some fin ∧ runP tab g.1 src = some fin ∧
      (∀ v ∈ vs, ∃ d, PId.dupSet v d ∈ g.1) ∧
      (∀ p v d q, g.1 = p ++ .dupSet v d :: q → (∃ st, runP tab p src = some st ∧ st[d]? = some v ∧ d < depth) ∧ ∀ s, PId.id s ∈ p → vgetOf s ≠ some v) ∧
      (∀ v d n l, g.2 v = some (d, n, l) → ∃ st, runP tab (g.1.take n) src = some st ∧ st[d]? = some v ∧ d < depth) := by
  have hrun : ∃ fin, SymExec.execIds tab ids src = some fin := by
    unfold reachability at h
    obtain ⟨r, hr, _⟩ := Option.map_eq_some_iff.1 h
    have h0 : ReachInv depth tab ids src false 0 (updateReachable depth src 0 (ids.length == 0) [] (fun _ => none)) := by
      refine reachInv_step (Nat.zero_le _) (by simp) (fun _ _ _ h => by omega) rfl (by simp) ?_
      intro _
      rw [beq_iff_eq]; exact eq_comm
    obtain ⟨_, hf, _⟩ := reachLoop_spec ids 0 src [] _ r rfl (Nat.zero_le _) rfl (by simp) h0 hr
    exact ⟨_, hf⟩
  obtain ⟨fin, hfin⟩ := hrun
  have hi : PInv depth tab ids src fin (ids.map .id, R) := by
    refine ⟨originals_ids ids, by rw [runP_ids]; exact hfin, ?_, ?_⟩
    · intro v d n l hv
      obtain ⟨h1, _, ⟨st, hst, h3⟩, _⟩ := (reachability_exact depth tab ids src R h v).2 d n l hv
      refine ⟨by simpa using h1.1, ⟨st, ?_, h3⟩, ?_⟩
      · simp only
        rw [← map_take, runP_ids]
        exact hst
      · intro s hs
        simp only [← map_take, mem_map, PId.id.injEq, exists_eq_right] at hs
        exact h1.2.1 s hs
    · intro p v d q he
      have : PId.dupSet v d ∈ ids.map PId.id := by
        simp only at he
        rw [he]; simp
      obtain ⟨_, _, e⟩ := mem_map.1 this
      cases e
  obtain ⟨g, hg⟩ := insertAll_total vs _ hi hvs
  have hi' := insertAll_inv vs hi hg
  exact ⟨g, fin, hg, hi'.orig, hfin, hi'.final, fun v hv => dupSet_mem_insertAll vs hg (.inl hv), hi'.stores,
    fun v d n l hv => (hi'.entries v d n l hv).2.1⟩

/-! #### Counting -/

/-- A load of `v` at position `i` that no `VSET` of `v` precedes in the block. -/
def PendingLoad (ids : List String) (v : String) (i : Nat) : Bool :=
  ((ids[i]?).bind vgetOf == some v) && (ids.take i).all fun s => vsetOf s != some v

theorem vget_vset {s v : String} (h : vgetOf s = some v) : vsetOf s = none := by
  unfold vgetOf at h
  unfold vsetOf
  split at h
  · rename_i hp
    rw [if_neg]
    intro hq
    rw [isPrefixOf_iff_prefix] at hp hq
    obtain ⟨t, ht⟩ := hp
    obtain ⟨t', ht'⟩ := hq
    rw [← ht] at ht'
    simp at ht'
  · cases h

theorem getCountLoop_spec (v : String) : ∀ (rest pre : List String) (acc : List String) (cnt : String → Nat) (dom : Nat) (has : Bool),
    (∀ u, u ∈ acc ↔ ∃ s ∈ pre, vsetOf s = some u) →
    (getCountLoop rest acc cnt dom has).1 v
      = cnt v + ((List.range rest.length).filter fun i => PendingLoad (pre ++ rest) v (pre.length + i)).length := by
  intro rest
  induction rest with
  | nil => intro pre acc cnt dom has _; simp [getCountLoop]
  | cons s rest ih =>
    intro pre acc cnt dom has hacc
    have hsplit : ((List.range (s :: rest).length).filter fun i => PendingLoad (pre ++ s :: rest) v (pre.length + i)).length
        = (if PendingLoad (pre ++ s :: rest) v pre.length then 1 else 0)
          + ((List.range rest.length).filter fun i => PendingLoad ((pre ++ [s]) ++ rest) v ((pre ++ [s]).length + i)).length := by
      rw [length_cons, range_succ_eq_map, filter_cons, filter_map, Nat.add_zero]
      have : ((fun i => PendingLoad (pre ++ s :: rest) v (pre.length + i)) ∘ Nat.succ)
          = fun i => PendingLoad ((pre ++ [s]) ++ rest) v ((pre ++ [s]).length + i) := by
        funext i
        simp only [Function.comp_def]
        rw [append_assoc, singleton_append, length_append, length_singleton]
        congr 1
        omega
      rw [this]
      split
      · rw [length_cons, length_map]; omega
      · rw [length_map]; omega
    have hpend : PendingLoad (pre ++ s :: rest) v pre.length = true ↔ vgetOf s = some v ∧ v ∉ acc := by
      unfold PendingLoad
      rw [take_left', Bool.and_eq_true, all_eq_true, hacc]
      · simp
      · rfl
    have hacc1 : ∀ (acc' : List String), (∀ u, u ∈ acc' ↔ u ∈ acc ∨ vsetOf s = some u) → ∀ u, u ∈ acc' ↔ ∃ t ∈ pre ++ [s], vsetOf t = some u := by
      intro acc' h u
      rw [h, hacc]
      constructor
      · rintro (⟨t, ht, he⟩ | he)
        · exact ⟨t, mem_append_left _ ht, he⟩
        · exact ⟨s, by simp, he⟩
      · rintro ⟨t, ht, he⟩
        rcases mem_append.1 ht with ht | ht
        · exact .inl ⟨t, ht, he⟩
        · rw [mem_singleton] at ht; subst ht; exact .inr he
    rw [hsplit]
    unfold getCountLoop
    cases hg : vgetOf s with
    | some u =>
      have hs := vget_vset hg
      have hacc' := hacc1 acc (fun w => by rw [hs]; simp)
      simp only
      by_cases hu : u ∈ acc
      · rw [if_pos hu, ih _ _ _ _ _ hacc', if_neg]
        · omega
        · rw [hpend, hg]
          rintro ⟨he, hn⟩
          cases he
          exact hn hu
      · rw [if_neg hu, ih _ _ _ _ _ hacc']
        by_cases huv : v = u
        · subst huv
          rw [if_pos rfl, if_pos (hpend.2 ⟨hg, hu⟩)]
          omega
        · rw [if_neg huv, if_neg]
          · omega
          · rw [hpend, hg]
            rintro ⟨he, _⟩
            cases he
            exact huv rfl
    | none =>
      have hno : ¬ PendingLoad (pre ++ s :: rest) v pre.length = true := by
        rw [hpend, hg]
        simp
      rw [if_neg hno]
      cases hs : vsetOf s with
      | some u =>
        simp only
        rw [ih _ _ _ _ _ (hacc1 (u :: acc) (fun w => by rw [hs, mem_cons]; simp only [Option.some.injEq]; rw [or_comm, eq_comm]))]
        omega
      | none =>
        simp only
        rw [ih _ _ _ _ _ (hacc1 acc (fun w => by rw [hs]; simp))]
        omega

/-- **C32, counts.** The counter of a block has for each variable the number of its loads in the schedule that are not preceded, in the
block, by a `VSET` of the variable. -/
theorem getCount_exact (ids : List String) (v : String) : (initialGetCount ids).1 v = ((List.range ids.length).filter (PendingLoad ids v)).length := by
  unfold initialGetCount
  rw [getCountLoop_spec v ids [] [] _ _ _ (by simp)]
  simp

/-- A load at position `i` of a value that has been stored before in the block. -/
def OwnLoad (ids : List String) (i : Nat) : Bool :=
  match (ids[i]?).bind vgetOf with
  | some v => (ids.take i).any fun s => vsetOf s == some v
  | none => false

theorem getCountLoop_own : ∀ (rest pre : List String) (acc : List String) (cnt : String → Nat) (dom : Nat) (has : Bool),
    (∀ u, u ∈ acc ↔ ∃ s ∈ pre, vsetOf s = some u) →
    (getCountLoop rest acc cnt dom has).2.1
      = dom + ((List.range rest.length).filter fun i => OwnLoad (pre ++ rest) (pre.length + i)).length ∧
    (getCountLoop rest acc cnt dom has).2.2 = (has || rest.any fun s => (vgetOf s).isSome) := by
  intro rest
  induction rest with
  | nil => intro pre acc cnt dom has _; simp [getCountLoop]
  | cons s rest ih =>
    intro pre acc cnt dom has hacc
    have hsplit : ((List.range (s :: rest).length).filter fun i => OwnLoad (pre ++ s :: rest) (pre.length + i)).length
        = (if OwnLoad (pre ++ s :: rest) pre.length then 1 else 0)
          + ((List.range rest.length).filter fun i => OwnLoad ((pre ++ [s]) ++ rest) ((pre ++ [s]).length + i)).length := by
      rw [length_cons, range_succ_eq_map, filter_cons, filter_map, Nat.add_zero]
      have : ((fun i => OwnLoad (pre ++ s :: rest) (pre.length + i)) ∘ Nat.succ)
          = fun i => OwnLoad ((pre ++ [s]) ++ rest) ((pre ++ [s]).length + i) := by
        funext i
        simp only [Function.comp_def]
        rw [append_assoc, singleton_append, length_append, length_singleton]
        congr 1
        omega
      rw [this]
      split
      · rw [length_cons, length_map]; omega
      · rw [length_map]; omega
    have hown : OwnLoad (pre ++ s :: rest) pre.length = true ↔ ∃ v, vgetOf s = some v ∧ v ∈ acc := by
      unfold OwnLoad
      rw [take_left' rfl, getElem?_append_right (by omega), Nat.sub_self, getElem?_cons_zero, Option.bind_some]
      cases hg : vgetOf s with
      | none => simp
      | some v => simp [hacc]
    have hacc1 : ∀ (acc' : List String), (∀ u, u ∈ acc' ↔ u ∈ acc ∨ vsetOf s = some u) → ∀ u, u ∈ acc' ↔ ∃ t ∈ pre ++ [s], vsetOf t = some u := by
      intro acc' h u
      rw [h, hacc]
      constructor
      · rintro (⟨t, ht, he⟩ | he)
        · exact ⟨t, mem_append_left _ ht, he⟩
        · exact ⟨s, by simp, he⟩
      · rintro ⟨t, ht, he⟩
        rcases mem_append.1 ht with ht | ht
        · exact .inl ⟨t, ht, he⟩
        · rw [mem_singleton] at ht; subst ht; exact .inr he
    rw [hsplit]
    unfold getCountLoop
    cases hg : vgetOf s with
    | some u =>
      have hs := vget_vset hg
      have hacc' := hacc1 acc (fun w => by rw [hs]; simp)
      simp only
      by_cases hu : u ∈ acc
      · obtain ⟨i1, i2⟩ := ih _ _ cnt (dom + 1) true hacc'
        rw [if_pos hu, i1, i2, if_pos (hown.2 ⟨u, hg, hu⟩)]
        exact ⟨by omega, by simp [hg]⟩
      · obtain ⟨i1, i2⟩ := ih _ _ (fun w => if w = u then cnt w + 1 else cnt w) dom true hacc'
        rw [if_neg hu, i1, i2, if_neg]
        · exact ⟨by omega, by simp [hg]⟩
        · rw [hown, hg]
          rintro ⟨v, he, hv⟩
          cases he
          exact hu hv
    | none =>
      have hno : ¬ OwnLoad (pre ++ s :: rest) pre.length = true := by
        rw [hown, hg]; simp
      rw [if_neg hno]
      cases hs : vsetOf s with
      | some u =>
        simp only
        obtain ⟨i1, i2⟩ := ih _ _ cnt dom has
          (hacc1 (u :: acc) (fun w => by rw [hs, mem_cons]; simp only [Option.some.injEq]; rw [or_comm, eq_comm]))
        rw [i1, i2]
        exact ⟨by omega, by simp [hg]⟩
      | none =>
        simp only
        obtain ⟨i1, i2⟩ := ih _ _ cnt dom has (hacc1 acc (fun w => by rw [hs]; simp))
        rw [i1, i2]
        exact ⟨by omega, by simp [hg]⟩

/-- **C32, counts.** The second number counts the loads of values stored before in the block itself, and the flag says whether the
schedule loads anything. -/
theorem getCount_own_exact (ids : List String) :
    (initialGetCount ids).2.1 = ((List.range ids.length).filter (OwnLoad ids)).length ∧
    ((initialGetCount ids).2.2 = true ↔ ∃ s ∈ ids, (vgetOf s).isSome) := by
  unfold initialGetCount
  obtain ⟨h1, h2⟩ := getCountLoop_own ids [] [] (fun _ => 0) 0 false (by simp)
  rw [h1, h2]
  refine ⟨by simp, ?_⟩
  rw [Bool.false_or, any_eq_true]

/-! ### The theorems apply, and what fails -/

def exTab : List SymExec.UInstr := [⟨"ADD_0", ["a", "b"], ["s0"], true, false, "ADD"⟩, ⟨"NOT_0", ["s0"], ["s1"], false, false, "NOT"⟩]

example : (reachability 16 exTab ["ADD_0", "VGET(c)", "SWAP1", "NOT_0", "POP"] ["a", "b", "c"] none).map
    (fun R => [R "a", R "b", R "c", R "s0", R "s1"]) = some [some (0, 0, false), some (1, 0, false), some (1, 1, false), some (0, 3, false), some (0, 4, false)] := by
  decide +kernel

example : (reachability 16 exTab ["ADD_0", "VGET(c)", "SWAP1", "NOT_0", "POP"] ["a", "b", "c"] none).bind
    (fun R => (insertAll ["s0", "c", "a"] (["ADD_0", "VGET(c)", "SWAP1", "NOT_0", "POP"].map .id, R)).map (·.1))
    = some [.dupSet "a" 0, .id "ADD_0", .dupSet "c" 1, .id "VGET(c)", .id "SWAP1", .dupSet "s0" 0, .id "NOT_0", .id "POP"] := by
  decide +kernel

example : (initialGetCount ["VGET(x)", "VSET(y)", "VGET(y)", "VGET(x)"]).1 "x" = 2 ∧ (initialGetCount ["VGET(x)", "VSET(y)", "VGET(y)", "VGET(x)"]).1 "y" = 0 := by
  decide +kernel

example : (initialGetCount ["VGET(x)", "VSET(y)", "VGET(y)", "VGET(x)"]).2 = (1, true) ∧ (initialGetCount ["VSET(y)"]).2 = (0, false) := by
  decide +kernel

/-- **C32 fails with a split instruction.** The block ends with a call of a function with argument `a` and result `r`. The result is recorded
as reachable after two instructions, but there is only one: the store is inserted before the call, where it duplicates another value. -/
theorem store_before_call :
    (reachability 16 [] ["SWAP1"] ["b", "a"] (some (["a"], ["r"]))).bind (fun R => (insertAll ["r"] (["SWAP1"].map .id, R)).map (·.1))
      = some [.id "SWAP1", .dupSet "r" 0] ∧ runP [] [.id "SWAP1"] ["b", "a"] = some ["a", "b"] := by decide +kernel

end Grey.Repair
