/-
Depth-first search on finite graphs: a generic model of the recursive searches of the code base, with its
correctness. The models of the individual searches instantiate `dfs`.
-/
import Mathlib.Logic.Relation
import Mathlib.Data.List.Basic
namespace Grey.Graph

variable {α : Type} [DecidableEq α]

/-- `def dfs(node): if node in visited: return; visited.add(node); for n in succ(node): dfs(n)`
(the shape of src/parser/utils_parser.py:227-235). The set `visited` is threaded as a list; the fuel bounds the
recursion depth. -/
def dfs (succ : α → List α) : Nat → List α → α → List α
  | 0, vis, _ => vis
  | f + 1, vis, n => if n ∈ vis then vis else (succ n).foldl (dfs succ f) (n :: vis)

/-- `for r in roots: dfs(r)`. -/
def dfsAll (succ : α → List α) (fuel : Nat) (roots : List α) (vis : List α) : List α :=
  roots.foldl (dfs succ fuel) vis

/-- Reachability along `succ`. -/
def Reach (succ : α → List α) : α → α → Prop := Relation.ReflTransGen fun a b => b ∈ succ a

/-- Nodes of the universe not yet visited. -/
def left (U vis : List α) : Nat := (U.filter fun x => decide (x ∉ vis)).length

omit [DecidableEq α] in
theorem filter_length_le_of_imp {p q : α → Bool} (l : List α) (h : ∀ x, p x = true → q x = true) :
    (l.filter p).length ≤ (l.filter q).length := by
  induction l with
  | nil => simp
  | cons a l ih =>
    by_cases hp : p a = true
    · simp [hp, h a hp, ih]
    · by_cases hq : q a = true
      · simp [hp, hq]; omega
      · simp [hp, hq, ih]

theorem left_mono {U vis vis' : List α} (h : ∀ x ∈ vis, x ∈ vis') : left U vis' ≤ left U vis := by
  unfold left
  apply filter_length_le_of_imp
  intro x hx
  simp only [decide_eq_true_eq] at hx ⊢
  exact fun hm => hx (h x hm)

theorem left_cons_lt {U vis : List α} {n : α} (hU : n ∈ U) (hn : n ∉ vis) : left U (n :: vis) < left U vis := by
  unfold left
  induction U with
  | nil => simp at hU
  | cons a U ih =>
    have hle : (U.filter fun x => decide (x ∉ n :: vis)).length ≤ (U.filter fun x => decide (x ∉ vis)).length :=
      left_mono (U := U) (vis := vis) (vis' := n :: vis) (fun x hx => List.mem_cons_of_mem _ hx)
    by_cases ha : a = n
    · subst ha
      simp [hn]
      exact Nat.lt_succ_of_le (by simpa using hle)
    · have hU' : n ∈ U := by
        rcases List.mem_cons.1 hU with h | h
        · exact absurd h.symm ha
        · exact h
      have := ih hU'
      by_cases hv : a ∈ vis
      · simp only [List.filter_cons, List.mem_cons, hv, or_true, not_true_eq_false, decide_false]
        simpa using this
      · simp only [List.filter_cons, List.mem_cons, hv, or_false, not_false_eq_true, decide_true, ha]
        simpa using this

/-- What a search adds: it keeps what was visited, adds only reachable nodes, and closes everything it adds. -/
structure Searched (succ : α → List α) (start : List α) (vis R : List α) : Prop where
  keep : ∀ x ∈ vis, x ∈ R
  root : ∀ x ∈ start, x ∈ R
  sound : ∀ x ∈ R, x ∈ vis ∨ ∃ s ∈ start, Reach succ s x
  closed : ∀ x ∈ R, x ∉ vis → ∀ y ∈ succ x, y ∈ R

theorem searched_foldl {succ : α → List α} {U : List α} {f : Nat}
    (hdfs : ∀ vis n, n ∈ U → left U vis < f → Searched succ [n] vis (dfs succ f vis n)) :
    ∀ (start : List α) (vis : List α), (∀ x ∈ start, x ∈ U) → left U vis < f →
      Searched succ start vis (start.foldl (dfs succ f) vis) := by
  intro start
  induction start with
  | nil => intro vis _ _; exact ⟨fun x h => h, by simp, fun x h => Or.inl h, fun x h hn => absurd h hn⟩
  | cons n start ih =>
    intro vis hU hf
    have h1 := hdfs vis n (hU n (by simp)) hf
    have h2 := ih (dfs succ f vis n) (fun x hx => hU x (by simp [hx])) (Nat.lt_of_le_of_lt (left_mono h1.keep) hf)
    rw [List.foldl_cons]
    refine ⟨fun x hx => h2.keep x (h1.keep x hx), ?_, ?_, ?_⟩
    · intro x hx
      rcases List.mem_cons.1 hx with rfl | hx
      · exact h2.keep _ (h1.root _ (by simp))
      · exact h2.root x hx
    · intro x hx
      rcases h2.sound x hx with h | ⟨s, hs, hr⟩
      · rcases h1.sound x h with h | ⟨s, hs, hr⟩
        · exact Or.inl h
        · exact Or.inr ⟨s, by simp at hs; simp [hs], hr⟩
      · exact Or.inr ⟨s, by simp [hs], hr⟩
    · intro x hx hn y hy
      by_cases h : x ∈ dfs succ f vis n
      · exact h2.keep _ (h1.closed x h hn y hy)
      · exact h2.closed x hx h y hy

theorem dfs_searched {succ : α → List α} {U : List α} (hU : ∀ x ∈ U, ∀ y ∈ succ x, y ∈ U) :
    ∀ (f : Nat) (vis : List α) (n : α), n ∈ U → left U vis < f → Searched succ [n] vis (dfs succ f vis n) := by
  intro f
  induction f with
  | zero => intro vis n _ h; omega
  | succ f ih =>
    intro vis n hn hf
    rw [dfs]
    split
    · rename_i hm
      exact ⟨fun x h => h, by simpa using hm, fun x h => Or.inl h, fun x h hx => absurd h hx⟩
    · rename_i hm
      have hlt := left_cons_lt hn hm
      have h := searched_foldl (U := U) ih (succ n) (n :: vis) (hU n hn) (by omega)
      refine ⟨fun x hx => h.keep x (by simp [hx]), ?_, ?_, ?_⟩
      · simpa using h.keep n (by simp)
      · intro x hx
        rcases h.sound x hx with hx | ⟨s, hs, hr⟩
        · rcases List.mem_cons.1 hx with rfl | hx
          · exact Or.inr ⟨x, by simp, Relation.ReflTransGen.refl⟩
          · exact Or.inl hx
        · exact Or.inr ⟨n, by simp, Relation.ReflTransGen.head hs hr⟩
      · intro x hx hnx y hy
        by_cases hxn : x = n
        · subst hxn; exact h.root y hy
        · exact h.closed x hx (by simp [hxn, hnx]) y hy

/-- From an empty visited set a search with enough fuel computes exactly the nodes reachable from its roots. -/
theorem dfsAll_exact {succ : α → List α} {U : List α} (hU : ∀ x ∈ U, ∀ y ∈ succ x, y ∈ U) {roots : List α}
    (hr : ∀ x ∈ roots, x ∈ U) {fuel : Nat} (hf : U.length < fuel) (x : α) :
    x ∈ dfsAll succ fuel roots [] ↔ ∃ r ∈ roots, Reach succ r x := by
  have hl : left U [] < fuel := by unfold left; exact Nat.lt_of_le_of_lt (List.length_filter_le _ _) hf
  have h := searched_foldl (U := U) (dfs_searched hU fuel) roots [] hr hl
  constructor
  · intro hx
    rcases h.sound x hx with h | h
    · simp at h
    · exact h
  · rintro ⟨r, hr', hreach⟩
    induction hreach with
    | refl => exact h.root r hr'
    | tail _ hy ih => exact h.closed _ ih (by simp) _ hy

end Grey.Graph
