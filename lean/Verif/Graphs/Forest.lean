/-
The loop nesting forest (src/graphs/cfg.py:49-82): C77.
-/
import Verif.Graphs.Loops
import Mathlib.Data.List.Sort
namespace Grey.Graphs
open List

/-! ### Model -/

/-- The loops with their headers (src/graphs/cfg.py:53-57). `none`: a natural loop needs more iterations than given. -/
def loopsOf (pred : String → List String) (fuel : Nat) : List (String × String) → Option (List (String × List String))
  | [] => some []
  | (u, v) :: back => (naturalLoop pred fuel u v).bind fun L => (loopsOf pred fuel back).map fun r => (v, L) :: r

/-- An assignment to a dictionary. -/
def setDict (d : List (String × List String)) (l : String × List String) : List (String × List String) :=
  if l.1 ∈ d.map Prod.fst then d.map fun e => if e.1 = l.1 then l else e else d ++ [l]

/-- `loop_bodies` (src/graphs/cfg.py:59-62): the loops from the smallest to the largest; a later loop replaces an earlier one with the same
header. -/
def loopBodies (loops : List (String × List String)) : List (String × List String) :=
  (loops.insertionSort fun a b => a.2.length ≤ b.2.length).foldl setDict []

/-- The inner loop (src/graphs/cfg.py:72-80): `already_analyzed` and the edges. -/
def attach (h : String) : List String → List String × List (String × String) → List String × List (String × String)
  | [], s => s
  | c :: cs, s => if c = h ∨ c ∈ s.1 then attach h cs s else attach h cs (c :: s.1, s.2 ++ [(h, c)])

/-- The outer loop (src/graphs/cfg.py:69-71). -/
def attachAll : List (String × List String) → List String × List (String × String) → List String × List (String × String)
  | [], s => s
  | (h, body) :: r, s => attachAll r (attach h body s)

/-- A graph: its nodes and edges. -/
structure LoopForest where
  nodes : List String
  edges : List (String × String)
  deriving DecidableEq, Repr

/-- The graph of the bodies (src/graphs/cfg.py:65-82); `add_edge` adds the nodes that are missing. -/
def forestOf (bodies : List (String × List String)) : LoopForest :=
  ⟨bodies.map Prod.fst ++ ((attachAll bodies ([], [])).2.map Prod.snd).filter (fun c => decide (c ∉ bodies.map Prod.fst)), (attachAll bodies ([], [])).2⟩

/-- `compute_loop_nesting_forest_graph` (src/graphs/cfg.py:49-82). -/
def nestingForest (nodes : List String) (succ pred : String → List String) (fuel : Nat) : Option LoopForest :=
  (findBackEdges nodes succ).bind fun back => (loopsOf pred fuel back).map fun loops => forestOf (loopBodies loops)

/-! ### Specification -/

/-- `L` is the natural loop of the edge from `u` to `h`: `h` and the nodes from which `u` can be reached without going through `h`. -/
def IsLoop (pred : String → List String) (u h : String) (L : List String) : Prop :=
  L.Nodup ∧ ∀ x, x ∈ L ↔ x = h ∨ PathAvoiding (fun a b => a ∈ pred b) h u x

/-- The first loop of the list that contains `c`, other than as its header, is that of `h`. -/
def FirstWith (bodies : List (String × List String)) (h c : String) : Prop :=
  ∃ pre body post, bodies = pre ++ (h, body) :: post ∧ c ∈ body ∧ c ≠ h ∧ ∀ g ∈ pre, c ∈ g.2 → c = g.1

/-! ### Proofs -/

theorem loopFrom_nodup {pred : String → List String} : ∀ (f : Nat) (work nodes L : List String), nodes.Nodup →
    loopFrom pred f work nodes = some L → L.Nodup := by
  intro f
  induction f with
  | zero =>
    intro work nodes L hn h
    cases work with
    | nil => simp only [loopFrom, Option.some.injEq] at h; rw [← h]; exact hn
    | cons _ _ => simp [loopFrom] at h
  | succ f ih =>
    intro work nodes L hn h
    cases work with
    | nil => simp only [loopFrom, Option.some.injEq] at h; rw [← h]; exact hn
    | cons n work =>
      unfold loopFrom at h
      split at h
      · exact ih _ _ _ hn h
      · rename_i hm; exact ih _ _ _ (nodup_cons.2 ⟨hm, hn⟩) h

/-- The loops of the back edges, one for each. -/
theorem loopsOf_spec {pred : String → List String} {nodes : List String} (hclosed : ∀ x ∈ nodes, ∀ y ∈ pred x, y ∈ nodes) :
    ∀ (back : List (String × String)), (∀ p ∈ back, p.1 ∈ nodes) →
    ∃ n loops, (∀ fuel, n ≤ fuel → loopsOf pred fuel back = some loops) ∧
      (∀ h L, (h, L) ∈ loops → ∃ u, (u, h) ∈ back ∧ IsLoop pred u h L) ∧
      (∀ u h, (u, h) ∈ back → ∃ L, (h, L) ∈ loops ∧ IsLoop pred u h L) := by
  intro back
  induction back with
  | nil => intro _; exact ⟨0, [], fun _ _ => rfl, by simp, by simp⟩
  | cons p back ih =>
    intro hb
    obtain ⟨u, v⟩ := p
    obtain ⟨n, loops, h1, h2, h3⟩ := ih fun p hp => hb p (mem_cons_of_mem _ hp)
    obtain ⟨n', L, g1, g2⟩ := natural_loop_exact pred nodes hclosed u v (hb (u, v) (by simp))
    have hL : IsLoop pred u v L := ⟨loopFrom_nodup n' [u] [v] L (by simp) (g1 n' (Nat.le_refl _)), g2⟩
    refine ⟨max n n', (v, L) :: loops, fun fuel hf => ?_, ?_, ?_⟩
    · unfold loopsOf
      rw [g1 fuel (by omega), Option.bind_some, h1 fuel (by omega)]; rfl
    · intro h M hm
      rcases mem_cons.1 hm with e | hm
      · cases e; exact ⟨u, by simp, hL⟩
      · obtain ⟨w, hw, hl⟩ := h2 h M hm
        exact ⟨w, mem_cons_of_mem _ hw, hl⟩
    · intro w h hm
      rcases mem_cons.1 hm with e | hm
      · cases e; exact ⟨L, by simp, hL⟩
      · obtain ⟨M, hM, hl⟩ := h3 w h hm
        exact ⟨M, mem_cons_of_mem _ hM, hl⟩

theorem setDict_keys (d : List (String × List String)) (l : String × List String) (hd : (d.map Prod.fst).Nodup) :
    ((setDict d l).map Prod.fst).Nodup ∧ ∀ h, h ∈ (setDict d l).map Prod.fst ↔ h ∈ d.map Prod.fst ∨ h = l.1 := by
  unfold setDict
  split
  · rename_i hm
    have he : (d.map fun e => if e.1 = l.1 then l else e).map Prod.fst = d.map Prod.fst := by
      rw [map_map]
      refine map_congr_left fun e _ => ?_
      simp only [Function.comp]
      split
      · rename_i h; exact h.symm
      · rfl
    rw [he]
    refine ⟨hd, fun h => ⟨Or.inl, ?_⟩⟩
    rintro (h | rfl)
    · exact h
    · exact hm
  · rename_i hm
    rw [map_append]
    refine ⟨nodup_append.2 ⟨hd, by simp, ?_⟩, by simp⟩
    intro a ha b hb
    simp only [map_cons, map_nil, mem_singleton] at hb
    rintro rfl
    exact hm (hb ▸ ha)

theorem setDict_mem (d : List (String × List String)) (l e : String × List String) :
    e ∈ setDict d l → (e ∈ d ∧ e.1 ≠ l.1) ∨ e = l := by
  unfold setDict
  split
  · intro h
    obtain ⟨x, hx, he⟩ := mem_map.1 h
    split at he
    · exact Or.inr he.symm
    · rename_i hn; subst he; exact Or.inl ⟨hx, hn⟩
  · rename_i hm
    intro h
    rcases mem_append.1 h with h | h
    · exact Or.inl ⟨h, fun e' => hm (e' ▸ mem_map_of_mem h)⟩
    · exact Or.inr (mem_singleton.1 h)

/-- A dictionary filled from a sorted list keeps the largest loop of every header. -/
theorem foldl_setDict (rest done d : List (String × List String)) (hs : (done ++ rest).Pairwise fun a b => a.2.length ≤ b.2.length)
    (hk : (d.map Prod.fst).Nodup) (hkeys : ∀ h, h ∈ d.map Prod.fst ↔ h ∈ done.map Prod.fst)
    (hm : ∀ e ∈ d, e ∈ done ∧ ∀ e' ∈ done, e'.1 = e.1 → e'.2.length ≤ e.2.length) :
    ((rest.foldl setDict d).map Prod.fst).Nodup ∧ (∀ h, h ∈ (rest.foldl setDict d).map Prod.fst ↔ h ∈ (done ++ rest).map Prod.fst) ∧
      ∀ e ∈ rest.foldl setDict d, e ∈ done ++ rest ∧ ∀ e' ∈ done ++ rest, e'.1 = e.1 → e'.2.length ≤ e.2.length := by
  induction rest generalizing done d with
  | nil => rw [foldl_nil, append_nil]; exact ⟨hk, hkeys, hm⟩
  | cons l rest ih =>
    rw [foldl_cons]
    have he : done ++ l :: rest = (done ++ [l]) ++ rest := by simp
    rw [he] at hs ⊢
    obtain ⟨k1, k2⟩ := setDict_keys d l hk
    refine ih (done ++ [l]) (setDict d l) hs k1 ?_ ?_
    · intro h
      rw [k2, hkeys]
      simp
    · intro e he
      have hlast : ∀ e' ∈ done, e'.2.length ≤ l.2.length := by
        intro e' he'
        have := (pairwise_append.1 (pairwise_append.1 hs).1).2.2 e' he' l (by simp)
        exact this
      rcases setDict_mem d l e he with ⟨h1, h2⟩ | rfl
      · obtain ⟨g1, g2⟩ := hm e h1
        refine ⟨mem_append_left _ g1, fun e' he' hh => ?_⟩
        rcases mem_append.1 he' with h | h
        · exact g2 e' h hh
        · rw [mem_singleton.1 h] at hh; exact absurd hh.symm h2
      · refine ⟨by simp, fun e' he' _ => ?_⟩
        rcases mem_append.1 he' with h | h
        · exact hlast e' h
        · rw [mem_singleton.1 h]

theorem loopBodies_spec (loops : List (String × List String)) :
    ((loopBodies loops).map Prod.fst).Nodup ∧ (∀ h, h ∈ (loopBodies loops).map Prod.fst ↔ h ∈ loops.map Prod.fst) ∧
      ∀ e ∈ loopBodies loops, e ∈ loops ∧ ∀ e' ∈ loops, e'.1 = e.1 → e'.2.length ≤ e.2.length := by
  have hp := perm_insertionSort (fun a b : String × List String => a.2.length ≤ b.2.length) loops
  have hs : (loops.insertionSort fun a b => a.2.length ≤ b.2.length).Pairwise fun a b => a.2.length ≤ b.2.length :=
    haveI : Std.Total (fun a b : String × List String => a.2.length ≤ b.2.length) := ⟨fun a b => Nat.le_total _ _⟩
    haveI : IsTrans (String × List String) (fun a b => a.2.length ≤ b.2.length) := ⟨fun a b c h1 h2 => Nat.le_trans h1 h2⟩
    pairwise_insertionSort _ loops
  obtain ⟨h1, h2, h3⟩ := foldl_setDict (loops.insertionSort fun a b => a.2.length ≤ b.2.length) [] [] (by simpa using hs) (by simp) (by simp) (by simp)
  rw [nil_append] at h2 h3
  refine ⟨h1, fun h => (h2 h).trans (hp.map Prod.fst).mem_iff, fun e he => ?_⟩
  obtain ⟨g1, g2⟩ := h3 e he
  exact ⟨hp.mem_iff.1 g1, fun e' he' => g2 e' (hp.mem_iff.2 he')⟩

theorem attach_spec (h : String) (body : List String) (s : List String × List (String × String)) :
    (∀ c, c ∈ (attach h body s).1 ↔ c ∈ s.1 ∨ (c ∈ body ∧ c ≠ h)) ∧
    (∀ g c, (g, c) ∈ (attach h body s).2 ↔ (g, c) ∈ s.2 ∨ (g = h ∧ c ∈ body ∧ c ≠ h ∧ c ∉ s.1)) ∧
    (((∀ c, c ∈ s.1 ↔ c ∈ s.2.map Prod.snd) ∧ (s.2.map Prod.snd).Nodup) →
      (∀ c, c ∈ (attach h body s).1 ↔ c ∈ (attach h body s).2.map Prod.snd) ∧ ((attach h body s).2.map Prod.snd).Nodup) := by
  induction body generalizing s with
  | nil => exact ⟨by simp [attach], by simp [attach], fun hh => by simpa [attach] using hh⟩
  | cons x cs ih =>
    unfold attach
    split
    · rename_i hx
      obtain ⟨h1, h2, h3⟩ := ih s
      refine ⟨fun c => ?_, fun g c => ?_, h3⟩
      · rw [h1, mem_cons]
        constructor
        · rintro (h | ⟨h, h'⟩)
          · exact Or.inl h
          · exact Or.inr ⟨Or.inr h, h'⟩
        · rintro (h | ⟨rfl | h, h'⟩)
          · exact Or.inl h
          · exact Or.inl (hx.resolve_left h')
          · exact Or.inr ⟨h, h'⟩
      · rw [h2, mem_cons]
        constructor
        · rintro (h | ⟨e, h, h', h''⟩)
          · exact Or.inl h
          · exact Or.inr ⟨e, Or.inr h, h', h''⟩
        · rintro (h | ⟨e, rfl | h, h', h''⟩)
          · exact Or.inl h
          · exact absurd (hx.resolve_left h') h''
          · exact Or.inr ⟨e, h, h', h''⟩
    · rename_i hx
      rw [not_or] at hx
      obtain ⟨h1, h2, h3⟩ := ih (x :: s.1, s.2 ++ [(h, x)])
      refine ⟨fun c => ?_, fun g c => ?_, fun hh => h3 ?_⟩
      · rw [h1, mem_cons, mem_cons]
        constructor
        · rintro ((rfl | h) | ⟨h, h'⟩)
          · exact Or.inr ⟨Or.inl rfl, hx.1⟩
          · exact Or.inl h
          · exact Or.inr ⟨Or.inr h, h'⟩
        · rintro (h | ⟨rfl | h, h'⟩)
          · exact Or.inl (Or.inr h)
          · exact Or.inl (Or.inl rfl)
          · exact Or.inr ⟨h, h'⟩
      · rw [h2, mem_append, mem_singleton, mem_cons, mem_cons]
        constructor
        · rintro ((h | e) | ⟨e, h, h', h''⟩)
          · exact Or.inl h
          · cases e; exact Or.inr ⟨rfl, Or.inl rfl, hx.1, hx.2⟩
          · exact Or.inr ⟨e, Or.inr h, h', fun hc => h'' (Or.inr hc)⟩
        · rintro (h | ⟨rfl, rfl | h, h', h''⟩)
          · exact Or.inl (Or.inl h)
          · exact Or.inl (Or.inr rfl)
          · by_cases hc : c = x
            · subst hc; exact Or.inl (Or.inr rfl)
            · exact Or.inr ⟨rfl, h, h', by rintro (h | h); exacts [hc h, h'' h]⟩
      · refine ⟨fun c => ?_, ?_⟩
        · simp only [mem_cons, map_append, mem_append, map_cons, map_nil, not_mem_nil, or_false]
          rw [hh.1]
          exact or_comm
        · simp only [map_append, map_cons, map_nil]
          refine nodup_append.2 ⟨hh.2, by simp, ?_⟩
          intro a ha b hb
          rw [mem_singleton] at hb
          rintro rfl
          exact hx.2 ((hh.1 x).2 (hb ▸ ha))

theorem attachAll_spec (bodies : List (String × List String)) (s : List String × List (String × String)) :
    (∀ g c, (g, c) ∈ (attachAll bodies s).2 ↔ (g, c) ∈ s.2 ∨ (c ∉ s.1 ∧ FirstWith bodies g c)) ∧
    (((∀ c, c ∈ s.1 ↔ c ∈ s.2.map Prod.snd) ∧ (s.2.map Prod.snd).Nodup) → ((attachAll bodies s).2.map Prod.snd).Nodup) := by
  induction bodies generalizing s with
  | nil =>
    refine ⟨fun g c => ?_, fun hh => hh.2⟩
    unfold attachAll FirstWith
    simp
  | cons e bodies ih =>
    obtain ⟨h, body⟩ := e
    unfold attachAll
    obtain ⟨a1, a2, a3⟩ := attach_spec h body s
    obtain ⟨i1, i2⟩ := ih (attach h body s)
    refine ⟨fun g c => ?_, fun hh => i2 (a3 hh)⟩
    rw [i1, a2, a1]
    constructor
    · rintro ((h1 | ⟨rfl, h1, h2, h3⟩) | ⟨h1, pre, b, post, rfl, h2, h3, h4⟩)
      · exact Or.inl h1
      · exact Or.inr ⟨h3, [], body, bodies, rfl, h1, h2, by simp⟩
      · rw [not_or] at h1
        refine Or.inr ⟨h1.1, (h, body) :: pre, b, post, rfl, h2, h3, ?_⟩
        intro x hx hc
        rcases mem_cons.1 hx with rfl | hx
        · exact Classical.byContradiction fun hne => h1.2 ⟨hc, hne⟩
        · exact h4 x hx hc
    · rintro (h1 | ⟨h1, pre, b, post, e, h2, h3, h4⟩)
      · exact Or.inl (Or.inl h1)
      · cases pre with
        | nil =>
          simp only [nil_append, cons.injEq, Prod.mk.injEq] at e
          obtain ⟨⟨rfl, rfl⟩, rfl⟩ := e
          exact Or.inl (Or.inr ⟨rfl, h2, h3, h1⟩)
        | cons x pre =>
          simp only [cons_append, cons.injEq] at e
          obtain ⟨rfl, rfl⟩ := e
          refine Or.inr ⟨?_, pre, b, post, rfl, h2, h3, fun x hx => h4 x (mem_cons_of_mem _ hx)⟩
          rintro (h | ⟨hb, hn⟩)
          · exact h1 h
          · exact hn (h4 (h, body) (by simp) hb)

/-- **C77, forest.** In every finite graph the nesting forest is computed. For every header there is one loop, of an edge back to it with
the largest loop, and a node hangs below the header of the first loop, in the order of the list, that contains it other than as
header. So every node has at most one parent, and the nodes are the headers and the nodes with a parent. -/
theorem forest_exact (nodes : List String) (succ pred : String → List String) (hsucc : ∀ x ∈ nodes, ∀ y ∈ succ x, y ∈ nodes)
    (hpred : ∀ x ∈ nodes, ∀ y ∈ pred x, y ∈ nodes) (hedge : ∀ x y, y ∈ succ x → x ∈ nodes) :
    ∃ n back bodies F, findBackEdges nodes succ = some back ∧ (∀ fuel, n ≤ fuel → nestingForest nodes succ pred fuel = some F) ∧
      (bodies.map Prod.fst).Nodup ∧ (∀ h, h ∈ bodies.map Prod.fst ↔ ∃ u, (u, h) ∈ back) ∧
      (∀ h L, (h, L) ∈ bodies → ∃ u, (u, h) ∈ back ∧ IsLoop pred u h L ∧ ∀ u' L', (u', h) ∈ back → IsLoop pred u' h L' → L'.length ≤ L.length) ∧
      (∀ h c, (h, c) ∈ F.edges ↔ FirstWith bodies h c) ∧ (F.edges.map Prod.snd).Nodup ∧
      ∀ x, x ∈ F.nodes ↔ x ∈ bodies.map Prod.fst ∨ ∃ h, (h, x) ∈ F.edges := by
  obtain ⟨back, hb, _, hback⟩ := back_edges_break_cycles nodes succ hsucc
  obtain ⟨n, loops, h1, h2, h3⟩ := loopsOf_spec hpred back fun p hp => hedge _ _ (hback p hp).1
  obtain ⟨b1, b2, b3⟩ := loopBodies_spec loops
  obtain ⟨c1, c2⟩ := attachAll_spec (loopBodies loops) ([], [])
  refine ⟨n, back, loopBodies loops, forestOf (loopBodies loops), hb, fun fuel hf => ?_, b1, fun h => ?_, fun h L hm => ?_, fun h c => ?_, ?_, fun x => ?_⟩
  · unfold nestingForest
    rw [hb, Option.bind_some, h1 fuel hf]; rfl
  · rw [b2]
    constructor
    · intro hm
      obtain ⟨⟨h', L⟩, hl, rfl⟩ := mem_map.1 hm
      obtain ⟨u, hu, _⟩ := h2 h' L hl
      exact ⟨u, hu⟩
    · rintro ⟨u, hu⟩
      obtain ⟨L, hL, _⟩ := h3 u h hu
      exact mem_map.2 ⟨(h, L), hL, rfl⟩
  · obtain ⟨g1, g2⟩ := b3 (h, L) hm
    obtain ⟨u, hu, hl⟩ := h2 h L g1
    refine ⟨u, hu, hl, fun u' L' hu' hl' => ?_⟩
    obtain ⟨M, hM, hlM⟩ := h3 u' h hu'
    have hperm : L'.Perm M := (perm_ext_iff_of_nodup hl'.1 hlM.1).2 fun x => (hl'.2 x).trans (hlM.2 x).symm
    rw [hperm.length_eq]
    exact g2 (h, M) hM rfl
  · unfold forestOf
    simp only
    rw [c1]
    simp
  · exact c2 ⟨by simp, by simp⟩
  · unfold forestOf
    simp only
    rw [mem_append, mem_filter]
    constructor
    · rintro (h | ⟨h, _⟩)
      · exact Or.inl h
      · obtain ⟨⟨g, c⟩, hm, rfl⟩ := mem_map.1 h
        exact Or.inr ⟨g, hm⟩
    · rintro (h | ⟨g, h⟩)
      · exact Or.inl h
      · by_cases hx : x ∈ (loopBodies loops).map Prod.fst
        · exact Or.inl hx
        · exact Or.inr ⟨mem_map.2 ⟨(g, x), h, rfl⟩, by simpa using hx⟩

/-! ### The theorem applies -/

example : nestingForest ["A", "B", "C", "D", "E", "F"] exSucc exPred 20 =
    some ⟨["E", "C", "B", "D"], [("C", "D"), ("B", "C"), ("B", "E")]⟩ := by decide +kernel

/-- A loop `H` with two edges back to it, from `X` and from `Z`, and inside it a loop `I` with `J` and `K`. -/
def exTwoSucc (x : String) : List String :=
  if x = "H" then ["X", "I"] else if x = "X" then ["H"] else if x = "I" then ["J"] else if x = "J" then ["K"] else if x = "K" then ["I", "Z"]
  else if x = "Z" then ["H", "Y"] else []
def exTwoPred (x : String) : List String := ["H", "X", "I", "J", "K", "Z", "Y"].filter fun y => decide (x ∈ exTwoSucc y)

/-- The smaller loop of a header with two edges back is forgotten: `X` is not in the forest although it is in the loop of `H`. The inner
loop `I` is considered after `H`, because one loop of `H` is smaller: `J` and `K` hang below `H` directly. -/
theorem two_back_edges : nestingForest ["H", "X", "I", "J", "K", "Z", "Y"] exTwoSucc exTwoPred 30 =
    some ⟨["H", "I", "J", "K", "Z"], [("H", "I"), ("H", "J"), ("H", "K"), ("H", "Z")]⟩ := by decide +kernel

end Grey.Graphs
