/-
Merging two blocks of a component of an object, and splitting a block, keep the executions of the object.
-/
import Verif.Prep.Body
import Verif.Cfg.Remove
namespace Grey.Prep
open List Grey.Cfg Grey.Inline

/-- Where a position is after the merge of `a` and `b`; `bs` are the instructions of `b`. -/
def mergePos (a b : String) (bs : List Instr) (x : String) (rest : List Instr) : String × List Instr :=
  if x = a then (a, rest ++ bs) else if x = b then (a, rest) else (x, rest)

theorem phis_nil {B : Block} (h : ∀ i ∈ B.instrs, isPhi i = false) : phis B = [] := by
  unfold phis
  rw [filter_eq_nil_iff]; intro i hi; rw [h i hi]; simp

theorem enter_eq {V : Type} {X Y : Block} (hp : phis Y = phis X) {p q : Option String}
    (he : phis X ≠ [] → (p = none ∧ q = none ∨ ∃ u v, p = some u ∧ q = some v ∧ Y.entries.idxOf? v = X.entries.idxOf? u)) (env : String → V) :
    enter X p env = enter Y q env := by
  unfold enter
  have hp' : Y.instrs.filter isPhi = X.instrs.filter isPhi := hp
  rw [hp']
  unfold enterWith
  by_cases h0 : X.instrs.filter isPhi = []
  · rw [if_pos h0, if_pos h0]
  · rw [if_neg h0, if_neg h0]
    rcases he h0 with ⟨rfl, rfl⟩ | ⟨u, v, rfl, rfl, hidx⟩
    · rfl
    · simp only [Option.bind_some]
      rw [hidx]

theorem merge_sim {G G' : BlockList} (hG : Sane G) {a b : String} {A B : Block} (h : Mergeable G a b A B) (hst : G'.start = G.start)
    (hget : ∀ x, G'.get x = if x = a then some (mergedBlock A B) else if x = b then none else (G.get x).map (fixMerge a b B x)) :
    BodySim G G' (mergePos a b (code B)) (fun x => ∃ X, G.get x = some X) (fun x => if x = a then 1 else 0) := by
  have hA := h.getA
  have hB := h.getB
  have hne := h.ne
  have hphiB : phis B = [] := phis_nil h.noPhi
  have hga : G'.get a = some (mergedBlock A B) := by rw [hget, if_pos rfl]
  have hgo : ∀ x X, G.get x = some X → x ≠ a → x ≠ b → G'.get x = some (fixMerge a b B x X) := by
    intro x X hX h1 h2
    rw [hget, if_neg h1, if_neg h2, hX]; rfl
  have hcode : code (mergedBlock A B) = code A ++ code B := by
    unfold code; simp [mergedBlock, filter_append]
  have hphis : phis (mergedBlock A B) = phis A := by
    have : phis (mergedBlock A B) = phis A ++ phis B := by unfold phis; simp [mergedBlock, filter_append]
    rw [this, hphiB, append_nil]
  have hbself : b ∉ B.succs := fun hb =>
    hne ((h.preds b).1 ((hG.coherent.edges b b B B hB hB).2 hb)).symm
  have hob : ∀ x X, G.get x = some X → x ≠ a → b ∉ X.succs := by
    intro x X hX hxa hb
    exact hxa ((h.preds x).1 ((hG.coherent.edges x b X B hX hB).2 hb))
  have hca : ∀ x X, G.get x = some X → x ≠ b → a ∉ X.entries := by
    intro x X hX hxb ha
    exact hxb ((h.succs x).1 ((hG.coherent.edges a x A X hA hX).1 (hG.entries x X hX a ha)))
  have pos_a : ∀ rest, mergePos a b (code B) a rest = (a, rest ++ code B) := fun rest => if_pos rfl
  have pos_b : ∀ rest, mergePos a b (code B) b rest = (a, rest) := fun rest => by
    unfold mergePos; rw [if_neg (Ne.symm hne), if_pos rfl]
  have pos_o : ∀ x rest, x ≠ a → x ≠ b → mergePos a b (code B) x rest = (x, rest) := fun x rest h1 h2 => by
    unfold mergePos; rw [if_neg h1, if_neg h2]
  -- the places of arguments of phi functions
  have hidx : ∀ t X, G.get t = some X → t ≠ a → t ≠ b → ∀ p, p ≠ a → (t ∈ B.succs ∨ p ≠ b) →
      (fixMerge a b B t X).entries.idxOf? (if p = b then a else p) = X.entries.idxOf? p := by
    intro t X hX hta htb p hpa hpb
    have hea : ∀ y ∈ X.entries, y ≠ a := by
      rintro y hy rfl
      exact hca _ X hX htb hy
    simp only [fixMerge]
    by_cases hmem : t ∈ B.succs
    · rw [if_pos hmem]
      unfold replaceName
      refine idxOf?_map_inj (f := fun x => if x = b then a else x) (l := X.entries) (x := p) ?_
      intro y hy hyb
      by_cases h1 : y = b
      · by_cases h2 : p = b
        · rw [h1, h2]
        · simp only [h1, if_true, h2, if_false] at hyb
          exact absurd hyb.symm hpa
      · by_cases h2 : p = b
        · simp only [h1, if_false, h2, if_true] at hyb
          exact absurd hyb (hea y hy)
        · simpa only [h1, if_false, h2] using hyb
    · rw [if_neg hmem]
      have : p ≠ b := by rcases hpb with h' | h'; exact absurd h' hmem; exact h'
      rw [if_neg this]
  have toA : ∀ p, p ≠ some b → Goes G G' (mergePos a b (code B)) (fun x => ∃ X, G.get x = some X) p a p a := by
    intro p _
    refine ⟨⟨A, hA⟩, A, _, hA, hga, by rw [pos_a, hcode], ?_⟩
    intro V env
    refine enter_eq hphis ?_ env
    intro _
    cases p with
    | none => exact Or.inl ⟨rfl, rfl⟩
    | some u => exact Or.inr ⟨u, u, rfl, rfl, rfl⟩
  have toO : ∀ t X p, G.get t = some X → t ≠ a → t ≠ b → p ≠ a → (t ∈ B.succs ∨ p ≠ b) →
      Goes G G' (mergePos a b (code B)) (fun x => ∃ X, G.get x = some X) (some p) t (some (if p = b then a else p)) t := by
    intro t X p hX hta htb hpa hpb
    refine ⟨⟨X, hX⟩, X, _, hX, hgo t X hX hta htb, by rw [pos_o t _ hta htb]; rfl, ?_⟩
    intro V env
    exact enter_eq (X := X) (Y := fixMerge a b B t X) rfl (fun _ => Or.inr ⟨_, _, rfl, rfl, hidx t X hX hta htb p hpa hpb⟩) env
  refine ⟨?_, ?_, ?_⟩
  · obtain ⟨s, S, h1, h2⟩ := hG.start
    rw [hst, h1]
    simp only [GoesOpt]
    by_cases hsa : s = a
    · rw [hsa]; exact toA none (by simp)
    · have hsb : s ≠ b := by rintro rfl; exact h.start h1
      refine ⟨⟨S, h2⟩, S, _, h2, hgo s S h2 hsa hsb, by rw [pos_o s _ hsa hsb]; rfl, ?_⟩
      intro V env
      exact enter_eq (X := S) (Y := fixMerge a b B s S) rfl (fun _ => Or.inl ⟨rfl, rfl⟩) env
  · intro x i is _
    by_cases hxa : x = a
    · subst hxa; exact ⟨x, is ++ code B, pos_a _, pos_a _⟩
    · by_cases hxb : x = b
      · subst hxb; exact ⟨a, is, pos_b _, pos_b _⟩
      · exact ⟨x, is, pos_o x _ hxa hxb, pos_o x _ hxa hxb⟩
  · rintro x ⟨X, hX⟩
    refine ⟨X, hX, ?_⟩
    by_cases hxa : x = a
    · right
      subst hxa
      rw [hA] at hX
      cases hX
      refine ⟨b, B, ?_, hB, ⟨B, hB⟩, hphiB, by rw [pos_b, pos_a, nil_append], by simp [Ne.symm hne]⟩
      have hbs := mem_succs.1 ((h.succs b).2 rfl)
      cases hj : A.jumpTo with
      | none =>
        cases hfl : A.fallsTo with
        | none => rw [hj, hfl] at hbs; simp at hbs
        | some t =>
          have : t = b := (h.succs t).1 (mem_succs.2 (Or.inr hfl))
          exact Or.inr ⟨rfl, by rw [this]⟩
      | some t =>
        have ht : t = b := (h.succs t).1 (mem_succs.2 (Or.inl hj))
        cases hfl : A.fallsTo with
        | none => exact Or.inl ⟨by rw [ht], rfl⟩
        | some e =>
          have he : e = b := (h.succs e).1 (mem_succs.2 (Or.inr hfl))
          rw [ht] at hj
          rw [he] at hfl
          exact absurd ⟨hj, hfl⟩ (hG.noDouble _ A hA b)
    · left
      by_cases hxb : x = b
      · subst hxb
        rw [hB] at hX
        cases hX
        have tgt : ∀ t ∈ B.succs, Goes G G' (mergePos a x (code B)) (fun x => ∃ X, G.get x = some X) (some x) t (some a) t := by
          intro t ht
          obtain ⟨T, hT⟩ := hG.coherent.targets x B hB t ht
          have := toO t T x hT (by rintro rfl; exact h.noLoop ht) (by rintro rfl; exact hbself ht) (Ne.symm hne) (Or.inl ht)
          rw [if_pos rfl] at this
          exact this
        refine ⟨a, _, pos_b _, hga, rfl, ?_, ?_⟩
        · show GoesOpt _ _ _ _ _ _ B.jumpTo B.jumpTo
          cases hj : B.jumpTo with
          | none => trivial
          | some t => exact tgt t (mem_succs.2 (Or.inl hj))
        · show GoesOpt _ _ _ _ _ _ B.fallsTo B.fallsTo
          cases hj : B.fallsTo with
          | none => trivial
          | some t => exact tgt t (mem_succs.2 (Or.inr hj))
      · have tgt : ∀ t ∈ X.succs, Goes G G' (mergePos a b (code B)) (fun x => ∃ X, G.get x = some X) (some x) t (some x) t := by
          intro t ht
          obtain ⟨T, hT⟩ := hG.coherent.targets x X hX t ht
          by_cases hta : t = a
          · rw [hta]; exact toA (some x) (by simpa using hxb)
          · have := toO t T x hT hta (by rintro rfl; exact hob x X hX hxa ht) hxa (Or.inr hxb)
            rw [if_neg hxb] at this
            exact this
        refine ⟨x, _, pos_o x _ hxa hxb, hgo x X hX hxa hxb, rfl, ?_, ?_⟩
        · show GoesOpt _ _ _ _ _ _ X.jumpTo X.jumpTo
          cases hj : X.jumpTo with
          | none => trivial
          | some t => exact tgt t (mem_succs.2 (Or.inl hj))
        · show GoesOpt _ _ _ _ _ _ X.fallsTo X.fallsTo
          cases hj : X.fallsTo with
          | none => trivial
          | some t => exact tgt t (mem_succs.2 (Or.inr hj))

/-- Merging two blocks of a component. -/
theorem merge_sameRuns {O : Obj} {h : Option String} {H : Component} (hH : O.comp h = some H) (hG : Sane H.body) {a b : String}
    {A B : Block} (hm : Mergeable H.body a b A B) {G' : BlockList} (he : mergeBlocks a b H.body = some G') : SameRuns O (O.set h G') := by
  obtain ⟨G'', h1, h2, _, h3⟩ := merge_spec hG hm
  rw [he] at h1
  cases h1
  exact sameRuns_set hH (merge_sim hG hm h2 h3)

/-- Removing unreachable blocks. -/
theorem remove_sim {G G' : BlockList} {s : String} {S : Block} (hG : Coherent G) (hs : G.start = some s) (hS : G.get s = some S)
    (hs' : G'.start = some s) (hget : ∀ x, Graph.Reach G.succ s x → G'.get x = G.get x) :
    BodySim G G' (fun x rest => (x, rest)) (fun x => Graph.Reach G.succ s x ∧ ∃ X, G.get x = some X) (fun _ => 0) := by
  have same : ∀ p t T, Graph.Reach G.succ s t → G.get t = some T →
      Goes G G' (fun x rest => (x, rest)) (fun x => Graph.Reach G.succ s x ∧ ∃ X, G.get x = some X) p t p t := by
    intro p t T hr hT
    exact ⟨⟨hr, T, hT⟩, T, T, hT, by rw [hget t hr, hT], rfl, fun _ _ => rfl⟩
  refine ⟨?_, ?_, ?_⟩
  · rw [hs, hs']
    exact same none s S .refl hS
  · intro b i is _
    exact ⟨b, is, rfl, rfl⟩
  · rintro x ⟨hr, X, hX⟩
    have tgt : ∀ t ∈ X.succs, Goes G G' (fun x rest => (x, rest)) (fun x => Graph.Reach G.succ s x ∧ ∃ X, G.get x = some X) (some x) t (some x) t := by
      intro t ht
      obtain ⟨T, hT⟩ := hG.targets x X hX t ht
      refine same (some x) t T (hr.tail ?_) hT
      unfold BlockList.succ; rw [hX]; exact ht
    refine ⟨X, hX, Or.inl ⟨x, X, rfl, by rw [hget x hr, hX], rfl, ?_, ?_⟩⟩
    · cases hj : X.jumpTo with
      | none => trivial
      | some t => exact tgt t (mem_succs.2 (Or.inl hj))
    · cases hj : X.fallsTo with
      | none => trivial
      | some t => exact tgt t (mem_succs.2 (Or.inr hj))

theorem remove_sameRuns {O : Obj} {h : Option String} {H : Component} (hH : O.comp h = some H) (hG : Sane H.body) {G' : BlockList}
    (he : removeBlocks H.body = some G') : SameRuns O (O.set h G') := by
  obtain ⟨s, S, hs, hS⟩ := hG.start
  obtain ⟨G1, h1, h2, -, -, -, h3, -, -⟩ := remove_unreachable hG.coherent hs hS
  rw [he] at h1
  cases h1
  exact sameRuns_set hH (remove_sim hG.coherent hs hS h2 h3)

end Grey.Prep
