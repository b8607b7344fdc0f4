/-
Lemmas on block lists and on simulations between programs.
-/
import Verif.Cfg.Spec
import Mathlib.Data.List.Nodup
namespace Grey.Cfg
open List

/-! ### Simulation -/

theorem gets_trans {C S : Type} {step : C → Out C S} {a b c : C} (h : Gets step a b) (h' : Gets step b c) : Gets step a c := by
  induction h with
  | refl => exact h'
  | step h1 _ ih => exact .step h1 (ih h')

/-- One step of the first program is one or two steps of the second. -/
theorem simulation {C C' S : Type} {f : C → Out C S} {f' : C' → Out C' S} (r : C → C') (ok : C → Prop)
    (hok : ∀ c d, ok c → f c = .goto d → ok d)
    (h : ∀ c, ok c → f' (r c) = (f c).map r ∨ ∃ m, f' (r c) = .goto m ∧ f' m = (f c).map r) {c : C} (hc : ok c) :
    SameBehaviour f c f' (r c) ∧ ∀ d, Gets f c d → Gets f' (r c) (r d) := by
  refine ⟨⟨fun s => ⟨?_, ?_⟩, ⟨?_, ?_⟩⟩, ?_⟩
  · intro he
    induction he with
    | now e =>
      rcases h _ hc with h1 | ⟨m, h1, h2⟩
      · exact .now (by rw [h1, e]; rfl)
      · exact .later h1 (.now (by rw [h2, e]; rfl))
    | later e _ ih =>
      have ih := ih (hok _ _ hc e)
      rcases h _ hc with h1 | ⟨m, h1, h2⟩
      · exact .later (by rw [h1, e]; rfl) ih
      · exact .later h1 (.later (by rw [h2, e]; rfl) ih)
  · have key : ∀ c' s, Ends f' c' s → ∀ c, ok c → (c' = r c ∨ f' c' = (f c).map r) → Ends f c s := by
      intro c' s he
      induction he with
      | @now c' s e =>
        intro c hc hcase
        have hh : f' c' = (f c).map r := by
          rcases hcase with rfl | h1
          · rcases h c hc with h1 | ⟨m, h1, _⟩
            · exact h1
            · rw [h1] at e; cases e
          · exact h1
        rw [e] at hh
        cases hf : f c with
        | goto d => rw [hf] at hh; cases hh
        | stuck => rw [hf] at hh; cases hh
        | halt s' => rw [hf] at hh; cases hh; exact .now hf
      | @later c' d' s e _ ih =>
        intro c hc hcase
        have hh : f' c' = (f c).map r ∨ f' d' = (f c).map r := by
          rcases hcase with rfl | h1
          · rcases h c hc with h1 | ⟨m, h1, h2⟩
            · exact Or.inl h1
            · rw [h1] at e; cases e; exact Or.inr h2
          · exact Or.inl h1
        rcases hh with hh | hh
        · rw [e] at hh
          cases hf : f c with
          | goto d => rw [hf] at hh; cases hh; exact .later hf (ih d (hok _ _ hc hf) (Or.inl rfl))
          | stuck => rw [hf] at hh; cases hh
          | halt s' => rw [hf] at hh; cases hh
        · exact ih c hc (Or.inr hh)
    intro he
    exact key _ _ he c hc (Or.inl rfl)
  · intro he
    induction he with
    | now e =>
      rcases h _ hc with h1 | ⟨m, h1, h2⟩
      · exact .now (by rw [h1, e]; rfl)
      · exact .later h1 (.now (by rw [h2, e]; rfl))
    | later e _ ih =>
      have ih := ih (hok _ _ hc e)
      rcases h _ hc with h1 | ⟨m, h1, h2⟩
      · exact .later (by rw [h1, e]; rfl) ih
      · exact .later h1 (.later (by rw [h2, e]; rfl) ih)
  · have key : ∀ c', Wrong f' c' → ∀ c, ok c → (c' = r c ∨ f' c' = (f c).map r) → Wrong f c := by
      intro c' he
      induction he with
      | @now c' e =>
        intro c hc hcase
        have hh : f' c' = (f c).map r := by
          rcases hcase with rfl | h1
          · rcases h c hc with h1 | ⟨m, h1, _⟩
            · exact h1
            · rw [h1] at e; cases e
          · exact h1
        rw [e] at hh
        cases hf : f c with
        | goto d => rw [hf] at hh; cases hh
        | stuck => exact .now hf
        | halt s' => rw [hf] at hh; cases hh
      | @later c' d' e _ ih =>
        intro c hc hcase
        have hh : f' c' = (f c).map r ∨ f' d' = (f c).map r := by
          rcases hcase with rfl | h1
          · rcases h c hc with h1 | ⟨m, h1, h2⟩
            · exact Or.inl h1
            · rw [h1] at e; cases e; exact Or.inr h2
          · exact Or.inl h1
        rcases hh with hh | hh
        · rw [e] at hh
          cases hf : f c with
          | goto d => rw [hf] at hh; cases hh; exact .later hf (ih d (hok _ _ hc hf) (Or.inl rfl))
          | stuck => rw [hf] at hh; cases hh
          | halt s' => rw [hf] at hh; cases hh
        · exact ih c hc (Or.inr hh)
    intro he
    exact key _ he c hc (Or.inl rfl)
  · intro d hd
    induction hd with
    | refl c => exact .refl _
    | step e _ ih =>
      have ih := ih (hok _ _ hc e)
      rcases h _ hc with h1 | ⟨m, h1, h2⟩
      · exact .step (by rw [h1, e]; rfl) ih
      · exact .step h1 (.step (by rw [h2, e]; rfl) ih)

theorem SameBehaviour.trans {C C' C'' S : Type} {f : C → Out C S} {f' : C' → Out C' S} {f'' : C'' → Out C'' S} {c c' c''}
    (h : SameBehaviour f c f' c') (h' : SameBehaviour f' c' f'' c'') : SameBehaviour f c f'' c'' :=
  ⟨fun s => (h.1 s).trans (h'.1 s), h.2.trans h'.2⟩

theorem SameBehaviour.symm {C C' S : Type} {f : C → Out C S} {f' : C' → Out C' S} {c c'}
    (h : SameBehaviour f c f' c') : SameBehaviour f' c' f c :=
  ⟨fun s => (h.1 s).symm, h.2.symm⟩

/-! ### Block lists -/

theorem get_id {G : BlockList} {x : String} {b : Block} (h : G.get x = some b) : b.id = x := by
  have := find?_some h; simpa using this

theorem get_mem {G : BlockList} {x : String} {b : Block} (h : G.get x = some b) : b ∈ G.blocks := mem_of_find?_eq_some h

theorem get_isSome_iff {G : BlockList} {x : String} : (∃ b, G.get x = some b) ↔ x ∈ G.blocks.map (·.id) := by
  unfold BlockList.get
  rw [← Option.isSome_iff_exists, find?_isSome]
  simp [mem_map]

theorem get_none_iff {G : BlockList} {x : String} : G.get x = none ↔ x ∉ G.blocks.map (·.id) := by
  rw [← get_isSome_iff]
  cases G.get x <;> simp

theorem find_map_id {l : List Block} {f : Block → Block} (hf : ∀ b ∈ l, (f b).id = b.id) (x : String) :
    (l.map f).find? (fun y => y.id == x) = (l.find? fun y => y.id == x).map f := by
  induction l with
  | nil => rfl
  | cons a l ih =>
    simp only [map_cons, find?_cons, hf a mem_cons_self]
    by_cases h : a.id = x
    · simp [h]
    · have : (a.id == x) = false := by simpa using h
      simp only [this]
      exact ih fun b hb => hf b (mem_cons_of_mem _ hb)

theorem get_modify {G : BlockList} {b : String} {f : Block → Block} (hf : ∀ y, (f y).id = y.id) (x : String) :
    (G.modify b f).get x = (G.get x).map fun y => if x = b then f y else y := by
  unfold BlockList.get BlockList.modify
  rw [find_map_id]
  · cases h : G.blocks.find? fun y => y.id == x with
    | none => rfl
    | some y =>
      have : y.id = x := by simpa using find?_some h
      simp [this]
  · intro y _
    split
    · exact hf y
    · rfl

theorem ids_modify {G : BlockList} {b : String} {f : Block → Block} (hf : ∀ y, (f y).id = y.id) :
    (G.modify b f).blocks.map (·.id) = G.blocks.map (·.id) := by
  unfold BlockList.modify
  simp only [map_map]
  apply map_congr_left
  intro y _
  simp only [Function.comp_apply]
  split
  · exact hf y
  · rfl

theorem get_remove {G G' : BlockList} {b : String} (h : G.removeBlock b = some G') (x : String) :
    G'.get x = if x = b then none else G.get x := by
  unfold BlockList.removeBlock at h
  split at h
  · simp only [Option.some.injEq] at h
    subst h
    unfold BlockList.get
    simp only
    rw [find?_filter]
    by_cases hx : x = b
    · rw [if_pos hx, find?_eq_none]
      intro y _; subst hx; simp
    · rw [if_neg hx]
      congr 1
      funext y
      by_cases hy : y.id = x
      · subst hy; simpa using hx
      · simp [hy]
  · cases h

theorem remove_succeeds {G : BlockList} {b : String} {blk : Block} (h : G.get b = some blk) :
    ∃ G', G.removeBlock b = some G' ∧ G'.blocks = G.blocks.filter (fun x => x.id != b) ∧
      G'.start = if G.start = some b then none else G.start := by
  unfold BlockList.removeBlock
  have : G.blocks.any (fun x => x.id == b) = true := by
    rw [any_eq_true]; exact ⟨blk, get_mem h, by simpa using get_id h⟩
  rw [if_pos this]
  exact ⟨_, rfl, rfl, rfl⟩

theorem get_add {G G' : BlockList} {b : Block} {st : Bool} (h : G.addBlock b st = some G') (x : String) :
    G'.get x = if x = b.id then some b else G.get x := by
  unfold BlockList.addBlock at h
  split at h
  · cases h
  · simp only [Option.some.injEq] at h
    subst h
    unfold BlockList.get
    simp only
    split
    · rename_i hany
      rw [any_eq_true] at hany
      obtain ⟨y, hy, hyb⟩ := hany
      rw [find_map_id]
      · by_cases hx : x = b.id
        · rw [if_pos hx]
          cases hf : G.blocks.find? fun y => y.id == x with
          | none =>
            rw [find?_eq_none] at hf
            have := hf y hy
            rw [hx] at this
            exact absurd hyb this
          | some z =>
            have : z.id = x := by simpa using find?_some hf
            simp [this, hx]
        · rw [if_neg hx]
          cases hf : G.blocks.find? fun y => y.id == x with
          | none => rfl
          | some z =>
            have : z.id = x := by simpa using find?_some hf
            have hz : z.id ≠ b.id := by rw [this]; exact hx
            simp [hz]
      · intro z _
        split
        · rename_i hz; exact hz.symm
        · rfl
    · rename_i hany
      rw [find?_append]
      by_cases hx : x = b.id
      · rw [if_pos hx]
        have : (G.blocks.find? fun y => y.id == x) = none := by
          rw [find?_eq_none]
          intro y hy hyx
          apply hany
          rw [any_eq_true]
          exact ⟨y, hy, by rw [← hx]; exact hyx⟩
        rw [this]
        simp [hx]
      · rw [if_neg hx]
        have : ([b].find? fun y => y.id == x) = none := by
          simp [Ne.symm hx]
        rw [this, Option.or_none]

theorem add_succeeds {G : BlockList} {b : Block} {st : Bool} (h : (G.blocks = [] ∨ st = true) → G.start = none) :
    ∃ G', G.addBlock b st = some G' ∧ G'.start = (if G.blocks = [] ∨ st = true then some b.id else G.start) ∧
      ((∀ y ∈ G.blocks, y.id ≠ b.id) → G'.blocks = G.blocks ++ [b]) := by
  unfold BlockList.addBlock
  have hc : ((G.blocks.isEmpty || st) && G.start.isSome) = false := by
    by_cases hh : G.blocks = [] ∨ st = true
    · rw [h hh]; simp
    · rw [not_or] at hh; simp [hh.1, hh.2]
  rw [hc]
  refine ⟨_, rfl, ?_, ?_⟩
  · simp only [Bool.or_eq_true, List.isEmpty_iff]
  · intro hn
    have : G.blocks.any (fun x => x.id == b.id) = false := by
      rw [any_eq_false]; intro y hy; simpa using hn y hy
    simp [this]

theorem add_ids {G G' : BlockList} {b : Block} {st : Bool} (h : G.addBlock b st = some G')
    (hn : ∀ y ∈ G.blocks, y.id ≠ b.id) : G'.blocks = G.blocks ++ [b] := by
  unfold BlockList.addBlock at h
  split at h
  · cases h
  · simp only [Option.some.injEq] at h
    subst h
    have : G.blocks.any (fun x => x.id == b.id) = false := by
      rw [any_eq_false]; intro y hy; simpa using hn y hy
    simp [this]

/-- Change of a target. -/
def redirect (old new : String) (o : Option String) : Option String := o.map fun x => if x = old then new else x

theorem mem_succs {b : Block} {x : String} : x ∈ b.succs ↔ b.jumpTo = some x ∨ b.fallsTo = some x := by
  unfold Block.succs
  simp [Option.mem_toList]

theorem modifySuccessors_spec {G : BlockList} {p old new : String} {P : Block} (hp : G.get p = some P) (ho : old ∈ P.succs)
    (hd : ¬ (P.jumpTo = some old ∧ P.fallsTo = some old)) :
    ∃ G', modifySuccessors p old new G = some G' ∧ G'.start = G.start ∧
      G'.blocks.map (·.id) = G.blocks.map (·.id) ∧
      ∀ x, G'.get x = (G.get x).map fun b => if x = p then
        { b with jumpTo := redirect old new b.jumpTo, fallsTo := redirect old new b.fallsTo } else b := by
  unfold modifySuccessors
  rw [hp]
  simp only [Option.bind_some]
  by_cases hj : P.jumpTo = some old
  · rw [if_pos hj]
    refine ⟨_, rfl, rfl, ids_modify (fun _ => rfl), ?_⟩
    intro x
    rw [get_modify (by intro; rfl)]
    by_cases hx : x = p
    · subst hx
      rw [hp]
      have hf : P.fallsTo ≠ some old := fun h => hd ⟨hj, h⟩
      simp only [Option.map_some, if_true, Option.some.injEq, Block.mk.injEq, true_and]
      refine ⟨by simp [redirect, hj], ?_, trivial⟩
      cases hpf : P.fallsTo with
      | none => rfl
      | some y =>
        have : y ≠ old := by rintro rfl; exact hf hpf
        simp [redirect, this]
    · simp [hx]
  · rw [if_neg hj]
    have hf : P.fallsTo = some old := by
      rcases mem_succs.1 ho with h | h
      · exact absurd h hj
      · exact h
    rw [if_pos hf]
    refine ⟨_, rfl, rfl, ids_modify (fun _ => rfl), ?_⟩
    intro x
    rw [get_modify (by intro; rfl)]
    by_cases hx : x = p
    · subst hx
      rw [hp]
      simp only [Option.map_some, if_true, Option.some.injEq, Block.mk.injEq, true_and]
      refine ⟨?_, by simp [redirect, hf], trivial⟩
      cases hpj : P.jumpTo with
      | none => rfl
      | some y =>
        have : y ≠ old := by rintro rfl; exact hj hpj
        simp [redirect, this]
    · simp [hx]

theorem modifyAllSuccessors_spec {old new : String} : ∀ (ps : List String) (G : BlockList), ps.Nodup →
    (∀ p ∈ ps, ∃ P, G.get p = some P ∧ old ∈ P.succs ∧ ¬ (P.jumpTo = some old ∧ P.fallsTo = some old)) →
    ∃ G', modifyAllSuccessors old new ps G = some G' ∧ G'.start = G.start ∧
      G'.blocks.map (·.id) = G.blocks.map (·.id) ∧
      ∀ x, G'.get x = (G.get x).map fun b => if x ∈ ps then
        { b with jumpTo := redirect old new b.jumpTo, fallsTo := redirect old new b.fallsTo } else b := by
  intro ps
  induction ps with
  | nil => intro G _ _; exact ⟨G, rfl, rfl, rfl, fun x => by cases G.get x <;> simp⟩
  | cons p ps ih =>
    intro G hn hps
    obtain ⟨P, hp, ho, hd⟩ := hps p mem_cons_self
    obtain ⟨G1, h1, h2, h3, h4⟩ := modifySuccessors_spec (new := new) hp ho hd
    rw [nodup_cons] at hn
    obtain ⟨G', h5, h6, h7, h8⟩ := ih G1 hn.2 (by
      intro q hq
      obtain ⟨Q, hQ, ho', hd'⟩ := hps q (mem_cons_of_mem _ hq)
      have : q ≠ p := by rintro rfl; exact hn.1 hq
      exact ⟨Q, by rw [h4, hQ]; simp [this], ho', hd'⟩)
    refine ⟨G', by simp [modifyAllSuccessors, h1, h5], h6.trans h2, h7.trans h3, ?_⟩
    intro x
    rw [h8, h4, Option.map_map]
    congr 1
    funext b
    by_cases hx : x = p
    · subst hx; simp [hn.1]
    · simp [hx]

theorem modifyComesFrom_spec {G : BlockList} {t : Option String} {old new : String}
    (ht : ∀ x, t = some x → ∃ X, G.get x = some X ∧ old ∈ X.comesFrom) :
    ∃ G', modifyComesFromOpt t old new G = some G' ∧ G'.start = G.start ∧
      G'.blocks.map (·.id) = G.blocks.map (·.id) ∧
      ∀ x, G'.get x = (G.get x).map fun b => if t = some x then
        { b with comesFrom := replaceName old new b.comesFrom, entries := replaceName old new b.entries } else b := by
  cases t with
  | none => exact ⟨G, rfl, rfl, rfl, fun x => by cases G.get x <;> simp⟩
  | some y =>
    obtain ⟨Y, hY, hm⟩ := ht y rfl
    unfold modifyComesFromOpt modifyComesFrom
    simp only [hY, Option.bind_some, hm, if_true]
    refine ⟨_, rfl, rfl, ids_modify (fun _ => rfl), ?_⟩
    intro x
    rw [get_modify (by intro; rfl)]
    congr 1
    funext b
    by_cases hx : x = y
    · simp [hx]
    · simp [hx, Ne.symm hx]

theorem mem_replaceName {old new x : String} {l : List String} :
    x ∈ replaceName old new l ↔ (x = new ∧ old ∈ l) ∨ (x ∈ l ∧ x ≠ old) := by
  unfold replaceName
  rw [mem_map]
  constructor
  · rintro ⟨y, hy, rfl⟩
    by_cases h : y = old
    · subst h; simp [hy]
    · simp [h, hy]
  · rintro (⟨rfl, h⟩ | ⟨h, hne⟩)
    · exact ⟨old, h, by simp⟩
    · exact ⟨x, h, by simp [hne]⟩

theorem nodup_replaceName {old new : String} {l : List String} (h : l.Nodup) (hnew : new ∉ l) : (replaceName old new l).Nodup := by
  unfold replaceName
  apply Nodup.map_on ?_ h
  intro x hx y hy hxy
  by_cases h1 : x = old <;> by_cases h2 : y = old
  · rw [h1, h2]
  · simp [h1, h2] at hxy; exact absurd (hxy ▸ hy) hnew
  · simp [h1, h2] at hxy; exact absurd (hxy ▸ hx) hnew
  · simpa [h1, h2] using hxy

end Grey.Cfg
