/-
C27: the validator of the predecessor lists (src/analysis/cfg_validation.py).
-/
import Verif.Cfg.Remove
namespace Grey.Cfg
open List

/-! ### Model -/

/-- src/analysis/cfg_validation.py:11-42, the loop over the successors (`for successor in cfg_block.successors`), with the
recursive call as a parameter. `none`: KeyError, or the fuel of the recursion is used up; otherwise whether the
validation succeeds, and the dictionary of edges reached. -/
def validateSuccs (rec : List (String × String) → String → Option (Bool × List (String × String))) :
    List String → List (String × String) → Option (Bool × List (String × String))
  | [], E => some (true, E)
  | q :: qs, E =>
    (rec E q).bind fun r => if r.1 then validateSuccs rec qs r.2 else some (false, r.2)

/-- src/analysis/cfg_validation.py:11-42. The dictionary `reached_comes_from` of sets is the list of pairs (block, predecessor);
a block is a key if it has a pair. -/
def validateBlock (G : BlockList) : Nat → Option String → List (String × String) → String → Option (Bool × List (String × String))
  | 0, _, _, _ => none
  | f + 1, frm, E, b =>
    (G.get b).bind fun blk =>
      match frm with
      | none => validateSuccs (validateBlock G f (some b)) blk.succs E
      | some p =>
        if p ∉ blk.comesFrom then some (false, E)
        else if E.any (fun e => e.1 == b) then some (true, if (b, p) ∈ E then E else E ++ [(b, p)])
        else validateSuccs (validateBlock G f (some b)) blk.succs (E ++ [(b, p)])

/-- src/analysis/cfg_validation.py:44-55: the multiset of the recorded predecessors against the set of those reached. -/
def validateComesFrom (G : BlockList) (E : List (String × String)) : Bool :=
  (E.map (·.1)).eraseDups.all fun b =>
    match G.get b with
    | some blk => ((E.filter fun e => e.1 == b).map (·.2)).isPerm blk.comesFrom
    | none => false

/-- src/analysis/cfg_validation.py:58-68. The recursion is at most as deep as there are nodes, plus the entry and the last call;
the fuel allows for that. -/
def validateBlockList (G : BlockList) : Option Bool :=
  G.start.bind fun s =>
    (validateBlock G (G.nodes.length + 2) none [] s).map fun r => r.1 && validateComesFrom G r.2

/-! ### Correctness -/

/-- Blocks that are keys of the dictionary. -/
def keyed (E : List (String × String)) (b : String) : Prop := ∃ p, (b, p) ∈ E

theorem any_keyed {E : List (String × String)} {b : String} : E.any (fun e => e.1 == b) = true ↔ keyed E b := by
  rw [any_eq_true]
  constructor
  · rintro ⟨⟨x, p⟩, h1, h2⟩
    simp only [beq_iff_eq] at h2
    exact ⟨p, h2 ▸ h1⟩
  · rintro ⟨p, hp⟩; exact ⟨(b, p), hp, by simp⟩

/-- The edge from `p` to `q` exists and is not recorded at `q`. -/
def BadEdge (G : BlockList) (q p : String) : Prop := q ∈ G.succ p ∧ ∃ Q, G.get q = some Q ∧ p ∉ Q.comesFrom

/-- What a call for the edges `todo` (target, source) establishes. -/
structure Visited (G : BlockList) (s : String) (todo : List (String × String)) (E : List (String × String)) (ok : Bool)
    (E' : List (String × String)) : Prop where
  mono : ∀ e ∈ E, e ∈ E'
  nodup : E'.Nodup
  sound : ∀ q p, (q, p) ∈ E' → Graph.Reach G.succ s p ∧ q ∈ G.succ p ∧ ∃ Q, G.get q = some Q ∧ p ∈ Q.comesFrom
  fail : ok = false → ∃ q p, Graph.Reach G.succ s p ∧ BadEdge G q p
  done : ok = true → ∀ e ∈ todo, e ∈ E'
  complete : ok = true → ∀ b, keyed E' b → ¬ keyed E b → ∀ q ∈ G.succ b, (q, b) ∈ E'

def keysLeft (U : List String) (E : List (String × String)) : Nat := (U.filter fun x => !E.any fun e => e.1 == x).length

theorem keysLeft_mono {U : List String} {E E' : List (String × String)} (h : ∀ e ∈ E, e ∈ E') : keysLeft U E' ≤ keysLeft U E := by
  unfold keysLeft
  apply Graph.filter_length_le_of_imp
  intro x hx
  simp only [Bool.not_eq_true', ← Bool.not_eq_true, any_keyed] at hx ⊢
  rintro ⟨p, hp⟩
  exact hx ⟨p, h _ hp⟩

theorem keysLeft_lt {U : List String} {E : List (String × String)} {b p : String} (hU : b ∈ U) (hb : ¬ keyed E b) :
    keysLeft U (E ++ [(b, p)]) < keysLeft U E := by
  unfold keysLeft
  have hle : ∀ (l : List String), (l.filter fun x => !(E ++ [(b, p)]).any fun e => e.1 == x).length ≤
      (l.filter fun x => !E.any fun e => e.1 == x).length := fun l => keysLeft_mono (U := l) (fun e he => mem_append.2 (Or.inl he))
  induction U with
  | nil => cases hU
  | cons a U ih =>
    rw [filter_cons, filter_cons]
    by_cases hab : a = b
    · subst hab
      have h1 : (E ++ [(a, p)]).any (fun e => e.1 == a) = true := any_keyed.2 ⟨p, by simp⟩
      have h2 : E.any (fun e => e.1 == a) = false := by rw [← Bool.not_eq_true, any_keyed]; exact hb
      simp only [h1, h2, Bool.not_true, Bool.not_false, if_true, Bool.false_eq_true, if_false, length_cons]
      exact Nat.lt_succ_of_le (hle U)
    · have hbU : b ∈ U := by
        rcases mem_cons.1 hU with h | h
        · exact absurd h.symm hab
        · exact h
      have heq : ((E ++ [(b, p)]).any fun e => e.1 == a) = (E.any fun e => e.1 == a) := by
        simp [any_append, Ne.symm hab]
      rw [heq]
      split
      · simp only [length_cons]; exact Nat.succ_lt_succ (ih hbU)
      · exact ih hbU

theorem validateSuccs_spec {G : BlockList} {s b : String} {U : List String} {f : Nat}
    (hrec : ∀ E q, q ∈ G.succ b → keysLeft U E < f → E.Nodup →
      (∀ q p, (q, p) ∈ E → Graph.Reach G.succ s p ∧ q ∈ G.succ p ∧ ∃ Q, G.get q = some Q ∧ p ∈ Q.comesFrom) →
      ∃ ok E', validateBlock G f (some b) E q = some (ok, E') ∧ Visited G s [(q, b)] E ok E') :
    ∀ (qs : List String) (E : List (String × String)), (∀ q ∈ qs, q ∈ G.succ b) → keysLeft U E < f → E.Nodup →
      (∀ q p, (q, p) ∈ E → Graph.Reach G.succ s p ∧ q ∈ G.succ p ∧ ∃ Q, G.get q = some Q ∧ p ∈ Q.comesFrom) →
      ∃ ok E', validateSuccs (validateBlock G f (some b)) qs E = some (ok, E') ∧
        Visited G s (qs.map fun q => (q, b)) E ok E' := by
  intro qs
  induction qs with
  | nil =>
    intro E _ _ hn hs
    exact ⟨true, E, rfl, ⟨fun _ h => h, hn, hs, by simp, by simp, fun _ b h1 h2 => absurd h1 h2⟩⟩
  | cons q qs ih =>
    intro E hq hk hn hs
    obtain ⟨ok, E1, h1, v1⟩ := hrec E q (hq q mem_cons_self) hk hn hs
    unfold validateSuccs
    rw [h1]
    simp only [Option.bind_some]
    cases ok with
    | false =>
      refine ⟨false, E1, rfl, ⟨v1.mono, v1.nodup, v1.sound, fun _ => v1.fail rfl, by simp, by simp⟩⟩
    | true =>
      obtain ⟨ok', E2, h2, v2⟩ := ih E1 (fun q' h' => hq q' (mem_cons_of_mem _ h'))
        (Nat.lt_of_le_of_lt (keysLeft_mono v1.mono) hk) v1.nodup v1.sound
      refine ⟨ok', E2, by simpa using h2, ⟨fun e he => v2.mono e (v1.mono e he), v2.nodup, v2.sound, v2.fail, ?_, ?_⟩⟩
      · intro hok e he
        rw [map_cons, mem_cons] at he
        rcases he with rfl | he
        · exact v2.mono _ (v1.done rfl _ mem_cons_self)
        · exact v2.done hok e he
      · intro hok x hx hnx y hy
        by_cases hx1 : keyed E1 x
        · exact v2.mono _ (v1.complete rfl x hx1 hnx y hy)
        · exact v2.complete hok x hx hx1 y hy

theorem validateBlock_spec {G : BlockList} {s : String} {U : List String}
    (hU : ∀ x, Graph.Reach G.succ s x → x ∈ U ∧ ∃ X, G.get x = some X) :
    ∀ (f : Nat) (b q : String) (E : List (String × String)), Graph.Reach G.succ s b → q ∈ G.succ b → keysLeft U E < f → E.Nodup →
      (∀ q p, (q, p) ∈ E → Graph.Reach G.succ s p ∧ q ∈ G.succ p ∧ ∃ Q, G.get q = some Q ∧ p ∈ Q.comesFrom) →
      ∃ ok E', validateBlock G f (some b) E q = some (ok, E') ∧ Visited G s [(q, b)] E ok E' := by
  intro f
  induction f with
  | zero => intro b q E _ _ h; omega
  | succ f ih =>
    intro b q E hb hq hk hn hs
    have hrq : Graph.Reach G.succ s q := hb.tail hq
    obtain ⟨hqU, Q, hQ⟩ := hU q hrq
    have hsq : G.succ q = Q.succs := by unfold BlockList.succ; rw [hQ]
    unfold validateBlock
    rw [hQ]
    simp only [Option.bind_some]
    by_cases hc : b ∈ Q.comesFrom
    · rw [if_neg (not_not.2 hc)]
      have hs1 : ∀ q' p', (q', p') ∈ E ++ [(q, b)] →
          Graph.Reach G.succ s p' ∧ q' ∈ G.succ p' ∧ ∃ Q, G.get q' = some Q ∧ p' ∈ Q.comesFrom := by
        intro q' p' h'
        rcases mem_append.1 h' with h' | h'
        · exact hs q' p' h'
        · rw [mem_singleton, Prod.mk.injEq] at h'
          obtain ⟨rfl, rfl⟩ := h'
          exact ⟨hb, hq, Q, hQ, hc⟩
      by_cases hkey : keyed E q
      · rw [if_pos (any_keyed.2 hkey)]
        by_cases hin : (q, b) ∈ E
        · rw [if_pos hin]
          exact ⟨true, E, rfl, ⟨fun _ h => h, hn, hs, by simp, by simp [hin], fun _ b h1 h2 => absurd h1 h2⟩⟩
        · rw [if_neg hin]
          refine ⟨true, E ++ [(q, b)], rfl, ⟨fun e he => mem_append.2 (Or.inl he), ?_, hs1, by simp, by simp, ?_⟩⟩
          · rw [nodup_append]
            refine ⟨hn, by simp, ?_⟩
            intro x hx y hy
            rw [mem_singleton] at hy
            subst hy
            rintro rfl
            exact hin hx
          · rintro _ x ⟨p, hp⟩ hnx
            rcases mem_append.1 hp with hp | hp
            · exact absurd ⟨p, hp⟩ hnx
            · rw [mem_singleton, Prod.mk.injEq] at hp
              rw [hp.1] at hnx
              exact absurd hkey hnx
      · have hkf : E.any (fun e => e.1 == q) = false := by rw [← Bool.not_eq_true, any_keyed]; exact hkey
        rw [if_neg (by rw [hkf]; simp)]
        have hn1 : (E ++ [(q, b)]).Nodup := by
          rw [nodup_append]
          refine ⟨hn, by simp, ?_⟩
          intro x hx y hy
          rw [mem_singleton] at hy
          subst hy
          rintro rfl
          exact hkey ⟨b, hx⟩
        have hk1 := keysLeft_lt (p := b) hqU hkey
        obtain ⟨ok, E', h1, v⟩ := validateSuccs_spec (G := G) (s := s) (b := q) (U := U) (f := f)
          (fun E0 y hy hk0 hn0 hs0 => ih q y E0 hrq hy hk0 hn0 hs0)
          Q.succs (E ++ [(q, b)]) (fun y hy => by rw [hsq]; exact hy) (by omega) hn1 hs1
        refine ⟨ok, E', h1, ⟨fun e he => v.mono e (mem_append.2 (Or.inl he)), v.nodup, v.sound, v.fail, ?_, ?_⟩⟩
        · intro _ e he
          rw [mem_singleton] at he
          subst he
          exact v.mono _ (by simp)
        · intro hok x hx hnx y hy
          by_cases hxq : x = q
          · subst hxq
            rw [hsq] at hy
            exact v.done hok (y, x) (mem_map.2 ⟨y, hy, rfl⟩)
          · refine v.complete hok x hx ?_ y hy
            rintro ⟨p, hp⟩
            rcases mem_append.1 hp with hp | hp
            · exact hnx ⟨p, hp⟩
            · rw [mem_singleton, Prod.mk.injEq] at hp
              exact hxq hp.1
    · rw [if_pos hc]
      refine ⟨false, E, rfl, ⟨fun _ h => h, hn, hs, fun _ => ⟨q, b, hb, hq, Q, hQ, hc⟩, by simp, by simp⟩⟩

/-- **C27.** Let all blocks reachable from the entry exist. The validator answers, and it accepts exactly if for every block
that some edge from a reachable block enters, the recorded predecessors are its reachable predecessors, each once. -/
theorem validator_exact {G : BlockList} {s : String} (hs : G.start = some s)
    (hex : ∀ x, Graph.Reach G.succ s x → ∃ X, G.get x = some X) :
    ∃ r, validateBlockList G = some r ∧
      (r = true ↔ ∀ q Q, G.get q = some Q → (∃ p, Graph.Reach G.succ s p ∧ q ∈ G.succ p) →
        Q.comesFrom.Nodup ∧ ∀ p, p ∈ Q.comesFrom ↔ Graph.Reach G.succ s p ∧ q ∈ G.succ p) := by
  have hU : ∀ x, Graph.Reach G.succ s x → x ∈ G.nodes ∧ ∃ X, G.get x = some X := by
    intro x hx
    obtain ⟨X, hX⟩ := hex x hx
    exact ⟨mem_nodes_of_get hX, X, hX⟩
  have hss : Graph.Reach G.succ s s := .refl
  obtain ⟨-, S, hS⟩ := hU s hss
  have hsS : G.succ s = S.succs := by unfold BlockList.succ; rw [hS]
  have hkl : keysLeft G.nodes [] < G.nodes.length + 1 := by
    unfold keysLeft
    exact Nat.lt_succ_of_le (length_filter_le _ _)
  obtain ⟨ok, E, h1, v⟩ := validateSuccs_spec (G := G) (s := s) (b := s) (U := G.nodes) (f := G.nodes.length + 1)
    (fun E0 y hy hk0 hn0 hs0 => validateBlock_spec hU _ s y E0 hss hy hk0 hn0 hs0)
    S.succs [] (fun y hy => by rw [hsS]; exact hy) hkl (by simp) (by simp)
  have hv : validateBlock G (G.nodes.length + 2) none [] s = some (ok, E) := by
    change validateBlock G (G.nodes.length + 1 + 1) none [] s = _
    unfold validateBlock
    rw [hS]
    exact h1
  refine ⟨ok && validateComesFrom G E, by unfold validateBlockList; rw [hs]; simp only [Option.bind_some, hv, Option.map_some], ?_⟩
  -- with a successful traversal, the dictionary holds exactly the edges between reachable blocks
  have hall : ok = true → ∀ q p, (q, p) ∈ E ↔ Graph.Reach G.succ s p ∧ q ∈ G.succ p := by
    intro hok
    have hkeys : ∀ x, Graph.Reach G.succ s x → ∀ q ∈ G.succ x, (q, x) ∈ E := by
      intro x hx
      induction hx with
      | refl =>
        intro q hq
        rw [hsS] at hq
        exact v.done hok _ (mem_map.2 ⟨q, hq, rfl⟩)
      | tail hx hxy ih =>
        intro q hq
        exact v.complete hok _ ⟨_, ih _ hxy⟩ (by rintro ⟨_, h⟩; cases h) q hq
    intro q p
    constructor
    · intro h; exact ⟨(v.sound q p h).1, (v.sound q p h).2.1⟩
    · rintro ⟨h, h'⟩; exact hkeys p h q h'
  constructor
  · intro hr
    rw [Bool.and_eq_true] at hr
    obtain ⟨hok, hc⟩ := hr
    intro q Q hQ ⟨p, hp, hqp⟩
    have hin := (hall hok q p).2 ⟨hp, hqp⟩
    unfold validateComesFrom at hc
    rw [all_eq_true] at hc
    have := hc q (by rw [mem_eraseDups]; exact mem_map.2 ⟨_, hin, rfl⟩)
    rw [hQ] at this
    simp only at this
    rw [isPerm_iff] at this
    have hmem : ∀ x, x ∈ (E.filter fun e => e.1 == q).map (·.2) ↔ (q, x) ∈ E := by
      intro x
      rw [mem_map]
      constructor
      · rintro ⟨⟨a, c⟩, h1, rfl⟩
        rw [mem_filter] at h1
        simp only [beq_iff_eq] at h1
        rw [← h1.2]; exact h1.1
      · intro h; exact ⟨(q, x), mem_filter.2 ⟨h, by simp⟩, rfl⟩
    have hnd : ((E.filter fun e => e.1 == q).map (·.2)).Nodup := by
      apply Nodup.map_on ?_ (v.nodup.filter _)
      rintro ⟨a, c⟩ h1 ⟨a', c'⟩ h2 rfl
      rw [mem_filter] at h1 h2
      simp only [beq_iff_eq] at h1 h2
      rw [h1.2, h2.2]
    refine ⟨this.nodup_iff.1 hnd, ?_⟩
    intro x
    rw [← this.mem_iff, hmem, hall hok]
  · intro h
    have hok : ok = true := by
      cases hok : ok with
      | true => rfl
      | false =>
        obtain ⟨q, p, hp, hqp, Q, hQ, hbad⟩ := v.fail hok
        exact absurd (((h q Q hQ ⟨p, hp, hqp⟩).2 p).2 ⟨hp, hqp⟩) hbad
    rw [hok, Bool.true_and]
    unfold validateComesFrom
    rw [all_eq_true]
    intro q hq
    rw [mem_eraseDups] at hq
    obtain ⟨⟨q', p⟩, hin, rfl⟩ := mem_map.1 hq
    obtain ⟨Q, hQ, -⟩ := (v.sound q' p hin).2.2
    simp only [hQ]
    rw [isPerm_iff]
    have hqq := h q' Q hQ ⟨p, (hall hok q' p).1 hin⟩
    rw [perm_ext_iff_of_nodup ?_ hqq.1]
    · intro x
      rw [hqq.2, ← hall hok, mem_map]
      constructor
      · rintro ⟨⟨a, c⟩, h1, rfl⟩
        rw [mem_filter] at h1
        simp only [beq_iff_eq] at h1
        rw [← h1.2]; exact h1.1
      · intro h; exact ⟨(q', x), mem_filter.2 ⟨h, by simp⟩, rfl⟩
    · apply Nodup.map_on ?_ (v.nodup.filter _)
      rintro ⟨a, c⟩ h1 ⟨a', c'⟩ h2 rfl
      rw [mem_filter] at h1 h2
      simp only [beq_iff_eq] at h1 h2
      rw [h1.2, h2.2]

-- The hypotheses are met, and both answers occur.
example : exLoop.start = some "B0" ∧ ∀ x, Graph.Reach exLoop.succ "B0" x → ∃ X, exLoop.get x = some X := by
  refine ⟨rfl, ?_⟩
  have hS := sane_of_check (G := exLoop) (by decide +kernel)
  intro x hx
  rcases Relation.ReflTransGen.cases_tail hx with rfl | ⟨y, _, hy⟩
  · exact ⟨exLoop.blocks[0], by decide +kernel⟩
  · unfold BlockList.succ at hy
    split at hy
    · rename_i Y hY; exact hS.coherent.targets y Y hY x hy
    · cases hy

example : validateBlockList exLoop = some true := by decide +kernel
example : validateBlockList exDead = some false := by decide +kernel
example : validateBlockList (exLoop.modify "B1" fun b => { b with comesFrom := ["B0", "B2", "B2"] }) = some false := by decide +kernel
example : validateBlockList (exLoop.modify "B1" fun b => { b with comesFrom := ["B0"] }) = some false := by decide +kernel

/-- The predecessor list of the entry is not looked at if no reachable block leads to it. -/
theorem validator_ignores_entry :
    validateBlockList (exLoop.modify "B0" fun b => { b with comesFrom := ["no such block"] }) = some true := by decide +kernel

end Grey.Cfg
