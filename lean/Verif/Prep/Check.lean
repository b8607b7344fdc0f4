/-
Deciding that concrete graphs are tidy, and an object whose blocks are combined.
-/
import Verif.Prep.Combine
import Verif.Inline.Check
namespace Grey.Prep
open List Grey.Cfg Grey.Inline

/-- A certificate for `Tidy`: blocks in one run are in the same group, and edges within a group go up in rank. -/
def tidyB (grp rank : String → Nat) (G : BlockList) : Bool :=
  (G.blocks.all fun X => X.succs.all fun t => decide (G.start ≠ some t)) &&
  (G.blocks.all fun X => (phis X).isEmpty || G.blocks.any fun P => G.blocks.any fun Q => P.id != Q.id && decide (X.id ∈ P.succs) &&
    decide (X.id ∈ Q.succs)) &&
  (G.blocks.all fun X => X.succs.all fun t =>
    (!(X.succs.all fun u => u == t) || !(G.blocks.all fun P => decide (t ∉ P.succs) || P.id == X.id) || grp X.id == grp t) &&
    (grp X.id != grp t || decide (rank X.id < rank t)))

theorem succ_get {G : BlockList} {x t : String} (h : t ∈ G.succ x) : ∃ X, G.get x = some X ∧ t ∈ X.succs := by
  unfold BlockList.succ at h
  cases hX : G.get x with
  | none => rw [hX] at h; cases h
  | some X => rw [hX] at h; exact ⟨X, rfl, h⟩

theorem succ_of_mem {G : BlockList} (hn : (G.blocks.map (·.id)).Nodup) {X : Block} (hX : X ∈ G.blocks) {t : String} (h : t ∈ X.succs) :
    t ∈ G.succ X.id := by
  unfold BlockList.succ
  rw [get_of_mem hn hX]; exact h

theorem tidy_of_check {grp rank : String → Nat} {G : BlockList} (hn : (G.blocks.map (·.id)).Nodup) (h : tidyB grp rank G = true) : Tidy G := by
  unfold tidyB at h
  simp only [Bool.and_eq_true, all_eq_true, decide_eq_true_eq, Bool.or_eq_true, any_eq_true, bne_iff_ne, beq_iff_eq, Bool.not_eq_true',
    List.isEmpty_iff] at h
  obtain ⟨⟨h1, h2⟩, h3⟩ := h
  have edge : ∀ u v, v ∈ G.succ u → grp u = grp v → rank u < rank v := by
    intro u v huv hg
    obtain ⟨U, hU, hv⟩ := succ_get huv
    have := (h3 U (get_mem hU) v hv).2
    rw [get_id hU] at this
    rcases this with h | h
    · exact absurd hg h
    · exact h
  have chain : ∀ u v, Chain G u v → grp u = grp v := by
    intro u v hc
    obtain ⟨U, hU, hv⟩ := succ_get ((hc.1 v).2 rfl)
    have := (h3 U (get_mem hU) v hv).1
    rw [get_id hU] at this
    rcases this with (h | h) | h
    · exfalso
      rw [all_eq_false] at h
      obtain ⟨w, hw, hne⟩ := h
      apply hne
      rw [beq_iff_eq]
      exact (hc.1 w).1 (by unfold BlockList.succ; rw [hU]; exact hw)
    · exfalso
      rw [all_eq_false] at h
      obtain ⟨P, hP, hne⟩ := h
      apply hne
      by_cases hvP : v ∈ P.succs
      · simp [(hc.2 P.id).1 (succ_of_mem hn hP hvP)]
      · simp [hvP]
    · exact h
  refine ⟨?_, ?_, ?_⟩
  · intro s x hs hx
    obtain ⟨X, hX, ht⟩ := succ_get hx
    exact h1 X (get_mem hX) s ht hs
  · intro x X hX hp
    rcases h2 X (get_mem hX) with h | ⟨P, hP, Q, hQ, ⟨hne, hp1⟩, hq1⟩
    · exact absurd h hp
    · rw [get_id hX] at hp1 hq1
      exact ⟨P.id, Q.id, hne, succ_of_mem hn hP hp1, succ_of_mem hn hQ hq1⟩
  · intro a w ht hw
    have key : ∀ w, Relation.TransGen (Chain G) a w → grp a = grp w ∧ rank a < rank w := by
      intro w ht
      induction ht with
      | single h => exact ⟨chain _ _ h, edge _ _ ((h.1 _).2 rfl) (chain _ _ h)⟩
      | tail _ h ih => exact ⟨ih.1.trans (chain _ _ h), ih.2.trans (edge _ _ ((h.1 _).2 rfl) (chain _ _ h))⟩
    have := edge w a hw (key w ht).1.symm
    have := (key w ht).2
    omega

/-! ### An object -/

/-- A loop whose body is a run of three blocks, one of which calls `m`. -/
def exMain : BlockList :=
  { start := some "A0"
    terminals := ["A5"]
    blocks := [
      { id := "A0", jumpType := "unconditional", instrs := [⟨"calldataload", ["0x00"], ["x"]⟩], jumpTo := some "A1" },
      { id := "A1", jumpType := "conditional", instrs := [⟨"PhiFunction", ["x", "z"], ["y"]⟩, ⟨"lt", ["0x10", "y"], ["c"]⟩],
        comesFrom := ["A0", "A4"], entries := ["A0", "A4"], jumpTo := some "A5", fallsTo := some "A2", cond := some "c" },
      { id := "A2", jumpType := "unconditional", instrs := [⟨"add", ["y", "0x01"], ["u"]⟩], comesFrom := ["A1"], jumpTo := some "A3" },
      { id := "A3", jumpType := "unconditional", instrs := [⟨"mul", ["u", "u"], ["v"]⟩, ⟨"m", ["v"], ["z"]⟩], comesFrom := ["A2"], jumpTo := some "A4" },
      { id := "A4", jumpType := "unconditional", instrs := [⟨"sstore", ["z", "u"], []⟩], comesFrom := ["A3"], jumpTo := some "A1" },
      { id := "A5", jumpType := "mainExit", instrs := [⟨"stop", [], []⟩], comesFrom := ["A1"] }] }

def exM : Component :=
  { args := ["n"]
    body := {
      start := some "M0"
      terminals := ["M1"]
      returns := ["M1"]
      blocks := [
        { id := "M1", jumpType := "FunctionReturn", instrs := [⟨"add", ["o", "n"], ["p"]⟩, ⟨"functionReturn", ["p"], []⟩], comesFrom := ["M0"] },
        { id := "M0", jumpType := "unconditional", instrs := [⟨"sload", ["n"], ["o"]⟩], jumpTo := some "M1" }] } }

def exObj : Obj := Obj.ofList exMain [("m", exM)]

def exGrp (x : String) : Nat := if x ∈ ["A2", "A3", "A4"] then 1 else if x ∈ ["M0", "M1"] then 2 else if x = "A1" then 3 else if x = "A0" then 4 else 5
def exRank (x : String) : Nat := ["A0", "A1", "A2", "A3", "A4", "A5", "M0", "M1"].idxOf x

theorem exObj_fns (f : String) : f ∈ ["m"] ↔ ∃ F, exObj.fns f = some F := mem_fnames (main := exMain) (fns := [("m", exM)])

theorem exObj_ok : ∀ c C, exObj.comp c = some C → Sane C.body ∧ Tidy C.body := by
  intro c C hC
  have hall : ∀ p ∈ compsOf exMain [("m", exM)], saneB p.2.body = true ∧ tidyB exGrp exRank p.2.body = true := by decide +kernel
  have h := hall (c, C) (mem_compsOf hC)
  exact ⟨sane_of_check h.1, tidy_of_check (sane_of_check h.1).coherent.ids h.2⟩

/-- The hypotheses of `combining_preserves` hold. -/
example : ∃ O', combineObj ["m"] exObj = some O' ∧ SameRuns exObj O' := by
  obtain ⟨O', h1, h2, -⟩ := combining_preserves (names := ["m"]) (by decide) exObj_fns exObj_ok
  exact ⟨O', h1, h2⟩

/-- What combining produces: the run becomes two blocks, since a block that calls a function is not merged with the next one. -/
example : ((combineObj ["m"] exObj).map fun O => O.main.blocks.map fun X => (X.id, X.instrs.map (·.op), X.succs))
    = some [("A0", ["calldataload"], ["A1"]), ("A1", ["PhiFunction", "lt"], ["A5", "A2"]), ("A4", ["sstore"], ["A1"]), ("A5", ["stop"], []),
        ("A2", ["add", "mul", "m"], ["A4"])] := by decide +kernel

/-! ### A loop that is a run -/

/-- What happens within `k` steps: the execution ends, or it gets stuck. -/
def outcome {C S : Type} (f : C → Out C S) : Nat → C → Option (Option S)
  | 0, _ => none
  | k + 1, c =>
    match f c with
    | .halt s => some (some s)
    | .stuck => some none
    | .goto d => outcome f k d

theorem ends_of_outcome {C S : Type} {f : C → Out C S} {s : S} : ∀ {k : Nat} {c : C}, outcome f k c = some (some s) → Ends f c s
  | 0, _, h => by cases h
  | k + 1, c, h => by
    unfold outcome at h
    cases hf : f c with
    | halt x => rw [hf] at h; cases h; exact .now hf
    | stuck => rw [hf] at h; cases h
    | goto d => rw [hf] at h; exact .later hf (ends_of_outcome h)

theorem wrong_of_outcome {C S : Type} {f : C → Out C S} : ∀ {k : Nat} {c : C}, outcome f k c = some none → Wrong f c
  | 0, _, h => by cases h
  | k + 1, c, h => by
    unfold outcome at h
    cases hf : f c with
    | halt x => rw [hf] at h; cases h
    | stuck => exact .now hf
    | goto d => rw [hf] at h; exact .later hf (wrong_of_outcome h)

/-- **C58 fails if a loop is a run of blocks**, here a header with phi functions and a body that decides at its end whether to go on:
the two blocks are merged, the phi functions keep the name of the second one, and the program gets stuck, although it ended. -/
theorem combining_fails_on_run : Sane exBack ∧ (∃ s, Ends (run exSem exSt.env (Obj.ofList exBack []) []) none s) ∧
    ∃ O', combineObj [] (Obj.ofList exBack []) = some O' ∧ Wrong (run exSem exSt.env O' []) none := by
  refine ⟨sane_of_check (by decide +kernel), ?_, (combineObj [] (Obj.ofList exBack [])).get (by decide +kernel), by simp, ?_⟩
  · have h : (outcome (run exSem exSt.env (Obj.ofList exBack []) []) 30 none).any (fun s => s.isSome) = true := by decide +kernel
    rw [Option.any_eq_true] at h
    obtain ⟨s, h1, h2⟩ := h
    obtain ⟨t, rfl⟩ := Option.isSome_iff_exists.1 h2
    exact ⟨t, ends_of_outcome h1⟩
  · exact wrong_of_outcome (k := 20) (by decide +kernel)

end Grey.Prep
