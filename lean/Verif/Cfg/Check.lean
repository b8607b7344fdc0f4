/-
Deciding well-formedness of concrete graphs, for the examples beside the theorems.
-/
import Verif.Cfg.Lemmas
namespace Grey.Cfg
open List

/-- A decision procedure for `Sane`. -/
def saneB (G : BlockList) : Bool :=
  decide (G.blocks.map (·.id)).Nodup &&
  (G.blocks.all fun P => G.blocks.all fun Q => decide (P.id ∈ Q.comesFrom ↔ Q.id ∈ P.succs)) &&
  (G.blocks.all fun Q => Q.comesFrom.all fun x => (G.get x).isSome) &&
  (G.blocks.all fun P => P.succs.all fun x => (G.get x).isSome) &&
  (G.blocks.all fun Q => decide Q.comesFrom.Nodup) &&
  (G.blocks.all fun P => P.jumpTo.isNone || decide (P.jumpTo ≠ P.fallsTo)) &&
  (G.blocks.all fun Q => Q.entries.all fun x => decide (x ∈ Q.comesFrom)) &&
  (match G.start with
   | some s => (G.get s).isSome
   | none => false)

theorem sane_of_check {G : BlockList} (h : saneB G = true) : Sane G := by
  unfold saneB at h
  simp only [Bool.and_eq_true, all_eq_true, decide_eq_true_eq, Bool.or_eq_true, Option.isNone_iff_eq_none,
    Option.isSome_iff_exists] at h
  obtain ⟨⟨⟨⟨⟨⟨⟨h1, h2⟩, h3⟩, h4⟩, h5⟩, h6⟩, h7⟩, h8⟩ := h
  refine ⟨⟨h1, ?_, ?_, ?_, ?_⟩, ?_, ?_, ?_⟩
  · intro p q P Q hP hQ
    have := h2 P (get_mem hP) Q (get_mem hQ)
    rwa [get_id hP, get_id hQ] at this
  · intro q Q hQ x hx; exact h3 Q (get_mem hQ) x hx
  · intro p P hP x hx; exact h4 P (get_mem hP) x hx
  · intro q Q hQ; exact h5 Q (get_mem hQ)
  · intro x b hb t ⟨h, h'⟩
    rcases h6 b (get_mem hb) with h0 | h0
    · rw [h] at h0; cases h0
    · exact h0 (h.trans h'.symm)
  · intro q Q hQ x hx; exact h7 Q (get_mem hQ) x hx
  · cases hs : G.start with
    | none => rw [hs] at h8; cases h8
    | some s => rw [hs] at h8; obtain ⟨S, hS⟩ := Option.isSome_iff_exists.1 h8; exact ⟨s, S, rfl, hS⟩

/-- A loop with a phi function: `B0` initialises, `B1` is the head, `B2` the body, `B3` the exit. -/
def exLoop : BlockList :=
  { start := some "B0"
    terminals := ["B3"]
    blocks := [
      { id := "B0", instrs := [⟨"calldatasize", [], ["n"]⟩, ⟨"calldataload", ["0x00"], ["x"]⟩], jumpType := "unconditional",
        jumpTo := some "B1" },
      { id := "B1", instrs := [⟨"PhiFunction", ["x", "y"], ["z"]⟩, ⟨"lt", ["z", "n"], ["c"]⟩], jumpType := "conditional",
        jumpTo := some "B2", fallsTo := some "B3", cond := some "c", comesFrom := ["B0", "B2"], entries := ["B0", "B2"] },
      { id := "B2", instrs := [⟨"sstore", ["z", "n"], []⟩, ⟨"add", ["z", "0x01"], ["y"]⟩], jumpType := "unconditional",
        jumpTo := some "B1", comesFrom := ["B1"] },
      { id := "B3", instrs := [⟨"stop", [], []⟩], jumpType := "mainExit", comesFrom := ["B1"] }] }

example : Sane exLoop := sane_of_check (by decide +kernel)

/-- A meaning of the operations for the examples: the world is the list of operations performed, with argument values; `lt` and
`add` compute, constants are one more than the length of their name. -/
def exSem : Sem Nat (List (String × List Nat)) where
  op o vs w := (match o, vs with
    | "lt", [a, b] => [if a < b then 1 else 0]
    | "add", [a, b] => [a + b]
    | "calldatasize", _ => [3]
    | _, _ => [1], w ++ [(o, vs)], o != "stop")
  truth v := v != 0

/-- The values of `exSem`'s variables at the start. -/
def exSt : St Nat (List (String × List Nat)) := ⟨fun x => if x = "0x01" then 1 else 0, []⟩

/-- Run for at most `k` blocks. -/
def runFor {V W : Type} (sem : Sem V W) (G : BlockList) : Nat → Config V W → Option W
  | 0, _ => none
  | k + 1, c =>
    match stepBlock sem G c with
    | .halt s => some s.world
    | .goto d => runFor sem G k d
    | .stuck => none

-- The meaning is not trivial: the loop body runs twice.
example : (runFor exSem exLoop 10 (init "B0" exSt)).map (·.map (·.1)) =
    some ["calldatasize", "calldataload", "lt", "sstore", "add", "lt", "sstore", "add", "lt", "stop"] := by decide +kernel

end Grey.Cfg
