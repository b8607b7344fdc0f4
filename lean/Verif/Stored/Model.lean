/-
Model of the ids that are written for a block whose variables are partly kept in memory (src/reparation/tree_scan.py:119-248).
-/
import Verif.Repair.Copies
import Verif.Repair.Placeholders
namespace Grey.Stored
open List Grey.Repair

/-- What is written for a block: an id of the schedule as it is, or a load, a store, or a duplication that the reparation adds.
Loads and stores carry the variable they are for, which is not part of the text. -/
inductive SOp where
  | id (s : String)
  | load (v : String) (a : Nat)
  | store (v : String) (a : Nat)
  | dup (n : Nat)
  deriving DecidableEq, Repr

/-- The ids (src/reparation/tree_scan.py:205-212). -/
def SOp.texts : SOp → List String
  | .id s => [s]
  | .load _ a => ["PUSH " ++ hexOf a, "MLOAD"]
  | .store _ a => ["PUSH " ++ hexOf a, "MSTORE"]
  | .dup n => ["DUP" ++ toString n]

/-- The loop over the ids of a block (src/reparation/tree_scan.py:130-154); `cell` is the memory address of a variable, from its
colour and the constant of that colour. `none`: a variable has no colour. -/
def emitIds (cell : String → Option Nat) : List PId → Option (List SOp)
  | [] => some []
  | .id s :: is => match vgetOf s with
    | some v => (cell v).bind fun a => (emitIds cell is).map (.load v a :: ·)
    | none => match vsetOf s with
      | some v => (cell v).bind fun a => (emitIds cell is).map (.store v a :: ·)
      | none => (emitIds cell is).map (.id s :: ·)
  | .dupSet v d :: is => (cell v).bind fun a => (emitIds cell is).map fun r => .dup (d + 1) :: .store v a :: r

/-- `_emit_copies` (src/reparation/tree_scan.py:219-248): `regs` are the arguments of phi functions that are in memory, with the
address of the phi function and their own address, `dups` those on the stack, with the address of the phi function and their
position. -/
def emitPhis (regs dups : List (String × (Nat × Nat))) : List SOp :=
  (regs.map fun p => .load p.1 p.2.2) ++ (regs.reverse.map fun p => .store p.1 p.2.1) ++
    (dups.map fun p => [SOp.dup (p.2.2 + 2), .store p.1 p.2.1]).flatten

/-- The copies for the phi functions of the successors (src/reparation/tree_scan.py:156-200), from the colours (`colour`, `pos` and
`phis` as in `phiCopies`) and the base constant of the colours. -/
def copyOps (base : Nat) (colour : String → Option Nat) (pos : String → Nat) (phis : List (String × Nat)) : List SOp :=
  let r := collectCopies colour pos phis [] []
  emitPhis (r.1.map fun p => (p.1, (base + 32 * p.2.1, base + 32 * p.2.2))) (r.2.map fun p => (p.1, (base + 32 * p.2.1, p.2.2)))

/-- All ids of a block (src/reparation/tree_scan.py:119-202). -/
def emitBlock (cell : String → Option Nat) (pids : List PId) (regs dups : List (String × (Nat × Nat))) : Option (List SOp) :=
  (emitIds cell pids).map (· ++ emitPhis regs dups)

/-- The text of the instructions of `EInstr`. -/
def textOf : EInstr → String
  | .push c => "PUSH " ++ c
  | .mload => "MLOAD"
  | .mstore => "MSTORE"
  | .dup n => "DUP" ++ toString n

/-- The copies are those of `phiCopies`. -/
theorem copyOps_texts (base : String) (num : Nat) (colour : String → Option Nat) (pos : String → Nat) (phis : List (String × Nat))
    (code : List EInstr) (h : phiCopies (slotConstants base num) colour pos phis = some code) :
    (copyOps (intOf base) colour pos phis).flatMap SOp.texts = code.map textOf := by
  unfold phiCopies emitCopies at h
  unfold copyOps
  generalize collectCopies colour pos phis [] [] = r at h ⊢
  obtain ⟨regs, dups⟩ := r
  simp only at h ⊢
  obtain ⟨gets, hg, h⟩ := Option.bind_eq_some_iff.1 h
  obtain ⟨sets, hs, h⟩ := Option.bind_eq_some_iff.1 h
  obtain ⟨ds, hd, rfl⟩ := Option.map_eq_some_iff.1 h
  have hslot : ∀ c k, (slotConstants base num)[c]? = some k → k = hexOf (intOf base + 32 * c) := by
    intro c k hk
    unfold slotConstants at hk
    rw [getElem?_map] at hk
    obtain ⟨i, hi, rfl⟩ := Option.map_eq_some_iff.1 hk
    obtain ⟨h1, h2⟩ := List.getElem?_eq_some_iff.1 hi
    rw [getElem_range] at h2
    rw [h2]
  have e1 : ∀ (l : List (String × (Nat × Nat))) (g : List (List EInstr)), (l.mapM fun p => ((slotConstants base num)[p.2.2]?).map emitVget) = some g →
      (l.map fun p => SOp.load p.1 (intOf base + 32 * p.2.2)).flatMap SOp.texts = g.flatten.map textOf := by
    intro l
    induction l with
    | nil => intro g h; simp only [mapM_nil, Option.pure_def, Option.some.injEq] at h; subst h; rfl
    | cons p l ih =>
      intro g h
      rw [mapM_cons] at h
      simp only [Option.bind_eq_bind, Option.pure_def] at h
      obtain ⟨x, hx, h⟩ := Option.bind_eq_some_iff.1 h
      obtain ⟨y, hy, h⟩ := Option.bind_eq_some_iff.1 h
      simp only [Option.some.injEq] at h
      subst h
      obtain ⟨k, hk, rfl⟩ := Option.map_eq_some_iff.1 hx
      rw [map_cons, flatMap_cons, ih _ hy, hslot _ _ hk]
      rfl
  have e2 : ∀ (l : List (String × (Nat × Nat))) (g : List (List EInstr)), ((l.map fun p => p.2.1).mapM fun c => ((slotConstants base num)[c]?).map emitVset) = some g →
      (l.map fun p => SOp.store p.1 (intOf base + 32 * p.2.1)).flatMap SOp.texts = g.flatten.map textOf := by
    intro l
    induction l with
    | nil => intro g h; simp only [map_nil, mapM_nil, Option.pure_def, Option.some.injEq] at h; subst h; rfl
    | cons p l ih =>
      intro g h
      rw [map_cons, mapM_cons] at h
      simp only [Option.bind_eq_bind, Option.pure_def] at h
      obtain ⟨x, hx, h⟩ := Option.bind_eq_some_iff.1 h
      obtain ⟨y, hy, h⟩ := Option.bind_eq_some_iff.1 h
      simp only [Option.some.injEq] at h
      subst h
      obtain ⟨k, hk, rfl⟩ := Option.map_eq_some_iff.1 hx
      rw [map_cons, flatMap_cons, ih _ hy, hslot _ _ hk]
      rfl
  have e3 : ∀ (l : List (String × (Nat × Nat))) (g : List (List EInstr)),
      (l.mapM fun p => ((slotConstants base num)[p.2.1]?).map fun k => emitDupVset k (p.2.2 + 1)) = some g →
      (l.map fun p => [SOp.dup (p.2.2 + 2), .store p.1 (intOf base + 32 * p.2.1)]).flatten.flatMap SOp.texts = g.flatten.map textOf := by
    intro l
    induction l with
    | nil => intro g h; simp only [mapM_nil, Option.pure_def, Option.some.injEq] at h; subst h; rfl
    | cons p l ih =>
      intro g h
      rw [mapM_cons] at h
      simp only [Option.bind_eq_bind, Option.pure_def] at h
      obtain ⟨x, hx, h⟩ := Option.bind_eq_some_iff.1 h
      obtain ⟨y, hy, h⟩ := Option.bind_eq_some_iff.1 h
      simp only [Option.some.injEq] at h
      subst h
      obtain ⟨k, hk, rfl⟩ := Option.map_eq_some_iff.1 hx
      rw [map_cons, flatten_cons, flatMap_append, ih _ hy, hslot _ _ hk]
      rfl
  unfold emitPhis
  rw [flatMap_append, flatMap_append, map_append, map_append, map_map, ← e1 regs gets hg, ← map_reverse, map_map,
    ← e2 regs.reverse sets (by rw [map_reverse]; exact hs), map_map, ← e3 dups ds hd]
  rfl

end Grey.Stored
