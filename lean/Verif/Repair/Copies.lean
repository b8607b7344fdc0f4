/-
The copies emitted at the end of a block for phi functions whose values are in memory (src/reparation/tree_scan.py:154-248): C31.
-/
import Verif.Repair.Slots
import Mathlib.Data.List.Nodup
namespace Grey.Repair
open List

/-! ### Model -/

/-- The instructions emitted: `PUSH c`, `MLOAD`, `MSTORE`, `DUPn`. The code emits their names as text. -/
inductive EInstr where
  | push (c : String)
  | mload
  | mstore
  | dup (n : Nat)
  deriving DecidableEq, Repr

/-- src/reparation/tree_scan.py:205-206 -/
def emitVget (c : String) : List EInstr := [.push c, .mload]

/-- src/reparation/tree_scan.py:208-209 -/
def emitVset (c : String) : List EInstr := [.push c, .mstore]

/-- src/reparation/tree_scan.py:211-212 -/
def emitDupVset (c : String) (pos : Nat) : List EInstr := .dup (pos + 1) :: emitVset c

/-- `d[k] = v` on a dictionary in insertion order. -/
def dictSet {α : Type} (k : String) (v : α) (d : List (String × α)) : List (String × α) :=
  if d.any (fun p => p.1 == k) then d.map (fun p => if p.1 = k then (k, v) else p) else d ++ [(k, v)]

/-- src/reparation/tree_scan.py:158-194: the phi functions to solve in the successors, in the order they are traversed, each as the
argument for this block and the colour of the phi function. `colour` is the colour of a variable (`none`: not coloured), `pos`
its position in the stack at the end of the block. -/
def collectCopies (colour : String → Option Nat) (pos : String → Nat) :
    List (String × Nat) → List (String × (Nat × Nat)) → List (String × (Nat × Nat)) →
      List (String × (Nat × Nat)) × List (String × (Nat × Nat))
  | [], regs, dups => (regs, dups)
  | (arg, c) :: phis, regs, dups =>
    match colour arg with
    | some ca => collectCopies colour pos phis (if ca ≠ c then dictSet arg (c, ca) regs else regs) dups
    | none => collectCopies colour pos phis regs (dictSet arg (c, pos arg) dups)

/-- src/reparation/tree_scan.py:219-248. A missing slot is the IndexError. -/
def emitCopies (consts : List String) (regs dups : List (String × (Nat × Nat))) : Option (List EInstr) :=
  (regs.mapM fun p => (consts[p.2.2]?).map emitVget).bind fun gets =>
  ((regs.map fun p => p.2.1).reverse.mapM fun c => (consts[c]?).map emitVset).bind fun sets =>
  (dups.mapM fun p => (consts[p.2.1]?).map fun k => emitDupVset k (p.2.2 + 1)).map fun ds =>
    gets.flatten ++ sets.flatten ++ ds.flatten

/-- src/reparation/tree_scan.py:158-199 for one block. -/
def phiCopies (consts : List String) (colour : String → Option Nat) (pos : String → Nat) (phis : List (String × Nat)) : Option (List EInstr) :=
  emitCopies consts (collectCopies colour pos phis [] []).1 (collectCopies colour pos phis [] []).2

/-! ### Specification: the EVM on these instructions -/

/-- A word is 32 bytes; `num` is the number it represents and `ofNat` the word of a number. -/
structure Encoding (B : Type) where
  num : (Fin 32 → B) → Nat
  ofNat : Nat → Fin 32 → B
  num_ofNat : ∀ n, n < 2 ^ 256 → num (ofNat n) = n

/-- Stack (top first) and memory (by bytes). -/
structure Machine (B : Type) where
  stack : List (Fin 32 → B)
  mem : Nat → B

/-- The word at an address. -/
def word {B : Type} (m : Nat → B) (a : Nat) : Fin 32 → B := fun k => m (a + k)

def stepE {B : Type} (e : Encoding B) : EInstr → Machine B → Option (Machine B)
  | .push c, s => some { s with stack := e.ofNat (intOf c) :: s.stack }
  | .mload, s => match s.stack with
    | a :: st => some { s with stack := word s.mem (e.num a) :: st }
    | _ => none
  | .mstore, s => match s.stack with
    | a :: v :: st => some ⟨st, fun x => if h : e.num a ≤ x ∧ x < e.num a + 32 then v ⟨x - e.num a, by omega⟩ else s.mem x⟩
    | _ => none
  | .dup n, s => if n = 0 then none else (s.stack[n - 1]?).map fun v => { s with stack := v :: s.stack }

def runE {B : Type} (e : Encoding B) : List EInstr → Machine B → Option (Machine B)
  | [], s => some s
  | i :: is, s => (stepE e i s).bind (runE e is)

/-! ### Proofs -/

theorem runE_append {B : Type} (e : Encoding B) (p q : List EInstr) (s : Machine B) : runE e (p ++ q) s = (runE e p s).bind (runE e q) := by
  induction p generalizing s with
  | nil => rfl
  | cons i p ih =>
    rw [cons_append, runE, runE]
    cases stepE e i s with
    | none => rfl
    | some s' => exact ih s'

/-- The address of a colour. -/
def addr (base : String) (c : Nat) : Nat := intOf base + 32 * c

theorem slot_get {base : String} {num c : Nat} (h : c < num) : (slotConstants base num)[c]? = some (hexOf (addr base c)) := by
  simp [slotConstants, addr, h]

theorem run_vget {B : Type} (e : Encoding B) {a : Nat} (ha : a < 2 ^ 256) (s : Machine B) :
    runE e (emitVget (hexOf a)) s = some { s with stack := word s.mem a :: s.stack } := by
  simp [runE, emitVget, stepE, intOf_hexOf, e.num_ofNat a ha]

/-- Storing a word. -/
def store {B : Type} (m : Nat → B) (a : Nat) (v : Fin 32 → B) : Nat → B :=
  fun x => if h : a ≤ x ∧ x < a + 32 then v ⟨x - a, by omega⟩ else m x

theorem run_vset {B : Type} (e : Encoding B) {a : Nat} (ha : a < 2 ^ 256) (v : Fin 32 → B) (st : List (Fin 32 → B)) (m : Nat → B) :
    runE e (emitVset (hexOf a)) ⟨v :: st, m⟩ = some ⟨st, store m a v⟩ := by
  simp only [runE, emitVset, stepE, intOf_hexOf, Option.bind_some, Option.some.injEq, Machine.mk.injEq, true_and]
  funext x
  simp only [store, e.num_ofNat a ha]

theorem word_store_self {B : Type} (m : Nat → B) (a : Nat) (v : Fin 32 → B) : word (store m a v) a = v := by
  funext k
  unfold word store
  rw [dif_pos ⟨by omega, by omega⟩]
  congr 1
  apply Fin.ext
  simp

theorem store_other {B : Type} (m : Nat → B) {a x : Nat} (v : Fin 32 → B) (h : ¬ (a ≤ x ∧ x < a + 32)) : store m a v x = m x := by
  unfold store
  rw [dif_neg h]

theorem word_congr {B : Type} {m m' : Nat → B} {a : Nat} (h : ∀ x, a ≤ x → x < a + 32 → m x = m' x) : word m a = word m' a := by
  funext k
  exact h _ (by omega) (by omega)

theorem mapM_some {α β : Type} {f : α → Option β} {g : α → β} : ∀ (l : List α), (∀ a ∈ l, f a = some (g a)) → l.mapM f = some (l.map g) := by
  intro l
  induction l with
  | nil => intro _; rfl
  | cons a l ih =>
    intro h
    rw [mapM_cons, h a mem_cons_self, ih fun b hb => h b (mem_cons_of_mem _ hb)]
    rfl

/-- Loading all the sources. -/
theorem run_gets {B : Type} (e : Encoding B) (base : String) : ∀ (regs : List (Nat × Nat)), (∀ p ∈ regs, addr base p.2 < 2 ^ 256) → ∀ s : Machine B,
    runE e ((regs.map fun p => emitVget (hexOf (addr base p.2))).flatten) s
      = some { s with stack := (regs.map fun p => word s.mem (addr base p.2)).reverse ++ s.stack } := by
  intro regs
  induction regs with
  | nil => intro _ s; rfl
  | cons p regs ih =>
    intro h s
    rw [map_cons, flatten_cons, runE_append, run_vget e (h p mem_cons_self), Option.bind_some, ih fun q hq => h q (mem_cons_of_mem _ hq)]
    simp

/-- Storing them, in the reverse order. -/
theorem run_sets {B : Type} (e : Encoding B) (base : String) : ∀ (l : List (Nat × (Fin 32 → B))), (∀ p ∈ l, addr base p.1 < 2 ^ 256) →
    (l.map (·.1)).Nodup → ∀ (st : List (Fin 32 → B)) (m : Nat → B),
    ∃ m', runE e ((l.map fun p => emitVset (hexOf (addr base p.1))).flatten) ⟨l.map (·.2) ++ st, m⟩ = some ⟨st, m'⟩ ∧
      (∀ p ∈ l, word m' (addr base p.1) = p.2) ∧
      (∀ x, (∀ p ∈ l, ¬ (addr base p.1 ≤ x ∧ x < addr base p.1 + 32)) → m' x = m x) := by
  intro l
  induction l with
  | nil => intro _ _ st m; exact ⟨m, rfl, by simp, fun _ _ => rfl⟩
  | cons p l ih =>
    intro h hn st m
    rw [map_cons, nodup_cons] at hn
    obtain ⟨m', h1, h2, h3⟩ := ih (fun q hq => h q (mem_cons_of_mem _ hq)) hn.2 st (store m (addr base p.1) p.2)
    refine ⟨m', ?_, ?_, ?_⟩
    · rw [map_cons, map_cons, flatten_cons, runE_append, cons_append, run_vset e (h p mem_cons_self), Option.bind_some, h1]
    · intro q hq
      rcases mem_cons.1 hq with rfl | hq
      · rw [← word_store_self m (addr base q.1) q.2]
        apply word_congr
        intro x hx1 hx2
        apply h3
        intro r hr hh
        have : r.1 ≠ q.1 := by intro he; exact hn.1 (he ▸ mem_map_of_mem hr)
        unfold addr at hh hx1 hx2
        omega
      · exact h2 q hq
    · intro x hx
      rw [h3 x fun q hq => hx q (mem_cons_of_mem _ hq)]
      exact store_other m _ (hx p mem_cons_self)

theorem dictSet_new {α : Type} {k : String} {v : α} {d : List (String × α)} (h : k ∉ d.map (·.1)) : dictSet k v d = d ++ [(k, v)] := by
  unfold dictSet
  rw [if_neg]
  rw [any_eq_true]
  rintro ⟨p, hp, hk⟩
  simp only [beq_iff_eq] at hk
  exact h (hk ▸ mem_map_of_mem hp)

theorem collect_regs {colour : String → Option Nat} {pos : String → Nat} : ∀ (phis : List (String × Nat)) (regs dups : List (String × (Nat × Nat))),
    (∀ p ∈ phis, (colour p.1).isSome) → (phis.map (·.1)).Nodup → (∀ p ∈ phis, p.1 ∉ regs.map (·.1)) →
    collectCopies colour pos phis regs dups
      = (regs ++ (phis.filterMap fun p => (colour p.1).bind fun ca => if ca ≠ p.2 then some (p.1, (p.2, ca)) else none), dups) := by
  intro phis
  induction phis with
  | nil => intro regs dups _ _ _; simp [collectCopies]
  | cons p phis ih =>
    obtain ⟨arg, c⟩ := p
    intro regs dups hc hn hr
    obtain ⟨ca, hca⟩ := Option.isSome_iff_exists.1 (hc _ mem_cons_self)
    simp only at hca
    rw [map_cons, nodup_cons] at hn
    unfold collectCopies
    rw [hca]
    simp only
    rw [filterMap_cons]
    simp only [hca, Option.bind_some]
    by_cases hne : ca ≠ c
    · rw [if_pos hne, dictSet_new (hr _ mem_cons_self), ih _ _ (fun q hq => hc q (mem_cons_of_mem _ hq)) hn.2]
      · rw [if_pos hne]; simp
      · intro q hq hh
        rw [map_append, mem_append] at hh
        rcases hh with hh | hh
        · exact hr q (mem_cons_of_mem _ hq) hh
        · simp only [map_cons, map_nil, mem_singleton] at hh
          exact hn.1 (mem_map.2 ⟨q, hq, hh⟩)
    · rw [if_neg hne, ih _ _ (fun q hq => hc q (mem_cons_of_mem _ hq)) hn.2 (fun q hq => hr q (mem_cons_of_mem _ hq)), if_neg hne]

/-- **C31 (partial).** If all the arguments are in memory, no two phi functions to solve have the same argument, and the phi functions
have different colours, then running the emitted code leaves the stack as it was, puts in the slot of each phi function the word
that the slot of its argument contained before, all at once, and changes no byte outside the slots of the phi functions.

Missing: arguments that are still on the stack, and phi functions with a common argument; for both the property is
false (`dup_copy_wrong`, `shared_argument_lost`). -/
theorem phi_copies_parallel_partial {B : Type} (e : Encoding B) (base : String) (num : Nat) (hsz : addr base num ≤ 2 ^ 256)
    (colour : String → Option Nat) (pos : String → Nat) (phis : List (String × Nat)) (hargs : (phis.map (·.1)).Nodup)
    (hcols : (phis.map (·.2)).Nodup) (hin : ∀ p ∈ phis, p.2 < num ∧ ∃ ca, colour p.1 = some ca ∧ ca < num) (s : Machine B) :
    ∃ code s', phiCopies (slotConstants base num) colour pos phis = some code ∧ runE e code s = some s' ∧ s'.stack = s.stack ∧
      (∀ p ∈ phis, ∀ ca, colour p.1 = some ca → word s'.mem (addr base p.2) = word s.mem (addr base ca)) ∧
      (∀ x, (∀ p ∈ phis, ¬ (addr base p.2 ≤ x ∧ x < addr base p.2 + 32)) → s'.mem x = s.mem x) := by
  set regs := phis.filterMap fun p => (colour p.1).bind fun ca => if ca ≠ p.2 then some (p.1, (p.2, ca)) else none with hregs
  have hmem : ∀ r, r ∈ regs ↔ ∃ p ∈ phis, ∃ ca, colour p.1 = some ca ∧ ca ≠ p.2 ∧ r = (p.1, (p.2, ca)) := by
    intro r
    rw [hregs, mem_filterMap]
    constructor
    · rintro ⟨p, hp, hh⟩
      obtain ⟨ca, hca, hh⟩ := Option.bind_eq_some_iff.1 hh
      split at hh
      · rename_i hne
        cases hh
        exact ⟨p, hp, ca, hca, hne, rfl⟩
      · cases hh
    · rintro ⟨p, hp, ca, hca, hne, rfl⟩
      exact ⟨p, hp, by rw [hca]; simp [hne]⟩
  have hlt : ∀ r ∈ regs, r.2.1 < num ∧ r.2.2 < num := by
    intro r hr
    obtain ⟨p, hp, ca, hca, _, rfl⟩ := (hmem r).1 hr
    obtain ⟨h1, ca', h2, h3⟩ := hin p hp
    rw [hca] at h2
    cases h2
    exact ⟨h1, h3⟩
  have hbound : ∀ c, c < num → addr base c < 2 ^ 256 := by
    intro c hc; unfold addr at *; omega
  have hnd : (regs.map fun r => r.2.1).Nodup := by
    have : (regs.map fun r => r.2.1) <+ phis.map (·.2) := by
      rw [hregs]
      clear hin hcols hargs hmem hlt hregs regs
      induction phis with
      | nil => simp
      | cons p phis ih =>
        rw [filterMap_cons, map_cons]
        split
        · exact ih.cons _
        · rename_i b hb
          obtain ⟨ca, _, hh⟩ := Option.bind_eq_some_iff.1 hb
          split at hh
          · cases hh; exact ih.cons_cons _
          · cases hh
    exact this.nodup hcols
  have hcode : phiCopies (slotConstants base num) colour pos phis
      = some (((regs.map fun r => r.2).map fun p => emitVget (hexOf (addr base p.2))).flatten
        ++ (((regs.map fun r => r.2.1).reverse).map fun c => emitVset (hexOf (addr base c))).flatten) := by
    unfold phiCopies
    rw [collect_regs phis [] [] (fun p hp => by obtain ⟨_, ca, hca, _⟩ := hin p hp; rw [hca]; rfl) hargs (by simp)]
    simp only [nil_append]
    rw [← hregs]
    unfold emitCopies
    rw [mapM_some (g := fun p => emitVget (hexOf (addr base p.2.2))) regs (fun r hr => by rw [slot_get (hlt r hr).2]; rfl), Option.bind_some,
      mapM_some (g := fun c => emitVset (hexOf (addr base c))) (regs.map fun p => p.2.1).reverse
        (fun c hc => by
          rw [mem_reverse] at hc
          obtain ⟨r, hr, rfl⟩ := mem_map.1 hc
          rw [slot_get (hlt r hr).1]; rfl), Option.bind_some]
    simp [mapM_nil, Function.comp_def]
  -- running it
  let l : List (Nat × (Fin 32 → B)) := (regs.map fun r => (r.2.1, word s.mem (addr base r.2.2))).reverse
  obtain ⟨m', r1, r2, r3⟩ := run_sets e base l
    (by
      intro p hp
      rw [mem_reverse] at hp
      obtain ⟨r, hr, rfl⟩ := mem_map.1 hp
      exact hbound _ (hlt r hr).1)
    (by
      have : l.map (·.1) = (regs.map fun r => r.2.1).reverse := by simp [l, Function.comp_def]
      rw [this]
      exact nodup_reverse.2 hnd) s.stack s.mem
  refine ⟨_, ⟨s.stack, m'⟩, hcode, ?_, rfl, ?_, ?_⟩
  · rw [runE_append, run_gets e base _ (by
      intro p hp
      obtain ⟨r, hr, rfl⟩ := mem_map.1 hp
      exact hbound _ (hlt r hr).2), Option.bind_some]
    have e1 : ((regs.map fun r => r.2).map fun p => word s.mem (addr base p.2)).reverse = l.map (·.2) := by simp [l, Function.comp_def]
    have e2 : (((regs.map fun r => r.2.1).reverse).map fun c => emitVset (hexOf (addr base c)))
        = l.map fun p => emitVset (hexOf (addr base p.1)) := by simp [l, Function.comp_def]
    rw [e1, e2, r1]
  · intro p hp ca hca
    by_cases hne : ca ≠ p.2
    · exact r2 (p.2, word s.mem (addr base ca)) (by
        rw [mem_reverse]
        exact mem_map.2 ⟨(p.1, (p.2, ca)), (hmem _).2 ⟨p, hp, ca, hca, hne, rfl⟩, rfl⟩)
    · have hne : ca = p.2 := by simpa using hne
      subst hne
      apply word_congr
      intro x hx1 hx2
      apply r3
      intro q hq hh
      rw [mem_reverse] at hq
      obtain ⟨r, hr, rfl⟩ := mem_map.1 hq
      obtain ⟨p', hp', ca', hca', hne', rfl⟩ := (hmem r).1 hr
      simp only at hh
      have : p'.2 = p.2 := by unfold addr at hh hx1 hx2; omega
      have hpp : p' = p := inj_on_of_nodup_map hcols hp' hp this
      subst hpp
      rw [hca] at hca'
      cases hca'
      exact hne' rfl
  · intro x hx
    apply r3
    intro q hq
    rw [mem_reverse] at hq
    obtain ⟨r, hr, rfl⟩ := mem_map.1 hq
    obtain ⟨p, hp, ca, _, _, rfl⟩ := (hmem r).1 hr
    exact hx p hp

/-! ### The theorem applies -/

/-- Three phi functions whose slots are permuted cyclically, and one that is already in place. -/
example : phiCopies (slotConstants "80" 5) (fun v => [("a", 0), ("b", 1), ("c", 2), ("d", 3)].lookup v) (fun _ => 0)
      [("a", 1), ("b", 2), ("c", 0), ("d", 3)]
    = some [.push "80", .mload, .push "a0", .mload, .push "c0", .mload, .push "80", .mstore, .push "c0", .mstore, .push "a0", .mstore] := by
  decide +kernel

/-- **C31 fails for stack arguments.** A value on top of the stack (position 0) is to be stored in the slot of a phi function; the
emitted code stores the value below it (`DUP2` instead of `DUP1`). -/
theorem dup_copy_wrong : phiCopies (slotConstants "80" 1) (fun _ => none) (fun _ => 0) [("a", 0)] = some [.dup 2, .push "80", .mstore] ∧
    ∀ {B : Type} (e : Encoding B) (v w : Fin 32 → B) (st : List (Fin 32 → B)) (m : Nat → B),
      (runE e [.dup 2, .push "80", .mstore] ⟨v :: w :: st, m⟩).map (fun s => word s.mem 128) = some w := by
  refine ⟨by decide +kernel, ?_⟩
  intro B e v w st m
  have h80 : "80" = hexOf 128 := by decide +kernel
  have := run_vset e (a := 128) (by decide) w (v :: w :: st) m
  rw [← h80] at this
  show ((stepE e (.dup 2) ⟨v :: w :: st, m⟩).bind (runE e (emitVset "80"))).map _ = _
  have hd : stepE e (.dup 2) ⟨v :: w :: st, m⟩ = some ⟨w :: v :: w :: st, m⟩ := rfl
  rw [hd, Option.bind_some, this, Option.map_some, word_store_self]

/-- **C31 fails for a common argument.** Two phi functions with colours 1 and 2 have the same argument (colour 0): only one copy is
emitted. -/
theorem shared_argument_lost :
    phiCopies (slotConstants "80" 3) (fun _ => some 0) (fun _ => 0) [("a", 1), ("a", 2)] = some [.push "80", .mload, .push "c0", .mstore] := by
  decide +kernel

end Grey.Repair
