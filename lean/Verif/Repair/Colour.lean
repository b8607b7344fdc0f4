/-
Colouring of the values stored in memory: last uses (src/reparation/insert_placeholders.py:278-310), the tree scan
(src/reparation/tree_scan.py:40-113) and the colour assignment (src/reparation/colour_assignment.py): C29.
-/
import Mathlib.Data.List.Nodup
import Mathlib.Data.List.Perm.Subperm
namespace Grey.Repair
open List

/-! ### Model -/

/-- Instruction ids, as the tree scan and the last uses distinguish them (by `startswith` on the text: `VGET(v)`, `VSET(v)`,
`DUP-VSET(v,d)`). -/
inductive RId where
  | get (v : String)
  | set (v : String)
  | dupSet (v : String) (d : Nat)
  | other (s : String)
  deriving DecidableEq, Repr

/-- A block as it is read here: the phi functions (defined value, arguments), `phi_defs_to_solve`, `greedy_ids` once the stores are
inserted, and the keys of `virtual_copies`. -/
structure RBlock where
  phis : List (String × List String)
  toSolve : List String
  ids : List RId
  copies : List String
  deriving DecidableEq, Repr

/-- The dominance tree: a node with its block, its children, and its next siblings (`dominant_tree.successors`, in order). -/
inductive DomForest where
  | nil
  | node (b : RBlock) (children : DomForest) (rest : DomForest)

/-- Elements of `last_use`: a position, `(-1, v)` or `(-2, v)` (src/greedy/greedy_info.py:39-43). -/
inductive Mark where
  | pos (i : Nat)
  | arg (v : String)
  | copy (v : String)
  deriving DecidableEq, Repr

/-- The body of each of the loops of `mark_last_uses`; the state is `last_use` and `new_already_used`. -/
def markStep (m : Mark) (v : String) (s : List Mark × List String) : List Mark × List String :=
  if v ∈ s.2 then s else (m :: s.1, v :: s.2)

/-- src/reparation/insert_placeholders.py:288-291 -/
def markCopies : List String → List Mark × List String → List Mark × List String
  | [], s => s
  | v :: vs, s => markCopies vs (markStep (.copy v) v s)

/-- src/reparation/insert_placeholders.py:295-300: the positions are traversed from the last one to the first, `k` is the position of
the first instruction of the list. -/
def markIds : Nat → List RId → List Mark × List String → List Mark × List String
  | _, [], s => s
  | k, .get v :: xs, s => markStep (.pos k) v (markIds (k + 1) xs s)
  | k, .set _ :: xs, s => markIds (k + 1) xs s
  | k, .dupSet _ _ :: xs, s => markIds (k + 1) xs s
  | k, .other _ :: xs, s => markIds (k + 1) xs s

/-- src/reparation/insert_placeholders.py:305-308 -/
def markArgs : List String → List Mark × List String → List Mark × List String
  | [], s => s
  | v :: vs, s => markArgs vs (markStep (.arg v) v s)

/-- src/reparation/insert_placeholders.py:303-308 -/
def markPhis (toSolve : List String) : List (String × List String) → List Mark × List String → List Mark × List String
  | [], s => s
  | p :: ps, s => markPhis toSolve ps (if p.1 ∈ toSolve then markArgs p.2 s else s)

/-- src/reparation/insert_placeholders.py:278-310: `last_use` and the updated set of used variables. -/
def markLastUses (used : List String) (b : RBlock) : List Mark × List String :=
  markPhis b.toSolve b.phis (markIds 0 b.ids (markCopies b.copies ([], used)))

/-- The set that the traversal of the tree returns (src/reparation/insert_placeholders.py:245-250, 274-275), joined over siblings. -/
def usedIn : DomForest → List String
  | .nil => []
  | .node b ch rest => (markLastUses (usedIn ch) b).2 ++ usedIn rest

/-- `last_use` of a block with the given children. -/
def lastUse (b : RBlock) (ch : DomForest) : List Mark := (markLastUses (usedIn ch) b).1

/-- The state shared by all the calls: `_var2color` and `_phi_class2colors`. -/
structure Shared where
  colour : String → Option Nat
  classes : Nat → List Nat

def Shared.setColour (sh : Shared) (v : String) (c : Nat) : Shared := { sh with colour := fun u => if u = v then some c else sh.colour u }

/-- The first position with `True`, or the length. -/
def firstTrue : List Bool → Nat
  | [] => 0
  | true :: _ => 0
  | false :: l => firstTrue l + 1

/-- src/reparation/colour_assignment.py:35-60. `_total_colors` is left out. -/
def pickAvailable (v : String) (sh : Shared) (av : List Bool) : Shared × List Bool × Nat :=
  if firstTrue av < av.length then (sh.setColour v (firstTrue av), av.set (firstTrue av) false, firstTrue av)
  else (sh.setColour v av.length, av ++ [false], av.length)

/-- src/reparation/tree_scan.py:91-93 with src/reparation/colour_assignment.py:62-72. There is no `break`. `none`: the IndexError. -/
def biasLoop (v : String) : List Nat → Shared → List Bool → Option (Shared × List Bool)
  | [], sh, av => some (sh, av)
  | c :: cs, sh, av =>
    match av[c]? with
    | none => none
    | some true => biasLoop v cs (sh.setColour v c) (av.set c false)
    | some false => biasLoop v cs sh av

/-- src/reparation/tree_scan.py:82-101. `web` gives the class of the elements of the phi webs. -/
def biasedPick (web : String → Option Nat) (v : String) (sh : Shared) (av : List Bool) : Option (Shared × List Bool) :=
  match web v with
  | some k =>
    (biasLoop v (sh.classes k).reverse sh av).map fun r =>
      ({ (pickAvailable v r.1 r.2).1 with
          classes := fun k' => if k' = k then r.1.classes k ++ [(pickAvailable v r.1 r.2).2.2] else r.1.classes k' }, (pickAvailable v r.1 r.2).2.1)
  | none => some ((pickAvailable v sh av).1, (pickAvailable v sh av).2.1)

/-- src/reparation/colour_assignment.py:77-78. `none`: the KeyError or the IndexError. -/
def release (v : String) (sh : Shared) (av : List Bool) : Option (List Bool) :=
  (sh.colour v).bind fun c => if c < av.length then some (av.set c true) else none

/-- src/reparation/tree_scan.py:49-54 -/
def scanArgs (marks : List Mark) (sh : Shared) : List String → List Bool → Option (List Bool)
  | [], av => some av
  | a :: as, av => if Mark.arg a ∈ marks ∧ (sh.colour a).isSome then (release a sh av).bind (scanArgs marks sh as) else scanArgs marks sh as av

/-- src/reparation/tree_scan.py:45-57 -/
def scanPhis (web : String → Option Nat) (marks : List Mark) (toSolve : List String) :
    List (String × List String) → Shared → List Bool → Option (Shared × List Bool)
  | [], sh, av => some (sh, av)
  | p :: ps, sh, av =>
    if p.1 ∈ toSolve then
      (scanArgs marks sh p.2 av).bind fun av' => (biasedPick web p.1 sh av').bind fun r => scanPhis web marks toSolve ps r.1 r.2
    else scanPhis web marks toSolve ps sh av

/-- src/reparation/tree_scan.py:60-71 -/
def scanIds (web : String → Option Nat) (marks : List Mark) : Nat → List RId → Shared → List Bool → Option (Shared × List Bool)
  | _, [], sh, av => some (sh, av)
  | k, .get v :: xs, sh, av =>
    if Mark.pos k ∈ marks then (release v sh av).bind fun av' => scanIds web marks (k + 1) xs sh av' else scanIds web marks (k + 1) xs sh av
  | k, .set v :: xs, sh, av => (biasedPick web v sh av).bind fun r => scanIds web marks (k + 1) xs r.1 r.2
  | k, .dupSet v _ :: xs, sh, av => (biasedPick web v sh av).bind fun r => scanIds web marks (k + 1) xs r.1 r.2
  | k, .other _ :: xs, sh, av => scanIds web marks (k + 1) xs sh av

/-- src/reparation/tree_scan.py:74-77 -/
def scanCopies (marks : List Mark) (sh : Shared) : List String → List Bool → Option (List Bool)
  | [], av => some av
  | v :: vs, av => if Mark.copy v ∈ marks then (release v sh av).bind (scanCopies marks sh vs) else scanCopies marks sh vs av

/-- src/reparation/tree_scan.py:40-77 -/
def scanBlock (web : String → Option Nat) (b : RBlock) (marks : List Mark) (sh : Shared) (av : List Bool) : Option (Shared × List Bool) :=
  (scanPhis web marks b.toSolve b.phis sh av).bind fun r =>
  (scanIds web marks 0 b.ids r.1 r.2).bind fun r' =>
  (scanCopies marks r'.1 b.copies r'.2).map fun av' => (r'.1, av')

/-- src/reparation/tree_scan.py:40-81: the children get a copy of `available`. -/
def assignForest (web : String → Option Nat) : DomForest → Shared → List Bool → Option Shared
  | .nil, sh, _ => some sh
  | .node b ch rest, sh, av =>
    (scanBlock web b (lastUse b ch) sh av).bind fun r => (assignForest web ch r.1 r.2).bind fun sh' => assignForest web rest sh' av

/-- src/reparation/tree_scan.py:103-113: the final colours, for `num` colours at the beginning. -/
def treeScan (web : String → Option Nat) (f : DomForest) (num : Nat) : Option (String → Option Nat) :=
  (assignForest web f ⟨fun _ => none, fun _ => []⟩ (replicate num true)).map (·.colour)

/-! ### Specification -/

/-- A block of the tree with its ancestors (from the root) and its children. -/
inductive In : DomForest → List RBlock → RBlock → DomForest → Prop where
  | here (b : RBlock) (ch rest : DomForest) : In (.node b ch rest) [] b ch
  | inside (b : RBlock) (ch rest : DomForest) (anc : List RBlock) (b' : RBlock) (ch' : DomForest) : In ch anc b' ch' → In (.node b ch rest) (b :: anc) b' ch'
  | next (b : RBlock) (ch rest : DomForest) (anc : List RBlock) (b' : RBlock) (ch' : DomForest) : In rest anc b' ch' → In (.node b ch rest) anc b' ch'

/-- The variables stored by the instructions of a list, in order. -/
def idStores : List RId → List String
  | [] => []
  | .set v :: xs => v :: idStores xs
  | .dupSet v _ :: xs => v :: idStores xs
  | _ :: xs => idStores xs

/-- The values of phi functions that are kept in memory from the beginning of the block. -/
def phiStores (b : RBlock) : List String := (b.phis.filter fun p => p.1 ∈ b.toSolve).map (·.1)

/-- All the variables stored in the tree, in order. -/
def allStores : DomForest → List String
  | .nil => []
  | .node b ch rest => phiStores b ++ idStores b.ids ++ allStores ch ++ allStores rest

/-- `v` is in memory after the first `i` instructions of `b`: it is stored in an ancestor, by a phi function of `b`, or by one of the
first `i` instructions. -/
def StoredBefore (anc : List RBlock) (b : RBlock) (i : Nat) (v : String) : Prop :=
  (∃ a ∈ anc, v ∈ phiStores a ++ idStores a.ids) ∨ v ∈ phiStores b ∨ v ∈ idStores (b.ids.take i)

/-- `v` is read in the block. -/
def Uses (b : RBlock) (v : String) : Prop := RId.get v ∈ b.ids ∨ v ∈ b.copies ∨ ∃ p ∈ b.phis, p.1 ∈ b.toSolve ∧ v ∈ p.2

/-- `v` is read after the first `i` instructions of `b`, in `b` or in a block that `b` dominates. -/
def UsedAfter (b : RBlock) (ch : DomForest) (i : Nat) (v : String) : Prop :=
  RId.get v ∈ b.ids.drop i ∨ v ∈ b.copies ∨ ∃ anc b' ch', In ch anc b' ch' ∧ Uses b' v

/-- What the rest of the repair has to ensure: every variable is stored at one place; what is read has been stored (in an ancestor or
before in the block); the arguments of the phi functions to solve are in the web of their phi function. -/
structure WellPlaced (web : String → Option Nat) (f : DomForest) : Prop where
  once : (allStores f).Nodup
  stored : ∀ anc b ch, In f anc b ch → (∀ (i : Nat) (v : String), b.ids[i]? = some (.get v) → StoredBefore anc b i v) ∧
    b.copies.Nodup ∧ ∀ v ∈ b.copies, StoredBefore anc b b.ids.length v
  webs : ∀ anc b ch, In f anc b ch → ∀ p ∈ b.phis, p.1 ∈ b.toSolve → (∃ k, web p.1 = some k) ∧ ∀ a ∈ p.2, web a = web p.1

/-! ### Proofs -/

/-- The effect of a block as a list of events: a colour is released, or (releasing first the colours of some arguments) one is picked. -/
inductive Ev where
  | free (v : String)
  | pick (args : List String) (v : String)

def runEv (web : String → Option Nat) : Ev → Shared → List Bool → Option (Shared × List Bool)
  | .free v, sh, av => (release v sh av).map fun av' => (sh, av')
  | .pick args v, sh, av => (scanArgs (args.map .arg) sh args av).bind fun av' => biasedPick web v sh av'

def runEvs (web : String → Option Nat) : List Ev → Shared → List Bool → Option (Shared × List Bool)
  | [], sh, av => some (sh, av)
  | e :: es, sh, av => (runEv web e sh av).bind fun r => runEvs web es r.1 r.2

theorem runEvs_append (web : String → Option Nat) (p q : List Ev) (sh : Shared) (av : List Bool) :
    runEvs web (p ++ q) sh av = (runEvs web p sh av).bind fun r => runEvs web q r.1 r.2 := by
  induction p generalizing sh av with
  | nil => rfl
  | cons e p ih =>
    rw [cons_append, runEvs, runEvs]
    cases runEv web e sh av with
    | none => rfl
    | some r => exact ih r.1 r.2

def phiEvs (marks : List Mark) (toSolve : List String) (phis : List (String × List String)) : List Ev :=
  (phis.filter fun p => p.1 ∈ toSolve).map fun p => .pick (p.2.filter fun a => Mark.arg a ∈ marks) p.1

def idEvs (marks : List Mark) : Nat → List RId → List Ev
  | _, [] => []
  | k, .get v :: xs => if Mark.pos k ∈ marks then .free v :: idEvs marks (k + 1) xs else idEvs marks (k + 1) xs
  | k, .set v :: xs => .pick [] v :: idEvs marks (k + 1) xs
  | k, .dupSet v _ :: xs => .pick [] v :: idEvs marks (k + 1) xs
  | k, .other _ :: xs => idEvs marks (k + 1) xs

def copyEvs (marks : List Mark) (copies : List String) : List Ev := (copies.filter fun v => Mark.copy v ∈ marks).map .free

def blockEvs (b : RBlock) (marks : List Mark) : List Ev := phiEvs marks b.toSolve b.phis ++ idEvs marks 0 b.ids ++ copyEvs marks b.copies

theorem scanArgs_congr (m : List Mark) (sh : Shared) : ∀ (args : List String) (m' : List Mark), (∀ a ∈ args, Mark.arg a ∈ m') → ∀ av,
    scanArgs m' sh (args.filter fun a => Mark.arg a ∈ m) av = scanArgs m sh (args.filter fun a => Mark.arg a ∈ m) av := by
  intro args
  induction args with
  | nil => intro m' _ av; rfl
  | cons a args ih =>
    intro m' h av
    rw [filter_cons]
    split
    · rename_i hm
      have hm : Mark.arg a ∈ m := by simpa using hm
      simp only [scanArgs, hm, h a mem_cons_self, true_and]
      split
      · congr 1
        funext av'
        exact ih m' (fun b hb => h b (mem_cons_of_mem _ hb)) av'
      · exact ih m' (fun b hb => h b (mem_cons_of_mem _ hb)) av
    · exact ih m' (fun b hb => h b (mem_cons_of_mem _ hb)) av

theorem scanArgs_filter (m : List Mark) (sh : Shared) : ∀ (args : List String) (av : List Bool),
    scanArgs m sh args av = scanArgs m sh (args.filter fun a => Mark.arg a ∈ m) av := by
  intro args
  induction args with
  | nil => intro av; rfl
  | cons a args ih =>
    intro av
    rw [filter_cons]
    split
    · rename_i hm
      simp only [scanArgs]
      split
      · congr 1
        funext av'
        exact ih av'
      · exact ih av
    · rename_i hm
      have hm : Mark.arg a ∉ m := by simpa using hm
      simp only [scanArgs, hm, false_and, if_false]
      exact ih av

theorem scanArgs_self (m : List Mark) (sh : Shared) (args : List String) (av : List Bool) :
    scanArgs m sh args av
      = scanArgs ((args.filter fun a => Mark.arg a ∈ m).map .arg) sh (args.filter fun a => Mark.arg a ∈ m) av := by
  rw [scanArgs_filter]
  have h := scanArgs_congr m sh (args.filter fun a => Mark.arg a ∈ m) ((args.filter fun a => Mark.arg a ∈ m).map .arg)
    (fun a ha => mem_map_of_mem ha) av
  rw [filter_filter] at h
  simp only [Bool.and_self] at h
  exact h.symm

theorem scanPhis_evs (web : String → Option Nat) (m : List Mark) (ts : List String) : ∀ (phis : List (String × List String)) (sh : Shared) (av : List Bool),
    scanPhis web m ts phis sh av = runEvs web (phiEvs m ts phis) sh av := by
  intro phis
  induction phis with
  | nil => intro sh av; rfl
  | cons p ps ih =>
    intro sh av
    unfold scanPhis phiEvs
    rw [filter_cons]
    by_cases h : p.1 ∈ ts
    · simp only [h, decide_true, if_true, map_cons, runEvs, runEv]
      rw [scanArgs_self, Option.bind_assoc]
      congr 1
      funext av'
      congr 1
      funext r
      exact ih r.1 r.2
    · simp only [h, decide_false, if_false, Bool.false_eq_true]
      exact ih sh av

theorem scanIds_evs (web : String → Option Nat) (m : List Mark) : ∀ (ids : List RId) (k : Nat) (sh : Shared) (av : List Bool),
    scanIds web m k ids sh av = runEvs web (idEvs m k ids) sh av := by
  intro ids
  induction ids with
  | nil => intro k sh av; rfl
  | cons x xs ih =>
    intro k sh av
    cases x with
    | get v =>
      unfold scanIds idEvs
      split
      · simp only [runEvs, runEv, Option.bind_map, Function.comp_def]
        congr 1
        funext av'
        exact ih _ _ _
      · exact ih _ _ _
    | set v =>
      unfold scanIds idEvs
      simp only [runEvs, runEv, scanArgs, map_nil, Option.bind_some]
      congr 1
      funext r
      exact ih _ _ _
    | dupSet v d =>
      unfold scanIds idEvs
      simp only [runEvs, runEv, scanArgs, map_nil, Option.bind_some]
      congr 1
      funext r
      exact ih _ _ _
    | other s =>
      unfold scanIds idEvs
      exact ih _ _ _

theorem scanCopies_evs (web : String → Option Nat) (m : List Mark) (sh : Shared) : ∀ (copies : List String) (av : List Bool),
    (scanCopies m sh copies av).map (fun av' => (sh, av')) = runEvs web (copyEvs m copies) sh av := by
  intro copies
  induction copies with
  | nil => intro av; rfl
  | cons v vs ih =>
    intro av
    unfold scanCopies copyEvs
    rw [filter_cons]
    by_cases h : Mark.copy v ∈ m
    · simp only [h, decide_true, if_true, map_cons, runEvs, runEv, Option.bind_map, Function.comp_def, Option.map_bind]
      congr 1
      funext av'
      exact ih av'
    · simp only [h, decide_false, if_false, Bool.false_eq_true]
      exact ih av

theorem scanBlock_evs (web : String → Option Nat) (b : RBlock) (m : List Mark) (sh : Shared) (av : List Bool) :
    scanBlock web b m sh av = runEvs web (blockEvs b m) sh av := by
  unfold scanBlock blockEvs
  rw [append_assoc, runEvs_append, scanPhis_evs]
  congr 1
  funext r
  rw [runEvs_append, scanIds_evs]
  congr 1
  funext r'
  exact scanCopies_evs web m r'.1 b.copies r'.2

/-! #### Picking a colour -/

theorem firstTrue_le (l : List Bool) : firstTrue l ≤ l.length := by
  induction l with
  | nil => exact Nat.le_refl _
  | cons b l ih => cases b <;> simp [firstTrue]; exact ih

theorem firstTrue_get {l : List Bool} (h : firstTrue l < l.length) : l[firstTrue l]? = some true := by
  induction l with
  | nil => simp at h
  | cons b l ih =>
    cases b with
    | true => rfl
    | false =>
      simp only [firstTrue, length_cons] at h ⊢
      rw [getElem?_cons_succ]
      exact ih (by omega)

theorem firstTrue_none {l : List Bool} (h : ¬ firstTrue l < l.length) : ∀ c < l.length, l[c]? = some false := by
  induction l with
  | nil => simp
  | cons b l ih =>
    cases b with
    | true => simp [firstTrue] at h
    | false =>
      intro c hc
      cases c with
      | zero => rfl
      | succ c =>
        rw [getElem?_cons_succ]
        simp only [firstTrue, length_cons] at h hc
        exact ih (by omega) c (by omega)

/-- What picking a colour does. -/
theorem pickAvailable_spec (v : String) (sh : Shared) (av : List Bool) :
    ∃ n, (pickAvailable v sh av).2.2 = n ∧ (pickAvailable v sh av).1 = sh.setColour v n ∧ av[n]? ≠ some false ∧
      (pickAvailable v sh av).2.1[n]? = some false ∧ (∀ c, c ≠ n → (pickAvailable v sh av).2.1[c]? = av[c]?) := by
  unfold pickAvailable
  split
  · rename_i h
    refine ⟨firstTrue av, rfl, rfl, by rw [firstTrue_get h]; simp, by simp [h], ?_⟩
    intro c hc
    simp [getElem?_set, Ne.symm hc]
  · refine ⟨av.length, rfl, rfl, by simp, by simp, ?_⟩
    intro c hc
    rcases Nat.lt_or_ge c av.length with h | h
    · simp only
      rw [getElem?_append_left h]
    · simp only
      rw [getElem?_eq_none (by simp; omega), getElem?_eq_none (by omega)]

theorem biasLoop_spec (v : String) : ∀ (cs : List Nat) (sh : Shared) (av : List Bool) (r : Shared × List Bool), biasLoop v cs sh av = some r →
    r.1.classes = sh.classes ∧ (∀ u, u ≠ v → r.1.colour u = sh.colour u) ∧ r.2.length = av.length ∧
    (∀ c, c ∉ cs → r.2[c]? = av[c]?) ∧ (∀ c, c ∈ cs → r.2[c]? = some false) := by
  intro cs
  induction cs with
  | nil =>
    intro sh av r h
    cases h
    simp
  | cons c cs ih =>
    intro sh av r h
    unfold biasLoop at h
    split at h
    · cases h
    · rename_i hc
      obtain ⟨h1, h2, h3, h4, h5⟩ := ih _ _ _ h
      obtain ⟨hlt, _⟩ := List.getElem?_eq_some_iff.1 hc
      refine ⟨h1, ?_, by rw [h3]; simp, ?_, ?_⟩
      · intro u hu
        rw [h2 u hu]
        simp [Shared.setColour, hu]
      · intro d hd
        rw [mem_cons, not_or] at hd
        rw [h4 d hd.2, getElem?_set_ne (Ne.symm hd.1)]
      · intro d hd
        by_cases hdc : d ∈ cs
        · exact h5 d hdc
        · rcases mem_cons.1 hd with rfl | hd
          · rw [h4 _ hdc, getElem?_set_self hlt]
          · exact absurd hd hdc
    · rename_i hc
      obtain ⟨h1, h2, h3, h4, h5⟩ := ih _ _ _ h
      refine ⟨h1, h2, h3, ?_, ?_⟩
      · intro d hd
        rw [mem_cons, not_or] at hd
        exact h4 d hd.2
      · intro d hd
        by_cases hdc : d ∈ cs
        · exact h5 d hdc
        · rcases mem_cons.1 hd with rfl | hd
          · rw [h4 _ hdc, hc]
          · exact absurd hd hdc

theorem biasLoop_total (v : String) : ∀ (cs : List Nat) (sh : Shared) (av : List Bool), (∀ c ∈ cs, c < av.length) → ∃ r, biasLoop v cs sh av = some r := by
  intro cs
  induction cs with
  | nil => intro sh av _; exact ⟨_, rfl⟩
  | cons c cs ih =>
    intro sh av h
    unfold biasLoop
    have hc := h c mem_cons_self
    rw [getElem?_eq_getElem hc]
    cases av[c] with
    | true => exact ih _ _ (fun d hd => by simp; exact h d (mem_cons_of_mem _ hd))
    | false => exact ih _ _ (fun d hd => h d (mem_cons_of_mem _ hd))

/-- What the biased choice does: the new colour `n` was not in use; the colours of the class are not available afterwards. -/
theorem biasedPick_spec {web : String → Option Nat} {v : String} {sh : Shared} {av : List Bool} {r : Shared × List Bool}
    (h : biasedPick web v sh av = some r) :
    ∃ n, r.1.colour v = some n ∧ (∀ u, u ≠ v → r.1.colour u = sh.colour u) ∧ r.2[n]? = some false ∧ av[n]? ≠ some false ∧
      (∀ k, web v = some k → n ∉ sh.classes k) ∧
      (∀ c, c ≠ n → (∃ k, web v = some k ∧ c ∈ sh.classes k) → r.2[c]? = some false) ∧
      (∀ c, c ≠ n → (∀ k, web v = some k → c ∉ sh.classes k) → r.2[c]? = av[c]?) ∧
      (∀ k, r.1.classes k = if web v = some k then sh.classes k ++ [n] else sh.classes k) := by
  unfold biasedPick at h
  cases hw : web v with
  | none =>
    rw [hw] at h
    cases h
    obtain ⟨n, h1, h2, h3, h4, h5⟩ := pickAvailable_spec v sh av
    refine ⟨n, ?_, ?_, h4, h3, by simp, by simp, fun c hc _ => h5 c hc, ?_⟩
    · simp only [h2, Shared.setColour, if_true]
    · intro u hu
      simp only [h2, Shared.setColour, hu, if_false]
    · intro k
      simp only [h2, Shared.setColour]
      simp
  | some k =>
    rw [hw] at h
    simp only at h
    obtain ⟨q, hq, hr⟩ := Option.map_eq_some_iff.1 h
    obtain ⟨b1, b2, b3, b4, b5⟩ := biasLoop_spec v _ _ _ _ hq
    obtain ⟨n, h1, h2, h3, h4, h5⟩ := pickAvailable_spec v q.1 q.2
    have hn : n ∉ sh.classes k := fun hn => h3 (b5 n (mem_reverse.2 hn))
    subst hr
    refine ⟨n, ?_, ?_, h4, ?_, ?_, ?_, ?_, ?_⟩
    · simp only [h2, Shared.setColour, if_true]
    · intro u hu
      simp only [h2, Shared.setColour, hu, if_false]
      exact b2 u hu
    · rw [← b4 n (by rw [mem_reverse]; exact hn)]
      exact h3
    · intro k' hk'
      cases hk'
      exact hn
    · rintro c hc ⟨k', hk', hk⟩
      cases hk'
      simp only
      rw [h5 c hc]
      exact b5 c (mem_reverse.2 hk)
    · intro c hc hk
      simp only
      rw [h5 c hc, b4 c (by rw [mem_reverse]; exact hk k rfl)]
    · intro k'
      simp only [h1, b1, Option.some.injEq]
      by_cases hk : k' = k
      · subst hk; simp
      · simp [hk, Ne.symm hk]

theorem scanArgs_spec {sh : Shared} (m : List Mark) : ∀ (args : List String) (av av' : List Bool), scanArgs m sh args av = some av' →
    av'.length = av.length ∧ ∀ c, (∀ a ∈ args, sh.colour a ≠ some c) → av'[c]? = av[c]? := by
  intro args
  induction args with
  | nil => intro av av' h; cases h; exact ⟨rfl, fun _ _ => rfl⟩
  | cons a args ih =>
    intro av av' h
    unfold scanArgs at h
    split at h
    · obtain ⟨av1, h1, h2⟩ := Option.bind_eq_some_iff.1 h
      obtain ⟨i1, i2⟩ := ih _ _ h2
      unfold release at h1
      obtain ⟨c, hc, h1⟩ := Option.bind_eq_some_iff.1 h1
      split at h1
      · cases h1
        refine ⟨by rw [i1]; simp, ?_⟩
        intro d hd
        rw [i2 d fun b hb => hd b (mem_cons_of_mem _ hb), getElem?_set_ne]
        rintro rfl
        exact hd a mem_cons_self hc
      · cases h1
    · obtain ⟨i1, i2⟩ := ih _ _ h
      exact ⟨i1, fun d hd => i2 d fun b hb => hd b (mem_cons_of_mem _ hb)⟩

/-! #### The invariant -/

/-- `H` are the variables whose colours are held. -/
structure Inv (web : String → Option Nat) (H : List String) (sh : Shared) (av : List Bool) : Prop where
  held : ∀ v ∈ H, ∃ c, sh.colour v = some c ∧ av[c]? = some false
  distinct : ∀ v ∈ H, ∀ w ∈ H, v ≠ w → sh.colour v ≠ sh.colour w
  classes : ∀ v k c, web v = some k → sh.colour v = some c → c ∈ sh.classes k

def heldEv : Ev → List String → List String
  | .free v, H => H.filter (· ≠ v)
  | .pick args v, H => v :: H.filter (fun u => u ∉ args)

def heldAfter : List Ev → List String → List String
  | [], H => H
  | e :: es, H => heldAfter es (heldEv e H)

def OKEv (web : String → Option Nat) (H : List String) : Ev → Prop
  | .free v => v ∈ H
  | .pick args v => v ∉ H ∧ ∀ a ∈ args, ∃ k, web a = some k ∧ web v = some k

def OKEvs (web : String → Option Nat) : List String → List Ev → Prop
  | _, [] => True
  | H, e :: es => OKEv web H e ∧ OKEvs web (heldEv e H) es

def evPicks : List Ev → List String
  | [] => []
  | .free _ :: es => evPicks es
  | .pick _ v :: es => v :: evPicks es

def evFrees : List Ev → List String
  | [] => []
  | .free v :: es => v :: evFrees es
  | .pick args _ :: es => args ++ evFrees es

theorem runEv_inv {web : String → Option Nat} {H : List String} {sh : Shared} {av : List Bool} {e : Ev} {r : Shared × List Bool}
    (hi : Inv web H sh av) (hok : OKEv web H e) (h : runEv web e sh av = some r) : Inv web (heldEv e H) r.1 r.2 := by
  cases e with
  | free v =>
    obtain ⟨av', ha, hr⟩ := Option.map_eq_some_iff.1 h
    subst hr
    unfold release at ha
    obtain ⟨c, hc, ha⟩ := Option.bind_eq_some_iff.1 ha
    split at ha
    · cases ha
      refine ⟨?_, ?_, hi.classes⟩
      · intro w hw
        simp only [heldEv, mem_filter, decide_eq_true_eq, ne_eq] at hw
        obtain ⟨d, hd, hf⟩ := hi.held w hw.1
        refine ⟨d, hd, ?_⟩
        simp only
        rw [getElem?_set_ne _, hf]
        rintro rfl
        exact hi.distinct w hw.1 v hok hw.2 (hd.trans hc.symm)
      · intro u hu w hw huw
        simp only [heldEv, mem_filter] at hu hw
        exact hi.distinct u hu.1 w hw.1 huw
    · cases ha
  | pick args v =>
    obtain ⟨hv, hargs⟩ := hok
    obtain ⟨av', ha, hb⟩ := Option.bind_eq_some_iff.1 h
    obtain ⟨_, s2⟩ := scanArgs_spec _ _ _ _ ha
    obtain ⟨n, b1, b2, b3, b4, b5, b6, b7, b8⟩ := biasedPick_spec hb
    -- a colour held before is still in use, and is not the new one
    have key : ∀ w ∈ H, w ∉ args → ∃ c, sh.colour w = some c ∧ r.2[c]? = some false ∧ c ≠ n := by
      intro w hw hwa
      obtain ⟨c, hc, hf⟩ := hi.held w hw
      by_cases hcl : ∃ k, web v = some k ∧ c ∈ sh.classes k
      · have hcn : c ≠ n := by
          obtain ⟨k, hk, hck⟩ := hcl
          rintro rfl
          exact b5 k hk hck
        exact ⟨c, hc, b6 c hcn hcl, hcn⟩
      · have h1 : av'[c]? = some false := by
          rw [s2 c, hf]
          intro a haa hac
          obtain ⟨k, hka, hkv⟩ := hargs a haa
          exact hcl ⟨k, hkv, hi.classes a k c hka hac⟩
        have hcn : c ≠ n := by rintro rfl; exact b4 h1
        refine ⟨c, hc, ?_, hcn⟩
        rw [b7 c hcn fun k hk hck => hcl ⟨k, hk, hck⟩, h1]
    refine ⟨?_, ?_, ?_⟩
    · intro w hw
      simp only [heldEv, mem_cons, mem_filter, decide_eq_true_eq] at hw
      by_cases hwv : w = v
      · subst hwv; exact ⟨n, b1, b3⟩
      · obtain ⟨c, hc, hf, _⟩ := key w (hw.resolve_left hwv).1 (hw.resolve_left hwv).2
        exact ⟨c, by rw [b2 w hwv]; exact hc, hf⟩
    · have key2 : ∀ w ∈ H, w ∉ args → w ≠ v → r.1.colour w ≠ r.1.colour v := by
        intro w hw hwa hwv
        obtain ⟨c, hc, _, hcn⟩ := key w hw hwa
        rw [b2 w hwv, hc, b1]
        simpa using hcn
      intro u hu w hw huw
      simp only [heldEv, mem_cons, mem_filter, decide_eq_true_eq] at hu hw
      rcases hu with rfl | hu
      · rcases hw with rfl | hw
        · exact absurd rfl huw
        · exact (key2 w hw.1 hw.2 (Ne.symm huw)).symm
      · rcases hw with rfl | hw
        · exact key2 u hu.1 hu.2 huw
        · have hu' : u ≠ v := by rintro rfl; exact hv hu.1
          have hw' : w ≠ v := by rintro rfl; exact hv hw.1
          rw [b2 u hu', b2 w hw']
          exact hi.distinct u hu.1 w hw.1 huw
    · intro u k c hk hc
      rw [b8 k]
      by_cases huv : u = v
      · subst huv
        rw [b1] at hc
        cases hc
        rw [if_pos hk]
        simp
      · rw [b2 u huv] at hc
        have := hi.classes u k c hk hc
        split
        · exact mem_append_left _ this
        · exact this

theorem runEvs_inv {web : String → Option Nat} : ∀ {es : List Ev} {H : List String} {sh : Shared} {av : List Bool} {r : Shared × List Bool},
    Inv web H sh av → OKEvs web H es → runEvs web es sh av = some r → Inv web (heldAfter es H) r.1 r.2 := by
  intro es
  induction es with
  | nil => intro H sh av r hi _ h; cases h; exact hi
  | cons e es ih =>
    intro H sh av r hi hok h
    obtain ⟨q, hq, h⟩ := Option.bind_eq_some_iff.1 h
    exact ih (runEv_inv hi hok.1 hq) hok.2 h

/-- Colours of other variables do not change. -/
theorem runEvs_frame {web : String → Option Nat} : ∀ {es : List Ev} {sh : Shared} {av : List Bool} {r : Shared × List Bool},
    runEvs web es sh av = some r → ∀ u, u ∉ evPicks es → r.1.colour u = sh.colour u := by
  intro es
  induction es with
  | nil => intro sh av r h u _; cases h; rfl
  | cons e es ih =>
    intro sh av r h u hu
    obtain ⟨q, hq, h'⟩ := Option.bind_eq_some_iff.1 h
    cases e with
    | free v =>
      obtain ⟨av', _, hr⟩ := Option.map_eq_some_iff.1 hq
      subst hr
      exact ih h' u hu
    | pick args v =>
      rw [evPicks, mem_cons, not_or] at hu
      obtain ⟨av', _, hb⟩ := Option.bind_eq_some_iff.1 hq
      obtain ⟨n, _, b2, _⟩ := biasedPick_spec hb
      rw [ih h' u hu.2, b2 u hu.1]

/-! #### Bookkeeping on events -/

theorem heldAfter_append (p q : List Ev) (H : List String) : heldAfter (p ++ q) H = heldAfter q (heldAfter p H) := by
  induction p generalizing H with
  | nil => rfl
  | cons e p ih => exact ih _

theorem evPicks_append (p q : List Ev) : evPicks (p ++ q) = evPicks p ++ evPicks q := by
  induction p with
  | nil => rfl
  | cons e p ih => cases e <;> simp [evPicks, ih]

theorem evFrees_append (p q : List Ev) : evFrees (p ++ q) = evFrees p ++ evFrees q := by
  induction p with
  | nil => rfl
  | cons e p ih => cases e <;> simp [evFrees, ih]

theorem heldAfter_sub {v : String} : ∀ (es : List Ev) (H : List String), v ∈ heldAfter es H → v ∈ H ∨ v ∈ evPicks es := by
  intro es
  induction es with
  | nil => intro H h; exact .inl h
  | cons e es ih =>
    intro H h
    rcases ih _ h with h' | h'
    · cases e with
      | free u => exact .inl (mem_filter.1 h').1
      | pick args u =>
        rcases mem_cons.1 h' with rfl | h''
        · exact .inr (by simp [evPicks])
        · exact .inl (mem_filter.1 h'').1
    · cases e with
      | free u => exact .inr h'
      | pick args u => exact .inr (mem_cons_of_mem _ h')

theorem heldAfter_mem {v : String} : ∀ (es : List Ev) (H : List String), v ∈ H ∨ v ∈ evPicks es → v ∉ evFrees es → v ∈ heldAfter es H := by
  intro es
  induction es with
  | nil => intro H h _; simpa [evPicks, heldAfter] using h
  | cons e es ih =>
    intro H h hf
    cases e with
    | free u =>
      rw [evFrees, mem_cons, not_or] at hf
      refine ih _ ?_ hf.2
      rcases h with h | h
      · exact .inl (mem_filter.2 ⟨h, by simpa using hf.1⟩)
      · exact .inr h
    | pick args u =>
      rw [evFrees, mem_append, not_or] at hf
      refine ih _ ?_ hf.2
      rcases h with h | h
      · exact .inl (mem_cons_of_mem _ (mem_filter.2 ⟨h, by simpa using hf.1⟩))
      · rcases mem_cons.1 h with rfl | h
        · exact .inl mem_cons_self
        · exact .inr h

/-- A list of events is fine if at every release the variable is stored and not released before, and at every pick it is new. -/
theorem okEvs_of {web : String → Option Nat} : ∀ (es : List Ev) (H : List String),
    (∀ p q v, es = p ++ .free v :: q → (v ∈ H ∨ v ∈ evPicks p) ∧ v ∉ evFrees p) →
    (∀ p q args v, es = p ++ .pick args v :: q → v ∉ H ∧ v ∉ evPicks p ∧ ∀ a ∈ args, ∃ k, web a = some k ∧ web v = some k) → OKEvs web H es := by
  intro es
  induction es with
  | nil => intro H _ _; trivial
  | cons e es ih =>
    intro H h1 h2
    refine ⟨?_, ih _ ?_ ?_⟩
    · cases e with
      | free v =>
        have := (h1 [] es v rfl).1
        simpa [evPicks, OKEv] using this
      | pick args v => exact ⟨(h2 [] es args v rfl).1, (h2 [] es args v rfl).2.2⟩
    · intro p q v he
      obtain ⟨g1, g2⟩ := h1 (e :: p) q v (by rw [he]; rfl)
      cases e with
      | free u =>
        rw [evFrees, mem_cons, not_or] at g2
        refine ⟨?_, g2.2⟩
        rcases g1 with g1 | g1
        · exact .inl (mem_filter.2 ⟨g1, by simpa using g2.1⟩)
        · exact .inr g1
      | pick args u =>
        rw [evFrees, mem_append, not_or] at g2
        refine ⟨?_, g2.2⟩
        rcases g1 with g1 | g1
        · exact .inl (mem_cons_of_mem _ (mem_filter.2 ⟨g1, by simpa using g2.1⟩))
        · rcases mem_cons.1 g1 with rfl | g1
          · exact .inl mem_cons_self
          · exact .inr g1
    · intro p q args v he
      obtain ⟨g1, g2, g3⟩ := h2 (e :: p) q args v (by rw [he]; rfl)
      cases e with
      | free u => exact ⟨fun h => g1 (mem_filter.1 h).1, g2, g3⟩
      | pick args' u =>
        rw [evPicks, mem_cons, not_or] at g2
        refine ⟨?_, g2.2, g3⟩
        intro h
        rcases mem_cons.1 h with h | h
        · exact g2.1 h
        · exact g1 (mem_filter.1 h).1

/-! #### Last uses -/

theorem markStep_used (m : Mark) (v u : String) (s : List Mark × List String) : u ∈ (markStep m v s).2 ↔ u ∈ s.2 ∨ u = v := by
  unfold markStep
  split
  · constructor
    · exact .inl
    · rintro (h | rfl)
      · exact h
      · assumption
  · simp only [mem_cons]
    exact or_comm

theorem markStep_mem {m m' : Mark} {v : String} {s : List Mark × List String} (h : m' ∈ (markStep m v s).1) : m' ∈ s.1 ∨ (m' = m ∧ v ∉ s.2) := by
  unfold markStep at h
  split at h
  · exact .inl h
  · rename_i hv
    rcases mem_cons.1 h with rfl | h
    · exact .inr ⟨rfl, hv⟩
    · exact .inl h

theorem markCopies_used {u : String} : ∀ (l : List String) (s : List Mark × List String), u ∈ (markCopies l s).2 ↔ u ∈ s.2 ∨ u ∈ l := by
  intro l
  induction l with
  | nil => intro s; simp [markCopies]
  | cons v l ih => intro s; rw [markCopies, ih, markStep_used, mem_cons, or_assoc]

theorem markCopies_mem {m : Mark} : ∀ (l : List String) (s : List Mark × List String), m ∈ (markCopies l s).1 →
    m ∈ s.1 ∨ ∃ v ∈ l, m = .copy v ∧ v ∉ s.2 := by
  intro l
  induction l with
  | nil => intro s h; exact .inl h
  | cons v l ih =>
    intro s h
    rcases ih _ h with h | ⟨u, hu, rfl, hs⟩
    · rcases markStep_mem h with h | ⟨rfl, hs⟩
      · exact .inl h
      · exact .inr ⟨v, mem_cons_self, rfl, hs⟩
    · exact .inr ⟨u, mem_cons_of_mem _ hu, rfl, fun h => hs ((markStep_used _ _ _ _).2 (.inl h))⟩

theorem markIds_used {u : String} : ∀ (l : List RId) (k : Nat) (s : List Mark × List String), u ∈ (markIds k l s).2 ↔ u ∈ s.2 ∨ RId.get u ∈ l := by
  intro l
  induction l with
  | nil => intro k s; simp [markIds]
  | cons x l ih =>
    intro k s
    cases x with
    | get v => rw [markIds, markStep_used, ih, mem_cons, or_assoc, or_comm (a := RId.get u ∈ l)]; simp
    | set v => rw [markIds, ih, mem_cons]; simp
    | dupSet v d => rw [markIds, ih, mem_cons]; simp
    | other t => rw [markIds, ih, mem_cons]; simp

theorem markIds_mem {m : Mark} : ∀ (l : List RId) (k : Nat) (s : List Mark × List String), m ∈ (markIds k l s).1 →
    m ∈ s.1 ∨ ∃ l1 v l2, l = l1 ++ .get v :: l2 ∧ m = .pos (k + l1.length) ∧ v ∉ s.2 ∧ RId.get v ∉ l2 := by
  intro l
  induction l with
  | nil => intro k s h; exact .inl h
  | cons x l ih =>
    intro k s h
    have lift : (∃ l1 v l2, l = l1 ++ RId.get v :: l2 ∧ m = .pos (k + 1 + l1.length) ∧ v ∉ s.2 ∧ RId.get v ∉ l2) →
        ∃ l1 v l2, x :: l = l1 ++ RId.get v :: l2 ∧ m = .pos (k + l1.length) ∧ v ∉ s.2 ∧ RId.get v ∉ l2 := by
      rintro ⟨l1, v, l2, rfl, rfl, h1, h2⟩
      exact ⟨x :: l1, v, l2, rfl, by rw [length_cons]; congr 1; omega, h1, h2⟩
    cases x with
    | get v =>
      rw [markIds] at h
      rcases markStep_mem h with h | ⟨rfl, hs⟩
      · exact (ih _ _ h).imp id lift
      · rw [markIds_used, not_or] at hs
        exact .inr ⟨[], v, l, rfl, rfl, hs.1, hs.2⟩
    | set v => rw [markIds] at h; exact (ih _ _ h).imp id lift
    | dupSet v d => rw [markIds] at h; exact (ih _ _ h).imp id lift
    | other t => rw [markIds] at h; exact (ih _ _ h).imp id lift

theorem markArgs_used {u : String} : ∀ (l : List String) (s : List Mark × List String), u ∈ (markArgs l s).2 ↔ u ∈ s.2 ∨ u ∈ l := by
  intro l
  induction l with
  | nil => intro s; simp [markArgs]
  | cons v l ih => intro s; rw [markArgs, ih, markStep_used, mem_cons, or_assoc]

theorem markArgs_mem {m : Mark} : ∀ (l : List String) (s : List Mark × List String), m ∈ (markArgs l s).1 →
    m ∈ s.1 ∨ ∃ v ∈ l, m = .arg v ∧ v ∉ s.2 := by
  intro l
  induction l with
  | nil => intro s h; exact .inl h
  | cons v l ih =>
    intro s h
    rcases ih _ h with h | ⟨u, hu, rfl, hs⟩
    · rcases markStep_mem h with h | ⟨rfl, hs⟩
      · exact .inl h
      · exact .inr ⟨v, mem_cons_self, rfl, hs⟩
    · exact .inr ⟨u, mem_cons_of_mem _ hu, rfl, fun h => hs ((markStep_used _ _ _ _).2 (.inl h))⟩

theorem markPhis_used {u : String} (ts : List String) : ∀ (l : List (String × List String)) (s : List Mark × List String),
    u ∈ (markPhis ts l s).2 ↔ u ∈ s.2 ∨ ∃ p ∈ l, p.1 ∈ ts ∧ u ∈ p.2 := by
  intro l
  induction l with
  | nil => intro s; simp [markPhis]
  | cons p l ih =>
    intro s
    rw [markPhis, ih, exists_mem_cons_iff, ← or_assoc]
    apply or_congr_left
    split
    · rename_i h
      rw [markArgs_used]
      simp [h]
    · rename_i h
      simp [h]

theorem markPhis_mem {m : Mark} (ts : List String) : ∀ (l : List (String × List String)) (s : List Mark × List String), m ∈ (markPhis ts l s).1 →
    m ∈ s.1 ∨ ∃ v, m = .arg v ∧ v ∉ s.2 := by
  intro l
  induction l with
  | nil => intro s h; exact .inl h
  | cons p l ih =>
    intro s h
    rw [markPhis] at h
    rcases ih _ h with h | ⟨v, rfl, hv⟩
    · split at h
      · rcases markArgs_mem _ _ h with h | ⟨v, _, rfl, hv⟩
        · exact .inl h
        · exact .inr ⟨v, rfl, hv⟩
      · exact .inl h
    · refine .inr ⟨v, rfl, ?_⟩
      split at hv
      · rw [markArgs_used, not_or] at hv; exact hv.1
      · exact hv

theorem markLastUses_used (used : List String) (b : RBlock) (u : String) : u ∈ (markLastUses used b).2 ↔ u ∈ used ∨ Uses b u := by
  unfold markLastUses Uses
  rw [markPhis_used, markIds_used, markCopies_used, or_assoc, or_assoc]
  apply or_congr_right
  rw [← or_assoc, or_comm (a := u ∈ b.copies), or_assoc]

theorem mark_arg {used : List String} {b : RBlock} {v : String} (h : Mark.arg v ∈ (markLastUses used b).1) :
    v ∉ used ∧ v ∉ b.copies ∧ RId.get v ∉ b.ids := by
  rcases markPhis_mem _ _ _ h with h | ⟨u, hu, hs⟩
  · rcases markIds_mem _ _ _ h with h | ⟨_, _, _, _, h, _⟩
    · rcases markCopies_mem _ _ h with h | ⟨_, _, h, _⟩
      · cases h
      · cases h
    · cases h
  · cases hu
    rw [markIds_used, markCopies_used, not_or, not_or] at hs
    exact ⟨hs.1.1, hs.1.2, hs.2⟩

theorem mark_pos {used : List String} {b : RBlock} {i : Nat} (h : Mark.pos i ∈ (markLastUses used b).1) :
    ∃ l1 v l2, b.ids = l1 ++ .get v :: l2 ∧ i = l1.length ∧ v ∉ used ∧ v ∉ b.copies ∧ RId.get v ∉ l2 := by
  rcases markPhis_mem _ _ _ h with h | ⟨u, hu, hs⟩
  · rcases markIds_mem _ _ _ h with h | ⟨l1, v, l2, e, h, h1, h2⟩
    · rcases markCopies_mem _ _ h with h | ⟨_, _, h, _⟩
      · cases h
      · cases h
    · rw [markCopies_used, not_or] at h1
      cases h
      exact ⟨l1, v, l2, e, by simp, h1.1, h1.2, h2⟩
  · cases hu

theorem mark_copy {used : List String} {b : RBlock} {v : String} (h : Mark.copy v ∈ (markLastUses used b).1) : v ∉ used := by
  rcases markPhis_mem _ _ _ h with h | ⟨u, hu, hs⟩
  · rcases markIds_mem _ _ _ h with h | ⟨_, _, _, _, h, _⟩
    · rcases markCopies_mem _ _ h with h | ⟨_, _, h, hs⟩
      · cases h
      · cases h; exact hs
    · cases h
  · cases hu

theorem usedIn_mem {u : String} : ∀ (f : DomForest), u ∈ usedIn f ↔ ∃ anc b ch, In f anc b ch ∧ Uses b u := by
  intro f
  induction f with
  | nil =>
    simp only [usedIn, not_mem_nil, false_iff]
    rintro ⟨_, _, _, h, _⟩
    cases h
  | node b ch rest ih1 ih2 =>
    rw [usedIn, mem_append, markLastUses_used, ih1, ih2]
    constructor
    · rintro ((⟨anc, b', ch', h, hu⟩ | hu) | ⟨anc, b', ch', h, hu⟩)
      · exact ⟨_, _, _, .inside _ _ _ _ _ _ h, hu⟩
      · exact ⟨_, _, _, .here _ _ _, hu⟩
      · exact ⟨_, _, _, .next _ _ _ _ _ _ h, hu⟩
    · rintro ⟨anc, b', ch', h, hu⟩
      cases h with
      | here => exact .inl (.inr hu)
      | inside _ _ _ anc' _ _ h => exact .inl (.inl ⟨_, _, _, h, hu⟩)
      | next _ _ _ _ _ _ h => exact .inr ⟨_, _, _, h, hu⟩

/-! #### The events of a block -/

theorem phiEvs_picks (m : List Mark) (ts : List String) (phis : List (String × List String)) :
    evPicks (phiEvs m ts phis) = (phis.filter fun p => p.1 ∈ ts).map (·.1) := by
  unfold phiEvs
  induction phis.filter fun p => p.1 ∈ ts with
  | nil => rfl
  | cons p l ih => rw [map_cons, evPicks, map_cons, ih]

theorem phiEvs_frees {m : List Mark} {ts : List String} {phis : List (String × List String)} {v : String} (h : v ∈ evFrees (phiEvs m ts phis)) :
    Mark.arg v ∈ m := by
  unfold phiEvs at h
  revert h
  induction phis.filter fun p => p.1 ∈ ts with
  | nil => intro h; cases h
  | cons p l ih =>
    intro h
    rw [map_cons, evFrees, mem_append] at h
    rcases h with h | h
    · simpa using (mem_filter.1 h).2
    · exact ih h

theorem idEvs_picks (m : List Mark) : ∀ (l : List RId) (k : Nat), evPicks (idEvs m k l) = idStores l := by
  intro l
  induction l with
  | nil => intro k; rfl
  | cons x l ih =>
    intro k
    cases x with
    | get v => unfold idEvs; split <;> simp [evPicks, idStores, ih]
    | set v => simp [idEvs, evPicks, idStores, ih]
    | dupSet v d => simp [idEvs, evPicks, idStores, ih]
    | other t => simp [idEvs, idStores, ih]

theorem idEvs_frees {m : List Mark} {v : String} : ∀ (l : List RId) (k : Nat), v ∈ evFrees (idEvs m k l) →
    ∃ l1 l2, l = l1 ++ .get v :: l2 ∧ Mark.pos (k + l1.length) ∈ m := by
  intro l
  induction l with
  | nil => intro k h; cases h
  | cons x l ih =>
    intro k h
    have lift : (∃ l1 l2, l = l1 ++ RId.get v :: l2 ∧ Mark.pos (k + 1 + l1.length) ∈ m) →
        ∃ l1 l2, x :: l = l1 ++ RId.get v :: l2 ∧ Mark.pos (k + l1.length) ∈ m := by
      rintro ⟨l1, l2, rfl, hm⟩
      refine ⟨x :: l1, l2, rfl, ?_⟩
      rw [length_cons, show k + (l1.length + 1) = k + 1 + l1.length by omega]
      exact hm
    cases x with
    | get u =>
      unfold idEvs at h
      split at h
      · rename_i hm
        rw [evFrees, mem_cons] at h
        rcases h with rfl | h
        · exact ⟨[], l, rfl, hm⟩
        · exact lift (ih _ h)
      · exact lift (ih _ h)
    | set u => simp only [idEvs, evFrees, nil_append] at h; exact lift (ih _ h)
    | dupSet u d => simp only [idEvs, evFrees, nil_append] at h; exact lift (ih _ h)
    | other t => simp only [idEvs] at h; exact lift (ih _ h)

theorem idEvs_append (m : List Mark) : ∀ (l1 l2 : List RId) (k : Nat), idEvs m k (l1 ++ l2) = idEvs m k l1 ++ idEvs m (k + l1.length) l2 := by
  intro l1
  induction l1 with
  | nil => intro l2 k; rfl
  | cons x l1 ih =>
    intro l2 k
    have e : k + (x :: l1).length = k + 1 + l1.length := by rw [length_cons]; omega
    rw [e]
    cases x with
    | get u => simp only [cons_append, idEvs]; split <;> simp [ih]
    | set u => simp [idEvs, ih]
    | dupSet u d => simp [idEvs, ih]
    | other t => simp [idEvs, ih]

/-- Splitting the events at a release. -/
theorem idEvs_split_free {m : List Mark} {v : String} : ∀ (l : List RId) (k : Nat) (p q : List Ev), idEvs m k l = p ++ .free v :: q →
    ∃ l1 l2, l = l1 ++ .get v :: l2 ∧ p = idEvs m k l1 ∧ Mark.pos (k + l1.length) ∈ m := by
  intro l
  induction l with
  | nil => intro k p q h; simp [idEvs] at h
  | cons x l ih =>
    intro k p q h
    have lift : ∀ (e : List Ev), (∀ l', idEvs m k (x :: l') = e ++ idEvs m (k + 1) l') → ∀ p', p = e ++ p' → idEvs m (k + 1) l = p' ++ .free v :: q →
        ∃ l1 l2, x :: l = l1 ++ .get v :: l2 ∧ p = idEvs m k l1 ∧ Mark.pos (k + l1.length) ∈ m := by
      intro e he p' hp hl
      obtain ⟨l1, l2, rfl, hp', hm⟩ := ih _ _ _ hl
      refine ⟨x :: l1, l2, rfl, by rw [hp, he, hp'], ?_⟩
      rw [length_cons, show k + (l1.length + 1) = k + 1 + l1.length by omega]
      exact hm
    cases x with
    | get u =>
      by_cases hm : Mark.pos k ∈ m
      · have he : ∀ l', idEvs m k (.get u :: l') = [.free u] ++ idEvs m (k + 1) l' := by intro l'; simp [idEvs, hm]
        rw [he] at h
        cases p with
        | nil =>
          simp only [singleton_append, nil_append, cons.injEq, Ev.free.injEq] at h
          obtain ⟨rfl, _⟩ := h
          exact ⟨[], l, rfl, rfl, hm⟩
        | cons e p =>
          simp only [singleton_append, cons_append, cons.injEq] at h
          exact lift _ he p (by rw [← h.1]; rfl) h.2
      · have he : ∀ l', idEvs m k (.get u :: l') = [] ++ idEvs m (k + 1) l' := by intro l'; simp [idEvs, hm]
        rw [he] at h
        exact lift _ he p rfl h
    | set u =>
      have he : ∀ l', idEvs m k (.set u :: l') = [.pick [] u] ++ idEvs m (k + 1) l' := by intro l'; simp [idEvs]
      rw [he] at h
      cases p with
      | nil => simp at h
      | cons e p =>
        simp only [singleton_append, cons_append, cons.injEq] at h
        exact lift _ he p (by rw [← h.1]; rfl) h.2
    | dupSet u d =>
      have he : ∀ l', idEvs m k (.dupSet u d :: l') = [.pick [] u] ++ idEvs m (k + 1) l' := by intro l'; simp [idEvs]
      rw [he] at h
      cases p with
      | nil => simp at h
      | cons e p =>
        simp only [singleton_append, cons_append, cons.injEq] at h
        exact lift _ he p (by rw [← h.1]; rfl) h.2
    | other t =>
      have he : ∀ l', idEvs m k (.other t :: l') = [] ++ idEvs m (k + 1) l' := by intro l'; simp [idEvs]
      rw [he] at h
      exact lift _ he p rfl h

theorem copyEvs_picks (m : List Mark) (l : List String) : evPicks (copyEvs m l) = [] := by
  unfold copyEvs
  induction l.filter fun v => Mark.copy v ∈ m with
  | nil => rfl
  | cons v l ih => rw [map_cons, evPicks, ih]

theorem evFrees_map_free (l : List String) : evFrees (l.map .free) = l := by
  induction l with
  | nil => rfl
  | cons v l ih => rw [map_cons, evFrees, ih]

theorem blockEvs_picks (b : RBlock) (m : List Mark) : evPicks (blockEvs b m) = phiStores b ++ idStores b.ids := by
  unfold blockEvs phiStores
  rw [evPicks_append, evPicks_append, phiEvs_picks, idEvs_picks, copyEvs_picks, append_nil]

theorem blockEvs_frees {b : RBlock} {ch : DomForest} {v : String} (h : v ∈ evFrees (blockEvs b (lastUse b ch))) : v ∉ usedIn ch := by
  unfold blockEvs at h
  rw [evFrees_append, evFrees_append, mem_append, mem_append] at h
  rcases h with (h | h) | h
  · exact (mark_arg (phiEvs_frees h)).1
  · obtain ⟨l1, l2, hl, hm⟩ := idEvs_frees _ _ h
    obtain ⟨l1', v', l2', hl', hlen, h1, _, _⟩ := mark_pos hm
    rw [hl] at hl'
    obtain ⟨_, he⟩ := append_inj hl' (by omega)
    cases he
    exact h1
  · unfold copyEvs at h
    rw [evFrees_map_free] at h
    have hm : Mark.copy v ∈ lastUse b ch := by simpa using (mem_filter.1 h).2
    exact mark_copy hm

theorem append_cons_cases {α : Type} {a : α} : ∀ {l1 l2 p q : List α}, l1 ++ l2 = p ++ a :: q →
    (∃ q', l1 = p ++ a :: q' ∧ q = q' ++ l2) ∨ ∃ p', p = l1 ++ p' ∧ l2 = p' ++ a :: q := by
  intro l1 l2 p q h
  rcases append_eq_append_iff.1 h with ⟨r, h1, h2⟩ | ⟨r, h1, h2⟩
  · exact .inr ⟨r, h1, h2⟩
  · cases r with
    | nil => exact .inr ⟨[], by simpa using h1.symm, by simpa using h2.symm⟩
    | cons x r =>
      rw [cons_append, cons.injEq] at h2
      obtain ⟨rfl, h2⟩ := h2
      exact .inl ⟨r, h1, h2⟩

theorem in_usedIn {f : DomForest} {anc : List RBlock} {b : RBlock} {ch : DomForest} {v : String} (h : In f anc b ch) (hu : Uses b v ∨ v ∈ usedIn ch) :
    v ∈ usedIn f := by
  rcases hu with hu | hu
  · exact (usedIn_mem f).2 ⟨_, _, _, h, hu⟩
  · induction h with
    | here b ch rest => rw [usedIn, mem_append, markLastUses_used]; exact .inl (.inl hu)
    | inside b ch rest anc b' ch' _ ih => rw [usedIn, mem_append, markLastUses_used]; exact .inl (.inl (ih hu))
    | next b ch rest anc b' ch' _ ih => rw [usedIn, mem_append]; exact .inr (ih hu)

theorem usedAfter_usedIn {f : DomForest} {anc : List RBlock} {b : RBlock} {ch : DomForest} {i : Nat} {v : String} (h : In f anc b ch)
    (hu : UsedAfter b ch i v) : v ∈ usedIn f := by
  refine in_usedIn h ?_
  rcases hu with hu | hu | hu
  · exact .inl (.inl (mem_of_mem_drop hu))
  · exact .inl (.inr (.inl hu))
  · exact .inr ((usedIn_mem _).2 hu)

theorem idStores_take {v : String} : ∀ (l : List RId) (i : Nat), v ∈ idStores (l.take i) → v ∈ idStores l := by
  intro l
  induction l with
  | nil => intro i h; simpa using h
  | cons x l ih =>
    intro i h
    cases i with
    | zero => cases h
    | succ i =>
      rw [take_succ_cons] at h
      cases x with
      | get u => exact ih i h
      | set u => exact (mem_cons.1 h).elim (fun e => by rw [e]; exact mem_cons_self) fun h => mem_cons_of_mem _ (ih i h)
      | dupSet u d => exact (mem_cons.1 h).elim (fun e => by rw [e]; exact mem_cons_self) fun h => mem_cons_of_mem _ (ih i h)
      | other t => exact ih i h

theorem stored_mem {f : DomForest} {anc : List RBlock} {b : RBlock} {ch : DomForest} {i : Nat} {v : String} (h : In f anc b ch)
    (hs : StoredBefore anc b i v) : v ∈ allStores f := by
  induction h with
  | here b ch rest =>
    rcases hs with ⟨a, ha, _⟩ | hs | hs
    · cases ha
    · simp only [allStores, mem_append]; exact .inl (.inl (.inl hs))
    · simp only [allStores, mem_append]; exact .inl (.inl (.inr (idStores_take _ _ hs)))
  | inside b ch rest anc b' ch' _ ih =>
    simp only [allStores, mem_append]
    rcases hs with ⟨a, ha, hv⟩ | hs
    · rcases mem_cons.1 ha with rfl | ha
      · exact .inl (.inl (mem_append.1 hv))
      · exact .inl (.inr (ih (.inl ⟨a, ha, hv⟩)))
    · exact .inl (.inr (ih (.inr hs)))
  | next b ch rest anc b' ch' _ ih =>
    simp only [allStores, mem_append]
    exact .inr (ih hs)

def OKForest (web : String → Option Nat) : List String → DomForest → Prop
  | _, .nil => True
  | H, .node b ch rest =>
    OKEvs web H (blockEvs b (lastUse b ch)) ∧ OKForest web (heldAfter (blockEvs b (lastUse b ch)) H) ch ∧ OKForest web H rest

theorem phiEvs_split {m : List Mark} {ts : List String} {phis : List (String × List String)} {e : Ev} (h : e ∈ phiEvs m ts phis) :
    ∃ p ∈ phis, p.1 ∈ ts ∧ e = .pick (p.2.filter fun a => Mark.arg a ∈ m) p.1 := by
  obtain ⟨p, hp, rfl⟩ := mem_map.1 h
  exact ⟨p, (mem_filter.1 hp).1, by simpa using (mem_filter.1 hp).2, rfl⟩

theorem idEvs_pick {m : List Mark} {args : List String} {v : String} : ∀ (l : List RId) (k : Nat), Ev.pick args v ∈ idEvs m k l → args = [] := by
  intro l
  induction l with
  | nil => intro k h; cases h
  | cons x l ih =>
    intro k h
    cases x with
    | get u =>
      unfold idEvs at h
      split at h
      · exact ih _ ((mem_cons.1 h).resolve_left (by simp))
      · exact ih _ h
    | set u =>
      rcases mem_cons.1 h with h | h
      · cases h; rfl
      · exact ih _ h
    | dupSet u d =>
      rcases mem_cons.1 h with h | h
      · cases h; rfl
      · exact ih _ h
    | other t => exact ih _ h

/-- The events before a point release nothing that is used after the point. -/
theorem frees_before {b : RBlock} {ch : DomForest} {i : Nat} {v : String} (hu : UsedAfter b ch i v) :
    v ∉ evFrees (phiEvs (lastUse b ch) b.toSolve b.phis ++ idEvs (lastUse b ch) 0 (b.ids.take i)) := by
  rw [evFrees_append, mem_append]
  rintro (h | h)
  · obtain ⟨h1, h2, h3⟩ := mark_arg (phiEvs_frees h)
    rcases hu with hu | hu | hu
    · exact h3 (mem_of_mem_drop hu)
    · exact h2 hu
    · exact h1 ((usedIn_mem _).2 hu)
  · obtain ⟨l1, l2, hl, hm⟩ := idEvs_frees _ _ h
    obtain ⟨l1', v', l2', hl', hlen, h1, h2, h3⟩ := mark_pos hm
    have hids : b.ids = l1 ++ .get v :: (l2 ++ b.ids.drop i) := by
      conv => lhs; rw [← take_append_drop i b.ids, hl]
      simp
    rw [hids] at hl'
    obtain ⟨_, he⟩ := append_inj hl' (by omega)
    rw [cons.injEq, RId.get.injEq] at he
    obtain ⟨rfl, he⟩ := he
    rcases hu with hu | hu | hu
    · exact h3 (by rw [← he]; exact mem_append_right _ hu)
    · exact h2 hu
    · exact h1 ((usedIn_mem _).2 hu)

theorem blockEvs_ok {web : String → Option Nat} {b : RBlock} {ch : DomForest} {H : List String}
    (hn : (phiStores b ++ idStores b.ids).Nodup) (hH : ∀ v ∈ H, v ∉ phiStores b ++ idStores b.ids)
    (hg : ∀ (i : Nat) (v : String), b.ids[i]? = some (.get v) → v ∈ H ∨ v ∈ phiStores b ∨ v ∈ idStores (b.ids.take i))
    (hc : b.copies.Nodup) (hc' : ∀ v ∈ b.copies, v ∈ H ∨ v ∈ phiStores b ∨ v ∈ idStores b.ids)
    (hw : ∀ p ∈ b.phis, p.1 ∈ b.toSolve → (∃ k, web p.1 = some k) ∧ ∀ a ∈ p.2, web a = web p.1) :
    OKEvs web H (blockEvs b (lastUse b ch)) := by
  apply okEvs_of
  · intro p q v he
    unfold blockEvs at he
    rcases append_cons_cases he with ⟨q', h1, _⟩ | ⟨p', rfl, h2⟩
    · rcases append_cons_cases h1 with ⟨q'', h1', _⟩ | ⟨p', rfl, h2⟩
      · have : Ev.free v ∈ phiEvs (lastUse b ch) b.toSolve b.phis := by rw [h1']; simp
        obtain ⟨_, _, _, h⟩ := phiEvs_split this
        cases h
      · obtain ⟨l1, l2, hl, rfl, hm⟩ := idEvs_split_free _ _ _ _ h2
        have hget := hg l1.length v (by rw [hl]; simp)
        have htake : b.ids.take l1.length = l1 := by rw [hl]; simp
        rw [htake] at hget
        constructor
        · rw [evPicks_append, phiEvs_picks, idEvs_picks, mem_append]
          exact hget
        · have := frees_before (b := b) (ch := ch) (i := l1.length) (v := v) (.inl (by rw [hl]; simp))
          rw [htake] at this
          exact this
    · have hv : v ∈ b.copies := by
        have : Ev.free v ∈ copyEvs (lastUse b ch) b.copies := by rw [h2]; simp
        obtain ⟨u, hu, e⟩ := mem_map.1 this
        cases e
        exact (mem_filter.1 hu).1
      constructor
      · rw [evPicks_append, evPicks_append, phiEvs_picks, idEvs_picks, mem_append, mem_append]
        rcases hc' v hv with h | h | h
        · exact .inl h
        · exact .inr (.inl (.inl h))
        · exact .inr (.inl (.inr h))
      · rw [evFrees_append, mem_append, not_or]
        constructor
        · have := frees_before (b := b) (ch := ch) (i := b.ids.length) (v := v) (.inr (.inl hv))
          rw [take_length] at this
          exact this
        · intro hf
          have hnd := hc.filter (fun v => decide (Mark.copy v ∈ lastUse b ch))
          have e := congrArg evFrees h2
          unfold copyEvs at e
          rw [evFrees_map_free, evFrees_append, evFrees] at e
          rw [e, nodup_append] at hnd
          exact hnd.2.2 v hf v mem_cons_self rfl
  · intro p q args v he
    have hp : evPicks (blockEvs b (lastUse b ch)) = evPicks p ++ v :: evPicks q := by rw [he, evPicks_append]; rfl
    rw [blockEvs_picks] at hp
    refine ⟨fun h => hH v h (by rw [hp]; simp), ?_, ?_⟩
    · rw [hp, nodup_append] at hn
      exact fun h => hn.2.2 v h v mem_cons_self rfl
    · have hmem : Ev.pick args v ∈ blockEvs b (lastUse b ch) := by rw [he]; simp
      unfold blockEvs at hmem
      rw [mem_append, mem_append] at hmem
      rcases hmem with (h | h) | h
      · obtain ⟨ph, hph, hts, e⟩ := phiEvs_split h
        cases e
        obtain ⟨⟨k, hk⟩, hall⟩ := hw ph hph hts
        intro a ha
        exact ⟨k, by rw [hall a (mem_filter.1 ha).1]; exact hk, hk⟩
      · rw [idEvs_pick _ _ h]; simp
      · obtain ⟨_, _, e⟩ := mem_map.1 h
        cases e

theorem okForest {web : String → Option Nat} : ∀ (f : DomForest) (pre : List RBlock) (H : List String), (allStores f).Nodup →
    (∀ v ∈ H, v ∉ allStores f) →
    (∀ v, (∃ a ∈ pre, v ∈ phiStores a ++ idStores a.ids) → v ∈ usedIn f → v ∈ H) →
    (∀ anc b ch, In f anc b ch → (∀ (i : Nat) (v : String), b.ids[i]? = some (.get v) → StoredBefore (pre ++ anc) b i v) ∧
      b.copies.Nodup ∧ ∀ v ∈ b.copies, StoredBefore (pre ++ anc) b b.ids.length v) →
    (∀ anc b ch, In f anc b ch → ∀ p ∈ b.phis, p.1 ∈ b.toSolve → (∃ k, web p.1 = some k) ∧ ∀ a ∈ p.2, web a = web p.1) →
    OKForest web H f := by
  intro f
  induction f with
  | nil => intro _ _ _ _ _ _ _; trivial
  | node b ch rest ih1 ih2 =>
    intro pre H hn hH hpre hst hw
    have hst0 := hst [] b ch (.here _ _ _)
    rw [append_nil] at hst0
    have hn' : (phiStores b ++ idStores b.ids).Nodup ∧ (allStores ch).Nodup ∧ (allStores rest).Nodup ∧
        (∀ v ∈ phiStores b ++ idStores b.ids, v ∉ allStores ch) := by
      simp only [allStores] at hn
      rw [nodup_append, nodup_append] at hn
      exact ⟨hn.1.1, hn.1.2.1, hn.2.1, fun v h1 h2 => hn.1.2.2 v h1 v h2 rfl⟩
    obtain ⟨n1, n2, n3, n4⟩ := hn'
    have hHb : ∀ v ∈ H, v ∉ phiStores b ++ idStores b.ids := fun v hv h => hH v hv (by
      simp only [allStores, mem_append]; exact .inl (.inl (mem_append.1 h)))
    refine ⟨blockEvs_ok n1 hHb ?_ hst0.2.1 ?_ (hw [] b ch (.here _ _ _)), ih1 (pre ++ [b]) _ n2 ?_ ?_ ?_ ?_, ih2 pre H n3 ?_ ?_ ?_ ?_⟩
    · intro i v hv
      rcases hst0.1 i v hv with h | h
      · exact .inl (hpre v h (in_usedIn (.here _ _ _) (.inl (.inl (mem_of_getElem? hv)))))
      · exact .inr h
    · intro v hv
      rcases hst0.2.2 v hv with h | h
      · exact .inl (hpre v h (in_usedIn (.here _ _ _) (.inl (.inr (.inl hv)))))
      · rw [take_length] at h
        exact .inr h
    · intro v hv
      rcases heldAfter_sub _ _ hv with h | h
      · exact fun h' => hH v h (by simp only [allStores, mem_append]; exact .inl (.inr h'))
      · rw [blockEvs_picks] at h
        exact n4 v h
    · rintro v ⟨a, ha, hv⟩ hu
      have hnf : v ∉ evFrees (blockEvs b (lastUse b ch)) := fun h => blockEvs_frees h hu
      apply heldAfter_mem _ _ _ hnf
      rw [blockEvs_picks]
      rcases mem_append.1 ha with ha | ha
      · exact .inl (hpre v ⟨a, ha, hv⟩ (in_usedIn (.here _ _ _) (.inr hu)))
      · rw [mem_singleton] at ha
        subst ha
        exact .inr hv
    · intro anc b' ch' hin
      rw [append_assoc]
      exact hst (b :: anc) b' ch' (.inside _ _ _ _ _ _ hin)
    · intro anc b' ch' hin
      exact hw _ _ _ (.inside _ _ _ _ _ _ hin)
    · intro v hv h
      exact hH v hv (by simp only [allStores, mem_append]; exact .inr h)
    · intro v hv hu
      exact hpre v hv (by rw [usedIn, mem_append]; exact .inr hu)
    · intro anc b' ch' hin
      exact hst anc b' ch' (.next _ _ _ _ _ _ hin)
    · intro anc b' ch' hin
      exact hw _ _ _ (.next _ _ _ _ _ _ hin)

theorem assign_main {web : String → Option Nat} : ∀ (f : DomForest) (H : List String) (sh sh' : Shared) (av : List Bool), Inv web H sh av →
    OKForest web H f → (allStores f).Nodup → (∀ v ∈ H, v ∉ allStores f) → assignForest web f sh av = some sh' →
    (∀ v, v ∉ allStores f → sh'.colour v = sh.colour v) ∧
    (∀ v k c, web v = some k → sh'.colour v = some c → c ∈ sh'.classes k) ∧
    ∀ anc b ch, In f anc b ch → ∀ i v w, v ≠ w → (v ∈ H ∨ StoredBefore anc b i v) → (w ∈ H ∨ StoredBefore anc b i w) →
      UsedAfter b ch i v → UsedAfter b ch i w → sh'.colour v ≠ sh'.colour w := by
  intro f
  induction f with
  | nil =>
    intro H sh sh' av hi _ _ _ h
    cases h
    exact ⟨fun _ _ => rfl, hi.classes, fun _ _ _ h => by cases h⟩
  | node b ch rest ih1 ih2 =>
    intro H sh sh' av hi hok hn hH h
    rw [assignForest, scanBlock_evs] at h
    obtain ⟨r, hr, h⟩ := Option.bind_eq_some_iff.1 h
    obtain ⟨sh2, hch, hrest⟩ := Option.bind_eq_some_iff.1 h
    obtain ⟨ok1, ok2, ok3⟩ := hok
    simp only [allStores] at hn
    rw [nodup_append, nodup_append] at hn
    obtain ⟨⟨n1, n2, n4⟩, n3, n5⟩ := hn
    have hbs : ∀ v ∈ evPicks (blockEvs b (lastUse b ch)), v ∈ phiStores b ++ idStores b.ids := by
      intro v hv; rw [blockEvs_picks] at hv; exact hv
    have hi1 := runEvs_inv hi ok1 hr
    have hH1 : ∀ v ∈ heldAfter (blockEvs b (lastUse b ch)) H, v ∉ allStores ch := by
      intro v hv
      rcases heldAfter_sub _ _ hv with h' | h'
      · exact fun h'' => hH v h' (by simp only [allStores, mem_append]; exact .inl (.inr h''))
      · exact fun h'' => n4 v (hbs v h') v h'' rfl
    obtain ⟨c1, c2, c3⟩ := ih1 _ _ _ _ hi1 ok2 n2 hH1 hch
    have frame1 : ∀ v ∈ H, sh2.colour v = sh.colour v := by
      intro v hv
      have hv' := hH v hv
      simp only [allStores, mem_append, not_or] at hv'
      rw [c1 v hv'.1.2, runEvs_frame hr v fun h' => by
        have := hbs v h'
        rw [mem_append] at this
        exact this.elim hv'.1.1.1 hv'.1.1.2]
    have hi2 : Inv web H sh2 av := by
      refine ⟨?_, ?_, c2⟩
      · intro v hv; rw [frame1 v hv]; exact hi.held v hv
      · intro v hv w hw hvw; rw [frame1 v hv, frame1 w hw]; exact hi.distinct v hv w hw hvw
    have hH2 : ∀ v ∈ H, v ∉ allStores rest := fun v hv h' => hH v hv (by simp only [allStores, mem_append]; exact .inr h')
    obtain ⟨d1, d2, d3⟩ := ih2 _ _ _ _ hi2 ok3 n3 hH2 hrest
    refine ⟨?_, d2, ?_⟩
    · intro v hv
      simp only [allStores, mem_append, not_or] at hv
      rw [d1 v hv.2, c1 v hv.1.2, runEvs_frame hr v fun h' => by
        have := hbs v h'
        rw [mem_append] at this
        exact this.elim hv.1.1.1 hv.1.1.2]
    · intro anc b' ch' hin i v w hvw hv hw hvu hwu
      cases hin with
      | here =>
        -- stop in the middle of the block
        have hsplit : blockEvs b (lastUse b ch) = (phiEvs (lastUse b ch) b.toSolve b.phis ++ idEvs (lastUse b ch) 0 (b.ids.take i))
            ++ (idEvs (lastUse b ch) (0 + (b.ids.take i).length) (b.ids.drop i) ++ copyEvs (lastUse b ch) b.copies) := by
          unfold blockEvs
          conv => lhs; rw [← take_append_drop i b.ids, idEvs_append]
          simp
        rw [hsplit, runEvs_append] at hr
        obtain ⟨q, hq, hr'⟩ := Option.bind_eq_some_iff.1 hr
        have ok1' : OKEvs web H (phiEvs (lastUse b ch) b.toSolve b.phis ++ idEvs (lastUse b ch) 0 (b.ids.take i)) := by
          rw [hsplit] at ok1
          have : ∀ (p q : List Ev) (H : List String), OKEvs web H (p ++ q) → OKEvs web H p := by
            intro p
            induction p with
            | nil => intro _ _ _; trivial
            | cons e p ih => intro q H h; exact ⟨h.1, ih q _ h.2⟩
          exact this _ _ _ ok1
        have hiq := runEvs_inv hi ok1' hq
        have hpk : evPicks (phiEvs (lastUse b ch) b.toSolve b.phis ++ idEvs (lastUse b ch) 0 (b.ids.take i)) = phiStores b ++ idStores (b.ids.take i) := by
          rw [evPicks_append, phiEvs_picks, idEvs_picks]; rfl
        have hpk2 : evPicks (blockEvs b (lastUse b ch)) = phiStores b ++ idStores (b.ids.take i) ++
            evPicks (idEvs (lastUse b ch) (0 + (b.ids.take i).length) (b.ids.drop i) ++ copyEvs (lastUse b ch) b.copies) := by
          rw [hsplit, evPicks_append, hpk]
        rw [blockEvs_picks] at hpk2
        have key : ∀ u, (u ∈ H ∨ StoredBefore [] b i u) → UsedAfter b ch i u →
            u ∈ heldAfter (phiEvs (lastUse b ch) b.toSolve b.phis ++ idEvs (lastUse b ch) 0 (b.ids.take i)) H ∧ sh'.colour u = q.1.colour u := by
          intro u hu huu
          have hu' : u ∈ H ∨ u ∈ phiStores b ++ idStores (b.ids.take i) := by
            rcases hu with hu | ⟨a, ha, _⟩ | hu
            · exact .inl hu
            · cases ha
            · exact .inr (mem_append.2 hu)
          have hb' : u ∈ H ∨ u ∈ phiStores b ++ idStores b.ids := by
            rcases hu' with hu' | hu'
            · exact .inl hu'
            · exact .inr (by rw [hpk2]; exact mem_append_left _ hu')
          refine ⟨heldAfter_mem _ _ (by rw [hpk]; exact hu') (frees_before huu), ?_⟩
          rw [d1 u, c1 u, runEvs_frame hr' u]
          · intro h'
            rcases hu' with hu' | hu'
            · refine hH u hu' ?_
              simp only [allStores]
              rw [hpk2]
              simp only [mem_append]
              exact .inl (.inl (.inr h'))
            · rw [hpk2, nodup_append] at n1
              exact n1.2.2 u hu' u h' rfl
          · intro h'
            rcases hb' with hb' | hb'
            · exact hH u hb' (by simp only [allStores, mem_append]; exact .inl (.inr h'))
            · exact n4 u hb' u h' rfl
          · intro h'
            rcases hb' with hb' | hb'
            · exact hH u hb' (by simp only [allStores, mem_append]; exact .inr h')
            · exact n5 u (mem_append_left _ hb') u h' rfl
        obtain ⟨v1, v2⟩ := key v hv hvu
        obtain ⟨w1, w2⟩ := key w hw hwu
        rw [v2, w2]
        exact hiq.distinct v v1 w w1 hvw
      | inside _ _ _ anc _ _ hin =>
        have key : ∀ u, (u ∈ H ∨ StoredBefore (b :: anc) b' i u) → UsedAfter b' ch' i u →
            (u ∈ heldAfter (blockEvs b (lastUse b ch)) H ∨ StoredBefore anc b' i u) ∧ sh'.colour u = sh2.colour u := by
          intro u hu huu
          have hused := usedAfter_usedIn hin huu
          have hnf : u ∉ evFrees (blockEvs b (lastUse b ch)) := fun h => blockEvs_frees h hused
          have hcase : (u ∈ H ∨ u ∈ phiStores b ++ idStores b.ids) ∨ StoredBefore anc b' i u := by
            rcases hu with hu | ⟨a, ha, ha'⟩ | hu
            · exact .inl (.inl hu)
            · rcases mem_cons.1 ha with rfl | ha
              · exact .inl (.inr ha')
              · exact .inr (.inl ⟨a, ha, ha'⟩)
            · exact .inr (.inr hu)
          refine ⟨?_, d1 u ?_⟩
          · rcases hcase with hc | hc
            · exact .inl (heldAfter_mem _ _ (by rw [blockEvs_picks]; exact hc) hnf)
            · exact .inr hc
          · rcases hcase with (hc | hc) | hc
            · exact hH2 u hc
            · exact fun h' => n5 u (mem_append_left _ hc) u h' rfl
            · exact fun h' => n5 u (mem_append_right _ (stored_mem hin hc)) u h' rfl
        obtain ⟨v1, v2⟩ := key v hv hvu
        obtain ⟨w1, w2⟩ := key w hw hwu
        rw [v2, w2]
        exact c3 anc b' ch' hin i v w hvw v1 w1 hvu hwu
      | next _ _ _ _ _ _ hin => exact d3 anc b' ch' hin i v w hvw hv hw hvu hwu

/-! #### There are enough colours -/

/-- `A` are the colours given so far. -/
structure Fits (num : Nat) (A : List Nat) (sh : Shared) : Prop where
  colours : ∀ v c, sh.colour v = some c → c ∈ A
  classes : ∀ k c, c ∈ sh.classes k → c ∈ A
  small : ∀ c ∈ A, c < num

structure Loc (num : Nat) (A : List Nat) (av : List Bool) : Prop where
  len : av.length = num
  used : ∀ c, av[c]? = some false → c ∈ A

theorem release_total {num : Nat} {A : List Nat} {sh : Shared} {av : List Bool} {v : String} {c : Nat} (hf : Fits num A sh) (hl : Loc num A av)
    (hc : sh.colour v = some c) : ∃ av', release v sh av = some av' ∧ Loc num A av' := by
  have hlt : c < av.length := by rw [hl.len]; exact hf.small c (hf.colours v c hc)
  refine ⟨av.set c true, by simp [release, hc, hlt], by rw [length_set]; exact hl.len, ?_⟩
  intro d hd
  apply hl.used
  rw [getElem?_set] at hd
  split at hd
  · cases hd
  · exact hd

theorem scanArgs_total {num : Nat} {A : List Nat} {sh : Shared} (hf : Fits num A sh) (m : List Mark) : ∀ (args : List String) (av : List Bool),
    Loc num A av → ∃ av', scanArgs m sh args av = some av' ∧ Loc num A av' := by
  intro args
  induction args with
  | nil => intro av h; exact ⟨av, rfl, h⟩
  | cons a args ih =>
    intro av h
    unfold scanArgs
    split
    · rename_i hc
      obtain ⟨c, hc⟩ := Option.isSome_iff_exists.1 hc.2
      obtain ⟨av1, h1, h2⟩ := release_total hf h hc
      rw [h1]
      exact ih av1 h2
    · exact ih av h

theorem pick_total {num : Nat} {A : List Nat} {v : String} {sh : Shared} {av : List Bool} (hl : Loc num A av) (hlt : A.length < num) :
    (pickAvailable v sh av).2.2 < num ∧ (pickAvailable v sh av).2.1.length = num := by
  have : firstTrue av < av.length := by
    apply Classical.byContradiction
    intro hno
    have hall := firstTrue_none hno
    have hsub : range num ⊆ A := by
      intro c hc
      rw [mem_range] at hc
      exact hl.used c (hall c (by rw [hl.len]; exact hc))
    have := (nodup_range.subperm hsub).length_le
    rw [length_range] at this
    omega
  unfold pickAvailable
  rw [if_pos this]
  simp only [length_set]
  rw [hl.len] at this ⊢
  exact ⟨this, rfl⟩

theorem biasedPick_total {web : String → Option Nat} {num : Nat} {A : List Nat} {v : String} {sh : Shared} {av : List Bool} (hf : Fits num A sh)
    (hl : Loc num A av) (hlt : A.length < num) : ∃ r n, biasedPick web v sh av = some r ∧ Fits num (n :: A) r.1 ∧ Loc num (n :: A) r.2 := by
  have hex : ∃ r, biasedPick web v sh av = some r ∧ r.2.length = num ∧ ∀ n, r.1.colour v = some n → n < num := by
    unfold biasedPick
    cases hw : web v with
    | none =>
      obtain ⟨h1, h2⟩ := pick_total (v := v) (sh := sh) hl hlt
      refine ⟨_, rfl, h2, ?_⟩
      obtain ⟨n, p1, p2, _⟩ := pickAvailable_spec v sh av
      intro n' hn'
      simp only [p2, Shared.setColour, if_true, Option.some.injEq] at hn'
      rw [p1] at h1
      omega
    | some k =>
      obtain ⟨q, hq⟩ := biasLoop_total v (sh.classes k).reverse sh av (by
        intro c hc
        rw [hl.len]
        exact hf.small c (hf.classes k c (mem_reverse.1 hc)))
      obtain ⟨_, _, b3, b4, b5⟩ := biasLoop_spec v _ _ _ _ hq
      have hlq : Loc num A q.2 := by
        refine ⟨by rw [b3]; exact hl.len, ?_⟩
        intro c hc
        by_cases hk : c ∈ (sh.classes k).reverse
        · exact hf.classes k c (mem_reverse.1 hk)
        · rw [b4 c hk] at hc
          exact hl.used c hc
      obtain ⟨h1, h2⟩ := pick_total (v := v) (sh := q.1) hlq hlt
      obtain ⟨n, p1, p2, _⟩ := pickAvailable_spec v q.1 q.2
      simp only [hq, Option.map_some]
      refine ⟨_, rfl, h2, ?_⟩
      intro n' hn'
      simp only [p2, Shared.setColour, if_true, Option.some.injEq] at hn'
      rw [p1] at h1
      omega
  obtain ⟨r, hr, hlen, hn⟩ := hex
  obtain ⟨n, b1, b2, b3, b4, b5, b6, b7, b8⟩ := biasedPick_spec hr
  refine ⟨r, n, hr, ⟨?_, ?_, ?_⟩, ⟨hlen, ?_⟩⟩
  · intro u c hc
    by_cases huv : u = v
    · subst huv
      rw [b1] at hc
      cases hc
      exact mem_cons_self
    · rw [b2 u huv] at hc
      exact mem_cons_of_mem _ (hf.colours u c hc)
  · intro k c hc
    rw [b8 k] at hc
    split at hc
    · rcases mem_append.1 hc with hc | hc
      · exact mem_cons_of_mem _ (hf.classes k c hc)
      · rw [mem_singleton] at hc; subst hc; exact mem_cons_self
    · exact mem_cons_of_mem _ (hf.classes k c hc)
  · intro c hc
    rcases mem_cons.1 hc with rfl | hc
    · exact hn c b1
    · exact hf.small c hc
  · intro c hc
    by_cases hcn : c = n
    · subst hcn; exact mem_cons_self
    · by_cases hcl : ∃ k, web v = some k ∧ c ∈ sh.classes k
      · obtain ⟨k, _, hk⟩ := hcl
        exact mem_cons_of_mem _ (hf.classes k c hk)
      · rw [b7 c hcn fun k hk hck => hcl ⟨k, hk, hck⟩] at hc
        exact mem_cons_of_mem _ (hl.used c hc)

theorem runEvs_total {web : String → Option Nat} {num : Nat} : ∀ (es : List Ev) (H : List String) (A : List Nat) (sh : Shared) (av : List Bool),
    Inv web H sh av → OKEvs web H es → Fits num A sh → Loc num A av → A.length + (evPicks es).length ≤ num →
    ∃ r A', runEvs web es sh av = some r ∧ Fits num A' r.1 ∧ Loc num A' r.2 ∧ A'.length = A.length + (evPicks es).length ∧ A ⊆ A' := by
  intro es
  induction es with
  | nil => intro H A sh av _ _ hf hl _; exact ⟨_, A, rfl, hf, hl, by simp [evPicks], fun _ h => h⟩
  | cons e es ih =>
    intro H A sh av hi hok hf hl hlen
    have step : ∃ q A1, runEv web e sh av = some q ∧ Fits num A1 q.1 ∧ Loc num A1 q.2 ∧
        A1.length + (evPicks es).length = A.length + (evPicks (e :: es)).length ∧ A ⊆ A1 := by
      cases e with
      | free v =>
        obtain ⟨c, hc, _⟩ := hi.held v hok.1
        obtain ⟨av', h1, h2⟩ := release_total hf hl hc
        exact ⟨(sh, av'), A, by simp [runEv, h1], hf, h2, rfl, fun _ h => h⟩
      | pick args v =>
        simp only [evPicks, length_cons] at hlen
        obtain ⟨av', h1, h2⟩ := scanArgs_total hf (args.map .arg) args av hl
        obtain ⟨r, n, h3, h4, h5⟩ := biasedPick_total (web := web) (v := v) hf h2 (by omega)
        exact ⟨r, n :: A, by simp [runEv, h1, h3], h4, h5, by simp only [evPicks, length_cons]; omega, fun _ h => mem_cons_of_mem _ h⟩
    obtain ⟨q, A1, h1, h2, h3, h4, h5⟩ := step
    obtain ⟨r, A', i1, i2, i3, i4, i5⟩ := ih _ A1 q.1 q.2 (runEv_inv hi hok.1 h1) hok.2 h2 h3 (by omega)
    exact ⟨r, A', by rw [runEvs, h1]; exact i1, i2, i3, by omega, fun _ h => i5 (h5 h)⟩

theorem assign_total {web : String → Option Nat} {num : Nat} : ∀ (f : DomForest) (H : List String) (A : List Nat) (sh : Shared) (av : List Bool),
    Inv web H sh av → OKForest web H f → (allStores f).Nodup → (∀ v ∈ H, v ∉ allStores f) → Fits num A sh → Loc num A av →
    A.length + (allStores f).length ≤ num →
    ∃ sh' A', assignForest web f sh av = some sh' ∧ Fits num A' sh' ∧ A'.length = A.length + (allStores f).length ∧ A ⊆ A' := by
  intro f
  induction f with
  | nil => intro H A sh av _ _ _ _ hf _ _; exact ⟨sh, A, rfl, hf, by simp [allStores], fun _ h => h⟩
  | node b ch rest ih1 ih2 =>
    intro H A sh av hi hok hn hH hf hl hlen
    obtain ⟨ok1, ok2, ok3⟩ := hok
    have hlen' := hlen
    simp only [allStores, length_append] at hlen
    have hpl : (evPicks (blockEvs b (lastUse b ch))).length = (phiStores b).length + (idStores b.ids).length := by
      rw [blockEvs_picks, length_append]
    obtain ⟨r, A1, h1, h2, h3, h4, h5⟩ := runEvs_total _ H A sh av hi ok1 hf hl (by omega)
    have hn0 := hn
    simp only [allStores] at hn
    rw [nodup_append, nodup_append] at hn
    obtain ⟨⟨n1, n2, n4⟩, n3, n5⟩ := hn
    have hbs : ∀ v ∈ evPicks (blockEvs b (lastUse b ch)), v ∈ phiStores b ++ idStores b.ids := by
      intro v hv; rw [blockEvs_picks] at hv; exact hv
    have hi1 := runEvs_inv hi ok1 h1
    have hH1 : ∀ v ∈ heldAfter (blockEvs b (lastUse b ch)) H, v ∉ allStores ch := by
      intro v hv
      rcases heldAfter_sub _ _ hv with h' | h'
      · exact fun h'' => hH v h' (by simp only [allStores, mem_append]; exact .inl (.inr h''))
      · exact fun h'' => n4 v (hbs v h') v h'' rfl
    obtain ⟨sh2, A2, g1, g2, g3, g4⟩ := ih1 _ A1 _ _ hi1 ok2 n2 hH1 h2 h3 (by omega)
    obtain ⟨c1, c2, _⟩ := assign_main ch _ _ _ _ hi1 ok2 n2 hH1 g1
    have frame1 : ∀ v ∈ H, sh2.colour v = sh.colour v := by
      intro v hv
      have hv' := hH v hv
      simp only [allStores, mem_append, not_or] at hv'
      rw [c1 v hv'.1.2, runEvs_frame h1 v fun h' => by
        have := hbs v h'
        rw [mem_append] at this
        exact this.elim hv'.1.1.1 hv'.1.1.2]
    have hi2 : Inv web H sh2 av := by
      refine ⟨?_, ?_, c2⟩
      · intro v hv; rw [frame1 v hv]; exact hi.held v hv
      · intro v hv w hw hvw; rw [frame1 v hv, frame1 w hw]; exact hi.distinct v hv w hw hvw
    have hH2 : ∀ v ∈ H, v ∉ allStores rest := fun v hv h' => hH v hv (by simp only [allStores, mem_append]; exact .inr h')
    obtain ⟨sh3, A3, k1, k2, k3, k4⟩ := ih2 H A2 sh2 av hi2 ok3 n3 hH2 g2 ⟨hl.len, fun c hc => g4 (h5 (hl.used c hc))⟩ (by omega)
    refine ⟨sh3, A3, ?_, k2, ?_, fun _ h => k4 (g4 (h5 h))⟩
    · rw [assignForest, scanBlock_evs, h1, Option.bind_some, g1, Option.bind_some, k1]
    · simp only [allStores, length_append]; omega

/-! ### C29 -/

theorem start_inv (web : String → Option Nat) (num : Nat) : Inv web [] ⟨fun _ => none, fun _ => []⟩ (replicate num true) :=
  ⟨by simp, by simp, by simp⟩

theorem wellPlaced_ok {web : String → Option Nat} {f : DomForest} (hw : WellPlaced web f) : OKForest web [] f :=
  okForest f [] [] hw.once (by simp) (by simp) (fun anc b ch h => by simpa using hw.stored anc b ch h) hw.webs

/-- **C29 (partial).** If every variable is stored at one place and is stored before it is read, then the tree scan with a number of
colours that is at least the number of stored variables does not fail, uses only these colours, and at every point of every
block, two variables that are in memory and are both read after that point, in the block or in a block that it dominates, have
different colours.

Missing: variables read in a block that is reached from the point, but is not dominated by it. For them the property fails
(`colour_shared_at_join`). -/
theorem colours_distinct_partial (web : String → Option Nat) (f : DomForest) (num : Nat) (hw : WellPlaced web f) (hnum : (allStores f).length ≤ num) :
    ∃ colour, treeScan web f num = some colour ∧ (∀ v c, colour v = some c → c < num) ∧
      ∀ anc b ch, In f anc b ch → ∀ i v w, v ≠ w → StoredBefore anc b i v → StoredBefore anc b i w → UsedAfter b ch i v → UsedAfter b ch i w →
        colour v ≠ colour w := by
  obtain ⟨sh, A, h1, h2, _⟩ := assign_total (num := num) f [] [] _ _ (start_inv web num) (wellPlaced_ok hw) hw.once (by simp)
    ⟨by simp, by simp, by simp⟩ ⟨by simp, by
      intro c hc
      rw [getElem?_replicate] at hc
      split at hc <;> cases hc⟩ (by simpa using hnum)
  obtain ⟨_, _, h3⟩ := assign_main f [] _ _ _ (start_inv web num) (wellPlaced_ok hw) hw.once (by simp) h1
  refine ⟨sh.colour, by simp [treeScan, h1], fun v c hc => h2.small c (h2.colours v c hc), ?_⟩
  intro anc b ch hin i v w hvw hv hw' hvu hwu
  exact h3 anc b ch hin i v w hvw (.inr hv) (.inr hw') hvu hwu

/-! ### The theorem applies, and what fails -/

/-- A single block, with its children. -/
def leaf (ids : List RId) (rest : DomForest) : DomForest := .node ⟨[], [], ids, []⟩ .nil rest

/-- `x` and `y` stored, read in two branches; in one of them `x` is read for the last time before `z` is stored. -/
def exTree : DomForest :=
  .node ⟨[], [], [.set "x", .other "ADD_0", .dupSet "y" 3], []⟩
    (leaf [.get "x", .set "z", .get "y", .get "z"] (leaf [.get "y", .get "x"] .nil)) .nil

theorem in_leaf {ids : List RId} {rest : DomForest} {anc : List RBlock} {b : RBlock} {ch : DomForest} (h : In (leaf ids rest) anc b ch) :
    (anc = [] ∧ b = ⟨[], [], ids, []⟩) ∨ In rest anc b ch := by
  cases h with
  | here => exact .inl ⟨rfl, rfl⟩
  | inside _ _ _ _ _ _ h => cases h
  | next _ _ _ _ _ _ h => exact .inr h

theorem exTree_placed : WellPlaced (fun _ => none) exTree := by
  have hin : ∀ anc b ch, In exTree anc b ch → (anc = [] ∧ b = ⟨[], [], [.set "x", .other "ADD_0", .dupSet "y" 3], []⟩) ∨
      (anc = [⟨[], [], [.set "x", .other "ADD_0", .dupSet "y" 3], []⟩] ∧ b = ⟨[], [], [.get "x", .set "z", .get "y", .get "z"], []⟩) ∨
      (anc = [⟨[], [], [.set "x", .other "ADD_0", .dupSet "y" 3], []⟩] ∧ b = ⟨[], [], [.get "y", .get "x"], []⟩) := by
    intro anc b ch h
    cases h with
    | here => exact .inl ⟨rfl, rfl⟩
    | inside _ _ _ anc _ _ h =>
      rcases in_leaf h with ⟨rfl, rfl⟩ | h
      · exact .inr (.inl ⟨rfl, rfl⟩)
      · rcases in_leaf h with ⟨rfl, rfl⟩ | h
        · exact .inr (.inr ⟨rfl, rfl⟩)
        · cases h
    | next _ _ _ _ _ _ h => cases h
  refine ⟨by decide, ?_, ?_⟩
  · intro anc b ch h
    rcases hin anc b ch h with ⟨rfl, rfl⟩ | ⟨rfl, rfl⟩ | ⟨rfl, rfl⟩
    · refine ⟨?_, by simp, by simp⟩
      intro i v hv
      match i, hv with
      | 0, hv => simp at hv
      | 1, hv => simp at hv
      | 2, hv => simp at hv
      | (i + 3), hv => simp at hv
    · refine ⟨?_, by simp, by simp⟩
      intro i v hv
      match i, hv with
      | 0, hv => simp at hv; subst hv; exact .inl ⟨_, mem_singleton.2 rfl, by decide⟩
      | 1, hv => simp at hv
      | 2, hv => simp at hv; subst hv; exact .inl ⟨_, mem_singleton.2 rfl, by decide⟩
      | 3, hv => simp at hv; subst hv; exact .inr (.inr (by decide))
      | (i + 4), hv => simp at hv
    · refine ⟨?_, by simp, by simp⟩
      intro i v hv
      match i, hv with
      | 0, hv => simp at hv; subst hv; exact .inl ⟨_, mem_singleton.2 rfl, by decide⟩
      | 1, hv => simp at hv; subst hv; exact .inl ⟨_, mem_singleton.2 rfl, by decide⟩
      | (i + 2), hv => simp at hv
  · intro anc b ch h p hp
    rcases hin anc b ch h with ⟨rfl, rfl⟩ | ⟨rfl, rfl⟩ | ⟨rfl, rfl⟩ <;> cases hp

/-- The colour of `x` is used again for `z`. -/
example : (treeScan (fun _ => none) exTree 3).map (fun c => (c "x", c "y", c "z")) = some (some 0, some 1, some 0) := by decide +kernel

/-- **C29 fails at joins.** `v` is stored in the first block; the first child reads `v`, and then stores and reads `w`; it jumps to the second child
(which is dominated by the first block only), where `v` is read again. Both variables get colour 0: the second child reads `w`. -/
theorem colour_shared_at_join :
    (treeScan (fun _ => none) (.node ⟨[], [], [.set "v"], []⟩ (leaf [.get "v", .set "w", .get "w"] (leaf [.get "v"] .nil)) .nil) 2).map
      (fun c => (c "v", c "w")) = some (some 0, some 0) := by decide +kernel

/-- **C29 fails when a variable is stored twice** (a `VSET` for the rest of its block, and a `DUP-VSET` later for another block): the final colour of `v` is the one that `u` has,
and the first store of `v` overwrites `u`. -/
theorem colour_shared_after_two_stores :
    (treeScan (fun _ => none) (.node ⟨[], [], [.set "u", .set "v", .get "v", .get "u", .dupSet "v" 2], []⟩ (leaf [.get "v"] .nil) .nil) 3).map
      (fun c => (c "u", c "v")) = some (some 0, some 0) := by decide +kernel

/-- **The scan fails if an argument is not stored.** An argument of a phi function to solve that can be reached on the stack at the end of
the block needs no store (src/greedy/greedy_info.py:82-96); it is still marked as a last use, and releasing its colour raises a KeyError.
Here the two branches of a conditional provide the arguments `a` and `b` of the phi function in the block where they join. -/
theorem scan_fails_for_stack_argument :
    (treeScan (fun _ => some 0) (.node ⟨[], [], [], []⟩ (.node ⟨[], [], [.other "PUSH_0"], ["a"]⟩ .nil (.node ⟨[], [], [.other "PUSH_1"], ["b"]⟩ .nil
      (.node ⟨[("p", ["a", "b"])], ["p"], [.get "p"], []⟩ .nil .nil))) .nil) 3).isNone = true := by
  decide +kernel

end Grey.Repair
