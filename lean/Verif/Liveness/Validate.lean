/-
C98: the comparison of the liveness analysis with the liveness that solc reports.
-/
import Verif.Liveness.Exact
import Mathlib.Data.List.Sort
import Mathlib.Data.List.Dedup
import Mathlib.Data.String.Basic
namespace Grey.Liveness
open List

/-! ### Model -/

/-- `element.startswith("out")` (src/analysis/validate_liveness.py:145). -/
def isOut (s : String) : Bool := "out".toList.isPrefixOf s.toList

/-- `sorted` of a list of names. -/
def sortNames (l : List String) : List String := l.insertionSort (· ≤ ·)

/-- The computed set as it is compared: a set, without the names that start with `out`, sorted (src/analysis/validate_liveness.py:145, 202-203). -/
def shown (l : List String) : List String := sortNames (l.dedup.filter fun x => !isOut x)

/-- What is compared with the computed set at the end of the block: for a block that ends with `functionReturn`, the arguments of the latter are removed
(src/analysis/validate_liveness.py:146-149). -/
def reportedOut (split : Option Instr) (o : List String) : List String :=
  match split with
  | some i => if i.op = "functionReturn" then sortNames (o.dedup.filter fun x => decide (x ∉ i.ins)) else sortNames o
  | none => sortNames o

/-- The comparison for one block (src/analysis/validate_liveness.py:141-152); `ann` is the dictionary `liveness` of the block, as read from the JSON file
(src/parser/parser.py:100-103). `false`: the assertion fails, or an entry is missing. -/
def blockMatches (ann : List (String × List String)) (split : Option Instr) (out inn : List String) : Bool :=
  match ann.lookup "in", ann.lookup "out" with
  | some i, some o => ann.all (fun e => e.1 == "in" || e.1 == "out") && shown inn == sortNames i && shown out == reportedOut split o
  | _, _ => false

/-- `perform_liveness_analysis` for one list of blocks (src/analysis/validate_liveness.py:68-80, 102-152): the comparison is made for the blocks that the
analysis has visited. The analysis is that of src/liveness/liveness_analysis.py, whose code is repeated there (src/analysis/validate_liveness.py:25-65).
`none`: the analysis does not stop after `fuel` iterations, or raises an exception. -/
def validate (cfg : String → Block) (blocks initial : List String) (fuel : Nat) (ann : String → List (String × List String))
    (split : String → Option Instr) : Option Bool :=
  (run cfg blocks initial fuel).map fun st => blocks.all fun b =>
    match st.info b with
    | none => true
    | some (_, none) => false
    | some (out, some inn) => blockMatches (ann b) (split b) out inn

/-- A list of blocks with what is reported for it: the main blocks of an object or those of a function. -/
structure Comp where
  cfg : String → Block
  blocks : List String
  terminal : List String
  ann : String → List (String × List String)
  split : String → Option Instr

/-- A document: objects with their components, each with the document in its field `subObjects`, if any (src/parser/cfg.py:22-40, src/parser/cfg_object.py:15-40). -/
inductive Document where
  | mk (objects : List (List Comp × Option Document))

def Document.objects : Document → List (List Comp × Option Document)
  | .mk l => l

/-- The comparison for one component; when the analysis has not stopped after `fuel` iterations this is `false`. -/
def Comp.accepted (fuel : Nat) (c : Comp) : Bool := validate c.cfg c.blocks c.terminal fuel c.ann c.split == some true

/-- `perform_liveness_analysis` (src/analysis/validate_liveness.py:83-99, 112-152). -/
def Document.accepted (fuel : Nat) (d : Document) : Bool := d.objects.all fun o => o.1.all (Comp.accepted fuel)

/-- `validate_liveness` (src/analysis/validate_liveness.py:220-229). -/
def validateLiveness (fuel : Nat) (d : Document) : Bool :=
  d.accepted fuel && d.objects.all fun o =>
    match o.2 with
    | none => true
    | some sub => sub.accepted fuel

/-! ### Specification -/

/-- The component is in the document, below `n` levels of subobjects. -/
inductive At : Nat → Document → Comp → Prop where
  | here {d : Document} {o : List Comp × Option Document} {c : Comp} (ho : o ∈ d.objects) (hc : c ∈ o.1) : At 0 d c
  | inner {n : Nat} {d sub : Document} {comps : List Comp} {c : Comp} (ho : (comps, some sub) ∈ d.objects) (h : At n sub c) : At (n + 1) d c

/-- The name starts with `out`. -/
def NamedOut (x : String) : Prop := ∃ s : List Char, x.toList = 'o' :: 'u' :: 't' :: s

/-- The block ends with `functionReturn`, with `x` among its arguments. -/
def Returned (split : Option Instr) (x : String) : Prop := ∃ i, split = some i ∧ i.op = "functionReturn" ∧ x ∈ i.ins

/-- The reported liveness of the block is right: exactly two lists are reported. At the beginning, those are the variables that are live or assigned by a phi
function; at the end, the live ones. Names that start with `out` are not reported; the values that a function returns may be. -/
structure Right (cfg : String → Block) (ann : List (String × List String)) (split : Option Instr) (b : String) : Prop where
  keys : ∀ e ∈ ann, e.1 = "in" ∨ e.1 = "out"
  inn : ∃ i, ann.lookup "in" = some i ∧ i.Nodup ∧ ∀ x, x ∈ i ↔ (Live cfg true b x ∨ PhiDef cfg b x) ∧ ¬ NamedOut x
  out : ∃ o, ann.lookup "out" = some o ∧ ((∀ i, split = some i → i.op ≠ "functionReturn") → o.Nodup) ∧
    ∀ x, (x ∈ o ∧ ¬ Returned split x) ↔ Live cfg false b x ∧ ¬ NamedOut x

/-! ### Proofs -/

theorem isOut_iff (x : String) : isOut x = false ↔ ¬ NamedOut x := by
  have h : isOut x = true ↔ NamedOut x := by
    unfold isOut NamedOut
    rw [isPrefixOf_iff_prefix, show "out".toList = ['o', 'u', 't'] from by decide]
    exact ⟨fun ⟨s, h⟩ => ⟨s, h.symm⟩, fun ⟨s, h⟩ => ⟨s, h.symm⟩⟩
  rw [← h, Bool.not_eq_true]

theorem sortNames_eq {a b : List String} : sortNames a = sortNames b ↔ a.Perm b := by
  unfold sortNames
  constructor
  · intro h
    exact (perm_insertionSort _ a).symm.trans (h ▸ perm_insertionSort _ b)
  · intro h
    refine ((perm_insertionSort _ a).trans (h.trans (perm_insertionSort _ b).symm)).eq_of_pairwise ?_ (pairwise_insertionSort _ _) (pairwise_insertionSort _ _)
    intro x y _ _ h1 h2
    exact le_antisymm h1 h2

theorem shown_eq {l i : List String} : shown l = sortNames i ↔ i.Nodup ∧ ∀ x, x ∈ i ↔ x ∈ l ∧ isOut x = false := by
  unfold shown
  rw [sortNames_eq]
  have hn : (l.dedup.filter fun x => !isOut x).Nodup := (nodup_dedup l).filter _
  have hm : ∀ x, x ∈ (l.dedup.filter fun x => !isOut x) ↔ x ∈ l ∧ isOut x = false := by simp
  constructor
  · intro h
    exact ⟨h.nodup_iff.1 hn, fun x => by rw [← h.mem_iff, hm]⟩
  · rintro ⟨h1, h2⟩
    exact (perm_ext_iff_of_nodup hn h1).2 fun x => by rw [hm, h2]

theorem shown_out {split : Option Instr} {l o : List String} : shown l = reportedOut split o ↔
    ((∀ i, split = some i → i.op ≠ "functionReturn") → o.Nodup) ∧ ∀ x, (x ∈ o ∧ ¬ Returned split x) ↔ x ∈ l ∧ isOut x = false := by
  unfold reportedOut
  have plain : (∀ i, split = some i → i.op ≠ "functionReturn") → (shown l = sortNames o ↔
      ((∀ i, split = some i → i.op ≠ "functionReturn") → o.Nodup) ∧ ∀ x, (x ∈ o ∧ ¬ Returned split x) ↔ x ∈ l ∧ isOut x = false) := by
    intro hs
    have hr : ∀ x, ¬ Returned split x := fun x ⟨i, e, h, _⟩ => hs i e h
    rw [shown_eq]
    simp only [hr, not_false_eq_true, and_true]
    exact ⟨fun ⟨h1, h2⟩ => ⟨fun _ => h1, h2⟩, fun ⟨h1, h2⟩ => ⟨h1 hs, h2⟩⟩
  cases split with
  | none => exact plain (by simp)
  | some i =>
    simp only
    split
    · next h =>
      have hr : ∀ x, Returned (some i) x ↔ x ∈ i.ins := by simp [Returned, h]
      rw [shown_eq]
      simp only [hr]
      constructor
      · rintro ⟨-, h2⟩
        exact ⟨fun hs => absurd h (hs i rfl), fun x => by rw [← h2]; simp⟩
      · rintro ⟨-, h2⟩
        exact ⟨(nodup_dedup o).filter _, fun x => by rw [← h2]; simp⟩
    · next h => exact plain (by simpa using h)

theorem blockMatches_iff {ann : List (String × List String)} {split : Option Instr} {out inn : List String} : blockMatches ann split out inn = true ↔
    (∀ e ∈ ann, e.1 = "in" ∨ e.1 = "out") ∧ (∃ i, ann.lookup "in" = some i ∧ i.Nodup ∧ ∀ x, x ∈ i ↔ x ∈ inn ∧ isOut x = false) ∧
    ∃ o, ann.lookup "out" = some o ∧ ((∀ i, split = some i → i.op ≠ "functionReturn") → o.Nodup) ∧
      ∀ x, (x ∈ o ∧ ¬ Returned split x) ↔ x ∈ out ∧ isOut x = false := by
  unfold blockMatches
  split
  · next i o h1 h2 =>
    rw [h1, h2]
    simp only [Bool.and_eq_true, all_eq_true, Bool.or_eq_true, beq_iff_eq, shown_eq, shown_out, Option.some.injEq, exists_eq_left', and_assoc]
  · next h =>
    constructor
    · intro h'; cases h'
    · rintro ⟨-, ⟨i, h1, -⟩, o, h2, -⟩
      exact absurd h2 (h i o h1)

variable {cfg : String → Block} {blocks initial : List String} {f : Nat} {ann : String → List (String × List String)} {split : String → Option Instr}

theorem validate_iff (wf : WF cfg) (hin : ∀ b, CanEnd cfg initial b → b ∈ blocks) {st : St} (h : run cfg blocks initial f = some st) :
    validate cfg blocks initial f ann split = some true ↔
      ∀ b out inn, st.info b = some (out, some inn) → blockMatches (ann b) (split b) out inn = true := by
  unfold validate
  rw [h]
  simp only [Option.map_some, Option.some.injEq, all_eq_true]
  constructor
  · intro hv b out inn hb
    have := hv b (hin b ((visited_iff wf h b).1 (by rw [hb]; rfl)))
    rw [hb] at this
    exact this
  · intro hv b _
    split
    · rfl
    · next out hb =>
      obtain ⟨l, e, -⟩ := stops_at_solution wf h hb
      cases e
    · next out inn hb => exact hv b out inn hb

/-- **C98 (first half).** When the validation accepts, every reported variable of a block from which the program can end is really live there, or assigned by a
phi function of the block (at its beginning), or returned by the function (at its end). -/
theorem validated_precise (wf : WF cfg) (hin : ∀ b, CanEnd cfg initial b → b ∈ blocks) (h : validate cfg blocks initial f ann split = some true)
    {b : String} (hb : CanEnd cfg initial b) :
    ∃ i o, (ann b).lookup "in" = some i ∧ (ann b).lookup "out" = some o ∧ (∀ x ∈ i, Live cfg true b x ∨ PhiDef cfg b x) ∧
      ∀ x ∈ o, Live cfg false b x ∨ Returned (split b) x := by
  obtain ⟨st, hrun⟩ : ∃ st, run cfg blocks initial f = some st := by
    unfold validate at h
    obtain ⟨st, hst, -⟩ := Option.map_eq_some_iff.1 h
    exact ⟨st, hst⟩
  obtain ⟨⟨out, inn⟩, hi⟩ := Option.isSome_iff_exists.1 ((visited_iff wf hrun b).2 hb)
  obtain ⟨l, rfl, -⟩ := stops_at_solution wf hrun hi
  obtain ⟨p1, p2⟩ := live_precise wf hrun hi
  obtain ⟨-, ⟨i, h1, -, h3⟩, o, h4, -, h6⟩ := blockMatches_iff.1 ((validate_iff wf hin hrun).1 h b out l hi)
  refine ⟨i, o, h1, h4, fun x hx => p2 l rfl x ((h3 x).1 hx).1, fun x hx => ?_⟩
  by_cases hr : Returned (split b) x
  · exact .inr hr
  · exact .inl (p1 x ((h6 x).1 ⟨hx, hr⟩).1)

/-- **C98 (partial).** The validation accepts exactly when the reported liveness is right for every block from which the program can end, provided that the
analysis stops, that the program can end from every block that follows such a block, and that a variable that a phi function
of a sibling assigns is shown by another phi function (`Shown`). Missing: the other graphs, where it accepts reports that are wrong (`validated_wrong`). -/
theorem validated_iff_right_partial (wf : WF cfg) (hin : ∀ b, CanEnd cfg initial b → b ∈ blocks) (hrun : (run cfg blocks initial f).isSome)
    (hterm : ∀ b ∈ initial, (cfg b).succs = []) (hend : ∀ b s, CanEnd cfg initial b → s ∈ (cfg b).succs → CanEnd cfg initial s)
    (hshown : Shown cfg initial) :
    validate cfg blocks initial f ann split = some true ↔ ∀ b, CanEnd cfg initial b → Right cfg (ann b) (split b) b := by
  obtain ⟨st, hrun⟩ := Option.isSome_iff_exists.1 hrun
  have key : ∀ b out inn, st.info b = some (out, some inn) → (blockMatches (ann b) (split b) out inn = true ↔ Right cfg (ann b) (split b) b) := by
    intro b out inn hi
    have hs := (live_sound_iff wf hrun hterm hend).2 hshown b out inn hi
    obtain ⟨p1, p2⟩ := live_precise wf hrun hi
    obtain ⟨l, e, hl, -⟩ := stops_at_solution wf hrun hi
    cases e
    have e1 : ∀ x, x ∈ inn ↔ (Live cfg true b x ∨ PhiDef cfg b x) := fun x =>
      ⟨p2 _ rfl x, fun h => h.elim (hs x).2 fun h => (hl x).2 (.inr (.inl h))⟩
    have e2 : ∀ x, x ∈ out ↔ Live cfg false b x := fun x => ⟨p1 x, (hs x).1⟩
    rw [blockMatches_iff]
    simp only [e1, e2, isOut_iff]
    exact ⟨fun ⟨a, b, c⟩ => ⟨a, b, c⟩, fun ⟨a, b, c⟩ => ⟨a, b, c⟩⟩
  rw [validate_iff wf hin hrun]
  constructor
  · intro hv b hb
    obtain ⟨⟨out, inn⟩, hi⟩ := Option.isSome_iff_exists.1 ((visited_iff wf hrun b).2 hb)
    obtain ⟨l, rfl, -⟩ := stops_at_solution wf hrun hi
    exact (key b out l hi).1 (hv b out l hi)
  · intro hr b out inn hi
    exact (key b out inn hi).2 (hr b ((visited_iff wf hrun b).1 (by rw [hi]; rfl)))

theorem accepted_iff {fuel : Nat} {d : Document} : d.accepted fuel = true ↔ ∀ c, At 0 d c → c.accepted fuel = true := by
  unfold Document.accepted
  simp only [all_eq_true]
  constructor
  · rintro h c (⟨ho, hc⟩ | _)
    exact h _ ho c hc
  · exact fun h o ho c hc => h c (.here ho hc)

/-- **C98.** The components that are compared are those of the objects of the document and of their direct subobjects. -/
theorem validateLiveness_iff {fuel : Nat} {d : Document} : validateLiveness fuel d = true ↔ ∀ n c, n ≤ 1 → At n d c → c.accepted fuel = true := by
  unfold validateLiveness
  simp only [Bool.and_eq_true, accepted_iff, all_eq_true]
  constructor
  · rintro ⟨h1, h2⟩ n c hn hat
    cases hat with
    | here ho hc => exact h1 c (.here ho hc)
    | @inner n d sub comps c ho h =>
      obtain rfl : n = 0 := by omega
      exact accepted_iff.1 (h2 _ ho) c h
  · intro h
    refine ⟨fun c hc => h 0 c (by omega) hc, fun o ho => ?_⟩
    obtain ⟨comps, sub⟩ := o
    cases sub with
    | none => rfl
    | some sub => exact accepted_iff.2 fun c hc => h 1 c (by omega) (.inner ho hc)

/-! ### Examples -/

/-- What is reported for `latchG`, without `x` at the end of `L`. -/
def latchAnn (b : String) : List (String × List String) :=
  if b = "E" then [("in", []), ("out", ["a"])]
  else if b = "H" then [("in", ["x"]), ("out", ["x"])]
  else if b = "L" then [("in", ["x"]), ("out", ["y"])]
  else [("in", ["x"]), ("out", [])]

/-- **C98, refuted in general.** The validation accepts a report without a variable that is live at the end of a block: the analysis misses it, too. -/
theorem validated_wrong : WF latchG ∧ validate latchG ["E", "H", "L", "X"] ["X"] 20 latchAnn (fun _ => none) = some true ∧
    Live latchG false "L" "x" ∧ (latchAnn "L").lookup "out" = some ["y"] := by
  refine ⟨latchG_wf, by decide +kernel, ?_, rfl⟩
  obtain ⟨-, -, -, -, -, -, -, h, -⟩ := live_sound_fails
  exact h

/-- What is reported for `loopG`. -/
def loopAnn (b : String) : List (String × List String) :=
  if b = "E" then [("in", []), ("out", ["a"])]
  else if b = "H" then [("in", ["i", "a"]), ("out", ["i", "a"])]
  else if b = "B" then [("in", ["a", "i"]), ("out", ["j", "a"])]
  else [("in", ["i", "a"]), ("out", [])]

/-- The report of `loopG` is accepted, and not after a change. -/
example : validate loopG ["E", "H", "B", "X"] ["X"] 20 loopAnn (fun _ => none) = some true ∧
    validate loopG ["E", "H", "B", "X"] ["X"] 20 (fun b => if b = "B" then [("in", ["a", "i"]), ("out", ["j"])] else loopAnn b) (fun _ => none) = some false := by
  decide +kernel

/-- `loopG` meets the hypotheses of `validated_iff_right_partial`, so that `loopAnn` is right for all its blocks. -/
theorem loop_validated : ∀ b ∈ ["E", "H", "B", "X"], Right loopG (loopAnn b) none b := by
  have hsucc : ∀ b s, s ∈ (loopG b).succs → b ∈ ["E", "H", "B", "X"] := by
    intro b s hs
    by_contra hb
    simp only [mem_cons, not_mem_nil, or_false, not_or] at hb
    simp [loopG, hb] at hs
  have hcan : ∀ b ∈ ["E", "H", "B", "X"], CanEnd loopG ["X"] b := by
    have x : Relation.ReflTransGen (fun a c => c ∈ (loopG a).succs) "X" "X" := .refl
    have h : Relation.ReflTransGen (fun a c => c ∈ (loopG a).succs) "H" "X" := .head (by decide) x
    intro b hb
    refine ⟨"X", by simp, ?_⟩
    simp only [mem_cons, not_mem_nil, or_false] at hb
    rcases hb with rfl | rfl | rfl | rfl
    · exact .head (by decide) h
    · exact h
    · exact .head (by decide) h
    · exact x
  have hnext : ∀ b ∈ ["E", "H", "B", "X"], ∀ s ∈ (loopG b).succs, s ∈ ["E", "H", "B", "X"] := by decide
  have hv : validate loopG ["E", "H", "B", "X"] ["X"] 20 loopAnn (fun _ => none) = some true := by decide +kernel
  have := (validated_iff_right_partial (ann := loopAnn) (split := fun _ => none) loopG_wf (blocks := ["E", "H", "B", "X"]) (initial := ["X"]) (f := 20) ?_
    (by decide +kernel) (by decide) (fun b s _ hs => hcan s (hnext b (hsucc b s hs) s hs)) ?_).1 hv
  · exact fun b hb => this b (hcan b hb)
  · rintro b ⟨t, ht, hr⟩
    cases hr using Relation.ReflTransGen.head_induction_on with
    | refl => simpa using .inr (.inr (.inr (mem_singleton.1 ht)))
    | head h1 _ _ => exact hsucc _ _ h1
  · intro b _ s hs t ht x _ hn hd
    have htH := loopG_phi hd
    subst htH
    have : b = "E" ∨ b = "B" := by simpa [loopG] using (loopG_wf.edges b "H").1 ht
    have : s = "H" := by
      rcases this with rfl | rfl <;> simpa [loopG] using hs
    exact absurd (this ▸ hd) hn

/-- The report of `loopG`, and one in which a variable has been left out. -/
def goodComp : Comp := ⟨loopG, ["E", "H", "B", "X"], ["X"], loopAnn, fun _ => none⟩
def badComp : Comp :=
  ⟨loopG, ["E", "H", "B", "X"], ["X"], fun b => if b = "B" then [("in", ["a", "i"]), ("out", ["j"])] else loopAnn b, fun _ => none⟩

/-- A wrong report in the subobject of a subobject is not found, one in a subobject is. -/
theorem validated_deep_wrong :
    validateLiveness 20 (.mk [([goodComp], some (.mk [([goodComp], some (.mk [([badComp], none)]))]))]) = true ∧
    At 2 (.mk [([goodComp], some (.mk [([goodComp], some (.mk [([badComp], none)]))]))]) badComp ∧ badComp.accepted 20 = false ∧
    validateLiveness 20 (.mk [([goodComp], some (.mk [([badComp], none)]))]) = false := by
  refine ⟨by decide +kernel, ?_, by decide +kernel, by decide +kernel⟩
  exact .inner (comps := [goodComp]) (mem_singleton.2 rfl) (.inner (comps := [goodComp]) (mem_singleton.2 rfl)
    (.here (o := ([badComp], none)) (mem_singleton.2 rfl) (mem_singleton.2 rfl)))

end Grey.Liveness
