/-
Model of the stack layout generation:
  src/liveness/utils.py                 (trim_none, combine_lists_with_order, find_longest_none_sequence,
                                         merge_list_swapping_topmost, combine_lists_with_junk)
  src/liveness/stack_layout_methods.py  (output_stack_layout, max_tail_head_overlap, propagate_output_stack,
                                         remove_till_accessible, generate_phi_func, unify_stack_joint,
                                         generate_combined_block_from_original, unify_stacks_brothers,
                                         unify_stacks_dominant, forget_values)
  src/liveness/layout_generation.py     (substitute_duplicates)
Stacks are lists with the top first, `None` entries are `none`. Python sets of variables are lists, used through
membership (and, where iterated, in the list's order).
-/
import Mathlib.Data.List.Dedup
namespace Grey.Layout

/-- `trim_none` (src/liveness/utils.py:27-37). -/
def trimNone (l : List (Option String)) : List (Option String) × Nat :=
  let f := l.dropWhile Option.isNone
  (f, f.countP Option.isNone)

/-- The loop of `combine_lists_with_order` (src/liveness/utils.py:45-50), on the reversed lists (the loop walks both from
their ends). Second component: the elements not placed. -/
def fillRev : List (Option String) → List String → List (Option String) × List String
  | [], s => ([], s)
  | o :: l, [] => (o :: l, [])
  | none :: l, b :: s => let r := fillRev l s; (some b :: r.1, r.2)
  | some a :: l, b :: s => let r := fillRev l (b :: s); (some a :: r.1, r.2)

/-- `combine_lists_with_order` (src/liveness/utils.py:39-54). -/
def combineOrder (orig : List (Option String)) (sec : List String) : List (Option String) :=
  let r := fillRev orig.reverse sec.reverse
  r.2.reverse.map some ++ r.1.reverse

/-- The variables of the loop of `find_longest_none_sequence`: the current count, the best count and the length of the suffix
that achieves it (`len(none_list) - best_idx`), and the length of the suffix read so far. -/
structure Scan where
  cur : Int
  best : Int
  bestLen : Nat
  len : Nat
  deriving DecidableEq, Repr

/-- One iteration (src/liveness/utils.py:65-71). -/
def scanStep (o : Option String) (s : Scan) : Scan :=
  let cur := s.cur + (if o.isNone then 1 else -1)
  if cur > s.best then ⟨cur, cur, s.len + 1, s.len + 1⟩ else ⟨cur, s.best, s.bestLen, s.len + 1⟩

/-- `find_longest_none_sequence` (src/liveness/utils.py:57-72): the list is read from its end. -/
def findLongest (l : List (Option String)) : Nat × Int :=
  let s := l.foldr scanStep ⟨0, 0, 0, 0⟩
  (l.length - s.bestLen, s.best)

/-- The loop of `merge_list_swapping_topmost` (src/liveness/utils.py:81-90). `j` is the Python variable plus one; the fuel is
the number of iterations. Returns the list and the final `i`. -/
def swapLoop : Nat → List (Option String) → Nat → Nat → List (Option String) × Nat
  | 0, l, i, _ => (l, i)
  | f + 1, l, i, j =>
    if i < j then
      match l[i]? with
      | some (some a) =>
        match l[j - 1]? with
        | some none => swapLoop f (l.set (j - 1) (some a)) (i + 1) (j - 1)
        | _ => swapLoop f l i (j - 1)
      | _ => swapLoop f l (i + 1) j
    else (l, i)

/-- `merge_list_swapping_topmost` (src/liveness/utils.py:75-93). Each iteration shrinks `j - i`, so the length is enough
fuel. -/
def mergeTopmost (l : List (Option String)) : List (Option String) :=
  let r := swapLoop l.length l 0 l.length
  r.1.drop r.2

/-- `combine_lists_with_junk` (src/liveness/utils.py:96-125). -/
def combineJunk (orig : List (Option String)) (sec : List String) (canJunk : Bool) : List (Option String) × Nat :=
  if canJunk then
    let idx := (findLongest orig).1
    (mergeTopmost (combineOrder (orig.take idx) (sec ++ (orig.drop idx).filterMap id)), orig.length - idx)
  else (mergeTopmost (combineOrder orig sec), 0)

/-- The loop of `output_stack_layout` over the reversed input stack (src/liveness/stack_layout_methods.py:111-118). -/
def relRev (live : List String) : List String → List String → List (Option String)
  | _, [] => []
  | seen, x :: l =>
    if x ∈ live ∧ x ∉ seen then some x :: relRev live (x :: seen) l else none :: relRev live seen l

/-- The comparison of the sort keys `(variable_depth_info.get(x, (-1,)), x)`: tuples of integers, then names. -/
def keyLe (depth : String → List Int) (x y : String) : Bool :=
  decide (depth x < depth y) || (decide (depth x = depth y) && decide (x ≤ y))

/-- Insertion before the first element that is not smaller. -/
def insertSorted (le : String → String → Bool) (x : String) : List String → List String
  | [] => [x]
  | y :: l => if le x y then x :: y :: l else y :: insertSorted le x l

/-- Python's `sorted`: a stable sort. -/
def sorted (le : String → String → Bool) (l : List String) : List String := l.foldr (insertSorted le) []

theorem insertSorted_perm (le : String → String → Bool) (x : String) : ∀ l, (insertSorted le x l).Perm (x :: l)
  | [] => .refl _
  | y :: l => by
    unfold insertSorted
    split
    · exact .refl _
    · exact ((insertSorted_perm le x l).cons y).trans (.swap x y l)

theorem sorted_perm (le : String → String → Bool) : ∀ l, (sorted le l).Perm l
  | [] => .refl _
  | x :: l => (insertSorted_perm le x _).trans ((sorted_perm le l).cons x)

/-- `output_stack_layout` (src/liveness/stack_layout_methods.py:98-148). `depth` is `variable_depth_info.get(x, (-1,))`. -/
def outputLayout (input final live : List String) (depth : String → List Int) (canJunk : Bool) :
    List (Option String) × Nat :=
  let t := trimNone (relRev live [] input.reverse).reverse
  let toPlace := sorted (keyLe depth) (live.filter fun x => decide (x ∉ final) && decide (some x ∉ t.1)).dedup
  if toPlace.length ≥ t.2 then
    let b := combineOrder t.1 toPlace
    (final.map some ++ b, b.length + final.length)
  else
    let r := combineJunk t.1 toPlace canJunk
    (final.map some ++ (r.1 ++ (input.drop (input.length - r.2)).map some), r.1.length + final.length)

/-- The loop of `max_tail_head_overlap` (src/liveness/stack_layout_methods.py:159-166) from `i`, with `n` iterations left. -/
def overlapLoop (l1 l2 live : List String) : Nat → Nat → Nat → Nat
  | 0, _, best => best
  | n + 1, i, best =>
    match l2[i - 1]? with
    | none => best
    | some x =>
      if x ∈ live then best
      else overlapLoop l1 l2 live n (i + 1) (if l1.drop (l1.length - i) = l2.take i then i else best)

/-- `max_tail_head_overlap` (src/liveness/stack_layout_methods.py:151-166). -/
def overlap (l1 l2 live : List String) : Nat := overlapLoop l1 l2 live (min l1.length l2.length) 1 0

/-- `constants.MAX_STACK_DEPTH` (src/global_params/constants.py:1). -/
def maxDepth : Nat := 16

/-- Index reached by a loop `while i >= lo and l[i] not in live: i -= 1` started at the end of the list, plus one: the
length of the prefix that is kept. `k` is the current `i + 1`. -/
def lastLive (l live : List String) (lo : Nat) : Nat → Nat
  | 0 => 0
  | k + 1 =>
    if lo ≤ k ∧ (l[k]?).any (fun x => decide (x ∉ live)) = true then lastLive l live lo k else k + 1

/-- The search of the element to swap with the top (src/liveness/stack_layout_methods.py:219-221): the largest `j` from the
given one down to `1` whose element is not live, or `0`. `none`: `IndexError`. -/
def swapIdx (l live : List String) : Nat → Option Nat
  | 0 => some 0
  | j + 1 => (l[j + 1]?).bind fun x => if x ∈ live then swapIdx l live j else some (j + 1)

/-- The loop of `remove_till_accessible` (src/liveness/stack_layout_methods.py:210-227), one popped or swapped element per
unit of fuel. `none`: `IndexError` (also when the fuel is too small). -/
def pruneLoop (live : List String) : Nat → List String → Nat → Option (List String)
  | _, l, 0 => some l
  | 0, _, _ + 1 => none
  | f + 1, l, k + 1 =>
    match l with
    | [] => none
    | x :: rest =>
      if x ∉ live then pruneLoop live f rest k
      else (swapIdx l live (min (maxDepth - 1) l.length)).bind fun j =>
        if j = 0 then some l
        else (l[j]?).bind fun y => pruneLoop live f ((l.set j x).set 0 y) (k + 1)

/-- `remove_till_accessible` (src/liveness/stack_layout_methods.py:197-230). Between two swaps an element is popped, so twice
the number of elements to remove bounds the iterations. -/
def removeTillAccessible (input live : List String) : Option (List String) :=
  let n := lastLive input live maxDepth input.length - maxDepth
  if n > 0 then pruneLoop live (2 * n + 1) input n else some input

/-- `propagate_output_stack` (src/liveness/stack_layout_methods.py:169-194). -/
def propagateOutput (input final inLive live : List String) (depth : String → List Int) (splitArgs : List String) :
    Option (List String) :=
  (if input.length ≥ maxDepth then removeTillAccessible input inLive else some input).map fun bottom =>
    let toPlace := sorted (keyLe depth) (live.filter fun x => decide (x ∉ final) && decide (x ∉ bottom)).dedup
    let b := toPlace ++ bottom
    let o := if final = [] ∧ toPlace.length = 0 then overlap splitArgs b live else 0
    final ++ b.drop o

/-- `forget_values` (src/liveness/stack_layout_methods.py:456-463). -/
def forgetValues (input live : List String) : List String := input.take (lastLive input live 0 input.length)

/-- A phi function: its result and its arguments (src/parser/cfg_instruction.py; `out_args[0]` and `in_args`). -/
structure Phi where
  out : String
  args : List String
  deriving DecidableEq, Repr

/-- Association lists for Python dictionaries: the first binding counts, later insertions come first. Keys of a dictionary
are iterated from the oldest insertion; this agrees with Python as long as no key is assigned twice (SSA form). -/
def lookup (l : List (String × String)) (x : String) : Option String :=
  (l.find? fun p => p.1 == x).map (·.2)

/-- `phi_func[p]` after the first loop of `generate_phi_func` (src/liveness/stack_layout_methods.py:239-242); later
assignments come first. `preds` and the arguments are zipped. -/
def phiDict (preds : List String) (phis : List Phi) (p : String) : List (String × String) :=
  (phis.flatMap fun f => ((f.args.zip preds).filter fun q => q.2 == p).map fun q => (f.out, q.1)).reverse

/-- `variables_to_remove[p]` (src/liveness/stack_layout_methods.py:251-253), in the order of the list `live p`. -/
def toRemove (target : String) (preds : List String) (live : String → List String) (phis : List Phi) (p : String) :
    List String :=
  (live p).filter fun x => decide (x ∉ live target) && decide (x ∉ (phiDict preds phis p).map (·.2))

/-- The length of the longest of the lists `variables_to_remove[p]`: the number of pseudo phi functions. -/
def numPseudo (target : String) (preds : List String) (live : String → List String) (phis : List Phi) : Nat :=
  (preds.map fun p => (toRemove target preds live phis p).length).foldr max 0

/-- The name `b{i}` of a pseudo phi function. -/
def pseudoName (i : Nat) : String := "b" ++ toString i

/-- `phi_func[p]` at the end of `generate_phi_func` (src/liveness/stack_layout_methods.py:233-267): the phi functions of
the target and the pseudo phi functions `b0, b1, ...`, which pair the remaining live variables of the predecessors and are
filled up with `bottom`. -/
def phiFunc (target : String) (preds : List String) (live : String → List String) (phis : List Phi) (p : String) :
    List (String × String) :=
  ((List.range (numPseudo target preds live phis)).map fun i =>
      (pseudoName i, ((toRemove target preds live phis p)[i]?).getD "bottom")).reverse
    ++ phiDict preds phis p

/-- `unify_stack_joint` (src/liveness/stack_layout_methods.py:270-297). -/
def unifyJoint (dict : List (String × String)) (combined : List String) : List String :=
  combined.map fun x => (lookup dict x).getD x

/-- The loop of `generate_combined_block_from_original` on the reversed stack
(src/liveness/stack_layout_methods.py:328-345). The dictionary is listed with its oldest key first. -/
def combinedRev (liveT : List String) (dict : List (String × String)) : List String → List String → List String
  | _, [] => []
  | added, x :: l =>
    if x ∈ liveT then x :: combinedRev liveT dict (x :: added) l
    else
      match dict.find? fun q => decide (q.2 = x) && decide (q.1 ∉ added) with
      | some q => q.1 :: combinedRev liveT dict (q.1 :: added) l
      | none => x :: combinedRev liveT dict added l

/-- `generate_combined_block_from_original` (src/liveness/stack_layout_methods.py:322-346). -/
def combinedInit (orig liveT : List String) (dict : List (String × String)) : List String :=
  (combinedRev liveT dict.reverse [] orig.reverse).reverse

/-- Gaps never remain in a layout (`outputLayout_noGaps`), so a layout is read as a list of variables. -/
def names (l : List (Option String)) : List String := l.filterMap id

/-- The result of unifying the stacks before a join. -/
structure Unified where
  combined : List String
  stacks : List (String × List String)
  deriving DecidableEq, Repr

/-- The common part of `unify_stacks_brothers` and `unify_stacks_dominant`: from the dictionaries to the stacks
(src/liveness/stack_layout_methods.py:359-387 and 416-444). `pseudo` are the names of the pseudo phi functions. -/
def unifyWith (dict : String → List (String × String)) (pseudo : List String) (target : String) (preds : List String)
    (live : String → List String) (depth : String → List Int) (original : String) (originalIn : List String)
    (canJunk : Bool) : Unified :=
  let liveT := live target ++ pseudo
  let init := combinedInit originalIn liveT (dict original)
  let r := outputLayout init [] liveT (fun x => if x ∈ pseudo then [0] else depth x) canJunk
  let combined := names r.1
  ⟨combined.take r.2, preds.map fun p =>
    (p, if p = original then unifyJoint (dict p) combined else (unifyJoint (dict p) combined).take r.2)⟩

/-- `unify_stacks_brothers` (src/liveness/stack_layout_methods.py:349-387). -/
def unifyBrothers (target : String) (preds : List String) (live : String → List String) (phis : List Phi)
    (depth : String → List Int) (original : String) (originalIn : List String) (canJunk : Bool) : Unified :=
  unifyWith (phiFunc target preds live phis) ((List.range (numPseudo target preds live phis)).map pseudoName)
    target preds live depth original originalIn canJunk

/-- The replacement of `bottom` by the value of the dominating block in `unify_stacks_dominant`
(src/liveness/stack_layout_methods.py:408-414). -/
def fillBottom (dict : String → List (String × String)) (original p : String) : List (String × String) :=
  if p = original then dict p
  else (dict p).map fun q => (q.1, if q.2 = "bottom" then (lookup (dict original) q.1).getD "bottom" else q.2)

/-- `unify_stacks_dominant` (src/liveness/stack_layout_methods.py:390-444), without the set of values to propagate. `none`:
the assertion fails. -/
def unifyDominant (target : String) (preds : List String) (live : String → List String) (phis : List Phi)
    (depth : String → List Int) (original : String) (originalIn : List String) (canJunk : Bool) : Option Unified :=
  let dict := phiFunc target preds live phis
  if (dict original).all fun q => q.2 != "bottom" then
    some (unifyWith (fillBottom dict original) ((List.range (numPseudo target preds live phis)).map pseudoName)
      target preds live depth original originalIn canJunk)
  else none

/-- The loop of `substitute_duplicates` on the reversed stack (src/liveness/layout_generation.py:40-45); `n` is
`len(added)`. -/
def substRev : List String → List String → List String
  | _, [] => []
  | added, x :: l =>
    if x ∈ added then ("a" ++ toString added.length) :: substRev added l else x :: substRev (x :: added) l

/-- `substitute_duplicates` (src/liveness/layout_generation.py:37-47). -/
def substDuplicates (input : List String) : List String := (substRev [] input.reverse).reverse

end Grey.Layout
