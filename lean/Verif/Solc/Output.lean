import Mathlib.Data.List.Infix

/-!
Model of the functions that take apart what solc prints (src/execution/sol_compilation.py): `process_sol_output`,
`process_contract_output` and `filter_information_from_contract`. Text is the list of its characters. The regular
expressions are modelled by the search they stand for: the leftmost match, with the shortest text for `(.*?)`, which
does not contain a line break. Decoding the JSON of a line is a parameter: `none` if `json.loads` raises an exception,
`some none` for `null`.
-/

namespace Grey.Solc

/-- What precedes the name of a contract in what solc prints (`\n======= `, src/execution/sol_compilation.py:104). -/
def openMark : List Char := ['\n', '=', '=', '=', '=', '=', '=', '=', ' ']

/-- What follows the name of a contract in what solc prints (` =======\n`, src/execution/sol_compilation.py:104). -/
def closeMark : List Char := [' ', '=', '=', '=', '=', '=', '=', '=', '\n']

/-- The group `(.*?)` and what follows it, in the pattern of src/execution/sol_compilation.py:104: the shortest text without line
break which is followed by the closing mark. -/
def nameAt : List Char → Option (List Char)
  | [] => none
  | c :: t =>
    if closeMark.isPrefixOf (c :: t) then some []
    else if c = '\n' then none
    else (nameAt t).map (c :: ·)

/-- A match of the pattern of src/execution/sol_compilation.py:104 at the start of a text: the name. -/
def headerAt (t : List Char) : Option (List Char) :=
  if openMark.isPrefixOf t then nameAt (t.drop openMark.length) else none

/-- `re.split` with the pattern of src/execution/sol_compilation.py:104-105: the text before the first match, and the groups and the
texts that follow them (the even and odd elements, src/execution/sol_compilation.py:109-110). The number is how many characters still
belong to the last match. -/
def splitFrom : Nat → List Char → List Char × List (List Char × List Char)
  | _, [] => ([], [])
  | k + 1, _ :: t => splitFrom k t
  | 0, c :: t =>
    match headerAt (c :: t) with
    | some name =>
      let r := splitFrom (openMark.length + name.length + closeMark.length - 1) t
      ([], (name, r.1) :: r.2)
    | none =>
      let r := splitFrom 0 t
      (c :: r.1, r.2)

/-- The rest of a line, if there is a line break: the group of `(.*?)\n` (src/execution/sol_compilation.py:86). -/
def lineAt : List Char → Option (List Char)
  | [] => none
  | c :: t => if c = '\n' then some [] else (lineAt t).map (c :: ·)

/-- `re.search` for a label, a line break and a line (src/execution/sol_compilation.py:86-87). `label` includes the line break. -/
def searchLine (label : List Char) : List Char → Option (List Char)
  | [] => none
  | c :: t =>
    if label.isPrefixOf (c :: t) then
      match lineAt ((c :: t).drop label.length) with
      | some l => some l
      | none => searchLine label t
    else searchLine label t

/-- `headers["yul"]` and a line break (src/execution/sol_compilation.py:20, 86). -/
def yulLabel : List Char :=
  ['Y', 'u', 'l', ' ', 'C', 'o', 'n', 't', 'r', 'o', 'l', ' ', 'F', 'l', 'o', 'w', ' ',
    'G', 'r', 'a', 'p', 'h', ':', '\n']

example : openMark = "\n======= ".toList ∧ closeMark = " =======\n".toList ∧
    yulLabel = "Yul Control Flow Graph:\n".toList := by decide +kernel

variable {α : Type}

/-- `process_contract_output` for the graphs (src/execution/sol_compilation.py:79-92): `none` if an exception is raised, otherwise the
value that was decoded, which is `none` for `null`. Simplified to the only representation for which it is called. -/
def contractOutput (decode : List Char → Option (Option α)) (body : List Char) : Option (Option α) :=
  match searchLine yulLabel body with
  | some l => decode l
  | none => none

/-- Assignment to an entry of a dictionary, which keeps its place if it exists. -/
def put {β : Type} (d : List (List Char × β)) (k : List Char) (v : β) : List (List Char × β) :=
  if d.any (fun e => e.1 = k) then d.map (fun e => if e.1 = k then (k, v) else e) else d ++ [(k, v)]

/-- The loop of `process_sol_output` (src/execution/sol_compilation.py:115-120): contracts for which nothing is
printed are left out. -/
def solLoop (decode : List Char → Option (Option α)) :
    List (List Char × List Char) → List (List Char × Option α) → Option (List (List Char × Option α))
  | [], d => some d
  | (name, body) :: rest, d =>
    if body = [] then solLoop decode rest d
    else match contractOutput decode body with
      | some v => solLoop decode rest (put d name v)
      | none => none

/-- `process_sol_output` (src/execution/sol_compilation.py:95-122). -/
def solOutput (decode : List Char → Option (Option α)) (text : List Char) : Option (List (List Char × Option α)) :=
  solLoop decode (splitFrom 0 text).2 []

/-- `deployed_contract in deployed_filename` (src/execution/sol_compilation.py:209): containment of strings. -/
def contained (c name : List Char) : Bool := name.tails.any fun t => c.isPrefixOf t

/-- The search for the contract (src/execution/sol_compilation.py:208-210). -/
def pick (c : List Char) : List (List Char × Option α) → Option (List (List Char × α))
  | [] => none
  | (name, v) :: rest =>
    match v with
    | some g => if contained c name then some [(c, g)] else pick c rest
    | none => pick c rest

/-- `filter_information_from_contract` (src/execution/sol_compilation.py:199-215). The outer `none` is an exception, the inner one
the value `None` that is returned when no contract is found. -/
def chosen (decode : List Char → Option (Option α)) (text : List Char) (contract : Option (List Char)) :
    Option (Option (List (List Char × α))) :=
  match solOutput decode text with
  | none => none
  | some d =>
    match contract with
    | some c => some (pick c d)
    | none => some (some (d.filterMap fun e => e.2.map fun g => (e.1, g)))

/-! ## Specification -/

/-- What solc prints before the name of a contract. -/
def printedOpen : List Char := ['\n', '=', '=', '=', '=', '=', '=', '=', ' ']

/-- What solc prints after the name of a contract. -/
def printedClose : List Char := [' ', '=', '=', '=', '=', '=', '=', '=', '\n']

/-- What solc prints before the graph of a contract. -/
def printedLabel : List Char :=
  ['Y', 'u', 'l', ' ', 'C', 'o', 'n', 't', 'r', 'o', 'l', ' ', 'F', 'l', 'o', 'w', ' ',
    'G', 'r', 'a', 'p', 'h', ':', '\n']

example : printedOpen = "\n======= ".toList ∧ printedClose = " =======\n".toList ∧
    printedLabel = "Yul Control Flow Graph:\n".toList := by decide +kernel

/-- What solc prints about one contract: the file and the contract, and the line with its graph, `none` if nothing is
printed after the header. -/
structure Printed where
  file : List Char
  contract : List Char
  line : Option (List Char)

/-- The name solc gives to a contract. -/
def Printed.name (p : Printed) : List Char := p.file ++ ':' :: p.contract

/-- What solc prints after the header of a contract. -/
def Printed.body (p : Printed) : List Char :=
  match p.line with
  | some l => printedLabel ++ l ++ ['\n']
  | none => []

/-- What solc prints for some contracts. -/
def printAll (ps : List Printed) : List Char :=
  ps.flatMap fun p => printedOpen ++ p.name ++ printedClose ++ p.body

/-- The names and the graphs are on one line each, and a graph does not begin with `=` (it is JSON). -/
def OneLine (p : Printed) : Prop := '\n' ∉ p.name ∧ ∀ l ∈ p.line, '\n' ∉ l ∧ l.head? ≠ some '='

/-! ## Proofs -/

/-- A pattern whose first character does not occur again in it is not found at a place that overlaps a later occurrence,
unless it is there before. -/
theorem prefix_before {x : Char} {p s r : List Char} (hx : x ∉ p) (hs : s ≠ [])
    (h : (x :: p) <+: s ++ (x :: r)) : (x :: p) <+: s := by
  rcases List.prefix_or_prefix_of_prefix h (List.prefix_append s (x :: r)) with h' | h'
  · exact h'
  · obtain ⟨t, ht⟩ := h'
    rw [← ht, List.prefix_append_right_inj] at h
    cases s with
    | nil => exact absurd rfl hs
    | cons a s =>
      cases t with
      | nil => rw [List.append_nil] at ht; rw [ht]
      | cons b t =>
        exfalso
        have hb : b = x := by
          obtain ⟨u, hu⟩ := h
          simp at hu; exact hu.1
        simp at ht
        apply hx
        rw [← ht.2, hb]; simp

theorem infix_skip {x : Char} {p : List Char} :
    ∀ {a r : List Char}, x ∉ a → (x :: p) <:+: a ++ r → (x :: p) <:+: r
  | [], _, _, h => h
  | c :: a, r, ha, h => by
    rw [List.cons_append, List.infix_cons_iff] at h
    rcases h with h | h
    · rw [List.cons_prefix_cons] at h
      exact absurd h.1 (fun e => ha (by simp [e]))
    · exact infix_skip (fun e => ha (by simp [e])) h

theorem nameAt_name (r : List Char) : ∀ n : List Char, '\n' ∉ n → nameAt (n ++ closeMark ++ r) = some n
  | [], _ => by simp [closeMark, nameAt]
  | c :: n, hn => by
    have hc : ¬ closeMark <+: c :: (n ++ closeMark ++ r) := by
      intro h
      have h1 : closeMark <+: c :: n := by
        refine prefix_before (x := ' ') (p := closeMark.tail) (r := closeMark.tail ++ r) (by decide) (by simp) ?_
        simpa [closeMark] using h
      exact hn (h1.subset (by decide))
    rw [List.cons_append, List.cons_append, nameAt, if_neg (by simpa using hc), if_neg (fun e => hn (by simp [e])),
      nameAt_name r n (fun e => hn (by simp [e]))]
    rfl

theorem splitFrom_skip (t : List Char) : ∀ u : List Char, splitFrom u.length (u ++ t) = splitFrom 0 t
  | [] => rfl
  | c :: u => by
    rw [List.length_cons, List.cons_append, splitFrom]
    exact splitFrom_skip t u

/-- A header starts a new part. -/
theorem splitFrom_header (n t : List Char) (hn : '\n' ∉ n) :
    splitFrom 0 (openMark ++ n ++ closeMark ++ t) = ([], (n, (splitFrom 0 t).1) :: (splitFrom 0 t).2) := by
  have e : headerAt (openMark ++ n ++ closeMark ++ t) = some n := by
    unfold headerAt
    rw [if_pos (by simp)]
    have : (openMark ++ n ++ closeMark ++ t).drop openMark.length = n ++ closeMark ++ t := by simp
    rw [this, nameAt_name t n hn]
  have k : openMark ++ n ++ closeMark ++ t = '\n' :: (openMark.tail ++ n ++ closeMark ++ t) := by
    simp [openMark]
  rw [k] at e ⊢
  rw [splitFrom, e]
  have l : openMark.length + n.length + closeMark.length - 1 = (openMark.tail ++ n ++ closeMark).length := by
    simp [openMark, closeMark]; omega
  simp only [l, splitFrom_skip t]

/-- Text without a header before a header or the end stays in its part. -/
theorem splitFrom_quiet (t : List Char) (ht : t = [] ∨ ∃ r, t = '\n' :: r) :
    ∀ s : List Char, ¬ openMark <:+: s → splitFrom 0 (s ++ t) = (s ++ (splitFrom 0 t).1, (splitFrom 0 t).2)
  | [], _ => by simp
  | c :: s, hs => by
    have e : headerAt (c :: (s ++ t)) = none := by
      unfold headerAt
      rw [if_neg]
      intro h
      have h : openMark <+: c :: (s ++ t) := by simpa using h
      have h1 : openMark <+: c :: s := by
        rcases ht with rfl | ⟨r, rfl⟩
        · simpa using h
        · exact prefix_before (x := '\n') (p := openMark.tail) (r := r) (by decide) (by simp) h
      exact hs h1.isInfix
    rw [List.cons_append, splitFrom, e]
    have := splitFrom_quiet t ht s (fun h => hs (h.trans (List.suffix_cons c s).isInfix))
    simp only [this]
    simp

theorem body_quiet (p : Printed) (h : OneLine p) : ¬ openMark <:+: p.body := by
  unfold Printed.body
  cases e : p.line with
  | none => simp [openMark]
  | some l =>
    obtain ⟨h1, h2⟩ := h.2 l e
    intro k
    have k : ('\n' :: openMark.tail) <:+: printedLabel.dropLast ++ ('\n' :: (l ++ ['\n'])) := by
      simpa [openMark, printedLabel] using k
    have k := infix_skip (by decide) k
    rw [List.infix_cons_iff] at k
    rcases k with k | k
    · rw [List.cons_prefix_cons] at k
      cases l with
      | nil => exact absurd k.2 (by decide)
      | cons a l =>
        have k := k.2
        have : ('=' :: openMark.tail.tail) <+: a :: (l ++ ['\n']) := k
        rw [List.cons_prefix_cons] at this
        exact h2 (by simp [← this.1])
    · have k := infix_skip h1 k
      exact absurd k.length_le (by decide)

/-- **What solc prints is cut at exactly the headers of the contracts.** -/
theorem split_printed : ∀ ps : List Printed, (∀ p ∈ ps, OneLine p) →
    splitFrom 0 (printAll ps) = ([], ps.map fun p => (p.name, p.body))
  | [], _ => rfl
  | p :: ps, h => by
    have hr := split_printed ps (fun q hq => h q (by simp [hq]))
    have e : printAll (p :: ps) = openMark ++ p.name ++ closeMark ++ (p.body ++ printAll ps) := by
      simp [printAll, openMark, closeMark, printedOpen, printedClose]
    have ht : printAll ps = [] ∨ ∃ r, printAll ps = '\n' :: r := by
      cases ps with
      | nil => left; rfl
      | cons q qs => right; exact ⟨_, by simp [printAll, printedOpen]; rfl⟩
    rw [e, splitFrom_header _ _ (h p (by simp)).1, splitFrom_quiet _ ht _ (body_quiet p (h p (by simp))), hr]
    simp

theorem lineAt_line (r : List Char) : ∀ l : List Char, '\n' ∉ l → lineAt (l ++ '\n' :: r) = some l
  | [], _ => by simp [lineAt]
  | c :: l, h => by
    rw [List.cons_append, lineAt, if_neg (fun e => h (by simp [e])), lineAt_line r l (fun e => h (by simp [e]))]
    rfl

theorem contract_printed (decode : List Char → Option (Option α)) (l : List Char) (h : '\n' ∉ l) :
    contractOutput decode (printedLabel ++ l ++ ['\n']) = decode l := by
  have e : searchLine yulLabel (printedLabel ++ l ++ ['\n']) = some l := by
    have k : printedLabel ++ l ++ ['\n']
        = 'Y' :: (printedLabel.tail ++ (l ++ ['\n'])) := by simp [printedLabel]
    rw [k, searchLine, if_pos (by simp [yulLabel, printedLabel])]
    have : ('Y' :: (printedLabel.tail ++ (l ++ ['\n']))).drop yulLabel.length = l ++ '\n' :: [] := by
      simp [yulLabel, printedLabel]
    rw [this, lineAt_line [] l h]
  rw [contractOutput, e]

/-- The graph of a contract that solc has printed. -/
def Printed.graph (decode : List Char → Option (Option α)) (p : Printed) : Option α :=
  p.line.bind fun l => (decode l).join

/-- The entry of the dictionary for a contract: none if nothing is printed for it. -/
def Printed.entry (decode : List Char → Option (Option α)) (p : Printed) : Option (List Char × Option α) :=
  p.line.map fun _ => (p.name, p.graph decode)

theorem put_new {β : Type} (d : List (List Char × β)) (k : List Char) (v : β) (h : ∀ e ∈ d, e.1 ≠ k) :
    put d k v = d ++ [(k, v)] := by
  unfold put
  rw [if_neg]
  simp only [List.any_eq_true, decide_eq_true_eq, not_exists, not_and]
  exact h

theorem solLoop_printed (decode : List Char → Option (Option α)) : ∀ (ps : List Printed) (d : List (List Char × Option α)),
    (∀ p ∈ ps, OneLine p) → (∀ p ∈ ps, ∀ l ∈ p.line, decode l ≠ none) → (ps.map (·.name)).Nodup →
    (∀ e ∈ d, ∀ p ∈ ps, e.1 ≠ p.name) →
    solLoop decode (ps.map fun p => (p.name, p.body)) d = some (d ++ ps.filterMap (Printed.entry decode))
  | [], d, _, _, _, _ => by simp [solLoop]
  | p :: ps, d, h1, h2, h3, h4 => by
    rw [List.map_cons, List.nodup_cons] at h3
    have ih := fun d' h4' => solLoop_printed decode ps d' (fun q hq => h1 q (by simp [hq]))
      (fun q hq => h2 q (by simp [hq])) h3.2 h4'
    rw [List.map_cons, solLoop]
    cases e : p.line with
    | none =>
      rw [if_pos (by simp [Printed.body, e]), ih d (fun a ha q hq => h4 a ha q (by simp [hq]))]
      simp [Printed.entry, e]
    | some l =>
      have hb : p.body = printedLabel ++ l ++ ['\n'] := by simp [Printed.body, e]
      obtain ⟨v, hv⟩ := Option.ne_none_iff_exists'.1 (h2 p (by simp) l e)
      rw [if_neg (by simp [hb]), hb, contract_printed decode l ((h1 p (by simp)).2 l e).1, hv]
      simp only
      rw [put_new d p.name v (fun a ha => h4 a ha p (by simp)), ih]
      · simp [Printed.entry, Printed.graph, e, hv]
      · intro a ha q hq
        rw [List.mem_append, List.mem_singleton] at ha
        rcases ha with ha | rfl
        · exact h4 a ha q (by simp [hq])
        · intro k
          exact h3.1 (List.mem_map.2 ⟨q, hq, k.symm⟩)

/-- What solc may print: each contract once, and JSON on one line. -/
structure Output (decode : List Char → Option (Option α)) (ps : List Printed) : Prop where
  lines : ∀ p ∈ ps, OneLine p
  json : ∀ p ∈ ps, ∀ l ∈ p.line, decode l ≠ none
  once : (ps.map (·.name)).Nodup

theorem solOutput_printed (decode : List Char → Option (Option α)) (ps : List Printed) (h : Output decode ps) :
    solOutput decode (printAll ps) = some (ps.filterMap (Printed.entry decode)) := by
  rw [solOutput, split_printed ps h.lines]
  simpa using solLoop_printed decode ps [] h.lines h.json h.once (by simp)

/-- **C90, no contract is asked for.** Every contract for which solc prints a graph is returned with its graph, under the
name of its file and its own name, in the order in which they are printed, and nothing else is. -/
theorem all_contracts (decode : List Char → Option (Option α)) (ps : List Printed) (h : Output decode ps) :
    chosen decode (printAll ps) none =
      some (some (ps.filterMap fun p => (p.graph decode).map fun g => (p.name, g))) := by
  rw [chosen, solOutput_printed decode ps h]
  simp only [List.filterMap_filterMap]
  congr 3
  funext p
  cases e : p.line with
  | none => simp [Printed.entry, Printed.graph, e]
  | some l => simp [Printed.entry, Printed.graph, e]

theorem contained_iff (c name : List Char) : contained c name = true ↔ c <:+: name := by
  unfold contained
  rw [List.any_eq_true]
  constructor
  · rintro ⟨t, ht, hp⟩
    rw [List.mem_tails] at ht
    exact (List.isPrefixOf_iff_prefix.1 hp).isInfix.trans ht.isInfix
  · rintro ⟨a, b, rfl⟩
    exact ⟨c ++ b, by rw [List.mem_tails]; exact ⟨a, by simp⟩, by simp⟩

theorem pick_entries (decode : List Char → Option (Option α)) (c : List Char) : ∀ ps : List Printed,
    pick c (ps.filterMap (Printed.entry decode)) =
      (ps.find? fun p => (p.graph decode).isSome && contained c p.name).bind fun p => (p.graph decode).map fun g => [(c, g)]
  | [] => rfl
  | p :: ps => by
    have ih := pick_entries decode c ps
    cases e : p.line with
    | none => simpa [Printed.entry, Printed.graph, e, List.find?_cons] using ih
    | some l =>
      rw [List.filterMap_cons]
      simp only [Printed.entry, e, Option.map_some, pick, List.find?_cons]
      cases g : p.graph decode with
      | none => simpa using ih
      | some v =>
        by_cases k : contained c p.name = true
        · simp [k, g]
        · simpa [k, g] using ih

/-- **C90, a contract is asked for: what is returned.** The graph of the first contract which has one and whose file
name, colon and name contain the name that was asked for - as the graph of the contract that was asked for. -/
theorem asked_exact (decode : List Char → Option (Option α)) (ps : List Printed) (h : Output decode ps) (c : List Char) :
    chosen decode (printAll ps) (some c) =
      some ((ps.find? fun p => (p.graph decode).isSome && decide (c <:+: p.name)).bind fun p =>
        (p.graph decode).map fun g => [(c, g)]) := by
  rw [chosen, solOutput_printed decode ps h]
  simp only [pick_entries]
  have e : ∀ p : Printed, contained c p.name = decide (c <:+: p.name) := by
    intro p
    by_cases k : c <:+: p.name
    · rw [(contained_iff c p.name).2 k]; simp [k]
    · simp only [k, decide_false]
      exact Bool.eq_false_iff.2 (fun h => k ((contained_iff c p.name).1 h))
  simp only [e]

/-- **C90, a contract is asked for.** If the contract has a graph and the name that is asked for does not occur in the
full name (file, colon, contract) of a contract with a graph that is printed before it, then its graph is returned under
the name that was asked for.

Full property: without the proviso. It does not hold, see `other_contract` and `file_name_wins`. -/
theorem asked_contract_partial (decode : List Char → Option (Option α)) (before after : List Printed) (p : Printed) (g : α)
    (h : Output decode (before ++ p :: after)) (hg : p.graph decode = some g)
    (hb : ∀ q ∈ before, q.graph decode ≠ none → ¬ p.contract <:+: q.name) :
    chosen decode (printAll (before ++ p :: after)) (some p.contract) = some (some [(p.contract, g)]) := by
  rw [asked_exact decode _ h]
  have e : (before ++ p :: after).find? (fun q => (q.graph decode).isSome && decide (p.contract <:+: q.name)) = some p := by
    rw [List.find?_append, List.find?_eq_none.2, List.find?_cons]
    · have : p.contract <:+: p.name := ⟨p.file ++ [':'], [], by simp [Printed.name]⟩
      simp [hg, this]
    · intro q hq
      by_cases k : q.graph decode = none
      · simp [k]
      · simp [hb q hq k]
  rw [e]
  simp [hg]

/-! ## Examples and violations -/

/-- For the examples: a line stands for itself, `null` for no graph. -/
def exDecode (l : List Char) : Option (Option (List Char)) := some (if l = "null".toList then none else some l)

/-- For the examples: a contract. -/
def exPrinted (file contract line : String) : Printed := ⟨file.toList, contract.toList, some line.toList⟩

/-- The contracts of the examples: an interface, a library and two contracts. -/
def exOutput : List Printed :=
  [⟨"a.sol".toList, "I".toList, none⟩, exPrinted "a.sol" "Lib" "null", exPrinted "a.sol" "Shop" "{1}",
    exPrinted "a.sol" "Token" "{2}"]

theorem exOutput_ok : Output exDecode exOutput := by
  refine ⟨?_, by intro p _ l _; simp [exDecode], by decide +kernel⟩
  have : ∀ p ∈ exOutput, '\n' ∉ p.name ∧ (p.line.all fun l => !l.contains '\n' && l.head? != some '=') = true := by
    decide +kernel
  intro p hp
  refine ⟨(this p hp).1, fun l hl => ?_⟩
  have := (this p hp).2
  rw [Option.mem_def] at hl
  rw [hl] at this
  simpa using this

example : chosen exDecode (printAll exOutput) (some "Token".toList) = some (some [("Token".toList, "{2}".toList)]) :=
  asked_contract_partial exDecode (exOutput.take 3) [] (exPrinted "a.sol" "Token" "{2}") "{2}".toList exOutput_ok
    (by decide +kernel) (by decide +kernel)

example : chosen exDecode (printAll exOutput) none =
    some (some [("a.sol:Shop".toList, "{1}".toList), ("a.sol:Token".toList, "{2}".toList)]) := by
  rw [all_contracts exDecode exOutput exOutput_ok]; decide +kernel

/-- Violation of C90: a contract whose name contains the name that was asked for is returned instead. -/
theorem other_contract :
    chosen exDecode (printAll [exPrinted "a.sol" "MyToken" "{1}", exPrinted "a.sol" "Token" "{2}"]) (some "Token".toList)
      = some (some [("Token".toList, "{1}".toList)]) := by decide +kernel

/-- Violation of C90: if the name that was asked for is also the name of the file, the first contract of the file is
returned, whichever was asked for. -/
theorem file_name_wins :
    chosen exDecode (printAll [exPrinted "Token.sol" "Shop" "{1}", exPrinted "Token.sol" "Token" "{2}"])
      (some "Token".toList) = some (some [("Token".toList, "{1}".toList)]) := by decide +kernel

end Grey.Solc
