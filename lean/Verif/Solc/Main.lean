import Verif.Solc.Output

/-!
Model of how the contracts of an input are enumerated and how their results are collected:
`SolidityCompilation._process_json_output` (src/execution/sol_compilation.py:355-384), `parse_CFG_from_json_dict`
(src/parser/parser.py:235-245), the loop of `main` (src/execution/main_execution.py:125-216) and
`process_importer_standard_output` (src/execution/sol_compilation.py:229-243). What is done for a single contract and the
importer of solc are parameters. Exceptions are `none`.
-/

namespace Grey.Solc

variable {α C A : Type}

/-- The answer of solc to a standard-JSON input, as far as it is read: the severities of the messages, and for each file
the contracts with their graph: `none` if the graph is missing, `some none` if it is `null`. -/
structure Answer (α : Type) where
  severities : List String
  files : List (List Char × List (List Char × Option (Option α)))

/-- The inner loop of `_process_json_output` (src/execution/sol_compilation.py:371-376). -/
def jsonFile : List (List Char × Option (Option α)) → List (List Char × α) → Option (List (List Char × α))
  | [], d => some d
  | (name, v) :: rest, d =>
    match v with
    | none => none
    | some none => jsonFile rest d
    | some (some g) => jsonFile rest (put d name g)

/-- The outer loop of `_process_json_output` (src/execution/sol_compilation.py:370). -/
def jsonFiles : List (List Char × List (List Char × Option (Option α))) → List (List Char × α) →
    Option (List (List Char × α))
  | [], d => some d
  | (_, cs) :: rest, d =>
    match jsonFile cs d with
    | none => none
    | some d => jsonFiles rest d

/-- `_process_json_output` and the end of `compile_json_input` (src/execution/sol_compilation.py:355-384, 419-425): the
dictionary of graphs. It is `None` if there are errors, which ends the program with an exception when it is read
(src/parser/parser.py:240). The contract that was asked for only decides which graph is stored in a file of its own,
and only if the name of such a file is given, which is never the case (src/execution/main_execution.py:43-44). -/
def jsonOutput (a : Answer α) (_contract : Option (List Char)) : Option (List (List Char × α)) :=
  if a.severities.any (· == "error") then none else jsonFiles a.files []

/-- `parse_CFG_from_json_dict` (src/parser/parser.py:235-245). -/
def parseAll (parse : α → Option C) : List (List Char × α) → List (List Char × C) → Option (List (List Char × C))
  | [], d => some d
  | (name, g) :: rest, d =>
    match parse g with
    | none => none
    | some c => parseAll parse rest (put d name c)

/-- What the importer returns: for each source, for each kind of result of the bytecode, the text. -/
abbrev Imported := List (List Char × List (String × List Char))

/-- `process_importer_standard_output` (src/execution/sol_compilation.py:229-243). -/
def importerResult (r : Imported) (name : List Char) (selected : String) : Option (List Char) :=
  match r.find? fun e => e.1 = name with
  | none => none
  | some e => (e.2.find? fun k => k.1 == selected).map (·.2)

/-- The importer of solc: for each source that it is given, it returns the results that were requested, from what it
knows about the assembly. -/
def importer (know : A → List (String × List Char)) (requested : List String) (sources : List (List Char × A)) : Imported :=
  sources.map fun e => (e.1, (know e.2).filter fun k => requested.contains k.1)

/-- What the loop of `main` collects (src/execution/main_execution.py:134-142): the assembly of each contract (the
combined output) and the rows of the table of contracts. -/
structure Collected (A : Type) where
  combined : List (List Char × A)
  rows : List (List Char × List Char)
  deriving DecidableEq

/-- The loop of `main` (src/execution/main_execution.py:143-195): `compile` is `analyze_single_cfg`, `know` what solc
knows about an assembly. The results that are requested are those of `build_output_selection`
(src/solution_generation/reconstruct_bytecode.py:450-455), and `selected` is `object`, or `opcodes` with the option
`--json-solc` (src/execution/main_execution.py:169-189). Times, statistics and the files for debugging are left out. -/
def mainLoop (compile : C → Option A) (know : A → List (String × List Char)) (selected : String) :
    List (List Char × C) → Collected A → Option (Collected A)
  | [], r => some r
  | (name, c) :: rest, r =>
    match compile c with
    | none => none
    | some asm =>
      match importerResult (importer know ["object"] [(name, asm)]) name selected with
      | none => none
      | some code =>
        mainLoop compile know selected rest { combined := put r.combined name asm, rows := r.rows ++ [(name, code)] }

/-- `main` from the dictionary of graphs on (src/execution/main_execution.py:125-195). -/
def mainOf (parse : α → Option C) (compile : C → Option A) (know : A → List (String × List Char)) (selected : String)
    (graphs : List (List Char × α)) : Option (Collected A) :=
  match parseAll parse graphs [] with
  | none => none
  | some cfgs => mainLoop compile know selected cfgs ⟨[], []⟩

/-! ## Specification -/

/-- The contracts of an answer with their graphs, file by file. -/
def Answer.graphs (a : Answer α) : List (List Char × α) :=
  a.files.flatMap fun f => f.2.filterMap fun e => e.2.join.map fun g => (e.1, g)

/-- An answer without errors, in which the graph is given (or `null`) for every contract. -/
structure Answer.Fine (a : Answer α) : Prop where
  errors : "error" ∉ a.severities
  given : ∀ f ∈ a.files, ∀ e ∈ f.2, e.2 ≠ none

/-! ## Proofs -/

theorem put_keys {β : Type} (d : List (List Char × β)) (k : List Char) (v : β) (h : (d.map (·.1)).Nodup) :
    ((put d k v).map (·.1)).Nodup ∧ ∀ x, x ∈ (put d k v).map (·.1) ↔ x ∈ d.map (·.1) ∨ x = k := by
  unfold put
  by_cases e : (d.any fun e => e.1 = k) = true
  · have hk : (d.map fun e => if e.1 = k then (k, v) else e).map (·.1) = d.map (·.1) := by
      rw [List.map_map]
      apply List.map_congr_left
      intro a _
      by_cases h : a.1 = k <;> simp [h]
    rw [if_pos e, hk]
    refine ⟨h, fun x => ⟨Or.inl, ?_⟩⟩
    rintro (hx | rfl)
    · exact hx
    · obtain ⟨a, ha, hb⟩ := List.any_eq_true.1 e
      exact List.mem_map.2 ⟨a, ha, by simpa using hb⟩
  · rw [if_neg e]
    have : k ∉ d.map (·.1) := by
      intro hm
      obtain ⟨a, ha, hb⟩ := List.mem_map.1 hm
      exact e (List.any_eq_true.2 ⟨a, ha, by simpa using hb⟩)
    rw [List.map_append]
    refine ⟨?_, fun x => by simp⟩
    rw [List.nodup_append]
    refine ⟨h, by simp, ?_⟩
    intro a ha b hb hab
    simp at hb
    exact this (by rw [← hb, ← hab]; exact ha)

/-- Looking up an entry after an assignment. -/
theorem mem_put {β : Type} (d : List (List Char × β)) (k : List Char) (v : β) (e : List Char × β) :
    e ∈ put d k v ↔ (e ∈ d ∧ e.1 ≠ k) ∨ e = (k, v) := by
  unfold put
  by_cases h : (d.any fun e => e.1 = k) = true
  · rw [if_pos h, List.mem_map]
    constructor
    · rintro ⟨a, ha, rfl⟩
      by_cases hk : a.1 = k
      · right; simp [hk]
      · left; simp [hk, ha]
    · rintro (⟨h1, h2⟩ | rfl)
      · exact ⟨e, h1, by simp [h2]⟩
      · obtain ⟨a, ha, hb⟩ := List.any_eq_true.1 h
        exact ⟨a, ha, by simp [of_decide_eq_true hb]⟩
  · rw [if_neg h, List.mem_append, List.mem_singleton]
    have : ∀ a ∈ d, a.1 ≠ k := by
      intro a ha hk
      exact h (List.any_eq_true.2 ⟨a, ha, by simpa using hk⟩)
    constructor
    · rintro (h1 | h1)
      · exact .inl ⟨h1, this e h1⟩
      · exact .inr h1
    · rintro (h1 | h1)
      · exact .inl h1.1
      · exact .inr h1

/-- All assignments of a list, one after the other. -/
def putAll {β : Type} (l : List (List Char × β)) (d : List (List Char × β)) : List (List Char × β) :=
  l.foldl (fun d e => put d e.1 e.2) d

theorem jsonFile_eq : ∀ (cs : List (List Char × Option (Option α))) (d : List (List Char × α)),
    (∀ e ∈ cs, e.2 ≠ none) →
    jsonFile cs d = some (putAll (cs.filterMap fun e => e.2.join.map fun g => (e.1, g)) d)
  | [], _, _ => rfl
  | (name, v) :: rest, d, h => by
    have ih := fun d => jsonFile_eq rest d (fun e he => h e (by simp [he]))
    match v, h (name, v) (by simp) with
    | none, k => exact absurd rfl k
    | some none, _ => simp [jsonFile, ih]
    | some (some g), _ => simp [jsonFile, ih, putAll]

theorem jsonFiles_eq : ∀ (fs : List (List Char × List (List Char × Option (Option α)))) (d : List (List Char × α)),
    (∀ f ∈ fs, ∀ e ∈ f.2, e.2 ≠ none) →
    jsonFiles fs d = some (putAll (fs.flatMap fun f => f.2.filterMap fun e => e.2.join.map fun g => (e.1, g)) d)
  | [], _, _ => rfl
  | (file, cs) :: rest, d, h => by
    have ih := fun d => jsonFiles_eq rest d (fun f hf => h f (by simp [hf]))
    rw [jsonFiles, jsonFile_eq cs d (h (file, cs) (by simp))]
    simp only [ih]
    rw [List.flatMap_cons, putAll, putAll, putAll, List.foldl_append]

theorem putAll_distinct {β : Type} : ∀ (l d : List (List Char × β)), (l.map (·.1)).Nodup →
    (∀ e ∈ d, ∀ x ∈ l, e.1 ≠ x.1) → putAll l d = d ++ l
  | [], d, _, _ => by simp [putAll]
  | e :: l, d, h, hd => by
    rw [List.map_cons, List.nodup_cons] at h
    have ih := putAll_distinct l (d ++ [(e.1, e.2)]) h.2 (by
      intro a ha x hx
      rw [List.mem_append, List.mem_singleton] at ha
      rcases ha with ha | rfl
      · exact hd a ha x (by simp [hx])
      · intro k
        exact h.1 (List.mem_map.2 ⟨x, hx, k.symm⟩))
    rw [putAll, List.foldl_cons, put_new d e.1 e.2 (fun a ha => hd a ha e (by simp))]
    rw [putAll] at ih
    rw [ih]
    simp

theorem mem_putAll {β : Type} : ∀ (l d : List (List Char × β)) (k : List Char) (v : β),
    (k, v) ∈ putAll l d ↔
      (∃ a b, l = a ++ (k, v) :: b ∧ ∀ x ∈ b, x.1 ≠ k) ∨ ((k, v) ∈ d ∧ ∀ x ∈ l, x.1 ≠ k)
  | [], d, k, v => by simp [putAll]
  | e :: l, d, k, v => by
    have ih := mem_putAll l (put d e.1 e.2) k v
    rw [show putAll (e :: l) d = putAll l (put d e.1 e.2) from rfl, ih, mem_put]
    constructor
    · rintro (⟨a, b, rfl, hb⟩ | ⟨(⟨h1, h2⟩ | h1), h3⟩)
      · exact .inl ⟨e :: a, b, rfl, hb⟩
      · refine .inr ⟨h1, ?_⟩
        intro x hx
        rcases List.mem_cons.1 hx with rfl | hx
        · exact fun k => h2 k.symm
        · exact h3 x hx
      · obtain ⟨e1, e2⟩ := e
        cases h1
        exact .inl ⟨[], l, rfl, h3⟩
    · rintro (⟨a, b, hl, hb⟩ | ⟨h1, h2⟩)
      · cases a with
        | nil =>
          simp only [List.nil_append, List.cons.injEq] at hl
          obtain ⟨rfl, rfl⟩ := hl
          exact .inr ⟨.inr rfl, hb⟩
        | cons a0 a =>
          simp only [List.cons_append, List.cons.injEq] at hl
          obtain ⟨rfl, rfl⟩ := hl
          exact .inl ⟨a, b, rfl, hb⟩
      · exact .inr ⟨.inl ⟨h1, fun k => h2 e (by simp) k.symm⟩, fun x hx => h2 x (by simp [hx])⟩

/-- **C93, standard JSON: what is compiled.** The graph that is compiled under the name of a contract is that of the last
contract of that name, whichever file it is in; nothing is compiled that is not a contract of the answer. -/
theorem json_exact (a : Answer α) (h : a.Fine) (c : Option (List Char)) : ∃ d, jsonOutput a c = some d ∧
    ∀ k g, (k, g) ∈ d ↔ ∃ before after, a.graphs = before ++ (k, g) :: after ∧ ∀ x ∈ after, x.1 ≠ k := by
  have e : a.severities.any (· == "error") = false := by
    rw [List.any_eq_false]
    intro s hs hse
    exact h.errors (by rw [← eq_of_beq hse]; exact hs)
  refine ⟨putAll a.graphs [], ?_, fun k g => ?_⟩
  · rw [jsonOutput, e, if_neg (by simp), jsonFiles_eq _ _ h.given]; rfl
  · rw [mem_putAll]; simp

/-- **C93, standard JSON.** If no two files have a contract with the same name, then all contracts with a graph are
compiled, with their own graphs, in the order of the files and contracts.

Full property: also if two files have a contract with the same name. It does not hold, see `same_name_lost`. -/
theorem json_all_partial (a : Answer α) (h : a.Fine) (hn : (a.graphs.map (·.1)).Nodup) (c : Option (List Char)) :
    jsonOutput a c = some a.graphs := by
  have e : a.severities.any (· == "error") = false := by
    rw [List.any_eq_false]
    intro s hs hse
    exact h.errors (by rw [← eq_of_beq hse]; exact hs)
  rw [jsonOutput, e, if_neg (by simp), jsonFiles_eq _ _ h.given]
  have := putAll_distinct a.graphs [] hn (by simp)
  rw [List.nil_append] at this
  exact congrArg some this

theorem parseAll_eq (parse : α → Option C) : ∀ (l : List (List Char × α)) (d : List (List Char × C)),
    (l.map (·.1)).Nodup → (∀ e ∈ d, ∀ x ∈ l, e.1 ≠ x.1) →
    parseAll parse l d = (l.mapM fun e => (parse e.2).map fun c => (e.1, c)).map (d ++ ·)
  | [], d, _, _ => by simp [parseAll]
  | (name, g) :: l, d, h, hd => by
    rw [List.map_cons, List.nodup_cons] at h
    rw [parseAll, List.mapM_cons]
    cases e : parse g with
    | none => simp
    | some c =>
      simp only
      rw [put_new d name c (fun a ha => hd a ha (name, g) (by simp)), parseAll_eq parse l _ h.2]
      · cases (l.mapM fun e => (parse e.2).map fun c => (e.1, c)) <;> simp
      · intro a ha x hx
        rw [List.mem_append, List.mem_singleton] at ha
        rcases ha with ha | rfl
        · exact hd a ha x (by simp [hx])
        · intro k
          exact h.1 (List.mem_map.2 ⟨x, hx, k.symm⟩)

/-- The bytecode the importer makes of an assembly. -/
def bytecode (know : A → List (String × List Char)) (asm : A) : Option (List Char) :=
  ((know asm).find? fun k => k.1 == "object").map (·.2)

theorem importerResult_object (know : A → List (String × List Char)) (name : List Char) (asm : A) :
    importerResult (importer know ["object"] [(name, asm)]) name "object" = bytecode know asm := by
  have h : ∀ l : List (String × List Char),
      ((l.filter fun k => ["object"].contains k.1).find? fun k => k.1 == "object") = l.find? fun k => k.1 == "object" := by
    intro l
    induction l with
    | nil => rfl
    | cons e l ih =>
      rw [List.filter_cons, List.find?_cons]
      by_cases hk : e.1 = "object"
      · rw [if_pos (by simp [hk]), List.find?_cons]
        simp [hk]
      · rw [if_neg (by simp [hk]), ih]
        have : (e.1 == "object") = false := by simp [hk]
        simp only [this]
  have k := h (know asm)
  unfold importerResult importer bytecode
  simp only [List.map_cons, List.map_nil, List.find?_cons, decide_true]
  rw [k]

theorem importerResult_other (know : A → List (String × List Char)) (name : List Char) (asm : A) (sel : String)
    (hs : sel ≠ "object") : importerResult (importer know ["object"] [(name, asm)]) name sel = none := by
  have h : ∀ l : List (String × List Char),
      ((l.filter fun k => ["object"].contains k.1).find? fun k => k.1 == sel) = none := by
    intro l
    rw [List.find?_eq_none]
    intro e he
    have : e.1 = "object" := by simpa using (List.mem_filter.1 he).2
    simp [this, Ne.symm hs]
  have k := h (know asm)
  unfold importerResult importer
  simp only [List.map_cons, List.map_nil, List.find?_cons, decide_true]
  rw [k]
  rfl

theorem mainLoop_eq (compile : C → Option A) (know : A → List (String × List Char)) :
    ∀ (l : List (List Char × C)) (r : Collected A), (l.map (·.1)).Nodup → (∀ e ∈ r.combined, ∀ x ∈ l, e.1 ≠ x.1) →
    mainLoop compile know "object" l r =
      (l.mapM fun e => (compile e.2).bind fun asm => (bytecode know asm).map fun code => (e.1, asm, code)).map fun out =>
        ⟨r.combined ++ out.map (fun o => (o.1, o.2.1)), r.rows ++ out.map (fun o => (o.1, o.2.2))⟩
  | [], r, _, _ => by simp [mainLoop]
  | (name, c) :: l, r, h, hd => by
    rw [List.map_cons, List.nodup_cons] at h
    rw [mainLoop, List.mapM_cons]
    cases e : compile c with
    | none => simp
    | some asm =>
      simp only [importerResult_object]
      cases e' : bytecode know asm with
      | none => simp [e']
      | some code =>
        simp only
        rw [mainLoop_eq compile know l _ h.2]
        · simp only [put_new r.combined name asm (fun a ha => hd a ha (name, c) (by simp))]
          simp only [Option.bind_some, Option.bind_eq_bind, e', Option.map_some]
          cases (l.mapM fun e => (compile e.2).bind fun asm => (bytecode know asm).map fun code => (e.1, asm, code)) <;>
            simp
        · intro a ha x hx
          simp only at ha
          rw [mem_put] at ha
          rcases ha with ⟨ha, -⟩ | rfl
          · exact hd a ha x (by simp [hx])
          · intro k
            exact h.1 (List.mem_map.2 ⟨x, hx, k.symm⟩)

/-- **C93, the results.** From a dictionary of graphs on, `main` either ends with an exception, because a contract cannot
be read, compiled or imported, or the combined output has, for each contract in order, the assembly that is made of its
graph, and the table has, for each contract in order, the bytecode the importer makes of that assembly. No contract is
left out, overwritten or exchanged. -/
theorem main_results (parse : α → Option C) (compile : C → Option A) (know : A → List (String × List Char))
    (graphs : List (List Char × α)) (hn : (graphs.map (·.1)).Nodup) :
    mainOf parse compile know "object" graphs =
      ((graphs.mapM fun e => (parse e.2).map fun c => (e.1, c)).bind fun cfgs =>
        (cfgs.mapM fun e => (compile e.2).bind fun asm => (bytecode know asm).map fun code => (e.1, asm, code)).map
          fun out => ⟨out.map fun o => (o.1, o.2.1), out.map fun o => (o.1, o.2.2)⟩) := by
  rw [mainOf, parseAll_eq parse graphs [] hn (by simp)]
  cases e : (graphs.mapM fun e => (parse e.2).map fun c => (e.1, c)) with
  | none => simp
  | some cfgs =>
    have hk : cfgs.map (·.1) = graphs.map (·.1) := by
      clear hn
      induction graphs generalizing cfgs with
      | nil => simp at e; subst e; rfl
      | cons g gs ih =>
        rw [List.mapM_cons] at e
        cases hp : parse g.2 with
        | none => simp [hp] at e
        | some c =>
          cases hr : (gs.mapM fun e => (parse e.2).map fun c => (e.1, c)) with
          | none => simp [hp, hr] at e
          | some cs =>
            simp [hp, hr] at e
            subst e
            simp [ih cs hr]
    simp only [Option.map_some, List.nil_append, Option.bind_some]
    rw [mainLoop_eq compile know cfgs ⟨[], []⟩ (by rw [hk]; exact hn) (by simp)]
    simp

/-- **Violation of C93.** With the option for the opcodes, `main` ends with an exception for every input with a contract,
because only the bytecode is requested from solc. -/
theorem opcodes_not_requested (parse : α → Option C) (compile : C → Option A) (know : A → List (String × List Char))
    (e : List Char × α) (graphs : List (List Char × α)) : mainOf parse compile know "opcodes" (e :: graphs) = none := by
  have hl : ∀ (l : List (List Char × C)) (r : Collected A), l ≠ [] → mainLoop compile know "opcodes" l r = none := by
    intro l r hl
    cases l with
    | nil => exact absurd rfl hl
    | cons a l =>
      obtain ⟨name, c⟩ := a
      rw [mainLoop]
      cases compile c with
      | none => rfl
      | some asm => simp only [importerResult_other know name asm "opcodes" (by decide)]
  have hp : ∀ (l : List (List Char × α)) (d d' : List (List Char × C)), parseAll parse l d = some d' → d ≠ [] → d' ≠ [] := by
    intro l
    induction l with
    | nil => intro d d' h hd; simp [parseAll] at h; exact h ▸ hd
    | cons a l ih =>
      intro d d' h hd
      obtain ⟨name, g⟩ := a
      rw [parseAll] at h
      cases e : parse g with
      | none => simp [e] at h
      | some c =>
        simp only [e] at h
        refine ih _ _ h ?_
        unfold put
        split <;> simp [hd]
  rw [mainOf]
  cases h : parseAll parse (e :: graphs) [] with
  | none => rfl
  | some cfgs =>
    refine hl cfgs _ ?_
    obtain ⟨name, g⟩ := e
    rw [parseAll] at h
    cases k : parse g with
    | none => simp [k] at h
    | some c =>
      simp only [k] at h
      exact hp _ _ _ h (by simp [put])

/-! ## Examples and violations -/

/-- For the examples: an answer with an interface, and a contract in each of two files. -/
def exAnswer (n : String) : Answer Nat :=
  ⟨["warning"], [("a.sol".toList, [("I".toList, some none), ("Token".toList, some (some 1))]),
    ("b.sol".toList, [(n.toList, some (some 2))])]⟩

theorem exAnswer_fine (n : String) : (exAnswer n).Fine :=
  ⟨by simp [exAnswer], by simp [exAnswer]; rintro a b (⟨-, rfl⟩ | ⟨-, rfl⟩) <;> simp⟩

example : jsonOutput (exAnswer "Shop") none = some [("Token".toList, 1), ("Shop".toList, 2)] :=
  json_all_partial (exAnswer "Shop") (exAnswer_fine _) (by decide +kernel) none

/-- Violation of C93: of two contracts with the same name in different files only one is compiled. -/
theorem same_name_lost : jsonOutput (exAnswer "Token") none = some [("Token".toList, 2)] := by decide +kernel

/-- Violation of C93 (the option is not observed): all contracts are compiled, although one is asked for. -/
theorem asked_ignored :
    jsonOutput (exAnswer "Shop") (some "Shop".toList) = some [("Token".toList, 1), ("Shop".toList, 2)] := by decide +kernel

example : mainOf (fun g : Nat => some (g + 1)) (fun c => some (c * 10))
    (fun a => [("opcodes", "x".toList), ("object", (toString a).toList)]) "object" [("A".toList, 1), ("B".toList, 2)] =
    some ⟨[("A".toList, 20), ("B".toList, 30)], [("A".toList, "20".toList), ("B".toList, "30".toList)]⟩ := by
  rw [main_results _ _ _ _ (by decide +kernel)]
  decide +kernel

end Grey.Solc
