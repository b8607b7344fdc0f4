import Mathlib.Data.List.Basic
import Verif.Common.Names

/-!
# C37: cutting a file into the JSON documents it holds

Model of `split_json` (src/parser/utils_parser.py:149-181). The file is the list of its characters; decoding one
document (`json.loads`) is a parameter that may fail.
-/

namespace Grey.Parser

variable {α : Type}

/-- `content.replace("'", '"')` (src/parser/utils_parser.py:174). -/
def requote (s : List Char) : List Char := s.map fun c => if c = '\'' then '"' else c

/-- The loop of `split_json` (src/parser/utils_parser.py:160-179): `lines` is the whole file, the next argument what
is left of it, `i` the index of the next character. The entry `any(char == line_skip for line_skip in ["null", ""])`
(line 162) compares one character with strings of another length and never holds, so it is left out. A document that
does not decode is reported on the console and left out (lines 178-179). -/
def splitLoop (decode : List Char → Option α) (lines : List Char) :
    List Char → Nat → Nat → Int → List (String × α)
  | [], _, _, _ => []
  | c :: rest, i, ini, level =>
    if c = '{' then splitLoop decode lines rest (i + 1) (if level = 0 then i else ini) (level + 1)
    else if c = '}' then
      if level - 1 = 0 then
        match decode (requote ((lines.drop ini).take (i + 1 - ini))) with
        | some v => (toString i, v) :: splitLoop decode lines rest (i + 1) ini (level - 1)
        | none => splitLoop decode lines rest (i + 1) ini (level - 1)
      else splitLoop decode lines rest (i + 1) ini (level - 1)
    else splitLoop decode lines rest (i + 1) ini level

/-- `split_json` (src/parser/utils_parser.py:149-181): the dictionary, as the list of its entries in insertion order. -/
def splitJson (decode : List Char → Option α) (lines : List Char) : List (String × α) :=
  splitLoop decode lines lines 0 0 0

/-! ## Specification -/

/-- Text without braces. -/
def Plain (s : List Char) : Prop := ∀ c ∈ s, c ≠ '{' ∧ c ≠ '}'

/-- Text whose braces are balanced. -/
inductive Balanced : List Char → Prop
  | nil : Balanced []
  | char {c s} : c ≠ '{' → c ≠ '}' → Balanced s → Balanced (c :: s)
  | block {a b} : Balanced a → Balanced b → Balanced ('{' :: a ++ '}' :: b)

/-- A document: a pair of braces around balanced text. -/
def Document (d : List Char) : Prop := ∃ a, Balanced a ∧ d = '{' :: a ++ ['}']

/-- The file made of the given pairs (separator, document), followed by a last text. -/
def fileOf : List (List Char × List Char) → List Char → List Char
  | [], last => last
  | (sep, d) :: more, last => sep ++ d ++ fileOf more last

/-- The entries to be found in such a file starting at offset `off`: every document that decodes, keyed by the position
of its closing brace. -/
def entriesOf (decode : List Char → Option α) : Nat → List (List Char × List Char) → List (String × α)
  | _, [] => []
  | off, (sep, d) :: more =>
    ((decode (requote d)).map fun v => (toString (off + sep.length + d.length - 1), v)).toList ++
      entriesOf decode (off + sep.length + d.length) more

/-! ## Proofs -/

theorem loop_plain (decode : List Char → Option α) (lines s rest : List Char) (hs : Plain s) (i ini : Nat) (l : Int) :
    splitLoop decode lines (s ++ rest) i ini l = splitLoop decode lines rest (i + s.length) ini l := by
  induction s generalizing i with
  | nil => simp
  | cons c s ih =>
    have hc := hs c (by simp)
    rw [List.cons_append, splitLoop, if_neg hc.1, if_neg hc.2, ih (fun x hx => hs x (by simp [hx]))]
    congr 1
    simp; omega

theorem loop_balanced (decode : List Char → Option α) (lines s : List Char) (hs : Balanced s) :
    ∀ (rest : List Char) (i ini : Nat) (l : Int), 1 ≤ l →
      splitLoop decode lines (s ++ rest) i ini l = splitLoop decode lines rest (i + s.length) ini l := by
  induction hs with
  | nil => intros; simp
  | char h1 h2 _ ih =>
    intro rest i ini l hl
    rw [List.cons_append, splitLoop, if_neg h1, if_neg h2, ih _ _ _ _ hl]
    congr 1
    simp; omega
  | @block a b _ _ iha ihb =>
    intro rest i ini l hl
    rw [List.append_assoc, List.cons_append, splitLoop, if_pos rfl, if_neg (by omega), iha _ _ _ _ (by omega),
      List.cons_append, splitLoop, if_neg (by decide), if_pos rfl, if_neg (by omega), ihb _ _ _ _ (by omega)]
    congr 1
    · simp; omega
    · omega

theorem loop_file (decode : List Char → Option α) (ps : List (List Char × List Char)) (last : List Char)
    (hsep : ∀ p ∈ ps, Plain p.1) (hdoc : ∀ p ∈ ps, Document p.2) (hlast : Plain last) :
    ∀ (pre : List Char) (ini : Nat),
      splitLoop decode (pre ++ fileOf ps last) (fileOf ps last) pre.length ini 0 = entriesOf decode pre.length ps := by
  induction ps with
  | nil =>
    intro pre ini
    have := loop_plain decode (pre ++ last) last [] hlast pre.length ini 0
    rw [List.append_nil] at this
    simp only [fileOf, entriesOf]
    rw [this]; rfl
  | cons p ps ih =>
    obtain ⟨sep, d⟩ := p
    intro pre ini
    obtain ⟨a, ha, rfl⟩ := hdoc (sep, d) (by simp)
    have key := ih (fun q hq => hsep q (by simp [hq])) (fun q hq => hdoc q (by simp [hq]))
      (pre ++ sep ++ ('{' :: a ++ ['}'])) (pre.length + sep.length)
    set whole := pre ++ fileOf ((sep, '{' :: a ++ ['}']) :: ps) last with hw
    have hw' : pre ++ sep ++ ('{' :: a ++ ['}']) ++ fileOf ps last = whole := by
      rw [hw, fileOf]; simp [List.append_assoc]
    rw [hw'] at key
    have hcut : (whole.drop (pre.length + sep.length)).take (pre.length + sep.length + 1 + a.length + 1 -
        (pre.length + sep.length)) = '{' :: a ++ ['}'] := by
      rw [← hw', List.append_assoc (pre ++ sep)]
      rw [show pre.length + sep.length = (pre ++ sep).length by simp, List.drop_left]
      rw [List.take_append_of_le_length (by simp; omega)]
      rw [List.take_of_length_le (by simp; omega)]
    rw [fileOf, List.append_assoc, loop_plain _ _ _ _ (hsep (sep, '{' :: a ++ ['}']) (by simp)), List.append_assoc, List.cons_append,
      splitLoop, if_pos rfl, if_pos rfl, loop_balanced _ _ _ ha _ _ _ _ (by omega), List.cons_append, splitLoop,
      if_neg (by decide), if_pos rfl, if_pos (by omega), hcut]
    have e1 : (pre ++ sep ++ ('{' :: a ++ ['}'])).length = pre.length + sep.length + 1 + a.length + 1 := by
      simp; omega
    rw [e1] at key
    rw [show (0 : Int) + 1 - 1 = 0 by omega, List.nil_append, key, entriesOf]
    have e2 : pre.length + sep.length + ('{' :: a ++ ['}']).length = pre.length + sep.length + 1 + a.length + 1 := by
      simp; omega
    rw [e2]
    cases decode (requote ('{' :: a ++ ['}'])) <;> simp

/-- C37: a file made of documents (balanced text in braces) separated by text without braces yields exactly those
documents, in order, each under the position of its last character. -/
theorem split_exact (decode : List Char → Option α) (ps : List (List Char × List Char)) (last : List Char)
    (hsep : ∀ p ∈ ps, Plain p.1) (hdoc : ∀ p ∈ ps, Document p.2) (hlast : Plain last) :
    splitJson decode (fileOf ps last) = entriesOf decode 0 ps :=
  loop_file decode ps last hsep hdoc hlast [] 0

theorem requote_id (d : List Char) (h : '\'' ∉ d) : requote d = d := by
  induction d with
  | nil => rfl
  | cons c d ih =>
    have hc : c ≠ '\'' := fun e => h (by simp [e])
    have := ih (fun e => h (by simp [e]))
    simp only [requote, List.map_cons, if_neg hc] at this ⊢
    rw [this]

theorem entries_keys (decode : List Char → Option α) (ps : List (List Char × List Char)) :
    ∀ (off : Nat), (∀ p ∈ ps, Document p.2) →
      ∀ e ∈ entriesOf decode off ps, ∃ k, off ≤ k ∧ e.1 = toString k := by
  induction ps with
  | nil => intro off _ e he; simp [entriesOf] at he
  | cons p ps ih =>
    obtain ⟨sep, d⟩ := p
    intro off hd e he
    obtain ⟨a, -, hda⟩ := hd (sep, d) (by simp)
    have hlen : 1 ≤ d.length := by simp only at hda; rw [hda]; simp
    rw [entriesOf, List.mem_append] at he
    rcases he with he | he
    · rw [Option.mem_toList] at he
      obtain ⟨v, -, rfl⟩ := Option.map_eq_some_iff.mp he
      exact ⟨_, by omega, rfl⟩
    · obtain ⟨k, hk, h⟩ := ih _ (fun q hq => hd q (by simp [hq])) e he
      exact ⟨k, by omega, h⟩

/-- C37, the values: when every document decodes and holds no apostrophe, the values found are exactly the decoded
documents, in order, and no entry overwrites another. -/
theorem split_values (decode : List Char → Option α) (ps : List (List Char × List Char)) (last : List Char)
    (hsep : ∀ p ∈ ps, Plain p.1) (hdoc : ∀ p ∈ ps, Document p.2) (hlast : Plain last)
    (hq : ∀ p ∈ ps, '\'' ∉ p.2) :
    (splitJson decode (fileOf ps last)).map Prod.snd = ps.filterMap (fun p => decode p.2) ∧
      ((splitJson decode (fileOf ps last)).map Prod.fst).Nodup := by
  rw [split_exact decode ps last hsep hdoc hlast]
  clear hsep hlast
  constructor
  · generalize 0 = off
    induction ps generalizing off with
    | nil => rfl
    | cons p ps ih =>
      obtain ⟨sep, d⟩ := p
      rw [entriesOf, List.map_append, ih (fun q h => hdoc q (by simp [h])) (fun q h => hq q (by simp [h])),
        requote_id d (hq (sep, d) (by simp))]
      cases h : decode d <;> simp [h]
  · generalize 0 = off
    induction ps generalizing off with
    | nil => simp [entriesOf]
    | cons p ps ih =>
      obtain ⟨sep, d⟩ := p
      obtain ⟨a, -, hda⟩ := hdoc (sep, d) (by simp)
      have hlen : 1 ≤ d.length := by simp only at hda; rw [hda]; simp
      have hd' : ∀ p ∈ ps, Document p.2 := fun q h => hdoc q (by simp [h])
      rw [entriesOf, List.map_append, List.nodup_append]
      refine ⟨?_, ih hd' (fun q h => hq q (by simp [h])) _, ?_⟩
      · cases decode (requote d) <;> simp
      · intro x hx y hy hxy
        obtain ⟨e, he, rfl⟩ := List.mem_map.mp hx
        rw [Option.mem_toList] at he
        obtain ⟨v, -, rfl⟩ := Option.map_eq_some_iff.mp he
        obtain ⟨e', he', rfl⟩ := List.mem_map.mp hy
        obtain ⟨k, hk, h'⟩ := entries_keys decode ps _ hd' e' he'
        rw [h'] at hxy
        have := Names.toString_inj hxy
        omega

/-! ## Non-vacuity and witnesses -/

theorem ex_doc1 : Document "{\"a\": {\"b\": 1}}".toList :=
  ⟨"\"a\": {\"b\": 1}".toList, by
    refine .char (by decide) (by decide) (.char (by decide) (by decide) (.char (by decide) (by decide)
      (.char (by decide) (by decide) (.char (by decide) (by decide) ?_))))
    refine .block (a := "\"b\": 1".toList) (b := []) ?_ .nil
    exact .char (by decide) (by decide) (.char (by decide) (by decide) (.char (by decide) (by decide)
      (.char (by decide) (by decide) (.char (by decide) (by decide) (.char (by decide) (by decide) .nil))))), by decide⟩

theorem ex_doc2 : Document "{}".toList := ⟨[], .nil, by decide⟩

/-- The pieces of a file with a header, a nested document, `null` between documents and an empty document. -/
def exPieces : List (List Char × List Char) :=
  [("header\n".toList, "{\"a\": {\"b\": 1}}".toList), ("\nnull\n".toList, "{}".toList)]

/-- They meet the hypotheses of `split_exact`. -/
theorem ex_pieces_ok : (∀ p ∈ exPieces, Plain p.1) ∧ (∀ p ∈ exPieces, Document p.2) ∧ Plain "\n".toList := by
  refine ⟨?_, ?_, ?_⟩
  · unfold Plain; decide +kernel
  · intro p hp
    rcases List.mem_cons.mp hp with rfl | hp
    · exact ex_doc1
    · rcases List.mem_cons.mp hp with rfl | hp
      · exact ex_doc2
      · exact absurd hp (by simp)
  · unfold Plain; decide +kernel

example : fileOf exPieces "\n".toList = "header\n{\"a\": {\"b\": 1}}\nnull\n{}\n".toList := by decide +kernel

example : splitJson some (fileOf exPieces "\n".toList) =
    [(toString 21, "{\"a\": {\"b\": 1}}".toList), (toString 29, "{}".toList)] := by
  rw [split_exact some exPieces "\n".toList ex_pieces_ok.1 ex_pieces_ok.2.1 ex_pieces_ok.2.2]
  decide +kernel

/-- A brace inside a JSON string is counted: the document is not found. -/
theorem brace_in_string_lost : splitJson some "{\"a\": \"{\"}".toList = [] := by decide +kernel

/-- A stray closing brace in the text before the documents hides every later document. -/
theorem stray_brace_hides : splitJson some "}{\"a\": 1}{\"b\": 2}".toList = [] := by decide +kernel

/-- An apostrophe inside a JSON string is turned into a quotation mark before decoding. -/
theorem apostrophe_changed : splitJson some "{\"a\": \"it's\"}".toList = [(toString 12, "{\"a\": \"it\"s\"}".toList)] := by
  decide +kernel

end Grey.Parser
