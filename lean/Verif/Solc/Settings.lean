import Mathlib.Data.List.Forall2

/-!
Model of the input for the assembly importer of solc (src/solution_generation/reconstruct_bytecode.py:
`build_standard_json_output`, `build_standard_json_settings`) and of the changes to the settings of a standard-JSON input
(src/execution/sol_compilation.py: `compile_json_input`). A JSON object is the list of its entries; the assembly of a
contract is a value. The settings are one object that all contracts share (src/execution/main_execution.py:164): what
the code does to it for one contract is still there for the next, so the model passes it on.
-/

namespace Grey.Solc

/-- JSON values; numbers and strings are enough here. -/
inductive Json where
  | str (s : String)
  | num (n : Int)
  | bool (b : Bool)
  | null
  | arr (l : List Json)
  | obj (l : List (String × Json))

/-- An object. -/
abbrev Obj := List (String × Json)

/-- `d.get(k)` for a dictionary. -/
def Obj.get (d : Obj) (k : String) : Option Json := (d.find? fun e => e.1 == k).map (·.2)

/-- `d[k] = v` for a dictionary. -/
def Obj.set (d : Obj) (k : String) (v : Json) : Obj := d.filter (fun e => e.1 != k) ++ [(k, v)]

/-- `d.pop(k, None)` for a dictionary. -/
def Obj.pop (d : Obj) (k : String) : Obj := d.filter fun e => e.1 != k

/-- `build_optimizer_configuration` (src/solution_generation/reconstruct_bytecode.py:457-462). -/
def optimizerConfiguration : Json := .obj [("enabled", .bool true), ("runs", .num 200)]

/-- `build_output_selection` (src/solution_generation/reconstruct_bytecode.py:450-455). -/
def outputSelection : Json := .obj [("*", .obj [("", .arr [.str "evm.bytecode.object"])])]

/-- The metadata settings (src/solution_generation/reconstruct_bytecode.py:443-446). -/
def metadataSettings : Json :=
  .obj [("appendCBOR", .bool false), ("useLiteralContent", .bool false), ("bytecodeHash", .str "none")]

/-- Removing the hash from the metadata settings (src/solution_generation/reconstruct_bytecode.py:429-430): `none` is the
exception if they are not an object. -/
def popHash (s : Obj) : Option Obj :=
  match Obj.get s "metadata" with
  | none => some s
  | some (.obj m) => some (Obj.set s "metadata" (.obj (Obj.pop m "bytecodeHash")))
  | some _ => none

/-- `build_standard_json_settings` (src/solution_generation/reconstruct_bytecode.py:414-446): the settings that are
written, and the shared settings afterwards. They are the same object unless the shared settings were empty. -/
def standardSettings (s : Obj) : Option (Obj × Obj) :=
  let finish (t : Obj) : Obj := Obj.set (Obj.set t "outputSelection" outputSelection) "metadata" metadataSettings
  if s.isEmpty then
    some (finish [("optimizer", optimizerConfiguration), ("viaIR", .bool true),
      ("metadata", .obj [("appendCBOR", .bool false)])], s)
  else
    match popHash (Obj.pop s "compilationTarget") with
    | none => none
    | some t => some (finish t, finish t)

/-- `build_standard_json_output` (src/solution_generation/reconstruct_bytecode.py:401-412), for the contract `name` with
the assembly `asm`: what is written, and the shared settings afterwards. -/
def standardOutput (asm : Json) (name : String) (s : Obj) : Option (Obj × Obj) :=
  match standardSettings s with
  | none => none
  | some (t, s') =>
    some ([("language", .str "EVMAssembly"), ("settings", .obj t),
      ("sources", .obj [(name, .obj [("assemblyJson", asm)])])], s')

/-- The files for the importer that the loop of `main` writes (src/execution/main_execution.py:143-164): one for each
contract. -/
def importerFiles : List (String × Json) → Obj → Option (List Obj)
  | [], _ => some []
  | (name, asm) :: rest, s =>
    match standardOutput asm name s with
    | none => none
    | some (o, s') => (importerFiles rest s').map (o :: ·)

/-- What `compile_json_input` does to the settings before solc is run (src/execution/sol_compilation.py:386-398). -/
def inputSettings (s : Obj) : Obj :=
  Obj.set (Obj.set s "outputSelection" (.obj [("*", .obj [("*", .arr [.str "yulCFGJson"])])])) "metadata" metadataSettings

/-! ## Specification -/

/-- The settings an entry of the written file should come from: those of the user, or the default ones if there are
none (the input is not standard JSON). -/
def userSettings (s : Obj) (k : String) : Option Json :=
  if s = [] then
    if k = "optimizer" then some (.obj [("enabled", .bool true), ("runs", .num 200)])
    else if k = "viaIR" then some (.bool true)
    else none
  else Obj.get s k

/-- The file for a contract is as it should be. -/
structure ImporterFile (s : Obj) (name : String) (asm : Json) (o : Obj) : Prop where
  /-- It is assembly code. -/
  language : Obj.get o "language" = some (.str "EVMAssembly")
  /-- It contains the contract and no other. -/
  source : Obj.get o "sources" = some (.obj [(name, .obj [("assemblyJson", asm)])])
  /-- The settings are those of the user, except the ones that the importer does not support and those which grey
  fixes. -/
  settings : ∃ t : Obj, Obj.get o "settings" = some (.obj t) ∧
    (∀ k, k ≠ "compilationTarget" → k ≠ "metadata" → k ≠ "outputSelection" → Obj.get t k = userSettings s k) ∧
    Obj.get t "compilationTarget" = none ∧
    Obj.get t "metadata" = some (.obj [("appendCBOR", .bool false), ("useLiteralContent", .bool false),
      ("bytecodeHash", .str "none")]) ∧
    Obj.get t "outputSelection" = some (.obj [("*", .obj [("", .arr [.str "evm.bytecode.object"])])])

/-! ## Proofs -/

theorem get_pop (d : Obj) (k k' : String) : Obj.get (Obj.pop d k) k' = if k' = k then none else Obj.get d k' := by
  unfold Obj.get Obj.pop
  induction d with
  | nil => simp
  | cons e d ih =>
    rw [List.filter_cons, List.find?_cons]
    by_cases h : e.1 = k
    · rw [if_neg (by simp [h]), ih]
      by_cases h' : k' = k
      · simp [h']
      · have hk : (e.1 == k') = false := by simp [h, Ne.symm h']
        simp [h', hk]
    · rw [if_pos (by simp [h]), List.find?_cons]
      by_cases h' : e.1 = k'
      · have : k' ≠ k := fun x => h (h'.trans x)
        simp [h', this]
      · have : (e.1 == k') = false := by simp [h']
        simp only [this]
        exact ih

theorem get_set (d : Obj) (k k' : String) (v : Json) :
    Obj.get (Obj.set d k v) k' = if k' = k then some v else Obj.get d k' := by
  have h := get_pop d k k'
  unfold Obj.get Obj.pop at h
  unfold Obj.get Obj.set
  rw [List.find?_append]
  by_cases e : k' = k
  · rw [if_pos e] at h ⊢
    rw [Option.map_eq_none_iff.1 h]
    simp [e]
  · rw [if_neg e] at h ⊢
    rw [← h]
    have : (List.find? (fun e : String × Json => e.1 == k') [(k, v)]) = none := by simp [Ne.symm e]
    rw [this]
    simp

/-- The metadata settings are an object, if there are any. -/
def MetadataObject (s : Obj) : Prop := ∀ v, Obj.get s "metadata" = some v → ∃ m, v = .obj m

theorem popHash_get (s t : Obj) (h : popHash s = some t) (k : String) (hk : k ≠ "metadata") :
    Obj.get t k = Obj.get s k := by
  unfold popHash at h
  split at h
  · cases h; rfl
  · cases h
    rw [get_set, if_neg hk]
  · exact nomatch h

theorem popHash_ok (s : Obj) (h : MetadataObject s) : ∃ t, popHash s = some t := by
  unfold popHash
  split
  · exact ⟨_, rfl⟩
  · exact ⟨_, rfl⟩
  · rename_i v hv hg
    obtain ⟨m, rfl⟩ := h _ hg
    exact absurd rfl (hv m)

theorem set_ne_nil (d : Obj) (k : String) (v : Json) : Obj.set d k v ≠ [] := by simp [Obj.set]

/-- The settings for one contract, and that those which remain for the next give the same. -/
theorem settings_ok (s : Obj) (hm : MetadataObject s) : ∃ t s', standardSettings s = some (t, s') ∧
    ((∀ k, k ≠ "compilationTarget" → k ≠ "metadata" → k ≠ "outputSelection" → Obj.get t k = userSettings s k) ∧
      Obj.get t "compilationTarget" = none ∧ Obj.get t "metadata" = some metadataSettings ∧
      Obj.get t "outputSelection" = some outputSelection) ∧
    MetadataObject s' ∧
    (∀ k, k ≠ "compilationTarget" → k ≠ "metadata" → k ≠ "outputSelection" → userSettings s' k = userSettings s k) := by
  unfold standardSettings
  cases s with
  | nil =>
    refine ⟨_, _, rfl, ⟨?_, ?_, ?_, ?_⟩, hm, fun _ _ _ _ => rfl⟩
    · intro k _ h1 h2
      rw [get_set, if_neg h1, get_set, if_neg h2]
      unfold userSettings
      rw [if_pos rfl]
      by_cases a : k = "optimizer"
      · subst a; rfl
      · by_cases b : k = "viaIR"
        · subst b; rfl
        · simp [Obj.get, Ne.symm a, Ne.symm b, Ne.symm h1, a, b]
    · rw [get_set, if_neg (by decide), get_set, if_neg (by decide)]; decide +kernel
    · rw [get_set, if_pos rfl]
    · rw [get_set, if_neg (by decide), get_set, if_pos rfl]
  | cons e d =>
    have hs : e :: d ≠ ([] : Obj) := by simp
    generalize e :: d = s at hm hs ⊢
    have hm' : MetadataObject (Obj.pop s "compilationTarget") := by
      intro v hv
      rw [get_pop, if_neg (by decide)] at hv
      exact hm v hv
    obtain ⟨t, ht⟩ := popHash_ok _ hm'
    have hget : ∀ k, k ≠ "metadata" → Obj.get t k = if k = "compilationTarget" then none else Obj.get s k := by
      intro k hk
      rw [popHash_get _ _ ht k hk, get_pop]
    rw [if_neg (by simpa using hs)]
    simp only [ht]
    have hk : ∀ k, k ≠ "compilationTarget" → k ≠ "metadata" → k ≠ "outputSelection" →
        Obj.get (Obj.set (Obj.set t "outputSelection" outputSelection) "metadata" metadataSettings) k = userSettings s k := by
      intro k h0 h1 h2
      rw [get_set, if_neg h1, get_set, if_neg h2, hget k h1, if_neg h0, userSettings, if_neg hs]
    refine ⟨_, _, rfl, ⟨hk, ?_, ?_, ?_⟩, ?_, ?_⟩
    · rw [get_set, if_neg (by decide), get_set, if_neg (by decide), hget _ (by decide), if_pos rfl]
    · rw [get_set, if_pos rfl]
    · rw [get_set, if_neg (by decide), get_set, if_pos rfl]
    · intro v hv
      rw [get_set, if_pos rfl] at hv
      cases hv
      exact ⟨_, rfl⟩
    · intro k h0 h1 h2
      rw [userSettings, if_neg (set_ne_nil _ _ _)]
      exact hk k h0 h1 h2

/-- **C92.** Whatever the settings are and however many contracts there are, a file is written for the importer for each
contract, in their order, and every one contains exactly the assembly of its contract and the settings of the user - what
was done to the settings for one contract cannot be seen in the file for another. -/
theorem importer_files (s : Obj) (hm : MetadataObject s) (contracts : List (String × Json)) :
    ∃ files, importerFiles contracts s = some files ∧
      List.Forall₂ (fun c o => ImporterFile s c.1 c.2 o) contracts files := by
  suffices h : ∀ s' : Obj, MetadataObject s' →
      (∀ k, k ≠ "compilationTarget" → k ≠ "metadata" → k ≠ "outputSelection" → userSettings s' k = userSettings s k) →
      ∃ files, importerFiles contracts s' = some files ∧
        List.Forall₂ (fun c o => ImporterFile s c.1 c.2 o) contracts files from h s hm (fun _ _ _ _ => rfl)
  induction contracts with
  | nil => intro s' _ _; exact ⟨[], rfl, .nil⟩
  | cons c rest ih =>
    intro s' hm' hu
    obtain ⟨name, asm⟩ := c
    obtain ⟨t, s'', e, ⟨k1, k2, k3, k4⟩, k5, k6⟩ := settings_ok s' hm'
    obtain ⟨files, hf, hall⟩ := ih s'' k5 (fun k h0 h1 h2 => (k6 k h0 h1 h2).trans (hu k h0 h1 h2))
    refine ⟨_, by simp only [importerFiles, standardOutput, e, hf]; rfl, .cons ⟨rfl, rfl, t, rfl, ?_, k2, k3, k4⟩ hall⟩
    intro k h0 h1 h2
    rw [k1 k h0 h1 h2, hu k h0 h1 h2]

/-- The settings of a standard-JSON input meet the hypothesis of `importer_files`, because the metadata settings are
replaced before. -/
theorem input_metadata (s : Obj) : MetadataObject (inputSettings s) := by
  intro v hv
  rw [inputSettings, get_set, if_pos rfl] at hv
  cases hv
  exact ⟨_, rfl⟩

/-- No settings at all meet it, too. -/
theorem no_metadata : MetadataObject [] := by intro v hv; exact nomatch hv

/-- **C92, the settings for the first run of solc.** Only the metadata settings and the selection of the output are
replaced. -/
theorem input_settings (s : Obj) (k : String) (h1 : k ≠ "metadata") (h2 : k ≠ "outputSelection") :
    Obj.get (inputSettings s) k = Obj.get s k ∧
    Obj.get (inputSettings s) "outputSelection" = some (.obj [("*", .obj [("*", .arr [.str "yulCFGJson"])])]) ∧
    Obj.get (inputSettings s) "metadata" = some (.obj [("appendCBOR", .bool false), ("useLiteralContent", .bool false),
      ("bytecodeHash", .str "none")]) := by
  refine ⟨?_, ?_, ?_⟩
  · rw [inputSettings, get_set, if_neg h1, get_set, if_neg h2]
  · rw [inputSettings, get_set, if_neg (by decide), get_set, if_pos rfl]
  · rw [inputSettings, get_set, if_pos rfl]; rfl

/-! ## Examples -/

/-- The settings of the example. -/
def exSettings : Obj :=
  [("compilationTarget", .obj [("a.sol", .str "A")]), ("evmVersion", .str "shanghai"),
    ("metadata", .obj [("bytecodeHash", .str "ipfs")])]

example : ∃ files, importerFiles [("A", .str "asm a"), ("B", .str "asm b")] (inputSettings exSettings) = some files ∧
    List.Forall₂ (fun c o => ImporterFile (inputSettings exSettings) c.1 c.2 o)
      [("A", .str "asm a"), ("B", .str "asm b")] files ∧
    userSettings (inputSettings exSettings) "evmVersion" = some (.str "shanghai") := by
  obtain ⟨files, h1, h2⟩ := importer_files (inputSettings exSettings) (input_metadata _)
    [("A", .str "asm a"), ("B", .str "asm b")]
  refine ⟨files, h1, h2, ?_⟩
  rw [userSettings, if_neg (by simp [inputSettings, Obj.set])]
  rw [inputSettings, get_set, if_neg (by decide), get_set, if_neg (by decide)]
  rfl

end Grey.Solc
