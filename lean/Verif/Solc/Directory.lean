/-!
Model of how the compiler is invoked (src/execution/sol_compilation.py: `_change_path_for_compilation`,
`_restore_path_for_compilation`, `compile_single_sol_file`, `compile_json_input`): the working directory is changed to
the folder of the file, solc is run there and the directory is changed back. The file system and solc are parameters.
-/

namespace Grey.Solc

variable {P R V : Type}

/-- What the invocation of the compiler depends on. -/
structure Sys (P R : Type) where
  /-- Whether a path is a file, seen from a directory (`Path(...).is_file()`). -/
  isFile : P → P → Bool
  /-- The absolute path of a path, seen from a directory (`Path(...).joinpath(...).resolve()`). -/
  resolve : P → P → P
  /-- The directory after `os.chdir` with a path, seen from a directory. -/
  enter : P → P → P
  /-- Running a command in a directory on a file: what it prints, or `none` if an exception is raised, because the
  command cannot be run or what it prints cannot be decoded. -/
  run : P → P → P → Option R

/-- The state: the working directory of the process, and the attributes of the object `SolidityCompilation` that are
used here. An attribute that has not been assigned is `none`; reading it raises an exception. -/
structure Session (P : Type) where
  cwd : P
  command : P
  oldPath : Option P
  oldCommand : Option P

/-- `_change_path_for_compilation` (src/execution/sol_compilation.py:446-459). Simplified: the folder exists. -/
def changePath (sys : Sys P R) (folder : P) (s : Session P) : Session P :=
  let s := { s with oldPath := some s.cwd }
  let s :=
    if sys.isFile s.cwd s.command then
      { s with oldCommand := some s.command, command := sys.resolve s.cwd s.command }
    else s
  { s with cwd := sys.enter s.cwd folder }

/-- `_restore_path_for_compilation` (src/execution/sol_compilation.py:462-468): the first component is `none` if an
exception is raised. The directory the path was read from is an absolute path. -/
def restorePath (s : Session P) : Option Unit × Session P :=
  match s.oldPath with
  | none => (none, s)
  | some d =>
    let s := { s with cwd := d }
    match s.oldCommand with
    | none => (none, s)
    | some c => (some (), { s with command := c })

/-- `compile_single_sol_file` (src/execution/sol_compilation.py:470-492) and, with the folder that is always given,
`compile_json_input` (src/execution/sol_compilation.py:386-421): `folder` and `name` are those of the file, `post` is
what is done with what was printed (`none` is an exception). -/
def compileIn (sys : Sys P R) (post : R → Option V) (folder name : P) (s : Session P) : Option V × Session P :=
  let s := changePath sys folder s
  match sys.run s.cwd s.command name with
  | none => (none, s)
  | some out =>
    match restorePath s with
    | (none, s) => (none, s)
    | (some _, s) => (post out, s)

/-- A new object (src/execution/sol_compilation.py:251-264), in a directory. -/
def newSession (cwd command : P) : Session P := ⟨cwd, command, none, none⟩

/-- Several compilations one after the other, each with a new object, as in the loop of `main`
(src/execution/main_execution.py:143-195) and the static methods (src/execution/sol_compilation.py:267-313). An exception
ends the loop. -/
def compileEach (sys : Sys P R) (post : R → Option V) (command : P) : List (P × P) → P → Option (List V) × P
  | [], cwd => (some [], cwd)
  | (folder, name) :: rest, cwd =>
    match compileIn sys post folder name (newSession cwd command) with
    | (none, s) => (none, s.cwd)
    | (some v, s) =>
      match compileEach sys post command rest s.cwd with
      | (none, d) => (none, d)
      | (some vs, d) => (some (v :: vs), d)

/-! ## Theorems -/

/-- What one compilation should give: what the command, found from the directory in which grey is run, prints when it
is run in the folder of the file. -/
def wanted (sys : Sys P R) (post : R → Option V) (cwd command : P) (file : P × P) : Option V :=
  (sys.run (sys.enter cwd file.1) (sys.resolve cwd command) file.2).bind post

/-- **C91, one compilation.** If the command is a file and solc runs, then the result is what solc, found from the
original directory, prints in the folder of the file; the working directory and the command are afterwards what they were.

Full property: for every command that can be run, and also if solc cannot be run or prints something else than expected.
It does not hold, see `command_not_file` and `directory_lost`. -/
theorem compiled_in_folder_partial (sys : Sys P R) (post : R → Option V) (folder name : P) (s : Session P) (out : R)
    (hf : sys.isFile s.cwd s.command = true)
    (hr : sys.run (sys.enter s.cwd folder) (sys.resolve s.cwd s.command) name = some out) :
    (compileIn sys post folder name s).1 = post out ∧
      (compileIn sys post folder name s).2.cwd = s.cwd ∧ (compileIn sys post folder name s).2.command = s.command := by
  simp [compileIn, changePath, restorePath, hf, hr]

/-- **C91, several compilations.** If the command is a file and solc runs on every file, then every compilation gives
what it would give alone, and the working directory is afterwards what it was; an exception while the output of one is
processed ends the program, with the directory restored. -/
theorem compiled_each_partial (sys : Sys P R) (post : R → Option V) (command cwd : P)
    (hf : sys.isFile cwd command = true) : ∀ files : List (P × P),
    (∀ f ∈ files, ∃ out, sys.run (sys.enter cwd f.1) (sys.resolve cwd command) f.2 = some out) →
    compileEach sys post command files cwd = (files.mapM (wanted sys post cwd command), cwd)
  | [], _ => rfl
  | (folder, name) :: rest, h => by
    obtain ⟨out, ho⟩ := h (folder, name) (by simp)
    have ih := compiled_each_partial sys post command cwd hf rest (fun f hfm => h f (by simp [hfm]))
    obtain ⟨h1, h2, -⟩ := compiled_in_folder_partial sys post folder name (newSession cwd command) out hf ho
    rw [compileEach]
    generalize compileIn sys post folder name (newSession cwd command) = r at h1 h2 ⊢
    obtain ⟨r, s⟩ := r
    have h3 : s.cwd = cwd := h2
    have h4 : r = post out := h1
    subst h4
    have hw : wanted sys post cwd command (folder, name) = post out := by simp [wanted, ho]
    rw [List.mapM_cons, hw]
    cases hp : post out with
    | none => simp [h3]
    | some v =>
      simp only [h3, ih]
      cases files : rest.mapM (wanted sys post cwd command) <;> simp

/-- **Violation of C91.** If the command is not a file seen from the working directory - for instance `solc`, the
default, which is looked up in the path - then every compilation ends with an exception, whatever solc does. -/
theorem command_not_file (sys : Sys P R) (post : R → Option V) (folder name cwd command : P)
    (hf : sys.isFile cwd command = false) : (compileIn sys post folder name (newSession cwd command)).1 = none := by
  simp only [compileIn, changePath, newSession, hf]
  simp only [Bool.false_eq_true, if_false, restorePath]
  split <;> rfl

/-- **Violation of C91.** If running solc or decoding what it prints raises an exception, then the working directory is
not restored. -/
theorem directory_lost (sys : Sys P R) (post : R → Option V) (folder name cwd command : P)
    (hr : ∀ c, sys.run (sys.enter cwd folder) c name = none) :
    compileIn sys post folder name (newSession cwd command) =
      (none, changePath sys folder (newSession cwd command)) ∧
    (changePath sys folder (newSession cwd command)).cwd = sys.enter cwd folder := by
  have e : (changePath sys folder (newSession cwd command)).cwd = sys.enter cwd folder := by
    cases h : sys.isFile cwd command <;> simp [changePath, newSession, h]
  refine ⟨?_, e⟩
  simp only [compileIn, e, hr]

/-! ## Examples -/

/-- For the examples: paths are lists of names; `bin/solc` under `/w` is a file; solc prints where and on what it is run. -/
def exSys : Sys (List String) (List String) where
  isFile d p := decide (d ++ p = ["w", "bin", "solc"])
  resolve d p := d ++ p
  enter d p := d ++ p
  run d c n := if c = ["w", "bin", "solc"] ∨ c = ["solc"] then some (d ++ n) else none

example : compileEach exSys some ["bin", "solc"] [(["a"], ["x.json"]), (["b", "c"], ["y.json"])] ["w"] =
    (some [["w", "a", "x.json"], ["w", "b", "c", "y.json"]], ["w"]) := by
  rw [compiled_each_partial exSys some ["bin", "solc"] ["w"] (by decide)]
  · rfl
  · intro f _
    exact ⟨_, by simp [exSys]; rfl⟩

/-- The default command: solc runs and prints, but there is an exception. -/
theorem default_command_fails :
    exSys.run ["w", "a"] ["solc"] ["x.json"] = some ["w", "a", "x.json"] ∧
    (compileIn exSys some ["a"] ["x.json"] (newSession ["w"] ["solc"])).1 = none :=
  ⟨by decide, command_not_file _ _ _ _ _ _ (by decide)⟩

end Grey.Solc
