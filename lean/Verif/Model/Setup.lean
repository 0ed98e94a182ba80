import Verif.Model.Session
/-
`uninstall_artifacts` of repl/setup.rs (lines 53-92; not called by the program).
-/
namespace Pemdas

/-- A directory as `uninstall_artifacts` sees it. Simplification: nothing else changes the directory
while the function runs, and entries that cannot be read are left out (`flatten`, setup.rs:69). -/
structure DirWorld where
  /-- the comparison of the canonical paths of the directory and `.`, or why it failed
  (setup.rs:56-57) -/
  isCwd : Except Text Bool
  /-- `fs::read_dir`: the names of the entries, or why it failed (setup.rs:67) -/
  entries : Except Text (List Text)
  /-- `Path::exists` for an entry (setup.rs:71) -/
  exists_ : Text → Bool
  /-- `fs::remove_file` succeeds for an entry (setup.rs:73) -/
  removeFile : Text → Bool
  /-- the second `fs::read_dir` succeeds (setup.rs:78) -/
  relist : Bool
  /-- `fs::remove_dir_all` succeeds (setup.rs:81) -/
  removeDir : Bool

/-- What happened: the entries deleted, whether the directory was deleted, what was printed. -/
structure Uninstalled where
  deleted : List Text
  dirDeleted : Bool
  said : List Effect
  deriving DecidableEq

/-- The loop over the entries (setup.rs:69-77). `none` is the panic of the `unwrap` in line 73. -/
def deleteNamed (w : DirWorld) (path name : Text) : List Text → Option (List Text × List Effect)
  | [] => some ([], [])
  | e :: es =>
    if e = name ∧ w.exists_ e = true then
      if w.removeFile e then
        (deleteNamed w path name es).map fun x =>
          (e :: x.1, Session.errLine (t!"deleting history file found at " ++ pathJoin path e) :: x.2)
      else none
    else deleteNamed w path name es

/-- Which file is the history of the directory (setup.rs:56-64), with the constants of
setup.rs:6-7. -/
def uninstallName (w : DirWorld) : Text :=
  match w.isCwd with
  | .ok true => t!".pemdas_history"
  | _ => t!".history"

/-- The message of setup.rs:58-59. -/
def uninstallMsg (w : DirWorld) (path : Text) : List Effect :=
  match w.isCwd with
  | .ok _ => []
  | .error e => [Session.errLine (t!"Error canonicalizing `" ++ path ++
      t!"` and `.` for comparison while identifying history file name to delete: " ++ e)]

/-- `uninstall_artifacts` (setup.rs:53-92). `none` is the panic of one of the `unwrap`s in lines 73
and 81. -/
def uninstallArtifacts (w : DirWorld) (path : Text) : Option Uninstalled :=
  match w.entries with
  | .ok es =>
    match deleteNamed w path (uninstallName w) es with
    | none => none
    | some (del, said) =>
      if w.relist then
        if es.length - del.length = 0 ∧ uninstallName w = t!".history" then
          if w.removeDir then some ⟨del, true, uninstallMsg w path ++ said⟩ else none
        else some ⟨del, false, uninstallMsg w path ++ said ++
          [Session.errLine (t!"could not delete non-empty directory `" ++ path ++ t!"`")]⟩
      else some ⟨del, false, uninstallMsg w path ++ said⟩
  | .error e => some ⟨[], false, uninstallMsg w path ++
      [Session.errLine (t!"Error calling `uninstall_artifacts(" ++ path ++ t!")`: " ++ e)]⟩

end Pemdas
