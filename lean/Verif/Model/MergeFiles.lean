import Verif.Model.DataUtils

/-!
# Merging result folders (`analog_information_decoding/utils/data_utils.py:355-512`)

The file system is a tree.  A path is what `pathlib.Path` keeps of it: whether it starts at the root, and its parts.
Simplifications: no symbolic links; `..` removes the part before it; a file holds one data set or text that is no JSON (text that is
JSON but no dictionary is not modelled); no other process changes the tree.
-/

namespace Verif.MergeFiles
open Verif Verif.Data

/-- File names, as lists of characters (data_utils.py:355-512). -/
abbrev Name := List Char

/-- `os.pardir` (data_utils.py:368, 408, 447, 487). -/
def pardir : Name := ['.', '.']

/-- A file (`none`: not JSON) or a directory with its entries in the order of `iterdir` (the files data_utils.py:355-512 reads). -/
inductive Node
  | file (content : Option Dataset)
  | dir (entries : List (Name × Node))

/-- What is found below a node (`open`, `iterdir`, data_utils.py:370-383). -/
def Node.get : Node → List Name → Option Node
  | n, [] => some n
  | .file _, _ :: _ => none
  | .dir es, p :: ps =>
    match es.lookup p with
    | none => none
    | some m => m.get ps

/-- `pathlib.Path`: `Path(".")` has no parts (data_utils.py:355-512). -/
structure Path where
  absolute : Bool
  parts : List Name
deriving DecidableEq

/-- `p / q` (also for a string `p`, `PurePath.__rtruediv__`): an absolute right operand wins (data_utils.py:368, 374). -/
def Path.join (p q : Path) : Path := if q.absolute then q else ⟨p.absolute, p.parts ++ q.parts⟩

/-- Removal of `..` (`resolve`, data_utils.py:368). -/
def normal (l : List Name) : List Name := l.foldl (fun acc p => if p = pardir then acc.dropLast else acc ++ [p]) []

/-- The tree and the working directory (data_utils.py:355-512). -/
structure FS where
  root : Node
  cwd : List Name

/-- `p.resolve()` as the list of parts below the root (data_utils.py:368). -/
def FS.resolve (fs : FS) (p : Path) : List Name := normal (if p.absolute then p.parts else fs.cwd ++ p.parts)

/-- What a path denotes (data_utils.py:370-383). -/
def FS.at (fs : FS) (p : Path) : Option Node := fs.root.get (fs.resolve p)

/-- Exceptions (raised in data_utils.py:355-512). -/
inductive MErr
  | fileNotFound
  | notADirectory
  | isADirectory
  | data (e : DErr)
deriving DecidableEq

/-- `p.is_dir()` (data_utils.py:370, 410, 450, 489). -/
def FS.isDir (fs : FS) (p : Path) : Bool :=
  match fs.at p with
  | some (.dir _) => true
  | _ => false

/-- `p.iterdir()`: the entries, each as `p / name` (data_utils.py:368, 374, 408, 414, 447, 454, 487, 493). -/
def FS.iterdir (fs : FS) (p : Path) : Except MErr (List Path) :=
  match fs.at p with
  | some (.dir es) => .ok (es.map fun e => p.join ⟨false, [e.1]⟩)
  | some (.file _) => .error .notADirectory
  | none => .error .fileNotFound

/-- `p.name` (data_utils.py:376-383). -/
def Path.name (p : Path) : Name := p.parts.getLastD []

/-- `p.suffix`: from the last dot of the name, if something stands before and after it (data_utils.py:376-383). -/
def suffix (n : Name) : Name :=
  match n.reverse.dropWhile (· ≠ '.') with
  | [] => []
  | _ :: stem => if stem = [] ∨ n.reverse.takeWhile (· ≠ '.') = [] then [] else '.' :: (n.reverse.takeWhile (· ≠ '.')).reverse

/-- `".json"` (data_utils.py:376-383). -/
def dotJson : Name := ['.', 'j', 's', 'o', 'n']

/-- Opening and parsing one file (data_utils.py:376-383): `none` if it is no JSON. -/
def FS.load (fs : FS) (p : Path) : Except MErr (Option Dataset) :=
  match fs.at p with
  | some (.file c) => .ok c
  | some (.dir _) => .error .isADirectory
  | none => .error .fileNotFound

/-- The loop over the files of a folder (data_utils.py:373-383, 413-422, 453-462, 492-501). -/
def FS.collect (fs : FS) (folder : Path) : List Path → Except MErr (List Dataset)
  | [] => .ok []
  | f :: files =>
    if suffix f.name = dotJson then
      match fs.load (folder.join f) with
      | .error e => .error e
      | .ok c =>
        match fs.collect folder files with
        | .error e => .error e
        | .ok ds => .ok (c.toList ++ ds)
    else fs.collect folder files

/-- The loop over the folders (data_utils.py:368-386, 408-425, 447-465, 487-506); `merge` is the function used for one folder. -/
def FS.folders (merge : List Dataset → Except DErr (Option Dataset)) (fs : FS) (input : Path) :
    List Path → Except MErr (List Dataset)
  | [] => .ok []
  | folder :: rest =>
    let folderPath := input.join folder
    if fs.isDir folderPath then
      match fs.iterdir folderPath with
      | .error e => .error e
      | .ok files =>
        match fs.collect folderPath files with
        | .error e => .error e
        | .ok data =>
          match merge data with
          | .error e => .error (.data e)
          | .ok m =>
            match fs.folders merge input rest with
            | .error e => .error e
            | .ok out => .ok (m.toList ++ out)
    else fs.folders merge input rest

/-- The file written at the end (data_utils.py:388-392, 427-431, 467-471, 508-512): the parts of its path below the root, and its data. -/
structure Output where
  path : List Name
  data : List Dataset

/-- `merge_json_files`, `merge_json_files_x`, `merge_json_files_z` and `merge_json_files_xz` (data_utils.py:355-512), which differ
in the function that merges one folder. -/
def mergeFiles (merge : List Dataset → Except DErr (Option Dataset)) (fs : FS) (input : Path) : Except MErr Output :=
  match fs.iterdir input with
  | .error e => .error e
  | .ok folders =>
    match fs.folders merge input folders with
    | .error e => .error e
    | .ok data => .ok ⟨fs.resolve (input.join ⟨false, [pardir]⟩) ++ [input.name ++ dotJson], data⟩

/-- `merge_json_files` (data_utils.py:355-392). -/
noncomputable def mergeJsonFiles := mergeFiles mergeDatasets

/-- `merge_json_files_x` (data_utils.py:395-431). -/
noncomputable def mergeJsonFilesX := mergeFiles mergeX

/-- `merge_json_files_z` (data_utils.py:434-471). -/
noncomputable def mergeJsonFilesZ := mergeFiles mergeZ

/-- `merge_json_files_xz` (data_utils.py:474-512). -/
noncomputable def mergeJsonFilesXZ := mergeFiles mergeXZ

end Verif.MergeFiles
