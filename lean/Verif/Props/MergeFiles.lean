import Verif.Model.MergeFiles
import Verif.Props.DataMerge
import Mathlib.Data.List.Nodup
import Mathlib.Tactic.Tauto

/-! # C106: merging result folders -/

namespace Verif.MergeFiles
open Verif Verif.Data

/-! ## Specification -/

/-- The name of a JSON file: something followed by `.json`. -/
def JsonName (n : Name) : Prop := ∃ stem, stem ≠ [] ∧ n = stem ++ ['.', 'j', 's', 'o', 'n']

/-- The entries of a directory have different names, none of them `..`. -/
def GoodNames (es : List (Name × Node)) : Prop := (es.map Prod.fst).Nodup ∧ ∀ e ∈ es, e.1 ≠ pardir

/-- A directory of result folders: no folder in it contains a directory with the name of a JSON file. -/
def WellFormed (es : List (Name × Node)) : Prop :=
  GoodNames es ∧ ∀ e ∈ es, ∀ fs, e.2 = .dir fs → GoodNames fs ∧ ∀ f ∈ fs, JsonName f.1 → ∃ c, f.2 = .file c

/-- The directories among the entries. -/
def subfolders (es : List (Name × Node)) : List (List (Name × Node)) :=
  es.filterMap fun e => match e.2 with
    | .dir fs => some fs
    | .file _ => none

open Classical in
/-- The data sets in the JSON files of a folder. -/
noncomputable def dataSets (es : List (Name × Node)) : List Dataset :=
  es.filterMap fun e => match e.2 with
    | .dir _ => none
    | .file c => if JsonName e.1 then c else none

/-- One entry for each folder whose merged data set is not empty. -/
noncomputable def merged (merge : List Dataset → Except DErr (Option Dataset)) (es : List (Name × Node)) :
    Except DErr (List Dataset) :=
  ((subfolders es).mapM fun f => merge (dataSets f)).map fun ms => ms.filterMap id

/-- What a call is to do: the results of all folders go to the file named like the input folder, beside it. -/
noncomputable def expected (merge : List Dataset → Except DErr (Option Dataset)) (location : List Name) (es : List (Name × Node)) :
    Except MErr Output :=
  match merged merge es with
  | .error e => .error (.data e)
  | .ok ds => .ok ⟨location.dropLast ++ [location.getLastD [] ++ ['.', 'j', 's', 'o', 'n']], ds⟩

/-- The full claim, for the given way to merge one folder. -/
def C106_claim (merge : List Dataset → Except DErr (Option Dataset)) : Prop :=
  ∀ (fs : FS) (input : Path) (es : List (Name × Node)), pardir ∉ input.parts → fs.at input = some (.dir es) → WellFormed es →
    mergeFiles merge fs input = expected merge (fs.resolve input) es

/-! ## Lemmas -/

theorem normal_append (l : List Name) (p : Name) (hp : p ≠ pardir) : normal (l ++ [p]) = normal l ++ [p] := by
  simp only [normal, List.foldl_append, List.foldl_cons, List.foldl_nil, if_neg hp]

theorem normal_up (l : List Name) : normal (l ++ [pardir]) = (normal l).dropLast := by
  simp only [normal, List.foldl_append, List.foldl_cons, List.foldl_nil, if_true]

theorem get_append (n : Node) (a b : List Name) : n.get (a ++ b) = (n.get a).bind fun m => m.get b := by
  induction a generalizing n with
  | nil => rfl
  | cons p a ih =>
    cases n with
    | file c => rfl
    | dir es =>
      simp only [List.cons_append, Node.get]
      cases es.lookup p with
      | none => rfl
      | some m => exact ih m

theorem lookup_mem {es : List (Name × Node)} (h : (es.map Prod.fst).Nodup) {e : Name × Node} (he : e ∈ es) :
    es.lookup e.1 = some e.2 := by
  induction es with
  | nil => cases he
  | cons a es ih =>
    rw [List.map_cons, List.nodup_cons] at h
    rcases List.mem_cons.1 he with rfl | he
    · simp [List.lookup]
    · have hne : e.1 ≠ a.1 := fun hh => h.1 (hh ▸ List.mem_map_of_mem he)
      have : (e.1 == a.1) = false := by simpa using hne
      rw [List.lookup, this]
      exact ih h.2 he

theorem suffix_iff (n : Name) : suffix n = dotJson ↔ JsonName n := by
  constructor
  · intro h
    have split := List.takeWhile_append_dropWhile (p := fun c => decide (c ≠ '.')) (l := n.reverse)
    unfold suffix at h
    cases hd : n.reverse.dropWhile (fun c => decide (c ≠ '.')) with
    | nil => rw [hd] at h; cases h
    | cons c stem =>
      rw [hd] at h
      simp only at h
      have hc : c = '.' := by
        have := List.head?_dropWhile_not (fun c => decide (c ≠ '.')) n.reverse
        rw [hd] at this
        simpa using this
      split at h
      · cases h
      · rename_i hne
        rw [not_or] at hne
        have ht : (n.reverse.takeWhile (fun c => decide (c ≠ '.'))).reverse = ['j', 's', 'o', 'n'] := (List.cons.inj h).2
        refine ⟨stem.reverse, by simpa using hne.1, ?_⟩
        rw [hd] at split
        have := congrArg List.reverse split
        rw [List.reverse_append, List.reverse_reverse, ht, hc, List.reverse_cons] at this
        rw [← this]
        simp
  · rintro ⟨stem, hne, rfl⟩
    have e : (stem ++ ['.', 'j', 's', 'o', 'n']).reverse = 'n' :: 'o' :: 's' :: 'j' :: '.' :: stem.reverse := by simp
    unfold suffix
    rw [e]
    have h1 : (List.dropWhile (fun c => decide (c ≠ '.')) ('n' :: 'o' :: 's' :: 'j' :: '.' :: stem.reverse)) = '.' :: stem.reverse := by
      simp [List.dropWhile]
    have h2 : (List.takeWhile (fun c => decide (c ≠ '.')) ('n' :: 'o' :: 's' :: 'j' :: '.' :: stem.reverse)) = ['n', 'o', 's', 'j'] := by
      simp [List.takeWhile]
    rw [h1, h2]
    have h3 : stem.reverse ≠ [] := by simpa using hne
    simp only [h3, false_or]
    rfl

theorem at_child (fs : FS) (a : List Name) (es : List (Name × Node)) (h : fs.at ⟨true, a⟩ = some (.dir es)) (hn : GoodNames es)
    {e : Name × Node} (he : e ∈ es) : fs.at ⟨true, a ++ [e.1]⟩ = some e.2 := by
  unfold FS.at FS.resolve at *
  simp only [if_true] at *
  rw [normal_append _ _ (hn.2 e he), get_append, h]
  show (Node.dir es).get [e.1] = some e.2
  rw [Node.get, lookup_mem hn.1 he]
  rfl

theorem collect_eq (fs : FS) (a : List Name) (es : List (Name × Node)) (h : fs.at ⟨true, a⟩ = some (.dir es)) (hn : GoodNames es)
    (hf : ∀ f ∈ es, JsonName f.1 → ∃ c, f.2 = .file c) (sub : List (Name × Node)) (hs : ∀ e ∈ sub, e ∈ es) :
    fs.collect ⟨true, a⟩ (sub.map fun e => Path.join ⟨true, a⟩ ⟨false, [e.1]⟩) = .ok (dataSets sub) := by
  induction sub with
  | nil => rfl
  | cons e sub ih =>
    have ih := ih fun x hx => hs x (List.mem_cons_of_mem _ hx)
    have he := hs e List.mem_cons_self
    have hname : (Path.join ⟨true, a⟩ ⟨false, [e.1]⟩).name = e.1 := by simp [Path.join, Path.name]
    have hj : Path.join ⟨true, a⟩ (Path.join ⟨true, a⟩ ⟨false, [e.1]⟩) = ⟨true, a ++ [e.1]⟩ := rfl
    rw [List.map_cons, FS.collect, hname, ih, hj]
    by_cases hjn : JsonName e.1
    · obtain ⟨c, hc⟩ := hf e he hjn
      rw [if_pos ((suffix_iff _).2 hjn), FS.load, at_child fs a es h hn he, hc]
      show Except.ok (c.toList ++ dataSets sub) = _
      congr 1
      cases c <;> simp [dataSets, hc, hjn]
    · rw [if_neg fun hh => hjn ((suffix_iff _).1 hh)]
      congr 1
      obtain ⟨nm, nd⟩ := e
      cases nd with
      | dir es => simp [dataSets]
      | file c => simp [dataSets, hjn]

theorem folders_eq (merge : List Dataset → Except DErr (Option Dataset)) (fs : FS) (a : List Name) (es : List (Name × Node))
    (h : fs.at ⟨true, a⟩ = some (.dir es)) (hw : WellFormed es) (sub : List (Name × Node)) (hs : ∀ e ∈ sub, e ∈ es) :
    fs.folders merge ⟨true, a⟩ (sub.map fun e => Path.join ⟨true, a⟩ ⟨false, [e.1]⟩) =
      (match merged merge sub with
        | .error e => .error (.data e)
        | .ok ds => .ok ds) := by
  induction sub with
  | nil => rfl
  | cons e sub ih =>
    have ih := ih fun x hx => hs x (List.mem_cons_of_mem _ hx)
    have he := hs e List.mem_cons_self
    have hj : Path.join ⟨true, a⟩ (Path.join ⟨true, a⟩ ⟨false, [e.1]⟩) = ⟨true, a ++ [e.1]⟩ := rfl
    have hat := at_child fs a es h hw.1 he
    rw [List.map_cons]
    simp only [FS.folders]
    rw [hj, ih]
    cases hd : e.2 with
    | file c =>
      rw [hd] at hat
      have : fs.isDir ⟨true, a ++ [e.1]⟩ = false := by simp [FS.isDir, hat]
      rw [this]
      have : merged merge (e :: sub) = merged merge sub := by
        unfold merged subfolders
        rw [List.filterMap_cons]
        simp only [hd]
      rw [this]
      rfl
    | dir fl =>
      rw [hd] at hat
      obtain ⟨g1, g2⟩ := hw.2 e he fl hd
      have h1 : fs.isDir ⟨true, a ++ [e.1]⟩ = true := by simp [FS.isDir, hat]
      have h2 : fs.iterdir ⟨true, a ++ [e.1]⟩ = .ok (fl.map fun f => Path.join ⟨true, a ++ [e.1]⟩ ⟨false, [f.1]⟩) := by
        simp [FS.iterdir, hat]
      rw [h1, h2]
      simp only [if_true]
      rw [collect_eq fs (a ++ [e.1]) fl hat g1 g2 fl fun _ hx => hx]
      have : merged merge (e :: sub) = (do
          let m ← merge (dataSets fl)
          let ms ← (subfolders sub).mapM fun f => merge (dataSets f)
          return (m :: ms)).map fun ms : List (Option Dataset) => ms.filterMap id := by
        unfold merged
        have : subfolders (e :: sub) = fl :: subfolders sub := by
          unfold subfolders
          rw [List.filterMap_cons]
          simp only [hd]
        rw [this, List.mapM_cons]
      rw [this]
      simp only
      cases merge (dataSets fl) with
      | error e' => rfl
      | ok m =>
        unfold merged
        cases (subfolders sub).mapM fun f => merge (dataSets f) with
        | error e' => rfl
        | ok ms => cases m <;> rfl

theorem normal_self (l : List Name) (h : pardir ∉ l) : normal l = l := by
  induction l using List.reverseRecOn with
  | nil => rfl
  | append_singleton l p ih =>
    rw [List.mem_append, not_or] at h
    rw [normal_append _ _ fun hh => h.2 (by simp [hh]), ih h.1]

/-- C106 for absolute input paths and each of the four functions: the file beside the input folder gets exactly the merged data sets
of the JSON files of each folder. -/
theorem C106_absolute_partial (merge : List Dataset → Except DErr (Option Dataset)) (fs : FS) (parts : List Name)
    (es : List (Name × Node)) (hp : pardir ∉ parts) (h : fs.at ⟨true, parts⟩ = some (.dir es)) (hw : WellFormed es) :
    mergeFiles merge fs ⟨true, parts⟩ = expected merge (fs.resolve ⟨true, parts⟩) es := by
  have h1 : fs.iterdir ⟨true, parts⟩ = .ok (es.map fun f => Path.join ⟨true, parts⟩ ⟨false, [f.1]⟩) := by
    simp [FS.iterdir, h]
  unfold mergeFiles expected
  rw [h1]
  simp only
  rw [folders_eq merge fs parts es h hw es fun _ hx => hx]
  cases merged merge es with
  | error e => rfl
  | ok ds =>
    show Except.ok _ = Except.ok _
    have e1 : fs.resolve ⟨true, parts⟩ = parts := by
      show normal (if true = true then parts else _) = _
      rw [if_pos rfl, normal_self _ hp]
    have e2 : fs.resolve (Path.join ⟨true, parts⟩ ⟨false, [pardir]⟩) = parts.dropLast := by
      show normal (parts ++ [pardir]) = _
      rw [normal_up, normal_self _ hp]
    rw [e1, e2]
    rfl

/-- C106, what happens with a relative input path: unless a folder of the same name is nested in the input folder, an empty list is
written, whatever the folders hold. -/
theorem C106_violated_relative (merge : List Dataset → Except DErr (Option Dataset)) (fs : FS) (parts : List Name)
    (es : List (Name × Node)) (h : fs.at ⟨false, parts⟩ = some (.dir es)) (hn : GoodNames es)
    (hnest : fs.at ⟨false, parts ++ parts⟩ = none) :
    ∃ out, mergeFiles merge fs ⟨false, parts⟩ = .ok out ∧ out.data = [] := by
  have h1 : fs.iterdir ⟨false, parts⟩ = .ok (es.map fun f => Path.join ⟨false, parts⟩ ⟨false, [f.1]⟩) := by
    simp [FS.iterdir, h]
  have key : ∀ sub : List (Name × Node), (∀ e ∈ sub, e ∈ es) →
      fs.folders merge ⟨false, parts⟩ (sub.map fun e => Path.join ⟨false, parts⟩ ⟨false, [e.1]⟩) = .ok [] := by
    intro sub hs
    induction sub with
    | nil => rfl
    | cons e sub ih =>
      have hnone : fs.at (Path.join ⟨false, parts⟩ (Path.join ⟨false, parts⟩ ⟨false, [e.1]⟩)) = none := by
        show fs.root.get (normal (fs.cwd ++ (parts ++ (parts ++ [e.1])))) = none
        rw [← List.append_assoc, ← List.append_assoc, normal_append _ _ (hn.2 e (hs e List.mem_cons_self)), get_append,
          List.append_assoc]
        have : fs.root.get (normal (fs.cwd ++ (parts ++ parts))) = none := hnest
        rw [this]; rfl
      rw [List.map_cons]
      simp only [FS.folders]
      have : fs.isDir (Path.join ⟨false, parts⟩ (Path.join ⟨false, parts⟩ ⟨false, [e.1]⟩)) = false := by
        simp [FS.isDir, hnone]
      rw [this]
      exact ih fun x hx => hs x (List.mem_cons_of_mem _ hx)
  refine ⟨⟨fs.resolve (Path.join ⟨false, parts⟩ ⟨false, [pardir]⟩) ++ [Path.name ⟨false, parts⟩ ++ dotJson], []⟩, ?_, rfl⟩
  · unfold mergeFiles
    rw [h1]
    simp only
    rw [key es fun _ hx => hx]

/-! ## Witnesses -/

/-- A data set of ten runs. -/
def ten : Dataset := { runs := some 10, x := some 9, z := some 8, k := some 1 }

/-- `code/p1/1.json`, `code/p1/2.json` (damaged), `code/p1/notes.txt`, `code/readme`. -/
def tree : List (Name × Node) :=
  [(['p', '1'], .dir [(['1', '.', 'j', 's', 'o', 'n'], .file (some ten)), (['2', '.', 'j', 's', 'o', 'n'], .file none),
      (['n', '.', 't', 'x', 't'], .file none)]),
    (['r'], .file none)]

/-- The folder above as `/code`, the working directory is the root. -/
def exampleFS : FS := ⟨.dir [(['c'], .dir tree)], []⟩

theorem tree_wf : WellFormed tree := by
  refine ⟨⟨by decide, by decide⟩, ?_⟩
  intro e he fs hfs
  simp only [tree, List.mem_cons, List.not_mem_nil, or_false] at he
  rcases he with rfl | rfl
  · cases hfs
    refine ⟨⟨by decide, by decide⟩, ?_⟩
    intro f hf _
    simp only [List.mem_cons, List.not_mem_nil, or_false] at hf
    rcases hf with rfl | rfl | rfl <;> exact ⟨_, rfl⟩
  · cases hfs

theorem tree_data : (subfolders tree).map dataSets = [[ten]] := by
  have h1 : JsonName ['1', '.', 'j', 's', 'o', 'n'] := ⟨['1'], by decide, rfl⟩
  have h2 : ¬ JsonName ['n', '.', 't', 'x', 't'] := fun h => by
    have := (suffix_iff _).2 h
    revert this; decide
  simp [subfolders, tree, dataSets, h1, h2]

example : mergeFiles mergeDatasets exampleFS ⟨true, [['c']]⟩ = expected mergeDatasets [['c']] tree :=
  C106_absolute_partial _ _ _ _ (by decide) rfl tree_wf

/-- C106, false: with the relative path of the same folder the ten runs are missing from the file. -/
theorem C106_violated : ¬ C106_claim mergeDatasets := by
  intro h
  have h1 := h exampleFS ⟨false, [['c']]⟩ tree (by decide) rfl tree_wf
  obtain ⟨out, h2, h3⟩ := C106_violated_relative mergeDatasets exampleFS [['c']] tree rfl tree_wf.1 rfl
  rw [h1] at h2
  obtain ⟨m, hm, -⟩ := C46_pooled_partial ten [] ⟨rfl, rfl, rfl, rfl⟩ 1 rfl (by decide) (by decide)
  have h4 : merged mergeDatasets tree = .ok [m] := by
    have : ((subfolders tree).mapM fun f => mergeDatasets (dataSets f)) = ((subfolders tree).map dataSets).mapM mergeDatasets := by
      rw [List.mapM_map]; rfl
    unfold merged
    rw [this, tree_data, List.mapM_cons, hm]
    rfl
  unfold expected at h2
  rw [h4] at h2
  have := (Except.ok.inj h2)
  rw [← this] at h3
  cases h3

/-- C106 for the four functions with an absolute path, each with its own way to merge one folder. -/
theorem C106_functions_partial (fs : FS) (parts : List Name) (es : List (Name × Node)) (hp : pardir ∉ parts)
    (h : fs.at ⟨true, parts⟩ = some (.dir es)) (hw : WellFormed es) :
    mergeJsonFiles fs ⟨true, parts⟩ = expected mergeDatasets (fs.resolve ⟨true, parts⟩) es ∧
    mergeJsonFilesX fs ⟨true, parts⟩ = expected mergeX (fs.resolve ⟨true, parts⟩) es ∧
    mergeJsonFilesZ fs ⟨true, parts⟩ = expected mergeZ (fs.resolve ⟨true, parts⟩) es ∧
    mergeJsonFilesXZ fs ⟨true, parts⟩ = expected mergeXZ (fs.resolve ⟨true, parts⟩) es :=
  ⟨C106_absolute_partial _ _ _ _ hp h hw, C106_absolute_partial _ _ _ _ hp h hw, C106_absolute_partial _ _ _ _ hp h hw,
    C106_absolute_partial _ _ _ _ hp h hw⟩

example : mergeJsonFilesXZ exampleFS ⟨true, [['c']]⟩ = expected mergeXZ [['c']] tree :=
  (C106_functions_partial _ _ _ (by decide) rfl tree_wf).2.2.2

theorem collect_dir (fs : FS) (a : List Name) (es : List (Name × Node)) (h : fs.at ⟨true, a⟩ = some (.dir es)) (hn : GoodNames es)
    (sub : List (Name × Node)) (hs : ∀ e ∈ sub, e ∈ es) (hbad : ∃ e ∈ sub, JsonName e.1 ∧ ∃ gs, e.2 = .dir gs) :
    fs.collect ⟨true, a⟩ (sub.map fun e => Path.join ⟨true, a⟩ ⟨false, [e.1]⟩) = .error .isADirectory := by
  induction sub with
  | nil => obtain ⟨e, he, -⟩ := hbad; cases he
  | cons e sub ih =>
    have he := hs e List.mem_cons_self
    have hname : (Path.join ⟨true, a⟩ ⟨false, [e.1]⟩).name = e.1 := by simp [Path.join, Path.name]
    have hj : Path.join ⟨true, a⟩ (Path.join ⟨true, a⟩ ⟨false, [e.1]⟩) = ⟨true, a ++ [e.1]⟩ := rfl
    rw [List.map_cons, FS.collect, hname, hj]
    by_cases h1 : JsonName e.1 ∧ ∃ gs, e.2 = .dir gs
    · obtain ⟨h1, gs, h2⟩ := h1
      rw [if_pos ((suffix_iff _).2 h1), FS.load, at_child fs a es h hn he, h2]
    · have ih := ih (fun x hx => hs x (List.mem_cons_of_mem _ hx)) (by
        obtain ⟨x, hx, hb⟩ := hbad
        rcases List.mem_cons.1 hx with rfl | hx
        · exact absurd hb h1
        · exact ⟨x, hx, hb⟩)
      rw [ih]
      split
      · rename_i hsuf
        have hjn := (suffix_iff _).1 hsuf
        rw [FS.load, at_child fs a es h hn he]
        cases hd : e.2 with
        | dir gs => exact absurd ⟨hjn, gs, hd⟩ h1
        | file c => rfl
      · rfl

theorem folders_dir (merge : List Dataset → Except DErr (Option Dataset)) (fs : FS) (a : List Name) (es : List (Name × Node))
    (h : fs.at ⟨true, a⟩ = some (.dir es)) (hw : GoodNames es) (hw' : ∀ e ∈ es, ∀ fl, e.2 = .dir fl → GoodNames fl)
    (sub : List (Name × Node)) (hs : ∀ e ∈ sub, e ∈ es)
    (hbad : ∃ e ∈ sub, ∃ fl, e.2 = .dir fl ∧ ∃ f ∈ fl, JsonName f.1 ∧ ∃ gs, f.2 = .dir gs) :
    ∃ err, fs.folders merge ⟨true, a⟩ (sub.map fun e => Path.join ⟨true, a⟩ ⟨false, [e.1]⟩) = .error err := by
  induction sub with
  | nil => obtain ⟨e, he, -⟩ := hbad; cases he
  | cons e sub ih =>
    have he := hs e List.mem_cons_self
    have hj : Path.join ⟨true, a⟩ (Path.join ⟨true, a⟩ ⟨false, [e.1]⟩) = ⟨true, a ++ [e.1]⟩ := rfl
    have hat := at_child fs a es h hw he
    rw [List.map_cons]
    simp only [FS.folders]
    rw [hj]
    by_cases h1 : ∃ fl, e.2 = .dir fl ∧ ∃ f ∈ fl, JsonName f.1 ∧ ∃ gs, f.2 = .dir gs
    · obtain ⟨fl, h1, h2⟩ := h1
      rw [h1] at hat
      rw [show fs.isDir ⟨true, a ++ [e.1]⟩ = true from by simp [FS.isDir, hat],
        show fs.iterdir ⟨true, a ++ [e.1]⟩ = .ok (fl.map fun f => Path.join ⟨true, a ++ [e.1]⟩ ⟨false, [f.1]⟩) from by simp [FS.iterdir, hat]]
      simp only [if_true]
      rw [collect_dir fs (a ++ [e.1]) fl hat (hw' e he fl h1) fl (fun _ hx => hx) h2]
      exact ⟨_, rfl⟩
    · obtain ⟨err, ih⟩ := ih (fun x hx => hs x (List.mem_cons_of_mem _ hx)) (by
        obtain ⟨x, hx, hb⟩ := hbad
        rcases List.mem_cons.1 hx with rfl | hx
        · exact absurd hb h1
        · exact ⟨x, hx, hb⟩)
      rw [ih]
      split
      · split
        · exact ⟨_, rfl⟩
        · split
          · exact ⟨_, rfl⟩
          · split
            · exact ⟨_, rfl⟩
            · exact ⟨_, rfl⟩
      · exact ⟨_, rfl⟩

/-- C106, what happens otherwise: a directory with the name of a JSON file in one of the folders is not skipped, the call fails and
nothing is written. -/
theorem C106_json_directory (merge : List Dataset → Except DErr (Option Dataset)) (fs : FS) (parts : List Name)
    (es : List (Name × Node)) (h : fs.at ⟨true, parts⟩ = some (.dir es)) (hn : GoodNames es)
    (hn' : ∀ e ∈ es, ∀ fl, e.2 = .dir fl → GoodNames fl)
    (hbad : ∃ e ∈ es, ∃ fl, e.2 = .dir fl ∧ ∃ f ∈ fl, JsonName f.1 ∧ ∃ gs, f.2 = .dir gs) :
    ∃ err, mergeFiles merge fs ⟨true, parts⟩ = .error err := by
  obtain ⟨err, he⟩ := folders_dir merge fs parts es h hn hn' es (fun _ hx => hx) hbad
  unfold mergeFiles
  rw [show fs.iterdir ⟨true, parts⟩ = .ok (es.map fun f => Path.join ⟨true, parts⟩ ⟨false, [f.1]⟩) from by simp [FS.iterdir, h]]
  simp only
  rw [he]
  exact ⟨err, rfl⟩

/-- `/c/p/x.json/`. -/
def badTree : List (Name × Node) := [(['p'], .dir [(['x', '.', 'j', 's', 'o', 'n'], .dir [])])]

example : ∃ err, mergeFiles mergeX ⟨.dir [(['c'], .dir badTree)], []⟩ ⟨true, [['c']]⟩ = .error err := by
  refine C106_json_directory _ _ _ badTree rfl ⟨by decide, by decide⟩ ?_ ?_
  · intro e he fl hfl
    obtain rfl := List.mem_singleton.1 he
    cases hfl
    exact ⟨by decide, by decide⟩
  · exact ⟨_, List.mem_singleton.2 rfl, _, rfl, _, List.mem_singleton.2 rfl, ⟨['x'], by decide, rfl⟩, [], rfl⟩

end Verif.MergeFiles
