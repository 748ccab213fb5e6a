import Verif.Model.LoadData
import Verif.Props.MergeFiles
import Mathlib.Data.List.Nodup

/-! # C126: loading of result files.  C127: BP parameters from a dictionary -/

namespace Verif.MergeFiles
open Verif Verif.Data

/-! ## Specification -/

/-- The result folder beside the file `p`, with the name of the file without `.json`, and the merged data sets in it. -/
structure Beside (fs : FS) (p : Path) (ds : List Dataset) : Prop where
  intro ::
  exists_folder : ∃ (dir : List Name) (name : Name) (es : List (Name × Node)), name ≠ [] ∧ pardir ∉ dir ++ [name] ∧
    name ++ ['.', 'j', 's', 'o', 'n'] ≠ pardir ∧ p.parts = dir ++ [name ++ ['.', 'j', 's', 'o', 'n']] ∧
    fs.at ⟨p.absolute, dir ++ [name]⟩ = some (.dir es) ∧ WellFormed es ∧ merged mergeDatasets es = .ok ds

/-- What is to be loaded for a file: its data set, or, if it is damaged, the merged data sets of the folder beside it. -/
inductive Entry (fs : FS) (p : Path) : Loaded → Prop
  | intact (d) : fs.at p = some (.file (some d)) → Entry fs p (.one d)
  | damaged (ds) : fs.at p = some (.file none) → Beside fs p ds → Entry fs p (.many ds)

/-- The full claim: one entry for each file, in their order; only damaged files are written. -/
def C126_claim : Prop := ∀ (fs : FS) (ps : List Path) (ls : List Loaded), (ps.map fs.resolve).Nodup → List.Forall₂ (Entry fs) ps ls →
  (loadData fs ps).1 = .ok ls ∧ ∀ w ∈ (loadData fs ps).2, ∃ p ∈ ps, w.1 = fs.resolve p ∧ fs.at p = some (.file none)

/-! ## Proofs -/

theorem suffix_json {s : Name} (h : s ≠ []) : suffix (s ++ ['.', 'j', 's', 'o', 'n']) = dotJson := (suffix_iff _).2 ⟨s, h, rfl⟩

theorem stem_json {s : Name} (h : s ≠ []) : stem (s ++ ['.', 'j', 's', 'o', 'n']) = s := by
  unfold stem
  rw [suffix_json h]
  simp [dotJson]

theorem readJson_file {fs : FS} {w : Written} {p : Path} {c : Option Dataset} (h : fs.at p = some (.file c)) (hw : ∀ x ∈ w, x.1 ≠ fs.resolve p) :
    fs.readJson w p = .ok (c.map .one) := by
  have : w.lookup (fs.resolve p) = none := by
    rw [List.lookup_eq_none_iff]
    intro x hx
    simpa using (hw x hx).symm
  unfold FS.readJson
  rw [this]
  unfold FS.load
  rw [h]
  rfl

theorem merge_beside {fs : FS} {dir : List Name} {name : Name} {es : List (Name × Node)} {ds : List Dataset} (hp : pardir ∉ dir ++ [name])
    (h : fs.at ⟨true, dir ++ [name]⟩ = some (.dir es)) (hw : WellFormed es) (hd : merged mergeDatasets es = .ok ds) :
    mergeJsonFiles fs ⟨true, dir ++ [name]⟩ = .ok ⟨dir ++ [name ++ ['.', 'j', 's', 'o', 'n']], ds⟩ := by
  have e1 : fs.resolve ⟨true, dir ++ [name]⟩ = dir ++ [name] := by
    show normal (if true = true then _ else _) = _
    rw [if_pos rfl, normal_self _ hp]
  have := C106_absolute_partial mergeDatasets fs (dir ++ [name]) es hp h hw
  rw [mergeJsonFiles, this, expected, hd, e1]
  simp

/-- One file with an absolute path. -/
theorem loadOne_entry {fs : FS} {p : Path} {l : Loaded} (ha : p.absolute = true) (h : Entry fs p l) (w : Written)
    (hw : ∀ x ∈ w, x.1 ≠ fs.resolve p) :
    ∃ w', fs.loadOne w p = (.ok l, w' ++ w) ∧ ∀ x ∈ w', x.1 = fs.resolve p ∧ fs.at p = some (.file none) := by
  cases h with
  | intact d h =>
    refine ⟨[], ?_, by simp⟩
    unfold FS.loadOne
    rw [readJson_file h hw]
    rfl
  | damaged ds h hb =>
    obtain ⟨dir, name, es, h1, h2, h2', h3, h4, h5, h6⟩ := hb.exists_folder
    obtain ⟨a, parts⟩ := p
    simp only at ha h3
    subst ha h3
    have hm := merge_beside h2 h4 h5 h6
    have hres : fs.resolve ⟨true, dir ++ [name ++ ['.', 'j', 's', 'o', 'n']]⟩ = dir ++ [name ++ ['.', 'j', 's', 'o', 'n']] := by
      show normal (if true = true then _ else _) = _
      rw [if_pos rfl, normal_self]
      intro hh
      rcases List.mem_append.1 hh with hh | hh
      · exact h2 (List.mem_append_left _ hh)
      · exact h2' (List.mem_singleton.1 hh).symm
    refine ⟨[(dir ++ [name ++ ['.', 'j', 's', 'o', 'n']], ds)], ?_, ?_⟩
    · have hno : Path.noSuffix ⟨true, dir ++ [name ++ ['.', 'j', 's', 'o', 'n']]⟩ = ⟨true, dir ++ [name]⟩ := by
        simp [Path.noSuffix, Path.name, stem_json h1]
      unfold FS.loadOne
      rw [readJson_file h hw, hno]
      simp only [Option.map_none, hm]
      have : fs.readJson ((dir ++ [name ++ ['.', 'j', 's', 'o', 'n']], ds) :: w) ⟨true, dir ++ [name ++ ['.', 'j', 's', 'o', 'n']]⟩ =
          .ok (some (.many ds)) := by
        unfold FS.readJson
        rw [hres]
        simp [List.lookup]
      rw [this]
      rfl
    · intro x hx
      obtain rfl := List.mem_singleton.1 hx
      exact ⟨hres.symm, h⟩

theorem loadLoop_entries {fs : FS} {ps : List Path} {ls : List Loaded} (ha : ∀ p ∈ ps, p.absolute = true) (hnd : (ps.map fs.resolve).Nodup)
    (h : List.Forall₂ (Entry fs) ps ls) (w : Written) (hw : ∀ x ∈ w, ∀ p ∈ ps, x.1 ≠ fs.resolve p) :
    ∃ w', fs.loadLoop w ps = (.ok ls, w' ++ w) ∧ ∀ x ∈ w', ∃ p ∈ ps, x.1 = fs.resolve p ∧ fs.at p = some (.file none) := by
  induction h generalizing w with
  | nil => exact ⟨[], rfl, by simp⟩
  | @cons p l ps ls hp _ ih =>
    rw [List.map_cons, List.nodup_cons] at hnd
    obtain ⟨w1, e1, e2⟩ := loadOne_entry (ha p (by simp)) hp w (fun x hx => hw x hx p (by simp))
    obtain ⟨w2, e3, e4⟩ := ih (fun q hq => ha q (by simp [hq])) hnd.2 (w1 ++ w) (by
      intro x hx q hq
      rcases List.mem_append.1 hx with hx | hx
      · rw [(e2 x hx).1]
        intro hh
        exact hnd.1 (hh ▸ List.mem_map_of_mem hq)
      · exact hw x hx q (by simp [hq]))
    refine ⟨w2 ++ w1, ?_, ?_⟩
    · rw [FS.loadLoop, e1]
      simp only [e3, List.append_assoc]
    · intro x hx
      rcases List.mem_append.1 hx with hx | hx
      · obtain ⟨q, hq, h1, h2⟩ := e4 x hx
        exact ⟨q, by simp [hq], h1, h2⟩
      · exact ⟨p, by simp, e2 x hx⟩

/-- C126 for absolute paths of different files.  Missing: relative paths, where the claim is false (`C126_violated_relative`). -/
theorem C126_load_partial (fs : FS) (ps : List Path) (ls : List Loaded) (ha : ∀ p ∈ ps, p.absolute = true) (hnd : (ps.map fs.resolve).Nodup)
    (h : List.Forall₂ (Entry fs) ps ls) :
    (loadData fs ps).1 = .ok ls ∧ ∀ w ∈ (loadData fs ps).2, ∃ p ∈ ps, w.1 = fs.resolve p ∧ fs.at p = some (.file none) := by
  obtain ⟨w', e1, e2⟩ := loadLoop_entries ha hnd h [] (by simp)
  rw [List.append_nil] at e1
  unfold loadData
  rw [e1]
  exact ⟨rfl, e2⟩

/-- C126: files that hold data sets are loaded in their order, whatever their paths are (also repeated ones), and nothing is written. -/
theorem C126_intact (fs : FS) (ps : List Path) (ds : List Dataset)
    (h : List.Forall₂ (fun p d => fs.at p = some (.file (some d))) ps ds) : loadData fs ps = (.ok (ds.map .one), []) := by
  unfold loadData
  induction h with
  | nil => rfl
  | @cons p d ps ds hp _ ih =>
    have : fs.loadOne [] p = (.ok (.one d), []) := by
      unfold FS.loadOne
      rw [readJson_file hp (by simp)]
      rfl
    rw [FS.loadLoop, this]
    simp only [ih]
    rfl

/-- C126: a damaged file with a relative path, the data folder beside it: the file is overwritten with an empty list and the empty list is
loaded, whatever the folder holds. -/
theorem C126_violated_relative (fs : FS) (dir : List Name) (name : Name) (es : List (Name × Node)) (hname : name ≠ [])
    (hp : pardir ∉ dir ++ [name]) (hp' : name ++ ['.', 'j', 's', 'o', 'n'] ≠ pardir)
    (hfile : fs.at ⟨false, dir ++ [name ++ ['.', 'j', 's', 'o', 'n']]⟩ = some (.file none))
    (h : fs.at ⟨false, dir ++ [name]⟩ = some (.dir es)) (hn : GoodNames es) (hnest : fs.at ⟨false, (dir ++ [name]) ++ (dir ++ [name])⟩ = none) :
    loadData fs [⟨false, dir ++ [name ++ ['.', 'j', 's', 'o', 'n']]⟩] =
      (.ok [.many []], [(fs.resolve ⟨false, dir ++ [name ++ ['.', 'j', 's', 'o', 'n']]⟩, [])]) := by
  obtain ⟨out, h1, h2⟩ := C106_violated_relative mergeDatasets fs (dir ++ [name]) es h hn hnest
  have hno : Path.noSuffix ⟨false, dir ++ [name ++ ['.', 'j', 's', 'o', 'n']]⟩ = ⟨false, dir ++ [name]⟩ := by
    simp [Path.noSuffix, Path.name, stem_json hname]
  have hout : out.path = fs.resolve ⟨false, dir ++ [name ++ ['.', 'j', 's', 'o', 'n']]⟩ := by
    unfold mergeFiles at h1
    rw [show fs.iterdir ⟨false, dir ++ [name]⟩ = .ok (es.map fun f => Path.join ⟨false, dir ++ [name]⟩ ⟨false, [f.1]⟩) from by simp [FS.iterdir, h]] at h1
    simp only at h1
    split at h1
    · cases h1
    · obtain rfl := Except.ok.inj h1
      show fs.resolve ⟨false, (dir ++ [name]) ++ [pardir]⟩ ++ [Path.name ⟨false, dir ++ [name]⟩ ++ dotJson] = _
      unfold FS.resolve
      simp only [Bool.false_eq_true, if_false]
      rw [← List.append_assoc, ← List.append_assoc, normal_up, ← List.append_assoc, normal_append _ _ (fun hh => hp (by simp [hh])),
        List.dropLast_concat, normal_append _ _ hp']
      simp [Path.name, dotJson]
  unfold loadData FS.loadLoop FS.loadOne
  rw [readJson_file hfile (by simp), hno]
  simp only [Option.map_none]
  rw [show mergeJsonFiles fs ⟨false, dir ++ [name]⟩ = .ok out from h1]
  simp only
  have : fs.readJson [(out.path, out.data)] ⟨false, dir ++ [name ++ ['.', 'j', 's', 'o', 'n']]⟩ = .ok (some (.many [])) := by
    unfold FS.readJson
    rw [hout, h2]
    simp [List.lookup]
  rw [this, hout, h2]
  rfl

/-- C126: a damaged file whose suffix is not `.json`: `load_data` raises, after it has written the merged data to the file with the
suffix `.json`, also if that one held data. -/
theorem C126_violated_suffix (fs : FS) (dir : List Name) (name suf : Name) (es : List (Name × Node)) (ds : List Dataset)
    (hsuf : suf ≠ ['.', 'j', 's', 'o', 'n']) (hstem : stem (name ++ suf) = name) (hp : pardir ∉ dir ++ [name]) (hp' : name ++ suf ≠ pardir)
    (hfile : fs.at ⟨true, dir ++ [name ++ suf]⟩ = some (.file none)) (h : fs.at ⟨true, dir ++ [name]⟩ = some (.dir es)) (hw : WellFormed es)
    (hd : merged mergeDatasets es = .ok ds) :
    loadData fs [⟨true, dir ++ [name ++ suf]⟩] = (.error .notJson, [(dir ++ [name ++ ['.', 'j', 's', 'o', 'n']], ds)]) := by
  have hm := merge_beside hp h hw hd
  have hno : Path.noSuffix ⟨true, dir ++ [name ++ suf]⟩ = ⟨true, dir ++ [name]⟩ := by
    simp [Path.noSuffix, Path.name, hstem]
  have hres : fs.resolve ⟨true, dir ++ [name ++ suf]⟩ = dir ++ [name ++ suf] := by
    show normal (if true = true then _ else _) = _
    rw [if_pos rfl, normal_self]
    intro hh
    rcases List.mem_append.1 hh with hh | hh
    · exact hp (List.mem_append_left _ hh)
    · exact hp' (List.mem_singleton.1 hh).symm
  unfold loadData FS.loadLoop FS.loadOne
  rw [readJson_file hfile (by simp), hno]
  simp only [Option.map_none, hm]
  rw [readJson_file hfile (by
    intro x hx
    obtain rfl := List.mem_singleton.1 hx
    rw [hres]
    intro hh
    have := List.append_cancel_left hh
    exact hsuf (List.append_cancel_left (List.singleton_inj.1 this)).symm)]
  rfl

/-- `/c` is the example folder of C106; `/c.json` and `/c.txt` are damaged. -/
def loadFS : FS := ⟨.dir [(['c'], .dir tree), (['c', '.', 'j', 's', 'o', 'n'], .file none), (['c', '.', 't', 'x', 't'], .file none)], []⟩

theorem tree_merged : ∃ m, merged mergeDatasets tree = .ok [m] := by
  obtain ⟨m, hm, -⟩ := C46_pooled_partial ten [] ⟨rfl, rfl, rfl, rfl⟩ 1 rfl (by decide) (by decide)
  refine ⟨m, ?_⟩
  have : ((subfolders tree).mapM fun f => mergeDatasets (dataSets f)) = ((subfolders tree).map dataSets).mapM mergeDatasets := by
    rw [List.mapM_map]; rfl
  unfold merged
  rw [this, tree_data, List.mapM_cons, hm]
  rfl

/-- A concrete case: the merged data set is loaded. -/
example : ∃ m, (loadData loadFS [⟨true, [['c', '.', 'j', 's', 'o', 'n']]⟩]).1 = .ok [.many [m]] := by
  obtain ⟨m, hm⟩ := tree_merged
  exact ⟨m, (C126_load_partial loadFS _ [.many [m]] (by simp) (by simp)
    (.cons (.damaged _ rfl ⟨[], ['c'], tree, by decide, by decide, by decide, rfl, rfl, tree_wf, hm⟩) .nil)).1⟩

example : ∃ m, loadData loadFS [⟨true, [['c', '.', 't', 'x', 't']]⟩] = (.error .notJson, [([['c', '.', 'j', 's', 'o', 'n']], [m])]) := by
  obtain ⟨m, hm⟩ := tree_merged
  exact ⟨m, C126_violated_suffix loadFS [] ['c'] ['.', 't', 'x', 't'] tree [m] (by decide) (by decide) (by decide) (by decide) rfl rfl tree_wf hm⟩

/-- The full claim is false. -/
theorem C126_violated : ¬ C126_claim := by
  intro h
  obtain ⟨m, hm⟩ := tree_merged
  have h1 := (h loadFS [⟨false, [['c', '.', 'j', 's', 'o', 'n']]⟩] [.many [m]] (by simp)
    (.cons (.damaged _ rfl ⟨[], ['c'], tree, by decide, by decide, by decide, rfl, rfl, tree_wf, hm⟩) .nil)).1
  have h2 := C126_violated_relative loadFS [] ['c'] tree (by decide) (by decide) (by decide) rfl rfl tree_wf.1 rfl
  have h3 : Except.ok [Loaded.many [m]] = Except.ok (ε := LErr) [.many []] := h1.symm.trans (congrArg Prod.fst h2)
  simp at h3

end Verif.MergeFiles

namespace Verif.BpDict

theorem find_name (f : Field) : Field.all.find? (fun g => g.name = f.name) = some f := by cases f <;> decide

theorem name_inj {f g : Field} (h : f.name = g.name) : f = g := by
  have := find_name f
  rw [h, find_name g] at this
  exact (Option.some.inj this).symm

theorem mem_all (f : Field) : f ∈ Field.all := by cases f <;> decide

theorem init_ok (kw : Dict) (h : ∀ kv ∈ kw, ∃ f : Field, f.name = kv.1) : ∃ p, init kw = .ok p ∧ ∀ f, p f = (kw.lookup f.name).getD f.default := by
  induction kw with
  | nil => exact ⟨Field.default, rfl, fun f => rfl⟩
  | cons kv kw ih =>
    obtain ⟨f, hf⟩ := h kv (by simp)
    obtain ⟨p, h1, h2⟩ := ih fun x hx => h x (by simp [hx])
    obtain ⟨k, v⟩ := kv
    simp only at hf
    subst hf
    refine ⟨fun g => if g = f then v else p g, by simp only [init, find_name, h1], fun g => ?_⟩
    by_cases hg : g = f
    · subst hg; simp [List.lookup]
    · have : (g.name == f.name) = false := by simpa using fun hh => hg (name_inj hh)
      simp only [if_neg hg, h2, List.lookup, this]

theorem lookup_filter (d : Dict) (f : Field) :
    (d.filter fun kv => Field.all.any fun g => g.name = kv.1).lookup f.name = d.lookup f.name := by
  induction d with
  | nil => rfl
  | cons kv d ih =>
    obtain ⟨k, v⟩ := kv
    by_cases hk : k = f.name
    · subst hk
      have : (Field.all.any fun g => g.name = f.name) = true := List.any_eq_true.2 ⟨f, mem_all f, by simp⟩
      rw [List.filter_cons_of_pos (by exact this)]
      simp [List.lookup]
    · have hne : (f.name == k) = false := by simpa using fun hh => hk hh.symm
      rw [List.filter_cons]
      split
      · simp only [List.lookup, hne]; exact ih
      · simp only [List.lookup, hne]; exact ih

/-- C127: `from_dict` never fails; each field has the value in the dictionary, and the default if the dictionary has no such key. -/
theorem C127_from_dict (d : Dict) : ∃ p, fromDict d = .ok p ∧ ∀ f, p f = (d.lookup f.name).getD f.default := by
  obtain ⟨p, h1, h2⟩ := init_ok (d.filter fun kv => Field.all.any fun f => f.name = kv.1) (by
    intro kv hkv
    have := (List.mem_filter.1 hkv).2
    rw [List.any_eq_true] at this
    obtain ⟨f, -, hf⟩ := this
    exact ⟨f, by simpa using hf⟩)
  exact ⟨p, h1, fun f => by rw [h2, lookup_filter]⟩

/-- C127: reading back the dictionary of an object, also with further keys in it, gives the object. -/
theorem C127_round_trip (p : Params) (extra : Dict) : fromDict (asDict p ++ extra) = .ok p := by
  obtain ⟨q, h1, h2⟩ := C127_from_dict (asDict p ++ extra)
  rw [h1]
  congr 1
  funext f
  rw [h2]
  have : (asDict p ++ extra).lookup f.name = some (p f) := by
    rw [List.lookup_append]
    have : (asDict p).lookup f.name = some (p f) := by cases f <;> rfl
    rw [this]; rfl
  rw [this]; rfl

/-- C127: the dictionary of the object that is made of a dictionary without the names of fields, in words of the documentation. -/
theorem C127_defaults (d : Dict) (h : ∀ f : Field, d.lookup f.name = none) : (fromDict d).map asDict = .ok
    [("bp_method", .str "msl"), ("max_bp_iter", .int 30), ("osd_order", .int 10), ("osd_method", .str "osd_cs"), ("ms_scaling_factor", .ratio 3 4),
      ("schedule", .str "parallel"), ("omp_thread_count", .int 1), ("random_serial_schedule", .int 0), ("serial_schedule_order", .none),
      ("cutoff", .inf)] := by
  obtain ⟨p, h1, h2⟩ := C127_from_dict d
  have h3 : p = Field.default := funext fun f => by rw [h2, h]; rfl
  rw [h1, h3]
  rfl

example : ∃ p, fromDict [("decoder", .str "bp")] = .ok p ∧ (fromDict [("decoder", .str "bp")]).map asDict = .ok (asDict p) ∧ p .maxBpIter = .int 30 := by
  have h := C127_defaults [("decoder", .str "bp")] (by intro f; cases f <;> decide)
  obtain ⟨p, h1, h2⟩ := C127_from_dict [("decoder", .str "bp")]
  exact ⟨p, h1, by rw [h1]; rfl, h2 .maxBpIter⟩

/-- A concrete case: a given value, a default, and an unknown key. -/
example : ∃ p, fromDict [("osd_order", .int 4), ("decoder", .str "bp")] = .ok p ∧ p .osdOrder = .int 4 ∧ p .schedule = .str "parallel" := by
  obtain ⟨p, h1, h2⟩ := C127_from_dict [("osd_order", .int 4), ("decoder", .str "bp")]
  exact ⟨p, h1, h2 .osdOrder, h2 .schedule⟩

/-- Without the selection an unknown key raises. -/
example : init [("decoder", .str "bp")] = .error "TypeError" := rfl

end Verif.BpDict
