import Mathlib.Data.List.Basic
import Mathlib.Data.List.Infix
import Mathlib.Data.List.Nodup
import Mathlib.Tactic.Common

/-!
# The output directory of a run

Models `DataMaster::create_directory`, `setWriteDirectory` and `writeToDirectory` (`base/datamaster.cpp`), the names that data
objects choose for their output (`base/dataobject.cpp`) and the effect of the system calls on a file system. Texts are lists of
characters. Simplifications: one processor of rank 0; a file is its whole contents; names of data objects and of given files
contain no `/`; of the shell only the splitting of the command into words is modelled (no quotes, `*`, `;` …).
-/
namespace Verif.RunDirectory

/-- Text, `std::string`. -/
abbrev Name := List Char

/-- A path, as the list of its components; an absolute path begins with an empty component. -/
abbrev Path := List Name

/-- Splitting a text at a character; part of the model of the shell and of path names (no code in /repo; used by
`base/datamaster.cpp:334-336`). -/
def splitAt (c : Char) : Name → List Name
  | [] => [[]]
  | x :: xs => if x = c then [] :: splitAt c xs else
    match splitAt c xs with
    | [] => [[x]]
    | w :: ws => (x :: w) :: ws

/-- The arguments that the shell passes to `rm` for the command `"rm -rf "+s`, `base/datamaster.cpp:334`. -/
def words (s : Name) : List Name := (splitAt ' ' s).filter (· ≠ [])

/-- The path that a name stands for in a system call, `base/datamaster.cpp:336`: repeated slashes count once. -/
def pathOf (s : Name) : Path :=
  match splitAt '/' s with
  | [] => []
  | w :: ws => w :: ws.filter (· ≠ [])

/-- A file system: contents of files, existing directories. -/
structure FS where
  file : Path → Option Name
  dir : Path → Bool

/-- `rm -rf p`, `base/datamaster.cpp:334`. -/
def FS.rmrf (fs : FS) (p : Path) : FS where
  file q := if p <+: q then none else fs.file q
  dir q := if p <+: q then false else fs.dir q

/-- The directory above `p` exists. -/
def FS.parent (fs : FS) (p : Path) : Prop := p.length ≤ 1 ∨ fs.dir p.dropLast = true

instance (fs : FS) (p : Path) : Decidable (fs.parent p) := by unfold FS.parent; infer_instance

/-- `mkdir(p, 0777)`, `base/datamaster.cpp:336`: one level only, fails silently. -/
def FS.mkdir (fs : FS) (p : Path) : FS :=
  if fs.parent p ∧ fs.file p = none then { fs with dir := fun q => if q = p then true else fs.dir q } else fs

/-- `ofstream fout(p); fout << c`, `base/datamaster.cpp:281-284`; the Boolean tells whether the file could be opened. -/
def FS.write (fs : FS) (p : Path) (c : Name) : FS × Bool :=
  if fs.parent p ∧ fs.dir p = false then ({ fs with file := fun q => if q = p then some c else fs.file q }, true) else (fs, false)

/-- `DataObjectType`, `base/dataobject.hpp:16`. -/
inductive Kind
  | graph | multigraph | multibin | volumeplot | general
  deriving DecidableEq

/-- What a data object has to write, `DataObject::writeToFile` of `base/dataobject.hpp`: the name `sub` of its own directory and the files
to write there in order; `throwsAt = some n`: it throws an exception after `n` of them. `skip` is the check `data.empty()` at the
beginning. -/
structure Dob where
  kind : Kind
  sub : Name
  files : List (Name × Name)
  skip : Bool
  throwsAt : Option ℕ

/-- `DataObject::_correctDirName`, `base/dataobject.cpp:53-54` with `object_counter` from `base/dataobject.cpp:5-11`: the counter is 1 in
every object and never changed. -/
def counted (name : Name) : Name := name ++ ['-', '1']

/-- The output of `GraphObject::writeToFile`, `dataobjects/dataobjecttypes/graphobject.cpp:65-86`: `data` is the text of the records,
`axes` the names of the axes. -/
def graphDob (name data axes : Name) : Dob where
  kind := .graph
  sub := counted name
  files := [(counted name ++ ['.', 'c', 's', 'v'], data), (['a', 'x', 'e', 's', '.', 'c', 's', 'v'], axes)]
  skip := data.isEmpty
  throwsAt := none

/-- The directory of each kind of data object, `base/datamaster.cpp:210-213`; other kinds have none (`default`,
`base/datamaster.cpp:268-270`). -/
def kindDir : Kind → Option Name
  | .graph => some ['g', 'r', 'a', 'p', 'h']
  | .multigraph => some ['m', 'u', 'l', 't', 'i', 'g', 'r', 'a', 'p', 'h']
  | .volumeplot => some ['v', 'o', 'l', 'u', 'm', 'e', 'p', 'l', 'o', 't']
  | .general => some ['g', 'e', 'n', 'e', 'r', 'a', 'l']
  | .multibin => none

/-- The sequence `fout.open(..); if (fout.fail()) return false; fout << ..` of a data object,
`dataobjects/dataobjecttypes/graphobject.cpp:73-82`. -/
def writeAll (fs : FS) (base : Path) : List (Name × Name) → FS × Bool
  | [] => (fs, true)
  | (f, c) :: r => let (fs', ok) := fs.write (base ++ [f]) c
    if ok then writeAll fs' base r else (fs', false)

/-- The files that are written before a possible exception, `base/datamaster.cpp:233-238`. -/
def Dob.reached (o : Dob) : List (Name × Name) :=
  match o.throwsAt with
  | none => o.files
  | some n => o.files.take n

/-- `writeToFile` called through `try … catch (...)`, `base/datamaster.cpp:226-273`: the Boolean is the value that `success &=` sees; after
an exception `success` keeps its value. -/
def Dob.output (o : Dob) (d : Path) (fs : FS) : FS × Bool :=
  match kindDir o.kind with
  | none => (fs, true)
  | some k =>
    if o.skip then (fs, true) else
    writeAll (fs.mkdir (d ++ [k, o.sub])) (d ++ [k, o.sub]) o.reached

/-- The loop over the data objects, `base/datamaster.cpp:225-276`. -/
def outputs (d : Path) : List Dob → FS × Bool → FS × Bool
  | [], s => s
  | o :: r, (fs, ok) => outputs d r ((o.output d fs).1, ok && (o.output d fs).2)

/-- The loop over the files that were given to the data master, `base/datamaster.cpp:279-284`. -/
def given (d : Path) : List (Name × Name) → FS × Bool → FS × Bool
  | [], s => s
  | (f, c) :: r, (fs, ok) => given d r ((fs.write (d ++ [f]) c).1, ok && (fs.write (d ++ [f]) c).2)

/-- The directory of one kind, made if there is an object of the kind, `base/datamaster.cpp:184-209` and `216-223`. -/
def mkKind (d : Path) (objs : List Dob) (fs : FS) (k : Kind) : FS :=
  match kindDir k with
  | some n => if objs.any (·.kind = k) then fs.mkdir (d ++ [n]) else fs
  | none => fs

/-- The creation of the directories of the kinds, `base/datamaster.cpp:183-223`. -/
def kindDirs (d : Path) (objs : List Dob) (fs : FS) : FS :=
  [Kind.graph, .multigraph, .volumeplot, .general].foldl (mkKind d objs) fs

/-- The fields of the data master that matter here, `base/datamaster.hpp`: `writeDir`, `created` (`is_directory_created`), the data objects
(`none` is a null pointer), the given files, and the file system. `auto` is the random name of `base/datamaster.cpp:332`. -/
structure DM where
  writeDir : Name
  created : Bool
  objs : List (Option Dob)
  files : List (Name × Name)
  summary : Name
  log : Name
  fs : FS

/-- `DataMaster::setWriteDirectory`, `base/datamaster.cpp:155-160`. -/
def DM.setWriteDirectory (m : DM) (d : Name) : DM :=
  if m.writeDir ≠ d then { m with writeDir := d, created := false } else m

/-- `DataMaster::create_directory`, `base/datamaster.cpp:327-340`, on rank 0 without `force_create`. -/
def DM.create (auto : Name) (m : DM) : DM :=
  if m.created then m else
  let m1 := if m.writeDir = [] then m.setWriteDirectory auto else m
  { m1 with fs := ((words m1.writeDir).foldl (fun fs w => fs.rmrf (pathOf w)) m1.fs).mkdir (pathOf m1.writeDir), created := true }

/-- The name `run_summary.txt`, `base/datamaster.cpp:176`. -/
def summaryName : Name := "run_summary.txt".toList

/-- The name `log.txt`, `base/datamaster.cpp:177`. -/
def logName : Name := "log.txt".toList

/-- `DataMaster::writeToDirectory(string)`, `base/datamaster.cpp:167-290`; `none`: a null pointer is dereferenced
(`base/datamaster.cpp:189`). The results of writing the summary and the log are not used (`base/datamaster.cpp:176-177`). -/
def DM.writeTo (auto : Name) (m : DM) (d : Name) : Option (DM × Bool) :=
  let m1 := (m.setWriteDirectory d).create auto
  let fs1 := (m1.fs.write (pathOf d ++ [summaryName]) m.summary).1
  let fs2 := (fs1.write (pathOf d ++ [logName]) m.log).1
  match m1.objs.mapM id with
  | none => none
  | some objs =>
    let fs3 := kindDirs (pathOf d) objs fs2
    let r := given (pathOf d) m1.files (outputs (pathOf d) objs (fs3, true))
    some ({ m1 with fs := r.1 }, r.2)

/-- `DataMaster::writeToDirectory()`, `base/datamaster.cpp:162-165`. -/
def DM.write (auto : Name) (m : DM) : Option (DM × Bool) :=
  let m1 := m.create auto
  m1.writeTo auto m1.writeDir

/-! ## Elementary facts -/

theorem splitAt_not_mem (c : Char) (s : Name) (h : c ∉ s) : splitAt c s = [s] := by
  induction s with
  | nil => rfl
  | cons x xs ih =>
    have hx : x ≠ c := by intro e; apply h; simp [e]
    have := ih (by intro e; apply h; simp [e])
    simp [splitAt, hx, this]

theorem words_simple (s : Name) (h : ' ' ∉ s) (h0 : s ≠ []) : words s = [s] := by
  simp [words, splitAt_not_mem _ _ h, h0]

/-- Two file systems agree outside of the directory `p`. -/
def SameOutside (p : Path) (a b : FS) : Prop := ∀ q, ¬ p <+: q → a.file q = b.file q ∧ a.dir q = b.dir q

theorem SameOutside.refl (p : Path) (a : FS) : SameOutside p a a := fun _ _ => ⟨rfl, rfl⟩

theorem SameOutside.trans {p : Path} {a b c : FS} (h : SameOutside p a b) (h' : SameOutside p b c) : SameOutside p a c :=
  fun q hq => ⟨(h q hq).1.trans (h' q hq).1, (h q hq).2.trans (h' q hq).2⟩

theorem mkdir_outside (fs : FS) (p q : Path) (h : p <+: q) : SameOutside p (fs.mkdir q) fs := by
  intro r hr
  have : r ≠ q := by rintro rfl; exact hr h
  unfold FS.mkdir
  split <;> simp [this]

theorem write_outside (fs : FS) (p q : Path) (c : Name) (h : p <+: q) : SameOutside p (fs.write q c).1 fs := by
  intro r hr
  have : r ≠ q := by rintro rfl; exact hr h
  unfold FS.write
  split <;> simp [this]

theorem rmrf_outside (fs : FS) (p : Path) : SameOutside p (fs.rmrf p) fs := by
  intro r hr
  simp [FS.rmrf, hr]

theorem writeAll_outside (p base : Path) (h : p <+: base) (l : List (Name × Name)) (fs : FS) :
    SameOutside p (writeAll fs base l).1 fs := by
  induction l generalizing fs with
  | nil => exact SameOutside.refl _ _
  | cons x r ih =>
    obtain ⟨f, c⟩ := x
    have h1 : SameOutside p (fs.write (base ++ [f]) c).1 fs := write_outside _ _ _ _ (h.trans (List.prefix_append _ _))
    simp only [writeAll]
    split
    · exact (ih _).trans h1
    · exact h1

theorem output_outside (p : Path) (o : Dob) (fs : FS) : SameOutside p (o.output p fs).1 fs := by
  unfold Dob.output
  cases kindDir o.kind with
  | none => exact SameOutside.refl _ _
  | some k =>
    dsimp only
    split
    · exact SameOutside.refl _ _
    · exact (writeAll_outside p _ (List.prefix_append _ _) _ _).trans (mkdir_outside _ _ _ (List.prefix_append _ _))

theorem outputs_outside (p : Path) (l : List Dob) (s : FS × Bool) : SameOutside p (outputs p l s).1 s.1 := by
  induction l generalizing s with
  | nil => exact SameOutside.refl _ _
  | cons o r ih => exact (ih _).trans (output_outside p o s.1)

theorem given_outside (p : Path) (l : List (Name × Name)) (s : FS × Bool) : SameOutside p (given p l s).1 s.1 := by
  induction l generalizing s with
  | nil => exact SameOutside.refl _ _
  | cons o r ih => exact (ih _).trans (write_outside s.1 p _ _ (List.prefix_append _ _))

theorem kindDirs_outside (p : Path) (l : List Dob) (fs : FS) : SameOutside p (kindDirs p l fs) fs := by
  unfold kindDirs
  generalize [Kind.graph, .multigraph, .volumeplot, .general] = ks
  induction ks generalizing fs with
  | nil => exact SameOutside.refl _ _
  | cons k ks ih =>
    refine (ih _).trans ?_
    unfold mkKind
    cases kindDir k with
    | none => exact SameOutside.refl _ _
    | some n =>
      dsimp only
      split
      · exact mkdir_outside _ _ _ (List.prefix_append _ _)
      · exact SameOutside.refl _ _

theorem create_simple (auto : Name) (m : DM) (h : ' ' ∉ m.writeDir) (h0 : m.writeDir ≠ []) : m.create auto =
    if m.created then m else { m with fs := (m.fs.rmrf (pathOf m.writeDir)).mkdir (pathOf m.writeDir), created := true } := by
  simp [DM.create, h0, words_simple _ h h0]

theorem setWriteDirectory_dir (m : DM) (d : Name) : (m.setWriteDirectory d).writeDir = d := by
  unfold DM.setWriteDirectory
  split
  · rfl
  · rename_i h; simpa using h

theorem setWriteDirectory_rest (m : DM) (d : Name) : (m.setWriteDirectory d).fs = m.fs ∧ (m.setWriteDirectory d).objs = m.objs ∧
    (m.setWriteDirectory d).files = m.files := by
  unfold DM.setWriteDirectory
  split <;> exact ⟨rfl, rfl, rfl⟩

theorem create_outside (auto : Name) (m : DM) (h : ' ' ∉ m.writeDir) (h0 : m.writeDir ≠ []) :
    SameOutside (pathOf m.writeDir) (m.create auto).fs m.fs := by
  rw [create_simple auto m h h0]
  split
  · exact SameOutside.refl _ _
  · exact (mkdir_outside _ _ _ (List.prefix_refl _)).trans (rmrf_outside _ _)

theorem create_rest (auto : Name) (m : DM) : (m.create auto).objs = m.objs ∧ (m.create auto).files = m.files ∧
    (m.create auto).created = true := by
  unfold DM.create DM.setWriteDirectory
  split
  · rename_i h; exact ⟨rfl, rfl, h⟩
  · dsimp only
    split
    · split <;> exact ⟨rfl, rfl, rfl⟩
    · exact ⟨rfl, rfl, rfl⟩

/-! ## C120: only the output directory is touched -/

/-- Writing the results to the directory `d`, whose name is not empty and contains no space, changes nothing outside of `d`: every file and
directory whose path does not lie below that of `d` is as before, whatever the data objects and given files are and whether or not any
write fails.
Missing: names with spaces (see `C120_negation_spaces`) or with other characters that the shell interprets, which are passed on to the
shell as they are; the empty name (see `C120_negation_empty`). -/
theorem C120_only_directory_partial (auto d : Name) (m m' : DM) (ok : Bool) (hs : ' ' ∉ d) (h0 : d ≠ [])
    (h : m.writeTo auto d = some (m', ok)) (q : Path) (hq : ¬ pathOf d <+: q) :
    m'.fs.file q = m.fs.file q ∧ m'.fs.dir q = m.fs.dir q := by
  suffices hh : SameOutside (pathOf d) m'.fs m.fs from hh q hq
  unfold DM.writeTo at h
  set m1 := (m.setWriteDirectory d).create auto with hm1
  have e1 : SameOutside (pathOf d) m1.fs m.fs := by
    have := create_outside auto (m.setWriteDirectory d) (by rwa [setWriteDirectory_dir]) (by rwa [setWriteDirectory_dir])
    rwa [setWriteDirectory_dir, (setWriteDirectory_rest m d).1] at this
  dsimp only at h
  cases hobj : m1.objs.mapM id with
  | none => rw [hobj] at h; simp at h
  | some objs =>
    rw [hobj] at h
    simp only [Option.some.injEq, Prod.mk.injEq] at h
    obtain ⟨rfl, -⟩ := h
    refine (given_outside _ _ _).trans ((outputs_outside _ _ _).trans ((kindDirs_outside _ _ _).trans ?_))
    exact (write_outside _ _ _ _ (List.prefix_append _ _)).trans ((write_outside _ _ _ _ (List.prefix_append _ _)).trans e1)

/-- The file system used in the examples: the directories `a` and `keep`, the file `keep/data`. -/
def fs0 : FS where
  file q := if q = [['k'], ['d']] then some ['1'] else none
  dir q := q = [['k']] ∨ q = [['a']]

/-- The data master of the examples: one graph object and one given file. -/
def dm0 : DM where
  writeDir := []
  created := false
  objs := [some (graphDob ['K', 'E'] ['0', ',', '1'] ['t', '\n', 'y'])]
  files := [(['i'], ['i', 'n'])]
  summary := ['s']
  log := ['l']
  fs := fs0

example : ∃ r, dm0.writeTo [] "a".toList = some r ∧ r.2 = true ∧ r.1.fs.file [['k'], ['d']] = some ['1'] ∧
    r.1.fs.file ["a".toList, "graph".toList, "KE-1".toList, "KE-1.csv".toList] = some ['0', ',', '1'] := by
  refine ⟨_, rfl, ?_, ?_, ?_⟩ <;> decide +kernel

/-- Writing to the directory with the name `a k` (one name with a space) deletes the directory `k`, which has nothing to do with it. -/
theorem C120_negation_spaces : ∃ (m m' : DM) (ok : Bool) (q : Path), m.writeTo [] "a k".toList = some (m', ok) ∧
    ¬ pathOf "a k".toList <+: q ∧ m.fs.file q = some ['1'] ∧ m'.fs.file q = none := by
  refine ⟨dm0, _, _, [['k'], ['d']], rfl, ?_, ?_, ?_⟩ <;> decide +kernel

/-- For every name with a space: all files below the words of the name are deleted when the directory is created. -/
theorem C120_negation_words (auto : Name) (m : DM) (h : m.created = false) (h0 : m.writeDir ≠ []) (w : Name)
    (hw : w ∈ words m.writeDir) (q : Path) (hq : pathOf w <+: q) : (m.create auto).fs.file q = none := by
  have key : ∀ (l : List Name) (fs : FS), (w ∈ l ∨ fs.file q = none) → (l.foldl (fun fs w => fs.rmrf (pathOf w)) fs).file q = none := by
    intro l
    induction l with
    | nil => intro fs h; rcases h with h | h; · simp at h
             · exact h
    | cons x l ih =>
      intro fs h
      apply ih
      rcases h with h | h
      · rcases List.mem_cons.1 h with rfl | h
        · right; simp [FS.rmrf, hq]
        · left; exact h
      · right; simp [FS.rmrf, h]
  have := key (words m.writeDir) m.fs (Or.inl hw)
  simp only [DM.create, h, h0, if_false, Bool.false_eq_true]
  unfold FS.mkdir
  split <;> exact this

example : ['k'] ∈ words "a k".toList := by decide +kernel

/-- Writing to the directory with the empty name writes to the root of the file system: a directory with a random name is created, but the
files go to `/run_summary.txt` and so on. -/
theorem C120_negation_empty (auto : Name) (m m' : DM) (ok : Bool) (h : m.writeTo auto [] = some (m', ok)) (ha : ' ' ∉ auto) (ha0 : auto ≠ [])
    (hrel : auto.head? ≠ some '/') (hroot : m.fs.dir [[]] = true) (hfree : ∀ n, m.fs.dir [[], n] = false) (hcr : m.created = false)
    (hg : ∀ x ∈ m.files, x.1 ≠ summaryName) :
    m'.fs.file [[], summaryName] = some m.summary := by
  -- the created directory is relative
  have hp : pathOf auto ≠ [] ∧ (pathOf auto).head? ≠ some [] := by
    cases auto with
    | nil => simp at ha0
    | cons x xs =>
      have hx : x ≠ '/' := by intro e; apply hrel; simp [e]
      unfold pathOf
      simp only [splitAt, hx, if_false]
      cases splitAt '/' xs with
      | nil => simp
      | cons w ws => simp
  have hnp : ∀ q : Path, q.head? = some [] → ¬ pathOf auto <+: q := by
    intro q hq hpre
    obtain ⟨t, rfl⟩ := hpre
    obtain ⟨h1, h2⟩ := hp
    cases hpa : pathOf auto with
    | nil => exact h1 hpa
    | cons a b => rw [hpa] at hq h2; simp at hq h2; exact h2 hq
  unfold DM.writeTo at h
  set m1 := (m.setWriteDirectory []).create auto with hm1
  have hsum : ∃ m2 : DM, m2.fs = m.fs ∧ m2.writeDir = auto ∧ m2.objs = m.objs ∧ m2.files = m.files ∧
      m1 = { m2 with fs := (m2.fs.rmrf (pathOf auto)).mkdir (pathOf auto), created := true } := by
    have hd := setWriteDirectory_dir m []
    have hc : (m.setWriteDirectory []).created = false := by
      unfold DM.setWriteDirectory; split <;> simp [hcr]
    obtain ⟨r1, r2, r3⟩ := setWriteDirectory_rest m []
    have hd2 := setWriteDirectory_dir (m.setWriteDirectory []) auto
    obtain ⟨s1, s2, s3⟩ := setWriteDirectory_rest (m.setWriteDirectory []) auto
    refine ⟨(m.setWriteDirectory []).setWriteDirectory auto, by rw [s1, r1], hd2, by rw [s2, r2], by rw [s3, r3], ?_⟩
    rw [hm1]
    unfold DM.create
    simp only [hc, Bool.false_eq_true, if_false, hd, if_true]
    rw [hd2, words_simple _ ha ha0]
    simp
  obtain ⟨m2, e1, e2, e3, e4, e5⟩ := hsum
  have hout : ∀ q : Path, q.head? = some [] → m1.fs.file q = m.fs.file q ∧ m1.fs.dir q = m.fs.dir q := by
    intro q hq
    have := ((mkdir_outside (m2.fs.rmrf (pathOf auto)) _ _ (List.prefix_refl _)).trans (rmrf_outside m2.fs (pathOf auto))) q (hnp q hq)
    rw [e5]; rw [e1] at this; simpa [e1] using this
  have hpe : pathOf [] = [[]] := by decide +kernel
  rw [hpe] at h
  dsimp only at h
  cases hobj : m1.objs.mapM id with
  | none => rw [hobj] at h; simp at h
  | some objs =>
    rw [hobj] at h
    simp only [Option.some.injEq, Prod.mk.injEq] at h
    obtain ⟨rfl, -⟩ := h
    have hw1 : (m1.fs.write ([[]] ++ [summaryName]) m.summary).1.file [[], summaryName] = some m.summary := by
      have a := (hout [[]] rfl).2
      have b := (hout [[], summaryName] rfl).2
      unfold FS.write
      rw [if_pos]
      · simp
      · refine ⟨Or.inr ?_, ?_⟩
        · simpa [a] using hroot
        · simpa [b] using hfree _
    have wr : ∀ (fs : FS) (q q' : Path) (c : Name), q' ≠ q → (fs.write q c).1.file q' = fs.file q' := by
      intro fs q q' c hq; unfold FS.write; split <;> simp [hq]
    have mk : ∀ (fs : FS) (q q' : Path), (fs.mkdir q).file q' = fs.file q' := by
      intro fs q q'; unfold FS.mkdir; split <;> rfl
    have kd : ∀ (l : List Dob) (fs : FS) (q : Path), (kindDirs [[]] l fs).file q = fs.file q := by
      intro l fs q
      unfold kindDirs
      generalize [Kind.graph, .multigraph, .volumeplot, .general] = ks
      induction ks generalizing fs with
      | nil => rfl
      | cons k ks ih =>
        rw [List.foldl_cons, ih]
        unfold mkKind
        cases kindDir k with
        | none => rfl
        | some n =>
          dsimp only
          split
          · exact mk _ _ _
          · rfl
    have wa : ∀ (l : List (Name × Name)) (base : Path) (fs : FS), base.length ≠ 1 → (writeAll fs base l).1.file [[], summaryName] = fs.file [[], summaryName] := by
      intro l base
      induction l with
      | nil => intro fs _; rfl
      | cons x r ih =>
        intro fs hb
        obtain ⟨f, c⟩ := x
        have hne : ([[], summaryName] : Path) ≠ base ++ [f] := by
          intro e; apply hb; have := congrArg List.length e; simp at this; omega
        simp only [writeAll]
        split
        · rw [ih _ hb, wr _ _ _ _ hne]
        · rw [wr _ _ _ _ hne]
    have ou : ∀ (l : List Dob) (s : FS × Bool), (outputs [[]] l s).1.file [[], summaryName] = s.1.file [[], summaryName] := by
      intro l
      induction l with
      | nil => intro s; rfl
      | cons o r ih =>
        intro s
        obtain ⟨fs, ok⟩ := s
        rw [outputs, ih]
        unfold Dob.output
        cases kindDir o.kind with
        | none => rfl
        | some k =>
          dsimp only
          split
          · rfl
          · rw [wa _ _ _ (by simp), mk]
    have gi : ∀ (l : List (Name × Name)) (s : FS × Bool), (∀ x ∈ l, x.1 ≠ summaryName) →
        (given [[]] l s).1.file [[], summaryName] = s.1.file [[], summaryName] := by
      intro l
      induction l with
      | nil => intro s _; rfl
      | cons x r ih =>
        intro s hx
        obtain ⟨fs, ok⟩ := s
        obtain ⟨f, c⟩ := x
        rw [given, ih _ (fun y hy => hx y (List.mem_cons_of_mem _ hy))]
        refine wr _ _ _ _ ?_
        have := hx (f, c) (List.mem_cons_self ..)
        simpa using this.symm
    dsimp only
    have hg1 : ∀ x ∈ m1.files, x.1 ≠ summaryName := by rw [e5]; rw [← e4] at hg; exact hg
    rw [gi _ _ hg1, ou, kd, wr _ _ _ _ (by decide +kernel), hw1]

/-! ## C119: what is written -/

theorem write_file_ne (fs : FS) (q q' : Path) (c : Name) (h : q' ≠ q) : (fs.write q c).1.file q' = fs.file q' := by
  unfold FS.write; split <;> simp [h]

theorem write_ok (fs : FS) (q : Path) (c : Name) (h : (fs.write q c).2 = true) : (fs.write q c).1.file q = some c := by
  unfold FS.write at h ⊢; split <;> simp_all

theorem write_dir (fs : FS) (q : Path) (c : Name) : (fs.write q c).1.dir = fs.dir := by
  unfold FS.write; split <;> rfl

theorem mkdir_file (fs : FS) (q : Path) : (fs.mkdir q).file = fs.file := by
  unfold FS.mkdir; split <;> rfl

theorem kindDirs_file (d : Path) (l : List Dob) (fs : FS) : (kindDirs d l fs).file = fs.file := by
  unfold kindDirs
  generalize [Kind.graph, .multigraph, .volumeplot, .general] = ks
  induction ks generalizing fs with
  | nil => rfl
  | cons k ks ih =>
    rw [List.foldl_cons, ih]
    unfold mkKind
    cases kindDir k with
    | none => rfl
    | some n =>
      dsimp only
      split
      · exact mkdir_file _ _
      · rfl

theorem writeAll_other (base : Path) (l : List (Name × Name)) (fs : FS) (q : Path) (h : ∀ x ∈ l, q ≠ base ++ [x.1]) :
    (writeAll fs base l).1.file q = fs.file q := by
  induction l generalizing fs with
  | nil => rfl
  | cons x r ih =>
    obtain ⟨f, c⟩ := x
    have h1 := h (f, c) (List.mem_cons_self ..)
    simp only [writeAll]
    split
    · rw [ih _ (fun y hy => h y (List.mem_cons_of_mem _ hy)), write_file_ne _ _ _ _ h1]
    · rw [write_file_ne _ _ _ _ h1]

theorem writeAll_ok (base : Path) (l : List (Name × Name)) (fs : FS) (hn : (l.map (·.1)).Nodup) (h : (writeAll fs base l).2 = true)
    (x : Name × Name) (hx : x ∈ l) : (writeAll fs base l).1.file (base ++ [x.1]) = some x.2 := by
  induction l generalizing fs with
  | nil => simp at hx
  | cons y r ih =>
    obtain ⟨f, c⟩ := y
    simp only [writeAll] at h ⊢
    split at h
    · rename_i hok
      rw [if_pos hok]
      rw [List.map_cons, List.nodup_cons] at hn
      rcases List.mem_cons.1 hx with rfl | hx
      · rw [writeAll_other]
        · exact write_ok _ _ _ hok
        · intro y hy e
          apply hn.1
          simp only [List.append_cancel_left_eq, List.cons.injEq, and_true] at e
          exact List.mem_map.2 ⟨y, hy, e.symm⟩
      · exact ih _ hn.2 h hx
    · simp at h

theorem writeAll_dir (base : Path) (l : List (Name × Name)) (fs : FS) : (writeAll fs base l).1.dir = fs.dir := by
  induction l generalizing fs with
  | nil => rfl
  | cons x r ih =>
    obtain ⟨f, c⟩ := x
    simp only [writeAll]
    split
    · rw [ih, write_dir]
    · rw [write_dir]

theorem reached_sub (o : Dob) : ∀ x ∈ o.reached, x ∈ o.files := by
  intro x hx
  unfold Dob.reached at hx
  split at hx
  · exact hx
  · exact List.mem_of_mem_take hx

theorem output_other (d : Path) (o : Dob) (fs : FS) (q : Path)
    (h : ∀ k, kindDir o.kind = some k → ∀ x ∈ o.files, q ≠ d ++ [k, o.sub, x.1]) : (o.output d fs).1.file q = fs.file q := by
  unfold Dob.output
  cases hk : kindDir o.kind with
  | none => rfl
  | some k =>
    dsimp only
    split
    · rfl
    · rw [writeAll_other, mkdir_file]
      intro x hx
      have := h k hk x (reached_sub o x hx)
      simpa using this

theorem kindDir_inj (k k' : Kind) (n : Name) (h : kindDir k = some n) (h' : kindDir k' = some n) : k = k' := by
  rw [← h'] at h
  clear h'
  cases k <;> cases k' <;> first | rfl | (exact absurd h (by decide +kernel))

theorem outputs_false (d : Path) (l : List Dob) (fs : FS) : (outputs d l (fs, false)).2 = false := by
  induction l generalizing fs with
  | nil => rfl
  | cons o r ih => rw [outputs, Bool.false_and, ih]

theorem given_false (d : Path) (l : List (Name × Name)) (fs : FS) : (given d l (fs, false)).2 = false := by
  induction l generalizing fs with
  | nil => rfl
  | cons o r ih => rw [given, Bool.false_and, ih]

theorem outputs_other (d : Path) (l : List Dob) (s : FS × Bool) (q : Path)
    (h : ∀ o ∈ l, ∀ k, kindDir o.kind = some k → ∀ x ∈ o.files, q ≠ d ++ [k, o.sub, x.1]) : (outputs d l s).1.file q = s.1.file q := by
  induction l generalizing s with
  | nil => rfl
  | cons o r ih =>
    obtain ⟨fs, ok⟩ := s
    rw [outputs, ih _ (fun o ho => h o (List.mem_cons_of_mem _ ho)), output_other _ _ _ _ (h o (List.mem_cons_self ..))]

theorem given_other (d : Path) (l : List (Name × Name)) (s : FS × Bool) (q : Path) (h : ∀ x ∈ l, q ≠ d ++ [x.1]) :
    (given d l s).1.file q = s.1.file q := by
  induction l generalizing s with
  | nil => rfl
  | cons x r ih =>
    obtain ⟨fs, ok⟩ := s
    rw [given, ih _ (fun o ho => h o (List.mem_cons_of_mem _ ho)), write_file_ne _ _ _ _ (h x (List.mem_cons_self ..))]

theorem given_ok (d : Path) (l : List (Name × Name)) (s : FS × Bool) (hn : (l.map (·.1)).Nodup) (h : (given d l s).2 = true)
    (x : Name × Name) (hx : x ∈ l) : (given d l s).1.file (d ++ [x.1]) = some x.2 := by
  induction l generalizing s with
  | nil => simp at hx
  | cons y r ih =>
    obtain ⟨fs, ok⟩ := s
    obtain ⟨f, c⟩ := y
    rw [given] at h ⊢
    rw [List.map_cons, List.nodup_cons] at hn
    rcases List.mem_cons.1 hx with rfl | hx
    · rw [given_other]
      · apply write_ok
        cases hw : (fs.write (d ++ [f]) c).2 with
        | true => rfl
        | false => rw [hw, Bool.and_false, given_false] at h; simp at h
      · intro y hy e
        apply hn.1
        simp only [List.append_cancel_left_eq, List.cons.injEq, and_true] at e
        exact List.mem_map.2 ⟨y, hy, e.symm⟩
    · exact ih _ hn.2 h hx

theorem outputs_ok (d : Path) (l : List Dob) (s : FS × Bool) (h : (outputs d l s).2 = true)
    (hp : l.Pairwise fun a b => (a.kind, a.sub) ≠ (b.kind, b.sub)) (o : Dob) (ho : o ∈ l) (hs : o.skip = false) (ht : o.throwsAt = none)
    (hn : (o.files.map (·.1)).Nodup) (k : Name) (hk : kindDir o.kind = some k) (x : Name × Name) (hx : x ∈ o.files) :
    (outputs d l s).1.file (d ++ [k, o.sub, x.1]) = some x.2 := by
  induction l generalizing s with
  | nil => simp at ho
  | cons y r ih =>
    obtain ⟨fs, ok⟩ := s
    rw [outputs] at h ⊢
    rw [List.pairwise_cons] at hp
    rcases List.mem_cons.1 ho with rfl | ho
    · rw [outputs_other]
      · have hok : (o.output d fs).2 = true := by
          cases hw : (o.output d fs).2 with
          | true => rfl
          | false => rw [hw, Bool.and_false, outputs_false] at h; simp at h
        have hre : o.reached = o.files := by simp [Dob.reached, ht]
        simp only [Dob.output, hk, hs, hre, Bool.false_eq_true, if_false] at hok ⊢
        have := writeAll_ok _ _ _ hn hok x hx
        simpa using this
      · intro o' ho' k' hk' x' hx' e
        simp only [List.append_cancel_left_eq, List.cons.injEq, and_true] at e
        obtain ⟨e1, e2, -⟩ := e
        subst e1
        apply hp.1 o' ho'
        rw [kindDir_inj _ _ _ hk hk', e2]
    · exact ih _ h hp.2 ho

/-- If writing the results to the directory `d` reports success, and no data object throws an exception, no two data objects have the same
kind and directory name, and no two given files the same name, then every data object of a kind with a directory that has something to
write has all its files, with their full contents, in its own directory below `d`, and so have the given files.
Missing: objects of the same name (see `C119_negation_same_name`), objects of the kind `MULTIBIN` (see `C119_negation_multibin`),
exceptions (see `C119_negation_exception`), the summary itself (see `C119_negation_summary`). -/
theorem C119_written_partial (auto d : Name) (m m' : DM) (objs : List Dob) (hobj : m.objs = objs.map some)
    (h : m.writeTo auto d = some (m', true)) (hp : objs.Pairwise fun a b => (a.kind, a.sub) ≠ (b.kind, b.sub))
    (hg : (m.files.map (·.1)).Nodup) :
    (∀ o ∈ objs, o.skip = false → o.throwsAt = none → (o.files.map (·.1)).Nodup → ∀ k, kindDir o.kind = some k →
      ∀ x ∈ o.files, m'.fs.file (pathOf d ++ [k, o.sub, x.1]) = some x.2) ∧
    ∀ x ∈ m.files, m'.fs.file (pathOf d ++ [x.1]) = some x.2 := by
  unfold DM.writeTo at h
  have e1 : ((m.setWriteDirectory d).create auto).objs = objs.map some := by
    rw [(create_rest auto _).1, (setWriteDirectory_rest m d).2.1, hobj]
  have e2 : ((m.setWriteDirectory d).create auto).files = m.files := by
    rw [(create_rest auto _).2.1, (setWriteDirectory_rest m d).2.2]
  have e3 : (objs.map some).mapM id = some objs := by
    clear * -
    induction objs with
    | nil => rfl
    | cons o r ih => simp [List.mapM_cons, ih]
  dsimp only at h
  rw [e1, e2, e3] at h
  simp only [Option.some.injEq, Prod.mk.injEq] at h
  obtain ⟨rfl, hok⟩ := h
  dsimp only
  refine ⟨?_, fun x hx => given_ok _ _ _ hg hok x hx⟩
  intro o ho hs ht hn k hk x hx
  rw [given_other]
  · refine outputs_ok _ _ _ ?_ hp o ho hs ht hn k hk x hx
    generalize outputs (pathOf d) objs _ = s at hok
    obtain ⟨fs, b⟩ := s
    cases b
    · rw [given_false] at hok; simp at hok
    · rfl
  · intro y _ e
    simp at e

example : ∃ r, dm0.writeTo [] "a".toList = some r ∧ r.2 = true := ⟨_, rfl, by decide +kernel⟩

/-- Two data objects of the same name write to the same place: when all writes succeed the data of the first one is nowhere in its file,
which holds the data of the second one. This holds for all names and data. -/
theorem C119_negation_same_name (auto d n a b x y : Name) (m m' : DM) (hobj : m.objs = [some (graphDob n a x), some (graphDob n b y)])
    (hb : b ≠ []) (hab : a ≠ b) (hax : counted n ++ ['.', 'c', 's', 'v'] ≠ ['a', 'x', 'e', 's', '.', 'c', 's', 'v'])
    (h : m.writeTo auto d = some (m', true)) (k f : Name) (hk : kindDir .graph = some k) (hf : f = counted n ++ ['.', 'c', 's', 'v']) :
    m'.fs.file (pathOf d ++ [k, counted n, f]) = some b ∧ m'.fs.file (pathOf d ++ [k, counted n, f]) ≠ some a := by
  suffices hh : m'.fs.file (pathOf d ++ [k, counted n, f]) = some b by
    refine ⟨hh, ?_⟩
    rw [hh]; simpa using hab.symm
  subst hf
  unfold DM.writeTo at h
  have e1 : ((m.setWriteDirectory d).create auto).objs = [some (graphDob n a x), some (graphDob n b y)] := by
    rw [(create_rest auto _).1, (setWriteDirectory_rest m d).2.1, hobj]
  have e3 : [some (graphDob n a x), some (graphDob n b y)].mapM id = some [graphDob n a x, graphDob n b y] := rfl
  dsimp only at h
  rw [e1, e3] at h
  simp only [Option.some.injEq, Prod.mk.injEq] at h
  obtain ⟨rfl, hok⟩ := h
  dsimp only
  rw [given_other]
  · generalize hs0 : (kindDirs (pathOf d) [graphDob n a x, graphDob n b y] _, true) = s0 at hok ⊢
    obtain ⟨fs, b0⟩ := s0
    rw [outputs] at hok ⊢
    generalize hs1 : ((graphDob n a x).output (pathOf d) fs).1 = fs1 at hok ⊢
    generalize (b0 && ((graphDob n a x).output (pathOf d) fs).2) = b1 at hok ⊢
    refine outputs_ok (pathOf d) [graphDob n b y] (fs1, b1) ?_ (List.pairwise_singleton _ _) _ (List.mem_singleton.2 rfl) ?_ rfl ?_ k hk
      (counted n ++ ['.', 'c', 's', 'v'], b) (by simp [graphDob])
    · generalize outputs (pathOf d) [graphDob n b y] (fs1, b1) = s at hok
      obtain ⟨fs, b⟩ := s
      cases b
      · rw [given_false] at hok; simp at hok
      · rfl
    · simpa [graphDob] using hb
    · simpa [graphDob] using hax
  · intro y _ e
    simp at e

/-- The data master with two graph objects of the same name. -/
def dm2 : DM := { dm0 with objs := [some (graphDob ['K', 'E'] ['0', ',', '1'] []), some (graphDob ['K', 'E'] ['0', ',', '2'] [])] }

example : ∃ r, dm2.writeTo [] "a".toList = some r ∧ r.2 = true ∧
    r.1.fs.file (pathOf "a".toList ++ ["graph".toList, counted ['K', 'E'], "KE-1.csv".toList]) = some ['0', ',', '2'] :=
  ⟨_, rfl, by decide +kernel, by decide +kernel⟩

/-- A data object of the kind `MULTIBIN` writes nothing, and this is not reported: its output leaves the file system as it is and counts as a
success. -/
theorem C119_negation_multibin (o : Dob) (h : o.kind = .multibin) (d : Path) (fs : FS) : o.output d fs = (fs, true) := by
  simp [Dob.output, h, kindDir]

example : (⟨.multibin, [], [([], [])], false, none⟩ : Dob).kind = .multibin := rfl

/-- A data object that throws an exception before its first file writes no file, and this is not reported. -/
theorem C119_negation_exception (o : Dob) (h : o.throwsAt = some 0) (d : Path) (fs : FS) :
    (o.output d fs).2 = true ∧ (o.output d fs).1.file = fs.file := by
  unfold Dob.output
  cases kindDir o.kind with
  | none => exact ⟨rfl, rfl⟩
  | some k =>
    dsimp only
    split
    · exact ⟨rfl, rfl⟩
    · simp [Dob.reached, h, writeAll, mkdir_file]

example : (⟨.graph, [], [([], [])], false, some 0⟩ : Dob).throwsAt = some 0 := rfl

/-- If the directory above the output directory does not exist, nothing at all is written; without data objects that have something to
write and without given files, success is reported all the same. -/
theorem C119_negation_summary (auto d : Name) (m m' : DM) (ok : Bool) (hs : ' ' ∉ d) (h0 : d ≠ []) (hnew : m.writeDir ≠ d)
    (hobj : m.objs = []) (hg : m.files = []) (hpar : ¬ m.fs.parent (pathOf d)) (h : m.writeTo auto d = some (m', ok)) :
    ok = true ∧ ∀ q, pathOf d <+: q → m'.fs.file q = none := by
  have e0 : m.setWriteDirectory d = { m with writeDir := d, created := false } := by simp [DM.setWriteDirectory, hnew]
  have e1 : (m.setWriteDirectory d).create auto = { m with writeDir := d, created := true, fs := m.fs.rmrf (pathOf d) } := by
    rw [e0, create_simple _ _ hs h0]
    simp only [Bool.false_eq_true, if_false]
    rw [FS.mkdir, if_neg]
    rintro ⟨hp, -⟩
    apply hpar
    rcases hp with hp | hp
    · exact Or.inl hp
    · right
      simp only [FS.rmrf] at hp
      split at hp
      · simp at hp
      · exact hp
  unfold DM.writeTo at h
  rw [e1] at h
  simp only [hobj, hg, List.mapM_nil] at h
  have hw : ∀ n c, (m.fs.rmrf (pathOf d)).write (pathOf d ++ [n]) c = (m.fs.rmrf (pathOf d), false) := by
    intro n c
    rw [FS.write, if_neg]
    rintro ⟨hp, -⟩
    rcases hp with hp | hp
    · have : pathOf d ≠ [] := by
        intro e; apply hpar; left; rw [e]; simp
      simp at hp
      exact this hp
    · rw [List.dropLast_concat] at hp
      simp [FS.rmrf] at hp
  rw [hw, hw] at h
  obtain ⟨rfl, rfl⟩ : _ ∧ _ := by simpa [given, outputs, pure] using h
  refine ⟨rfl, ?_⟩
  intro q hq
  have : (kindDirs (pathOf d) [] (m.fs.rmrf (pathOf d))).file q = none := by
    rw [kindDirs_file]; simp [FS.rmrf, hq]
  simpa [given, outputs] using this

example : ¬ fs0.parent (pathOf "b/x".toList) := by decide +kernel

/-- A directory that is newly created contains, after the write, only files that this write has produced: the summary, the log, the given files
and the files of data objects; nothing of an earlier run is left. -/
theorem C119_no_stale (auto d : Name) (m m' : DM) (ok : Bool) (objs : List Dob) (hobj : m.objs = objs.map some) (hs : ' ' ∉ d) (h0 : d ≠ [])
    (hnew : m.writeDir ≠ d ∨ m.created = false) (h : m.writeTo auto d = some (m', ok)) (q : Path) (hq : pathOf d <+: q)
    (hf : m'.fs.file q ≠ none) :
    q = pathOf d ++ [summaryName] ∨ q = pathOf d ++ [logName] ∨ (∃ x ∈ m.files, q = pathOf d ++ [x.1]) ∨
      ∃ o ∈ objs, ∃ k, kindDir o.kind = some k ∧ ∃ x ∈ o.files, q = pathOf d ++ [k, o.sub, x.1] := by
  by_contra hcon
  push Not at hcon
  obtain ⟨h1, h2, h3, h4⟩ := hcon
  apply hf
  unfold DM.writeTo at h
  have e1 : ((m.setWriteDirectory d).create auto).objs = objs.map some := by
    rw [(create_rest auto _).1, (setWriteDirectory_rest m d).2.1, hobj]
  have e2 : ((m.setWriteDirectory d).create auto).files = m.files := by
    rw [(create_rest auto _).2.1, (setWriteDirectory_rest m d).2.2]
  have e3 : (objs.map some).mapM id = some objs := by
    clear * -
    induction objs with
    | nil => rfl
    | cons o r ih => simp [List.mapM_cons, ih]
  have hc : (m.setWriteDirectory d).created = false := by
    unfold DM.setWriteDirectory
    split
    · rfl
    · rename_i hh; rcases hnew with hnew | hnew
      · exact absurd hnew hh
      · exact hnew
  have e4 : ((m.setWriteDirectory d).create auto).fs.file q = none := by
    rw [create_simple _ _ (by rwa [setWriteDirectory_dir]) (by rwa [setWriteDirectory_dir]), hc]
    simp only [Bool.false_eq_true, if_false]
    rw [mkdir_file, setWriteDirectory_dir]
    simp [FS.rmrf, hq]
  dsimp only at h
  rw [e1, e2, e3] at h
  simp only [Option.some.injEq, Prod.mk.injEq] at h
  obtain ⟨rfl, -⟩ := h
  dsimp only
  rw [given_other _ _ _ _ h3, outputs_other _ _ _ _ h4, kindDirs_file, write_file_ne _ _ _ _ h2, write_file_ne _ _ _ _ h1, e4]

example : ∃ r, dm0.writeTo [] "k".toList = some r ∧ r.1.fs.file [['k'], ['d']] = none := ⟨_, rfl, by decide +kernel⟩

theorem splitAt_ne (c : Char) (s : Name) : splitAt c s ≠ [] := by
  cases s with
  | nil => simp [splitAt]
  | cons x xs =>
    unfold splitAt
    split
    · simp
    · split <;> simp

theorem pathOf_ne (s : Name) : pathOf s ≠ [] := by
  unfold pathOf
  cases h : splitAt '/' s with
  | nil => exact absurd h (splitAt_ne _ _)
  | cons w ws => simp

/-- What holds of a freshly created directory while it is filled. -/
structure Fresh (d : Path) (fs : FS) : Prop where
  top : fs.dir d = true
  file : ∀ q, d <+: q → fs.file q ≠ none → q = d ++ [summaryName] ∨ q = d ++ [logName] ∨ q.length = d.length + 3
  dir : ∀ q, d <+: q → fs.dir q = true → q = d ∨ (∃ k n, kindDir k = some n ∧ q = d ++ [n]) ∨ q.length = d.length + 2

theorem kindDir_names (k : Kind) (n : Name) (h : kindDir k = some n) : n ≠ summaryName ∧ n ≠ logName := by
  cases k <;> first | (simp only [kindDir, Option.some.injEq] at h; subst h; decide +kernel) | simp [kindDir] at h

theorem Fresh.write {d : Path} {fs : FS} (h : Fresh d fs) (n c : Name) (hn : n = summaryName ∨ n = logName) :
    Fresh d (fs.write (d ++ [n]) c).1 ∧ (fs.write (d ++ [n]) c).2 = true := by
  have hd : fs.dir (d ++ [n]) = false := by
    cases hh : fs.dir (d ++ [n]) with
    | false => rfl
    | true =>
      rcases h.dir _ (List.prefix_append _ _) hh with e | ⟨k, n', hk, e⟩ | e
      · simp at e
      · simp only [List.append_cancel_left_eq, List.cons.injEq, and_true] at e
        obtain ⟨a, b⟩ := kindDir_names k n' hk
        subst e
        rcases hn with hn | hn
        · exact absurd hn a
        · exact absurd hn b
      · simp at e
  have hp : fs.parent (d ++ [n]) := by right; rw [List.dropLast_concat]; exact h.top
  refine ⟨⟨by rw [write_dir]; exact h.top, ?_, by rw [write_dir]; exact h.dir⟩, by rw [FS.write, if_pos ⟨hp, hd⟩]⟩
  intro q hq hf
  by_cases e : q = d ++ [n]
  · rcases hn with rfl | rfl
    · exact Or.inl e
    · exact Or.inr (Or.inl e)
  · rw [write_file_ne _ _ _ _ e] at hf
    exact h.file q hq hf

theorem Fresh.mkKind {d : Path} {fs : FS} (h : Fresh d fs) (l : List Dob) (k : Kind) :
    Fresh d (mkKind d l fs k) ∧ (∀ q, fs.dir q = true → (RunDirectory.mkKind d l fs k).dir q = true) ∧
    ((∃ o ∈ l, o.kind = k) → ∀ n, kindDir k = some n → (RunDirectory.mkKind d l fs k).dir (d ++ [n]) = true) := by
  unfold RunDirectory.mkKind
  cases hk : kindDir k with
  | none => exact ⟨h, fun q hq => hq, fun _ n hn => by simp at hn⟩
  | some n =>
    dsimp only
    split
    · have hp : fs.parent (d ++ [n]) := by right; rw [List.dropLast_concat]; exact h.top
      have hf : fs.file (d ++ [n]) = none := by
        by_contra hf
        rcases h.file _ (List.prefix_append _ _) hf with e | e | e
        · simp only [List.append_cancel_left_eq, List.cons.injEq, and_true] at e; exact (kindDir_names k n hk).1 e
        · simp only [List.append_cancel_left_eq, List.cons.injEq, and_true] at e; exact (kindDir_names k n hk).2 e
        · simp at e
      rw [FS.mkdir, if_pos ⟨hp, hf⟩]
      refine ⟨⟨?_, h.file, ?_⟩, ?_, ?_⟩
      · dsimp only; split
        · rfl
        · exact h.top
      · intro q hq hd
        dsimp only at hd
        split at hd
        · rename_i e; exact Or.inr (Or.inl ⟨k, n, hk, e⟩)
        · exact h.dir q hq hd
      · intro q hq; dsimp only; split
        · rfl
        · exact hq
      · intro _ n' hn'
        simp at hn'; subst hn'; simp
    · rename_i hno
      refine ⟨h, fun q hq => hq, ?_⟩
      rintro ⟨o, ho, hok⟩
      exfalso; apply hno
      rw [List.any_eq_true]
      exact ⟨o, ho, by simpa using hok⟩

theorem Fresh.kindDirs {d : Path} {fs : FS} (h : Fresh d fs) (l : List Dob) : Fresh d (kindDirs d l fs) ∧
    ∀ o ∈ l, ∀ n, kindDir o.kind = some n → (RunDirectory.kindDirs d l fs).dir (d ++ [n]) = true := by
  have key : ∀ (ks : List Kind) (fs : FS), Fresh d fs → Fresh d (ks.foldl (RunDirectory.mkKind d l) fs) ∧
      (∀ q, fs.dir q = true → (ks.foldl (RunDirectory.mkKind d l) fs).dir q = true) ∧
      ∀ o ∈ l, o.kind ∈ ks → ∀ n, kindDir o.kind = some n → (ks.foldl (RunDirectory.mkKind d l) fs).dir (d ++ [n]) = true := by
    intro ks
    induction ks with
    | nil => intro fs h; exact ⟨h, fun q hq => hq, fun o _ ho => by simp at ho⟩
    | cons k ks ih =>
      intro fs h
      obtain ⟨a1, a2, a3⟩ := h.mkKind l k
      obtain ⟨b1, b2, b3⟩ := ih _ a1
      refine ⟨b1, fun q hq => b2 q (a2 q hq), ?_⟩
      intro o ho hk n hn
      rcases List.mem_cons.1 hk with hk | hk
      · exact b2 _ (a3 ⟨o, ho, hk⟩ n (by rw [← hk]; exact hn))
      · exact b3 o ho hk n hn
  obtain ⟨c1, -, c3⟩ := key [Kind.graph, .multigraph, .volumeplot, .general] fs h
  refine ⟨c1, ?_⟩
  intro o ho n hn
  refine c3 o ho ?_ n hn
  cases hk : o.kind <;> simp [hk, kindDir] at hn ⊢

theorem Fresh.writeAll {d : Path} (base : Path) (hb : d <+: base) (hl : base.length = d.length + 2) (l : List (Name × Name)) {fs : FS}
    (h : Fresh d fs) (hd : fs.dir base = true) : Fresh d (writeAll fs base l).1 ∧ (RunDirectory.writeAll fs base l).2 = true := by
  induction l generalizing fs with
  | nil => exact ⟨h, rfl⟩
  | cons x r ih =>
    obtain ⟨f, c⟩ := x
    have hp : fs.parent (base ++ [f]) := by right; rw [List.dropLast_concat]; exact hd
    have hn : fs.dir (base ++ [f]) = false := by
      cases hh : fs.dir (base ++ [f]) with
      | false => rfl
      | true =>
        rcases h.dir _ (hb.trans (List.prefix_append _ _)) hh with e | ⟨k, n', -, e⟩ | e
        · have := congrArg List.length e; simp at this; omega
        · have := congrArg List.length e; simp at this; omega
        · simp at e; omega
    have hw : fs.write (base ++ [f]) c = ({ fs with file := fun q => if q = base ++ [f] then some c else fs.file q }, true) := by
      rw [FS.write, if_pos ⟨hp, hn⟩]
    simp only [RunDirectory.writeAll, hw, if_true]
    apply ih
    · refine ⟨h.top, ?_, h.dir⟩
      intro q hq hf
      dsimp only at hf
      split at hf
      · rename_i e; right; right; rw [e]; simp; omega
      · exact h.file q hq hf
    · exact hd

theorem Fresh.output {d : Path} {fs : FS} (h : Fresh d fs) (o : Dob) (hd : ∀ n, kindDir o.kind = some n → fs.dir (d ++ [n]) = true) :
    Fresh d (o.output d fs).1 ∧ (o.output d fs).2 = true ∧ ∀ q, fs.dir q = true → (o.output d fs).1.dir q = true := by
  unfold Dob.output
  cases hk : kindDir o.kind with
  | none => exact ⟨h, rfl, fun q hq => hq⟩
  | some k =>
    dsimp only
    split
    · exact ⟨h, rfl, fun q hq => hq⟩
    · have hp : fs.parent (d ++ [k, o.sub]) := by
        right
        have : d ++ [k, o.sub] = (d ++ [k]) ++ [o.sub] := by simp
        rw [this, List.dropLast_concat]
        exact hd k hk
      have hf : fs.file (d ++ [k, o.sub]) = none := by
        by_contra hf
        rcases h.file _ (List.prefix_append _ _) hf with e | e | e
        · simp at e
        · simp at e
        · simp at e
      have hm : fs.mkdir (d ++ [k, o.sub]) = { fs with dir := fun q => if q = d ++ [k, o.sub] then true else fs.dir q } := by
        rw [FS.mkdir, if_pos ⟨hp, hf⟩]
      have hfr : Fresh d (fs.mkdir (d ++ [k, o.sub])) := by
        rw [hm]
        refine ⟨?_, h.file, ?_⟩
        · dsimp only; split
          · rfl
          · exact h.top
        · intro q hq hd
          dsimp only at hd
          split at hd
          · rename_i e; right; right; rw [e]; simp
          · exact h.dir q hq hd
      obtain ⟨a, b⟩ := hfr.writeAll (d ++ [k, o.sub]) (List.prefix_append _ _) (by simp) o.reached (by rw [hm]; simp)
      refine ⟨a, b, ?_⟩
      intro q hq
      rw [writeAll_dir, hm]
      dsimp only
      split
      · rfl
      · exact hq

theorem Fresh.outputs {d : Path} (l : List Dob) {fs : FS} (h : Fresh d fs)
    (hd : ∀ o ∈ l, ∀ n, kindDir o.kind = some n → fs.dir (d ++ [n]) = true) :
    Fresh d (outputs d l (fs, true)).1 ∧ (RunDirectory.outputs d l (fs, true)).2 = true := by
  induction l generalizing fs with
  | nil => exact ⟨h, rfl⟩
  | cons o r ih =>
    obtain ⟨a, b, c⟩ := h.output o (hd o (List.mem_cons_self ..))
    rw [RunDirectory.outputs, b]
    exact ih a (fun o' ho' n hn => c _ (hd o' (List.mem_cons_of_mem _ ho') n hn))

theorem Fresh.given {d : Path} (l : List (Name × Name)) {fs : FS} (htop : fs.dir d = true) (hn : ∀ x ∈ l, fs.dir (d ++ [x.1]) = false) :
    (given d l (fs, true)).2 = true := by
  induction l generalizing fs with
  | nil => rfl
  | cons x r ih =>
    obtain ⟨f, c⟩ := x
    have hp : fs.parent (d ++ [f]) := by right; rw [List.dropLast_concat]; exact htop
    have hw : (fs.write (d ++ [f]) c).2 = true := by rw [FS.write, if_pos ⟨hp, hn _ (List.mem_cons_self ..)⟩]
    rw [RunDirectory.given, hw]
    apply ih
    · rw [write_dir]; exact htop
    · intro x hx; rw [write_dir]; exact hn x (List.mem_cons_of_mem _ hx)

/-- Writing to a new output directory (a name without spaces, the directory above it exists) succeeds whatever the data objects are, as long as
none of the given files is called like one of the directories of the kinds; the summary and the log are there unless a given file has
their name. -/
theorem C119_success (auto d : Name) (m m' : DM) (ok : Bool) (objs : List Dob) (hobj : m.objs = objs.map some) (hs : ' ' ∉ d) (h0 : d ≠ [])
    (hnew : m.writeDir ≠ d ∨ m.created = false) (hpar : m.fs.parent (pathOf d))
    (hg : ∀ x ∈ m.files, ∀ k, kindDir k ≠ some x.1) (h : m.writeTo auto d = some (m', ok)) :
    ok = true ∧ ((∀ x ∈ m.files, x.1 ≠ summaryName) → m'.fs.file (pathOf d ++ [summaryName]) = some m.summary) ∧
    ((∀ x ∈ m.files, x.1 ≠ logName) → m'.fs.file (pathOf d ++ [logName]) = some m.log) := by
  unfold DM.writeTo at h
  have e1 : ((m.setWriteDirectory d).create auto).objs = objs.map some := by
    rw [(create_rest auto _).1, (setWriteDirectory_rest m d).2.1, hobj]
  have e2 : ((m.setWriteDirectory d).create auto).files = m.files := by
    rw [(create_rest auto _).2.1, (setWriteDirectory_rest m d).2.2]
  have e3 : (objs.map some).mapM id = some objs := by
    clear * -
    induction objs with
    | nil => rfl
    | cons o r ih => simp [List.mapM_cons, ih]
  have hc : (m.setWriteDirectory d).created = false := by
    unfold DM.setWriteDirectory
    split
    · rfl
    · rename_i hh; rcases hnew with hnew | hnew
      · exact absurd hnew hh
      · exact hnew
  have hfr : Fresh (pathOf d) ((m.setWriteDirectory d).create auto).fs := by
    rw [create_simple _ _ (by rwa [setWriteDirectory_dir]) (by rwa [setWriteDirectory_dir]), hc]
    simp only [Bool.false_eq_true, if_false]
    rw [setWriteDirectory_dir, (setWriteDirectory_rest m d).1]
    have hp : (m.fs.rmrf (pathOf d)).parent (pathOf d) := by
      rcases hpar with hp | hp
      · exact Or.inl hp
      · right
        rw [FS.rmrf]
        dsimp only
        rw [if_neg]
        · exact hp
        · intro e
          have := e.length_le
          have := List.length_pos_of_ne_nil (pathOf_ne d)
          simp at *
          omega
    have hf : (m.fs.rmrf (pathOf d)).file (pathOf d) = none := by simp [FS.rmrf]
    rw [FS.mkdir, if_pos ⟨hp, hf⟩]
    refine ⟨by simp, ?_, ?_⟩
    · intro q hq hf
      exact absurd (by simp [FS.rmrf, hq]) hf
    · intro q hq hd
      dsimp only at hd
      split at hd
      · rename_i e; exact Or.inl e
      · simp [FS.rmrf, hq] at hd
  dsimp only at h
  rw [e1, e2, e3] at h
  simp only [Option.some.injEq, Prod.mk.injEq] at h
  obtain ⟨rfl, rfl⟩ := h
  obtain ⟨a1, a2⟩ := hfr.write summaryName m.summary (Or.inl rfl)
  obtain ⟨b1, b2⟩ := a1.write logName m.log (Or.inr rfl)
  obtain ⟨c1, c2⟩ := b1.kindDirs objs
  obtain ⟨d1, d2⟩ := c1.outputs objs c2
  have hne : pathOf d ++ [summaryName] ≠ pathOf d ++ [logName] := by
    intro e
    simp only [List.append_cancel_left_eq, List.cons.injEq, and_true] at e
    exact absurd e (by decide +kernel)
  refine ⟨?_, ?_, ?_⟩
  · generalize RunDirectory.outputs (pathOf d) objs _ = s at d1 d2 ⊢
    obtain ⟨fs, b⟩ := s
    dsimp only at d2 d1
    rw [d2]
    refine Fresh.given _ d1.top ?_
    intro x hx
    cases hh : fs.dir (pathOf d ++ [x.1]) with
    | false => rfl
    | true =>
      rcases d1.dir _ (List.prefix_append _ _) hh with e | ⟨k, n', hk, e⟩ | e
      · simp at e
      · simp only [List.append_cancel_left_eq, List.cons.injEq, and_true] at e
        exact absurd (by rw [hk, e]) (hg x hx k)
      · simp at e
  · intro hx
    dsimp only
    rw [given_other, outputs_other, kindDirs_file, write_file_ne _ _ _ _ hne, write_ok _ _ _ a2]
    · intro o _ k _ x _ e; simp at e
    · intro x hx' e
      simp only [List.append_cancel_left_eq, List.cons.injEq, and_true] at e
      exact hx x hx' e.symm
  · intro hx
    dsimp only
    rw [given_other, outputs_other, kindDirs_file, write_ok _ _ _ b2]
    · intro o _ k _ x _ e; simp at e
    · intro x hx' e
      simp only [List.append_cancel_left_eq, List.cons.injEq, and_true] at e
      exact hx x hx' e.symm

example : ' ' ∉ "a".toList ∧ dm0.writeDir ≠ "a".toList ∧ dm0.fs.parent (pathOf "a".toList) ∧
    ∀ x ∈ dm0.files, ∀ k, kindDir k ≠ some x.1 := by
  refine ⟨by decide +kernel, by decide +kernel, by decide +kernel, ?_⟩
  intro x hx k
  simp only [dm0, List.mem_singleton] at hx
  subst hx
  cases k <;> decide +kernel

/-- A write to the directory that is already in use (the same name as before) deletes nothing: every file that is not written again stays, so
that checkpoints survive the final write. -/
theorem C119_keeps (auto d : Name) (m m' : DM) (ok : Bool) (objs : List Dob) (hobj : m.objs = objs.map some) (hd : m.writeDir = d)
    (hc : m.created = true) (h : m.writeTo auto d = some (m', ok)) (q : Path)
    (h1 : q ≠ pathOf d ++ [summaryName]) (h2 : q ≠ pathOf d ++ [logName]) (h3 : ∀ x ∈ m.files, q ≠ pathOf d ++ [x.1])
    (h4 : ∀ o ∈ objs, ∀ k, kindDir o.kind = some k → ∀ x ∈ o.files, q ≠ pathOf d ++ [k, o.sub, x.1]) :
    m'.fs.file q = m.fs.file q := by
  unfold DM.writeTo at h
  have e0 : (m.setWriteDirectory d).create auto = m := by
    simp [DM.setWriteDirectory, hd, DM.create, hc]
  have e3 : (objs.map some).mapM id = some objs := by
    clear * -
    induction objs with
    | nil => rfl
    | cons o r ih => simp [List.mapM_cons, ih]
  dsimp only at h
  rw [e0, hobj, e3] at h
  simp only [Option.some.injEq, Prod.mk.injEq] at h
  obtain ⟨rfl, -⟩ := h
  dsimp only
  rw [given_other _ _ _ _ h3, outputs_other _ _ _ _ h4, kindDirs_file, write_file_ne _ _ _ _ h2, write_file_ne _ _ _ _ h1]

example : ({ dm0 with writeDir := ['k'], created := true } : DM).created = true := rfl

/-- Writing to a directory above an earlier output directory, or again to an earlier one after another, deletes the earlier output: when the
name differs from the last one, every file below the directory is gone before anything is written. -/
theorem C120_returning (auto d : Name) (m : DM) (hs : ' ' ∉ d) (h0 : d ≠ []) (hnew : m.writeDir ≠ d) (q : Path) (hq : pathOf d <+: q) :
    ((m.setWriteDirectory d).create auto).fs.file q = none := by
  have e0 : m.setWriteDirectory d = { m with writeDir := d, created := false } := by simp [DM.setWriteDirectory, hnew]
  rw [e0, create_simple _ _ hs h0]
  simp only [Bool.false_eq_true, if_false]
  rw [mkdir_file]
  simp [FS.rmrf, hq]

example : dm0.writeDir ≠ ['k'] := by decide +kernel

/-- Without a chosen directory, `writeToDirectory()` makes one with the random name `auto`, writes there, and changes nothing elsewhere. -/
theorem C120_auto (auto : Name) (m m' : DM) (ok : Bool) (ha : ' ' ∉ auto) (ha0 : auto ≠ []) (hw : m.writeDir = []) (hc : m.created = false)
    (h : m.write auto = some (m', ok)) :
    m'.writeDir = auto ∧ ∀ q, ¬ pathOf auto <+: q → m'.fs.file q = m.fs.file q ∧ m'.fs.dir q = m.fs.dir q := by
  have e0 : m.create auto = { m with writeDir := auto, fs := (m.fs.rmrf (pathOf auto)).mkdir (pathOf auto), created := true } := by
    have hne : ([] : Name) ≠ auto := fun e => ha0 e.symm
    unfold DM.create DM.setWriteDirectory
    rw [hw, hc]
    simp only [Bool.false_eq_true, if_false, if_true, ne_eq, hne, not_false_eq_true]
    rw [words_simple _ ha ha0]
    rfl
  unfold DM.write at h
  rw [e0] at h
  dsimp only at h
  refine ⟨?_, ?_⟩
  · unfold DM.writeTo at h
    dsimp only at h
    split at h
    · simp at h
    · simp only [Option.some.injEq, Prod.mk.injEq] at h
      obtain ⟨rfl, -⟩ := h
      dsimp only
      simp [DM.setWriteDirectory, DM.create]
  · intro q hq
    obtain ⟨a, b⟩ := C120_only_directory_partial auto auto _ m' ok ha ha0 h q hq
    obtain ⟨a', b'⟩ := ((mkdir_outside (m.fs.rmrf (pathOf auto)) _ _ (List.prefix_refl _)).trans (rmrf_outside m.fs (pathOf auto))) q hq
    exact ⟨a.trans a', b.trans b'⟩

example : ∃ r, dm0.write "auto-dir-7".toList = some r ∧ r.2 = true ∧ r.1.fs.file ["auto-dir-7".toList, summaryName] = some ['s'] :=
  ⟨_, rfl, by decide +kernel, by decide +kernel⟩

end Verif.RunDirectory
