import Verif.Data.StoreLoad
import Mathlib.Data.List.Basic
import Mathlib.Data.List.TakeWhile
import Mathlib.Algebra.Order.Field.Rat
import Mathlib.Tactic.Linarith
import Mathlib.Tactic.NormNum
import Mathlib.Tactic.FieldSimp
import Mathlib.Tactic.Ring
import Mathlib.Tactic.Positivity
import Mathlib.Algebra.Order.Field.Basic

/-!
# Result tables can be read back (C177)

Models the text that the data objects write to their files: `GraphObject::writeToFile`, `MultiGraphData::write_to_file`, `PercolationData::writeToFile`, and the helpers of
`utility/printingutility.hpp` and `printingutility.cpp`; and the columns of the run summary (`base/datamaster.cpp`). A file is its text. How the library writes a number is a
parameter `sh`.
-/

namespace Verif.Tables

open Verif.StoreLoad (showN dch)

section model
variable {F : Type} (sh : F → List Char)

/-- `for (auto v : data) fout << v.first << "," << v.second << endl`, `dataobjects/dataobjecttypes/graphobject.cpp:76-77`. -/
def graphText (data : List (F × F)) : List Char := data.flatMap fun v => sh v.1 ++ ',' :: (sh v.2 ++ ['\n'])

/-- The file of axis labels of a graph, `dataobjects/dataobjecttypes/graphobject.cpp:79-82`. -/
def graphAxes (ax ay : List Char) : List Char := ax ++ '\n' :: (ay ++ ['\n'])

/-- One pass of the inner loop of `MultiGraphData::write_to_file`, `dataobjects/dataobjecttypes/data-base/multigraphdata.cpp:38-44`: column `j` of record `i`; `none`: an access outside a vector. -/
def multiCell (data : List (List F)) (write : List Bool) (i j : ℕ) : Option (List Char) :=
  if j = 0 then (data[0]?.bind fun c => c[i]?).map sh
  else match write[j - 1]? with
    | none => none
    | some false => some []
    | some true => (data[j]?.bind fun c => c[i]?).map fun x => ',' :: sh x

/-- One line, `multigraphdata.cpp:37-46`: `ndata + 1` passes of the loop and the end of the line. -/
def multiLine (data : List (List F)) (write : List Bool) (nd i : ℕ) : Option (List Char) :=
  ((List.range (nd + 1)).mapM (multiCell sh data write i)).map fun cs => cs.flatten ++ ['\n']

/-- The table of `MultiGraphData::write_to_file`, `multigraphdata.cpp:27-48`, for a file that can be opened; for an object without records nothing is written (`multigraphdata.cpp:29`). -/
def multiText (data : List (List F)) (write : List Bool) (nd : ℕ) : Option (List Char) :=
  match data with
  | [] => some []
  | c0 :: _ => ((List.range c0.length).mapM (multiLine sh data write nd)).map List.flatten

/-- The file of axis labels, `multigraphdata.cpp:54-56`: the labels of the columns that are written. -/
def multiAxes (ax : List Char) : List (List Char) → List Bool → List Char
  | y :: ys, w :: ws => (if w then ax ++ ',' :: (y ++ ['\n']) else []) ++ multiAxes ax ys ws
  | _, _ => []

/-- One entry of a line of `writeArrayDataToFile`, `utility/printingutility.cpp:14-15`: `array[width*n+d]`, and a comma if it is not the last one. `none`: outside the array. -/
def arrayCell (a : List F) (w n d : ℕ) : Option (List Char) :=
  (a[w * n + d]?).map fun x => sh x ++ if d + 1 = w then [] else [',']

/-- One line of `writeArrayDataToFile`, `utility/printingutility.cpp:13-17`. -/
def arrayLine (a : List F) (w n : ℕ) : Option (List Char) :=
  ((List.range w).mapM (arrayCell sh a w n)).map fun cs => cs.flatten ++ ['\n']

/-- `writeArrayDataToFile`, `utility/printingutility.cpp:5-22`, for a file that can be opened. -/
def arrayText (a : List F) (elements w : ℕ) : Option (List Char) := ((List.range elements).mapM (arrayLine sh a w)).map List.flatten

/-- The directory of `writeVectorToDirectory`, `utility/printingutility.cpp:30-33`; `none`: the last character of an empty name is read. -/
def directory (dir file : List Char) : Option (List Char) :=
  match dir.getLast? with
  | none => none
  | some c => some (dir ++ ((if c = '/' then [] else ['/']) ++ (file ++ ['/'])))

/-- The files of `writeVectorToDirectory`, `utility/printingutility.cpp:38-44`, from file `k` on: name and text. A number of elements that is missing makes `at` throw: `none`. -/
def directoryFiles (pre : List Char) (w : ℕ) : ℕ → List (List F) → List ℕ → Option (List (List Char × List Char))
  | _, [], _ => some []
  | _, _ :: _, [] => none
  | k, r :: rs, e :: es => (arrayText sh r e w).bind fun t =>
      (directoryFiles pre w (k + 1) rs es).map fun fs => (pre ++ (showN k ++ ['.', 'c', 's', 'v']), t) :: fs

/-- `writeVectorToDirectory`, `utility/printingutility.cpp:26-48`, when every file can be opened. -/
def writeDirectory (dir file : List Char) (w : ℕ) (rs : List (List F)) (es : List ℕ) : Option (List (List Char × List Char)) :=
  (directory dir file).bind fun d => directoryFiles sh (d ++ file) w 0 rs es

/-- White space, at which `stream >> str` stops, `utility/printingutility.hpp:17`. -/
def isSpace (c : Char) : Bool := c == ' ' || c == '\n' || c == '\t' || c == '\r'

/-- `stream >> str`: the first word, `utility/printingutility.hpp:16-17`. -/
def word (t : List Char) : List Char := (t.dropWhile isSpace).takeWhile fun c => !isSpace c

/-- The loop of `toCSV`, `utility/printingutility.hpp:12-15`: entry and, but for the last one, a comma. -/
def joined : List F → List Char
  | [] => []
  | [x] => sh x
  | x :: y :: l => sh x ++ ',' :: joined (y :: l)

/-- `toCSV`, `utility/printingutility.hpp:10-19`. -/
def toCSV (l : List F) : List Char := word (joined sh l)

/-- `PercolationData::writeToFile`, `dataobjects/percolationdata.cpp:37-38`: a line for each record. -/
def percolationText (recs : List (List F)) : List Char := recs.flatMap fun r => toCSV sh r ++ ['\n']

end model

/-- The loop of `pprint`, `utility/printingutility.hpp:46-52`: points are dropped; before the first point characters go to the front part. -/
def splitPoint : Bool → List Char → List Char × List Char
  | _, [] => ([], [])
  | front, c :: t =>
    if c = '.' then splitPoint false t
    else if front then (c :: (splitPoint front t).1, (splitPoint front t).2)
    else ((splitPoint front t).1, c :: (splitPoint front t).2)

/-- `pprint`, `utility/printingutility.hpp:40-60`: `t` is the text of the number. -/
def pprint (t : List Char) (lead follow : ℕ) : List Char :=
  List.replicate (lead - (splitPoint true t).1.length) ' ' ++ ((splitPoint true t).1 ++ '.' ::
    ((splitPoint true t).2.take follow ++ List.replicate (follow - (splitPoint true t).2.length) ' '))

/-- The lambda `report`, `base/datamaster.cpp:390-402`: a time as percentage of the run time, `pct` and `secs` being the texts of the two numbers; `big`: whether the percentage is above 0.001. -/
def report (ran big : Bool) (pct secs : List Char) : List Char :=
  (if ran then (if big then pprint pct 3 3 else pprint ['0'] 3 3) else ['-', '-']) ++ ('%' :: '\t' :: '\t' :: (secs ++ ['\n']))

/-- The lambdas `formats` and `formatd`, `base/datamaster.cpp:403-420`: two spaces, the header, spaces up to the margin of 30 but at least one, the value. -/
def formatLine (header rhs : List Char) : List Char :=
  List.replicate 2 ' ' ++ (header ++ (List.replicate (max (30 - 2 - header.length) 1) ' ' ++ (rhs ++ ['\n'])))

/-! ## Specification: how a table is read -/

/-- The parts of a text between occurrences of a character. -/
def split (c : Char) : List Char → List (List Char)
  | [] => [[]]
  | x :: t =>
    if x = c then [] :: split c t
    else match split c t with
      | [] => [[x]]
      | h :: r => (x :: h) :: r

/-- The fields of a line; an empty line has none. -/
def fields (l : List Char) : List (List Char) := if l = [] then [] else split ',' l

/-- The lines of a text; what follows the last end of line is no line. -/
def textLines (t : List Char) : List (List Char) := (split '\n' t).dropLast

/-- The table in a comma separated text. -/
def table (t : List Char) : List (List (List Char)) := (textLines t).map fields

/-- The text of a number is not empty and has no comma and no white space. -/
def Plain {F : Type} (sh : F → List Char) : Prop := ∀ x, sh x ≠ [] ∧ ∀ c ∈ sh x, c ≠ ',' ∧ isSpace c = false

/-- The number that decimal digits denote. -/
def num (l : List Char) : ℕ := l.foldl (fun v c => 10 * v + (c.toNat - 48)) 0

/-- The number in fixed notation with the digits `l` before the point and `f` after it. -/
def fixed (l f : List Char) : ℚ := num l + num f / 10 ^ f.length

/-! ## Reading -/

theorem split_ne_nil (c : Char) (t : List Char) : split c t ≠ [] := by
  cases t with
  | nil => simp [split]
  | cons x t =>
    rw [split]
    split
    · simp
    · cases h : split c t <;> simp

theorem split_append (c : Char) (x t : List Char) (hx : ∀ d ∈ x, d ≠ c) : split c (x ++ c :: t) = x :: split c t := by
  induction x with
  | nil => simp [split]
  | cons d x ih =>
    rw [List.cons_append, split, if_neg (hx d (List.mem_cons_self ..)), ih fun e he => hx e (List.mem_cons_of_mem _ he)]

theorem split_self (c : Char) (x : List Char) (hx : ∀ d ∈ x, d ≠ c) : split c x = [x] := by
  induction x with
  | nil => rfl
  | cons d x ih => rw [split, if_neg (hx d (List.mem_cons_self ..)), ih fun e he => hx e (List.mem_cons_of_mem _ he)]

theorem textLines_cons (x t : List Char) (hx : ∀ d ∈ x, d ≠ '\n') : textLines (x ++ '\n' :: t) = x :: textLines t := by
  unfold textLines
  rw [split_append _ _ _ hx, List.dropLast_cons_of_ne_nil (split_ne_nil _ _)]

theorem textLines_nil : textLines [] = [] := rfl

theorem textLines_flatMap {β : Type} (g : β → List Char) (l : List β) (h : ∀ b ∈ l, ∀ d ∈ g b, d ≠ '\n') :
    textLines (l.flatMap fun b => g b ++ ['\n']) = l.map g := by
  induction l with
  | nil => rfl
  | cons b l ih =>
    rw [List.flatMap_cons, List.append_assoc, List.singleton_append, textLines_cons _ _ (h b (List.mem_cons_self ..)),
      ih fun e he => h e (List.mem_cons_of_mem _ he), List.map_cons]

theorem plain_nl {F : Type} {sh : F → List Char} (h : Plain sh) (x : F) : ∀ d ∈ sh x, d ≠ '\n' := by
  intro d hd e
  have := ((h x).2 d hd).2
  rw [e] at this
  exact absurd this (by decide)

theorem joined_ne_nil {F : Type} {sh : F → List Char} (h : Plain sh) (l : List F) (hl : l ≠ []) : joined sh l ≠ [] := by
  match l, hl with
  | [x], _ => exact (h x).1
  | x :: y :: l, _ => rw [joined]; simp

theorem joined_chars {F : Type} {sh : F → List Char} (h : Plain sh) (l : List F) : ∀ d ∈ joined sh l, isSpace d = false := by
  match l with
  | [] => intro d hd; cases hd
  | [x] => exact fun d hd => ((h x).2 d hd).2
  | x :: y :: l =>
    intro d hd
    rw [joined, List.mem_append, List.mem_cons] at hd
    rcases hd with hd | rfl | hd
    · exact ((h x).2 d hd).2
    · decide
    · exact joined_chars h (y :: l) d hd

theorem joined_nl {F : Type} {sh : F → List Char} (h : Plain sh) (l : List F) : ∀ d ∈ joined sh l, d ≠ '\n' := by
  intro d hd e
  have := joined_chars h l d hd
  rw [e] at this
  exact absurd this (by decide)

theorem split_joined {F : Type} {sh : F → List Char} (h : Plain sh) (l : List F) (hl : l ≠ []) : split ',' (joined sh l) = l.map sh := by
  match l, hl with
  | [x], _ => exact split_self _ _ fun d hd => ((h x).2 d hd).1
  | x :: y :: l, _ =>
    rw [joined, split_append _ _ _ fun d hd => ((h x).2 d hd).1, split_joined h (y :: l) (by simp)]
    rfl

theorem fields_joined {F : Type} {sh : F → List Char} (h : Plain sh) (l : List F) : fields (joined sh l) = l.map sh := by
  by_cases hl : l = []
  · subst hl; rfl
  · unfold fields
    rw [if_neg (joined_ne_nil h l hl), split_joined h l hl]

theorem table_joined {F : Type} {sh : F → List Char} (h : Plain sh) (rows : List (List F)) :
    table (rows.flatMap fun r => joined sh r ++ ['\n']) = rows.map fun r => r.map sh := by
  unfold table
  rw [textLines_flatMap _ _ fun r _ => joined_nl h r, List.map_map]
  exact List.map_congr_left fun r _ => fields_joined h r

/-! ## The tables -/

/-- **C177, graphs.** The file of a graph is a table with one row for each recorded point, in the order of recording, with the point's two numbers. Missing: the fields are the texts of the numbers, which have six digits (`C177_negation_precision`). -/
theorem C177_graph_partial {F : Type} (sh : F → List Char) (h : Plain sh) (data : List (F × F)) :
    table (graphText sh data) = data.map fun v => [sh v.1, sh v.2] := by
  have e : graphText sh data = (data.map fun v => [v.1, v.2]).flatMap fun r => joined sh r ++ ['\n'] := by
    unfold graphText
    rw [List.flatMap_map]
    congr 1
    funext v
    simp [joined]
  rw [e, table_joined h, List.map_map]
  rfl

/-- **C177, labels of graphs.** The labels are two lines. -/
theorem C177_graph_axes (ax ay : List Char) (hx : ∀ c ∈ ax, c ≠ '\n') (hy : ∀ c ∈ ay, c ≠ '\n') : textLines (graphAxes ax ay) = [ax, ay] := by
  unfold graphAxes
  rw [textLines_cons _ _ hx, textLines_cons _ _ hy]
  rfl

theorem mapM_range_some {β : Type} (f : ℕ → Option β) (g : ℕ → β) (n : ℕ) (h : ∀ i < n, f i = some (g i)) :
    (List.range n).mapM f = some ((List.range n).map g) := by
  have : ∀ l : List ℕ, (∀ i ∈ l, f i = some (g i)) → l.mapM f = some (l.map g) := by
    intro l
    induction l with
    | nil => intro _; rfl
    | cons a l ih =>
      intro hl
      rw [List.mapM_cons, hl a (List.mem_cons_self ..), ih fun i hi => hl i (List.mem_cons_of_mem _ hi)]
      rfl
  exact this _ fun i hi => h i (List.mem_range.mp hi)

/-- The columns of a line: those that are written. -/
def written (write : List Bool) (nd : ℕ) : List ℕ := (List.range nd).filter fun j => write[j]?.getD false

theorem joined_cons_flat {F : Type} (sh : F → List Char) (x : F) (l : List F) :
    joined sh (x :: l) = sh x ++ l.flatMap fun y => ',' :: sh y := by
  induction l generalizing x with
  | nil => simp [joined]
  | cons y l ih => rw [joined, ih y, List.flatMap_cons]; simp

theorem flatMap_filter {β : Type} (l : List ℕ) (q : ℕ → Bool) (g : ℕ → List β) :
    (l.filter q).flatMap g = (l.map fun j => if q j then g j else []).flatten := by
  induction l with
  | nil => rfl
  | cons a l ih =>
    rw [List.filter_cons]
    by_cases hq : q a <;> simp [hq, ih]

/-- **C177, multi graphs.** If all columns have the same length (which holds in every history, C57), the file is a table with one row for each record, in order: the x value, then the value of each column that is to be written, in the order of the columns. Missing: the fields are the texts of the numbers, which have six digits (`C177_negation_precision`). -/
theorem C177_multigraph_partial {F : Type} (sh : F → List Char) (h : Plain sh) (x : List F) (ys : List (List F)) (write : List Bool)
    (hw : write.length = ys.length) (v : ℕ → ℕ → F) (hx : ∀ i, i < x.length → x[i]? = some (v 0 i))
    (hy : ∀ j, j < ys.length → ∀ i, i < x.length → (ys[j]?.bind fun c => c[i]?) = some (v (j + 1) i)) :
    ∃ t, multiText sh (x :: ys) write ys.length = some t ∧
      table t = (List.range x.length).map fun i => sh (v 0 i) :: (written write ys.length).map fun j => sh (v (j + 1) i) := by
  have hcell : ∀ i, i < x.length → ∀ j, j < ys.length + 1 → multiCell sh (x :: ys) write i j = some
      (if j = 0 then sh (v 0 i) else if write[j - 1]?.getD false then ',' :: sh (v j i) else []) := by
    intro i hi j hj
    unfold multiCell
    by_cases hj0 : j = 0
    · rw [if_pos hj0, if_pos hj0]
      have : ((x :: ys)[0]?.bind fun c => c[i]?) = some (v 0 i) := by simpa using hx i hi
      rw [this]
      rfl
    · rw [if_neg hj0, if_neg hj0]
      have hl : j - 1 < write.length := by omega
      rw [List.getElem?_eq_getElem hl]
      have hd : ((x :: ys)[j]?.bind fun c => c[i]?) = some (v j i) := by
        obtain ⟨k, rfl⟩ : ∃ k, j = k + 1 := ⟨j - 1, by omega⟩
        rw [List.getElem?_cons_succ]
        exact hy k (by omega) i hi
      cases hb : write[j - 1]
      · simp
      · rw [hd]; simp
  have hline : ∀ i, i < x.length → multiLine sh (x :: ys) write ys.length i =
      some (joined sh (v 0 i :: (written write ys.length).map fun j => v (j + 1) i) ++ ['\n']) := by
    intro i hi
    unfold multiLine
    rw [mapM_range_some _ _ _ (hcell i hi), Option.map_some]
    congr 2
    rw [joined_cons_flat, List.flatMap_map, List.range_succ_eq_map, List.map_cons, List.flatten_cons, List.map_map, written, flatMap_filter]
    congr 2
  refine ⟨(List.range x.length).flatMap fun i => joined sh (v 0 i :: (written write ys.length).map fun j => v (j + 1) i) ++ ['\n'], ?_, ?_⟩
  · show ((List.range x.length).mapM (multiLine sh (x :: ys) write ys.length)).map List.flatten = _
    rw [mapM_range_some _ _ _ hline, Option.map_some, List.flatMap_def]
  · have := table_joined h ((List.range x.length).map fun i => v 0 i :: (written write ys.length).map fun j => v (j + 1) i)
    rw [List.flatMap_map, List.map_map] at this
    rw [this]
    refine List.map_congr_left fun i _ => ?_
    simp

/-- **C177, labels of multi graphs.** The file of labels has one row for each column that is written, in the order of the columns: the label of the x axis and the label of that column. Missing: labels with commas or line ends (`C177_negation_label`). -/
theorem C177_multigraph_axes_partial (ax : List Char) (ys : List (List Char)) (write : List Bool) (hw : write.length = ys.length)
    (hax : ∀ c ∈ ax, c ≠ ',' ∧ c ≠ '\n') (hys : ∀ y ∈ ys, ∀ c ∈ y, c ≠ ',' ∧ c ≠ '\n') :
    table (multiAxes ax ys write) = ((ys.zip write).filter fun p => p.2).map fun p => [ax, p.1] := by
  induction ys generalizing write with
  | nil => cases write <;> rfl
  | cons y ys ih =>
    match write, hw with
    | w :: ws, hw =>
      have ih := ih ws (by simpa using hw) fun z hz => hys z (List.mem_cons_of_mem _ hz)
      rw [multiAxes, List.zip_cons_cons, List.filter_cons]
      cases w with
      | false => simpa using ih
      | true =>
        have hy := hys y (List.mem_cons_self ..)
        have e : (if true = true then ax ++ ',' :: (y ++ ['\n']) else []) ++ multiAxes ax ys ws = (ax ++ ',' :: y) ++ '\n' :: multiAxes ax ys ws := by simp
        have hn : ∀ d ∈ ax ++ ',' :: y, d ≠ '\n' := by
          intro d hd
          rw [List.mem_append, List.mem_cons] at hd
          rcases hd with hd | rfl | hd
          · exact (hax d hd).2
          · decide
          · exact (hy d hd).2
        have hf : fields (ax ++ ',' :: y) = [ax, y] := by
          unfold fields
          rw [if_neg (by simp), split_append _ _ _ fun d hd => (hax d hd).1, split_self _ _ fun d hd => (hy d hd).1]
        rw [e, table, textLines_cons _ _ hn, List.map_cons, hf]
        simpa [table] using ih

/-- **C177, arrays.** `writeArrayDataToFile` writes a table with the given number of rows, each with `w` fields; field `d` of row `n` is element `w * n + d` of the array. Missing: the fields are the texts of the numbers, which have six digits (`C177_negation_precision`). -/
theorem C177_array_partial {F : Type} (sh : F → List Char) (h : Plain sh) (a : List F) (elements w : ℕ) (v : ℕ → F)
    (ha : ∀ k, k < w * elements → a[k]? = some (v k)) :
    ∃ t, arrayText sh a elements w = some t ∧ table t = (List.range elements).map fun n => (List.range w).map fun d => sh (v (w * n + d)) := by
  have hj : ∀ (w : ℕ) (g : ℕ → F), ((List.range w).map fun d => sh (g d) ++ if d + 1 = w then [] else [',']).flatten = joined sh ((List.range w).map g) := by
    intro w
    induction w with
    | zero => intro g; rfl
    | succ w ih =>
      intro g
      rw [List.range_succ_eq_map, List.map_cons, List.flatten_cons, List.map_cons, List.map_map, List.map_map]
      cases w with
      | zero => simp [joined]
      | succ w =>
        have := ih fun d => g (d + 1)
        rw [show (List.range (w + 1)).map (fun d => g (d + 1)) = (List.range (w + 1)).map (g ∘ Nat.succ) from rfl] at this
        rw [List.range_succ_eq_map, List.map_cons, List.map_cons, joined]
        rw [List.range_succ_eq_map, List.map_cons, List.map_cons] at this
        rw [show (g ∘ Nat.succ) 0 = g (0 + 1) from rfl] at *
        rw [← this]
        simp [Function.comp_def]
  have hline : ∀ n, n < elements → arrayLine sh a w n = some (joined sh ((List.range w).map fun d => v (w * n + d)) ++ ['\n']) := by
    intro n hn
    unfold arrayLine
    have hc : ∀ d, d < w → arrayCell sh a w n d = some (sh (v (w * n + d)) ++ if d + 1 = w then [] else [',']) := by
      intro d hd
      unfold arrayCell
      have hlt : w * n + d < w * elements := by
        calc w * n + d < w * n + w := by omega
          _ = w * (n + 1) := by ring
          _ ≤ w * elements := Nat.mul_le_mul_left _ hn
      rw [ha _ hlt]
      rfl
    rw [mapM_range_some _ _ _ hc, Option.map_some, hj w fun d => v (w * n + d)]
  refine ⟨(List.range elements).flatMap fun n => joined sh ((List.range w).map fun d => v (w * n + d)) ++ ['\n'], ?_, ?_⟩
  · unfold arrayText
    rw [mapM_range_some _ _ _ hline, Option.map_some, List.flatMap_def]
  · have := table_joined h ((List.range elements).map fun n => (List.range w).map fun d => v (w * n + d))
    rw [List.flatMap_map, List.map_map] at this
    rw [this]
    refine List.map_congr_left fun n _ => ?_
    simp

theorem word_self (t : List Char) (h : ∀ c ∈ t, isSpace c = false) : word t = t := by
  unfold word
  have e : t.dropWhile isSpace = t := by
    cases t with
    | nil => rfl
    | cons c t => rw [List.dropWhile_cons, h c (List.mem_cons_self ..)]; rfl
  rw [e]
  exact List.takeWhile_eq_self_iff.mpr fun c hc => by rw [h c hc]; rfl

/-- **C177, percolation.** The file has one row for each record, with its cluster sizes in order; a record without clusters is an empty line. Missing: the fields are the texts of the numbers, which have six digits (`C177_negation_precision`). -/
theorem C177_percolation_partial {F : Type} (sh : F → List Char) (h : Plain sh) (recs : List (List F)) :
    table (percolationText sh recs) = recs.map fun r => r.map sh := by
  unfold percolationText
  have : (fun r : List F => toCSV sh r ++ ['\n']) = fun r => joined sh r ++ ['\n'] := by
    funext r
    unfold toCSV
    rw [word_self _ (joined_chars h r)]
  rw [this, table_joined h]

theorem directoryFiles_eq {F : Type} (sh : F → List Char) (pre : List Char) (w k : ℕ) (rs : List (List F)) (es : List ℕ) (fs)
    (hf : directoryFiles sh pre w k rs es = some fs) :
    fs.length = rs.length ∧ ∀ i, i < rs.length → ∃ r e t, rs[i]? = some r ∧ es[i]? = some e ∧ arrayText sh r e w = some t ∧
      fs[i]? = some (pre ++ (showN (k + i) ++ ['.', 'c', 's', 'v']), t) := by
  induction rs generalizing k es fs with
  | nil => simp only [directoryFiles, Option.some.injEq] at hf; subst hf; simp
  | cons r rs ih =>
    cases es with
    | nil => simp [directoryFiles] at hf
    | cons e es =>
      rw [directoryFiles] at hf
      obtain ⟨t, ht, hf⟩ := Option.bind_eq_some_iff.mp hf
      obtain ⟨fs', hf', rfl⟩ := Option.map_eq_some_iff.mp hf
      obtain ⟨hl, hi⟩ := ih (k + 1) es fs' hf'
      refine ⟨by simp [hl], ?_⟩
      intro i hlt
      cases i with
      | zero => exact ⟨r, e, t, rfl, rfl, ht, by simp⟩
      | succ i =>
        obtain ⟨r', e', t', h1, h2, h3, h4⟩ := hi i (by simpa using hlt)
        refine ⟨r', e', t', by simpa using h1, by simpa using h2, h3, ?_⟩
        rw [List.getElem?_cons_succ, h4, show k + (i + 1) = k + 1 + i by ring]

theorem showN_inj {a b : ℕ} (h : showN a = showN b) : a = b := by
  have := congrArg Verif.StoreLoad.readN h
  rw [Verif.StoreLoad.readN_showN, Verif.StoreLoad.readN_showN] at this
  exact Option.some.inj this

/-- **C177, directories.** `writeVectorToDirectory` writes one file for each record, and no two of them have the same name: none overwrites another one. -/
theorem C177_directory {F : Type} (sh : F → List Char) (dir file : List Char) (w : ℕ) (rs : List (List F)) (es : List ℕ) (fs)
    (hf : writeDirectory sh dir file w rs es = some fs) :
    fs.length = rs.length ∧ (fs.map Prod.fst).Nodup ∧ ∀ i, i < rs.length → ∃ r e f, rs[i]? = some r ∧ es[i]? = some e ∧ fs[i]? = some f ∧ arrayText sh r e w = some f.2 := by
  obtain ⟨d, _, hf⟩ := Option.bind_eq_some_iff.mp hf
  obtain ⟨hl, hi⟩ := directoryFiles_eq sh _ w 0 rs es fs hf
  refine ⟨hl, ?_, fun i hlt => ?_⟩
  · rw [List.nodup_iff_injective_get]
    intro a b hab
    obtain ⟨r, e, t, _, _, _, h4⟩ := hi a (by have := a.2; simp at this; omega)
    obtain ⟨r', e', t', _, _, _, h4'⟩ := hi b (by have := b.2; simp at this; omega)
    have ha : (fs.map Prod.fst)[(a : ℕ)]? = some ((d ++ file) ++ (showN (0 + a) ++ ['.', 'c', 's', 'v'])) := by rw [List.getElem?_map, h4]; rfl
    have hb : (fs.map Prod.fst)[(b : ℕ)]? = some ((d ++ file) ++ (showN (0 + b) ++ ['.', 'c', 's', 'v'])) := by rw [List.getElem?_map, h4']; rfl
    have hga : (fs.map Prod.fst)[(a : ℕ)]? = some ((fs.map Prod.fst).get a) := List.getElem?_eq_getElem a.2
    have hgb : (fs.map Prod.fst)[(b : ℕ)]? = some ((fs.map Prod.fst).get b) := List.getElem?_eq_getElem b.2
    rw [hga] at ha
    rw [hgb] at hb
    have := (Option.some.inj ha).symm.trans (hab.trans (Option.some.inj hb))
    have := List.append_cancel_right (List.append_cancel_left this)
    have := showN_inj this
    exact Fin.ext (by omega)
  · obtain ⟨r, e, t, h1, h2, h3, h4⟩ := hi i hlt
    exact ⟨r, e, _, h1, h2, h4, h3⟩

/-- What is read from a table of numbers: `rd` is the reading of one number. -/
def readTable {F : Type} (rd : List Char → F) (t : List Char) : List (List F) := (table t).map fun r => r.map rd

/-- **C177, exactness.** If the numbers that were recorded are read back exactly, so is the graph. -/
theorem C177_graph_exact {F : Type} (sh : F → List Char) (rd : List Char → F) (h : Plain sh) (data : List (F × F))
    (hrd : ∀ v ∈ data, rd (sh v.1) = v.1 ∧ rd (sh v.2) = v.2) : readTable rd (graphText sh data) = data.map fun v => [v.1, v.2] := by
  unfold readTable
  rw [C177_graph_partial sh h, List.map_map]
  exact List.map_congr_left fun v hv => by simp [hrd v hv]

/-- A number whose decimal notation has at most six digits: what a stream writes by default. -/
def SixDigits (x : ℚ) : Prop := ∃ (m : ℤ) (e : ℤ), |m| < 10 ^ 6 ∧ x = m * (10 : ℚ) ^ e

/-- **C177, negation: precision.** The streams have their default precision of six digits: whatever is read from the text of a number, a step count or time of more digits is not read back. -/
theorem C177_negation_precision (sh : ℚ → List Char) (rd : List Char → ℚ) (h : Plain sh) (h6 : ∀ x, SixDigits (rd (sh x))) :
    readTable rd (graphText sh [(1000001, 0)]) ≠ [[1000001, 0]] := by
  unfold readTable
  rw [C177_graph_partial sh h]
  intro e
  have e : rd (sh 1000001) = 1000001 := by
    have := congrArg (fun l : List (List ℚ) => l.head?.bind List.head?) e
    simpa using this
  obtain ⟨m, k, hm, hx⟩ := h6 1000001
  rw [e] at hx
  rw [abs_lt] at hm
  rcases le_or_gt 0 k with hk | hk
  · obtain ⟨n, rfl⟩ := Int.eq_ofNat_of_zero_le hk
    rw [zpow_natCast] at hx
    cases n with
    | zero =>
      rw [pow_zero, mul_one] at hx
      have : (1000001 : ℤ) = m := by exact_mod_cast hx
      omega
    | succ n =>
      have : (1000001 : ℤ) = m * 10 ^ (n + 1) := by exact_mod_cast hx
      have : (1000001 : ℤ) = (m * 10 ^ n) * 10 := by rw [this]; ring
      omega
  · obtain ⟨n, hn⟩ := Int.eq_ofNat_of_zero_le (by omega : 0 ≤ -k)
    have hk' : k = -(n : ℤ) := by omega
    rw [hk', zpow_neg, zpow_natCast] at hx
    have h1 : (1 : ℚ) ≤ 10 ^ n := one_le_pow₀ (by norm_num)
    have : (1000001 : ℚ) * 10 ^ n = m := by rw [hx]; field_simp
    have hm' : (m : ℚ) < 1000000 := by exact_mod_cast hm.2
    nlinarith

/-- **C177, negation: labels.** A label with a comma makes the row of the file of labels have three fields; labels are not quoted. -/
theorem C177_negation_label : table (multiAxes ['t'] [['v', ',', 'x']] [true]) = [[['t'], ['v'], ['x']]] := by decide

/-! ## The run summary -/

theorem splitPoint_false (f : List Char) (hf : ∀ c ∈ f, c ≠ '.') : splitPoint false f = ([], f) := by
  induction f with
  | nil => rfl
  | cons c f ih => rw [splitPoint, if_neg (hf c (List.mem_cons_self ..)), ih fun d hd => hf d (List.mem_cons_of_mem _ hd)]; rfl

theorem splitPoint_true (l f : List Char) (hl : ∀ c ∈ l, c ≠ '.') (hf : ∀ c ∈ f, c ≠ '.') : splitPoint true (l ++ '.' :: f) = (l, f) := by
  induction l with
  | nil => rw [List.nil_append, splitPoint, if_pos rfl, splitPoint_false f hf]
  | cons c l ih =>
    rw [List.cons_append, splitPoint, if_neg (hl c (List.mem_cons_self ..)), ih fun d hd => hl d (List.mem_cons_of_mem _ hd)]
    rfl

theorem splitPoint_int (l : List Char) (hl : ∀ c ∈ l, c ≠ '.') : splitPoint true l = (l, []) := by
  induction l with
  | nil => rfl
  | cons c l ih =>
    rw [splitPoint, if_neg (hl c (List.mem_cons_self ..)), ih fun d hd => hl d (List.mem_cons_of_mem _ hd)]
    rfl

theorem num_append (a b : List Char) : num (a ++ b) = num a * 10 ^ b.length + num b := by
  have key : ∀ (b : List Char) (v : ℕ), b.foldl (fun v c => 10 * v + (c.toNat - 48)) v = v * 10 ^ b.length + num b := by
    intro b
    induction b with
    | nil => intro v; simp [num]
    | cons c b ih =>
      intro v
      rw [num, List.foldl_cons, List.foldl_cons, ih, ih, List.length_cons, pow_succ]
      ring
  rw [num, List.foldl_append, key, ← num]

theorem num_lt (a : List Char) (h : ∀ c ∈ a, c.isDigit = true) : num a < 10 ^ a.length := by
  induction a with
  | nil => simp [num]
  | cons c a ih =>
    have h1 := ih fun d hd => h d (List.mem_cons_of_mem _ hd)
    have hc : c.toNat - 48 ≤ 9 := by
      have := h c (List.mem_cons_self ..)
      simp only [Char.isDigit, ge_iff_le, Bool.and_eq_true, decide_eq_true_eq] at this
      have h2 : c.toNat ≤ 57 := by
        have := this.2
        rw [UInt32.le_iff_toNat_le] at this
        exact this
      omega
    have e : num (c :: a) = (c.toNat - 48) * 10 ^ a.length + num a := by
      rw [show c :: a = [c] ++ a from rfl, num_append]
      simp [num]
    rw [e, List.length_cons, pow_succ]
    nlinarith

/-- **C177, pretty printing.** A number in fixed notation is printed with its point in column `lead` (if its integer part fits) and `follow` more columns: `L` are the digits before the point, `D` those after it that are printed. What is printed is the
number cut off after `follow` digits: not more than the number, and less than one unit of the last digit below it. -/
theorem C177_pprint (l f : List Char) (lead follow : ℕ) (hl : ∀ c ∈ l, c.isDigit = true) (hf : ∀ c ∈ f, c.isDigit = true) :
    ∃ D : List Char, pprint (l ++ '.' :: f) lead follow = List.replicate (lead - l.length) ' ' ++ l ++ ['.'] ++ D ++ List.replicate (follow - D.length) ' ' ∧
      D.length ≤ follow ∧ (pprint (l ++ '.' :: f) lead follow).length = max lead l.length + 1 + follow ∧
      fixed l D ≤ fixed l f ∧ fixed l f < fixed l D + 1 / 10 ^ follow := by
  have hd : ∀ c : Char, c.isDigit = true → c ≠ '.' := by
    intro c hc e
    rw [e] at hc
    exact absurd hc (by decide)
  have hs := splitPoint_true l f (fun c hc => hd c (hl c hc)) fun c hc => hd c (hf c hc)
  refine ⟨f.take follow, ?_, by simp, ?_, ?_, ?_⟩
  · unfold pprint
    rw [hs]
    have : follow - f.length = follow - (f.take follow).length := by rw [List.length_take]; omega
    simp only [this]
    simp
  · unfold pprint
    rw [hs]
    simp only [List.length_append, List.length_replicate, List.length_cons, List.length_take]
    omega
  all_goals
    have hp : (0 : ℚ) < 10 ^ (f.take follow).length := by positivity
    have hq : (0 : ℚ) < 10 ^ (f.drop follow).length := by positivity
    have e1 : (num f : ℚ) / 10 ^ f.length = num (f.take follow) / 10 ^ (f.take follow).length + num (f.drop follow) / (10 ^ (f.take follow).length * 10 ^ (f.drop follow).length) := by
      have hn := num_append (f.take follow) (f.drop follow)
      rw [List.take_append_drop] at hn
      have hlen : f.length = (f.take follow).length + (f.drop follow).length := by rw [List.length_take, List.length_drop]; omega
      rw [hn, hlen, pow_add]
      push_cast
      field_simp
  · unfold fixed
    rw [e1]
    have : (0 : ℚ) ≤ num (f.drop follow) / (10 ^ (f.take follow).length * 10 ^ (f.drop follow).length) := by positivity
    linarith
  · unfold fixed
    rw [e1]
    have hr : num (f.drop follow) < 10 ^ (f.drop follow).length := num_lt _ fun c hc => hf c (List.mem_of_mem_drop hc)
    by_cases hlen : follow ≤ f.length
    · have ht : (f.take follow).length = follow := by rw [List.length_take]; omega
      rw [ht] at hp ⊢
      have : (num (f.drop follow) : ℚ) / (10 ^ follow * 10 ^ (f.drop follow).length) < 1 / 10 ^ follow := by
        rw [div_lt_div_iff₀ (by positivity) hp]
        have : (num (f.drop follow) : ℚ) < 10 ^ (f.drop follow).length := by exact_mod_cast hr
        nlinarith
      linarith
    · have hd : f.drop follow = [] := List.drop_eq_nil_of_le (by omega)
      rw [hd]
      have : (0 : ℚ) < 1 / 10 ^ follow := by positivity
      simp [num]

/-- **C177, columns of the summary.** The percentages of the timing breakdown are aligned: for a text in fixed notation with at most three digits before the point the percent sign is in column 7. -/
theorem C177_report (big : Bool) (l f secs : List Char) (hl : ∀ c ∈ l, c.isDigit = true) (hf : ∀ c ∈ f, c.isDigit = true) (h3 : l.length ≤ 3) :
    (report true big (l ++ '.' :: f) secs)[7]? = some '%' := by
  have key : ∀ t : List Char, t.length = 7 → (t ++ ('%' :: '\t' :: '\t' :: (secs ++ ['\n'])))[7]? = some '%' := by
    intro t ht
    rw [List.getElem?_append_right (by omega), ht]
    rfl
  unfold report
  rw [if_pos rfl]
  cases big with
  | false => exact key _ (by rw [if_neg (by decide)]; rfl)
  | true =>
    obtain ⟨_, _, _, h, _⟩ := C177_pprint l f 3 3 hl hf
    exact key _ (by rw [if_pos rfl, h]; omega)

/-- **C177, lines of the summary.** The value of a line starts in column 30, or one column after a longer header; the header is preceded by two spaces. -/
theorem C177_formatLine (header rhs : List Char) :
    (formatLine header rhs).drop (max 30 (header.length + 3)) = rhs ++ ['\n'] ∧ (formatLine header rhs).take (header.length + 2) = [' ', ' '] ++ header := by
  constructor
  · unfold formatLine
    rw [← List.append_assoc, ← List.append_assoc, List.drop_append_of_le_length, List.drop_eq_nil_of_le]
    · rfl
    · simp only [List.length_append, List.length_replicate]; omega
    · simp only [List.length_append, List.length_replicate]; omega
  · unfold formatLine
    rw [← List.append_assoc, List.take_append_of_le_length (by simp), List.take_of_length_le (by simp)]
    rfl

/-- **C177, negation: exponents.** A number in exponent notation loses its exponent: the text of 0.0000123456 is printed as if the number was above 1. -/
theorem C177_negation_exponent : pprint ['1', '.', '2', '3', '4', '5', '6', 'e', '-', '0', '5'] 3 3 = [' ', ' ', '1', '.', '2', '3', '4'] := by decide

/-! ## Examples -/

theorem plain_showN : Plain showN := by
  intro n
  refine ⟨?_, ?_⟩
  · intro e
    have := Verif.StoreLoad.readN_showN n
    rw [e] at this
    simp [Verif.StoreLoad.readN] at this
  · intro c hc
    have := Verif.StoreLoad.showN_digits n c hc
    refine ⟨(Verif.StoreLoad.isDigit_sep c this).1, ?_⟩
    unfold isSpace
    simp only [Bool.or_eq_false_iff, beq_eq_false_iff_ne]
    refine ⟨⟨⟨?_, ?_⟩, ?_⟩, ?_⟩ <;> (intro e; rw [e] at this; exact absurd this (by decide))

/-- Graphs of numbers in decimal notation are read back. -/
example : readTable (fun t => (Verif.StoreLoad.readN t).getD 0) (graphText showN [(1, 20), (2, 305)]) = [[1, 20], [2, 305]] :=
  C177_graph_exact _ _ plain_showN _ fun v _ => by simp [Verif.StoreLoad.readN_showN]

example : ∃ t, multiText showN [[1, 2], [10, 20], [30, 40]] [false, true] 2 = some t ∧ table t = [[showN 1, showN 30], [showN 2, showN 40]] := by
  obtain ⟨t, h1, h2⟩ := C177_multigraph_partial showN plain_showN [1, 2] [[10, 20], [30, 40]] [false, true] rfl
    (fun c i => (([[1, 2], [10, 20], [30, 40]] : List (List ℕ)).getD c []).getD i 0)
    (fun i hi => by have : i < 2 := hi; interval_cases i <;> rfl)
    (fun j hj i hi => by have : i < 2 := hi; have : j < 2 := hj; interval_cases i <;> interval_cases j <;> rfl)
  exact ⟨t, h1, by rw [h2]; decide⟩

example : ∃ t, arrayText showN [1, 2, 3, 4, 5, 6] 2 3 = some t ∧ table t = [[showN 1, showN 2, showN 3], [showN 4, showN 5, showN 6]] := by
  obtain ⟨t, h1, h2⟩ := C177_array_partial showN plain_showN [1, 2, 3, 4, 5, 6] 2 3 (fun k => k + 1)
    (fun k hk => by have : k < 6 := hk; interval_cases k <;> rfl)
  exact ⟨t, h1, by rw [h2]; decide⟩

example : table (percolationText showN [[3, 2], [], [5]]) = [[showN 3, showN 2], [], [showN 5]] := C177_percolation_partial _ plain_showN _

example : (writeDirectory showN ['o'] ['P'] 1 [[7], [8]] [1, 1]).map (List.map Prod.fst) = some ["o/P/P0.csv".toList, "o/P/P1.csv".toList] := by decide

example : pprint ['4', '2', '.', '1', '2', '5', '9'] 3 3 = [' ', '4', '2', '.', '1', '2', '5'] := by decide

example : table (multiAxes ['t'] [['x'], ['y']] [true, false]) = [[['t'], ['x']]] :=
  C177_multigraph_axes_partial _ _ _ rfl (by decide) (by decide)

example : textLines (graphAxes ['t'] ['E']) = [['t'], ['E']] := C177_graph_axes _ _ (by decide) (by decide)

end Verif.Tables
