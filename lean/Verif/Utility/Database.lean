import Mathlib.Data.List.Basic
import Mathlib.Data.Nat.Digits.Defs
import Mathlib.Data.Nat.Digits.Lemmas
import Mathlib.Algebra.Order.Ring.Int
import Mathlib.Tactic.Linarith
import Verif.Data.StoreLoad

/-!
# Tables written as CSV (C60)

Models `utility/database.hpp` and `utility/database.cpp`. How the values are formatted is a parameter.
-/

namespace Verif.Database

open Verif.StoreLoad (showN showN_digits isDigit_sep)

/-- `GenericEntry<T>`, `utility/database.hpp:42-104`: values, and the total value if percentages are used. `V` is the type of values of all columns. -/
structure Column (V : Type) where
  name : List Char
  data : List V
  total : Option V

/-- `DataBase`, `utility/database.hpp:107-150`. -/
structure DB (V : Type) where
  rowName : List Char
  cols : List (Column V)
  nRows : ℕ

section
variable {V : Type} (fmt : V → List Char) (pct : V → V → List Char) (dflt : Char → Option V)

/-- The characters that `operator>>` takes as space. -/
def isSpace (c : Char) : Bool := c == ' ' || c == '\n' || c == '\t' || c == '\r'

/-- `stream >> str`: the first word. -/
def firstWord (t : List Char) : List Char := (t.dropWhile isSpace).takeWhile fun c => !isSpace c

/-- `GenericEntry::print_name`, `utility/database.hpp:54-57`. -/
def printName (c : Column V) : List Char :=
  if c.total.isSome then c.name ++ ',' :: (c.name ++ [' ', '-', ' ', '%']) else c.name

/-- `GenericEntry::print`, `utility/database.hpp:59-73`, for an index that is not negative. -/
def printCell (c : Column V) (i : ℕ) : List Char :=
  match c.data[i]?, c.total with
  | some x, none => firstWord (fmt x)
  | some x, some t => firstWord (fmt x ++ ',' :: (pct x t ++ ['%']))
  | none, some _ => [',']
  | none, none => []

/-- `DataBase::printToCSV` for a file that can be opened, `utility/database.cpp:28-53`. -/
def printCSV (d : DB V) : List Char :=
  d.rowName ++ ((d.cols.flatMap fun c => ',' :: printName c) ++ ('\n' ::
    ((List.range d.nRows).flatMap fun i => showN i ++ ((d.cols.flatMap fun c => ',' :: printCell fmt pct c i) ++ ['\n']))))

/-- `DataBase::addColumn` with a type character, `utility/database.cpp:13-25`: `dflt` is the value a new entry has, `none` for a character that is not a type. -/
def addColumn (d : DB V) (name : List Char) (type : Char) : DB V :=
  match dflt type with
  | some v => ⟨d.rowName, d.cols ++ [⟨name, List.replicate d.nRows v, none⟩], d.nRows⟩
  | none => d

/-- `DataBase::addColumn` with data, `utility/database.hpp:119-124`. -/
def addData (d : DB V) (name : List Char) (data : List V) : DB V := ⟨d.rowName, d.cols ++ [⟨name, data, none⟩], d.nRows⟩

/-- `DataBase::setNRows`, `utility/database.cpp:8-10`. -/
def setNRows (d : DB V) (n : ℕ) : DB V := ⟨d.rowName, d.cols, n⟩

/-- `DataBase::clear`, `utility/database.cpp:55-57`. -/
def clear (d : DB V) : DB V := ⟨d.rowName, [], d.nRows⟩
end

/-! ## Specification -/

/-- The table a CSV file holds: the lines, split at commas. The last line end is not followed by a line. -/
def parseCSV (t : List Char) : List (List (List Char)) := ((t.splitOn '\n').dropLast).map fun l => l.splitOn ','

/-- A text without commas and line ends. -/
def Plain (t : List Char) : Prop := ∀ c ∈ t, c ≠ ',' ∧ c ≠ '\n'

/-- A text that is one word. -/
def Word (t : List Char) : Prop := Plain t ∧ ∀ c ∈ t, isSpace c = false

/-- The number of fields of a column. -/
def Column.width {V : Type} (c : Column V) : ℕ := if c.total.isSome then 2 else 1

/-- The heading fields of a column. -/
def Column.heads {V : Type} (c : Column V) : List (List Char) :=
  if c.total.isSome then [c.name, c.name ++ [' ', '-', ' ', '%']] else [c.name]

/-- The fields of a column in row `i`: the value, and the percentage; both are empty if the column has no such row. -/
def Column.fields {V : Type} (fmt : V → List Char) (pct : V → V → List Char) (c : Column V) (i : ℕ) : List (List Char) :=
  match c.data[i]?, c.total with
  | some x, none => [fmt x]
  | some x, some t => [fmt x, pct x t ++ ['%']]
  | none, some _ => [[], []]
  | none, none => [[]]

/-- The table that should be written. -/
def table {V : Type} (fmt : V → List Char) (pct : V → V → List Char) (d : DB V) : List (List (List Char)) :=
  (d.rowName :: d.cols.flatMap Column.heads) :: (List.range d.nRows).map fun i => showN i :: d.cols.flatMap fun c => c.fields fmt pct i

/-! ## Lemmas -/

theorem takeWhile_all {α : Type} (q : α → Bool) (l : List α) (h : ∀ x ∈ l, q x = true) : l.takeWhile q = l := Verif.StoreLoad.takeWhile_self q l h

theorem firstWord_word (t : List Char) (h : ∀ c ∈ t, isSpace c = false) : firstWord t = t := by
  unfold firstWord
  have h1 : t.dropWhile isSpace = t := by
    cases t with
    | nil => rfl
    | cons c t => rw [List.dropWhile_cons, if_neg (by rw [h c (by simp)]; simp)]
  rw [h1]
  exact takeWhile_all _ _ fun c hc => by rw [h c hc]; rfl

theorem inter_cons (c : Char) (x : List Char) (l : List (List Char)) :
    [c].intercalate (x :: l) = x ++ l.flatMap fun y => c :: y := by
  induction l generalizing x with
  | nil => simp [List.intercalate]
  | cons y l ih =>
    rw [List.intercalate_cons_cons, ih y]
    simp

theorem flat_flat {α : Type} (l : List α) (f : α → List (List Char)) (g : α → List Char) (h : ∀ x ∈ l, g x = (f x).flatMap fun y => ',' :: y) :
    l.flatMap g = (l.flatMap f).flatMap fun y => ',' :: y := by
  induction l with
  | nil => rfl
  | cons x l ih =>
    rw [List.flatMap_cons, List.flatMap_cons, List.flatMap_append, h x (by simp), ih (fun y hy => h y (by simp [hy]))]

/-- Assumptions on the names and the texts of values: no separators in them, and no spaces in values. -/
structure Ok {V : Type} (fmt : V → List Char) (pct : V → V → List Char) (d : DB V) : Prop where
  row : Plain d.rowName
  name : ∀ c ∈ d.cols, Plain c.name
  fmt : ∀ x, Word (fmt x)
  pct : ∀ x t, Word (pct x t)

theorem cell_eq {V : Type} (fmt : V → List Char) (pct : V → V → List Char) (hf : ∀ x, Word (fmt x)) (hp : ∀ x t, Word (pct x t)) (c : Column V) (i : ℕ) :
    ',' :: printCell fmt pct c i = (c.fields fmt pct i).flatMap fun y => ',' :: y := by
  unfold printCell Column.fields
  cases c.data[i]? with
  | none => cases c.total <;> rfl
  | some x =>
    cases c.total with
    | none => simp [firstWord_word _ (hf x).2]
    | some t =>
      have : firstWord (fmt x ++ ',' :: (pct x t ++ ['%'])) = fmt x ++ ',' :: (pct x t ++ ['%']) := by
        apply firstWord_word
        intro c hc
        rcases List.mem_append.mp hc with hc | hc
        · exact (hf x).2 c hc
        rcases List.mem_cons.mp hc with rfl | hc
        · decide
        rcases List.mem_append.mp hc with hc | hc
        · exact (hp x t).2 c hc
        · rw [List.mem_singleton.mp hc]; decide
      simp [this]

theorem name_eq {V : Type} (c : Column V) : ',' :: printName c = c.heads.flatMap fun y => ',' :: y := by
  unfold printName Column.heads
  cases c.total <;> simp

theorem print_eq {V : Type} (fmt : V → List Char) (pct : V → V → List Char) (d : DB V) (ok : Ok fmt pct d) :
    printCSV fmt pct d = (table fmt pct d).flatMap fun r => [','].intercalate r ++ ['\n'] := by
  unfold printCSV table
  rw [List.flatMap_cons, inter_cons, flat_flat d.cols Column.heads _ (fun c _ => name_eq c)]
  simp only [List.append_assoc, List.cons_append, List.nil_append, List.flatMap_map]
  congr 3
  congr 1
  funext i
  rw [inter_cons, flat_flat d.cols (fun c => c.fields fmt pct i) _ (fun c _ => cell_eq fmt pct ok.fmt ok.pct c i)]
  simp

theorem plain_digits (n : ℕ) : Plain (showN n) := fun c hc =>
  ⟨(isDigit_sep c (showN_digits n c hc)).1, (isDigit_sep c (showN_digits n c hc)).2.1⟩

theorem table_plain {V : Type} (fmt : V → List Char) (pct : V → V → List Char) (d : DB V) (ok : Ok fmt pct d) :
    ∀ r ∈ table fmt pct d, r ≠ [] ∧ ∀ f ∈ r, Plain f := by
  intro r hr
  unfold table at hr
  rcases List.mem_cons.mp hr with rfl | hr
  · refine ⟨by simp, fun f hf => ?_⟩
    rcases List.mem_cons.mp hf with rfl | hf
    · exact ok.row
    · obtain ⟨c, hc, hfc⟩ := List.mem_flatMap.mp hf
      unfold Column.heads at hfc
      split at hfc
      · rcases List.mem_cons.mp hfc with rfl | hfc
        · exact ok.name c hc
        · rw [List.mem_singleton.mp hfc]
          intro a ha
          rcases List.mem_append.mp ha with ha | ha
          · exact ok.name c hc a ha
          · simp only [List.mem_cons, List.not_mem_nil, or_false] at ha
            rcases ha with rfl | rfl | rfl | rfl <;> decide
      · rw [List.mem_singleton.mp hfc]; exact ok.name c hc
  · obtain ⟨i, _, rfl⟩ := List.mem_map.mp hr
    refine ⟨by simp, fun f hf => ?_⟩
    rcases List.mem_cons.mp hf with rfl | hf
    · exact plain_digits i
    · obtain ⟨c, hc, hfc⟩ := List.mem_flatMap.mp hf
      unfold Column.fields at hfc
      have hnil : Plain [] := fun _ h => by cases h
      split at hfc
      · rename_i x _ _; rw [List.mem_singleton.mp hfc]; exact (ok.fmt x).1
      · rename_i x t _ _
        rcases List.mem_cons.mp hfc with rfl | hfc
        · exact (ok.fmt x).1
        · rw [List.mem_singleton.mp hfc]
          intro a ha
          rcases List.mem_append.mp ha with ha | ha
          · exact (ok.pct x t).1 a ha
          · rw [List.mem_singleton.mp ha]; decide
      · simp only [List.mem_cons, List.not_mem_nil, or_false, or_self] at hfc
        rw [hfc]; exact hnil
      · rw [List.mem_singleton.mp hfc]; exact hnil

theorem splitOn_lines (rows : List (List Char)) (h : ∀ r ∈ rows, '\n' ∉ r) : (rows.flatMap fun r => r ++ ['\n']).splitOn '\n' = rows ++ [[]] := by
  have e : (rows.flatMap fun r => r ++ ['\n']) = ['\n'].intercalate (rows ++ [[]]) := by
    induction rows with
    | nil => simp [List.intercalate]
    | cons r rows ih =>
      rw [List.flatMap_cons, ih (fun a ha => h a (by simp [ha])), List.cons_append]
      cases rows with
      | nil => simp [List.intercalate]
      | cons s rows => rw [List.cons_append, List.intercalate_cons_cons]
  rw [e]
  apply List.splitOn_intercalate
  · intro l hl
    rcases List.mem_append.mp hl with hl | hl
    · exact h l hl
    · rw [List.mem_singleton.mp hl]; simp
  · simp

/-! ## C60 -/

/-- C60 (partial): for every database, the file holds exactly one row of headings and one row for each row of the database, in order; each entry of a column is
at its place, and missing entries are empty. Missing: names and values with commas, line ends or spaces, see the negations. -/
theorem C60_table_partial {V : Type} (fmt : V → List Char) (pct : V → V → List Char) (d : DB V) (ok : Ok fmt pct d) :
    parseCSV (printCSV fmt pct d) = table fmt pct d := by
  have hp := table_plain fmt pct d ok
  rw [print_eq fmt pct d ok]
  unfold parseCSV
  have e : ((table fmt pct d).flatMap fun r => [','].intercalate r ++ ['\n']) =
      ((table fmt pct d).map fun r => [','].intercalate r).flatMap fun r => r ++ ['\n'] := by rw [List.flatMap_map]
  rw [e, splitOn_lines]
  · rw [List.dropLast_concat, List.map_map]
    conv_rhs => rw [← List.map_id (table fmt pct d)]
    apply List.map_congr_left
    intro r hr
    rw [Function.comp]
    exact List.splitOn_intercalate ',' (fun f hf hc => ((hp r hr).2 f hf ',' hc).1 rfl) (hp r hr).1
  · intro r hr
    obtain ⟨s, hs, rfl⟩ := List.mem_map.mp hr
    cases s with
    | nil => exact absurd rfl (hp _ hs).1
    | cons x l =>
      rw [inter_cons]
      intro hm
      rcases List.mem_append.mp hm with hm | hm
      · exact ((hp _ hs).2 x (by simp) '\n' hm).2 rfl
      · obtain ⟨y, hy, hm⟩ := List.mem_flatMap.mp hm
        rcases List.mem_cons.mp hm with hm | hm
        · revert hm; decide
        · exact ((hp _ hs).2 y (by simp [hy]) '\n' hm).2 rfl

/-- C60: the file has one more row than the database, and all rows have the same number of fields: one, and one or two for each column. -/
theorem C60_shape {V : Type} (fmt : V → List Char) (pct : V → V → List Char) (d : DB V) (ok : Ok fmt pct d) :
    (parseCSV (printCSV fmt pct d)).length = d.nRows + 1 ∧
      ∀ r ∈ parseCSV (printCSV fmt pct d), r.length = 1 + (d.cols.map Column.width).sum := by
  rw [C60_table_partial fmt pct d ok]
  have h1 : ∀ (l : List (Column V)) (f : Column V → List (List Char)), (∀ c, (f c).length = c.width) →
      (l.flatMap f).length = (l.map Column.width).sum := by
    intro l f hf
    induction l with
    | nil => rfl
    | cons c l ih => rw [List.flatMap_cons, List.length_append, List.map_cons, List.sum_cons, ih, hf]
  constructor
  · simp [table]
  · intro r hr
    unfold table at hr
    rcases List.mem_cons.mp hr with rfl | hr
    · rw [List.length_cons, h1 _ _ (fun c => by unfold Column.heads Column.width; split <;> rfl)]
      omega
    · obtain ⟨i, _, rfl⟩ := List.mem_map.mp hr
      rw [List.length_cons, h1 _ _ (fun c => by unfold Column.fields Column.width; cases c.data[i]? <;> cases c.total <;> rfl)]
      omega

/-- C60: a column added with a type character has as many entries as the database has rows; a character that is not a type changes nothing. -/
theorem C60_add_column {V : Type} (dflt : Char → Option V) (d : DB V) (name : List Char) (t : Char) :
    (∀ v, dflt t = some v → ∃ c, addColumn dflt d name t = ⟨d.rowName, d.cols ++ [c], d.nRows⟩ ∧ c.name = name ∧ c.data.length = d.nRows ∧ ∀ x ∈ c.data, x = v) ∧
      (dflt t = none → addColumn dflt d name t = d) := by
  unfold addColumn
  constructor
  · intro v hv
    rw [hv]
    exact ⟨_, rfl, rfl, by simp, fun x hx => (List.mem_replicate.mp hx).2⟩
  · intro h; rw [h]

/-- C60: after the number of rows is set to `n`, the table that is written has the old headings and rows `0, …, n - 1`; the entries of each column are kept. -/
theorem C60_set_rows {V : Type} (fmt : V → List Char) (pct : V → V → List Char) (d : DB V) (n : ℕ) (ok : Ok fmt pct d) :
    parseCSV (printCSV fmt pct (setNRows d n)) = (d.rowName :: d.cols.flatMap Column.heads) :: (List.range n).map fun i => showN i :: d.cols.flatMap fun c => c.fields fmt pct i := by
  rw [C60_table_partial fmt pct (setNRows d n) ⟨ok.row, ok.name, ok.fmt, ok.pct⟩]
  rfl

/-- C60: clearing keeps the number of rows: the table that is written then has only row numbers. -/
theorem C60_clear {V : Type} (fmt : V → List Char) (pct : V → V → List Char) (d : DB V) (ok : Ok fmt pct d) :
    parseCSV (printCSV fmt pct (clear d)) = [d.rowName] :: (List.range d.nRows).map fun i => [showN i] := by
  rw [C60_table_partial fmt pct (clear d) ⟨ok.row, (fun c hc => nomatch hc), ok.fmt, ok.pct⟩]
  rfl

/-- C60 is false for a name with a comma: the row of headings has more fields than the other rows. -/
theorem C60_negation_comma :
    (parseCSV (printCSV (fun v : ℕ => showN v) (fun v _ => showN v) ⟨['R'], [⟨['x', ',', 'y'], [], none⟩], 1⟩)).map List.length = [3, 2] := by
  rfl

/-- C60 is false of values with a space: only the first word is written. -/
theorem C60_negation_space :
    parseCSV (printCSV (fun v : List Char => v) (fun v _ => v) ⟨['R'], [⟨['N'], [['a', ' ', 'b']], none⟩], 1⟩) = [[['R'], ['N']], [['0'], ['a']]] := by
  rfl

/-! ## Examples -/

/-- A database with a column with percentages and a column that is too short. -/
def exampleDB : DB ℕ := ⟨['R', 'o', 'w'], [⟨['A'], [5, 12], some 20⟩, ⟨['B', ' ', 'C'], [7], none⟩], 2⟩

theorem word_digits (n : ℕ) : Word (showN n) := by
  refine ⟨plain_digits n, fun c hc => ?_⟩
  have h := showN_digits n c hc
  by_contra hs
  rw [Bool.not_eq_false] at hs
  unfold isSpace at hs
  simp only [Bool.or_eq_true, beq_iff_eq] at hs
  rcases hs with ((rfl | rfl) | rfl) | rfl <;> exact absurd h (by decide)

example : Ok showN (fun x t => showN (x * 100 / t)) exampleDB := by
  refine ⟨by unfold Plain exampleDB; decide, ?_, word_digits, fun _ _ => word_digits _⟩
  intro c hc
  simp only [exampleDB, List.mem_cons, List.not_mem_nil, or_false] at hc
  rcases hc with rfl | rfl <;> (unfold Plain; decide)
example : table showN (fun x t => showN (x * 100 / t)) exampleDB =
    [[['R', 'o', 'w'], ['A'], ['A', ' ', '-', ' ', '%'], ['B', ' ', 'C']], [['0'], ['5'], ['2', '5', '%'], ['7']], [['1'], ['1', '2'], ['6', '0', '%'], []]] := by
  simp [table, exampleDB, Column.heads, Column.fields, showN, Verif.StoreLoad.dch, List.range_succ]

end Verif.Database
