import Mathlib.Data.Nat.Digits.Defs
import Mathlib.Data.Nat.Digits.Lemmas
import Mathlib.Data.List.Basic
import Mathlib.Algebra.Order.Field.Rat
import Mathlib.Algebra.Order.Ring.Int
import Mathlib.Tactic.Linarith
import Mathlib.Tactic.NormNum
import Mathlib.Tactic.FieldSimp

/-!
# Snapshots: storing, writing and loading (C58, C78)

Models `compute/store_data.cpp` and `compute/load_data.cpp`. A file is its text. The number formatting and reading of the library is a
parameter for floating point numbers (`showF`, `showB`, `readF`), and decimal notation for integers. A variable that is read before it was
set makes the result `none`.
-/

namespace Verif.StoreLoad

/-! ## Integers in decimal notation -/

/-- The character of a digit. -/
def dch (d : ℕ) : Char := Char.ofNat (48 + d)

/-- Writing an integer that is not negative to a stream. -/
def showN (n : ℕ) : List Char := if n = 0 then ['0'] else (Nat.digits 10 n).reverse.map dch

/-- Reading an integer from a stream: the leading digits; `none` if there are none (the variable is not set). Signs are not modelled: no integer of a
file is negative. -/
def readN (t : List Char) : Option ℕ :=
  if t.takeWhile Char.isDigit = [] then none
  else some ((t.takeWhile Char.isDigit).foldl (fun v c => 10 * v + (c.toNat - 48)) 0)

/-! ## Writing -/

/-- Texts separated by commas: the loops `fout << x; if (i!=size-1) fout << ","`, e.g. `compute/store_data.cpp:251-254` and `toCSV`,
`utility/printingutility.hpp:10-19`. -/
def csv : List (List Char) → List Char
  | [] => []
  | [x] => x
  | x :: y :: l => x ++ ',' :: csv (y :: l)

/-- The loop over magnitude entries, `compute/store_data.cpp:259-262`: `more` tells whether scalar entries follow. -/
def magText (more : Bool) : List (List Char) → List Char
  | [] => []
  | [x] => x ++ ['-', 'M'] ++ if more then [','] else []
  | x :: y :: l => x ++ ['-', 'M'] ++ ',' :: magText more (y :: l)

/-- The members of `StoreData` that are written, `compute/store_data.hpp:45-80`. -/
structure Header (F : Type) where
  width : ℕ
  dims : ℕ
  nTypes : ℕ
  bmin : List F
  bmax : List F
  vecs : List (List Char)
  mags : List (List Char)
  scas : List (List Char)
  ints : List (List Char)
  proc : Bool

section
variable {F : Type} (showF showB : F → List Char) (readF : List Char → Option F)

/-- `StoreData::writeHeader`, `compute/store_data.cpp:236-284`. -/
def headerText (h : Header F) (iters : ℕ) : List Char :=
  showN h.width ++ ',' :: (showN h.dims ++ ',' :: (showN iters ++ ',' :: (showN h.nTypes ++ '\n' ::
  ((h.bmin.flatMap fun b => showB b ++ [',']) ++ (csv (h.bmax.map showB) ++ '\n' ::
  (showN h.vecs.length ++ ',' :: (csv h.vecs ++ '\n' ::
  (showN (h.mags.length + h.scas.length) ++ ',' :: (magText (!h.scas.isEmpty) h.mags ++ (csv h.scas ++ '\n' ::
  (showN (h.ints.length + if h.proc then 1 else 0) ++ ',' :: (csv h.ints ++
    ((if h.proc then (if 1 < h.ints.length + 1 then ",Proc".toList else "Proc".toList) else []) ++ ['\n'])))))))))))))

/-- One line of data, `compute/store_data.cpp:193-196`. -/
def frameText (v : List F) : List Char :=
  if v = [] then ['0', '\n'] else showN v.length ++ ',' :: (csv (v.map showF) ++ ['\n'])

/-- `StoreData::write`, `compute/store_data.cpp:184-201`, for a file that can be opened. -/
def write (h : Header F) (frames : List (List F)) : List Char :=
  headerText showB h frames.length ++ frames.flatMap (frameText showF)

/-! ## Loading -/

/-- The characters up to the next comma or end of line, and what follows it: the loop in `getNextNumber`, `compute/load_data.hpp:29-37`, before
the characters are selected. -/
def field (t : List Char) : List Char × List Char :=
  (t.takeWhile fun c => c ≠ ',' && c ≠ '\n', (t.dropWhile fun c => c ≠ ',' && c ≠ '\n').drop 1)

/-- The characters of numbers, `compute/load_data.hpp:34`. -/
def keep (c : Char) : Bool := c.isDigit || c == '.' || c == '-' || c == 'e' || c == 'E'

/-- `getNextNumber<int>`, `compute/load_data.hpp:28-43`. -/
def nextN (t : List Char) : Option (ℕ × List Char) := (readN ((field t).1.filter keep)).map fun n => (n, (field t).2)

/-- `getNextNumber<float>`, `compute/load_data.hpp:28-43`. -/
def nextF (t : List Char) : Option (F × List Char) := (readF ((field t).1.filter keep)).map fun n => (n, (field t).2)

/-- `getNextString`, `compute/load_data.cpp:107-118`. -/
def nextS (t : List Char) : Option (List Char × List Char) :=
  some (t.takeWhile fun c => c ≠ ',' && c ≠ '\n' && c ≠ '\r', (t.dropWhile fun c => c ≠ ',' && c ≠ '\n' && c ≠ '\r').drop 1)

/-- A loop that reads `n` values. -/
def readMany {β : Type} (r : List Char → Option (β × List Char)) : ℕ → List Char → Option (List β × List Char)
  | 0, t => some ([], t)
  | n + 1, t =>
    match r t with
    | none => none
    | some (x, t') => (readMany r n t').map fun q => (x :: q.1, q.2)

/-- A length and as many values. -/
def readList {β : Type} (r : List Char → Option (β × List Char)) (t : List Char) : Option (List β × List Char) :=
  match nextN t with
  | none => none
  | some (n, t') => readMany r n t'

/-- What `LoadData` holds, `compute/load_data.hpp:48-63`. -/
structure Loaded (F : Type) where
  width : ℕ
  dims : ℕ
  nTypes : ℕ
  bmin : List F
  bmax : List F
  vecs : List (List Char)
  scas : List (List Char)
  ints : List (List Char)
  data : List (List F)

/-- `LoadData::load`, `compute/load_data.cpp:11-65`, into a new object. -/
def load (t : List Char) : Option (Loaded F) :=
  (nextN t).bind fun (w, t) => (nextN t).bind fun (d, t) => (nextN t).bind fun (samples, t) => (nextN t).bind fun (nt, t) =>
  (readMany (nextF readF) d t).bind fun (mins, t) => (readMany (nextF readF) d t).bind fun (maxs, t) =>
  (readList nextS t).bind fun (vs, t) => (readList nextS t).bind fun (ss, t) => (readList nextS t).bind fun (is, t) =>
  (readMany (readList (nextF readF)) samples t).map fun (fs, _) => ⟨w, d, nt, mins, maxs, vs, ss, is, fs⟩
end

/-! ## Specification -/

/-- A name that can be written: no separators. -/
def NameOk (n : List Char) : Prop := ∀ c ∈ n, c ≠ ',' ∧ c ≠ '\n' ∧ c ≠ '\r'

/-- A header that can be written: names are legal, each list of names has an entry, and the bounds have one value for each of at least one
dimension. -/
structure HeaderOk {F : Type} (h : Header F) : Prop where
  vecs : ∀ n ∈ h.vecs, NameOk n
  mags : ∀ n ∈ h.mags, NameOk n
  scas : ∀ n ∈ h.scas, NameOk n
  ints : ∀ n ∈ h.ints, NameOk n
  vec : h.vecs ≠ []
  sca : h.mags ≠ [] ∨ h.scas ≠ []
  int : h.ints ≠ [] ∨ h.proc = true
  bmin : h.bmin.length = h.dims
  bmax : h.bmax.length = h.dims
  dims : 0 < h.dims

/-- Numbers are written without separators, and what is read from the text of `x` is `rd x`. -/
structure NumOk {F : Type} (sh : F → List Char) (readF : List Char → Option F) (rd : F → F) : Prop where
  sep : ∀ x, ∀ c ∈ sh x, c ≠ ',' ∧ c ≠ '\n'
  read : ∀ x, readF ((sh x).filter keep) = some (rd x)

/-! ## Lemmas -/

theorem dch_digit (d : ℕ) (h : d < 10) : (dch d).isDigit = true ∧ (dch d).toNat - 48 = d := by
  interval_cases d <;> decide

theorem showN_digits (n : ℕ) : ∀ c ∈ showN n, c.isDigit = true := by
  unfold showN
  split
  · decide
  · intro c hc
    obtain ⟨d, hd, rfl⟩ := List.mem_map.mp hc
    exact (dch_digit d (Nat.digits_lt_base (by norm_num) (List.mem_reverse.mp hd))).1

theorem isDigit_sep (c : Char) (h : c.isDigit = true) : c ≠ ',' ∧ c ≠ '\n' ∧ c ≠ '\r' := by
  refine ⟨?_, ?_, ?_⟩ <;> (rintro rfl; revert h; decide)

theorem foldl_digits (l : List ℕ) (h : ∀ d ∈ l, d < 10) (v : ℕ) :
    (l.map dch).foldl (fun v c => 10 * v + (c.toNat - 48)) v = l.foldl (fun v d => 10 * v + d) v := by
  induction l generalizing v with
  | nil => rfl
  | cons d l ih =>
    rw [List.map_cons, List.foldl_cons, List.foldl_cons, (dch_digit d (h d (by simp))).2]
    exact ih (fun e he => h e (by simp [he])) _

theorem foldl_ofDigits (l : List ℕ) : l.reverse.foldl (fun v d => 10 * v + d) 0 = Nat.ofDigits 10 l := by
  induction l with
  | nil => rfl
  | cons d l ih => rw [List.reverse_cons, List.foldl_append, ih, Nat.ofDigits_cons]; simp; omega

theorem takeWhile_self {α : Type} (q : α → Bool) (l : List α) (h : ∀ x ∈ l, q x = true) : l.takeWhile q = l := by
  induction l with
  | nil => rfl
  | cons x l ih => rw [List.takeWhile_cons, h x (by simp), ih (fun y hy => h y (by simp [hy]))]; rfl

theorem csv_cons_cons (x y : List Char) (l : List (List Char)) : csv (x :: y :: l) = x ++ ',' :: csv (y :: l) := rfl

theorem readN_showN (n : ℕ) : readN (showN n) = some n := by
  have h1 : (showN n).takeWhile Char.isDigit = showN n := by
    exact takeWhile_self _ _ (showN_digits n)
  unfold readN
  rw [h1]
  have h2 : showN n ≠ [] := by
    unfold showN
    split
    · simp
    · rename_i h; simpa [Nat.digits_ne_nil_iff_ne_zero] using h
  rw [if_neg h2]
  congr 1
  unfold showN
  split
  · rename_i h; rw [h]; decide
  · rw [foldl_digits _ (fun d hd => Nat.digits_lt_base (by norm_num) (List.mem_reverse.mp hd)), foldl_ofDigits, Nat.ofDigits_digits]

theorem filter_showN (n : ℕ) : (showN n).filter keep = showN n := by
  rw [List.filter_eq_self]
  intro c hc
  unfold keep
  rw [showN_digits n c hc]
  rfl

/-- Separators of numbers. -/
def Sep (c : Char) : Prop := c = ',' ∨ c = '\n'

theorem field_append (x : List Char) (hx : ∀ c ∈ x, c ≠ ',' ∧ c ≠ '\n') (c : Char) (hc : Sep c) (rest : List Char) :
    field (x ++ c :: rest) = (x, rest) := by
  have h1 : ∀ a ∈ x, (decide (a ≠ ',') && decide (a ≠ '\n')) = true := by
    intro a ha; simpa using hx a ha
  have h2 : (decide (c ≠ ',') && decide (c ≠ '\n')) = false := by
    rcases hc with rfl | rfl <;> decide
  unfold field
  rw [List.takeWhile_append_of_pos h1, List.dropWhile_append_of_pos h1, List.takeWhile_cons, List.dropWhile_cons, h2]
  simp

theorem nextN_append (n : ℕ) (c : Char) (hc : Sep c) (rest : List Char) : nextN (showN n ++ c :: rest) = some (n, rest) := by
  unfold nextN
  rw [field_append _ (fun c hc => ⟨(isDigit_sep c (showN_digits n c hc)).1, (isDigit_sep c (showN_digits n c hc)).2.1⟩) c hc]
  simp only [filter_showN, readN_showN, Option.map_some]

/-- A reader of texts: it reads `v` from the text `x` if a separator follows. -/
def Reads {β : Type} (r : List Char → Option (β × List Char)) (x : List Char) (v : β) : Prop :=
  ∀ c, Sep c → ∀ rest, r (x ++ c :: rest) = some (v, rest)

theorem reads_F {F : Type} {sh : F → List Char} {readF rd} (h : NumOk sh readF rd) (x : F) : Reads (nextF readF) (sh x) (rd x) := by
  intro c hc rest
  unfold nextF
  rw [field_append _ (h.sep x) c hc]
  simp only [h.read, Option.map_some]

theorem reads_S (n : List Char) (h : NameOk n) : Reads nextS n n := by
  intro c hc rest
  have h1 : ∀ a ∈ n, (decide (a ≠ ',') && decide (a ≠ '\n') && decide (a ≠ '\r')) = true := by
    intro a ha; simpa [and_assoc] using h a ha
  have h2 : (decide (c ≠ ',') && decide (c ≠ '\n') && decide (c ≠ '\r')) = false := by
    rcases hc with rfl | rfl <;> decide
  unfold nextS
  rw [List.takeWhile_append_of_pos h1, List.dropWhile_append_of_pos h1, List.takeWhile_cons, List.dropWhile_cons, h2]
  simp

theorem readMany_csv {β γ : Type} (r : List Char → Option (β × List Char)) (sh : γ → List Char) (v : γ → β) (l : List γ) (hl : l ≠ [])
    (h : ∀ x ∈ l, Reads r (sh x) (v x)) (c : Char) (hc : Sep c) (rest : List Char) :
    readMany r l.length (csv (l.map sh) ++ c :: rest) = some (l.map v, rest) := by
  induction l with
  | nil => exact absurd rfl hl
  | cons x l ih =>
    cases l with
    | nil =>
      simp only [List.map_cons, List.map_nil, csv, List.length_cons, List.length_nil, readMany, h x (by simp) c hc rest]
      rfl
    | cons y l =>
      have := ih (by simp) (fun z hz => h z (by simp [hz]))
      rw [List.map_cons, List.map_cons, csv, List.length_cons, readMany, List.append_assoc, List.cons_append,
        h x (by simp) ',' (Or.inl rfl)]
      simp only
      rw [List.map_cons] at this
      rw [this]
      rfl

theorem readMany_flat {β γ : Type} (r : List Char → Option (β × List Char)) (sh : γ → List Char) (v : γ → β) (l : List γ)
    (h : ∀ x ∈ l, Reads r (sh x) (v x)) (rest : List Char) :
    readMany r l.length ((l.flatMap fun x => sh x ++ [',']) ++ rest) = some (l.map v, rest) := by
  induction l with
  | nil => rfl
  | cons x l ih =>
    rw [List.flatMap_cons, List.length_cons, readMany]
    simp only [List.append_assoc, List.cons_append, List.nil_append]
    rw [h x (by simp) ',' (Or.inl rfl)]
    simp only
    rw [ih (fun z hz => h z (by simp [hz]))]
    rfl

theorem readList_csv {β γ : Type} (r : List Char → Option (β × List Char)) (sh : γ → List Char) (v : γ → β) (l : List γ) (hl : l ≠ [])
    (h : ∀ x ∈ l, Reads r (sh x) (v x)) (c : Char) (hc : Sep c) (rest : List Char) :
    readList r (showN l.length ++ ',' :: (csv (l.map sh) ++ c :: rest)) = some (l.map v, rest) := by
  unfold readList
  rw [nextN_append _ ',' (Or.inl rfl)]
  simp only
  exact readMany_csv r sh v l hl h c hc rest

theorem csv_append (a b : List (List Char)) (hb : b ≠ []) (ha : a ≠ []) : csv (a ++ b) = csv a ++ ',' :: csv b := by
  induction a with
  | nil => exact absurd rfl ha
  | cons x a ih =>
    cases a with
    | nil =>
      cases b with
      | nil => exact absurd rfl hb
      | cons y b => rfl
    | cons y a =>
      have := ih (by simp)
      simp only [List.cons_append] at this ⊢
      rw [csv_cons_cons, csv_cons_cons, this]
      simp

theorem magText_eq (more : Bool) (l : List (List Char)) (hl : l ≠ []) :
    magText more l = csv (l.map fun x => x ++ ['-', 'M']) ++ if more then [','] else [] := by
  induction l with
  | nil => exact absurd rfl hl
  | cons x l ih =>
    cases l with
    | nil => rfl
    | cons y l =>
      rw [magText, ih (by simp), List.map_cons, List.map_cons, List.map_cons, csv_cons_cons]
      simp

/-- The names of scalars as they are written: first the magnitudes. -/
def scalarNames {F : Type} (h : Header F) : List (List Char) := (h.mags.map fun x => x ++ ['-', 'M']) ++ h.scas

theorem scalar_text {F : Type} (h : Header F) (rest : List Char) :
    magText (!h.scas.isEmpty) h.mags ++ (csv h.scas ++ rest) = csv (scalarNames h) ++ rest := by
  unfold scalarNames
  by_cases hm : h.mags = []
  · rw [hm]; rfl
  · rw [magText_eq _ _ hm]
    by_cases hs : h.scas = []
    · simp [hs, csv]
    · rw [csv_append _ _ hs (by simpa using hm)]
      have : h.scas.isEmpty = false := by simpa using hs
      simp [this]

/-- The names of integers as they are written: the processor is the last. -/
def intNames {F : Type} (h : Header F) : List (List Char) := h.ints ++ if h.proc then ["Proc".toList] else []

theorem int_text {F : Type} (h : Header F) (rest : List Char) :
    csv h.ints ++ ((if h.proc then (if 1 < h.ints.length + 1 then ",Proc".toList else "Proc".toList) else []) ++ rest) =
      csv (intNames h) ++ rest := by
  unfold intNames
  cases h.proc with
  | false => simp
  | true =>
    by_cases hi : h.ints = []
    · rw [hi]; rfl
    · have : 1 < h.ints.length + 1 := by
        have := List.length_pos_iff.mpr hi
        omega
      simp only [if_true, if_pos this]
      rw [csv_append _ _ (by simp) hi]
      simp [csv]

theorem nameOk_proc : NameOk "Proc".toList := by
  intro c hc
  revert c
  decide

theorem frames_read {F : Type} (showF : F → List Char) (readF) (rd : F → F) (hF : NumOk showF readF rd) (fs : List (List F)) :
    readMany (readList (nextF readF)) fs.length (fs.flatMap (frameText showF)) = some (fs.map fun f => f.map rd, []) := by
  induction fs with
  | nil => rfl
  | cons f fs ih =>
    rw [List.flatMap_cons, List.length_cons, readMany]
    have : readList (nextF readF) (frameText showF f ++ fs.flatMap (frameText showF)) = some (f.map rd, fs.flatMap (frameText showF)) := by
      by_cases hf : f = []
      · subst hf
        have e0 : frameText showF [] = ['0', '\n'] := by unfold frameText; exact if_pos rfl
        rw [e0]
        have := nextN_append 0 '\n' (Or.inr rfl) (fs.flatMap (frameText showF))
        unfold readList
        rw [show ['0', '\n'] ++ fs.flatMap (frameText showF) = showN 0 ++ '\n' :: fs.flatMap (frameText showF) from rfl, this]
        rfl
      · have e0 : frameText showF f = showN f.length ++ ',' :: (csv (f.map showF) ++ ['\n']) := by unfold frameText; exact if_neg hf
        rw [e0]
        have := readList_csv (nextF readF) showF rd f hf (fun x _ => reads_F hF x) '\n' (Or.inr rfl) (fs.flatMap (frameText showF))
        simpa using this
    rw [this]
    simp only
    rw [ih]
    rfl

/-! ## C58 -/

/-- C58 (partial): loading a file that was written gives back the header, all names (magnitudes with `-M` added, and the processor as last
integer), the number of frames, and every frame, where each number `x` became `rd x`, the number its text denotes. Missing: headers with an empty list of
names (see the negations), and that `rd x = x`, which is false for texts of five digits, see `C58_negation_precision`. -/
theorem C58_load_partial {F : Type} (showF showB : F → List Char) (readF : List Char → Option F) (rd rb : F → F)
    (hF : NumOk showF readF rd) (hB : NumOk showB readF rb) (h : Header F) (ok : HeaderOk h) (frames : List (List F)) :
    load readF (write showF showB h frames) = some
      ⟨h.width, h.dims, h.nTypes, h.bmin.map rb, h.bmax.map rb, h.vecs, scalarNames h, intNames h, frames.map fun f => f.map rd⟩ := by
  have e1 := fun rest => readMany_flat (nextF readF) showB rb h.bmin (fun x _ => reads_F hB x) rest
  have hb : h.bmax ≠ [] := by
    intro h0
    have := ok.bmax
    rw [h0] at this
    have := ok.dims
    simp at *
    omega
  have e2 := fun rest => readMany_csv (nextF readF) showB rb h.bmax hb (fun x _ => reads_F hB x) '\n' (Or.inr rfl) rest
  rw [ok.bmin] at e1
  rw [ok.bmax] at e2
  have e3 := fun rest => readList_csv nextS id id h.vecs ok.vec (fun n hn => reads_S n (ok.vecs n hn)) '\n' (Or.inr rfl) rest
  have hs : ∀ n ∈ scalarNames h, NameOk n := by
    intro n hn
    rcases List.mem_append.mp hn with hn | hn
    · obtain ⟨m, hm, rfl⟩ := List.mem_map.mp hn
      intro c hc
      rcases List.mem_append.mp hc with hc | hc
      · exact ok.mags m hm c hc
      · simp only [List.mem_cons, List.not_mem_nil, or_false] at hc
        rcases hc with rfl | rfl <;> decide
    · exact ok.scas n hn
  have e4 := fun rest => readList_csv nextS id id (scalarNames h) (by
    unfold scalarNames
    rcases ok.sca with h0 | h0 <;> simp [h0]) (fun n hn => reads_S n (hs n hn)) '\n' (Or.inr rfl) rest
  have hi : ∀ n ∈ intNames h, NameOk n := by
    intro n hn
    rcases List.mem_append.mp hn with hn | hn
    · exact ok.ints n hn
    · split at hn
      · rw [List.mem_singleton.mp hn]; exact nameOk_proc
      · cases hn
  have e5 := fun rest => readList_csv nextS id id (intNames h) (by
    unfold intNames
    rcases ok.int with h0 | h0 <;> simp [h0]) (fun n hn => reads_S n (hi n hn)) '\n' (Or.inr rfl) rest
  have l4 : (scalarNames h).length = h.mags.length + h.scas.length := by simp [scalarNames]
  have l5 : (intNames h).length = h.ints.length + if h.proc then 1 else 0 := by
    unfold intNames
    cases h.proc <;> simp
  simp only [List.map_id, l4, l5] at e3 e4 e5
  unfold write headerText load
  simp only [List.append_assoc, List.cons_append, List.nil_append]
  rw [nextN_append _ ',' (Or.inl rfl)]
  simp only [Option.bind_some]
  rw [nextN_append _ ',' (Or.inl rfl)]
  simp only [Option.bind_some]
  rw [nextN_append _ ',' (Or.inl rfl)]
  simp only [Option.bind_some]
  rw [nextN_append _ '\n' (Or.inr rfl)]
  simp only [Option.bind_some]
  rw [e1]
  simp only [Option.bind_some]
  rw [e2]
  simp only [Option.bind_some]
  rw [e3]
  simp only [Option.bind_some]
  rw [scalar_text, e4]
  simp only [Option.bind_some]
  rw [int_text, e5]
  simp only [Option.bind_some]
  rw [frames_read showF readF rd hF]
  rfl

/-- C58: if every number is read back as it was, loading gives the frames themselves. -/
theorem C58_exact {F : Type} (showF showB : F → List Char) (readF : List Char → Option F)
    (hF : NumOk showF readF id) (hB : NumOk showB readF id) (h : Header F) (ok : HeaderOk h) (frames : List (List F)) :
    ∃ l, load readF (write showF showB h frames) = some l ∧ l.data = frames ∧ l.bmin = h.bmin ∧ l.bmax = h.bmax ∧
      l.width = h.width ∧ l.vecs = h.vecs := by
  refine ⟨_, C58_load_partial showF showB readF id id hF hB h ok frames, ?_⟩
  simp

/-- A number whose decimal notation has at most five digits: what `std::setprecision(5)` can write, `utility/printingutility.hpp:10-13`. -/
def FiveDigits (x : ℚ) : Prop := ∃ (m : ℤ) (e : ℤ), |m| < 100000 ∧ x = m * (10 : ℚ) ^ e

/-- C58 is false of exactness: whatever the formatting with five digits is, some number is not read back as it was: 100001 is not. -/
theorem C58_negation_precision (rd : ℚ → ℚ) (h : ∀ x, FiveDigits (rd x)) : rd 100001 ≠ 100001 := by
  intro h0
  obtain ⟨m, e, hm, he⟩ := h 100001
  rw [h0] at he
  rcases le_or_gt 0 e with h1 | h1
  · obtain ⟨k, rfl⟩ := Int.eq_ofNat_of_zero_le h1
    rw [zpow_natCast] at he
    have he' : (100001 : ℤ) = m * 10 ^ k := by exact_mod_cast he
    cases k with
    | zero =>
      rw [pow_zero, mul_one] at he'
      rw [← he'] at hm
      norm_num at hm
    | succ k =>
      rw [pow_succ] at he'
      have : (10 : ℤ) ∣ 100001 := ⟨m * 10 ^ k, by rw [he']; ring⟩
      norm_num at this
  · obtain ⟨k, hk⟩ : ∃ k : ℕ, e = -(k : ℤ) := ⟨(-e).toNat, by omega⟩
    rw [hk, zpow_neg, zpow_natCast] at he
    have hp : (0 : ℚ) < 10 ^ k := by positivity
    have he2 : (100001 : ℚ) * 10 ^ k = m := by
      rw [he]
      field_simp
    have he' : (100001 : ℤ) * 10 ^ k = m := by exact_mod_cast he2
    have h1k : (1 : ℤ) ≤ 10 ^ k := one_le_pow₀ (by norm_num)
    rw [abs_lt] at hm
    omega

theorem nextN_empty (c : Char) (hc : Sep c) (rest : List Char) : nextN (c :: rest) = none := by
  have := field_append [] (by simp) c hc rest
  rw [List.nil_append] at this
  unfold nextN
  rw [this]
  rfl

/-- C58 is false if no vector data is stored: the line `0,` leaves an empty field behind, from which the number of scalars is read. -/
theorem C58_negation_no_vectors {F : Type} (showF showB : F → List Char) (readF : List Char → Option F) (rb : F → F)
    (hB : NumOk showB readF rb) (h : Header F) (hv : h.vecs = []) (h1 : h.bmin.length = h.dims) (h2 : h.bmax.length = h.dims)
    (h3 : 0 < h.dims) (frames : List (List F)) : load readF (write showF showB h frames) = none := by
  have e1 := fun rest => readMany_flat (nextF readF) showB rb h.bmin (fun x _ => reads_F hB x) rest
  have hb : h.bmax ≠ [] := by
    intro h0
    rw [h0] at h2
    simp at h2
    omega
  have e2 := fun rest => readMany_csv (nextF readF) showB rb h.bmax hb (fun x _ => reads_F hB x) '\n' (Or.inr rfl) rest
  rw [h1] at e1
  rw [h2] at e2
  unfold write headerText load
  simp only [List.append_assoc, List.cons_append, List.nil_append]
  rw [nextN_append _ ',' (Or.inl rfl)]
  simp only [Option.bind_some]
  rw [nextN_append _ ',' (Or.inl rfl)]
  simp only [Option.bind_some]
  rw [nextN_append _ ',' (Or.inl rfl)]
  simp only [Option.bind_some]
  rw [nextN_append _ '\n' (Or.inr rfl)]
  simp only [Option.bind_some]
  rw [e1]
  simp only [Option.bind_some]
  rw [e2]
  simp only [Option.bind_some, hv, List.length_nil, csv, List.nil_append]
  rw [readList, nextN_append _ ',' (Or.inl rfl)]
  simp only [readMany, Option.bind_some]
  rw [readList, nextN_empty _ (Or.inr rfl)]
  rfl

/-- Numbers for the examples: natural numbers. -/
theorem numOk_nat : NumOk showN readN id := by
  refine ⟨fun x c hc => ?_, fun x => by rw [filter_showN, readN_showN]; rfl⟩
  have := isDigit_sep c (showN_digits x c hc)
  exact ⟨this.1, this.2.1⟩

/-- A header with two vectors, a magnitude, a scalar and the processor. -/
def exampleHeader : Header ℕ := ⟨8, 2, 1, [0, 0], [10, 12], [['X'], ['V']], [['F']], [['S', 'g']], [], true⟩

theorem exampleHeader_ok : HeaderOk exampleHeader := by
  refine ⟨?_, ?_, ?_, ?_, by decide, by decide, by decide, rfl, rfl, by decide⟩ <;>
  · unfold NameOk exampleHeader
    decide

example : (load readN (write showN showN exampleHeader [[1, 2, 30], []])).map (·.data) = some [[1, 2, 30], []] := by
  rw [C58_load_partial showN showN readN id id numOk_nat numOk_nat exampleHeader exampleHeader_ok]
  rfl
example : FiveDigits (12345 / 100) := ⟨12345, -2, by norm_num, by norm_num⟩

end Verif.StoreLoad
