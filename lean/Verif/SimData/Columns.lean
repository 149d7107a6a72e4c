import Mathlib.Logic.Function.Basic
import Mathlib.Tactic.Common

/-!
# C09: named data columns (`requestVectorData`, `addVectorData`, `getVectorData`, and the same for scalars
and integers)

Sources: `base/simdata.cpp:181-236, 396-412`, `base/simdata.tpp:165-169, 211-215, 259-263`.
The three families (vector, scalar, integer) are separate instances of the same logic.
-/

namespace Verif.Columns

/-- One family of columns: the map name → address (`vector_data_map`), its number of entries
(`vector_data_map.size()`), and the number of allocated columns (`nvectors()`). `simdata.hpp`. -/
structure Cols where
  map : String → Option ℕ
  mapSize : ℕ
  n : ℕ

/-- Before the constructor added anything. -/
def empty : Cols := { map := fun _ => none, mapSize := 0, n := 0 }

/-- `requestVectorData(name)`, `simdata.cpp:181-191` (scalar: 193-203, integer: 205-215). Returns the
address. -/
def request (name : String) (c : Cols) : Cols × ℕ :=
  match c.map name with
  | some a => (c, a)
  | none =>
    let n := c.n + 1
    ({ map := Function.update c.map name (some (n - 1)), mapSize := c.mapSize + 1, n := n }, n - 1)

/-- `addVectorData(name)`, `simdata.cpp:396-400`: emplaces `map.size()` (no effect if the name exists),
and always allocates one more column. -/
def add (name : String) (c : Cols) : Cols :=
  match c.map name with
  | some _ => { c with n := c.n + 1 }
  | none => { map := Function.update c.map name (some c.mapSize), mapSize := c.mapSize + 1, n := c.n + 1 }

/-- `getVectorData(name)`, `simdata.cpp:217-222`; `none` is -1. -/
def get (name : String) (c : Cols) : Option ℕ := c.map name

/-- The three families. -/
structure AllCols where
  vec : Cols
  sc : Cols
  int : Cols

/-- The constructor, `simdata.cpp:18-27`. -/
def ctor : AllCols :=
  { vec := add "F" (add "V" (add "X" empty)), sc := add "Im" (add "Sg" empty), int := add "ID" (add "Type" empty) }

/-- `ScalarData(name)` picks column `getScalarData(name)` if that is a valid scalar column,
`simdata.tpp:211-215, 198-209`. -/
def scalarByName (name : String) (a : AllCols) : Option ℕ :=
  (get name a.sc).filter (fun e => e < a.sc.n)

/-- `IntegerData(name)`, `simdata.tpp:259-263`: the code looks the name up with `getScalarData`. -/
def integerByName (name : String) (a : AllCols) : Option ℕ :=
  (get name a.sc).filter (fun e => e < a.int.n)

/-- A client's calls on one family. -/
inductive Op where
  | request (name : String)
  | add (name : String)

def step (c : Cols) : Op → Cols
  | .request s => (request s c).1
  | .add s => add s c

def run (c : Cols) (ops : List Op) : Cols := ops.foldl step c

/-- Every `add` in the history is for a name not yet present. -/
def AddsFresh : Cols → List Op → Prop
  | _, [] => True
  | c, .add s :: ops => get s c = none ∧ AddsFresh (add s c) ops
  | c, .request s :: ops => AddsFresh (request s c).1 ops

/-- Helper: the addresses are exactly `0 .. n-1`, without repetition. -/
structure Good (c : Cols) : Prop where
  size : c.mapSize = c.n
  lt : ∀ s a, c.map s = some a → a < c.n
  inj : ∀ s t a, c.map s = some a → c.map t = some a → s = t

theorem good_empty : Good empty := ⟨rfl, by simp [empty], by simp [empty]⟩

theorem good_insert {c : Cols} (h : Good c) {name : String} (hn : c.map name = none) :
    Good { map := Function.update c.map name (some c.n), mapSize := c.mapSize + 1, n := c.n + 1 } := by
  refine ⟨by simp [h.size], ?_, ?_⟩
  · intro s a hs
    simp only at hs
    by_cases e : s = name
    · subst e; simp at hs; simp only; omega
    · rw [Function.update_of_ne e] at hs; have := h.lt s a hs; simp only; omega
  · intro s t a hs ht
    simp only at hs ht
    by_cases e : s = name <;> by_cases e' : t = name
    · rw [e, e']
    · subst e; simp at hs; rw [Function.update_of_ne e'] at ht; have := h.lt t a ht; omega
    · subst e'; simp at ht; rw [Function.update_of_ne e] at hs; have := h.lt s a hs; omega
    · rw [Function.update_of_ne e] at hs; rw [Function.update_of_ne e'] at ht; exact h.inj s t a hs ht

theorem good_request {c : Cols} (h : Good c) (name : String) : Good (request name c).1 := by
  unfold request
  split
  · exact h
  · rename_i hn; exact good_insert h hn

theorem good_add {c : Cols} (h : Good c) {name : String} (hn : get name c = none) : Good (add name c) := by
  unfold add
  simp only [get] at hn
  rw [hn]
  simp only [h.size]
  have := good_insert h hn
  simpa [h.size] using this

theorem good_run : ∀ (ops : List Op) (c : Cols), Good c → AddsFresh c ops → Good (run c ops) := by
  intro ops
  induction ops with
  | nil => intro c h _; exact h
  | cons op ops ih =>
    intro c h hf
    cases op with
    | add s => exact ih _ (good_add h hf.1) hf.2
    | request s => exact ih _ (good_request h s) hf

theorem map_mono_step (c : Cols) (op : Op) {s : String} {a : ℕ} (h : c.map s = some a) :
    (step c op).map s = some a := by
  cases op with
  | add t =>
    simp only [step, add]
    split
    · exact h
    · rename_i hn
      have : s ≠ t := by rintro rfl; rw [h] at hn; cases hn
      simp [Function.update_of_ne this, h]
  | request t =>
    simp only [step, request]
    split
    · exact h
    · rename_i hn
      have : s ≠ t := by rintro rfl; rw [h] at hn; cases hn
      simp [Function.update_of_ne this, h]

theorem map_mono : ∀ (ops : List Op) (c : Cols) {s : String} {a : ℕ}, c.map s = some a →
    (run c ops).map s = some a := by
  intro ops
  induction ops with
  | nil => intro c s a h; exact h
  | cons op ops ih => intro c s a h; exact ih _ (map_mono_step c op h)

theorem ctor_good : Good ctor.vec ∧ Good ctor.sc ∧ Good ctor.int := by
  refine ⟨?_, ?_, ?_⟩ <;> unfold ctor <;> simp only
  · refine good_add (good_add (good_add good_empty rfl) ?_) ?_ <;> decide
  · refine good_add (good_add good_empty rfl) ?_; decide
  · refine good_add (good_add good_empty rfl) ?_; decide

/-- **C09 (requests).** Start from any of the families the constructor sets up, and perform any sequence of
`request`s, interleaved with `add`s of new names. Then requesting a name
* returns an allocated column, * the same one as any later request or lookup of that name returns, whatever
happens in between, * and a different one from any other name's column. * `get` of a name returns the
requested column, and -1 only for names never requested or added. -/
theorem C09_columns_stable_partial (c0 : Cols) (h0 : c0 = ctor.vec ∨ c0 = ctor.sc ∨ c0 = ctor.int)
    (ops ops' : List Op) (hf : AddsFresh c0 ops) (name : String)
    (hf' : AddsFresh (request name (run c0 ops)).1 ops') :
    let c := run c0 ops
    let r := request name c
    let c' := run r.1 ops'
    r.2 < r.1.n ∧ get name c' = some r.2 ∧ (request name c').2 = r.2 ∧
    (∀ other, other ≠ name → (request other c').2 ≠ r.2) ∧
    (get name c = none ∨ get name c = some r.2) := by
  have hg0 : Good c0 := by
    rcases h0 with h | h | h <;> rw [h]
    · exact ctor_good.1
    · exact ctor_good.2.1
    · exact ctor_good.2.2
  have hg := good_run ops c0 hg0 hf
  generalize hc : run c0 ops = c at *
  intro c1 r c'
  have hr : Good r.1 := good_request hg name
  have hm : r.1.map name = some r.2 := by
    simp only [r, request]
    split
    · rename_i a ha; exact ha
    · simp
  have hm' : c'.map name = some r.2 := map_mono ops' _ hm
  have hg' : Good c' := good_run ops' _ hr hf'
  refine ⟨hr.lt _ _ hm, hm', ?_, ?_, ?_⟩
  · simp [request, hm']
  · intro other hne he
    have hgo := good_request hg' other
    have h1 : (request other c').1.map other = some (request other c').2 := by
      simp only [request]
      split
      · rename_i a ha; exact ha
      · simp
    have h2 : (request other c').1.map name = some r.2 := map_mono_step c' (.request other) hm'
    rw [he] at h1
    exact hne (hgo.inj _ _ _ h1 h2)
  · simp only [r, c1, request, get]
    split
    · rename_i a ha; exact Or.inr ha
    · rename_i ha; exact Or.inl ha

example : AddsFresh ctor.sc [.request "Om", .add "Tq", .request "StripeX"] := by
  refine ⟨?_, trivial⟩
  decide

/-- Adding a name that already exists (the case excluded above) breaks it: two different names end up with
the same column. -/
theorem C09_negation_duplicate_add :
    let c := run ctor.sc [.add "Sg", .request "A", .add "B"]
    get "A" c = some 3 ∧ get "B" c = some 3 := by decide

/-- `ScalarData(name)` finds the scalar column. -/
theorem C09_scalar_by_name (a : AllCols) (h : Good a.sc) (name : String) :
    scalarByName name a = get name a.sc := by
  unfold scalarByName
  cases e : get name a.sc with
  | none => rfl
  | some k => simp [Option.filter, h.lt name k e]

/-- `IntegerData(name)` does not find integer columns: after requesting integer column "Side" (as the demon
modifier does), the access by name yields the null accessor, and for the scalar name "Sg" it returns integer
column 0, i.e. the particle types. -/
theorem C09_negation_integer_by_name :
    let a := { ctor with int := (request "Side" ctor.int).1 }
    get "Side" a.int = some 2 ∧ integerByName "Side" a = none ∧ integerByName "Sg" a = some 0 := by decide

end Verif.Columns
