import Mathlib.Data.Real.Basic
import Mathlib.Logic.Function.Basic
import Mathlib.Tactic.Linarith

/-!
# The vector type `Vec`: memory (C100)

Models the constructors, the destructor, the assignments and the element access of `utility/vec.hpp` with an explicit heap. A step has no
result when the program reads, writes or frees memory it does not own (or asks for an array of negative length). Numbers are exact.
-/

namespace Verif.VecMem

/-- A value of the member `data`: null, never initialised, or the address of an allocated array. -/
inductive Ptr where
  | null
  | wild
  | block (b : ℕ)
  deriving DecidableEq

/-- The members of `Vec`, `utility/vec.hpp:290-301`. -/
structure Obj where
  dims : ℤ
  data : Ptr
  deriving DecidableEq

/-- The memory of a program: the arrays allocated with `new`, the next unused address, and the vector variables that are alive. -/
structure Mem where
  heap : ℕ → Option (List ℝ)
  next : ℕ
  vars : ℕ → Option Obj

/-- Reading the first `n` entries behind a pointer (the loops over `dimensions`). -/
def readN (m : Mem) (p : Ptr) (n : ℕ) : Option (List ℝ) :=
  if n = 0 then some [] else
    match p with
    | .block b => (m.heap b).bind fun l => if n ≤ l.length then some (l.take n) else none
    | _ => none

/-- Writing the first entries behind a pointer. -/
def writeN (m : Mem) (p : Ptr) (vs : List ℝ) : Option Mem :=
  if vs = [] then some m else
    match p with
    | .block b => (m.heap b).bind fun l =>
        if vs.length ≤ l.length then some { m with heap := Function.update m.heap b (some (vs ++ l.drop vs.length)) } else none
    | _ => none

/-- `new RealType[n]`. Simplification: the entries are zero; the code always overwrites them. -/
def alloc (m : Mem) (n : ℕ) : Mem × Ptr :=
  ({ m with heap := Function.update m.heap m.next (some (List.replicate n 0)), next := m.next + 1 }, .block m.next)

/-- `if (data) delete [] data`. -/
def free (m : Mem) : Ptr → Option Mem
  | .null => some m
  | .wild => none
  | .block b => (m.heap b).map fun _ => { m with heap := Function.update m.heap b none }

/-- Changes the members of a variable. -/
def setVar (m : Mem) (x : ℕ) (o : Option Obj) : Mem := { m with vars := Function.update m.vars x o }

/-- `Vec(int d)`, `utility/vec.hpp:17-25`: the member `dimensions` is set before `d` is made nonnegative. -/
def newZero (m : Mem) (x : ℕ) (d : ℤ) : Option Mem :=
  if (m.vars x).isSome then none
  else if 0 < d then
    (writeN (alloc m d.toNat).1 (alloc m d.toNat).2 (List.replicate d.toNat 0)).map fun m' => setVar m' x (some ⟨d, (alloc m d.toNat).2⟩)
  else some (setVar m x (some ⟨d, .null⟩))

/-- `Vec(int d, const RealType *v)`, `utility/vec.hpp:28-36`: `data` is not initialised when `d` is not positive. `v` is the array that is
copied. -/
def newFrom (m : Mem) (x : ℕ) (d : ℤ) (v : List ℝ) : Option Mem :=
  if (m.vars x).isSome then none
  else if 0 < d then
    if d.toNat ≤ v.length then
      (writeN (alloc m d.toNat).1 (alloc m d.toNat).2 (v.take d.toNat)).map fun m' => setVar m' x (some ⟨d, (alloc m d.toNat).2⟩)
    else none
  else some (setVar m x (some ⟨d, .wild⟩))

/-- `Vec(const Vec& v)`, `utility/vec.hpp:39-44`. -/
def copyCtor (m : Mem) (x y : ℕ) : Option Mem :=
  if (m.vars x).isSome then none
  else (m.vars y).bind fun o =>
    if 0 < o.dims then
      (readN m o.data o.dims.toNat).bind fun l =>
        (writeN (alloc m o.dims.toNat).1 (alloc m o.dims.toNat).2 l).map fun m' => setVar m' x (some ⟨o.dims, (alloc m o.dims.toNat).2⟩)
    else some (setVar m x (some ⟨o.dims, .null⟩))

/-- `Vec(Vec&& v)`, `utility/vec.hpp:47-50`: the source keeps its `dimensions`. -/
def moveCtor (m : Mem) (x y : ℕ) : Option Mem :=
  if (m.vars x).isSome then none
  else (m.vars y).map fun o => setVar (setVar m y (some ⟨o.dims, .null⟩)) x (some o)

/-- `~Vec()`, `utility/vec.hpp:56-59`. -/
def destroy (m : Mem) (x : ℕ) : Option Mem := (m.vars x).bind fun o => (free m o.data).map fun m' => setVar m' x none

/-- `operator=(const Vec& v)`, `utility/vec.hpp:67-78`: a new array only when the numbers of dimensions differ. -/
def copyAssign (m : Mem) (x y : ℕ) : Option Mem :=
  (m.vars x).bind fun o => (m.vars y).bind fun o' =>
    if o'.dims ≠ o.dims then
      if o'.dims < 0 then none
      else (free m o.data).bind fun m₁ =>
        (readN (alloc m₁ o'.dims.toNat).1 o'.data o'.dims.toNat).bind fun l =>
          (writeN (alloc m₁ o'.dims.toNat).1 (alloc m₁ o'.dims.toNat).2 l).map fun m₂ =>
            setVar m₂ x (some ⟨o'.dims, (alloc m₁ o'.dims.toNat).2⟩)
    else (readN m o'.data o'.dims.toNat).bind fun l => writeN m o.data l

/-- `operator=(Vec&& v)`, `utility/vec.hpp:81-90`, in the order of the statements (`x` and `y` can be the same variable). -/
def moveAssign (m : Mem) (x y : ℕ) : Option Mem :=
  (m.vars x).bind fun o => (m.vars y).bind fun o' =>
    (free m o.data).map fun m₁ =>
      if x = y then setVar m₁ x (some ⟨o'.dims, .null⟩)
      else setVar (setVar m₁ x (some o')) y (some ⟨o'.dims, .null⟩)

/-- `x[i] = r` by `operator[]`, `utility/vec.hpp:126-134`; nothing is checked. -/
def setEntry (m : Mem) (x i : ℕ) (r : ℝ) : Option Mem :=
  (m.vars x).bind fun o =>
    match o.data with
    | .block b => (m.heap b).bind fun l => if i < l.length then some { m with heap := Function.update m.heap b (some (l.set i r)) } else none
    | _ => none

/-- A loop `for d: data[d] = f(data[d])` over all entries: `set1`, `zero`, `negate`, the second half of `normalize` and `operator*=`,
`utility/vec.hpp:137-149`, `164`, `250-253`. -/
def mapAll (m : Mem) (x : ℕ) (f : ℝ → ℝ) : Option Mem :=
  (m.vars x).bind fun o => (readN m o.data o.dims.toNat).bind fun l => writeN m o.data (l.map f)

/-- The entries of a variable as a user reads them, `operator[]` for all indices below `size()`. -/
def value (m : Mem) (x : ℕ) : Option (List ℝ) := (m.vars x).bind fun o => readN m o.data o.dims.toNat

/-- One statement of a program that uses vectors. -/
inductive Op where
  | zero (x : ℕ) (d : ℤ)
  | fromArray (x : ℕ) (d : ℤ) (v : List ℝ)
  | copyCtor (x y : ℕ)
  | moveCtor (x y : ℕ)
  | destroy (x : ℕ)
  | copyAssign (x y : ℕ)
  | moveAssign (x y : ℕ)
  | set (x i : ℕ) (r : ℝ)
  | mapAll (x : ℕ) (f : ℝ → ℝ)

/-- The statement in the implementation. -/
def step (m : Mem) : Op → Option Mem
  | .zero x d => newZero m x d
  | .fromArray x d v => newFrom m x d v
  | .copyCtor x y => Verif.VecMem.copyCtor m x y
  | .moveCtor x y => Verif.VecMem.moveCtor m x y
  | .destroy x => Verif.VecMem.destroy m x
  | .copyAssign x y => Verif.VecMem.copyAssign m x y
  | .moveAssign x y => Verif.VecMem.moveAssign m x y
  | .set x i r => setEntry m x i r
  | .mapAll x f => Verif.VecMem.mapAll m x f

/-- A program. -/
def run (m : Mem) : List Op → Option Mem
  | [] => some m
  | o :: os => (step m o).bind fun m' => run m' os

/-- Nothing allocated, no variables. -/
def emptyMem : Mem := ⟨fun _ => none, 0, fun _ => none⟩

/-! ## Specification: variables that hold values -/

/-- What a variable holds: a list of numbers, or nothing after its value was moved away. -/
inductive Val where
  | val (l : List ℝ)
  | moved

/-- The variables of a program, no memory. -/
abbrev Env := ℕ → Option Val

/-- What a statement means for values. No result for statements that a careful user does not write: a negative size, a copy of less than one
number from an array, the use of a variable whose value was moved away except to destroy it or to move something into it, a move of a variable
to itself, and an index out of range. -/
def specStep (e : Env) : Op → Option Env
  | .zero x d => if (e x).isNone ∧ 0 ≤ d then some (Function.update e x (some (.val (List.replicate d.toNat 0)))) else none
  | .fromArray x d v =>
      if (e x).isNone ∧ 0 < d ∧ d.toNat ≤ v.length then some (Function.update e x (some (.val (v.take d.toNat)))) else none
  | .copyCtor x y =>
      match e x, e y with
      | none, some (.val l) => some (Function.update e x (some (.val l)))
      | _, _ => none
  | .moveCtor x y =>
      match e x, e y with
      | none, some v => some (Function.update (Function.update e y (some .moved)) x (some v))
      | _, _ => none
  | .destroy x => if (e x).isSome then some (Function.update e x none) else none
  | .copyAssign x y =>
      match e x, e y with
      | some (.val _), some (.val l) => some (Function.update e x (some (.val l)))
      | _, _ => none
  | .moveAssign x y =>
      match e x, e y with
      | some _, some v => if x = y then none else some (Function.update (Function.update e y (some .moved)) x (some v))
      | _, _ => none
  | .set x i r =>
      match e x with
      | some (.val l) => if i < l.length then some (Function.update e x (some (.val (l.set i r)))) else none
      | _ => none
  | .mapAll x f =>
      match e x with
      | some (.val l) => some (Function.update e x (some (.val (l.map f))))
      | _ => none

/-- A program on values. -/
def specRun (e : Env) : List Op → Option Env
  | [] => some e
  | o :: os => (specStep e o).bind fun e' => specRun e' os

/-- No variables. -/
def emptyEnv : Env := fun _ => none

/-! ## Refinement -/

/-- A variable of the implementation holds a value. -/
def Holds (h : ℕ → Option (List ℝ)) : Option Obj → Option Val → Prop
  | none, none => True
  | some o, some (.val l) =>
      o.dims = l.length ∧
        match o.data with
        | .null => l = []
        | .wild => False
        | .block b => h b = some l
  | some o, some .moved => o.data = .null
  | _, _ => False

/-- The memory represents the values; every array belongs to exactly one variable. -/
structure R (m : Mem) (e : Env) : Prop where
  holds : ∀ x, Holds m.heap (m.vars x) (e x)
  inj : ∀ x y o o' b, m.vars x = some o → m.vars y = some o' → o.data = .block b → o'.data = .block b → x = y
  own : ∀ b l, m.heap b = some l → ∃ x o, m.vars x = some o ∧ o.data = .block b
  fresh : ∀ b, m.next ≤ b → m.heap b = none

theorem R_empty : R emptyMem emptyEnv := ⟨fun _ => trivial, (by intro x y o o' b h; cases h), (by intro b l h; cases h), fun _ _ => rfl⟩

theorem R.var_none {m : Mem} {e : Env} (r : R m e) {x : ℕ} (h : e x = none) : m.vars x = none := by
  have := r.holds x
  rw [h] at this
  cases hv : m.vars x with
  | none => rfl
  | some o => rw [hv] at this; exact this.elim

theorem R.var_some {m : Mem} {e : Env} (r : R m e) {x : ℕ} {v : Val} (h : e x = some v) : ∃ o, m.vars x = some o := by
  have := r.holds x
  rw [h] at this
  cases hv : m.vars x with
  | none => rw [hv] at this; cases v <;> exact this.elim
  | some o => exact ⟨o, rfl⟩

theorem Holds.frame {h : ℕ → Option (List ℝ)} {o : Option Obj} {v : Option Val} (H : Holds h o v) (b : ℕ) (l : Option (List ℝ))
    (hb : ∀ p, o = some p → p.data ≠ .block b) : Holds (Function.update h b l) o v := by
  rcases o with _ | ⟨n, p⟩ <;> rcases v with _ | (v | _)
  · trivial
  · exact H
  · exact H
  · exact H
  · refine ⟨H.1, ?_⟩
    have h2 := H.2
    cases p with
    | null => exact h2
    | wild => exact h2
    | block c =>
      have hne : c ≠ b := fun hc => hb _ rfl (by rw [hc])
      simp only [Function.update_of_ne hne]
      exact h2
  · exact H

theorem R.bindNew {m : Mem} {e : Env} (r : R m e) {x : ℕ} (hx : m.vars x = none) (l : List ℝ) :
    R ⟨Function.update m.heap m.next (some l), m.next + 1, Function.update m.vars x (some ⟨l.length, .block m.next⟩)⟩
      (Function.update e x (some (.val l))) := by
  have hne : ∀ y o, m.vars y = some o → o.data ≠ .block m.next := by
    intro y o hy hd
    have H := r.holds y
    rw [hy] at H
    rcases he : e y with _ | (v | _)
    · rw [he] at H; exact H
    · rw [he] at H
      have h2 := H.2
      rw [hd] at h2
      have := r.fresh m.next le_rfl
      simp only at h2
      rw [this] at h2
      cases h2
    · rw [he] at H
      have : o.data = .null := H
      rw [hd] at this; cases this
  refine ⟨?_, ?_, ?_, ?_⟩
  · intro y
    by_cases hy : y = x
    · subst hy; simp [Holds]
    · simp only [Function.update_of_ne hy]
      exact (r.holds y).frame _ _ fun p hp => hne y p hp
  · intro y z o o' b hy hz hb hb'
    by_cases h1 : y = x <;> by_cases h2 : z = x
    · rw [h1, h2]
    · subst h1
      simp only [Function.update_self, Function.update_of_ne h2, Option.some.injEq] at hy hz
      subst hy
      simp only [Ptr.block.injEq] at hb
      subst hb
      exact absurd hb' (hne z o' hz)
    · subst h2
      simp only [Function.update_self, Function.update_of_ne h1, Option.some.injEq] at hy hz
      subst hz
      simp only [Ptr.block.injEq] at hb'
      subst hb'
      exact absurd hb (hne y o hy)
    · simp only [Function.update_of_ne h1, Function.update_of_ne h2] at hy hz
      exact r.inj y z o o' b hy hz hb hb'
  · intro b l' hb
    by_cases h : b = m.next
    · subst h; exact ⟨x, _, Function.update_self .., rfl⟩
    · simp only [Function.update_of_ne h] at hb
      obtain ⟨y, o, hy, ho⟩ := r.own b l' hb
      have hyx : y ≠ x := by rintro rfl; rw [hx] at hy; cases hy
      exact ⟨y, o, by simp only [Function.update_of_ne hyx]; exact hy, ho⟩
  · intro b hb
    have hb' : m.next + 1 ≤ b := hb
    simp only [Function.update_of_ne (show b ≠ m.next by omega)]
    exact r.fresh b (by omega)

theorem R.bindNull {m : Mem} {e : Env} (r : R m e) {x : ℕ} (hx : m.vars x = none) (k : ℤ) (v : Val)
    (hv : Holds m.heap (some ⟨k, .null⟩) (some v)) :
    R (setVar m x (some ⟨k, .null⟩)) (Function.update e x (some v)) := by
  refine ⟨?_, ?_, ?_, r.fresh⟩
  · intro y
    by_cases hy : y = x
    · subst hy; simp only [setVar, Function.update_self]; exact hv
    · simp only [setVar, Function.update_of_ne hy]; exact r.holds y
  · intro y z o o' b hy hz hb hb'
    simp only [setVar] at hy hz
    by_cases h1 : y = x
    · subst h1; simp only [Function.update_self, Option.some.injEq] at hy; subst hy; cases hb
    · by_cases h2 : z = x
      · subst h2; simp only [Function.update_self, Option.some.injEq] at hz; subst hz; cases hb'
      · simp only [Function.update_of_ne h1, Function.update_of_ne h2] at hy hz
        exact r.inj y z o o' b hy hz hb hb'
  · intro b l hb
    obtain ⟨y, o, hy, ho⟩ := r.own b l hb
    have hyx : y ≠ x := by rintro rfl; rw [hx] at hy; cases hy
    exact ⟨y, o, by simp only [setVar, Function.update_of_ne hyx]; exact hy, ho⟩

/-- Destroying a variable: its array is released and belongs to no other variable. -/
theorem R.unbind {m : Mem} {e : Env} (r : R m e) {x : ℕ} {o : Obj} (hx : m.vars x = some o) :
    ∃ m', free m o.data = some m' ∧ m'.vars = m.vars ∧ m'.next = m.next ∧
      (∀ c, o.data ≠ .block c → m'.heap c = m.heap c) ∧ R (setVar m' x none) (Function.update e x none) := by
  obtain ⟨n, p⟩ := o
  cases p with
  | null =>
    refine ⟨m, rfl, rfl, rfl, fun _ _ => rfl, ?_, ?_, ?_, r.fresh⟩
    · intro y
      by_cases hy : y = x
      · subst hy; simp only [setVar, Function.update_self]; trivial
      · simp only [setVar, Function.update_of_ne hy]; exact r.holds y
    · intro y z o o' b hy hz hb hb'
      simp only [setVar] at hy hz
      by_cases h1 : y = x
      · subst h1; simp at hy
      · by_cases h2 : z = x
        · subst h2; simp at hz
        · simp only [Function.update_of_ne h1, Function.update_of_ne h2] at hy hz
          exact r.inj y z o o' b hy hz hb hb'
    · intro b l hb
      obtain ⟨y, o, hy, ho⟩ := r.own b l hb
      have hyx : y ≠ x := by rintro rfl; rw [hx] at hy; cases hy; cases ho
      exact ⟨y, o, by simp only [setVar, Function.update_of_ne hyx]; exact hy, ho⟩
  | wild =>
    have H := r.holds x
    rw [hx] at H
    rcases he : e x with _ | (v | _)
    · rw [he] at H; exact H.elim
    · rw [he] at H; exact H.2.elim
    · rw [he] at H; cases (show Ptr.wild = Ptr.null from H)
  | block b =>
    have H := r.holds x
    rw [hx] at H
    have hb : ∃ l, m.heap b = some l := by
      rcases he : e x with _ | (v | _)
      · rw [he] at H; exact H.elim
      · rw [he] at H; exact ⟨v, H.2⟩
      · rw [he] at H; cases (show Ptr.block b = Ptr.null from H)
    obtain ⟨l, hl⟩ := hb
    refine ⟨{ m with heap := Function.update m.heap b none }, by simp [free, hl], rfl, rfl, ?_, ?_, ?_, ?_, ?_⟩
    · intro c hc
      exact Function.update_of_ne (fun h => hc (by rw [h])) ..
    · intro y
      by_cases hy : y = x
      · subst hy; simp only [setVar, Function.update_self]; trivial
      · simp only [setVar, Function.update_of_ne hy]
        exact (r.holds y).frame _ _ fun p hp hpd => hy (r.inj y x p _ b hp hx hpd rfl)
    · intro y z o o' c hy hz hb hb'
      simp only [setVar] at hy hz
      by_cases h1 : y = x
      · subst h1; simp at hy
      · by_cases h2 : z = x
        · subst h2; simp at hz
        · simp only [Function.update_of_ne h1, Function.update_of_ne h2] at hy hz
          exact r.inj y z o o' c hy hz hb hb'
    · intro c l' hc
      have hcb : c ≠ b := by rintro rfl; simp [setVar] at hc
      simp only [setVar, Function.update_of_ne hcb] at hc
      obtain ⟨y, o, hy, ho⟩ := r.own c l' hc
      have hyx : y ≠ x := by rintro rfl; rw [hx] at hy; cases hy; cases ho; exact hcb rfl
      exact ⟨y, o, by simp only [setVar, Function.update_of_ne hyx]; exact hy, ho⟩
    · intro c hc
      by_cases hcb : c = b
      · subst hcb; simp [setVar]
      · simp only [setVar, Function.update_of_ne hcb]; exact r.fresh c hc

/-- Overwriting the array of a variable. -/
theorem R.write {m : Mem} {e : Env} (r : R m e) {x b : ℕ} {n : ℤ} (hx : m.vars x = some ⟨n, .block b⟩) (l : List ℝ) (hl : n = l.length) :
    R { m with heap := Function.update m.heap b (some l) } (Function.update e x (some (.val l))) := by
  refine ⟨?_, r.inj, ?_, ?_⟩
  · intro y
    by_cases hy : y = x
    · subst hy
      simp only [Function.update_self, hx]
      exact ⟨hl, by simp⟩
    · simp only [Function.update_of_ne hy]
      exact (r.holds y).frame _ _ fun p hp hpd => hy (r.inj y x p _ b hp hx hpd rfl)
  · intro c l' hc
    by_cases hcb : c = b
    · subst hcb; exact ⟨x, _, hx, rfl⟩
    · simp only [Function.update_of_ne hcb] at hc
      exact r.own c l' hc
  · intro c hc
    by_cases hcb : c = b
    · subst hcb
      have H := r.holds x
      rw [hx] at H
      have hf := r.fresh c hc
      rcases he : e x with _ | (v | _)
      · rw [he] at H; exact H.elim
      · rw [he] at H; have h2 := H.2; simp only at h2; rw [hf] at h2; cases h2
      · rw [he] at H; cases (show Ptr.block c = Ptr.null from H)
    · simp only [Function.update_of_ne hcb]; exact r.fresh c hc

/-- Moving the value of `y` to the unused variable `x`. -/
theorem R.move {m : Mem} {e : Env} (r : R m e) {x y : ℕ} {o : Obj} {v : Val} (hx : m.vars x = none) (hy : m.vars y = some o)
    (he : e y = some v) :
    R (setVar (setVar m y (some ⟨o.dims, .null⟩)) x (some o)) (Function.update (Function.update e y (some .moved)) x (some v)) := by
  have hyx : y ≠ x := by rintro rfl; rw [hx] at hy; cases hy
  have Hy := r.holds y
  rw [hy, he] at Hy
  have own' : ∀ z p, (setVar (setVar m y (some ⟨o.dims, .null⟩)) x (some o)).vars z = some p → ∀ b, p.data = .block b →
      (z = x ∧ m.vars y = some p) ∨ (z ≠ x ∧ z ≠ y ∧ m.vars z = some p) := by
    intro z p hz b hb
    simp only [setVar] at hz
    by_cases h1 : z = x
    · subst h1; simp only [Function.update_self, Option.some.injEq] at hz; subst hz; exact Or.inl ⟨rfl, hy⟩
    · simp only [Function.update_of_ne h1] at hz
      by_cases h2 : z = y
      · subst h2; simp only [Function.update_self, Option.some.injEq] at hz; subst hz; cases hb
      · simp only [Function.update_of_ne h2] at hz; exact Or.inr ⟨h1, h2, hz⟩
  refine ⟨?_, ?_, ?_, r.fresh⟩
  · intro z
    simp only [setVar]
    by_cases h1 : z = x
    · subst h1; simp only [Function.update_self]; exact Hy
    · simp only [Function.update_of_ne h1]
      by_cases h2 : z = y
      · subst h2; simp only [Function.update_self]; rfl
      · simp only [Function.update_of_ne h2]; exact r.holds z
  · intro z w p q b hz hw hp hq
    rcases own' z p hz b hp with ⟨h1, h2⟩ | ⟨h1, h1', h2⟩ <;> rcases own' w q hw b hq with ⟨h3, h4⟩ | ⟨h3, h3', h4⟩
    · rw [h1, h3]
    · exact absurd (r.inj y w p q b h2 h4 hp hq).symm h3'
    · exact absurd (r.inj z y p q b h2 h4 hp hq) h1'
    · exact r.inj z w p q b h2 h4 hp hq
  · intro b l hb
    obtain ⟨z, p, hz, hp⟩ := r.own b l hb
    have hzx : z ≠ x := by rintro rfl; rw [hx] at hz; cases hz
    by_cases h2 : z = y
    · subst h2
      refine ⟨x, o, by simp [setVar], ?_⟩
      rw [hy] at hz; cases hz; exact hp
    · exact ⟨z, p, by simp only [setVar, Function.update_of_ne hzx, Function.update_of_ne h2]; exact hz, hp⟩

/-- Reading a variable that holds a value. -/
theorem R.read {m : Mem} {e : Env} (r : R m e) {x : ℕ} {o : Obj} {l : List ℝ} (hx : m.vars x = some o) (he : e x = some (.val l)) :
    o.dims = l.length ∧ readN m o.data o.dims.toNat = some l := by
  have H := r.holds x
  rw [hx, he] at H
  obtain ⟨n, p⟩ := o
  obtain ⟨h1, h2⟩ := H
  simp only at h1
  refine ⟨h1, ?_⟩
  subst h1
  cases p with
  | null => simp only at h2; subst h2; simp [readN]
  | wild => exact h2.elim
  | block b =>
    simp only at h2
    by_cases hl : l = []
    · subst hl; simp [readN]
    · have : l.length ≠ 0 := by simpa using hl
      simp [readN, h2, this]

/-- Writing as many entries as the variable has. -/
theorem R.writeN {m : Mem} {e : Env} (r : R m e) {x : ℕ} {o : Obj} {l l' : List ℝ} (hx : m.vars x = some o) (he : e x = some (.val l))
    (hl : l'.length = l.length) : ∃ m', Verif.VecMem.writeN m o.data l' = some m' ∧ R m' (Function.update e x (some (.val l'))) := by
  have H := r.holds x
  rw [hx, he] at H
  obtain ⟨n, p⟩ := o
  obtain ⟨h1, h2⟩ := H
  simp only at h1
  by_cases h0 : l' = []
  · subst h0
    have : l = [] := by simpa using hl.symm
    subst this
    refine ⟨m, by simp [Verif.VecMem.writeN], ?_⟩
    have : Function.update e x (some (.val [])) = e := by rw [← he]; exact Function.update_eq_self ..
    rw [this]; exact r
  · cases p with
    | null => simp only at h2; subst h2; simp at hl; exact absurd hl h0
    | wild => exact h2.elim
    | block b =>
      simp only at h2
      refine ⟨{ m with heap := Function.update m.heap b (some l') }, ?_, r.write hx l' (by rw [hl]; exact h1)⟩
      simp only [Verif.VecMem.writeN, if_neg h0, h2, Option.bind_some]
      rw [if_pos (by omega), List.drop_eq_nil_of_le (by omega)]
      simp

theorem alloc_write (m : Mem) (l : List ℝ) : Verif.VecMem.writeN (alloc m l.length).1 (alloc m l.length).2 l =
    some ⟨Function.update m.heap m.next (some l), m.next + 1, m.vars⟩ := by
  by_cases h0 : l = []
  · subst h0; simp [Verif.VecMem.writeN, alloc]
  · simp [Verif.VecMem.writeN, alloc, h0]

theorem updIdem {α β : Type} [DecidableEq α] (f : α → β) (a : α) (u v : β) :
    Function.update (Function.update f a u) a v = Function.update f a v := by
  funext z; by_cases h : z = a
  · subst h; simp
  · simp [Function.update_of_ne h]

theorem updComm {α β : Type} [DecidableEq α] (f : α → β) {a b : α} (hab : a ≠ b) (u v : β) :
    Function.update (Function.update f a u) b v = Function.update (Function.update f b v) a u := by
  funext z
  by_cases h1 : z = a
  · subst h1; simp [Function.update_of_ne hab]
  · by_cases h2 : z = b
    · subst h2; simp [Function.update_of_ne h1]
    · simp [Function.update_of_ne h1, Function.update_of_ne h2]

theorem sim_newList {m : Mem} {e : Env} (r : R m e) {x : ℕ} (hx : m.vars x = none) (l : List ℝ) (n : ℕ) (hn : n = l.length) :
    ∃ m', (Verif.VecMem.writeN (alloc m n).1 (alloc m n).2 l).map (fun m' => setVar m' x (some ⟨n, (alloc m n).2⟩)) = some m' ∧
      R m' (Function.update e x (some (.val l))) := by
  subst hn
  rw [alloc_write]
  exact ⟨_, rfl, r.bindNew hx l⟩

theorem step_sim {m : Mem} {e e' : Env} (r : R m e) (o : Op) (h : specStep e o = some e') : ∃ m', step m o = some m' ∧ R m' e' := by
  cases o with
  | zero x d =>
    simp only [specStep] at h
    split at h
    · rename_i hc
      cases h
      have hx := r.var_none (x := x) (Option.isNone_iff_eq_none.mp hc.1)
      simp only [step, newZero, hx, Option.isSome_none, Bool.false_eq_true, if_false]
      by_cases hd : 0 < d
      · rw [if_pos hd]
        obtain ⟨m', h1, h2⟩ := sim_newList r hx (List.replicate d.toNat 0) d.toNat (by simp)
        refine ⟨m', ?_, h2⟩
        rw [← h1, Int.toNat_of_nonneg hd.le]
      · rw [if_neg hd]
        have hd0 : d = 0 := by omega
        subst hd0
        refine ⟨_, rfl, ?_⟩
        exact r.bindNull hx 0 (.val []) ⟨by simp, rfl⟩
    · cases h
  | fromArray x d v =>
    simp only [specStep] at h
    split at h
    · rename_i hc
      cases h
      have hx := r.var_none (x := x) (Option.isNone_iff_eq_none.mp hc.1)
      simp only [step, newFrom, hx, Option.isSome_none, Bool.false_eq_true, if_false]
      rw [if_pos hc.2.1, if_pos hc.2.2]
      obtain ⟨m', h1, h2⟩ := sim_newList r hx (v.take d.toNat) d.toNat (by simp [hc.2.2])
      refine ⟨m', ?_, h2⟩
      rw [← h1, Int.toNat_of_nonneg hc.2.1.le]
    · cases h
  | copyCtor x y =>
    simp only [specStep] at h
    split at h
    · rename_i l hx he
      cases h
      have hx := r.var_none hx
      obtain ⟨o, ho⟩ := r.var_some he
      obtain ⟨hd, hr⟩ := r.read ho he
      simp only [step, Verif.VecMem.copyCtor, hx, Option.isSome_none, Bool.false_eq_true, if_false, ho, Option.bind_some]
      by_cases hp : 0 < o.dims
      · rw [if_pos hp, hr]
        simp only [Option.bind_some]
        obtain ⟨m', h1, h2⟩ := sim_newList r hx l o.dims.toNat (by omega)
        refine ⟨m', ?_, h2⟩
        rw [← h1, Int.toNat_of_nonneg hp.le]
      · rw [if_neg hp]
        have hl : l = [] := by
          have : l.length = 0 := by omega
          simpa using this
        subst hl
        exact ⟨_, rfl, r.bindNull hx o.dims (.val []) ⟨hd, rfl⟩⟩
    · cases h
  | moveCtor x y =>
    simp only [specStep] at h
    split at h
    · rename_i v hx he
      cases h
      have hx := r.var_none hx
      obtain ⟨o, ho⟩ := r.var_some he
      simp only [step, Verif.VecMem.moveCtor, hx, Option.isSome_none, Bool.false_eq_true, if_false, ho, Option.map_some]
      exact ⟨_, rfl, r.move hx ho he⟩
    · cases h
  | destroy x =>
    simp only [specStep] at h
    split at h
    · rename_i hc
      cases h
      obtain ⟨v, hv⟩ := Option.isSome_iff_exists.mp hc
      obtain ⟨o, ho⟩ := r.var_some hv
      obtain ⟨m', h1, -, -, -, h2⟩ := r.unbind ho
      exact ⟨_, by simp [step, Verif.VecMem.destroy, ho, h1], h2⟩
    · cases h
  | copyAssign x y =>
    simp only [specStep] at h
    split at h
    · rename_i l' l hx hy
      cases h
      obtain ⟨o, ho⟩ := r.var_some hx
      obtain ⟨o', ho'⟩ := r.var_some hy
      obtain ⟨hd, hr⟩ := r.read ho' hy
      obtain ⟨hd2, -⟩ := r.read ho hx
      simp only [step, Verif.VecMem.copyAssign, ho, ho', Option.bind_some]
      by_cases hne : o'.dims ≠ o.dims
      · rw [if_pos hne, if_neg (by omega)]
        have hxy : y ≠ x := by rintro rfl; rw [ho] at ho'; cases ho'; exact hne rfl
        obtain ⟨m₁, h1, h2, h3, h4, h5⟩ := r.unbind ho
        rw [h1]
        simp only [Option.bind_some]
        -- reading the source after the release and the allocation
        have hr2 : readN (alloc m₁ o'.dims.toNat).1 o'.data o'.dims.toNat = some l := by
          by_cases h0 : o'.dims.toNat = 0
          · simp only [readN, h0, if_true] at hr ⊢; exact hr
          · simp only [readN, if_neg h0] at hr ⊢
            cases hp : o'.data with
            | null => rw [hp] at hr; exact hr
            | wild => rw [hp] at hr; exact hr
            | block b =>
              rw [hp] at hr
              simp only at hr ⊢
              cases hb : m.heap b with
              | none => rw [hb] at hr; cases hr
              | some q =>
                have hbn : b ≠ m₁.next := by
                  intro hbn
                  have := r.fresh b (by rw [hbn, h3])
                  rw [this] at hb; cases hb
                have : m₁.heap b = m.heap b := h4 b fun hob => hxy (r.inj y x _ _ b ho' ho hp hob)
                simp only [alloc, Function.update_of_ne hbn, this]
                exact hr
        rw [hr2]
        simp only [Option.bind_some]
        have hx0 : (setVar m₁ x none).vars x = none := by simp [setVar]
        have hn : o'.dims.toNat = l.length := by omega
        have hnext := h5.bindNew hx0 l
        rw [hn, alloc_write]
        refine ⟨_, rfl, ?_⟩
        simp only [setVar, updIdem] at hnext ⊢
        rw [hd]
        exact hnext
      · rw [if_neg hne, hr]
        simp only [Option.bind_some]
        have hll : l.length = l'.length := by
          have : o'.dims = o.dims := not_not.mp hne
          omega
        exact r.writeN ho hx hll
    · cases h
  | moveAssign x y =>
    simp only [specStep] at h
    split at h
    · rename_i v' v hx hy
      split at h
      · cases h
      · rename_i hxy
        cases h
        obtain ⟨o, ho⟩ := r.var_some hx
        obtain ⟨o', ho'⟩ := r.var_some hy
        obtain ⟨m₁, h1, h2, h3, h4, h5⟩ := r.unbind ho
        simp only [step, Verif.VecMem.moveAssign, ho, ho', Option.bind_some, h1, Option.map_some, if_neg hxy]
        have hx0 : (setVar m₁ x none).vars x = none := by simp [setVar]
        have hy0 : (setVar m₁ x none).vars y = some o' := by
          simp only [setVar, Function.update_of_ne (Ne.symm hxy), h2]; exact ho'
        have he0 : Function.update e x none y = some v := by rw [Function.update_of_ne (Ne.symm hxy)]; exact hy
        have := h5.move hx0 hy0 he0
        refine ⟨_, rfl, ?_⟩
        simp only [setVar] at this ⊢
        rw [updComm _ hxy, updIdem, updComm _ hxy, updIdem] at this
        rw [updComm _ hxy]
        exact this
    · cases h
  | set x i q =>
    simp only [specStep] at h
    split at h
    · rename_i l hx
      split at h
      · rename_i hi'
        cases h
        obtain ⟨o, ho⟩ := r.var_some hx
        have H := r.holds x
        rw [ho, hx] at H
        obtain ⟨n, p⟩ := o
        obtain ⟨h1, h2⟩ := H
        cases p with
        | null => simp only at h2; subst h2; simp at hi'
        | wild => exact h2.elim
        | block b =>
          simp only at h2 h1
          refine ⟨_, by simp [step, setEntry, ho, h2, hi'], r.write ho _ (by simpa using h1)⟩
      · cases h
    · cases h
  | mapAll x f =>
    simp only [specStep] at h
    split at h
    · rename_i l hx
      cases h
      obtain ⟨o, ho⟩ := r.var_some hx
      obtain ⟨hd, hr⟩ := r.read ho hx
      obtain ⟨m', h1, h2⟩ := r.writeN ho hx (l' := l.map f) (by simp)
      exact ⟨m', by simp [step, Verif.VecMem.mapAll, ho, hr, h1], h2⟩
    · cases h

theorem run_sim {m : Mem} {e e' : Env} (r : R m e) (os : List Op) (h : specRun e os = some e') : ∃ m', run m os = some m' ∧ R m' e' := by
  induction os generalizing m e with
  | nil => simp only [specRun, Option.some.injEq] at h; subst h; exact ⟨m, rfl, r⟩
  | cons o os ih =>
    simp only [specRun, Option.bind_eq_some_iff] at h
    obtain ⟨e₁, h1, h2⟩ := h
    obtain ⟨m₁, h3, h4⟩ := step_sim r o h1
    obtain ⟨m', h5, h6⟩ := ih h4 h2
    exact ⟨m', by simp [run, h3, h5], h6⟩

/-! ## Theorems -/

/-- C100. Vectors behave as values. Every program of constructions, copies, moves, assignments, changes of entries and destructions that makes
sense for variables holding lists of numbers (`specRun`) runs without an invalid access, a double release or a failed allocation, and at the
end every variable has the entries that the list program gives: a copy is independent of its source. When all variables are destroyed, no
array is left allocated.
Missing: programs that assign to a variable whose value was moved away, that move a variable to itself, that construct a vector of negative
length or copy zero numbers from an array (`C100_negation_moved`, `C100_negation_self_move`, `C100_negation_negative`,
`C100_negation_empty_array`). -/
theorem C100_values_partial (os : List Op) (e : Env) (h : specRun emptyEnv os = some e) :
    ∃ m, run emptyMem os = some m ∧
      (∀ x l, e x = some (.val l) → value m x = some l) ∧
      ((∀ x, e x = none) → ∀ b, m.heap b = none) := by
  obtain ⟨m, h1, r⟩ := run_sim R_empty os h
  refine ⟨m, h1, ?_, ?_⟩
  · intro x l hx
    obtain ⟨o, ho⟩ := r.var_some hx
    simp [value, ho, (r.read ho hx).2]
  · intro he b
    cases hb : m.heap b with
    | none => rfl
    | some l =>
      obtain ⟨x, o, hx, -⟩ := r.own b l hb
      rw [r.var_none (he x)] at hx
      cases hx

/-- The specification accepts programs with copies, changes, moves and destructions. -/
example : ∃ e, specRun emptyEnv [.fromArray 0 2 [3, 4], .copyCtor 1 0, .set 1 0 7, .zero 2 3, .copyAssign 2 1, .moveAssign 0 2, .destroy 2,
    .mapAll 1 (fun r => -r)] = some e ∧ e 0 = some (.val [7, 4]) ∧ e 1 = some (.val [-7, -4]) ∧ e 2 = none :=
  ⟨_, rfl, by simp [Function.update], by simp [Function.update], by simp [Function.update]⟩

/-- C100, negation. A variable whose value was moved away keeps its size but has no array: assigning a vector of the same size to it writes
through the null pointer, whatever the vector holds. -/
theorem C100_negation_moved (l l' : List ℝ) (hl : l ≠ []) (hll : l'.length = l.length) :
    run emptyMem [.fromArray 0 l.length l, .moveCtor 1 0, .fromArray 2 l.length l', .copyAssign 0 2] = none := by
  have hpos : 0 < l.length := List.length_pos_iff.mpr hl
  have hl' : l' ≠ [] := by rintro rfl; exact hl (List.length_eq_zero_iff.mp hll.symm)
  simp [run, step, newFrom, emptyMem, writeN, alloc, setVar, moveCtor, copyAssign, readN, hl, hl', hpos, hll]

/-- The moved vector itself is fine: it has the value, so the failure above is not a failure of the move. -/
example : (run emptyMem [.fromArray 0 2 [3, 4], .moveCtor 1 0]).bind (fun m => value m 1) = some [3, 4] := by
  simp [run, step, newFrom, emptyMem, writeN, alloc, setVar, moveCtor, value, readN]

/-- C100, negation. Moving a variable to itself releases its array: the variable keeps its size, and reading it is invalid. -/
theorem C100_negation_self_move (l : List ℝ) (hl : l ≠ []) :
    ∃ m, run emptyMem [.fromArray 0 l.length l, .moveAssign 0 0] = some m ∧ (m.vars 0).map Obj.dims = some (l.length : ℤ) ∧ value m 0 = none := by
  have hpos : 0 < l.length := List.length_pos_iff.mpr hl
  simp [run, step, newFrom, emptyMem, writeN, alloc, setVar, moveAssign, free, hpos, hl, value, readN]

/-- C100, negation. The constructor from an array leaves the pointer uninitialised for a vector without entries; the destructor releases it. -/
theorem C100_negation_empty_array (d : ℤ) (hd : d ≤ 0) (v : List ℝ) : run emptyMem [.fromArray 0 d v, .destroy 0] = none := by
  simp [run, step, newFrom, emptyMem, setVar, destroy, free, not_lt.mpr hd]

/-- C100, negation. A negative size is reported as the size of the vector, although the constructor means to replace it by zero; assigning
such a vector to another one asks for an array of negative length. -/
theorem C100_negation_negative (d : ℤ) (hd : d < 0) :
    (∃ m, run emptyMem [.zero 0 d] = some m ∧ (m.vars 0).map Obj.dims = some d) ∧
      run emptyMem [.zero 0 d, .zero 1 0, .copyAssign 1 0] = none := by
  have h : ¬ 0 < d := by omega
  constructor
  · exact ⟨_, by simp [run, step, newZero, emptyMem, h]; rfl, by simp [setVar]⟩
  · simp [run, step, newZero, emptyMem, h, setVar, copyAssign, hd.ne, hd]

end Verif.VecMem
