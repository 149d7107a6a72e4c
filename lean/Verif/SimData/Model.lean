import Mathlib.Data.Rat.Defs
import Mathlib.Algebra.Order.Ring.Rat
import Mathlib.Logic.Function.Basic

/-!
# Model of the particle store `SimData` (owned particles)

Sources: `GFlowSim/src/base/simdata.cpp`, `simdata.tpp`, `simdata.hpp`, `particle-data.hpp`.

The structure-of-arrays storage is modelled as one memory `mem : ℕ → Slot` of which only the indices
below `cap` are allocated.  Every operation that the C++ code would let touch an index outside
`[0, cap)` (or that would recurse without end) has the outcome `none` ("undefined behaviour").

A slot holds the position vector `x`, the two mandatory integer columns `Type` and `ID`, and `rest`,
which stands for *all* the remaining columns (V, F, Sg, Im and any requested column): the code always
moves / resets these together.
-/

namespace Verif.SimData

/-- The data of one local index. `simdata.cpp:18-27` (default columns X, V, F, Sg, Im, Type, ID). -/
structure Slot (R : Type) where
  x : List ℚ
  rest : R
  type : ℤ
  gid : ℤ

/-- Component `dim` of a slot's position, `x(i, dim)`; positions always have `sim_dimensions`
components, so the default is never used for `dim < sim_dimensions`. `particle-data-access.hpp`. -/
def Slot.comp {R} (s : Slot R) (dim : ℕ) : ℚ := s.x.getD dim 0

/-- Constants of a simulation: dimension, and the value all remaining columns are reset to
(`simdata.tpp:320-324`). -/
structure Cfg (R : Type) where
  dims : ℕ
  reset : R

/-- State of `SimData`, restricted to owned particles (`particle_type = 0`), `use_id_map = true`
(its default, `simdata.hpp:354`). `removeList` is the `std::set<int> remove_list`: ascending, no
duplicates. `idMap` is `id_map[0]`. `simdata.hpp:324-360`. -/
structure Store (R : Type) where
  mem : ℕ → Slot R
  cap : ℕ
  size : ℕ
  number : ℤ
  idMap : ℤ → Option ℕ
  removeList : List ℕ
  next : ℤ
  dGid : ℤ
  needsRemake : Bool

variable {R : Type}

/-- The value a freshly reset slot has. `simdata.tpp:320-324` (`reset_particle`). -/
def resetSlot (c : Cfg R) : Slot R :=
  { x := List.replicate c.dims 0, rest := c.reset, type := -1, gid := -1 }

/-- A new store. `simdata.cpp:12-28`, `simdata.hpp:343-354`. -/
def init (c : Cfg R) : Store R :=
  { mem := fun _ => resetSlot c, cap := 0, size := 0, number := 0, idMap := fun _ => none,
    removeList := [], next := 0, dGid := 1, needsRemake := false }

/-- `std::set<int>::emplace` on the ascending list. Used at `simdata.tpp:84`. -/
def setInsert (i : ℕ) : List ℕ → List ℕ
  | [] => [i]
  | j :: l => if i < j then i :: j :: l else if i = j then j :: l else j :: setInsert i l

/-- `std::unordered_map::emplace`: keeps an existing entry. -/
def mapEmplace (m : ℤ → Option ℕ) (g : ℤ) (i : ℕ) : ℤ → Option ℕ :=
  match m g with
  | some _ => m
  | none => Function.update m g (some i)

/-- Write to a local index. Outcome `none` if outside of the allocated arrays. -/
def Store.setSlot (s : Store R) (i : ℕ) (v : Slot R) : Option (Store R) :=
  if i < s.cap then some { s with mem := Function.update s.mem i v } else none

/-- Growth of the arrays in `addParticle(int num, bool)`: `simdata.tpp:25-28`,
`particle-data.hpp:74-88`. `int(0.1*n)` is `n / 10` for `n ≥ 0`. -/
def growBulk (cap size num : ℕ) : ℕ :=
  if cap < size + num then cap + max 32 ((num + size - cap) / 10) else cap

/-- Growth of the arrays in the full `addParticle`: `simdata.tpp:54-57`. -/
def growFull (cap size : ℕ) : ℕ :=
  if cap < size + 1 then cap + max 32 (size / 10) else cap

/-- One pass of the loop body of `addParticle(int num, bool create_global_id)`, `simdata.tpp:30-43`.
The writes go to local index `size`, which must be allocated. -/
def addOne (c : Cfg R) (create : Bool) (s : Store R) : Option (Store R) :=
  if s.size < s.cap then
    some { s with
      mem := Function.update s.mem s.size
        { resetSlot c with type := 0, gid := if create then s.next else -1 }
      idMap := if create then mapEmplace s.idMap s.next s.size else s.idMap
      next := if create then s.next + s.dGid else s.next
      number := s.number + 1
      size := s.size + 1 }
  else none

/-- The loop of `simdata.tpp:30-43`. -/
def addLoop (c : Cfg R) (create : Bool) : ℕ → Store R → Option (Store R)
  | 0, s => some s
  | n + 1, s => (addOne c create s).bind (addLoop c create n)

/-- `addParticle<0>(int num, bool create_global_id)`, `simdata.tpp:18-46`. `num ≤ 0` returns -1 and does
nothing. -/
def addBulk (c : Cfg R) (num : ℤ) (create : Bool) (s : Store R) : Option (Store R) :=
  if num ≤ 0 then some s
  else addLoop c create num.toNat { s with cap := growBulk s.cap s.size num.toNat }

/-- `addParticle<0>(x, v, sg, im, type)`, `simdata.tpp:48-76`. `rest` carries `v`, `sg`, `im` (and the
reset value of all the other columns). The id counter advances by one (`next_global_id++`) and then by
`d_global_id`. -/
def addFull (c : Cfg R) (x : List ℚ) (rest : R) (type : ℤ) (s : Store R) : Option (Store R) :=
  let s := { s with cap := growFull s.cap s.size }
  if s.size < s.cap then
    some { s with
      mem := Function.update s.mem s.size { resetSlot c with x := x, rest := rest, type := type, gid := s.next }
      idMap := mapEmplace s.idMap s.next s.size
      next := s.next + 1 + s.dGid
      number := s.number + 1
      size := s.size + 1 }
  else none

/-- `markForRemoval<0>(id)`, `simdata.tpp:78-94`. `Type(id)` is read before `id` is compared with the
size, so the index must be inside of the allocated arrays. -/
def mark (id : ℤ) (s : Store R) : Option (Store R) :=
  if 0 ≤ id ∧ id < s.cap then
    let i := id.toNat
    if (s.mem i).type < 0 ∨ s.size ≤ i then some s
    else some { s with
      removeList := setInsert i s.removeList
      idMap := Function.update s.idMap (s.mem i).gid none
      mem := Function.update s.mem i
        { s.mem i with type := -1, x := (s.mem i).x.set 0 (-1000000) }
      number := s.number - 1 }
  else none

/-- The memory after exchanging local indices `a` and `b`, `simdata.cpp:500-512`. -/
def swapMem (mem : ℕ → Slot R) (a b : ℕ) : ℕ → Slot R :=
  Function.update (Function.update mem a (mem b)) b (mem a)

/-- The id map after `swap_particle(a, b)`, `simdata.cpp:515-522`: both entries are looked up first, and
then redirected if they were found. -/
def swapMap (m : ℤ → Option ℕ) (ga gb : ℤ) (a b : ℕ) : ℤ → Option ℕ :=
  let m1 := if 0 ≤ ga ∧ (m ga).isSome then Function.update m ga (some b) else m
  if 0 ≤ gb ∧ (m gb).isSome then Function.update m1 gb (some a) else m1

/-- `swap_particle(a, b)`, `simdata.cpp:495-526`. -/
def swap (s : Store R) (a b : ℕ) : Store R :=
  { s with
    mem := swapMem s.mem a b
    idMap := swapMap s.idMap (s.mem a).gid (s.mem b).gid a b
    needsRemake := true }

/-- `do { --count_back; } while (Type(count_back) < 0);`, `simdata.cpp:109-111`. Reaching index -1 is a
read outside of the array. -/
def scanLive (mem : ℕ → Slot R) : ℕ → Option ℕ
  | 0 => none
  | c + 1 => if (mem c).type < 0 then scanLive mem c else some c

/-- The loop over `remove_list`, `simdata.cpp:107-118`. Also returns the counter `removed`. -/
def removalLoop : List ℕ → ℕ → Store R → Option (Store R × ℕ)
  | [], _, s => some (s, 0)
  | id :: l, cb, s =>
    match scanLive s.mem cb with
    | none => none
    | some c =>
      if id < c then (removalLoop l c (swap s c id)).map (fun r => (r.1, r.2 + 1))
      else some (s, 0)

/-- `doParticleRemoval()`, `simdata.cpp:98-133`. -/
def removal (s : Store R) : Option (Store R) :=
  if s.removeList.isEmpty then some s
  else
    (removalLoop s.removeList s.size s).map fun r =>
      { r.1 with
        size := r.1.number.toNat
        removeList := []
        needsRemake := r.1.needsRemake || decide (0 < r.2) }

/-! ### Sorting, `simdata.cpp:135-156, 532-577` -/

/-- `do { ++i; } while (x(i,dim) < pivot);` with `i` the next index to examine, `simdata.cpp:549-551`.
`none` if the scan leaves the allocated array. -/
def scanUp (mem : ℕ → Slot R) (cap dim : ℕ) (pivot : ℚ) (i : ℕ) : Option ℕ :=
  if h : i < cap then
    if (mem i).comp dim < pivot then scanUp mem cap dim pivot (i + 1) else some i
  else none
termination_by cap - i

/-- `do { --j; } while (x(j,dim) > pivot);`, `simdata.cpp:552-554`. `none` if the scan reaches index -1. -/
def scanDown (mem : ℕ → Slot R) (dim : ℕ) (pivot : ℚ) : ℕ → Option ℕ
  | 0 => none
  | j + 1 => if pivot < (mem j).comp dim then scanDown mem dim pivot j else some j

theorem scanDown_lt {mem : ℕ → Slot R} {dim pivot} :
    ∀ {j k}, scanDown mem dim pivot j = some k → k < j := by
  intro j
  induction j with
  | zero => intro k h; simp [scanDown] at h
  | succ j ih =>
    intro k h
    unfold scanDown at h
    split at h
    · exact Nat.lt_succ_of_lt (ih h)
    · simp at h; omega

/-- The middle one of three numbers: `std::sort(trio, trio+3); trio[1]`, `simdata.cpp:543-545`. -/
def median3 (a b c : ℚ) : ℚ := max (min a b) (min (max a b) c)

/-- The loop of `quick_sort_partition`, `simdata.cpp:548-559`. `i` is the next index the upward scan
examines; the downward scan examines `j - 1` next. -/
def partLoop (dim : ℕ) (pivot : ℚ) (s : Store R) (i j : ℕ) : Option (Store R × ℕ) :=
  match scanUp s.mem s.cap dim pivot i with
  | none => none
  | some i' =>
    match h : scanDown s.mem dim pivot j with
    | none => none
    | some j' =>
      if j' ≤ i' then some (s, j')
      else partLoop dim pivot (swap s i' j') (i' + 1) j'
termination_by j
decreasing_by exact scanDown_lt h

/-- `quick_sort_partition(start, end, dim)`, `simdata.cpp:540-560`. -/
def partition (dim : ℕ) (s : Store R) (start «end» : ℕ) : Option (Store R × ℕ) :=
  let pivot := median3 ((s.mem start).comp dim) ((s.mem ((start + «end») / 2)).comp dim)
    ((s.mem «end»).comp dim)
  partLoop dim pivot s start («end» + 1)

/-- `quick_sort(start, end, dim)`, `simdata.cpp:532-538`. A partition index outside `[start, end)` would
make the C++ recursion run for ever; that outcome is `none`. -/
def quickSort (dims dim : ℕ) (s : Store R) (start «end» : ℕ) : Option (Store R) :=
  if start < «end» ∧ dim < dims then
    match partition dim s start «end» with
    | none => none
    | some (s', p) =>
      if h : start ≤ p ∧ p < «end» then
        (quickSort dims dim s' start p).bind fun s'' => quickSort dims dim s'' (p + 1) «end»
      else none
  else some s
termination_by «end» - start

/-- Number of sort bins and minimum number of particles, `simdata.cpp:565`. -/
def sortBins : ℕ := 5
def minParticles : ℕ := 10

mutual
/-- `recursion_help(start, end, dim)` with `fuel = sim_dimensions - dim`, `simdata.cpp:562-577`.
`end` is `_size[0]-1` or a bin edge; for an empty store C++ has `end = -1`, modelled by `end = 0`
(`ds` is 0 in both cases). The order of the calls is the code's. -/
def recursionHelp (dims : ℕ) : ℕ → ℕ → ℕ → Store R → Option (Store R)
  | 0, _, _, s => some s
  | fuel + 1, start, «end», s =>
    let ds := («end» - start) / sortBins
    if minParticles < ds then
      (recursionBins dims fuel ds sortBins 0 s).bind fun s' =>
        (quickSort dims (dims - (fuel + 1)) s' (sortBins * ds) (s'.number.toNat - 1)).bind fun s'' =>
          recursionHelp dims fuel (sortBins * ds) (s''.number.toNat - 1) s''
    else some s
termination_by fuel _ _ _ => (fuel, 0, 0)

/-- The `for` loop of `simdata.cpp:569-572`, `n` bins to go, at bin `i`. -/
def recursionBins (dims : ℕ) : ℕ → ℕ → ℕ → ℕ → Store R → Option (Store R)
  | _, _, 0, _, s => some s
  | fuel, ds, n + 1, i, s =>
    (quickSort dims (dims - (fuel + 1)) s (i * ds) ((i + 1) * ds)).bind fun s' =>
      (recursionHelp dims fuel (i * ds) ((i + 1) * ds) s').bind fun s'' =>
        recursionBins dims fuel ds n (i + 1) s''
termination_by fuel _ n _ _ => (fuel, 1, n)
end

/-- `sortParticles()`, `simdata.cpp:135-145` (no ghost particles). -/
def sortAll (c : Cfg R) (s : Store R) : Option (Store R) :=
  (removal s).bind fun s1 =>
    (quickSort c.dims 0 s1 0 (s1.size - 1)).bind fun s2 =>
      (recursionHelp c.dims (c.dims - 1) 0 (s2.size - 1) s2).map fun s3 =>
        { s3 with needsRemake := true }

/-- `sortParticles(Vec& direction)`, `simdata.cpp:147-156`: sorts along the x axis. -/
def sortX (c : Cfg R) (s : Store R) : Option (Store R) :=
  (removal s).bind fun s1 =>
    (quickSort c.dims 0 s1 0 (s1.size - 1)).map fun s2 => { s2 with needsRemake := true }

/-- `getLocalID(global)`, `simdata.cpp:338-345` (`none` is the return value -1). -/
def getLocalID (s : Store R) (g : ℤ) : Option ℕ := s.idMap g

/-- A client writes position and other columns of a particle through the access objects `X()`, `V()`,
... of `simdata.tpp:98-268`; type and id columns are not written by clients. -/
def write (i : ℕ) (x : List ℚ) (rest : R) (s : Store R) : Option (Store R) :=
  if i < s.size ∧ i < s.cap then
    some { s with mem := Function.update s.mem i { s.mem i with x := x, rest := rest } }
  else none

/-- The calls a client can make. -/
inductive Op (R : Type) where
  | addBulk (num : ℤ)
  | addFull (x : List ℚ) (rest : R) (type : ℤ)
  | mark (id : ℤ)
  | removal
  | sortAll
  | sortX
  | write (i : ℕ) (x : List ℚ) (rest : R)
  | clearFlag

/-- One call. `clearFlag` is `setNeedsRemake(false)`, `simdata.cpp:367-374`. -/
def step (c : Cfg R) (s : Store R) : Op R → Option (Store R)
  | .addBulk n => addBulk c n true s
  | .addFull x r t => addFull c x r t s
  | .mark i => mark i s
  | .removal => removal s
  | .sortAll => sortAll c s
  | .sortX => sortX c s
  | .write i x r => write i x r s
  | .clearFlag => some { s with needsRemake := false }

/-- A history of calls; `none` as soon as one call is undefined. -/
def run (c : Cfg R) : Store R → List (Op R) → Option (Store R)
  | s, [] => some s
  | s, op :: ops => (step c s op).bind fun s' => run c s' ops

end Verif.SimData
