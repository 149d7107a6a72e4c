import Verif.Visual.Palette
import Mathlib.Analysis.Real.Sqrt

/-!
# Frames of visualised data (C137, C138, C139)

Models the choice of columns, colours and discs in `visualization/visualization.cpp`. A frame is the list of numbers that `StoreData` writes (`compute/store_data.cpp`): for each particle its
vectors, its scalars and its integers one after the other. Colours of the bank are represented by their place in the bank; the random colours themselves are not modelled.
-/

namespace Verif.Frames

open Verif.Palette

/-! ## Choice of columns -/

/-- The members of `Visualization` used to find columns, `visualization/visualization.hpp:121-216`. `update` and the scales are not part of it. -/
structure Vis where
  method : ℕ
  option : ℕ
  name : String
  func : ℕ
  dims : ℕ
  vecs : List String
  scals : List String
  ints : List String
  posPlace : ℤ
  sgPlace : ℤ
  vSel : ℤ
  sSel : ℤ
  iSel : ℤ

/-- A new object, `visualization/visualization.hpp:121-216`. -/
def fresh : Vis := ⟨0, 0, "", 0, 0, [], [], [], -1, -1, -1, -1, -1⟩

/-- The lambda `find`, `visualization/visualization.cpp:366-370`. -/
def find (key : String) (names : List String) : ℤ := if key ∈ names then (names.idxOf key : ℤ) else -1

/-- `chooseSelectionType`, `visualization/visualization.cpp:446-481`: the new state and the result. -/
def choose (s : Vis) (m : ℕ) (name : String) : Vis × Bool :=
  match m with
  | 0 => (s, true)
  | 1 => if name ∈ s.vecs then ({ s with method := 1, name := name }, true) else (s, false)
  | 2 => if name ∈ s.scals then ({ s with method := 2, name := name }, true) else (s, false)
  | 3 => if name ∈ s.ints then ({ s with method := 3, name := name }, true) else (s, false)
  | _ => (s, false)

/-- The switch over the option, `visualization/visualization.cpp:374-428`. -/
def pick (s : Vis) : Vis :=
  match s.option with
  | 0 => (choose s 3 "Type").1
  | 1 => { s with method := 0 }
  | 2 => if (choose s 2 "V-M").2 then (choose s 2 "V-M").1 else (choose s 1 "V").1
  | 3 => { (choose s 1 "V").1 with func := 1 }
  | 4 => (choose s 2 "Distance").1
  | 5 => { (choose s 2 "StripeX").1 with func := 2 }
  | 6 => (choose s 3 "Proc").1
  | 7 => (choose s 2 "Om").1
  | 8 => (choose s 2 "F-M").1
  | _ => s

/-- The places, `visualization/visualization.cpp:430-443`. -/
def places (s : Vis) : Vis :=
  { s with
    posPlace := find "X" s.vecs * s.dims
    vSel := if s.method = 1 then find s.name s.vecs * s.dims else -1
    sgPlace := find "Sg" s.scals + (s.vecs.length * s.dims : ℕ)
    sSel := if s.method = 2 then find s.name s.scals + (s.vecs.length * s.dims : ℕ) else -1
    iSel := if s.method = 3 then find s.name s.ints + ((s.vecs.length * s.dims + s.scals.length : ℕ) : ℤ) else -1 }

/-- `findPlaces`, `visualization/visualization.cpp:365-444`. -/
def findPlaces (s : Vis) : Vis := places (if s.method = 0 then pick s else s)

/-- `setColorOption`, `visualization/visualization.cpp:77-81`. -/
def setOption (s : Vis) (opt : ℕ) : Vis := findPlaces { s with method := 0, option := opt }

/-- `setMetaParameters` and the first part of `load_and_create`, `visualization/visualization.cpp:22-35, 87-98`. -/
def setColumns (s : Vis) (dims : ℕ) (vecs scals ints : List String) : Vis :=
  findPlaces { s with dims := dims, vecs := vecs, scals := scals, ints := ints }

/-- `resetPlaces` at the end of `load_and_create`, `visualization/visualization.cpp:47, 357-363`. -/
def reset (s : Vis) : Vis := { s with posPlace := -1, sgPlace := -1, vSel := -1, sSel := -1, iSel := -1 }

/-- `setColorSelectionMethod` and `setSelectionName`, `visualization/visualization.cpp:61-67`. -/
def setCustom (s : Vis) (m : ℕ) (name : String) : Vis := { s with method := m, name := name }

/-! ## Reading a frame -/

variable {K : Type} [Field K] [LinearOrder K] [IsStrictOrderedRing K] [FloorRing K]

/-- What decides the colour of a particle, `determine_color`, `visualization/visualization.cpp:512-569`: its place in the data, a vector, a scalar, or an integer. -/
inductive Basis (K : Type) where
  | order (i : ℕ)
  | vec (v : List K)
  | scal (x : K)
  | int (n : ℤ)
  deriving DecidableEq

/-- Access of `n` numbers from a place on; `none` is access outside of the data (undefined). -/
def slice (data : List K) (i : ℤ) (n : ℕ) : Option (List K) :=
  if 0 ≤ i ∧ i.toNat + n ≤ data.length then some ((data.drop i.toNat).take n) else none

/-- Access of one number. -/
def cell (data : List K) (i : ℤ) : Option K := if 0 ≤ i then data[i.toNat]? else none

/-- `do_checks`, `visualization/visualization.cpp:483-498`. -/
def checks (s : Vis) (width : ℕ) : Bool := !(width == 0) && !decide (s.posPlace < 0) && !decide (s.sgPlace < 0)

/-- `get_values` for the record that starts at `i`, with the switch of `determine_color`, `visualization/visualization.cpp:500-519, 566`: position, radius, basis of the colour. -/
def values (s : Vis) (data : List K) (i : ℕ) : Option (List K × K × Basis K) := do
  let pos ← slice data (i + s.posPlace) s.dims
  let sg ← cell data (i + s.sgPlace)
  match s.method with
  | 1 => do
    let v ← slice data (i + s.vSel) s.dims
    return (pos, sg, .vec v)
  | 2 => do
    let x ← cell data (i + s.sSel)
    return (pos, sg, .scal x)
  | 3 => do
    let x ← cell data (i + s.iSel)
    return (pos, sg, .int (trunc x))
  | _ => return (pos, sg, .order i)

/-- The loop over the records, `visualization/visualization.cpp:172-178, 281-283`: `for (i=0; i<data.size(); i+=dataWidth)`, with as many turns as `left` allows (a width of 0 does
not get here). -/
def readLoop (s : Vis) (data : List K) (width : ℕ) : ℕ → ℕ → Option (List (List K × K × Basis K))
  | 0, _ => some []
  | left + 1, i =>
    if i < data.length then do
      let r ← values s data i
      let rest ← readLoop s data width left (i + width)
      return r :: rest
    else some []

/-- What `createImage` and `createImage3d` draw of a frame, `visualization/visualization.cpp:167-178, 272-288`: `some none` is "no image". -/
def frame (s : Vis) (data : List K) (width : ℕ) : Option (Option (List (List K × K × Basis K))) :=
  if checks s width then (readLoop s data width data.length 0).map some else some none

/-! ## Specification -/

/-- A particle by the names of its data. -/
structure Rec (K : Type) where
  vec : String → List K
  scal : String → K
  int : String → ℤ

/-- The numbers stored for a particle (`StoreData::store`, `compute/store_data.cpp:101-152`, without magnitudes and processors): vectors, scalars, integers. -/
def encode (vecs scals ints : List String) (r : Rec K) : List K :=
  vecs.flatMap r.vec ++ scals.map r.scal ++ ints.map fun n => (r.int n : K)

/-- The kinds of colouring of the list in `visualization/visualization.cpp:375-384`: by type, order, velocity, direction, distance, stripe, processor, angular velocity, force; a
kind without data falls back on the order. -/
def wanted (opt : ℕ) (vecs scals ints : List String) (r : Rec K) (i : ℕ) : Basis K :=
  match opt with
  | 0 => if "Type" ∈ ints then .int (r.int "Type") else .order i
  | 2 => if "V-M" ∈ scals then .scal (r.scal "V-M") else if "V" ∈ vecs then .vec (r.vec "V") else .order i
  | 3 => if "V" ∈ vecs then .vec (r.vec "V") else .order i
  | 4 => if "Distance" ∈ scals then .scal (r.scal "Distance") else .order i
  | 5 => if "StripeX" ∈ scals then .scal (r.scal "StripeX") else .order i
  | 6 => if "Proc" ∈ ints then .int (r.int "Proc") else .order i
  | 7 => if "Om" ∈ scals then .scal (r.scal "Om") else .order i
  | 8 => if "F-M" ∈ scals then .scal (r.scal "F-M") else .order i
  | _ => .order i

/-- Length of a record. -/
def width (dims : ℕ) (vecs scals ints : List String) : ℕ := vecs.length * dims + scals.length + ints.length

/-- What a frame of the records should draw. -/
def picture (opt dims : ℕ) (vecs scals ints : List String) (recs : List (Rec K)) : List (List K × K × Basis K) :=
  (recs.zipIdx).map fun p => (p.1.vec "X", p.1.scal "Sg", wanted opt vecs scals ints p.1 (p.2 * width dims vecs scals ints))

/-! ## Lemmas -/

theorem flat_length (dims : ℕ) (vecs : List String) (r : Rec K) (h : ∀ n, (r.vec n).length = dims) : (vecs.flatMap r.vec).length = vecs.length * dims := by
  induction vecs with
  | nil => simp
  | cons a l ih =>
    rw [List.flatMap_cons, List.length_append, ih, h, List.length_cons]
    ring

theorem encode_length (dims : ℕ) (vecs scals ints : List String) (r : Rec K) (h : ∀ n, (r.vec n).length = dims) :
    (encode vecs scals ints r).length = width dims vecs scals ints := by
  unfold encode width
  rw [List.length_append, List.length_append, flat_length dims vecs r h, List.length_map, List.length_map]

theorem flat_slice (dims : ℕ) (vecs : List String) (r : Rec K) (h : ∀ n, (r.vec n).length = dims) (key : String) (hk : key ∈ vecs) (rest : List K) :
    ((vecs.flatMap r.vec ++ rest).drop (vecs.idxOf key * dims)).take dims = r.vec key := by
  induction vecs with
  | nil => simp at hk
  | cons a l ih =>
    rw [List.flatMap_cons, List.append_assoc]
    by_cases e : a = key
    · subst e
      rw [List.idxOf_cons_self, zero_mul, List.drop_zero, ← h a, List.take_left]
    · have hk' : key ∈ l := by
        rcases List.mem_cons.mp hk with rfl | h'
        · exact absurd rfl e
        · exact h'
      rw [List.idxOf_cons_ne l e, show (l.idxOf key).succ * dims = dims + l.idxOf key * dims by rw [Nat.succ_mul]; omega, ← List.drop_drop]
      rw [show (r.vec a ++ (List.flatMap r.vec l ++ rest)).drop dims = List.flatMap r.vec l ++ rest by rw [← h a, List.drop_left]]
      exact ih hk'

theorem map_idx (l : List String) (f : String → K) (key : String) (hk : key ∈ l) (rest : List K) : (l.map f ++ rest)[l.idxOf key]? = some (f key) := by
  have h : l.idxOf key < l.length := List.idxOf_lt_length_of_mem hk
  rw [List.getElem?_append_left (by rw [List.length_map]; exact h), List.getElem?_map, List.getElem?_eq_getElem h, List.getElem_idxOf]
  rfl

/-- Position of a record in the data. -/
theorem slice_mid (pre rc post : List K) (j : ℤ) (n : ℕ) (h0 : 0 ≤ j) (h1 : j.toNat + n ≤ rc.length) :
    slice (pre ++ (rc ++ post)) (pre.length + j) n = some ((rc.drop j.toNat).take n) := by
  unfold slice
  have e : ((pre.length : ℤ) + j).toNat = pre.length + j.toNat := by omega
  rw [if_pos ⟨by omega, by rw [e, List.length_append, List.length_append]; omega⟩, e, ← List.drop_drop, List.drop_left]
  rw [List.drop_append_of_le_length (by omega), List.take_append_of_le_length (by rw [List.length_drop]; omega)]

theorem cell_mid (pre rc post : List K) (j : ℤ) (h0 : 0 ≤ j) (h1 : j.toNat < rc.length) : cell (pre ++ (rc ++ post)) (pre.length + j) = rc[j.toNat]? := by
  unfold cell
  have e : ((pre.length : ℤ) + j).toNat = pre.length + j.toNat := by omega
  rw [if_pos (by omega), e, List.getElem?_append_right (by omega), List.getElem?_append_left (by omega)]
  congr 1
  omega

/-- Reading a vector column. -/
theorem read_vec (dims : ℕ) (vecs scals ints : List String) (r : Rec K) (h : ∀ n, (r.vec n).length = dims) (pre post : List K) (key : String) (hk : key ∈ vecs) :
    slice (pre ++ (encode vecs scals ints r ++ post)) (pre.length + find key vecs * dims) dims = some (r.vec key) := by
  have hlt : vecs.idxOf key < vecs.length := List.idxOf_lt_length_of_mem hk
  have e : (find key vecs * dims : ℤ) = ((vecs.idxOf key * dims : ℕ) : ℤ) := by
    unfold find
    rw [if_pos hk]
    push_cast
    rfl
  rw [e, slice_mid]
  · rw [Int.toNat_natCast]
    unfold encode
    rw [List.append_assoc, flat_slice dims vecs r h key hk]
  · omega
  · rw [Int.toNat_natCast, encode_length dims vecs scals ints r h]
    unfold width
    have : (vecs.idxOf key + 1) * dims ≤ vecs.length * dims := Nat.mul_le_mul_right _ hlt
    rw [Nat.add_mul, one_mul] at this
    omega

/-- Reading a scalar column. -/
theorem read_scal (dims : ℕ) (vecs scals ints : List String) (r : Rec K) (h : ∀ n, (r.vec n).length = dims) (pre post : List K) (key : String) (hk : key ∈ scals) :
    cell (pre ++ (encode vecs scals ints r ++ post)) (pre.length + (find key scals + (vecs.length * dims : ℕ))) = some (r.scal key) := by
  have hlt : scals.idxOf key < scals.length := List.idxOf_lt_length_of_mem hk
  unfold find
  rw [if_pos hk, cell_mid]
  · have e : (((scals.idxOf key : ℕ) : ℤ) + ((vecs.length * dims : ℕ) : ℤ)).toNat = (vecs.flatMap r.vec).length + scals.idxOf key := by
      rw [flat_length dims vecs r h]
      omega
    rw [e]
    unfold encode
    rw [List.append_assoc, List.getElem?_append_right (by omega), Nat.add_sub_cancel_left, map_idx _ _ _ hk]
  · omega
  · rw [encode_length dims vecs scals ints r h]
    unfold width
    omega

/-- Reading an integer column. -/
theorem read_int (dims : ℕ) (vecs scals ints : List String) (r : Rec K) (h : ∀ n, (r.vec n).length = dims) (pre post : List K) (key : String) (hk : key ∈ ints) :
    cell (pre ++ (encode vecs scals ints r ++ post)) (pre.length + (find key ints + ((vecs.length * dims + scals.length : ℕ) : ℤ))) = some ((r.int key : K)) := by
  have hlt : ints.idxOf key < ints.length := List.idxOf_lt_length_of_mem hk
  unfold find
  rw [if_pos hk, cell_mid]
  · have e : (((ints.idxOf key : ℕ) : ℤ) + ((vecs.length * dims + scals.length : ℕ) : ℤ)).toNat = (vecs.flatMap r.vec ++ scals.map r.scal).length + ints.idxOf key := by
      rw [List.length_append, flat_length dims vecs r h, List.length_map]
      omega
    rw [e]
    unfold encode
    rw [List.getElem?_append_right (by omega), Nat.add_sub_cancel_left]
    have := map_idx ints (fun n => (r.int n : K)) key hk []
    rw [List.append_nil] at this
    exact this
  · omega
  · rw [encode_length dims vecs scals ints r h]
    unfold width
    omega

theorem trunc_int (n : ℤ) : trunc (n : K) = n := by
  unfold trunc
  split <;> simp

/-- A method of colouring with a name, and what it draws. -/
def basisOf (m : ℕ) (name : String) (r : Rec K) (i : ℕ) : Basis K :=
  match m with
  | 1 => .vec (r.vec name)
  | 2 => .scal (r.scal name)
  | 3 => .int (r.int name)
  | _ => .order i

/-- The chosen name exists. -/
def present (m : ℕ) (name : String) (vecs scals ints : List String) : Prop :=
  match m with
  | 1 => name ∈ vecs
  | 2 => name ∈ scals
  | 3 => name ∈ ints
  | _ => True

theorem values_at (s : Vis) (r : Rec K) (h : ∀ n, (r.vec n).length = s.dims) (hx : "X" ∈ s.vecs) (hs : "Sg" ∈ s.scals)
    (hp : present s.method s.name s.vecs s.scals s.ints) (pre post : List K) :
    values (places s) (pre ++ (encode s.vecs s.scals s.ints r ++ post)) pre.length = some (r.vec "X", r.scal "Sg", basisOf s.method s.name r pre.length) := by
  unfold values
  have p : slice (pre ++ (encode s.vecs s.scals s.ints r ++ post)) (pre.length + (places s).posPlace) (places s).dims = some (r.vec "X") :=
    read_vec s.dims s.vecs s.scals s.ints r h pre post "X" hx
  have g : cell (pre ++ (encode s.vecs s.scals s.ints r ++ post)) (pre.length + (places s).sgPlace) = some (r.scal "Sg") :=
    read_scal s.dims s.vecs s.scals s.ints r h pre post "Sg" hs
  rw [p, g]
  have hm : (places s).method = s.method := rfl
  rw [hm]
  simp only [Option.bind_eq_bind, Option.bind_some]
  unfold present at hp
  unfold basisOf
  split
  · rename_i e
    rw [e] at hp
    have v : (places s).vSel = find s.name s.vecs * s.dims := by
      unfold places
      rw [e]
      rfl
    have hd : (places s).dims = s.dims := rfl
    rw [v, hd, read_vec s.dims s.vecs s.scals s.ints r h pre post s.name hp]
    rfl
  · rename_i e
    rw [e] at hp
    have v : (places s).sSel = find s.name s.scals + (s.vecs.length * s.dims : ℕ) := by
      unfold places
      rw [e]
      rfl
    rw [v, read_scal s.dims s.vecs s.scals s.ints r h pre post s.name hp]
    rfl
  · rename_i e
    rw [e] at hp
    have v : (places s).iSel = find s.name s.ints + ((s.vecs.length * s.dims + s.scals.length : ℕ) : ℤ) := by
      unfold places
      rw [e]
      rfl
    rw [v, read_int s.dims s.vecs s.scals s.ints r h pre post s.name hp]
    simp only [Option.bind_some]
    rw [trunc_int]
    rfl
  · rfl

theorem readLoop_all (s : Vis) (hx : "X" ∈ s.vecs) (hs : "Sg" ∈ s.scals) (hp : present s.method s.name s.vecs s.scals s.ints)
    (recs : List (Rec K)) (h : ∀ r ∈ recs, ∀ n, (r.vec n).length = s.dims) (pre : List K) (left k : ℕ) (hl : recs.length ≤ left)
    (hk : pre.length = k * width s.dims s.vecs s.scals s.ints) :
    readLoop (places s) (pre ++ recs.flatMap (encode s.vecs s.scals s.ints)) (width s.dims s.vecs s.scals s.ints) left pre.length =
      some ((recs.zipIdx k).map fun p => (p.1.vec "X", p.1.scal "Sg", basisOf s.method s.name p.1 (p.2 * width s.dims s.vecs s.scals s.ints))) := by
  have wpos : 0 < width s.dims s.vecs s.scals s.ints := by
    unfold width
    have := List.length_pos_of_mem hs
    omega
  induction recs generalizing pre left k with
  | nil =>
    cases left with
    | zero => rfl
    | succ left =>
      unfold readLoop
      rw [if_neg (by simp)]
      rfl
  | cons r rest ih =>
    cases left with
    | zero => simp at hl
    | succ left =>
      have len : (encode s.vecs s.scals s.ints r).length = width s.dims s.vecs s.scals s.ints := encode_length _ _ _ _ _ (h r (by simp))
      unfold readLoop
      rw [List.flatMap_cons, if_pos (by rw [List.length_append, List.length_append]; omega), values_at s r (h r (by simp)) hx hs hp]
      have nx := ih (fun q hq => h q (List.mem_cons_of_mem _ hq)) (pre ++ encode s.vecs s.scals s.ints r) left (k + 1) (by simpa using hl)
        (by rw [List.length_append, len, hk]; ring)
      rw [List.length_append, len, List.append_assoc] at nx
      rw [nx, List.zipIdx_cons, List.map_cons, hk]
      rfl

theorem frame_all (s : Vis) (hx : "X" ∈ s.vecs) (hs : "Sg" ∈ s.scals) (hp : present s.method s.name s.vecs s.scals s.ints)
    (recs : List (Rec K)) (h : ∀ r ∈ recs, ∀ n, (r.vec n).length = s.dims) :
    frame (places s) (recs.flatMap (encode s.vecs s.scals s.ints)) (width s.dims s.vecs s.scals s.ints) =
      some (some ((recs.zipIdx).map fun p => (p.1.vec "X", p.1.scal "Sg", basisOf s.method s.name p.1 (p.2 * width s.dims s.vecs s.scals s.ints)))) := by
  have wpos : 0 < width s.dims s.vecs s.scals s.ints := by
    unfold width
    have := List.length_pos_of_mem hs
    omega
  have c : checks (places s) (width s.dims s.vecs s.scals s.ints) = true := by
    unfold checks places find
    simp only [if_pos hx, if_pos hs]
    have a : ¬ ((s.vecs.idxOf "X" : ℤ) * s.dims < 0) := by
      rw [not_lt]
      positivity
    have b : ¬ ((s.scals.idxOf "Sg" : ℤ) + ((s.vecs.length * s.dims : ℕ) : ℤ) < 0) := by omega
    simp only [a, b, decide_false, Bool.not_false, Bool.and_true]
    simp
    omega
  have big : recs.length ≤ (recs.flatMap (encode s.vecs s.scals s.ints)).length := by
    clear c
    induction recs with
    | nil => simp
    | cons r rest ih =>
      rw [List.flatMap_cons, List.length_append, encode_length _ _ _ _ _ (h r (by simp)), List.length_cons]
      have := ih fun q hq => h q (List.mem_cons_of_mem _ hq)
      omega
  unfold frame
  rw [if_pos c]
  have := readLoop_all s hx hs hp recs h [] _ 0 big (by simp)
  rw [List.nil_append] at this
  rw [List.length_nil] at this
  rw [this]
  rfl

/-- The names chosen for an option. -/
theorem pick_fields (s : Vis) : (pick s).vecs = s.vecs ∧ (pick s).scals = s.scals ∧ (pick s).ints = s.ints ∧ (pick s).dims = s.dims ∧ (pick s).option = s.option := by
  unfold pick choose
  split <;> simp only [] <;> (repeat' split) <;> simp

theorem pick_basis (s : Vis) (hm : s.method = 0) :
    present (pick s).method (pick s).name s.vecs s.scals s.ints ∧
      ∀ (r : Rec K) (i : ℕ), basisOf (pick s).method (pick s).name r i = wanted s.option s.vecs s.scals s.ints r i := by
  unfold pick choose wanted
  split <;> rename_i e
  all_goals try rw [e]
  all_goals try simp only []
  · by_cases h : "Type" ∈ s.ints <;> simp [h, present, basisOf, hm]
  · simp [present, basisOf]
  · by_cases h : "V-M" ∈ s.scals
    · simp [h, present, basisOf]
    · by_cases h2 : "V" ∈ s.vecs <;> simp [h, h2, present, basisOf, hm]
  · by_cases h : "V" ∈ s.vecs <;> simp [h, present, basisOf, hm]
  · by_cases h : "Distance" ∈ s.scals <;> simp [h, present, basisOf, hm]
  · by_cases h : "StripeX" ∈ s.scals <;> simp [h, present, basisOf, hm]
  · by_cases h : "Proc" ∈ s.ints <;> simp [h, present, basisOf, hm]
  · by_cases h : "Om" ∈ s.scals <;> simp [h, present, basisOf, hm]
  · by_cases h : "F-M" ∈ s.scals <;> simp [h, present, basisOf, hm]
  · refine ⟨by simp [present, hm], fun r i => ?_⟩
    rw [hm]
    rfl

/-! ## C137: columns -/

theorem frame_pick (s : Vis) (hm : s.method = 0) (hx : "X" ∈ s.vecs) (hs : "Sg" ∈ s.scals)
    (recs : List (Rec K)) (h : ∀ r ∈ recs, ∀ n, (r.vec n).length = s.dims) :
    frame (findPlaces s) (recs.flatMap (encode s.vecs s.scals s.ints)) (width s.dims s.vecs s.scals s.ints) =
      some (some (picture s.option s.dims s.vecs s.scals s.ints recs)) := by
  obtain ⟨e1, e2, e3, e4, e5⟩ := pick_fields s
  obtain ⟨p1, p2⟩ := pick_basis (K := K) s hm
  unfold findPlaces
  rw [if_pos hm]
  have := frame_all (pick s) (by rw [e1]; exact hx) (by rw [e2]; exact hs) (by rw [e1, e2, e3]; exact p1) recs (by rw [e4]; exact h)
  rw [e1, e2, e3, e4] at this
  rw [this]
  unfold picture
  congr 2
  apply List.map_congr_left
  intro p _
  rw [p2]

/-- C137 (partial): after a kind of colouring is chosen, in whatever state, an image of a frame with positions and radii shows each particle once, in order, at its position, with its
radius, coloured by its own datum of that kind (its type for kind 0, and so on), or by its order if there is no such datum. Missing: frames without radii or positions, see
`C137_negation_no_radius`; columns set after a choice, see `C137_first` and `C137_negation_second`; custom names that do not exist, see `C137_negation_custom`; magnitudes, see
`C137_negation_magnitudes`. -/
theorem C137_option_partial (s : Vis) (opt : ℕ) (hx : "X" ∈ s.vecs) (hs : "Sg" ∈ s.scals) (recs : List (Rec K)) (h : ∀ r ∈ recs, ∀ n, (r.vec n).length = s.dims) :
    frame (setOption s opt) (recs.flatMap (encode s.vecs s.scals s.ints)) (width s.dims s.vecs s.scals s.ints) =
      some (some (picture opt s.dims s.vecs s.scals s.ints recs)) :=
  frame_pick { s with method := 0, option := opt } rfl hx hs recs h

/-- C137: the same for columns loaded by an object that has not loaded anything before, for the kind chosen before. -/
theorem C137_first (opt dims : ℕ) (vecs scals ints : List String) (hx : "X" ∈ vecs) (hs : "Sg" ∈ scals) (recs : List (Rec K)) (h : ∀ r ∈ recs, ∀ n, (r.vec n).length = dims) :
    frame (setColumns (setOption fresh opt) dims vecs scals ints) (recs.flatMap (encode vecs scals ints)) (width dims vecs scals ints) =
      some (some (picture opt dims vecs scals ints recs)) := by
  have m0 : (setOption fresh opt).method = 0 ∧ (setOption fresh opt).option = opt := by
    have h1 : (pick { fresh with method := 0, option := opt }).method = 0 := by
      unfold pick choose fresh
      split <;> simp
    have h2 := (pick_fields { fresh with method := 0, option := opt }).2.2.2.2
    refine ⟨?_, ?_⟩
    · unfold setOption findPlaces
      rw [if_pos rfl]
      exact h1
    · unfold setOption findPlaces
      rw [if_pos rfl]
      exact h2
  have q := frame_pick (K := K) { setOption fresh opt with dims := dims, vecs := vecs, scals := scals, ints := ints } m0.1 hx hs recs h
  refine q.trans ?_
  exact congrArg (fun o => some (some (picture o dims vecs scals ints recs))) m0.2

/-- C137: loading further data with the same columns works as well, also after the places are reset. -/
theorem C137_again (s : Vis) (opt dims : ℕ) (vecs scals ints : List String) (hx : "X" ∈ vecs) (hs : "Sg" ∈ scals) (hv : s.vecs = vecs) (hc : s.scals = scals) (hi' : s.ints = ints)
    (recs : List (Rec K)) (h : ∀ r ∈ recs, ∀ n, (r.vec n).length = dims) :
    frame (setColumns (reset (setOption s opt)) dims vecs scals ints) (recs.flatMap (encode vecs scals ints)) (width dims vecs scals ints) =
      some (some (picture opt dims vecs scals ints recs)) := by
  subst hv hc hi'
  obtain ⟨e1, e2, e3, e4, e5⟩ := pick_fields { s with method := 0, option := opt }
  obtain ⟨p1, p2⟩ := pick_basis (K := K) { s with method := 0, option := opt } rfl
  by_cases hm : (pick { s with method := 0, option := opt }).method = 0
  · have := frame_pick (K := K) { reset (setOption s opt) with dims := dims, vecs := s.vecs, scals := s.scals, ints := s.ints } hm hx hs recs h
    have ho : ({ reset (setOption s opt) with dims := dims, vecs := s.vecs, scals := s.scals, ints := s.ints } : Vis).option = opt := e5
    rw [ho] at this
    exact this
  · have q := frame_all (K := K) { reset (setOption s opt) with dims := dims, vecs := s.vecs, scals := s.scals, ints := s.ints } hx hs p1 recs h
    have e : setColumns (reset (setOption s opt)) dims s.vecs s.scals s.ints =
        places { reset (setOption s opt) with dims := dims, vecs := s.vecs, scals := s.scals, ints := s.ints } := congrArg places (if_neg hm)
    rw [e]
    refine q.trans ?_
    unfold picture
    congr 2
    apply List.map_congr_left
    intro p _
    exact congrArg (fun b => (p.1.vec "X", p.1.scal "Sg", b)) (p2 p.1 _)

/-- A particle with all data of the ending snapshot (`dataobjects/ending-snapshot.cpp:8-16`). -/
def aRec (x : ℚ) : Rec ℚ := ⟨fun n => if n = "X" then [x, 2] else [3, 4], fun n => if n = "Sg" then 5 else 6, fun _ => 7⟩

/-- C137, the hypotheses are met: two particles of the ending snapshot, coloured by type. -/
example : frame (setOption (setColumns fresh 2 ["X", "V"] ["Sg"] ["Type"]) 0) ([aRec 1, aRec 9].flatMap (encode ["X", "V"] ["Sg"] ["Type"])) 6 =
    some (some [([1, 2], 5, .int 7), ([9, 2], 5, .int 7)]) := by
  have := C137_option_partial (K := ℚ) (setColumns fresh 2 ["X", "V"] ["Sg"] ["Type"]) 0 (by decide) (by decide) [aRec 1, aRec 9]
    (by
      intro r hr n
      simp only [List.mem_cons, List.not_mem_nil, or_false] at hr
      rcases hr with rfl | rfl <;> (unfold aRec; simp only []; split <;> rfl))
  exact this

/-- C137 is false of data without radii: the place of the radius is one before the scalars, so that the check passes and the last component of the last vector is used as
radius: the particle at (1, 2) with velocity (3, 4) is drawn with radius 4. -/
theorem C137_negation_no_radius : frame (setOption (setColumns fresh 2 ["X", "V"] [] ["Type"]) 0) (encode ["X", "V"] [] ["Type"] (aRec 1)) 5 =
    some (some [([1, 2], 4, .int 7)]) := by decide +kernel

/-- C137 is false of a second load with other columns: the kind chosen for the first (here types) is kept, and without that column the column before the integers (here the radius) is
used as type, although kind 0 falls back on the order if there are no types. -/
theorem C137_negation_second :
    frame (setColumns (reset (setColumns (setOption fresh 0) 2 ["X"] ["Sg"] ["Type"])) 2 ["X"] ["Sg"] []) (encode ["X"] ["Sg"] [] (aRec 1)) 3 = some (some [([1, 2], 5, .int 5)]) ∧
    picture 0 2 ["X"] ["Sg"] [] [aRec 1] = [([1, 2], 5, .order 0)] := by decide +kernel

/-- C137 is false of custom names that do not exist: a scalar "Fn" that is not stored is read from the last component of the last vector; a vector that is not stored
is read before the start of the data. -/
theorem C137_negation_custom :
    frame (setColumns (setCustom fresh 2 "Fn") 2 ["X", "V"] ["Sg"] []) (encode ["X", "V"] ["Sg"] [] (aRec 1)) 5 = some (some [([1, 2], 5, .scal 4)]) ∧
    frame (setColumns (setCustom fresh 1 "F") 2 ["X", "V"] ["Sg"] []) (encode ["X", "V"] ["Sg"] [] (aRec 1)) 5 = none := by decide +kernel

/-- C137 is false of stores with magnitudes: these are stored between vectors and scalars (`compute/store_data.cpp:120-124`), but only vectors, scalars and integers are passed on
(`visualization/visualization.cpp:93-95`), so that the magnitude is taken for the radius. -/
theorem C137_negation_magnitudes :
    frame (setOption (setColumns fresh 2 ["X"] ["Sg"] []) 1) ([(1 : ℚ), 2] ++ [8] ++ [5]) 4 = some (some [([1, 2], 8, .order 0)]) := by decide +kernel

/-- C137: the images of the ending snapshot (`dataobjects/ending-snapshot.cpp:45-70`) use the functions meant for them: magnitude for the kinetic image, direction for the direction
image, stripes for the stripes. -/
theorem C137_snapshot (dims : ℕ) (vecs scals ints : List String) (hv : "V" ∈ vecs) (hm : "V-M" ∉ scals) (hs : "StripeX" ∈ scals) (ht : "Type" ∈ ints) :
    let s0 := setColumns fresh dims vecs scals ints
    let s1 := setOption s0 2
    let s2 := setOption s1 3
    let s3 := setOption s2 0
    let s4 := setOption s3 5
    (s1.method = 1 ∧ s1.func = 0) ∧ (s2.method = 1 ∧ s2.func = 1) ∧ s3.method = 3 ∧ s4.method = 2 ∧ s4.func = 2 := by
  simp only [setOption, setColumns, findPlaces, fresh, pick, choose, places, hv, hm, hs, ht, if_true, if_false, and_self, Bool.false_eq_true]

/-- C137 is false of the function after other choices: after colouring by direction (kind 3), colouring by velocity (kind 2) colours by direction as well; after stripes (kind 5), the
distance (kind 4) is shown in stripes of random colours. -/
theorem C137_negation_function :
    (setOption (setOption (setColumns fresh 2 ["X", "V"] ["Sg"] []) 3) 2).func = 1 ∧
    (setOption (setColumns fresh 2 ["X", "V"] ["Sg"] []) 2).func = 0 ∧
    (setOption (setOption (setColumns fresh 2 ["X"] ["Sg", "StripeX", "Distance"] []) 5) 4).func = 2 := by decide +kernel

end Verif.Frames
