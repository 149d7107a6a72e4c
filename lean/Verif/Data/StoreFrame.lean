import Mathlib.Data.List.Basic
import Mathlib.Data.List.OfFn
import Mathlib.Algebra.Order.Ring.Int
import Mathlib.Tactic.Linarith

/-!
# Frames: what `StoreData::store` puts into the data vector (C78)

Models `compute/store_data.cpp:8-182` and its use in `dataobjects/positiondata.cpp:16-26`. Writing outside the data vector gives `none`.
-/

namespace Verif.StoreFrame

/-- What a `StoreData` reads from the particle data: the number of dimensions and of types, the number of slots, the count of owned
particles, the type of each slot, the lookup of names (`getVectorData`, …, `none` is -1), the values, and the rank of the processor. Integers appear as
the floating point numbers they are converted to. A column that the lookup returns exists, so the tests `isnull` are not modelled. `mag` is
`magnitudeVec`. -/
structure Src (N F : Type) where
  dims : ℕ
  nTypes : ℕ
  size : ℕ
  number : ℕ
  typ : ℕ → ℤ
  vpos : N → Option ℕ
  spos : N → Option ℕ
  ipos : N → Option ℕ
  vec : ℕ → ℕ → ℕ → F
  sca : ℕ → ℕ → F
  int : ℕ → ℕ → F
  mag : List F → F
  rank : F

/-- The members of `StoreData` that `initialize` computes, `compute/store_data.hpp:50-76`. -/
structure Store where
  vec : List ℕ
  mag : List ℕ
  sca : List ℕ
  int : List ℕ
  width : ℕ
  proc : Bool

/-- A new `StoreData`, `compute/store_data.hpp:55-76`. -/
def fresh : Store := ⟨[], [], [], [], 0, true⟩

/-- The names that are requested: `set_vector_data` and so on, `compute/store_data.cpp:69-83`. -/
structure Req (N : Type) where
  vec : List N
  mag : List N
  sca : List N
  int : List N

/-- `StoreData::initialize` after the names were set, `compute/store_data.cpp:8-67`: the positions are appended to the lists of positions,
the width is computed anew. -/
def initStore {N F : Type} (s : Src N F) (r : Req N) (st : Store) : Store :=
  if s.nTypes = 0 then st
  else ⟨st.vec ++ r.vec.filterMap s.vpos, st.mag ++ r.mag.filterMap s.vpos, st.sca ++ r.sca.filterMap s.spos, st.int ++ r.int.filterMap s.ipos,
    s.dims * (r.vec.filterMap s.vpos).length + (r.mag.filterMap s.vpos).length + (r.sca.filterMap s.spos).length + (r.int.filterMap s.ipos).length +
      (if st.proc then 1 else 0), st.proc⟩

/-- Writing values one after the other from place `p` on: `copyVec` and the assignments in `compute/store_data.cpp:115-139`. -/
def writeAll {F : Type} : List F → ℕ → List F → Option (List F × ℕ)
  | data, p, [] => some (data, p)
  | data, p, x :: xs => if p < data.length then writeAll (data.set p x) (p + 1) xs else none

/-- The components of a vector. -/
def comps {N F : Type} (s : Src N F) (v n : ℕ) : List F := List.ofFn fun k : Fin s.dims => s.vec v n k

/-- The body of the loop over particles, `compute/store_data.cpp:114-140`. -/
def storeOne {N F : Type} [Inhabited F] (s : Src N F) (st : Store) (n : ℕ) (q : List F × ℕ) : Option (List F × ℕ) :=
  ((((writeAll (q.1 ++ List.replicate st.width default) q.2 (st.vec.flatMap fun v => comps s v n)).bind fun q =>
    writeAll q.1 q.2 (st.mag.map fun m => s.mag (comps s m n))).bind fun q =>
    writeAll q.1 q.2 (st.sca.map fun c => s.sca c n)).bind fun q =>
    writeAll q.1 q.2 (st.int.map fun c => s.int c n)).bind fun q =>
    writeAll q.1 q.2 (if st.proc then [s.rank] else [])

/-- The loop over particles, `compute/store_data.cpp:110-140`, from slot `n` with `fuel` slots left; `sel` is the test of the bounds and of the
selection function, `compute/store_data.cpp:112,153`. -/
def storeLoop {N F : Type} [Inhabited F] (s : Src N F) (st : Store) (sel : ℕ → Bool) : ℕ → ℕ → List F × ℕ → Option (List F × ℕ)
  | 0, _, q => some q
  | fuel + 1, n, q =>
    if s.typ n < 0 || !sel n then storeLoop s st sel fuel (n + 1) q
    else (storeOne s st n q).bind fun q => storeLoop s st sel fuel (n + 1) q

/-- `StoreData::store`, `compute/store_data.cpp:101-182`, both versions. -/
def store {N F : Type} [Inhabited F] (s : Src N F) (st : Store) (sel : ℕ → Bool) : Option (List F) :=
  if st.width = 0 ∨ s.number = 0 then some []
  else (storeLoop s st sel s.size 0 ([], 0)).map fun q => q.1

/-- What `PositionData::pre_integrate` does before it stores the first frame, `dataobjects/positiondata.cpp:16-21`, run `k` times. -/
def afterRuns {N F : Type} (s : Src N F) (r : Req N) : ℕ → Store
  | 0 => fresh
  | k + 1 => initStore s r (afterRuns s r k)

/-! ## Specification -/

/-- What is recorded of one particle: the components of the requested vectors, the magnitudes, scalars and integers that were requested, each in the order
of the request and without the names that do not exist, and the rank. -/
def record {N F : Type} (s : Src N F) (r : Req N) (n : ℕ) : List F :=
  ((r.vec.filterMap s.vpos).flatMap fun v => (List.range s.dims).map (s.vec v n)) ++ ((r.mag.filterMap s.vpos).map fun m => s.mag ((List.range s.dims).map (s.vec m n))) ++
    ((r.sca.filterMap s.spos).map fun c => s.sca c n) ++ ((r.int.filterMap s.ipos).map fun c => s.int c n) ++ [s.rank]

/-- The particles of a frame: slots that hold a particle, and are selected. -/
def chosen {N F : Type} (s : Src N F) (sel : ℕ → Bool) : List ℕ := (List.range s.size).filter fun n => decide (0 ≤ s.typ n) && sel n

/-! ## Lemmas -/

theorem writeAll_spec {F : Type} (xs : List F) (pre mid post : List F) (h : mid.length = xs.length) :
    writeAll (pre ++ mid ++ post) pre.length xs = some (pre ++ xs ++ post, pre.length + xs.length) := by
  induction xs generalizing pre mid with
  | nil => rw [List.length_nil, List.length_eq_zero_iff] at h; subst h; simp [writeAll]
  | cons x xs ih =>
    cases mid with
    | nil => simp at h
    | cons y mid =>
      rw [writeAll, if_pos (by simp)]
      have := ih (pre ++ [x]) mid (by simpa using h)
      simp only [List.append_assoc, List.cons_append, List.nil_append, List.length_append, List.length_cons, List.length_nil] at this ⊢
      rw [List.set_append_right _ _ (le_refl _), Nat.sub_self, List.set_cons_zero]
      rw [this]
      congr 2
      omega

theorem writeAll_append {F : Type} (xs ys data : List F) (p : ℕ) :
    ((writeAll data p xs).bind fun q => writeAll q.1 q.2 ys) = writeAll data p (xs ++ ys) := by
  induction xs generalizing data p with
  | nil => rfl
  | cons x xs ih =>
    rw [List.cons_append, writeAll, writeAll]
    split
    · exact ih _ _
    · rfl

theorem writeAll_none {F : Type} (xs data : List F) (p : ℕ) (h : data.length < p + xs.length) (hp : p ≤ data.length) : writeAll data p xs = none := by
  induction xs generalizing data p with
  | nil => simp at h; omega
  | cons x xs ih =>
    rw [writeAll]
    split
    · exact ih _ _ (by simp at h ⊢; omega) (by simp; omega)
    · rfl

theorem comps_eq {N F : Type} (s : Src N F) (v n : ℕ) : comps s v n = (List.range s.dims).map (s.vec v n) := by
  unfold comps
  apply List.ext_getElem
  · simp
  · intro i h1 h2; simp

/-- The values written for one particle. -/
def values {N F : Type} (s : Src N F) (st : Store) (n : ℕ) : List F :=
  (st.vec.flatMap fun v => comps s v n) ++ (st.mag.map fun m => s.mag (comps s m n)) ++ (st.sca.map fun c => s.sca c n) ++ (st.int.map fun c => s.int c n) ++
    (if st.proc then [s.rank] else [])

theorem storeOne_eq {N F : Type} [Inhabited F] (s : Src N F) (st : Store) (n : ℕ) (q : List F × ℕ) :
    storeOne s st n q = writeAll (q.1 ++ List.replicate st.width default) q.2 (values s st n) := by
  unfold storeOne values
  rw [writeAll_append, writeAll_append, writeAll_append, writeAll_append]

theorem values_length {N F : Type} (s : Src N F) (st : Store) (n : ℕ) :
    (values s st n).length = s.dims * st.vec.length + st.mag.length + st.sca.length + st.int.length + if st.proc then 1 else 0 := by
  unfold values
  have h1 : (st.vec.flatMap fun v => comps s v n).length = s.dims * st.vec.length := by
    induction st.vec with
    | nil => simp
    | cons v l ih => rw [List.flatMap_cons, List.length_append, ih, List.length_cons, Nat.mul_succ]; simp [comps]; omega
  simp only [List.length_append, h1, List.length_map]
  cases st.proc <;> simp

theorem storeLoop_eq {N F : Type} [Inhabited F] (s : Src N F) (st : Store) (sel : ℕ → Bool) (hw : ∀ n, (values s st n).length = st.width) (fuel n : ℕ) (d : List F) :
    storeLoop s st sel fuel n (d, d.length) =
      some (d ++ ((List.range' n fuel).filter fun n => decide (0 ≤ s.typ n) && sel n).flatMap (values s st),
        (d ++ ((List.range' n fuel).filter fun n => decide (0 ≤ s.typ n) && sel n).flatMap (values s st)).length) := by
  induction fuel generalizing n d with
  | zero => simp [storeLoop]
  | succ fuel ih =>
    rw [storeLoop, List.range'_succ, List.filter_cons]
    by_cases hc : (decide (0 ≤ s.typ n) && sel n) = true
    · have hc' : ¬ (decide (s.typ n < 0) || !sel n) = true := by
        simp only [Bool.and_eq_true, decide_eq_true_eq] at hc
        simp only [Bool.or_eq_true, decide_eq_true_eq, Bool.not_eq_true', not_or]
        exact ⟨not_lt.mpr hc.1, by rw [hc.2]; simp⟩
      rw [if_neg hc', if_pos hc, storeOne_eq]
      have := writeAll_spec (values s st n) d (List.replicate st.width default) [] (by simp [hw])
      rw [List.append_nil, List.append_nil] at this
      rw [this]
      simp only [Option.bind_some]
      rw [← List.length_append, ih]
      simp [List.append_assoc]
    · have hc' : (decide (s.typ n < 0) || !sel n) = true := by
        rw [Bool.not_eq_true] at hc
        rcases Bool.and_eq_false_iff.mp hc with h | h
        · rw [decide_eq_false_iff_not, not_le] at h; simp [h]
        · simp [h]
      rw [if_pos hc', if_neg hc]
      exact ih _ _

/-! ## C78 -/

/-- C78 (partial): in the first run, a frame holds exactly the particles that are owned, hold a type, and are selected, in the order of their slots, and
of each of them exactly what was requested and exists, followed by the rank. Missing: later runs, see `C78_negation_second_run`. -/
theorem C78_frame_partial {N F : Type} [Inhabited F] (s : Src N F) (r : Req N) (sel : ℕ → Bool) (ht : s.nTypes ≠ 0)
    (hn : s.number = 0 → ∀ n < s.size, s.typ n < 0) : store s (afterRuns s r 1) sel = some ((chosen s sel).flatMap (record s r)) := by
  have hv : ∀ n, values s (afterRuns s r 1) n = record s r n := by
    intro n
    unfold values record afterRuns afterRuns initStore
    rw [if_neg ht]
    simp only [fresh, List.nil_append, comps_eq, if_true]
  have hw : ∀ n, (values s (afterRuns s r 1) n).length = (afterRuns s r 1).width := by
    intro n
    rw [values_length]
    unfold afterRuns afterRuns initStore
    rw [if_neg ht]
    simp [fresh]
  have h1 : (afterRuns s r 1).width ≠ 0 := by
    unfold afterRuns afterRuns initStore
    rw [if_neg ht]
    simp [fresh]
  unfold store
  by_cases h0 : s.number = 0
  · rw [if_pos (Or.inr h0)]
    have : chosen s sel = [] := by
      unfold chosen
      rw [List.filter_eq_nil_iff]
      intro n hm
      have := hn h0 n (List.mem_range.mp hm)
      simp [this]
    rw [this]; rfl
  · rw [if_neg (by simp [h1, h0])]
    have := storeLoop_eq s (afterRuns s r 1) sel hw s.size 0 []
    rw [List.length_nil] at this
    rw [this, Option.map_some, List.nil_append, chosen, List.range_eq_range']
    rw [show values s (afterRuns s r 1) = record s r from funext hv]

/-- C78: the number of values in a frame is the width times the number of particles in it, so that readers can recover that number. -/
theorem C78_length {N F : Type} [Inhabited F] (s : Src N F) (r : Req N) (sel : ℕ → Bool) (ht : s.nTypes ≠ 0)
    (hn : s.number = 0 → ∀ n < s.size, s.typ n < 0) (d : List F) (h : store s (afterRuns s r 1) sel = some d) :
    d.length = (afterRuns s r 1).width * (chosen s sel).length ∧ d.length / (afterRuns s r 1).width = (chosen s sel).length := by
  rw [C78_frame_partial s r sel ht hn, Option.some.injEq] at h
  subst h
  have hr : ∀ n, (record s r n).length = (afterRuns s r 1).width := by
    intro n
    have := values_length s (afterRuns s r 1) n
    have e : values s (afterRuns s r 1) n = record s r n := by
      unfold values record afterRuns afterRuns initStore
      rw [if_neg ht]
      simp only [fresh, List.nil_append, comps_eq, if_true]
    rw [← e, this]
    unfold afterRuns afterRuns initStore
    rw [if_neg ht]
    simp [fresh]
  have h1 : 0 < (afterRuns s r 1).width := by
    unfold afterRuns afterRuns initStore
    rw [if_neg ht]
    simp [fresh]
  have h2 : ((chosen s sel).flatMap (record s r)).length = (afterRuns s r 1).width * (chosen s sel).length := by
    induction chosen s sel with
    | nil => simp
    | cons n l ih => rw [List.flatMap_cons, List.length_append, ih, hr, List.length_cons, Nat.mul_succ]; omega
  exact ⟨h2, by rw [h2, Nat.mul_div_cancel_left _ h1]⟩

theorem storeLoop_none {N F : Type} [Inhabited F] (s : Src N F) (st : Store) (sel : ℕ → Bool) (hw : ∀ n, st.width < (values s st n).length) (fuel n : ℕ)
    (h : ∃ i, n ≤ i ∧ i < n + fuel ∧ 0 ≤ s.typ i ∧ sel i = true) : storeLoop s st sel fuel n ([], 0) = none := by
  induction fuel generalizing n with
  | zero => obtain ⟨i, h1, h2, _⟩ := h; omega
  | succ fuel ih =>
    obtain ⟨i, h1, h2, h3, h4⟩ := h
    rw [storeLoop]
    by_cases hc : (decide (s.typ n < 0) || !sel n) = true
    · rw [if_pos hc]
      refine ih (n + 1) ⟨i, ?_, by omega, h3, h4⟩
      rcases Nat.lt_or_ge n i with h | h
      · exact h
      · have : i = n := by omega
        subst this
        simp [h4] at hc
        omega
    · rw [if_neg hc, storeOne_eq, writeAll_none _ _ _ (by simpa using hw n) (by simp)]
      rfl

/-- C78 is false of every later run: the positions found in earlier runs are kept, and the width is that of one run, so if any of the requested data exists,
storing the first selected particle writes past the end of the data vector. -/
theorem C78_negation_second_run {N F : Type} [Inhabited F] (s : Src N F) (r : Req N) (sel : ℕ → Bool) (ht : s.nTypes ≠ 0) (hd : 0 < s.dims) (k : ℕ)
    (hreq : r.vec.filterMap s.vpos ≠ [] ∨ r.mag.filterMap s.vpos ≠ [] ∨ r.sca.filterMap s.spos ≠ [] ∨ r.int.filterMap s.ipos ≠ [])
    (hnum : s.number ≠ 0) (hsel : ∃ n < s.size, 0 ≤ s.typ n ∧ sel n = true) : store s (afterRuns s r (k + 2)) sel = none := by
  have hl : ∀ k, (afterRuns s r (k + 1)).proc = true ∧
      (r.vec.filterMap s.vpos).length ≤ (afterRuns s r (k + 1)).vec.length ∧ (r.mag.filterMap s.vpos).length ≤ (afterRuns s r (k + 1)).mag.length ∧
      (r.sca.filterMap s.spos).length ≤ (afterRuns s r (k + 1)).sca.length ∧ (r.int.filterMap s.ipos).length ≤ (afterRuns s r (k + 1)).int.length := by
    intro k
    induction k with
    | zero =>
      unfold afterRuns afterRuns initStore
      rw [if_neg ht]
      simp [fresh]
    | succ k ih =>
      rw [afterRuns]
      unfold initStore
      rw [if_neg ht]
      refine ⟨ih.1, ?_, ?_, ?_, ?_⟩ <;> simp
  have hw : ∀ n, (afterRuns s r (k + 2)).width < (values s (afterRuns s r (k + 2)) n).length := by
    intro n
    rw [values_length]
    obtain ⟨h0, h1, h2, h3, h4⟩ := hl k
    rw [afterRuns]
    unfold initStore
    rw [if_neg ht]
    simp only [List.length_append, Nat.mul_add, h0, if_true]
    have h5 : s.dims * (r.vec.filterMap s.vpos).length ≤ s.dims * (afterRuns s r (k + 1)).vec.length := Nat.mul_le_mul_left _ h1
    rcases hreq with h | h | h | h
    · have := Nat.mul_pos hd (List.length_pos_iff.mpr h); omega
    all_goals have := List.length_pos_iff.mpr h; omega
  unfold store
  have hw0 : (afterRuns s r (k + 2)).width ≠ 0 := by
    obtain ⟨h0, -⟩ := hl k
    rw [afterRuns]
    unfold initStore
    rw [if_neg ht]
    simp [h0]
  rw [if_neg (by simp [hw0, hnum])]
  obtain ⟨n, h1, h2, h3⟩ := hsel
  rw [storeLoop_none s _ sel hw s.size 0 ⟨n, by omega, by omega, h2, h3⟩]
  rfl

/-- C78: if there are no types, nothing is recorded. -/
theorem C78_no_types {N F : Type} [Inhabited F] (s : Src N F) (r : Req N) (sel : ℕ → Bool) (ht : s.nTypes = 0) (k : ℕ) :
    store s (afterRuns s r k) sel = some [] := by
  have : afterRuns s r k = fresh := by
    induction k with
    | zero => rfl
    | succ k ih => rw [afterRuns, ih]; unfold initStore; rw [if_pos ht]
  rw [this]
  unfold store
  exact if_pos (Or.inl rfl)

/-! ## Examples -/

/-- Three slots, the second without a particle; names are numbers, and only 0 and 1 exist. -/
def exampleSrc : Src ℕ ℕ := ⟨2, 1, 3, 2, fun n => if n = 1 then -1 else 0, fun n => if n < 2 then some n else none, fun n => if n < 2 then some n else none,
  fun n => if n < 2 then some n else none, fun v n k => 100 * v + 10 * n + k, fun v n => 1000 * v + n, fun v n => 2000 * v + n, List.sum, 7⟩

/-- A request with a name that does not exist. -/
def exampleReq : Req ℕ := ⟨[0, 5], [1], [0, 1], []⟩

example : store exampleSrc (afterRuns exampleSrc exampleReq 1) (fun _ => true) = some [0, 1, 201, 0, 1000, 7, 20, 21, 241, 2, 1002, 7] := by decide
example : exampleSrc.nTypes ≠ 0 ∧ (exampleSrc.number = 0 → ∀ n < exampleSrc.size, exampleSrc.typ n < 0) := by decide
example : store exampleSrc (afterRuns exampleSrc exampleReq 2) (fun _ => true) = none := by decide

end Verif.StoreFrame
