import Mathlib.Algebra.Order.Field.Rat
import Mathlib.Algebra.Order.Field.Basic
import Mathlib.Algebra.BigOperators.Group.List.Basic
import Mathlib.Data.List.Basic
import Mathlib.Data.Rat.Cast.Order
import Mathlib.Tactic.Linarith
import Mathlib.Tactic.FieldSimp
import Mathlib.Tactic.Ring
import Mathlib.Tactic.Positivity

/-!
# Bins and graphs (C63)

Models `dataobjects/dataobjecttypes/graphobject.cpp` and `multibinobject.cpp`, over any ordered field `K`. Accesses out of bounds and divisions by zero
give `none`.
-/

namespace Verif.Bins

section
variable {K : Type} [Field K] [LinearOrder K] [IsStrictOrderedRing K]

/-! ## Graphs -/

/-- `GraphObject::makeBins`, `dataobjects/dataobjecttypes/graphobject.cpp:52-64`: the new data. -/
def makeBins (mn mx : K) (n : ℕ) : List (K × K) :=
  if n = 0 then []
  else if 1 < n then (List.range n).map fun i : ℕ => (mn + (mx - mn) / ((n - 1 : ℕ) : K) * i, 0)
  else [((mn + mx) / 2, 0)]

/-- `GraphObject::ave`, `dataobjects/dataobjecttypes/graphobject.cpp:23-31`. -/
def ave (d : List (K × K)) : K := if d = [] then 0 else d.foldl (fun t v => t + v.2) 0 / d.length

/-- `GraphObject::first`, `dataobjects/dataobjecttypes/graphobject.cpp:33-36`. -/
def first (d : List (K × K)) : K × K := match d with | [] => (0, 0) | v :: _ => v

/-- `GraphObject::last`, `dataobjects/dataobjecttypes/graphobject.cpp:38-41`. -/
def last (d : List (K × K)) : K × K := if h : d = [] then (0, 0) else d[d.length - 1]'(by
  have := List.length_pos_iff.mpr h
  omega)

/-! ## Histograms -/

/-- `MultiBinObject`, `dataobjects/dataobjecttypes/multibinobject.hpp:36-60`; a label is `none` if it is not a number. -/
structure MB (K : Type) where
  nbins : ℕ
  ndata : ℕ
  labels : List (Option K)
  counts : List (List ℕ)
  flags : List Bool
  points : ℕ
  mn : K
  mx : K

/-- `MultiBinObject::resetData`, `dataobjects/dataobjecttypes/multibinobject.cpp:73-77`. -/
def MB.reset (m : MB K) : MB K :=
  ⟨m.nbins, m.ndata, List.replicate m.nbins (some 0), List.replicate m.nbins (List.replicate m.ndata 0), m.flags, 0, m.mn, m.mx⟩

/-- The constructor, `dataobjects/dataobjecttypes/multibinobject.cpp:5-12`, with `nd` data sets: 50 bins. -/
def MB.new (nd : ℕ) : MB K := MB.reset ⟨50, max nd 1, [], [], List.replicate nd true, 0, 0, 0⟩

/-- `MultiBinObject::labelBins`, `dataobjects/dataobjecttypes/multibinobject.cpp:79-88`: with one bin the spacing is infinite or not a number, and its product with zero is
not a number. -/
def MB.labelBins (m : MB K) (mn mx : K) : MB K :=
  ⟨m.nbins, m.ndata, (List.range m.nbins).map fun i : ℕ => if m.nbins = 1 then none else some (mn + i * ((mx - mn) / ((m.nbins : K) - 1))),
    m.counts, m.flags, m.points, mn, mx⟩

/-- `MultiBinObject::setNBins`, `dataobjects/dataobjecttypes/multibinobject.cpp:55-61`. -/
def MB.setNBins (m : MB K) (nb : ℕ) : MB K :=
  if nb ≠ m.nbins then (MB.reset ⟨nb, m.ndata, m.labels, m.counts, m.flags, m.points, m.mn, m.mx⟩).labelBins m.mn m.mx else m

/-- `MultiBinObject::increment`, `dataobjects/dataobjecttypes/multibinobject.cpp:63-71`; the version without entry uses entry 0. -/
def MB.increment (m : MB K) (b e : ℕ) (inc : Bool) : Option (MB K) :=
  match m.counts[b]? with
  | none => none
  | some row =>
    match row[e]? with
    | none => none
    | some x => some ⟨m.nbins, m.ndata, m.labels, m.counts.set b (row.set e (x + 1)), m.flags, if inc then m.points + 1 else m.points, m.mn, m.mx⟩

/-- `MultiBinObject::pre_integrate`, `dataobjects/dataobjecttypes/multibinobject.cpp:14-16`. -/
def MB.preIntegrate (m : MB K) : MB K := m.reset

/-- The counts written in one row, `dataobjects/dataobjecttypes/multibinobject.cpp:32-38`, from entry `j` on. -/
def rowOut (flags : List Bool) : ℕ → List ℕ → Option (List ℕ)
  | _, [] => some []
  | j, x :: xs =>
    if j = 0 then (rowOut flags (j + 1) xs).map fun r => x :: r
    else match flags[j - 1]? with
      | none => none
      | some f => (rowOut flags (j + 1) xs).map fun r => if f then x :: r else r

/-- The numbers of the data sets whose axes are written, `dataobjects/dataobjecttypes/multibinobject.cpp:46-47`, from `i` on. -/
def axesOut (flags : List Bool) (ndata : ℕ) : ℕ → ℕ → Option (List ℕ)
  | 0, _ => some []
  | left + 1, i =>
    match flags[i]? with
    | none => none
    | some f => (axesOut flags ndata left (i + 1)).map fun r => if f then i :: r else r

/-- `MultiBinObject::writeToFile`, `dataobjects/dataobjecttypes/multibinobject.cpp:19-53`, for a file that can be opened: the rows and the axes. -/
def MB.write (m : MB K) : Option (List (List ℕ) × List ℕ) :=
  if m.points = 0 then some ([], [])
  else (m.counts.mapM (rowOut m.flags 0)).bind fun rows => (axesOut m.flags m.ndata m.ndata 0).map fun ax => (rows, ax)

/-! ## C63: bins of graphs -/

/-- C63: the bins of a graph are empty, as many as asked for, evenly spaced, in increasing order, the first is at the minimum and the last at the maximum. -/
theorem C63_make_bins (mn mx : K) (n : ℕ) (hn : 1 < n) :
    (makeBins mn mx n).length = n ∧
    (∀ i (h : i < (makeBins mn mx n).length), ((makeBins mn mx n)[i]).2 = 0 ∧
      ((makeBins mn mx n)[i]).1 * ((n : K) - 1) = mn * ((n : K) - 1 - i) + mx * i) ∧
    (mn ≤ mx → ∀ v ∈ makeBins mn mx n, mn ≤ v.1 ∧ v.1 ≤ mx) ∧
    first (makeBins mn mx n) = (mn, 0) ∧ last (makeBins mn mx n) = (mx, 0) := by
  have e : makeBins mn mx n = (List.range n).map fun i : ℕ => (mn + (mx - mn) / ((n - 1 : ℕ) : K) * i, 0) := by
    unfold makeBins
    rw [if_neg (by omega), if_pos hn]
  have hc : ((n - 1 : ℕ) : K) = (n : K) - 1 := by
    rw [Nat.cast_sub (by omega)]; simp
  have hp : (0 : K) < (n : K) - 1 := by
    have : (1 : K) < n := by exact_mod_cast hn
    linarith
  rw [e, hc]
  have hlen : ((List.range n).map fun i : ℕ => (mn + (mx - mn) / ((n : K) - 1) * i, (0 : K))).length = n := by simp
  refine ⟨hlen, ?_, ?_, ?_, ?_⟩
  · intro i h
    rw [List.getElem_map, List.getElem_range]
    refine ⟨rfl, ?_⟩
    simp only
    field_simp
    ring
  · intro hle v hv
    obtain ⟨i, hi, rfl⟩ := List.mem_map.mp hv
    have hi' : i < n := List.mem_range.mp hi
    have h0 : (0 : K) ≤ i := Nat.cast_nonneg i
    have h1 : (i : K) ≤ (n : K) - 1 := by
      have : ((i + 1 : ℕ) : K) ≤ n := by exact_mod_cast hi'
      push_cast at this
      linarith
    have hd : 0 ≤ mx - mn := by linarith
    simp only
    constructor
    · have : 0 ≤ (mx - mn) / ((n : K) - 1) * i := mul_nonneg (div_nonneg hd hp.le) h0
      linarith
    · have : (mx - mn) / ((n : K) - 1) * i ≤ (mx - mn) / ((n : K) - 1) * ((n : K) - 1) := mul_le_mul_of_nonneg_left h1 (div_nonneg hd hp.le)
      rw [div_mul_cancel₀ _ hp.ne'] at this
      linarith
  · cases n with
    | zero => omega
    | succ n =>
      rw [List.range_succ_eq_map, List.map_cons, first]
      simp
  · unfold last
    rw [dif_neg (by
      intro h
      have := congrArg List.length h
      rw [hlen] at this
      simp at this
      omega)]
    rw [List.getElem_map, List.getElem_range]
    simp only [List.length_map, List.length_range, hc]
    rw [div_mul_cancel₀ _ hp.ne']
    simp

/-- C63: a single bin is in the middle; there are no bins for a number that is not positive. -/
theorem C63_one_bin (mn mx : K) : makeBins mn mx 1 = [((mn + mx) / 2, 0)] ∧ makeBins mn mx 0 = [] := ⟨rfl, rfl⟩

theorem foldl_add (l : List (K × K)) (a : K) : l.foldl (fun t v => t + v.2) a = a + (l.map Prod.snd).sum := by
  induction l generalizing a with
  | nil => simp
  | cons v l ih => rw [List.foldl_cons, ih, List.map_cons, List.sum_cons, add_assoc]

/-- C63: the average of a graph is the mean of its values, and zero for an empty graph. -/
theorem C63_average (d : List (K × K)) : ave d * d.length = (d.map Prod.snd).sum ∧ (d = [] → ave d = 0) := by
  constructor
  · unfold ave
    by_cases h : d = []
    · rw [if_pos h, h]; simp
    · rw [if_neg h, foldl_add, zero_add]
      have : (d.length : K) ≠ 0 := by
        rw [Nat.cast_ne_zero]
        exact fun e => h (List.length_eq_zero_iff.mp e)
      rw [div_mul_cancel₀ _ this]
  · intro h; unfold ave; rw [if_pos h]

/-! ## C63: labels and counts of histograms -/

/-- C63 (partial): after labelling two or more bins, label `i` is at the evenly spaced place between minimum and maximum. Missing: a single bin, see `C63_negation_single`. -/
theorem C63_labels_partial (m : MB K) (mn mx : K) (hn : 1 < m.nbins) :
    (m.labelBins mn mx).labels.length = m.nbins ∧
    ∀ i (h : i < (m.labelBins mn mx).labels.length), ∃ x, (m.labelBins mn mx).labels[i] = some x ∧
      x * ((m.nbins : K) - 1) = mn * ((m.nbins : K) - 1 - i) + mx * i := by
  have hp : (0 : K) < (m.nbins : K) - 1 := by
    have : (1 : K) < m.nbins := by exact_mod_cast hn
    linarith
  constructor
  · simp [MB.labelBins]
  · intro i h
    refine ⟨mn + i * ((mx - mn) / ((m.nbins : K) - 1)), ?_, ?_⟩
    · simp [MB.labelBins, show m.nbins ≠ 1 by omega]
    · field_simp
      ring

/-- C63 is false for a single bin: its label is not a number. -/
theorem C63_negation_single (m : MB K) (mn mx : K) (hn : m.nbins = 1) : (m.labelBins mn mx).labels = [none] := by
  simp [MB.labelBins, hn, List.range_succ]

/-- C63 is false of the labels in a run: starting a run sets all of them to zero, whatever they were. -/
theorem C63_negation_labels_lost (m : MB K) : ∀ l ∈ m.preIntegrate.labels, l = some 0 := by
  intro l hl
  exact (List.mem_replicate.mp hl).2

/-- The calls that count. -/
inductive Op where
  | inc (b e : ℕ) (p : Bool)

/-- A sequence of calls of `increment`. -/
def runOps (m : MB K) : List Op → Option (MB K)
  | [] => some m
  | .inc b e p :: ops => (m.increment b e p).bind fun m => runOps m ops

/-- The number of calls for bin `b` and entry `e`. -/
def calls (ops : List Op) (b e : ℕ) : ℕ := ops.countP fun | .inc b' e' _ => b' == b && e' == e

/-- The count of bin `b` and entry `e`. -/
def MB.count (m : MB K) (b e : ℕ) : Option ℕ := (m.counts[b]?).bind fun r => r[e]?

theorem inc_count (m m' : MB K) (b e : ℕ) (p : Bool) (h : m.increment b e p = some m') (b' e' : ℕ) :
    m'.count b' e' = (m.count b' e').map (· + if b = b' ∧ e = e' then 1 else 0) ∧
      m'.points = m.points + (if p then 1 else 0) ∧ m'.flags = m.flags ∧ m'.ndata = m.ndata := by
  unfold MB.increment at h
  cases hr : m.counts[b]? with
  | none => rw [hr] at h; cases h
  | some row =>
    rw [hr] at h
    simp only at h
    cases hx : row[e]? with
    | none => rw [hx] at h; cases h
    | some x =>
      rw [hx] at h
      simp only [Option.some.injEq] at h
      subst h
      refine ⟨?_, by cases p <;> rfl, rfl, rfl⟩
      obtain ⟨hb, hbr⟩ := List.getElem?_eq_some_iff.mp hr
      obtain ⟨he, hex⟩ := List.getElem?_eq_some_iff.mp hx
      unfold MB.count
      by_cases hbb : b = b'
      · subst hbb
        simp only [true_and]
        rw [List.getElem?_set_self hb, hr, Option.bind_some, Option.bind_some]
        by_cases hee : e = e'
        · subst hee
          rw [List.getElem?_set_self he, hx, if_pos rfl]
          rfl
        · rw [List.getElem?_set_ne hee, if_neg hee]
          simp
      · rw [List.getElem?_set_ne hbb, if_neg (by tauto)]
        simp

/-- C63: after any sequence of calls that stays in range, each count is the number of calls for it, and the number of data points is the number of calls that
count as one. -/
theorem C63_counts (m m' : MB K) (ops : List Op) (h : runOps m ops = some m') (b e : ℕ) :
    m'.count b e = (m.count b e).map (· + calls ops b e) ∧
      m'.points = m.points + ops.countP fun | .inc _ _ p => p := by
  induction ops generalizing m with
  | nil =>
    rw [runOps, Option.some.injEq] at h
    subst h
    simp [calls]
  | cons o ops ih =>
    obtain ⟨b', e', p⟩ := o
    rw [runOps] at h
    cases hi : m.increment b' e' p with
    | none => rw [hi] at h; cases h
    | some m1 =>
      rw [hi, Option.bind_some] at h
      obtain ⟨h1, h2, _⟩ := inc_count m m1 b' e' p hi b e
      obtain ⟨h3, h4⟩ := ih m1 h
      constructor
      · rw [h3, h1, Option.map_map]
        congr 1
        funext x
        simp only [Function.comp, calls, List.countP_cons]
        by_cases hc : b' = b ∧ e' = e
        · simp [hc]; omega
        · have : (b' == b && e' == e) = false := by
            rw [Bool.and_eq_false_iff]
            simp only [beq_eq_false_iff_ne]
            tauto
          simp [hc, this]
      · rw [h4, h2, List.countP_cons]
        cases p <;> simp <;> omega

/-- C63: a call with a bin or an entry out of range is not caught: it writes outside of the counts. -/
theorem C63_out_of_range (m : MB K) (b e : ℕ) (p : Bool) (h : m.count b e = none) : m.increment b e p = none := by
  unfold MB.count at h
  unfold MB.increment
  cases hr : m.counts[b]? with
  | none => rfl
  | some row =>
    rw [hr, Option.bind_some] at h
    simp only [h]

theorem rowOut_all (n j : ℕ) (xs : List ℕ) (h : j + xs.length ≤ n + 1) : rowOut (List.replicate n true) j xs = some xs := by
  induction xs generalizing j with
  | nil => rfl
  | cons x xs ih =>
    have := ih (j + 1) (by simp at h; omega)
    rw [rowOut, this]
    by_cases hj : j = 0
    · simp [hj]
    · simp only [if_neg hj]
      rw [List.getElem?_replicate, if_pos (by simp at h; omega)]
      rfl

theorem axesOut_all (n left i nd : ℕ) (h : i + left ≤ n) : axesOut (List.replicate n true) nd left i = some (List.range' i left) := by
  induction left generalizing i with
  | zero => rfl
  | succ left ih =>
    rw [axesOut, List.getElem?_replicate, if_pos (by omega), ih (i + 1) (by omega), List.range'_succ]
    rfl

/-- C63 (partial): if no data set was switched off, all counts of all bins are written, and the axes of all data sets. Missing: data sets that are switched off, see
`C63_negation_flags`. -/
theorem C63_written_partial (m : MB K) (hf : m.flags = List.replicate m.ndata true) (hc : ∀ r ∈ m.counts, r.length = m.ndata) (hp : m.points ≠ 0) :
    m.write = some (m.counts, List.range m.ndata) := by
  unfold MB.write
  rw [if_neg hp, hf]
  have h1 : m.counts.mapM (rowOut (List.replicate m.ndata true) 0) = some m.counts := by
    have : ∀ l : List (List ℕ), (∀ r ∈ l, r.length = m.ndata) → l.mapM (rowOut (List.replicate m.ndata true) 0) = some l := by
      intro l hl
      induction l with
      | nil => rfl
      | cons r l ih =>
        rw [List.mapM_cons, rowOut_all _ _ _ (by rw [hl r (by simp)]; omega), ih (fun a ha => hl a (by simp [ha]))]
        rfl
    exact this m.counts hc
  rw [h1, Option.bind_some, axesOut_all _ _ _ _ (by omega), List.range_eq_range']
  rfl

/-- C63 is false of data sets that are switched off: the flags are read shifted by one. If the second of three data sets is switched off, the third is left out of the
data, and the second is left out of the axes. -/
theorem C63_negation_flags : rowOut [true, false, true] 0 [10, 20, 30] = some [10, 20] ∧ axesOut [true, false, true] 3 3 0 = some [0, 2] := by
  decide

/-- C63: the first data set is always written, the last flag is never read. -/
theorem C63_first_written (flags : List Bool) (x : ℕ) (xs r : List ℕ) (h : rowOut flags 0 (x :: xs) = some r) : r.head? = some x := by
  rw [rowOut, if_pos rfl] at h
  cases hr : rowOut flags (0 + 1) xs with
  | none => rw [hr] at h; cases h
  | some q => rw [hr, Option.map_some, Option.some.injEq] at h; subst h; rfl

/-- C63: an object for zero data sets has one, but no flag for it: writing it reads a flag out of bounds. -/
theorem C63_negation_no_data (ops : List Op) (m : MB K) (h : runOps (MB.new 0) ops = some m) (hp : m.points ≠ 0) : m.write = none := by
  have hfl : ∀ (ops : List Op) (a b : MB K), runOps a ops = some b → b.flags = a.flags ∧ b.ndata = a.ndata := by
    intro ops
    induction ops with
    | nil => intro a b h; rw [runOps, Option.some.injEq] at h; subst h; exact ⟨rfl, rfl⟩
    | cons o ops ih =>
      obtain ⟨b', e', p⟩ := o
      intro a b h
      rw [runOps] at h
      cases hi : a.increment b' e' p with
      | none => rw [hi] at h; cases h
      | some m1 =>
        rw [hi, Option.bind_some] at h
        obtain ⟨_, _, h1, h2⟩ := inc_count a m1 b' e' p hi 0 0
        obtain ⟨h3, h4⟩ := ih m1 b h
        exact ⟨h3.trans h1, h4.trans h2⟩
  obtain ⟨h1, h2⟩ := hfl ops _ _ h
  unfold MB.write
  rw [if_neg hp, h1, h2]
  have : axesOut (MB.new (K := K) 0).flags (MB.new (K := K) 0).ndata (MB.new (K := K) 0).ndata 0 = none := rfl
  rw [this]
  cases m.counts.mapM (rowOut (MB.new (K := K) 0).flags 0) <;> rfl

end

/-! ## Examples -/

example : makeBins (0 : ℚ) 10 3 = [(0, 0), (5, 0), (10, 0)] := by decide +kernel
example : ((MB.new (K := ℚ) 2).setNBins 3).counts = [[0, 0], [0, 0], [0, 0]] := by decide +kernel
example : (runOps ((MB.new (K := ℚ) 2).setNBins 3) [.inc 1 0 true, .inc 1 0 true, .inc 2 1 false]).map (fun m => (m.counts, m.points)) =
    some ([[0, 0], [2, 0], [0, 1]], 2) := by decide +kernel
example : (runOps ((MB.new (K := ℚ) 2).setNBins 3) [.inc 1 0 true]).bind (fun m => m.write) = some ([[0, 0], [1, 0], [0, 0]], [0, 1]) := by decide +kernel
example : (runOps (MB.new (K := ℚ) 0) [.inc 1 0 true]).map (fun m => m.points) = some 1 := by decide +kernel

end Verif.Bins
