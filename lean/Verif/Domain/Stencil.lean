import Verif.Domain.Grid
import Mathlib.Data.List.Nodup
import Mathlib.Data.List.Count

/-!
# The neighbour stencil (C27)

Models `Domain::create_cells` (`domains/domain.cpp:274-342`) and `Domain::correct_index` (`domains/domain.cpp:344-366`)
for a grid without halo cells (the single-processor case: no borders, `dim_shift_*` zero), so that every cell takes the
branch at `:326-340`.
-/

namespace Verif.Stencil
open Verif.Grid

/-- One dimension of the stencil computation: `dims[d]`, the sweep, and whether `correct_index` wraps
(`bcs[d]==WRAP` and no border). -/
structure Ax where
  n : ℕ
  s : ℕ
  per : Bool

/-- `subtractVec` of an address and the centre, `domains/domain.cpp:298`. -/
def subCenter : List ℕ → List ℕ → List ℤ
  | i :: is, s :: ss => ((i : ℤ) - s) :: subCenter is ss
  | _, _ => []

/-- `little_dims`, `domains/domain.cpp:288-292`. -/
def little (ss : List ℕ) : List ℕ := ss.map (fun s => 2 * s + 1)

/-- `volume`, `domains/domain.cpp:287,292`. -/
def volume (ss : List ℕ) : ℕ := (little ss).prod

/-- All the displacement tuples in the order in which `domains/domain.cpp:296-298` makes them. -/
def allTuples (ss : List ℕ) : List (List ℤ) :=
  (List.range (volume ss)).map (fun i => subCenter (getAddressCM (little ss) i) ss)

/-- `addVec` on tuples, `domains/domain.cpp:332`. -/
def addTuple : List ℤ → List ℤ → List ℤ
  | a :: as, t :: ts => (a + t) :: addTuple as ts
  | _, _ => []

/-- `correct_index` for one dimension, `domains/domain.cpp:347-364`, `wrap` true; `none` is a bad index. After the first
`if` has subtracted `dims[d]` the index is not negative, so the second one does nothing. -/
def correct1 (n : ℕ) (per : Bool) (i : ℤ) : Option ℤ :=
  if (n : ℤ) ≤ i then (if per then some (i - n) else none)
  else if i < 0 then (if per then some (i + n) else none)
  else some i

/-- `correct_index`, `domains/domain.cpp:344-366`. -/
def correctIndex : List Ax → List ℤ → Option (List ℤ)
  | a :: g, v :: vs =>
    match correct1 a.n a.per v, correctIndex g vs with
    | some x, some xs => some (x :: xs)
    | _, _ => none
  | _, _ => some []

/-! ## Lemmas on the displacement tuples -/

/-- Spec: the displacement is within the sweep in every dimension. -/
def Within (ss : List ℕ) (t : List ℤ) : Prop := List.Forall₂ (fun (x : ℤ) (s : ℕ) => |x| ≤ s) t ss

theorem subCenter_cons (i s : ℕ) (is ss : List ℕ) :
    subCenter (i :: is) (s :: ss) = ((i : ℤ) - s) :: subCenter is ss := rfl

theorem little_cons (s : ℕ) (ss : List ℕ) : little (s :: ss) = (2 * s + 1) :: little ss := rfl

/-- The linear form that orders the displacements. -/
def L (ss : List ℕ) (t : List ℤ) : ℤ := tupleToLinear (little ss) t

theorem L_cons (s : ℕ) (ss : List ℕ) (x : ℤ) (t : List ℤ) : L (s :: ss) (x :: t) = x * volume ss + L ss t :=
  tupleToLinear_cons _ _ _ _

theorem volume_cons (s : ℕ) (ss : List ℕ) : volume (s :: ss) = (2 * s + 1) * volume ss := by
  simp [volume, little]

theorem volume_odd (ss : List ℕ) : volume ss = 2 * (volume ss / 2) + 1 := by
  have : volume ss % 2 = 1 := by
    induction ss with
    | nil => rfl
    | cons s ss ih => rw [volume_cons, Nat.mul_mod, ih]; omega
  omega

theorem L_bound {ss : List ℕ} {t : List ℤ} (h : Within ss t) : |L ss t| ≤ (volume ss / 2 : ℕ) := by
  induction h with
  | nil => simp [L, little, tupleToLinear_nil, volume]
  | @cons x s t ss hx _ ih =>
    rw [L_cons, volume_cons]
    have ho := volume_odd ss
    have e : (2 * s + 1) * volume ss / 2 = s * volume ss + volume ss / 2 := by
      rw [show (2 * s + 1) * volume ss = volume ss + 2 * (s * volume ss) by ring, Nat.add_mul_div_left _ _ (by omega)]
      ring
    rw [e]
    calc |x * (volume ss : ℤ) + L ss t| ≤ |x * (volume ss : ℤ)| + |L ss t| := abs_add_le _ _
      _ ≤ s * volume ss + (volume ss / 2 : ℕ) := by
          rw [abs_mul, abs_of_nonneg (show (0 : ℤ) ≤ volume ss by positivity)]
          exact add_le_add (mul_le_mul_of_nonneg_right hx (by positivity)) ih
      _ = _ := by push_cast; ring

theorem L_inj {ss : List ℕ} {t u : List ℤ} (ht : Within ss t) (hu : Within ss u) (h : L ss t = L ss u) : t = u := by
  induction ht generalizing u with
  | nil => cases hu; rfl
  | @cons x s t ss hx htl ih =>
    cases hu with
    | @cons y _ u _ hy hul =>
      rw [L_cons, L_cons] at h
      have b1 := abs_le.mp (L_bound htl)
      have b2 := abs_le.mp (L_bound hul)
      have ho := volume_odd ss
      have hxy : x = y := by
        have e : (x - y) * (volume ss : ℤ) = L ss u - L ss t := by linarith
        have hv : (volume ss : ℤ) = 2 * ((volume ss / 2 : ℕ) : ℤ) + 1 := by exact_mod_cast ho
        generalize ((volume ss / 2 : ℕ) : ℤ) = H at *
        generalize (volume ss : ℤ) = V at *
        by_contra hne
        rcases lt_or_gt_of_ne hne with hlt | hlt
        · have : x - y ≤ -1 := by omega
          nlinarith
        · have : 1 ≤ x - y := by omega
          nlinarith
      subst hxy
      rw [ih hul (by linarith)]

theorem L_neg (ss : List ℕ) (t : List ℤ) : L ss (t.map (- ·)) = - L ss t := by
  induction ss generalizing t with
  | nil => simp [L, little, tupleToLinear_nil]
  | cons s ss ih =>
    cases t with
    | nil => 
      simp only [List.map_nil, L, tupleToLinear]
      cases (products (little (s :: ss))).tail <;> simp [dotProducts]
    | cons x t => rw [List.map_cons, L_cons, L_cons, ih]; ring

theorem Within.neg {ss : List ℕ} {t : List ℤ} (h : Within ss t) : Within ss (t.map (- ·)) := by
  induction h with
  | nil => exact List.Forall₂.nil
  | cons hx _ ih => exact List.Forall₂.cons (by rw [abs_neg]; exact hx) ih

theorem neg_neg_tuple (t : List ℤ) : (t.map (- ·)).map (- ·) = t := by
  induction t <;> simp_all

theorem subCenter_within {ss is : List ℕ} (h : InGrid (little ss) is) : Within ss (subCenter is ss) := by
  induction ss generalizing is with
  | nil => cases h; exact List.Forall₂.nil
  | cons s ss ih =>
    cases h with
    | cons hi hl =>
      refine List.Forall₂.cons ?_ (ih hl)
      dsimp only at hi
      rw [abs_le]
      constructor <;> omega

theorem L_subCenter {ss is : List ℕ} (h : InGrid (little ss) is) :
    L ss (subCenter is ss) = tupleToLinear (little ss) (is.map (↑)) - (volume ss / 2 : ℕ) := by
  induction ss generalizing is with
  | nil => cases h; simp [L, subCenter, little, tupleToLinear_nil, volume]
  | cons s ss ih =>
    cases h with
    | @cons i _ is _ hi hl =>
      rw [subCenter_cons, L_cons, ih hl, little_cons, List.map_cons, tupleToLinear_cons, volume_cons]
      have e : (2 * s + 1) * volume ss / 2 = s * volume ss + volume ss / 2 := by
        rw [show (2 * s + 1) * volume ss = volume ss + 2 * (s * volume ss) by ring,
          Nat.add_mul_div_left _ _ (by omega)]
        ring
      rw [e]
      change ((i : ℤ) - s) * (volume ss : ℤ) + _ = (i : ℤ) * ((volume ss : ℕ) : ℤ) + _ - _
      push_cast
      ring

theorem exists_addr {ss : List ℕ} {t : List ℤ} (h : Within ss t) :
    ∃ is, InGrid (little ss) is ∧ subCenter is ss = t := by
  induction h with
  | nil => exact ⟨[], List.Forall₂.nil, rfl⟩
  | @cons x s t ss hx _ ih =>
    obtain ⟨is, h1, h2⟩ := ih
    rw [abs_le] at hx
    refine ⟨(x + s).toNat :: is, List.Forall₂.cons (by dsimp only; omega) h1, ?_⟩
    rw [subCenter_cons, h2]
    congr 1
    omega

theorem allTuples_length (ss : List ℕ) : (allTuples ss).length = volume ss := by simp [allTuples]

theorem allTuples_get (ss : List ℕ) (i : ℕ) (hi : i < volume ss) :
    (allTuples ss)[i]'(by rw [allTuples_length]; exact hi) = subCenter (getAddressCM (little ss) i) ss := by
  simp [allTuples]

theorem L_allTuples (ss : List ℕ) (i : ℕ) (hi : i < volume ss) :
    Within ss (subCenter (getAddressCM (little ss) i) ss) ∧
    L ss (subCenter (getAddressCM (little ss) i) ss) = i - (volume ss / 2 : ℕ) := by
  have hg := getAddressCM_inGrid (little ss) i hi
  refine ⟨subCenter_within hg, ?_⟩
  rw [L_subCenter hg, tupleToLinear_getAddressCM (little ss) i hi]

theorem mem_allTuples {ss : List ℕ} {t : List ℤ} : t ∈ allTuples ss ↔ Within ss t := by
  constructor
  · intro h
    simp only [allTuples, List.mem_map, List.mem_range] at h
    obtain ⟨i, hi, rfl⟩ := h
    exact (L_allTuples ss i hi).1
  · intro h
    obtain ⟨is, h1, rfl⟩ := exists_addr h
    obtain ⟨l, _, hl, e⟩ := (C24_addresses_inverse (little ss)).2 is h1
    simp only [allTuples, List.mem_map, List.mem_range]
    exact ⟨l, hl, by rw [e]⟩

theorem allTuples_nodup (ss : List ℕ) : (allTuples ss).Nodup := by
  unfold allTuples
  refine List.Nodup.map_on ?_ List.nodup_range
  intro i hi j hj h
  rw [List.mem_range] at hi hj
  have h1 := (L_allTuples ss i hi).2
  have h2 := (L_allTuples ss j hj).2
  rw [h, h2] at h1
  omega

/-- The first half of the tuples are those which come before the zero displacement. -/
theorem mem_half {ss : List ℕ} {t : List ℤ} :
    t ∈ (allTuples ss).take (volume ss / 2) ↔ Within ss t ∧ L ss t < 0 := by
  have ho := volume_odd ss
  unfold allTuples
  rw [← List.map_take, List.take_range, List.mem_map]
  simp only [List.mem_range]
  constructor
  · rintro ⟨i, hi, rfl⟩
    obtain ⟨h1, h2⟩ := L_allTuples ss i (by omega)
    exact ⟨h1, by rw [h2]; omega⟩
  · rintro ⟨h1, h2⟩
    obtain ⟨is, h3, rfl⟩ := exists_addr h1
    obtain ⟨l, e1, hl, e⟩ := (C24_addresses_inverse (little ss)).2 is h3
    rw [L_subCenter h3, e1] at h2
    exact ⟨l, by omega, by rw [e]⟩

theorem allTuples_reverse (ss : List ℕ) : (allTuples ss).reverse = (allTuples ss).map (List.map (- ·)) := by
  have ho := volume_odd ss
  apply List.ext_getElem
  · simp
  · intro i h1 h2
    rw [List.length_reverse, allTuples_length] at h1
    rw [List.getElem_reverse, List.getElem_map]
    simp only [allTuples_length]
    rw [allTuples_get ss _ (by omega), allTuples_get ss i h1]
    obtain ⟨a1, a2⟩ := L_allTuples ss (volume ss - 1 - i) (by omega)
    obtain ⟨b1, b2⟩ := L_allTuples ss i h1
    apply L_inj a1 b1.neg
    rw [L_neg, a2, b2]
    omega

/-! ## The stencil as the code builds it -/

section field
variable {K : Type*} [Field K] [LinearOrder K] [IsStrictOrderedRing K] [FloorRing K]

/-- `dotVec(tuple2, widths)`, `domains/domain.cpp:299`. -/
def dotW : List ℤ → List K → K
  | t :: ts, w :: ws => t * w + dotW ts ws
  | _, _ => 0

/-- The sweep of one dimension, `domains/domain.cpp:289`. -/
def sweepOf (cutoff w : K) : ℕ := ⌈cutoff / w⌉.toNat

/-- The test of `domains/domain.cpp:299-300`: `int dr2 = dot(tuple, widths); dr2 < sqr(min_small_cutoff)`. -/
def keep (cutoff : K) (ws : List K) (t : List ℤ) : Bool := decide ((trunc (dotW t ws) : K) < cutoff ^ 2)

/-- `neighbor_indices`, `domains/domain.cpp:295-301`. -/
def neighborIndices (cutoff : K) (ss : List ℕ) (ws : List K) : List (List ℤ) :=
  (allTuples ss).filter (keep cutoff ws)

/-- The entries of `neighbor_indices` which the loop `domains/domain.cpp:328-329` reads: the first `floor(0.5*volume)`
ones; `none` is a read beyond the end of the vector. -/
def halfStencil (cutoff : K) (ss : List ℕ) (ws : List K) : Option (List (List ℤ)) :=
  if volume ss / 2 ≤ (neighborIndices cutoff ss ws).length then
    some ((neighborIndices cutoff ss ws).take (volume ss / 2))
  else none

/-- One dimension of the domain: `dims[d]`, `widths[d]`, wrapping. -/
structure GAx (K : Type*) where
  n : ℕ
  w : K
  per : Bool

/-- The combinatorial data of a dimension. -/
def GAx.ax (cutoff : K) (a : GAx K) : Ax := ⟨a.n, sweepOf cutoff a.w, a.per⟩

/-- `cells[c].adjacent` as linear indices of cells, `domains/domain.cpp:307-308,326-340`; `none` is a read beyond the end
of `neighbor_indices`. -/
def adjacent (cutoff : K) (g : List (GAx K)) (c : ℕ) : Option (List ℤ) :=
  (halfStencil cutoff (g.map (fun a => sweepOf cutoff a.w)) (g.map GAx.w)).map fun h =>
    h.filterMap fun t =>
      (correctIndex (g.map (GAx.ax cutoff))
        (addTuple ((getAddressCM (g.map GAx.n) c).map (↑)) t)).map (tupleToLinear (g.map GAx.n))

omit [LinearOrder K] [IsStrictOrderedRing K] [FloorRing K] in
theorem dotW_neg (t : List ℤ) (ws : List K) : dotW (t.map (- ·)) ws = - dotW t ws := by
  induction t generalizing ws with
  | nil => simp [dotW]
  | cons x t ih =>
    cases ws with
    | nil => simp [dotW]
    | cons w ws => simp only [List.map_cons, dotW, ih]; push_cast; ring

theorem keep_or_keep_neg {cutoff : K} (hc : 0 < cutoff) (ws : List K) (t : List ℤ) :
    keep cutoff ws t = true ∨ keep cutoff ws (t.map (- ·)) = true := by
  have hsq : 0 < cutoff ^ 2 := by positivity
  rcases le_total (dotW t ws) 0 with h | h
  · left
    have : ((trunc (dotW t ws) : ℤ) : K) ≤ 0 := by exact_mod_cast trunc_nonpos h
    simp only [keep, decide_eq_true_eq]; linarith
  · right
    have h' : dotW (t.map (- ·)) ws ≤ 0 := by rw [dotW_neg]; linarith
    have : ((trunc (dotW (t.map (- ·)) ws) : ℤ) : K) ≤ 0 := by exact_mod_cast trunc_nonpos h'
    simp only [keep, decide_eq_true_eq]; linarith

/-- The faulty test never drops more than half of the tuples. -/
theorem neighborIndices_length {cutoff : K} (hc : 0 < cutoff) (ss : List ℕ) (ws : List K) :
    volume ss / 2 ≤ (neighborIndices cutoff ss ws).length := by
  have h1 : (allTuples ss).countP (keep cutoff ws) =
      (allTuples ss).countP (fun t => keep cutoff ws (t.map (- ·))) := by
    rw [← List.countP_reverse, allTuples_reverse, List.countP_map]; rfl
  have h2 : (allTuples ss).length ≤
      (allTuples ss).countP (keep cutoff ws) + (allTuples ss).countP (fun t => keep cutoff ws (t.map (- ·))) := by
    generalize allTuples ss = A
    induction A with
    | nil => simp
    | cons t A ih =>
      simp only [List.countP_cons, List.length_cons]
      rcases keep_or_keep_neg hc ws t with h | h <;> simp only [h, if_true] <;> omega
  rw [allTuples_length] at h2
  unfold neighborIndices
  rw [← List.countP_eq_length_filter]
  omega

/-- **C27, memory safety.** Building the adjacency lists never reads beyond the end of the stencil, whatever the
widths and the (positive) cutoff are. -/
theorem C27_stencil_in_bounds {cutoff : K} (hc : 0 < cutoff) (g : List (GAx K)) (c : ℕ) :
    adjacent cutoff g c ≠ none := by
  simp [adjacent, halfStencil, neighborIndices_length hc]

/-- The test at `domains/domain.cpp:300` keeps every displacement of the first half of the stencil. -/
def StencilComplete (cutoff : K) (g : List (GAx K)) : Prop :=
  ∀ t, Within (g.map (fun a => sweepOf cutoff a.w)) t → L (g.map (fun a => sweepOf cutoff a.w)) t < 0 →
    ((trunc (dotW t (g.map GAx.w)) : ℤ) : K) < cutoff ^ 2

omit [IsStrictOrderedRing K] in
theorem halfStencil_complete {cutoff : K} {g : List (GAx K)} (h : StencilComplete cutoff g) :
    halfStencil cutoff (g.map (fun a => sweepOf cutoff a.w)) (g.map GAx.w) =
      some ((allTuples (g.map (fun a => sweepOf cutoff a.w))).take
        (volume (g.map (fun a => sweepOf cutoff a.w)) / 2)) := by
  unfold StencilComplete at h
  generalize g.map (fun a => sweepOf cutoff a.w) = ss at *
  generalize g.map GAx.w = ws at *
  have ho := volume_odd ss
  have hlen : ((allTuples ss).take (volume ss / 2)).length = volume ss / 2 := by
    rw [List.length_take, allTuples_length]; omega
  have hf : ((allTuples ss).take (volume ss / 2)).filter (keep cutoff ws) =
      (allTuples ss).take (volume ss / 2) := by
    rw [List.filter_eq_self]
    intro t ht
    rw [mem_half] at ht
    simp only [keep, decide_eq_true_eq]
    exact h t ht.1 ht.2
  have hn : neighborIndices cutoff ss ws =
      (allTuples ss).take (volume ss / 2) ++ ((allTuples ss).drop (volume ss / 2)).filter (keep cutoff ws) := by
    unfold neighborIndices
    conv_lhs => rw [← List.take_append_drop (volume ss / 2) (allTuples ss)]
    rw [List.filter_append, hf]
  unfold halfStencil
  rw [if_pos (by rw [hn, List.length_append, hlen]; omega), hn,
    List.take_append_of_le_length (by rw [hlen]), List.take_of_length_le (by rw [hlen])]

end field

/-! ## Pairs of cells -/

/-- Spec: the cell coordinates `a` and `b` differ by at most the sweep, up to whole turns when the dimension wraps. -/
def Near1 (x : Ax) (a b : ℤ) : Prop := |b - a| ≤ x.s ∨ (x.per = true ∧ ∃ k : ℤ, |b - a + k * x.n| ≤ x.s)

/-- Spec: the two cells are within the sweep range of one another in every dimension. -/
def Near : List Ax → List ℕ → List ℕ → Prop
  | x :: g, a :: as, b :: bs => Near1 x a b ∧ Near g as bs
  | _, _, _ => True

/-- The displacement `t` leads from cell `a` to cell `b`. -/
def Step : List Ax → List ℤ → List ℤ → List ℤ → Prop
  | [], [], [], [] => True
  | x :: g, a :: as, t :: ts, b :: bs => correct1 x.n x.per (a + t) = some b ∧ Step g as ts bs
  | _, _, _, _ => False

/-- Wrapping dimensions have at least `2*sweep+1` cells. -/
def Wide (x : Ax) : Prop := x.per = true → 2 * x.s + 1 ≤ x.n

theorem step1_symm {x : Ax} (hw : Wide x) {a b t : ℤ} (ha : 0 ≤ a ∧ a < x.n) (ht : |t| ≤ x.s)
    (h : correct1 x.n x.per (a + t) = some b) : correct1 x.n x.per (b + -t) = some a ∧ 0 ≤ b ∧ b < x.n := by
  obtain ⟨n, s, per⟩ := x
  simp only [Wide, correct1] at *
  rw [abs_le] at ht
  cases per
  · simp only [Bool.false_eq_true, if_false] at h ⊢
    split_ifs at h with h1 h2
    simp only [Option.some.injEq] at h
    subst h
    rw [if_neg (by omega), if_neg (by omega)]
    exact ⟨by congr 1; omega, by omega, by omega⟩
  · simp only [if_true, forall_const] at h hw ⊢
    split_ifs at h with h1 h2 <;> simp only [Option.some.injEq] at h <;> subst h
    · rw [if_neg (by omega), if_pos (by omega)]
      exact ⟨by congr 1; omega, by omega, by omega⟩
    · rw [if_pos (by omega)]
      exact ⟨by congr 1; omega, by omega, by omega⟩
    · rw [if_neg (by omega), if_neg (by omega)]
      exact ⟨by congr 1; omega, by omega, by omega⟩

theorem step1_unique {x : Ax} (hw : Wide x) {a b t u : ℤ} (ht : |t| ≤ x.s) (hu : |u| ≤ x.s)
    (h : correct1 x.n x.per (a + t) = some b) (h' : correct1 x.n x.per (a + u) = some b) : t = u := by
  obtain ⟨n, s, per⟩ := x
  simp only [Wide, correct1] at *
  rw [abs_le] at ht hu
  cases per
  · simp only [Bool.false_eq_true, if_false] at h h'
    split_ifs at h h'
    simp only [Option.some.injEq] at h h'
    omega
  · simp only [if_true, forall_const] at h h' hw
    split_ifs at h h' <;> simp only [Option.some.injEq] at h h' <;> omega

theorem near1_iff {x : Ax} (hw : Wide x) {a b : ℤ} (ha : 0 ≤ a ∧ a < x.n) (hb : 0 ≤ b ∧ b < x.n) :
    Near1 x a b ↔ ∃ t : ℤ, |t| ≤ x.s ∧ correct1 x.n x.per (a + t) = some b := by
  obtain ⟨n, s, per⟩ := x
  simp only [Wide, correct1, Near1] at *
  constructor
  · rintro (h | ⟨hp, k, hk⟩)
    · refine ⟨b - a, h, ?_⟩
      rw [if_neg (by omega), if_neg (by omega)]
      congr 1; omega
    · subst hp
      simp only [forall_const] at hw
      refine ⟨b - a + k * n, hk, ?_⟩
      rw [abs_le] at hk
      simp only [if_true]
      have hk1 : k ≤ 1 := by
        by_contra hc
        have : (2 : ℤ) * n ≤ k * n := mul_le_mul_of_nonneg_right (by omega) (by positivity)
        omega
      have hk2 : -1 ≤ k := by
        by_contra hc
        have : k * n ≤ (-2 : ℤ) * n := mul_le_mul_of_nonneg_right (by omega) (by positivity)
        omega
      have : k = -1 ∨ k = 0 ∨ k = 1 := by omega
      rcases this with rfl | rfl | rfl
      · rw [if_neg (by omega), if_pos (by omega)]; congr 1; omega
      · rw [if_neg (by omega), if_neg (by omega)]; congr 1; omega
      · rw [if_pos (by omega)]; congr 1; omega
  · rintro ⟨t, ht, h⟩
    cases per
    · simp only [Bool.false_eq_true, if_false] at h
      split_ifs at h
      simp only [Option.some.injEq] at h
      left
      rw [show b - a = t by omega]; exact ht
    · simp only [if_true] at h
      split_ifs at h with h1 h2 <;> simp only [Option.some.injEq] at h
      · exact Or.inr ⟨rfl, 1, by rw [show b - a + 1 * (n : ℤ) = t by omega]; exact ht⟩
      · exact Or.inr ⟨rfl, -1, by rw [show b - a + -1 * (n : ℤ) = t by omega]; exact ht⟩
      · exact Or.inl (by rw [show b - a = t by omega]; exact ht)

/-- A tuple of integers that lies in the grid. -/
def InG (g : List Ax) (a : List ℤ) : Prop := List.Forall₂ (fun (i : ℤ) (x : Ax) => 0 ≤ i ∧ i < x.n) a g

theorem Step.symm {g : List Ax} (hw : ∀ x ∈ g, Wide x) {a t b : List ℤ} (ha : InG g a)
    (ht : Within (g.map Ax.s) t) (h : Step g a t b) : Step g b (t.map (- ·)) a ∧ InG g b := by
  induction ha generalizing t b with
  | nil =>
    cases ht
    cases b with
    | nil => exact ⟨trivial, List.Forall₂.nil⟩
    | cons _ _ => simp [Step] at h
  | @cons i x as g hi _ ih =>
    cases ht with
    | @cons u _ t _ hu htl =>
      cases b with
      | nil => simp [Step] at h
      | cons b bs =>
        simp only [Step] at h
        obtain ⟨h1, h2, h3⟩ := step1_symm (hw x (by simp)) hi hu h.1
        obtain ⟨h4, h5⟩ := ih (fun y hy => hw y (List.mem_cons_of_mem _ hy)) htl h.2
        exact ⟨⟨h1, h4⟩, List.Forall₂.cons ⟨h2, h3⟩ h5⟩

theorem Step.unique {g : List Ax} (hw : ∀ x ∈ g, Wide x) {a t u b : List ℤ}
    (ht : Within (g.map Ax.s) t) (hu : Within (g.map Ax.s) u) (h : Step g a t b) (h' : Step g a u b) : t = u := by
  induction g generalizing a t u b with
  | nil => cases ht; cases hu; rfl
  | cons x g ih =>
    cases ht with
    | @cons t0 _ t _ h0 htl =>
      cases hu with
      | @cons u0 _ u _ h0' hul =>
        cases a with
        | nil => simp [Step] at h
        | cons a as =>
          cases b with
          | nil => simp [Step] at h
          | cons b bs =>
            simp only [Step] at h h'
            rw [step1_unique (hw x (by simp)) h0 h0' h.1 h'.1,
              ih (fun y hy => hw y (List.mem_cons_of_mem _ hy)) htl hul h.2 h'.2]

theorem near_iff {g : List Ax} (hw : ∀ x ∈ g, Wide x) {a b : List ℕ} (ha : InGrid (g.map Ax.n) a)
    (hb : InGrid (g.map Ax.n) b) :
    Near g a b ↔ ∃ t, Within (g.map Ax.s) t ∧ Step g (a.map (↑)) t (b.map (↑)) := by
  induction g generalizing a b with
  | nil => 
    cases ha; cases hb
    simp only [Near, true_iff]
    exact ⟨[], List.Forall₂.nil, trivial⟩
  | cons x g ih =>
    cases ha with
    | @cons a _ as _ ha0 hal =>
      cases hb with
      | @cons b _ bs _ hb0 hbl =>
        simp only [Near]
        rw [near1_iff (hw x (by simp)) ⟨by omega, by omega⟩ ⟨by omega, by omega⟩,
          ih (fun y hy => hw y (List.mem_cons_of_mem _ hy)) hal hbl]
        constructor
        · rintro ⟨⟨t, h1, h2⟩, ts, h3, h4⟩
          exact ⟨t :: ts, List.Forall₂.cons h1 h3, h2, h4⟩
        · rintro ⟨t, h1, h2⟩
          cases h1 with
          | @cons u _ t _ hu htl =>
            simp only [List.map_cons, Step] at h2
            exact ⟨⟨u, hu, h2.1⟩, t, htl, h2.2⟩

theorem correctIndex_add {g : List Ax} {a t b : List ℤ} (ha : a.length = g.length) (ht : t.length = g.length) :
    correctIndex g (addTuple a t) = some b ↔ Step g a t b := by
  induction g generalizing a t b with
  | nil =>
    have : a = [] := by simpa using ha
    subst this
    have : t = [] := by simpa using ht
    subst this
    cases b <;> simp [correctIndex, Step]
  | cons x g ih =>
    cases a with
    | nil => simp at ha
    | cons a as =>
      cases t with
      | nil => simp at ht
      | cons t ts =>
        simp only [addTuple, correctIndex]
        have ih' := fun b => ih (a := as) (t := ts) (b := b) (by simpa using ha) (by simpa using ht)
        cases h1 : correct1 x.n x.per (a + t) with
        | none => cases b <;> simp [Step, h1]
        | some y =>
          cases h2 : correctIndex g (addTuple as ts) with
          | none =>
            cases b with
            | nil => simp [Step]
            | cons b bs =>
              simp only [Step, h1, ← ih' bs, h2]
              simp
          | some ys =>
            cases b with
            | nil => simp [Step]
            | cons b bs =>
              simp only [Step, h1, ← ih' bs, h2]
              simp

theorem tupleToLinear_inj {dims a b : List ℕ} (ha : InGrid dims a) (hb : InGrid dims b)
    (h : tupleToLinear dims (a.map (↑)) = tupleToLinear dims (b.map (↑))) : a = b := by
  obtain ⟨l, h1, _, h2⟩ := (C24_addresses_inverse dims).2 a ha
  rw [← h2]
  exact getAddressCM_tupleToLinear hb l (by rw [← h, h1])

theorem InG.exists_nat {g : List Ax} {b : List ℤ} (h : InG g b) :
    ∃ c : List ℕ, b = c.map (↑) ∧ InGrid (g.map Ax.n) c := by
  induction h with
  | nil => exact ⟨[], rfl, List.Forall₂.nil⟩
  | @cons i x _ _ hi _ ih =>
    obtain ⟨c, h1, h2⟩ := ih
    refine ⟨i.toNat :: c, ?_, List.Forall₂.cons (by omega) h2⟩
    rw [h1, List.map_cons, show ((i.toNat : ℕ) : ℤ) = i by omega]

theorem InGrid.toInG {g : List Ax} {a : List ℕ} (h : InGrid (g.map Ax.n) a) : InG g (a.map (↑)) := by
  induction g generalizing a with
  | nil => cases h; exact List.Forall₂.nil
  | cons x g ih =>
    cases h with
    | cons h0 hl => exact List.Forall₂.cons (by omega) (ih hl)

theorem Within.length {ss : List ℕ} {t : List ℤ} (h : Within ss t) : t.length = ss.length := List.Forall₂.length_eq h

/-- The cell list reached from cell `a` by the displacements `H`. -/
def reach (g : List Ax) (H : List (List ℤ)) (c : ℕ) : List ℤ :=
  H.filterMap fun t =>
    (correctIndex g (addTuple ((getAddressCM (g.map Ax.n) c).map (↑)) t)).map (tupleToLinear (g.map Ax.n))

theorem reach_eq {g : List Ax} (hw : ∀ x ∈ g, Wide x) {i j : ℕ} (hi : i < (g.map Ax.n).prod)
    (hj : j < (g.map Ax.n).prod) {t : List ℤ} (ht : Within (g.map Ax.s) t) :
    (correctIndex g (addTuple ((getAddressCM (g.map Ax.n) i).map (↑)) t)).map (tupleToLinear (g.map Ax.n)) = some (j : ℤ)
      ↔ Step g ((getAddressCM (g.map Ax.n) i).map (↑)) t ((getAddressCM (g.map Ax.n) j).map (↑)) := by
  have hgi := getAddressCM_inGrid _ i hi
  have hgj := getAddressCM_inGrid _ j hj
  have hl1 : ((getAddressCM (g.map Ax.n) i).map ((↑) : ℕ → ℤ)).length = g.length := by
    simp [getAddressCM_length]
  have hl2 : t.length = g.length := by simpa using ht.length
  rw [Option.map_eq_some_iff]
  constructor
  · rintro ⟨b, h1, h2⟩
    rw [correctIndex_add hl1 hl2] at h1
    obtain ⟨_, hb⟩ := h1.symm hw (InGrid.toInG hgi) ht
    obtain ⟨c, rfl, hc⟩ := hb.exists_nat
    have : c = getAddressCM (g.map Ax.n) j := by
      apply tupleToLinear_inj hc hgj
      rw [h2, tupleToLinear_getAddressCM _ j hj]
    rw [← this]; exact h1
  · intro h
    exact ⟨_, (correctIndex_add hl1 hl2).mpr h, tupleToLinear_getAddressCM _ j hj⟩

theorem mem_reach_valid {g : List Ax} (hw : ∀ x ∈ g, Wide x) {H : List (List ℤ)}
    (hH : ∀ t ∈ H, Within (g.map Ax.s) t) {i : ℕ} (hi : i < (g.map Ax.n).prod) {k : ℤ} (hk : k ∈ reach g H i) :
    ∃ j : ℕ, k = j ∧ j < (g.map Ax.n).prod := by
  unfold reach at hk
  rw [List.mem_filterMap] at hk
  obtain ⟨t, ht, h⟩ := hk
  rw [Option.map_eq_some_iff] at h
  obtain ⟨b, h1, rfl⟩ := h
  have hl1 : ((getAddressCM (g.map Ax.n) i).map ((↑) : ℕ → ℤ)).length = g.length := by
    simp [getAddressCM_length]
  rw [correctIndex_add hl1 (by simpa using (hH t ht).length)] at h1
  obtain ⟨_, hb⟩ := h1.symm hw (InGrid.toInG (getAddressCM_inGrid _ i hi)) (hH t ht)
  obtain ⟨c, rfl, hc⟩ := hb.exists_nat
  obtain ⟨l, e, hl, _⟩ := (C24_addresses_inverse (g.map Ax.n)).2 c hc
  exact ⟨l, e, hl⟩

theorem reach_nodup {g : List Ax} (hw : ∀ x ∈ g, Wide x) {H : List (List ℤ)} (hn : H.Nodup)
    (hH : ∀ t ∈ H, Within (g.map Ax.s) t) {i : ℕ} (hi : i < (g.map Ax.n).prod) : (reach g H i).Nodup := by
  induction H with
  | nil => simp [reach]
  | cons t H ih =>
    have hn' := List.nodup_cons.mp hn
    have ih' := ih hn'.2 (fun u hu => hH u (List.mem_cons_of_mem _ hu))
    unfold reach at ih' ⊢
    rw [List.filterMap_cons]
    split
    · exact ih'
    · next k hk =>
      refine List.nodup_cons.mpr ⟨fun hmem => ?_, ih'⟩
      obtain ⟨j, rfl, hj⟩ := mem_reach_valid (H := H) hw (fun u hu => hH u (List.mem_cons_of_mem _ hu)) hi hmem
      rw [List.mem_filterMap] at hmem
      obtain ⟨u, hu, he⟩ := hmem
      have wt := hH t (by simp)
      have wu := hH u (List.mem_cons_of_mem _ hu)
      rw [reach_eq hw hi hj wt] at hk
      rw [reach_eq hw hi hj wu] at he
      exact hn'.1 (wt |> fun _ => (Step.unique hw wt wu hk he) ▸ hu)

theorem mem_reach {g : List Ax} (hw : ∀ x ∈ g, Wide x) {H : List (List ℤ)}
    (hH : ∀ t ∈ H, Within (g.map Ax.s) t) {i j : ℕ} (hi : i < (g.map Ax.n).prod) (hj : j < (g.map Ax.n).prod) :
    (j : ℤ) ∈ reach g H i ↔
      ∃ t ∈ H, Step g ((getAddressCM (g.map Ax.n) i).map (↑)) t ((getAddressCM (g.map Ax.n) j).map (↑)) := by
  unfold reach
  rw [List.mem_filterMap]
  constructor
  · rintro ⟨t, ht, h⟩
    exact ⟨t, ht, (reach_eq hw hi hj (hH t ht)).mp h⟩
  · rintro ⟨t, ht, h⟩
    exact ⟨t, ht, (reach_eq hw hi hj (hH t ht)).mpr h⟩

theorem Step.zero {g : List Ax} {a : List ℤ} (ha : InG g a) : Step g a (g.map fun _ => 0) a := by
  induction ha with
  | nil => trivial
  | @cons i x as g hi _ ih =>
    refine ⟨?_, ih⟩
    simp only [correct1, add_zero]
    rw [if_neg (by omega), if_neg (by omega)]

theorem within_zero (g : List Ax) : Within (g.map Ax.s) (g.map fun _ => 0) := by
  induction g with
  | nil => exact List.Forall₂.nil
  | cons x g ih => exact List.Forall₂.cons (by simp) ih

theorem L_zero (g : List Ax) : L (g.map Ax.s) (g.map fun _ => 0) = 0 := by
  induction g with
  | nil => simp [L, little, tupleToLinear_nil]
  | cons x g ih => rw [List.map_cons, List.map_cons, L_cons, ih]; simp

/-- The heart of C27: with the full half stencil each pair of distinct cells in range of each other is listed once. -/
theorem reach_pair {g : List Ax} (hw : ∀ x ∈ g, Wide x) {H : List (List ℤ)} (hn : H.Nodup)
    (hH : ∀ t, t ∈ H ↔ Within (g.map Ax.s) t ∧ L (g.map Ax.s) t < 0) {i j : ℕ} (hi : i < (g.map Ax.n).prod)
    (hj : j < (g.map Ax.n).prod) [Decidable (Near g (getAddressCM (g.map Ax.n) i) (getAddressCM (g.map Ax.n) j))] :
    (reach g H i).count (j : ℤ) + (reach g H j).count (i : ℤ) =
      if i ≠ j ∧ Near g (getAddressCM (g.map Ax.n) i) (getAddressCM (g.map Ax.n) j) then 1 else 0 := by
  have hH' : ∀ t ∈ H, Within (g.map Ax.s) t := fun t ht => ((hH t).mp ht).1
  have hgi := getAddressCM_inGrid _ i hi
  have hgj := getAddressCM_inGrid _ j hj
  rw [(reach_nodup hw hn hH' hi).count, (reach_nodup hw hn hH' hj).count]
  by_cases hN : Near g (getAddressCM (g.map Ax.n) i) (getAddressCM (g.map Ax.n) j)
  · obtain ⟨t, ht, hs⟩ := (near_iff hw hgi hgj).mp hN
    obtain ⟨hs', _⟩ := hs.symm hw (InGrid.toInG hgi) ht
    have m1 : (j : ℤ) ∈ reach g H i ↔ L (g.map Ax.s) t < 0 := by
      rw [mem_reach hw hH' hi hj]
      constructor
      · rintro ⟨u, hu, he⟩
        rw [Step.unique hw ht (hH' u hu) hs he]; exact ((hH u).mp hu).2
      · intro h; exact ⟨t, (hH t).mpr ⟨ht, h⟩, hs⟩
    have m2 : (i : ℤ) ∈ reach g H j ↔ 0 < L (g.map Ax.s) t := by
      rw [mem_reach hw hH' hj hi]
      constructor
      · rintro ⟨u, hu, he⟩
        have := ((hH u).mp hu).2
        rw [← Step.unique hw ht.neg (hH' u hu) hs' he, L_neg] at this
        omega
      · intro h; exact ⟨_, (hH _).mpr ⟨ht.neg, by rw [L_neg]; omega⟩, hs'⟩
    have hz : L (g.map Ax.s) t = 0 ↔ i = j := by
      constructor
      · intro h
        have e : t = g.map fun _ => 0 := L_inj ht (within_zero g) (by rw [h, L_zero])
        rw [e] at hs
        have h0 := Step.zero (InGrid.toInG hgi)
        have hl1 : ((getAddressCM (g.map Ax.n) i).map ((↑) : ℕ → ℤ)).length = g.length := by
          simp [getAddressCM_length]
        rw [← correctIndex_add hl1 (by simp)] at h0 hs
        rw [h0] at hs
        simp only [Option.some.injEq] at hs
        have e1 := tupleToLinear_getAddressCM _ i hi
        have e2 := tupleToLinear_getAddressCM _ j hj
        rw [hs, e2] at e1
        exact_mod_cast e1.symm
      · rintro rfl
        rw [Step.unique hw ht (within_zero g) hs (Step.zero (InGrid.toInG hgi)), L_zero]
    simp only [m1, m2, hN, and_true]
    rcases lt_trichotomy (L (g.map Ax.s) t) 0 with h | h | h
    · rw [if_pos h, if_neg (by omega), if_pos (fun e => by rw [hz.mpr e] at h; omega)]
    · rw [if_neg (by omega), if_neg (by omega), if_neg (by rw [hz.mp h]; simp)]
    · rw [if_neg (by omega), if_pos h, if_pos (fun e => by rw [hz.mpr e] at h; omega)]
  · have hN' : ¬ ∃ t, Within (g.map Ax.s) t ∧
        Step g ((getAddressCM (g.map Ax.n) i).map (↑)) t ((getAddressCM (g.map Ax.n) j).map (↑)) :=
      fun h => hN ((near_iff hw hgi hgj).mpr h)
    rw [if_neg, if_neg, if_neg (fun h => hN h.2)]
    · rw [mem_reach hw hH' hj hi]
      rintro ⟨u, hu, he⟩
      exact hN' ⟨_, (hH' u hu).neg, (he.symm hw (InGrid.toInG hgj) (hH' u hu)).1⟩
    · rw [mem_reach hw hH' hi hj]
      rintro ⟨u, hu, he⟩
      exact hN' ⟨u, hH' u hu, he⟩

section field
variable {K : Type*} [Field K] [LinearOrder K] [IsStrictOrderedRing K] [FloorRing K]

omit [IsStrictOrderedRing K] in
/-- **C27 (partial).** Let every wrapping dimension have at least `2*sweep+1` cells, and let the stencil test at
`domains/domain.cpp:300` keep the first half of the stencil (`StencilComplete`). Then over the whole grid, for cells
`i` and `j`: all listed neighbours exist, and the number of times that `j` is listed by `i` plus the number of times
that `i` is listed by `j` is one if the cells are distinct and in sweep range of each other, zero otherwise.
Missing: grids where the stencil test drops displacements, or with too few cells; there the property is false
(`C27_negation_stencil`, `C27_negation_small_grid`). -/
theorem C27_pairs_once_partial (cutoff : K) (g : List (GAx K))
    (hper : ∀ a ∈ g, a.per = true → 2 * sweepOf cutoff a.w + 1 ≤ a.n) (hst : StencilComplete cutoff g)
    (i j : ℕ) (hi : i < numCells (g.map GAx.n)) (hj : j < numCells (g.map GAx.n))
    [Decidable (Near (g.map (GAx.ax cutoff)) (getAddressCM (g.map GAx.n) i) (getAddressCM (g.map GAx.n) j))] :
    ∃ Ai Aj, adjacent cutoff g i = some Ai ∧ adjacent cutoff g j = some Aj ∧
      (∀ k ∈ Ai, 0 ≤ k ∧ k < numCells (g.map GAx.n)) ∧
      Ai.count (j : ℤ) + Aj.count (i : ℤ) =
        if i ≠ j ∧ Near (g.map (GAx.ax cutoff)) (getAddressCM (g.map GAx.n) i) (getAddressCM (g.map GAx.n) j)
        then 1 else 0 := by
  have hn : (g.map (GAx.ax cutoff)).map Ax.n = g.map GAx.n := by rw [List.map_map]; rfl
  have hs : (g.map (GAx.ax cutoff)).map Ax.s = g.map (fun a => sweepOf cutoff a.w) := by rw [List.map_map]; rfl
  have hw : ∀ x ∈ g.map (GAx.ax cutoff), Wide x := by
    intro x hx
    obtain ⟨a, ha, rfl⟩ := List.mem_map.mp hx
    exact hper a ha
  have hadj : ∀ c, adjacent cutoff g c = some (reach (g.map (GAx.ax cutoff))
      ((allTuples (g.map (fun a => sweepOf cutoff a.w))).take
        (volume (g.map (fun a => sweepOf cutoff a.w)) / 2)) c) := by
    intro c
    rw [adjacent, halfStencil_complete hst]
    simp only [Option.map_some, reach, hn]
  have hH : ∀ t, t ∈ (allTuples (g.map (fun a => sweepOf cutoff a.w))).take
      (volume (g.map (fun a => sweepOf cutoff a.w)) / 2) ↔
      Within ((g.map (GAx.ax cutoff)).map Ax.s) t ∧ L ((g.map (GAx.ax cutoff)).map Ax.s) t < 0 := by
    intro t; rw [hs]; exact mem_half
  refine ⟨_, _, hadj i, hadj j, ?_, ?_⟩
  · intro k hk
    obtain ⟨l, rfl, hl⟩ := mem_reach_valid hw (fun t ht => ((hH t).mp ht).1) (by rw [hn]; exact hi) hk
    rw [hn] at hl
    exact ⟨by positivity, by exact_mod_cast hl⟩
  · have : Decidable (Near (g.map (GAx.ax cutoff)) (getAddressCM ((g.map (GAx.ax cutoff)).map Ax.n) i)
        (getAddressCM ((g.map (GAx.ax cutoff)).map Ax.n) j)) := by rw [hn]; infer_instance
    have hnd := (allTuples_nodup (g.map (fun a => sweepOf cutoff a.w))).sublist
      (List.take_sublist (volume (g.map (fun a => sweepOf cutoff a.w)) / 2) _)
    rw [reach_pair hw hnd hH (by rw [hn]; exact hi) (by rw [hn]; exact hj)]
    simp only [hn]

/-! ### When the stencil is complete -/

/-- The sum of `sweep*width`: the half side of the stencil, added over the dimensions. -/
def halfSides (cutoff : K) (g : List (GAx K)) : K := (g.map fun a => (sweepOf cutoff a.w : K) * a.w).sum

theorem dotW_le {cutoff : K} {g : List (GAx K)} (hw : ∀ a ∈ g, 0 < a.w) {t : List ℤ}
    (ht : Within (g.map (fun a => sweepOf cutoff a.w)) t) : dotW t (g.map GAx.w) ≤ halfSides cutoff g := by
  induction g generalizing t with
  | nil => cases ht; simp [dotW, halfSides]
  | cons a g ih =>
    cases ht with
    | @cons x _ t _ hx htl =>
      have h1 := ih (fun b hb => hw b (List.mem_cons_of_mem _ hb)) htl
      have h2 : (x : K) ≤ (sweepOf cutoff a.w : K) := by
        have := le_trans (le_abs_self x) hx
        exact_mod_cast this
      have h3 := mul_le_mul_of_nonneg_right h2 (hw a (by simp)).le
      simp only [List.map_cons, dotW, halfSides, List.sum_cons] at *
      linarith

omit [IsStrictOrderedRing K] in
theorem trunc_lt_of_lt_one {x : K} (h : x < 1) : trunc x ≤ 0 := by
  unfold trunc
  split_ifs with h0
  · have : ⌊x⌋ < 1 := by rw [Int.floor_lt]; exact_mod_cast h
    omega
  · push Not at h0
    exact Int.ceil_le.mpr (by exact_mod_cast h0.le)

/-- The stencil is complete in every dimension when the cells are small in the units used: `sum of sweep*width < 1`
(then the value cast to an integer at `domains/domain.cpp:299` is never positive). -/
theorem C27_complete_small_cells {cutoff : K} (hc : 0 < cutoff) {g : List (GAx K)} (hw : ∀ a ∈ g, 0 < a.w)
    (h1 : halfSides cutoff g < 1) : StencilComplete cutoff g := by
  intro t ht _
  have h2 := trunc_lt_of_lt_one (lt_of_le_of_lt (dotW_le hw ht) h1)
  have h3 : ((trunc (dotW t (g.map GAx.w)) : ℤ) : K) ≤ 0 := by exact_mod_cast h2
  have : 0 < cutoff ^ 2 := by positivity
  linarith

/-- The stencil is complete in one dimension. -/
theorem C27_complete_one_dimension {cutoff : K} (hc : 0 < cutoff) (a : GAx K) (hw : 0 < a.w) :
    StencilComplete cutoff [a] := by
  intro t ht hL
  simp only [List.map_cons, List.map_nil] at ht hL ⊢
  cases ht with
  | @cons x _ t _ hx htl =>
    cases htl
    rw [L_cons] at hL
    have hx0 : x < 0 := by
      simp [volume, little, L, tupleToLinear_nil] at hL
      exact hL
    have h2 : trunc (dotW [x] [a.w]) ≤ 0 := by
      apply trunc_nonpos
      have : (x : K) ≤ 0 := by exact_mod_cast hx0.le
      simp only [dotW, add_zero]
      exact mul_nonpos_of_nonpos_of_nonneg this hw.le
    have h3 : ((trunc (dotW [x] [a.w]) : ℤ) : K) ≤ 0 := by exact_mod_cast h2
    have : 0 < cutoff ^ 2 := by positivity
    linarith

/-- The stencil is complete in two dimensions for square cells at least as wide as the cutoff. -/
theorem C27_complete_square_cells {cutoff : K} (hc : 0 < cutoff) (a b : GAx K) (hw : cutoff ≤ a.w)
    (hab : a.w = b.w) : StencilComplete cutoff [a, b] := by
  have hwp : 0 < a.w := lt_of_lt_of_le hc hw
  have hs : sweepOf cutoff a.w = 1 := by
    have : ⌈cutoff / a.w⌉ = 1 := by
      rw [Int.ceil_eq_iff]
      constructor
      · have := div_pos hc hwp; push_cast; linarith
      · push_cast; rw [div_le_one hwp]; exact hw
    simp [sweepOf, this]
  intro t ht hL
  simp only [List.map_cons, List.map_nil, ← hab, hs] at ht hL ⊢
  cases ht with
  | @cons x _ t _ hx htl =>
    cases htl with
    | @cons y _ t _ hy htl =>
      cases htl
      rw [L_cons, L_cons] at hL
      simp [volume, little, L, tupleToLinear_nil] at hL
      rw [abs_le] at hx hy
      have hxy : x + y ≤ 0 := by push_cast at hx hy; omega
      have h2 : trunc (dotW [x, y] [a.w, a.w]) ≤ 0 := by
        apply trunc_nonpos
        have : (x : K) + y ≤ 0 := by exact_mod_cast hxy
        simp only [dotW, add_zero]
        have := mul_nonpos_of_nonpos_of_nonneg this hwp.le
        linarith
      have h3 : ((trunc (dotW [x, y] [a.w, a.w]) : ℤ) : K) ≤ 0 := by exact_mod_cast h2
      have : 0 < cutoff ^ 2 := by positivity
      linarith

end field

/-- A grid in three dimensions that meets all hypotheses of `C27_pairs_once_partial`. -/
def gridSmall : List (GAx ℚ) := [⟨5, 1/5, true⟩, ⟨6, 1/5, false⟩, ⟨7, 1/5, true⟩]

example : (∀ a ∈ gridSmall, a.per = true → 2 * sweepOf (1/6) a.w + 1 ≤ a.n) ∧ StencilComplete (1/6) gridSmall := by
  have hs : sweepOf (1/6 : ℚ) (1/5) = 1 := by
    have : ⌈(1/6 : ℚ) / (1/5)⌉ = 1 := by rw [Int.ceil_eq_iff]; norm_num
    rw [sweepOf, this]; rfl
  constructor
  · intro a ha
    simp only [gridSmall, List.mem_cons, List.not_mem_nil, or_false] at ha
    rcases ha with rfl | rfl | rfl <;> simp only [hs] <;> decide
  · apply C27_complete_small_cells (by norm_num)
    · intro a ha
      simp only [gridSmall, List.mem_cons, List.not_mem_nil, or_false] at ha
      rcases ha with rfl | rfl | rfl <;> norm_num
    · simp only [halfSides, gridSmall, List.map_cons, List.map_nil, List.sum_cons, List.sum_nil, hs]
      norm_num

/-- The grid of the counterexample: 5×5×5 wrapping cells of side 1.2, cutoff 1. -/
def gridBad : List (GAx ℚ) := [⟨5, 6/5, true⟩, ⟨5, 6/5, true⟩, ⟨5, 6/5, true⟩]

/-- **C27 is false of the code in three dimensions**: for cells of side 1.2 and cutoff 1 (so that the sweep is one cell)
the cells (2,2,2) and (1,3,3) are in sweep range, but neither lists the other, and cell (2,2,2) lists itself, so that
pairs inside a cell are visited once more. -/
theorem C27_negation_stencil :
    ∃ Ai Aj, adjacent (1 : ℚ) gridBad 62 = some Ai ∧ adjacent (1 : ℚ) gridBad 43 = some Aj ∧
      getAddressCM (gridBad.map GAx.n) 62 = [2, 2, 2] ∧ getAddressCM (gridBad.map GAx.n) 43 = [1, 3, 3] ∧
      Near (gridBad.map (GAx.ax 1)) [2, 2, 2] [1, 3, 3] ∧
      Ai.count 43 + Aj.count 62 = 0 ∧ 62 ∈ Ai := by
  have h1 : adjacent (1 : ℚ) gridBad 62 = some [31, 32, 33, 36, 37, 38, 41, 42, 56, 57, 58, 61, 62] := by
    decide +kernel
  have h2 : adjacent (1 : ℚ) gridBad 43 = some [12, 13, 14, 17, 18, 19, 22, 23, 37, 38, 39, 42, 43] := by
    decide +kernel
  refine ⟨_, _, h1, h2, by decide, by decide, ?_, by decide, by decide⟩
  have hs : sweepOf (1 : ℚ) (6/5) = 1 := by
    have : ⌈(1 : ℚ) / (6/5)⌉ = 1 := by rw [Int.ceil_eq_iff]; norm_num
    rw [sweepOf, this]; rfl
  simp [gridBad, Near, Near1, GAx.ax, hs]

/-- The grid of the second counterexample: the minimum of four cells was forced, so that the cells are narrower than the
cutoff and the sweep is two cells. -/
def gridTiny : List (GAx ℚ) := [⟨4, 1, true⟩]

/-- **C27 is false of the code on a wrapping grid with fewer than `2*sweep+1` cells**: with four cells of width 1 and
cutoff 3/2 (the box is 4 wide, which is more than one cutoff, so it is accepted) the pair of cells 0 and 2 is listed
twice. -/
theorem C27_negation_small_grid :
    calcAxis (3/2 : ℚ) 0 4 false false = some ⟨0, 4, 4, 1, 0, 0⟩ ∧
    ∃ Ai Aj, adjacent (3/2 : ℚ) gridTiny 0 = some Ai ∧ adjacent (3/2 : ℚ) gridTiny 2 = some Aj ∧
      Ai.count 2 + Aj.count 0 = 2 := by
  constructor
  · have : trunc (((4 : ℚ) - 0) / (3/2)) = 2 := by
      rw [trunc_nonneg (by norm_num), Int.floor_eq_iff]; norm_num
    unfold calcAxis
    simp only [this]
    norm_num
    rfl
  · have h1 : adjacent (3/2 : ℚ) gridTiny 0 = some [2, 3] := by decide +kernel
    have h2 : adjacent (3/2 : ℚ) gridTiny 2 = some [0, 1] := by decide +kernel
    exact ⟨_, _, h1, h2, by decide⟩

end Verif.Stencil
