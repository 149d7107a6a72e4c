import Mathlib.Algebra.Order.Archimedean.Real.Basic
import Mathlib.Data.List.GetD
import Mathlib.Algebra.Order.Floor.Ring
import Mathlib.Algebra.Order.Round
import Mathlib.Data.List.Sort
import Mathlib.Tactic.Linarith
import Mathlib.Tactic.FieldSimp
import Mathlib.Tactic.Ring
import Mathlib.Tactic.Positivity
import Verif.Creators.Fixers

/-!
# Polymers and lines of particles

Source: `GFlowSim/src/creators/polymercreator.cpp`, `polymercreator.hpp`.

Real numbers stand for floating point numbers.  The sequence of values of `drand48()` is a parameter.
-/

namespace Verif.Polymer

/-! ## Model: the arrangement of a random polymer -/

/-- Number of primary balls `np`. `creators/polymercreator.cpp:187`. -/
noncomputable def numPrimary (phi length rP : ℝ) : ℕ := ⌈0.5 * phi * length / rP⌉₊

/-- The number of chain links inside a primary ball, with uniform spacing (the value of `uniform_spacing` is always `true`,
`creators/polymercreator.hpp:71`). `creators/polymercreator.cpp:189`. -/
noncomputable def extraLinks (rP rC : ℝ) : ℤ := ⌊(rP - rC) / rC⌋

/-- `spacing_factor`. `creators/polymercreator.cpp:190`. -/
noncomputable def spacingFactor (rP rC : ℝ) : ℝ := rP / ((extraLinks rP rC + 1) * rC)

/-- The marks: zero, one random number for each primary ball, the length of the links; sorted. `creators/polymercreator.cpp:193-197`. -/
noncomputable def marks (phi length rP : ℝ) (draw : ℕ → ℝ) : List ℝ :=
  ((0 :: (List.range (numPrimary phi length rP)).map fun i : ℕ => draw i * length * (1 - phi)) ++ [length * (1 - phi)]).insertionSort (· ≤ ·)

/-- The number of links of a segment: rounded down, or randomly up. `creators/polymercreator.cpp:203-208`, `:218-220`. -/
noncomputable def links (expected u : ℝ) : ℤ := if u < (⌊expected⌋ : ℝ) - expected then ⌊expected⌋ + 1 else ⌊expected⌋

/-- The two loops that fill `chain_ordering`: `prev` is `marks[i-1]`, the list holds the marks from `marks[i]`, `us` the values of `drand48()`, `first` says that
`i = 1`. `true` stands for a primary ball. `creators/polymercreator.cpp:201-224`. -/
noncomputable def order (rC : ℝ) (extra : ℤ) : ℝ → List ℝ → List ℝ → Bool → List Bool
  | _, [], _, _ => []
  | prev, [m], us, _ => List.replicate (links (0.5 * (m - prev) / rC) (us.headD 0)).toNat false
  | prev, m :: m' :: ms, us, first =>
    let n := links (0.5 * (m - prev) / rC + extra) (us.headD 0)
    let n := if first then max 0 (n - 1) else n
    List.replicate n.toNat false ++ true :: order rC extra m (m' :: ms) us.tail false

/-- `createPolymerArrangement`. `creators/polymercreator.cpp:182-226`. -/
noncomputable def arrangement (phi length rP rC : ℝ) (draw : ℕ → ℝ) (us : List ℝ) : List Bool :=
  match marks phi length rP draw with
  | [] => []
  | m :: ms => order rC (extraLinks rP rC) m ms us true

/-- The distance between consecutive beads. `creators/polymercreator.cpp:308`. -/
noncomputable def step (rP rC : ℝ) : ℝ := 2 * rC * spacingFactor rP rC

/-! ## Model: positions -/

/-- One wrap of a coordinate. `creators/polymercreator.cpp:319-322`, `:388-391`, `:440-443`. -/
noncomputable def wrap (lo hi x : ℝ) : ℝ := if x < lo then x + (hi - lo) else if hi ≤ x then x - (hi - lo) else x

/-- The positions along the second coordinate: each step is added to the coordinate, which is then wrapped. `creators/polymercreator.cpp:382-392`, `:434-444`. -/
noncomputable def walk (lo hi : ℝ) : ℝ → List ℝ → List ℝ
  | _, [] => []
  | x, dx :: l => wrap lo hi (x + dx) :: walk lo hi (wrap lo hi (x + dx)) l

/-- The number of balls of a line. `creators/polymercreator.cpp:368`, `:420`. -/
noncomputable def lineNumber (phi length spacing rP : ℝ) : ℕ := ⌊phi * length / (2 * spacing * rP)⌋₊

/-- The marks of a random line. `creators/polymercreator.cpp:370-373`. -/
noncomputable def lineMarks (phi length spacing rP : ℝ) (draw : ℕ → ℝ) : List ℝ :=
  (0 :: (List.range (lineNumber phi length spacing rP)).map fun i : ℕ => draw i * length * (1 - phi)).insertionSort (· ≤ ·)

/-- The steps of a random line. `creators/polymercreator.cpp:382-387`. -/
noncomputable def lineSteps (spacing rP : ℝ) (ms : List ℝ) : List ℝ :=
  (List.range (ms.length - 1)).map fun i : ℕ => ms.getD (i + 1) 0 - ms.getD i 0 + (if i = 0 then spacing * rP else 2 * spacing * rP)

/-- The steps of an ordered line. `creators/polymercreator.cpp:421-422`, `:434-439`. -/
noncomputable def orderedSteps (phi length spacing rP : ℝ) : List ℝ :=
  (List.range (lineNumber phi length spacing rP)).map fun i : ℕ =>
    if i = 0 then 0.5 * (length / lineNumber phi length spacing rP) else length / lineNumber phi length spacing rP

/-- The first coordinates of the two parallel polymers. `creators/polymercreator.cpp:475-494`. -/
noncomputable def parallelX (centre h rP : ℝ) : ℝ × ℝ := let dx := (1 + h / 2) * rP; (centre - dx, centre - dx + 2 * dx)

/-! ## Proofs: arrangement -/

theorem links_eq (e u : ℝ) (hu : 0 ≤ u) : links e u = ⌊e⌋ := by
  unfold links
  rw [if_neg]
  have := Int.floor_le e
  push Not
  linarith

theorem marks_sorted (phi length rP : ℝ) (draw : ℕ → ℝ) : (marks phi length rP draw).Pairwise (· ≤ ·) := List.pairwise_insertionSort _ _

theorem marks_length (phi length rP : ℝ) (draw : ℕ → ℝ) : (marks phi length rP draw).length = numPrimary phi length rP + 2 := by
  unfold marks
  rw [List.length_insertionSort]
  simp

theorem order_count (rC : ℝ) (extra : ℤ) : ∀ (ms us : List ℝ) (prev : ℝ) (first : Bool), (order rC extra prev ms us first).count true = ms.length - 1
  | [], us, prev, first => by simp [order]
  | [m], us, prev, first => by simp [order, List.count_replicate]
  | m :: m' :: ms, us, prev, first => by
    unfold order
    simp only
    rw [List.count_append, List.count_cons_self, order_count rC extra (m' :: ms)]
    simp [List.count_replicate]

theorem headD_nonneg {us : List ℝ} (h : ∀ u ∈ us, 0 ≤ u) : 0 ≤ us.headD 0 := by
  cases us with
  | nil => simp
  | cons u us => simpa using h u (by simp)

theorem order_gap (rC : ℝ) (hC : 0 < rC) (extra : ℤ) (he : 0 ≤ extra) : ∀ (ms us : List ℝ) (prev : ℝ) (first : Bool), (∀ u ∈ us, 0 ≤ u) → (prev :: ms).Pairwise (· ≤ ·) →
    (∀ i j : ℕ, i < j → (order rC extra prev ms us first)[i]? = some true → (order rC extra prev ms us first)[j]? = some true → extra + 1 ≤ (j : ℤ) - i) ∧
    (first = false → ∀ j : ℕ, (order rC extra prev ms us first)[j]? = some true → extra ≤ j)
  | [], us, prev, first, _, _ => by simp [order]
  | [m], us, prev, first, _, _ => by
    simp only [order]
    have : ∀ k : ℕ, ∀ n : ℕ, (List.replicate n false)[k]? ≠ some true := by
      intro k n
      rw [List.getElem?_replicate]
      split <;> simp
    exact ⟨fun i j _ h => absurd h (this _ _), fun _ j h => absurd h (this _ _)⟩
  | m :: m' :: ms, us, prev, first, hu, hs => by
    have hs2 : (m :: m' :: ms).Pairwise (· ≤ ·) := (List.pairwise_cons.mp hs).2
    have hm : prev ≤ m := (List.pairwise_cons.mp hs).1 m (by simp)
    obtain ⟨ih1, ih2⟩ := order_gap rC hC extra he (m' :: ms) us.tail m false (fun u h => hu u (List.mem_of_mem_tail h)) hs2
    unfold order
    simp only
    generalize hn : (if first = true then max 0 (links (0.5 * (m - prev) / rC + ↑extra) (us.headD 0) - 1) else links (0.5 * (m - prev) / rC + ↑extra) (us.headD 0)) = n
    have key : ∀ k : ℕ, (List.replicate n.toNat false ++ true :: order rC extra m (m' :: ms) us.tail false)[k]? = some true →
        k = n.toNat ∨ ∃ k', k = n.toNat + 1 + k' ∧ (order rC extra m (m' :: ms) us.tail false)[k']? = some true := by
      intro k hk
      by_cases h1 : k < n.toNat
      · rw [List.getElem?_append_left (by simpa using h1), List.getElem?_replicate, if_pos h1] at hk
        simp at hk
      · rw [List.getElem?_append_right (by simpa using h1), List.length_replicate] at hk
        by_cases h2 : k = n.toNat
        · exact Or.inl h2
        · right
          refine ⟨k - n.toNat - 1, by omega, ?_⟩
          rw [show k - n.toNat = (k - n.toNat - 1) + 1 by omega, List.getElem?_cons_succ] at hk
          exact hk
    constructor
    · intro i j hij h1 h2
      rcases key i h1 with rfl | ⟨i', rfl, h1'⟩
      · rcases key j h2 with rfl | ⟨j', rfl, h2'⟩
        · omega
        · have := ih2 rfl j' h2'
          push_cast
          linarith
      · rcases key j h2 with rfl | ⟨j', rfl, h2'⟩
        · omega
        · have := ih1 i' j' (by omega) h1' h2'
          push_cast
          linarith
    · intro hf j hj
      subst hf
      rw [links_eq _ _ (headD_nonneg hu)] at hn
      simp only [Bool.false_eq_true, if_false] at hn
      have hge : extra ≤ n := by
        rw [← hn, Int.le_floor]
        have : 0 ≤ 0.5 * (m - prev) / rC := div_nonneg (by linarith) hC.le
        linarith
      rcases key j hj with rfl | ⟨j', rfl, _⟩
      · omega
      · push_cast
        omega

/-- Number of beads, from above and below. -/
theorem order_length (rC : ℝ) (hC : 0 < rC) (extra : ℤ) (he : 0 ≤ extra) : ∀ (ms us : List ℝ) (prev : ℝ) (first : Bool), (∀ u ∈ us, 0 ≤ u) → (prev :: ms).Pairwise (· ≤ ·) → ms ≠ [] →
    ((order rC extra prev ms us first).length : ℝ) ≤ (ms.getLastD prev - prev) / (2 * rC) + (ms.length - 1) * (extra + 1) + (if first then 1 else 0) ∧
    (ms.getLastD prev - prev) / (2 * rC) + (ms.length - 1) * (extra + 1) - ms.length - (if first then 1 else 0) < ((order rC extra prev ms us first).length : ℝ)
  | [], _, _, _, _, _, h => absurd rfl h
  | [m], us, prev, first, hu, hs, _ => by
    have hm : prev ≤ m := (List.pairwise_cons.mp hs).1 m (by simp)
    simp only [order, List.length_replicate, links_eq _ _ (headD_nonneg hu)]
    have h0 : 0 ≤ 0.5 * (m - prev) / rC := div_nonneg (by linarith) hC.le
    have hz : (0 : ℤ) ≤ ⌊0.5 * (m - prev) / rC⌋ := Int.floor_nonneg.mpr h0
    have hc : ((⌊0.5 * (m - prev) / rC⌋.toNat : ℕ) : ℝ) = ((⌊0.5 * (m - prev) / rC⌋ : ℤ) : ℝ) := by
      have : ((⌊0.5 * (m - prev) / rC⌋.toNat : ℕ) : ℤ) = ⌊0.5 * (m - prev) / rC⌋ := Int.toNat_of_nonneg hz
      exact_mod_cast congrArg (fun z : ℤ => (z : ℝ)) this
    rw [hc]
    have h1 := Int.floor_le (0.5 * (m - prev) / rC)
    have h2 := Int.lt_floor_add_one (0.5 * (m - prev) / rC)
    have h3 : 0.5 * (m - prev) / rC = (m - prev) / (2 * rC) := by field_simp; ring
    rw [h3] at h1 h2 ⊢
    simp only [List.getLastD_cons, List.getLastD_nil, List.length_singleton, Nat.cast_one, sub_self, zero_mul, add_zero]
    split <;> constructor <;> linarith
  | m :: m' :: ms, us, prev, first, hu, hs, _ => by
    have hs2 : (m :: m' :: ms).Pairwise (· ≤ ·) := (List.pairwise_cons.mp hs).2
    have hm : prev ≤ m := (List.pairwise_cons.mp hs).1 m (by simp)
    obtain ⟨ih1, ih2⟩ := order_length rC hC extra he (m' :: ms) us.tail m false (fun u h => hu u (List.mem_of_mem_tail h)) hs2 (by simp)
    unfold order
    simp only [links_eq _ _ (headD_nonneg hu)]
    have h0 : 0 ≤ 0.5 * (m - prev) / rC := div_nonneg (by linarith) hC.le
    have hez : (0 : ℝ) ≤ extra := by exact_mod_cast he
    have hz : (0 : ℤ) ≤ ⌊0.5 * (m - prev) / rC + extra⌋ := Int.floor_nonneg.mpr (by linarith)
    have h1 := Int.floor_le (0.5 * (m - prev) / rC + extra)
    have h2 := Int.lt_floor_add_one (0.5 * (m - prev) / rC + extra)
    have h3 : 0.5 * (m - prev) / rC = (m - prev) / (2 * rC) := by field_simp; ring
    have h4 : ((m' :: ms).getLastD m - m) / (2 * rC) + (m - prev) / (2 * rC) = ((m :: m' :: ms).getLastD prev - prev) / (2 * rC) := by
      rw [← add_div, List.getLastD_cons, List.getLastD_cons, List.getLastD_cons]
      congr 1
      ring
    rw [h3] at h1 h2 hz ⊢
    generalize ⌊(m - prev) / (2 * rC) + (extra : ℝ)⌋ = z at *
    simp only [Bool.false_eq_true, if_false, add_zero, sub_zero] at ih1 ih2
    rw [List.length_append, List.length_replicate, List.length_cons, ← h4]
    have hlen : ((m :: m' :: ms).length : ℝ) = (m' :: ms).length + 1 := by simp
    rw [hlen]
    push_cast
    cases first with
    | false =>
      have hc : ((z.toNat : ℕ) : ℝ) = (z : ℝ) := by exact_mod_cast congrArg (fun z : ℤ => (z : ℝ)) (Int.toNat_of_nonneg hz)
      simp only [Bool.false_eq_true, if_false, add_zero, sub_zero]
      rw [hc]
      constructor <;> linarith
    | true =>
      simp only [if_true]
      have hc : (((max 0 (z - 1)).toNat : ℕ) : ℝ) = ((max 0 (z - 1) : ℤ) : ℝ) := by
        exact_mod_cast congrArg (fun z : ℤ => (z : ℝ)) (Int.toNat_of_nonneg (le_max_left 0 (z - 1)))
      rw [hc]
      have ha : ((max 0 (z - 1) : ℤ) : ℝ) ≤ z := by exact_mod_cast (by omega : max 0 (z - 1) ≤ z)
      have hb : (z : ℝ) - 1 ≤ ((max 0 (z - 1) : ℤ) : ℝ) := by exact_mod_cast (by omega : z - 1 ≤ max 0 (z - 1))
      constructor <;> linarith

theorem marks_ends (phi length rP : ℝ) (hl : 0 ≤ length) (hp : phi ≤ 1) (draw : ℕ → ℝ) (hd : ∀ i, 0 ≤ draw i ∧ draw i < 1) :
    ∃ ms, marks phi length rP draw = 0 :: ms ∧ ms ≠ [] ∧ ms.getLastD 0 = length * (1 - phi) := by
  have hL : 0 ≤ length * (1 - phi) := mul_nonneg hl (by linarith)
  have hmem : ∀ x, x ∈ marks phi length rP draw ↔ x = 0 ∨ (∃ i < numPrimary phi length rP, draw i * length * (1 - phi) = x) ∨ x = length * (1 - phi) := by
    intro x
    unfold marks
    rw [List.mem_insertionSort]
    simp
  have hrange : ∀ x ∈ marks phi length rP draw, 0 ≤ x ∧ x ≤ length * (1 - phi) := by
    intro x hx
    rcases (hmem x).mp hx with rfl | ⟨i, _, rfl⟩ | rfl
    · exact ⟨le_rfl, hL⟩
    · rw [mul_assoc]
      exact ⟨mul_nonneg (hd i).1 hL, by nlinarith [(hd i).2]⟩
    · exact ⟨hL, le_rfl⟩
  have hlen := marks_length phi length rP draw
  have hsort := marks_sorted phi length rP draw
  match hm : marks phi length rP draw with
  | [] => rw [hm] at hlen; simp at hlen
  | m :: ms =>
    rw [hm] at hlen hsort hrange
    have h0 : m = 0 := by
      have h1 := (hrange m (by simp)).1
      have : (0 : ℝ) ∈ m :: ms := by rw [← hm]; exact (hmem 0).mpr (Or.inl rfl)
      rcases List.mem_cons.mp this with h | h
      · exact h.symm
      · exact le_antisymm ((List.pairwise_cons.mp hsort).1 0 h) h1
    subst h0
    have hne : ms ≠ [] := by
      intro h
      rw [h] at hlen
      simp at hlen
    refine ⟨ms, rfl, hne, ?_⟩
    have hlast : ms.getLastD 0 = ms.getLast hne := by
      cases ms with
      | nil => exact absurd rfl hne
      | cons a l => simp [List.getLastD]
    rw [hlast]
    have hup := (hrange (ms.getLast hne) (by simp)).2
    refine le_antisymm hup ?_
    have : length * (1 - phi) ∈ (0 : ℝ) :: ms := by rw [← hm]; exact (hmem _).mpr (Or.inr (Or.inr rfl))
    rcases List.mem_cons.mp this with h | h
    · rw [h]; exact (hrange (ms.getLast hne) (by simp)).1
    · have hs := (List.pairwise_cons.mp hsort).2
      obtain ⟨k, hk, hk2⟩ := List.mem_iff_getElem.mp h
      rw [List.getLast_eq_getElem, ← hk2]
      rcases Nat.lt_or_ge k (ms.length - 1) with hlt | hge
      · exact List.pairwise_iff_getElem.mp hs k (ms.length - 1) hk (by omega) hlt
      · exact le_of_eq (by congr 1; omega)

/-! ## Theorems: arrangement -/

theorem extra_nonneg {rP rC : ℝ} (hC : 0 < rC) (h : rC ≤ rP) : 0 ≤ extraLinks rP rC := Int.floor_nonneg.mpr (div_nonneg (by linarith) hC.le)

theorem extra_step {rP rC : ℝ} (hC : 0 < rC) (h : rC ≤ rP) : (extraLinks rP rC + 1) * step rP rC = 2 * rP := by
  have h0 : (0 : ℝ) ≤ extraLinks rP rC := by exact_mod_cast extra_nonneg hC h
  have h1 : (extraLinks rP rC : ℝ) + 1 ≠ 0 := by linarith
  unfold step spacingFactor
  field_simp

/-- C95: the beads of a polymer are at least one chain diameter apart, and less than two. -/
theorem C95_step {rP rC : ℝ} (hC : 0 < rC) (h : rC ≤ rP) : 2 * rC ≤ step rP rC ∧ step rP rC < 4 * rC := by
  have h0 : (0 : ℝ) ≤ extraLinks rP rC := by exact_mod_cast extra_nonneg hC h
  have h1 : (0 : ℝ) < (extraLinks rP rC : ℝ) + 1 := by linarith
  have hx := extra_step hC h
  have hl : ((extraLinks rP rC : ℤ) : ℝ) ≤ (rP - rC) / rC := Int.floor_le _
  have hu : (rP - rC) / rC < ((extraLinks rP rC : ℤ) : ℝ) + 1 := Int.lt_floor_add_one _
  rw [le_div_iff₀ hC] at hl
  rw [div_lt_iff₀ hC] at hu
  constructor
  · by_contra hc
    push Not at hc
    have := mul_lt_mul_of_pos_left hc h1
    nlinarith
  · by_contra hc
    push Not at hc
    have := mul_le_mul_of_nonneg_left hc h1.le
    nlinarith

/-- C95: a random polymer has exactly `⌈φ L / 2 r_P⌉` primary balls, whatever the random numbers are. -/
theorem C95_primaries (phi length rP rC : ℝ) (draw : ℕ → ℝ) (us : List ℝ) :
    (arrangement phi length rP rC draw us).count true = ⌈phi * length / (2 * rP)⌉₊ := by
  have hlen := marks_length phi length rP draw
  have hn : numPrimary phi length rP = ⌈phi * length / (2 * rP)⌉₊ := by
    unfold numPrimary
    congr 1
    rw [show (0.5 : ℝ) * phi * length = phi * length / 2 by ring, div_div]
  unfold arrangement
  match hm : marks phi length rP draw with
  | [] => rw [hm] at hlen; simp at hlen
  | m :: ms =>
    rw [hm] at hlen
    simp only
    rw [order_count, ← hn]
    simp at hlen
    omega

/-- C95: the primary balls of a straight polymer do not overlap: their centres are at least one diameter apart along the chain. -/
theorem C95_no_overlap (phi length rP rC : ℝ) (hC : 0 < rC) (h : rC ≤ rP) (draw : ℕ → ℝ) (us : List ℝ) (hu : ∀ u ∈ us, 0 ≤ u) (i j : ℕ) (hij : i < j)
    (h1 : (arrangement phi length rP rC draw us)[i]? = some true) (h2 : (arrangement phi length rP rC draw us)[j]? = some true) :
    2 * rP ≤ (j - i) * step rP rC := by
  have hsort := marks_sorted phi length rP draw
  unfold arrangement at h1 h2
  match hm : marks phi length rP draw with
  | [] => rw [hm] at h1; simp at h1
  | m :: ms =>
    rw [hm] at h1 h2 hsort
    have := (order_gap rC hC _ (extra_nonneg hC h) ms us m true hu hsort).1 i j hij h1 h2
    have hR : (extraLinks rP rC : ℝ) + 1 ≤ (j : ℝ) - i := by exact_mod_cast this
    rw [← extra_step hC h]
    exact mul_le_mul_of_nonneg_right hR (by linarith [(C95_step hC h).1])

/-- C95: the number of beads is that of primary balls and of links which make up the length, up to the rounding of each segment. -/
theorem C95_length (phi length rP rC : ℝ) (hC : 0 < rC) (h : rC ≤ rP) (hl : 0 ≤ length) (hp : phi ≤ 1) (draw : ℕ → ℝ) (hd : ∀ i, 0 ≤ draw i ∧ draw i < 1)
    (us : List ℝ) (hu : ∀ u ∈ us, 0 ≤ u) :
    let np := ⌈phi * length / (2 * rP)⌉₊
    let full := length * (1 - phi) / (2 * rC) * step rP rC + np * (2 * rP)
    (arrangement phi length rP rC draw us).length * step rP rC ≤ full + step rP rC ∧
      full - (np + 2) * step rP rC < (arrangement phi length rP rC draw us).length * step rP rC := by
  obtain ⟨ms, hm, hne, hlast⟩ := marks_ends phi length rP hl hp draw hd
  have hlen := marks_length phi length rP draw
  have hsort := marks_sorted phi length rP draw
  rw [hm] at hlen hsort
  have hn : numPrimary phi length rP = ⌈phi * length / (2 * rP)⌉₊ := by
    unfold numPrimary
    congr 1
    rw [show (0.5 : ℝ) * phi * length = phi * length / 2 by ring, div_div]
  obtain ⟨h1, h2⟩ := order_length rC hC _ (extra_nonneg hC h) ms us 0 true hu hsort hne
  have hst : 0 < step rP rC := by linarith [(C95_step hC h).1]
  have hml : (ms.length : ℝ) = ⌈phi * length / (2 * rP)⌉₊ + 1 := by
    rw [← hn]
    have : ms.length = numPrimary phi length rP + 1 := by simpa using hlen
    rw [this]; push_cast; ring
  rw [hlast, hml] at h1 h2
  simp only [if_true, sub_zero, add_sub_cancel_right] at h1 h2
  intro np full
  have harr : arrangement phi length rP rC draw us = order rC (extraLinks rP rC) 0 ms us true := by unfold arrangement; rw [hm]
  have hx := extra_step hC h
  have hfull : full = (length * (1 - phi) / (2 * rC) + np * ((extraLinks rP rC : ℝ) + 1)) * step rP rC := by
    rw [add_mul, mul_assoc (np : ℝ), hx]
  rw [harr, hfull]
  constructor
  · have := mul_le_mul_of_nonneg_right h1 hst.le
    rw [← add_one_mul]
    exact this
  · have := mul_lt_mul_of_pos_right h2 hst
    rw [← sub_mul]
    refine lt_of_le_of_lt (le_of_eq ?_) this
    ring

/-- C95 is false: the number of links is meant to be rounded up at random; it never is. The result does not depend on those random numbers at all. -/
theorem C95_negation_rounding (expected u : ℝ) (hu : 0 ≤ u) : links expected u = ⌊expected⌋ := links_eq expected u hu

example : numPrimary 0.2 5 0.05 = 10 := by
  unfold numPrimary
  rw [show (0.5 : ℝ) * 0.2 * 5 / 0.05 = ((10 : ℕ) : ℝ) by norm_num]
  exact Nat.ceil_natCast 10

/-! ## Theorems: positions -/

/-- Wrapping changes a coordinate by a whole number of widths. -/
theorem wrap_mod (lo hi x : ℝ) : ∃ k : ℤ, wrap lo hi x = x + k * (hi - lo) := by
  unfold wrap
  split
  · exact ⟨1, by push_cast; ring⟩
  · split
    · exact ⟨-1, by push_cast; ring⟩
    · exact ⟨0, by simp⟩

theorem wrap_mem {lo hi x : ℝ} (h1 : lo - (hi - lo) ≤ x) (h2 : x < hi + (hi - lo)) : lo ≤ wrap lo hi x ∧ wrap lo hi x < hi := by
  unfold wrap
  split
  · constructor <;> linarith
  · split
    · constructor <;> linarith
    · constructor <;> linarith

/-- The unwrapped positions: the partial sums. -/
def sums : ℝ → List ℝ → List ℝ
  | _, [] => []
  | x, dx :: l => (x + dx) :: sums (x + dx) l

theorem walk_spec (lo hi : ℝ) : ∀ (l : List ℝ) (x y : ℝ) (k : ℤ), x = y + k * (hi - lo) → (∀ dx ∈ l, 0 ≤ dx ∧ dx ≤ hi - lo) → (lo ≤ x ∧ x < hi) →
    (walk lo hi x l).length = l.length ∧ (sums y l).length = l.length ∧
    ∀ i : ℕ, ∀ h1 : i < (walk lo hi x l).length, ∀ h2 : i < (sums y l).length,
      (∃ k : ℤ, (walk lo hi x l)[i] = (sums y l)[i] + k * (hi - lo)) ∧ lo ≤ (walk lo hi x l)[i] ∧ (walk lo hi x l)[i] < hi := by
  intro l
  induction l with
  | nil => intro x y k _ _ _; simp [walk, sums]
  | cons dx l ih =>
    intro x y k hk hdx hx
    obtain ⟨d0, d1⟩ := hdx dx (by simp)
    obtain ⟨k', hk'⟩ := wrap_mod lo hi (x + dx)
    have hm := wrap_mem (lo := lo) (hi := hi) (x := x + dx) (by linarith [hx.1, hx.2]) (by linarith [hx.2])
    have he : wrap lo hi (x + dx) = (y + dx) + ((k + k' : ℤ) : ℝ) * (hi - lo) := by rw [hk', hk]; push_cast; ring
    obtain ⟨a, b, c⟩ := ih (wrap lo hi (x + dx)) (y + dx) (k + k') he (fun z hz => hdx z (by simp [hz])) hm
    refine ⟨by simp [walk, a], by simp [sums, b], ?_⟩
    intro i h1 h2
    cases i with
    | zero => exact ⟨⟨k + k', by simpa [walk, sums] using he⟩, by simpa [walk] using hm⟩
    | succ i => simpa [walk, sums] using c i (by simpa [walk] using h1) (by simpa [sums] using h2)

theorem sums_get : ∀ (l : List ℝ) (x : ℝ) (i : ℕ) (h : i < (sums x l).length), (sums x l)[i] = x + (l.take (i + 1)).sum
  | [], x, i, h => by simp [sums] at h
  | dx :: l, x, 0, h => by simp [sums]
  | dx :: l, x, i + 1, h => by
    have := sums_get l (x + dx) i (by simpa [sums] using h)
    simp only [sums, List.getElem_cons_succ, this, List.take_succ_cons, List.sum_cons]
    ring

theorem lineSteps_sum (spacing rP : ℝ) (ms : List ℝ) (hm : ms.getD 0 0 = 0) : ∀ i : ℕ, i + 1 < ms.length →
    ((lineSteps spacing rP ms).take (i + 1)).sum = ms.getD (i + 1) 0 + (2 * i + 1) * (spacing * rP) := by
  intro i
  unfold lineSteps
  induction i with
  | zero =>
    intro h
    rw [← List.map_take, List.take_range, show min (0 + 1) (ms.length - 1) = 1 by omega]
    simp only [List.range_one, List.map_cons, List.map_nil, List.sum_cons, List.sum_nil, if_true, hm]
    push_cast
    ring
  | succ i ih =>
    intro h
    rw [← List.map_take, List.take_range, show min (i + 1 + 1) (ms.length - 1) = (i + 1) + 1 by omega, List.range_succ, List.map_append, List.sum_append]
    have ih' := ih (by omega)
    rw [← List.map_take, List.take_range, show min (i + 1) (ms.length - 1) = i + 1 by omega] at ih'
    rw [ih']
    simp only [List.map_cons, List.map_nil, List.sum_cons, List.sum_nil, if_neg (Nat.succ_ne_zero i), add_zero]
    push_cast
    ring

theorem lineMarks_facts (phi length spacing rP : ℝ) (hl : 0 ≤ length) (hp : phi ≤ 1) (draw : ℕ → ℝ) (hd : ∀ i, 0 ≤ draw i ∧ draw i < 1) :
    (lineMarks phi length spacing rP draw).length = lineNumber phi length spacing rP + 1 ∧ (lineMarks phi length spacing rP draw).Pairwise (· ≤ ·) ∧
    (lineMarks phi length spacing rP draw).getD 0 0 = 0 ∧ ∀ x ∈ lineMarks phi length spacing rP draw, 0 ≤ x ∧ x ≤ length * (1 - phi) := by
  have hL : 0 ≤ length * (1 - phi) := mul_nonneg hl (by linarith)
  have hmem : ∀ x, x ∈ lineMarks phi length spacing rP draw ↔ x = 0 ∨ (∃ i < lineNumber phi length spacing rP, draw i * length * (1 - phi) = x) := by
    intro x
    unfold lineMarks
    rw [List.mem_insertionSort]
    simp
  have hrange : ∀ x ∈ lineMarks phi length spacing rP draw, 0 ≤ x ∧ x ≤ length * (1 - phi) := by
    intro x hx
    rcases (hmem x).mp hx with rfl | ⟨i, _, rfl⟩
    · exact ⟨le_rfl, hL⟩
    · rw [mul_assoc]
      exact ⟨mul_nonneg (hd i).1 hL, by nlinarith [(hd i).2]⟩
  have hsort : (lineMarks phi length spacing rP draw).Pairwise (· ≤ ·) := List.pairwise_insertionSort _ _
  refine ⟨by unfold lineMarks; rw [List.length_insertionSort]; simp, hsort, ?_, hrange⟩
  match hm : lineMarks phi length spacing rP draw with
  | [] => rfl
  | m :: ms =>
    rw [hm] at hsort hrange
    have h1 := (hrange m (by simp)).1
    have : (0 : ℝ) ∈ m :: ms := by rw [← hm]; exact (hmem 0).mpr (Or.inl rfl)
    simp only [List.getD_cons_zero]
    rcases List.mem_cons.mp this with h | h
    · exact h.symm
    · exact le_antisymm ((List.pairwise_cons.mp hsort).1 0 h) h1

theorem getD_sorted {ms : List ℝ} (h : ms.Pairwise (· ≤ ·)) {i j : ℕ} (hij : i ≤ j) (hj : j < ms.length) : ms.getD i 0 ≤ ms.getD j 0 := by
  rw [List.getD_eq_getElem _ _ (by omega : i < ms.length), List.getD_eq_getElem _ _ hj]
  rcases Nat.lt_or_ge i j with h1 | h1
  · exact List.pairwise_iff_getElem.mp h i j (by omega) hj h1
  · exact le_of_eq (by congr 1; omega)

/-- C95: a random line has `⌊φ L / 2 s r⌋` balls. There are places `y₀ < y₁ < …` along it, at least `2 s r` apart (so that the balls do not overlap if `s ≥ 1`),
inside the length from the starting point, with `s r` left at both ends; the balls are created at these places, up to whole widths of the box, and inside the box. -/
theorem C95_line (lo hi phi length spacing rP x : ℝ) (hl : 0 ≤ length) (h0 : 0 ≤ phi) (hp : phi ≤ 1) (hs : 0 < spacing) (hr : 0 < rP) (draw : ℕ → ℝ) (hd : ∀ i, 0 ≤ draw i ∧ draw i < 1)
    (hx : lo ≤ x ∧ x < hi) (hw : length * (1 - phi) + 2 * spacing * rP ≤ hi - lo) :
    ∃ y : ℕ → ℝ,
      (walk lo hi x (lineSteps spacing rP (lineMarks phi length spacing rP draw))).length = ⌊phi * length / (2 * spacing * rP)⌋₊ ∧
      (∀ i j : ℕ, i < j → j < ⌊phi * length / (2 * spacing * rP)⌋₊ → 2 * spacing * rP * (j - i) ≤ y j - y i) ∧
      (∀ i : ℕ, i < ⌊phi * length / (2 * spacing * rP)⌋₊ → x + spacing * rP ≤ y i ∧ y i ≤ x + length - spacing * rP) ∧
      (∀ i : ℕ, ∀ h : i < (walk lo hi x (lineSteps spacing rP (lineMarks phi length spacing rP draw))).length,
        (∃ k : ℤ, (walk lo hi x (lineSteps spacing rP (lineMarks phi length spacing rP draw)))[i] = y i + k * (hi - lo)) ∧
          lo ≤ (walk lo hi x (lineSteps spacing rP (lineMarks phi length spacing rP draw)))[i] ∧
          (walk lo hi x (lineSteps spacing rP (lineMarks phi length spacing rP draw)))[i] < hi) := by
  obtain ⟨m1, m2, m3, m4⟩ := lineMarks_facts phi length spacing rP hl hp draw hd
  have hnum : lineNumber phi length spacing rP = ⌊phi * length / (2 * spacing * rP)⌋₊ := rfl
  have hsr : 0 < spacing * rP := mul_pos hs hr
  generalize hms : lineMarks phi length spacing rP draw = ms at *
  rw [hnum] at m1
  generalize hN : ⌊phi * length / (2 * spacing * rP)⌋₊ = N at *
  have hstep : ∀ dx ∈ lineSteps spacing rP ms, 0 ≤ dx ∧ dx ≤ hi - lo := by
    intro dx hdx
    unfold lineSteps at hdx
    obtain ⟨i, hi', rfl⟩ := List.mem_map.mp hdx
    rw [List.mem_range] at hi'
    have a := getD_sorted m2 (Nat.le_succ i) (by omega : i + 1 < ms.length)
    have b : ms.getD (i + 1) 0 ≤ length * (1 - phi) := by
      rw [List.getD_eq_getElem _ _ (by omega : i + 1 < ms.length)]
      exact (m4 _ (List.getElem_mem _)).2
    have c : 0 ≤ ms.getD i 0 := by
      rw [List.getD_eq_getElem _ _ (by omega : i < ms.length)]
      exact (m4 _ (List.getElem_mem _)).1
    simp only [Nat.succ_eq_add_one] at a
    split <;> constructor <;> nlinarith
  obtain ⟨w1, w2, w3⟩ := walk_spec lo hi (lineSteps spacing rP ms) x x 0 (by simp) hstep hx
  have hlen : (lineSteps spacing rP ms).length = N := by unfold lineSteps; simp; omega
  refine ⟨fun i => x + (ms.getD (i + 1) 0 + (2 * i + 1) * (spacing * rP)), by rw [w1, hlen], ?_, ?_, ?_⟩
  · intro i j hij hj
    have := getD_sorted m2 (by omega : i + 1 ≤ j + 1) (by omega)
    simp only
    nlinarith
  · intro i hiN
    have b : 0 ≤ ms.getD (i + 1) 0 ∧ ms.getD (i + 1) 0 ≤ length * (1 - phi) := by
      rw [List.getD_eq_getElem _ _ (by omega : i + 1 < ms.length)]
      exact m4 _ (List.getElem_mem _)
    have hNle : (N : ℝ) ≤ phi * length / (2 * spacing * rP) := by
      rw [← hN]; exact Nat.floor_le (div_nonneg (mul_nonneg h0 hl) (by positivity))
    rw [le_div_iff₀ (by positivity)] at hNle
    have hiN' : (i : ℝ) + 1 ≤ N := by exact_mod_cast hiN
    have hi0 : (0 : ℝ) ≤ i := Nat.cast_nonneg i
    have hmul := mul_le_mul_of_nonneg_right hiN' (by positivity : (0 : ℝ) ≤ 2 * (spacing * rP))
    constructor
    · nlinarith [mul_nonneg hi0 hsr.le, b.1]
    · nlinarith [b.2]
  · intro i h
    have h2 : i < (sums x (lineSteps spacing rP ms)).length := by rw [w2, ← w1]; exact h
    obtain ⟨a, b⟩ := w3 i h h2
    refine ⟨?_, b⟩
    rw [sums_get, lineSteps_sum spacing rP ms m3 i (by rw [w1, hlen] at h; omega)] at a
    exact a

example : ⌊(0.5 : ℝ) * 4 / (2 * 1 * 0.25)⌋₊ = 4 ∧ (4 : ℝ) * (1 - 0.5) + 2 * 1 * 0.25 ≤ 5 - 0 := by
  constructor
  · rw [show (0.5 : ℝ) * 4 / (2 * 1 * 0.25) = ((4 : ℕ) : ℝ) by norm_num]
    exact Nat.floor_natCast 4
  · norm_num

theorem orderedSteps_sum (phi length spacing rP : ℝ) : ∀ i : ℕ, i < lineNumber phi length spacing rP →
    ((orderedSteps phi length spacing rP).take (i + 1)).sum = (i + 1 / 2) * (length / lineNumber phi length spacing rP) := by
  intro i
  unfold orderedSteps
  induction i with
  | zero =>
    intro h
    rw [← List.map_take, List.take_range, show min (0 + 1) (lineNumber phi length spacing rP) = 1 by omega]
    simp only [List.range_one, List.map_cons, List.map_nil, List.sum_cons, List.sum_nil, if_true]
    push_cast
    ring
  | succ i ih =>
    intro h
    rw [← List.map_take, List.take_range, show min (i + 1 + 1) (lineNumber phi length spacing rP) = (i + 1) + 1 by omega, List.range_succ, List.map_append, List.sum_append]
    have ih' := ih (by omega)
    rw [← List.map_take, List.take_range, show min (i + 1) (lineNumber phi length spacing rP) = i + 1 by omega] at ih'
    rw [ih']
    simp only [List.map_cons, List.map_nil, List.sum_cons, List.sum_nil, if_neg (Nat.succ_ne_zero i), add_zero]
    push_cast
    ring

/-- C95: an ordered line has `n = ⌊φ L / 2 s r⌋` balls at `x + (i + 1/2) L / n`, up to whole widths, and in the box; neighbours are at least `2 s r` apart. -/
theorem C95_ordered_line (lo hi phi length spacing rP x : ℝ) (hl : 0 < length) (h0 : 0 < phi) (hp : phi ≤ 1) (hs : 0 < spacing) (hr : 0 < rP)
    (hx : lo ≤ x ∧ x < hi) (hw : length ≤ hi - lo) :
    let n := ⌊phi * length / (2 * spacing * rP)⌋₊
    let l := walk lo hi x (orderedSteps phi length spacing rP)
    l.length = n ∧ (0 < n → 2 * spacing * rP ≤ length / n) ∧
      ∀ i : ℕ, ∀ h : i < l.length, (∃ k : ℤ, l[i] = x + (i + 1 / 2) * (length / n) + k * (hi - lo)) ∧ lo ≤ l[i] ∧ l[i] < hi := by
  intro n l
  have hnum : lineNumber phi length spacing rP = n := rfl
  have hstep : ∀ dx ∈ orderedSteps phi length spacing rP, 0 ≤ dx ∧ dx ≤ hi - lo := by
    intro dx hdx
    unfold orderedSteps at hdx
    obtain ⟨i, hi', rfl⟩ := List.mem_map.mp hdx
    rw [List.mem_range] at hi'
    have hn1 : (1 : ℝ) ≤ (lineNumber phi length spacing rP : ℝ) := by exact_mod_cast (by omega : 1 ≤ lineNumber phi length spacing rP)
    have h1 : 0 ≤ length / lineNumber phi length spacing rP := div_nonneg hl.le (by linarith)
    have h2 : length / lineNumber phi length spacing rP ≤ length := div_le_self hl.le hn1
    split <;> constructor <;> linarith
  obtain ⟨w1, w2, w3⟩ := walk_spec lo hi (orderedSteps phi length spacing rP) x x 0 (by simp) hstep hx
  have hlen : (orderedSteps phi length spacing rP).length = n := by unfold orderedSteps; simp [hnum]
  refine ⟨by rw [w1, hlen], ?_, ?_⟩
  · intro hn
    have hn' : (0 : ℝ) < n := by exact_mod_cast hn
    have hNle : (n : ℝ) ≤ phi * length / (2 * spacing * rP) := Nat.floor_le (by positivity)
    rw [le_div_iff₀ (by positivity)] at hNle
    rw [le_div_iff₀ hn']
    nlinarith
  · intro i h
    have h2 : i < (sums x (orderedSteps phi length spacing rP)).length := by rw [w2, ← w1]; exact h
    obtain ⟨a, b⟩ := w3 i h h2
    refine ⟨?_, b⟩
    rw [sums_get, orderedSteps_sum phi length spacing rP i (by rw [hnum, ← hlen, ← w1]; exact h), hnum] at a
    exact a

/-- C95: the surfaces of the balls of two parallel polymers are `h` radii apart, and the polymers are symmetric about the centre. -/
theorem C95_parallel (centre h rP : ℝ) :
    (parallelX centre h rP).2 - (parallelX centre h rP).1 - 2 * rP = h * rP ∧ ((parallelX centre h rP).1 + (parallelX centre h rP).2) / 2 = centre := by
  unfold parallelX
  constructor <;> ring

/-! ## Initial velocities of a polymer -/

open Verif.SimData

/-- The store after the creation of `n` atoms. `creators/polymercreator.cpp:324-326`. -/
def makeAtoms {R : Type} (c : Cfg R) (x : ℕ → List ℚ) (r : R) : ℕ → Store R → Option (Store R)
  | 0, s => some s
  | n + 1, s => (makeAtoms c x r n s).bind (addFull c (x n) r 0)

/-- The loop over ids from `start_id` to `end_id` that reads `sd->Im(id)`, the id taken as a local index; `none` if an index is outside the arrays.
The result is the list of ids for which fixers are made. `creators/polymercreator.cpp:342-360`. -/
def energyLoop {R : Type} (s : Store R) (start_id : ℕ) : ℕ → Option (List ℕ)
  | 0 => some []
  | k + 1 => (energyLoop s start_id k).bind fun l => if start_id + k < s.cap then some (l ++ [start_id + k]) else none

theorem makeAtoms_spec {R : Type} (c : Cfg R) (x : ℕ → List ℚ) (r : R) : ∀ n : ℕ, ∃ s, makeAtoms c x r n (init c) = some s ∧ s.size = n ∧ s.next = 2 * n ∧ s.dGid = 1 ∧ n ≤ s.cap ∧
    (n = 0 → s.cap = 0) ∧ (0 < n → n ≤ 32 → s.cap = 32) ∧ (32 < n → s.cap ≤ n - 1 + max 32 (n / 10)) := by
  intro n
  induction n with
  | zero => exact ⟨init c, rfl, rfl, by simp [init], rfl, by simp, by simp [init], by omega, by omega⟩
  | succ n ih =>
    obtain ⟨s, h1, h2, h3, h4, h5, h6, h7, h8⟩ := ih
    have hg : s.size < growFull s.cap s.size := growFull_gt (by omega)
    refine ⟨_, by simp only [makeAtoms, h1, Option.bind_some, addFull]; rw [if_pos hg], by simp [h2], by simp [h3, h4]; ring, by simp [h4], ?_, by omega, ?_, ?_⟩
    · simp only; rw [h2] at hg ⊢; omega
    · intro _ hn
      simp only [growFull, h2]
      rcases Nat.eq_zero_or_pos n with rfl | hn0
      · rw [h6 rfl]; simp
      · rw [h7 hn0 (by omega)]
        rw [if_neg (by omega)]
    · intro hn
      simp only [growFull, h2]
      split
      · rename_i hlt
        have : s.cap = n := by omega
        rw [this]
        omega
      · rcases Nat.lt_or_ge 32 n with h | h
        · have := h8 h
          omega
        · rw [h7 (by omega) h]; omega

theorem energyLoop_some {R : Type} (s : Store R) (start : ℕ) : ∀ k : ℕ, (energyLoop s start k).isSome = true ↔ (k = 0 ∨ start + (k - 1) < s.cap) := by
  intro k
  induction k with
  | zero => simp [energyLoop]
  | succ k ih =>
    simp only [energyLoop]
    match hk : energyLoop s start k with
    | none =>
      rw [hk] at ih
      simp at ih
      simp
      omega
    | some l =>
      rw [hk] at ih
      simp only [Option.bind_some]
      split
      · simp; omega
      · simp; omega

/-- C95 is false: since `addParticle` advances the global id by two, while the loop over the atoms takes global ids for local indices, the creation of a polymer
as the first particles of a simulation reads outside the arrays exactly if the polymer has 17 atoms or more. -/
theorem C95_negation_ids {R : Type} (c : Cfg R) (x : ℕ → List ℚ) (r : R) (n : ℕ) (hn : 0 < n) :
    ∃ s, makeAtoms c x r n (init c) = some s ∧ (energyLoop s 0 ((2 * (n - 1)) + 1) = none ↔ 17 ≤ n) := by
  obtain ⟨s, h1, h2, h3, h4, h5, h6, h7, h8⟩ := makeAtoms_spec c x r n
  refine ⟨s, h1, ?_⟩
  rw [← Option.not_isSome_iff_eq_none, energyLoop_some]
  rcases Nat.lt_or_ge 32 n with h | h
  · have := h8 h
    omega
  · have := h7 hn h
    omega

/-- The id of the last atom of `n` is `2 (n - 1)`: so far does the loop of `C95_negation_ids` go. -/
example : (makeAtoms (R := ℕ) ⟨2, 0⟩ (fun _ => [0, 0]) 0 3 (init ⟨2, 0⟩)).map (fun s => ((s.mem 2).gid, s.size)) = some (4, 3) := by rfl

/-- The inverse mass of the balls: the default is computed before the radius is read. `old` is the radius before the block (0.05 at first), `new` the value of `R`, `vol`
the volume of a ball, `dens` the value of `DensityP`. `creators/polymercreator.cpp:40-43`, `:57-81`. -/
noncomputable def inverseMass (vol : ℝ → ℝ) (old new : ℝ) : Option ℝ → ℝ
  | none => 1 / (5 * vol old)
  | some dens => 1 / (dens * vol new)

/-- C95: a given density is that of the balls.
Missing: the default density, see `C95_negation_density`. -/
theorem C95_density_partial (vol : ℝ → ℝ) (old new dens : ℝ) (hv : 0 < vol new) (hd : 0 < dens) : 1 / inverseMass vol old new (some dens) / vol new = dens := by
  unfold inverseMass
  field_simp

/-- C95 is false for the default density: in two dimensions, balls of radius 0.1 get a quarter of the density five, since their mass is that of a ball of radius 0.05. -/
theorem C95_negation_density (pi : ℝ) (hp : 0 < pi) : 1 / inverseMass (fun r => pi * r ^ 2) 0.05 0.1 none / (pi * 0.1 ^ 2) = 5 / 4 := by
  unfold inverseMass
  field_simp
  norm_num

/-- The default radii meet the hypotheses of the theorems on the arrangement. -/
example : (0 : ℝ) < 0.01 ∧ (0.01 : ℝ) ≤ 0.05 ∧ (0 : ℝ) ≤ 5 ∧ (0.2 : ℝ) ≤ 1 := by norm_num

end Verif.Polymer
