import Verif.Domain.CellsProps
import Mathlib.Data.Rat.Floor
import Mathlib.Tactic.NormNum
import Mathlib.Tactic.Linarith

/-!
# Pair traversal: which particles are small, and concrete systems (C28)

Models `InteractionHandler::calculate_max_small_sigma` (`base/interactionhandler.cpp:293-335`) and gives the concrete
systems that meet the hypotheses of the theorems of `CellsProps`, or refute the parts that are missing there.
-/

set_option linter.unusedSectionVars false

namespace Verif.Cells
open Verif.Grid Verif.Stencil

section sigma
variable {K : Type*} [Field K] [LinearOrder K]

/-- The loop that finds `sigma` and `max_sigma`, `base/interactionhandler.cpp:301-313`; the list is that of the radii
times maximal cutoffs of the live interacting particles. Returns (sum, maximum). -/
def sumMax : List K → K × K → K × K
  | [], p => p
  | s :: l, (t, m) => sumMax l (t + s, if s > m then s else m)

/-- The loop that finds `max_under`, `base/interactionhandler.cpp:321-329`. -/
def maxUnder (threshold : K) : List K → K → K
  | [], m => m
  | s :: l, m => maxUnder threshold l (if s < threshold ∧ m < s then s else m)

/-- `calculate_max_small_sigma`, `base/interactionhandler.cpp:293-335`, on one processor. `none` means that the value
is left as it was (no live interacting particle). -/
def maxSmallSigma (l : List K) : Option K :=
  if l.length = 0 then none
  else
    let (sum, mx) := sumMax l (0, 0)
    let avg := sum / (l.length : K)
    let threshold := 1/2 * (avg + mx)
    some (1025/1000 * (if threshold ≠ avg then maxUnder threshold l avg else avg))

variable [IsStrictOrderedRing K]

theorem maxUnder_ge (t : K) (l : List K) (m : K) :
    m ≤ maxUnder t l m ∧ (∀ s ∈ l, s < t → s ≤ maxUnder t l m) ∧ (maxUnder t l m = m ∨ maxUnder t l m < t) := by
  induction l generalizing m with
  | nil => simp [maxUnder]
  | cons s l ih =>
    obtain ⟨h1, h2, h3⟩ := ih (if s < t ∧ m < s then s else m)
    simp only [maxUnder]
    refine ⟨?_, ?_, ?_⟩
    · refine le_trans ?_ h1
      split_ifs with h
      · exact h.2.le
      · exact le_rfl
    · intro q hq hqt
      rcases List.mem_cons.mp hq with rfl | hq
      · refine le_trans ?_ h1
        split_ifs with h
        · exact le_rfl
        · push Not at h; exact h hqt
      · exact h2 q hq hqt
    · rcases h3 with h3 | h3
      · rw [h3]
        split_ifs with h
        · exact Or.inr h.1
        · exact Or.inl rfl
      · exact Or.inr h3

theorem sumMax_spec (l : List K) (t m : K) :
    (sumMax l (t, m)).1 = t + l.sum ∧ m ≤ (sumMax l (t, m)).2 ∧ (∀ s ∈ l, s ≤ (sumMax l (t, m)).2) ∧
    ((sumMax l (t, m)).2 = m ∨ (sumMax l (t, m)).2 ∈ l) := by
  induction l generalizing t m with
  | nil => simp [sumMax]
  | cons s l ih =>
    obtain ⟨h1, h2, h3, h4⟩ := ih (t + s) (if s > m then s else m)
    simp only [sumMax]
    refine ⟨?_, ?_, ?_, ?_⟩
    · rw [h1, List.sum_cons]; ring
    · refine le_trans ?_ h2
      split_ifs with h
      · exact h.le
      · exact le_rfl
    · intro q hq
      rcases List.mem_cons.mp hq with rfl | hq
      · refine le_trans ?_ h2
        split_ifs with h
        · exact le_rfl
        · push Not at h; exact h
      · exact h3 q hq
    · rcases h4 with h4 | h4
      · rw [h4]
        split_ifs with h
        · exact Or.inr (by simp)
        · exact Or.inl rfl
      · exact Or.inr (List.mem_cons_of_mem _ h4)

theorem sum_le_mul {l : List K} {m : K} (h : ∀ s ∈ l, s ≤ m) : l.sum ≤ (l.length : K) * m := by
  induction l with
  | nil => simp
  | cons s l ih =>
    have := ih (fun q hq => h q (List.mem_cons_of_mem _ hq))
    have := h s (by simp)
    rw [List.sum_cons, List.length_cons]
    push_cast
    linarith

theorem sum_eq_mul {l : List K} {m : K} (h : ∀ s ∈ l, s ≤ m) (he : (l.length : K) * m ≤ l.sum) : ∀ s ∈ l, s = m := by
  induction l with
  | nil => simp
  | cons s l ih =>
    have h1 := sum_le_mul (fun q hq => h q (List.mem_cons_of_mem _ hq) : ∀ q ∈ l, q ≤ m)
    have h2 := h s (by simp)
    rw [List.sum_cons, List.length_cons] at he
    push_cast at he
    intro q hq
    rcases List.mem_cons.mp hq with rfl | hq
    · apply le_antisymm h2; linarith
    · exact ih (fun q hq => h q (List.mem_cons_of_mem _ hq)) (by linarith) q hq

/-- **C28, choice of small particles.** For positive interaction radii: the threshold exists if there is a particle; it is
at least 1.025 times the average and at most 1.025 times the maximum radius; every particle below the middle of average
and maximum is small. So there is always a small particle, and if all radii are equal all particles are small. -/
theorem C28_small_threshold (l : List K) (hne : l ≠ []) (hpos : ∀ s ∈ l, 0 < s) :
    ∃ mss, maxSmallSigma l = some mss ∧ 1025/1000 * (l.sum / (l.length : K)) ≤ mss ∧
      (∃ s ∈ l, mss ≤ 1025/1000 * s) ∧ (∃ s ∈ l, s ≤ mss) ∧
      (∀ s ∈ l, ∀ m ∈ l, (∀ q ∈ l, q ≤ m) → s < 1/2 * (l.sum / (l.length : K) + m) → s ≤ mss) ∧
      ((∀ s ∈ l, ∀ q ∈ l, s = q) → ∀ s ∈ l, s ≤ mss) := by
  have hlen : l.length ≠ 0 := by simpa using hne
  have hlk : (0 : K) < l.length := by exact_mod_cast Nat.pos_of_ne_zero hlen
  obtain ⟨e1, e2, e3, e4⟩ := sumMax_spec l 0 0
  obtain ⟨s0, hs0⟩ := List.exists_mem_of_ne_nil l hne
  have hmax : (sumMax l (0, 0)).2 ∈ l := by
    rcases e4 with e4 | e4
    · exact absurd (e3 s0 hs0) (by rw [e4]; exact not_le.mpr (hpos s0 hs0))
    · exact e4
  set M := (sumMax l (0, 0)).2 with hM
  set avg := l.sum / (l.length : K) with havg
  have hMpos := hpos M hmax
  have havgM : avg ≤ M := by
    rw [havg, div_le_iff₀ hlk, mul_comm]; exact sum_le_mul e3
  have hle : ∃ s ∈ l, s ≤ avg := by
    by_contra hcon
    push Not at hcon
    have : (l.map (fun s => -s)).sum ≤ ((l.map (fun s => -s)).length : K) * (-avg) := by
      apply sum_le_mul
      intro s hs
      obtain ⟨q, hq, rfl⟩ := List.mem_map.mp hs
      exact neg_le_neg (hcon q hq).le
    have heq : ∀ s ∈ l.map (fun s => -s), s = -avg := by
      apply sum_eq_mul
      · intro s hs
        obtain ⟨q, hq, rfl⟩ := List.mem_map.mp hs
        exact neg_le_neg (hcon q hq).le
      · have : (l.map (fun s => -s)).sum = -l.sum := by
          simp [List.sum_neg]
        rw [this, List.length_map, havg]
        field_simp
        exact le_rfl
    have := heq (-s0) (List.mem_map.mpr ⟨s0, hs0, rfl⟩)
    have h2 := hcon s0 hs0
    have : s0 = avg := by linarith
    linarith
  have hval : maxSmallSigma l = some (1025/1000 *
      (if 1/2 * (avg + M) ≠ avg then maxUnder (1/2 * (avg + M)) l avg else avg)) := by
    unfold maxSmallSigma
    rw [if_neg hlen]
    simp only [e1, zero_add, ← hM, ← havg]
  obtain ⟨u1, u2, u3⟩ := maxUnder_ge (1/2 * (avg + M)) l avg
  have havgpos : 0 < avg := by
    obtain ⟨s, hs, hsa⟩ := hle
    exact lt_of_lt_of_le (hpos s hs) hsa
  have hv1 : avg ≤ (if 1/2 * (avg + M) ≠ avg then maxUnder (1/2 * (avg + M)) l avg else avg) := by
    split_ifs
    · exact u1
    · exact le_rfl
  have hv2 : (if 1/2 * (avg + M) ≠ avg then maxUnder (1/2 * (avg + M)) l avg else avg) ≤ M := by
    split_ifs
    · rcases u3 with u3 | u3
      · rw [u3]; exact havgM
      · linarith
    · exact havgM
  refine ⟨_, hval, ?_, ⟨M, hmax, ?_⟩, ?_, ?_, ?_⟩
  · exact mul_le_mul_of_nonneg_left hv1 (by norm_num)
  · exact mul_le_mul_of_nonneg_left hv2 (by norm_num)
  · obtain ⟨s, hs, hsa⟩ := hle
    exact ⟨s, hs, by linarith⟩
  · intro s hs m hm hmm hsm
    have hmM : m = M := le_antisymm (e3 m hm) (hmm M hmax)
    subst hmM
    have hs1 : s ≤ (if 1/2 * (avg + M) ≠ avg then maxUnder (1/2 * (avg + M)) l avg else avg) := by
      split_ifs with h
      · exact u2 s hs hsm
      · push Not at h; linarith
    linarith
  · intro hall s hs
    have : s = M := hall s hs M hmax
    have hsum : (l.length : K) * M ≤ l.sum := by
      have h3 : ∀ l' : List K, (∀ q ∈ l', q = M) → l'.sum = (l'.length : K) * M := by
        intro l'
        induction l' with
        | nil => simp
        | cons a l' ih =>
          intro h
          rw [List.sum_cons, List.length_cons, ih (fun q hq => h q (List.mem_cons_of_mem _ hq)), h a (by simp)]
          push_cast; ring
      rw [h3 l (fun q hq => hall q hq M hmax)]
    have : M ≤ avg := by rw [havg, le_div_iff₀ hlk, mul_comm]; exact hsum
    linarith

/-- A list with small and large radii that meets the hypotheses, and the threshold that is found. -/
example : maxSmallSigma ([1/10, 1/10, 1/10, 1/10, 1, 1] : List ℚ) = some (1025/1000 * (2/5)) ∧
    ∀ s ∈ ([1/10, 1/10, 1/10, 1/10, 1, 1] : List ℚ), 0 < s := by decide +kernel

end sigma

/-! ## Concrete systems -/

/-- A wrapping box `[0, 24/5)` with 8 cells; particle radii 1/10, cutoff `cut`, skin 1/20. -/
def line (cut : ℚ) (x : ℕ → ℚ) (num : ℕ) : Sys ℚ :=
  { g := [⟨0, 24/5, 8, 3/5, true⟩], number := num, x := fun i => [x i], rd := fun _ => 1/10, type := fun _ => 0,
    interacts := fun _ => true, cut := fun _ _ => cut, maxCut := fun _ => cut, mss := 1025/1000 * (1/10 * cut),
    skin := 1/20 }

theorem line_ok (cut : ℚ) (x : ℕ → ℚ) (num : ℕ) (h0 : 0 < cut) (h1 : cut ≤ 5/2)
    (hx : ∀ i, 0 ≤ x i ∧ x i < 24/5) : (line cut x num).OK := by
  have hcut : (line cut x num).cutoff = 2 * (1025/1000 * (1/10 * cut)) + 1/20 := rfl
  have hpos : 0 < (line cut x num).cutoff := by rw [hcut]; positivity
  refine ⟨?_, ?_, ?_, hpos, ?_, ?_, ?_, ?_, ?_, ?_, ?_⟩
  · intro a ha
    simp only [line, List.mem_singleton] at ha
    subst ha
    exact ⟨by norm_num, by norm_num, by norm_num, by norm_num⟩
  · intro a ha _
    simp only [line, List.mem_singleton] at ha
    subst ha
    have : sweepOf (line cut x num).cutoff (3/5) ≤ 1 := by
      unfold sweepOf
      have : ⌈(line cut x num).cutoff / (3/5)⌉ ≤ 1 := by
        rw [Int.ceil_le, hcut]; norm_num; linarith
      omega
    simp only
    omega
  · exact C27_complete_one_dimension hpos _ (by norm_num [line, DAx.gax])
  · norm_num [line]
  · intro i _
    exact ⟨fun _ => hx i, trivial⟩
  · intro i _; norm_num [line]
  · intro i _; simp only [line]; linarith
  · intro i j _ _; exact h0.le
  · intro i j _ _; rfl
  · intro i j _ _; exact le_rfl

/-- A system with three particles, one pair across the wrapping boundary and one in a cell, meets the hypotheses of
`C28_no_pair_twice_partial` and `C28_no_pair_missed_partial`. -/
example : (line 1 (fun i => if i = 0 then 1/100 else if i = 1 then 11/100 else 475/100) 3).OK ∧
    imageSq (line 1 (fun i => if i = 0 then 1/100 else if i = 1 then 11/100 else 475/100) 3).g [1]
      [1/100] [475/100] < (1/4 : ℚ) ^ 2 ∧
    (line 1 (fun i => if i = 0 then 1/100 else if i = 1 then 11/100 else 475/100) 3).traverse =
      [⟨0, 1, 0⟩, ⟨0, 2, 1⟩, ⟨1, 2, 1⟩] := by
  refine ⟨line_ok _ _ _ (by norm_num) (by norm_num) (fun i => ?_), by decide +kernel, by decide +kernel⟩
  split_ifs <;> norm_num

/-- **C28 is false of the code (pairs in one cell).** Two particles in one cell at distance 0.45, whose interaction
range with skin is 0.55 (cutoff 5/2, as for the Lennard-Jones force), are not visited: the in-cell test multiplies only
one of the radii by the cutoff. All other hypotheses of `C28_no_pair_missed_partial` hold. -/
theorem C28_negation_same_cell :
    ∃ S : Sys ℚ, S.OK ∧ S.Live 0 ∧ S.Live 1 ∧ distSq (S.x 0) (S.x 1) < (S.range 0 1 - S.skin) ^ 2 ∧
      S.traverse.countP (IsPair 0 1) = 0 := by
  refine ⟨line (5/2) (fun i => if i = 0 then 1/100 else 46/100) 2,
    line_ok _ _ _ (by norm_num) (by norm_num) (fun i => by split_ifs <;> norm_num), ?_, ?_, by decide +kernel,
    by decide +kernel⟩
  · exact ⟨by decide, by decide, rfl⟩
  · exact ⟨by decide, by decide, rfl⟩

/-- A system with four small and two large particles. -/
def mixed : Sys ℚ :=
  { g := [⟨0, 20, 20, 1, true⟩], number := 6,
    x := fun i => [if i = 0 then 1 else if i = 1 then 3 else if i = 2 then 5 else if i = 3 then 7
                   else if i = 4 then 10 else 23/2],
    rd := fun i => if i < 4 then 1/10 else 1, type := fun _ => 0, interacts := fun _ => true, cut := fun _ _ => 1,
    maxCut := fun _ => 1, mss := 41/100, skin := 18/100 }

/-- **C28 is false of the code (large particles).** With the threshold that `calculate_max_small_sigma` finds, two
large particles of equal size in contact are visited twice, so that their force is applied twice. -/
theorem C28_negation_large :
    maxSmallSigma ((List.range 6).map fun i => mixed.rd i * mixed.maxCut (mixed.type i)) = some mixed.mss ∧
    mixed.Live 4 ∧ mixed.Live 5 ∧ mixed.traverse.countP (IsPair 4 5) = 2 := by
  refine ⟨by decide +kernel, ⟨by decide, by decide, rfl⟩, ⟨by decide, by decide, rfl⟩, by decide +kernel⟩

end Verif.Cells
