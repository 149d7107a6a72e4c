import Mathlib.Analysis.InnerProductSpace.PiL2
import Mathlib.Tactic.Linarith
import Mathlib.Tactic.NormNum

/-!
# When neighbour lists are rebuilt (C29)

Models `InteractionHandler::pre_forces`, `construct` (its bookkeeping), `check_needs_remake`, `record_positions`,
`find_max_motion` (`base/interactionhandler.cpp:43-145,337-405`) on one processor. Positions are points of Euclidean
space of any dimension; `getDistanceSqrNoWrap` is the square of the distance.
-/

namespace Verif.Remake

variable {d : ℕ}

/-- Position vectors. -/
abbrev Pos (d : ℕ) := EuclideanSpace ℝ (Fin d)

/-- The part of the handler that decides about rebuilding. -/
structure Handler (d : ℕ) where
  /-- `last_update` -/
  lastUpdate : ℝ
  /-- `update_delay` -/
  updateDelay : ℝ
  /-- `max_update_delay` -/
  maxUpdateDelay : ℝ
  /-- `update_decision_type` -/
  decision : ℕ
  /-- `update_delay_steps` -/
  delaySteps : ℕ
  /-- `steps_since_last_remake` -/
  steps : ℕ
  /-- `last_remake_steps` -/
  lastRemakeSteps : ℕ
  /-- `requires_remake` -/
  required : Bool
  /-- `skin_depth` -/
  skin : ℝ
  /-- `motion_factor` -/
  motionFactor : ℝ
  /-- `mv_ratio_tolerance` -/
  tolerance : ℝ
  /-- `sample_size` -/
  sampleSize : ℕ
  /-- `positions`, in the order in which they are stored (from the last particle down) -/
  recorded : List (Pos d)

/-- What the handler reads from the rest of the program at one step. -/
structure Input (d : ℕ) where
  /-- `gflow->getElapsedTime()` -/
  time : ℝ
  /-- `gflow->getNumInteractions()>0` -/
  hasInteractions : Bool
  /-- `simData->getNeedsRemake()` -/
  simNeeds : Bool
  /-- positions of the owned particles by local id -/
  pos : List (Pos d)

/-- `record_positions`, `base/interactionhandler.cpp:365-379`. -/
def record (sampleSize : ℕ) (pos : List (Pos d)) : List (Pos d) :=
  pos.reverse.take (if 0 < sampleSize then min sampleSize pos.length else pos.length)

/-- The loop of `find_max_motion`, `base/interactionhandler.cpp:396-400`, over pairs (recorded, current). -/
noncomputable def maxDSqr (plausible : ℝ) : List (Pos d × Pos d) → ℝ → ℝ
  | [], m => m
  | (a, b) :: rest, m =>
    maxDSqr plausible rest (if dist a b ^ 2 < plausible ∧ dist a b ^ 2 > m then dist a b ^ 2 else m)

/-- `find_max_motion`, `base/interactionhandler.cpp:381-405`. -/
noncomputable def findMaxMotion (h : Handler d) (pos : List (Pos d)) : ℝ :=
  2 * Real.sqrt (maxDSqr ((10 * h.skin) ^ 2) (h.recorded.zip pos.reverse) 0)

/-- The result of `check_needs_remake`, `base/interactionhandler.cpp:337-363`. -/
noncomputable def checkNeedsRemake (h : Handler d) (i : Input d) : Prop :=
  i.time - h.lastUpdate > h.maxUpdateDelay ∨
  findMaxMotion h i.pos / h.skin > h.tolerance * h.motionFactor

open Classical in
/-- `update_delay` after `check_needs_remake`, `base/interactionhandler.cpp:351`. Without motion the quotient is infinite and
`min` gives `max_update_delay`. -/
noncomputable def nextDelay (h : Handler d) (i : Input d) : ℝ :=
  if findMaxMotion h i.pos / h.skin = 0 then h.maxUpdateDelay
  else min h.maxUpdateDelay
    (h.tolerance * h.motionFactor * (i.time - h.lastUpdate) / (findMaxMotion h i.pos / h.skin))

/-- The bookkeeping of `construct`, `base/interactionhandler.cpp:130-138`. -/
def construct (h : Handler d) (i : Input d) : Handler d :=
  { h with
    lastUpdate := i.time, steps := 0, required := false,
    recorded := if h.decision = 0 ∨ h.decision = 2 then record h.sampleSize i.pos else h.recorded }

open Classical in
/-- `pre_forces`, `base/interactionhandler.cpp:65-113`, on one processor and with forces in use; the second component
says whether the lists are rebuilt. -/
noncomputable def preForces (h : Handler d) (i : Input d) : Handler d × Bool :=
  let h := { h with steps := h.steps + 1 }
  if i.pos.length < 1 then (h, false)
  else
    let checked : Bool := !h.required && decide (i.time - h.lastUpdate > h.updateDelay) && i.hasInteractions
    let exceeded : Bool := h.required || (checked && decide (checkNeedsRemake h i))
    let h1 := if checked then { h with updateDelay := nextDelay h i } else h
    let doConstruct : Bool := i.simNeeds
      || (decide (h.decision = 0) && exceeded)
      || (decide (h.decision = 1) && decide (h.delaySteps ≤ h.steps))
      || (decide (h.decision = 2) && decide (h.delaySteps ≤ h.steps))
    let h2 := if exceeded && !h1.required then { h1 with lastRemakeSteps := h1.steps, required := true } else h1
    if doConstruct then
      let h3 := if h2.decision = 2 then
          let last := if !h2.required then h2.delaySteps + 1 else h2.lastRemakeSteps
          { h2 with lastRemakeSteps := last, delaySteps := last }
        else h2
      (construct h3 i, true)
    else (h2, false)

/-! ## The motion test -/

theorem maxDSqr_ge (p : ℝ) (l : List (Pos d × Pos d)) (m : ℝ) :
    m ≤ maxDSqr p l m ∧ ∀ q ∈ l, dist q.1 q.2 ^ 2 < p → dist q.1 q.2 ^ 2 ≤ maxDSqr p l m := by
  induction l generalizing m with
  | nil => exact ⟨le_rfl, by simp⟩
  | cons q l ih =>
    obtain ⟨a, b⟩ := q
    simp only [maxDSqr]
    obtain ⟨h1, h2⟩ := ih (if dist a b ^ 2 < p ∧ dist a b ^ 2 > m then dist a b ^ 2 else m)
    constructor
    · refine le_trans ?_ h1
      split_ifs with h
      · exact h.2.le
      · exact le_rfl
    · intro q hq hp
      rcases List.mem_cons.mp hq with rfl | hq
      · refine le_trans ?_ h1
        simp only at hp ⊢
        split_ifs with h
        · exact le_rfl
        · push Not at h; exact h hp
      · exact h2 q hq hp

/-- **C29 (partial).** Let the positions have been recorded for all particles (`sampleSize = 0`) at the last rebuild,
and let no particle have moved ten skin depths since then. If the check of the handler does not ask for a rebuild, then
every pair of particles that was not put in the lists (distance at least `R + skin` at the rebuild) is still at least
`R + skin - tolerance*motion_factor*skin` apart: with `tolerance*motion_factor ≤ 1` it is not interacting, and with the
default values (0.95*1.2) it overlaps its interaction range by at most `0.14*skin`.
Missing: that pairs never enter the range at all, which is false (`C29_negation_tolerance`, `C29_negation_delay`). -/
theorem C29_unlisted_pair_bound_partial (h : Handler d) (i : Input d) (pos0 : List (Pos d))
    (hrec : h.recorded = record h.sampleSize pos0) (hs : h.sampleSize = 0) (hlen : i.pos.length = pos0.length)
    (hskin : 0 < h.skin)
    (hpl : ∀ (k : ℕ) (h0 : k < pos0.length) (h1 : k < i.pos.length), dist pos0[k] i.pos[k] < 10 * h.skin)
    (hcheck : ¬ checkNeedsRemake h i)
    (k l : ℕ) (hk0 : k < pos0.length) (hl0 : l < pos0.length) (hk : k < i.pos.length) (hl : l < i.pos.length)
    (R : ℝ) (hR : R + h.skin ≤ dist pos0[k] pos0[l]) :
    R + h.skin - h.tolerance * h.motionFactor * h.skin ≤ dist i.pos[k] i.pos[l] := by
  unfold checkNeedsRemake at hcheck
  push Not at hcheck
  have hm : findMaxMotion h i.pos ≤ h.tolerance * h.motionFactor * h.skin := by
    have := hcheck.2
    rwa [div_le_iff₀ hskin] at this
  have hmove : ∀ (k : ℕ) (h0 : k < pos0.length) (h1 : k < i.pos.length),
      2 * dist pos0[k] i.pos[k] ≤ findMaxMotion h i.pos := by
    intro k h0 h1
    have hmem : (pos0[k], i.pos[k]) ∈ h.recorded.zip i.pos.reverse := by
      rw [hrec, record, hs, if_neg (by omega)]
      rw [show pos0.length = pos0.reverse.length by simp, List.take_length]
      rw [List.mem_iff_getElem]
      refine ⟨pos0.length - 1 - k, by simp; omega, ?_⟩
      rw [List.getElem_zip, List.getElem_reverse, List.getElem_reverse]
      congr 1
      · congr 1; omega
      · congr 1; omega
    have hp := hpl k h0 h1
    have hsq : dist pos0[k] i.pos[k] ^ 2 < (10 * h.skin) ^ 2 := pow_lt_pow_left₀ hp dist_nonneg (by norm_num)
    have := (maxDSqr_ge ((10 * h.skin) ^ 2) (h.recorded.zip i.pos.reverse) 0).2 _ hmem hsq
    unfold findMaxMotion
    have h2 : dist pos0[k] i.pos[k] ≤
        Real.sqrt (maxDSqr ((10 * h.skin) ^ 2) (h.recorded.zip i.pos.reverse) 0) :=
      Real.le_sqrt_of_sq_le this
    linarith
  have m1 := hmove k hk0 hk
  have m2 := hmove l hl0 hl
  have t1 := dist_triangle pos0[k] i.pos[k] pos0[l]
  have t2 := dist_triangle i.pos[k] i.pos[l] pos0[l]
  rw [dist_comm i.pos[l] pos0[l]] at t2
  linarith

/-- The bound with the default constants. -/
theorem C29_default_bound_partial (h : Handler d) (i : Input d) (pos0 : List (Pos d))
    (hrec : h.recorded = record h.sampleSize pos0) (hs : h.sampleSize = 0) (hlen : i.pos.length = pos0.length)
    (hskin : 0 < h.skin) (ht : h.tolerance = 95/100) (hf : h.motionFactor = 12/10)
    (hpl : ∀ (k : ℕ) (h0 : k < pos0.length) (h1 : k < i.pos.length), dist pos0[k] i.pos[k] < 10 * h.skin)
    (hcheck : ¬ checkNeedsRemake h i)
    (k l : ℕ) (hk0 : k < pos0.length) (hl0 : l < pos0.length) (hk : k < i.pos.length) (hl : l < i.pos.length)
    (R : ℝ) (hR : R + h.skin ≤ dist pos0[k] pos0[l]) :
    R - 14/100 * h.skin ≤ dist i.pos[k] i.pos[l] := by
  have := C29_unlisted_pair_bound_partial h i pos0 hrec hs hlen hskin hpl hcheck k l hk0 hl0 hk hl R hR
  rw [ht, hf] at this
  linarith

/-- A handler on the line (`d = 1`): default constants, skin 1, two particles recorded at 0 and 3. -/
noncomputable def h0 (decision delay : ℕ) : Handler 1 :=
  { lastUpdate := 0, updateDelay := 0, maxUpdateDelay := 1, decision := decision, delaySteps := delay, steps := 0,
    lastRemakeSteps := 1, required := false, skin := 1, motionFactor := 12/10, tolerance := 95/100, sampleSize := 0,
    recorded := record 0 [EuclideanSpace.single 0 0, EuclideanSpace.single 0 3] }

/-- The particles after each of them has moved by `δ` towards the other. -/
noncomputable def i0 (δ : ℝ) : Input 1 :=
  { time := 1/2, hasInteractions := true, simNeeds := false,
    pos := [EuclideanSpace.single 0 δ, EuclideanSpace.single 0 (3 - δ)] }

theorem dist1 (a b : ℝ) : dist (EuclideanSpace.single (0 : Fin 1) a) (EuclideanSpace.single 0 b) = |a - b| := by
  rw [EuclideanSpace.dist_eq]
  simp [Real.dist_eq, Real.sqrt_sq_eq_abs]

theorem motion0 (decision delay : ℕ) (δ : ℝ) (hδ : 0 ≤ δ) (hδ' : δ < 10) :
    findMaxMotion (h0 decision delay) (i0 δ).pos = 2 * δ := by
  have e1 : dist (EuclideanSpace.single (0 : Fin 1) (3 : ℝ)) (EuclideanSpace.single 0 (3 - δ)) = δ := by
    rw [dist1, show (3 : ℝ) - (3 - δ) = δ by ring, abs_of_nonneg hδ]
  have e2 : dist (EuclideanSpace.single (0 : Fin 1) (0 : ℝ)) (EuclideanSpace.single 0 δ) = δ := by
    rw [dist1, zero_sub, abs_neg, abs_of_nonneg hδ]
  have hz : (h0 decision delay).recorded.zip (i0 δ).pos.reverse =
      [(EuclideanSpace.single 0 3, EuclideanSpace.single 0 (3 - δ)),
       (EuclideanSpace.single 0 0, EuclideanSpace.single 0 δ)] := by
    simp [h0, i0, record]
  have hpl : δ ^ 2 < (10 * (1 : ℝ)) ^ 2 := by nlinarith
  have hm : maxDSqr ((10 * (h0 decision delay).skin) ^ 2) ((h0 decision delay).recorded.zip (i0 δ).pos.reverse) 0
      = δ ^ 2 := by
    rw [hz]
    simp only [maxDSqr, e1, e2, h0]
    rcases eq_or_lt_of_le hδ with h | h
    · subst h; simp
    · have : 0 < δ ^ 2 := by positivity
      have e3 : (if δ ^ 2 < (10 * (1:ℝ)) ^ 2 ∧ δ ^ 2 > 0 then δ ^ 2 else 0) = δ ^ 2 := if_pos ⟨hpl, this⟩
      rw [e3]
      simp
  rw [findMaxMotion, hm, Real.sqrt_sq hδ]

/-- The hypotheses of the partial theorem are met by a state in which particles have moved. -/
example : ¬ checkNeedsRemake (h0 0 1) (i0 (1/2)) ∧
    (h0 0 1).recorded = record (h0 0 1).sampleSize [EuclideanSpace.single 0 0, EuclideanSpace.single 0 3] := by
  refine ⟨?_, rfl⟩
  unfold checkNeedsRemake
  rw [motion0 _ _ _ (by norm_num) (by norm_num)]
  simp [h0, i0]
  norm_num

/-- **C29 is false of the code (threshold).** With the default constants and decision type 0: two particles of
interaction range 2 that were 3 apart (not closer than range plus skin, so not in the lists) have each moved by 0.55,
are now 1.9 apart, that is, in interaction range, and the lists are not rebuilt although the check is made. -/
theorem C29_negation_tolerance :
    dist (EuclideanSpace.single (0 : Fin 1) (0 : ℝ)) (EuclideanSpace.single 0 3) = 2 + (h0 0 1).skin ∧
    dist (i0 (55/100)).pos[0] (i0 (55/100)).pos[1] < 2 ∧
    (i0 (55/100)).time - (h0 0 1).lastUpdate > (h0 0 1).updateDelay ∧
    (preForces (h0 0 1) (i0 (55/100))).2 = false := by
  refine ⟨?_, ?_, ?_, ?_⟩
  · rw [dist1]; simp [h0]; norm_num
  · change dist (EuclideanSpace.single (0 : Fin 1) (55/100 : ℝ)) (EuclideanSpace.single 0 (3 - 55/100)) < 2
    rw [dist1]; norm_num
  · simp [h0, i0]
  · have hc : ¬ checkNeedsRemake { h0 0 1 with steps := 0 + 1 } (i0 (55/100)) := by
      have hm := motion0 0 1 (55/100) (by norm_num) (by norm_num)
      unfold checkNeedsRemake
      have : findMaxMotion { h0 0 1 with steps := 0 + 1 } (i0 (55/100)).pos = 2 * (55/100) := hm
      rw [this]
      simp [h0, i0]
      norm_num
    have hc' : checkNeedsRemake { h0 0 1 with steps := (h0 0 1).steps + 1 } (i0 (55/100)) = False := eq_false hc
    unfold preForces
    simp only [hc']
    simp [h0, i0]

/-- **C29 is false of the code (delay).** With decision type 2, which is the default, a rebuild is made after a number
of steps that was fixed at the previous rebuild: here particles have moved by four skin depths, the check is made and
asks for a rebuild, and none is made. -/
theorem C29_negation_delay :
    checkNeedsRemake { h0 2 15 with steps := 1 } (i0 4) ∧ (preForces (h0 2 15) (i0 4)).2 = false ∧
    (preForces (h0 2 15) (i0 4)).1.required = true := by
  have hc : checkNeedsRemake { h0 2 15 with steps := 1 } (i0 4) := by
    have hm := motion0 2 15 4 (by norm_num) (by norm_num)
    unfold checkNeedsRemake
    have : findMaxMotion { h0 2 15 with steps := 1 } (i0 4).pos = 2 * 4 := hm
    rw [this]
    right
    simp [h0]
    norm_num
  have hc' : checkNeedsRemake { h0 2 15 with steps := (h0 2 15).steps + 1 } (i0 4) = True := eq_true hc
  refine ⟨hc, ?_, ?_⟩ <;> unfold preForces <;> simp only [hc'] <;> simp [h0, i0]

/-! ## Which steps rebuild -/

/-- With decision type 0 a rebuild is made whenever the check asks for one, and the clock and the recorded positions
are those of the rebuild. -/
theorem C29_decision_zero (h : Handler d) (i : Input d) (hd : h.decision = 0) (hp : 1 ≤ i.pos.length)
    (hreq : h.required = false) (ht : i.time - h.lastUpdate > h.updateDelay) (hi : i.hasInteractions = true)
    (hc : checkNeedsRemake h i) :
    (preForces h i).2 = true ∧ (preForces h i).1.lastUpdate = i.time ∧
      (preForces h i).1.recorded = record h.sampleSize i.pos ∧ (preForces h i).1.steps = 0 ∧
      (preForces h i).1.required = false := by
  obtain ⟨lu, ud, mud, dec, ds, st, lrs, req, sk, mf, tol, ss, rec'⟩ := h
  simp only at hd hreq ht
  subst hd hreq
  have hc' : checkNeedsRemake
      { lastUpdate := lu, updateDelay := ud, maxUpdateDelay := mud, decision := 0, delaySteps := ds, steps := st + 1,
        lastRemakeSteps := lrs, required := false, skin := sk, motionFactor := mf, tolerance := tol, sampleSize := ss,
        recorded := rec' } i = True := eq_true hc
  unfold preForces
  simp only [hc', if_neg (show ¬ i.pos.length < 1 by omega), ht, hi]
  simp [construct]

open Classical in
/-- **C29, bounded age.** With decision type 1 or 2 lists are never older than `update_delay_steps` steps: along any
run of `pre_forces` on a non-empty system the step counter stays below `max(update_delay_steps, 1)`. -/
theorem C29_bounded_age (h : Handler d) (hd : h.decision = 1 ∨ h.decision = 2) (h0 : h.steps < max h.delaySteps 1)
    (is : List (Input d)) (hne : ∀ i ∈ is, 1 ≤ i.pos.length) :
    let h' := is.foldl (fun s i => (preForces s i).1) h
    h'.steps < max h'.delaySteps 1 := by
  induction is generalizing h with
  | nil => exact h0
  | cons i is ih =>
    simp only [List.foldl_cons]
    have hp := hne i (by simp)
    refine ih (preForces h i).1 ?_ ?_ (fun j hj => hne j (List.mem_cons_of_mem _ hj))
    · unfold preForces
      simp only [if_neg (show ¬ i.pos.length < 1 by omega)]
      split_ifs <;> simpa [construct] using hd
    · unfold preForces
      simp only [if_neg (show ¬ i.pos.length < 1 by omega)]
      by_cases hc : h.delaySteps ≤ h.steps + 1
      · have : (i.simNeeds || decide (h.decision = 0) && (h.required ||
              (!h.required && decide (i.time - h.lastUpdate > h.updateDelay) && i.hasInteractions &&
                decide (checkNeedsRemake { h with steps := h.steps + 1 } i))) ||
            decide (h.decision = 1) && decide (h.delaySteps ≤ h.steps + 1) ||
            decide (h.decision = 2) && decide (h.delaySteps ≤ h.steps + 1)) = true := by
          rcases hd with hd | hd <;> simp [hd, hc]
        rw [if_pos this]
        simp [construct]
      · split_ifs <;> simp [construct] <;> omega

/-- **C29, adaptation.** With decision type 2 the next delay is the number of steps after which the check first asked for
a rebuild in this cycle, or one more than the current delay when it never asked. -/
theorem C29_adaptation (h : Handler d) (i : Input d) (hd : h.decision = 2) (hr : (preForces h i).2 = true) :
    (preForces h i).1.delaySteps = h.delaySteps + 1 ∨
    (h.required = true ∧ (preForces h i).1.delaySteps = h.lastRemakeSteps) ∨
    (h.required = false ∧ checkNeedsRemake h i ∧ (preForces h i).1.delaySteps = h.steps + 1) := by
  have key : checkNeedsRemake { h with steps := h.steps + 1 } i = checkNeedsRemake h i := rfl
  unfold preForces at hr ⊢
  by_cases hp : i.pos.length < 1
  · simp only [if_pos hp] at hr; cases hr
  · simp only [if_neg hp, key] at hr ⊢
    by_cases hreq : h.required = true
    · simp only [hreq] at hr ⊢
      split_ifs at hr ⊢ <;> simp_all [construct]
    · have hreq' : h.required = false := by simpa using hreq
      simp only [hreq'] at hr ⊢
      split_ifs at hr ⊢ <;> simp_all [construct]

end Verif.Remake
