import Mathlib.Analysis.SpecialFunctions.Pow.Real
import Mathlib.Analysis.Real.Sqrt
import Mathlib.Algebra.BigOperators.Fin

/-!
# The adaptive time step (C40, C73)

Models `base/integrator.cpp` and the time step of `integrators/overdamped-integrator.tpp`. Numbers have exact finite values,
with the infinities and not-a-number of IEEE arithmetic (`Fl`). Single processor (no `mpi_min`).
-/

namespace Verif.StepSize
open Finset

/-- Floating point values, exact when finite. -/
inductive Fl where
  | nan
  | ninf
  | fin (r : ℝ)
  | inf

namespace Fl

/-- Quotient of a value and a finite value; zero counts as positive zero. -/
noncomputable def div : Fl → ℝ → Fl
  | nan, _ => nan
  | fin a, b => open Classical in
    if b = 0 then (if 0 < a then inf else if a < 0 then ninf else nan) else fin (a / b)
  | inf, b => open Classical in if b < 0 then ninf else inf
  | ninf, b => open Classical in if b < 0 then inf else ninf

/-- Product of a positive finite value and a value. -/
def scale (c : ℝ) : Fl → Fl
  | fin a => fin (c * a)
  | x => x

/-- Sum. -/
def add : Fl → Fl → Fl
  | nan, _ => nan
  | _, nan => nan
  | fin a, fin b => fin (a + b)
  | fin _, x => x
  | x, fin _ => x
  | inf, inf => inf
  | ninf, ninf => ninf
  | inf, ninf => nan
  | ninf, inf => nan

/-- `a < b`; false if one of them is not a number. -/
def lt : Fl → Fl → Prop
  | nan, _ => False
  | _, nan => False
  | fin a, fin b => a < b
  | ninf, ninf => False
  | ninf, _ => True
  | _, ninf => False
  | inf, _ => False
  | fin _, inf => True

/-- `std::min(a, b)`: `b` if `b < a`, else `a`. -/
noncomputable def min (a b : Fl) : Fl := open Classical in if lt b a then b else a

/-- `sqrt`. -/
noncomputable def sqrt : Fl → Fl
  | nan => nan
  | ninf => nan
  | fin a => open Classical in if a < 0 then nan else fin (Real.sqrt a)
  | inf => inf

end Fl

/-- Members of `Integrator`, `base/integrator.hpp:65-93`. -/
structure St where
  dt : Fl
  adjust : Bool
  minDt : ℝ
  maxDt : ℝ
  target : ℤ
  delay : ℤ
  count : ℤ
  useV : Bool
  useA : Bool
  len : Fl

/-- Initial values, `base/integrator.hpp:67-93`. -/
noncomputable def St.init : St := ⟨.fin (1/10000), true, 1/1000000, 2/1000, 20, 10, 0, true, false, .fin (5/100)⟩

/-- `Integrator::pre_integrate`, `base/integrator.cpp:13-28`; `sgs` are the radii of the live particles, `number` the value of
`number()`. -/
noncomputable def St.preIntegrate (s : St) (sgs : List ℝ) (number : ℕ) : St :=
  { s with count := s.delay, len := Fl.div (.fin sgs.sum) number, dt := if s.adjust then .fin s.minDt else s.dt }

open Classical in
/-- The limits, `base/integrator.cpp:59-60` (also `integrators/overdamped-integrator.tpp:86-87`). -/
noncomputable def clamp (lo hi : ℝ) (x : Fl) : Fl :=
  if Fl.lt (.fin hi) x then .fin hi else if Fl.lt x (.fin lo) then .fin lo else x

open Classical in
/-- New time step from the candidate, `base/integrator.cpp:57-60`. -/
noncomputable def newDt (lo hi : ℝ) (dt c : Fl) : Fl :=
  clamp lo hi (if Fl.lt c dt then c else Fl.add (Fl.scale (9/10) dt) (Fl.scale (1/10) c))

/-- Candidate from the velocities, `base/integrator.cpp:44-47`. -/
noncomputable def dtV (s : St) (maxV : ℝ) : Fl := if s.useV then Fl.div s.len (maxV * s.target) else .fin 1

/-- Candidate from the accelerations, `base/integrator.cpp:48-51`. -/
noncomputable def dtA (s : St) (maxA : ℝ) : Fl :=
  if s.useA then Fl.div (Fl.scale 10 (Fl.sqrt s.len)) (maxA * s.target) else .fin 1

open Classical in
/-- `Integrator::pre_step`, `base/integrator.cpp:30-64`; `maxV` and `maxA` are the values of `get_max_velocity` and
`get_max_acceleration` (finite: otherwise the call throws or the particles are already lost). -/
noncomputable def St.preStep (s : St) (primary : Bool) (maxV maxA : ℝ) : St :=
  if s.adjust = false ∨ primary = false then s
  else if s.count < s.delay then { s with count := s.count + 1 }
  else
    if (if s.useV then maxV else -1) = 0 ∧ (if s.useA then maxA else -1) = 0 then { s with count := 0 }
    else { s with count := 0, dt := newDt s.minDt s.maxDt s.dt (Fl.min (dtV s maxV) (dtA s maxA)) }

/-- Calls of a user or of the run loop, `base/integrator.cpp:13-100`. -/
inductive Op where
  | preIntegrate (sgs : List ℝ)
  | preStep (primary : Bool) (maxV maxA : ℝ)
  | setDT (t : ℝ)
  | setUseV (u : Bool)
  | setUseA (u : Bool)
  | setAdjust (b : Bool)
  | setTarget (k : ℤ)
  | setDelay (k : ℤ)
  | setMax (t : ℝ)
  | setMin (t : ℝ)

open Classical in
/-- Effect of a call, `base/integrator.cpp:13-100`; the setters are at lines 70-100. -/
noncomputable def St.step (s : St) : Op → St
  | .preIntegrate sgs => s.preIntegrate sgs sgs.length
  | .preStep p v a => s.preStep p v a
  | .setDT t => { s with dt := .fin t }
  | .setUseV u => { s with useV := u }
  | .setUseA u => { s with useA := u }
  | .setAdjust b => { s with adjust := b }
  | .setTarget k => { s with target := max 1 k }
  | .setDelay k => { s with delay := max 0 k }
  | .setMax t => if 0 < t then { s with maxDt := t } else s
  | .setMin t => if 0 < t then { s with minDt := t } else s

/-- State after a history (oldest call first). -/
noncomputable def run (h : List Op) : St := h.foldl St.step St.init

/-- Spec: calls that make sense: a run starts with particles of positive radius, the maximal velocity and acceleration are
those of particles (an acceleration of -1 stands for "no movable particle"), and `setDT` gets a positive time. -/
def Op.Sane : Op → Prop
  | .preIntegrate sgs => sgs ≠ [] ∧ ∀ r ∈ sgs, 0 < r
  | .preStep _ v a => 0 ≤ v ∧ (0 ≤ a ∨ a = -1)
  | .setDT t => 0 < t
  | _ => True

/-! ## Lemmas -/

theorem clamp_spec (lo hi : ℝ) (h : lo ≤ hi) (x : Fl) (hx : x ≠ .nan) : ∃ r, clamp lo hi x = .fin r ∧ lo ≤ r ∧ r ≤ hi := by
  unfold clamp
  cases x with
  | nan => exact absurd rfl hx
  | ninf =>
    refine ⟨lo, ?_, le_rfl, h⟩
    rw [if_neg (by simp [Fl.lt]), if_pos (by simp [Fl.lt])]
  | inf =>
    refine ⟨hi, ?_, h, le_rfl⟩
    rw [if_pos (by simp [Fl.lt])]
  | fin a =>
    by_cases h1 : hi < a
    · exact ⟨hi, if_pos (by simpa [Fl.lt] using h1), h, le_rfl⟩
    · by_cases h2 : a < lo
      · refine ⟨lo, ?_, le_rfl, h⟩
        rw [if_neg (by simpa [Fl.lt] using h1), if_pos (by simpa [Fl.lt] using h2)]
      · refine ⟨a, ?_, not_lt.mp h2, not_lt.mp h1⟩
        rw [if_neg (by simpa [Fl.lt] using h1), if_neg (by simpa [Fl.lt] using h2)]

theorem clamp_pos (lo hi : ℝ) (h1 : 0 < lo) (h2 : 0 < hi) (x : Fl) (hx : x ≠ .nan) : ∃ r, clamp lo hi x = .fin r ∧ 0 < r := by
  unfold clamp
  cases x with
  | nan => exact absurd rfl hx
  | ninf =>
    refine ⟨lo, ?_, h1⟩
    rw [if_neg (by simp [Fl.lt]), if_pos (by simp [Fl.lt])]
  | inf => exact ⟨hi, by rw [if_pos (by simp [Fl.lt])], h2⟩
  | fin a =>
    by_cases g1 : hi < a
    · exact ⟨hi, if_pos (by simpa [Fl.lt] using g1), h2⟩
    · by_cases g2 : a < lo
      · refine ⟨lo, ?_, h1⟩
        rw [if_neg (by simpa [Fl.lt] using g1), if_pos (by simpa [Fl.lt] using g2)]
      · refine ⟨a, ?_, lt_of_lt_of_le h1 (not_lt.mp g2)⟩
        rw [if_neg (by simpa [Fl.lt] using g1), if_neg (by simpa [Fl.lt] using g2)]

open Classical in
/-- The value before the limits are applied, for a finite old time step and a candidate that is a number. -/
noncomputable def raw (dt c : Fl) : Fl := if Fl.lt c dt then c else Fl.add (Fl.scale (9/10) dt) (Fl.scale (1/10) c)

theorem raw_not_nan (d : ℝ) (c : Fl) (hc : c ≠ .nan) : raw (.fin d) c ≠ .nan := by
  unfold raw
  split_ifs with h
  · exact hc
  · cases c <;> simp_all [Fl.add, Fl.scale]

theorem min_not_nan (a b : Fl) (ha : a ≠ .nan) (hb : b ≠ .nan) : Fl.min a b ≠ .nan := by
  unfold Fl.min; split_ifs <;> assumption

theorem div_not_nan (a b : ℝ) (ha : 0 < a) : Fl.div (.fin a) b ≠ .nan := by
  unfold Fl.div
  by_cases hb : b = 0
  · simp [hb, ha]
  · simp [hb]

theorem cand_not_nan (s : St) (l : ℝ) (hl : s.len = .fin l) (h0 : 0 < l) (maxV maxA : ℝ) :
    Fl.min (dtV s maxV) (dtA s maxA) ≠ .nan := by
  apply min_not_nan
  · unfold dtV
    split_ifs
    · rw [hl]; exact div_not_nan _ _ h0
    · simp
  · unfold dtA
    split_ifs
    · rw [hl]
      simp only [Fl.sqrt, if_neg (not_lt.mpr h0.le), Fl.scale]
      exact div_not_nan _ _ (by positivity)
    · simp

theorem preStep_cases (s : St) (p : Bool) (v a : ℝ) :
    (s.preStep p v a = s) ∨ (s.preStep p v a = { s with count := s.count + 1 }) ∨ (s.preStep p v a = { s with count := 0 }) ∨
    (s.preStep p v a = { s with count := 0, dt := newDt s.minDt s.maxDt s.dt (Fl.min (dtV s v) (dtA s a)) }) := by
  unfold St.preStep
  by_cases h1 : s.adjust = false ∨ p = false
  · left; rw [if_pos h1]
  · rw [if_neg h1]
    by_cases h2 : s.count < s.delay
    · right; left; rw [if_pos h2]
    · rw [if_neg h2]
      right; right
      by_cases h3 : (if s.useV then v else -1) = 0 ∧ (if s.useA then a else -1) = 0
      · left; rw [if_pos h3]
      · right; rw [if_neg h3]

/-! ## C40 -/

/-- **C40, bounds.** In every state with `min_dt ≤ max_dt`, a finite time step and a positive characteristic length, a
`pre_step` of the primary integrator that comes to adjusting the time step leaves it in `[min_dt, max_dt]`, whatever the
velocities and accelerations are (all at rest or no movable particle included).
Missing: a characteristic length of zero, see `C40_negation_nan`. -/
theorem C40_adjusted_partial (s : St) (hb : s.minDt ≤ s.maxDt) (d l : ℝ) (hd : s.dt = .fin d) (hl : s.len = .fin l)
    (h0 : 0 < l) (maxV maxA : ℝ) (ha : s.adjust = true) (hc : s.delay ≤ s.count)
    (hi : ¬ ((if s.useV then maxV else -1) = 0 ∧ (if s.useA then maxA else -1) = 0)) :
    ∃ r, (s.preStep true maxV maxA).dt = .fin r ∧ s.minDt ≤ r ∧ r ≤ s.maxDt := by
  unfold St.preStep
  rw [if_neg (by simp [ha]), if_neg (not_lt.mpr hc), if_neg hi]
  show ∃ r, clamp s.minDt s.maxDt (raw s.dt _) = _ ∧ _
  apply clamp_spec _ _ hb
  rw [hd]
  exact raw_not_nan _ _ (cand_not_nan s l hl h0 maxV maxA)

/-- **C40, no adjustment.** When adjustment is off, the integrator is not the primary one, the delay has not passed, or
there is no information (all at rest), `pre_step` leaves the time step as it is. -/
theorem C40_unchanged (s : St) (primary : Bool) (maxV maxA : ℝ)
    (h : s.adjust = false ∨ primary = false ∨ s.count < s.delay ∨
      (if s.useV then maxV else -1) = 0 ∧ (if s.useA then maxA else -1) = 0) :
    (s.preStep primary maxV maxA).dt = s.dt ∧ (s.preStep primary maxV maxA).minDt = s.minDt ∧
      (s.preStep primary maxV maxA).maxDt = s.maxDt := by
  unfold St.preStep
  by_cases h1 : s.adjust = false ∨ primary = false
  · rw [if_pos h1]; exact ⟨rfl, rfl, rfl⟩
  · rw [if_neg h1]
    by_cases h2 : s.count < s.delay
    · rw [if_pos h2]; exact ⟨rfl, rfl, rfl⟩
    · rw [if_neg h2]
      have h3 : (if s.useV then maxV else -1) = 0 ∧ (if s.useA then maxA else -1) = 0 := by tauto
      rw [if_pos h3]; exact ⟨rfl, rfl, rfl⟩

/-- **C40, number of steps between adjustments.** From the state after an adjustment, the next `delay` calls leave the time
step alone; the call after these adjusts. -/
theorem C40_delay (s : St) (ha : s.adjust = true) (hc : s.count = 0) (vs : List (ℝ × ℝ)) (hn : (vs.length : ℤ) ≤ s.delay) :
    let t := vs.foldl (fun s v => s.preStep true v.1 v.2) s
    t.dt = s.dt ∧ t.count = vs.length ∧ t.delay = s.delay ∧ t.adjust = true := by
  have gen : ∀ (vs : List (ℝ × ℝ)) (s : St), s.adjust = true → s.count + vs.length ≤ s.delay →
      (vs.foldl (fun s v => s.preStep true v.1 v.2) s).dt = s.dt ∧
      (vs.foldl (fun s v => s.preStep true v.1 v.2) s).count = s.count + vs.length ∧
      (vs.foldl (fun s v => s.preStep true v.1 v.2) s).delay = s.delay ∧
      (vs.foldl (fun s v => s.preStep true v.1 v.2) s).adjust = true := by
    intro vs
    induction vs with
    | nil => intro s h _; exact ⟨rfl, by simp, rfl, h⟩
    | cons v vs ih =>
      intro s h hl
      simp only [List.length_cons, Nat.cast_add, Nat.cast_one] at hl
      have e : s.preStep true v.1 v.2 = { s with count := s.count + 1 } := by
        unfold St.preStep
        rw [if_neg (by simp [h]), if_pos (by omega)]
      rw [List.foldl_cons, e]
      obtain ⟨a, b, c, d⟩ := ih { s with count := s.count + 1 } h (by simp only; omega)
      refine ⟨a, ?_, c, d⟩
      rw [b]; simp only [List.length_cons, Nat.cast_add, Nat.cast_one]; ring
  obtain ⟨a, b, c, d⟩ := gen vs s ha (by omega)
  exact ⟨a, by rw [b, hc]; ring, c, d⟩

/-- Invariant of all histories of sane calls. -/
def Good (s : St) : Prop :=
  (∃ r, s.dt = .fin r ∧ 0 < r) ∧ (∃ l, s.len = .fin l ∧ 0 < l) ∧ 0 < s.minDt ∧ 0 < s.maxDt ∧ 1 ≤ s.target ∧ 0 ≤ s.delay

theorem good_init : Good St.init := by
  refine ⟨⟨_, rfl, by norm_num⟩, ⟨_, rfl, by norm_num⟩, ?_, ?_, ?_, ?_⟩ <;> norm_num [St.init]

theorem sum_pos_of (l : List ℝ) (hne : l ≠ []) (h : ∀ r ∈ l, 0 < r) : 0 < l.sum := by
  induction l with
  | nil => exact absurd rfl hne
  | cons a l ih =>
    rw [List.sum_cons]
    have := h a (by simp)
    by_cases hl : l = []
    · subst hl; simpa using this
    · have := ih hl (fun r hr => h r (List.mem_cons_of_mem _ hr)); linarith

theorem good_step (s : St) (o : Op) (h : Good s) (ho : o.Sane) : Good (s.step o) := by
  obtain ⟨⟨r, hr, hr0⟩, ⟨l, hl, hl0⟩, h1, h2, h3, h4⟩ := h
  cases o with
  | preIntegrate sgs =>
    obtain ⟨hne, hp⟩ := ho
    have hs := sum_pos_of sgs hne hp
    have hn : (0 : ℝ) < sgs.length := by exact_mod_cast List.length_pos_of_ne_nil hne
    refine ⟨?_, ⟨sgs.sum / sgs.length, ?_, div_pos hs hn⟩, h1, h2, h3, h4⟩
    · simp only [St.step, St.preIntegrate]
      split_ifs
      · exact ⟨_, rfl, h1⟩
      · exact ⟨r, hr, hr0⟩
    · simp only [St.step, St.preIntegrate, Fl.div]
      rw [if_neg hn.ne']
  | preStep p v a =>
    simp only [St.step]
    rcases preStep_cases s p v a with e | e | e | e <;> rw [e]
    · exact ⟨⟨r, hr, hr0⟩, ⟨l, hl, hl0⟩, h1, h2, h3, h4⟩
    · exact ⟨⟨r, hr, hr0⟩, ⟨l, hl, hl0⟩, h1, h2, h3, h4⟩
    · exact ⟨⟨r, hr, hr0⟩, ⟨l, hl, hl0⟩, h1, h2, h3, h4⟩
    · refine ⟨?_, ⟨l, hl, hl0⟩, h1, h2, h3, h4⟩
      show ∃ r, clamp s.minDt s.maxDt (raw s.dt _) = _ ∧ _
      apply clamp_pos _ _ h1 h2
      rw [hr]
      exact raw_not_nan _ _ (cand_not_nan s l hl hl0 v a)
  | setDT t => exact ⟨⟨t, rfl, ho⟩, ⟨l, hl, hl0⟩, h1, h2, h3, h4⟩
  | setUseV u => exact ⟨⟨r, hr, hr0⟩, ⟨l, hl, hl0⟩, h1, h2, h3, h4⟩
  | setUseA u => exact ⟨⟨r, hr, hr0⟩, ⟨l, hl, hl0⟩, h1, h2, h3, h4⟩
  | setAdjust b => exact ⟨⟨r, hr, hr0⟩, ⟨l, hl, hl0⟩, h1, h2, h3, h4⟩
  | setTarget k => exact ⟨⟨r, hr, hr0⟩, ⟨l, hl, hl0⟩, h1, h2, le_max_left _ _, h4⟩
  | setDelay k => exact ⟨⟨r, hr, hr0⟩, ⟨l, hl, hl0⟩, h1, h2, h3, le_max_left _ _⟩
  | setMax t =>
    simp only [St.step]
    split_ifs with h
    · exact ⟨⟨r, hr, hr0⟩, ⟨l, hl, hl0⟩, h1, h, h3, h4⟩
    · exact ⟨⟨r, hr, hr0⟩, ⟨l, hl, hl0⟩, h1, h2, h3, h4⟩
  | setMin t =>
    simp only [St.step]
    split_ifs with h
    · exact ⟨⟨r, hr, hr0⟩, ⟨l, hl, hl0⟩, h, h2, h3, h4⟩
    · exact ⟨⟨r, hr, hr0⟩, ⟨l, hl, hl0⟩, h1, h2, h3, h4⟩

theorem good_run (h : List Op) (hs : ∀ o ∈ h, o.Sane) : Good (run h) := by
  unfold run
  have : ∀ (h : List Op) (s : St), Good s → (∀ o ∈ h, o.Sane) → Good (h.foldl St.step s) := by
    intro h
    induction h with
    | nil => intro s g _; exact g
    | cons o h ih => intro s g hs; exact ih _ (good_step s o g (hs o (by simp))) (fun p hp => hs p (List.mem_cons_of_mem _ hp))
  exact this h _ good_init hs

/-- **C40, positivity.** After every history of sane calls the time step is a positive finite number, and so are the
limits. -/
theorem C40_positive (h : List Op) (hs : ∀ o ∈ h, o.Sane) :
    ∃ r, (run h).dt = .fin r ∧ 0 < r ∧ 0 < (run h).minDt ∧ 0 < (run h).maxDt := by
  obtain ⟨⟨r, h1, h2⟩, _, h3, h4, _⟩ := good_run h hs
  exact ⟨r, h1, h2, h3, h4⟩

/-- **C40, histories.** After every history of sane calls that leaves `min_dt ≤ max_dt` and adjustment on, the start of a run
and any number of steps keep the time step in `[min_dt, max_dt]` all along. -/
theorem C40_run_in_bounds (h : List Op) (hs : ∀ o ∈ h, o.Sane) (hb : (run h).minDt ≤ (run h).maxDt)
    (ha : (run h).adjust = true) (sgs : List ℝ) (hg : (Op.preIntegrate sgs).Sane) (steps : List (Bool × ℝ × ℝ))
    (hst : ∀ p ∈ steps, (Op.preStep p.1 p.2.1 p.2.2).Sane) :
    ∃ r, (run (h ++ .preIntegrate sgs :: steps.map fun p => .preStep p.1 p.2.1 p.2.2)).dt = .fin r ∧
      (run h).minDt ≤ r ∧ r ≤ (run h).maxDt := by
  have g := good_run h hs
  unfold run at *
  rw [List.foldl_append, List.foldl_cons]
  set s0 := h.foldl St.step St.init with hs0
  have g1 := good_step s0 (.preIntegrate sgs) g hg
  have key : ∀ (steps : List (Bool × ℝ × ℝ)) (s : St), Good s → s.minDt = s0.minDt → s.maxDt = s0.maxDt → s.adjust = true →
      (∀ p ∈ steps, (Op.preStep p.1 p.2.1 p.2.2).Sane) → (∃ r, s.dt = .fin r ∧ s0.minDt ≤ r ∧ r ≤ s0.maxDt) →
      ∃ r, ((steps.map fun p => Op.preStep p.1 p.2.1 p.2.2).foldl St.step s).dt = .fin r ∧ s0.minDt ≤ r ∧ r ≤ s0.maxDt := by
    intro steps
    induction steps with
    | nil => intro s _ _ _ _ _ hr; exact hr
    | cons p steps ih =>
      intro s g hm hM had hst hr
      rw [List.map_cons, List.foldl_cons]
      have g' := good_step s (.preStep p.1 p.2.1 p.2.2) g (hst p (by simp))
      refine ih _ g' ?_ ?_ ?_ (fun q hq => hst q (List.mem_cons_of_mem _ hq)) ?_
      · simp only [St.step]; rcases preStep_cases s p.1 p.2.1 p.2.2 with e | e | e | e <;> rw [e] <;> exact hm
      · simp only [St.step]; rcases preStep_cases s p.1 p.2.1 p.2.2 with e | e | e | e <;> rw [e] <;> exact hM
      · simp only [St.step]; rcases preStep_cases s p.1 p.2.1 p.2.2 with e | e | e | e <;> rw [e] <;> exact had
      · simp only [St.step]
        rcases preStep_cases s p.1 p.2.1 p.2.2 with e | e | e | e <;> rw [e]
        · exact hr
        · exact hr
        · exact hr
        · obtain ⟨⟨d, hd, _⟩, ⟨l, hl, hl0⟩, _⟩ := g
          rw [← hm, ← hM]
          show ∃ r, clamp s.minDt s.maxDt (raw s.dt _) = _ ∧ _
          apply clamp_spec _ _ (by rw [hm, hM]; exact hb)
          rw [hd]
          exact raw_not_nan _ _ (cand_not_nan s l hl hl0 _ _)
  refine key steps _ g1 rfl rfl ha hst ?_
  refine ⟨s0.minDt, ?_, le_rfl, hb⟩
  simp only [St.step, St.preIntegrate, ha, if_true]

/-- The hypotheses of `C40_run_in_bounds` are met by the initial state. -/
example : (run []).minDt ≤ (run []).maxDt ∧ (run []).adjust = true ∧ (Op.preIntegrate [1, 2]).Sane ∧
    (Op.preStep true 3 (-1)).Sane := by
  refine ⟨by norm_num [run, St.init], rfl, ⟨by simp, ?_⟩, by norm_num [Op.Sane]⟩
  intro r hr
  rcases List.mem_cons.mp hr with rfl | hr
  · norm_num
  · rw [List.mem_singleton.mp hr]; norm_num

/-- **C40 is false of particles of radius zero at rest.** When all radii are zero and no particle moves, the first step of
the run makes the time step not-a-number, and the limits do not repair it. -/
theorem C40_negation_nan (n : ℕ) (hn : 0 < n) :
    (run [.preIntegrate (List.replicate n 0), .preStep true 0 (-1)]).dt = .nan := by
  have h1 : (St.init.step (.preIntegrate (List.replicate n 0))).len = .fin 0 := by
    have : ((List.replicate n (0:ℝ)).length : ℝ) ≠ 0 := by simp; omega
    simp only [St.step, St.preIntegrate, Fl.div]
    rw [if_neg this]; simp
  have hn' : (n : ℝ) ≠ 0 := by positivity
  simp only [run, List.foldl_cons, List.foldl_nil]
  set s := St.init.step (.preIntegrate (List.replicate n 0)) with hs
  have e1 : s.adjust = true := rfl
  have e2 : ¬ s.count < s.delay := by simp [hs, St.step, St.preIntegrate]
  have e3 : s.useV = true := rfl
  have e4 : s.useA = false := rfl
  have e5 : s.dt = .fin (1/1000000) := by simp [hs, St.step, St.preIntegrate, St.init]
  have hcand : Fl.min (dtV s 0) (dtA s (-1)) = .nan := by
    simp [dtV, dtA, e3, e4, h1, Fl.div, Fl.min, Fl.lt]
  simp only [St.step]
  unfold St.preStep
  rw [if_neg (by simp [e1]), if_neg e2, if_neg (by simp [e3, e4])]
  simp only
  rw [hcand, e5]
  simp [newDt, clamp, Fl.lt, Fl.add, Fl.scale]

/-- The limits are not compared with one another: after `setMaxDT(t)` with `t < min_dt` an adjustment can put the time step
below `min_dt`. -/
theorem C40_crossed_limits : ∃ h : List Op, (∀ o ∈ h, o.Sane) ∧ ∃ r, (run h).dt = .fin r ∧ r < (run h).minDt := by
  refine ⟨[.setMax (1/10000000), .preIntegrate [1], .preStep true 1 (-1)], ?_, 1/10000000, ?_, ?_⟩
  · intro o ho
    fin_cases ho
    · trivial
    · exact ⟨by simp, by simp⟩
    · norm_num [Op.Sane]
  · have e : (0:ℝ) < 1/10000000 := by norm_num
    simp only [run, List.foldl_cons, List.foldl_nil, St.step, if_pos e]
    unfold St.preStep
    simp [St.preIntegrate, St.init, Fl.div, dtV, dtA, Fl.min, Fl.lt, newDt, clamp, Fl.add, Fl.scale]
    norm_num
  · have e : (0:ℝ) < 1/10000000 := by norm_num
    simp only [run, List.foldl_cons, List.foldl_nil, St.step, if_pos e]
    unfold St.preStep
    simp [St.preIntegrate, St.init]
    norm_num

/-! ## C73: how far a particle moves in one step -/

/-- Spec: length of a vector. -/
noncomputable def norm {d : ℕ} (X : Fin d → ℝ) : ℝ := Real.sqrt (∑ k, X k * X k)

open Classical in
/-- `get_max_velocity` without vector instructions, `base/integrator.cpp:117-123`; `vs` are the velocities of the owned
particles. -/
noncomputable def maxVelSerial {d : ℕ} (vs : List (Fin d → ℝ)) : ℝ :=
  vs.foldl (fun m v => if m < norm v then norm v else m) 0

open Classical in
/-- `get_max_velocity` with vector instructions of width `w`, `base/integrator.cpp:124-143`: entry `j` of the velocity array
goes to lane `j % w` as long as blocks are left; `nb` is the number of blocks. -/
noncomputable def maxVelSimd {d : ℕ} (w nb : ℕ) (a : ℕ → ℝ) (total : ℕ) : ℝ :=
  let lane := (List.range nb).foldl (fun (m : ℕ → ℝ) b k => if m k < |a (b * w + k)| then |a (b * w + k)| else m k) fun _ => 0
  let m := (List.range w).foldl (fun m k => if m < lane k then lane k else m) 0
  let m := (List.range (total - nb * w)).foldl (fun m j => if m < |a (nb * w + j)| then |a (nb * w + j)| else m) m
  m * Real.sqrt d

/-- Number of rounds of `for (; i<total-w; i+=w)` from 0, `base/integrator.cpp:128`. -/
def numBlocks (w total : ℕ) : ℕ := (total - 1) / w

open Classical in
/-- `get_max_acceleration`, `base/integrator.cpp:146-163`, over the pairs of force and inverse mass. -/
noncomputable def maxAcc {d : ℕ} (l : List ((Fin d → ℝ) × ℝ)) : ℝ :=
  l.foldl (fun m p => if 0 < p.2 then (if m < norm p.1 * p.2 then norm p.1 * p.2 else m) else m) (-1)

/-- The number of rounds is that of the loop: each round starts with `i < total - w`, and after the last one this is false. -/
theorem numBlocks_spec (w total : ℕ) (hw : 0 < w) :
    (∀ b < numBlocks w total, b * w + w < total) ∧ total ≤ numBlocks w total * w + w := by
  unfold numBlocks
  constructor
  · intro b hb
    have h1 : (b + 1) * w ≤ total - 1 := by
      calc (b + 1) * w ≤ ((total - 1) / w) * w := Nat.mul_le_mul_right _ hb
        _ ≤ total - 1 := Nat.div_mul_le_self _ _
    have h2 : 0 < (b + 1) * w := Nat.mul_pos (by omega) hw
    have : (b + 1) * w = b * w + w := by ring
    omega
  · have := Nat.lt_div_mul_add (a := total - 1) hw
    omega

theorem foldl_max_ge {α : Type} (g : α → ℝ) (l : List α) (m0 : ℝ) :
    m0 ≤ l.foldl (fun m v => open Classical in if m < g v then g v else m) m0 ∧
    ∀ v ∈ l, g v ≤ l.foldl (fun m v => open Classical in if m < g v then g v else m) m0 := by
  induction l generalizing m0 with
  | nil => simp
  | cons a l ih =>
    rw [List.foldl_cons]
    obtain ⟨h1, h2⟩ := ih (open Classical in if m0 < g a then g a else m0)
    have hm : m0 ≤ (open Classical in if m0 < g a then g a else m0) := by split_ifs with h <;> linarith
    have ha : g a ≤ (open Classical in if m0 < g a then g a else m0) := by split_ifs with h <;> linarith
    refine ⟨hm.trans h1, fun v hv => ?_⟩
    rcases List.mem_cons.mp hv with rfl | hv
    · exact ha.trans h1
    · exact h2 v hv

theorem norm_nonneg' {d : ℕ} (X : Fin d → ℝ) : 0 ≤ norm X := Real.sqrt_nonneg _

theorem norm_le_of_comp {d : ℕ} (X : Fin d → ℝ) (M : ℝ) (hM : 0 ≤ M) (h : ∀ k, |X k| ≤ M) : norm X ≤ M * Real.sqrt d := by
  unfold norm
  have h1 : ∑ k, X k * X k ≤ M ^ 2 * d := by
    calc ∑ k, X k * X k ≤ ∑ _k : Fin d, M ^ 2 := by
          apply sum_le_sum
          intro k _
          have := abs_nonneg (X k)
          nlinarith [h k, abs_mul_abs_self (X k)]
      _ = M ^ 2 * d := by simp; ring
  calc Real.sqrt (∑ k, X k * X k) ≤ Real.sqrt (M ^ 2 * d) := Real.sqrt_le_sqrt h1
    _ = M * Real.sqrt d := by rw [Real.sqrt_mul (sq_nonneg M), Real.sqrt_sq hM]

theorem lane_ge (w : ℕ) (a : ℕ → ℝ) (bs : List ℕ) (m0 : ℕ → ℝ) (k : ℕ) :
    m0 k ≤ (bs.foldl (fun (m : ℕ → ℝ) b k => open Classical in if m k < |a (b * w + k)| then |a (b * w + k)| else m k) m0) k ∧
    ∀ b ∈ bs, |a (b * w + k)| ≤
      (bs.foldl (fun (m : ℕ → ℝ) b k => open Classical in if m k < |a (b * w + k)| then |a (b * w + k)| else m k) m0) k := by
  induction bs generalizing m0 with
  | nil => simp
  | cons b bs ih =>
    rw [List.foldl_cons]
    obtain ⟨h1, h2⟩ := ih (fun k => open Classical in if m0 k < |a (b * w + k)| then |a (b * w + k)| else m0 k)
    have hm : m0 k ≤ (open Classical in if m0 k < |a (b * w + k)| then |a (b * w + k)| else m0 k) := by split_ifs with h <;> linarith
    have ha : |a (b * w + k)| ≤ (open Classical in if m0 k < |a (b * w + k)| then |a (b * w + k)| else m0 k) := by
      split_ifs with h <;> linarith
    refine ⟨hm.trans h1, fun v hv => ?_⟩
    rcases List.mem_cons.mp hv with rfl | hv
    · exact ha.trans h1
    · exact h2 v hv

/-- **C73, maximal velocity.** Both versions of `get_max_velocity` return an upper bound of the speeds of all owned
particles, for every number of particles, dimension and vector width. -/
theorem C73_max_velocity {d : ℕ} (n : ℕ) (a : ℕ → ℝ) (w : ℕ) (hw : 0 < w) (i : ℕ) (hi : i < n) :
    norm (fun k : Fin d => a (i * d + k)) ≤ maxVelSerial ((List.range n).map fun i (k : Fin d) => a (i * d + k)) ∧
    norm (fun k : Fin d => a (i * d + k)) ≤ maxVelSimd (d := d) w (numBlocks w (n * d)) a (n * d) := by
  constructor
  · unfold maxVelSerial
    exact (foldl_max_ge norm _ 0).2 _ (List.mem_map.mpr ⟨i, List.mem_range.mpr hi, rfl⟩)
  · unfold maxVelSimd
    simp only
    set lane := (List.range (numBlocks w (n * d))).foldl
      (fun (m : ℕ → ℝ) b k => open Classical in if m k < |a (b * w + k)| then |a (b * w + k)| else m k) fun _ => 0 with hlane
    set m1 := (List.range w).foldl (fun m k => open Classical in if m < lane k then lane k else m) 0 with hm1
    have g2 := foldl_max_ge (fun j => |a (numBlocks w (n * d) * w + j)|) (List.range (n * d - numBlocks w (n * d) * w)) m1
    have g1 := foldl_max_ge lane (List.range w) 0
    apply norm_le_of_comp
    · exact g1.1.trans g2.1
    · intro k
      have hj : i * d + k < n * d := by
        have : (i + 1) * d ≤ n * d := Nat.mul_le_mul_right _ hi
        have h2 : (i + 1) * d = i * d + d := by ring
        have := k.isLt
        omega
      set j := i * d + (k : ℕ) with hjdef
      by_cases hb : j < numBlocks w (n * d) * w
      · have hq : j / w < numBlocks w (n * d) := Nat.div_lt_of_lt_mul (by rw [Nat.mul_comm]; exact hb)
        have hr : j % w < w := Nat.mod_lt _ hw
        have e : j / w * w + j % w = j := by rw [Nat.mul_comm]; exact Nat.div_add_mod j w
        have h1 := (lane_ge w a (List.range (numBlocks w (n * d))) (fun _ => 0) (j % w)).2 (j / w) (List.mem_range.mpr hq)
        rw [e] at h1
        exact h1.trans ((g1.2 (j % w) (List.mem_range.mpr hr)).trans g2.1)
      · have h1 := g2.2 (j - numBlocks w (n * d) * w) (List.mem_range.mpr (by omega))
        rw [show numBlocks w (n * d) * w + (j - numBlocks w (n * d) * w) = j by omega] at h1
        exact h1

/-- The value before the limits never exceeds the candidate. -/
theorem clamp_raw_le (lo hi d c : ℝ) (r : ℝ) (h : clamp lo hi (raw (.fin d) (.fin c)) = .fin r) : r ≤ c ∨ r = lo := by
  have gen : ∀ y, y ≤ c → clamp lo hi (.fin y) = .fin r → r ≤ c ∨ r = lo := by
    intro y hy h
    unfold clamp at h
    by_cases h2 : hi < y
    · rw [if_pos (show Fl.lt (.fin hi) (.fin y) from h2)] at h
      cases h; left; linarith
    · rw [if_neg (show ¬ Fl.lt (.fin hi) (.fin y) from h2)] at h
      by_cases h3 : y < lo
      · rw [if_pos (show Fl.lt (.fin y) (.fin lo) from h3)] at h
        cases h; right; rfl
      · rw [if_neg (show ¬ Fl.lt (.fin y) (.fin lo) from h3)] at h
        cases h; left; exact hy
  unfold raw at h
  by_cases h1 : c < d
  · rw [if_pos (show Fl.lt (.fin c) (.fin d) from h1)] at h
    exact gen c le_rfl h
  · rw [if_neg (show ¬ Fl.lt (.fin c) (.fin d) from h1)] at h
    simp only [Fl.scale, Fl.add] at h
    exact gen _ (by linarith) h

theorem fl_min_fin (a : Fl) (b : Fl) (c : ℝ) (h : Fl.min a b = .fin c) :
    (∀ x, a = .fin x → b ≠ .nan → c ≤ x) ∧ (∀ x, b = .fin x → a ≠ .nan → c ≤ x) := by
  unfold Fl.min at h
  constructor
  · intro x hx _
    subst hx
    split_ifs at h with h1
    · subst h; simp only [Fl.lt] at h1; exact h1.le
    · cases h; exact le_rfl
  · intro x hx ha
    subst hx
    split_ifs at h with h1
    · cases h; exact le_rfl
    · subst h; simp only [Fl.lt, not_lt] at h1; exact h1

/-- **C73.** In every state with finite time step, positive characteristic length and positive step target, after a `pre_step`
that adjusts the time step: a particle of speed at most `get_max_velocity` moves by at most `length / target` in one step,
or else the time step is `min_dt`; and, if accelerations are used, the same holds of the acceleration with `10 √length / target`. -/
theorem C73_motion_per_step (s : St) (d l : ℝ) (hd : s.dt = .fin d) (hl : s.len = .fin l)
    (h0 : 0 < l) (ht : 1 ≤ s.target) (maxV maxA : ℝ) (ha : s.adjust = true) (hc : s.delay ≤ s.count)
    (hi : ¬ ((if s.useV then maxV else -1) = 0 ∧ (if s.useA then maxA else -1) = 0)) (r : ℝ)
    (hr : (s.preStep true maxV maxA).dt = .fin r) (hr0 : 0 ≤ r) :
    (s.useV = true → ∀ v, 0 ≤ v → v ≤ maxV → v * r ≤ l / s.target ∨ r = s.minDt) ∧
    (s.useA = true → ∀ a, 0 ≤ a → a ≤ maxA → a * r ≤ 10 * Real.sqrt l / s.target ∨ r = s.minDt) := by
  unfold St.preStep at hr
  rw [if_neg (by simp [ha]), if_neg (not_lt.mpr hc), if_neg hi] at hr
  have hr' : clamp s.minDt s.maxDt (raw (.fin d) (Fl.min (dtV s maxV) (dtA s maxA))) = .fin r := by rw [← hd]; exact hr
  have hT : (0:ℝ) < s.target := by exact_mod_cast (by omega : 0 < s.target)
  have nV : dtV s maxV ≠ .nan := by
    unfold dtV; split_ifs
    · rw [hl]; exact div_not_nan _ _ h0
    · simp
  have nA : dtA s maxA ≠ .nan := by
    unfold dtA; split_ifs
    · rw [hl]; simp only [Fl.sqrt, if_neg (not_lt.mpr h0.le), Fl.scale]; exact div_not_nan _ _ (by positivity)
    · simp
  have fin_case : ∀ c, Fl.min (dtV s maxV) (dtA s maxA) = .fin c → r ≤ c ∨ r = s.minDt := by
    intro c hc; rw [hc] at hr'; exact clamp_raw_le _ _ _ _ _ hr'
  have ninf_case : Fl.min (dtV s maxV) (dtA s maxA) = .ninf → r = s.minDt := by
    intro hc; rw [hc] at hr'
    simp [clamp, raw, Fl.lt] at hr'
    exact hr'.symm
  constructor
  · intro hu v hv0 hv
    rcases eq_or_lt_of_le hv0 with hz | hz
    · left; rw [← hz]; simp; positivity
    · have hm : 0 < maxV * s.target := mul_pos (lt_of_lt_of_le hz hv) hT
      have eV : dtV s maxV = .fin (l / (maxV * s.target)) := by
        simp only [dtV, hu, if_true, hl, Fl.div]; rw [if_neg hm.ne']
      have bound : ∀ c, c ≤ l / (maxV * s.target) → r ≤ c → v * r ≤ l / s.target := by
        intro c h1 h2
        have h3 : r ≤ l / (maxV * s.target) := h2.trans h1
        have h4 : v * r ≤ maxV * (l / (maxV * s.target)) := mul_le_mul hv h3 hr0 (le_trans hz.le hv)
        have h5 : maxV * (l / (maxV * s.target)) = l / s.target := by
          have : maxV ≠ 0 := (lt_of_lt_of_le hz hv).ne'
          field_simp
        linarith
      cases hmin : Fl.min (dtV s maxV) (dtA s maxA) with
      | nan => exact absurd hmin (min_not_nan _ _ nV nA)
      | ninf => right; exact ninf_case hmin
      | inf =>
        exfalso
        unfold Fl.min at hmin
        rw [eV] at hmin
        split_ifs at hmin with h1
        rw [hmin] at h1; exact h1
      | fin c =>
        rcases fin_case c hmin with h | h
        · left; exact bound c ((fl_min_fin _ _ c hmin).1 _ eV nA) h
        · right; exact h
  · intro hu a hv0 hv
    rcases eq_or_lt_of_le hv0 with hz | hz
    · left; rw [← hz]; simp; positivity
    · have hm : 0 < maxA * s.target := mul_pos (lt_of_lt_of_le hz hv) hT
      have eA : dtA s maxA = .fin (10 * Real.sqrt l / (maxA * s.target)) := by
        simp only [dtA, hu, if_true, hl, Fl.sqrt, if_neg (not_lt.mpr h0.le), Fl.scale, Fl.div]; rw [if_neg hm.ne']
      have bound : ∀ c, c ≤ 10 * Real.sqrt l / (maxA * s.target) → r ≤ c → a * r ≤ 10 * Real.sqrt l / s.target := by
        intro c h1 h2
        have h3 := h2.trans h1
        have h4 : a * r ≤ maxA * (10 * Real.sqrt l / (maxA * s.target)) := mul_le_mul hv h3 hr0 (le_trans hz.le hv)
        have h5 : maxA * (10 * Real.sqrt l / (maxA * s.target)) = 10 * Real.sqrt l / s.target := by
          have : maxA ≠ 0 := (lt_of_lt_of_le hz hv).ne'
          field_simp
        linarith
      cases hmin : Fl.min (dtV s maxV) (dtA s maxA) with
      | nan => exact absurd hmin (min_not_nan _ _ nV nA)
      | ninf => right; exact ninf_case hmin
      | inf =>
        exfalso
        unfold Fl.min at hmin
        split_ifs at hmin with h1
        · rw [eA] at hmin; cases hmin
        · rw [hmin, eA] at h1; exact h1 trivial
      | fin c =>
        rcases fin_case c hmin with h | h
        · left; exact bound c ((fl_min_fin _ _ c hmin).2 _ eA nV) h
        · right; exact h

/-- **C73, all particles.** The two theorems together: in the situation of `C73_motion_per_step`, with either version of
`get_max_velocity`, every owned particle moves by at most `length / target` per step unless the time step is `min_dt`. -/
theorem C73_all_particles {D : ℕ} (n : ℕ) (a : ℕ → ℝ) (w : ℕ) (hw : 0 < w) (simd : Bool)
    (s : St) (d l : ℝ) (hd : s.dt = .fin d) (hl : s.len = .fin l) (h0 : 0 < l) (ht : 1 ≤ s.target) (maxA : ℝ)
    (ha : s.adjust = true) (hc : s.delay ≤ s.count) (hv : s.useV = true) (hna : s.useA = false) (r : ℝ)
    (hr : (s.preStep true (if simd then maxVelSimd (d := D) w (numBlocks w (n * D)) a (n * D)
      else maxVelSerial ((List.range n).map fun i (k : Fin D) => a (i * D + k))) maxA).dt = .fin r) (hr0 : 0 ≤ r)
    (i : ℕ) (hi : i < n) : norm (fun k : Fin D => a (i * D + k)) * r ≤ l / s.target ∨ r = s.minDt := by
  have hm := C73_max_velocity (d := D) n a w hw i hi
  refine (C73_motion_per_step s d l hd hl h0 ht _ maxA ha hc ?_ r hr hr0).1 hv _ (norm_nonneg' _) ?_
  · simp [hna]
  · cases simd
    · exact hm.1
    · exact hm.2

/-- The hypotheses are met by the state after the start of a run with two particles of radius 1 and speed 3. -/
example : ∃ r, ((St.init.preIntegrate [1, 1] 2).preStep true 3 (-1)).dt = .fin r ∧ 0 ≤ r ∧
    (St.init.preIntegrate [1, 1] 2).delay ≤ (St.init.preIntegrate [1, 1] 2).count ∧
    (St.init.preIntegrate [1, 1] 2).len = .fin 1 := by
  have hg : Good (run [.preIntegrate [1, 1], .preStep true 3 (-1)]) := by
    apply good_run
    intro o ho
    fin_cases ho
    · exact ⟨by simp, by simp⟩
    · norm_num [Op.Sane]
  obtain ⟨⟨r, h1, h2⟩, _⟩ := hg
  refine ⟨r, h1, h2.le, le_rfl, ?_⟩
  simp only [St.preIntegrate, Fl.div]
  norm_num

/-! ## The overdamped integrator -/

open Classical in
/-- `OverdampedIntegrator::calculate_time_step`, `integrators/overdamped-integrator.tpp:78-93`. -/
noncomputable def overdampedDt (damping : ℝ) (s : St) (maxA : ℝ) : Fl :=
  if maxA = 0 then s.dt else clamp s.minDt s.maxDt (Fl.div s.len (damping * maxA * s.target))

/-- **C40, overdamped integrator.** Its time step too is left alone (no acceleration) or in `[min_dt, max_dt]` after each
calculation, also when no particle can move (acceleration -1). -/
theorem C40_overdamped (damping : ℝ) (s : St) (hb : s.minDt ≤ s.maxDt) (l : ℝ) (hl : s.len = .fin l) (h0 : 0 < l) (maxA : ℝ) :
    (maxA = 0 → overdampedDt damping s maxA = s.dt) ∧
    (maxA ≠ 0 → ∃ r, overdampedDt damping s maxA = .fin r ∧ s.minDt ≤ r ∧ r ≤ s.maxDt) := by
  unfold overdampedDt
  refine ⟨fun h => if_pos h, fun h => ?_⟩
  rw [if_neg h, hl]
  exact clamp_spec _ _ hb _ (div_not_nan _ _ h0)

end Verif.StepSize
