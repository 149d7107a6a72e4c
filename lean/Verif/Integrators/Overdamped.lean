import Verif.Integrators.Verlet
import Mathlib.Analysis.Real.Sqrt

/-!
# The overdamped and the relaxation integrator (C107)

Models `OverdampedIntegrator` (`integrators/overdampedintegrator.hpp:13-34`, `integrators/overdamped-integrator.tpp`), `RelaxIntegrator` (`integrators/relax-integrator.tpp`) and
`Integrator::get_max_acceleration` (`base/integrator.cpp:147-166`) over a run with any sequence of forces. Numbers are reals; the movement of the particles is
`overdamped` of `Verif.Integrators.Verlet`, in its plain or vectorised version.
-/

namespace Verif.Overdamped

open Finset Verif.Verlet

/-- The variables of the integrator, `base/integrator.hpp:67-93`, `integrators/overdampedintegrator.hpp:28-33`, and the positions. -/
structure OD where
  dt : ℝ
  minDt : ℝ
  maxDt : ℝ
  target : ℕ
  delay : ℕ
  count : ℕ
  adjust : Bool
  len : ℝ
  damping : ℝ
  maxAcc : ℝ
  x : Arr

/-- The length of the `i`-th vector of an array, `magnitudeVec`, `utility/vectormath.hpp`. -/
noncomputable def mag (d : ℕ) (f : Arr) (i : ℕ) : ℝ := Real.sqrt (∑ k ∈ range d, f (i * d + k) ^ 2)

/-- One pass of the loop of `Integrator::get_max_acceleration`, `base/integrator.cpp:155-160`. -/
noncomputable def accStep (d : ℕ) (im f : Arr) (m : ℝ) (i : ℕ) : ℝ :=
  open Classical in if 0 < im i then (if m < mag d f i * im i then mag d f i * im i else m) else m

/-- `Integrator::get_max_acceleration`, `base/integrator.cpp:147-166`. -/
noncomputable def getMaxAcc (d n : ℕ) (im f : Arr) : ℝ := (List.range n).foldl (accStep d im f) (-1)

/-- The limits, `integrators/overdamped-integrator.tpp:86-87`. -/
noncomputable def clampR (lo hi x : ℝ) : ℝ := open Classical in if hi < x then hi else if x < lo then lo else x

/-- `calculate_time_step`, `integrators/overdamped-integrator.tpp:78-94`, for a positive characteristic length: a division by zero (damping constant zero) gives infinity, which the
upper limit replaces. (For the length zero see C40.) -/
noncomputable def newStep (s : OD) (a : ℝ) : OD :=
  open Classical in
  if a = 0 then { s with maxAcc := a }
  else
    { s with
      maxAcc := a
      dt := if s.damping * a * s.target = 0 then s.maxDt else clampR s.minDt s.maxDt (s.len / (s.damping * a * s.target)) }

/-- `pre_integrate` of both classes, `base/integrator.cpp:13-28`, `integrators/overdamped-integrator.tpp:12-18`: the mean radius is a parameter. -/
def preIntegrate (s : OD) (meanRadius : ℝ) : OD := { s with count := s.delay, len := meanRadius, dt := s.minDt }

/-- The part of `post_forces` that chooses the time step, `integrators/overdamped-integrator.tpp:28-37`. -/
noncomputable def choose (s : OD) (a : ℝ) : OD :=
  open Classical in
  if s.adjust = true ∧ s.delay ≤ s.count then { newStep s a with count := 0 }
  else if s.maxAcc = 0 then newStep { s with count := s.count + 1 } a
  else { s with count := s.count + 1 }

/-- `post_forces`, `integrators/overdamped-integrator.tpp:20-75`, with the forces `f`. -/
noncomputable def odStep (m : Mode) (d n : ℕ) (im : Arr) (s : OD) (f : Arr) : OD :=
  { choose s (getMaxAcc d n im f) with x := overdamped m d (n * d) s.damping (choose s (getMaxAcc d n im f)).dt im f s.x }

/-- `setDamping`, `integrators/overdampedintegrator.hpp:23`. -/
noncomputable def setDamping (s : OD) (c : ℝ) : OD := open Classical in if 0 ≤ c then { s with damping := c } else s

/-- The test of `RelaxIntegrator::post_forces` after the step with the number `iter`, `integrators/relax-integrator.tpp:25-32`, with the values of `integrators/relaxintegrator.hpp:22-25`. -/
noncomputable def relaxEnds (s : OD) (iter : ℕ) : Prop := s.maxAcc < 1 / 10 ∧ 10 < iter

/-- The state after the first `k` steps of a run; `f j x` are the forces in the step `j` for the positions `x`. -/
noncomputable def odRun (m : Mode) (d n : ℕ) (im : Arr) (f : ℕ → Arr → Arr) (s : OD) : ℕ → OD
  | 0 => s
  | k + 1 => odStep m d n im (odRun m d n im f s k) (f k (odRun m d n im f s k).x)

/-! ## Lemmas -/

theorem acc_fold (d : ℕ) (im f : Arr) (l : List ℕ) (m0 : ℝ) :
    m0 ≤ l.foldl (accStep d im f) m0 ∧ (∀ i ∈ l, 0 < im i → mag d f i * im i ≤ l.foldl (accStep d im f) m0) ∧
    (l.foldl (accStep d im f) m0 = m0 ∨ ∃ i ∈ l, 0 < im i ∧ l.foldl (accStep d im f) m0 = mag d f i * im i) := by
  induction l generalizing m0 with
  | nil => exact ⟨le_refl _, by simp, Or.inl rfl⟩
  | cons a l ih =>
    rw [List.foldl_cons]
    obtain ⟨h1, h2, h3⟩ := ih (accStep d im f m0 a)
    have hs : m0 ≤ accStep d im f m0 a ∧ (0 < im a → mag d f a * im a ≤ accStep d im f m0 a) ∧
        (accStep d im f m0 a = m0 ∨ (0 < im a ∧ accStep d im f m0 a = mag d f a * im a)) := by
      unfold accStep
      split_ifs with ha hb
      · exact ⟨hb.le, fun _ => le_refl _, Or.inr ⟨ha, rfl⟩⟩
      · exact ⟨le_refl _, fun _ => not_lt.mp hb, Or.inl rfl⟩
      · exact ⟨le_refl _, fun h => absurd h ha, Or.inl rfl⟩
    refine ⟨hs.1.trans h1, fun i hi' hp => ?_, ?_⟩
    · rcases List.mem_cons.mp hi' with rfl | hi'
      · exact (hs.2.1 hp).trans h1
      · exact h2 i hi' hp
    · rcases h3 with h3 | ⟨i, hi', hp, h3⟩
      · rcases hs.2.2 with h | ⟨hp, h⟩
        · exact Or.inl (h3.trans h)
        · exact Or.inr ⟨a, by simp, hp, h3.trans h⟩
      · exact Or.inr ⟨i, List.mem_cons_of_mem _ hi', hp, h3⟩

theorem newStep_x (s : OD) (a : ℝ) : (newStep s a).x = s.x ∧ (newStep s a).damping = s.damping ∧ (newStep s a).minDt = s.minDt ∧ (newStep s a).maxDt = s.maxDt ∧ (newStep s a).target = s.target ∧
    (newStep s a).delay = s.delay ∧ (newStep s a).adjust = s.adjust ∧ (newStep s a).len = s.len ∧ (newStep s a).count = s.count ∧ (newStep s a).maxAcc = a := by
  unfold newStep; split_ifs <;> simp

theorem choose_keep (s : OD) (a : ℝ) : (choose s a).x = s.x ∧ (choose s a).damping = s.damping ∧ (choose s a).minDt = s.minDt ∧ (choose s a).maxDt = s.maxDt ∧
    (choose s a).target = s.target ∧ (choose s a).delay = s.delay ∧ (choose s a).adjust = s.adjust ∧ (choose s a).len = s.len := by
  unfold choose
  split_ifs
  · have := newStep_x s a; simp only; tauto
  · have := newStep_x { s with count := s.count + 1 } a; simp only at this; tauto
  · simp

/-! ## The motion -/

/-- C107, the motion: in each step every coordinate of an owned particle changes by the damping constant times the acceleration times the time step, with plain and vectorised loops;
immovable particles stay and nothing else is changed. -/
theorem C107_motion (m : Mode) (hm : m.OK) (d n : ℕ) (im : Arr) (s : OD) (f : Arr) :
    (∀ i < n, ∀ k < d, (odStep m d n im s f).x (i * d + k) = s.x (i * d + k) + s.damping * (im i * f (i * d + k)) * (odStep m d n im s f).dt) ∧
    (∀ i < n, im i = 0 → ∀ k < d, (odStep m d n im s f).x (i * d + k) = s.x (i * d + k)) ∧
    (∀ j, n * d ≤ j → (odStep m d n im s f).x j = s.x j) := by
  have main : ∀ i < n, ∀ k < d, (odStep m d n im s f).x (i * d + k) = s.x (i * d + k) + s.damping * (im i * f (i * d + k)) * (odStep m d n im s f).dt := by
    intro i hi' k hk
    simp only [odStep]
    rw [C41_overdamped m hm, if_pos (idx_lt d n i k hk hi'), idx d i k hk]
    ring
  refine ⟨main, fun i hi' h0 k hk => ?_, fun j hj => ?_⟩
  · rw [main i hi' k hk, h0]; ring
  · simp only [odStep]
    rw [C41_overdamped m hm, if_neg (by omega)]

/-- C107, the centre of mass: if the forces sum to zero in every step (as pair forces do, C34), then the centre of mass of a system without immovable particles stays where it is for ever, whatever the time
steps are. -/
theorem C107_centre (m : Mode) (hm : m.OK) (d n : ℕ) (im : Arr) (him : ∀ i < n, im i ≠ 0) (f : ℕ → Arr → Arr) (k : ℕ) (hk : k < d)
    (hF : ∀ j x, ∑ i ∈ range n, f j x (i * d + k) = 0) (s : OD) (steps : ℕ) :
    ∑ i ∈ range n, 1 / im i * (odRun m d n im f s steps).x (i * d + k) = ∑ i ∈ range n, 1 / im i * s.x (i * d + k) := by
  induction steps with
  | zero => rfl
  | succ j ih =>
    rw [← ih]
    simp only [odRun]
    set t := odRun m d n im f s j with ht
    have h := (C107_motion m hm d n im t (f j t.x)).1
    have e : ∀ i ∈ range n, 1 / im i * (odStep m d n im t (f j t.x)).x (i * d + k) =
        1 / im i * t.x (i * d + k) + t.damping * (odStep m d n im t (f j t.x)).dt * f j t.x (i * d + k) := by
      intro i hi'
      rw [h i (mem_range.mp hi') k hk]
      have := him i (mem_range.mp hi')
      field_simp
    rw [sum_congr rfl e, sum_add_distrib, ← mul_sum, hF, mul_zero, add_zero]

/-- Two particles with a spring between them meet the hypothesis. -/
example : ∃ F : ℕ → Arr → Arr, (∀ j x, ∑ i ∈ range 2, F j x (i * 1 + 0) = 0) ∧ F 0 (fun j => j) 0 = 1 := by
  refine ⟨fun _ x j => if j = 0 then x 1 - x 0 else x 0 - x 1, fun _ x => ?_, ?_⟩
  · simp [sum_range_succ]
  · norm_num

/-! ## How far particles move -/

/-- A new time step is calculated in this step. -/
def Fresh (s : OD) : Prop := (s.adjust = true ∧ s.delay ≤ s.count) ∨ s.maxAcc = 0

theorem choose_fresh {s : OD} (h : Fresh s) (a : ℝ) : (choose s a).maxAcc = a ∧ (choose s a).dt = (newStep s a).dt := by
  unfold choose
  split_ifs with h1 h2
  · exact ⟨(newStep_x s a).2.2.2.2.2.2.2.2.2, rfl⟩
  · refine ⟨(newStep_x _ a).2.2.2.2.2.2.2.2.2, ?_⟩
    unfold newStep; split_ifs <;> rfl
  · rcases h with h | h
    · exact absurd h h1
    · exact absurd h h2

/-- C107 (partial), motion per step: in a step in which the time step is calculated, with some force and a positive damping constant, no particle moves by more than the mean radius divided by the target number of
steps, unless the time step is at its lower limit. The time step is between its limits.
Missing: the steps between the calculations (`C107_negation_between`). -/
theorem C107_motion_per_step_partial (m : Mode) (hm : m.OK) (d n : ℕ) (im : Arr) (him : ∀ i, 0 ≤ im i) (s : OD) (f : Arr) (hf : Fresh s) (ha : getMaxAcc d n im f ≠ 0) (hl : 0 < s.len) (hd : 0 < s.damping)
    (ht : 1 ≤ s.target) (h0 : 0 < s.minDt) (hb : s.minDt ≤ s.maxDt) :
    s.minDt ≤ (odStep m d n im s f).dt ∧ (odStep m d n im s f).dt ≤ s.maxDt ∧
    ((odStep m d n im s f).dt = s.minDt ∨ ∀ i < n, mag d (fun j => (odStep m d n im s f).x j - s.x j) i ≤ s.len / s.target) := by
  set a := getMaxAcc d n im f with hadef
  have htpos : (0 : ℝ) < s.target := by exact_mod_cast ht
  have hdt : (odStep m d n im s f).dt = (newStep s a).dt := by simp only [odStep]; exact (choose_fresh hf a).2
  have hne : s.damping * a * s.target ≠ 0 := mul_ne_zero (mul_ne_zero hd.ne' ha) htpos.ne'
  have hc : (newStep s a).dt = clampR s.minDt s.maxDt (s.len / (s.damping * a * s.target)) := by
    unfold newStep; rw [if_neg ha]; simp only [if_neg hne]
  rw [hdt, hc]
  have hcl : s.minDt ≤ clampR s.minDt s.maxDt (s.len / (s.damping * a * s.target)) ∧ clampR s.minDt s.maxDt (s.len / (s.damping * a * s.target)) ≤ s.maxDt := by
    unfold clampR; split_ifs <;> constructor <;> linarith
  refine ⟨hcl.1, hcl.2, ?_⟩
  by_cases hlo : clampR s.minDt s.maxDt (s.len / (s.damping * a * s.target)) = s.minDt
  · exact Or.inl hlo
  refine Or.inr fun i hi' => ?_
  have hle : clampR s.minDt s.maxDt (s.len / (s.damping * a * s.target)) ≤ s.len / (s.damping * a * s.target) := by
    unfold clampR at hlo ⊢; split_ifs at hlo ⊢ <;> first | linarith | exact absurd rfl hlo
  have hmot := (C107_motion m hm d n im s f).1 i hi'
  set dt := clampR s.minDt s.maxDt (s.len / (s.damping * a * s.target)) with hdtdef
  have hdt0 : 0 < dt := lt_of_lt_of_le h0 hcl.1
  have happ : 0 < a := by
    by_contra hn
    push Not at hn
    have hneg : s.damping * a * s.target < 0 := mul_neg_of_neg_of_pos (mul_neg_of_pos_of_neg hd (lt_of_le_of_ne hn ha)) htpos
    have := div_neg_of_pos_of_neg hl hneg
    linarith
  have hmag : mag d (fun j => (odStep m d n im s f).x j - s.x j) i = s.damping * dt * (mag d f i * im i) := by
    unfold mag
    have e : ∑ k ∈ range d, ((odStep m d n im s f).x (i * d + k) - s.x (i * d + k)) ^ 2 = (s.damping * dt * im i) ^ 2 * ∑ k ∈ range d, f (i * d + k) ^ 2 := by
      rw [mul_sum]
      apply sum_congr rfl
      intro k hk
      rw [hmot k (mem_range.mp hk), hdt, hc]; ring
    rw [e, Real.sqrt_mul (sq_nonneg _), Real.sqrt_sq (mul_nonneg (mul_nonneg hd.le hdt0.le) (him i))]
    ring
  have hacc : mag d f i * im i ≤ a := by
    rcases lt_or_eq_of_le (him i) with hp | hp
    · exact (acc_fold d im f (List.range n) (-1)).2.1 i (List.mem_range.mpr hi') hp
    · rw [← hp, mul_zero]; exact happ.le
  rw [hmag]
  calc s.damping * dt * (mag d f i * im i) ≤ s.damping * dt * a := mul_le_mul_of_nonneg_left hacc (mul_nonneg hd.le hdt0.le)
    _ ≤ s.damping * (s.len / (s.damping * a * s.target)) * a := mul_le_mul_of_nonneg_right (mul_le_mul_of_nonneg_left hle hd.le) happ.le
    _ = s.len / s.target := by field_simp

/-- The default values with the mean radius one and the damping constant one. -/
noncomputable def start : OD := ⟨1/1000000, 1/1000000, 2/1000, 20, 10, 10, true, 1, 1, 0, fun _ => 0⟩

/-- The hypotheses are met by one particle with the force 100: the time step is 1/2000. -/
example : Fresh start ∧ getMaxAcc 1 1 (fun _ => 1) (fun _ => 100) = 100 ∧ 0 < start.len ∧ 0 < start.damping ∧ 1 ≤ start.target ∧ 0 < start.minDt ∧ start.minDt ≤ start.maxDt ∧
    (odStep none 1 1 (fun _ => 1) start (fun _ => 100)).dt = 1/2000 := by
  have hs : Real.sqrt 10000 = 100 := by rw [show (10000 : ℝ) = 100 ^ 2 by norm_num]; exact Real.sqrt_sq (by norm_num)
  have ha : getMaxAcc 1 1 (fun _ => 1) (fun _ => 100) = 100 := by
    simp only [getMaxAcc, List.range_one, List.foldl_cons, List.foldl_nil, accStep, mag, range_one, sum_singleton]
    norm_num [hs]
  refine ⟨Or.inr rfl, ha, by simp [start], by simp [start], by simp [start], by simp [start], by simp [start]; norm_num, ?_⟩
  simp only [odStep, ha]
  rw [(choose_fresh (Or.inr rfl) 100).2]
  simp only [newStep, start, clampR]
  norm_num

/-- C107, negation: between the calculations the motion is not limited. With the default delay and any bound there are forces for which a particle moves farther than the bound in the second step, with the time step above its
lower limit. -/
theorem C107_negation_between (B : ℝ) : ∃ f : ℕ → Arr → Arr, start.minDt < (odRun none 1 1 (fun _ => 1) f start 2).dt ∧
    B < (odRun none 1 1 (fun _ => 1) f start 2).x 0 - (odRun none 1 1 (fun _ => 1) f start 1).x 0 := by
  have hs : Real.sqrt 10000 = 100 := by rw [show (10000 : ℝ) = 100 ^ 2 by norm_num]; exact Real.sqrt_sq (by norm_num)
  have ha : getMaxAcc 1 1 (fun _ => 1) (fun _ => 100) = 100 := by
    simp only [getMaxAcc, List.range_one, List.foldl_cons, List.foldl_nil, accStep, mag, range_one, sum_singleton]
    norm_num [hs]
  refine ⟨fun j _ => if j = 0 then fun _ => 100 else fun _ => 2000 * (|B| + 1), ?_⟩
  have e1 : ∀ f : Arr, (choose (odStep none 1 1 (fun _ => 1) start (fun _ => 100)) (getMaxAcc 1 1 (fun _ => 1) f)).dt = 1/2000 := by
    intro f
    simp only [odStep, ha, choose, newStep, start, clampR]
    norm_num
  have hdt : ∀ f, (odStep none 1 1 (fun _ => 1) (odStep none 1 1 (fun _ => 1) start (fun _ => 100)) f).dt = 1/2000 := by
    intro f; simp only [odStep] at e1 ⊢; exact e1 f
  have hda : (odStep none 1 1 (fun _ => 1) start (fun _ => 100)).damping = 1 := by
    simp only [odStep]; rw [(choose_keep _ _).2.1]; rfl
  constructor
  · simp only [odRun, if_true, if_neg one_ne_zero]
    rw [hdt]; simp [start]; norm_num
  · simp only [odRun, if_true, if_neg one_ne_zero]
    have h := (C107_motion none trivial 1 1 (fun _ => 1) (odStep none 1 1 (fun _ => 1) start (fun _ => 100)) (fun _ => 2000 * (|B| + 1))).1 0 (by norm_num) 0 (by norm_num)
    simp only [Nat.zero_mul, Nat.add_zero] at h
    rw [h, hdt, hda]
    have := le_abs_self B
    linarith

/-- C107, negation: a fixed time step is not respected: when a run starts, the time step is set to the lower limit although its adjustment is off. -/
theorem C107_negation_fixed (s : OD) (r : ℝ) (_hoff : s.adjust = false) (h : s.dt ≠ s.minDt) : (preIntegrate s r).dt ≠ s.dt := fun e => h e.symm

/-- A state with a fixed time step. -/
example : ∃ s : OD, s.adjust = false ∧ s.dt ≠ s.minDt := ⟨{ start with adjust := false, dt := 1 }, rfl, by simp [start]⟩

/-! ## The end of relaxation -/

theorem step_count' (m : Mode) (d n : ℕ) (im : Arr) (s : OD) (f : Arr) (ha : s.adjust = true) :
    (odStep m d n im s f).count = (if s.delay ≤ s.count then 0 else s.count + 1) ∧ (odStep m d n im s f).adjust = true ∧ (odStep m d n im s f).delay = s.delay ∧
    (Fresh s → (odStep m d n im s f).maxAcc = getMaxAcc d n im f) ∧ (¬ Fresh s → (odStep m d n im s f).maxAcc = s.maxAcc) := by
  have hk := choose_keep s (getMaxAcc d n im f)
  refine ⟨?_, hk.2.2.2.2.2.2.1.trans ha, hk.2.2.2.2.2.1, fun h => (choose_fresh h _).1, fun h => ?_⟩
  · simp only [odStep, choose]
    by_cases hc : s.delay ≤ s.count
    · rw [if_pos ⟨ha, hc⟩, if_pos hc]
    · rw [if_neg (fun h => hc h.2), if_neg hc]
      split_ifs
      · exact (newStep_x _ _).2.2.2.2.2.2.2.2.1
      · rfl
  · simp only [odStep, choose]
    rw [if_neg (fun h' => h (Or.inl h')), if_neg (fun h' => h (Or.inr h'))]

/-- Before the step `k` of a run that starts with `pre_integrate` and the default delay. -/
theorem run_count (m : Mode) (d n : ℕ) (im : Arr) (f : ℕ → Arr → Arr) (s : OD) (ha : s.adjust = true) (hd : s.delay = 10) (hc : s.count = 10) (k : ℕ) :
    (odRun m d n im f s k).count = (k + 10) % 11 ∧ (odRun m d n im f s k).adjust = true ∧ (odRun m d n im f s k).delay = 10 := by
  induction k with
  | zero => exact ⟨hc, ha, hd⟩
  | succ k ih =>
    obtain ⟨h1, h2, h3⟩ := ih
    obtain ⟨g1, g2, g3, _⟩ := step_count' m d n im (odRun m d n im f s k) (f k (odRun m d n im f s k).x) h2
    simp only [odRun]
    refine ⟨?_, g2, g3.trans h3⟩
    rw [g1, h3, h1]
    split_ifs <;> omega

/-- C107, the end of relaxation: with the default delay, whatever the forces were, the relaxation ends only after at least eleven steps and in a step in which all movable particles have accelerations below 1/10. -/
theorem C107_relax_end (m : Mode) (d n : ℕ) (im : Arr) (f : ℕ → Arr → Arr) (s : OD) (r : ℝ) (ha : s.adjust = true) (hd : s.delay = 10) (k : ℕ)
    (hrun : ∀ j < k, ¬ relaxEnds (odRun m d n im f (preIntegrate s r) (j + 1)) j) (hend : relaxEnds (odRun m d n im f (preIntegrate s r) (k + 1)) k) :
    11 ≤ k ∧ ∀ i < n, 0 < im i → mag d (f k (odRun m d n im f (preIntegrate s r) k).x) i * im i < 1 / 10 := by
  obtain ⟨e1, e2⟩ := hend
  refine ⟨e2, fun i hi' hp => ?_⟩
  obtain ⟨c1, c2, c3⟩ := run_count m d n im f (preIntegrate s r) ha hd hd k
  obtain ⟨_, _, _, g1, g2⟩ := step_count' m d n im (odRun m d n im f (preIntegrate s r) k) (f k (odRun m d n im f (preIntegrate s r) k).x) c2
  by_cases hfr : Fresh (odRun m d n im f (preIntegrate s r) k)
  · have := (acc_fold d im (f k (odRun m d n im f (preIntegrate s r) k).x) (List.range n) (-1)).2.1 i (List.mem_range.mpr hi') hp
    rw [odRun, g1 hfr] at e1
    exact lt_of_le_of_lt this e1
  · exfalso
    have hk : k % 11 ≠ 0 := by
      intro h0
      apply hfr
      refine Or.inl ⟨c2, ?_⟩
      rw [c3, c1]; omega
    rw [odRun, g2 hfr] at e1
    obtain ⟨j, rfl⟩ : ∃ j, k = j + 1 := ⟨k - 1, by omega⟩
    exact hrun j (by omega) ⟨e1, by omega⟩

/-- C107, a system at rest: if the accelerations are below 1/10 in the step 11, then the relaxation has ended by then. -/
theorem C107_relax_ends (m : Mode) (d n : ℕ) (im : Arr) (f : ℕ → Arr → Arr) (s : OD) (r : ℝ) (ha : s.adjust = true) (hd : s.delay = 10) (k : ℕ) (hk : 0 < k) (h11 : k % 11 = 0)
    (hs : ∀ i < n, 0 < im i → mag d (f k (odRun m d n im f (preIntegrate s r) k).x) i * im i < 1 / 10) :
    relaxEnds (odRun m d n im f (preIntegrate s r) (k + 1)) k := by
  obtain ⟨c1, c2, c3⟩ := run_count m d n im f (preIntegrate s r) ha hd hd k
  obtain ⟨_, _, _, g1, _⟩ := step_count' m d n im (odRun m d n im f (preIntegrate s r) k) (f k (odRun m d n im f (preIntegrate s r) k).x) c2
  refine ⟨?_, by omega⟩
  rw [odRun, g1 (Or.inl ⟨c2, by rw [c3, c1]; omega⟩)]
  rcases (acc_fold d im (f k (odRun m d n im f (preIntegrate s r) k).x) (List.range n) (-1)).2.2 with h | ⟨i, hi', hp, h⟩
  · unfold getMaxAcc; rw [h]; norm_num
  · unfold getMaxAcc; rw [h]; exact hs i (List.mem_range.mp hi') hp

/-- A system without forces: the relaxation does not end in the steps 0 to 10 and ends in the step 11. -/
example : (∀ j < 11, ¬ relaxEnds (odRun none 1 1 (fun _ => 1) (fun _ _ _ => 0) (preIntegrate start 1) (j + 1)) j) ∧
    relaxEnds (odRun none 1 1 (fun _ => 1) (fun _ _ _ => 0) (preIntegrate start 1) 12) 11 := by
  refine ⟨fun j hj h => by have := h.2; omega, ?_⟩
  apply C107_relax_ends none 1 1 _ _ start 1 rfl rfl 11 (by norm_num) (by norm_num)
  intro i _ _
  simp [mag]

/-- C107, negation: with another delay of the calculations (here 6) the relaxation can end while a particle has any acceleration. -/
theorem C107_negation_stale (B : ℝ) (hB : 0 < B) : ∃ f : ℕ → Arr → Arr, let s := preIntegrate { start with delay := 6 } 1
    (∀ j < 11, ¬ relaxEnds (odRun none 1 1 (fun _ => 1) f s (j + 1)) j) ∧ relaxEnds (odRun none 1 1 (fun _ => 1) f s 12) 11 ∧ mag 1 (f 11 (odRun none 1 1 (fun _ => 1) f s 11).x) 0 = B := by
  refine ⟨fun j _ => if j = 11 then fun _ => B else fun _ => 1/20, fun j hj h => by have := h.2; omega, ?_, ?_⟩
  · refine ⟨?_, by norm_num⟩
    have hacc : getMaxAcc 1 1 (fun _ => 1) (fun _ => 1/20) = 1/20 := by
      have hs : Real.sqrt ((1/20) ^ 2) = 1/20 := Real.sqrt_sq (by norm_num)
      simp only [getMaxAcc, List.range_one, List.foldl_cons, List.foldl_nil, accStep, mag, range_one, sum_singleton, hs]
      norm_num
    -- the maximal acceleration that is stored stays 1/20 after the first step
    have main : ∀ k ≤ 11, (odRun none 1 1 (fun _ => 1) (fun j _ => if j = 11 then fun _ => B else fun _ => 1/20) (preIntegrate { start with delay := 6 } 1) k).adjust = true ∧
        (odRun none 1 1 (fun _ => 1) (fun j _ => if j = 11 then fun _ => B else fun _ => 1/20) (preIntegrate { start with delay := 6 } 1) k).delay = 6 ∧
        (odRun none 1 1 (fun _ => 1) (fun j _ => if j = 11 then fun _ => B else fun _ => 1/20) (preIntegrate { start with delay := 6 } 1) k).count = (k + 6) % 7 ∧
        (0 < k → (odRun none 1 1 (fun _ => 1) (fun j _ => if j = 11 then fun _ => B else fun _ => 1/20) (preIntegrate { start with delay := 6 } 1) k).maxAcc = 1/20) := by
      intro k
      induction k with
      | zero => intro _; exact ⟨rfl, rfl, rfl, by simp⟩
      | succ k ih =>
        intro hk
        obtain ⟨a1, a2, a3, a4⟩ := ih (by omega)
        simp only [odRun, if_neg (show k ≠ 11 by omega)]
        obtain ⟨g1, g2, g3, g4, g5⟩ := step_count' none 1 1 (fun _ => 1) (odRun none 1 1 (fun _ => 1) (fun j _ => if j = 11 then fun _ => B else fun _ => 1/20) (preIntegrate { start with delay := 6 } 1) k)
          (fun _ => 1/20) a1
        refine ⟨g2, g3.trans a2, ?_, fun _ => ?_⟩
        · rw [g1, a2, a3]; split_ifs <;> omega
        · by_cases hf : Fresh (odRun none 1 1 (fun _ => 1) (fun j _ => if j = 11 then fun _ => B else fun _ => 1/20) (preIntegrate { start with delay := 6 } 1) k)
          · rw [g4 hf, hacc]
          · rw [g5 hf]
            apply a4
            rcases Nat.eq_zero_or_pos k with rfl | h
            · exact absurd (Or.inr rfl) hf
            · exact h
    obtain ⟨a1, a2, a3, a4⟩ := main 11 (le_refl _)
    rw [odRun]
    have hnf : ¬ Fresh (odRun none 1 1 (fun _ => 1) (fun j _ => if j = 11 then fun _ => B else fun _ => 1/20) (preIntegrate { start with delay := 6 } 1) 11) := by
      rintro (⟨_, h⟩ | h)
      · rw [a2, a3] at h; omega
      · rw [a4 (by norm_num)] at h; norm_num at h
    rw [(step_count' none 1 1 _ _ _ a1).2.2.2.2 hnf, a4 (by norm_num)]
    norm_num
  · simp only [mag, if_true, range_one, sum_singleton]
    exact Real.sqrt_sq hB.le

end Verif.Overdamped
