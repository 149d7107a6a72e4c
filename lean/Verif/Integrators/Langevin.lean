import Verif.Integrators.Verlet
import Mathlib.Analysis.Real.Sqrt
import Mathlib.Analysis.Real.Pi.Bounds

/-!
# Langevin integrators (C108)

Models `LangevinTypeIntegrator` (`integrators/langevintypeintegrator.*`), `LangevinIntegrator::pre_forces` and `post_forces` (`integrators/langevinintegrator.cpp:13-83`) and
`OverdampedLangevinIntegrator::post_forces` (`integrators/overdampedlangevin.cpp:11-49`). The random numbers are parameters; numbers are reals.
-/

namespace Verif.Langevin

open Finset Verif.Verlet

/-- The variables, `integrators/langevintypeintegrator.hpp:21-40`. -/
structure L where
  viscosity : ℝ
  temperature : ℝ
  drift : ℝ
  last : ℝ
  delay : ℝ

/-- The constructor, `integrators/langevintypeintegrator.cpp:5-9`. -/
noncomputable def L.make (T eta : ℝ) : L := ⟨eta, T, T / (6 * eta * Real.pi), 0, 1/100⟩

/-- The setters, `integrators/langevintypeintegrator.cpp:11-19`. -/
inductive Set where
  | viscosity (eta : ℝ)
  | temperature (T : ℝ)

/-- The effect of a setter, `integrators/langevintypeintegrator.cpp:11-19`. -/
noncomputable def L.set (s : L) : Set → L
  | .viscosity eta => { s with viscosity := eta, drift := s.temperature / (6 * eta * Real.pi) }
  | .temperature T => { s with temperature := T, drift := T / (6 * s.viscosity * Real.pi) }

open Classical in
/-- The condition for noise and its effect on `lastUpdate`, `integrators/langevinintegrator.cpp:57-71`, `integrators/overdampedlangevin.cpp:27-39`: the second component is `Df1` if noise is added. -/
noncomputable def L.noise (s : L) (time : ℝ) : L × Option ℝ :=
  if s.delay < time - s.last ∧ 0 < s.temperature then ({ s with last := time }, some (Real.sqrt (2 * s.drift * (time - s.last)))) else (s, none)

/-- The noise added to the forces, `integrators/langevinintegrator.cpp:62-68`; `rnd` are the values of `drand48()`. -/
noncomputable def addNoise (d total : ℕ) (df : Option ℝ) (sg rnd f : Arr) : Arr :=
  match df with
  | none => f
  | some a => plain total (fun i y => y + a * Real.sqrt (1 / sg (i / d)) * (rnd i - 1/2)) 0 f

/-- `pre_forces`, `integrators/langevinintegrator.cpp:13-41`. -/
noncomputable def preForces (d total : ℕ) (dt : ℝ) (im : Arr) (s : PS) : PS :=
  let v := plain total (fun i y => y + 1/2 * dt * im (i / d) * s.f i) 0 s.v
  ⟨plain total (fun i y => y + dt * v i) 0 s.x, v, s.f⟩

/-- The loop with the drag, `integrators/langevinintegrator.cpp:73-79`. Each pass reads and writes its own coordinate only, so that the two arrays are written one after the other here. -/
noncomputable def postForces (d total : ℕ) (dt eta : ℝ) (im sg : Arr) (s : PS) : PS :=
  let f := plain total (fun i y => y - 6 * Real.pi * eta * sg (i / d) * s.v i) 0 s.f
  ⟨s.x, plain total (fun i y => y + 1/2 * dt * im (i / d) * f i) 0 s.v, f⟩

/-- A step of a run with the Langevin integrator: the forces are cleared and calculated between the two parts, `gflow.cpp:154-233`. -/
noncomputable def langevinStep (d n : ℕ) (dt eta : ℝ) (im sg : Arr) (F : Arr → Arr) (df : Option ℝ) (rnd : Arr) (s : PS) : PS :=
  let s1 := preForces d (n * d) dt im s
  postForces d (n * d) dt eta im sg ⟨s1.x, s1.v, addNoise d (n * d) df sg rnd (F s1.x)⟩

/-- The last loop of the overdamped Langevin integrator, `integrators/overdampedlangevin.cpp:41-46`. -/
noncomputable def overdampedPost (d total : ℕ) (dt eta : ℝ) (im : Arr) (s : PS) : PS :=
  let v := plain total (fun i _ => eta * s.f i * im (i / d)) 0 s.v
  ⟨plain total (fun i y => y + v i * dt) 0 s.x, v, s.f⟩

/-! ## When and how much noise is added -/

/-- C108, the strength: after any sequence of setters the precomputed factor is the temperature divided by six pi times the viscosity. -/
theorem C108_drift (T eta : ℝ) (h : List Set) : (h.foldl L.set (L.make T eta)).drift =
    (h.foldl L.set (L.make T eta)).temperature / (6 * (h.foldl L.set (L.make T eta)).viscosity * Real.pi) := by
  have key : ∀ (h : List Set) (s : L), s.drift = s.temperature / (6 * s.viscosity * Real.pi) →
      (h.foldl L.set s).drift = (h.foldl L.set s).temperature / (6 * (h.foldl L.set s).viscosity * Real.pi) := by
    intro h
    induction h with
    | nil => intro s hs; exact hs
    | cons a h ih =>
      intro s _
      rw [List.foldl_cons]
      apply ih
      cases a <;> rfl
  exact key h _ rfl

/-- The noise of a run: the elapsed times of the steps, oldest first; the result is the state and the strengths `Df1`. -/
noncomputable def noiseRun : L → List ℝ → L × List ℝ
  | s, [] => (s, [])
  | s, t :: ts => ((noiseRun (s.noise t).1 ts).1, (s.noise t).2.toList ++ (noiseRun (s.noise t).1 ts).2)

theorem noise_keep (s : L) (t : ℝ) : (s.noise t).1.temperature = s.temperature ∧ (s.noise t).1.drift = s.drift ∧ (s.noise t).1.delay = s.delay ∧ (s.noise t).1.viscosity = s.viscosity := by
  unfold L.noise; split_ifs <;> simp

/-- C108, the noise of a run: for any increasing times of the steps and a positive temperature and drift, the squares of the strengths add up to twice the drift times the time between the first and the last noise
event, and no more than the delay (1/100) is missing at the end. So the noise does not depend on the time steps. -/
theorem C108_total_noise (s : L) (hT : 0 < s.temperature) (hd : 0 < s.drift) (hdel : 0 ≤ s.delay) (ts : List ℝ) (hs : ts.Pairwise (· ≤ ·)) (h0 : ∀ t ∈ ts, s.last ≤ t) :
    ((noiseRun s ts).2.map fun a => a ^ 2).sum = 2 * s.drift * ((noiseRun s ts).1.last - s.last) ∧ s.last ≤ (noiseRun s ts).1.last ∧
    (∀ t ∈ ts, t - (noiseRun s ts).1.last ≤ s.delay) ∧ (noiseRun s ts).1.last ∈ s.last :: ts := by
  induction ts generalizing s with
  | nil => simp [noiseRun]
  | cons t ts ih =>
    obtain ⟨k1, k2, k3, _⟩ := noise_keep s t
    rw [List.pairwise_cons] at hs
    have hlt := h0 t (by simp)
    have hlast : (s.noise t).1.last = s.last ∨ (s.noise t).1.last = t := by unfold L.noise; split_ifs <;> simp
    obtain ⟨i1, i2, i3, i4⟩ := ih (s.noise t).1 (k1 ▸ hT) (k2 ▸ hd) (k3 ▸ hdel) hs.2 (by
      intro u hu
      rcases hlast with h | h
      · rw [h]; exact h0 u (List.mem_cons_of_mem _ hu)
      · rw [h]; exact hs.1 u hu)
    simp only [noiseRun]
    rw [k2] at i1
    rw [k3] at i3
    refine ⟨?_, ?_, ?_, ?_⟩
    · rw [List.map_append, List.sum_append, i1]
      unfold L.noise
      split_ifs with hc
      · simp only [Option.toList_some, List.map_cons, List.map_nil, List.sum_cons, List.sum_nil, add_zero]
        rw [Real.sq_sqrt (mul_nonneg (by linarith) (by linarith))]
        ring
      · simp
    · rcases hlast with h | h
      · rw [← h]; exact i2
      · rw [h] at i2; exact hlt.trans i2
    · intro u hu
      rcases List.mem_cons.mp hu with rfl | hu
      · rcases hlast with h | h
        · have hn : ¬ (s.delay < u - s.last ∧ 0 < s.temperature) ∨ u = s.last := by
            by_cases hc : s.delay < u - s.last ∧ 0 < s.temperature
            · right
              unfold L.noise at h
              rw [if_pos hc] at h
              exact h
            · exact Or.inl hc
          rw [h] at i2
          rcases hn with hn | hn
          · have : u - s.last ≤ s.delay := by
              by_contra hc; exact hn ⟨not_le.mp hc, hT⟩
            linarith
          · linarith
        · rw [h] at i2; linarith
      · exact i3 u hu
    · rcases List.mem_cons.mp i4 with h | h
      · rw [h]
        rcases hlast with h | h
        · rw [h]; simp
        · rw [h]; simp
      · exact List.mem_cons_of_mem _ (List.mem_cons_of_mem _ h)

/-- The default integrator with steps of 1/200: noise is added in every third step. -/
example : ((noiseRun (L.make 1 1) [1/200, 2/200, 3/200, 4/200]).2).length = 1 := by
  simp only [noiseRun, L.noise, L.make]
  norm_num

/-- C108, negation: the time of the last noise is kept when a new run starts and the elapsed time starts again at zero: a second run that is not longer than the first (up to its last noise) gets no noise at all. -/
theorem C108_negation_second_run (s : L) (hdel : 0 ≤ s.delay) (ts ts' : List ℝ) (h : ∀ t ∈ ts', t ≤ (noiseRun s ts).1.last) : (noiseRun (noiseRun s ts).1 ts').2 = [] := by
  have hd : (noiseRun s ts).1.delay = s.delay := by
    induction ts generalizing s with
    | nil => rfl
    | cons t ts ih =>
      simp only [noiseRun] at h ⊢
      rw [ih _ (by rw [(noise_keep s t).2.2.1]; exact hdel) h]
      exact (noise_keep s t).2.2.1
  generalize (noiseRun s ts).1 = u at h hd
  induction ts' with
  | nil => rfl
  | cons t ts' ih =>
    have hn : u.noise t = (u, none) := by
      unfold L.noise
      rw [if_neg]
      rintro ⟨h1, _⟩
      have := h t (by simp)
      linarith
    simp only [noiseRun, hn]
    rw [ih (fun x hx => h x (List.mem_cons_of_mem _ hx))]
    rfl

/-- A first run with steps at 1 and 2 and a second one with steps at 1 and 2: the second has no noise although the first has. -/
example : (noiseRun (L.make 1 1) [1, 2]).2.length = 2 ∧ (noiseRun (noiseRun (L.make 1 1) [1, 2]).1 [1, 2]).2 = [] := by
  have e : (noiseRun (L.make 1 1) [1, 2]).1.last = 2 := by
    simp only [noiseRun, L.noise, L.make]; norm_num
  refine ⟨?_, C108_negation_second_run _ (by simp [L.make]) _ _ ?_⟩
  · simp only [noiseRun, L.noise, L.make]; norm_num
  · rw [e]; intro t ht; fin_cases ht <;> norm_num

/-- C108, negation: when the temperature is raised from zero at some time, the first noise has the strength of the whole time since the start: the time without temperature counts. -/
theorem C108_negation_heating (eta T t : ℝ) (hT : 0 < T) (ts : List ℝ) (ht : 1/100 < t) :
    (noiseRun (L.make 0 eta) ts).2 = [] ∧ (((noiseRun (L.make 0 eta) ts).1.set (.temperature T)).noise t).2 = some (Real.sqrt (2 * (T / (6 * eta * Real.pi)) * t)) := by
  have main : ∀ ts, noiseRun (L.make 0 eta) ts = (L.make 0 eta, []) := by
    intro ts
    induction ts with
    | nil => rfl
    | cons t ts ih =>
      have hn : (L.make 0 eta).noise t = (L.make 0 eta, none) := by
        unfold L.noise; rw [if_neg]; rintro ⟨_, h⟩; simp [L.make] at h
      simp only [noiseRun, hn, ih]; rfl
  rw [main]
  refine ⟨rfl, ?_⟩
  have hc : ((L.make 0 eta).set (.temperature T)).delay < t - ((L.make 0 eta).set (.temperature T)).last ∧ 0 < ((L.make 0 eta).set (.temperature T)).temperature := by
    simp only [L.set, L.make]; exact ⟨by linarith, hT⟩
  unfold L.noise
  rw [if_pos hc]
  simp [L.set, L.make]

/-- The default viscosity and temperature after one unit of time. -/
example : (0 : ℝ) < 1 ∧ (1/100 : ℝ) < 1 := by norm_num

/-! ## The forces and the drag -/

/-- C108, the noise of one event changes the force on each coordinate by at most half of the strength divided by the root of the radius. -/
theorem C108_noise_bound (d total : ℕ) (a : ℝ) (ha : 0 ≤ a) (sg rnd f : Arr) (hr : ∀ i, 0 ≤ rnd i ∧ rnd i < 1) (j : ℕ) :
    |addNoise d total (some a) sg rnd f j - f j| ≤ a * Real.sqrt (1 / sg (j / d)) / 2 ∧ (total ≤ j → addNoise d total (some a) sg rnd f j = f j) ∧ addNoise d total none sg rnd f j = f j := by
  simp only [addNoise]
  rw [plain_spec]
  have hs := Real.sqrt_nonneg (1 / sg (j / d))
  have hprod : 0 ≤ a * Real.sqrt (1 / sg (j / d)) := mul_nonneg ha hs
  refine ⟨?_, fun h => by rw [if_neg (by omega)], trivial⟩
  split_ifs
  · rw [add_sub_cancel_left, abs_mul, abs_of_nonneg hprod]
    have : |rnd j - 1/2| ≤ 1/2 := abs_le.mpr ⟨by linarith [(hr j).1], by linarith [(hr j).2]⟩
    calc a * Real.sqrt (1 / sg (j / d)) * |rnd j - 1/2| ≤ a * Real.sqrt (1 / sg (j / d)) * (1/2) := mul_le_mul_of_nonneg_left this hprod
      _ = _ := by ring
  · simp only [sub_self, abs_zero]; linarith

/-- Random numbers in the range. -/
example : ∃ rnd : Arr, ∀ i, 0 ≤ rnd i ∧ rnd i < 1 := ⟨fun _ => 1/4, fun _ => by norm_num⟩

/-- One coordinate of a step. -/
theorem step_coord (d n : ℕ) (dt eta : ℝ) (im sg : Arr) (F : Arr → Arr) (df : Option ℝ) (rnd : Arr) (s : PS) (i k : ℕ) (hi' : i < n) (hk : k < d) :
    let w := s.v (i * d + k) + 1/2 * dt * im i * s.f (i * d + k)
    let t := langevinStep d n dt eta im sg F df rnd s
    t.x (i * d + k) = s.x (i * d + k) + dt * w ∧
    t.f (i * d + k) = addNoise d (n * d) df sg rnd (F t.x) (i * d + k) - 6 * Real.pi * eta * sg i * w ∧
    t.v (i * d + k) = w + 1/2 * dt * im i * t.f (i * d + k) := by
  have hlt := idx_lt d n i k hk hi'
  have hid := idx d i k hk
  simp only [langevinStep, preForces, postForces, plain_spec, Nat.zero_le, true_and, hlt, if_true, hid]

/-- C108, the step: one step of the Langevin integrator is velocity Verlet with the force, the noise and the drag of the velocity `w` in the middle of the step; immovable particles keep their velocity. -/
theorem C108_step (d n : ℕ) (dt eta : ℝ) (im sg : Arr) (F : Arr → Arr) (df : Option ℝ) (rnd : Arr) (s : PS) (i k : ℕ) (hi' : i < n) (hk : k < d) :
    let t := langevinStep d n dt eta im sg F df rnd s
    (∃ w, w = s.v (i * d + k) + dt * im i * s.f (i * d + k) / 2 ∧ t.x (i * d + k) = s.x (i * d + k) + dt * w ∧
      t.f (i * d + k) = addNoise d (n * d) df sg rnd (F t.x) (i * d + k) - 6 * Real.pi * eta * sg i * w ∧ t.v (i * d + k) = w + dt * im i * t.f (i * d + k) / 2) ∧
    (im i = 0 → t.v (i * d + k) = s.v (i * d + k) ∧ t.x (i * d + k) = s.x (i * d + k) + dt * s.v (i * d + k)) := by
  obtain ⟨h1, h2, h3⟩ := step_coord d n dt eta im sg F df rnd s i k hi' hk
  simp only at h1 h2 h3 ⊢
  refine ⟨⟨_, rfl, ?_, ?_, ?_⟩, fun h0 => ?_⟩
  · rw [h1]; ring
  · rw [h2]; ring
  · rw [h3]; ring
  · rw [h3, h1, h0]; constructor <;> ring

/-- The steps of a run without forces and noise. -/
noncomputable def freeRun (d n : ℕ) (dt eta : ℝ) (im sg : Arr) (s : PS) : ℕ → PS
  | 0 => s
  | k + 1 => langevinStep d n dt eta im sg (fun _ _ => 0) none (fun _ => 0) (freeRun d n dt eta im sg s k)

/-- C108, the decay: without forces and noise the velocity after `N + 1` steps is `(1 - c/2) (1 - c)^N` times the first one, where `c` is the time step times the drag coefficient over the mass. -/
theorem C108_decay (d n : ℕ) (dt eta : ℝ) (im sg : Arr) (s : PS) (hf : ∀ j, s.f j = 0) (i k : ℕ) (hi' : i < n) (hk : k < d) (N : ℕ) :
    (freeRun d n dt eta im sg s (N + 1)).v (i * d + k) =
      (1 - dt * im i * (6 * Real.pi * eta * sg i) / 2) * (1 - dt * im i * (6 * Real.pi * eta * sg i)) ^ N * s.v (i * d + k) := by
  set g := 6 * Real.pi * eta * sg i with hg
  have main : (freeRun d n dt eta im sg s (N + 1)).v (i * d + k) = (1 - dt * im i * g / 2) * ((1 - dt * im i * g) ^ N * s.v (i * d + k)) ∧
      (freeRun d n dt eta im sg s (N + 1)).f (i * d + k) = - g * ((1 - dt * im i * g) ^ N * s.v (i * d + k)) := by
    induction N with
    | zero =>
      obtain ⟨_, h2, h3⟩ := step_coord d n dt eta im sg (fun _ _ => 0) none (fun _ => 0) s i k hi' hk
      simp only [addNoise, hf, mul_zero, add_zero, zero_sub] at h2 h3
      simp only [freeRun, pow_zero, one_mul]
      rw [h3, h2]
      constructor <;> ring
    | succ N ih =>
      obtain ⟨_, h2, h3⟩ := step_coord d n dt eta im sg (fun _ _ => 0) none (fun _ => 0) (freeRun d n dt eta im sg s (N + 1)) i k hi' hk
      simp only [addNoise] at h2 h3
      rw [ih.1, ih.2] at h2 h3
      rw [freeRun, h3, h2, pow_succ]
      constructor <;> ring
  rw [main.1]; ring

/-- C108 (partial), the drag slows particles: if the time step times the drag coefficient over the mass is at most one, then without forces and noise the speed is never larger than at first.
Missing: larger time steps (`C108_negation_unstable`). -/
theorem C108_slows_partial (d n : ℕ) (dt eta : ℝ) (im sg : Arr) (s : PS) (hf : ∀ j, s.f j = 0) (i k : ℕ) (hi' : i < n) (hk : k < d) (N : ℕ)
    (h0 : 0 ≤ dt * im i * (6 * Real.pi * eta * sg i)) (h1 : dt * im i * (6 * Real.pi * eta * sg i) ≤ 1) :
    |(freeRun d n dt eta im sg s (N + 1)).v (i * d + k)| ≤ |s.v (i * d + k)| := by
  rw [C108_decay d n dt eta im sg s hf i k hi' hk N, abs_mul, abs_mul, abs_pow]
  have a : |1 - dt * im i * (6 * Real.pi * eta * sg i) / 2| ≤ 1 := abs_le.mpr ⟨by linarith, by linarith⟩
  have b : |1 - dt * im i * (6 * Real.pi * eta * sg i)| ≤ 1 := abs_le.mpr ⟨by linarith, by linarith⟩
  have c := pow_le_one₀ (n := N) (abs_nonneg _) b
  have := mul_le_one₀ a (pow_nonneg (abs_nonneg _) N) c
  calc _ ≤ 1 * |s.v (i * d + k)| := mul_le_mul_of_nonneg_right this (abs_nonneg _)
    _ = _ := one_mul _

/-- A particle of mass and radius one in a medium of viscosity one with the time step 1/100. -/
example : 0 ≤ (1/100 : ℝ) * 1 * (6 * Real.pi * 1 * 1) ∧ (1/100 : ℝ) * 1 * (6 * Real.pi * 1 * 1) ≤ 1 := by
  have := Real.pi_pos; have := Real.pi_lt_four
  constructor <;> nlinarith

/-- C108, negation: with a time step that is too large for the viscosity the drag accelerates: if the time step times the drag coefficient over the mass is more than two, the speed of a free particle grows without bound. -/
theorem C108_negation_unstable (d n : ℕ) (dt eta : ℝ) (im sg : Arr) (s : PS) (hf : ∀ j, s.f j = 0) (i k : ℕ) (hi' : i < n) (hk : k < d)
    (h2 : 2 < dt * im i * (6 * Real.pi * eta * sg i)) (hv : s.v (i * d + k) ≠ 0) (B : ℝ) : ∃ N, B < |(freeRun d n dt eta im sg s (N + 1)).v (i * d + k)| := by
  set c := dt * im i * (6 * Real.pi * eta * sg i) with hc
  have hb : 1 < |1 - c| := by rw [abs_of_neg (by linarith)]; linarith
  have ha : 0 < |1 - c / 2| := by rw [abs_of_neg (by linarith)]; linarith
  have hp : 0 < |1 - c / 2| * |s.v (i * d + k)| := mul_pos ha (abs_pos.mpr hv)
  obtain ⟨N, hN⟩ := pow_unbounded_of_one_lt (B / (|1 - c / 2| * |s.v (i * d + k)|)) hb
  refine ⟨N, ?_⟩
  rw [C108_decay d n dt eta im sg s hf i k hi' hk N, abs_mul, abs_mul, abs_pow]
  rw [div_lt_iff₀ hp] at hN
  calc B < |1 - c| ^ N * (|1 - c / 2| * |s.v (i * d + k)|) := hN
    _ = _ := by ring

/-- A viscosity of 100 with the time step 1/100. -/
example : (2 : ℝ) < 1/100 * 1 * (6 * Real.pi * 100 * 1) := by
  have := Real.pi_gt_three; nlinarith

/-! ## The overdamped version -/

/-- C108, the overdamped step: the velocity of each owned particle is set to viscosity times acceleration and it moves by this velocity times the time step; immovable particles are at rest. -/
theorem C108_overdamped (d n : ℕ) (dt eta : ℝ) (im : Arr) (s : PS) (i k : ℕ) (hi' : i < n) (hk : k < d) :
    let t := overdampedPost d (n * d) dt eta im s
    t.v (i * d + k) = eta * (im i * s.f (i * d + k)) ∧ t.x (i * d + k) = s.x (i * d + k) + dt * t.v (i * d + k) ∧ (im i = 0 → t.v (i * d + k) = 0 ∧ t.x (i * d + k) = s.x (i * d + k)) := by
  have hlt := idx_lt d n i k hk hi'
  have hid := idx d i k hk
  simp only [overdampedPost, plain_spec, Nat.zero_le, true_and, hlt, if_true, hid]
  refine ⟨by ring, by ring, fun h => ?_⟩
  rw [h]; constructor <;> ring

/-- C108, negation: a larger viscosity makes the particles of the overdamped integrator faster, for every force. -/
theorem C108_negation_viscosity (d n : ℕ) (dt : ℝ) (hdt : 0 < dt) (im : Arr) (s : PS) (i k : ℕ) (hi' : i < n) (hk : k < d) (hm : 0 < im i) (hf : s.f (i * d + k) ≠ 0) (eta eta' : ℝ) (h0 : 0 < eta) (h : eta < eta') :
    |(overdampedPost d (n * d) dt eta im s).x (i * d + k) - s.x (i * d + k)| < |(overdampedPost d (n * d) dt eta' im s).x (i * d + k) - s.x (i * d + k)| := by
  obtain ⟨a1, a2, _⟩ := C108_overdamped d n dt eta im s i k hi' hk
  obtain ⟨b1, b2, _⟩ := C108_overdamped d n dt eta' im s i k hi' hk
  rw [a2, b2, a1, b1, add_sub_cancel_left, add_sub_cancel_left, abs_mul, abs_mul dt, abs_mul eta, abs_mul eta', abs_of_pos hdt, abs_of_pos h0, abs_of_pos (h0.trans h)]
  have hp : 0 < |im i * s.f (i * d + k)| := abs_pos.mpr (mul_ne_zero hm.ne' hf)
  exact mul_lt_mul_of_pos_left (mul_lt_mul_of_pos_right h hp) hdt

/-- One particle with the force one. -/
example : ∃ (im : Arr) (s : PS), 0 < im 0 ∧ s.f (0 * 1 + 0) ≠ 0 := ⟨fun _ => 1, ⟨fun _ => 0, fun _ => 0, fun _ => 1⟩, one_pos, one_ne_zero⟩

end Verif.Langevin
