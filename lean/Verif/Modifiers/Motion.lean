import Verif.Modifiers.Removers

/-!
# Modifiers that prescribe a motion (C82)

Models `modifiers/constantvelocity.cpp` and `modifiers/constantvelocitydistance.cpp` inside of steps of velocity Verlet, in the
order of `gflow.cpp:142-260`: half kick, move, new forces, `post_forces` of the modifier, half kick. Exact real arithmetic.
-/

namespace Verif.Motion
open Verif.PairForces Verif.Groups Verif.Removers

variable {d : ℕ}

/-- First half kick and move of `integrators/velocity-verlet.tpp:22-103` (their loops are in `Verif.Integrators.Verlet`), and the forces
`F` that the interactions of this step produce (any). -/
noncomputable def first (W : World d) (dt : ℝ) (F : ℕ → Fin d → ℝ) : World d :=
  ⟨W.lid, fun i k => W.x i k + dt * (W.v i k + 1/2 * dt * W.im i * W.f i k), fun i k => W.v i k + 1/2 * dt * W.im i * W.f i k, F, W.im,
    W.lo, W.hi, W.wrap⟩

/-- Second half kick, `integrators/velocity-verlet.tpp:22-103`. -/
noncomputable def second (W : World d) (dt : ℝ) : World d := setV W fun i k => W.v i k + 1/2 * dt * W.im i * W.f i k

/-- A step without modifiers. -/
noncomputable def free (W : World d) (dt : ℝ) (F : ℕ → Fin d → ℝ) : World d := second (first W dt F) dt

/-- `ConstantVelocity::post_forces`, `modifiers/constantvelocity.cpp:14-25`: the flag is `remove`. -/
def cvPost (g : ℕ) (V : Fin d → ℝ) (remove : Bool) (W : World d) : Bool × World d :=
  match W.lid g with
  | none => (true, W)
  | some i => (remove, setF (setV W (Function.update W.v i V)) (Function.update W.f i fun _ => 0))

/-- A step with a `ConstantVelocity`. -/
noncomputable def cvStep (g : ℕ) (V : Fin d → ℝ) (s : Bool × World d) (dt : ℝ) (F : ℕ → Fin d → ℝ) : Bool × World d :=
  let r := cvPost g V s.1 (first s.2 dt F)
  (r.1, second r.2 dt)

/-- A run of steps. -/
noncomputable def cvRun (g : ℕ) (V : Fin d → ℝ) (s : Bool × World d) (l : List (ℝ × (ℕ → Fin d → ℝ))) : Bool × World d :=
  l.foldl (fun s a => cvStep g V s a.1 a.2) s

/-- The same run without the modifier. -/
noncomputable def freeRun (W : World d) (l : List (ℝ × (ℕ → Fin d → ℝ))) : World d := l.foldl (fun W a => free W a.1 a.2) W

/-- The members of `ConstantVelocityDistance`, `modifiers/constantvelocitydistance.hpp`, that change. -/
structure Dist (d : ℕ) where
  remove : Bool
  displacement : Fin d → ℝ
  moving : Bool

/-- The constructor, `modifiers/constantvelocitydistance.cpp:7-12`. -/
def Dist.new : Dist d := ⟨false, fun _ => 0, true⟩

/-- `ConstantVelocityDistance::post_forces`, `modifiers/constantvelocitydistance.cpp:19-43`. -/
noncomputable def Dist.post (g : ℕ) (V : Fin d → ℝ) (D dt : ℝ) (m : Dist d) (W : World d) : Dist d × World d :=
  match W.lid g with
  | none => (⟨true, m.displacement, m.moving⟩, W)
  | some i =>
    if !m.moving then
      (m, setV (setF W (Function.update W.f i fun _ => 0)) (Function.update W.v i fun _ => 0))
    else
      let disp : Fin d → ℝ := fun k => m.displacement k + V k * dt
      (⟨m.remove, disp, open Classical in if dot disp disp > D * D then false else m.moving⟩,
        setF (setV W (Function.update W.v i V)) (Function.update W.f i fun _ => 0))

/-- A step with a `ConstantVelocityDistance`. -/
noncomputable def distStep (g : ℕ) (V : Fin d → ℝ) (D : ℝ) (s : Dist d × World d) (dt : ℝ) (F : ℕ → Fin d → ℝ) :
    Dist d × World d :=
  let r := s.1.post g V D dt (first s.2 dt F)
  (r.1, second r.2 dt)

/-- A run of steps. -/
noncomputable def distRun (g : ℕ) (V : Fin d → ℝ) (D : ℝ) (s : Dist d × World d) (l : List (ℝ × (ℕ → Fin d → ℝ))) :
    Dist d × World d :=
  l.foldl (fun s a => distStep g V D s a.1 a.2) s

/-! ## C82 -/

theorem cvStep_some (g i : ℕ) (V : Fin d → ℝ) (s : Bool × World d) (hg : s.2.lid g = some i) (dt : ℝ) (F : ℕ → Fin d → ℝ) :
    (cvStep g V s dt F).1 = s.1 ∧ (cvStep g V s dt F).2.lid = s.2.lid ∧ (cvStep g V s dt F).2.im = s.2.im ∧
      (cvStep g V s dt F).2.v i = V ∧ ((cvStep g V s dt F).2.f i = fun _ => 0) ∧
      (∀ j k, (cvStep g V s dt F).2.x j k = s.2.x j k + dt * (s.2.v j k + 1/2 * dt * s.2.im j * s.2.f j k)) ∧
      ∀ j ≠ i, (cvStep g V s dt F).2.v j = (free s.2 dt F).v j ∧ (cvStep g V s dt F).2.f j = F j := by
  have hg' : (first s.2 dt F).lid g = some i := hg
  unfold cvStep cvPost
  rw [hg']
  refine ⟨rfl, rfl, rfl, ?_, ?_, fun j k => rfl, fun j hj => ⟨?_, ?_⟩⟩
  · funext k; simp [second, setV, setF]
  · simp [second, setV, setF]
  · funext k; simp [second, setV, setF, free, first, Function.update_of_ne hj]
  · simp [second, setV, setF, first, Function.update_of_ne hj]

/-- **C82, constant velocity.** After its first step the particle has the velocity `V` and no force, whatever acts on it, and from
then on it moves by exactly `V` times the time; every other particle moves as without the modifier. -/
theorem C82_constant_velocity (g i : ℕ) (V : Fin d → ℝ) (b : Bool) (W : World d) (hg : W.lid g = some i)
    (dt : ℝ) (F : ℕ → Fin d → ℝ) (l : List (ℝ × (ℕ → Fin d → ℝ))) :
    (cvRun g V (b, W) ((dt, F) :: l)).1 = b ∧
    (∀ k, (cvRun g V (b, W) ((dt, F) :: l)).2.v i k = V k) ∧ (∀ k, (cvRun g V (b, W) ((dt, F) :: l)).2.f i k = 0) ∧
    (∀ k, (cvRun g V (b, W) ((dt, F) :: l)).2.x i k = (free W dt F).x i k + V k * (l.map (·.1)).sum) ∧
    ∀ j ≠ i, ∀ k, (cvRun g V (b, W) ((dt, F) :: l)).2.x j k = (freeRun W ((dt, F) :: l)).x j k ∧
      (cvRun g V (b, W) ((dt, F) :: l)).2.v j k = (freeRun W ((dt, F) :: l)).v j k ∧
      (cvRun g V (b, W) ((dt, F) :: l)).2.f j k = (freeRun W ((dt, F) :: l)).f j k := by
  have key : ∀ (l : List (ℝ × (ℕ → Fin d → ℝ))) (s : Bool × World d) (U : World d), s.2.lid g = some i → s.2.v i = V →
      (s.2.f i = fun _ => 0) → s.2.im = U.im → (∀ j ≠ i, s.2.x j = U.x j ∧ s.2.v j = U.v j ∧ s.2.f j = U.f j) →
      (cvRun g V s l).1 = s.1 ∧ (cvRun g V s l).2.v i = V ∧ ((cvRun g V s l).2.f i = fun _ => 0) ∧
      (∀ k, (cvRun g V s l).2.x i k = s.2.x i k + V k * (l.map (·.1)).sum) ∧
      ∀ j ≠ i, (cvRun g V s l).2.x j = (freeRun U l).x j ∧ (cvRun g V s l).2.v j = (freeRun U l).v j ∧
        (cvRun g V s l).2.f j = (freeRun U l).f j := by
    intro l
    induction l with
    | nil =>
      intro s U h1 h2 h3 h4 h5
      exact ⟨rfl, h2, h3, fun k => by simp [cvRun], h5⟩
    | cons a l ih =>
      intro s U h1 h2 h3 h4 h5
      obtain ⟨e1, e2, e3, e4, e5, e6, e7⟩ := cvStep_some g i V s h1 a.1 a.2
      obtain ⟨r1, r2, r3, r4, r5⟩ := ih (cvStep g V s a.1 a.2) (free U a.1 a.2) (by rw [e2]; exact h1) e4 e5 (by rw [e3, h4]; rfl) (by
        intro j hj
        obtain ⟨x1, x2, x3⟩ := h5 j hj
        refine ⟨?_, ?_, ?_⟩
        · funext k; rw [e6 j k]; simp [free, second, first, setV, x1, x2, x3, h4]
        · rw [(e7 j hj).1]; funext k; simp [free, second, first, setV, x2, x3, h4]
        · rw [(e7 j hj).2]; rfl)
      refine ⟨r1.trans e1, r2, r3, fun k => ?_, r5⟩
      have : cvRun g V s (a :: l) = cvRun g V (cvStep g V s a.1 a.2) l := rfl
      rw [this, r4 k, e6 i k, h2, h3]
      simp only [List.map_cons, List.sum_cons]; ring
  obtain ⟨e1, e2, e3, e4, e5, e6, e7⟩ := cvStep_some g i V (b, W) hg dt F
  obtain ⟨r1, r2, r3, r4, r5⟩ := key l (cvStep g V (b, W) dt F) (free W dt F) (by rw [e2]; exact hg) e4 e5 (by rw [e3]; rfl) (by
    intro j hj
    refine ⟨?_, ?_, ?_⟩
    · funext k; rw [e6 j k]; rfl
    · rw [(e7 j hj).1]
    · rw [(e7 j hj).2]; rfl)
  have hc : cvRun g V (b, W) ((dt, F) :: l) = cvRun g V (cvStep g V (b, W) dt F) l := rfl
  rw [hc]
  refine ⟨r1.trans e1, fun k => by rw [r2], fun k => by rw [r3], fun k => ?_, fun j hj k => ?_⟩
  · rw [r4 k, e6 i k]; rfl
  · obtain ⟨q1, q2, q3⟩ := r5 j hj
    exact ⟨congrFun q1 k, congrFun q2 k, congrFun q3 k⟩

/-- **C82, removed particles.** When the particle is gone both modifiers ask to be removed, and the run goes on as without them. -/
theorem C82_removed (g : ℕ) (V : Fin d → ℝ) (D : ℝ) (s : Bool × World d) (m : Dist d) (hg : s.2.lid g = none) (dt : ℝ)
    (F : ℕ → Fin d → ℝ) :
    cvStep g V s dt F = (true, free s.2 dt F) ∧
      (distStep g V D (m, s.2) dt F).1.remove = true ∧ (distStep g V D (m, s.2) dt F).2 = free s.2 dt F := by
  have hg' : (first s.2 dt F).lid g = none := hg
  refine ⟨?_, ?_, ?_⟩
  · unfold cvStep cvPost; rw [hg']; rfl
  · unfold distStep Dist.post; simp only; rw [hg']
  · unfold distStep Dist.post; simp only; rw [hg']; rfl

/-- The number of moves that the distance `D` takes at speed `s` in steps of `h`: one more than fit into it. -/
noncomputable def moves (D h s : ℝ) : ℕ := ⌊D / (h * s)⌋₊ + 1

theorem moves_spec (D h s : ℝ) (hD : 0 ≤ D) (hh : 0 < h) (hs : 0 < s) (n : ℕ) : n < moves D h s ↔ (n : ℝ) * h * s ≤ D := by
  unfold moves
  rw [Nat.lt_succ_iff, Nat.le_floor_iff (div_nonneg hD (mul_pos hh hs).le), le_div_iff₀ (mul_pos hh hs), mul_assoc]

theorem dot_scale (c : ℝ) (V : Fin d → ℝ) : dot (fun k => c * V k) (fun k => c * V k) = c * c * dot V V := by
  unfold dot; rw [Finset.mul_sum]; exact Finset.sum_congr rfl fun k _ => by ring

theorem ite_dec {p q : Prop} [Decidable p] [Decidable q] (h : p ↔ ¬ q) : (if p then false else true) = decide q := by
  by_cases hq : q <;> simp [h, hq]

/-- **C82, motion over a distance (partial).** With a constant time step `h`, from the end of its first step on the particle makes `moves` moves of `V h`
and then stays where it is for good, whatever forces act on it: after `n` further steps it was displaced by
`min n moves * h * V`. The whole way is longer than `D` by at most one move.
Missing: time steps that change, see `C82_negation_short` and `C82_negation_long`. -/
theorem C82_distance_partial (g i : ℕ) (V : Fin d → ℝ) (hV : 0 < dot V V) (D h : ℝ) (hD : 0 ≤ D) (hh : 0 < h) (W : World d)
    (hg : W.lid g = some i) (F : ℕ → Fin d → ℝ) (l : List (ℕ → Fin d → ℝ)) :
    let N := moves D h (Real.sqrt (dot V V))
    let R := distRun g V D (Dist.new, W) ((h, F) :: l.map fun F => (h, F))
    (∀ k, R.2.x i k = (free W h F).x i k + (min l.length N : ℕ) * h * V k) ∧
      (N ≤ l.length → ∀ k, R.2.v i k = 0) ∧
      D < N * h * Real.sqrt (dot V V) ∧ N * h * Real.sqrt (dot V V) ≤ D + h * Real.sqrt (dot V V) := by
  intro N R
  set s := Real.sqrt (dot V V) with hs
  have hs0 : 0 < s := Real.sqrt_pos.mpr hV
  have hss : dot V V = s * s := (Real.mul_self_sqrt hV.le).symm
  have hN := moves_spec D h s hD hh hs0
  have hlast : D < N * h * s := by
    have := (not_congr (hN N)).mp (lt_irrefl _); exact not_le.mp this
  have hprev : N * h * s ≤ D + h * s := by
    have h1 : N - 1 < N := by show moves D h s - 1 < moves D h s; unfold moves; omega
    have h2 := (hN (N - 1)).mp h1
    have h3 : ((N - 1 : ℕ) : ℝ) = N - 1 := by
      rw [Nat.cast_sub (by show 1 ≤ moves D h s; unfold moves; omega)]; simp
    rw [h3] at h2; linarith
  have hmove : ∀ n : ℕ, 0 < n → ((n : ℝ) * h * (n * h) * dot V V > D * D ↔ N ≤ n) := by
    intro n hn
    rw [hss]
    have h1 : (n : ℝ) * h * (n * h) * (s * s) = (n * h * s) * (n * h * s) := by ring
    rw [h1]
    have h2 : (0:ℝ) ≤ n * h * s := by positivity
    constructor
    · intro h3
      by_contra hc
      have := (hN n).mp (not_le.mp hc)
      nlinarith
    · intro h3
      have : D < n * h * s := not_le.mp ((not_congr (hN n)).mp (not_lt.mpr h3))
      nlinarith
  have key : ∀ (l : List (ℕ → Fin d → ℝ)) (c : ℕ) (m : Dist d) (U : World d), 0 < c → U.lid g = some i →
      m.moving = decide (c < N) → (∀ k, m.displacement k = (min c N : ℕ) * h * V k) →
      (∀ k, U.v i k = if c ≤ N then V k else 0) → (∀ k, U.f i k = 0) →
      (∀ k, (distRun g V D (m, U) (l.map fun F => (h, F))).2.x i k =
        U.x i k + ((min (l.length + c - 1) N : ℕ) - (min (c - 1) N : ℕ)) * h * V k) ∧
      ∀ k, (distRun g V D (m, U) (l.map fun F => (h, F))).2.v i k = if l.length + c ≤ N then V k else 0 := by
    intro l
    induction l with
    | nil =>
      intro c m U hc hl hm hdp hv hf
      refine ⟨fun k => by simp [distRun], fun k => ?_⟩
      simp only [List.map_nil, List.length_nil, zero_add]
      exact hv k
    | cons F l ih =>
      intro c m U hc hl hm hdp hv hf
      have hl' : (first U h F).lid g = some i := hl
      have hx : ∀ k, (first U h F).x i k = U.x i k + h * (if c ≤ N then V k else 0) := by
        intro k; simp only [first, hv k, hf k]; ring
      have hxm : ∀ k, U.x i k + h * (if c ≤ N then V k else 0) = U.x i k + ((min c N : ℕ) - (min (c - 1) N : ℕ)) * h * V k := by
        intro k
        by_cases hcN : c ≤ N
        · rw [if_pos hcN, Nat.min_eq_left hcN, Nat.min_eq_left (by omega), Nat.cast_sub hc]; push_cast; ring
        · rw [if_neg hcN, Nat.min_eq_right (by omega), Nat.min_eq_right (by omega)]; ring
      obtain ⟨m', U', e, hl2, hm2, hd2, hx2, hv2, hf2⟩ : ∃ m' U', distStep g V D (m, U) h F = (m', U') ∧ U'.lid g = some i ∧
          m'.moving = decide (c + 1 < N) ∧ (∀ k, m'.displacement k = (min (c + 1) N : ℕ) * h * V k) ∧
          (∀ k, U'.x i k = (first U h F).x i k) ∧ (∀ k, U'.v i k = if c + 1 ≤ N then V k else 0) ∧ ∀ k, U'.f i k = 0 := by
        by_cases hcN : c < N
        · have hmv : m.moving = true := by rw [hm]; exact decide_eq_true hcN
          have hdisp : (fun k => m.displacement k + V k * h) = fun k => (((c + 1 : ℕ) : ℝ) * h) * V k := by
            funext k; rw [hdp k, Nat.min_eq_left hcN.le]; push_cast; ring
          refine ⟨_, _, rfl, ?_, ?_, ?_, ?_, ?_, ?_⟩
          all_goals simp only [distStep, Dist.post, hl', hmv, Bool.not_true, Bool.false_eq_true, if_false]
          · exact hl
          · rw [hdisp, dot_scale]
            by_cases h5 : c + 1 < N
            · rw [if_neg (fun h6 => absurd ((hmove (c+1) (by omega)).mp h6) (by omega))]
              simp [h5]
            · rw [if_pos ((hmove (c+1) (by omega)).mpr (by omega))]
              simp [h5]
          · intro k; rw [hdp k, Nat.min_eq_left hcN.le, Nat.min_eq_left (by omega)]; push_cast; ring
          · intro k; rfl
          · intro k; simp [second, setV, setF]; intro h6; omega
          · intro k; simp [second, setV, setF]
        · have hmv : m.moving = false := by rw [hm]; exact decide_eq_false hcN
          refine ⟨_, _, rfl, ?_, ?_, ?_, ?_, ?_, ?_⟩
          all_goals simp only [distStep, Dist.post, hl', hmv, Bool.not_false, if_true]
          · exact hl
          · symm; exact decide_eq_false (by omega)
          · intro k; rw [hdp k, Nat.min_eq_right (by omega), Nat.min_eq_right (by omega)]
          · intro k; rfl
          · intro k; rw [if_neg (by omega)]; simp [second, setV, setF]
          · intro k; simp [second, setV, setF]
      have hr : distRun g V D (m, U) ((F :: l).map fun F => (h, F)) = distRun g V D (m', U') (l.map fun F => (h, F)) := by
        rw [← e]; rfl
      rw [hr]
      obtain ⟨q1, q2⟩ := ih (c + 1) m' U' (by omega) hl2 hm2 hd2 hv2 hf2
      refine ⟨fun k => ?_, fun k => ?_⟩
      · rw [q1 k, hx2 k, hx k, hxm k]
        simp only [List.length_cons]
        rw [show l.length + (c + 1) - 1 = l.length + 1 + c - 1 by omega, show c + 1 - 1 = c by omega]
        ring
      · rw [q2 k]; simp only [List.length_cons]
        rw [show l.length + (c + 1) = l.length + 1 + c by omega]
  have hl' : (first W h F).lid g = some i := hg
  have hN1 : 1 ≤ N := by show 1 ≤ moves D h s; unfold moves; omega
  obtain ⟨m', U', e, hl2, hm2, hd2, hx2, hv2, hf2⟩ : ∃ m' U', distStep g V D (Dist.new, W) h F = (m', U') ∧ U'.lid g = some i ∧
      m'.moving = decide (1 < N) ∧ (∀ k, m'.displacement k = (min 1 N : ℕ) * h * V k) ∧
      (∀ k, U'.x i k = (free W h F).x i k) ∧ (∀ k, U'.v i k = if 1 ≤ N then V k else 0) ∧ ∀ k, U'.f i k = 0 := by
    have hdisp : (fun k => (0:ℝ) + V k * h) = fun k => (((1 : ℕ) : ℝ) * h) * V k := by
      funext k; push_cast; ring
    refine ⟨_, _, rfl, ?_, ?_, ?_, ?_, ?_, ?_⟩
    all_goals simp only [distStep, Dist.post, hl', Dist.new, Bool.not_true, Bool.false_eq_true, if_false]
    · exact hg
    · have hdd : dot (fun k => (0:ℝ) + V k * h) (fun k => (0:ℝ) + V k * h) = ((1 : ℕ) : ℝ) * h * (((1 : ℕ) : ℝ) * h) * dot V V := by
        rw [hdisp, dot_scale]
      have h6 := hmove 1 (by omega)
      rw [← hdd] at h6
      exact ite_dec (h6.trans (not_lt).symm)
    · intro k; rw [Nat.min_eq_left hN1]; push_cast; ring
    · intro k; rfl
    · intro k; rw [if_pos hN1]; simp [second, setV, setF]
    · intro k; simp [second, setV, setF]
  have hr : R = distRun g V D (m', U') (l.map fun F => (h, F)) := by
    show distRun g V D (distStep g V D (Dist.new, W) h F) _ = _
    rw [e]
  obtain ⟨q1, q2⟩ := key l 1 m' U' (by omega) hl2 hm2 hd2 hv2 hf2
  refine ⟨fun k => ?_, fun hln k => ?_, hlast, hprev⟩
  · rw [hr, q1 k, hx2 k, show l.length + 1 - 1 = l.length by omega]; simp
  · rw [hr, q2 k, if_neg (by omega)]

/-- One particle on a line, at rest at zero. -/
noncomputable def line : World 1 :=
  ⟨some, fun _ _ => 0, fun _ _ => 0, fun _ _ => 0, fun _ => 1, fun _ => 0, fun _ => 100, fun _ => false⟩

/-- The hypotheses of the theorems above are met. -/
example : line.lid 0 = some 0 ∧ 0 < dot (fun _ : Fin 1 => (1:ℝ)) (fun _ => 1) ∧
    cvRun 0 (fun _ => 1) (false, line) [(1, fun _ _ => 7), (2, fun _ _ => 7)] ≠ (true, line) := by
  refine ⟨rfl, by simp [dot], fun h => ?_⟩
  have := (C82_constant_velocity 0 0 (fun _ : Fin 1 => (1:ℝ)) false line rfl 1 (fun _ _ => 7) [(2, fun _ _ => 7)]).1
  rw [h] at this; exact absurd this (by decide)

/-- **C82 is false of time steps that shrink.** The modifier counts the time step of the step in which it is called, but the particle moves in the next
step. With steps of 10, 1, 1 and speed 1 it was to travel 5 and stops after 1. -/
theorem C82_negation_short (dts : List ℝ) :
    (distRun 0 (fun _ => 1) 5 (Dist.new, line) ((10, fun _ _ => 0) :: (1, fun _ _ => 0) :: dts.map fun h => (h, fun _ _ => 0))).2.x 0 0 = 1 := by
  have rest : ∀ (dts : List ℝ) (m : Dist 1) (U : World 1), U.lid = some → m.moving = false → U.v 0 0 = 0 → U.f 0 0 = 0 →
      (distRun 0 (fun _ => 1) 5 (m, U) (dts.map fun h => (h, fun _ _ => 0))).2.x 0 0 = U.x 0 0 := by
    intro dts
    induction dts with
    | nil => intro m U _ _ _ _; rfl
    | cons h dts ih =>
      intro m U h1 h2 h3 h4
      have hl : (first U h fun _ _ => 0).lid 0 = some 0 := by show U.lid 0 = _; rw [h1]
      obtain ⟨m', U', e, q1, q2, q3, q4, q5⟩ : ∃ m' U', distStep 0 (fun _ => 1) 5 (m, U) h (fun _ _ => 0) = (m', U') ∧ U'.lid = some ∧
          m'.moving = false ∧ U'.v 0 0 = 0 ∧ U'.f 0 0 = 0 ∧ U'.x 0 0 = U.x 0 0 := by
        refine ⟨_, _, rfl, ?_, ?_, ?_, ?_, ?_⟩
        all_goals simp only [distStep, Dist.post, hl, h2, Bool.not_false, if_true]
        · exact h1
        · simp [second, setV, setF]
        · simp [second, setV, setF]
        · simp [second, setV, setF, first, h3, h4]
      have : distRun 0 (fun _ => 1) 5 (m, U) ((h :: dts).map fun h => (h, fun _ _ => 0)) =
          distRun 0 (fun _ => 1) 5 (m', U') (dts.map fun h => (h, fun _ _ => 0)) := by rw [← e]; rfl
      rw [this, ih m' U' q1 q2 q3 q4, q5]
  have h0 : distRun 0 (fun _ => 1) 5 (Dist.new, line) ((10, fun _ _ => 0) :: (1, fun _ _ => 0) :: dts.map fun h => (h, fun _ _ => 0)) =
      distRun 0 (fun _ => 1) 5 (distStep 0 (fun _ => 1) 5 (distStep 0 (fun _ => 1) 5 (Dist.new, line) 10 fun _ _ => 0) 1 fun _ _ => 0)
        (dts.map fun h => (h, fun _ _ => 0)) := rfl
  rw [h0]
  obtain ⟨m1, U1, e1, a1, a2, a3, a4, a5⟩ : ∃ m' U', distStep 0 (fun _ => 1) 5 (Dist.new, line) 10 (fun _ _ => 0) = (m', U') ∧
      U'.lid = some ∧ m'.moving = false ∧ U'.v 0 0 = 1 ∧ U'.f 0 0 = 0 ∧ U'.x 0 0 = 0 := by
    refine ⟨_, _, rfl, ?_, ?_, ?_, ?_, ?_⟩
    all_goals simp only [distStep, Dist.post, Dist.new, first, line]
    all_goals simp [second, setV, setF, dot]
    norm_num
  rw [e1]
  obtain ⟨m2, U2, e2, b1, b2, b3, b4, b5⟩ : ∃ m' U', distStep 0 (fun _ => 1) 5 (m1, U1) 1 (fun _ _ => 0) = (m', U') ∧
      U'.lid = some ∧ m'.moving = false ∧ U'.v 0 0 = 0 ∧ U'.f 0 0 = 0 ∧ U'.x 0 0 = 1 := by
    have hl : (first U1 1 fun _ _ => 0).lid 0 = some 0 := by show U1.lid 0 = _; rw [a1]
    refine ⟨_, _, rfl, ?_, ?_, ?_, ?_, ?_⟩
    all_goals simp only [distStep, Dist.post, hl, a2, Bool.not_false, if_true]
    · exact a1
    · simp [second, setV, setF]
    · simp [second, setV, setF]
    · simp [second, setV, setF, first, a3, a4, a5]
  rw [e2, rest dts m2 U2 b1 b2 b3 b4, b5]

/-- **C82 is false of time steps that grow.** With steps of 1, 9, 9 and speed 1, a particle that was to travel 1 travels 18. -/
theorem C82_negation_long :
    (distRun 0 (fun _ => 1) 1 (Dist.new, line) [(1, fun _ _ => 0), (9, fun _ _ => 0), (9, fun _ _ => 0)]).2.x 0 0 = 18 := by
  have h0 : distRun 0 (fun _ => 1) 1 (Dist.new, line) [(1, fun _ _ => 0), (9, fun _ _ => 0), (9, fun _ _ => 0)] =
      distStep 0 (fun _ => 1) 1 (distStep 0 (fun _ => 1) 1 (distStep 0 (fun _ => 1) 1 (Dist.new, line) 1 fun _ _ => 0) 9 fun _ _ => 0) 9
        fun _ _ => 0 := rfl
  rw [h0]
  obtain ⟨m1, U1, e1, a1, a2, a6, a3, a4, a5⟩ : ∃ m' U', distStep 0 (fun _ => 1) 1 (Dist.new, line) 1 (fun _ _ => 0) = (m', U') ∧
      U'.lid = some ∧ m'.moving = true ∧ m'.displacement 0 = 1 ∧ U'.v 0 0 = 1 ∧ U'.f 0 0 = 0 ∧ U'.x 0 0 = 0 := by
    refine ⟨_, _, rfl, ?_, ?_, ?_, ?_, ?_, ?_⟩
    all_goals simp only [distStep, Dist.post, Dist.new, first, line]
    all_goals simp [second, setV, setF, dot]
  rw [e1]
  obtain ⟨m2, U2, e2, b1, b3, b4, b5⟩ : ∃ m' U', distStep 0 (fun _ => 1) 1 (m1, U1) 9 (fun _ _ => 0) = (m', U') ∧
      U'.lid = some ∧ U'.v 0 0 = 1 ∧ U'.f 0 0 = 0 ∧ U'.x 0 0 = 9 := by
    have hl : (first U1 9 fun _ _ => 0).lid 0 = some 0 := by show U1.lid 0 = _; rw [a1]
    refine ⟨_, _, rfl, ?_, ?_, ?_, ?_⟩
    all_goals simp only [distStep, Dist.post, hl, a2, Bool.not_true, Bool.false_eq_true, if_false]
    · exact a1
    · simp [second, setV, setF]
    · simp [second, setV, setF]
    · simp [second, setV, setF, first, a3, a4, a5]
  rw [e2]
  have hl : (first U2 9 fun _ _ => 0).lid 0 = some 0 := by show U2.lid 0 = _; rw [b1]
  simp only [distStep, Dist.post, hl]
  by_cases hm : m2.moving <;> simp [hm, second, setV, setF, first, b3, b4, b5] <;> norm_num

end Verif.Motion
