import Verif.Integrators.Verlet
import Verif.Forces.PairForces

/-!
# C161: rotations of discs

Models which integrators a two dimensional simulation has (`interactions/generic-forces.hpp:667-676`, `gflow.cpp:480-483`), their
order in a step of `GFlow::run` (`gflow.cpp:171-172,233-234`, torques cleared at `gflow.cpp:777`) and the torques of the Hooke
kernel (`Verif.Forces.PairForces`). Exact arithmetic.
-/

namespace Verif.Rotation

open Verif.Verlet Verif.PairForces

/-! ## Model -/

/-- Interactions of a setup, as far as rotation is concerned: Hooke contacts or others. -/
inductive Kind
  | hooke
  | other
deriving DecidableEq

/-- Construction of the interactions one after another: the constructor of each Hooke interaction adds an angular integrator in
two dimensions (`interactions/generic-forces.hpp:667-676`, `interactions/interaction-choice.cpp:58-62`); `GFlow::addIntegrator`
appends without looking for one that exists (`gflow.cpp:480-483`). The result is the number of angular integrators. -/
def angularIntegrators (dims : ℕ) : List Kind → ℕ → ℕ
  | [], k => k
  | .hooke :: l, k => angularIntegrators dims l (if dims = 2 then k + 1 else k)
  | .other :: l, k => angularIntegrators dims l k

/-- State of a two dimensional simulation with rotation. -/
structure RS where
  ps : PS
  om : Arr
  th : Arr
  tq : Arr

/-- `pre_forces` of `k` angular integrators, `integrators/angularvelocityverlet2d.cpp:10-25` in the loop of `gflow.cpp:172`. -/
noncomputable def anglePre (m : Mode) (size : ℕ) (dt : ℝ) (im sg tq : Arr) : ℕ → Arr × Arr → Arr × Arr
  | 0, s => s
  | k + 1, s =>
    let om := updateOmega m size dt im sg tq s.1
    anglePre m size dt im sg tq k (om, updateAngles m size dt om s.2)

/-- `post_forces` of `k` angular integrators, `integrators/angularvelocityverlet2d.cpp:27-39` in the loop of `gflow.cpp:234`. -/
noncomputable def anglePost (m : Mode) (size : ℕ) (dt : ℝ) (im sg tq : Arr) : ℕ → Arr → Arr
  | 0, om => om
  | k + 1, om => anglePost m size dt im sg tq k (updateOmega m size dt im sg tq om)

/-- A step of the run loop (`gflow.cpp:171-172,200-234`) with velocity Verlet and `k` angular integrators: forces and torques are
cleared and calculated anew from positions, velocities and angular velocities. -/
noncomputable def rstep (m : Mode) (n : ℕ) (im sg : Arr) (F : Arr → Arr → Arr → Arr) (T : Arr → Arr → Arr → Arr) (k : ℕ) (dt : ℝ)
    (s : RS) : RS :=
  let v1 := updateVelocities m 2 (n * 2) dt im s.ps.f s.ps.v
  let x1 := updatePositions m (n * 2) dt v1 s.ps.x
  let a := anglePre m n dt im sg s.tq k (s.om, s.th)
  let f1 := F x1 v1 a.1
  let tq1 := T x1 v1 a.1
  ⟨⟨x1, updateVelocities m 2 (n * 2) dt im f1 v1, f1⟩, anglePost m n dt im sg tq1 k a.1, a.2, tq1⟩

/-- Steps with the given time steps. -/
noncomputable def rrun (m : Mode) (n : ℕ) (im sg : Arr) (F T : Arr → Arr → Arr → Arr) (k : ℕ) (dts : List ℝ) (s : RS) : RS :=
  dts.foldl (fun s dt => rstep m n im sg F T k dt s) s

/-! ## Specification -/

/-- Spec: moment of inertia of a disc. -/
noncomputable def inertia (im sg : Arr) (j : ℕ) : ℝ := 1 / 2 * (1 / im j) * sg j ^ 2

/-- Spec: the cross product in the plane. -/
def cross (a b : Fin 2 → ℝ) : ℝ := a 0 * b 1 - a 1 * b 0

/-! ## Proofs -/

theorem integrators_count (l : List Kind) (k : ℕ) : angularIntegrators 2 l k = k + l.count .hooke := by
  induction l generalizing k with
  | nil => simp [angularIntegrators]
  | cons a l ih =>
    cases a
    · rw [angularIntegrators, ih, List.count_cons_self, if_pos rfl]; omega
    · rw [angularIntegrators, ih, List.count_cons_of_ne (by decide)]

theorem anglePost_eq (w : ℕ) (hw : 0 < w) (n : ℕ) (dt : ℝ) (im sg tq : Arr) (hi : ∀ j, im j ≠ 0) (hs : ∀ j, sg j ≠ 0) (k : ℕ)
    (om : Arr) (j : ℕ) (hj : j < n) :
    anglePost (some w) n dt im sg tq k om j = om j + k * (dt / 2 * (tq j / inertia im sg j)) := by
  induction k generalizing om with
  | zero => simp [anglePost]
  | succ k ih =>
    rw [anglePost, ih, C75_omega_partial w hw n dt im sg tq om hi hs j, if_pos hj]
    unfold inertia
    push_cast
    ring

theorem anglePre_eq (w : ℕ) (hw : 0 < w) (n : ℕ) (dt : ℝ) (im sg tq : Arr) (hi : ∀ j, im j ≠ 0) (hs : ∀ j, sg j ≠ 0) (k : ℕ)
    (s : Arr × Arr) (j : ℕ) (hj : j < n) :
    (anglePre (some w) n dt im sg tq k s).1 j = s.1 j + k * (dt / 2 * (tq j / inertia im sg j)) ∧
    (anglePre (some w) n dt im sg tq k s).2 j =
      s.2 j + dt * (k * s.1 j + k * (k + 1) / 2 * (dt / 2 * (tq j / inertia im sg j))) := by
  induction k generalizing s with
  | zero => simp [anglePre]
  | succ k ih =>
    have ho : updateOmega (some w) n dt im sg tq s.1 j = s.1 j + dt / 2 * (tq j / inertia im sg j) := by
      rw [C75_omega_partial w hw n dt im sg tq s.1 hi hs j, if_pos hj]; rfl
    have ha := C75_angles (some w) hw n dt (updateOmega (some w) n dt im sg tq s.1) s.2 j
    rw [if_pos hj, ho] at ha
    obtain ⟨h1, h2⟩ := ih (updateOmega (some w) n dt im sg tq s.1,
      updateAngles (some w) n dt (updateOmega (some w) n dt im sg tq s.1) s.2)
    rw [anglePre]
    simp only at h1 h2
    refine ⟨?_, ?_⟩
    · rw [h1, ho]; push_cast; ring
    · rw [h2, ho, ha]; push_cast; ring

section runs

variable (w : ℕ) (hw : 0 < w) (n : ℕ) (im sg : Arr) (hi : ∀ j, im j ≠ 0) (hs : ∀ j, sg j ≠ 0)
  (F T : Arr → Arr → Arr → Arr) (dt : ℝ) (s : RS) (j : ℕ) (hj : j < n)
include hw hi hs hj

/-- **C161, one contact interaction** (partial). In a two dimensional simulation with exactly one Hooke interaction (among any
others) each step changes every angular velocity by the time step times the mean of the old and new torque over the moment of
inertia, and every angle by the time step times the angular velocity at the middle of the step. The new torques are those at the new positions, with
the angular velocities of the middle of the step, the same that the forces are computed with.
Missing: several Hooke interactions (`C161_negation_many`), builds without vector instructions (`C75_negation_plain`). -/
theorem C161_step_partial (l : List Kind) (hl : l.count .hooke = 1) :
    let s' := rstep (some w) n im sg F T (angularIntegrators 2 l 0) dt s
    s'.om j = s.om j + dt * ((s.tq j + s'.tq j) / 2 / inertia im sg j) ∧
    s'.th j = s.th j + dt * (s.om j + dt / 2 * (s.tq j / inertia im sg j)) ∧
    ∃ vh oh : Arr, s'.tq = T s'.ps.x vh oh ∧ s'.ps.f = F s'.ps.x vh oh ∧ oh j = s.om j + dt / 2 * (s.tq j / inertia im sg j) := by
  rw [integrators_count, hl]
  intro s'
  obtain ⟨h1, h2⟩ := anglePre_eq w hw n dt im sg s.tq hi hs (0 + 1) (s.om, s.th) j hj
  refine ⟨?_, ?_, _, _, rfl, rfl, by rw [h1]; push_cast; ring⟩
  · have := anglePost_eq w hw n dt im sg s'.tq hi hs (0 + 1) (anglePre (some w) n dt im sg s.tq (0 + 1) (s.om, s.th)).1 j hj
    refine Eq.trans this ?_
    rw [h1]
    push_cast
    ring
  · refine Eq.trans h2 ?_
    push_cast
    ring

/-- **C161 is false of several contact interactions.** With `k` Hooke interactions (one for each pair of types, say) there are
`k` angular integrators: every step changes angular velocities by `k` times what the torques give, and turns discs `k` times. -/
theorem C161_negation_many (l : List Kind) :
    let k := l.count .hooke
    let s' := rstep (some w) n im sg F T (angularIntegrators 2 l 0) dt s
    s'.om j = s.om j + k * (dt * ((s.tq j + s'.tq j) / 2 / inertia im sg j)) ∧
    s'.th j = s.th j + dt * (k * s.om j + k * (k + 1) / 2 * (dt / 2 * (s.tq j / inertia im sg j))) := by
  rw [integrators_count, zero_add]
  intro k s'
  obtain ⟨h1, h2⟩ := anglePre_eq w hw n dt im sg s.tq hi hs k (s.om, s.th) j hj
  refine ⟨?_, h2⟩
  have := anglePost_eq w hw n dt im sg s'.tq hi hs k (anglePre (some w) n dt im sg s.tq k (s.om, s.th)).1 j hj
  refine Eq.trans this ?_
  rw [h1]
  ring

/-- **C161, free discs turn too fast.** A disc without torques keeps its angular velocity, but after any run its angle has
changed by `k` times the angular velocity times the elapsed time. -/
theorem C161_negation_free (l : List Kind) (dts : List ℝ) (ht : s.tq j = 0) (hT : ∀ x v om, T x v om j = 0) :
    let s' := rrun (some w) n im sg F T (angularIntegrators 2 l 0) dts s
    s'.om j = s.om j ∧ s'.th j = s.th j + l.count .hooke * (dts.sum * s.om j) := by
  intro s'
  induction dts generalizing s with
  | nil => exact ⟨rfl, by simp only [s']; simp [rrun]⟩
  | cons h dts ih =>
    obtain ⟨h1, h2⟩ := C161_negation_many w hw n im sg hi hs F T h s j hj l
    set s1 := rstep (some w) n im sg F T (angularIntegrators 2 l 0) h s with hs1
    have ht1 : s1.tq j = 0 := hT _ _ _
    obtain ⟨h3, h4⟩ := ih s1 ht1
    rw [ht, ht1] at h1
    rw [ht] at h2
    simp only [add_zero, zero_div, mul_zero] at h1 h2
    refine ⟨h3.trans h1, h4.trans ?_⟩
    rw [h2, h1, List.sum_cons]
    ring

end runs

/-! ## Torques of a contact -/

/-- What a defined call of the Hooke kernel does to the two particles, with the friction force. -/
theorem hooke_changes (H : Hooke) (doVir : Bool) (P : Parts 2) (om : ℕ → ℝ) (i j : ℕ) (hij : i ≠ j) (X : Fin 2 → ℝ) (a a' : HAcc)
    (h : hookeKernel H doVir P om i j X a = some a') :
    ∃ (n : Fin 2 → ℝ) (r Ft : ℝ), 0 < r ∧ r = Real.sqrt (dot X X) ∧ (∀ k, X k = r * n k) ∧ n 0 ^ 2 + n 1 ^ 2 = 1 ∧
      Ft = H.tangential P om i j n r ∧
      a'.f i 0 - a.f i 0 = -(Ft * n 1) ∧ a'.f i 1 - a.f i 1 = Ft * n 0 ∧
      a'.f j 0 - a.f j 0 = Ft * n 1 ∧ a'.f j 1 - a.f j 1 = -(Ft * n 0) ∧
      a'.tq i - a.tq i = -(Ft * P.rd i) ∧ a'.tq j - a.tq j = -(Ft * P.rd j) := by
  obtain ⟨h0, n, r, Fn, Ft, hr, hn, hFn, hFt, hf, ht⟩ := hookeKernel_eq h
  have hd : 0 ≤ dot X X := by
    unfold dot
    exact Finset.sum_nonneg fun k _ => mul_self_nonneg _
  have hrp : 0 < r := by rw [hr]; exact Real.sqrt_pos.mpr (lt_of_le_of_ne hd (Ne.symm h0))
  have hX : ∀ k, X k = r * n k := by
    intro k
    rw [hn]
    field_simp
  have hn1 : n 0 ^ 2 + n 1 ^ 2 = 1 := by
    have h2 : r ^ 2 = X 0 * X 0 + X 1 * X 1 := by
      rw [hr, Real.sq_sqrt hd]
      simp [dot, Fin.sum_univ_two]
    rw [hX 0, hX 1] at h2
    have h3 : r ^ 2 * (n 0 ^ 2 + n 1 ^ 2 - 1) = 0 := by linarith [h2, (by ring : r ^ 2 * (n 0 ^ 2 + n 1 ^ 2 - 1) = r * n 0 * (r * n 0) + r * n 1 * (r * n 1) - r ^ 2)]
    have := (mul_eq_zero.mp h3).resolve_left (by positivity)
    linarith
  refine ⟨n, r, Ft, hrp, hr, hX, hn1, hFt, ?_, ?_, ?_, ?_, ?_, ?_⟩
  · rw [hf]
    simp only [addAt]
    rw [Function.update_of_ne hij, Function.update_self, Function.update_self, Function.update_self]
    simp
  · rw [hf]
    simp only [addAt]
    rw [Function.update_of_ne hij, Function.update_self, Function.update_self, Function.update_self]
    simp
  · rw [hf]
    simp only [addAt]
    rw [Function.update_self, Function.update_of_ne hij.symm, Function.update_of_ne hij.symm, Function.update_of_ne hij.symm]
    simp
  · rw [hf]
    simp only [addAt]
    rw [Function.update_self, Function.update_of_ne hij.symm, Function.update_of_ne hij.symm, Function.update_of_ne hij.symm]
    simp
  · rw [ht, Function.update_of_ne hij, Function.update_self]; ring
  · rw [ht, Function.update_self, Function.update_of_ne hij.symm]; ring

/-- Spec: the torque about the origin of what a kernel added to two particles: that of the forces, and that on the discs. -/
noncomputable def totalTorque (P : Parts 2) (i j : ℕ) (a a' : HAcc) : ℝ :=
  cross (P.x i) (a'.f i - a.f i) + cross (P.x j) (a'.f j - a.f j) + (a'.tq i - a.tq i) + (a'.tq j - a.tq j)

/-- Spec: the power of what a kernel added: forces times velocities and torques times angular velocities. -/
noncomputable def power (P : Parts 2) (om : ℕ → ℝ) (i j : ℕ) (a a' : HAcc) : ℝ :=
  dot (a'.f i - a.f i) (P.v i) + dot (a'.f j - a.f j) (P.v j) + (a'.tq i - a.tq i) * om i + (a'.tq j - a.tq j) * om j

/-- **C161, balance of torques** (partial). The total torque of a contact of two discs is minus the friction force times their
overlap. So contacts keep the angular momentum exactly if the discs only touch or do not slide.
Missing: overlapping discs that slide, where it is false (`C161_negation_torque`). -/
theorem C161_torque_partial (H : Hooke) (doVir : Bool) (P : Parts 2) (om : ℕ → ℝ) (i j : ℕ) (hij : i ≠ j) (a a' : HAcc)
    (h : hookeKernel H doVir P om i j (P.x i - P.x j) a = some a') :
    ∃ (n : Fin 2 → ℝ), (∀ k, P.x i k - P.x j k = Real.sqrt (dot (P.x i - P.x j) (P.x i - P.x j)) * n k) ∧
      totalTorque P i j a a' = -(H.tangential P om i j n (Real.sqrt (dot (P.x i - P.x j) (P.x i - P.x j)))) *
        (P.rd i + P.rd j - Real.sqrt (dot (P.x i - P.x j) (P.x i - P.x j))) := by
  obtain ⟨n, r, Ft, hrp, hr, hX, hn1, hFt, f1, f2, f3, f4, t1, t2⟩ := hooke_changes H doVir P om i j hij _ a a' h
  rw [← hr]
  refine ⟨n, hX, ?_⟩
  rw [← hFt]
  unfold totalTorque cross
  simp only [Pi.sub_apply]
  rw [f1, f2, f3, f4, t1, t2]
  have x0 := hX 0
  have x1 := hX 1
  simp only [Pi.sub_apply] at x0 x1
  have e0 : P.x i 0 = P.x j 0 + r * n 0 := by linarith
  have e1 : P.x i 1 = P.x j 1 + r * n 1 := by linarith
  rw [e0, e1]
  have : (P.x j 0 + r * n 0) * (Ft * n 0) - (P.x j 1 + r * n 1) * -(Ft * n 1) + (P.x j 0 * -(Ft * n 0) - P.x j 1 * (Ft * n 1)) +
      -(Ft * P.rd i) + -(Ft * P.rd j) = Ft * r * (n 0 ^ 2 + n 1 ^ 2) - Ft * (P.rd i + P.rd j) := by ring
  rw [this, hn1]
  ring

/-- **C161, friction takes energy.** With non-negative friction parameters and masses the power of a contact, of forces and torques
together, is never positive. -/
theorem C161_dissipation (H : Hooke) (hmu : 0 ≤ H.mu) (hgt : 0 ≤ H.gt) (doVir : Bool) (P : Parts 2) (om : ℕ → ℝ) (i j : ℕ)
    (hij : i ≠ j) (hmi : 0 ≤ P.im i) (hmj : 0 ≤ P.im j) (X : Fin 2 → ℝ) (a a' : HAcc)
    (h : hookeKernel H doVir P om i j X a = some a') : power P om i j a a' ≤ 0 := by
  obtain ⟨n, r, Ft, hrp, hr, hX, hn1, hFt, f1, f2, f3, f4, t1, t2⟩ := hooke_changes H doVir P om i j hij X a a' h
  have hm : 0 ≤ meff (P.im i) (P.im j) := by
    unfold meff
    split_ifs
    · exact zero_le_one
    · positivity
  set vt := -(P.v i 0 - P.v j 0) * n 1 + (P.v i 1 - P.v j 1) * n 0 - (om i * P.rd i + om j * P.rd j) with hvt
  have hp : power P om i j a a' = Ft * vt := by
    unfold power
    simp only [dot, Fin.sum_univ_two, Pi.sub_apply]
    rw [f1, f2, f3, f4, t1, t2, hvt]
    ring
  have hT : dot (fun k => (P.v i - P.v j) k - n k * dot (P.v i - P.v j) n) ![-(n 1), n 0] - (om i * P.rd i + om j * P.rd j) = vt := by
    simp only [dot, Fin.sum_univ_two, Pi.sub_apply, Matrix.cons_val_zero, Matrix.cons_val_one, Matrix.cons_val_fin_one, hvt]
    ring
  rw [hp, hFt]
  unfold Hooke.tangential
  simp only
  rw [hT]
  have hF : 0 ≤ H.mu * H.normal P i j n r := mul_nonneg hmu (le_max_left _ _)
  have hc : 0 ≤ meff (P.im i) (P.im j) * H.gt := mul_nonneg hm hgt
  set c := meff (P.im i) (P.im j) * H.gt
  set M := H.mu * H.normal P i j n r
  by_cases h1 : -(c * vt) < -M
  · rw [if_pos h1]
    have : 0 < vt := by
      by_contra h
      have := mul_nonpos_of_nonneg_of_nonpos hc (not_lt.mp h)
      linarith
    have := mul_nonneg hF this.le
    linarith
  · rw [if_neg h1]
    by_cases h2 : M < -(c * vt)
    · rw [if_pos h2]
      have : vt < 0 := by
        by_contra h
        have := mul_nonneg hc (not_lt.mp h)
        linarith
      exact mul_nonpos_of_nonneg_of_nonpos hF this.le
    · rw [if_neg h2]
      have := mul_nonneg hc (mul_self_nonneg vt)
      linarith

/-- Two unit discs of unit mass at distance one, of which the first moves along the tangent. -/
noncomputable def sliding : Parts 2 := ⟨fun i k => if i = 0 ∧ k = 0 then 1 else 0, fun i k => if i = 0 ∧ k = 1 then 1 else 0,
  fun _ => 1, fun _ => 1⟩

/-- **C161 is false of the code (angular momentum).** Two overlapping discs that slide: friction changes the total angular
momentum. -/
theorem C161_negation_torque : ∃ a', hookeKernel ⟨5000, 1000, 2, 1⟩ false sliding (fun _ => 0) 0 1 (sliding.x 0 - sliding.x 1)
    ⟨fun _ _ => 0, fun _ => 0, 0⟩ = some a' ∧ totalTorque sliding 0 1 ⟨fun _ _ => 0, fun _ => 0, 0⟩ a' = 1 := by
  have hd : dot (sliding.x 0 - sliding.x 1) (sliding.x 0 - sliding.x 1) = 1 := by
    simp [dot, Fin.sum_univ_two, sliding]
  obtain ⟨a', ha⟩ : ∃ a', hookeKernel ⟨5000, 1000, 2, 1⟩ false sliding (fun _ => 0) 0 1 (sliding.x 0 - sliding.x 1)
      ⟨fun _ _ => 0, fun _ => 0, 0⟩ = some a' := by
    unfold hookeKernel
    rw [if_neg (by rw [hd]; norm_num)]
    exact ⟨_, rfl⟩
  refine ⟨a', ha, ?_⟩
  obtain ⟨n, hn, ht⟩ := C161_torque_partial _ _ _ _ _ _ (by decide) _ _ ha
  rw [hd, Real.sqrt_one] at hn ht
  have n0 : n 0 = 1 := by have := hn 0; simp [sliding] at this; linarith
  have n1 : n 1 = 0 := by have := hn 1; simp [sliding] at this; linarith
  rw [ht]
  have hF : Hooke.tangential ⟨5000, 1000, 2, 1⟩ sliding (fun _ => 0) 0 1 n 1 = -1 := by
    have hN : Hooke.normal ⟨5000, 1000, 2, 1⟩ sliding 0 1 n 1 = 5000 := by
      unfold Hooke.normal
      simp only [dot, Fin.sum_univ_two, n0, n1, sliding]
      norm_num [meff]
    unfold Hooke.tangential
    simp only [hN]
    simp only [dot, Fin.sum_univ_two, n0, n1, sliding, meff]
    norm_num
  rw [hF]
  norm_num [sliding]

/-- A setup with two Hooke interactions has two angular integrators; one with a single Hooke interaction meets the hypotheses of
`C161_step_partial`. -/
example : angularIntegrators 2 [.hooke, .other, .hooke] 0 = 2 ∧ [Kind.other, .hooke].count .hooke = 1 := by decide

end Verif.Rotation
