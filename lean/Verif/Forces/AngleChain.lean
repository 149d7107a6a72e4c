import Verif.Forces.Bonds
import Verif.Other.Group
import Mathlib.Analysis.SpecialFunctions.Trigonometric.Inverse
import Mathlib.Tactic.IntervalCases

/-!
# Chains with angles and springs between groups (C71, C72)

Models `bonded/angle_harmonic_chain_2d.cpp`, `bonded/angle_harmonic_chain_3d.cpp`, `bonded/angle-harmonic-chain.cpp` and
`bonded/twogroupharmonic.cpp`. Exact real arithmetic; division by a zero distance and an index outside of a vector are
undefined (`none`). Local ids are taken as refreshed (C44 treats the refresh).
-/

set_option linter.unusedSectionVars false

namespace Verif.AngleChain
open Finset Verif.PairForces Verif.Bonds

/-- What the loop of the two-dimensional chain carries from one round to the next. -/
structure LS where
  f : ℕ → Fin 2 → ℝ
  pot : ℝ
  dx2 : Fin 2 → ℝ
  r2 : ℝ

/-- `tripleProduct2`, `utility/vectormath.hpp:50-54`. -/
def triple (x y z : Fin 2 → ℝ) : Fin 2 → ℝ :=
  ![x 1 * (y 0 * z 1 - y 1 * z 0), -(x 0) * (y 0 * z 1 - y 1 * z 0)]

/-- Angle of the triple, with the factor 0.999, `bonded/angle_harmonic_chain_2d.cpp:80-84`. -/
noncomputable def dTheta (u v : Fin 2 → ℝ) : ℝ := Real.arccos (999/1000 * dot u v) - Real.pi

/-- Force of the angle on the first atom, `bonded/angle_harmonic_chain_2d.cpp:87-117`. -/
noncomputable def angleA (A : ℝ) (u v : Fin 2 → ℝ) (r1 : ℝ) (k : Fin 2) : ℝ :=
  -A * dTheta u v / r1 * (triple u u v k * (1 / Real.sqrt (dot (triple u u v) (triple u u v))))

/-- Force of the angle on the third atom, `bonded/angle_harmonic_chain_2d.cpp:87-117`. -/
noncomputable def angleC (A : ℝ) (u v : Fin 2 → ℝ) (r2 : ℝ) (k : Fin 2) : ℝ :=
  -A * dTheta u v / r2 * (-(triple v u v k) * (1 / Real.sqrt (dot (triple v u v) (triple v u v))))

open Classical in
/-- Body of the loop of `AngleHarmonicChain_2d::interact`, `bonded/angle_harmonic_chain_2d.cpp:40-149`. -/
noncomputable def step (K A : ℝ) (doPot : Bool) (w : Fin 2 → Option ℝ) (x : ℕ → Fin 2 → ℝ) (ids : List ℕ) (ds : List ℝ)
    (s : LS) (i : ℕ) : Option LS :=
  match ids[i]?, ids[i+1]?, ids[i+2]? with
  | some id1, some id2, some id3 =>
    let X1 := correct w (x id1 - x id2)
    let X2 := correct w (x id3 - x id2)
    if (i = 0 ∧ dot X1 X1 = 0) ∨ dot X2 X2 = 0 then none
    else
      let r1 := if i = 0 then mag X1 else s.r2
      let dx1 : Fin 2 → ℝ := if i = 0 then fun k => X1 k / mag X1 else fun k => -(s.dx2 k)
      let r2 := mag X2
      let dx2 : Fin 2 → ℝ := fun k => X2 k / mag X2
      if dot (triple dx1 dx1 dx2) (triple dx1 dx1 dx2) = 0 ∨ dot (triple dx2 dx1 dx2) (triple dx2 dx1 dx2) = 0 then
        some ⟨s.f, s.pot, dx2, r2⟩
      else
        match ds[i]? with
        | none => none
        | some d1 =>
          let repl := K * (r1 - d1)
          let f1 := angleA A dx1 dx2 r1
          let f3 := angleC A dx1 dx2 r2
          let f := addAt s.f id1 1 (fun k => f1 k - repl * dx1 k)
          let f := addAt f id2 (-1) (fun k => f1 k + f3 k - repl * dx1 k)
          let f := addAt f id3 1 f3
          let pot := if doPot then s.pot + (1/2 * A * (dTheta dx1 dx2) ^ 2 + K * (r1 - d1) ^ 2) else s.pot
          if i + 3 = ids.length then
            match ds[i+1]? with
            | none => none
            | some d2 =>
              let repl := K * (r2 - d2)
              let f := addAt f id2 1 (fun k => repl * dx2 k)
              let f := addAt f id3 (-1) (fun k => repl * dx2 k)
              some ⟨f, if doPot then pot + K * (r2 - d2) ^ 2 else pot, dx2, r2⟩
          else some ⟨f, pot, dx2, r2⟩
  | _, _, _ => none

/-- `AngleHarmonicChain_2d::interact`, `bonded/angle_harmonic_chain_2d.cpp:9-158`: the forces after it, the potential and the
buffer `forces` (first `ids.length` entries). The buffer is set to the negative of the forces before (33-37) and the forces
after are added (152-155). -/
noncomputable def interact2d (K A : ℝ) (doPot : Bool) (w : Fin 2 → Option ℝ) (x : ℕ → Fin 2 → ℝ) (ids : List ℕ)
    (ds : List ℝ) (f : ℕ → Fin 2 → ℝ) : Option ((ℕ → Fin 2 → ℝ) × ℝ × List (Fin 2 → ℝ)) :=
  if ids.length < 3 then some (f, 0, ids.map fun _ _ => 0)
  else
    ((List.range (ids.length - 2)).foldlM (step K A doPot w x ids ds) ⟨f, 0, fun _ => 0, 0⟩).map fun s =>
      (s.f, s.pot, ids.map fun i k => -(f i k) + s.f i k)

/-! ## Specification -/

/-- Spec: vector and length of bond `i`, from atom `i+1` to atom `i`. -/
noncomputable def bvec (w : Fin 2 → Option ℝ) (x : ℕ → Fin 2 → ℝ) (ids : List ℕ) (i : ℕ) : Fin 2 → ℝ :=
  correct w (x (ids.getD i 0) - x (ids.getD (i+1) 0))

/-- Spec: unit vector along bond `i`. -/
noncomputable def bdir (w : Fin 2 → Option ℝ) (x : ℕ → Fin 2 → ℝ) (ids : List ℕ) (i : ℕ) : Fin 2 → ℝ :=
  fun k => bvec w x ids i k / mag (bvec w x ids i)

/-- Spec: force of the spring of bond `i` on particle `m`. -/
noncomputable def bondF (K : ℝ) (w : Fin 2 → Option ℝ) (x : ℕ → Fin 2 → ℝ) (ids : List ℕ) (ds : List ℝ) (i m : ℕ)
    (k : Fin 2) : ℝ :=
  (if m = ids.getD i 0 then spring K (ds.getD i 0) (bvec w x ids i) k else 0) -
    (if m = ids.getD (i+1) 0 then spring K (ds.getD i 0) (bvec w x ids i) k else 0)

/-- Spec: force on particle `m` of the angle at atom `i+1`: two forces on the outer atoms, the opposite of their sum on the
middle atom. -/
noncomputable def angleF (A : ℝ) (w : Fin 2 → Option ℝ) (x : ℕ → Fin 2 → ℝ) (ids : List ℕ) (i m : ℕ) (k : Fin 2) : ℝ :=
  let u := bdir w x ids i
  let v : Fin 2 → ℝ := fun k => -(bdir w x ids (i+1) k)
  (if m = ids.getD i 0 then angleA A u v (mag (bvec w x ids i)) k else 0) +
    (if m = ids.getD (i+2) 0 then angleC A u v (mag (bvec w x ids (i+1))) k else 0) -
    (if m = ids.getD (i+1) 0 then angleA A u v (mag (bvec w x ids i)) k + angleC A u v (mag (bvec w x ids (i+1))) k else 0)

/-- Spec: no two neighbours at the same place, no three neighbours on a line, and at least as many rest lengths as bonds. -/
def Bent (w : Fin 2 → Option ℝ) (x : ℕ → Fin 2 → ℝ) (ids : List ℕ) (ds : List ℝ) : Prop :=
  ids.length - 1 ≤ ds.length ∧ (∀ i, i + 1 < ids.length → 0 < mag (bvec w x ids i)) ∧
  ∀ i, i + 2 < ids.length → bdir w x ids i 0 * bdir w x ids (i+1) 1 ≠ bdir w x ids i 1 * bdir w x ids (i+1) 0

/-! ## Lemmas -/

theorem correct_neg (w : Fin 2 → Option ℝ) (X : Fin 2 → ℝ) (hw : ∀ k v, w k = some v → 0 ≤ v) :
    correct w (-X) = fun k => -(correct w X k) := by
  funext k
  unfold correct
  cases h : w k with
  | none => rfl
  | some v =>
    simp only [Pi.neg_apply, abs_neg]
    have hv := hw k v h
    by_cases h1 : v - |X k| < |X k|
    · rw [if_pos h1, if_pos h1]
      rcases lt_trichotomy (X k) 0 with hx | hx | hx
      · rw [if_pos (by linarith), if_neg (by linarith)]
      · rw [hx] at h1; simp at h1; linarith
      · rw [if_neg (by linarith), if_pos (by linarith)]; ring
    · rw [if_neg h1, if_neg h1]

theorem dot_neg_neg (X : Fin 2 → ℝ) : dot (fun k => -(X k)) (fun k => -(X k)) = dot X X := by
  unfold dot; exact sum_congr rfl (fun k _ => by ring)

theorem bdir_unit (w : Fin 2 → Option ℝ) (x : ℕ → Fin 2 → ℝ) (ids : List ℕ) (i : ℕ) (h : 0 < mag (bvec w x ids i)) :
    bdir w x ids i 0 ^ 2 + bdir w x ids i 1 ^ 2 = 1 := by
  have hsq : mag (bvec w x ids i) * mag (bvec w x ids i) = dot (bvec w x ids i) (bvec w x ids i) :=
    Real.mul_self_sqrt (sum_nonneg fun k _ => mul_self_nonneg _)
  simp only [dot, Fin.sum_univ_two] at hsq
  unfold bdir
  field_simp
  linarith

theorem triple_u (u v : Fin 2 → ℝ) (hu : u 0 ^ 2 + u 1 ^ 2 = 1) :
    dot (triple u u v) (triple u u v) = (u 0 * v 1 - u 1 * v 0) ^ 2 := by
  simp only [dot, Fin.sum_univ_two, triple, Matrix.cons_val_zero, Matrix.cons_val_one, Matrix.cons_val_fin_one]
  linear_combination (u 0 * v 1 - u 1 * v 0) ^ 2 * hu

theorem triple_v (u v : Fin 2 → ℝ) (hv : v 0 ^ 2 + v 1 ^ 2 = 1) :
    dot (triple v u v) (triple v u v) = (u 0 * v 1 - u 1 * v 0) ^ 2 := by
  simp only [dot, Fin.sum_univ_two, triple, Matrix.cons_val_zero, Matrix.cons_val_one, Matrix.cons_val_fin_one]
  linear_combination (u 0 * v 1 - u 1 * v 0) ^ 2 * hv

/-- The loop after `n` rounds. -/
theorem loop_inv (K A : ℝ) (doPot : Bool) (w : Fin 2 → Option ℝ) (hw : ∀ k v, w k = some v → 0 ≤ v) (x : ℕ → Fin 2 → ℝ)
    (ids : List ℕ) (ds : List ℝ) (hb : Bent w x ids ds) (f : ℕ → Fin 2 → ℝ) (n : ℕ) (hn : n + 2 ≤ ids.length) :
    ∃ s, (List.range n).foldlM (step K A doPot w x ids ds) ⟨f, 0, fun _ => 0, 0⟩ = some s ∧
      (0 < n → s.r2 = mag (bvec w x ids n) ∧ s.dx2 = fun k => -(bdir w x ids n k)) ∧
      ∀ m k, s.f m k = f m k + (∑ i ∈ range n, (angleF A w x ids i m k + bondF K w x ids ds i m k)) +
        if 0 < n ∧ n + 2 = ids.length then bondF K w x ids ds n m k else 0 := by
  induction n with
  | zero => exact ⟨_, rfl, by simp, by simp⟩
  | succ n ih =>
    obtain ⟨s, e, hc, hf⟩ := ih (by omega)
    obtain ⟨hd, hr, hl⟩ := hb
    have g0 : ids[n]? = some (ids.getD n 0) := by
      rw [List.getElem?_eq_getElem (by omega)]; simp [List.getD_eq_getElem?_getD, List.getElem?_eq_getElem (show n < ids.length by omega)]
    have g1 : ids[n+1]? = some (ids.getD (n+1) 0) := by
      rw [List.getElem?_eq_getElem (by omega)]; simp [List.getD_eq_getElem?_getD, List.getElem?_eq_getElem (show n+1 < ids.length by omega)]
    have g2 : ids[n+2]? = some (ids.getD (n+2) 0) := by
      rw [List.getElem?_eq_getElem (by omega)]; simp [List.getD_eq_getElem?_getD, List.getElem?_eq_getElem (show n+2 < ids.length by omega)]
    have d0 : ds[n]? = some (ds.getD n 0) := by
      rw [List.getElem?_eq_getElem (by omega)]; simp [List.getD_eq_getElem?_getD, List.getElem?_eq_getElem (show n < ds.length by omega)]
    have d1 : ds[n+1]? = some (ds.getD (n+1) 0) := by
      rw [List.getElem?_eq_getElem (by omega)]; simp [List.getD_eq_getElem?_getD, List.getElem?_eq_getElem (show n+1 < ds.length by omega)]
    have hr1 := hr n (by omega)
    have hr2 := hr (n+1) (by omega)
    have hX2 : correct w (x (ids.getD (n+2) 0) - x (ids.getD (n+1) 0)) = fun k => -(bvec w x ids (n+1) k) := by
      have : x (ids.getD (n+2) 0) - x (ids.getD (n+1) 0) = -(x (ids.getD (n+1) 0) - x (ids.getD (n+1+1) 0)) := by
        funext k; simp only [Pi.sub_apply, Pi.neg_apply]; ring
      rw [this, correct_neg w _ hw]; rfl
    have hm2 : mag (fun k => -(bvec w x ids (n+1) k)) = mag (bvec w x ids (n+1)) := by unfold mag; rw [dot_neg_neg]
    have hv : (fun k => -(bvec w x ids (n+1) k) / mag (bvec w x ids (n+1))) = fun k => -(bdir w x ids (n+1) k) := by
      funext k; unfold bdir; ring
    have hX1 : correct w (x (ids.getD n 0) - x (ids.getD (n+1) 0)) = bvec w x ids n := rfl
    have r1eq : (if n = 0 then mag (bvec w x ids n) else s.r2) = mag (bvec w x ids n) := by
      by_cases h0 : n = 0
      · rw [if_pos h0]
      · rw [if_neg h0]; exact (hc (by omega)).1
    have u1eq : (if n = 0 then (fun k => bvec w x ids n k / mag (bvec w x ids n)) else fun k => -(s.dx2 k)) = bdir w x ids n := by
      by_cases h0 : n = 0
      · rw [if_pos h0]; rfl
      · rw [if_neg h0, (hc (by omega)).2]; funext k; ring
    set u := bdir w x ids n with hu
    set v : Fin 2 → ℝ := fun k => -(bdir w x ids (n+1) k) with hvdef
    have nu := bdir_unit w x ids n hr1
    have nv : v 0 ^ 2 + v 1 ^ 2 = 1 := by
      have := bdir_unit w x ids (n+1) hr2
      simp only [hvdef]; linarith [this]
    have cross : u 0 * v 1 - u 1 * v 0 ≠ 0 := by
      have := hl n (by omega)
      simp only [hvdef]
      intro h; apply this; linarith
    have tu : dot (triple u u v) (triple u u v) ≠ 0 := by
      rw [triple_u u v nu]; exact pow_ne_zero 2 cross
    have tv : dot (triple v u v) (triple v u v) ≠ 0 := by
      rw [triple_v u v nv]; exact pow_ne_zero 2 cross
    have z1 : dot (bvec w x ids n) (bvec w x ids n) ≠ 0 := (Real.sqrt_pos.mp hr1).ne'
    have z2 : dot (bvec w x ids (n+1)) (bvec w x ids (n+1)) ≠ 0 := (Real.sqrt_pos.mp hr2).ne'
    have z : ¬ ((n = 0 ∧ dot (bvec w x ids n) (bvec w x ids n) = 0) ∨
        dot (fun k => -(bvec w x ids (n+1) k)) (fun k => -(bvec w x ids (n+1) k)) = 0) := by
      rw [dot_neg_neg]; tauto
    rw [List.range_succ, List.foldlM_append, e]
    simp only [Option.bind_eq_bind, Option.bind_some, List.foldlM_cons, List.foldlM_nil]
    have hs : ∃ s', step K A doPot w x ids ds s n = some s' ∧ s'.r2 = mag (bvec w x ids (n+1)) ∧ s'.dx2 = v ∧
        ∀ m k, s'.f m k = s.f m k + (angleF A w x ids n m k + bondF K w x ids ds n m k) +
          if n + 3 = ids.length then bondF K w x ids ds (n+1) m k else 0 := by
      unfold step
      simp only [g0, g1, g2, hX2, hX1, hm2, hv, r1eq, u1eq]
      rw [if_neg z, if_neg (by tauto)]
      simp only [d0, d1]
      by_cases hlast : n + 3 = ids.length
      · rw [if_pos hlast]
        refine ⟨_, rfl, rfl, rfl, ?_⟩
        intro m k
        rw [if_pos hlast]
        simp only [addAt_apply, angleF, bondF, spring]
        rw [← hu, ← hvdef]
        have eu : bvec w x ids n k / mag (bvec w x ids n) = u k := rfl
        have ev : bvec w x ids (n+1) k / mag (bvec w x ids (n+1)) = -(v k) := by simp only [hvdef, neg_neg]; rfl
        have ev2 : -(bvec w x ids (n+1) k) / mag (bvec w x ids (n+1)) = v k := congrFun hv k
        simp only [eu, ev, ev2]
        have i2 : n + 1 + 1 = n + 2 := rfl
        rw [i2]
        generalize angleA A u v (mag (bvec w x ids n)) k = P
        generalize angleC A u v (mag (bvec w x ids (n+1))) k = Q
        generalize mag (bvec w x ids n) = R1
        generalize mag (bvec w x ids (n+1)) = R2
        generalize u k = U
        generalize v k = V
        split_ifs <;> ring
      · rw [if_neg hlast]
        refine ⟨_, rfl, rfl, rfl, ?_⟩
        intro m k
        rw [if_neg hlast]
        simp only [addAt_apply, angleF, bondF, spring]
        rw [← hu, ← hvdef]
        have eu : bvec w x ids n k / mag (bvec w x ids n) = u k := rfl
        rw [eu]
        split_ifs <;> ring
    obtain ⟨s', e', hr', hd', hf'⟩ := hs
    rw [e']
    refine ⟨s', rfl, fun _ => ⟨hr', hd'⟩, ?_⟩
    intro m k
    rw [hf', hf, sum_range_succ, if_neg (by omega)]
    by_cases hlast : n + 3 = ids.length
    · rw [if_pos hlast, if_pos (by omega)]; ring
    · rw [if_neg hlast, if_neg (by omega)]; ring

/-- **C71.** For every chain of at least three atoms in two dimensions without three neighbours on a line, `interact` is
defined, each particle gets the spring forces of its bonds and the forces of the angles it takes part in, and the buffer
read by `getForce` holds exactly the change of the force on each atom.
Missing: chains with three neighbours on a line and three dimensions, see the negations of C71. -/
theorem C71_forces_partial (K A : ℝ) (doPot : Bool) (w : Fin 2 → Option ℝ) (hw : ∀ k v, w k = some v → 0 ≤ v)
    (x : ℕ → Fin 2 → ℝ) (ids : List ℕ) (h3 : 3 ≤ ids.length) (ds : List ℝ) (hb : Bent w x ids ds) (f : ℕ → Fin 2 → ℝ) :
    ∃ f' pot buf, interact2d K A doPot w x ids ds f = some (f', pot, buf) ∧
      (∀ m k, f' m k = f m k + ∑ i ∈ range (ids.length - 2), angleF A w x ids i m k +
        ∑ i ∈ range (ids.length - 1), bondF K w x ids ds i m k) ∧
      buf = ids.map fun i k => f' i k - f i k := by
  obtain ⟨s, e, _, hf⟩ := loop_inv K A doPot w hw x ids ds hb f (ids.length - 2) (by omega)
  refine ⟨s.f, s.pot, ids.map fun i k => -(f i k) + s.f i k, ?_, ?_, ?_⟩
  · unfold interact2d
    rw [if_neg (by omega), e]
    rfl
  · intro m k
    rw [hf, if_pos (by omega), show ids.length - 1 = (ids.length - 2) + 1 by omega, sum_range_succ, sum_add_distrib]
    ring
  · congr 1
    funext i k
    ring

/-- **C71, angle forces.** The force of an angle on an outer atom is perpendicular to its bond; both outer forces tend to
straighten the chain (they point away from the other outer atom) when the angle constant is not negative; with the opposite
force on the middle atom they exert no torque. -/
theorem C71_angle (A : ℝ) (hA : 0 ≤ A) (u v : Fin 2 → ℝ) (hu : u 0 ^ 2 + u 1 ^ 2 = 1) (hv : v 0 ^ 2 + v 1 ^ 2 = 1)
    (r1 r2 : ℝ) (h1 : 0 < r1) (h2 : 0 < r2) :
    dot (angleA A u v r1) u = 0 ∧ dot (angleC A u v r2) v = 0 ∧
    dot (angleA A u v r1) v ≤ 0 ∧ dot (angleC A u v r2) u ≤ 0 ∧
    r1 * (u 0 * angleA A u v r1 1 - u 1 * angleA A u v r1 0) + r2 * (v 0 * angleC A u v r2 1 - v 1 * angleC A u v r2 0) = 0 := by
  have th : dTheta u v ≤ 0 := by unfold dTheta; linarith [Real.arccos_le_pi (999/1000 * dot u v)]
  have hstr : 0 ≤ -A * dTheta u v := by nlinarith
  have s1 : 0 ≤ 1 / Real.sqrt (dot (triple u u v) (triple u u v)) := by positivity
  have s2 : 0 ≤ 1 / Real.sqrt (dot (triple v u v) (triple v u v)) := by positivity
  have q1 : Real.sqrt (dot (triple u u v) (triple u u v)) = Real.sqrt (dot (triple v u v) (triple v u v)) := by
    rw [triple_u u v hu, triple_v u v hv]
  set q := 1 / Real.sqrt (dot (triple v u v) (triple v u v)) with hq
  set S := -A * dTheta u v with hS
  have eA : ∀ k, angleA A u v r1 k = S / r1 * (triple u u v k * q) := by
    intro k; unfold angleA; rw [q1]
  have eC : ∀ k, angleC A u v r2 k = S / r2 * (-(triple v u v k) * q) := by
    intro k; unfold angleC; rfl
  have p1 : 0 ≤ S / r1 * q := mul_nonneg (div_nonneg hstr h1.le) s2
  have p2 : 0 ≤ S / r2 * q := mul_nonneg (div_nonneg hstr h2.le) s2
  simp only [dot, Fin.sum_univ_two, eA, eC, triple, Matrix.cons_val_zero, Matrix.cons_val_one, Matrix.cons_val_fin_one]
  refine ⟨by ring, by ring, ?_, ?_, ?_⟩
  · have : S / r1 * (u 1 * (u 0 * v 1 - u 1 * v 0) * q) * v 0 + S / r1 * (-u 0 * (u 0 * v 1 - u 1 * v 0) * q) * v 1 =
      -(S / r1 * q * (u 0 * v 1 - u 1 * v 0) ^ 2) := by ring
    rw [this]
    exact neg_nonpos.mpr (mul_nonneg p1 (sq_nonneg _))
  · have : S / r2 * (-(v 1 * (u 0 * v 1 - u 1 * v 0)) * q) * u 0 + S / r2 * (-(-v 0 * (u 0 * v 1 - u 1 * v 0)) * q) * u 1 =
      -(S / r2 * q * (u 0 * v 1 - u 1 * v 0) ^ 2) := by ring
    rw [this]
    exact neg_nonpos.mpr (mul_nonneg p2 (sq_nonneg _))
  · field_simp
    linear_combination -(u 0 * v 1 - u 1 * v 0) * S * q * hu + (u 0 * v 1 - u 1 * v 0) * S * q * hv

theorem step_sum {K A : ℝ} {doPot : Bool} {w : Fin 2 → Option ℝ} {x : ℕ → Fin 2 → ℝ} {ids : List ℕ} {ds : List ℝ}
    {s s' : LS} {i : ℕ} (h : step K A doPot w x ids ds s i = some s') (S : Finset ℕ) (hS : ∀ j ∈ ids, j ∈ S) (k : Fin 2) :
    ∑ m ∈ S, s'.f m k = ∑ m ∈ S, s.f m k := by
  have key : ∀ (f : ℕ → Fin 2 → ℝ) (j : ℕ) (c : ℝ) (V : Fin 2 → ℝ), j ∈ S →
      ∑ m ∈ S, addAt f j c V m k = ∑ m ∈ S, f m k + c * V k := by
    intro f j c V hj
    simp only [addAt_apply, sum_add_distrib, sum_ite_eq', hj, if_true]
  unfold step at h
  split at h
  · rename_i id1 id2 id3 h1 h2 h3
    have m1 := hS id1 (List.mem_of_getElem? h1)
    have m2 := hS id2 (List.mem_of_getElem? h2)
    have m3 := hS id3 (List.mem_of_getElem? h3)
    simp only at h
    generalize hr1 : (if i = 0 then mag (correct w (x id1 - x id2)) else s.r2) = r1 at h
    generalize hdx : (if i = 0 then (fun k => correct w (x id1 - x id2) k / mag (correct w (x id1 - x id2)))
      else fun k => -(s.dx2 k)) = dx1 at h
    split at h
    · cases h
    · split at h
      · cases h; rfl
      · split at h
        · cases h
        · split at h
          · split at h
            · cases h
            · cases h
              simp only
              rw [key _ _ _ _ m3, key _ _ _ _ m2, key _ _ _ _ m3, key _ _ _ _ m2, key _ _ _ _ m1]
              ring
          · cases h
            simp only
            rw [key _ _ _ _ m3, key _ _ _ _ m2, key _ _ _ _ m1]
            ring
  · cases h

/-- **C71, total force.** Whenever `interact` is defined, for straight chains too, the total force on each set that contains
the atoms is unchanged. -/
theorem C71_total_force (K A : ℝ) (doPot : Bool) (w : Fin 2 → Option ℝ) (x : ℕ → Fin 2 → ℝ) (ids : List ℕ) (ds : List ℝ)
    (f f' : ℕ → Fin 2 → ℝ) (pot : ℝ) (buf : List (Fin 2 → ℝ))
    (h : interact2d K A doPot w x ids ds f = some (f', pot, buf)) (S : Finset ℕ) (hS : ∀ j ∈ ids, j ∈ S) (k : Fin 2) :
    ∑ m ∈ S, f' m k = ∑ m ∈ S, f m k := by
  unfold interact2d at h
  split_ifs at h with h3
  · cases h; rfl
  · obtain ⟨s, e, hs⟩ := Option.map_eq_some_iff.mp h
    cases hs
    have gen : ∀ (l : List ℕ) (s0 s : LS), l.foldlM (step K A doPot w x ids ds) s0 = some s →
        ∑ m ∈ S, s.f m k = ∑ m ∈ S, s0.f m k := by
      intro l
      induction l with
      | nil => intro s0 s h; cases h; rfl
      | cons i l ih =>
        intro s0 s h
        rw [List.foldlM_cons] at h
        obtain ⟨s1, e1, e2⟩ := Option.bind_eq_some_iff.mp h
        rw [ih s1 s e2, step_sum e1 S hS k]
    exact gen _ _ _ e

/-- Three atoms at (0,1), (0,0), (1,0): the hypotheses of `C71_forces_partial` are met. -/
example : Bent (fun _ => none) (fun i => ![![0, 1], ![0, 0], ![1, 0]] (Fin.ofNat 3 i)) [0, 1, 2] [1, 1] := by
  have m0 : mag (bvec (fun _ => none) (fun i => ![![0, 1], ![0, 0], ![1, 0]] (Fin.ofNat 3 i)) [0, 1, 2] 0) = 1 := by
    simp [mag, bvec, correct, dot, Fin.sum_univ_two, Fin.ofNat]
  have m1 : mag (bvec (fun _ => none) (fun i => ![![0, 1], ![0, 0], ![1, 0]] (Fin.ofNat 3 i)) [0, 1, 2] 1) = 1 := by
    simp [mag, bvec, correct, dot, Fin.sum_univ_two, Fin.ofNat]
  refine ⟨by simp, ?_, ?_⟩
  · intro i hi
    have hi : i < 2 := by simp only [List.length_cons, List.length_nil] at hi; omega
    interval_cases i
    · rw [m0]; norm_num
    · rw [m1]; norm_num
  · intro i hi
    have hi : i = 0 := by simp only [List.length_cons, List.length_nil] at hi; omega
    subst hi
    simp only [bdir, zero_add, m0, m1]
    simp [bvec, correct, Fin.ofNat]

/-- **C71 is false of straight chains.** When three neighbours are on a line the round is skipped with the springs: for a
chain of three atoms on a line no force at all is added, however stretched the bonds are. -/
theorem C71_negation_straight (K A : ℝ) (doPot : Bool) (w : Fin 2 → Option ℝ) (hw : ∀ k v, w k = some v → 0 ≤ v)
    (x : ℕ → Fin 2 → ℝ) (a b c : ℕ) (ds : List ℝ) (f : ℕ → Fin 2 → ℝ)
    (h1 : 0 < mag (bvec w x [a, b, c] 0)) (h2 : 0 < mag (bvec w x [a, b, c] 1))
    (hl : bdir w x [a, b, c] 0 0 * bdir w x [a, b, c] 1 1 = bdir w x [a, b, c] 0 1 * bdir w x [a, b, c] 1 0) :
    ∃ pot buf, interact2d K A doPot w x [a, b, c] ds f = some (f, pot, buf) := by
  have hX2 : correct w (x c - x b) = fun k => -(bvec w x [a, b, c] 1 k) := by
    have : x c - x b = -(x b - x c) := by funext k; simp only [Pi.sub_apply, Pi.neg_apply]; ring
    rw [this, correct_neg w _ hw]; rfl
  have hX1 : correct w (x a - x b) = bvec w x [a, b, c] 0 := rfl
  have z1 : dot (bvec w x [a, b, c] 0) (bvec w x [a, b, c] 0) ≠ 0 := (Real.sqrt_pos.mp h1).ne'
  have z2 : dot (bvec w x [a, b, c] 1) (bvec w x [a, b, c] 1) ≠ 0 := (Real.sqrt_pos.mp h2).ne'
  have hm2 : mag (fun k => -(bvec w x [a, b, c] 1 k)) = mag (bvec w x [a, b, c] 1) := by unfold mag; rw [dot_neg_neg]
  have t : dot (triple (bdir w x [a, b, c] 0) (bdir w x [a, b, c] 0) (fun k => -(bdir w x [a, b, c] 1 k)))
      (triple (bdir w x [a, b, c] 0) (bdir w x [a, b, c] 0) (fun k => -(bdir w x [a, b, c] 1 k))) = 0 := by
    rw [triple_u _ _ (bdir_unit w x _ 0 h1)]
    rw [show bdir w x [a, b, c] 0 0 * -(bdir w x [a, b, c] 1 1) - bdir w x [a, b, c] 0 1 * -(bdir w x [a, b, c] 1 0) = 0 by linarith]
    norm_num
  have e : step K A doPot w x [a, b, c] ds ⟨f, 0, fun _ => 0, 0⟩ 0 =
      some ⟨f, 0, fun k => -(bdir w x [a, b, c] 1 k), mag (bvec w x [a, b, c] 1)⟩ := by
    unfold step
    simp only [List.getElem?_cons_zero, List.getElem?_cons_succ, zero_add, hX2, hX1, hm2, true_and, if_true]
    rw [if_neg (by rw [dot_neg_neg]; tauto)]
    have hv : (fun k => -(bvec w x [a, b, c] 1 k) / mag (bvec w x [a, b, c] 1)) = fun k => -(bdir w x [a, b, c] 1 k) := by
      funext k; unfold bdir; ring
    rw [hv]
    exact if_pos (Or.inl t)
  unfold interact2d
  rw [if_neg (by simp)]
  refine ⟨0, [a, b, c].map fun i k => -(f i k) + f i k, ?_⟩
  have : List.range ([a, b, c].length - 2) = [0] := rfl
  rw [this]
  simp [e]

/-! ## Three dimensions -/

open Classical in
/-- Body of the loop of `AngleHarmonicChain_3d::interact`, `bonded/angle_harmonic_chain_3d.cpp:36-77`; `f2` is added to
`f(id2)` (line 76), not to `f(id3)`. -/
noncomputable def step3d (A : ℝ) (w : Fin 3 → Option ℝ) (x : ℕ → Fin 3 → ℝ) (ids : List ℕ) (f : ℕ → Fin 3 → ℝ) (i : ℕ) :
    Option (ℕ → Fin 3 → ℝ) :=
  match ids[i]?, ids[i+1]?, ids[i+2]? with
  | some id1, some id2, some id3 =>
    let X1 := correct w (x id1 - x id2)
    let X2 := correct w (x id3 - x id2)
    if dot X1 X1 = 0 ∨ dot X2 X2 = 0 then none
    else
      let c := dot X1 X2 / (mag X1 * mag X2)
      let a11 := A * c / dot X1 X1
      let a12 := -A / (mag X1 * mag X2)
      let a22 := A * c / dot X2 X2
      let f1 : Fin 3 → ℝ := fun k => a11 * X1 k + a12 * X2 k
      let f2 : Fin 3 → ℝ := fun k => a22 * X2 k + a12 * X1 k
      let f := addAt f id1 1 f1
      let f := addAt f id2 (-1) (fun k => f1 k + f2 k)
      some (addAt f id2 1 f2)
  | _, _, _ => none

/-- `AngleHarmonicChain_3d::interact`, `bonded/angle_harmonic_chain_3d.cpp:11-79`. -/
noncomputable def interact3d (A : ℝ) (w : Fin 3 → Option ℝ) (x : ℕ → Fin 3 → ℝ) (ids : List ℕ) (f : ℕ → Fin 3 → ℝ) :
    Option (ℕ → Fin 3 → ℝ) :=
  if ids.length < 3 then some f else (List.range (ids.length - 2)).foldlM (step3d A w x ids) f

/-- **C71 is false in three dimensions.** Whenever `interact` is defined, for all angle constants and positions, the last
atom of the chain gets no force: neither the force of the last angle nor a spring force (there are no springs at all). -/
theorem C71_negation_three_dimensions (A : ℝ) (w : Fin 3 → Option ℝ) (x : ℕ → Fin 3 → ℝ) (ids : List ℕ) (last : ℕ)
    (hl : last ∉ ids) (f f' : ℕ → Fin 3 → ℝ) (h : interact3d A w x (ids ++ [last]) f = some f') : f' last = f last := by
  unfold interact3d at h
  split_ifs at h with h3
  · cases h; rfl
  · have gen : ∀ (l : List ℕ), (∀ i ∈ l, i + 2 < (ids ++ [last]).length) → ∀ (f f' : ℕ → Fin 3 → ℝ),
        l.foldlM (step3d A w x (ids ++ [last])) f = some f' → f' last = f last := by
      intro l
      induction l with
      | nil => intro _ f f' h; cases h; rfl
      | cons i l ih =>
        intro hi f f' h
        rw [List.foldlM_cons] at h
        obtain ⟨f1, e1, e2⟩ := Option.bind_eq_some_iff.mp h
        rw [ih (fun j hj => hi j (List.mem_cons_of_mem _ hj)) f1 f' e2]
        have hi0 := hi i (by simp)
        simp only [List.length_append, List.length_singleton] at hi0
        unfold step3d at e1
        split at e1
        · rename_i id1 id2 id3 g1 g2 g3
          have n1 : last ≠ id1 := by
            rintro rfl
            rw [List.getElem?_append_left (by omega)] at g1
            exact hl (List.mem_of_getElem? g1)
          have n2 : last ≠ id2 := by
            rintro rfl
            rw [List.getElem?_append_left (by omega)] at g2
            exact hl (List.mem_of_getElem? g2)
          simp only at e1
          split_ifs at e1
          cases e1
          funext k
          simp only [addAt_apply, if_neg n1, if_neg n2, add_zero]
        · cases e1
    refine gen _ ?_ f f' h
    intro i hi
    rw [List.mem_range] at hi
    omega

/-! ## Springs between groups -/

open Verif.Groups in
/-- `TwoGroupHarmonic`, `bonded/twogroupharmonic.hpp`. -/
structure TwoGroup where
  A : Group
  B : Group
  massA : ℝ
  massB : ℝ
  K : ℝ
  minD : ℝ
  maxD : ℝ

variable {d : ℕ}

open Verif.Groups in
/-- `TwoGroupHarmonic::pre_integrate`, `bonded/twogroupharmonic.cpp:10-16`, after the refresh of the ids. -/
noncomputable def TwoGroup.preIntegrate (W : Groups.World d) (t : TwoGroup) : TwoGroup :=
  { t with massA := t.A.totalMass W, massB := t.B.totalMass W }

open Verif.Groups in
/-- `TwoGroupHarmonic::setGroupB`, `bonded/twogroupharmonic.cpp:65-68`: the mass is that of group A. -/
noncomputable def TwoGroup.setGroupB (W : Groups.World d) (t : TwoGroup) (B : Group) : TwoGroup :=
  { t with B := B, massB := t.A.totalMass W }

open Verif.Groups in
/-- The force `c * n` on group A and its opposite on group B, `bonded/twogroupharmonic.cpp:35-38` and `41-44`. -/
noncomputable def TwoGroup.push (t : TwoGroup) (n : Fin d → ℝ) (c : ℝ) (W : Groups.World d) : Groups.World d :=
  let f1 := t.A.addAcceleration W (fun k => 1 / t.massA * (c * n k))
  let f2 := t.B.addAcceleration { W with f := f1 } (fun k => 1 / t.massB * -(c * n k))
  { W with f := f2 }

open Verif.Groups Classical in
/-- `TwoGroupHarmonic::interact`, `bonded/twogroupharmonic.cpp:18-46`, after the refresh of the ids; the result is the force
array. `Vec::normalize` leaves a zero vector zero. -/
noncomputable def TwoGroup.interact (W : Groups.World d) (t : TwoGroup) : Option (ℕ → Fin d → ℝ) :=
  if t.A.size = 0 ∨ t.B.size = 0 ∨ t.massA ≤ 0 ∨ t.massB ≤ 0 then some W.f
  else
    (t.A.centerOfMass W).bind fun X1 => (t.B.centerOfMass W).bind fun X2 =>
    let D := disp W X2 X1
    let r := mag D
    let n := unit D
    let W := if r < t.minD then t.push n (t.K * (r - t.minD)) W else W
    let W := if t.maxD < r then t.push n (t.K * (r - t.maxD)) W else W
    some W.f

open Verif.Groups in
theorem acceleration_sum (W : Groups.World d) (G : Group) (hG : OK G) (him : ∀ i ∈ G.lids, 0 < W.im i) (a : Fin d → ℝ)
    (S : Finset ℕ) (hS : ∀ i ∈ G.lids, i ∈ S) (k : Fin d) :
    ∑ m ∈ S, G.addAcceleration W a m k = ∑ m ∈ S, W.f m k + (total G.lids fun i => 1 / W.im i) * a k := by
  have e : ∀ m ∈ S, G.addAcceleration W a m k = W.f m k + G.lids.count m * (1 / W.im m * a k) := by
    intro m _
    rw [C45_add_acceleration W G hG a m k]
    by_cases hm : m ∈ G.lids
    · rw [if_pos (him m hm)]
    · rw [List.count_eq_zero_of_not_mem hm]; simp
  rw [sum_congr rfl e, sum_add_distrib]
  congr 1
  generalize hl : G.lids = l at hS
  clear e him hG hl
  induction l with
  | nil => simp [total]
  | cons i l ih =>
    have hi := hS i (by simp)
    have : ∀ m, ((i :: l).count m : ℝ) * (1 / W.im m * a k) =
        l.count m * (1 / W.im m * a k) + if m = i then 1 / W.im i * a k else 0 := by
      intro m
      rw [List.count_cons]
      by_cases h : m = i
      · subst h; simp; ring
      · have hb : (i == m) = false := by simp; exact fun e => h e.symm
        simp [h, hb]
    rw [sum_congr rfl (fun m _ => this m), sum_add_distrib, ih (fun j hj => hS j (List.mem_cons_of_mem _ hj)),
      sum_ite_eq' S i, if_pos hi]
    simp only [total, List.map_cons, List.sum_cons]
    ring

open Verif.Groups in
/-- **C72.** After `pre_integrate`, for all groups whose members have positive finite mass, whenever `interact` is defined it
leaves the total force on every set that contains both groups unchanged.
Missing: calls between `setGroupB` and `pre_integrate`, see `C72_negation_set_group`. -/
theorem C72_total_force_partial (W : Groups.World d) (t : TwoGroup) (hA : OK t.A) (hB : OK t.B)
    (hiA : ∀ i ∈ t.A.lids, 0 < W.im i) (hiB : ∀ i ∈ t.B.lids, 0 < W.im i) (f' : ℕ → Fin d → ℝ)
    (h : (t.preIntegrate W).interact W = some f') (S : Finset ℕ) (hS : ∀ i ∈ t.A.lids ++ t.B.lids, i ∈ S) (k : Fin d) :
    ∑ m ∈ S, f' m k = ∑ m ∈ S, W.f m k := by
  have mA : (t.preIntegrate W).massA = total t.A.lids fun i => 1 / W.im i :=
    (C45_total_mass W t.A hA).1 (fun i hi => (hiA i hi).ne')
  have mB : (t.preIntegrate W).massB = total t.B.lids fun i => 1 / W.im i :=
    (C45_total_mass W t.B hB).1 (fun i hi => (hiB i hi).ne')
  unfold TwoGroup.interact at h
  split_ifs at h with h0
  · cases h; rfl
  · obtain ⟨X1, _, h⟩ := Option.bind_eq_some_iff.mp h
    obtain ⟨X2, _, h⟩ := Option.bind_eq_some_iff.mp h
    simp only [not_or, not_le] at h0
    obtain ⟨_, _, pA, pB⟩ := h0
    have push : ∀ (c : ℝ) (n : Fin d → ℝ) (W1 : Groups.World d), W1.im = W.im →
        ∑ m ∈ S, ((t.preIntegrate W).push n c W1).f m k = ∑ m ∈ S, W1.f m k := by
      intro c n W1 hW
      show ∑ m ∈ S, t.B.addAcceleration { W1 with f := t.A.addAcceleration W1 (fun k => 1 / (t.preIntegrate W).massA * (c * n k)) }
          (fun k => 1 / (t.preIntegrate W).massB * -(c * n k)) m k = _
      rw [acceleration_sum _ t.B hB (by simp only; rw [hW]; exact hiB) _ S (fun i hi => hS i (by simp [hi]))]
      simp only
      rw [acceleration_sum _ t.A hA (by rw [hW]; exact hiA) _ S (fun i hi => hS i (by simp [hi])), hW, ← mA, ← mB]
      field_simp
      ring
    simp only at h
    have h := (Option.some.inj h).symm
    subst h
    split_ifs
    · have h1 := fun c n => push c n ((t.preIntegrate W).push (unit (disp W X2 X1))
        ((t.preIntegrate W).K * (mag (disp W X2 X1) - (t.preIntegrate W).minD)) W) rfl
      exact (h1 _ _).trans (push _ _ W rfl)
    · exact push _ _ _ rfl
    · exact push _ _ _ rfl
    · rfl

/-- A one-dimensional world: box [0, 10], no wrapping, particle 0 of mass 1 at 1, particle 1 of mass 2 at 3. -/
noncomputable def twoW : Groups.World 1 :=
  ⟨some, fun i _ => 1 + 2 * i, fun _ _ => 0, fun _ _ => 0, fun i => if i = 0 then 1 else 1/2, fun _ => 0, fun _ => 10,
    fun _ => false⟩

open Verif.Groups in
theorem two_com (i : ℕ) (hi : i ≤ 1) : (⟨[i], [i]⟩ : Group).centerOfMass twoW = some fun _ => 1 + 2 * (i : ℝ) := by
  have him : ∀ j, 0 < twoW.im j := by intro j; simp only [twoW]; split_ifs <;> norm_num
  obtain ⟨c, mid, hmid, e, hc⟩ := com_eq twoW ⟨[i], [i]⟩ rfl (by simp [Group.size]) (fun j _ => him j)
  rw [e]
  congr 1
  funext k
  have hk := hc k
  have hm : mid = i := by simpa using hmid
  subst hm
  simp only [total, List.map_cons, List.map_nil, List.sum_cons, List.sum_nil, add_zero] at hk
  have h1 : c k = 1 + 2 * mid := by
    have h2 := mul_left_cancel₀ (one_div_pos.mpr (him mid)).ne' hk
    rw [h2]
    simp [disp, correct, twoW]
  have h3 : (mid : ℝ) ≤ 1 := by exact_mod_cast hi
  have h4 : (0 : ℝ) ≤ mid := Nat.cast_nonneg _
  simp only [h1, twoW]
  rw [if_neg (by linarith), if_neg (by linarith)]

open Verif.Groups in
/-- **C72 is false between `setGroupB` and the next `pre_integrate`**: `setGroupB` stores the mass of group A. For a group of
mass 1 and a group of mass 2 the forces then added are -1 : 2, and the total force is not zero. -/
theorem C72_negation_set_group : ∃ f', ((TwoGroup.preIntegrate twoW ⟨⟨[0], [0]⟩, ⟨[0], [0]⟩, 0, 0, 50, 0, 15/100⟩).setGroupB
      twoW ⟨[1], [1]⟩).interact twoW = some f' ∧ (∀ m k, twoW.f m k = 0) ∧ ∑ m ∈ ({0, 1} : Finset ℕ), f' m 0 ≠ 0 := by
  have c0 := two_com 0 (by norm_num)
  have c1 := two_com 1 (by norm_num)
  have tm : (⟨[0], [0]⟩ : Group).totalMass twoW = 1 := by
    simp [Group.totalMass, Group.size, massLoop, twoW]
  have D : disp twoW (fun _ => 1 + 2 * ((1 : ℕ) : ℝ)) (fun _ => 1 + 2 * ((0 : ℕ) : ℝ)) = fun _ => 2 := by
    funext k; simp [disp, correct, twoW]
  have hm : mag (fun _ : Fin 1 => (2 : ℝ)) = 2 := by
    simp only [mag, dot, Fin.sum_univ_one]
    exact Real.sqrt_mul_self (by norm_num)
  refine ⟨((⟨⟨[0], [0]⟩, ⟨[1], [1]⟩, 1, 1, 50, 0, 15/100⟩ : TwoGroup).push (unit fun _ : Fin 1 => 2)
    (50 * (2 - 15/100)) twoW).f, ?_, fun _ _ => rfl, ?_⟩
  · unfold TwoGroup.interact
    simp only [TwoGroup.setGroupB, TwoGroup.preIntegrate, tm, c0, c1, Option.bind_some, D, hm]
    rw [if_neg (by simp [Group.size])]
    norm_num
  · simp [TwoGroup.push, Group.addAcceleration, Group.size, twoW, addAt_apply, unit, dot]
    norm_num

open Verif.Groups in
/-- The hypotheses of `C72_total_force_partial` are met, with a result that is not trivial. -/
example : OK (⟨[0], [0]⟩ : Group) ∧ OK (⟨[1], [1]⟩ : Group) ∧ (∀ i, 0 < twoW.im i) ∧
    ((TwoGroup.preIntegrate twoW ⟨⟨[0], [0]⟩, ⟨[1], [1]⟩, 0, 0, 50, 0, 15/100⟩).interact twoW).isSome := by
  refine ⟨rfl, rfl, ?_, ?_⟩
  · intro i; simp only [twoW]; split_ifs <;> norm_num
  · unfold TwoGroup.interact
    split_ifs
    · rfl
    · simp only [TwoGroup.preIntegrate, two_com 0 (by norm_num), two_com 1 (by norm_num), Option.bind_some]
      rfl

end Verif.AngleChain
