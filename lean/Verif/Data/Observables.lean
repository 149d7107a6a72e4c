import Verif.Data.Recording
import Verif.Creators.Regions
import Mathlib.Algebra.BigOperators.Group.Finset.Basic
import Mathlib.Analysis.Real.Sqrt
import Mathlib.Data.Fin.VecNotation

/-!
# Recorded energies, averages, temperature and pressure (C113–C116)

Models the data objects of `dataobjects/graphobjects` and `dataobjects/multigraphobjects` that reduce all particles to numbers: kinetic, rotational and total energy,
average speed, angular velocity, velocity and position, numbers per type, filled fraction, kinetic energy per type, temperature and pressure. Exact real arithmetic, any
number of dimensions and of processors. Without rounding no value is NaN, so that the tests `isnan` are left out; a division by zero (which records NaN or infinity) is `none`.
-/

namespace Verif.Observables
open Verif.Bounds

variable {d : ℕ}

/-- One slot of the owned particles of `SimData`: type, inverse mass, radius, angular velocity, position, velocity (`base/simdata.hpp`, the columns the data objects read). -/
structure P (d : ℕ) where
  type : ℤ
  im : ℝ
  sg : ℝ
  om : ℝ
  x : Fin d → ℝ
  v : Fin d → ℝ

/-- What one processor contributes: the slots `[0, size_owned)`, the number of ghost particles, the potentials and virials of the interactions, the energy at the boundary, the potentials of the bonded
interactions. -/
structure Rank (d : ℕ) where
  slots : List (P d)
  ghosts : ℕ
  pots : List ℝ
  virials : List ℝ
  boundary : ℝ
  bonds : List ℝ

/-- `sqr(const RealType*, int)`, `utility/vectormath.hpp:61-69`. -/
noncomputable def sqr (v : Fin d → ℝ) : ℝ := (List.finRange d).foldl (fun a k => a + v k * v k) 0

/-- The loops `for n < size_owned: if (cond) acc += f(n)` of the data objects, for example `dataobjects/graphobjects/kineticenergydata.cpp:23-30`. -/
noncomputable def loopFrom (a : ℝ) (c : P d → Prop) [DecidablePred c] (f : P d → ℝ) (l : List (P d)) : ℝ :=
  l.foldl (fun a p => if c p then a + f p else a) a

/-- The counter `++count` in the same loops. -/
def countLoop (c : P d → Prop) [DecidablePred c] (l : List (P d)) : ℕ := l.foldl (fun a p => if c p then a + 1 else a) 0

/-- `GraphObject::gatherData`, `dataobjects/dataobjecttypes/graphobject.cpp:108-114`: the sum over the processors. -/
noncomputable def gather (ys : List ℝ) : ℝ := ys.sum

/-- `GraphObject::gatherAverageData`, `dataobjects/dataobjecttypes/graphobject.cpp:88-106`: sums of values and of weights over the processors, one division on processor 0. -/
noncomputable def gatherAverage (ys ws : List ℝ) : Option ℝ := if ws.sum = 0 then none else some (ys.sum / ws.sum)

/-! ## Energies -/

/-- The loop of `KineticEnergyData::calculate_kinetic`, `dataobjects/graphobjects/kineticenergydata.cpp:18-31`. -/
noncomputable def kineticSum (l : List (P d)) : ℝ := loopFrom 0 (fun p => 0 < p.im) (fun p => 1 / p.im * sqr p.v) l * (1 / 2)

/-- `KineticEnergyData::calculate_kinetic`, `dataobjects/graphobjects/kineticenergydata.cpp:17-34`. -/
noncomputable def calculateKinetic (l : List (P d)) (average : Bool) : Option ℝ :=
  if average then
    if countLoop (fun p => 0 < p.im) l = 0 then none else some (kineticSum l / countLoop (fun p => 0 < p.im) l)
  else some (kineticSum l)

/-- `KineticEnergyData::post_step`, `dataobjects/graphobjects/kineticenergydata.cpp:7-15`: the value of one entry. -/
noncomputable def kineticEntry (useAve : Bool) (ranks : List (Rank d)) : Option ℝ :=
  if useAve then gatherAverage (ranks.map fun r => kineticSum r.slots) (ranks.map fun r => (r.slots.length : ℝ))
  else some (gather (ranks.map fun r => kineticSum r.slots))

/-- The condition `im[n]>0 && -1<type[n]` of the other objects, for example `dataobjects/graphobjects/rotational-energy-data.cpp:27`. -/
def Ok (p : P d) : Prop := 0 < p.im ∧ -1 < p.type

noncomputable instance : DecidablePred (Ok (d := d)) := fun p => by unfold Ok; infer_instance

/-- `RotationalEnergyData::post_step`, `dataobjects/graphobjects/rotational-energy-data.cpp:10-38`, if there is a column `Om`. -/
noncomputable def rotationalEntry (useAve : Bool) (ranks : List (Rank d)) : Option ℝ :=
  let e := ranks.map fun r => loopFrom 0 Ok (fun p => 1 / 2 * (p.sg * p.sg) / p.im * (p.om * p.om)) r.slots * (1 / 2)
  if useAve then gatherAverage e (ranks.map fun r => (countLoop Ok r.slots : ℝ)) else some (gather e)

/-- The energy of one processor in `TotalEnergyData::post_step`, `dataobjects/graphobjects/total-energy-data.cpp:18-52`; `om`: there is a column `Om`. The variable `en` stays zero. -/
noncomputable def totalOf (om : Bool) (r : Rank d) : ℝ :=
  let e0 := loopFrom 0 Ok (fun p => sqr p.v / p.im) r.slots * (1 / 2)
  let e1 := e0 + r.pots.foldl (· + ·) 0 + r.boundary
  let e2 := r.bonds.foldl (· + ·) e1
  if om then loopFrom e2 Ok (fun p => 1 / 2 * (p.sg * p.sg) / p.im * (p.om * p.om)) r.slots + 1 / 2 * 0 else e2

/-- `TotalEnergyData::post_step`, `dataobjects/graphobjects/total-energy-data.cpp:54-56`. -/
noncomputable def totalEntry (useAve om : Bool) (ranks : List (Rank d)) : Option ℝ :=
  if useAve then gatherAverage (ranks.map (totalOf om)) (ranks.map fun r => (countLoop Ok r.slots : ℝ))
  else some (gather (ranks.map (totalOf om)))

/-! ### Specification -/

/-- All owned slots of all processors. -/
def everyone (ranks : List (Rank d)) : List (P d) := ranks.flatMap (·.slots)

/-- The movable particles that are not marked for removal. -/
noncomputable def movable (l : List (P d)) : List (P d) := l.filter fun p => decide (0 < p.im ∧ 0 ≤ p.type)

/-- The sum of a quantity over particles. -/
noncomputable def total (f : P d → ℝ) (l : List (P d)) : ℝ := (l.map f).sum

/-- The mass of a movable particle. -/
noncomputable def mass (p : P d) : ℝ := 1 / p.im

/-- The kinetic energy of a particle, half of mass times squared velocity. -/
noncomputable def ke (p : P d) : ℝ := 1 / 2 * mass p * ∑ k, p.v k ^ 2

/-- The rotational energy of a disk: half of the moment of inertia `m σ² / 2` times the square of the angular velocity. -/
noncomputable def re (p : P d) : ℝ := 1 / 2 * (mass p * p.sg ^ 2 / 2) * p.om ^ 2

/-! ### Lemmas -/

theorem sqr_eq (v : Fin d → ℝ) : sqr v = ∑ k, v k ^ 2 := by
  unfold sqr
  have h : ∀ (l : List (Fin d)) (a : ℝ), l.foldl (fun a k => a + v k * v k) a = a + (l.map fun k => v k ^ 2).sum := by
    intro l
    induction l with
    | nil => intro a; simp
    | cons k l ih => intro a; rw [List.foldl_cons, ih]; simp only [List.map_cons, List.sum_cons]; ring
  rw [h, zero_add, Fin.sum_univ_def]

theorem loopFrom_eq (c : P d → Prop) [DecidablePred c] (f : P d → ℝ) (l : List (P d)) (a : ℝ) :
    loopFrom a c f l = a + total f (l.filter fun p => decide (c p)) := by
  unfold loopFrom total
  induction l generalizing a with
  | nil => simp
  | cons p l ih =>
    rw [List.foldl_cons, ih, List.filter_cons]
    by_cases h : c p
    · rw [if_pos h, if_pos (by simpa using h), List.map_cons, List.sum_cons]; ring
    · rw [if_neg h, if_neg (by simpa using h)]

theorem countLoop_eq (c : P d → Prop) [DecidablePred c] (l : List (P d)) : countLoop c l = (l.filter fun p => decide (c p)).length := by
  unfold countLoop
  have h : ∀ (l : List (P d)) (a : ℕ), l.foldl (fun a p => if c p then a + 1 else a) a = a + (l.filter fun p => decide (c p)).length := by
    intro l
    induction l with
    | nil => intro a; simp
    | cons p l ih =>
      intro a
      rw [List.foldl_cons, ih, List.filter_cons]
      by_cases h : c p
      · rw [if_pos h, if_pos (by simpa using h), List.length_cons]; ring
      · rw [if_neg h, if_neg (by simpa using h)]
  rw [h, zero_add]

theorem filter_ok (l : List (P d)) : (l.filter fun p => decide (Ok p)) = movable l := by
  unfold movable
  apply List.filter_congr
  intro p _
  apply decide_eq_decide.mpr
  unfold Ok
  constructor
  · rintro ⟨h1, h2⟩; exact ⟨h1, by omega⟩
  · rintro ⟨h1, h2⟩; exact ⟨h1, by omega⟩

theorem filter_im (l : List (P d)) (h : ∀ p ∈ l, 0 ≤ p.type) : (l.filter fun p => decide (0 < p.im)) = movable l := by
  unfold movable
  apply List.filter_congr
  intro p hp
  apply decide_eq_decide.mpr
  exact ⟨fun h1 => ⟨h1, h p hp⟩, fun h1 => h1.1⟩

theorem total_append (f : P d → ℝ) (a b : List (P d)) : total f (a ++ b) = total f a + total f b := by
  unfold total; rw [List.map_append, List.sum_append]

theorem total_mul (f : P d → ℝ) (c : ℝ) (l : List (P d)) : total f l * c = total (fun p => f p * c) l := by
  unfold total; rw [List.sum_map_mul_right]

theorem total_flat (f : P d → ℝ) (g : List (P d) → List (P d)) (hg : ∀ a b, g (a ++ b) = g a ++ g b) (h0 : g [] = []) (ranks : List (Rank d)) :
    (ranks.map fun r => total f (g r.slots)).sum = total f (g (everyone ranks)) := by
  unfold everyone
  induction ranks with
  | nil => simp [h0, total]
  | cons r rs ih => rw [List.map_cons, List.sum_cons, ih, List.flatMap_cons, hg, total_append]

theorem movable_append (a b : List (P d)) : movable (a ++ b) = movable a ++ movable b := by
  unfold movable; rw [List.filter_append]

theorem movable_nil : movable ([] : List (P d)) = [] := rfl

theorem length_flat (ranks : List (Rank d)) : ((ranks.map fun r => (r.slots.length : ℝ)).sum) = ((everyone ranks).length : ℝ) := by
  unfold everyone
  induction ranks with
  | nil => simp
  | cons r rs ih => rw [List.map_cons, List.sum_cons, ih, List.flatMap_cons, List.length_append]; push_cast; ring

theorem count_flat (ranks : List (Rank d)) : ((ranks.map fun r => (countLoop Ok r.slots : ℝ)).sum) = ((movable (everyone ranks)).length : ℝ) := by
  unfold everyone
  induction ranks with
  | nil => simp [movable]
  | cons r rs ih => rw [List.map_cons, List.sum_cons, ih, List.flatMap_cons, movable_append, List.length_append, countLoop_eq, filter_ok]; push_cast; ring

theorem kineticSum_eq (l : List (P d)) (h : ∀ p ∈ l, 0 ≤ p.type) : kineticSum l = total ke (movable l) := by
  unfold kineticSum
  rw [loopFrom_eq, filter_im l h, zero_add, total_mul]
  congr 1
  funext p
  rw [sqr_eq]; unfold ke mass; ring

theorem kinetic_flat (ranks : List (Rank d)) (h : ∀ p ∈ everyone ranks, 0 ≤ p.type) :
    (ranks.map fun r => kineticSum r.slots).sum = total ke (movable (everyone ranks)) := by
  rw [← total_flat ke movable movable_append movable_nil]
  congr 1
  apply List.map_congr_left
  intro r hr
  apply kineticSum_eq
  intro p hp
  exact h p (List.mem_flatMap.mpr ⟨r, hr, hp⟩)

theorem rot_flat (ranks : List (Rank d)) :
    (ranks.map fun r => loopFrom 0 Ok (fun p => 1 / 2 * (p.sg * p.sg) / p.im * (p.om * p.om)) r.slots * (1 / 2)).sum = total re (movable (everyone ranks)) := by
  rw [← total_flat re movable movable_append movable_nil]
  congr 1
  apply List.map_congr_left
  intro r _
  rw [loopFrom_eq, filter_ok, zero_add, total_mul]
  congr 1
  funext p
  unfold re mass; ring

theorem foldl_add (l : List ℝ) (a : ℝ) : l.foldl (· + ·) a = a + l.sum := by
  induction l generalizing a with
  | nil => simp
  | cons x l ih => rw [List.foldl_cons, ih, List.sum_cons]; ring

theorem totalOf_eq (om : Bool) (r : Rank d) :
    totalOf om r = total ke (movable r.slots) + r.pots.sum + r.boundary + r.bonds.sum + (if om then 2 * total re (movable r.slots) else 0) := by
  have e0 : loopFrom 0 Ok (fun p => sqr p.v / p.im) r.slots * (1 / 2) = total ke (movable r.slots) := by
    rw [loopFrom_eq, filter_ok, zero_add, total_mul]
    congr 1
    funext p
    rw [sqr_eq]; unfold ke mass; ring
  have e1 : ∀ a, loopFrom a Ok (fun p => 1 / 2 * (p.sg * p.sg) / p.im * (p.om * p.om)) r.slots = a + 2 * total re (movable r.slots) := by
    intro a
    rw [loopFrom_eq, filter_ok, mul_comm, total_mul]
    congr 2
    funext p
    unfold re mass; ring
  unfold totalOf
  simp only [e0, e1, foldl_add]
  cases om
  · simp
  · simp

/-- The sum of the energies of all processors that are not carried by particles. -/
noncomputable def potentialOf (ranks : List (Rank d)) : ℝ := (ranks.map fun r => r.pots.sum + r.boundary + r.bonds.sum).sum

theorem total_sum (om : Bool) (ranks : List (Rank d)) :
    (ranks.map (totalOf om)).sum = total ke (movable (everyone ranks)) + potentialOf ranks + (if om then 2 * total re (movable (everyone ranks)) else 0) := by
  unfold potentialOf everyone
  induction ranks with
  | nil => simp [movable, total]
  | cons r rs ih =>
    rw [List.map_cons, List.sum_cons, ih, List.map_cons, List.sum_cons, List.flatMap_cons, movable_append, total_append, total_append, totalOf_eq]
    cases om <;> simp <;> ring

theorem gatherAverage_ok (ys ws : List ℝ) (Y W : ℝ) (hy : ys.sum = Y) (hw : ws.sum = W) (h : W ≠ 0) : ∃ a, gatherAverage ys ws = some a ∧ a * W = Y := by
  subst hy hw
  refine ⟨ys.sum / ws.sum, ?_, by field_simp⟩
  unfold gatherAverage
  rw [if_neg h]

theorem gatherAverage_none (ys ws : List ℝ) (h : ws.sum = 0) : gatherAverage ys ws = none := by
  unfold gatherAverage
  rw [if_pos h]

/-! ### C113 -/

/-- **C113, kinetic energy (partial).** While no particle is marked for removal, the recorded kinetic energy is the sum over the movable particles of all processors; the recorded average times the number of
all owned particles is this sum. Missing: marked particles are counted, and the average counts immovable particles (negations). -/
theorem C113_kinetic_partial (ranks : List (Rank d)) (h : ∀ p ∈ everyone ranks, 0 ≤ p.type) :
    kineticEntry false ranks = some (total ke (movable (everyone ranks)))
    ∧ (everyone ranks ≠ [] → ∃ a, kineticEntry true ranks = some a ∧ a * (everyone ranks).length = total ke (movable (everyone ranks))) := by
  refine ⟨?_, fun hne => ?_⟩
  · unfold kineticEntry gather
    rw [if_neg (by simp), kinetic_flat ranks h]
  · unfold kineticEntry
    rw [if_pos rfl]
    refine gatherAverage_ok _ _ _ _ (kinetic_flat ranks h) (length_flat ranks) ?_
    have : 0 < (everyone ranks).length := List.length_pos_iff.mpr hne
    positivity

/-- **C113, rotational energy.** The recorded rotational energy is the sum of `I ω² / 2` over the movable particles of all processors that are not marked for removal, or its average over these particles. -/
theorem C113_rotational (ranks : List (Rank d)) :
    rotationalEntry false ranks = some (total re (movable (everyone ranks)))
    ∧ (movable (everyone ranks) ≠ [] → ∃ a, rotationalEntry true ranks = some a ∧ a * (movable (everyone ranks)).length = total re (movable (everyone ranks))) := by
  refine ⟨?_, fun hne => ?_⟩
  · unfold rotationalEntry gather
    rw [if_neg (by simp), rot_flat]
  · unfold rotationalEntry
    rw [if_pos rfl]
    refine gatherAverage_ok _ _ _ _ (rot_flat ranks) (count_flat ranks) ?_
    have : 0 < (movable (everyone ranks)).length := List.length_pos_iff.mpr hne
    positivity

/-- **C113, total energy (partial).** Without angular velocities the recorded total energy is the sum of the kinetic energies of all movable particles that are not marked for removal, of the potentials of the interactions and bonds and of the energy at the
boundary, over all processors; or this sum divided by the number of these particles. Missing: with angular velocities the rotational energy is counted twice (negation). -/
theorem C113_total_partial (ranks : List (Rank d)) :
    totalEntry false false ranks = some (total ke (movable (everyone ranks)) + potentialOf ranks)
    ∧ (movable (everyone ranks) ≠ [] → ∃ a, totalEntry true false ranks = some a
        ∧ a * (movable (everyone ranks)).length = total ke (movable (everyone ranks)) + potentialOf ranks) := by
  refine ⟨?_, fun hne => ?_⟩
  · unfold totalEntry gather
    rw [if_neg (by simp), total_sum]
    simp
  · unfold totalEntry
    rw [if_pos rfl]
    refine gatherAverage_ok _ _ _ _ (by rw [total_sum]; simp) (count_flat ranks) ?_
    have : 0 < (movable (everyone ranks)).length := List.length_pos_iff.mpr hne
    positivity

/-- **C113, negation: rotation counts twice.** With a column `Om` the recorded total energy contains twice the rotational energy, so that it is wrong by the energy that `RotationalEnergyData` records whenever a movable disk spins. -/
theorem C113_negation_rotation (ranks : List (Rank d)) :
    totalEntry false true ranks = some (total ke (movable (everyone ranks)) + potentialOf ranks + 2 * total re (movable (everyone ranks)))
    ∧ ((∃ p ∈ everyone ranks, 0 < p.im ∧ 0 ≤ p.type ∧ p.sg ≠ 0 ∧ p.om ≠ 0) →
        totalEntry false true ranks ≠ some (total ke (movable (everyone ranks)) + potentialOf ranks + total re (movable (everyone ranks)))) := by
  have h1 : totalEntry false true ranks = some (total ke (movable (everyone ranks)) + potentialOf ranks + 2 * total re (movable (everyone ranks))) := by
    unfold totalEntry gather
    rw [if_neg (by simp), total_sum]
    simp
  refine ⟨h1, ?_⟩
  rintro ⟨p, hp, h2, h3, h4, h5⟩
  rw [h1]
  intro h
  have h := Option.some.inj h
  have hz : total re (movable (everyone ranks)) = 0 := by linarith
  have hmem : p ∈ movable (everyone ranks) := List.mem_filter.mpr ⟨hp, by simp [h2, h3]⟩
  have hpos : ∀ q ∈ movable (everyone ranks), 0 ≤ re q := by
    intro q hq
    have := (List.mem_filter.mp hq).2
    have hq1 : 0 < q.im := (of_decide_eq_true this).1
    unfold re mass
    positivity
  have hle : re p ≤ total re (movable (everyone ranks)) := by
    unfold total
    apply List.single_le_sum (l := (movable (everyone ranks)).map re)
    · intro y hy
      obtain ⟨q, hq, rfl⟩ := List.mem_map.mp hy
      exact hpos q hq
    · exact List.mem_map.mpr ⟨p, hmem, rfl⟩
  have : 0 < re p := by
    unfold re mass
    have : 0 < p.sg ^ 2 := by positivity
    have : 0 < p.om ^ 2 := by positivity
    positivity
  linarith

/-- **C113, negation: marked particles.** A movable particle that is marked for removal still contributes its kinetic energy to `KineticEnergyData`, but not to the other objects. -/
theorem C113_negation_marked (p : P d) (ht : p.type < 0) (hm : 0 < p.im) (k : Fin d) (hv : p.v k ≠ 0) :
    ∃ e, kineticEntry false [⟨[p], 0, [], [], 0, []⟩] = some e ∧ 0 < e ∧ totalEntry false false [⟨[p], 0, [], [], 0, []⟩] = some 0 := by
  have hmv : movable [p] = [] := by
    unfold movable
    rw [List.filter_cons, if_neg (by simp; intro _; exact ht), List.filter_nil]
  refine ⟨kineticSum [p], ?_, ?_, ?_⟩
  · simp [kineticEntry, gather]
  · unfold kineticSum loopFrom
    simp only [List.foldl_cons, List.foldl_nil, if_pos hm, sqr_eq]
    have : 0 < ∑ k, p.v k ^ 2 := Finset.sum_pos' (fun _ _ => sq_nonneg _) ⟨k, Finset.mem_univ _, by positivity⟩
    have : 0 < 1 / p.im := by positivity
    positivity
  · rw [(C113_total_partial _).1]
    simp [everyone, hmv, potentialOf, total]

/-- **C113, negation: averages.** If there are immovable particles and the others move, the recorded average kinetic energy is not the average over the particles that can have kinetic energy. -/
theorem C113_negation_average (ranks : List (Rank d)) (h : ∀ p ∈ everyone ranks, 0 ≤ p.type) (hi : (movable (everyone ranks)).length < (everyone ranks).length)
    (hk : total ke (movable (everyone ranks)) ≠ 0) : ∀ a, kineticEntry true ranks = some a → a * (movable (everyone ranks)).length ≠ total ke (movable (everyone ranks)) := by
  have hne : everyone ranks ≠ [] := by intro h0; rw [h0] at hi; simp at hi
  obtain ⟨a, ha, hb⟩ := (C113_kinetic_partial ranks h).2 hne
  intro a' ha'
  rw [ha] at ha'
  obtain rfl := Option.some.inj ha'
  intro hc
  have hlt : ((movable (everyone ranks)).length : ℝ) < (everyone ranks).length := by exact_mod_cast hi
  have h0 : a * ((everyone ranks).length - (movable (everyone ranks)).length) = 0 := by linarith
  rcases mul_eq_zero.mp h0 with h1 | h1
  · rw [h1, zero_mul] at hb; exact hk hb.symm
  · linarith

/-- **C113, decompositions.** The recorded energies do not depend on how the particles are distributed over the processors, nor on their order. -/
theorem C113_decomposition (ranks ranks' : List (Rank d)) (hp : (everyone ranks).Perm (everyone ranks')) (he : potentialOf ranks = potentialOf ranks') (om : Bool) :
    rotationalEntry false ranks = rotationalEntry false ranks' ∧ totalEntry false om ranks = totalEntry false om ranks'
    ∧ ((∀ p ∈ everyone ranks, 0 ≤ p.type) → kineticEntry false ranks = kineticEntry false ranks') := by
  have hm : (movable (everyone ranks)).Perm (movable (everyone ranks')) := hp.filter _
  have ht : ∀ f : P d → ℝ, total f (movable (everyone ranks)) = total f (movable (everyone ranks')) := fun f => (hm.map f).sum_eq
  refine ⟨?_, ?_, fun h => ?_⟩
  · rw [(C113_rotational _).1, (C113_rotational _).1, ht]
  · cases om
    · rw [(C113_total_partial _).1, (C113_total_partial _).1, ht, he]
    · rw [(C113_negation_rotation _).1, (C113_negation_rotation _).1, ht, ht, he]
  · rw [(C113_kinetic_partial ranks h).1, (C113_kinetic_partial ranks' (fun p hp' => h p (hp.mem_iff.mpr hp'))).1, ht]

/-- A spinning and moving disk of mass 2 and an immovable one on two processors: the kinetic energy is 9, the rotational energy 4, the recorded total energy 17 without potentials. -/
example : let a : P 1 := ⟨0, 1 / 2, 1, 2 * Real.sqrt 2, ![0], ![3]⟩
    let b : P 1 := ⟨1, 0, 1, 0, ![5], ![0]⟩
    let w : List (Rank 1) := [⟨[a], 0, [], [], 0, []⟩, ⟨[b], 0, [], [], 0, []⟩]
    (∀ p ∈ everyone w, 0 ≤ p.type) ∧ kineticEntry false w = some 9 ∧ rotationalEntry false w = some 4 ∧ totalEntry false true w = some 17
    ∧ (movable (everyone w)).length < (everyone w).length := by
  intro a b w
  have hp : ∀ p ∈ everyone w, 0 ≤ p.type := by
    intro p hp
    simp only [everyone, w, List.flatMap_cons, List.flatMap_nil, List.append_nil, List.mem_append, List.mem_singleton] at hp
    rcases hp with rfl | rfl <;> simp [a, b]
  have hm : movable (everyone w) = [a] := by
    simp [movable, everyone, w, a, b]
  have hk : total ke [a] = 9 := by simp [total, ke, mass, a]; norm_num
  have hr : total re [a] = 4 := by
    simp only [total, re, mass, a, List.map_cons, List.map_nil, List.sum_cons, List.sum_nil, mul_pow]
    rw [Real.sq_sqrt (by norm_num)]; norm_num
  refine ⟨hp, ?_, ?_, ?_, ?_⟩
  · rw [(C113_kinetic_partial w hp).1, hm, hk]
  · rw [(C113_rotational w).1, hm, hr]
  · rw [(C113_negation_rotation w).1, hm, hk, hr]
    simp [potentialOf, w]; norm_num
  · rw [hm]; simp [everyone, w]

/-! ## Averages and counts (C114) -/

/-- `AverageSpeedData::post_step`, `dataobjects/graphobjects/average-speed-data.cpp:11-29`. -/
noncomputable def speedEntry (ranks : List (Rank d)) : Option ℝ :=
  gatherAverage (ranks.map fun r => loopFrom 0 Ok (fun p => Real.sqrt (sqr p.v)) r.slots) (ranks.map fun r => (countLoop Ok r.slots : ℝ))

/-- `AverageOmegaData::post_step`, `dataobjects/graphobjects/average-omega-data.cpp:8-33`, if there is a column `Om`: the weights are the masses. -/
noncomputable def omegaEntry (ranks : List (Rank d)) : Option ℝ :=
  gatherAverage (ranks.map fun r => loopFrom 0 Ok (fun p => p.om * (1 / p.im)) r.slots) (ranks.map fun r => loopFrom 0 Ok (fun p => 1 / p.im) r.slots)

/-- The window set by the constructors of `AverageVelocityData`, `AveragePositionData` and `OscillationData`, for example `dataobjects/multigraphobjects/average-velocity-data.cpp:11-17`. -/
noncomputable def window (b : Box d) : Box d :=
  ⟨fun k => 1 / 2 * (b.hi k + b.lo k) - 1 / 2 * (3 / 4) * b.wd k, fun k => 1 / 2 * (b.hi k + b.lo k) + 1 / 2 * (3 / 4) * b.wd k⟩

/-- The condition in `dataobjects/multigraphobjects/average-velocity-data.cpp:33-34` and `average-position-data.cpp:34`; `g` is `gather_bounds`. -/
def OkIn (g : Box d) (p : P d) : Prop := Ok p ∧ g.contains p.x = true

noncomputable instance (g : Box d) : DecidablePred (OkIn g) := fun p => by unfold OkIn; infer_instance

/-- Component `k` of `AverageVelocityData::post_step`, `dataobjects/multigraphobjects/average-velocity-data.cpp:20-43`, with `MultiGraphData::gatherAverageData`. -/
noncomputable def velocityEntry (g : Box d) (k : Fin d) (ranks : List (Rank d)) : Option ℝ :=
  gatherAverage (ranks.map fun r => loopFrom 0 (OkIn g) (fun p => p.v k) r.slots) (ranks.map fun r => (countLoop (OkIn g) r.slots : ℝ))

/-- Component `k` of `AveragePositionData::post_step`, `dataobjects/multigraphobjects/average-position-data.cpp:20-43` (`useAve` is always true). -/
noncomputable def positionEntry (g : Box d) (k : Fin d) (ranks : List (Rank d)) : Option ℝ :=
  gatherAverage (ranks.map fun r => loopFrom 0 (OkIn g) (fun p => p.x k) r.slots) (ranks.map fun r => (countLoop (OkIn g) r.slots : ℝ))

/-- Column `ty` of `NumberData::post_step`, `dataobjects/multigraphobjects/number-data.cpp:7-23`. -/
noncomputable def numberEntry (ntypes : ℕ) (ty : ℕ) (ranks : List (Rank d)) : ℝ :=
  gather (ranks.map fun r => loopFrom 0 (fun p => (-1 < p.type ∧ p.type < ntypes) ∧ p.type = ty) (fun _ => 1) r.slots)

/-- `PhiData::post_step`, `dataobjects/multigraphobjects/phi-data.cpp:7-25`; the excluded volume is never set. -/
noncomputable def phiEntry (vol : ℝ) (ranks : List (Rank d)) : Option ℝ :=
  if vol = 0 then none else some (gather (ranks.map fun r => loopFrom 0 (fun p => -1 < p.type) (fun p => Regions.sphereVolume p.sg d) r.slots) / vol)

/-- `SimData::number`, `base/simdata.cpp:289-291`: owned particles that are not marked and ghosts. -/
def number (r : Rank d) : ℕ := countLoop (fun p => -1 < p.type) r.slots + r.ghosts

/-- Column `ty` of `KineticEnergyTypesData::post_step`, `dataobjects/kineticenergytypesdata.cpp:22-43`, on the processor `r`; nothing is gathered and processor 0 writes its own file (`base/datamaster.cpp:180-181`). -/
noncomputable def typesOf (useAve : Bool) (ntypes ty : ℕ) (r : Rank d) : Option ℝ :=
  let e := loopFrom 0 (fun p => (-1 < p.type ∧ p.type < ntypes ∧ 0 < p.im) ∧ p.type = ty) (fun p => sqr p.v / p.im) r.slots * (1 / 2)
  if useAve then if number r = 0 then none else some (e / number r) else some e

/-- The file of `KineticEnergyTypesData`: that of processor 0, `base/datamaster.cpp:167-181`. -/
noncomputable def typesEntry (useAve : Bool) (ntypes ty : ℕ) : List (Rank d) → Option ℝ
  | [] => none
  | r :: _ => typesOf useAve ntypes ty r

/-- `OscillationData::post_integrate`, `dataobjects/multigraphobjects/oscillation-data.cpp:42-57`, on the columns (the first is the time): `ndata_points` is never changed by this object, so that the sums are zero, and the columns in
the last loop are copies; `ave[i-1]` is read for each entry `i ≥ 1` of each column. -/
def oscillationEnd (dims : ℕ) (cols : List (List ℝ)) : Option (List (List ℝ)) :=
  if ∀ c ∈ cols, c.length ≤ dims + 1 then some cols else none

/-! ### Lemmas -/

theorem loop_flat (c : P d → Prop) [DecidablePred c] (f : P d → ℝ) (ranks : List (Rank d)) :
    (ranks.map fun r => loopFrom 0 c f r.slots).sum = total f ((everyone ranks).filter fun p => decide (c p)) := by
  rw [← total_flat f (fun l => l.filter fun p => decide (c p)) (fun a b => List.filter_append ..) rfl]
  congr 1
  apply List.map_congr_left
  intro r _
  rw [loopFrom_eq, zero_add]

theorem count_loop_flat (c : P d → Prop) [DecidablePred c] (ranks : List (Rank d)) :
    (ranks.map fun r => (countLoop c r.slots : ℝ)).sum = (((everyone ranks).filter fun p => decide (c p)).length : ℝ) := by
  unfold everyone
  induction ranks with
  | nil => simp
  | cons r rs ih => rw [List.map_cons, List.sum_cons, ih, List.flatMap_cons, List.filter_append, List.length_append, countLoop_eq]; push_cast; ring

/-- The particles of a list whose position is in a box. -/
noncomputable def inside (g : Box d) (l : List (P d)) : List (P d) := l.filter fun p => g.contains p.x

theorem filter_okIn (g : Box d) (l : List (P d)) : (l.filter fun p => decide (OkIn g p)) = inside g (movable l) := by
  unfold inside
  rw [← filter_ok, List.filter_filter]
  apply List.filter_congr
  intro p _
  unfold OkIn
  by_cases h1 : Ok p <;> by_cases h2 : g.contains p.x = true <;> simp [h1, h2]

theorem total_pos_of_movable (f : P d → ℝ) (l : List (P d)) (hf : ∀ p ∈ l, 0 < f p) (hne : l ≠ []) : 0 < total f l := by
  unfold total
  apply List.sum_pos
  · intro y hy
    obtain ⟨q, hq, rfl⟩ := List.mem_map.mp hy
    exact hf q hq
  · simpa using hne

theorem mem_movable {l : List (P d)} {p : P d} (h : p ∈ movable l) : 0 < p.im := (of_decide_eq_true (List.mem_filter.mp h).2).1

/-- **C114, speed and angular velocity.** If some movable particle exists, the recorded average speed is the average of the lengths of the velocities over the movable particles of all processors that are not marked for removal, and the recorded
average angular velocity is the one weighted with the masses; otherwise there is no number. -/
theorem C114_speed (ranks : List (Rank d)) :
    (movable (everyone ranks) ≠ [] →
      (∃ a, speedEntry ranks = some a ∧ a * (movable (everyone ranks)).length = total (fun p => Real.sqrt (∑ k, p.v k ^ 2)) (movable (everyone ranks)))
      ∧ ∃ a, omegaEntry ranks = some a ∧ a * total mass (movable (everyone ranks)) = total (fun p => mass p * p.om) (movable (everyone ranks)))
    ∧ (movable (everyone ranks) = [] → speedEntry ranks = none ∧ omegaEntry ranks = none) := by
  have hw : (ranks.map fun r => loopFrom 0 Ok (fun p => 1 / p.im) r.slots).sum = total mass (movable (everyone ranks)) := by
    rw [loop_flat, filter_ok]; rfl
  refine ⟨fun hne => ⟨?_, ?_⟩, fun h0 => ⟨?_, ?_⟩⟩
  · refine gatherAverage_ok _ _ _ _ ?_ (count_flat ranks) ?_
    · rw [loop_flat, filter_ok]
      congr 1
      funext p
      rw [sqr_eq]
    · have : 0 < (movable (everyone ranks)).length := List.length_pos_iff.mpr hne
      positivity
  · refine gatherAverage_ok _ _ _ _ ?_ hw ?_
    · rw [loop_flat, filter_ok]
      congr 1
      funext p
      unfold mass; ring
    · have := total_pos_of_movable mass (movable (everyone ranks)) (fun p hp => by have := mem_movable hp; unfold mass; positivity) hne
      exact ne_of_gt this
  · apply gatherAverage_none
    rw [count_flat, h0]; simp
  · apply gatherAverage_none
    rw [hw, h0]; simp [total]

/-- **C114, velocity and position (partial).** The recorded average velocity and position are those of the movable, unmarked particles of all processors in the window of the object. Missing: the window is not the box (negation). -/
theorem C114_velocity_partial (g : Box d) (k : Fin d) (ranks : List (Rank d)) (hne : inside g (movable (everyone ranks)) ≠ []) :
    (∃ a, velocityEntry g k ranks = some a ∧ a * (inside g (movable (everyone ranks))).length = total (fun p => p.v k) (inside g (movable (everyone ranks))))
    ∧ ∃ a, positionEntry g k ranks = some a ∧ a * (inside g (movable (everyone ranks))).length = total (fun p => p.x k) (inside g (movable (everyone ranks))) := by
  have : 0 < (inside g (movable (everyone ranks))).length := List.length_pos_iff.mpr hne
  constructor
  · refine gatherAverage_ok _ _ _ _ ?_ (by rw [count_loop_flat, filter_okIn]) (by positivity)
    rw [loop_flat, filter_okIn]
  · refine gatherAverage_ok _ _ _ _ ?_ (by rw [count_loop_flat, filter_okIn]) (by positivity)
    rw [loop_flat, filter_okIn]

/-- **C114, the window.** The window of the constructor is the middle of the box, three quarters of its width in each direction, and is part of the box. -/
theorem C114_window (b : Box d) (hb : ∀ k, b.lo k ≤ b.hi k) :
    (∀ k, (window b).wd k = 3 / 4 * b.wd k) ∧ (∀ k, (window b).lo k + (window b).hi k = b.lo k + b.hi k) ∧ ∀ x, (window b).contains x = true → b.contains x = true := by
  refine ⟨fun k => ?_, fun k => ?_, fun x hx => ?_⟩
  · unfold window Box.wd; ring
  · unfold window; ring
  · rw [contains_iff] at hx ⊢
    intro k
    have h1 := hx k
    have h2 := hb k
    unfold window Box.wd at h1
    simp only at h1
    constructor
    · linarith [h1.1]
    · linarith [h1.2]

/-- **C114, negation: the window.** In every box there are places near the walls where a moving particle is left out of the average: a single such particle yields no number. -/
theorem C114_negation_window (b : Box d) (hb : ∀ k, b.lo k < b.hi k) (k : Fin d) (p : P d) (hp : p.x k < b.lo k + 1 / 8 * b.wd k) :
    velocityEntry (window b) k [⟨[p], 0, [], [], 0, []⟩] = none ∧ ∃ x : Fin d → ℝ, b.contains x = true ∧ x k < b.lo k + 1 / 8 * b.wd k := by
  refine ⟨?_, b.lo, ?_, ?_⟩
  · apply gatherAverage_none
    rw [count_loop_flat, filter_okIn]
    have : (window b).contains p.x = false := by
      rw [Bool.eq_false_iff]
      intro h
      have := (contains_iff _ _).mp h k
      unfold window Box.wd at this
      unfold Box.wd at hp
      simp only at this
      linarith [this.1]
    have h0 : inside (window b) (movable (everyone [⟨[p], 0, [], [], 0, []⟩])) = [] := by
      unfold inside
      apply List.filter_eq_nil_iff.mpr
      intro q hq
      have hq' := List.mem_of_mem_filter hq
      simp [everyone] at hq'
      subst hq'
      simp [this]
    rw [h0]; simp
  · rw [contains_iff]
    intro j
    exact ⟨le_refl _, hb j⟩
  · have := hb k
    unfold Box.wd; linarith

theorem count_types (n : ℕ) (l : List (P d)) :
    ((List.range n).map fun ty : ℕ => ((l.filter fun p => decide (p.type = (ty : ℤ))).length : ℝ)).sum = ((l.filter fun p => decide (0 ≤ p.type ∧ p.type < (n : ℤ))).length : ℝ) := by
  induction n with
  | zero =>
    have : (l.filter fun p => decide (0 ≤ p.type ∧ p.type < ((0 : ℕ) : ℤ))) = [] := by
      apply List.filter_eq_nil_iff.mpr
      intro p _
      simp
    rw [this]; simp
  | succ n ih =>
    rw [List.range_succ, List.map_append, List.sum_append, ih]
    simp only [List.map_cons, List.map_nil, List.sum_cons, List.sum_nil, add_zero]
    clear ih
    induction l with
    | nil => simp
    | cons p l ih =>
      simp only [List.filter_cons]
      by_cases ha : 0 ≤ p.type ∧ p.type < (n : ℤ)
      · have hb : ¬ p.type = (n : ℤ) := by omega
        have hc : 0 ≤ p.type ∧ p.type < ((n + 1 : ℕ) : ℤ) := by push_cast; omega
        rw [if_pos (decide_eq_true ha), if_neg (by simpa using hb), if_pos (decide_eq_true hc)]
        simp only [List.length_cons, Nat.cast_add, Nat.cast_one] at ih ⊢
        linarith
      · by_cases hb : p.type = (n : ℤ)
        · have hc : 0 ≤ p.type ∧ p.type < ((n + 1 : ℕ) : ℤ) := by push_cast; omega
          rw [if_neg (fun h => ha (of_decide_eq_true h)), if_pos (decide_eq_true hb), if_pos (decide_eq_true hc)]
          simp only [List.length_cons, Nat.cast_add, Nat.cast_one] at ih ⊢
          linarith
        · have hc : ¬ (0 ≤ p.type ∧ p.type < ((n + 1 : ℕ) : ℤ)) := by push_cast; omega
          rw [if_neg (fun h => ha (of_decide_eq_true h)), if_neg (fun h => hb (of_decide_eq_true h)), if_neg (fun h => hc (of_decide_eq_true h))]
          exact ih

/-- **C114, numbers.** The recorded number of each type is the number of particles of this type on all processors that are not marked for removal; together they are all particles with a type below the number of types. -/
theorem C114_numbers (ntypes : ℕ) (ranks : List (Rank d)) :
    (∀ ty < ntypes, numberEntry ntypes ty ranks = (((everyone ranks).filter fun p => decide (p.type = (ty : ℤ))).length : ℝ))
    ∧ ((List.range ntypes).map fun ty => numberEntry ntypes ty ranks).sum = (((everyone ranks).filter fun p => decide (0 ≤ p.type ∧ p.type < (ntypes : ℤ))).length : ℝ) := by
  have h1 : ∀ ty < ntypes, numberEntry ntypes ty ranks = (((everyone ranks).filter fun p => decide (p.type = (ty : ℤ))).length : ℝ) := by
    intro ty ht
    unfold numberEntry gather
    rw [loop_flat]
    have : ((everyone ranks).filter fun p => decide ((-1 < p.type ∧ p.type < (ntypes : ℤ)) ∧ p.type = (ty : ℤ))) = (everyone ranks).filter fun p => decide (p.type = (ty : ℤ)) := by
      apply List.filter_congr
      intro p _
      apply decide_eq_decide.mpr
      constructor
      · rintro ⟨_, h⟩; exact h
      · intro h; exact ⟨⟨by omega, by omega⟩, h⟩
    rw [this]
    simp [total]
  refine ⟨h1, ?_⟩
  rw [← count_types ntypes (everyone ranks)]
  congr 1
  apply List.map_congr_left
  intro ty ht
  exact h1 ty (List.mem_range.mp ht)

/-- **C114, filled fraction.** The recorded fraction times the volume of the box is the volume of the spheres of all particles that are not marked for removal. -/
theorem C114_phi (vol : ℝ) (hv : vol ≠ 0) (ranks : List (Rank d)) :
    ∃ a, phiEntry vol ranks = some a ∧ a * vol = total (fun p => Regions.sphereVolume p.sg d) ((everyone ranks).filter fun p => decide (0 ≤ p.type)) := by
  unfold phiEntry gather
  rw [if_neg hv]
  refine ⟨_, rfl, ?_⟩
  rw [loop_flat, div_mul_cancel₀ _ hv]
  congr 1

/-- The true kinetic energy of the particles of a type. -/
noncomputable def keOfType (ty : ℕ) (ranks : List (Rank d)) : ℝ := total ke ((movable (everyone ranks)).filter fun p => decide (p.type = (ty : ℤ)))

/-- **C114, energies per type (partial).** On one processor the recorded energy of each type is the kinetic energy of its movable particles that are not marked for removal. Missing: several processors, and averages, which are divided by the number of all
particles of all types and of the ghosts. -/
theorem C114_types_partial (ntypes ty : ℕ) (ht : ty < ntypes) (r : Rank d) : typesEntry false ntypes ty [r] = some (keOfType ty [r]) := by
  unfold typesEntry typesOf keOfType
  simp only [Bool.false_eq_true, if_false, everyone, List.flatMap_cons, List.flatMap_nil, List.append_nil]
  rw [loopFrom_eq, zero_add, total_mul]
  congr 1
  have : (r.slots.filter fun p => decide ((-1 < p.type ∧ p.type < (ntypes : ℤ) ∧ 0 < p.im) ∧ p.type = (ty : ℤ))) = (movable r.slots).filter fun p => decide (p.type = (ty : ℤ)) := by
    unfold movable
    rw [List.filter_filter]
    apply List.filter_congr
    intro p _
    rw [← Bool.decide_and]
    apply decide_eq_decide.mpr
    constructor
    · rintro ⟨⟨h1, h2, h3⟩, h4⟩; exact ⟨h4, h3, by omega⟩
    · rintro ⟨h4, h3, h5⟩; exact ⟨⟨by omega, by omega, h3⟩, h4⟩
  rw [this]
  congr 1
  funext p
  rw [sqr_eq]; unfold ke mass; ring

/-- **C114, negation: energies per type on several processors.** The particles of the other processors are missing: the entry is that of the first processor alone, and wrong as soon as a movable particle of the type moves on another one. -/
theorem C114_negation_types (ntypes ty : ℕ) (ht : ty < ntypes) (r : Rank d) (rs : List (Rank d)) (p : P d) (hp : p ∈ movable (everyone rs)) (hty : p.type = ty) (k : Fin d) (hv : p.v k ≠ 0) :
    typesEntry false ntypes ty (r :: rs) = some (keOfType ty [r]) ∧ typesEntry false ntypes ty (r :: rs) ≠ some (keOfType ty (r :: rs)) := by
  have h1 : typesEntry false ntypes ty (r :: rs) = some (keOfType ty [r]) := C114_types_partial ntypes ty ht r
  refine ⟨h1, ?_⟩
  rw [h1]
  intro h
  have h := Option.some.inj h
  have hs : keOfType ty (r :: rs) = keOfType ty [r] + keOfType ty rs := by
    unfold keOfType everyone
    rw [List.flatMap_cons, List.flatMap_cons, List.flatMap_nil, List.append_nil, movable_append, List.filter_append, total_append]
  have h0 : keOfType ty rs = 0 := by linarith
  have hpos : ∀ q ∈ (movable (everyone rs)).filter fun p => decide (p.type = (ty : ℤ)), 0 ≤ ke q := by
    intro q hq
    have := mem_movable (List.mem_of_mem_filter hq)
    unfold ke mass
    have : 0 ≤ ∑ k, q.v k ^ 2 := Finset.sum_nonneg fun _ _ => sq_nonneg _
    positivity
  have hle : ke p ≤ keOfType ty rs := by
    unfold keOfType total
    apply List.single_le_sum
    · intro y hy
      obtain ⟨q, hq, rfl⟩ := List.mem_map.mp hy
      exact hpos q hq
    · exact List.mem_map.mpr ⟨p, List.mem_filter.mpr ⟨hp, by simpa using hty⟩, rfl⟩
  have : 0 < ke p := by
    unfold ke mass
    have := mem_movable hp
    have : 0 < ∑ k, p.v k ^ 2 := Finset.sum_pos' (fun _ _ => sq_nonneg _) ⟨k, Finset.mem_univ _, by positivity⟩
    positivity
  linarith

/-- **C114, negation: deviations.** At the end of a run `OscillationData` does not subtract the average: the recorded columns are what they were, and with more records than dimensions plus one numbers outside of the vector of averages are read. -/
theorem C114_negation_oscillation (dims : ℕ) (cols : List (List ℝ)) :
    (∀ r, oscillationEnd dims cols = some r → r = cols) ∧ ((∃ c ∈ cols, dims + 1 < c.length) → oscillationEnd dims cols = none) := by
  unfold oscillationEnd
  refine ⟨fun r hr => ?_, ?_⟩
  · split_ifs at hr
    exact (Option.some.inj hr).symm
  · rintro ⟨c, hc, hl⟩
    rw [if_neg]
    intro h
    have := h c hc
    omega

/-- Two particles in the middle and one near the wall of a box. -/
example : let b : Box 1 := ⟨![0], ![8]⟩
    let p : P 1 := ⟨0, 1, 1, 0, ![4], ![3]⟩
    let q : P 1 := ⟨0, 1, 1, 0, ![1/2], ![100]⟩
    velocityEntry (window b) 0 [⟨[p], 0, [], [], 0, []⟩, ⟨[q], 0, [], [], 0, []⟩] = some 3 := by
  intro b p q
  have hin : inside (window b) (movable (everyone [⟨[p], 0, [], [], 0, []⟩, ⟨[q], 0, [], [], 0, []⟩])) = [p] := by
    have hm : movable (everyone [⟨[p], 0, [], [], 0, []⟩, ⟨[q], 0, [], [], 0, []⟩]) = [p, q] := by
      simp [movable, everyone, p, q]
    rw [hm]
    have h1 : (window b).contains p.x = true := by
      rw [contains_iff]
      intro k
      obtain rfl : k = 0 := Subsingleton.elim _ _
      simp [window, Box.wd, b, p]
      constructor <;> norm_num
    have h2 : (window b).contains q.x = false := by
      rw [Bool.eq_false_iff]
      intro h
      have := ((contains_iff _ _).mp h 0).1
      simp [window, Box.wd, b, q] at this
      norm_num at this
    simp [inside, h1, h2]
  obtain ⟨a, ha, hb⟩ := (C114_velocity_partial (window b) 0 [⟨[p], 0, [], [], 0, []⟩, ⟨[q], 0, [], [], 0, []⟩] (by rw [hin]; simp)).1
  rw [ha, hin] at *
  simp [total, p] at hb
  rw [hb]

/-! ## Temperature and pressure (C115) -/

/-- `KineticEnergyData::calculate_temperature`, `dataobjects/graphobjects/kineticenergydata.cpp:36-41`. -/
noncomputable def temperature (kB : ℝ) (l : List (P d)) : Option ℝ := (calculateKinetic l true).map fun k => 2 / d * k / kB

/-- `PressureData::calculate_pressure`, `dataobjects/graphobjects/pressuredata.cpp:27-51`. -/
noncomputable def pressureOf (kB vol : ℝ) (r : Rank d) : Option ℝ :=
  match calculateKinetic r.slots true with
  | none => none
  | some k =>
    let T := 2 * k / (d * kB)
    let p0 := number r * kB * T / vol
    let p1 := r.virials.foldl (fun p w => p + 1 / (d * vol) * w) p0
    if p0 = 0 then none else some (p1 / p0)

/-- `PressureData::post_step`, `dataobjects/graphobjects/pressuredata.cpp:16-25`: the values of all processors are added. -/
noncomputable def pressureEntry (kB vol : ℝ) (ranks : List (Rank d)) : Option ℝ := (ranks.mapM (pressureOf kB vol)).map gather

theorem calculateKinetic_ave (l : List (P d)) (h : ∀ p ∈ l, 0 ≤ p.type) (hne : movable l ≠ []) :
    calculateKinetic l true = some (total ke (movable l) / (movable l).length) := by
  unfold calculateKinetic
  rw [if_pos rfl, countLoop_eq, filter_im l h, if_neg (by simpa using hne), kineticSum_eq l h]

/-- **C115, temperature (partial).** While no particle is marked for removal and a movable one exists, the temperature satisfies equipartition: half of `kB T` for each dimension of each movable particle is their kinetic energy. Missing: only the particles of one
processor are counted, and marked ones are (as in C113). -/
theorem C115_temperature_partial (kB : ℝ) (hk : kB ≠ 0) (hd : 0 < d) (l : List (P d)) (h : ∀ p ∈ l, 0 ≤ p.type) (hne : movable l ≠ []) :
    ∃ T, temperature kB l = some T ∧ (movable l).length * (d : ℝ) / 2 * kB * T = total ke (movable l) := by
  unfold temperature
  rw [calculateKinetic_ave l h hne]
  refine ⟨_, rfl, ?_⟩
  have h1 : ((movable l).length : ℝ) ≠ 0 := by
    have := List.length_pos_iff.mpr hne
    positivity
  have h2 : (d : ℝ) ≠ 0 := by positivity
  field_simp

theorem virial_fold (c : ℝ) (l : List ℝ) (a : ℝ) : l.foldl (fun p w => p + c * w) a = a + c * l.sum := by
  induction l generalizing a with
  | nil => simp
  | cons w l ih => rw [List.foldl_cons, ih, List.sum_cons]; ring

/-- **C115, pressure (partial).** On one processor without ghosts, while no particle is marked for removal, at least one moves, and `N` is the number of all particles, the recorded number `Z` is the pressure of the virial equation in units of `N kB T / V`:
`Z N kB T / V = N kB T / V + W / (d V)` for the temperature above. Missing: several processors, ghosts; the value is not the pressure itself. -/
theorem C115_pressure_partial (kB vol : ℝ) (hk : kB ≠ 0) (hv : vol ≠ 0) (hd : 0 < d) (r : Rank d) (hg : r.ghosts = 0) (h : ∀ p ∈ r.slots, 0 ≤ p.type) (hne : total ke (movable r.slots) ≠ 0) :
    ∃ Z T, pressureEntry kB vol [r] = some Z ∧ temperature kB r.slots = some T ∧ Z * (r.slots.length * kB * T / vol) = r.slots.length * kB * T / vol + r.virials.sum / (d * vol) := by
  have hne' : movable r.slots ≠ [] := by intro h0; rw [h0] at hne; simp [total] at hne
  have hnum : number r = r.slots.length := by
    unfold number
    rw [hg, countLoop_eq, add_zero, List.filter_eq_self.mpr]
    intro p hp
    have := h p hp
    simp; omega
  have h1 : ((movable r.slots).length : ℝ) ≠ 0 := by
    have := List.length_pos_iff.mpr hne'
    positivity
  have h3 : (r.slots.length : ℝ) ≠ 0 := by
    have : r.slots ≠ [] := by intro h0; rw [h0] at hne'; exact hne' rfl
    have := List.length_pos_iff.mpr this
    positivity
  have h2 : (d : ℝ) ≠ 0 := by positivity
  have hp0 : (r.slots.length : ℝ) * kB * (2 * (total ke (movable r.slots) / (movable r.slots).length) / (d * kB)) / vol ≠ 0 := by
    apply div_ne_zero _ hv
    apply mul_ne_zero (mul_ne_zero h3 hk)
    apply div_ne_zero _ (mul_ne_zero h2 hk)
    exact mul_ne_zero two_ne_zero (div_ne_zero hne h1)
  have hT : temperature kB r.slots = some (2 * (total ke (movable r.slots) / (movable r.slots).length) / (d * kB)) := by
    unfold temperature
    rw [calculateKinetic_ave _ h hne', Option.map_some]
    congr 1
    field_simp
  have hP : pressureOf kB vol r = some (((r.slots.length : ℝ) * kB * (2 * (total ke (movable r.slots) / (movable r.slots).length) / (d * kB)) / vol + 1 / (d * vol) * r.virials.sum)
      / ((r.slots.length : ℝ) * kB * (2 * (total ke (movable r.slots) / (movable r.slots).length) / (d * kB)) / vol)) := by
    unfold pressureOf
    rw [calculateKinetic_ave _ h hne']
    simp only [hnum, virial_fold]
    rw [if_neg hp0]
  have hE : ∀ z, pressureOf kB vol r = some z → pressureEntry kB vol [r] = some z := by
    intro z hz
    unfold pressureEntry
    simp only [List.mapM_cons, List.mapM_nil, hz]
    simp [gather]
  refine ⟨_, _, hE _ hP, hT, ?_⟩
  rw [div_mul_cancel₀ _ hp0]
  ring

/-- A processor whose particles are all unmarked and not all at rest, with no forces. -/
def Ideal (r : Rank d) : Prop := r.virials.sum = 0 ∧ (∀ p ∈ r.slots, 0 ≤ p.type) ∧ total ke (movable r.slots) ≠ 0

/-- **C115, negation: several processors.** The recorded pressure of an ideal gas is the number of processors, not one. -/
theorem C115_negation_processors (kB vol : ℝ) (hk : kB ≠ 0) (hv : vol ≠ 0) (hd : 0 < d) (ranks : List (Rank d)) (h : ∀ r ∈ ranks, Ideal r) :
    pressureEntry kB vol ranks = some (ranks.length : ℝ) := by
  have key : ∀ r : Rank d, Ideal r → pressureOf kB vol r = some 1 := by
    rintro r ⟨hw, ht, hne⟩
    have hne' : movable r.slots ≠ [] := by intro h0; rw [h0] at hne; simp [total] at hne
    have h1 : ((movable r.slots).length : ℝ) ≠ 0 := by
      have := List.length_pos_iff.mpr hne'
      positivity
    have h2 : (d : ℝ) ≠ 0 := by positivity
    have h3 : (number r : ℝ) ≠ 0 := by
      have : 0 < number r := by
        unfold number
        rw [countLoop_eq]
        obtain ⟨p, hp⟩ := List.exists_mem_of_ne_nil _ hne'
        have hp' := List.mem_of_mem_filter hp
        have : 0 < (r.slots.filter fun p => decide (-1 < p.type)).length := by
          apply List.length_pos_of_mem (a := p)
          apply List.mem_filter.mpr
          have := ht p hp'
          exact ⟨hp', by simp; omega⟩
        omega
      positivity
    have hp0 : (number r : ℝ) * kB * (2 * (total ke (movable r.slots) / (movable r.slots).length) / (d * kB)) / vol ≠ 0 := by
      apply div_ne_zero _ hv
      apply mul_ne_zero (mul_ne_zero h3 hk)
      apply div_ne_zero _ (mul_ne_zero h2 hk)
      exact mul_ne_zero two_ne_zero (div_ne_zero hne h1)
    unfold pressureOf
    rw [calculateKinetic_ave _ ht hne']
    simp only [virial_fold, hw, mul_zero, add_zero]
    rw [if_neg hp0, div_self hp0]
  have hm : ranks.mapM (pressureOf kB vol) = some (ranks.map fun _ => (1 : ℝ)) := by
    induction ranks with
    | nil => rfl
    | cons r rs ih =>
      rw [List.mapM_cons, key r (h r (by simp)), ih (fun r hr => h r (by simp [hr]))]
      rfl
  unfold pressureEntry
  rw [hm]
  simp [gather]

/-- **C115, negation: no motion.** If all particles are at rest, or none is movable, the recorded pressure is not a number, also with forces between the particles. -/
theorem C115_negation_rest (kB vol : ℝ) (r : Rank d) (h : ∀ p ∈ r.slots, p.v = 0) : pressureEntry kB vol [r] = none := by
  have hP : pressureOf kB vol r = none := by
    unfold pressureOf calculateKinetic
    rw [if_pos rfl]
    by_cases hc : countLoop (fun p => 0 < p.im) r.slots = 0
    · rw [if_pos hc]
    · rw [if_neg hc]
      have hz : kineticSum r.slots = 0 := by
        unfold kineticSum
        rw [loopFrom_eq, zero_add, total_mul]
        unfold total
        apply List.sum_eq_zero
        intro y hy
        obtain ⟨q, hq, rfl⟩ := List.mem_map.mp hy
        rw [sqr_eq, h q (List.mem_of_mem_filter hq)]
        simp
      simp [hz]
  unfold pressureEntry
  simp only [List.mapM_cons, List.mapM_nil, hP]
  rfl

/-- An ideal gas of one particle on each of two processors: the recorded pressure is 2. -/
example : let r : Rank 1 := ⟨[⟨0, 1, 1, 0, ![0], ![1]⟩], 0, [], [], 0, []⟩
    Ideal r ∧ pressureEntry 1 1 [r, r] = some 2 := by
  intro r
  have h : Ideal r := by
    refine ⟨by simp [r], by simp [r], ?_⟩
    have : movable r.slots = [⟨0, 1, 1, 0, ![0], ![1]⟩] := by simp [movable, r]
    rw [this]
    simp [total, ke, mass]
  refine ⟨h, ?_⟩
  rw [C115_negation_processors 1 1 one_ne_zero one_ne_zero one_pos [r, r] (by simp [h])]
  norm_num

/-! ## Records of later runs (C116) -/

section Runs
open Verif.Recording
variable {α : Type} [Field α] [LinearOrder α] [IsStrictOrderedRing α]

/-- How a data object prepares a run: by `GraphObject::pre_integrate` or `MultiGraphObject::pre_integrate` (`dataobjects/dataobjecttypes/graphobject.cpp:12-17`, `multigraphobject.cpp:11-16`), which call `DataObject::pre_integrate` and clear the data; or by an override that
does not: `TotalEnergyData` (`total-energy-data.cpp:10-12`), `PressureData` (`pressuredata.cpp:10-14`), `CavityStatistics` (`cavity-statistics.cpp:14-18`); or by one that only clears the data: `PersistenceLength` (`persistence-length.cpp:9-14`), `MultiBinObject` (`multibinobject.cpp:14-16`). -/
inductive Kind where
  | usual
  | override
  | clears

/-- `pre_integrate` of a graph object: the cadence and the stored data, `dataobjects/dataobjecttypes/graphobject.cpp:12-17`. -/
def prepare (k : Kind) (s : DO α × List (α × α)) : DO α × List (α × α) :=
  match k with
  | .usual => (preIntegrate s.1, [])
  | .override => s
  | .clears => (s.1, [])

/-- The steps of one run with a value for each time; the elapsed time begins at zero in each run (`gflow.cpp:130-135`), the times are those of the steps. -/
def runOf (k : Kind) (start : α) (value : α → α) (s : DO α × List (α × α)) (ts : List α) : DO α × List (α × α) :=
  let q := record start true (prepare k s).1 ts
  (q.2, (prepare k s).2 ++ q.1.map fun t => (t, value t))

/-- **C116, records of a run (partial).** An object that uses the inherited preparation holds, after any earlier history, exactly the records of the last run, which are those of a new object. Missing: objects with their own preparation (negations). -/
theorem C116_runs_partial (start : α) (value : α → α) (s s' : DO α × List (α × α)) (hd : s.1.delay = s'.1.delay) (hg : s.1.duringSetup = s'.1.duringSetup) (ts : List α) :
    runOf .usual start value s ts = runOf .usual start value s' ts
    ∧ (runOf .usual start value s ts).2 = (recorded start true s.1 ts).map fun t => (t, value t) := by
  constructor
  · unfold runOf prepare preIntegrate
    simp only [hd, hg]
  · unfold runOf prepare recorded
    simp

theorem record_nothing (start : α) (o : DO α) (ts : List α) (h : ∀ t ∈ ts, t < o.last + o.delay) : record start true o ts = ([], o) := by
  induction ts with
  | nil => rfl
  | cons t ts ih =>
    have h1 : masterStep start true o t = (false, o) := by
      unfold masterStep check
      have : t - o.last < o.delay := by linarith [h t (by simp)]
      split_ifs <;> simp_all
    rw [record_cons, h1]
    simp only [Bool.false_eq_true, if_false]
    rw [ih fun u hu => h u (by simp [hu])]

/-- **C116, negation: later runs.** The total energy and the pressure are not recorded in a later run until its time exceeds the time of the last record of the earlier run by the delay, and the old records stay. -/
theorem C116_negation_later (start : α) (value : α → α) (s : DO α × List (α × α)) (ts : List α) (h : ∀ t ∈ ts, t < s.1.last + s.1.delay) :
    runOf .override start value s ts = s := by
  unfold runOf prepare
  simp only [record_nothing start s.1 ts h]
  simp

/-- **C116, negation: lost data.** Objects that only clear their data hold nothing after a later run of this kind: the old records are lost and the new ones missing. -/
theorem C116_negation_lost (start : α) (value : α → α) (s : DO α × List (α × α)) (ts : List α) (h : ∀ t ∈ ts, t < s.1.last + s.1.delay) :
    runOf .clears start value s ts = (s.1, []) := by
  unfold runOf prepare
  simp only [record_nothing start s.1 ts h]
  simp

/-- Two runs of the same length: the second one is not recorded by `TotalEnergyData`, but it is by `KineticEnergyData`. -/
example : let s : DO ℚ × List (ℚ × ℚ) := (⟨1, -10, false⟩, [])
    let f : ℚ → ℚ := fun t => t
    runOf .override 0 f (runOf .override 0 f s [0, 1, 2]) [0, 1, 2] = runOf .override 0 f s [0, 1, 2]
    ∧ (runOf .clears 0 f (runOf .clears 0 f s [0, 1, 2]) [0, 1, 2]).2 = []
    ∧ (runOf .usual 0 f (runOf .usual 0 f s [0, 1, 2]) [0, 1, 2]).2 = [(0, 0), (1, 1), (2, 2)] := by
  intro s f
  refine ⟨C116_negation_later 0 f _ _ ?_, ?_, by decide +kernel⟩
  · decide +kernel
  · decide +kernel

end Runs

end Verif.Observables
