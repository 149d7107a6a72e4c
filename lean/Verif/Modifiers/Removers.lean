import Verif.Other.Group

/-!
# Modifiers that act on a group: force and torque remover (C79, C80)

Models `modifiers/force-remover.cpp` and `modifiers/torque-remover.cpp`, on top of the model of `other/group.cpp`. Exact
real arithmetic; a division by zero is undefined (`none`).
-/

namespace Verif.Removers
open Verif.PairForces Verif.Groups

variable {d : ℕ}

/-- The world with other velocities. -/
def setV (W : World d) (v : ℕ → Fin d → ℝ) : World d := ⟨W.lid, W.x, v, W.f, W.im, W.lo, W.hi, W.wrap⟩

/-- The world with other forces. -/
def setF (W : World d) (f : ℕ → Fin d → ℝ) : World d := ⟨W.lid, W.x, W.v, f, W.im, W.lo, W.hi, W.wrap⟩

/-- `Vec::normalize`, `utility/vec.hpp:159-166`. -/
noncomputable def normalize (p : Fin d → ℝ) : Fin d → ℝ :=
  open Classical in if Real.sqrt (dot p p) = 0 then p else fun k => p k / Real.sqrt (dot p p)

/-- The members of `ForceRemover`, `modifiers/force-remover.hpp`. -/
structure ForceRemover (d : ℕ) where
  group : Group
  projection : Fin d → ℝ
  mass : ℝ

/-- Constructor with a direction, `modifiers/force-remover.cpp:10-14`; the mass is set by `pre_integrate`. -/
def ForceRemover.new (G : Group) (v : Fin d → ℝ) : ForceRemover d := ⟨G, v, 0⟩

/-- `remove_net_force`, `modifiers/force-remover.cpp:47-62`; `remake` is `getNeedsRemake()`. -/
noncomputable def ForceRemover.removeNetForce (R : ForceRemover d) (remake : Bool) (W : World d) :
    Option (ForceRemover d × World d) :=
  if R.mass ≤ 0 ∨ R.group.size = 0 then some (R, W)
  else
    (if remake then R.group.update W.lid else some R.group).map fun G =>
      let F := G.netForce W
      let acceleration := dot R.projection F / R.mass
      (⟨G, R.projection, R.mass⟩, setF W (G.addAcceleration W fun k => -acceleration * R.projection k))

/-- `ForceRemover::pre_integrate`, `modifiers/force-remover.cpp:23-39`. -/
noncomputable def ForceRemover.preIntegrate (R : ForceRemover d) (remake : Bool) (W : World d) :
    Option (ForceRemover d × World d) :=
  (R.group.update W.lid).bind fun G =>
    let mass := G.totalMass W
    let p := normalize R.projection
    (G.comVelocity W).bind fun V =>
      let W := setV W (G.addVelocity W fun k => -(dot V p) * p k)
      ForceRemover.removeNetForce ⟨G, p, mass⟩ remake W

/-- `ForceRemover::post_forces`, `modifiers/force-remover.cpp:41-45`. -/
noncomputable def ForceRemover.postForces (R : ForceRemover d) (remake : Bool) (W : World d) :
    Option (ForceRemover d × World d) := R.removeNetForce remake W

/-! ## C79 -/

/-- Spec: the component along `p` of a sum over the members. -/
noncomputable def along (p : Fin d → ℝ) (l : List ℕ) (q : ℕ → Fin d → ℝ) : ℝ := ∑ k, p k * total l fun i => q i k

theorem total_add (l : List ℕ) (p q : ℕ → ℝ) : (total l fun i => p i + q i) = total l p + total l q := by
  unfold total; induction l with
  | nil => simp
  | cons a l ih => simp only [List.map_cons, List.sum_cons, ih]; ring

theorem total_mul (l : List ℕ) (c : ℝ) (q : ℕ → ℝ) : (total l fun i => q i * c) = total l q * c := by
  unfold total; induction l with
  | nil => simp
  | cons a l ih => simp only [List.map_cons, List.sum_cons, ih]; ring

theorem normalize_unit (p : Fin d → ℝ) (hp : p ≠ 0) : dot (normalize p) (normalize p) = 1 := by
  have h0 : 0 < dot p p := by
    obtain ⟨k, hk⟩ := Function.ne_iff.mp hp
    unfold dot
    have h1 : 0 < p k * p k := by have : p k ≠ 0 := hk; exact mul_self_pos.mpr this
    exact lt_of_lt_of_le h1 (Finset.single_le_sum (f := fun k => p k * p k) (fun i _ => mul_self_nonneg _) (Finset.mem_univ k))
  have hs : Real.sqrt (dot p p) ≠ 0 := (Real.sqrt_pos.mpr h0).ne'
  unfold normalize
  rw [if_neg hs]
  have : dot (fun k => p k / Real.sqrt (dot p p)) (fun k => p k / Real.sqrt (dot p p)) =
      dot p p / (Real.sqrt (dot p p) * Real.sqrt (dot p p)) := by
    conv_lhs => unfold dot
    conv_rhs => rw [show dot p p = ∑ k, p k * p k from rfl]
    rw [Finset.sum_div]
    refine Finset.sum_congr rfl fun k _ => ?_
    rw [show (∑ k, p k * p k) = dot p p from rfl]
    field_simp
  rw [this, Real.mul_self_sqrt h0.le, div_self h0.ne']

theorem count_nodup {l : List ℕ} (h : l.Nodup) (m : ℕ) : (l.count m : ℝ) = if m ∈ l then 1 else 0 := by
  by_cases hm : m ∈ l
  · rw [if_pos hm, List.count_eq_one_of_mem h hm]; simp
  · rw [if_neg hm, List.count_eq_zero_of_not_mem hm]; simp

/-- What a round of `remove_net_force` does when the member list does not change in it. -/
theorem remove_eq (R : ForceRemover d) (W : World d) (hG : OK R.group) (hn : R.group.lids.Nodup)
    (him : ∀ i ∈ R.group.lids, 0 < W.im i) (hM : 0 < R.mass) (hne : R.group.size ≠ 0) :
    ∃ f, R.removeNetForce false W = some (R, setF W f) ∧
      ∀ i k, f i k = W.f i k +
        if i ∈ R.group.lids then -(along R.projection R.group.lids W.f / R.mass) * (1 / W.im i * R.projection k) else 0 := by
  unfold ForceRemover.removeNetForce
  rw [if_neg (not_or.mpr ⟨not_le.mpr hM, hne⟩)]
  refine ⟨_, rfl, fun i k => ?_⟩
  rw [C45_add_acceleration W R.group hG, count_nodup hn]
  have hF : dot R.projection (R.group.netForce W) = along R.projection R.group.lids W.f := by
    unfold dot along
    exact Finset.sum_congr rfl fun k _ => by rw [C45_net_force W R.group hG]
  rw [hF]
  by_cases hi : i ∈ R.group.lids
  · rw [if_pos hi, if_pos hi]
    have := him i hi
    simp only [this, if_true]
    ring
  · rw [if_neg hi, if_neg hi]; simp

theorem along_add (p : Fin d → ℝ) (l : List ℕ) (q : ℕ → Fin d → ℝ) (c : ℕ → ℝ) :
    along p l (fun i k => q i k + c i * p k) = along p l q + total l c * dot p p := by
  unfold along dot
  rw [Finset.mul_sum, ← Finset.sum_add_distrib]
  refine Finset.sum_congr rfl fun k _ => ?_
  rw [total_add, total_mul]; ring

theorem along_congr (p : Fin d → ℝ) {l : List ℕ} {q r : ℕ → Fin d → ℝ} (h : ∀ i ∈ l, ∀ k, q i k = r i k) :
    along p l q = along p l r := by
  unfold along
  exact Finset.sum_congr rfl fun k _ => by rw [total_congr fun i hi => h i hi k]

/-- **C79, forces (partial).** When the stored mass is the mass of the members, after `post_forces` the net force on the group
has no component along the (unit) direction; every member's acceleration was changed by one and the same vector, parallel to
the direction, and nothing else in the world was changed: relative accelerations inside of the group and forces
perpendicular to the direction are as before.
Missing: members that were removed since the start of the run, see `C79_negation_removed_member`; the hypothesis on the
members of infinite mass is needed only because such a group is left alone, see `C79_immovable`. -/
theorem C79_forces_partial (R : ForceRemover d) (W : World d) (hG : OK R.group) (hn : R.group.lids.Nodup)
    (him : ∀ i ∈ R.group.lids, 0 < W.im i) (hne : R.group.size ≠ 0)
    (hM : R.mass = total R.group.lids fun i => 1 / W.im i) (hp : dot R.projection R.projection = 1) :
    ∃ f a, R.postForces false W = some (R, setF W f) ∧ along R.projection R.group.lids f = 0 ∧
      (∀ i ∈ R.group.lids, ∀ k, W.im i * f i k = W.im i * W.f i k + a * R.projection k) ∧
      ∀ i ∉ R.group.lids, ∀ k, f i k = W.f i k := by
  have hne' : R.group.lids ≠ [] := by
    intro h; apply hne; unfold Group.size; rw [← hG, h]; rfl
  have hpos : 0 < R.mass := hM ▸ total_pos W.im R.group.lids hne' him
  obtain ⟨f, e, hf⟩ := remove_eq R W hG hn him hpos hne
  refine ⟨f, -(along R.projection R.group.lids W.f / R.mass), e, ?_, ?_, ?_⟩
  · have : along R.projection R.group.lids f = along R.projection R.group.lids fun i k => W.f i k +
        1 / W.im i * (-(along R.projection R.group.lids W.f / R.mass)) * R.projection k := by
      refine along_congr _ fun i hi k => ?_
      rw [hf, if_pos hi]; ring
    rw [this, along_add, hp, total_mul, ← hM]
    field_simp
    ring
  · intro i hi k
    rw [hf, if_pos hi]
    have := (him i hi).ne'
    field_simp
  · intro i hi k
    rw [hf, if_neg hi, add_zero]

/-- After a rebuild of the neighbour structure (which may move particles to other places) the members are looked up again
before the force is removed. -/
theorem C79_after_reordering (R : ForceRemover d) (W : World d) (hG : OK R.group) (hM : 0 < R.mass) (hne : R.group.size ≠ 0) :
    ∃ G, R.group.update W.lid = some G ∧ OK G ∧ G.lids = R.group.gids.filterMap W.lid ∧
      (G.size ≠ 0 → R.postForces true W = (⟨G, R.projection, R.mass⟩ : ForceRemover d).postForces false W) := by
  refine ⟨_, update_eq W.lid R.group hG, ?_, rfl, ?_⟩
  · unfold OK
    simp only
    induction R.group.gids with
    | nil => rfl
    | cons g l ih => cases hg : W.lid g <;> simp [hg, ih]
  · intro hne2
    unfold ForceRemover.postForces ForceRemover.removeNetForce
    rw [if_neg (not_or.mpr ⟨not_le.mpr hM, hne⟩), if_neg (not_or.mpr ⟨not_le.mpr hM, hne2⟩), if_pos rfl, update_eq W.lid R.group hG]
    rfl

/-- A group with a member of infinite mass has mass zero, and then no force is changed. -/
theorem C79_immovable (R : ForceRemover d) (remake : Bool) (W : World d) (hG : OK R.group)
    (h : ∃ i ∈ R.group.lids, W.im i = 0) (hM : R.mass = R.group.totalMass W) : R.postForces remake W = some (R, W) := by
  unfold ForceRemover.postForces ForceRemover.removeNetForce
  rw [if_pos (Or.inl _)]
  rw [hM, (C45_total_mass W R.group hG).2.1 h]

/-- **C79, start of a run.** For a direction other than zero and a group of members of finite mass, `pre_integrate` makes the
direction a unit vector parallel to the given one, stores the mass of the members, and leaves the group without momentum and without net
force along it; velocities of members change by one vector along the direction, other velocities not at all. -/
theorem C79_start (G0 : Group) (v : Fin d → ℝ) (hv : v ≠ 0) (W : World d) (hG : OK G0)
    (hne : G0.gids.filterMap W.lid ≠ []) (hn : (G0.gids.filterMap W.lid).Nodup)
    (him : ∀ i ∈ G0.gids.filterMap W.lid, 0 < W.im i) :
    ∃ R W' a, (ForceRemover.new G0 v).preIntegrate false W = some (R, W') ∧
      R.group.lids = G0.gids.filterMap W.lid ∧ OK R.group ∧ R.group.size ≠ 0 ∧ dot R.projection R.projection = 1 ∧
      (∃ c, 0 < c ∧ ∀ k, R.projection k = c * v k) ∧
      R.mass = (total R.group.lids fun i => 1 / W.im i) ∧
      (along R.projection R.group.lids fun i k => 1 / W.im i * W'.v i k) = 0 ∧
      along R.projection R.group.lids W'.f = 0 ∧ W'.im = W.im ∧ W'.x = W.x ∧
      ∀ i k, W'.v i k = W.v i k + if i ∈ R.group.lids then a * R.projection k else 0 := by
  have hup := update_eq W.lid G0 hG
  set G : Group := ⟨G0.gids.filter fun g => (W.lid g).isSome, G0.gids.filterMap W.lid⟩ with hGd
  have hOK : OK G := by
    unfold OK; rw [hGd]; simp only
    induction G0.gids with
    | nil => rfl
    | cons g l ih => cases hg : W.lid g <;> simp [hg, ih]
  have hsz : G.size ≠ 0 := by
    intro h; apply hne; unfold Group.size at h; exact List.length_eq_zero_iff.mp (hOK ▸ h : G.lids.length = 0)
  have hlids : G.lids = G0.gids.filterMap W.lid := rfl
  have hp := normalize_unit v hv
  obtain ⟨V, eV, hV⟩ := C45_com_velocity W G hOK him
  have hmass : G.totalMass W = total G.lids fun i => 1 / W.im i :=
    (C45_total_mass W G hOK).1 fun i hi => (him i hi).ne'
  have hpos : 0 < G.totalMass W := hmass ▸ total_pos W.im G.lids hne him
  set vel := G.addVelocity W fun k => -(dot V (normalize v)) * normalize v k with hvel
  have hvl : ∀ i k, vel i k = W.v i k + if i ∈ G.lids then -(dot V (normalize v)) * normalize v k else 0 := by
    intro i k
    rw [hvel, C45_add_velocity W G hOK, count_nodup hn]
    split_ifs <;> simp
  obtain ⟨f, a, e, h0, h1, h2⟩ := C79_forces_partial ⟨G, normalize v, G.totalMass W⟩ (setV W vel) hOK hn him hsz hmass hp
  refine ⟨⟨G, normalize v, G.totalMass W⟩, setF (setV W vel) f, -(dot V (normalize v)), ?_, rfl, hOK, hsz, hp, ?_, hmass, ?_, h0, rfl, rfl, ?_⟩
  · unfold ForceRemover.preIntegrate ForceRemover.new
    simp only
    rw [hup]
    simp only [Option.bind_some]
    rw [eV]
    simp only [Option.bind_some]
    exact e
  · refine ⟨1 / Real.sqrt (dot v v), ?_, ?_⟩
    · by_contra hc
      have : Real.sqrt (dot v v) = 0 := by
        by_contra h; exact hc (one_div_pos.mpr (lt_of_le_of_ne (Real.sqrt_nonneg _) (Ne.symm h)))
      have h3 := hp
      unfold normalize at h3
      rw [if_pos this, Real.sqrt_eq_zero' ] at *
      linarith
    · intro k
      have hs : Real.sqrt (dot v v) ≠ 0 := by
        intro this
        have h3 := hp
        unfold normalize at h3
        rw [if_pos this] at h3
        rw [h3] at this; norm_num at this
      simp only [normalize]
      rw [if_neg hs]; ring
  · simp only [setF, setV]
    have : (along (normalize v) G.lids fun i k => 1 / W.im i * vel i k) = along (normalize v) G.lids fun i k =>
        1 / W.im i * W.v i k + 1 / W.im i * (-(dot V (normalize v))) * normalize v k := by
      refine along_congr _ fun i hi k => ?_
      rw [hvl, if_pos hi]; ring
    rw [this, along_add _ _ (fun i k => 1 / W.im i * W.v i k), hp, total_mul]
    have hm : (along (normalize v) G.lids fun i k => 1 / W.im i * W.v i k) =
        (total G.lids fun i => 1 / W.im i) * dot V (normalize v) := by
      unfold along dot
      rw [Finset.mul_sum]
      refine Finset.sum_congr rfl fun k _ => ?_
      rw [← hV k]; ring
    rw [hm]; ring
  · intro i k
    simp only [setF, setV]
    exact hvl i k

/-- One step of velocity Verlet (`integrators/velocity-verlet.tpp:22-103`, see `Verif.Integrators.Verlet` for its loops) with the force remover: half kick, move, the new
forces `F` of the step (any), removal of the net force, half kick. `none` if the modifier is undefined. -/
noncomputable def step (R : ForceRemover d) (W : World d) (dt : ℝ) (F : ℕ → Fin d → ℝ) : Option (World d) :=
  let v1 : ℕ → Fin d → ℝ := fun i k => W.v i k + 1/2 * dt * W.im i * W.f i k
  let W1 : World d := ⟨W.lid, fun i k => W.x i k + dt * v1 i k, v1, F, W.im, W.lo, W.hi, W.wrap⟩
  (R.postForces false W1).map fun r => setV r.2 fun i k => r.2.v i k + 1/2 * dt * r.2.im i * r.2.f i k

/-- A run of steps. -/
noncomputable def run (R : ForceRemover d) (W : World d) : List (ℝ × (ℕ → Fin d → ℝ)) → Option (World d)
  | [] => some W
  | s :: l => (step R W s.1 s.2).bind fun W => run R W l

theorem along_kick (p : Fin d → ℝ) (l : List ℕ) (im : ℕ → ℝ) (him : ∀ i ∈ l, 0 < im i) (v f : ℕ → Fin d → ℝ) (dt : ℝ) :
    (along p l fun i k => 1 / im i * (v i k + 1/2 * dt * im i * f i k)) =
      (along p l fun i k => 1 / im i * v i k) + 1/2 * dt * along p l f := by
  unfold along
  rw [Finset.mul_sum, ← Finset.sum_add_distrib]
  refine Finset.sum_congr rfl fun k _ => ?_
  have : (total l fun i => 1 / im i * (v i k + 1/2 * dt * im i * f i k)) =
      total l fun i => 1 / im i * v i k + f i k * (1/2 * dt) := by
    refine total_congr fun i hi => ?_
    have := (him i hi).ne'
    field_simp
  rw [this, total_add, total_mul]; ring

/-- **C79, runs.** In a run of any number of velocity-Verlet steps of any size, with any forces, a group that starts without
momentum and net force along the direction (as `C79_start` provides) never gets any: the momentum of the group along the direction
stays zero. -/
theorem C79_momentum_stays_zero (R : ForceRemover d) (W : World d) (hG : OK R.group) (hn : R.group.lids.Nodup)
    (him : ∀ i ∈ R.group.lids, 0 < W.im i) (hne : R.group.size ≠ 0)
    (hM : R.mass = total R.group.lids fun i => 1 / W.im i) (hp : dot R.projection R.projection = 1)
    (hv : (along R.projection R.group.lids fun i k => 1 / W.im i * W.v i k) = 0)
    (hf : along R.projection R.group.lids W.f = 0) (l : List (ℝ × (ℕ → Fin d → ℝ))) :
    ∃ W', run R W l = some W' ∧ (along R.projection R.group.lids fun i k => 1 / W.im i * W'.v i k) = 0 := by
  induction l generalizing W with
  | nil => exact ⟨W, rfl, hv⟩
  | cons s l ih =>
    obtain ⟨dt, F⟩ := s
    set v1 : ℕ → Fin d → ℝ := fun i k => W.v i k + 1/2 * dt * W.im i * W.f i k with hv1
    set W1 : World d := ⟨W.lid, fun i k => W.x i k + dt * v1 i k, v1, F, W.im, W.lo, W.hi, W.wrap⟩ with hW1
    obtain ⟨f, a, e, h0, -, -⟩ := C79_forces_partial R W1 hG hn him hne hM hp
    have hs : step R W dt F = some (setV (setF W1 f) fun i k => v1 i k + 1/2 * dt * W.im i * f i k) := by
      unfold step
      simp only
      rw [← hv1, ← hW1, e]
      rfl
    simp only [run, hs, Option.bind_some]
    refine ih (setV (setF W1 f) fun i k => v1 i k + 1/2 * dt * W.im i * f i k) him hM ?_ h0
    simp only [setV, setF, hW1]
    rw [along_kick _ _ _ him, along_kick _ _ _ him, hv, hf, h0]; ring

/-- Two unit masses in the plane, forces `f`. -/
noncomputable def world2 (lid : ℕ → Option ℕ) (f : ℕ → Fin 2 → ℝ) : World 2 :=
  ⟨lid, fun _ _ => 0, fun _ _ => 0, f, fun _ => 1, fun _ => 0, fun _ => 10, fun _ => false⟩

/-- The hypotheses of the theorems above are met: two members, direction y. -/
example : (fun k : Fin 2 => if k = 1 then (2:ℝ) else 0) ≠ 0 ∧ OK ⟨[0, 1], [0, 1]⟩ ∧ ([0, 1] : List ℕ).filterMap some ≠ [] ∧
    (([0, 1] : List ℕ).filterMap some).Nodup ∧
    dot (fun k : Fin 2 => if k = 1 then (1:ℝ) else 0) (fun k : Fin 2 => if k = 1 then (1:ℝ) else 0) = 1 ∧
    (2 : ℝ) = total [0, 1] fun i => 1 / (world2 some fun _ _ => 3).im i := by
  refine ⟨?_, rfl, by decide, by decide, ?_, ?_⟩
  · intro h; have := congrFun h 1; simp at this
  · simp [dot]
  · simp [total, world2]; norm_num

/-- **C79 is false when a member was removed from the simulation.** The mass was stored at the start; of two members of mass
one, the second is gone, and half of the force on the first remains. -/
theorem C79_negation_removed_member : ∃ R W,
    (⟨⟨[0, 1], [0, 1]⟩, fun k => if k = 1 then 1 else 0, 2⟩ : ForceRemover 2).postForces true
      (world2 (fun g => if g = 0 then some 0 else none) fun _ _ => 3) = some (R, W) ∧
    R.group.lids = [0] ∧ W.f 0 1 = 3 / 2 := by
  unfold ForceRemover.postForces ForceRemover.removeNetForce
  rw [if_neg (by norm_num [Group.size]), if_pos rfl, update_eq _ _ rfl]
  refine ⟨_, _, rfl, rfl, ?_⟩
  simp only [setF]
  rw [C45_add_acceleration _ _ (by unfold OK; rfl)]
  simp [world2, dot, Group.netForce, Group.size]
  norm_num

/-! ## Torque remover -/

variable {n : ℕ}

/-- `crossVec2`, `utility/vec.hpp:260-262`. -/
def cross (a b : Fin (n+2) → ℝ) : ℝ := a 0 * b 1 - a 1 * b 0

/-- The displacements from the centre of mass `com` that both loops use, `modifiers/torque-remover.cpp:25,36,73,86`. -/
noncomputable def rel (W : World (n+2)) (com : Fin (n+2) → ℝ) (i : ℕ) : Fin (n+2) → ℝ := disp W (W.x i) com

open Classical in
/-- First loop of `TorqueRemover::pre_integrate`, `modifiers/torque-remover.cpp:22-31`: `II` and `L`. -/
noncomputable def spinLoop (W : World (n+2)) (com : Fin (n+2) → ℝ) (l : List ℕ) : Option (ℝ × ℝ) :=
  l.foldlM (fun (s : ℝ × ℝ) i =>
    if W.im i = 0 then none
    else some (s.1 + 1 / W.im i * dot (rel W com i) (rel W com i),
      s.2 + cross (rel W com i) fun k => 1 / W.im i * W.v i k)) (0, 0)

/-- Second loop of `TorqueRemover::pre_integrate`, `modifiers/torque-remover.cpp:35-42`. -/
noncomputable def unspin (W : World (n+2)) (com : Fin (n+2) → ℝ) (om : ℝ) (l : List ℕ) : ℕ → Fin (n+2) → ℝ :=
  l.foldl (fun v i => addAt v i 1 fun k => if k = 0 then om * rel W com i 1 else if k = 1 then -om * rel W com i 0 else 0) W.v

open Classical in
/-- `TorqueRemover::pre_integrate`, `modifiers/torque-remover.cpp:13-43`; at least two dimensions. `none`: `L / II` with `II = 0`. -/
noncomputable def torquePre (G : Group) (W : World (n+2)) : Option (Group × World (n+2)) :=
  (G.update W.lid).bind fun G =>
  (G.centerOfMass W).bind fun com =>
  (spinLoop W com G.lids).bind fun s =>
    if s.1 = 0 then none else some (G, setV W (unspin W com (s.2 / s.1) G.lids))

open Classical in
/-- First loop of `TorqueRemover::post_forces`, `modifiers/torque-remover.cpp:65-81`: `II` and `torque`. (The angular momentum
`L` that it also sums up uses a vector `V` that is never filled, and is not used.) -/
noncomputable def torqueLoop (W : World (n+2)) (com : Fin (n+2) → ℝ) (l : List ℕ) : Option (ℝ × ℝ) :=
  l.foldlM (fun (s : ℝ × ℝ) i =>
    if W.im i = 0 then none
    else some (s.1 + 1 / W.im i * dot (rel W com i) (rel W com i), s.2 + cross (rel W com i) (W.f i))) (0, 0)

/-- Second loop of `TorqueRemover::post_forces`, `modifiers/torque-remover.cpp:87-93`. -/
noncomputable def untorque (W : World (n+2)) (com : Fin (n+2) → ℝ) (al : ℝ) (l : List ℕ) : ℕ → Fin (n+2) → ℝ :=
  l.foldl (fun f i => addAt f i 1 fun k => if k = 0 then 1 / W.im i * al * rel W com i 1
    else if k = 1 then -(1 / W.im i * al * rel W com i 0) else 0) W.f

/-- `TorqueRemover::post_forces`, `modifiers/torque-remover.cpp:45-95`. -/
noncomputable def torquePost (G : Group) (remake : Bool) (W : World (n+2)) : Option (Group × World (n+2)) :=
  if G.size = 0 then some (G, W)
  else if n + 2 ≠ 2 then some (G, W)
  else
    (if remake then G.update W.lid else some G).bind fun G =>
    (G.centerOfMass W).bind fun com =>
    (torqueLoop W com G.lids).map fun s =>
      (G, setF W (untorque W com (if 0 < s.1 then s.2 / s.1 else 0) G.lids))

/-! ## C80 -/

/-- Spec: the sum over the members of the cross product of the displacement from `com` with `q`: torque, when `q` is the
force, and angular momentum, when `q` is the momentum. -/
noncomputable def moment (W : World (n+2)) (com : Fin (n+2) → ℝ) (l : List ℕ) (q : ℕ → Fin (n+2) → ℝ) : ℝ :=
  total l fun i => cross (rel W com i) (q i)

open Classical in
theorem foldlM_pair (im : ℕ → ℝ) (p q : ℕ → ℝ) (l : List ℕ) (s : ℝ × ℝ) (h : ∀ i ∈ l, im i ≠ 0) :
    l.foldlM (fun (s : ℝ × ℝ) i => if im i = 0 then none else some (s.1 + p i, s.2 + q i)) s =
      some (s.1 + total l p, s.2 + total l q) := by
  induction l generalizing s with
  | nil => simp [total]
  | cons i l ih =>
    rw [List.foldlM_cons, if_neg (h i (by simp))]
    simp only [Option.bind_eq_bind, Option.bind_some]
    rw [ih _ (fun j hj => h j (List.mem_cons_of_mem _ hj))]
    simp only [total, List.map_cons, List.sum_cons, Option.some.injEq, Prod.mk.injEq]
    exact ⟨by ring, by ring⟩

theorem foldl_addVec (A : ℕ → Fin d → ℝ) (l : List ℕ) (v : ℕ → Fin d → ℝ) (m : ℕ) (k : Fin d) :
    l.foldl (fun v i => addAt v i 1 (A i)) v m k = v m k + l.count m * A m k := by
  induction l generalizing v with
  | nil => simp
  | cons i l ih =>
    rw [List.foldl_cons, ih, List.count_cons]
    unfold addAt
    by_cases h : m = i
    · subst h; simp; ring
    · rw [Function.update_of_ne h]
      have : (i == m) = false := by simp; exact fun e => h e.symm
      simp [this]

/-- Spec: moment of inertia about `com`. -/
noncomputable def inertia (W : World (n+2)) (com : Fin (n+2) → ℝ) (l : List ℕ) : ℝ :=
  total l fun i => 1 / W.im i * dot (rel W com i) (rel W com i)

theorem dot_nonneg (a : Fin d → ℝ) : 0 ≤ dot a a := Finset.sum_nonneg fun _ _ => mul_self_nonneg _

theorem dot_two (a : Fin (0+2) → ℝ) : dot a a = a 0 * a 0 + a 1 * a 1 := by unfold dot; exact Fin.sum_univ_two _

theorem dot_three (a : Fin (1+2) → ℝ) : dot a a = a 0 * a 0 + a 1 * a 1 + a 2 * a 2 := by unfold dot; exact Fin.sum_univ_three _

theorem total_nonneg {l : List ℕ} {q : ℕ → ℝ} (h : ∀ i ∈ l, 0 ≤ q i) : 0 ≤ total l q := by
  unfold total; exact List.sum_nonneg (by simpa using h)

theorem total_eq_zero {l : List ℕ} {q : ℕ → ℝ} (h : ∀ i ∈ l, 0 ≤ q i) (h0 : total l q = 0) : ∀ i ∈ l, q i = 0 := by
  induction l with
  | nil => simp
  | cons a l ih =>
    have hl := total_nonneg fun i hi => h i (List.mem_cons_of_mem _ hi)
    have ha := h a (by simp)
    have : total (a :: l) q = q a + total l q := by simp [total]
    rw [this] at h0
    intro i hi
    rcases List.mem_cons.mp hi with rfl | hi
    · linarith
    · exact ih (fun i hi => h i (List.mem_cons_of_mem _ hi)) (by linarith) i hi

/-- **C80, torque (partial).** In two dimensions, for a group of members of finite mass that is not empty, after `post_forces`
the total torque about the centre of mass is zero; only forces on members changed; and the net force of the group did not change
when the displacements from the centre of mass are balanced (which they are about the true centre of mass).
Missing: more than two dimensions, where nothing is done, see `C80_other_dimensions`, and groups for which the centre of mass is not the mean of the
positions seen from it (see `C45_center_of_mass_partial`). -/
theorem C80_torque_partial (G : Group) (W : World (0+2)) (hG : OK G) (hn : G.lids.Nodup) (him : ∀ i ∈ G.lids, 0 < W.im i)
    (hne : G.size ≠ 0) :
    ∃ com f, G.centerOfMass W = some com ∧ torquePost G false W = some (G, setF W f) ∧ moment W com G.lids f = 0 ∧
      (∀ i ∉ G.lids, f i = W.f i) ∧
      ((∀ k, (total G.lids fun i => 1 / W.im i * rel W com i k) = 0) →
        ∀ k, (total G.lids fun i => f i k) = total G.lids fun i => W.f i k) := by
  obtain ⟨com, ec⟩ : ∃ com, G.centerOfMass W = some com := by
    obtain ⟨c, mid, -, ec, -⟩ := com_eq W G hG hne him; exact ⟨_, ec⟩
  set al := if 0 < inertia W com G.lids then moment W com G.lids W.f / inertia W com G.lids else 0 with hal
  have hf : ∀ i k, untorque W com al G.lids i k = W.f i k + if i ∈ G.lids then
      (if k = 0 then 1 / W.im i * al * rel W com i 1 else if k = 1 then -(1 / W.im i * al * rel W com i 0) else 0) else 0 := by
    intro i k
    unfold untorque
    rw [foldl_addVec (fun i k => if k = 0 then 1 / W.im i * al * rel W com i 1
      else if k = 1 then -(1 / W.im i * al * rel W com i 0) else 0), count_nodup hn]
    split_ifs <;> simp
  refine ⟨com, untorque W com al G.lids, ec, ?_, ?_, ?_, ?_⟩
  · unfold torquePost
    rw [if_neg hne, if_neg (by simp), if_neg (by simp)]
    simp only [Option.bind_some, ec]
    unfold torqueLoop
    rw [foldlM_pair W.im _ _ _ _ fun i hi => (him i hi).ne']
    simp only [zero_add, Option.map_some]
    rfl
  · have h1 : moment W com G.lids (untorque W com al G.lids) = moment W com G.lids W.f + inertia W com G.lids * (-al) := by
      unfold moment inertia
      rw [← total_mul, ← total_add]
      refine total_congr fun i hi => ?_
      unfold cross
      rw [hf, hf, if_pos hi, if_pos hi, dot_two]
      simp
      ring
    rw [h1]
    have hI : 0 ≤ inertia W com G.lids := total_nonneg fun i hi =>
      mul_nonneg (one_div_pos.mpr (him i hi)).le (dot_nonneg _)
    by_cases hI0 : 0 < inertia W com G.lids
    · rw [hal, if_pos hI0]
      field_simp
      ring
    · have hz : inertia W com G.lids = 0 := le_antisymm (not_lt.mp hI0) hI
      have hr : ∀ i ∈ G.lids, rel W com i 0 = 0 ∧ rel W com i 1 = 0 := by
        intro i hi
        have := total_eq_zero (fun i hi => mul_nonneg (one_div_pos.mpr (him i hi)).le (dot_nonneg _)) hz i hi
        rcases mul_eq_zero.mp this with h | h
        · exact absurd h (one_div_pos.mpr (him i hi)).ne'
        · rw [dot_two] at h
          constructor <;> nlinarith [mul_self_nonneg (rel W com i 0), mul_self_nonneg (rel W com i 1)]
      rw [hz]
      unfold moment
      have : (total G.lids fun i => cross (rel W com i) (W.f i)) = total G.lids fun _ => 0 := by
        refine total_congr fun i hi => ?_
        unfold cross; rw [(hr i hi).1, (hr i hi).2]; ring
      rw [this]; simp [total]
  · intro i hi
    funext k
    rw [hf, if_neg hi, add_zero]
  · intro hb k
    have : (total G.lids fun i => untorque W com al G.lids i k) = total G.lids fun i => W.f i k +
        (1 / W.im i * if k = 0 then rel W com i 1 else -rel W com i 0) * al := by
      refine total_congr fun i hi => ?_
      rw [hf, if_pos hi]
      have hk : k = 0 ∨ k = 1 := by
        rcases k with ⟨k, hk⟩; have : k = 0 ∨ k = 1 := by omega
        rcases this with rfl | rfl
        · exact Or.inl rfl
        · exact Or.inr rfl
      rcases hk with rfl | rfl
      · simp; ring
      · simp; ring
    rw [this, total_add, total_mul]
    have hz : (total G.lids fun i => 1 / W.im i * if k = 0 then rel W com i 1 else -rel W com i 0) = 0 := by
      by_cases hk : k = 0
      · simp only [hk, if_true]; exact hb 1
      · simp only [hk, if_false]
        have : (total G.lids fun i => 1 / W.im i * -rel W com i 0) = total G.lids fun i => (1 / W.im i * rel W com i 0) * (-1) :=
          total_congr fun i _ => by ring
        rw [this, total_mul, hb 0]; simp
    rw [hz]; simp

/-- When no dimension wraps and the mean position is in the box, the displacements from the centre of mass are balanced, so that the
removal of the torque does not change the net force. -/
theorem C80_balanced (G : Group) (W : World (n+2)) (hG : OK G) (him : ∀ i ∈ G.lids, 0 < W.im i) (hne : G.size ≠ 0)
    (hw : ∀ k, W.wrap k = false) (y : Fin (n+2) → ℝ)
    (hy : ∀ k, (total G.lids fun i => 1 / W.im i) * y k = (total G.lids fun i => 1 / W.im i * W.x i k))
    (hbox : ∀ k, W.lo k ≤ y k ∧ y k ≤ W.hi k) :
    G.centerOfMass W = some y ∧ ∀ k, (total G.lids fun i => 1 / W.im i * rel W y i k) = 0 := by
  obtain ⟨c, e, hc⟩ := C45_center_of_mass_partial W G hG hne him
  have : c = y := funext fun k => (hc k).2 (hw k) (y k) (hy k) (hbox k).1 (hbox k).2
  subst this
  refine ⟨e, fun k => ?_⟩
  have h1 : (total G.lids fun i => 1 / W.im i * rel W c i k) =
      total G.lids fun i => 1 / W.im i * W.x i k + 1 / W.im i * (-c k) := by
    refine total_congr fun i _ => ?_
    simp [rel, disp, correct, hw k]; ring
  rw [h1, total_add, total_mul, ← hy k]; ring

/-- In any other number of dimensions `post_forces` does nothing. -/
theorem C80_other_dimensions (G : Group) (remake : Bool) (W : World (n+3)) : torquePost G remake W = some (G, W) := by
  unfold torquePost
  by_cases h : G.size = 0
  · rw [if_pos h]
  · rw [if_neg h, if_pos (by omega)]

/-- **C80, spin (partial).** In two dimensions `pre_integrate` leaves the group without angular momentum about its centre of
mass, and changes only velocities of members, when not all of them sit at the centre of mass.
Missing: groups without extent, for instance a single particle, see `C80_negation_single`; more dimensions, see
`C80_negation_three_dimensions`. -/
theorem C80_spin_partial (G0 : Group) (W : World (0+2)) (hG : OK G0) (hn : (G0.gids.filterMap W.lid).Nodup)
    (him : ∀ i ∈ G0.gids.filterMap W.lid, 0 < W.im i) (com : Fin (0+2) → ℝ)
    (hc : ∀ G, G0.update W.lid = some G → G.centerOfMass W = some com)
    (hI : inertia W com (G0.gids.filterMap W.lid) ≠ 0) :
    ∃ G v, torquePre G0 W = some (G, setV W v) ∧ G.lids = G0.gids.filterMap W.lid ∧
      (moment W com G.lids fun i k => 1 / W.im i * v i k) = 0 ∧ ∀ i ∉ G.lids, v i = W.v i := by
  have hup := update_eq W.lid G0 hG
  have hcm := hc _ hup
  set G : Group := ⟨G0.gids.filter fun g => (W.lid g).isSome, G0.gids.filterMap W.lid⟩ with hGd
  have hlids : G.lids = G0.gids.filterMap W.lid := rfl
  rw [← hlids] at hI hn him
  set om := (moment W com G.lids fun i k => 1 / W.im i * W.v i k) / inertia W com G.lids with hom
  have hv : ∀ i k, unspin W com om G.lids i k = W.v i k + if i ∈ G.lids then
      (if k = 0 then om * rel W com i 1 else if k = 1 then -om * rel W com i 0 else 0) else 0 := by
    intro i k
    unfold unspin
    rw [foldl_addVec (fun i k => if k = 0 then om * rel W com i 1
      else if k = 1 then -om * rel W com i 0 else 0), count_nodup hn]
    split_ifs <;> simp
  refine ⟨G, unspin W com om G.lids, ?_, rfl, ?_, ?_⟩
  · unfold torquePre
    rw [hup]
    simp only [Option.bind_some]
    rw [hcm]
    simp only [Option.bind_some]
    unfold spinLoop
    rw [foldlM_pair W.im _ _ _ _ fun i hi => (him i hi).ne']
    simp only [zero_add, Option.bind_some]
    exact if_neg hI
  · have h1 : (moment W com G.lids fun i k => 1 / W.im i * unspin W com om G.lids i k) =
        (moment W com G.lids fun i k => 1 / W.im i * W.v i k) + inertia W com G.lids * (-om) := by
      unfold moment inertia
      rw [← total_mul, ← total_add]
      refine total_congr fun i hi => ?_
      unfold cross
      simp only
      rw [hv, hv, if_pos hi, if_pos hi, dot_two]
      simp
      ring
    rw [h1, hom]
    field_simp
    ring
  · intro i hi
    funext k
    rw [hv, if_neg hi, add_zero]

/-- A world of unit masses at rest, no wrapping, box `[0,10]` in each dimension. -/
noncomputable def flat (x v : ℕ → Fin (n+2) → ℝ) : World (n+2) :=
  ⟨some, x, v, fun _ _ => 0, fun _ => 1, fun _ => 0, fun _ => 10, fun _ => false⟩

/-- The hypotheses of the two theorems are met: particles at `(0,0)` and `(2,0)`. -/
example : let W := flat (n := 0) (fun i k => if i = 1 ∧ k = 0 then 2 else 0) (fun i k => if i = 1 ∧ k = 1 then 3 else 0)
    OK ⟨[0, 1], [0, 1]⟩ ∧ (([0, 1] : List ℕ).filterMap W.lid).Nodup ∧
    (∀ i ∈ ([0, 1] : List ℕ).filterMap W.lid, 0 < W.im i) ∧
    (⟨[0, 1], [0, 1]⟩ : Group).centerOfMass W = some (fun k => if k = 0 then 1 else 0) ∧
    inertia W (fun k => if k = 0 then 1 else 0) [0, 1] = 2 := by
  refine ⟨rfl, by decide, by intro i _; simp [flat], ?_, ?_⟩
  · refine (C80_balanced _ _ (by unfold OK; rfl) (by intro i _; simp [flat]) (by decide) (fun _ => rfl) _ ?_ ?_).1
    · intro k; simp only [total, flat]
      by_cases hk : k = 0
      · subst hk; simp; norm_num
      · simp [hk]
    · intro k; simp only [flat]; split_ifs <;> norm_num
  · simp only [inertia, total, flat, rel, disp, correct, dot]
    simp
    norm_num

/-- **C80 is false of a single particle.** The code divides the angular momentum 0 by the moment of inertia 0. -/
theorem C80_negation_single : torquePre ⟨[0], [0]⟩ (flat (n := 0) (fun _ _ => 1) fun _ _ => 1) = none := by
  have hc := (C80_balanced ⟨[0], [0]⟩ (flat (n := 0) (fun _ _ => 1) fun _ _ => 1) rfl (by intro i _; simp [flat]) (by decide)
    (fun _ => rfl) (fun _ => 1) (by intro k; simp [total, flat]) (by intro k; simp [flat])).1
  unfold torquePre
  rw [update_eq _ _ rfl]
  simp only [Option.bind_some]
  rw [show (⟨List.filter (fun g => ((flat (n := 0) (fun _ _ => 1) fun _ _ => 1).lid g).isSome) [0],
    List.filterMap (flat (n := 0) (fun _ _ => 1) fun _ _ => 1).lid [0]⟩ : Group) = ⟨[0], [0]⟩ from rfl, hc]
  simp [spinLoop, rel, disp, correct, flat, dot, cross]

/-- **C80 is false in three dimensions.** Two particles at `(1, 1, 1)` and `(3, 1, 3)`, the second moving with `(0, 4, 0)`:
the moment of inertia that the code divides by contains the displacement along the axis of rotation, and half of the angular momentum about
this axis remains. -/
theorem C80_negation_three_dimensions : ∃ G v,
    torquePre ⟨[0, 1], [0, 1]⟩ (flat (n := 1) (fun i k => if i = 1 ∧ k ≠ 1 then 3 else 1) fun i k => if i = 1 ∧ k = 1 then 4 else 0) =
      some (G, setV (flat (n := 1) (fun i k => if i = 1 ∧ k ≠ 1 then 3 else 1) fun i k => if i = 1 ∧ k = 1 then 4 else 0) v) ∧
    moment (flat (n := 1) (fun i k => if i = 1 ∧ k ≠ 1 then 3 else 1) fun i k => if i = 1 ∧ k = 1 then 4 else 0)
      (fun k => if k = 1 then 1 else 2) G.lids v = 2 := by
  set W : World (1+2) := flat (n := 1) (fun i k => if i = 1 ∧ k ≠ 1 then 3 else 1) fun i k => if i = 1 ∧ k = 1 then 4 else 0 with hW
  have hc := (C80_balanced ⟨[0, 1], [0, 1]⟩ W rfl (by intro i _; simp [hW, flat]) (by decide)
    (fun _ => rfl) (fun k => if k = 1 then 1 else 2) (by
      intro k; simp only [total, hW, flat]
      by_cases hk : k = 1
      · subst hk; simp; try norm_num
      · simp [hk]; try norm_num) (by intro k; simp only [hW, flat]; split_ifs <;> norm_num)).1
  have hrel0 : ∀ k, rel W (fun k => if k = 1 then 1 else 2) 0 k = if k = 1 then 0 else -1 := by
    intro k; simp only [rel, disp, correct, hW, flat]
    by_cases hk : k = 1
    · subst hk; simp
    · simp [hk]; norm_num
  have hrel1 : ∀ k, rel W (fun k => if k = 1 then 1 else 2) 1 k = if k = 1 then 0 else 1 := by
    intro k; simp only [rel, disp, correct, hW, flat]
    by_cases hk : k = 1
    · subst hk; simp
    · simp [hk]; norm_num
  have hs : spinLoop W (fun k => if k = 1 then 1 else 2) [0, 1] = some (4, 4) := by
    unfold spinLoop
    rw [foldlM_pair W.im _ _ _ _ (by intro i _; simp [hW, flat])]
    simp only [zero_add, Option.some.injEq, Prod.mk.injEq, total, List.map_cons, List.map_nil, List.sum_cons, List.sum_nil,
      dot_three, cross, hrel0, hrel1]
    constructor
    · simp [hW, flat]; norm_num
    · simp [hW, flat]
  refine ⟨⟨[0, 1], [0, 1]⟩, unspin W (fun k => if k = 1 then 1 else 2) 1 [0, 1], ?_, ?_⟩
  · unfold torquePre
    rw [update_eq _ _ rfl]
    simp only [Option.bind_some]
    rw [show (⟨List.filter (fun g => (W.lid g).isSome) [0, 1], List.filterMap W.lid [0, 1]⟩ : Group) = ⟨[0, 1], [0, 1]⟩ from rfl, hc]
    rw [show List.filterMap W.lid [0, 1] = [0, 1] from rfl]
    simp only [Option.bind_some, hs]
    rw [if_neg (by norm_num)]
    norm_num
  · have hv : ∀ i k, unspin W (fun k => if k = 1 then 1 else 2) 1 [0, 1] i k = W.v i k + ([0,1] : List ℕ).count i *
        (if k = 0 then 1 * rel W (fun k => if k = 1 then 1 else 2) i 1 else if k = 1 then -1 * rel W (fun k => if k = 1 then 1 else 2) i 0 else 0) := by
      intro i k
      unfold unspin
      rw [foldl_addVec (fun i k => if k = 0 then 1 * rel W (fun k => if k = 1 then 1 else 2) i 1
        else if k = 1 then -1 * rel W (fun k => if k = 1 then 1 else 2) i 0 else 0)]
    simp only [moment, total, List.map_cons, List.map_nil, List.sum_cons, List.sum_nil, cross, hv, hrel0, hrel1]
    simp [hW, flat]
    norm_num

end Verif.Removers
