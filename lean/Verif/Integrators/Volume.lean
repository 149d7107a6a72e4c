import Verif.Integrators.Verlet
import Mathlib.MeasureTheory.Measure.Prod
import Mathlib.MeasureTheory.Measure.Lebesgue.Basic
import Mathlib.MeasureTheory.Constructions.Pi
import Mathlib.MeasureTheory.Group.Measure
import Mathlib.MeasureTheory.Constructions.Polish.Basic

/-!
# C158: runs of the integrator preserve the volume of phase space

Liouville's theorem holds exactly for the discrete motion of `integrators/velocity-verlet.tpp:11-105` (through
`Verif.Integrators.Verlet`) with any force that depends on positions only. The stored forces at the start are any function of
the positions: zero in a fresh simulation (`base/creator.cpp:84-85`), the forces of the positions in a continued one. Exact
arithmetic, open boundaries.
-/

namespace Verif.Volume

open Verif.Verlet MeasureTheory

/-- Spec: positions and velocities of `N` coordinates. -/
abbrev Phase (N : ℕ) := (Fin N → ℝ) × (Fin N → ℝ)

/-- Spec: an array that begins with the given coordinates. -/
def pad {N : ℕ} (q : Fin N → ℝ) : Arr := fun j => if h : j < N then q ⟨j, h⟩ else 0

/-- Spec: the beginning of an array. -/
def cut {N : ℕ} (a : Arr) : Fin N → ℝ := fun j => a j

/-- Spec: the motion of phase space by a run with time steps `dts` whose stored forces at the start are `G` of the positions. -/
noncomputable def flow (m : Mode) (d n : ℕ) (im : Arr) (F G : Arr → Arr) (dts : List ℝ) (z : Phase (n * d)) : Phase (n * d) :=
  let s := vvRun m d n im F dts ⟨pad z.1, pad z.2, G (pad z.1)⟩
  (cut s.x, cut s.v)

/-- Spec: the force on each coordinate is a measurable function of the coordinates, and reads no others. -/
structure Proper (N : ℕ) (F : Arr → Arr) : Prop where
  meas : ∀ j < N, Measurable fun q : Fin N → ℝ => F (pad q) j
  reads : ∀ x y : Arr, (∀ j < N, x j = y j) → ∀ j < N, F x j = F y j

theorem cut_pad {N : ℕ} (q : Fin N → ℝ) : cut (pad q) = q := by
  funext j; simp [cut, pad]

theorem pad_cut {N : ℕ} (a : Arr) (j : ℕ) (hj : j < N) : pad (cut (N := N) a) j = a j := by
  simp [cut, pad, hj]

/-- A kick: velocities change by a function of the positions. -/
def kick {N : ℕ} (g : (Fin N → ℝ) → Fin N → ℝ) (z : Phase N) : Phase N := (z.1, z.2 + g z.1)

/-- A drift: positions change by a multiple of the velocities. -/
def drift {N : ℕ} (h : ℝ) (z : Phase N) : Phase N := (z.1 + h • z.2, z.2)

theorem kick_preserves {N : ℕ} (g : (Fin N → ℝ) → Fin N → ℝ) (hg : Measurable g) :
    MeasurePreserving (kick g) (volume : Measure (Phase N)) volume := by
  refine MeasurePreserving.skew_product (f := id) (g := fun q p => p + g q) (MeasurePreserving.id _) ?_ ?_
  · exact measurable_snd.add (hg.comp measurable_fst)
  · exact Filter.Eventually.of_forall fun q => map_add_right_eq_self _ _

theorem drift_preserves {N : ℕ} (h : ℝ) : MeasurePreserving (drift h) (volume : Measure (Phase N)) volume := by
  have h1 : MeasurePreserving (Prod.swap : Phase N → Phase N) volume volume := Measure.measurePreserving_swap
  have h2 := kick_preserves (N := N) (fun p => h • p) (measurable_id.const_smul h)
  exact (h1.comp h2).comp h1

section steps

variable (m : Mode) (hm : m.OK) (d n : ℕ) (im : Arr) (F : Arr → Arr)

/-- The kick of the code, on phase space. -/
noncomputable def kickOf (G : Arr → Arr) (dt : ℝ) : (Fin (n * d) → ℝ) → Fin (n * d) → ℝ :=
  fun q j => dt / 2 * im ((j : ℕ) / d) * G (pad q) j

include hm in
theorem run_reads (hF : Proper (n * d) F) (dts : List ℝ) (s t : PS)
    (h : ∀ j < n * d, s.x j = t.x j ∧ s.v j = t.v j ∧ s.f j = t.f j) :
    ∀ j < n * d, (vvRun m d n im F dts s).x j = (vvRun m d n im F dts t).x j ∧
      (vvRun m d n im F dts s).v j = (vvRun m d n im F dts t).v j := by
  induction dts generalizing s t with
  | nil => exact fun j hj => ⟨(h j hj).1, (h j hj).2.1⟩
  | cons dt l ih =>
    refine ih (vvStep m d n im F dt s) (vvStep m d n im F dt t) ?_
    have hx : ∀ j < n * d, (vvStep m d n im F dt s).x j = (vvStep m d n im F dt t).x j := by
      intro j hj
      obtain ⟨h1, h2, h3⟩ := h j hj
      simp only [vvStep, C41_positions m hm, C41_velocities m hm, if_pos hj, h1, h2, h3]
    have hf : ∀ j < n * d, (vvStep m d n im F dt s).f j = (vvStep m d n im F dt t).f j := fun j hj => hF.reads _ _ hx j hj
    intro j hj
    refine ⟨hx j hj, ?_, hf j hj⟩
    obtain ⟨h1, h2, h3⟩ := h j hj
    have e : ∀ s : PS, (vvStep m d n im F dt s).v j =
        s.v j + dt / 2 * im (j / d) * s.f j + dt / 2 * im (j / d) * (vvStep m d n im F dt s).f j := by
      intro s
      simp only [vvStep, C41_velocities m hm, if_pos hj]
    rw [e s, e t, h2, h3, hf j hj]

include hm in
/-- A run begins with kick, drift and kick and goes on from there. -/
theorem flow_cons (hF : Proper (n * d) F) (G : Arr → Arr) (dt : ℝ) (dts : List ℝ) :
    flow m d n im F G (dt :: dts) =
      flow m d n im F F dts ∘ kick (kickOf d n im F dt) ∘ drift dt ∘ kick (kickOf d n im G dt) := by
  funext z
  have hx : ∀ j : ℕ, ∀ hj : j < n * d, (vvStep m d n im F dt ⟨pad z.1, pad z.2, G (pad z.1)⟩).x j =
      pad (drift dt (kick (kickOf d n im G dt) z)).1 j := by
    intro j hj
    simp only [vvStep, C41_positions m hm, C41_velocities m hm, if_pos hj, pad, dif_pos hj, drift, kick, kickOf, Pi.add_apply,
      Pi.smul_apply, smul_eq_mul]
  have hv : ∀ j : ℕ, ∀ hj : j < n * d, (vvStep m d n im F dt ⟨pad z.1, pad z.2, G (pad z.1)⟩).v j =
      pad (kick (kickOf d n im F dt) (drift dt (kick (kickOf d n im G dt) z))).2 j := by
    intro j hj
    have e : (vvStep m d n im F dt ⟨pad z.1, pad z.2, G (pad z.1)⟩).v j =
        pad z.2 j + dt / 2 * im (j / d) * G (pad z.1) j +
          dt / 2 * im (j / d) * F (vvStep m d n im F dt ⟨pad z.1, pad z.2, G (pad z.1)⟩).x j := by
      simp only [vvStep, C41_velocities m hm, if_pos hj]
    rw [e, hF.reads _ _ (fun j hj => hx j hj) j hj]
    simp only [kick, drift, pad, dif_pos hj, kickOf, Pi.add_apply]
  have key := run_reads m hm d n im F hF dts (vvStep m d n im F dt ⟨pad z.1, pad z.2, G (pad z.1)⟩)
    ⟨pad (kick (kickOf d n im F dt) (drift dt (kick (kickOf d n im G dt) z))).1,
      pad (kick (kickOf d n im F dt) (drift dt (kick (kickOf d n im G dt) z))).2,
      F (pad (kick (kickOf d n im F dt) (drift dt (kick (kickOf d n im G dt) z))).1)⟩
    (fun j hj => ⟨hx j hj, hv j hj, hF.reads _ _ (fun j hj => hx j hj) j hj⟩)
  refine Prod.ext ?_ ?_
  · funext j; exact (key j j.2).1
  · funext j; exact (key j j.2).2

theorem kickOf_meas (G : Arr → Arr) (hG : Proper (n * d) G) (dt : ℝ) : Measurable (kickOf d n im G dt) :=
  measurable_pi_lambda _ fun j => (hG.meas j j.2).const_mul _

/-- **C158.** For every force that depends on positions only (and is measurable), every number of particles and dimensions,
inverse masses, sequence of time steps and vector width, and any stored forces at the start: a run maps phase space to itself
such that the set of initial states that end in a (measurable) set has the same volume as that set. -/
theorem C158_volume (m : Mode) (hm : m.OK) (d n : ℕ) (im : Arr) (F G : Arr → Arr) (hF : Proper (n * d) F)
    (hG : Proper (n * d) G) (dts : List ℝ) :
    MeasurePreserving (flow m d n im F G dts) (volume : Measure (Phase (n * d))) volume := by
  induction dts generalizing G with
  | nil =>
    have : flow m d n im F G [] = id := by
      funext z
      refine Prod.ext ?_ ?_ <;> simp [flow, vvRun, cut_pad]
    rw [this]
    exact MeasurePreserving.id _
  | cons dt dts ih =>
    rw [flow_cons m hm d n im F hF G dt dts]
    exact (ih F hF).comp ((kick_preserves _ (kickOf_meas d n im F hF dt)).comp
      ((drift_preserves dt).comp (kick_preserves _ (kickOf_meas d n im G hG dt))))

theorem kick_bij {N : ℕ} (g : (Fin N → ℝ) → Fin N → ℝ) : Function.Bijective (kick g) := by
  refine Function.bijective_iff_has_inverse.mpr ⟨kick (fun q => -g q), fun z => ?_, fun z => ?_⟩ <;>
    refine Prod.ext rfl ?_ <;> simp [kick]

theorem drift_bij {N : ℕ} (h : ℝ) : Function.Bijective (drift (N := N) h) := by
  refine Function.bijective_iff_has_inverse.mpr ⟨drift (-h), fun z => ?_, fun z => ?_⟩ <;>
    refine Prod.ext ?_ rfl <;> simp [drift]

/-- **C158, no state is lost.** Every state is the end of exactly one run from some initial state: the motion of phase space is a
bijection. -/
theorem C158_bijective (m : Mode) (hm : m.OK) (d n : ℕ) (im : Arr) (F G : Arr → Arr) (hF : Proper (n * d) F)
    (dts : List ℝ) : Function.Bijective (flow m d n im F G dts) := by
  induction dts generalizing G with
  | nil =>
    have : flow m d n im F G [] = id := by
      funext z
      refine Prod.ext ?_ ?_ <;> simp [flow, vvRun, cut_pad]
    rw [this]
    exact Function.bijective_id
  | cons dt dts ih =>
    rw [flow_cons m hm d n im F hF G dt dts]
    exact (ih F).comp ((kick_bij _).comp ((drift_bij dt).comp (kick_bij _)))

/-- **C158, volumes of images.** The states that a set of initial states reaches have the same volume as the set. -/
theorem C158_image (m : Mode) (hm : m.OK) (d n : ℕ) (im : Arr) (F G : Arr → Arr) (hF : Proper (n * d) F)
    (hG : Proper (n * d) G) (dts : List ℝ) (A : Set (Phase (n * d)))
    (hA : MeasurableSet A) : volume (flow m d n im F G dts '' A) = volume A := by
  have hA' := hA.image_of_measurable_injOn (C158_volume m hm d n im F G hF hG dts).measurable
    (C158_bijective m hm d n im F G hF dts).1.injOn
  have h := (C158_volume m hm d n im F G hF hG dts).measure_preimage hA'.nullMeasurableSet
  rw [← h, Set.preimage_image_eq _ (C158_bijective m hm d n im F G hF dts).1]

end steps

/-- Springs to the origin, and a fresh start, in two dimensions. -/
example : Proper (3 * 2) (fun y j => -2 * y j) ∧ Proper (3 * 2) (fun _ _ => 0) := by
  refine ⟨⟨fun j hj => ?_, fun x y h j hj => by simp only [h j hj]⟩, ⟨fun _ _ => measurable_const, fun _ _ _ _ _ => rfl⟩⟩
  have : (fun q : Fin (3 * 2) → ℝ => -2 * pad q j) = fun q => -2 * q ⟨j, hj⟩ := by
    funext q; simp only [pad, dif_pos hj]
  rw [this]
  exact (measurable_pi_apply _).const_mul _

end Verif.Volume
