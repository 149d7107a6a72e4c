import Verif.Visual.RayTree
import Mathlib.Algebra.Order.Floor.Ring
import Mathlib.Tactic.Positivity

/-!
# The camera, the image and the shading of the ray tracer (C152)

Models `RayTrace::initialize`, `render`, `trace` (`visualization/raytrace.cpp:25-82,139-184`), the building of the tree
(`:214-269`) and the standard camera of `Visualization` (`visualization/visualization.cpp:570-593`). What a ray meets is C106
(`Verif.Visual.RayTree`). Numbers are reals.
-/

namespace Verif.Camera
open Verif.RayTree

/-! ## Model -/

/-- `dotVec` in three dimensions, `utility/vectormath.hpp`. -/
def dot3 (a b : V3) : ℝ := a 0 * b 0 + a 1 * b 1 + a 2 * b 2

/-- `crossVec`, `utility/vectormath.hpp:38-42`. -/
def cross (x y : V3) : V3 := ![x 1 * y 2 - y 1 * x 2, -x 0 * y 2 + y 0 * x 2, x 0 * y 1 - y 0 * x 1]

open Classical in
/-- `normalizeVec`, `utility/vectormath.hpp:150-155`: a zero vector stays zero. -/
noncomputable def normalize (a : V3) : V3 := fun i => (if 0 < dot3 a a then 1 / Real.sqrt (dot3 a a) else 0) * a i

/-- The camera of `RayTrace`, `visualization/raytrace.hpp:100-105`. -/
structure Cam where
  center : V3
  orientation : V3
  up : V3

open Classical in
/-- `up` in `RayTrace::initialize`, `visualization/raytrace.cpp:30-43`: `o` and `u` are normalized. -/
noncomputable def fixUp (o u : V3) : V3 :=
  if dot3 u o ≠ 0 then
    if dot3 u o = 1 then
      let u' := normalize (fun i => u i + if i = 0 then 1 else 0)
      normalize fun i => u' i - dot3 u' o * o i
    else normalize fun i => u i - dot3 u o * o i
  else u

/-- The camera after `RayTrace::initialize`, `visualization/raytrace.cpp:25-43`. -/
noncomputable def Cam.setUp (c : Cam) : Cam :=
  ⟨c.center, normalize c.orientation, fixUp (normalize c.orientation) (normalize c.up)⟩

/-- `camera_right`, `visualization/raytrace.cpp:51-52`. -/
def Cam.right (c : Cam) : V3 := cross c.orientation c.up

/-- The pixel shift, `visualization/raytrace.cpp:65-66`. -/
noncomputable def shift (pix i : ℕ) : ℝ := ((i : ℝ) - (pix : ℝ) / 2) / pix

/-- The ray of the pixel, `visualization/raytrace.cpp:64-76`. -/
noncomputable def Cam.ray (c : Cam) (px py x y : ℕ) : Ray :=
  ⟨c.center, normalize fun i => c.orientation i + shift px x * c.right i + shift py y * c.up i⟩

/-- `SetPixel`, `EasyBMP/EasyBMP.cpp:137-141`. -/
def setPixel {C : Type} (img : ℕ → ℕ → C) (x y : ℕ) (col : C) : ℕ → ℕ → C := fun i j => if i = x ∧ j = y then col else img i j

/-- The inner loop of `render`, `visualization/raytrace.cpp:63-81`, for one `y`. -/
noncomputable def renderRow {C : Type} (c : Cam) (px py : ℕ) (trace : Ray → C) (img : ℕ → ℕ → C) (y : ℕ) : ℕ → ℕ → C :=
  (List.range px).foldl (fun img x => setPixel img x (py - y - 1) (trace (c.ray px py x y))) img

/-- The loops of `render`, `visualization/raytrace.cpp:62-81`. -/
noncomputable def render {C : Type} (c : Cam) (px py : ℕ) (trace : Ray → C) (img : ℕ → ℕ → C) : ℕ → ℕ → C :=
  (List.range py).foldl (renderRow c px py trace) img

/-- Colours of pixels: `RGB_Black`, `RGB_Dark_Gray`, `RGB_Red`, or three channels. -/
inductive Pix where
  | black | darkGray | red
  | rgb (r g b : ℤ)
deriving DecidableEq

/-- `light_direction`, `visualization/raytrace.cpp:16-20` (already of unit length). -/
noncomputable def light : V3 := fun _ => 1 / Real.sqrt 3

/-- `intensity`, `visualization/raytrace.cpp:175`, with `base_illumination = 0.1` (`visualization/raytrace.hpp:114`) and
`clamp` (`utility/utility.hpp:119-121`); the argument is the cosine. -/
noncomputable def intensity (cos : ℝ) : ℝ := (1 - 1/10) * max 0 cos + 1/10

/-- One channel, `visualization/raytrace.cpp:172,178-180`: white light, the reflectivity is the channel of the colour divided by
255 (`visualization/raytrace.cpp:97-99`). (The conversion to `int` of a number that is not negative is the floor.) -/
noncomputable def channel (cos : ℝ) (col : ℕ) : ℤ := ⌊intensity cos * ((col : ℝ) / 255) * 255⌋

/-- The cosine used for the shading, `visualization/raytrace.cpp:167-169,175`. -/
noncomputable def cosAt (ray : Ray) (h : Hit) : ℝ :=
  dot3 (normalize fun i => ray.at h.near i - h.sphere.center i) light

open Classical in
/-- `RayTrace::trace`, `visualization/raytrace.cpp:139-184`, with the tree. `col` gives the colour of a sphere (the code keeps it
in the sphere). -/
noncomputable def trace (chop : Bool) (b : Box) (t : Tree) (col : Sphere → ℕ × ℕ × ℕ) (ray : Ray) : Pix :=
  match boxRange b ray with
  | none => .black
  | some r =>
    match t.traverse ray r.1 r.2 with
    | none => .darkGray
    | some h =>
      if h.far < r.1 then .darkGray
      else if chop = true ∧ h.near < r.1 then .red
      else .rgb (channel (cosAt ray h) (col h.sphere).1) (channel (cosAt ray h) (col h.sphere).2.1)
        (channel (cosAt ray h) (col h.sphere).2.2)

/-- `createKDTree_help`, `visualization/raytrace.cpp:229-269`: the segment of spheres has `n = end-start+1` of them; `plane` stands
for the dimension and value of the splitting plane, which depend on the spheres, `none` where the function returns early because
of the width of the box or because there is no next sphere. (The sorting and the choice of planes are not modelled: nothing below
depends on where they are.) The left part has `id-start` spheres, the right one `end-id+1`, with `id = (start+end)/2`. -/
def build (plane : ℕ → ℕ → Option (Fin 3 × ℝ)) (start n : ℕ) : Tree :=
  if _h : n ≤ 50 then .leaf []
  else
    match plane start n with
    | none => .leaf []
    | some (dim, split) =>
      .node dim split (build plane start ((2 * start + n - 1) / 2 - start))
        (build plane ((2 * start + n - 1) / 2) (start + n - (2 * start + n - 1) / 2))
termination_by n
decreasing_by all_goals omega

/-- The standard camera, `visualization/visualization.cpp:570-593`: `m` is the centre of the box, `s` half of its largest width;
`up` is that of the constructor (`visualization/raytrace.cpp:13-14`). -/
noncomputable def standard (m : V3) (s : ℝ) : Cam :=
  ⟨fun i => s * ![13/10, 24/10, 2] i + m i,
    normalize (fun i => m i - (s * ![13/10, 24/10, 2] i + m i)), ![0, 1, 0]⟩

/-! ## Specification -/

/-- The determinant of three vectors. -/
def det3 (a b c : V3) : ℝ :=
  a 0 * (b 1 * c 2 - b 2 * c 1) - a 1 * (b 0 * c 2 - b 2 * c 0) + a 2 * (b 0 * c 1 - b 1 * c 0)

/-- The camera vectors are of unit length and orthogonal, and right is on the right hand of someone looking ahead (as the first
axis is for someone looking against the third one with the second one up), so that images are not mirrored. -/
structure Frame (c : Cam) : Prop where
  forward : dot3 c.orientation c.orientation = 1
  up : dot3 c.up c.up = 1
  right : dot3 c.right c.right = 1
  fu : dot3 c.orientation c.up = 0
  fr : dot3 c.orientation c.right = 0
  ur : dot3 c.up c.right = 0
  hand : det3 c.right c.up c.orientation = -1

/-- The vector from the camera to a point. -/
def Cam.to (c : Cam) (p : V3) : V3 := fun i => p i - c.center i

/-- The depth of a point: how far it is ahead. -/
def Cam.depth (c : Cam) (p : V3) : ℝ := dot3 (c.to p) c.orientation

/-- The point is ahead and inside of the square of the image plane that the image shows. -/
def Cam.InView (c : Cam) (p : V3) : Prop :=
  0 < c.depth p ∧ |dot3 (c.to p) c.right| ≤ c.depth p / 2 ∧ |dot3 (c.to p) c.up| ≤ c.depth p / 2

/-! ## Vectors -/

theorem dot_self_nonneg (a : V3) : 0 ≤ dot3 a a := by unfold dot3; nlinarith [sq_nonneg (a 0), sq_nonneg (a 1), sq_nonneg (a 2)]

theorem dot_self_pos {a : V3} (h : a ≠ 0) : 0 < dot3 a a := by
  refine lt_of_le_of_ne (dot_self_nonneg a) fun h0 => h ?_
  unfold dot3 at h0
  have e : ∀ x : ℝ, x * x = x ^ 2 := fun x => by ring
  rw [e, e, e] at h0
  funext i
  fin_cases i
  · show a 0 = 0
    nlinarith [sq_nonneg (a 0), sq_nonneg (a 1), sq_nonneg (a 2)]
  · show a 1 = 0
    nlinarith [sq_nonneg (a 0), sq_nonneg (a 1), sq_nonneg (a 2)]
  · show a 2 = 0
    nlinarith [sq_nonneg (a 0), sq_nonneg (a 1), sq_nonneg (a 2)]

theorem dot_comm (a b : V3) : dot3 a b = dot3 b a := by unfold dot3; ring

/-- A vector that is not zero is divided by its length. -/
theorem normalize_of_ne {a : V3} (h : a ≠ 0) : ∃ k, 0 < k ∧ (∀ i, normalize a i = k * a i) ∧ k ^ 2 * dot3 a a = 1 := by
  have hp := dot_self_pos h
  have hs := Real.sqrt_pos.mpr hp
  refine ⟨1 / Real.sqrt (dot3 a a), by positivity, fun i => by unfold normalize; rw [if_pos hp], ?_⟩
  rw [div_pow, one_pow, Real.sq_sqrt hp.le]
  field_simp

theorem normalize_zero {a : V3} (h : a = 0) : normalize a = 0 := by
  subst h
  funext i
  simp [normalize]

theorem normalize_unit {a : V3} (h : a ≠ 0) : dot3 (normalize a) (normalize a) = 1 := by
  obtain ⟨k, _, e, hk⟩ := normalize_of_ne h
  unfold dot3 at hk ⊢
  rw [e, e, e]
  linear_combination hk

theorem normalize_id {a : V3} (h : dot3 a a = 1) : normalize a = a := by
  funext i
  unfold normalize
  rw [h, if_pos one_pos, Real.sqrt_one]
  ring

theorem unit_ne {a : V3} (h : dot3 a a = 1) : a ≠ 0 := by
  rintro rfl
  simp [dot3] at h

/-- Two unit vectors with scalar product one are equal. -/
theorem eq_of_dot_one {a b : V3} (ha : dot3 a a = 1) (hb : dot3 b b = 1) (h : dot3 a b = 1) : a = b := by
  by_contra hne
  have h0 : (fun i => a i - b i : V3) ≠ 0 := fun h0 => hne (funext fun i => by have := congrFun h0 i; simp at this; linarith)
  have := dot_self_pos h0
  unfold dot3 at this ha hb h
  nlinarith

theorem dot_scale {w u o : V3} {m d : ℝ} (h : ∀ i, w i = m * (u i - d * o i)) :
    dot3 o w = m * (dot3 u o - d * dot3 o o) := by
  unfold dot3
  rw [h, h, h]
  ring

theorem frame_of {c : Cam} (h1 : dot3 c.orientation c.orientation = 1) (h2 : dot3 c.up c.up = 1) (h3 : dot3 c.orientation c.up = 0) : Frame c := by
  refine ⟨h1, h2, ?_, h3, ?_, ?_, ?_⟩
  · have : dot3 c.right c.right = dot3 c.orientation c.orientation * dot3 c.up c.up - dot3 c.orientation c.up ^ 2 := by
      simp only [dot3, Cam.right, cross, Matrix.cons_val]
      ring
    rw [this, h1, h2, h3]; ring
  · simp only [dot3, Cam.right, cross, Matrix.cons_val]; ring
  · simp only [dot3, Cam.right, cross, Matrix.cons_val]; ring
  · have : det3 c.right c.up c.orientation = -(dot3 c.orientation c.orientation * dot3 c.up c.up - dot3 c.orientation c.up ^ 2) := by
      simp only [det3, dot3, Cam.right, cross, Matrix.cons_val]
      ring
    rw [this, h1, h2, h3]; ring

/-- Decomposition of a vector in the frame. -/
theorem Frame.decompose {c : Cam} (f : Frame c) (a : V3) (i : Fin 3) :
    a i = dot3 a c.orientation * c.orientation i + dot3 a c.right * c.right i + dot3 a c.up * c.up i := by
  set q : V3 := fun i => a i - (dot3 a c.orientation * c.orientation i + dot3 a c.right * c.right i + dot3 a c.up * c.up i) with hq
  have d : ∀ e : V3, dot3 q e = dot3 a e - (dot3 a c.orientation * dot3 c.orientation e + dot3 a c.right * dot3 c.right e +
      dot3 a c.up * dot3 c.up e) := by
    intro e
    simp only [hq, dot3]
    ring
  have q1 : dot3 q c.orientation = 0 := by
    rw [d, f.forward, dot_comm c.right, f.fr, dot_comm c.up, f.fu]; ring
  have q2 : dot3 q c.up = 0 := by
    rw [d, f.fu, dot_comm c.right, f.ur, f.up]; ring
  have q3 : dot3 q c.right = 0 := by
    rw [d, f.fr, f.right, f.ur]; ring
  have gram : dot3 q c.right ^ 2 = dot3 q q * dot3 c.orientation c.orientation * dot3 c.up c.up +
      2 * dot3 q c.orientation * dot3 c.orientation c.up * dot3 q c.up - dot3 q q * dot3 c.orientation c.up ^ 2 -
      dot3 c.orientation c.orientation * dot3 q c.up ^ 2 - dot3 c.up c.up * dot3 q c.orientation ^ 2 := by
    simp only [dot3, Cam.right, cross, Matrix.cons_val]
    ring
  rw [q1, q2, q3, f.forward, f.up, f.fu] at gram
  have h0 : q = 0 := by
    by_contra hne
    have := dot_self_pos hne
    nlinarith
  have := congrFun h0 i
  simp only [hq, Pi.zero_apply] at this
  linarith

/-- The square of a vector from its components. -/
theorem dot_expand {q o r u : V3} {A B C : ℝ} (h : ∀ i, q i = A * o i + B * r i + C * u i) :
    dot3 q q = A * dot3 q o + B * dot3 q r + C * dot3 q u := by
  have e : dot3 q q = q 0 * (A * o 0 + B * r 0 + C * u 0) + q 1 * (A * o 1 + B * r 1 + C * u 1) + q 2 * (A * o 2 + B * r 2 + C * u 2) := by
    rw [← h, ← h, ← h]; rfl
  rw [e]
  simp only [dot3]
  ring

/-! ## The camera vectors -/

/-- **C152, camera (partial).** If the direction of view is not zero and not parallel to the up vector, then after `initialize`
the camera vectors are orthonormal, the camera looks in the given direction, and up is the part of the old up vector that is
orthogonal to it. Missing: directions parallel to the up vector (`C152_frame_aligned`, `C152_negation_opposite`,
`C152_negation_axis`). -/
theorem C152_frame_partial (c : Cam) (ho : c.orientation ≠ 0) (hu : ∀ k : ℝ, c.up ≠ fun i => k * c.orientation i) :
    Frame c.setUp ∧ c.setUp.center = c.center ∧
    (∃ k, 0 < k ∧ ∀ i, c.setUp.orientation i = k * c.orientation i) ∧
    ∃ k l, 0 < k ∧ ∀ i, c.setUp.up i = k * c.up i + l * c.orientation i := by
  have hu0 : c.up ≠ 0 := fun h => hu 0 (by rw [h]; funext i; simp)
  obtain ⟨k, kp, ke, _⟩ := normalize_of_ne ho
  obtain ⟨l, lp, le, _⟩ := normalize_of_ne hu0
  have on := normalize_unit ho
  have un := normalize_unit hu0
  set o := normalize c.orientation with hodef
  set u := normalize c.up with hudef
  have hne1 : dot3 u o ≠ 1 := by
    intro h
    have := eq_of_dot_one un on h
    apply hu (k / l)
    funext i
    have h2 := congrFun this i
    rw [le, ke] at h2
    field_simp
    linarith
  have hup : c.setUp.up = fixUp o u := rfl
  have hor : c.setUp.orientation = o := rfl
  by_cases h0 : dot3 u o ≠ 0
  · have hw : (fun i => u i - dot3 u o * o i : V3) ≠ 0 := by
      intro h
      apply hu (dot3 u o * k / l)
      funext i
      have h2 := congrFun h i
      simp only [Pi.zero_apply] at h2
      rw [le, ke] at h2
      field_simp
      linarith
    obtain ⟨m, mp, me, _⟩ := normalize_of_ne hw
    have e : fixUp o u = normalize fun i => u i - dot3 u o * o i := by
      unfold fixUp; rw [if_pos h0, if_neg hne1]
    refine ⟨frame_of (by rw [hor]; exact on) (by rw [hup, e]; exact normalize_unit hw) ?_, rfl, ⟨k, kp, ke⟩,
      m * l, -(m * dot3 u o * k), mul_pos mp lp, fun i => ?_⟩
    · rw [hup, e, hor]
      have : dot3 o (normalize fun i => u i - dot3 u o * o i) = m * (dot3 u o - dot3 u o * dot3 o o) := by
        exact dot_scale me
      rw [this, on]; ring
    · rw [hup, e, me, le, ke]; ring
  · have e : fixUp o u = u := by unfold fixUp; rw [if_neg h0]
    rw [not_not] at h0
    refine ⟨frame_of (by rw [hor]; exact on) (by rw [hup, e]; exact un) (by rw [hup, e, hor, dot_comm]; exact h0), rfl, ⟨k, kp, ke⟩,
      l, 0, lp, fun i => by rw [hup, e, le]; ring⟩

/-- **C152, camera looking along up.** The frame is also orthonormal if the direction of view is that of the up vector, unless
both are along the first axis. -/
theorem C152_frame_aligned (c : Cam) (ho : c.orientation ≠ 0) (k : ℝ) (hk : 0 < k) (hu : c.up = fun i => k * c.orientation i)
    (hx : c.orientation 1 ≠ 0 ∨ c.orientation 2 ≠ 0) : Frame c.setUp := by
  have hu0 : c.up ≠ 0 := by
    intro h
    apply ho
    funext i
    have := congrFun h i
    rw [hu] at this
    simp only [Pi.zero_apply, mul_eq_zero] at this
    exact this.resolve_left hk.ne'
  obtain ⟨a, ap, ae, ak⟩ := normalize_of_ne ho
  obtain ⟨l, lp, le, lk⟩ := normalize_of_ne hu0
  have on := normalize_unit ho
  have hlk : l * k = a := by
    have h1 : dot3 c.up c.up = k ^ 2 * dot3 c.orientation c.orientation := by
      rw [hu]; simp only [dot3]; ring
    rw [h1] at lk
    have hp := dot_self_pos ho
    have h2 : (l * k) ^ 2 = a ^ 2 := by
      have : (l * k) ^ 2 * dot3 c.orientation c.orientation = a ^ 2 * dot3 c.orientation c.orientation := by
        rw [ak]; linarith
      exact mul_right_cancel₀ hp.ne' this
    exact (pow_left_inj₀ (by positivity) ap.le two_ne_zero).mp h2
  have huo : normalize c.up = normalize c.orientation := by
    funext i
    rw [le, ae, hu]
    simp only
    rw [← hlk]; ring
  set o := normalize c.orientation with hodef
  set u' := normalize (fun i => o i + if i = 0 then 1 else 0 : V3) with hu'
  have hx' : o 1 ≠ 0 ∨ o 2 ≠ 0 := by
    rcases hx with h | h
    · left; rw [ae]; exact mul_ne_zero ap.ne' h
    · right; rw [ae]; exact mul_ne_zero ap.ne' h
  have hs0 : (fun i => o i + if i = 0 then 1 else 0 : V3) ≠ 0 := by
    intro h
    rcases hx' with h1 | h1
    · apply h1
      have := congrFun h 1
      simpa using this
    · apply h1
      have := congrFun h 2
      simpa using this
  obtain ⟨m, mp, me, mk⟩ := normalize_of_ne hs0
  have hw : (fun i => u' i - dot3 u' o * o i : V3) ≠ 0 := by
    intro h
    have e0 := congrFun h 0
    have e1 := congrFun h 1
    have e2 := congrFun h 2
    simp only [hu', me, Pi.zero_apply, if_true, Fin.isValue, one_ne_zero, Fin.reduceEq, if_false, add_zero] at e0 e1 e2
    rw [← hu'] at e0 e1 e2
    have hd : dot3 u' o = m := by
      rcases hx' with h1 | h1
      · have : (m - dot3 u' o) * o 1 = 0 := by linarith
        rcases mul_eq_zero.mp this with h2 | h2
        · linarith
        · exact absurd h2 h1
      · have : (m - dot3 u' o) * o 2 = 0 := by linarith
        rcases mul_eq_zero.mp this with h2 | h2
        · linarith
        · exact absurd h2 h1
    rw [hd] at e0
    have : m = 0 := by linarith
    exact mp.ne' this
  obtain ⟨w, _, we, _⟩ := normalize_of_ne hw
  have e : c.setUp.up = normalize fun i => u' i - dot3 u' o * o i := by
    show fixUp o (normalize c.up) = _
    rw [huo]
    unfold fixUp
    rw [if_pos (by rw [on]; exact one_ne_zero), if_pos on]
  have hor : c.setUp.orientation = o := rfl
  refine frame_of (by rw [hor]; exact on) (by rw [e]; exact normalize_unit hw) ?_
  rw [e, hor]
  have : dot3 o (normalize fun i => u' i - dot3 u' o * o i) = w * (dot3 u' o - dot3 u' o * dot3 o o) := by
    exact dot_scale we
  rw [this, on]; ring

/-- **C152, repeated set-up.** A camera that is set up stays as it is when `initialize` is called again, as it is for every image
of a video. -/
theorem C152_repeat (c : Cam) (h : Frame c) : c.setUp = c := by
  have h1 := normalize_id h.forward
  have h2 := normalize_id h.up
  unfold Cam.setUp
  rw [h1, h2]
  have : fixUp c.orientation c.up = c.up := by
    unfold fixUp
    rw [if_neg]
    rw [not_not, dot_comm]; exact h.fu
  rw [this]

/-- A degenerate camera: all pixels see the same. -/
theorem ray_of_up_zero (c : Cam) (h : c.up = 0) (px py x y : ℕ) : c.ray px py x y = ⟨c.center, normalize c.orientation⟩ := by
  unfold Cam.ray
  congr 1
  have hr : c.right = 0 := by
    unfold Cam.right
    rw [h]
    funext i
    fin_cases i <;> simp [cross]
  rw [hr, h]
  simp

/-- **C152 is false for a camera looking against up.** Then all pixels of the image have the same ray. -/
theorem C152_negation_opposite : ∃ c : Cam, c.orientation ≠ 0 ∧ c.up ≠ 0 ∧
    ∀ px py x y x' y', c.setUp.ray px py x y = c.setUp.ray px py x' y' := by
  refine ⟨⟨0, ![0, -1, 0], ![0, 1, 0]⟩, ?_, ?_, ?_⟩
  · intro h; have := congrFun h 1; simp at this
  · intro h; have := congrFun h 1; simp at this
  · have h1 : normalize (![0, -1, 0] : V3) = ![0, -1, 0] := normalize_id (by simp [dot3])
    have h2 : normalize (![0, 1, 0] : V3) = ![0, 1, 0] := normalize_id (by simp [dot3])
    have h0 : (Cam.setUp ⟨0, ![0, -1, 0], ![0, 1, 0]⟩).up = 0 := by
      show fixUp (normalize ![0, -1, 0]) (normalize ![0, 1, 0]) = 0
      rw [h1, h2]
      have hd : dot3 ![0, 1, 0] ![0, -1, 0] = -1 := by simp [dot3]
      unfold fixUp
      rw [if_pos (by rw [hd]; norm_num), if_neg (by rw [hd]; norm_num), hd]
      apply normalize_zero
      funext i
      fin_cases i <;> simp
    intro px py x y x' y'
    rw [ray_of_up_zero _ h0, ray_of_up_zero _ h0]

/-- **C152 is false for a camera looking along the first axis with up along it.** Such an up vector is left over when the camera
first looked along the second axis. -/
theorem C152_negation_axis : ∃ c : Cam, c.orientation ≠ 0 ∧ c.up ≠ 0 ∧
    c.setUp.up = ![1, 0, 0] ∧
    ∀ px py x y x' y', (Cam.setUp ⟨c.center, ![1, 0, 0], c.setUp.up⟩).ray px py x y =
      (Cam.setUp ⟨c.center, ![1, 0, 0], c.setUp.up⟩).ray px py x' y' := by
  refine ⟨⟨0, ![0, 1, 0], ![0, 1, 0]⟩, ?_, ?_, ?_⟩
  · intro h; have := congrFun h 1; simp at this
  · intro h; have := congrFun h 1; simp at this
  · have h2 : normalize (![0, 1, 0] : V3) = ![0, 1, 0] := normalize_id (by simp [dot3])
    have h3 : normalize (![1, 0, 0] : V3) = ![1, 0, 0] := normalize_id (by simp [dot3])
    have hup : (Cam.setUp ⟨0, ![0, 1, 0], ![0, 1, 0]⟩).up = ![1, 0, 0] := by
      show fixUp (normalize ![0, 1, 0]) (normalize ![0, 1, 0]) = _
      rw [h2]
      have hd : dot3 ![0, 1, 0] ![0, 1, 0] = 1 := by simp [dot3]
      unfold fixUp
      rw [if_pos (by rw [hd]; norm_num), if_pos hd]
      simp only
      have hne : (fun i => ![0, 1, 0] i + if i = 0 then 1 else 0 : V3) ≠ 0 := by
        intro h; have := congrFun h 1; simp at this
      obtain ⟨k, kp, ke, kk⟩ := normalize_of_ne hne
      set w := normalize (fun i => ![0, 1, 0] i + if i = 0 then 1 else 0 : V3) with hw
      have w0 : w 0 = k := by rw [ke]; simp
      have w1 : w 1 = k := by rw [ke]; simp
      have w2 : w 2 = 0 := by rw [ke]; simp
      have hd2 : dot3 w ![0, 1, 0] = k := by simp [dot3, w1]
      rw [hd2]
      have hv : (fun i => w i - k * ![0, 1, 0] i : V3) = fun i => k * ![1, 0, 0] i := by
        funext i
        fin_cases i
        · simp [w0]
        · simp [w1]
        · simp [w2]
      rw [hv]
      have hne2 : (fun i => k * ![1, 0, 0] i : V3) ≠ 0 := by
        intro h; have := congrFun h 0; simp at this; exact kp.ne' this
      obtain ⟨m, mp, me, mm⟩ := normalize_of_ne hne2
      have hmk : m * k = 1 := by
        have : (m * k) ^ 2 = 1 := by
          simp only [dot3, Matrix.cons_val] at mm
          linarith
        nlinarith [mul_pos mp kp]
      funext i
      rw [me]
      fin_cases i
      · simp [hmk]
      · simp
      · simp
    refine ⟨hup, ?_⟩
    rw [hup]
    have h0 : (Cam.setUp ⟨0, ![1, 0, 0], ![1, 0, 0]⟩).up = 0 := by
      show fixUp (normalize ![1, 0, 0]) (normalize ![1, 0, 0]) = 0
      rw [h3]
      have hd : dot3 ![1, 0, 0] ![1, 0, 0] = 1 := by simp [dot3]
      unfold fixUp
      rw [if_pos (by rw [hd]; norm_num), if_pos hd]
      simp only
      have hne : (fun i => ![1, 0, 0] i + if i = 0 then 1 else 0 : V3) ≠ 0 := by
        intro h; have := congrFun h 0; norm_num at this
      obtain ⟨k, kp, ke, kk⟩ := normalize_of_ne hne
      apply normalize_zero
      funext i
      have e0 := ke 0
      have e1 := ke 1
      have e2 := ke 2
      simp only [Matrix.cons_val, if_true, Fin.isValue, one_ne_zero, Fin.reduceEq, if_false, add_zero, mul_zero] at e0 e1 e2
      fin_cases i
      · simp [dot3]
      · simp [e1]
      · simp [e2]
    intro px py x y x' y'
    rw [ray_of_up_zero _ h0, ray_of_up_zero _ h0]

/-- The default camera looks along the first axis, up is the second. -/
example : Frame (Cam.setUp ⟨0, ![1, 0, 0], ![0, 1, 0]⟩) := by
  refine (C152_frame_partial _ ?_ ?_).1
  · intro h; have := congrFun h 0; simp at this
  · intro k h; have := congrFun h 1; simp at this

/-! ## The image -/

theorem renderRow_at {C : Type} (c : Cam) (px py : ℕ) (trace : Ray → C) (img : ℕ → ℕ → C) (y i j : ℕ) :
    renderRow c px py trace img y i j = if i < px ∧ j = py - y - 1 then trace (c.ray px py i y) else img i j := by
  unfold renderRow
  have : ∀ n, (List.range n).foldl (fun img x => setPixel img x (py - y - 1) (trace (c.ray px py x y))) img i j =
      if i < n ∧ j = py - y - 1 then trace (c.ray px py i y) else img i j := by
    intro n
    induction n with
    | zero => simp
    | succ n ih =>
      rw [List.range_succ, List.foldl_append, List.foldl_cons, List.foldl_nil]
      show (if i = n ∧ j = py - y - 1 then trace (c.ray px py n y) else _) = _
      rw [ih]
      by_cases h1 : j = py - y - 1
      · rcases lt_trichotomy i n with h | h | h
        · rw [if_neg (by omega), if_pos ⟨h, h1⟩, if_pos ⟨by omega, h1⟩]
        · subst h
          rw [if_pos ⟨rfl, h1⟩, if_pos ⟨by omega, h1⟩]
        · rw [if_neg (by omega), if_neg (by omega), if_neg (by omega)]
      · rw [if_neg (by simp [h1]), if_neg (by simp [h1]), if_neg (by simp [h1])]
  exact this px

/-- **C152, image.** After `render` every pixel of the image has the colour of its own ray; column `i` is the ray at `x = i`, and
row `j`, counted from the top, the ray at `y = py-1-j`, so that up is at the top. No other pixel is written. -/
theorem C152_image {C : Type} (c : Cam) (px py : ℕ) (trace : Ray → C) (img : ℕ → ℕ → C) :
    (∀ i < px, ∀ j < py, render c px py trace img i j = trace (c.ray px py i (py - 1 - j))) ∧
    (∀ i j, ¬ (i < px ∧ j < py) → render c px py trace img i j = img i j) := by
  have main : ∀ n ≤ py, ∀ i j, (List.range n).foldl (renderRow c px py trace) img i j =
      if i < px ∧ j < py ∧ py - 1 - j < n then trace (c.ray px py i (py - 1 - j)) else img i j := by
    intro n
    induction n with
    | zero => intro _ i j; simp
    | succ n ih =>
      intro hn i j
      rw [List.range_succ, List.foldl_append, List.foldl_cons, List.foldl_nil, renderRow_at, ih (by omega)]
      by_cases h1 : i < px ∧ j = py - n - 1
      · have e : py - 1 - j = n := by omega
        rw [if_pos h1, if_pos ⟨h1.1, by omega, by omega⟩, e]
      · rw [if_neg h1]
        by_cases h2 : i < px ∧ j < py ∧ py - 1 - j < n
        · rw [if_pos h2, if_pos ⟨h2.1, h2.2.1, by omega⟩]
        · rw [if_neg h2, if_neg]
          intro h3
          apply h2
          refine ⟨h3.1, h3.2.1, ?_⟩
          rcases Nat.lt_succ_iff_lt_or_eq.mp h3.2.2 with h | h
          · exact h
          · exact absurd ⟨h3.1, by omega⟩ h1
  refine ⟨fun i hi j hj => ?_, fun i j h => ?_⟩
  · unfold render
    rw [main py (le_refl _), if_pos ⟨hi, hj, by omega⟩]
  · unfold render
    rw [main py (le_refl _), if_neg (fun h' => h ⟨h'.1, h'.2.1⟩)]

/-- **C152, perspective.** With orthonormal camera vectors, a point ahead of the camera is on the ray of the pixel `(x, y)` exactly
if its offsets to the right and up, divided by its depth, are the shifts of the pixel. -/
theorem C152_perspective (c : Cam) (f : Frame c) (px py x y : ℕ) (p : V3) (hd : 0 < c.depth p) :
    (∃ t, 0 < t ∧ p = (c.ray px py x y).at t) ↔
      dot3 (c.to p) c.right = shift px x * c.depth p ∧ dot3 (c.to p) c.up = shift py y * c.depth p := by
  set w : V3 := fun i => c.orientation i + shift px x * c.right i + shift py y * c.up i with hw
  have dw : ∀ e, dot3 w e = dot3 c.orientation e + shift px x * dot3 c.right e + shift py y * dot3 c.up e := by
    intro e; simp only [hw, dot3]; ring
  have wo : dot3 w c.orientation = 1 := by rw [dw, f.forward, dot_comm c.right, f.fr, dot_comm c.up, f.fu]; ring
  have wr : dot3 w c.right = shift px x := by rw [dw, f.fr, f.right, f.ur]; ring
  have wu : dot3 w c.up = shift py y := by rw [dw, f.fu, dot_comm c.right, f.ur, f.up]; ring
  have hw0 : w ≠ 0 := by rintro h; rw [h] at wo; simp [dot3] at wo
  obtain ⟨k, kp, ke, _⟩ := normalize_of_ne hw0
  have hat : ∀ t i, (c.ray px py x y).at t i = c.center i + t * (k * w i) := by
    intro t i
    rw [← ke]
    rfl
  have scale : ∀ s : ℝ, (∀ i, c.to p i = s * w i) → ∀ e, dot3 (c.to p) e = s * dot3 w e := by
    intro s h e
    simp only [dot3]
    rw [h, h, h]; ring
  constructor
  · rintro ⟨t, tp, rfl⟩
    have h : ∀ i, c.to ((c.ray px py x y).at t) i = t * k * w i := by
      intro i
      simp only [Cam.to, hat]
      ring
    have e := scale (t * k) h
    unfold Cam.depth
    rw [e, e, e, wo, wr, wu]
    constructor <;> ring
  · rintro ⟨h1, h2⟩
    refine ⟨c.depth p / k, by positivity, ?_⟩
    funext i
    rw [hat]
    have := f.decompose (c.to p) i
    rw [h1, h2] at this
    have hp : c.to p i = c.depth p * w i := by
      rw [this]
      simp only [hw, Cam.depth]
      ring
    simp only [Cam.to] at hp
    field_simp
    linarith

/-- The shifts of pixels are between minus one half and one half, in the order of pixels. -/
theorem C152_shift (pix : ℕ) (hp : 0 < pix) :
    (∀ i < pix, -(1/2) ≤ shift pix i ∧ shift pix i < 1/2) ∧ (∀ i j, i < j → shift pix i < shift pix j) ∧
    (∀ z : ℝ, -(1/2) ≤ z → z < 1/2 → ∃ i < pix, shift pix i ≤ z ∧ z < shift pix i + 1 / pix) := by
  have hp' : (0 : ℝ) < pix := by exact_mod_cast hp
  have e : ∀ i : ℕ, shift pix i = (i : ℝ) / pix - 1/2 := by
    intro i
    unfold shift
    field_simp
  refine ⟨fun i hi => ?_, fun i j h => ?_, fun z h1 h2 => ?_⟩
  · rw [e]
    have hi' : (i : ℝ) < pix := by exact_mod_cast hi
    have h3 : (i : ℝ) / pix < 1 := (div_lt_one hp').mpr hi'
    have h4 : 0 ≤ (i : ℝ) / pix := by positivity
    constructor <;> linarith
  · rw [e, e]
    have : (i : ℝ) / pix < (j : ℝ) / pix := div_lt_div_of_pos_right (by exact_mod_cast h) hp'
    linarith
  · have h0 : 0 ≤ (z + 1/2) * pix := by
      apply mul_nonneg <;> linarith
    have hf := Nat.floor_le h0
    have hl := Nat.lt_floor_add_one ((z + 1/2) * pix)
    refine ⟨⌊(z + 1/2) * pix⌋₊, ?_, ?_, ?_⟩
    · rw [Nat.floor_lt h0]
      nlinarith
    · rw [e]
      have : (⌊(z + 1/2) * pix⌋₊ : ℝ) / pix ≤ z + 1/2 := by rw [div_le_iff₀ hp']; exact hf
      linarith
    · rw [e]
      have : z + 1/2 < ((⌊(z + 1/2) * pix⌋₊ : ℝ) + 1) / pix := by rw [lt_div_iff₀ hp']; exact hl
      rw [add_div] at this
      linarith

/-! ## Shading -/

/-- **C152, shading.** For every angle a channel of the pixel is at least a tenth of the channel of the colour of the sphere and at
most that channel (so it fits into a byte); it is the channel itself where the surface faces the light and a tenth of it where it
faces away; and it grows with the cosine. -/
theorem C152_shading (col : ℕ) (hc : col ≤ 255) :
    (∀ cos : ℝ, cos ≤ 1 → ⌊(col : ℝ) / 10⌋ ≤ channel cos col ∧ channel cos col ≤ col ∧ 0 ≤ channel cos col ∧ channel cos col ≤ 255) ∧
    channel 1 col = col ∧ (∀ cos : ℝ, cos ≤ 0 → channel cos col = ⌊(col : ℝ) / 10⌋) ∧
    (∀ a b : ℝ, a ≤ b → channel a col ≤ channel b col) := by
  have hc0 : (0 : ℝ) ≤ col := Nat.cast_nonneg col
  have e : ∀ cos, channel cos col = ⌊intensity cos * col⌋ := by
    intro cos
    unfold channel
    congr 1
    ring
  have i1 : ∀ cos : ℝ, cos ≤ 1 → intensity cos ≤ 1 := by
    intro cos h
    unfold intensity
    have := max_le (zero_le_one) h
    linarith
  have i2 : ∀ cos : ℝ, 1/10 ≤ intensity cos := by
    intro cos
    unfold intensity
    have := le_max_left 0 cos
    linarith
  refine ⟨fun cos h => ?_, ?_, fun cos h => ?_, fun a b h => ?_⟩
  · rw [e]
    have a1 : (⌊intensity cos * col⌋ : ℤ) ≤ col := by
      have : intensity cos * col ≤ ((col : ℤ) : ℝ) := by
        push_cast
        nlinarith [i1 cos h]
      exact Int.floor_le_iff.mpr (by linarith)
    have a2 : ⌊(col : ℝ) / 10⌋ ≤ ⌊intensity cos * col⌋ := Int.floor_mono (by nlinarith [i2 cos])
    have a3 : 0 ≤ ⌊intensity cos * col⌋ := Int.floor_nonneg.mpr (by nlinarith [i2 cos])
    refine ⟨a2, a1, a3, a1.trans (by exact_mod_cast hc)⟩
  · rw [e]
    have : intensity 1 = 1 := by unfold intensity; rw [max_eq_right zero_le_one]; norm_num
    rw [this, one_mul]
    exact_mod_cast Int.floor_natCast col
  · rw [e]
    have : intensity cos = 1/10 := by unfold intensity; rw [max_eq_left h]; norm_num
    rw [this]
    congr 1
    ring
  · rw [e, e]
    apply Int.floor_mono
    apply mul_le_mul_of_nonneg_right _ hc0
    unfold intensity
    have := max_le_max (le_refl (0 : ℝ)) h
    linarith

theorem light_unit : dot3 light light = 1 := by
  have h3 : Real.sqrt 3 * Real.sqrt 3 = 3 := Real.mul_self_sqrt (by norm_num)
  have h0 : Real.sqrt 3 ≠ 0 := by
    intro h
    rw [h] at h3
    norm_num at h3
  simp only [dot3, light]
  field_simp
  linarith

/-- The cosine is at most one. -/
theorem cosAt_le (ray : Ray) (h : Hit) : cosAt ray h ≤ 1 := by
  unfold cosAt
  have key : ∀ a b : V3, dot3 a a ≤ 1 → dot3 b b = 1 → dot3 a b ≤ 1 := by
    intro a b ha hb
    have : 0 ≤ dot3 (fun i => a i - b i) (fun i => a i - b i) := dot_self_nonneg _
    have e : dot3 (fun i => a i - b i) (fun i => a i - b i) = dot3 a a - 2 * dot3 a b + dot3 b b := by
      simp only [dot3]; ring
    rw [e, hb] at this
    linarith
  apply key _ _ _ light_unit
  by_cases h0 : (fun i => ray.at h.near i - h.sphere.center i : V3) = 0
  · rw [normalize_zero h0]; simp [dot3]
  · rw [normalize_unit h0]

/-- **C152, what a pixel shows (partial).** In a scene in which no splitting plane cuts a sphere, a ray that misses the box gives
black; one that passes through no sphere gives dark grey; otherwise the pixel is the shaded colour of the sphere that the ray
meets first, at the point where it meets it, whether or not spheres are chopped; all channels fit into bytes. Missing: spheres cut
by a splitting plane (`C106_negation_cut`). -/
theorem C152_pixel_partial (chop : Bool) (b : Box) (t : Tree) (ht : t.Empty) (l : List Sphere) (col : Sphere → ℕ × ℕ × ℕ) (ray : Ray)
    (sc : Scene b l ray) (ha : ∀ s ∈ l, t.Avoids s) :
    (boxRange b ray = none ∧ trace chop b (t.insertAll l) col ray = .black ∧
      ∀ s ∈ l, ∀ x, 0 ≤ x → ¬ dist2 (ray.at x) s.center < s.radius ^ 2) ∨
    (boxRange b ray ≠ none ∧ trace chop b (t.insertAll l) col ray = .darkGray ∧
      ∀ s ∈ l, ∀ x, 0 ≤ x → ¬ dist2 (ray.at x) s.center < s.radius ^ 2) ∨
    (∃ s ∈ l, ∃ x, 0 < x ∧ dist2 (ray.at x) s.center = s.radius ^ 2 ∧
      (∀ s' ∈ l, ∀ x', 0 ≤ x' → x' < x → ¬ dist2 (ray.at x') s'.center < s'.radius ^ 2) ∧
      ∃ cos, cos = dot3 (normalize fun i => ray.at x i - s.center i) light ∧ cos ≤ 1 ∧
        trace chop b (t.insertAll l) col ray =
          .rgb (channel cos (col s).1) (channel cos (col s).2.1) (channel cos (col s).2.2)) := by
  obtain ⟨h1, h2⟩ := C106_nearest_partial b t ht l ray sc ha
  cases hb : boxRange b ray with
  | none =>
    left
    refine ⟨rfl, by unfold trace; rw [hb], h2 ?_⟩
    unfold treeTrace
    rw [hb]; rfl
  | some r =>
    right
    have htr : treeTrace b (t.insertAll l) ray = (t.insertAll l).traverse ray r.1 r.2 := by
      unfold treeTrace
      rw [hb]; rfl
    cases hh : (t.insertAll l).traverse ray r.1 r.2 with
    | none =>
      left
      refine ⟨by simp, by unfold trace; rw [hb]; simp only [hh], h2 (by rw [htr, hh])⟩
    | some h =>
      right
      obtain ⟨a1, a2, a3, a4⟩ := h1 h (by rw [htr, hh])
      refine ⟨h.sphere, a1, h.near, a2, a3, a4, cosAt ray h, rfl, cosAt_le ray h, ?_⟩
      obtain ⟨s, hs, es, _⟩ := traverse_sound hh
      have hsub : s ∈ l := by
        rcases spheres_insertAll hs with h' | h'
        · exact h'
        · rw [spheres_empty ht] at h'; simp at h'
      obtain ⟨n1, n2⟩ := sc.range hb hsub es
      obtain ⟨_, _, _, he⟩ := intersect_some es
      have hf : h.near ≤ h.far := by
        rw [he]
        simp only
        linarith [Real.sqrt_nonneg (s.d ray)]
      unfold trace
      rw [hb]
      simp only [hh]
      rw [if_neg (by linarith), if_neg (fun h' => by linarith [h'.2])]

/-- Example: the scene with one small sphere in an empty tree of two leaves meets the hypotheses of `C152_pixel_partial`. -/
example : Scene bigBox [small] axisRay ∧ onePlane.Empty ∧ (∀ s ∈ [small], onePlane.Avoids s) := by
  have sc := two_scene
  refine ⟨⟨sc.unit, fun s hs => sc.radius s (List.mem_cons_of_mem _ hs), fun s hs => sc.inBox s (List.mem_cons_of_mem _ hs),
    fun s hs => sc.outside s (List.mem_cons_of_mem _ hs), fun s hs => sc.reach s (List.mem_cons_of_mem _ hs)⟩, ⟨rfl, rfl⟩, ?_⟩
  intro s hs
  rw [List.mem_singleton] at hs
  subst hs
  refine ⟨?_, trivial, trivial⟩
  simp [small]; norm_num

/-! ## The tree -/

/-- The number of planes on the longest way down. -/
def depth : Tree → ℕ
  | .leaf _ => 0
  | .node _ _ a b => 1 + max (depth a) (depth b)

/-- **C152, tree.** Building the tree ends, for every number of spheres and all planes, with an empty tree (so C106 applies to it)
whose depth is logarithmic: at most `k` if there are at most `49 * 2^k + 1` spheres. -/
theorem C152_tree (plane : ℕ → ℕ → Option (Fin 3 × ℝ)) (start n : ℕ) :
    (build plane start n).Empty ∧ ∀ k, n ≤ 49 * 2 ^ k + 1 → depth (build plane start n) ≤ k := by
  induction n using Nat.strong_induction_on generalizing start with
  | _ n ih =>
    rw [build]
    by_cases h : n ≤ 50
    · rw [dif_pos h]
      exact ⟨rfl, fun k _ => Nat.zero_le _⟩
    · rw [dif_neg h]
      cases hp : plane start n with
      | none => exact ⟨rfl, fun k _ => Nat.zero_le _⟩
      | some q =>
        obtain ⟨dim, split⟩ := q
        have i1 := ih ((2 * start + n - 1) / 2 - start) (by omega) start
        have i2 := ih (start + n - (2 * start + n - 1) / 2) (by omega) ((2 * start + n - 1) / 2)
        refine ⟨⟨i1.1, i2.1⟩, fun k hk => ?_⟩
        cases k with
        | zero => simp at hk; omega
        | succ k =>
          rw [pow_succ] at hk
          have j1 := i1.2 k (by omega)
          have j2 := i2.2 k (by omega)
          show 1 + max _ _ ≤ _
          omega

/-! ## The standard camera -/

theorem standard_to (m : V3) {s : ℝ} (p : V3) (i : Fin 3) : (standard m s).to p i = (p i - m i) - s * ![13/10, 24/10, 2] i := by
  simp only [Cam.to, standard]; ring

/-- The set-up of the standard camera: it looks at the centre, from `s * sqrt 11.45` away. -/
theorem standard_frame (m : V3) {s : ℝ} (hs : 0 < s) : Frame (standard m s).setUp ∧
    ∃ L, 0 < L ∧ L ^ 2 = 1145/100 ∧ (∀ i, L * (standard m s).setUp.orientation i = -![13/10, 24/10, 2] i) ∧
      dot3 (standard m s).setUp.right ![0, 1, 0] = 0 := by
  have hne : (fun i => m i - (s * ![13/10, 24/10, 2] i + m i) : V3) ≠ 0 := by
    intro h
    have := congrFun h 2
    simp at this
    exact hs.ne' this
  have hu := normalize_unit hne
  obtain ⟨k, kp, ke, kk⟩ := normalize_of_ne hne
  have hor : (standard m s).orientation = normalize (fun i => m i - (s * ![13/10, 24/10, 2] i + m i)) := rfl
  have hks : (k * s) ^ 2 * (1145/100) = 1 := by
    simp only [dot3, Matrix.cons_val] at kk
    linarith
  have hks0 : 0 < k * s := mul_pos kp hs
  have hoi : ∀ i, (standard m s).orientation i = -(k * s) * ![13/10, 24/10, 2] i := by
    intro i; rw [hor, ke]; ring
  obtain ⟨f, _, ⟨a, ap, ae⟩, ⟨b, l, bp, be⟩⟩ := C152_frame_partial (standard m s) (by rw [hor]; exact unit_ne hu) (by
    intro q h
    have h1 := congrFun h 0
    have h2 := congrFun h 1
    rw [hoi] at h1 h2
    simp [standard] at h1 h2
    rcases h1 with h1 | h1
    · rw [h1] at h2; simp at h2
    · rcases h1 with h1 | h1
      · exact kp.ne' h1
      · exact hs.ne' h1)
  refine ⟨f, 1 / (k * s), by positivity, ?_, ?_, ?_⟩
  · field_simp
    linarith
  · intro i
    have : (standard m s).setUp.orientation = (standard m s).orientation := by
      show normalize (standard m s).orientation = _
      rw [hor, normalize_id hu]
    rw [this, hoi]
    field_simp
  · have e : ∀ i, (standard m s).setUp.up i = b * ![0, 1, 0] i + l / a * (standard m s).setUp.orientation i := by
      intro i
      rw [be, ae]
      show b * ![0, 1, 0] i + _ = _
      field_simp
    simp only [dot3, Cam.right, cross, Matrix.cons_val]
    rw [e 0, e 2]
    simp only [Matrix.cons_val]
    ring

/-- **C152, standard camera (partial).** The standard camera shows every point within three quarters of the largest width of the
box from its centre. Missing: the corners of the box (`C152_negation_corner`). -/
theorem C152_standard_partial (m : V3) (s : ℝ) (hs : 0 < s) (p : V3) (hp : dist2 p m ≤ (3/2 * s) ^ 2) :
    Frame (standard m s).setUp ∧ (standard m s).setUp.InView p := by
  obtain ⟨f, L, Lp, L2, Lo, _⟩ := standard_frame m hs
  refine ⟨f, ?_⟩
  set c := (standard m s).setUp with hc
  set q : V3 := fun i => p i - m i with hq
  have hto : ∀ i, c.to p i = q i + s * L * c.orientation i := by
    intro i
    have h1 : c.to p i = (standard m s).to p i := rfl
    rw [h1, standard_to, mul_assoc, Lo]
    simp only [hq]
    ring
  have hd : ∀ e, dot3 (c.to p) e = dot3 q e + s * L * dot3 c.orientation e := by
    intro e
    simp only [dot3]
    rw [hto, hto, hto]; ring
  have hdep : c.depth p = dot3 q c.orientation + s * L := by
    unfold Cam.depth
    rw [hd, f.forward]; ring
  have hr : dot3 (c.to p) c.right = dot3 q c.right := by rw [hd, f.fr]; ring
  have hu : dot3 (c.to p) c.up = dot3 q c.up := by rw [hd, f.fu]; ring
  have bessel : dot3 q c.orientation ^ 2 + dot3 q c.right ^ 2 + dot3 q c.up ^ 2 = dot3 q q := by
    have h := dot_expand (f.decompose q)
    rw [h]; ring
  have hqq : dot3 q q = dist2 p m := by
    simp only [dot3, dist2, hq]
    ring
  rw [hqq] at bessel
  have hsL : (s * L) ^ 2 = 1145/100 * s ^ 2 := by rw [mul_pow, L2]; ring
  have hsL0 : 0 < s * L := mul_pos hs Lp
  have key : ∀ z, z ^ 2 ≤ (3/2 * s) ^ 2 - dot3 q c.orientation ^ 2 → 2 * |z| ≤ dot3 q c.orientation + s * L := by
    intro z hz
    have h1 : (2 * |z| - dot3 q c.orientation) ^ 2 ≤ (s * L) ^ 2 := by
      rw [hsL]
      have : |z| ^ 2 = z ^ 2 := sq_abs z
      nlinarith [sq_nonneg (|z| + 2 * dot3 q c.orientation), sq_nonneg s]
    have := abs_le_of_sq_le_sq' h1 hsL0.le
    linarith [this.2]
  have hx : 0 < dot3 q c.orientation + s * L := by
    have h1 : (dot3 q c.orientation) ^ 2 < (s * L) ^ 2 := by
      rw [hsL]
      nlinarith [sq_nonneg (dot3 q c.right), sq_nonneg (dot3 q c.up), pow_pos hs 2]
    have := abs_lt_of_sq_lt_sq h1 hsL0.le
    linarith [(abs_lt.mp this).1]
  refine ⟨by rw [hdep]; exact hx, ?_, ?_⟩
  · rw [hdep, hr]
    have := key (dot3 q c.right) (by nlinarith [sq_nonneg (dot3 q c.up)])
    linarith
  · rw [hdep, hu]
    have := key (dot3 q c.up) (by nlinarith [sq_nonneg (dot3 q c.right)])
    linarith

/-- Example: the standard camera of the box from -1 to 1 shows the middles of its faces. -/
example : (standard 0 1).setUp.InView ![1, 0, 0] :=
  (C152_standard_partial 0 1 one_pos ![1, 0, 0] (by simp [dist2]; norm_num)).2

/-- **C152, negation.** The standard camera does not show the whole box: for the box from -1 to 1 the corner `(-1, 1, 1)` is outside
of the image. -/
theorem C152_negation_corner : ¬ (standard 0 1).setUp.InView ![-1, 1, 1] := by
  rintro ⟨h0, h1, -⟩
  obtain ⟨f, L, Lp, L2, Lo, hr⟩ := standard_frame 0 one_pos
  set c := (standard 0 1).setUp with hc
  have hto : ∀ i, c.to ![-1, 1, 1] i = ![-1, 1, 1] i - ![13/10, 24/10, 2] i := by
    intro i
    have h1 : c.to ![-1, 1, 1] i = (standard 0 1).to ![-1, 1, 1] i := rfl
    rw [h1, standard_to]
    simp
  have o0 := Lo 0
  have o1 := Lo 1
  have o2 := Lo 2
  simp only [Matrix.cons_val] at o0 o1 o2
  have hdep : L * c.depth ![-1, 1, 1] = 835/100 := by
    simp only [Cam.depth, dot3, hto, Matrix.cons_val]
    linear_combination (-1 - 13/10) * o0 + (1 - 24/10) * o1 + (1 - 2) * o2
  simp only [dot3, Matrix.cons_val] at hr
  have r1 : c.right 1 = 0 := by linarith
  have fr := f.fr
  have rr := f.right
  have hfr : 13/10 * c.right 0 + 2 * c.right 2 = 0 := by
    simp only [dot3] at fr
    rw [r1] at fr
    linear_combination (-L) * fr + c.right 0 * o0 + c.right 2 * o2
  simp only [dot3] at rr
  rw [r1] at rr
  have hx : dot3 (c.to ![-1, 1, 1]) c.right = -23/10 * c.right 0 - c.right 2 := by
    simp only [dot3, hto, Matrix.cons_val, r1]
    ring
  have hr2 : c.right 2 = -13/20 * c.right 0 := by linarith
  rw [hr2] at rr hx
  rw [hx] at h1
  have hsq := sq_abs (-23/10 * c.right 0 - -13/20 * c.right 0)
  have h2 : |(-23/10 * c.right 0 - -13/20 * c.right 0)| ^ 2 ≤ (c.depth ![-1, 1, 1] / 2) ^ 2 := by
    apply pow_le_pow_left₀ (abs_nonneg _) h1
  rw [hsq] at h2
  have hd2 : (1145/100) * c.depth ![-1, 1, 1] ^ 2 = (835/100) ^ 2 := by
    rw [← hdep, ← L2]; ring
  nlinarith

end Verif.Camera
