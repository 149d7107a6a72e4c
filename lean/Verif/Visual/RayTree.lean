import Mathlib.Analysis.Real.Sqrt
import Mathlib.Data.Fin.VecNotation
import Mathlib.Tactic.FinCases
import Mathlib.Tactic.Linarith
import Mathlib.Tactic.Ring
import Mathlib.Tactic.FieldSimp
import Mathlib.Tactic.LinearCombination
import Mathlib.Tactic.NormNum

/-!
# Ray tracing (C106)

Models `Sphere::intersect` (`visualization/raytracestructs.cpp:43-75`), `RayKDTreeNode::insert` and `traverse` (`visualization/raykdtree.cpp:14-95`),
`RayKDTree::traverse` and `getRayIntersectionParameters` (`:113-157`) and `RayTrace::brute_force_traverse` (`visualization/raytrace.cpp:186-212`). Numbers are reals.
-/

namespace Verif.RayTree

/-- A vector with three components. -/
abbrev V3 := Fin 3 → ℝ

/-- `Ray`, `visualization/raytracestructs.hpp:12-21`. -/
structure Ray where
  origin : V3
  orientation : V3

/-- `Sphere`, `visualization/raytracestructs.hpp:27-58`; the colour is left out. -/
structure Sphere where
  center : V3
  radius : ℝ

/-- A hit: the sphere, `distance_near` and `distance_far`. -/
structure Hit where
  sphere : Sphere
  near : ℝ
  far : ℝ

/-- `v`, `visualization/raytracestructs.cpp:50`: the distance along the ray to the point closest to the centre. -/
def Sphere.v (s : Sphere) (ray : Ray) : ℝ :=
  ray.orientation 0 * (s.center 0 - ray.origin 0) + ray.orientation 1 * (s.center 1 - ray.origin 1) + ray.orientation 2 * (s.center 2 - ray.origin 2)

/-- `d` before the root, `visualization/raytracestructs.cpp:54`. -/
def Sphere.d (s : Sphere) (ray : Ray) : ℝ :=
  s.radius ^ 2 - ((s.center 0 - ray.origin 0) ^ 2 + (s.center 1 - ray.origin 1) ^ 2 + (s.center 2 - ray.origin 2) ^ 2 - s.v ray ^ 2)

open Classical in
/-- `Sphere::intersect`, `visualization/raytracestructs.cpp:43-75`. The intersection point is that at `distance_near` on the ray. -/
noncomputable def Sphere.intersect (s : Sphere) (ray : Ray) (tmin : ℝ) : Option Hit :=
  if s.v ray ≤ 0 then none
  else if s.d ray < 0 then none
  else if s.v ray + Real.sqrt (s.d ray) < tmin then none
  else some ⟨s, s.v ray - Real.sqrt (s.d ray), s.v ray + Real.sqrt (s.d ray)⟩

/-- The tree, `visualization/raykdtree.hpp:8-47`: a node without children is a leaf with its `sphere_list`. -/
inductive Tree where
  | leaf (l : List Sphere)
  | node (dim : Fin 3) (split : ℝ) (lower higher : Tree)

open Classical in
/-- `RayKDTreeNode::insert`, `visualization/raykdtree.cpp:14-23`. -/
noncomputable def Tree.insert (s : Sphere) : Tree → Tree
  | .leaf l => .leaf (l ++ [s])
  | .node dim split lower higher =>
    .node dim split (if s.center dim - s.radius < split then lower.insert s else lower) (if split < s.center dim + s.radius then higher.insert s else higher)

/-- All spheres of a list are inserted, `visualization/raytrace.cpp:225-227`. -/
noncomputable def Tree.insertAll (t : Tree) (l : List Sphere) : Tree := l.foldl (fun t s => t.insert s) t

open Classical in
/-- One pass of the loop over the spheres of a leaf, `visualization/raykdtree.cpp:40-47`; `none` means that nothing was found and
`distance_near` is 10000. -/
noncomputable def leafStep (ray : Ray) (tmin : ℝ) (best : Option Hit) (s : Sphere) : Option Hit :=
  match s.intersect ray tmin with
  | none => best
  | some h => if h.near < (best.map Hit.near).getD 10000 then some h else best

/-- The search in a leaf, `visualization/raykdtree.cpp:33-50`. -/
noncomputable def leafSearch (ray : Ray) (tmin : ℝ) (l : List Sphere) : Option Hit := l.foldl (leafStep ray tmin) none

open Classical in
/-- `RayKDTreeNode::traverse`, `visualization/raykdtree.cpp:31-95`. -/
noncomputable def Tree.traverse (ray : Ray) (tmin tmax : ℝ) : Tree → Option Hit
  | .leaf l => leafSearch ray tmin l
  | .node dim split lower higher =>
    if ray.orientation dim ≠ 0 then
      if tmax < (split - ray.origin dim) / ray.orientation dim ∨ (split - ray.origin dim) / ray.orientation dim < tmin then
        if tmin * ray.orientation dim + ray.origin dim < split then lower.traverse ray tmin tmax else higher.traverse ray tmin tmax
      else if tmin * ray.orientation dim + ray.origin dim < split then
        (lower.traverse ray tmin tmax).or (higher.traverse ray tmin tmax)
      else (higher.traverse ray tmin tmax).or (lower.traverse ray tmin tmax)
    else if ray.origin dim < split then lower.traverse ray tmin tmax
    else higher.traverse ray tmin tmax

/-- A box, `Bounds`. -/
structure Box where
  min : V3
  max : V3

open Classical in
/-- One dimension of `getRayIntersectionParameters`, `visualization/raykdtree.cpp:133-148`. -/
noncomputable def slab (b : Box) (ray : Ray) (i : Fin 3) : Option (ℝ × ℝ) :=
  if ray.orientation i = 0 then
    if ray.origin i ≤ b.min i ∨ b.max i ≤ ray.origin i then none else some (0, 10000)
  else if 0 < ray.orientation i then
    some (max ((b.min i - ray.origin i) / ray.orientation i) 0, max ((b.max i - ray.origin i) / ray.orientation i) 0)
  else some (max ((b.max i - ray.origin i) / ray.orientation i) 0, max ((b.min i - ray.origin i) / ray.orientation i) 0)

open Classical in
/-- `getRayIntersectionParameters`, `visualization/raykdtree.cpp:130-157`. -/
noncomputable def boxRange (b : Box) (ray : Ray) : Option (ℝ × ℝ) :=
  (slab b ray 0).bind fun p => (slab b ray 1).bind fun q => (slab b ray 2).bind fun r =>
    if min (min p.2 q.2) r.2 ≤ max (max p.1 q.1) r.1 then none else some (max (max p.1 q.1) r.1, min (min p.2 q.2) r.2)

/-- `RayKDTree::traverse`, `visualization/raykdtree.cpp:113-128`, for a tree that was created. -/
noncomputable def treeTrace (b : Box) (t : Tree) (ray : Ray) : Option Hit := (boxRange b ray).bind fun p => t.traverse ray p.1 p.2

/-- The loop of `brute_force_traverse`, `visualization/raytrace.cpp:198-209`: the sphere found with its distance, and the variable `distance_far`, which every
tested sphere overwrites that the line of the ray meets (`visualization/raytracestructs.cpp:58-62`). -/
noncomputable def bruteStep (ray : Ray) (tmin : ℝ) (st : Option Hit × ℝ) (s : Sphere) : Option Hit × ℝ :=
  (leafStep ray tmin st.1 s,
    open Classical in if s.v ray ≤ 0 ∨ s.d ray < 0 then st.2 else s.v ray + Real.sqrt (s.d ray))

/-- `brute_force_traverse`, `visualization/raytrace.cpp:186-212`: the hit and `distance_far`. -/
noncomputable def bruteTrace (b : Box) (l : List Sphere) (ray : Ray) : Option (Option Hit × ℝ) :=
  (boxRange b ray).map fun p => l.foldl (bruteStep ray p.1) (none, 0)

/-! ## Specification -/

/-- The point at the distance `t` on the ray. -/
def Ray.at (ray : Ray) (t : ℝ) : V3 := fun i => ray.origin i + t * ray.orientation i

/-- The direction has the length one. -/
def Ray.Unit (ray : Ray) : Prop := ray.orientation 0 ^ 2 + ray.orientation 1 ^ 2 + ray.orientation 2 ^ 2 = 1

/-- The squared distance of two points. -/
def dist2 (x y : V3) : ℝ := (x 0 - y 0) ^ 2 + (x 1 - y 1) ^ 2 + (x 2 - y 2) ^ 2

/-- The point is outside of the sphere. -/
def Sphere.Outside (s : Sphere) (x : V3) : Prop := s.radius ^ 2 < dist2 x s.center

/-- The sphere is inside of the box. -/
def Sphere.InBox (s : Sphere) (b : Box) : Prop := ∀ i, b.min i ≤ s.center i - s.radius ∧ s.center i + s.radius ≤ b.max i

/-- No splitting plane of the tree cuts the sphere. -/
def Tree.Avoids (s : Sphere) : Tree → Prop
  | .leaf _ => True
  | .node dim split lower higher => ¬ (s.center dim - s.radius < split ∧ split < s.center dim + s.radius) ∧ lower.Avoids s ∧ higher.Avoids s

/-- There are no spheres in the tree. -/
def Tree.Empty : Tree → Prop
  | .leaf l => l = []
  | .node _ _ lower higher => lower.Empty ∧ higher.Empty

/-! ## One sphere -/

theorem dist_at (s : Sphere) (ray : Ray) (hu : ray.Unit) (t : ℝ) : dist2 (ray.at t) s.center = (t - s.v ray) ^ 2 + s.radius ^ 2 - s.d ray := by
  unfold Ray.Unit at hu
  simp only [dist2, Ray.at, Sphere.d]
  have : (t - s.v ray) ^ 2 = t ^ 2 * (ray.orientation 0 ^ 2 + ray.orientation 1 ^ 2 + ray.orientation 2 ^ 2) - 2 * t * s.v ray + s.v ray ^ 2 := by rw [hu]; ring
  rw [this]
  simp only [Sphere.v]
  ring

/-- The points of the ray in the closed ball. -/
theorem ball_iff (s : Sphere) (ray : Ray) (hu : ray.Unit) (t : ℝ) :
    dist2 (ray.at t) s.center ≤ s.radius ^ 2 ↔ 0 ≤ s.d ray ∧ s.v ray - Real.sqrt (s.d ray) ≤ t ∧ t ≤ s.v ray + Real.sqrt (s.d ray) := by
  rw [dist_at s ray hu]
  constructor
  · intro h
    have h0 : 0 ≤ s.d ray := by nlinarith [sq_nonneg (t - s.v ray)]
    have := Real.abs_le_sqrt (show (t - s.v ray) ^ 2 ≤ s.d ray by linarith)
    rw [abs_le] at this
    exact ⟨h0, by linarith, by linarith⟩
  · rintro ⟨h0, h1, h2⟩
    have : |t - s.v ray| ≤ Real.sqrt (s.d ray) := abs_le.mpr ⟨by linarith, by linarith⟩
    have := pow_le_pow_left₀ (abs_nonneg _) this 2
    rw [sq_abs, Real.sq_sqrt h0] at this
    linarith

/-- The points of the ray in the open ball. -/
theorem open_ball {s : Sphere} {ray : Ray} (hu : ray.Unit) {t : ℝ} (h1 : s.v ray - Real.sqrt (s.d ray) < t) (h2 : t < s.v ray + Real.sqrt (s.d ray)) :
    dist2 (ray.at t) s.center < s.radius ^ 2 := by
  rw [dist_at s ray hu]
  have hp : 0 < Real.sqrt (s.d ray) := by linarith
  have h0 : 0 < s.d ray := Real.sqrt_pos.mp hp
  have : |t - s.v ray| < Real.sqrt (s.d ray) := abs_lt.mpr ⟨by linarith, by linarith⟩
  have := pow_lt_pow_left₀ this (abs_nonneg _) (two_ne_zero)
  rw [sq_abs, Real.sq_sqrt h0.le] at this
  linarith

theorem intersect_some {s : Sphere} {ray : Ray} {tmin : ℝ} {h : Hit} (e : s.intersect ray tmin = some h) :
    0 < s.v ray ∧ 0 ≤ s.d ray ∧ tmin ≤ h.far ∧ h = ⟨s, s.v ray - Real.sqrt (s.d ray), s.v ray + Real.sqrt (s.d ray)⟩ := by
  simp only [Sphere.intersect] at e
  split_ifs at e with h1 h2 h3
  obtain rfl := Option.some.inj e
  exact ⟨not_le.mp h1, not_lt.mp h2, not_lt.mp h3, rfl⟩

/-- Every point of a hit sphere on the ray lies between near and far. -/
theorem coord_le {s : Sphere} {x : V3} (hr : 0 ≤ s.radius) (h : dist2 x s.center ≤ s.radius ^ 2) (i : Fin 3) :
    s.center i - s.radius ≤ x i ∧ x i ≤ s.center i + s.radius := by
  have key : (x i - s.center i) ^ 2 ≤ s.radius ^ 2 := by
    unfold dist2 at h
    fin_cases i
    · simp only [Fin.zero_eta]; nlinarith [sq_nonneg (x 1 - s.center 1), sq_nonneg (x 2 - s.center 2)]
    · simp only [Fin.mk_one]; nlinarith [sq_nonneg (x 0 - s.center 0), sq_nonneg (x 2 - s.center 2)]
    · simp only [Fin.reduceFinMk]; nlinarith [sq_nonneg (x 0 - s.center 0), sq_nonneg (x 1 - s.center 1)]
  have := abs_le_of_sq_le_sq key hr
  rw [abs_le] at this
  constructor <;> linarith [this.1, this.2]

theorem coord_lt {s : Sphere} {x : V3} (hr : 0 ≤ s.radius) (h : dist2 x s.center < s.radius ^ 2) (i : Fin 3) :
    s.center i - s.radius < x i ∧ x i < s.center i + s.radius := by
  have key : (x i - s.center i) ^ 2 < s.radius ^ 2 := by
    unfold dist2 at h
    fin_cases i
    · simp only [Fin.zero_eta]; nlinarith [sq_nonneg (x 1 - s.center 1), sq_nonneg (x 2 - s.center 2)]
    · simp only [Fin.mk_one]; nlinarith [sq_nonneg (x 0 - s.center 0), sq_nonneg (x 2 - s.center 2)]
    · simp only [Fin.reduceFinMk]; nlinarith [sq_nonneg (x 0 - s.center 0), sq_nonneg (x 1 - s.center 1)]
  have := abs_lt_of_sq_lt_sq key hr
  rw [abs_lt] at this
  constructor <;> linarith [this.1, this.2]

/-- C106 (partial), one sphere. For a ray of unit direction that starts outside of a sphere: a hit is reported exactly if a point of the ray beyond `tmin` is in
the ball; then the points of the ray in the ball are those between the two distances, which are positive, and the point at the nearer one lies on the sphere.
Missing: a ray that starts inside of a sphere (`C106_negation_inside`). -/
theorem C106_sphere_partial (s : Sphere) (ray : Ray) (hu : ray.Unit) (hout : s.Outside ray.origin) (tmin : ℝ) (h0 : 0 ≤ tmin) :
    ((∃ t, tmin ≤ t ∧ dist2 (ray.at t) s.center ≤ s.radius ^ 2) ↔ (s.intersect ray tmin).isSome) ∧
    ∀ h, s.intersect ray tmin = some h →
      h.sphere = s ∧ 0 < h.near ∧ h.near ≤ h.far ∧ (∀ t, dist2 (ray.at t) s.center ≤ s.radius ^ 2 ↔ h.near ≤ t ∧ t ≤ h.far) ∧
      dist2 (ray.at h.near) s.center = s.radius ^ 2 := by
  have hd0 : s.d ray < s.v ray ^ 2 := by
    have := dist_at s ray hu 0
    have e : ray.at 0 = ray.origin := by funext i; simp [Ray.at]
    rw [e] at this
    unfold Sphere.Outside at hout
    nlinarith
  refine ⟨⟨?_, ?_⟩, ?_⟩
  · rintro ⟨t, ht, hb⟩
    obtain ⟨a, b, c⟩ := (ball_iff s ray hu t).mp hb
    have hsq := Real.sqrt_nonneg (s.d ray)
    have hv : 0 < s.v ray := by
      by_contra hv
      push Not at hv
      have := pow_le_pow_left₀ (show 0 ≤ -s.v ray by linarith) (show -s.v ray ≤ Real.sqrt (s.d ray) by linarith) 2
      rw [Real.sq_sqrt a, neg_sq] at this
      linarith
    simp only [Sphere.intersect, if_neg (not_le.mpr hv), if_neg (not_lt.mpr a), if_neg (show ¬ s.v ray + Real.sqrt (s.d ray) < tmin by linarith), Option.isSome_some]
  · intro hs
    obtain ⟨h, e⟩ := Option.isSome_iff_exists.mp hs
    obtain ⟨a, b, c, rfl⟩ := intersect_some e
    have hsq := Real.sqrt_nonneg (s.d ray)
    exact ⟨_, c, (ball_iff s ray hu _).mpr ⟨b, by simp only; linarith, le_refl _⟩⟩
  · intro h e
    obtain ⟨a, b, c, rfl⟩ := intersect_some e
    have hsq := Real.sqrt_nonneg (s.d ray)
    refine ⟨rfl, ?_, by simp only; linarith, fun t => ?_, ?_⟩
    · have := Real.sqrt_lt_sqrt b hd0
      rw [Real.sqrt_sq a.le] at this
      simp only; linarith
    · rw [ball_iff s ray hu]; simp only [b, true_and]
    · rw [dist_at s ray hu]
      simp only
      have : (s.v ray - Real.sqrt (s.d ray) - s.v ray) ^ 2 = s.d ray := by
        rw [show s.v ray - Real.sqrt (s.d ray) - s.v ray = -Real.sqrt (s.d ray) by ring, neg_sq, Real.sq_sqrt b]
      rw [this]; ring

/-- A ray that starts three units in front of a ball of radius one. -/
example : (⟨![0, 0, 0], ![1, 0, 0]⟩ : Ray).Unit ∧ (⟨![3, 0, 0], 1⟩ : Sphere).Outside ![0, 0, 0] := by
  constructor
  · simp [Ray.Unit]
  · simp [Sphere.Outside, dist2]

/-- C106, negation: a ray that starts inside of a sphere beyond its middle does not see it. -/
theorem C106_negation_inside : ∃ (s : Sphere) (ray : Ray), ray.Unit ∧ dist2 (ray.at 0) s.center < s.radius ^ 2 ∧ s.intersect ray 0 = none := by
  refine ⟨⟨![0, 0, 0], 1⟩, ⟨![1/2, 0, 0], ![1, 0, 0]⟩, by simp [Ray.Unit], by simp [dist2, Ray.at]; norm_num, ?_⟩
  have : (⟨![0, 0, 0], 1⟩ : Sphere).v ⟨![1/2, 0, 0], ![1, 0, 0]⟩ ≤ 0 := by simp [Sphere.v]
  simp only [Sphere.intersect, if_pos this]

/-! ## Leaves -/

/-- What the loop over a list of spheres yields: a hit of one of them that is at least as near as all others below 10000. -/
theorem leaf_fold (ray : Ray) (tmin : ℝ) (l : List Sphere) (best : Option Hit) (hb : ∀ h, best = some h → h.near < 10000) :
    (∀ h, l.foldl (leafStep ray tmin) best = some h → h.near < 10000 ∧ (best = some h ∨ ∃ s ∈ l, s.intersect ray tmin = some h)) ∧
    (∀ h, best = some h → ∃ h', l.foldl (leafStep ray tmin) best = some h' ∧ h'.near ≤ h.near) ∧
    (∀ s ∈ l, ∀ h, s.intersect ray tmin = some h → h.near < 10000 → ∃ h', l.foldl (leafStep ray tmin) best = some h' ∧ h'.near ≤ h.near) := by
  induction l generalizing best with
  | nil => exact ⟨fun h e => ⟨hb h e, Or.inl e⟩, fun h e => ⟨h, e, le_refl _⟩, fun s hs => by simp at hs⟩
  | cons a l ih =>
    rw [List.foldl_cons]
    have hb' : ∀ h, leafStep ray tmin best a = some h → h.near < 10000 := by
      intro h e
      unfold leafStep at e
      cases ea : a.intersect ray tmin with
      | none => rw [ea] at e; exact hb h e
      | some g =>
        rw [ea] at e
        simp only at e
        split_ifs at e with hg
        · obtain rfl := Option.some.inj e
          cases hbe : best with
          | none => rw [hbe] at hg; simpa using hg
          | some b => rw [hbe] at hg; simp only [Option.map_some, Option.getD_some] at hg; exact lt_trans hg (hb b hbe)
        · exact hb h e
    obtain ⟨i1, i2, i3⟩ := ih _ hb'
    refine ⟨fun h e => ?_, fun h e => ?_, fun s hs h e hn => ?_⟩
    · obtain ⟨k1, k2⟩ := i1 h e
      refine ⟨k1, ?_⟩
      rcases k2 with k2 | ⟨s, hs, k2⟩
      · unfold leafStep at k2
        cases ea : a.intersect ray tmin with
        | none => rw [ea] at k2; exact Or.inl k2
        | some g =>
          rw [ea] at k2
          simp only at k2
          split_ifs at k2
          · exact Or.inr ⟨a, by simp, by rw [ea, k2]⟩
          · exact Or.inl k2
      · exact Or.inr ⟨s, List.mem_cons_of_mem _ hs, k2⟩
    · have : ∃ h', leafStep ray tmin best a = some h' ∧ h'.near ≤ h.near := by
        unfold leafStep
        cases ea : a.intersect ray tmin with
        | none => exact ⟨h, e, le_refl _⟩
        | some g =>
          simp only [e, Option.map_some, Option.getD_some]
          split_ifs with hg
          · exact ⟨g, rfl, hg.le⟩
          · exact ⟨h, rfl, le_refl _⟩
      obtain ⟨h', e', l'⟩ := this
      obtain ⟨h'', e'', l''⟩ := i2 h' e'
      exact ⟨h'', e'', l''.trans l'⟩
    · rcases List.mem_cons.mp hs with rfl | hs
      · have : ∃ h', leafStep ray tmin best s = some h' ∧ h'.near ≤ h.near := by
          unfold leafStep
          simp only [e]
          split_ifs with hg
          · exact ⟨h, rfl, le_refl _⟩
          · cases hbe : best with
            | none => rw [hbe] at hg; simp only [Option.map_none, Option.getD_none] at hg; exact absurd hn hg
            | some b => rw [hbe] at hg; simp only [Option.map_some, Option.getD_some] at hg; exact ⟨b, rfl, not_lt.mp hg⟩
        obtain ⟨h', e', l'⟩ := this
        obtain ⟨h'', e'', l''⟩ := i2 h' e'
        exact ⟨h'', e'', l''.trans l'⟩
      · exact i3 s hs h e hn

/-- The spheres of a tree, with repetitions. -/
def Tree.spheres : Tree → List Sphere
  | .leaf l => l
  | .node _ _ lower higher => lower.spheres ++ higher.spheres

theorem spheres_insert {t : Tree} {s x : Sphere} (h : x ∈ (t.insert s).spheres) : x = s ∨ x ∈ t.spheres := by
  induction t with
  | leaf l => simp only [Tree.insert, Tree.spheres, List.mem_append, List.mem_singleton] at h ⊢; tauto
  | node d p a b iha ihb =>
    simp only [Tree.insert, Tree.spheres, List.mem_append] at h ⊢
    split_ifs at h <;> tauto

theorem spheres_insertAll {t : Tree} {l : List Sphere} {x : Sphere} (h : x ∈ (t.insertAll l).spheres) : x ∈ l ∨ x ∈ t.spheres := by
  induction l generalizing t with
  | nil => exact Or.inr h
  | cons s l ih =>
    simp only [Tree.insertAll, List.foldl_cons] at h
    rcases ih h with h | h
    · exact Or.inl (List.mem_cons_of_mem _ h)
    · rcases spheres_insert h with rfl | h
      · exact Or.inl (by simp)
      · exact Or.inr h

theorem spheres_empty {t : Tree} (h : t.Empty) : t.spheres = [] := by
  induction t with
  | leaf l => exact h
  | node d p a b iha ihb => simp only [Tree.spheres, iha h.1, ihb h.2, List.append_nil]

open Classical in
/-- The leaf of a point. -/
noncomputable def Tree.leafAt (x : V3) : Tree → List Sphere
  | .leaf l => l
  | .node dim split lower higher => if x dim < split then lower.leafAt x else higher.leafAt x

theorem leafAt_mono {t : Tree} {x : V3} {s y : Sphere} (h : y ∈ t.leafAt x) : y ∈ (t.insert s).leafAt x := by
  induction t with
  | leaf l => simp only [Tree.insert, Tree.leafAt, List.mem_append] at h ⊢; exact Or.inl h
  | node d p a b iha ihb =>
    simp only [Tree.insert, Tree.leafAt] at h ⊢
    split_ifs at h ⊢ <;> first | exact iha h | exact ihb h | exact h

theorem leafAt_insert {t : Tree} {x : V3} {s : Sphere} (hr : 0 ≤ s.radius) (h : dist2 x s.center < s.radius ^ 2) : s ∈ (t.insert s).leafAt x := by
  induction t with
  | leaf l => simp [Tree.insert, Tree.leafAt]
  | node d p a b iha ihb =>
    have hc := coord_lt hr h d
    simp only [Tree.insert, Tree.leafAt]
    by_cases hx : x d < p
    · rw [if_pos hx, if_pos (by linarith)]; exact iha
    · rw [if_neg hx, if_pos (by linarith)]; exact ihb

theorem leafAt_insertAll {t : Tree} {l : List Sphere} {x : V3} {s : Sphere} (hs : s ∈ l) (hr : 0 ≤ s.radius) (h : dist2 x s.center < s.radius ^ 2) :
    s ∈ (t.insertAll l).leafAt x := by
  have mono : ∀ (l : List Sphere) (t : Tree), s ∈ t.leafAt x → s ∈ (t.insertAll l).leafAt x := by
    intro l
    induction l with
    | nil => intro t h; exact h
    | cons a l ih => intro t h; exact ih _ (leafAt_mono h)
  induction l generalizing t with
  | nil => simp at hs
  | cons a l ih =>
    rcases List.mem_cons.mp hs with rfl | hs
    · exact mono l _ (leafAt_insert hr h)
    · exact ih hs

/-! ## The traversal -/

theorem traverse_sound {ray : Ray} {tmin tmax : ℝ} {t : Tree} {h : Hit} (e : t.traverse ray tmin tmax = some h) :
    ∃ s ∈ t.spheres, s.intersect ray tmin = some h ∧ h.near < 10000 := by
  induction t generalizing h with
  | leaf l =>
    obtain ⟨a, b⟩ := (leaf_fold ray tmin l none (by simp)).1 h e
    rcases b with b | ⟨s, hs, b⟩
    · simp at b
    · exact ⟨s, hs, b, a⟩
  | node d p a b iha ihb =>
    simp only [Tree.traverse] at e
    have la : ∀ h, a.traverse ray tmin tmax = some h → ∃ s ∈ (Tree.node d p a b).spheres, s.intersect ray tmin = some h ∧ h.near < 10000 := by
      intro h e
      obtain ⟨s, hs, h1⟩ := iha e
      exact ⟨s, List.mem_append_left _ hs, h1⟩
    have lb : ∀ h, b.traverse ray tmin tmax = some h → ∃ s ∈ (Tree.node d p a b).spheres, s.intersect ray tmin = some h ∧ h.near < 10000 := by
      intro h e
      obtain ⟨s, hs, h1⟩ := ihb e
      exact ⟨s, List.mem_append_right _ hs, h1⟩
    split_ifs at e
    · exact la h e
    · exact lb h e
    · rcases Option.or_eq_some_iff.mp e with e | ⟨_, e⟩
      · exact la h e
      · exact lb h e
    · rcases Option.or_eq_some_iff.mp e with e | ⟨_, e⟩
      · exact lb h e
      · exact la h e
    · exact la h e
    · exact lb h e

/-- If nothing is found, then nothing is found in the leaf of any point of the ray in the range. -/
theorem traverse_none {ray : Ray} {tmin tmax : ℝ} {t : Tree} (e : t.traverse ray tmin tmax = none) {t0 : ℝ} (h1 : tmin ≤ t0) (h2 : t0 ≤ tmax) :
    leafSearch ray tmin (t.leafAt (ray.at t0)) = none := by
  induction t with
  | leaf l => exact e
  | node d p a b iha ihb =>
    simp only [Tree.traverse] at e
    simp only [Tree.leafAt]
    have hat : ray.at t0 d = ray.origin d + t0 * ray.orientation d := rfl
    by_cases hv : ray.orientation d ≠ 0
    · rw [if_pos hv] at e
      have key : ∀ t, ray.origin d + t * ray.orientation d - p = ray.orientation d * (t - (p - ray.origin d) / ray.orientation d) := by
        intro t; field_simp; ring
      by_cases hout : tmax < (p - ray.origin d) / ray.orientation d ∨ (p - ray.origin d) / ray.orientation d < tmin
      · rw [if_pos hout] at e
        have same : (ray.origin d + t0 * ray.orientation d < p) ↔ (tmin * ray.orientation d + ray.origin d < p) := by
          have k1 := key t0
          have k2 := key tmin
          set q := (p - ray.origin d) / ray.orientation d with hq
          have hpos : 0 < (t0 - q) * (tmin - q) := by
            rcases hout with h | h
            · exact mul_pos_of_neg_of_neg (by linarith) (by linarith)
            · exact mul_pos (by linarith) (by linarith)
          have hv2 : 0 < ray.orientation d ^ 2 := by positivity
          have hprod : 0 < (ray.origin d + t0 * ray.orientation d - p) * (ray.origin d + tmin * ray.orientation d - p) := by
            rw [k1, k2]
            have : ray.orientation d * (t0 - q) * (ray.orientation d * (tmin - q)) = ray.orientation d ^ 2 * ((t0 - q) * (tmin - q)) := by ring
            rw [this]; exact mul_pos hv2 hpos
          constructor
          · intro h
            by_contra hc
            push Not at hc
            have : (ray.origin d + t0 * ray.orientation d - p) * (ray.origin d + tmin * ray.orientation d - p) ≤ 0 :=
              mul_nonpos_of_nonpos_of_nonneg (by linarith) (by linarith)
            linarith
          · intro h
            by_contra hc
            push Not at hc
            have : (ray.origin d + t0 * ray.orientation d - p) * (ray.origin d + tmin * ray.orientation d - p) ≤ 0 :=
              mul_nonpos_of_nonneg_of_nonpos (by linarith) (by linarith)
            linarith
        by_cases hx : tmin * ray.orientation d + ray.origin d < p
        · rw [if_pos hx] at e; rw [if_pos (hat ▸ same.mpr hx)]; exact iha e
        · rw [if_neg hx] at e; rw [if_neg (fun h => hx (same.mp (hat ▸ h)))]; exact ihb e
      · rw [if_neg hout] at e
        have both : a.traverse ray tmin tmax = none ∧ b.traverse ray tmin tmax = none := by
          split_ifs at e
          · exact Option.or_eq_none_iff.mp e
          · exact (Option.or_eq_none_iff.mp e).symm
        split_ifs
        · exact iha both.1
        · exact ihb both.2
    · rw [if_neg hv] at e
      push Not at hv
      rw [hv, mul_zero, add_zero] at hat
      by_cases hx : ray.origin d < p
      · rw [if_pos hx] at e; rw [if_pos (show ray.at t0 d < p by rw [hat]; exact hx)]; exact iha e
      · rw [if_neg hx] at e; rw [if_neg (show ¬ ray.at t0 d < p by rw [hat]; exact hx)]; exact ihb e

/-- C106, the tree. For any splitting of space: what the tree reports is a sphere of the scene that the ray hits according to the test of single spheres; and if the
interior of a sphere that passes this test (nearer than 10000) meets the ray inside of the range of the scene box, then the tree reports a sphere. -/
theorem C106_tree_finds (t : Tree) (ht : t.Empty) (l : List Sphere) (hl : ∀ s ∈ l, 0 ≤ s.radius) (ray : Ray) (tmin tmax : ℝ) :
    (∀ h, (t.insertAll l).traverse ray tmin tmax = some h → h.sphere ∈ l ∧ h.sphere.intersect ray tmin = some h ∧ h.near < 10000) ∧
    (∀ s ∈ l, ∀ h, s.intersect ray tmin = some h → h.near < 10000 →
      (∃ t0, tmin ≤ t0 ∧ t0 ≤ tmax ∧ dist2 (ray.at t0) s.center < s.radius ^ 2) → ((t.insertAll l).traverse ray tmin tmax).isSome) := by
  refine ⟨fun h e => ?_, fun s hs h e hn ⟨t0, h1, h2, h3⟩ => ?_⟩
  · obtain ⟨s, hs, a, b⟩ := traverse_sound e
    rcases spheres_insertAll hs with hs | hs
    · obtain ⟨_, _, _, rfl⟩ := intersect_some a
      exact ⟨hs, a, b⟩
    · rw [spheres_empty ht] at hs; simp at hs
  · by_contra hc
    rw [Option.not_isSome_iff_eq_none] at hc
    have hnone := traverse_none hc h1 h2
    obtain ⟨h', e', _⟩ := (leaf_fold ray tmin _ none (by simp)).2.2 s (leafAt_insertAll (t := t) hs (hl s hs) h3) h e hn
    rw [leafSearch] at hnone
    rw [hnone] at e'
    simp at e'

/-! ## Spheres that no plane cuts -/

/-- The spheres below a node are on their side of the plane. -/
def Tree.Separated : Tree → Prop
  | .leaf _ => True
  | .node dim split lower higher => (∀ s ∈ lower.spheres, s.center dim + s.radius ≤ split) ∧ (∀ s ∈ higher.spheres, split ≤ s.center dim - s.radius) ∧
      lower.Separated ∧ higher.Separated

theorem insert_separated {t : Tree} {s : Sphere} (h : t.Separated) (ha : t.Avoids s) : (t.insert s).Separated := by
  induction t with
  | leaf l => trivial
  | node d p a b iha ihb =>
    obtain ⟨h1, h2, h3, h4⟩ := h
    obtain ⟨k1, k2, k3⟩ := ha
    simp only [Tree.insert]
    refine ⟨?_, ?_, ?_, ?_⟩
    · intro x hx
      split_ifs at hx with hc
      · rcases spheres_insert hx with rfl | hx
        · exact not_lt.mp fun hl => k1 ⟨hc, hl⟩
        · exact h1 x hx
      · exact h1 x hx
    · intro x hx
      split_ifs at hx with hc
      · rcases spheres_insert hx with rfl | hx
        · exact not_lt.mp fun hl => k1 ⟨hl, hc⟩
        · exact h2 x hx
      · exact h2 x hx
    · split_ifs
      · exact iha h3 k2
      · exact h3
    · split_ifs
      · exact ihb h4 k3
      · exact h4

theorem avoids_insert {t : Tree} {s x : Sphere} (h : t.Avoids x) : (t.insert s).Avoids x := by
  induction t with
  | leaf l => trivial
  | node d p a b iha ihb =>
    simp only [Tree.insert, Tree.Avoids]
    refine ⟨h.1, ?_, ?_⟩
    · split_ifs
      · exact iha h.2.1
      · exact h.2.1
    · split_ifs
      · exact ihb h.2.2
      · exact h.2.2

theorem insertAll_separated {t : Tree} {l : List Sphere} (h : t.Separated) (ha : ∀ s ∈ l, t.Avoids s) : (t.insertAll l).Separated := by
  induction l generalizing t with
  | nil => exact h
  | cons s l ih => exact ih (insert_separated h (ha s (by simp))) (fun x hx => avoids_insert (ha x (List.mem_cons_of_mem _ hx)))

theorem empty_separated {t : Tree} (h : t.Empty) : t.Separated := by
  induction t with
  | leaf l => trivial
  | node d p a b iha ihb =>
    exact ⟨by rw [spheres_empty h.1]; simp, by rw [spheres_empty h.2]; simp, iha h.1, ihb h.2⟩

theorem leafAt_sub {t : Tree} {x : V3} {s : Sphere} (h : s ∈ t.leafAt x) : s ∈ t.spheres := by
  induction t with
  | leaf l => exact h
  | node d p a b iha ihb =>
    simp only [Tree.leafAt] at h
    split_ifs at h
    · exact List.mem_append_left _ (iha h)
    · exact List.mem_append_right _ (ihb h)

/-- In a separated tree the first hit is found. -/
theorem traverse_nearest {ray : Ray} (hu : ray.Unit) {tmin tmax : ℝ} {t : Tree} (hs : t.Separated) (hr : ∀ s ∈ t.spheres, 0 ≤ s.radius)
    (hrange : ∀ s ∈ t.spheres, ∀ h, s.intersect ray tmin = some h → tmin ≤ h.near ∧ h.far ≤ tmax)
    {s : Sphere} (hm : s ∈ t.spheres) {h : Hit} (e : s.intersect ray tmin = some h) (hn : h.near < 10000) (hlt : h.near < h.far) :
    ∃ h', t.traverse ray tmin tmax = some h' ∧ h'.near ≤ h.near := by
  induction t with
  | leaf l => exact (leaf_fold ray tmin l none (by simp)).2.2 s hm h e hn
  | node d p a b iha ihb =>
    obtain ⟨s1, s2, s3, s4⟩ := hs
    have ra : ∀ s ∈ a.spheres, 0 ≤ s.radius := fun s h => hr s (List.mem_append_left _ h)
    have rb : ∀ s ∈ b.spheres, 0 ≤ s.radius := fun s h => hr s (List.mem_append_right _ h)
    have ga : ∀ s ∈ a.spheres, ∀ h, s.intersect ray tmin = some h → tmin ≤ h.near ∧ h.far ≤ tmax := fun s h => hrange s (List.mem_append_left _ h)
    have gb : ∀ s ∈ b.spheres, ∀ h, s.intersect ray tmin = some h → tmin ≤ h.near ∧ h.far ≤ tmax := fun s h => hrange s (List.mem_append_right _ h)
    have iha' := fun hm => iha s3 ra ga hm
    have ihb' := fun hm => ihb s4 rb gb hm
    -- coordinates of the points of a hit
    have ca : ∀ s ∈ a.spheres, ∀ h, s.intersect ray tmin = some h → ∀ t, h.near ≤ t → t ≤ h.far → ray.origin d + t * ray.orientation d ≤ p := by
      intro s hs h e t h1 h2
      obtain ⟨_, q0, _, rfl⟩ := intersect_some e
      exact (coord_le (ra s hs) ((ball_iff s ray hu t).mpr ⟨q0, h1, h2⟩) d).2.trans (s1 s hs)
    have cb : ∀ s ∈ b.spheres, ∀ h, s.intersect ray tmin = some h → ∀ t, h.near ≤ t → t ≤ h.far → p ≤ ray.origin d + t * ray.orientation d := by
      intro s hs h e t h1 h2
      obtain ⟨_, q0, _, rfl⟩ := intersect_some e
      exact (s2 s hs).trans (coord_le (rb s hs) ((ball_iff s ray hu t).mpr ⟨q0, h1, h2⟩) d).1
    have nf : ∀ s : Sphere, ∀ h, s.intersect ray tmin = some h → h.near ≤ h.far := by
      intro s h e
      obtain ⟨_, q0, _, rfl⟩ := intersect_some e
      have := Real.sqrt_nonneg (s.d ray)
      simp only; linarith
    have hmid : h.near < (h.near + h.far) / 2 ∧ (h.near + h.far) / 2 < h.far := ⟨by linarith, by linarith⟩
    have hst : ∀ (r : ℝ), 0 ≤ s.radius → dist2 (ray.at ((h.near + h.far) / 2)) s.center < s.radius ^ 2 := by
      intro _ _
      obtain ⟨_, q0, _, rfl⟩ := intersect_some e
      exact open_ball hu hmid.1 hmid.2
    have hrg := hrange s hm h e
    simp only [Tree.traverse]
    have hm' : s ∈ a.spheres ∨ s ∈ b.spheres := List.mem_append.mp hm
    by_cases hv : ray.orientation d ≠ 0
    · rw [if_pos hv]
      have key : ∀ t, ray.origin d + t * ray.orientation d - p = ray.orientation d * (t - (p - ray.origin d) / ray.orientation d) := by
        intro t; field_simp; ring
      set q := (p - ray.origin d) / ray.orientation d with hq
      have kn := key h.near
      have kf := key h.far
      have kt := key tmin
      by_cases hout : tmax < q ∨ q < tmin
      · rw [if_pos hout]
        rcases hm' with hm' | hm'
        · have c1 := ca s hm' h e h.near (le_refl _) hlt.le
          have hx : tmin * ray.orientation d + ray.origin d < p := by
            rcases hout with ho | ho
            · have hneg : h.near - q < 0 := by linarith
              have hvp : 0 < ray.orientation d := by
                rcases lt_or_gt_of_ne hv with hv' | hv'
                · have := mul_pos_of_neg_of_neg hv' hneg; linarith
                · exact hv'
              have := mul_neg_of_pos_of_neg hvp (show tmin - q < 0 by linarith)
              linarith
            · have hpos : 0 < h.near - q := by linarith
              have hvn : ray.orientation d < 0 := by
                rcases lt_or_gt_of_ne hv with hv' | hv'
                · exact hv'
                · have := mul_pos hv' hpos; linarith
              have := mul_neg_of_neg_of_pos hvn (show 0 < tmin - q by linarith)
              linarith
          rw [if_pos hx]; exact iha' hm'
        · have c1 := cb s hm' h e h.near (le_refl _) hlt.le
          have hx : ¬ tmin * ray.orientation d + ray.origin d < p := by
            rcases hout with ho | ho
            · have hneg : h.near - q < 0 := by linarith
              have hvn : ray.orientation d < 0 := by
                rcases lt_or_gt_of_ne hv with hv' | hv'
                · exact hv'
                · have := mul_neg_of_pos_of_neg hv' hneg; linarith
              have := mul_pos_of_neg_of_neg hvn (show tmin - q < 0 by linarith)
              linarith
            · have hpos : 0 < h.near - q := by linarith
              have hvp : 0 < ray.orientation d := by
                rcases lt_or_gt_of_ne hv with hv' | hv'
                · have := mul_neg_of_neg_of_pos hv' hpos; linarith
                · exact hv'
              have := mul_pos hvp (show 0 < tmin - q by linarith)
              linarith
          rw [if_neg hx]; exact ihb' hm'
      · rw [if_neg hout]
        push Not at hout
        by_cases hx : tmin * ray.orientation d + ray.origin d < p
        · rw [if_pos hx]
          have hvp : 0 < ray.orientation d := by
            rcases lt_or_gt_of_ne hv with hv' | hv'
            · have := mul_nonneg_of_nonpos_of_nonpos hv'.le (show tmin - q ≤ 0 by linarith [hout.2]); linarith
            · exact hv'
          rcases hm' with hm' | hm'
          · obtain ⟨h', e', l'⟩ := iha' hm'
            exact ⟨h', by rw [e']; rfl, l'⟩
          · cases ea : a.traverse ray tmin tmax with
            | none => obtain ⟨h', e', l'⟩ := ihb' hm'; exact ⟨h', by rw [e']; rfl, l'⟩
            | some g =>
              obtain ⟨s', hs', es', _⟩ := traverse_sound ea
              refine ⟨g, rfl, ?_⟩
              have c1 := ca s' hs' g es' g.near (le_refl _) (nf s' g es')
              have c2 := cb s hm' h e h.near (le_refl _) hlt.le
              have kg := key g.near
              have := le_of_mul_le_mul_left (show ray.orientation d * (g.near - q) ≤ ray.orientation d * (h.near - q) by linarith) hvp
              linarith
        · rw [if_neg hx]
          push Not at hx
          rcases lt_or_gt_of_ne hv with hv' | hv'
          · rcases hm' with hm' | hm'
            · cases eb : b.traverse ray tmin tmax with
              | none => obtain ⟨h', e', l'⟩ := iha' hm'; exact ⟨h', by rw [e']; rfl, l'⟩
              | some g =>
                obtain ⟨s', hs', es', _⟩ := traverse_sound eb
                refine ⟨g, rfl, ?_⟩
                have c1 := cb s' hs' g es' g.near (le_refl _) (nf s' g es')
                have c2 := ca s hm' h e h.near (le_refl _) hlt.le
                have kg := key g.near
                have := le_of_mul_le_mul_left (show (-ray.orientation d) * (g.near - q) ≤ (-ray.orientation d) * (h.near - q) by linarith) (by linarith)
                linarith
            · obtain ⟨h', e', l'⟩ := ihb' hm'
              exact ⟨h', by rw [e']; rfl, l'⟩
          · -- the ray starts on the plane and goes up
            rcases hm' with hm' | hm'
            · exfalso
              have c2 := ca s hm' h e h.far hlt.le (le_refl _)
              have hpos : 0 < h.far - q := by
                have := nonneg_of_mul_nonneg_right (show 0 ≤ ray.orientation d * (tmin - q) by linarith) hv'
                linarith
              have := mul_pos hv' hpos
              linarith
            · obtain ⟨h', e', l'⟩ := ihb' hm'
              exact ⟨h', by rw [e']; rfl, l'⟩
    · rw [if_neg hv]
      push Not at hv
      have hrs := hr s hm
      have hin := coord_lt hrs (hst 0 hrs) d
      simp only [Ray.at, hv, mul_zero, add_zero] at hin
      rcases hm' with hm' | hm'
      · have := s1 s hm'
        rw [if_pos (by linarith)]; exact iha' hm'
      · have := s2 s hm'
        rw [if_neg (by linarith)]; exact ihb' hm'

/-! ## The box -/

/-- The point is inside of the box, not on its surface. -/
def Box.Inside (b : Box) (x : V3) : Prop := ∀ i, b.min i < x i ∧ x i < b.max i

/-- The point is in the box or on its surface. -/
def Box.Closed (b : Box) (x : V3) : Prop := ∀ i, b.min i ≤ x i ∧ x i ≤ b.max i

theorem slab_inside {b : Box} {ray : Ray} {t : ℝ} (h0 : 0 < t) (h1 : t < 10000) {i : Fin 3} (h : b.min i < ray.at t i ∧ ray.at t i < b.max i) :
    ∃ p, slab b ray i = some p ∧ p.1 < t ∧ t < p.2 := by
  have hat : ray.at t i = ray.origin i + t * ray.orientation i := rfl
  rw [hat] at h
  unfold slab
  by_cases hz : ray.orientation i = 0
  · rw [if_pos hz]
    rw [hz, mul_zero, add_zero] at h
    rw [if_neg (by push Not; exact h)]
    exact ⟨_, rfl, h0, h1⟩
  · rw [if_neg hz]
    by_cases hp : 0 < ray.orientation i
    · rw [if_pos hp]
      refine ⟨_, rfl, max_lt ?_ h0, lt_max_of_lt_left ?_⟩
      · rw [div_lt_iff₀ hp]; linarith [h.1]
      · rw [lt_div_iff₀ hp]; linarith [h.2]
    · rw [if_neg hp]
      have hn : ray.orientation i < 0 := lt_of_le_of_ne (not_lt.mp hp) hz
      refine ⟨_, rfl, max_lt ?_ h0, lt_max_of_lt_left ?_⟩
      · rw [div_lt_iff_of_neg hn]; linarith [h.2]
      · rw [lt_div_iff_of_neg hn]; linarith [h.1]

theorem slab_closed {b : Box} {ray : Ray} {t : ℝ} (h0 : 0 ≤ t) (h1 : t ≤ 10000) {i : Fin 3} (h : b.min i ≤ ray.at t i ∧ ray.at t i ≤ b.max i)
    {p : ℝ × ℝ} (e : slab b ray i = some p) : p.1 ≤ t ∧ t ≤ p.2 := by
  have hat : ray.at t i = ray.origin i + t * ray.orientation i := rfl
  rw [hat] at h
  unfold slab at e
  split_ifs at e with hz hq hp
  · obtain rfl := Option.some.inj e; exact ⟨h0, h1⟩
  · obtain rfl := Option.some.inj e
    refine ⟨max_le ?_ h0, le_max_of_le_left ?_⟩
    · rw [div_le_iff₀ hp]; linarith [h.1]
    · rw [le_div_iff₀ hp]; linarith [h.2]
  · obtain rfl := Option.some.inj e
    have hn : ray.orientation i < 0 := lt_of_le_of_ne (not_lt.mp hp) hz
    refine ⟨max_le ?_ h0, le_max_of_le_left ?_⟩
    · rw [div_le_iff_of_neg hn]; linarith [h.2]
    · rw [le_div_iff_of_neg hn]; linarith [h.1]

theorem slab_back {b : Box} {ray : Ray} {t : ℝ} {i : Fin 3} {p : ℝ × ℝ} (e : slab b ray i = some p) (h1 : p.1 ≤ t) (h2 : t ≤ p.2) (hlt : p.1 < p.2) :
    0 ≤ p.1 ∧ b.min i ≤ ray.at t i ∧ ray.at t i ≤ b.max i := by
  have hat : ray.at t i = ray.origin i + t * ray.orientation i := rfl
  rw [hat]
  unfold slab at e
  split_ifs at e with hz hq hp
  · obtain rfl := Option.some.inj e
    push Not at hq
    rw [hz]
    exact ⟨le_refl _, by linarith [hq.1], by linarith [hq.2]⟩
  · obtain rfl := Option.some.inj e
    simp only at h1 h2 hlt
    have hm : 0 < (b.max i - ray.origin i) / ray.orientation i := by
      by_contra hc
      push Not at hc
      rw [max_eq_right hc] at hlt
      exact absurd hlt (not_lt.mpr (le_max_right _ _))
    rw [max_eq_left hm.le, le_div_iff₀ hp] at h2
    have h1' := (le_max_left _ _).trans h1
    rw [div_le_iff₀ hp] at h1'
    exact ⟨le_max_right _ _, by linarith, by linarith⟩
  · obtain rfl := Option.some.inj e
    have hn : ray.orientation i < 0 := lt_of_le_of_ne (not_lt.mp hp) hz
    simp only at h1 h2 hlt
    have hm : 0 < (b.min i - ray.origin i) / ray.orientation i := by
      by_contra hc
      push Not at hc
      rw [max_eq_right hc] at hlt
      exact absurd hlt (not_lt.mpr (le_max_right _ _))
    rw [max_eq_left hm.le, le_div_iff_of_neg hn] at h2
    have h1' := (le_max_left _ _).trans h1
    rw [div_le_iff_of_neg hn] at h1'
    exact ⟨le_max_right _ _, by linarith, by linarith⟩

theorem boxRange_some {b : Box} {ray : Ray} {r : ℝ × ℝ} (e : boxRange b ray = some r) :
    ∃ p q s, slab b ray 0 = some p ∧ slab b ray 1 = some q ∧ slab b ray 2 = some s ∧ r = (max (max p.1 q.1) s.1, min (min p.2 q.2) s.2) ∧ r.1 < r.2 := by
  unfold boxRange at e
  rw [Option.bind_eq_some_iff] at e
  obtain ⟨p, ep, e⟩ := e
  rw [Option.bind_eq_some_iff] at e
  obtain ⟨q, eq, e⟩ := e
  rw [Option.bind_eq_some_iff] at e
  obtain ⟨s, es, e⟩ := e
  split_ifs at e with hc
  obtain rfl := Option.some.inj e
  exact ⟨p, q, s, ep, eq, es, rfl, not_le.mp hc⟩

/-- C106, the scene box: the range that is computed for a ray starts at a distance that is not negative and all its points are in the box; and if a point of the ray at a
positive distance below 10000 is inside of the box, then there is a range and all such points are in it. -/
theorem C106_box (b : Box) (ray : Ray) :
    (∀ r, boxRange b ray = some r → 0 ≤ r.1 ∧ r.1 < r.2 ∧ ∀ t, r.1 ≤ t → t ≤ r.2 → b.Closed (ray.at t)) ∧
    (∀ t, 0 < t → t < 10000 → b.Inside (ray.at t) → ∃ r, boxRange b ray = some r ∧ r.1 < t ∧ t < r.2) ∧
    (∀ r, boxRange b ray = some r → ∀ t, 0 ≤ t → t ≤ 10000 → b.Closed (ray.at t) → r.1 ≤ t ∧ t ≤ r.2) := by
  refine ⟨fun r e => ?_, fun t h0 h1 hin => ?_, fun r e t h0 h1 hin => ?_⟩
  · obtain ⟨p, q, s, ep, eq, es, rfl, hlt⟩ := boxRange_some e
    simp only at hlt ⊢
    have a1 : p.1 ≤ max (max p.1 q.1) s.1 := (le_max_left _ _).trans (le_max_left _ _)
    have a2 : q.1 ≤ max (max p.1 q.1) s.1 := (le_max_right _ _).trans (le_max_left _ _)
    have a3 : s.1 ≤ max (max p.1 q.1) s.1 := le_max_right _ _
    have b1 : min (min p.2 q.2) s.2 ≤ p.2 := (min_le_left _ _).trans (min_le_left _ _)
    have b2 : min (min p.2 q.2) s.2 ≤ q.2 := (min_le_left _ _).trans (min_le_right _ _)
    have b3 : min (min p.2 q.2) s.2 ≤ s.2 := min_le_right _ _
    have hp := (slab_back ep (le_refl _) (by linarith) (by linarith)).1
    refine ⟨by linarith, hlt, fun t h1 h2 i => ?_⟩
    fin_cases i
    · exact (slab_back ep (by linarith) (by linarith) (by linarith)).2
    · exact (slab_back eq (by linarith) (by linarith) (by linarith)).2
    · exact (slab_back es (by linarith) (by linarith) (by linarith)).2
  · obtain ⟨p, ep, p1, p2⟩ := slab_inside h0 h1 (hin 0)
    obtain ⟨q, eq, q1, q2⟩ := slab_inside h0 h1 (hin 1)
    obtain ⟨s, es, s1, s2⟩ := slab_inside h0 h1 (hin 2)
    have l1 : max (max p.1 q.1) s.1 < t := max_lt (max_lt p1 q1) s1
    have l2 : t < min (min p.2 q.2) s.2 := lt_min (lt_min p2 q2) s2
    refine ⟨(max (max p.1 q.1) s.1, min (min p.2 q.2) s.2), ?_, l1, l2⟩
    simp only [boxRange, ep, eq, es, Option.bind_some]
    rw [if_neg (by linarith)]
  · obtain ⟨p, q, s, ep, eq, es, rfl, hlt⟩ := boxRange_some e
    have p1 := slab_closed h0 h1 (hin 0) ep
    have q1 := slab_closed h0 h1 (hin 1) eq
    have s1 := slab_closed h0 h1 (hin 2) es
    exact ⟨max_le (max_le p1.1 q1.1) s1.1, le_min (le_min p1.2 q1.2) s1.2⟩

/-- A scene: the direction has unit length, all spheres are in the box and not farther than 10000 away, and the camera is outside of them. -/
structure Scene (b : Box) (l : List Sphere) (ray : Ray) : Prop where
  unit : ray.Unit
  radius : ∀ s ∈ l, 0 ≤ s.radius
  inBox : ∀ s ∈ l, s.InBox b
  outside : ∀ s ∈ l, s.Outside ray.origin
  reach : ∀ s ∈ l, ∀ t, dist2 (ray.at t) s.center ≤ s.radius ^ 2 → t ≤ 10000

/-- What is shown is right: with a hit, the point at the reported distance is on the surface of a sphere of the scene, and the ray does not pass through any sphere
before; without a hit, it does not pass through any sphere. -/
def Shows (l : List Sphere) (ray : Ray) (r : Option Hit) : Prop :=
  (∀ h, r = some h → h.sphere ∈ l ∧ 0 < h.near ∧ dist2 (ray.at h.near) h.sphere.center = h.sphere.radius ^ 2 ∧
    ∀ s ∈ l, ∀ t, 0 ≤ t → t < h.near → ¬ dist2 (ray.at t) s.center < s.radius ^ 2) ∧
  (r = none → ∀ s ∈ l, ∀ t, 0 ≤ t → ¬ dist2 (ray.at t) s.center < s.radius ^ 2)

theorem Scene.range {b : Box} {l : List Sphere} {ray : Ray} (sc : Scene b l ray) {r : ℝ × ℝ} (e : boxRange b ray = some r) {s : Sphere} (hs : s ∈ l)
    {h : Hit} (eh : s.intersect ray r.1 = some h) : r.1 ≤ h.near ∧ h.far ≤ r.2 := by
  have h0 := ((C106_box b ray).1 r e).1
  obtain ⟨_, h1, h2, h3, _⟩ := (C106_sphere_partial s ray sc.unit (sc.outside s hs) r.1 h0).2 h eh
  have key : ∀ t, h.near ≤ t → t ≤ h.far → r.1 ≤ t ∧ t ≤ r.2 := by
    intro t ha hb
    have hb' := (h3 t).mpr ⟨ha, hb⟩
    have hc := fun i => coord_le (sc.radius s hs) hb' i
    exact (C106_box b ray).2.2 r e t (by linarith) (sc.reach s hs t hb') fun i => ⟨(sc.inBox s hs i).1.trans (hc i).1, (hc i).2.trans (sc.inBox s hs i).2⟩
  exact ⟨(key h.near (le_refl _) h2).1, (key h.far h2 (le_refl _)).2⟩

/-- A sphere through which the ray passes is in the range and passes the test. -/
theorem Scene.strict {b : Box} {l : List Sphere} {ray : Ray} (sc : Scene b l ray) {s : Sphere} (hs : s ∈ l) {t : ℝ} (h0 : 0 ≤ t)
    (hb : dist2 (ray.at t) s.center < s.radius ^ 2) :
    ∃ r h, boxRange b ray = some r ∧ s.intersect ray r.1 = some h ∧ h.near ≤ t ∧ h.near < h.far ∧ h.near < 10000 := by
  have hout := sc.outside s hs
  have hd := dist_at s ray sc.unit t
  have hd0 : 0 < s.d ray := by nlinarith [sq_nonneg (t - s.v ray)]
  have hsq := Real.sqrt_pos.mpr hd0
  obtain ⟨_, c1, c2⟩ := (ball_iff s ray sc.unit t).mp hb.le
  have htop : dist2 (ray.at (s.v ray + Real.sqrt (s.d ray))) s.center ≤ s.radius ^ 2 := (ball_iff s ray sc.unit _).mpr ⟨hd0.le, by linarith, le_refl _⟩
  have hfar : s.v ray + Real.sqrt (s.d ray) ≤ 10000 := sc.reach s hs _ htop
  -- the test with the range from zero
  obtain ⟨h, eh⟩ := Option.isSome_iff_exists.mp ((C106_sphere_partial s ray sc.unit hout 0 (le_refl _)).1.mp ⟨t, h0, hb.le⟩)
  obtain ⟨_, hpos, _, _, _⟩ := (C106_sphere_partial s ray sc.unit hout 0 (le_refl _)).2 h eh
  obtain ⟨q1, q2, _, rfl⟩ := intersect_some eh
  simp only at hpos
  have hmid : dist2 (ray.at (s.v ray)) s.center < s.radius ^ 2 := open_ball sc.unit (by linarith) (by linarith)
  obtain ⟨r, er, r1, r2⟩ := (C106_box b ray).2.1 (s.v ray) q1 (by linarith) (fun i => by
    have := coord_lt (sc.radius s hs) hmid i
    have hi' := sc.inBox s hs i
    exact ⟨by linarith [this.1, hi'.1], by linarith [this.2, hi'.2]⟩)
  refine ⟨r, ⟨s, s.v ray - Real.sqrt (s.d ray), s.v ray + Real.sqrt (s.d ray)⟩, er, ?_, c1, ?_, ?_⟩
  · simp only [Sphere.intersect, if_neg (not_le.mpr q1), if_neg (not_lt.mpr q2), if_neg (show ¬ s.v ray + Real.sqrt (s.d ray) < r.1 by linarith)]
  · simp only; linarith
  · simp only; linarith

/-- C106 (partial), the tree shows the right sphere: for any tree of splitting planes that was empty and in which no plane cuts a sphere. Missing: spheres that are cut by a
plane (`C106_negation_cut`), which a scene with more spheres than fit in a leaf usually has. -/
theorem C106_nearest_partial (b : Box) (t : Tree) (ht : t.Empty) (l : List Sphere) (ray : Ray) (sc : Scene b l ray) (ha : ∀ s ∈ l, t.Avoids s) :
    Shows l ray (treeTrace b (t.insertAll l) ray) := by
  have hsep := insertAll_separated (empty_separated ht) ha
  have hsub : ∀ s ∈ (t.insertAll l).spheres, s ∈ l := by
    intro s hs
    rcases spheres_insertAll hs with h | h
    · exact h
    · rw [spheres_empty ht] at h; simp at h
  have main : ∀ s ∈ l, ∀ x, 0 ≤ x → dist2 (ray.at x) s.center < s.radius ^ 2 → ∃ h', treeTrace b (t.insertAll l) ray = some h' ∧ h'.near ≤ x := by
    intro s hs x h0 hb
    obtain ⟨r, h, er, eh, h1, h2, h3⟩ := sc.strict hs h0 hb
    have hm : s ∈ (t.insertAll l).spheres := leafAt_sub (leafAt_insertAll hs (sc.radius s hs) hb)
    obtain ⟨h', e', l'⟩ := traverse_nearest sc.unit hsep (fun s hs => sc.radius s (hsub s hs)) (fun s hs h eh => sc.range er (hsub s hs) eh) hm eh h3 h2
    exact ⟨h', by simp only [treeTrace, er, Option.bind_some, e'], l'.trans h1⟩
  refine ⟨fun h e => ?_, fun e s hs x h0 hb => ?_⟩
  · have e0 := e
    simp only [treeTrace] at e0
    rw [Option.bind_eq_some_iff] at e0
    obtain ⟨r, er, e0⟩ := e0
    obtain ⟨s, hs, es, _⟩ := traverse_sound e0
    obtain ⟨k1, k2, _, _, k3⟩ := (C106_sphere_partial s ray sc.unit (sc.outside s (hsub s hs)) r.1 ((C106_box b ray).1 r er).1).2 h es
    refine ⟨k1 ▸ hsub s hs, k2, by rw [k1]; exact k3, fun s' hs' x h0 hx hb => ?_⟩
    obtain ⟨h', e', l'⟩ := main s' hs' x h0 hb
    rw [e] at e'
    obtain rfl := Option.some.inj e'
    linarith
  · obtain ⟨h', e', _⟩ := main s hs x h0 hb
    rw [e] at e'; simp at e'

theorem brute_fst (ray : Ray) (tmin : ℝ) (l : List Sphere) (st : Option Hit × ℝ) :
    (l.foldl (bruteStep ray tmin) st).1 = l.foldl (leafStep ray tmin) st.1 := by
  induction l generalizing st with
  | nil => rfl
  | cons s l ih => rw [List.foldl_cons, List.foldl_cons, ih]; rfl

/-- C106, the search without a tree always finds the right sphere. -/
theorem C106_brute (b : Box) (l : List Sphere) (ray : Ray) (sc : Scene b l ray) : Shows l ray ((bruteTrace b l ray).bind Prod.fst) := by
  have heq : (bruteTrace b l ray).bind Prod.fst = treeTrace b ((Tree.leaf []).insertAll l) ray := by
    have hleaf : ∀ (l l' : List Sphere), (Tree.leaf l').insertAll l = .leaf (l' ++ l) := by
      intro l
      induction l with
      | nil => intro l'; simp [Tree.insertAll]
      | cons s l ih =>
        intro l'
        have := ih (l' ++ [s])
        simp only [Tree.insertAll, List.foldl_cons, Tree.insert] at this ⊢
        rw [this]; simp
    rw [hleaf]
    simp only [bruteTrace, treeTrace, List.nil_append, Tree.traverse, leafSearch]
    cases boxRange b ray with
    | none => rfl
    | some r => simp only [Option.map_some, Option.bind_some, brute_fst]
  rw [heq]
  exact C106_nearest_partial b (.leaf []) rfl l ray sc fun _ _ => trivial

/-! ## Witnesses -/

/-- A ray along the first axis. -/
def axisRay : Ray := ⟨![-10, 0, 0], ![1, 0, 0]⟩

/-- A box around the origin. -/
def bigBox : Box := ⟨![-20, -20, -20], ![20, 20, 20]⟩

theorem bigRange : boxRange bigBox axisRay = some (0, 30) := by
  have h0 : slab bigBox axisRay 0 = some (0, 30) := by
    simp only [slab, axisRay, bigBox, Matrix.cons_val_zero]
    norm_num
  have h1 : slab bigBox axisRay 1 = some (0, 10000) := by
    simp only [slab, axisRay, bigBox]
    norm_num
  have h2 : slab bigBox axisRay 2 = some (0, 10000) := by
    simp only [slab, axisRay, bigBox, Matrix.cons_val]
    norm_num
  simp only [boxRange, h0, h1, h2, Option.bind_some]
  norm_num

/-- The large sphere of the witness. -/
def large : Sphere := ⟨![4, 4, 0], 5⟩

/-- The small sphere of the witness. -/
noncomputable def small : Sphere := ⟨![1/2, 0, 0], 1/4⟩

theorem sqrt9 : Real.sqrt 9 = 3 := by rw [show (9 : ℝ) = 3 ^ 2 by norm_num]; exact Real.sqrt_sq (by norm_num)

theorem sqrt16 : Real.sqrt (1/16) = 1/4 := by rw [show (1/16 : ℝ) = (1/4) ^ 2 by norm_num]; exact Real.sqrt_sq (by norm_num)

theorem large_hit : large.intersect axisRay 0 = some ⟨large, 11, 17⟩ := by
  have hv : large.v axisRay = 14 := by simp [Sphere.v, large, axisRay]; norm_num
  have hd : large.d axisRay = 9 := by rw [Sphere.d, hv]; simp [large, axisRay]; norm_num
  simp only [Sphere.intersect, hv, hd, sqrt9]
  norm_num

theorem small_hit : small.intersect axisRay 0 = some ⟨small, 41/4, 43/4⟩ := by
  have hv : small.v axisRay = 21/2 := by simp [Sphere.v, small, axisRay]; norm_num
  have hd : small.d axisRay = 1/16 := by rw [Sphere.d, hv]; simp [small, axisRay]; norm_num
  simp only [Sphere.intersect, hv, hd, sqrt16]
  norm_num

theorem dist_axis (s : Sphere) (t : ℝ) : dist2 (axisRay.at t) s.center = (t - 10 - s.center 0) ^ 2 + s.center 1 ^ 2 + s.center 2 ^ 2 := by
  simp [dist2, Ray.at, axisRay]; ring

theorem two_scene : Scene bigBox [large, small] axisRay := by
  refine ⟨by simp [Ray.Unit, axisRay], ?_, ?_, ?_, ?_⟩
  · intro s hs
    rcases List.mem_pair.mp hs with rfl | rfl
    · simp [large]
    · simp [small]
  · intro s hs i
    rcases List.mem_pair.mp hs with rfl | rfl
    · fin_cases i <;> simp [large, bigBox] <;> norm_num
    · fin_cases i <;> simp [small, bigBox] <;> norm_num
  · intro s hs
    have h0 : axisRay.at 0 = axisRay.origin := by funext i; simp [Ray.at]
    have := dist_axis s 0
    rw [h0] at this
    unfold Sphere.Outside
    rw [this]
    rcases List.mem_pair.mp hs with rfl | rfl
    · simp [large]; norm_num
    · simp [small]; norm_num
  · intro s hs t h
    rw [dist_axis] at h
    rcases List.mem_pair.mp hs with rfl | rfl
    · simp [large] at h; nlinarith
    · simp [small] at h; nlinarith

/-- One plane between two leaves. -/
def onePlane : Tree := .node 0 0 (.leaf []) (.leaf [])

/-- The tree with the small sphere alone meets the hypotheses of `C106_nearest_partial`, and the small sphere is seen. -/
example : Scene bigBox [small] axisRay ∧ onePlane.Empty ∧ (∀ s ∈ [small], onePlane.Avoids s) ∧ treeTrace bigBox (onePlane.insertAll [small]) axisRay = some ⟨small, 41/4, 43/4⟩ := by
  have sc := two_scene
  refine ⟨⟨sc.unit, fun s hs => sc.radius s (List.mem_cons_of_mem _ hs), fun s hs => sc.inBox s (List.mem_cons_of_mem _ hs), fun s hs => sc.outside s (List.mem_cons_of_mem _ hs),
    fun s hs => sc.reach s (List.mem_cons_of_mem _ hs)⟩, ⟨rfl, rfl⟩, ?_, ?_⟩
  · intro s hs
    rw [List.mem_singleton] at hs
    subst hs
    refine ⟨?_, trivial, trivial⟩
    simp [small]; norm_num
  · simp only [treeTrace, bigRange, Option.bind_some, Tree.insertAll, List.foldl_cons, List.foldl_nil, onePlane, Tree.insert, Tree.traverse]
    have a1 : ¬ small.center 0 - small.radius < 0 := by simp [small]; norm_num
    have a2 : (0 : ℝ) < small.center 0 + small.radius := by simp [small]; norm_num
    have a3 : axisRay.orientation 0 ≠ 0 := by simp [axisRay]
    have a4 : ¬ ((30 : ℝ) < (0 - axisRay.origin 0) / axisRay.orientation 0 ∨ (0 - axisRay.origin 0) / axisRay.orientation 0 < 0) := by simp [axisRay]; norm_num
    have a5 : 0 * axisRay.orientation 0 + axisRay.origin 0 < 0 := by simp [axisRay]
    rw [if_neg a1, if_pos a2, if_pos a3, if_neg a4, if_pos a5]
    simp [Tree.traverse, leafSearch, leafStep, small_hit]
    norm_num

/-- C106, negation: a sphere that a splitting plane cuts hides a nearer one. The ray meets the small sphere at 41/4 and the large one at 11, but the tree yields the large one,
which reaches into the half that is searched first. -/
theorem C106_negation_cut : Scene bigBox [large, small] axisRay ∧ treeTrace bigBox (onePlane.insertAll [large, small]) axisRay = some ⟨large, 11, 17⟩ ∧
    (bruteTrace bigBox [large, small] axisRay).bind Prod.fst = some ⟨small, 41/4, 43/4⟩ ∧ ¬ Shows [large, small] axisRay (treeTrace bigBox (onePlane.insertAll [large, small]) axisRay) := by
  have htree : treeTrace bigBox (onePlane.insertAll [large, small]) axisRay = some ⟨large, 11, 17⟩ := by
    simp only [treeTrace, bigRange, Option.bind_some, Tree.insertAll, List.foldl_cons, List.foldl_nil, onePlane, Tree.insert]
    have l1 : large.center 0 - large.radius < 0 := by simp [large]; norm_num
    have l2 : (0 : ℝ) < large.center 0 + large.radius := by simp [large]; norm_num
    have a1 : ¬ small.center 0 - small.radius < 0 := by simp [small]; norm_num
    have a2 : (0 : ℝ) < small.center 0 + small.radius := by simp [small]; norm_num
    have a3 : axisRay.orientation 0 ≠ 0 := by simp [axisRay]
    have a4 : ¬ ((30 : ℝ) < (0 - axisRay.origin 0) / axisRay.orientation 0 ∨ (0 - axisRay.origin 0) / axisRay.orientation 0 < 0) := by simp [axisRay]; norm_num
    have a5 : 0 * axisRay.orientation 0 + axisRay.origin 0 < 0 := by simp [axisRay]
    rw [if_pos l1, if_pos l2, if_neg a1, if_pos a2]
    simp only [Tree.traverse, Tree.insert]
    rw [if_pos a3, if_neg a4, if_pos a5]
    simp [leafSearch, leafStep, large_hit]
    norm_num
  refine ⟨two_scene, htree, ?_, ?_⟩
  · simp only [bruteTrace, bigRange, Option.map_some, Option.bind_some, bruteStep, List.foldl_cons, List.foldl_nil, leafStep, large_hit, small_hit]
    norm_num
  · intro h
    have := (h.1 _ htree).2.2.2 small (by simp) (21/2) (by norm_num) (by norm_num)
    rw [dist_axis] at this
    apply this
    simp [small]; norm_num

/-- A box that the ray enters at the distance ten. -/
def farBox : Box := ⟨![0, -5, -5], ![10, 5, 5]⟩

/-- A sphere in the box. -/
def inside : Sphere := ⟨![5, 0, 0], 1⟩

/-- A sphere between the camera and the box. -/
def before : Sphere := ⟨![-5, 0, 0], 1⟩

/-- C106, negation, of the search without a tree: `distance_far` belongs to the last sphere on the line of the ray, not to the sphere that is reported. Here the sphere
inside of the box ends at 16 but the distance reported is 6, that of a sphere before the box; being below the start of the range (10), it makes `RayTrace::trace`
(`visualization/raytrace.cpp:152-156`) paint the background. The tree reports 16. -/
theorem C106_negation_far : boxRange farBox axisRay = some (10, 20) ∧ bruteTrace farBox [inside, before] axisRay = some (some ⟨inside, 14, 16⟩, 6) ∧
    treeTrace farBox (.leaf [inside, before]) axisRay = some ⟨inside, 14, 16⟩ := by
  have hr : boxRange farBox axisRay = some (10, 20) := by
    have h0 : slab farBox axisRay 0 = some (10, 20) := by
      simp only [slab, axisRay, farBox, Matrix.cons_val_zero]
      norm_num
    have h1 : slab farBox axisRay 1 = some (0, 10000) := by
      simp only [slab, axisRay, farBox]
      norm_num
    have h2 : slab farBox axisRay 2 = some (0, 10000) := by
      simp only [slab, axisRay, farBox, Matrix.cons_val]
      norm_num
    simp only [boxRange, h0, h1, h2, Option.bind_some]
    norm_num
  have iv : inside.v axisRay = 15 := by simp [Sphere.v, inside, axisRay]; norm_num
  have id' : inside.d axisRay = 1 := by rw [Sphere.d, iv]; simp [inside, axisRay]; norm_num
  have bv : before.v axisRay = 5 := by simp [Sphere.v, before, axisRay]; norm_num
  have bd : before.d axisRay = 1 := by rw [Sphere.d, bv]; simp [before, axisRay]; norm_num
  have ih : inside.intersect axisRay 10 = some ⟨inside, 14, 16⟩ := by
    simp only [Sphere.intersect, iv, id', Real.sqrt_one]; norm_num
  have bh : before.intersect axisRay 10 = none := by
    simp only [Sphere.intersect, bv, bd, Real.sqrt_one]; norm_num
  refine ⟨hr, ?_, ?_⟩
  · simp only [bruteTrace, hr, Option.map_some, List.foldl_cons, List.foldl_nil, bruteStep, leafStep, ih, bh, iv, id', bv, bd, Real.sqrt_one]
    norm_num
  · simp only [treeTrace, hr, Option.bind_some, Tree.traverse, leafSearch, List.foldl_cons, List.foldl_nil, leafStep, ih, bh]
    norm_num

end Verif.RayTree
