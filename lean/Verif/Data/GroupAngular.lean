import Verif.Other.Group

/-!
# Torque and angular momentum of a group (C124)

Models `dataobjects/graphobjects/grouptorque.cpp` and `dataobjects/multigraphobjects/groupangular.cpp`: the records of the torque, the moment of
inertia and the angular momentum of a group around its centre of mass. Exact real arithmetic. A component outside of a vector (cross products
in one dimension), a local id outside of the list or an infinite mass is undefined (`none`).

Not modelled: the constructors that take a group; they hand the uninitialised member `gflow` on to the constructor of the base class.
-/

set_option linter.unusedSectionVars false

namespace Verif.GroupAngular
open Verif.PairForces Verif.Groups

variable {d : ℕ}

/-- `crossVec2`, `utility/vectormath.hpp:45-47`: reads two components of each vector; `none` if there is only one. -/
noncomputable def cross (x y : Fin d → ℝ) : Option ℝ :=
  if h : 1 < d then some (x ⟨0, by omega⟩ * y ⟨1, h⟩ - x ⟨1, h⟩ * y ⟨0, by omega⟩) else none

/-- One member of `GroupTorque::calculate_torque`, `dataobjects/graphobjects/grouptorque.cpp:31-40`: displacement from the centre of mass, nearest image,
cross product with the force. -/
noncomputable def torqueStep (W : World d) (G : Group) (c : Fin d → ℝ) (s : ℝ) (i : ℕ) : Option ℝ :=
  (G.at i).bind fun id => (cross (disp W (W.x id) c) (W.f id)).map fun t => s + t

/-- `GroupTorque::calculate_torque`, `dataobjects/graphobjects/grouptorque.cpp:19-42`. -/
noncomputable def torque (W : World d) (G : Group) : Option ℝ :=
  (G.centerOfMass W).bind fun c => (List.range G.size).foldlM (torqueStep W G c) 0

/-- `GroupTorque::post_step` on several processors, `dataobjects/graphobjects/grouptorque.cpp:16` with `gatherData`,
`dataobjects/dataobjecttypes/graphobject.cpp:108-114`: the torques of the members on each processor, each around their own centre, are added. -/
noncomputable def gatheredTorque (ranks : List (World d × Group)) : Option ℝ :=
  (ranks.mapM fun r => torque r.1 r.2).map List.sum

/-- `II`, `L` and `T`, `dataobjects/multigraphobjects/groupangular.hpp`. -/
structure Angular where
  inertia : ℝ
  momentum : ℝ
  torque : ℝ

open Classical in
/-- One member of `calculate_angular_quantities`, `dataobjects/multigraphobjects/groupangular.cpp:42-57`. -/
noncomputable def angularStep (W : World d) (G : Group) (c : Fin d → ℝ) (s : Angular) (i : ℕ) : Option Angular :=
  (G.at i).bind fun id =>
    if W.im id = 0 then none else
    (cross (disp W (W.x id) c) (fun k => 1 / W.im id * W.v id k)).bind fun l =>
    (cross (disp W (W.x id) c) (W.f id)).map fun t =>
      ⟨s.inertia + 1 / W.im id * dot (disp W (W.x id) c) (disp W (W.x id) c), s.momentum + l, s.torque + t⟩

/-- `GroupAngular::calculate_angular_quantities`, `dataobjects/multigraphobjects/groupangular.cpp:29-58`. -/
noncomputable def angular (W : World d) (G : Group) : Option Angular :=
  (G.centerOfMass W).bind fun c => (List.range G.size).foldlM (angularStep W G c) ⟨0, 0, 0⟩

/-! ## Specification -/

/-- Positions `y` of the members without the cut at the periodic boundaries: they differ from the positions by whole boxes in the directions that wrap, and
the group is smaller than half of the box there. -/
structure Unwrapped (W : World d) (l : List ℕ) (y : ℕ → Fin d → ℝ) : Prop where
  image : ∀ i ∈ l, ∀ k, ∃ n : ℤ, y i k = W.x i k + n * (W.hi k - W.lo k) ∧ (W.wrap k = false → n = 0)
  small : ∀ i ∈ l, ∀ j ∈ l, ∀ k, W.wrap k = true → |y i k - y j k| < (W.hi k - W.lo k) / 2

/-- The centre of mass of the positions `y`. -/
noncomputable def centre (W : World d) (l : List ℕ) (y : ℕ → Fin d → ℝ) (k : Fin d) : ℝ :=
  (total l fun i => 1 / W.im i * y i k) / total l fun i => 1 / W.im i

/-- The members are in the box; in directions that do not wrap so is the centre of mass (it is if the members are). -/
def InBox (W : World d) (l : List ℕ) : Prop := ∀ i ∈ l, ∀ k, W.lo k ≤ W.x i k ∧ W.x i k ≤ W.hi k

/-- The component of the cross product perpendicular to the first two directions. -/
noncomputable def wedge (hd : 1 < d) (a b : Fin d → ℝ) : ℝ := a ⟨0, by omega⟩ * b ⟨1, hd⟩ - a ⟨1, hd⟩ * b ⟨0, by omega⟩

theorem cross_eq (hd : 1 < d) (a b : Fin d → ℝ) : cross a b = some (wedge hd a b) := by
  unfold cross wedge; rw [dif_pos hd]

/-! ## The displacement from the centre -/

theorem image_spec (w X : ℝ) (hX : |X| ≤ w) :
    |(if w - |X| < |X| then (if 0 < X then -(w - |X|) else w - |X|) else X)| ≤ w / 2 ∧
    ∃ n : ℤ, (if w - |X| < |X| then (if 0 < X then -(w - |X|) else w - |X|) else X) = X + n * w := by
  split_ifs with h1 h2
  · refine ⟨?_, -1, ?_⟩
    · rw [abs_neg, abs_of_nonneg (by linarith)]; linarith
    · rw [abs_of_pos h2]; push_cast; ring
  · refine ⟨?_, 1, ?_⟩
    · rw [abs_of_nonneg (by linarith)]; linarith
    · rw [abs_of_nonpos (not_lt.1 h2)]; push_cast; ring
  · exact ⟨by linarith [not_lt.1 h1], 0, by simp⟩

theorem image_unique (w a b : ℝ) (n : ℤ) (ha : |a| ≤ w / 2) (hb : |b| < w / 2) (h : a = b + n * w) : a = b := by
  have hw : 0 < w := by have := abs_nonneg b; linarith
  have h1 : |(n : ℝ) * w| < w := by
    have : (n : ℝ) * w = a - b := by rw [h]; ring
    rw [this]
    calc |a - b| ≤ |a| + |b| := abs_sub _ _
      _ < w := by linarith
  rw [abs_mul, abs_of_pos hw] at h1
  have h2 : |(n : ℝ)| < 1 := by
    by_contra hc
    have := mul_le_mul_of_nonneg_right (not_lt.1 hc) hw.le
    linarith
  have h3 : n = 0 := by
    have : |n| < 1 := by exact_mod_cast h2
    exact Int.abs_lt_one_iff.1 this
  rw [h, h3]; simp

theorem disp_wrap (W : World d) (x y : Fin d → ℝ) (k : Fin d) (h : W.wrap k = true) (hX : |x k - y k| ≤ W.hi k - W.lo k) :
    |disp W x y k| ≤ (W.hi k - W.lo k) / 2 ∧ ∃ n : ℤ, disp W x y k = x k - y k + n * (W.hi k - W.lo k) := by
  have := image_spec (W.hi k - W.lo k) (x k - y k) hX
  unfold disp correct
  simp only [h, if_true, Pi.sub_apply]
  exact this

theorem disp_free (W : World d) (x y : Fin d → ℝ) (k : Fin d) (h : W.wrap k = false) : disp W x y k = x k - y k := by
  unfold disp correct
  simp [h]

theorem total_add (l : List ℕ) (p q : ℕ → ℝ) : total l (fun i => p i + q i) = total l p + total l q := by
  induction l with
  | nil => simp [total]
  | cons i l ih => simp only [total, List.map_cons, List.sum_cons] at ih ⊢; rw [ih]; ring

theorem total_mul (l : List ℕ) (p : ℕ → ℝ) (c : ℝ) : total l (fun i => p i * c) = total l p * c := by
  induction l with
  | nil => simp [total]
  | cons i l ih => simp only [total, List.map_cons, List.sum_cons] at ih ⊢; rw [ih]; ring

theorem total_zero (l : List ℕ) : total l (fun _ => 0) = 0 := by
  induction l with
  | nil => simp [total]
  | cons i l ih => simp only [total, List.map_cons, List.sum_cons] at ih ⊢; rw [ih]; ring

theorem total_le (l : List ℕ) (p q : ℕ → ℝ) (h : ∀ i ∈ l, p i ≤ q i) : total l p ≤ total l q := by
  induction l with
  | nil => simp [total]
  | cons i l ih =>
    simp only [total, List.map_cons, List.sum_cons] at ih ⊢
    have := ih (fun j hj => h j (List.mem_cons_of_mem _ hj))
    have := h i (List.mem_cons_self ..)
    linarith

theorem total_lt (l : List ℕ) (p q : ℕ → ℝ) (hne : l ≠ []) (h : ∀ i ∈ l, p i < q i) : total l p < total l q := by
  cases l with
  | nil => exact absurd rfl hne
  | cons i l =>
    have h1 := total_le l p q (fun j hj => (h j (List.mem_cons_of_mem _ hj)).le)
    have h2 := h i (List.mem_cons_self ..)
    simp only [total, List.map_cons, List.sum_cons] at h1 ⊢
    linarith

/-- A weighted mean is as close to a point as the members are. -/
theorem mean_near (W : World d) (l : List ℕ) (hne : l ≠ []) (him : ∀ i ∈ l, 0 < W.im i) (y : ℕ → Fin d → ℝ) (k : Fin d) (z b : ℝ)
    (h : ∀ i ∈ l, |y i k - z| < b) : |centre W l y k - z| < b := by
  have hp := total_pos W.im l hne him
  have e : (centre W l y k - z) * (total l fun i => 1 / W.im i) = total l fun i => 1 / W.im i * (y i k - z) := by
    have : (total l fun i => 1 / W.im i * (y i k - z)) = (total l fun i => 1 / W.im i * y i k) + total l (fun i => 1 / W.im i * (-z)) := by
      rw [← total_add]; exact total_congr fun i _ => by ring
    rw [this, total_mul]
    unfold centre
    field_simp
    ring
  have hm : ∀ i ∈ l, 0 < 1 / W.im i := fun i hi => by have := him i hi; positivity
  have h1 : (total l fun i => 1 / W.im i * (y i k - z)) < total l (fun i => 1 / W.im i * b) :=
    total_lt l _ _ hne fun i hi => mul_lt_mul_of_pos_left (abs_lt.1 (h i hi)).2 (hm i hi)
  have h2 : total l (fun i => 1 / W.im i * (-b)) < total l fun i => 1 / W.im i * (y i k - z) :=
    total_lt l _ _ hne fun i hi => mul_lt_mul_of_pos_left (abs_lt.1 (h i hi)).1 (hm i hi)
  rw [total_mul, ← e] at h1 h2
  rw [abs_lt]
  constructor
  · by_contra hc
    have := mul_le_mul_of_nonneg_right (not_lt.1 hc) hp.le
    linarith
  · by_contra hc
    have := mul_le_mul_of_nonneg_right (not_lt.1 hc) hp.le
    linarith

theorem mean_between (W : World d) (l : List ℕ) (hne : l ≠ []) (him : ∀ i ∈ l, 0 < W.im i) (y : ℕ → Fin d → ℝ) (k : Fin d) (a b : ℝ)
    (h : ∀ i ∈ l, a ≤ y i k ∧ y i k ≤ b) : a ≤ centre W l y k ∧ centre W l y k ≤ b := by
  have hp := total_pos W.im l hne him
  have hm : ∀ i ∈ l, 0 ≤ 1 / W.im i := fun i hi => by have := him i hi; positivity
  have h1 := total_le l (fun i => 1 / W.im i * a) (fun i => 1 / W.im i * y i k) fun i hi => mul_le_mul_of_nonneg_left (h i hi).1 (hm i hi)
  have h2 := total_le l (fun i => 1 / W.im i * y i k) (fun i => 1 / W.im i * b) fun i hi => mul_le_mul_of_nonneg_left (h i hi).2 (hm i hi)
  rw [total_mul] at h1 h2
  unfold centre
  rw [le_div_iff₀ hp, div_le_iff₀ hp]
  constructor <;> linarith

/-- The displacements used are those from the centre of mass of the unwrapped positions. -/
theorem arms (W : World d) (G : Group) (hG : OK G) (hne : G.size ≠ 0) (him : ∀ i ∈ G.lids, 0 < W.im i) (hbox : InBox W G.lids)
    (y : ℕ → Fin d → ℝ) (hy : Unwrapped W G.lids y) :
    ∃ c, G.centerOfMass W = some c ∧ ∀ i ∈ G.lids, disp W (W.x i) c = fun k => y i k - centre W G.lids y k := by
  obtain ⟨c0, mid, hmid, e, hc⟩ := com_eq W G hG hne him
  have hne' : G.lids ≠ [] := by intro h; apply hne; unfold Group.size; rw [← hG, h]; rfl
  have hp := total_pos W.im G.lids hne' him
  refine ⟨_, e, fun i hi => funext fun k => ?_⟩
  have hdm : ∀ j ∈ G.lids, disp W (W.x j) (W.x mid) k = y j k - y mid k := by
    intro j hj
    obtain ⟨nj, ej, fj⟩ := hy.image j hj k
    obtain ⟨nm, em, fm⟩ := hy.image mid hmid k
    cases hw : W.wrap k with
    | false =>
      rw [disp_free W _ _ k hw, ej, em, fj hw, fm hw]; simp
    | true =>
      have b1 := hbox j hj k
      have b2 := hbox mid hmid k
      obtain ⟨g1, n, g2⟩ := disp_wrap W (W.x j) (W.x mid) k hw (by rw [abs_le]; constructor <;> linarith)
      refine image_unique (W.hi k - W.lo k) _ _ (n - nj + nm) g1 (hy.small j hj mid hmid k hw) ?_
      rw [g2, ej, em]; push_cast; ring
  have hc0 : c0 k = W.x mid k + (centre W G.lids y k - y mid k) := by
    have h1 : (total G.lids fun i => 1 / W.im i) * c0 k =
        (total G.lids fun i => 1 / W.im i * y i k) + (total G.lids fun i => 1 / W.im i) * (W.x mid k - y mid k) := by
      rw [hc k, ← total_mul, ← total_add]
      exact total_congr fun j hj => by rw [hdm j hj]; ring
    have h2 : (total G.lids fun i => 1 / W.im i) * c0 k =
        (total G.lids fun i => 1 / W.im i) * (W.x mid k + (centre W G.lids y k - y mid k)) := by
      rw [h1]; unfold centre; field_simp; ring
    exact mul_left_cancel₀ hp.ne' h2
  have b1 := hbox i hi k
  have b2 := hbox mid hmid k
  cases hw : W.wrap k with
  | false =>
    have hyx : ∀ j ∈ G.lids, y j k = W.x j k := by
      intro j hj
      obtain ⟨n, ej, fj⟩ := hy.image j hj k
      rw [ej, fj hw]; simp
    have hb := mean_between W G.lids hne' him y k (W.lo k) (W.hi k) fun j hj => by rw [hyx j hj]; exact hbox j hj k
    have hcc : c0 k = centre W G.lids y k := by rw [hc0, hyx mid hmid]; ring
    rw [disp_free W _ _ k hw, hcc, if_neg (not_lt.2 hb.1), if_neg (not_lt.2 hb.2), hyx i hi]
  | true =>
    have hn := mean_near W G.lids hne' him y k (y mid k) _ fun j hj => hy.small j hj mid hmid k hw
    have hm := mean_near W G.lids hne' him y k (y i k) _ fun j hj => hy.small j hj i hi k hw
    rw [abs_lt] at hn
    obtain ⟨n, hcn, hlo, hhi⟩ : ∃ n : ℤ, (if c0 k < W.lo k then c0 k + (W.hi k - W.lo k) else if W.hi k < c0 k then c0 k - (W.hi k - W.lo k) else c0 k) =
        c0 k + n * (W.hi k - W.lo k) ∧ W.lo k ≤ c0 k + n * (W.hi k - W.lo k) ∧ c0 k + n * (W.hi k - W.lo k) ≤ W.hi k := by
      split_ifs with h1 h2
      · refine ⟨1, by push_cast; ring, ?_, ?_⟩ <;> push_cast <;> linarith
      · refine ⟨-1, by push_cast; ring, ?_, ?_⟩ <;> push_cast <;> linarith
      · refine ⟨0, by simp, ?_, ?_⟩ <;> push_cast <;> linarith
    obtain ⟨nm, em, _⟩ := hy.image mid hmid k
    obtain ⟨ni, ei, _⟩ := hy.image i hi k
    obtain ⟨g1, m, g2⟩ := disp_wrap W (W.x i) (fun k => if c0 k < W.lo k then c0 k + (W.hi k - W.lo k) else if W.hi k < c0 k then c0 k - (W.hi k - W.lo k) else c0 k) k hw
      (by rw [hcn, abs_le]; constructor <;> linarith)
    refine image_unique (W.hi k - W.lo k) _ _ (m - n - ni + nm) g1 (by rw [abs_sub_comm]; exact hm) ?_
    rw [g2, hcn, hc0, ei, em]
    push_cast
    ring

theorem fold_range {σ : Type*} (G : Group) (hG : OK G) (g : σ → ℕ → Option σ) (h : σ → ℕ → σ) (st : σ → ℕ → Option σ)
    (hst : ∀ s i, st s i = (G.at i).bind (g s)) (hg : ∀ s, ∀ i ∈ G.lids, g s i = some (h s i)) (s0 : σ) :
    (List.range G.size).foldlM st s0 = some (G.lids.foldl h s0) := by
  have hlen : G.size = G.lids.length := hG.symm
  have key : ∀ n ≤ G.lids.length, (List.range n).foldlM st s0 = some ((G.lids.take n).foldl h s0) := by
    intro n
    induction n with
    | zero => intro _; rfl
    | succ n ih =>
      intro hn
      have hlt : n < G.lids.length := by omega
      rw [List.range_succ, List.foldlM_append, ih (by omega)]
      have e : st ((G.lids.take n).foldl h s0) n = some (h ((G.lids.take n).foldl h s0) G.lids[n]) := by
        rw [hst]
        have : G.at (n : ℤ) = some G.lids[n] := by
          unfold Group.at
          rw [if_neg (by omega)]
          simp [hlt]
        rw [this]
        exact hg _ _ (List.getElem_mem hlt)
      have hb : (some ((G.lids.take n).foldl h s0) >>= fun s => List.foldlM st s [n]) = some (h ((G.lids.take n).foldl h s0) G.lids[n]) := by
        show List.foldlM st _ [n] = _
        rw [List.foldlM_cons, e]
        rfl
      rw [hb, List.take_succ_eq_append_getElem hlt, List.foldl_append]
      rfl
  rw [hlen, key _ le_rfl, List.take_length]

theorem foldl_total (l : List ℕ) (q : ℕ → ℝ) (a : ℝ) : l.foldl (fun s i => s + q i) a = a + total l q := by
  induction l generalizing a with
  | nil => simp [total]
  | cons i l ih => rw [List.foldl_cons, ih]; simp only [total, List.map_cons, List.sum_cons]; ring

theorem foldl_angular (l : List ℕ) (p q r : ℕ → ℝ) (s : Angular) :
    l.foldl (fun s i => (⟨s.inertia + p i, s.momentum + q i, s.torque + r i⟩ : Angular)) s =
      ⟨s.inertia + total l p, s.momentum + total l q, s.torque + total l r⟩ := by
  induction l generalizing s with
  | nil => simp [total]
  | cons i l ih =>
    rw [List.foldl_cons, ih]
    simp only [total, List.map_cons, List.sum_cons]
    congr 1 <;> ring

/-! ## C124 -/

/-- **C124, values (partial).** For a group of movable members in the box that is smaller than half of the box in the directions that wrap, wherever it lies across
the boundaries: the recorded torque is the sum of arm times force around the centre of mass, the moment of inertia and the angular momentum
are those around the centre of mass, with the arms between the unwrapped positions and their centre of mass.
Missing: groups that are spread over several processors and groups larger than half of the box, see the negations. -/
theorem C124_values_partial (hd : 1 < d) (W : World d) (G : Group) (hG : OK G) (hne : G.size ≠ 0) (him : ∀ i ∈ G.lids, 0 < W.im i)
    (hbox : InBox W G.lids) (y : ℕ → Fin d → ℝ) (hy : Unwrapped W G.lids y) :
    let arm := fun i k => y i k - centre W G.lids y k
    torque W G = some (total G.lids fun i => wedge hd (arm i) (W.f i)) ∧
    ∃ a, angular W G = some a ∧ a.inertia = (total G.lids fun i => 1 / W.im i * ∑ k, arm i k ^ 2) ∧
      a.momentum = (total G.lids fun i => 1 / W.im i * wedge hd (arm i) (W.v i)) ∧
      a.torque = (total G.lids fun i => wedge hd (arm i) (W.f i)) := by
  intro arm
  obtain ⟨c, e, hc⟩ := arms W G hG hne him hbox y hy
  constructor
  · unfold torque
    rw [e, Option.bind_some, fold_range G hG (fun s id => (cross (disp W (W.x id) c) (W.f id)).map fun t => s + t)
      (fun s i => s + wedge hd (arm i) (W.f i)) (torqueStep W G c) (fun _ _ => rfl)]
    · rw [foldl_total, zero_add]
    · intro s i hi
      rw [hc i hi, cross_eq hd]
      rfl
  · refine ⟨⟨_, _, _⟩, ?_, rfl, rfl, rfl⟩
    unfold angular
    rw [e, Option.bind_some, fold_range G hG (fun (s : Angular) id => open Classical in if W.im id = 0 then none else
        (cross (disp W (W.x id) c) (fun k => 1 / W.im id * W.v id k)).bind fun l =>
        (cross (disp W (W.x id) c) (W.f id)).map fun t =>
          ⟨s.inertia + 1 / W.im id * dot (disp W (W.x id) c) (disp W (W.x id) c), s.momentum + l, s.torque + t⟩)
      (fun (s : Angular) i => ⟨s.inertia + 1 / W.im i * dot (arm i) (arm i), s.momentum + wedge hd (arm i) (fun k => 1 / W.im i * W.v i k),
        s.torque + wedge hd (arm i) (W.f i)⟩) (angularStep W G c) (fun _ _ => rfl)]
    · rw [foldl_angular G.lids (fun i => 1 / W.im i * dot (arm i) (arm i)) (fun i => wedge hd (arm i) (fun k => 1 / W.im i * W.v i k))
        (fun i => wedge hd (arm i) (W.f i))]
      have e1 : (total G.lids fun i => 1 / W.im i * dot (arm i) (arm i)) = total G.lids fun i => 1 / W.im i * ∑ k, arm i k ^ 2 := by
        refine total_congr fun i _ => ?_
        unfold dot
        congr 1
        exact Finset.sum_congr rfl fun k _ => by ring
      have e2 : (total G.lids fun i => wedge hd (arm i) (fun k => 1 / W.im i * W.v i k)) =
          total G.lids fun i => 1 / W.im i * wedge hd (arm i) (W.v i) :=
        total_congr fun i _ => by unfold wedge; ring
      simp only [zero_add, e1, e2]
      rfl
    · intro s i hi
      rw [if_neg (him i hi).ne', hc i hi, cross_eq hd, cross_eq hd]
      rfl

theorem arm_sum (W : World d) (l : List ℕ) (hne : l ≠ []) (him : ∀ i ∈ l, 0 < W.im i) (y : ℕ → Fin d → ℝ) (k : Fin d) :
    (total l fun i => 1 / W.im i * (y i k - centre W l y k)) = 0 := by
  have hp := total_pos W.im l hne him
  have : (total l fun i => 1 / W.im i * (y i k - centre W l y k)) =
      (total l fun i => 1 / W.im i * y i k) + total l (fun i => 1 / W.im i * (-centre W l y k)) := by
    rw [← total_add]; exact total_congr fun i _ => by ring
  rw [this, total_mul]
  unfold centre
  field_simp
  ring

theorem size_ne {G : Group} (hG : OK G) (hne : G.size ≠ 0) : G.lids ≠ [] := by
  intro h; apply hne; unfold Group.size; rw [← hG, h]; rfl

/-- A force that gives all members the same acceleration (gravity, `addAcceleration`) has no torque. -/
theorem C124_uniform (hd : 1 < d) (W : World d) (G : Group) (hG : OK G) (hne : G.size ≠ 0) (him : ∀ i ∈ G.lids, 0 < W.im i)
    (hbox : InBox W G.lids) (y : ℕ → Fin d → ℝ) (hy : Unwrapped W G.lids y) (A : Fin d → ℝ)
    (hA : ∀ i ∈ G.lids, ∀ k, W.f i k = 1 / W.im i * A k) : torque W G = some 0 := by
  rw [(C124_values_partial hd W G hG hne him hbox y hy).1]
  congr 1
  have hs := arm_sum W G.lids (size_ne hG hne) him y
  have : (total G.lids fun i => wedge hd (fun k => y i k - centre W G.lids y k) (W.f i)) =
      (total G.lids fun i => 1 / W.im i * (y i ⟨0, by omega⟩ - centre W G.lids y ⟨0, by omega⟩)) * A ⟨1, hd⟩ +
      (total G.lids fun i => 1 / W.im i * (y i ⟨1, hd⟩ - centre W G.lids y ⟨1, hd⟩)) * (-A ⟨0, by omega⟩) := by
    rw [← total_mul, ← total_mul, ← total_add]
    refine total_congr fun i hi => ?_
    unfold wedge
    rw [hA i hi, hA i hi]
    ring
  rw [this, hs, hs]
  ring

theorem total_swap (l m : List ℕ) (q : ℕ → ℕ → ℝ) : (total l fun i => total m fun j => q i j) = total m fun j => total l fun i => q i j := by
  induction l with
  | nil => simp only [total, List.map_nil, List.sum_nil]; exact (total_zero m).symm
  | cons a l ih =>
    have : (total m fun j => total (a :: l) fun i => q i j) = (total m fun j => q a j) + total m fun j => total l fun i => q i j := by
      rw [← total_add]; rfl
    rw [this, ← ih]
    rfl

theorem wedge_total (hd : 1 < d) (a : Fin d → ℝ) (l : List ℕ) (b : ℕ → Fin d → ℝ) :
    wedge hd a (fun k => total l fun j => b j k) = total l fun j => wedge hd a (b j) := by
  induction l with
  | nil => simp [total, wedge]
  | cons i l ih => simp only [total, List.map_cons, List.sum_cons, wedge] at ih ⊢; rw [← ih]; ring

/-- Forces between the members along their connections, equal and opposite for each pair, have no torque. -/
theorem C124_internal (hd : 1 < d) (W : World d) (G : Group) (hG : OK G) (hne : G.size ≠ 0) (him : ∀ i ∈ G.lids, 0 < W.im i)
    (hbox : InBox W G.lids) (y : ℕ → Fin d → ℝ) (hy : Unwrapped W G.lids y) (φ : ℕ → ℕ → ℝ) (hφ : ∀ i j, φ i j = φ j i)
    (hF : ∀ i ∈ G.lids, ∀ k, W.f i k = total G.lids fun j => φ i j * (y i k - y j k)) : torque W G = some 0 := by
  rw [(C124_values_partial hd W G hG hne him hbox y hy).1]
  congr 1
  set c := centre W G.lids y
  have h1 : (total G.lids fun i => wedge hd (fun k => y i k - c k) (W.f i)) =
      total G.lids fun i => total G.lids fun j => wedge hd (fun k => y i k - c k) (fun k => φ i j * (y i k - y j k)) := by
    refine total_congr fun i hi => ?_
    rw [← wedge_total]
    unfold wedge
    rw [hF i hi, hF i hi]
  have h2 : (total G.lids fun i => total G.lids fun j => wedge hd (fun k => y i k - c k) (fun k => φ i j * (y i k - y j k))) +
      (total G.lids fun i => total G.lids fun j => wedge hd (fun k => y i k - c k) (fun k => φ i j * (y i k - y j k))) = 0 := by
    conv_lhs => rhs; rw [total_swap]
    rw [← total_add]
    rw [total_congr (q := fun _ => 0), total_zero]
    intro i _
    rw [← total_add, total_congr (q := fun _ => 0), total_zero]
    intro j _
    unfold wedge
    rw [hφ j i]
    ring
  rw [h1]
  linarith

/-- The angular momentum does not depend on a common velocity of the members. -/
theorem C124_frame (hd : 1 < d) (W : World d) (G : Group) (hG : OK G) (hne : G.size ≠ 0) (him : ∀ i ∈ G.lids, 0 < W.im i)
    (hbox : InBox W G.lids) (y : ℕ → Fin d → ℝ) (hy : Unwrapped W G.lids y) (V : Fin d → ℝ) :
    ∃ a b, angular W G = some a ∧ angular ({ W with v := fun i k => W.v i k + V k } : World d) G = some b ∧ a.momentum = b.momentum := by
  obtain ⟨_, a, ea, _, a2, _⟩ := C124_values_partial hd W G hG hne him hbox y hy
  obtain ⟨_, b, eb, _, b2, _⟩ := C124_values_partial hd ({ W with v := fun i k => W.v i k + V k } : World d) G hG hne him hbox y
    ⟨hy.image, hy.small⟩
  refine ⟨a, b, ea, eb, ?_⟩
  rw [a2, b2]
  have hs := arm_sum W G.lids (size_ne hG hne) him y
  have : (total G.lids fun i => 1 / W.im i * wedge hd (fun k => y i k - centre W G.lids y k) (fun k => W.v i k + V k)) =
      (total G.lids fun i => 1 / W.im i * wedge hd (fun k => y i k - centre W G.lids y k) (W.v i)) +
      ((total G.lids fun i => 1 / W.im i * (y i ⟨0, by omega⟩ - centre W G.lids y ⟨0, by omega⟩)) * V ⟨1, hd⟩ +
      (total G.lids fun i => 1 / W.im i * (y i ⟨1, hd⟩ - centre W G.lids y ⟨1, hd⟩)) * (-V ⟨0, by omega⟩)) := by
    rw [← total_mul, ← total_mul, ← total_add, ← total_add]
    refine total_congr fun i _ => ?_
    unfold wedge
    ring
  have e : (total G.lids fun i => 1 / W.im i * wedge hd (fun k => y i k - centre W G.lids y k) (fun k => W.v i k + V k)) =
      total G.lids fun i => 1 / W.im i * wedge hd (fun k => y i k - centre W G.lids y k) (W.v i) := by
    rw [this, hs, hs]; ring
  exact e.symm

/-- The moment of inertia is not negative and is the smallest one around any point. -/
theorem C124_inertia (hd : 1 < d) (W : World d) (G : Group) (hG : OK G) (hne : G.size ≠ 0) (him : ∀ i ∈ G.lids, 0 < W.im i)
    (hbox : InBox W G.lids) (y : ℕ → Fin d → ℝ) (hy : Unwrapped W G.lids y) (z : Fin d → ℝ) :
    ∃ a, angular W G = some a ∧ 0 ≤ a.inertia ∧ a.inertia ≤ total G.lids fun i => 1 / W.im i * ∑ k, (y i k - z k) ^ 2 := by
  obtain ⟨_, a, ea, a1, _, _⟩ := C124_values_partial hd W G hG hne him hbox y hy
  have hne' := size_ne hG hne
  have hp := total_pos W.im G.lids hne' him
  have hs := arm_sum W G.lids hne' him y
  have hm : ∀ i ∈ G.lids, 0 ≤ 1 / W.im i := fun i hi => by have := him i hi; positivity
  refine ⟨a, ea, ?_, ?_⟩
  · rw [a1]
    have := total_le G.lids (fun _ => 0) (fun i => 1 / W.im i * ∑ k, (y i k - centre W G.lids y k) ^ 2) fun i hi =>
      mul_nonneg (hm i hi) (Finset.sum_nonneg fun k _ => sq_nonneg _)
    rwa [total_zero] at this
  · rw [a1]
    set c := centre W G.lids y
    have swap : ∀ q : ℕ → Fin d → ℝ, (total G.lids fun i => ∑ k, q i k) = ∑ k, total G.lids fun i => q i k := by
      intro q
      induction G.lids with
      | nil => simp [total]
      | cons i l ih => simp only [total, List.map_cons, List.sum_cons] at ih ⊢; rw [ih, Finset.sum_add_distrib]
    simp only [Finset.mul_sum]
    rw [swap, swap]
    refine Finset.sum_le_sum fun k _ => ?_
    have e : (total G.lids fun i => 1 / W.im i * (y i k - z k) ^ 2) = (total G.lids fun i => 1 / W.im i * (y i k - c k) ^ 2) +
        ((total G.lids fun i => 1 / W.im i * (y i k - c k)) * (2 * (c k - z k)) + (total G.lids fun i => 1 / W.im i) * (c k - z k) ^ 2) := by
      rw [← total_mul, ← total_mul, ← total_add, ← total_add]
      exact total_congr fun i _ => by ring
    rw [e, hs k]
    nlinarith [sq_nonneg (c k - z k), mul_nonneg hp.le (sq_nonneg (c k - z k))]

/-- A square of the box `[0,10]²` that wraps, two unit masses at 9 and 1 with forces up and down: the group lies across the boundary. -/
noncomputable def world2 : World 2 :=
  ⟨some, fun i _ => if i = 0 then 9 else 1, fun _ _ => 0, fun i k => if k = 0 then 0 else if i = 0 then 1 else -1, fun _ => 1, fun _ => 0, fun _ => 10, fun _ => true⟩

/-- The unwrapped positions of `world2`. -/
noncomputable def y2 (i : ℕ) (_ : Fin 2) : ℝ := if i = 0 then 9 else 11

/-- The group of `world2`. -/
def group2 : Group := ⟨[0, 1], [0, 1]⟩

theorem world2_ok : OK group2 ∧ group2.size ≠ 0 ∧ (∀ i ∈ group2.lids, 0 < world2.im i) ∧ InBox world2 group2.lids ∧ Unwrapped world2 group2.lids y2 := by
  refine ⟨rfl, by decide, fun i _ => by simp [world2], ?_, ?_⟩
  · intro i hi k
    simp only [group2, List.mem_cons, List.not_mem_nil, or_false] at hi
    rcases hi with rfl | rfl <;> norm_num [world2]
  · refine ⟨?_, ?_⟩
    · intro i hi k
      simp only [group2, List.mem_cons, List.not_mem_nil, or_false] at hi
      rcases hi with rfl | rfl
      · exact ⟨0, by norm_num [world2, y2], fun _ => rfl⟩
      · exact ⟨1, by norm_num [world2, y2], fun h => by simp [world2] at h⟩
    · intro i hi j hj k _
      simp only [group2, List.mem_cons, List.not_mem_nil, or_false] at hi hj
      rcases hi with rfl | rfl <;> rcases hj with rfl | rfl <;> norm_num [world2, y2, abs_of_neg]

/-- The hypotheses of the theorems above are met by a group across the boundary, and its torque is the physical one. -/
theorem world2_torque : torque world2 group2 = some (-2) := by
  obtain ⟨h1, h2, h3, h4, h5⟩ := world2_ok
  rw [(C124_values_partial (by norm_num) world2 group2 h1 h2 h3 h4 y2 h5).1]
  simp [group2, total, wedge, centre, y2, world2]
  norm_num

example : ∃ A : Fin 2 → ℝ, ∀ i ∈ group2.lids, ∀ k, ({ world2 with f := fun _ _ => 3 } : World 2).f i k = 1 / ({ world2 with f := fun _ _ => 3 } : World 2).im i * A k :=
  ⟨fun _ => 3, fun i _ k => by simp [world2]⟩

example : ∀ i ∈ group2.lids, ∀ k : Fin 2, ({ world2 with f := fun i k => total group2.lids fun j => 5 * (y2 i k - y2 j k) } : World 2).f i k =
    total group2.lids fun j => (fun _ _ => (5 : ℝ)) i j * (y2 i k - y2 j k) := fun _ _ _ => rfl

/-! ## What does not hold -/

/-- The torque of a single movable member in the box is zero. -/
theorem single_torque (hd : 1 < d) (W : World d) (g i : ℕ) (him : 0 < W.im i) (hbox : ∀ k, W.lo k ≤ W.x i k ∧ W.x i k ≤ W.hi k ∧ W.lo k < W.hi k) :
    torque W ⟨[g], [i]⟩ = some 0 := by
  have hy : Unwrapped W [i] W.x := by
    refine ⟨fun j _ k => ⟨0, by simp, fun _ => rfl⟩, fun a ha b hb k _ => ?_⟩
    have h1 := List.mem_singleton.1 ha
    have h2 := List.mem_singleton.1 hb
    subst h1; subst h2
    rw [sub_self, abs_zero]
    have := (hbox k).2.2
    linarith
  rw [(C124_values_partial hd W ⟨[g], [i]⟩ rfl (by simp [Group.size]) (by simpa using him)
    (fun j hj k => by rw [List.mem_singleton.1 hj]; exact ⟨(hbox k).1, (hbox k).2.1⟩) W.x hy).1]
  congr 1
  simp only [total, List.map_cons, List.map_nil, List.sum_cons, List.sum_nil, centre, wedge]
  have : W.im i ≠ 0 := him.ne'
  field_simp
  ring

/-- **On several processors the torque is wrong.** If every member is on its own processor, the recorded torque is zero, whatever the forces are. -/
theorem C124_negation_processors (hd : 1 < d) (ranks : List (World d × ℕ × ℕ))
    (h : ∀ r ∈ ranks, 0 < r.1.im r.2.2 ∧ ∀ k, r.1.lo k ≤ r.1.x r.2.2 k ∧ r.1.x r.2.2 k ≤ r.1.hi k ∧ r.1.lo k < r.1.hi k) :
    gatheredTorque (ranks.map fun r => (r.1, (⟨[r.2.1], [r.2.2]⟩ : Group))) = some 0 := by
  unfold gatheredTorque
  have : ((ranks.map fun r => (r.1, (⟨[r.2.1], [r.2.2]⟩ : Group))).mapM fun r => torque r.1 r.2) = some (List.replicate ranks.length 0) := by
    induction ranks with
    | nil => rfl
    | cons r rs ih =>
      rw [List.map_cons, List.mapM_cons, single_torque hd r.1 r.2.1 r.2.2 (h r (List.mem_cons_self ..)).1 (h r (List.mem_cons_self ..)).2,
        ih fun q hq => h q (List.mem_cons_of_mem _ hq)]
      rfl
  rw [this]
  simp

/-- The same two particles: on one processor the torque is -2, on two it is 0. -/
example : torque world2 group2 = some (-2) ∧ gatheredTorque [(world2, (⟨[0], [0]⟩ : Group)), (world2, ⟨[1], [1]⟩)] = some 0 := by
  refine ⟨world2_torque, ?_⟩
  refine C124_negation_processors (by norm_num) [(world2, 0, 0), (world2, 1, 1)] ?_
  intro r hr
  simp only [List.mem_cons, List.not_mem_nil, or_false] at hr
  rcases hr with rfl | rfl
  · refine ⟨by norm_num [world2], fun k => by norm_num [world2]⟩
  · refine ⟨by norm_num [world2], fun k => by norm_num [world2]⟩

/-- In one dimension the record reads outside of the vectors for every group with members. -/
theorem C124_negation_line (W : World 1) (G : Group) (hG : OK G) (hne : G.size ≠ 0) : torque W G = none := by
  unfold torque
  cases hc : G.centerOfMass W with
  | none => rfl
  | some c =>
    rw [Option.bind_some]
    obtain ⟨n, hn⟩ : ∃ n, G.size = n + 1 := ⟨G.size - 1, by omega⟩
    rw [hn, List.range_succ_eq_map, List.foldlM_cons]
    have hlen : 0 < G.lids.length := by rw [hG]; exact Nat.pos_of_ne_zero hne
    have : torqueStep W G c 0 0 = none := by
      unfold torqueStep cross
      simp
    rw [this]
    rfl

example : OK (⟨[0], [0]⟩ : Group) ∧ (⟨[0], [0]⟩ : Group).size ≠ 0 := ⟨rfl, by decide⟩

end Verif.GroupAngular
