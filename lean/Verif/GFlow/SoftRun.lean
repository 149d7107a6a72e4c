import Verif.GFlow.SoftMotion
import Verif.Data.Observables

/-!
# C171: soft spheres move for all times, keep their energy, and simulations follow them

The interaction of most setup files is `HardSphere`: spheres that repel like springs while they overlap. The forces have a corner where spheres begin to touch and jump where centres coincide, so theorems that suppose smooth forces say little about them. Here: if
the energy at the start is below that which presses two centres together, nothing has to be supposed about the motion.
-/

set_option linter.unusedSectionVars false
set_option linter.unusedVariables false

namespace Verif.SoftSpheres
open Verif.Cells Verif.Grid Verif.Stencil Verif.ForceMaster Verif.PairForces Verif.Handlers Verif.ForceSum Verif.Verlet
open Verif.Trajectory Verif.Convergence Verif.Symmetry Verif.TrueMotion
open Set (Icc Ico Ioc Ioi)

variable {d : ℕ}

/-! ## Specification -/

/-- Spec: the coordinates of an array of vectors. -/
def coords (x : ℕ → Fin d → ℝ) : ℕ × Fin d → ℝ := fun j => x j.1 j.2

/-- Spec: no particle is exactly on a wrapping side of the box or of one of its images. -/
def OffSides (s : Setup d) (x : ℕ → Fin d → ℝ) : Prop :=
  ∀ i, s.Alive i → ∀ k, (s.g k).per = true → ∀ z : ℤ, x i k ≠ (s.g k).lo + z * ((s.g k).hi - (s.g k).lo)

/-- Spec: when lists are constructed no particle is exactly on a wrapping side. -/
def Off (s : Setup d) (h : List Call) (im : ℕ → ℝ) : List (ℝ × Bool) → Motion d → Prop
  | [], _ => True
  | (dt, r) :: l, M => (r = true → OffSides s (ideal s h im dt M).x) ∧ Off s h im l (ideal s h im dt M)

/-- Spec: lists are never used for a longer time than `τ` after their construction; `a` is their age. -/
def Recent (τ : ℝ) : ℝ → List (ℝ × Bool) → Prop
  | _, [] => True
  | a, (dt, r) :: l => (r = false → a + dt ≤ τ) ∧ Recent τ (if r then 0 else a + dt) l

/-! ## Model: the energy that is recorded -/

/-- What `TotalEnergyData` reads after a step (`dataobjects/graphobjects/total-energy-data.cpp:18-38`) on one processor: the particles, and the potential energy `P` of the force master. Simplified: no boundary energy (`gflow.cpp:1015-1105`, no
repulsive sides) and no bonded interactions. -/
noncomputable def rankAt (s : Setup d) (e : Env) (st : St) (P : ℝ) : Observables.Rank d :=
  ⟨(List.range s.number).map fun i => ⟨s.type i, e.im i, s.rd i, 0, parts d st.x i, parts d st.v i⟩, 0, [P], [], 0, []⟩

/-- The entry of `TotalEnergyData::post_step` (`dataobjects/graphobjects/total-energy-data.cpp:14-58`, `base/forcemaster.cpp:39-48,83-89`) after the last step; `u` are the velocities when forces were calculated (`velocity-verlet.tpp:11-105`: between the
half kicks). -/
noncomputable def recorded (s : Setup d) (T : FM ℝ) (e : Env) (u : ℕ → Fin d → ℝ) (st : St) : Option ℝ :=
  (s.energy T true e.doVir e.old st.lists ⟨parts d st.x, u, s.rd, e.im⟩ fun _ _ => 0).bind fun P => Observables.totalEntry false false [rankAt s e st P]

/-! ## Exact motions -/

section exact
variable {s : Setup d} {h : List Call} {x0 : ℕ → Fin d → ℝ} (hok : s.OK h x0) (href : AllReflexive h) (hs : Soft s h) (im : ℕ → ℝ) (him : ∀ i, s.Alive i → 0 < im i)
include hok href hs him

/-- **C171, energy.** Every exact motion of soft spheres that starts below the threshold keeps its energy. -/
theorem C171_energy {T : ℝ} {X V : ℝ → ℕ × Fin d → ℝ} (hx : Solves (Coord s) (newton s h im) T X V) (hE : Below s h (energy s h im (X 0) (V 0))) (t : ℝ) (ht : t ∈ Icc 0 T) :
    energy s h im (X t) (V t) = energy s h im (X 0) (V 0) :=
  exact_keeps hok href hs im him hx hE t ht

/-- **C171, existence.** From every initial state below the threshold there is an exact motion for every length of time, and the centres of interacting particles stay apart by a distance that depends only on the energy. -/
theorem C171_exists (y w : ℕ × Fin d → ℝ) (hE : Below s h (energy s h im y w)) : ∃ δ > 0, ∀ T, 0 ≤ T →
    ∃ X V, Solves (Coord s) (newton s h im) T X V ∧ (∀ j, Coord s j → X 0 j = y j ∧ V 0 j = w j) ∧ ∀ t ∈ Icc 0 T, Clear s h δ (X t) := by
  obtain ⟨δ, vm, hδ, hvm, hth⟩ := threshold hok href hs im him hE
  refine ⟨2 * δ, by positivity, fun T hT => ?_⟩
  obtain ⟨X, V, h1, h2⟩ := solves_exist hok href hs im him hT y w hE
  have he : energy s h im (X 0) (V 0) = energy s h im y w := energy_congr hok href hs im (fun j hj => (h2 j hj).1) fun j hj => (h2 j hj).2
  refine ⟨X, V, h1, h2, fun t ht => (hth (X t) (V t) ?_).1⟩
  rw [← he] at hE ⊢
  exact exact_keeps hok href hs im him h1 hE t ht

omit hok href hs him in
theorem point_coords (im : ℕ → ℝ) (y w : ℕ × Fin d → ℝ) : (point im ⟨fun i k => y (i, k), fun i k => w (i, k), fun _ _ => 0⟩ : Pt (ℕ × Fin d)) = ⟨y, w, fun _ => 0⟩ := by
  unfold point
  simp

/-- What `first_order` (C156) says about an exact motion of soft spheres. -/
theorem close {T : ℝ} {X V : ℝ → ℕ × Fin d → ℝ} (hx : Solves (Coord s) (newton s h im) T X V) (hE : Below s h (energy s h im (X 0) (V 0))) (R : ℝ) (hR : 0 ≤ R) :
    ∃ δ vm C H₀ : ℝ, 0 < δ ∧ 0 < vm ∧ 0 ≤ C ∧ 0 < H₀ ∧ (∀ t ∈ Icc 0 T, Clear s h (2 * δ) (X t)) ∧ (∀ t ∈ Icc 0 T, ∀ j, Coord s j → |V t j| ≤ vm) ∧
      ∀ H : ℝ, 0 < H → H ≤ H₀ → ∀ l : List ℝ, (∀ dt ∈ l, 0 ≤ dt ∧ dt ≤ H) → l.sum ≤ T → ∀ p q : Pt (ℕ × Fin d),
      (∀ j, Coord s j → p.x j = X 0 j ∧ p.v j = V 0 j ∧ |p.c j - newton s h im (X 0) (V 0) j| ≤ R) → Chain (Coord s) (newton s h im) l p q →
      ∀ j, Coord s j → |q.x j - X l.sum j| ≤ C * H ∧ |q.v j - V l.sum j| ≤ C * H := by
  obtain ⟨δ, vm, hδ, hvm, hth⟩ := threshold hok href hs im him hE
  have hk := exact_keeps hok href hs im him hx hE
  have hc : ∀ t ∈ Icc 0 T, Clear s h (2 * δ) (X t) := fun t ht => (hth _ _ (hk t ht)).1
  have hv : ∀ t ∈ Icc 0 T, ∀ j, Coord s j → |V t j| ≤ vm := fun t ht => (hth _ _ (hk t ht)).2
  obtain ⟨A, B, L, ρ, hA, hB, hL, hρ, _, hm, ht⟩ := regular hok href hs im hδ hvm.le hx hc hv
  obtain ⟨C, H₀, hH₀, key⟩ := first_order hx hm ht hA hB hL hρ R hR
  refine ⟨δ, vm, max C 0, H₀, hδ, hvm, le_max_right _ _, hH₀, hc, hv, fun H hH hle l hl hsum p q hp hq j hj => ?_⟩
  obtain ⟨k1, k2⟩ := key H hH hle l hl hsum p q hp hq j hj
  have := mul_le_mul_of_nonneg_right (le_max_left C 0) hH.le
  exact ⟨k1.trans this, k2.trans this⟩

omit hok href hs him in
theorem acc_bound (s : Setup d) (a c : ℕ × Fin d → ℝ) : ∃ R : ℝ, 0 ≤ R ∧ ∀ j, Coord s j → |c j - a j| ≤ R := by
  refine ⟨∑ i ∈ Finset.range s.number, ∑ k : Fin d, |c (i, k) - a (i, k)|, Finset.sum_nonneg fun _ _ => Finset.sum_nonneg fun _ _ => abs_nonneg _, ?_⟩
  rintro ⟨i, k⟩ hi
  have h1 := Finset.single_le_sum (f := fun k => |c (i, k) - a (i, k)|) (fun _ _ => abs_nonneg _) (Finset.mem_univ k)
  have h2 := Finset.single_le_sum (f := fun i => ∑ k : Fin d, |c (i, k) - a (i, k)|) (fun _ _ => Finset.sum_nonneg fun _ _ => abs_nonneg _) (Finset.mem_range.mpr hi.1)
  exact h1.trans h2

/-- **C171, determinism.** Exact motions below the threshold are determined by their initial states. -/
theorem C171_unique {T : ℝ} {X V X' V' : ℝ → ℕ × Fin d → ℝ} (hx : Solves (Coord s) (newton s h im) T X V) (hx' : Solves (Coord s) (newton s h im) T X' V')
    (hE : Below s h (energy s h im (X 0) (V 0))) (h0 : ∀ j, Coord s j → X 0 j = X' 0 j ∧ V 0 j = V' 0 j) (t : ℝ) (ht : t ∈ Icc 0 T) (j : ℕ × Fin d) (hj : Coord s j) :
    X t j = X' t j ∧ V t j = V' t j := by
  have hE' : Below s h (energy s h im (X' 0) (V' 0)) := by
    rwa [← energy_congr hok href hs im (fun j hj => (h0 j hj).1) fun j hj => (h0 j hj).2]
  rcases ht.1.eq_or_lt with rfl | htp
  · exact h0 j hj
  obtain ⟨R, hR, hR1⟩ := acc_bound s (newton s h im (X 0) (V 0)) (fun _ => 0)
  obtain ⟨R', hR', hR1'⟩ := acc_bound s (newton s h im (X' 0) (V' 0)) (fun _ => 0)
  obtain ⟨_, _, C, H₀, _, _, hC, hH₀, _, _, key⟩ := close hok href hs im him hx hE R hR
  obtain ⟨_, _, C', H₀', _, _, hC', hH₀', _, _, key'⟩ := close hok href hs im him hx' hE' R' hR'
  have hlim : Filter.Tendsto (fun n : ℕ => (C + C') * (t / n)) Filter.atTop (nhds 0) := by
    have := (tendsto_const_div_atTop_nhds_zero_nat t).const_mul (C + C')
    simpa using this
  have hsm : ∀ᶠ n : ℕ in Filter.atTop, t / n ≤ min H₀ H₀' ∧ 0 < n := by
    have h1 := (tendsto_const_div_atTop_nhds_zero_nat t).eventually (gt_mem_nhds (lt_min hH₀ hH₀'))
    filter_upwards [h1, Filter.eventually_gt_atTop 0] with n a b using ⟨le_of_lt a, b⟩
  have hb : ∀ᶠ n : ℕ in Filter.atTop, |X t j - X' t j| ≤ (C + C') * (t / n) ∧ |V t j - V' t j| ≤ (C + C') * (t / n) := by
    filter_upwards [hsm] with n hn
    have hn' : (0 : ℝ) < n := by exact_mod_cast hn.2
    have hH : 0 < t / n := by positivity
    set l : List (ℝ × Bool) := List.replicate n (t / n, false) with hl
    have hmap : l.map Prod.fst = List.replicate n (t / n) := by rw [hl, List.map_replicate]
    have hsum : (l.map Prod.fst).sum = t := by
      rw [hmap, List.sum_replicate, nsmul_eq_mul]; field_simp
    have hst : ∀ dt ∈ l.map Prod.fst, 0 ≤ dt ∧ dt ≤ t / n := by
      intro dt hdt
      rw [hmap] at hdt
      rw [List.eq_of_mem_replicate hdt]
      exact ⟨hH.le, le_rfl⟩
    have hch := ideal_chain s h im l ⟨fun i k => X 0 (i, k), fun i k => V 0 (i, k), fun _ _ => 0⟩
    rw [point_coords] at hch
    have k1 := key (t / n) hH (hn.1.trans (min_le_left _ _)) _ hst (by rw [hsum]; exact ht.2) _ _ (fun j hj => ⟨rfl, rfl, hR1 j hj⟩) hch j hj
    have k2 := key' (t / n) hH (hn.1.trans (min_le_right _ _)) _ hst (by rw [hsum]; exact ht.2) _ _ (fun j hj => ⟨(h0 j hj).1, (h0 j hj).2, hR1' j hj⟩) hch j hj
    rw [hsum] at k1 k2
    obtain ⟨a1, a2⟩ := k1
    obtain ⟨b1, b2⟩ := k2
    rw [abs_le] at a1 a2 b1 b2
    constructor
    · rw [abs_le]; constructor <;> linarith [a1.1, a1.2, b1.1, b1.2]
    · rw [abs_le]; constructor <;> linarith [a2.1, a2.2, b2.1, b2.2]
  have c1 : |X t j - X' t j| ≤ 0 := ge_of_tendsto hlim (hb.mono fun n a => a.1)
  have c2 : |V t j - V' t j| ≤ 0 := ge_of_tendsto hlim (hb.mono fun n a => a.2)
  rw [abs_nonpos_iff, sub_eq_zero] at c1 c2
  exact ⟨c1, c2⟩

theorem energy_lip {vm : ℝ} (hvm : 0 ≤ vm) : ∃ K, 0 ≤ K ∧ ∀ (y y' w w' : ℕ × Fin d → ℝ) (ε : ℝ), 0 ≤ ε → ε ≤ 1 → (∀ j, Coord s j → |y j - y' j| ≤ ε) → (∀ j, Coord s j → |w j - w' j| ≤ ε) →
    (∀ j, Coord s j → |w' j| ≤ vm) → |energy s h im y w - energy s h im y' w'| ≤ K * ε := by
  refine ⟨(∑ i ∈ live s, ∑ _k : Fin d, 1 / 2 * (1 / im i) * (2 * vm + 1)) + 1 / 2 * ∑ i ∈ live s, ∑ j ∈ (live s).filter (· ≠ i), stiff s h i j * (s.rd i + s.rd j) * (d * 2), ?_, ?_⟩
  · refine add_nonneg (Finset.sum_nonneg fun i hi => Finset.sum_nonneg fun k _ => ?_) (mul_nonneg (by norm_num) (Finset.sum_nonneg fun i hi => Finset.sum_nonneg fun j hj => ?_))
    · have := him i (mem_live.mp hi); positivity
    · obtain ⟨j1, j2⟩ := Finset.mem_filter.mp hj
      have r := rd_sum hok href hs (mem_live.mp hi) (mem_live.mp j1)
      have k := stiff_nonneg hs (mem_live.mp hi) (mem_live.mp j1) (Ne.symm j2)
      positivity
  intro y y' w w' ε hε hε1 hy hw hv
  have hk : |kinetic s im w - kinetic s im w'| ≤ (∑ i ∈ live s, ∑ _k : Fin d, 1 / 2 * (1 / im i) * (2 * vm + 1)) * ε := by
    unfold kinetic
    rw [← Finset.sum_sub_distrib, Finset.sum_mul]
    refine (Finset.abs_sum_le_sum_abs _ _).trans (Finset.sum_le_sum fun i hi => ?_)
    rw [← Finset.sum_sub_distrib, Finset.sum_mul]
    refine (Finset.abs_sum_le_sum_abs _ _).trans (Finset.sum_le_sum fun k _ => ?_)
    have h1 := hw (i, k) (mem_live.mp hi)
    have h2 := hv (i, k) (mem_live.mp hi)
    have hi' := him i (mem_live.mp hi)
    have e : 1 / 2 * (1 / im i) * w (i, k) ^ 2 - 1 / 2 * (1 / im i) * w' (i, k) ^ 2 = 1 / 2 * (1 / im i) * ((w (i, k) - w' (i, k)) * ((w (i, k) - w' (i, k)) + 2 * w' (i, k))) := by ring
    rw [e, abs_mul, abs_of_nonneg (by positivity : 0 ≤ 1 / 2 * (1 / im i)), abs_mul, mul_assoc (1 / 2 * (1 / im i)) (2 * vm + 1)]
    refine mul_le_mul_of_nonneg_left ?_ (by positivity)
    have h3 : |w (i, k) - w' (i, k) + 2 * w' (i, k)| ≤ 2 * vm + 1 := by
      refine (abs_add_le _ _).trans ?_
      rw [abs_mul, abs_of_pos (by norm_num : (0 : ℝ) < 2)]
      linarith
    rw [mul_comm (2 * vm + 1)]
    exact mul_le_mul h1 h3 (abs_nonneg _) hε
  have hp : |potential s h y - potential s h y'| ≤ (1 / 2 * ∑ i ∈ live s, ∑ j ∈ (live s).filter (· ≠ i), stiff s h i j * (s.rd i + s.rd j) * (d * 2)) * ε := by
    unfold potential
    rw [← mul_sub, abs_mul, abs_of_pos (by norm_num : (0 : ℝ) < 1 / 2), mul_assoc]
    refine mul_le_mul_of_nonneg_left ?_ (by norm_num)
    rw [← Finset.sum_sub_distrib, Finset.sum_mul]
    refine (Finset.abs_sum_le_sum_abs _ _).trans (Finset.sum_le_sum fun i hi => ?_)
    rw [← Finset.sum_sub_distrib, Finset.sum_mul]
    refine (Finset.abs_sum_le_sum_abs _ _).trans (Finset.sum_le_sum fun j hj => ?_)
    obtain ⟨j1, j2⟩ := Finset.mem_filter.mp hj
    have r := rd_sum hok href hs (mem_live.mp hi) (mem_live.mp j1)
    have k := stiff_nonneg hs (mem_live.mp hi) (mem_live.mp j1) (Ne.symm j2)
    refine (bump_lip k r (gap_nonneg y i j) (gap_nonneg y' i j)).trans ?_
    rw [mul_assoc (stiff s h i j * (s.rd i + s.rd j))]
    refine mul_le_mul_of_nonneg_left ?_ (by positivity)
    have := gap_lip hok.valid y y' (i := i) (j := j) (fun k => hy (i, k) (mem_live.mp hi)) (fun k => hy (j, k) (mem_live.mp j1))
    linarith
  unfold energy
  rw [abs_le] at hk hp ⊢
  constructor <;> linarith [hk.1, hk.2, hp.1, hp.2]

end exact

/-! ## Whole simulations -/

section whole
variable {s : Setup d} {h : List Call} {T : FM ℝ}

/-- The end of a timely run (C129), with its lists. -/
theorem final (hr : InRange h) (href : AllReflexive h) (hT : run s.cut (.init :: h) = some T) (x v f : Arr) (hok : s.OK h fun i => home s (parts d x i)) (e : Env)
    (he : e.mode.OK) (hb : Buildable s h (parts d x)) (l : List (ℝ × Bool)) (ht : Timely s h e.im (parts d x) l ⟨parts d x, parts d v, parts d f⟩) :
    ∃ st, (start s T x v f).bind (steps s T e l) = some st ∧ ∃ X0', Inv s h T st (l.foldl (fun M a => ideal s h e.im a.1 M) ⟨parts d x, parts d v, parts d f⟩) X0' ∧
      ∀ i, s.Alive i → len ((l.foldl (fun M a => ideal s h e.im a.1 M) ⟨parts d x, parts d v, parts d f⟩).x i - X0' i) ≤ s.skin / 2 := by
  have hall : ∀ (l : List (ℝ × Bool)) (st : St) (M : Motion d) (X0 : ℕ → Fin d → ℝ), Inv s h T st M X0 → (∀ i, s.Alive i → len (M.x i - X0 i) ≤ s.skin / 2) →
      Timely s h e.im X0 l M → ∃ st', steps s T e l st = some st' ∧
        ∃ X0', Inv s h T st' (l.foldl (fun M a => ideal s h e.im a.1 M) M) X0' ∧ ∀ i, s.Alive i → len ((l.foldl (fun M a => ideal s h e.im a.1 M) M).x i - X0' i) ≤ s.skin / 2 := by
    intro l
    induction l with
    | nil => intro st M X0 hI hm _; exact ⟨st, rfl, X0, hI, hm⟩
    | cons a l ih =>
      obtain ⟨dt, r⟩ := a
      intro st M X0 hI hm ht
      obtain ⟨t1, t2, t3, t4⟩ := ht
      obtain ⟨st', e1, e2⟩ := step_inv hr href hT hok e he hI dt r t1 t2 t3
      obtain ⟨st'', e3, e4⟩ := ih st' _ _ e2 (fun i hi => by
        cases r with
        | false => simpa using t2 rfl i hi
        | true =>
          have := hok.skin_nonneg
          simp only [if_true, sub_self]
          simp [len, dot]; linarith) t4
      refine ⟨st'', ?_, e4⟩
      unfold steps
      rw [List.foldlM_cons]
      simp only [e1]
      exact e3
  obtain ⟨z', hz'⟩ := home_whole (s := s) hok.valid (parts d x)
  have eh := built (z := fun _ _ => 0) hok.valid hb (x := x) (fun i _ => ⟨fun _ _ => rfl, fun k => by simp⟩)
  have hp : ∀ i, s.Alive i → ∀ k, (s.g k).per = true →
      (s.g k).lo ≤ parts d (wrapFlat s x) i k ∧ parts d (wrapFlat s x) i k < (s.g k).hi := by
    intro i hi k hk
    rw [eh i hi]
    exact ⟨(home_range s hok.valid _ k hk).1, (home_range s hok.valid _ k hk).2.1⟩
  obtain ⟨lists, e1, _⟩ := lists_spec (ok_at hok hp) hr href hT
  have hI : Inv s h T ⟨wrapFlat s x, v, f, lists⟩ ⟨parts d x, parts d v, parts d f⟩ (parts d x) := by
    refine ⟨fun _ _ => rfl, fun _ _ => rfl, z', parts d (wrapFlat s x), e1, hp, ?_, ?_⟩
    · intro i j hi hj hij p hp
      rw [eh i hi, eh j hj]
      exact hb.2 i j hi hj hij p hp
    · intro i hi
      refine ⟨(hz' i).1, fun k => ?_⟩
      simp only
      rw [eh i hi]
      exact ⟨(hz' i).2 k, (hz' i).2 k⟩
  obtain ⟨st, e2, e3⟩ := hall l _ _ _ hI (fun i _ => by
    have := hok.skin_nonneg
    simp only [sub_self]
    simp [len, dot]; linarith) ht
  refine ⟨st, ?_, e3⟩
  unfold start
  rw [e1]
  exact e2

theorem soft_cut (hs : Soft s h) {x : ℕ → Fin d → ℝ} (hx : OffSides s x) : Buildable s h x :=
  ⟨hx, fun i j hi hj hij p hp => Or.inl (hs i j hi hj hij p hp).1.le⟩

theorem clear_separate (hs : Soft s h) {δ : ℝ} (hδ : 0 < δ) {x : ℕ → Fin d → ℝ} (hc : Clear s h δ (coords x)) : Separate s h x := by
  intro i j hi hj hij hp hn
  have h1 := hc i j hi hj hij (stiff_ne hs hi hj hij hp)
  have h2 : gap s (coords x) i j = 0 := by
    unfold gap coords
    rw [show (fun k => x i k - x j k) = x i - x j from rfl, hn]
    exact (len_zero_iff _).mpr rfl
  linarith

theorem total_range (P : ℕ → Observables.P d) (n : ℕ) :
    Observables.total Observables.ke (Observables.movable ((List.range n).map P)) = ∑ i ∈ Finset.range n, if 0 < (P i).im ∧ 0 ≤ (P i).type then Observables.ke (P i) else 0 := by
  induction n with
  | zero => simp [Observables.movable, Observables.total]
  | succ n ih =>
    rw [List.range_succ, List.map_append, Observables.movable_append, Observables.total_append, ih, Finset.sum_range_succ]
    congr 1
    by_cases hc : 0 < (P n).im ∧ 0 ≤ (P n).type
    · simp [Observables.movable, Observables.total, hc]
    · simp [Observables.movable, Observables.total, hc]

theorem kinetic_range (e : Env) (him : ∀ i, s.Alive i → 0 < e.im i) (st : St) (P : ℝ) :
    Observables.total Observables.ke (Observables.movable (Observables.everyone [rankAt s e st P])) = kinetic s e.im (coords (parts d st.v)) := by
  have : Observables.everyone [rankAt s e st P] = (List.range s.number).map fun i => ⟨s.type i, e.im i, s.rd i, 0, parts d st.x i, parts d st.v i⟩ := by
    simp [Observables.everyone, rankAt]
  rw [this, total_range]
  unfold kinetic live
  rw [Finset.sum_filter]
  refine Finset.sum_congr rfl fun i hi => ?_
  simp only
  by_cases ht : 0 ≤ s.type i
  · have ha : s.Alive i := ⟨Finset.mem_range.mp hi, ht⟩
    rw [if_pos ⟨him i ha, ht⟩, if_pos ht]
    simp only [Observables.ke, Observables.mass, coords]
    rw [Finset.mul_sum]
  · rw [if_neg (fun hc => ht hc.2), if_neg ht]

/-- The recorded energy at the end of a run. -/
theorem recorded_at (hr : InRange h) (href : AllReflexive h) (hT : run s.cut (.init :: h) = some T) {x0 : ℕ → Fin d → ℝ} (hok : s.OK h x0) (hs : Soft s h) (e : Env)
    (him : ∀ i, s.Alive i → 0 < e.im i) {st : St} {M : Motion d} {X0 : ℕ → Fin d → ℝ} (hI : Inv s h T st M X0) (hm : ∀ i, s.Alive i → len (M.x i - X0 i) ≤ s.skin / 2)
    (hsep : Separate s h M.x) (u : ℕ → Fin d → ℝ) : recorded s T e u st = some (energy s h e.im (coords M.x) (coords M.v)) := by
  obtain ⟨hv, _, z, y0, l0, p0, c0, q0⟩ := hI
  have hnear : ∀ i j, s.Alive i → s.Alive j → nearest s.g (parts d st.x i - parts d st.x j) = nearest s.g (M.x i - M.x j) := by
    intro i j hi hj
    refine nearest_lattice s hok.valid fun k => ⟨z i k - z j k, fun hk => ?_, ?_⟩
    · rw [(q0 i hi).1 k hk, (q0 j hj).1 k hk, sub_self]
    · simp only [Pi.sub_apply]
      rw [((q0 i hi).2 k).1, ((q0 j hj).2 k).1]
      push_cast
      ring
  obtain ⟨lists, e1, e2⟩ := C128_energy_partial s h hr href T hT y0 (ok_at hok p0) ⟨parts d st.x, u, s.rd, e.im⟩ rfl (fun i hi => by
      have : parts d st.x i - y0 i = M.x i - X0 i := by
        funext k
        simp only [Pi.sub_apply]
        rw [((q0 i hi).2 k).1, ((q0 i hi).2 k).2]; ring
      simp only [this]
      exact hm i hi) c0 (fun i j hi hj hij hp => by
      simp only [hnear i j hi hj]
      exact hsep i j hi hj hij hp) true e.doVir e.old fun _ _ => 0
  rw [l0] at e1
  obtain rfl := Option.some.inj e1
  unfold recorded
  rw [e2, if_pos rfl, Option.bind_some]
  have hpot : 1 / 2 * ∑ i ∈ (Finset.range s.number).filter (fun i => 0 ≤ s.type i), ∑ j ∈ (Finset.range s.number).filter (fun j => j ≠ i ∧ 0 ≤ s.type j),
      s.directPot h ⟨parts d st.x, u, s.rd, e.im⟩ i j = potential s h (coords M.x) := by
    unfold potential
    congr 1
    refine Finset.sum_congr rfl fun i hi => ?_
    rw [live_filter]
    refine Finset.sum_congr rfl fun j hj => ?_
    obtain ⟨j1, j2⟩ := Finset.mem_filter.mp hj
    have hi' : s.Alive i := mem_live.mp hi
    rw [soft_pot hs _ rfl hi' (mem_live.mp j1) (Ne.symm j2)]
    simp only [hnear i j hi' (mem_live.mp j1)]
    rfl
  rw [hpot, (Observables.C113_total_partial _).1, kinetic_range e him]
  have h1 : Observables.potentialOf [rankAt s e st (potential s h (coords M.x))] = potential s h (coords M.x) := by
    simp [Observables.potentialOf, rankAt]
  rw [h1]
  congr 1
  unfold energy
  congr 1
  unfold kinetic coords
  refine Finset.sum_congr rfl fun i hi => Finset.sum_congr rfl fun k _ => ?_
  simp only
  rw [hv i (mem_live.mp hi)]

theorem fold_append (im : ℕ → ℝ) (l : List (ℝ × Bool)) (a : ℝ × Bool) (M : Motion d) :
    (l ++ [a]).foldl (fun M a => ideal s h im a.1 M) M = ideal s h im a.1 (l.foldl (fun M a => ideal s h im a.1 M) M) := by
  rw [List.foldl_append]; rfl

theorem sum_fst_append (l : List (ℝ × Bool)) (a : ℝ × Bool) : ((l ++ [a]).map Prod.fst).sum = (l.map Prod.fst).sum + a.1 := by simp

/-- **C171, simulations** (partial). For every system of soft spheres with positive masses in a box with wrapping or open sides, of every dimension, and every initial state whose energy is below the threshold: there is an exact motion from it, and there are constants such that
every run of the simulation, with any time steps of at most `H` (which may vary) and lists constructed at least every `τ` units of time, goes through and ends within `C H` of the exact motion, and the total energy that is recorded at its end differs by at most `C H` from the energy
at the start. Nothing is supposed about the motion: spheres may begin and cease to touch, in any order and number.
Missing: lists that are older than `τ` (C27, C29), particles exactly on a side when lists are constructed (C15), immovable particles, repulsive or reflecting sides, other interactions, modifiers, several processors, rounding; the second order of C157, which contacts destroy. -/
theorem C171_run_partial (hr : InRange h) (href : AllReflexive h) (hT : run s.cut (.init :: h) = some T) (x v f : Arr) (hok : s.OK h fun i => home s (parts d x i)) (hskin : 0 < s.skin)
    (hs : Soft s h) (e : Env) (he : e.mode.OK) (him : ∀ i, s.Alive i → 0 < e.im i) (hx0 : OffSides s (parts d x))
    (hE : Below s h (energy s h e.im (coords (parts d x)) (coords (parts d v)))) (time : ℝ) (htime : 0 ≤ time) :
    ∃ X V, Solves (Coord s) (newton s h e.im) time X V ∧ StartsAt s x v X V ∧ ∃ C H₀ τ : ℝ, 0 < H₀ ∧ 0 < τ ∧
      ∀ H : ℝ, 0 < H → H ≤ H₀ → ∀ l : List (ℝ × Bool), (∀ a ∈ l, 0 ≤ a.1 ∧ a.1 ≤ H) → (l.map Prod.fst).sum ≤ time → Recent τ 0 l → Off s h e.im l ⟨parts d x, parts d v, parts d f⟩ →
        EndsNear s T e x v f l X V (C * H) ∧
        ∃ st, (start s T x v f).bind (steps s T e l) = some st ∧ ∀ u, ∃ E, recorded s T e u st = some E ∧ |E - energy s h e.im (coords (parts d x)) (coords (parts d v))| ≤ C * H := by
  obtain ⟨X, V, hx, h0⟩ := solves_exist hok href hs e.im him htime _ _ hE
  have hE0 : energy s h e.im (X 0) (V 0) = energy s h e.im (coords (parts d x)) (coords (parts d v)) :=
    energy_congr hok href hs e.im (fun j hj => (h0 j hj).1) fun j hj => (h0 j hj).2
  refine ⟨X, V, hx, fun i hi k => ⟨(h0 (i, k) hi).1.symm, (h0 (i, k) hi).2.symm⟩, ?_⟩
  have hE' := hE
  rw [← hE0] at hE'
  have hkeep := exact_keeps hok href hs e.im him hx hE'
  obtain ⟨R, hR, hR1⟩ := acc_bound s (newton s h e.im (X 0) (V 0)) (fun j => e.im j.1 * parts d f j.1 j.2)
  obtain ⟨δ, vm, C, H₀, hδ, hvm, hC, hH₀, hclear, hvel, key⟩ := close hok href hs e.im him hx hE' R hR
  obtain ⟨K, hK, hK'⟩ := energy_lip hok href hs e.im him hvm.le
  have hd : (0 : ℝ) < d + 1 := by positivity
  set M0 : Motion d := ⟨parts d x, parts d v, parts d f⟩ with hM0
  set Mof : List (ℝ × Bool) → Motion d := fun l => l.foldl (fun M a => ideal s h e.im a.1 M) M0 with hMof
  -- the step sizes
  set H₁ := min H₀ (min (1 / (C + 1)) (min (δ / (2 * (d + 1) * (C + 1))) (s.skin / (8 * (d + 1) * (C + 1))))) with hH₁
  have hH₁0 : 0 < H₁ := by
    rw [hH₁]
    refine lt_min hH₀ (lt_min ?_ (lt_min ?_ ?_)) <;> positivity
  have b0 : H₁ ≤ H₀ := min_le_left _ _
  have b1 : C * H₁ ≤ 1 := by
    have h1 : H₁ ≤ 1 / (C + 1) := (min_le_right _ _).trans (min_le_left _ _)
    rw [le_div_iff₀ (by linarith)] at h1
    nlinarith
  have b2 : d * (2 * (C * H₁)) ≤ δ := by
    have h1 : H₁ ≤ δ / (2 * (d + 1) * (C + 1)) := (min_le_right _ _).trans ((min_le_right _ _).trans (min_le_left _ _))
    rw [le_div_iff₀ (by positivity)] at h1
    have : (d : ℝ) * (2 * (C * H₁)) ≤ H₁ * (2 * (d + 1) * (C + 1)) := by
      have a1 : (d : ℝ) * C ≤ (d + 1) * (C + 1) := mul_le_mul (by linarith) (by linarith) hC (by positivity)
      nlinarith
    linarith
  have b3 : d * (2 * (C * H₁)) ≤ s.skin / 4 := by
    have h1 : H₁ ≤ s.skin / (8 * (d + 1) * (C + 1)) := (min_le_right _ _).trans ((min_le_right _ _).trans (min_le_right _ _))
    rw [le_div_iff₀ (by positivity)] at h1
    have : (d : ℝ) * (2 * (C * H₁)) * 4 ≤ H₁ * (8 * (d + 1) * (C + 1)) := by
      have a1 : (d : ℝ) * C ≤ (d + 1) * (C + 1) := mul_le_mul (by linarith) (by linarith) hC (by positivity)
      nlinarith
    linarith
  set τ := s.skin / (4 * (d + 1) * (vm + 1)) with hτ
  have hτ0 : 0 < τ := by positivity
  have b4 : d * (vm * τ) ≤ s.skin / 4 := by
    have e1 : τ * (4 * (d + 1) * (vm + 1)) = s.skin := by rw [hτ]; field_simp
    have a1 : (d : ℝ) * vm ≤ (d + 1) * (vm + 1) := mul_le_mul (by linarith) (by linarith) hvm.le (by positivity)
    nlinarith
  refine ⟨max C (K * C), H₁, τ, hH₁0, hτ0, fun H hH hle l hl hsum hrec hoff => ?_⟩
  have hCH : C * H ≤ C * H₁ := mul_le_mul_of_nonneg_left hle hC
  -- every prefix is close to the motion
  have hpre : ∀ l1 l2, l = l1 ++ l2 → (0 ≤ (l1.map Prod.fst).sum ∧ (l1.map Prod.fst).sum ≤ time) ∧
      ∀ j, Coord s j → |coords (Mof l1).x j - X (l1.map Prod.fst).sum j| ≤ C * H ∧ |coords (Mof l1).v j - V (l1.map Prod.fst).sum j| ≤ C * H := by
    intro l1 l2 hl12
    have hn : ∀ dt ∈ l1.map Prod.fst, 0 ≤ dt ∧ dt ≤ H := by
      intro dt hdt
      obtain ⟨a, ha, rfl⟩ := List.mem_map.mp hdt
      exact hl a (by rw [hl12]; exact List.mem_append_left _ ha)
    have hs1 : (l1.map Prod.fst).sum ≤ time := by
      have : (l.map Prod.fst).sum = (l1.map Prod.fst).sum + (l2.map Prod.fst).sum := by rw [hl12, List.map_append, List.sum_append]
      have h2 : 0 ≤ (l2.map Prod.fst).sum := List.sum_nonneg fun dt hdt => by
        obtain ⟨a, ha, rfl⟩ := List.mem_map.mp hdt
        exact (hl a (by rw [hl12]; exact List.mem_append_right _ ha)).1
      linarith
    refine ⟨⟨List.sum_nonneg fun dt hdt => (hn dt hdt).1, hs1⟩, ?_⟩
    exact key H hH (hle.trans b0) _ hn hs1 (point e.im M0) _ (fun j hj => ⟨(h0 j hj).1.symm, (h0 j hj).2.symm, hR1 j hj⟩) (ideal_chain s h e.im l1 M0)
  have hsepAt : ∀ l1 l2, l = l1 ++ l2 → Separate s h (Mof l1).x := by
    intro l1 l2 hl12
    obtain ⟨h1, h2⟩ := hpre l1 l2 hl12
    refine clear_separate hs hδ (clear_near hok href hs (ε := C * H) ?_ (hclear _ h1) fun j hj => (h2 j hj).1)
    refine le_trans ?_ b2
    have : (0 : ℝ) ≤ d := by positivity
    nlinarith
  have htimely : ∀ l2 l1 t0 (X0 : ℕ → Fin d → ℝ), l = l1 ++ l2 → 0 ≤ t0 → t0 ≤ (l1.map Prod.fst).sum → (∀ j, Coord s j → |coords X0 j - X t0 j| ≤ C * H) →
      Recent τ ((l1.map Prod.fst).sum - t0) l2 → Off s h e.im l2 (Mof l1) → Timely s h e.im X0 l2 (Mof l1) := by
    intro l2
    induction l2 with
    | nil => intro _ _ _ _ _ _ _ _ _; trivial
    | cons a l2 ih =>
      obtain ⟨dt, r⟩ := a
      intro l1 t0 X0 hl12 ht0 ht0' hX0 hrec hoff
      have hl12' : l = (l1 ++ [(dt, r)]) ++ l2 := by rw [hl12, List.append_assoc]; rfl
      have eM : ideal s h e.im dt (Mof l1) = Mof (l1 ++ [(dt, r)]) := (fold_append e.im l1 (dt, r) M0).symm
      have eS := sum_fst_append l1 (dt, r)
      simp only at eS
      obtain ⟨⟨p1, p2⟩, p3⟩ := hpre _ _ hl12'
      have hdt : 0 ≤ dt := (hl (dt, r) (by rw [hl12]; simp)).1
      obtain ⟨r1, r2⟩ := hrec
      obtain ⟨o1, o2⟩ := hoff
      rw [eM] at o1 o2
      refine ⟨fun hr' => by rw [eM]; exact soft_cut hs (o1 hr'), fun hr' i hi => ?_, by rw [eM]; exact hsepAt _ _ hl12', ?_⟩
      · rw [eM]
        have ha := r1 hr'
        set t1 := ((l1 ++ [(dt, r)]).map Prod.fst).sum with ht1
        have hbnd : len ((Mof (l1 ++ [(dt, r)])).x i - X0 i) ≤ d * (2 * (C * H) + vm * τ) := by
          refine len_le_of fun k => ?_
          have q1 := (p3 (i, k) hi).1
          have q2 := hX0 (i, k) hi
          have q3 : |X t1 (i, k) - X t0 (i, k)| ≤ vm * |t1 - t0| := by
            have hin : t0 ∈ Icc 0 time := ⟨ht0, by linarith⟩
            have := Convex.norm_image_sub_le_of_norm_hasDerivWithin_le (f := fun u => X u (i, k)) (f' := fun u => V u (i, k)) (C := vm)
              (s := Icc 0 time) (x := t0) (y := t1) (fun r hr => hx.pos r hr (i, k) hi) (fun r hr => by simpa using hvel r hr (i, k) hi) (convex_Icc 0 time) hin ⟨p1, p2⟩
            simpa using this
          have q4 : vm * |t1 - t0| ≤ vm * τ := by
            refine mul_le_mul_of_nonneg_left ?_ hvm.le
            rw [abs_of_nonneg (by linarith)]; linarith
          simp only [Pi.sub_apply]
          simp only [coords] at q1 q2
          rw [abs_le] at q1 q2 q3 ⊢
          constructor <;> linarith [q1.1, q1.2, q2.1, q2.2, q3.1, q3.2]
        have hd0 : (0 : ℝ) ≤ d := by positivity
        have : (d : ℝ) * (2 * (C * H)) ≤ d * (2 * (C * H₁)) := by nlinarith
        have hexp : (d : ℝ) * (2 * (C * H) + vm * τ) = d * (2 * (C * H)) + d * (vm * τ) := by ring
        linarith
      · rw [eM]
        cases r with
        | false =>
          simp only [Bool.false_eq_true, if_false] at r2 ⊢
          refine ih _ t0 X0 hl12' ht0 (by rw [eS]; linarith) hX0 ?_ o2
          rw [eS, show (l1.map Prod.fst).sum + dt - t0 = (l1.map Prod.fst).sum - t0 + dt by ring]
          exact r2
        | true =>
          simp only [if_true] at r2 ⊢
          refine ih _ _ _ hl12' p1 le_rfl (fun j hj => (p3 j hj).1) ?_ o2
          rw [sub_self]; exact r2
  have hti := htimely l [] 0 (parts d x) rfl le_rfl (by simp) (fun j hj => by
    rw [(h0 j hj).1, sub_self, abs_zero]; positivity) (by simpa using hrec) hoff
  obtain ⟨⟨p1, p2⟩, p3⟩ := hpre l [] (by simp)
  have hmax : C * H ≤ max C (K * C) * H := mul_le_mul_of_nonneg_right (le_max_left _ _) hH.le
  refine ⟨ends s h hr href T hT x v f hok e he (soft_cut hs hx0) l hti X V _ fun j hj => ⟨(p3 j hj).1.trans hmax, (p3 j hj).2.trans hmax⟩, ?_⟩
  obtain ⟨st, f1, X0', f2, f3⟩ := final hr href hT x v f hok e he (soft_cut hs hx0) l hti
  refine ⟨st, f1, fun u => ⟨_, recorded_at hr href hT hok hs e him f2 f3 (hsepAt l [] (by simp)) u, ?_⟩⟩
  have k1 := hK' (coords (Mof l).x) (X (l.map Prod.fst).sum) (coords (Mof l).v) (V (l.map Prod.fst).sum) (C * H) (by positivity) (by linarith)
    (fun j hj => (p3 j hj).1) (fun j hj => (p3 j hj).2) (hvel _ ⟨p1, p2⟩)
  rw [hkeep _ ⟨p1, p2⟩, hE0] at k1
  refine k1.trans ?_
  rw [← mul_assoc]
  exact mul_le_mul_of_nonneg_right (le_max_right _ _) hH.le

end whole

/-! ## Example: the ring of C129, whose particles 0 and 1 overlap across the boundary -/

theorem ring_soft : Soft ring ringHist := fun _ _ _ _ _ _ _ => ⟨rfl, 10, by norm_num, rfl⟩

theorem ring_stiff (i j : ℕ) (hi : ring.Alive i) (hj : ring.Alive j) (hij : i ≠ j) : stiff ring ringHist i j = 10 := by
  obtain ⟨t1, t2, t3, t4, t5, t6⟩ := ring_types
  rcases TrueMotion.ring_alive i hi with rfl | rfl | rfl <;> rcases TrueMotion.ring_alive j hj with rfl | rfl | rfl <;>
    first
    | exact absurd rfl hij
    | (simp only [stiff, t1, t2, t3, t4, t5, t6]; rfl)

theorem ring_gap (i j : ℕ) (z : ℤ) (D : ℝ) (hD : parts 1 ringX i 0 - parts 1 ringX j 0 - 24/5 * z = D) (hz : |D| < 12/5) : gap ring (coords (parts 1 ringX)) i j = |D| := by
  unfold gap coords
  rw [len_one]
  have hr : round ((parts 1 ringX i 0 - parts 1 ringX j 0) / (24/5)) = z := by
    rw [round_eq, Int.floor_eq_iff]
    rw [abs_lt] at hz
    constructor <;> linarith [hz.1, hz.2]
  simp only [nearest, ring, if_true, sub_zero]
  rw [hr, ← hD]

/-- The energy of the ring, with velocities 1/10: the overlap of particles 0 and 1 and the kinetic energies. -/
theorem ring_energy : energy ring ringHist (fun _ => 1) (coords (parts 1 ringX)) (coords (parts 1 fun _ => 1/10)) = 113/1000 := by
  have a0 := ring_all 0 (by norm_num)
  have a1 := ring_all 1 (by norm_num)
  have a2 := ring_all 2 (by norm_num)
  have hl : live ring = {0, 1, 2} := by
    ext i
    rw [mem_live]
    simp only [Finset.mem_insert, Finset.mem_singleton]
    exact ⟨TrueMotion.ring_alive i, by rintro (rfl | rfl | rfl) <;> assumption⟩
  have s0 : (live ring).filter (· ≠ 0) = {1, 2} := by rw [hl]; decide
  have s1 : (live ring).filter (· ≠ 1) = {0, 2} := by rw [hl]; decide
  have s2 : (live ring).filter (· ≠ 2) = {0, 1} := by rw [hl]; decide
  have g01 := ring_gap 0 1 0 (6/100) (by norm_num [parts, ringX]) (by norm_num [abs_lt])
  have g02 := ring_gap 0 2 1 (-199/100) (by norm_num [parts, ringX]) (by norm_num [abs_lt])
  have g12 := ring_gap 1 2 1 (-205/100) (by norm_num [parts, ringX]) (by norm_num [abs_lt])
  have g10 := (gap_symm ring_ok.valid (coords (parts 1 ringX)) 0 1).trans g01
  have g20 := (gap_symm ring_ok.valid (coords (parts 1 ringX)) 0 2).trans g02
  have g21 := (gap_symm ring_ok.valid (coords (parts 1 ringX)) 1 2).trans g12
  have rr : ∀ i, ring.rd i = 1/10 := fun _ => rfl
  unfold energy kinetic potential
  rw [hl] at s0 s1 s2 ⊢
  rw [Finset.sum_insert (by decide), Finset.sum_pair (by decide), Finset.sum_insert (by decide), Finset.sum_pair (by decide), s0, s1, s2,
    Finset.sum_pair (by decide), Finset.sum_pair (by decide), Finset.sum_pair (by decide), g01, g02, g12, g10, g20, g21,
    ring_stiff 0 1 a0 a1 (by decide), ring_stiff 0 2 a0 a2 (by decide), ring_stiff 1 0 a1 a0 (by decide), ring_stiff 1 2 a1 a2 (by decide),
    ring_stiff 2 0 a2 a0 (by decide), ring_stiff 2 1 a2 a1 (by decide)]
  simp only [rr, bump, coords, parts]
  norm_num [abs_of_pos, abs_of_neg]

/-- All hypotheses of C171 hold for the ring, with stored forces zero as at the start of a first run, for every step that is short. -/
example : Soft ring ringHist ∧ 0 < ring.skin ∧ ring.OK ringHist (fun i => home ring (parts 1 ringX i)) ∧ OffSides ring (parts 1 ringX) ∧
    Below ring ringHist (energy ring ringHist (fun _ => 1) (coords (parts 1 ringX)) (coords (parts 1 fun _ => 1/10))) ∧
    ∀ H τ : ℝ, 0 < H → H ≤ 1/100 → 0 < τ → Recent τ 0 [(H, true)] ∧ Off ring ringHist (fun _ => 1) [(H, true)] ⟨parts 1 ringX, parts 1 fun _ => 1/10, parts 1 fun _ => 0⟩ := by
  refine ⟨ring_soft, by norm_num [ring], ?_, ?_, ?_, fun H τ hH hH' hτ => ⟨⟨by simp, trivial⟩, fun _ => ?_, trivial⟩⟩
  · apply ok_at ring_ok
    intro i hi k hk
    exact ⟨(home_range ring ring_ok.valid _ k hk).1, (home_range ring ring_ok.valid _ k hk).2.1⟩
  · refine (ring_build _ ?_).1
    intro i hi
    rcases TrueMotion.ring_alive i hi with rfl | rfl | rfl
    · exact ⟨-1, by norm_num [parts, ringX]⟩
    · exact ⟨0, by norm_num [parts, ringX]⟩
    · exact ⟨0, by norm_num [parts, ringX]⟩
  · intro i j hi hj hij _
    rw [ring_energy, ring_stiff i j hi hj hij]
    norm_num [ring]
  · refine (ring_build _ ?_).1
    intro i hi
    rcases TrueMotion.ring_alive i hi with rfl | rfl | rfl
    · refine ⟨-1, ?_⟩
      norm_num [ideal, parts, ringX]
      constructor <;> linarith
    · refine ⟨0, ?_⟩
      norm_num [ideal, parts, ringX]
      constructor <;> linarith
    · refine ⟨0, ?_⟩
      norm_num [ideal, parts, ringX]
      constructor <;> linarith

end Verif.SoftSpheres
