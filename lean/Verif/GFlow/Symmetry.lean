import Verif.GFlow.Trajectory
import Mathlib.Algebra.Module.LinearMap.Defs
import Mathlib.Algebra.Module.LinearMap.Basic

/-!
# Symmetries of whole runs (C165)

Uses the model of whole runs of `Verif.GFlow.Trajectory` (run loop, velocity Verlet, wrapping, cells, neighbour lists, force containers, kernels), on both sides: two runs from
starting states that are related by a symmetry end in states that are related by it. The two runs may number the particles differently, rebuild their neighbour lists at different times and, in open
boxes, use different cells.
-/

namespace Verif.Symmetry
open Verif.ForceSum Verif.Trajectory Verif.PairForces Verif.Verlet Verif.ForceMaster

variable {d : ℕ}

/-! ## Specification -/

/-- Whole numbers of box lengths, in the directions that wrap. -/
def Lattice (s : Setup d) (X : Fin d → ℝ) : Prop := ∀ k, ∃ z : ℤ, ((s.g k).per = false → z = 0) ∧ X k = z * ((s.g k).hi - (s.g k).lo)

/-- The nearest image is not unique: the distance in some direction is exactly half a box. -/
def Tie (s : Setup d) (X : Fin d → ℝ) : Prop := ∃ k, (s.g k).per = true ∧ |nearest s.g X k| = ((s.g k).hi - (s.g k).lo) / 2

/-- Two setups are related by the renumbering `σ` and the linear map `A` of space: particles with related numbers have the same types, radii and masses, forces and cutoffs are the same, `A` keeps lengths and
maps the box lattice and the nearest images of one setup to those of the other. -/
structure Related (s s' : Setup d) (im im' : ℕ → ℝ) (σ : Equiv.Perm ℕ) (A : (Fin d → ℝ) →ₗ[ℝ] (Fin d → ℝ)) : Prop where
  alive : ∀ i, s'.Alive (σ i) ↔ s.Alive i
  type : ∀ i, s.Alive i → s'.type (σ i) = s.type i
  rd : ∀ i, s.Alive i → s'.rd (σ i) = s.rd i
  im : ∀ i, s.Alive i → im' (σ i) = im i
  force : s'.force = s.force
  cut : s'.cut = s.cut
  length : ∀ X, dot (A X) (A X) = dot X X
  lattice : ∀ X, Lattice s X → Lattice s' (A X)
  image : ∀ X, nearest s'.g (A X) = A (nearest s.g X) ∨ Tie s X ∧ Tie s' (A X)

/-- The state `M'` is the image of `M` under the renumbering, the map of space, the shift `c` and the boost `u`, up to box lengths. -/
def Image (s s' : Setup d) (σ : Equiv.Perm ℕ) (A : (Fin d → ℝ) →ₗ[ℝ] (Fin d → ℝ)) (c u : Fin d → ℝ) (M M' : Motion d) : Prop :=
  ∀ i, s.Alive i → M'.v (σ i) = A (M.v i) + u ∧ M'.f (σ i) = A (M.f i) ∧ Lattice s' (M'.x (σ i) - (A (M.x i) + c))

/-! ## Equivariance of one step -/

theorem Lattice.add {s : Setup d} {X Y : Fin d → ℝ} (h1 : Lattice s X) (h2 : Lattice s Y) : Lattice s (X + Y) := by
  intro k
  obtain ⟨a, a1, a2⟩ := h1 k
  obtain ⟨b, b1, b2⟩ := h2 k
  exact ⟨a + b, fun h => by rw [a1 h, b1 h]; rfl, by rw [Pi.add_apply, a2, b2]; push_cast; ring⟩

theorem Lattice.neg {s : Setup d} {X : Fin d → ℝ} (h1 : Lattice s X) : Lattice s (-X) := by
  intro k
  obtain ⟨a, a1, a2⟩ := h1 k
  exact ⟨-a, fun h => by rw [a1 h]; rfl, by rw [Pi.neg_apply, a2]; push_cast; ring⟩

theorem Lattice.sub {s : Setup d} {X Y : Fin d → ℝ} (h1 : Lattice s X) (h2 : Lattice s Y) : Lattice s (X - Y) := by
  rw [sub_eq_add_neg]; exact h1.add h2.neg

theorem nearest_lattice (s : Setup d) (hv : ∀ k, (s.g k).Valid) {X Y : Fin d → ℝ} (h : Lattice s (Y - X)) : nearest s.g Y = nearest s.g X := by
  choose z hz1 hz2 using h
  refine nearest_shift s hv (z := z) hz1 fun k => ?_
  have := hz2 k
  simp only [Pi.sub_apply] at this
  linarith

theorem dot_map {A : (Fin d → ℝ) →ₗ[ℝ] (Fin d → ℝ)} (hA : ∀ X, dot (A X) (A X) = dot X X) (X Y : Fin d → ℝ) : dot (A X) (A Y) = dot X Y := by
  have h := hA (X + Y)
  have e : ∀ X Y : Fin d → ℝ, dot (X + Y) (X + Y) = dot X X + 2 * dot X Y + dot Y Y := by
    intro X Y
    unfold dot
    rw [Finset.mul_sum, ← Finset.sum_add_distrib, ← Finset.sum_add_distrib]
    exact Finset.sum_congr rfl fun k _ => by simp only [Pi.add_apply]; ring
  rw [map_add, e, e, hA, hA] at h
  linarith

theorem len_map {A : (Fin d → ℝ) →ₗ[ℝ] (Fin d → ℝ)} (hA : ∀ X, dot (A X) (A X) = dot X X) (X : Fin d → ℝ) : len (A X) = len X := by
  unfold len; rw [hA]

theorem mag_map {A : (Fin d → ℝ) →ₗ[ℝ] (Fin d → ℝ)} (hA : ∀ X, dot (A X) (A X) = dot X X) (F : Force) (P P' : Parts d) (i j i' j' : ℕ)
    (hri : P'.rd i' = P.rd i) (hrj : P'.rd j' = P.rd j) (hmi : P'.im i' = P.im i) (hmj : P'.im j' = P.im j)
    (hv : P'.v i' - P'.v j' = A (P.v i - P.v j)) (n : Fin d → ℝ) (r : ℝ) : F.mag P' i' j' (A n) r = F.mag P i j n r := by
  have hv' : P'.v j' - P'.v i' = A (P.v j - P.v i) := by
    rw [← neg_sub, hv, ← map_neg, neg_sub]
  cases F <;> simp only [Force.mag, hri, hrj, hmi, hmj, hv, hv', dot_map hA]

theorem pushed_map {A : (Fin d → ℝ) →ₗ[ℝ] (Fin d → ℝ)} (hA : ∀ X, dot (A X) (A X) = dot X X) (F : Force) (c : ℝ) (P P' : Parts d) (i j i' j' : ℕ)
    (hri : P'.rd i' = P.rd i) (hrj : P'.rd j' = P.rd j) (hmi : P'.im i' = P.im i) (hmj : P'.im j' = P.im j)
    (hv : P'.v i' - P'.v j' = A (P.v i - P.v j)) (Y : Fin d → ℝ) : pushed F c P' i' j' (A Y) = A (pushed F c P i j Y) := by
  have e : ∀ Z : Fin d → ℝ, (fun l => Z l / len Z) = (1 / len Z) • Z := by
    intro Z; funext l; simp only [Pi.smul_apply, smul_eq_mul]; ring
  by_cases h : len Y < (P.rd i + P.rd j) * c
  · have h1 : pushed F c P i j Y = F.mag P i j (fun l => Y l / len Y) (len Y) • ((1 / len Y) • Y) := by
      funext k; unfold pushed; rw [if_pos h]; simp only [Pi.smul_apply, smul_eq_mul]; ring
    have h2 : pushed F c P' i' j' (A Y) = F.mag P' i' j' (fun l => A Y l / len (A Y)) (len (A Y)) • ((1 / len (A Y)) • A Y) := by
      funext k; unfold pushed; rw [if_pos (by rw [len_map hA, hri, hrj]; exact h)]; simp only [Pi.smul_apply, smul_eq_mul]; ring
    rw [h1, h2, e Y, e (A Y), len_map hA, ← map_smul, mag_map hA F P P' i j i' j' hri hrj hmi hmj hv]
    simp only [map_smul]
  · have h1 : pushed F c P i j Y = 0 := by funext k; unfold pushed; rw [if_neg h]; rfl
    have h2 : pushed F c P' i' j' (A Y) = 0 := by funext k; unfold pushed; rw [if_neg (by rw [len_map hA, hri, hrj]; exact h)]; rfl
    rw [h1, h2, map_zero]

variable {s s' : Setup d} {h : List Call} {x0 x0' : ℕ → Fin d → ℝ} {im im' : ℕ → ℝ} {σ : Equiv.Perm ℕ} {A : (Fin d → ℝ) →ₗ[ℝ] (Fin d → ℝ)}

/-- Particles at a distance of half a box do not reach each other. -/
theorem tie_far (hok : s.OK h x0) (href : AllReflexive h) {P : Parts d} {i j : ℕ} (hi : s.Alive i) (hj : s.Alive j) (hri : P.rd i = s.rd i) (hrj : P.rd j = s.rd j) {p : ℕ}
    (hp : lastSet h (s.type i) (s.type j) = some p) {X : Fin d → ℝ} (ht : Tie s X) (F : Force) : pushed F (s.cut p) P i j (nearest s.g X) = 0 := by
  obtain ⟨l, hper, h1⟩ := ht
  have hw := width_ge hok hper
  have hwp := (hok.valid l).wpos
  have hsk := hok.skin_nonneg
  obtain ⟨R0, R1⟩ := reach_le hok hi hj href hp
  have hm := mss_nonneg hok hi
  funext k
  refine pushed_far ?_
  rw [hri, hrj]; exact far_len (l := l) (by rw [h1]; linarith)

theorem direct_map (hR : Related s s' im im' σ A) (hok : s.OK h x0) (hok' : s'.OK h x0') (href : AllReflexive h) (P P' : Parts d) (hrd : P.rd = s.rd)
    (hrd' : P'.rd = s'.rd) (him : P.im = im) (him' : P'.im = im') {i j : ℕ} (hi : s.Alive i) (hj : s.Alive j)
    (hv : P'.v (σ i) - P'.v (σ j) = A (P.v i - P.v j)) (hx : Lattice s' (P'.x (σ i) - P'.x (σ j) - A (P.x i - P.x j))) :
    s'.direct h P' (σ i) (σ j) = A (s.direct h P i j) := by
  have e : s'.direct h P' (σ i) (σ j) = match lastSet h (s.type i) (s.type j) with
      | none => 0
      | some p => pushed (s.force p) (s.cut p) P' (σ i) (σ j) (nearest s'.g (A (P.x i - P.x j))) := by
    funext k
    unfold Setup.direct
    rw [hR.type i hi, hR.type j hj, hR.force, hR.cut, nearest_lattice s' hok'.valid hx]
    cases lastSet h (s.type i) (s.type j) <;> rfl
  have e' : s.direct h P i j = match lastSet h (s.type i) (s.type j) with
      | none => 0
      | some p => pushed (s.force p) (s.cut p) P i j (nearest s.g (P.x i - P.x j)) := by
    funext k
    unfold Setup.direct
    cases lastSet h (s.type i) (s.type j) <;> rfl
  rw [e, e']
  cases hp : lastSet h (s.type i) (s.type j) with
  | none => simp
  | some p =>
    simp only
    rcases hR.image (P.x i - P.x j) with h1 | ⟨h1, h2⟩
    · rw [h1]
      exact pushed_map hR.length _ _ P P' i j (σ i) (σ j) (by rw [hrd, hrd', hR.rd i hi]) (by rw [hrd, hrd', hR.rd j hj]) (by rw [him, him', hR.im i hi])
        (by rw [him, him', hR.im j hj]) hv _
    · rw [tie_far hok href hi hj (by rw [hrd]) (by rw [hrd]) hp h1]
      have hp' : lastSet h (s'.type (σ i)) (s'.type (σ j)) = some p := by rw [hR.type i hi, hR.type j hj, hp]
      rw [← hR.cut, tie_far hok' href ((hR.alive i).mpr hi) ((hR.alive j).mpr hj) (by rw [hrd']) (by rw [hrd']) hp' h2, map_zero]

theorem ideal_image (hR : Related s s' im im' σ A) (hok : s.OK h x0) (hok' : s'.OK h x0') (href : AllReflexive h) (c u : Fin d → ℝ) (dt : ℝ) (M M' : Motion d)
    (hM : Image s s' σ A c u M M') : Image s s' σ A (c + dt • u) u (ideal s h im dt M) (ideal s' h im' dt M') := by
  classical
  have hv1 : ∀ i, s.Alive i → (fun k => M'.v (σ i) k + dt / 2 * im' (σ i) * M'.f (σ i) k) = A (fun k => M.v i k + dt / 2 * im i * M.f i k) + u := by
    intro i hi
    obtain ⟨a, b, _⟩ := hM i hi
    have e1 : (fun k => M'.v (σ i) k + dt / 2 * im' (σ i) * M'.f (σ i) k) = M'.v (σ i) + (dt / 2 * im' (σ i)) • M'.f (σ i) := rfl
    have e2 : (fun k => M.v i k + dt / 2 * im i * M.f i k) = M.v i + (dt / 2 * im i) • M.f i := rfl
    rw [e1, e2, a, b, hR.im i hi, map_add, map_smul]
    abel
  have hx1 : ∀ i, s.Alive i → Lattice s' ((ideal s' h im' dt M').x (σ i) - (A ((ideal s h im dt M).x i) + (c + dt • u))) := by
    intro i hi
    obtain ⟨_, _, l⟩ := hM i hi
    have e1 : (ideal s' h im' dt M').x (σ i) = M'.x (σ i) + dt • (fun k => M'.v (σ i) k + dt / 2 * im' (σ i) * M'.f (σ i) k) := rfl
    have e2 : (ideal s h im dt M).x i = M.x i + dt • (fun k => M.v i k + dt / 2 * im i * M.f i k) := rfl
    rw [e1, e2, hv1 i hi, map_add, map_smul, smul_add]
    have : M'.x (σ i) + (dt • A (fun k => M.v i k + dt / 2 * im i * M.f i k) + dt • u) -
        (A (M.x i) + dt • A (fun k => M.v i k + dt / 2 * im i * M.f i k) + (c + dt • u)) = M'.x (σ i) - (A (M.x i) + c) := by abel
    rw [this]; exact l
  have hf1 : ∀ i, s.Alive i → (ideal s' h im' dt M').f (σ i) = A ((ideal s h im dt M).f i) := by
    intro i hi
    set P : Parts d := ⟨(ideal s h im dt M).x, fun i k => M.v i k + dt / 2 * im i * M.f i k, s.rd, im⟩ with hP
    set P' : Parts d := ⟨(ideal s' h im' dt M').x, fun i k => M'.v i k + dt / 2 * im' i * M'.f i k, s'.rd, im'⟩ with hP'
    have e1 : (ideal s h im dt M).f i = ∑ j ∈ (Finset.range s.number).filter (fun j => j ≠ i ∧ 0 ≤ s.type j), s.direct h P i j := by
      funext k
      rw [Finset.sum_apply]
      show (if s.Alive i then _ else _) = _
      rw [if_pos hi]; rfl
    have e2 : (ideal s' h im' dt M').f (σ i) = ∑ j ∈ (Finset.range s'.number).filter (fun j => j ≠ σ i ∧ 0 ≤ s'.type j), s'.direct h P' (σ i) j := by
      funext k
      rw [Finset.sum_apply]
      show (if s'.Alive (σ i) then _ else _) = _
      rw [if_pos ((hR.alive i).mpr hi)]; rfl
    rw [e1, e2, map_sum]
    symm
    refine Finset.sum_equiv σ ?_ ?_
    · intro j
      have hj := hR.alive j
      unfold Setup.Alive at hj
      simp only [Finset.mem_filter, Finset.mem_range, ne_eq, EmbeddingLike.apply_eq_iff_eq]
      tauto
    · intro j hj
      simp only [Finset.mem_filter, Finset.mem_range] at hj
      have hj' : s.Alive j := ⟨hj.1, hj.2.2⟩
      symm
      refine direct_map hR hok hok' href P P' rfl rfl rfl rfl hi hj' ?_ ?_
      · show (fun k => _) - (fun k => _) = A ((fun k => _) - (fun k => _))
        rw [hv1 i hi, hv1 j hj', map_sub]; abel
      · have h1 := (hx1 i hi).sub (hx1 j hj')
        have e : P'.x (σ i) - P'.x (σ j) - A (P.x i - P.x j) = (ideal s' h im' dt M').x (σ i) - (A ((ideal s h im dt M).x i) + (c + dt • u)) -
          ((ideal s' h im' dt M').x (σ j) - (A ((ideal s h im dt M).x j) + (c + dt • u))) := by
          rw [map_sub]; simp only [hP, hP']; abel
        rw [e]; exact h1
  intro i hi
  refine ⟨?_, hf1 i hi, hx1 i hi⟩
  have e1 : (ideal s' h im' dt M').v (σ i) = (fun k => M'.v (σ i) k + dt / 2 * im' (σ i) * M'.f (σ i) k) + (dt / 2 * im' (σ i)) • (ideal s' h im' dt M').f (σ i) := rfl
  have e2 : (ideal s h im dt M).v i = (fun k => M.v i k + dt / 2 * im i * M.f i k) + (dt / 2 * im i) • (ideal s h im dt M).f i := rfl
  rw [e1, e2, hv1 i hi, hf1 i hi, hR.im i hi, map_add, map_smul]
  abel

theorem ideal_run_image (hR : Related s s' im im' σ A) (hok : s.OK h x0) (hok' : s'.OK h x0') (href : AllReflexive h) (u : Fin d → ℝ) :
    ∀ (l l' : List (ℝ × Bool)), l'.map Prod.fst = l.map Prod.fst → ∀ (c : Fin d → ℝ) (M M' : Motion d), Image s s' σ A c u M M' →
      Image s s' σ A (c + (l.map Prod.fst).sum • u) u (l.foldl (fun M a => ideal s h im a.1 M) M) (l'.foldl (fun M a => ideal s' h im' a.1 M) M') := by
  intro l
  induction l with
  | nil =>
    intro l' hl c M M' hM
    have : l' = [] := by simpa using hl
    subst this
    simpa using hM
  | cons a l ih =>
    intro l' hl c M M' hM
    cases l' with
    | nil => simp at hl
    | cons b l' =>
      rw [List.map_cons, List.map_cons, List.cons.injEq] at hl
      have h1 := ideal_image hR hok hok' href c u a.1 M M' hM
      rw [List.foldl_cons, List.foldl_cons, hl.1]
      have h2 := ih l' hl.2 (c + a.1 • u) _ _ h1
      rw [List.map_cons, List.sum_cons, add_smul, ← add_assoc]
      exact h2

/-! ## C165 -/

/-- The conditions under which whole runs are known to be exact, those of `C129_run_partial`: a setup with the conditions of the neighbour lists, lists that can be built from the starting positions, and
rebuilding in time. -/
def Good (s : Setup d) (h : List Call) (e : Env) (x v f : Arr) (l : List (ℝ × Bool)) : Prop :=
  (s.OK h fun i => home s (parts d x i)) ∧ e.mode.OK ∧ Buildable s h (parts d x) ∧ Timely s h e.im (parts d x) l ⟨parts d x, parts d v, parts d f⟩

/-- **C165, all symmetries (partial).** Two runs with the same time steps, of setups that are related by a renumbering and a map of space, from states that are images of each other (with a shift `c` and a boost
`u`), end in states that are images of each other: velocities and forces exactly, positions up to box lengths, with the shift grown by `u` times the elapsed time. This is so whenever neighbour lists are
rebuilt, which may be at different times in the two runs.
Missing: as for `C129_run_partial`, runs that do not rebuild their lists in time; contact forces with friction. -/
theorem C165_run_partial (hr : InRange h) (href : AllReflexive h) (T T' : FM ℝ) (hT : run s.cut (.init :: h) = some T) (hT' : run s'.cut (.init :: h) = some T')
    (e e' : Env) (hR : Related s s' e.im e'.im σ A) (x v f x' v' f' : Arr) (l l' : List (ℝ × Bool)) (hl : l'.map Prod.fst = l.map Prod.fst)
    (hg : Good s h e x v f l) (hg' : Good s' h e' x' v' f' l') (c u : Fin d → ℝ)
    (h0 : Image s s' σ A c u ⟨parts d x, parts d v, parts d f⟩ ⟨parts d x', parts d v', parts d f'⟩) :
    ∃ st st', (start s T x v f).bind (steps s T e l) = some st ∧ (start s' T' x' v' f').bind (steps s' T' e' l') = some st' ∧
      Image s s' σ A (c + (l.map Prod.fst).sum • u) u ⟨parts d st.x, parts d st.v, parts d st.f⟩ ⟨parts d st'.x, parts d st'.v, parts d st'.f⟩ := by
  obtain ⟨g1, g2, g3, g4⟩ := hg
  obtain ⟨g1', g2', g3', g4'⟩ := hg'
  obtain ⟨st, a1, a2⟩ := C129_run_partial s h hr href T hT x v f g1 e g2 g3 l g4
  obtain ⟨st', b1, b2⟩ := C129_run_partial s' h hr href T' hT' x' v' f' g1' e' g2' g3' l' g4'
  refine ⟨st, st', a1, b1, ?_⟩
  have key := ideal_run_image hR g1 g1' href u l l' hl c _ _ h0
  intro i hi
  obtain ⟨k1, k2, k3⟩ := key i hi
  obtain ⟨p1, p2, p3⟩ := a2 i hi
  obtain ⟨q1, q2, q3⟩ := b2 (σ i) ((hR.alive i).mpr hi)
  refine ⟨?_, ?_, ?_⟩
  · show parts d st'.v (σ i) = A (parts d st.v i) + u
    rw [p1, q1]; exact k1
  · show parts d st'.f (σ i) = A (parts d st.f i)
    rw [p2, q2]; exact k2
  · show Lattice s' (parts d st'.x (σ i) - (A (parts d st.x i) + _))
    set M := l.foldl (fun M a => ideal s h e.im a.1 M) ⟨parts d x, parts d v, parts d f⟩ with hM
    set M' := l'.foldl (fun M a => ideal s' h e'.im a.1 M) ⟨parts d x', parts d v', parts d f'⟩ with hM'
    have w1 : Lattice s (parts d st.x i - M.x i) := by
      intro k
      obtain ⟨z, z1, z2⟩ := p3 k
      exact ⟨z, z1, by rw [Pi.sub_apply, z2]; ring⟩
    have w2 : Lattice s' (parts d st'.x (σ i) - M'.x (σ i)) := by
      intro k
      obtain ⟨z, z1, z2⟩ := q3 k
      exact ⟨z, z1, by rw [Pi.sub_apply, z2]; ring⟩
    have w3 := (w2.add k3).sub (hR.lattice _ w1)
    have e : parts d st'.x (σ i) - (A (parts d st.x i) + (c + (l.map Prod.fst).sum • u)) =
        parts d st'.x (σ i) - M'.x (σ i) + (M'.x (σ i) - (A (M.x i) + (c + (l.map Prod.fst).sum • u))) - A (parts d st.x i - M.x i) := by
      rw [map_sub]; abel
    rw [e]; exact w3

/-- A setup is related to itself. -/
theorem related_self (s : Setup d) (im : ℕ → ℝ) : Related s s im im (Equiv.refl ℕ) LinearMap.id :=
  ⟨fun _ => Iff.rfl, fun _ _ => rfl, fun _ _ => rfl, fun _ _ => rfl, rfl, rfl, fun _ => rfl, fun _ hX => hX, fun _ => Or.inl rfl⟩

/-- **C165, shifts and boosts (partial).** If all positions are shifted by `c` and all velocities by `u` (by whatever means the shifted particles are brought back into the box), then after any run with elapsed time
`t` the velocities differ by `u`, the forces not at all and the positions by `c + t u` up to box lengths.
Missing: as for `C165_run_partial`. -/
theorem C165_galilei_partial (hr : InRange h) (href : AllReflexive h) (T : FM ℝ) (hT : run s.cut (.init :: h) = some T)
    (e : Env) (x v f x' v' f' : Arr) (l l' : List (ℝ × Bool)) (hl : l'.map Prod.fst = l.map Prod.fst)
    (hg : Good s h e x v f l) (hg' : Good s h e x' v' f' l') (c u : Fin d → ℝ)
    (hx : ∀ i, s.Alive i → Lattice s (parts d x' i - (parts d x i + c))) (hv : ∀ i, s.Alive i → parts d v' i = parts d v i + u)
    (hf : ∀ i, s.Alive i → parts d f' i = parts d f i) :
    ∃ st st', (start s T x v f).bind (steps s T e l) = some st ∧ (start s T x' v' f').bind (steps s T e l') = some st' ∧
      ∀ i, s.Alive i → parts d st'.v i = parts d st.v i + u ∧ parts d st'.f i = parts d st.f i ∧
        Lattice s (parts d st'.x i - (parts d st.x i + (c + (l.map Prod.fst).sum • u))) :=
  C165_run_partial hr href T T hT hT e e (related_self s e.im) x v f x' v' f' l l' hl hg hg' c u fun i hi => ⟨hv i hi, hf i hi, hx i hi⟩

/-- **C165, numbering (partial).** The numbers of the particles do not matter: if the particle `i` is given the number `σ i`, after any run it has the same position (up to box lengths), velocity and force.
Missing: as for `C165_run_partial`. -/
theorem C165_numbering_partial (hr : InRange h) (href : AllReflexive h) (T : FM ℝ) (hT : run s.cut (.init :: h) = some T) (hT' : run s'.cut (.init :: h) = some T)
    (hgrid : s'.g = s.g) (hcut : s'.cut = s.cut) (hforce : s'.force = s.force) (e e' : Env) (σ : Equiv.Perm ℕ)
    (hal : ∀ i, s'.Alive (σ i) ↔ s.Alive i) (hp : ∀ i, s.Alive i → s'.type (σ i) = s.type i ∧ s'.rd (σ i) = s.rd i ∧ e'.im (σ i) = e.im i)
    (x v f x' v' f' : Arr) (l l' : List (ℝ × Bool)) (hl : l'.map Prod.fst = l.map Prod.fst)
    (hg : Good s h e x v f l) (hg' : Good s' h e' x' v' f' l')
    (h0 : ∀ i, s.Alive i → parts d x' (σ i) = parts d x i ∧ parts d v' (σ i) = parts d v i ∧ parts d f' (σ i) = parts d f i) :
    ∃ st st', (start s T x v f).bind (steps s T e l) = some st ∧ (start s' T x' v' f').bind (steps s' T e' l') = some st' ∧
      ∀ i, s.Alive i → parts d st'.v (σ i) = parts d st.v i ∧ parts d st'.f (σ i) = parts d st.f i ∧
        Lattice s (parts d st'.x (σ i) - parts d st.x i) := by
  have hLat : ∀ X, Lattice s' X ↔ Lattice s X := fun X => by unfold Lattice; rw [hgrid]
  have hR : Related s s' e.im e'.im σ LinearMap.id :=
    ⟨hal, fun i hi => (hp i hi).1, fun i hi => (hp i hi).2.1, fun i hi => (hp i hi).2.2, hforce, hcut, fun _ => rfl, fun X hX => (hLat X).mpr hX,
      fun X => Or.inl (by rw [hgrid]; rfl)⟩
  obtain ⟨st, st', a, b, r⟩ := C165_run_partial hr href T T hT hT' e e' hR x v f x' v' f' l l' hl hg hg' 0 0 (fun i hi => by
    obtain ⟨h1, h2, h3⟩ := h0 i hi
    refine ⟨?_, ?_, ?_⟩
    · show parts d v' (σ i) = parts d v i + 0
      rw [h2, add_zero]
    · exact h3
    · show Lattice s' (parts d x' (σ i) - (parts d x i + 0))
      rw [h1, add_zero, sub_self]
      intro k; exact ⟨0, fun _ => rfl, by simp⟩)
  refine ⟨st, st', a, b, fun i hi => ?_⟩
  obtain ⟨r1, r2, r3⟩ := r i hi
  refine ⟨?_, r2, ?_⟩
  · have : parts d st'.v (σ i) = parts d st.v i + 0 := r1
    rw [this, add_zero]
  · have r4 : Lattice s' (parts d st'.x (σ i) - (parts d st.x i + (0 + (l.map Prod.fst).sum • 0))) := r3
    rw [smul_zero, add_zero, add_zero] at r4
    exact (hLat _).mp r4

/-- **C165, rotations and mirrors (partial).** In an open box, if the starting state is turned by any linear map that keeps lengths, the state after any run is turned by it. The boxes and cells of the two runs may differ.
Missing: as for `C165_run_partial`. -/
theorem C165_rotation_partial (hr : InRange h) (href : AllReflexive h) (T : FM ℝ) (hT : run s.cut (.init :: h) = some T)
    (hs : s' = { s with g := s'.g, mss := s'.mss, skin := s'.skin, kind := s'.kind }) (hopen : ∀ k, (s.g k).per = false ∧ (s'.g k).per = false)
    (A : (Fin d → ℝ) →ₗ[ℝ] (Fin d → ℝ)) (hA : ∀ X, dot (A X) (A X) = dot X X) (e : Env)
    (x v f x' v' f' : Arr) (l l' : List (ℝ × Bool)) (hl : l'.map Prod.fst = l.map Prod.fst)
    (hg : Good s h e x v f l) (hg' : Good s' h e x' v' f' l')
    (h0 : ∀ i, s.Alive i → parts d x' i = A (parts d x i) ∧ parts d v' i = A (parts d v i) ∧ parts d f' i = A (parts d f i)) :
    ∃ st st', (start s T x v f).bind (steps s T e l) = some st ∧ (start s' T x' v' f').bind (steps s' T e l') = some st' ∧
      ∀ i, s.Alive i → parts d st'.x i = A (parts d st.x i) ∧ parts d st'.v i = A (parts d st.v i) ∧ parts d st'.f i = A (parts d st.f i) := by
  have hLat : ∀ X, Lattice s X → X = 0 := fun X hX => by
    funext k
    obtain ⟨z, z1, z2⟩ := hX k
    rw [z2, z1 (hopen k).1]; simp
  have hLat' : ∀ X, Lattice s' X → X = 0 := fun X hX => by
    funext k
    obtain ⟨z, z1, z2⟩ := hX k
    rw [z2, z1 (hopen k).2]; simp
  have hzero : Lattice s' 0 := fun k => ⟨0, fun _ => rfl, by simp⟩
  have hnear : ∀ X, nearest s.g X = X := fun X => by funext k; unfold nearest; rw [if_neg (by rw [(hopen k).1]; simp)]
  have hnear' : ∀ X, nearest s'.g X = X := fun X => by funext k; unfold nearest; rw [if_neg (by rw [(hopen k).2]; simp)]
  have hR : Related s s' e.im e.im (Equiv.refl ℕ) A := by
    refine ⟨fun i => ?_, fun i _ => ?_, fun i _ => ?_, fun _ _ => rfl, ?_, ?_, hA, fun X hX => ?_, fun X => Or.inl (by rw [hnear, hnear'])⟩
    · rw [hs]; exact Iff.rfl
    · rw [hs]; rfl
    · rw [hs]; rfl
    · rw [hs]
    · rw [hs]
    · rw [hLat X hX, map_zero]; exact hzero
  have hcut : s'.cut = s.cut := by rw [hs]
  obtain ⟨st, st', a, b, r⟩ := C165_run_partial hr href T T hT (by rw [hcut]; exact hT) e e hR x v f x' v' f' l l' hl hg hg' 0 0 (fun i hi => by
    obtain ⟨h1, h2, h3⟩ := h0 i hi
    refine ⟨?_, h3, ?_⟩
    · show parts d v' i = A (parts d v i) + 0
      rw [h2, add_zero]
    · show Lattice s' (parts d x' i - (A (parts d x i) + 0))
      rw [h1, add_zero, sub_self]; exact hzero)
  refine ⟨st, st', a, b, fun i hi => ?_⟩
  obtain ⟨r1, r2, r3⟩ := r i hi
  refine ⟨?_, ?_, r2⟩
  · have r4 : Lattice s' (parts d st'.x i - (A (parts d st.x i) + (0 + (l.map Prod.fst).sum • 0))) := r3
    rw [smul_zero, add_zero, add_zero] at r4
    exact sub_eq_zero.mp (hLat' _ r4)
  · have : parts d st'.v i = A (parts d st.v i) + 0 := r1
    rw [this, add_zero]

/-- **C165, inversion in a periodic box (partial).** Turning all positions, velocities and forces into their opposites, also in a box that wraps, where the inverted particles are brought back by box lengths.
Missing: as for `C165_run_partial`. -/
theorem C165_inversion_partial (hr : InRange h) (href : AllReflexive h) (T : FM ℝ) (hT : run s.cut (.init :: h) = some T)
    (e : Env) (x v f x' v' f' : Arr) (l l' : List (ℝ × Bool)) (hl : l'.map Prod.fst = l.map Prod.fst)
    (hg : Good s h e x v f l) (hg' : Good s h e x' v' f' l')
    (h0 : ∀ i, s.Alive i → Lattice s (parts d x' i + parts d x i) ∧ parts d v' i = -parts d v i ∧ parts d f' i = -parts d f i) :
    ∃ st st', (start s T x v f).bind (steps s T e l) = some st ∧ (start s T x' v' f').bind (steps s T e l') = some st' ∧
      ∀ i, s.Alive i → Lattice s (parts d st'.x i + parts d st.x i) ∧ parts d st'.v i = -parts d st.v i ∧ parts d st'.f i = -parts d st.f i := by
  have hR : Related s s e.im e.im (Equiv.refl ℕ) (-LinearMap.id) := by
    refine ⟨fun _ => Iff.rfl, fun _ _ => rfl, fun _ _ => rfl, fun _ _ => rfl, rfl, rfl, fun X => ?_, fun X hX => hX.neg, fun X => ?_⟩
    · unfold dot; exact Finset.sum_congr rfl fun k _ => by simp
    · show nearest s.g (-X) = -nearest s.g X ∨ Tie s X ∧ Tie s (-X)
      by_cases hall : ∀ l, nearest s.g (-X) l = -nearest s.g X l
      · left; funext l; exact hall l
      · push Not at hall
        obtain ⟨l, hl⟩ := hall
        obtain ⟨hper, h1, h2⟩ := (nearest_neg s hg.1.valid X l).resolve_left hl
        exact Or.inr ⟨⟨l, hper, h1⟩, ⟨l, hper, h2⟩⟩
  obtain ⟨st, st', a, b, r⟩ := C165_run_partial hr href T T hT hT e e hR x v f x' v' f' l l' hl hg hg' 0 0 (fun i hi => by
    obtain ⟨h1, h2, h3⟩ := h0 i hi
    refine ⟨?_, h3, ?_⟩
    · show parts d v' i = -parts d v i + 0
      rw [h2, add_zero]
    · show Lattice s (parts d x' i - (-parts d x i + 0))
      rw [add_zero, sub_neg_eq_add]; exact h1)
  refine ⟨st, st', a, b, fun i hi => ?_⟩
  obtain ⟨r1, r2, r3⟩ := r i hi
  refine ⟨?_, ?_, r2⟩
  · have r4 : Lattice s (parts d st'.x i - (-parts d st.x i + (0 + (l.map Prod.fst).sum • 0))) := r3
    rw [smul_zero, add_zero, add_zero, sub_neg_eq_add] at r4
    exact r4
  · have : parts d st'.v i = -parts d st.v i + 0 := r1
    rw [this, add_zero]

/-! ## Concrete runs -/

/-- The ring of `ForceSum`: all inverse masses 1. -/
noncomputable def ringEnv : Env := ⟨fun _ => 1, none, false, false, fun _ => ⟨⟨fun _ => ⟨[], [], [], none⟩, 0⟩, fun _ => [], fun _ => []⟩⟩

/-- The ring from positions `y`, moving with velocity `w`, for one step. -/
theorem ring_good {y : Arr} {w : ℝ} {r : Bool} (hw : |w| ≤ 2) (h0 : ∀ i < 3, ∃ z : ℤ, 0 < y i + z * (24/5) ∧ y i + z * (24/5) < 24/5)
    (h1 : ∀ i < 3, ∃ z : ℤ, 0 < y i + w / 100 + z * (24/5) ∧ y i + w / 100 + z * (24/5) < 24/5)
    (h2 : ∀ i < 3, ∀ j < 3, i ≠ j → ∃ z : ℤ, 0 < y i - y j + z * (24/5) ∧ y i - y j + z * (24/5) < 24/5) :
    Good ring ringHist ringEnv y (fun _ => w) (fun _ => 0) [(1/100, r)] := by
  have p0 : ∀ i (k : Fin 1), parts 1 y i k = y i := by intro i k; simp [parts, Subsingleton.elim k 0]
  have x1 : ∀ i k, (ideal ring ringHist ringEnv.im (1/100) ⟨parts 1 y, parts 1 fun _ => w, parts 1 fun _ => 0⟩).x i k = y i + w / 100 := by
    intro i k; simp [ideal, parts, Subsingleton.elim k 0]; ring
  have lt3 : ∀ i, ring.Alive i → i < 3 := fun i hi => by rcases ring_alive hi with rfl | rfl | rfl <;> norm_num
  refine ⟨?_, trivial, ?_, ⟨?_, ?_, ?_, trivial⟩⟩
  · apply ok_at ring_ok
    intro i hi k hk
    exact ⟨(home_range ring ring_ok.valid _ k hk).1, (home_range ring ring_ok.valid _ k hk).2.1⟩
  · apply ring_build
    intro i hi
    simp only [p0]
    exact h0 i (lt3 i hi)
  · intro _
    apply ring_build
    intro i hi
    simp only [x1]
    exact h1 i (lt3 i hi)
  · intro _ i _
    rw [len_one]
    have : ((ideal ring ringHist ringEnv.im (1/100) ⟨parts 1 y, parts 1 fun _ => w, parts 1 fun _ => 0⟩).x i - parts 1 y i) 0 = w / 100 := by
      simp only [Pi.sub_apply, x1, p0]; ring
    rw [this, abs_div, abs_of_pos (by norm_num : (0 : ℝ) < 100)]
    norm_num [ring]
    linarith
  · apply ring_separate
    intro i j hi hj hij
    simp only [x1]
    obtain ⟨z, a, b⟩ := h2 i (lt3 i hi) j (lt3 j hj) hij
    exact ⟨z, by linarith, by linarith⟩

theorem ring_good_of {a0 a1 a2 w : ℝ} {r : Bool} (y : Arr) (e0 : y 0 = a0) (e1 : y 1 = a1) (e2 : y 2 = a2) (hw : |w| ≤ 2) (z0 z1 z2 : ℤ)
    (h0 : 0 < a0 + z0 * (24/5) ∧ 0 < a0 + z0 * (24/5) + w / 100 ∧ a0 + z0 * (24/5) < 24/5 ∧ a0 + z0 * (24/5) + w / 100 < 24/5)
    (h1 : 0 < a1 + z1 * (24/5) ∧ 0 < a1 + z1 * (24/5) + w / 100 ∧ a1 + z1 * (24/5) < 24/5 ∧ a1 + z1 * (24/5) + w / 100 < 24/5)
    (h2 : 0 < a2 + z2 * (24/5) ∧ 0 < a2 + z2 * (24/5) + w / 100 ∧ a2 + z2 * (24/5) < 24/5 ∧ a2 + z2 * (24/5) + w / 100 < 24/5)
    (n01 : a0 + z0 * (24/5) ≠ a1 + z1 * (24/5)) (n02 : a0 + z0 * (24/5) ≠ a2 + z2 * (24/5)) (n12 : a1 + z1 * (24/5) ≠ a2 + z2 * (24/5)) :
    Good ring ringHist ringEnv y (fun _ => w) (fun _ => 0) [(1/100, r)] := by
  have lt3 : ∀ i : ℕ, i < 3 → i = 0 ∨ i = 1 ∨ i = 2 := by omega
  have sep : ∀ {p q : ℝ} {zp zq : ℤ}, 0 < p + zp * (24/5) → p + zp * (24/5) < 24/5 → 0 < q + zq * (24/5) → q + zq * (24/5) < 24/5 → p + zp * (24/5) ≠ q + zq * (24/5) →
      ∃ z : ℤ, 0 < p - q + z * (24/5) ∧ p - q + z * (24/5) < 24/5 := by
    intro p q zp zq A B C D n
    rcases lt_or_gt_of_ne n with g | g
    · exact ⟨zp - zq + 1, by push_cast; linarith, by push_cast; linarith⟩
    · exact ⟨zp - zq, by push_cast; linarith, by push_cast; linarith⟩
  obtain ⟨p0, q0, r0, s0⟩ := h0
  obtain ⟨p1, q1, r1, s1⟩ := h1
  obtain ⟨p2, q2, r2, s2⟩ := h2
  refine ring_good hw ?_ ?_ ?_
  · intro i hi
    rcases lt3 i hi with rfl | rfl | rfl
    · rw [e0]; exact ⟨z0, p0, r0⟩
    · rw [e1]; exact ⟨z1, p1, r1⟩
    · rw [e2]; exact ⟨z2, p2, r2⟩
  · intro i hi
    rcases lt3 i hi with rfl | rfl | rfl
    · rw [e0]; exact ⟨z0, by linarith, by linarith⟩
    · rw [e1]; exact ⟨z1, by linarith, by linarith⟩
    · rw [e2]; exact ⟨z2, by linarith, by linarith⟩
  · intro i hi j hj hij
    rcases lt3 i hi with rfl | rfl | rfl <;> rcases lt3 j hj with rfl | rfl | rfl
    · exact absurd rfl hij
    · rw [e0, e1]; exact sep p0 r0 p1 r1 n01
    · rw [e0, e2]; exact sep p0 r0 p2 r2 n02
    · rw [e1, e0]; exact sep p1 r1 p0 r0 n01.symm
    · exact absurd rfl hij
    · rw [e1, e2]; exact sep p1 r1 p2 r2 n12
    · rw [e2, e0]; exact sep p2 r2 p0 r0 n02.symm
    · rw [e2, e1]; exact sep p2 r2 p1 r1 n12.symm
    · exact absurd rfl hij

/-- Two runs that meet the hypotheses of `C165_galilei_partial`: a shift by 1/10 and a boost by 1, lists rebuilt only in the second run, two particles that push each other. -/
example : Good ring ringHist ringEnv ringX (fun _ => 1) (fun _ => 0) [(1/100, false)] ∧
    Good ring ringHist ringEnv (fun j => ringX j + 1/10) (fun _ => 2) (fun _ => 0) [(1/100, true)] ∧
    (∀ i, ring.Alive i → Lattice ring (parts 1 (fun j => ringX j + 1/10) i - (parts 1 ringX i + fun _ => 1/10))) ∧
    (ideal ring ringHist (fun _ => 1) (1/100) ringM).f 0 0 = 7/5 := by
  refine ⟨ring_good_of ringX rfl rfl rfl ?_ (-1) 0 0 ?_ ?_ ?_ ?_ ?_ ?_, ring_good_of _ rfl rfl rfl ?_ (-1) (-1) 0 ?_ ?_ ?_ ?_ ?_ ?_, fun i _ k => ⟨0, fun _ => rfl, ?_⟩, (ring_f1 0).1⟩
  iterate 14 norm_num [ringX, abs_of_pos]
  simp [parts]

/-- Two runs that meet the hypotheses of `C165_numbering_partial`: particles 0 and 2, which have the same type, change their numbers. -/
example : Good ring ringHist ringEnv ringX (fun _ => 1) (fun _ => 0) [(1/100, false)] ∧
    Good ring ringHist ringEnv (fun j => ringX (Equiv.swap 0 2 j)) (fun _ => 1) (fun _ => 0) [(1/100, true)] ∧
    (∀ i, ring.Alive (Equiv.swap 0 2 i) ↔ ring.Alive i) ∧ (∀ i, ring.Alive i → ring.type (Equiv.swap 0 2 i) = ring.type i) := by
  have e0 : Equiv.swap 0 2 0 = (2 : ℕ) := rfl
  have e1 : Equiv.swap 0 2 1 = (1 : ℕ) := rfl
  have e2 : Equiv.swap 0 2 2 = (0 : ℕ) := rfl
  have al : ∀ i, ring.Alive i → ring.Alive (Equiv.swap 0 2 i) := fun i hi => by
    rcases ring_alive hi with rfl | rfl | rfl
    · rw [e0]; exact ring_all 2 (by norm_num)
    · rw [e1]; exact ring_all 1 (by norm_num)
    · rw [e2]; exact ring_all 0 (by norm_num)
  refine ⟨ring_good_of ringX rfl rfl rfl ?_ (-1) 0 0 ?_ ?_ ?_ ?_ ?_ ?_, ring_good_of (a0 := 2) (a1 := 475/100) (a2 := 481/100) _ (by simp only [e0]; norm_num [ringX]) (by simp only [e1]; norm_num [ringX])
    (by simp only [e2]; norm_num [ringX]) ?_ 0 0 (-1) ?_ ?_ ?_ ?_ ?_ ?_, fun i => ⟨fun hi => ?_, al i⟩, fun i hi => ?_⟩
  iterate 14 norm_num [ringX, abs_of_pos]
  · have := al _ hi
    rwa [Equiv.swap_apply_self] at this
  · rcases ring_alive hi with rfl | rfl | rfl
    · rw [e0]; norm_num [ring]
    · rw [e1]
    · rw [e2]; norm_num [ring]

/-- Two runs that meet the hypotheses of `C165_inversion_partial`. -/
example : Good ring ringHist ringEnv ringX (fun _ => 1) (fun _ => 0) [(1/100, false)] ∧
    Good ring ringHist ringEnv (fun j => -ringX j + 24/5) (fun _ => -1) (fun _ => 0) [(1/100, true)] ∧
    (∀ i, ring.Alive i → Lattice ring (parts 1 (fun j => -ringX j + 24/5) i + parts 1 ringX i)) := by
  refine ⟨ring_good_of ringX rfl rfl rfl ?_ (-1) 0 0 ?_ ?_ ?_ ?_ ?_ ?_, ring_good_of _ rfl rfl rfl ?_ 1 0 0 ?_ ?_ ?_ ?_ ?_ ?_, fun i _ k => ⟨1, fun hk => ?_, ?_⟩⟩
  iterate 14 norm_num [ringX, abs_of_pos]
  · simp [ring] at hk
  · simp [parts, ring]

/-- A rotation of the plane by a quarter turn keeps lengths, as `C165_rotation_partial` asks. -/
example : ∃ A : (Fin 2 → ℝ) →ₗ[ℝ] (Fin 2 → ℝ), (∀ X, dot (A X) (A X) = dot X X) ∧ A ![1, 0] = ![0, 1] := by
  refine ⟨{ toFun := fun X => ![-X 1, X 0], map_add' := fun X Y => ?_, map_smul' := fun c X => ?_ }, fun X => ?_, ?_⟩
  · ext k; fin_cases k <;> simp; ring
  · ext k; fin_cases k <;> simp
  · simp [dot, Fin.sum_univ_two]; ring
  · ext k; fin_cases k <;> simp

end Verif.Symmetry
