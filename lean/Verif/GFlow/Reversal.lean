import Verif.GFlow.Symmetry

/-!
# Whole runs can be undone (C173)

Uses the model of whole runs of `Verif.GFlow.Trajectory` (run loop, velocity Verlet, wrapping, cells, neighbour lists, force containers, kernels). After a run all velocities are turned around and a second run is made with the same time steps in
the opposite order; lists may be built at other steps.
-/

namespace Verif.Reversal
open Verif.ForceSum Verif.Trajectory Verif.PairForces Verif.Verlet Verif.ForceMaster Verif.Symmetry

variable {d : ℕ}

/-! ## Specification -/

/-- Spec: a force without friction: it does not depend on velocities. -/
def Steady : Force → Prop
  | .hardSphereDs _ g => g = 0
  | .hertz _ g => g = 0
  | _ => True

/-- Spec: no two particles interact by a force with friction. -/
def Frictionless (s : Setup d) (h : List Call) : Prop :=
  ∀ i j, s.Alive i → s.Alive j → ∀ p, lastSet h (s.type i) (s.type j) = some p → Steady (s.force p)

/-- Spec: the force on `i` at the positions `x` (of particles at rest): the sum over all others. -/
noncomputable def total (s : Setup d) (h : List Call) (im : ℕ → ℝ) (x : ℕ → Fin d → ℝ) (i : ℕ) : Fin d → ℝ :=
  ∑ j ∈ (Finset.range s.number).filter (fun j => j ≠ i ∧ 0 ≤ s.type j), s.direct h ⟨x, fun _ _ => 0, s.rd, im⟩ i j

/-! ## Proofs -/

/-- Equal up to box lengths. -/
def Same (s : Setup d) (M M' : Motion d) : Prop := ∀ i, s.Alive i → M'.v i = M.v i ∧ M'.f i = M.f i ∧ Lattice s (M'.x i - M.x i)

theorem Same.trans {s : Setup d} {M M' M'' : Motion d} (h1 : Same s M M') (h2 : Same s M' M'') : Same s M M'' := fun i hi =>
  ⟨(h2 i hi).1.trans (h1 i hi).1, (h2 i hi).2.1.trans (h1 i hi).2.1, by
    have := (h2 i hi).2.2.add (h1 i hi).2.2
    rwa [sub_add_sub_cancel] at this⟩

theorem same_image {s : Setup d} {M M' : Motion d} : Same s M M' ↔ Image s s (Equiv.refl ℕ) LinearMap.id 0 0 M M' := by
  unfold Same Image
  simp only [Equiv.refl_apply, LinearMap.id_apply, add_zero]

theorem ideal_same {s : Setup d} {h : List Call} {x0 : ℕ → Fin d → ℝ} {im : ℕ → ℝ} (hok : s.OK h x0) (href : AllReflexive h) (dt : ℝ) {M M' : Motion d} (hM : Same s M M') :
    Same s (ideal s h im dt M) (ideal s h im dt M') := by
  have := ideal_image (related_self s im) hok hok href 0 0 dt M M' (same_image.mp hM)
  rw [smul_zero, add_zero] at this
  exact same_image.mpr this

theorem mag_steady {F : Force} (hF : Steady F) (P P' : Parts d) (hrd : P'.rd = P.rd) (him : P'.im = P.im) (i j : ℕ) (n : Fin d → ℝ) (r : ℝ) : F.mag P' i j n r = F.mag P i j n r := by
  cases F <;> simp only [Steady] at hF <;> simp only [Force.mag, hrd, him, hF, zero_mul, hertzMag, mul_zero]

theorem direct_steady {s : Setup d} {h : List Call} (hst : Frictionless s h) (P P' : Parts d) (hx : P'.x = P.x) (hrd : P'.rd = P.rd) (him : P'.im = P.im) {i j : ℕ} (hi : s.Alive i) (hj : s.Alive j) :
    s.direct h P' i j = s.direct h P i j := by
  funext k
  unfold Setup.direct
  cases hp : lastSet h (s.type i) (s.type j) with
  | none => rfl
  | some p =>
    simp only [pushed, hx, hrd, mag_steady (hst i j hi hj p hp) P P' hrd him]

/-- The forces of a step are those of the new positions. -/
theorem ideal_force {s : Setup d} {h : List Call} (hst : Frictionless s h) (im : ℕ → ℝ) (dt : ℝ) (M : Motion d) {i : ℕ} (hi : s.Alive i) :
    (ideal s h im dt M).f i = total s h im (ideal s h im dt M).x i := by
  classical
  have e1 : (ideal s h im dt M).f i = ∑ j ∈ (Finset.range s.number).filter (fun j => j ≠ i ∧ 0 ≤ s.type j), s.direct h ⟨(ideal s h im dt M).x, fun i k => M.v i k + dt / 2 * im i * M.f i k, s.rd, im⟩ i j := by
    funext k
    rw [Finset.sum_apply]
    show (if s.Alive i then _ else _) = _
    rw [if_pos hi]; rfl
  rw [e1]
  refine Finset.sum_congr rfl fun j hj => ?_
  simp only [Finset.mem_filter, Finset.mem_range] at hj
  exact direct_steady hst ⟨(ideal s h im dt M).x, fun _ _ => 0, s.rd, im⟩ ⟨(ideal s h im dt M).x, fun i k => M.v i k + dt / 2 * im i * M.f i k, s.rd, im⟩ rfl rfl rfl hi ⟨hj.1, hj.2.2⟩

/-- All velocities turned around. -/
def turn (M : Motion d) : Motion d := ⟨M.x, fun i => -M.v i, M.f⟩

/-- What turning around comes back to, from `M` by a first step `dt`. -/
noncomputable def origin (s : Setup d) (h : List Call) (im : ℕ → ℝ) (dt : ℝ) (M : Motion d) : Motion d :=
  ⟨M.x, fun i => -M.v i + (dt / 2 * im i) • (total s h im M.x i - M.f i), total s h im M.x⟩

/-- Positions come back in one step, whatever the forces are. -/
theorem back_x (s : Setup d) (h : List Call) (im : ℕ → ℝ) (dt : ℝ) (M : Motion d) :
    (∀ i k, (turn (ideal s h im dt M)).v i k + dt / 2 * im i * (turn (ideal s h im dt M)).f i k = -(M.v i k + dt / 2 * im i * M.f i k)) ∧ (ideal s h im dt (turn (ideal s h im dt M))).x = M.x := by
  have hv : ∀ i k, (turn (ideal s h im dt M)).v i k + dt / 2 * im i * (turn (ideal s h im dt M)).f i k = -(M.v i k + dt / 2 * im i * M.f i k) := by
    intro i k
    have e1 : (turn (ideal s h im dt M)).v i k = -((M.v i k + dt / 2 * im i * M.f i k) + dt / 2 * im i * (ideal s h im dt M).f i k) := rfl
    have e2 : (turn (ideal s h im dt M)).f i k = (ideal s h im dt M).f i k := rfl
    rw [e1, e2]; ring
  refine ⟨hv, ?_⟩
  funext i k
  have e1 : (ideal s h im dt (turn (ideal s h im dt M))).x i k = (M.x i k + dt * (M.v i k + dt / 2 * im i * M.f i k)) +
    dt * ((turn (ideal s h im dt M)).v i k + dt / 2 * im i * (turn (ideal s h im dt M)).f i k) := rfl
  rw [e1, hv]; ring

theorem back {s : Setup d} {h : List Call} (hst : Frictionless s h) (im : ℕ → ℝ) (dt : ℝ) (M : Motion d) :
    Same s (origin s h im dt M) (ideal s h im dt (turn (ideal s h im dt M))) := by
  obtain ⟨hv, hx⟩ := back_x s h im dt M
  intro i hi
  have hf : (ideal s h im dt (turn (ideal s h im dt M))).f i = total s h im M.x i := by rw [ideal_force hst im dt _ hi, hx]
  refine ⟨?_, hf, ?_⟩
  · funext k
    have e1 : (ideal s h im dt (turn (ideal s h im dt M))).v i k = ((turn (ideal s h im dt M)).v i k + dt / 2 * im i * (turn (ideal s h im dt M)).f i k) +
      dt / 2 * im i * (ideal s h im dt (turn (ideal s h im dt M))).f i k := rfl
    rw [e1, hv, hf]
    simp only [origin, Pi.add_apply, Pi.neg_apply, Pi.smul_apply, Pi.sub_apply, smul_eq_mul]
    ring
  · rw [hx]
    show Lattice s (M.x i - M.x i)
    rw [sub_self]
    exact fun k => ⟨0, fun _ => rfl, by simp⟩

theorem origin_turn {s : Setup d} {h : List Call} (hst : Frictionless s h) (im : ℕ → ℝ) (dt dt' : ℝ) (M : Motion d) : Same s (turn (ideal s h im dt M)) (origin s h im dt' (ideal s h im dt M)) := by
  intro i hi
  refine ⟨?_, (ideal_force hst im dt M hi).symm, ?_⟩
  · show -(ideal s h im dt M).v i + (dt' / 2 * im i) • (total s h im (ideal s h im dt M).x i - (ideal s h im dt M).f i) = -(ideal s h im dt M).v i
    rw [ideal_force hst im dt M hi, sub_self, smul_zero, add_zero]
  · show Lattice s ((ideal s h im dt M).x i - (ideal s h im dt M).x i)
    rw [sub_self]
    exact fun k => ⟨0, fun _ => rfl, by simp⟩

theorem lattice_pair {s : Setup d} {x y : ℕ → Fin d → ℝ} (hl : ∀ i, s.Alive i → Lattice s (y i - x i)) {i j : ℕ} (hi : s.Alive i) (hj : s.Alive j) : Lattice s ((y i - y j) - (x i - x j)) := by
  have := (hl i hi).sub (hl j hj)
  have e : y i - x i - (y j - x j) = (y i - y j) - (x i - x j) := by abel
  rwa [e] at this

theorem separate_same {s : Setup d} {h : List Call} (hv : ∀ k, (s.g k).Valid) {x y : ℕ → Fin d → ℝ} (hl : ∀ i, s.Alive i → Lattice s (y i - x i)) (hs : Separate s h x) : Separate s h y := by
  intro i j hi hj hij hn
  rw [nearest_lattice s hv (lattice_pair hl hi hj)]
  exact hs i j hi hj hij hn

theorem home_lattice (s : Setup d) (hv : ∀ k, (s.g k).Valid) {X Y : Fin d → ℝ} (hl : Lattice s (Y - X)) : home s Y = home s X := by
  funext k
  obtain ⟨z, z1, z2⟩ := hl k
  rw [Pi.sub_apply] at z2
  have hW : 0 < (s.g k).hi - (s.g k).lo := sub_pos.mpr (hv k).lohi
  unfold home
  by_cases hp : (s.g k).per = true
  · rw [if_pos hp, if_pos hp]
    have e : Y k = X k + z * ((s.g k).hi - (s.g k).lo) := by linarith
    have e2 : (Y k - (s.g k).lo) / ((s.g k).hi - (s.g k).lo) = (X k - (s.g k).lo) / ((s.g k).hi - (s.g k).lo) + z := by
      rw [e]; field_simp; ring
    rw [e2, Int.floor_add_intCast, e]
    push_cast; ring
  · rw [if_neg hp, if_neg hp]
    rw [z1 (by simpa using hp)] at z2
    simp at z2; linarith

theorem buildable_same {s : Setup d} {h : List Call} (hv : ∀ k, (s.g k).Valid) {x y : ℕ → Fin d → ℝ} (hl : ∀ i, s.Alive i → Lattice s (y i - x i)) (hb : Buildable s h x) : Buildable s h y := by
  refine ⟨fun i hi k hp z e => ?_, fun i j hi hj hij p hp => ?_⟩
  · obtain ⟨w, _, w2⟩ := hl i hi k
    rw [Pi.sub_apply] at w2
    refine hb.1 i hi k hp (z - w) ?_
    push_cast
    linarith
  · rw [home_lattice s hv (hl i hi), home_lattice s hv (hl j hj)]
    exact hb.2 i j hi hj hij p hp

theorem slow_append (s : Setup d) (h : List Call) (im : ℕ → ℝ) (δ : ℝ) (l l2 : List (ℝ × Bool)) (M : Motion d) (h1 : Slow s h im δ l M) (h2 : Slow s h im δ l2 (l.foldl (fun M a => ideal s h im a.1 M) M)) :
    Slow s h im δ (l ++ l2) M := by
  induction l generalizing M with
  | nil => exact h2
  | cons a l ih =>
    obtain ⟨dt, r⟩ := a
    obtain ⟨a1, a2, a3, a4⟩ := h1
    exact ⟨a1, a2, a3, ih _ a4 h2⟩

theorem len_neg' (X : Fin d → ℝ) : len (-X) = len X := by unfold len dot; simp

/-- The last step back. -/
theorem last_step {s : Setup d} {h : List Call} {x0 : ℕ → Fin d → ℝ} {im : ℕ → ℝ} (hok : s.OK h x0) (href : AllReflexive h) (hst : Frictionless s h) {δ dt : ℝ} {M M' : Motion d}
    (hM : Same s (turn (ideal s h im dt M)) M') (hmove : ∀ i, s.Alive i → len ((ideal s h im dt M).x i - M.x i) ≤ δ) (hs : Separate s h M.x) (hb : Buildable s h M.x) (r : Bool) :
    Slow s h im δ [(dt, r)] M' ∧ Same s (origin s h im dt M) (ideal s h im dt M') := by
  have hS : Same s (origin s h im dt M) (ideal s h im dt M') := (back hst im dt M).trans (ideal_same hok href dt hM)
  have hl : ∀ i, s.Alive i → Lattice s ((ideal s h im dt M').x i - M.x i) := fun i hi => (hS i hi).2.2
  refine ⟨⟨fun i hi => ?_, separate_same hok.valid hl hs, buildable_same hok.valid hl hb, trivial⟩, hS⟩
  obtain ⟨a, b, _⟩ := hM i hi
  have e : (ideal s h im dt M').x i - M'.x i = -((ideal s h im dt M).x i - M.x i) := by
    funext k
    have e1 : (ideal s h im dt M').x i k = M'.x i k + dt * (M'.v i k + dt / 2 * im i * M'.f i k) := rfl
    have e2 : (ideal s h im dt M).x i k = M.x i k + dt * (M.v i k + dt / 2 * im i * M.f i k) := rfl
    have e3 : (turn (ideal s h im dt M)).v i k = -((M.v i k + dt / 2 * im i * M.f i k) + dt / 2 * im i * (ideal s h im dt M).f i k) := rfl
    have e4 : (turn (ideal s h im dt M)).f i k = (ideal s h im dt M).f i k := rfl
    rw [Pi.neg_apply, Pi.sub_apply, Pi.sub_apply, e1, e2, a, b, e3, e4]
    ring
  rw [e, len_neg']
  exact hmove i hi

theorem back_run {s : Setup d} {h : List Call} {x0 : ℕ → Fin d → ℝ} {im : ℕ → ℝ} (hok : s.OK h x0) (href : AllReflexive h) (hst : Frictionless s h) {δ : ℝ} :
    ∀ (l : List (ℝ × Bool)) (dt : ℝ) (r : Bool) (M M' : Motion d) (l' : List (ℝ × Bool)), Slow s h im δ ((dt, r) :: l) M → Separate s h M.x → Buildable s h M.x →
      l'.map Prod.fst = (((dt, r) :: l).map Prod.fst).reverse → Same s (turn (((dt, r) :: l).foldl (fun M a => ideal s h im a.1 M) M)) M' →
      Slow s h im δ l' M' ∧ Same s (origin s h im dt M) (l'.foldl (fun M a => ideal s h im a.1 M) M') := by
  intro l
  induction l with
  | nil =>
    intro dt r M M' l' hs h1 h2 hl hM
    cases l' with
    | nil => simp at hl
    | cons b l' =>
      obtain ⟨dt', r'⟩ := b
      simp only [List.map_cons, List.map_nil, List.reverse_cons, List.reverse_nil, List.nil_append, List.cons.injEq, List.map_eq_nil_iff] at hl
      obtain ⟨rfl, rfl⟩ := hl
      exact last_step hok href hst hM hs.1 h1 h2 r'
  | cons b l ih =>
    obtain ⟨dt2, r2⟩ := b
    intro dt r M M' l' hs h1 h2 hl hM
    obtain ⟨s1, s2, s3, s4⟩ := hs
    have hne : l' ≠ [] := by rintro rfl; simp at hl
    obtain ⟨l0, b0, rfl⟩ : ∃ l0 b0, l' = l0 ++ [b0] := ⟨_, _, (List.dropLast_append_getLast hne).symm⟩
    rw [List.map_append, List.map_cons (l := (dt2, r2) :: l), List.reverse_cons] at hl
    have hl' := List.append_inj' hl (by simp)
    have hb0 : b0.1 = dt := by simpa using hl'.2
    obtain ⟨i1, i2⟩ := ih dt2 r2 (ideal s h im dt M) M' l0 s4 s2 s3 hl'.1 hM
    have i3 : Same s (turn (ideal s h im dt M)) (l0.foldl (fun M a => ideal s h im a.1 M) M') := (origin_turn hst im dt dt2 M).trans i2
    obtain ⟨k1, k2⟩ := last_step hok href hst i3 s1 h1 h2 b0.2
    have hbe : b0 = (dt, b0.2) := by rw [← hb0]
    refine ⟨slow_append s h im δ l0 [b0] M' i1 (by rw [hbe]; exact k1), ?_⟩
    rw [List.foldl_append, List.foldl_cons, List.foldl_nil, hb0]
    exact k2

/-! ## C173 -/

/-- **C173 (partial).** For all systems of particles without friction, boxes, initial states and stored forces, and all runs whose lists are never older than `N` steps and in which no particle moves by more than `skin / (2 (N - 1))` in a step: turn all
velocities around at the end and run again, with the time steps in the opposite order and lists built at any steps, never older than `N`. The second run needs no further conditions: it goes through and ends at the initial positions (up to box lengths) with the
initial velocities turned around, except for the first half kick, in which the run used the stored forces `f`: it is undone with the true forces at the initial positions.
Missing: forces with friction (irreversible), walls other than wrapping or open ones, modifiers, rounding. -/
theorem C173_run_partial (s : Setup d) (h : List Call) (hr : InRange h) (href : AllReflexive h) (T : FM ℝ) (hT : run s.cut (.init :: h) = some T) (x v f : Arr)
    (hok : s.OK h fun i => home s (parts d x i)) (e : Env) (he : e.mode.OK) (hst : Frictionless s h) (hb : Buildable s h (parts d x)) (hsep : Separate s h (parts d x)) (dt : ℝ) (r : Bool) (l l' : List (ℝ × Bool))
    (N : ℕ) (δ : ℝ) (hδ : 0 ≤ δ) (hN : ((N - 1 : ℕ) : ℝ) * δ ≤ s.skin / 2) (hage : Age N 0 ((dt, r) :: l)) (hslow : Slow s h e.im δ ((dt, r) :: l) ⟨parts d x, parts d v, parts d f⟩)
    (hl : l'.map Prod.fst = (((dt, r) :: l).map Prod.fst).reverse) (hage' : Age N 0 l') :
    ∃ st st', (start s T x v f).bind (steps s T e ((dt, r) :: l)) = some st ∧ (start s T st.x (fun j => -st.v j) st.f).bind (steps s T e l') = some st' ∧
      ∀ i, s.Alive i → Lattice s (parts d st'.x i - parts d x i) ∧ parts d st'.f i = total s h e.im (parts d x) i ∧
        parts d st'.v i = -parts d v i + (dt / 2 * e.im i) • (total s h e.im (parts d x) i - parts d f i) := by
  obtain ⟨st, a1, a2⟩ := C129_delay_partial s h hr href T hT x v f hok e he hb ((dt, r) :: l) N δ hδ hN hage hslow
  simp only at a2
  have hS : Same s (turn (((dt, r) :: l).foldl (fun M a => ideal s h e.im a.1 M) ⟨parts d x, parts d v, parts d f⟩)) ⟨parts d st.x, parts d fun j => -st.v j, parts d st.f⟩ := by
    intro i hi
    obtain ⟨b1, b2, b3⟩ := a2 i hi
    refine ⟨?_, b2, fun k => ?_⟩
    · show (fun k => -parts d st.v i k) = -_
      rw [← b1]; rfl
    · obtain ⟨z, z1, z2⟩ := b3 k
      refine ⟨z, z1, ?_⟩
      have := z2
      simp only [turn, Pi.sub_apply]
      rw [this]; ring
  obtain ⟨k1, k2⟩ := back_run hok href hst l dt r _ _ l' hslow hsep hb hl hS
  have hb' : Buildable s h (parts d st.x) := by
    have hend : ∀ (l : List (ℝ × Bool)) (M : Motion d), Buildable s h M.x → Slow s h e.im δ l M → Buildable s h (l.foldl (fun M a => ideal s h e.im a.1 M) M).x := by
      intro l
      induction l with
      | nil => intro M h1 _; exact h1
      | cons b l ih => intro M _ h2; exact ih _ h2.2.2.1 h2.2.2.2
    exact buildable_same hok.valid (fun i hi => (hS i hi).2.2) (hend _ _ hb hslow)
  have hok' : s.OK h fun i => home s (parts d st.x i) := ok_at hok fun i _ k hk => ⟨(home_range s hok.valid _ k hk).1, (home_range s hok.valid _ k hk).2.1⟩
  obtain ⟨st', c1, c2⟩ := C129_delay_partial s h hr href T hT st.x (fun j => -st.v j) st.f hok' e he hb' l' N δ hδ hN hage' k1
  refine ⟨st, st', a1, c1, fun i hi => ?_⟩
  obtain ⟨b1, b2, b3⟩ := c2 i hi
  obtain ⟨q1, q2, q3⟩ := k2 i hi
  refine ⟨?_, b2.trans q2, b1.trans q1⟩
  have w : Lattice s (parts d st'.x i - (l'.foldl (fun M a => ideal s h e.im a.1 M) ⟨parts d st.x, parts d fun j => -st.v j, parts d st.f⟩).x i) := fun k => by
    obtain ⟨z, z1, z2⟩ := b3 k
    exact ⟨z, z1, by rw [Pi.sub_apply, z2]; ring⟩
  have := w.add q3
  rwa [sub_add_sub_cancel] at this

/-- **C173, exact return (partial).** If the stored forces at the start are those of the initial positions, as after every earlier run, the second run ends exactly in the initial state with all velocities turned around.
Missing: as for `C173_run_partial`. -/
theorem C173_return_partial (s : Setup d) (h : List Call) (hr : InRange h) (href : AllReflexive h) (T : FM ℝ) (hT : run s.cut (.init :: h) = some T) (x v f : Arr)
    (hok : s.OK h fun i => home s (parts d x i)) (e : Env) (he : e.mode.OK) (hst : Frictionless s h) (hb : Buildable s h (parts d x)) (hsep : Separate s h (parts d x)) (l l' : List (ℝ × Bool))
    (N : ℕ) (δ : ℝ) (hδ : 0 ≤ δ) (hN : ((N - 1 : ℕ) : ℝ) * δ ≤ s.skin / 2) (hage : Age N 0 l) (hslow : Slow s h e.im δ l ⟨parts d x, parts d v, parts d f⟩)
    (hl : l'.map Prod.fst = (l.map Prod.fst).reverse) (hage' : Age N 0 l') (hf : ∀ i, s.Alive i → parts d f i = total s h e.im (parts d x) i) (hne : l ≠ []) :
    ∃ st st', (start s T x v f).bind (steps s T e l) = some st ∧ (start s T st.x (fun j => -st.v j) st.f).bind (steps s T e l') = some st' ∧
      ∀ i, s.Alive i → Lattice s (parts d st'.x i - parts d x i) ∧ parts d st'.f i = parts d f i ∧ parts d st'.v i = -parts d v i := by
  obtain ⟨⟨dt, r⟩, l, rfl⟩ := List.exists_cons_of_ne_nil hne
  obtain ⟨st, st', a, b, c⟩ := C173_run_partial s h hr href T hT x v f hok e he hst hb hsep dt r l l' N δ hδ hN hage hslow hl hage'
  refine ⟨st, st', a, b, fun i hi => ?_⟩
  obtain ⟨c1, c2, c3⟩ := c i hi
  refine ⟨c1, by rw [c2, hf i hi], ?_⟩
  rw [c3, hf i hi, sub_self, smul_zero, add_zero]

/-- A run of two steps on the ring, the second with a construction, meets the hypotheses (also those of the way back, with a construction in the first step only); particles 0 and 1 push each other. -/
example : Frictionless ring ringHist ∧ ring.OK ringHist (fun i => home ring (parts 1 ringX i)) ∧ Buildable ring ringHist (parts 1 ringX) ∧ Separate ring ringHist (parts 1 ringX) ∧
    Slow ring ringHist (fun _ => 1) (1/50) [(1/100, false), (1/100, true)] ringM ∧ Age 2 0 [(1/100, false), (1/100, true)] ∧ Age 2 0 [(1/100, true), (1/100, false)] ∧
    ((2 - 1 : ℕ) : ℝ) * (1/50) ≤ ring.skin / 2 ∧ (ideal ring ringHist (fun _ => 1) (1/100) ringM).f 0 0 = 7/5 := by
  have x1 := ring_x1
  have x2 : ∀ i k, (ideal ring ringHist (fun _ => 1) (1/100) (ideal ring ringHist (fun _ => 1) (1/100) ringM)).x i k =
      parts 1 ringX i k + 2/100 + (1/100) ^ 2 * (ideal ring ringHist (fun _ => 1) (1/100) ringM).f i k := by
    intro i k
    have e1 : (ideal ring ringHist (fun _ => 1) (1/100) ringM).v i k =
        1 + 1/100/2 * 1 * (ideal ring ringHist (fun _ => 1) (1/100) ringM).f i k := by
      simp [ideal, ringM, parts]
    have e2 : ∀ M : Motion 1, (ideal ring ringHist (fun _ => 1) (1/100) M).x i k =
        M.x i k + 1/100 * (M.v i k + 1/100/2 * 1 * M.f i k) := fun _ => rfl
    rw [e2, e1, ring_x1]; ring
  obtain ⟨f0, f1, f2⟩ := ring_f1 0
  refine ⟨fun i j _ _ p _ => trivial, ?_, ?_, ?_, ⟨?_, ?_, ?_, ?_, ?_, ?_, trivial⟩, by simp [Age], by simp [Age], by norm_num [ring], f0⟩
  · apply ok_at ring_ok
    intro i hi k hk
    exact ⟨(home_range ring ring_ok.valid _ k hk).1, (home_range ring ring_ok.valid _ k hk).2.1⟩
  · apply ring_build
    intro i hi
    rcases ring_alive hi with rfl | rfl | rfl
    · exact ⟨-1, by norm_num [parts, ringX]⟩
    · exact ⟨0, by norm_num [parts, ringX]⟩
    · exact ⟨0, by norm_num [parts, ringX]⟩
  · apply ring_separate
    intro i j hi hj hij
    rcases ring_alive hi with rfl | rfl | rfl <;> rcases ring_alive hj with rfl | rfl | rfl <;>
      first
      | exact absurd rfl hij
      | (refine ⟨0, ?_⟩; norm_num [parts, ringX]; done)
      | (refine ⟨1, ?_⟩; norm_num [parts, ringX]; done)
  · intro i _
    rw [len_one]
    have : ((ideal ring ringHist (fun _ => 1) (1/100) ringM).x i - ringM.x i) 0 = 1/100 := by
      simp only [Pi.sub_apply, x1]
      show parts 1 ringX i 0 + 1/100 - parts 1 ringX i 0 = _
      ring
    rw [this]; norm_num
  · apply ring_separate
    intro i j hi hj hij
    simp only [x1]
    rcases ring_alive hi with rfl | rfl | rfl <;> rcases ring_alive hj with rfl | rfl | rfl <;>
      first
      | exact absurd rfl hij
      | (refine ⟨0, ?_⟩; norm_num [parts, ringX]; done)
      | (refine ⟨1, ?_⟩; norm_num [parts, ringX]; done)
  · apply ring_build
    intro i hi
    simp only [x1]
    rcases ring_alive hi with rfl | rfl | rfl
    · exact ⟨-1, by norm_num [parts, ringX]⟩
    · exact ⟨0, by norm_num [parts, ringX]⟩
    · exact ⟨0, by norm_num [parts, ringX]⟩
  · intro i hi
    rw [len_one]
    have : ((ideal ring ringHist (fun _ => 1) (1/100) (ideal ring ringHist (fun _ => 1) (1/100) ringM)).x i - (ideal ring ringHist (fun _ => 1) (1/100) ringM).x i) 0 =
        1/100 + (1/100) ^ 2 * (ideal ring ringHist (fun _ => 1) (1/100) ringM).f i 0 := by
      simp only [Pi.sub_apply, x1, x2]; ring
    rw [this, abs_le]
    rcases ring_alive hi with rfl | rfl | rfl
    · rw [f0]; norm_num
    · rw [f1]; norm_num
    · rw [f2]; norm_num
  · apply ring_separate
    intro i j hi hj hij
    simp only [x2]
    rcases ring_alive hi with rfl | rfl | rfl <;> rcases ring_alive hj with rfl | rfl | rfl <;>
      first
      | exact absurd rfl hij
      | (refine ⟨0, ?_⟩; simp only [f0, f1, f2]; norm_num [parts, ringX]; done)
      | (refine ⟨1, ?_⟩; simp only [f0, f1, f2]; norm_num [parts, ringX]; done)
  · apply ring_build
    intro i hi
    simp only [x2]
    rcases ring_alive hi with rfl | rfl | rfl
    · exact ⟨-1, by rw [f0]; norm_num [parts, ringX]⟩
    · exact ⟨0, by rw [f1]; norm_num [parts, ringX]⟩
    · exact ⟨0, by rw [f2]; norm_num [parts, ringX]⟩

/-! ### Friction -/

/-- The ring with dissipation. -/
noncomputable def rough : Setup 1 :=
  { g := ring.g, number := 3, type := ring.type, rd := ring.rd, mss := ring.mss, skin := ring.skin, cut := ring.cut, force := fun _ => .hardSphereDs 10 1, kind := ring.kind }

/-- The forces on the particles at rest. -/
noncomputable def roughF : Arr := fun j => if j = 0 then 7/5 else if j = 1 then -(7/5) else 0

/-- At rest, with these forces. -/
noncomputable def roughM : Motion 1 := ⟨parts 1 ringX, parts 1 fun _ => 0, parts 1 roughF⟩

theorem rough_ok (x : ℕ → Fin 1 → ℝ) : rough.OK ringHist fun i => home rough (x i) := by
  have h1 : rough.OK ringHist ringStart :=
    ⟨ring_ok.valid, ring_ok.wide, ring_ok.stencil, ring_ok.cutoff_pos, ring_ok.skin_nonneg, ring_ok.pos, ring_ok.rd_nonneg, ring_ok.types, ring_ok.cut_nonneg, ring_ok.small_one, ring_ok.small⟩
  exact ok_at h1 fun i _ k hk => ⟨(home_range rough h1.valid _ k hk).1, (home_range rough h1.valid _ k hk).2.1⟩

theorem rough_direct (x v : ℕ → Fin 1 → ℝ) (i j p : ℕ) (hp : lastSet ringHist (ring.type i) (ring.type j) = some p) {Y : ℝ} (hY : nearest ring.g (x i - x j) 0 = Y) (k : Fin 1) :
    rough.direct ringHist ⟨x, v, rough.rd, fun _ => 1⟩ i j k = if |Y| < 1/5 then max 0 (10 * (1/5 - |Y|) + (v j 0 - v i 0) * (Y / |Y|)) * (Y / |Y|) else 0 := by
  have hk : k = 0 := Subsingleton.elim _ _
  subst hk
  have hp' : lastSet ringHist (rough.type i) (rough.type j) = some p := hp
  have hY' : nearest rough.g (x i - x j) 0 = Y := hY
  have hd : ∀ X Z : Fin 1 → ℝ, dot X Z = X 0 * Z 0 := fun X Z => by simp [dot]
  have hF : rough.force p = .hardSphereDs 10 1 := rfl
  simp only [Setup.direct, hp', pushed, hF, Force.mag, hd, len_one, hY', Pi.sub_apply]
  norm_num [rough, ring]

theorem rough_sum (x v : ℕ → Fin 1 → ℝ) (i : ℕ) : (∑ j ∈ (Finset.range rough.number).filter (fun j => j ≠ i ∧ 0 ≤ rough.type j), rough.direct ringHist ⟨x, v, rough.rd, fun _ => 1⟩ i j) =
    ∑ j ∈ (Finset.range 3).filter (fun j => j ≠ i), rough.direct ringHist ⟨x, v, rough.rd, fun _ => 1⟩ i j := by
  refine Finset.sum_congr ?_ fun _ _ => rfl
  ext j
  simp only [Finset.mem_filter, Finset.mem_range]
  constructor
  · rintro ⟨h1, h2, _⟩; exact ⟨h1, h2⟩
  · rintro ⟨h1, h2⟩; exact ⟨h1, h2, (ring_all j h1).2⟩

/-- The forces at the initial positions. -/
theorem rough_forces (v : ℕ → Fin 1 → ℝ) (hv : v 1 0 - v 0 0 = 0 ∨ v 1 0 - v 0 0 = 14/1000) (k : Fin 1) (i : ℕ) (hi : i < 3) :
    (∑ j ∈ (Finset.range rough.number).filter (fun j => j ≠ i ∧ 0 ≤ rough.type j), rough.direct ringHist ⟨parts 1 ringX, v, rough.rd, fun _ => 1⟩ i j) k =
      if i = 0 then 7/5 + (v 1 0 - v 0 0) else if i = 1 then -(7/5 + (v 1 0 - v 0 0)) else 0 := by
  obtain ⟨t1, t2, t3, t4, t5, t6⟩ := ring_types
  have n01 : nearest ring.g (parts 1 ringX 0 - parts 1 ringX 1) 0 = 6/100 := by
    norm_num [nearest, ring, parts, ringX, round_eq]
  have n10 : nearest ring.g (parts 1 ringX 1 - parts 1 ringX 0) 0 = -6/100 := by
    norm_num [nearest, ring, parts, ringX, round_eq]
  have n02 : nearest ring.g (parts 1 ringX 0 - parts 1 ringX 2) 0 = -199/100 := by
    norm_num [nearest, ring, parts, ringX, round_eq]
  have n20 : nearest ring.g (parts 1 ringX 2 - parts 1 ringX 0) 0 = 199/100 := by
    norm_num [nearest, ring, parts, ringX, round_eq]
  have n12 : nearest ring.g (parts 1 ringX 1 - parts 1 ringX 2) 0 = -205/100 := by
    norm_num [nearest, ring, parts, ringX, round_eq]
  have n21 : nearest ring.g (parts 1 ringX 2 - parts 1 ringX 1) 0 = 205/100 := by
    norm_num [nearest, ring, parts, ringX, round_eq]
  have s0 : (Finset.range 3).filter (fun j => j ≠ 0) = {1, 2} := by decide
  have s1 : (Finset.range 3).filter (fun j => j ≠ 1) = {0, 2} := by decide
  have s2 : (Finset.range 3).filter (fun j => j ≠ 2) = {0, 1} := by decide
  have hneg : v 0 0 - v 1 0 = -(v 1 0 - v 0 0) := by ring
  rw [rough_sum _ _ i, Finset.sum_apply]
  have hi' : i = 0 ∨ i = 1 ∨ i = 2 := by omega
  rcases hi' with rfl | rfl | rfl
  · rw [s0, Finset.sum_pair (by norm_num), rough_direct _ _ 0 1 3 t1 n01, rough_direct _ _ 0 2 5 t3 n02]
    rcases hv with e | e <;> rw [e] <;> norm_num [abs_of_pos, abs_of_neg, abs_lt]
  · rw [s1, Finset.sum_pair (by norm_num), rough_direct _ _ 1 0 3 t2 n10, rough_direct _ _ 1 2 3 t5 n12, hneg]
    rcases hv with e | e <;> rw [e] <;> norm_num [abs_of_pos, abs_of_neg, abs_lt]
  · rw [s2, Finset.sum_pair (by norm_num), rough_direct _ _ 2 0 5 t4 n20, rough_direct _ _ 2 1 3 t6 n21]
    norm_num [abs_of_pos, abs_of_neg, abs_lt]

/-- **C173, negation: friction.** With dissipation a run cannot be undone: particles start at rest with their true forces, a step is made, velocities are turned around and the step is made again; positions come back, and all conditions except
`Frictionless` hold, but particle 0 is not at rest. -/
theorem C173_negation_friction : ∃ (s : Setup 1) (h : List Call) (T : FM ℝ) (x v f : Arr) (e : Env) (st st' : St), InRange h ∧ AllReflexive h ∧ run s.cut (.init :: h) = some T ∧
    (s.OK h fun i => home s (parts 1 x i)) ∧ e.mode.OK ∧ Buildable s h (parts 1 x) ∧ Separate s h (parts 1 x) ∧ Age 2 0 [(1/100, true)] ∧ (∀ i, s.Alive i → parts 1 f i = total s h e.im (parts 1 x) i) ∧
    (∀ i, parts 1 v i = 0) ∧ Slow s h e.im (1/50) [(1/100, true)] ⟨parts 1 x, parts 1 v, parts 1 f⟩ ∧ ((2 - 1 : ℕ) : ℝ) * (1/50) ≤ s.skin / 2 ∧
    (start s T x v f).bind (steps s T e [(1/100, true)]) = some st ∧ (start s T st.x (fun j => -st.v j) st.f).bind (steps s T e [(1/100, true)]) = some st' ∧ s.Alive 0 ∧
    Lattice s (parts 1 st'.x 0 - parts 1 x 0) ∧ parts 1 st'.v 0 0 ≠ -parts 1 v 0 0 := by
  have hr : InRange ringHist := by simp [ringHist, InRange, typesOf]
  have href : AllReflexive ringHist := by simp [ringHist, AllReflexive]
  obtain ⟨T, hT, _⟩ := C31_table rough.cut (.init :: ringHist) hr
  have hal : ∀ i, rough.Alive i → i < 3 := fun i hi => hi.1
  have hb0 : Buildable rough ringHist (parts 1 ringX) := by
    apply ring_build
    intro i hi
    rcases ring_alive hi with rfl | rfl | rfl
    · exact ⟨-1, by norm_num [parts, ringX]⟩
    · exact ⟨0, by norm_num [parts, ringX]⟩
    · exact ⟨0, by norm_num [parts, ringX]⟩
  have hs0 : Separate rough ringHist (parts 1 ringX) := by
    apply ring_separate
    intro i j hi hj hij
    rcases ring_alive hi with rfl | rfl | rfl <;> rcases ring_alive hj with rfl | rfl | rfl <;>
      first
      | exact absurd rfl hij
      | (refine ⟨0, ?_⟩; norm_num [parts, ringX]; done)
      | (refine ⟨1, ?_⟩; norm_num [parts, ringX]; done)
  have hx1 : ∀ i k, (ideal rough ringHist (fun _ => 1) (1/100) roughM).x i k = parts 1 ringX i k + 1/20000 * parts 1 roughF i k := by
    intro i k
    have e : (ideal rough ringHist (fun _ => 1) (1/100) roughM).x i k = parts 1 ringX i k + 1/100 * (0 + 1/100/2 * 1 * parts 1 roughF i k) := rfl
    rw [e]; ring
  have hb1 : Buildable rough ringHist (ideal rough ringHist (fun _ => 1) (1/100) roughM).x := by
    apply ring_build
    intro i hi
    simp only [hx1]
    rcases ring_alive hi with rfl | rfl | rfl
    · exact ⟨-1, by norm_num [parts, ringX, roughF]⟩
    · exact ⟨0, by norm_num [parts, ringX, roughF]⟩
    · exact ⟨0, by norm_num [parts, ringX, roughF]⟩
  have hs1 : Separate rough ringHist (ideal rough ringHist (fun _ => 1) (1/100) roughM).x := by
    apply ring_separate
    intro i j hi hj hij
    simp only [hx1]
    rcases ring_alive hi with rfl | rfl | rfl <;> rcases ring_alive hj with rfl | rfl | rfl <;>
      first
      | exact absurd rfl hij
      | (refine ⟨0, ?_⟩; norm_num [parts, ringX, roughF]; done)
      | (refine ⟨1, ?_⟩; norm_num [parts, ringX, roughF]; done)
  have hslow : Slow rough ringHist (fun _ => 1) (1/50) [(1/100, true)] roughM := by
    refine ⟨fun i hi => ?_, hs1, hb1, trivial⟩
    rw [len_one, Pi.sub_apply, hx1]
    show |parts 1 ringX i 0 + 1/20000 * parts 1 roughF i 0 - parts 1 ringX i 0| ≤ _
    rcases ring_alive (show ring.Alive i from hi) with rfl | rfl | rfl <;> norm_num [parts, ringX, roughF, abs_le]
  have hage : Age 2 0 [((1/100 : ℝ), true)] := by simp [Age]
  have hN : ((2 - 1 : ℕ) : ℝ) * (1/50) ≤ rough.skin / 2 := by norm_num [rough, ring]
  obtain ⟨st, a1, a2⟩ := C129_delay_partial rough ringHist hr href T hT ringX (fun _ => 0) roughF (rough_ok _) ringEnv trivial hb0 [(1/100, true)] 2 (1/50) (by norm_num) hN hage hslow
  simp only [List.foldl_cons, List.foldl_nil] at a2
  have hS : Same rough (turn (ideal rough ringHist (fun _ => 1) (1/100) roughM)) ⟨parts 1 st.x, parts 1 fun j => -st.v j, parts 1 st.f⟩ := by
    intro i hi
    obtain ⟨b1, b2, b3⟩ := a2 i hi
    refine ⟨?_, b2, fun k => ?_⟩
    · show (fun k => -parts 1 st.v i k) = -_
      rw [show (ideal rough ringHist (fun _ => 1) (1/100) roughM).v i = parts 1 st.v i from b1.symm]; rfl
    · obtain ⟨z, z1, z2⟩ := b3 k
      refine ⟨z, z1, ?_⟩
      have := z2
      simp only [turn, Pi.sub_apply]
      rw [this]
      show _ + _ - (ideal rough ringHist (fun _ => 1) (1/100) roughM).x i k = _
      have : (ideal rough ringHist ringEnv.im (1/100) ⟨parts 1 ringX, parts 1 fun _ => 0, parts 1 roughF⟩).x i k = (ideal rough ringHist (fun _ => 1) (1/100) roughM).x i k := rfl
      rw [this]; ring
  obtain ⟨hv, hx⟩ := back_x rough ringHist (fun _ => 1) (1/100) roughM
  have hS2 := ideal_same (im := fun _ => 1) (rough_ok (parts 1 ringX)) href (1/100) hS
  have hl2 : ∀ i, rough.Alive i → Lattice rough ((ideal rough ringHist (fun _ => 1) (1/100) ⟨parts 1 st.x, parts 1 fun j => -st.v j, parts 1 st.f⟩).x i - parts 1 ringX i) := by
    intro i hi
    have := (hS2 i hi).2.2
    rw [hx] at this
    exact this
  have hb' : Buildable rough ringHist (parts 1 st.x) := buildable_same (rough_ok (parts 1 ringX)).valid (fun i hi => (hS i hi).2.2) hb1
  have ht : Timely rough ringHist (fun _ => 1) (parts 1 st.x) [(1/100, true)] ⟨parts 1 st.x, parts 1 fun j => -st.v j, parts 1 st.f⟩ :=
    ⟨fun _ => buildable_same (rough_ok (parts 1 ringX)).valid hl2 hb0, fun h => absurd h (by simp), separate_same (rough_ok (parts 1 ringX)).valid hl2 hs0, trivial⟩
  obtain ⟨st', c1, c2⟩ := C129_run_partial rough ringHist hr href T hT st.x (fun j => -st.v j) st.f (rough_ok _) ringEnv trivial hb' [(1/100, true)] ht
  simp only [List.foldl_cons, List.foldl_nil] at c2
  have a0 : rough.Alive 0 := ring_all 0 (by norm_num)
  obtain ⟨b1, _, b3⟩ := c2 0 a0
  refine ⟨rough, ringHist, T, ringX, fun _ => 0, roughF, ringEnv, st, st', hr, href, hT, rough_ok _, trivial, hb0, hs0, hage, ?_, fun i => rfl, hslow, hN, a1, c1, a0, ?_, ?_⟩
  · intro i hi
    funext k
    have := rough_forces (fun _ _ => 0) (Or.inl (sub_zero _)) k i (hal i hi)
    show _ = total rough ringHist (fun _ => 1) (parts 1 ringX) i k
    unfold total
    rw [this]
    have hk : k = 0 := Subsingleton.elim _ _
    subst hk
    rcases ring_alive (show ring.Alive i from hi) with rfl | rfl | rfl <;> norm_num [parts, roughF]
  · have w : Lattice rough (parts 1 st'.x 0 - (ideal rough ringHist (fun _ => 1) (1/100) ⟨parts 1 st.x, parts 1 fun j => -st.v j, parts 1 st.f⟩).x 0) := fun k => by
      obtain ⟨z, z1, z2⟩ := b3 k
      exact ⟨z, z1, by rw [Pi.sub_apply, z2]; show _ + _ - (ideal rough ringHist ringEnv.im (1/100) _).x 0 k = _; ring⟩
    have := w.add (hl2 0 a0)
    rwa [sub_add_sub_cancel] at this
  · have q : parts 1 st'.v 0 0 = (ideal rough ringHist (fun _ => 1) (1/100) (turn (ideal rough ringHist (fun _ => 1) (1/100) roughM))).v 0 0 := by
      have := (hS2 0 a0).1
      rw [← this]; exact congrFun b1 0
    have e1 : (ideal rough ringHist (fun _ => 1) (1/100) (turn (ideal rough ringHist (fun _ => 1) (1/100) roughM))).v 0 0 =
        ((turn (ideal rough ringHist (fun _ => 1) (1/100) roughM)).v 0 0 + 1/100/2 * 1 * (turn (ideal rough ringHist (fun _ => 1) (1/100) roughM)).f 0 0) +
          1/100/2 * 1 * (ideal rough ringHist (fun _ => 1) (1/100) (turn (ideal rough ringHist (fun _ => 1) (1/100) roughM))).f 0 0 := rfl
    have e2 : (ideal rough ringHist (fun _ => 1) (1/100) (turn (ideal rough ringHist (fun _ => 1) (1/100) roughM))).f 0 0 = 7/5 + 14/1000 := by
      classical
      have hd : ∀ i, -(roughM.v i 0 + 1/100/2 * 1 * roughM.f i 0) = -(1/200 * roughF i) := by
        intro i
        show -(0 + 1/100/2 * 1 * roughF (i * 1 + 0)) = _
        rw [mul_one, add_zero]; ring
      have hdiff : (fun i k => (turn (ideal rough ringHist (fun _ => 1) (1/100) roughM)).v i k + 1/100/2 * 1 * (turn (ideal rough ringHist (fun _ => 1) (1/100) roughM)).f i k) 1 (0 : Fin 1) -
          (fun i k => (turn (ideal rough ringHist (fun _ => 1) (1/100) roughM)).v i k + 1/100/2 * 1 * (turn (ideal rough ringHist (fun _ => 1) (1/100) roughM)).f i k) 0 (0 : Fin 1) = 14/1000 := by
        simp only
        rw [hv 1 0, hv 0 0, hd, hd]
        norm_num [roughF]
      have := rough_forces (fun i k => (turn (ideal rough ringHist (fun _ => 1) (1/100) roughM)).v i k + 1/100/2 * 1 * (turn (ideal rough ringHist (fun _ => 1) (1/100) roughM)).f i k) (Or.inr hdiff) 0 0 (by norm_num)
      rw [hdiff, if_pos rfl, Finset.sum_apply] at this
      rw [← this]
      have hx' : (ideal rough ringHist (fun _ => 1) (1/100) (turn (ideal rough ringHist (fun _ => 1) (1/100) roughM))).x = parts 1 ringX := hx
      rw [← hx']
      show (if rough.Alive 0 then _ else _) = _
      rw [if_pos a0]; rfl
    rw [q, e1, hv 0 0, e2]
    have e3 : roughM.v 0 0 + 1/100/2 * 1 * roughM.f 0 0 = 7/1000 := by
      show (0 : ℝ) + 1/100/2 * 1 * roughF (0 * 1 + 0) = _
      norm_num [roughF]
    rw [e3]
    show _ ≠ -(0 : ℝ)
    norm_num

end Verif.Reversal
