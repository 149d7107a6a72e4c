import Verif.GFlow.Trajectory
import Verif.Forces.Bonds

/-!
# Simulations with bonds (C178)

The loop of `GFlow::run` (`gflow.cpp:153-268`) as in C129, with bonded interactions: after the forces of the interactions the objects of `bondedInteractions` add theirs
(`gflow.cpp:199-204`). The objects are `HarmonicBond`, `HarmonicBond_2d` and `HarmonicBond_3d` as in C39, in any number and order, with any histories. `GFlow::run` does not call their
`pre_integrate` (`gflow.cpp:131-145`). No particle is added, removed or renumbered during the run.
-/

set_option linter.unusedSectionVars false
set_option linter.unusedVariables false

namespace Verif.BondedRun
open Verif.Cells Verif.Grid Verif.Stencil Verif.ForceMaster Verif.PairForces Verif.Handlers Verif.ForceSum Verif.Verlet Verif.Trajectory

variable {d : ℕ}

/-! ## The model -/

/-- The class of an object with bonds, `creators/polymercreator.cpp:145-165`. -/
inductive Kind
  | base | two | three
  deriving DecidableEq

/-- `bd->interact()`, `gflow.cpp:202`: the virtual function of the class (`bonded/harmonicbond.cpp:27-63`, `bonded/harmonicbond_2d.cpp:9-68`, `bonded/harmonicbond_3d.cpp:9-104`). -/
noncomputable def interactOne (doPot doVir : Bool) (w : Fin d → Option ℝ) (W : Bonds.World d) : Kind → Bonds.HB → (ℕ → Fin d → ℝ) → Option (Bonds.HB × Acc d)
  | .base, b, f => b.interact w W f
  | .two, b, f => b.interact2d doPot doVir w W f
  | .three, b, f => b.interact3d doPot w W f

/-- `for (auto bd : bondedInteractions) bd->interact();`, `gflow.cpp:202`. -/
noncomputable def interactAll (doPot doVir : Bool) (w : Fin d → Option ℝ) (W : Bonds.World d) :
    List (Kind × Bonds.HB) → (ℕ → Fin d → ℝ) → Option (List (Kind × Bonds.HB) × (ℕ → Fin d → ℝ))
  | [], f => some ([], f)
  | (c, b) :: l, f => (interactOne doPot doVir w W c b f).bind fun r =>
      (interactAll doPot doVir w W l r.2.f).map fun q => ((c, r.1) :: q.1, q.2)

/-- One step, `gflow.cpp:153-231`, as in `Trajectory.step` with `gflow.cpp:199-204`; `lid` is `getLocalID`, `remake` is `getNeedsRemake()`, which other objects may set at any time. -/
noncomputable def step (s : Setup d) (T : FM ℝ) (e : Env) (lid : ℕ → Option ℕ) (dt : ℝ) (rebuild remake : Bool) (st : St × List (Kind × Bonds.HB)) :
    Option (St × List (Kind × Bonds.HB)) :=
  let v1 := updateVelocities e.mode d (s.number * d) dt e.im st.1.f st.1.v
  let x1 := updatePositions e.mode (s.number * d) dt v1 st.1.x
  let x2 := if rebuild then wrapFlat s x1 else x1
  (if rebuild then s.lists T (parts d x2) else some st.1.lists).bind fun lists =>
    (s.forces T e.doPot e.doVir e.old lists ⟨parts d x2, parts d v1, s.rd, e.im⟩ fun _ _ => 0).bind fun f =>
      (interactAll e.doPot e.doVir s.widths ⟨parts d x2, s.type, lid, remake⟩ st.2 f).map fun r =>
        (⟨x2, updateVelocities e.mode d (s.number * d) dt e.im (flat r.2) v1, flat r.2, lists⟩, r.1)

/-- A run, `gflow.cpp:153-268`: time steps, decisions on construction, and the flag `getNeedsRemake()`. -/
noncomputable def steps (s : Setup d) (T : FM ℝ) (e : Env) (lid : ℕ → Option ℕ) (l : List (ℝ × Bool × Bool)) (st : St × List (Kind × Bonds.HB)) :
    Option (St × List (Kind × Bonds.HB)) :=
  l.foldlM (fun st a => step s T e lid a.1 a.2.1 a.2.2 st) st

/-! ## Specification -/

/-- Spec: a spring between two particles with its constant and rest length. -/
structure Spring where
  i : ℕ
  j : ℕ
  K : ℝ
  rest : ℝ

/-- Spec: component `k` of Hooke's force on particle `m` of a spring, along the line to the nearest image. -/
noncomputable def tug (s : Setup d) (x : ℕ → Fin d → ℝ) (b : Spring) (m : ℕ) (k : Fin d) : ℝ :=
  let X := nearest s.g (x b.i - x b.j)
  let F := -(b.K * (len X - b.rest)) * (X k / len X)
  (if m = b.i then F else 0) - (if m = b.j then F else 0)

open Classical in
/-- Spec: one step of velocity Verlet without wrapping, cells and lists, with forces of all pairs and all springs. -/
noncomputable def ideal (s : Setup d) (h : List Call) (im : ℕ → ℝ) (sp : List Spring) (dt : ℝ) (M : Motion d) : Motion d :=
  let v1 := fun i k => M.v i k + dt / 2 * im i * M.f i k
  let x1 := fun i k => M.x i k + dt * v1 i k
  let f1 := fun i k => if s.Alive i then
    ∑ j ∈ (Finset.range s.number).filter (fun j => j ≠ i ∧ 0 ≤ s.type j), s.direct h ⟨x1, v1, s.rd, im⟩ i j k +
      (sp.map fun b => tug s x1 b i k).sum else 0
  ⟨x1, fun i k => v1 i k + dt / 2 * im i * f1 i k, f1⟩

/-- Spec: bonded particles do not coincide and are not exactly half a width apart in a wrapping dimension, where there are two nearest images. -/
def Taut (s : Setup d) (sp : List Spring) (x : ℕ → Fin d → ℝ) : Prop :=
  ∀ b ∈ sp, nearest s.g (x b.i - x b.j) ≠ 0 ∧ ∀ k, (s.g k).per = true → |nearest s.g (x b.i - x b.j) k| ≠ ((s.g k).hi - (s.g k).lo) / 2

/-- Spec: as `Trajectory.Timely`. -/
def Timely (s : Setup d) (h : List Call) (im : ℕ → ℝ) (sp : List Spring) : (ℕ → Fin d → ℝ) → List (ℝ × Bool × Bool) → Motion d → Prop
  | _, [], _ => True
  | x0, (dt, r, _) :: l, M =>
    (r = true → Buildable s h (ideal s h im sp dt M).x) ∧
    (r = false → ∀ i, s.Alive i → len ((ideal s h im sp dt M).x i - x0 i) ≤ s.skin / 2) ∧
    Separate s h (ideal s h im sp dt M).x ∧ Taut s sp (ideal s h im sp dt M).x ∧
    Timely s h im sp (if r then (ideal s h im sp dt M).x else x0) l (ideal s h im sp dt M)

/-- Spec: how an object was made: its class, its spring constant and the calls. -/
structure Made (d : ℕ) where
  kind : Kind
  K : ℝ
  calls : List (Bonds.Op d)

/-- Spec: the factor by which springs of a class are stiffer than they should be (see C39). -/
def stiff (c : Kind) (d : ℕ) : ℝ := if c = .two ∧ d = 2 then 2 else 1

/-- Spec: the springs of an object: one for each `addBond`, with the distance at that time as rest length. -/
noncomputable def springs (s : Setup d) (lid : ℕ → Option ℕ) (m : Made d) : List Spring :=
  (Bonds.bondsOf s.widths m.calls).map fun b => ⟨(lid b.1).getD 0, (lid b.2.1).getD 0, stiff m.kind d * m.K, b.2.2⟩

/-- Spec: all springs. -/
noncomputable def allSprings (s : Setup d) (lid : ℕ → Option ℕ) (ms : List (Made d)) : List Spring := ms.flatMap (springs s lid)

/-- Spec: the objects are those that were made, and their particles exist. -/
def Owns (s : Setup d) (lid : ℕ → Option ℕ) : List (Made d) → List (Kind × Bonds.HB) → Prop :=
  List.Forall₂ fun m o => o.1 = m.kind ∧ Bonds.run m.K s.widths m.calls = some o.2 ∧
    ∀ b ∈ Bonds.bondsOf s.widths m.calls, ∃ i j, lid b.1 = some i ∧ lid b.2.1 = some j ∧ s.Alive i ∧ s.Alive j

/-- Spec: the cached local ids are right. -/
def Fresh (lid : ℕ → Option ℕ) (l : List (Kind × Bonds.HB)) : Prop := ∀ o ∈ l, o.2.left = o.2.gleft.map lid ∧ o.2.right = o.2.gright.map lid

/-- Spec: at the first step the ids are right or will be renewed. -/
def Known (lid : ℕ → Option ℕ) (bonds : List (Kind × Bonds.HB)) : List (ℝ × Bool × Bool) → Prop
  | [] => True
  | a :: _ => a.2.2 = true ∨ Fresh lid bonds

/-! ## The corrected displacement -/

theorem correct_eq (s : Setup d) (hv : ∀ k, (s.g k).Valid) (X : Fin d → ℝ)
    (hX : ∀ k, (s.g k).per = true → |X k| < 3 / 2 * ((s.g k).hi - (s.g k).lo))
    (hn : ∀ k, (s.g k).per = true → |nearest s.g X k| ≠ ((s.g k).hi - (s.g k).lo) / 2) : correct s.widths X = nearest s.g X := by
  funext k
  by_cases hk : (s.g k).per = true
  · have hW : 0 < (s.g k).hi - (s.g k).lo := sub_pos.mpr (hv k).lohi
    have h1 := lt_of_le_of_ne (nearest_half s hv X hk) (hn k hk)
    have h2 := hX k hk
    have e : ∃ z : ℤ, nearest s.g X k = X k - z * ((s.g k).hi - (s.g k).lo) := ⟨_, by unfold nearest; rw [if_pos hk, mul_comm]⟩
    obtain ⟨z, e⟩ := e
    have ec : ∃ y : ℤ, correct s.widths X k = X k - y * ((s.g k).hi - (s.g k).lo) ∧ |correct s.widths X k| ≤ ((s.g k).hi - (s.g k).lo) / 2 := by
      unfold correct Setup.widths
      simp only [hk, if_true]
      generalize (s.g k).hi - (s.g k).lo = W at *
      generalize X k = a at *
      by_cases h3 : W - |a| < |a|
      · rw [if_pos h3]
        by_cases h4 : a > 0
        · rw [if_pos h4]
          rw [abs_of_pos h4] at h3 h2 ⊢
          exact ⟨1, by push_cast; ring, by rw [abs_le]; constructor <;> linarith⟩
        · rw [if_neg h4]
          rw [abs_of_nonpos (not_lt.mp h4)] at h3 h2 ⊢
          exact ⟨-1, by push_cast; ring, by rw [abs_le]; constructor <;> linarith⟩
      · rw [if_neg h3]
        exact ⟨0, by simp, by linarith⟩
    obtain ⟨y, e1, e2⟩ := ec
    generalize nearest s.g X k = n at *
    generalize correct s.widths X k = c at *
    generalize (s.g k).hi - (s.g k).lo = W at *
    rw [abs_lt] at h1
    rw [abs_le] at e2
    have hz : y = z := by
      by_contra hne
      rcases lt_or_gt_of_ne hne with h3 | h3
      · have : (y : ℝ) + 1 ≤ z := by exact_mod_cast h3
        nlinarith
      · have : (z : ℝ) + 1 ≤ y := by exact_mod_cast h3
        nlinarith
    rw [e1, e, hz]
  · unfold correct nearest Setup.widths
    simp [hk]

/-! ## One object -/

theorem base_result {w : Fin d → Option ℝ} {W : Bonds.World d} {b b' : Bonds.HB} {f a} (h : b.interact w W f = some (b', a)) : b.maybeUpdate W = some b' := by
  unfold Bonds.HB.interact at h
  obtain ⟨b1, h1, h2⟩ := Option.bind_eq_some_iff.mp h
  obtain ⟨a1, _, h3⟩ := Option.map_eq_some_iff.mp h2
  cases h3
  exact h1

theorem hist_refresh {K : ℝ} {w : Fin d → Option ℝ} {h : List (Bonds.Op d)} {b b' : Bonds.HB} (e : Bonds.run K w h = some b) {W : Bonds.World d}
    (hc : Bonds.Current W b) (hu : b.maybeUpdate W = some b') :
    Bonds.run K w (.refresh W :: h) = some b' ∧ b'.left = b'.gleft.map W.lid ∧ b'.right = b'.gright.map W.lid := by
  obtain ⟨b2, h1, I, l, r⟩ := Bonds.maybeUpdate_current (Bonds.run_inv h e) hc
  rw [hu] at h1
  cases h1
  refine ⟨?_, ?_, ?_⟩
  · show (Bonds.run K w h).bind (fun b => b.maybeUpdate W) = some b'
    rw [e]
    exact hu
  · rw [l, I.gl, List.map_map]; rfl
  · rw [r, I.gr, List.map_map]; rfl

theorem two_result {p v : Bool} {w : Fin d → Option ℝ} {W : Bonds.World d} {b b' : Bonds.HB} {f a} (h : b.interact2d p v w W f = some (b', a)) :
    ∃ b1, b.maybeUpdate W = some b1 ∧ (b1 = b' ∨ b1.maybeUpdate W = some b') := by
  unfold Bonds.HB.interact2d at h
  obtain ⟨r, h1, h2⟩ := Option.bind_eq_some_iff.mp h
  refine ⟨r.1, base_result (a := r.2) h1, ?_⟩
  by_cases hd : d ≠ 2
  · rw [if_pos hd] at h2
    cases h2
    exact Or.inl rfl
  · rw [if_neg hd] at h2
    obtain ⟨b2, h3, h4⟩ := Option.bind_eq_some_iff.mp h2
    obtain ⟨a1, _, h5⟩ := Option.map_eq_some_iff.mp h4
    cases h5
    exact Or.inr h3

theorem three_result {p : Bool} {w : Fin d → Option ℝ} {W : Bonds.World d} {b b' : Bonds.HB} {f a} (h : b.interact3d p w W f = some (b', a)) :
    ∃ b1, b.maybeUpdate W = some b1 ∧ (b1 = b' ∨ b1.maybeUpdate W = some b') := by
  unfold Bonds.HB.interact3d at h
  obtain ⟨r, h1, h2⟩ := Option.bind_eq_some_iff.mp h
  refine ⟨r.1, base_result (a := r.2) h1, ?_⟩
  by_cases hd : d ≠ 3
  · rw [if_pos hd] at h2
    cases h2
    exact Or.inl rfl
  · rw [if_neg hd] at h2
    obtain ⟨b2, h3, h4⟩ := Option.bind_eq_some_iff.mp h2
    obtain ⟨a1, _, h5⟩ := Option.map_eq_some_iff.mp h4
    cases h5
    exact Or.inr h3

/-- After the call the object is still the result of calls with the same bonds, and its ids are right. -/
theorem one_result {K : ℝ} {w : Fin d → Option ℝ} {h : List (Bonds.Op d)} {b b' : Bonds.HB} (e : Bonds.run K w h = some b) {W : Bonds.World d}
    (hc : Bonds.Current W b) {p v : Bool} {c : Kind} {f a} (hi : interactOne p v w W c b f = some (b', a)) :
    ∃ h', Bonds.run K w h' = some b' ∧ Bonds.bondsOf w h' = Bonds.bondsOf w h ∧ b'.left = b'.gleft.map W.lid ∧ b'.right = b'.gright.map W.lid := by
  have key : ∀ b1, b.maybeUpdate W = some b1 → (b1 = b' ∨ b1.maybeUpdate W = some b') →
      ∃ h', Bonds.run K w h' = some b' ∧ Bonds.bondsOf w h' = Bonds.bondsOf w h ∧ b'.left = b'.gleft.map W.lid ∧ b'.right = b'.gright.map W.lid := by
    intro b1 h1 h2
    obtain ⟨r1, l1, l2⟩ := hist_refresh e hc h1
    rcases h2 with rfl | h2
    · exact ⟨_, r1, rfl, l1, l2⟩
    · obtain ⟨r2, l3, l4⟩ := hist_refresh r1 (Or.inr ⟨l1, l2⟩) h2
      exact ⟨_, r2, rfl, l3, l4⟩
  cases c with
  | base => exact key b' (base_result hi) (Or.inl rfl)
  | two => obtain ⟨b1, h1, h2⟩ := two_result hi; exact key b1 h1 h2
  | three => obtain ⟨b1, h1, h2⟩ := three_result hi; exact key b1 h1 h2

/-- The force of one object. -/
theorem one_force (c : Kind) (K : ℝ) (w : Fin d → Option ℝ) (h : List (Bonds.Op d)) (b : Bonds.HB) (e : Bonds.run K w h = some b) (W : Bonds.World d)
    (hp : Bonds.Present W (Bonds.bondsOf w h)) (hl : Bonds.Live W (Bonds.bondsOf w h)) (ha : Bonds.Apart w W (Bonds.bondsOf w h)) (hc : Bonds.Current W b)
    (p v : Bool) (f : ℕ → Fin d → ℝ) :
    ∃ b' a, interactOne p v w W c b f = some (b', a) ∧ ∀ m k, a.f m k = f m k + ((Bonds.bondsOf w h).map fun b => stiff c d * Bonds.bondForce K w W b m k).sum := by
  have h1 : ∀ (m : ℕ) (k : Fin d), ((Bonds.bondsOf w h).map fun b => 1 * Bonds.bondForce K w W b m k).sum = ((Bonds.bondsOf w h).map fun b => Bonds.bondForce K w W b m k).sum := by
    intro m k; simp
  cases c with
  | base =>
    obtain ⟨b', a, e1, e2⟩ := Bonds.C39_bond_forces_partial K w h b e W hp hc f
    exact ⟨b', a, e1, fun m k => by rw [e2, stiff, if_neg (by simp), h1]⟩
  | two =>
    by_cases hd : d = 2
    · subst hd
      obtain ⟨b', a, e1, e2, _⟩ := Bonds.C39_negation_two_dimensions K w h b e W hp hl ha hc f p v
      exact ⟨b', a, e1, fun m k => by rw [e2, stiff, if_pos ⟨rfl, rfl⟩, List.sum_map_mul_left]⟩
    · obtain ⟨b', a, e1, e2⟩ := Bonds.C39_bond_forces_partial K w h b e W hp hc f
      refine ⟨b', a, ?_, fun m k => by rw [e2, stiff, if_neg (by simp [hd]), h1]⟩
      show b.interact2d p v w W f = _
      unfold Bonds.HB.interact2d
      rw [e1]
      simp [hd]
  | three =>
    by_cases hd : d = 3
    · subst hd
      obtain ⟨b', a, e1, e2, _⟩ := Bonds.C39_three_dimensions K w h b e W hp hl ha hc f p
      exact ⟨b', a, e1, fun m k => by rw [e2, stiff, if_neg (by simp), h1]⟩
    · obtain ⟨b', a, e1, e2⟩ := Bonds.C39_bond_forces_partial K w h b e W hp hc f
      refine ⟨b', a, ?_, fun m k => by rw [e2, stiff, if_neg (by simp), h1]⟩
      show b.interact3d p w W f = _
      unfold Bonds.HB.interact3d
      rw [e1]
      simp [hd]

/-! ## All objects -/

theorem len_mag (X : Fin d → ℝ) : Bonds.mag X = len X := rfl

theorem mag_pos {X : Fin d → ℝ} (h : X ≠ 0) : 0 < Bonds.mag X := by
  unfold Bonds.mag
  rw [Real.sqrt_pos]
  obtain ⟨k, hk⟩ : ∃ k, X k ≠ 0 := by
    by_contra hn
    push Not at hn
    exact h (funext hn)
  unfold dot
  exact Finset.sum_pos' (fun k _ => mul_self_nonneg _) ⟨k, Finset.mem_univ k, mul_self_pos.mpr hk⟩

/-- The forces of all objects, at positions `x` that differ by whole widths from positions `X`. -/
theorem all_forces (s : Setup d) (lid : ℕ → Option ℕ) (p v remake : Bool) (x X : ℕ → Fin d → ℝ)
    (ms : List (Made d)) (l : List (Kind × Bonds.HB)) (ho : Owns s lid ms l) (hf : remake = true ∨ Fresh lid l)
    (hx : ∀ i j, s.Alive i → s.Alive j → (∀ k, (s.g k).per = true → |nearest s.g (X i - X j) k| ≠ ((s.g k).hi - (s.g k).lo) / 2) → correct s.widths (x i - x j) = nearest s.g (X i - X j))
    (ht : Taut s (allSprings s lid ms) X) (f : ℕ → Fin d → ℝ) :
    ∃ l' f', interactAll p v s.widths ⟨x, s.type, lid, remake⟩ l f = some (l', f') ∧ Fresh lid l' ∧
      (∃ ms', Owns s lid ms' l' ∧ allSprings s lid ms' = allSprings s lid ms) ∧
      ∀ m k, f' m k = f m k + ((allSprings s lid ms).map fun b => tug s X b m k).sum := by
  induction ho generalizing f with
  | nil => exact ⟨[], f, rfl, (fun o ho => by cases ho), ⟨[], List.Forall₂.nil, rfl⟩, fun m k => by simp [allSprings]⟩
  | @cons m o ms l hmo ho ih =>
    obtain ⟨c, b⟩ := o
    obtain ⟨hk, hr, hb⟩ := hmo
    simp only at hk hr
    subst hk
    have ht1 : Taut s (springs s lid m) X := fun b hb => ht b (by unfold allSprings; rw [List.flatMap_cons]; exact List.mem_append_left _ hb)
    have ht2 : Taut s (allSprings s lid ms) X := fun b hb => ht b (by unfold allSprings; rw [List.flatMap_cons]; exact List.mem_append_right _ hb)
    set W : Bonds.World d := ⟨x, s.type, lid, remake⟩ with hW
    have hc : Bonds.Current W b := by
      rcases hf with hf | hf
      · exact Or.inl hf
      · exact Or.inr (hf (m.kind, b) (List.mem_cons_self ..))
    have hcor : ∀ q ∈ Bonds.bondsOf s.widths m.calls, correct s.widths (x ((lid q.1).getD 0) - x ((lid q.2.1).getD 0)) =
        nearest s.g (X ((lid q.1).getD 0) - X ((lid q.2.1).getD 0)) ∧ nearest s.g (X ((lid q.1).getD 0) - X ((lid q.2.1).getD 0)) ≠ 0 := by
      intro q hq
      obtain ⟨i, j, hi, hj, ai, aj⟩ := hb q hq
      have := ht1 _ (List.mem_map.mpr ⟨q, hq, rfl⟩)
      simp only [hi, hj, Option.getD_some] at this ⊢
      exact ⟨hx i j ai aj this.2, this.1⟩
    have hp : Bonds.Present W (Bonds.bondsOf s.widths m.calls) := by
      intro q hq
      obtain ⟨i, j, hi, hj, _, _⟩ := hb q hq
      exact ⟨by simp [hW, hi], by simp [hW, hj]⟩
    have hl : Bonds.Live W (Bonds.bondsOf s.widths m.calls) := by
      intro q hq
      obtain ⟨i, j, hi, hj, ai, aj⟩ := hb q hq
      simp only [hW, hi, hj, Option.getD_some]
      exact ⟨ai.2, aj.2⟩
    have ha : Bonds.Apart s.widths W (Bonds.bondsOf s.widths m.calls) := by
      intro q hq
      unfold Bonds.bondLength
      show 0 < Bonds.mag (correct s.widths (x ((lid q.1).getD 0) - x ((lid q.2.1).getD 0)))
      rw [(hcor q hq).1]
      exact mag_pos (hcor q hq).2
    obtain ⟨b', a, e1, e2⟩ := one_force m.kind m.K s.widths m.calls b hr W hp hl ha hc p v f
    obtain ⟨h', r1, r2, r3, r4⟩ := one_result hr hc e1
    obtain ⟨l', f', e3, e4, ⟨ms', e5, e6⟩, e7⟩ := ih (hf.imp id fun hf o ho => hf o (List.mem_cons_of_mem _ ho)) ht2 a.f
    refine ⟨(m.kind, b') :: l', f', ?_, ?_, ⟨⟨m.kind, m.K, h'⟩ :: ms', ?_, ?_⟩, ?_⟩
    · rw [interactAll, e1]
      simp only [Option.bind_some]
      rw [e3]
      rfl
    · intro o ho
      rcases List.mem_cons.mp ho with rfl | ho
      · exact ⟨r3, r4⟩
      · exact e4 o ho
    · exact List.Forall₂.cons ⟨rfl, r1, by rw [r2]; exact hb⟩ e5
    · unfold allSprings at e6 ⊢
      rw [List.flatMap_cons, List.flatMap_cons, e6]
      congr 1
      unfold springs
      simp only [r2]
    · intro n k
      have e8 : ((Bonds.bondsOf s.widths m.calls).map fun b => stiff m.kind d * Bonds.bondForce m.K s.widths W b n k).sum =
          ((springs s lid m).map fun b => tug s X b n k).sum := by
        unfold springs
        rw [List.map_map]
        congr 1
        refine List.map_congr_left fun q hq => ?_
        simp only [Function.comp, Bonds.bondForce, tug, Bonds.spring, len_mag]
        show stiff m.kind d * ((if n = (lid q.1).getD 0 then -(m.K * (len (correct s.widths (x ((lid q.1).getD 0) - x ((lid q.2.1).getD 0))) - q.2.2)) * (correct s.widths (x ((lid q.1).getD 0) - x ((lid q.2.1).getD 0)) k / len (correct s.widths (x ((lid q.1).getD 0) - x ((lid q.2.1).getD 0)))) else 0) -
          (if n = (lid q.2.1).getD 0 then -(m.K * (len (correct s.widths (x ((lid q.1).getD 0) - x ((lid q.2.1).getD 0))) - q.2.2)) * (correct s.widths (x ((lid q.1).getD 0) - x ((lid q.2.1).getD 0)) k / len (correct s.widths (x ((lid q.1).getD 0) - x ((lid q.2.1).getD 0)))) else 0)) = _
        rw [(hcor q hq).1]
        split_ifs <;> ring
      rw [e7, e2, e8]
      unfold allSprings
      rw [List.flatMap_cons, List.map_append, List.sum_append]
      ring

/-! ## The run -/

section main
variable {s : Setup d} {h : List Call} {T : FM ℝ} {x0 : ℕ → Fin d → ℝ}

theorem ideal_x (im : ℕ → ℝ) (sp : List Spring) (dt : ℝ) (M : Motion d) : (ideal s h im sp dt M).x = (Trajectory.ideal s h im dt M).x := rfl

theorem step_inv (hr : InRange h) (href : AllReflexive h) (hT : run s.cut (.init :: h) = some T) (hok : s.OK h x0)
    (e : Env) (he : e.mode.OK) {lid : ℕ → Option ℕ} {ms : List (Made d)} {st : St} {bonds : List (Kind × Bonds.HB)} {M : Motion d} {X0 : ℕ → Fin d → ℝ}
    (hI : Trajectory.Inv s h T st M X0) (ho : Owns s lid ms bonds) (dt : ℝ) (r remake : Bool) (hf : remake = true ∨ Fresh lid bonds)
    (hb : r = true → Buildable s h (ideal s h e.im (allSprings s lid ms) dt M).x)
    (hmv : r = false → ∀ i, s.Alive i → len ((ideal s h e.im (allSprings s lid ms) dt M).x i - X0 i) ≤ s.skin / 2)
    (hsep : Separate s h (ideal s h e.im (allSprings s lid ms) dt M).x) (htaut : Taut s (allSprings s lid ms) (ideal s h e.im (allSprings s lid ms) dt M).x) :
    ∃ st' bonds' ms', step s T e lid dt r remake (st, bonds) = some (st', bonds') ∧ Fresh lid bonds' ∧ Owns s lid ms' bonds' ∧
      allSprings s lid ms' = allSprings s lid ms ∧
      Trajectory.Inv s h T st' (ideal s h e.im (allSprings s lid ms) dt M) (if r then (ideal s h e.im (allSprings s lid ms) dt M).x else X0) := by
  rw [ideal_x] at hb hmv hsep htaut
  obtain ⟨st1, a1, a2⟩ := Trajectory.step_inv hr href hT hok e he hI dt r hb hmv hsep
  set v1 := updateVelocities e.mode d (s.number * d) dt e.im st.f st.v with hv1
  set x1 := updatePositions e.mode (s.number * d) dt v1 st.x with hx1
  have ev : ∀ i, s.Alive i → parts d v1 i = fun k => M.v i k + dt / 2 * e.im i * M.f i k := by
    intro i hi
    funext k
    rw [hv1, parts_vel _ he s _ _ _ _ hi.1, hI.vel i hi, hI.force i hi]
  unfold Trajectory.step at a1
  simp only [← hv1, ← hx1] at a1
  obtain ⟨lists, b1, b2⟩ := Option.bind_eq_some_iff.mp a1
  obtain ⟨f, b3, b4⟩ := Option.map_eq_some_iff.mp b2
  set x2 := if r then wrapFlat s x1 else x1 with hx2
  subst b4
  obtain ⟨_, c2, z, y0, c3, c4, c5, c6⟩ := a2
  simp only [parts_flat] at c2
  have hmv' : ∀ i, s.Alive i → len ((Trajectory.ideal s h e.im dt M).x i - (if r then (Trajectory.ideal s h e.im dt M).x else X0) i) ≤ s.skin / 2 := by
    intro i hi
    cases r with
    | false => simpa using hmv rfl i hi
    | true =>
      have hsk := hok.skin_nonneg
      simp [len, dot]; linarith
  have hx : ∀ i j, s.Alive i → s.Alive j →
      (∀ k, (s.g k).per = true → |nearest s.g ((Trajectory.ideal s h e.im dt M).x i - (Trajectory.ideal s h e.im dt M).x j) k| ≠ ((s.g k).hi - (s.g k).lo) / 2) →
      correct s.widths (parts d x2 i - parts d x2 j) = nearest s.g ((Trajectory.ideal s h e.im dt M).x i - (Trajectory.ideal s h e.im dt M).x j) := by
    intro i j hi hj hne
    have hn : nearest s.g (parts d x2 i - parts d x2 j) = nearest s.g ((Trajectory.ideal s h e.im dt M).x i - (Trajectory.ideal s h e.im dt M).x j) := by
      apply nearest_shift s hok.valid (z := fun k => z i k - z j k)
      · intro k hk
        simp only [(c6 i hi).1 k hk, (c6 j hj).1 k hk, sub_zero]
      · intro k
        simp only [Pi.sub_apply]
        rw [((c6 i hi).2 k).1, ((c6 j hj).2 k).1]; push_cast; ring
    rw [← hn]
    rw [← hn] at hne
    refine correct_eq s hok.valid _ ?_ hne
    intro k hk
    have near : ∀ n, s.Alive n → |parts d x2 n k - y0 n k| ≤ s.skin / 2 := by
      intro n hn
      have e1 : parts d x2 n k - y0 n k = ((Trajectory.ideal s h e.im dt M).x n - (if r then (Trajectory.ideal s h e.im dt M).x else X0) n) k := by
        simp only [Pi.sub_apply]
        rw [((c6 n hn).2 k).1, ((c6 n hn).2 k).2]; ring
      rw [e1]
      exact (far_len (l := k) le_rfl).trans (hmv' n hn)
    have hi1 := near i hi
    have hj1 := near j hj
    have hi2 := c4 i hi k hk
    have hj2 := c4 j hj k hk
    have hw := width_ge hok hk
    have hm := mss_nonneg hok hi
    have hwp := (hok.valid k).wpos
    have hsk := hok.skin_nonneg
    rw [abs_le] at hi1 hj1
    simp only [Pi.sub_apply]
    rw [abs_lt]
    constructor <;> linarith
  obtain ⟨bonds', f', d1, d2, ⟨ms', d3, d4⟩, d5⟩ := all_forces s lid e.doPot e.doVir remake (parts d x2) (Trajectory.ideal s h e.im dt M).x ms bonds ho hf hx htaut f
  refine ⟨⟨x2, updateVelocities e.mode d (s.number * d) dt e.im (flat f') v1, flat f', lists⟩, bonds', ms', ?_, d2, d3, d4, ?_, ?_, ?_⟩
  · unfold step
    simp only
    rw [← hv1, ← hx1, ← hx2, b1]
    simp only [Option.bind_some, b3, d1, Option.map_some]
  all_goals
    have hff : ∀ i, s.Alive i → f' i = (ideal s h e.im (allSprings s lid ms) dt M).f i := by
      intro i hi
      funext k
      rw [d5, c2 i hi]
      simp only [ideal, Trajectory.ideal]
      rw [if_pos hi, if_pos hi]
  · intro i hi
    funext k
    simp only
    rw [parts_vel _ he s _ _ _ _ hi.1, ev i hi, parts_flat, hff i hi]
    rfl
  · intro i hi
    simp only
    rw [parts_flat, hff i hi]
  · exact ⟨z, y0, c3, c4, c5, c6⟩

/-- **C178 (partial).** A run with bonds is the motion of particles that are joined by springs: for every system, every number of bonded objects of any class with any histories of calls, every sequence of time steps, of timely decisions on construction and of
renewals of ids, the run is defined, velocities and forces are those of the motion with forces summed over all pairs and Hooke's forces of all bonds, with the distances at the time of `addBond` as rest lengths, and positions differ from those of that motion by
whole widths of the wrapping dimensions.
Missing: in two dimensions the springs of `HarmonicBond_2d` are twice as stiff as they should be (`stiff`, C39); chains, angles, removal of bonded particles, bonds of exactly half a width; and as for `C129_run_partial`. -/
theorem C178_run_partial (s : Setup d) (h : List Call) (hr : InRange h) (href : AllReflexive h) (T : FM ℝ)
    (hT : run s.cut (.init :: h) = some T) (x v f : Arr) (hok : s.OK h fun i => home s (parts d x i)) (e : Env)
    (he : e.mode.OK) (hb : Buildable s h (parts d x)) (lid : ℕ → Option ℕ) (ms : List (Made d)) (bonds : List (Kind × Bonds.HB)) (ho : Owns s lid ms bonds)
    (l : List (ℝ × Bool × Bool)) (hl : Known lid bonds l)
    (ht : Timely s h e.im (allSprings s lid ms) (parts d x) l ⟨parts d x, parts d v, parts d f⟩) :
    ∃ st bonds', (start s T x v f).bind (fun st => steps s T e lid l (st, bonds)) = some (st, bonds') ∧
      let M := l.foldl (fun M a => ideal s h e.im (allSprings s lid ms) a.1 M) ⟨parts d x, parts d v, parts d f⟩
      ∀ i, s.Alive i → parts d st.v i = M.v i ∧ parts d st.f i = M.f i ∧
        ∀ k, ∃ z : ℤ, ((s.g k).per = false → z = 0) ∧
          parts d st.x i k = M.x i k + z * ((s.g k).hi - (s.g k).lo) := by
  have hall : ∀ (l : List (ℝ × Bool × Bool)) (st : St) (bonds : List (Kind × Bonds.HB)) (ms' : List (Made d)) (M : Motion d) (X0 : ℕ → Fin d → ℝ), Trajectory.Inv s h T st M X0 →
      Owns s lid ms' bonds → allSprings s lid ms' = allSprings s lid ms → Known lid bonds l →
      Timely s h e.im (allSprings s lid ms) X0 l M → ∃ st' bonds', steps s T e lid l (st, bonds) = some (st', bonds') ∧
        ∃ X0', Trajectory.Inv s h T st' (l.foldl (fun M a => ideal s h e.im (allSprings s lid ms) a.1 M) M) X0' := by
    intro l
    induction l with
    | nil => intro st bonds ms' M X0 hI _ _ _ _; exact ⟨st, bonds, rfl, X0, hI⟩
    | cons a l ih =>
      obtain ⟨dt, r, q⟩ := a
      intro st bonds ms' M X0 hI ho' hs hk ht
      obtain ⟨t1, t2, t3, t4, t5⟩ := ht
      rw [← hs] at t1 t2 t3 t4
      obtain ⟨st', bonds', ms'', e1, e2, e3, e4, e5⟩ := step_inv hr href hT hok e he hI ho' dt r q hk t1 t2 t3 t4
      rw [hs] at e4 e5
      have hk' : Known lid bonds' l := by
        cases l with
        | nil => trivial
        | cons b l => exact Or.inr e2
      obtain ⟨st'', bonds'', e6, e7⟩ := ih st' bonds' ms'' _ _ e5 e3 e4 hk' t5
      refine ⟨st'', bonds'', ?_, e7⟩
      unfold steps
      rw [List.foldlM_cons]
      simp only [e1]
      exact e6
  obtain ⟨z', hz'⟩ := home_whole (s := s) hok.valid (parts d x)
  have eh := built (z := fun _ _ => 0) hok.valid hb (x := x) (fun i _ => ⟨fun _ _ => rfl, fun k => by simp⟩)
  have hp : ∀ i, s.Alive i → ∀ k, (s.g k).per = true →
      (s.g k).lo ≤ parts d (wrapFlat s x) i k ∧ parts d (wrapFlat s x) i k < (s.g k).hi := by
    intro i hi k hk
    rw [eh i hi]
    exact ⟨(home_range s hok.valid _ k hk).1, (home_range s hok.valid _ k hk).2.1⟩
  obtain ⟨lists, e1, _⟩ := lists_spec (ok_at hok hp) hr href hT
  have hI : Trajectory.Inv s h T ⟨wrapFlat s x, v, f, lists⟩ ⟨parts d x, parts d v, parts d f⟩ (parts d x) := by
    refine ⟨fun _ _ => rfl, fun _ _ => rfl, z', parts d (wrapFlat s x), e1, hp, ?_, ?_⟩
    · intro i j hi hj hij p hp
      rw [eh i hi, eh j hj]
      exact hb.2 i j hi hj hij p hp
    · intro i hi
      refine ⟨(hz' i).1, fun k => ?_⟩
      simp only
      rw [eh i hi]
      exact ⟨(hz' i).2 k, (hz' i).2 k⟩
  obtain ⟨st, bonds', e2, X0', e3⟩ := hall l _ bonds ms _ _ hI ho rfl hl ht
  refine ⟨st, bonds', ?_, ?_⟩
  · unfold start
    rw [e1]
    exact e2
  · intro M i hi
    obtain ⟨z, y0, _, _, _, q⟩ := e3.pos
    exact ⟨e3.vel i hi, e3.force i hi, fun k => ⟨z i k, (q i hi).1 k, ((q i hi).2 k).1⟩⟩

theorem tugs_sum (L : Finset ℕ) (sp : List Spring) (X : ℕ → Fin d → ℝ) (hsp : ∀ b ∈ sp, b.i ∈ L ∧ b.j ∈ L) (k : Fin d) :
    ∑ m ∈ L, (sp.map fun b => tug s X b m k).sum = 0 := by
  induction sp with
  | nil => simp
  | cons b sp ih =>
    simp only [List.map_cons, List.sum_cons, Finset.sum_add_distrib]
    rw [ih fun c hc => hsp c (List.mem_cons_of_mem _ hc), add_zero]
    obtain ⟨h1, h2⟩ := hsp b (List.mem_cons_self ..)
    simp only [tug, Finset.sum_sub_distrib, Finset.sum_ite_eq', h1, h2, if_true, sub_self]

theorem springs_live {lid : ℕ → Option ℕ} {ms : List (Made d)} {bonds : List (Kind × Bonds.HB)} (ho : Owns s lid ms bonds) :
    ∀ b ∈ allSprings s lid ms, b.i ∈ live s ∧ b.j ∈ live s := by
  induction ho with
  | nil => intro b hb; simp [allSprings] at hb
  | @cons m o ms l hmo ho ih =>
    intro b hb
    unfold allSprings at hb
    rw [List.flatMap_cons] at hb
    rcases List.mem_append.mp hb with hb | hb
    · obtain ⟨q, hq, rfl⟩ := List.mem_map.mp hb
      obtain ⟨i, j, hi, hj, ai, aj⟩ := hmo.2.2 q hq
      simp only [hi, hj, Option.getD_some]
      exact ⟨mem_live.mpr ai, mem_live.mpr aj⟩
    · exact ih b hb

open Classical in
theorem ideal_balance (hok : s.OK h x0) (href : AllReflexive h) (im : ℕ → ℝ) (sp : List Spring) (hsp : ∀ b ∈ sp, b.i ∈ live s ∧ b.j ∈ live s) (dt : ℝ)
    (M : Motion d) (k : Fin d) : ∑ i ∈ live s, (ideal s h im sp dt M).f i k = 0 := by
  have e : ∀ i ∈ live s, (ideal s h im sp dt M).f i k = (Trajectory.ideal s h im dt M).f i k + (sp.map fun b => tug s (ideal s h im sp dt M).x b i k).sum := by
    intro i hi
    simp only [ideal, Trajectory.ideal]
    rw [if_pos (mem_live.mp hi), if_pos (mem_live.mp hi)]
  rw [Finset.sum_congr rfl e, Finset.sum_add_distrib, Trajectory.ideal_balance hok href, tugs_sum _ _ _ hsp, add_zero]

/-- **C178, momentum (partial).** In such a run the total momentum is conserved exactly, if the forces at the start sum to zero.
Missing: as for `C178_run_partial`, but here the stiffness does not matter. -/
theorem C178_momentum_partial (s : Setup d) (h : List Call) (hr : InRange h) (href : AllReflexive h) (T : FM ℝ)
    (hT : run s.cut (.init :: h) = some T) (x v f : Arr) (hok : s.OK h fun i => home s (parts d x i)) (e : Env)
    (he : e.mode.OK) (him : ∀ i, s.Alive i → e.im i ≠ 0) (hb : Buildable s h (parts d x)) (lid : ℕ → Option ℕ) (ms : List (Made d))
    (bonds : List (Kind × Bonds.HB)) (ho : Owns s lid ms bonds) (l : List (ℝ × Bool × Bool)) (hl : Known lid bonds l)
    (ht : Timely s h e.im (allSprings s lid ms) (parts d x) l ⟨parts d x, parts d v, parts d f⟩)
    (hf : ∀ k, ∑ i ∈ live s, parts d f i k = 0) :
    ∃ st bonds', (start s T x v f).bind (fun st => steps s T e lid l (st, bonds)) = some (st, bonds') ∧
      ∀ k, ∑ i ∈ live s, 1 / e.im i * parts d st.v i k = ∑ i ∈ live s, 1 / e.im i * parts d v i k := by
  obtain ⟨st, bonds', e1, e2⟩ := C178_run_partial s h hr href T hT x v f hok e he hb lid ms bonds ho l hl ht
  refine ⟨st, bonds', e1, fun k => ?_⟩
  simp only at e2
  rw [Finset.sum_congr rfl fun i hi => by rw [(e2 i (mem_live.mp hi)).1]]
  have hsp := springs_live ho
  generalize allSprings s lid ms = sp at *
  have : ∀ (l : List (ℝ × Bool × Bool)) (M : Motion d), (∑ i ∈ live s, M.f i k = 0) →
      ∑ i ∈ live s, 1 / e.im i * (l.foldl (fun M a => ideal s h e.im sp a.1 M) M).v i k =
        ∑ i ∈ live s, 1 / e.im i * M.v i k := by
    intro l
    induction l with
    | nil => intro M _; rfl
    | cons a l ih =>
      intro M hM
      rw [List.foldl_cons, ih _ (ideal_balance hok href e.im sp hsp a.1 M k)]
      have e3 : ∀ i ∈ live s, 1 / e.im i * (ideal s h e.im sp a.1 M).v i k =
          1 / e.im i * M.v i k + a.1 / 2 * M.f i k + a.1 / 2 * (ideal s h e.im sp a.1 M).f i k := by
        intro i hi
        have := him i (mem_live.mp hi)
        have e4 : (ideal s h e.im sp a.1 M).v i k =
            M.v i k + a.1 / 2 * e.im i * M.f i k + a.1 / 2 * e.im i * (ideal s h e.im sp a.1 M).f i k := rfl
        rw [e4]
        field_simp
      rw [Finset.sum_congr rfl e3, Finset.sum_add_distrib, Finset.sum_add_distrib, ← Finset.mul_sum, ← Finset.mul_sum, hM,
        ideal_balance hok href e.im sp hsp]
      ring
  exact this l _ (hf k)

end main

/-! ## A concrete run -/

/-- The state of the program when the bond of the example is added: particles 0 and 1 are 0.05 apart. -/
noncomputable def ringWorld : Bonds.World 1 := ⟨fun i _ => if i = 0 then 1/20 else 0, ring.type, some, false⟩

/-- The bond of the example. -/
noncomputable def ringMade : Made 1 := ⟨.base, 10, [.add ringWorld 0 1]⟩

theorem ring_bonds : Bonds.bondsOf ring.widths ringMade.calls = [(0, 1, 1/20)] := by
  have e : Bonds.mag (correct ring.widths (ringWorld.x 0 - ringWorld.x 1)) = 1/20 := by
    rw [len_mag, len_one]
    norm_num [correct, Setup.widths, ring, ringWorld]
  simp only [ringMade, Bonds.bondsOf, List.nil_append]
  show [(0, 1, Bonds.mag (correct ring.widths (ringWorld.x 0 - ringWorld.x 1)))] = _
  rw [e]

theorem ring_springs : allSprings ring some [ringMade] = [⟨0, 1, 10, 1/20⟩] := by
  unfold allSprings springs
  rw [List.flatMap_cons, ring_bonds]
  simp [stiff, ringMade]

/-- The ring of C129 with a bond between particles 0 and 1 in a step with a construction meets the hypotheses of `C178_run_partial` and `C178_momentum_partial`; the bond is stretched and pulls. -/
example : ∃ b, Owns ring some [ringMade] [(.base, b)] ∧ Known some [(.base, b)] [(1/100, true, false)] ∧
    Timely ring ringHist (fun _ => 1) (allSprings ring some [ringMade]) (parts 1 ringX) [(1/100, true, false)] ringM ∧
    ring.OK ringHist (fun i => home ring (parts 1 ringX i)) ∧ Buildable ring ringHist (parts 1 ringX) ∧
    (∀ k, ∑ i ∈ live ring, parts 1 (fun _ => 0) i k = 0) ∧
    tug ring (parts 1 ringX) ⟨0, 1, 10, 1/20⟩ 0 0 = -1/10 := by
  have n01 : nearest ring.g (parts 1 ringX 0 - parts 1 ringX 1) 0 = 6/100 := by
    norm_num [nearest, ring, parts, ringX, round_eq]
  have hx : ∀ i k, (ideal ring ringHist (fun _ => 1) (allSprings ring some [ringMade]) (1/100) ringM).x i k = parts 1 ringX i k + 1/100 := by
    intro i k
    rw [ideal_x]
    exact ring_x1 i k
  refine ⟨⟨10, [0], [1], [some 0], [some 1], [Bonds.mag (correct ring.widths (ringWorld.x 0 - ringWorld.x 1))]⟩, ?_, ?_, ⟨?_, by simp, ?_, ?_, trivial⟩, ?_, ?_, by simp [parts], ?_⟩
  · refine List.Forall₂.cons ⟨rfl, ?_, ?_⟩ List.Forall₂.nil
    · simp [ringMade, Bonds.run, Bonds.HB.new, Bonds.HB.addBond, ringWorld]
    · rw [ring_bonds]
      intro b hb
      rw [List.mem_singleton] at hb
      subst hb
      exact ⟨0, 1, rfl, rfl, ring_all 0 (by norm_num), ring_all 1 (by norm_num)⟩
  · refine Or.inr fun o ho => ?_
    rw [List.mem_singleton] at ho
    subst ho
    exact ⟨rfl, rfl⟩
  · intro _
    apply ring_build
    intro i hi
    simp only [hx]
    rcases ring_alive hi with rfl | rfl | rfl
    · exact ⟨-1, by norm_num [parts, ringX]⟩
    · exact ⟨0, by norm_num [parts, ringX]⟩
    · exact ⟨0, by norm_num [parts, ringX]⟩
  · apply ring_separate
    intro i j hi hj hij
    simp only [hx]
    rcases ring_alive hi with rfl | rfl | rfl <;> rcases ring_alive hj with rfl | rfl | rfl <;>
      first
      | exact absurd rfl hij
      | (refine ⟨0, ?_⟩; norm_num [parts, ringX]; done)
      | (refine ⟨1, ?_⟩; norm_num [parts, ringX]; done)
  · rw [ring_springs]
    intro b hb
    rw [List.mem_singleton] at hb
    subst hb
    simp only
    have e : (ideal ring ringHist (fun _ => 1) [⟨0, 1, 10, 1/20⟩] (1/100) ringM).x 0 - (ideal ring ringHist (fun _ => 1) [⟨0, 1, 10, 1/20⟩] (1/100) ringM).x 1 =
        parts 1 ringX 0 - parts 1 ringX 1 := by
      rw [← ring_springs]
      funext k
      simp only [Pi.sub_apply, hx]; ring
    rw [e]
    refine ⟨fun h0 => ?_, fun k _ => ?_⟩
    · rw [h0] at n01; norm_num at n01
    · have hk : k = 0 := Subsingleton.elim _ _
      subst hk
      rw [n01]
      norm_num [ring, abs_of_pos]
  · apply ok_at ring_ok
    intro i hi k hk
    exact ⟨(home_range ring ring_ok.valid _ k hk).1, (home_range ring ring_ok.valid _ k hk).2.1⟩
  · apply ring_build
    intro i hi
    rcases ring_alive hi with rfl | rfl | rfl
    · exact ⟨-1, by norm_num [parts, ringX]⟩
    · exact ⟨0, by norm_num [parts, ringX]⟩
    · exact ⟨0, by norm_num [parts, ringX]⟩
  · simp only [tug, len_one, n01]
    norm_num [abs_of_pos]

end Verif.BondedRun
