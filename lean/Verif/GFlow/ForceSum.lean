import Verif.Domain.CellsProps
import Verif.Forces.PairForces
import Verif.Forces.ForceMaster
import Verif.Forces.Handlers
import Mathlib.Algebra.Order.Round
import Mathlib.Algebra.BigOperators.Fin
import Mathlib.Analysis.InnerProductSpace.PiL2

/-!
# The forces of a step are the sum over all pairs (C128)

Puts the models of the cell grid (`Domain/Cells`), of the table of interactions (`Forces/ForceMaster`), of the containers of pairs
(`Forces/Handlers`) and of the force kernels (`Forces/PairForces`) together, in the way of
`InteractionHandler::construct` (`base/interactionhandler.cpp:115-166`) and `ForceMaster::interact`
(`base/forcemaster.cpp:39-48`): neighbour lists are built from the positions at one time, and the forces of later steps are
calculated from these lists. The reference is the sum over all pairs of particles, without cells and lists. One processor.
-/

set_option linter.unusedSectionVars false
set_option linter.unusedVariables false

namespace Verif.ForceSum
open Verif.Cells Verif.Grid Verif.Stencil Verif.ForceMaster Verif.PairForces Verif.Handlers

variable {d : ℕ}

/-! ## The model -/

/-- The class of the container of an interaction: `VerletList`, `VerletListVecPairs`, `VerletListPairs`
(`interactions/generic-forces.hpp:84-86`). -/
inductive Kind where
  | list
  | vecPairs
  | pairs

/-- What does not change between the construction of lists and the calculation of forces: the grid, the particle arrays except
positions and velocities, the interactions by number (`cut` is `getCutoff()`), the parameters of the handler. -/
structure Setup (d : ℕ) where
  g : Fin d → DAx ℝ
  number : ℕ
  type : ℕ → ℤ
  rd : ℕ → ℝ
  mss : ℝ
  skin : ℝ
  cut : ℕ → ℝ
  force : ℕ → Force
  kind : ℕ → Kind

/-- The data that `traversePairs` reads, for positions `x0` and the state `T` of the force master:
`forceMaster->typeInteracts`, the cutoff table of `set_up_grids` (`base/interactionhandler.cpp:407-423`), the maximal cutoffs
(`base/interactionhandler.cpp:34`). Types are in the range of the tables (a hypothesis of the theorems), so that the default
values are not used. -/
noncomputable def Setup.sys (s : Setup d) (T : FM ℝ) (x0 : ℕ → Fin d → ℝ) : Sys ℝ :=
  { g := List.ofFn s.g
    number := s.number
    x := fun i => List.ofFn (x0 i)
    rd := s.rd
    type := s.type
    interacts := fun t => match typeInteracts T t with
      | .val b => b
      | _ => false
    cut := fun a b => ((setUpGrids s.cut T).cutoff[a.toNat]?.bind (·[b.toNat]?)).getD 0
    maxCut := fun t => (getMaxCutoff T t.toNat).getD 0
    mss := s.mss
    skin := s.skin }

/-- The pairs that each interaction receives in `construct`, `base/interactionhandler.cpp:150-156,461-466`. -/
noncomputable def Setup.lists (s : Setup d) (T : FM ℝ) (x0 : ℕ → Fin d → ℝ) : Option (ℕ → List (ℕ × ℕ × ℕ)) :=
  ((s.sys T x0).traverse.map fun v => (v.id1, v.id2, v.list)).foldlM
    (pairInteraction (setUpGrids s.cut T) s.type) fun _ => []

/-- The contents of a container before: the three classes. -/
structure Old where
  vl : VL
  vp : VP
  pp : PP

/-- The pairs that list `n` of a container yields after `clear`, the calls of `addPair`, and `close`
(`interactions/generic-handlers.hpp:22-58,243-245,274-283,351-353`, `base/forcemaster.cpp:66-72`). -/
def contents (k : Kind) (o : Old) (adds : List Add) (n : ℕ) : Option (List (ℕ × ℕ)) :=
  match k with
  | .list => (VL.close (adds.foldl VL.add o.vl.clear)).dolist n
  | .vecPairs => VP.loop ((adds.foldl VP.add o.vp.clear) n)
  | .pairs => some ((adds.foldl PP.add o.pp.clear) n)

/-- Widths of the wrapping dimensions, `interactions/generic-handlers.hpp:126-130`. -/
noncomputable def Setup.widths (s : Setup d) : Fin d → Option ℝ :=
  fun k => if (s.g k).per then some ((s.g k).hi - (s.g k).lo) else none

/-- `interact` of the interaction `p` with the pairs `l`, `interactions/generic-handlers.hpp:66-77,183-194,291-302`. -/
noncomputable def Setup.one (s : Setup d) (doPot doVir : Bool) (o : ℕ → Old) (lists : ℕ → List (ℕ × ℕ × ℕ)) (P : Parts d)
    (f : ℕ → Fin d → ℝ) (p : ℕ) : Option (Acc d) :=
  let adds := (lists p).map fun v => (⟨v.1, v.2.1, v.2.2⟩ : Add)
  (contents (s.kind p) (o p) adds 0).bind fun plain => (contents (s.kind p) (o p) adds 1).bind fun wrapped =>
    interact (s.force p) (s.cut p) doPot doVir s.widths P plain wrapped f

/-- `ForceMaster::interact`, `base/forcemaster.cpp:39-48`: all interactions in the order of registration. -/
noncomputable def Setup.forces (s : Setup d) (T : FM ℝ) (doPot doVir : Bool) (o : ℕ → Old) (lists : ℕ → List (ℕ × ℕ × ℕ))
    (P : Parts d) (f : ℕ → Fin d → ℝ) : Option (ℕ → Fin d → ℝ) :=
  T.inter.foldlM (fun f p => (s.one doPot doVir o lists P f p).map Acc.f) f

/-- `ForceMaster::getTotalPotentialEnergy` after `ForceMaster::interact`, `base/forcemaster.cpp:39-48,83-89`: the sum of the
potentials that the interactions have stored (`base/interaction.cpp:7-11` resets them). -/
noncomputable def Setup.energy (s : Setup d) (T : FM ℝ) (doPot doVir : Bool) (o : ℕ → Old) (lists : ℕ → List (ℕ × ℕ × ℕ))
    (P : Parts d) (f : ℕ → Fin d → ℝ) : Option ℝ :=
  (T.inter.foldlM (fun (st : (ℕ → Fin d → ℝ) × ℝ) p =>
    (s.one doPot doVir o lists P st.1 p).map fun a => (a.f, st.2 + a.pot)) (f, 0)).map Prod.snd

/-! ## Specification -/

/-- Spec: the displacement to the nearest image. -/
noncomputable def nearest (g : Fin d → DAx ℝ) (X : Fin d → ℝ) : Fin d → ℝ := fun k =>
  if (g k).per then X k - ((g k).hi - (g k).lo) * round (X k / ((g k).hi - (g k).lo)) else X k

open Classical in
/-- Spec: component `k` of the force on `i` due to `j` whose relative position is `Y`: along the line of centres, with the
magnitude of the force law; none from the cutoff on. -/
noncomputable def pushed (F : Force) (c : ℝ) (P : Parts d) (i j : ℕ) (Y : Fin d → ℝ) (k : Fin d) : ℝ :=
  if len Y < (P.rd i + P.rd j) * c then F.mag P i j (fun l => Y l / len Y) (len Y) * (Y k / len Y) else 0

/-- Spec: the force on `i` due to `j`, by the interaction that was set last for their types. -/
noncomputable def Setup.direct (s : Setup d) (h : List Call) (P : Parts d) (i j : ℕ) (k : Fin d) : ℝ :=
  match lastSet h (s.type i) (s.type j) with
  | none => 0
  | some p => pushed (s.force p) (s.cut p) P i j (nearest s.g (P.x i - P.x j)) k

open Classical in
/-- Spec: the energy of the pair `i`, `j`, by the interaction that was set last for their types; none from the cutoff on. -/
noncomputable def Setup.directPot (s : Setup d) (h : List Call) (P : Parts d) (i j : ℕ) : ℝ :=
  match lastSet h (s.type i) (s.type j) with
  | none => 0
  | some p => if len (nearest s.g (P.x i - P.x j)) < (P.rd i + P.rd j) * s.cut p then
      (s.force p).pot P i j (len (nearest s.g (P.x i - P.x j))) else 0

/-- Spec: the particle exists. -/
def Setup.Alive (s : Setup d) (i : ℕ) : Prop := i < s.number ∧ 0 ≤ s.type i

/-- Spec: conditions on the simulation at the construction of the lists (positions `x0`, history `h` of the table): the grid
tiles the box, wrapping dimensions have enough cells, no neighbouring cell is left out (see C27), positions are wrapped, types
are in range, there are no large particles (see C28). -/
structure Setup.OK (s : Setup d) (h : List Call) (x0 : ℕ → Fin d → ℝ) : Prop where
  valid : ∀ k, (s.g k).Valid
  wide : ∀ k, (s.g k).per = true → 2 * sweepOf (2 * s.mss + s.skin) (s.g k).w + 1 ≤ (s.g k).n
  stencil : StencilComplete (2 * s.mss + s.skin) (List.ofFn fun k => (s.g k).gax)
  cutoff_pos : 0 < 2 * s.mss + s.skin
  skin_nonneg : 0 ≤ s.skin
  pos : ∀ i, s.Alive i → ∀ k, (s.g k).per = true → (s.g k).lo ≤ x0 i k ∧ x0 i k < (s.g k).hi
  rd_nonneg : ∀ i, s.Alive i → 0 ≤ s.rd i
  types : ∀ i, s.Alive i → s.type i < typesOf h
  cut_nonneg : ∀ p, 0 ≤ s.cut p
  small_one : ∀ i, s.Alive i → s.rd i ≤ s.mss
  small : ∀ i, s.Alive i → ∀ p, everSet h (s.type i) p → s.rd i * s.cut p ≤ s.mss

/-- Spec: the cell of a position. -/
noncomputable def Setup.cell (s : Setup d) (x : Fin d → ℝ) : ℤ := cellIndex ((List.ofFn s.g).map DAx.axis) (List.ofFn x)

/-! ## Vectors as lists -/

theorem distSq_ofFn (x y : Fin d → ℝ) : distSq (List.ofFn x) (List.ofFn y) = ∑ k, (x k - y k) ^ 2 := by
  induction d with
  | zero => simp [distSq]
  | succ d ih => simp only [List.ofFn_succ, distSq, Fin.sum_univ_succ, ih]

theorem imageSq_ofFn (g : Fin d → DAx ℝ) (m : Fin d → ℤ) (x y : Fin d → ℝ) :
    imageSq (List.ofFn g) (List.ofFn m) (List.ofFn x) (List.ofFn y) =
      ∑ k, (x k - y k + m k * ((g k).hi - (g k).lo)) ^ 2 := by
  induction d with
  | zero => simp [imageSq]
  | succ d ih => simp only [List.ofFn_succ, imageSq, Fin.sum_univ_succ, ih]

theorem posOK_ofFn (g : Fin d → DAx ℝ) (x : Fin d → ℝ)
    (h : ∀ k, (g k).per = true → (g k).lo ≤ x k ∧ x k < (g k).hi) : PosOK (List.ofFn g) (List.ofFn x) := by
  induction d with
  | zero => simp [PosOK]
  | succ d ih =>
    simp only [List.ofFn_succ, PosOK]
    exact ⟨h 0, ih _ _ fun k => h k.succ⟩

theorem shift_ofFn (g : Fin d → DAx ℝ) (m : Fin d → ℤ) (h : ∀ k, (g k).per = false → m k = 0) :
    Shift (List.ofFn g) (List.ofFn m) := by
  induction d with
  | zero => simp [Shift]
  | succ d ih =>
    simp only [List.ofFn_succ, Shift]
    exact List.Forall₂.cons (h 0) (ih _ _ fun k => h k.succ)

theorem cellTuple_ofFn (g : Fin d → DAx ℝ) (x : Fin d → ℝ) :
    cellTuple ((List.ofFn g).map DAx.axis) (List.ofFn x) = List.ofFn fun k => cellCoord (g k).axis (x k) := by
  induction d with
  | zero => simp [cellTuple]
  | succ d ih => simp only [List.ofFn_succ, List.map_cons, cellTuple, ih]

theorem len_norm (X : Fin d → ℝ) : len X = ‖(WithLp.toLp 2 X : EuclideanSpace ℝ (Fin d))‖ := by
  rw [EuclideanSpace.norm_eq, len, dot]
  congr 1
  refine Finset.sum_congr rfl fun k _ => ?_
  simp [sq]

theorem len_nonneg (X : Fin d → ℝ) : 0 ≤ len X := Real.sqrt_nonneg _

theorem len_add (X Y : Fin d → ℝ) : len (X + Y) ≤ len X + len Y := by
  rw [len_norm, len_norm, len_norm]
  exact norm_add_le (WithLp.toLp 2 X : EuclideanSpace ℝ (Fin d)) (WithLp.toLp 2 Y)

theorem len_neg (X : Fin d → ℝ) : len (-X) = len X := by simp [len, dot]

theorem abs_le_len (X : Fin d → ℝ) (k : Fin d) : |X k| ≤ len X := by
  rw [len, ← Real.sqrt_sq_eq_abs]
  apply Real.sqrt_le_sqrt
  rw [sq]
  exact Finset.single_le_sum (f := fun k => X k * X k) (fun _ _ => mul_self_nonneg _) (Finset.mem_univ k)

/-! ## Images -/

theorem far_len {R : ℝ} {Y : Fin d → ℝ} {l : Fin d} (h : R ≤ |Y l|) : R ≤ len Y := h.trans (abs_le_len Y l)

theorem pushed_far {F : Force} {c : ℝ} {P : Parts d} {i j : ℕ} {Y : Fin d → ℝ} {k : Fin d}
    (h : (P.rd i + P.rd j) * c ≤ len Y) : pushed F c P i j Y k = 0 := by
  unfold pushed
  rw [if_neg]
  exact not_lt.mpr h

theorem round_zero {W X : ℝ} (hW : 0 < W) (h : |X| < W / 2) : round (X / W) = 0 := by
  rw [round_eq, Int.floor_eq_zero_iff]
  rw [abs_lt] at h
  constructor
  · rw [← sub_le_iff_le_add, zero_sub, le_div_iff₀ hW]; linarith
  · rw [← lt_sub_iff_add_lt, div_lt_iff₀ hW]; linarith

/-- The plain displacement gives the same force as the nearest image, when it is not too long. -/
theorem plain_nearest (g : Fin d → DAx ℝ) {R : ℝ} (G : (Fin d → ℝ) → ℝ) (hG : ∀ Y, R ≤ len Y → G Y = 0) (X : Fin d → ℝ)
    (hW : ∀ l, (g l).per = true → 0 < (g l).hi - (g l).lo ∧ R ≤ ((g l).hi - (g l).lo) / 2 ∧
      |X l| ≤ (g l).hi - (g l).lo - R) :
    G X = G (nearest g X) := by
  by_cases h : ∃ l, (g l).per = true ∧ ((g l).hi - (g l).lo) / 2 ≤ |X l|
  · obtain ⟨l, hp, hl⟩ := h
    obtain ⟨h0, h1, h2⟩ := hW l hp
    rw [hG _ (far_len (h1.trans hl)), hG _ (far_len (l := l) ?_)]
    unfold nearest
    rw [if_pos hp]
    generalize round (X l / ((g l).hi - (g l).lo)) = z
    generalize (g l).hi - (g l).lo = W at *
    by_cases hz : z = 0
    · subst hz; simp only [Int.cast_zero, mul_zero, sub_zero]; linarith
    · have h3 : (1 : ℝ) ≤ |(z : ℝ)| := by exact_mod_cast Int.one_le_abs hz
      have h4 : |W * z| ≤ |X l| + |X l - W * z| := by
        have := abs_sub (X l) (X l - W * z)
        rw [show X l - (X l - W * z) = W * z by ring] at this
        exact this
      rw [abs_mul, abs_of_pos h0] at h4
      nlinarith
  · push Not at h
    have : nearest g X = X := by
      funext l
      unfold nearest
      by_cases hp : (g l).per = true
      · rw [if_pos hp, round_zero (hW l hp).1 (h l hp)]; simp
      · rw [if_neg hp]
    rw [this]

/-- The corrected displacement gives the same force as the nearest image. -/
theorem correct_nearest (s : Setup d) {R : ℝ} (G : (Fin d → ℝ) → ℝ) (hG : ∀ Y, R ≤ len Y → G Y = 0) (X : Fin d → ℝ)
    (hW : ∀ l, (s.g l).per = true → 0 < (s.g l).hi - (s.g l).lo ∧
      R ≤ ((s.g l).hi - (s.g l).lo) / 2 ∧ |X l| < 3 / 2 * ((s.g l).hi - (s.g l).lo)) :
    G (correct s.widths X) = G (nearest s.g X) := by
  by_cases h : ∃ l, (s.g l).per = true ∧ |X l| = ((s.g l).hi - (s.g l).lo) / 2
  · obtain ⟨l, hp, hl⟩ := h
    obtain ⟨h0, h1, h2⟩ := hW l hp
    rw [hG _ (far_len (l := l) ?_), hG _ (far_len (l := l) ?_)]
    · unfold nearest
      rw [if_pos hp]
      generalize round (X l / ((s.g l).hi - (s.g l).lo)) = z
      generalize (s.g l).hi - (s.g l).lo = W at *
      by_cases hz : z = 0
      · subst hz; simp only [Int.cast_zero, mul_zero, sub_zero]; linarith
      · have h3 : (1 : ℝ) ≤ |(z : ℝ)| := by exact_mod_cast Int.one_le_abs hz
        have h4 : |W * z| ≤ |X l| + |X l - W * z| := by
          have := abs_sub (X l) (X l - W * z)
          rw [show X l - (X l - W * z) = W * z by ring] at this
          exact this
        rw [abs_mul, abs_of_pos h0] at h4
        nlinarith
    · have e : correct s.widths X l = X l := by
        unfold correct Setup.widths
        rw [if_pos hp]
        simp only
        rw [if_neg (by rw [hl]; linarith)]
      rw [e, hl]; exact h1
  · push Not at h
    have : correct s.widths X = nearest s.g X := by
      funext l
      unfold correct nearest Setup.widths
      by_cases hp : (s.g l).per = true
      · simp only [if_pos hp]
        obtain ⟨h0, _, h2⟩ := hW l hp
        have h3 := h l hp
        generalize (s.g l).hi - (s.g l).lo = W at *
        by_cases hlt : W - |X l| < |X l|
        · rw [if_pos hlt]
          by_cases hx : X l > 0
          · rw [if_pos hx]
            rw [abs_of_pos hx] at *
            have : round (X l / W) = 1 := by
              rw [round_eq, Int.floor_eq_iff]
              constructor
              · rw [← sub_le_iff_le_add, le_div_iff₀ h0]; push_cast; linarith
              · rw [← lt_sub_iff_add_lt, div_lt_iff₀ h0]; push_cast; linarith
            rw [this]; push_cast; ring
          · rw [if_neg hx]
            have hx' : X l ≤ 0 := not_lt.mp hx
            rw [abs_of_nonpos hx'] at *
            have : round (X l / W) = -1 := by
              rw [round_eq, Int.floor_eq_iff]
              constructor
              · rw [← sub_le_iff_le_add, le_div_iff₀ h0]; push_cast; linarith
              · rw [← lt_sub_iff_add_lt, div_lt_iff₀ h0]; push_cast; linarith
            rw [this]; push_cast; ring
        · rw [if_neg hlt]
          have : |X l| < W / 2 := lt_of_le_of_ne (by linarith) h3
          rw [round_zero h0 this]; simp
      · simp only [if_neg hp]
    rw [this]

theorem mag_swap (F : Force) (P : Parts d) (i j : ℕ) (n : Fin d → ℝ) (r : ℝ) :
    F.mag P j i (-n) r = F.mag P i j n r := by
  have hd : ∀ a b : ℕ, dot (P.v a - P.v b) (-n) = dot (P.v b - P.v a) n := by
    intro a b
    unfold dot
    refine Finset.sum_congr rfl fun k _ => ?_
    simp only [Pi.sub_apply, Pi.neg_apply]; ring
  have hm : meff (P.im j) (P.im i) = meff (P.im i) (P.im j) := by
    unfold meff
    simp only [or_comm (a := P.im j = 0), mul_comm (1 / P.im j), add_comm (1 / P.im j)]
  cases F with
  | hardSphere k => simp only [Force.mag]; ring
  | hardSphereDs k g => simp only [Force.mag, hd]; ring_nf
  | lennardJones ε s => simp only [Force.mag, add_comm]
  | coulomb s c t => simp only [Force.mag]
  | buckingham a b c e => simp only [Force.mag, add_comm]
  | hertz kn gn =>
    simp only [Force.mag, hd, hm, hertzMag]
    rw [add_comm (P.rd j), mul_comm (P.rd j)]

theorem pushed_swap (F : Force) (c : ℝ) (P : Parts d) (i j : ℕ) (Y : Fin d → ℝ) (k : Fin d) :
    pushed F c P j i (-Y) k = -pushed F c P i j Y k := by
  unfold pushed
  rw [len_neg, add_comm (P.rd j)]
  split_ifs with h
  · have : (fun l => (-Y) l / len Y) = -(fun l => Y l / len Y) := by funext l; simp [neg_div]
    rw [this, mag_swap]
    simp only [Pi.neg_apply, neg_div, mul_neg]
  · simp

theorem sep_swap (w : Fin d → Option ℝ) (hw : ∀ k v, w k = some v → 0 ≤ v) (P : Parts d) (i j : ℕ) :
    sep w P (j, i) = -sep w P (i, j) := by
  funext k
  unfold sep correct
  simp only [Pi.neg_apply, Pi.sub_apply]
  have e : P.x j k - P.x i k = -(P.x i k - P.x j k) := by ring
  cases hk : w k with
  | none => simp only; ring
  | some v =>
    have hv := hw k v hk
    simp only [e, abs_neg]
    generalize P.x i k - P.x j k = X
    by_cases h : v - |X| < |X|
    · rw [if_pos h, if_pos h]
      rcases lt_trichotomy X 0 with h1 | h1 | h1
      · rw [if_pos (by linarith), if_neg (by linarith)]
      · subst h1; simp at h; linarith
      · rw [if_neg (by linarith), if_pos h1]; ring
    · rw [if_neg h, if_neg h]

theorem pairForce_eq (F : Force) {c : ℝ} (w : Fin d → Option ℝ) (P : Parts d) (m : ℕ) (k : Fin d) (i j : ℕ)
    (h0 : 0 ≤ (P.rd i + P.rd j) * c) :
    pairForce F c w P m k (i, j) = ((if m = i then 1 else 0) - (if m = j then 1 else 0)) *
      pushed F c P i j (sep w P (i, j)) k := by
  unfold pairForce pushed
  have : len (sep w P (i, j)) ^ 2 < ((P.rd i + P.rd j) * c) ^ 2 ↔ len (sep w P (i, j)) < (P.rd i + P.rd j) * c := by
    constructor
    · intro h; exact lt_of_pow_lt_pow_left₀ 2 h0 h
    · intro h; exact pow_lt_pow_left₀ h (len_nonneg _) (by norm_num)
  simp only [this]
  split_ifs <;> simp

/-! ## The system that the handler reads -/

section sys
variable {s : Setup d} {h : List Call} {T : FM ℝ} {x0 : ℕ → Fin d → ℝ}

theorem sys_cut (hr : InRange h) (hT : run s.cut (.init :: h) = some T) {a b : ℤ} (ha : 0 ≤ a ∧ a < typesOf h)
    (hb : 0 ≤ b ∧ b < typesOf h) :
    (s.sys T x0).cut a b = match lastSet h a b with | some p => s.cut p | none => 0 := by
  obtain ⟨T', e, h1⟩ := C66_cutoffs s.cut (.init :: h) hr
  rw [hT] at e
  cases e
  obtain ⟨a, rfl⟩ := Int.eq_ofNat_of_zero_le ha.1
  obtain ⟨b, rfl⟩ := Int.eq_ofNat_of_zero_le hb.1
  have h2 := h1 a b (by simpa [typesOf] using ha.2) (by simpa [typesOf] using hb.2)
  simp only [Setup.sys, Int.toNat_natCast, h2, Option.getD_some, lastSet]
  rfl

theorem sys_max (hr : InRange h) (hT : run s.cut (.init :: h) = some T) {t : ℤ} (ht : 0 ≤ t ∧ t < typesOf h) :
    (∀ (u : ℤ) (p : ℕ), lastSet h t u = some p → s.cut p ≤ (s.sys T x0).maxCut t) ∧ 1 ≤ (s.sys T x0).maxCut t ∧
      ((s.sys T x0).maxCut t = 1 ∨ ∃ p, everSet h t p ∧ s.cut p = (s.sys T x0).maxCut t) := by
  obtain ⟨T', e, h1⟩ := C32_max_cutoff s.cut (.init :: h) hr
  rw [hT] at e
  cases e
  obtain ⟨t, rfl⟩ := Int.eq_ofNat_of_zero_le ht.1
  obtain ⟨v, e, h2, h3, h4⟩ := h1 t (by simpa [typesOf] using ht.2)
  have e' : (s.sys T x0).maxCut ((t : ℕ) : ℤ) = v := by simp [Setup.sys, e]
  rw [e']
  exact ⟨fun u p hp => h3 u p (Or.inl hp), h2, h4⟩

theorem sys_interacts (hr : InRange h) (hT : run s.cut (.init :: h) = some T) {t u : ℤ} (ht : 0 ≤ t ∧ t < typesOf h)
    (hu : 0 ≤ u ∧ u < typesOf h) {p : ℕ} (hp : lastSet h t u = some p ∨ lastSet h u t = some p) :
    (s.sys T x0).interacts t = true := by
  obtain ⟨T', e, h1⟩ := C32_type_interacts s.cut h hr
  rw [hT] at e
  cases e
  have h2 := h1 t
  rw [if_neg (by omega), if_neg (by omega)] at h2
  simp only [Setup.sys, h2, decide_eq_true_eq]
  refine ⟨⟨u.toNat, by omega⟩, ?_⟩
  have : ((u.toNat : ℕ) : ℤ) = u := by omega
  simp only [this]
  rcases hp with hp | hp
  · left; rw [hp]; simp
  · right; rw [hp]; simp

theorem live_alive {i : ℕ} (hi : (s.sys T x0).Live i) : s.Alive i := ⟨hi.1, hi.2.1⟩

theorem sys_ok (hok : s.OK h x0) (hr : InRange h) (href : AllReflexive h) (hT : run s.cut (.init :: h) = some T) :
    (s.sys T x0).OK := by
  have ty : ∀ i, (s.sys T x0).Live i → 0 ≤ s.type i ∧ s.type i < typesOf h :=
    fun i hi => ⟨hi.2.1, hok.types i (live_alive hi)⟩
  constructor
  · intro a ha
    obtain ⟨k, rfl⟩ := (List.mem_ofFn' _ _).mp ha
    exact hok.valid k
  · intro a ha
    obtain ⟨k, rfl⟩ := (List.mem_ofFn' _ _).mp ha
    exact hok.wide k
  · have : (s.sys T x0).g.map DAx.gax = List.ofFn fun k => (s.g k).gax := by
      simp only [Setup.sys, List.map_ofFn]; rfl
    rw [this]
    exact hok.stencil
  · exact hok.cutoff_pos
  · exact hok.skin_nonneg
  · intro i hi
    exact posOK_ofFn s.g (x0 i) (hok.pos i (live_alive hi))
  · intro i hi
    exact hok.rd_nonneg i (live_alive hi)
  · intro i hi
    obtain ⟨_, _, h3⟩ := sys_max (x0 := x0) hr hT (ty i hi)
    change s.rd i * (s.sys T x0).maxCut (s.type i) ≤ s.mss
    rcases h3 with h3 | ⟨p, hp, h3⟩
    · rw [h3, mul_one]; exact hok.small_one i (live_alive hi)
    · rw [← h3]; exact hok.small i (live_alive hi) p hp
  · intro i j hi hj
    change 0 ≤ (s.sys T x0).cut (s.type i) (s.type j)
    rw [sys_cut hr hT (ty i hi) (ty j hj)]
    split
    · exact hok.cut_nonneg _
    · exact le_rfl
  · intro i j hi hj
    change (s.sys T x0).cut (s.type i) (s.type j) = (s.sys T x0).cut (s.type j) (s.type i)
    rw [sys_cut hr hT (ty i hi) (ty j hj), sys_cut hr hT (ty j hj) (ty i hi), lastSet_symm href]
  · intro i j hi hj
    change (s.sys T x0).cut (s.type i) (s.type j) ≤ (s.sys T x0).maxCut (s.type i)
    obtain ⟨h1, h2, _⟩ := sys_max (x0 := x0) hr hT (ty i hi)
    rw [sys_cut hr hT (ty i hi) (ty j hj)]
    split
    · rename_i p hp; exact h1 _ p hp
    · linarith

end sys

/-! ## What the traversal lists -/

theorem mem_cellLoop {S : Sys ℝ} (hS : S.OK) {c : ℕ} {v : Visit} : ∀ (l : List ℕ), (∀ i ∈ l, S.Live i) →
    v ∈ S.cellLoop c l → S.Live v.id1 ∧ S.Live v.id2 := by
  intro l
  induction l with
  | nil => intro _ hv; simp [Sys.cellLoop] at hv
  | cons i l ih =>
    intro hl hv
    rw [cellLoop_cons hS (hl i (by simp)), List.mem_append, List.mem_append] at hv
    rcases hv with (hv | hv) | hv
    · obtain ⟨j, hj, hv⟩ := List.mem_flatMap.mp hv
      obtain ⟨e1, e2⟩ := inCell_mem hv
      rw [e1, e2]
      exact ⟨hl i (by simp), hl j (List.mem_cons_of_mem _ hj)⟩
    · obtain ⟨c', _, hv⟩ := List.mem_flatMap.mp hv
      obtain ⟨j, hj, hv⟩ := List.mem_flatMap.mp hv
      obtain ⟨e1, e2⟩ := inAdjacent_mem hv
      rw [e1, e2]
      exact ⟨hl i (by simp), (mem_cell.mp hj).1⟩
    · exact ih (fun j hj => hl j (List.mem_cons_of_mem _ hj)) hv

theorem mem_traverse {S : Sys ℝ} (hS : S.OK) {v : Visit} (hv : v ∈ S.traverse) :
    S.Live v.id1 ∧ S.Live v.id2 ∧ v.id1 ≠ v.id2 := by
  have hl : S.Live v.id1 ∧ S.Live v.id2 := by
    obtain ⟨c, _, h⟩ := List.mem_flatMap.mp hv
    exact mem_cellLoop hS _ (fun i hi => (mem_cell.mp hi).1) h
  refine ⟨hl.1, hl.2, ?_⟩
  intro he
  have h1 := C28_no_pair_twice_partial S hS v.id1 v.id2 hl.1 hl.2
  rw [if_pos he, Nat.le_zero, List.countP_eq_zero] at h1
  exact h1 v hv (by simp [IsPair])

theorem traverse_lists {S : Sys ℝ} (hS : S.OK) {v : Visit} (hv : v ∈ S.traverse) :
    (v.list = 0 ∧ (S.cellOf v.id1 = S.cellOf v.id2 ∨
      distSq (S.x v.id1) (S.x v.id2) < S.range v.id1 v.id2 ^ 2)) ∨ v.list = 1 := by
  obtain ⟨h1, h2, _⟩ := mem_traverse hS hv
  obtain ⟨ci, ti, e1, e2, _⟩ := live_cell hS h1
  have hf := filter_traverse hS h1 h2 e1 e2
  have hm : v ∈ S.traverse.filter (isOrd v.id1 v.id2) := List.mem_filter.mpr ⟨hv, by simp [isOrd]⟩
  rw [hf, List.mem_append] at hm
  rcases hm with hm | hm
  · split_ifs at hm with hc
    · left
      refine ⟨?_, Or.inl (by rw [e1, hc.1])⟩
      unfold Sys.inCell at hm
      split_ifs at hm
      · simp at hm
      · simp at hm; rw [hm]
      · simp at hm
    · simp at hm
  · obtain ⟨l, hl, hm⟩ := List.mem_flatten.mp hm
    rw [(List.mem_replicate.mp hl).2] at hm
    unfold Sys.inAdjacent at hm
    split_ifs at hm with q1 q2 q3
    · simp at hm
    · left
      refine ⟨?_, Or.inr q2⟩
      simp at hm; rw [hm]
    · right; simp at hm; rw [hm]
    · simp at hm

theorem same_cell {s : Setup d} {T : FM ℝ} {x0 : ℕ → Fin d → ℝ} (hS : (s.sys T x0).OK) {i j : ℕ}
    (hi : (s.sys T x0).Live i) (hj : (s.sys T x0).Live j) (hc : (s.sys T x0).cellOf i = (s.sys T x0).cellOf j)
    {k : Fin d} (hk : (s.g k).per = true) (hp : ∀ l, s.Alive l → (s.g k).lo ≤ x0 l k ∧ x0 l k < (s.g k).hi)
    (hv : (s.g k).Valid) : |x0 i k - x0 j k| < (s.g k).w := by
  obtain ⟨ci, ti, h1, h2, h3, h4, _⟩ := live_cell hS hi
  obtain ⟨cj, tj, k1, k2, k3, k4, _⟩ := live_cell hS hj
  have e : ci = cj := by rw [h1, k1] at hc; exact_mod_cast hc
  subst e
  rw [h3] at k3
  subst k3
  rw [← k4] at h4
  have h5 : List.ofFn (fun k => cellCoord (s.g k).axis (x0 i k)) = List.ofFn (fun k => cellCoord (s.g k).axis (x0 j k)) := by
    rw [← cellTuple_ofFn, ← cellTuple_ofFn]; exact h4
  have h6 : cellCoord (s.g k).axis (x0 i k) = cellCoord (s.g k).axis (x0 j k) := congrFun (List.ofFn_injective h5) k
  obtain ⟨a, ha, hba⟩ := cellCoord_belongs hv.axis (x0 i k)
  obtain ⟨b, hb, hbb⟩ := cellCoord_belongs hv.axis (x0 j k)
  rw [ha, hb] at h6
  have : a = b := by exact_mod_cast h6
  subst this
  have pi := hp i (live_alive hi)
  have pj := hp j (live_alive hj)
  have b1 := hba.2.2.1 pi.1 pi.2
  have b2 := hbb.2.2.1 pj.1 pj.2
  simp only [DAx.axis] at b1 b2
  rw [abs_lt]
  constructor <;> nlinarith

section exact
variable {s : Setup d} {h : List Call} {T : FM ℝ} {x0 : ℕ → Fin d → ℝ}

/-- Wrapping dimensions are wide. -/
theorem width_ge (hok : s.OK h x0) {k : Fin d} (hk : (s.g k).per = true) :
    2 * (2 * s.mss + s.skin) + (s.g k).w ≤ (s.g k).hi - (s.g k).lo := by
  have hv := hok.valid k
  have h1 := sweep_ge (cutoff := 2 * s.mss + s.skin) hv.wpos
  have h2 : (2 : ℝ) * (sweepOf (2 * s.mss + s.skin) (s.g k).w : ℝ) + 1 ≤ (s.g k).n := by exact_mod_cast hok.wide k hk
  have h3 := hv.wpos
  rw [← hv.tiles]
  nlinarith

theorem mss_nonneg (hok : s.OK h x0) {i : ℕ} (hi : s.Alive i) : 0 ≤ s.mss :=
  (hok.rd_nonneg i hi).trans (hok.small_one i hi)

theorem reach_le (hok : s.OK h x0) {i j : ℕ} (hi : s.Alive i) (hj : s.Alive j) {p : ℕ} (href : AllReflexive h)
    (hp : lastSet h (s.type i) (s.type j) = some p) :
    0 ≤ (s.rd i + s.rd j) * s.cut p ∧ (s.rd i + s.rd j) * s.cut p ≤ 2 * s.mss := by
  have h1 := hok.small i hi p (lastSet_everSet hp).1
  have h2 := hok.small j hj p (lastSet_everSet hp).2
  have h3 := hok.rd_nonneg i hi
  have h4 := hok.rd_nonneg j hj
  have h5 := hok.cut_nonneg p
  constructor
  · positivity
  · linarith

theorem range_eq (hok : s.OK h x0) (hr : InRange h) (hT : run s.cut (.init :: h) = some T) {i j : ℕ} (hi : s.Alive i)
    (hj : s.Alive j) {p : ℕ} (hp : lastSet h (s.type i) (s.type j) = some p) :
    (s.sys T x0).range i j = (s.rd i + s.rd j) * s.cut p + s.skin := by
  unfold Sys.range
  have : (s.sys T x0).cut (s.type i) (s.type j) = s.cut p := by
    rw [sys_cut hr hT ⟨hi.2, hok.types i hi⟩ ⟨hj.2, hok.types j hj⟩, hp]
  change (s.rd i + s.rd j) * (s.sys T x0).cut (s.type i) (s.type j) + s.skin = _
  rw [this]

theorem moved_coord {P : Parts d} {i j : ℕ} (hi : len (P.x i - x0 i) ≤ s.skin / 2) (hj : len (P.x j - x0 j) ≤ s.skin / 2)
    (k : Fin d) : |(P.x i - P.x j) k| ≤ |x0 i k - x0 j k| + s.skin := by
  have h1 := (abs_le_len (P.x i - x0 i) k).trans hi
  have h2 := (abs_le_len (P.x j - x0 j) k).trans hj
  simp only [Pi.sub_apply] at *
  have e : P.x i k - P.x j k = (x0 i k - x0 j k) + ((P.x i k - x0 i k) - (P.x j k - x0 j k)) := by ring
  have h3 := abs_add_le (x0 i k - x0 j k) ((P.x i k - x0 i k) - (P.x j k - x0 j k))
  have h4 := abs_sub (P.x i k - x0 i k) (P.x j k - x0 j k)
  rw [e]
  linarith

/-- A listed pair contributes the force of the specification, seen from either particle. -/
theorem listed_exact (hok : s.OK h x0) (hr : InRange h) (href : AllReflexive h) (hT : run s.cut (.init :: h) = some T)
    {P : Parts d} (hrd : P.rd = s.rd) (hmove : ∀ i, s.Alive i → len (P.x i - x0 i) ≤ s.skin / 2)
    {v : Visit} (hv : v ∈ (s.sys T x0).traverse) {p : ℕ} (hp : lastSet h (s.type v.id1) (s.type v.id2) = some p)
    {i j : ℕ} (hij : (i = v.id1 ∧ j = v.id2) ∨ (i = v.id2 ∧ j = v.id1)) :
    ∀ G : (Fin d → ℝ) → ℝ, (∀ Y, (P.rd i + P.rd j) * s.cut p ≤ len Y → G Y = 0) →
      G (sep (if v.list = 0 then fun _ => none else s.widths) P (i, j)) = G (nearest s.g (P.x i - P.x j)) := by
  have hS := sys_ok hok hr href hT
  obtain ⟨l1, l2, hne⟩ := mem_traverse hS hv
  have a1 := live_alive l1
  have a2 := live_alive l2
  obtain ⟨R0, R1⟩ := reach_le hok a1 a2 href hp
  have hm0 := mss_nonneg hok a1
  have hsk := hok.skin_nonneg
  have ai : s.Alive i := by rcases hij with ⟨rfl, rfl⟩ | ⟨rfl, rfl⟩ <;> assumption
  have aj : s.Alive j := by rcases hij with ⟨rfl, rfl⟩ | ⟨rfl, rfl⟩ <;> assumption
  have hmc := fun k => moved_coord (s := s) (hmove _ ai) (hmove _ aj) k
  have hpij : lastSet h (s.type i) (s.type j) = some p := by
    rcases hij with ⟨rfl, rfl⟩ | ⟨rfl, rfl⟩
    · exact hp
    · rw [lastSet_symm href]; exact hp
  have hR : (s.rd i + s.rd j) * s.cut p = (s.rd v.id1 + s.rd v.id2) * s.cut p := by
    rcases hij with ⟨rfl, rfl⟩ | ⟨rfl, rfl⟩
    · rfl
    · ring
  have hab : ∀ k, |x0 i k - x0 j k| = |x0 v.id1 k - x0 v.id2 k| := by
    intro k
    rcases hij with ⟨rfl, rfl⟩ | ⟨rfl, rfl⟩
    · rfl
    · exact abs_sub_comm _ _
  have bounds : (v.list = 0 ∧ (∀ l, (s.g l).per = true → 0 < (s.g l).hi - (s.g l).lo ∧
        (P.rd i + P.rd j) * s.cut p ≤ ((s.g l).hi - (s.g l).lo) / 2 ∧
        |(P.x i - P.x j) l| ≤ (s.g l).hi - (s.g l).lo - (P.rd i + P.rd j) * s.cut p) ∨
     v.list = 1 ∧ (∀ l, (s.g l).per = true → 0 < (s.g l).hi - (s.g l).lo ∧
        (P.rd i + P.rd j) * s.cut p ≤ ((s.g l).hi - (s.g l).lo) / 2 ∧
        |(P.x i - P.x j) l| < 3 / 2 * ((s.g l).hi - (s.g l).lo))) := by
    rcases traverse_lists hS hv with ⟨hl, hc⟩ | hl
    · left
      refine ⟨hl, ?_⟩
      intro l hlp
      have hw := width_ge hok hlp
      have hwp := (hok.valid l).wpos
      rw [hrd, hR]
      refine ⟨by nlinarith, by linarith, ?_⟩
      have h1 := hmc l
      rw [hab] at h1
      rcases hc with hc | hc
      · have := same_cell hS l1 l2 hc hlp (fun i hi => hok.pos i hi l hlp) (hok.valid l)
        linarith
      · rw [range_eq hok hr hT a1 a2 hp] at hc
        have h2 : |x0 v.id1 l - x0 v.id2 l| < (s.rd v.id1 + s.rd v.id2) * s.cut p + s.skin := by
          apply abs_lt_of_sq_lt_sq _ (by linarith)
          refine lt_of_le_of_lt ?_ hc
          have : distSq ((s.sys T x0).x v.id1) ((s.sys T x0).x v.id2) = ∑ k, (x0 v.id1 k - x0 v.id2 k) ^ 2 :=
            distSq_ofFn _ _
          rw [this]
          exact Finset.single_le_sum (f := fun k => (x0 v.id1 k - x0 v.id2 k) ^ 2) (fun _ _ => sq_nonneg _)
            (Finset.mem_univ l)
        linarith
    · right
      refine ⟨hl, ?_⟩
      intro l hlp
      have hw := width_ge hok hlp
      have hwp := (hok.valid l).wpos
      rw [hrd, hR]
      refine ⟨by nlinarith, by linarith, ?_⟩
      have h1 := hmc l
      rw [hab] at h1
      have p1 := hok.pos _ a1 l hlp
      have p2 := hok.pos _ a2 l hlp
      have h2 : |x0 v.id1 l - x0 v.id2 l| < (s.g l).hi - (s.g l).lo := by
        rw [abs_lt]; constructor <;> linarith
      linarith
  intro G hG
  rcases bounds with ⟨hl, hb⟩ | ⟨hl, hb⟩
  · rw [if_pos hl]
    have e : sep (fun _ => none) P (i, j) = P.x i - P.x j := by funext k; rfl
    rw [e]
    exact plain_nearest s.g G hG _ hb
  · rw [if_neg (by omega)]
    have e : sep s.widths P (i, j) = correct s.widths (P.x i - P.x j) := rfl
    rw [e]
    exact correct_nearest s G hG _ hb

/-- A pair within reach is listed once. -/
theorem in_reach_listed (hok : s.OK h x0) (hr : InRange h) (href : AllReflexive h)
    (hT : run s.cut (.init :: h) = some T) {P : Parts d} (hrd : P.rd = s.rd)
    (hmove : ∀ i, s.Alive i → len (P.x i - x0 i) ≤ s.skin / 2) {i j : ℕ} (hi : s.Alive i) (hj : s.Alive j) (hij : i ≠ j)
    {p : ℕ} (hp : lastSet h (s.type i) (s.type j) = some p)
    (hcell : s.cut p ≤ 1 ∨ s.cell (x0 i) ≠ s.cell (x0 j))
    (hlen : len (nearest s.g (P.x i - P.x j)) < (s.rd i + s.rd j) * s.cut p) :
    (s.sys T x0).traverse.countP (IsPair i j) = 1 := by
  have hS := sys_ok hok hr href hT
  have ti : 0 ≤ s.type i ∧ s.type i < typesOf h := ⟨hi.2, hok.types i hi⟩
  have tj : 0 ≤ s.type j ∧ s.type j < typesOf h := ⟨hj.2, hok.types j hj⟩
  have li : (s.sys T x0).Live i := ⟨hi.1, hi.2, sys_interacts hr hT ti tj (Or.inl hp)⟩
  have lj : (s.sys T x0).Live j := ⟨hj.1, hj.2, sys_interacts hr hT tj ti (Or.inr hp)⟩
  let m : Fin d → ℤ := fun k => if (s.g k).per then -round ((P.x i - P.x j) k / ((s.g k).hi - (s.g k).lo)) else 0
  have hm : Shift (s.sys T x0).g (List.ofFn m) := shift_ofFn s.g m fun k hk => by simp [m, hk]
  have him : imageSq (s.sys T x0).g (List.ofFn m) ((s.sys T x0).x i) ((s.sys T x0).x j) =
      ∑ k, (x0 i k - x0 j k + m k * ((s.g k).hi - (s.g k).lo)) ^ 2 := imageSq_ofFn s.g m (x0 i) (x0 j)
  let Y : Fin d → ℝ := fun k => x0 i k - x0 j k + m k * ((s.g k).hi - (s.g k).lo)
  have hY : Y = nearest s.g (P.x i - P.x j) + (-(P.x i - x0 i) + (P.x j - x0 j)) := by
    funext k
    simp only [Y, m, nearest, Pi.add_apply, Pi.neg_apply, Pi.sub_apply]
    split_ifs
    · push_cast; ring
    · push_cast; ring
  have hlY : len Y < (s.rd i + s.rd j) * s.cut p + s.skin := by
    rw [hY]
    have h1 := len_add (nearest s.g (P.x i - P.x j)) (-(P.x i - x0 i) + (P.x j - x0 j))
    have h2 := len_add (-(P.x i - x0 i)) (P.x j - x0 j)
    rw [len_neg] at h2
    have h3 := hmove i hi
    have h4 := hmove j hj
    linarith
  refine (C28_no_pair_missed_partial (s.sys T x0) hS i j li lj hij (List.ofFn m) hm ?_ ?_).1
  · rw [him, range_eq hok hr hT hi hj hp]
    have : ∑ k, (x0 i k - x0 j k + m k * ((s.g k).hi - (s.g k).lo)) ^ 2 = len Y ^ 2 := by
      rw [len_sq, dot]
      exact Finset.sum_congr rfl fun k _ => by simp only [Y]; ring
    rw [this]
    exact pow_lt_pow_left₀ hlY (len_nonneg _) (by norm_num)
  · rcases hcell with hc | hc
    · left
      change (s.sys T x0).cut (s.type i) (s.type j) ≤ 1
      rw [sys_cut hr hT ti tj, hp]
      exact hc
    · right; exact hc

end exact

/-! ## Sums over lists -/

/-- Sum over the interactions of the sums over their pairs. -/
theorem sum_routed {V : Type*} (inter : List ℕ) (hn : inter.Nodup) (q : V → Option ℕ) (F : ℕ → V → ℝ) (vs : List V)
    (hq : ∀ v ∈ vs, ∀ p, q v = some p → p ∈ inter) :
    (inter.map fun p => ((vs.filter fun v => decide (q v = some p)).map (F p)).sum).sum =
      (vs.map fun v => match q v with | none => 0 | some p => F p v).sum := by
  induction vs with
  | nil => simp
  | cons v vs ih =>
    have e : ∀ p, (((v :: vs).filter fun v => decide (q v = some p)).map (F p)).sum =
        (if q v = some p then F p v else 0) + ((vs.filter fun v => decide (q v = some p)).map (F p)).sum := by
      intro p
      rw [List.filter_cons]
      by_cases hp : q v = some p
      · simp [hp]
      · simp [hp]
    simp only [e, List.sum_map_add, ih (fun w hw => hq w (List.mem_cons_of_mem _ hw)), List.map_cons, List.sum_cons]
    congr 1
    cases hv : q v with
    | none => simp
    | some p =>
      have hmem := hq v (by simp) p hv
      clear e ih hq
      induction inter with
      | nil => simp at hmem
      | cons a l ih' =>
        obtain ⟨n1, n2⟩ := List.nodup_cons.mp hn
        simp only [Option.some.injEq, List.map_cons, List.sum_cons] at ih' ⊢
        by_cases ha : p = a
        · subst ha
          rw [if_pos rfl]
          have : (l.map fun b => if p = b then F b v else 0).sum = 0 := by
            apply List.sum_eq_zero
            intro y hy
            obtain ⟨b, hb, rfl⟩ := List.mem_map.mp hy
            rw [if_neg]
            rintro rfl
            exact n1 hb
          rw [this, add_zero]
        · rw [if_neg ha, zero_add]
          refine ih' n2 ?_
          rcases List.mem_cons.mp hmem with h | h
          · exact absurd h ha
          · exact h

/-- Sum over visits of contributions to the particle `m`, as a sum over the partners. -/
theorem sum_partners (m n : ℕ) (D : ℕ → ℝ) (vs : List Visit)
    (hv : ∀ v ∈ vs, v.id1 < n ∧ v.id2 < n ∧ v.id1 ≠ v.id2) :
    (vs.map fun v => if m = v.id1 then D v.id2 else if m = v.id2 then D v.id1 else 0).sum =
      ∑ j ∈ (Finset.range n).filter (· ≠ m), (vs.countP (IsPair m j) : ℝ) * D j := by
  induction vs with
  | nil => simp
  | cons v vs ih =>
    rw [List.map_cons, List.sum_cons, ih fun w hw => hv w (List.mem_cons_of_mem _ hw)]
    have e : ∀ j, (((v :: vs).countP (IsPair m j) : ℕ) : ℝ) * D j =
        (vs.countP (IsPair m j) : ℝ) * D j + if IsPair m j v = true then D j else 0 := by
      intro j
      rw [List.countP_cons]
      split_ifs <;> push_cast <;> ring
    simp only [e, Finset.sum_add_distrib]
    rw [add_comm]
    congr 1
    obtain ⟨h1, h2, h3⟩ := hv v (by simp)
    by_cases hm1 : m = v.id1
    · rw [if_pos hm1, Finset.sum_eq_single v.id2]
      · rw [if_pos (by simp [IsPair, hm1])]
      · intro j _ hj
        rw [if_neg]
        simp only [IsPair, decide_eq_true_eq, not_or, not_and]
        exact ⟨fun _ e => hj e.symm, fun _ e => h3 (by rw [← hm1, e])⟩
      · intro hn
        exact absurd (Finset.mem_filter.mpr ⟨Finset.mem_range.mpr h2, fun e => h3 (by rw [e, hm1])⟩) hn
    · rw [if_neg hm1]
      by_cases hm2 : m = v.id2
      · rw [if_pos hm2, Finset.sum_eq_single v.id1]
        · rw [if_pos (by simp [IsPair, hm2])]
        · intro j _ hj
          rw [if_neg]
          simp only [IsPair, decide_eq_true_eq, not_or, not_and]
          exact ⟨fun e _ => hm1 e.symm, fun e _ => hj e.symm⟩
        · intro hn
          exact absurd (Finset.mem_filter.mpr ⟨Finset.mem_range.mpr h1, fun e => hm1 e.symm⟩) hn
      · rw [if_neg hm2]
        symm
        apply Finset.sum_eq_zero
        intro j _
        rw [if_neg]
        simp only [IsPair, decide_eq_true_eq, not_or, not_and]
        exact ⟨fun e _ => hm1 e.symm, fun _ e => hm2 e.symm⟩

/-! ## Definedness -/

theorem contents_spec (k : Kind) (o : Old) (adds : List Add) (hl : ∀ a ∈ adds, a.list < 3) (n : ℕ) :
    contents k o adds n = some (added n adds) := by
  cases k with
  | list => exact (C33_verlet_list_partial o.vl adds 0).1 n
  | vecPairs => exact (C33_vec_pairs o.vp adds hl).1 n
  | pairs => exact congrArg some ((C33_pairs o.pp adds hl).1 n)

theorem dolist_defined (F : Force) (c : ℝ) (doPot doVir : Bool) (w : Fin d → Option ℝ) (P : Parts d) (l : List (ℕ × ℕ))
    (hl : ∀ p ∈ l, sep w P p ≠ 0) (a : Acc d) : ∃ b, dolist F c doPot doVir w P l a = some b := by
  induction l generalizing a with
  | nil => exact ⟨a, rfl⟩
  | cons p l ih =>
    have h1 : ∃ b, visit F c doPot doVir w P a p = some b := by
      unfold visit
      simp only
      split_ifs
      · unfold kernel
        rw [if_neg]
        · exact ⟨_, rfl⟩
        · intro h0
          apply hl p (by simp)
          have h1 : len (sep w P p) = 0 := by
            rw [len]
            change dot (sep w P p) (sep w P p) = 0 at h0
            rw [h0, Real.sqrt_zero]
          funext k
          have := abs_le_len (sep w P p) k
          rw [h1] at this
          exact abs_nonpos_iff.mp this
      · exact ⟨_, rfl⟩
    obtain ⟨b, hb⟩ := h1
    obtain ⟨b', hb'⟩ := ih (fun q hq => hl q (List.mem_cons_of_mem _ hq)) b
    exact ⟨b', by simp only [dolist, List.foldlM_cons]; rw [hb]; exact hb'⟩

theorem interact_defined (F : Force) (c : ℝ) (doPot doVir : Bool) (w : Fin d → Option ℝ) (P : Parts d)
    (plain wrapped : List (ℕ × ℕ)) (f : ℕ → Fin d → ℝ) (h1 : ∀ p ∈ plain, sep (fun _ => none) P p ≠ 0)
    (h2 : ∀ p ∈ wrapped, sep w P p ≠ 0) : ∃ a, interact F c doPot doVir w P plain wrapped f = some a := by
  obtain ⟨b, hb⟩ := dolist_defined F c doPot doVir (fun _ => none) P plain h1 ⟨f, 0, 0⟩
  obtain ⟨b', hb'⟩ := dolist_defined F c doPot doVir w P wrapped h2 b
  exact ⟨b', by unfold interact; rw [hb]; exact hb'⟩

theorem nearest_of_sep (s : Setup d) (hW : ∀ k, (s.g k).per = true → 0 < (s.g k).hi - (s.g k).lo) (P : Parts d) (i j l : ℕ)
    (h0 : sep (if l = 0 then fun _ => none else s.widths) P (i, j) = 0) : nearest s.g (P.x i - P.x j) = 0 := by
  funext k
  have h1 := congrFun h0 k
  simp only [Pi.zero_apply] at h1
  unfold nearest
  by_cases hp : (s.g k).per = true
  · rw [if_pos hp]
    have hw := hW k hp
    have hz : ∃ z : ℤ, (P.x i - P.x j) k = ((s.g k).hi - (s.g k).lo) * z := by
      by_cases hl : l = 0
      · rw [if_pos hl] at h1
        exact ⟨0, by simpa [sep, correct] using h1⟩
      · rw [if_neg hl] at h1
        simp only [sep, correct, Setup.widths, if_pos hp] at h1
        generalize (s.g k).hi - (s.g k).lo = W at *
        generalize (P.x i - P.x j) k = X at *
        split_ifs at h1 with q1 q2
        · exact ⟨1, by rw [abs_of_pos q2] at h1; push_cast; linarith⟩
        · exact ⟨-1, by rw [abs_of_nonpos (not_lt.mp q2)] at h1; push_cast; linarith⟩
        · exact ⟨0, by simpa using h1⟩
    obtain ⟨z, hz⟩ := hz
    rw [hz, mul_div_cancel_left₀ _ hw.ne', round_intCast]
    simp
  · rw [if_neg hp]
    by_cases hl : l = 0
    · rw [if_pos hl] at h1
      simpa [sep, correct] using h1
    · rw [if_neg hl] at h1
      simpa [sep, correct, Setup.widths, hp] using h1

/-- All interactions in turn. -/
theorem fold_one (ps : List ℕ) (one : (ℕ → Fin d → ℝ) → ℕ → Option (Acc d)) (C : ℕ → ℕ → Fin d → ℝ)
    (h : ∀ p ∈ ps, ∀ f, ∃ a, one f p = some a ∧ ∀ m k, a.f m k = f m k + C p m k) (f : ℕ → Fin d → ℝ) :
    ∃ f', ps.foldlM (fun f p => (one f p).map Acc.f) f = some f' ∧
      ∀ m k, f' m k = f m k + (ps.map fun p => C p m k).sum := by
  induction ps generalizing f with
  | nil => exact ⟨f, rfl, by simp⟩
  | cons p ps ih =>
    obtain ⟨a, ha, hC⟩ := h p (by simp) f
    obtain ⟨f', h1, h2⟩ := ih (fun q hq => h q (List.mem_cons_of_mem _ hq)) a.f
    refine ⟨f', ?_, ?_⟩
    · rw [List.foldlM_cons, ha]; exact h1
    · intro m k
      rw [h2, hC, List.map_cons, List.sum_cons]; ring

theorem added_sum (F : ℕ × ℕ → ℝ) (n : ℕ) (l : List (ℕ × ℕ × ℕ)) :
    ((added n (l.map fun v => (⟨v.1, v.2.1, v.2.2⟩ : Add))).map F).sum =
      (l.map fun v => if v.2.2 = n then F (v.1, v.2.1) else 0).sum := by
  induction l with
  | nil => simp [added]
  | cons v l ih =>
    rw [List.map_cons, List.map_cons, List.sum_cons, ← ih]
    by_cases hv : v.2.2 = n
    · simp [added, hv]
    · simp [added, hv]

theorem fold_energy (ps : List ℕ) (one : (ℕ → Fin d → ℝ) → ℕ → Option (Acc d)) (C : ℕ → ℝ)
    (h : ∀ p ∈ ps, ∀ f, ∃ a, one f p = some a ∧ a.pot = C p) (f : ℕ → Fin d → ℝ) (e : ℝ) :
    ∃ st, ps.foldlM (fun (st : (ℕ → Fin d → ℝ) × ℝ) p => (one st.1 p).map fun a => (a.f, st.2 + a.pot)) (f, e) = some st ∧
      st.2 = e + (ps.map C).sum := by
  induction ps generalizing f e with
  | nil => exact ⟨(f, e), rfl, by simp⟩
  | cons p ps ih =>
    obtain ⟨a, ha, hC⟩ := h p (by simp) f
    obtain ⟨st, h1, h2⟩ := ih (fun q hq => h q (List.mem_cons_of_mem _ hq)) a.f (e + a.pot)
    refine ⟨st, ?_, ?_⟩
    · rw [List.foldlM_cons]
      simp only [ha]
      exact h1
    · rw [h2, hC, List.map_cons, List.sum_cons]; ring

theorem pot_swap (F : Force) (P : Parts d) (i j : ℕ) (r : ℝ) : F.pot P i j r = F.pot P j i r := by
  cases F with
  | hardSphere k => simp only [Force.pot]; ring
  | hardSphereDs k g => simp only [Force.pot]; ring
  | lennardJones ε s => simp only [Force.pot, add_comm]
  | coulomb s c t => simp only [Force.pot]
  | buckingham a b c e => simp only [Force.pot, add_comm]
  | hertz kn gn => simp only [Force.pot]

theorem sum_swap (vs : List Visit) (n : ℕ) (G : ℕ → Visit → ℝ) :
    (vs.map fun v => ∑ m ∈ Finset.range n, G m v).sum = ∑ m ∈ Finset.range n, (vs.map (G m)).sum := by
  induction vs with
  | nil => simp
  | cons v vs ih => simp only [List.map_cons, List.sum_cons, ih, Finset.sum_add_distrib]

theorem sum_two {n a b : ℕ} (ha : a < n) (hb : b < n) (hab : a ≠ b) (x y : ℝ) :
    (∑ m ∈ Finset.range n, if m = a then x else if m = b then y else 0) = x + y := by
  have : ∀ m, (if m = a then x else if m = b then y else 0) = (if m = a then x else 0) + if m = b then y else 0 := by
    intro m
    by_cases h1 : m = a
    · rw [if_pos h1, if_pos h1, if_neg (by rw [h1]; exact hab), add_zero]
    · rw [if_neg h1, if_neg h1, zero_add]
  simp only [this, Finset.sum_add_distrib, Finset.sum_ite_eq', Finset.mem_range, if_pos ha, if_pos hb]

/-! ## The theorems -/

section main
variable {s : Setup d} {h : List Call} {T : FM ℝ} {x0 : ℕ → Fin d → ℝ}

/-- Result of one interaction. -/
theorem one_spec (hok : s.OK h x0) (hr : InRange h) (href : AllReflexive h) (hT : run s.cut (.init :: h) = some T)
    {P : Parts d}
    (hsep : ∀ i j, s.Alive i → s.Alive j → i ≠ j → lastSet h (s.type i) (s.type j) ≠ none →
      nearest s.g (P.x i - P.x j) ≠ 0)
    (doPot doVir : Bool) (o : ℕ → Old) {lists : ℕ → List (ℕ × ℕ × ℕ)} {p : ℕ}
    (hl : lists p = ((s.sys T x0).traverse.map fun v => (v.id1, v.id2, v.list)).filter fun v =>
      decide (lastSet h (s.type v.1) (s.type v.2.1) = some p)) (f : ℕ → Fin d → ℝ) :
    ∃ a, s.one doPot doVir o lists P f p = some a ∧
      (∀ m k, a.f m k = f m k + ((lists p).map fun v =>
        pairForce (s.force p) (s.cut p) (if v.2.2 = 0 then fun _ => none else s.widths) P m k (v.1, v.2.1)).sum) ∧
      a.pot = if doPot then ((lists p).map fun v =>
        pairPot (s.force p) (s.cut p) (if v.2.2 = 0 then fun _ => none else s.widths) P (v.1, v.2.1)).sum else 0 := by
  have hS := sys_ok hok hr href hT
  have hmem : ∀ v ∈ lists p, s.Alive v.1 ∧ s.Alive v.2.1 ∧ v.1 ≠ v.2.1 ∧ (v.2.2 = 0 ∨ v.2.2 = 1) ∧
      lastSet h (s.type v.1) (s.type v.2.1) = some p := by
    intro v hv
    rw [hl, List.mem_filter] at hv
    obtain ⟨hv, hp⟩ := hv
    obtain ⟨w, hw, rfl⟩ := List.mem_map.mp hv
    obtain ⟨l1, l2, l3⟩ := mem_traverse hS hw
    refine ⟨live_alive l1, live_alive l2, l3, ?_, by simpa using hp⟩
    rcases traverse_lists hS hw with h1 | h1
    · exact Or.inl h1.1
    · exact Or.inr h1
  have hadds : ∀ a ∈ (lists p).map (fun v => (⟨v.1, v.2.1, v.2.2⟩ : Add)), a.list < 3 := by
    intro a ha
    obtain ⟨v, hv, rfl⟩ := List.mem_map.mp ha
    rcases (hmem v hv).2.2.2.1 with h1 | h1 <;> simp [h1]
  have hW : ∀ k, (s.g k).per = true → 0 < (s.g k).hi - (s.g k).lo := fun k _ => sub_pos.mpr (hok.valid k).lohi
  have hnz : ∀ n, ∀ q ∈ added n ((lists p).map fun v => (⟨v.1, v.2.1, v.2.2⟩ : Add)),
      sep (if n = 0 then fun _ => none else s.widths) P q ≠ 0 := by
    intro n q hq hz
    unfold added at hq
    obtain ⟨a, ha, rfl⟩ := List.mem_map.mp hq
    obtain ⟨ha, hn⟩ := List.mem_filter.mp ha
    obtain ⟨v, hv, rfl⟩ := List.mem_map.mp ha
    obtain ⟨m1, m2, m3, _, m5⟩ := hmem v hv
    exact hsep v.1 v.2.1 m1 m2 m3 (by rw [m5]; simp) (nearest_of_sep s hW P v.1 v.2.1 n hz)
  obtain ⟨a, ha⟩ := interact_defined (s.force p) (s.cut p) doPot doVir s.widths P
    (added 0 ((lists p).map fun v => (⟨v.1, v.2.1, v.2.2⟩ : Add)))
    (added 1 ((lists p).map fun v => (⟨v.1, v.2.1, v.2.2⟩ : Add))) f (hnz 0) (hnz 1)
  obtain ⟨s1, s2⟩ := C34_superposition _ _ _ _ _ _ _ _ _ _ ha
  have split : ∀ (F : (Fin d → Option ℝ) → ℕ × ℕ → ℝ),
      ((added 0 ((lists p).map fun v => (⟨v.1, v.2.1, v.2.2⟩ : Add))).map (F fun _ => none)).sum +
      ((added 1 ((lists p).map fun v => (⟨v.1, v.2.1, v.2.2⟩ : Add))).map (F s.widths)).sum =
      ((lists p).map fun v => F (if v.2.2 = 0 then fun _ => none else s.widths) (v.1, v.2.1)).sum := by
    intro F
    rw [added_sum, added_sum, ← List.sum_map_add]
    congr 1
    apply List.map_congr_left
    intro v hv
    rcases (hmem v hv).2.2.2.1 with h1 | h1 <;> simp [h1]
  refine ⟨a, ?_, ?_, ?_⟩
  · unfold Setup.one
    simp only [contents_spec _ _ _ hadds, Option.bind_some]
    exact ha
  · intro m k
    rw [s1, add_assoc]
    congr 1
    exact split fun w q => pairForce (s.force p) (s.cut p) w P m k q
  · rw [s2]
    split_ifs
    · exact split fun w q => pairPot (s.force p) (s.cut p) w P q
    · rfl

/-- The lists of a construction. -/
theorem lists_spec (hok : s.OK h x0) (hr : InRange h) (href : AllReflexive h) (hT : run s.cut (.init :: h) = some T) :
    ∃ lists, s.lists T x0 = some lists ∧ ∀ p, lists p = ((s.sys T x0).traverse.map fun v => (v.id1, v.id2, v.list)).filter
      fun v => decide (lastSet h (s.type v.1) (s.type v.2.1) = some p) := by
  have hS := sys_ok hok hr href hT
  obtain ⟨T', e, lists, e1, e2⟩ := C66_routing_partial s.cut (.init :: h) hr s.type
    ((s.sys T x0).traverse.map fun v => (v.id1, v.id2, v.list)) (by
      intro v hv
      obtain ⟨w, hw, rfl⟩ := List.mem_map.mp hv
      obtain ⟨l1, l2, _⟩ := mem_traverse hS hw
      exact ⟨⟨l1.2.1, hok.types _ (live_alive l1)⟩, l2.2.1, hok.types _ (live_alive l2)⟩)
  rw [hT] at e
  cases e
  exact ⟨lists, e1, e2⟩

/-- The registered interactions. -/
theorem inter_spec (hr : InRange h) (hT : run s.cut (.init :: h) = some T) :
    T.inter.Nodup ∧ ∀ a b : ℤ, (0 ≤ a ∧ a < typesOf h) → (0 ≤ b ∧ b < typesOf h) → ∀ p, lastSet h a b = some p → p ∈ T.inter := by
  obtain ⟨T', e, _, h2, _, h4, h5⟩ := C31_table s.cut (.init :: h) hr
  rw [hT] at e
  cases e
  refine ⟨h4, fun a b ha hb p hp => h5 a b p ?_⟩
  rw [h2, if_pos ⟨ha.1, ha.2, hb.1, hb.2⟩]
  exact congrArg some hp

open Classical in
/-- Sum over the visits of contributions to the particle `m` that vanish from the cutoff on. -/
theorem sum_visits (hok : s.OK h x0) (hr : InRange h) (href : AllReflexive h) (hT : run s.cut (.init :: h) = some T)
    {P : Parts d} (hrd : P.rd = s.rd) (hmove : ∀ i, s.Alive i → len (P.x i - x0 i) ≤ s.skin / 2)
    (hcell : ∀ i j, s.Alive i → s.Alive j → i ≠ j → ∀ p, lastSet h (s.type i) (s.type j) = some p →
      s.cut p ≤ 1 ∨ s.cell (x0 i) ≠ s.cell (x0 j)) (m : ℕ) (D : ℕ → ℝ)
    (hD : ∀ j, D j ≠ 0 → ∃ p, lastSet h (s.type m) (s.type j) = some p ∧
      len (nearest s.g (P.x m - P.x j)) < (P.rd m + P.rd j) * s.cut p) :
    (((s.sys T x0).traverse).map fun v => if m = v.id1 then D v.id2 else if m = v.id2 then D v.id1 else 0).sum =
      if s.Alive m then ∑ j ∈ (Finset.range s.number).filter (fun j => j ≠ m ∧ 0 ≤ s.type j), D j else 0 := by
  have hS := sys_ok hok hr href hT
  have al : ∀ v ∈ (s.sys T x0).traverse, s.Alive v.id1 ∧ s.Alive v.id2 ∧ v.id1 ≠ v.id2 := fun v hv =>
    ⟨live_alive (mem_traverse hS hv).1, live_alive (mem_traverse hS hv).2.1, (mem_traverse hS hv).2.2⟩
  rw [sum_partners m s.number D _
    (fun v hv => ⟨(al v hv).1.1, (al v hv).2.1.1, (al v hv).2.2⟩)]
  by_cases hm : s.Alive m
  · rw [if_pos hm]
    rw [Finset.sum_filter, Finset.sum_filter]
    refine Finset.sum_congr rfl fun j hj => ?_
    have hjn := Finset.mem_range.mp hj
    by_cases hjm : j ≠ m
    · rw [if_pos hjm]
      by_cases hjt : 0 ≤ s.type j
      · rw [if_pos ⟨hjm, hjt⟩]
        by_cases hd : D j = 0
        · rw [hd, mul_zero]
        · have hcount : (s.sys T x0).traverse.countP (IsPair m j) = 1 := by
            obtain ⟨p, hp, hlen⟩ := hD j hd
            apply in_reach_listed hok hr href hT hrd hmove hm ⟨hjn, hjt⟩ (Ne.symm hjm) hp
              (hcell m j hm ⟨hjn, hjt⟩ (Ne.symm hjm) p hp)
            rw [← hrd]; exact hlen
          rw [hcount]; simp
      · rw [if_neg (fun e => hjt e.2)]
        have : (s.sys T x0).traverse.countP (IsPair m j) = 0 := by
          rw [List.countP_eq_zero]
          intro v hv hpair
          obtain ⟨a1, a2, _⟩ := al v hv
          simp only [IsPair, decide_eq_true_eq] at hpair
          rcases hpair with ⟨_, rfl⟩ | ⟨rfl, _⟩
          · exact hjt a2.2
          · exact hjt a1.2
        rw [this]; simp
    · rw [if_neg hjm, if_neg (fun e => hjm e.1)]
  · rw [if_neg hm]
    apply Finset.sum_eq_zero
    intro j _
    have : (s.sys T x0).traverse.countP (IsPair m j) = 0 := by
      rw [List.countP_eq_zero]
      intro v hv hpair
      obtain ⟨a1, a2, _⟩ := al v hv
      simp only [IsPair, decide_eq_true_eq] at hpair
      rcases hpair with ⟨rfl, _⟩ | ⟨_, rfl⟩
      · exact hm a1
      · exact hm a2
    rw [this]; simp

open Classical in
/-- **C128 (partial).** Neighbour lists built from the positions `x0`; afterwards no particle has moved by more than half of the
skin depth. Then for all systems, all histories of the table, all six force laws, all containers with any old contents: the
construction succeeds, the calculation of forces is defined as long as interacting particles do not coincide, and the force added
to each particle is the sum, over *all* other particles, of the force of the interaction set last for their types, towards the
nearest image.
Missing: pairs in one cell with cutoff above 1, large particles, grids with an incomplete stencil, few cells (false of the code,
see C27 and C28); that no particle moves further is false of the code as well (C29). -/
theorem C128_forces_partial (s : Setup d) (h : List Call) (hr : InRange h) (href : AllReflexive h) (T : FM ℝ)
    (hT : run s.cut (.init :: h) = some T) (x0 : ℕ → Fin d → ℝ) (hok : s.OK h x0) (P : Parts d) (hrd : P.rd = s.rd)
    (hmove : ∀ i, s.Alive i → len (P.x i - x0 i) ≤ s.skin / 2)
    (hcell : ∀ i j, s.Alive i → s.Alive j → i ≠ j → ∀ p, lastSet h (s.type i) (s.type j) = some p →
      s.cut p ≤ 1 ∨ s.cell (x0 i) ≠ s.cell (x0 j))
    (hsep : ∀ i j, s.Alive i → s.Alive j → i ≠ j → lastSet h (s.type i) (s.type j) ≠ none →
      nearest s.g (P.x i - P.x j) ≠ 0)
    (doPot doVir : Bool) (o : ℕ → Old) (f : ℕ → Fin d → ℝ) :
    ∃ lists f', s.lists T x0 = some lists ∧ s.forces T doPot doVir o lists P f = some f' ∧
      ∀ m k, f' m k = f m k + if s.Alive m then
        ∑ j ∈ (Finset.range s.number).filter (fun j => j ≠ m ∧ 0 ≤ s.type j), s.direct h P m j k else 0 := by
  have hS := sys_ok hok hr href hT
  obtain ⟨lists, e1, e2⟩ := lists_spec hok hr href hT
  obtain ⟨i1, i2⟩ := inter_spec hr hT
  have hfold := fold_one T.inter (fun (f : ℕ → Fin d → ℝ) p => s.one doPot doVir o lists P f p)
    (fun p m k => ((lists p).map fun v : ℕ × ℕ × ℕ =>
        pairForce (s.force p) (s.cut p) (if v.2.2 = 0 then fun _ => none else s.widths) P m k (v.1, v.2.1)).sum)
    (by
      intro p _ f
      obtain ⟨a, h1, h2, _⟩ := one_spec hok hr href hT hsep doPot doVir o (e2 p) f
      exact ⟨a, h1, h2⟩) f
  obtain ⟨f', e3, e4⟩ := hfold
  refine ⟨lists, f', e1, e3, ?_⟩
  intro m k
  rw [e4]
  congr 1
  have al : ∀ v ∈ (s.sys T x0).traverse, s.Alive v.id1 ∧ s.Alive v.id2 ∧ v.id1 ≠ v.id2 := fun v hv =>
    ⟨live_alive (mem_traverse hS hv).1, live_alive (mem_traverse hS hv).2.1, (mem_traverse hS hv).2.2⟩
  have hroute := sum_routed T.inter i1 (fun v : ℕ × ℕ × ℕ => lastSet h (s.type v.1) (s.type v.2.1))
    (fun p v => pairForce (s.force p) (s.cut p) (if v.2.2 = 0 then fun _ => none else s.widths) P m k (v.1, v.2.1))
    ((s.sys T x0).traverse.map fun v => (v.id1, v.id2, v.list)) (by
      intro v hv p hp
      obtain ⟨w, hw, rfl⟩ := List.mem_map.mp hv
      obtain ⟨a1, a2, _⟩ := al w hw
      exact i2 _ _ ⟨a1.2, hok.types _ a1⟩ ⟨a2.2, hok.types _ a2⟩ p hp)
  simp only [e2]
  rw [hroute, List.map_map]
  have hpoint : ∀ v ∈ (s.sys T x0).traverse,
      ((fun v : ℕ × ℕ × ℕ => match lastSet h (s.type v.1) (s.type v.2.1) with
        | none => 0
        | some p => pairForce (s.force p) (s.cut p) (if v.2.2 = 0 then fun _ => none else s.widths) P m k (v.1, v.2.1)) ∘
        fun v : Visit => (v.id1, v.id2, v.list)) v =
      if m = v.id1 then s.direct h P m v.id2 k else if m = v.id2 then s.direct h P m v.id1 k else 0 := by
    intro v hv
    obtain ⟨a1, a2, hne⟩ := al v hv
    simp only [Function.comp_apply]
    cases hp : lastSet h (s.type v.id1) (s.type v.id2) with
    | none =>
      have hp' : lastSet h (s.type v.id2) (s.type v.id1) = none := by rw [lastSet_symm href]; exact hp
      simp only
      split_ifs with q1 q2
      · subst q1; simp only [Setup.direct, hp]
      · subst q2; simp only [Setup.direct, hp']
      · rfl
    | some p =>
      have R0 := (reach_le hok a1 a2 href hp).1
      have hp' : lastSet h (s.type v.id2) (s.type v.id1) = some p := by rw [lastSet_symm href]; exact hp
      have hx := listed_exact hok hr href hT hrd hmove hv hp (Or.inl ⟨rfl, rfl⟩)
        (fun Y => pushed (s.force p) (s.cut p) P v.id1 v.id2 Y k) (fun Y hY => pushed_far hY)
      have hx' := listed_exact hok hr href hT hrd hmove hv hp (Or.inr ⟨rfl, rfl⟩)
        (fun Y => pushed (s.force p) (s.cut p) P v.id2 v.id1 Y k) (fun Y hY => pushed_far hY)
      have d1 : s.direct h P v.id1 v.id2 k =
          pushed (s.force p) (s.cut p) P v.id1 v.id2 (nearest s.g (P.x v.id1 - P.x v.id2)) k := by
        simp only [Setup.direct, hp]
      have d2 : s.direct h P v.id2 v.id1 k =
          pushed (s.force p) (s.cut p) P v.id2 v.id1 (nearest s.g (P.x v.id2 - P.x v.id1)) k := by
        simp only [Setup.direct, hp']
      rw [← d1] at hx
      rw [← d2] at hx'
      simp only
      rw [pairForce_eq _ _ _ _ _ _ _ (by rw [hrd]; exact R0)]
      by_cases q1 : m = v.id1
      · rw [if_pos q1, if_pos q1, if_neg (by rw [q1]; exact hne), q1, hx]; ring
      · rw [if_neg q1, if_neg q1]
        by_cases q2 : m = v.id2
        · rw [if_pos q2, if_pos q2, q2, ← hx', zero_sub, neg_one_mul, ← pushed_swap,
            ← sep_swap _ _ P v.id1 v.id2]
          intro k w hw
          by_cases hl : v.list = 0
          · rw [if_pos hl] at hw; cases hw
          · rw [if_neg hl] at hw
            unfold Setup.widths at hw
            split_ifs at hw with hper
            cases hw
            exact (sub_pos.mpr (hok.valid k).lohi).le
        · rw [if_neg q2, if_neg q2]; ring
  rw [List.map_congr_left hpoint]
  refine sum_visits hok hr href hT hrd hmove hcell m (fun j => s.direct h P m j k) fun j hj => ?_
  unfold Setup.direct at hj
  cases hp : lastSet h (s.type m) (s.type j) with
  | none => simp [hp] at hj
  | some p =>
    simp only [hp] at hj
    refine ⟨p, rfl, ?_⟩
    by_contra hlen
    exact hj (pushed_far (not_lt.mp hlen))

open Classical in
/-- **C128 (partial).** The potential energy that the force master reports after the calculation of forces is half of the sum
over all ordered pairs of different particles, that is, every pair counts once, with the energy of the interaction set last for
the types, at the distance of the nearest image; it is 0 when the calculation of energies is off.
Missing: as for `C128_forces_partial`. -/
theorem C128_energy_partial (s : Setup d) (h : List Call) (hr : InRange h) (href : AllReflexive h) (T : FM ℝ)
    (hT : run s.cut (.init :: h) = some T) (x0 : ℕ → Fin d → ℝ) (hok : s.OK h x0) (P : Parts d) (hrd : P.rd = s.rd)
    (hmove : ∀ i, s.Alive i → len (P.x i - x0 i) ≤ s.skin / 2)
    (hcell : ∀ i j, s.Alive i → s.Alive j → i ≠ j → ∀ p, lastSet h (s.type i) (s.type j) = some p →
      s.cut p ≤ 1 ∨ s.cell (x0 i) ≠ s.cell (x0 j))
    (hsep : ∀ i j, s.Alive i → s.Alive j → i ≠ j → lastSet h (s.type i) (s.type j) ≠ none →
      nearest s.g (P.x i - P.x j) ≠ 0)
    (doPot doVir : Bool) (o : ℕ → Old) (f : ℕ → Fin d → ℝ) :
    ∃ lists, s.lists T x0 = some lists ∧ s.energy T doPot doVir o lists P f = some (if doPot then
      1 / 2 * ∑ i ∈ (Finset.range s.number).filter (fun i => 0 ≤ s.type i),
        ∑ j ∈ (Finset.range s.number).filter (fun j => j ≠ i ∧ 0 ≤ s.type j), s.directPot h P i j else 0) := by
  have hS := sys_ok hok hr href hT
  obtain ⟨lists, e1, e2⟩ := lists_spec hok hr href hT
  obtain ⟨i1, i2⟩ := inter_spec hr hT
  have hfold := fold_energy T.inter (fun (f : ℕ → Fin d → ℝ) p => s.one doPot doVir o lists P f p)
    (fun p => if doPot then ((lists p).map fun v : ℕ × ℕ × ℕ =>
        pairPot (s.force p) (s.cut p) (if v.2.2 = 0 then fun _ => none else s.widths) P (v.1, v.2.1)).sum else 0)
    (by
      intro p _ f
      obtain ⟨a, h1, _, h2⟩ := one_spec hok hr href hT hsep doPot doVir o (e2 p) f
      exact ⟨a, h1, h2⟩) f 0
  obtain ⟨st, e3, e4⟩ := hfold
  refine ⟨lists, e1, ?_⟩
  unfold Setup.energy
  rw [e3, Option.map_some, e4, zero_add]
  congr 1
  cases doPot with
  | false => simp
  | true =>
  simp only [if_true]
  have al : ∀ v ∈ (s.sys T x0).traverse, s.Alive v.id1 ∧ s.Alive v.id2 ∧ v.id1 ≠ v.id2 := fun v hv =>
    ⟨live_alive (mem_traverse hS hv).1, live_alive (mem_traverse hS hv).2.1, (mem_traverse hS hv).2.2⟩
  have hroute := sum_routed T.inter i1 (fun v : ℕ × ℕ × ℕ => lastSet h (s.type v.1) (s.type v.2.1))
    (fun p v => pairPot (s.force p) (s.cut p) (if v.2.2 = 0 then fun _ => none else s.widths) P (v.1, v.2.1))
    ((s.sys T x0).traverse.map fun v => (v.id1, v.id2, v.list)) (by
      intro v hv p hp
      obtain ⟨w, hw, rfl⟩ := List.mem_map.mp hv
      obtain ⟨a1, a2, _⟩ := al w hw
      exact i2 _ _ ⟨a1.2, hok.types _ a1⟩ ⟨a2.2, hok.types _ a2⟩ p hp)
  simp only [e2]
  rw [hroute, List.map_map]
  have hpoint : ∀ v ∈ (s.sys T x0).traverse,
      ((fun v : ℕ × ℕ × ℕ => match lastSet h (s.type v.1) (s.type v.2.1) with
        | none => 0
        | some p => pairPot (s.force p) (s.cut p) (if v.2.2 = 0 then fun _ => none else s.widths) P (v.1, v.2.1)) ∘
        fun v : Visit => (v.id1, v.id2, v.list)) v =
      1 / 2 * ∑ m ∈ Finset.range s.number,
        if m = v.id1 then s.directPot h P m v.id2 else if m = v.id2 then s.directPot h P m v.id1 else 0 := by
    intro v hv
    obtain ⟨a1, a2, hne⟩ := al v hv
    have e : ∀ m, (if m = v.id1 then s.directPot h P m v.id2 else if m = v.id2 then s.directPot h P m v.id1 else 0) =
        if m = v.id1 then s.directPot h P v.id1 v.id2 else if m = v.id2 then s.directPot h P v.id2 v.id1 else 0 := by
      intro m
      split_ifs with q1 q2
      · rw [q1]
      · rw [q2]
      · rfl
    rw [Finset.sum_congr rfl fun m _ => e m, sum_two a1.1 a2.1 hne]
    simp only [Function.comp_apply]
    cases hp : lastSet h (s.type v.id1) (s.type v.id2) with
    | none =>
      have hp' : lastSet h (s.type v.id2) (s.type v.id1) = none := by rw [lastSet_symm href]; exact hp
      simp only [Setup.directPot, hp, hp']; ring
    | some p =>
      have hp' : lastSet h (s.type v.id2) (s.type v.id1) = some p := by rw [lastSet_symm href]; exact hp
      obtain ⟨R0, _⟩ := reach_le hok a1 a2 href hp
      rw [← hrd] at R0
      have hx := listed_exact hok hr href hT hrd hmove hv hp (Or.inl ⟨rfl, rfl⟩)
        (fun Y => if len Y < (P.rd v.id1 + P.rd v.id2) * s.cut p then (s.force p).pot P v.id1 v.id2 (len Y) else 0)
        (fun Y hY => if_neg (not_lt.mpr hY))
      have hx' := listed_exact hok hr href hT hrd hmove hv hp (Or.inr ⟨rfl, rfl⟩)
        (fun Y => if len Y < (P.rd v.id2 + P.rd v.id1) * s.cut p then (s.force p).pot P v.id2 v.id1 (len Y) else 0)
        (fun Y hY => if_neg (not_lt.mpr hY))
      simp only [Setup.directPot, hp, hp']
      rw [← hx, ← hx', sep_swap _ _ P v.id1 v.id2, len_neg, add_comm (P.rd v.id2), pot_swap _ _ v.id2]
      · unfold pairPot
        have hlt : len (sep (if v.list = 0 then fun _ => none else s.widths) P (v.id1, v.id2)) ^ 2 <
            ((P.rd v.id1 + P.rd v.id2) * s.cut p) ^ 2 ↔
            len (sep (if v.list = 0 then fun _ => none else s.widths) P (v.id1, v.id2)) <
              (P.rd v.id1 + P.rd v.id2) * s.cut p := by
          constructor
          · intro h; exact lt_of_pow_lt_pow_left₀ 2 R0 h
          · intro h; exact pow_lt_pow_left₀ h (len_nonneg _) (by norm_num)
        simp only [hlt]
        ring
      · intro k w hw
        by_cases hl : v.list = 0
        · rw [if_pos hl] at hw; cases hw
        · rw [if_neg hl] at hw
          unfold Setup.widths at hw
          split_ifs at hw with hper
          cases hw
          exact (sub_pos.mpr (hok.valid k).lohi).le
  rw [List.map_congr_left hpoint, List.sum_map_mul_left, sum_swap]
  congr 1
  rw [Finset.sum_filter]
  refine Finset.sum_congr rfl fun m hm => ?_
  rw [sum_visits hok hr href hT hrd hmove hcell m (fun j => s.directPot h P m j)]
  · have : s.Alive m ↔ 0 ≤ s.type m := ⟨fun e => e.2, fun e => ⟨Finset.mem_range.mp hm, e⟩⟩
    simp only [this]
  · intro j hj
    unfold Setup.directPot at hj
    cases hp : lastSet h (s.type m) (s.type j) with
    | none => simp [hp] at hj
    | some p =>
      simp only [hp] at hj
      refine ⟨p, rfl, ?_⟩
      by_contra hlen
      exact hj (if_neg hlen)

/-- **C128 (partial).** Rebuilding the neighbour lists does not change the dynamics: lists built at two different times, both
still valid, held in containers of any class with any old contents, give the same forces.
Missing: as for `C128_forces_partial`. -/
theorem C128_rebuild_partial (s s' : Setup d) (hs : s' = { s with kind := s'.kind }) (h : List Call) (hr : InRange h)
    (href : AllReflexive h) (T : FM ℝ) (hT : run s.cut (.init :: h) = some T) (x0 x1 : ℕ → Fin d → ℝ) (hok : s.OK h x0)
    (hok' : s.OK h x1) (P : Parts d) (hrd : P.rd = s.rd)
    (hmove : ∀ i, s.Alive i → len (P.x i - x0 i) ≤ s.skin / 2) (hmove' : ∀ i, s.Alive i → len (P.x i - x1 i) ≤ s.skin / 2)
    (hcut : ∀ p, s.cut p ≤ 1)
    (hsep : ∀ i j, s.Alive i → s.Alive j → i ≠ j → lastSet h (s.type i) (s.type j) ≠ none →
      nearest s.g (P.x i - P.x j) ≠ 0)
    (doPot doVir : Bool) (o o' : ℕ → Old) (f : ℕ → Fin d → ℝ) :
    ∃ lists lists' f', s.lists T x0 = some lists ∧ s'.lists T x1 = some lists' ∧
      s.forces T doPot doVir o lists P f = some f' ∧ s'.forces T doPot doVir o' lists' P f = some f' := by
  obtain ⟨l, f1, a1, a2, a3⟩ := C128_forces_partial s h hr href T hT x0 hok P hrd hmove
    (fun _ _ _ _ _ p _ => Or.inl (hcut p)) hsep doPot doVir o f
  have hok2 : s'.OK h x1 := by rw [hs]; exact ⟨hok'.valid, hok'.wide, hok'.stencil, hok'.cutoff_pos, hok'.skin_nonneg,
    hok'.pos, hok'.rd_nonneg, hok'.types, hok'.cut_nonneg, hok'.small_one, hok'.small⟩
  obtain ⟨l', f2, b1, b2, b3⟩ := C128_forces_partial s' h hr href T (by rw [hs]; exact hT) x1 hok2 P (by rw [hs]; exact hrd)
    (by rw [hs]; exact hmove') (fun _ _ _ _ _ p _ => Or.inl (by rw [hs]; exact hcut p)) (by rw [hs]; exact hsep)
    doPot doVir o' f
  have : f1 = f2 := by
    funext m k
    rw [a3, b3, hs]
    rfl
  subst this
  exact ⟨l, l', f1, a1, b1, a2, b2⟩

end main

/-! ## A concrete system -/

/-- A ring of length 24/5 with 8 cells; particle 1 has type 1, the others type 0; hard spheres of radius 1/10; all interactions
have cutoff 1 and live in one of the three classes of containers. -/
noncomputable def ring : Setup 1 :=
  { g := fun _ => ⟨0, 24/5, 8, 3/5, true⟩, number := 3, type := fun i => if i = 1 then 1 else 0, rd := fun _ => 1/10
    mss := 1025/10000, skin := 1/20, cut := fun _ => 1, force := fun _ => .hardSphere 10
    kind := fun p => if p = 3 then .list else .vecPairs }

/-- Types 0 and 1 interact, and so do particles of type 0. -/
def ringHist : List Call := [.set 0 1 (some 3) true, .set 0 0 (some 5) true, .setNTypes 2]

/-- The positions at the construction: particles 0 and 1 are close across the boundary. -/
noncomputable def ringStart : ℕ → Fin 1 → ℝ := fun i _ => if i = 0 then 1/100 else if i = 1 then 475/100 else 2

/-- Later positions. -/
noncomputable def ringParts : Parts 1 :=
  { x := fun i _ => if i = 0 then 2/100 else if i = 1 then 475/100 else 2
    v := fun _ _ => 1, rd := fun _ => 1/10, im := fun _ => 1 }

theorem len_one (Y : Fin 1 → ℝ) : len Y = |Y 0| := by
  simp [len, dot, Real.sqrt_mul_self_eq_abs]

theorem ring_alive {i : ℕ} (h : ring.Alive i) : i = 0 ∨ i = 1 ∨ i = 2 := by
  have := h.1
  simp only [ring] at this
  omega

theorem ring_round : round ((-473/100 : ℝ) / (24/5 - 0)) = -1 := by
  rw [round_eq, Int.floor_eq_iff]; norm_num

theorem ring_ok : ring.OK ringHist ringStart := by
  have hc : (0 : ℝ) < 2 * (1025/10000) + 1/20 := by norm_num
  refine ⟨?_, ?_, ?_, hc, by norm_num [ring], ?_, ?_, ?_, ?_, ?_, ?_⟩
  · intro k; exact ⟨by norm_num [ring], by norm_num [ring], by norm_num [ring], by norm_num [ring]⟩
  · intro k _
    have : sweepOf (2 * (1025/10000 : ℝ) + 1/20) (3/5) ≤ 1 := by
      unfold sweepOf
      have : ⌈(2 * (1025/10000 : ℝ) + 1/20) / (3/5)⌉ ≤ 1 := by
        rw [Int.ceil_le]; norm_num
      omega
    simp only [ring]
    omega
  · have : (List.ofFn fun k => (ring.g k).gax) = [(ring.g 0).gax] := by simp
    rw [this]
    exact C27_complete_one_dimension hc _ (by norm_num [ring, DAx.gax])
  · intro i h k _
    rcases ring_alive h with rfl | rfl | rfl <;> norm_num [ring, ringStart]
  · intro i _; norm_num [ring]
  · intro i h
    rcases ring_alive h with rfl | rfl | rfl <;> simp [ring, ringHist, typesOf]
  · intro p; norm_num [ring]
  · intro i _; norm_num [ring]
  · intro i _ p _; norm_num [ring]

/-- The system meets the hypotheses of `C128_forces_partial` and `C128_energy_partial`, and the pair across the boundary
interacts. -/
example : InRange ringHist ∧ AllReflexive ringHist ∧ (∃ T, run ring.cut (.init :: ringHist) = some T) ∧
    ring.OK ringHist ringStart ∧ ringParts.rd = ring.rd ∧
    (∀ i, ring.Alive i → len (ringParts.x i - ringStart i) ≤ ring.skin / 2) ∧
    (∀ p, ring.cut p ≤ 1) ∧
    (∀ i j, ring.Alive i → ring.Alive j → i ≠ j → lastSet ringHist (ring.type i) (ring.type j) ≠ none →
      nearest ring.g (ringParts.x i - ringParts.x j) ≠ 0) ∧
    ring.Alive 0 ∧ ring.Alive 1 ∧ ring.direct ringHist ringParts 0 1 0 ≠ 0 := by
  have hr : InRange ringHist := by simp [ringHist, InRange, typesOf]
  refine ⟨hr, by simp [ringHist, AllReflexive], ?_, ?_, rfl, ?_, fun p => le_rfl, ?_, ⟨by norm_num [ring], by simp [ring]⟩,
    ⟨by norm_num [ring], by simp [ring]⟩, ?_⟩
  · obtain ⟨T, e, _⟩ := C31_table ring.cut (.init :: ringHist) hr
    exact ⟨T, e⟩
  · exact ring_ok
  · intro i h
    rw [len_one]
    rcases ring_alive h with rfl | rfl | rfl <;> norm_num [ring, ringStart, ringParts]
  · have key : ∀ x : ℝ, x = -473/100 ∨ x = 473/100 ∨ |x| < 12/5 ∧ x ≠ 0 ∨ 12/5 < |x| ∧ |x| < 24/5 →
        x - (24/5 - 0) * round (x / (24/5 - 0)) ≠ 0 := by
      intro x hx h0
      have h1 : x = 24/5 * (round (x / (24/5 - 0)) : ℝ) := by linarith
      generalize round (x / (24/5 - 0)) = z at h1
      have h2 : |x| = 24/5 * |(z : ℝ)| := by rw [h1, abs_mul]; norm_num
      by_cases hz : z = 0
      · subst hz
        simp only [Int.cast_zero, mul_zero] at h1
        rcases hx with h | h | h | h
        · rw [h1] at h; norm_num at h
        · rw [h1] at h; norm_num at h
        · exact h.2 h1
        · rw [h1] at h; norm_num at h
      · have h3 : (1 : ℝ) ≤ |(z : ℝ)| := by exact_mod_cast Int.one_le_abs hz
        have h4 : (24/5 : ℝ) ≤ |x| := by rw [h2]; linarith
        rcases hx with h | h | h | h
        · rw [h] at h4; rw [abs_of_neg (by norm_num)] at h4; norm_num at h4
        · rw [h] at h4; rw [abs_of_pos (by norm_num)] at h4; norm_num at h4
        · linarith [h.1]
        · linarith [h.2]
    intro i j h1 h2 hij _ h0
    have := congrFun h0 0
    simp only [nearest, ring, Pi.sub_apply, Pi.zero_apply, if_true] at this
    refine key _ ?_ this
    rcases ring_alive h1 with rfl | rfl | rfl <;> rcases ring_alive h2 with rfl | rfl | rfl <;>
      first
      | exact absurd rfl hij
      | (left; norm_num [ringParts]; done)
      | (right; left; norm_num [ringParts]; done)
      | (right; right; left; norm_num [ringParts, abs_lt]; done)
      | (right; right; right; norm_num [ringParts, abs_lt, lt_abs]; done)
  · have hl : lastSet ringHist (ring.type 0) (ring.type 1) = some 3 := by simp [ring, ringHist, lastSet]
    have hn : nearest ring.g (ringParts.x 0 - ringParts.x 1) = fun _ => 7/100 := by
      funext k
      simp only [nearest, ring, ringParts, Pi.sub_apply, if_true]
      norm_num
    simp only [Setup.direct, hl, hn, pushed, len_one]
    norm_num [ring, ringParts, Force.mag]

end Verif.ForceSum
