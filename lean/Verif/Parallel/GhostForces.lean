import Verif.Forces.PairForces

/-!
# Forces and energy of a parallel run (C151)

Every processor holds its own particles and copies of some particles of the others, the ghosts. `forceMaster->interact()` runs
the lists of pairs of its own particles, `forceMaster->interact_ghosts()` the lists of pairs of a ghost and an own particle
(`gflow.cpp:190-194`). The kernels are those of `Verif.Forces.PairForces`; the lists are compared with what they should contain
in C149, the ghosts with the particles in C143.

* the forces on all particles are those of one processor holding everything, in fact the direct sums over all other particles;
* the energy and the virial are not: `potential_factor` is set to one half for the ghosts and is read nowhere, so pairs of
  particles on different processors are counted by both.
-/

namespace Verif.GhostForces
open Finset Verif.PairForces

variable {d : ℕ}

/-! ## Model -/

/-- The arrays of a processor. The code has two arrays of each kind, for own particles and for ghosts
(`X<0>`, `X<1>`, ...); here they are one, with the own particle `i` at `2*i` and the ghost `g` at `2*g+1`. `plain`, `wrapped`
and `ghost` hold, for each interaction, the three lists of pairs (`interactions/generic-handlers.hpp:213-217,321-323`; by C33 the
containers hold the same pairs); in `ghost` the first entry is a ghost, the second an own particle. -/
structure Lists where
  F : Force
  cutoff : ℝ
  plain : List (ℕ × ℕ)
  wrapped : List (ℕ × ℕ)
  ghost : List (ℕ × ℕ)

/-- A pair of own particles: `dolist<…, 0>` reads `X<0>` twice, `interactions/generic-handlers.hpp:327-330`. -/
def ownPair (q : ℕ × ℕ) : ℕ × ℕ := (2 * q.1, 2 * q.2)

/-- A pair of a ghost and an own particle: `dolist<true, 1>` reads `X<1>` and `X<0>`,
`interactions/generic-handlers.hpp:315,327-333`. -/
def ghostPair (q : ℕ × ℕ) : ℕ × ℕ := (2 * q.1 + 1, 2 * q.2)

/-- `ForceMaster::interact`, `base/forcemaster.cpp:39-48`: the interactions one after the other, each with its own energy and
virial, all adding to the same forces. -/
noncomputable def interactAll (doPot doVir : Bool) (w : Fin d → Option ℝ) (P : Parts d) :
    List Lists → (ℕ → Fin d → ℝ) → Option ((ℕ → Fin d → ℝ) × List (ℝ × ℝ))
  | [], f => some (f, [])
  | I :: is, f =>
    (interact I.F I.cutoff doPot doVir w P (I.plain.map ownPair) (I.wrapped.map ownPair) f).bind fun a =>
      (interactAll doPot doVir w P is a.f).map fun r => (r.1, (a.pot, a.vir) :: r.2)

/-- The loop of `ForceMaster::interact_ghosts`, `base/forcemaster.cpp:50-59`, over
`interact_ghosts`, `interactions/generic-handlers.hpp:305-319` (also `80-94`, `197-210`, `414-427`): the ghost list is run with
the correction to the nearest image; energy and virial go on from those of `interact`. (`potential_factor`, set to 0.5 before and
to 1 after, is read by no kernel.) -/
noncomputable def ghostsAll (doPot doVir : Bool) (w : Fin d → Option ℝ) (P : Parts d) :
    List Lists → (ℕ → Fin d → ℝ) → List (ℝ × ℝ) → Option ((ℕ → Fin d → ℝ) × List (ℝ × ℝ))
  | I :: is, f, e :: es =>
    (dolist I.F I.cutoff doPot doVir w P (I.ghost.map ghostPair) ⟨f, e.1, e.2⟩).bind fun a =>
      (ghostsAll doPot doVir w P is a.f es).map fun r => (r.1, (a.pot, a.vir) :: r.2)
  | _, f, es => some (f, es)

/-- The force part of a step, `gflow.cpp:179,190-194`: forces are cleared, `interact`, then `interact_ghosts`, which does
nothing on a single processor (`base/forcemaster.cpp:52`). -/
noncomputable def stepForces (procs : ℕ) (doPot doVir : Bool) (w : Fin d → Option ℝ) (P : Parts d) (is : List Lists) :
    Option ((ℕ → Fin d → ℝ) × List (ℝ × ℝ)) :=
  (interactAll doPot doVir w P is fun _ _ => 0).bind fun r =>
    if procs = 1 then some r else ghostsAll doPot doVir w P is r.1 r.2

/-- `ForceMaster::getTotalPotentialEnergy`, `base/forcemaster.cpp:82-88`. -/
def totalPotential (es : List (ℝ × ℝ)) : ℝ := (es.map Prod.fst).sum

/-- `ForceMaster::getTotalVirial`, `base/forcemaster.cpp:90-96`. -/
def totalVirial (es : List (ℝ × ℝ)) : ℝ := (es.map Prod.snd).sum

/-! ## Specification -/

/-- The whole system: `n` particles, the processor of each, the widths of the wrapping dimensions. -/
structure World (d : ℕ) where
  n : ℕ
  procs : ℕ
  owner : ℕ → ℕ
  w : Fin d → Option ℝ
  G : Parts d

/-- What a processor holds: the particle in each slot, and the arrays. -/
structure Proc (d : ℕ) where
  num : ℕ
  ghosts : ℕ
  own : ℕ → ℕ
  gh : ℕ → ℕ
  P : Parts d

/-- An interaction: its force, the pairs of particles it is for, and its lists on each processor. -/
structure Kind where
  F : Force
  cutoff : ℝ
  uses : ℕ → ℕ → Prop
  plain : ℕ → List (ℕ × ℕ)
  wrapped : ℕ → List (ℕ × ℕ)
  ghost : ℕ → List (ℕ × ℕ)

/-- The lists of an interaction on processor `p`. -/
def Kind.lists (K : Kind) (p : ℕ) : Lists := ⟨K.F, K.cutoff, K.plain p, K.wrapped p, K.ghost p⟩

/-- Spec: particles `a`, `b` interact: the interaction is for them and they are closer than the cutoff. -/
def Near (W : World d) (K : Kind) (a b : ℕ) : Prop :=
  K.uses a b ∧ len (sep W.w W.G (a, b)) ^ 2 < ((W.G.rd a + W.G.rd b) * K.cutoff) ^ 2

/-- Spec: processor `p` holds each of its particles once, and its ghosts are particles of others, with their present data, at
their position or a periodic image of it. -/
structure Holds (W : World d) (p : ℕ) (L : Proc d) : Prop where
  own_lt : ∀ i < L.num, L.own i < W.n ∧ W.owner (L.own i) = p
  own_inj : ∀ i < L.num, ∀ j < L.num, L.own i = L.own j → i = j
  own_data : ∀ i < L.num, L.P.x (2 * i) = W.G.x (L.own i) ∧ L.P.v (2 * i) = W.G.v (L.own i) ∧
    L.P.rd (2 * i) = W.G.rd (L.own i) ∧ L.P.im (2 * i) = W.G.im (L.own i)
  gh_lt : ∀ g < L.ghosts, L.gh g < W.n ∧ W.owner (L.gh g) ≠ p
  gh_data : ∀ g < L.ghosts, L.P.v (2 * g + 1) = W.G.v (L.gh g) ∧
    L.P.rd (2 * g + 1) = W.G.rd (L.gh g) ∧ L.P.im (2 * g + 1) = W.G.im (L.gh g)
  gh_pos : ∀ g < L.ghosts, ∀ k, match W.w k with
    | none => L.P.x (2 * g + 1) k = W.G.x (L.gh g) k
    | some B => (∃ m : ℤ, L.P.x (2 * g + 1) k = W.G.x (L.gh g) k + m * B) ∧
        ∀ i < L.num, |L.P.x (2 * g + 1) k - W.G.x (L.own i) k| ≤ 3 / 2 * B

/-- Spec: an interaction for `a`, `b` is one for `b`, `a`; in wrapping dimensions no two particles are further apart than
3/2 of the box (they may leave it between constructions), and forces reach at most half of it. -/
structure Boxed (W : World d) (K : Kind) : Prop where
  symm : ∀ a b, K.uses a b → K.uses b a
  box : ∀ k B, W.w k = some B → 0 < B ∧ ∀ a < W.n, ∀ b < W.n, |W.G.x a k - W.G.x b k| ≤ 3 / 2 * B
  reach : ∀ a < W.n, ∀ b < W.n, 0 ≤ (W.G.rd a + W.G.rd b) * K.cutoff ∧
    ∀ k B, W.w k = some B → (W.G.rd a + W.G.rd b) * K.cutoff ≤ B / 2

open Classical in
/-- Spec: the lists of an interaction on processor `p`: only pairs the interaction is for; pairs in the plain list need no
correction; each interacting pair of own particles is listed once, in either order; each interacting pair of a particle of
another processor and an own particle is listed once as a ghost pair. -/
structure Listed (W : World d) (p : ℕ) (L : Proc d) (K : Kind) : Prop where
  own_lt : ∀ q ∈ K.plain p ++ K.wrapped p, q.1 < L.num ∧ q.2 < L.num ∧ q.1 ≠ q.2 ∧ K.uses (L.own q.1) (L.own q.2)
  plain_near : ∀ q ∈ K.plain p, ∀ k B, W.w k = some B → |W.G.x (L.own q.1) k - W.G.x (L.own q.2) k| ≤ B / 2
  ghost_lt : ∀ q ∈ K.ghost p, q.1 < L.ghosts ∧ q.2 < L.num ∧ K.uses (L.gh q.1) (L.own q.2)
  once : ∀ a < W.n, ∀ b < W.n, a ≠ b → W.owner a = p → W.owner b = p → Near W K a b →
    ((K.plain p ++ K.wrapped p).map fun q => (L.own q.1, L.own q.2)).count (a, b) +
      ((K.plain p ++ K.wrapped p).map fun q => (L.own q.1, L.own q.2)).count (b, a) = 1
  ghost_once : ∀ a < W.n, ∀ b < W.n, W.owner a ≠ p → W.owner b = p → Near W K a b →
    ((K.ghost p).map fun q => (L.gh q.1, L.own q.2)).count (a, b) = 1

open Classical in
/-- Spec: the force on particle `a`: the sum over all other particles and interactions. -/
noncomputable def directForce (W : World d) (Ks : List Kind) (a : ℕ) (k : Fin d) : ℝ :=
  (Ks.map fun K => ∑ b ∈ (range W.n).erase a, if K.uses a b then pairForce K.F K.cutoff W.w W.G a k (a, b) else 0).sum

open Classical in
/-- Spec: energy of the pair. -/
noncomputable def energyOf (W : World d) (K : Kind) (a b : ℕ) : ℝ :=
  if K.uses a b then pairPot K.F K.cutoff W.w W.G (a, b) else 0

open Classical in
/-- Spec: virial of a pair: force times distance. -/
noncomputable def pairVir (F : Force) (cutoff : ℝ) (w : Fin d → Option ℝ) (P : Parts d) (p : ℕ × ℕ) : ℝ :=
  if len (sep w P p) ^ 2 < ((P.rd p.1 + P.rd p.2) * cutoff) ^ 2 then
    F.mag P p.1 p.2 (fun l => sep w P p l / len (sep w P p)) (len (sep w P p)) * len (sep w P p)
  else 0

open Classical in
/-- Spec: virial of the pair for an interaction. -/
noncomputable def virialOf (W : World d) (K : Kind) (a b : ℕ) : ℝ :=
  if K.uses a b then pairVir K.F K.cutoff W.w W.G (a, b) else 0

/-- Spec: the sum of `e` over all pairs of particles. -/
noncomputable def overPairs (W : World d) (Ks : List Kind) (e : World d → Kind → ℕ → ℕ → ℝ) : ℝ :=
  (Ks.map fun K => ∑ a ∈ range W.n, ∑ b ∈ range a, e W K a b).sum

/-- Spec: the sum of `e` over all pairs of particles on different processors. -/
noncomputable def overCross (W : World d) (Ks : List Kind) (e : World d → Kind → ℕ → ℕ → ℝ) : ℝ :=
  (Ks.map fun K => ∑ a ∈ range W.n, ∑ b ∈ range a, if W.owner a ≠ W.owner b then e W K a b else 0).sum

/-! ## Proofs: counting -/

theorem count_step (x q : ℕ × ℕ) (l : List (ℕ × ℕ)) :
    (((q :: l).count x : ℕ) : ℝ) = (l.count x : ℝ) + if q = x then 1 else 0 := by
  rw [List.count_cons]
  by_cases h : q = x
  · subst h; simp
  · simp [h]

theorem sum_at (n a : ℕ) (l : List (ℕ × ℕ)) (φ : ℕ × ℕ → ℝ) (ha : a < n)
    (hl : ∀ q ∈ l, q.1 < n ∧ q.2 < n ∧ q.1 ≠ q.2)
    (h0 : ∀ q, q.1 ≠ a → q.2 ≠ a → φ q = 0) (hs : ∀ b, b ≠ a → φ (b, a) = φ (a, b)) :
    (l.map φ).sum = ∑ b ∈ (range n).erase a, ((l.count (a, b) : ℝ) + l.count (b, a)) * φ (a, b) := by
  induction l with
  | nil => simp
  | cons q l ih =>
    rw [List.map_cons, List.sum_cons, ih (fun r hr => hl r (List.mem_cons_of_mem _ hr))]
    obtain ⟨h1, h2, h3⟩ := hl q (by simp)
    have : ∀ b, (((q :: l).count (a, b) : ℝ) + (q :: l).count (b, a)) * φ (a, b) =
        ((l.count (a, b) : ℝ) + l.count (b, a)) * φ (a, b) +
          ((if q = (a, b) then 1 else 0) + (if q = (b, a) then 1 else 0)) * φ (a, b) := by
      intro b; rw [count_step, count_step]; ring
    rw [sum_congr rfl fun b _ => this b, sum_add_distrib, add_comm]
    congr 1
    obtain ⟨u, v⟩ := q
    simp only at h1 h2 h3
    by_cases hu : u = a
    · subst hu
      rw [sum_eq_single v]
      · simp [h3]
      · intro b _ hb
        have e1 : ¬ ((u, v) = (u, b)) := by simp [Ne.symm hb]
        have e2 : ¬ ((u, v) = (b, u)) := by
          simp only [Prod.mk.injEq, not_and]; intro _ h; exact h3 h.symm
        rw [if_neg e1, if_neg e2]; ring
      · intro h; exact absurd (mem_erase.mpr ⟨Ne.symm h3, mem_range.mpr h2⟩) h
    · by_cases hv : v = a
      · subst hv
        rw [sum_eq_single u]
        · simp [h3, hs u h3]
        · intro b _ hb
          have e1 : ¬ ((u, v) = (v, b)) := by simp [hu]
          have e2 : ¬ ((u, v) = (b, v)) := by simp [Ne.symm hb]
          rw [if_neg e1, if_neg e2]; ring
        · intro h; exact absurd (mem_erase.mpr ⟨hu, mem_range.mpr h1⟩) h
      · rw [h0 (u, v) hu hv]
        symm
        apply sum_eq_zero
        intro b _
        have e1 : ¬ ((u, v) = (a, b)) := by simp [hu]
        have e2 : ¬ ((u, v) = (b, a)) := by simp [hv]
        rw [if_neg e1, if_neg e2]; ring

theorem sum_ordered (n : ℕ) (l : List (ℕ × ℕ)) (e : ℕ → ℕ → ℝ) (hl : ∀ q ∈ l, q.1 < n ∧ q.2 < n) :
    (l.map fun q => e q.1 q.2).sum = ∑ a ∈ range n, ∑ b ∈ range n, (l.count (a, b) : ℝ) * e a b := by
  induction l with
  | nil => simp
  | cons q l ih =>
    rw [List.map_cons, List.sum_cons, ih (fun r hr => hl r (List.mem_cons_of_mem _ hr))]
    obtain ⟨h1, h2⟩ := hl q (by simp)
    have : ∀ a b, ((q :: l).count (a, b) : ℝ) * e a b = (l.count (a, b) : ℝ) * e a b +
        (if q = (a, b) then 1 else 0) * e a b := by
      intro a b; rw [count_step]; ring
    simp only [this, sum_add_distrib]
    rw [add_comm]
    congr 1
    rw [sum_eq_single q.1, sum_eq_single q.2]
    · simp
    · intro b _ hb
      rw [if_neg, zero_mul]
      intro h; rw [h] at hb; exact hb rfl
    · intro h; exact absurd (mem_range.mpr h2) h
    · intro a _ hb
      apply sum_eq_zero
      intro b _
      rw [if_neg, zero_mul]
      intro h; rw [h] at hb; exact hb rfl
    · intro h; exact absurd (mem_range.mpr h1) h

/-- A double sum with zero diagonal, by unordered pairs. -/
theorem sum_unordered (n : ℕ) (g : ℕ → ℕ → ℝ) (hd : ∀ a, g a a = 0) :
    ∑ a ∈ range n, ∑ b ∈ range n, g a b = ∑ a ∈ range n, ∑ b ∈ range a, (g a b + g b a) := by
  induction n with
  | zero => simp
  | succ n ih =>
    rw [sum_range_succ, sum_range_succ]
    simp only [sum_range_succ]
    rw [sum_add_distrib, ih, hd, sum_add_distrib]
    ring

/-! ## Proofs: nearest images -/

theorem correct_neg {w : Fin d → Option ℝ} (hw : ∀ k B, w k = some B → 0 < B) (X : Fin d → ℝ) :
    correct w (-X) = -correct w X := by
  funext k
  simp only [correct, Pi.neg_apply]
  cases h : w k with
  | none => rfl
  | some B =>
    have hB := hw k B h
    simp only [abs_neg]
    by_cases hc : B - |X k| < |X k|
    · rw [if_pos hc, if_pos hc]
      rcases lt_trichotomy (X k) 0 with h1 | h1 | h1
      · rw [if_pos (by linarith), if_neg (by linarith)]
      · rw [h1] at hc; simp at hc; linarith
      · rw [if_neg (by linarith), if_pos h1]; ring
    · rw [if_neg hc, if_neg hc]

theorem sep_swap {W : World d} (hw : ∀ k B, W.w k = some B → 0 < B) (P : Parts d) (a b : ℕ) :
    sep W.w P (b, a) = -sep W.w P (a, b) := by
  unfold sep
  rw [← correct_neg hw]
  congr 1
  simp

theorem len_neg (X : Fin d → ℝ) : len (-X) = len X := by
  unfold len dot; simp

theorem meff_comm (a b : ℝ) : meff a b = meff b a := by
  unfold meff
  by_cases h : a = 0 ∨ b = 0
  · rw [if_pos h, if_pos h.symm]
  · rw [if_neg h, if_neg (fun h' => h h'.symm), mul_comm (1 / a), add_comm (1 / a)]

theorem dot_neg_neg (X Y : Fin d → ℝ) : dot (-X) (-Y) = dot X Y := by
  unfold dot; simp

theorem mag_swap (F : Force) (P : Parts d) (i j : ℕ) (n : Fin d → ℝ) (r : ℝ) :
    F.mag P j i (-n) r = F.mag P i j n r := by
  have e1 : dot (P.v i - P.v j) (-n) = dot (P.v j - P.v i) n := by
    rw [← dot_neg_neg (P.v j - P.v i) n]; simp
  have e2 : dot (P.v j - P.v i) (-n) = dot (P.v i - P.v j) n := by
    rw [← dot_neg_neg (P.v i - P.v j) n]; simp
  cases F with
  | hardSphere k => simp only [Force.mag]; ring
  | hardSphereDs k g => simp only [Force.mag, e1]; rw [add_comm (P.rd j)]
  | lennardJones ε s => simp only [Force.mag]; rw [add_comm (P.rd j)]
  | coulomb s c t => simp only [Force.mag]
  | buckingham s q t u => simp only [Force.mag]; rw [add_comm (P.rd j)]
  | hertz kn gn =>
    simp only [Force.mag, e2]
    rw [meff_comm (P.im j)]
    unfold hertzMag
    rw [add_comm (P.rd j), mul_comm (P.rd j)]

theorem pot_swap (F : Force) (P : Parts d) (i j : ℕ) (r : ℝ) : F.pot P j i r = F.pot P i j r := by
  cases F <;> simp only [Force.pot] <;> first | rfl | (rw [add_comm (P.rd j)]) | ring

theorem unit_neg (X : Fin d → ℝ) : (fun l => (-X) l / len (-X)) = -(fun l => X l / len X) := by
  funext l
  rw [len_neg]
  simp [neg_div]

theorem pairForce_swap {W : World d} (hw : ∀ k B, W.w k = some B → 0 < B) (F : Force) (c : ℝ) (P : Parts d)
    (a b : ℕ) (m : ℕ) (k : Fin d) : pairForce F c W.w P m k (b, a) = pairForce F c W.w P m k (a, b) := by
  unfold pairForce
  rw [sep_swap hw]
  simp only [unit_neg]
  rw [len_neg, add_comm (P.rd b), mag_swap]
  by_cases h : len (sep W.w P (a, b)) ^ 2 < ((P.rd a + P.rd b) * c) ^ 2
  · rw [if_pos h, if_pos h, Pi.neg_apply]; ring
  · rw [if_neg h, if_neg h]

theorem pairPot_swap {W : World d} (hw : ∀ k B, W.w k = some B → 0 < B) (F : Force) (c : ℝ) (P : Parts d)
    (a b : ℕ) : pairPot F c W.w P (b, a) = pairPot F c W.w P (a, b) := by
  unfold pairPot
  rw [sep_swap hw]
  simp only
  rw [len_neg, add_comm (P.rd b), pot_swap]

theorem pairVir_swap {W : World d} (hw : ∀ k B, W.w k = some B → 0 < B) (F : Force) (c : ℝ) (P : Parts d)
    (a b : ℕ) : pairVir F c W.w P (b, a) = pairVir F c W.w P (a, b) := by
  unfold pairVir
  rw [sep_swap hw]
  simp only [unit_neg]
  rw [len_neg, add_comm (P.rd b), mag_swap]

/-- Nearest images of a displacement and of its periodic images. -/
theorem fold_eq {B x y : ℝ} (hB : 0 < B) (hx : |x| ≤ 3 / 2 * B) (hy : |y| ≤ 3 / 2 * B) {m : ℤ} (hm : y = x + m * B) :
    let c := fun z : ℝ => if B - |z| < |z| then (if z > 0 then -(B - |z|) else B - |z|) else z
    |c y| = |c x| ∧ (|c x| < B / 2 → c y = c x) := by
  intro c
  have key : ∀ z : ℝ, |z| ≤ 3 / 2 * B → |c z| ≤ B / 2 ∧ ∃ j : ℤ, c z = z + j * B := by
    intro z hz
    simp only [c]
    by_cases h : B - |z| < |z|
    · rw [if_pos h]
      by_cases hp : z > 0
      · rw [if_pos hp]
        rw [abs_of_pos hp] at h hz ⊢
        refine ⟨?_, -1, by push_cast; ring⟩
        exact abs_le.mpr ⟨by linarith, by linarith⟩
      · rw [if_neg hp]
        rw [abs_of_nonpos (not_lt.mp hp)] at h hz ⊢
        refine ⟨?_, 1, by push_cast; ring⟩
        exact abs_le.mpr ⟨by linarith, by linarith⟩
    · rw [if_neg h]
      exact ⟨by linarith, 0, by simp⟩
  obtain ⟨a1, j1, e1⟩ := key x hx
  obtain ⟨a2, j2, e2⟩ := key y hy
  have hd : c y = c x + (m + j2 - j1 : ℤ) * B := by rw [e1, e2, hm]; push_cast; ring
  obtain ⟨u1, u2⟩ := abs_le.mp a1
  obtain ⟨v1, v2⟩ := abs_le.mp a2
  generalize hJ : (m + j2 - j1 : ℤ) = J at hd
  have hJ1 : -1 ≤ J := by
    by_contra hlt
    have : J ≤ -2 := by omega
    have : (J : ℝ) ≤ -2 := by exact_mod_cast this
    nlinarith
  have hJ2 : J ≤ 1 := by
    by_contra hlt
    have : 2 ≤ J := by omega
    have : (2 : ℝ) ≤ J := by exact_mod_cast this
    nlinarith
  have hcases : J = -1 ∨ J = 0 ∨ J = 1 := by omega
  rcases hcases with rfl | rfl | rfl
  · push_cast at hd
    have ex : c x = B / 2 := by linarith
    have ey : c y = -(B / 2) := by linarith
    refine ⟨by rw [ex, ey, abs_neg], fun h => ?_⟩
    rw [ex, abs_of_pos (by linarith)] at h
    exact absurd h (lt_irrefl _)
  · have : c y = c x := by rw [hd]; simp
    exact ⟨by rw [this], fun _ => this⟩
  · push_cast at hd
    have ex : c x = -(B / 2) := by linarith
    have ey : c y = B / 2 := by linarith
    refine ⟨by rw [ex, ey, abs_neg], fun h => ?_⟩
    rw [ex, abs_neg, abs_of_pos (by linarith)] at h
    exact absurd h (lt_irrefl _)

/-! ## Proofs: from the arrays of a processor to the particles -/

open Classical in
/-- (For proofs.) The first particle of a pair feels `fval`, the second the opposite. -/
noncomputable def fval (F : Force) (cutoff : ℝ) (w : Fin d → Option ℝ) (P : Parts d) (k : Fin d) (p : ℕ × ℕ) : ℝ :=
  if len (sep w P p) ^ 2 < ((P.rd p.1 + P.rd p.2) * cutoff) ^ 2 then
    F.mag P p.1 p.2 (fun l => sep w P p l / len (sep w P p)) (len (sep w P p)) * (sep w P p k / len (sep w P p))
  else 0

theorem pairForce_eq (F : Force) (cutoff : ℝ) (w : Fin d → Option ℝ) (P : Parts d) (m : ℕ) (k : Fin d) (p : ℕ × ℕ) :
    pairForce F cutoff w P m k p =
      ((if m = p.1 then 1 else 0) - (if m = p.2 then 1 else 0)) * fval F cutoff w P k p := by
  unfold fval pairForce
  split_ifs <;> simp

/-- Parts with the same data at `p` and `q` but for the displacement. -/
structure Same (P Q : Parts d) (p q : ℕ × ℕ) : Prop where
  v1 : P.v p.1 = Q.v q.1
  v2 : P.v p.2 = Q.v q.2
  rd1 : P.rd p.1 = Q.rd q.1
  rd2 : P.rd p.2 = Q.rd q.2
  im1 : P.im p.1 = Q.im q.1
  im2 : P.im p.2 = Q.im q.2

theorem mag_same {P Q : Parts d} {p q : ℕ × ℕ} (h : Same P Q p q) (F : Force) (n : Fin d → ℝ) (r : ℝ) :
    F.mag P p.1 p.2 n r = F.mag Q q.1 q.2 n r := by
  cases F <;> simp only [Force.mag, h.v1, h.v2, h.rd1, h.rd2, h.im1, h.im2]

theorem pot_same {P Q : Parts d} {p q : ℕ × ℕ} (h : Same P Q p q) (F : Force) (r : ℝ) :
    F.pot P p.1 p.2 r = F.pot Q q.1 q.2 r := by
  cases F <;> simp only [Force.pot, h.rd1, h.rd2]

theorem values_same {P Q : Parts d} {p q : ℕ × ℕ} (h : Same P Q p q) (F : Force) (c : ℝ) (w w' : Fin d → Option ℝ)
    (hlen : len (sep w P p) = len (sep w' Q q))
    (hsep : len (sep w' Q q) ^ 2 < ((Q.rd q.1 + Q.rd q.2) * c) ^ 2 → sep w P p = sep w' Q q) :
    (∀ k, fval F c w P k p = fval F c w' Q k q) ∧ pairPot F c w P p = pairPot F c w' Q q ∧
      pairVir F c w P p = pairVir F c w' Q q ∧ len (sep w P p) = len (sep w' Q q) := by
  unfold fval pairPot pairVir
  rw [h.rd1, h.rd2, hlen]
  by_cases hn : len (sep w' Q q) ^ 2 < ((Q.rd q.1 + Q.rd q.2) * c) ^ 2
  · simp only [if_pos hn]
    rw [hsep hn, pot_same h]
    simp only [mag_same h]
    exact ⟨fun _ => trivial, trivial, trivial, trivial⟩
  · simp only [if_neg hn]
    exact ⟨fun _ => trivial, trivial, trivial, trivial⟩

theorem sq_le_dot (X : Fin d → ℝ) (k : Fin d) : X k ^ 2 ≤ dot X X := by
  unfold dot
  rw [pow_two]
  exact single_le_sum (f := fun k => X k * X k) (fun _ _ => mul_self_nonneg _) (mem_univ k)

/-- A plain pair. -/
theorem plain_values {W : World d} {p : ℕ} {L : Proc d} {K : Kind} (hh : Holds W p L) (hl : Listed W p L K)
    {q : ℕ × ℕ} (hq : q ∈ K.plain p) :
    (∀ k, fval K.F K.cutoff (fun _ => none) L.P k (ownPair q) = fval K.F K.cutoff W.w W.G k (L.own q.1, L.own q.2)) ∧
    pairPot K.F K.cutoff (fun _ => none) L.P (ownPair q) = pairPot K.F K.cutoff W.w W.G (L.own q.1, L.own q.2) ∧
    pairVir K.F K.cutoff (fun _ => none) L.P (ownPair q) = pairVir K.F K.cutoff W.w W.G (L.own q.1, L.own q.2) ∧
    len (sep (fun _ => none) L.P (ownPair q)) = len (sep W.w W.G (L.own q.1, L.own q.2)) := by
  obtain ⟨h1, h2, _⟩ := hl.own_lt q (List.mem_append_left _ hq)
  have d1 := hh.own_data q.1 h1
  have d2 := hh.own_data q.2 h2
  have hsep : sep (fun _ => none) L.P (ownPair q) = sep W.w W.G (L.own q.1, L.own q.2) := by
    unfold sep
    funext k
    simp only [ownPair, d1.1, d2.1, correct, Pi.sub_apply]
    cases hk : W.w k with
    | none => rfl
    | some B =>
      have := hl.plain_near q hq k B hk
      simp only
      rw [if_neg (by linarith)]
  exact values_same ⟨d1.2.1, d2.2.1, d1.2.2.1, d2.2.2.1, d1.2.2.2, d2.2.2.2⟩ _ _ _ _ (by rw [hsep]) (fun _ => hsep)

/-- A wrapped pair. -/
theorem wrapped_values {W : World d} {p : ℕ} {L : Proc d} {K : Kind} (hh : Holds W p L) (hl : Listed W p L K)
    {q : ℕ × ℕ} (hq : q ∈ K.wrapped p) :
    (∀ k, fval K.F K.cutoff W.w L.P k (ownPair q) = fval K.F K.cutoff W.w W.G k (L.own q.1, L.own q.2)) ∧
    pairPot K.F K.cutoff W.w L.P (ownPair q) = pairPot K.F K.cutoff W.w W.G (L.own q.1, L.own q.2) ∧
    pairVir K.F K.cutoff W.w L.P (ownPair q) = pairVir K.F K.cutoff W.w W.G (L.own q.1, L.own q.2) ∧
    len (sep W.w L.P (ownPair q)) = len (sep W.w W.G (L.own q.1, L.own q.2)) := by
  obtain ⟨h1, h2, _⟩ := hl.own_lt q (List.mem_append_right _ hq)
  have d1 := hh.own_data q.1 h1
  have d2 := hh.own_data q.2 h2
  have hsep : sep W.w L.P (ownPair q) = sep W.w W.G (L.own q.1, L.own q.2) := by
    unfold sep
    simp only [ownPair, d1.1, d2.1]
  exact values_same ⟨d1.2.1, d2.2.1, d1.2.2.1, d2.2.2.1, d1.2.2.2, d2.2.2.2⟩ _ _ _ _ (by rw [hsep]) (fun _ => hsep)

/-- A ghost pair. -/
theorem ghost_values {W : World d} {p : ℕ} {L : Proc d} {K : Kind} (hb : Boxed W K) (hh : Holds W p L) (hl : Listed W p L K)
    {q : ℕ × ℕ} (hq : q ∈ K.ghost p) :
    (∀ k, fval K.F K.cutoff W.w L.P k (ghostPair q) = fval K.F K.cutoff W.w W.G k (L.gh q.1, L.own q.2)) ∧
    pairPot K.F K.cutoff W.w L.P (ghostPair q) = pairPot K.F K.cutoff W.w W.G (L.gh q.1, L.own q.2) ∧
    pairVir K.F K.cutoff W.w L.P (ghostPair q) = pairVir K.F K.cutoff W.w W.G (L.gh q.1, L.own q.2) ∧
    len (sep W.w L.P (ghostPair q)) = len (sep W.w W.G (L.gh q.1, L.own q.2)) := by
  obtain ⟨h1, h2, _⟩ := hl.ghost_lt q hq
  have d1 := hh.gh_data q.1 h1
  have d2 := hh.own_data q.2 h2
  have g1 := hh.gh_lt q.1 h1
  have g2 := hh.own_lt q.2 h2
  have hk : ∀ k, |sep W.w L.P (ghostPair q) k| = |sep W.w W.G (L.gh q.1, L.own q.2) k| ∧
      ((∀ B, W.w k = some B → |sep W.w W.G (L.gh q.1, L.own q.2) k| < B / 2) →
        sep W.w L.P (ghostPair q) k = sep W.w W.G (L.gh q.1, L.own q.2) k) := by
    intro k
    have hp := hh.gh_pos q.1 h1 k
    unfold sep
    simp only [ghostPair, d2.1, correct, Pi.sub_apply]
    cases hw : W.w k with
    | none =>
      rw [hw] at hp
      simp only at hp ⊢
      rw [hp]; simp
    | some B =>
      rw [hw] at hp
      obtain ⟨⟨m, hm⟩, hc⟩ := hp
      obtain ⟨hB, hx⟩ := hb.box k B hw
      have hf := fold_eq hB (hx _ g1.1 _ g2.1) (hc q.2 h2) (m := m) (by rw [hm]; ring)
      simp only at hf
      exact ⟨hf.1, fun h => hf.2 (h B rfl)⟩
  have hlen : len (sep W.w L.P (ghostPair q)) = len (sep W.w W.G (L.gh q.1, L.own q.2)) := by
    unfold len dot
    congr 1
    apply sum_congr rfl
    intro k _
    rw [← abs_mul_abs_self, (hk k).1, abs_mul_abs_self]
  refine values_same ⟨d1.1, d2.2.1, d1.2.1, d2.2.2.1, d1.2.2, d2.2.2.2⟩ _ _ _ _ hlen ?_
  intro hn
  funext k
  refine (hk k).2 fun B hw => ?_
  obtain ⟨r0, r1⟩ := hb.reach _ g1.1 _ g2.1
  have r1 := r1 k B hw
  have hlt : |sep W.w W.G (L.gh q.1, L.own q.2) k| < (W.G.rd (L.gh q.1) + W.G.rd (L.own q.2)) * K.cutoff := by
    apply abs_lt_of_sq_lt_sq _ r0
    refine lt_of_le_of_lt (sq_le_dot _ k) ?_
    rw [← len_sq]; exact hn
  exact lt_of_lt_of_le hlt r1

/-! ## Proofs: the loops -/

theorem visit_vir {F : Force} {cutoff : ℝ} {doPot doVir : Bool} {w : Fin d → Option ℝ} {P : Parts d} {a a' : Acc d}
    {p : ℕ × ℕ} (h : visit F cutoff doPot doVir w P a p = some a') :
    a'.vir = a.vir + if doVir then pairVir F cutoff w P p else 0 := by
  unfold visit at h
  simp only at h
  unfold pairVir
  simp only [len_sq]
  change (if dot (sep w P p) (sep w P p) < _ then _ else _) = _ at h
  by_cases hc : dot (sep w P p) (sep w P p) < ((P.rd p.1 + P.rd p.2) * cutoff) ^ 2
  · rw [if_pos hc] at h
    obtain ⟨h0, rfl⟩ := kernel_eq h
    simp only [if_pos hc]
    change (if doVir then a.vir + F.mag P p.1 p.2 (fun k => sep w P p k * (1 / len (sep w P p))) (len (sep w P p)) *
      len (sep w P p) else a.vir) = _
    simp only [mul_one_div]
    split_ifs <;> simp
  · rw [if_neg hc] at h
    cases h
    simp only [if_neg hc]
    simp

theorem dolist_vir {F : Force} {cutoff : ℝ} {doPot doVir : Bool} {w : Fin d → Option ℝ} {P : Parts d}
    (l : List (ℕ × ℕ)) {a a' : Acc d} (h : dolist F cutoff doPot doVir w P l a = some a') :
    a'.vir = a.vir + if doVir then (l.map (pairVir F cutoff w P)).sum else 0 := by
  induction l generalizing a with
  | nil =>
    simp only [dolist, List.foldlM_nil] at h
    cases h
    simp
  | cons p l ih =>
    simp only [dolist, List.foldlM_cons] at h
    obtain ⟨b, hb, hr⟩ := Option.bind_eq_some_iff.mp h
    rw [ih hr, visit_vir hb, List.map_cons, List.sum_cons]
    split_ifs <;> ring

/-- (For proofs.) What the plain and the wrapped list of an interaction add. -/
noncomputable def Lists.ownSum (I : Lists) (w : Fin d → Option ℝ)
    (φ : Force → ℝ → (Fin d → Option ℝ) → ℕ × ℕ → ℝ) : ℝ :=
  (I.plain.map fun q => φ I.F I.cutoff (fun _ => none) (ownPair q)).sum +
    (I.wrapped.map fun q => φ I.F I.cutoff w (ownPair q)).sum

/-- (For proofs.) What the ghost list of an interaction adds. -/
noncomputable def Lists.ghostSum (I : Lists) (w : Fin d → Option ℝ)
    (φ : Force → ℝ → (Fin d → Option ℝ) → ℕ × ℕ → ℝ) : ℝ :=
  (I.ghost.map fun q => φ I.F I.cutoff w (ghostPair q)).sum

theorem interactAll_sums {doPot doVir : Bool} {w : Fin d → Option ℝ} {P : Parts d} (is : List Lists)
    {f : ℕ → Fin d → ℝ} {r : (ℕ → Fin d → ℝ) × List (ℝ × ℝ)} (h : interactAll doPot doVir w P is f = some r) :
    r.2.length = is.length ∧
    (∀ m k, r.1 m k = f m k + (is.map fun I => I.ownSum w fun F c w q => pairForce F c w P m k q).sum) ∧
    (doPot = true → totalPotential r.2 = (is.map fun I => I.ownSum w fun F c w q => pairPot F c w P q).sum) ∧
    (doVir = true → totalVirial r.2 = (is.map fun I => I.ownSum w fun F c w q => pairVir F c w P q).sum) := by
  induction is generalizing f r with
  | nil =>
    simp only [interactAll, Option.some.injEq] at h
    subst h
    simp [totalPotential, totalVirial]
  | cons I is ih =>
    simp only [interactAll] at h
    obtain ⟨a, ha, hr⟩ := Option.bind_eq_some_iff.mp h
    obtain ⟨r', hr', rfl⟩ := Option.map_eq_some_iff.mp hr
    obtain ⟨h1, h2, h3, h4⟩ := ih hr'
    obtain ⟨s1, s2⟩ := C34_superposition _ _ _ _ _ _ _ _ _ _ ha
    obtain ⟨b, hb, hc⟩ := Option.bind_eq_some_iff.mp ha
    have v1 := dolist_vir _ hb
    have v2 := dolist_vir _ hc
    refine ⟨by simp [h1], ?_, ?_, ?_⟩
    · intro m k
      show r'.1 m k = _
      rw [h2, s1, List.map_cons, List.sum_cons]
      unfold Lists.ownSum
      simp only [List.map_map, Function.comp_def]
      ring
    · intro hp
      have := h3 hp
      unfold totalPotential at this ⊢
      rw [List.map_cons, List.sum_cons, this, List.map_cons, List.sum_cons, s2, if_pos hp]
      unfold Lists.ownSum
      simp only [List.map_map, Function.comp_def]
    · intro hp
      have := h4 hp
      unfold totalVirial at this ⊢
      rw [List.map_cons, List.sum_cons, this, List.map_cons, List.sum_cons, v2, v1, if_pos hp, if_pos hp]
      unfold Lists.ownSum
      simp only [List.map_map, Function.comp_def, zero_add]

theorem ghostsAll_sums {doPot doVir : Bool} {w : Fin d → Option ℝ} {P : Parts d} (is : List Lists)
    {f : ℕ → Fin d → ℝ} {es : List (ℝ × ℝ)} {r : (ℕ → Fin d → ℝ) × List (ℝ × ℝ)} (hlen : es.length = is.length)
    (h : ghostsAll doPot doVir w P is f es = some r) :
    (∀ m k, r.1 m k = f m k + (is.map fun I => I.ghostSum w fun F c w q => pairForce F c w P m k q).sum) ∧
    (doPot = true → totalPotential r.2 = totalPotential es +
      (is.map fun I => I.ghostSum w fun F c w q => pairPot F c w P q).sum) ∧
    (doVir = true → totalVirial r.2 = totalVirial es +
      (is.map fun I => I.ghostSum w fun F c w q => pairVir F c w P q).sum) := by
  induction is generalizing f es r with
  | nil =>
    simp only [ghostsAll, Option.some.injEq] at h
    subst h
    simp
  | cons I is ih =>
    cases es with
    | nil => simp at hlen
    | cons e es =>
      simp only [ghostsAll] at h
      obtain ⟨a, ha, hr⟩ := Option.bind_eq_some_iff.mp h
      obtain ⟨r', hr', rfl⟩ := Option.map_eq_some_iff.mp hr
      obtain ⟨h2, h3, h4⟩ := ih (by simpa using hlen) hr'
      obtain ⟨s1, s2⟩ := dolist_super _ ha
      have v1 := dolist_vir _ ha
      refine ⟨?_, ?_, ?_⟩
      · intro m k
        show r'.1 m k = _
        rw [h2, s1, List.map_cons, List.sum_cons]
        unfold Lists.ghostSum
        simp only [List.map_map, Function.comp_def]
        ring
      · intro hp
        have := h3 hp
        unfold totalPotential at this ⊢
        rw [List.map_cons, List.sum_cons, this, List.map_cons, List.sum_cons, List.map_cons, List.sum_cons, s2, if_pos hp]
        unfold Lists.ghostSum
        simp only [List.map_map, Function.comp_def]
        ring
      · intro hp
        have := h4 hp
        unfold totalVirial at this ⊢
        rw [List.map_cons, List.sum_cons, this, List.map_cons, List.sum_cons, List.map_cons, List.sum_cons, v1, if_pos hp]
        unfold Lists.ghostSum
        simp only [List.map_map, Function.comp_def]
        ring

theorem map_sum_congr {α : Type*} {l : List α} {f g : α → ℝ} (h : ∀ x ∈ l, f x = g x) : (l.map f).sum = (l.map g).sum := by
  rw [List.map_congr_left h]

/-! ## Proofs: one interaction -/

section Kinds

variable {W : World d} {p : ℕ} {L : Proc d} {K : Kind}

/-- (For proofs.) The listed pairs of own particles, as particles. -/
def ownList (p : ℕ) (L : Proc d) (K : Kind) : List (ℕ × ℕ) :=
  (K.plain p ++ K.wrapped p).map fun q => (L.own q.1, L.own q.2)

/-- (For proofs.) The listed pairs with ghosts, as particles. -/
def ghostList (p : ℕ) (L : Proc d) (K : Kind) : List (ℕ × ℕ) := (K.ghost p).map fun q => (L.gh q.1, L.own q.2)

theorem Boxed.pos (hb : Boxed W K) : ∀ k B, W.w k = some B → 0 < B := fun k B h => (hb.box k B h).1

theorem Near.swap (hb : Boxed W K) {a b : ℕ} (h : Near W K a b) : Near W K b a := by
  refine ⟨hb.symm _ _ h.1, ?_⟩
  rw [sep_swap hb.pos, len_neg, add_comm]
  exact h.2

theorem own_forces (hh : Holds W p L) (hl : Listed W p L K) {i : ℕ} (hi : i < L.num) (k : Fin d) :
    (K.lists p).ownSum W.w (fun F c w q => pairForce F c w L.P (2 * i) k q) =
      ((ownList p L K).map fun q => pairForce K.F K.cutoff W.w W.G (L.own i) k q).sum := by
  have key : ∀ q ∈ K.plain p ++ K.wrapped p, ∀ w, fval K.F K.cutoff w L.P k (ownPair q) =
      fval K.F K.cutoff W.w W.G k (L.own q.1, L.own q.2) →
      pairForce K.F K.cutoff w L.P (2 * i) k (ownPair q) =
        pairForce K.F K.cutoff W.w W.G (L.own i) k (L.own q.1, L.own q.2) := by
    intro q hq w hf
    obtain ⟨h1, h2, _⟩ := hl.own_lt q hq
    rw [pairForce_eq, pairForce_eq, hf]
    have e : ∀ j < L.num, (2 * i = 2 * j) ↔ (L.own i = L.own j) :=
      fun j hj => ⟨fun h => by rw [show i = j by omega], fun h => by rw [hh.own_inj i hi j hj h]⟩
    simp only [ownPair, e q.1 h1, e q.2 h2]
  unfold Lists.ownSum ownList Kind.lists
  rw [List.map_map, List.map_append, List.sum_append]
  congr 1
  · exact map_sum_congr fun q hq => key q (List.mem_append_left _ hq) _ ((plain_values hh hl hq).1 k)
  · exact map_sum_congr fun q hq => key q (List.mem_append_right _ hq) _ ((wrapped_values hh hl hq).1 k)

theorem ghost_forces (hb : Boxed W K) (hh : Holds W p L) (hl : Listed W p L K) {i : ℕ} (hi : i < L.num) (k : Fin d) :
    (K.lists p).ghostSum W.w (fun F c w q => pairForce F c w L.P (2 * i) k q) =
      ((ghostList p L K).map fun q => pairForce K.F K.cutoff W.w W.G (L.own i) k q).sum := by
  unfold Lists.ghostSum ghostList Kind.lists
  rw [List.map_map]
  refine map_sum_congr fun q hq => ?_
  obtain ⟨h1, h2, _⟩ := hl.ghost_lt q hq
  simp only [Function.comp_def]
  rw [pairForce_eq, pairForce_eq, (ghost_values hb hh hl hq).1 k]
  have e2 : (2 * i = (ghostPair q).2) ↔ (L.own i = L.own q.2) := by
    show (2 * i = 2 * q.2) ↔ _
    exact ⟨fun h => by rw [show i = q.2 by omega], fun h => by rw [hh.own_inj i hi q.2 h2 h]⟩
  have e1 : ¬ (2 * i = (ghostPair q).1) := by
    show ¬ (2 * i = 2 * q.1 + 1)
    omega
  have e3 : ¬ (L.own i = L.gh q.1) := fun h => (hh.gh_lt q.1 h1).2 (h ▸ (hh.own_lt i hi).2)
  simp only [if_neg e1, if_neg e3, e2]

theorem ownList_mem (hh : Holds W p L) (hl : Listed W p L K) {q : ℕ × ℕ} (hq : q ∈ ownList p L K) :
    q.1 < W.n ∧ q.2 < W.n ∧ q.1 ≠ q.2 ∧ W.owner q.1 = p ∧ W.owner q.2 = p ∧ K.uses q.1 q.2 := by
  unfold ownList at hq
  obtain ⟨r, hr, rfl⟩ := List.mem_map.mp hq
  obtain ⟨h1, h2, h3, h4⟩ := hl.own_lt r hr
  exact ⟨(hh.own_lt _ h1).1, (hh.own_lt _ h2).1, fun h => h3 (hh.own_inj _ h1 _ h2 h), (hh.own_lt _ h1).2,
    (hh.own_lt _ h2).2, h4⟩

theorem ghostList_mem (hh : Holds W p L) (hl : Listed W p L K) {q : ℕ × ℕ} (hq : q ∈ ghostList p L K) :
    q.1 < W.n ∧ q.2 < W.n ∧ W.owner q.1 ≠ p ∧ W.owner q.2 = p ∧ K.uses q.1 q.2 := by
  unfold ghostList at hq
  obtain ⟨r, hr, rfl⟩ := List.mem_map.mp hq
  obtain ⟨h1, h2, h4⟩ := hl.ghost_lt r hr
  exact ⟨(hh.gh_lt _ h1).1, (hh.own_lt _ h2).1, (hh.gh_lt _ h1).2, (hh.own_lt _ h2).2, h4⟩

theorem far_force {a b : ℕ} (hu : K.uses a b) (hn : ¬ Near W K a b) (m : ℕ) (k : Fin d) :
    pairForce K.F K.cutoff W.w W.G m k (a, b) = 0 := by
  unfold pairForce
  rw [if_neg]
  exact fun h => hn ⟨hu, h⟩

open Classical in
theorem own_direct (hb : Boxed W K) (hh : Holds W p L) (hl : Listed W p L K) {i : ℕ} (hi : i < L.num) (k : Fin d) :
    (K.lists p).ownSum W.w (fun F c w q => pairForce F c w L.P (2 * i) k q) =
      ∑ b ∈ (range W.n).erase (L.own i), if W.owner b = p then
        (if K.uses (L.own i) b then pairForce K.F K.cutoff W.w W.G (L.own i) k (L.own i, b) else 0) else 0 := by
  obtain ⟨a1, a2⟩ := hh.own_lt i hi
  rw [own_forces hh hl hi k, sum_at W.n (L.own i) _ _ a1]
  · refine sum_congr rfl fun b hbm => ?_
    obtain ⟨b1, b2⟩ := mem_erase.mp hbm
    rw [mem_range] at b2
    by_cases ho : W.owner b = p
    · rw [if_pos ho]
      by_cases hu : K.uses (L.own i) b
      · rw [if_pos hu]
        by_cases hn : Near W K (L.own i) b
        · have := hl.once _ a1 b b2 (Ne.symm b1) a2 ho hn
          have h' : ((ownList p L K).count (L.own i, b) : ℝ) + (ownList p L K).count (b, L.own i) = 1 := by
            unfold ownList; exact_mod_cast this
          rw [h', one_mul]
        · rw [far_force hu hn, mul_zero]
      · rw [if_neg hu, List.count_eq_zero_of_not_mem fun h => hu (ownList_mem hh hl h).2.2.2.2.2,
          List.count_eq_zero_of_not_mem fun h => hu (hb.symm _ _ (ownList_mem hh hl h).2.2.2.2.2)]
        simp
    · rw [if_neg ho, List.count_eq_zero_of_not_mem fun h => ho (ownList_mem hh hl h).2.2.2.2.1,
        List.count_eq_zero_of_not_mem fun h => ho (ownList_mem hh hl h).2.2.2.1]
      simp
  · exact fun q hq => ⟨(ownList_mem hh hl hq).1, (ownList_mem hh hl hq).2.1, (ownList_mem hh hl hq).2.2.1⟩
  · intro q h1 h2
    rw [pairForce_eq, if_neg (Ne.symm h1), if_neg (Ne.symm h2)]; simp
  · intro b _
    exact pairForce_swap hb.pos _ _ _ _ _ _ _

open Classical in
theorem ghost_direct (hb : Boxed W K) (hh : Holds W p L) (hl : Listed W p L K) {i : ℕ} (hi : i < L.num) (k : Fin d) :
    (K.lists p).ghostSum W.w (fun F c w q => pairForce F c w L.P (2 * i) k q) =
      ∑ b ∈ (range W.n).erase (L.own i), if W.owner b = p then 0 else
        (if K.uses (L.own i) b then pairForce K.F K.cutoff W.w W.G (L.own i) k (L.own i, b) else 0) := by
  obtain ⟨a1, a2⟩ := hh.own_lt i hi
  rw [ghost_forces hb hh hl hi k, sum_at W.n (L.own i) _ _ a1]
  · refine sum_congr rfl fun b hbm => ?_
    obtain ⟨b1, b2⟩ := mem_erase.mp hbm
    rw [mem_range] at b2
    rw [List.count_eq_zero_of_not_mem fun h => (ghostList_mem hh hl h).2.2.1 a2]
    by_cases ho : W.owner b = p
    · rw [if_pos ho, List.count_eq_zero_of_not_mem fun h => (ghostList_mem hh hl h).2.2.1 ho]
      simp
    · rw [if_neg ho]
      by_cases hu : K.uses (L.own i) b
      · rw [if_pos hu]
        by_cases hn : Near W K (L.own i) b
        · have := hl.ghost_once b b2 _ a1 ho a2 (hn.swap hb)
          have h' : ((ghostList p L K).count (b, L.own i) : ℝ) = 1 := by
            unfold ghostList; exact_mod_cast this
          rw [h']; simp
        · rw [far_force hu hn, mul_zero]
      · rw [if_neg hu, List.count_eq_zero_of_not_mem fun h => hu (hb.symm _ _ (ghostList_mem hh hl h).2.2.2.2)]
        simp
  · exact fun q hq => ⟨(ghostList_mem hh hl hq).1, (ghostList_mem hh hl hq).2.1,
      fun h => (ghostList_mem hh hl hq).2.2.1 (by rw [h]; exact (ghostList_mem hh hl hq).2.2.2.1)⟩
  · intro q h1 h2
    rw [pairForce_eq, if_neg (Ne.symm h1), if_neg (Ne.symm h2)]; simp
  · intro b _
    exact pairForce_swap hb.pos _ _ _ _ _ _ _

end Kinds

/-! ## Forces -/

/-- **C151, forces.** However the particles are spread over processors, if every processor holds its particles and present
copies of particles of the others, and the lists hold every interacting pair of own particles once and every interacting pair
with a particle of another processor once, then after the force part of a step the force on each particle is the sum over all
other particles, on all processors, and all interactions. -/
theorem C151_forces (W : World d) (Ks : List Kind) (p : ℕ) (L : Proc d) (doPot doVir : Bool)
    (hown : ∀ a < W.n, W.owner a < W.procs) (hp : p < W.procs) (hh : Holds W p L)
    (hK : ∀ K ∈ Ks, Boxed W K ∧ Listed W p L K)
    (r : (ℕ → Fin d → ℝ) × List (ℝ × ℝ)) (hr : stepForces W.procs doPot doVir W.w L.P (Ks.map (Kind.lists · p)) = some r) :
    ∀ i < L.num, ∀ k, r.1 (2 * i) k = directForce W Ks (L.own i) k := by
  classical
  intro i hi k
  unfold stepForces at hr
  obtain ⟨s, hs, hr⟩ := Option.bind_eq_some_iff.mp hr
  obtain ⟨s1, s2, _⟩ := interactAll_sums _ hs
  have hsum : ∀ (g1 g2 : Kind → ℝ), (∀ K ∈ Ks, g1 K + g2 K =
      ∑ b ∈ (range W.n).erase (L.own i), if K.uses (L.own i) b then
        pairForce K.F K.cutoff W.w W.G (L.own i) k (L.own i, b) else 0) →
      (Ks.map g1).sum + (Ks.map g2).sum = directForce W Ks (L.own i) k := by
    intro g1 g2 h
    rw [← List.sum_map_add]
    exact map_sum_congr h
  have own := fun K hKm => own_direct (hK K hKm).1 hh (hK K hKm).2 hi k
  have gho := fun K hKm => ghost_direct (hK K hKm).1 hh (hK K hKm).2 hi k
  by_cases h1 : W.procs = 1
  · rw [if_pos h1, Option.some.injEq] at hr
    subst hr
    rw [s2, List.map_map, zero_add]
    have := hsum (fun K => (K.lists p).ownSum W.w (fun F c w q => pairForce F c w L.P (2 * i) k q)) (fun _ => 0) ?_
    · simpa [Function.comp_def] using this
    · intro K hKm
      rw [own K hKm, add_zero]
      refine sum_congr rfl fun b hb => if_pos ?_
      have := hown b (mem_range.mp (mem_erase.mp hb).2)
      omega
  · rw [if_neg h1] at hr
    obtain ⟨g1, _⟩ := ghostsAll_sums _ s1 hr
    rw [g1, s2, List.map_map, List.map_map, zero_add]
    refine hsum _ _ fun K hKm => ?_
    simp only [Function.comp_def]
    rw [own K hKm, gho K hKm, ← sum_add_distrib]
    refine sum_congr rfl fun b _ => ?_
    by_cases ho : W.owner b = p
    · rw [if_pos ho, if_pos ho, add_zero]
    · rw [if_neg ho, if_neg ho, zero_add]

/-! ## Energy and virial -/

section Energy

variable {W : World d} {p : ℕ} {L : Proc d} {K : Kind}

theorem own_energy (hh : Holds W p L) (hl : Listed W p L K) :
    (K.lists p).ownSum W.w (fun F c w q => pairPot F c w L.P q) = ((ownList p L K).map fun q => energyOf W K q.1 q.2).sum ∧
    (K.lists p).ownSum W.w (fun F c w q => pairVir F c w L.P q) = ((ownList p L K).map fun q => virialOf W K q.1 q.2).sum := by
  unfold Lists.ownSum ownList Kind.lists
  simp only [List.map_map, List.map_append, List.sum_append, Function.comp_def]
  refine ⟨?_, ?_⟩ <;> congr 1 <;> refine map_sum_congr fun q hq => ?_
  · unfold energyOf
    rw [if_pos (hl.own_lt q (List.mem_append_left _ hq)).2.2.2, (plain_values hh hl hq).2.1]
  · unfold energyOf
    rw [if_pos (hl.own_lt q (List.mem_append_right _ hq)).2.2.2, (wrapped_values hh hl hq).2.1]
  · unfold virialOf
    rw [if_pos (hl.own_lt q (List.mem_append_left _ hq)).2.2.2, (plain_values hh hl hq).2.2.1]
  · unfold virialOf
    rw [if_pos (hl.own_lt q (List.mem_append_right _ hq)).2.2.2, (wrapped_values hh hl hq).2.2.1]

theorem ghost_energy (hb : Boxed W K) (hh : Holds W p L) (hl : Listed W p L K) :
    (K.lists p).ghostSum W.w (fun F c w q => pairPot F c w L.P q) =
      ((ghostList p L K).map fun q => energyOf W K q.1 q.2).sum ∧
    (K.lists p).ghostSum W.w (fun F c w q => pairVir F c w L.P q) =
      ((ghostList p L K).map fun q => virialOf W K q.1 q.2).sum := by
  unfold Lists.ghostSum ghostList Kind.lists
  simp only [List.map_map, Function.comp_def]
  refine ⟨?_, ?_⟩ <;> refine map_sum_congr fun q hq => ?_
  · unfold energyOf
    rw [if_pos (hl.ghost_lt q hq).2.2, (ghost_values hb hh hl hq).2.1]
  · unfold virialOf
    rw [if_pos (hl.ghost_lt q hq).2.2, (ghost_values hb hh hl hq).2.2.1]

/-- (For proofs.) A quantity of pairs: symmetric, zero for pairs that do not interact. -/
structure OfPairs (W : World d) (K : Kind) (e : ℕ → ℕ → ℝ) : Prop where
  symm : ∀ a b, e b a = e a b
  far : ∀ a b, ¬ Near W K a b → e a b = 0

theorem energy_ofPairs (hb : Boxed W K) : OfPairs W K (energyOf W K) := by
  refine ⟨fun a b => ?_, fun a b h => ?_⟩
  · unfold energyOf
    rw [pairPot_swap hb.pos]
    by_cases h : K.uses a b
    · rw [if_pos h, if_pos (hb.symm _ _ h)]
    · rw [if_neg h, if_neg (fun h' => h (hb.symm _ _ h'))]
  · unfold energyOf pairPot
    by_cases hu : K.uses a b
    · rw [if_pos hu, if_neg (fun h' => h ⟨hu, h'⟩)]
    · rw [if_neg hu]

theorem virial_ofPairs (hb : Boxed W K) : OfPairs W K (virialOf W K) := by
  refine ⟨fun a b => ?_, fun a b h => ?_⟩
  · unfold virialOf
    rw [pairVir_swap hb.pos]
    by_cases h : K.uses a b
    · rw [if_pos h, if_pos (hb.symm _ _ h)]
    · rw [if_neg h, if_neg (fun h' => h (hb.symm _ _ h'))]
  · unfold virialOf pairVir
    by_cases hu : K.uses a b
    · rw [if_pos hu, if_neg (fun h' => h ⟨hu, h'⟩)]
    · rw [if_neg hu]

theorem own_total (hh : Holds W p L) (hl : Listed W p L K) {e : ℕ → ℕ → ℝ} (he : OfPairs W K e) :
    ((ownList p L K).map fun q => e q.1 q.2).sum =
      ∑ a ∈ range W.n, ∑ b ∈ range a, if W.owner a = p ∧ W.owner b = p then e a b else 0 := by
  rw [sum_ordered W.n _ _ (fun q hq => ⟨(ownList_mem hh hl hq).1, (ownList_mem hh hl hq).2.1⟩), sum_unordered]
  · refine sum_congr rfl fun a ha => sum_congr rfl fun b hb => ?_
    rw [mem_range] at ha hb
    rw [he.symm a b, ← add_mul]
    by_cases ho : W.owner a = p ∧ W.owner b = p
    · rw [if_pos ho]
      by_cases hn : Near W K a b
      · have := hl.once a ha b (by omega) (by omega) ho.1 ho.2 hn
        have h' : ((ownList p L K).count (a, b) : ℝ) + (ownList p L K).count (b, a) = 1 := by
          unfold ownList; exact_mod_cast this
        rw [h', one_mul]
      · rw [he.far a b hn, mul_zero]
    · rw [if_neg ho, List.count_eq_zero_of_not_mem fun h => ho ⟨(ownList_mem hh hl h).2.2.2.1, (ownList_mem hh hl h).2.2.2.2.1⟩,
        List.count_eq_zero_of_not_mem fun h => ho ⟨(ownList_mem hh hl h).2.2.2.2.1, (ownList_mem hh hl h).2.2.2.1⟩]
      simp
  · intro a
    rw [List.count_eq_zero_of_not_mem fun h => (ownList_mem hh hl h).2.2.1 rfl]
    simp

theorem ghost_total (hh : Holds W p L) (hl : Listed W p L K) {e : ℕ → ℕ → ℝ} (he : OfPairs W K e) :
    ((ghostList p L K).map fun q => e q.1 q.2).sum =
      ∑ a ∈ range W.n, ∑ b ∈ range a,
        if W.owner a ≠ W.owner b ∧ (W.owner a = p ∨ W.owner b = p) then e a b else 0 := by
  have cnt : ∀ a b, a < W.n → b < W.n → ((ghostList p L K).count (a, b) : ℝ) * e a b =
      if W.owner a ≠ p ∧ W.owner b = p then e a b else 0 := by
    intro a b ha hb
    by_cases ho : W.owner a ≠ p ∧ W.owner b = p
    · rw [if_pos ho]
      by_cases hn : Near W K a b
      · have := hl.ghost_once a ha b hb ho.1 ho.2 hn
        have h' : ((ghostList p L K).count (a, b) : ℝ) = 1 := by
          unfold ghostList; exact_mod_cast this
        rw [h', one_mul]
      · rw [he.far a b hn, mul_zero]
    · rw [if_neg ho, List.count_eq_zero_of_not_mem fun h => ho ⟨(ghostList_mem hh hl h).2.2.1, (ghostList_mem hh hl h).2.2.2.1⟩]
      simp
  rw [sum_ordered W.n _ _ (fun q hq => ⟨(ghostList_mem hh hl hq).1, (ghostList_mem hh hl hq).2.1⟩), sum_unordered]
  · refine sum_congr rfl fun a ha => sum_congr rfl fun b hb => ?_
    rw [mem_range] at ha hb
    rw [cnt a b ha (by omega), cnt b a (by omega) ha, he.symm a b]
    by_cases h1 : W.owner a = p
    · by_cases h2 : W.owner b = p
      · rw [if_neg (by simp [h1]), if_neg (by simp [h2]), if_neg (by simp [h1, h2])]; ring
      · rw [if_neg (by simp [h1]), if_pos ⟨h2, h1⟩, if_pos ⟨by rw [h1]; exact Ne.symm h2, Or.inl h1⟩]; ring
    · by_cases h2 : W.owner b = p
      · rw [if_pos ⟨h1, h2⟩, if_neg (by simp [h2]), if_pos ⟨by rw [h2]; exact h1, Or.inr h2⟩]; ring
      · rw [if_neg (by simp [h2]), if_neg (by simp [h1]), if_neg (by simp [h1, h2])]; ring
  · intro a
    rw [List.count_eq_zero_of_not_mem fun h => (ghostList_mem hh hl h).2.2.1 (ghostList_mem hh hl h).2.2.2.1]
    simp

end Energy

/-- Each pair counts once for each processor of the two. -/
theorem sum_procs (W : World d) (hown : ∀ a < W.n, W.owner a < W.procs) (e : ℕ → ℕ → ℝ) :
    ∑ p ∈ range W.procs, ((∑ a ∈ range W.n, ∑ b ∈ range a, if W.owner a = p ∧ W.owner b = p then e a b else 0) +
      ∑ a ∈ range W.n, ∑ b ∈ range a,
        if W.owner a ≠ W.owner b ∧ (W.owner a = p ∨ W.owner b = p) then e a b else 0) =
    (∑ a ∈ range W.n, ∑ b ∈ range a, e a b) +
      ∑ a ∈ range W.n, ∑ b ∈ range a, if W.owner a ≠ W.owner b then e a b else 0 := by
  simp only [← sum_add_distrib]
  rw [sum_comm]
  refine sum_congr rfl fun a ha => ?_
  rw [sum_comm]
  refine sum_congr rfl fun b hb => ?_
  rw [mem_range] at ha hb
  have pa := mem_range.mpr (hown a ha)
  have pb := mem_range.mpr (hown b (by omega))
  by_cases h : W.owner a = W.owner b
  · rw [if_neg (by simp [h]), add_zero, sum_eq_single (W.owner a)]
    · simp [h]
    · intro p _ hp
      rw [if_neg (fun h' => hp h'.1.symm), if_neg (by simp [h])]; ring
    · intro h'; exact absurd pa h'
  · rw [if_pos h]
    have e1 : ∀ p ∈ range W.procs, ((if W.owner a = p ∧ W.owner b = p then e a b else 0) +
        if W.owner a ≠ W.owner b ∧ (W.owner a = p ∨ W.owner b = p) then e a b else 0) =
        (if W.owner a = p then e a b else 0) + if W.owner b = p then e a b else 0 := by
      intro p _
      by_cases h1 : W.owner a = p
      · have h2 : ¬ W.owner b = p := fun h2 => h (h1.trans h2.symm)
        simp [h1, h2, Ne.symm h2]
      · by_cases h2 : W.owner b = p
        · simp [h1, h2]
        · simp [h1, h2]
    rw [sum_congr rfl e1, sum_add_distrib, sum_ite_eq, sum_ite_eq, if_pos pa, if_pos pb]

/-- **C151, energy and virial (partial).** Under the same conditions the energies that all processors report, summed (as the
recorded total energy does), are the energy of all pairs plus once more the energy of the pairs of particles on different
processors; so it is the energy exactly if these have none, in particular on one processor. The same holds for the virial.
Missing: that the sum is the energy for every number of processors; that is false (`C151_energy_counted_twice`). -/
theorem C151_energy_partial (W : World d) (Ks : List Kind) (L : ℕ → Proc d) (doPot doVir : Bool)
    (hown : ∀ a < W.n, W.owner a < W.procs) (hh : ∀ p < W.procs, Holds W p (L p))
    (hK : ∀ K ∈ Ks, Boxed W K ∧ ∀ p < W.procs, Listed W p (L p) K)
    (r : ℕ → (ℕ → Fin d → ℝ) × List (ℝ × ℝ))
    (hr : ∀ p < W.procs, stepForces W.procs doPot doVir W.w (L p).P (Ks.map (Kind.lists · p)) = some (r p)) :
    (doPot = true → ∑ p ∈ range W.procs, totalPotential (r p).2 = overPairs W Ks energyOf + overCross W Ks energyOf) ∧
    (doVir = true → ∑ p ∈ range W.procs, totalVirial (r p).2 = overPairs W Ks virialOf + overCross W Ks virialOf) := by
  have main : ∀ (e : World d → Kind → ℕ → ℕ → ℝ) (t : ℕ → ℝ),
      (∀ K ∈ Ks, OfPairs W K (e W K)) →
      (∀ p < W.procs, t p = (Ks.map fun K => ((ownList p (L p) K).map fun q => e W K q.1 q.2).sum +
        ((ghostList p (L p) K).map fun q => e W K q.1 q.2).sum).sum) →
      ∑ p ∈ range W.procs, t p = overPairs W Ks e + overCross W Ks e := by
    intro e t he ht
    rw [sum_congr rfl fun p hp => ht p (mem_range.mp hp)]
    unfold overPairs overCross
    rw [← List.sum_map_add]
    clear ht t hr
    induction Ks with
    | nil => simp
    | cons K Ks ih =>
      simp only [List.map_cons, List.sum_cons]
      rw [sum_add_distrib, ih (fun K' h => hK K' (List.mem_cons_of_mem _ h)) (fun K' h => he K' (List.mem_cons_of_mem _ h))]
      congr 1
      rw [← sum_procs W hown]
      refine sum_congr rfl fun p hp => ?_
      rw [mem_range] at hp
      obtain ⟨hb, hl⟩ := hK K (by simp)
      rw [own_total (hh p hp) (hl p hp) (he K (by simp)), ghost_total (hh p hp) (hl p hp) (he K (by simp))]
  have gz : W.procs = 1 → ∀ p < W.procs, ∀ K ∈ Ks, ∀ e, OfPairs W K e →
      ((ghostList p (L p) K).map fun q => e q.1 q.2).sum = 0 := by
    intro h1 p hp K hKm e he
    rw [ghost_total (hh p hp) ((hK K hKm).2 p hp) he]
    refine sum_eq_zero fun a ha => sum_eq_zero fun b hb => if_neg ?_
    rw [mem_range] at ha hb
    have := hown a ha
    have := hown b (by omega)
    rintro ⟨h, _⟩
    exact h (by omega)
  constructor
  · intro hd
    refine main energyOf _ (fun K hKm => energy_ofPairs (hK K hKm).1) fun p hp => ?_
    have hr := hr p hp
    unfold stepForces at hr
    obtain ⟨s, hs, hr⟩ := Option.bind_eq_some_iff.mp hr
    obtain ⟨s1, _, s3, _⟩ := interactAll_sums _ hs
    by_cases h1 : W.procs = 1
    · rw [if_pos h1, Option.some.injEq] at hr
      rw [← hr, s3 hd, List.map_map]
      refine map_sum_congr fun K hKm => ?_
      obtain ⟨hb, hl⟩ := hK K hKm
      rw [gz h1 p hp K hKm _ (energy_ofPairs hb), add_zero]
      exact (own_energy (hh p hp) (hl p hp)).1
    · rw [if_neg h1] at hr
      obtain ⟨_, g2, _⟩ := ghostsAll_sums _ s1 hr
      rw [g2 hd, s3 hd, List.map_map, List.map_map, ← List.sum_map_add]
      refine map_sum_congr fun K hKm => ?_
      obtain ⟨hb, hl⟩ := hK K hKm
      simp only [Function.comp_def]
      rw [(own_energy (hh p hp) (hl p hp)).1, (ghost_energy hb (hh p hp) (hl p hp)).1]
  · intro hd
    refine main virialOf _ (fun K hKm => virial_ofPairs (hK K hKm).1) fun p hp => ?_
    have hr := hr p hp
    unfold stepForces at hr
    obtain ⟨s, hs, hr⟩ := Option.bind_eq_some_iff.mp hr
    obtain ⟨s1, _, _, s4⟩ := interactAll_sums _ hs
    by_cases h1 : W.procs = 1
    · rw [if_pos h1, Option.some.injEq] at hr
      rw [← hr, s4 hd, List.map_map]
      refine map_sum_congr fun K hKm => ?_
      obtain ⟨hb, hl⟩ := hK K hKm
      rw [gz h1 p hp K hKm _ (virial_ofPairs hb), add_zero]
      exact (own_energy (hh p hp) (hl p hp)).2
    · rw [if_neg h1] at hr
      obtain ⟨_, _, g3⟩ := ghostsAll_sums _ s1 hr
      rw [g3 hd, s4 hd, List.map_map, List.map_map, ← List.sum_map_add]
      refine map_sum_congr fun K hKm => ?_
      obtain ⟨hb, hl⟩ := hK K hKm
      simp only [Function.comp_def]
      rw [(own_energy (hh p hp) (hl p hp)).2, (ghost_energy hb (hh p hp) (hl p hp)).2]

/-! ## Other consequences -/

/-- **C151, any distribution.** The same particles, spread over processors in two different ways (for example all on one): the
forces are the same. -/
theorem C151_any_distribution (W W' : World d) (Ks Ks' : List Kind) (p p' : ℕ) (L L' : Proc d) (doPot doVir doPot' doVir' : Bool)
    (hn : W'.n = W.n) (hw : W'.w = W.w) (hG : W'.G = W.G)
    (hks : Ks'.map (fun K => (K.F, K.cutoff, K.uses)) = Ks.map fun K => (K.F, K.cutoff, K.uses))
    (hown : ∀ a < W.n, W.owner a < W.procs) (hp : p < W.procs) (hh : Holds W p L)
    (hK : ∀ K ∈ Ks, Boxed W K ∧ Listed W p L K)
    (hown' : ∀ a < W'.n, W'.owner a < W'.procs) (hp' : p' < W'.procs) (hh' : Holds W' p' L')
    (hK' : ∀ K ∈ Ks', Boxed W' K ∧ Listed W' p' L' K)
    (r r' : (ℕ → Fin d → ℝ) × List (ℝ × ℝ))
    (hr : stepForces W.procs doPot doVir W.w L.P (Ks.map (Kind.lists · p)) = some r)
    (hr' : stepForces W'.procs doPot' doVir' W'.w L'.P (Ks'.map (Kind.lists · p')) = some r')
    (i i' : ℕ) (hi : i < L.num) (hi' : i' < L'.num) (ha : L'.own i' = L.own i) :
    r'.1 (2 * i') = r.1 (2 * i) := by
  classical
  funext k
  rw [C151_forces W Ks p L doPot doVir hown hp hh hK r hr i hi k,
    C151_forces W' Ks' p' L' doPot' doVir' hown' hp' hh' hK' r' hr' i' hi' k, ha]
  unfold directForce
  rw [hn, hw, hG]
  have h := congrArg (fun l => (l.map fun t : Force × ℝ × (ℕ → ℕ → Prop) => ∑ b ∈ (range W.n).erase (L.own i),
    if t.2.2 (L.own i) b then pairForce t.1 t.2.1 W.w W.G (L.own i) k (L.own i, b) else 0).sum) hks
  simpa [List.map_map, Function.comp_def] using h

theorem dolist_defined {F : Force} {cutoff : ℝ} {doPot doVir : Bool} {w : Fin d → Option ℝ} {P : Parts d}
    (l : List (ℕ × ℕ)) (a : Acc d) (h : ∀ q ∈ l, len (sep w P q) ≠ 0) :
    ∃ a', dolist F cutoff doPot doVir w P l a = some a' := by
  induction l generalizing a with
  | nil => exact ⟨a, rfl⟩
  | cons q l ih =>
    have hq : ∃ b, visit F cutoff doPot doVir w P a q = some b := by
      have h0 : dot (correct w (P.x q.1 - P.x q.2)) (correct w (P.x q.1 - P.x q.2)) ≠ 0 := by
        have := h q (by simp)
        intro hz
        apply this
        unfold len sep
        rw [hz, Real.sqrt_zero]
      unfold visit
      simp only
      split_ifs
      · unfold kernel
        rw [if_neg h0]
        exact ⟨_, rfl⟩
      · exact ⟨_, rfl⟩
    obtain ⟨b, hb⟩ := hq
    obtain ⟨a', ha'⟩ := ih b (fun r hr => h r (List.mem_cons_of_mem _ hr))
    refine ⟨a', ?_⟩
    simp only [dolist, List.foldlM_cons]
    rw [hb]
    exact ha'

/-- **C151, defined.** If no two particles are at the same place (or at images of it), no step divides by zero. -/
theorem C151_defined (W : World d) (Ks : List Kind) (p : ℕ) (L : Proc d) (doPot doVir : Bool) (hh : Holds W p L)
    (hK : ∀ K ∈ Ks, Boxed W K ∧ Listed W p L K)
    (hsep : ∀ a < W.n, ∀ b < W.n, a ≠ b → len (sep W.w W.G (a, b)) ≠ 0) :
    ∃ r, stepForces W.procs doPot doVir W.w L.P (Ks.map (Kind.lists · p)) = some r := by
  have h1 : ∀ (Ks : List Kind), (∀ K ∈ Ks, Boxed W K ∧ Listed W p L K) → ∀ f,
      ∃ r, interactAll doPot doVir W.w L.P (Ks.map (Kind.lists · p)) f = some r := by
    intro Ks
    induction Ks with
    | nil => intro _ f; exact ⟨_, rfl⟩
    | cons K Ks ih =>
      intro hK f
      obtain ⟨hb, hl⟩ := hK K (by simp)
      obtain ⟨a, ha⟩ := dolist_defined (F := K.F) (cutoff := K.cutoff) (doPot := doPot) (doVir := doVir) (w := fun _ => none)
        (P := L.P) ((K.plain p).map ownPair) ⟨f, 0, 0⟩ (by
          intro q hq
          obtain ⟨q, hm, rfl⟩ := List.mem_map.mp hq
          rw [(plain_values hh hl hm).2.2.2]
          obtain ⟨q1, q2, q3, _⟩ := hl.own_lt q (List.mem_append_left _ hm)
          exact hsep _ (hh.own_lt _ q1).1 _ (hh.own_lt _ q2).1 fun e => q3 (hh.own_inj _ q1 _ q2 e))
      obtain ⟨b, hb⟩ := dolist_defined (F := K.F) (cutoff := K.cutoff) (doPot := doPot) (doVir := doVir) (w := W.w)
        (P := L.P) ((K.wrapped p).map ownPair) a (by
          intro q hq
          obtain ⟨q, hm, rfl⟩ := List.mem_map.mp hq
          rw [(wrapped_values hh hl hm).2.2.2]
          obtain ⟨q1, q2, q3, _⟩ := hl.own_lt q (List.mem_append_right _ hm)
          exact hsep _ (hh.own_lt _ q1).1 _ (hh.own_lt _ q2).1 fun e => q3 (hh.own_inj _ q1 _ q2 e))
      obtain ⟨r, hr⟩ := ih (fun K' h => hK K' (List.mem_cons_of_mem _ h)) b.f
      refine ⟨(r.1, (b.pot, b.vir) :: r.2), ?_⟩
      rw [List.map_cons]
      simp only [interactAll, interact, Kind.lists]
      rw [ha]
      simp only [Option.bind_some]
      rw [hb]
      simp only [Option.bind_some]
      exact (congrArg (Option.map _) hr).trans rfl
  have h2 : ∀ (Ks : List Kind), (∀ K ∈ Ks, Boxed W K ∧ Listed W p L K) → ∀ f es,
      ∃ r, ghostsAll doPot doVir W.w L.P (Ks.map (Kind.lists · p)) f es = some r := by
    intro Ks
    induction Ks with
    | nil => intro _ f es; exact ⟨_, rfl⟩
    | cons K Ks ih =>
      intro hK f es
      cases es with
      | nil => exact ⟨_, rfl⟩
      | cons e es =>
        obtain ⟨hb, hl⟩ := hK K (by simp)
        obtain ⟨a, ha⟩ := dolist_defined (F := K.F) (cutoff := K.cutoff) (doPot := doPot) (doVir := doVir) (w := W.w)
          (P := L.P) ((K.ghost p).map ghostPair) ⟨f, e.1, e.2⟩ (by
            intro q hq
            obtain ⟨q, hm, rfl⟩ := List.mem_map.mp hq
            rw [(ghost_values hb hh hl hm).2.2.2]
            obtain ⟨q1, q2, _⟩ := hl.ghost_lt q hm
            refine hsep _ (hh.gh_lt _ q1).1 _ (hh.own_lt _ q2).1 fun e => (hh.gh_lt _ q1).2 ?_
            rw [e]; exact (hh.own_lt _ q2).2)
        obtain ⟨r, hr⟩ := ih (fun K' h => hK K' (List.mem_cons_of_mem _ h)) a.f es
        refine ⟨(r.1, (a.pot, a.vir) :: r.2), ?_⟩
        rw [List.map_cons]
        simp only [ghostsAll, Kind.lists]
        rw [ha]
        simp only [Option.bind_some]
        exact (congrArg (Option.map _) hr).trans rfl
  obtain ⟨r, hr⟩ := h1 Ks hK fun _ _ => 0
  unfold stepForces
  rw [hr]
  simp only [Option.bind_some]
  split_ifs
  · exact ⟨_, rfl⟩
  · exact h2 Ks hK _ _

/-! ## Two particles on two processors -/

/-- Example: spheres of radius 1 at 0 and 1, on processors 0 and 1. -/
noncomputable def twoWorld : World 1 := ⟨2, 2, id, fun _ => none, ⟨fun i _ => i, fun _ _ => 0, fun _ => 1, fun _ => 1⟩⟩

/-- Example: each processor has one particle and the other as a ghost. -/
noncomputable def twoProc (p : ℕ) : Proc 1 :=
  ⟨1, 1, fun _ => p, fun _ => 1 - p, ⟨fun i _ => if i = 0 then p else 1 - p, fun _ _ => 0, fun _ => 1, fun _ => 1⟩⟩

/-- Example: hard spheres, the ghost is listed with the own particle. -/
def twoKind : Kind := ⟨.hardSphere 1, 1, fun _ _ => True, fun _ => [], fun _ => [], fun _ => [(0, 0)]⟩

theorem two_boxed : Boxed twoWorld twoKind :=
  ⟨fun _ _ _ => trivial, fun _ _ h => (Option.some_ne_none _ h.symm).elim,
    fun _ _ _ _ => ⟨by simp [twoWorld, twoKind], fun _ _ h => (Option.some_ne_none _ h.symm).elim⟩⟩

theorem two_holds : ∀ p < 2, Holds twoWorld p (twoProc p) := by
  intro p hp
  have hp' : p = 0 ∨ p = 1 := by omega
  refine ⟨?_, ?_, ?_, ?_, ?_, ?_⟩
  · intro i _; exact ⟨hp, rfl⟩
  · intro i hi j hj _
    have : i < 1 := hi
    have : j < 1 := hj
    omega
  · intro i hi
    have : i = 0 := by have : i < 1 := hi; omega
    subst this
    refine ⟨?_, rfl, rfl, rfl⟩
    funext k
    simp [twoProc, twoWorld]
  · intro g _
    refine ⟨?_, ?_⟩
    · show 1 - p < 2; omega
    · show 1 - p ≠ p; omega
  · intro g _; exact ⟨rfl, rfl, rfl⟩
  · intro g _ k
    show (if 2 * g + 1 = 0 then (p : ℝ) else 1 - p) = ((1 - p : ℕ) : ℝ)
    rw [if_neg (by omega)]
    rcases hp' with rfl | rfl <;> simp

theorem two_listed : ∀ p < 2, Listed twoWorld p (twoProc p) twoKind := by
  intro p hp
  refine ⟨?_, ?_, ?_, ?_, ?_⟩
  · intro q hq; simp [twoKind] at hq
  · intro q hq; simp [twoKind] at hq
  · intro q hq
    simp only [twoKind, List.mem_singleton] at hq
    subst hq
    exact ⟨Nat.one_pos, Nat.one_pos, trivial⟩
  · intro a _ b _ hab ha hb
    exact absurd ((show a = p from ha).trans (show b = p from hb).symm) hab
  · intro a ha b _ hao hbo _
    have ha : a < 2 := ha
    have hao : a ≠ p := hao
    have hbo : b = p := hbo
    have e : a = 1 - p := by omega
    subst e hbo
    simp [twoKind, twoProc]

theorem two_sep (a b : ℕ) : len (sep twoWorld.w twoWorld.G (a, b)) = |(a : ℝ) - b| := by
  unfold len sep dot correct twoWorld
  simp [Real.sqrt_mul_self_eq_abs]

/-- **C151 witness.** Two touching particles on two processors: every processor holds what it should and lists the pair, the
forces are right, and the energies and the virials of the two processors sum to more than those of the pair. -/
theorem C151_energy_counted_twice : ∃ (W : World 1) (Ks : List Kind) (L : ℕ → Proc 1) (r : ℕ → (ℕ → Fin 1 → ℝ) × List (ℝ × ℝ)),
    (∀ a < W.n, W.owner a < W.procs) ∧ (∀ p < W.procs, Holds W p (L p)) ∧
    (∀ K ∈ Ks, Boxed W K ∧ ∀ p < W.procs, Listed W p (L p) K) ∧
    (∀ p < W.procs, stepForces W.procs true true W.w (L p).P (Ks.map (Kind.lists · p)) = some (r p)) ∧
    (r 0).1 0 0 = -1 ∧ (r 1).1 0 0 = 1 ∧
    ∑ p ∈ range W.procs, totalPotential (r p).2 = 1 ∧ overPairs W Ks energyOf = 1 / 2 ∧
    ∑ p ∈ range W.procs, totalVirial (r p).2 = 2 ∧ overPairs W Ks virialOf = 1 := by
  have hK : ∀ K ∈ [twoKind], Boxed twoWorld K ∧ ∀ p < twoWorld.procs, Listed twoWorld p (twoProc p) K := by
    intro K hKm
    rw [List.mem_singleton] at hKm
    subst hKm
    exact ⟨two_boxed, two_listed⟩
  have hsep : ∀ a < twoWorld.n, ∀ b < twoWorld.n, a ≠ b → len (sep twoWorld.w twoWorld.G (a, b)) ≠ 0 := by
    intro a _ b _ hab
    rw [two_sep, abs_ne_zero, sub_ne_zero]
    exact_mod_cast hab
  have hdef : ∀ p, ∃ r, p < twoWorld.procs →
      stepForces twoWorld.procs true true twoWorld.w (twoProc p).P ([twoKind].map (Kind.lists · p)) = some r := by
    intro p
    by_cases hp : p < twoWorld.procs
    · obtain ⟨r, hr⟩ := C151_defined twoWorld [twoKind] p (twoProc p) true true (two_holds p hp)
        (fun K hKm => ⟨(hK K hKm).1, (hK K hKm).2 p hp⟩) hsep
      exact ⟨r, fun _ => hr⟩
    · exact ⟨(fun _ _ => 0, []), fun h => absurd h hp⟩
  choose r hr using hdef
  have hown : ∀ a < twoWorld.n, twoWorld.owner a < twoWorld.procs := fun a h => h
  obtain ⟨e1, e2⟩ := C151_energy_partial twoWorld [twoKind] twoProc true true hown two_holds hK r hr
  have hf : ∀ p < 2, ∀ k, (r p).1 (2 * 0) k = directForce twoWorld [twoKind] p k := fun p hp k =>
    C151_forces twoWorld [twoKind] p (twoProc p) true true hown hp (two_holds p hp)
      (fun K hKm => ⟨(hK K hKm).1, (hK K hKm).2 p hp⟩) (r p) (hr p hp) 0 Nat.one_pos k
  have hnear : ∀ a b : ℕ, |(a : ℝ) - b| = 1 → len (sep twoWorld.w twoWorld.G (a, b)) ^ 2 <
      ((twoWorld.G.rd a + twoWorld.G.rd b) * twoKind.cutoff) ^ 2 := by
    intro a b h
    rw [two_sep, h]
    simp only [twoWorld, twoKind]
    norm_num
  have h10 : |((1 : ℕ) : ℝ) - (0 : ℕ)| = 1 := by norm_num
  have h01 : |((0 : ℕ) : ℝ) - (1 : ℕ)| = 1 := by norm_num
  have hU : energyOf twoWorld twoKind 1 0 = 1 / 2 := by
    unfold energyOf pairPot
    rw [if_pos (show twoKind.uses 1 0 from trivial), if_pos (hnear 1 0 h10), two_sep, h10]
    simp only [twoKind, twoWorld, Force.pot]
    norm_num
  have hV : virialOf twoWorld twoKind 1 0 = 1 := by
    unfold virialOf pairVir
    rw [if_pos (show twoKind.uses 1 0 from trivial), if_pos (hnear 1 0 h10), two_sep, h10]
    simp only [twoKind, twoWorld, Force.mag]
    norm_num
  have o1 : overPairs twoWorld [twoKind] energyOf = 1 / 2 := by
    simp [overPairs, show twoWorld.n = 2 from rfl, sum_range_succ, hU]
  have o2 : overCross twoWorld [twoKind] energyOf = 1 / 2 := by
    simp [overCross, show twoWorld.n = 2 from rfl, show ∀ a, twoWorld.owner a = a from fun _ => rfl, sum_range_succ, hU]
  have o3 : overPairs twoWorld [twoKind] virialOf = 1 := by
    simp [overPairs, show twoWorld.n = 2 from rfl, sum_range_succ, hV]
  have o4 : overCross twoWorld [twoKind] virialOf = 1 := by
    simp [overCross, show twoWorld.n = 2 from rfl, show ∀ a, twoWorld.owner a = a from fun _ => rfl, sum_range_succ, hV]
  refine ⟨twoWorld, [twoKind], twoProc, r, hown, two_holds, hK, hr, ?_, ?_, ?_, o1, ?_, o3⟩
  · refine (hf 0 (by norm_num) 0).trans ?_
    have : (range twoWorld.n).erase 0 = {1} := by decide
    unfold directForce
    simp only [this, List.map_cons, List.map_nil, List.sum_cons, List.sum_nil, sum_singleton, add_zero]
    rw [if_pos (show twoKind.uses 0 1 from trivial)]
    unfold pairForce
    rw [if_pos (hnear 0 1 h01), two_sep, h01]
    simp [twoKind, twoWorld, Force.mag, sep, correct]
  · refine (hf 1 (by norm_num) 0).trans ?_
    have : (range twoWorld.n).erase 1 = {0} := by decide
    unfold directForce
    simp only [this, List.map_cons, List.map_nil, List.sum_cons, List.sum_nil, sum_singleton, add_zero]
    rw [if_pos (show twoKind.uses 1 0 from trivial)]
    unfold pairForce
    rw [if_pos (hnear 1 0 h10), two_sep, h10]
    simp [twoKind, twoWorld, Force.mag, sep, correct]
  · rw [e1 rfl, o1, o2]; norm_num
  · rw [e2 rfl, o3, o4]; norm_num

end Verif.GhostForces
