import Mathlib.Analysis.SpecialFunctions.Sqrt
import Mathlib.Analysis.SpecialFunctions.Exp
import Mathlib.Analysis.SpecialFunctions.ExpDeriv
import Mathlib.Analysis.Calculus.Deriv.Inv
import Mathlib.Analysis.Calculus.Deriv.Pow
import Mathlib.Tactic.Linarith
import Mathlib.Tactic.FieldSimp
import Mathlib.Tactic.Ring
import Mathlib.Tactic.Positivity
import Mathlib.Algebra.BigOperators.Group.Finset.Basic
import Mathlib.Algebra.BigOperators.Field

/-!
# Pair forces (C34, C35, C36, C37, C38, C68, C69)

Models the force kernels of `interactions/generic-forces.hpp` and the loop that calls them
(`interactions/generic-handlers.hpp:322-367`; by C33 the three containers run over the same pairs). Exact real
arithmetic, any number of dimensions. A kernel that divides by a zero distance is undefined (`none`).
-/

set_option linter.unusedSectionVars false

namespace Verif.PairForces
open Finset

variable {d : ℕ}

/-- What the kernels read: positions, velocities, radii and inverse masses by local id. -/
structure Parts (d : ℕ) where
  x : ℕ → Fin d → ℝ
  v : ℕ → Fin d → ℝ
  rd : ℕ → ℝ
  im : ℕ → ℝ

/-- What the kernels write: forces, `potential`, `virial`. -/
structure Acc (d : ℕ) where
  f : ℕ → Fin d → ℝ
  pot : ℝ
  vir : ℝ

/-- `dot_vec`, `utility/generic-dimension.hpp:41-44`. -/
def dot (a b : Fin d → ℝ) : ℝ := ∑ k, a k * b k

/-- `harmonic_correction`, `utility/generic-dimension.hpp:24-32`; `none` of `w` means that the dimension does not wrap. -/
noncomputable def correct (w : Fin d → Option ℝ) (X : Fin d → ℝ) : Fin d → ℝ := fun k =>
  match w k with
  | none => X k
  | some w => if w - |X k| < |X k| then (if X k > 0 then -(w - |X k|) else w - |X k|) else X k

/-- The six central forces with their parameters. -/
inductive Force where
  /-- `HardSphereGeneric`: repulsion -/
  | hardSphere (k : ℝ)
  /-- `HardSphereDsGeneric`: repulsion, dissipation -/
  | hardSphereDs (k g : ℝ)
  /-- `LennardJonesGeneric`: strength, energy shift -/
  | lennardJones (ε shift : ℝ)
  /-- `CoulombGeneric`: strength, cutoff, energy shift -/
  | coulomb (s cutoff shift : ℝ)
  /-- `BuckinghamGeneric`: strength, ratio, inner force, energy shift -/
  | buckingham (s ratio inner shift : ℝ)
  /-- `HertzGeneric`: `K_n`, `gamma_n` -/
  | hertz (kn gn : ℝ)

/-- Lennard-Jones force, `interactions/generic-forces.hpp:227-232`. -/
noncomputable def ljMag (ε R r : ℝ) : ℝ :=
  let g := R * (1 / r)
  let g3 := g * g * g
  let g6 := g3 * g3
  let g12 := g6 * g6
  24 * ε * (2 * g12 - g6) * (1 / r)

/-- Lennard-Jones potential, `interactions/generic-forces.hpp:239`. -/
noncomputable def ljPot (ε shift R r : ℝ) : ℝ :=
  let g := R * (1 / r)
  let g3 := g * g * g
  let g6 := g3 * g3
  let g12 := g6 * g6
  4 * ε * (g12 - g6) - shift

/-- Coulomb force, `interactions/generic-forces.hpp:320`. -/
noncomputable def coulombMag (s cutoff r : ℝ) : ℝ := s / r ^ 2 - s / cutoff ^ 2

/-- Coulomb potential, `interactions/generic-forces.hpp:328`. -/
noncomputable def coulombPot (s shift r : ℝ) : ℝ := s / r - shift

/-- Buckingham force, `interactions/generic-forces.hpp:409-415`. -/
noncomputable def buckMag (s ratio inner R r : ℝ) : ℝ :=
  let radius := R * (1 / r)
  let sigma2 := radius * radius
  min inner (s * (1 / r) * (ratio * Real.exp (-ratio / radius) - 6 * (sigma2 * sigma2 * sigma2)))

/-- Buckingham potential, `interactions/generic-forces.hpp:423`. -/
noncomputable def buckPot (s ratio shift R r : ℝ) : ℝ :=
  let radius := R * (1 / r)
  let sigma2 := radius * radius
  s * (Real.exp (-ratio / radius) - sigma2 * sigma2 * sigma2) - shift

open Classical in
/-- `M_eff`, `interactions/generic-forces.hpp:523-528`: with an infinite mass the quotient is not a number and 1 is
used. -/
noncomputable def meff (im1 im2 : ℝ) : ℝ :=
  if im1 = 0 ∨ im2 = 0 then 1 else (1 / im1) * (1 / im2) / (1 / im1 + 1 / im2)

/-- Hertz force, `interactions/generic-forces.hpp:518-539`; `vn` is the normal part of `v0 - v1`. (For `delta<0` the
kernel returns without a force.) -/
noncomputable def hertzMag (kn gn R1 R2 m vn r : ℝ) : ℝ :=
  if R1 + R2 - r < 0 then 0
  else max 0 (Real.sqrt ((R1 + R2 - r) * (R1 * R2 / (R1 + R2))) * (kn * (R1 + R2 - r) - m * gn * vn))

/-- `Fn` of the kernels: `i`, `j` are the particles, `n` the unit vector, `r` the distance. -/
noncomputable def Force.mag (F : Force) (P : Parts d) (i j : ℕ) (n : Fin d → ℝ) (r : ℝ) : ℝ :=
  match F with
  | .hardSphere k => k * (P.rd i + P.rd j - r)
  | .hardSphereDs k g => max 0 (k * (P.rd i + P.rd j - r) + g * dot (P.v j - P.v i) n)
  | .lennardJones ε _ => ljMag ε (P.rd i + P.rd j) r
  | .coulomb s c _ => coulombMag s c r
  | .buckingham s ratio inner _ => buckMag s ratio inner (P.rd i + P.rd j) r
  | .hertz kn gn => hertzMag kn gn (P.rd i) (P.rd j) (meff (P.im i) (P.im j)) (dot (P.v i - P.v j) n) r

/-- What the kernels add to `potential`. -/
noncomputable def Force.pot (F : Force) (P : Parts d) (i j : ℕ) (r : ℝ) : ℝ :=
  match F with
  | .hardSphere k | .hardSphereDs k _ => 1/2 * k * (r - P.rd i - P.rd j) ^ 2
  | .lennardJones ε shift => ljPot ε shift (P.rd i + P.rd j) r
  | .coulomb s _ shift => coulombPot s shift r
  | .buckingham s ratio _ shift => buckPot s ratio shift (P.rd i + P.rd j) r
  | .hertz _ _ => 0

/-- `sum_eq_vec_scaled(f(i), X, c)`. -/
def addAt (f : ℕ → Fin d → ℝ) (i : ℕ) (c : ℝ) (X : Fin d → ℝ) : ℕ → Fin d → ℝ :=
  Function.update f i (fun k => f i k + c * X k)

open Classical in
/-- The kernels: `interactions/generic-forces.hpp:33-54,119-146,219-245,312-334,401-429,510-597`. They differ only in
`mag` and `pot`. `doPot`, `doVir` are the flags. -/
noncomputable def kernel (F : Force) (doPot doVir : Bool) (P : Parts d) (i j : ℕ) (X : Fin d → ℝ) (a : Acc d) :
    Option (Acc d) :=
  if dot X X = 0 then none
  else
    let r := Real.sqrt (dot X X)
    let n : Fin d → ℝ := fun k => X k * (1 / r)
    let Fn := F.mag P i j n r
    some { f := addAt (addAt a.f i Fn n) j (-Fn) n
           pot := if doPot then a.pot + F.pot P i j r else a.pot
           vir := if doVir then a.vir + Fn * r else a.vir }

open Classical in
/-- The body of the loop over pairs, `interactions/generic-handlers.hpp:352-365`. -/
noncomputable def visit (F : Force) (cutoff : ℝ) (doPot doVir : Bool) (w : Fin d → Option ℝ) (P : Parts d) (a : Acc d)
    (p : ℕ × ℕ) : Option (Acc d) :=
  let X := correct w (P.x p.1 - P.x p.2)
  if dot X X < ((P.rd p.1 + P.rd p.2) * cutoff) ^ 2 then kernel F doPot doVir P p.1 p.2 X a else some a

/-- The loop over a list of pairs; for the plain list the correction is left out (`w` is `none` everywhere). -/
noncomputable def dolist (F : Force) (cutoff : ℝ) (doPot doVir : Bool) (w : Fin d → Option ℝ) (P : Parts d)
    (l : List (ℕ × ℕ)) (a : Acc d) : Option (Acc d) :=
  l.foldlM (visit F cutoff doPot doVir w P) a

/-- `interact`, `interactions/generic-handlers.hpp:291-302` with `base/interaction.cpp:7-11`: virial and potential are
reset, then the plain list and the wrapped list are run. -/
noncomputable def interact (F : Force) (cutoff : ℝ) (doPot doVir : Bool) (w : Fin d → Option ℝ) (P : Parts d)
    (plain wrapped : List (ℕ × ℕ)) (f : ℕ → Fin d → ℝ) : Option (Acc d) :=
  (dolist F cutoff doPot doVir (fun _ => none) P plain ⟨f, 0, 0⟩).bind
    (dolist F cutoff doPot doVir w P wrapped)

/-! ## Third law -/

theorem sum_addAt (s : Finset ℕ) (f : ℕ → Fin d → ℝ) {i : ℕ} (hi : i ∈ s) (c : ℝ) (X : Fin d → ℝ) (g : ℕ → ℝ) (k : Fin d) :
    ∑ m ∈ s, g m * addAt f i c X m k = ∑ m ∈ s, g m * f m k + g i * (c * X k) := by
  have h : ∀ m, g m * addAt f i c X m k = g m * f m k + if m = i then g i * (c * X k) else 0 := by
    intro m
    unfold addAt
    by_cases hm : m = i
    · subst hm; simp; ring
    · rw [Function.update_of_ne hm, if_neg hm, add_zero]
  rw [sum_congr rfl (fun m _ => h m), sum_add_distrib, sum_ite_eq' s i, if_pos hi]

/-- Result of a defined call. -/
theorem kernel_eq {F : Force} {doPot doVir : Bool} {P : Parts d} {i j : ℕ} {X : Fin d → ℝ} {a a' : Acc d}
    (h : kernel F doPot doVir P i j X a = some a') :
    dot X X ≠ 0 ∧ a' = Acc.mk
      (addAt (addAt a.f i (F.mag P i j (fun k => X k * (1 / Real.sqrt (dot X X))) (Real.sqrt (dot X X)))
          (fun k => X k * (1 / Real.sqrt (dot X X)))) j
          (-(F.mag P i j (fun k => X k * (1 / Real.sqrt (dot X X))) (Real.sqrt (dot X X))))
          (fun k => X k * (1 / Real.sqrt (dot X X))))
      (if doPot then a.pot + F.pot P i j (Real.sqrt (dot X X)) else a.pot)
      (if doVir then a.vir + F.mag P i j (fun k => X k * (1 / Real.sqrt (dot X X))) (Real.sqrt (dot X X)) *
        Real.sqrt (dot X X) else a.vir) := by
  unfold kernel at h
  by_cases h0 : dot X X = 0
  · rw [if_pos h0] at h; cases h
  · rw [if_neg h0] at h
    exact ⟨h0, (Option.some.inj h).symm⟩

/-- Each call of the loop body leaves the total force unchanged. -/
theorem visit_sum {F : Force} {cutoff : ℝ} {doPot doVir : Bool} {w : Fin d → Option ℝ} {P : Parts d} {a a' : Acc d}
    {p : ℕ × ℕ} (h : visit F cutoff doPot doVir w P a p = some a') (s : Finset ℕ) (h1 : p.1 ∈ s) (h2 : p.2 ∈ s)
    (k : Fin d) : ∑ m ∈ s, a'.f m k = ∑ m ∈ s, a.f m k := by
  unfold visit at h
  simp only at h
  split_ifs at h with hc
  · obtain ⟨h0, rfl⟩ := kernel_eq h
    have e := fun g c n => sum_addAt s g h2 c n (fun _ => 1) k
    have e1 := fun g c n => sum_addAt s g h1 c n (fun _ => 1) k
    simp only [one_mul] at e e1
    rw [e, e1]; ring
  · cases h; rfl

theorem dolist_sum {F : Force} {cutoff : ℝ} {doPot doVir : Bool} {w : Fin d → Option ℝ} {P : Parts d}
    (l : List (ℕ × ℕ)) {a a' : Acc d} (h : dolist F cutoff doPot doVir w P l a = some a') (s : Finset ℕ)
    (hl : ∀ p ∈ l, p.1 ∈ s ∧ p.2 ∈ s) (k : Fin d) : ∑ m ∈ s, a'.f m k = ∑ m ∈ s, a.f m k := by
  induction l generalizing a with
  | nil =>
    simp only [dolist, List.foldlM_nil] at h
    cases h; rfl
  | cons p l ih =>
    simp only [dolist, List.foldlM_cons] at h
    obtain ⟨b, hb, hr⟩ := Option.bind_eq_some_iff.mp h
    rw [ih hr (fun q hq => hl q (List.mem_cons_of_mem _ hq)), visit_sum hb s (hl p (by simp)).1 (hl p (by simp)).2]

/-- **C34.** For each of the six central forces, all parameters, all states and all neighbour lists (plain and wrapped):
when `interact` is defined, the total force on any set of particles that contains the particles of the lists is the same
before and after, in each coordinate; so the interaction does not change the total momentum. -/
theorem C34_total_force (F : Force) (cutoff : ℝ) (doPot doVir : Bool) (w : Fin d → Option ℝ) (P : Parts d)
    (plain wrapped : List (ℕ × ℕ)) (f : ℕ → Fin d → ℝ) (a : Acc d)
    (h : interact F cutoff doPot doVir w P plain wrapped f = some a)
    (s : Finset ℕ) (hs : ∀ p ∈ plain ++ wrapped, p.1 ∈ s ∧ p.2 ∈ s) (k : Fin d) :
    ∑ m ∈ s, a.f m k = ∑ m ∈ s, f m k := by
  obtain ⟨b, hb, hr⟩ := Option.bind_eq_some_iff.mp h
  rw [dolist_sum wrapped hr s (fun p hp => hs p (List.mem_append_right _ hp)),
    dolist_sum plain hb s (fun p hp => hs p (List.mem_append_left _ hp))]

/-- **C34, pair by pair.** One call of a kernel for two particles changes the forces on these by opposite vectors along
the line of centres, and no other force. -/
theorem C34_third_law (F : Force) (doPot doVir : Bool) (P : Parts d) (i j : ℕ) (hij : i ≠ j) (X : Fin d → ℝ)
    (a a' : Acc d) (h : kernel F doPot doVir P i j X a = some a') :
    (∀ k, a'.f i k - a.f i k = -(a'.f j k - a.f j k)) ∧
    (∃ c : ℝ, ∀ k, a'.f i k - a.f i k = c * X k) ∧ (∀ m, m ≠ i → m ≠ j → a'.f m = a.f m) := by
  obtain ⟨h0, rfl⟩ := kernel_eq h
  refine ⟨?_, ?_, ?_⟩
  · intro k
    simp only [addAt]
    rw [Function.update_of_ne hij, Function.update_self, Function.update_self, Function.update_of_ne hij.symm]
    ring
  · refine ⟨F.mag P i j (fun k => X k * (1 / Real.sqrt (dot X X))) (Real.sqrt (dot X X)) * (1 / Real.sqrt (dot X X)), ?_⟩
    intro k
    simp only [addAt]
    rw [Function.update_of_ne hij, Function.update_self]
    ring
  · intro m hi hj
    simp only [addAt]
    rw [Function.update_of_ne hj, Function.update_of_ne hi]

/-- Spec: the displacement of a pair, as such or corrected to the nearest image. -/
noncomputable def sep (w : Fin d → Option ℝ) (P : Parts d) (p : ℕ × ℕ) : Fin d → ℝ := correct w (P.x p.1 - P.x p.2)

/-- Spec: length of a vector. -/
noncomputable def len (X : Fin d → ℝ) : ℝ := Real.sqrt (dot X X)

open Classical in
/-- Spec: component `k` of the force on particle `m` due to the pair `p`: along the line of centres, on the first particle
away from the second, on the second the opposite; none beyond the cutoff. -/
noncomputable def pairForce (F : Force) (cutoff : ℝ) (w : Fin d → Option ℝ) (P : Parts d) (m : ℕ) (k : Fin d) (p : ℕ × ℕ) : ℝ :=
  if len (sep w P p) ^ 2 < ((P.rd p.1 + P.rd p.2) * cutoff) ^ 2 then
    ((if m = p.1 then 1 else 0) - (if m = p.2 then 1 else 0)) *
      (F.mag P p.1 p.2 (fun l => sep w P p l / len (sep w P p)) (len (sep w P p)) * (sep w P p k / len (sep w P p)))
  else 0

open Classical in
/-- Spec: energy of the pair `p`. -/
noncomputable def pairPot (F : Force) (cutoff : ℝ) (w : Fin d → Option ℝ) (P : Parts d) (p : ℕ × ℕ) : ℝ :=
  if len (sep w P p) ^ 2 < ((P.rd p.1 + P.rd p.2) * cutoff) ^ 2 then F.pot P p.1 p.2 (len (sep w P p)) else 0

theorem len_sq (X : Fin d → ℝ) : len X ^ 2 = dot X X :=
  Real.sq_sqrt (sum_nonneg fun _ _ => mul_self_nonneg _)

theorem visit_super {F : Force} {cutoff : ℝ} {doPot doVir : Bool} {w : Fin d → Option ℝ} {P : Parts d} {a a' : Acc d}
    {p : ℕ × ℕ} (h : visit F cutoff doPot doVir w P a p = some a') :
    (∀ m k, a'.f m k = a.f m k + pairForce F cutoff w P m k p) ∧
      a'.pot = a.pot + if doPot then pairPot F cutoff w P p else 0 := by
  unfold visit at h
  simp only at h
  unfold pairForce pairPot
  simp only [len_sq]
  change (if dot (sep w P p) (sep w P p) < _ then _ else _) = _ at h
  by_cases hc : dot (sep w P p) (sep w P p) < ((P.rd p.1 + P.rd p.2) * cutoff) ^ 2
  · rw [if_pos hc] at h
    obtain ⟨h0, rfl⟩ := kernel_eq h
    change dot (sep w P p) (sep w P p) ≠ 0 at h0
    simp only [if_pos hc]
    constructor
    · intro m k
      change addAt (addAt a.f p.1 (F.mag P p.1 p.2 (fun k => sep w P p k * (1 / len (sep w P p))) (len (sep w P p)))
          (fun k => sep w P p k * (1 / len (sep w P p)))) p.2
          (-(F.mag P p.1 p.2 (fun k => sep w P p k * (1 / len (sep w P p))) (len (sep w P p))))
          (fun k => sep w P p k * (1 / len (sep w P p))) m k = _
      simp only [mul_one_div]
      have hadd : ∀ (f : ℕ → Fin d → ℝ) (i : ℕ) (c : ℝ) (X : Fin d → ℝ),
          addAt f i c X m k = f m k + (if m = i then 1 else 0) * (c * X k) := by
        intro f i c X
        unfold addAt
        by_cases hm : m = i
        · subst hm; rw [Function.update_self, if_pos rfl, one_mul]
        · rw [Function.update_of_ne hm, if_neg hm, zero_mul, add_zero]
      rw [hadd, hadd]
      ring
    · change (if doPot then a.pot + F.pot P p.1 p.2 (len (sep w P p)) else a.pot) = _
      split_ifs <;> simp
  · rw [if_neg hc] at h
    cases h
    simp only [if_neg hc]
    simp

theorem dolist_super {F : Force} {cutoff : ℝ} {doPot doVir : Bool} {w : Fin d → Option ℝ} {P : Parts d}
    (l : List (ℕ × ℕ)) {a a' : Acc d} (h : dolist F cutoff doPot doVir w P l a = some a') :
    (∀ m k, a'.f m k = a.f m k + (l.map (pairForce F cutoff w P m k)).sum) ∧
      a'.pot = a.pot + if doPot then (l.map (pairPot F cutoff w P)).sum else 0 := by
  induction l generalizing a with
  | nil =>
    simp only [dolist, List.foldlM_nil] at h
    cases h
    simp
  | cons p l ih =>
    simp only [dolist, List.foldlM_cons] at h
    obtain ⟨b, hb, hr⟩ := Option.bind_eq_some_iff.mp h
    obtain ⟨h1, h2⟩ := ih hr
    obtain ⟨h3, h4⟩ := visit_super hb
    constructor
    · intro m k
      rw [h1, h3, List.map_cons, List.sum_cons]; ring
    · rw [h2, h4, List.map_cons, List.sum_cons]
      split_ifs <;> ring

/-- **C34, superposition.** The forces after a defined call are those before plus, for each listed pair within the cutoff, the
force of the pair: taken between the positions themselves for the plain pairs, and to the nearest image for the wrapped pairs.
The reported energy is the sum of the energies of these pairs (zero if it is not requested). -/
theorem C34_superposition (F : Force) (cutoff : ℝ) (doPot doVir : Bool) (w : Fin d → Option ℝ) (P : Parts d)
    (plain wrapped : List (ℕ × ℕ)) (f : ℕ → Fin d → ℝ) (a : Acc d)
    (h : interact F cutoff doPot doVir w P plain wrapped f = some a) :
    (∀ m k, a.f m k = f m k + (plain.map (pairForce F cutoff (fun _ => none) P m k)).sum +
      (wrapped.map (pairForce F cutoff w P m k)).sum) ∧
    a.pot = if doPot then (plain.map (pairPot F cutoff (fun _ => none) P)).sum + (wrapped.map (pairPot F cutoff w P)).sum else 0 := by
  obtain ⟨b, hb, hr⟩ := Option.bind_eq_some_iff.mp h
  obtain ⟨h1, h2⟩ := dolist_super wrapped hr
  obtain ⟨h3, h4⟩ := dolist_super plain hb
  constructor
  · intro m k
    rw [h1, h3]
  · rw [h2, h4]
    split_ifs <;> simp

/-- A defined run: two particles at distance 1 with radii 1, hard spheres. -/
example : ∃ a, interact (d := 1) (.hardSphere 1) 1 true true (fun _ => none)
    ⟨fun i _ => i, fun _ _ => 0, fun _ => 1, fun _ => 1⟩ [(0, 1)] [] (fun _ _ => 0) = some a ∧ a.f 0 0 = -1 := by
  have hX : dot (d := 1) (correct (fun _ => none) ((fun (i : ℕ) (_ : Fin 1) => (i : ℝ)) 0 - (fun (i : ℕ) (_ : Fin 1) => (i : ℝ)) 1))
      (correct (fun _ => none) ((fun (i : ℕ) (_ : Fin 1) => (i : ℝ)) 0 - (fun (i : ℕ) (_ : Fin 1) => (i : ℝ)) 1)) = 1 := by
    simp [dot, correct]
  have hd : ∀ a, ∃ b, visit (d := 1) (.hardSphere 1) 1 true true (fun _ => none)
      ⟨fun i _ => i, fun _ _ => 0, fun _ => 1, fun _ => 1⟩ a (0, 1) = some b := by
    intro a
    unfold visit
    simp only [hX]
    rw [if_pos (by norm_num)]
    unfold kernel
    rw [if_neg (by simp only [hX]; norm_num)]
    exact ⟨_, rfl⟩
  obtain ⟨b, hb⟩ := hd ⟨fun _ _ => 0, 0, 0⟩
  refine ⟨b, ?_, ?_⟩
  · simp [interact, dolist, hb]
  · have hk : kernel _ _ _ _ _ _ _ _ = _ := (if_pos (by simp only [hX]; norm_num)).symm.trans hb
    obtain ⟨_, rfl⟩ := kernel_eq hk
    simp only [addAt]
    rw [Function.update_of_ne (by norm_num), Function.update_self]
    simp only [hX]
    simp [Force.mag, correct]

/-! ## Torque and virial -/

theorem correct_none (X : Fin d → ℝ) : correct (fun _ => none) X = X := rfl

theorem visit_torque {F : Force} {cutoff : ℝ} {doPot doVir : Bool} {P : Parts d} {a a' : Acc d} {p : ℕ × ℕ}
    (h : visit F cutoff doPot doVir (fun _ => none) P a p = some a') (s : Finset ℕ) (h1 : p.1 ∈ s) (h2 : p.2 ∈ s)
    (k l : Fin d) :
    ∑ m ∈ s, (P.x m k * a'.f m l - P.x m l * a'.f m k) = ∑ m ∈ s, (P.x m k * a.f m l - P.x m l * a.f m k) := by
  unfold visit at h
  simp only at h
  split_ifs at h with hc
  · obtain ⟨h0, rfl⟩ := kernel_eq h
    simp only [sum_sub_distrib, correct_none]
    rw [sum_addAt s _ h2, sum_addAt s _ h1, sum_addAt s _ h2, sum_addAt s _ h1]
    simp only [Pi.sub_apply]
    ring
  · cases h; rfl

/-- **C68.** For each of the six central forces and every plain neighbour list the total torque is not changed: for all
pairs of axes the sum of `x_k f_l - x_l f_k` over any set that contains the particles is the same before and after. -/
theorem C68_total_torque (F : Force) (cutoff : ℝ) (doPot doVir : Bool) (P : Parts d) (plain : List (ℕ × ℕ))
    (a a' : Acc d) (h : dolist F cutoff doPot doVir (fun _ => none) P plain a = some a')
    (s : Finset ℕ) (hs : ∀ p ∈ plain, p.1 ∈ s ∧ p.2 ∈ s) (k l : Fin d) :
    ∑ m ∈ s, (P.x m k * a'.f m l - P.x m l * a'.f m k) = ∑ m ∈ s, (P.x m k * a.f m l - P.x m l * a.f m k) := by
  induction plain generalizing a with
  | nil =>
    simp only [dolist, List.foldlM_nil] at h
    cases h; rfl
  | cons p q ih =>
    simp only [dolist, List.foldlM_cons] at h
    obtain ⟨b, hb, hr⟩ := Option.bind_eq_some_iff.mp h
    rw [ih b hr (fun r hr => hs r (List.mem_cons_of_mem _ hr)), visit_torque hb s (hs p (by simp)).1 (hs p (by simp)).2]

theorem dot_pos {X : Fin d → ℝ} (h : dot X X ≠ 0) : 0 < dot X X :=
  lt_of_le_of_ne (sum_nonneg fun k _ => mul_self_nonneg _) (Ne.symm h)

/-- **C69.** With the flag set, each kernel adds to the virial the scalar product of the force it puts on the first
particle and the displacement of the pair; without the flag the virial is not changed; the same flags do not influence the
forces. -/
theorem C69_virial (F : Force) (doPot doVir : Bool) (P : Parts d) (i j : ℕ) (hij : i ≠ j) (X : Fin d → ℝ)
    (a a' : Acc d) (h : kernel F doPot doVir P i j X a = some a') :
    a'.vir = a.vir + (if doVir then dot (a'.f i - a.f i) X else 0) ∧
    (∀ p v b, kernel F p v P i j X a = some b → b.f = a'.f) := by
  obtain ⟨h0, rfl⟩ := kernel_eq h
  constructor
  · cases doVir with
    | false => simp
    | true =>
      simp only [if_true]
      congr 1
      set r := Real.sqrt (dot X X) with hr
      have hrpos : 0 < r := Real.sqrt_pos.mpr (dot_pos h0)
      have hrr : r * r = dot X X := Real.mul_self_sqrt (dot_pos h0).le
      set M := F.mag P i j (fun k => X k * (1 / r)) r
      have : ∀ k, (addAt (addAt a.f i M (fun k => X k * (1 / r))) j (-M) (fun k => X k * (1 / r)) i - a.f i) k * X k =
          M * (1 / r) * (X k * X k) := by
        intro k
        simp only [addAt, Pi.sub_apply]
        rw [Function.update_of_ne hij, Function.update_self]
        ring
      unfold dot
      rw [sum_congr rfl (fun k _ => this k), ← mul_sum]
      change M * r = M * (1 / r) * dot X X
      rw [← hrr]
      field_simp
  · intro p v b hb
    obtain ⟨_, rfl⟩ := kernel_eq hb
    rfl

/-! ## Contact forces repel -/

theorem kernel_force {F : Force} {doPot doVir : Bool} {P : Parts d} {i j : ℕ} (hij : i ≠ j) {X : Fin d → ℝ}
    {a a' : Acc d} (h : kernel F doPot doVir P i j X a = some a') (k : Fin d) :
    a'.f i k = a.f i k + F.mag P i j (fun k => X k * (1 / Real.sqrt (dot X X))) (Real.sqrt (dot X X)) /
      Real.sqrt (dot X X) * X k := by
  obtain ⟨h0, rfl⟩ := kernel_eq h
  simp only [addAt]
  rw [Function.update_of_ne hij, Function.update_self]
  ring

/-- Spec: the call adds to the force on `i` the vector `c*X`, where `X` points from `j` to `i`, and the opposite to the
force on `j`. -/
def Pushes (a a' : Acc d) (i j : ℕ) (X : Fin d → ℝ) (c : ℝ) : Prop :=
  (∀ k, a'.f i k = a.f i k + c * X k) ∧ (∀ k, a'.f j k = a.f j k - c * X k)

theorem visit_pushes {F : Force} {cutoff : ℝ} {doPot doVir : Bool} {w : Fin d → Option ℝ} {P : Parts d} {a a' : Acc d}
    {i j : ℕ} (hij : i ≠ j) (hc : dot (correct w (P.x i - P.x j)) (correct w (P.x i - P.x j)) <
      ((P.rd i + P.rd j) * cutoff) ^ 2)
    (h : visit F cutoff doPot doVir w P a (i, j) = some a') :
    0 < dot (correct w (P.x i - P.x j)) (correct w (P.x i - P.x j)) ∧
    Pushes a a' i j (correct w (P.x i - P.x j))
      (F.mag P i j (fun k => correct w (P.x i - P.x j) k *
          (1 / Real.sqrt (dot (correct w (P.x i - P.x j)) (correct w (P.x i - P.x j)))))
        (Real.sqrt (dot (correct w (P.x i - P.x j)) (correct w (P.x i - P.x j)))) /
        Real.sqrt (dot (correct w (P.x i - P.x j)) (correct w (P.x i - P.x j)))) := by
  unfold visit at h
  simp only at h
  rw [if_pos hc] at h
  refine ⟨?_, kernel_force hij h, ?_⟩
  · exact dot_pos (kernel_eq h).1
  · intro k
    have h1 := (C34_third_law F doPot doVir P i j hij _ a a' h).1 k
    have h2 := kernel_force hij h k
    linarith

/-- **C35, hard spheres.** For `repulsion > 0`, cutoff 1 and non-negative radii: if the distance (with wrapping) is below
the sum of the radii the particles are pushed apart with positive strength `repulsion*(R1+R2-r)`; otherwise the call
changes nothing. -/
theorem C35_hard_sphere (kk : ℝ) (hk : 0 < kk) (doPot doVir : Bool) (w : Fin d → Option ℝ) (P : Parts d) (i j : ℕ)
    (hij : i ≠ j) (hri : 0 ≤ P.rd i) (hrj : 0 ≤ P.rd j) (a a' : Acc d)
    (h : visit (.hardSphere kk) 1 doPot doVir w P a (i, j) = some a') :
    let X := correct w (P.x i - P.x j)
    (Real.sqrt (dot X X) < P.rd i + P.rd j →
      ∃ c, 0 < c ∧ c * Real.sqrt (dot X X) = kk * (P.rd i + P.rd j - Real.sqrt (dot X X)) ∧ Pushes a a' i j X c) ∧
    (P.rd i + P.rd j ≤ Real.sqrt (dot X X) → a' = a) := by
  intro X
  have hnn : 0 ≤ dot X X := sum_nonneg fun k _ => mul_self_nonneg _
  constructor
  · intro hlt
    have hc : dot X X < ((P.rd i + P.rd j) * 1) ^ 2 := by
      rw [mul_one]; exact (Real.sqrt_lt' (by have := Real.sqrt_nonneg (dot X X); linarith)).mp hlt
    obtain ⟨h0, hp⟩ := visit_pushes hij hc h
    have hr : 0 < Real.sqrt (dot X X) := Real.sqrt_pos.mpr h0
    refine ⟨_, ?_, ?_, hp⟩
    · change 0 < kk * (P.rd i + P.rd j - Real.sqrt (dot X X)) / Real.sqrt (dot X X)
      apply div_pos _ hr
      exact mul_pos hk (by linarith)
    · change kk * (P.rd i + P.rd j - Real.sqrt (dot X X)) / Real.sqrt (dot X X) * Real.sqrt (dot X X) = _
      field_simp
  · intro hge
    unfold visit at h
    simp only at h
    rw [if_neg] at h
    · cases h; rfl
    · rw [mul_one, not_lt]
      exact (Real.le_sqrt (by linarith) hnn).mp hge

/-- **C35, dissipative hard spheres and Hertz contacts.** With damping the force never pulls the particles together, is
positive when they overlap and are not moving apart, and is absent when they do not overlap. -/
theorem C35_damped (F : Force) (hF : (∃ k g, F = .hardSphereDs k g ∧ 0 < k ∧ 0 ≤ g) ∨
      (∃ kn gn, F = .hertz kn gn ∧ 0 < kn ∧ 0 ≤ gn))
    (doPot doVir : Bool) (w : Fin d → Option ℝ) (P : Parts d) (i j : ℕ) (hij : i ≠ j)
    (hri : 0 < P.rd i) (hrj : 0 < P.rd j) (him : ∀ m, 0 ≤ P.im m) (a a' : Acc d)
    (h : visit F 1 doPot doVir w P a (i, j) = some a') :
    let X := correct w (P.x i - P.x j)
    (Real.sqrt (dot X X) < P.rd i + P.rd j →
      ∃ c, 0 ≤ c ∧ (dot (P.v i - P.v j) X ≤ 0 → 0 < c) ∧ Pushes a a' i j X c) ∧
    (P.rd i + P.rd j ≤ Real.sqrt (dot X X) → a' = a) := by
  intro X
  have hnn : 0 ≤ dot X X := sum_nonneg fun k _ => mul_self_nonneg _
  constructor
  · intro hlt
    have hc : dot X X < ((P.rd i + P.rd j) * 1) ^ 2 := by
      rw [mul_one]; exact (Real.sqrt_lt' (by have := Real.sqrt_nonneg (dot X X); linarith)).mp hlt
    obtain ⟨h0, hp⟩ := visit_pushes hij hc h
    have hr : 0 < Real.sqrt (dot X X) := Real.sqrt_pos.mpr h0
    have hdn : dot (P.v i - P.v j) (fun k => X k * (1 / Real.sqrt (dot X X))) =
        dot (P.v i - P.v j) X / Real.sqrt (dot X X) := by
      unfold dot
      rw [sum_div]
      exact sum_congr rfl (fun k _ => by ring)
    have hdn' : dot (P.v j - P.v i) (fun k => X k * (1 / Real.sqrt (dot X X))) =
        -(dot (P.v i - P.v j) X / Real.sqrt (dot X X)) := by
      rw [← hdn]
      unfold dot
      rw [← sum_neg_distrib]
      exact sum_congr rfl (fun k _ => by simp only [Pi.sub_apply]; ring)
    refine ⟨_, ?_, ?_, hp⟩
    · apply div_nonneg _ hr.le
      rcases hF with ⟨k, g, rfl, _, _⟩ | ⟨kn, gn, rfl, _, _⟩
      · exact le_max_left _ _
      · simp only [Force.mag, hertzMag]
        split_ifs
        · exact le_rfl
        · exact le_max_left _ _
    · intro happ
      apply div_pos _ hr
      have hq : dot (P.v i - P.v j) X / Real.sqrt (dot X X) ≤ 0 := div_nonpos_of_nonpos_of_nonneg happ hr.le
      rcases hF with ⟨k, g, rfl, hk, hg⟩ | ⟨kn, gn, rfl, hk, hg⟩
      · simp only [Force.mag]
        apply lt_max_of_lt_right
        change 0 < k * (P.rd i + P.rd j - Real.sqrt (dot X X)) + g * dot (P.v j - P.v i) (fun k => X k * (1 / Real.sqrt (dot X X)))
        rw [hdn']
        have := mul_pos hk (show 0 < P.rd i + P.rd j - Real.sqrt (dot X X) by linarith)
        have := mul_nonneg hg (neg_nonneg.mpr hq)
        linarith
      · simp only [Force.mag, hertzMag]
        rw [if_neg (by change ¬ P.rd i + P.rd j - Real.sqrt (dot X X) < 0; linarith)]
        apply lt_max_of_lt_right
        change 0 < Real.sqrt ((P.rd i + P.rd j - Real.sqrt (dot X X)) * _) *
          (kn * (P.rd i + P.rd j - Real.sqrt (dot X X)) -
            _ * gn * dot (P.v i - P.v j) (fun k => X k * (1 / Real.sqrt (dot X X))))
        rw [hdn]
        have hδ : 0 < P.rd i + P.rd j - Real.sqrt (dot X X) := by linarith
        have hm : 0 ≤ meff (P.im i) (P.im j) := by
          unfold meff
          split_ifs
          · norm_num
          · have := him i; have := him j; positivity
        apply mul_pos
        · apply Real.sqrt_pos.mpr; positivity
        · have := mul_pos hk hδ
          have : meff (P.im i) (P.im j) * gn * (dot (P.v i - P.v j) X / Real.sqrt (dot X X)) ≤ 0 :=
            mul_nonpos_of_nonneg_of_nonpos (mul_nonneg hm hg) hq
          linarith
  · intro hge
    unfold visit at h
    simp only at h
    rw [if_neg] at h
    · cases h; rfl
    · rw [mul_one, not_lt]
      exact (Real.le_sqrt (by linarith) hnn).mp hge

/-- The hypotheses are met: overlapping particles that approach each other. -/
example : ∃ P : Parts 1, 0 < P.rd 0 ∧ 0 < P.rd 1 ∧ (∀ m, 0 ≤ P.im m) ∧
    Real.sqrt (dot (P.x 0 - P.x 1) (P.x 0 - P.x 1)) < P.rd 0 + P.rd 1 ∧ dot (P.v 0 - P.v 1) (P.x 0 - P.x 1) ≤ 0 := by
  refine ⟨⟨fun i _ => i, fun i _ => if i = 0 then 1 else 0, fun _ => 1, fun _ => 1⟩, by norm_num, by norm_num,
    by norm_num, ?_, ?_⟩
  · simp [dot]
  · simp [dot]

/-! ## Potentials -/

/-- The Lennard-Jones object: `strength`, `cutoff`, `potential_energy_shift`, `interactions/generic-forces.hpp:262-267`. -/
structure LJ where
  strength : ℝ
  cutoff : ℝ
  shift : ℝ

/-- `setCutoff`, `interactions/generic-forces.hpp:202-211`. -/
noncomputable def LJ.setCutoff (o : LJ) (c : ℝ) : LJ :=
  let cut := if c > 0 then c else o.cutoff
  let g := 1 / cut
  let g3 := g * g * g
  let g6 := g3 * g3
  let g12 := g6 * g6
  { o with cutoff := cut, shift := 4 * o.strength * (g12 - g6) }

/-- The constructor, `interactions/generic-forces.hpp:197-199`; the cutoff of the base class is 1. -/
noncomputable def LJ.new (strength : ℝ) : LJ := LJ.setCutoff ⟨strength, 1, 0⟩ (5/2)

/-- `parse_construct`, `interactions/generic-forces.hpp:248-260`: `cut` is -1 if the file has no cutoff, `strength` is
`none` if the file has none. -/
noncomputable def LJ.parse (o : LJ) (strength : Option ℝ) (cut : Option ℝ) : LJ :=
  LJ.setCutoff { o with strength := strength.getD o.strength } (cut.getD (-1))

/-- Objects that calls of the interface can produce. -/
inductive LJ.Reach : LJ → Prop
  | new (s : ℝ) : LJ.Reach (LJ.new s)
  | setCutoff (o : LJ) (c : ℝ) : LJ.Reach o → LJ.Reach (o.setCutoff c)
  | parse (o : LJ) (s c : Option ℝ) : LJ.Reach o → LJ.Reach (o.parse s c)

theorem LJ.reach_inv {o : LJ} (h : o.Reach) :
    0 < o.cutoff ∧ o.shift = 4 * o.strength * ((1 / o.cutoff) ^ 12 - (1 / o.cutoff) ^ 6) := by
  have hset : ∀ (o : LJ) (c : ℝ), 0 < o.cutoff → 0 < (o.setCutoff c).cutoff ∧ (o.setCutoff c).shift =
      4 * (o.setCutoff c).strength * ((1 / (o.setCutoff c).cutoff) ^ 12 - (1 / (o.setCutoff c).cutoff) ^ 6) := by
    intro o c h
    unfold LJ.setCutoff
    constructor
    · simp only; split_ifs with hc
      · exact hc
      · exact h
    · simp only; ring
  induction h with
  | new s => exact hset _ _ (by norm_num)
  | setCutoff o c _ ih => exact hset o c ih.1
  | parse o s c _ ih => exact hset _ _ ih.1

/-- **C37, Lennard-Jones.** For every object that the interface can produce and radii with sum `R > 0`: the potential
added by the kernel is zero at the distance `R*cutoff` where the force is cut off, and at every positive distance the
force is minus the derivative of the potential.
Missing: the Coulomb and Buckingham forces, see `C37_negation_coulomb_shift` and the theorems after it. -/
theorem C37_lennard_jones_partial (o : LJ) (ho : o.Reach) (R : ℝ) (hR : 0 < R) :
    ljPot o.strength o.shift R (R * o.cutoff) = 0 ∧
    ∀ r, 0 < r → HasDerivAt (ljPot o.strength o.shift R) (-(ljMag o.strength R r)) r := by
  obtain ⟨hc, hs⟩ := LJ.reach_inv ho
  constructor
  · unfold ljPot
    rw [hs]
    have hg : R * (1 / (R * o.cutoff)) = 1 / o.cutoff := by field_simp
    simp only [hg]
    ring
  · intro r hr
    have hinv : HasDerivAt (fun r : ℝ => R * (1 / r)) (R * (-(r ^ 2)⁻¹)) r := by
      have := (hasDerivAt_inv hr.ne').const_mul R
      simpa [one_div] using this
    have h6 := hinv.pow 6
    have h12 := hinv.pow 12
    have hall := ((h12.sub h6).const_mul (4 * o.strength)).sub_const o.shift
    have hf : ljPot o.strength o.shift R =
        fun x => 4 * o.strength * (((fun r : ℝ => R * (1 / r)) ^ 12 - (fun r : ℝ => R * (1 / r)) ^ 6) x) - o.shift := by
      funext x
      simp only [ljPot, Pi.sub_apply, Pi.pow_apply]
      ring
    rw [hf]
    refine hall.congr_deriv ?_
    simp only [ljMag, Nat.reduceSub]
    field_simp
    push_cast
    ring

/-- The hypotheses are met by the object with default cutoff 5/2. -/
example : (LJ.new 1).Reach ∧ (LJ.new 1).cutoff = 5/2 := by
  refine ⟨.new 1, ?_⟩
  simp [LJ.new, LJ.setCutoff]

/-- **C37, hard spheres.** The potential is zero at contact and the force is minus its derivative. -/
theorem C37_hard_sphere (k : ℝ) (P : Parts d) (i j : ℕ) (n : Fin d → ℝ) :
    (Force.hardSphere k).pot P i j (P.rd i + P.rd j) = 0 ∧
    ∀ r, HasDerivAt ((Force.hardSphere k).pot P i j) (-((Force.hardSphere k).mag P i j n r)) r := by
  constructor
  · simp [Force.pot]
  · intro r
    have h := (((hasDerivAt_id r).sub_const (P.rd i)).sub_const (P.rd j)).pow 2
    have h2 := h.const_mul (1/2 * k)
    have hf : (Force.hardSphere k).pot P i j = fun y => 1/2 * k * (((fun x => id x - P.rd i - P.rd j) ^ 2) y) := by
      funext y; simp [Force.pot]
    rw [hf]
    refine h2.congr_deriv ?_
    simp only [Force.mag, id]
    push_cast
    ring

/-- `CoulombGeneric::setCutoff`, `interactions/generic-forces.hpp:300-304`: the shift for a given cutoff. -/
noncomputable def coulombShift (s cutoff : ℝ) : ℝ := s / cutoff

/-- **C37 is false of the Coulomb force (shift).** The pair is cut off at distance `(R1+R2)*cutoff`, but the shift is made
for the distance `cutoff`: the potential there is zero exactly when `R1+R2 = 1`. -/
theorem C37_negation_coulomb_shift (s cutoff R : ℝ) (hs : s ≠ 0) (hc : 0 < cutoff) (hR : 0 < R) :
    coulombPot s (coulombShift s cutoff) (R * cutoff) = 0 ↔ R = 1 := by
  unfold coulombPot coulombShift
  constructor
  · intro h
    have h1 : s / (R * cutoff) = s / cutoff := by linarith
    rw [div_eq_div_iff (by positivity) hc.ne'] at h1
    have h2 : cutoff * (s * (1 - R)) = 0 := by linear_combination h1
    rcases mul_eq_zero.mp h2 with h3 | h3
    · exact absurd h3 hc.ne'
    · rcases mul_eq_zero.mp h3 with h4 | h4
      · exact absurd h4 hs
      · linarith
  · rintro rfl; rw [one_mul, sub_self]

/-- **C37 is false of the Coulomb force (derivative).** At every distance the force differs from minus the derivative of
the potential by the constant `s/cutoff²`. -/
theorem C37_negation_coulomb_derivative (s cutoff shift r : ℝ) (hr : 0 < r) :
    HasDerivAt (coulombPot s shift) (-(coulombMag s cutoff r + s / cutoff ^ 2)) r := by
  have h := ((hasDerivAt_inv hr.ne').const_mul s).sub_const shift
  have hf : coulombPot s shift = fun y => s * y⁻¹ - shift := by
    funext y; simp [coulombPot, div_eq_mul_inv]
  rw [hf]
  refine h.congr_deriv ?_
  simp only [coulombMag]
  field_simp
  ring

/-- **C38 (partial).** The Buckingham force is never above the inner force.
Missing: that it is repulsive at small distances, which is false: `C38_negation`. -/
theorem C38_capped_partial (s ratio inner R r : ℝ) : buckMag s ratio inner R r ≤ inner := min_le_left _ _

/-- **C38 is false of the code.** `inner_force` is -1 and is never changed, so at every distance, for all strengths, ratios
and radii, the Buckingham force pulls the particles together with at least unit strength. -/
theorem C38_negation (s ratio R r : ℝ) : buckMag s ratio (-1) R r ≤ -1 := min_le_left _ _

/-- **C37 is false of the Buckingham force.** Also without the cap the force is not minus the derivative of the potential
unless the distance is the sum of the radii: the exponential term of the kernel has `1/r` where the derivative has
`1/(R1+R2)`. -/
theorem C37_negation_buckingham (s ratio R r shift : ℝ) (hR : 0 < R) (hr : 0 < r) :
    HasDerivAt (buckPot s ratio shift R)
      (-(s * (1 / r) * (ratio * Real.exp (-ratio / (R * (1 / r))) - 6 * (R * (1 / r)) ^ 6)
        + s * ratio * Real.exp (-ratio / (R * (1 / r))) * (1 / R - 1 / r))) r := by
  have hinv : HasDerivAt (fun r : ℝ => R * (1 / r)) (R * (-(r ^ 2)⁻¹)) r := by
    have := (hasDerivAt_inv hr.ne').const_mul R
    simpa [one_div] using this
  have h6 := hinv.pow 6
  have hlin : HasDerivAt (fun y : ℝ => -ratio / R * y) (-ratio / R) r := by
    simpa using (hasDerivAt_id r).const_mul (-ratio / R)
  have hexp := hlin.exp
  have hall := ((hexp.sub h6).const_mul s).sub_const shift
  have hloc : buckPot s ratio shift R =ᶠ[nhds r]
      fun y => s * (((fun y => Real.exp (-ratio / R * y)) - (fun r : ℝ => R * (1 / r)) ^ 6) y) - shift := by
    filter_upwards [lt_mem_nhds hr] with y hy
    have : -ratio / (R * (1 / y)) = -ratio / R * y := by field_simp
    simp only [buckPot, Pi.sub_apply, Pi.pow_apply, this]
    ring
  refine HasDerivAt.congr_of_eventuallyEq ?_ hloc
  refine hall.congr_deriv ?_
  have e1 : -ratio / (R * (1 / r)) = -ratio / R * r := by field_simp
  rw [e1]
  simp only [Nat.reduceSub]
  field_simp
  push_cast
  ring

/-! ## Hooke contacts with friction in two dimensions -/

/-- What the Hooke kernel writes. -/
structure HAcc where
  f : ℕ → Fin 2 → ℝ
  tq : ℕ → ℝ
  vir : ℝ

/-- Parameters of `HookeGeneric`, `interactions/generic-forces.hpp:799-811`. -/
structure Hooke where
  kn : ℝ
  gn : ℝ
  gt : ℝ
  mu : ℝ

/-- The normal force, `interactions/generic-forces.hpp:702-717`. -/
noncomputable def Hooke.normal (H : Hooke) (P : Parts 2) (i j : ℕ) (n : Fin 2 → ℝ) (r : ℝ) : ℝ :=
  max 0 (H.kn * (P.rd i + P.rd j - r) - meff (P.im i) (P.im j) * H.gn * dot (P.v i - P.v j) n)

/-- The tangential force, `interactions/generic-forces.hpp:724-752`. -/
noncomputable def Hooke.tangential (H : Hooke) (P : Parts 2) (om : ℕ → ℝ) (i j : ℕ) (n : Fin 2 → ℝ) (r : ℝ) : ℝ :=
  let V := P.v i - P.v j
  let vn := dot V n
  let Vt : Fin 2 → ℝ := fun k => V k - n k * vn
  let Nt : Fin 2 → ℝ := ![-(n 1), n 0]
  let vt := dot Vt Nt - (om i * P.rd i + om j * P.rd j)
  let Fn := H.normal P i j n r
  let Ft := -(meff (P.im i) (P.im j) * H.gt * vt)
  let maxF := H.mu * Fn
  if Ft < -maxF then -(H.mu * Fn) else if maxF < Ft then H.mu * Fn else Ft

open Classical in
/-- The Hooke kernel for two dimensions, `interactions/generic-forces.hpp:694-771`. Line 721 adds the second normal force
to `f1(id0)`, not `f1(id1)`; for two owned particles `f0` and `f1` are the same array. -/
noncomputable def hookeKernel (H : Hooke) (doVir : Bool) (P : Parts 2) (om : ℕ → ℝ) (i j : ℕ) (X : Fin 2 → ℝ) (a : HAcc) :
    Option HAcc :=
  if dot X X = 0 then none
  else
    let r := Real.sqrt (dot X X)
    let n : Fin 2 → ℝ := fun k => X k * (1 / r)
    let Fn := H.normal P i j n r
    let Ft := H.tangential P om i j n r
    let Nt : Fin 2 → ℝ := ![-(n 1), n 0]
    let f := addAt (addAt a.f i Fn n) i (-Fn) n
    let f := addAt (addAt f i Ft Nt) j (-Ft) Nt
    let tq := Function.update a.tq i (a.tq i - Ft * P.rd i)
    let tq := Function.update tq j (tq j - Ft * P.rd j)
    some ⟨f, tq, if doVir then a.vir + Fn * r else a.vir⟩

/-- Result of a defined call. -/
theorem hookeKernel_eq {H : Hooke} {doVir : Bool} {P : Parts 2} {om : ℕ → ℝ} {i j : ℕ} {X : Fin 2 → ℝ} {a a' : HAcc}
    (h : hookeKernel H doVir P om i j X a = some a') :
    dot X X ≠ 0 ∧ ∃ n : Fin 2 → ℝ, ∃ r Fn Ft, r = Real.sqrt (dot X X) ∧ n = (fun k => X k * (1 / r)) ∧
      Fn = H.normal P i j n r ∧ Ft = H.tangential P om i j n r ∧
      a'.f = addAt (addAt (addAt (addAt a.f i Fn n) i (-Fn) n) i Ft ![-(n 1), n 0]) j (-Ft) ![-(n 1), n 0] ∧
      a'.tq = Function.update (Function.update a.tq i (a.tq i - Ft * P.rd i)) j
        (Function.update a.tq i (a.tq i - Ft * P.rd i) j - Ft * P.rd j) := by
  unfold hookeKernel at h
  by_cases h0 : dot X X = 0
  · rw [if_pos h0] at h; cases h
  · rw [if_neg h0] at h
    have h := (Option.some.inj h).symm
    subst h
    exact ⟨h0, _, _, _, _, rfl, rfl, rfl, rfl, rfl, rfl⟩

/-- **C36 (partial).** For every defined call of the Hooke kernel with two different particles and `mu ≥ 0`, the changes of
the two forces are opposite, they are perpendicular to the line of centres, and their magnitude is at most `mu` times the
normal force. The torques on the two particles change by the tangential force times the radii.
Missing: the normal part of the pair force, see `C36_negation_no_repulsion`. -/
theorem C36_tangential_partial (H : Hooke) (hmu : 0 ≤ H.mu) (doVir : Bool) (P : Parts 2) (om : ℕ → ℝ) (i j : ℕ)
    (hij : i ≠ j) (X : Fin 2 → ℝ) (a a' : HAcc) (h : hookeKernel H doVir P om i j X a = some a') :
    (∀ k, a'.f i k - a.f i k = -(a'.f j k - a.f j k)) ∧ (∀ m, m ≠ i → m ≠ j → a'.f m = a.f m) ∧
    ∃ Ft : ℝ, |Ft| ≤ H.mu * H.normal P i j (fun k => X k * (1 / Real.sqrt (dot X X))) (Real.sqrt (dot X X)) ∧
      (∀ k, a'.f i k - a.f i k = Ft * (![-(X 1), X 0] k / Real.sqrt (dot X X))) ∧
      a'.tq i = a.tq i - Ft * P.rd i ∧ a'.tq j = a.tq j - Ft * P.rd j := by
  obtain ⟨h0, n, r, Fn, Ft, hr, hn, hFn, hFt, hf, ht⟩ := hookeKernel_eq h
  have hi : ∀ k, a'.f i k = a.f i k + Ft * ![-(n 1), n 0] k := by
    intro k
    rw [hf]
    simp only [addAt]
    rw [Function.update_of_ne hij, Function.update_self, Function.update_self, Function.update_self]
    ring
  have hj : ∀ k, a'.f j k = a.f j k - Ft * ![-(n 1), n 0] k := by
    intro k
    rw [hf]
    simp only [addAt]
    rw [Function.update_self, Function.update_of_ne hij.symm, Function.update_of_ne hij.symm,
      Function.update_of_ne hij.symm]
    ring
  refine ⟨?_, ?_, Ft, ?_, ?_, ?_, ?_⟩
  · intro k; rw [hi, hj]; ring
  · intro m hmi hmj
    rw [hf]
    simp only [addAt]
    rw [Function.update_of_ne hmj, Function.update_of_ne hmi, Function.update_of_ne hmi, Function.update_of_ne hmi]
  · rw [← hr, ← hn, ← hFn]
    have hp : 0 ≤ H.mu * Fn := mul_nonneg hmu (by rw [hFn]; exact le_max_left _ _)
    rw [hFt]
    unfold Hooke.tangential
    simp only
    rw [← hFn]
    split_ifs with h1 h2
    · rw [abs_neg, abs_of_nonneg hp]
    · rw [abs_of_nonneg hp]
    · rw [abs_le]; exact ⟨not_lt.mp h1, not_lt.mp h2⟩
  · intro k
    rw [hi, ← hr, hn]
    fin_cases k
    · simp only [Fin.zero_eta, Matrix.cons_val_zero]; ring
    · simp only [Fin.mk_one, Matrix.cons_val_one, Matrix.cons_val_fin_one]; ring
  · rw [ht, Function.update_of_ne hij, Function.update_self]
  · rw [ht, Function.update_self, Function.update_of_ne hij.symm]

/-- **C36 is false of the code (no repulsion).** For all states and all parameters the Hooke kernel adds nothing along the
line of centres: both normal forces are added to the first particle and cancel, so overlapping particles are not pushed
apart. -/
theorem C36_negation_no_repulsion (H : Hooke) (doVir : Bool) (P : Parts 2) (om : ℕ → ℝ) (i j : ℕ)
    (hij : i ≠ j) (X : Fin 2 → ℝ) (a a' : HAcc) (h : hookeKernel H doVir P om i j X a = some a') :
    dot (a'.f i - a.f i) X = 0 ∧ dot (a'.f j - a.f j) X = 0 := by
  obtain ⟨h0, n, r, Fn, Ft, hr, hn, hFn, hFt, hf, ht⟩ := hookeKernel_eq h
  constructor
  · rw [hf]
    simp only [dot, Fin.sum_univ_two, Pi.sub_apply, addAt]
    rw [Function.update_of_ne hij, Function.update_self, Function.update_self, Function.update_self]
    simp [hn]
    ring
  · rw [hf]
    simp only [dot, Fin.sum_univ_two, Pi.sub_apply, addAt]
    rw [Function.update_self, Function.update_of_ne hij.symm, Function.update_of_ne hij.symm,
      Function.update_of_ne hij.symm]
    simp [hn]
    ring

/-- The kernel is defined for two particles at distance 1. -/
example : ∃ a', hookeKernel ⟨5000, 1000, 700, 1/2⟩ true ⟨fun i k => if k = 0 then i else 0, fun _ _ => 0, fun _ => 1,
    fun _ => 1⟩ (fun _ => 0) 0 1 (fun k => if k = 0 then -1 else 0) ⟨fun _ _ => 0, fun _ => 0, 0⟩ = some a' := by
  unfold hookeKernel
  rw [if_neg (by simp [dot])]
  exact ⟨_, rfl⟩

end Verif.PairForces
