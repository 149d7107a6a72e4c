import Mathlib.Algebra.Order.Field.Basic
import Mathlib.Algebra.Order.BigOperators.Group.List
import Mathlib.Algebra.BigOperators.Group.List.Basic
import Mathlib.Algebra.BigOperators.Ring.List
import Mathlib.Order.WithBot
import Mathlib.Order.Bounds.Basic
import Mathlib.Data.Rat.Defs
import Mathlib.Algebra.Order.Ring.Rat
import Mathlib.Tactic.Linarith
import Mathlib.Tactic.Ring
import Mathlib.Tactic.FieldSimp
import Mathlib.Tactic.Positivity

/-!
# The particle summary

Models the parts of `DataMaster::writeSummary` and `DataMaster::writeParticleData` (`base/datamaster.cpp`) that describe the particles.
Numbers are elements of an ordered field; an infinite value (a division by a zero inverse mass) is `⊤`, a value that is not a number is
`none`.
-/
namespace Verif.Summary

variable {α : Type*} [Field α] [LinearOrder α] [IsStrictOrderedRing α]

/-- What the summary reads of a particle, `base/datamaster.cpp:706-740`: type, inverse mass, radius, speed (`magnitudeVec` of the velocity). -/
structure P (α : Type*) where
  ty : ℤ
  im : α
  sg : α
  speed : α
  deriving DecidableEq

/-- The particles that the loop does not skip, `base/datamaster.cpp:714`. -/
def P.counted (p : P α) : Bool := !(p.ty < 0 || p.im ≤ 0)

/-- `1./Im`, `base/datamaster.cpp:706`, `726`. -/
def invMass (p : P α) : WithTop α := if p.im = 0 then ⊤ else ((1 / p.im : α) : WithTop α)

/-- The mass, `base/datamaster.cpp:726`. -/
def mass (p : P α) : α := 1 / p.im

/-- The density, `base/datamaster.cpp:731`; `vol` is `sphere_volume`. -/
def density (vol : α → α) (p : P α) : α := 1 / (p.im * vol p.sg)

/-- The value called kinetic energy in the loop, `base/datamaster.cpp:736`: without the factor one half. -/
def ke2 (p : P α) : α := p.speed * p.speed * (1 / p.im)

/-- Minimum and maximum along the loop, `base/datamaster.cpp:718-719` (and the same for the other quantities). The loop over five quantities is
modelled as five loops, as they do not influence each other. -/
def range (s : WithTop α × WithTop α) : List α → WithTop α × WithTop α
  | [] => s
  | x :: xs => range (if (x : WithTop α) < s.1 then (x : WithTop α) else s.1, if s.2 < (x : WithTop α) then (x : WithTop α) else s.2) xs

/-- The sum along the loop, `base/datamaster.cpp:717`. -/
def total (s : α) : List α → α
  | [] => s
  | x :: xs => total (s + x) xs

/-- A line of the summary: the average, and the minimum and maximum; `none`: not a number. -/
structure Line (α : Type*) where
  ave : Option α
  range : Option (WithTop α × WithTop α)

/-- The quantities of the summary, `base/datamaster.cpp:716-740`: `f` is accumulated for the particles that are not skipped, `init` is the value for
particle 0 (`base/datamaster.cpp:705-710`), `w` the factor of the normalisation (`base/datamaster.cpp:745-750`). -/
def line (f : P α → α) (init : P α → Option (WithTop α)) (w : α) (ps : List (P α)) : Line α :=
  let c := ps.filter P.counted
  { ave := if c.length = 0 then none else some (total 0 (c.map f) * (w * (1 / (c.length : α))))
    range := match ps with
      | [] => none
      | p :: _ => (init p).map fun x => range (x, x) (c.map f) }

/-- The line for the radius, `base/datamaster.cpp:705`, `716-719`, `746`. -/
def sigmaLine (ps : List (P α)) : Line α := line P.sg (fun p => some (p.sg : WithTop α)) 1 ps

/-- The line for the speed, `base/datamaster.cpp:708`, `721-724`, `749`. -/
def speedLine (ps : List (P α)) : Line α := line P.speed (fun p => some (p.speed : WithTop α)) 1 ps

/-- The line for the mass, `base/datamaster.cpp:705`, `726-729`, `747`. -/
def massLine (ps : List (P α)) : Line α := line mass (fun p => some (invMass p)) 1 ps

/-- The line for the density, `base/datamaster.cpp:707`, `731-734`, `748`. -/
def densityLine (vol : α → α) (ps : List (P α)) : Line α :=
  line (density vol) (fun p => some (if p.im * vol p.sg = 0 then ⊤ else ((density vol p : α) : WithTop α))) 1 ps

/-- The line for the kinetic energy, `base/datamaster.cpp:709`, `736-739`, `750`: zero times infinity is not a number. -/
def kineticLine (ps : List (P α)) : Line α :=
  line ke2 (fun p => if p.im = 0 then (if p.speed = 0 then none else some ⊤) else some ((ke2 p : α) : WithTop α)) (1 / 2) ps

/-! ## Specification -/

/-- The movable particles that are not removed. -/
def Movable (ps : List (P α)) : List (P α) := ps.filter fun p => 0 ≤ p.ty ∧ 0 < p.im

/-- The kinetic energy of a particle, one half of mass times speed squared. -/
def kinetic (p : P α) : α := 1 / 2 * (1 / p.im) * p.speed ^ 2

/-- The average of a quantity over a list. -/
def mean (f : P α → α) (l : List (P α)) : α := (l.map f).sum / l.length

/-- `a` and `b` are the smallest and largest value of `f` on the list. -/
def Extremes (f : P α → α) (l : List (P α)) (a b : α) : Prop :=
  (∀ p ∈ l, a ≤ f p ∧ f p ≤ b) ∧ (∃ p ∈ l, f p = a) ∧ ∃ p ∈ l, f p = b

theorem counted_eq (ps : List (P α)) : ps.filter P.counted = Movable ps := by
  unfold Movable
  congr 1
  funext p
  rw [Bool.eq_iff_iff]
  simp [P.counted]

theorem total_eq (s : α) (l : List α) : total s l = s + l.sum := by
  induction l generalizing s with
  | nil => simp [total]
  | cons x xs ih => simp [total, ih, add_assoc]

theorem range_bounds (l : List α) (s : WithTop α × WithTop α) : (range s l).1 ≤ s.1 ∧ s.2 ≤ (range s l).2 ∧
    (∀ x ∈ l, (range s l).1 ≤ x ∧ (x : WithTop α) ≤ (range s l).2) ∧
    ((range s l).1 = s.1 ∨ ∃ x ∈ l, (range s l).1 = x) ∧ ((range s l).2 = s.2 ∨ ∃ x ∈ l, (range s l).2 = x) := by
  induction l generalizing s with
  | nil => simp [range]
  | cons x xs ih =>
    obtain ⟨a, b, c, d, e⟩ := ih (if (x : WithTop α) < s.1 then (x : WithTop α) else s.1, if s.2 < (x : WithTop α) then (x : WithTop α) else s.2)
    rw [range]
    dsimp only at a b d e
    refine ⟨?_, ?_, ?_, ?_, ?_⟩
    · refine a.trans ?_
      split
      · rename_i h; exact h.le
      · exact le_rfl
    · refine le_trans ?_ b
      split
      · rename_i h; exact h.le
      · exact le_rfl
    · intro y hy
      rcases List.mem_cons.1 hy with rfl | hy
      · refine ⟨a.trans ?_, le_trans ?_ b⟩
        · split
          · exact le_rfl
          · rename_i h; exact not_lt.1 h
        · split
          · exact le_rfl
          · rename_i h; exact not_lt.1 h
      · exact c y hy
    · rcases d with d | ⟨y, hy, d⟩
      · rw [d]
        split
        · right; exact ⟨x, by simp, rfl⟩
        · left; rfl
      · right; exact ⟨y, by simp [hy], d⟩
    · rcases e with e | ⟨y, hy, e⟩
      · rw [e]
        split
        · right; exact ⟨x, by simp, rfl⟩
        · left; rfl
      · right; exact ⟨y, by simp [hy], e⟩

theorem line_ave (f : P α → α) (init) (w : α) (ps : List (P α)) (h : Movable ps ≠ []) :
    (line f init w ps).ave = some (w * mean f (Movable ps)) := by
  have : (Movable ps).length ≠ 0 := by simpa using h
  simp only [line, counted_eq, this, if_false, total_eq, zero_add, mean, Option.some.injEq]
  ring

/-- If particle 0 is movable, and its start value is that of the loop, the range of a line is exactly that of the movable particles. -/
theorem line_range (f : P α → α) (init) (w : α) (p : P α) (ps : List (P α)) (hp : p ∈ Movable (p :: ps)) (hi : init p = some (f p : WithTop α)) :
    ∃ a b : α, (line f init w (p :: ps)).range = some ((a : WithTop α), (b : WithTop α)) ∧ Extremes f (Movable (p :: ps)) a b := by
  obtain ⟨_, _, c, d, e⟩ := range_bounds ((Movable (p :: ps)).map f) ((f p : WithTop α), (f p : WithTop α))
  have hl : (line f init w (p :: ps)).range = some (range ((f p : WithTop α), (f p : WithTop α)) ((Movable (p :: ps)).map f)) := by
    simp only [line, counted_eq, hi, Option.map_some]
  have mem1 : ∃ q ∈ Movable (p :: ps), (range ((f p : WithTop α), (f p : WithTop α)) ((Movable (p :: ps)).map f)).1 = (f q : WithTop α) := by
    rcases d with d | ⟨x, hx, d⟩
    · exact ⟨p, hp, d⟩
    · obtain ⟨q, hq, rfl⟩ := List.mem_map.1 hx; exact ⟨q, hq, d⟩
  have mem2 : ∃ q ∈ Movable (p :: ps), (range ((f p : WithTop α), (f p : WithTop α)) ((Movable (p :: ps)).map f)).2 = (f q : WithTop α) := by
    rcases e with e | ⟨x, hx, e⟩
    · exact ⟨p, hp, e⟩
    · obtain ⟨q, hq, rfl⟩ := List.mem_map.1 hx; exact ⟨q, hq, e⟩
  obtain ⟨q1, hq1, h1⟩ := mem1
  obtain ⟨q2, hq2, h2⟩ := mem2
  refine ⟨f q1, f q2, ?_, ?_, ⟨q1, hq1, rfl⟩, ⟨q2, hq2, rfl⟩⟩
  · rw [hl, ← h1, ← h2]
  · intro q hq
    have := c (f q) (List.mem_map_of_mem hq)
    rw [h1, h2] at this
    exact ⟨WithTop.coe_le_coe.1 this.1, WithTop.coe_le_coe.1 this.2⟩

theorem movable_im (p : P α) (ps : List (P α)) (h : p ∈ Movable ps) : 0 < p.im := by
  have := (List.mem_filter.1 h).2
  simp at this
  exact this.2

/-- The averages of radius, mass, density, speed and kinetic energy in the summary are those over the movable particles, whatever particle 0 is. -/
theorem C121_averages (vol : α → α) (ps : List (P α)) (h : Movable ps ≠ []) :
    (sigmaLine ps).ave = some (mean P.sg (Movable ps)) ∧ (massLine ps).ave = some (mean (fun p => 1 / p.im) (Movable ps)) ∧
    (densityLine vol ps).ave = some (mean (fun p => 1 / p.im / vol p.sg) (Movable ps)) ∧
    (speedLine ps).ave = some (mean P.speed (Movable ps)) ∧ (kineticLine ps).ave = some (mean kinetic (Movable ps)) := by
  refine ⟨?_, ?_, ?_, ?_, ?_⟩
  · rw [sigmaLine, line_ave _ _ _ _ h, one_mul]
  · rw [massLine, line_ave _ _ _ _ h, one_mul]; rfl
  · rw [densityLine, line_ave _ _ _ _ h, one_mul]
    congr 2
    funext p
    rw [density, div_div]
  · rw [speedLine, line_ave _ _ _ _ h, one_mul]
  · rw [kineticLine, line_ave _ _ _ _ h]
    congr 1
    unfold mean
    rw [← mul_div_assoc, ← List.sum_map_mul_left]
    congr 3
    funext p
    unfold ke2 kinetic
    ring

/-- Two movable particles and a wall particle, used in the examples. -/
def ex0 : List (P ℚ) := [⟨0, 1, 1, 2⟩, ⟨0, 1 / 2, 3, 1⟩, ⟨1, 0, 9, 0⟩]

example : Movable ex0 ≠ [] := by decide +kernel
example : (sigmaLine ex0).ave = some 2 ∧ (kineticLine ex0).ave = some (3 / 2) ∧ (sigmaLine ex0).range = some (((1 : ℚ) : WithTop ℚ), ((3 : ℚ) : WithTop ℚ)) := by
  decide +kernel

/-- If particle 0 is movable (and all volumes are positive), the ranges of radius, mass, density and speed in the summary are the smallest
and largest values over the movable particles.
Missing: a particle 0 that is immovable or removed (see `C121_negation_first`), and the kinetic energy (see `C121_negation_kinetic`). -/
theorem C121_ranges_partial (vol : α → α) (p : P α) (ps : List (P α)) (hp : p ∈ Movable (p :: ps)) (hv : vol p.sg ≠ 0) :
    (∃ a b : α, (sigmaLine (p :: ps)).range = some ((a : WithTop α), (b : WithTop α)) ∧ Extremes P.sg (Movable (p :: ps)) a b) ∧
    (∃ a b : α, (massLine (p :: ps)).range = some ((a : WithTop α), (b : WithTop α)) ∧ Extremes (fun p => 1 / p.im) (Movable (p :: ps)) a b) ∧
    (∃ a b : α, (densityLine vol (p :: ps)).range = some ((a : WithTop α), (b : WithTop α)) ∧
      Extremes (fun p => 1 / (p.im * vol p.sg)) (Movable (p :: ps)) a b) ∧
    ∃ a b : α, (speedLine (p :: ps)).range = some ((a : WithTop α), (b : WithTop α)) ∧ Extremes P.speed (Movable (p :: ps)) a b := by
  have him := movable_im p _ hp
  refine ⟨line_range _ _ _ p ps hp rfl, line_range _ _ _ p ps hp ?_, line_range _ _ _ p ps hp ?_, line_range _ _ _ p ps hp rfl⟩
  · simp only [invMass, him.ne', if_false]; rfl
  · have : p.im * vol p.sg ≠ 0 := mul_ne_zero him.ne' hv
    simp only [this, if_false]

example : (⟨0, 1, 1, 2⟩ : P ℚ) ∈ Movable ex0 := by decide +kernel

/-- The printed average lies in the printed range for radius, mass and speed, also if particle 0 is immovable. -/
theorem C121_between (p : P α) (ps : List (P α)) (h : Movable (p :: ps) ≠ []) (x : α) (r : WithTop α × WithTop α) (l : Line α)
    (hl : l = sigmaLine (p :: ps) ∨ l = massLine (p :: ps) ∨ l = speedLine (p :: ps)) (hx : l.ave = some x) (hr : l.range = some r) :
    r.1 ≤ x ∧ (x : WithTop α) ≤ r.2 := by
  have key : ∀ (f : P α → α) (i : P α → Option (WithTop α)), l = line f i 1 (p :: ps) → r.1 ≤ x ∧ (x : WithTop α) ≤ r.2 := by
    intro f i e
    subst e
    rw [line_ave _ _ _ _ h, one_mul] at hx
    cases hi : i p with
    | none => simp [line, hi] at hr
    | some s =>
      have hl : (line f i 1 (p :: ps)).range = some (range (s, s) ((Movable (p :: ps)).map f)) := by
        simp only [line, counted_eq, hi, Option.map_some]
      rw [hl] at hr
      simp only [Option.some.injEq] at hr hx
      subst hr
      obtain ⟨_, _, c, _, _⟩ := range_bounds ((Movable (p :: ps)).map f) (s, s)
      generalize range (s, s) ((Movable (p :: ps)).map f) = r at c
      have hn : (0 : α) < ((Movable (p :: ps)).length : α) := by
        have := List.length_pos_of_ne_nil h
        exact_mod_cast this
      generalize Movable (p :: ps) = L at h hx c hn
      obtain ⟨q0, hq0⟩ := List.exists_mem_of_ne_nil L h
      obtain ⟨a, b⟩ := r
      subst hx
      unfold mean
      constructor
      · have ha : a ≠ ⊤ := by
          intro e
          have := (c (f q0) (List.mem_map_of_mem hq0)).1
          dsimp only at this
          rw [e] at this
          exact absurd this (by simp)
        obtain ⟨a', rfl⟩ := WithTop.ne_top_iff_exists.1 ha
        dsimp only
        rw [WithTop.coe_le_coe, le_div_iff₀ hn]
        have := List.card_nsmul_le_sum (L.map f) a' (by
          intro y hy; exact WithTop.coe_le_coe.1 (c y hy).1)
        simpa [nsmul_eq_mul, mul_comm] using this
      · cases b with
        | top => exact le_top
        | coe b' =>
          dsimp only
          rw [WithTop.coe_le_coe, div_le_iff₀ hn]
          have := List.sum_le_card_nsmul (L.map f) b' (by
            intro y hy; exact WithTop.coe_le_coe.1 (c y hy).2)
          simpa [nsmul_eq_mul, mul_comm] using this
  rcases hl with hl | hl | hl
  · exact key _ _ hl
  · exact key _ _ hl
  · exact key _ _ hl

example : ∃ x r, (speedLine ex0).ave = some x ∧ (speedLine ex0).range = some r := ⟨_, _, rfl, rfl⟩

/-- The printed range of the kinetic energy is not that of the kinetic energies: with a movable particle 0 both ends are twice the smallest and the
largest kinetic energy; for equal particles at equal speed the average is therefore outside of the range. -/
theorem C121_negation_kinetic (p : P α) (ps : List (P α)) (hp : p ∈ Movable (p :: ps)) :
    ∃ a b : α, (kineticLine (p :: ps)).range = some (((2 * a : α) : WithTop α), ((2 * b : α) : WithTop α)) ∧ Extremes kinetic (Movable (p :: ps)) a b := by
  have him := movable_im p _ hp
  obtain ⟨a, b, h1, h2, ⟨q, hq, e⟩, ⟨q', hq', e'⟩⟩ := line_range ke2 (fun p => if p.im = 0 then (if p.speed = 0 then none else some ⊤) else some ((ke2 p : α) : WithTop α))
    (1 / 2) p ps hp (by simp [him.ne'])
  have hk : ∀ p : P α, ke2 p = 2 * kinetic p := by intro p; unfold ke2 kinetic; ring
  refine ⟨a / 2, b / 2, ?_, ?_, ⟨q, hq, ?_⟩, ⟨q', hq', ?_⟩⟩
  · rw [kineticLine, h1]
    congr 3 <;> ring
  · intro x hx
    have := h2 x hx
    rw [hk] at this
    constructor <;> linarith [this.1, this.2]
  · rw [← e, hk]; ring
  · rw [← e', hk]; ring

example : (kineticLine [(⟨0, 1, 1, 2⟩ : P ℚ)]).ave = some 2 ∧
    (kineticLine [(⟨0, 1, 1, 2⟩ : P ℚ)]).range = some (((4 : ℚ) : WithTop ℚ), ((4 : ℚ) : WithTop ℚ)) := by decide +kernel

theorem range_mono_top (l : List α) (s : WithTop α × WithTop α) (h : s.2 = ⊤) : (range s l).2 = ⊤ :=
  top_le_iff.1 (h ▸ (range_bounds l s).2.1)

/-- If particle 0 is immovable, which is not counted otherwise, the largest mass is infinite, the range of the radius contains its radius, and the
smallest speed is at most its speed. -/
theorem C121_negation_first (p : P α) (ps : List (P α)) (hp : p.im = 0) :
    (∃ a, (massLine (p :: ps)).range = some (a, ⊤)) ∧
    (∃ a b, (sigmaLine (p :: ps)).range = some (a, b) ∧ a ≤ p.sg ∧ (p.sg : WithTop α) ≤ b) ∧
    (∃ a b, (speedLine (p :: ps)).range = some (a, b) ∧ a ≤ p.speed) ∧
    (p.speed = 0 → (kineticLine (p :: ps)).range = none) := by
  refine ⟨?_, ?_, ?_, ?_⟩
  · refine ⟨(range (⊤, ⊤) (((p :: ps).filter P.counted).map mass)).1, ?_⟩
    have : invMass p = ⊤ := by simp [invMass, hp]
    simp only [massLine, line, this, Option.map_some, Option.some.injEq]
    exact Prod.ext rfl (range_mono_top _ _ rfl)
  · obtain ⟨a, b, -⟩ := range_bounds (((p :: ps).filter P.counted).map P.sg) ((p.sg : WithTop α), (p.sg : WithTop α))
    exact ⟨_, _, rfl, a, b⟩
  · obtain ⟨a, -⟩ := range_bounds (((p :: ps).filter P.counted).map P.speed) ((p.speed : WithTop α), (p.speed : WithTop α))
    exact ⟨_, _, rfl, a⟩
  · intro h0
    simp [kineticLine, line, hp, h0]

example : (sigmaLine [(⟨1, 0, 9, 0⟩ : P ℚ), ⟨0, 1, 1, 2⟩]).range = some (((1 : ℚ) : WithTop ℚ), ((9 : ℚ) : WithTop ℚ)) ∧
    (sigmaLine [(⟨1, 0, 9, 0⟩ : P ℚ), ⟨0, 1, 1, 2⟩]).ave = some 1 := by decide +kernel

/-! ## C122: the table of types and the packing fraction -/

/-- The counting loop of `writeSummary`, `base/datamaster.cpp:586-587`, over the types of the first `number_owned` slots; `none`: a write outside of
the vector. -/
def countTypes (ntypes : ℕ) : List ℤ → (ℕ → ℕ) → Option (ℕ → ℕ)
  | [], c => some c
  | t :: ts, c => if 0 ≤ t ∧ t < ntypes then countTypes ntypes ts (fun i => if i = t.toNat then c i + 1 else c i) else none

/-- The table of types on processor 0, `base/datamaster.cpp:585-593`: each processor counts its owned slots, `mpi_sum0` adds the results. -/
def typeTable (ntypes : ℕ) (procs : List (List ℤ)) : Option (ℕ → ℕ) :=
  (procs.mapM fun ts => countTypes ntypes ts fun _ => 0).map fun cs => fun i => (cs.map (· i)).sum

/-- The volume in the packing fraction, `base/datamaster.cpp:541-545`: each processor adds the volumes of the slots below `number()`, which are its
owned particles and its ghosts; `mpi_sum0` adds the results. A processor is the list of its owned and the list of its ghost radii. -/
def packedVolume (vol : α → α) (procs : List (List α × List α)) : α :=
  (procs.map fun pr => ((pr.1 ++ pr.2).map vol).sum).sum

theorem countTypes_eq (ntypes : ℕ) (ts : List ℤ) (c : ℕ → ℕ) (h : ∀ t ∈ ts, 0 ≤ t ∧ t < ntypes) :
    ∃ c', countTypes ntypes ts c = some c' ∧ ∀ i : ℕ, c' i = c i + ts.count (i : ℤ) := by
  induction ts generalizing c with
  | nil => exact ⟨c, rfl, by simp⟩
  | cons t ts ih =>
    have ht := h t (List.mem_cons_self ..)
    obtain ⟨c', h1, h2⟩ := ih (fun i => if i = t.toNat then c i + 1 else c i) (fun t ht => h t (List.mem_cons_of_mem _ ht))
    refine ⟨c', ?_, ?_⟩
    · rw [countTypes, if_pos ht, h1]
    · intro i
      rw [h2, List.count_cons]
      by_cases e : i = t.toNat
      · have : t = (i : ℤ) := by omega
        subst this
        simp
        omega
      · have : ¬ t = (i : ℤ) := by omega
        simp [e, this]

/-- The table of types counts every owned particle of all processors exactly once, under its type, and its entries add up to the number of particles;
provided that the slots hold valid types (no gaps). -/
theorem C122_types (ntypes : ℕ) (procs : List (List ℤ)) (h : ∀ ts ∈ procs, ∀ t ∈ ts, 0 ≤ t ∧ t < ntypes) :
    ∃ c, typeTable ntypes procs = some c ∧ (∀ i : ℕ, c i = procs.flatten.count (i : ℤ)) ∧
      ((List.range ntypes).map c).sum = (procs.map List.length).sum := by
  have key : ∃ cs, (procs.mapM fun ts => countTypes ntypes ts fun _ => 0) = some cs ∧
      ∀ i : ℕ, (cs.map (· i)).sum = procs.flatten.count (i : ℤ) := by
    induction procs with
    | nil => exact ⟨[], rfl, by simp⟩
    | cons ts r ih =>
      obtain ⟨cs, h1, h2⟩ := ih (fun ts hts => h ts (List.mem_cons_of_mem _ hts))
      obtain ⟨c, g1, g2⟩ := countTypes_eq ntypes ts (fun _ => 0) (h ts (List.mem_cons_self ..))
      refine ⟨c :: cs, ?_, ?_⟩
      · rw [List.mapM_cons, g1, h1]; rfl
      · intro i
        rw [List.map_cons, List.sum_cons, h2, g2, List.flatten_cons, List.count_append]
        omega
  obtain ⟨cs, h1, h2⟩ := key
  refine ⟨fun i => (cs.map (· i)).sum, by rw [typeTable, h1]; rfl, h2, ?_⟩
  have hall : ∀ t ∈ procs.flatten, 0 ≤ t ∧ t < (ntypes : ℤ) := by
    intro t ht
    obtain ⟨ts, hts, ht⟩ := List.mem_flatten.1 ht
    exact h ts hts t ht
  have : (List.range ntypes).map (fun i => (cs.map (· i)).sum) = (List.range ntypes).map fun i : ℕ => procs.flatten.count (i : ℤ) :=
    List.map_congr_left fun i _ => h2 i
  rw [this, ← List.length_flatten]
  generalize procs.flatten = L at hall
  clear * - hall
  induction L with
  | nil => simp
  | cons t L ih =>
    have ht := hall t (List.mem_cons_self ..)
    have e : (List.range ntypes).map (fun i : ℕ => (t :: L).count (i : ℤ)) =
        (List.range ntypes).map (fun i : ℕ => L.count (i : ℤ) + if i = t.toNat then 1 else 0) := by
      apply List.map_congr_left
      intro i _
      rw [List.count_cons]
      by_cases e : i = t.toNat
      · have : t = (i : ℤ) := by omega
        subst this
        simp
      · have : ¬ t = (i : ℤ) := by omega
        simp [e, this]
    rw [e, List.sum_map_add, ih (fun t ht => hall t (List.mem_cons_of_mem _ ht)), List.length_cons]
    congr 1
    have hlt : t.toNat < ntypes := by omega
    clear * - hlt
    have : (List.range ntypes).map (fun i : ℕ => if i = t.toNat then 1 else 0) =
        (List.range ntypes).map fun i : ℕ => if i = t.toNat then 1 else 0 := rfl
    have hc : ((List.range ntypes).map fun i : ℕ => if i = t.toNat then 1 else 0).sum = (List.range ntypes).count t.toNat := by
      generalize List.range ntypes = l
      induction l with
      | nil => rfl
      | cons x l ih => rw [List.map_cons, List.sum_cons, ih, List.count_cons]; simp; omega
    rw [hc, List.count_eq_one_of_mem (List.nodup_range) (List.mem_range.2 hlt)]

example : (typeTable 2 [[0, 1, 1], [0]]).map (fun c => (c 0, c 1)) = some (2, 2) := by decide +kernel

/-- A gap in the store (type -1) below the number of owned particles makes the count write outside of its vector. -/
theorem C122_negation_gap (ntypes : ℕ) (ts : List ℤ) (c : ℕ → ℕ) (h : -1 ∈ ts) : countTypes ntypes ts c = none := by
  induction ts generalizing c with
  | nil => simp at h
  | cons t ts ih =>
    rw [countTypes]
    split
    · rename_i ht
      rcases List.mem_cons.1 h with e | h
      · omega
      · exact ih _ h
    · rfl

example : (-1 : ℤ) ∈ [0, -1] := by decide

/-- Without ghosts the volume of the packing fraction is the sum of the volumes of all particles of all processors.
Missing: ghosts, which are counted as well (see `C122_negation_ghosts`). -/
theorem C122_packing_partial (vol : α → α) (procs : List (List α × List α)) (h : ∀ pr ∈ procs, pr.2 = []) :
    packedVolume vol procs = ((procs.flatMap (·.1)).map vol).sum := by
  unfold packedVolume
  induction procs with
  | nil => simp
  | cons pr r ih =>
    rw [List.map_cons, List.sum_cons, ih (fun pr hpr => h pr (List.mem_cons_of_mem _ hpr)), h pr (List.mem_cons_self ..)]
    simp

example : packedVolume (fun x : ℚ => 2 * x) [([1, 2], []), ([3], [])] = 12 := by decide +kernel

/-- With ghosts the volume is too large by exactly their volumes: a particle near the edge of a processor is counted once for its owner and once for
each processor that holds a copy. -/
theorem C122_negation_ghosts (vol : α → α) (procs : List (List α × List α)) (hv : ∀ x, 0 < vol x) (h : ∃ pr ∈ procs, pr.2 ≠ []) :
    ((procs.flatMap (·.1)).map vol).sum < packedVolume vol procs := by
  have e : packedVolume vol procs = ((procs.flatMap (·.1)).map vol).sum + ((procs.flatMap (·.2)).map vol).sum := by
    unfold packedVolume
    clear h
    induction procs with
    | nil => simp
    | cons pr r ih =>
      rw [List.map_cons, List.sum_cons, ih]
      simp only [List.map_append, List.sum_append, List.flatMap_cons]
      ring
  rw [e]
  have : 0 < ((procs.flatMap (·.2)).map vol).sum := by
    obtain ⟨pr, hpr, hne⟩ := h
    have hne' : procs.flatMap (·.2) ≠ [] := by
      intro e
      apply hne
      rw [List.flatMap_eq_nil_iff] at e
      exact e pr hpr
    generalize procs.flatMap (·.2) = l at hne'
    cases l with
    | nil => exact absurd rfl hne'
    | cons x l =>
      have : 0 ≤ (l.map vol).sum := List.sum_nonneg (by simp only [List.mem_map]; rintro _ ⟨y, _, rfl⟩; exact (hv y).le)
      simp only [List.map_cons, List.sum_cons]
      have := hv x
      linarith
  linarith

example : packedVolume (fun _ : ℚ => 1) [([1, 2], [3]), ([3], [2])] = 5 := by decide +kernel

end Verif.Summary
