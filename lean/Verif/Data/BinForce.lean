import Verif.Data.TwoGroups

/-!
# Forces between two walls and between two polymers over their distance (C126, C127)

Models `dataobjects/multigraphobjects/twowallbinforce.cpp` and `dataobjects/multigraphobjects/twopolymerbinforce.cpp`. Exact real arithmetic; an access outside of
the bins is `none`. The normalisation (density, temperature, length of a wall) of a record is given as a factor.
-/

set_option linter.unusedSectionVars false

namespace Verif.BinForce
open Verif.PairForces Verif.TwoGroups

variable {d : ℕ}

/-- The bins and their columns: two values and the counts, `twowallbinforce.hpp:36-50`, `twopolymerbinforce.hpp:64-85`, in
`dataobjects/multigraphobjects`. The walls use only one value. -/
structure Bins where
  n : ℕ
  lo : ℝ
  hi : ℝ
  y0 : ℕ → ℝ
  y1 : ℕ → ℝ
  cnt : ℕ → ℕ

/-- `pre_integrate`, `dataobjects/multigraphobjects/twowallbinforce.cpp:17-22`, `twopolymerbinforce.cpp:27-32`: all columns are set to zero. -/
def Bins.clear (b : Bins) : Bins := { b with y0 := fun _ => 0, y1 := fun _ => 0, cnt := fun _ => 0 }

open Classical in
/-- `+=` in the bin of the distance `x`, `twowallbinforce.cpp:48-62`, `twopolymerbinforce.cpp:175-194`. -/
noncomputable def Bins.add (b : Bins) (x : ℝ) (v0 v1 : ℝ) (c : ℕ) : Option Bins :=
  if b.lo ≤ x ∧ x < b.hi then
    let bx := trunc ((x - b.lo) / ((b.hi - b.lo) / b.n))
    if 0 ≤ bx ∧ bx < b.n then
      some { b with
        y0 := Function.update b.y0 bx.toNat (b.y0 bx.toNat + v0)
        y1 := Function.update b.y1 bx.toNat (b.y1 bx.toNat + v1)
        cnt := Function.update b.cnt bx.toNat (b.cnt bx.toNat + c) }
    else none
  else some b

/-- A record of distance and values. -/
structure Rec where
  x : ℝ
  v0 : ℝ
  v1 : ℝ

/-- The records of a run, with `c` counts for each of them. -/
noncomputable def Bins.run (b : Bins) (c : ℕ) (rs : List Rec) : Option Bins := rs.foldlM (fun s r => s.add r.x r.v0 r.v1 c) b.clear

open Classical in
/-- The records in the `i`-th bin. -/
noncomputable def inBin (b : Bins) (i : ℕ) (rs : List Rec) : List Rec := rs.filter fun r => InPart b.lo b.hi b.n i r.x

theorem part_range (lo hi : ℝ) (n b : ℕ) (x : ℝ) (hlt : lo < hi) (hb : b < n) (h : InPart lo hi n b x) : lo ≤ x ∧ x < hi := by
  obtain ⟨h1, h2⟩ := h
  have hn : (0 : ℝ) < n := by exact_mod_cast (by omega : 0 < n)
  have hbn : (b : ℝ) + 1 ≤ n := by exact_mod_cast hb
  have hw : 0 < (hi - lo) / n := div_pos (by linarith) hn
  have := mul_le_mul_of_nonneg_right hbn hw.le
  have e : (n : ℝ) * ((hi - lo) / n) = hi - lo := by field_simp
  have hb0 : (0 : ℝ) ≤ b := Nat.cast_nonneg b
  have := mul_nonneg hb0 hw.le
  constructor <;> linarith

open Classical in
theorem add_spec (b : Bins) (hn : 0 < b.n) (hlt : b.lo < b.hi) (x v0 v1 : ℝ) (c : ℕ) :
    ∃ b', b.add x v0 v1 c = some b' ∧ (b'.n = b.n ∧ b'.lo = b.lo ∧ b'.hi = b.hi) ∧ ∀ i < b.n,
      b'.y0 i = b.y0 i + (if InPart b.lo b.hi b.n i x then v0 else 0) ∧
      b'.y1 i = b.y1 i + (if InPart b.lo b.hi b.n i x then v1 else 0) ∧
      b'.cnt i = b.cnt i + (if InPart b.lo b.hi b.n i x then c else 0) := by
  have hn' : (0 : ℝ) < b.n := by exact_mod_cast hn
  have hw : 0 < (b.hi - b.lo) / b.n := div_pos (by linarith) hn'
  unfold Bins.add
  by_cases h : b.lo ≤ x ∧ x < b.hi
  · rw [if_pos h]
    dsimp only
    have hq : 0 ≤ (x - b.lo) / ((b.hi - b.lo) / b.n) := div_nonneg (by linarith [h.1]) hw.le
    have hq2 : (x - b.lo) / ((b.hi - b.lo) / b.n) < b.n := by
      rw [div_lt_iff₀ hw]
      have e : (b.n : ℝ) * ((b.hi - b.lo) / b.n) = b.hi - b.lo := by field_simp
      rw [e]; linarith [h.2]
    obtain ⟨g1, g2⟩ := trunc_range _ hq b.n
    have g3 := g2.2 hq2
    rw [if_pos ⟨g1, g3⟩]
    refine ⟨_, rfl, ⟨rfl, rfl, rfl⟩, fun i hi => ?_⟩
    have key : InPart b.lo b.hi b.n i x ↔ i = (trunc ((x - b.lo) / ((b.hi - b.lo) / b.n))).toNat := by
      rw [part_iff b.lo b.hi b.n i hn hlt x _ (div_mul_cancel₀ _ hw.ne'), ← trunc_eq _ hq]
      omega
    dsimp only
    by_cases e : i = (trunc ((x - b.lo) / ((b.hi - b.lo) / b.n))).toNat
    · rw [if_pos (key.2 e), if_pos (key.2 e), if_pos (key.2 e), ← e, Function.update_self, Function.update_self, Function.update_self]
      exact ⟨rfl, rfl, rfl⟩
    · rw [if_neg (fun hh => e (key.1 hh)), if_neg (fun hh => e (key.1 hh)), if_neg (fun hh => e (key.1 hh)), Function.update_of_ne e, Function.update_of_ne e,
        Function.update_of_ne e]
      simp
  · rw [if_neg h]
    refine ⟨b, rfl, ⟨rfl, rfl, rfl⟩, fun i hi => ?_⟩
    have : ¬ InPart b.lo b.hi b.n i x := fun hh => h (part_range _ _ _ _ _ hlt hi hh)
    rw [if_neg this, if_neg this, if_neg this]
    simp

theorem fold_spec (c : ℕ) (rs : List Rec) : ∀ b : Bins, 0 < b.n → b.lo < b.hi →
    ∃ b', rs.foldlM (fun s r => Bins.add s r.x r.v0 r.v1 c) b = some b' ∧ (b'.n = b.n ∧ b'.lo = b.lo ∧ b'.hi = b.hi) ∧ ∀ i < b.n,
      b'.y0 i = b.y0 i + ((inBin b i rs).map (·.v0)).sum ∧ b'.y1 i = b.y1 i + ((inBin b i rs).map (·.v1)).sum ∧
      b'.cnt i = b.cnt i + c * (inBin b i rs).length := by
  classical
  induction rs with
  | nil => intro b _ _; exact ⟨b, rfl, ⟨rfl, rfl, rfl⟩, fun i _ => by simp [inBin]⟩
  | cons r rs ih =>
    intro b hn hlt
    obtain ⟨b1, e1, ⟨k1, k2, k3⟩, h1⟩ := add_spec b hn hlt r.x r.v0 r.v1 c
    obtain ⟨b', e', ⟨m1, m2, m3⟩, h'⟩ := ih b1 (by omega) (by rw [k2, k3]; exact hlt)
    refine ⟨b', by rw [List.foldlM_cons, e1]; exact e', ⟨m1.trans k1, m2.trans k2, m3.trans k3⟩, fun i hi => ?_⟩
    obtain ⟨a0, a1, a2⟩ := h1 i hi
    obtain ⟨c0, c1, c2⟩ := h' i (by omega)
    have eb : inBin b1 i rs = inBin b i rs := by unfold inBin; rw [k1, k2, k3]
    rw [eb] at c0 c1 c2
    have ec : inBin b i (r :: rs) = if InPart b.lo b.hi b.n i r.x then r :: inBin b i rs else inBin b i rs := by
      unfold inBin
      rw [List.filter_cons]
      simp
    rw [c0, c1, c2, a0, a1, a2, ec]
    by_cases hp : InPart b.lo b.hi b.n i r.x
    · simp only [if_pos hp, List.map_cons, List.sum_cons, List.length_cons]
      refine ⟨by ring, by ring, by ring⟩
    · simp only [if_neg hp]
      refine ⟨by ring, by ring, by ring⟩

/-! ## Two walls -/

/-- What the walls give for a record: their positions and net forces in the direction they slide, and the normalisation `norm` of that moment. -/
structure Walls where
  xa : ℝ
  xb : ℝ
  fa : ℝ
  fb : ℝ
  norm : ℝ

/-- `sign`, `utility/utility.hpp:123-125`. -/
noncomputable def sign (x : ℝ) : ℝ := open Classical in if x < 0 then -1 else 1

/-- `minimumImage(dx, 0)`, `gflow.cpp:437-442`, `twowallbinforce.cpp:40-45`: the width is always that of the direction 0; `none`: direction 0 does not wrap. -/
noncomputable def wallDist (w0 : Option ℝ) (w : Walls) : ℝ := correct (d := 1) (fun _ => w0) (fun _ => w.xb - w.xa) 0

/-- `TwoWallBinForce::post_forces`, `twowallbinforce.cpp:40-62`: both forces are added and two data points counted. -/
noncomputable def wallRec (w0 : Option ℝ) (w : Walls) : Rec where
  x := wallDist w0 w
  v0 := w.fa * sign (wallDist w0 w) * w.norm + -w.fb * sign (wallDist w0 w) * w.norm
  v1 := 0

/-- `TwoWallBinForce::post_integrate`, `twowallbinforce.cpp:65-79`: distance and force of an entry. -/
noncomputable def wallEntry (b : Bins) (i : ℕ) : ℝ × ℝ :=
  ((i + 0.5) * ((b.hi - b.lo) / b.n) + b.lo, if 0 < b.cnt i then b.y0 i / b.cnt i else 0)

/-- A whole run of the record of two walls. -/
noncomputable def wallRun (w0 : Option ℝ) (b : Bins) (ws : List Walls) : Option Bins := b.run 2 (ws.map (wallRec w0))

open Classical in
/-- **C126, walls (partial).** Walls that slide in direction 0 of a box that does not wrap there, the second wall at the larger coordinate: after a run, whatever was
recorded before, each entry has the middle of its part of `[min, max)` and the average of the forces that push the walls together, over both walls and all
moments of this run in which their distance was in this part; without such a moment it is 0. Nothing outside of the bins is accessed.
Missing: walls in the other order and walls that slide in other directions than 0, see the negations; wrapping (`C126_wrap`). -/
theorem C126_walls_partial (b : Bins) (hn : 0 < b.n) (hlo : 0 ≤ b.lo) (hlt : b.lo < b.hi) (ws : List Walls) :
    ∃ b', wallRun none b ws = some b' ∧ ∀ i < b.n,
      let near := ws.filter fun w => InPart b.lo b.hi b.n i (w.xb - w.xa)
      wallEntry b' i = (b.lo + (i + 1 / 2) * ((b.hi - b.lo) / b.n),
        if near = [] then 0 else ((near.map fun w => w.norm * w.fa).sum + (near.map fun w => w.norm * -w.fb).sum) / (2 * near.length)) := by
  obtain ⟨b', e, ⟨k1, k2, k3⟩, h⟩ := fold_spec 2 (ws.map (wallRec none)) b.clear hn hlt
  refine ⟨b', e, fun i hi => ?_⟩
  intro near
  obtain ⟨a0, _, a2⟩ := h i hi
  have hd : ∀ w : Walls, (wallRec none w).x = w.xb - w.xa := fun w => rfl
  have hin : inBin b.clear i (ws.map (wallRec none)) = near.map (wallRec none) := by
    show ((ws.map (wallRec none)).filter fun r => InPart b.lo b.hi b.n i r.x) = (ws.filter fun w => InPart b.lo b.hi b.n i (w.xb - w.xa)).map (wallRec none)
    rw [List.filter_map]
    rfl
  have hv : ∀ w ∈ near, (wallRec none w).v0 = w.norm * w.fa + w.norm * -w.fb := by
    intro w hw
    have hp := (List.mem_filter.1 hw).2
    simp only [decide_eq_true_eq] at hp
    have := (part_range _ _ _ _ _ hlt hi hp).1
    have hs : sign (wallDist none w) = 1 := by
      unfold sign
      rw [if_neg]
      show ¬ (w.xb - w.xa < 0)
      linarith
    simp only [wallRec, hs]
    ring
  have hy : b'.y0 i = (near.map fun w => w.norm * w.fa).sum + (near.map fun w => w.norm * -w.fb).sum := by
    rw [a0, hin, List.map_map]
    have : near.map ((fun r : Rec => r.v0) ∘ wallRec none) = near.map fun w => w.norm * w.fa + w.norm * -w.fb :=
      List.map_congr_left fun w hw => hv w hw
    rw [this, List.sum_map_add]
    exact zero_add _
  have hc : b'.cnt i = 2 * near.length := by
    rw [a2, hin, List.length_map]; exact Nat.zero_add _
  unfold wallEntry
  rw [k1, k2, k3, hy, hc]
  refine Prod.ext ?_ ?_
  · show ((i : ℝ) + 0.5) * ((b.hi - b.lo) / b.n) + b.lo = _
    norm_num
    ring
  · dsimp only
    by_cases hne : near = []
    · rw [if_pos hne, if_neg]
      rw [hne]; simp
    · rw [if_neg hne, if_pos (by have := List.length_pos_of_ne_nil hne; omega)]
      push_cast
      rfl

/-- The default bins, `dataobjects/multigraphobjects/twowallbinforce.hpp:36-43`. -/
noncomputable def bins0 : Bins := ⟨100, 1 / 10, 22 / 100, fun _ => 0, fun _ => 0, fun _ => 0⟩

example : 0 < bins0.n ∧ 0 ≤ bins0.lo ∧ bins0.lo < bins0.hi ∧ InPart bins0.lo bins0.hi bins0.n 5 (3 / 10 - 1937 / 10000) := by
  refine ⟨?_, ?_, ?_, ?_⟩ <;> norm_num [bins0, InPart]

/-- The distance between walls across the boundary is the length of the shorter way if the positions are in the box. -/
theorem C126_wrap (w : ℝ) (W : Walls) (h : |W.xb - W.xa| ≤ w) :
    |wallDist (some w) W| ≤ w / 2 ∧ ∃ n : ℤ, wallDist (some w) W = W.xb - W.xa + n * w := by
  exact GroupAngular.image_spec w (W.xb - W.xa) h

example : |(⟨9, 1, 0, 0, 1⟩ : Walls).xb - (⟨9, 1, 0, 0, 1⟩ : Walls).xa| ≤ (10 : ℝ) := by norm_num

/-- **Walls in the other order are never recorded.** -/
theorem C126_negation_order (b : Bins) (hn : 0 < b.n) (hlo : 0 ≤ b.lo) (hlt : b.lo < b.hi) (ws : List Walls) (h : ∀ w ∈ ws, w.xb < w.xa) :
    ∃ b', wallRun none b ws = some b' ∧ ∀ i < b.n, b'.cnt i = 0 ∧ b'.y0 i = 0 := by
  obtain ⟨b', e, _, h'⟩ := fold_spec 2 (ws.map (wallRec none)) b.clear hn hlt
  refine ⟨b', e, fun i hi => ?_⟩
  have hin : inBin b.clear i (ws.map (wallRec none)) = [] := by
    unfold inBin
    rw [List.filter_eq_nil_iff]
    intro r hr
    obtain ⟨w, hw, rfl⟩ := List.mem_map.1 hr
    simp only [decide_eq_true_eq]
    intro hp
    have h1 := (part_range b.lo b.hi b.n i _ hlt hi hp).1
    have h2 : (wallRec none w).x = w.xb - w.xa := rfl
    rw [h2] at h1
    linarith [h w hw]
  obtain ⟨a0, _, a2⟩ := h' i hi
  rw [hin] at a0 a2
  exact ⟨by rw [a2]; rfl, by rw [a0]; simp [Bins.clear]⟩

example : ∀ w ∈ [(⟨3 / 10, 1 / 10, 1, 1, 1⟩ : Walls)], w.xb < w.xa := by
  intro w hw; rw [List.mem_singleton.1 hw]; norm_num

/-- **The boundary of direction 0 is used for walls that slide in other directions.** In a box that wraps in direction 0 with width `w0`, walls sliding in a direction that does not
wrap are recorded with another distance than theirs as soon as they are further apart than half of `w0`. -/
theorem C126_negation_direction (w0 : ℝ) (w : Walls) (h : w0 / 2 < w.xb - w.xa) (h0 : 0 < w0) (h1 : w.xb - w.xa ≤ w0) : wallDist (some w0) w ≠ w.xb - w.xa ∧
    wallDist (some w0) w ≤ 0 := by
  have hp : 0 < w.xb - w.xa := by linarith
  have e : wallDist (some w0) w = -(w0 - (w.xb - w.xa)) := by
    show (if w0 - |w.xb - w.xa| < |w.xb - w.xa| then (if 0 < w.xb - w.xa then -(w0 - |w.xb - w.xa|) else w0 - |w.xb - w.xa|) else w.xb - w.xa) = _
    rw [abs_of_pos hp, if_pos (by linarith), if_pos hp]
  rw [e]
  constructor
  · intro hh; linarith
  · linarith

example : ((1 : ℝ) / 4) / 2 < (⟨0, 2 / 10, 1, 1, 1⟩ : Walls).xb - (⟨0, 2 / 10, 1, 1, 1⟩ : Walls).xa := by norm_num

/-! ## Two polymers -/

/-- The two smallest displacements found, `twopolymerbinforce.cpp:134-136`. -/
structure Near (d : ℕ) where
  d1 : ℝ
  d2 : ℝ
  A : Fin d → ℝ
  B : Fin d → ℝ

open Classical in
/-- Body of the loop over the other polymer, `twopolymerbinforce.cpp:139-160`. -/
noncomputable def nearStep (s : Near d) (X : Fin d → ℝ) : Near d :=
  if mag X < s.d1 then ⟨mag X, s.d1, X, s.A⟩
  else if mag X < s.d2 then ⟨s.d1, mag X, s.A, X⟩
  else s

/-- The whole loop; `A` and `B` start with what the particle before has left, `twopolymerbinforce.cpp:120,135-160`. -/
noncomputable def nearest (A B : Fin d → ℝ) (Xs : List (Fin d → ℝ)) : Near d := Xs.foldl nearStep ⟨10000, 10000, A, B⟩

open Classical in
/-- Distance to the line between the two, `twopolymerbinforce.cpp:162-172`. If the two are at the same place the code divides zero by zero and takes the first one,
as here. -/
noncomputable def toLine (size : ℕ) (s : Near d) : (Fin d → ℝ) × ℝ :=
  if 1 < size then
    let dX := fun k => s.B k - s.A k
    let l := -dot dX s.A / dot dX dX
    if 0 ≤ l ∧ l ≤ 1 then (fun k => s.A k + l * dX k, mag fun k => s.A k + l * dX k) else (s.A, s.d1)
  else (s.A, s.d1)

/-- What is recorded for a particle of the first polymer, `twopolymerbinforce.cpp:137-194`: `Xs` the displacements to the particles of the other polymer, `f` the force on the
particle, `fr` the force of its own chain if the chains are known. -/
noncomputable def polyRec (A B : Fin d → ℝ) (Xs : List (Fin d → ℝ)) (f : Fin d → ℝ) (fr : Option (Fin d → ℝ)) (nrm : ℝ) : Rec :=
  let p := toLine Xs.length (nearest A B Xs)
  { x := p.2
    v0 := dot (unit p.1) (match fr with | none => f | some r => fun k => f k - r k) * nrm
    v1 := match fr with | none => 0 | some r => dot (unit p.1) r }

/-- `post_integrate`, `twopolymerbinforce.cpp:60-76`: distance, force and force of the chain of an entry. -/
noncomputable def polyEntry (radius : ℝ) (b : Bins) (i : ℕ) : ℝ × ℝ × ℝ :=
  ((i + 0.5) * ((b.hi - b.lo) / b.n) + b.lo, if 0 < b.cnt i then b.y0 i / (2 * radius * b.cnt i) else b.y0 i,
    if 0 < b.cnt i then b.y1 i / (2 * radius * b.cnt i) else b.y1 i)

/-- Invariant: the two are the smallest ones so far. -/
structure Smallest (Xs : List (Fin d → ℝ)) (s : Near d) : Prop where
  le : s.d1 ≤ s.d2
  first : Xs ≠ [] → s.A ∈ Xs ∧ mag s.A = s.d1
  all : ∀ X ∈ Xs, s.d1 ≤ mag X
  second : 2 ≤ Xs.length → mag s.B = s.d2 ∧ s.d2 < 10000 ∧ ∃ l, Xs.Perm (s.A :: s.B :: l) ∧ ∀ X ∈ l, s.d2 ≤ mag X
  one : Xs.length = 1 → s.d2 = 10000
  none : Xs = [] → s.d1 = 10000 ∧ s.d2 = 10000

theorem nearest_spec (A B : Fin d → ℝ) (Xs : List (Fin d → ℝ)) (h : ∀ X ∈ Xs, mag X < 10000) : Smallest Xs (nearest A B Xs) := by
  induction Xs using List.reverseRecOn with
  | nil => exact ⟨le_rfl, fun h => absurd rfl h, fun X hX => by simp at hX, fun h => by simp at h, fun h => by simp at h, fun _ => ⟨rfl, rfl⟩⟩
  | append_singleton Xs X ih =>
    have ih := ih fun Y hY => h Y (List.mem_append_left _ hY)
    have hX := h X (by simp)
    have e : nearest A B (Xs ++ [X]) = nearStep (nearest A B Xs) X := by unfold nearest; rw [List.foldl_append]; rfl
    rw [e]
    set s := nearest A B Xs with hs
    have hcases : Xs = [] ∨ Xs.length = 1 ∨ 2 ≤ Xs.length := by
      rcases Xs with _ | ⟨a, _ | ⟨b, l⟩⟩ <;> simp
    unfold nearStep
    by_cases h1 : mag X < s.d1
    · rw [if_pos h1]
      refine ⟨h1.le, fun _ => ⟨by simp, rfl⟩, ?_, ?_, ?_, fun h => by simp at h⟩
      · intro Y hY
        rcases List.mem_append.1 hY with hY | hY
        · exact h1.le.trans (ih.all Y hY)
        · rw [List.mem_singleton.1 hY]
      · intro hlen
        have hne : Xs ≠ [] := by rintro rfl; simp at hlen
        obtain ⟨f1, f2⟩ := ih.first hne
        refine ⟨f2, by dsimp only; rw [← f2]; exact h _ (List.mem_append_left _ f1), ?_⟩
        dsimp only
        obtain ⟨l, hl⟩ : ∃ l, Xs.Perm (s.A :: l) := ⟨Xs.erase s.A, List.perm_cons_erase f1⟩
        refine ⟨l, ?_, fun Y hY => ih.all Y (hl.symm.subset (List.mem_cons_of_mem _ hY))⟩
        exact (List.perm_append_comm.trans (List.Perm.cons X hl))
      · intro hlen
        have : Xs = [] := by rw [List.length_append] at hlen; simpa using hlen
        exact (ih.none this).1
    · rw [if_neg h1]
      have hne : Xs ≠ [] := by rintro rfl; rw [(ih.none rfl).1] at h1; exact h1 hX
      obtain ⟨f1, f2⟩ := ih.first hne
      by_cases h2 : mag X < s.d2
      · rw [if_pos h2]
        refine ⟨not_lt.1 h1, fun _ => ⟨List.mem_append_left _ f1, f2⟩, ?_, ?_, ?_, fun h => by simp at h⟩
        · intro Y hY
          rcases List.mem_append.1 hY with hY | hY
          · exact ih.all Y hY
          · rw [List.mem_singleton.1 hY]; exact not_lt.1 h1
        · intro _
          refine ⟨rfl, hX, ?_⟩
          dsimp only
          rcases hcases with h0 | h0 | h0
          · exact absurd h0 hne
          · obtain ⟨a, rfl⟩ := List.length_eq_one_iff.1 h0
            have : s.A = a := by simpa using f1
            refine ⟨[], ?_, fun Y hY => by simp at hY⟩
            rw [this]
            exact List.Perm.refl _
          · obtain ⟨g1, _, l, g3, g4⟩ := ih.second h0
            refine ⟨s.B :: l, ?_, fun Y hY => ?_⟩
            · refine (List.perm_append_comm.trans (List.Perm.cons X g3)).trans ?_
              exact List.Perm.swap _ _ _
            · rcases List.mem_cons.1 hY with rfl | hY
              · rw [g1]; exact h2.le
              · exact h2.le.trans (g4 Y hY)
        · intro hlen
          rw [List.length_append] at hlen
          have := List.length_pos_of_ne_nil hne
          simp at hlen
          exact absurd hlen hne
      · rw [if_neg h2]
        have h2' : 2 ≤ Xs.length := by
          rcases hcases with h0 | h0 | h0
          · exact absurd h0 hne
          · rw [ih.one h0] at h2; exact absurd hX h2
          · exact h0
        obtain ⟨g1, g2, l, g3, g4⟩ := ih.second h2'
        refine ⟨ih.le, fun _ => ⟨List.mem_append_left _ f1, f2⟩, ?_, ?_, ?_, fun h => by simp at h⟩
        · intro Y hY
          rcases List.mem_append.1 hY with hY | hY
          · exact ih.all Y hY
          · rw [List.mem_singleton.1 hY]; exact not_lt.1 h1
        · intro _
          refine ⟨g1, g2, X :: l, ?_, fun Y hY => ?_⟩
          · refine (List.perm_append_comm.trans (List.Perm.cons X g3)).trans ?_
            exact (List.Perm.swap _ _ _).trans (List.Perm.cons _ (List.Perm.swap _ _ _))
          · rcases List.mem_cons.1 hY with rfl | hY
            · exact not_lt.1 h2
            · exact g4 Y hY
        · intro hlen
          rw [List.length_append] at hlen
          simp at hlen
          exact absurd hlen hne

/-- Point at the fraction `t` of the way from `A` to `B`. -/
def between (A B : Fin d → ℝ) (t : ℝ) : Fin d → ℝ := fun k => A k + t * (B k - A k)

theorem dot_between (A B : Fin d → ℝ) (t : ℝ) : dot (between A B t) (between A B t) =
    dot A A + 2 * t * dot (fun k => B k - A k) A + t ^ 2 * dot (fun k => B k - A k) (fun k => B k - A k) := by
  unfold dot between
  rw [Finset.mul_sum, Finset.mul_sum, ← Finset.sum_add_distrib, ← Finset.sum_add_distrib]
  exact Finset.sum_congr rfl fun k _ => by ring

theorem dot_self_nonneg (a : Fin d → ℝ) : 0 ≤ dot a a := Finset.sum_nonneg fun k _ => mul_self_nonneg (a k)

theorem mag_le {a b : Fin d → ℝ} (h : dot a a ≤ dot b b) : mag a ≤ mag b := Real.sqrt_le_sqrt h

/-- **C127, distance (partial).** For every particle, whatever the particle before left behind: the displacement and the distance used are those to the closest point of the straight line
between the two particles of the other polymer that are closest to it (`l` the other ones), or to the only particle of the other polymer.
Missing: distances from 10000 on, and the distance from the polymer itself if the two closest particles are no neighbours (`C127_negation_bend`). -/
theorem C127_distance_partial (A B : Fin d → ℝ) (Xs : List (Fin d → ℝ)) (hne : Xs ≠ []) (h : ∀ X ∈ Xs, mag X < 10000) :
    ∃ p r, toLine Xs.length (nearest A B Xs) = (p, r) ∧ r = mag p ∧
      ((∃ X, Xs = [X] ∧ p = X) ∨
       ∃ P Q l, Xs.Perm (P :: Q :: l) ∧ mag P ≤ mag Q ∧ (∀ X ∈ l, mag Q ≤ mag X) ∧
        (∃ t, 0 ≤ t ∧ t ≤ 1 ∧ p = between P Q t) ∧ ∀ t, 0 ≤ t → t ≤ 1 → r ≤ mag (between P Q t)) := by
  have S := nearest_spec A B Xs h
  set s := nearest A B Xs
  obtain ⟨f1, f2⟩ := S.first hne
  by_cases hlen : 1 < Xs.length
  · obtain ⟨g1, _, l, g3, g4⟩ := S.second hlen
    have hPQ : mag s.A ≤ mag s.B := by rw [f2, g1]; exact S.le
    have hl : ∀ X ∈ l, mag s.B ≤ mag X := by rw [g1]; exact g4
    have hsq : dot s.A s.A ≤ dot s.B s.B := by
      rw [← mag_sq, ← mag_sq]
      exact mul_self_le_mul_self (Real.sqrt_nonneg _) hPQ
    set D : Fin d → ℝ := fun k => s.B k - s.A k with hD
    have h1 : dot s.A s.A + 2 * dot D s.A + dot D D = dot s.B s.B := by
      have := dot_between s.A s.B 1
      have e : between s.A s.B 1 = s.B := by funext k; unfold between; ring
      rw [e] at this
      rw [this]; ring
    have hDD := dot_self_nonneg D
    by_cases hc : 0 ≤ -dot D s.A / dot D D ∧ -dot D s.A / dot D D ≤ 1
    · refine ⟨_, mag (between s.A s.B (-dot D s.A / dot D D)), ?_, ?_, Or.inr ⟨s.A, s.B, l, g3, hPQ, hl, ⟨_, hc.1, hc.2, rfl⟩, ?_⟩⟩
      · unfold toLine
        rw [if_pos hlen]
        dsimp only
        rw [if_pos hc]
        rfl
      · rfl
      · intro t _ _
        refine mag_le ?_
        rw [dot_between, dot_between]
        by_cases hz : dot D D = 0
        · have hA : dot D s.A = 0 := by
            have hk : ∀ k, D k = 0 := fun k =>
              mul_self_eq_zero.1 ((Finset.sum_eq_zero_iff_of_nonneg (fun k _ => mul_self_nonneg (D k))).1 hz k (Finset.mem_univ k))
            unfold dot
            exact Finset.sum_eq_zero fun k _ => by rw [hk k, zero_mul]
          rw [hA, hz]; simp
        · have hp : 0 < dot D D := lt_of_le_of_ne hDD (Ne.symm hz)
          have e : (-dot D s.A / dot D D) * dot D D = -dot D s.A := by field_simp
          have e2 : dot s.A s.A + 2 * t * dot D s.A + t ^ 2 * dot D D - (dot s.A s.A + 2 * (-dot D s.A / dot D D) * dot D s.A + (-dot D s.A / dot D D) ^ 2 * dot D D) =
              dot D D * (t - (-dot D s.A / dot D D)) ^ 2 := by
            field_simp
            ring
          have := mul_nonneg hDD (sq_nonneg (t - (-dot D s.A / dot D D)))
          linarith
    · refine ⟨s.A, s.d1, ?_, f2.symm, Or.inr ⟨s.A, s.B, l, g3, hPQ, hl, ⟨0, le_rfl, zero_le_one, by funext k; unfold between; ring⟩, ?_⟩⟩
      · unfold toLine
        rw [if_pos hlen]
        dsimp only
        rw [if_neg hc]
      · intro t t0 _
        rw [← f2]
        refine mag_le ?_
        rw [dot_between]
        have hnn : 0 ≤ dot D s.A := by
          by_contra hneg
          push Not at hneg
          by_cases hz : dot D D = 0
          · linarith
          · have hp : 0 < dot D D := lt_of_le_of_ne hDD (Ne.symm hz)
            exact hc ⟨div_nonneg (by linarith) hDD, by rw [div_le_one hp]; linarith⟩
        have := mul_nonneg t0 hnn
        have := mul_nonneg (sq_nonneg t) hDD
        linarith
  · have hl1 : Xs.length = 1 := by have := List.length_pos_of_ne_nil hne; omega
    obtain ⟨X, rfl⟩ := List.length_eq_one_iff.1 hl1
    have hX : s.A = X := by simpa using f1
    refine ⟨s.A, s.d1, ?_, f2.symm, Or.inl ⟨X, rfl, hX⟩⟩
    unfold toLine
    rw [if_neg hlen]

example : ∃ Xs : List (Fin 2 → ℝ), Xs ≠ [] ∧ ∀ X ∈ Xs, mag X < 10000 := by
  refine ⟨[fun _ => 1, fun _ => 2], by simp, ?_⟩
  have : ∀ c : ℝ, 0 ≤ c → c ≤ 2 → mag (d := 2) (fun _ => c) < 10000 := by
    intro c h0 h1
    unfold mag dot
    rw [Real.sqrt_lt' (by norm_num)]
    simp only [Fin.sum_univ_two]
    nlinarith
  intro X hX
  rcases List.mem_cons.1 hX with rfl | hX
  · exact this 1 (by norm_num) (by norm_num)
  · rw [List.mem_singleton.1 hX]; exact this 2 (by norm_num) (by norm_num)

open Classical in
/-- **C127, averages.** After a run, whatever was recorded before, each entry holds the middle of its part of `[min, max)`, and the sums of the recorded values over the records of
this run with a distance in this part, divided by `2 radius` times their number; without such a record 0. Nothing outside of the bins is accessed. -/
theorem C127_averages (b : Bins) (hn : 0 < b.n) (hlt : b.lo < b.hi) (radius : ℝ) (rs : List Rec) :
    ∃ b', b.run 1 rs = some b' ∧ ∀ i < b.n,
      let near := rs.filter fun r => InPart b.lo b.hi b.n i r.x
      polyEntry radius b' i = (b.lo + (i + 1 / 2) * ((b.hi - b.lo) / b.n),
        if near = [] then 0 else (near.map (·.v0)).sum / near.length / (2 * radius),
        if near = [] then 0 else (near.map (·.v1)).sum / near.length / (2 * radius)) := by
  obtain ⟨b', e, ⟨k1, k2, k3⟩, h⟩ := fold_spec 1 rs b.clear hn hlt
  refine ⟨b', e, fun i hi => ?_⟩
  intro near
  obtain ⟨a0, a1, a2⟩ := h i hi
  have hin : inBin b.clear i rs = near := rfl
  rw [hin] at a0 a1 a2
  have y0 : b'.y0 i = (near.map (·.v0)).sum := by rw [a0]; exact zero_add _
  have y1 : b'.y1 i = (near.map (·.v1)).sum := by rw [a1]; exact zero_add _
  have hc : b'.cnt i = near.length := by rw [a2]; show 0 + 1 * near.length = near.length; omega
  unfold polyEntry
  rw [k1, k2, k3, y0, y1, hc]
  refine Prod.ext ?_ (Prod.ext ?_ ?_)
  · show ((i : ℝ) + 0.5) * ((b.hi - b.lo) / b.n) + b.lo = _
    norm_num
    ring
  · dsimp only
    by_cases hne : near = []
    · rw [if_pos hne, if_neg (by rw [hne]; simp), hne]; simp
    · rw [if_neg hne, if_pos (List.length_pos_of_ne_nil hne), div_div, mul_comm (2 * radius)]
  · dsimp only
    by_cases hne : near = []
    · rw [if_pos hne, if_neg (by rw [hne]; simp), hne]; simp
    · rw [if_neg hne, if_pos (List.length_pos_of_ne_nil hne), div_div, mul_comm (2 * radius)]

example : 0 < bins0.n ∧ bins0.lo < bins0.hi := by constructor <;> norm_num [bins0]

/-- What a record holds: the component of the force on the particle, without that of its own chain, along the direction to the other polymer, times the normalisation; the component of the
force of the own chain is recorded without the normalisation. (Stated without division by the distance.) -/
theorem C127_record (A B : Fin d → ℝ) (Xs : List (Fin d → ℝ)) (f r : Fin d → ℝ) (nrm : ℝ) :
    let p := (toLine Xs.length (nearest A B Xs)).1
    mag p * (polyRec A B Xs f (some r) nrm).v0 = nrm * ∑ k, (f k - r k) * p k ∧ mag p * (polyRec A B Xs f (some r) nrm).v1 = ∑ k, r k * p k ∧
    mag p * (polyRec A B Xs f none nrm).v0 = nrm * ∑ k, f k * p k := by
  intro p
  have comm : ∀ a b : Fin d → ℝ, dot a b = dot b a := fun a b => Finset.sum_congr rfl fun k _ => mul_comm _ _
  have key : ∀ g : Fin d → ℝ, mag p * dot (unit p) g = ∑ k, g k * p k := by
    intro g; rw [comm, dot_unit]; rfl
  refine ⟨?_, key r, ?_⟩
  · show mag p * (dot (unit p) (fun k => f k - r k) * nrm) = _
    rw [← mul_assoc, key, mul_comm]
  · show mag p * (dot (unit p) f * nrm) = _
    rw [← mul_assoc, key, mul_comm]

/-- Displacements from a particle to the four particles of a polymer in the plane that is bent around it: up on the right side, across above it and down on the left side (a specification example). -/
noncomputable def bend : List (Fin 2 → ℝ) := [![2, 0], ![2, 10], ![-3, 10], ![-3, 0]]

theorem mag2 (x y : ℝ) : mag (d := 2) ![x, y] = Real.sqrt (x * x + y * y) := by
  unfold mag dot; simp [Fin.sum_univ_two]

/-- **The distance is not that from the polymer.** For a polymer bent around the particle the two closest particles are no neighbours: the recorded distance is 0 although no particle of
the polymer and no point of its bonds is closer than 2. -/
theorem C127_negation_bend : (∀ A B : Fin 2 → ℝ, (toLine bend.length (nearest A B bend)).2 = 0) ∧
    ∀ i < 3, ∀ t : ℝ, 0 ≤ t → t ≤ 1 → 2 ≤ mag (between (bend.getD i 0) (bend.getD (i + 1) 0) t) := by
  constructor
  · intro A B
    have m1 : mag (d := 2) ![2, 0] = 2 := by rw [mag2, show (2 : ℝ) * 2 + 0 * 0 = 2 ^ 2 by norm_num]; exact Real.sqrt_sq (by norm_num)
    have m4 : mag (d := 2) ![-3, 0] = 3 := by rw [mag2, show (-3 : ℝ) * -3 + 0 * 0 = 3 ^ 2 by norm_num]; exact Real.sqrt_sq (by norm_num)
    have m2 : 9 < mag (d := 2) ![2, 10] ∧ mag (d := 2) ![2, 10] < 100 := by
      rw [mag2]; exact ⟨Real.lt_sqrt_of_sq_lt (by norm_num), by rw [Real.sqrt_lt' (by norm_num)]; norm_num⟩
    have m3 : 10 < mag (d := 2) ![-3, 10] ∧ mag (d := 2) ![2, 10] ≤ mag (d := 2) ![-3, 10] := by
      rw [mag2, mag2]; exact ⟨Real.lt_sqrt_of_sq_lt (by norm_num), Real.sqrt_le_sqrt (by norm_num)⟩
    have hn : nearest A B bend = ⟨2, 3, ![2, 0], ![-3, 0]⟩ := by
      unfold nearest bend
      simp only [List.foldl_cons, List.foldl_nil]
      have s1 : nearStep ⟨10000, 10000, A, B⟩ ![2, 0] = ⟨2, 10000, ![2, 0], A⟩ := by
        unfold nearStep; rw [m1, if_pos (by norm_num)]
      rw [s1]
      have s2 : nearStep ⟨2, 10000, ![2, 0], A⟩ ![2, 10] = ⟨2, mag (d := 2) ![2, 10], ![2, 0], ![2, 10]⟩ := by
        unfold nearStep; dsimp only; rw [if_neg (by linarith [m2.1]), if_pos (by linarith [m2.2])]
      rw [s2]
      have s3 : nearStep ⟨2, mag (d := 2) ![2, 10], ![2, 0], ![2, 10]⟩ ![-3, 10] = ⟨2, mag (d := 2) ![2, 10], ![2, 0], ![2, 10]⟩ := by
        unfold nearStep; dsimp only; rw [if_neg (by linarith [m3.1]), if_neg (by linarith [m3.2])]
      rw [s3]
      unfold nearStep
      dsimp only
      rw [m4, if_neg (by norm_num), if_pos (by linarith [m2.1])]
    rw [hn]
    unfold toLine bend
    simp only [List.length_cons, List.length_nil]
    rw [if_pos (by norm_num)]
    have hl : -dot (d := 2) (fun k => (![-3, 0] : Fin 2 → ℝ) k - (![2, 0] : Fin 2 → ℝ) k) ![2, 0] /
        dot (d := 2) (fun k => (![-3, 0] : Fin 2 → ℝ) k - (![2, 0] : Fin 2 → ℝ) k) (fun k => (![-3, 0] : Fin 2 → ℝ) k - (![2, 0] : Fin 2 → ℝ) k) = 2 / 5 := by
      unfold dot; simp [Fin.sum_univ_two]; norm_num
    rw [hl, if_pos (by norm_num)]
    dsimp only
    unfold mag dot
    simp [Fin.sum_univ_two]
    norm_num
  · intro i hi t t0 t1
    have hge : ∀ x y : ℝ, 4 ≤ x * x + y * y → 2 ≤ mag (d := 2) ![x, y] := by
      intro x y h; rw [mag2]; exact Real.le_sqrt_of_sq_le (by norm_num; linarith)
    have hb : ∀ a b c e : ℝ, between (d := 2) ![a, b] ![c, e] t = ![a + t * (c - a), b + t * (e - b)] := by
      intro a b c e; funext k; unfold between; fin_cases k <;> simp
    have h3 : i = 0 ∨ i = 1 ∨ i = 2 := by omega
    rcases h3 with rfl | rfl | rfl
    · show 2 ≤ mag (between (d := 2) ![2, 0] ![2, 10] t)
      rw [hb]; exact hge _ _ (by nlinarith [sq_nonneg t])
    · show 2 ≤ mag (between (d := 2) ![2, 10] ![-3, 10] t)
      rw [hb]; exact hge _ _ (by nlinarith [sq_nonneg (2 + t * (-3 - 2))])
    · show 2 ≤ mag (between (d := 2) ![-3, 10] ![-3, 0] t)
      rw [hb]; exact hge _ _ (by nlinarith [sq_nonneg (10 + t * (0 - 10))])

end Verif.BinForce
