import Verif.Data.GroupAngular
import Mathlib.Algebra.Order.Floor.Ring

/-!
# Statistics of two groups, two walls and two polymers (C125, C126)

Models `dataobjects/twogroupstatistics.cpp`, `dataobjects/multigraphobjects/twowallbinforce.cpp` and `dataobjects/multigraphobjects/twopolymerbinforce.cpp`.
Exact real arithmetic; an access outside of the bins is `none`.
-/

set_option linter.unusedSectionVars false

namespace Verif.TwoGroups
open Verif.PairForces Verif.Groups Verif.GroupAngular

variable {d : ℕ}

/-! ## Two groups -/

/-- Conversion of a real number to `int`: towards zero. -/
noncomputable def trunc (x : ℝ) : ℤ := if 0 ≤ x then ⌊x⌋ else ⌈x⌉

/-- The length of a vector, `utility/vectormath.hpp` (`magnitude`). -/
noncomputable def mag (a : Fin d → ℝ) : ℝ := Real.sqrt (dot a a)

open Classical in
/-- `Vec::normalize`, `utility/vec.hpp:157-164`: the zero vector stays. -/
noncomputable def unit (a : Fin d → ℝ) : Fin d → ℝ := if mag a = 0 then a else fun k => a k / mag a

/-- What is recorded of two groups, `dataobjects/twogroupstatistics.cpp:24-46`: distance of the centres of mass, relative force and velocity along their
connection. The code computes the last two only if the distance is below the cutoff. -/
structure Rec where
  R : ℝ
  f : ℝ
  v : ℝ

/-- `TwoGroupStatistics::post_step`, `dataobjects/twogroupstatistics.cpp:24-46`. -/
noncomputable def record (W : World d) (G1 G2 : Group) : Option Rec :=
  (G1.centerOfMass W).bind fun c1 => (G2.centerOfMass W).bind fun c2 =>
  (G1.comVelocity W).bind fun v1 => (G2.comVelocity W).map fun v2 =>
    { R := mag (disp W c2 c1)
      f := dot (fun k => G2.netForce W k - G1.netForce W k) (unit (disp W c2 c1))
      v := dot (fun k => v2 k - v1 k) (unit (disp W c2 c1)) }

/-- The two histograms and their sizes, `dataobjects/twogroupstatistics.hpp:33-53`. -/
structure Stat where
  binsX : ℕ
  binsY : ℕ
  rmax : ℝ
  vmax : ℝ
  fmax : ℝ
  cf : ℕ → ℕ → ℕ
  cv : ℕ → ℕ → ℕ

/-- `setBins`, `dataobjects/twogroupstatistics.cpp:105-112`, called at the start of each run by `pre_integrate` (9-11). -/
def Stat.clear (s : Stat) : Stat := { s with cf := fun _ _ => 0, cv := fun _ _ => 0 }

/-- `++count[x][y]`. -/
def bump (c : ℕ → ℕ → ℕ) (x y : ℕ) : ℕ → ℕ → ℕ := fun a b => if a = x ∧ b = y then c a b + 1 else c a b

/-- The bin of a value between `-m` and `m`, `dataobjects/twogroupstatistics.cpp:51,55`. -/
noncomputable def valueBin (n : ℕ) (m x : ℝ) : ℤ := trunc (0.5 * n * (x + m) / m)

open Classical in
/-- Binning of a record, `dataobjects/twogroupstatistics.cpp:31-57`; a distance bin outside of the vector is undefined. -/
noncomputable def Stat.add (s : Stat) (r : Rec) : Option Stat :=
  if r.R < s.rmax then
    let br := trunc (r.R / s.rmax * s.binsX)
    let bf := valueBin s.binsY s.fmax r.f
    let bv := valueBin s.binsY s.vmax r.v
    if (0 ≤ bf ∧ bf < s.binsY ∨ 0 ≤ bv ∧ bv < s.binsY) ∧ ¬ (0 ≤ br ∧ br < s.binsX) then none else
    some { s with
      cf := if 0 ≤ bf ∧ bf < s.binsY then bump s.cf br.toNat bf.toNat else s.cf
      cv := if 0 ≤ bv ∧ bv < s.binsY then bump s.cv br.toNat bv.toNat else s.cv }
  else some s

/-- The records of a run. -/
noncomputable def Stat.run (s : Stat) (rs : List Rec) : Option Stat := rs.foldlM Stat.add s.clear

/-- Labels in the file of velocities, `dataobjects/twogroupstatistics.cpp:72-82`: of the distance and of the velocity. -/
noncomputable def Stat.velLabel (s : Stat) (x y : ℕ) : ℝ × ℝ :=
  (0.5 * (s.rmax / s.binsX) + x * (s.rmax / s.binsX), -s.vmax + y * (2 * s.vmax / s.binsY))

/-- Labels in the file of forces, `dataobjects/twogroupstatistics.cpp:89-98`. -/
noncomputable def Stat.forceLabel (s : Stat) (x y : ℕ) : ℝ × ℝ :=
  (0 + x * (s.rmax / s.binsX), -s.fmax + y * (2 * s.fmax / (s.binsY - 1)))

/-! ## C125 -/

/-- Specification: `x` is in the `b`-th of `n` equal parts of `[lo, hi)`. -/
def InPart (lo hi : ℝ) (n b : ℕ) (x : ℝ) : Prop := lo + b * ((hi - lo) / n) ≤ x ∧ x < lo + (b + 1) * ((hi - lo) / n)

theorem trunc_eq (x : ℝ) (hx : 0 ≤ x) (b : ℕ) : trunc x = b ↔ (b : ℝ) ≤ x ∧ x < b + 1 := by
  unfold trunc
  rw [if_pos hx, Int.floor_eq_iff]
  simp

theorem trunc_range (x : ℝ) (hx : 0 ≤ x) (n : ℕ) : 0 ≤ trunc x ∧ (trunc x < n ↔ x < n) := by
  unfold trunc
  rw [if_pos hx]
  exact ⟨Int.floor_nonneg.2 hx, by rw [Int.floor_lt]; simp⟩

theorem part_iff (lo hi : ℝ) (n b : ℕ) (hn : 0 < n) (hlt : lo < hi) (x q : ℝ) (hq : q * ((hi - lo) / n) = x - lo) :
    InPart lo hi n b x ↔ (b : ℝ) ≤ q ∧ q < b + 1 := by
  have hn' : (0 : ℝ) < n := by exact_mod_cast hn
  have hw : 0 < (hi - lo) / n := div_pos (by linarith) hn'
  unfold InPart
  constructor
  · rintro ⟨h1, h2⟩
    constructor
    · by_contra hc
      have := mul_lt_mul_of_pos_right (not_le.1 hc) hw
      linarith
    · by_contra hc
      have := mul_le_mul_of_nonneg_right (not_lt.1 hc) hw.le
      linarith
  · rintro ⟨h1, h2⟩
    have g1 := mul_le_mul_of_nonneg_right h1 hw.le
    have g2 := mul_lt_mul_of_pos_right h2 hw
    constructor <;> linarith

/-- Distances are put into the bin that contains them. -/
theorem dist_bin (s : Stat) (hx : 0 < s.binsX) (hr : 0 < s.rmax) (R : ℝ) (h0 : 0 ≤ R) (h : R < s.rmax) :
    (0 ≤ trunc (R / s.rmax * s.binsX) ∧ trunc (R / s.rmax * s.binsX) < s.binsX) ∧
    ∀ b : ℕ, (trunc (R / s.rmax * s.binsX)).toNat = b ↔ InPart 0 s.rmax s.binsX b R := by
  have hn : (0 : ℝ) < s.binsX := by exact_mod_cast hx
  have hq : 0 ≤ R / s.rmax * s.binsX := by positivity
  have hlt : R / s.rmax * s.binsX < s.binsX := by
    have : R / s.rmax < 1 := (div_lt_one hr).2 h
    nlinarith
  obtain ⟨g1, g2⟩ := trunc_range _ hq s.binsX
  refine ⟨⟨g1, g2.2 hlt⟩, fun b => ?_⟩
  rw [part_iff 0 s.rmax s.binsX b hx hr R (R / s.rmax * s.binsX) (by field_simp; ring), ← trunc_eq _ hq]
  omega

/-- Values from `-m` on are put into the bin that contains them, or into none if they are not below `m`. -/
theorem value_bin (n : ℕ) (hn : 0 < n) (m x : ℝ) (hm : 0 < m) (h : -m ≤ x) :
    0 ≤ valueBin n m x ∧ (valueBin n m x < n ↔ x < m) ∧ ∀ b : ℕ, (valueBin n m x).toNat = b ↔ InPart (-m) m n b x := by
  have hn' : (0 : ℝ) < n := by exact_mod_cast hn
  have hq : 0 ≤ 0.5 * n * (x + m) / m := div_nonneg (mul_nonneg (by positivity) (by linarith)) hm.le
  obtain ⟨g1, g2⟩ := trunc_range _ hq n
  refine ⟨g1, ?_, fun b => ?_⟩
  · unfold valueBin
    rw [g2, div_lt_iff₀ hm]
    constructor
    · intro hh
      by_contra hc
      have := not_lt.1 hc
      nlinarith
    · intro hh; nlinarith
  · rw [part_iff (-m) m n b hn (by linarith) x (0.5 * n * (x + m) / m) (by field_simp; ring), ← trunc_eq _ hq]
    unfold valueBin
    omega

/-- Sizes and cutoffs are positive (they are for a new object; the cutoffs cannot be changed). -/
structure Stat.Good (s : Stat) : Prop where
  x : 0 < s.binsX
  y : 0 < s.binsY
  r : 0 < s.rmax
  v : 0 < s.vmax
  f : 0 < s.fmax

open Classical in
theorem run_spec (rs : List Rec) : ∀ s : Stat, s.Good → (∀ r ∈ rs, 0 ≤ r.R ∧ -s.fmax ≤ r.f ∧ -s.vmax ≤ r.v) →
    ∃ s', rs.foldlM Stat.add s = some s' ∧ (s'.binsX = s.binsX ∧ s'.binsY = s.binsY ∧ s'.rmax = s.rmax ∧ s'.vmax = s.vmax ∧ s'.fmax = s.fmax) ∧
      ∀ x < s.binsX, ∀ y < s.binsY,
        s'.cf x y = s.cf x y + (rs.filter fun r => InPart 0 s.rmax s.binsX x r.R ∧ InPart (-s.fmax) s.fmax s.binsY y r.f).length ∧
        s'.cv x y = s.cv x y + (rs.filter fun r => InPart 0 s.rmax s.binsX x r.R ∧ InPart (-s.vmax) s.vmax s.binsY y r.v).length := by
  induction rs with
  | nil => intro s _ _; exact ⟨s, rfl, ⟨rfl, rfl, rfl, rfl, rfl⟩, fun x _ y _ => by simp⟩
  | cons r rs ih =>
    intro s hs hr
    obtain ⟨r0, r1, r2⟩ := hr r (List.mem_cons_self ..)
    obtain ⟨f0, f1, f2⟩ := value_bin s.binsY hs.y s.fmax r.f hs.f r1
    obtain ⟨v0, v1, v2⟩ := value_bin s.binsY hs.y s.vmax r.v hs.v r2
    have part_top : ∀ (lo hi : ℝ) (n b : ℕ) (x : ℝ), lo < hi → b < n → InPart lo hi n b x → x < hi := by
      intro lo hi n b x hlt hb ⟨_, h2⟩
      have hn : (0 : ℝ) < n := by exact_mod_cast (by omega : 0 < n)
      have hbn : (b : ℝ) + 1 ≤ n := by exact_mod_cast hb
      have hw : 0 < (hi - lo) / n := div_pos (by linarith) hn
      have := mul_le_mul_of_nonneg_right hbn hw.le
      have e : (n : ℝ) * ((hi - lo) / n) = hi - lo := by field_simp
      linarith
    obtain ⟨s1, e1, h1, hc⟩ : ∃ s1, s.add r = some s1 ∧ (s1.binsX = s.binsX ∧ s1.binsY = s.binsY ∧ s1.rmax = s.rmax ∧ s1.vmax = s.vmax ∧ s1.fmax = s.fmax) ∧
        ∀ x < s.binsX, ∀ y < s.binsY,
          s1.cf x y = s.cf x y + (if InPart 0 s.rmax s.binsX x r.R ∧ InPart (-s.fmax) s.fmax s.binsY y r.f then 1 else 0) ∧
          s1.cv x y = s.cv x y + (if InPart 0 s.rmax s.binsX x r.R ∧ InPart (-s.vmax) s.vmax s.binsY y r.v then 1 else 0) := by
      unfold Stat.add
      by_cases hR : r.R < s.rmax
      · obtain ⟨d1, d2⟩ := dist_bin s hs.x hs.r r.R r0 hR
        rw [if_pos hR]
        dsimp only
        rw [if_neg (fun h => h.2 d1)]
        refine ⟨_, rfl, ⟨rfl, rfl, rfl, rfl, rfl⟩, fun x hx y hy => ⟨?_, ?_⟩⟩
        · dsimp only
          by_cases hb : valueBin s.binsY s.fmax r.f < s.binsY
          · rw [if_pos ⟨f0, hb⟩]
            unfold bump
            rw [← d2 x, ← f2 y]
            by_cases hxy : x = (trunc (r.R / s.rmax * s.binsX)).toNat ∧ y = (valueBin s.binsY s.fmax r.f).toNat
            · rw [if_pos hxy, if_pos ⟨hxy.1.symm, hxy.2.symm⟩]
            · rw [if_neg hxy, if_neg (fun h => hxy ⟨h.1.symm, h.2.symm⟩), add_zero]
          · rw [if_neg (fun h => hb h.2), if_neg, add_zero]
            rintro ⟨_, h⟩
            exact hb (f1.2 (part_top _ _ _ _ _ (by linarith [hs.f]) hy h))
        · dsimp only
          by_cases hb : valueBin s.binsY s.vmax r.v < s.binsY
          · rw [if_pos ⟨v0, hb⟩]
            unfold bump
            rw [← d2 x, ← v2 y]
            by_cases hxy : x = (trunc (r.R / s.rmax * s.binsX)).toNat ∧ y = (valueBin s.binsY s.vmax r.v).toNat
            · rw [if_pos hxy, if_pos ⟨hxy.1.symm, hxy.2.symm⟩]
            · rw [if_neg hxy, if_neg (fun h => hxy ⟨h.1.symm, h.2.symm⟩), add_zero]
          · rw [if_neg (fun h => hb h.2), if_neg, add_zero]
            rintro ⟨_, h⟩
            exact hb (v1.2 (part_top _ _ _ _ _ (by linarith [hs.v]) hy h))
      · rw [if_neg hR]
        refine ⟨s, rfl, ⟨rfl, rfl, rfl, rfl, rfl⟩, fun x hx y hy => ⟨?_, ?_⟩⟩ <;>
        · rw [if_neg, add_zero]
          rintro ⟨h, _⟩
          exact hR (part_top _ _ _ _ _ hs.r hx h)
    obtain ⟨k1, k2, k3, k4, k5⟩ := h1
    obtain ⟨s', e', h', hc'⟩ := ih s1 ⟨by rw [k1]; exact hs.x, by rw [k2]; exact hs.y, by rw [k3]; exact hs.r, by rw [k4]; exact hs.v, by rw [k5]; exact hs.f⟩
      (fun q hq => by rw [k4, k5]; exact hr q (List.mem_cons_of_mem _ hq))
    obtain ⟨m1, m2, m3, m4, m5⟩ := h'
    refine ⟨s', by rw [List.foldlM_cons, e1]; exact e', ⟨m1.trans k1, m2.trans k2, m3.trans k3, m4.trans k4, m5.trans k5⟩, fun x hx y hy => ?_⟩
    obtain ⟨a1, a2⟩ := hc' x (by omega) y (by omega)
    obtain ⟨b1, b2⟩ := hc x hx y hy
    rw [k1, k2, k3, k5] at a1
    rw [k1, k2, k3, k4] at a2
    rw [a1, a2, b1, b2, List.filter_cons, List.filter_cons]
    constructor
    · split_ifs <;> simp_all <;> omega
    · split_ifs <;> simp_all <;> omega

open Classical in
/-- **C125, histograms (partial).** After a run, whatever was counted before, each bin of the histograms holds the number of records of this run whose distance is
in its part of `[0, r_max)` and whose relative force (velocity) is in its part of `[-f_max, f_max)`; nothing outside of the histograms is accessed.
Missing: forces below `-f_max` and velocities below `-v_max`, see `C125_negation_below`. -/
theorem C125_histogram_partial (s : Stat) (hs : s.Good) (rs : List Rec) (hr : ∀ r ∈ rs, 0 ≤ r.R ∧ -s.fmax ≤ r.f ∧ -s.vmax ≤ r.v) :
    ∃ s', s.run rs = some s' ∧ ∀ x < s.binsX, ∀ y < s.binsY,
      s'.cf x y = (rs.filter fun r => InPart 0 s.rmax s.binsX x r.R ∧ InPart (-s.fmax) s.fmax s.binsY y r.f).length ∧
      s'.cv x y = (rs.filter fun r => InPart 0 s.rmax s.binsX x r.R ∧ InPart (-s.vmax) s.vmax s.binsY y r.v).length := by
  obtain ⟨s', e, _, h⟩ := run_spec rs s.clear ⟨hs.x, hs.y, hs.r, hs.v, hs.f⟩ hr
  refine ⟨s', e, fun x hx y hy => ?_⟩
  obtain ⟨a, b⟩ := h x hx y hy
  exact ⟨by rw [a]; exact Nat.zero_add _, by rw [b]; exact Nat.zero_add _⟩

/-- A new object, `dataobjects/twogroupstatistics.cpp:5-7`, `dataobjects/twogroupstatistics.hpp:45-53`. -/
noncomputable def stat0 : Stat := ⟨50, 101, 5, 1 / 4, 1 / 4, fun _ _ => 0, fun _ _ => 0⟩

theorem stat0_good : stat0.Good := by constructor <;> norm_num [stat0]

example : stat0.Good ∧ ∀ r ∈ [(⟨1, 1 / 8, -1 / 8⟩ : Rec)], 0 ≤ r.R ∧ -stat0.fmax ≤ r.f ∧ -stat0.vmax ≤ r.v := by
  refine ⟨stat0_good, fun r hr => ?_⟩
  rw [List.mem_singleton.1 hr]
  norm_num [stat0]

/-- **Values just below the range are counted.** A force less than one bin below `-f_max` is counted in the first bin, as if it were in the range. -/
theorem C125_negation_below (s : Stat) (hs : s.Good) (r : Rec) (h0 : 0 ≤ r.R) (hR : r.R < s.rmax) (h1 : r.f < -s.fmax)
    (h2 : -s.fmax - 2 * s.fmax / s.binsY < r.f) :
    ∃ s' x, x < s.binsX ∧ s.add r = some s' ∧ s'.cf x 0 = s.cf x 0 + 1 := by
  obtain ⟨d1, _⟩ := dist_bin s hs.x hs.r r.R h0 hR
  have hn : (0 : ℝ) < s.binsY := by exact_mod_cast hs.y
  have hf := hs.f
  have hlt : 0.5 * s.binsY * (r.f + s.fmax) / s.fmax < 0 := div_neg_of_neg_of_pos (mul_neg_of_pos_of_neg (by positivity) (by linarith)) hf
  have hgt : -1 < 0.5 * s.binsY * (r.f + s.fmax) / s.fmax := by
    rw [lt_div_iff₀ hf]
    have e : 2 * s.fmax / s.binsY * (0.5 * s.binsY) = s.fmax := by field_simp; norm_num
    nlinarith
  have hb : valueBin s.binsY s.fmax r.f = 0 := by
    unfold valueBin trunc
    rw [if_neg (not_le.2 hlt), Int.ceil_eq_iff]
    constructor
    · push_cast; linarith
    · push_cast; exact hlt.le
  have hy : (0 : ℤ) < s.binsY := by exact_mod_cast hs.y
  unfold Stat.add
  rw [if_pos hR]
  dsimp only
  rw [if_neg (fun h => h.2 d1)]
  refine ⟨_, (trunc (r.R / s.rmax * s.binsX)).toNat, by omega, rfl, ?_⟩
  dsimp only
  rw [hb, if_pos ⟨le_rfl, hy⟩]
  simp [bump]

example : stat0.Good ∧ (0 : ℝ) ≤ 1 ∧ (1 : ℝ) < stat0.rmax ∧ (-(1 / 4) - 1 / 1000 : ℝ) < -stat0.fmax ∧
    -stat0.fmax - 2 * stat0.fmax / stat0.binsY < (-(1 / 4) - 1 / 1000 : ℝ) := by
  refine ⟨stat0_good, ?_, ?_, ?_, ?_⟩ <;> norm_num [stat0]

/-- The labels written with a count are values of its bin: the distance of the velocity file is the middle of the part, all others are on an edge of it or in it. -/
theorem C125_labels (s : Stat) (hs : s.Good) (h2 : 1 < s.binsY) (x y : ℕ) (hy : y < s.binsY) :
    (s.velLabel x y).1 = (x + 1 / 2) * (s.rmax / s.binsX) ∧ InPart (-s.vmax) s.vmax s.binsY y (s.velLabel x y).2 ∧
    InPart 0 s.rmax s.binsX x (s.forceLabel x y).1 ∧
    -s.fmax + y * (2 * s.fmax / s.binsY) ≤ (s.forceLabel x y).2 ∧ (s.forceLabel x y).2 ≤ -s.fmax + (y + 1) * (2 * s.fmax / s.binsY) := by
  have hn : (0 : ℝ) < s.binsY := by exact_mod_cast hs.y
  have hn1 : (0 : ℝ) < (s.binsY : ℝ) - 1 := by have : (1 : ℝ) < s.binsY := by exact_mod_cast h2
                                               linarith
  have hnx : (0 : ℝ) < s.binsX := by exact_mod_cast hs.x
  have hf := hs.f
  have hv := hs.v
  have hr := hs.r
  have hyn : (y : ℝ) + 1 ≤ s.binsY := by exact_mod_cast hy
  have hy0 : (0 : ℝ) ≤ y := Nat.cast_nonneg y
  refine ⟨?_, ?_, ?_, ?_, ?_⟩
  · simp only [Stat.velLabel]; ring
  · simp only [Stat.velLabel, InPart]
    have hw : 0 < 2 * s.vmax / s.binsY := by positivity
    have e : (s.vmax - -s.vmax) / (s.binsY : ℝ) = 2 * s.vmax / s.binsY := by ring
    rw [e]
    constructor <;> nlinarith
  · simp only [Stat.forceLabel, InPart]
    have hw : 0 < s.rmax / s.binsX := by positivity
    rw [sub_zero]
    constructor <;> nlinarith
  · simp only [Stat.forceLabel]
    have : 2 * s.fmax / (s.binsY : ℝ) ≤ 2 * s.fmax / ((s.binsY : ℝ) - 1) := div_le_div_of_nonneg_left (by linarith) hn1 (by linarith)
    nlinarith [mul_le_mul_of_nonneg_left this hy0]
  · simp only [Stat.forceLabel]
    have : (y : ℝ) * (2 * s.fmax / ((s.binsY : ℝ) - 1)) ≤ (y + 1) * (2 * s.fmax / s.binsY) := by
      rw [← mul_div_assoc, ← mul_div_assoc, div_le_div_iff₀ hn1 hn]
      nlinarith
    linarith

example : stat0.Good ∧ 1 < stat0.binsY ∧ 100 < stat0.binsY := ⟨stat0_good, by norm_num [stat0], by norm_num [stat0]⟩

/-- The displacement changes its sign when the points are exchanged. -/
theorem disp_swap (W : World d) (hw : ∀ k, W.lo k ≤ W.hi k) (x y : Fin d → ℝ) (k : Fin d) : disp W y x k = -disp W x y k := by
  unfold disp correct
  cases h : W.wrap k with
  | false => simp [h]
  | true =>
    simp only [h, if_true, Pi.sub_apply]
    have e : y k - x k = -(x k - y k) := by ring
    rw [e, abs_neg]
    have hwk := hw k
    split_ifs with h1 h2 h3 h3
    · linarith
    · ring
    · ring
    · have : x k - y k = 0 := by linarith [not_lt.1 h2, not_lt.1 h3]
      rw [this, abs_zero] at h1
      linarith
    · ring

theorem dot_neg_neg (a b : Fin d → ℝ) : dot (fun k => -a k) (fun k => -b k) = dot a b := by
  unfold dot; exact Finset.sum_congr rfl fun k _ => by ring

/-- The record does not depend on which group is the first. -/
theorem C125_symmetric (W : World d) (hw : ∀ k, W.lo k ≤ W.hi k) (G1 G2 : Group) : record W G1 G2 = record W G2 G1 := by
  unfold record
  cases h1 : G1.centerOfMass W with
  | none => cases h2 : G2.centerOfMass W <;> rfl
  | some c1 =>
    cases h2 : G2.centerOfMass W with
    | none => rfl
    | some c2 =>
      cases h3 : G1.comVelocity W with
      | none => cases h4 : G2.comVelocity W <;> rfl
      | some v1 =>
        cases h4 : G2.comVelocity W with
        | none => rfl
        | some v2 =>
          simp only [Option.bind_some, Option.map_some, Option.some.injEq, Rec.mk.injEq]
          have e : disp W c2 c1 = fun k => -disp W c1 c2 k := funext fun k => disp_swap W hw c1 c2 k
          have en : mag (disp W c2 c1) = mag (disp W c1 c2) := by unfold mag; rw [e, dot_neg_neg]
          have eu : unit (disp W c2 c1) = fun k => -unit (disp W c1 c2) k := by
            unfold unit
            rw [en]
            by_cases hz : mag (disp W c1 c2) = 0
            · rw [if_pos hz, if_pos hz, e]
            · rw [if_neg hz, if_neg hz, e]; funext k; ring
          refine ⟨en, ?_, ?_⟩
          · rw [eu, ← dot_neg_neg]; congr 1 <;> funext k <;> ring
          · rw [eu, ← dot_neg_neg]; congr 1 <;> funext k <;> ring

example : ∀ k, world2.lo k ≤ world2.hi k := fun k => by norm_num [world2]

/-- Specification: the velocity of the centre of mass of the members `l`. -/
noncomputable def drift (W : World d) (l : List ℕ) (k : Fin d) : ℝ := (total l fun i => 1 / W.im i * W.v i k) / total l fun i => 1 / W.im i

theorem mag_sq (a : Fin d → ℝ) : mag a * mag a = dot a a :=
  Real.mul_self_sqrt (Finset.sum_nonneg fun k _ => mul_self_nonneg (a k))

theorem dot_unit (a b : Fin d → ℝ) : mag b * dot a (unit b) = dot a b := by
  unfold unit
  by_cases h : mag b = 0
  · have hz : ∀ k, b k = 0 := by
      have h2 : dot b b = 0 := by rw [← mag_sq, h, zero_mul]
      intro k
      have := (Finset.sum_eq_zero_iff_of_nonneg (fun k _ => mul_self_nonneg (b k))).1 h2 k (Finset.mem_univ k)
      exact mul_self_eq_zero.1 this
    rw [if_pos h, h, zero_mul]
    unfold dot
    exact (Finset.sum_eq_zero fun k _ => by rw [hz k, mul_zero]).symm
  · rw [if_neg h]
    unfold dot
    rw [Finset.mul_sum]
    exact Finset.sum_congr rfl fun k _ => by field_simp

theorem self_unwrapped (W : World d) (l : List ℕ) (hw : ∀ k, W.wrap k = false) : Unwrapped W l W.x :=
  ⟨fun _ _ _ => ⟨0, by simp, fun _ => rfl⟩, fun _ _ _ _ k h => by rw [hw k] at h; simp at h⟩

theorem com_open (W : World d) (hw : ∀ k, W.wrap k = false) (G : Group) (hG : OK G) (hne : G.size ≠ 0) (him : ∀ i ∈ G.lids, 0 < W.im i)
    (hbox : InBox W G.lids) : G.centerOfMass W = some (centre W G.lids W.x) := by
  obtain ⟨c, e, h⟩ := arms W G hG hne him hbox W.x (self_unwrapped W G.lids hw)
  rw [e]
  congr 1
  obtain ⟨i, hi⟩ := List.exists_mem_of_ne_nil _ (size_ne hG hne)
  funext k
  have := congrFun (h i hi) k
  rw [disp_free W _ _ k (hw k)] at this
  linarith

/-- The record of two groups of movable members in a box that does not wrap: distance of the centres of mass, and the components of the difference of the net forces and
of the velocities of the centres of mass along their connection (stated without division by the distance). -/
theorem C125_record (W : World d) (hw : ∀ k, W.wrap k = false) (G1 G2 : Group) (h1 : OK G1) (h2 : OK G2) (n1 : G1.size ≠ 0) (n2 : G2.size ≠ 0)
    (m1 : ∀ i ∈ G1.lids, 0 < W.im i) (m2 : ∀ i ∈ G2.lids, 0 < W.im i) (b1 : InBox W G1.lids) (b2 : InBox W G2.lids) :
    let D := fun k => centre W G2.lids W.x k - centre W G1.lids W.x k
    ∃ r, record W G1 G2 = some r ∧ 0 ≤ r.R ∧ r.R ^ 2 = ∑ k, D k ^ 2 ∧
      r.R * r.f = ∑ k, ((total G2.lids fun i => W.f i k) - total G1.lids fun i => W.f i k) * D k ∧
      r.R * r.v = ∑ k, (drift W G2.lids k - drift W G1.lids k) * D k := by
  intro D
  obtain ⟨v1, ev1, hv1⟩ : ∃ v, G1.comVelocity W = some v ∧ v = drift W G1.lids := by
    obtain ⟨v, e, h⟩ := C45_com_velocity W G1 h1 m1
    refine ⟨v, e, funext fun k => ?_⟩
    have hp := total_pos W.im G1.lids (size_ne h1 n1) m1
    unfold drift
    rw [eq_div_iff hp.ne']
    linarith [h k]
  obtain ⟨v2, ev2, hv2⟩ : ∃ v, G2.comVelocity W = some v ∧ v = drift W G2.lids := by
    obtain ⟨v, e, h⟩ := C45_com_velocity W G2 h2 m2
    refine ⟨v, e, funext fun k => ?_⟩
    have hp := total_pos W.im G2.lids (size_ne h2 n2) m2
    unfold drift
    rw [eq_div_iff hp.ne']
    linarith [h k]
  have hD : disp W (centre W G2.lids W.x) (centre W G1.lids W.x) = D := funext fun k => disp_free W _ _ k (hw k)
  unfold record
  rw [com_open W hw G1 h1 n1 m1 b1, com_open W hw G2 h2 n2 m2 b2, ev1, ev2]
  refine ⟨_, rfl, Real.sqrt_nonneg _, ?_, ?_, ?_⟩
  · dsimp only
    rw [hD, sq, mag_sq]
    unfold dot
    exact Finset.sum_congr rfl fun k _ => by ring
  · dsimp only
    rw [hD, dot_unit]
    unfold dot
    exact Finset.sum_congr rfl fun k _ => by dsimp only; rw [C45_net_force W G1 h1 k, C45_net_force W G2 h2 k]
  · dsimp only
    rw [hD, dot_unit, hv1, hv2]
    rfl

/-- **A group whose members have all left is recorded at the origin.** -/
theorem C125_negation_lost (W : World d) (G1 : Group) (c1 v1 : Fin d → ℝ) (e1 : G1.centerOfMass W = some c1) (e2 : G1.comVelocity W = some v1) :
    ∃ r, record W G1 Group.new = some r ∧ r.R = mag (disp W (fun _ => 0) c1) := by
  unfold record
  have g1 : Group.new.centerOfMass W = some fun _ => 0 := by unfold Group.centerOfMass; exact if_pos rfl
  have g2 : Group.new.comVelocity W = some fun _ => 0 := by unfold Group.comVelocity; exact if_pos rfl
  rw [e1, e2, g1, g2]
  exact ⟨_, rfl, rfl⟩

/-- Two groups of one particle each in an open box. -/
noncomputable def world3 : World 2 := { world2 with wrap := fun _ => false }

example : (∀ k, world3.wrap k = false) ∧ OK (⟨[0], [0]⟩ : Group) ∧ OK (⟨[1], [1]⟩ : Group) ∧ InBox world3 [0] ∧ InBox world3 [1] ∧ ∀ i, 0 < world3.im i := by
  refine ⟨fun _ => rfl, rfl, rfl, ?_, ?_, fun i => by norm_num [world3, world2]⟩ <;>
  · intro i hi k
    rw [List.mem_singleton.1 hi]
    norm_num [world3, world2]

example : ∃ c v, (⟨[0], [0]⟩ : Group).centerOfMass world3 = some c ∧ (⟨[0], [0]⟩ : Group).comVelocity world3 = some v := by
  obtain ⟨v, e, _⟩ := C45_com_velocity world3 ⟨[0], [0]⟩ rfl (fun i _ => by norm_num [world3, world2])
  refine ⟨_, v, com_open world3 (fun _ => rfl) ⟨[0], [0]⟩ rfl (by decide) (fun i _ => by norm_num [world3, world2]) ?_, e⟩
  intro i hi k
  rw [List.mem_singleton.1 hi]
  norm_num [world3, world2]

end Verif.TwoGroups
