import Verif.Parallel.ParallelWhole
import Verif.Parallel.ParallelTrue

/-!
# Parallel runs converge to the exact motion (C185)

C169 compares runs on processors with Newton's equations, but has conditions on the discrete motion of each run and takes lists as given.
Here runs are those of C184, in which the domains make the lists, and the conditions are on the set-up, the start, the exact motion, and
how often lists are constructed (`GFlow::run`, `gflow.cpp:170-300`).

Simplifications: those of C184.
-/

set_option linter.unusedSectionVars false
set_option linter.unusedVariables false

namespace Verif.ParallelConverge
open Verif.ParallelRun Verif.ParallelWhole Verif.ParallelTrue Verif.Convergence Verif.KDTree Verif.PairForces
open Verif.ParallelLists hiding Goes

variable {n : ℕ}

/-! ## Specification -/

/-- Spec: up to the time `T` the exact motion has speeds (in every direction) of at most `U`, particles stay by `δ` within the box where it
does not wrap, and no particle is closer than `δ`, in all directions, to another or to one of its images. -/
structure Roomy (S : Setup n) (sys : Sys) (T U δ : ℝ) (X V : ℝ → ℕ × Fin (n + 1) → ℝ) : Prop where
  speed : ∀ t ∈ Set.Icc 0 T, ∀ a < sys.N, ∀ k, |V t (a, k)| ≤ U
  inside : ∀ t ∈ Set.Icc 0 T, ∀ a < sys.N, ∀ k, S.wrap k = false → S.b.lo k + δ ≤ X t (a, k) ∧ X t (a, k) ≤ S.b.hi k - δ
  apart : ∀ t ∈ Set.Icc 0 T, ∀ a < sys.N, ∀ b < sys.N, a ≠ b → ∀ m : Fin (n + 1) → ℤ, (∀ k, S.wrap k = false → m k = 0) →
    ∃ k, δ ≤ |X t (a, k) - X t (b, k) - m k * (S.b.hi k - S.b.lo k)|

/-- Spec: the time between constructions is at most `τ`. -/
def Every (dts : ℕ → ℝ) (τ : ℝ) (l : List ℕ) : Prop := ∀ l1 R l2, l = l1 ++ R :: l2 → clock dts (l1.sum + R) - clock dts l1.sum ≤ τ

/-! ## Proofs -/

theorem clock_mono {dts : ℕ → ℝ} (hd : ∀ t, 0 ≤ dts t) {s t : ℕ} (h : s ≤ t) : clock dts s ≤ clock dts t := by
  induction t, h using Nat.le_induction with
  | base => exact le_rfl
  | succ t _ ih =>
    have : clock dts (t + 1) = clock dts t + dts (t + 1) := by
      unfold clock
      rw [List.range_succ, List.map_append, List.sum_append]
      simp
    rw [this]
    linarith [hd (t + 1)]

theorem clock_nonneg {dts : ℕ → ℝ} (hd : ∀ t, 0 ≤ dts t) (t : ℕ) : 0 ≤ clock dts t := by
  refine List.sum_nonneg fun y hy => ?_
  obtain ⟨s, _, rfl⟩ := List.mem_map.mp hy
  exact hd s

theorem len_le_of {d : ℕ} {X : Fin d → ℝ} {ε : ℝ} (h : ∀ k, |X k| ≤ ε) : len X ≤ d * ε := by
  rcases Nat.eq_zero_or_pos d with rfl | hd
  · simp [len, dot]
  have hε : 0 ≤ ε := (abs_nonneg _).trans (h ⟨0, hd⟩)
  have h1 : (1 : ℝ) ≤ d := by exact_mod_cast hd
  unfold len
  refine Real.sqrt_le_iff.mpr ⟨by positivity, ?_⟩
  have h2 : dot X X ≤ d * ε ^ 2 := by
    unfold dot
    calc _ ≤ ∑ _k : Fin d, ε ^ 2 := Finset.sum_le_sum fun k _ => by
            rw [← sq, ← sq_abs]; exact pow_le_pow_left₀ (abs_nonneg _) (h k) 2
      _ = _ := by simp
  nlinarith [mul_nonneg (sub_nonneg.mpr h1) (sq_nonneg ε)]

/-- A discrete motion within `ε` of the exact motion meets the conditions of C184. -/
theorem conditions {S : Setup n} {sys : Sys} {time U δ τ ε : ℝ} {X V : ℝ → ℕ × Fin (n + 1) → ℝ} {a : (ℕ × Fin (n + 1) → ℝ) → (ℕ × Fin (n + 1) → ℝ) → ℕ × Fin (n + 1) → ℝ}
    (hs : Solves (Coord sys) a time X V)
    (hr : Roomy S sys time U δ X V) (hU : 0 ≤ U) (hb : ∀ k, S.b.lo k < S.b.hi k) {dts : ℕ → ℝ} (hd : ∀ t, 0 ≤ dts t) {l : List ℕ} (hc : clock dts l.sum ≤ time)
    (hev : Every dts τ l) {M : ℕ → Motion n} (hM : ∀ t ≤ l.sum, ∀ a < sys.N, ∀ k, |(M t).x a k - X (clock dts t) (a, k)| ≤ ε)
    (e1 : 2 * ε < δ) (e2 : U * τ + 2 * ε ≤ 1/10) (e3 : (n + 1) * (U * τ + 2 * ε) ≤ S.skin / 2) :
    Timely sys S.skin M l ∧ Separate sys (widths S.b S.wrap) M l.sum ∧ Slow S sys M l := by
  have inT : ∀ t ≤ l.sum, clock dts t ∈ Set.Icc 0 time := fun t ht => ⟨clock_nonneg hd t, (clock_mono hd ht).trans hc⟩
  have lip : ∀ s ∈ Set.Icc 0 time, ∀ t ∈ Set.Icc 0 time, ∀ a < sys.N, ∀ k, |X t (a, k) - X s (a, k)| ≤ U * |t - s| := by
    intro s hs' t ht a ha k
    exact Convex.norm_image_sub_le_of_norm_hasDerivWithin_le (f := fun u => X u (a, k)) (f' := fun u => V u (a, k)) (C := U)
      (s := Set.Icc 0 time) (x := s) (y := t) (fun u hu => hs.pos u hu (a, k) ha) (fun u hu => hr.speed u hu a ha k) (convex_Icc 0 time) hs' ht
  have step : ∀ l1 R l2, l = l1 ++ R :: l2 → ∀ r ≤ R, ∀ a < sys.N, ∀ k, |(M (l1.sum + r)).x a k - (M l1.sum).x a k| ≤ U * τ + 2 * ε := by
    intro l1 R l2 e r hr' a ha k
    have hle : l1.sum + R ≤ l.sum := by rw [e]; simp only [List.sum_append, List.sum_cons]; omega
    have h1 := abs_le.mp (hM (l1.sum + r) (by omega) a ha k)
    have h2 := abs_le.mp (hM l1.sum (by omega) a ha k)
    have h3 := lip _ (inT l1.sum (by omega)) _ (inT (l1.sum + r) (by omega)) a ha k
    have h4 : |clock dts (l1.sum + r) - clock dts l1.sum| ≤ τ := by
      rw [abs_of_nonneg (sub_nonneg.mpr (clock_mono hd (by omega)))]
      have := clock_mono hd (show l1.sum + r ≤ l1.sum + R by omega)
      linarith [hev l1 R l2 e]
    have h5 := abs_le.mp (h3.trans (mul_le_mul_of_nonneg_left h4 hU))
    rw [abs_le]
    constructor <;> linarith [h1.1, h1.2, h2.1, h2.2, h5.1, h5.2]
  refine ⟨?_, ?_, ?_⟩
  · intro l1 R l2 e r hr' a ha
    have := len_le_of (X := (M (l1.sum + r)).x a - (M l1.sum).x a) (step l1 R l2 e r hr'.le a ha)
    push_cast at this
    exact this.trans e3
  · intro t ht a ha b hb' hab hz
    set m : Fin (n + 1) → ℤ := fun k => if S.wrap k = true then round (((M t).x a k - (M t).x b k) / (S.b.hi k - S.b.lo k)) else 0 with hm
    have hk : ∀ k, (M t).x a k - (M t).x b k = m k * (S.b.hi k - S.b.lo k) := by
      intro k
      have hz := congrFun hz k
      unfold near widths at hz
      by_cases hw : S.wrap k = true
      · simp only [hw, if_true, Pi.sub_apply, Pi.zero_apply] at hz
        simp only [hm, hw, if_true]
        linarith
      · simp only [hw, if_false, Pi.sub_apply, Pi.zero_apply, Bool.false_eq_true] at hz
        simp only [hm, hw, Bool.false_eq_true, if_false, Int.cast_zero, zero_mul]
        exact hz
    obtain ⟨k, h⟩ := hr.apart _ (inT t ht.le) a ha b hb' hab m (fun k hw => by simp [hm, hw])
    have h1 := abs_le.mp (hM t ht.le a ha k)
    have h2 := abs_le.mp (hM t ht.le b hb' k)
    have h3 : |X (clock dts t) (a, k) - X (clock dts t) (b, k) - m k * (S.b.hi k - S.b.lo k)| ≤ 2 * ε := by
      rw [← hk k, abs_le]
      constructor <;> linarith [h1.1, h1.2, h2.1, h2.2]
    linarith
  · intro l1 R l2 e
    have hle : l1.sum + R ≤ l.sum := by rw [e]; simp only [List.sum_append, List.sum_cons]; omega
    refine ⟨fun a ha k hw => ?_, fun a ha k => (step l1 R l2 e R le_rfl a ha k).trans e2⟩
    have h1 := abs_le.mp (hM l1.sum (by omega) a ha k)
    have h2 := hr.inside _ (inT l1.sum (by omega)) a ha k hw
    have h0 : 0 ≤ ε := (abs_nonneg _).trans (hM l1.sum (by omega) a ha k)
    constructor <;> linarith [h1.1, h1.2, h2.1, h2.2]

section main

variable (S : Setup n) (D : Domains n) (sys : Sys) (ty : ℕ → ℤ) (hf : Fits S sys) (hS : Sound S D sys ty) (x v f : ℕ → Fin (n + 1) → ℝ)
  (X V : ℝ → ℕ × Fin (n + 1) → ℝ) (time : ℝ)
  {A B L ρ U τ δ : ℝ} (hs : Solves (Coord sys) (newton sys (widths S.b S.wrap)) time X V)
  (hm : Mild (Coord sys) (newton sys (widths S.b S.wrap)) time X V A B)
  (hl : Tame (Coord sys) (newton sys (widths S.b S.wrap)) time X V ρ L) (hA : 0 ≤ A) (hB : 0 ≤ B) (hL : 0 ≤ L) (hρ : 0 < ρ)
  (h0 : ∀ a < sys.N, ∀ k, x a k = X 0 (a, k) ∧ v a k = V 0 (a, k))
  (hr : Roomy S sys time U δ X V) (hU : 0 ≤ U) (hδ : 0 < δ) (hτ : U * τ < 1/10) (hsk : (n + 1) * (U * τ) < S.skin / 2)
include hf hS hs hr hU hδ hτ hsk

theorem finish {C H₀ : ℝ} (hH₀ : 0 < H₀) {g : ℝ → ℝ} (hg : ∀ H, 0 < H → H ≤ 1 → 0 ≤ g H ∧ g H ≤ H)
    (key : ∀ H : ℝ, 0 < H → H ≤ H₀ → ∀ dts : ℕ → ℝ, (∀ t, 0 ≤ dts t ∧ dts t ≤ H) → ∀ t, clock dts t ≤ time → ∀ j, Coord sys j →
      |(point sys (widths S.b S.wrap) (dts t) (orbit sys (widths S.b S.wrap) dts (launch sys (dts 0) x v f) t)).x j - X (clock dts t) j| ≤ C * g H ∧
      |(point sys (widths S.b S.wrap) (dts t) (orbit sys (widths S.b S.wrap) dts (launch sys (dts 0) x v f) t)).v j - V (clock dts t) j| ≤ C * g H) :
    ∃ H₁ : ℝ, 0 < H₁ ∧ ∀ H : ℝ, 0 < H → H ≤ H₁ → ∀ dts : ℕ → ℝ, (∀ t, 0 ≤ dts t ∧ dts t ≤ H) →
      ∀ (l : List ℕ) (w0 w : ℕ → List (Pa n)), clock dts l.sum ≤ time → Every dts τ l →
      Follows S sys (launch sys (dts 0) x v f) w0 → Placed S ty w0 → Goes S D sys dts w0 l w →
      Near S sys (dts l.sum) w (X (clock dts l.sum)) (V (clock dts l.sum)) (C * g H) ∧ Placed S ty w := by
  obtain ⟨ε, hε, e1, e2, e3⟩ : ∃ ε : ℝ, 0 < ε ∧ 2 * ε < δ ∧ U * τ + 2 * ε ≤ 1/10 ∧ (n + 1) * (U * τ + 2 * ε) ≤ S.skin / 2 := by
    have hn : (0 : ℝ) < n + 1 := by positivity
    have h3 : 0 < (S.skin / 2 - (n + 1) * (U * τ)) / (2 * (n + 1)) := div_pos (by linarith) (by linarith)
    refine ⟨min (δ / 4) (min ((1/10 - U * τ) / 2) ((S.skin / 2 - (n + 1) * (U * τ)) / (2 * (n + 1)))),
      lt_min (by linarith) (lt_min (by linarith) h3), ?_, ?_, ?_⟩
    · linarith [min_le_left (δ / 4) (min ((1/10 - U * τ) / 2) ((S.skin / 2 - (n + 1) * (U * τ)) / (2 * (n + 1))))]
    · linarith [min_le_left ((1/10 - U * τ) / 2) ((S.skin / 2 - (n + 1) * (U * τ)) / (2 * (n + 1))),
        min_le_right (δ / 4) (min ((1/10 - U * τ) / 2) ((S.skin / 2 - (n + 1) * (U * τ)) / (2 * (n + 1))))]
    · have h := (min_le_right (δ / 4) _).trans (min_le_right ((1/10 - U * τ) / 2) ((S.skin / 2 - (n + 1) * (U * τ)) / (2 * (n + 1))))
      rw [le_div_iff₀ (by linarith)] at h
      nlinarith
  refine ⟨min H₀ (min 1 (ε / (|C| + 1))), lt_min hH₀ (lt_min one_pos (div_pos hε (by positivity))), ?_⟩
  intro H hH hle dts hd l w0 w hc hev hw0 hp hrun
  have hle0 := hle.trans (min_le_left _ _)
  have hle1 := (hle.trans (min_le_right _ _)).trans (min_le_left _ _)
  have hle2 := (hle.trans (min_le_right _ _)).trans (min_le_right _ _)
  obtain ⟨g0, g1⟩ := hg H hH hle1
  have hsmall : C * g H ≤ ε := by
    rw [le_div_iff₀ (by positivity)] at hle2
    have h1 := mul_le_mul_of_nonneg_right (le_abs_self C) g0
    have h2 := mul_le_mul_of_nonneg_left g1 (abs_nonneg C)
    nlinarith
  have hk := key H hH hle0 dts hd
  have hd0 : ∀ t, 0 ≤ dts t := fun t => (hd t).1
  obtain ⟨ht, hsep, hslow⟩ := conditions (M := orbit sys (widths S.b S.wrap) dts (launch sys (dts 0) x v f)) hs hr hU hS.lohi hd0 hc hev
    (fun t ht a ha k => ((hk t ((clock_mono hd0 ht).trans hc) (a, k) ha).1).trans hsmall) e1 e2 e3
  obtain ⟨h1, h2⟩ := C184_motion_partial S D sys ty hf hS dts _ w0 w l hw0 hp hrun ht hsep hslow
  exact ⟨⟨_, h1, fun a ha k => hk l.sum hc (a, k) ha⟩, h2⟩

include hm hl hB hL hρ h0

/-- **C185, second order** (partial). If forces do not depend on velocities, the acceleration is smooth along the motion and the stored
forces at the start are those of the initial positions, the errors of the run are at most a constant times the square of the largest
time step. Missing: as in `C185_first_order_partial`; the first run of a simulation, whose stored forces are zero. -/
theorem C185_second_order_partial (J : ℝ → ℕ × Fin (n + 1) → ℝ) {K : ℝ} (hK : 0 ≤ K)
    (hsm : Smooth (Coord sys) (newton sys (widths S.b S.wrap)) time X V J K)
    (hpos : ∀ T ∈ sys.forces, VelocityFree T.1)
    (hfc : ∀ a < sys.N, ∀ k, sys.im a * f a k = newton sys (widths S.b S.wrap) (X 0) (V 0) (a, k)) :
    ∃ C H₀ : ℝ, 0 < H₀ ∧ ∀ H : ℝ, 0 < H → H ≤ H₀ → ∀ dts : ℕ → ℝ, (∀ t, 0 ≤ dts t ∧ dts t ≤ H) →
      ∀ (l : List ℕ) (w0 w : ℕ → List (Pa n)), clock dts l.sum ≤ time → Every dts τ l →
      Follows S sys (launch sys (dts 0) x v f) w0 → Placed S ty w0 → Goes S D sys dts w0 l w →
      Near S sys (dts l.sum) w (X (clock dts l.sum)) (V (clock dts l.sum)) (C * H ^ 2) ∧ Placed S ty w := by
  have hp : ∀ y u u', newton sys (widths S.b S.wrap) y u = newton sys (widths S.b S.wrap) y u' := by
    intro y u u'
    funext j
    unfold newton total
    congr 2
    refine List.map_congr_left fun T hT => Finset.sum_congr rfl fun b _ => ?_
    have hm := hpos T hT (n + 1) ⟨fun i k => y (i, k), fun i k => u (i, k), sys.rd, sys.im⟩
      ⟨fun i k => y (i, k), fun i k => u' (i, k), sys.rd, sys.im⟩ j.1 b
    unfold push
    simp only [hm _ _ rfl rfl]
  obtain ⟨C, H₀, hH₀, key⟩ := second_order hs hm hsm hl hp hB hK hL hρ
  refine ⟨C, finish S D sys ty hf hS x v f X V time hs hr hU hδ hτ hsk hH₀ (g := fun H => H ^ 2) (fun H h h1 => ⟨by positivity, by nlinarith⟩) ?_⟩
  intro H hH hle dts hd t hc j hj
  refine key H hH hle _ ?_ hc _ _ ?_ (orbit_chain sys (widths S.b S.wrap) dts x v f t) j hj
  · intro dt hdt
    obtain ⟨t, _, rfl⟩ := List.mem_map.mp hdt
    exact hd t
  · rintro ⟨i, k⟩ hi
    exact ⟨(h0 i hi k).1, (h0 i hi k).2, hfc i hi k⟩

include hA

/-- **C185, first order** (partial). For all systems of particles and forces, set-ups of boxes, processors and grids that are `Sound`, and
exact motions along which the acceleration is bounded and Lipschitz and near which forces are Lipschitz, with speeds of at most `U`, particles
that never touch centre to centre, and that stay in the box where it does not wrap: if the time `τ` between constructions is such that particles
move less than 0.1 in every direction, and less than half the skin depth, then there is a constant such that every run on the processors, for
every choice of small time steps (which may vary), distribution of particles at the start and order of the events of messages, ends within
the constant times the largest time step of the exact motion, with every particle at most 0.1 from the part of its processor. Missing: as in
C184 (large particles and the other conditions of `Sound`), the first step, other boundaries, modifiers, rounding. -/
theorem C185_first_order_partial :
    ∃ C H₀ : ℝ, 0 < H₀ ∧ ∀ H : ℝ, 0 < H → H ≤ H₀ → ∀ dts : ℕ → ℝ, (∀ t, 0 ≤ dts t ∧ dts t ≤ H) →
      ∀ (l : List ℕ) (w0 w : ℕ → List (Pa n)), clock dts l.sum ≤ time → Every dts τ l →
      Follows S sys (launch sys (dts 0) x v f) w0 → Placed S ty w0 → Goes S D sys dts w0 l w →
      Near S sys (dts l.sum) w (X (clock dts l.sum)) (V (clock dts l.sum)) (C * H) ∧ Placed S ty w := by
  have hfin : ∃ R : ℝ, 0 ≤ R ∧ ∀ j : ℕ × Fin (n + 1), Coord sys j → |sys.im j.1 * f j.1 j.2 - newton sys (widths S.b S.wrap) (X 0) (V 0) j| ≤ R := by
    refine ⟨∑ i ∈ Finset.range sys.N, ∑ k : Fin (n + 1), |sys.im i * f i k - newton sys (widths S.b S.wrap) (X 0) (V 0) (i, k)|,
      Finset.sum_nonneg fun _ _ => Finset.sum_nonneg fun _ _ => abs_nonneg _, ?_⟩
    rintro ⟨i, k⟩ hi
    have h1 := Finset.single_le_sum (f := fun k => |sys.im i * f i k - newton sys (widths S.b S.wrap) (X 0) (V 0) (i, k)|)
      (fun _ _ => abs_nonneg _) (Finset.mem_univ k)
    have h2 := Finset.single_le_sum
      (f := fun i => ∑ k : Fin (n + 1), |sys.im i * f i k - newton sys (widths S.b S.wrap) (X 0) (V 0) (i, k)|)
      (fun _ _ => Finset.sum_nonneg fun _ _ => abs_nonneg _) (Finset.mem_range.mpr hi)
    exact h1.trans h2
  obtain ⟨R, hR, hR'⟩ := hfin
  obtain ⟨C, H₀, hH₀, key⟩ := first_order hs hm hl hA hB hL hρ R hR
  refine ⟨C, finish S D sys ty hf hS x v f X V time hs hr hU hδ hτ hsk hH₀ (g := fun H => H) (fun H h h1 => ⟨h.le, le_rfl⟩) ?_⟩
  intro H hH hle dts hd t hc j hj
  refine key H hH hle _ ?_ hc _ _ ?_ (orbit_chain sys (widths S.b S.wrap) dts x v f t) j hj
  · intro dt hdt
    obtain ⟨t, _, rfl⟩ := List.mem_map.mp hdt
    exact hd t
  · rintro ⟨i, k⟩ hi
    exact ⟨(h0 i hi k).1, (h0 i hi k).2, hR' (i, k) hi⟩

end main

/-! ## Example -/

/-- C185, the hypotheses are met: the two spheres of C169, which push each other apart, with constructions every 0.02. (The hypotheses of
C169 on the motion and the start are in its example; runs are in the example of C184.) -/
example : Sound exSetup exDomains' exSys (fun _ => 0) ∧ Roomy exSetup exSys (1/10) 1 (1/10) exX exV ∧
    (1 : ℝ) * (2/100) < 1/10 ∧ ((0 : ℕ) + 1 : ℝ) * (1 * (2/100)) < exSetup.skin / 2 ∧
    Every (fun _ => 1/100) (2/100) [2, 1, 2] ∧ clock (fun _ => 1/100) ([2, 1, 2] : List ℕ).sum ≤ 1/10 ∧
    Follows exSetup exSys (launch exSys (1/100) (exM (9/10) (11/10) 0).x (exM (9/10) (11/10) 0).v fun _ _ => 0) (exW 0) ∧
    Placed exSetup (fun _ => 0) (exW 0) ∧ ∃ w, Goes exSetup exDomains' exSys (fun _ => 1/100) (exW 0) [1] w := by
  refine ⟨ex_sound, ⟨?_, ?_, ?_⟩, by norm_num, by norm_num [exSetup], ?_, ?_, ?_, ex_placed 0, ex_goes' _ 0⟩
  · intro t ht a ha k
    have := squeeze'_le t
    have h2 := abs_le.mp this
    unfold exV
    split_ifs <;> rw [abs_le] <;> constructor <;> linarith [h2.1, h2.2]
  · intro t ht a ha k _
    have h2 := abs_le.mp (squeeze_le t)
    unfold exX
    split_ifs <;> constructor <;> norm_num [exSetup, ParallelRun.line2] <;> linarith [h2.1, h2.2]
  · intro t ht a ha b hb hab m hm
    have h2 := abs_le.mp (squeeze_le t)
    have g := ex_gap t
    refine ⟨0, ?_⟩
    rw [hm 0 rfl]
    simp only [Int.cast_zero, zero_mul, sub_zero]
    rcases ex_cases a 0 ha with rfl | rfl <;> rcases ex_cases b 0 hb with rfl | rfl
    · exact absurd rfl hab
    · rw [abs_sub_comm, g]; exact (by linarith : (1/10 : ℝ) ≤ 4/10 - squeeze t).trans (le_abs_self _)
    · rw [g]; exact (by linarith : (1/10 : ℝ) ≤ 4/10 - squeeze t).trans (le_abs_self _)
    · exact absurd rfl hab
  · have hc : ∀ t, clock (fun _ => 1/100) t = (t + 1) * (1/100) := by
      intro t; unfold clock; simp
    intro l1 R l2 e
    have hR : R ≤ 2 := by
      have : R ∈ [2, 1, 2] := by rw [e]; simp
      simp only [List.mem_cons, List.not_mem_nil, or_false] at this
      omega
    rw [hc, hc]
    have : (R : ℝ) ≤ 2 := by exact_mod_cast hR
    push_cast
    linarith
  · unfold clock; simp; norm_num
  · have : launch exSys (1/100) (exM (9/10) (11/10) 0).x (exM (9/10) (11/10) 0).v (fun _ _ => 0) = exM (9/10) (11/10) 0 := by
      simp [launch, exM]
    rw [this]
    exact ex_follows _ _ _

end Verif.ParallelConverge
