import Verif.Domain.CellsWitness
import Mathlib.Analysis.SpecialFunctions.Gamma.Basic
import Mathlib.Analysis.SpecialFunctions.Gaussian.GaussianIntegral
import Mathlib.Analysis.SpecialFunctions.Pow.Real

/-!
# The skin depth of the neighbour lists (C150)

Models `sphere_volume` and `inv_sphere_volume` (`utility/utility.hpp:265-271`),
`InteractionHandler::calculate_skin_depth` (`base/interactionhandler.cpp:278-290`), `setSkinDepth` (251-259), the
part of `calculate_max_small_sigma` that concerns several processors (293-335), and `DomainBase::initialize`
(`base/domainbase.cpp:14-26`) as far as they use them. Numbers are real numbers here.
-/

set_option linter.unusedSectionVars false

namespace Verif.SkinDepth
open Verif.Cells

/-! ## The model -/

/-- `sphere_volume`, `utility/utility.hpp:265-267`. -/
noncomputable def sphereVolume (radius : ℝ) (D : ℕ) : ℝ :=
  Real.pi ^ ((D : ℝ) / 2) * radius ^ D / Real.Gamma ((D : ℝ) / 2 + 1)

/-- `inv_sphere_volume`, `utility/utility.hpp:269-271`. -/
noncomputable def invSphereVolume (v : ℝ) (D : ℕ) : ℝ :=
  (Real.Gamma ((D : ℝ) / 2 + 1) * v / Real.pi ^ ((D : ℝ) / 2)) ^ (1 / (D : ℝ))

/-- The local value of `calculate_skin_depth`, `base/interactionhandler.cpp:280-282`; `target_list_size` is 2
(`base/interactionhandler.hpp:233`, it has no setter). -/
noncomputable def localSkin (owned : ℕ) (vol mss : ℝ) (D : ℕ) : ℝ :=
  let rho := (owned : ℝ) / vol
  let candidate := invSphereVolume (22/10 * 2 / rho + 1/2 * sphereVolume mss D) D - 2 * mss
  max (1/2 * mss) candidate

/-- What one processor has at initialization: the number of particle slots (`size_owned`), the sigmas (radius times
largest cutoff) of its live interacting particles, and the volume of its region. -/
structure Env where
  owned : ℕ
  sigmas : List ℝ
  vol : ℝ

/-- The local value of `max_small_sigma`, `base/interactionhandler.cpp:293-331`; `none` is one of the two returns
before the synchronization. -/
noncomputable def localSigma (e : Env) : Option ℝ := if e.owned = 0 then none else maxSmallSigma e.sigmas

/-- Whether `DomainBase::initialize` goes on after the check of `base/domainbase.cpp:19`. -/
noncomputable def ready (e : Env) : Bool := decide (0 < e.vol) && decide (e.owned ≠ 0)

/-- The collective operations that `initialize` performs. -/
inductive Coll where
  | max
  | sum
  deriving DecidableEq

/-- The collective operations that a processor performs in `DomainBase::initialize`: the maximum of
`max_small_sigma` (`base/interactionhandler.cpp:334`) and the sum of the skin depths (285-288), which is only done with
several processors and when no skin depth was set. -/
noncomputable def colls (procs : ℕ) (set : Bool) (e : Env) : List Coll :=
  (if (localSigma e).isSome then [.max] else []) ++
  (if ready e && !set && decide (1 < procs) then [.sum] else [])

/-- `max_small_sigma` after the reduction: the largest of the local values. -/
noncomputable def globalSigma (es : List Env) : ℝ :=
  (es.map fun e => (localSigma e).getD 0).foldl max ((es.map fun e => (localSigma e).getD 0).headD 0)

/-- `max_small_sigma` and `skin_depth` of all processors after `initialize`, when all take part in the same operations;
`none` when they do not (then some wait for ever, or operations of different kinds meet). `old` and `skin` are the values
before. -/
noncomputable def initAll (D : ℕ) (set : Bool) (old skin : ℝ) (es : List Env) : Option (List (ℝ × ℝ)) :=
  if ∀ e ∈ es, ∀ e' ∈ es, colls es.length set e = colls es.length set e' then
    let mss := if es.all fun e => (localSigma e).isSome then globalSigma es else old
    let loc := es.map fun e => localSkin e.owned e.vol mss D
    some (es.map fun e =>
      (mss,
        if ready e && !set then
          (if 1 < es.length then loc.sum / (es.length : ℝ) else localSkin e.owned e.vol mss D)
        else skin))
  else none

/-- The fields of the interaction handler of a run on one processor that concern the skin depth. -/
structure Handler where
  mss : ℝ
  skin : ℝ
  isSet : Bool
  inited : Bool

/-- A new handler, `base/interactionhandler.hpp:224-227`. -/
def fresh (mss : ℝ) : Handler := ⟨mss, 0, false, false⟩

/-- `DomainBase::initialize` on one processor, `base/domainbase.cpp:14-43`, with `InteractionHandler::initialize`
(`base/interactionhandler.cpp:22-41`), which marks the handler as initialized even when the check fails. -/
noncomputable def Handler.init (D : ℕ) (h : Handler) (e : Env) : Handler :=
  let mss := (localSigma e).getD h.mss
  ⟨mss, if ready e && !h.isSet then localSkin e.owned e.vol mss D else h.skin, h.isSet, true⟩

/-- `setSkinDepth`, `base/interactionhandler.cpp:251-259`; `e` is the state of the particles at that time. -/
noncomputable def Handler.setSkin (D : ℕ) (h : Handler) (s : ℝ) (e : Env) : Handler :=
  if h.skin ≠ s ∧ s > 0 then
    if h.inited then Handler.init D ⟨h.mss, s, true, h.inited⟩ e else ⟨h.mss, s, true, h.inited⟩
  else h

/-- What happens to the handler: a skin depth is set, or it is (re)initialized. -/
inductive Op where
  | set (s : ℝ) (e : Env)
  | init (e : Env)

/-- One operation. -/
noncomputable def Handler.step (D : ℕ) (h : Handler) : Op → Handler
  | .set s e => h.setSkin D s e
  | .init e => h.init D e

/-- A history of operations. -/
noncomputable def Handler.run (D : ℕ) (h : Handler) (ops : List Op) : Handler := ops.foldl (Handler.step D) h

/-! ## Volumes -/

theorem gamma_pos (D : ℕ) : 0 < Real.Gamma ((D : ℝ) / 2 + 1) := Real.Gamma_pos_of_pos (by positivity)

/-- **C150 (volumes).** In every dimension the two functions are inverse to each other on nonnegative numbers, and in
one, two and three dimensions the volume is `2 r`, `pi r^2` and `4/3 pi r^3`. -/
theorem C150_volume (D : ℕ) (hD : 0 < D) (v r : ℝ) (hv : 0 ≤ v) (hr : 0 ≤ r) :
    sphereVolume (invSphereVolume v D) D = v ∧ invSphereVolume (sphereVolume r D) D = r ∧
    sphereVolume r 1 = 2 * r ∧ sphereVolume r 2 = Real.pi * r ^ 2 ∧ sphereVolume r 3 = 4/3 * Real.pi * r ^ 3 := by
  have hg := gamma_pos D
  have hp : 0 < Real.pi ^ ((D : ℝ) / 2) := Real.rpow_pos_of_pos Real.pi_pos _
  have hD' : (D : ℝ) ≠ 0 := by positivity
  refine ⟨?_, ?_, ?_, ?_, ?_⟩
  · unfold sphereVolume invSphereVolume
    rw [← Real.rpow_natCast, ← Real.rpow_mul (by positivity), one_div, inv_mul_cancel₀ hD', Real.rpow_one]
    field_simp
  · unfold sphereVolume invSphereVolume
    rw [show Real.Gamma ((D : ℝ) / 2 + 1) * (Real.pi ^ ((D : ℝ) / 2) * r ^ D / Real.Gamma ((D : ℝ) / 2 + 1)) /
      Real.pi ^ ((D : ℝ) / 2) = r ^ D by field_simp, ← Real.rpow_natCast, ← Real.rpow_mul hr, one_div,
      mul_inv_cancel₀ hD', Real.rpow_one]
  · unfold sphereVolume
    have h : Real.Gamma (((1 : ℕ) : ℝ) / 2 + 1) = 1/2 * Real.pi ^ ((1 : ℝ) / 2) := by
      rw [Nat.cast_one, Real.Gamma_add_one (by norm_num), Real.Gamma_one_half_eq, Real.sqrt_eq_rpow]
    rw [h]
    have : Real.pi ^ ((1 : ℝ) / 2) ≠ 0 := (Real.rpow_pos_of_pos Real.pi_pos _).ne'
    rw [Nat.cast_one]
    field_simp
  · unfold sphereVolume
    have h : Real.Gamma (((2 : ℕ) : ℝ) / 2 + 1) = 1 := by
      rw [show ((2 : ℕ) : ℝ) / 2 + 1 = 1 + 1 by norm_num, Real.Gamma_add_one (by norm_num), Real.Gamma_one]
      norm_num
    rw [h, show ((2 : ℕ) : ℝ) / 2 = 1 by norm_num, Real.rpow_one, div_one]
  · unfold sphereVolume
    have h : Real.Gamma (((3 : ℕ) : ℝ) / 2 + 1) = 3/4 * Real.pi ^ ((1 : ℝ) / 2) := by
      rw [Real.Gamma_add_one (by norm_num), show ((3 : ℕ) : ℝ) / 2 = 1/2 + 1 by norm_num,
        Real.Gamma_add_one (by norm_num), Real.Gamma_one_half_eq, Real.sqrt_eq_rpow]
      ring
    rw [h, show ((3 : ℕ) : ℝ) / 2 = 1 + 1/2 by norm_num, Real.rpow_add Real.pi_pos, Real.rpow_one]
    have : Real.pi ^ ((1 : ℝ) / 2) ≠ 0 := (Real.rpow_pos_of_pos Real.pi_pos _).ne'
    field_simp

theorem sphereVolume_nonneg {r : ℝ} (hr : 0 ≤ r) (D : ℕ) : 0 ≤ sphereVolume r D := by
  have := gamma_pos D
  have := Real.rpow_nonneg Real.pi_pos.le ((D : ℝ) / 2)
  unfold sphereVolume
  positivity

theorem sphereVolume_mono {r s : ℝ} (hr : 0 ≤ r) (h : r ≤ s) (D : ℕ) : sphereVolume r D ≤ sphereVolume s D := by
  have := gamma_pos D
  have := Real.rpow_nonneg Real.pi_pos.le ((D : ℝ) / 2)
  unfold sphereVolume
  gcongr

theorem invSphereVolume_nonneg {v : ℝ} (hv : 0 ≤ v) (D : ℕ) : 0 ≤ invSphereVolume v D := by
  have := gamma_pos D
  have := Real.rpow_nonneg Real.pi_pos.le ((D : ℝ) / 2)
  unfold invSphereVolume
  positivity

theorem invSphereVolume_mono {v w : ℝ} (hv : 0 ≤ v) (h : v ≤ w) (D : ℕ) : invSphereVolume v D ≤ invSphereVolume w D := by
  have := gamma_pos D
  have := Real.rpow_nonneg Real.pi_pos.le ((D : ℝ) / 2)
  unfold invSphereVolume
  apply Real.rpow_le_rpow (by positivity) ?_ (by positivity)
  gcongr

/-! ## The automatic value -/

/-- **C150 (automatic value).** For every number of particles, volume, small radius and dimension: the automatic skin
depth is at least half of the small radius; the expected number of particle centres in a ball of the radius of the list
(twice the small radius plus the skin depth) is at least 4.4 plus half of that of a ball of the small radius, and
exactly this when the skin depth is more than half of the small radius. -/
theorem C150_automatic (owned : ℕ) (vol mss : ℝ) (D : ℕ) (hD : 0 < D) (ho : 0 < owned) (hv : 0 < vol) (hm : 0 ≤ mss) :
    1/2 * mss ≤ localSkin owned vol mss D ∧
    44/10 + 1/2 * ((owned : ℝ) / vol * sphereVolume mss D) ≤
      (owned : ℝ) / vol * sphereVolume (2 * mss + localSkin owned vol mss D) D ∧
    (1/2 * mss < localSkin owned vol mss D →
      (owned : ℝ) / vol * sphereVolume (2 * mss + localSkin owned vol mss D) D =
        44/10 + 1/2 * ((owned : ℝ) / vol * sphereVolume mss D)) := by
  have hoK : (0 : ℝ) < owned := by exact_mod_cast ho
  have hrho : 0 < (owned : ℝ) / vol := div_pos hoK hv
  set rho := (owned : ℝ) / vol with hrd
  set V := 22/10 * 2 / rho + 1/2 * sphereVolume mss D with hV
  have hV0 : 0 ≤ V := by
    have := sphereVolume_nonneg hm D
    positivity
  have hback : rho * sphereVolume (invSphereVolume V D) D = 44/10 + 1/2 * (rho * sphereVolume mss D) := by
    rw [(C150_volume D hD V 0 hV0 le_rfl).1, hV]
    field_simp
    ring
  have hl : localSkin owned vol mss D = max (1/2 * mss) (invSphereVolume V D - 2 * mss) := rfl
  refine ⟨by rw [hl]; exact le_max_left _ _, ?_, ?_⟩
  · rw [← hback]
    apply mul_le_mul_of_nonneg_left _ hrho.le
    apply sphereVolume_mono (invSphereVolume_nonneg hV0 D)
    rw [hl]
    linarith [le_max_right (1/2 * mss) (invSphereVolume V D - 2 * mss)]
  · intro h
    have h2 : localSkin owned vol mss D = invSphereVolume V D - 2 * mss := by
      rw [hl] at h ⊢
      rcases le_total (1/2 * mss) (invSphereVolume V D - 2 * mss) with h' | h'
      · exact max_eq_right h'
      · rw [max_eq_left h'] at h; linarith
    rw [h2, ← hback]
    congr 2
    ring

/-- **C150 (density).** The automatic skin depth does not grow with the number of particles and does not shrink with the
volume. -/
theorem C150_density (n n' : ℕ) (vol vol' mss : ℝ) (D : ℕ) (hn : 0 < n) (hv : 0 < vol) (hm : 0 ≤ mss) (h : n ≤ n')
    (h' : vol' ≤ vol) (hv' : 0 < vol') : localSkin n' vol' mss D ≤ localSkin n vol mss D := by
  unfold localSkin
  have hnK : (0 : ℝ) < n := by exact_mod_cast hn
  have hle : (n : ℝ) ≤ n' := by exact_mod_cast h
  have hV := sphereVolume_nonneg hm D
  apply max_le_max le_rfl
  apply sub_le_sub_right
  have h1 : (n : ℝ) / vol ≤ n' / vol' := by gcongr
  have h0 : 0 < (n : ℝ) / vol := by positivity
  apply invSphereVolume_mono
  · have : 0 < (n' : ℝ) / vol' := lt_of_lt_of_le h0 h1
    positivity
  · gcongr

/-- In one dimension: 2 particles on a line of length 10, with small radius 1/10: the skin depth is `11.05 - 1/5`
(expected number 4.4 + 0.02 at density 1/5 needs a ball of length 22.1). -/
example : localSkin 2 10 (1/10) 1 = 1085/100 ∧ (0 : ℝ) < 10 ∧ (0 : ℝ) ≤ 1/10 := by
  refine ⟨?_, by norm_num, by norm_num⟩
  have h1 : sphereVolume (1/10) 1 = 2 * (1/10) := (C150_volume 1 (by norm_num) 0 (1/10) le_rfl (by norm_num)).2.2.1
  have h2 : invSphereVolume (sphereVolume (1105/100) 1) 1 = 1105/100 :=
    (C150_volume 1 (by norm_num) 0 (1105/100) le_rfl (by norm_num)).2.1
  have h3 : sphereVolume (1105/100) 1 = 2 * (1105/100) :=
    (C150_volume 1 (by norm_num) 0 (1105/100) le_rfl (by norm_num)).2.2.1
  rw [h3] at h2
  unfold localSkin
  simp only [h1]
  rw [show (22/10 * 2 / (((2 : ℕ) : ℝ) / 10) + 1/2 * (2 * (1/10)) : ℝ) = 2 * (1105/100) by norm_num, h2]
  norm_num

/-! ## Several processors -/

theorem foldl_max_ge (l : List ℝ) (m : ℝ) : m ≤ l.foldl max m ∧ ∀ s ∈ l, s ≤ l.foldl max m := by
  induction l generalizing m with
  | nil => simp
  | cons a l ih =>
    obtain ⟨h1, h2⟩ := ih (max m a)
    simp only [List.foldl_cons]
    refine ⟨le_trans (le_max_left _ _) h1, fun s hs => ?_⟩
    rcases List.mem_cons.mp hs with rfl | hs
    · exact le_trans (le_max_right _ _) h1
    · exact h2 s hs

theorem foldl_max_mem (l : List ℝ) (m : ℝ) : l.foldl max m = m ∨ l.foldl max m ∈ l := by
  induction l generalizing m with
  | nil => simp
  | cons a l ih =>
    simp only [List.foldl_cons]
    rcases ih (max m a) with h | h
    · rw [h]
      rcases le_total m a with h' | h'
      · rw [max_eq_right h']; right; simp
      · rw [max_eq_left h']; left; rfl
    · right; exact List.mem_cons_of_mem _ h

theorem colls_eq {procs : ℕ} {set : Bool} {e e' : Env} (h : (localSigma e).isSome) (h' : (localSigma e').isSome)
    (hr : ready e = true) (hr' : ready e' = true) : colls procs set e = colls procs set e' := by
  simp [colls, h, h', hr, hr']

/-- **C150 (several processors).** In a run on any number of processors, each with at least one live interacting particle
and a region of positive volume, initialization does not block, and afterwards all processors have the same small
radius, the largest of their own, and the same skin depth: the one that was set, or else the mean of their own
automatic values, which is between the least and the largest of them and at least half of the small radius.

Missing: processors without live interacting particles (`C150_negation_empty`). -/
theorem C150_all_processors_partial (D : ℕ) (set : Bool) (old skin : ℝ) (es : List Env) (hne : es ≠ [])
    (hl : ∀ e ∈ es, e.sigmas ≠ [] ∧ 0 < e.owned ∧ 0 < e.vol) :
    ∃ mss σ : ℝ, initAll D set old skin es = some (es.map fun _ => (mss, σ)) ∧
      (∃ e ∈ es, maxSmallSigma e.sigmas = some mss) ∧
      (∀ e ∈ es, ∀ s, maxSmallSigma e.sigmas = some s → s ≤ mss) ∧
      (set = true → σ = skin) ∧
      (set = false → σ = (es.map fun e => localSkin e.owned e.vol mss D).sum / (es.length : ℝ) ∧ 1/2 * mss ≤ σ ∧
        (∃ e ∈ es, σ ≤ localSkin e.owned e.vol mss D) ∧ ∃ e ∈ es, localSkin e.owned e.vol mss D ≤ σ) := by
  have hsome : ∀ e ∈ es, (localSigma e).isSome = true := by
    intro e he
    have h := hl e he
    unfold localSigma maxSmallSigma
    rw [if_neg (by omega), if_neg (by simpa using h.1)]
    rfl
  have hready : ∀ e ∈ es, ready e = true := by
    intro e he
    have h := hl e he
    simp [ready, h.2.2]; omega
  have hsig : ∀ e ∈ es, ∀ s, maxSmallSigma e.sigmas = some s ↔ localSigma e = some s := by
    intro e he s
    unfold localSigma
    rw [if_neg (by have := (hl e he).2.1; omega)]
  set mss := globalSigma es with hmss
  have hall : (es.all fun e => (localSigma e).isSome) = true := List.all_eq_true.mpr hsome
  have hlen : 0 < es.length := List.length_pos_iff.mpr hne
  have hlenR : (0 : ℝ) < es.length := by exact_mod_cast hlen
  set loc := es.map fun e => localSkin e.owned e.vol mss D with hloc
  set σ := if set then skin else loc.sum / (es.length : ℝ) with hσ
  refine ⟨mss, σ, ?_, ?_, ?_, ?_, ?_⟩
  · unfold initAll
    rw [if_pos (fun e he e' he' => colls_eq (hsome e he) (hsome e' he') (hready e he) (hready e' he'))]
    simp only [hall, if_true]
    congr 1
    apply List.map_congr_left
    intro e he
    rw [hready e he]
    cases set with
    | true => simp [hσ, hmss]
    | false =>
      simp only [Bool.not_false, Bool.and_self, if_true, hσ, Bool.false_eq_true, if_false]
      by_cases h1 : 1 < es.length
      · rw [if_pos h1]
      · rw [if_neg h1]
        have h1' : es.length = 1 := by omega
        obtain ⟨a, ha⟩ := List.length_eq_one_iff.mp h1'
        rw [ha] at he
        rw [List.mem_singleton.mp he, hloc, ha]
        simp [hmss, ha]
  · -- the maximum is one of the values
    cases es with
    | nil => exact absurd rfl hne
    | cons a l =>
      have hm := foldl_max_mem ((a :: l).map fun e => (localSigma e).getD 0)
        (((a :: l).map fun e => (localSigma e).getD 0).headD 0)
      have hmem : globalSigma (a :: l) ∈ (a :: l).map fun e => (localSigma e).getD 0 := by
        unfold globalSigma
        rcases hm with h | h
        · rw [h]; simp
        · exact h
      obtain ⟨e, he, h⟩ := List.mem_map.mp hmem
      refine ⟨e, he, (hsig e he _).mpr ?_⟩
      obtain ⟨s, hs⟩ := Option.isSome_iff_exists.mp (hsome e he)
      rw [hs, Option.getD_some] at h
      rw [hs, h]
  · intro e he s hs
    have := (foldl_max_ge (es.map fun e => (localSigma e).getD 0)
      ((es.map fun e => (localSigma e).getD 0).headD 0)).2 s ?_
    · exact this
    · refine List.mem_map.mpr ⟨e, he, ?_⟩
      rw [(hsig e he s).mp hs, Option.getD_some]
  · rintro rfl; simp [hσ]
  · rintro rfl
    have hσ' : σ = loc.sum / (es.length : ℝ) := by simp [hσ]
    have hcl : loc.length = es.length := by simp [hloc]
    refine ⟨hσ', ?_, ?_, ?_⟩
    · rw [hσ', le_div_iff₀ hlenR]
      have := List.card_nsmul_le_sum loc (1/2 * mss) (by
        intro x hx
        obtain ⟨e, _, rfl⟩ := List.mem_map.mp hx
        exact le_max_left _ _)
      rw [hcl, nsmul_eq_mul] at this
      linarith
    · by_contra hcon
      push Not at hcon
      have hlt : loc.sum < (es.map fun _ => σ).sum := by
        rw [hloc]
        exact List.sum_lt_sum_of_ne_nil hne _ _ (fun e he => hcon e he)
      rw [List.map_const', List.sum_replicate, nsmul_eq_mul, hσ'] at hlt
      rw [mul_div_cancel₀ _ hlenR.ne'] at hlt
      exact lt_irrefl _ hlt
    · by_contra hcon
      push Not at hcon
      have hlt : (es.map fun _ => σ).sum < loc.sum := by
        rw [hloc]
        exact List.sum_lt_sum_of_ne_nil hne _ _ (fun e he => hcon e he)
      rw [List.map_const', List.sum_replicate, nsmul_eq_mul, hσ'] at hlt
      rw [mul_div_cancel₀ _ hlenR.ne'] at hlt
      exact lt_irrefl _ hlt

/-- Two processors with particles meet the hypotheses. -/
example : ∀ e ∈ [(⟨2, [1/10, 1/5], 10⟩ : Env), ⟨1, [1/10], 10⟩], e.sigmas ≠ [] ∧ 0 < e.owned ∧ 0 < e.vol := by
  intro e he
  rcases List.mem_pair.mp he with rfl | rfl <;> refine ⟨by simp, ?_, ?_⟩ <;> norm_num

/-- **C150, negation (empty processors).** As soon as one processor has a live interacting particle (in a region of
positive volume) and another has no particles, or none that interacts, initialization blocks, whatever was set. -/
theorem C150_negation_empty (D : ℕ) (set : Bool) (old skin : ℝ) (es : List Env) (e e' : Env) (he : e ∈ es)
    (he' : e' ∈ es) (h : e.sigmas ≠ []) (ho : 0 < e.owned) (h' : e'.sigmas = []) :
    initAll D set old skin es = none := by
  unfold initAll
  rw [if_neg]
  intro hall
  have hc := hall e he e' he'
  have h1 : (localSigma e).isSome = true := by
    unfold localSigma maxSmallSigma
    rw [if_neg (by omega), if_neg (by simpa using h)]
    rfl
  have h2 : (localSigma e').isSome = false := by
    unfold localSigma maxSmallSigma
    rw [h']
    split_ifs <;> simp_all
  unfold colls at hc
  rw [h1, h2] at hc
  simp only [if_true, Bool.false_eq_true, if_false, List.nil_append, List.cons_append] at hc
  split_ifs at hc <;> simp at hc

/-! ## A value that was set -/

/-- Spec: the last positive value that was set in a history. -/
noncomputable def lastSet : List Op → Option ℝ
  | [] => none
  | .init _ :: ops => lastSet ops
  | .set s _ :: ops => (lastSet ops).orElse fun _ => if 0 < s then some s else none

/-- Spec: no automatic value is calculated in the history. -/
def noAuto : Op → Prop
  | .set _ _ => True
  | .init e => ready e = false

theorem run_set (D : ℕ) (ops : List Op) (h : Handler) (hs : h.isSet = true) :
    (h.run D ops).isSet = true ∧ (h.run D ops).skin = (lastSet ops).getD h.skin := by
  induction ops generalizing h with
  | nil => exact ⟨hs, rfl⟩
  | cons op ops ih =>
    unfold Handler.run
    rw [List.foldl_cons]
    cases op with
    | init e =>
      have h1 : (h.step D (.init e)).isSet = true := hs
      have h2 : (h.step D (.init e)).skin = h.skin := by simp [Handler.step, Handler.init, hs]
      obtain ⟨a, b⟩ := ih _ h1
      exact ⟨a, by rw [Handler.run] at b; rw [b, h2]; rfl⟩
    | set s e =>
      have key : (h.step D (.set s e)).isSet = true ∧
          (h.step D (.set s e)).skin = if 0 < s then s else h.skin := by
        show (h.setSkin D s e).isSet = true ∧ (h.setSkin D s e).skin = _
        unfold Handler.setSkin
        by_cases hp : 0 < s
        · by_cases hq : h.skin = s
          · rw [if_neg (by simp [hq]), if_pos hp]; exact ⟨hs, hq⟩
          · rw [if_pos ⟨hq, hp⟩, if_pos hp]
            split_ifs <;> simp [Handler.init]
        · rw [if_neg (by simp [hp]), if_neg hp]; exact ⟨hs, rfl⟩
      obtain ⟨a, b⟩ := ih _ key.1
      refine ⟨a, ?_⟩
      rw [Handler.run] at b
      rw [b, key.2, lastSet]
      cases lastSet ops with
      | some v => rfl
      | none => by_cases hp : 0 < s <;> simp [hp]

/-- **C150 (set value).** For every history of a new handler in which a positive skin depth is set before the first
automatic value was calculated (as the creators do), the skin depth is, for ever after, the last positive value that
was set: later initializations do not replace it, and values that are not positive are ignored. -/
theorem C150_set_value (D : ℕ) (mss : ℝ) (before : List Op) (s : ℝ) (e : Env) (after : List Op) (hs : 0 < s)
    (hb : ∀ op ∈ before, noAuto op) :
    ((fresh mss).run D (before ++ .set s e :: after)).skin = (lastSet after).getD s := by
  have key : ∀ (ops : List Op) (h : Handler), (∀ op ∈ ops, noAuto op) → (h.skin = 0 ∨ h.isSet = true) →
      ((h.run D ops).skin = 0 ∨ (h.run D ops).isSet = true) := by
    intro ops
    induction ops with
    | nil => intro h _ hh; exact hh
    | cons op ops ih =>
      intro h hn hh
      unfold Handler.run
      rw [List.foldl_cons]
      apply ih _ (fun o ho => hn o (List.mem_cons_of_mem _ ho))
      have h1 := hn op (by simp)
      cases op with
      | init e =>
        simp only [noAuto] at h1
        simpa [Handler.step, Handler.init, h1] using hh
      | set t e =>
        show (h.setSkin D t e).skin = 0 ∨ (h.setSkin D t e).isSet = true
        unfold Handler.setSkin
        split_ifs
        · right; rfl
        · right; rfl
        · exact hh
  have h0 := key before (fresh mss) hb (Or.inl rfl)
  unfold Handler.run
  rw [List.foldl_append, List.foldl_cons]
  set h := before.foldl (Handler.step D) (fresh mss) with hh
  have h0' : h.skin = 0 ∨ h.isSet = true := h0
  have step : (h.step D (.set s e)).isSet = true ∧ (h.step D (.set s e)).skin = s := by
    show (h.setSkin D s e).isSet = true ∧ (h.setSkin D s e).skin = s
    unfold Handler.setSkin
    by_cases hq : h.skin = s
    · rw [if_neg (by simp [hq])]
      refine ⟨?_, hq⟩
      rcases h0' with h0' | h0'
      · rw [hq] at h0'; linarith
      · exact h0'
    · rw [if_pos ⟨hq, hs⟩]
      split_ifs <;> simp [Handler.init]
  have := (run_set D after _ step.1).2
  rw [Handler.run, step.2] at this
  exact this

/-- **C150, negation (present value).** Setting the skin depth to the value it has by calculation does nothing: the next
initialization, here with more particles, replaces it. -/
theorem C150_negation_present : ∃ (mss : ℝ) (e e' : Env) (s : ℝ), 0 < s ∧
    ((fresh mss).run 1 [.init e, .set s e]).skin = s ∧ ((fresh mss).run 1 [.init e, .set s e, .init e']).skin ≠ s := by
  have sv : ∀ r : ℝ, 0 ≤ r → sphereVolume r 1 = 2 * r := fun r hr => (C150_volume 1 (by norm_num) 0 r le_rfl hr).2.2.1
  have iv : ∀ r : ℝ, 0 ≤ r → invSphereVolume (2 * r) 1 = r := by
    intro r hr
    rw [← sv r hr]
    exact (C150_volume 1 (by norm_num) 0 r le_rfl hr).2.1
  have ms : ∀ l : List ℝ, l = [] → maxSmallSigma l = none := by rintro l rfl; simp [maxSmallSigma]
  -- particles which do not interact: the small radius stays 0
  have e1 : localSkin 1 1 0 1 = 22/10 := by
    unfold localSkin
    simp only [sv 0 le_rfl]
    rw [show (22/10 * 2 / (((1 : ℕ) : ℝ) / 1) + 1/2 * (2 * 0) : ℝ) = 2 * (22/10) by norm_num, iv _ (by norm_num)]
    norm_num
  have e2 : localSkin 2 1 0 1 = 11/10 := by
    unfold localSkin
    simp only [sv 0 le_rfl]
    rw [show (22/10 * 2 / (((2 : ℕ) : ℝ) / 1) + 1/2 * (2 * 0) : ℝ) = 2 * (11/10) by norm_num, iv _ (by norm_num)]
    norm_num
  refine ⟨0, ⟨1, [], 1⟩, ⟨2, [], 1⟩, 22/10, by norm_num, ?_, ?_⟩
  · simp [Handler.run, Handler.step, Handler.init, Handler.setSkin, fresh, localSigma, ms, ready, e1]
  · have : ((fresh 0).run 1 [.init ⟨1, [], 1⟩, .set (22/10) ⟨1, [], 1⟩, .init ⟨2, [], 1⟩]).skin = 11/10 := by
      simp [Handler.run, Handler.step, Handler.init, Handler.setSkin, fresh, localSigma, ms, ready, e1, e2]
    rw [this]; norm_num

/-- The hypotheses of `C150_set_value` are met by a handler that is set, used, and set again. -/
example : ((fresh 0).run 2 ([] ++ .set (1/10) ⟨1, [1], 1⟩ :: [.init ⟨1, [1], 1⟩, .set (-1) ⟨1, [1], 1⟩,
    .set (1/5) ⟨1, [1], 1⟩, .init ⟨5, [1], 1⟩])).skin = 1/5 := by
  rw [C150_set_value 2 0 [] (1/10) _ _ (by norm_num) (by simp)]
  simp [lastSet]

end Verif.SkinDepth
