import Mathlib.MeasureTheory.Measure.Lebesgue.Basic
import Verif.Creators.Regions

/-!
# Masses, random radii and initial temperature of created particles (C92, C93)

Models the velocities of `FillAreaCreator::createArea` (`creators/fillareacreator.cpp:244-271`, `314-319`), `ParticleTemplate::createParticle`
(`creators/particletemplate.cpp:52-72`), the random engines (`utility/randomengines.hpp`) and the parsing of discrete distributions
(`creators/helperclasses/parse-constructor.cpp:165-189`). Exact real arithmetic; a result that is not a number is `none`.
-/

namespace Verif.Thermal
open MeasureTheory

variable {d : ℕ}

/-! ## Initial temperature -/

/-- A particle that was drawn: velocity, inverse mass, whether its position is excluded. -/
structure Drawn (d : ℕ) where
  v : Fin d → ℝ
  im : ℝ
  excluded : Bool

/-- `sqr(V)`, `utility/vec.hpp:244-248`. -/
def sqr (v : Fin d → ℝ) : ℝ := (List.finRange d).foldl (fun s k => s + v k * v k) 0

open Classical in
/-- The sum of the kinetic energies, `creators/fillareacreator.cpp:271`; for an immovable particle the velocity is zero and `0 / 0` is added. -/
noncomputable def keSum : List (Drawn d) → Option ℝ
  | [] => some 0
  | x :: l => if x.im = 0 then none else (keSum l).map fun e => 1 / 2 * sqr x.v / x.im + e

open Classical in
/-- `Teff` and `frac`, `creators/fillareacreator.cpp:316-317`: `N / 2` is a division of integers. If it is zero, `Teff` is infinite and the factor is zero;
if the energy is zero, the factor is infinite and its product with the zero velocities is not a number. -/
noncomputable def frac (d : ℕ) (T kB : ℝ) (N : ℕ) (ke : ℝ) : Option ℝ :=
  if N / 2 = 0 then (if ke = 0 then none else some 0)
  else if ke = 0 then none
  else some (Real.sqrt (T / (ke / ((N / 2 : ℕ) * d * kB))))

/-- The velocities of the created particles, `creators/fillareacreator.cpp:261-268` and `314-319`, with their inverse masses: the particles at excluded positions
are counted but not created. -/
noncomputable def scaled (T kB : ℝ) (l : List (Drawn d)) : Option (List ((Fin d → ℝ) × ℝ)) :=
  ((keSum l).bind (frac d T kB l.length)).map fun f => (l.filter fun x => !x.excluded).map fun x => (fun k => x.v k * f, x.im)

/-! ## Masses -/

/-- What a template has for the mass, `creators/helperclasses/parse-constructor.cpp:90-108`. -/
inductive MassSpec where
  | inf
  | density
  | mass

open Classical in
/-- `ParticleTemplate::createParticle`, `creators/particletemplate.cpp:62-71`: the inverse mass, from the radius and the generated number. -/
noncomputable def inverseMass (s : MassSpec) (radius m : ℝ) (dim : ℕ) : ℝ :=
  match s with
  | .inf => 0
  | .density => if 0 < Verif.Regions.sphereVolume radius dim * m then 1 / (Verif.Regions.sphereVolume radius dim * m) else 0
  | .mass => if 0 < m then 1 / m else 0

/-! ## Random engines -/

/-- `ProportionalRandomEngine::generate`, `utility/randomengines.hpp:47-51`, for the uniform random number `x`. -/
noncomputable def proportional (l u x : ℝ) : ℝ := 1 / (1 / l + (1 / u - 1 / l) * (1 - x))

/-- The constructor of `DiscreteRandomEngine`, `utility/randomengines.hpp:83-86`, and `generate`, lines 88-90, for the index that the distribution chose:
`none` is the exception or an access out of range. -/
def discrete (probs vals : List ℝ) (i : ℕ) : Option ℝ := if vals.length < probs.length then none else vals[i]?

/-- The parsing of a discrete distribution, `creators/helperclasses/parse-constructor.cpp:165-189`: values and probabilities; an entry is the list of its parameters.
An entry that does not have two parameters is an exception. Both calls of `arg` have the index zero. -/
def parseDiscrete : List (List ℝ) → Option (List ℝ × List ℝ)
  | [] => some ([], [])
  | e :: es => if e.length ≠ 2 then none else
    (e[0]?).bind fun v => (e[0]?).bind fun p => (parseDiscrete es).map fun r => (v :: r.1, p :: r.2)

/-! ## Specification -/

/-- Kinetic energy. -/
noncomputable def kinetic (l : List ((Fin d → ℝ) × ℝ)) : ℝ := (l.map fun x => 1 / 2 * (1 / x.2) * ∑ k, x.1 k ^ 2).sum

/-- The kinetic temperature: the energy per degree of freedom is `k_B T / 2`. -/
noncomputable def temperature (kB : ℝ) (l : List ((Fin d → ℝ) × ℝ)) : ℝ := 2 * kinetic l / (l.length * d * kB)

/-! ## Theorems: temperature -/

theorem sqr_eq (v : Fin d → ℝ) : sqr v = ∑ k, v k ^ 2 := by
  unfold sqr
  rw [Verif.Regions.foldl_sum fun k => v k * v k]
  simp only [sq]

theorem keSum_eq (l : List (Drawn d)) (h : ∀ x ∈ l, x.im ≠ 0) : keSum l = some (kinetic (l.map fun x => (x.v, x.im))) := by
  induction l with
  | nil => simp [keSum, kinetic]
  | cons x l ih =>
    unfold keSum
    rw [if_neg (h x (by simp)), ih fun y hy => h y (by simp [hy])]
    simp only [Option.map_some, kinetic, List.map_cons, List.sum_cons, sqr_eq]
    congr 2
    ring

theorem kinetic_scale (l : List (Drawn d)) (f : ℝ) : kinetic (l.map fun x => (fun k => x.v k * f, x.im)) = f ^ 2 * kinetic (l.map fun x => (x.v, x.im)) := by
  unfold kinetic
  induction l with
  | nil => simp
  | cons x l ih =>
    simp only [List.map_cons, List.sum_cons, mul_add] at ih ⊢
    rw [ih]
    congr 1
    simp only [mul_pow, ← Finset.sum_mul]
    ring

theorem frac_sq (T kB : ℝ) (hT : 0 < T) (hk : 0 < kB) (hd : 0 < d) (N : ℕ) (hN : 2 ≤ N) (ke : ℝ) (hke : 0 < ke) :
    ∃ f, frac d T kB N ke = some f ∧ f ^ 2 * ke = (N / 2 : ℕ) * d * kB * T := by
  have h2 : N / 2 ≠ 0 := by omega
  have hp : (0 : ℝ) < (N / 2 : ℕ) := by exact_mod_cast Nat.pos_of_ne_zero h2
  have hd' : (0 : ℝ) < d := by exact_mod_cast hd
  unfold frac
  rw [if_neg h2, if_neg hke.ne']
  refine ⟨_, rfl, ?_⟩
  rw [Real.sq_sqrt (by positivity)]
  field_simp

/-- C92: if at least two particles are drawn, all movable and at positions that are not excluded, and not all at rest, their kinetic energy is exactly
`⌊N / 2⌋ d k_B T`. -/
theorem C92_energy (T kB : ℝ) (hT : 0 < T) (hk : 0 < kB) (hd : 0 < d) (l : List (Drawn d)) (hN : 2 ≤ l.length) (him : ∀ x ∈ l, 0 < x.im)
    (hex : ∀ x ∈ l, x.excluded = false) (hke : 0 < kinetic (l.map fun x => (x.v, x.im))) :
    ∃ r, scaled T kB l = some r ∧ r.length = l.length ∧ kinetic r = (l.length / 2 : ℕ) * d * kB * T := by
  obtain ⟨f, hf, hff⟩ := frac_sq T kB hT hk hd l.length hN _ hke
  unfold scaled
  rw [keSum_eq l fun x hx => (him x hx).ne', Option.bind_some, hf, Option.map_some]
  have hfil : l.filter (fun x => !x.excluded) = l := List.filter_eq_self.mpr fun x hx => by simp [hex x hx]
  exact ⟨_, rfl, by rw [hfil, List.length_map], by rw [hfil, kinetic_scale, hff]⟩

/-- C92: in that case, and if the number of particles is even, the temperature is exactly the requested one.
Missing: odd numbers (`C92_negation_odd`, `C92_negation_single`), immovable particles (`C92_negation_immovable`), excluded regions (`C92_negation_excluded`). -/
theorem C92_temperature_partial (T kB : ℝ) (hT : 0 < T) (hk : 0 < kB) (hd : 0 < d) (l : List (Drawn d)) (hN : 2 ≤ l.length) (he : Even l.length)
    (him : ∀ x ∈ l, 0 < x.im) (hex : ∀ x ∈ l, x.excluded = false) (hke : 0 < kinetic (l.map fun x => (x.v, x.im))) :
    ∃ r, scaled T kB l = some r ∧ r.length = l.length ∧ temperature kB r = T := by
  obtain ⟨r, h1, h2, h3⟩ := C92_energy T kB hT hk hd l hN him hex hke
  refine ⟨r, h1, h2, ?_⟩
  unfold temperature
  rw [h3, h2]
  obtain ⟨m, hm⟩ := he
  have hd' : (0 : ℝ) < d := by exact_mod_cast hd
  have hm2 : l.length / 2 = m := by omega
  have hm0 : (0 : ℝ) < m := by exact_mod_cast (by omega : 0 < m)
  rw [hm2, hm]
  push_cast
  field_simp
  ring

/-- C92 is false for every odd number of particles from three: the temperature is lower than requested, by the factor `(N - 1) / N`. -/
theorem C92_negation_odd (T kB : ℝ) (hT : 0 < T) (hk : 0 < kB) (hd : 0 < d) (l : List (Drawn d)) (hN : 2 ≤ l.length) (ho : Odd l.length)
    (him : ∀ x ∈ l, 0 < x.im) (hex : ∀ x ∈ l, x.excluded = false) (hke : 0 < kinetic (l.map fun x => (x.v, x.im))) :
    ∃ r, scaled T kB l = some r ∧ temperature kB r = T * ((l.length - 1) / l.length) ∧ temperature kB r < T := by
  obtain ⟨r, h1, h2, h3⟩ := C92_energy T kB hT hk hd l hN him hex hke
  obtain ⟨m, hm⟩ := ho
  have hd' : (0 : ℝ) < d := by exact_mod_cast hd
  have hm2 : l.length / 2 = m := by omega
  have hm0 : (0 : ℝ) < m := by exact_mod_cast (by omega : 0 < m)
  have ht : temperature kB r = T * ((l.length - 1) / l.length) := by
    unfold temperature
    rw [h3, h2, hm2, hm]
    push_cast
    field_simp
    ring
  refine ⟨r, h1, ht, ?_⟩
  rw [ht, hm]
  push_cast
  have : (2 * (m : ℝ) + 1 - 1) / (2 * m + 1) < 1 := by rw [div_lt_one (by positivity)]; linarith
  nlinarith

/-- C92 is false for a single particle: it is created at rest. -/
theorem C92_negation_single (T kB : ℝ) (x : Drawn d) (him : x.im ≠ 0) (hex : x.excluded = false) (hke : kinetic [(x.v, x.im)] ≠ 0) :
    scaled T kB [x] = some [(fun _ => 0, x.im)] := by
  unfold scaled
  rw [keSum_eq [x] (by simpa using him)]
  simp only [List.map_cons, List.map_nil, Option.bind_some, List.length_singleton]
  unfold frac
  rw [if_pos (by norm_num), if_neg hke]
  simp [hex]

theorem keSum_none (l : List (Drawn d)) (x : Drawn d) (hx : x ∈ l) (him : x.im = 0) : keSum l = none := by
  induction l with
  | nil => simp at hx
  | cons y l ih =>
    unfold keSum
    by_cases hy : y.im = 0
    · rw [if_pos hy]
    · rw [if_neg hy]
      rcases List.mem_cons.mp hx with rfl | hx
      · exact absurd him hy
      · rw [ih hx]; rfl

/-- C92 is false if one of the particles is immovable: none of the velocities is a number. -/
theorem C92_negation_immovable (T kB : ℝ) (l : List (Drawn d)) (x : Drawn d) (hx : x ∈ l) (him : x.im = 0) : scaled T kB l = none := by
  unfold scaled
  rw [keSum_none l x hx him]
  rfl

theorem kinetic_filter (l : List (Drawn d)) (p : Drawn d → Bool) (h : ∀ x ∈ l, 0 < x.im) :
    kinetic ((l.filter p).map fun x => (x.v, x.im)) ≤ kinetic (l.map fun x => (x.v, x.im)) := by
  unfold kinetic
  induction l with
  | nil => simp
  | cons x l ih =>
    have h1 := ih fun y hy => h y (by simp [hy])
    have hx := h x (by simp)
    have h2 : 0 ≤ 1 / 2 * (1 / x.im) * ∑ k, x.v k ^ 2 := by
      have : 0 ≤ ∑ k, x.v k ^ 2 := Finset.sum_nonneg fun k _ => sq_nonneg _
      positivity
    rw [List.filter_cons]
    split_ifs
    · simp only [List.map_cons, List.sum_cons] at h1 ⊢
      linarith
    · simp only [List.map_cons, List.sum_cons] at h1 ⊢
      linarith

theorem kinetic_filter_lt (l : List (Drawn d)) (p : Drawn d → Bool) (h : ∀ x ∈ l, 0 < x.im) (y : Drawn d) (hy : y ∈ l) (hp : p y = false) (hv : ∃ k, y.v k ≠ 0) :
    kinetic ((l.filter p).map fun x => (x.v, x.im)) < kinetic (l.map fun x => (x.v, x.im)) := by
  induction l with
  | nil => simp at hy
  | cons x l ih =>
    have hle := kinetic_filter l p fun z hz => h z (by simp [hz])
    have hx := h x (by simp)
    have h2 : 0 ≤ 1 / 2 * (1 / x.im) * ∑ k, x.v k ^ 2 := by
      have : 0 ≤ ∑ k, x.v k ^ 2 := Finset.sum_nonneg fun k _ => sq_nonneg _
      positivity
    by_cases hxy : x = y
    · subst hxy
      rw [List.filter_cons, hp]
      obtain ⟨k, hk⟩ := hv
      have h3 : 0 < ∑ k, x.v k ^ 2 := Finset.sum_pos' (fun k _ => sq_nonneg _) ⟨k, Finset.mem_univ k, by positivity⟩
      have h4 : 0 < 1 / 2 * (1 / x.im) * ∑ k, x.v k ^ 2 := by positivity
      unfold kinetic at hle ⊢
      simp only [List.map_cons, List.sum_cons] at hle ⊢
      simp only [Bool.false_eq_true, if_false]
      linarith
    · have hyl : y ∈ l := by
        rcases List.mem_cons.mp hy with h | h
        · exact absurd h.symm hxy
        · exact h
      have := ih (fun z hz => h z (by simp [hz])) hyl
      rw [List.filter_cons]
      unfold kinetic at this ⊢
      split_ifs
      · simp only [List.map_cons, List.sum_cons] at this ⊢; linarith
      · simp only [List.map_cons, List.sum_cons] at this ⊢; linarith

/-- C92 is false if a moving particle is drawn in an excluded region: its energy is counted, and the created ones have less than `⌊N / 2⌋ d k_B T`, where `N` counts it. -/
theorem C92_negation_excluded (T kB : ℝ) (hT : 0 < T) (hk : 0 < kB) (hd : 0 < d) (l : List (Drawn d)) (hN : 2 ≤ l.length) (him : ∀ x ∈ l, 0 < x.im)
    (y : Drawn d) (hy : y ∈ l) (hex : y.excluded = true) (hv : ∃ k, y.v k ≠ 0) :
    ∃ r, scaled T kB l = some r ∧ kinetic r < (l.length / 2 : ℕ) * d * kB * T := by
  have hlt := kinetic_filter_lt l (fun x => !x.excluded) him y hy (by simp [hex]) hv
  have h0 : 0 ≤ kinetic ((l.filter fun x => !x.excluded).map fun x => (x.v, x.im)) := by
    unfold kinetic
    refine List.sum_nonneg fun z hz => ?_
    simp only [List.map_map, List.mem_map, List.mem_filter] at hz
    obtain ⟨x, ⟨hx, _⟩, rfl⟩ := hz
    have h1 := him x hx
    have h2 : 0 ≤ ∑ k, x.v k ^ 2 := Finset.sum_nonneg fun k _ => sq_nonneg _
    show 0 ≤ 1 / 2 * (1 / x.im) * ∑ k, x.v k ^ 2
    positivity
  obtain ⟨f, hf, hff⟩ := frac_sq T kB hT hk hd l.length hN _ (lt_of_le_of_lt h0 hlt)
  unfold scaled
  rw [keSum_eq l fun x hx => (him x hx).ne', Option.bind_some, hf, Option.map_some]
  refine ⟨_, rfl, ?_⟩
  rw [kinetic_scale, ← hff]
  have hpos : 0 < f ^ 2 := by
    by_contra hc
    have : f ^ 2 = 0 := le_antisymm (not_lt.mp hc) (sq_nonneg f)
    rw [this, zero_mul] at hff
    have hp : (0 : ℝ) < (l.length / 2 : ℕ) := by exact_mod_cast (by omega : 0 < l.length / 2)
    have hd' : (0 : ℝ) < d := by exact_mod_cast hd
    have : 0 < ((l.length / 2 : ℕ) : ℝ) * d * kB * T := by positivity
    linarith
  exact mul_lt_mul_of_pos_left hlt hpos

/-! ## Theorems: masses and distributions -/

/-- C93: a created particle has the given mass, or the mass of a sphere of its radius with the given density; it is immovable exactly if the given number is not positive. -/
theorem C93_mass (radius m : ℝ) (hr : 0 < radius) (dim : ℕ) :
    (0 < m → 1 / inverseMass .mass radius m dim = m ∧ 1 / inverseMass .density radius m dim = m * Verif.Regions.sphereVolume radius dim) ∧
      (m ≤ 0 → inverseMass .mass radius m dim = 0 ∧ inverseMass .density radius m dim = 0) ∧ inverseMass .inf radius m dim = 0 := by
  have hv : 0 < Verif.Regions.sphereVolume radius dim := by
    unfold Verif.Regions.sphereVolume
    have := Real.Gamma_pos_of_pos (show (0 : ℝ) < (dim : ℝ) / 2 + 1 by positivity)
    have := Real.rpow_pos_of_pos Real.pi_pos ((dim : ℝ) / 2)
    positivity
  refine ⟨fun hm => ⟨?_, ?_⟩, fun hm => ⟨?_, ?_⟩, rfl⟩
  · unfold inverseMass
    simp only [if_pos hm]
    rw [one_div_one_div]
  · unfold inverseMass
    simp only [if_pos (mul_pos hv hm)]
    rw [one_div_one_div, mul_comm]
  · unfold inverseMass
    simp only [if_neg (not_lt.mpr hm)]
  · unfold inverseMass
    simp only [if_neg (not_lt.mpr (mul_nonpos_of_nonneg_of_nonpos hv.le hm))]

/-- C93: a proportional radius lies between the limits. -/
theorem C93_proportional_range (l u x : ℝ) (hl : 0 < l) (hu : l ≤ u) (h0 : 0 ≤ x) (h1 : x < 1) : l ≤ proportional l u x ∧ proportional l u x ≤ u := by
  have hu0 : 0 < u := lt_of_lt_of_le hl hu
  have hinv : 1 / u ≤ 1 / l := one_div_le_one_div_of_le hl hu
  have hiu : 0 < 1 / u := by positivity
  have ha : 1 / u ≤ 1 / l + (1 / u - 1 / l) * (1 - x) := by nlinarith
  have hb : 1 / l + (1 / u - 1 / l) * (1 - x) ≤ 1 / l := by nlinarith
  unfold proportional
  constructor
  · rw [le_div_iff₀ (by linarith)]
    calc l * (1 / l + (1 / u - 1 / l) * (1 - x)) ≤ l * (1 / l) := mul_le_mul_of_nonneg_left hb hl.le
      _ = 1 := mul_one_div_cancel hl.ne'
  · rw [div_le_iff₀ (by linarith)]
    calc 1 = u * (1 / u) := (mul_one_div_cancel hu0.ne').symm
      _ ≤ u * (1 / l + (1 / u - 1 / l) * (1 - x)) := mul_le_mul_of_nonneg_left ha hu0.le

/-- C93: in two dimensions the probability that a proportional radius is at most `v` is `(1/l - 1/v) / (1/l - 1/u)`: its density is proportional to `v⁻²`, so
that equal areas are filled by particles of equal ranges of radii.
Missing: other dimensions, where the same distribution is used (the code says so). -/
theorem C93_proportional_partial (l u v : ℝ) (hl : 0 < l) (hu : l < u) (hv : l ≤ v) (hvu : v ≤ u) :
    volume {x : ℝ | 0 ≤ x ∧ x < 1 ∧ proportional l u x ≤ v} = ENNReal.ofReal ((1 / l - 1 / v) / (1 / l - 1 / u)) := by
  have hu0 : 0 < u := hl.trans hu
  have hv0 : 0 < v := lt_of_lt_of_le hl hv
  have hD : 0 < 1 / l - 1 / u := sub_pos.mpr (one_div_lt_one_div_of_lt hl hu)
  have he : {x : ℝ | 0 ≤ x ∧ x < 1 ∧ proportional l u x ≤ v} = Set.Ico (1 - (1 / l - 1 / v) / (1 / l - 1 / u)) 1 := by
    have hF1 : (1 / l - 1 / v) / (1 / l - 1 / u) ≤ 1 := by
      rw [div_le_one hD]
      have := one_div_le_one_div_of_le hv0 hvu
      linarith
    have hiff : ∀ x, 0 ≤ x → x < 1 → (proportional l u x ≤ v ↔ 1 - (1 / l - 1 / v) / (1 / l - 1 / u) ≤ x) := by
      intro x h0 h1
      have hden : 0 < 1 / l + (1 / u - 1 / l) * (1 - x) := by
        have : 0 < 1 / u := by positivity
        nlinarith
      unfold proportional
      rw [one_div_le hden hv0]
      constructor
      · intro h
        have : (1 / l - 1 / u) * (1 - x) ≤ 1 / l - 1 / v := by linarith
        have := (le_div_iff₀ hD).mpr (by linarith : (1 - x) * (1 / l - 1 / u) ≤ 1 / l - 1 / v)
        linarith
      · intro h
        have : 1 - x ≤ (1 / l - 1 / v) / (1 / l - 1 / u) := by linarith
        have := (le_div_iff₀ hD).mp this
        linarith
    ext x
    simp only [Set.mem_ofPred_eq, Set.mem_Ico]
    constructor
    · rintro ⟨h0, h1, h2⟩
      exact ⟨(hiff x h0 h1).mp h2, h1⟩
    · rintro ⟨h0, h1⟩
      have hx0 : 0 ≤ x := by linarith
      exact ⟨hx0, h1, (hiff x hx0 h1).mpr h0⟩
  rw [he, Real.volume_Ico]
  congr 1
  ring

/-- C93: whatever index the distribution chooses (below the number of probabilities), a discrete random engine yields one of its values. -/
theorem C93_discrete (probs vals : List ℝ) (i : ℕ) (hi : i < probs.length) (h : probs.length ≤ vals.length) :
    ∃ v ∈ vals, discrete probs vals i = some v ∧ vals[i]? = some v := by
  unfold discrete
  rw [if_neg (by omega)]
  have : i < vals.length := by omega
  exact ⟨vals[i], List.getElem_mem _, List.getElem?_eq_getElem this, List.getElem?_eq_getElem this⟩

theorem parse_eq (es : List (ℝ × ℝ)) : parseDiscrete (es.map fun e => [e.1, e.2]) = some (es.map Prod.fst, es.map Prod.fst) := by
  induction es with
  | nil => rfl
  | cons e es ih => simp [parseDiscrete, ih]

/-- C93: the values of a discrete distribution are read correctly.
Missing: the probabilities, see `C93_negation_probabilities`. -/
theorem C93_parse_partial (es : List (ℝ × ℝ)) : ∃ probs, parseDiscrete (es.map fun e => [e.1, e.2]) = some (es.map Prod.fst, probs) ∧ probs.length = es.length :=
  ⟨_, parse_eq es, by simp⟩

/-- C93 is false: the values are taken as probabilities. The probabilities are right only if each is equal to its value. -/
theorem C93_negation_probabilities (es : List (ℝ × ℝ)) :
    parseDiscrete (es.map fun e => [e.1, e.2]) = some (es.map Prod.fst, es.map Prod.snd) ↔ ∀ e ∈ es, e.1 = e.2 := by
  rw [parse_eq, Option.some.injEq, Prod.mk.injEq]
  simp only [true_and]
  exact List.map_inj_left

/-! ## Examples -/

/-- Two particles with opposite velocities. -/
def pair : List (Drawn 2) := [⟨fun k => if k = 0 then 1 else 0, 1, false⟩, ⟨fun k => if k = 0 then -1 else 0, 2, false⟩]
example : 2 ≤ pair.length ∧ Even pair.length ∧ (∀ x ∈ pair, 0 < x.im) ∧ ∀ x ∈ pair, x.excluded = false := by
  refine ⟨le_refl _, ⟨1, rfl⟩, ?_, ?_⟩ <;> simp [pair]
example : 0 < kinetic (pair.map fun x => (x.v, x.im)) := by
  norm_num [kinetic, pair, Fin.sum_univ_two]
example : proportional 1 2 0 = 2 := by norm_num [proportional]

end Verif.Thermal
