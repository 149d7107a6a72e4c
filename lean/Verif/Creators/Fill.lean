import Mathlib.Algebra.Order.Floor.Ring
import Verif.Creators.Regions
import Verif.Parallel.KDTree

/-!
# Filling a region with particles (C91)

Models the loops of `FillAreaCreator::createArea`, `creators/fillareacreator.cpp:186-311`, that decide how many particles are created and where. Exact real
arithmetic. Random positions and radii are inputs.
-/

namespace Verif.Fill
open MeasureTheory Verif.Bounds Verif.Regions

/-! ## By number -/

/-- The inner loop of the fill by number, `creators/fillareacreator.cpp:286-310`: as long as the counter is below the number another particle of the template is
created. The counter is declared in line 189 and not reset between templates. The second component is the counter after the loop. -/
def numLoop {α : Type} (a : α) (num N : ℤ) : List α × ℤ :=
  if N < num then (a :: (numLoop a num (N + 1)).1, (numLoop a num (N + 1)).2) else ([], N)
termination_by (num - N).toNat

/-- The fill by number, `creators/fillareacreator.cpp:277-312`: templates and numbers in the order of the map; the result lists the templates of the particles.
The conversion of the numbers from text to integers is not modelled. -/
def fillNumber {α : Type} : List (α × ℤ) → ℤ → List α
  | [], _ => []
  | (a, num) :: l, N => (numLoop a num N).1 ++ fillNumber l (numLoop a num N).2

/-- The choice of a position, `creators/fillareacreator.cpp:287-292` with `max_attempts` of line 182; the list has the random positions. -/
def place {X : Type} (excl : X → Bool) : ℕ → List X → Option X
  | _, [] => none
  | att, x :: xs => if excl x && decide (att + 1 ≤ 50) then place excl (att + 1) xs else some x

/-! ## By density -/

/-- What is drawn for a particle: whether its position is excluded, and the volume of its sphere. -/
structure Draw where
  excluded : Bool
  vol : ℝ

/-- Phi or Rho, `creators/fillareacreator.cpp:55-68`. -/
inductive Opt where
  | phi
  | rho

open Classical in
/-- `keep_adding`, `creators/fillareacreator.cpp:227-234`. In a region without volume the first comparison is with `0 / 0` and false. -/
noncomputable def keep (o : Opt) (Vol target vol : ℝ) (N : ℕ) : Bool :=
  match o with
  | .phi => !decide (Vol = 0) && decide (vol / Vol < target)
  | .rho => !decide (Vol = 0) && decide (N / Vol < target)

/-- The loop of the fill by density, `creators/fillareacreator.cpp:237-273`: the draws that are used. No result if the given draws are used up before. -/
noncomputable def densLoop (o : Opt) (Vol target : ℝ) : ℝ → ℕ → List Draw → Option (List Draw)
  | vol, N, ds =>
    if keep o Vol target vol N then
      match ds with
      | [] => none
      | x :: ds => (densLoop o Vol target (vol + x.vol) (N + 1) ds).map (x :: ·)
    else some []

/-- The particles that are created, `creators/fillareacreator.cpp:261-268`: the draws at positions that are not excluded. -/
noncomputable def fillDensity (o : Opt) (Vol target : ℝ) (ds : List Draw) : Option (List Draw) :=
  (densLoop o Vol target 0 0 ds).map fun l => l.filter fun x => !x.excluded

/-- The volume that a processor fills if the region is rectangular, `creators/fillareacreator.cpp:193-204`. -/
noncomputable def processVol {n : ℕ} (B : Box (n + 1)) (P own : ℕ) (region : Box (n + 1)) : ℝ :=
  (intersection (Verif.KDTree.processBounds B P own) region).vol

/-! ## Theorems: by number -/

theorem numLoop_eq {α : Type} (a : α) (num N : ℤ) : numLoop a num N = (List.replicate (num - N).toNat a, max N num) := by
  generalize hk : (num - N).toNat = k
  induction k generalizing N with
  | zero =>
    unfold numLoop
    rw [if_neg (by omega), max_eq_left (by omega)]
    rfl
  | succ k ih =>
    unfold numLoop
    rw [if_pos (by omega), ih (N + 1) (by omega)]
    rw [List.replicate_succ, max_eq_right (by omega), max_eq_right (by omega)]

/-- C91: if one template is given with a number, that many particles of it are created.
Missing: several templates, see `C91_number_general` and `C91_negation_number`. -/
theorem C91_number_partial {α : Type} (a : α) (num : ℤ) : fillNumber [(a, num)] 0 = List.replicate num.toNat a := by
  simp [fillNumber, numLoop_eq]

/-- The largest of the numbers before. -/
def before {α : Type} (l : List (α × ℤ)) : ℤ := l.foldl (fun m p => max m p.2) 0

/-- C91 is false for several templates: of each template only as many particles are created as its number exceeds the largest number of the templates before,
and the total is the largest number, not the sum. -/
theorem C91_number_general {α : Type} (l : List (α × ℤ)) :
    fillNumber l 0 = (List.range l.length).flatMap (fun i => match l[i]? with
      | some p => List.replicate (p.2 - before (l.take i)).toNat p.1
      | none => []) ∧ ((fillNumber l 0).length : ℤ) = before l := by
  have key : ∀ (l : List (α × ℤ)) (N : ℤ), 0 ≤ N → fillNumber l N = (List.range l.length).flatMap (fun i => match l[i]? with
      | some p => List.replicate (p.2 - (l.take i).foldl (fun m p => max m p.2) N).toNat p.1
      | none => []) ∧ ((fillNumber l N).length : ℤ) = l.foldl (fun m p => max m p.2) N - N := by
    intro l
    induction l with
    | nil => intro N _; simp [fillNumber]
    | cons p l ih =>
      intro N hN
      obtain ⟨h1, h2⟩ := ih (max N p.2) (by omega)
      have hf : fillNumber (p :: l) N = List.replicate (p.2 - N).toNat p.1 ++ fillNumber l (max N p.2) := by
        show (numLoop p.1 p.2 N).1 ++ fillNumber l (numLoop p.1 p.2 N).2 = _
        rw [numLoop_eq]
      constructor
      · rw [hf, h1, List.length_cons, List.range_succ_eq_map, List.flatMap_cons, List.flatMap_map]
        rfl
      · rw [hf, List.length_append, List.length_replicate, List.foldl_cons]
        push_cast
        rw [h2]
        have : l.foldl (fun m p => max m p.2) (max N p.2) - max N p.2 + (((p.2 - N).toNat : ℕ) : ℤ) = l.foldl (fun m p => max m p.2) (max N p.2) - N := by omega
        omega
  obtain ⟨h1, h2⟩ := key l 0 le_rfl
  exact ⟨h1, by rw [h2]; unfold before; omega⟩

/-- C91 is false for two templates: of 10 and 5 particles only the 10 of the first template are created. -/
theorem C91_negation_number : fillNumber [('A', 10), ('B', 5)] 0 = List.replicate 10 'A' := by
  have := (C91_number_general [('A', (10 : ℤ)), ('B', 5)]).1
  rw [this]
  decide

/-- C91: a number without a body creates nothing, since no template is given. -/
theorem C91_negation_no_template {α : Type} : fillNumber ([] : List (α × ℤ)) 0 = [] := rfl

/-- C91: a particle is placed at the first random position that is not excluded, if there is one among the first 51.
Missing: otherwise it is placed in an excluded region, see `C91_negation_excluded`. -/
theorem C91_excluded_partial {X : Type} (excl : X → Bool) (xs : List X) (h : ∃ x ∈ xs.take 51, excl x = false) :
    ∃ x, place excl 0 xs = some x ∧ excl x = false ∧ xs.find? (fun y => !excl y) = some x := by
  have key : ∀ (xs : List X) (att : ℕ), (∃ x ∈ xs.take (51 - att), excl x = false) → ∃ x, place excl att xs = some x ∧ excl x = false ∧ xs.find? (fun y => !excl y) = some x := by
    intro xs
    induction xs with
    | nil => rintro att ⟨x, hx, _⟩; simp at hx
    | cons y xs ih =>
      rintro att ⟨x, hx, he⟩
      by_cases hy : excl y = false
      · exact ⟨y, by simp [place, hy], hy, by simp [hy]⟩
      · rw [Bool.not_eq_false] at hy
        have hatt : att < 51 := by
          by_contra hc
          rw [show 51 - att = 0 by omega] at hx
          simp at hx
        rw [show 51 - att = (50 - att) + 1 by omega, List.take_succ_cons] at hx
        rcases List.mem_cons.mp hx with rfl | hx
        · rw [hy] at he; exact absurd he (by simp)
        · have ha : att + 1 ≤ 50 := by
            by_contra hc
            rw [show 50 - att = 0 by omega] at hx
            simp at hx
          obtain ⟨z, h1, h2, h3⟩ := ih (att + 1) ⟨x, by rw [show 51 - (att + 1) = 50 - att by omega]; exact hx, he⟩
          exact ⟨z, by simp [place, hy, ha, h1], h2, by simp [hy, h3]⟩
  exact key xs 0 h

/-- C91 is false: after 51 attempts the particle is placed in the excluded region. -/
theorem C91_negation_excluded {X : Type} (excl : X → Bool) (xs : List X) (x : X) (hl : xs[50]? = some x) (h : ∀ y ∈ xs, excl y = true) :
    place excl 0 xs = some x := by
  have key : ∀ (xs : List X) (att : ℕ), att ≤ 50 → xs[50 - att]? = some x → (∀ y ∈ xs, excl y = true) → place excl att xs = some x := by
    intro xs
    induction xs with
    | nil => intro att _ h; simp at h
    | cons y xs ih =>
      intro att ha hx hy
      have hy0 := hy y (by simp)
      by_cases h50 : att + 1 ≤ 50
      · rw [show 50 - att = (50 - (att + 1)) + 1 by omega, List.getElem?_cons_succ] at hx
        simp only [place, hy0, h50, decide_true, Bool.and_true, if_true]
        exact ih (att + 1) h50 hx fun z hz => hy z (by simp [hz])
      · rw [show 50 - att = 0 by omega, List.getElem?_cons_zero] at hx
        simp only [place, hy0, h50, decide_false, Bool.and_false]
        simpa using hx
  exact key xs 0 (by omega) hl h

/-! ## Theorems: by density -/

theorem dens_cons (o : Opt) (Vol target vol : ℝ) (N : ℕ) (ds : List Draw) :
    densLoop o Vol target vol N ds = if keep o Vol target vol N then (match ds with
      | [] => none
      | x :: ds => (densLoop o Vol target (vol + x.vol) (N + 1) ds).map (x :: ·)) else some [] := by
  conv_lhs => unfold densLoop

theorem dens_spec (o : Opt) (Vol target : ℝ) (ds : List Draw) (vol : ℝ) (N : ℕ) (l : List Draw) (h : densLoop o Vol target vol N ds = some l) :
    (∃ m, l = ds.take m) ∧ keep o Vol target (vol + (l.map Draw.vol).sum) (N + l.length) = false ∧
      ∀ m < l.length, keep o Vol target (vol + ((l.take m).map Draw.vol).sum) (N + m) = true := by
  induction ds generalizing vol N l with
  | nil =>
    rw [dens_cons] at h
    by_cases hk : keep o Vol target vol N = true
    · rw [if_pos hk] at h; exact absurd h (by simp)
    · rw [if_neg hk] at h
      obtain rfl := Option.some.inj h
      refine ⟨⟨0, rfl⟩, by simpa using hk, by simp⟩
  | cons x ds ih =>
    rw [dens_cons] at h
    by_cases hk : keep o Vol target vol N = true
    · rw [if_pos hk] at h
      obtain ⟨l', hl', rfl⟩ := Option.map_eq_some_iff.mp h
      obtain ⟨⟨m, hm⟩, h2, h3⟩ := ih _ _ _ hl'
      refine ⟨⟨m + 1, by rw [List.take_succ_cons, hm]⟩, ?_, ?_⟩
      · rw [List.map_cons, List.sum_cons, ← add_assoc, List.length_cons, show N + (l'.length + 1) = N + 1 + l'.length by ring]
        exact h2
      · intro k hk'
        cases k with
        | zero => simpa using hk
        | succ k =>
          have := h3 k (by simpa using hk')
          rw [List.take_succ_cons, List.map_cons, List.sum_cons, ← add_assoc, show N + (k + 1) = N + 1 + k by ring]
          exact this
    · rw [if_neg hk] at h
      obtain rfl := Option.some.inj h
      refine ⟨⟨0, rfl⟩, by simpa using hk, by simp⟩

theorem dens_some (o : Opt) (Vol target : ℝ) (ds : List Draw) (vol : ℝ) (N : ℕ) (h : keep o Vol target (vol + (ds.map Draw.vol).sum) (N + ds.length) = false) :
    ∃ l, densLoop o Vol target vol N ds = some l := by
  induction ds generalizing vol N with
  | nil =>
    rw [dens_cons]
    have : keep o Vol target vol N = false := by simpa using h
    rw [if_neg (by simp [this])]
    exact ⟨_, rfl⟩
  | cons x ds ih =>
    rw [dens_cons]
    by_cases hk : keep o Vol target vol N = true
    · rw [if_pos hk]
      obtain ⟨l, hl⟩ := ih (vol + x.vol) (N + 1) (by
        rw [List.map_cons, List.sum_cons, ← add_assoc, List.length_cons, show N + (ds.length + 1) = N + 1 + ds.length by ring] at h
        exact h)
      exact ⟨x :: l, by simp [hl]⟩
    · rw [if_neg hk]; exact ⟨_, rfl⟩

/-- C91: filling to a volume fraction uses the shortest sequence of random particles whose total volume reaches the fraction of the volume of the region, and creates
those of them whose position is not excluded. -/
theorem C91_phi (Vol target : ℝ) (hV : 0 < Vol) (ds made : List Draw) (h : fillDensity .phi Vol target ds = some made) :
    ∃ m, made = (ds.take m).filter (fun x => !x.excluded) ∧ target ≤ ((ds.take m).map Draw.vol).sum / Vol ∧
      ∀ k < m, k < ds.length → ((ds.take k).map Draw.vol).sum / Vol < target := by
  obtain ⟨l, hl, rfl⟩ := Option.map_eq_some_iff.mp h
  obtain ⟨⟨m, hm⟩, h2, h3⟩ := dens_spec _ _ _ _ _ _ _ hl
  subst hm
  refine ⟨m, rfl, ?_, ?_⟩
  · simp only [keep, zero_add, hV.ne', decide_false, Bool.not_false, Bool.true_and, decide_eq_false_iff_not, not_lt] at h2
    exact h2
  · intro k hk hk2
    have := h3 k (by rw [List.length_take]; omega)
    simp only [keep, zero_add, hV.ne', decide_false, Bool.not_false, Bool.true_and, decide_eq_true_eq] at this
    rwa [List.take_take, min_eq_left hk.le] at this

/-- C91: the fill by volume fraction ends: enough random particles of at least a given volume suffice. -/
theorem C91_phi_ends (Vol target v : ℝ) (hV : 0 < Vol) (ds : List Draw) (hv : ∀ x ∈ ds, v ≤ x.vol) (hd : target * Vol ≤ ds.length * v) :
    ∃ made, fillDensity .phi Vol target ds = some made := by
  have hs : (ds.length : ℝ) * v ≤ (ds.map Draw.vol).sum := by
    clear hd
    induction ds with
    | nil => simp
    | cons x ds ih =>
      rw [List.map_cons, List.sum_cons, List.length_cons]
      have := ih fun y hy => hv y (by simp [hy])
      have := hv x (by simp)
      push_cast
      linarith
  obtain ⟨l, hl⟩ := dens_some .phi Vol target ds 0 0 (by
    simp only [keep, zero_add, hV.ne', decide_false, Bool.not_false, Bool.true_and, decide_eq_false_iff_not, not_lt]
    rw [le_div_iff₀ hV]
    linarith)
  exact ⟨_, by unfold fillDensity; rw [hl]; rfl⟩

/-- C91: filling to a number density draws exactly `⌈ρ V⌉` particles; it ends if so many random particles come. -/
theorem C91_rho (Vol target : ℝ) (hV : 0 < Vol) (ds : List Draw) (hd : ⌈target * Vol⌉₊ ≤ ds.length) :
    fillDensity .rho Vol target ds = some ((ds.take ⌈target * Vol⌉₊).filter fun x => !x.excluded) := by
  have hkeep : ∀ v n, keep .rho Vol target v n = decide (n < ⌈target * Vol⌉₊) := by
    intro v n
    simp only [keep, hV.ne', decide_false, Bool.not_false, Bool.true_and]
    congr 1
    rw [div_lt_iff₀ hV, eq_iff_iff, Nat.lt_ceil]
  obtain ⟨l, hl⟩ : ∃ l, densLoop .rho Vol target 0 0 ds = some l := dens_some _ _ _ _ _ _ (by rw [hkeep]; simpa using hd)
  obtain ⟨⟨m, rfl⟩, h2, h3⟩ := dens_spec _ _ _ _ _ _ _ hl
  rw [hkeep] at h2
  have hm : (ds.take m).length = ⌈target * Vol⌉₊ := by
    have h4 : ⌈target * Vol⌉₊ ≤ (ds.take m).length := by simpa using h2
    by_contra hc
    have h5 := h3 ⌈target * Vol⌉₊ (by omega)
    rw [hkeep] at h5
    simp at h5
  have he : ds.take m = ds.take ⌈target * Vol⌉₊ := by
    rw [← hm, List.length_take, ← List.take_take, List.take_length]
  unfold fillDensity
  rw [hl, he]
  rfl

/-! ## Several processors -/

theorem vol_points {n : ℕ} (b : Box (n + 1)) (h : ∀ k, b.lo k ≤ b.hi k) : volume {x | b.contains x = true} = ENNReal.ofReal b.vol := by
  by_cases hp : ∀ k, b.lo k < b.hi k
  · rw [← show (Region.rect b).vol = b.vol from rfl, ← C88_volume (Nat.succ_pos n) (.rect b) hp]
    congr 1
    ext x
    exact C88_contains (.rect b) hp x
  · push Not at hp
    obtain ⟨k, hk⟩ := hp
    have he : {x | b.contains x = true} = ∅ := by
      ext x
      simp only [Set.mem_ofPred_eq, Set.mem_empty_iff_false, iff_false]
      rw [contains_iff]
      intro hx
      have := hx k
      linarith
    rw [he, measure_empty, vol_eq, Finset.prod_eq_zero (Finset.mem_univ k)]
    · simp
    · linarith [h k]

theorem vol_nonneg {n : ℕ} (A B : Box (n + 1)) : 0 ≤ (intersection A B).vol := (C49_intersection_volume (Nat.succ_pos n) A B).2.1

/-- C91: the volumes that the processors fill add up to the volume of the part of the region inside the simulation bounds. -/
theorem C91_volumes {n : ℕ} (B region : Box (n + 1)) (hB : ∀ k, B.lo k < B.hi k) (P : ℕ) (hP : 1 ≤ P) :
    ∑ own ∈ Finset.range P, processVol B P own region = (intersection B region).vol := by
  have hcon := fun (A C : Box (n + 1)) x => C49_intersection (Nat.succ_pos n) A C x
  have hle := fun (A C : Box (n + 1)) k => sub_nonneg.mp ((C49_intersection_volume (Nat.succ_pos n) A C).1 k)
  have hpart := fun x => Verif.KDTree.C47_partition B hB P hP x
  have hmeas : ∀ A : Box (n + 1), MeasurableSet {x | A.contains x = true} := by
    intro A
    have he : {x | A.contains x = true} = Set.pi Set.univ fun k => Set.Ico (A.lo k) (A.hi k) := by
      ext x
      simp only [Set.mem_ofPred_eq, contains_iff, Set.mem_pi, Set.mem_univ, true_implies, Set.mem_Ico]
    rw [he]
    exact MeasurableSet.univ_pi fun k => measurableSet_Ico
  have hunion : {x | (intersection B region).contains x = true} = ⋃ own ∈ Finset.range P, {x | (intersection (Verif.KDTree.processBounds B P own) region).contains x = true} := by
    ext x
    simp only [Set.mem_ofPred_eq, Set.mem_iUnion, Finset.mem_range, exists_prop, hcon]
    constructor
    · rintro ⟨h1, h2⟩
      obtain ⟨own, ⟨ho, hc⟩, _⟩ := (hpart x).1 h1
      exact ⟨own, ho, hc, h2⟩
    · rintro ⟨own, ho, hc, h2⟩
      refine ⟨?_, h2⟩
      by_contra hcon'
      rw [Bool.not_eq_true] at hcon'
      rw [(hpart x).2 hcon' own ho] at hc
      exact absurd hc (by simp)
  have hdisj : Set.PairwiseDisjoint (↑(Finset.range P)) fun own => {x | (intersection (Verif.KDTree.processBounds B P own) region).contains x = true} := by
    intro a ha b hb hab
    refine Set.disjoint_left.mpr fun x hxa hxb => hab ?_
    simp only [Set.mem_ofPred_eq, hcon] at hxa hxb
    have hx : B.contains x = true := by
      by_contra hcon'
      rw [Bool.not_eq_true] at hcon'
      have := (hpart x).2 hcon' a (Finset.mem_range.mp ha)
      rw [hxa.1] at this
      exact absurd this (by simp)
    exact ((hpart x).1 hx).unique ⟨Finset.mem_range.mp ha, hxa.1⟩ ⟨Finset.mem_range.mp hb, hxb.1⟩
  have hm := measure_biUnion_finset (μ := volume) hdisj fun own _ => hmeas _
  rw [← hunion, vol_points _ (hle B region)] at hm
  simp only [vol_points _ (hle _ region)] at hm
  rw [← ENNReal.ofReal_sum_of_nonneg fun own _ => vol_nonneg _ _] at hm
  exact ((ENNReal.ofReal_eq_ofReal_iff (vol_nonneg _ _) (Finset.sum_nonneg fun own _ => vol_nonneg _ _)).mp hm).symm

/-- C91: on `P` processors the fill to a number density draws at least `ρ V` and less than `ρ V + P` particles in total. -/
theorem C91_rho_processors {n : ℕ} (B region : Box (n + 1)) (hB : ∀ k, B.lo k < B.hi k) (P : ℕ) (hP : 1 ≤ P) (target : ℝ) (ht : 0 ≤ target) :
    target * (intersection B region).vol ≤ ∑ own ∈ Finset.range P, (⌈target * processVol B P own region⌉₊ : ℝ) ∧
      ∑ own ∈ Finset.range P, (⌈target * processVol B P own region⌉₊ : ℝ) < target * (intersection B region).vol + P := by
  rw [← C91_volumes B region hB P hP, Finset.mul_sum]
  have h0 : ∀ own, 0 ≤ target * processVol B P own region := fun own => mul_nonneg ht (vol_nonneg _ _)
  constructor
  · exact Finset.sum_le_sum fun own _ => Nat.le_ceil _
  · have h1 : ∑ own ∈ Finset.range P, (⌈target * processVol B P own region⌉₊ : ℝ) < ∑ own ∈ Finset.range P, (target * processVol B P own region + 1) :=
      Finset.sum_lt_sum_of_nonempty ⟨0, Finset.mem_range.mpr (by omega)⟩ fun own _ => Nat.ceil_lt_add_one (h0 own)
    rw [Finset.sum_add_distrib] at h1
    simpa using h1

/-- C91 is false for the fill by number on several processors: each creates the full number (`creators/fillareacreator.cpp:277-312` does not use the bounds). -/
theorem C91_negation_processors (P : ℕ) (num : ℕ) :
    ((List.range P).flatMap fun _ => fillNumber [((), (num : ℤ))] 0).length = P * num := by
  rw [C91_number_partial]
  simp [List.length_flatMap]

/-! ## Examples -/

example : ∃ x ∈ ([3, 4, 5, 6].take 51), (fun n : ℕ => decide (n < 5)) x = false := ⟨5, by decide, by decide⟩
example : ∃ made, fillDensity .phi 10 (1 / 2) (List.replicate 7 ⟨false, 1⟩) = some made :=
  C91_phi_ends 10 (1 / 2) 1 (by norm_num) _ (fun x hx => by rw [(List.mem_replicate.mp hx).2]) (by norm_num)
example : ∀ k : Fin 2, (⟨fun _ => 0, fun _ => 4⟩ : Box 2).lo k < (⟨fun _ => 0, fun _ => 4⟩ : Box 2).hi k := fun _ => by norm_num
example : ⌈(2 : ℝ) * 3⌉₊ ≤ (List.replicate 6 (⟨true, 1⟩ : Draw)).length := by norm_num

end Verif.Fill
