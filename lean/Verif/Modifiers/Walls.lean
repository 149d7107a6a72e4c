import Verif.Modifiers.Removers

/-!
# Sliding walls (C81)

Models `body/wallslidebody.cpp` and `modifiers/twowallmodifier.cpp:37-61`. Exact real arithmetic.
-/

namespace Verif.Walls
open Verif.PairForces Verif.Groups Verif.Removers

variable {d : ℕ}

/-- A wall: its group and its slide dimension, `body/wallslidebody.hpp`. -/
structure Wall (d : ℕ) where
  group : Group
  slide : Fin d

/-- State of the accumulation loop of `correct`: mass, `has_inf`, net force, forces. -/
structure Acc (d : ℕ) where
  M : ℝ
  inf : Bool
  Fnet : ℝ
  f : ℕ → Fin d → ℝ

/-- One round of the accumulation loop, `body/wallslidebody.cpp:60-68`. -/
noncomputable def accStep (W : World d) (s : Fin d) (a : Acc d) (i : ℕ) : Acc d :=
  ⟨if 0 < W.im i then a.M + 1 / W.im i else a.M, if 0 < W.im i then a.inf else true, a.Fnet + a.f i s,
    Function.update a.f i fun _ => 0⟩

/-- Force setting loop, `body/wallslidebody.cpp:76-79`. -/
noncomputable def setLoop (W : World d) (s : Fin d) (A : ℝ) (l : List ℕ) (f : ℕ → Fin d → ℝ) : ℕ → Fin d → ℝ :=
  l.foldl (fun f i => Function.update f i (Function.update (f i) s (1 / W.im i * A))) f

/-- `WallSlideBody::correct`, `body/wallslidebody.cpp:43-80`, for a slide dimension of the simulation and up-to-date local ids:
the net force stored and the new forces. (With an empty group the quotient `0/0` is computed but never used.) -/
noncomputable def Wall.correct (w : Wall d) (W : World d) : ℝ × (ℕ → Fin d → ℝ) :=
  let a := w.group.lids.foldl (accStep W w.slide) ⟨0, false, 0, W.f⟩
  if a.inf then (a.Fnet, a.f) else (a.Fnet, setLoop W w.slide (a.Fnet / a.M) w.group.lids a.f)

/-- The velocities after `WallSlideBody::pre_integrate`, `body/wallslidebody.cpp:17-27`. -/
def Wall.stop (w : Wall d) (v : ℕ → Fin d → ℝ) : ℕ → Fin d → ℝ :=
  w.group.lids.foldl (fun v i => Function.update v i fun _ => 0) v

/-! ## C81: walls are rigid -/

theorem acc_loop (W : World d) (s : Fin d) (l : List ℕ) (hn : l.Nodup) (a : Acc d) :
    l.foldl (accStep W s) a =
      ⟨a.M + total l (fun i => if 0 < W.im i then 1 / W.im i else 0), a.inf || l.any (fun i => !decide (0 < W.im i)),
        a.Fnet + total l (fun i => a.f i s), fun i k => if i ∈ l then 0 else a.f i k⟩ := by
  induction l generalizing a with
  | nil => simp [total]
  | cons i l ih =>
    rw [List.nodup_cons] at hn
    rw [List.foldl_cons, ih hn.2]
    have hF : total l (fun j => (accStep W s a i).f j s) = total l fun j => a.f j s := by
      refine total_congr fun j hj => ?_
      simp only [accStep]
      rw [Function.update_of_ne (by rintro rfl; exact hn.1 hj)]
    simp only [hF]
    simp only [accStep, total, List.map_cons, List.sum_cons, List.any_cons, Acc.mk.injEq]
    refine ⟨?_, ?_, by ring, ?_⟩
    · split_ifs <;> ring
    · by_cases h : 0 < W.im i <;> simp [h]
    · funext j k
      by_cases h : j = i
      · subst h; simp
      · rw [Function.update_of_ne h]; simp [h]

theorem set_loop (W : World d) (s : Fin d) (A : ℝ) (l : List ℕ) (f : ℕ → Fin d → ℝ) (i : ℕ) (k : Fin d) :
    setLoop W s A l f i k = if i ∈ l ∧ k = s then 1 / W.im i * A else f i k := by
  unfold setLoop
  induction l generalizing f with
  | nil => simp
  | cons j l ih =>
    rw [List.foldl_cons, ih]
    by_cases hk : k = s
    · subst hk
      by_cases hl : i ∈ l
      · simp [hl]
      · by_cases hij : i = j
        · subst hij; simp
        · simp [hl, hij]
    · by_cases hij : i = j
      · subst hij; simp [hk]
      · simp [hk, hij]

/-- **C81, forces on a wall.** For a wall without a member of infinite mass, after `correct` all members have the same
acceleration, along the slide dimension only; the total force along the slide dimension is the one before, and it is what `getFnet` returns.
Forces on other particles are not changed. -/
theorem C81_common_acceleration (w : Wall d) (W : World d) (hn : w.group.lids.Nodup) (him : ∀ i ∈ w.group.lids, 0 < W.im i) :
    ∃ Fnet f a, w.correct W = (Fnet, f) ∧ (∀ i ∈ w.group.lids, ∀ k, W.im i * f i k = if k = w.slide then a else 0) ∧
      (total w.group.lids fun i => f i w.slide) = (total w.group.lids fun i => W.f i w.slide) ∧
      Fnet = (total w.group.lids fun i => W.f i w.slide) ∧ ∀ i ∉ w.group.lids, f i = W.f i := by
  have hany : (w.group.lids.any fun i => !decide (0 < W.im i)) = false := by
    rw [List.any_eq_false]; intro i hi; simp [him i hi]
  have hM : total w.group.lids (fun i => if 0 < W.im i then 1 / W.im i else 0) = total w.group.lids fun i => 1 / W.im i :=
    total_congr fun i hi => by rw [if_pos (him i hi)]
  set F := total w.group.lids fun i => W.f i w.slide with hF
  set M := total w.group.lids fun i => 1 / W.im i with hMd
  set f : ℕ → Fin d → ℝ := setLoop W w.slide (F / M) w.group.lids fun i k => if i ∈ w.group.lids then 0 else W.f i k with hf
  have hfv : ∀ i k, f i k = if i ∈ w.group.lids ∧ k = w.slide then 1 / W.im i * (F / M)
      else if i ∈ w.group.lids then 0 else W.f i k := fun i k => set_loop ..
  refine ⟨F, f, F / M, ?_, ?_, ?_, rfl, ?_⟩
  · unfold Wall.correct
    rw [acc_loop _ _ _ hn]
    simp only [Bool.false_or, hany, hM, zero_add, Bool.false_eq_true, if_false]
    rw [hf, hF, hMd]
  · intro i hi k
    rw [hfv]
    have := (him i hi).ne'
    by_cases hk : k = w.slide
    · rw [if_pos ⟨hi, hk⟩, if_pos hk]; field_simp
    · rw [if_neg (by tauto), if_pos hi, if_neg hk, mul_zero]
  · have : (total w.group.lids fun i => f i w.slide) = total w.group.lids fun i => 1 / W.im i * (F / M) :=
      total_congr fun i hi => by rw [hfv, if_pos ⟨hi, rfl⟩]
    rw [this, total_mul, ← hMd]
    by_cases h0 : w.group.lids = []
    · rw [hF, hMd, h0]; simp [total]
    · have := total_pos W.im w.group.lids h0 him
      rw [← hMd] at this
      field_simp
  · intro i hi
    funext k
    rw [hfv, if_neg (by tauto), if_neg hi]

/-- A wall with a member of infinite mass feels no force at all. -/
theorem C81_immovable (w : Wall d) (W : World d) (hn : w.group.lids.Nodup) (h : ∃ i ∈ w.group.lids, W.im i ≤ 0) :
    ∀ i, (w.correct W).2 i = if i ∈ w.group.lids then fun _ => 0 else W.f i := by
  have hany : (w.group.lids.any fun i => !decide (0 < W.im i)) = true := by
    obtain ⟨i, hi, h0⟩ := h
    rw [List.any_eq_true]; exact ⟨i, hi, by simp [not_lt.mpr h0]⟩
  intro i
  unfold Wall.correct
  rw [acc_loop _ _ _ hn]
  simp only [Bool.false_or, hany, if_true]
  funext k
  by_cases hi : i ∈ w.group.lids <;> simp [hi]

theorem stop_eq (w : Wall d) (v : ℕ → Fin d → ℝ) (i : ℕ) : w.stop v i = if i ∈ w.group.lids then fun _ => 0 else v i := by
  unfold Wall.stop
  generalize w.group.lids = l
  induction l generalizing v with
  | nil => simp
  | cons j l ih =>
    rw [List.foldl_cons, ih]
    by_cases hl : i ∈ l
    · simp [hl]
    · by_cases hij : i = j
      · subst hij; simp
      · simp [hl, hij]

/-- One step of velocity Verlet (`integrators/velocity-verlet.tpp:22-103`, see `Verif.Integrators.Verlet`) with a wall: half
kick, move, the new forces `F` of the step (any), `correct`, half kick. Positions are not wrapped. -/
noncomputable def step (w : Wall d) (W : World d) (dt : ℝ) (F : ℕ → Fin d → ℝ) : World d :=
  let v1 : ℕ → Fin d → ℝ := fun i k => W.v i k + 1/2 * dt * W.im i * W.f i k
  let x1 : ℕ → Fin d → ℝ := fun i k => W.x i k + dt * v1 i k
  let f1 := (w.correct ⟨W.lid, x1, v1, F, W.im, W.lo, W.hi, W.wrap⟩).2
  ⟨W.lid, x1, fun i k => v1 i k + 1/2 * dt * W.im i * f1 i k, f1, W.im, W.lo, W.hi, W.wrap⟩

/-- A run of steps. -/
noncomputable def run (w : Wall d) (W : World d) : List (ℝ × (ℕ → Fin d → ℝ)) → World d
  | [] => W
  | s :: l => run w (step w W s.1 s.2) l

/-- **C81, rigid motion.** After `pre_integrate`, with no force on the wall at the start, in a run of any number of steps of any
size and with any forces, the wall moves rigidly along its slide dimension: every member is displaced by one and the same amount
along it, and not at all in the other dimensions; with a member of infinite mass the wall does not move at all. -/
theorem C81_rigid (w : Wall d) (W : World d) (hn : w.group.lids.Nodup) (him : ∀ i ∈ w.group.lids, 0 ≤ W.im i)
    (hf : ∀ i ∈ w.group.lids, ∀ k, W.f i k = 0) (l : List (ℝ × (ℕ → Fin d → ℝ))) :
    ∃ D, (∀ i ∈ w.group.lids, ∀ k, (run w (setV W (w.stop W.v)) l).x i k = W.x i k + if k = w.slide then D else 0) ∧
      ((∃ i ∈ w.group.lids, W.im i = 0) → D = 0) := by
  have key : ∀ (l : List (ℝ × (ℕ → Fin d → ℝ))) (W : World d) (u a : ℝ), (∀ i ∈ w.group.lids, 0 ≤ W.im i) →
      ((∃ i ∈ w.group.lids, W.im i = 0) → u = 0 ∧ a = 0) →
      (∀ i ∈ w.group.lids, ∀ k, W.v i k = if k = w.slide then u else 0) →
      (∀ i ∈ w.group.lids, ∀ k, W.im i * W.f i k = if k = w.slide then a else 0) →
      ∃ D, (∀ i ∈ w.group.lids, ∀ k, (run w W l).x i k = W.x i k + if k = w.slide then D else 0) ∧
        ((∃ i ∈ w.group.lids, W.im i = 0) → D = 0) := by
    intro l
    induction l with
    | nil =>
      intro W u a _ _ _ _
      exact ⟨0, fun i _ k => by simp [run], fun _ => rfl⟩
    | cons s l ih =>
      obtain ⟨dt, F⟩ := s
      intro W u a him hinf hv ha
      simp only [run]
      set v1 : ℕ → Fin d → ℝ := fun i k => W.v i k + 1/2 * dt * W.im i * W.f i k with hv1
      set W1 : World d := ⟨W.lid, fun i k => W.x i k + dt * v1 i k, v1, F, W.im, W.lo, W.hi, W.wrap⟩ with hW1
      have hv1' : ∀ i ∈ w.group.lids, ∀ k, v1 i k = if k = w.slide then u + 1/2 * dt * a else 0 := by
        intro i hi k
        rw [hv1]; simp only
        rw [hv i hi k, show 1/2 * dt * W.im i * W.f i k = 1/2 * dt * (W.im i * W.f i k) by ring, ha i hi k]
        split_ifs <;> ring
      obtain ⟨a2, ha2, hz⟩ : ∃ a2, (∀ i ∈ w.group.lids, ∀ k, W.im i * (w.correct W1).2 i k = if k = w.slide then a2 else 0) ∧
          ((∃ i ∈ w.group.lids, W.im i = 0) → a2 = 0) := by
        by_cases hp : ∃ i ∈ w.group.lids, W.im i = 0
        · refine ⟨0, ?_, fun _ => rfl⟩
          intro i hi k
          have := C81_immovable w W1 hn (by obtain ⟨j, hj, h⟩ := hp; exact ⟨j, hj, h.le⟩) i
          rw [this, if_pos hi]; simp
        · have him' : ∀ i ∈ w.group.lids, 0 < W1.im i := by
            intro i hi
            exact lt_of_le_of_ne (him i hi) fun h => hp ⟨i, hi, h.symm⟩
          obtain ⟨Fn, f, a2, e, h1, -⟩ := C81_common_acceleration w W1 hn him'
          refine ⟨a2, ?_, fun h => absurd h hp⟩
          rw [e]; exact h1
      have hs : step w W dt F = ⟨W.lid, W1.x, fun i k => v1 i k + 1/2 * dt * W.im i * (w.correct W1).2 i k, (w.correct W1).2,
        W.im, W.lo, W.hi, W.wrap⟩ := rfl
      obtain ⟨D, hD, hD0⟩ := ih (step w W dt F) (u + 1/2 * dt * a + 1/2 * dt * a2) a2 him
        (fun h => by rw [(hinf h).1, (hinf h).2, hz h]; exact ⟨by ring, rfl⟩)
        (by
          intro i hi k
          rw [hs]; simp only
          rw [hv1' i hi k, show 1/2 * dt * W.im i * (w.correct W1).2 i k = 1/2 * dt * (W.im i * (w.correct W1).2 i k) by ring, ha2 i hi k]
          split_ifs <;> ring)
        (by intro i hi k; rw [hs]; exact ha2 i hi k)
      refine ⟨D + dt * (u + 1/2 * dt * a), ?_, ?_⟩
      · intro i hi k
        rw [hD i hi k, hs]
        simp only [hW1]
        rw [hv1' i hi k]
        split_ifs <;> ring
      · intro h
        rw [hD0 h, (hinf h).1, (hinf h).2]; ring
  refine key l (setV W (w.stop W.v)) 0 0 him (fun _ => ⟨rfl, rfl⟩) ?_ ?_
  · intro i hi k
    simp only [setV]
    rw [stop_eq, if_pos hi]; split_ifs <;> rfl
  · intro i hi k
    simp only [setV]
    rw [hf i hi k]; split_ifs <;> ring

/-! ## Two walls -/

/-- `sign`, `utility/utility.hpp:123-125`. -/
noncomputable def sgn (a : ℝ) : ℝ := if a < 0 then -1 else 1

/-- Parameters of `TwoWallModifier`, `modifiers/twowallmodifier.hpp`. -/
structure TwoWall where
  maxDist : ℝ
  minDist : ℝ
  acceleration : ℝ

/-- The acceleration of `TwoWallModifier::post_forces`, `modifiers/twowallmodifier.cpp:45-48`, for the displacement `dx`. -/
noncomputable def TwoWall.accel (T : TwoWall) (dx : ℝ) : ℝ :=
  let a := if T.maxDist > 0 ∧ |dx| > T.maxDist then (|dx| - T.maxDist) * sgn dx * T.acceleration else 0
  if T.minDist > 0 ∧ |dx| < T.minDist then a - (T.minDist - |dx|) * sgn dx * T.acceleration else a

/-- `TwoWallModifier::post_forces`, `modifiers/twowallmodifier.cpp:37-60`; the walls' positions are those of their first members
(`wallslidebody.cpp:82-84`); `none` is a read outside of the arrays (no member, or the first one was removed). Up-to-date local ids. -/
noncomputable def TwoWall.post (T : TwoWall) (A B : Wall (d+1)) (W : World (d+1)) : Option (World (d+1)) :=
  (A.group.gids[0]?).bind fun ga => (B.group.gids[0]?).bind fun gb =>
  (W.lid ga).bind fun ia => (W.lid gb).bind fun ib =>
    let dx := disp W (W.x ib) (W.x ia) 0
    let a := T.accel dx
    open Classical in
    if a = 0 then some W
    else
      let W1 := setF W (A.group.addAcceleration W fun k => if k = 0 then a else 0)
      some (setF W1 (B.group.addAcceleration W1 fun k => if k = 0 then -a else 0))

/-- **C81, two walls: range.** Nothing happens while the distance is between the limits (a limit of zero or less is none); beyond the upper limit the walls
are pulled towards each other and below the lower limit pushed apart, in proportion to the excess: `accel` is the acceleration
of the first wall, `dx` the displacement from the first to the second. -/
theorem C81_two_walls_range (T : TwoWall) (dx : ℝ) (hk : 0 < T.acceleration) (hmm : T.minDist ≤ T.maxDist ∨ T.maxDist ≤ 0) :
    ((T.maxDist ≤ 0 ∨ |dx| ≤ T.maxDist) → (T.minDist ≤ 0 ∨ T.minDist ≤ |dx|) → T.accel dx = 0) ∧
    (0 < T.maxDist → T.maxDist < |dx| → T.accel dx * dx = T.acceleration * (|dx| - T.maxDist) * |dx| ∧ 0 < T.accel dx * dx) ∧
    (0 < T.minDist → |dx| < T.minDist → T.accel dx * dx = -(T.acceleration * (T.minDist - |dx|) * |dx|) ∧ T.accel dx ≠ 0) := by
  have hs : sgn dx * dx = |dx| := by
    unfold sgn; split_ifs with h
    · rw [abs_of_neg h]; ring
    · rw [abs_of_nonneg (not_lt.mp h)]; ring
  have hs0 : sgn dx ≠ 0 := by unfold sgn; split_ifs <;> norm_num
  unfold TwoWall.accel
  simp only
  refine ⟨fun h1 h2 => ?_, fun h1 h2 => ?_, fun h1 h2 => ?_⟩
  · rw [if_neg (by rintro ⟨a, b⟩; rcases h2 with h2 | h2 <;> linarith), if_neg (by rintro ⟨a, b⟩; rcases h1 with h1 | h1 <;> linarith)]
  · have hm : ¬ (T.minDist > 0 ∧ |dx| < T.minDist) := by rintro ⟨a, b⟩; rcases hmm with h | h <;> linarith
    rw [if_neg hm, if_pos ⟨h1, h2⟩]
    have e : (|dx| - T.maxDist) * sgn dx * T.acceleration * dx = T.acceleration * (|dx| - T.maxDist) * |dx| := by
      rw [← hs]; ring
    refine ⟨e, ?_⟩
    rw [e]
    have : 0 < |dx| := by linarith
    have : 0 < |dx| - T.maxDist := by linarith
    positivity
  · have hm : ¬ (T.maxDist > 0 ∧ |dx| > T.maxDist) := by rintro ⟨a, b⟩; rcases hmm with h | h <;> linarith
    rw [if_pos ⟨h1, h2⟩, if_neg hm]
    refine ⟨by rw [← hs]; ring, ?_⟩
    have : 0 < T.minDist - |dx| := by linarith
    rw [zero_sub, neg_ne_zero]
    exact mul_ne_zero (mul_ne_zero this.ne' hs0) hk.ne'

/-- **C81, two walls: forces (partial).** The members of the two disjoint walls get opposite accelerations along the first
dimension, so each wall stays rigid; other forces do not change. Momentum is conserved when the walls have equal mass.
Missing: walls of different mass, see `C81_negation_momentum`. -/
theorem C81_two_walls_forces_partial (T : TwoWall) (A B : Wall (d+1)) (W : World (d+1)) (hA : OK A.group) (hB : OK B.group)
    (hnA : A.group.lids.Nodup) (hnB : B.group.lids.Nodup) (hdis : ∀ i ∈ A.group.lids, i ∉ B.group.lids)
    (him : ∀ i ∈ A.group.lids ++ B.group.lids, 0 < W.im i) (ia ib : ℕ)
    (ha : A.group.gids.head?.bind W.lid = some ia) (hb : B.group.gids.head?.bind W.lid = some ib) :
    ∃ f, T.post A B W = some (setF W f) ∧
      (∀ i ∈ A.group.lids, ∀ k, W.im i * f i k = W.im i * W.f i k + if k = 0 then T.accel (disp W (W.x ib) (W.x ia) 0) else 0) ∧
      (∀ i ∈ B.group.lids, ∀ k, W.im i * f i k = W.im i * W.f i k - if k = 0 then T.accel (disp W (W.x ib) (W.x ia) 0) else 0) ∧
      (∀ i, i ∉ A.group.lids → i ∉ B.group.lids → f i = W.f i) ∧
      ((total A.group.lids fun i => 1 / W.im i) = (total B.group.lids fun i => 1 / W.im i) →
        ∀ k, (total (A.group.lids ++ B.group.lids) fun i => f i k) = total (A.group.lids ++ B.group.lids) fun i => W.f i k) := by
  obtain ⟨ga, hga, hia⟩ : ∃ ga, A.group.gids[0]? = some ga ∧ W.lid ga = some ia := by
    cases h : A.group.gids with
    | nil => simp [h] at ha
    | cons g l => simp [h] at ha; exact ⟨g, by simp, ha⟩
  obtain ⟨gb, hgb, hib⟩ : ∃ gb, B.group.gids[0]? = some gb ∧ W.lid gb = some ib := by
    cases h : B.group.gids with
    | nil => simp [h] at hb
    | cons g l => simp [h] at hb; exact ⟨g, by simp, hb⟩
  set a := T.accel (disp W (W.x ib) (W.x ia) 0) with ha0
  set f1 := A.group.addAcceleration W fun k => if k = 0 then a else 0 with hf1
  set f2 := B.group.addAcceleration (setF W f1) fun k => if k = 0 then -a else 0 with hf2
  have h2 : ∀ i k, f2 i k = W.f i k + (if 0 < W.im i then (if i ∈ A.group.lids then 1 else 0) * (1 / W.im i * if k = 0 then a else 0) else 0) +
      if 0 < W.im i then (if i ∈ B.group.lids then 1 else 0) * (1 / W.im i * if k = 0 then -a else 0) else 0 := by
    intro i k
    rw [hf2, C45_add_acceleration _ _ hB, count_nodup hnB]
    simp only [setF]
    rw [hf1, C45_add_acceleration _ _ hA, count_nodup hnA]
    by_cases hp : 0 < W.im i <;> simp [hp]
  have hpost : T.post A B W = some (setF W (if a = 0 then W.f else f2)) := by
    unfold TwoWall.post
    simp only [hga, hgb, hia, hib, Option.bind_some]
    rw [← ha0]
    by_cases h : a = 0
    · rw [if_pos h, if_pos h]; rfl
    · rw [if_neg h, if_neg h]; rfl
  have hf : (if a = 0 then W.f else f2) = f2 := by
    by_cases h : a = 0
    · rw [if_pos h]; funext i k; rw [h2, h]; simp
    · rw [if_neg h]
  rw [hf] at hpost
  have hAf : ∀ i ∈ A.group.lids, ∀ k, f2 i k = W.f i k + 1 / W.im i * if k = 0 then a else 0 := by
    intro i hi k
    rw [h2, if_pos (him i (by simp [hi])), if_pos (him i (by simp [hi])), if_pos hi, if_neg (hdis i hi)]; ring
  have hBf : ∀ i ∈ B.group.lids, ∀ k, f2 i k = W.f i k + 1 / W.im i * if k = 0 then -a else 0 := by
    intro i hi k
    have hiA : i ∉ A.group.lids := fun h => hdis i h hi
    rw [h2, if_pos (him i (by simp [hi])), if_pos (him i (by simp [hi])), if_neg hiA, if_pos hi]; ring
  refine ⟨f2, hpost, ?_, ?_, ?_, ?_⟩
  · intro i hi k
    rw [hAf i hi k]
    have := (him i (by simp [hi])).ne'
    field_simp
  · intro i hi k
    rw [hBf i hi k]
    have := (him i (by simp [hi])).ne'
    split_ifs <;> field_simp <;> ring
  · intro i h1 h3
    funext k
    rw [h2, if_neg h1, if_neg h3]; simp
  · intro hM k
    have happ : ∀ q : ℕ → ℝ, total (A.group.lids ++ B.group.lids) q = total A.group.lids q + total B.group.lids q := by
      intro q; simp [total]
    rw [happ, happ, total_congr fun i hi => hAf i hi k, total_congr fun i hi => hBf i hi k, total_add, total_add, total_mul,
      total_mul, hM]
    split_ifs <;> ring

/-- Two walls of one particle each, at 0 and 5 of a box of width 10 that does not wrap; inverse masses 1 and `m`. -/
noncomputable def wallWorld (m : ℝ) : World 1 :=
  ⟨some, fun i _ => if i = 0 then 0 else 5, fun _ _ => 0, fun _ _ => 0, fun i => if i = 0 then 1 else m, fun _ => 0, fun _ => 10, fun _ => false⟩

/-- The hypotheses of the theorems are met. -/
example : OK ⟨[0], [0]⟩ ∧ OK ⟨[1], [1]⟩ ∧ (∀ i ∈ [0], i ∉ [1]) ∧ (∀ i ∈ [0] ++ [1], 0 < (wallWorld 2).im i) ∧
    ([0] : List ℕ).head?.bind (wallWorld 2).lid = some 0 ∧ (⟨2, -1, 50⟩ : TwoWall).minDist ≤ (⟨2, -1, 50⟩ : TwoWall).maxDist := by
  refine ⟨rfl, rfl, by decide, ?_, rfl, by norm_num⟩
  intro i hi; simp only [wallWorld]; split_ifs <;> norm_num

/-- **C81 is false of the momentum of walls of different mass.** Both walls get the acceleration 150, the lighter one (mass
1/2) half of the force: the sum of the forces is 75, not 0. -/
theorem C81_negation_momentum : ∃ f, (⟨2, -1, 50⟩ : TwoWall).post ⟨⟨[0], [0]⟩, 0⟩ ⟨⟨[1], [1]⟩, 0⟩ (wallWorld 2) = some (setF (wallWorld 2) f) ∧
    (total [0, 1] fun i => f i 0) = 75 := by
  obtain ⟨f, e, h1, h2, -, -⟩ := C81_two_walls_forces_partial (⟨2, -1, 50⟩ : TwoWall) ⟨⟨[0], [0]⟩, 0⟩ ⟨⟨[1], [1]⟩, 0⟩ (wallWorld 2) rfl rfl
    (by decide) (by decide) (by decide) (by intro i _; simp only [wallWorld]; split_ifs <;> norm_num) 0 1 rfl rfl
  refine ⟨f, e, ?_⟩
  have h3 := h1 0 (by simp) 0
  have h4 := h2 1 (by simp) 0
  simp [wallWorld, disp, correct, TwoWall.accel, sgn] at h3 h4
  norm_num at h3 h4
  simp only [total, List.map_cons, List.map_nil, List.sum_cons, List.sum_nil]
  linarith

/-! ## Length of a wall -/

/-- One round of the bounding box loop of `pre_integrate` in one dimension, `body/wallslidebody.cpp:34-39`: `(min, max)`. -/
noncomputable def extStep (b : ℝ × ℝ) (p : ℝ × ℝ) : ℝ × ℝ :=
  if p.1 - p.2 < b.1 then (p.1 - p.2, b.2) else if b.2 < p.1 + p.2 then (b.1, p.1 + p.2) else b

/-- The bounds in one dimension, `body/wallslidebody.cpp:30-40`, of members with position and radius `(x, r)`. -/
noncomputable def extent (l : List (ℝ × ℝ)) : Option (ℝ × ℝ) :=
  l.head?.map fun p => l.foldl extStep (p.1, p.1)

/-- **C81 is false of the length of a wall.** A single particle of radius 1 at 0: the box is `[-1, 0]`, so the length
`getLength` returns is 1 instead of 2. -/
theorem C81_negation_length : extent [(0, 1)] = some (-1, 0) := by
  simp [extent, extStep]

theorem ext_lower (l : List (ℝ × ℝ)) (b : ℝ × ℝ) :
    (l.foldl extStep b).1 ≤ b.1 ∧ (∀ p ∈ l, (l.foldl extStep b).1 ≤ p.1 - p.2) ∧
      ((l.foldl extStep b).1 = b.1 ∨ ∃ p ∈ l, (l.foldl extStep b).1 = p.1 - p.2) := by
  induction l generalizing b with
  | nil => simp
  | cons p l ih =>
    rw [List.foldl_cons]
    obtain ⟨h1, h2, h3⟩ := ih (extStep b p)
    have hb : (extStep b p).1 ≤ b.1 ∧ (extStep b p).1 ≤ p.1 - p.2 ∧ ((extStep b p).1 = b.1 ∨ (extStep b p).1 = p.1 - p.2) := by
      unfold extStep
      split_ifs with h h'
      · exact ⟨h.le, le_rfl, Or.inr rfl⟩
      · exact ⟨le_rfl, not_lt.mp h, Or.inl rfl⟩
      · exact ⟨le_rfl, not_lt.mp h, Or.inl rfl⟩
    refine ⟨h1.trans hb.1, ?_, ?_⟩
    · intro q hq
      rcases List.mem_cons.mp hq with rfl | hq
      · exact h1.trans hb.2.1
      · exact h2 q hq
    · rcases h3 with h3 | ⟨q, hq, h3⟩
      · rcases hb.2.2 with h | h
        · exact Or.inl (h3.trans h)
        · exact Or.inr ⟨p, by simp, h3.trans h⟩
      · exact Or.inr ⟨q, List.mem_cons_of_mem _ hq, h3⟩

theorem ext_upper (l : List (ℝ × ℝ)) (b : ℝ × ℝ) (h : ∀ p ∈ l, b.1 ≤ p.1 - p.2) :
    b.2 ≤ (l.foldl extStep b).2 ∧ (∀ p ∈ l, p.1 + p.2 ≤ (l.foldl extStep b).2) ∧
      ((l.foldl extStep b).2 = b.2 ∨ ∃ p ∈ l, (l.foldl extStep b).2 = p.1 + p.2) := by
  induction l generalizing b with
  | nil => simp
  | cons p l ih =>
    rw [List.foldl_cons]
    have h0 : ¬ p.1 - p.2 < b.1 := not_lt.mpr (h p (by simp))
    have hb1 : (extStep b p).1 = b.1 := by unfold extStep; rw [if_neg h0]; split_ifs <;> rfl
    have hb : b.2 ≤ (extStep b p).2 ∧ p.1 + p.2 ≤ (extStep b p).2 ∧ ((extStep b p).2 = b.2 ∨ (extStep b p).2 = p.1 + p.2) := by
      unfold extStep; rw [if_neg h0]
      split_ifs with h'
      · exact ⟨h'.le, le_rfl, Or.inr rfl⟩
      · exact ⟨le_rfl, not_lt.mp h', Or.inl rfl⟩
    obtain ⟨h1, h2, h3⟩ := ih (extStep b p) (fun q hq => hb1 ▸ h q (List.mem_cons_of_mem _ hq))
    refine ⟨hb.1.trans h1, ?_, ?_⟩
    · intro q hq
      rcases List.mem_cons.mp hq with rfl | hq
      · exact hb.2.1.trans h1
      · exact h2 q hq
    · rcases h3 with h3 | ⟨q, hq, h3⟩
      · rcases hb.2.2 with h | h
        · exact Or.inl (h3.trans h)
        · exact Or.inr ⟨p, by simp, h3.trans h⟩
      · exact Or.inr ⟨q, List.mem_cons_of_mem _ hq, h3⟩

/-- **C81, length (partial).** The lower end is always right; both ends are right when the first member reaches farthest to the
left and another one at least as far to the right as it.
Missing: other orders of the members, see `C81_negation_length`. -/
theorem C81_length_partial (p : ℝ × ℝ) (l : List (ℝ × ℝ)) (hr : 0 < p.2) :
    ∃ b, extent (p :: l) = some b ∧ (∀ q ∈ p :: l, b.1 ≤ q.1 - q.2) ∧ (∃ q ∈ p :: l, b.1 = q.1 - q.2) ∧
      ((∀ q ∈ l, p.1 - p.2 ≤ q.1 - q.2) → (∃ q ∈ l, p.1 + p.2 ≤ q.1 + q.2) →
        (∀ q ∈ p :: l, q.1 + q.2 ≤ b.2) ∧ ∃ q ∈ p :: l, b.2 = q.1 + q.2) := by
  refine ⟨_, rfl, (ext_lower (p :: l) (p.1, p.1)).2.1, ?_, ?_⟩
  · rcases (ext_lower (p :: l) (p.1, p.1)).2.2 with h | h
    · have := (ext_lower (p :: l) (p.1, p.1)).2.1 p (by simp)
      rw [h] at this; simp only at this; linarith
    · exact h
  · intro h1 h2
    have hp : extStep (p.1, p.1) p = (p.1 - p.2, p.1) := by unfold extStep; rw [if_pos (by simp only; linarith)]
    beta_reduce
    rw [List.foldl_cons, hp]
    obtain ⟨u1, u2, u3⟩ := ext_upper l (p.1 - p.2, p.1) h1
    obtain ⟨q, hq, hle⟩ := h2
    refine ⟨?_, ?_⟩
    · intro r hr'
      rcases List.mem_cons.mp hr' with rfl | hr'
      · exact hle.trans (u2 q hq)
      · exact u2 r hr'
    · rcases u3 with h | ⟨r, hr', h⟩
      · have := u2 q hq
        rw [h] at this; simp only at this; linarith
      · exact ⟨r, List.mem_cons_of_mem _ hr', h⟩

/-- The hypotheses are met by a row of equal particles. -/
example : (0:ℝ) < ((0, 1) : ℝ × ℝ).2 ∧ (∀ q ∈ [((2:ℝ), (1:ℝ))], (0:ℝ) - 1 ≤ q.1 - q.2) ∧ ∃ q ∈ [((2:ℝ), (1:ℝ))], (0:ℝ) + 1 ≤ q.1 + q.2 := by
  refine ⟨by norm_num, ?_, (2, 1), by simp, by norm_num⟩
  intro q hq; simp at hq; subst hq; norm_num

end Verif.Walls
