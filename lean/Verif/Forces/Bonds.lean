import Verif.Forces.PairForces

/-!
# Harmonic bonds and chains (C39)

Models `bonded/bond.cpp`, `bonded/harmonicbond.cpp`, `bonded/harmonicbond_2d.cpp`, `bonded/harmonicbond_3d.cpp` and
`bonded/harmonic-chain.cpp`. Exact real arithmetic. A particle that `getLocalID` does not find has local id -1; using it as
an index is undefined (`none`), and so is a division by zero.
-/

set_option linter.unusedSectionVars false

namespace Verif.Bonds
open Finset Verif.PairForces

variable {d : ℕ}

/-- What a bond reads of the rest of the program at one moment: positions, types, `getLocalID` (`none` is -1) and
`getNeedsRemake`. -/
structure World (d : ℕ) where
  x : ℕ → Fin d → ℝ
  type : ℕ → ℤ
  lid : ℕ → Option ℕ
  remake : Bool

/-- The object `HarmonicBond` with the members of `Bond`, `bonded/bond.hpp:33-37`, `bonded/harmonicbond.hpp:31-36`:
global ids, cached local ids, rest lengths and the spring constant. -/
structure HB where
  K : ℝ
  gleft : List ℕ
  gright : List ℕ
  left : List (Option ℕ)
  right : List (Option ℕ)
  dist : List ℝ

/-- Constructor, `bonded/harmonicbond.cpp:9`. -/
def HB.new (K : ℝ) : HB := ⟨K, [], [], [], [], []⟩

/-- `magnitudeVec`. -/
noncomputable def mag (X : Fin d → ℝ) : ℝ := Real.sqrt (dot X X)

/-- `HarmonicBond::addBond`, `bonded/harmonicbond.cpp:11-25`; undefined when a particle does not exist. -/
noncomputable def HB.addBond (w : Fin d → Option ℝ) (W : World d) (b : HB) (g1 g2 : ℕ) : Option HB :=
  match W.lid g1, W.lid g2 with
  | some i, some j => some { b with
      gleft := b.gleft ++ [g1], gright := b.gright ++ [g2], left := b.left ++ [some i], right := b.right ++ [some j],
      dist := b.dist ++ [mag (correct w (W.x i - W.x j))] }
  | _, _ => none

/-- `Bond::checkBondVectors`, `bonded/bond.cpp:15-17`. -/
def HB.check (b : HB) : Bool :=
  b.left.length == b.right.length && b.left.length == b.gleft.length && b.gleft.length == b.gright.length

/-- `Bond::updateLocalIDs`, `bonded/bond.cpp:19-30`; the exception is also `none`. -/
def HB.update (W : World d) (b : HB) : Option HB :=
  if b.check then some { b with left := b.gleft.map W.lid, right := b.gright.map W.lid } else none

/-- One bond as the loops see it: the entries number `n` of the three vectors. -/
def HB.bond (b : HB) (n : ℕ) : Option (ℕ × ℕ × ℝ) :=
  match b.left[n]?, b.right[n]?, b.dist[n]? with
  | some (some i), some (some j), some r0 => some (i, j, r0)
  | _, _, _ => none

open Classical in
/-- `normalizeVec`, `utility/vectormath.hpp:150-155`. -/
noncomputable def unit (X : Fin d → ℝ) : Fin d → ℝ := fun k =>
  (if 0 < dot X X then 1 / Real.sqrt (dot X X) else 0) * X k

/-- Body of the loop of `HarmonicBond::interact`, `bonded/harmonicbond.cpp:44-58` (the same in
`bonded/harmonic-chain.cpp:42-56`). -/
noncomputable def stepBase (K : ℝ) (w : Fin d → Option ℝ) (W : World d) (a : Acc d) (b : ℕ × ℕ × ℝ) : Option (Acc d) :=
  let X := correct w (W.x b.1 - W.x b.2.1)
  let dr := mag X - b.2.2
  let V : Fin d → ℝ := fun k => K * dr * unit X k
  some { a with f := addAt (addAt a.f b.1 (-1) V) b.2.1 1 V }

open Classical in
/-- Body of the second loop of `HarmonicBond_2d::interact`, `bonded/harmonicbond_2d.cpp:37-66`. -/
noncomputable def step2d (K : ℝ) (doPot doVir : Bool) (w : Fin d → Option ℝ) (W : World d) (a : Acc d) (b : ℕ × ℕ × ℝ) :
    Option (Acc d) :=
  if W.type b.1 < 0 ∨ W.type b.2.1 < 0 then some a
  else
    let X := correct w (W.x b.1 - W.x b.2.1)
    if dot X X = 0 then none
    else
      let r := mag X
      let dr := r - b.2.2
      let V : Fin d → ℝ := fun k => X k * (K * dr * (1 / r))
      some { f := addAt (addAt a.f b.1 (-1) V) b.2.1 1 V
             pot := if doPot then a.pot + K * (dr * dr) else a.pot
             vir := if doVir then a.vir + K * dr * r else a.vir }

open Classical in
/-- Body of the second loop of `HarmonicBond_3d::interact`, `bonded/harmonicbond_3d.cpp:50-103`. Both force updates are to
`f(id1)` (lines 96-97). -/
noncomputable def step3d (K : ℝ) (doPot : Bool) (w : Fin d → Option ℝ) (W : World d) (a : Acc d) (b : ℕ × ℕ × ℝ) :
    Option (Acc d) :=
  if W.type b.1 < 0 ∨ W.type b.2.1 < 0 then some a
  else
    let X := correct w (W.x b.1 - W.x b.2.1)
    if dot X X = 0 then none
    else
      let r := mag X
      let dr := r - b.2.2
      let V : Fin d → ℝ := fun k => X k * (K * dr * (1 / r))
      some { a with
             f := addAt (addAt a.f b.1 (-1) V) b.1 1 V
             pot := if doPot then a.pot + 1/2 * K * (dr * dr) else a.pot }

/-- `for (int i=0; i<nbonds; ++i)` over the bonds of the object. -/
noncomputable def HB.loop (b : HB) (step : Acc d → ℕ × ℕ × ℝ → Option (Acc d)) (n : ℕ) (a : Acc d) : Option (Acc d) :=
  (List.range n).foldlM (fun a i => (b.bond i).bind (step a)) a

/-- `if (simData->getNeedsRemake()) updateLocalIDs();`. -/
def HB.maybeUpdate (W : World d) (b : HB) : Option HB := if W.remake then b.update W else some b

/-- `HarmonicBond::interact`, `bonded/harmonicbond.cpp:27-63`; `Bonded::interact` (`base/bonded.cpp:7-11`) resets virial
and potential. -/
noncomputable def HB.interact (w : Fin d → Option ℝ) (W : World d) (b : HB) (f : ℕ → Fin d → ℝ) : Option (HB × Acc d) :=
  let n := b.left.length
  (b.maybeUpdate W).bind fun b => (b.loop (stepBase b.K w W) n ⟨f, 0, 0⟩).map fun a => (b, a)

/-- `HarmonicBond_2d::interact`, `bonded/harmonicbond_2d.cpp:9-68`. -/
noncomputable def HB.interact2d (doPot doVir : Bool) (w : Fin d → Option ℝ) (W : World d) (b : HB) (f : ℕ → Fin d → ℝ) :
    Option (HB × Acc d) :=
  (b.interact w W f).bind fun r =>
    if d ≠ 2 then some r
    else
      let n := r.1.left.length
      (r.1.maybeUpdate W).bind fun b => (b.loop (step2d b.K doPot doVir w W) n r.2).map fun a => (b, a)

/-- `HarmonicBond_3d::interact`, `bonded/harmonicbond_3d.cpp:9-104`. -/
noncomputable def HB.interact3d (doPot : Bool) (w : Fin d → Option ℝ) (W : World d) (b : HB) (f : ℕ → Fin d → ℝ) :
    Option (HB × Acc d) :=
  (b.interact w W f).bind fun r =>
    if d ≠ 3 then some r
    else
      let n := r.1.left.length
      (r.1.maybeUpdate W).bind fun b => (b.loop (step3d b.K doPot w W) n r.2).map fun a => (b, a)

/-! ## Specification -/

/-- Calls on a bond object. Each call sees the world at its own moment. -/
inductive Op (d : ℕ) where
  /-- `addBond` -/
  | add (W : World d) (g1 g2 : ℕ)
  /-- `pre_integrate` -/
  | pre (W : World d)
  /-- the refresh of ids at the start of an `interact` -/
  | refresh (W : World d)

/-- The object after a history, newest call first. -/
noncomputable def run (K : ℝ) (w : Fin d → Option ℝ) : List (Op d) → Option HB
  | [] => some (HB.new K)
  | .add W g1 g2 :: h => (run K w h).bind fun b => b.addBond w W g1 g2
  | .pre W :: h => (run K w h).bind fun b => b.update W
  | .refresh W :: h => (run K w h).bind fun b => b.maybeUpdate W

/-- Spec: the bonds of a history: global ids, and the distance at the moment at which the bond was added. -/
noncomputable def bondsOf (w : Fin d → Option ℝ) : List (Op d) → List (ℕ × ℕ × ℝ)
  | [] => []
  | .add W g1 g2 :: h => bondsOf w h ++ [(g1, g2,
      mag (correct w (W.x ((W.lid g1).getD 0) - W.x ((W.lid g2).getD 0))))]
  | .pre _ :: h => bondsOf w h
  | .refresh _ :: h => bondsOf w h

/-- Spec: the force of a spring of strength `K` and rest length `r0` on the particle at the end `X` points to. -/
noncomputable def spring (K r0 : ℝ) (X : Fin d → ℝ) (k : Fin d) : ℝ := -(K * (mag X - r0)) * (X k / mag X)

/-- Spec: the force on particle `m` of bond `b` when the particles with global ids `b.1`, `b.2.1` have the local ids of
`lid`. -/
noncomputable def bondForce (K : ℝ) (w : Fin d → Option ℝ) (W : World d) (b : ℕ × ℕ × ℝ) (m : ℕ) (k : Fin d) : ℝ :=
  let i := (W.lid b.1).getD 0
  let j := (W.lid b.2.1).getD 0
  (if m = i then spring K b.2.2 (correct w (W.x i - W.x j)) k else 0) -
    (if m = j then spring K b.2.2 (correct w (W.x i - W.x j)) k else 0)

/-- Spec: length of a bond. -/
noncomputable def bondLength (w : Fin d → Option ℝ) (W : World d) (b : ℕ × ℕ × ℝ) : ℝ :=
  mag (correct w (W.x ((W.lid b.1).getD 0) - W.x ((W.lid b.2.1).getD 0)))

/-- Spec: all bonded particles exist. -/
def Present (W : World d) (bs : List (ℕ × ℕ × ℝ)) : Prop := ∀ b ∈ bs, (W.lid b.1).isSome ∧ (W.lid b.2.1).isSome

/-- Spec: all bonded particles are alive (not marked for removal). -/
def Live (W : World d) (bs : List (ℕ × ℕ × ℝ)) : Prop :=
  ∀ b ∈ bs, 0 ≤ W.type ((W.lid b.1).getD 0) ∧ 0 ≤ W.type ((W.lid b.2.1).getD 0)

/-- Spec: no two bonded particles are at the same place. -/
def Apart (w : Fin d → Option ℝ) (W : World d) (bs : List (ℕ × ℕ × ℝ)) : Prop := ∀ b ∈ bs, 0 < bondLength w W b

/-- Spec: the ids that the next loop uses are current: they were refreshed in this world, or they will be. -/
def Current (W : World d) (b : HB) : Prop :=
  W.remake = true ∨ (b.left = b.gleft.map W.lid ∧ b.right = b.gright.map W.lid)

/-! ## Lemmas -/

/-- What every reachable object satisfies. -/
structure Inv (b : HB) (K : ℝ) (bs : List (ℕ × ℕ × ℝ)) : Prop where
  k : b.K = K
  gl : b.gleft = bs.map (·.1)
  gr : b.gright = bs.map (·.2.1)
  ds : b.dist = bs.map (·.2.2)
  l : b.left.length = bs.length
  r : b.right.length = bs.length

theorem Inv.check {b : HB} {K : ℝ} {bs} (h : Inv b K bs) : b.check = true := by
  simp [HB.check, h.l, h.r, h.gl, h.gr]

theorem run_inv {K : ℝ} {w : Fin d → Option ℝ} (h : List (Op d)) {b : HB} (e : run K w h = some b) :
    Inv b K (bondsOf w h) := by
  induction h generalizing b with
  | nil => cases e; exact ⟨rfl, rfl, rfl, rfl, rfl, rfl⟩
  | cons o h ih =>
    cases o with
    | add W g1 g2 =>
      obtain ⟨b0, h0, h1⟩ := Option.bind_eq_some_iff.mp e
      have I := ih h0
      unfold HB.addBond at h1
      split at h1
      · rename_i i j hi hj
        cases h1
        simp only [bondsOf, hi, hj, Option.getD_some]
        exact ⟨I.k, by simp [I.gl], by simp [I.gr], by simp [I.ds], by simp [I.l], by simp [I.r]⟩
      · cases h1
    | pre W =>
      obtain ⟨b0, h0, h1⟩ := Option.bind_eq_some_iff.mp e
      have I := ih h0
      unfold HB.update at h1
      rw [if_pos I.check] at h1
      cases h1
      exact ⟨I.k, I.gl, I.gr, I.ds, by simp [I.gl, bondsOf], by simp [I.gr, bondsOf]⟩
    | refresh W =>
      obtain ⟨b0, h0, h1⟩ := Option.bind_eq_some_iff.mp e
      have I := ih h0
      unfold HB.maybeUpdate at h1
      split_ifs at h1
      · unfold HB.update at h1
        rw [if_pos I.check] at h1
        cases h1
        exact ⟨I.k, I.gl, I.gr, I.ds, by simp [I.gl, bondsOf], by simp [I.gr, bondsOf]⟩
      · cases h1; exact I

theorem maybeUpdate_current {W : World d} {b : HB} {K : ℝ} {bs} (I : Inv b K bs) (c : Current W b) :
    ∃ b', b.maybeUpdate W = some b' ∧ Inv b' K bs ∧ b'.left = bs.map (fun x => W.lid x.1) ∧
      b'.right = bs.map (fun x => W.lid x.2.1) := by
  unfold HB.maybeUpdate
  by_cases hr : W.remake
  · rw [if_pos hr]
    unfold HB.update
    rw [if_pos I.check]
    refine ⟨_, rfl, ⟨I.k, I.gl, I.gr, I.ds, by simp [I.gl], by simp [I.gr]⟩, ?_, ?_⟩
    · simp [I.gl, Function.comp_def]
    · simp [I.gr, Function.comp_def]
  · rw [if_neg hr]
    rcases c with c | ⟨c1, c2⟩
    · exact absurd c hr
    · exact ⟨b, rfl, I, by rw [c1, I.gl]; simp [Function.comp_def], by rw [c2, I.gr]; simp [Function.comp_def]⟩

theorem foldlM_range {α β : Type} (L : List β) (get : ℕ → Option β) (hg : ∀ i (h : i < L.length), get i = some L[i])
    (g : α → β → Option α) (a : α) :
    (List.range L.length).foldlM (fun a i => (get i).bind (g a)) a = L.foldlM g a := by
  induction L using List.reverseRecOn generalizing a with
  | nil => rfl
  | append_singleton L x ih =>
    rw [List.length_append, List.length_singleton, List.range_succ, List.foldlM_append, List.foldlM_append]
    rw [ih (fun i h => by rw [hg i (by simp; omega), List.getElem_append_left h])]
    congr 1
    funext a
    have hx : get L.length = some x := by rw [hg L.length (by simp)]; simp
    simp [hx]

/-- The bond list with local ids. -/
noncomputable def localised (W : World d) (bs : List (ℕ × ℕ × ℝ)) : List (ℕ × ℕ × ℝ) :=
  bs.map fun b => ((W.lid b.1).getD 0, (W.lid b.2.1).getD 0, b.2.2)

theorem loop_eq {W : World d} {b : HB} {K : ℝ} {bs} (I : Inv b K bs) (hl : b.left = bs.map (fun x => W.lid x.1))
    (hr : b.right = bs.map (fun x => W.lid x.2.1)) (hp : Present W bs) (step : Acc d → ℕ × ℕ × ℝ → Option (Acc d))
    (a : Acc d) : b.loop step bs.length a = (localised W bs).foldlM step a := by
  unfold HB.loop
  have : bs.length = (localised W bs).length := by simp [localised]
  rw [this]
  apply foldlM_range
  intro i hi
  have hi' : i < bs.length := by simpa [localised] using hi
  obtain ⟨p1, p2⟩ := hp bs[i] (List.getElem_mem hi')
  obtain ⟨u, hu⟩ := Option.isSome_iff_exists.mp p1
  obtain ⟨v, hv⟩ := Option.isSome_iff_exists.mp p2
  simp [HB.bond, hl, hr, I.ds, List.getElem?_eq_getElem hi', hu, hv, localised]

theorem addAt_apply (f : ℕ → Fin d → ℝ) (i : ℕ) (c : ℝ) (X : Fin d → ℝ) (m : ℕ) (k : Fin d) :
    addAt f i c X m k = f m k + if m = i then c * X k else 0 := by
  unfold addAt
  by_cases h : m = i
  · subst h; simp
  · rw [Function.update_of_ne h, if_neg h, add_zero]

theorem unit_eq (X : Fin d → ℝ) (k : Fin d) : unit X k = X k / mag X := by
  unfold unit mag
  by_cases h : 0 < dot X X
  · rw [if_pos h]; ring
  · rw [if_neg h]
    have h0 : dot X X = 0 := le_antisymm (not_lt.mp h) (sum_nonneg fun k _ => mul_self_nonneg _)
    rw [h0]; simp

theorem base_sum (K : ℝ) (w : Fin d → Option ℝ) (W : World d) (bs : List (ℕ × ℕ × ℝ)) (a : Acc d) :
    ∃ a', (localised W bs).foldlM (stepBase K w W) a = some a' ∧ a'.pot = a.pot ∧ a'.vir = a.vir ∧
      ∀ m k, a'.f m k = a.f m k + (bs.map fun b => bondForce K w W b m k).sum := by
  induction bs generalizing a with
  | nil => exact ⟨a, rfl, rfl, rfl, by simp⟩
  | cons b bs ih =>
    simp only [localised, List.map_cons, List.foldlM_cons]
    let V : Fin d → ℝ := fun k =>
      K * (mag (correct w (W.x ((W.lid b.1).getD 0) - W.x ((W.lid b.2.1).getD 0))) - b.2.2) *
        unit (correct w (W.x ((W.lid b.1).getD 0) - W.x ((W.lid b.2.1).getD 0))) k
    obtain ⟨a', h1, h2, h3, h4⟩ := ih (Acc.mk (addAt (addAt a.f ((W.lid b.1).getD 0) (-1) V) ((W.lid b.2.1).getD 0) 1 V)
      a.pot a.vir)
    refine ⟨a', ?_, h2, h3, ?_⟩
    · exact h1
    · intro m k
      rw [h4, List.sum_cons]
      simp only [addAt_apply, bondForce, spring, unit_eq, V]
      split_ifs <;> ring

theorem two_sum (K : ℝ) (doPot doVir : Bool) (w : Fin d → Option ℝ) (W : World d) (bs : List (ℕ × ℕ × ℝ)) (hl : Live W bs)
    (ha : Apart w W bs) (a : Acc d) :
    ∃ a', (localised W bs).foldlM (step2d K doPot doVir w W) a = some a' ∧
      a'.pot = a.pot + (if doPot then (bs.map fun b => K * (bondLength w W b - b.2.2) ^ 2).sum else 0) ∧
      a'.vir = a.vir + (if doVir then (bs.map fun b => K * (bondLength w W b - b.2.2) * bondLength w W b).sum else 0) ∧
      ∀ m k, a'.f m k = a.f m k + (bs.map fun b => bondForce K w W b m k).sum := by
  induction bs generalizing a with
  | nil => exact ⟨a, rfl, by simp, by simp, by simp⟩
  | cons b bs ih =>
    simp only [localised, List.map_cons, List.foldlM_cons]
    have hL := hl b (by simp)
    have hA := ha b (by simp)
    unfold bondLength mag at hA
    have hA := Real.sqrt_pos.mp hA
    let V : Fin d → ℝ := fun k => correct w (W.x ((W.lid b.1).getD 0) - W.x ((W.lid b.2.1).getD 0)) k *
      (K * (bondLength w W b - b.2.2) * (1 / bondLength w W b))
    have e : step2d K doPot doVir w W a ((W.lid b.1).getD 0, (W.lid b.2.1).getD 0, b.2.2) = some (Acc.mk
        (addAt (addAt a.f ((W.lid b.1).getD 0) (-1) V) ((W.lid b.2.1).getD 0) 1 V)
        (if doPot then a.pot + K * ((bondLength w W b - b.2.2) * (bondLength w W b - b.2.2)) else a.pot)
        (if doVir then a.vir + K * (bondLength w W b - b.2.2) * bondLength w W b else a.vir)) := by
      unfold step2d
      rw [if_neg (by simp only; omega)]
      simp only
      rw [if_neg hA.ne']
      rfl
    obtain ⟨a', h1, h2, h3, h4⟩ := ih (fun x hx => hl x (List.mem_cons_of_mem _ hx))
      (fun x hx => ha x (List.mem_cons_of_mem _ hx)) _
    refine ⟨a', ?_, ?_, ?_, ?_⟩
    · rw [e]; exact h1
    · rw [h2]; cases doPot <;> simp [pow_two, add_assoc]
    · rw [h3]; cases doVir <;> simp [add_assoc]
    · intro m k
      rw [h4, List.sum_cons]
      simp only [addAt_apply, bondForce, spring, bondLength, V]
      split_ifs <;> ring

theorem three_sum (K : ℝ) (doPot : Bool) (w : Fin d → Option ℝ) (W : World d) (bs : List (ℕ × ℕ × ℝ)) (hl : Live W bs)
    (ha : Apart w W bs) (a : Acc d) :
    ∃ a', (localised W bs).foldlM (step3d K doPot w W) a = some a' ∧
      a'.pot = a.pot + (if doPot then (bs.map fun b => 1/2 * K * (bondLength w W b - b.2.2) ^ 2).sum else 0) ∧
      a'.vir = a.vir ∧ ∀ m k, a'.f m k = a.f m k := by
  induction bs generalizing a with
  | nil => exact ⟨a, rfl, by simp, rfl, by simp⟩
  | cons b bs ih =>
    simp only [localised, List.map_cons, List.foldlM_cons]
    have hL := hl b (by simp)
    have hA := ha b (by simp)
    unfold bondLength mag at hA
    have hA := Real.sqrt_pos.mp hA
    let V : Fin d → ℝ := fun k => correct w (W.x ((W.lid b.1).getD 0) - W.x ((W.lid b.2.1).getD 0)) k *
      (K * (bondLength w W b - b.2.2) * (1 / bondLength w W b))
    have e : step3d K doPot w W a ((W.lid b.1).getD 0, (W.lid b.2.1).getD 0, b.2.2) = some (Acc.mk
        (addAt (addAt a.f ((W.lid b.1).getD 0) (-1) V) ((W.lid b.1).getD 0) 1 V)
        (if doPot then a.pot + 1/2 * K * ((bondLength w W b - b.2.2) * (bondLength w W b - b.2.2)) else a.pot)
        (a.vir)) := by
      unfold step3d
      rw [if_neg (by simp only; omega)]
      simp only
      rw [if_neg hA.ne']
      rfl
    obtain ⟨a', h1, h2, h3, h4⟩ := ih (fun x hx => hl x (List.mem_cons_of_mem _ hx))
      (fun x hx => ha x (List.mem_cons_of_mem _ hx)) _
    refine ⟨a', ?_, ?_, ?_, ?_⟩
    · rw [e]; exact h1
    · rw [h2]; cases doPot <;> simp [pow_two, add_assoc]
    · rw [h3]
    · intro m k
      rw [h4]
      simp only [addAt_apply]
      split_ifs <;> ring

/-! ## Properties of bonds -/

/-- The specification `spring` is Hooke's law: magnitude `|K*(r-r0)|`, along the bond, pulling (for `K>0`) exactly when the
bond is longer than its rest length. -/
theorem spring_hooke (K r0 : ℝ) (X : Fin d → ℝ) (hX : 0 < mag X) :
    mag (spring K r0 X) = |K * (mag X - r0)| ∧ dot (spring K r0 X) X = -(K * (mag X - r0)) * mag X := by
  have hsq : mag X * mag X = dot X X := Real.mul_self_sqrt (sum_nonneg fun k _ => mul_self_nonneg _)
  have e1 : dot (spring K r0 X) (spring K r0 X) = (K * (mag X - r0)) ^ 2 := by
    have : ∀ k, spring K r0 X k * spring K r0 X k = (K * (mag X - r0)) ^ 2 / (mag X * mag X) * (X k * X k) := by
      intro k; unfold spring; field_simp
    unfold dot
    rw [sum_congr rfl (fun k _ => this k), ← mul_sum]
    change _ * dot X X = _
    rw [← hsq]; field_simp
  constructor
  · rw [mag, e1, Real.sqrt_sq_eq_abs]
  · have : ∀ k, spring K r0 X k * X k = -(K * (mag X - r0)) / mag X * (X k * X k) := by
      intro k; unfold spring; field_simp
    rw [dot, sum_congr rfl (fun k _ => this k), ← mul_sum]
    change _ * dot X X = _
    rw [← hsq]; field_simp

theorem interact_base {K : ℝ} {w : Fin d → Option ℝ} {h : List (Op d)} {b : HB} (e : run K w h = some b) (W : World d)
    (hp : Present W (bondsOf w h)) (hc : Current W b) (f : ℕ → Fin d → ℝ) :
    ∃ b' a, b.interact w W f = some (b', a) ∧ Inv b' K (bondsOf w h) ∧
      b'.left = (bondsOf w h).map (fun x => W.lid x.1) ∧ b'.right = (bondsOf w h).map (fun x => W.lid x.2.1) ∧
      a.pot = 0 ∧ a.vir = 0 ∧ ∀ m k, a.f m k = f m k + ((bondsOf w h).map fun b => bondForce K w W b m k).sum := by
  have I := run_inv h e
  obtain ⟨b', e1, I', l', r'⟩ := maybeUpdate_current I hc
  obtain ⟨a, h1, h2, h3, h4⟩ := base_sum K w W (bondsOf w h) ⟨f, 0, 0⟩
  refine ⟨b', a, ?_, I', l', r', h2, h3, h4⟩
  unfold HB.interact
  rw [I.l, e1]
  simp only [Option.bind_some]
  rw [loop_eq I' l' r' hp, I'.k, h1]
  rfl

/-- **C39, forces of `HarmonicBond`.** After every history of calls, when all bonded particles exist and the ids are
current, `interact` is defined and adds to the force on each particle the sum of the spring forces of its bonds, with the
distance at the time of `addBond` as rest length, wherever the particles are stored by now.
Missing: the two-dimensional bond, energies, and particles marked or removed, see the negations of C39. -/
theorem C39_bond_forces_partial (K : ℝ) (w : Fin d → Option ℝ) (h : List (Op d)) (b : HB) (e : run K w h = some b) (W : World d)
    (hp : Present W (bondsOf w h)) (hc : Current W b) (f : ℕ → Fin d → ℝ) :
    ∃ b' a, b.interact w W f = some (b', a) ∧
      ∀ m k, a.f m k = f m k + ((bondsOf w h).map fun b => bondForce K w W b m k).sum := by
  obtain ⟨b', a, h1, _, _, _, _, _, h2⟩ := interact_base e W hp hc f
  exact ⟨b', a, h1, h2⟩

/-- `pre_integrate` makes the ids current and is defined for every history. -/
theorem C39_pre_integrate_current (K : ℝ) (w : Fin d → Option ℝ) (h : List (Op d)) (b : HB) (e : run K w h = some b)
    (W : World d) : ∃ b', b.update W = some b' ∧ Current W b' := by
  unfold HB.update
  rw [if_pos (run_inv h e).check]
  exact ⟨_, rfl, Or.inr ⟨rfl, rfl⟩⟩

/-- **C39, three dimensions.** `HarmonicBond_3d` adds the same spring forces, and its potential energy is
`1/2*K*(r-r0)²` summed over the bonds, of which the force is minus the derivative. -/
theorem C39_three_dimensions (K : ℝ) (w : Fin 3 → Option ℝ) (h : List (Op 3)) (b : HB) (e : run K w h = some b)
    (W : World 3) (hp : Present W (bondsOf w h)) (hl : Live W (bondsOf w h)) (ha : Apart w W (bondsOf w h))
    (hc : Current W b) (f : ℕ → Fin 3 → ℝ) (doPot : Bool) :
    ∃ b' a, b.interact3d doPot w W f = some (b', a) ∧
      (∀ m k, a.f m k = f m k + ((bondsOf w h).map fun b => bondForce K w W b m k).sum) ∧
      a.pot = (if doPot then ((bondsOf w h).map fun b => 1/2 * K * (bondLength w W b - b.2.2) ^ 2).sum else 0) ∧
      ∀ r0 r, HasDerivAt (fun r => 1/2 * K * (r - r0) ^ 2) (K * (r - r0)) r := by
  obtain ⟨b', a, h1, I, l, r, p0, _, h2⟩ := interact_base e W hp hc f
  have hc' : Current W b' := Or.inr ⟨by rw [l, I.gl]; simp [Function.comp_def], by rw [r, I.gr]; simp [Function.comp_def]⟩
  obtain ⟨b2, e2, I2, l2, r2⟩ := maybeUpdate_current I hc'
  obtain ⟨a2, g1, g2, g3, g4⟩ := three_sum K doPot w W (bondsOf w h) hl ha a
  refine ⟨b2, a2, ?_, ?_, ?_, ?_⟩
  · unfold HB.interact3d
    rw [h1]
    simp only [Option.bind_some, ne_eq, not_true_eq_false, if_false]
    rw [e2, I.l]
    simp only [Option.bind_some]
    rw [loop_eq I2 l2 r2 hp, I2.k, g1]
    rfl
  · intro m k; rw [g4, h2]
  · rw [g2, p0, zero_add]
  · intro r0 r
    have := (((hasDerivAt_id r).sub_const r0).fun_pow 2).const_mul (1/2 * K)
    refine this.congr_deriv ?_
    simp only [id]
    push_cast
    ring

/-- **C39 is false of `HarmonicBond_2d`.** It calls the version of its base class, which adds the spring forces, and then
adds them again: for all states the forces are exactly twice those of a spring of constant `K`. The potential energy is
that of the doubled force. -/
theorem C39_negation_two_dimensions (K : ℝ) (w : Fin 2 → Option ℝ) (h : List (Op 2)) (b : HB) (e : run K w h = some b)
    (W : World 2) (hp : Present W (bondsOf w h)) (hl : Live W (bondsOf w h)) (ha : Apart w W (bondsOf w h))
    (hc : Current W b) (f : ℕ → Fin 2 → ℝ) (doPot doVir : Bool) :
    ∃ b' a, b.interact2d doPot doVir w W f = some (b', a) ∧
      (∀ m k, a.f m k = f m k + 2 * ((bondsOf w h).map fun b => bondForce K w W b m k).sum) ∧
      a.pot = (if doPot then ((bondsOf w h).map fun b => K * (bondLength w W b - b.2.2) ^ 2).sum else 0) ∧
      a.vir = (if doVir then ((bondsOf w h).map fun b => K * (bondLength w W b - b.2.2) * bondLength w W b).sum else 0) ∧
      ∀ r0 r, HasDerivAt (fun r => K * (r - r0) ^ 2) (2 * (K * (r - r0))) r := by
  obtain ⟨b', a, h1, I, l, r, p0, v0, h2⟩ := interact_base e W hp hc f
  have hc' : Current W b' := Or.inr ⟨by rw [l, I.gl]; simp [Function.comp_def], by rw [r, I.gr]; simp [Function.comp_def]⟩
  obtain ⟨b2, e2, I2, l2, r2⟩ := maybeUpdate_current I hc'
  obtain ⟨a2, g1, g2, g3, g4⟩ := two_sum K doPot doVir w W (bondsOf w h) hl ha a
  refine ⟨b2, a2, ?_, ?_, ?_, ?_, ?_⟩
  · unfold HB.interact2d
    rw [h1]
    simp only [Option.bind_some, ne_eq, not_true_eq_false, if_false]
    rw [e2, I.l]
    simp only [Option.bind_some]
    rw [loop_eq I2 l2 r2 hp, I2.k, g1]
    rfl
  · intro m k; rw [g4, h2]; ring
  · rw [g2, p0, zero_add]
  · rw [g3, v0, zero_add]
  · intro r0 r
    have := (((hasDerivAt_id r).sub_const r0).fun_pow 2).const_mul K
    refine this.congr_deriv ?_
    simp only [id]
    push_cast
    ring

theorem bondForce_sum (K : ℝ) (w : Fin d → Option ℝ) (W : World d) (b : ℕ × ℕ × ℝ) (s : Finset ℕ)
    (h1 : (W.lid b.1).getD 0 ∈ s) (h2 : (W.lid b.2.1).getD 0 ∈ s) (k : Fin d) : ∑ m ∈ s, bondForce K w W b m k = 0 := by
  simp only [bondForce, sum_sub_distrib, sum_ite_eq', h1, h2, if_true, sub_self]

theorem bondForces_sum (K : ℝ) (w : Fin d → Option ℝ) (W : World d) (bs : List (ℕ × ℕ × ℝ)) (s : Finset ℕ)
    (hs : ∀ b ∈ bs, (W.lid b.1).getD 0 ∈ s ∧ (W.lid b.2.1).getD 0 ∈ s) (k : Fin d) :
    ∑ m ∈ s, (bs.map fun b => bondForce K w W b m k).sum = 0 := by
  induction bs with
  | nil => simp
  | cons b bs ih =>
    simp only [List.map_cons, List.sum_cons, sum_add_distrib]
    rw [bondForce_sum K w W b s (hs b (by simp)).1 (hs b (by simp)).2,
      ih (fun x hx => hs x (List.mem_cons_of_mem _ hx)), add_zero]

/-- **C39, third law.** `HarmonicBond` leaves the total force on every set of particles that contains the bonded ones
unchanged. -/
theorem C39_total_force (K : ℝ) (w : Fin d → Option ℝ) (h : List (Op d)) (b : HB) (e : run K w h = some b) (W : World d)
    (hp : Present W (bondsOf w h)) (hc : Current W b) (f : ℕ → Fin d → ℝ) (s : Finset ℕ)
    (hs : ∀ b ∈ bondsOf w h, (W.lid b.1).getD 0 ∈ s ∧ (W.lid b.2.1).getD 0 ∈ s) :
    ∃ b' a, b.interact w W f = some (b', a) ∧ ∀ k, ∑ m ∈ s, a.f m k = ∑ m ∈ s, f m k := by
  obtain ⟨b', a, h1, h2⟩ := C39_bond_forces_partial K w h b e W hp hc f
  refine ⟨b', a, h1, ?_⟩
  intro k
  rw [sum_congr rfl (fun m _ => h2 m k), sum_add_distrib, bondForces_sum K w W _ s hs, add_zero]

/-- A world with `n` particles on a line, at `c*i`, where global and local ids agree. -/
noncomputable def line (c : ℝ) (d : ℕ) : World d := ⟨fun i _ => c * i, fun _ => 0, fun g => some g, true⟩

/-- The hypotheses are met by a bond between two particles that have moved since it was added; the rest length is 1 and
the length is 2. -/
example : ∃ b, run 7 (fun _ : Fin 1 => none) [.add (line 1 1) 0 1] = some b ∧
    Present (line 2 1) (bondsOf (fun _ => none) [.add (line 1 1) 0 1]) ∧
    Live (line 2 1) (bondsOf (fun _ => none) [.add (line 1 1) 0 1]) ∧
    Apart (fun _ => none) (line 2 1) (bondsOf (fun _ => none) [.add (line 1 1) 0 1]) ∧ Current (line 2 1) b ∧
    bondForce 7 (fun _ => none) (line 2 1) (0, 1, 1) 0 0 = 7 := by
  refine ⟨_, rfl, ?_, ?_, ?_, Or.inl rfl, ?_⟩
  · intro b hb; simp [line]
  · intro b hb; simp [line]
  · intro b hb
    simp [bondsOf] at hb
    subst hb
    simp [bondLength, mag, line, dot, correct]
  · simp [bondForce, spring, mag, line, dot, correct]
    norm_num

/-- **C39 is false of bonds with a marked particle.** The loop of the base class does not look at the types: a bond of
`HarmonicBond_2d` one of whose ends is marked for removal still pulls with the force of a spring of constant `K`. -/
theorem C39_negation_marked (K : ℝ) (w : Fin 2 → Option ℝ) (h : List (Op 2)) (b : HB) (e : run K w h = some b)
    (W : World 2) (hp : Present W (bondsOf w h)) (hc : Current W b) (f : ℕ → Fin 2 → ℝ) (doPot doVir : Bool)
    (hdead : ∀ b ∈ bondsOf w h, W.type ((W.lid b.1).getD 0) < 0 ∨ W.type ((W.lid b.2.1).getD 0) < 0) :
    ∃ b' a, b.interact2d doPot doVir w W f = some (b', a) ∧ a.pot = 0 ∧
      ∀ m k, a.f m k = f m k + ((bondsOf w h).map fun b => bondForce K w W b m k).sum := by
  obtain ⟨b', a, h1, I, l, r, p0, v0, h2⟩ := interact_base e W hp hc f
  have hc' : Current W b' := Or.inr ⟨by rw [l, I.gl]; simp [Function.comp_def], by rw [r, I.gr]; simp [Function.comp_def]⟩
  obtain ⟨b2, e2, I2, l2, r2⟩ := maybeUpdate_current I hc'
  have skip : ∀ (bs : List (ℕ × ℕ × ℝ)),
      (∀ b ∈ bs, W.type ((W.lid b.1).getD 0) < 0 ∨ W.type ((W.lid b.2.1).getD 0) < 0) →
      (localised W bs).foldlM (step2d K doPot doVir w W) a = some a := by
    intro bs
    induction bs with
    | nil => intro _; rfl
    | cons x bs ih =>
      intro hx
      simp only [localised, List.map_cons, List.foldlM_cons]
      have : step2d K doPot doVir w W a ((W.lid x.1).getD 0, (W.lid x.2.1).getD 0, x.2.2) = some a := by
        unfold step2d
        rw [if_pos (hx x (by simp))]
      rw [this]
      exact ih (fun y hy => hx y (List.mem_cons_of_mem _ hy))
  refine ⟨b2, a, ?_, p0, h2⟩
  unfold HB.interact2d
  rw [h1]
  simp only [Option.bind_some, ne_eq, not_true_eq_false, if_false]
  rw [e2, I.l]
  simp only [Option.bind_some]
  rw [loop_eq I2 l2 r2 hp, I2.k, skip _ hdead]
  rfl

/-- **C39 is false once a bonded particle has been removed**: the refresh stores -1 and the next loop reads outside of the
arrays. -/
theorem C39_negation_removed (K : ℝ) (w : Fin d → Option ℝ) (h : List (Op d)) (b : HB) (e : run K w h = some b)
    (W : World d) (hr : W.remake = true) (x : ℕ × ℕ × ℝ) (hx : x ∈ bondsOf w h)
    (hgone : W.lid x.1 = none ∨ W.lid x.2.1 = none) (f : ℕ → Fin d → ℝ) : b.interact w W f = none := by
  have I := run_inv h e
  obtain ⟨b', e1, I', l', r'⟩ := maybeUpdate_current I (Or.inl hr)
  unfold HB.interact
  rw [e1]
  simp only [Option.bind_some, Option.map_eq_none_iff]
  obtain ⟨n, hn, hxn⟩ := List.getElem_of_mem hx
  have hb : b'.bond n = none := by
    unfold HB.bond
    rw [l', r']
    simp only [List.getElem?_map, List.getElem?_eq_getElem hn, hxn, Option.map_some]
    rcases hgone with hg | hg
    · rw [hg]
    · rw [hg]
      cases W.lid x.1 <;> rfl
  have gen : ∀ m, n < m → ∀ a : Acc d, b'.loop (stepBase b'.K w W) m a = none := by
    intro m
    induction m with
    | zero => intro h; omega
    | succ m ih =>
      intro hm a
      unfold HB.loop
      rw [List.range_succ, List.foldlM_append]
      by_cases hnm : n < m
      · have := ih hnm a
        unfold HB.loop at this
        rw [this]; rfl
      · have : n = m := by omega
        subst this
        cases h : List.foldlM (fun a i => (b'.bond i).bind (stepBase b'.K w W a)) a (List.range n) with
        | none => rfl
        | some a1 => simp [hb]
  rw [I.l]
  exact gen _ hn _

/-- **The virial of `HarmonicBond_2d` has the wrong sign and size.** For a bond, force times displacement is
`-2*K*(r-r0)*r` (compare C69); the object adds `K*(r-r0)*r` (see `C39_negation_two_dimensions`). They agree only at rest. -/
theorem C39_negation_virial (K r0 : ℝ) (X : Fin 2 → ℝ) (hX : 0 < mag X) (hK : K ≠ 0) :
    dot (fun k => 2 * spring K r0 X k) X = K * (mag X - r0) * mag X ↔ mag X = r0 := by
  have e : dot (fun k => 2 * spring K r0 X k) X = 2 * dot (spring K r0 X) X := by
    unfold dot; rw [mul_sum]; exact sum_congr rfl (fun k _ => by ring)
  rw [e, (spring_hooke K r0 X hX).2]
  constructor
  · intro h
    have h3 : (3 * K * mag X) * (mag X - r0) = 0 := by linear_combination -h
    rcases mul_eq_zero.mp h3 with h4 | h4
    · have : K * mag X ≠ 0 := mul_ne_zero hK hX.ne'
      exact absurd (by linear_combination h4 / 3) this
    · linarith
  · intro h; rw [h]; ring

/-! ## Chains -/

/-- `HarmonicChain`, `bonded/harmonic-chain.hpp`. -/
structure Chain where
  K : ℝ
  gids : List ℕ
  lids : List (Option ℕ)
  dist : List ℝ

/-- `HarmonicChain::addAtom`, `bonded/harmonic-chain.cpp:9-28`. For the first atom the global id is stored as local id. -/
noncomputable def Chain.addAtom (w : Fin d → Option ℝ) (W : World d) (c : Chain) (g : ℕ) : Option Chain :=
  match c.gids.getLast? with
  | none => some { c with lids := c.lids ++ [some g], gids := c.gids ++ [g] }
  | some g1 =>
    match W.lid g1, W.lid g with
    | some i, some j => some { c with gids := c.gids ++ [g], lids := c.lids ++ [some j],
                                      dist := c.dist ++ [mag (correct w (W.x i - W.x j))] }
    | _, _ => none

/-- `HarmonicChain::updateLocalIDs`, `bonded/harmonic-chain.cpp:60-69`. -/
def Chain.update (W : World d) (c : Chain) : Chain := { c with lids := c.gids.map W.lid }

/-- Entries of the loop, `bonded/harmonic-chain.cpp:42-49`. -/
def Chain.bond (c : Chain) (n : ℕ) : Option (ℕ × ℕ × ℝ) :=
  match c.lids[n]?, c.lids[n+1]?, c.dist[n]? with
  | some (some i), some (some j), some r0 => some (i, j, r0)
  | _, _, _ => none

/-- `HarmonicChain::interact`, `bonded/harmonic-chain.cpp:34-58`. -/
noncomputable def Chain.interact (w : Fin d → Option ℝ) (W : World d) (c : Chain) (a : Acc d) : Option (Acc d) :=
  let c := if W.remake then c.update W else c
  (List.range (c.lids.length - 1)).foldlM (fun a i => (c.bond i).bind (stepBase c.K w W a)) a

/-- The chain after atoms were added one by one, newest first. -/
noncomputable def Chain.build (K : ℝ) (w : Fin d → Option ℝ) : List (World d × ℕ) → Option Chain
  | [] => some ⟨K, [], [], []⟩
  | (W, g) :: h => (Chain.build K w h).bind fun c => c.addAtom w W g

/-- Spec: the bonds between consecutive atoms. -/
noncomputable def chainBonds (w : Fin d → Option ℝ) : List (World d × ℕ) → List (ℕ × ℕ × ℝ)
  | (W, g) :: (W', g') :: h => chainBonds w ((W', g') :: h) ++
      [(g', g, mag (correct w (W.x ((W.lid g').getD 0) - W.x ((W.lid g).getD 0))))]
  | _ => []

theorem chain_inv {K : ℝ} {w : Fin d → Option ℝ} (h : List (World d × ℕ)) {c : Chain} (e : Chain.build K w h = some c) :
    c.K = K ∧ c.gids = (h.map (·.2)).reverse ∧ c.lids.length = h.length ∧ c.dist = (chainBonds w h).map (·.2.2) := by
  induction h generalizing c with
  | nil => cases e; exact ⟨rfl, rfl, rfl, rfl⟩
  | cons o h ih =>
    obtain ⟨W, g⟩ := o
    obtain ⟨c0, h0, h1⟩ := Option.bind_eq_some_iff.mp e
    obtain ⟨i1, i2, i3, i4⟩ := ih h0
    cases h with
    | nil =>
      cases h0
      cases h1
      exact ⟨rfl, rfl, rfl, rfl⟩
    | cons o' h =>
      obtain ⟨W', g'⟩ := o'
      have hl : c0.gids.getLast? = some g' := by rw [i2]; simp
      unfold Chain.addAtom at h1
      rw [hl] at h1
      simp only at h1
      split at h1
      · rename_i i j hi hj
        cases h1
        refine ⟨i1, ?_, ?_, ?_⟩
        · simp [i2]
        · simp [i3]
        · simp [i4, chainBonds, hi, hj]
      · cases h1

theorem chainBonds_get (w : Fin d → Option ℝ) (h : List (World d × ℕ)) :
    (chainBonds w h).length = h.length - 1 ∧ ∀ n (hn : n < (chainBonds w h).length),
      (h.map (·.2)).reverse[n]? = some (chainBonds w h)[n].1 ∧
      (h.map (·.2)).reverse[n+1]? = some (chainBonds w h)[n].2.1 := by
  induction h with
  | nil => exact ⟨rfl, fun n hn => absurd hn (by simp [chainBonds])⟩
  | cons o h ih =>
    obtain ⟨W, g⟩ := o
    cases h with
    | nil => exact ⟨rfl, fun n hn => absurd hn (by simp [chainBonds])⟩
    | cons o' h =>
      obtain ⟨W', g'⟩ := o'
      obtain ⟨l, gt⟩ := ih
      simp only [List.length_cons, Nat.add_sub_cancel] at l
      refine ⟨by simp [chainBonds, l], ?_⟩
      intro n hn
      have hn' : n < h.length + 1 := by simpa [chainBonds, l] using hn
      rw [List.map_cons, List.reverse_cons]
      have hlen : ((List.map (fun x : World d × ℕ => x.2) ((W', g') :: h)).reverse).length = h.length + 1 := by simp
      by_cases hlt : n < h.length
      · obtain ⟨q1, q2⟩ := gt n (by rw [l]; exact hlt)
        simp only [chainBonds]
        rw [List.getElem_append_left (by rw [l]; exact hlt)]
        rw [List.getElem?_append_left (by rw [hlen]; omega), List.getElem?_append_left (by rw [hlen]; omega)]
        exact ⟨q1, q2⟩
      · have : n = h.length := by omega
        subst this
        simp only [chainBonds]
        rw [List.getElem_append_right (by rw [l])]
        rw [List.getElem?_append_left (by rw [hlen]; omega), List.getElem?_append_right (by rw [hlen])]
        simp [l]

/-- **C39, chains.** For every chain built atom by atom, when the ids are refreshed at the start of `interact` and all atoms
exist, each particle gets the sum of the spring forces of the bonds between consecutive atoms, with the distance at the
time of adding as rest length. -/
theorem C39_chain_forces (K : ℝ) (w : Fin d → Option ℝ) (h : List (World d × ℕ)) (c : Chain)
    (e : Chain.build K w h = some c) (W : World d) (hr : W.remake = true) (hp : ∀ o ∈ h, (W.lid o.2).isSome) (a : Acc d) :
    ∃ a', c.interact w W a = some a' ∧
      ∀ m k, a'.f m k = a.f m k + ((chainBonds w h).map fun b => bondForce K w W b m k).sum := by
  obtain ⟨i1, i2, i3, i4⟩ := chain_inv h e
  obtain ⟨l, gt⟩ := chainBonds_get w h
  obtain ⟨a', h1, _, _, h4⟩ := base_sum K w W (chainBonds w h) a
  refine ⟨a', ?_, h4⟩
  unfold Chain.interact
  simp only [hr, if_true]
  have hlen : (c.update W).lids.length - 1 = (localised W (chainBonds w h)).length := by
    simp [Chain.update, i2, localised, l]
  rw [hlen, foldlM_range (localised W (chainBonds w h)) (c.update W).bond]
  · change List.foldlM (stepBase c.K w W) a _ = _
    rw [i1]; exact h1
  · intro n hn
    have hn' : n < (chainBonds w h).length := by simpa [localised] using hn
    obtain ⟨g1, g2⟩ := gt n hn'
    have pr : ∀ (m g : ℕ), (h.map (·.2)).reverse[m]? = some g → (W.lid g).isSome := by
      intro m g hg
      have := List.mem_of_getElem? hg
      rw [List.mem_reverse, List.mem_map] at this
      obtain ⟨o, ho, rfl⟩ := this
      exact hp o ho
    obtain ⟨u, hu⟩ := Option.isSome_iff_exists.mp (pr _ _ g1)
    obtain ⟨v, hv⟩ := Option.isSome_iff_exists.mp (pr _ _ g2)
    unfold Chain.bond
    simp only [Chain.update, i2, List.getElem?_map, g1, g2, Option.map_some, i4, List.getElem?_eq_getElem hn', hu, hv]
    simp [localised, hu, hv]

/-- A world in which global id `g` has local id `g - 5`. -/
noncomputable def shifted (c : ℝ) (r : Bool) : World 1 :=
  ⟨fun i _ => c * i, fun _ => 0, fun g => if 5 ≤ g then some (g - 5) else none, r⟩

/-- The hypotheses of `C39_chain_forces` are met by a chain of three atoms. -/
example : ∃ c, Chain.build 1 (fun _ : Fin 1 => none) [(shifted 1 true, 7), (shifted 1 true, 6), (shifted 1 true, 5)] = some c ∧
    ∀ o ∈ [(shifted 1 true, 7), (shifted 1 true, 6), (shifted 1 true, 5)], ((shifted 1 true).lid o.2).isSome := by
  refine ⟨_, rfl, ?_⟩
  intro o ho
  simp at ho
  rcases ho with rfl | rfl | rfl <;> simp [shifted]

/-- **C39 is false of a chain whose ids were not refreshed.** The first atom is stored with its global id as local id: here
the atoms with global ids 5 and 6 have local ids 0 and 1, and `interact` pulls particle 5, which is not in the chain, and
leaves particle 0 alone. -/
theorem C39_negation_chain_first_atom : ∃ (c : Chain) (a : Acc 1),
    Chain.build 1 (fun _ : Fin 1 => none) [(shifted 1 false, 6), (shifted 1 false, 5)] = some c ∧
    c.interact (fun _ => none) (shifted 2 false) ⟨fun _ _ => 0, 0, 0⟩ = some a ∧ a.f 0 0 = 0 ∧ a.f 5 0 ≠ 0 := by
  refine ⟨⟨1, [5, 6], [some 5, some 1], [1]⟩, _, ?_, rfl, ?_, ?_⟩
  · simp [Chain.build, Chain.addAtom, shifted, mag, dot, correct]
  · simp [addAt_apply]
  · simp [addAt_apply, unit_eq, mag, dot, correct, shifted]
    norm_num

end Verif.Bonds
