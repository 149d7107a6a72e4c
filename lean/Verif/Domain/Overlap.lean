import Verif.Domain.CellsWitness
import Mathlib.Analysis.Real.Sqrt
import Mathlib.Data.List.Basic

/-!
# Removal of overlapping particles (C104)

Models `InteractionHandler::removeOverlapping` (`base/interactionhandler.cpp:201-213`) together with the traversal of `Domain`
(`domains/domain.cpp:98-199`) while particles are being marked: `markForRemoval` (`base/simdata.tpp:78-94`) changes the type and the position that
the rest of the traversal reads. Reading an array at the type `-1` is undefined behaviour (`none`).
-/

set_option linter.unusedSectionVars false

namespace Verif.Cells
open Verif.Grid Verif.Stencil

section model
variable {K : Type*} [Field K] [LinearOrder K] [IsStrictOrderedRing K] [FloorRing K]

/-- `markForRemoval<0>(id)`, `base/simdata.tpp:78-94`, as seen by the traversal. -/
def kill (T : Sys K) (j : ℕ) : Sys K :=
  if T.type j < 0 then T
  else { T with type := Function.update T.type j (-1), x := Function.update T.x j ((T.x j).set 0 (-1000000)) }

/-- The test `overlap/min(r1, r2) > factor` with `overlap = r1 + r2 - sqrt(rsqr)`, `base/interactionhandler.cpp:207-208`, written without the
root (`tooClose_iff`). -/
def tooClose (factor r1 r2 q : K) : Prop := 0 < r1 + r2 - factor * min r1 r2 ∧ q < (r1 + r2 - factor * min r1 r2) ^ 2

instance (factor r1 r2 q : K) : Decidable (tooClose factor r1 r2 q) := by unfold tooClose; infer_instance

/-- The body passed to the traversal, `base/interactionhandler.cpp:206-209`. `im` is the inverse mass. -/
def overlapBody (factor : K) (im : ℕ → K) (T : Sys K) (i j : ℕ) (r1 r2 q : K) : Sys K :=
  if tooClose factor r1 r2 q ∧ 0 < im i then kill T j else T

/-- A pair in the same cell, `domains/domain.cpp:132-140`. `ti` is the type of `i` when its loop began. -/
def dynInCell (factor : K) (im : ℕ → K) (i : ℕ) (ti : ℤ) (T : Sys K) (j : ℕ) : Option (Sys K) :=
  if T.type i < 0 then some T
  else if T.type j < 0 then none
  else if T.sigma j > T.mss then some T
  else if distSq (T.x i) (T.x j) < (T.rd i + T.rd j * T.cut ti (T.type j) + T.skin) ^ 2 then
    some (overlapBody factor im T i j (T.rd i) (T.rd j) (distSq (T.x i) (T.x j)))
  else some T

/-- A pair in adjacent cells, `domains/domain.cpp:143-152`. -/
def dynAdjacent (factor : K) (im : ℕ → K) (i : ℕ) (ti : ℤ) (T : Sys K) (j : ℕ) : Option (Sys K) :=
  if T.type j < 0 then some T
  else if T.sigma j > T.mss then some T
  else if distSq (T.x i) (T.x j) < ((T.rd i + T.rd j) * T.cut ti (T.type j) + T.skin) ^ 2 then
    some (overlapBody factor im T i j (T.rd i) (T.rd j) (distSq (T.x i) (T.x j)))
  else if distSq (T.x i) (T.x j) > maxReasonable T.g then
    some (overlapBody factor im T i j (T.rd i) (T.rd j) (distSq (T.x i) (T.x j)))
  else some T

/-- A pair found by the search of a large particle, `domains/domain.cpp:185-194`. `s1` is `sigma1`. -/
def dynLarge (factor : K) (im : ℕ → K) (i : ℕ) (ti : ℤ) (s1 : K) (T : Sys K) (j : ℕ) : Option (Sys K) :=
  if i = j ∨ T.rd j > s1 then some T
  else if T.type j < 0 then none
  else if distSq (T.x i) (T.x j) < ((s1 + T.rd j) * T.cut ti (T.type j) + T.skin) ^ 2 then
    some (overlapBody factor im T i j s1 (T.rd j) (distSq (T.x i) (T.x j)))
  else if maxReasonable T.g < distSq (T.x i) (T.x j) then
    some (overlapBody factor im T i j s1 (T.rd j) (distSq (T.x i) (T.x j)))
  else some T

/-- The work for one first particle, `domains/domain.cpp:122-197`. The cells were filled in the state `S`; `rest` are the particles after `i`
in its cell `c`. -/
def dynParticle (factor : K) (im : ℕ → K) (S : Sys K) (c i : ℕ) (rest : List ℕ) (T : Sys K) : Option (Sys K) :=
  if T.type i < 0 then some T
  else if T.sigma i ≤ T.mss then
    (rest.foldlM (dynInCell factor im i (T.type i)) T).bind fun T' =>
      (S.adj c).foldlM (fun U d => (S.cell d).foldlM (dynAdjacent factor im i (T.type i)) U) T'
  else
    (window T.g (T.largeSearch i) (rawTuple T.g (T.x i))).foldlM
      (fun U d => (S.cell d).foldlM (dynLarge factor im i (T.type i) (T.sigma i)) U) T

/-- The loop over the particles of a cell. -/
def dynCell (factor : K) (im : ℕ → K) (S : Sys K) (c : ℕ) : List ℕ → Sys K → Option (Sys K)
  | [], T => some T
  | i :: rest, T => (dynParticle factor im S c i rest T).bind (dynCell factor im S c rest)

/-- The traversal with marking, up to the final `doParticleRemoval`, `base/interactionhandler.cpp:201-213`. -/
def removeOverlapping (factor : K) (im : ℕ → K) (S : Sys K) : Option (Sys K) :=
  (List.range S.dims.prod).foldlM (fun T c => dynCell factor im S c (S.cell c) T) S

end model

/-! ## The test -/

/-- The sqrt-free test is the test of the code. -/
theorem tooClose_iff (factor r1 r2 q : ℝ) (h1 : 0 < r1) (h2 : 0 < r2) :
    tooClose factor r1 r2 q ↔ factor < (r1 + r2 - Real.sqrt q) / min r1 r2 := by
  have hm : 0 < min r1 r2 := lt_min h1 h2
  rw [lt_div_iff₀ hm, tooClose]
  constructor
  · rintro ⟨a, b⟩
    have := (Real.sqrt_lt' a).mpr b
    linarith
  · intro h
    have h3 := Real.sqrt_nonneg q
    have h4 : 0 < r1 + r2 - factor * min r1 r2 := by linarith
    exact ⟨h4, (Real.sqrt_lt' h4).mp (by linarith)⟩

section proofs
variable {K : Type*} [Field K] [LinearOrder K] [IsStrictOrderedRing K] [FloorRing K]

theorem tooClose_comm (f r1 r2 q : K) : tooClose f r1 r2 q ↔ tooClose f r2 r1 q := by
  simp only [tooClose, min_comm r1 r2, add_comm r1 r2]

theorem tooClose_contact {f r1 r2 q : K} (hf : 0 ≤ f) (h1 : 0 ≤ r1) (h2 : 0 ≤ r2) (h : tooClose f r1 r2 q) : q < (r1 + r2) ^ 2 := by
  obtain ⟨a, b⟩ := h
  have := mul_nonneg hf (le_min h1 h2)
  exact lt_of_lt_of_le b (pow_le_pow_left₀ a.le (by linarith) 2)

/-- Reachable from `S` by marking, as far as the traversal is concerned: particles are as in `S` or marked; only particles that are too close to
another movable one are marked; a live one is left. -/
structure Reach (factor : K) (im : ℕ → K) (S T : Sys K) : Prop where
  frame : T = { S with x := T.x, type := T.type }
  same : ∀ k, 0 ≤ T.type k → T.type k = S.type k ∧ T.x k = S.x k
  why : ∀ k, T.type k < 0 → 0 ≤ S.type k →
    ∃ i, S.Live i ∧ i ≠ k ∧ 0 < im i ∧ tooClose factor (S.rd i) (S.rd k) (distSq (S.x i) (S.x k))
  left : (∃ i, S.Live i) → ∃ i, S.Live i ∧ 0 ≤ T.type i

theorem Reach.refl (factor : K) (im : ℕ → K) (S : Sys K) : Reach factor im S S :=
  ⟨rfl, fun _ _ => ⟨rfl, rfl⟩, fun _ h h' => absurd h (not_lt.mpr h'), fun ⟨i, h⟩ => ⟨i, h, h.2.1⟩⟩

/-- `T` has at least the marks of `U`. -/
def Later (U T : Sys K) : Prop := ∀ k, U.type k < 0 → T.type k < 0

theorem kill_later (T : Sys K) (j : ℕ) : Later T (kill T j) := by
  intro k h
  unfold kill
  split_ifs
  · exact h
  · by_cases hk : k = j
    · subst hk; simp
    · simp [Function.update_of_ne hk, h]

theorem kill_type (T : Sys K) (j : ℕ) : (kill T j).type j < 0 := by
  unfold kill
  split_ifs with h
  · exact h
  · simp

/-- One call of the body for live, unmarked, different particles. -/
theorem body_reach {factor : K} {im : ℕ → K} {S T : Sys K} (h : Reach factor im S T) {i j : ℕ} (hij : i ≠ j) (hi : S.Live i)
    (ti : 0 ≤ T.type i) (tj : 0 ≤ T.type j) :
    Reach factor im S (overlapBody factor im T i j (T.rd i) (T.rd j) (distSq (T.x i) (T.x j))) ∧
    Later T (overlapBody factor im T i j (T.rd i) (T.rd j) (distSq (T.x i) (T.x j))) ∧
    (0 < im i → tooClose factor (S.rd i) (S.rd j) (distSq (S.x i) (S.x j)) →
      (overlapBody factor im T i j (T.rd i) (T.rd j) (distSq (T.x i) (T.x j))).type j < 0) := by
  have hrd : T.rd = S.rd := by rw [h.frame]
  rw [hrd, (h.same i ti).2, (h.same j tj).2]
  unfold overlapBody
  split_ifs with hc
  · refine ⟨⟨?_, ?_, ?_, ?_⟩, kill_later T j, fun _ _ => kill_type T j⟩
    · conv_lhs => rw [kill, if_neg (not_lt.mpr tj), h.frame]
      simp only [kill, if_neg (not_lt.mpr tj)]
    · intro k hk
      have hkj : k ≠ j := fun e => absurd (kill_type T j) (not_lt.mpr (e ▸ hk))
      simp only [kill, if_neg (not_lt.mpr tj), Function.update_of_ne hkj] at hk ⊢
      exact h.same k hk
    · intro k hk hs
      by_cases hkj : k = j
      · subst hkj; exact ⟨i, hi, hij, hc.2, hc.1⟩
      · simp only [kill, if_neg (not_lt.mpr tj), Function.update_of_ne hkj] at hk
        exact h.why k hk hs
    · intro _
      refine ⟨i, hi, ?_⟩
      simp only [kill, if_neg (not_lt.mpr tj), Function.update_of_ne hij]
      exact ti
  · refine ⟨h, fun _ h => h, fun h1 h2 => absurd ⟨h2, h1⟩ hc⟩

/-- A step of the traversal: keeps the invariant. -/
def Good (factor : K) (im : ℕ → K) (S : Sys K) (P : Sys K → Prop) (f : Sys K → Option (Sys K)) : Prop :=
  ∀ T U, Reach factor im S T → P T → f T = some U → Reach factor im S U ∧ Later T U ∧ P U

theorem foldlM_good {α : Type*} {factor : K} {im : ℕ → K} {S : Sys K} {P : Sys K → Prop} {f : Sys K → α → Option (Sys K)} (l : List α)
    (hf : ∀ a ∈ l, Good factor im S P (fun T => f T a)) : Good factor im S P (fun T => l.foldlM f T) := by
  induction l with
  | nil =>
    intro T U h hp e
    have e' : T = U := by simpa using e
    subst e'; exact ⟨h, fun _ h => h, hp⟩
  | cons a l ih =>
    intro T U h hp e
    simp only [List.foldlM_cons] at e
    obtain ⟨V, e1, e2⟩ := Option.bind_eq_some_iff.mp e
    obtain ⟨h1, h2, h3⟩ := hf a (by simp) T V h hp e1
    obtain ⟨k1, k2, k3⟩ := ih (fun b hb => hf b (List.mem_cons_of_mem _ hb)) V U h1 h3 e2
    exact ⟨k1, fun k hk => k2 k (h2 k hk), k3⟩

/-- An element of the list was processed at some time. -/
theorem foldlM_at {α : Type*} {factor : K} {im : ℕ → K} {S : Sys K} {P : Sys K → Prop} {f : Sys K → α → Option (Sys K)} (l : List α)
    (hf : ∀ a ∈ l, Good factor im S P (fun T => f T a)) {a : α} (ha : a ∈ l) {T U : Sys K} (h : Reach factor im S T) (hp : P T)
    (e : l.foldlM f T = some U) : ∃ V W, Reach factor im S V ∧ P V ∧ f V a = some W ∧ Later T V ∧ Later W U := by
  induction l generalizing T with
  | nil => simp at ha
  | cons b l ih =>
    simp only [List.foldlM_cons] at e
    obtain ⟨V, e1, e2⟩ := Option.bind_eq_some_iff.mp e
    have hl : ∀ b ∈ l, Good factor im S P (fun T => f T b) := fun b hb => hf b (List.mem_cons_of_mem _ hb)
    obtain ⟨h1, h2, h3⟩ := hf b (by simp) T V h hp e1
    rcases List.mem_cons.mp ha with rfl | ha
    · exact ⟨T, V, h, hp, e1, fun _ h => h, ((foldlM_good l hl) V U h1 h3 e2).2.1⟩
    · obtain ⟨X, W, k1, k2, k3, k4, k5⟩ := ih hl ha h1 h3 e2
      exact ⟨X, W, k1, k2, k3, fun k hk => k4 k (h2 k hk), k5⟩

theorem inCell_good {factor : K} {im : ℕ → K} {S : Sys K} {i j : ℕ} (ti : ℤ) (hi : S.Live i) (hij : i ≠ j) :
    Good factor im S (fun T => 0 ≤ T.type i) (fun T => dynInCell factor im i ti T j) := by
  intro T U h hp e
  simp only [dynInCell, if_neg (not_lt.mpr hp)] at e
  split_ifs at e with h1 h2 h3
  · obtain rfl := Option.some.inj e; exact ⟨h, fun _ h => h, hp⟩
  · obtain rfl := Option.some.inj e
    obtain ⟨b1, b2, _⟩ := body_reach h hij hi hp (not_lt.mp h1)
    refine ⟨b1, b2, ?_⟩
    unfold overlapBody
    split_ifs
    · simp only [kill, if_neg h1, Function.update_of_ne hij]; exact hp
    · exact hp
  · obtain rfl := Option.some.inj e; exact ⟨h, fun _ h => h, hp⟩

theorem adjacent_good {factor : K} {im : ℕ → K} {S : Sys K} {i j : ℕ} (ti : ℤ) (hi : S.Live i) (hij : i ≠ j) :
    Good factor im S (fun T => 0 ≤ T.type i) (fun T => dynAdjacent factor im i ti T j) := by
  intro T U h hp e
  simp only [dynAdjacent] at e
  have key : ¬ T.type j < 0 → U = overlapBody factor im T i j (T.rd i) (T.rd j) (distSq (T.x i) (T.x j)) →
      Reach factor im S U ∧ Later T U ∧ 0 ≤ U.type i := by
    rintro h1 rfl
    obtain ⟨b1, b2, _⟩ := body_reach h hij hi hp (not_lt.mp h1)
    refine ⟨b1, b2, ?_⟩
    unfold overlapBody
    split_ifs
    · simp only [kill, if_neg h1, Function.update_of_ne hij]; exact hp
    · exact hp
  split_ifs at e with h1 h2 h3 h4
  · obtain rfl := Option.some.inj e; exact ⟨h, fun _ h => h, hp⟩
  · obtain rfl := Option.some.inj e; exact ⟨h, fun _ h => h, hp⟩
  · exact key h1 (Option.some.inj e).symm
  · exact key h1 (Option.some.inj e).symm
  · obtain rfl := Option.some.inj e; exact ⟨h, fun _ h => h, hp⟩

theorem reach_sigma {factor : K} {im : ℕ → K} {S T : Sys K} (h : Reach factor im S T) {i : ℕ} (hi : 0 ≤ T.type i) :
    T.sigma i = S.sigma i ∧ T.mss = S.mss ∧ T.skin = S.skin ∧ T.cut = S.cut ∧ T.rd = S.rd ∧ T.g = S.g := by
  have hf := h.frame
  have e := (h.same i hi).1
  refine ⟨?_, ?_, ?_, ?_, ?_, ?_⟩
  · have e1 : T.rd = S.rd := by rw [hf]
    have e2 : T.maxCut = S.maxCut := by rw [hf]
    rw [Sys.sigma, Sys.sigma, e, e1, e2]
  all_goals rw [hf]

/-- What the traversal does for a first particle: it either does nothing (when it is marked) or runs the two loops. -/
theorem particle_small {factor : K} {im : ℕ → K} {S T : Sys K} (hS : S.OK) (h : Reach factor im S T) {c i : ℕ} {rest : List ℕ} (hi : S.Live i)
    (ti : 0 ≤ T.type i) :
    dynParticle factor im S c i rest T =
      (rest.foldlM (dynInCell factor im i (S.type i)) T).bind fun T' =>
        (S.adj c).foldlM (fun U d => (S.cell d).foldlM (dynAdjacent factor im i (S.type i)) U) T' := by
  obtain ⟨e1, e2, _⟩ := reach_sigma h ti
  rw [dynParticle, if_neg (not_lt.mpr ti), e1, e2, if_pos (show S.sigma i ≤ S.mss from hS.small i hi), (h.same i ti).1]

theorem adj_self {S : Sys K} (hS : S.OK) {c : ℕ} (hc : c < S.dims.prod) {d : ℤ} (hd : d ∈ S.adj c) {i j : ℕ} (hi : i ∈ S.cell c)
    (hj : j ∈ S.cell d) : i ≠ j := by
  rintro rfl
  have h1 := (mem_cell.mp hi).2
  have h2 := (mem_cell.mp hj).2
  have e : d = (c : ℤ) := by rw [← h1, ← h2]
  subst e
  have := (adj_count hS hc hc).1
  rw [if_pos rfl] at this
  have hp := List.count_pos_iff.mpr hd
  omega

theorem particle_good {factor : K} {im : ℕ → K} {S : Sys K} (hS : S.OK) {c i : ℕ} {rest : List ℕ} (hc : c < S.dims.prod) (hi : i ∈ S.cell c)
    (hr : ∀ j ∈ rest, i ≠ j) : Good factor im S (fun _ => True) (dynParticle factor im S c i rest) := by
  intro T U h _ e
  have li := (mem_cell.mp hi).1
  by_cases ti : T.type i < 0
  · rw [dynParticle, if_pos ti] at e
    obtain rfl := Option.some.inj e
    exact ⟨h, fun _ h => h, trivial⟩
  · rw [particle_small hS h li (not_lt.mp ti)] at e
    obtain ⟨V, e1, e2⟩ := Option.bind_eq_some_iff.mp e
    obtain ⟨a1, a2, a3⟩ := foldlM_good (P := fun T => 0 ≤ T.type i) rest (fun j hj => inCell_good (factor := factor) (im := im) _ li (hr j hj))
      T V h (not_lt.mp ti) e1
    obtain ⟨b1, b2, _⟩ := foldlM_good (P := fun T => 0 ≤ T.type i) (S.adj c)
      (fun d hd => foldlM_good (P := fun T => 0 ≤ T.type i) (S.cell d)
        (fun j hj => adjacent_good (factor := factor) (im := im) (S.type i) li (adj_self hS hc hd hi hj))) V U a1 a3 e2
    exact ⟨b1, fun k hk => b2 k (a2 k hk), trivial⟩

theorem cell_good {factor : K} {im : ℕ → K} {S : Sys K} (hS : S.OK) {c : ℕ} (hc : c < S.dims.prod) (l : List ℕ) (hl : ∀ i ∈ l, i ∈ S.cell c)
    (hs : l.Pairwise (· < ·)) : Good factor im S (fun _ => True) (dynCell factor im S c l) := by
  induction l with
  | nil =>
    intro T U h _ e
    obtain rfl := Option.some.inj e
    exact ⟨h, fun _ h => h, trivial⟩
  | cons i l ih =>
    intro T U h _ e
    obtain ⟨V, e1, e2⟩ := Option.bind_eq_some_iff.mp e
    rw [List.pairwise_cons] at hs
    obtain ⟨a1, a2, _⟩ := particle_good hS hc (hl i (by simp)) (fun j hj => (hs.1 j hj).ne) T V h trivial e1
    obtain ⟨b1, b2, _⟩ := ih (fun j hj => hl j (List.mem_cons_of_mem _ hj)) hs.2 V U a1 trivial e2
    exact ⟨b1, fun k hk => b2 k (a2 k hk), trivial⟩

/-- In the loop of a cell, every particle has its turn, with the rest of the cell after it. -/
theorem cell_at {factor : K} {im : ℕ → K} {S : Sys K} (hS : S.OK) {c : ℕ} (hc : c < S.dims.prod) (l : List ℕ) (hl : ∀ i ∈ l, i ∈ S.cell c)
    (hs : l.Pairwise (· < ·)) {i : ℕ} (hi : i ∈ l) {T U : Sys K} (h : Reach factor im S T) (e : dynCell factor im S c l T = some U) :
    ∃ V W rest, Reach factor im S V ∧ dynParticle factor im S c i rest V = some W ∧ Later W U ∧ ∀ j, j ∈ rest ↔ j ∈ l ∧ i < j := by
  induction l generalizing T with
  | nil => simp at hi
  | cons k l ih =>
    obtain ⟨V, e1, e2⟩ := Option.bind_eq_some_iff.mp e
    rw [List.pairwise_cons] at hs
    have hl' : ∀ j ∈ l, j ∈ S.cell c := fun j hj => hl j (List.mem_cons_of_mem _ hj)
    obtain ⟨a1, a2, _⟩ := particle_good hS hc (hl k (by simp)) (fun j hj => (hs.1 j hj).ne) T V h trivial e1
    by_cases hk : k = i
    · subst hk
      refine ⟨T, V, l, h, e1, (cell_good hS hc l hl' hs.2 V U a1 trivial e2).2.1, fun j => ⟨fun hj => ⟨List.mem_cons_of_mem _ hj, hs.1 j hj⟩, ?_⟩⟩
      rintro ⟨hj, hlt⟩
      rcases List.mem_cons.mp hj with rfl | hj
      · exact absurd hlt (lt_irrefl _)
      · exact hj
    · have hi' : i ∈ l := by
        rcases List.mem_cons.mp hi with h | h
        · exact absurd h.symm hk
        · exact h
      obtain ⟨X, W, rest, k1, k2, k3, k4⟩ := ih hl' hs.2 hi' a1 e2
      refine ⟨X, W, rest, k1, k2, k3, fun j => ?_⟩
      rw [k4, List.mem_cons]
      constructor
      · rintro ⟨h1, h2⟩; exact ⟨Or.inr h1, h2⟩
      · rintro ⟨rfl | h1, h2⟩
        · exact absurd (hs.1 i hi') (by omega)
        · exact ⟨h1, h2⟩

/-- A pair that is too close loses its second particle when the first one is processed. -/
theorem pair_done {factor : K} {im : ℕ → K} {S T : Sys K} (hS : S.OK) (hf : 0 ≤ factor) (e : removeOverlapping factor im S = some T)
    {i j : ℕ} (hi : S.Live i) (hj : S.Live j) (hm : 0 < im i) (hcut : 1 ≤ S.cut (S.type i) (S.type j))
    (hclose : tooClose factor (S.rd i) (S.rd j) (distSq (S.x i) (S.x j))) {c : ℕ} (hci : S.cellOf i = c) (hc : c < S.dims.prod)
    (ti : 0 ≤ T.type i) (tj : 0 ≤ T.type j) :
    ¬ (i < j ∧ S.cellOf j = c) ∧ ¬ (S.cellOf j ∈ S.adj c) := by
  have ri := hS.rd_nonneg i hi
  have rj := hS.rd_nonneg j hj
  have hcon := tooClose_contact hf ri rj hclose
  have hic : i ∈ S.cell c := mem_cell.mpr ⟨hi, hci⟩
  obtain ⟨V, W, hV, _, eW, _, hWT⟩ := foldlM_at (P := fun _ => True) (List.range S.dims.prod)
    (fun d hd => cell_good hS (List.mem_range.mp hd) (S.cell d) (fun _ h => h) (cell_sorted S d)) (List.mem_range.mpr hc) (Reach.refl factor im S) trivial e
  obtain ⟨X, Y, rest, hX, eY, hYW, hrest⟩ := cell_at hS hc (S.cell c) (fun _ h => h) (cell_sorted S c) hic hV eW
  have lateTj : ∀ Z : Sys K, Later Z T → 0 ≤ Z.type j := fun Z hZ => not_lt.mp fun h => absurd (hZ j h) (not_lt.mpr tj)
  have lateTi : ∀ Z : Sys K, Later Z T → 0 ≤ Z.type i := fun Z hZ => not_lt.mp fun h => absurd (hZ i h) (not_lt.mpr ti)
  have hYT : Later Y T := fun k hk => hWT k (hYW k hk)
  have hgp := particle_good (factor := factor) (im := im) hS hc hic (fun k hk => ((hrest k).mp hk).2.ne) X Y hX trivial eY
  have hXT : Later X T := fun k hk => hYT k (hgp.2.1 k hk)
  rw [particle_small hS hX hi (lateTi X hXT)] at eY
  obtain ⟨Z, eZ, eY⟩ := Option.bind_eq_some_iff.mp eY
  have g1 : ∀ k ∈ rest, Good factor im S (fun T => 0 ≤ T.type i) (fun T => dynInCell factor im i (S.type i) T k) :=
    fun k hk => inCell_good _ hi ((hrest k).mp hk).2.ne
  have g2 : ∀ d ∈ S.adj c, Good factor im S (fun T => 0 ≤ T.type i) (fun T => (S.cell d).foldlM (dynAdjacent factor im i (S.type i)) T) :=
    fun d hd => foldlM_good (S.cell d) (fun k hk => adjacent_good _ hi (adj_self hS hc hd hic hk))
  obtain ⟨hZ, hXZ, pZ⟩ := foldlM_good rest g1 X Z hX (lateTi X hXT) eZ
  obtain ⟨hY, hZY, _⟩ := foldlM_good (S.adj c) g2 Z Y hZ pZ eY
  have hskin := hS.skin_nonneg
  constructor
  · rintro ⟨hlt, hcj⟩
    have hjr : j ∈ rest := (hrest j).mpr ⟨mem_cell.mpr ⟨hj, hcj⟩, hlt⟩
    obtain ⟨A, B, hA, pA, eB, hXA, hBZ⟩ := foldlM_at rest g1 hjr hX (lateTi X hXT) eZ
    have hBT : Later B T := fun k hk => hYT k (hZY k (hBZ k hk))
    have hAB := (g1 j hjr A B hA pA eB).2.1
    have aj : 0 ≤ A.type j := lateTj A fun k hk => hBT k (hAB k hk)
    obtain ⟨s1, s2, s3, s4, s5, s6⟩ := reach_sigma hA aj
    have hbody := (body_reach hA hlt.ne hi pA aj).2.2 hm hclose
    simp only [dynInCell, if_neg (not_lt.mpr pA), if_neg (not_lt.mpr aj)] at eB
    rw [if_neg (by rw [s1, s2]; exact not_lt.mpr (hS.small j hj)), if_pos ?_] at eB
    · obtain rfl := Option.some.inj eB
      exact absurd (hBT j hbody) (not_lt.mpr tj)
    · rw [(hA.same i pA).2, (hA.same j aj).2, (hA.same j aj).1, s3, s4, s5]
      refine lt_of_lt_of_le hcon (pow_le_pow_left₀ (by linarith) ?_ 2)
      have := mul_le_mul_of_nonneg_left hcut rj
      linarith
  · intro hadj
    have hjc : j ∈ S.cell (S.cellOf j) := mem_cell.mpr ⟨hj, rfl⟩
    obtain ⟨A, B, hA, pA, eB, hZA, hBY⟩ := foldlM_at (S.adj c) g2 hadj hZ pZ eY
    obtain ⟨C, D, hC, pC, eD, hAC, hDB⟩ := foldlM_at (P := fun T => 0 ≤ T.type i) (S.cell (S.cellOf j))
      (fun k hk => adjacent_good (factor := factor) (im := im) (S.type i) hi (adj_self hS hc hadj hic hk)) hjc hA pA eB
    have hDT : Later D T := fun k hk => hYT k (hBY k (hDB k hk))
    have hCD := (adjacent_good (factor := factor) (im := im) (S.type i) hi (adj_self hS hc hadj hic hjc) C D hC pC eD).2.1
    have cj : 0 ≤ C.type j := lateTj C fun k hk => hDT k (hCD k hk)
    obtain ⟨s1, s2, s3, s4, s5, s6⟩ := reach_sigma hC cj
    have hbody := (body_reach hC (adj_self hS hc hadj hic hjc) hi pC cj).2.2 hm hclose
    simp only [dynAdjacent, if_neg (not_lt.mpr cj)] at eD
    rw [if_neg (by rw [s1, s2]; exact not_lt.mpr (hS.small j hj)), if_pos ?_] at eD
    · obtain rfl := Option.some.inj eD
      exact absurd (hDT j hbody) (not_lt.mpr tj)
    · rw [(hC.same i pC).2, (hC.same j cj).2, (hC.same j cj).1, s3, s4, s5]
      refine lt_of_lt_of_le hcon (pow_le_pow_left₀ (by linarith) ?_ 2)
      have := mul_le_mul_of_nonneg_left hcut (show 0 ≤ S.rd i + S.rd j by linarith)
      linarith

theorem contact_near {S : Sys K} (hS : S.OK) {i j : ℕ} (hi : S.Live i) (hj : S.Live j)
    (hcut : 1 ≤ S.cut (S.type i) (S.type j)) (hq : distSq (S.x i) (S.x j) < (S.rd i + S.rd j) ^ 2) {ci cj : ℕ} (h1 : S.cellOf i = ci)
    (h2 : S.cellOf j = cj) (h1' : ci < S.dims.prod) (h2' : cj < S.dims.prod) :
    ci = cj ∨ (cj : ℤ) ∈ S.adj ci ∨ (ci : ℤ) ∈ S.adj cj := by
  by_cases hc : ci = cj
  · exact Or.inl hc
  · right
    obtain ⟨c1, t1, a1, a2, a3, a4, a5⟩ := live_cell hS hi
    obtain ⟨c2, t2, b1, b2, b3, b4, b5⟩ := live_cell hS hj
    have e1 : c1 = ci := by exact_mod_cast a1.symm.trans h1
    have e2 : c2 = cj := by exact_mod_cast b1.symm.trans h2
    subst e1 e2
    obtain ⟨r0, rc⟩ := range_le_cutoff hS hi hj
    have hsh : Shift S.g (S.g.map fun _ => (0 : ℤ)) := by
      unfold Shift
      induction S.g with
      | nil => exact List.Forall₂.nil
      | cons a g ih => exact List.Forall₂.cons (fun _ => rfl) ih
    have himg : imageSq S.g (S.g.map fun _ => (0 : ℤ)) (S.x i) (S.x j) < S.range i j ^ 2 := by
      rw [imageSq_zero (by simp) (by simp) (hS.pos i hi) (hS.pos j hj)]
      have ri := hS.rd_nonneg i hi
      have rj := hS.rd_nonneg j hj
      refine lt_of_lt_of_le hq (pow_le_pow_left₀ (by linarith) ?_ 2)
      have := mul_le_mul_of_nonneg_left hcut (show 0 ≤ S.rd i + S.rd j by linarith)
      have := hS.skin_nonneg
      unfold Sys.range
      linarith
    have hnear := near_cells hS.valid rc r0 hsh (hS.pos i hi) (hS.pos j hj) himg a4 b4
    rw [← a3, ← b3] at hnear
    have hcount := (adj_count hS a2 b2).2 hc hnear
    by_contra hcon
    push Not at hcon
    have z1 := List.count_eq_zero.mpr hcon.1
    have z2 := List.count_eq_zero.mpr hcon.2
    omega

/-! ## Theorems -/

/-- C104 (partial). Removal of overlapping particles with a factor that is not negative, when the traversal is defined and all particles are
movable: afterwards no two particles that are left overlap by more than the factor times the smaller radius (distances without wrapping); those
that are left are where they were; every particle that was removed did overlap that much with another one; and if there was a particle there is
still one.
Missing: the traversal is undefined for some configurations (`C104_negation_undefined`); immovable particles (`C104_negation_immovable`,
`C104_negation_wall_removed`); overlaps across a wrapping boundary (`C104_negation_periodic`); types whose cutoff is less than one
(`C104_negation_types`); more particles are removed than necessary (`C104_negation_minimal`); large particles. -/
theorem C104_remove_overlapping_partial (S : Sys K) (hS : S.OK) (factor : K) (hf : 0 ≤ factor) (im : ℕ → K)
    (him : ∀ i, S.Live i → 0 < im i) (hcut : ∀ i j, S.Live i → S.Live j → 1 ≤ S.cut (S.type i) (S.type j)) (T : Sys K)
    (e : removeOverlapping factor im S = some T) :
    (∀ i j, S.Live i → S.Live j → i ≠ j → 0 ≤ T.type i → 0 ≤ T.type j →
      ¬ tooClose factor (S.rd i) (S.rd j) (distSq (S.x i) (S.x j))) ∧
    (∀ i, 0 ≤ T.type i → T.type i = S.type i ∧ T.x i = S.x i ∧ T.rd i = S.rd i) ∧
    (∀ j, S.Live j → T.type j < 0 → ∃ i, S.Live i ∧ i ≠ j ∧ tooClose factor (S.rd i) (S.rd j) (distSq (S.x i) (S.x j))) ∧
    ((∃ i, S.Live i) → ∃ i, S.Live i ∧ 0 ≤ T.type i) := by
  have hT := (foldlM_good (P := fun _ => True) (List.range S.dims.prod)
    (fun d hd => cell_good hS (List.mem_range.mp hd) (S.cell d) (fun _ h => h) (cell_sorted S d)) S T (Reach.refl factor im S) trivial e).1
  refine ⟨fun i j hi hj hij ti tj hclose => ?_, fun i ti => ?_, fun j hj tj => ?_, hT.left⟩
  · obtain ⟨ci, _, h1, h1', _⟩ := live_cell hS hi
    obtain ⟨cj, _, h2, h2', _⟩ := live_cell hS hj
    have hclose' : tooClose factor (S.rd j) (S.rd i) (distSq (S.x j) (S.x i)) := by rw [distSq_comm, tooClose_comm]; exact hclose
    have p1 := pair_done hS hf e hi hj (him i hi) (hcut i j hi hj) hclose h1 h1' ti tj
    have p2 := pair_done hS hf e hj hi (him j hj) (hcut j i hj hi) hclose' h2 h2' tj ti
    rcases contact_near hS hi hj (hcut i j hi hj) (tooClose_contact hf (hS.rd_nonneg i hi) (hS.rd_nonneg j hj) hclose) h1 h2 h1' h2' with h | h | h
    · rcases lt_or_gt_of_ne hij with h3 | h3
      · exact p1.1 ⟨h3, by rw [h2, h]⟩
      · exact p2.1 ⟨h3, by rw [h1, h]⟩
    · exact p1.2 (by rw [h2]; exact h)
    · exact p2.2 (by rw [h1]; exact h)
  · obtain ⟨a, b⟩ := hT.same i ti
    exact ⟨a, b, by rw [(reach_sigma hT ti).2.2.2.2.1]⟩
  · obtain ⟨i, h1, h2, _, h3⟩ := hT.why j tj hj.2.1
    exact ⟨i, h1, h2, h3⟩

theorem foldlM_const {α β : Type*} {f : β → α → Option β} {b : β} (l : List α) (h : ∀ a ∈ l, f b a = some b) : l.foldlM f b = some b := by
  induction l with
  | nil => rfl
  | cons a l ih =>
    rw [List.foldlM_cons, h a (by simp)]
    exact ih fun c hc => h c (List.mem_cons_of_mem _ hc)

/-- C104 (partial). If no movable particle overlaps another one too much (distances without wrapping), the operation is defined and changes
nothing. Missing: see `C104_remove_overlapping_partial`. -/
theorem C104_nothing_removed_partial (S : Sys K) (hS : S.OK) (factor : K) (im : ℕ → K)
    (hno : ∀ i j, S.Live i → S.Live j → i ≠ j → 0 < im i → ¬ tooClose factor (S.rd i) (S.rd j) (distSq (S.x i) (S.x j))) :
    removeOverlapping factor im S = some S := by
  have hbody : ∀ i j, S.Live i → S.Live j → i ≠ j →
      overlapBody factor im S i j (S.rd i) (S.rd j) (distSq (S.x i) (S.x j)) = S := by
    intro i j hi hj hij
    exact if_neg fun h => hno i j hi hj hij h.2 h.1
  refine foldlM_const _ fun c hc => ?_
  have hc := List.mem_range.mp hc
  have key : ∀ l : List ℕ, (∀ i ∈ l, i ∈ S.cell c) → l.Pairwise (· < ·) → dynCell factor im S c l S = some S := by
    intro l
    induction l with
    | nil => intros; rfl
    | cons i l ih =>
      intro hl hs
      rw [List.pairwise_cons] at hs
      have hic := hl i (by simp)
      have hi := (mem_cell.mp hic).1
      have hp : dynParticle factor im S c i l S = some S := by
        rw [particle_small hS (Reach.refl factor im S) hi hi.2.1]
        have e1 : l.foldlM (dynInCell factor im i (S.type i)) S = some S := by
          refine foldlM_const l fun j hj => ?_
          have lj := (mem_cell.mp (hl j (List.mem_cons_of_mem _ hj))).1
          simp only [dynInCell, if_neg (not_lt.mpr hi.2.1), if_neg (not_lt.mpr lj.2.1), hbody i j hi lj (hs.1 j hj).ne]
          split_ifs <;> rfl
        rw [e1]
        refine foldlM_const _ fun d hd => foldlM_const _ fun j hj => ?_
        have lj := (mem_cell.mp hj).1
        simp only [dynAdjacent, if_neg (not_lt.mpr lj.2.1), hbody i j hi lj (adj_self hS hc hd hic hj)]
        split_ifs <;> rfl
      rw [dynCell, hp]
      exact ih (fun j hj => hl j (List.mem_cons_of_mem _ hj)) hs.2
  exact key _ (fun _ h => h) (cell_sorted S c)

end proofs

/-! ## Concrete systems -/

/-- The types after the operation, for a system with `n` particles. -/
def finalTypes (factor : ℚ) (im : ℕ → ℚ) (S : Sys ℚ) (n : ℕ) : Option (List ℤ) :=
  (removeOverlapping factor im S).map fun T => (List.range n).map T.type

/-- Four particles, of which the second overlaps the first one, and the third overlaps the fourth one by more than half a radius in a neighbouring
cell: a system that meets the hypotheses, for which the operation is defined. -/
example : (line 1 (fun i => if i = 0 then 1/100 else if i = 1 then 11/100 else if i = 2 then 179/100 else 182/100) 4).OK ∧
    finalTypes (1/2) (fun _ => 1) (line 1 (fun i => if i = 0 then 1/100 else if i = 1 then 11/100 else if i = 2 then 179/100 else 182/100) 4) 4 =
      some [0, -1, -1, 0] := by
  refine ⟨line_ok _ _ _ (by norm_num) (by norm_num) (fun i => ?_), by decide +kernel⟩
  split_ifs <;> norm_num

/-- C104, negation: three movable particles in one cell, the first one overlaps the last one but not the middle one. After the last one was marked
the traversal reads the cutoffs at the type `-1`. -/
theorem C104_negation_undefined : ∃ S : Sys ℚ, S.OK ∧ S.number = 3 ∧ (∀ i, i < 3 → S.Live i) ∧ removeOverlapping (1/2) (fun _ => 1) S = none := by
  refine ⟨line 1 (fun i => if i = 0 then 1/100 else if i = 1 then 50/100 else 5/100) 3,
    line_ok _ _ _ (by norm_num) (by norm_num) (fun i => by split_ifs <;> norm_num), rfl, fun i hi' => ⟨hi', le_refl _, rfl⟩, ?_⟩
  have : finalTypes (1/2) (fun _ => 1) (line 1 (fun i => if i = 0 then 1/100 else if i = 1 then 50/100 else 5/100) 3) 3 = none := by decide +kernel
  exact Option.map_eq_none_iff.mp this

/-- C104, negation: the first particle is immovable and the second one movable: the overlap stays. -/
theorem C104_negation_immovable : ∃ (S : Sys ℚ) (im : ℕ → ℚ), S.OK ∧ S.Live 0 ∧ S.Live 1 ∧ S.number = 2 ∧ im 1 = 1 ∧
    tooClose (1/2) (S.rd 0) (S.rd 1) (distSq (S.x 0) (S.x 1)) ∧ finalTypes (1/2) im S 2 = some [0, 0] := by
  refine ⟨line 1 (fun i => if i = 0 then 1/100 else 2/100) 2, fun i => if i = 0 then 0 else 1,
    line_ok _ _ _ (by norm_num) (by norm_num) (fun i => by split_ifs <;> norm_num), ⟨by decide, by decide, rfl⟩, ⟨by decide, by decide, rfl⟩, rfl, rfl,
    by decide +kernel, by decide +kernel⟩

/-- C104, negation: the first particle is movable and the second one immovable (part of a wall): the immovable one is removed. -/
theorem C104_negation_wall_removed : ∃ (S : Sys ℚ) (im : ℕ → ℚ), S.OK ∧ S.Live 0 ∧ S.Live 1 ∧ S.number = 2 ∧ im 0 = 1 ∧ im 1 = 0 ∧
    finalTypes (1/2) im S 2 = some [0, -1] := by
  refine ⟨line 1 (fun i => if i = 0 then 1/100 else 2/100) 2, fun i => if i = 0 then 1 else 0,
    line_ok _ _ _ (by norm_num) (by norm_num) (fun i => by split_ifs <;> norm_num), ⟨by decide, by decide, rfl⟩, ⟨by decide, by decide, rfl⟩, rfl, rfl, rfl,
    by decide +kernel⟩

/-- C104, negation: two particles that overlap across the wrapping boundary are visited with their distance inside of the box, and stay. -/
theorem C104_negation_periodic : ∃ S : Sys ℚ, S.OK ∧ S.Live 0 ∧ S.Live 1 ∧ S.number = 2 ∧ Shift S.g [1] ∧
    tooClose (1/2) (S.rd 0) (S.rd 1) (imageSq S.g [1] (S.x 0) (S.x 1)) ∧ S.traverse = [⟨0, 1, 1⟩] ∧
    finalTypes (1/2) (fun _ => 1) S 2 = some [0, 0] := by
  refine ⟨line 1 (fun i => if i = 0 then 1/100 else 479/100) 2,
    line_ok _ _ _ (by norm_num) (by norm_num) (fun i => by split_ifs <;> norm_num), ⟨by decide, by decide, rfl⟩, ⟨by decide, by decide, rfl⟩, rfl,
    List.Forall₂.cons (fun h => by cases h) List.Forall₂.nil, by decide +kernel, by decide +kernel, by decide +kernel⟩

/-- C104, negation: particles whose types do not interact with each other have the cutoff zero. Two of them stay though they overlap. -/
theorem C104_negation_types : ∃ S : Sys ℚ, (∀ a ∈ S.g, a.Valid) ∧ S.Live 0 ∧ S.Live 1 ∧ S.number = 2 ∧ S.type 0 ≠ S.type 1 ∧
    tooClose (1/2) (S.rd 0) (S.rd 1) (distSq (S.x 0) (S.x 1)) ∧ finalTypes (1/2) (fun _ => 1) S 2 = some [0, 1] := by
  refine ⟨{ line 1 (fun i => if i = 0 then 55/100 else 62/100) 2 with type := fun i => i, cut := fun a b => if a = b then 1 else 0 },
    (line_ok 1 (fun i => if i = 0 then 55/100 else 62/100) 2 (by norm_num) (by norm_num) (fun i => by split_ifs <;> norm_num)).valid,
    ⟨by decide, by decide, rfl⟩, ⟨by decide, by decide, rfl⟩, rfl, by decide, by decide +kernel, by decide +kernel⟩

/-- C104, negation: more is removed than necessary. In a row of three particles, where only neighbours overlap too much, removing the middle one would
do; but the order of the ids decides, and two are removed. -/
theorem C104_negation_minimal : ∃ S : Sys ℚ, S.OK ∧ S.number = 3 ∧ (∀ i, i < 3 → S.Live i) ∧
    ¬ tooClose (1/2) (S.rd 1) (S.rd 2) (distSq (S.x 1) (S.x 2)) ∧ finalTypes (1/2) (fun _ => 1) S 3 = some [0, -1, -1] := by
  refine ⟨line 1 (fun i => if i = 0 then 20/100 else if i = 1 then 10/100 else 30/100) 3,
    line_ok _ _ _ (by norm_num) (by norm_num) (fun i => by split_ifs <;> norm_num), rfl, fun i hi' => ⟨hi', le_refl _, rfl⟩, by decide +kernel, by decide +kernel⟩

end Verif.Cells
