import Verif.Parallel.ParallelMotion
import Verif.Domain.OwnPairs

/-!
# The lists that all processors make are complete (C183)

Joins the exchange and the creation of ghosts (`Verif.Parallel.ParallelRun`, C155) with the cells of each processor
(`Verif.Domain.GhostPairs`, C149, and `Verif.Domain.OwnPairs`, C180): `InteractionHandler::construct`
(`base/interactionhandler.cpp:115-166`) goes through the pairs in cells (`domains/domain.cpp:98-160`), through pairs of ghosts and own
particles, and gives each pair to the interaction of the two types (`pair_interaction`, `base/interactionhandler.cpp:461-466`).

Simplifications: those of the three modules; each interaction has its own lists.
-/

set_option linter.unusedSectionVars false
set_option linter.unusedVariables false

namespace Verif.ParallelLists
open Verif.Rounds Verif.KDTree Verif.PairForces Verif.Exchange Verif.Ghosts Verif.GhostForces Verif.ParallelRun
open Verif.Cells (Visit distSq isOrd IsPair)
open Verif.GhostPairs (Bd HAx GSys borders Beyond Shifts image)
open Verif.OwnPairs (OSys)
open Verif.Grid (Axis)
open Verif.Stencil (sweepOf C27_complete_one_dimension)

variable {n : ℕ}

/-! ## Model -/

/-- What the processors' domains know: the dimensions of each processor's grid, the largest small radius, the types that interact, the
grid of cutoffs, and the grid of interactions (numbers instead of pointers; `interaction_grid`, `base/interactionhandler.hpp`). -/
structure Domains (n : ℕ) where
  G : ℕ → Fin (n + 1) → HAx ℝ
  mss : ℝ
  inter : ℤ → Bool
  cut : ℤ → ℤ → ℝ
  grid : ℤ → ℤ → Option ℕ

/-- The particles of a processor and its ghosts as its domain sees them when lists are made, `domains/domain.cpp:98-160`: a slot that
holds no particle has a negative type. -/
noncomputable def osys (S : Setup n) (D : Domains n) (p : ℕ) (own gh : List (Pa n)) : OSys ℝ where
  g := List.ofFn (D.G p)
  number := own.length
  ghosts := gh.length
  x i := List.ofFn (own[i]?.elim 0 (·.x))
  rd i := own[i]?.elim 0 (·.rest.rd)
  type i := own[i]?.elim (-1) (·.rest.type)
  xg i := List.ofFn (gh[i]?.elim 0 (·.x))
  rdg i := gh[i]?.elim 0 (·.rest.rd)
  typeg i := gh[i]?.elim (-1) (·.rest.type)
  interacts := D.inter
  cut := some D.cut
  mss := D.mss
  skin := S.skin
  maxCut := S.maxCut

/-- The ghosts of a processor after their creation (`parallel/kdtreetopology.cpp:146-290`; C143). -/
noncomputable def ghostsOf (S : Setup n) (w : ℕ → List (Pa n)) (p : ℕ) : List (Pa n) := view (cfg S [] fun _ => 0) w w 0 p

/-- The pairs given to interaction `k`, for one list, `base/interactionhandler.cpp:461-466`; `ty` are the types of the first particle. -/
def given (D : Domains n) (k list : ℕ) (ty ty' : ℕ → ℤ) (l : List Visit) : List (ℕ × ℕ) :=
  (l.filter fun v => decide (v.list = list) && decide (D.grid (ty v.id1) (ty' v.id2) = some k)).map fun v => (v.id1, v.id2)

/-- Interaction `k` with the lists made by the processors, `base/interactionhandler.cpp:115-166`: the pairs of own particles
(`traversePairs`) in the lists 0 and 1, those of ghosts (`traverseGhostPairs`) in list 2. -/
noncomputable def made (S : Setup n) (D : Domains n) (w : ℕ → List (Pa n)) (k : ℕ) (F : Force) (cutoff : ℝ) (uses : ℕ → ℕ → Prop) : Kind where
  F := F
  cutoff := cutoff
  uses := uses
  plain p := let s := osys S D p (w p) (ghostsOf S w p); given D k 0 s.type s.type s.own
  wrapped p := let s := osys S D p (w p) (ghostsOf S w p); given D k 1 s.type s.type s.own
  ghost p := let s := osys S D p (w p) (ghostsOf S w p); given D k 2 s.typeg s.type s.traverse

/-- All interactions with the lists made by the processors; the interaction of the force at place `k` has number `k`. -/
noncomputable def madeAll (S : Setup n) (D : Domains n) (w : ℕ → List (Pa n)) (fs : List (Force × ℝ × (ℕ → ℕ → Prop))) : List Kind :=
  fs.mapIdx fun k T => made S D w k T.1 T.2.1 T.2.2

/-! ## Specification -/

/-- Spec: the conditions under which the lists are complete. -/
structure Apt (S : Setup n) (D : Domains n) (w : ℕ → List (Pa n)) (k : ℕ) (cutoff : ℝ) (uses : ℕ → ℕ → Prop) : Prop where
  lohi : ∀ k, S.b.lo k < S.b.hi k
  /-- the grids are for the processors' parts of the simulation -/
  parts : ∀ p < S.P, ∀ k, (D.G p k).bd = ⟨(processBounds S.b S.P p).lo k, (processBounds S.b S.P p).hi k, S.b.lo k, S.b.hi k, S.wrap k⟩
  thick : ∀ p < S.P, ∀ k, 1/1000 ≤ (processBounds S.b S.P p).hi k - (processBounds S.b S.P p).lo k
  /-- the conditions of C180 and C149 -/
  own : ∀ p < S.P, (osys S D p (w p) (ghostsOf S w p)).OK D.cut
  ghost : ∀ p < S.P, (osys S D p (w p) (ghostsOf S w p)).toGSys.OK
  /-- every particle is in the part of its processor and alive -/
  home : ∀ p < S.P, ∀ a ∈ w p, (processBounds S.b S.P p).contains a.x = true ∧ 0 ≤ a.rest.type
  /-- the interaction is for the pairs of some types, that interact, in both orders -/
  uses_iff : ∀ p < S.P, ∀ a ∈ w p, ∀ q < S.P, ∀ b ∈ w q, uses a.rest.id b.rest.id ↔ D.grid a.rest.type b.rest.type = some k
  symm : ∀ s t, D.grid s t = some k → D.grid t s = some k
  interacts : ∀ s t, D.grid s t = some k → D.inter s = true ∧ D.cut s t = cutoff
  /-- the cutoff is at most one -/
  cutoff0 : 0 ≤ cutoff
  cutoff1 : cutoff ≤ 1
  skin0 : 0 ≤ S.skin
  rd0 : ∀ p < S.P, ∀ a ∈ w p, 0 ≤ a.rest.rd
  /-- no large particles -/
  small : ∀ p < S.P, ∀ a ∈ w p, a.rest.rd ≤ D.mss
  /-- particles are small compared with wrapping widths, and parts of processors leave a gap -/
  wide : ∀ p < S.P, ∀ a ∈ w p, ∀ q < S.P, ∀ b ∈ w q, ∀ k, S.wrap k = true → a.rest.rd + b.rest.rd + 2 * S.skin ≤ (S.b.hi k - S.b.lo k) / 2
  gap : ∀ p < S.P, ∀ q < S.P, ∀ a ∈ w q, ∀ r < S.P, ∀ b ∈ w r, ∀ k, S.wrap k = true →
    (processBounds S.b S.P p).lo k = S.b.lo k ∧ (processBounds S.b S.P p).hi k = S.b.hi k ∨
    (processBounds S.b S.P p).hi k - (processBounds S.b S.P p).lo k + 2 * (a.rest.rd + b.rest.rd + S.skin) ≤ S.b.hi k - S.b.lo k
  /-- the range by which ghosts are chosen is not below the range of any pair (true of equal radii; see `C76_negation_small_particle`) -/
  sent : ∀ p < S.P, ∀ a ∈ w p, ∀ q < S.P, ∀ b ∈ w q, (a.rest.rd + b.rest.rd) * cutoff ≤ 2 * a.rest.rd * S.maxCut a.rest.type
  /-- ranges are at most 0.1, or all processors are neighbours (see `C76_negation_large_cutoff`) -/
  neighbours : (∀ p < S.P, ∀ a ∈ w p, 2 * a.rest.rd * S.maxCut a.rest.type + S.skin ≤ 1/10) ∨
    ∀ p < S.P, ∀ q < S.P, p ≠ q → (p, processBounds S.b S.P p) ∈ neighbors S.b S.wrap S.P q

/-- From a construction to the next: particles are wrapped and exchanged (`base/simdata.cpp:253-279`), the lists are made by the domains,
then `R` steps. The conditions hold for each interaction. -/
def Built (S : Setup n) (D : Domains n) (sys : Sys) (dts : ℕ → ℝ) (R : ℕ) (w w' : ℕ → List (Pa n)) : Prop :=
  ∃ w1, Exchanged S w w1 ∧ (∀ k T, sys.forces[k]? = some T → Apt S D w1 k T.2.1 T.2.2) ∧ Stepped S (madeAll S D w1 sys.forces) dts R w1 w'

/-- Runs as in C155, but with the lists that the domains make instead of any that are complete. -/
inductive Goes (S : Setup n) (D : Domains n) (sys : Sys) (dts : ℕ → ℝ) (w0 : ℕ → List (Pa n)) : List ℕ → (ℕ → List (Pa n)) → Prop where
  | init : Goes S D sys dts w0 [] w0
  | cycle (l : List ℕ) (R : ℕ) (w w' : ℕ → List (Pa n)) (h : Goes S D sys dts w0 l w)
      (hc : Built S D sys (fun r => dts (l.sum + r)) R w w') : Goes S D sys dts w0 (l ++ [R]) w'

/-! ## Lists and functions -/

theorem forall₂_ofFn {α β : Type*} {R : α → β → Prop} {m : ℕ} {f : Fin m → α} {g : Fin m → β} :
    List.Forall₂ R (List.ofFn f) (List.ofFn g) ↔ ∀ k, R (f k) (g k) := by
  induction m with
  | zero => simp
  | succ m ih =>
    rw [List.ofFn_succ, List.ofFn_succ, List.forall₂_cons, ih]
    constructor
    · rintro ⟨h1, h2⟩ k
      exact Fin.cases h1 h2 k
    · exact fun h => ⟨h 0, fun k => h k.succ⟩

theorem image_ofFn {m : ℕ} (G : Fin m → HAx ℝ) (z : Fin m → ℤ) (x y : Fin m → ℝ) :
    image (List.ofFn G) (List.ofFn z) (List.ofFn x) (List.ofFn y) =
      ∑ k, (x k - y k + z k * ((G k).bd.shi - (G k).bd.slo)) ^ 2 := by
  induction m with
  | zero => simp [image]
  | succ m ih =>
    simp only [List.ofFn_succ, image, Fin.sum_univ_succ]
    rw [ih]

theorem distSq_ofFn {m : ℕ} (x y : Fin m → ℝ) : distSq (List.ofFn x) (List.ofFn y) = ∑ k, (x k - y k) ^ 2 := by
  induction m with
  | zero => simp [distSq]
  | succ m ih =>
    simp only [List.ofFn_succ, distSq, Fin.sum_univ_succ]
    rw [ih]

theorem zip_ofFn {α β : Type*} {m : ℕ} (f : Fin m → α) (g : Fin m → β) (k : Fin m) : (f k, g k) ∈ (List.ofFn f).zip (List.ofFn g) := by
  induction m with
  | zero => exact k.elim0
  | succ m ih =>
    rw [List.ofFn_succ, List.ofFn_succ, List.zip_cons_cons]
    refine Fin.cases ?_ (fun k => ?_) k
    · exact List.mem_cons_self
    · exact List.mem_cons_of_mem _ (ih (fun k => f k.succ) (fun k => g k.succ) k)

theorem len_sq (X : Fin (n + 1) → ℝ) : len X ^ 2 = ∑ k, X k ^ 2 := by
  unfold len
  rw [Real.sq_sqrt (by unfold dot; exact Finset.sum_nonneg fun k _ => mul_self_nonneg _)]
  unfold dot
  exact Finset.sum_congr rfl fun k _ => (sq (X k)).symm

theorem countP_four {l : List Visit} {p1 p2 p3 p4 q : Visit → Bool}
    (h : ∀ v ∈ l, (p1 v).toNat + (p2 v).toNat + ((p3 v).toNat + (p4 v).toNat) = (q v).toNat) :
    l.countP p1 + l.countP p2 + (l.countP p3 + l.countP p4) = l.countP q := by
  induction l with
  | nil => rfl
  | cons v l ih =>
    have h1 := ih fun u hu => h u (List.mem_cons_of_mem _ hu)
    have h2 := h v List.mem_cons_self
    simp only [List.countP_cons]
    have e : ∀ b : Bool, (if b = true then 1 else 0) = b.toNat := by decide
    rw [e, e, e, e, e]
    omega

/-! ## What a domain lists -/

theorem mem_cellLoop {S : OSys ℝ} {cut : ℤ → ℤ → ℝ} (hsm : ∀ i, S.Live i → S.rd i * S.maxCut (S.type i) ≤ S.mss) {c : ℕ} {v : Visit} :
    ∀ l : List ℕ, (∀ i ∈ l, S.Live i) → v ∈ S.cellLoop cut c l →
      S.Live v.id1 ∧ S.Live v.id2 ∧ (v.list = 0 ∨ v.list = 1) ∧
      (v.list = 0 → distSq (S.x v.id1) (S.x v.id2) < (S.rd v.id1 + S.rd v.id2 * cut (S.type v.id1) (S.type v.id2) + S.skin) ^ 2 ∨
        distSq (S.x v.id1) (S.x v.id2) < ((S.rd v.id1 + S.rd v.id2) * cut (S.type v.id1) (S.type v.id2) + S.skin) ^ 2)
  | [], _, h => by simp [OSys.cellLoop] at h
  | i :: rest, hl, h => by
    have hi := hl i List.mem_cons_self
    rw [OwnPairs.cellLoop_cons hsm hi, List.mem_append, List.mem_append] at h
    rcases h with (h | h) | h
    · obtain ⟨j, hj, hv⟩ := List.mem_flatMap.mp h
      have hj' := hl j (List.mem_cons_of_mem _ hj)
      unfold OSys.inCell at hv
      split_ifs at hv with h1 h2
      · simp at hv
      · simp only [List.mem_singleton] at hv
        subst hv
        exact ⟨hi, hj', Or.inl rfl, fun _ => Or.inl h2⟩
      · simp at hv
    · obtain ⟨d, _, h⟩ := List.mem_flatMap.mp h
      obtain ⟨j, hj, hv⟩ := List.mem_flatMap.mp h
      have hj' : S.Live j := (GhostPairs.mem_gcell.mp hj).1
      unfold OSys.inAdjacent at hv
      split_ifs at hv with h1 h2 h3
      · simp at hv
      · simp only [List.mem_singleton] at hv
        subst hv
        exact ⟨hi, hj', Or.inl rfl, fun _ => Or.inr h2⟩
      · simp only [List.mem_singleton] at hv
        subst hv
        exact ⟨hi, hj', Or.inr rfl, fun h => by simp at h⟩
      · simp at hv
    · exact mem_cellLoop hsm rest (fun j hj => hl j (List.mem_cons_of_mem _ hj)) h

theorem mem_own {S : OSys ℝ} {cut : ℤ → ℤ → ℝ} (hcut : S.cut = some cut)
    (hsm : ∀ i, S.Live i → S.rd i * S.maxCut (S.type i) ≤ S.mss) {v : Visit} (h : v ∈ S.own) :
    S.Live v.id1 ∧ S.Live v.id2 ∧ (v.list = 0 ∨ v.list = 1) ∧
      (v.list = 0 → distSq (S.x v.id1) (S.x v.id2) < (S.rd v.id1 + S.rd v.id2 * cut (S.type v.id1) (S.type v.id2) + S.skin) ^ 2 ∨
        distSq (S.x v.id1) (S.x v.id2) < ((S.rd v.id1 + S.rd v.id2) * cut (S.type v.id1) (S.type v.id2) + S.skin) ^ 2) := by
  unfold OSys.own at h
  rw [hcut] at h
  obtain ⟨c, _, h⟩ := List.mem_flatMap.mp h
  exact mem_cellLoop hsm _ (fun i hi => (GhostPairs.mem_gcell.mp hi).1) h

/-! ## Images -/

theorem shift_zero {B wd r X : ℝ} {z : ℤ} (hB : 0 < B) (hX : |X| ≤ B / 2 + wd / 2) (hz : |X + z * B| < r) (hg : wd + 2 * r ≤ B) : z = 0 := by
  by_contra h
  have h1 : (1 : ℝ) ≤ |(z : ℝ)| := by
    have := Int.one_le_abs h
    exact_mod_cast this
  have h2 : B ≤ |(z : ℝ) * B| := by
    rw [abs_mul, abs_of_pos hB]; nlinarith
  have h3 : |(z : ℝ) * B| ≤ |X + z * B| + |X| := by
    have := abs_sub (X + z * B) X
    rwa [add_sub_cancel_left] at this
  linarith

section
variable {S : Setup n} {D : Domains n} {w : ℕ → List (Pa n)} {k0 : ℕ} {cutoff : ℝ} {uses : ℕ → ℕ → Prop} {N : ℕ}

theorem Apt.in_box (h : Apt S D w k0 cutoff uses) {p : ℕ} (hp : p < S.P) {a : Pa n} (ha : a ∈ w p) (k : Fin (n + 1)) :
    (processBounds S.b S.P p).lo k ≤ a.x k ∧ a.x k < (processBounds S.b S.P p).hi k ∧ S.b.lo k ≤ a.x k ∧ a.x k < S.b.hi k := by
  have h1 := (Bounds.contains_iff _ _).mp (h.home p hp a ha).1 k
  have h2 := C47_inside S.b h.lohi S.P p hp k
  exact ⟨h1.1, h1.2, by linarith, by linarith⟩

theorem Apt.alone (h : Apt S D w k0 cutoff uses) {p : ℕ} (hp : p < S.P) {k : Fin (n + 1)} (hw : S.wrap k = true) (hn : (D.G p k).per = false) :
    ¬((processBounds S.b S.P p).lo k = S.b.lo k ∧ (processBounds S.b S.P p).hi k = S.b.hi k) := by
  rintro ⟨e1, e2⟩
  have hb := h.parts p hp k
  have : (D.G p k).per = true := by
    unfold HAx.per
    have hwr : (D.G p k).bd.wrap = true := by rw [hb]; exact hw
    rw [hwr, Bool.true_and, decide_eq_true_eq, (GhostPairs.borders_zero_iff hwr).2, hb]
    simp only [e1, e2]
  rw [this] at hn
  cases hn

/-- A displacement `X` that is a nearest image up to whole widths is one up to whole widths in the dimensions that the processor has alone. -/
theorem Apt.shifts (h : Apt S D w k0 cutoff uses) {p : ℕ} (hp : p < S.P) {q q' : ℕ} (hq : q < S.P) (hq' : q' < S.P) {a b : Pa n} (ha : a ∈ w q) (hb : b ∈ w q')
    {X Y : Fin (n + 1) → ℝ} (hXY : ∀ k, ∃ m : ℤ, Y k = X k + m * (S.b.hi k - S.b.lo k) ∧ (S.wrap k = false → m = 0))
    (hY : len Y < (a.rest.rd + b.rest.rd) * cutoff + S.skin)
    (hX : ∀ k, S.wrap k = true → |X k| ≤ (S.b.hi k - S.b.lo k) / 2 + ((processBounds S.b S.P p).hi k - (processBounds S.b S.P p).lo k) / 2) :
    ∃ z : Fin (n + 1) → ℤ, (∀ k, (D.G p k).per = false → z k = 0) ∧
      ∀ k, X k + z k * ((D.G p k).bd.shi - (D.G p k).bd.slo) = Y k := by
  choose z hz hz0 using hXY
  refine ⟨z, fun k hn => ?_, fun k => ?_⟩
  · by_cases hw : S.wrap k = true
    · have hB : 0 < S.b.hi k - S.b.lo k := by linarith [h.lohi k]
      rcases h.gap p hp q hq a ha q' hq' b hb k hw with e | hg
      · exact absurd e (h.alone hp hw hn)
      · refine shift_zero hB (hX k hw) (r := a.rest.rd + b.rest.rd + S.skin) ?_ (by linarith)
        rw [← hz k]
        have := abs_le_len Y k
        have r1 := h.rd0 q hq a ha
        have r2 := h.rd0 q' hq' b hb
        have := h.cutoff1
        nlinarith
    · exact hz0 k (by simpa using hw)
  · rw [h.parts p hp k]
    exact (hz k).symm

theorem Apt.own_image (h : Apt S D w k0 cutoff uses) {p : ℕ} (hp : p < S.P) {a b : Pa n} (ha : a ∈ w p) (hb : b ∈ w p)
    (hr : len (correct (widths S.b S.wrap) (a.x - b.x)) < (a.rest.rd + b.rest.rd) * cutoff + S.skin) :
    ∃ m, Shifts (List.ofFn (D.G p)) m ∧
      image (List.ofFn (D.G p)) m (List.ofFn a.x) (List.ofFn b.x) < ((a.rest.rd + b.rest.rd) * cutoff + S.skin) ^ 2 := by
  obtain ⟨z, hz0, hz⟩ := h.shifts hp hp hp ha hb (X := a.x - b.x) (Y := correct (widths S.b S.wrap) (a.x - b.x)) (fun k => by
      obtain ⟨m, e, e0⟩ := correct_shift S.b S.wrap (a.x - b.x) k
      exact ⟨m, by linarith, e0⟩) hr (fun k hw => by
      have h1 := h.in_box hp ha k
      have h2 := h.in_box hp hb k
      have h3 := C47_inside S.b h.lohi S.P p hp k
      simp only [Pi.sub_apply]
      rw [abs_le]; constructor <;> linarith)
  refine ⟨List.ofFn z, ?_, ?_⟩
  · unfold Shifts
    rw [forall₂_ofFn]
    exact hz0
  · rw [image_ofFn]
    have e : ∑ k, (a.x k - b.x k + z k * ((D.G p k).bd.shi - (D.G p k).bd.slo)) ^ 2 = len (correct (widths S.b S.wrap) (a.x - b.x)) ^ 2 := by
      rw [len_sq]
      exact Finset.sum_congr rfl fun k _ => by rw [← hz k]; rfl
    rw [e]
    exact pow_lt_pow_left₀ hr (len_nonneg _) (by norm_num)

theorem Apt.relative_shift (h : Apt S D w k0 cutoff uses) {p q : ℕ} (hp : p < S.P) (hq : q < S.P) {a : Pa n} (ha : a ∈ w q) (k : Fin (n + 1)) :
    (∃ m : ℤ, relative (cfg S [] fun _ => 0) (centre (cfg S [] fun _ => 0) p) a.x k = a.x k + m * (S.b.hi k - S.b.lo k) ∧ (S.wrap k = false → m = 0)) ∧
    (S.wrap k = true → |relative (cfg S [] fun _ => 0) (centre (cfg S [] fun _ => 0) p) a.x k -
      ((processBounds S.b S.P p).lo k + (processBounds S.b S.P p).hi k) / 2| ≤ (S.b.hi k - S.b.lo k) / 2) := by
  set ctr := centre (cfg S [] fun _ => 0) p with hctr
  have hck : ctr k = ((processBounds S.b S.P p).lo k + (processBounds S.b S.P p).hi k) / 2 := rfl
  have hrel : relative (cfg S [] fun _ => 0) ctr a.x k = ctr k + correct (widths S.b S.wrap) (fun j => a.x j - ctr j) k := rfl
  constructor
  · obtain ⟨m, e, e0⟩ := correct_shift S.b S.wrap (fun j => a.x j - ctr j) k
    refine ⟨m, ?_, e0⟩
    rw [hrel]
    simp only at e
    linarith
  · intro hw
    have h1 := h.in_box hq ha k
    have h3 := C47_inside S.b h.lohi S.P p hp k
    have hwd : widths S.b S.wrap k = some (S.b.hi k - S.b.lo k) := by unfold widths; rw [if_pos hw]
    have := (correct_some (X := fun j => a.x j - ctr j) hwd (by
      simp only [hck]
      rw [abs_le]; constructor <;> linarith)).1
    rw [hrel, ← hck, add_sub_cancel_left]
    exact this

theorem Apt.ghost_image (h : Apt S D w k0 cutoff uses) {p q : ℕ} (hp : p < S.P) (hq : q < S.P) {a b : Pa n} (ha : a ∈ w q) (hb : b ∈ w p)
    (hr : len (correct (widths S.b S.wrap) (a.x - b.x)) < (a.rest.rd + b.rest.rd) * cutoff + S.skin) :
    ∃ m, Shifts (List.ofFn (D.G p)) m ∧
      image (List.ofFn (D.G p)) m (List.ofFn (relative (cfg S [] fun _ => 0) (centre (cfg S [] fun _ => 0) p) a.x)) (List.ofFn b.x) <
        ((a.rest.rd + b.rest.rd) * cutoff + S.skin) ^ 2 := by
  set xg := relative (cfg S [] fun _ => 0) (centre (cfg S [] fun _ => 0) p) a.x with hxg
  obtain ⟨z, hz0, hz⟩ := h.shifts hp hq hp ha hb (X := xg - b.x) (Y := correct (widths S.b S.wrap) (a.x - b.x)) (fun k => by
      obtain ⟨m, e, e0⟩ := correct_shift S.b S.wrap (a.x - b.x) k
      obtain ⟨m', e', e0'⟩ := (h.relative_shift hp hq ha k).1
      refine ⟨m - m', ?_, fun hw => by rw [e0 hw, e0' hw]; rfl⟩
      simp only [Pi.sub_apply] at e ⊢
      rw [← hxg] at e'
      rw [e']
      push_cast
      linarith) hr (fun k hw => by
      have h2 := h.in_box hp hb k
      have h3 := (h.relative_shift hp hq ha k).2 hw
      rw [← hxg] at h3
      simp only [Pi.sub_apply]
      rw [abs_le] at h3 ⊢
      constructor <;> linarith [h3.1, h3.2])
  refine ⟨List.ofFn z, ?_, ?_⟩
  · unfold Shifts
    rw [forall₂_ofFn]
    exact hz0
  · rw [image_ofFn]
    have e : ∑ k, (xg k - b.x k + z k * ((D.G p k).bd.shi - (D.G p k).bd.slo)) ^ 2 = len (correct (widths S.b S.wrap) (a.x - b.x)) ^ 2 := by
      rw [len_sq]
      exact Finset.sum_congr rfl fun k _ => by rw [← hz k]; rfl
    rw [e]
    exact pow_lt_pow_left₀ hr (len_nonneg _) (by norm_num)

/-- A ghost is beyond a shared side. -/
theorem Apt.beyond (h : Apt S D w k0 cutoff uses) {p q : ℕ} (hp : p < S.P) (hq : q < S.P) (hpq : q ≠ p) {a : Pa n} (ha : a ∈ w q) :
    ∃ k, Beyond (D.G p k) (relative (cfg S [] fun _ => 0) (centre (cfg S [] fun _ => 0) p) a.x k) := by
  have hnot : ¬(processBounds S.b S.P p).contains a.x = true := by
    intro hc
    have hbox : S.b.contains a.x = true := (Bounds.contains_iff _ _).mpr fun k => ⟨(h.in_box hq ha k).2.2.1, (h.in_box hq ha k).2.2.2⟩
    obtain ⟨o, _, hu⟩ := (C47_partition S.b h.lohi S.P (by omega) a.x).1 hbox
    exact hpq ((hu q ⟨hq, (h.home q hq a ha).1⟩).trans (hu p ⟨hp, hc⟩).symm)
  rw [Bounds.contains_iff] at hnot
  push Not at hnot
  obtain ⟨k, hk⟩ := hnot
  refine ⟨k, ?_⟩
  set xg := relative (cfg S [] fun _ => 0) (centre (cfg S [] fun _ => 0) p) a.x k with hxg
  obtain ⟨m, em, em0⟩ := (h.relative_shift hp hq ha k).1
  rw [← hxg] at em
  have h1 := h.in_box hq ha k
  have h3 := C47_inside S.b h.lohi S.P p hp k
  have ht := h.thick p hp k
  have hB : 0 < S.b.hi k - S.b.lo k := by linarith [h.lohi k]
  have hbd := GhostPairs.C149_borders (D.G p k).bd (by rw [h.parts p hp k]; exact h3.1) (by rw [h.parts p hp k]; exact h3.2.2)
  unfold Beyond
  rw [h.parts p hp k] at hbd ⊢
  simp only at hbd ⊢
  set L := (processBounds S.b S.P p).lo k
  set H := (processBounds S.b S.P p).hi k
  have hout : xg < L ∨ H ≤ xg := by
    by_contra hn
    push Not at hn
    have hm : m = 0 := by
      by_contra hm
      have h1' : (1 : ℝ) ≤ |(m : ℝ)| := by exact_mod_cast Int.one_le_abs hm
      have h2 : S.b.hi k - S.b.lo k ≤ |(m : ℝ) * (S.b.hi k - S.b.lo k)| := by rw [abs_mul, abs_of_pos hB]; nlinarith
      have h4 : |(m : ℝ) * (S.b.hi k - S.b.lo k)| < S.b.hi k - S.b.lo k := by
        have : (m : ℝ) * (S.b.hi k - S.b.lo k) = xg - a.x k := by linarith
        rw [this, abs_lt]; constructor <;> linarith [hn.1, hn.2]
      linarith
    rw [hm] at em
    simp at em
    rw [em] at hn
    exact absurd (hk hn.1) (not_le.mpr hn.2)
  have hfree : S.wrap k = false → xg = a.x k := fun hw => by rw [em, em0 hw]; simp
  have hnb : ¬(L = S.b.lo k ∧ H = S.b.hi k) := by
    rintro ⟨e1, e2⟩
    have := hk (by rw [e1]; exact h1.2.2.1)
    rw [e2] at this
    linarith
  rcases hout with ho | ho
  · right
    refine ⟨fun e => ?_, ho, by linarith⟩
    obtain ⟨e1, e2⟩ := hbd.1.mp e
    by_cases hw : S.wrap k = true
    · exact hnb ⟨e1, e2 hw⟩
    · rw [hfree (by simpa using hw), e1] at ho
      linarith
  · left
    refine ⟨fun e => ?_, ho⟩
    obtain ⟨e1, e2⟩ := hbd.2.mp e
    by_cases hw : S.wrap k = true
    · exact hnb ⟨e2 hw, e1⟩
    · rw [hfree (by simpa using hw), e1] at ho
      linarith

/-! ## Ghosts -/

theorem distance_le (B : Bounds.Box (n + 1)) (x y : Fin (n + 1) → ℝ) (hx : B.contains x = true) : B.distance y ≤ len (y - x) := by
  have hx' := (Bounds.contains_iff _ _).mp hx
  rw [Bounds.distance_eq B y fun k => le_of_lt (lt_of_le_of_lt (hx' k).1 (hx' k).2)]
  unfold len dot
  refine Real.sqrt_le_sqrt (Finset.sum_le_sum fun k _ => ?_)
  have h1 := hx' k
  have h0 : 0 ≤ Bounds.out (B.lo k) (B.hi k) (y k) := le_max_left _ _
  have h2 : Bounds.out (B.lo k) (B.hi k) (y k) ≤ |y k - x k| := by
    unfold Bounds.out
    refine max_le (abs_nonneg _) (max_le ?_ ?_)
    · have := neg_abs_le (y k - x k); linarith
    · have := le_abs_self (y k - x k); linarith
  simp only [Pi.sub_apply]
  rw [← sq, ← sq_abs (y k - x k)]
  exact pow_le_pow_left₀ h0 h2 2

theorem nbs_nodup (b : Bounds.Box (n + 1)) (wrap : Fin (n + 1) → Bool) (P p : ℕ) (hP : 2 ≤ P) : (nbs b wrap P p).Nodup := by
  unfold nbs neighbors
  have h1 : ((leaves (topology b P)).map Prod.fst).Nodup := by rw [(C47_ranks b P hP).1]; exact List.nodup_range
  exact List.Nodup.sublist ((List.filter_sublist.trans List.filter_sublist).map _) h1

theorem ghost_ids (S : Setup n) (w : ℕ → List (Pa n)) (p : ℕ) :
    (ghostsOf S w p).map (·.rest.id) = (nbs S.b S.wrap S.P p).flatMap fun q =>
      (idsFor (cfg S [] fun _ => 0) q (w q) p).filterMap fun i => (w q)[i]?.map (·.rest.id) := by
  unfold ghostsOf view
  rw [List.map_flatMap]
  show List.flatMap _ (nbs S.b S.wrap S.P p) = _
  congr 1
  funext q
  rw [List.map_filterMap]
  congr 1
  funext i
  cases (w q)[i]? with
  | none => rfl
  | some a => rfl

theorem ghost_ids_nodup (ho : Once S.P N w) (hP : 2 ≤ S.P) (p : ℕ) : ((ghostsOf S w p).map (·.rest.id)).Nodup := by
  rw [ghost_ids, List.nodup_flatMap]
  constructor
  · intro q hq
    have hq' := (mem_nbs S.b S.wrap S.P p q hP hq).1
    have hnd : (idsFor (cfg S [] fun _ => 0) q (w q) p).Nodup := List.Nodup.filter _ List.nodup_range
    refine hnd.filterMap ?_
    intro i j id h1 h2
    simp only [Option.mem_def, Option.map_eq_some_iff] at h1 h2
    obtain ⟨a, ha, e1⟩ := h1
    obtain ⟨b, hb, e2⟩ := h2
    exact own_inj ho hq' ha hb (e1.trans e2.symm)
  · refine (nbs_nodup S.b S.wrap S.P p hP).pairwise_of_forall_ne ?_
    intro q hq q' hq' hne
    have k1 := (mem_nbs S.b S.wrap S.P p q hP hq).1
    have k2 := (mem_nbs S.b S.wrap S.P p q' hP hq').1
    simp only [Function.onFun]
    rw [List.disjoint_left]
    intro id h1 h2
    obtain ⟨i, _, h1⟩ := List.mem_filterMap.mp h1
    obtain ⟨j, _, h2⟩ := List.mem_filterMap.mp h2
    obtain ⟨a, ha, e1⟩ := Option.map_eq_some_iff.mp h1
    obtain ⟨b, hb, e2⟩ := Option.map_eq_some_iff.mp h2
    have r1 := where_eq ho k1 (List.mem_of_getElem? ha)
    have r2 := where_eq ho k2 (List.mem_of_getElem? hb)
    rw [e1] at r1
    rw [e2, r1] at r2
    exact hne (by simpa using congrArg (fun o : Option (ℕ × Pa n) => o.map Prod.fst) r2)

theorem ghost_unique (ho : Once S.P N w) (hP : 2 ≤ S.P) {p g g' : ℕ} {c c' : Pa n} (hg : (ghostsOf S w p)[g]? = some c)
    (hg' : (ghostsOf S w p)[g']? = some c') (e : c.rest.id = c'.rest.id) : g = g' := by
  have hn := ghost_ids_nodup ho hP p
  obtain ⟨h1, h2⟩ := List.getElem?_eq_some_iff.mp hg
  obtain ⟨h3, h4⟩ := List.getElem?_eq_some_iff.mp hg'
  exact (List.Nodup.getElem_inj_iff hn (i := g) (j := g') (hi := by simpa using h1) (hj := by simpa using h3)).mp
    (by simp only [List.getElem_map, h2, h4, e])

/-- A ghost is the image of a particle of another processor. -/
theorem mem_ghosts (ho : Once S.P N w) {p : ℕ} {c : Pa n} (hc : c ∈ ghostsOf S w p) (hP : 2 ≤ S.P) :
    ∃ q < S.P, q ≠ p ∧ ∃ a ∈ w q, c.rest = a.rest ∧ c.x = relative (cfg S [] fun _ => 0) (centre (cfg S [] fun _ => 0) p) a.x := by
  obtain ⟨q, hq, i, a0, a, h0, h1, rfl⟩ := mem_view hc
  obtain ⟨k1, k2, _⟩ := mem_nbs S.b S.wrap S.P p q hP hq
  rw [h0] at h1
  cases h1
  exact ⟨q, k1, k2, a0, List.mem_of_getElem? h0, rfl, rfl⟩

/-- A particle in range of one of another processor is a ghost there. -/
theorem Apt.present (h : Apt S D w k0 cutoff uses) {p q : ℕ} (hp : p < S.P) (hq : q < S.P) (hpq : q ≠ p) {a b : Pa n} (ha : a ∈ w q) (hb : b ∈ w p)
    (hr : len (correct (widths S.b S.wrap) (a.x - b.x)) < (a.rest.rd + b.rest.rd) * cutoff + S.skin) :
    ∃ g : ℕ, (ghostsOf S w p)[g]? = some (⟨relative (cfg S [] fun _ => 0) (centre (cfg S [] fun _ => 0) p) a.x, a.v, a.om, a.rest⟩ : Pa n) := by
  have hP : 2 ≤ S.P := by omega
  have hcut : len (correct (widths S.b S.wrap) (a.x - b.x)) < 2 * a.rest.rd * S.maxCut a.rest.type + S.skin := by
    have := h.sent q hq a ha p hp b hb
    linarith
  have hs := correct_shift S.b S.wrap (a.x - b.x)
  set s : Fin (n + 1) → ℝ := fun k => correct (widths S.b S.wrap) (a.x - b.x) k - (a.x - b.x) k with hsdef
  have hd : (processBounds S.b S.P p).distance (fun k => a.x k + s k) < 2 * a.rest.rd * S.maxCut a.rest.type + S.skin := by
    refine lt_of_le_of_lt (distance_le _ b.x _ (h.home p hp b hb).1) ?_
    have e : (fun k => a.x k + s k) - b.x = correct (widths S.b S.wrap) (a.x - b.x) := by
      funext k
      simp only [Pi.sub_apply, hsdef]
      ring
    rw [e]
    exact hcut
  have hbox : S.b.contains a.x = true := (Bounds.contains_iff _ _).mpr fun k => ⟨(h.in_box hq ha k).2.2.1, (h.in_box hq ha k).2.2.2⟩
  have hov : (p, processBounds S.b S.P p) ∈ overlaps S.b S.wrap S.P q a.x (2 * a.rest.rd * S.maxCut a.rest.type + S.skin) := by
    rcases h.neighbours with hn | hn
    · exact C76_complete_partial S.b h.lohi S.wrap S.P q p hq hp (Ne.symm hpq) a.x (h.home q hq a ha).1 _ (hn q hq a ha) s hs hd
    · exact (C76_overlaps S.b h.lohi S.wrap S.P q p hp hP a.x hbox _ (hn p hp q hq (Ne.symm hpq))).mpr ⟨s, hs, hd⟩
  have hnq : (p, processBounds S.b S.P p) ∈ neighbors S.b S.wrap S.P q := by
    unfold overlaps at hov
    exact List.mem_of_mem_filter hov
  have hnp : q ∈ nbs S.b S.wrap S.P p := by
    unfold nbs
    exact List.mem_map.mpr ⟨_, C76_symmetric S.b S.wrap S.P q p hP hq hp hnq, rfl⟩
  obtain ⟨i, hi⟩ := List.mem_iff_getElem?.mp ha
  refine List.mem_iff_getElem?.mp ?_
  unfold ghostsOf view
  refine List.mem_flatMap.mpr ⟨q, hnp, List.mem_filterMap.mpr ⟨i, ?_, ?_⟩⟩
  · unfold idsFor ghostsFor
    refine List.mem_filter.mpr ⟨?_, ?_⟩
    · simpa using (List.getElem?_eq_some_iff.mp hi).1
    · simp only [List.getElem?_map, hi, Option.map_some]
      exact List.any_eq_true.mpr ⟨_, hov, by simp⟩
  · rw [hi]
    simp [snapshot]

/-! ## The lists -/

theorem live_at {p i : ℕ} {gh : List (Pa n)} (hl : (osys S D p (w p) gh).Live i) :
    ∃ a, (w p)[i]? = some a ∧ a ∈ w p ∧ (osys S D p (w p) gh).x i = List.ofFn a.x ∧ (osys S D p (w p) gh).rd i = a.rest.rd ∧
      (osys S D p (w p) gh).type i = a.rest.type := by
  have h1 : i < (w p).length := hl.1
  refine ⟨(w p)[i], List.getElem?_eq_getElem h1, List.getElem_mem h1, ?_, ?_, ?_⟩ <;>
    simp [osys, List.getElem?_eq_getElem h1]

theorem Apt.live (h : Apt S D w k0 cutoff uses) {p i : ℕ} (hp : p < S.P) {a : Pa n} (ha : (w p)[i]? = some a) (hi : D.inter a.rest.type = true)
    (gh : List (Pa n)) : (osys S D p (w p) gh).Live i := by
  have ht : (osys S D p (w p) gh).type i = a.rest.type := by simp [osys, ha]
  refine ⟨(List.getElem?_eq_some_iff.mp ha).1, ?_, ?_⟩
  · rw [ht]; exact (h.home p hp a (List.mem_of_getElem? ha)).2
  · rw [ht]; exact hi

theorem mem_given {k l : ℕ} {ty ty' : ℕ → ℤ} {V : List Visit} {q : ℕ × ℕ} (hq : q ∈ given D k l ty ty' V) :
    ∃ v ∈ V, v.list = l ∧ D.grid (ty v.id1) (ty' v.id2) = some k ∧ q = (v.id1, v.id2) := by
  unfold given at hq
  obtain ⟨v, hv, rfl⟩ := List.mem_map.mp hq
  rw [List.mem_filter, Bool.and_eq_true, decide_eq_true_eq, decide_eq_true_eq] at hv
  exact ⟨v, hv.1, hv.2.1, hv.2.2, rfl⟩

theorem count_given {k l : ℕ} {ty ty' : ℕ → ℤ} {V : List Visit} (f f' : ℕ → ℕ) (a b : ℕ) :
    ((given D k l ty ty' V).map fun q => (f q.1, f' q.2)).count (a, b) =
      V.countP fun v => decide (v.list = l) && decide (D.grid (ty v.id1) (ty' v.id2) = some k) && (decide (f v.id1 = a) && decide (f' v.id2 = b)) := by
  unfold given
  rw [List.map_map, List.count_eq_countP, List.countP_map, List.countP_filter]
  refine List.countP_congr fun v _ => ?_
  simp only [Function.comp, Bool.and_eq_true, beq_iff_eq, Prod.mk.injEq, decide_eq_true_eq]
  tauto

theorem abs_le_of_distSq {m : ℕ} {x y : Fin m → ℝ} {r : ℝ} (hr : 0 ≤ r) (h : distSq (List.ofFn x) (List.ofFn y) < r ^ 2) (k : Fin m) :
    |x k - y k| ≤ r := by
  rw [distSq_ofFn] at h
  have : (x k - y k) ^ 2 ≤ ∑ k, (x k - y k) ^ 2 :=
    Finset.single_le_sum (f := fun k => (x k - y k) ^ 2) (fun i _ => sq_nonneg _) (Finset.mem_univ k)
  exact abs_le_of_sq_le_sq (by linarith) hr

/-- C183: if every particle is in the part of its processor, the ghosts are those the processors send one another, and the lists are the ones
that the domains make, then the lists are complete in the sense of C155: on each processor they hold only pairs the interaction is for;
pairs in the plain list need no correction; every pair of its own particles in range is listed once, in one of the two orders; every
particle of another processor in range of an own particle is there as a ghost, and the pair is in the list of ghosts once.

Missing: large particles, cutoffs above one, unequal radii, ranges above 0.1 between processors that are not neighbours and the other
conditions of C149 and C180; each is a condition under which the code does lose pairs (negations there and in C76). -/
theorem C183_complete_partial (S : Setup n) (D : Domains n) (N : ℕ) (w : ℕ → List (Pa n)) (k0 : ℕ) (F : Force) (cutoff : ℝ) (uses : ℕ → ℕ → Prop)
    (h : Apt S D w k0 cutoff uses) (ho : Once S.P N w) (Ks : List Kind) (dts : ℕ → ℝ) (p : ℕ) (hp : p < S.P) :
    Complete (worldOf S N w) p (procOf (w p) (view (cfg S Ks dts) w w 0 p)) (made S D w k0 F cutoff uses) S.skin := by
  have hview : view (cfg S Ks dts) w w 0 p = ghostsOf S w p := rfl
  rw [hview]
  set gh := ghostsOf S w p with hgh
  set s := osys S D p (w p) gh with hs
  have hOK := h.own p hp
  rw [← hgh, ← hs] at hOK
  have hGK := h.ghost p hp
  rw [← hgh, ← hs] at hGK
  have hcut : s.cut = some D.cut := rfl
  have hid : ∀ i a, (w p)[i]? = some a → (procOf (w p) gh).own i = a.rest.id := by
    intro i a hi; simp [procOf, hi]
  have hgid : ∀ g c, gh[g]? = some c → (procOf (w p) gh).gh g = c.rest.id := by
    intro g c hg; simp [procOf, hg]
  have hpl : (made S D w k0 F cutoff uses).plain p = given D k0 0 s.type s.type s.own := rfl
  have hwr : (made S D w k0 F cutoff uses).wrapped p = given D k0 1 s.type s.type s.own := rfl
  have hgl : (made S D w k0 F cutoff uses).ghost p = given D k0 2 s.typeg s.type s.traverse := rfl
  refine ⟨?_, ?_, ?_, ?_, ?_⟩
  · intro q hq
    rw [hpl, hwr, List.mem_append] at hq
    have hq' : ∃ v ∈ s.own, D.grid (s.type v.id1) (s.type v.id2) = some k0 ∧ q = (v.id1, v.id2) := by
      rcases hq with hq | hq
      · obtain ⟨v, h1, _, h2, h3⟩ := mem_given hq; exact ⟨v, h1, h2, h3⟩
      · obtain ⟨v, h1, _, h2, h3⟩ := mem_given hq; exact ⟨v, h1, h2, h3⟩
    obtain ⟨v, hv, hg, rfl⟩ := hq'
    obtain ⟨l1, l2, _, _⟩ := mem_own hcut hOK.small hv
    obtain ⟨a, ea, ma, _, _, ta⟩ := live_at l1
    obtain ⟨b, eb, mb, _, _, tb⟩ := live_at l2
    refine ⟨l1.1, l2.1, ?_, ?_⟩
    · intro e
      have h0 := OwnPairs.C180_no_pair_twice_partial s D.cut hcut hOK v.id1 v.id2 l1 l2
      simp only at e
      rw [if_pos e] at h0
      have : 0 < s.own.countP (IsPair v.id1 v.id2) := List.countP_pos_iff.mpr ⟨v, hv, by simp [IsPair]⟩
      omega
    · rw [hid _ a ea, hid _ b eb]
      rw [ta, tb] at hg
      exact (h.uses_iff p hp a ma p hp b mb).mpr hg
  · intro q hq k B hB
    rw [hpl] at hq
    obtain ⟨v, hv, hl0, hg, rfl⟩ := mem_given hq
    obtain ⟨l1, l2, _, hnear⟩ := mem_own hcut hOK.small hv
    obtain ⟨a, ea, ma, xa, ra, ta⟩ := live_at l1
    obtain ⟨b, eb, mb, xb, rb, tb⟩ := live_at l2
    obtain ⟨hwk, hBe⟩ := widths_some (S := S) (k := k) (B := B) hB
    simp only
    rw [hid _ a ea, hid _ b eb, (world_at ho hp ma).2.1, (world_at ho hp mb).2.1]
    have hn := hnear hl0
    have hgc : D.cut a.rest.type b.rest.type = cutoff := by rw [ta, tb] at hg; exact (h.interacts _ _ hg).2
    rw [xa, xb, ra, rb, ta, tb, hgc] at hn
    have r1 := h.rd0 p hp a ma
    have r2 := h.rd0 p hp b mb
    have c0 := h.cutoff0
    have c1 := h.cutoff1
    have hwd := h.wide p hp a ma p hp b mb k hwk
    have hsk : s.skin = S.skin := rfl
    have s0 := h.skin0
    rw [hsk] at hn
    have p1 := mul_nonneg r1 c0
    have p2 := mul_nonneg r2 c0
    have q1 := mul_le_mul_of_nonneg_left c1 r1
    have q2 := mul_le_mul_of_nonneg_left c1 r2
    rcases hn with hn | hn
    · have := abs_le_of_distSq (by linarith) hn k
      rw [hBe]; linarith
    · have := abs_le_of_distSq (by nlinarith) hn k
      rw [hBe]; linarith
  · intro q hq
    rw [hgl] at hq
    obtain ⟨v, hv, _, hg, rfl⟩ := mem_given hq
    obtain ⟨_, g1, l2, _⟩ := GhostPairs.C149_listed_pairs s.toGSys v hv
    obtain ⟨b, eb, mb, _, _, tb⟩ := live_at l2
    have g1' : v.id1 < gh.length := g1
    have hc := List.getElem?_eq_getElem g1'
    have hmem : gh[v.id1] ∈ ghostsOf S w p := List.getElem_mem g1'
    refine ⟨g1, l2.1, ?_⟩
    have hP : 2 ≤ S.P := by
      by_contra hP
      have e1 : S.P = 1 := by omega
      obtain ⟨q, hq, _⟩ := mem_view hmem
      have : nbs S.b S.wrap S.P p = [] := by rw [e1]; exact nbs_one _ _ _ (by omega)
      rw [show nbs (cfg S [] fun _ => (0 : ℝ)).b (cfg S [] fun _ => (0 : ℝ)).wrap (cfg S [] fun _ => (0 : ℝ)).P p = nbs S.b S.wrap S.P p from rfl, this] at hq
      simp at hq
    obtain ⟨q, hq, _, a, ma, er, _⟩ := mem_ghosts ho hmem hP
    have tg : s.typeg v.id1 = a.rest.type := by
      show (gh[v.id1]?.elim (-1) (·.rest.type)) = _
      rw [hc, Option.elim_some, er]
    simp only
    rw [hgid _ _ hc, hid _ b eb, er]
    rw [tg, tb] at hg
    exact (h.uses_iff q hq a ma p hp b mb).mpr hg
  · intro ia hia ib hib hne oa ob hr
    obtain ⟨pa, hpa, a, ma, rfl⟩ := exists_id ho hia
    obtain ⟨pb, hpb, b, mb, rfl⟩ := exists_id ho hib
    obtain ⟨wa1, wa2, _, wa3, _⟩ := world_at ho hpa ma
    obtain ⟨wb1, wb2, _, wb3, _⟩ := world_at ho hpb mb
    obtain rfl : pa = p := by rw [wa1] at oa; exact oa
    obtain rfl : pb = pa := by rw [wb1] at ob; exact ob
    obtain ⟨hu, hlen⟩ := hr
    have hu' : D.grid a.rest.type b.rest.type = some k0 := (h.uses_iff _ hp a ma _ hp b mb).mp hu
    have hlen' : len (correct (widths S.b S.wrap) (a.x - b.x)) < (a.rest.rd + b.rest.rd) * cutoff + S.skin := by
      have : sep (worldOf S N w).w (worldOf S N w).G (a.rest.id, b.rest.id) = correct (widths S.b S.wrap) (a.x - b.x) := by
        unfold sep; rw [wa2, wb2]; rfl
      rw [this, wa3, wb3] at hlen
      exact hlen
    obtain ⟨i, hi⟩ := List.mem_iff_getElem?.mp ma
    obtain ⟨j, hj⟩ := List.mem_iff_getElem?.mp mb
    have li : s.Live i := h.live hp hi (h.interacts _ _ hu').1 gh
    have lj : s.Live j := h.live hp hj (h.interacts _ _ (h.symm _ _ hu')).1 gh
    have hij : i ≠ j := by
      rintro rfl
      rw [hi] at hj
      cases hj
      exact hne rfl
    obtain ⟨a', ea, _, xa, ra, ta⟩ := live_at li
    obtain ⟨b', eb, _, xb, rb, tb⟩ := live_at lj
    rw [hi] at ea; cases ea
    rw [hj] at eb; cases eb
    have hcu : D.cut a.rest.type b.rest.type = cutoff := (h.interacts _ _ hu').2
    obtain ⟨m, hm, him⟩ := h.own_image hp ma mb hlen'
    have hrange : s.range D.cut i j = (a.rest.rd + b.rest.rd) * cutoff + S.skin := by
      unfold OSys.range
      rw [ra, rb, ta, tb, hcu]
      rfl
    have hone := (OwnPairs.C180_no_pair_missed_partial s D.cut hcut hOK i j li lj hij m hm (by rw [xa, xb, hrange]; exact him)
      (Or.inl (by rw [ta, tb, hcu]; exact h.cutoff1))).1
    rw [hpl, hwr, List.map_append, List.count_append, List.count_append, count_given, count_given, count_given, count_given]
    refine (countP_four (q := IsPair i j) fun v hv => ?_).trans hone
    obtain ⟨l1, l2, hl, _⟩ := mem_own hcut hOK.small hv
    obtain ⟨c, ec, mc, _, _, tc⟩ := live_at l1
    obtain ⟨e, ee, me, _, _, te⟩ := live_at l2
    rw [hid _ c ec, hid _ e ee, tc, te]
    have k1 : c.rest.id = a.rest.id ↔ v.id1 = i :=
      ⟨fun x => own_inj ho hp ec hi x, fun x => by rw [x, hi] at ec; cases ec; rfl⟩
    have k2 : e.rest.id = b.rest.id ↔ v.id2 = j :=
      ⟨fun x => own_inj ho hp ee hj x, fun x => by rw [x, hj] at ee; cases ee; rfl⟩
    have k3 : c.rest.id = b.rest.id ↔ v.id1 = j :=
      ⟨fun x => own_inj ho hp ec hj x, fun x => by rw [x, hj] at ec; cases ec; rfl⟩
    have k4 : e.rest.id = a.rest.id ↔ v.id2 = i :=
      ⟨fun x => own_inj ho hp ee hi x, fun x => by rw [x, hi] at ee; cases ee; rfl⟩
    simp only [k1, k2, k3, k4, IsPair]
    by_cases hA : v.id1 = i ∧ v.id2 = j
    · have hg : D.grid c.rest.type e.rest.type = some k0 := by
        rw [hA.1, hi] at ec; cases ec
        rw [hA.2, hj] at ee; cases ee
        exact hu'
      rw [hA.1, hA.2]
      have hji : ¬ j = i := fun e => hij e.symm
      rcases hl with hl | hl <;> simp [hl, hg, hij]
    · by_cases hB : v.id1 = j ∧ v.id2 = i
      · have hg : D.grid c.rest.type e.rest.type = some k0 := by
          rw [hB.1, hj] at ec; cases ec
          rw [hB.2, hi] at ee; cases ee
          exact h.symm _ _ hu'
        rw [hB.1, hB.2]
        have hji : ¬ j = i := fun e => hij e.symm
        rcases hl with hl | hl <;> simp [hl, hg, hji]
      · have e1 : (decide (v.id1 = i) && decide (v.id2 = j)) = false := by
          rw [Bool.eq_false_iff, Ne, Bool.and_eq_true, decide_eq_true_eq, decide_eq_true_eq]; exact hA
        have e2 : (decide (v.id1 = j) && decide (v.id2 = i)) = false := by
          rw [Bool.eq_false_iff, Ne, Bool.and_eq_true, decide_eq_true_eq, decide_eq_true_eq]; exact hB
        rw [e1, e2]
        simp [hA, hB]
  · intro ia hia ib hib oa ob hr
    obtain ⟨pa, hpa, a, ma, rfl⟩ := exists_id ho hia
    obtain ⟨pb, hpb, b, mb, rfl⟩ := exists_id ho hib
    obtain ⟨wa1, wa2, _, wa3, _⟩ := world_at ho hpa ma
    obtain ⟨wb1, wb2, _, wb3, _⟩ := world_at ho hpb mb
    have hpap : pa ≠ p := by rw [wa1] at oa; exact oa
    obtain rfl : pb = p := by rw [wb1] at ob; exact ob
    obtain ⟨hu, hlen⟩ := hr
    have hu' : D.grid a.rest.type b.rest.type = some k0 := (h.uses_iff _ hpa a ma _ hp b mb).mp hu
    have hlen' : len (correct (widths S.b S.wrap) (a.x - b.x)) < (a.rest.rd + b.rest.rd) * cutoff + S.skin := by
      have : sep (worldOf S N w).w (worldOf S N w).G (a.rest.id, b.rest.id) = correct (widths S.b S.wrap) (a.x - b.x) := by
        unfold sep; rw [wa2, wb2]; rfl
      rw [this, wa3, wb3] at hlen
      exact hlen
    have hP : 2 ≤ S.P := by omega
    obtain ⟨j, hj⟩ := List.mem_iff_getElem?.mp mb
    have lj : s.Live j := h.live hp hj (h.interacts _ _ (h.symm _ _ hu')).1 gh
    obtain ⟨b', eb, _, xb, rb, tb⟩ := live_at lj
    rw [hj] at eb; cases eb
    obtain ⟨g, hg⟩ := h.present hp hpa hpap ma mb hlen'
    obtain ⟨k, hk⟩ := h.beyond hp hpa hpap ma
    obtain ⟨m, hm, him⟩ := h.ghost_image hp hpa ma mb hlen'
    have hxg : s.xg g = List.ofFn (relative (cfg S [] fun _ => 0) (centre (cfg S [] fun _ => 0) pb) a.x) := by
      show List.ofFn (gh[g]?.elim 0 (·.x)) = _
      rw [hg]; rfl
    have hrg : s.rdg g = a.rest.rd := by
      show gh[g]?.elim 0 (·.rest.rd) = _
      rw [hg]; rfl
    have htg : s.typeg g = a.rest.type := by
      show gh[g]?.elim (-1) (·.rest.type) = _
      rw [hg]; rfl
    have hcu : D.cut a.rest.type b.rest.type = cutoff := (h.interacts _ _ hu').2
    have r1 := h.rd0 _ hpa a ma
    have r2 := h.rd0 _ hp b mb
    have m1 := h.small _ hpa a ma
    have m2 := h.small _ hp b mb
    have c0 := h.cutoff0
    have c1 := h.cutoff1
    have s0 := h.skin0
    have hone := GhostPairs.C149_ghost_pairs_partial s.toGSys hGK D.cut hcut g j (List.getElem?_eq_some_iff.mp hg).1 lj
      ⟨_, by rw [hxg]; exact zip_ofFn (D.G pb) _ k, hk⟩ m hm ((a.rest.rd + b.rest.rd) * cutoff + S.skin)
      (by rw [hrg, rb, htg, tb, hcu]; rfl) (by nlinarith) (by show _ ≤ 2 * D.mss + S.skin; nlinarith) (by rw [hxg, xb]; exact him)
    rw [hgl, count_given]
    have : (s.traverse.countP fun v => decide (v.list = 2) && decide (D.grid (s.typeg v.id1) (s.type v.id2) = some k0) &&
        (decide ((procOf (w pb) gh).gh v.id1 = a.rest.id) && decide ((procOf (w pb) gh).own v.id2 = b.rest.id))) = s.traverse.countP (isOrd g j) := by
      refine List.countP_congr fun v hv => ?_
      obtain ⟨v2, g1, l2, _⟩ := GhostPairs.C149_listed_pairs s.toGSys v hv
      obtain ⟨e, ee, me, _, _, te⟩ := live_at l2
      have g1' : v.id1 < gh.length := g1
      have hc := List.getElem?_eq_getElem g1'
      rw [hid _ e ee, hgid _ _ hc]
      simp only [Bool.and_eq_true, decide_eq_true_eq, isOrd]
      constructor
      · rintro ⟨_, x1, x2⟩
        exact ⟨ghost_unique ho hP hc hg x1, own_inj ho hp ee hj x2⟩
      · rintro ⟨x1, x2⟩
        refine ⟨⟨v2, ?_⟩, ?_, ?_⟩
        · rw [x1, x2, htg, tb]; exact hu'
        · have hc' : gh[g]? = some gh[v.id1] := by rw [← hc, x1]
          have := Option.some.inj (hg.symm.trans hc')
          rw [← this]
        · rw [x2, hj] at ee; cases ee; rfl
    rw [this, List.countP_eq_length_filter, hone]
    rfl

end

/-! ## Runs -/

theorem Built.cycle {S : Setup n} {D : Domains n} {sys : Sys} {dts : ℕ → ℝ} {R : ℕ} {w w' : ℕ → List (Pa n)} {M : Motion n} (hf : Fits S sys)
    (h0 : Follows S sys M w) (h : Built S D sys dts R w w') : Cycle S sys dts R w w' := by
  obtain ⟨w1, he, ha, hs⟩ := h
  refine ⟨w1, madeAll S D w1 sys.forces, he, ?_, ?_, hs⟩
  · unfold madeAll
    exact List.ext_getElem? fun k => by rw [List.getElem?_map, List.getElem?_mapIdx]; cases sys.forces[k]? <;> rfl
  · intro K hK p hp
    obtain ⟨k, hk⟩ := List.mem_iff_getElem?.mp hK
    unfold madeAll at hk
    rw [List.getElem?_mapIdx] at hk
    cases hT : sys.forces[k]? with
    | none => rw [hT] at hk; simp at hk
    | some T =>
      rw [hT] at hk
      have hk := Option.some.inj hk
      subst hk
      exact C183_complete_partial S D sys.N w1 k T.1 T.2.1 T.2.2 (ha k T hT) (exchanged_follows hf h0 he).1.once _ _ p hp

/-- C183: after any number of cycles on any number of processors, with any order of the events of their messages, and with the lists that
each processor's domain makes of its particles and the ghosts it was sent, the processors together hold every particle once, with the
velocity and (up to whole widths in wrapping dimensions) the position of the motion without processors, wrapping, cells, lists and ghosts,
if constructions are timely and no two particles are in the same place. Missing: the conditions of `C183_complete_partial` and
`C155_motion_partial`. -/
theorem C183_motion_partial (S : Setup n) (D : Domains n) (sys : Sys) (hf : Fits S sys) (dts : ℕ → ℝ) (M0 : Motion n) (w0 w : ℕ → List (Pa n)) (l : List ℕ)
    (h0 : Follows S sys M0 w0) (hrun : Goes S D sys dts w0 l w)
    (ht : Timely sys S.skin (orbit sys (widths S.b S.wrap) dts M0) l)
    (hs : Separate sys (widths S.b S.wrap) (orbit sys (widths S.b S.wrap) dts M0) l.sum) :
    Follows S sys (orbit sys (widths S.b S.wrap) dts M0 l.sum) w := by
  suffices hr : Runs S sys dts w0 l w from C155_motion_partial S sys hf dts M0 w0 w l h0 hr ht hs
  induction hrun with
  | init => exact .init
  | cycle l R w w' h hc ih =>
    have ht' : Timely sys S.skin (orbit sys (widths S.b S.wrap) dts M0) l :=
      fun l1 R1 l2 e => ht l1 R1 (l2 ++ [R]) (by rw [e]; simp)
    have hs' : Separate sys (widths S.b S.wrap) (orbit sys (widths S.b S.wrap) dts M0) l.sum :=
      fun t hlt => hs t (by simp only [List.sum_append, List.sum_cons, List.sum_nil]; omega)
    have hr := ih ht' hs'
    exact .cycle l R w w' hr (hc.cycle hf (C155_motion_partial S sys hf dts M0 w0 w l h0 hr ht' hs'))

/-! ## Example -/

/-- Example: the grid of the dimension of processor 0: `[0, 1)` of `[0, 2)`, four cells of width 0.25 and a halo cell above. -/
noncomputable def exA0 : HAx ℝ := ⟨⟨0, 1, 0, 2, false⟩, ⟨0, 1, 5, 1/4, 0, 1⟩⟩

/-- Example: the grid of processor 1: `[1, 2)`, a halo cell below. -/
noncomputable def exA1 : HAx ℝ := ⟨⟨1, 2, 0, 2, false⟩, ⟨1, 2, 5, 1/4, 1, 0⟩⟩

/-- Example: one type of particles of radius 0.2. -/
noncomputable def exDomains : Domains 0 :=
  ⟨fun p _ => if p = 0 then exA0 else exA1, 2/10, fun _ => true, fun _ _ => 1, fun s t => if s = 0 ∧ t = 0 then some 0 else none⟩

theorem ex_borders : borders exA0.bd = (0, 1) ∧ borders exA1.bd = (1, 0) := by
  constructor <;> norm_num [borders, exA0, exA1]

theorem ex_valid : exA0.Valid (1/2) ∧ exA1.Valid (1/2) := by
  have t : Grid.trunc (2 : ℝ) = 2 := by norm_num [Grid.trunc]
  refine ⟨⟨by norm_num [exA0], ?_⟩, ⟨by norm_num [exA1], ?_⟩⟩
  · rw [ex_borders.1]
    have : ((1 : ℝ) - 0) / (1/2) = 2 := by norm_num
    simp only [exA0, Grid.calcAxis, this, t]
    norm_num
    rfl
  · rw [ex_borders.2]
    have : ((2 : ℝ) - 1) / (1/2) = 2 := by norm_num
    simp only [exA1, Grid.calcAxis, this, t]
    norm_num
    rfl

theorem ex_per : exA0.per = false ∧ exA1.per = false := by
  constructor <;> simp [HAx.per, exA0, exA1]

theorem ex_sweep : sweepOf (1/2 : ℝ) (1/4) = 2 := by
  unfold sweepOf
  norm_num
  rfl

theorem ex_ghosts (v : ℝ) : ghostsOf exSetup (exW v) 0 = [exPa 1 (11/10) v] ∧ ghostsOf exSetup (exW v) 1 = [exPa 0 (9/10) 0] :=
  ex_view [] (fun _ => 0) v

/-- Example: the conditions hold of a processor whose only particle is at `x` and only ghost at `y`. -/
theorem ex_ok {p : ℕ} {A : HAx ℝ} (hA : exDomains.G p 0 = A) (hw : A.ax.w = 1/4) (hv : A.Valid (1/2)) (hp : A.per = false) {id id' : ℕ} {x v y v' : ℝ}
    (hx : GhostPairs.Owned A x) (hy : GhostPairs.Ghost (1/2) A y) :
    (osys exSetup exDomains p [exPa id x v] [exPa id' y v']).OK exDomains.cut ∧ (osys exSetup exDomains p [exPa id x v] [exPa id' y v']).toGSys.OK := by
  have hg : (osys exSetup exDomains p [exPa id x v] [exPa id' y v']).g = [A] := by
    show List.ofFn (exDomains.G p) = [A]
    rw [← hA]; rfl
  have hc : (osys exSetup exDomains p [exPa id x v] [exPa id' y v']).cutoff = 1/2 := by
    norm_num [osys, GSys.cutoff, exDomains, exSetup]
  have hl : ∀ i, (osys exSetup exDomains p [exPa id x v] [exPa id' y v']).Live i → i = 0 := by
    intro i hi
    have : i < 1 := hi.1
    omega
  have hx0 : (osys exSetup exDomains p [exPa id x v] [exPa id' y v']).x 0 = [x] := rfl
  have hy0 : (osys exSetup exDomains p [exPa id x v] [exPa id' y v']).xg 0 = [y] := rfl
  constructor
  · refine ⟨by rw [hc]; norm_num, ?_, ?_, ?_, by norm_num [osys, exSetup], ?_, ?_, ?_, ?_, ?_, ?_⟩
    · rw [hg, hc]; simpa using hv
    · rw [hg]; intro a ha hpa
      rw [List.mem_singleton.mp ha, hp] at hpa
      cases hpa
    · rw [hg, hc]
      exact C27_complete_one_dimension (by norm_num) _ (by show 0 < A.ax.w; rw [hw]; norm_num)
    · intro i hi
      rw [hl i hi, hg, hx0]
      refine List.Forall₂.cons ?_ List.Forall₂.nil
      intro hpa; rw [hp] at hpa; cases hpa
    · intro i hi; rw [hl i hi]; norm_num [osys, exPa]
    · intro i hi; rw [hl i hi]; norm_num [osys, exPa, exSetup, exDomains]
    · intro i j _ _; norm_num [exDomains]
    · intro i j _ _; rfl
    · intro i j _ _; norm_num [exDomains, osys, exSetup]
  · refine ⟨by rw [hc]; norm_num, ?_, ?_, ?_, ?_, ?_, ?_⟩
    · rw [hg, hc]; simpa using hv
    · rw [hg]; intro a ha; rw [List.mem_singleton.mp ha, hw]; norm_num
    · rw [hg]; intro a ha hpa
      rw [List.mem_singleton.mp ha, hp] at hpa
      cases hpa
    · refine GhostPairs.C149_full_small _ (by rw [hc]; norm_num) ?_ ?_
      · rw [hg]; intro a ha; rw [List.mem_singleton.mp ha, hw]; norm_num
      · rw [hg, hc]
        simp only [List.map_cons, List.map_nil, List.sum_cons, List.sum_nil, hw, ex_sweep]
        norm_num
    · intro i hi
      rw [hl i hi, hg, hx0]
      exact List.Forall₂.cons hx List.Forall₂.nil
    · intro i hi
      have : i < 1 := hi
      obtain rfl : i = 0 := by omega
      rw [hg, hy0, hc]
      exact List.Forall₂.cons hy List.Forall₂.nil

theorem ex_apt (v : ℝ) : Apt exSetup exDomains (exW v) 0 1 (fun _ _ => True) := by
  have hP : exSetup.P = 2 := rfl
  have hb : exSetup.b = line2 := rfl
  have two : ∀ p < exSetup.P, p = 0 ∨ p = 1 := fun p hp => by rw [hP] at hp; omega
  have mem : ∀ p < exSetup.P, ∀ a ∈ exW v p, a.rest.type = 0 ∧ a.rest.rd = 2/10 := fun p hp a ha => by
    rcases ex_mem (v := v) rfl hp ha with ⟨_, rfl⟩ | ⟨_, rfl⟩ <;> exact ⟨rfl, rfl⟩
  have h0 : exW v 0 = [exPa 0 (9/10) 0] := rfl
  have h1 : exW v 1 = [exPa 1 (11/10) v] := rfl
  have ok0 := ex_ok (p := 0) (A := exA0) (id := 0) (id' := 1) (x := 9/10) (v := 0) (y := 11/10) (v' := v) rfl rfl ex_valid.1 ex_per.1
    (by unfold GhostPairs.Owned; rw [ex_borders.1]; norm_num [exA0])
    ⟨by rw [ex_per.1]; simp, Or.inr (by rw [ex_borders.1]; norm_num [exA0])⟩
  have ok1 := ex_ok (p := 1) (A := exA1) (id := 1) (id' := 0) (x := 11/10) (v := v) (y := 9/10) (v' := 0) rfl rfl ex_valid.2 ex_per.2
    (by unfold GhostPairs.Owned; rw [ex_borders.2]; norm_num [exA1])
    ⟨by rw [ex_per.2]; simp, Or.inr (by rw [ex_borders.2]; norm_num [exA1])⟩
  refine ⟨?_, ?_, ?_, ?_, ?_, ?_, ?_, ?_, ?_, by norm_num, le_rfl, by norm_num [exSetup], ?_, ?_, ?_, ?_, ?_, ?_⟩
  · intro k; norm_num [exSetup, line2]
  · intro p hp k
    rw [hb, hP]
    rcases two p hp with rfl | rfl
    · rw [ex_bounds.1]; simp [exDomains, exA0, exSetup, line2]
    · rw [ex_bounds.2]; simp [exDomains, exA1, exSetup, line2]
  · intro p hp k
    rw [hb, hP]
    rcases two p hp with rfl | rfl
    · rw [ex_bounds.1]; norm_num
    · rw [ex_bounds.2]; norm_num
  · intro p hp
    rcases two p hp with rfl | rfl
    · rw [(ex_ghosts v).1, h0]; exact ok0.1
    · rw [(ex_ghosts v).2, h1]; exact ok1.1
  · intro p hp
    rcases two p hp with rfl | rfl
    · rw [(ex_ghosts v).1, h0]; exact ok0.2
    · rw [(ex_ghosts v).2, h1]; exact ok1.2
  · intro p hp a ha
    refine ⟨?_, by rw [(mem p hp a ha).1]⟩
    rw [hb, hP, Bounds.contains_iff]
    rcases two p hp with rfl | rfl
    · rw [h0, List.mem_singleton] at ha; subst ha
      rw [ex_bounds.1]; intro k; norm_num [exPa]
    · rw [h1, List.mem_singleton] at ha; subst ha
      rw [ex_bounds.2]; intro k; norm_num [exPa]
  · intro p hp a ha q hq b hb
    rw [(mem p hp a ha).1, (mem q hq b hb).1]
    simp [exDomains]
  · intro s t; simp only [exDomains]; intro h; split_ifs at h with hst; rw [if_pos ⟨hst.2, hst.1⟩]
  · intro s t _; exact ⟨rfl, rfl⟩
  · intro p hp a ha; rw [(mem p hp a ha).2]; norm_num
  · intro p hp a ha; rw [(mem p hp a ha).2]; exact le_rfl
  · intro p hp a ha q hq b hb k hk; simp [exSetup] at hk
  · intro p hp q hq a ha r hr b hb k hk; simp [exSetup] at hk
  · intro p hp a ha q hq b hb
    rw [(mem p hp a ha).2, (mem q hq b hb).2]; norm_num [exSetup]
  · right
    intro p hp q hq hpq
    rw [hb, hP, show exSetup.wrap = fun _ => false from rfl]
    rcases two p hp with rfl | rfl <;> rcases two q hq with rfl | rfl
    · exact absurd rfl hpq
    · rw [ex_neighbors.2, ex_bounds.1]; simp
    · rw [ex_neighbors.1, ex_bounds.2]; simp
    · exact absurd rfl hpq

theorem ex_once (v : ℝ) : Once exSetup.P 2 (exW v) := by
  simp [Once, exSetup, List.range_succ, exW, exPa]

/-- Example: there are runs with the lists that the domains make. -/
theorem ex_goes (dts : ℕ → ℝ) (v : ℝ) : ∃ w', Goes exSetup exDomains exSys dts (exW v) [2] w' := by
  set Ks := madeAll exSetup exDomains (exW v) exSys.forces with hK
  have he : ∀ r p l g, ((cfg exSetup Ks dts).evolve r p l g).length = l.length := advance_length exSetup Ks dts
  obtain ⟨k, net, hrun, hall⟩ := C143_completes (cfg exSetup Ks dts) le_rfl he (fun p => ⟨exW v p, fun _ => [], [], fun _ => 0⟩) 2 false 0 _ .init
  refine ⟨fun p => (net.procs p).st.owned, Goes.cycle [] 2 (exW v) _ .init ⟨exW v, ex_exchanged v, fun k T hT => ?_, ?_⟩⟩
  · match k, hT with
    | 0, hT =>
      have := Option.some.inj hT
      subst this
      exact ex_apt v
    | k + 1, hT => simp [exSys] at hT
  · unfold Stepped
    rw [if_neg (by simp [exSetup])]
    simp only [List.sum_nil, Nat.zero_add]
    exact ⟨false, k, net, hrun, fun p hp => ⟨hall p hp, rfl⟩⟩

/-- C183, the hypotheses are met with those of the example of C155. -/
example : Fits exSetup exSys ∧ Follows exSetup exSys (exM (9/10) (11/10) 0) (exW 0) ∧
    ∃ w, Goes exSetup exDomains exSys (fun _ => 1/10) (exW 0) [2] w := ⟨ex_fits, ex_follows _ _ _, ex_goes _ 0⟩

/-- The pair in range of the example is in the ghost list of processor 0, once. -/
example : ∃ g, (procOf (exW 0 0) (view (cfg exSetup [] fun _ => 0) (exW 0) (exW 0) 0 0)).gh g = 1 ∧
    Complete (worldOf exSetup 2 (exW 0)) 0 (procOf (exW 0 0) (view (cfg exSetup [] fun _ => 0) (exW 0) (exW 0) 0 0))
      (made exSetup exDomains (exW 0) 0 (.hardSphere 1) 1 fun _ _ => True) exSetup.skin := by
  refine ⟨0, ?_, C183_complete_partial exSetup exDomains 2 (exW 0) 0 (.hardSphere 1) 1 _ (ex_apt 0) (ex_once 0) [] (fun _ => 0) 0 (by decide)⟩
  rw [(ex_view [] (fun _ => 0) 0).1]
  rfl

end Verif.ParallelLists
