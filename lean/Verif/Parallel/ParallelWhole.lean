import Verif.Parallel.ParallelLists

/-!
# Parallel runs from conditions on the set-up and the motion (C184)

C155 and C183 have conditions on what the processors hold at each construction. Here a run has conditions only on the set-up (box,
processors, grids, radii, cutoffs), on the particles at the start, and on the motion that the run should follow; that the particles are
with the right processors at each construction (`Topology::exchange_particles`, `parallel/kdtreetopology.cpp:79-144`; C142), that grids
fit the ghosts, and that lists are complete follows.

Simplifications: those of C142, C143, C149, C155 and C180.
-/

set_option linter.unusedSectionVars false
set_option linter.unusedVariables false

namespace Verif.ParallelWhole
open Verif.Rounds Verif.KDTree Verif.PairForces Verif.Exchange Verif.Ghosts Verif.GhostForces Verif.ParallelRun Verif.ParallelLists
open Verif.GhostPairs (Bd HAx GSys borders Beyond Shifts image)
open Verif.OwnPairs (OSys)
open Verif.Stencil (sweepOf StencilComplete C27_complete_one_dimension)

variable {n : ℕ}

/-! ## Model -/

/-- A run, `gflow.cpp:170-300`: constructions (wrapping and exchange of the particles, `base/simdata.cpp:253-279`, ghosts, lists made by the domains,
`base/interactionhandler.cpp:115-166`), each followed by a number of steps; in any order of the events of the messages. -/
inductive Goes (S : Setup n) (D : Domains n) (sys : Sys) (dts : ℕ → ℝ) (w0 : ℕ → List (Pa n)) : List ℕ → (ℕ → List (Pa n)) → Prop where
  | init : Goes S D sys dts w0 [] w0
  | cycle (l : List ℕ) (R : ℕ) (w w1 w' : ℕ → List (Pa n)) (h : Goes S D sys dts w0 l w) (he : Exchanged S w w1)
      (hs : Stepped S (madeAll S D w1 sys.forces) (fun r => dts (l.sum + r)) R w1 w') : Goes S D sys dts w0 (l ++ [R]) w'

/-! ## Specification -/

/-- Spec: the conditions on the set-up. `ty` are the types of the particles. -/
structure Sound (S : Setup n) (D : Domains n) (sys : Sys) (ty : ℕ → ℤ) : Prop where
  procs : 2 ≤ S.P
  lohi : ∀ k, S.b.lo k < S.b.hi k
  period : ∀ k, S.wrap k = true → 1/10 < S.b.hi k - S.b.lo k
  /-- the grids are for the processors' parts of the simulation, as the code makes them -/
  parts : ∀ p < S.P, ∀ k, (D.G p k).bd = ⟨(processBounds S.b S.P p).lo k, (processBounds S.b S.P p).hi k, S.b.lo k, S.b.hi k, S.wrap k⟩
  thick : ∀ p < S.P, ∀ k, 1/1000 ≤ (processBounds S.b S.P p).hi k - (processBounds S.b S.P p).lo k
  cutoff : 0 < 2 * D.mss + S.skin
  valid : ∀ p < S.P, ∀ k, (D.G p k).Valid (2 * D.mss + S.skin)
  /-- cells are wider than the tolerance 0.001, and the cells looked at reach beyond the cutoff by it -/
  eps : ∀ p < S.P, ∀ k, 1/1000 < (D.G p k).ax.w
  margin : ∀ p < S.P, ∀ k, 2 * D.mss + S.skin + 1/1000 ≤ (sweepOf (2 * D.mss + S.skin) (D.G p k).ax.w : ℝ) * (D.G p k).ax.w
  cells : ∀ p < S.P, ∀ k, (D.G p k).per = true → 2 * sweepOf (2 * D.mss + S.skin) (D.G p k).ax.w + 1 ≤ (D.G p k).ax.dim
  stencil : ∀ p < S.P, StencilComplete (2 * D.mss + S.skin) ((List.ofFn (D.G p)).map HAx.gax)
  full : ∀ p < S.P, (osys S D p [] []).toGSys.Full
  skin0 : 0 ≤ S.skin
  types : ∀ a < sys.N, 0 ≤ ty a
  /-- no large particles -/
  radii : ∀ a < sys.N, 0 ≤ sys.rd a ∧ sys.rd a ≤ D.mss ∧ sys.rd a * S.maxCut (ty a) ≤ D.mss
  cuts : ∀ s t, 0 ≤ D.cut s t ∧ D.cut s t = D.cut t s ∧ D.cut s t ≤ S.maxCut s
  /-- the interactions are for the pairs of some types, that interact, in both orders; their cutoffs are at most one -/
  uses_iff : ∀ k T, sys.forces[k]? = some T → ∀ a < sys.N, ∀ b < sys.N, T.2.2 a b ↔ D.grid (ty a) (ty b) = some k
  symm : ∀ k s t, D.grid s t = some k → D.grid t s = some k
  interacts : ∀ k T, sys.forces[k]? = some T → ∀ s t, D.grid s t = some k → D.inter s = true ∧ D.cut s t = T.2.1
  cutoffs : ∀ T ∈ sys.forces, 0 ≤ T.2.1 ∧ T.2.1 ≤ 1
  /-- particles are small compared with wrapping widths, and parts of processors leave a gap -/
  wide : ∀ a < sys.N, ∀ b < sys.N, ∀ k, S.wrap k = true → sys.rd a + sys.rd b + 2 * S.skin ≤ (S.b.hi k - S.b.lo k) / 2
  gap : ∀ p < S.P, ∀ a < sys.N, ∀ b < sys.N, ∀ k, S.wrap k = true →
    (processBounds S.b S.P p).lo k = S.b.lo k ∧ (processBounds S.b S.P p).hi k = S.b.hi k ∨
    (processBounds S.b S.P p).hi k - (processBounds S.b S.P p).lo k + 2 * (sys.rd a + sys.rd b + S.skin) ≤ S.b.hi k - S.b.lo k
  /-- the range by which ghosts are chosen is not below the range of any pair (see `C76_negation_small_particle`) -/
  sent : ∀ T ∈ sys.forces, ∀ a < sys.N, ∀ b < sys.N, (sys.rd a + sys.rd b) * T.2.1 ≤ 2 * sys.rd a * S.maxCut (ty a)
  /-- ranges are at most 0.1, or all processors are neighbours (see `C76_negation_large_cutoff`) -/
  neighbours : (∀ a < sys.N, 2 * sys.rd a * S.maxCut (ty a) + S.skin ≤ 1/10) ∨
    ∀ p < S.P, ∀ q < S.P, p ≠ q → (p, processBounds S.b S.P p) ∈ neighbors S.b S.wrap S.P q

/-- Spec: the particles at the start: of the types `ty`, and with the processor in whose part they are, or at most 0.1 (in every direction) from it. -/
structure Placed (S : Setup n) (ty : ℕ → ℤ) (w : ℕ → List (Pa n)) : Prop where
  type : ∀ p < S.P, ∀ a ∈ w p, a.rest.type = ty a.rest.id
  close : ∀ p < S.P, ∀ a ∈ w p, ∃ y, (processBounds S.b S.P p).contains y = true ∧ ∀ k, |y k - a.x k| ≤ 1/10

/-- Spec: no particle leaves the box where it does not wrap. -/
def Stays (S : Setup n) (sys : Sys) (M : Motion n) : Prop := ∀ a < sys.N, ∀ k, S.wrap k = false → S.b.lo k ≤ M.x a k ∧ M.x a k < S.b.hi k

/-- Spec: the particles stay at each construction, and move at most 0.1 (in every direction) from one to the next. -/
def Slow (S : Setup n) (sys : Sys) (M : ℕ → Motion n) (l : List ℕ) : Prop := ∀ l1 R l2, l = l1 ++ R :: l2 →
  Stays S sys (M l1.sum) ∧ ∀ a < sys.N, ∀ k, |(M (l1.sum + R)).x a k - (M l1.sum).x a k| ≤ 1/10

/-! ## Exchange -/

section
variable {S : Setup n} {D : Domains n} {sys : Sys} {ty : ℕ → ℤ} {w w1 w' : ℕ → List (Pa n)} {M : Motion n}

theorem wrapped_near (hl : ∀ k, S.b.lo k < S.b.hi k) (hw : ∀ k, S.wrap k = true → 1/10 < S.b.hi k - S.b.lo k) (hf : Follows S sys M w) (hN : ∀ p < S.P, ∀ a ∈ w p, a.rest.id < sys.N) (hp : Placed S ty w) (hs : Stays S sys M)
    {p : ℕ} (hpp : p < S.P) {a : Pa n} (ha : a ∈ wrapAll S (w p)) : Exchange.Near S.b S.wrap S.P p a.x := by
  obtain ⟨a0, ha0, rfl⟩ := List.mem_map.mp ha
  obtain ⟨y, hy, hd⟩ := hp.close p hpp a0 ha0
  have hst := hs a0.rest.id (hN p hpp a0 ha0)
  refine ⟨(Bounds.contains_iff _ _).mpr fun k => ?_, y, fun k => (if S.wrap k then Boundary.wrap1 (S.b.lo k) (S.b.hi k) (a0.x k) else a0.x k) - a0.x k, fun k => ?_, hy, fun k => ?_⟩
  · obtain ⟨m, e, hz⟩ := hf.pos p hpp a0 ha0 k
    by_cases hk : S.wrap k = true
    · simp only [hk, if_true]
      have hr := Boundary.wrap1_range (x := a0.x k) (hl k)
      refine ⟨hr.1, lt_of_le_of_ne hr.2 fun he => ?_⟩
      obtain ⟨hx, j, hj⟩ := (Boundary.wrap1_eq_hi_iff (hl k)).mp he
      have h1 := (Bounds.contains_iff _ _).mp hy k
      have h2 := (C47_inside S.b hl S.P p hpp k).1
      have h3 := (abs_le.mp (hd k)).2
      have h4 := hw k hk
      have hj1 : (1 : ℝ) ≤ j := by
        rcases Nat.eq_zero_or_pos j with rfl | hj0
        · simp only [Nat.cast_zero, zero_mul] at hj; linarith
        · exact_mod_cast hj0
      nlinarith
    · have hk : S.wrap k = false := by simpa using hk
      simp only [hk]
      have h1 := hst k hk
      rw [hz hk] at e
      simp only [Int.cast_zero, zero_mul, add_zero] at e
      simp only [Bool.false_eq_true, if_false, e]
      exact h1
  · by_cases hk : S.wrap k = true
    · simp only [hk, if_true]
      obtain ⟨m', e'⟩ := Boundary.wrap1_int (S.b.lo k) (S.b.hi k) (a0.x k)
      exact ⟨m', by rw [e']; ring, fun h => by cases h⟩
    · have hk : S.wrap k = false := by simpa using hk
      refine ⟨0, ?_, fun _ => rfl⟩
      simp [hk]
  · have : y k + ((if S.wrap k then Boundary.wrap1 (S.b.lo k) (S.b.hi k) (a0.x k) else a0.x k) - a0.x k) -
        (if S.wrap k then Boundary.wrap1 (S.b.lo k) (S.b.hi k) (a0.x k) else a0.x k) = y k - a0.x k := by ring
    simp only [this]
    exact hd k

theorem exchanged_home (hP : 2 ≤ S.P) (hl : ∀ k, S.b.lo k < S.b.hi k) (hn : ∀ p < S.P, ∀ a ∈ wrapAll S (w p), Exchange.Near S.b S.wrap S.P p a.x)
    (he : Exchanged S w w1) {p : ℕ} (hp : p < S.P) {a : Pa n} (ha : a ∈ w1 p) : (processBounds S.b S.P p).contains a.x = true := by
  unfold Exchanged at he
  rw [if_neg (by omega)] at he
  obtain ⟨sync, k, net, hrun, hall⟩ := he
  rw [(hall p hp).2] at ha
  obtain ⟨c, hc, rfl⟩ := List.mem_map.mp ha
  rw [C141_states _ S.P 1 sync (Exchange.proper S.b S.wrap S.P hP _) _ (Exchange.agreed S.b S.wrap S.P _ _) k net hrun p hp, (hall p hp).1] at hc
  have hc : c ∈ joined S.b S.wrap S.P p ((wrapAll S (w p)).map toPt) ((nbs S.b S.wrap S.P p).map fun q => (q, leaving S.b S.wrap S.P q ((wrapAll S (w q)).map toPt) p)) := hc
  have h1 := (joined_home S.b hl S.wrap S.P hP (fun p => (wrapAll S (w p)).map toPt) (fun p hp a ha _ => by
    obtain ⟨a0, ha0, rfl⟩ := List.mem_map.mp ha
    exact hn p hp a0 ha0) p hp c hc).2
  have h2 : c.x = c.info.x := by
    unfold joined at hc
    rcases List.mem_append.mp hc with hc | hc
    · unfold staying at hc
      obtain ⟨a0, _, rfl⟩ := List.mem_map.mp (List.mem_filter.mp hc).1
      rfl
    · obtain ⟨m, hm, hc⟩ := List.mem_flatMap.mp hc
      obtain ⟨q, hq, rfl⟩ := List.mem_map.mp hm
      have hc : c ∈ leaving S.b S.wrap S.P q _ p := hc
      unfold leaving at hc
      obtain ⟨a0, _, rfl⟩ := List.mem_map.mp (List.mem_filter.mp hc).1
      rfl
  rw [← h2]
  exact h1

theorem id_lt (hf : Follows S sys M w) {p : ℕ} (hp : p < S.P) {a : Pa n} (ha : a ∈ w p) : a.rest.id < sys.N := by
  rw [← List.mem_range]
  exact hf.once.subset (List.mem_flatMap.mpr ⟨p, List.mem_range.mpr hp, List.mem_map.mpr ⟨a, ha, rfl⟩⟩)

theorem exchanged_type (hP : 1 ≤ S.P) (hf : Follows S sys M w) (ht : ∀ p < S.P, ∀ a ∈ w p, a.rest.type = ty a.rest.id) (he : Exchanged S w w1) {p : ℕ} (hp : p < S.P) {a : Pa n} (ha : a ∈ w1 p) :
    a.rest.type = ty a.rest.id := by
  have hperm := exchanged_perm hP (fun p hp a ha => (hf.data p hp a ha).2.2) he
  obtain ⟨q, hq, ha'⟩ := mem_flat.mp (hperm.subset (mem_flat.mpr ⟨p, hp, ha⟩))
  obtain ⟨a0, ha0, rfl⟩ := List.mem_map.mp ha'
  exact ht q hq a0 ha0

/-! ## The conditions of C183 -/

theorem relative_same (hl : ∀ k, S.b.lo k < S.b.hi k) {p : ℕ} {x : Fin (n + 1) → ℝ} {k : Fin (n + 1)}
    (e1 : (processBounds S.b S.P p).lo k = S.b.lo k) (e2 : (processBounds S.b S.P p).hi k = S.b.hi k) (hx : S.b.lo k ≤ x k ∧ x k < S.b.hi k) :
    relative (cfg S [] fun _ => 0) (centre (cfg S [] fun _ => 0) p) x k = x k := by
  have hc : centre (cfg S [] fun _ => 0) p k = (S.b.lo k + S.b.hi k) / 2 := by
    show ((processBounds S.b S.P p).lo k + (processBounds S.b S.P p).hi k) / 2 = _
    rw [e1, e2]
  show centre (cfg S [] fun _ => 0) p k + correct (widths S.b S.wrap) (fun j => x j - centre (cfg S [] fun _ => 0) p j) k = x k
  unfold correct widths
  by_cases hk : S.wrap k = true
  · simp only [hk, if_true, hc]
    rw [if_neg]
    · ring
    · rw [not_lt]
      have : |x k - (S.b.lo k + S.b.hi k) / 2| ≤ (S.b.hi k - S.b.lo k) / 2 := by rw [abs_le]; constructor <;> linarith
      linarith
  · simp [hk]

theorem Sound.apt (h : Sound S D sys ty) (hf : Follows S sys M w1) (hT : ∀ p < S.P, ∀ a ∈ w1 p, a.rest.type = ty a.rest.id)
    (hh : ∀ p < S.P, ∀ a ∈ w1 p, (processBounds S.b S.P p).contains a.x = true) {k0 : ℕ} {T : Force × ℝ × (ℕ → ℕ → Prop)} (hk : sys.forces[k0]? = some T) :
    Apt S D w1 k0 T.2.1 T.2.2 := by
  have hTm : T ∈ sys.forces := List.mem_of_getElem? hk
  have rd : ∀ p < S.P, ∀ a ∈ w1 p, a.rest.rd = sys.rd a.rest.id := fun p hp a ha => (hf.data p hp a ha).1
  have idl : ∀ p < S.P, ∀ a ∈ w1 p, a.rest.id < sys.N := fun p hp a ha => id_lt hf hp ha
  have inb : ∀ p < S.P, ∀ a ∈ w1 p, ∀ k, S.b.lo k ≤ a.x k ∧ a.x k < S.b.hi k := fun p hp a ha k => by
    have h1 := (Bounds.contains_iff _ _).mp (hh p hp a ha) k
    have h2 := C47_inside S.b h.lohi S.P p hp k
    exact ⟨by linarith, by linarith⟩
  have mem : ∀ p < S.P, ∀ gh i, (osys S D p (w1 p) gh).Live i → ∃ a ∈ w1 p, (osys S D p (w1 p) gh).x i = List.ofFn a.x ∧
      (osys S D p (w1 p) gh).rd i = a.rest.rd ∧ (osys S D p (w1 p) gh).type i = a.rest.type := by
    intro p hp gh i hi
    have hlt : i < (w1 p).length := hi.1
    refine ⟨(w1 p)[i], List.getElem_mem hlt, ?_, ?_, ?_⟩ <;> simp [osys, hlt]
  have alone : ∀ p < S.P, ∀ k, (D.G p k).per = true → (processBounds S.b S.P p).lo k = S.b.lo k ∧ (processBounds S.b S.P p).hi k = S.b.hi k := by
    intro p hp k hper
    have hb := h.parts p hp k
    have h3 := C47_inside S.b h.lohi S.P p hp k
    obtain ⟨hwr, hb2⟩ := GhostPairs.per_iff.mp hper
    have := (GhostPairs.borders_zero_iff hwr).2.mp hb2
    rw [hb] at this
    simp only at this
    constructor <;> linarith
  refine ⟨h.lohi, h.parts, h.thick, fun p hp => ?_, fun p hp => ?_, fun p hp a ha => ⟨hh p hp a ha, ?_⟩, ?_, h.symm k0, h.interacts k0 T hk,
    (h.cutoffs T hTm).1, (h.cutoffs T hTm).2, h.skin0, ?_, ?_, ?_, ?_, ?_, ?_⟩
  · refine ⟨h.cutoff, ?_, ?_, h.stencil p hp, h.skin0, ?_, ?_, ?_, fun i j _ _ => (h.cuts _ _).1, fun i j _ _ => (h.cuts _ _).2.1, fun i j _ _ => (h.cuts _ _).2.2⟩
    · intro a ha
      obtain ⟨k, rfl⟩ := List.mem_ofFn.mp ha
      exact h.valid p hp k
    · intro a ha
      obtain ⟨k, rfl⟩ := List.mem_ofFn.mp ha
      exact h.cells p hp k
    · intro i hi
      obtain ⟨a, ha, ex, _, _⟩ := mem p hp _ i hi
      rw [ex]
      refine forall₂_ofFn.mpr fun k hper => ?_
      rw [h.parts p hp k]
      exact (Bounds.contains_iff _ _).mp (hh p hp a ha) k
    · intro i hi
      obtain ⟨a, ha, _, er, _⟩ := mem p hp _ i hi
      rw [er, rd p hp a ha]
      exact (h.radii _ (idl p hp a ha)).1
    · intro i hi
      obtain ⟨a, ha, _, er, et⟩ := mem p hp _ i hi
      rw [er, et, rd p hp a ha, hT p hp a ha]
      exact (h.radii _ (idl p hp a ha)).2.2
  · refine ⟨h.cutoff, ?_, ?_, ?_, h.full p hp, ?_, ?_⟩
    · intro a ha
      obtain ⟨k, rfl⟩ := List.mem_ofFn.mp ha
      exact h.valid p hp k
    · intro a ha
      obtain ⟨k, rfl⟩ := List.mem_ofFn.mp ha
      exact h.eps p hp k
    · intro a ha
      obtain ⟨k, rfl⟩ := List.mem_ofFn.mp ha
      exact h.cells p hp k
    · intro i hi
      obtain ⟨a, ha, ex, _, _⟩ := mem p hp _ i hi
      rw [ex]
      refine forall₂_ofFn.mpr fun k => ?_
      have := (Bounds.contains_iff _ _).mp (hh p hp a ha) k
      unfold GhostPairs.Owned
      rw [h.parts p hp k]
      exact ⟨fun _ => this.1, fun _ => this.2⟩
    · intro i hi
      have hlt : i < (ghostsOf S w1 p).length := hi
      obtain ⟨q, hq, _, a, ha, _, ex⟩ := mem_ghosts hf.once (List.getElem_mem hlt) h.procs
      have ex' : (osys S D p (w1 p) (ghostsOf S w1 p)).xg i = List.ofFn (relative (cfg S [] fun _ => 0) (centre (cfg S [] fun _ => 0) p) a.x) := by
        rw [← ex]; simp [osys, hlt]
      rw [ex']
      refine forall₂_ofFn.mpr fun k => ⟨fun hper => ?_, Or.inl (h.margin p hp k)⟩
      obtain ⟨e1, e2⟩ := alone p hp k hper
      rw [relative_same h.lohi e1 e2 (inb q hq a ha k), h.parts p hp k, e1, e2]
      exact inb q hq a ha k
  · rw [hT p hp a ha]
    exact h.types _ (idl p hp a ha)
  · intro p hp a ha q hq b hb
    rw [hT p hp a ha, hT q hq b hb]
    exact h.uses_iff k0 T hk _ (idl p hp a ha) _ (idl q hq b hb)
  · intro p hp a ha
    rw [rd p hp a ha]
    exact (h.radii _ (idl p hp a ha)).1
  · intro p hp a ha
    rw [rd p hp a ha]
    exact (h.radii _ (idl p hp a ha)).2.1
  · intro p hp a ha q hq b hb k hw
    rw [rd p hp a ha, rd q hq b hb]
    exact h.wide _ (idl p hp a ha) _ (idl q hq b hb) k hw
  · intro p hp q hq a ha r hr b hb k hw
    rw [rd q hq a ha, rd r hr b hb]
    exact h.gap p hp _ (idl q hq a ha) _ (idl r hr b hb) k hw
  · intro p hp a ha q hq b hb
    rw [rd p hp a ha, rd q hq b hb, hT p hp a ha]
    exact h.sent T hTm _ (idl p hp a ha) _ (idl q hq b hb)
  · rcases h.neighbours with hn | hn
    · left
      intro p hp a ha
      rw [rd p hp a ha, hT p hp a ha]
      exact hn _ (idl p hp a ha)
    · exact Or.inr hn

/-! ## Theorems -/

theorem made_kinds (S : Setup n) (D : Domains n) (w : ℕ → List (Pa n)) (fs : List (Force × ℝ × (ℕ → ℕ → Prop))) :
    ((madeAll S D w fs).map fun K : Kind => (K.F, K.cutoff, K.uses)) = fs := by
  unfold madeAll
  exact List.ext_getElem? fun k => by rw [List.getElem?_map, List.getElem?_mapIdx]; cases fs[k]? <;> rfl

/-- From one construction to the next. -/
theorem one_cycle (hf : Fits S sys) (h : Sound S D sys ty) {dts : ℕ → ℝ} {R : ℕ} (h0 : Follows S sys M w) (hp : Placed S ty w)
    (he : Exchanged S w w1) (hst : Stepped S (madeAll S D w1 sys.forces) dts R w1 w') (hstay : Stays S sys M)
    (hmv : ∀ r < R, ∀ a < sys.N, len ((orbit sys (widths S.b S.wrap) dts M r).x a - M.x a) ≤ S.skin / 2)
    (hsep : ∀ r < R, ∀ a < sys.N, ∀ b < sys.N, a ≠ b →
      near (widths S.b S.wrap) ((orbit sys (widths S.b S.wrap) dts M r).x a - (orbit sys (widths S.b S.wrap) dts M r).x b) ≠ 0)
    (hslow : ∀ a < sys.N, ∀ k, |(orbit sys (widths S.b S.wrap) dts M R).x a k - M.x a k| ≤ 1/10) :
    (∀ p < S.P, ∀ a ∈ w1 p, (processBounds S.b S.P p).contains a.x = true) ∧
    Follows S sys (orbit sys (widths S.b S.wrap) dts M R) w' ∧ Placed S ty w' := by
  have hh : ∀ p < S.P, ∀ a ∈ w1 p, (processBounds S.b S.P p).contains a.x = true := fun p hpp a ha =>
    exchanged_home h.procs h.lohi (fun p hpp a ha => wrapped_near h.lohi h.period h0 (fun p hpp a ha => id_lt h0 hpp ha) hp hstay hpp ha) he hpp ha
  have hT : ∀ p < S.P, ∀ a ∈ w1 p, a.rest.type = ty a.rest.id := fun p hpp a ha => exchanged_type hf.procs h0 hp.type he hpp ha
  obtain ⟨f1, f2⟩ := exchanged_follows hf h0 he
  have hcomp : ∀ K ∈ madeAll S D w1 sys.forces, ∀ p < S.P, Complete (worldOf S sys.N w1) p
      (procOf (w1 p) (view (cfg S (madeAll S D w1 sys.forces) dts) w1 w1 0 p)) K S.skin := by
    intro K hK p hpp
    obtain ⟨k, hk⟩ := List.mem_iff_getElem?.mp hK
    unfold madeAll at hk
    rw [List.getElem?_mapIdx] at hk
    cases hTk : sys.forces[k]? with
    | none => rw [hTk] at hk; simp at hk
    | some T =>
      rw [hTk] at hk
      have hk := Option.some.inj hk
      subst hk
      exact C183_complete_partial S D sys.N w1 k T.1 T.2.1 T.2.2 (h.apt f1 hT hh hTk) f1.once _ _ p hpp
  have ht := (between_steps hf f1 f2 (made_kinds S D w1 sys.forces) hcomp R hmv hsep).1 R le_rfl
  have hw := stepped_world hf hst
  have ht' : Track S.P M (orbit sys (widths S.b S.wrap) dts M R) w1 w' := fun p hpp => by rw [hw p hpp]; exact ht p hpp
  refine ⟨hh, track_follows f1 ht', fun p hpp a ha => ?_, fun p hpp a ha => ?_⟩
  all_goals
    obtain ⟨i, hi⟩ := List.mem_iff_getElem?.mp ha
    obtain ⟨a1, e1, e2, e3, e4⟩ := ht'.back hpp hi
    have ha1 : a1 ∈ w1 p := List.mem_of_getElem? e1
  · rw [e2]; exact hT p hpp a1 ha1
  · refine ⟨a1.x, hh p hpp a1 ha1, fun k => ?_⟩
    rw [e4 k, abs_sub_comm, add_sub_cancel_left]
    exact hslow _ (id_lt f1 hpp ha1) k

end

/-- C184: a run on two or more processors, with any order of the events of their messages, follows the motion of the particles under all
forces (computed without processors, wrapping, cells, lists and ghosts): the processors together hold every particle once, with the velocity
and (up to whole widths in wrapping dimensions) the position of the motion, and each particle is at most 0.1 from the part of its processor.
The conditions are on the set-up, the particles at the start and the motion. Missing: large particles, cutoffs above one, unequal radii and
the other conditions of `Sound`, late constructions and faster particles; negations are in C76, C142, C149, C150, C155 and C180. -/
theorem C184_motion_partial {n : ℕ} (S : Setup n) (D : Domains n) (sys : Sys) (ty : ℕ → ℤ) (hf : Fits S sys) (hS : Sound S D sys ty) (dts : ℕ → ℝ) (M0 : Motion n)
    (w0 w : ℕ → List (Pa n)) (l : List ℕ) (h0 : Follows S sys M0 w0) (hp : Placed S ty w0) (hrun : Goes S D sys dts w0 l w)
    (ht : Timely sys S.skin (orbit sys (widths S.b S.wrap) dts M0) l)
    (hs : Separate sys (widths S.b S.wrap) (orbit sys (widths S.b S.wrap) dts M0) l.sum)
    (hsl : Slow S sys (orbit sys (widths S.b S.wrap) dts M0) l) :
    Follows S sys (orbit sys (widths S.b S.wrap) dts M0 l.sum) w ∧ Placed S ty w := by
  induction hrun with
  | init => exact ⟨h0, hp⟩
  | cycle l R w w1 w' h he hst ih =>
    have hsum : (l ++ [R]).sum = l.sum + R := by simp
    obtain ⟨f, q⟩ := ih (fun l1 R1 l2 e => ht l1 R1 (l2 ++ [R]) (by rw [e]; simp)) (fun t hlt => hs t (by rw [hsum]; omega))
      (fun l1 R1 l2 e => hsl l1 R1 (l2 ++ [R]) (by rw [e]; simp))
    have hlast := hsl l R [] rfl
    rw [hsum, ← orbit_add]
    refine (one_cycle hf hS f q he hst hlast.1 (fun r hr => ?_) (fun r hr => ?_) ?_).2
    · rw [orbit_add]
      exact ht l R [] rfl r hr
    · rw [orbit_add]
      exact hs (l.sum + r) (by rw [hsum]; omega)
    · rw [orbit_add]
      exact hlast.2

/-- C184: at each construction, after the exchange, every particle is with the processor in whose part of the box it is. Missing: as in
`C184_motion_partial`. -/
theorem C184_home_partial {n : ℕ} (S : Setup n) (D : Domains n) (sys : Sys) (ty : ℕ → ℤ) (hf : Fits S sys) (hS : Sound S D sys ty) (dts : ℕ → ℝ) (M0 : Motion n)
    (w0 w w1 : ℕ → List (Pa n)) (l : List ℕ) (h0 : Follows S sys M0 w0) (hp : Placed S ty w0) (hrun : Goes S D sys dts w0 l w)
    (ht : Timely sys S.skin (orbit sys (widths S.b S.wrap) dts M0) l)
    (hs : Separate sys (widths S.b S.wrap) (orbit sys (widths S.b S.wrap) dts M0) l.sum)
    (hsl : Slow S sys (orbit sys (widths S.b S.wrap) dts M0) l) (he : Exchanged S w w1)
    (hst : Stays S sys (orbit sys (widths S.b S.wrap) dts M0 l.sum)) :
    ∀ p < S.P, ∀ a ∈ w1 p, (processBounds S.b S.P p).contains a.x = true := by
  obtain ⟨f, q⟩ := C184_motion_partial S D sys ty hf hS dts M0 w0 w l h0 hp hrun ht hs hsl
  exact fun p hpp a ha => exchanged_home hS.procs hS.lohi (fun p hpp a ha => wrapped_near hS.lohi hS.period f (fun p hpp a ha => id_lt f hpp ha) q hst hpp ha) he hpp ha

/-- C184: two runs of the same system on different numbers of processors, with different divisions, grids, skin depths, constructions and
orders of messages, have the same particles with the same velocities, and positions that differ by whole widths in wrapping dimensions.
Missing: as in `C184_motion_partial`. -/
theorem C184_same_partial {n : ℕ} (S S' : Setup n) (D D' : Domains n) (sys : Sys) (ty ty' : ℕ → ℤ) (hf : Fits S sys) (hf' : Fits S' sys)
    (hS : Sound S D sys ty) (hS' : Sound S' D' sys ty') (hb : S'.b = S.b) (hw : S'.wrap = S.wrap) (dts : ℕ → ℝ) (M0 : Motion n)
    (w0 w w0' w' : ℕ → List (Pa n)) (l l' : List ℕ) (hl : l'.sum = l.sum)
    (h0 : Follows S sys M0 w0) (h0' : Follows S' sys M0 w0') (hp : Placed S ty w0) (hp' : Placed S' ty' w0')
    (hrun : Goes S D sys dts w0 l w) (hrun' : Goes S' D' sys dts w0' l' w')
    (ht : Timely sys S.skin (orbit sys (widths S.b S.wrap) dts M0) l) (ht' : Timely sys S'.skin (orbit sys (widths S.b S.wrap) dts M0) l')
    (hs : Separate sys (widths S.b S.wrap) (orbit sys (widths S.b S.wrap) dts M0) l.sum)
    (hsl : Slow S sys (orbit sys (widths S.b S.wrap) dts M0) l) (hsl' : Slow S' sys (orbit sys (widths S.b S.wrap) dts M0) l')
    (id : ℕ) (hid : id < sys.N) :
    ∃ p < S.P, ∃ a ∈ w p, ∃ p' < S'.P, ∃ a' ∈ w' p', a.rest.id = id ∧ a'.rest.id = id ∧ a'.v = a.v ∧
      ∀ k, ∃ m : ℤ, a'.x k = a.x k + m * (S.b.hi k - S.b.lo k) ∧ (S.wrap k = false → m = 0) := by
  have f := (C184_motion_partial S D sys ty hf hS dts M0 w0 w l h0 hp hrun ht hs hsl).1
  have f' := (C184_motion_partial S' D' sys ty' hf' hS' dts M0 w0' w' l' h0' hp' hrun' (by rw [hb, hw]; exact ht') (by rw [hb, hw, hl]; exact hs)
    (by rw [hb, hw]; exact hsl')).1
  rw [hb, hw, hl] at f'
  obtain ⟨p, hp, a, ha, e⟩ := exists_id f.once hid
  obtain ⟨p', hp', a', ha', e'⟩ := exists_id f'.once hid
  refine ⟨p, hp, a, ha, p', hp', a', ha', e, e', ?_, fun k => ?_⟩
  · rw [f.vel p hp a ha, f'.vel p' hp' a' ha', e, e']
  · obtain ⟨m, h1, h2⟩ := f.pos p hp a ha k
    obtain ⟨m', h1', h2'⟩ := f'.pos p' hp' a' ha' k
    rw [hb] at h1'
    rw [hw] at h2'
    refine ⟨m' - m, ?_, fun hk => by rw [h2 hk, h2' hk]; rfl⟩
    rw [h1', h1, e, e']; push_cast; ring

/-- C184: a construction and any number of steps never deadlock: whatever messages of the exchange have been handled, it can be completed,
and whatever messages of the steps after it have been handled, the steps can be completed. -/
theorem C184_completes {n : ℕ} (S : Setup n) (D : Domains n) (sys : Sys) (hP : 2 ≤ S.P) (dts : ℕ → ℝ) (w0 w : ℕ → List (Pa n)) (l : List ℕ)
    (hrun : Goes S D sys dts w0 l w) :
    (∀ sync k net, Run (Exchange.program S.b S.wrap S.P fun _ _ l => l) S.P 1 sync (fun p => (wrapAll S (w p)).map toPt) k net →
      ∃ k' net', Run (Exchange.program S.b S.wrap S.P fun _ _ l => l) S.P 1 sync (fun p => (wrapAll S (w p)).map toPt) k' net' ∧
        (∀ p < S.P, (net'.procs p).round = 1) ∧ Exchanged S w fun p => (net'.procs p).st.map (·.info)) ∧
    ∀ w1, Exchanged S w w1 → ∀ R sync k net,
      Run (Ghosts.program (cfg S (madeAll S D w1 sys.forces) fun r => dts (l.sum + r))) S.P R sync (fun p => ⟨w1 p, fun _ => [], [], fun _ => 0⟩) k net →
      ∃ k' net', Run (Ghosts.program (cfg S (madeAll S D w1 sys.forces) fun r => dts (l.sum + r))) S.P R sync (fun p => ⟨w1 p, fun _ => [], [], fun _ => 0⟩) k' net' ∧
        (∀ p < S.P, (net'.procs p).round = R) ∧ Goes S D sys dts w0 (l ++ [R]) fun p => (net'.procs p).st.owned := by
  constructor
  · intro sync k net h
    obtain ⟨k', net', h', hall, _⟩ := C142_completes S.b S.wrap S.P hP (fun _ _ l => l) (fun _ _ l => List.Perm.refl _) _ 1 sync k net h
    refine ⟨k', net', h', hall, ?_⟩
    unfold Exchanged
    rw [if_neg (by omega)]
    exact ⟨sync, k', net', h', fun p hp => ⟨hall p hp, rfl⟩⟩
  · intro w1 he R sync k net h
    obtain ⟨k', net', h', hall⟩ := C143_completes (cfg S (madeAll S D w1 sys.forces) fun r => dts (l.sum + r)) hP (advance_length S (madeAll S D w1 sys.forces) fun r => dts (l.sum + r)) _ R sync k net h
    refine ⟨k', net', h', hall, Goes.cycle l R w w1 _ hrun he ?_⟩
    unfold Stepped
    rw [if_neg (by omega)]
    exact ⟨sync, k', net', h', fun p hp => ⟨hall p hp, rfl⟩⟩

/-- C184: for all particles at the start, numbers of processors, and lengths of the times between constructions, there is a run. -/
theorem C184_exists {n : ℕ} (S : Setup n) (D : Domains n) (sys : Sys) (dts : ℕ → ℝ) (w0 : ℕ → List (Pa n)) (hP : 2 ≤ S.P) (l : List ℕ) :
    ∃ w, Goes S D sys dts w0 l w := by
  induction l using List.reverseRecOn with
  | nil => exact ⟨w0, .init⟩
  | append_singleton l R ih =>
    obtain ⟨w, hw⟩ := ih
    obtain ⟨h1, h2⟩ := C184_completes S D sys hP dts w0 w l hw
    obtain ⟨_, _, _, _, he⟩ := h1 false 0 _ .init
    obtain ⟨_, _, _, _, hg⟩ := h2 _ he R false 0 _ .init
    exact ⟨_, hg⟩

/-! ## Example -/

/-- Example: as `exDomains`, with cells for spheres of a radius up to 0.25. -/
noncomputable def exDomains' : Domains 0 := { exDomains with mss := 1/4 }

theorem ex_cutoff : 2 * exDomains'.mss + exSetup.skin = 3/5 := by norm_num [exDomains', exSetup]

theorem ex_sweep' : sweepOf (3/5 : ℝ) (1/4) = 3 := by
  unfold sweepOf
  rw [show ⌈(3/5 : ℝ) / (1/4)⌉ = 3 by rw [Int.ceil_eq_iff]; norm_num]
  rfl

theorem ex_valid' : exA0.Valid (3/5) ∧ exA1.Valid (3/5) := by
  have t : Grid.trunc (5/3 : ℝ) = 1 := by
    rw [Grid.trunc_nonneg (by norm_num), Int.floor_eq_iff]; norm_num
  refine ⟨⟨by norm_num [exA0], ?_⟩, ⟨by norm_num [exA1], ?_⟩⟩
  · rw [ex_borders.1]
    have : ((1 : ℝ) - 0) / (3/5) = 5/3 := by norm_num
    simp only [exA0, Grid.calcAxis, this, t]
    norm_num
    rfl
  · rw [ex_borders.2]
    have : ((2 : ℝ) - 1) / (3/5) = 5/3 := by norm_num
    simp only [exA1, Grid.calcAxis, this, t]
    norm_num
    rfl

theorem ex_sound : Sound exSetup exDomains' exSys (fun _ => 0) := by
  have hP : exSetup.P = 2 := rfl
  have hb : exSetup.b = line2 := rfl
  have two : ∀ p < exSetup.P, p = 0 ∨ p = 1 := fun p hp => by rw [hP] at hp; omega
  have g : ∀ p < exSetup.P, ∀ k, (exDomains'.G p k = exA0 ∨ exDomains'.G p k = exA1) := by
    intro p hp k
    rcases two p hp with rfl | rfl
    · exact Or.inl rfl
    · exact Or.inr rfl
  have w4 : ∀ p < exSetup.P, ∀ k, (exDomains'.G p k).ax.w = 1/4 := by
    intro p hp k
    rcases g p hp k with e | e <;> rw [e] <;> rfl
  have per : ∀ p < exSetup.P, ∀ k, (exDomains'.G p k).per = false := by
    intro p hp k
    rcases g p hp k with e | e <;> rw [e]
    · exact ex_per.1
    · exact ex_per.2
  refine ⟨le_rfl, fun k => by norm_num [exSetup, line2], fun k hk => by simp [exSetup] at hk, ?_, ?_, by rw [ex_cutoff]; norm_num, ?_, ?_, ?_, ?_, ?_, ?_, by norm_num [exSetup], fun _ _ => le_rfl,
    ?_, ?_, ?_, ?_, ?_, ?_, ?_, ?_, ?_, ?_⟩
  · intro p hp k
    exact (ex_apt 0).parts p hp k
  · exact (ex_apt 0).thick
  · intro p hp k
    rw [ex_cutoff]
    rcases g p hp k with e | e <;> rw [e]
    · exact ex_valid'.1
    · exact ex_valid'.2
  · intro p hp k; rw [w4 p hp k]; norm_num
  · intro p hp k; rw [ex_cutoff, w4 p hp k, ex_sweep']; norm_num
  · intro p hp k h; rw [per p hp k] at h; cases h
  · intro p hp
    rw [ex_cutoff, show List.ofFn (exDomains'.G p) = [exDomains'.G p 0] from rfl]
    exact C27_complete_one_dimension (by norm_num) _ (by show 0 < (exDomains'.G p 0).ax.w; rw [w4 p hp 0]; norm_num)
  · intro p hp
    have hc : (osys exSetup exDomains' p [] []).toGSys.cutoff = 3/5 := ex_cutoff
    have hg : (osys exSetup exDomains' p [] []).g = [exDomains'.G p 0] := rfl
    refine GhostPairs.C149_full_small _ (by rw [hc]; norm_num) ?_ ?_
    · rw [hg]; intro a ha; rw [List.mem_singleton.mp ha, w4 p hp 0]; norm_num
    · rw [hg, hc]
      simp only [List.map_cons, List.map_nil, List.sum_cons, List.sum_nil, w4 p hp 0, ex_sweep']
      norm_num
  · intro a _; norm_num [exSys, exDomains', exSetup]
  · intro s t; norm_num [exDomains', exDomains, exSetup]
  · intro k T hT a _ b _
    match k, hT with
    | 0, hT =>
      have := Option.some.inj hT
      subst this
      simp [exDomains', exDomains]
    | k + 1, hT => simp [exSys] at hT
  · intro k s t h
    simp only [exDomains', exDomains] at h ⊢
    split_ifs at h with hst
    rw [if_pos ⟨hst.2, hst.1⟩]
    exact h
  · intro k T hT s t _
    match k, hT with
    | 0, hT =>
      have := Option.some.inj hT
      subst this
      exact ⟨rfl, rfl⟩
    | k + 1, hT => simp [exSys] at hT
  · intro T hT
    simp only [exSys, List.mem_singleton] at hT
    subst hT
    norm_num
  · intro a _ b _ k hk; simp [exSetup] at hk
  · intro p hp a _ b _ k hk; simp [exSetup] at hk
  · intro T hT a _ b _
    simp only [exSys, List.mem_singleton] at hT
    subst hT
    norm_num [exSys, exSetup]
  · exact Or.inr ((ex_apt 0).neighbours.resolve_left fun h => by
      have := h 0 (by decide) (exPa 0 (9/10) 0) (by simp [exW])
      norm_num [exPa, exSetup] at this)

theorem ex_placed (v : ℝ) : Placed exSetup (fun _ => 0) (exW v) := by
  constructor
  · intro p hp a ha
    rcases ex_mem (v := v) rfl hp ha with ⟨_, rfl⟩ | ⟨_, rfl⟩ <;> rfl
  · intro p hp a ha
    exact ⟨a.x, ((ex_apt v).home p hp a ha).1, fun k => by norm_num⟩

/-- Example: there are runs. -/
theorem ex_goes' (dts : ℕ → ℝ) (v : ℝ) : ∃ w', Goes exSetup exDomains' exSys dts (exW v) [1] w' := by
  set Ks := madeAll exSetup exDomains' (exW v) exSys.forces with hK
  have he : ∀ r p l g, ((cfg exSetup Ks dts).evolve r p l g).length = l.length := advance_length exSetup Ks dts
  obtain ⟨k, net, hrun, hall⟩ := C143_completes (cfg exSetup Ks dts) le_rfl he (fun p => ⟨exW v p, fun _ => [], [], fun _ => 0⟩) 1 false 0 _ .init
  refine ⟨fun p => (net.procs p).st.owned, Goes.cycle [] 1 (exW v) (exW v) _ .init (ex_exchanged v) ?_⟩
  unfold Stepped
  rw [if_neg (by simp [exSetup])]
  simp only [List.sum_nil, Nat.zero_add]
  exact ⟨false, k, net, hrun, fun p hp => ⟨hall p hp, rfl⟩⟩

/-- C184, the hypotheses are met: two overlapping spheres on two processors, a construction and a step. -/
example : Fits exSetup exSys ∧ Sound exSetup exDomains' exSys (fun _ => 0) ∧ Follows exSetup exSys (exM (9/10) (11/10) 0) (exW 0) ∧
    Placed exSetup (fun _ => 0) (exW 0) ∧ (∃ w, Goes exSetup exDomains' exSys (fun _ => 1/10) (exW 0) [1] w) ∧
    Timely exSys exSetup.skin (orbit exSys (widths exSetup.b exSetup.wrap) (fun _ => 1/10) (exM (9/10) (11/10) 0)) [1] ∧
    Separate exSys (widths exSetup.b exSetup.wrap) (orbit exSys (widths exSetup.b exSetup.wrap) (fun _ => 1/10) (exM (9/10) (11/10) 0)) 1 ∧
    Slow exSetup exSys (orbit exSys (widths exSetup.b exSetup.wrap) (fun _ => 1/10) (exM (9/10) (11/10) 0)) [1] := by
  have one : ∀ (l1 : List ℕ) (R : ℕ) (l2 : List ℕ), [1] = l1 ++ R :: l2 → l1 = [] ∧ R = 1 := by
    intro l1 R l2 e
    cases l1 with
    | nil => simp at e; exact ⟨rfl, e.1.symm⟩
    | cons b l1 => simp at e
  have c01 : ∀ a < exSys.N, a = 0 ∨ a = 1 := fun a ha => by have : a < 2 := ha; omega
  refine ⟨ex_fits, ex_sound, ex_follows _ _ _, ex_placed 0, ex_goes' _ 0, ?_, ?_, ?_⟩
  · intro l1 R l2 e r hr a ha
    obtain ⟨rfl, rfl⟩ := one l1 R l2 e
    obtain rfl : r = 0 := by omega
    simp only [List.sum_nil, Nat.zero_add, sub_self]
    rw [len_one]
    norm_num [exSetup]
  · intro t ht a ha b hb hab hz
    obtain rfl : t = 0 := by omega
    rw [ex_near] at hz
    have hz := congrFun hz 0
    rw [Pi.sub_apply, Pi.zero_apply] at hz
    rcases c01 a ha with rfl | rfl <;> rcases c01 b hb with rfl | rfl <;> first | exact hab rfl | norm_num [orbit, exM] at hz
  · intro l1 R l2 e
    obtain ⟨rfl, rfl⟩ := one l1 R l2 e
    constructor
    · intro a ha k _
      rcases c01 a ha with rfl | rfl <;> norm_num [orbit, exM, exSetup, line2]
    · intro a ha k
      obtain rfl : k = 0 := Subsingleton.elim (α := Fin 1) k 0
      obtain ⟨d, d0, d1, x0, x1⟩ := ex_orbit 1 (by omega)
      simp only [List.sum_nil, Nat.zero_add]
      rcases c01 a ha with rfl | rfl
      · rw [x0, show (orbit exSys (widths exSetup.b exSetup.wrap) (fun _ => 1/10) (exM (9/10) (11/10) 0) 0).x 0 0 = 9/10 from rfl, abs_le]
        constructor <;> linarith
      · rw [x1, show (orbit exSys (widths exSetup.b exSetup.wrap) (fun _ => 1/10) (exM (9/10) (11/10) 0) 0).x 1 0 = 11/10 from rfl, abs_le]
        constructor <;> linarith

end Verif.ParallelWhole
