import Verif.Domain.OwnPairs
import Mathlib.Data.Rat.Floor
import Mathlib.Tactic.NormNum
import Mathlib.Tactic.Linarith
import Mathlib.Tactic.FieldSimp

/-!
# Builds with and without MPI (C181)

The `Makefile` builds the program with MPI unless `USE_MPI=0` is given. Models how the bounds of the simulation reach the
topology and the domain in both builds: `GFlow::setBounds` (`gflow.cpp:505-511`), `GFlow::initialize` (`gflow.cpp:45-75`),
`Topology::initialize` and `setSimulationBounds` (`base/topology.cpp:23-28,62-81`), `InteractionHandler::initialize`,
`setSkinDepth` and `checkBounds` (`base/interactionhandler.cpp:22-41,251-276`), and the grid that `DomainBase::initialize`
(`base/domainbase.cpp:13-44`) makes of them. The program runs on one processor. -/

set_option linter.unusedSectionVars false
set_option linter.unusedSimpArgs false

namespace Verif.SerialBuild
open Verif.Grid Verif.Stencil Verif.Cells Verif.GhostPairs Verif.OwnPairs

section field
variable {K : Type*} [Field K] [LinearOrder K] [IsStrictOrderedRing K] [FloorRing K]

/-! ## The model -/

/-- A `Bounds` object: the least and the greatest coordinate of each dimension. -/
abbrev Box (K : Type*) := List (K × K)

/-- `Bounds::vol`, `utility/bounds.cpp:99-104`. -/
def vol : Box K → K
  | [] => 1
  | p :: b => (p.2 - p.1) * vol b

/-- The copies of the bounds: `simulation_bounds` of `GFlow`, `simulation_bounds` and `process_bounds` of the topology and of
the handler (`gflow.hpp`, `base/topology.hpp:141`, `base/interactionhandler.hpp`). -/
structure St (K : Type*) where
  gflow : Box K
  tsim : Box K
  tproc : Box K
  hsim : Box K
  hproc : Box K

/-- After the constructors, `gflow.cpp:14`, `base/topology.cpp:8`, `base/interactionhandler.cpp:12`, `utility/bounds.cpp:7-15`:
all bounds are zero. (`GFlow::initialize` at the end of the constructor changes nothing, as the volume is zero.) -/
def fresh (n : ℕ) : St K :=
  ⟨List.replicate n (0, 0), List.replicate n (0, 0), List.replicate n (0, 0), List.replicate n (0, 0),
    List.replicate n (0, 0)⟩

/-- `Topology::setSimulationBounds`, `base/topology.cpp:62-81`; `mpi` is the build flag. With one processor, the region that
`computeTopology` gives to it is the whole box (`parallel/kdtreetopology.cpp:16-31`, C76). -/
def setSim (mpi : Bool) (b : Box K) (s : St K) : St K :=
  if vol b ≤ 0 then s
  else if mpi then (if b = s.tsim then s else { s with tsim := b, tproc := b })
  else { s with tproc := b }

/-- The bounds in `InteractionHandler::initialize`, `base/interactionhandler.cpp:29-32`. -/
def handlerInit (s : St K) : St K := { s with hsim := s.tsim, hproc := s.tproc }

/-- `InteractionHandler::checkBounds`, `base/interactionhandler.cpp:269-276`. -/
def checkBounds (s : St K) : St K :=
  let s := { s with hsim := s.tsim }
  if s.hproc ≠ s.tproc then handlerInit s else s

/-- The calls which concern bounds; `reinit` is `GFlow::initialize`. `setSkinDepth` initializes the handler again when the depth is new. -/
inductive Op (K : Type*)
  | setBounds (b : Box K)
  | reinit
  | setSkinDepth

/-- Effect of a call: `GFlow::setBounds` (`gflow.cpp:505-511`), `GFlow::initialize` (`gflow.cpp:45-75`, with
`base/topology.cpp:23-28`), `InteractionHandler::setSkinDepth` (`base/interactionhandler.cpp:251-259`). The exception
`BadBounds` of the domain is not modelled. -/
def exec (mpi : Bool) (s : St K) : Op K → St K
  | .setBounds b => checkBounds (setSim mpi b { s with gflow := b })
  | .reinit => handlerInit (setSim mpi s.gflow s)
  | .setSkinDepth => handlerInit s

/-- A history of calls. -/
def run (mpi : Bool) (n : ℕ) (h : List (Op K)) : St K := h.foldl (exec mpi) (fresh n)

/-- What `assign_border_types` reads, `base/interactionhandler.cpp:425-459`: the bounds of the process and of the simulation, and
the boundary conditions. -/
def dimensions : Box K → Box K → List Bool → List (Bd K)
  | p :: ps, q :: qs, w :: ws => ⟨p.1, p.2, q.1, q.2, w⟩ :: dimensions ps qs ws
  | _, _, _ => []

/-- `calculate_domain_cell_dimensions` over the dimensions, `domains/domain.cpp:250-272`, for the target cell size `c`. -/
def axes (c : K) : List (Bd K) → Option (List (HAx K))
  | [] => some []
  | b :: bs =>
    match calcAxis c b.lo b.hi (decide ((borders b).1 ≠ 0)) (decide ((borders b).2 ≠ 0)), axes c bs with
    | some a, some as => some (⟨b, a⟩ :: as)
    | _, _ => none

/-- The grid which the domain makes, `base/domainbase.cpp:13-44`; `c` is `target_cell_size`, `wraps` says which dimensions have
the boundary condition `WRAP`. -/
def grid (c : K) (s : St K) (wraps : List Bool) : Option (List (HAx K)) := axes c (dimensions s.hproc s.hsim wraps)

/-! ## The bounds that are kept -/

/-- Spec: the call does not set bounds. -/
def Quiet : Op K → Prop
  | .setBounds _ => False
  | _ => True

theorem mpi_inv (s : St K) (h : s.tsim = s.tproc) (o : Op K) : (exec true s o).tsim = (exec true s o).tproc := by
  cases o <;> simp only [exec, checkBounds, setSim, handlerInit] <;> (try split_ifs) <;> simp_all

theorem run_append (mpi : Bool) (n : ℕ) (h1 h2 : List (Op K)) :
    run mpi n (h1 ++ h2) = h2.foldl (exec mpi) (run mpi n h1) := by
  unfold run; rw [List.foldl_append]

theorem mpi_run (n : ℕ) (h : List (Op K)) : (run true n h).tsim = (run true n h).tproc := by
  induction h using List.reverseRecOn with
  | nil => rfl
  | append_singleton h o ih =>
    rw [run_append]
    exact mpi_inv _ ih o

/-- Spec: all objects know the bounds `b`. -/
def Agree (s : St K) (b : Box K) : Prop :=
  s.gflow = b ∧ s.tsim = b ∧ s.tproc = b ∧ s.hsim = b ∧ s.hproc = b

/-- **C181, the default build.** In the build with MPI, run on one processor, after every history of calls: when the last
bounds that were set have positive volume, then the simulation, the topology and the domain all have these bounds, as those
of the simulation and as those of the processor.

Missing: the build without MPI, of which this is false (`C181_serial_bounds`, `C181_negation`). -/
theorem C181_bounds_partial (n : ℕ) (h1 h2 : List (Op K)) (b : Box K) (hb : 0 < vol b) (h : ∀ o ∈ h2, Quiet o) :
    Agree (run true n (h1 ++ .setBounds b :: h2)) b := by
  rw [show h1 ++ .setBounds b :: h2 = (h1 ++ [.setBounds b]) ++ h2 by simp, run_append]
  have h0 : Agree (run true n (h1 ++ [.setBounds b])) b := by
    rw [run_append]
    have hi := mpi_run n h1
    generalize run true n h1 = s at hi
    simp only [List.foldl_cons, List.foldl_nil, exec, checkBounds, setSim, handlerInit, if_neg (not_le.mpr hb), if_true,
      Agree]
    by_cases he : b = s.tsim
    · rw [if_pos he]
      by_cases hp : s.hproc ≠ s.tproc
      · rw [if_pos hp]; simp only; rw [← hi, ← he]; simp
      · rw [if_neg hp]; simp only; push Not at hp; rw [hp, ← hi, ← he]; simp
    · rw [if_neg he]
      simp only
      by_cases hp : s.hproc ≠ b
      · rw [if_pos hp]; simp
      · rw [if_neg hp]; simp only; push Not at hp; rw [hp]; simp
  generalize run true n (h1 ++ [.setBounds b]) = s at h0
  induction h2 generalizing s with
  | nil => exact h0
  | cons o h2 ih =>
    refine ih (fun p hp => h p (List.mem_cons_of_mem _ hp)) _ ?_
    obtain ⟨a1, a2, a3, a4, a5⟩ := h0
    cases o with
    | setBounds c => exact absurd (h (.setBounds c) (by simp)) (by simp [Quiet])
    | reinit =>
      simp only [exec, handlerInit, setSim, a1, a2, if_neg (not_le.mpr hb), if_true, Agree]
      simp [a3]
    | setSkinDepth => exact ⟨a1, a2, a3, a2, a3⟩

theorem serial_inv {n : ℕ} {s : St K} (h : s.tsim = List.replicate n (0, 0) ∧ s.hsim = List.replicate n (0, 0)) (o : Op K) :
    (exec false s o).tsim = List.replicate n (0, 0) ∧ (exec false s o).hsim = List.replicate n (0, 0) := by
  obtain ⟨h1, h2⟩ := h
  cases o <;> simp only [exec, checkBounds, setSim, handlerInit] <;> (try split_ifs) <;> simp_all

/-- **C181, the build without MPI.** After every history of calls, whatever bounds were set, the topology and the domain have
an empty box at the origin for the bounds of the simulation. -/
theorem C181_serial_bounds (n : ℕ) (h : List (Op K)) :
    (run false n h).tsim = List.replicate n (0, 0) ∧ (run false n h).hsim = List.replicate n (0, 0) := by
  induction h using List.reverseRecOn with
  | nil => exact ⟨rfl, rfl⟩
  | append_singleton h o ih =>
    rw [run_append]
    exact serial_inv ih o

example : 0 < vol [((0 : ℚ), 10), (-5, 5)] ∧
    Agree (run true 2 ([] ++ .setBounds [((0 : ℚ), 10), (-5, 5)] :: [.reinit, .setSkinDepth])) [((0 : ℚ), 10), (-5, 5)] ∧
    (run false 2 [.setBounds [((0 : ℚ), 10), (-5, 5)], .reinit]).hsim = [(0, 0), (0, 0)] ∧
    (run false 2 [.setBounds [((0 : ℚ), 10), (-5, 5)], .reinit]).hproc = [(0, 10), (-5, 5)] := by
  refine ⟨by norm_num [vol], C181_bounds_partial 2 [] [.reinit, .setSkinDepth] _ (by norm_num [vol]) ?_, ?_, ?_⟩
  · intro o ho
    rcases List.mem_cons.mp ho with rfl | ho
    · trivial
    · rcases List.mem_cons.mp ho with rfl | ho
      · trivial
      · simp at ho
  · decide +kernel
  · decide +kernel

/-! ## The grids -/

theorem axes_valid {c : K} {bs : List (Bd K)} {g : List (HAx K)} (h : axes c bs = some g) (hw : ∀ b ∈ bs, b.lo < b.hi) :
    g.map HAx.bd = bs ∧ ∀ a ∈ g, a.Valid c := by
  induction bs generalizing g with
  | nil => simp only [axes, Option.some.injEq] at h; subst h; simp
  | cons b bs ih =>
    simp only [axes] at h
    split at h
    · rename_i a as h1 h2
      simp only [Option.some.injEq] at h
      subst h
      obtain ⟨i1, i2⟩ := ih h2 (fun b hb => hw b (List.mem_cons_of_mem _ hb))
      refine ⟨by simp [i1], ?_⟩
      intro x hx
      rcases List.mem_cons.mp hx with rfl | hx
      · exact ⟨hw b (by simp), h1⟩
      · exact i2 x hx
    · simp at h

theorem dims_same (b : Box K) (wraps : List Bool) : ∀ d ∈ dimensions b b wraps, d.lo = d.slo ∧ d.hi = d.shi := by
  induction b generalizing wraps with
  | nil => simp [dimensions]
  | cons p b ih =>
    cases wraps with
    | nil => simp [dimensions]
    | cons w ws =>
      intro d hd
      rcases List.mem_cons.mp hd with rfl | hd
      · exact ⟨rfl, rfl⟩
      · exact ih ws d hd

theorem dims_zero (b : Box K) (n : ℕ) (wraps : List Bool) :
    ∀ d ∈ dimensions b (List.replicate n (0, 0)) wraps, d.slo = 0 ∧ d.shi = 0 := by
  induction b generalizing n wraps with
  | nil => simp [dimensions]
  | cons p b ih =>
    cases n with
    | zero => simp [dimensions]
    | succ n =>
      cases wraps with
      | nil => simp [dimensions]
      | cons w ws =>
        intro d hd
        rw [List.replicate_succ] at hd
        rcases List.mem_cons.mp hd with rfl | hd
        · exact ⟨rfl, rfl⟩
        · exact ih n ws d hd

/-- **C181, borders.** For all bounds of positive sides and all boundary conditions. In the default build on one processor, no
side of the box is taken for a border with another processor, and the domain looks through exactly those boundaries which
wrap. In the build without MPI, the domain looks through no boundary. -/
theorem C181_borders (c : K) (n : ℕ) (h : List (Op K)) (wraps : List Bool) (g : List (HAx K)) :
    (∀ h1 h2 b, h = h1 ++ .setBounds b :: h2 → (∀ o ∈ h2, Quiet o) → 0 < vol b →
      grid c (run true n h) wraps = some g → (∀ a ∈ g, a.bd.lo < a.bd.hi) →
      ∀ a ∈ g, borders a.bd = (0, 0) ∧ a.per = a.bd.wrap) ∧
    (grid c (run false n h) wraps = some g → (∀ a ∈ g, a.bd.lo < a.bd.hi) → ∀ a ∈ g, a.per = false) := by
  have hbd : ∀ {bs : List (Bd K)} {g : List (HAx K)}, axes c bs = some g → g.map HAx.bd = bs := by
    intro bs
    induction bs with
    | nil => intro g h; simp only [axes, Option.some.injEq] at h; subst h; rfl
    | cons b bs ih =>
      intro g h
      simp only [axes] at h
      split at h
      · rename_i a as h1 h2
        simp only [Option.some.injEq] at h
        subst h
        simp [ih h2]
      · simp at h
  constructor
  · intro h1 h2 b he hq hb hg _ a ha
    subst he
    obtain ⟨_, _, _, a4, a5⟩ := C181_bounds_partial n h1 h2 b hb hq
    rw [grid, a4, a5] at hg
    have hm : a.bd ∈ dimensions b b wraps := by rw [← hbd hg]; exact List.mem_map_of_mem ha
    obtain ⟨e1, e2⟩ := dims_same b wraps _ hm
    have hbo : borders a.bd = (0, 0) := by
      unfold borders
      rw [e1, e2]; simp
    refine ⟨hbo, ?_⟩
    rw [HAx.per, hbo]; simp
  · intro hg hlt a ha
    rw [grid, (C181_serial_bounds n h).2] at hg
    have hm : a.bd ∈ dimensions (run false n h).hproc (List.replicate n (0, 0)) wraps := by
      rw [← hbd hg]; exact List.mem_map_of_mem ha
    obtain ⟨e1, e2⟩ := dims_zero _ n wraps _ hm
    by_contra hp
    obtain ⟨hw, h2⟩ := per_iff.mp (by simpa using hp)
    have := (borders_zero_iff hw).2.mp h2
    rw [e1, e2, sub_zero] at this
    have := hlt a ha
    linarith

/-! ## Pairs that are never listed -/

theorem near_plain {c : K} {a : HAx K} (hA : a.ax.Valid) (elo : a.ax.lo = a.bd.lo) (ehi : a.ax.hi = a.bd.hi)
    (hp : a.per = false) {x y : K}
    (hx : a.bd.lo ≤ x ∧ x < a.bd.hi) (hy : a.bd.lo ≤ y ∧ y < a.bd.hi)
    (h : Near1 (a.gax.ax c) (cellCoord a.ax x) (cellCoord a.ax y)) :
    |x - y| < ((sweepOf c a.ax.w : K) + 1) * a.ax.w := by
  have hw := hA.wpos
  have ht := hA.tiles
  have hint := hA.interior
  have hfl : ∀ z : K, a.bd.lo ≤ z ∧ z < a.bd.hi → cellCoord a.ax z = ⌊(z - a.ax.lo) / a.ax.w⌋ + a.ax.down := by
    intro z hz
    have f0 : 0 ≤ ⌊(z - a.ax.lo) / a.ax.w⌋ :=
      Int.floor_nonneg.mpr (div_nonneg (by rw [elo]; linarith [hz.1]) hw.le)
    have f1 : ⌊(z - a.ax.lo) / a.ax.w⌋ < ((a.ax.dim - a.ax.down - a.ax.up : ℕ) : ℤ) := by
      rw [Int.floor_lt, div_lt_iff₀ hw, Int.cast_natCast, ht, elo, ehi]; linarith [hz.2]
    rw [cellCoord_eq hA]; omega
  rcases h with h | ⟨h, _⟩
  · simp only [HAx.gax, GAx.ax] at h
    rw [hfl x hx, hfl y hy, abs_le] at h
    have a1 := Int.floor_le ((x - a.ax.lo) / a.ax.w)
    have a2 := Int.lt_floor_add_one ((x - a.ax.lo) / a.ax.w)
    have b1 := Int.floor_le ((y - a.ax.lo) / a.ax.w)
    have b2 := Int.lt_floor_add_one ((y - a.ax.lo) / a.ax.w)
    have c1 : (⌊(y - a.ax.lo) / a.ax.w⌋ : K) ≤ ⌊(x - a.ax.lo) / a.ax.w⌋ + sweepOf c a.ax.w := by
      have : ⌊(y - a.ax.lo) / a.ax.w⌋ ≤ ⌊(x - a.ax.lo) / a.ax.w⌋ + sweepOf c a.ax.w := by omega
      exact_mod_cast this
    have c2 : (⌊(x - a.ax.lo) / a.ax.w⌋ : K) ≤ ⌊(y - a.ax.lo) / a.ax.w⌋ + sweepOf c a.ax.w := by
      have : ⌊(x - a.ax.lo) / a.ax.w⌋ ≤ ⌊(y - a.ax.lo) / a.ax.w⌋ + sweepOf c a.ax.w := by omega
      exact_mod_cast this
    have d1 : (x - a.ax.lo) / a.ax.w - (y - a.ax.lo) / a.ax.w < sweepOf c a.ax.w + 1 := by linarith
    have d2 : -((sweepOf c a.ax.w : K) + 1) < (x - a.ax.lo) / a.ax.w - (y - a.ax.lo) / a.ax.w := by linarith
    rw [← sub_div, div_lt_iff₀ hw] at d1
    rw [← sub_div, lt_div_iff₀ hw] at d2
    rw [abs_lt]; constructor <;> linarith
  · simp only [HAx.gax, GAx.ax] at h
    rw [hp] at h; simp at h

/-- Spec: in some dimension the coordinates differ by at least `r`. -/
def Apart (r : K) (x y : List K) : Prop := ∃ p ∈ x.zip y, r ≤ |p.1 - p.2|

theorem near_not_apart {c : K} (hc : 0 < c) {g : List (HAx K)} (hv : ∀ a ∈ g, a.Valid c) (hp : ∀ a ∈ g, a.per = false)
    (hside : ∀ a ∈ g, 4 * c ≤ a.bd.hi - a.bd.lo) {x y : List K}
    (hx : List.Forall₂ (fun (a : HAx K) z => a.bd.lo ≤ z ∧ z < a.bd.hi) g x)
    (hy : List.Forall₂ (fun (a : HAx K) z => a.bd.lo ≤ z ∧ z < a.bd.hi) g y) {s t : List ℕ}
    (hs : cellTuple (g.map HAx.ax) x = s.map (↑)) (ht : cellTuple (g.map HAx.ax) y = t.map (↑))
    (h : Near (g.map fun a => a.gax.ax c) s t) : ¬ Apart (4 * c) x y := by
  induction g generalizing x y s t with
  | nil => cases hx; cases hy; simp [Apart]
  | cons a g ih =>
    cases hx with
    | @cons _ x _ xs hx0 hxl =>
      cases hy with
      | @cons _ y _ ys hy0 hyl =>
        simp only [List.map_cons, cellTuple] at hs ht
        match s, t with
        | [], _ => simp at hs
        | _ :: _, [] => simp at ht
        | i :: s, j :: t =>
          simp only [List.map_cons, List.cons.injEq] at hs ht
          simp only [List.map_cons, Near] at h
          have hva := hv a (by simp)
          obtain ⟨hA, elo, ehi, _, _⟩ := hva.facts hc
          have hn : |x - y| < ((sweepOf c a.ax.w : K) + 1) * a.ax.w :=
            near_plain hA elo ehi (hp a (by simp)) hx0 hy0 (by rw [hs.1, ht.1]; exact h.1)
          obtain ⟨_, h2⟩ := C26_cell_dimensions c a.bd.lo a.bd.hi (decide ((borders a.bd).1 ≠ 0))
            (decide ((borders a.bd).2 ≠ 0)) hc hva.lohi
          obtain ⟨_, _, _, _, hwp, nn, _, _, _, hbig, _⟩ := h2 a.ax hva.built
          obtain ⟨w1, w2⟩ := hbig (hside a (by simp))
          have hsw : sweepOf c a.ax.w ≤ 1 := by
            have : ⌈c / a.ax.w⌉ ≤ 1 := by
              rw [Int.ceil_le]; push_cast; rw [div_le_one hwp]; exact w1
            unfold sweepOf; omega
          have hswK : (sweepOf c a.ax.w : K) ≤ 1 := by exact_mod_cast hsw
          rintro ⟨p, hp', hr⟩
          rw [List.zip_cons_cons] at hp'
          rcases List.mem_cons.mp hp' with rfl | hp'
          · simp only at hr; nlinarith
          · exact ih (fun b hb => hv b (List.mem_cons_of_mem _ hb)) (fun b hb => hp b (List.mem_cons_of_mem _ hb))
              (fun b hb => hside b (List.mem_cons_of_mem _ hb)) hxl hyl hs.2 ht.2 h.2 ⟨p, hp', hr⟩

/-- Cells in the list of a cell that is not a halo cell are near it. -/
theorem adj_near {S : GSys K} (hw : ∀ x ∈ S.axs, Wide x) {ci cj : ℕ} (hi : ci < S.dims.prod) (hj : cj < S.dims.prod)
    (ni : isHalo (S.g.map HAx.ax) ((getAddressCM S.dims ci).map (↑)) = false) (h : (cj : ℤ) ∈ S.adj ci) :
    Near S.axs (getAddressCM S.dims ci) (getAddressCM S.dims cj) := by
  have hd : (S.g.map HAx.gax).map GAx.n = S.dims := by simp [GSys.dims, HAx.gax, Function.comp_def]
  have ha : (S.g.map HAx.gax).map (GAx.ax S.cutoff) = S.axs := by simp [GSys.axs, Function.comp_def]
  have hss : (S.g.map HAx.gax).map (fun a => sweepOf S.cutoff a.w) = S.axs.map Ax.s := by
    rw [axs_s]; simp [GSys.sweeps, HAx.gax, Function.comp_def]
  rw [GSys.adj, if_neg (by rw [ni]; simp)] at h
  unfold adjacent halfStencil at h
  split_ifs at h
  · simp only [Option.map_some, Option.getD_some] at h
    rw [hss, ha, hd, ← axs_n] at h
    have hH : ∀ t ∈ (neighborIndices S.cutoff (S.axs.map Ax.s) ((S.g.map HAx.gax).map GAx.w)).take
        (volume (S.axs.map Ax.s) / 2), Within (S.axs.map Ax.s) t :=
      fun t ht => neighbor_within t (List.mem_of_mem_take ht)
    have hi' : ci < (S.axs.map Ax.n).prod := by rw [axs_n]; exact hi
    have hj' : cj < (S.axs.map Ax.n).prod := by rw [axs_n]; exact hj
    obtain ⟨t, ht, hst⟩ := (mem_reach hw hH hi' hj').mp h
    have := (near_iff hw (getAddressCM_inGrid _ ci hi') (getAddressCM_inGrid _ cj hj')).mpr ⟨t, hH t ht, hst⟩
    rwa [axs_n] at this
  · simp at h

/-- **C181, the build without MPI does not see through boundaries.** For every history of calls, all boundary conditions and
every configuration of small particles inside a box whose sides are at least four cutoffs long: two particles whose
coordinates differ by four cutoffs or more in some dimension are never listed as a pair, however close they are through a
periodic boundary. -/
theorem C181_serial_blind (n : ℕ) (h : List (Op K)) (wraps : List Bool) (S : OSys K) (hc : 0 < S.cutoff)
    (hg : grid S.cutoff (run false n h) wraps = some S.g) (hside : ∀ a ∈ S.g, 4 * S.cutoff ≤ a.bd.hi - a.bd.lo)
    (hpos : ∀ i, S.Live i → List.Forall₂ (fun (a : HAx K) z => a.bd.lo ≤ z ∧ z < a.bd.hi) S.g (S.x i))
    (hsm : ∀ i, S.Live i → S.rd i * S.maxCut (S.type i) ≤ S.mss) (i j : ℕ) (hi : S.Live i) (hj : S.Live j)
    (hfar : Apart (4 * S.cutoff) (S.x i) (S.x j)) : ∀ v ∈ S.own, IsPair i j v = false := by
  have hlt : ∀ a ∈ S.g, a.bd.lo < a.bd.hi := fun a ha => by have := hside a ha; linarith
  have hper := (C181_borders S.cutoff n h wraps S.g).2 hg hlt
  have hval : ∀ a ∈ S.g, a.Valid S.cutoff := by
    have key : ∀ (bs : List (Bd K)) (g : List (HAx K)), axes S.cutoff bs = some g → (∀ a ∈ g, a.bd.lo < a.bd.hi) →
        ∀ a ∈ g, a.Valid S.cutoff := by
      intro bs
      induction bs with
      | nil => intro g h; simp only [axes, Option.some.injEq] at h; subst h; simp
      | cons b bs ih =>
        intro g h hl
        simp only [axes] at h
        split at h
        · rename_i a as h1 h2
          simp only [Option.some.injEq] at h
          subst h
          intro x hx
          rcases List.mem_cons.mp hx with rfl | hx
          · exact ⟨hl _ (by simp), h1⟩
          · exact ih as h2 (fun a ha => hl a (List.mem_cons_of_mem _ ha)) x hx
        · simp at h
    exact key _ _ hg hlt
  have hwide : ∀ x ∈ S.axs, Wide x := axs_wide (fun a ha hp => by rw [hper a ha] at hp; simp at hp)
  have dir : ∀ i j, S.Live i → S.Live j → Apart (4 * S.cutoff) (S.x i) (S.x j) → S.own.filter (isOrd i j) = [] := by
    intro i j hi hj hfar
    cases hcut : S.cut with
    | none => simp [OSys.own, hcut]
    | some cut =>
      obtain ⟨ci, ti, h1, h2, h3, h4, h5, h6⟩ := own_cell hc hval (S := S.toGSys) (i := i) (hpos i hi).length_eq.symm
      obtain ⟨cj, tj, k1, k2, k3, k4, k5, k6⟩ := own_cell hc hval (S := S.toGSys) (i := j) (hpos j hj).length_eq.symm
      have hnn : ¬ Near S.axs ti tj := fun hn =>
        near_not_apart hc hval hper hside (hpos i hi) (hpos j hj) h4 k4 hn hfar
      rw [filter_own hcut hsm hi hj h1 h2, k1]
      have hne : ¬ ((cj : ℤ) = ci ∧ i < j) := by
        rintro ⟨e, _⟩
        have e' : cj = ci := by exact_mod_cast e
        subst e'
        apply hnn
        rw [← h3, ← k3]
        have hi' : cj < (S.axs.map Ax.n).prod := by rw [axs_n]; exact h2
        have hz : Within (S.axs.map Ax.s) (S.axs.map fun _ => 0) := within_zero S.axs
        have := (near_iff hwide (getAddressCM_inGrid _ cj hi') (getAddressCM_inGrid _ cj hi')).mpr
          ⟨_, hz, Step.zero (InGrid.toInG (getAddressCM_inGrid _ cj hi'))⟩
        rwa [axs_n] at this
      have hz : (S.adj ci).count (cj : ℤ) = 0 := by
        rw [List.count_eq_zero]
        intro hm
        apply hnn
        rw [← h3, ← k3]
        exact adj_near hwide h2 k2 (by rw [h3]; exact h6) hm
      rw [if_neg hne, hz]
      rfl
  have hfar' : Apart (4 * S.cutoff) (S.x j) (S.x i) := by
    obtain ⟨p, hp, hr⟩ := hfar
    refine ⟨(p.2, p.1), ?_, by rw [abs_sub_comm]; exact hr⟩
    rw [← List.zip_swap]
    exact List.mem_map.mpr ⟨p, hp, rfl⟩
  intro v hv
  by_contra hne
  have hpair : IsPair i j v = true := by simpa using hne
  simp only [IsPair, decide_eq_true_eq] at hpair
  rcases hpair with hq | hq
  · have : v ∈ S.own.filter (isOrd i j) := List.mem_filter.mpr ⟨hv, by simpa [isOrd] using hq⟩
    rw [dir i j hi hj hfar] at this; simp at this
  · have : v ∈ S.own.filter (isOrd j i) := List.mem_filter.mpr ⟨hv, by simpa [isOrd] using hq⟩
    rw [dir j i hj hi hfar'] at this; simp at this

/-- **C181, the build without MPI, direct pairs.** On every grid of the build without MPI that has a complete stencil, particles
which are themselves within their range of each other are listed once: without periodic boundaries nothing is missed.

Missing: the pairs through periodic boundaries, which are never listed (`C181_serial_blind`); and what C180 leaves out. -/
theorem C181_serial_direct_partial (n : ℕ) (h : List (Op K)) (wraps : List Bool) (S : OSys K) (cut : ℤ → ℤ → K)
    (hcut : S.cut = some cut) (hg : grid S.cutoff (run false n h) wraps = some S.g) (hlt : ∀ a ∈ S.g, a.bd.lo < a.bd.hi)
    (hS : S.OK cut) (i j : ℕ) (hi : S.Live i) (hj : S.Live j) (hij : i ≠ j)
    (hr : distSq (S.x i) (S.x j) < S.range cut i j ^ 2)
    (hcell : cut (S.type i) (S.type j) ≤ 1 ∨ S.cellOf i ≠ S.cellOf j) :
    (∀ a ∈ S.g, a.per = false) ∧ S.own.countP (IsPair i j) = 1 := by
  refine ⟨(C181_borders S.cutoff n h wraps S.g).2 hg hlt, ?_⟩
  have him : ∀ (g : List (HAx K)) (x y : List K), x.length = g.length → y.length = g.length →
      image g (g.map fun _ => 0) x y = distSq x y := by
    intro g
    induction g with
    | nil => intro x y hx hy; simp at hx hy; subst hx; simp [image, distSq]
    | cons a g ih =>
      intro x y hx hy
      match x, y with
      | [], _ => simp at hx
      | _ :: _, [] => simp at hy
      | x :: xs, y :: ys =>
        simp only [List.map_cons, image, distSq]
        rw [ih xs ys (by simpa using hx) (by simpa using hy)]
        push_cast; ring
  refine (C180_no_pair_missed_partial S cut hcut hS i j hi hj hij (S.g.map fun _ => 0) ?_ ?_ hcell).1
  · unfold Shifts
    rw [List.forall₂_map_left_iff]
    exact List.forall₂_same.mpr (fun a _ _ => rfl)
  · rw [him _ _ _ (hS.pos i hi).length_eq.symm (hS.pos j hj).length_eq.symm]
    exact hr

end field

/-! ## The witness -/

/-- Two particles of radius 1/10 at the two ends of a box of side 2, at a distance of 1/10 through the boundary. -/
def ends (g : List (HAx ℚ)) : OSys ℚ where
  g := g
  number := 2
  ghosts := 0
  x i := [if i = 0 then 1/20 else 39/20]
  rd _ := 1/10
  type _ := 0
  xg _ := []
  rdg _ := 0
  typeg _ := 0
  interacts _ := true
  cut := some fun _ _ => 1
  mss := 1/10
  skin := 1/20
  maxCut _ := 1

/-- The grid of the default build for the periodic box [0, 2]. -/
def gridMpi : List (HAx ℚ) := [⟨⟨0, 2, 0, 2, true⟩, ⟨0, 2, 8, 1/4, 0, 0⟩⟩]

/-- The grid of the build without MPI for the same box. -/
def gridSerial : List (HAx ℚ) := [⟨⟨0, 2, 0, 0, true⟩, ⟨0, 2, 10, 1/4, 1, 1⟩⟩]

theorem grids : grid (1/4) (run true 1 [.setBounds [((0 : ℚ), 2)]]) [true] = some gridMpi ∧
    grid (1/4) (run false 1 [.setBounds [((0 : ℚ), 2)]]) [true] = some gridSerial := by
  have e1 : (run true 1 [.setBounds [((0 : ℚ), 2)]]).hproc = [(0, 2)] := by decide +kernel
  have e2 : (run true 1 [.setBounds [((0 : ℚ), 2)]]).hsim = [(0, 2)] := by decide +kernel
  have e3 : (run false 1 [.setBounds [((0 : ℚ), 2)]]).hproc = [(0, 2)] := by decide +kernel
  have e4 : (run false 1 [.setBounds [((0 : ℚ), 2)]]).hsim = [(0, 0)] := by decide +kernel
  have b1 : borders (⟨0, 2, 0, 2, true⟩ : Bd ℚ) = (0, 0) := by decide +kernel
  have b2 : borders (⟨0, 2, 0, 0, true⟩ : Bd ℚ) = (2, 1) := by decide +kernel
  have c1 : calcAxis ((4 : ℚ)⁻¹) 0 2 false false = some ⟨0, 2, 8, 4⁻¹, 0, 0⟩ := by
    norm_num [calcAxis, trunc]
    rfl
  have c2 : calcAxis ((4 : ℚ)⁻¹) 0 2 true true = some ⟨0, 2, 10, 4⁻¹, 1, 1⟩ := by
    norm_num [calcAxis, trunc]
    rfl
  constructor
  · rw [grid, e1, e2]
    simp [dimensions, axes, b1, c1, gridMpi]
  · rw [grid, e3, e4]
    simp [dimensions, axes, b2, c2, gridSerial]

/-- **C181 is false of the code**: the same program text, the same box [0, 2] with periodic boundary and the same two particles,
which overlap through the boundary. The default build lists the pair as a wrapped pair; the build without MPI does not
list it, so that the particles pass through one another. -/
theorem C181_negation :
    grid (ends gridMpi).cutoff (run true 1 [.setBounds [((0 : ℚ), 2)]]) [true] = some (ends gridMpi).g ∧
    grid (ends gridSerial).cutoff (run false 1 [.setBounds [((0 : ℚ), 2)]]) [true] = some (ends gridSerial).g ∧
    (ends gridMpi).own = [⟨0, 1, 1⟩] ∧ (ends gridSerial).own = [] := by
  have hc : ∀ g, (ends g).cutoff = 1/4 := by intro g; norm_num [ends, GSys.cutoff]
  refine ⟨by rw [hc]; exact grids.1, by rw [hc]; exact grids.2, ?_, ?_⟩
  · decide +kernel
  · decide +kernel

/-- The hypotheses of `C181_serial_blind` hold of this case. -/
example : ∀ v ∈ (ends gridSerial).own, IsPair 0 1 v = false := by
  have hc : (ends gridSerial).cutoff = 1/4 := by norm_num [ends, GSys.cutoff]
  refine C181_serial_blind 1 [.setBounds [((0 : ℚ), 2)]] [true] (ends gridSerial) (by rw [hc]; norm_num)
    (by rw [hc]; exact grids.2) ?_ ?_ ?_ 0 1 ?_ ?_ ?_
  · intro a ha
    have : a = ⟨⟨0, 2, 0, 0, true⟩, ⟨0, 2, 10, 1/4, 1, 1⟩⟩ := by simpa [ends, gridSerial] using ha
    subst this; rw [hc]; norm_num
  · intro i _
    refine List.Forall₂.cons ?_ List.Forall₂.nil
    constructor
    · show (0 : ℚ) ≤ if i = 0 then 1/20 else 39/20
      split_ifs <;> norm_num
    · show (if i = 0 then 1/20 else 39/20 : ℚ) < 2
      split_ifs <;> norm_num
  · intro i _; norm_num [ends]
  · norm_num [ends, GSys.Live]
  · norm_num [ends, GSys.Live]
  · refine ⟨(1/20, 39/20), by simp [ends], ?_⟩
    rw [hc, abs_of_neg (by norm_num)]; norm_num

/-- Two particles that are close in the middle of the box of the build without MPI. -/
def middle : OSys ℚ := { ends gridSerial with x := fun i => [if i = 0 then 19/20 else 21/20] }

/-- The hypotheses of `C181_serial_direct_partial` hold of this case. -/
example : middle.own.countP (IsPair 0 1) = 1 := by
  have hc : middle.cutoff = 1/4 := by norm_num [middle, ends, GSys.cutoff]
  have hb : borders (⟨0, 2, 0, 0, true⟩ : Bd ℚ) = (2, 1) := by decide +kernel
  have hm : ∀ a ∈ middle.g, a = ⟨⟨0, 2, 0, 0, true⟩, ⟨0, 2, 10, 1/4, 1, 1⟩⟩ := by
    intro a ha; simpa [middle, ends, gridSerial] using ha
  have hgr : grid middle.cutoff (run false 1 [.setBounds [((0 : ℚ), 2)]]) [true] = some middle.g := by
    rw [hc]; exact grids.2
  have hper : ∀ a ∈ middle.g, a.per = false := by
    intro a ha; rw [hm a ha]; simp [HAx.per, hb]
  refine (C181_serial_direct_partial 1 [.setBounds [((0 : ℚ), 2)]] [true] middle (fun _ _ => 1) rfl hgr ?_
    ⟨?_, ?_, ?_, ?_, ?_, ?_, ?_, ?_, ?_, ?_, ?_⟩ 0 1 ?_ ?_ (by norm_num) ?_ (Or.inl (le_refl _))).2
  · intro a ha; rw [hm a ha]; norm_num
  · rw [hc]; norm_num
  · have hd : dimensions (run false 1 [.setBounds [((0 : ℚ), 2)]]).hproc
        (run false 1 [.setBounds [((0 : ℚ), 2)]]).hsim [true] = [⟨0, 2, 0, 0, true⟩] := by
      have e3 : (run false 1 [.setBounds [((0 : ℚ), 2)]]).hproc = [(0, 2)] := by decide +kernel
      have e4 : (run false 1 [.setBounds [((0 : ℚ), 2)]]).hsim = [(0, 0)] := by decide +kernel
      rw [e3, e4]; rfl
    refine (axes_valid hgr ?_).2
    rw [hd]; intro b hb; simp at hb; subst hb; norm_num
  · intro a ha hp; rw [hper a ha] at hp; simp at hp
  · have : middle.g.map HAx.gax = [⟨10, 1/4, false⟩] := by simp [middle, ends, gridSerial, HAx.gax, HAx.per, hb]
    rw [this]
    exact C27_complete_one_dimension (by rw [hc]; norm_num) _ (by norm_num)
  · norm_num [middle, ends]
  · intro i _
    refine List.Forall₂.cons ?_ List.Forall₂.nil
    intro hp; simp [HAx.per, hb] at hp
  · intro i _; norm_num [middle, ends]
  · intro i _; norm_num [middle, ends]
  · intro i j _ _; norm_num
  · intro i j _ _; rfl
  · intro i j _ _; norm_num [middle, ends]
  · norm_num [middle, ends, GSys.Live]
  · norm_num [middle, ends, GSys.Live]
  · norm_num [middle, ends, distSq, OSys.range]

end Verif.SerialBuild
