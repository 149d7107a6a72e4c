import Mathlib.Data.List.Basic
import Mathlib.Data.Rat.Defs
import Mathlib.Algebra.Order.Ring.Rat
import Mathlib.Tactic.Common

/-!
# Relaxation during setup (C105)

Models `Creator::hs_relax` and `Creator::relax` (`base/creator.cpp:37-130`), `GFlow::initialize` and `initializeBase` (`gflow.cpp:45-95`), the parts of
`GFlow::run` (`gflow.cpp:97-300`) that change which objects are used, and `resetAllTimes` (`gflow.cpp:698-704`). Objects are numbers; each component holds
pointers to the integrator and the force master, copied from the simulation when it is initialised (`base/base.cpp:7-15`). What a run does to
particles is an arbitrary function.
-/

namespace Verif.Relaxation

/-- The pointers of a component that relaxation exchanges (`Base::integrator`, `Base::forceMaster`). -/
structure Ptrs where
  integrator : ℕ
  forceMaster : ℕ
  deriving DecidableEq

/-- `RunMode`. -/
inductive Mode
  | idle | sim | init
  deriving DecidableEq

/-- The simulation. `P` is the particle data. -/
structure G (P : Type) where
  integrator : ℕ
  forceMaster : ℕ
  /-- nonbonded interactions -/
  interactions : List ℕ
  modifiers : List ℕ
  /-- `additional_integrators`, `bondedInteractions`, `bodies`: components that `initialize` does not visit -/
  others : List ℕ
  /-- the other components that `initialize` visits: particle data, topology, handler, data master -/
  core : List ℕ
  /-- the pointers held by each component -/
  ptrs : ℕ → Ptrs
  /-- the force master whose interaction grid the handler has copied (`set_up_grids`) -/
  handlerGrid : ℕ
  /-- the interactions in the grid of each force master -/
  grid : ℕ → List ℕ
  /-- objects that were deleted -/
  deleted : List ℕ
  particles : P
  /-- the forces were cleared and not computed since -/
  forcesClear : Bool
  mode : Mode
  requested : ℚ
  totalRequested : ℚ
  elapsed : ℚ
  total : ℚ
  iter : ℕ

/-- What the rest of the program does: the number of particles, and the results of a run for an integrator and a list of interactions. -/
structure Env (P : Type) where
  number : P → ℕ
  move : ℕ → List ℕ → ℚ → P → P
  elapsed : P → ℚ → ℚ
  steps : P → ℚ → ℕ
  /-- modifiers that are not removed during the run -/
  keep : P → ℕ → Bool

variable {P : Type}

/-- The components that `GFlow::initialize` visits, `gflow.cpp:45-76`. -/
def G.visited (g : G P) : List ℕ := g.core ++ [g.integrator, g.forceMaster] ++ g.modifiers ++ g.interactions

/-- `GFlow::initialize`, `gflow.cpp:45-76`, with `initializeBase`, `gflow.cpp:78-95`; the handler copies the grid of the current force master,
`base/interactionhandler.cpp:405-423`. Simplification: forces are in use and no component is null. -/
def initializeAll (g : G P) : G P :=
  { g with
    ptrs := fun c => if c ∈ g.visited then ⟨g.integrator, g.forceMaster⟩ else g.ptrs c
    handlerGrid := g.forceMaster }

/-- `GFlow::run()`, `gflow.cpp:97-300`. -/
def run (e : Env P) (g : G P) : G P :=
  let g := { g with totalRequested := g.totalRequested + g.requested }
  if e.number g.particles = 0 then { g with elapsed := g.elapsed + g.requested, total := g.total + g.requested }
  else
    let g := initializeAll g
    { g with
      modifiers := g.modifiers.filter (e.keep g.particles)
      particles := e.move g.integrator (g.grid g.forceMaster) g.requested g.particles
      forcesClear := false
      elapsed := e.elapsed g.particles g.requested
      total := g.total + e.elapsed g.particles g.requested
      iter := e.steps g.particles g.requested
      requested := 0
      mode := .idle }

/-- `GFlow::resetAllTimes`, `gflow.cpp:698-704`. -/
def resetAllTimes (g : G P) : G P := { g with requested := 0, totalRequested := 0, elapsed := 0, total := 0, iter := 0 }

/-- `GFlow::requestTime`, `gflow.cpp:539-542`. -/
def requestTime (t : ℚ) (g : G P) : G P := { g with requested := if t < 0 then 0 else t }

/-- `Creator::hs_relax`, `base/creator.cpp:37-89`. `hs`, `fm` and `rx` are the hard sphere interaction, the force master and the integrator
that it creates; components copy the pointers of the simulation when they are created. The force master and the interaction are destroyed at the
end of the function. -/
def hsRelax (e : Env P) (hs fm rx : ℕ) (time : ℚ) (g : G P) : G P :=
  let integrator := g.integrator
  let master := g.forceMaster
  let interactions := g.interactions
  let g := { g with ptrs := fun c => if c = hs ∨ c = fm ∨ c = rx then ⟨integrator, master⟩ else g.ptrs c }
  let g := { g with interactions := [], integrator := rx, forceMaster := fm }
  let g := { g with interactions := [hs], grid := fun m => if m = fm then [hs] else g.grid m }
  let g := { g with forcesClear := true }
  let g := run e { requestTime time g with mode := .init }
  let g := resetAllTimes g
  let g := initializeAll { g with integrator := integrator, forceMaster := master, interactions := interactions }
  { g with forcesClear := true, deleted := rx :: fm :: hs :: g.deleted }

/-- `Creator::relax`, `base/creator.cpp:91-130`: no initialisation after the integrator was put back. -/
def relax (e : Env P) (rx : ℕ) (time : ℚ) (g : G P) : G P :=
  let integrator := g.integrator
  let g := { g with ptrs := fun c => if c = rx then ⟨integrator, g.forceMaster⟩ else g.ptrs c }
  let g := { g with integrator := rx, forcesClear := true }
  let g := run e { requestTime time g with mode := .init }
  let g := resetAllTimes g
  { g with integrator := integrator, deleted := rx :: g.deleted }

/-! ## Specification -/

/-- A component that the simulation can still reach. -/
def G.component (g : G P) (c : ℕ) : Prop := c ∈ g.core ∨ c = g.integrator ∨ c = g.forceMaster ∨ c ∈ g.modifiers ∨ c ∈ g.interactions ∨ c ∈ g.others

/-- Every component uses the integrator and the force master of the simulation, and so does the handler. -/
def G.Consistent (g : G P) : Prop := (∀ c, g.component c → c ∈ g.others ∨ g.ptrs c = ⟨g.integrator, g.forceMaster⟩) ∧ g.handlerGrid = g.forceMaster

/-- No component holds a pointer to a deleted object. -/
def G.NoDangling (g : G P) : Prop :=
  (∀ c, g.component c → c ∉ g.deleted ∧ (g.ptrs c).integrator ∉ g.deleted ∧ (g.ptrs c).forceMaster ∉ g.deleted) ∧ g.handlerGrid ∉ g.deleted

/-- The new objects are new: not components, and not referred to. -/
def Fresh (g : G P) (n : ℕ) : Prop := (∀ c, g.component c → c ≠ n ∧ (g.ptrs c).integrator ≠ n ∧ (g.ptrs c).forceMaster ≠ n) ∧ g.handlerGrid ≠ n

/-! ## Theorems -/

theorem initializeAll_consistent (g : G P) : (initializeAll g).Consistent := by
  refine ⟨fun c hc => ?_, rfl⟩
  by_cases ho : c ∈ g.others
  · exact Or.inl ho
  · right
    have hv : c ∈ g.visited := by
      simp only [G.component, initializeAll] at hc
      simp only [G.visited, List.mem_append, List.mem_cons, List.not_mem_nil, or_false]
      tauto
    simp only [initializeAll, if_pos hv]

/-- C105. Hard sphere relaxation: afterwards the integrator, the force master with its interactions, the list of interactions and the components that
are never re-initialised are those from before, all times and the iteration counter are zero, the forces are cleared, every component that is
initialised uses the restored objects, and no component refers to an object that was created for the relaxation. If there are particles they were
moved by hard sphere forces only, and the simulation is idle.
Missing: without particles it is not idle (`C105_negation_empty`); the other relaxation leaves pointers to its deleted integrator
(`C105_negation_dangling`). -/
theorem C105_hard_sphere_relaxation_partial (e : Env P) (hs fm rx : ℕ) (time : ℚ) (g : G P) (h1 : Fresh g hs) (h2 : Fresh g fm) (h3 : Fresh g rx) (hd : g.NoDangling)
    (hdisj : ∀ c ∈ g.others, c ∉ g.visited) :
    (hsRelax e hs fm rx time g).integrator = g.integrator ∧ (hsRelax e hs fm rx time g).forceMaster = g.forceMaster ∧
    (hsRelax e hs fm rx time g).interactions = g.interactions ∧
    (hsRelax e hs fm rx time g).grid g.forceMaster = g.grid g.forceMaster ∧
    (hsRelax e hs fm rx time g).requested = 0 ∧ (hsRelax e hs fm rx time g).totalRequested = 0 ∧ (hsRelax e hs fm rx time g).elapsed = 0 ∧
    (hsRelax e hs fm rx time g).total = 0 ∧ (hsRelax e hs fm rx time g).iter = 0 ∧ (hsRelax e hs fm rx time g).forcesClear = true ∧
    (hsRelax e hs fm rx time g).Consistent ∧ (hsRelax e hs fm rx time g).NoDangling ∧
    (∀ c ∈ g.others, (hsRelax e hs fm rx time g).ptrs c = g.ptrs c) ∧
    (e.number g.particles ≠ 0 → (hsRelax e hs fm rx time g).mode = .idle ∧
      (hsRelax e hs fm rx time g).particles = e.move rx [hs] (if time < 0 then 0 else time) g.particles) := by
  have hmod : ∀ c, c ∈ (hsRelax e hs fm rx time g).modifiers → c ∈ g.modifiers := by
    intro c hc
    simp only [hsRelax, run, initializeAll, resetAllTimes, requestTime] at hc
    split_ifs at hc <;> simp_all
  have hoth : (hsRelax e hs fm rx time g).others = g.others := by
    simp only [hsRelax, run, initializeAll, resetAllTimes, requestTime]; split_ifs <;> rfl
  have hcomp : ∀ c, (hsRelax e hs fm rx time g).component c → g.component c := by
    intro c hc
    rcases hc with h | h | h | h | h | h
    · left; revert h; simp only [hsRelax, run, initializeAll, resetAllTimes, requestTime]; split_ifs <;> exact id
    · right; left; rw [h]; simp only [hsRelax, initializeAll]
    · right; right; left; rw [h]; simp only [hsRelax, initializeAll]
    · exact Or.inr (Or.inr (Or.inr (Or.inl (hmod c h))))
    · right; right; right; right; left; revert h; simp only [hsRelax, initializeAll]; exact id
    · rw [hoth] at h; right; right; right; right; right; exact h
  have hdel : (hsRelax e hs fm rx time g).deleted = rx :: fm :: hs :: g.deleted := by
    simp only [hsRelax, run, initializeAll, resetAllTimes, requestTime]; split_ifs <;> rfl
  have hnd : ∀ n, n ∉ g.deleted → n ≠ hs → n ≠ fm → n ≠ rx → n ∉ (hsRelax e hs fm rx time g).deleted := by
    intro n a b c d; rw [hdel]; simp [a, b, c, d]
  have hmaster : g.component g.forceMaster := Or.inr (Or.inr (Or.inl rfl))
  have hint : g.component g.integrator := Or.inr (Or.inl rfl)
  have hfm : g.forceMaster ∉ (hsRelax e hs fm rx time g).deleted :=
    hnd _ (hd.1 _ hmaster).1 (h1.1 _ hmaster).1 (h2.1 _ hmaster).1 (h3.1 _ hmaster).1
  have hin : g.integrator ∉ (hsRelax e hs fm rx time g).deleted :=
    hnd _ (hd.1 _ hint).1 (h1.1 _ hint).1 (h2.1 _ hint).1 (h3.1 _ hint).1
  have hother : ∀ c ∈ g.others, (hsRelax e hs fm rx time g).ptrs c = g.ptrs c := by
    intro c hc
    have hc' : g.component c := Or.inr (Or.inr (Or.inr (Or.inr (Or.inr hc))))
    have k1 := (h1.1 c hc').1
    have k2 := (h2.1 c hc').1
    have k3 := (h3.1 c hc').1
    have k4 := hdisj c hc
    simp only [G.visited, List.mem_append, List.mem_cons, List.not_mem_nil, or_false, not_or] at k4
    obtain ⟨⟨⟨a1, a2, a3⟩, a4⟩, a5⟩ := k4
    simp only [hsRelax, run, initializeAll, resetAllTimes, requestTime, G.visited]
    split_ifs <;> simp_all
  have hcons : (hsRelax e hs fm rx time g).Consistent :=
    ⟨fun c hc => (initializeAll_consistent { resetAllTimes (run e { requestTime time { g with
        ptrs := fun c => if c = hs ∨ c = fm ∨ c = rx then ⟨g.integrator, g.forceMaster⟩ else g.ptrs c
        interactions := [hs], integrator := rx, forceMaster := fm, grid := fun m => if m = fm then [hs] else g.grid m
        forcesClear := true } with mode := .init }) with integrator := g.integrator, forceMaster := g.forceMaster, interactions := g.interactions }).1 c hc, rfl⟩
  refine ⟨rfl, rfl, rfl, ?_, rfl, rfl, rfl, rfl, rfl, rfl, hcons, ⟨fun c hc => ?_, ?_⟩, hother, fun hne => ?_⟩
  · have := (h2.1 _ hmaster).1
    simp only [hsRelax, run, initializeAll, resetAllTimes, requestTime]
    split_ifs <;> simp_all
  · have hcg := hcomp c hc
    refine ⟨hnd c (hd.1 c hcg).1 (h1.1 c hcg).1 (h2.1 c hcg).1 (h3.1 c hcg).1, ?_⟩
    rcases hcons.1 c hc with h | h
    · rw [hoth] at h
      rw [hother c h]
      exact ⟨hnd _ (hd.1 c hcg).2.1 (h1.1 c hcg).2.1 (h2.1 c hcg).2.1 (h3.1 c hcg).2.1,
          hnd _ (hd.1 c hcg).2.2 (h1.1 c hcg).2.2 (h2.1 c hcg).2.2 (h3.1 c hcg).2.2⟩
    · rw [h]; exact ⟨hin, hfm⟩
  · exact hfm
  · simp only [hsRelax, run, initializeAll, resetAllTimes, requestTime, if_neg hne]
    simp

/-- A simulation with core components 0-3, integrator 4, force master 5, an interaction, a modifier and a bonded interaction. -/
def exampleG (n : ℕ) : G ℕ :=
  { integrator := 4, forceMaster := 5, interactions := [6], modifiers := [7], others := [8], core := [0, 1, 2, 3], ptrs := fun _ => ⟨4, 5⟩
    handlerGrid := 5, grid := fun m => if m = 5 then [6] else [], deleted := [], particles := n, forcesClear := false, mode := .idle
    requested := 0, totalRequested := 0, elapsed := 0, total := 0, iter := 0 }

/-- The hypotheses can be met. -/
example (n : ℕ) : Fresh (exampleG n) 10 ∧ Fresh (exampleG n) 11 ∧ Fresh (exampleG n) 12 ∧ (exampleG n).NoDangling ∧
    ∀ c ∈ (exampleG n).others, c ∉ (exampleG n).visited := by
  refine ⟨?_, ?_, ?_, ⟨fun c hc => by simp [exampleG], by simp [exampleG]⟩, by simp [exampleG, G.visited]⟩ <;>
  · refine ⟨fun c hc => ?_, by simp [exampleG]⟩
    simp only [G.component, exampleG, List.mem_cons, List.not_mem_nil, or_false] at hc
    simp only [exampleG]
    omega

/-- C105, negation. Without particles the run returns at once and never becomes idle again: the mode stays that of the setup. -/
theorem C105_negation_empty (e : Env P) (hs fm rx : ℕ) (time : ℚ) (g : G P) (h : e.number g.particles = 0) :
    (hsRelax e hs fm rx time g).mode = .init ∧ (relax e rx time g).mode = .init := by
  constructor
  · simp only [hsRelax, run, initializeAll, resetAllTimes, requestTime, if_pos h]
  · simp [relax, run, initializeAll, resetAllTimes, requestTime, h]

/-- C105, negation. After `relax` of a simulation with particles every component that is initialised still points to the integrator of the
relaxation, which was deleted. -/
theorem C105_negation_dangling (e : Env P) (rx : ℕ) (time : ℚ) (g : G P) (h : e.number g.particles ≠ 0) :
    rx ∈ (relax e rx time g).deleted ∧ (∀ c ∈ g.core, ((relax e rx time g).ptrs c).integrator = rx) ∧
    ((relax e rx time g).ptrs g.forceMaster).integrator = rx ∧ ¬ (relax e rx time g).NoDangling := by
  have hv : ∀ c, c ∈ g.core ∨ c = g.forceMaster → ((relax e rx time g).ptrs c).integrator = rx := by
    intro c hc
    rcases hc with hc | hc <;> simp [relax, run, initializeAll, resetAllTimes, requestTime, h, G.visited, hc]
  have hmem : rx ∈ (relax e rx time g).deleted := by simp [relax]
  refine ⟨hmem, fun c hc => hv c (Or.inl hc), hv _ (Or.inr rfl), fun hn => ?_⟩
  have hc : (relax e rx time g).component g.forceMaster := by
    right; right; left
    simp [relax, run, initializeAll, resetAllTimes, requestTime, h]
  exact (hn.1 _ hc).2.1 (by rw [hv _ (Or.inr rfl)]; exact hmem)

/-- C105 (partial). The other relaxation puts the integrator back, keeps the interactions, and resets the times; once the simulation is initialised
again (as the next run with particles does first) every component uses the restored objects.
Missing: until then the components point to a deleted integrator (`C105_negation_dangling`). -/
theorem C105_relaxation_partial (e : Env P) (rx : ℕ) (time : ℚ) (g : G P) :
    (relax e rx time g).integrator = g.integrator ∧ (relax e rx time g).forceMaster = g.forceMaster ∧ (relax e rx time g).interactions = g.interactions ∧
    (relax e rx time g).grid = g.grid ∧ (relax e rx time g).elapsed = 0 ∧ (relax e rx time g).total = 0 ∧ (relax e rx time g).requested = 0 ∧
    (relax e rx time g).totalRequested = 0 ∧ (relax e rx time g).iter = 0 ∧
    (initializeAll (relax e rx time g)).Consistent ∧
    (e.number g.particles ≠ 0 → (relax e rx time g).mode = .idle ∧
      (relax e rx time g).particles = e.move rx (g.grid g.forceMaster) (if time < 0 then 0 else time) g.particles) := by
  refine ⟨rfl, ?_, ?_, ?_, rfl, rfl, rfl, rfl, rfl, initializeAll_consistent _, fun h => ?_⟩
  · by_cases h : e.number g.particles = 0 <;> simp [relax, run, initializeAll, resetAllTimes, requestTime, h]
  · by_cases h : e.number g.particles = 0 <;> simp [relax, run, initializeAll, resetAllTimes, requestTime, h]
  · by_cases h : e.number g.particles = 0 <;> simp [relax, run, initializeAll, resetAllTimes, requestTime, h]
  · simp [relax, run, initializeAll, resetAllTimes, requestTime, h]

end Verif.Relaxation
