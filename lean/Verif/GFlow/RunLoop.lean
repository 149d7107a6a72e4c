import Mathlib.Algebra.Order.Floor.Ring
import Mathlib.Algebra.BigOperators.Group.Finset.Basic
import Mathlib.Algebra.Order.BigOperators.Group.Finset
import Mathlib.Algebra.Order.Field.Basic
import Mathlib.Data.List.Count
import Mathlib.Tactic.Ring
import Mathlib.Tactic.Linarith

/-!
# The main loop `GFlow::run`

Models `GFlow::run` (`gflow.cpp:97-300`), `terminate` (`gflow.cpp:757-767`), `handleModifiers` (`gflow.cpp:780-791`) and
`requestTime` (`gflow.cpp:539-542`), on one processor (`getNumProc()==1`, so `terminate` stops the loop and no ghost
updates are made). What the components do inside of their hooks is not modelled, except for the ways in which
they steer the loop, which are arbitrary parameters (`Env`): the time step of each iteration, whether somebody calls `terminate()`
in it, which modifiers ask for removal in it, and the number of particles at the start. Printing and
wall-clock timers are left out. Time is an ordered field (no rounding).
-/

namespace Verif.RunLoop

variable {K : Type} [Field K] [LinearOrder K] [IsStrictOrderedRing K]

/-- Who is called. Additional integrators, modifiers, bodies and bonded interactions are numbered. -/
inductive Who
  | modifier (m : ℕ) | body (b : ℕ) | simData | integrator | addIntegrator (i : ℕ) | handler
  | dataMaster | forceMaster | bonded (b : ℕ) | gflow
deriving DecidableEq

/-- What is called. -/
inductive Hook
  | preIntegrate | preStep | preForces | clearForces | reflect | repulse | attract | interact | interactGhosts
  | bondedInteract | correct | postForces | postStep | postIntegrate
deriving DecidableEq

abbrev Event := Who × Hook

/-- How the environment steers the loop; everything indexed by the iteration. -/
structure Env (K : Type) where
  dt : ℕ → K
  stop : ℕ → Bool
  wantsRemoval : ℕ → ℕ → Bool
  useForces : Bool
  number : ℕ

/-- The state of the `GFlow` object, `gflow.hpp:338-446`, and the trace of calls. -/
structure State (K : Type) where
  requested : K
  totalRequested : K
  elapsed : K
  total : K
  iter : ℕ
  running : Bool
  terminated : Bool
  terminationTime : K
  modifiers : List ℕ
  bodies : List ℕ
  bonded : List ℕ
  addIntegrators : List ℕ
  trace : List Event

/-- Append to the trace. -/
def State.call (s : State K) (es : List Event) : State K := { s with trace := s.trace ++ es }

/-- `terminate()`, `gflow.cpp:757-767`, one processor. -/
def terminate (s : State K) : State K :=
  { s with
    running := false
    terminated := true
    terminationTime := if s.terminated then s.terminationTime else s.elapsed }

/-- `std::list::erase(it)`, where list nodes are identified by their number. -/
def eraseNode (l : List (ℕ × ℕ)) (node : ℕ) : List (ℕ × ℕ) := l.eraseP (fun p => p.1 == node)

/-- `handleModifiers()`, `gflow.cpp:780-791`: iterators to the nodes with set flag are collected, then the nodes are
erased one by one. The nodes are numbered from 0 here. -/
def handleModifiers (wants : ℕ → Bool) (mods : List ℕ) : List ℕ :=
  if mods.isEmpty then mods
  else
    let nodes : List (ℕ × ℕ) := mods.zipIdx.map (fun p => (p.2, p.1))
    let remove := (nodes.filter (fun p => wants p.2)).map Prod.fst
    (remove.foldl eraseNode nodes).map Prod.snd

/-- One pass through the body of the `while` loop, `gflow.cpp:152-275`. A call of `terminate()` by a component (`stop`) is
put at the first place of the iteration; it could be anywhere in it, with the same effect on
the loop (the termination time is the same: `elapsed_time` changes at the end of the pass). -/
def iteration (e : Env K) (s : State K) : State K :=
  let i := s.iter
  let s := if e.stop i then terminate s else s
  -- pre-step, :155-163
  let s := s.call (s.modifiers.map fun m => (.modifier m, .preStep))
  let s := s.call [(.integrator, .preStep)]
  let s := s.call (s.addIntegrators.map fun m => (.addIntegrator m, .preStep))
  let s := s.call [(.dataMaster, .preStep), (.handler, .preStep)]
  -- pre-forces, :166-174
  let s := s.call (s.modifiers.map fun m => (.modifier m, .preForces))
  let s := s.call [(.integrator, .preForces)]
  let s := s.call (s.addIntegrators.map fun m => (.addIntegrator m, .preForces))
  let s := s.call [(.dataMaster, .preForces), (.handler, .preForces)]
  -- forces, :178-219
  let s := s.call [(.gflow, .clearForces), (.gflow, .reflect), (.gflow, .repulse), (.gflow, .attract)]
  let s := if e.useForces then
      (s.call [(.forceMaster, .interact), (.forceMaster, .interactGhosts)]).call
        (s.bonded.map fun b => (.bonded b, .bondedInteract))
    else s
  let s := s.call (s.bodies.map fun b => (.body b, .correct))
  -- modifier removal, :222
  let s := { s with modifiers := handleModifiers (e.wantsRemoval i) s.modifiers }
  -- post-forces, :226-236
  let s := s.call (s.modifiers.map fun m => (.modifier m, .postForces))
  let s := s.call [(.simData, .postForces), (.integrator, .postForces)]
  let s := s.call (s.addIntegrators.map fun m => (.addIntegrator m, .postForces))
  let s := s.call [(.dataMaster, .postForces), (.handler, .postForces)]
  -- post-step, :239-248
  let s := if s.requested ≤ s.elapsed then terminate s else s
  let s := s.call (s.modifiers.map fun m => (.modifier m, .postStep))
  let s := s.call [(.integrator, .postStep)]
  let s := s.call (s.addIntegrators.map fun m => (.addIntegrator m, .postStep))
  let s := s.call [(.dataMaster, .postStep), (.handler, .postStep)]
  -- timers, :251-259
  let dt := e.dt i
  let s := { s with iter := s.iter + 1, elapsed := s.elapsed + dt, total := s.total + dt }
  if s.total - dt = s.total then terminate s else s

/-- The `while` loop, `gflow.cpp:152`. `none` when `fuel` passes were not enough. -/
def loop (e : Env K) : ℕ → State K → Option (State K)
  | 0, s => if s.running = true ∧ 0 < s.requested then none else some s
  | fuel + 1, s => if s.running = true ∧ 0 < s.requested then loop e fuel (iteration e s) else some s

/-- What happens before the loop, `gflow.cpp:130-144`. -/
def preIntegrate (s : State K) : State K :=
  let s := { s with running := true, terminated := false, elapsed := 0, iter := 0 }
  let s := s.call (s.modifiers.map fun m => (.modifier m, .preIntegrate))
  let s := s.call (s.bodies.map fun m => (.body m, .preIntegrate))
  let s := s.call [(.simData, .preIntegrate), (.integrator, .preIntegrate)]
  let s := s.call (s.addIntegrators.map fun m => (.addIntegrator m, .preIntegrate))
  s.call [(.handler, .preIntegrate), (.dataMaster, .preIntegrate), (.forceMaster, .preIntegrate)]

/-- What happens after the loop, `gflow.cpp:283-290`. -/
def postIntegrate (s : State K) : State K :=
  let s := { s with requested := 0 }
  let s := s.call [(.simData, .postIntegrate), (.integrator, .postIntegrate)]
  let s := s.call (s.addIntegrators.map fun m => (.addIntegrator m, .postIntegrate))
  let s := s.call [(.handler, .postIntegrate), (.dataMaster, .postIntegrate), (.forceMaster, .postIntegrate)]
  s.call (s.modifiers.map fun m => (.modifier m, .postIntegrate))

/-- `run(rt)`, `gflow.cpp:97-300`, with a bound on the number of loop passes. -/
def run (e : Env K) (rt : K) (fuel : ℕ) (s : State K) : Option (State K) :=
  let s := if 0 < rt then { s with requested := rt } else s
  let s := { s with totalRequested := s.totalRequested + s.requested }
  if e.number = 0 then
    some { s with elapsed := s.elapsed + s.requested, total := s.total + s.requested }
  else (loop e fuel (preIntegrate s)).map postIntegrate

/-! ## `handleModifiers` is a filter -/

theorem foldl_eraseNode : ∀ (rem : List ℕ) (l : List (ℕ × ℕ)), (l.map Prod.fst).Nodup →
    rem.foldl eraseNode l = l.filter (fun p => decide (p.1 ∉ rem)) := by
  intro rem
  induction rem with
  | nil => intro l _; simp
  | cons a rem ih =>
    intro l hl
    have he : eraseNode l a = l.filter (fun p => decide (p.1 ≠ a)) := by
      clear ih
      unfold eraseNode
      induction l with
      | nil => rfl
      | cons p l ih2 =>
        simp only [List.map_cons, List.nodup_cons] at hl
        by_cases hp : p.1 = a
        · rw [List.eraseP_cons_of_pos (by simpa using hp)]
          rw [List.filter_cons_of_neg (by simp [hp])]
          symm
          rw [List.filter_eq_self]
          intro q hq
          have : q.1 ≠ p.1 := fun h => hl.1 (List.mem_map.2 ⟨q, hq, h⟩)
          simp; rw [← hp]; exact this
        · rw [List.eraseP_cons_of_neg (by simpa using hp), List.filter_cons_of_pos (by simpa using hp), ih2 hl.2]
    rw [List.foldl_cons, he, ih]
    · rw [List.filter_filter]
      apply List.filter_congr
      intro p _
      simp [List.mem_cons, not_or, Bool.and_comm]
    · exact List.Nodup.sublist (List.Sublist.map _ List.filter_sublist) hl

theorem zipIdx_nodes_nodup (mods : List ℕ) : ((mods.zipIdx.map (fun p => (p.2, p.1))).map Prod.fst).Nodup := by
  rw [List.map_map]
  have : (Prod.fst ∘ fun p : ℕ × ℕ => (p.2, p.1)) = Prod.snd := rfl
  rw [this, List.zipIdx_map_snd]
  exact List.nodup_range'

theorem handleModifiers_eq (wants : ℕ → Bool) (mods : List ℕ) :
    handleModifiers wants mods = mods.filter (fun m => !wants m) := by
  unfold handleModifiers
  split
  · next h => rw [List.isEmpty_iff] at h; subst h; rfl
  · have hn := zipIdx_nodes_nodup mods
    simp only
    rw [foldl_eraseNode _ _ hn]
    have hmem : ∀ p ∈ mods.zipIdx.map (fun p => (p.2, p.1)),
        (decide (p.1 ∉ ((mods.zipIdx.map (fun p => (p.2, p.1))).filter (fun p => wants p.2)).map Prod.fst)) = !wants p.2 := by
      intro p hp
      by_cases hw : wants p.2 = true
      · simp only [hw, Bool.not_true, decide_eq_false_iff_not, not_not]
        exact List.mem_map.2 ⟨p, List.mem_filter.2 ⟨hp, hw⟩, rfl⟩
      · simp only [hw, Bool.not_false, decide_eq_true_eq]
        intro hcon
        obtain ⟨q, hq, hqe⟩ := List.mem_map.1 hcon
        obtain ⟨hq1, hq2⟩ := List.mem_filter.1 hq
        have : q = p := by
          have := List.inj_on_of_nodup_map hn hq1 hp hqe
          exact this
        subst this; exact hw hq2
    rw [List.filter_congr hmem]
    rw [List.filter_map, List.map_map]
    have h2 : (Prod.snd ∘ fun p : ℕ × ℕ => (p.2, p.1)) = Prod.fst := rfl
    have h3 : ((fun p : ℕ × ℕ => !wants p.2) ∘ fun p : ℕ × ℕ => (p.2, p.1)) = (fun m => !wants m) ∘ Prod.fst := rfl
    rw [h2, h3, ← List.filter_map, List.zipIdx_map_fst]

/-! ## One iteration -/

/-- The calls of one pass, with the modifier lists before and after the removal. -/
def block (e : Env K) (s : State K) (before after : List ℕ) : List Event :=
  (before.map fun m => (Who.modifier m, Hook.preStep)) ++ [(.integrator, .preStep)] ++
  (s.addIntegrators.map fun m => (Who.addIntegrator m, Hook.preStep)) ++
  [(.dataMaster, .preStep), (.handler, .preStep)] ++
  (before.map fun m => (Who.modifier m, Hook.preForces)) ++ [(.integrator, .preForces)] ++
  (s.addIntegrators.map fun m => (Who.addIntegrator m, Hook.preForces)) ++
  [(.dataMaster, .preForces), (.handler, .preForces)] ++
  [(.gflow, .clearForces), (.gflow, .reflect), (.gflow, .repulse), (.gflow, .attract)] ++
  (if e.useForces then [(Who.forceMaster, Hook.interact), (.forceMaster, .interactGhosts)] ++
    (s.bonded.map fun b => (Who.bonded b, Hook.bondedInteract)) else []) ++
  (s.bodies.map fun b => (Who.body b, Hook.correct)) ++
  (after.map fun m => (Who.modifier m, Hook.postForces)) ++
  [(.simData, .postForces), (.integrator, .postForces)] ++
  (s.addIntegrators.map fun m => (Who.addIntegrator m, Hook.postForces)) ++
  [(.dataMaster, .postForces), (.handler, .postForces)] ++
  (after.map fun m => (Who.modifier m, Hook.postStep)) ++ [(.integrator, .postStep)] ++
  (s.addIntegrators.map fun m => (Who.addIntegrator m, Hook.postStep)) ++
  [(.dataMaster, .postStep), (.handler, .postStep)]

theorem iteration_spec (e : Env K) (s t : State K) (hdt : 0 < e.dt s.iter) (ht : t = iteration e s) :
    let after := s.modifiers.filter (fun m => !e.wantsRemoval s.iter m)
    t.iter = s.iter + 1 ∧ t.elapsed = s.elapsed + e.dt s.iter ∧ t.total = s.total + e.dt s.iter ∧
    t.requested = s.requested ∧ t.totalRequested = s.totalRequested ∧ t.modifiers = after ∧
    t.bodies = s.bodies ∧ t.bonded = s.bonded ∧ t.addIntegrators = s.addIntegrators ∧
    t.trace = s.trace ++ block e s s.modifiers after ∧
    (t.running = true ↔ s.running = true ∧ e.stop s.iter = false ∧ s.elapsed < s.requested) ∧
    t.terminated = (s.terminated || e.stop s.iter || decide (s.requested ≤ s.elapsed)) ∧
    t.terminationTime = (if s.terminated then s.terminationTime
      else if e.stop s.iter || decide (s.requested ≤ s.elapsed) then s.elapsed else s.terminationTime) := by
  intro after
  have hloss : ∀ a : K, ¬ (a + e.dt s.iter - e.dt s.iter = a + e.dt s.iter) := by
    intro a h; rw [add_sub_cancel_right] at h; linarith
  by_cases hs : e.stop s.iter = true <;> by_cases hr : s.requested ≤ s.elapsed <;>
    by_cases hf : e.useForces = true <;>
    · simp only [iteration, hs, if_true, terminate, State.call, hr, if_false, hloss, hf, Bool.false_eq_true] at ht
      subst ht
      simp only [handleModifiers_eq, after, block, hf, if_true, List.append_assoc, Bool.or_true, Bool.true_or,
        Bool.false_eq_true, if_false, hr, hs, not_lt.2, decide_true]
      try simp only [not_le] at hr
      simp [hr]

end Verif.RunLoop
