import Mathlib.Data.Set.Basic
import Mathlib.Order.ConditionallyCompleteLattice.Basic
import Mathlib.Data.Nat.Lattice
import Mathlib.Tactic.Common

/-!
# Decisions that all processors must take together (C144)

Models the operations in which all processors take part, in the loop of `GFlow::run` (`gflow.cpp:152-268`): the time step is synchronized (`base/integrator.cpp:30-64`), the handler decides whether to
rebuild (`base/interactionhandler.cpp:65-112`), which exchanges particles and ends the run if a processor asked for it (`base/simdata.cpp:253-280`, `gflow.cpp:750-768`), otherwise ghosts are updated
(`gflow.cpp:187-190`).

Simplifications: forces and ghosts are in use; exchange and updates with neighbours are operations of all processors (they block if a neighbour does not take part, `Rounds.C141_negation_one_sided`).
The value of the time step is not modelled, only that it is synchronized. What processors measure is an arbitrary input.
-/

namespace Verif.Collective

/-- Operations of all processors: `mpi_min(dt)`, `mpi_or(do_construct)`, `mpi_min(update_delay_steps)`, `mpi_or(_terminate)`, exchange of particles with creation of ghosts, updates of ghosts. -/
inductive Op where
  | dt | construct | delay | terminate | exchange | update
  deriving DecidableEq

/-- What a processor still does in a step: it is finished, or takes part in an operation and continues with its result. -/
inductive Prog (ω : Type) where
  | done (o : ω)
  | coll (op : Op) (v : ℕ) (k : ℕ → Prog ω)

open Classical in
/-- The results: or (1 if a value is not 0), or the least value, `parallel/mpi-communication.hpp:127-163`. -/
noncomputable def combine {P : ℕ} (op : Op) (v : Fin P → ℕ) : ℕ :=
  match op with
  | .construct | .terminate => if ∃ p, v p ≠ 0 then 1 else 0
  | .delay => sInf (Set.range v)
  | _ => 0

/-- `Joint f o`: all processors finish with the outcomes `o`: at any time all of them take part in the same operation. If they do not, they wait for ever (or exchange wrong values), and there is no
outcome. -/
inductive Joint {P : ℕ} {ω : Type} : (Fin P → Prog ω) → (Fin P → ω) → Prop where
  | done (o : Fin P → ω) : Joint (fun p => .done (o p)) o
  | coll (op : Op) (v : Fin P → ℕ) (k : Fin P → ℕ → Prog ω) (o : Fin P → ω) (h : Joint (fun p => k p (combine op v)) o) : Joint (fun p => .coll op (v p) (k p)) o

/-- Settings: `update_decision_type` (0, 1, 2) and in which steps the time step is adjusted (`adjust_dt`, `step_delay`). -/
structure Cfg where
  type : ℕ
  adjust : ℕ → Bool

/-- A processor: `steps_since_last_remake`, `update_delay_steps`, `last_remake_steps`, `requires_remake`, `_handler_remade`, `_terminate`, `_running`. -/
structure H where
  since : ℕ
  delay : ℕ
  last : ℕ
  required : Bool
  remade : Bool
  term : Bool
  running : Bool

/-- What a processor measures in a step: its number of particles, `getNeedsRemake`, whether the skin depth is exceeded, whether all velocities and accelerations are 0, whether it asks for the end. -/
structure Inp where
  number : ℕ
  needs : Bool
  exceed : Bool
  still : Bool
  ask : Bool

/-- After a step: the state, and whether the handler has been rebuilt. -/
structure Out where
  h : H
  built : Bool

/-- The rest of a step, `gflow.cpp:185-268`: ghosts are updated if the handler was not rebuilt; flags are reset; `terminate` may have been called. -/
def finish (h : H) (i : Inp) (built : Bool) : Prog Out :=
  if h.remade then .done ⟨{ h with remade := false, term := h.term || i.ask }, built⟩
  else .coll .update 0 fun _ => .done ⟨{ h with remade := false, term := h.term || i.ask }, built⟩

/-- `construct`, `base/interactionhandler.cpp:115-143`, with `update`, `base/simdata.cpp:253-275`, and `syncRunning`, `gflow.cpp:750-755`. -/
def construct (h : H) (i : Inp) : Prog Out :=
  .coll .terminate (if h.term then 1 else 0) fun t => .coll .exchange 0 fun _ =>
    finish { h with since := 0, required := false, remade := true, term := t ≠ 0, running := h.running && t == 0 } i true

/-- After the decision, `base/interactionhandler.cpp:98-111`. -/
def decided (c : Cfg) (h : H) (i : Inp) (doIt : Bool) : Prog Out :=
  if doIt then
    if c.type = 2 then
      let last := if h.required then h.last else h.delay + 1
      .coll .delay last fun m => construct { h with last := last, delay := m } i
    else construct h i
  else finish h i false

/-- The wish to rebuild, `base/interactionhandler.cpp:78-86`. -/
def wants (c : Cfg) (h : H) (i : Inp) : Bool :=
  i.needs || (c.type == 0 && (h.required || i.exceed)) || ((c.type == 1 || c.type == 2) && decide (h.delay ≤ h.since))

/-- `++steps_since_last_remake`, `base/interactionhandler.cpp:70`. -/
def tick (h : H) : H := ⟨h.since + 1, h.delay, h.last, h.required, h.remade, h.term, h.running⟩

/-- The first time the skin depth is exceeded is recorded, `base/interactionhandler.cpp:88-93`. -/
def note (h : H) (i : Inp) : H := if i.exceed && !h.required then ⟨h.since, h.delay, h.since, true, h.remade, h.term, h.running⟩ else h

/-- `pre_forces`, `base/interactionhandler.cpp:65-112`. -/
def preForces (c : Cfg) (h : H) (i : Inp) : Prog Out :=
  if i.number < 1 then finish (tick h) i false
  else if c.type = 0 then .coll .construct (if wants c (tick h) i then 1 else 0) fun r => decided c (note (tick h) i) i (r != 0)
  else decided c (note (tick h) i) i (wants c (tick h) i)

/-- A step of the loop of `run`: the time step (`base/integrator.cpp:30-64`, which returns without synchronization if all is at rest), the handler, the ghosts. -/
def stepProg (c : Cfg) (t : ℕ) (h : H) (i : Inp) : Prog Out :=
  if h.running then
    if c.adjust t && !i.still then .coll .dt 0 fun _ => preForces c h i else preForces c h i
  else .done ⟨h, false⟩

/-- The state after `pre_integrate`, `base/interactionhandler.cpp:43-63`, `gflow.cpp:131-132`. -/
def start (c : Cfg) (delay last : ℕ) : H := ⟨0, if c.type = 2 then 1 else delay, last, false, true, false, true⟩

/-- `Runs`: after some steps all processors are in these states, with these records of rebuilding. -/
inductive Runs {P : ℕ} (c : Cfg) (s0 : H) (inp : ℕ → Fin P → Inp) : ℕ → (Fin P → H) → (Fin P → List Bool) → Prop where
  | init : Runs c s0 inp 0 (fun _ => s0) (fun _ => [])
  | step (t : ℕ) (hs : Fin P → H) (logs : Fin P → List Bool) (o : Fin P → Out) (h : Runs c s0 inp t hs logs) (hj : Joint (fun p => stepProg c t (hs p) (inp t p)) o) :
      Runs c s0 inp (t + 1) (fun p => (o p).h) (fun p => logs p ++ [(o p).built])

/-! ## Joint actions -/

variable {P : ℕ} {ω : Type}

theorem joint_done (hP : 0 < P) (o o' : Fin P → ω) : Joint (fun p => .done (o p)) o' ↔ o' = o := by
  constructor
  · intro h
    generalize hf : (fun p => Prog.done (o p)) = f at h
    cases h with
    | done _ => funext p; exact (Prog.done.inj (congrFun hf p)).symm
    | coll op v k o h => exact absurd (congrFun hf ⟨0, hP⟩) (by simp)
  · rintro rfl; exact .done _

theorem joint_coll (hP : 0 < P) (op : Op) (v : Fin P → ℕ) (k : Fin P → ℕ → Prog ω) (o : Fin P → ω) :
    Joint (fun p => .coll op (v p) (k p)) o ↔ Joint (fun p => k p (combine op v)) o := by
  constructor
  · intro h
    generalize hf : (fun p => Prog.coll op (v p) (k p)) = f at h
    cases h with
    | done _ => exact absurd (congrFun hf ⟨0, hP⟩) (by simp)
    | coll op' v' k' o h =>
      have e := fun p => Prog.coll.inj (congrFun hf p)
      have e1 := (e ⟨0, hP⟩).1
      have e2 : v = v' := funext fun p => (e p).2.1
      have e3 : k = k' := funext fun p => (e p).2.2
      subst e1 e2 e3
      exact h
  · exact .coll op v k o

/-- Two processors at different points: no outcome. -/
theorem joint_stuck (f : Fin P → Prog ω) (p q : Fin P) (op op' : Op) (v v' : ℕ) (k k' : ℕ → Prog ω) (h1 : f p = .coll op v k) (h2 : f q = .coll op' v' k') (hne : op ≠ op') (o : Fin P → ω) : ¬ Joint f o := by
  intro h
  cases h with
  | done _ => exact absurd h1 (by simp)
  | coll op2 v2 k2 o h =>
    have a := (Prog.coll.inj h1).1
    have b := (Prog.coll.inj h2).1
    exact hne (a.symm.trans b)

theorem joint_stuck_done (f : Fin P → Prog ω) (p q : Fin P) (w : ω) (op' : Op) (v' : ℕ) (k' : ℕ → Prog ω) (h1 : f p = .done w) (h2 : f q = .coll op' v' k') (o : Fin P → ω) : ¬ Joint f o := by
  intro h
  cases h with
  | done _ => exact absurd h2 (by simp)
  | coll op2 v2 k2 o h => exact absurd h1 (by simp)

/-! ## Agreement -/

/-- What is the same on all processors. -/
def Same (hs : Fin P → H) : Prop := ∃ since delay remade running, ∀ p, (hs p).since = since ∧ (hs p).delay = delay ∧ (hs p).remade = remade ∧ (hs p).running = running

theorem finish_joint (hP : 0 < P) (hs : Fin P → H) (i : Fin P → Inp) (built : Bool) (remade : Bool) (h : ∀ p, (hs p).remade = remade) (o : Fin P → Out) :
    Joint (fun p => finish (hs p) (i p) built) o ↔ o = fun p => ⟨{ hs p with remade := false, term := (hs p).term || (i p).ask }, built⟩ := by
  unfold finish
  simp only [h]
  cases remade with
  | true =>
    simp only [if_true]
    exact joint_done hP _ _
  | false =>
    simp only [Bool.false_eq_true, if_false]
    rw [joint_coll hP .update (fun _ => 0) (fun p _ => Prog.done (⟨{ hs p with remade := false, term := (hs p).term || (i p).ask }, built⟩ : Out))]
    exact joint_done hP _ _

/-- Whether a processor asked for the end. -/
def Asked (hs : Fin P → H) : Prop := ∃ p, (hs p).term = true

open Classical in
theorem construct_joint (hP : 0 < P) (hs : Fin P → H) (i : Fin P → Inp) (o : Fin P → Out) :
    Joint (fun p => construct (hs p) (i p)) o ↔
      o = fun p => ⟨⟨0, (hs p).delay, (hs p).last, false, false, decide (Asked hs) || (i p).ask, (hs p).running && !decide (Asked hs)⟩, true⟩ := by
  unfold construct
  rw [joint_coll hP .terminate (fun p => if (hs p).term then 1 else 0)]
  have e : combine .terminate (fun p => if (hs p).term then 1 else 0) = if Asked hs then 1 else 0 := by
    unfold combine Asked
    simp
  rw [e, joint_coll hP .exchange (fun _ => 0), finish_joint hP _ i true true (fun _ => rfl)]
  by_cases ha : Asked hs
  · simp [ha]
  · simp [ha]

/-- The new `update_delay_steps`: with type 2, the least over all processors of the steps after which the skin depth was exceeded (one more than before if it was not). -/
noncomputable def newDelay (c : Cfg) (hs : Fin P → H) (p : Fin P) : ℕ :=
  if c.type = 2 then sInf (Set.range fun q => if (hs q).required then (hs q).last else (hs q).delay + 1) else (hs p).delay

/-- The new `last_remake_steps`. -/
def newLast (c : Cfg) (h : H) : ℕ := if c.type = 2 then (if h.required then h.last else h.delay + 1) else h.last

open Classical in
theorem decided_joint (hP : 0 < P) (c : Cfg) (hs : Fin P → H) (i : Fin P → Inp) (remade : Bool) (h : ∀ p, (hs p).remade = remade) (doIt : Bool) (o : Fin P → Out) :
    Joint (fun p => decided c (hs p) (i p) doIt) o ↔
      o = fun p => if doIt then ⟨⟨0, newDelay c hs p, newLast c (hs p), false, false, decide (Asked hs) || (i p).ask, (hs p).running && !decide (Asked hs)⟩, true⟩
        else ⟨{ hs p with remade := false, term := (hs p).term || (i p).ask }, false⟩ := by
  unfold decided
  cases doIt with
  | false =>
    simp only [Bool.false_eq_true, if_false]
    exact finish_joint hP hs i false remade h o
  | true =>
    simp only [if_true]
    unfold newDelay newLast
    by_cases ht : c.type = 2
    · simp only [ht, if_true]
      rw [joint_coll hP .delay (fun p => if (hs p).required then (hs p).last else (hs p).delay + 1), construct_joint hP]
      rfl
    · simp only [ht, if_false]
      exact construct_joint hP hs i o

/-- The state of a processor when it decides. -/
def pre (h : H) (i : Inp) : H := note (tick h) i

/-- Conditions: every processor has particles; no processor is at rest when the time step is adjusted; with types 1 and 2, no processor has a wish of its own to rebuild. -/
structure Fair (c : Cfg) (inp : ℕ → Fin P → Inp) : Prop where
  some : ∀ t p, 1 ≤ (inp t p).number
  moving : ∀ t p, c.adjust t = true → (inp t p).still = false
  flags : c.type = 0 ∨ (c.type = 1 ∨ c.type = 2) ∧ ∀ t p, (inp t p).needs = false

open Classical in
/-- A step of all processors together: the specification. -/
noncomputable def together (c : Cfg) (hs : Fin P → H) (i : Fin P → Inp) (p : Fin P) : Out :=
  if (hs p).running then
    if ∃ q, wants c (tick (hs q)) (i q) = true then
      ⟨⟨0, newDelay c (fun q => pre (hs q) (i q)) p, newLast c (pre (hs p) (i p)), false, false, decide (Asked hs) || (i p).ask, !decide (Asked hs)⟩, true⟩
    else ⟨{ pre (hs p) (i p) with remade := false, term := (hs p).term || (i p).ask }, false⟩
  else ⟨hs p, false⟩

open Classical in
theorem step_joint (hP : 0 < P) (c : Cfg) (inp : ℕ → Fin P → Inp) (hf : Fair c inp) (t : ℕ) (hs : Fin P → H) (hsame : Same hs) (o : Fin P → Out) :
    Joint (fun p => stepProg c t (hs p) (inp t p)) o ↔ o = together c hs (inp t) := by
  obtain ⟨since, delay, remade, running, hall⟩ := hsame
  unfold stepProg together
  simp only [fun p => (hall p).2.2.2]
  cases running with
  | false =>
    simp only [Bool.false_eq_true, if_false]
    exact joint_done hP _ _
  | true =>
    simp only [if_true]
    have hpre : (fun p => if (c.adjust t && !(inp t p).still) = true then Prog.coll .dt 0 fun _ => preForces c (hs p) (inp t p) else preForces c (hs p) (inp t p)) =
        fun p => if c.adjust t = true then Prog.coll .dt 0 fun _ => preForces c (hs p) (inp t p) else preForces c (hs p) (inp t p) := by
      funext p
      cases ha : c.adjust t with
      | false => rfl
      | true => rw [hf.moving t p ha]; rfl
    rw [hpre]
    have hdt : Joint (fun p => if c.adjust t = true then Prog.coll .dt 0 fun _ => preForces c (hs p) (inp t p) else preForces c (hs p) (inp t p)) o ↔
        Joint (fun p => preForces c (hs p) (inp t p)) o := by
      cases c.adjust t with
      | false => simp
      | true =>
        simp only [if_true]
        exact joint_coll hP .dt (fun _ => 0) (fun p _ => preForces c (hs p) (inp t p)) o
    rw [hdt]
    have hp : (fun p => preForces c (hs p) (inp t p)) = fun p =>
        if c.type = 0 then .coll .construct (if wants c (tick (hs p)) (inp t p) then 1 else 0) fun r => decided c (pre (hs p) (inp t p)) (inp t p) (r != 0)
        else decided c (pre (hs p) (inp t p)) (inp t p) (wants c (tick (hs p)) (inp t p)) := by
      funext p
      unfold preForces
      rw [if_neg (by have := hf.some t p; omega)]
      rfl
    rw [hp]
    have hrem : ∀ p, (pre (hs p) (inp t p)).remade = remade := by
      intro p
      unfold pre note tick
      split
      · exact (hall p).2.2.1
      · exact (hall p).2.2.1
    have hterm : ∀ p, (pre (hs p) (inp t p)).term = (hs p).term := by
      intro p
      unfold pre note tick
      split <;> rfl
    have hrun : ∀ p, (pre (hs p) (inp t p)).running = true := by
      intro p
      unfold pre note tick
      split
      · exact (hall p).2.2.2
      · exact (hall p).2.2.2
    have hasked : Asked (fun q => pre (hs q) (inp t q)) ↔ Asked hs := by
      unfold Asked
      simp only [hterm]
    have fin : ∀ d : Bool, (d = true ↔ ∃ q, wants c (tick (hs q)) (inp t q) = true) →
        (Joint (fun p => decided c (pre (hs p) (inp t p)) (inp t p) d) o ↔ o = together c hs (inp t)) := by
      intro d hd
      rw [decided_joint hP c _ (inp t) remade hrem d o]
      have : (fun p => if d = true then (⟨⟨0, newDelay c (fun q => pre (hs q) (inp t q)) p, newLast c (pre (hs p) (inp t p)), false, false, decide (Asked fun q => pre (hs q) (inp t q)) || (inp t p).ask,
            (pre (hs p) (inp t p)).running && !decide (Asked fun q => pre (hs q) (inp t q))⟩, true⟩ : Out)
          else ⟨{ pre (hs p) (inp t p) with remade := false, term := (pre (hs p) (inp t p)).term || (inp t p).ask }, false⟩) = together c hs (inp t) := by
        funext p
        unfold together
        simp only [fun p => (hall p).2.2.2, if_true, hrun, hterm, hasked, Bool.true_and]
        by_cases hex : ∃ q, wants c (tick (hs q)) (inp t q) = true
        · rw [if_pos hex, if_pos (hd.mpr hex)]
        · rw [if_neg hex, if_neg fun h => hex (hd.mp h)]
      rw [this]
    have fin2 := fun d hd => (fin d hd).trans (by
      show (o = together c hs (inp t)) ↔ _
      unfold together
      simp only [fun p => (hall p).2.2.2, if_true]
      exact Iff.rfl)
    by_cases ht : c.type = 0
    · simp only [ht, if_true]
      rw [joint_coll hP .construct (fun p => if wants c (tick (hs p)) (inp t p) then 1 else 0)]
      refine fin2 _ ?_
      unfold combine
      simp
    · simp only [ht, if_false]
      have hw : ∀ p, wants c (tick (hs p)) (inp t p) = decide (delay ≤ since + 1) := by
        intro p
        obtain h0 | ⟨h12, hn⟩ := hf.flags
        · exact absurd h0 ht
        · unfold wants tick
          simp only [hn t p, (hall p).1, (hall p).2.1]
          have : (c.type == 0) = false := by simpa using ht
          rw [this]
          rcases h12 with h | h <;> simp [h]
      have e : (fun p => decided c (pre (hs p) (inp t p)) (inp t p) (wants c (tick (hs p)) (inp t p))) = fun p => decided c (pre (hs p) (inp t p)) (inp t p) (decide (delay ≤ since + 1)) := by
        funext p
        rw [hw p]
      rw [e]
      refine fin2 _ ?_
      simp only [hw]
      exact ⟨fun h => ⟨⟨0, hP⟩, h⟩, fun ⟨_, h⟩ => h⟩


theorem pre_since (h : H) (i : Inp) : (pre h i).since = h.since + 1 ∧ (pre h i).delay = h.delay ∧ (pre h i).running = h.running := by
  unfold pre note tick
  split <;> exact ⟨rfl, rfl, rfl⟩

theorem together_same (hP : 0 < P) (c : Cfg) (hs : Fin P → H) (i : Fin P → Inp) (hsame : Same hs) : Same (fun p => (together c hs i p).h) ∧ ∃ b, ∀ p, (together c hs i p).built = b := by
  classical
  obtain ⟨since, delay, remade, running, hall⟩ := hsame
  unfold together
  simp only [fun p => (hall p).2.2.2]
  cases running with
  | false => exact ⟨⟨since, delay, remade, false, fun p => by simpa using hall p⟩, false, fun p => by simp⟩
  | true =>
    simp only [if_true]
    by_cases hex : ∃ q, wants c (tick (hs q)) (i q) = true
    · simp only [if_pos hex]
      refine ⟨⟨0, newDelay c (fun q => pre (hs q) (i q)) ⟨0, hP⟩, false, !decide (Asked hs), fun p => ⟨rfl, ?_, rfl, rfl⟩⟩, true, fun p => rfl⟩
      unfold newDelay
      split
      · rfl
      · show (pre (hs p) (i p)).delay = (pre (hs _) (i _)).delay
        rw [(pre_since _ _).2.1, (pre_since _ _).2.1, (hall p).2.1, (hall _).2.1]
    · simp only [if_neg hex]
      refine ⟨⟨since + 1, delay, false, true, fun p => ⟨?_, ?_, rfl, ?_⟩⟩, false, fun p => rfl⟩
      · show (pre (hs p) (i p)).since = _
        rw [(pre_since _ _).1, (hall p).1]
      · show (pre (hs p) (i p)).delay = _
        rw [(pre_since _ _).2.1, (hall p).2.1]
      · show (pre (hs p) (i p)).running = _
        rw [(pre_since _ _).2.2, (hall p).2.2.2]

theorem runs_same (hP : 0 < P) (c : Cfg) (s0 : H) (inp : ℕ → Fin P → Inp) (hf : Fair c inp) (t : ℕ) (hs : Fin P → H) (logs : Fin P → List Bool) (h : Runs c s0 inp t hs logs) :
    Same hs ∧ ∃ l, ∀ p, logs p = l := by
  induction h with
  | init => exact ⟨⟨s0.since, s0.delay, s0.remade, s0.running, fun _ => ⟨rfl, rfl, rfl, rfl⟩⟩, [], fun _ => rfl⟩
  | step t hs logs o h hj ih =>
    obtain ⟨ih1, l, ih2⟩ := ih
    rw [step_joint hP c inp hf t hs ih1] at hj
    subst hj
    obtain ⟨a, b, hb⟩ := together_same hP c hs (inp t) ih1
    exact ⟨a, l ++ [b], fun p => by show logs p ++ _ = _; rw [ih2 p, hb p]⟩

/-- C144, partial. If every processor has particles, is not at rest when time steps are adjusted, and (with types 1 and 2) has no wish of its own to rebuild, then all processors rebuild in the same
steps, leave the loop in the same step, and no step blocks. Missing: processors without particles, at rest, or with local wishes (`C144_negation_empty`, `C144_negation_rest`, `C144_negation_local`). -/
theorem C144_together_partial (hP : 0 < P) (c : Cfg) (delay last : ℕ) (inp : ℕ → Fin P → Inp) (hf : Fair c inp) (t : ℕ) (hs : Fin P → H) (logs : Fin P → List Bool)
    (h : Runs c (start c delay last) inp t hs logs) :
    (∀ p q, logs p = logs q ∧ (hs p).running = (hs q).running) ∧ ∃ o, Joint (fun p => stepProg c t (hs p) (inp t p)) o := by
  obtain ⟨hsame, l, hl⟩ := runs_same hP c _ inp hf t hs logs h
  refine ⟨fun p q => ⟨(hl p).trans (hl q).symm, ?_⟩, _, (step_joint hP c inp hf t hs hsame _).mpr rfl⟩
  obtain ⟨_, _, _, _, hall⟩ := hsame
  rw [(hall p).2.2.2, (hall q).2.2.2]

/-- C144, partial. Under the same conditions the processors rebuild if (and only if) one of them needs it: with type 0 one that has a wish or exceeds the skin depth (now or before), with types 1 and 2
if `update_delay_steps` steps have passed; then with type 2 the next interval is the least over all processors of the steps after which the skin depth was exceeded. Missing: as above. -/
theorem C144_rebuild_partial (hP : 0 < P) (c : Cfg) (delay last : ℕ) (inp : ℕ → Fin P → Inp) (hf : Fair c inp) (t : ℕ) (hs : Fin P → H) (logs : Fin P → List Bool)
    (h : Runs c (start c delay last) inp t hs logs) (hr : ∀ p, (hs p).running = true) (o : Fin P → Out) (hj : Joint (fun p => stepProg c t (hs p) (inp t p)) o) (p : Fin P) :
    ((o p).built = true ↔ if c.type = 0 then ∃ q, (inp t q).needs = true ∨ (hs q).required = true ∨ (inp t q).exceed = true else (hs p).delay ≤ (hs p).since + 1) ∧
    (c.type = 2 → (o p).built = true →
      (o p).h.delay = sInf (Set.range fun q => if (hs q).required then (hs q).last else if (inp t q).exceed then (hs q).since + 1 else (hs q).delay + 1)) := by
  classical
  obtain ⟨hsame, -⟩ := runs_same hP c _ inp hf t hs logs h
  rw [step_joint hP c inp hf t hs hsame] at hj
  subst hj
  obtain ⟨since, dl, remade, running, hall⟩ := hsame
  have hb : (together c hs (inp t) p).built = true ↔ ∃ q, wants c (tick (hs q)) (inp t q) = true := by
    unfold together
    rw [if_pos (hr p)]
    split
    · rename_i hex; exact ⟨fun _ => hex, fun _ => rfl⟩
    · rename_i hex; exact ⟨fun h => absurd h (by simp), fun h => absurd h hex⟩
  refine ⟨hb.trans ?_, fun ht hbt => ?_⟩
  · by_cases ht : c.type = 0
    · rw [if_pos ht]
      apply exists_congr
      intro q
      unfold wants tick
      simp [ht]
    · rw [if_neg ht]
      obtain h0 | ⟨h12, hn⟩ := hf.flags
      · exact absurd h0 ht
      · have hw : ∀ q, wants c (tick (hs q)) (inp t q) = true ↔ (hs p).delay ≤ (hs p).since + 1 := by
          intro q
          unfold wants tick
          simp only [hn t q, (hall q).1, (hall q).2.1, (hall p).1, (hall p).2.1]
          have : (c.type == 0) = false := by simpa using ht
          rw [this]
          rcases h12 with h | h <;> simp [h]
        exact ⟨fun ⟨q, hq⟩ => (hw q).mp hq, fun h => ⟨p, (hw p).mpr h⟩⟩
  · have hex := hb.mp hbt
    unfold together
    rw [if_pos (hr p), if_pos hex]
    simp only
    unfold newDelay
    rw [if_pos ht]
    congr 2
    funext q
    unfold pre note tick
    cases hq : (hs q).required with
    | true => simp [hq]
    | false =>
      cases he : (inp t q).exceed with
      | true => simp [hq, he]
      | false => simp [hq, he]

/-- C144, partial. Under the same conditions a processor's request to end the run is followed by all processors at the next rebuild. Missing: as above, and that there is one (`C144_negation_endless`). -/
theorem C144_end_partial (hP : 0 < P) (c : Cfg) (delay last : ℕ) (inp : ℕ → Fin P → Inp) (hf : Fair c inp) (t : ℕ) (hs : Fin P → H) (logs : Fin P → List Bool)
    (h : Runs c (start c delay last) inp t hs logs) (hr : ∀ p, (hs p).running = true) (o : Fin P → Out) (hj : Joint (fun p => stepProg c t (hs p) (inp t p)) o) (p : Fin P) :
    (o p).h.running = false ↔ (o p).built = true ∧ ∃ q, (hs q).term = true := by
  classical
  obtain ⟨hsame, -⟩ := runs_same hP c _ inp hf t hs logs h
  rw [step_joint hP c inp hf t hs hsame] at hj
  subst hj
  unfold together
  rw [if_pos (hr p)]
  split
  · by_cases ha : Asked hs
    · simp only [ha, decide_true, Bool.not_true, true_and, true_iff]
      exact ha
    · simp only [ha, decide_false, Bool.not_false, true_and, Bool.true_eq_false, false_iff]
      exact ha
  · simp only [(pre_since _ _).2.2, hr p]
    simp

/-- C144, partial. Under the same conditions with types 1 and 2 the run ends on all processors at most `update_delay_steps` steps after one of them asks for it. Missing: as above, and type 0
(`C144_negation_endless`). -/
theorem C144_ends_partial (hP : 0 < P) (c : Cfg) (hc : c.type ≠ 0) (delay last : ℕ) (inp : ℕ → Fin P → Inp) (hf : Fair c inp) (n t : ℕ) (hs : Fin P → H) (logs : Fin P → List Bool)
    (h : Runs c (start c delay last) inp t hs logs) (q : Fin P) (hq : (hs q).term = true) (hn : (hs q).delay ≤ (hs q).since + n + 1) :
    ∃ t' hs' logs', t' ≤ t + n + 1 ∧ Runs c (start c delay last) inp t' hs' logs' ∧ ∀ p, (hs' p).running = false := by
  classical
  induction n generalizing t hs logs with
  | zero =>
    obtain ⟨hsame, -⟩ := runs_same hP c _ inp hf t hs logs h
    by_cases hr : ∀ p, (hs p).running = true
    · have hj := (step_joint hP c inp hf t hs hsame _).mpr rfl
      refine ⟨t + 1, _, _, le_refl _, .step t hs logs _ h hj, fun p => ?_⟩
      refine (C144_end_partial hP c delay last inp hf t hs logs h hr _ hj p).mpr ⟨?_, q, hq⟩
      refine (C144_rebuild_partial hP c delay last inp hf t hs logs h hr _ hj p).1.mpr ?_
      rw [if_neg hc]
      obtain ⟨since, dl, _, _, hall⟩ := hsame
      rw [(hall p).1, (hall p).2.1]
      rw [(hall q).1, (hall q).2.1] at hn
      omega
    · obtain ⟨_, _, _, running, hall⟩ := hsame
      refine ⟨t, hs, logs, by omega, h, fun p => ?_⟩
      push Not at hr
      obtain ⟨p', hp'⟩ := hr
      rw [(hall p).2.2.2, ← (hall p').2.2.2]
      simpa using hp'
  | succ n ih =>
    obtain ⟨hsame, -⟩ := runs_same hP c _ inp hf t hs logs h
    have hj := (step_joint hP c inp hf t hs hsame _).mpr rfl
    by_cases hr : ∀ p, (hs p).running = true
    · by_cases hb : (together c hs (inp t) q).built = true
      · refine ⟨t + 1, _, _, by omega, .step t hs logs _ h hj, fun p => ?_⟩
        obtain ⟨_, b, hbb⟩ := together_same hP c hs (inp t) hsame
        exact (C144_end_partial hP c delay last inp hf t hs logs h hr _ hj p).mpr ⟨by rw [hbb p, ← hbb q, hb], q, hq⟩
      · have hno : ¬ ∃ q, wants c (tick (hs q)) (inp t q) = true := by
          intro hex
          apply hb
          unfold together
          rw [if_pos (hr q), if_pos hex]
        have e : together c hs (inp t) q = ⟨{ pre (hs q) (inp t q) with remade := false, term := (hs q).term || (inp t q).ask }, false⟩ := by
          unfold together
          rw [if_pos (hr q), if_neg hno]
        obtain ⟨t', hs', logs', h1, h2, h3⟩ := ih (t + 1) _ _ (.step t hs logs _ h hj) (by simp only [e, hq, Bool.true_or])
          (by simp only [e, (pre_since _ _).1, (pre_since _ _).2.1]; omega)
        exact ⟨t', hs', logs', by omega, h2, h3⟩
    · obtain ⟨_, _, _, running, hall⟩ := hsame
      refine ⟨t, hs, logs, by omega, h, fun p => ?_⟩
      push Not at hr
      obtain ⟨p', hp'⟩ := hr
      rw [(hall p).2.2.2, ← (hall p').2.2.2]
      simpa using hp'

/-- C144, the hypotheses are met: two processors, type 2, the second exceeds the skin depth in the second step and is followed. -/
example : Fair (P := 2) ⟨2, fun _ => true⟩ (fun t p => ⟨1, false, t == 1 && p == 1, false, false⟩) :=
  ⟨fun _ _ => le_refl _, fun _ _ _ => rfl, Or.inr ⟨Or.inr rfl, fun _ _ => rfl⟩⟩

/-- A state in the loop, just after a step without rebuilding. -/
def mid : H := ⟨1, 5, 1, false, false, false, true⟩

/-- C144 is false if a processor has no particles: with type 0 it updates its ghosts while the other waits for its vote. -/
theorem C144_negation_empty : ¬ ∃ o, Joint (fun p : Fin 2 => stepProg ⟨0, fun _ => false⟩ 1 mid ⟨if p = 0 then 0 else 1, false, false, false, false⟩) o := by
  rintro ⟨o, ho⟩
  exact joint_stuck _ 0 1 .update .construct 0 0 _ _ rfl rfl (by decide) o ho

/-- C144 is false if a processor is at rest when the time step is adjusted: it does not take part in the synchronization. -/
theorem C144_negation_rest : ¬ ∃ o, Joint (fun p : Fin 2 => stepProg ⟨0, fun _ => true⟩ 1 mid ⟨1, false, false, p == 0, false⟩) o := by
  rintro ⟨o, ho⟩
  exact joint_stuck _ 0 1 .construct .dt 0 0 _ _ rfl rfl (by decide) o ho

/-- C144 is false with types 1 and 2 (2 is the default) if a processor has a wish of its own to rebuild, for example because particles were removed there: it exchanges particles alone. -/
theorem C144_negation_local (type : ℕ) (h : type = 1 ∨ type = 2) :
    ¬ ∃ o, Joint (fun p : Fin 2 => stepProg ⟨type, fun _ => false⟩ 1 mid ⟨1, p == 0, false, false, false⟩) o := by
  rintro ⟨o, ho⟩
  rcases h with rfl | rfl
  · exact joint_stuck _ 0 1 .terminate .update 0 0 _ _ rfl rfl (by decide) o ho
  · exact joint_stuck _ 0 1 .delay .update _ 0 _ _ rfl rfl (by decide) o ho

/-- C144 is false if a processor has no particles when `run` is called (`gflow.cpp:104-109`): it returns while the others exchange particles (`pre_integrate`). -/
theorem C144_negation_start (h : H) (i : Inp) (out : Out) : ¬ ∃ o, Joint (fun p : Fin 2 => if p = 0 then .done out else construct h i) o := by
  rintro ⟨o, ho⟩
  exact joint_stuck_done _ 0 1 out .terminate _ _ rfl rfl o ho

/-- C144 is false of the end with type 0: without interactions (the skin depth is then never found exceeded) and without wishes to rebuild, no processor ever leaves the loop, though all ask for it. -/
theorem C144_negation_endless (hP : 0 < P) (inp : ℕ → Fin P → Inp) (hi : ∀ t p, inp t p = ⟨1, false, false, false, true⟩) (delay last t : ℕ) :
    ∃ hs logs, Runs ⟨0, fun _ => true⟩ (start ⟨0, fun _ => true⟩ delay last) inp t hs logs ∧ (∀ p, (hs p).running = true ∧ (hs p).required = false) ∧ (0 < t → ∀ p, (hs p).term = true) := by
  have hf : Fair ⟨0, fun _ => true⟩ inp := ⟨fun t p => by rw [hi], fun t p _ => by rw [hi], Or.inl rfl⟩
  induction t with
  | zero => exact ⟨_, _, .init, fun p => ⟨rfl, rfl⟩, fun h => absurd h (lt_irrefl _)⟩
  | succ t ih =>
    obtain ⟨hs, logs, h1, h2, h3⟩ := ih
    obtain ⟨hsame, -⟩ := runs_same hP _ _ inp hf t hs logs h1
    refine ⟨_, _, .step t hs logs _ h1 ((step_joint hP _ inp hf t hs hsame _).mpr rfl), ?_, ?_⟩
    all_goals
      have hno : ¬ ∃ q, wants ⟨0, fun _ => true⟩ (tick (hs q)) (inp t q) = true := by
        rintro ⟨q, hq⟩
        rw [hi] at hq
        unfold wants tick at hq
        simp [(h2 q).2] at hq
    · intro p
      unfold together
      rw [if_pos (h2 p).1, if_neg hno, hi]
      exact ⟨(h2 p).1, (h2 p).2⟩
    · intro _ p
      unfold together
      rw [if_pos (h2 p).1, if_neg hno, hi]
      simp

end Verif.Collective
