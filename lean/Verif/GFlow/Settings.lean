import Mathlib.Algebra.Order.Field.Basic
import Mathlib.Data.List.Basic
import Mathlib.Tactic.Linarith
import Mathlib.Tactic.NormNum

/-!
# Settings of a simulation (C182)

Models the setters and getters of a simulation, `gflow.cpp:308-380, 485-545, 680-687, 698-724` (class `GFlow`) with the defaults of
`gflow.hpp:359-440`, the parts of the data master they reach (`base/datamaster.cpp:21-23, 291-309, 319-325`, defaults
`base/datamaster.hpp:136-160`), `DataObject`'s constructor and `setFPS` (`base/dataobject.cpp:5-11, 29-31`) and `Integrator::setDT`,
`setMaxDT` (`base/integrator.cpp:70-72, 94-96`).

Simplifications: numbers are elements of an ordered field (no rounding, no NaN); `argv` is an optional number standing for the pointer; the
bounds are abstract here, what `setBounds` does to the topology and the handler is in `Domain/SerialBuild.lean`; a data object is made and
added at once, as the driver does, and of a class that does not choose its own bounds or rate (those that average positions, velocities or
oscillations take a part of the bounds); what an integrator does with its time step during a run is in `Integrators/StepSize.lean`.
Reading or writing outside an array or through a null pointer is `none`.
-/

namespace Verif.Settings

variable {K : Type} [Field K] [LinearOrder K] {B : Type}

/-- `BCFlag`, `utility/defaultconstants.hpp:115` (the four boundary conditions). -/
inductive BC | wrap | refl | repl | open'
deriving DecidableEq

/-- `RunMode`, `gflow.hpp:18` (the modes of a simulation). -/
inductive Mode | idle | init | sim
deriving DecidableEq

/-- The settings of a data object, `base/dataobject.hpp:129-150`: the delay between records (`none`: infinite) and `gather_bounds`. -/
structure Obj (K B : Type) where
  delay : Option K
  gather : B
deriving DecidableEq

/-- The settings of an integrator, `base/integrator.hpp:66-73`: `dt` and `max_dt`. -/
structure Integ (K : Type) where
  dt : K
  maxDt : K
deriving DecidableEq

/-- The settings of a simulation, `gflow.hpp:290-453`, with its data master's, `base/datamaster.hpp:110-160`. -/
structure Sim (K B : Type) where
  bounds : B
  bcs : List BC
  useForces : Bool
  repulsion : K
  dissipation : K
  attraction : K
  printUpdates : Bool
  updateInterval : K
  mode : Mode
  requested : K
  elapsed : K
  command : ℤ × Option ℕ
  integ : Option (Integ K)
  objs : List (Obj K B)
  startRec : K
  checkDelay : K
  doCheck : Bool

/-- A call of the interface. -/
inductive Op (K B : Type) where
  | setBounds (b : B)
  | setAllBCs (t : BC)
  | setBC (d : ℤ) (t : BC)
  | setUseForces (b : Bool)
  | setRepulsion (r : K)
  | setDissipation (r : K)
  | setAttraction (r : K)
  | setPrintUpdates (b : Bool)
  | setUpdateInterval (r : K)
  | setRunMode (m : Mode)
  | requestTime (t : K)
  | setElapsedTime (t : K)
  | resetAllTimes
  | setCommand (argc : ℤ) (argv : Option ℕ)
  | newIntegrator (i : Integ K)
  | setDT (t : K)
  | setMaxDT (t : K)
  | addObject
  | setFPS (r : K)
  | setFPSOf (i : ℤ) (r : K)
  | setStartRec (t : K)
  | setCheckDelay (t : K)
  | setDoCheck (b : Bool)

/-- A new simulation, `gflow.cpp:14-28` with the defaults of `gflow.hpp:359-440` and `base/datamaster.hpp:136-160`; `b` are the bounds
`Bounds(dims)`. -/
def fresh (b : B) (dims : ℕ) : Sim K B :=
  ⟨b, List.replicate dims .wrap, true, 500, 0, 0, false, 250, .idle, 0, 0, (0, none), none, [], 0, 15, false⟩

/-- `DataObject::setFPS`, `base/dataobject.cpp:29-31`; a rate of 0 makes the delay infinite. -/
def Obj.setFPS (o : Obj K B) (r : K) : Obj K B := { o with delay := if r = 0 then none else some (1 / r) }

/-- `GFlow::setAllBCs`, `gflow.cpp:492-495`: writes the entries `0 ≤ d < sim_dimensions`. -/
def setAll (t : BC) (l : List BC) : List BC := l.map fun _ => t

/-- `GFlow::setBC`, `gflow.cpp:497-499`: the index is not checked. -/
def setOne (d : ℤ) (t : BC) (l : List BC) : Option (List BC) :=
  if 0 ≤ d ∧ d < l.length then some (l.set d.toNat t) else none

/-- `DataMaster::setFPS(int, real)`, `base/datamaster.cpp:306-309`: the index is checked. -/
def fpsOf (i : ℤ) (r : K) (l : List (Obj K B)) : List (Obj K B) :=
  if -1 < i ∧ i < l.length then l.modify i.toNat fun o => o.setFPS r else l

/-- The calls, `gflow.cpp:485-545, 680-687, 698-724`, `base/datamaster.cpp:291-325`, `base/integrator.cpp:70-72, 94-96`. A new integrator is
assigned by a creator (`creators/fileparsecreator.cpp:274-280`, `creators/boxcreator.cpp:132-134`). -/
def exec (s : Sim K B) : Op K B → Option (Sim K B)
  | .setBounds b => some { s with bounds := b }
  | .setAllBCs t => some { s with bcs := setAll t s.bcs }
  | .setBC d t => (setOne d t s.bcs).map fun l => { s with bcs := l }
  | .setUseForces b => some { s with useForces := b }
  | .setRepulsion r => some (if r < 0 then s else { s with repulsion := r })
  | .setDissipation r => some (if r < 0 then s else { s with dissipation := r })
  | .setAttraction r => some { s with attraction := r }
  | .setPrintUpdates b => some { s with printUpdates := b }
  | .setUpdateInterval r => some (if r > 0 then { s with updateInterval := r } else s)
  | .setRunMode m => some { s with mode := m }
  | .requestTime t => some { s with requested := if t < 0 then 0 else t }
  | .setElapsedTime t => some { s with elapsed := t }
  | .resetAllTimes => some { s with requested := 0, elapsed := 0 }
  | .setCommand c v => some (match v with | some p => { s with command := (c, some p) } | none => s)
  | .newIntegrator i => some { s with integ := some i }
  | .setDT t => some { s with integ := s.integ.map fun i => { i with dt := t } }
  | .setMaxDT t => some { s with integ := s.integ.map fun i => if t > 0 then { i with maxDt := t } else i }
  | .addObject => some { s with objs := s.objs ++ [⟨some (1 / 20), s.bounds⟩] }
  | .setFPS r => some { s with objs := s.objs.map fun o => o.setFPS r }
  | .setFPSOf i r => some { s with objs := fpsOf i r s.objs }
  | .setStartRec t => some { s with startRec := t }
  | .setCheckDelay t => some (if t > 0 then { s with checkDelay := t } else s)
  | .setDoCheck b => some { s with doCheck := b }

/-- A history of calls. -/
def run (s : Sim K B) (h : List (Op K B)) : Option (Sim K B) := h.foldlM exec s

/-- `GFlow::getBC`, `gflow.cpp:360-364`: an index outside throws. -/
def getBC (s : Sim K B) (d : ℤ) : Except Unit BC :=
  if d < 0 ∨ s.bcs.length ≤ d then .error () else .ok ((s.bcs[d.toNat]?).getD .wrap)

/-- `GFlow::getDT`, `gflow.cpp:332-334`: reads through the integrator's pointer without a test. -/
def getDT (s : Sim K B) : Option K := s.integ.map fun i => i.dt

/-! ## Specification -/

/-- The last value that the calls of a history give to a setting; `sel` tells which value, if any, a call gives it. -/
def lastOf {O α : Type} (sel : O → Option α) (dflt : α) (h : List O) : α := ((h.filterMap sel).getLast?).getD dflt

/-- Repulsions that are accepted: not negative. -/
def repulsions : Op K B → Option K
  | .setRepulsion r => if 0 ≤ r then some r else none
  | _ => none

/-- Dissipations that are accepted: not negative. -/
def dissipations : Op K B → Option K
  | .setDissipation r => if 0 ≤ r then some r else none
  | _ => none

/-- Attractions: all are accepted. -/
def attractions : Op K B → Option K
  | .setAttraction r => some r
  | _ => none

/-- Update intervals that are accepted: positive. -/
def intervals : Op K B → Option K
  | .setUpdateInterval r => if 0 < r then some r else none
  | _ => none

/-- Checkpoint delays that are accepted: positive. -/
def checkDelays : Op K B → Option K
  | .setCheckDelay r => if 0 < r then some r else none
  | _ => none

/-- Requested times: a negative request is one for 0; resetting all times sets it to 0. -/
def requests : Op K B → Option K
  | .requestTime t => some (max t 0)
  | .resetAllTimes => some 0
  | _ => none

/-- Elapsed times. -/
def elapses : Op K B → Option K
  | .setElapsedTime t => some t
  | .resetAllTimes => some 0
  | _ => none

/-- Start times of recording. -/
def starts : Op K B → Option K
  | .setStartRec t => some t
  | _ => none

/-- Bounds. -/
def boxes : Op K B → Option B
  | .setBounds b => some b
  | _ => none

/-- Run modes. -/
def modes : Op K B → Option Mode
  | .setRunMode m => some m
  | _ => none

/-- Whether forces are used. -/
def forceFlags : Op K B → Option Bool
  | .setUseForces b => some b
  | _ => none

/-- Whether updates are printed. -/
def printFlags : Op K B → Option Bool
  | .setPrintUpdates b => some b
  | _ => none

/-- Whether checkpoints are written. -/
def checkFlags : Op K B → Option Bool
  | .setDoCheck b => some b
  | _ => none

/-- Commands: only those with arguments. -/
def commands : Op K B → Option (ℤ × Option ℕ)
  | .setCommand c (some p) => some (c, some p)
  | _ => none

/-- Boundary conditions of dimension `d`. -/
def conditions (d : ℕ) : Op K B → Option BC
  | .setAllBCs t => some t
  | .setBC e t => if e = d then some t else none
  | _ => none

/-- Rates of the data object number `k`: those for all objects and those for this one. -/
def rates (k : ℕ) : Op K B → Option K
  | .setFPS r => some r
  | .setFPSOf i r => if i = k then some r else none
  | _ => none

/-- Time steps. -/
def steps : Op K B → Option K
  | .setDT t => some t
  | _ => none

/-- Maximum time steps that are accepted: positive. -/
def maxSteps : Op K B → Option K
  | .setMaxDT t => if 0 < t then some t else none
  | _ => none

/-- The calls that make an integrator. -/
def Makes : Op K B → Prop
  | .newIntegrator _ => True
  | _ => False

/-- The calls that add a data object. -/
def adds : Op K B → Bool
  | .addObject => true
  | _ => false

/-- Calls that name a dimension the simulation has. -/
def InRange (dims : ℕ) : Op K B → Prop
  | .setBC d _ => 0 ≤ d ∧ d < dims
  | _ => True

/-! ## Lemmas -/

theorem lastOf_nil {O α : Type} (sel : O → Option α) (a : α) : lastOf sel a [] = a := rfl

theorem lastOf_cons {O α : Type} (sel : O → Option α) (a : α) (o : O) (h : List O) :
    lastOf sel a (o :: h) = lastOf sel ((sel o).getD a) h := by
  unfold lastOf
  cases hs : sel o with
  | none => simp [hs]
  | some b =>
    simp only [List.filterMap_cons, hs, Option.getD_some]
    rw [List.getLast?_cons]
    cases (List.filterMap sel h).getLast? <;> simp

theorem run_cons (s : Sim K B) (o : Op K B) (h : List (Op K B)) : run s (o :: h) = (exec s o).bind fun s' => run s' h := by
  simp only [run, List.foldlM_cons]
  cases exec s o <;> rfl

theorem run_append (s : Sim K B) (g h : List (Op K B)) : run s (g ++ h) = (run s g).bind fun s' => run s' h := by
  simp only [run, List.foldlM_append]
  cases List.foldlM exec s g <;> rfl

/-- A setting that every call changes as `sel` tells is the last one given. -/
theorem tracks {α : Type} (get : Sim K B → α) (sel : Op K B → Option α)
    (one : ∀ s o s', exec s o = some s' → get s' = (sel o).getD (get s)) :
    ∀ (h : List (Op K B)) (s s' : Sim K B), run s h = some s' → get s' = lastOf sel (get s) h
  | [], s, s', hr => by
    simp only [run, List.foldlM_nil] at hr
    cases hr; rfl
  | o :: h, s, s', hr => by
    rw [run_cons] at hr
    cases he : exec s o with
    | none => rw [he] at hr; simp at hr
    | some t =>
      rw [he] at hr
      simp only [Option.bind_some] at hr
      rw [lastOf_cons, tracks get sel one h t s' hr, one s o t he]

/-- The number of boundary conditions never changes. -/
theorem exec_dims (s s' : Sim K B) (o : Op K B) (he : exec s o = some s') : s'.bcs.length = s.bcs.length := by
  cases o <;> simp only [exec, Option.some.injEq, Option.map_eq_some_iff] at he
  case setBC d t =>
    obtain ⟨l, hl, rfl⟩ := he
    unfold setOne at hl
    split at hl
    · cases hl; simp
    · cases hl
  case setAllBCs t => subst he; simp [setAll]
  case setRepulsion r => subst he; split <;> rfl
  case setDissipation r => subst he; split <;> rfl
  case setUpdateInterval r => subst he; split <;> rfl
  case setCheckDelay r => subst he; split <;> rfl
  case setCommand c v => subst he; cases v <;> rfl
  all_goals (subst he; rfl)

theorem run_dims : ∀ (h : List (Op K B)) (s s' : Sim K B), run s h = some s' → s'.bcs.length = s.bcs.length
  | [], s, s', hr => by
    simp only [run, List.foldlM_nil] at hr
    cases hr; rfl
  | o :: h, s, s', hr => by
    rw [run_cons] at hr
    cases he : exec s o with
    | none => rw [he] at hr; simp at hr
    | some t =>
      rw [he] at hr
      simp only [Option.bind_some] at hr
      rw [run_dims h t s' hr, exec_dims s t o he]

/-! ## Theorems -/

/-- C182: after any history of calls that ends without undefined behaviour, every setting is the last value the calls gave it, or its
default: negative repulsions and dissipations, update intervals and checkpoint delays that are not positive and commands without
arguments count as not given; a negative requested time counts as 0. No call changes the setting of another. -/
theorem C182_settings (b : B) (dims : ℕ) (h : List (Op K B)) (s : Sim K B) (hr : run (fresh b dims) h = some s) :
    s.repulsion = lastOf repulsions 500 h ∧ s.dissipation = lastOf dissipations 0 h ∧ s.attraction = lastOf attractions 0 h ∧
    s.updateInterval = lastOf intervals 250 h ∧ s.requested = lastOf requests 0 h ∧ s.elapsed = lastOf elapses 0 h ∧
    s.bounds = lastOf boxes b h ∧ s.mode = lastOf modes .idle h ∧ s.useForces = lastOf forceFlags true h ∧
    s.printUpdates = lastOf printFlags false h ∧ s.command = lastOf commands (0, none) h ∧ s.startRec = lastOf starts 0 h ∧
    s.checkDelay = lastOf checkDelays 15 h ∧ s.doCheck = lastOf checkFlags false h := by
  refine ⟨tracks (·.repulsion) repulsions ?_ h _ s hr, tracks (·.dissipation) dissipations ?_ h _ s hr,
    tracks (·.attraction) attractions ?_ h _ s hr, tracks (·.updateInterval) intervals ?_ h _ s hr,
    tracks (·.requested) requests ?_ h _ s hr, tracks (·.elapsed) elapses ?_ h _ s hr,
    tracks (·.bounds) boxes ?_ h _ s hr, tracks (·.mode) modes ?_ h _ s hr,
    tracks (·.useForces) forceFlags ?_ h _ s hr, tracks (·.printUpdates) printFlags ?_ h _ s hr,
    tracks (·.command) commands ?_ h _ s hr, tracks (·.startRec) starts ?_ h _ s hr,
    tracks (·.checkDelay) checkDelays ?_ h _ s hr, tracks (·.doCheck) checkFlags ?_ h _ s hr⟩
  all_goals
    intro s o s' he
    cases o <;> simp only [exec, Option.some.injEq, Option.map_eq_some_iff] at he
    case setBC => obtain ⟨l, _, rfl⟩ := he; rfl
    case setRepulsion r =>
      subst he
      by_cases hn : r < 0
      · simp [repulsions, dissipations, attractions, intervals, requests, elapses, boxes, modes, forceFlags, printFlags, commands, starts,
          checkDelays, checkFlags, hn, not_le.mpr hn]
      · simp [repulsions, dissipations, attractions, intervals, requests, elapses, boxes, modes, forceFlags, printFlags, commands, starts,
          checkDelays, checkFlags, hn, not_lt.mp hn]
    case setDissipation r =>
      subst he
      by_cases hn : r < 0
      · simp [repulsions, dissipations, attractions, intervals, requests, elapses, boxes, modes, forceFlags, printFlags, commands, starts,
          checkDelays, checkFlags, hn, not_le.mpr hn]
      · simp [repulsions, dissipations, attractions, intervals, requests, elapses, boxes, modes, forceFlags, printFlags, commands, starts,
          checkDelays, checkFlags, hn, not_lt.mp hn]
    case setUpdateInterval r =>
      subst he
      by_cases hn : 0 < r
      · simp [repulsions, dissipations, attractions, intervals, requests, elapses, boxes, modes, forceFlags, printFlags, commands, starts,
          checkDelays, checkFlags, hn]
      · simp [repulsions, dissipations, attractions, intervals, requests, elapses, boxes, modes, forceFlags, printFlags, commands, starts,
          checkDelays, checkFlags, hn]
    case setCheckDelay r =>
      subst he
      by_cases hn : 0 < r
      · simp [repulsions, dissipations, attractions, intervals, requests, elapses, boxes, modes, forceFlags, printFlags, commands, starts,
          checkDelays, checkFlags, hn]
      · simp [repulsions, dissipations, attractions, intervals, requests, elapses, boxes, modes, forceFlags, printFlags, commands, starts,
          checkDelays, checkFlags, hn]
    case requestTime t =>
      subst he
      by_cases hn : t < 0
      · simp [repulsions, dissipations, attractions, intervals, requests, elapses, boxes, modes, forceFlags, printFlags, commands, starts,
          checkDelays, checkFlags, hn, max_eq_right hn.le]
      · simp [repulsions, dissipations, attractions, intervals, requests, elapses, boxes, modes, forceFlags, printFlags, commands, starts,
          checkDelays, checkFlags, hn, max_eq_left (not_lt.mp hn)]
    case setCommand c v => subst he; cases v <;> rfl
    all_goals (subst he; rfl)

/-- A history with a rejected and an accepted value for most settings. -/
example : ∃ s, run (fresh (K := ℚ) (0 : ℕ) 2) [.setRepulsion 3, .setRepulsion (-1), .setUpdateInterval 0, .requestTime (-2), .setBC 1 .repl,
    .setCommand 4 none, .setBounds 7] = some s ∧ s.repulsion = 3 ∧ s.updateInterval = 250 ∧ s.requested = 0 ∧ s.command = (0, none) ∧
    s.bounds = 7 := ⟨_, rfl, rfl, rfl, rfl, rfl, rfl⟩

/-- C182: the boundary condition a user reads for a dimension is the last one set for it, alone or with all others, at first "wrap"; a
dimension the simulation does not have throws. -/
theorem C182_boundary_conditions (b : B) (dims : ℕ) (h : List (Op K B)) (s : Sim K B) (hr : run (fresh b dims) h = some s) (d : ℤ) :
    (∀ k : ℕ, d = k → k < dims → getBC s d = .ok (lastOf (conditions k) .wrap h)) ∧
    (d < 0 ∨ (dims : ℤ) ≤ d → getBC s d = .error ()) := by
  have hlen : s.bcs.length = dims := by rw [run_dims h _ s hr]; simp [fresh]
  constructor
  · intro k hd hk
    subst hd
    have key : ∀ (h : List (Op K B)) (s s' : Sim K B), run s h = some s' → k < s.bcs.length →
        s'.bcs[k]?.getD .wrap = lastOf (conditions k) (s.bcs[k]?.getD .wrap) h := by
      intro h
      induction h with
      | nil =>
        intro s s' hr _
        simp only [run, List.foldlM_nil] at hr
        cases hr; rfl
      | cons o h ih =>
        intro s s' hr hk
        rw [run_cons] at hr
        cases he : exec s o with
        | none => rw [he] at hr; simp at hr
        | some t =>
          rw [he] at hr
          simp only [Option.bind_some] at hr
          have hk' : k < t.bcs.length := by rw [exec_dims s t o he]; exact hk
          rw [lastOf_cons, ih t s' hr hk']
          congr 1
          cases o <;> simp only [exec, Option.some.injEq, Option.map_eq_some_iff] at he
          case setBC e u =>
            obtain ⟨l, hl, rfl⟩ := he
            unfold setOne at hl
            split at hl
            · rename_i hb
              cases hl
              by_cases hek : e = k
              · subst hek
                simp [conditions, hk]
              · have : e.toNat ≠ k := by omega
                simp [conditions, hek, this]
            · cases hl
          case setAllBCs u => subst he; simp [setAll, conditions, hk]
          case setRepulsion r => subst he; split <;> rfl
          case setDissipation r => subst he; split <;> rfl
          case setUpdateInterval r => subst he; split <;> rfl
          case setCheckDelay r => subst he; split <;> rfl
          case setCommand c v => subst he; cases v <;> rfl
          all_goals (subst he; rfl)
    have hn : ¬((k : ℤ) < 0 ∨ (s.bcs.length : ℤ) ≤ k) := by rw [hlen]; omega
    rw [getBC, if_neg hn]
    have := key h _ s hr (by simpa [fresh] using hk)
    simp only [fresh, List.getElem?_replicate, hk, if_true, Option.getD_some] at this
    simpa using this
  · intro hd
    rw [getBC, if_pos (by rw [hlen]; exact hd)]

example : ∃ s, run (fresh (K := ℚ) (0 : ℕ) 2) [.setAllBCs .refl, .setBC 1 .repl] = some s ∧ getBC s 0 = .ok .refl ∧ getBC s 1 = .ok .repl ∧
    getBC s 2 = .error () := ⟨_, rfl, rfl, rfl, rfl⟩

/-- C182: the calls are without undefined behaviour exactly if every `setBC` names a dimension of the simulation. Missing: `setBC` with
another index should throw as `getBC` does (see `C182_negation`). -/
theorem C182_defined_partial (b : B) (dims : ℕ) (h : List (Op K B)) :
    (run (fresh b dims) h).isSome ↔ ∀ o ∈ h, InRange dims o := by
  have key : ∀ (h : List (Op K B)) (s : Sim K B), s.bcs.length = dims → ((run s h).isSome ↔ ∀ o ∈ h, InRange dims o) := by
    intro h
    induction h with
    | nil => intro s _; simp [run]
    | cons o h ih =>
      intro s hs
      rw [run_cons]
      cases he : exec s o with
      | none =>
        simp only [Option.bind_none, Option.isSome_none, Bool.false_eq_true, List.mem_cons, forall_eq_or_imp, false_iff, not_and]
        intro hin
        exfalso
        cases o <;> simp [exec] at he
        rename_i d t
        simp only [setOne, hs] at he
        simp only [InRange] at hin
        simp [hin.1, hin.2] at he
      | some t =>
        have ht : t.bcs.length = dims := by rw [exec_dims s t o he]; exact hs
        simp only [Option.bind_some, ih t ht, List.mem_cons, forall_eq_or_imp, iff_and_self]
        intro _
        cases o <;> simp only [InRange]
        rename_i d u
        simp only [exec, Option.map_eq_some_iff] at he
        obtain ⟨l, hl, _⟩ := he
        unfold setOne at hl
        split at hl
        · rename_i hb; rw [hs] at hb; exact hb
        · cases hl
  exact key h _ (by simp [fresh])

/-- The negation of "a boundary condition for a dimension the simulation does not have is rejected": it writes outside the array. -/
theorem C182_negation : ∃ h : List (Op ℚ ℕ), run (fresh 0 2) h = none := ⟨[.setBC 2 .refl], rfl⟩

theorem objs_other (s s' : Sim K B) (o : Op K B) (he : exec s o = some s') (k : ℕ) (x : Obj K B) (hx : s.objs[k]? = some x) :
    s'.objs[k]? = some ((rates k o).elim x x.setFPS) := by
  have hk : k < s.objs.length := by
    by_contra hn
    rw [List.getElem?_eq_none (not_lt.mp hn)] at hx
    cases hx
  cases o <;> simp only [exec, Option.some.injEq, Option.map_eq_some_iff] at he
  case setBC d t => obtain ⟨l, _, rfl⟩ := he; exact hx
  case addObject => subst he; simpa [rates, List.getElem?_append_left hk] using hx
  case setFPS r => subst he; simp [rates, hx]
  case setFPSOf i r =>
    subst he
    simp only [fpsOf, rates]
    by_cases hi : i = k
    · subst hi
      have hb : (-1 : ℤ) < (k : ℤ) ∧ (k : ℤ) < s.objs.length := by omega
      rw [if_pos hb, if_pos rfl]
      simp [hx]
    · rw [if_neg hi]
      simp only [Option.elim_none]
      split
      · have : i.toNat ≠ k := by omega
        simp [hx, this]
      · exact hx
  case setRepulsion r => subst he; split <;> exact hx
  case setDissipation r => subst he; split <;> exact hx
  case setUpdateInterval r => subst he; split <;> exact hx
  case setCheckDelay r => subst he; split <;> exact hx
  case setCommand c v => subst he; cases v <;> exact hx
  all_goals (subst he; exact hx)

theorem objs_after (k : ℕ) : ∀ (h : List (Op K B)) (s s' : Sim K B) (x : Obj K B), run s h = some s' → s.objs[k]? = some x →
    s'.objs[k]? = some (((h.filterMap (rates k)).getLast?).elim x x.setFPS)
  | [], s, s', x, hr, hx => by
    simp only [run, List.foldlM_nil] at hr
    cases hr; simpa using hx
  | o :: h, s, s', x, hr, hx => by
    rw [run_cons] at hr
    cases he : exec s o with
    | none => rw [he] at hr; simp at hr
    | some t =>
      rw [he] at hr
      simp only [Option.bind_some] at hr
      rw [objs_after k h t s' _ hr (objs_other s t o he k x hx)]
      congr 1
      cases hs : rates k o with
      | none => simp [hs]
      | some r =>
        simp only [List.filterMap_cons, hs, List.getLast?_cons, Option.elim_some]
        cases (List.filterMap (rates k) h).getLast? <;> simp [Obj.setFPS]

theorem objs_count : ∀ (h : List (Op K B)) (s s' : Sim K B), run s h = some s' → s'.objs.length = s.objs.length + h.countP adds
  | [], s, s', hr => by
    simp only [run, List.foldlM_nil] at hr
    cases hr; rfl
  | o :: h, s, s', hr => by
    rw [run_cons] at hr
    cases he : exec s o with
    | none => rw [he] at hr; simp at hr
    | some t =>
      rw [he] at hr
      simp only [Option.bind_some] at hr
      rw [objs_count h t s' hr, List.countP_cons]
      have : t.objs.length = s.objs.length + if adds o = true then 1 else 0 := by
        cases o <;> simp only [exec, Option.some.injEq, Option.map_eq_some_iff] at he
        case setBC d u => obtain ⟨l, _, rfl⟩ := he; rfl
        case addObject => subst he; simp [adds]
        case setFPS r => subst he; simp [adds]
        case setFPSOf i r => subst he; simp only [fpsOf]; split <;> simp [adds]
        case setRepulsion r => subst he; split <;> rfl
        case setDissipation r => subst he; split <;> rfl
        case setUpdateInterval r => subst he; split <;> rfl
        case setCheckDelay r => subst he; split <;> rfl
        case setCommand c v => subst he; cases v <;> rfl
        all_goals (subst he; rfl)
      omega

/-- C182: the simulation has as many data objects as were added, in their order. The object added after the history `g` has the inverse
of the last rate set, after it was added, for all objects or for it alone (20 records per unit of time if none was, never a record if
the rate is 0); a rate set before counts for nothing. It looks at the bounds the simulation had when it was added, whatever bounds are
set later. -/
theorem C182_data_objects (b : B) (dims : ℕ) (g h : List (Op K B)) (s : Sim K B)
    (hr : run (fresh b dims) (g ++ .addObject :: h) = some s) :
    s.objs.length = g.countP adds + 1 + h.countP adds ∧
    ∃ o, s.objs[g.countP adds]? = some o ∧ o.gather = lastOf boxes b g ∧
      (h.filterMap (rates (g.countP adds)) = [] → o.delay = some (1 / 20)) ∧
      (∀ r, (h.filterMap (rates (g.countP adds))).getLast? = some r → o.delay = if r = 0 then none else some (1 / r)) := by
  have hall := objs_count _ _ s hr
  rw [run_append] at hr
  cases hg : run (fresh b dims) g with
  | none => rw [hg] at hr; simp at hr
  | some t =>
    rw [hg] at hr
    simp only [Option.bind_some, run_cons, exec] at hr
    have hn : t.objs.length = g.countP adds := by rw [objs_count g _ t hg]; simp [fresh]
    have hb : t.bounds = lastOf boxes b g := (C182_settings b dims g t hg).2.2.2.2.2.2.1
    have ho := objs_after (g.countP adds) h _ s ⟨some (1 / 20), t.bounds⟩ hr (by simp [← hn])
    refine ⟨?_, _, ho, ?_, ?_, ?_⟩
    · rw [hall, List.countP_append, List.countP_cons]
      simp [fresh, adds]
      omega
    · rw [← hb]
      cases (List.filterMap (rates (g.countP adds)) h).getLast? <;> rfl
    · intro h0; rw [h0]; rfl
    · intro r h1; rw [h1]; rfl

/-- A rate set too early, one set for another object, and bounds set late. -/
example : ∃ s, run (fresh (K := ℚ) (0 : ℕ) 2) ([.setBounds 3, .setFPS 7] ++ .addObject :: [.addObject, .setFPSOf 1 4, .setBounds 5]) = some s ∧
    s.objs = [⟨some (1 / 20), 3⟩, ⟨some (1 / 4), 3⟩] := ⟨_, rfl, by decide +kernel⟩

/-- C182: while a simulation has no integrator, time steps that are set are lost, and reading the time step is undefined; from then on it
is the last one set since the integrator was made, or the integrator's own, and so is the maximum, where only positive values count. -/
theorem C182_time_steps (b : B) (dims : ℕ) (h : List (Op K B)) (s : Sim K B) :
    (run (fresh b dims) h = some s → (∀ o ∈ h, ¬Makes o) → s.integ = none ∧ getDT s = none) ∧
    (∀ (g : List (Op K B)) (i : Integ K), (∀ o ∈ h, ¬Makes o) → run (fresh b dims) (g ++ .newIntegrator i :: h) = some s →
      getDT s = some (lastOf steps i.dt h) ∧ s.integ = some ⟨lastOf steps i.dt h, lastOf maxSteps i.maxDt h⟩) := by
  have key : ∀ (h : List (Op K B)) (t s : Sim K B), (∀ o ∈ h, ¬Makes o) → run t h = some s →
      s.integ = t.integ.map fun i => ⟨lastOf steps i.dt h, lastOf maxSteps i.maxDt h⟩ := by
    intro h
    induction h with
    | nil =>
      intro t s _ hr
      simp only [run, List.foldlM_nil] at hr
      cases hr
      cases t.integ <;> rfl
    | cons o h ih =>
      intro t s hm hr
      rw [run_cons] at hr
      cases he : exec t o with
      | none => rw [he] at hr; simp at hr
      | some u =>
        rw [he] at hr
        simp only [Option.bind_some] at hr
        rw [ih u s (fun o ho => hm o (List.mem_cons_of_mem _ ho)) hr]
        have : u.integ = t.integ.map fun i => ⟨(steps o).getD i.dt, (maxSteps o).getD i.maxDt⟩ := by
          have hmo := hm o List.mem_cons_self
          cases o <;> simp only [exec, Option.some.injEq, Option.map_eq_some_iff] at he
          case newIntegrator i => exact absurd trivial hmo
          case setBC d v => obtain ⟨l, _, rfl⟩ := he; cases t.integ <;> rfl
          case setMaxDT r =>
            subst he
            by_cases hn : 0 < r
            · cases t.integ <;> simp [steps, maxSteps, hn]
            · cases t.integ <;> simp [steps, maxSteps, hn]
          case setRepulsion r => subst he; split <;> (simp only [steps, maxSteps]; cases t.integ <;> rfl)
          case setDissipation r => subst he; split <;> (simp only [steps, maxSteps]; cases t.integ <;> rfl)
          case setUpdateInterval r => subst he; split <;> (simp only [steps, maxSteps]; cases t.integ <;> rfl)
          case setCheckDelay r => subst he; split <;> (simp only [steps, maxSteps]; cases t.integ <;> rfl)
          case setCommand c v => subst he; cases v <;> (simp only [steps, maxSteps]; cases t.integ <;> rfl)
          all_goals (subst he; simp only [steps, maxSteps]; cases t.integ <;> rfl)
        rw [this]
        simp only [lastOf_cons, Option.map_map, Function.comp_def]
  constructor
  · intro hr hm
    have := key h _ s hm hr
    simp only [fresh, Option.map_none] at this
    exact ⟨this, by simp [getDT, this]⟩
  · intro g i hm hr
    rw [run_append] at hr
    cases hg : run (fresh b dims) g with
    | none => rw [hg] at hr; simp at hr
    | some t =>
      rw [hg] at hr
      simp only [Option.bind_some, run_cons, exec] at hr
      have := key h _ s hm hr
      simp only [Option.map_some] at this
      exact ⟨by simp [getDT, this], this⟩

example : ∃ s, run (fresh (K := ℚ) (0 : ℕ) 2) ([.setDT 3] ++ .newIntegrator ⟨1, 2⟩ :: [.setMaxDT (-4), .setMaxDT 6]) = some s ∧
    s.integ = some ⟨1, 6⟩ := ⟨_, rfl, by decide +kernel⟩

end Verif.Settings
