import Verif.GFlow.SoftRun
import Verif.Domain.Remake

/-!
# C179: lists that are renewed by the program's own rule

In C129, C157 and C171 the steps with a construction are given. Here they are decided by `InteractionHandler::pre_forces` (`base/interactionhandler.cpp:65-113`, the model of C29) from the state of the run.
-/

set_option linter.unusedSectionVars false
set_option linter.unusedVariables false

namespace Verif.OwnTimes
open Verif.Cells Verif.Grid Verif.Stencil Verif.ForceMaster Verif.PairForces Verif.Handlers Verif.ForceSum Verif.Verlet
open Verif.Trajectory Verif.Convergence Verif.TrueMotion Verif.SoftSpheres
open Verif.Remake (Handler Input Pos preForces construct record checkNeedsRemake nextDelay)

variable {d : ℕ}

/-! ## The model -/

/-- `InteractionHandler::pre_integrate`, `base/interactionhandler.cpp:43-63`; the elapsed time is zero (`gflow.cpp:127`). -/
noncomputable def preIntegrate (h : Handler d) (pos : List (Pos d)) : Handler d :=
  construct { h with lastUpdate := 0, steps := 0, updateDelay := 1 / 10000, delaySteps := if h.decision = 2 then 1 else h.delaySteps } ⟨0, false, false, pos⟩

/-- The positions of the owned particles as the handler sees them, `base/interactionhandler.cpp:365-405`. -/
noncomputable def posOf (s : Setup d) (x : Arr) : List (Pos d) := (List.range s.number).map fun i => WithLp.toLp 2 (parts d x i)

/-- The state between steps: that of C129, the handler, and `elapsed_time`. -/
structure Clock (d : ℕ) where
  st : St
  hd : Handler d
  time : ℝ

/-- What `handler->pre_forces` (`gflow.cpp:174`) reads: elapsed time, whether there are interactions, `getNeedsRemake()`, and positions after `integrator->pre_forces` (`gflow.cpp:171`). -/
noncomputable def seen (s : Setup d) (e : Env) (inter : Bool) (dt : ℝ) (needs : Bool) (c : Clock d) : Input d :=
  ⟨c.time, inter, needs, posOf s (updatePositions e.mode (s.number * d) dt (updateVelocities e.mode d (s.number * d) dt e.im c.st.f c.st.v) c.st.x)⟩

/-- The positions that `construct` records are those after wrapping (`base/interactionhandler.cpp:115-138`: `simData->update()` comes before `record_positions()`). -/
noncomputable def remember (s : Setup d) (h : Handler d) (x : Arr) : Handler d :=
  { h with recorded := if h.decision = 0 ∨ h.decision = 2 then record h.sampleSize (posOf s x) else h.recorded }

/-- One step of the loop (`gflow.cpp:153-268`) in which the handler decides about construction; `elapsed_time` grows at its end (`gflow.cpp:251-254`). -/
noncomputable def stepOwn (s : Setup d) (T : FM ℝ) (e : Env) (inter : Bool) (dt : ℝ) (needs : Bool) (c : Clock d) : Option (Clock d) :=
  let p := preForces c.hd (seen s e inter dt needs c)
  (step s T e dt p.2 c.st).map fun st => ⟨st, if p.2 then remember s p.1 st.x else p.1, c.time + dt⟩

/-- A run, `gflow.cpp:153-268`: time steps and the flags `getNeedsRemake()` that other objects may set. -/
noncomputable def runOwn (s : Setup d) (T : FM ℝ) (e : Env) (inter : Bool) (l : List (ℝ × Bool)) (c : Clock d) : Option (Clock d) :=
  l.foldlM (fun c a => stepOwn s T e inter a.1 a.2 c) c

/-- The state after `pre_integrate`, `gflow.cpp:124-145`. -/
noncomputable def startOwn (s : Setup d) (T : FM ℝ) (hd : Handler d) (x v f : Arr) : Option (Clock d) :=
  (start s T x v f).map fun st => ⟨st, preIntegrate hd (posOf s st.x), 0⟩

/-! ## Specification -/

/-- Spec: the steps of a run with the decisions that were made. -/
noncomputable def decisions (s : Setup d) (T : FM ℝ) (e : Env) (inter : Bool) : List (ℝ × Bool) → Clock d → List (ℝ × Bool)
  | [], _ => []
  | (dt, needs) :: l, c => (dt, (preForces c.hd (seen s e inter dt needs c)).2) ::
      match stepOwn s T e inter dt needs c with
      | some c' => decisions s T e inter l c'
      | none => []

/-- Spec: the settings and time steps for which lists are never older than `τ`: by decision type; `setMaxUpdateDelay` and `setUpdateDelaySteps` set the two limits. With type 2, the default, all time steps are at least `η`, and nobody asks for constructions. -/
def Prompt (hd : Handler d) (inter : Bool) (τ H : ℝ) (l : List (ℝ × Bool)) : Prop :=
  (hd.decision = 0 ∧ inter = true ∧ max hd.maxUpdateDelay (1 / 10000) + H ≤ τ) ∨
  (hd.decision = 1 ∧ hd.delaySteps * H ≤ τ) ∨
  (hd.decision = 2 ∧ inter = true ∧ ∃ η > 0, (∀ a ∈ l, η ≤ a.1 ∧ a.2 = false) ∧ (max hd.maxUpdateDelay (1 / 10000) / η + 1) * H ≤ τ)

/-- Spec: the motion is calm: in every step particles move by at most `u` times the time step, and their positions are such that lists could be constructed and forces are defined. -/
def Calm (s : Setup d) (h : List Call) (im : ℕ → ℝ) (u : ℝ) : List ℝ → Motion d → Prop
  | [], _ => True
  | dt :: l, M => (∀ i, s.Alive i → len ((ideal s h im dt M).x i - M.x i) ≤ u * dt) ∧ Buildable s h (ideal s h im dt M).x ∧ Separate s h (ideal s h im dt M).x ∧
      Calm s h im u l (ideal s h im dt M)

/-- Spec: no particle is exactly on a wrapping side after the drift of a step. -/
def NeverOn (s : Setup d) (h : List Call) (im : ℕ → ℝ) : List ℝ → Motion d → Prop
  | [], _ => True
  | dt :: l, M => OffSides s (ideal s h im dt M).x ∧ NeverOn s h im l (ideal s h im dt M)

/-! ## One decision -/

theorem nextDelay_le (h : Handler d) (i : Input d) : nextDelay h i ≤ h.maxUpdateDelay := by
  unfold nextDelay
  split_ifs
  · exact le_rfl
  · exact min_le_left _ _

theorem pre_decision (h : Handler d) (i : Input d) : (preForces h i).1.decision = h.decision := by
  unfold preForces
  simp only
  split_ifs <;> simp_all [construct]

theorem pre_zero (h : Handler d) (i : Input d) (hd : h.decision = 0) (hp : 1 ≤ i.pos.length) (hi : i.hasInteractions = true) (hr : h.required = false) {U : ℝ}
    (hU : h.updateDelay ≤ U) (hM : h.maxUpdateDelay ≤ U) :
    ((preForces h i).2 = false → i.time - h.lastUpdate ≤ U ∧ (preForces h i).1.lastUpdate = h.lastUpdate) ∧
    ((preForces h i).2 = true → (preForces h i).1.lastUpdate = i.time) ∧
    (preForces h i).1.decision = 0 ∧ (preForces h i).1.required = false ∧ (preForces h i).1.updateDelay ≤ U ∧ (preForces h i).1.maxUpdateDelay = h.maxUpdateDelay := by
  obtain ⟨lu, ud, mud, dec, ds, st, lrs, req, sk, mf, tol, ss, rec'⟩ := h
  simp only at hd hr hU hM
  subst hd hr
  have hn := nextDelay_le ⟨lu, ud, mud, 0, ds, st + 1, lrs, false, sk, mf, tol, ss, rec'⟩ i
  simp only at hn
  unfold preForces
  simp only [if_neg (show ¬ i.pos.length < 1 by omega), hi]
  by_cases h1 : i.time - lu > ud
  · by_cases h2 : checkNeedsRemake ⟨lu, ud, mud, 0, ds, st + 1, lrs, false, sk, mf, tol, ss, rec'⟩ i
    · simp [h1, h2, construct, hn.trans hM]
    · have h3 : i.time - lu ≤ mud := by
        unfold checkNeedsRemake at h2
        push Not at h2
        exact h2.1
      by_cases h4 : i.simNeeds = true
      · simp [h1, h2, h4, construct, hn.trans hM]
      · simp [h1, h2, h4, construct, hn.trans hM]
        linarith
  · by_cases h4 : i.simNeeds = true
    · simp [h1, h4, construct, hU]
    · simp [h1, h4, construct, hU]
      linarith

theorem pre_one (h : Handler d) (i : Input d) (hd : h.decision = 1) (hp : 1 ≤ i.pos.length) :
    ((preForces h i).2 = false → h.steps + 1 < h.delaySteps ∧ (preForces h i).1.steps = h.steps + 1) ∧
    (preForces h i).1.decision = 1 ∧ (preForces h i).1.delaySteps = h.delaySteps := by
  obtain ⟨lu, ud, mud, dec, ds, st, lrs, req, sk, mf, tol, ss, rec'⟩ := h
  simp only at hd
  subst hd
  unfold preForces
  simp only [if_neg (show ¬ i.pos.length < 1 by omega)]
  split_ifs <;> simp_all [construct]

theorem pre_two (h : Handler d) (i : Input d) (hd : h.decision = 2) (hp : 1 ≤ i.pos.length) (hi : i.hasInteractions = true) (hn : i.simNeeds = false) {U η : ℝ} (hη : 0 < η) (hU0 : 0 ≤ U)
    (hU : h.updateDelay ≤ U) (hM : h.maxUpdateDelay ≤ U) (hD : (h.delaySteps : ℝ) ≤ U / η + 2) (hage : h.steps * η ≤ i.time - h.lastUpdate)
    (hf : h.required = false → (h.steps : ℝ) ≤ U / η + 1) (ht : h.required = true → (h.lastRemakeSteps : ℝ) ≤ U / η + 2) :
    let p := preForces h i
    (p.2 = false → h.steps + 1 < h.delaySteps ∧ p.1.steps = h.steps + 1 ∧ p.1.lastUpdate = h.lastUpdate) ∧
    (p.2 = true → p.1.steps = 0 ∧ p.1.lastUpdate = i.time) ∧
    p.1.decision = 2 ∧ p.1.updateDelay ≤ U ∧ p.1.maxUpdateDelay = h.maxUpdateDelay ∧ (p.1.delaySteps : ℝ) ≤ U / η + 2 ∧
    (p.1.required = false → (p.1.steps : ℝ) ≤ U / η + 1) ∧ (p.1.required = true → (p.1.lastRemakeSteps : ℝ) ≤ U / η + 2) := by
  obtain ⟨lu, ud, mud, dec, ds, st, lrs, req, sk, mf, tol, ss, rec'⟩ := h
  simp only at hd hU hM hD hage hf ht
  subst hd
  have hq : (0 : ℝ) ≤ U / η + 1 := by positivity
  have hnd : ∀ req, nextDelay ⟨lu, ud, mud, 2, ds, st + 1, lrs, req, sk, mf, tol, ss, rec'⟩ i ≤ U := fun req =>
    (nextDelay_le ⟨lu, ud, mud, 2, ds, st + 1, lrs, req, sk, mf, tol, ss, rec'⟩ i).trans hM
  unfold preForces
  simp only [if_neg (show ¬ i.pos.length < 1 by omega), hi, hn]
  cases req with
  | true =>
    have ht := ht rfl
    by_cases hc : ds ≤ st + 1
    · simp [hc, construct, hU, ht, hq]
    · simp [hc, construct, hU, hD, ht]
      omega
  | false =>
    have hf := hf rfl
    have hm : ((st : ℝ) + 1) ≤ U / η + 2 := by linarith
    by_cases h1 : i.time - lu > ud
    · by_cases h2 : checkNeedsRemake ⟨lu, ud, mud, 2, ds, st + 1, lrs, false, sk, mf, tol, ss, rec'⟩ i
      · by_cases hc : ds ≤ st + 1
        · simp [h1, h2, hc, construct, hnd, hm, hq]
        · simp [h1, h2, hc, hnd, hm, hD]
          omega
      · have h3 : i.time - lu ≤ U := by
          unfold checkNeedsRemake at h2
          push Not at h2
          exact h2.1.trans hM
        have h4 : (st : ℝ) ≤ U / η := by rw [le_div_iff₀ hη]; linarith
        by_cases hc : ds ≤ st + 1
        · have h5 : (ds : ℝ) ≤ st + 1 := by exact_mod_cast hc
          simp [h1, h2, hc, construct, hnd, hq]
          linarith
        · simp [h1, h2, hc, hnd, hD, h4]
          omega
    · have h4 : (st : ℝ) ≤ U / η := by rw [le_div_iff₀ hη]; linarith
      by_cases hc : ds ≤ st + 1
      · have h5 : (ds : ℝ) ≤ st + 1 := by exact_mod_cast hc
        simp [h1, hc, construct, hU, hq]
        linarith
      · simp [h1, hc, hU, hD, h4]
        omega

/-! ## All decisions of a run -/

/-- What holds between steps; `a` is the age of the lists. -/
def Good (inter : Bool) (τ H : ℝ) (U η : ℝ) (N : ℕ) (hd : Handler d) (time a : ℝ) : Prop :=
  (hd.decision = 0 ∧ inter = true ∧ hd.required = false ∧ hd.updateDelay ≤ U ∧ hd.maxUpdateDelay ≤ U ∧ a ≤ time - hd.lastUpdate ∧ U + H ≤ τ) ∨
  (hd.decision = 1 ∧ hd.delaySteps = N ∧ a ≤ hd.steps * H ∧ N * H ≤ τ) ∨
  (hd.decision = 2 ∧ inter = true ∧ hd.updateDelay ≤ U ∧ hd.maxUpdateDelay ≤ U ∧ (hd.delaySteps : ℝ) ≤ U / η + 2 ∧ hd.steps * η ≤ time - hd.lastUpdate ∧ a ≤ hd.steps * H ∧
    (hd.required = false → (hd.steps : ℝ) ≤ U / η + 1) ∧ (hd.required = true → (hd.lastRemakeSteps : ℝ) ≤ U / η + 2) ∧ (U / η + 1) * H ≤ τ)

theorem good_step {inter : Bool} {τ H U η : ℝ} {N : ℕ} {hd : Handler d} {time a : ℝ} (hU : 0 ≤ U) (hη : 0 < η) (hg : Good inter τ H U η N hd time a) (i : Input d)
    (hp : 1 ≤ i.pos.length) (hi : i.hasInteractions = inter) (ht : i.time = time) {dt : ℝ} (h0 : 0 ≤ dt) (h1 : dt ≤ H) (h2 : hd.decision = 2 → η ≤ dt ∧ i.simNeeds = false)
    (rec' : List (Pos d)) :
    ((preForces hd i).2 = false → a + dt ≤ τ) ∧
    Good inter τ H U η N (if (preForces hd i).2 then { (preForces hd i).1 with recorded := rec' } else (preForces hd i).1) (time + dt) (if (preForces hd i).2 then 0 else a + dt) := by
  have hH : 0 ≤ H := h0.trans h1
  rcases hg with ⟨g1, g2, g3, g4, g5, g6, g7⟩ | ⟨g1, g2, g3, g4⟩ | ⟨g1, g2, g3, g4, g5, g6, g7, g8, g9, g10⟩
  · obtain ⟨p1, p2, p3, p4, p5, p6⟩ := pre_zero hd i g1 hp (hi.trans g2) g3 g4 g5
    refine ⟨fun hr => ?_, Or.inl ?_⟩
    · have := (p1 hr).1
      rw [ht] at this
      linarith
    · cases hr : (preForces hd i).2
      · simp only [Bool.false_eq_true, if_false]
        refine ⟨p3, g2, p4, p5, p6.trans_le g5, ?_, g7⟩
        rw [(p1 hr).2]; linarith
      · simp only [if_true]
        refine ⟨p3, g2, p4, p5, p6.trans_le g5, ?_, g7⟩
        rw [p2 hr, ht]; linarith
  · obtain ⟨p1, p2, p3⟩ := pre_one hd i g1 hp
    refine ⟨fun hr => ?_, Or.inr (Or.inl ?_)⟩
    · have h := (p1 hr).1
      rw [g2] at h
      have h' : ((hd.steps : ℝ) + 1) ≤ N := by exact_mod_cast h.le
      nlinarith
    · cases hr : (preForces hd i).2
      · simp only [Bool.false_eq_true, if_false]
        refine ⟨p2, p3.trans g2, ?_, g4⟩
        rw [(p1 hr).2]; push_cast; linarith
      · simp only [if_true]
        exact ⟨p2, p3.trans g2, by positivity, g4⟩
  · obtain ⟨q1, q2⟩ := h2 g1
    obtain ⟨p1, p2, p3, p4, p5, p6, p7, p8⟩ := pre_two hd i g1 hp (hi.trans g2) q2 hη hU g3 g4 g5 (by rw [ht]; exact g6) g8 g9
    refine ⟨fun hr => ?_, Or.inr (Or.inr ?_)⟩
    · have h' : ((hd.steps : ℝ) + 1 + 1) ≤ hd.delaySteps := by exact_mod_cast (p1 hr).1
      have h'' : ((hd.steps : ℝ) + 1) ≤ U / η + 1 := by linarith
      nlinarith
    · cases hr : (preForces hd i).2
      · simp only [Bool.false_eq_true, if_false]
        obtain ⟨r1, r2, r3⟩ := p1 hr
        refine ⟨p3, g2, p4, p5.trans_le g4, p6, ?_, ?_, p7, p8, g10⟩
        · rw [r2, r3]; push_cast; linarith
        · rw [r2]; push_cast; linarith
      · simp only [if_true]
        obtain ⟨r1, r2⟩ := p2 hr
        refine ⟨p3, g2, p4, p5.trans_le g4, p6, ?_, by positivity, p7, p8, g10⟩
        rw [r1, r2, ht]; push_cast; linarith

theorem good_start (hd : Handler d) (inter : Bool) {τ H : ℝ} {l : List (ℝ × Bool)} (hp : Prompt hd inter τ H l) (pos : List (Pos d)) :
    ∃ U η : ℝ, 0 ≤ U ∧ 0 < η ∧ Good inter τ H U η hd.delaySteps (preIntegrate hd pos) 0 0 ∧ (hd.decision = 2 → ∀ a ∈ l, η ≤ a.1 ∧ a.2 = false) := by
  have hU : (0 : ℝ) ≤ max hd.maxUpdateDelay (1 / 10000) := le_max_of_le_right (by norm_num)
  rcases hp with ⟨h1, h2, h3⟩ | ⟨h1, h2⟩ | ⟨h1, h2, η, h3, h4, h5⟩
  · refine ⟨_, 1, hU, one_pos, Or.inl ?_, fun h => by omega⟩
    refine ⟨h1, h2, rfl, le_max_right _ _, le_max_left _ _, ?_, h3⟩
    simp [preIntegrate, construct]
  · refine ⟨_, 1, hU, one_pos, Or.inr (Or.inl ?_), fun h => by omega⟩
    simp [preIntegrate, construct, h1, h2]
  · refine ⟨_, η, hU, h3, Or.inr (Or.inr ?_), fun _ => h4⟩
    have : 0 ≤ max hd.maxUpdateDelay (1 / 10000) / η := by positivity
    simp [preIntegrate, construct, h1, h2]
    refine ⟨?_, ?_, ?_⟩ <;> first | (norm_num at *; linarith) | skip

section runs
variable (s : Setup d) (T : FM ℝ) (e : Env) (inter : Bool)

theorem run_decisions (l : List (ℝ × Bool)) (c : Clock d) :
    (runOwn s T e inter l c).map Clock.st = steps s T e (decisions s T e inter l c) c.st := by
  induction l generalizing c with
  | nil => rfl
  | cons a l ih =>
    obtain ⟨dt, needs⟩ := a
    unfold runOwn at ih ⊢
    rw [List.foldlM_cons]
    simp only [decisions]
    unfold steps at ih ⊢
    rw [List.foldlM_cons]
    simp only
    cases hs : step s T e dt (preForces c.hd (seen s e inter dt needs c)).2 c.st with
    | none =>
      have : stepOwn s T e inter dt needs c = none := by simp [stepOwn, hs]
      rw [this]; rfl
    | some st =>
      have : stepOwn s T e inter dt needs c = some ⟨st, if (preForces c.hd (seen s e inter dt needs c)).2 then remember s (preForces c.hd (seen s e inter dt needs c)).1 st.x
          else (preForces c.hd (seen s e inter dt needs c)).1, c.time + dt⟩ := by simp [stepOwn, hs]
      rw [this]
      exact ih _

theorem decisions_recent {τ H U η : ℝ} {N : ℕ} (hn : 0 < s.number) (hU : 0 ≤ U) (hη : 0 < η) (l : List (ℝ × Bool)) (hl : ∀ a ∈ l, 0 ≤ a.1 ∧ a.1 ≤ H) (c : Clock d) (a : ℝ)
    (hg : Good inter τ H U η N c.hd c.time a) (h2 : c.hd.decision = 2 → ∀ a ∈ l, η ≤ a.1 ∧ a.2 = false) : Recent τ a (decisions s T e inter l c) := by
  induction l generalizing c a with
  | nil => trivial
  | cons b l ih =>
    obtain ⟨dt, needs⟩ := b
    have hb := hl _ (List.mem_cons_self ..)
    have hlen : 1 ≤ (seen s e inter dt needs c).pos.length := by simp [seen, posOf]; omega
    have key := good_step hU hη hg (seen s e inter dt needs c) hlen rfl rfl hb.1 hb.2 (fun h => ⟨(h2 h _ (List.mem_cons_self ..)).1, (h2 h _ (List.mem_cons_self ..)).2⟩)
    simp only [decisions]
    refine ⟨(key []).1, ?_⟩
    cases hs : step s T e dt (preForces c.hd (seen s e inter dt needs c)).2 c.st with
    | none =>
      have : stepOwn s T e inter dt needs c = none := by simp [stepOwn, hs]
      rw [this]; trivial
    | some st =>
      have : stepOwn s T e inter dt needs c = some ⟨st, if (preForces c.hd (seen s e inter dt needs c)).2 then remember s (preForces c.hd (seen s e inter dt needs c)).1 st.x
          else (preForces c.hd (seen s e inter dt needs c)).1, c.time + dt⟩ := by simp [stepOwn, hs]
      rw [this]
      refine ih (fun a ha => hl a (List.mem_cons_of_mem _ ha)) _ _ (key _).2 fun h a ha => h2 ?_ a (List.mem_cons_of_mem _ ha)
      rw [← pre_decision c.hd (seen s e inter dt needs c)]
      simp only at h
      split_ifs at h <;> exact h

theorem decisions_fst (l : List (ℝ × Bool)) (c : Clock d) : (decisions s T e inter l c).map Prod.fst <+: l.map Prod.fst := by
  induction l generalizing c with
  | nil => exact List.prefix_rfl
  | cons b l ih =>
    obtain ⟨dt, needs⟩ := b
    simp only [decisions, List.map_cons]
    refine List.prefix_cons_inj _ |>.mpr ?_
    cases stepOwn s T e inter dt needs c with
    | none => exact List.nil_prefix
    | some c' => exact ih c'

theorem decisions_all (l : List (ℝ × Bool)) (c c' : Clock d) (hr : runOwn s T e inter l c = some c') : (decisions s T e inter l c).map Prod.fst = l.map Prod.fst := by
  induction l generalizing c with
  | nil => rfl
  | cons b l ih =>
    obtain ⟨dt, needs⟩ := b
    unfold runOwn at hr ih
    rw [List.foldlM_cons] at hr
    simp only at hr
    simp only [decisions, List.map_cons]
    cases hs : stepOwn s T e inter dt needs c with
    | none => rw [hs] at hr; cases hr
    | some c'' =>
      rw [hs] at hr
      rw [ih c'' hr]

theorem calm_timely (h : List Call) {u τ : ℝ} (hu : 0 ≤ u) (hτ : u * τ ≤ s.skin / 2) (im : ℕ → ℝ) (l : List (ℝ × Bool)) (L : List ℝ) (hl : l.map Prod.fst <+: L) (M : Motion d)
    (X0 : ℕ → Fin d → ℝ) (a : ℝ) (hr : Recent τ a l) (hc : Calm s h im u L M) (hX : ∀ i, s.Alive i → len (M.x i - X0 i) ≤ u * a) : Timely s h im X0 l M := by
  induction l generalizing M X0 a L with
  | nil => trivial
  | cons b l ih =>
    obtain ⟨dt, r⟩ := b
    rw [List.map_cons] at hl
    obtain ⟨t, rfl⟩ := hl
    obtain ⟨c1, c2, c3, c4⟩ := hc
    have hmove : ∀ i, s.Alive i → len ((ideal s h im dt M).x i - X0 i) ≤ u * (a + dt) := by
      intro i hi
      have h1 := len_add ((ideal s h im dt M).x i - M.x i) (M.x i - X0 i)
      rw [sub_add_sub_cancel] at h1
      linarith [c1 i hi, hX i hi]
    refine ⟨fun _ => c2, fun hr' i hi => ?_, c3, ?_⟩
    · exact (hmove i hi).trans ((mul_le_mul_of_nonneg_left (hr.1 hr') hu).trans hτ)
    · refine ih (l.map Prod.fst ++ t) (List.prefix_append _ _) _ _ _ hr.2 c4 fun i hi => ?_
      cases r
      · simpa using hmove i hi
      · simp [len, dot]

theorem never_off (h : List Call) (im : ℕ → ℝ) (l : List (ℝ × Bool)) (L : List ℝ) (hl : l.map Prod.fst <+: L) (M : Motion d) (hc : NeverOn s h im L M) : Off s h im l M := by
  induction l generalizing M L with
  | nil => trivial
  | cons b l ih =>
    obtain ⟨dt, r⟩ := b
    rw [List.map_cons] at hl
    obtain ⟨t, rfl⟩ := hl
    exact ⟨fun _ => hc.1, ih (l.map Prod.fst ++ t) (List.prefix_append _ _) _ hc.2⟩

theorem startOwn_some {x v f : Arr} {hd : Handler d} {st : St} (h : start s T x v f = some st) : startOwn s T hd x v f = some ⟨st, preIntegrate hd (posOf s st.x), 0⟩ := by
  simp [startOwn, h]

end runs

/-! ## The theorems -/

/-- **C179, age of lists (partial).** In every run in which the program itself decides when lists are constructed, with settings and time steps as in `Prompt`, the states are those of a run with lists that are never used for a longer time than `τ` after their construction: `max_update_delay`
(at least 0.0001) plus a time step for decision types 0 and 2 (for type 2 with constant time steps; with time steps between `η` and `H` it is up to `H / η` times longer), `update_delay_steps` steps for type 1.
Missing: with type 2, runs in which other objects ask for constructions (`C179_negation_requests`); several processors; rounding. -/
theorem C179_lists_partial (s : Setup d) (T : FM ℝ) (e : Env) (inter : Bool) (hn : 0 < s.number) (hd : Handler d) (x v f : Arr) (c : Clock d) (hc : startOwn s T hd x v f = some c)
    {τ H : ℝ} (l : List (ℝ × Bool)) (hl : ∀ a ∈ l, 0 ≤ a.1 ∧ a.1 ≤ H) (hp : Prompt hd inter τ H l) :
    (runOwn s T e inter l c).map Clock.st = steps s T e (decisions s T e inter l c) c.st ∧ Recent τ 0 (decisions s T e inter l c) := by
  refine ⟨run_decisions s T e inter l c, ?_⟩
  obtain ⟨st, _, rfl⟩ := Option.map_eq_some_iff.mp hc
  obtain ⟨U, η, h1, h2, h3, h4⟩ := good_start hd inter hp (posOf s st.x)
  exact decisions_recent s T e inter hn h1 h2 l hl _ _ h3 h4

/-- **C179, motion (partial).** If particles are not faster than `u` and the settings keep the age of lists below half of the skin depth over `u`, then a run with the program's own decisions goes through and is the motion with forces summed over all pairs (C129): the velocities and forces are
its velocities and forces, and positions differ by whole widths of the wrapping dimensions.
Missing: faster particles; otherwise as `C179_lists_partial` and `C129_run_partial`. -/
theorem C179_motion_partial (s : Setup d) (h : List Call) (hr : InRange h) (href : AllReflexive h) (T : FM ℝ)
    (hT : run s.cut (.init :: h) = some T) (x v f : Arr) (hok : s.OK h fun i => home s (parts d x i)) (e : Env)
    (he : e.mode.OK) (hb : Buildable s h (parts d x)) (inter : Bool) (hn : 0 < s.number) (hd : Handler d) (u τ H : ℝ) (hu : 0 ≤ u) (hτ : u * τ ≤ s.skin / 2)
    (l : List (ℝ × Bool)) (hl : ∀ a ∈ l, 0 ≤ a.1 ∧ a.1 ≤ H) (hp : Prompt hd inter τ H l)
    (hc : Calm s h e.im u (l.map Prod.fst) ⟨parts d x, parts d v, parts d f⟩) :
    ∃ c, (startOwn s T hd x v f).bind (runOwn s T e inter l) = some c ∧
      let M := (l.map Prod.fst).foldl (fun M dt => ideal s h e.im dt M) ⟨parts d x, parts d v, parts d f⟩
      ∀ i, s.Alive i → parts d c.st.v i = M.v i ∧ parts d c.st.f i = M.f i ∧
        ∀ k, ∃ z : ℤ, ((s.g k).per = false → z = 0) ∧
          parts d c.st.x i k = M.x i k + z * ((s.g k).hi - (s.g k).lo) := by
  obtain ⟨st0, hst0, _⟩ := C129_run_partial s h hr href T hT x v f hok e he hb [] trivial
  obtain ⟨st1, hst1, _⟩ := Option.bind_eq_some_iff.mp hst0
  have hc0 := startOwn_some s T (hd := hd) hst1
  set c0 : Clock d := ⟨st1, preIntegrate hd (posOf s st1.x), 0⟩ with hc0'
  obtain ⟨k1, k2⟩ := C179_lists_partial s T e inter hn hd x v f c0 hc0 l hl hp
  have ht := calm_timely s h hu hτ e.im _ _ (decisions_fst s T e inter l c0) ⟨parts d x, parts d v, parts d f⟩ (parts d x) 0 k2 hc (fun i _ => by simp [len, dot])
  obtain ⟨st, q1, q2⟩ := C129_run_partial s h hr href T hT x v f hok e he hb _ ht
  rw [hst1, Option.bind_some] at q1
  have e1 : c0.st = st1 := rfl
  rw [e1, q1] at k1
  obtain ⟨c, hc1, hc2⟩ := Option.map_eq_some_iff.mp k1
  refine ⟨c, by rw [hc0, Option.bind_some]; exact hc1, ?_⟩
  have ef : (decisions s T e inter l c0).foldl (fun M a => ideal s h e.im a.1 M) ⟨parts d x, parts d v, parts d f⟩ =
      (l.map Prod.fst).foldl (fun M dt => ideal s h e.im dt M) ⟨parts d x, parts d v, parts d f⟩ := by
    rw [← decisions_all s T e inter l c0 c hc1, List.foldl_map]
  rw [← ef, hc2]
  exact q2

/-- **C179, soft spheres (partial).** For every system of soft spheres below the threshold of C171 there is a time `τ` such that runs with the program's own decisions and settings that keep lists younger than `τ` go through, converge to the exact motion, and record a total energy that converges to
that at the start. Nothing is supposed about the motion.
Missing: particles exactly on a side; with types 0 and 2 lists may be 0.0001 old whatever the settings, so that very fast or very small particles are not covered; otherwise as `C179_lists_partial` and `C171_run_partial`. -/
theorem C179_soft_partial {s : Setup d} {h : List Call} {T : FM ℝ} (hr : InRange h) (href : AllReflexive h) (hT : run s.cut (.init :: h) = some T) (x v f : Arr) (hok : s.OK h fun i => home s (parts d x i))
    (hskin : 0 < s.skin) (hs : Soft s h) (e : Env) (he : e.mode.OK) (him : ∀ i, s.Alive i → 0 < e.im i) (hx0 : OffSides s (parts d x)) (hb : Buildable s h (parts d x)) (hn : 0 < s.number)
    (hE : Below s h (energy s h e.im (coords (parts d x)) (coords (parts d v)))) (time : ℝ) (htime : 0 ≤ time) :
    ∃ X V, Solves (Coord s) (newton s h e.im) time X V ∧ StartsAt s x v X V ∧ ∃ C H₀ τ : ℝ, 0 < H₀ ∧ 0 < τ ∧
      ∀ H : ℝ, 0 < H → H ≤ H₀ → ∀ (hd : Handler d) (inter : Bool) (l : List (ℝ × Bool)), (∀ a ∈ l, 0 ≤ a.1 ∧ a.1 ≤ H) → (l.map Prod.fst).sum ≤ time → Prompt hd inter τ H l →
        NeverOn s h e.im (l.map Prod.fst) ⟨parts d x, parts d v, parts d f⟩ →
        ∃ c, (startOwn s T hd x v f).bind (runOwn s T e inter l) = some c ∧
          (∀ i, s.Alive i → ∀ k, |parts d c.st.v i k - V (l.map Prod.fst).sum (i, k)| ≤ C * H ∧ ∃ z : ℤ, ((s.g k).per = false → z = 0) ∧
            |parts d c.st.x i k - (X (l.map Prod.fst).sum (i, k) + z * ((s.g k).hi - (s.g k).lo))| ≤ C * H) ∧
          ∀ u, ∃ E, recorded s T e u c.st = some E ∧ |E - energy s h e.im (coords (parts d x)) (coords (parts d v))| ≤ C * H := by
  obtain ⟨X, V, hx, h0, C, H₀, τ, hH₀, hτ, key⟩ := C171_run_partial hr href hT x v f hok hskin hs e he him hx0 hE time htime
  refine ⟨X, V, hx, h0, C, H₀, τ, hH₀, hτ, fun H hH hle hd inter l hl hsum hp hnev => ?_⟩
  obtain ⟨st0, hst0, _⟩ := C129_run_partial s h hr href T hT x v f hok e he hb [] trivial
  obtain ⟨st1, hst1, _⟩ := Option.bind_eq_some_iff.mp hst0
  have hc0 := startOwn_some s T (hd := hd) hst1
  set c0 : Clock d := ⟨st1, preIntegrate hd (posOf s st1.x), 0⟩ with hc0'
  obtain ⟨k1, k2⟩ := C179_lists_partial s T e inter hn hd x v f c0 hc0 l hl hp
  have hpre := decisions_fst s T e inter l c0
  have hl' : ∀ dt ∈ l.map Prod.fst, 0 ≤ dt ∧ dt ≤ H := by
    intro dt hdt
    obtain ⟨a, ha, rfl⟩ := List.mem_map.mp hdt
    exact hl a ha
  have hsub : ∀ a ∈ decisions s T e inter l c0, 0 ≤ a.1 ∧ a.1 ≤ H := fun a ha => hl' _ (hpre.subset (List.mem_map.mpr ⟨a, ha, rfl⟩))
  have hsum' : ((decisions s T e inter l c0).map Prod.fst).sum ≤ time := by
    obtain ⟨t, ht⟩ := hpre
    rw [← ht, List.sum_append] at hsum
    have : 0 ≤ t.sum := List.sum_nonneg fun b hb => (hl' b (ht ▸ List.mem_append_right _ hb)).1
    linarith
  obtain ⟨hend, st, q1, q2⟩ := key H hH hle _ hsub hsum' k2 (never_off s h e.im _ _ hpre _ hnev)
  obtain ⟨st', q1', q3⟩ := hend
  obtain rfl : st' = st := by rw [q1] at q1'; exact (Option.some.inj q1').symm
  rw [hst1, Option.bind_some] at q1
  have e1 : c0.st = st1 := rfl
  rw [e1, q1] at k1
  obtain ⟨c, hc1, hc2⟩ := Option.map_eq_some_iff.mp k1
  rw [decisions_all s T e inter l c0 c hc1] at q3
  refine ⟨c, by rw [hc0, Option.bind_some]; exact hc1, ?_, ?_⟩
  · rw [hc2]; exact q3
  · rw [hc2]; exact q2

/-! ## Requests of other objects -/

/-- Spec: the decisions of the handler for a sequence of inputs. -/
noncomputable def decided : Handler d → List (Input d) → List Bool
  | _, [] => []
  | h, i :: l => (preForces h i).2 :: decided (preForces h i).1 l

theorem request_step (h : Handler d) (i : Input d) (hd : h.decision = 2) (hp : 1 ≤ i.pos.length) (hn : i.simNeeds = true) (hr : h.required = false) (ht : i.time - h.lastUpdate ≤ h.updateDelay) :
    (preForces h i).2 = true ∧ (preForces h i).1.decision = 2 ∧ (preForces h i).1.required = false ∧ (preForces h i).1.lastUpdate = i.time ∧ (preForces h i).1.updateDelay = h.updateDelay ∧
    (preForces h i).1.delaySteps = h.delaySteps + 1 ∧ (preForces h i).1.steps = 0 := by
  obtain ⟨lu, ud, mud, dec, ds, st, lrs, req, sk, mf, tol, ss, rec'⟩ := h
  simp only at hd hr ht
  subst hd hr
  unfold preForces
  simp only [if_neg (show ¬ i.pos.length < 1 by omega), hn]
  have : ¬ i.time - lu > ud := not_lt.mpr ht
  simp [this, construct]

theorem wait_step (h : Handler d) (i : Input d) (hd : h.decision = 2) (hn : i.simNeeds = false) (hs : h.steps + 1 < h.delaySteps) :
    (preForces h i).2 = false ∧ (preForces h i).1.decision = 2 ∧ (preForces h i).1.delaySteps = h.delaySteps ∧ (preForces h i).1.steps = h.steps + 1 := by
  obtain ⟨lu, ud, mud, dec, ds, st, lrs, req, sk, mf, tol, ss, rec'⟩ := h
  simp only at hd hs
  subst hd
  unfold preForces
  simp only [hn]
  split_ifs <;> simp_all [construct] <;> omega

theorem wait_all (is : List (Input d)) (h : Handler d) (hd : h.decision = 2) (hn : ∀ i ∈ is, i.simNeeds = false) (hs : h.steps + is.length < h.delaySteps) :
    decided h is = List.replicate is.length false := by
  induction is generalizing h with
  | nil => rfl
  | cons i is ih =>
    rw [List.length_cons] at hs
    obtain ⟨a, b, c, e⟩ := wait_step h i hd (hn i (List.mem_cons_self ..)) (by omega)
    simp only [decided, List.length_cons, List.replicate_succ]
    rw [a, ih _ b (fun j hj => hn j (List.mem_cons_of_mem _ hj)) (by omega)]

/-- **C179 is false if other objects ask for constructions.** With decision type 2, the default, whatever the settings: if in each of the first `n` steps some object has asked for a construction (as adding and removing particles does), with time steps of at most 0.0001, then lists are not renewed in the following
`n` steps, however far particles move and however long the steps are. -/
theorem C179_negation_requests (hd : Handler d) (hdec : hd.decision = 2) (pos : List (Pos d)) (n : ℕ) (dt : ℝ) (hdt : dt ≤ 1 / 10000) (first after : List (Input d))
    (h1 : first.length = n) (h2 : ∀ (k : ℕ) (hk : k < first.length), first[k].time = k * dt ∧ first[k].simNeeds = true ∧ 1 ≤ first[k].pos.length)
    (h3 : after.length = n) (h4 : ∀ i ∈ after, i.simNeeds = false) :
    decided (preIntegrate hd pos) (first ++ after) = List.replicate n true ++ List.replicate n false := by
  have key : ∀ (first : List (Input d)) (h : Handler d) (m : ℕ), h.decision = 2 → h.required = false → h.updateDelay = 1 / 10000 → h.steps = 0 → h.delaySteps = m + 1 →
      (∀ (k : ℕ) (hk : k < first.length), first[k].time = (m + k : ℕ) * dt ∧ first[k].simNeeds = true ∧ 1 ≤ first[k].pos.length) → m * dt - h.lastUpdate ≤ 1 / 10000 → after.length ≤ m + first.length →
      decided h (first ++ after) = List.replicate first.length true ++ List.replicate after.length false := by
    intro first
    induction first with
    | nil =>
      intro h m a1 a2 a3 a4 a5 a6 a7 a8
      simp only [List.nil_append, List.length_nil, List.replicate_zero]
      exact wait_all after h a1 h4 (by simp only [List.length_nil] at a8; omega)
    | cons i first ih =>
      intro h m a1 a2 a3 a4 a5 a6 a7 a8
      obtain ⟨b1, b2, b3⟩ := a6 0 (by simp)
      simp only [List.getElem_cons_zero, Nat.add_zero] at b1 b2 b3
      obtain ⟨r1, r2, r3, r4, r5, r6, r7⟩ := request_step h i a1 b3 b2 a2 (by rw [b1, a3]; exact a7)
      simp only [List.cons_append, decided, List.length_cons, List.replicate_succ]
      rw [r1, ih _ (m + 1) r2 r3 (r5.trans a3) r7 (by rw [r6, a5]) ?_ ?_ (by simp only [List.length_cons] at a8; omega)]
      · intro k hk
        have := a6 (k + 1) (by simp only [List.length_cons]; omega)
        simp only [List.getElem_cons_succ] at this
        rw [show m + 1 + k = m + (k + 1) by omega]
        exact this
      · rw [r4, b1]; push_cast; linarith
  rw [key first (preIntegrate hd pos) 0 (by simp [preIntegrate, construct, hdec]) rfl rfl rfl (by simp [preIntegrate, construct, hdec]) (fun k hk => by simpa using h2 k hk)
    (by simp [preIntegrate, construct]) (by omega), h1, h3]

/-! ## Examples -/

/-- The handler with the default settings of the program, but with `setMaxUpdateDelay(0.01)`, and any number of recorded positions. -/
noncomputable def quick : Handler 1 :=
  ⟨0, 1 / 10000, 1 / 100, 2, 15, 0, 0, false, 1 / 20, 12 / 10, 95 / 100, 0, []⟩

/-- The ring of C129 with this handler meets the hypotheses of C179: particles are not faster than 1, and 1/50 time units at that speed are less than half of the skin depth. The first step constructs lists, as `pre_integrate` sets the delay to one step. -/
example : Prompt quick true (1 / 50) (1 / 100) [(1 / 100, false)] ∧ 1 * (1 / 50) ≤ ring.skin / 2 ∧ 0 < ring.number ∧
    Calm ring ringHist (fun _ => 1) 1 ([((1 / 100 : ℝ), false)].map Prod.fst) ringM ∧ ring.OK ringHist (fun i => home ring (parts 1 ringX i)) ∧ Buildable ring ringHist (parts 1 ringX) ∧
    NeverOn ring ringHist (fun _ => 1) ([((1 / 100 : ℝ), false)].map Prod.fst) ringM ∧ ∀ pos i, 1 ≤ i.pos.length → (preForces (preIntegrate quick pos) i).2 = true := by
  have hx := ring_x1
  have hbuild : Buildable ring ringHist (ideal ring ringHist (fun _ => 1) (1/100) ringM).x := by
    apply ring_build
    intro i hi
    simp only [hx]
    rcases TrueMotion.ring_alive i hi with rfl | rfl | rfl
    · exact ⟨-1, by norm_num [parts, ringX]⟩
    · exact ⟨0, by norm_num [parts, ringX]⟩
    · exact ⟨0, by norm_num [parts, ringX]⟩
  refine ⟨Or.inr (Or.inr ⟨rfl, rfl, 1 / 100, by norm_num, by simp, by norm_num [quick]⟩), by norm_num [ring], by norm_num [ring], ⟨?_, hbuild, ?_, trivial⟩, ?_, ?_, ⟨hbuild.1, trivial⟩, ?_⟩
  · intro i hi
    rw [len_one, Pi.sub_apply, hx]
    norm_num [ringM, abs_of_pos]
  · apply ring_separate
    intro i j hi hj hij
    simp only [hx]
    rcases TrueMotion.ring_alive i hi with rfl | rfl | rfl <;> rcases TrueMotion.ring_alive j hj with rfl | rfl | rfl <;>
      first
      | exact absurd rfl hij
      | (refine ⟨0, ?_⟩; norm_num [parts, ringX]; done)
      | (refine ⟨1, ?_⟩; norm_num [parts, ringX]; done)
  · apply ok_at ring_ok
    intro i hi k hk
    exact ⟨(home_range ring ring_ok.valid _ k hk).1, (home_range ring ring_ok.valid _ k hk).2.1⟩
  · apply ring_build
    intro i hi
    rcases TrueMotion.ring_alive i hi with rfl | rfl | rfl
    · exact ⟨-1, by norm_num [parts, ringX]⟩
    · exact ⟨0, by norm_num [parts, ringX]⟩
    · exact ⟨0, by norm_num [parts, ringX]⟩
  · intro pos i hp
    unfold preForces
    simp only [if_neg (show ¬ i.pos.length < 1 by omega)]
    simp [preIntegrate, construct, quick]

/-- For `C179_soft_partial`: decision type 1 with a construction in every step is prompt for all steps that are short, and so is the default type for constant steps when the delay is small enough. -/
example (τ H : ℝ) (hH : H ≤ τ) : Prompt { quick with decision := 1, delaySteps := 1 } true τ H [(H, true), (H, false)] := Or.inr (Or.inl ⟨rfl, by simpa using hH⟩)

example (τ H : ℝ) (hH : 0 < H) (hτ : 1 / 100 + H ≤ τ) : Prompt quick true τ H [(H, false), (H, false)] := by
  refine Or.inr (Or.inr ⟨rfl, rfl, H, hH, by simp, ?_⟩)
  have e : max quick.maxUpdateDelay (1 / 10000) = 1 / 100 := by norm_num [quick]
  rw [e]
  field_simp
  linarith

/-- For `C179_negation_requests`: two steps with requests, then two in which the only particle jumps by 100 widths. -/
example : ∃ first after : List (Input 1), first.length = 2 ∧ (∀ (k : ℕ) (hk : k < first.length), first[k].time = k * (1 / 10000) ∧ first[k].simNeeds = true ∧ 1 ≤ first[k].pos.length) ∧
    after.length = 2 ∧ ∀ i ∈ after, i.simNeeds = false := by
  refine ⟨[⟨0, true, true, [0]⟩, ⟨1 / 10000, true, true, [0]⟩], [⟨10, true, false, [EuclideanSpace.single 0 100]⟩, ⟨20, true, false, [0]⟩], rfl, ?_, rfl, by simp⟩
  intro k hk
  have hk : k = 0 ∨ k = 1 := by simp only [List.length_cons, List.length_nil] at hk; omega
  rcases hk with rfl | rfl <;> simp

end Verif.OwnTimes
