import Mathlib.Algebra.Order.Field.Basic
import Mathlib.Algebra.Order.Field.Rat
import Mathlib.Algebra.BigOperators.Group.List.Basic
import Mathlib.Tactic.Linarith
import Mathlib.Tactic.Ring
import Mathlib.Tactic.NormNum
import Mathlib.Tactic.FieldSimp

/-!
# When data is recorded (C56) and timers (C61)

Models `base/dataobject.cpp`, the gate in `base/datamaster.cpp`, `utility/timer.cpp`, `other/timedobject.cpp`. Times are elements of an ordered
field (real numbers; rational numbers in the examples).
-/

namespace Verif.Recording

variable {α : Type} [Field α] [LinearOrder α] [IsStrictOrderedRing α]

/-- `DataObject`, `base/dataobject.hpp`: the members used for the cadence. -/
structure DO (α : Type) where
  delay : α
  last : α
  duringSetup : Bool

/-- `DataObject::pre_integrate`, `base/dataobject.cpp:13-15`. -/
def preIntegrate (d : DO α) : DO α := ⟨d.delay, -10, d.duringSetup⟩

/-- `DataObject::setFPS`, `base/dataobject.cpp:29-31`, for a rate that is not zero. -/
def setFPS (d : DO α) (fps : α) : DO α := ⟨1 / fps, d.last, d.duringSetup⟩

/-- `DataObject::_check`, `base/dataobject.cpp:68-77`; `sim`: the run mode is `SIM`. -/
def check (d : DO α) (sim : Bool) (time : α) : Bool × DO α :=
  if !d.duringSetup && !sim then (false, d)
  else if time - d.last < d.delay then (false, d)
  else (true, ⟨d.delay, time, d.duringSetup⟩)

/-- One step of the data master, `base/datamaster.cpp:103-124`: the objects are only called when the elapsed time has reached
`startRecTime`; a data object calls `_check` once in a step. -/
def masterStep (start : α) (sim : Bool) (d : DO α) (time : α) : Bool × DO α :=
  if start ≤ time then check d sim time else (false, d)

/-- The steps of one run: the times at which data was recorded, and the object after it. -/
def record (start : α) (sim : Bool) (d : DO α) : List α → List α × DO α
  | [] => ([], d)
  | t :: ts =>
    let r := masterStep start sim d t
    let q := record start sim r.2 ts
    (if r.1 then t :: q.1 else q.1, q.2)

/-- The recorded times of a run, which begins with `pre_integrate`. -/
def recorded (start : α) (sim : Bool) (d : DO α) (ts : List α) : List α := (record start sim (preIntegrate d) ts).1

theorem record_cons (start : α) (sim : Bool) (d : DO α) (t : α) (ts : List α) :
    record start sim d (t :: ts) =
      (if (masterStep start sim d t).1 then t :: (record start sim (masterStep start sim d t).2 ts).1
        else (record start sim (masterStep start sim d t).2 ts).1, (record start sim (masterStep start sim d t).2 ts).2) := rfl

theorem masterStep_true (start : α) (sim : Bool) (d : DO α) (t : α) (h : (masterStep start sim d t).1 = true) :
    start ≤ t ∧ d.delay ≤ t - d.last ∧ (masterStep start sim d t).2 = ⟨d.delay, t, d.duringSetup⟩ := by
  unfold masterStep check at *
  by_cases h1 : start ≤ t
  · by_cases h2 : (!d.duringSetup && !sim) = true
    · simp [h1, h2] at h
    · by_cases h3 : t - d.last < d.delay
      · simp [h1, h2, h3] at h
      · rw [if_pos h1, if_neg h2, if_neg h3]
        exact ⟨h1, not_lt.mp h3, rfl⟩
  · simp [h1] at h

theorem masterStep_false (start : α) (sim : Bool) (d : DO α) (t : α) (h : (masterStep start sim d t).1 = false) :
    (masterStep start sim d t).2 = d ∧ (start ≤ t → (sim = true ∨ d.duringSetup = true) → t - d.last < d.delay) := by
  unfold masterStep check at *
  by_cases h1 : start ≤ t
  · by_cases h2 : (!d.duringSetup && !sim) = true
    · rw [if_pos h1, if_pos h2]
      refine ⟨rfl, fun _ h => ?_⟩
      simp at h2
      rcases h with h | h
      · rw [h2.2] at h; cases h
      · rw [h2.1] at h; cases h
    · by_cases h3 : t - d.last < d.delay
      · rw [if_pos h1, if_neg h2, if_pos h3]
        exact ⟨rfl, fun _ _ => h3⟩
      · simp [h1, h2, h3] at h
  · rw [if_neg h1]
    exact ⟨rfl, fun h => absurd h h1⟩

/-- The lengths of the gaps, with the last recording before the steps. -/
theorem record_chain (start : α) (sim : Bool) (ts : List α) (d : DO α) :
    List.IsChain (fun a b => d.delay ≤ b - a) (d.last :: (record start sim d ts).1) ∧
    (record start sim d ts).2.delay = d.delay ∧ (∀ t ∈ (record start sim d ts).1, t ∈ ts ∧ start ≤ t) := by
  induction ts generalizing d with
  | nil => simp [record]
  | cons t ts ih =>
    rw [record_cons]
    cases hb : (masterStep start sim d t).1 with
    | true =>
      obtain ⟨h1, h2, h3⟩ := masterStep_true start sim d t hb
      obtain ⟨i1, i2, i3⟩ := ih (masterStep start sim d t).2
      rw [h3] at i1 i2 i3
      rw [h3]
      simp only [if_true]
      refine ⟨List.IsChain.cons_cons h2 i1, i2, ?_⟩
      intro u hu
      rcases List.mem_cons.mp hu with rfl | hu
      · exact ⟨by simp, h1⟩
      · exact ⟨by simp [(i3 u hu).1], (i3 u hu).2⟩
    | false =>
      obtain ⟨h1, h2⟩ := masterStep_false start sim d t hb
      obtain ⟨i1, i2, i3⟩ := ih d
      rw [h1]
      simp only [Bool.false_eq_true, if_false]
      exact ⟨i1, i2, fun u hu => ⟨by simp [(i3 u hu).1], (i3 u hu).2⟩⟩

theorem chain_pairwise (δ : α) (h : 0 ≤ δ) (l : List α) (hl : List.IsChain (fun a b => δ ≤ b - a) l) :
    l.Pairwise fun a b => δ ≤ b - a := by
  induction l with
  | nil => exact .nil
  | cons a l ih =>
    cases l with
    | nil => simp
    | cons b l =>
      rw [List.isChain_cons_cons] at hl
      have := ih hl.2
      refine List.Pairwise.cons ?_ this
      intro c hc
      rcases List.mem_cons.mp hc with rfl | hc
      · exact hl.1
      · have := (List.pairwise_cons.mp this).1 c hc
        linarith [hl.1]

/-! ## C56 -/

/-- C56: nothing is recorded before the start time, and only at times of steps. -/
theorem C56_after_start (start : α) (sim : Bool) (d : DO α) (ts : List α) (t : α) (h : t ∈ recorded start sim d ts) :
    t ∈ ts ∧ start ≤ t :=
  (record_chain start sim ts (preIntegrate d)).2.2 t h

/-- C56: any two recordings of a run are at least the delay apart. -/
theorem C56_spacing (start : α) (sim : Bool) (d : DO α) (hd : 0 ≤ d.delay) (ts : List α) :
    (recorded start sim d ts).Pairwise fun a b => d.delay ≤ b - a :=
  (List.pairwise_cons.mp (chain_pairwise d.delay hd _ (record_chain start sim ts (preIntegrate d)).1)).2

/-- C56: in an interval of time there are at most (length / delay + 1) recordings: at most one in each interval that is
shorter than the delay. -/
theorem C56_rate (start : α) (sim : Bool) (d : DO α) (hd : 0 < d.delay) (ts : List α) (a b : α) (hab : a ≤ b) :
    ((((recorded start sim d ts).filter fun t => a ≤ t ∧ t ≤ b).length : ℕ) : α) ≤ (b - a) / d.delay + 1 := by
  have hp := (C56_spacing start sim d (le_of_lt hd) ts).filter (fun t => decide (a ≤ t ∧ t ≤ b))
  have hm : ∀ t ∈ (recorded start sim d ts).filter (fun t => decide (a ≤ t ∧ t ≤ b)), a ≤ t ∧ t ≤ b := by
    intro t ht
    simpa using (List.mem_filter.mp ht).2
  generalize (recorded start sim d ts).filter (fun t => decide (a ≤ t ∧ t ≤ b)) = l at hp hm
  have key : ∀ (l : List α) (a : α), a ≤ b → l.Pairwise (fun a b => d.delay ≤ b - a) → (∀ t ∈ l, a ≤ t ∧ t ≤ b) →
      (l.length : α) * d.delay ≤ b - a + d.delay := by
    intro l
    induction l with
    | nil => intro a hab _ _; simp; linarith
    | cons t l ih =>
      intro a hab hp hm
      rw [List.pairwise_cons] at hp
      have ht := hm t (by simp)
      cases l with
      | nil => simp; linarith [ht.1, ht.2]
      | cons u l =>
        have hu := hm u (by simp)
        have h1 := hp.1 u (by simp)
        have := ih (t + d.delay) (by linarith [hu.2]) hp.2 (fun v hv => ⟨by linarith [hp.1 v hv], (hm v (by simp [hv])).2⟩)
        rw [List.length_cons, Nat.cast_succ, add_mul, one_mul]
        linarith [ht.1]
  rw [div_add_one (ne_of_gt hd), le_div_iff₀ hd]
  exact key l a hab hp hm

/-- From any state: each step that is eligible is recorded, or follows a recording by less than the delay. -/
theorem record_covers (start : α) (sim : Bool) (ts : List α) (d : DO α) (hd : 0 < d.delay) (hs : ts.Pairwise (· ≤ ·))
    (hm : sim = true ∨ d.duringSetup = true) (t : α) (ht : t ∈ ts) (h0 : start ≤ t) :
    t - d.last < d.delay ∨ ∃ r ∈ (record start sim d ts).1, r ≤ t ∧ t - r < d.delay := by
  induction ts generalizing d with
  | nil => cases ht
  | cons u ts ih =>
    rw [List.pairwise_cons] at hs
    rw [record_cons]
    cases hb : (masterStep start sim d u).1 with
    | true =>
      obtain ⟨h1, h2, h3⟩ := masterStep_true start sim d u hb
      right
      simp only [if_true]
      rcases List.mem_cons.mp ht with rfl | ht
      · exact ⟨t, by simp, le_refl _, by rw [sub_self]; exact hd⟩
      · rw [h3]
        rcases ih ⟨d.delay, u, d.duringSetup⟩ hd hs.2 hm ht with h | ⟨r, hr, h⟩
        · exact ⟨u, by simp, hs.1 t ht, h⟩
        · exact ⟨r, by simp [hr], h⟩
    | false =>
      obtain ⟨h1, h2⟩ := masterStep_false start sim d u hb
      rw [h1]
      simp only [Bool.false_eq_true, if_false]
      rcases List.mem_cons.mp ht with rfl | ht
      · exact Or.inl (h2 h0 hm)
      · exact ih d hd hs.2 hm ht

/-- C56 (partial): no recording is missed: each step of the simulation after the start time is recorded, or follows a recording by less than
the delay. Missing: steps before the time (delay - 10), for which it is false, see `C56_negation_slow`. -/
theorem C56_no_gap_partial (start : α) (d : DO α) (hd : 0 < d.delay) (ts : List α) (hs : ts.Pairwise (· ≤ ·))
    (t : α) (ht : t ∈ ts) (h0 : start ≤ t) (h1 : d.delay ≤ t + 10) :
    ∃ r ∈ recorded start true d ts, r ≤ t ∧ t - r < d.delay := by
  rcases record_covers start true ts (preIntegrate d) hd hs (Or.inl rfl) t ht h0 with h | h
  · simp only [preIntegrate] at h
    linarith
  · exact h

/-- C56 (partial): the first step after `pre_integrate` at or after the start time is recorded. Missing: as above, delays which are longer than
the time of that step plus 10. -/
theorem C56_first_partial (start : α) (d : DO α) (before after : List α) (t : α) (hb : ∀ u ∈ before, u < start)
    (h0 : start ≤ t) (h1 : d.delay ≤ t + 10) :
    ∃ rest, recorded start true d (before ++ t :: after) = t :: rest := by
  unfold recorded
  induction before with
  | nil =>
    rw [List.nil_append, record_cons]
    have : (masterStep start true (preIntegrate d) t).1 = true := by
      unfold masterStep check preIntegrate
      simp only [if_pos h0, Bool.not_true, Bool.and_false, Bool.false_eq_true, if_false]
      rw [if_neg (by linarith)]
    rw [if_pos this]
    exact ⟨_, rfl⟩
  | cons u before ih =>
    have hu : masterStep start true (preIntegrate d) u = (false, preIntegrate d) := by
      unfold masterStep
      rw [if_neg (not_le.mpr (hb u (by simp)))]
    rw [List.cons_append, record_cons, hu]
    simpa using ih (fun v hv => hb v (by simp [hv]))

/-- C56 is false of long delays: while the time is smaller than the delay minus 10 nothing is recorded, so a run of this length
records nothing. -/
theorem C56_negation_slow (start : α) (sim : Bool) (d : DO α) (ts : List α) (h : ∀ t ∈ ts, t + 10 < d.delay) :
    recorded start sim d ts = [] := by
  unfold recorded
  induction ts with
  | nil => rfl
  | cons t ts ih =>
    rw [record_cons]
    have h1 := h t (by simp)
    cases hb : (masterStep start sim (preIntegrate d) t).1 with
    | true =>
      have := (masterStep_true _ _ _ _ hb).2.1
      simp only [preIntegrate] at this
      linarith
    | false =>
      rw [(masterStep_false _ _ _ _ hb).1]
      simpa using ih fun u hu => h u (by simp [hu])

/-- C56: outside of the simulation mode only objects which ask for it record. -/
theorem C56_setup (start : α) (d : DO α) (h : d.duringSetup = false) (ts : List α) : recorded start false d ts = [] := by
  unfold recorded
  induction ts with
  | nil => rfl
  | cons t ts ih =>
    have : masterStep start false (preIntegrate d) t = (false, preIntegrate d) := by
      unfold masterStep check preIntegrate
      split <;> simp [h]
    rw [record_cons, this]
    simpa using ih

/-- C56 holds for one run only: `pre_integrate` forgets the last recording, so the first step of the next run is recorded
even if the last step of the run before was (the time goes on between runs). -/
theorem C56_negation_two_runs : ∃ (d : DO ℚ) (ts us : List ℚ), 0 < d.delay ∧
    (recorded 0 true d ts ++ recorded 0 true (record 0 true (preIntegrate d) ts).2 us) = [0, 1, 1 + 1 / 10] ∧ d.delay = 1 ∧
    ts = [0, 1] ∧ us = [1 + 1 / 10] :=
  ⟨⟨1, 0, false⟩, [0, 1], [1 + 1 / 10], by decide +kernel, by decide +kernel, rfl, rfl, rfl⟩

/-- C56: `setFPS` sets the delay to the inverse of the rate. -/
theorem C56_rate_setting (d : DO α) (fps : α) (h : 0 < fps) : 0 < (setFPS d fps).delay ∧ (setFPS d fps).delay * fps = 1 := by
  unfold setFPS
  exact ⟨by positivity, by field_simp⟩

example : recorded (1 : ℚ) true ⟨2, 0, false⟩ [0, 1 / 2, 1, 2, 3, 4, 5, 6] = [1, 3, 5] := by decide +kernel
example : recorded (0 : ℚ) true (setFPS ⟨1, 0, false⟩ (1 / 20)) [0, 1, 2, 3] = [] := by decide +kernel

/-! ## C61: timers -/

/-- `Timer`, `utility/timer.hpp:40-49`. -/
structure Timer (α : Type) where
  s : α
  t : α
  last : α
  running : Bool

/-- A new timer. (`_s` is the epoch of the clock.) -/
def Timer.new : Timer α := ⟨0, 0, 0, false⟩

/-- The calls of a timer. -/
inductive Ev where
  | start
  | stop
  | clear

/-- `Timer::start`, `stop`, `clear`, `utility/timer.cpp:5-21`, at the time `now` of the clock. -/
def Timer.step (x : Timer α) (now : α) : Ev → Timer α
  | .start => ⟨now, x.t, x.last, true⟩
  | .stop => if x.running then ⟨x.s, x.t + (now - x.s), now - x.s, false⟩ else x
  | .clear => ⟨x.s, 0, x.last, x.running⟩

/-- `Timer::current`, `utility/timer.cpp:31-37`. -/
def Timer.current (x : Timer α) (now : α) : α := if x.running then x.t + (now - x.s) else x.t

/-- A history of calls with their times. -/
def Timer.run (x : Timer α) (h : List (α × Ev)) : Timer α := h.foldl (fun x e => x.step e.1 e.2) x

/-- Specification: the completed intervals of a history: each `stop` closes the interval that was opened by the last `start`, if
one is open. The first argument is the beginning of the open interval. -/
def intervals : Option α → List (α × Ev) → List (α × α)
  | _, [] => []
  | _, (now, .start) :: h => intervals (some now) h
  | some s, (now, .stop) :: h => (s, now) :: intervals none h
  | none, (_, .stop) :: h => intervals none h
  | o, (_, .clear) :: h => intervals o h

/-- Specification: the total length. -/
def total (l : List (α × α)) : α := (l.map fun i => i.2 - i.1).sum

/-- The open interval of a timer. -/
def Timer.opened (x : Timer α) : Option α := if x.running then some x.s else none

theorem run_cons (x : Timer α) (e : α × Ev) (h : List (α × Ev)) : x.run (e :: h) = (x.step e.1 e.2).run h := rfl

/-- Without `clear` the recorded time of any timer grows by the completed intervals. -/
theorem run_time (h : List (α × Ev)) (x : Timer α) (hc : ∀ e ∈ h, e.2 ≠ .clear) : (x.run h).t = x.t + total (intervals x.opened h) := by
  induction h generalizing x with
  | nil => simp [Timer.run, intervals, total]
  | cons e h ih =>
    obtain ⟨now, e⟩ := e
    have hc' : ∀ e ∈ h, e.2 ≠ .clear := fun e he => hc e (by simp [he])
    rw [run_cons, ih _ hc']
    cases e with
    | start => simp [Timer.step, Timer.opened, intervals]
    | stop =>
      cases hr : x.running with
      | true =>
        simp only [Timer.step, hr, if_true, Timer.opened, Bool.false_eq_true, if_false, intervals, total, List.map_cons, List.sum_cons]
        ring
      | false => simp [Timer.step, hr, Timer.opened, intervals]
    | clear => exact absurd rfl (hc (now, .clear) (by simp))

/-- C61: for every history of calls without `clear`, the time is the sum of the lengths of the completed intervals. -/
theorem C61_time (h : List (α × Ev)) (hc : ∀ e ∈ h, e.2 ≠ .clear) :
    (Timer.new.run h).t = total (intervals none h) := by
  rw [run_time h _ hc]
  simp [Timer.new, Timer.opened]

/-- A sequence of calls `start, stop, start, stop, …` -/
def pairs (l : List (α × α)) : List (α × Ev) := l.flatMap fun i => [(i.1, .start), (i.2, .stop)]

/-- C61: for alternating calls the intervals are those between a `start` and the next `stop`. -/
theorem C61_pairs (l : List (α × α)) : (Timer.new.run (pairs l)).t = total l := by
  have key : ∀ l : List (α × α), intervals none (pairs l) = l := by
    intro l
    induction l with
    | nil => rfl
    | cons i l ih =>
      change (i.1, i.2) :: intervals none (pairs l) = i :: l
      rw [ih]
  rw [C61_time _ (by
    intro e he
    obtain ⟨i, _, hi⟩ := List.mem_flatMap.mp he
    simp at hi
    rcases hi with rfl | rfl <;> simp), key]

/-- C61: repeated `stop` calls count nothing more. -/
theorem C61_stop_twice (x : Timer α) (a b : α) : (x.step a .stop).step b .stop = x.step a .stop := by
  unfold Timer.step
  by_cases h : x.running = true <;> simp [h]

/-- C61: a repeated `start` begins anew: no time is counted twice. -/
theorem C61_start_twice (x : Timer α) (a b : α) : (x.step a .start).step b .start = x.step b .start := rfl

/-- The times of a history do not decrease. -/
def Clock (h : List (α × Ev)) : Prop := (h.map (·.1)).Pairwise (· ≤ ·)

/-- C61: no double counting: if the clock does not go back, the time is never negative and never more than the time since the first
call, for every history, also with `clear`. -/
theorem C61_no_double_counting (h : List (α × Ev)) (e : α × Ev) (hc : Clock (e :: h)) (now : α)
    (hn : ∀ f ∈ e :: h, f.1 ≤ now) :
    0 ≤ (Timer.new.run (e :: h)).t ∧ (Timer.new.run (e :: h)).current now ≤ now - e.1 := by
  have key : ∀ (h : List (α × Ev)) (x : Timer α) (t0 c : α), Clock h → (∀ f ∈ h, c ≤ f.1) → 0 ≤ x.t → x.t ≤ c - t0 → t0 ≤ c →
      (x.running = true → x.s ≤ c ∧ x.t + (c - x.s) ≤ c - t0) → (∀ f ∈ h, f.1 ≤ now) → c ≤ now →
      0 ≤ (x.run h).t ∧ (x.run h).current now ≤ now - t0 := by
    intro h
    induction h with
    | nil =>
      intro x t0 c _ _ h1 h2 h3 h4 _ h6
      refine ⟨h1, ?_⟩
      change x.current now ≤ now - t0
      unfold Timer.current
      split
      · rename_i hr; have := h4 hr; linarith
      · linarith
    | cons e h ih =>
      intro x t0 c hc hcf h1 h2 h3 h4 h5 h6
      have hc2 := List.pairwise_cons.mp (show ((e :: h).map (·.1)).Pairwise (· ≤ ·) from hc)
      have he := hcf e (by simp)
      rw [run_cons]
      refine ih _ t0 e.1 hc2.2 (fun f hf => hc2.1 f.1 (List.mem_map.mpr ⟨f, hf, rfl⟩)) ?_ ?_ (le_trans h3 he) ?_
        (fun f hf => h5 f (by simp [hf])) (h5 e (by simp))
      · obtain ⟨now', ev⟩ := e
        cases ev with
        | start => exact h1
        | stop =>
          by_cases hr : x.running = true
          · have := h4 hr
            simp only [Timer.step, hr, if_true] at he ⊢
            linarith
          · simp only [Timer.step, hr, Bool.false_eq_true, if_false]; exact h1
        | clear => exact le_refl _
      · obtain ⟨now', ev⟩ := e
        cases ev with
        | start => simp only [Timer.step] at he ⊢; linarith
        | stop =>
          by_cases hr : x.running = true
          · have := h4 hr
            simp only [Timer.step, hr, if_true] at he ⊢
            linarith
          · have he' : c ≤ now' := he
            simp only [Timer.step, hr, Bool.false_eq_true, if_false]
            linarith
        | clear => simp only [Timer.step] at he ⊢; linarith
      · obtain ⟨now', ev⟩ := e
        cases ev with
        | start => intro _; simp only [Timer.step] at he ⊢; exact ⟨le_refl _, by linarith⟩
        | stop =>
          by_cases hr : x.running = true
          · intro h; simp [Timer.step, hr] at h
          · intro h; simp [Timer.step, hr] at h
        | clear =>
          intro hr
          have := h4 hr
          simp only [Timer.step] at he ⊢
          exact ⟨by linarith, by linarith⟩
  have he : e.1 ≤ now := hn e (by simp)
  have hc2 := List.pairwise_cons.mp (show ((e :: h).map (·.1)).Pairwise (· ≤ ·) from hc)
  rw [run_cons]
  refine key h _ e.1 e.1 hc2.2 (fun f hf => hc2.1 f.1 (List.mem_map.mpr ⟨f, hf, rfl⟩)) ?_ ?_ (le_refl _) ?_ (fun f hf => hn f (by simp [hf])) he
  · cases e.2 <;> simp [Timer.step, Timer.new]
  · cases e.2 <;> simp [Timer.step, Timer.new]
  · cases e.2 <;> simp [Timer.step, Timer.new]

/-- C61: `clear` in the middle of an interval does not begin it anew: the time before the `clear` is counted too. -/
theorem C61_clear_while_running (x : Timer α) (a b c : α) :
    (((x.step a .start).step b .clear).step c .stop).t = c - a := by
  simp [Timer.step]

/-- C61: `clear` of a timer that does not run sets it to zero, and what follows is counted from there. -/
theorem C61_clear (x : Timer α) (hr : x.running = false) (c : α) (h : List (α × Ev)) (hc : ∀ e ∈ h, e.2 ≠ .clear) :
    ((x.step c .clear).run h).t = total (intervals none h) := by
  rw [run_time h _ hc]
  simp [Timer.step, Timer.opened, hr]

/-- C61: `current` is the time plus the part of the interval that is open. -/
theorem C61_current (h : List (α × Ev)) (hc : ∀ e ∈ h, e.2 ≠ .clear) (now : α) :
    (Timer.new.run h).current now = ((Timer.new.run h).step now .stop).t := by
  unfold Timer.current Timer.step
  by_cases h : (Timer.new.run h).running = true <;> simp [h]

example : (Timer.new.run [((1 : ℚ), .start), (2, .start), (5, .stop), (6, .stop), (7, .start), (8, .stop)]).t = 4 := by decide +kernel
example : Clock [((1 : ℚ), .start), (2, .start), (5, .stop)] := by unfold Clock; decide +kernel

/-! ## The run time of the data master -/

/-- `DataMaster`: run timer and `run_time`. -/
structure DM (α : Type) where
  timer : Timer α
  runTime : α

/-- `DataMaster::startTimer`, `base/datamaster.cpp:37-39`. -/
def DM.start (m : DM α) (now : α) : DM α := ⟨m.timer.step now .start, m.runTime⟩

/-- `DataMaster::endTimer`, `base/datamaster.cpp:42-46`. -/
def DM.stop (m : DM α) (now : α) : DM α :=
  let t := m.timer.step now .stop
  ⟨t.step now .clear, m.runTime + t.t⟩

/-- `DataMaster::markTimer`, `base/datamaster.cpp:48-53`; both reads of the clock are taken to give the same time. -/
def DM.mark (m : DM α) (now : α) : DM α := (m.stop now).start now

/-- C61: the run time is the sum over all runs of the time from `startTimer` to `endTimer`, however often `markTimer` was called
between them, and a second call of `endTimer` changes nothing. -/
theorem C61_run_time (m : DM α) (h0 : m.timer.t = 0) (a b c : α) (marks : List α) :
    ((marks.foldl DM.mark (m.start a)).stop b).runTime = m.runTime + (b - a) ∧
    ((marks.foldl DM.mark (m.start a)).stop b).timer.t = 0 ∧
    (((marks.foldl DM.mark (m.start a)).stop b).stop c).runTime = m.runTime + (b - a) := by
  have key : ∀ (marks : List α) (m : DM α), m.timer.t = 0 → m.timer.running = true →
      (marks.foldl DM.mark m).timer.t = 0 ∧ (marks.foldl DM.mark m).timer.running = true ∧
      (marks.foldl DM.mark m).runTime - (marks.foldl DM.mark m).timer.s = m.runTime - m.timer.s := by
    intro marks
    induction marks with
    | nil => intro m h1 h2; exact ⟨h1, h2, rfl⟩
    | cons t marks ih =>
      intro m h1 h2
      rw [List.foldl_cons]
      obtain ⟨i1, i2, i3⟩ := ih (m.mark t) (by simp [DM.mark, DM.stop, DM.start, Timer.step]) (by
        simp [DM.mark, DM.start, Timer.step])
      refine ⟨i1, i2, ?_⟩
      rw [i3]
      simp [DM.mark, DM.stop, DM.start, Timer.step, h1, h2]
      ring
  obtain ⟨k1, k2, k3⟩ := key marks (m.start a) (by simpa [DM.start, Timer.step] using h0) (by simp [DM.start, Timer.step])
  generalize marks.foldl DM.mark (m.start a) = n at k1 k2 k3
  have k4 : n.runTime - n.timer.s = m.runTime - a := k3
  refine ⟨?_, ?_, ?_⟩
  · simp only [DM.stop, Timer.step, k2, if_true, k1]
    linarith
  · simp [DM.stop, Timer.step]
  · simp only [DM.stop, Timer.step, k2, if_true, k1, Bool.false_eq_true, if_false]
    linarith

example : ((DM.start ⟨Timer.new, (3 : ℚ)⟩ 10).mark 12 |>.stop 15).runTime = 8 := by decide +kernel

/-! ## Checkpoints -/

/-- The part of `DataMaster::post_step` for checkpoints, `base/datamaster.cpp:126-136`: the times of the checkpoints. -/
def checkpoints (delay last : α) : List α → List α
  | [] => []
  | t :: ts => if delay ≤ t - last then t :: checkpoints delay t ts else checkpoints delay last ts

/-- Checkpoints are at least the delay apart (and the first is at least the delay after the beginning). -/
theorem C56_checkpoints (delay last : α) (ts : List α) : List.IsChain (fun a b => delay ≤ b - a) (last :: checkpoints delay last ts) := by
  induction ts generalizing last with
  | nil => simp [checkpoints]
  | cons t ts ih =>
    rw [checkpoints]
    split
    · rename_i h; exact List.IsChain.cons_cons h (ih t)
    · exact ih last

example : checkpoints (2 : ℚ) 0 [1, 2, 3, 4, 5] = [2, 4] := by decide +kernel

end Verif.Recording
