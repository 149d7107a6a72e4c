import Verif.Data.Recording
import Mathlib.Data.Real.Archimedean
import Mathlib.Algebra.BigOperators.Fin
import Mathlib.Algebra.BigOperators.Ring.Finset
import Mathlib.Algebra.Order.Floor.Ring
import Mathlib.Algebra.BigOperators.Group.List.Basic
import Mathlib.Tactic.Linarith
import Mathlib.Tactic.FieldSimp
import Mathlib.Tactic.Ring

/-!
# C162: times and rates of the run summary

Models the run time of `base/datamaster.cpp:36-53,55-66,139-153,167-185` (with the timers of C61) and the figures of
`DataMaster::writeSummary`, `base/datamaster.cpp:342-535,600-605,618-627,640-645,666-671`, on any number of processors. Real
numbers are exact.
-/

namespace Verif.RunFigures

open Verif.Recording

/-! ## The run time -/

/-- `runTimer` and `run_time`, `base/datamaster.hpp:133`. -/
structure DM (α : Type) where
  timer : Timer α
  runTime : α

variable {α : Type} [Field α]

/-- `endTimer`, `base/datamaster.cpp:41-46`. -/
def DM.endTimer (s : DM α) (now : α) : DM α :=
  let t := s.timer.step now .stop
  ⟨t.step now .clear, s.runTime + t.t⟩

/-- What happens to the run time: `pre_integrate` at the start of a run (`base/datamaster.cpp:65`, `startTimer` 36-38),
a checkpoint in a run (`post_step` 133 with `markTimer` 48-53,379), the end of a run (`post_integrate` 152), writing the results
(`writeToDirectory` 172, then `writeSummary` with `markTimer` 379), `resetTimer` (284-286). -/
inductive Act
  | begin
  | checkpoint
  | finish
  | write
  | reset

/-- The effect of these calls at the time `now`. -/
def DM.step (s : DM α) (now : α) : Act → DM α
  | .begin => ⟨s.timer.step now .start, s.runTime⟩
  | .checkpoint => let s := s.endTimer now; ⟨s.timer.step now .start, s.runTime⟩
  | .finish => s.endTimer now
  | .write => let s := (s.endTimer now).endTimer now; ⟨s.timer.step now .start, s.runTime⟩
  | .reset => ⟨s.timer, 0⟩

/-- A new object. -/
def DM.new : DM α := ⟨Timer.new, 0⟩

/-- A history of calls. -/
def DM.run (s : DM α) (h : List (α × Act)) : DM α := h.foldl (fun s e => s.step e.1 e.2) s

/-- The run time that the summary of a `write` (or checkpoint) at `now` reports: `run_time` after `markTimer`. -/
def DM.reported (s : DM α) (now : α) : α := (s.step now .write).runTime

/-! ## The figures -/

/-- What the summary is made of on one processor: the lengths of the interactions, the number of particles, the ten timers. -/
structure Proc where
  lengths : List ℕ
  number : ℕ
  timing : Fin 10 → ℝ

/-- `MPIObject::mpi_sum0` of a number, `parallel/mpi-communication.hpp:99-106` (`MPI_Reduce` to rank 0), on the root. -/
def sum0 {M : Type} [AddMonoid M] (root : M) (others : List M) : M := root + others.sum

/-- `mpi_sum0` of a number on the other processors, `parallel/mpi-communication.hpp:99-106`: the number becomes the initial value of
`sum`, zero. -/
def rest0 {M : Type} [AddMonoid M] (_own : M) : M := 0

/-- The lengths that the root prints, `base/datamaster.cpp:420-427,666-670`: `mpi_sum0` for each interaction. -/
def printedLengths (root : Proc) (others : List Proc) : List ℕ :=
  (List.range root.lengths.length).map fun i => sum0 (root.lengths.getD i 0) (others.map fun p => p.lengths.getD i 0)

/-- The sum of the lengths on another processor after the calls of `mpi_sum0`, `base/datamaster.cpp:420-427`. -/
def restLengths (p : Proc) : ℕ := (p.lengths.map rest0).sum

/-- `operations` of one processor before they are added, `base/datamaster.cpp:430`; `inters` is the sum of the lengths it has after
the calls of `mpi_sum0`. -/
noncomputable def operations (iterations : ℕ) (runTime : ℝ) (inters : ℕ) : ℤ :=
  if 0 < runTime then ⌊(iterations / runTime) * inters⌋ else 0

/-- `operations` as printed by the root, `base/datamaster.cpp:429-431,445`; the other processors come with their run times. -/
noncomputable def printedOperations (iterations : ℕ) (rootTime : ℝ) (root : Proc) (others : List (ℝ × Proc)) : ℤ :=
  sum0 (operations iterations rootTime (printedLengths root (others.map (·.2))).sum)
    (others.map fun p => operations iterations p.1 (restLengths p.2))

/-- Interactions per particle, `base/datamaster.cpp:671`: the number of particles is that of the root. -/
noncomputable def printedPerParticle (root : Proc) (others : List Proc) : ℝ :=
  ((printedLengths root others).sum : ℝ) / root.number / (1 + others.length)

/-- The times that are printed, `base/datamaster.cpp:455-517`: with several processors each is the mean over the processors, if any
of them is not zero. -/
noncomputable def printedTiming (root : Proc) (others : List Proc) (i : Fin 10) : ℝ :=
  if others = [] then root.timing i
  else if ∃ p ∈ root :: others, p.timing i ≠ 0 then sum0 (root.timing i) (others.map (·.timing i)) / (1 + others.length)
  else root.timing i

/-- The entry "Other", `base/datamaster.cpp:479,523`: the run time minus the total of the root. -/
noncomputable def printedOther (runTime : ℝ) (root : Proc) : ℝ := runTime - ∑ i, root.timing i

/-- The main entries of the table, `base/datamaster.cpp:509-523`: integration, domain, forces (with bonds and bodies), data objects,
particle data, modifiers, communication, other. -/
noncomputable def breakdown (runTime : ℝ) (root : Proc) (others : List Proc) : List ℝ :=
  let t := printedTiming root others
  [t 0, t 1, t 2 + t 3 + t 4, t 5, t 6, t 9, t 7 + t 8, printedOther runTime root]

/-- `total_time` and `iter` of the simulation. -/
structure Clockwork where
  total : ℝ
  iter : ℕ

/-- A run of `n` steps that take the time `t` together: `iter` begins at zero (`gflow.cpp:134,251`), `total_time` does not
(`gflow.cpp:254`). -/
def Clockwork.run (c : Clockwork) (r : ℝ × ℕ) : Clockwork := ⟨c.total + r.1, 0 + r.2⟩

/-- The printed average time step, `base/datamaster.cpp:627`, after the given runs since `resetAllTimes` (`gflow.cpp:698-704`). -/
noncomputable def printedAverage (rs : List (ℝ × ℕ)) : ℝ :=
  let c := rs.foldl Clockwork.run ⟨0, 0⟩
  c.total / c.iter

/-! ## Specification -/

/-- Spec: the number of pairs on all processors. -/
def allPairs (ps : List Proc) : ℕ := (ps.map fun p => p.lengths.sum).sum

/-- Spec: a run of the program: its begin, the times of its checkpoints, its end, and whether the results are written afterwards,
and when. -/
structure Run (α : Type) where
  start : α
  checkpoints : List α
  stop : α
  written : Option α

/-- Spec: the calls of a run. -/
def Run.calls (r : Run α) : List (α × Act) :=
  (r.start, .begin) :: r.checkpoints.map (·, .checkpoint) ++ (r.stop, .finish) :: (r.written.map (·, Act.write)).toList

/-- Spec: the total of their lengths. -/
def lengthOf (rs : List (Run α)) : α := (rs.map fun r => r.stop - r.start).sum

/-! ## Proofs: run time -/

theorem run_append (s : DM α) (a b : List (α × Act)) : s.run (a ++ b) = (s.run a).run b := by
  unfold DM.run; rw [List.foldl_append]

/-- In a run the timer stands for the time since the last mark. -/
theorem checkpoints_run (l : List α) (c : α) (s : DM α) (hr : s.timer.running = true) (hs : s.timer.s = c) (ht : s.timer.t = 0) :
    ∃ c', (s.run (l.map (·, .checkpoint))).timer.running = true ∧ (s.run (l.map (·, .checkpoint))).timer.s = c' ∧
      (s.run (l.map (·, .checkpoint))).timer.t = 0 ∧ (s.run (l.map (·, .checkpoint))).runTime = s.runTime + (c' - c) := by
  induction l generalizing c s with
  | nil => exact ⟨c, hr, hs, ht, by simp [DM.run]⟩
  | cons a l ih =>
    obtain ⟨c', h1, h2, h3, h4⟩ := ih a (s.step a .checkpoint) (by simp [DM.step, Timer.step])
      (by simp [DM.step, Timer.step]) (by simp [DM.step, DM.endTimer, Timer.step])
    refine ⟨c', h1, h2, h3, Eq.trans h4 ?_⟩
    have : (s.step a .checkpoint).runTime = s.runTime + (a - c) := by
      simp [DM.step, DM.endTimer, Timer.step, hr, hs, ht]
    rw [this]
    ring

theorem one_run (r : Run α) (s : DM α) (ht : s.timer.t = 0) :
    (s.run r.calls).runTime = s.runTime + (r.stop - r.start) ∧ (s.run r.calls).timer.t = 0 := by
  unfold Run.calls
  have e : s.run ((r.start, .begin) :: r.checkpoints.map (·, .checkpoint) ++ (r.stop, .finish) :: (r.written.map (·, Act.write)).toList) =
      (((s.step r.start .begin).run (r.checkpoints.map (·, .checkpoint))).step r.stop .finish).run (r.written.map (·, Act.write)).toList := by
    rw [List.cons_append]
    change (s.step r.start .begin).run (_ ++ _) = _
    rw [run_append]
    rfl
  rw [e]
  obtain ⟨c', h1, h2, h3, h4⟩ := checkpoints_run r.checkpoints r.start (s.step r.start .begin) (by simp [DM.step, Timer.step])
    (by simp [DM.step, Timer.step]) (by simp [DM.step, Timer.step, ht])
  set u := (s.step r.start .begin).run (r.checkpoints.map (·, .checkpoint)) with hu
  have h5 : (s.step r.start .begin).runTime = s.runTime := rfl
  have f1 : (u.step r.stop .finish).runTime = s.runTime + (r.stop - r.start) := by
    simp only [DM.step, DM.endTimer, Timer.step, h1, if_true, h2, h3, h4, h5]
    ring
  have f2 : (u.step r.stop .finish).timer.t = 0 := by simp [DM.step, DM.endTimer, Timer.step]
  have f3 : (u.step r.stop .finish).timer.running = false := by simp [DM.step, DM.endTimer, Timer.step, h1]
  cases hw : r.written with
  | none => simpa [DM.run] using ⟨f1, f2⟩
  | some w =>
    set z := u.step r.stop .finish with hz
    have e1 : (z.step w .write).runTime = z.runTime := by
      simp [DM.step, DM.endTimer, Timer.step, f3, f2]
    have e2 : (z.step w .write).timer.t = 0 := by
      simp [DM.step, DM.endTimer, Timer.step]
    exact ⟨e1.trans f1, e2⟩

/-- **C162, run time** (partial). For every sequence of runs with any checkpoints, whose results are written at most once after each
run, the run time is the total length of the runs; time between runs does not count.
Missing: results that are written twice (`C162_negation_write_twice`). -/
theorem C162_run_time_partial (rs : List (Run α)) : (DM.new.run (rs.flatMap Run.calls)).runTime = lengthOf rs := by
  have key : ∀ (rs : List (Run α)) (s : DM α), s.timer.t = 0 →
      (s.run (rs.flatMap Run.calls)).runTime = s.runTime + lengthOf rs := by
    intro rs
    induction rs with
    | nil => intro s _; simp [DM.run, lengthOf]
    | cons r rs ih =>
      intro s ht
      obtain ⟨h1, h2⟩ := one_run r s ht
      rw [List.flatMap_cons, run_append, ih _ h2, h1]
      simp only [lengthOf, List.map_cons, List.sum_cons]
      ring
  rw [key rs DM.new rfl]
  simp [DM.new]

/-- **C162, run time in the summary** (partial). The summary that is written at `now` after a run that was not written yet reports
the total length of the runs. Missing: as above. -/
theorem C162_reported_partial (rs : List (Run α)) (r : Run α) (hr : r.written = none) (now : α) :
    (DM.new.run ((rs ++ [r]).flatMap Run.calls)).reported now = lengthOf (rs ++ [r]) := by
  have h := C162_run_time_partial (rs ++ [{ r with written := some now }])
  have e1 : lengthOf (rs ++ [{ r with written := some now }]) = lengthOf (rs ++ [r]) := by simp [lengthOf]
  rw [e1] at h
  rw [← h, List.flatMap_append, List.flatMap_append, run_append, run_append]
  simp only [List.flatMap_cons, List.flatMap_nil, List.append_nil]
  have e2 : (Run.calls { r with written := some now } : List (α × Act)) = r.calls ++ [(now, .write)] := by
    simp [Run.calls, hr]
  rw [e2, run_append]
  rfl

/-- **C162 is false if results are written twice.** The first writing leaves the timer running: the second summary counts all
the time since the first as run time. -/
theorem C162_negation_write_twice (a b c d : α) :
    (DM.new.run [(a, .begin), (b, .finish), (c, .write)]).reported d = (b - a) + (d - c) := by
  simp [DM.reported, DM.run, DM.step, DM.endTimer, Timer.step, DM.new, Timer.new]

/-! ## Proofs: figures -/

theorem lengths_sum (root : Proc) (others : List Proc) (h : ∀ p ∈ others, p.lengths.length = root.lengths.length) :
    (printedLengths root others).sum = allPairs (root :: others) := by
  have key : ∀ (n : ℕ) (l : List ℕ), l.length = n → ((List.range n).map fun i => l.getD i 0).sum = l.sum := by
    intro n
    induction n with
    | zero => intro l hl; rw [List.length_eq_zero_iff.mp hl]; rfl
    | succ n ih =>
      intro l hl
      cases l with
      | nil => simp at hl
      | cons a l =>
        rw [List.range_succ_eq_map, List.map_cons, List.sum_cons, List.map_map, List.sum_cons]
        have := ih l (by simpa using hl)
        simp only [Function.comp_def, List.getD_cons_succ, List.getD_cons_zero]
        rw [this]
  unfold printedLengths allPairs sum0
  rw [List.sum_map_add, key _ _ rfl, List.map_cons, List.sum_cons]
  congr 1
  induction others with
  | nil => simp
  | cons p l ih =>
    simp only [List.map_cons, List.sum_cons]
    rw [List.sum_map_add, ih (fun q hq => h q (by simp [hq])), key _ _ (h p (by simp))]

/-- **C162, lengths of interactions.** On any number of processors, with the same interactions on each, the length printed for an
interaction is the sum over all processors. -/
theorem C162_lengths (root : Proc) (others : List Proc) (i : ℕ) (hi : i < root.lengths.length) :
    (printedLengths root others)[i]? = some (((root :: others).map fun p => p.lengths.getD i 0).sum) := by
  unfold printedLengths sum0
  rw [List.getElem?_map, List.getElem?_range hi]
  simp

/-- **C162, rate of pairs.** On any number of processors, whatever their run times are, the printed number of pairs per second is
the number of pairs of all processors times the steps per second of the root, rounded down. -/
theorem C162_rate (iterations : ℕ) (t : ℝ) (ht : 0 < t) (root : Proc) (others : List (ℝ × Proc))
    (h : ∀ p ∈ others, p.2.lengths.length = root.lengths.length) :
    printedOperations iterations t root others = ⌊(allPairs (root :: others.map (·.2)) * iterations : ℝ) / t⌋ := by
  have hz : ∀ p : Proc, restLengths p = 0 := by
    intro p
    unfold restLengths rest0
    simp
  have ho : (others.map fun p => operations iterations p.1 (restLengths p.2)).sum = 0 := by
    apply List.sum_eq_zero
    intro x hx
    obtain ⟨p, _, rfl⟩ := List.mem_map.mp hx
    simp [operations, hz]
  unfold printedOperations sum0
  rw [ho, add_zero, operations, if_pos ht, lengths_sum root _ (fun p hp => by
    obtain ⟨q, hq, rfl⟩ := List.mem_map.mp hp
    exact h q hq)]
  congr 1
  ring

/-- **C162, interactions per particle** (partial). The figure is right if the root has its share of the particles.
Missing: other distributions (`C162_negation_per_particle`). -/
theorem C162_per_particle_partial (root : Proc) (others : List Proc) (h : ∀ p ∈ others, p.lengths.length = root.lengths.length)
    (total : ℕ) (ht : total = root.number * (1 + others.length)) :
    printedPerParticle root others = (allPairs (root :: others) : ℝ) / total := by
  unfold printedPerParticle
  rw [lengths_sum root others h, ht, div_div]
  push_cast
  ring

/-- **C162 is false of other distributions.** Two processors with 1 and 99 particles and 100 pairs together: 50 interactions per
particle are printed instead of one. -/
theorem C162_negation_per_particle :
    printedPerParticle ⟨[0], 1, fun _ => 0⟩ [⟨[100], 99, fun _ => 0⟩] = 50 ∧
    (allPairs [⟨[0], 1, fun _ => 0⟩, ⟨[100], 99, fun _ => 0⟩] : ℝ) / (1 + 99) = 1 := by
  constructor
  · rw [printedPerParticle, lengths_sum _ _ (by simp)]
    norm_num [allPairs]
  · norm_num [allPairs]

/-- **C162, breakdown of the time.** On any number of processors the main entries of the table add up to the run time plus the
difference of the mean of the measured times and those of the root; so on one processor, or if the root is average, to the run
time exactly. -/
theorem C162_breakdown (runTime : ℝ) (root : Proc) (others : List Proc) :
    (breakdown runTime root others).sum =
      runTime + (((root :: others).map fun p => ∑ i, p.timing i).sum / (1 + others.length) - ∑ i, root.timing i) := by
  have key : ∀ i, printedTiming root others i = ((root :: others).map fun p => p.timing i).sum / (1 + others.length) := by
    intro i
    unfold printedTiming
    by_cases ho : others = []
    · subst ho; simp
    · rw [if_neg ho]
      by_cases hz : ∃ p ∈ root :: others, p.timing i ≠ 0
      · rw [if_pos hz]; simp [sum0]
      · rw [if_neg hz]
        push Not at hz
        have : (root :: others).map (fun p => p.timing i) = List.replicate (root :: others).length 0 :=
          List.eq_replicate_iff.mpr ⟨by simp, fun x hx => by
            obtain ⟨p, hp, rfl⟩ := List.mem_map.mp hx
            exact hz p hp⟩
        rw [this, hz root (by simp)]
        simp
  have hs : ∀ l : List Proc, (l.map fun p => ∑ i, p.timing i).sum = ∑ i, (l.map fun p => p.timing i).sum := by
    intro l
    induction l with
    | nil => simp
    | cons p l ih => simp only [List.map_cons, List.sum_cons, ih, Finset.sum_add_distrib]
  have hd : (∑ i, ((root :: others).map fun p => p.timing i).sum) / (1 + (others.length : ℝ)) = ∑ i, printedTiming root others i := by
    rw [div_eq_mul_inv, Finset.sum_mul]
    exact Finset.sum_congr rfl fun i _ => by rw [key i, div_eq_mul_inv]
  rw [hs, hd]
  simp only [breakdown, printedOther, List.sum_cons, List.sum_nil, Fin.sum_univ_succ, Fin.sum_univ_zero]
  rw [show Fin.succ (0 : Fin 9) = (1 : Fin 10) from rfl]
  generalize printedTiming root others = t
  generalize root.timing = u
  change t 0 + (t 1 + (t 2 + t 3 + t 4 + (t 5 + (t 6 + (t 9 + (t 7 + t 8 +
    (runTime - (u 0 + (u 1 + (u 2 + (u 3 + (u 4 + (u 5 + (u 6 + (u 7 + (u 8 + (u 9 + 0)))))))))) + 0))))))) =
    runTime + (t 0 + (t 1 + (t 2 + (t 3 + (t 4 + (t 5 + (t 6 + (t 7 + (t 8 + (t 9 + 0))))))))) -
      (u 0 + (u 1 + (u 2 + (u 3 + (u 4 + (u 5 + (u 6 + (u 7 + (u 8 + (u 9 + 0)))))))))))
  ring

/-- **C162, average time step** (partial). After a single run the printed average time step is the mean of the time steps.
Missing: several runs (`C162_negation_average`). -/
theorem C162_average_partial (dts : List ℝ) : printedAverage [(dts.sum, dts.length)] = dts.sum / dts.length := by
  simp [printedAverage, Clockwork.run]

/-- **C162 is false after several runs.** The times of all runs are divided by the steps of the last: after `k` equal runs the
average printed is `k` times the time step. -/
theorem C162_negation_average (k : ℕ) (hk : 0 < k) (n : ℕ) (hn : 0 < n) (dt : ℝ) :
    printedAverage (List.replicate k (n * dt, n)) = k * dt := by
  have key : ∀ k : ℕ, 0 < k → (List.replicate k ((n : ℝ) * dt, n)).foldl Clockwork.run ⟨0, 0⟩ = ⟨k * (n * dt), n⟩ := by
    intro k hk
    induction k with
    | zero => omega
    | succ k ih =>
      rcases Nat.eq_zero_or_pos k with rfl | h
      · simp [Clockwork.run]
      · rw [List.replicate_succ', List.foldl_append, ih h]
        simp only [List.foldl_cons, List.foldl_nil, Clockwork.run, zero_add]
        congr 1
        push_cast
        ring
  have hn' : (n : ℝ) ≠ 0 := Nat.cast_ne_zero.mpr hn.ne'
  unfold printedAverage
  rw [key k hk]
  field_simp

/-- Two processors with two interactions each meet the hypotheses of `C162_rate`, and the second two those of
`C162_per_particle_partial`. -/
example : printedLengths ⟨[3, 4], 5, fun _ => 0⟩ [⟨[1, 2], 5, fun _ => 0⟩] = [4, 6] ∧ 10 = 5 * (1 + 1) := by decide

/-- Two runs, the first with two checkpoints and a summary. -/
example : (DM.new.run (([⟨0, [1, 2], 5, some 7⟩, ⟨10, [], 13, none⟩] : List (Run ℚ)).flatMap Run.calls)).runTime = 8 := by
  decide +kernel

end Verif.RunFigures
