import Verif.SimData.Model
import Mathlib.Data.Real.Basic
import Mathlib.Data.List.Nodup
import Mathlib.Algebra.Order.Floor.Ring
import Mathlib.Data.Real.Archimedean
import Mathlib.Tactic.Linarith
import Mathlib.Tactic.Ring
import Mathlib.Tactic.NormNum
import Mathlib.Tactic.FieldSimp

/-!
# The inflow of the stream tunnel (C85) and modifiers that act at intervals (C86)

Models the creation of particles in `modifiers/stream-tunnel.cpp` (`pre_integrate`, `pre_forces`, `recursive_fill`) and the
clocks of `modifiers/temperaturemodifier.cpp` and `modifiers/stripe-x.cpp`. Exact real arithmetic; the random perturbation of
the positions and the random radii are left out: the positions are those of the grid that is perturbed.
-/

namespace Verif.Stream

/-- The loop `for (; min<pos; pos -= spacing)` of `recursive_fill`, `modifiers/stream-tunnel.cpp:139`: started at `p`, it visits the positions `l` and
ends at `q`. -/
inductive Sweep (lo s : ℝ) : ℝ → List ℝ → ℝ → Prop
  | stop {p} : ¬ lo < p → Sweep lo s p [] p
  | go {p l q} : lo < p → Sweep lo s (p - s) l q → Sweep lo s p (p :: l) q

/-- The part of `StreamTunnel` that changes: `next_x_coord` and `last_creation_time`. -/
structure Inflow where
  next : ℝ
  last : ℝ

/-- `StreamTunnel::pre_integrate`, `modifiers/stream-tunnel.cpp:28-31`. -/
noncomputable def Inflow.start (lo s : ℝ) : Inflow := ⟨lo - 1/2 * s, 0⟩

/-- `StreamTunnel::pre_forces`, `modifiers/stream-tunnel.cpp:33-59`, on a processor at the left end of the box, in a simulation run with a topology, at elapsed
time `t`: `xs` are the first coordinates of the columns it creates. `lo` is the left end, `gap` is `entry_fraction * entry_width`. -/
inductive Inflow.Fire (lo s V gap : ℝ) (t : ℝ) (I : Inflow) : List ℝ → Inflow → Prop
  | no : ¬ lo + gap < I.next + V * (t - I.last) → Fire lo s V gap t I [] I
  | yes {l q} : lo + gap < I.next + V * (t - I.last) → Sweep lo s (I.next + V * (t - I.last)) l q → Fire lo s V gap t I l ⟨q, t⟩

/-- A run: at each of the times `pre_forces` is called; the columns created, with the time of creation. -/
inductive Run (lo s V gap : ℝ) : Inflow → List ℝ → List (ℝ × ℝ) → Inflow → Prop
  | nil {I} : Run lo s V gap I [] [] I
  | cons {I J K t ts xs cs} : Inflow.Fire lo s V gap t I xs J → Run lo s V gap J ts cs K →
      Run lo s V gap I (t :: ts) (xs.map (fun x => (t, x)) ++ cs) K

theorem sweep_exists (lo s : ℝ) (hs : 0 < s) (p : ℝ) : ∃ l q, Sweep lo s p l q := by
  have key : ∀ (n : ℕ) (p : ℝ), p - n * s ≤ lo → ∃ l q, Sweep lo s p l q := by
    intro n
    induction n with
    | zero => intro p h; exact ⟨[], p, .stop (by simp at h; exact not_lt.mpr h)⟩
    | succ n ih =>
      intro p h
      by_cases hp : lo < p
      · obtain ⟨l, q, hl⟩ := ih (p - s) (by push_cast at h; linarith)
        exact ⟨p :: l, q, .go hp hl⟩
      · exact ⟨[], p, .stop hp⟩
  obtain ⟨n, hn⟩ := exists_nat_ge ((p - lo) / s)
  exact key n p (by rw [div_le_iff₀ hs] at hn; linarith)

/-- What the loop visits: `p, p - s, p - 2 s, ...`, exactly those above `lo`. -/
theorem sweep_spec {lo s p : ℝ} {l : List ℝ} {q : ℝ} (h : Sweep lo s p l q) :
    (l = (List.range l.length).map fun j : ℕ => p - j * s) ∧ q = p - l.length * s ∧ (∀ x ∈ l, lo < x) ∧ q ≤ lo := by
  induction h with
  | stop h => exact ⟨rfl, by simp, by simp, not_lt.mp h⟩
  | @go p l q hp hl ih =>
    obtain ⟨h1, h2, h3, h4⟩ := ih
    refine ⟨?_, ?_, ?_, h4⟩
    · rw [List.length_cons, List.range_succ_eq_map, List.map_cons, List.map_map]
      congr 1
      · simp
      · conv_lhs => rw [h1]
        refine List.map_congr_left fun j _ => ?_
        simp only [Function.comp]; push_cast; ring
    · rw [h2, List.length_cons]; push_cast; ring
    · intro x hx; rcases List.mem_cons.mp hx with rfl | hx
      · exact hp
      · exact h3 x hx

theorem run_exists (lo s V gap : ℝ) (hs : 0 < s) (ts : List ℝ) (I : Inflow) : ∃ cs J, Run lo s V gap I ts cs J := by
  induction ts generalizing I with
  | nil => exact ⟨[], I, .nil⟩
  | cons t ts ih =>
    by_cases h : lo + gap < I.next + V * (t - I.last)
    · obtain ⟨l, q, hl⟩ := sweep_exists lo s hs (I.next + V * (t - I.last))
      obtain ⟨cs, J, hr⟩ := ih ⟨q, t⟩
      exact ⟨_, J, .cons (.yes h hl) hr⟩
    · obtain ⟨cs, J, hr⟩ := ih I
      exact ⟨_, J, .cons (.no h) hr⟩

theorem run_comoving {lo s V gap : ℝ} {I J : Inflow} {ts : List ℝ} {cs : List (ℝ × ℝ)} (h : Run lo s V gap I ts cs J) :
    (cs.map fun c => c.2 - V * c.1) = (List.range cs.length).map (fun j : ℕ => (I.next - V * I.last) - j * s) ∧
      J.next - V * J.last = (I.next - V * I.last) - cs.length * s ∧ ∀ c ∈ cs, lo < c.2 := by
  induction h with
  | nil => exact ⟨rfl, by simp, by simp⟩
  | @cons I J K t ts xs cs hf hr ih =>
    obtain ⟨h1, h2, h3⟩ := ih
    cases hf with
    | no h => exact ⟨by simpa using h1, by simpa using h2, by simpa using h3⟩
    | @yes l q hc hs =>
      obtain ⟨e1, e2, e3, e4⟩ := sweep_spec hs
      have hq : q - V * t = (I.next - V * I.last) - xs.length * s := by rw [e2]; ring
      refine ⟨?_, ?_, ?_⟩
      · rw [List.map_append, List.length_append, List.length_map, h1, List.range_add, List.map_append, List.map_map, List.map_map]
        congr 1
        · conv_lhs => rw [e1]
          rw [List.map_map]
          refine List.map_congr_left fun j _ => ?_
          simp only [Function.comp]; ring
        · refine List.map_congr_left fun j _ => ?_
          simp only [Function.comp, hq]; push_cast; ring
      · rw [h2, hq, List.length_append, List.length_map]; push_cast; ring
      · intro c hc'
        rcases List.mem_append.mp hc' with h | h
        · obtain ⟨x, hx, rfl⟩ := List.mem_map.mp h
          exact e3 x hx
        · exact h3 c h

/-- **C85, regular inflow (partial).** Whenever in a run `pre_forces` is called, and at whatever times it creates particles, in the frame that moves with the stream all
columns created lie on one line of points with the spacing `s`, without a gap and without a column created twice: the `j`-th
column of the run, followed back to the start of the run, is at `lo - s/2 - j s`. All columns are created inside of the box.
Missing: the columns of different runs do not fit together, see `C85_negation_two_runs`. -/
theorem C85_regular_partial (lo s V gap : ℝ) (hs : 0 < s) (ts : List ℝ) :
    (∃ cs J, Run lo s V gap (Inflow.start lo s) ts cs J) ∧
    ∀ cs J, Run lo s V gap (Inflow.start lo s) ts cs J →
      (∀ (j : ℕ) (c : ℝ × ℝ), cs[j]? = some c → c.2 = lo - 1/2 * s - j * s + V * c.1 ∧ lo < c.2) := by
  refine ⟨run_exists lo s V gap hs ts _, fun cs J h j c hj => ?_⟩
  obtain ⟨h1, _, h3⟩ := run_comoving h
  refine ⟨?_, h3 c (List.mem_of_getElem? hj)⟩
  have := congrArg (·[j]?) h1
  simp only [List.getElem?_map, hj, Option.map_some] at this
  rw [List.getElem?_range (by exact (List.getElem?_eq_some_iff.mp hj).1)] at this
  simp only [Option.map_some, Option.some.injEq, Inflow.start] at this
  linarith

/-- **C85, the inflow follows.** After each call no column is missing: the place of the next column is not beyond the point at which creation starts
again, so at the time of the call the last column is at most `gap + s` from the left end. -/
theorem C85_no_lag (lo s V gap t : ℝ) (hg : 0 ≤ gap) (I J : Inflow) (xs : List ℝ) (h : Inflow.Fire lo s V gap t I xs J) :
    J.next + V * (t - J.last) ≤ lo + gap := by
  cases h with
  | no h => exact not_lt.mp h
  | yes hc hs =>
    obtain ⟨_, _, _, e4⟩ := sweep_spec hs
    simp only [sub_self, mul_zero, add_zero]; linarith

/-- **C85 is false across runs.** `pre_integrate` forgets the columns there are. Spacing 1, stream velocity 1, creation starts beyond 2. The first run ends
at time 3.5; three units of time later the second run creates its first column at 2.5, when the nearest column of the first run was carried to 4: a gap
of 1.5 instead of 1. -/
theorem C85_negation_two_runs : ∃ cs J c' cs' J', Run 0 1 1 2 (Inflow.start 0 1) [3, 7/2] cs J ∧
    Run 0 1 1 2 (Inflow.start 0 1) [3] (c' :: cs') J' ∧ c' = (3, 5/2) ∧ cs.length = 3 ∧
    ∀ c ∈ cs, c'.2 + 3/2 ≤ c.2 + 1 * (7/2 - c.1) + 1 * 3 := by
  have hf : Inflow.Fire 0 1 1 2 3 (Inflow.start 0 1) [5/2, 3/2, 1/2] ⟨-1/2, 3⟩ := by
    refine .yes (by norm_num [Inflow.start]) ?_
    rw [show (Inflow.start 0 1).next + 1 * (3 - (Inflow.start 0 1).last) = 5/2 by norm_num [Inflow.start]]
    refine .go (by norm_num) ?_
    rw [show (5/2 - 1 : ℝ) = 3/2 by norm_num]
    refine .go (by norm_num) ?_
    rw [show (3/2 - 1 : ℝ) = 1/2 by norm_num]
    refine .go (by norm_num) ?_
    rw [show (1/2 - 1 : ℝ) = -1/2 by norm_num]
    exact .stop (by norm_num)
  have h1 : Run 0 1 1 2 (Inflow.start 0 1) [3] [(3, 5/2), (3, 3/2), (3, 1/2)] ⟨-1/2, 3⟩ := Run.cons hf .nil
  have h2 : Run 0 1 1 2 (Inflow.start 0 1) [3, 7/2] [(3, 5/2), (3, 3/2), (3, 1/2)] ⟨-1/2, 3⟩ :=
    Run.cons hf (Run.cons (.no (by norm_num)) .nil)
  refine ⟨_, _, _, _, _, h2, h1, rfl, rfl, ?_⟩
  intro c hc
  simp at hc
  rcases hc with rfl | rfl | rfl <;> norm_num

/-! ### The grid along the other axes -/

/-- The point at which `recursive_fill` starts along an axis other than the first, `modifiers/stream-tunnel.cpp:127-133`: the conversion to `int`
truncates towards zero. -/
noncomputable def axisStart (smin pmax s : ℝ) : ℝ :=
  let q := (pmax - smin - 1/2 * s) / s
  let n : ℤ := if 0 ≤ q then ⌊q⌋ else ⌈q⌉
  smin + (n + 1/2) * s

/-- **C85, the grid of a processor (partial).** Along an axis other than the first a processor with bounds `pmin`, `pmax` visits exactly the
points of the grid `smin + (j + 1/2) s` of the whole box that lie in `(pmin, pmax]`, each once: neighbouring
processors never create the same point and leave none out.
Missing: processors that end less than half a spacing from the start of the box, see `C85_negation_thin`. -/
theorem C85_grid_partial (smin pmin pmax s : ℝ) (hs : 0 < s) (h1 : smin ≤ pmin) (h2 : smin + 1/2 * s ≤ pmax) (l : List ℝ) (q : ℝ)
    (h : Sweep pmin s (axisStart smin pmax s) l q) :
    l.Nodup ∧ ∀ x, x ∈ l ↔ (∃ j : ℕ, x = smin + (j + 1/2) * s) ∧ pmin < x ∧ x ≤ pmax := by
  obtain ⟨e1, e2, e3, e4⟩ := sweep_spec h
  have hq0 : 0 ≤ (pmax - smin - 1/2 * s) / s := div_nonneg (by linarith) hs.le
  set n : ℤ := ⌊(pmax - smin - 1/2 * s) / s⌋ with hn
  have hstart : axisStart smin pmax s = smin + (n + 1/2) * s := by
    unfold axisStart; simp only; rw [if_pos hq0]
  have hle : (n : ℝ) * s ≤ pmax - smin - 1/2 * s := by
    have := Int.floor_le ((pmax - smin - 1/2 * s) / s); rw [← hn, le_div_iff₀ hs] at this; exact this
  have hlt : pmax - smin - 1/2 * s < (n + 1) * s := by
    have := Int.lt_floor_add_one ((pmax - smin - 1/2 * s) / s); rw [← hn, div_lt_iff₀ hs] at this; exact this
  have hn0 : 0 ≤ n := Int.floor_nonneg.mpr hq0
  have hmem : ∀ x, x ∈ l ↔ ∃ j : ℕ, j < l.length ∧ x = smin + (n + 1/2) * s - j * s := by
    intro x
    rw [e1, hstart]
    simp only [List.mem_map, List.mem_range, List.length_map, List.length_range]
    constructor
    · rintro ⟨j, hj, rfl⟩; exact ⟨j, hj, rfl⟩
    · rintro ⟨j, hj, rfl⟩; exact ⟨j, hj, rfl⟩
  refine ⟨?_, fun x => ?_⟩
  · rw [e1]
    refine List.Nodup.map ?_ List.nodup_range
    intro a b hab
    have h3 : (a : ℝ) * s = b * s := by simp only at hab; linarith
    have := mul_right_cancel₀ hs.ne' h3
    exact_mod_cast this
  · constructor
    · intro hx
      have hlo := e3 x hx
      obtain ⟨j, hj, rfl⟩ := (hmem x).mp hx
      have hpos : (0:ℝ) < (n - j + 1/2) * s := by linarith
      have hnj : (j : ℤ) ≤ n := by
        by_contra hc
        have h5 : (n : ℝ) - j ≤ -1 := by
          have : n - (j : ℤ) ≤ -1 := by omega
          exact_mod_cast this
        have := mul_le_mul_of_nonneg_right h5 hs.le
        nlinarith
      refine ⟨⟨(n - j).toNat, ?_⟩, hlo, ?_⟩
      · have : (((n - j).toNat : ℤ) : ℝ) = (n:ℝ) - j := by rw [Int.toNat_of_nonneg (by omega)]; push_cast; ring
        rw [show (((n - j).toNat : ℕ) : ℝ) = (((n - j).toNat : ℤ) : ℝ) by push_cast; rfl, this]; ring
      · have : 0 ≤ (j : ℝ) * s := by positivity
        linarith
    · rintro ⟨⟨j, rfl⟩, h3, h4⟩
      have hjn : (j : ℤ) ≤ n := by
        by_contra hc
        have h5 : (n : ℝ) + 1 ≤ j := by
          have : n + 1 ≤ (j : ℤ) := by omega
          exact_mod_cast this
        have := mul_le_mul_of_nonneg_right h5 hs.le
        nlinarith
      refine (hmem _).mpr ⟨(n - j).toNat, ?_, ?_⟩
      · by_contra hc
        have h5 : (l.length : ℝ) ≤ n - j := by
          have : (l.length : ℤ) ≤ n - j := by omega
          exact_mod_cast this
        rw [e2, hstart] at e4
        have := mul_le_mul_of_nonneg_right h5 hs.le
        nlinarith
      · have : (((n - j).toNat : ℤ) : ℝ) = (n:ℝ) - j := by rw [Int.toNat_of_nonneg (by omega)]; push_cast; ring
        rw [show (((n - j).toNat : ℕ) : ℝ) = (((n - j).toNat : ℤ) : ℝ) by push_cast; rfl, this]; ring

/-- **C85 is false of thin processors.** With spacing 1, a processor from 0 to 0.25 creates the point 0.5, which is outside of its bounds; so
does its neighbour from 0.25 to 1. -/
theorem C85_negation_thin : Sweep 0 1 (axisStart 0 (1/4) 1) [1/2] (-1/2) ∧ Sweep (1/4) 1 (axisStart 0 1 1) [1/2] (-1/2) := by
  have h1 : axisStart 0 (1/4) 1 = 1/2 := by
    unfold axisStart; simp only
    rw [if_neg (by norm_num)]
    rw [show ⌈((1/4 : ℝ) - 0 - 1/2 * 1) / 1⌉ = 0 by rw [Int.ceil_eq_iff]; norm_num]
    norm_num
  have h2 : axisStart 0 1 1 = 1/2 := by
    unfold axisStart; simp only
    rw [if_pos (by norm_num)]
    rw [show ⌊((1 : ℝ) - 0 - 1/2 * 1) / 1⌋ = 0 by rw [Int.floor_eq_iff]; norm_num]
    norm_num
  rw [h1, h2]
  constructor
  · refine .go (by norm_num) ?_
    rw [show (1/2 - 1 : ℝ) = -1/2 by norm_num]
    exact .stop (by norm_num)
  · refine .go (by norm_num) ?_
    rw [show (1/2 - 1 : ℝ) = -1/2 by norm_num]
    exact .stop (by norm_num)

/-- The hypotheses of the theorems above are met: see the first part of `C85_negation_two_runs`, and a processor from 1 to 3 of a box
from 0, spacing 1: the points 2.5 and 1.5. -/
example : Sweep 1 1 (axisStart 0 3 1) [5/2, 3/2] (1/2) ∧ (0:ℝ) ≤ 1 ∧ (0:ℝ) + 1/2 * 1 ≤ 3 := by
  have h2 : axisStart 0 3 1 = 5/2 := by
    unfold axisStart; simp only
    rw [if_pos (by norm_num)]
    rw [show ⌊((3 : ℝ) - 0 - 1/2 * 1) / 1⌋ = 2 by rw [Int.floor_eq_iff]; norm_num]
    norm_num
  rw [h2]
  refine ⟨.go (by norm_num) ?_, by norm_num, by norm_num⟩
  rw [show (5/2 - 1 : ℝ) = 3/2 by norm_num]
  refine .go (by norm_num) ?_
  rw [show (3/2 - 1 : ℝ) = 1/2 by norm_num]
  exact .stop (by norm_num)

/-! ### The stripe data of new particles -/

/-- The loop of `recursive_fill` over `n` new particles, `modifiers/stream-tunnel.cpp:136-152`, when there is stripe data: the accessor `stripex` holds the pointer to the array at
the time it was made (`base/particle-data-access.hpp:46-124`); `addParticle` (`base/simdata.tpp:49-75`) allocates new arrays when
the capacity is reached and frees the old ones; then the write through the accessor is undefined. The pair is size and capacity. -/
def fillStripes (cap0 : ℕ) : ℕ → ℕ × ℕ → Option (ℕ × ℕ)
  | 0, s => some s
  | n + 1, s =>
    let cap := Verif.SimData.growFull s.2 s.1
    if cap = cap0 ∧ s.1 < cap then fillStripes cap0 n (s.1 + 1, cap) else none

/-- **C85, stripe data (partial).** The fill writes the stripe data of the new particles safely exactly when they all fit into the arrays
there are.
Missing: when they do not fit, the data is written through a pointer to freed memory. -/
theorem C85_stripes_partial (n size cap : ℕ) (h : size ≤ cap) : (fillStripes cap n (size, cap)).isSome ↔ size + n ≤ cap := by
  induction n generalizing size with
  | zero => simp [fillStripes, h]
  | succ n ih =>
    unfold fillStripes
    simp only [Verif.SimData.growFull]
    by_cases hc : cap < size + 1
    · rw [if_pos hc, if_neg (by omega)]
      simp; omega
    · rw [if_neg hc, if_pos ⟨rfl, by omega⟩, ih (size + 1) (by omega)]; omega

/-! ## C86: modifiers that act at intervals -/

/-- The clock of `TemperatureModifier::post_forces` (`modifiers/temperaturemodifier.cpp:14-17,48`) and, with updates switched on, of
`StripeX::post_forces` (`modifiers/stripe-x.cpp:20-35`): called at the elapsed times `ts`, the times at which it acts, and the last update. -/
noncomputable def clock (delay : ℝ) : ℝ → List ℝ → List ℝ × ℝ
  | last, [] => ([], last)
  | last, t :: ts =>
    if t - last < delay then clock delay last ts
    else let r := clock delay t ts; (t :: r.1, r.2)

/-- **C86, one run (partial).** In one run that starts at time zero with a new modifier, two actions are at least the delay apart, the first is not before the delay, and after each
call the last action (or the start) is less than one delay ago.
Missing: a second run, see `C86_negation_second_run`. -/
theorem C86_interval_partial (delay last : ℝ) (hd : 0 < delay) (ts : List ℝ) :
    ((clock delay last ts).1.IsChain fun a b => a + delay ≤ b) ∧
      (∀ t ∈ (clock delay last ts).1.head?, last + delay ≤ t) ∧
      (∀ t ∈ (clock delay last ts).1, t ∈ ts) ∧
      ∀ ts' t, ts = ts' ++ [t] → t - (clock delay last ts).2 < delay := by
  induction ts generalizing last with
  | nil => exact ⟨by simp [clock], by simp [clock], by simp [clock], fun ts' t h => by simp at h⟩
  | cons t ts ih =>
    unfold clock
    by_cases h : t - last < delay
    · rw [if_pos h]
      obtain ⟨h1, h2, h3, h4⟩ := ih last
      refine ⟨h1, h2, fun u hu => List.mem_cons_of_mem _ (h3 u hu), fun ts' u he => ?_⟩
      cases ts' with
      | nil =>
        simp at he; obtain ⟨rfl, rfl⟩ := he
        simpa [clock] using h
      | cons a ts' => simp at he; exact h4 ts' u he.2
    · rw [if_neg h]
      obtain ⟨h1, h2, h3, h4⟩ := ih t
      refine ⟨?_, ?_, ?_, fun ts' u he => ?_⟩
      · simp only
        cases hc : (clock delay t ts).1 with
        | nil => simp
        | cons b l =>
          rw [hc] at h1 h2
          rw [List.isChain_cons_cons]
          exact ⟨h2 b (by simp), h1⟩
      · intro u hu; simp at hu; subst hu; linarith
      · intro u hu; simp at hu; rcases hu with rfl | hu
        · simp
        · exact List.mem_cons_of_mem _ (h3 u hu)
      · cases ts' with
        | nil =>
          simp at he; obtain ⟨rfl, rfl⟩ := he
          simpa [clock] using hd
        | cons a ts' => simp at he; exact h4 ts' u he.2

/-- **C86 is false of later runs.** The elapsed time starts anew but the time of the last update does not: in a second run that is not longer than the time of the last update of the
first, the modifier never acts. -/
theorem C86_negation_second_run (delay last : ℝ) (ts : List ℝ) (h : ∀ t ∈ ts, t < last + delay) : (clock delay last ts).1 = [] := by
  induction ts generalizing last with
  | nil => rfl
  | cons t ts ih =>
    unfold clock
    rw [if_pos (by have := h t (by simp); linarith)]
    exact ih last fun u hu => h u (List.mem_cons_of_mem _ hu)

/-- The hypotheses are met: a first run with calls at 1, 2, 3 and delay 2 acts at 2; a second run with the same calls acts at none before 4. -/
example : clock 2 0 [1, 2, 3] = ([2], 2) ∧ ∀ t ∈ ([1, 2, 3] : List ℝ), t < 2 + 2 := by
  constructor
  · norm_num [clock]
  · intro t ht; simp at ht; rcases ht with rfl | rfl | rfl <;> norm_num

end Verif.Stream
