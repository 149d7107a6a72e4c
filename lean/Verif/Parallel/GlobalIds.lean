import Mathlib.Data.List.Range
import Mathlib.Algebra.BigOperators.Group.List.Basic
import Mathlib.Algebra.Order.BigOperators.Group.List
import Mathlib.Data.List.TakeDrop
import Mathlib.Tactic.Ring
import Mathlib.Tactic.Linarith

/-!
# Global ids on several processors

Models the id counters of `SimData::addParticle` (`base/simdata.tpp:35-40` and `:66-71`),
`SimData::shift_global_ids` (`base/simdata.cpp:380-394`) and `Creator::correct_global_ids`
(`base/creator.cpp:135-161`). Particles are not removed here (a removed id only makes collisions rarer).
-/

namespace Verif.GlobalIds

/-- One processor: the global ids of its particles in order of creation (`size_owned()` is their number),
`next_global_id` and `d_global_id`. `simdata.hpp:343-352`. -/
structure Proc where
  ids : List ℕ
  next : ℕ
  d : ℕ

/-- `next_global_id = 0`, `d_global_id = 1` initially. `simdata.hpp:345-352`. -/
def fresh : Proc := { ids := [], next := 0, d := 1 }

/-- Which `addParticle` is called: the one for a default particle or the one with full data. -/
inductive Kind | plain | full
deriving DecidableEq

/-- Issue of an id: `simdata.tpp:38-39` (plain), `simdata.tpp:69-70` (full: `next_global_id++` and then
`next_global_id += d_global_id`). -/
def add (k : Kind) (p : Proc) : Proc :=
  match k with
  | .plain => { p with ids := p.ids ++ [p.next], next := p.next + p.d }
  | .full => { p with ids := p.ids ++ [p.next], next := p.next + 1 + p.d }

/-- `n` particles of one kind. -/
def addN (k : Kind) : ℕ → Proc → Proc
  | 0, p => p
  | n + 1, p => addN k n (add k p)

/-- `correct_global_ids` as executed on processor `rank`, given the gathered `sizes`; `creator.cpp:135-161`.
For rank 0 the shift is the empty sum. -/
def correct (sizes : List ℕ) (rank : ℕ) (p : Proc) : Proc :=
  { ids := p.ids.map (· + (sizes.take rank).sum)
    next := sizes.sum + 1 + rank
    d := sizes.length }

/-- The processors after set-up: processor `r` has created `counts[r]` particles of kind `k0`, and then all of
them have corrected their ids. -/
def setup (k0 : Kind) (counts : List ℕ) (r : ℕ) : Proc :=
  correct counts r (addN k0 (counts.getD r 0) fresh)

/-- Particles created later: processor `e.1` makes one of kind `e.2`. -/
def later (w : ℕ → Proc) : List (ℕ × Kind) → ℕ → Proc
  | [] => w
  | e :: es => later (fun r => if r = e.1 then add e.2 (w r) else w r) es

/-- The property: no two particles of the world (processors `0..P-1`) have the same global id. -/
def AllDistinct (P : ℕ) (w : ℕ → Proc) : Prop :=
  ∀ r < P, ∀ r' < P, ∀ i, (hi : i < (w r).ids.length) → ∀ j, (hj : j < (w r').ids.length) →
    (w r).ids[i] = (w r').ids[j] → r = r' ∧ i = j

/-! ## Lemmas -/

/-- Increment of the counter. -/
def stepOf (k : Kind) (d : ℕ) : ℕ := match k with | .plain => d | .full => 1 + d

theorem add_eq (k : Kind) (p : Proc) :
    add k p = { p with ids := p.ids ++ [p.next], next := p.next + stepOf k p.d } := by
  cases k <;> simp [add, stepOf, Nat.add_assoc]

theorem addN_eq (k : Kind) : ∀ (n : ℕ) (p : Proc),
    addN k n p = { p with ids := p.ids ++ (List.range n).map (fun i => p.next + i * stepOf k p.d),
                          next := p.next + n * stepOf k p.d } := by
  intro n
  induction n with
  | zero => intro p; simp [addN]
  | succ n ih =>
    intro p
    rw [addN, ih, add_eq]
    simp only [Proc.mk.injEq, List.append_assoc, and_true, List.append_cancel_left_eq]
    constructor
    · rw [List.range_succ_eq_map]
      simp only [List.singleton_append, List.map_cons, List.map_map, Nat.zero_mul, Nat.add_zero,
        List.cons.injEq, true_and]
      apply List.map_congr_left
      intro i _
      simp only [Function.comp, Nat.succ_eq_add_one]
      ring
    · ring

theorem later_eq (k : Kind) : ∀ (es : List (ℕ × Kind)), (∀ e ∈ es, e.2 = k) → ∀ (w : ℕ → Proc) (r : ℕ),
    later w es r = addN k ((es.filter (fun e => e.1 = r)).length) (w r) := by
  intro es
  induction es with
  | nil => intro _ w r; simp [later, addN]
  | cons e es ih =>
    intro h w r
    rw [later, ih (fun e' he' => h e' (List.mem_cons_of_mem _ he'))]
    have hk : e.2 = k := h e List.mem_cons_self
    by_cases hr : r = e.1
    · subst hr; simp [addN, hk]
    · have hr' : ¬ e.1 = r := fun h => hr h.symm
      simp [hr, hr']

theorem take_sum_le (l : List ℕ) : ∀ {i j : ℕ}, i < j → j ≤ l.length →
    (l.take i).sum + l.getD i 0 ≤ (l.take j).sum := by
  intro i j hij hj
  have h1 : (l.take (i + 1)).sum = (l.take i).sum + l.getD i 0 := by
    have : i < l.length := by omega
    rw [List.take_succ_eq_append_getElem this]; simp [List.getD_eq_getElem?_getD, this]
  rw [← h1]
  have h2 : l.take (i + 1) = (l.take j).take (i + 1) := by rw [List.take_take]; congr 1; omega
  rw [h2]
  conv_rhs => rw [← List.take_append_drop (i + 1) (l.take j)]
  rw [List.sum_append]; omega

theorem take_sum_le_total (l : List ℕ) {i : ℕ} (hi : i < l.length) :
    (l.take i).sum + l.getD i 0 ≤ l.sum := by
  have := take_sum_le l hi (le_refl _)
  simpa using this

theorem world_ids (k : Kind) (counts : List ℕ) (es : List (ℕ × Kind)) (h : ∀ e ∈ es, e.2 = k) (r : ℕ) :
    (later (setup .plain counts) es r).ids =
      (List.range (counts.getD r 0)).map (fun i => i + (counts.take r).sum) ++
      (List.range ((es.filter (fun e => e.1 = r)).length)).map
        (fun i => counts.sum + 1 + r + i * stepOf k counts.length) := by
  rw [later_eq k es h, addN_eq]
  simp only [setup, correct, addN_eq, fresh]
  simp [stepOf]

/-! ## Property theorems -/

/-- **C12 (partial).** `P = counts.length` processors; each creates `counts[r]` default particles; ids
are corrected; from then on every processor creates further particles in any order, all with the *same* version of
`addParticle`. Then no two particles of the whole world share a global id, at any time.
What is missing for the full property (and false, see the negations): set-up with the full version of
`addParticle`, and later mixtures of the two versions. -/
theorem C12_ids_distinct_partial (counts : List ℕ) (k : Kind) (es : List (ℕ × Kind)) (h : ∀ e ∈ es, e.2 = k) :
    AllDistinct counts.length (later (setup .plain counts) es) := by
  intro r hr r' hr' i hi j hj heq
  -- describe an id by its position
  have key : ∀ r < counts.length, ∀ i, (hi : i < (later (setup .plain counts) es r).ids.length) →
      (i < counts.getD r 0 ∧ (later (setup .plain counts) es r).ids[i] = i + (counts.take r).sum) ∨
      (counts.getD r 0 ≤ i ∧ (later (setup .plain counts) es r).ids[i] =
        counts.sum + 1 + r + (i - counts.getD r 0) * stepOf k counts.length) := by
    intro r _ i hi
    have e := world_ids k counts es h r
    have hi2 := hi
    rw [e] at hi2
    simp only [List.length_append, List.length_map, List.length_range] at hi2
    by_cases hc : i < counts.getD r 0
    · left; refine ⟨hc, ?_⟩
      simp only [e]
      rw [List.getElem_append_left (by simpa using hc)]; simp
    · right; refine ⟨by omega, ?_⟩
      simp only [e]
      rw [List.getElem_append_right (by simpa using hc)]; simp
  have hP : r < stepOf k counts.length := by cases k <;> simp [stepOf] <;> omega
  have hP' : r' < stepOf k counts.length := by cases k <;> simp [stepOf] <;> omega
  have hb := take_sum_le_total counts hr
  have hb' := take_sum_le_total counts hr'
  rcases key r hr i hi with ⟨h1, e1⟩ | ⟨h1, e1⟩ <;> rcases key r' hr' j hj with ⟨h2, e2⟩ | ⟨h2, e2⟩
  · rw [e1, e2] at heq
    rcases lt_trichotomy r r' with hlt | rfl | hlt
    · have := take_sum_le counts hlt (le_of_lt hr'); omega
    · exact ⟨rfl, by omega⟩
    · have := take_sum_le counts hlt (le_of_lt hr); omega
  · rw [e1, e2] at heq; omega
  · rw [e1, e2] at heq; omega
  · rw [e1, e2] at heq
    have heq2 : r + (i - counts.getD r 0) * stepOf k counts.length
        = r' + (j - counts.getD r' 0) * stepOf k counts.length := by omega
    have hm := congrArg (· % stepOf k counts.length) heq2
    simp only [Nat.add_mul_mod_self_right, Nat.mod_eq_of_lt hP, Nat.mod_eq_of_lt hP'] at hm
    subst hm
    have hpos : 0 < stepOf k counts.length := by omega
    have : (i - counts.getD r 0) = (j - counts.getD r 0) :=
      Nat.eq_of_mul_eq_mul_right hpos (by omega)
    exact ⟨rfl, by omega⟩

/-- Three processors with 2, 0 and 3 particles, and a later history on all of them. -/
example : (∀ e ∈ [(0, Kind.full), (2, Kind.full), (0, Kind.full), (1, Kind.full)], e.2 = Kind.full) ∧
    (later (setup .plain [2, 0, 3]) [(0, Kind.full), (2, Kind.full), (0, Kind.full), (1, Kind.full)] 0).ids = [0, 1, 6, 10] := by
  decide

/-- **C12, negation 1** (set-up with the full `addParticle`, which is what every creator uses): two
processors with two particles each: processor 0 has the ids 0, 2 and processor 1 has the ids 2, 4. -/
theorem C12_negation_setup : ¬ AllDistinct 2 (setup .full [2, 2]) := by
  intro h
  have := h 0 (by decide) 1 (by decide) 1 (by decide) 0 (by decide) (by decide)
  exact absurd this.1 (by decide)

/-- **C12, negation 2** (mixture of the two versions after set-up): processor 0 adds two full ones (ids 1, 4),
processor 1 adds two default ones (ids 2, 4). -/
theorem C12_negation_mixed : ¬ AllDistinct 2 (later (setup .plain [0, 0])
    [(0, .full), (0, .full), (1, .plain), (1, .plain)]) := by
  intro h
  have := h 0 (by decide) 1 (by decide) 1 (by decide) 1 (by decide) (by decide)
  exact absurd this.1 (by decide)

/-- **C12, negation 3, one processor, general.** With a single processor and any odd number `n ≥ 3` of particles
made by the full `addParticle`, the correction resets the counter to `n+1`, an id that is already taken:
the very next particle (of either kind) duplicates a global id. -/
theorem C12_negation_single (n : ℕ) (hn : 3 ≤ n) (hodd : n % 2 = 1) (k : Kind) :
    ¬ AllDistinct 1 (later (setup .full [n]) [(0, k)]) := by
  intro h
  have e : (later (setup .full [n]) [(0, k)] 0).ids = (List.range n).map (fun i => i * 2) ++ [n + 1] := by
    rw [later_eq k _ (by simp)]
    simp [setup, correct, addN_eq, fresh, stepOf]
  have hlen : (later (setup .full [n]) [(0, k)] 0).ids.length = n + 1 := by rw [e]; simp
  have hh : (n + 1) / 2 < n := by omega
  have := h 0 (by decide) 0 (by decide) ((n + 1) / 2) (by rw [hlen]; omega) n (by rw [hlen]; omega) (by
    simp only [e]
    rw [List.getElem_append_left (by simpa using hh), List.getElem_append_right (by simp)]
    simp; omega)
  omega

example : (3 : ℕ) ≤ 3 ∧ 3 % 2 = 1 := by decide

end Verif.GlobalIds
