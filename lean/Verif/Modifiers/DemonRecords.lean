import Verif.Modifiers.Demon
import Verif.Data.Recording
import Verif.GFlow.Boundary
import Mathlib.Data.List.Chain
import Mathlib.Algebra.Order.Archimedean.Real.Basic

/-!
# What the Maxwell demon records (C163), and its door (C164)

Models the parts of `modifiers/demon.cpp` that `Verif.Modifiers.Demon` leaves out: `pre_integrate`, the six series that `pre_forces` writes, the
animation object, and whole runs. Exact real arithmetic. Between two calls of the demon the particles move in any way that keeps the number of slots, the masses and the
marks of the sides. Not modelled: writing the files, `handler->construct()`.
-/

namespace Verif.DemonRecords
open Finset Verif.Demon

variable {d : ℕ}

/-- One entry of each of the six series `current_N`, `current_E`, `numberL`, `numberR`, `kineticL`, `kineticR`; every place in the code that writes to one of
them writes to all, at the same elapsed time (`modifiers/demon.cpp:102-113`, `128-138`, `382-387`). -/
structure Entry where
  t : ℝ
  dn : ℤ
  de : ℝ
  Nl : ℕ
  Nr : ℕ
  El : ℝ
  Er : ℝ

/-- What a call of `Demon::pre_forces` at time `t` writes, `modifiers/demon.cpp:90-148`. -/
noncomputable def entries (D : Demon d) (G : Gas d) (t : ℝ) : List Entry :=
  open Classical in
  let c := count D.p G
  if D.tau ≤ t - D.last ∧ D.start < t then
    if D.isOpen then
      if D.kind.keep c then [⟨t, c.nl - c.nr, c.el - c.er, c.Nl, c.Nr, c.El, c.Er⟩] else []
    else [⟨t, 0, 0, c.Nl, c.Nr, c.El, c.Er⟩]
  else []

/-- `Demon::pre_integrate`, `modifiers/demon.cpp:38-76`, of a simulation run (which begins at elapsed time 0, `gflow.cpp:133`): the sides are assigned, the
state is the checkpoint, the places of the door particles `ids` are noted and the door is opened. `door_just_closed` is not reset. -/
noncomputable def begin (far : ℝ) (ids : List ℕ) (D : Demon d) (G : Gas d) : Demon d × Gas d :=
  (⟨D.kind, D.p, D.tau, D.start, 0, G.n, G.x, G.v, true, D.justClosed, ids.map fun i => (i, G.x i), 0, 0⟩,
    place (ids.map fun i => (i, fun _ => far)) (assignSide D.p G))

/-- The state of a run: the demon, the particles, the elapsed time and the series. -/
structure St (d : ℕ) where
  D : Demon d
  G : Gas d
  t : ℝ
  log : List Entry

/-- The state after the `pre_integrate` calls; `dataMaster->pre_integrate()` empties the series (`gflow.cpp:137-144`, `graphobject.cpp:12-17`). -/
noncomputable def St.new (far : ℝ) (ids : List ℕ) (D : Demon d) (G : Gas d) : St d :=
  ⟨(begin far ids D G).1, (begin far ids D G).2, 0, []⟩

/-- One step of the run loop, `gflow.cpp:153-253`, seen by the demon: `pre_forces`, then the rest of the step moves the particles by `m.1` and the clock by `m.2`. -/
noncomputable def step (far : ℝ) (s : St d) (m : (Gas d → Gas d) × ℝ) : Option (St d) :=
  (pre far s.D s.G s.t).map fun r => ⟨r.1, m.1 r.2.1, r.2.2 + m.2, s.log ++ entries s.D s.G s.t⟩

/-- A run, `none` if the demon throws. -/
noncomputable def run (far : ℝ) : List ((Gas d → Gas d) × ℝ) → St d → Option (St d)
  | [], s => some s
  | m :: ms, s => (step far s m).bind (run far ms)

/-! ## Specification -/

/-- A motion of the particles: slots, masses and marks are as before. -/
def Motion (m : Gas d → Gas d) : Prop := ∀ G, (m G).n = G.n ∧ (m G).im = G.im ∧ (m G).side = G.side

open Classical in
/-- The number of movable particles right of the partition. -/
noncomputable def right (p : ℝ) (G : Gas d) : ℕ := #((movable G).filter fun i => p < G.x i 0)

open Classical in
/-- The number of movable particles that are marked as being on the right. -/
noncomputable def marked (G : Gas d) : ℕ := #((movable G).filter fun i => G.side i = 1)

/-- Whenever the demon is called with the door closed, or for the first time after it closed, no movable particle is on another side than the one it is marked with. -/
def Confined (far : ℝ) : List ((Gas d → Gas d) × ℝ) → St d → Prop
  | [], _ => True
  | m :: ms, s => ((s.D.isOpen = false ∨ s.D.justClosed = true) → ∀ i < s.G.n, s.G.im i ≠ 0 → getSide s.D.p (s.G.x i) = s.G.side i) ∧
      ∀ s', step far s m = some s' → Confined far ms s'

/-! ## One call -/

/-- What a call does, in one place: either no window ends (nothing is recorded), or a window is completed, or rejected. -/
theorem pre_cases (far : ℝ) (D : Demon d) (G : Gas d) (t : ℝ) (r : Demon d × Gas d × ℝ) (h : pre far D G t = some r) :
    (r.2.1.n = G.n ∧ r.2.1.im = G.im ∧ r.1.p = D.p ∧ r.1.tau = D.tau ∧ r.1.start = D.start ∧ r.1.door = D.door ∧ r.1.kind = D.kind) ∧
    ((entries D G t = [] ∧ r.1.last = D.last ∧ r.1.opened = D.opened ∧ r.1.closed = D.closed ∧
        (r.2.1.side = G.side ∨ (D.justClosed = true ∧ r.2.1 = assignSide D.p G))) ∨
     (∃ e, entries D G t = [e] ∧ e.t = t ∧ r.1.last = t ∧ D.last + D.tau ≤ t ∧ r.1.opened + r.1.closed = D.opened + D.closed + 1 ∧
        e.Nl = (count D.p G).Nl ∧ e.Nr = (count D.p G).Nr ∧
        ((D.isOpen = true ∧ e.dn = ((count D.p G).nl : ℤ) - (count D.p G).nr ∧ r.2.1 = assignSide D.p G) ∨
         (D.isOpen = false ∧ e.dn = 0 ∧ r.2.1.side = G.side)))) := by
  unfold pre at h
  unfold entries
  by_cases h1 : D.tau ≤ t - D.last ∧ D.start < t
  · rw [if_pos h1] at h
    by_cases h2 : D.isOpen = true
    · rw [if_pos h2] at h
      by_cases h3 : D.kind.keep (count D.p G)
      · rw [if_pos h3] at h
        obtain rfl := Option.some.inj h
        refine ⟨⟨rfl, rfl, rfl, rfl, rfl, rfl, rfl⟩, Or.inr ⟨⟨t, (count D.p G).nl - (count D.p G).nr, (count D.p G).el - (count D.p G).er, (count D.p G).Nl, (count D.p G).Nr, (count D.p G).El, (count D.p G).Er⟩,
          by simp only [if_pos h1, if_pos h2, if_pos h3], rfl, rfl, by linarith [h1.1], by simp only; omega, rfl, rfl, Or.inl ⟨h2, rfl, rfl⟩⟩⟩
      · rw [if_neg h3] at h
        by_cases h4 : G.n ≠ D.ckn
        · rw [if_pos h4] at h; exact absurd h (by simp)
        · rw [if_neg h4] at h
          obtain rfl := Option.some.inj h
          exact ⟨⟨rfl, rfl, rfl, rfl, rfl, rfl, rfl⟩, Or.inl ⟨by simp only [if_pos h1, if_pos h2, if_neg h3], rfl, rfl, rfl, Or.inl rfl⟩⟩
    · rw [if_neg h2] at h
      obtain rfl := Option.some.inj h
      refine ⟨⟨rfl, rfl, rfl, rfl, rfl, rfl, rfl⟩, Or.inr ⟨⟨t, 0, 0, (count D.p G).Nl, (count D.p G).Nr, (count D.p G).El, (count D.p G).Er⟩,
        by simp only [if_pos h1, if_neg h2], rfl, rfl, by linarith [h1.1], by simp only; omega, rfl, rfl, Or.inr ⟨by simpa using h2, rfl, rfl⟩⟩⟩
  · rw [if_neg h1] at h
    have he : entries D G t = [] := by unfold entries; simp only [if_neg h1]
    unfold entries at he
    by_cases h2 : D.justClosed = true
    · rw [if_pos h2] at h
      obtain rfl := Option.some.inj h
      exact ⟨⟨rfl, rfl, rfl, rfl, rfl, rfl, rfl⟩, Or.inl ⟨he, rfl, rfl, rfl, Or.inr ⟨h2, rfl⟩⟩⟩
    · rw [if_neg h2] at h
      obtain rfl := Option.some.inj h
      exact ⟨⟨rfl, rfl, rfl, rfl, rfl, rfl, rfl⟩, Or.inl ⟨he, rfl, rfl, rfl, Or.inl rfl⟩⟩

theorem step_some (far : ℝ) (s s' : St d) (m : (Gas d → Gas d) × ℝ) (h : step far s m = some s') :
    ∃ r, pre far s.D s.G s.t = some r ∧ s' = ⟨r.1, m.1 r.2.1, r.2.2 + m.2, s.log ++ entries s.D s.G s.t⟩ := by
  unfold step at h
  obtain ⟨r, hr, rfl⟩ := Option.map_eq_some_iff.mp h
  exact ⟨r, hr, rfl⟩

/-- Induction over a run. -/
theorem run_ind (far : ℝ) (I : St d → Prop) (hI : ∀ s s' m, I s → step far s m = some s' → I s') :
    ∀ (ms : List ((Gas d → Gas d) × ℝ)) (s s' : St d), I s → run far ms s = some s' → I s' := by
  intro ms
  induction ms with
  | nil => intro s s' h hr; exact Option.some.inj hr ▸ h
  | cons m ms ih =>
    intro s s' h hr
    obtain ⟨s1, h1, h2⟩ := Option.bind_eq_some_iff.mp hr
    exact ih s1 s' (hI s s1 m h h1) h2

/-! ## C163 -/

/-- **C163, times.** In every run every two entries in a row are at least `tau` apart, the first is not before `tau`, and there is one entry for each completed window and none for a
rejected one: the last entry is at the time of the last checkpoint. -/
theorem C163_times (far : ℝ) (ids : List ℕ) (D : Demon d) (G : Gas d) (ms : List ((Gas d → Gas d) × ℝ)) (s : St d)
    (h : run far ms (St.new far ids D G) = some s) :
    (s.log.map (·.t)).IsChain (fun a b => a + D.tau ≤ b) ∧ (∀ e ∈ s.log.head?, D.tau ≤ e.t) ∧
    s.log.length = s.D.opened + s.D.closed ∧ ∀ e ∈ s.log.getLast?, e.t = s.D.last := by
  have key := run_ind far (fun s : St d => s.D.tau = D.tau ∧ (s.log.map (·.t)).IsChain (fun a b => a + D.tau ≤ b) ∧ (∀ e ∈ s.log.head?, D.tau ≤ e.t) ∧
      s.log.length = s.D.opened + s.D.closed ∧ (∀ e ∈ s.log.getLast?, e.t = s.D.last) ∧ (s.log = [] → s.D.last = 0)) ?_ ms (St.new far ids D G) s ?_ h
  · exact ⟨key.2.1, key.2.2.1, key.2.2.2.1, key.2.2.2.2.1⟩
  · intro s s' m ⟨i0, i1, i2, i3, i4, i5⟩ hs
    obtain ⟨r, hr, rfl⟩ := step_some far s s' m hs
    obtain ⟨⟨_, _, _, ht, _, _⟩, hc⟩ := pre_cases far s.D s.G s.t r hr
    rcases hc with ⟨he, hl, ho, hcl, _⟩ | ⟨e, he, e1, hl, h2, ho, _, _, _⟩
    · simp only [he, List.append_nil]
      exact ⟨ht.trans i0, i1, i2, by rw [ho, hcl]; exact i3, by rw [hl]; exact i4, by rw [hl]; exact i5⟩
    · simp only [he]
      refine ⟨ht.trans i0, ?_, ?_, by rw [List.length_append, i3, ho]; rfl, ?_, by simp⟩
      · rw [List.map_append, List.isChain_append]
        refine ⟨i1, by simp, ?_⟩
        intro a ha b hb
        simp only [List.map_cons, List.map_nil, List.head?_cons, Option.mem_def, Option.some.injEq] at hb
        rw [List.getLast?_map] at ha
        obtain ⟨q, hq, rfl⟩ := Option.map_eq_some_iff.mp ha
        rw [← hb, e1, i4 q hq, ← i0]; exact h2
      · by_cases hn : s.log = []
        · rw [hn, List.nil_append]
          intro q hq
          simp only [List.head?_cons, Option.mem_def, Option.some.injEq] at hq
          rw [← hq, e1, ← i0]
          have := i5 hn; linarith
        · rw [List.head?_append_of_ne_nil _ hn]; exact i2
      · intro q hq
        rw [List.getLast?_append] at hq
        simp only [List.getLast?_singleton, Option.some_or, Option.mem_def, Option.some.injEq] at hq
        rw [← hq, e1, hl]
  · exact ⟨rfl, by simp [St.new], by simp [St.new], rfl, by simp [St.new], fun _ => rfl⟩

theorem movable_congr {G H : Gas d} (h1 : H.n = G.n) (h2 : H.im = G.im) : movable H = movable G := by
  unfold movable; rw [h1, h2]

theorem movable_place (l : List (ℕ × (Fin (d+1) → ℝ))) (G : Gas d) : movable (place l G) = movable G := rfl

/-- Every move of the list is a motion. -/
def Motions (ms : List ((Gas d → Gas d) × ℝ)) : Prop := ∀ m ∈ ms, Motion m.1

/-- Induction over a run whose moves are motions. -/
theorem run_ind_motion (far : ℝ) (I : St d → Prop) (hI : ∀ s s' m, Motion m.1 → I s → step far s m = some s' → I s') :
    ∀ (ms : List ((Gas d → Gas d) × ℝ)) (s s' : St d), Motions ms → I s → run far ms s = some s' → I s' := by
  intro ms
  induction ms with
  | nil => intro s s' _ h hr; exact Option.some.inj hr ▸ h
  | cons m ms ih =>
    intro s s' hm h hr
    obtain ⟨s1, h1, h2⟩ := Option.bind_eq_some_iff.mp hr
    exact ih s1 s' (fun q hq => hm q (List.mem_cons_of_mem _ hq)) (hI s s1 m (hm m (by simp)) h h1) h2

/-- **C163, numbers.** Every recorded pair of numbers adds up to the number of movable particles. -/
theorem C163_numbers (far : ℝ) (ids : List ℕ) (D : Demon d) (G : Gas d) (ms : List ((Gas d → Gas d) × ℝ)) (hm : Motions ms) (s : St d)
    (h : run far ms (St.new far ids D G) = some s) : ∀ e ∈ s.log, e.Nl + e.Nr = #(movable G) := by
  have key := run_ind_motion far (fun s : St d => movable s.G = movable G ∧ ∀ e ∈ s.log, e.Nl + e.Nr = #(movable G)) ?_ ms (St.new far ids D G) s hm ?_ h
  · exact key.2
  · intro s s' m hmm ⟨i0, i1⟩ hs
    obtain ⟨r, hr, rfl⟩ := step_some far s s' m hs
    obtain ⟨⟨hn, him, _⟩, hc⟩ := pre_cases far s.D s.G s.t r hr
    obtain ⟨q1, q2, _⟩ := hmm r.2.1
    refine ⟨(movable_congr (q1.trans hn) (q2.trans him)).trans i0, ?_⟩
    intro e he
    rcases List.mem_append.mp he with he | he
    · exact i1 e he
    rcases hc with ⟨h0, _⟩ | ⟨e', h0, _, _, _, _, hl, hr', _⟩
    · rw [h0] at he; simp at he
    · rw [h0] at he
      obtain rfl := List.mem_singleton.mp he
      obtain ⟨_, _, c3, c4, _⟩ := count_spec s.D.p s.G
      rw [hl, hr', c3, c4, ← i0]
      have hnn : (movable s.G).filter (fun i => s.D.p < s.G.x i 0) = (movable s.G).filter (fun i => ¬ s.G.x i 0 ≤ s.D.p) := by simp only [not_le]
      rw [hnn, card_filter_add_card_filter_not]
  · exact ⟨rfl, by simp [St.new]⟩

/-- The marks of assigned particles. -/
theorem marked_assign (p : ℝ) (G : Gas d) : marked (assignSide p G) = right p G := by
  classical
  unfold marked right
  congr 1
  show (movable G).filter _ = _
  apply filter_congr
  intro i hi
  have : i < G.n := by simp [movable] at hi; exact hi.1
  simp only [assignSide, if_pos this, getSide]
  by_cases h : G.x i 0 ≤ p
  · simp [h]
  · simp [h, not_le.mp h]

/-- Confined particles: as many are right of the partition as are marked so. -/
theorem marked_confined (p : ℝ) (G : Gas d) (h : ∀ i < G.n, G.im i ≠ 0 → getSide p (G.x i) = G.side i) : right p G = marked G := by
  classical
  unfold marked right
  congr 1
  apply filter_congr
  intro i hi
  have hi' : i < G.n ∧ G.im i ≠ 0 := by simpa [movable] using hi
  rw [← h i hi'.1 hi'.2]
  unfold getSide
  by_cases h : G.x i 0 ≤ p
  · simp [h]
  · simp [h, not_le.mp h]

/-- Every mark is 0 or 1. -/
def Marks (G : Gas d) : Prop := ∀ i < G.n, G.side i = 0 ∨ G.side i = 1

theorem marks_assign (p : ℝ) (G : Gas d) : Marks (assignSide p G) := by
  intro i hi
  simp only [assignSide] at hi ⊢
  rw [if_pos hi]
  unfold getSide; split <;> simp

/-- The balance of one window: right now is marked right plus what went over minus what came back. -/
theorem window_balance (p : ℝ) (G : Gas d) (hm : Marks G) :
    ((count p G).Nr : ℤ) = marked G + ((count p G).nl - (count p G).nr) := by
  classical
  obtain ⟨h1, h2, _, h4, _⟩ := count_spec p G
  rw [h1, h2, h4]
  unfold marked
  have hs : ∀ i ∈ movable G, G.side i = 0 ∨ G.side i = 1 := fun i hi => hm i (by simp [movable] at hi; exact hi.1)
  have e1 : #((movable G).filter fun i => p < G.x i 0) =
      #((movable G).filter fun i => p < G.x i 0 ∧ G.side i = 1) + #((movable G).filter fun i => p < G.x i 0 ∧ G.side i ≠ 1) := by
    rw [← filter_filter, ← filter_filter, card_filter_add_card_filter_not]
  have e2 : #((movable G).filter fun i => G.side i = 1) =
      #((movable G).filter fun i => p < G.x i 0 ∧ G.side i = 1) + #((movable G).filter fun i => G.x i 0 ≤ p ∧ G.side i ≠ 0) := by
    have q1 : (movable G).filter (fun i => p < G.x i 0 ∧ G.side i = 1) = ((movable G).filter fun i => G.side i = 1).filter fun i => p < G.x i 0 := by
      rw [filter_filter]; exact filter_congr fun i _ => and_comm
    have q2 : (movable G).filter (fun i => G.x i 0 ≤ p ∧ G.side i ≠ 0) = ((movable G).filter fun i => G.side i = 1).filter fun i => ¬ p < G.x i 0 := by
      rw [filter_filter]
      refine filter_congr fun i hi => ?_
      rw [not_lt]
      rcases hs i hi with h | h <;> simp [h]
    rw [q1, q2, card_filter_add_card_filter_not]
  rw [e1, e2]; push_cast; ring

theorem marked_motion {G H : Gas d} (h1 : H.n = G.n) (h2 : H.im = G.im) (h3 : H.side = G.side) : marked H = marked G := by
  unfold marked; rw [movable_congr h1 h2, h3]

/-- **C163, balance of numbers (partial).** If no movable particle crosses the partition while the door is closed, the recorded currents account for every particle: at every entry
the recorded number on the right is the number there at the beginning plus the sum of the recorded currents.
Missing: crossings while the door is closed (around a periodic boundary, or past a door that does not span the wall), which are recorded as a current of zero and are then
counted in the next open window, see `C163_negation_closed`. -/
theorem C163_balance_partial (far : ℝ) (ids : List ℕ) (D : Demon d) (G : Gas d) (ms : List ((Gas d → Gas d) × ℝ)) (hm : Motions ms) (s : St d)
    (h : run far ms (St.new far ids D G) = some s) (hc : Confined far ms (St.new far ids D G)) :
    ∀ e ∈ s.log.getLast?, (e.Nr : ℤ) = right D.p G + (s.log.map (·.dn)).sum := by
  have key : ∀ (ms : List ((Gas d → Gas d) × ℝ)) (s s' : St d), Motions ms → Confined far ms s →
      (s.D.p = D.p ∧ Marks s.G ∧ (marked s.G : ℤ) = right D.p G + (s.log.map (·.dn)).sum ∧
        (∀ e ∈ s.log.getLast?, (e.Nr : ℤ) = right D.p G + (s.log.map (·.dn)).sum)) → run far ms s = some s' →
      ∀ e ∈ s'.log.getLast?, (e.Nr : ℤ) = right D.p G + (s'.log.map (·.dn)).sum := by
    intro ms
    induction ms with
    | nil => intro s s' _ _ hi hr; exact Option.some.inj hr ▸ hi.2.2.2
    | cons m ms ih =>
      intro s s' hm hc hi hr
      obtain ⟨s1, h1, h2⟩ := Option.bind_eq_some_iff.mp hr
      refine ih s1 s' (fun q hq => hm q (List.mem_cons_of_mem _ hq)) (hc.2 s1 h1) ?_ h2
      obtain ⟨i0, i1, i2, i3⟩ := hi
      obtain ⟨r, hr, rfl⟩ := step_some far s s1 m h1
      obtain ⟨⟨hn, him, hp, _⟩, hcs⟩ := pre_cases far s.D s.G s.t r hr
      obtain ⟨q1, q2, q3⟩ := hm m (by simp) r.2.1
      have hmk : marked (m.1 r.2.1) = marked r.2.1 := marked_motion q1 q2 q3
      have hmarks : Marks r.2.1 → Marks (m.1 r.2.1) := by
        intro hh i hi; rw [q1] at hi; rw [q3]; exact hh i hi
      rcases hcs with ⟨he, _, _, _, hside⟩ | ⟨e, he, _, _, _, _, _, hNr, hside⟩
      · simp only [he, List.append_nil]
        refine ⟨hp.trans i0, ?_, ?_, i3⟩
        · apply hmarks
          rcases hside with hside | ⟨_, hside⟩
          · intro i hi; rw [hn] at hi; rw [hside]; exact i1 i hi
          · rw [hside]; exact marks_assign _ _
        · rw [hmk]
          rcases hside with hside | ⟨hj, hside⟩
          · rw [marked_motion hn him hside]; exact i2
          · rw [hside, marked_assign, marked_confined _ _ (hc.1 (Or.inr hj))]; exact i2
      · have hl : (s.log ++ [e]).getLast? = some e := by simp
        simp only [he, hl, List.map_append, List.map_cons, List.map_nil, List.sum_append, List.sum_singleton]
        rcases hside with ⟨_, hdn, hside⟩ | ⟨ho, hdn, hside⟩
        · have hb := window_balance s.D.p s.G i1
          have hr' : (right s.D.p s.G : ℤ) = (count s.D.p s.G).Nr := by
            obtain ⟨_, _, _, h4, _⟩ := count_spec s.D.p s.G
            rw [h4]; rfl
          refine ⟨hp.trans i0, hmarks (hside ▸ marks_assign _ _), ?_, ?_⟩
          · rw [hmk, hside, marked_assign, hr', hb, i2, hdn]; ring
          · intro q hq
            simp only [Option.mem_def, Option.some.injEq] at hq
            rw [← hq, hNr, hb, i2, hdn]; ring
        · have hcf := marked_confined _ _ (hc.1 (Or.inl ho))
          have hr' : (right s.D.p s.G : ℤ) = (count s.D.p s.G).Nr := by
            obtain ⟨_, _, _, h4, _⟩ := count_spec s.D.p s.G
            rw [h4]; rfl
          refine ⟨hp.trans i0, hmarks ?_, ?_, ?_⟩
          · intro i hi; rw [hn] at hi; rw [hside]; exact i1 i hi
          · rw [hmk, marked_motion hn him hside, i2, hdn]; ring
          · intro q hq
            simp only [Option.mem_def, Option.some.injEq] at hq
            rw [← hq, hNr, ← hr', hcf, i2, hdn]; ring
  refine key ms (St.new far ids D G) s hm hc ⟨rfl, ?_, ?_, by simp [St.new]⟩ h
  · exact marks_assign D.p G
  · show ((marked (place _ (assignSide D.p G)) : ℕ) : ℤ) = _ + (([] : List Entry).map (·.dn)).sum
    have : marked (place (ids.map fun i => (i, fun _ => far)) (assignSide D.p G)) = marked (assignSide D.p G) := rfl
    rw [this, marked_assign]; simp

/-! ### A particle that crosses while the door is closed -/

/-- One particle of mass 1 on the line, at `x` with velocity `v`, marked `side`. -/
noncomputable def one (x v : ℝ) (side : ℤ) : Gas 0 := ⟨1, fun _ _ => x, fun _ _ => v, fun _ _ => 0, fun _ => 1, fun i => if i < 1 then side else 0⟩

/-- A direction demon at 0 with `tau` 1. -/
noncomputable def demon0 : Demon 0 := ⟨.direction, 0, 1, 0, 0, 0, fun _ _ => 0, fun _ _ => 0, true, false, [], 0, 0⟩

/-- Put the particles at `x`. -/
def goTo (x : ℝ) (G : Gas 0) : Gas 0 := ⟨G.n, fun _ _ => x, G.v, G.f, G.im, G.side⟩

/-- Give the particles the velocity `v`. -/
def speed (v : ℝ) (G : Gas 0) : Gas 0 := ⟨G.n, G.x, fun _ _ => v, G.f, G.im, G.side⟩

theorem motion_to (x : ℝ) : Motion (goTo x) := fun _ => ⟨rfl, rfl, rfl⟩

theorem motion_speed (v : ℝ) : Motion (speed v) := fun _ => ⟨rfl, rfl, rfl⟩

theorem right_one (x v : ℝ) (side : ℤ) : right 0 (one x v side) = if 0 < x then 1 else 0 := by
  unfold right movable one
  by_cases h : 0 < x
  · simp [h]
  · simp [h]

/-- The histories of the two examples below: the particle crosses to the left, which is rejected; the door closes, and it crosses all the same. -/
noncomputable def sneak : List ((Gas 0 → Gas 0) × ℝ) := [(goTo (-1), 1), (id, 1/2), (goTo (-1), 1/2), (id, 0)]

theorem count_one (x v : ℝ) (side : ℤ) (h : side = 0 ∨ side = 1) :
    (count 0 (one x v side)).Nr = (if 0 < x then 1 else 0) ∧ (count 0 (one x v side)).nr = (if x ≤ 0 ∧ side = 1 then 1 else 0) ∧
    (count 0 (one x v side)).er = (if x ≤ 0 ∧ side = 1 then 1/2 * (v * v) else 0) ∧
    (count 0 (one x v side)).el = (if 0 < x ∧ side = 0 then 1/2 * (v * v) else 0) ∧
    (count 0 (one x v side)).Er = (if 0 < x then 1/2 * (v * v) else 0) := by
  unfold count
  have hl : List.range (one x v side).n = [0] := rfl
  rw [hl, List.foldl_cons, List.foldl_nil]
  unfold countOne
  rw [if_neg (by simp [one])]
  have hk : (one x v side).ke 0 = 1/2 * (v * v) := by simp [Gas.ke, one]
  have hs : (one x v side).side 0 = side := by simp [one]
  have hx : getSide 0 ((one x v side).x 0) = if x ≤ 0 then 0 else 1 := rfl
  simp only [hk, hs, hx]
  by_cases hx : x ≤ 0
  · have hx' : ¬ 0 < x := not_lt.mpr hx
    rcases h with rfl | rfl <;> simp [hx']
  · have hx' : 0 < x := not_le.mp hx
    rcases h with rfl | rfl <;> simp [hx']

/-- **The balance of C163 is false when a particle crosses while the door is closed**: the recorded currents are `[0]`, and the recorded number on the right falls from 1 to 0. -/
theorem C163_negation_closed : ∃ s, Motions sneak ∧ run 20 sneak (St.new 20 [] demon0 (one 1 (-1) 1)) = some s ∧
    (s.log.map (·.dn)) = [0] ∧ (s.log.map (·.Nr)) = [0] ∧ right 0 (one 1 (-1) 1) = 1 := by
  have h0 : St.new 20 [] demon0 (one 1 (-1) 1) =
      ⟨⟨.direction, 0, 1, 0, 0, 1, fun _ _ => 1, fun _ _ => -1, true, false, [], 0, 0⟩, one 1 (-1) 1, 0, []⟩ := by
    simp [St.new, begin, demon0, one, place, assignSide, getSide]
    norm_num
    funext i; split <;> rfl
  have h1 : step 20 (St.new 20 [] demon0 (one 1 (-1) 1)) (goTo (-1), 1) =
      some ⟨⟨.direction, 0, 1, 0, 0, 1, fun _ _ => 1, fun _ _ => -1, true, false, [], 0, 0⟩, one (-1) (-1) 1, 1, []⟩ := by
    rw [h0]; unfold step pre entries
    norm_num
    rfl
  have h2 : step 20 ⟨⟨.direction, 0, 1, 0, 0, 1, fun _ _ => 1, fun _ _ => -1, true, false, [], 0, 0⟩, one (-1) (-1) 1, 1, []⟩ (id, 1/2) =
      some ⟨⟨.direction, 0, 1, 0, 0, 1, fun _ _ => 1, fun _ _ => -1, false, true, [], 0, 0⟩,
        place [] ⟨1, fun i => if i < 1 then fun _ => 1 else (one (-1) (-1) 1).x i, fun i => if i < 1 then fun _ => -1 else (one (-1) (-1) 1).v i, (one (-1) (-1) 1).f, (one (-1) (-1) 1).im, (one (-1) (-1) 1).side⟩, 1/2, []⟩ := by
    have hk : ¬ Kind.direction.keep (count 0 (one (-1) (-1) 1)) := by
      unfold Kind.keep; simp only
      rw [(count_one (-1) (-1) 1 (Or.inr rfl)).2.1]; norm_num
    have hc : (1:ℝ) ≤ 1 - 0 ∧ (0:ℝ) < 1 := by norm_num
    unfold step pre entries
    simp only [if_pos hc, if_pos, if_neg hk]
    rw [if_neg (by simp [one])]
    simp [one]
  have h3 : step 20 ⟨⟨.direction, 0, 1, 0, 0, 1, fun _ _ => 1, fun _ _ => -1, false, true, [], 0, 0⟩,
        place [] ⟨1, fun i => if i < 1 then fun _ => 1 else (one (-1) (-1) 1).x i, fun i => if i < 1 then fun _ => -1 else (one (-1) (-1) 1).v i, (one (-1) (-1) 1).f, (one (-1) (-1) 1).im, (one (-1) (-1) 1).side⟩, 1/2, []⟩ (goTo (-1), 1/2) =
      some ⟨⟨.direction, 0, 1, 0, 0, 1, fun _ _ => 1, fun _ _ => -1, false, false, [], 0, 0⟩, one (-1) (-1) 1, 1, []⟩ := by
    have hc : ¬ ((1:ℝ) ≤ 1/2 - 0 ∧ (0:ℝ) < 1/2) := by norm_num
    unfold step pre entries
    simp only [if_neg hc, if_true, place, List.foldl_nil, Option.map_some, List.append_nil, Option.some.injEq, St.mk.injEq, true_and, and_true, goTo, assignSide, one, Gas.mk.injEq]
    refine ⟨⟨?_, ?_⟩, by norm_num⟩
    · funext i k; simp
    · funext i
      by_cases hi : i < 1
      · simp [hi, getSide]
      · simp [hi]
  have h4 : ∃ s, step 20 ⟨⟨.direction, 0, 1, 0, 0, 1, fun _ _ => 1, fun _ _ => -1, false, false, [], 0, 0⟩, one (-1) (-1) 1, 1, []⟩ (id, 0) = some s ∧
      s.log.map (·.dn) = [0] ∧ s.log.map (·.Nr) = [0] := by
    have hc : (1:ℝ) ≤ 1 - 0 ∧ (0:ℝ) < 1 := by norm_num
    unfold step pre entries
    simp only [if_pos hc]
    refine ⟨_, rfl, by simp, ?_⟩
    have := (count_one (-1) (-1) 1 (Or.inr rfl)).1
    simp [this]
  obtain ⟨s, h4, h5, h6⟩ := h4
  refine ⟨s, ?_, ?_, h5, h6, ?_⟩
  · intro m hm
    simp only [sneak, List.mem_cons, List.not_mem_nil, or_false] at hm
    rcases hm with rfl | rfl | rfl | rfl
    · exact motion_to _
    · exact fun _ => ⟨rfl, rfl, rfl⟩
    · exact motion_to _
    · exact fun _ => ⟨rfl, rfl, rfl⟩
  · simp only [sneak, run, h1, h2, h3, h4, Option.bind_some]
  · rw [right_one]; simp

/-! ### Energies -/

/-- **C163, balance of energies (partial).** If no particle's kinetic energy changed during a window, the recorded current of energy is the change of the energy on the right since the
checkpoint `H`.
Missing: particles that interact: the recorded current is what the particles that crossed carry at the end of the window, and says nothing of energy that is exchanged in collisions or with
walls, see `C163_negation_energy`. -/
theorem C163_energy_partial (p : ℝ) (H G : Gas d) (hn : G.n = H.n) (him : G.im = H.im) (hs : ∀ i < G.n, G.side i = getSide p (H.x i))
    (hk : ∀ i < G.n, G.im i ≠ 0 → G.ke i = H.ke i) :
    (count p G).Er = (count p H).Er + ((count p G).el - (count p G).er) := by
  classical
  obtain ⟨_, _, _, _, h5, h6, _, h8⟩ := count_spec p G
  obtain ⟨_, _, _, _, _, _, _, k8⟩ := count_spec p H
  rw [h5, h6, h8, k8, movable_congr hn.symm him.symm]
  have hmem : ∀ i ∈ movable G, i < G.n ∧ G.im i ≠ 0 := fun i hi => by simpa [movable] using hi
  have e0 : ∑ i ∈ (movable G).filter (fun i => p < H.x i 0), H.ke i = ∑ i ∈ (movable G).filter (fun i => p < H.x i 0), G.ke i :=
    sum_congr rfl fun i hi => (hk i (hmem i (mem_filter.mp hi).1).1 (hmem i (mem_filter.mp hi).1).2).symm
  rw [e0]
  simp only [sum_filter]
  rw [← sum_sub_distrib, ← sum_add_distrib]
  refine sum_congr rfl fun i hi => ?_
  rw [hs i (hmem i hi).1]
  unfold getSide
  by_cases a : p < G.x i 0 <;> by_cases b : p < H.x i 0
  · simp [a, b, not_le.mpr a, not_le.mpr b]
  · simp [a, b, not_le.mpr a, not_lt.mp b]
  · simp [a, b, not_lt.mp a, not_le.mpr b]
  · simp [a, b, not_lt.mp a, not_lt.mp b]

/-- **The balance of energies of C163 is false in general**: nothing crosses, the recorded current is 0, and the recorded energy on the right has gone from 1/2 to 2. -/
theorem C163_negation_energy : ∃ s, Motions [(speed 2, 1), (id, 0)] ∧ run 20 [(speed 2, 1), (id, 0)] (St.new 20 [] demon0 (one 1 1 1)) = some s ∧
    (s.log.map (·.de)) = [0] ∧ (s.log.map (·.Er)) = [2] ∧ (count 0 (one 1 1 1)).Er = 1/2 := by
  have h0 : St.new 20 [] demon0 (one 1 1 1) =
      ⟨⟨.direction, 0, 1, 0, 0, 1, fun _ _ => 1, fun _ _ => 1, true, false, [], 0, 0⟩, one 1 1 1, 0, []⟩ := by
    simp [St.new, begin, demon0, one, place, assignSide, getSide]
    norm_num
    funext i; split <;> rfl
  have h1 : step 20 (St.new 20 [] demon0 (one 1 1 1)) (speed 2, 1) =
      some ⟨⟨.direction, 0, 1, 0, 0, 1, fun _ _ => 1, fun _ _ => 1, true, false, [], 0, 0⟩, one 1 2 1, 1, []⟩ := by
    rw [h0]; unfold step pre entries
    norm_num
    rfl
  obtain ⟨c1, c2, c3, c4, c5⟩ := count_one 1 2 1 (Or.inr rfl)
  have h2 : ∃ s, step 20 ⟨⟨.direction, 0, 1, 0, 0, 1, fun _ _ => 1, fun _ _ => 1, true, false, [], 0, 0⟩, one 1 2 1, 1, []⟩ (id, 0) = some s ∧
      s.log.map (·.de) = [0] ∧ s.log.map (·.Er) = [2] := by
    have hk : Kind.direction.keep (count 0 (one 1 2 1)) := by
      unfold Kind.keep; simp only
      rw [c2, c3]; norm_num
    have hc : (1:ℝ) ≤ 1 - 0 ∧ (0:ℝ) < 1 := by norm_num
    unfold step pre entries
    simp only [if_pos hc, if_pos, if_pos hk]
    refine ⟨_, rfl, ?_, ?_⟩
    · simp [c3, c4]
    · simp [c5]
  obtain ⟨s, h2, h3, h4⟩ := h2
  refine ⟨s, ?_, by simp only [run, h1, h2, Option.bind_some], h3, h4, ?_⟩
  · intro m hm
    simp only [List.mem_cons, List.not_mem_nil, or_false] at hm
    rcases hm with rfl | rfl
    · exact motion_speed _
    · exact fun _ => ⟨rfl, rfl, rfl⟩
  · rw [(count_one 1 1 1 (Or.inr rfl)).2.2.2.2]; norm_num

/-- The hypotheses of the balance are met, by a history in which a window is kept and a particle crosses to the right. -/
example : Motions [(goTo 1, 1), (id, 0)] ∧ Confined 20 [(goTo 1, 1), (id, 0)] (St.new 20 [] demon0 (one (-1) 1 0)) ∧
    ∃ s, run 20 [(goTo 1, 1), (id, 0)] (St.new 20 [] demon0 (one (-1) 1 0)) = some s ∧ s.log.map (·.Nr) = [1] := by
  have h0 : St.new 20 [] demon0 (one (-1) 1 0) =
      ⟨⟨.direction, 0, 1, 0, 0, 1, fun _ _ => -1, fun _ _ => 1, true, false, [], 0, 0⟩, one (-1) 1 0, 0, []⟩ := by
    simp [St.new, begin, demon0, one, place, assignSide, getSide]
  have h1 : step 20 (St.new 20 [] demon0 (one (-1) 1 0)) (goTo 1, 1) =
      some ⟨⟨.direction, 0, 1, 0, 0, 1, fun _ _ => -1, fun _ _ => 1, true, false, [], 0, 0⟩, one 1 1 0, 1, []⟩ := by
    rw [h0]; unfold step pre entries
    norm_num
    rfl
  obtain ⟨c1, c2, c3, c4, c5⟩ := count_one 1 1 0 (Or.inl rfl)
  have h2 : ∃ s, step 20 ⟨⟨.direction, 0, 1, 0, 0, 1, fun _ _ => -1, fun _ _ => 1, true, false, [], 0, 0⟩, one 1 1 0, 1, []⟩ (id, 0) = some s ∧
      s.log.map (·.Nr) = [1] := by
    have hk : Kind.direction.keep (count 0 (one 1 1 0)) := by
      unfold Kind.keep; simp only
      rw [c2, c3]; norm_num
    have hc : (1:ℝ) ≤ 1 - 0 ∧ (0:ℝ) < 1 := by norm_num
    unfold step pre entries
    simp only [if_pos hc, if_pos, if_pos hk]
    exact ⟨_, rfl, by simp [c1]⟩
  obtain ⟨s, h2, h3⟩ := h2
  refine ⟨?_, ?_, s, by simp only [run, h1, h2, Option.bind_some], h3⟩
  · intro m hm
    simp only [List.mem_cons, List.not_mem_nil, or_false] at hm
    rcases hm with rfl | rfl
    · exact motion_to _
    · exact fun _ => ⟨rfl, rfl, rfl⟩
  · refine ⟨by rw [h0]; simp, fun s' hs => ?_⟩
    rw [h1] at hs
    obtain rfl := Option.some.inj hs
    exact ⟨by simp, fun _ _ => trivial⟩

/-! ### The animation and the other series -/

/-- The animation, `dataobjects/positiondata.hpp`: its frames and the time of the last one. -/
structure Anim (α : Type) where
  frames : List α
  last : ℝ

/-- `animate_last_recording` and `animate_last_size` after `checkpoint_data`, `modifiers/demon.cpp:307-311`; the object may not have been found yet. -/
def checkpointAnim {α : Type} (known : Bool) (a : Anim α) (m : ℝ × ℕ) : ℝ × ℕ := if known then (a.last, a.frames.length) else m

/-- Lines 334-338 of `revert_to_last_checkpoint`, `modifiers/demon.cpp`: `setLastRecording` and `resize`, which fills up with empty frames. -/
def revertAnim {α : Type} (empty : α) (a : Anim α) (m : ℝ × ℕ) : Anim α :=
  ⟨a.frames.take m.2 ++ List.replicate (m.2 - a.frames.length) empty, m.1⟩

/-- **C163, animation.** When the demon goes back to a checkpoint at which it knew the animation, the animation is that of the checkpoint: the frames that were stored since are gone, and the
next one is due when it was due then. -/
theorem C163_animation {α : Type} (empty : α) (a : Anim α) (m : ℝ × ℕ) (later : List α) (last : ℝ) :
    revertAnim empty ⟨a.frames ++ later, last⟩ (checkpointAnim true a m) = a := by
  unfold revertAnim checkpointAnim
  simp

/-- **C163 is false of the first window.** The first checkpoint is made before the animation is looked for (`modifiers/demon.cpp:50` and `68-71`), so that going back to it deletes all the
frames, also those that an earlier run stored, and puts the time of the last frame at 0. -/
theorem C163_negation_first_window {α : Type} (empty : α) (a : Anim α) : revertAnim empty a (checkpointAnim false a (0, 0)) = ⟨[], 0⟩ := by
  unfold revertAnim checkpointAnim
  simp

/-- **C163 is false of every other data object.** An object that recorded at time `d.last`, in a window that is then rejected, keeps this entry of the rejected motion; and as its clock is not put
back, it records nothing of the motion that replaces it, at whatever times it is called, until the time is `d.last + d.delay`. -/
theorem C163_negation_other_series (start : ℝ) (d : Recording.DO ℝ) : ∀ ts : List ℝ, (∀ t ∈ ts, t < d.last + d.delay) →
    Recording.record start true d ts = ([], d) := by
  intro ts
  induction ts with
  | nil => intro _; rfl
  | cons t ts ih =>
    intro h
    have hm : Recording.masterStep start true d t = (false, d) := by
      unfold Recording.masterStep Recording.check
      have : t - d.last < d.delay := by linarith [h t (by simp)]
      simp [this]
    rw [Recording.record_cons, hm, ih fun q hq => h q (List.mem_cons_of_mem _ hq)]
    simp

/-! ## C164: the door -/

/-- **C164 (partial).** In every run, each time the door closes its particles are put back at the places they had when the run began, and each time it opens they are put at
`(far, ..., far)`.
Missing: a second run, whose door places are those of the open door (`C164_negation_second_run`), and that the open door is out of the way: the boundary conditions move its particles back into the box
(`C164_negation_inside`). -/
theorem C164_places_partial (far : ℝ) (ids : List ℕ) (hd : ids.Nodup) (D : Demon d) (G : Gas d) (ms : List ((Gas d → Gas d) × ℝ)) (s : St d)
    (h : run far ms (St.new far ids D G) = some s) (r : Demon d × Gas d × ℝ) (hr : pre far s.D s.G s.t = some r) (hc : r.1.isOpen ≠ s.D.isOpen) :
    ∀ i ∈ ids, r.2.1.x i = if r.1.isOpen then fun _ => far else G.x i := by
  have hdoor : s.D.door = ids.map fun i => (i, G.x i) := by
    refine run_ind far (fun s : St d => s.D.door = ids.map fun i => (i, G.x i)) ?_ ms (St.new far ids D G) s rfl h
    intro s s' m hi hs
    obtain ⟨r, hr, rfl⟩ := step_some far s s' m hs
    exact (pre_cases far s.D s.G s.t r hr).1.2.2.2.2.2.1.trans hi
  intro i hi
  unfold pre at hr
  by_cases h1 : s.D.tau ≤ s.t - s.D.last ∧ s.D.start < s.t
  · rw [if_pos h1] at hr
    by_cases h2 : s.D.isOpen = true
    · rw [if_pos h2] at hr
      by_cases h3 : s.D.kind.keep (count s.D.p s.G)
      · rw [if_pos h3] at hr
        obtain rfl := Option.some.inj hr
        exact absurd h2.symm hc
      · rw [if_neg h3] at hr
        by_cases h4 : s.G.n ≠ s.D.ckn
        · rw [if_pos h4] at hr; exact absurd hr (by simp)
        · rw [if_neg h4] at hr
          obtain rfl := Option.some.inj hr
          rw [hdoor]
          exact place_of_mem _ (by simpa [List.map_map, Function.comp_def] using hd) _ (i, G.x i) (List.mem_map.mpr ⟨i, hi, rfl⟩)
    · rw [if_neg h2] at hr
      obtain rfl := Option.some.inj hr
      rw [hdoor]
      exact place_of_mem _ (by simpa [List.map_map, Function.comp_def] using hd) _ (i, fun _ => far) (List.mem_map.mpr ⟨(i, G.x i), List.mem_map.mpr ⟨i, hi, rfl⟩, rfl⟩)
  · rw [if_neg h1] at hr
    by_cases h2 : s.D.justClosed = true
    · rw [if_pos h2] at hr
      obtain rfl := Option.some.inj hr
      exact absurd rfl hc
    · rw [if_neg h2] at hr
      obtain rfl := Option.some.inj hr
      exact absurd rfl hc

/-- **C164 is false of a second run.** If a run ends while the door is open, with its particles where the door put them, the second run notes these as the places of the door: when the door closes, its
particles stay far away and the wall has a hole for good. -/
theorem C164_negation_second_run (far : ℝ) (ids : List ℕ) (hd : ids.Nodup) (D : Demon d) (G : Gas d) (hopen : ∀ i ∈ ids, G.x i = fun _ => far)
    (ms : List ((Gas d → Gas d) × ℝ)) (s : St d)
    (h : run far ms (St.new far ids D G) = some s) (r : Demon d × Gas d × ℝ) (hr : pre far s.D s.G s.t = some r) (hc : r.1.isOpen ≠ s.D.isOpen) :
    ∀ i ∈ ids, r.2.1.x i = fun _ => far := by
  intro i hi
  rw [C164_places_partial far ids hd D G ms s h r hr hc i hi]
  split
  · rfl
  · exact hopen i hi

/-- Every state right after `pre_integrate` has the door open and far away, so that a run that ends before the first window is rejected, and in which walls do not move, leads to
the situation of `C164_negation_second_run`. -/
theorem C164_opened (far : ℝ) (ids : List ℕ) (hd : ids.Nodup) (D : Demon d) (G : Gas d) :
    ∀ i ∈ ids, (St.new far ids D G).G.x i = fun _ => far := by
  intro i hi
  exact place_of_mem (ids.map fun i => (i, fun _ => far)) (by simpa [List.map_map, Function.comp_def] using hd) (assignSide D.p G) (i, fun _ => far)
    (List.mem_map.mpr ⟨i, hi, rfl⟩)

/-- **C164 is false of periodic and of reflecting boxes.** The open door is at twice the right end of the box, which a periodic boundary always moves back into the box; if the box is
symmetric about 0 the place is the middle of the box, where `creators/wallcreator.cpp:78-83` puts the partition, and the same holds of a reflecting boundary; if the box begins at 0, it is the corner. -/
theorem C164_negation_inside (lo hi : ℝ) (h : lo < hi) :
    (lo ≤ Boundary.wrap1 lo hi (2 * hi) ∧ Boundary.wrap1 lo hi (2 * hi) ≤ hi) ∧
    (lo = -hi → Boundary.wrap1 lo hi (2 * hi) = (lo + hi) / 2) ∧
    (lo = -hi → (Boundary.reflect1 lo hi (⟨2 * hi, 0, 0⟩ : Boundary.Entry ℝ)).x = (lo + hi) / 2) ∧
    (lo = 0 → Boundary.wrap1 lo hi (2 * hi) = 0) := by
  refine ⟨Boundary.wrap1_range h, ?_, ?_, ?_⟩
  · rintro rfl
    have hp : 0 < hi := by linarith
    unfold Boundary.wrap1 Boundary.fmod Boundary.trunc
    rw [if_neg (by linarith), if_pos (by linarith)]
    have e : (2 * hi - -hi) / (hi - -hi) = 3 / 2 := by field_simp; ring
    rw [e, if_pos (by norm_num)]
    have : ⌊(3 / 2 : ℝ)⌋ = 1 := by rw [Int.floor_eq_iff]; norm_num
    rw [this]; push_cast; ring
  · rintro rfl
    have hp : 0 < hi := by linarith
    unfold Boundary.reflect1
    rw [if_neg (by simp only; linarith), if_pos (by simp only; linarith)]
    ring
  · rintro rfl
    unfold Boundary.wrap1 Boundary.fmod Boundary.trunc
    rw [if_neg (by linarith), if_pos (by linarith)]
    have e : (2 * hi - 0) / (hi - 0) = ((2 : ℤ) : ℝ) := by rw [sub_zero, sub_zero]; push_cast; field_simp
    rw [e, if_pos (by norm_num), Int.floor_intCast]; push_cast; ring

/-- The hypotheses of C164 are met: the door is rejected and closes in the history `sneak`, with a door of one wall particle. -/
example : ([1] : List ℕ).Nodup ∧ ∃ r, pre 20 ⟨.direction, 0, 1, 0, 0, 1, fun _ _ => 1, fun _ _ => -1, true, false, [(1, fun _ => 7)], 0, 0⟩ (one (-1) (-1) 1) 1 = some r ∧
    r.1.isOpen ≠ true := by
  refine ⟨by simp, ?_⟩
  have hk : ¬ Kind.direction.keep (count 0 (one (-1) (-1) 1)) := by
    unfold Kind.keep; simp only
    rw [(count_one (-1) (-1) 1 (Or.inr rfl)).2.1]; norm_num
  have hc : (1:ℝ) ≤ 1 - 0 ∧ (0:ℝ) < 1 := by norm_num
  unfold pre
  simp only [if_pos hc, if_pos, if_neg hk]
  rw [if_neg (by simp [one])]
  exact ⟨_, rfl, by simp⟩

end Verif.DemonRecords
