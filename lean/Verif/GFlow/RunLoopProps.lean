import Verif.GFlow.RunLoop
import Mathlib.Algebra.Order.Floor.Semiring
import Mathlib.Data.Rat.Floor
import Mathlib.Tactic.IntervalCases
import Mathlib.Tactic.NormNum
import Mathlib.Tactic.FieldSimp

/-! # The main loop: property theorems (C20, C21, C22) -/

namespace Verif.RunLoop

variable {K : Type} [Field K] [LinearOrder K] [IsStrictOrderedRing K]

open Finset

/-- Time elapsed after `i` passes. -/
def timeAfter (e : Env K) (i : ℕ) : K := ∑ j ∈ range i, e.dt j

/-- The modifiers present at the start of pass `i`. -/
def modsAt (e : Env K) (m0 : List ℕ) : ℕ → List ℕ
  | 0 => m0
  | i + 1 => (modsAt e m0 i).filter (fun m => !e.wantsRemoval i m)

theorem loop_spec (e : Env K) (hdt : ∀ i, 0 < e.dt i) (T : K) (hT : 0 < T) (N : ℕ)
    (hN : e.stop N = true ∨ T ≤ timeAfter e N) (m0 : List ℕ) (s0 : State K) :
    ∀ (k i : ℕ), i + k = N → (∀ n, i ≤ n → n < N → e.stop n = false ∧ timeAfter e n < T) →
    ∀ (s : State K), s.running = true → s.requested = T → s.iter = i → s.elapsed = timeAfter e i →
      s.modifiers = modsAt e m0 i → s.bodies = s0.bodies → s.bonded = s0.bonded → s.addIntegrators = s0.addIntegrators →
      ∀ fuel, k + 1 ≤ fuel → ∃ t, loop e fuel s = some t ∧ t.iter = N + 1 ∧ t.elapsed = timeAfter e (N + 1) ∧
        t.total = s.total + (timeAfter e (N + 1) - timeAfter e i) ∧ t.totalRequested = s.totalRequested ∧
        t.running = false ∧ t.modifiers = modsAt e m0 (N + 1) ∧ t.bodies = s0.bodies ∧
        t.addIntegrators = s0.addIntegrators ∧
        (s.terminated = false → t.terminationTime = timeAfter e N) ∧
        t.trace = s.trace ++ ((List.range' i (k + 1)).map fun j =>
          block e s0 (modsAt e m0 j) (modsAt e m0 (j + 1))).flatten := by
  intro k
  induction k with
  | zero =>
    intro i hi hlt s hrun hreq hit hel hmod hbod hbon hadd fuel hfuel
    obtain ⟨fuel, rfl⟩ : ∃ f, fuel = f + 1 := ⟨fuel - 1, by omega⟩
    have hiN : i = N := by omega
    subst hiN
    obtain ⟨h1, h2, h3, h4, h5, h6, h7, h8, h9, h10, h11, h12, h13⟩ := iteration_spec e s _ (hdt _) rfl
    have hstop : (iteration e s).running = false := by
      rw [← Bool.not_eq_true]
      rw [h11]
      rintro ⟨_, h, h'⟩
      rw [hit] at h
      rcases hN with hN | hN
      · rw [hN] at h; cases h
      · rw [hel, hreq] at h'; exact absurd hN (not_le.2 h')
    have hts : timeAfter e (i + 1) = timeAfter e i + e.dt i := sum_range_succ _ _
    have hstop2 : (e.stop s.iter || decide (s.requested ≤ s.elapsed)) = true := by
      rw [hit, hreq, hel]
      rcases hN with hN | hN <;> simp [hN]
    refine ⟨iteration e s, ?_, by rw [h1, hit], by rw [h2, hel, hit, hts], ?_, h5, hstop, ?_, by rw [h7, hbod], by rw [h9, hadd], ?_, ?_⟩
    · have hpos : s.running = true ∧ 0 < s.requested := ⟨hrun, by rw [hreq]; exact hT⟩
      simp only [loop, if_pos hpos]
      cases fuel <;> simp [loop, hstop]
    · rw [h3, hit, hts]; ring
    · rw [h6, hit, hmod]; rfl
    · intro htm; rw [h13, hstop2, htm]; simp [hel]
    · rw [h10]
      simp only [block, hmod, hit, hbod, hbon, hadd]
      simp [modsAt]
  | succ k ih =>
    intro i hi hlt s hrun hreq hit hel hmod hbod hbon hadd fuel hfuel
    obtain ⟨fuel, rfl⟩ : ∃ f, fuel = f + 1 := ⟨fuel - 1, by omega⟩
    obtain ⟨h1, h2, h3, h4, h5, h6, h7, h8, h9, h10, h11, h12, h13⟩ := iteration_spec e s _ (hdt _) rfl
    obtain ⟨hst, hti⟩ := hlt i (le_refl _) (by omega)
    have hts : timeAfter e (i + 1) = timeAfter e i + e.dt i := sum_range_succ _ _
    have hrun' : (iteration e s).running = true := by
      rw [h11]; exact ⟨hrun, by rw [hit]; exact hst, by rw [hel, hreq]; exact hti⟩
    obtain ⟨t, t1, t2, t3, t4, t5, t6, t7, t8, t9, t10, t11⟩ := ih (i + 1) (by omega) (fun n hn => hlt n (by omega)) (iteration e s)
      hrun' (by rw [h4, hreq]) (by rw [h1, hit]) (by rw [h2, hel, hit, hts]) (by rw [h6, hit, hmod]; rfl)
      (by rw [h7, hbod]) (by rw [h8, hbon]) (by rw [h9, hadd]) fuel (by omega)
    refine ⟨t, ?_, t2, t3, ?_, by rw [t5, h5], t6, t7, t8, t9, ?_, ?_⟩
    · have hpos : s.running = true ∧ 0 < s.requested := ⟨hrun, by rw [hreq]; exact hT⟩
      simp only [loop, if_pos hpos, t1]
    · rw [t4, h3, hit, hts]; ring
    · intro htm
      apply t10
      rw [h12, htm, hit, hst, hreq, hel]
      simpa using hti
    · rw [t11, h10]
      rw [List.range'_succ (n := k + 1)]
      simp only [block, hmod, hit, hbod, hbon, hadd, List.map_cons, List.flatten_cons]
      simp [modsAt]

/-- The state of a run from beginning to end. -/
theorem run_spec (e : Env K) (hdt : ∀ i, 0 < e.dt i) (hnum : e.number ≠ 0) (T : K) (hT : 0 < T) (N : ℕ)
    (hN : e.stop N = true ∨ T ≤ timeAfter e N) (hlt : ∀ n < N, e.stop n = false ∧ timeAfter e n < T) (s : State K)
    (fuel : ℕ) (hf : N + 1 ≤ fuel) :
    ∃ t, run e T fuel s = some t ∧ t.iter = N + 1 ∧ t.elapsed = timeAfter e (N + 1) ∧
      t.total = s.total + timeAfter e (N + 1) ∧ t.totalRequested = s.totalRequested + T ∧ t.requested = 0 ∧
      t.terminationTime = timeAfter e N ∧ t.modifiers = modsAt e s.modifiers (N + 1) ∧
      t.trace = s.trace ++
        ((s.modifiers.map fun m => (Who.modifier m, Hook.preIntegrate)) ++
          (s.bodies.map fun m => (Who.body m, Hook.preIntegrate)) ++
          [(.simData, .preIntegrate), (.integrator, .preIntegrate)] ++
          (s.addIntegrators.map fun m => (Who.addIntegrator m, Hook.preIntegrate)) ++
          [(.handler, .preIntegrate), (.dataMaster, .preIntegrate), (.forceMaster, .preIntegrate)]) ++
        ((List.range (N + 1)).map fun j =>
          block e s (modsAt e s.modifiers j) (modsAt e s.modifiers (j + 1))).flatten ++
        ([(.simData, .postIntegrate), (.integrator, .postIntegrate)] ++
          (s.addIntegrators.map fun m => (Who.addIntegrator m, Hook.postIntegrate)) ++
          [(.handler, .postIntegrate), (.dataMaster, .postIntegrate), (.forceMaster, .postIntegrate)] ++
          ((modsAt e s.modifiers (N + 1)).map fun m => (Who.modifier m, Hook.postIntegrate))) := by
  obtain ⟨t, t1, t2, t3, t4, t5, t6, t7, t8, t9, t10, t11⟩ := loop_spec e hdt T hT N hN s.modifiers s N 0 (by simp)
    (fun n _ h => hlt n h) (preIntegrate { s with requested := T, totalRequested := s.totalRequested + T })
    rfl rfl rfl (by simp [preIntegrate, State.call, timeAfter]) rfl rfl rfl rfl fuel hf
  refine ⟨postIntegrate t, ?_, by simp [postIntegrate, State.call, t2], by simp [postIntegrate, State.call, t3], ?_, ?_,
    by simp [postIntegrate, State.call], ?_, by simp [postIntegrate, State.call, t7], ?_⟩
  · unfold run
    simp only [hT, if_true, hnum, if_false, t1, Option.map_some]
  · simp [postIntegrate, State.call, t4, preIntegrate, timeAfter]
  · simp [postIntegrate, State.call, t5, preIntegrate]
  · simp only [postIntegrate, State.call]; exact t10 rfl
  · simp [postIntegrate, State.call, t11, preIntegrate, t7, t9, List.range_eq_range']

/-! ## C20 -/

/-- **C20.** A non-empty system, constant time step `dt > 0`, nobody calls `terminate`: `run(T)` stops (for every
large enough bound on the passes, with the same result) after exactly `⌈T/dt⌉ + 1` iterations; the
elapsed time is iterations × `dt`, at least `T + dt` and less than `T + 2·dt`; total time and total requested
time grow accordingly, and the request is used up. -/
theorem C20_run_time [FloorSemiring K] (e : Env K) (dt : K) (hdt : 0 < dt) (hc : ∀ i, e.dt i = dt) (hs : ∀ i, e.stop i = false)
    (hnum : e.number ≠ 0) (T : K) (hT : 0 < T) (s : State K) (fuel : ℕ) (hf : ⌈T / dt⌉₊ + 1 ≤ fuel) :
    ∃ t, run e T fuel s = some t ∧ t.iter = ⌈T / dt⌉₊ + 1 ∧ t.elapsed = t.iter * dt ∧
      T + dt ≤ t.elapsed ∧ t.elapsed < T + 2 * dt ∧
      t.total = s.total + t.elapsed ∧ t.totalRequested = s.totalRequested + T ∧ t.requested = 0 := by
  have htime : ∀ n, timeAfter e n = n * dt := by intro n; simp [timeAfter, hc]
  have h1 : T ≤ (⌈T / dt⌉₊ : K) * dt := by
    rw [← div_le_iff₀ hdt]; exact Nat.le_ceil _
  have h2 : (⌈T / dt⌉₊ : K) * dt < T + dt := by
    have := Nat.ceil_lt_add_one (div_pos hT hdt).le
    calc (⌈T / dt⌉₊ : K) * dt < (T / dt + 1) * dt := mul_lt_mul_of_pos_right this hdt
      _ = T + dt := by field_simp
  obtain ⟨t, r1, r2, r3, r4, r5, r6, _⟩ := run_spec e (fun i => by rw [hc]; exact hdt) hnum T hT ⌈T / dt⌉₊
    (Or.inr (by rw [htime]; exact h1)) (fun n hn => ⟨hs n, by
      rw [htime, ← lt_div_iff₀ hdt]; exact Nat.lt_ceil.1 hn⟩) s fuel hf
  have he : t.elapsed = (⌈T / dt⌉₊ : K) * dt + dt := by rw [r3, htime]; push_cast; ring
  refine ⟨t, r1, r2, ?_, by rw [he]; linarith, by rw [he]; linarith, by rw [r4, ← r3], r5, r6⟩
  rw [r2, he]; push_cast; ring

/-- Concrete instance: `T = 1`, `dt = 1/4`. -/
example : (0 : ℚ) < 1 / 4 ∧ (0 : ℚ) < 1 ∧ ⌈(1 : ℚ) / (1 / 4)⌉₊ = 4 := by norm_num

/-- **C20, adaptive steps and early termination.** For any positive time steps: the loop stops after pass number `N` (counted from
0), where `N` is the first pass in which somebody calls `terminate()` or that starts at or after the requested time; the
iteration counter is `N+1`, the elapsed time the sum of the steps, and the recorded termination time is the time at
which pass `N` started. -/
theorem C20_stops_at_first (e : Env K) (hdt : ∀ i, 0 < e.dt i) (hnum : e.number ≠ 0) (T : K) (hT : 0 < T) (N : ℕ)
    (hN : e.stop N = true ∨ T ≤ ∑ j ∈ range N, e.dt j)
    (hlt : ∀ n < N, e.stop n = false ∧ ∑ j ∈ range n, e.dt j < T) (s : State K) (fuel : ℕ) (hf : N + 1 ≤ fuel) :
    ∃ t, run e T fuel s = some t ∧ t.iter = N + 1 ∧ t.elapsed = ∑ j ∈ range (N + 1), e.dt j ∧
      t.total = s.total + t.elapsed ∧ t.terminationTime = ∑ j ∈ range N, e.dt j ∧ t.requested = 0 := by
  obtain ⟨t, r1, r2, r3, r4, _, r6, r7, _⟩ := run_spec e hdt hnum T hT N hN hlt s fuel hf
  exact ⟨t, r1, r2, r3, by rw [r4, ← r3], r7, r6⟩

/-- Hypotheses of `C20_stops_at_first` are satisfiable: steps 1, 1/2, 1/2, ... and a request of 2. -/
example : let dt : ℕ → ℚ := fun i => if i = 0 then 1 else 1 / 2
    (∀ i, 0 < dt i) ∧ (2 : ℚ) ≤ ∑ j ∈ range 3, dt j ∧ ∀ n < 3, ∑ j ∈ range n, dt j < 2 := by
  intro dt
  refine ⟨fun i => by simp only [dt]; split <;> norm_num, by simp [dt, sum_range_succ]; norm_num, ?_⟩
  intro n hn
  interval_cases n <;> norm_num [dt, sum_range_succ]

omit [IsStrictOrderedRing K] in
/-- **C20, empty system.** With no particles `run(T)` only advances the clocks; but the request is not used up, so a
following `run()` without argument advances the clocks by `T` again. -/
theorem C20_empty_system (e : Env K) (hnum : e.number = 0) (T : K) (hT : 0 < T) (s : State K) (f1 f2 : ℕ) :
    ∃ t u, run e T f1 s = some t ∧ t.elapsed = s.elapsed + T ∧ t.total = s.total + T ∧ t.trace = s.trace ∧
      t.iter = s.iter ∧ t.requested = T ∧
      run e 0 f2 t = some u ∧ u.total = s.total + T + T := by
  refine ⟨{ s with requested := T, totalRequested := s.totalRequested + T, elapsed := s.elapsed + T, total := s.total + T },
    { s with requested := T, totalRequested := s.totalRequested + T + T, elapsed := s.elapsed + T + T, total := s.total + T + T },
    by simp [run, hT, hnum], rfl, rfl, rfl, rfl, rfl, by simp [run, hnum], rfl⟩

/-! ## C21 -/

/-- The order in which an iteration is documented to call its components (`gflow.hpp`, `base/base.hpp:39-45`): a number for
each call; pre-step, pre-forces, clearing and boundary forces, interactions, bonds, bodies, post-forces,
post-step; inside of a phase modifiers, (simData), integrator, additional integrators, dataMaster, handler. -/
def rank : Event → ℕ
  | (w, h) =>
    let phase := match h with
      | .preIntegrate => 0 | .preStep => 1 | .preForces => 2 | .clearForces => 3 | .reflect => 4 | .repulse => 5
      | .attract => 6 | .interact => 7 | .interactGhosts => 8 | .bondedInteract => 9 | .correct => 10
      | .postForces => 11 | .postStep => 12 | .postIntegrate => 13
    let who := match w with
      | .modifier _ => 0 | .simData => 1 | .integrator => 2 | .addIntegrator _ => 3 | .dataMaster => 4 | .handler => 5
      | _ => 0
    10 * phase + who

/-- How often each call is due in one iteration, given the registered components. -/
def due (useForces : Bool) (bodies bonded addInts before after : List ℕ) : Event → ℕ
  | (.modifier m, .preStep) | (.modifier m, .preForces) => before.count m
  | (.modifier m, .postForces) | (.modifier m, .postStep) => after.count m
  | (.integrator, .preStep) | (.integrator, .preForces) | (.integrator, .postForces) | (.integrator, .postStep) => 1
  | (.dataMaster, .preStep) | (.dataMaster, .preForces) | (.dataMaster, .postForces) | (.dataMaster, .postStep) => 1
  | (.handler, .preStep) | (.handler, .preForces) | (.handler, .postForces) | (.handler, .postStep) => 1
  | (.addIntegrator i, .preStep) | (.addIntegrator i, .preForces) | (.addIntegrator i, .postForces)
  | (.addIntegrator i, .postStep) => addInts.count i
  | (.simData, .postForces) => 1
  | (.gflow, .clearForces) | (.gflow, .reflect) | (.gflow, .repulse) | (.gflow, .attract) => 1
  | (.forceMaster, .interact) | (.forceMaster, .interactGhosts) => if useForces then 1 else 0
  | (.bonded b, .bondedInteract) => if useForces then bonded.count b else 0
  | (.body b, .correct) => bodies.count b
  | _ => 0

theorem count_map_hook (f : ℕ → Who) (hf : Function.Injective f) (h h' : Hook) (k : ℕ) (l : List ℕ) :
    (l.map fun m => (f m, h)).count (f k, h') = if h = h' then l.count k else 0 := by
  split
  · next hh =>
    subst hh
    rw [← List.count_map_of_injective l (fun m => (f m, h)) (fun a b hab => hf (Prod.mk.inj hab).1)]
  · next hh =>
    rw [List.count_eq_zero]
    simp [hh]

theorem count_map_other (f : ℕ → Who) (w : Who) (hw : ∀ m, f m ≠ w) (h h' : Hook) (l : List ℕ) :
    (l.map fun m => (f m, h)).count (w, h') = 0 := by
  rw [List.count_eq_zero]
  simp [hw]

omit [Field K] [LinearOrder K] [IsStrictOrderedRing K] in
theorem block_count (e : Env K) (s : State K) (before after : List ℕ) (ev : Event) :
    (block e s before after).count ev = due e.useForces s.bodies s.bonded s.addIntegrators before after ev := by
  have i1 : Function.Injective Who.modifier := fun a b h => by cases h; rfl
  have i2 : Function.Injective Who.addIntegrator := fun a b h => by cases h; rfl
  have i3 : Function.Injective Who.bonded := fun a b h => by cases h; rfl
  have i4 : Function.Injective Who.body := fun a b h => by cases h; rfl
  obtain ⟨w, h⟩ := ev
  have hforces : (if e.useForces = true then [(Who.forceMaster, Hook.interact), (Who.forceMaster, Hook.interactGhosts)] ++
      (s.bonded.map fun b => (Who.bonded b, Hook.bondedInteract)) else []).count (w, h) =
      if e.useForces = true then ([(Who.forceMaster, Hook.interact), (Who.forceMaster, Hook.interactGhosts)] ++
      (s.bonded.map fun b => (Who.bonded b, Hook.bondedInteract))).count (w, h) else 0 := by
    split <;> simp
  unfold block
  simp only [List.count_append, hforces]
  cases w <;>
  · simp only [count_map_hook _ i1, count_map_hook _ i2, count_map_hook _ i3, count_map_hook _ i4, count_map_other,
      List.count_cons, List.count_nil, ne_eq, reduceCtorEq, not_false_eq_true, implies_true, beq_iff_eq, Prod.mk.injEq, false_and,
      if_false, true_and, Nat.add_zero, Nat.zero_add, ite_self]
    cases h <;> simp [due]

/-- Sorted by rank, with all ranks in a range. -/
def Seg (l : List Event) (a b : ℕ) : Prop :=
  l.Pairwise (fun x y => rank x ≤ rank y) ∧ (∀ x ∈ l, a ≤ rank x ∧ rank x ≤ b) ∧ a ≤ b

theorem Seg.app {l1 l2 : List Event} {a b c d : ℕ} (h1 : Seg l1 a b) (h2 : Seg l2 c d) (h : b ≤ c) : Seg (l1 ++ l2) a d := by
  obtain ⟨p1, q1, r1⟩ := h1
  obtain ⟨p2, q2, r2⟩ := h2
  refine ⟨List.pairwise_append.2 ⟨p1, p2, fun x hx y hy => ?_⟩, fun x hx => ?_, by omega⟩
  · have := q1 x hx; have := q2 y hy; omega
  · rcases List.mem_append.1 hx with hx | hx
    · have := q1 x hx; omega
    · have := q2 x hx; omega

theorem Seg.map (f : ℕ → Event) (r : ℕ) (hf : ∀ m, rank (f m) = r) (l : List ℕ) : Seg (l.map f) r r := by
  refine ⟨?_, ?_, le_refl _⟩
  · rw [List.pairwise_map]; exact List.pairwise_of_forall (fun x y => by rw [hf, hf])
  · intro x hx; obtain ⟨m, _, rfl⟩ := List.mem_map.1 hx; rw [hf]; simp

theorem Seg.one (e : Event) : Seg [e] (rank e) (rank e) := by simp [Seg]

theorem Seg.two (e f : Event) (h : rank e ≤ rank f) : Seg [e, f] (rank e) (rank f) := Seg.app (Seg.one e) (Seg.one f) h

theorem Seg.ite (c : Prop) [Decidable c] {l : List Event} {a b : ℕ} (h : Seg l a b) : Seg (if c then l else []) a b := by
  split
  · exact h
  · exact ⟨List.Pairwise.nil, by simp, h.2.2⟩

omit [Field K] [LinearOrder K] [IsStrictOrderedRing K] in
theorem block_sorted (e : Env K) (s : State K) (before after : List ℕ) :
    (block e s before after).Pairwise (fun a b => rank a ≤ rank b) := by
  have four : Seg [(Who.gflow, Hook.clearForces), (.gflow, .reflect), (.gflow, .repulse), (.gflow, .attract)] 30 60 :=
    Seg.app (Seg.two _ _ (by decide)) (Seg.two _ _ (by decide)) (by decide)
  have h : Seg (block e s before after) 10 125 :=
    (Seg.app (Seg.app (Seg.app (Seg.app (Seg.app (Seg.app (Seg.app (Seg.app (Seg.app (Seg.app (Seg.app (Seg.app (Seg.app (Seg.app (Seg.app (Seg.app (Seg.app (Seg.app (Seg.map _ 10 (fun _ => rfl) _)
    (Seg.one _) (by decide))
    (Seg.map _ 13 (fun _ => rfl) _) (by decide))
    (Seg.two _ _ (by decide)) (by decide))
    (Seg.map _ 20 (fun _ => rfl) _) (by decide))
    (Seg.one _) (by decide))
    (Seg.map _ 23 (fun _ => rfl) _) (by decide))
    (Seg.two _ _ (by decide)) (by decide))
    four (by decide))
    (Seg.ite _ (Seg.app (Seg.two _ _ (by decide)) (Seg.map _ 90 (fun _ => rfl) _) (by decide))) (by decide))
    (Seg.map _ 100 (fun _ => rfl) _) (by decide))
    (Seg.map _ 110 (fun _ => rfl) _) (by decide))
    (Seg.two _ _ (by decide)) (by decide))
    (Seg.map _ 113 (fun _ => rfl) _) (by decide))
    (Seg.two _ _ (by decide)) (by decide))
    (Seg.map _ 120 (fun _ => rfl) _) (by decide))
    (Seg.one _) (by decide))
    (Seg.map _ 123 (fun _ => rfl) _) (by decide))
    (Seg.two _ _ (by decide)) (by decide))
  exact h.1

/-- **C21.** For every run that ends (see `C20_stops_at_first`), the calls made are: every component's `pre_integrate` once; then one
block of calls per iteration; then `post_integrate`. Each block is in the documented order (`rank`), and contains every
call exactly as often as it is due: once per registered component (the modifiers of the
first half of the pass are those present at its start, in the second half those that did not ask for removal),
and no other call. -/
theorem C21_phases_in_order (e : Env K) (hdt : ∀ i, 0 < e.dt i) (hnum : e.number ≠ 0) (T : K) (hT : 0 < T) (N : ℕ)
    (hN : e.stop N = true ∨ T ≤ ∑ j ∈ range N, e.dt j)
    (hlt : ∀ n < N, e.stop n = false ∧ ∑ j ∈ range n, e.dt j < T) (s : State K) (fuel : ℕ) (hf : N + 1 ≤ fuel) :
    ∃ (t : State K) (before after : List Event) (blocks : List (List Event)) (mods : ℕ → List ℕ),
      run e T fuel s = some t ∧ t.trace = s.trace ++ before ++ blocks.flatten ++ after ∧
      blocks.length = t.iter ∧
      mods 0 = s.modifiers ∧ (∀ i, mods (i + 1) = (mods i).filter (fun m => !e.wantsRemoval i m)) ∧
      t.modifiers = mods t.iter ∧
      (∀ i (hi : i < blocks.length), blocks[i].Pairwise (fun a b => rank a ≤ rank b) ∧
        ∀ ev, blocks[i].count ev = due e.useForces s.bodies s.bonded s.addIntegrators (mods i) (mods (i + 1)) ev) ∧
      (∀ ev ∈ before, ev.2 = .preIntegrate) ∧ (∀ ev ∈ after, ev.2 = .postIntegrate) ∧
      (∀ w ∈ [Who.simData, .integrator, .handler, .dataMaster, .forceMaster],
        before.count (w, .preIntegrate) = 1 ∧ after.count (w, .postIntegrate) = 1) ∧
      (∀ m, before.count (.modifier m, .preIntegrate) = s.modifiers.count m ∧
        after.count (.modifier m, .postIntegrate) = t.modifiers.count m) := by
  obtain ⟨t, r1, r2, r3, r4, r5, r6, r7, r8, r9⟩ := run_spec e hdt hnum T hT N hN hlt s fuel hf
  have i1 : Function.Injective Who.modifier := fun a b h => by cases h; rfl
  refine ⟨t, _, _, _, modsAt e s.modifiers, r1, r9, by simp [r2], rfl, fun _ => rfl, by rw [r8, r2], ?_, ?_, ?_, ?_, ?_⟩
  · intro i hi
    simp only [List.getElem_map, List.getElem_range]
    exact ⟨block_sorted _ _ _ _, block_count _ _ _ _⟩
  · intro ev hev
    simp only [List.mem_append, List.mem_map, List.mem_cons, List.not_mem_nil, or_false] at hev
    rcases hev with (((⟨_, _, rfl⟩ | ⟨_, _, rfl⟩) | (rfl | rfl)) | ⟨_, _, rfl⟩) | (rfl | rfl | rfl) <;> rfl
  · intro ev hev
    simp only [List.mem_append, List.mem_map, List.mem_cons, List.not_mem_nil, or_false] at hev
    rcases hev with (((rfl | rfl) | ⟨_, _, rfl⟩) | (rfl | rfl | rfl)) | ⟨_, _, rfl⟩ <;> rfl
  · intro w hw
    simp only [List.mem_cons, List.not_mem_nil, or_false] at hw
    rcases hw with rfl | rfl | rfl | rfl | rfl <;>
      simp [List.count_append, count_map_other, List.count_cons]
  · intro m
    rw [r8]
    simp [List.count_append, count_map_other, List.count_cons, count_map_hook _ i1]

/-- A run with a modifier that asks for removal in the first pass: two iterations happen and it gets no post-forces call. -/
example : let e : Env ℚ := { dt := fun _ => 1, stop := fun _ => false, wantsRemoval := fun _ m => m == 7, useForces := true, number := 1 }
    (∀ i, 0 < e.dt i) ∧ ((1 : ℚ) ≤ ∑ j ∈ range 1, e.dt j) ∧ modsAt e [7, 8] 1 = [8] := by
  intro e
  exact ⟨fun _ => by norm_num [e], by norm_num [e], by decide⟩

/-! ## C22 -/

/-- **C22.** `handleModifiers` keeps exactly the modifiers whose remove flag is not set, in their order and with their multiplicity. -/
theorem C22_modifiers_dropped (wants : ℕ → Bool) (mods : List ℕ) :
    (∀ m, m ∈ handleModifiers wants mods ↔ m ∈ mods ∧ wants m = false) ∧
    (handleModifiers wants mods).Sublist mods ∧
    (∀ m, wants m = false → (handleModifiers wants mods).count m = mods.count m) := by
  rw [handleModifiers_eq]
  refine ⟨fun m => by simp, List.filter_sublist, fun m hm => ?_⟩
  rw [List.count_filter]; simp [hm]

example : handleModifiers (fun m => m == 2) [1, 2, 3, 2] = [1, 3] := by decide

end Verif.RunLoop
