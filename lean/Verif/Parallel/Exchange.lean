import Verif.Parallel.Rounds
import Verif.Parallel.KDTree
import Mathlib.Algebra.BigOperators.Group.List.Basic
import Mathlib.Data.List.Count

/-!
# Exchange of particles between processors (C142)

Models `exchange_particles` of `parallel/kdtreetopology.cpp:79-144` with the messages of `Verif.Parallel.Rounds` and the choice of processors of `Verif.Parallel.KDTree`. Each round is an
exchange followed by anything a processor does with its own particles (`evolve`).

Simplifications: the particles of a processor are a list, the order of which after removal (`doParticleRemoval`, `Verif.SimData`) does not matter here; a packed particle arrives as it was
(`Verif.Parallel.Buffer`, C10).
-/

namespace Verif.Exchange
open Verif.Rounds Verif.KDTree Verif.Bounds

variable {n : ℕ} {β : Type}

/-- A particle: position, type (`-1`: marked for removal) and everything else. -/
structure Pt (n : ℕ) (β : Type) where
  x : Fin (n + 1) → ℝ
  type : ℤ
  info : β

/-- `neighbor_ranks`, `parallel/kdtreetopology.cpp:372-388`. -/
noncomputable def nbs (b : Box (n + 1)) (wrap : Fin (n + 1) → Bool) (P p : ℕ) : List ℕ := (neighbors b wrap P p).map (·.1)

open Classical in
/-- The particles to send to a neighbour, `parallel/kdtreetopology.cpp:96-111`. -/
noncomputable def leaving (b : Box (n + 1)) (wrap : Fin (n + 1) → Bool) (P p : ℕ) (s : List (Pt n β)) (q : ℕ) : List (Pt n β) :=
  s.filter fun a => -1 < a.type ∧ destination b wrap P p a.x = some q

open Classical in
/-- The particles left after `doParticleRemoval`, `parallel/kdtreetopology.cpp:126`: those sent (`send_particle_data(…, true)`, 118) and those marked before are gone. -/
noncomputable def staying (b : Box (n + 1)) (wrap : Fin (n + 1) → Bool) (P p : ℕ) (s : List (Pt n β)) : List (Pt n β) :=
  s.filter fun a => -1 < a.type ∧ destination b wrap P p a.x = none

/-- A particle after the exchange: those left, then those received in the order of neighbours, `parallel/kdtreetopology.cpp:135-138`. -/
noncomputable def joined (b : Box (n + 1)) (wrap : Fin (n + 1) → Bool) (P p : ℕ) (s : List (Pt n β)) (recv : List (ℕ × List (Pt n β))) : List (Pt n β) :=
  staying b wrap P p s ++ recv.flatMap (·.2)

/-- The parallel program: exchange, then something local, `parallel/kdtreetopology.cpp:79-144`. -/
noncomputable def program (b : Box (n + 1)) (wrap : Fin (n + 1) → Bool) (P : ℕ) (evolve : ℕ → ℕ → List (Pt n β) → List (Pt n β)) : Program (List (Pt n β)) (Pt n β) :=
  ⟨nbs b wrap P, fun _ p s q => leaving b wrap P p s q, fun r p s recv => evolve r p (joined b wrap P p s recv), fun _ => true, fun _ _ _ _ => 0⟩

/-! ## Specification -/

/-- What is known of the particles that are not marked for removal, apart from positions. -/
def alive (l : List (Pt n β)) : List β := (l.filter fun a => -1 < a.type).map (·.info)

/-- The particle is in the simulation, and within 0.1 (in every direction, up to periods) of a place in the bounds of the processor. -/
def Near (b : Box (n + 1)) (wrap : Fin (n + 1) → Bool) (P p : ℕ) (x : Fin (n + 1) → ℝ) : Prop :=
  b.contains x = true ∧ ∃ y s, IsShift b wrap s ∧ (processBounds b P p).contains y = true ∧ ∀ k, |y k + s k - x k| ≤ 1/10

/-! ## Neighbours -/

theorem mem_nbs (b : Box (n + 1)) (wrap : Fin (n + 1) → Bool) (P p q : ℕ) (hP : 2 ≤ P) (h : q ∈ nbs b wrap P p) :
    q < P ∧ q ≠ p ∧ (q, processBounds b P q) ∈ neighbors b wrap P p := by
  obtain ⟨⟨r, B⟩, hm, rfl⟩ := List.mem_map.mp h
  have hm' := hm
  rw [mem_neighbors] at hm'
  have hr : r < P := by
    have h1 := C47_ranks b P hP
    have : r ∈ (leaves (topology b P)).map Prod.fst := List.mem_map.mpr ⟨_, hm'.1, rfl⟩
    rw [topology_sub b P hP, ranks_sub P (by omega) b 0] at this
    obtain ⟨i, hi1, hi2⟩ := List.mem_range'.mp this
    show r < P
    omega
  refine ⟨hr, hm'.2.1, ?_⟩
  have e : B = processBounds b P r := leaf_unique b P r B _ hP hm'.1 (processBounds_mem b P r hP hr)
  simp only
  rw [← e]
  exact hm

theorem proper (b : Box (n + 1)) (wrap : Fin (n + 1) → Bool) (P : ℕ) (hP : 2 ≤ P) (evolve : ℕ → ℕ → List (Pt n β) → List (Pt n β)) :
    Proper (program b wrap P evolve) P := by
  refine ⟨fun p _ => ?_, fun p _ q hq => (mem_nbs b wrap P p q hP hq).1, fun p hp q hq => ?_⟩
  · show (nbs b wrap P p).Nodup
    unfold nbs neighbors
    have : ((leaves (topology b P)).map Prod.fst).Nodup := by
      rw [topology_sub b P hP, ranks_sub P (by omega) b 0]
      exact List.nodup_range'
    exact (((List.filter_sublist).trans List.filter_sublist).map _).nodup this
  · obtain ⟨h1, h2, h3⟩ := mem_nbs b wrap P p q hP hq
    exact List.mem_map.mpr ⟨_, C76_symmetric b wrap P p q hP hp h1 h3, rfl⟩

theorem agreed (b : Box (n + 1)) (wrap : Fin (n + 1) → Bool) (P : ℕ) (evolve : ℕ → ℕ → List (Pt n β) → List (Pt n β)) (s0 : ℕ → List (Pt n β)) :
    Agreed (program b wrap P evolve) P s0 := by
  intro r p q _ _ h
  exact absurd h (by simp [program])

theorem destination_mem (b : Box (n + 1)) (wrap : Fin (n + 1) → Bool) (P p q : ℕ) (x : Fin (n + 1) → ℝ) (h : destination b wrap P p x = some q) : q ∈ nbs b wrap P p := by
  unfold destination at h
  split at h
  · exact absurd h (by simp)
  · split at h
    · rename_i hany
      rw [← Option.some.inj h]
      obtain ⟨y, hy, he⟩ := List.any_eq_true.mp hany
      exact List.mem_map.mpr ⟨y, hy, by simpa using he⟩
    · exact absurd h (by simp)

/-! ## Conservation -/

theorem countP_parts {γ : Type} (s : List γ) (f : γ → Bool) (d : γ → Option ℕ) (P : ℕ) (hd : ∀ a ∈ s, ∀ q, d a = some q → q < P) :
    s.countP (fun a => f a && decide (d a = none)) + ∑ q ∈ Finset.range P, s.countP (fun a => f a && decide (d a = some q)) = s.countP f := by
  induction s with
  | nil => simp
  | cons a s ih =>
    have ih := ih fun a ha => hd a (List.mem_cons_of_mem _ ha)
    simp only [List.countP_cons]
    rw [Finset.sum_add_distrib]
    have one : (if (f a && decide (d a = none)) = true then 1 else 0) + ∑ q ∈ Finset.range P, (if (f a && decide (d a = some q)) = true then 1 else 0) = if f a = true then 1 else 0 := by
      by_cases hf : f a = true
      · simp only [hf, Bool.true_and, decide_eq_true_eq, if_true]
        cases hda : d a with
        | none => simp
        | some q =>
          have hq := hd a List.mem_cons_self q hda
          simp only [reduceCtorEq, if_false, Nat.zero_add, Option.some.injEq]
          rw [Finset.sum_ite_eq, if_pos (Finset.mem_range.mpr hq)]
      · simp [hf]
    omega

theorem countP_flat {γ δ : Type} (l : List γ) (g : γ → List δ) (f : δ → Bool) : (l.flatMap g).countP f = (l.map fun a => (g a).countP f).sum := by
  induction l with
  | nil => rfl
  | cons a l ih => rw [List.flatMap_cons, List.countP_append, ih, List.map_cons, List.sum_cons]

theorem sum_range (g : ℕ → ℕ) (P : ℕ) : ((List.range P).map g).sum = ∑ p ∈ Finset.range P, g p := by
  induction P with
  | zero => rfl
  | succ P ih => rw [List.range_succ, List.map_append, List.sum_append, ih, Finset.sum_range_succ]; simp

theorem sum_nodup (l : List ℕ) (P : ℕ) (hn : l.Nodup) (hl : ∀ q ∈ l, q < P) (g : ℕ → ℕ) (hg : ∀ q < P, q ∉ l → g q = 0) : (l.map g).sum = ∑ q ∈ Finset.range P, g q := by
  rw [← List.sum_toFinset g hn]
  apply Finset.sum_subset
  · intro q hq
    exact Finset.mem_range.mpr (hl q (List.mem_toFinset.mp hq))
  · intro q hq hq'
    exact hg q (Finset.mem_range.mp hq) fun h => hq' (List.mem_toFinset.mpr h)

/-- Exchanging conserves the number of particles of every kind. -/
theorem joined_count (b : Box (n + 1)) (wrap : Fin (n + 1) → Bool) (P : ℕ) (hP : 2 ≤ P) (s : ℕ → List (Pt n β)) (f : Pt n β → Bool) (hf : ∀ a, f a = true → -1 < a.type) :
    ∑ p ∈ Finset.range P, (joined b wrap P p (s p) ((nbs b wrap P p).map fun q => (q, leaving b wrap P q (s q) p))).countP f = ∑ p ∈ Finset.range P, (s p).countP f := by
  classical
  have pr := proper b wrap P hP (fun _ _ l => l : ℕ → ℕ → List (Pt n β) → List (Pt n β))
  have h1 : ∀ p ∈ Finset.range P, (joined b wrap P p (s p) ((nbs b wrap P p).map fun q => (q, leaving b wrap P q (s q) p))).countP f =
      (s p).countP (fun a => f a && decide (destination b wrap P p a.x = none)) +
        ∑ q ∈ Finset.range P, (s q).countP (fun a => f a && decide (destination b wrap P q a.x = some p)) := by
    intro p hp
    have hp := Finset.mem_range.mp hp
    unfold joined
    rw [List.countP_append, countP_flat, List.map_map]
    congr 1
    · unfold staying
      rw [List.countP_filter]
      apply List.countP_congr
      intro a _
      by_cases hfa : f a = true
      · simp [hfa, hf a hfa]
      · simp [hfa]
    · rw [← sum_nodup (nbs b wrap P p) P (pr.nodup p hp) (fun q hq => (mem_nbs b wrap P p q hP hq).1)]
      · congr 1
        apply List.map_congr_left
        intro q _
        simp only [Function.comp]
        unfold leaving
        rw [List.countP_filter]
        apply List.countP_congr
        intro a _
        by_cases hfa : f a = true
        · simp [hfa, hf a hfa]
        · simp [hfa]
      · intro q hq hno
        rw [List.countP_eq_zero]
        intro a _ hc
        simp only [Bool.and_eq_true, decide_eq_true_eq] at hc
        exact hno (pr.symm q hq p (destination_mem b wrap P q p a.x hc.2))
  rw [Finset.sum_congr rfl h1, Finset.sum_add_distrib, Finset.sum_comm, ← Finset.sum_add_distrib]
  apply Finset.sum_congr rfl
  intro p _
  exact countP_parts (s p) f (fun a => destination b wrap P p a.x) P fun a _ q hq => (mem_nbs b wrap P p q hP (destination_mem b wrap P p q a.x hq)).1

theorem alive_count [DecidableEq β] (l : List (Pt n β)) (i : β) : (alive l).count i = l.countP fun a => decide (-1 < a.type) && decide (a.info = i) := by
  unfold alive List.count
  rw [List.countP_map, List.countP_filter]
  apply List.countP_congr
  intro a _
  simp [and_comm]

theorem lock_count [DecidableEq β] (b : Box (n + 1)) (wrap : Fin (n + 1) → Bool) (P : ℕ) (hP : 2 ≤ P) (evolve : ℕ → ℕ → List (Pt n β) → List (Pt n β))
    (he : ∀ r p l, (alive (evolve r p l)).Perm (alive l)) (s0 : ℕ → List (Pt n β)) (i : β) (r : ℕ) :
    ∑ p ∈ Finset.range P, (alive (lock (program b wrap P evolve) s0 r p)).count i = ∑ p ∈ Finset.range P, (alive (s0 p)).count i := by
  induction r with
  | zero => rfl
  | succ r ih =>
    rw [← ih]
    have h1 : ∀ p ∈ Finset.range P, (alive (lock (program b wrap P evolve) s0 (r + 1) p)).count i =
        (joined b wrap P p (lock (program b wrap P evolve) s0 r p)
          ((nbs b wrap P p).map fun q => (q, leaving b wrap P q (lock (program b wrap P evolve) s0 r q) p))).countP fun a => decide (-1 < a.type) && decide (a.info = i) := by
      intro p _
      rw [← alive_count]
      exact (he r p _).count_eq i
    rw [Finset.sum_congr rfl h1, joined_count b wrap P hP _ _ (by intro a ha; simp at ha; exact ha.1)]
    exact Finset.sum_congr rfl fun p _ => (alive_count _ i).symm

/-- C142: no particle is lost or doubled: when, in any order of events, all processors have done the same number of rounds, the particles of all processors together are those they had at the start. -/
theorem C142_conserved (b : Box (n + 1)) (wrap : Fin (n + 1) → Bool) (P : ℕ) (hP : 2 ≤ P) (evolve : ℕ → ℕ → List (Pt n β) → List (Pt n β))
    (he : ∀ r p l, (alive (evolve r p l)).Perm (alive l)) (s0 : ℕ → List (Pt n β)) (R r : ℕ) (sync : Bool) (k : ℕ) (net : Net (List (Pt n β)) (Pt n β))
    (h : Run (program b wrap P evolve) P R sync s0 k net) (hall : ∀ p < P, (net.procs p).round = r) :
    ((List.range P).flatMap fun p => alive (net.procs p).st).Perm ((List.range P).flatMap fun p => alive (s0 p)) := by
  classical
  rw [List.perm_iff_count]
  intro i
  unfold List.count
  rw [countP_flat, countP_flat, sum_range, sum_range]
  have := lock_count b wrap P hP evolve he s0 i r
  unfold List.count at this
  rw [← this]
  apply Finset.sum_congr rfl
  intro p hp
  have hp := Finset.mem_range.mp hp
  rw [C141_states _ P R sync (proper b wrap P hP evolve) s0 (agreed b wrap P evolve s0) k net h p hp, hall p hp]

/-- C142: every execution can be completed (there is no deadlock), with all particles. -/
theorem C142_completes (b : Box (n + 1)) (wrap : Fin (n + 1) → Bool) (P : ℕ) (hP : 2 ≤ P) (evolve : ℕ → ℕ → List (Pt n β) → List (Pt n β)) (he : ∀ r p l, (alive (evolve r p l)).Perm (alive l))
    (s0 : ℕ → List (Pt n β)) (R : ℕ) (sync : Bool) (k : ℕ) (net : Net (List (Pt n β)) (Pt n β)) (h : Run (program b wrap P evolve) P R sync s0 k net) :
    ∃ k' net', Run (program b wrap P evolve) P R sync s0 k' net' ∧ (∀ p < P, (net'.procs p).round = R) ∧
      ((List.range P).flatMap fun p => alive (net'.procs p).st).Perm ((List.range P).flatMap fun p => alive (s0 p)) := by
  obtain ⟨k', net', _, h1, h2⟩ := C141_completes _ P R sync (proper b wrap P hP evolve) s0 (agreed b wrap P evolve s0) k net h
  exact ⟨k', net', h1, fun p hp => (h2 p hp).1, C142_conserved b wrap P hP evolve he s0 R R sync k' net' h1 fun p hp => (h2 p hp).1⟩

/-! ## Owners -/

theorem joined_home (b : Box (n + 1)) (hb : ∀ k, b.lo k < b.hi k) (wrap : Fin (n + 1) → Bool) (P : ℕ) (hP : 2 ≤ P) (s : ℕ → List (Pt n β))
    (hs : ∀ p < P, ∀ a ∈ s p, -1 < a.type → Near b wrap P p a.x) (p : ℕ) (hp : p < P) (a : Pt n β)
    (ha : a ∈ joined b wrap P p (s p) ((nbs b wrap P p).map fun q => (q, leaving b wrap P q (s q) p))) : -1 < a.type ∧ (processBounds b P p).contains a.x = true := by
  unfold joined at ha
  rcases List.mem_append.mp ha with ha | ha
  · unfold staying at ha
    rw [List.mem_filter] at ha
    obtain ⟨h1, h2⟩ := ha
    have h2 := of_decide_eq_true h2
    refine ⟨h2.1, ?_⟩
    obtain ⟨hx, y, sh, hsh, hy, hd⟩ := hs p hp a h1 h2.1
    by_contra hno
    -- the owner of the place
    obtain ⟨q, ⟨hq, hqc⟩, _⟩ := (C47_partition b hb P (by omega) a.x).1 hx
    have hne : q ≠ p := by
      rintro rfl
      exact hno hqc
    have := C77_moves_partial b hb wrap P p q hp hq hne a.x hqc y sh hsh hy hd
    rw [h2.2] at this
    exact absurd this (by simp)
  · obtain ⟨⟨q, l⟩, hq, hal⟩ := List.mem_flatMap.mp ha
    obtain ⟨q', hq', e⟩ := List.mem_map.mp hq
    obtain ⟨rfl, rfl⟩ := Prod.mk.inj e
    unfold leaving at hal
    rw [List.mem_filter] at hal
    obtain ⟨h1, h2⟩ := hal
    have h2 := of_decide_eq_true h2
    have hqP := (mem_nbs b wrap P p q' hP hq').1
    exact ⟨h2.1, (C77_owner b hb wrap P q' p hqP a.x (hs q' hqP a h1 h2.1).1 h2.2).2.2.1⟩

theorem lock_near (b : Box (n + 1)) (hb : ∀ k, b.lo k < b.hi k) (wrap : Fin (n + 1) → Bool) (P : ℕ) (hP : 2 ≤ P) (evolve : ℕ → ℕ → List (Pt n β) → List (Pt n β)) (s0 : ℕ → List (Pt n β))
    (hs0 : ∀ p < P, ∀ a ∈ s0 p, -1 < a.type → Near b wrap P p a.x)
    (hev : ∀ r p l, p < P → (∀ a ∈ l, -1 < a.type ∧ (processBounds b P p).contains a.x = true) → ∀ a ∈ evolve r p l, -1 < a.type → Near b wrap P p a.x) (r : ℕ) :
    ∀ p < P, ∀ a ∈ lock (program b wrap P evolve) s0 r p, -1 < a.type → Near b wrap P p a.x := by
  induction r with
  | zero => exact hs0
  | succ r ih =>
    intro p hp a ha
    exact hev r p _ hp (fun c hc => joined_home b hb wrap P hP _ ih p hp c hc) a ha

/-- C142, partial. If particles move less than 0.1 between exchanges, then after each exchange, in any order of events, each processor has only particles in its bounds (`l`, with which it continues).
Missing: particles that move further (`C142_negation_far`). -/
theorem C142_home_partial (b : Box (n + 1)) (hb : ∀ k, b.lo k < b.hi k) (wrap : Fin (n + 1) → Bool) (P : ℕ) (hP : 2 ≤ P) (evolve : ℕ → ℕ → List (Pt n β) → List (Pt n β)) (s0 : ℕ → List (Pt n β))
    (hs0 : ∀ p < P, ∀ a ∈ s0 p, -1 < a.type → Near b wrap P p a.x)
    (hev : ∀ r p l, p < P → (∀ a ∈ l, -1 < a.type ∧ (processBounds b P p).contains a.x = true) → ∀ a ∈ evolve r p l, -1 < a.type → Near b wrap P p a.x)
    (R : ℕ) (sync : Bool) (k : ℕ) (net : Net (List (Pt n β)) (Pt n β)) (h : Run (program b wrap P evolve) P R sync s0 k net) (p : ℕ) (hp : p < P) (r : ℕ)
    (hr : (net.procs p).round = r + 1) : ∃ l, (net.procs p).st = evolve r p l ∧ ∀ a ∈ l, -1 < a.type ∧ (processBounds b P p).contains a.x = true := by
  rw [C141_states _ P R sync (proper b wrap P hP evolve) s0 (agreed b wrap P evolve s0) k net h p hp, hr]
  exact ⟨_, rfl, fun a ha => joined_home b hb wrap P hP _ (lock_near b hb wrap P hP evolve s0 hs0 hev r) p hp a ha⟩

/-- C142, the hypotheses are met: on a line of three processors, a particle of the first moves over the boundary and stays there. -/
example : (∀ k, line3.lo k < line3.hi k) ∧
    (∀ p < 3, ∀ a ∈ (fun p => if p = 0 then [(⟨fun _ => 105/100, 0, 7⟩ : Pt 0 ℕ)] else []) p, -1 < a.type → Near line3 (fun _ => false) 3 p a.x) ∧
    (∀ (r p : ℕ) (l : List (Pt 0 ℕ)), p < 3 → (∀ a ∈ l, -1 < a.type ∧ (processBounds line3 3 p).contains a.x = true) → ∀ a ∈ l, -1 < a.type → Near line3 (fun _ => false) 3 p a.x) := by
  have hb : ∀ k, line3.lo k < line3.hi k := by intro k; norm_num [line3]
  refine ⟨hb, fun p hp a ha _ => ?_, fun r p l hp hl a ha _ => ?_⟩
  · simp only at ha
    split at ha
    · rename_i e
      subst e
      rw [List.mem_singleton.mp ha]
      refine ⟨?_, fun _ => 98/100, fun _ => 0, fun k => ⟨0, by simp, fun _ => rfl⟩, ?_, fun k => ?_⟩
      · rw [contains_iff]; intro k; norm_num [line3]
      · rw [line3_bounds.1, contains_iff]; intro k; norm_num
      · norm_num [abs_le]
    · simp at ha
  · have hc := (hl a ha).2
    refine ⟨?_, a.x, fun _ => 0, fun k => ⟨0, by simp, fun _ => rfl⟩, hc, fun k => by simp⟩
    by_contra hno
    have := (C47_partition line3 hb 3 (by omega) a.x).2 (by simpa using hno) p hp
    rw [hc] at this
    exact absurd this (by simp)

theorem lock_fixed (b : Box (n + 1)) (wrap : Fin (n + 1) → Bool) (P : ℕ) (s0 : ℕ → List (Pt n β)) (hP : 2 ≤ P)
    (hs : ∀ p < P, ∀ a ∈ s0 p, -1 < a.type ∧ destination b wrap P p a.x = none) (r : ℕ) : ∀ p < P, lock (program b wrap P fun _ _ l => l) s0 r p = s0 p := by
  induction r with
  | zero => exact fun _ _ => rfl
  | succ r ih =>
    intro p hp
    show joined b wrap P p _ _ = _
    unfold joined
    rw [ih p hp]
    have e1 : staying b wrap P p (s0 p) = s0 p := by
      unfold staying
      exact List.filter_eq_self.mpr fun a ha => decide_eq_true (hs p hp a ha)
    have e2 : ((nbs b wrap P p).map fun q => (q, leaving b wrap P q (lock (program b wrap P fun _ _ l => l) s0 r q) p)).flatMap (·.2) = [] := by
      rw [List.flatMap_eq_nil_iff]
      intro x hx
      obtain ⟨q, hq, rfl⟩ := List.mem_map.mp hx
      have hqP := (mem_nbs b wrap P p q hP hq).1
      simp only
      rw [ih q hqP]
      unfold leaving
      rw [List.filter_eq_nil_iff]
      intro a ha hc
      have hc := of_decide_eq_true hc
      rw [(hs q hqP a ha).2] at hc
      exact absurd hc.2 (by simp)
    rw [e1]
    exact (congrArg (s0 p ++ ·) e2).trans (List.append_nil _)

/-- C142 is false for particles that move over a whole processor: three processors on a line; a particle of the first in the bounds of the third stays with the first in all exchanges. -/
theorem C142_negation_far : ∃ s0 : ℕ → List (Pt 0 ℕ), (∃ a ∈ s0 0, -1 < a.type ∧ (processBounds line3 3 2).contains a.x = true) ∧
    ∀ R sync k net, Run (program line3 (fun _ => false) 3 fun _ _ l => l) 3 R sync s0 k net → (net.procs 0).st = s0 0 := by
  refine ⟨fun p => if p = 0 then [⟨fun _ => 205/100, 0, 7⟩] else [], ⟨⟨fun _ => 205/100, 0, 7⟩, by simp, by decide, C77_negation.1⟩, ?_⟩
  intro R sync k net h
  rw [C141_states _ 3 R sync (proper line3 _ 3 (by omega) _) _ (agreed line3 _ 3 _ _) k net h 0 (by omega)]
  refine lock_fixed line3 (fun _ => false) 3 _ (by omega) (fun p _ a ha => ?_) _ 0 (by omega)
  split at ha
  · rename_i e
    subst e
    rw [List.mem_singleton.mp ha]
    exact ⟨by decide, C77_negation.2.2⟩
  · simp at ha

/-! ## The number sent first -/

/-- Messages with numbers that are on their way; `none` is one the transport has not read yet. `slot` is the local variable `size` of `send_particle_data` (`parallel/kdtreetopology.tpp:7`), in the
same place of the stack in all calls of the loop. -/
structure Outbox where
  slot : ℕ
  queue : List (ℕ × Option ℕ)

/-- `send_single`, `parallel/mpi-communication.hpp:167-172`, called from the loop `parallel/kdtreetopology.cpp:117-118`: `MPI_Isend` gets the address of the variable; the transport may read it at
once (`late = false`) or at any time until the request (which is dropped) is completed. -/
def sendSize (o : Outbox) (q size : ℕ) (late : Bool) : Outbox := ⟨size, o.queue ++ [(q, if late then none else some size)]⟩

/-- The numbers the receivers get if late messages are read after the loop. -/
def deliver (o : Outbox) : List (ℕ × ℕ) := o.queue.map fun m => (m.1, m.2.getD o.slot)

/-- The loop, with the choice of the transport for each message. -/
def sendAll (msgs : List (ℕ × ℕ × Bool)) : Outbox := msgs.foldl (fun o m => sendSize o m.1 m.2.1 m.2.2) ⟨0, []⟩

/-- C142, partial. If the transport copies the number at once, each neighbour gets its own. Missing: transports that do not (`C142_negation_slot`). -/
theorem C142_sizes_partial (msgs : List (ℕ × ℕ × Bool)) (h : ∀ m ∈ msgs, m.2.2 = false) : deliver (sendAll msgs) = msgs.map fun m => (m.1, m.2.1) := by
  have gen : ∀ (l : List (ℕ × ℕ × Bool)) (o : Outbox), (∀ m ∈ l, m.2.2 = false) → (l.foldl (fun o m => sendSize o m.1 m.2.1 m.2.2) o).queue = o.queue ++ l.map fun m => (m.1, some m.2.1) := by
    intro l
    induction l with
    | nil => intro o _; simp
    | cons m l ih =>
      intro o hl
      rw [List.foldl_cons, ih _ fun m hm => hl m (List.mem_cons_of_mem _ hm)]
      simp [sendSize, hl m List.mem_cons_self]
  unfold deliver sendAll
  rw [gen msgs _ h]
  simp [Function.comp_def]

example : deliver (sendAll [(1, 5, false), (2, 0, false)]) = [(1, 5), (2, 0)] := by decide

/-- C142 is false if the transport reads the number late, which `MPI_Isend` allows: the first neighbour is told that no particle comes, though five are sent to it. -/
theorem C142_negation_slot : deliver (sendAll [(1, 5, true), (2, 0, true)]) = [(1, 0), (2, 0)] := by decide

end Verif.Exchange
