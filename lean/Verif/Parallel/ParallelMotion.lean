import Verif.Parallel.ParallelRun

/-!
# Parallel runs follow the motion of the serial run, proofs and theorems (C155)

The model and the specification are in `Verif.Parallel.ParallelRun`.
-/

set_option linter.unusedSectionVars false
set_option linter.unusedVariables false

namespace Verif.ParallelRun
open Verif.Rounds Verif.KDTree Verif.PairForces Verif.Exchange Verif.Ghosts Verif.GhostForces Finset

variable {n : ℕ}

/-! ## Proofs: construction -/

section construct
variable {S : Setup n} {sys : Sys} {M : Motion n} {w w1 : ℕ → List (Pa n)}

theorem wrap_follows (hl : ∀ k, S.b.lo k < S.b.hi k) (h : Follows S sys M w) :
    Follows S sys M (fun p => wrapAll S (w p)) ∧
      ∀ p < S.P, ∀ a ∈ wrapAll S (w p), ∀ k, S.wrap k = true → S.b.lo k ≤ a.x k ∧ a.x k ≤ S.b.hi k := by
  refine ⟨⟨?_, fun p hp a ha => ?_, fun p hp a ha => ?_, fun p hp a ha k => ?_⟩, fun p hp a ha k hk => ?_⟩
  · have : (fun p => (wrapAll S (w p)).map (·.rest.id)) = fun p => (w p).map (·.rest.id) := by
      funext p
      simp [wrapAll, Function.comp_def]
    rw [this]; exact h.once
  all_goals obtain ⟨a0, ha0, rfl⟩ := List.mem_map.mp ha
  · exact h.data p hp a0 ha0
  · exact h.vel p hp a0 ha0
  · obtain ⟨m, e, hz⟩ := h.pos p hp a0 ha0 k
    by_cases hk : S.wrap k = true
    · obtain ⟨m', e'⟩ := Boundary.wrap1_int (S.b.lo k) (S.b.hi k) (a0.x k)
      refine ⟨m + m', ?_, fun hf => by rw [hk] at hf; cases hf⟩
      simp only [hk, if_true]
      rw [e', e]; push_cast; ring
    · refine ⟨m, ?_, hz⟩
      simp only [hk]
      exact e
  · simp only [hk, if_true]
    exact Boundary.wrap1_range (hl k)

theorem mem_flat {P : ℕ} {w : ℕ → List (Pa n)} {a : Pa n} : a ∈ (List.range P).flatMap w ↔ ∃ p < P, a ∈ w p := by
  simp [List.mem_flatMap, List.mem_range]

theorem perm_follows (hp : ((List.range S.P).flatMap w1).Perm ((List.range S.P).flatMap w)) (h : Follows S sys M w) : Follows S sys M w1 := by
  have mem : ∀ p < S.P, ∀ a ∈ w1 p, ∃ q < S.P, a ∈ w q := fun p hp' a ha => mem_flat.mp (hp.subset (mem_flat.mpr ⟨p, hp', ha⟩))
  refine ⟨?_, fun p hp' a ha => ?_, fun p hp' a ha => ?_, fun p hp' a ha => ?_⟩
  · have e := hp.map fun a : Pa n => a.rest.id
    rw [List.map_flatMap, List.map_flatMap] at e
    exact e.trans h.once
  all_goals obtain ⟨q, hq, ha'⟩ := mem p hp' a ha
  · exact h.data q hq a ha'
  · exact h.vel q hq a ha'
  · exact h.pos q hq a ha'

theorem exchanged_perm (h1 : 1 ≤ S.P) (halive : ∀ p < S.P, ∀ a ∈ w p, -1 < a.rest.type) (h : Exchanged S w w1) :
    ((List.range S.P).flatMap w1).Perm ((List.range S.P).flatMap fun p => wrapAll S (w p)) := by
  have hal : ∀ p < S.P, ∀ a ∈ wrapAll S (w p), -1 < a.rest.type := by
    intro p hp a ha
    obtain ⟨a0, ha0, rfl⟩ := List.mem_map.mp ha
    exact halive p hp a0 ha0
  unfold Exchanged at h
  by_cases hP : S.P = 1
  · rw [if_pos hP] at h
    rw [hP]
    simp only [List.range_one, List.flatMap_cons, List.flatMap_nil, List.append_nil]
    rw [h, List.filter_eq_self.mpr fun a ha => by simpa using hal 0 (by omega) a ha]
  · rw [if_neg hP] at h
    have hP2 : 2 ≤ S.P := by omega
    obtain ⟨sync, k, net, hrun, hall⟩ := h
    have hc := C142_conserved S.b S.wrap S.P hP2 (fun _ _ l => l) (fun _ _ l => List.Perm.refl _) _ 1 1 sync k net hrun fun p hp => (hall p hp).1
    have e1 : (List.range S.P).flatMap w1 = (List.range S.P).flatMap fun p => alive (net.procs p).st := by
      rw [List.flatMap_def, List.flatMap_def]
      congr 1
      apply List.map_congr_left
      intro p hp
      have hp := List.mem_range.mp hp
      rw [(hall p hp).2]
      unfold alive
      rw [List.filter_eq_self.mpr]
      intro a ha
      rw [C141_states _ S.P 1 sync (Exchange.proper S.b S.wrap S.P hP2 _) _ (Exchange.agreed S.b S.wrap S.P _ _) k net hrun p hp, (hall p hp).1] at ha
      have ha : a ∈ joined S.b S.wrap S.P p _ _ := ha
      unfold joined at ha
      rcases List.mem_append.mp ha with ha | ha
      · unfold staying at ha
        simpa using (of_decide_eq_true (List.mem_filter.mp ha).2).1
      · obtain ⟨m, hm, ha⟩ := List.mem_flatMap.mp ha
        obtain ⟨q, hq, rfl⟩ := List.mem_map.mp hm
        have ha : a ∈ leaving S.b S.wrap S.P q _ p := ha
        unfold leaving at ha
        simpa using (of_decide_eq_true (List.mem_filter.mp ha).2).1
    have e2 : ((List.range S.P).flatMap fun p => alive ((wrapAll S (w p)).map toPt)) = (List.range S.P).flatMap fun p => wrapAll S (w p) := by
      rw [List.flatMap_def, List.flatMap_def]
      congr 1
      apply List.map_congr_left
      intro p hp
      unfold alive
      rw [List.filter_eq_self.mpr]
      · simp [toPt, Function.comp_def]
      · intro a ha
        obtain ⟨a0, ha0, rfl⟩ := List.mem_map.mp ha
        exact decide_eq_true (hal p (List.mem_range.mp hp) a0 ha0)
    rw [e1, ← e2]
    exact hc

/-- Construction changes neither the particles nor their motion, and positions are in the box. -/
theorem exchanged_follows (hf : Fits S sys) (h : Follows S sys M w) (he : Exchanged S w w1) :
    Follows S sys M w1 ∧ ∀ p < S.P, ∀ a ∈ w1 p, ∀ k, S.wrap k = true → S.b.lo k ≤ a.x k ∧ a.x k ≤ S.b.hi k := by
  obtain ⟨f1, f2⟩ := wrap_follows hf.lohi h
  have hp := exchanged_perm hf.procs (fun p hp a ha => (h.data p hp a ha).2.2) he
  refine ⟨perm_follows hp f1, fun p hp' a ha => ?_⟩
  obtain ⟨q, hq, ha'⟩ := mem_flat.mp (hp.subset (mem_flat.mpr ⟨p, hp', ha⟩))
  exact f2 q hq a ha'

end construct

/-! ## Proofs: steps -/

section steps
variable {S : Setup n} {sys : Sys} {Ks : List Kind} {dts : ℕ → ℝ} {M0 : Motion n} {w1 w : ℕ → List (Pa n)}

theorem advance_length (S : Setup n) (Ks : List Kind) (dts : ℕ → ℝ) (r p : ℕ) (own gh : List (Pa n)) : (advance S Ks dts r p own gh).length = own.length := by
  unfold advance
  split
  · rfl
  · simp [drift, kick]

theorem between_steps (hf : Fits S sys) (h : Follows S sys M0 w1)
    (hb : ∀ p < S.P, ∀ a ∈ w1 p, ∀ k, S.wrap k = true → S.b.lo k ≤ a.x k ∧ a.x k ≤ S.b.hi k)
    (hk : (Ks.map fun K : Kind => (K.F, K.cutoff, K.uses)) = sys.forces)
    (hc : ∀ K ∈ Ks, ∀ p < S.P, Complete (worldOf S sys.N w1) p (procOf (w1 p) (view (cfg S Ks dts) w1 w1 0 p)) K S.skin) (R : ℕ)
    (hmv : ∀ r < R, ∀ a < sys.N, len ((orbit sys (widths S.b S.wrap) dts M0 r).x a - M0.x a) ≤ S.skin / 2)
    (hs : ∀ r < R, ∀ a < sys.N, ∀ b < sys.N, a ≠ b →
      near (widths S.b S.wrap) ((orbit sys (widths S.b S.wrap) dts M0 r).x a - (orbit sys (widths S.b S.wrap) dts M0 r).x b) ≠ 0) :
    (∀ r ≤ R, Track S.P M0 (orbit sys (widths S.b S.wrap) dts M0 r) w1 (world (cfg S Ks dts) w1 r)) ∧
    ∀ r < R, ∀ p < S.P, stepForces S.P S.doPot S.doVir (widths S.b S.wrap)
      (arrays (world (cfg S Ks dts) w1 r p) (view (cfg S Ks dts) w1 (world (cfg S Ks dts) w1 r) r p)) (Ks.map (Kind.lists · p)) ≠ none := by
  have tr : ∀ r ≤ R, Track S.P M0 (orbit sys (widths S.b S.wrap) dts M0 r) w1 (world (cfg S Ks dts) w1 r) := by
    intro r
    induction r with
    | zero =>
      intro _ p hp
      refine ⟨rfl, fun i a1 hi => ⟨a1, hi, rfl, h.vel p hp a1 (List.mem_iff_getElem?.mpr ⟨i, hi⟩), fun k => ?_⟩⟩
      show a1.x k = a1.x k + (M0.x _ k - M0.x _ k)
      ring
    | succ r ih =>
      intro hr
      have bt : Between S sys Ks M0 (orbit sys (widths S.b S.wrap) dts M0 r) w1 (world (cfg S Ks dts) w1 r) :=
        ⟨hf, h, hb, hk, ih (by omega), hmv r (by omega)⟩
      exact (bt.advance (r := r) (dts := dts) hc (fun e => by subst e; exact ⟨rfl, rfl⟩) (hs r (by omega))).2
  refine ⟨tr, fun r hr => ?_⟩
  have bt : Between S sys Ks M0 (orbit sys (widths S.b S.wrap) dts M0 r) w1 (world (cfg S Ks dts) w1 r) :=
    ⟨hf, h, hb, hk, tr r hr.le, hmv r hr⟩
  exact (bt.advance (r := r) (dts := dts) hc (fun e => by subst e; exact ⟨rfl, rfl⟩) (hs r hr)).1

theorem track_follows {M : Motion n} (h : Follows S sys M0 w1) (ht : Track S.P M0 M w1 w) : Follows S sys M w := by
  have back : ∀ p < S.P, ∀ a ∈ w p, ∃ a1 ∈ w1 p, a.rest = a1.rest ∧ a.v = M.v a1.rest.id ∧
      ∀ k, a.x k = a1.x k + (M.x a1.rest.id k - M0.x a1.rest.id k) := by
    intro p hp a ha
    obtain ⟨i, hi⟩ := List.mem_iff_getElem?.mp ha
    obtain ⟨a1, e1, e2⟩ := ht.back hp hi
    exact ⟨a1, List.mem_iff_getElem?.mpr ⟨i, e1⟩, e2⟩
  refine ⟨ht.once h.once, fun p hp a ha => ?_, fun p hp a ha => ?_, fun p hp a ha k => ?_⟩
  all_goals obtain ⟨a1, ha1, e1, e2, e3⟩ := back p hp a ha
  · rw [e1]; exact h.data p hp a1 ha1
  · rw [e1]; exact e2
  · obtain ⟨m, hm, hz⟩ := h.pos p hp a1 ha1 k
    exact ⟨m, by rw [e1, e3, hm]; ring, hz⟩

theorem stepped_world (hf : Fits S sys) {R : ℕ} {w' : ℕ → List (Pa n)} (h : Stepped S Ks dts R w1 w') :
    ∀ p < S.P, w' p = world (cfg S Ks dts) w1 R p := by
  unfold Stepped at h
  by_cases hP : S.P = 1
  · rw [if_pos hP] at h
    intro p hp
    obtain rfl : p = 0 := by omega
    rw [h]
    clear h
    induction R with
    | zero => rfl
    | succ R ih =>
      have hv : view (cfg S Ks dts) w1 (world (cfg S Ks dts) w1 R) R 0 = [] := by
        unfold view
        rw [show nbs (cfg S Ks dts).b (cfg S Ks dts).wrap (cfg S Ks dts).P 0 = nbs S.b S.wrap S.P 0 from rfl, hP, nbs_one _ _ _ (by omega)]
        rfl
      show advance S Ks dts R 0 _ [] = advance S Ks dts R 0 _ _
      rw [ih, hv]
  · rw [if_neg hP] at h
    obtain ⟨sync, k, net, hrun, hall⟩ := h
    have hP2 : 2 ≤ S.P := by have := hf.procs; omega
    intro p hp
    rw [(hall p hp).2]
    have he : ∀ r p l g, ((cfg S Ks dts).evolve r p l g).length = l.length := advance_length S Ks dts
    rw [C141_states _ S.P R sync (Ghosts.proper (cfg S Ks dts) hP2) _ (Ghosts.agreed (cfg S Ks dts) hP2 he _) k net hrun p hp, (hall p hp).1]
    exact (lock_eq (cfg S Ks dts) hP2 he _ R p hp).1

theorem cycle_follows (hf : Fits S sys) {R : ℕ} {w' : ℕ → List (Pa n)} (h : Follows S sys M0 w)
    (hmv : ∀ r < R, ∀ a < sys.N, len ((orbit sys (widths S.b S.wrap) dts M0 r).x a - M0.x a) ≤ S.skin / 2)
    (hs : ∀ r < R, ∀ a < sys.N, ∀ b < sys.N, a ≠ b →
      near (widths S.b S.wrap) ((orbit sys (widths S.b S.wrap) dts M0 r).x a - (orbit sys (widths S.b S.wrap) dts M0 r).x b) ≠ 0)
    (hc : Cycle S sys dts R w w') : Follows S sys (orbit sys (widths S.b S.wrap) dts M0 R) w' := by
  obtain ⟨w1, Ks, he, hk, hcomp, hst⟩ := hc
  obtain ⟨f1, f2⟩ := exchanged_follows hf h he
  have ht := (between_steps hf f1 f2 hk hcomp R hmv hs).1 R le_rfl
  have hw := stepped_world hf hst
  refine track_follows f1 fun p hp => ?_
  rw [hw p hp]
  exact ht p hp

theorem orbit_add (sys : Sys) (w : Fin (n + 1) → Option ℝ) (dts : ℕ → ℝ) (M0 : Motion n) (t r : ℕ) :
    orbit sys w (fun r => dts (t + r)) (orbit sys w dts M0 t) r = orbit sys w dts M0 (t + r) := by
  induction r with
  | zero => rfl
  | succ r ih =>
    show next sys w _ _ _ = next sys w _ _ _
    rw [ih]
    rfl

end steps

/-! ## Theorems -/

/-- C155: after any number of cycles on any number of processors, with any order of the events of their messages, the processors
together hold every particle once, with the velocity and (up to whole widths in wrapping dimensions) the position of the motion without
processors, wrapping, neighbour lists and ghosts, if constructions are timely and no two particles are in the same place. Missing: the
first step without a construction (`C155_negation_first_step`), and late constructions (C150) and incomplete lists (C76, C149). -/
theorem C155_motion_partial (S : Setup n) (sys : Sys) (hf : Fits S sys) (dts : ℕ → ℝ) (M0 : Motion n) (w0 w : ℕ → List (Pa n)) (l : List ℕ)
    (h0 : Follows S sys M0 w0) (hrun : Runs S sys dts w0 l w)
    (ht : Timely sys S.skin (orbit sys (widths S.b S.wrap) dts M0) l)
    (hs : Separate sys (widths S.b S.wrap) (orbit sys (widths S.b S.wrap) dts M0) l.sum) :
    Follows S sys (orbit sys (widths S.b S.wrap) dts M0 l.sum) w := by
  induction hrun with
  | init => exact h0
  | cycle l R w w' h hc ih =>
    have hsum : (l ++ [R]).sum = l.sum + R := by simp
    have hw := ih (fun l1 R1 l2 e => ht l1 R1 (l2 ++ [R]) (by rw [e]; simp)) (fun t hlt => hs t (by rw [hsum]; omega))
    rw [hsum, ← orbit_add]
    refine cycle_follows hf hw (fun r hr => ?_) (fun r hr => ?_) hc
    · rw [orbit_add]
      exact ht l R [] rfl r hr
    · rw [orbit_add]
      exact hs (l.sum + r) (by rw [hsum]; omega)

/-- C155: in each step of a cycle, no processor meets undefined forces. -/
theorem C155_defined (S : Setup n) (sys : Sys) (hf : Fits S sys) (dts : ℕ → ℝ) (M0 : Motion n) (w w1 : ℕ → List (Pa n)) (Ks : List Kind) (R : ℕ)
    (h0 : Follows S sys M0 w) (he : Exchanged S w w1) (hk : (Ks.map fun K : Kind => (K.F, K.cutoff, K.uses)) = sys.forces)
    (hc : ∀ K ∈ Ks, ∀ p < S.P, Complete (worldOf S sys.N w1) p (procOf (w1 p) (view (cfg S Ks dts) w1 w1 0 p)) K S.skin)
    (hmv : ∀ r < R, ∀ a < sys.N, len ((orbit sys (widths S.b S.wrap) dts M0 r).x a - M0.x a) ≤ S.skin / 2)
    (hs : Separate sys (widths S.b S.wrap) (orbit sys (widths S.b S.wrap) dts M0) R) :
    ∀ r < R, ∀ p < S.P, stepForces S.P S.doPot S.doVir (widths S.b S.wrap)
      (arrays (world (cfg S Ks dts) w1 r p) (view (cfg S Ks dts) w1 (world (cfg S Ks dts) w1 r) r p)) (Ks.map (Kind.lists · p)) ≠ none := by
  obtain ⟨f1, f2⟩ := exchanged_follows hf h0 he
  exact (between_steps hf f1 f2 hk hc R hmv hs).2

/-- C155: two runs of the same system on different numbers of processors, with different constructions, orders of events, lists and
skin depths, have the same particles with the same velocities, and positions that differ by whole widths in wrapping dimensions.
Missing: as in `C155_motion_partial`. -/
theorem C155_same_partial (S S' : Setup n) (sys : Sys) (hf : Fits S sys) (hf' : Fits S' sys) (hb : S'.b = S.b) (hw : S'.wrap = S.wrap)
    (dts : ℕ → ℝ) (M0 : Motion n) (w0 w w0' w' : ℕ → List (Pa n)) (l l' : List ℕ) (hl : l'.sum = l.sum)
    (h0 : Follows S sys M0 w0) (h0' : Follows S' sys M0 w0') (hrun : Runs S sys dts w0 l w) (hrun' : Runs S' sys dts w0' l' w')
    (ht : Timely sys S.skin (orbit sys (widths S.b S.wrap) dts M0) l) (ht' : Timely sys S'.skin (orbit sys (widths S.b S.wrap) dts M0) l')
    (hs : Separate sys (widths S.b S.wrap) (orbit sys (widths S.b S.wrap) dts M0) l.sum) (id : ℕ) (hid : id < sys.N) :
    ∃ p < S.P, ∃ a ∈ w p, ∃ p' < S'.P, ∃ a' ∈ w' p', a.rest.id = id ∧ a'.rest.id = id ∧ a'.v = a.v ∧
      ∀ k, ∃ m : ℤ, a'.x k = a.x k + m * (S.b.hi k - S.b.lo k) ∧ (S.wrap k = false → m = 0) := by
  have f := C155_motion_partial S sys hf dts M0 w0 w l h0 hrun ht hs
  have f' := C155_motion_partial S' sys hf' dts M0 w0' w' l' h0' hrun' (by rw [hb, hw]; exact ht') (by rw [hb, hw, hl]; exact hs)
  rw [hb, hw, hl] at f'
  obtain ⟨p, hp, a, ha, e⟩ := exists_id f.once hid
  obtain ⟨p', hp', a', ha', e'⟩ := exists_id f'.once hid
  refine ⟨p, hp, a, ha, p', hp', a', ha', e, e', ?_, fun k => ?_⟩
  · rw [f.vel p hp a ha, f'.vel p' hp' a' ha', e, e']
  · obtain ⟨m, h1, h2⟩ := f.pos p hp a ha k
    obtain ⟨m', h1', h2'⟩ := f'.pos p' hp' a' ha' k
    rw [hb] at h1'
    rw [hw] at h2'
    refine ⟨m' - m, ?_, fun hk => by rw [h2 hk, h2' hk]; rfl⟩
    rw [h1', h1, e, e']; push_cast; ring

/-! ## Example: two spheres on two processors -/

/-- Example: the interval `[0, 2)`. -/
noncomputable def line2 : Bounds.Box 1 := ⟨fun _ => 0, fun _ => 2⟩

/-- Example: two processors, spheres with skin depth 0.1. -/
noncomputable def exSetup : Setup 0 := ⟨line2, fun _ => false, 2, true, false, 1/10, fun _ => 1, true, true⟩

/-- Example: two spheres of radius 0.2, mass 1. -/
noncomputable def exSys : Sys := ⟨2, fun _ => 2/10, fun _ => 1, [(.hardSphere 1, 1, fun _ _ => True)]⟩

/-- Example: the sphere of a processor, its velocity. -/
noncomputable def exPa (id : ℕ) (x v : ℝ) : Pa 0 := ⟨fun _ => x, fun _ => v, 0, ⟨id, 0, 2/10, 1⟩⟩

/-- Example: spheres at 0.9, 1.1; the second moves with velocity `v`. -/
noncomputable def exW (v : ℝ) : ℕ → List (Pa 0) := fun p => if p = 0 then [exPa 0 (9/10) 0] else if p = 1 then [exPa 1 (11/10) v] else []

/-- Example: the pair is in the ghost lists of both processors. -/
def exKind : Kind := ⟨.hardSphere 1, 1, fun _ _ => True, fun _ => [], fun _ => [], fun _ => [(0, 0)]⟩

theorem ex_leaves : leaves (topology line2 2) = [(0, ⟨fun _ => 0, fun _ => 1⟩), (1, ⟨fun _ => 1, fun _ => 2⟩)] := by
  have u : ∀ (f : Fin 1 → ℝ) (v : ℝ), Function.update f 0 v = fun _ => v := by
    intro f v; funext k; rw [Subsingleton.elim k 0, Function.update_self]
  unfold topology
  rw [decomp_eq]
  simp only [show ¬ (1 < 2 / 2) by decide, if_false, leaves, widest_zero, leftBox, rightBox, splitWidth,
    Bounds.Box.wd, u, line2]
  norm_num

theorem ex_bounds : processBounds line2 2 0 = ⟨fun _ => 0, fun _ => 1⟩ ∧ processBounds line2 2 1 = ⟨fun _ => 1, fun _ => 2⟩ := by
  have h := (C47_ranks line2 2 (by omega)).2
  rw [ex_leaves] at h
  simp only [List.range_succ, List.range_zero, List.nil_append, List.cons_append, List.map_cons, List.map_nil, List.cons.injEq,
    Prod.mk.injEq, true_and, and_true] at h
  exact ⟨h.1.symm, h.2.symm⟩

theorem ex_neighbors : neighbors line2 (fun _ => false) 2 0 = [(1, ⟨fun _ => 1, fun _ => 2⟩)] ∧
    neighbors line2 (fun _ => false) 2 1 = [(0, ⟨fun _ => 0, fun _ => 1⟩)] := by
  have a01 : adjacent (widths line2 fun _ => false) (processBounds line2 2 0) ⟨fun _ => 1, fun _ => 2⟩ = true := by
    rw [adjacent_iff]
    intro k
    rw [ex_bounds.1]
    simp only [correct, widths, Bool.false_eq_true, if_false, Bounds.Box.center, Bounds.Box.wd]
    norm_num
  have a10 : adjacent (widths line2 fun _ => false) (processBounds line2 2 1) ⟨fun _ => 0, fun _ => 1⟩ = true := by
    rw [adjacent_iff]
    intro k
    rw [ex_bounds.2]
    simp only [correct, widths, Bool.false_eq_true, if_false, Bounds.Box.center, Bounds.Box.wd]
    norm_num
  unfold neighbors
  rw [ex_leaves]
  constructor
  · simp [a01]
  · simp [a10]

theorem ex_nbs : nbs line2 (fun _ => false) 2 0 = [1] ∧ nbs line2 (fun _ => false) 2 1 = [0] := by
  unfold nbs
  rw [ex_neighbors.1, ex_neighbors.2]
  exact ⟨rfl, rfl⟩

theorem ex_correct (X : Fin 1 → ℝ) : correct (widths line2 fun _ => false) X = X := by
  funext k
  exact correct_none (by simp [widths])

theorem ex_ids (Ks : List Kind) (dts : ℕ → ℝ) (v : ℝ) : idsFor (cfg exSetup Ks dts) 0 (exW v 0) 1 = [0] ∧ idsFor (cfg exSetup Ks dts) 1 (exW v 1) 0 = [0] := by
  unfold idsFor
  show ghostsFor line2 (fun _ => false) 2 0 1 _ (1/10) = [0] ∧ ghostsFor line2 (fun _ => false) 2 1 0 _ (1/10) = [0]
  constructor
  · show ghostsFor line2 (fun _ => false) 2 0 1 [(fun _ => 9/10, 2/10, 1)] (1/10) = [0]
    unfold ghostsFor overlaps
    rw [ex_neighbors.1]
    have : (⟨fun _ => 1, fun _ => 2⟩ : Bounds.Box 1).distance (fun _ => 9/10) < 2 * (2/10) * 1 + 1/10 := by
      rw [distance_one _ (by norm_num)]; norm_num
    simp [List.filter_cons, ex_correct, Bounds.Box.center] at this ⊢
    norm_num at this ⊢
    exact this
  · show ghostsFor line2 (fun _ => false) 2 1 0 [(fun _ => 11/10, 2/10, 1)] (1/10) = [0]
    unfold ghostsFor overlaps
    rw [ex_neighbors.2]
    have : (⟨fun _ => 0, fun _ => 1⟩ : Bounds.Box 1).distance (fun _ => 11/10) < 2 * (2/10) * 1 + 1/10 := by
      rw [distance_one _ (by norm_num)]; norm_num
    simp [List.filter_cons, ex_correct, Bounds.Box.center] at this ⊢
    norm_num at this ⊢
    exact this

theorem ex_view (Ks : List Kind) (dts : ℕ → ℝ) (v : ℝ) : view (cfg exSetup Ks dts) (exW v) (exW v) 0 0 = [exPa 1 (11/10) v] ∧
    view (cfg exSetup Ks dts) (exW v) (exW v) 0 1 = [exPa 0 (9/10) 0] := by
  unfold view
  have hrel : ∀ c x : Fin 1 → ℝ, relative (cfg exSetup Ks dts) c x = x := by
    intro c x
    funext k
    unfold relative
    rw [show widths (cfg exSetup Ks dts).b (cfg exSetup Ks dts).wrap = widths line2 fun _ => false from rfl, ex_correct]
    ring
  constructor
  · rw [show nbs (cfg exSetup Ks dts).b (cfg exSetup Ks dts).wrap (cfg exSetup Ks dts).P 0 = [1] from ex_nbs.1]
    simp only [List.flatMap_cons, List.flatMap_nil, List.append_nil, (ex_ids Ks dts v).2]
    simp [exW, exPa, snapshot, hrel]
  · rw [show nbs (cfg exSetup Ks dts).b (cfg exSetup Ks dts).wrap (cfg exSetup Ks dts).P 1 = [0] from ex_nbs.2]
    simp only [List.flatMap_cons, List.flatMap_nil, List.append_nil, (ex_ids Ks dts v).1]
    simp [exW, exPa, snapshot, hrel]

theorem ex_fits : Fits exSetup exSys := by
  refine ⟨by decide, fun k => by norm_num [exSetup, line2], by norm_num [exSetup], fun k hk => by simp [exSetup] at hk, ?_, ?_, Or.inl rfl⟩
  · intro T hT a _ b _
    simp only [exSys, List.mem_singleton] at hT
    subst hT
    exact ⟨by norm_num [exSys], fun k hk => by simp [exSetup] at hk⟩
  · intro T hT a b _
    simp only [exSys, List.mem_singleton] at hT
    subst hT
    trivial

/-- Example: the motion of the spheres at the start. -/
noncomputable def exM (x y v : ℝ) : Motion 0 := ⟨fun a _ => if a = 0 then x else y, fun a _ => if a = 0 then 0 else v⟩

theorem ex_mem {x y v : ℝ} {w : ℕ → List (Pa 0)} (hw : w = fun p => if p = 0 then [exPa 0 x 0] else if p = 1 then [exPa 1 y v] else [])
    {p : ℕ} (hp : p < 2) {a : Pa 0} (ha : a ∈ w p) : p = 0 ∧ a = exPa 0 x 0 ∨ p = 1 ∧ a = exPa 1 y v := by
  subst hw
  have : p = 0 ∨ p = 1 := by omega
  rcases this with rfl | rfl
  · exact Or.inl ⟨rfl, by simpa using ha⟩
  · exact Or.inr ⟨rfl, by simpa using ha⟩

theorem ex_follows (x y v : ℝ) :
    Follows exSetup exSys (exM x y v) fun p => if p = 0 then [exPa 0 x 0] else if p = 1 then [exPa 1 y v] else [] := by
  refine ⟨?_, fun p hp a ha => ?_, fun p hp a ha => ?_, fun p hp a ha k => ⟨0, ?_, fun _ => rfl⟩⟩
  · simp [exSetup, exSys, List.range_succ, exPa]
  all_goals rcases ex_mem (x := x) (y := y) (v := v) rfl hp ha with ⟨rfl, rfl⟩ | ⟨rfl, rfl⟩ <;> simp [exPa, exSys, exM]

theorem ex_complete (dts : ℕ → ℝ) (v : ℝ) : ∀ p < exSetup.P,
    Complete (worldOf exSetup exSys.N (exW v)) p (procOf (exW v p) (view (cfg exSetup [exKind] dts) (exW v) (exW v) 0 p)) exKind exSetup.skin := by
  intro p hp
  have o0 : (worldOf exSetup exSys.N (exW v)).owner 0 = 0 := rfl
  have o1 : (worldOf exSetup exSys.N (exW v)).owner 1 = 1 := rfl
  have hp : p < 2 := hp
  have cases2 : ∀ a < (worldOf exSetup exSys.N (exW v)).n, a = 0 ∨ a = 1 := by
    intro a ha
    have : a < 2 := ha
    omega
  have h01 : p = 0 ∨ p = 1 := by omega
  refine ⟨fun q hq => by simp [exKind] at hq, fun q hq => by simp [exKind] at hq, fun q hq => ?_, fun a ha b hb hab oa ob => ?_, fun a ha b hb oa ob _ => ?_⟩
  · simp only [exKind, List.mem_singleton] at hq
    subst hq
    rcases h01 with rfl | rfl
    · rw [(ex_view [exKind] dts v).1]; exact ⟨Nat.one_pos, Nat.one_pos, trivial⟩
    · rw [(ex_view [exKind] dts v).2]; exact ⟨Nat.one_pos, Nat.one_pos, trivial⟩
  · exfalso
    rcases cases2 a ha with rfl | rfl <;> rcases cases2 b hb with rfl | rfl <;> simp_all
  · rcases h01 with rfl | rfl
    · rw [(ex_view [exKind] dts v).1]
      rcases cases2 a ha with rfl | rfl <;> rcases cases2 b hb with rfl | rfl <;> simp_all [exKind, procOf, exW, exPa]
    · rw [(ex_view [exKind] dts v).2]
      rcases cases2 a ha with rfl | rfl <;> rcases cases2 b hb with rfl | rfl <;> simp_all [exKind, procOf, exW, exPa]

theorem ex_exchanged (v : ℝ) : Exchanged exSetup (exW v) (exW v) := by
  have hs : ∀ p < 2, ∀ a ∈ (wrapAll exSetup (exW v p)).map toPt, -1 < a.type ∧ destination line2 (fun _ => false) 2 p a.x = none := by
    intro p hp a ha
    obtain ⟨a', ha', rfl⟩ := List.mem_map.mp ha
    obtain ⟨a0, ha0, rfl⟩ := List.mem_map.mp ha'
    unfold destination
    rcases ex_mem rfl hp ha0 with ⟨rfl, rfl⟩ | ⟨rfl, rfl⟩
    · refine ⟨by simp [toPt, exPa], if_pos ?_⟩
      rw [ex_bounds.1, Bounds.contains_iff]; intro k; norm_num [toPt, exPa, exSetup]
    · refine ⟨by simp [toPt, exPa], if_pos ?_⟩
      rw [ex_bounds.2, Bounds.contains_iff]; intro k; norm_num [toPt, exPa, exSetup]
  obtain ⟨k, net, hrun, hall, _⟩ := C142_completes line2 (fun _ => false) 2 le_rfl (fun _ _ l => l) (fun _ _ l => List.Perm.refl _)
    (fun p => (wrapAll exSetup (exW v p)).map toPt) 1 false 0 _ .init
  unfold Exchanged
  rw [if_neg (by simp [exSetup])]
  refine ⟨false, k, net, hrun, fun p hp => ⟨hall p hp, ?_⟩⟩
  have hp : p < 2 := hp
  rw [C141_states _ 2 1 false (Exchange.proper line2 _ 2 le_rfl _) _ (Exchange.agreed line2 _ 2 _ _) k net hrun p hp,
    lock_fixed line2 (fun _ => false) 2 _ le_rfl hs _ p hp]
  have : p = 0 ∨ p = 1 := by omega
  rcases this with rfl | rfl <;> simp [wrapAll, exW, exPa, toPt, exSetup]

/-- Example: there are runs. -/
theorem ex_run (dts : ℕ → ℝ) (v : ℝ) : ∃ w', Runs exSetup exSys dts (exW v) [2] w' := by
  have he : ∀ r p l g, ((cfg exSetup [exKind] dts).evolve r p l g).length = l.length := advance_length exSetup [exKind] dts
  obtain ⟨k, net, hrun, hall⟩ := C143_completes (cfg exSetup [exKind] dts) le_rfl he (fun p => ⟨exW v p, fun _ => [], [], fun _ => 0⟩) 2 false 0 _ .init
  refine ⟨fun p => (net.procs p).st.owned, Runs.cycle [] 2 (exW v) _ .init ⟨exW v, [exKind], ex_exchanged v, rfl, fun K hK => ?_, ?_⟩⟩
  · rw [List.mem_singleton] at hK
    subst hK
    simpa using ex_complete _ v
  · unfold Stepped
    rw [if_neg (by simp [exSetup])]
    simp only [List.sum_nil, Nat.zero_add]
    exact ⟨false, k, net, hrun, fun p hp => ⟨hall p hp, rfl⟩⟩

theorem len_one (X : Fin 1 → ℝ) : len X = |X 0| := by
  unfold len dot
  simp [Real.sqrt_mul_self_eq_abs]

theorem ex_near (X : Fin 1 → ℝ) : near (widths exSetup.b exSetup.wrap) X = X := by
  funext k
  exact near_none (by simp [widths, exSetup])

/-- Example: the forces if the spheres overlap. -/
theorem ex_total (M : Motion 0) (x y : ℝ) (h0 : M.x 0 0 = x) (h1 : M.x 1 0 = y) (hxy : x < y) (hlt : y - x < 4/10) :
    total exSys (widths exSetup.b exSetup.wrap) M 0 0 = -(4/10 - (y - x)) ∧ total exSys (widths exSetup.b exSetup.wrap) M 1 0 = 4/10 - (y - x) := by
  have e0 : (range exSys.N).erase 0 = {1} := by decide
  have e1 : (range exSys.N).erase 1 = {0} := by decide
  have l1 : len (M.x 1 - M.x 0) = y - x := by rw [len_one, Pi.sub_apply, h0, h1, abs_of_pos (by linarith)]
  have l0 : len (M.x 0 - M.x 1) = y - x := by rw [len_one, Pi.sub_apply, h0, h1, abs_of_neg (by linarith)]; ring
  have hs : (y - x) ^ 2 < ((2/10 + 2/10) * 1) ^ 2 := by nlinarith
  unfold total
  constructor
  · rw [e0]
    simp only [exSys, List.map_cons, List.map_nil, List.sum_cons, List.sum_nil, sum_singleton, if_true, ex_near, push, l0]
    rw [if_pos hs]
    simp only [Force.mag, Pi.sub_apply, h0, h1]
    field_simp [sub_ne_zero.mpr hxy.ne']
    ring
  · rw [e1]
    simp only [exSys, List.map_cons, List.map_nil, List.sum_cons, List.sum_nil, sum_singleton, if_true, ex_near, push, l1]
    rw [if_pos hs]
    simp only [Force.mag, Pi.sub_apply, h0, h1]
    field_simp [sub_ne_zero.mpr hxy.ne']
    ring

/-- Example: the motion in the first two steps. -/
theorem ex_orbit : ∀ t < 2, ∃ d : ℝ, 0 ≤ d ∧ d ≤ 1/100 ∧ (orbit exSys (widths exSetup.b exSetup.wrap) (fun _ => 1/10) (exM (9/10) (11/10) 0) t).x 0 0 = 9/10 - d ∧
    (orbit exSys (widths exSetup.b exSetup.wrap) (fun _ => 1/10) (exM (9/10) (11/10) 0) t).x 1 0 = 11/10 + d := by
  intro t ht
  have : t = 0 ∨ t = 1 := by omega
  rcases this with rfl | rfl
  · exact ⟨0, le_rfl, by norm_num, by simp [orbit, exM], by simp [orbit, exM]⟩
  · obtain ⟨t0, t1⟩ := ex_total (exM (9/10) (11/10) 0) (9/10) (11/10) rfl rfl (by norm_num) (by norm_num)
    refine ⟨2/1000, by norm_num, by norm_num, ?_, ?_⟩
    · simp only [orbit, next]
      rw [t0]
      norm_num [exM, exSys]
    · simp only [orbit, next]
      rw [t1]
      norm_num [exM, exSys]

/-- C155, the hypotheses are met: two overlapping spheres on two processors, a construction and two steps. -/
example : Fits exSetup exSys ∧ Follows exSetup exSys (exM (9/10) (11/10) 0) (exW 0) ∧ (∃ w, Runs exSetup exSys (fun _ => 1/10) (exW 0) [2] w) ∧
    Timely exSys exSetup.skin (orbit exSys (widths exSetup.b exSetup.wrap) (fun _ => 1/10) (exM (9/10) (11/10) 0)) [2] ∧
    Separate exSys (widths exSetup.b exSetup.wrap) (orbit exSys (widths exSetup.b exSetup.wrap) (fun _ => 1/10) (exM (9/10) (11/10) 0)) 2 ∧
    total exSys (widths exSetup.b exSetup.wrap) (exM (9/10) (11/10) 0) 1 0 = 2/10 := by
  refine ⟨ex_fits, ex_follows _ _ _, ex_run _ 0, ?_, ?_, ?_⟩
  · intro l1 R l2 e r hr a ha
    have hl : l1 = [] ∧ R = 2 := by
      cases l1 with
      | nil => simp at e; exact ⟨rfl, e.1.symm⟩
      | cons b l1 => simp at e
    obtain ⟨rfl, rfl⟩ := hl
    obtain ⟨d, d0, d1, h0, h1⟩ := ex_orbit r hr
    have : a = 0 ∨ a = 1 := by have : a < 2 := ha; omega
    simp only [List.sum_nil, Nat.zero_add]
    rw [len_one, Pi.sub_apply]
    have hsk : exSetup.skin = 1/10 := rfl
    rcases this with rfl | rfl
    · rw [h0, abs_le, hsk]
      have : (orbit exSys (widths exSetup.b exSetup.wrap) (fun _ => 1/10) (exM (9/10) (11/10) 0) 0).x 0 0 = 9/10 := rfl
      rw [this]
      constructor <;> linarith
    · rw [h1, abs_le, hsk]
      have : (orbit exSys (widths exSetup.b exSetup.wrap) (fun _ => 1/10) (exM (9/10) (11/10) 0) 0).x 1 0 = 11/10 := rfl
      rw [this]
      constructor <;> linarith
  · intro t ht a ha b hb hab hz
    obtain ⟨d, d0, d1, h0, h1⟩ := ex_orbit t ht
    rw [ex_near] at hz
    have hz := congrFun hz 0
    rw [Pi.sub_apply, Pi.zero_apply] at hz
    have ca : a = 0 ∨ a = 1 := by have : a < 2 := ha; omega
    have cb : b = 0 ∨ b = 1 := by have : b < 2 := hb; omega
    rcases ca with rfl | rfl <;> rcases cb with rfl | rfl
    · exact hab rfl
    · rw [h0, h1] at hz; linarith
    · rw [h0, h1] at hz; linarith
    · exact hab rfl
  · rw [(ex_total (exM (9/10) (11/10) 0) (9/10) (11/10) rfl rfl (by norm_num) (by norm_num)).2]; norm_num

/-! ## The first step -/

/-- C155, the first step: with `update_decision_type` 1 and a delay of at least 2 steps, and also with type 0 if no processor
needs it, nothing is sent between the move of the particles and the forces in the first step of a run: ghosts are neither created
again nor updated (`_handler_remade` is still true from `pre_integrate`, `base/interactionhandler.cpp:50-60,142`, `gflow.cpp:188,274`). -/
theorem C155_negation_first_silent (c : Collective.Cfg) (delay last : ℕ) (i : Collective.Inp) (hn : 1 ≤ i.number) (hi : i.needs = false) (ha : c.adjust 0 = false) :
    (c.type = 1 → 2 ≤ delay → ∃ o, Collective.stepProg c 0 (Collective.start c delay last) i = .done o) ∧
    (c.type = 0 → i.exceed = false → ∃ k, Collective.stepProg c 0 (Collective.start c delay last) i = .coll .construct 0 k ∧ ∃ o, k 0 = .done o) := by
  have hn' : ¬ i.number < 1 := by omega
  have hr : ∀ h : Collective.H, (Collective.note (Collective.tick h) i).remade = h.remade := by
    intro h
    unfold Collective.note Collective.tick
    split <;> rfl
  constructor
  · intro ht hd
    unfold Collective.stepProg Collective.start
    simp only [if_true, ha, Bool.false_and, Bool.false_eq_true, if_false]
    unfold Collective.preForces
    rw [if_neg hn', if_neg (by omega)]
    have hw : Collective.wants c (Collective.tick ⟨0, if c.type = 2 then 1 else delay, last, false, true, false, true⟩) i = false := by
      unfold Collective.wants Collective.tick
      simp [hi, ht]
      omega
    rw [hw]
    unfold Collective.decided
    simp only [Bool.false_eq_true, if_false]
    unfold Collective.finish
    rw [if_pos (by rw [hr])]
    exact ⟨_, rfl⟩
  · intro ht he
    unfold Collective.stepProg Collective.start
    simp only [if_true, ha, Bool.false_and, Bool.false_eq_true, if_false]
    unfold Collective.preForces
    rw [if_neg hn', if_pos ht]
    have hw : Collective.wants c (Collective.tick ⟨0, if c.type = 2 then 1 else delay, last, false, true, false, true⟩) i = false := by
      unfold Collective.wants Collective.tick
      simp [hi, ht, he]
    rw [hw]
    refine ⟨_, rfl, ?_⟩
    unfold Collective.decided
    simp only [Bool.false_eq_true, if_false, bne_self_eq_false]
    unfold Collective.finish
    rw [if_pos (by rw [hr])]
    exact ⟨_, rfl⟩

example : (⟨1, fun _ => false⟩ : Collective.Cfg).type = 1 ∧ 1 ≤ (⟨2, false, false, false, false⟩ : Collective.Inp).number := ⟨rfl, by decide⟩

/-- C155 is false in the first step of a run without the construction of the first step (`C155_negation_first_silent`): the spheres
have moved, the ghosts have not, and the force on a sphere is that of the old distance. -/
theorem C155_negation_first_step :
    Follows exSetup exSys (exM (9/10) 1 (-1)) (fun p => drift (1/10) (exW (-1) p)) ∧
    ∃ f, stepForces exSetup.P exSetup.doPot exSetup.doVir (widths exSetup.b exSetup.wrap)
        (arrays (drift (1/10) (exW (-1) 0)) (view (cfg exSetup [exKind] fun _ => 1/10) (exW (-1)) (exW (-1)) 0 0)) ([exKind].map (Kind.lists · 0)) = some f ∧
      f.1 0 0 = -(2/10) ∧ total exSys (widths exSetup.b exSetup.wrap) (exM (9/10) 1 (-1)) 0 0 = -(3/10) := by
  refine ⟨?_, ?_⟩
  · have : (fun p => drift (1/10) (exW (-1) p)) = fun p => if p = 0 then [exPa 0 (9/10) 0] else if p = 1 then [exPa 1 1 (-1)] else [] := by
      funext p
      unfold exW drift
      by_cases h0 : p = 0
      · simp [h0, exPa]
      · by_cases h1 : p = 1
        · simp [h1, exPa]; norm_num
        · simp [h0, h1]
    rw [this]
    exact ex_follows _ _ _
  · rw [(ex_view [exKind] (fun _ => 1/10) (-1)).1]
    have hd : drift (1/10) (exW (-1) 0) = [exPa 0 (9/10) 0] := by simp [drift, exW, exPa]
    rw [hd]
    have hi : interactAll exSetup.doPot exSetup.doVir (widths exSetup.b exSetup.wrap) (arrays [exPa 0 (9/10) 0] [exPa 1 (11/10) (-1)])
        ([exKind].map (Kind.lists · 0)) (fun _ _ => 0) = some (fun _ _ => 0, [(0, 0)]) := rfl
    unfold stepForces
    rw [hi, Option.bind_some, if_neg (by simp [exSetup])]
    show ∃ f, ((dolist (.hardSphere 1) 1 exSetup.doPot exSetup.doVir (widths exSetup.b exSetup.wrap)
      (arrays [exPa 0 (9/10) 0] [exPa 1 (11/10) (-1)]) [(1, 0)] ⟨fun _ _ => 0, 0, 0⟩).bind fun a => some (a.f, [(a.pot, a.vir)])) = some f ∧ _
    unfold dolist
    rw [List.foldlM_cons]
    have hw : ∀ X : Fin 1 → ℝ, correct (widths exSetup.b exSetup.wrap) X = X := ex_correct
    have hx : (arrays [exPa 0 (9/10) 0] [exPa 1 (11/10) (-1)]).x 1 - (arrays [exPa 0 (9/10) 0] [exPa 1 (11/10) (-1)]).x 0 = fun _ => 2/10 := by
      funext k
      simp [arrays, slot, exPa]; norm_num
    have hv : ∀ a : Acc 1, visit (.hardSphere 1) 1 exSetup.doPot exSetup.doVir (widths exSetup.b exSetup.wrap)
        (arrays [exPa 0 (9/10) 0] [exPa 1 (11/10) (-1)]) a (1, 0) =
        kernel (.hardSphere 1) exSetup.doPot exSetup.doVir (arrays [exPa 0 (9/10) 0] [exPa 1 (11/10) (-1)]) 1 0 (fun _ => 2/10) a := by
      intro a
      unfold visit
      simp only [hw, hx]
      rw [if_pos]
      simp [dot, arrays, slot, exPa]; norm_num
    have hs : Real.sqrt (2/10 * (2/10)) = 2/10 := Real.sqrt_mul_self (by norm_num)
    rw [hv]
    unfold kernel
    rw [if_neg (by norm_num [dot])]
    refine ⟨_, by simp [exSetup]; rfl, ?_, ?_⟩
    · simp [addAt, Force.mag, dot, arrays, slot, exPa, hs]
    · rw [(ex_total (exM (9/10) 1 (-1)) (9/10) 1 rfl rfl (by norm_num) (by norm_num)).1]; norm_num

end Verif.ParallelRun
