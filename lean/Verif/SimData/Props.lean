import Verif.SimData.Refine
import Mathlib.Data.List.Count

/-!
# Properties C01-C08, C13, C64 of the particle store

`run c (init c) ops = some s` reads: the history `ops`, started on an empty store, executes without
undefined behaviour and ends in `s`.
-/

namespace Verif.SimData

variable {R : Type}

/-- A concrete history used to show that hypotheses can be met: five particles in one dimension, two of
them removed, compaction, one more particle. -/
def demoCfg : Cfg ℕ := { dims := 1, reset := 0 }
def demoOps : List (Op ℕ) :=
  [.addFull [5] 50 0, .addFull [4] 40 1, .addBulk 3, .mark 0, .mark 3, .mark 0, .removal, .addFull [7] 70 0]

theorem demoOps_valid : ∀ op ∈ demoOps, op.Valid := by
  simp [demoOps, Op.Valid]

theorem demoOps_runs : (run demoCfg (init demoCfg) demoOps).isSome = true := by rfl

/-- **C01.** After any history, `number()` is the number of slots below `size()` with a non-negative
type, and `0 ≤ number() ≤ size() ≤ capacity`. -/
theorem C01_counts_exact (c : Cfg R) (ops : List (Op R)) (hv : ∀ op ∈ ops, op.Valid) (s : Store R)
    (h : run c (init c) ops = some s) :
    s.number = ((List.range s.size).countP (fun i => decide (0 ≤ (s.mem i).type)) : ℕ) ∧
    0 ≤ s.number ∧ s.number ≤ s.size ∧ s.size ≤ s.cap := by
  have hi := run_inv (init_inv c) hv h
  have hc : liveCount s.mem s.size = (List.range s.size).countP (fun i => decide (0 ≤ (s.mem i).type)) := by
    generalize s.size = n
    induction n with
    | zero => simp [liveCount_zero]
    | succ n ih =>
      rw [liveCount_succ, List.range_succ, List.countP_append, ih]
      simp [List.countP_cons]
  have := hi.num
  have := liveCount_le s.mem s.size
  refine ⟨by rw [← hc]; exact hi.num, by omega, by omega, hi.size_le⟩

/-- the hypotheses of C01 are met, and the history does something -/
example : ∃ s, run demoCfg (init demoCfg) demoOps = some s ∧ s.number = 4 ∧ s.size = 4 :=
  ⟨_, rfl, rfl, rfl⟩

/-- **C02.** `getLocalID(g) = i` exactly when slot `i` is alive and holds id `g`; hence `-1` (`none`) for
every id that was never issued or whose particle was removed. -/
theorem C02_lookup_exact (c : Cfg R) (ops : List (Op R)) (hv : ∀ op ∈ ops, op.Valid) (s : Store R)
    (h : run c (init c) ops = some s) (g : ℤ) :
    (∀ i, getLocalID s g = some i ↔ i < s.size ∧ 0 ≤ (s.mem i).type ∧ (s.mem i).gid = g) ∧
    (getLocalID s g = none ↔ ∀ i, i < s.size → 0 ≤ (s.mem i).type → (s.mem i).gid ≠ g) := by
  have hi := run_inv (init_inv c) hv h
  refine ⟨fun i => hi.map g i, ?_⟩
  unfold getLocalID
  rw [Option.eq_none_iff_forall_ne_some]
  constructor
  · intro hn i h1 h2 h3; exact hn i ((hi.map g i).2 ⟨h1, h2, h3⟩)
  · intro hn i he
    obtain ⟨h1, h2, h3⟩ := (hi.map g i).1 he
    exact hn i h1 h2 h3

example : ∃ s, run demoCfg (init demoCfg) demoOps = some s ∧ getLocalID s 0 = none ∧
    (getLocalID s 2 = some 1) ∧ (getLocalID s 7 = some 3) := ⟨_, rfl, rfl, rfl, rfl⟩

/-- **C03, uniqueness.** Two live slots never carry the same global id. -/
theorem C03_gids_unique (c : Cfg R) (ops : List (Op R)) (hv : ∀ op ∈ ops, op.Valid) (s : Store R)
    (h : run c (init c) ops = some s) (i j : ℕ) (hi : i < s.size) (hj : j < s.size)
    (_ : 0 ≤ (s.mem i).type) (_ : 0 ≤ (s.mem j).type) (hg : (s.mem i).gid = (s.mem j).gid) : i = j :=
  (run_inv (init_inv c) hv h).inj i j hi hj hg

theorem step_next_le {c : Cfg R} {s t : Store R} {op : Op R} (h : Inv s) (hv : op.Valid)
    (ht : step c s op = some t) : s.next ≤ t.next := by
  cases op with
  | addBulk n =>
    simp only [step, addBulk] at ht
    split at ht
    · cases ht; exact le_refl _
    · have key : ∀ (n : ℕ) (s t : Store R), Inv s → addLoop c true n s = some t → s.next ≤ t.next := by
        intro n
        induction n with
        | zero => intro s t _ ht; simp [addLoop] at ht; subst ht; exact le_refl _
        | succ n ih =>
          intro s t hs ht
          simp only [addLoop] at ht
          obtain ⟨u, h1, h2⟩ := Option.bind_eq_some_iff.1 ht
          have := ih u t (addOne_inv hs h1) h2
          unfold addOne at h1
          split at h1
          · simp only [Option.some.injEq] at h1
            subst h1
            have hd := hs.dpos
            simp at this
            omega
          · simp at h1
      exact key _ { s with cap := growBulk s.cap s.size n.toNat } _
        (cap_inv h (le_trans h.size_le (growBulk_ge _ _ _))) ht
  | addFull x r ty =>
    simp only [step, addFull] at ht
    split at ht
    · simp only [Option.some.injEq] at ht
      subst ht; have := h.dpos; simp; omega
    · simp at ht
  | mark i =>
    simp only [step, mark] at ht
    split at ht
    · split at ht
      · cases ht; exact le_refl _
      · simp only [Option.some.injEq] at ht; subst ht; exact le_refl _
    · simp at ht
  | removal =>
    obtain ⟨_, u, h1, _, _, _, _, _, _, hx, _⟩ := removal_spec h (removal_isSome_ok h ht)
    simp only [step] at ht
    rw [h1] at ht; cases ht; omega
  | sortAll =>
    have ht' := ht
    simp only [step, sortAll] at ht
    obtain ⟨u, h1, _⟩ := Option.bind_eq_some_iff.1 ht
    have hok := removal_isSome_ok h h1
    obtain ⟨_, u, h1, _, _, _, _, _, _, hx, _⟩ := removal_spec h hok
    obtain ⟨u', t', e1, _, _, _, e5, e6⟩ := sortAll_spec (c := c) h hok
    rw [h1] at e1; cases e1
    simp only [step] at ht'
    rw [e6] at ht'; cases ht'
    have := e5.fields; simp; omega
  | sortX =>
    have ht' := ht
    simp only [step, sortX] at ht
    obtain ⟨u, h1, _⟩ := Option.bind_eq_some_iff.1 ht
    have hok := removal_isSome_ok h h1
    obtain ⟨_, u, h1, _, _, _, _, _, _, hx, _⟩ := removal_spec h hok
    obtain ⟨u', t', e1, _, _, _, e5, e6, _⟩ := sortX_spec (c := c) h hok
    rw [h1] at e1; cases e1
    simp only [step] at ht'
    rw [e6] at ht'; cases ht'
    have := e5.fields; simp; omega
  | write i x r =>
    simp only [step, write] at ht
    split at ht
    · simp only [Option.some.injEq] at ht; subst ht; exact le_refl _
    · simp at ht
  | clearFlag => simp only [step, Option.some.injEq] at ht; subst ht; exact le_refl _

/-- **C03, no reuse.** Take any history, and any continuation of it. An id that was below the counter
(i.e. had been issued) and was no longer alive at the end of the first part never is alive again; and every
particle created in the second part gets an id larger than all the ids that existed before. -/
theorem C03_gids_never_reused (c : Cfg R) (ops ops' : List (Op R)) (hv : ∀ op ∈ ops, op.Valid)
    (hv' : ∀ op ∈ ops', op.Valid) (s t : Store R) (h : run c (init c) ops = some s)
    (h' : run c s ops' = some t) :
    (∀ g r, Holds s g r → g < s.next) ∧
    (∀ g r, Holds t g r → (∃ r', Holds s g r') ∨ s.next ≤ g) := by
  have hi := run_inv (init_inv c) hv h
  refine ⟨fun g r ⟨i, h1, _, h3, _⟩ => h3 ▸ (hi.gidr i h1).2, ?_⟩
  clear h hv
  -- generalise over the starting bound
  have key : ∀ (ops' : List (Op R)) (u : Store R), Inv u → (∀ op ∈ ops', op.Valid) → s.next ≤ u.next →
      (∀ g r, Holds u g r → (∃ r', Holds s g r') ∨ s.next ≤ g) → run c u ops' = some t →
      (∀ g r, Holds t g r → (∃ r', Holds s g r') ∨ s.next ≤ g) := by
    intro ops'
    induction ops' with
    | nil => intro u _ _ _ hu ht; simp [run] at ht; subst ht; exact hu
    | cons op ops' ih =>
      intro u hu hvu hn hold ht
      simp only [run] at ht
      obtain ⟨w, h1, h2⟩ := Option.bind_eq_some_iff.1 ht
      have hvop := hvu op (by simp)
      refine ih w (step_inv hu hvop h1) (fun o ho => hvu o (by simp [ho]))
        (le_trans hn (step_next_le hu hvop h1)) ?_ h2
      -- one step
      classical
      let m : Abs R := fun g => if hg : ∃ r, Holds u g r then some (Classical.choose hg) else none
      have hm : Represents u m := by
        intro g r
        simp only [m]
        split
        · rename_i hg
          constructor
          · intro e; cases e; exact Classical.choose_spec hg
          · intro e; rw [Holds.unique hu (Classical.choose_spec hg) e]
        · rename_i hg
          simp only [reduceCtorEq, false_iff]
          intro e; exact hg ⟨r, e⟩
      have hrep := rep_step hu hvop hm h1
      intro g r hgr
      have hg := (hrep g r).2 hgr
      -- every event either keeps the domain or inserts an id ≥ u.next
      have evkey : ∀ (evs : List (Ev R)) (m : Abs R),
          (∀ e ∈ evs, ∀ g r, e = Ev.insert g r → u.next ≤ g) →
          ∀ g r, evs.foldl Ev.apply m g = some r → (∃ r', m g = some r') ∨ u.next ≤ g := by
        intro evs
        induction evs with
        | nil => intro m _ g r he; exact Or.inl ⟨r, he⟩
        | cons e evs ihe =>
          intro m hin g r he
          rcases ihe (e.apply m) (fun e' he' => hin e' (by simp [he'])) g r he with ⟨r', h'⟩ | h'
          · cases e with
            | insert g0 r0 =>
              simp only [Ev.apply] at h'
              split at h'
              · rename_i e; subst e; exact Or.inr (hin _ List.mem_cons_self _ _ rfl)
              · exact Or.inl ⟨r', h'⟩
            | delete g0 =>
              simp only [Ev.apply] at h'
              split at h'
              · cases h'
              · exact Or.inl ⟨r', h'⟩
            | update g0 x r0 =>
              simp only [Ev.apply] at h'
              split at h'
              · obtain ⟨r1, hr1, _⟩ := Option.map_eq_some_iff.1 h'
                exact Or.inl ⟨r1, hr1⟩
              · exact Or.inl ⟨r', h'⟩
          · exact Or.inr h'
      have hins : ∀ e ∈ events c u op, ∀ g r, e = Ev.insert g r → u.next ≤ g := by
        intro e he g r heq
        subst heq
        cases op with
        | addBulk n =>
          simp only [events, List.mem_map] at he
          obtain ⟨k, _, hk⟩ := he
          cases hk
          have : 0 ≤ (k : ℤ) * u.dGid := mul_nonneg (by omega) (le_of_lt hu.dpos)
          omega
        | addFull x r ty => simp [events] at he; omega
        | mark i => simp only [events] at he; split at he <;> simp at he
        | write i x r => simp only [events] at he; split at he <;> simp at he
        | removal => simp [events] at he
        | sortAll => simp [events] at he
        | sortX => simp [events] at he
        | clearFlag => simp [events] at he
      rcases evkey _ _ hins g r hg with ⟨r', h'⟩ | h'
      · exact hold g r' ((hm g r').1 h')
      · exact Or.inr (le_trans hn h')
  exact key ops' s hi hv' (le_refl _) (fun g r hg => Or.inl ⟨r, hg⟩) h'

example : ∃ s t, run demoCfg (init demoCfg) (demoOps.take 7) = some s ∧
    run demoCfg s (demoOps.drop 7) = some t ∧ s.next = 7 ∧ (t.mem 3).gid = 7 := ⟨_, _, rfl, rfl, rfl, rfl⟩

/-- **C04.** Marking slot `i < size()`: a live slot makes `number()` drop by one, kills exactly this slot,
leaves `size()` and every other slot as they were; a dead slot changes nothing. In particular marking twice
is marking once. -/
theorem C04_mark_local_idempotent (c : Cfg R) (ops : List (Op R)) (hv : ∀ op ∈ ops, op.Valid) (s : Store R)
    (h : run c (init c) ops = some s) (i : ℕ) (hi : i < s.size) :
    ∃ t, mark i s = some t ∧
      t.size = s.size ∧ (∀ j, j ≠ i → t.mem j = s.mem j) ∧
      (0 ≤ (s.mem i).type → t.number = s.number - 1 ∧ (t.mem i).type < 0 ∧ getLocalID t (s.mem i).gid = none) ∧
      ((s.mem i).type < 0 → t = s) ∧
      mark i t = some t := by
  have hI := run_inv (init_inv c) hv h
  have hcap := hI.size_le
  unfold mark
  rw [if_pos (by omega)]
  simp only [Int.toNat_natCast]
  by_cases hd : (s.mem i).type < 0
  · rw [if_pos (Or.inl hd)]
    refine ⟨s, rfl, rfl, fun _ _ => rfl, fun h => by omega, fun _ => rfl, ?_⟩
    rw [if_pos (by omega), if_pos (Or.inl hd)]
  · rw [if_neg (by push Not; exact ⟨by omega, hi⟩)]
    refine ⟨_, rfl, rfl, ?_, ?_, fun h => absurd h hd, ?_⟩
    · intro j hj; simp [Function.update_of_ne hj]
    · intro _; simp [getLocalID]
    · rw [if_pos (by simp; omega)]
      simp

example : ∃ s, run demoCfg (init demoCfg) demoOps = some s ∧ 2 < s.size ∧ 0 ≤ (s.mem 2).type :=
  ⟨_, rfl, by decide, by decide⟩

/-- **C05.** Compaction of any reachable store that has a live particle (or nothing to remove) succeeds;
afterwards `size() = number()`, every slot is alive, and the records below `size()` are, as a multiset, the
live records from before - ids and all columns included. -/
theorem C05_compaction_keeps_survivors (c : Cfg R) (ops : List (Op R)) (hv : ∀ op ∈ ops, op.Valid)
    (s : Store R) (h : run c (init c) ops = some s) (hok : s.removeList = [] ∨ 0 < s.number) :
    ∃ t, removal s = some t ∧ (t.size : ℤ) = t.number ∧ (∀ i < t.size, 0 ≤ (t.mem i).type) ∧
      ((List.range t.size).map t.mem).Perm
        (((List.range s.size).map s.mem).filter (fun v => decide (0 ≤ v.type))) := by
  have hI := run_inv (init_inv c) hv h
  obtain ⟨t, u, h1, h2, hm, hi, hc, hs, hn, hx, hd, hr, hlv, -, -⟩ := removal_spec hI hok
  have hnn := num_nonneg hI
  have hle : s.number.toNat ≤ s.size := by
    have := liveCount_le s.mem s.size; have := hI.num; omega
  refine ⟨u, h1, by omega, ?_, ?_⟩
  · intro i hi'; rw [hm]; exact (hlv i (by omega)).2 (by omega)
  · have hp := (h2.recs_perm (n := s.size) (le_refl _)).filter (fun v => decide (0 ≤ v.type))
    refine List.Perm.trans (List.Perm.of_eq ?_) hp
    rw [hm, hs]
    unfold recs
    obtain ⟨k, hk⟩ : ∃ k, s.size = s.number.toNat + k := ⟨s.size - s.number.toNat, by omega⟩
    rw [hk, List.range_add, List.map_append, List.filter_append]
    rw [List.filter_eq_self.2, List.filter_eq_nil_iff.2, List.append_nil]
    · intro v hv
      simp only [List.mem_map, List.mem_range] at hv
      obtain ⟨j, ⟨a, ha, rfl⟩, rfl⟩ := hv
      have := hlv (s.number.toNat + a) (by omega)
      simp only [decide_eq_true_eq]
      intro hh
      have := this.1 hh
      omega
    · intro v hv
      simp only [List.mem_map, List.mem_range] at hv
      obtain ⟨j, hj, rfl⟩ := hv
      simp only [decide_eq_true_eq]
      exact (hlv j (by omega)).2 hj

example : ∃ s, run demoCfg (init demoCfg) (demoOps.take 6) = some s ∧ s.removeList = [0, 3] ∧
    0 < s.number := ⟨_, rfl, rfl, by decide⟩

/-- **C06 (exact characterisation).** On reachable stores, compaction reads outside of the particle arrays
exactly when something is marked and nothing is left alive. -/
theorem C06_compaction_undefined_iff (c : Cfg R) (ops : List (Op R)) (hv : ∀ op ∈ ops, op.Valid)
    (s : Store R) (h : run c (init c) ops = some s) :
    removal s = none ↔ s.removeList ≠ [] ∧ s.number = 0 := by
  have hI := run_inv (init_inv c) hv h
  have hnn := num_nonneg hI
  constructor
  · intro hn
    by_contra hh
    have : s.removeList = [] ∨ 0 < s.number := by
      by_cases h1 : s.removeList = []
      · exact Or.inl h1
      · right
        have : s.number ≠ 0 := fun h2 => hh ⟨h1, h2⟩
        omega
    obtain ⟨_, u, h1, _⟩ := removal_spec hI this
    rw [hn] at h1; cases h1
  · rintro ⟨h1, h2⟩; exact removal_none hI h1 h2

/-- **C06 is false as stated**: create one particle, mark it, compact - index -1 is read. -/
theorem C06_negation : ∃ s : Store ℕ,
    run demoCfg (init demoCfg) [.addFull [0] 0 0, .mark 0] = some s ∧ removal s = none := ⟨_, rfl, rfl⟩

/-- **C06, partial**: safe as long as one particle stays alive. Missing: the case that all are marked, in
which the property is false (`C06_negation`). -/
theorem C06_compaction_safe_partial (c : Cfg R) (ops : List (Op R)) (hv : ∀ op ∈ ops, op.Valid)
    (s : Store R) (h : run c (init c) ops = some s) (hpos : 0 < s.number) : (removal s).isSome := by
  obtain ⟨t, ht, _⟩ := C05_compaction_keeps_survivors c ops hv s h (Or.inr hpos)
  simp [ht]

example : ∃ s, run demoCfg (init demoCfg) (demoOps.take 6) = some s ∧ 0 < s.number ∧ s.removeList ≠ [] :=
  ⟨_, rfl, by decide, by decide⟩

/-- **C07 (x axis version).** `sortParticles(Vec&)` succeeds whenever compaction does; afterwards the x
coordinates are non-decreasing over the slots `[0, size())`, and the records are a permutation of the live
records before. -/
theorem C07_sort_along_x (c : Cfg R) (hd : 0 < c.dims) (ops : List (Op R)) (hv : ∀ op ∈ ops, op.Valid)
    (s : Store R) (h : run c (init c) ops = some s) (hok : s.removeList = [] ∨ 0 < s.number) :
    ∃ t, sortX c s = some t ∧ (t.size : ℤ) = t.number ∧
      (∀ k l, k ≤ l → l < t.size → (t.mem k).comp 0 ≤ (t.mem l).comp 0) ∧
      ((List.range t.size).map t.mem).Perm
        (((List.range s.size).map s.mem).filter (fun v => decide (0 ≤ v.type))) := by
  have hI := run_inv (init_inv c) hv h
  obtain ⟨u, t, h1, h2, h3, h4, h5, h6, h7⟩ := sortX_spec (c := c) hI hok
  obtain ⟨u', e1, e2, e3, e4⟩ := C05_compaction_keeps_survivors c ops hv s h hok
  rw [h1] at e1; cases e1
  have hf := h5.fields
  refine ⟨_, h6, by simp only; omega, ?_, ?_⟩
  · intro k l hkl hl; exact h7 hd k l hkl (by simp only at hl; omega)
  · simp only
    rw [hf.2.1]
    exact (h5.recs_perm (le_refl _)).trans e4

/-- **C07 (full version).** `sortParticles()` succeeds whenever compaction does and only permutes: the
records afterwards are the live records before. (With two or more dimensions it re-sorts blocks along the
other axes, so it does not leave the x coordinates sorted.) -/
theorem C07_sort_permutes (c : Cfg R) (ops : List (Op R)) (hv : ∀ op ∈ ops, op.Valid)
    (s : Store R) (h : run c (init c) ops = some s) (hok : s.removeList = [] ∨ 0 < s.number) :
    ∃ t, sortAll c s = some t ∧ (t.size : ℤ) = t.number ∧
      ((List.range t.size).map t.mem).Perm
        (((List.range s.size).map s.mem).filter (fun v => decide (0 ≤ v.type))) := by
  have hI := run_inv (init_inv c) hv h
  obtain ⟨u, t, h1, h2, h3, h4, h5, h6⟩ := sortAll_spec (c := c) hI hok
  obtain ⟨u', e1, e2, e3, e4⟩ := C05_compaction_keeps_survivors c ops hv s h hok
  rw [h1] at e1; cases e1
  have hf := h5.fields
  refine ⟨_, h6, by simp only; omega, ?_⟩
  simp only
  rw [hf.2.1]
  exact (h5.recs_perm (le_refl _)).trans e4

/-- In one dimension the full sort is the x sort. -/
theorem C07_one_dimension (c : Cfg R) (hd : c.dims = 1) (s : Store R) : sortAll c s = sortX c s := by
  unfold sortAll sortX
  simp only [hd, Nat.sub_self, recursionHelp, Option.map_some]
  congr 1
  funext a
  cases quickSort 1 0 a 0 (a.size - 1) <;> rfl

theorem addLoop_isSome {c : Cfg R} {b : Bool} : ∀ {n : ℕ} {s : Store R},
    (addLoop c b n s).isSome ↔ n = 0 ∨ s.size + n ≤ s.cap := by
  intro n
  induction n with
  | zero => intro s; simp [addLoop]
  | succ n ih =>
    intro s
    simp only [addLoop]
    unfold addOne
    split
    · rename_i hlt
      simp only [Option.bind_some]
      rw [ih]
      simp only
      omega
    · simp; omega

/-- **C08 (exact characterisation).** `addParticle(n)` stays inside of the arrays exactly when the grown
capacity suffices. -/
theorem C08_bulk_defined_iff (c : Cfg R) (s : Store R) (n : ℕ) (hn : 0 < n) :
    (addBulk c n true s).isSome ↔
      s.size + n ≤ s.cap ∨ s.size + n ≤ s.cap + max 32 ((n + s.size - s.cap) / 10) := by
  unfold addBulk
  rw [if_neg (by omega)]
  simp only [Int.toNat_natCast]
  rw [addLoop_isSome]
  simp only [growBulk]
  split <;> omega

/-- **C08 is false as stated**: on an empty store, creating 33 particles at once writes past the end of
the arrays (capacity 32). -/
theorem C08_negation : addBulk demoCfg 33 true (init demoCfg) = none := by decide

/-- **C08, partial**: up to 32 particles per call, and single-particle creation (both versions), are always
inside of the arrays. Missing: larger bulks, for which the property is false (`C08_negation`). -/
theorem C08_growth_safe_partial (c : Cfg R) (ops : List (Op R)) (hv : ∀ op ∈ ops, op.Valid)
    (s : Store R) (h : run c (init c) ops = some s) :
    (∀ n : ℕ, n ≤ 32 → (addBulk c n true s).isSome) ∧
    (∀ x r t, (addFull c x r t s).isSome) := by
  have hI := run_inv (init_inv c) hv h
  constructor
  · intro n hn
    by_cases h0 : n = 0
    · subst h0; simp [addBulk]
    · rw [C08_bulk_defined_iff c s n (by omega)]
      have := hI.size_le
      omega
  · intro x r t
    unfold addFull
    simp only
    rw [if_pos (growFull_gt hI.size_le)]
    simp

example : (addBulk demoCfg 32 true (init demoCfg)).isSome := by decide

/-- Calls that the code handles without undefined behaviour. -/
def Op.Safe (s : Store R) : Op R → Prop
  | .addBulk n => n ≤ 32
  | .addFull _ _ t => 0 ≤ t
  | .mark i => 0 ≤ i ∧ i < s.size
  | .removal => s.removeList = [] ∨ 0 < s.number
  | .sortAll => s.removeList = [] ∨ 0 < s.number
  | .sortX => s.removeList = [] ∨ 0 < s.number
  | .write i _ _ => i < s.size
  | .clearFlag => True

/-- Every safe call on a reachable store is defined: histories of safe calls never get stuck, so the
theorems above are not about an empty set of histories. -/
theorem safe_calls_defined (c : Cfg R) (ops : List (Op R)) (hv : ∀ op ∈ ops, op.Valid)
    (s : Store R) (h : run c (init c) ops = some s) (op : Op R) (hs : op.Safe s) :
    (step c s op).isSome := by
  have hI := run_inv (init_inv c) hv h
  have hcap := hI.size_le
  cases op with
  | addBulk n =>
    simp only [Op.Safe] at hs
    simp only [step]
    by_cases h0 : n ≤ 0
    · simp [addBulk, h0]
    · obtain ⟨k, rfl⟩ := Int.eq_ofNat_of_zero_le (show 0 ≤ n by omega)
      exact (C08_growth_safe_partial c ops hv s h).1 k (by omega)
  | addFull x r t => exact (C08_growth_safe_partial c ops hv s h).2 x r t
  | mark i =>
    simp only [Op.Safe] at hs
    simp only [step, mark]
    rw [if_pos (by omega)]
    split <;> simp
  | removal =>
    obtain ⟨t, ht, _⟩ := C05_compaction_keeps_survivors c ops hv s h hs
    simp [step, ht]
  | sortAll =>
    obtain ⟨t, ht, _⟩ := C07_sort_permutes c ops hv s h hs
    simp [step, ht]
  | sortX =>
    obtain ⟨_, t, _, _, _, _, _, ht, _⟩ := sortX_spec (c := c) hI hs
    simp [step, ht]
  | write i x r =>
    simp only [Op.Safe] at hs
    simp only [step, write]
    rw [if_pos (by omega)]
    simp
  | clearFlag => simp [step]

/-- **C13.** The observable contents after any history are those of a plain map on which the history's
inserts, deletes and updates are performed in order, starting from the empty map: slot order, compaction
and sorting are invisible. -/
theorem C13_refines_map (c : Cfg R) (ops : List (Op R)) (hv : ∀ op ∈ ops, op.Valid) (s : Store R)
    (h : run c (init c) ops = some s) (g : ℤ) (r : Rec R) :
    Holds s g r ↔ (trace c (init c) ops).foldl Ev.apply (fun _ => none) g = some r := by
  have hr : Represents (init c) (fun _ => none : Abs R) := by
    intro g r
    simp [Holds, init]
  exact ((rep_run (init_inv c) hv hr h) g r).symm

example : ∃ s, run demoCfg (init demoCfg) demoOps = some s ∧ Holds s 7 ⟨[7], 70, 0⟩ :=
  ⟨_, rfl, 3, by decide, by decide, rfl, rfl⟩

/-- **C64.** Local ids only change under a raised remake flag: if `doParticleRemoval` returns with
`needs_remake` false, then every surviving particle is in the slot it had before. -/
theorem C64_moves_raise_flag (c : Cfg R) (ops : List (Op R)) (hv : ∀ op ∈ ops, op.Valid) (s t : Store R)
    (h : run c (init c) ops = some s) (ht : removal s = some t) (hf : t.needsRemake = false) :
    ∀ i, 0 ≤ (s.mem i).type → i < s.size → i < t.size ∧ t.mem i = s.mem i := by
  have hI := run_inv (init_inv c) hv h
  obtain ⟨w, u, h1, h2, hm, hi, hc, hs, hn, hx, hd, hr, hlv, hfl, -⟩ := removal_spec hI (removal_isSome_ok hI ht)
  rw [h1] at ht; cases ht
  have := hfl hf
  subst this
  intro i hl hlt
  rw [hm, hs]
  exact ⟨(hlv i hlt).1 hl, rfl⟩

example : ∃ s t : Store ℕ, run demoCfg (init demoCfg) [.addBulk 3, .mark 2] = some s ∧
    removal s = some t ∧ t.needsRemake = false ∧ t.size = 2 := ⟨_, _, rfl, rfl, rfl, rfl⟩

/-- Sorting always raises the flag. -/
theorem C64_sort_raises_flag (c : Cfg R) (s t : Store R) (h : sortX c s = some t ∨ sortAll c s = some t) :
    t.needsRemake = true := by
  rcases h with h | h
  · unfold sortX at h
    obtain ⟨u, _, h2⟩ := Option.bind_eq_some_iff.1 h
    obtain ⟨v, _, h3⟩ := Option.map_eq_some_iff.1 h2
    rw [← h3]
  · unfold sortAll at h
    obtain ⟨u, _, h2⟩ := Option.bind_eq_some_iff.1 h
    obtain ⟨v, _, h3⟩ := Option.bind_eq_some_iff.1 h2
    obtain ⟨w, _, h4⟩ := Option.map_eq_some_iff.1 h3
    rw [← h4]

end Verif.SimData
