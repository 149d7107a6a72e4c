import Verif.Data.Clustering
import Verif.Data.Recording
import Mathlib.Data.Set.Card

/-!
# Percolation data and snapshots (C130)

Models `dataobjects/percolationdata.cpp` and `dataobjects/percolationsnapshot.cpp` on top of the search for clusters of `Verif.Clustering` and the cadence
of `Verif.Recording`. What the search reads at one step is a function of the skin and of the flag for clusters of one type, since these are set by the data
object.
-/

namespace Verif.Percolation

open Verif.Clustering Verif.Recording

variable {α : Type} [Field α] [LinearOrder α] [IsStrictOrderedRing α]

/-- What the clustering sees at one step, for a skin and a value of `same_type_clusters`. -/
abbrev Scene (α : Type) := α → Bool → G

/-- The members of `PercolationData`, `dataobjects/percolationdata.hpp:25-37`. -/
structure PD (α : Type) where
  cadence : DO α
  record : List (List ℕ)
  clustering : Clustering.St
  same : Bool
  skin : α

/-- The constructor with a skin, `dataobjects/percolationdata.cpp:8-9`: the argument is not used. The cadence is that of the base class. -/
def PD.new (c : DO α) (_x : α) : PD α := ⟨c, [], Clustering.fresh, true, 0⟩

/-- `PercolationData::post_step`, `dataobjects/percolationdata.cpp:11-21`, called by the data master, `base/datamaster.cpp:103-124`. -/
def PD.postStep (start : α) (sim : Bool) (p : PD α) (s : α × Scene α) : Option (PD α) :=
  let r := masterStep start sim p.cadence s.1
  if r.1 then
    (findClusters (s.2 p.skin p.same) p.clustering).map fun cl =>
      { p with cadence := r.2, clustering := cl, record := p.record ++ [cl.sizes] }
  else some { p with cadence := r.2 }

/-- A run: `pre_integrate` of the base class, `base/dataobject.cpp:13-15` (`PercolationData` does not override it), then the steps. -/
def PD.run (start : α) (sim : Bool) (p : PD α) (l : List (α × Scene α)) : Option (PD α) :=
  l.foldlM (PD.postStep start sim) { p with cadence := preIntegrate p.cadence }

/-- The loop of `PercolationSnapshot::post_integrate`, `dataobjects/percolationsnapshot.cpp:31-38`: `left` slots from slot `i` on; a cluster number outside
of the vector of constituents is an access out of bounds. -/
def gather (cl : ℕ → ℤ) (x : ℕ → List α) (sg : ℕ → α) (count : ℕ) : ℕ → ℕ → (ℕ → List α) → Option (ℕ → List α)
  | 0, _, con => some con
  | left + 1, i, con =>
    if 0 ≤ cl i ∧ cl i < count then
      gather cl x sg count left (i + 1) (Function.update con (cl i).toNat (con (cl i).toNat ++ x i ++ [sg i]))
    else none

/-- `PercolationSnapshot::post_integrate`, `dataobjects/percolationsnapshot.cpp:21-52`: the record of each cluster, and the number of elements. -/
def snapshot (d : ℕ) (g : G) (x : ℕ → List α) (sg : ℕ → α) (st : Clustering.St) : Option (List (List α × ℕ) × Clustering.St) :=
  (findClusters g st).bind fun st' =>
    (gather st'.cl x sg st'.count g.n 0 fun _ => []).map fun con =>
      ((List.range st'.count).map fun c => (con c, (con c).length / (d + 1)), st')

/-! ## Specification -/

/-- A list of cluster sizes is right: the particles can be numbered by clusters so that two have the same number exactly if they are connected, each number
below the length of the list is used, and the entry of the list is the number of particles of that cluster. -/
def Sizes (g : G) (l : List ℕ) : Prop :=
  ∃ cls : ℕ → ℕ, (∀ i, g.Live i → cls i < l.length) ∧ (∀ i j, g.Live i → g.Live j → (cls i = cls j ↔ g.Connected i j)) ∧
    ∀ c (h : c < l.length), 0 < l[c] ∧ l[c] = {i | g.Live i ∧ cls i = c}.ncard

/-! ## Lemmas -/

theorem sizes_ok (g : G) (hg : g.Good) (hn : 0 < g.n) (st st' : Clustering.St) (h : findClusters g st = some st') : Sizes g st'.sizes := by
  obtain ⟨st'', e, h1, h2, h3, h4, h5⟩ := C62_clusters_partial g hg hn st
  rw [h, Option.some.injEq] at e
  subst e
  refine ⟨fun i => (st'.cl i).toNat, ?_, ?_, ?_⟩
  · intro i hl
    obtain ⟨c, e, hc⟩ := h1 i hl
    simp only [e, h4]
    omega
  · intro i j hl hj
    rw [← h3 i j hl hj]
    obtain ⟨c, e, hc⟩ := h1 i hl
    obtain ⟨c', e', hc'⟩ := h1 j hj
    simp only [e, e']
    omega
  · intro c h
    refine ⟨(h5 c h).2, (h5 c h).1.trans ?_⟩
    rw [← Set.ncard_coe_finset]
    congr 1
    ext i
    simp only [Finset.coe_filter, Finset.mem_range, Set.mem_ofPred_eq]
    constructor
    · rintro ⟨hi, e⟩
      have hl : g.Live i := by
        by_contra hh
        have := h2 i hh
        omega
      exact ⟨hl, by simp [e]⟩
    · rintro ⟨hl, e⟩
      obtain ⟨c', e', hc'⟩ := h1 i hl
      refine ⟨hl.1, ?_⟩
      rw [e'] at e ⊢
      simp only [Int.toNat_natCast] at e
      rw [e]

theorem find_some (g : G) (hg : g.Good) (hn : 0 < g.n) (st : Clustering.St) : ∃ st', findClusters g st = some st' := by
  obtain ⟨st'', e, _⟩ := C62_clusters_partial g hg hn st
  exact ⟨st'', e⟩

/-- The scenes of the recorded steps. -/
def seen (start : α) (sim : Bool) (d : DO α) : List (α × Scene α) → List (Scene α)
  | [] => []
  | s :: l => if (masterStep start sim d s.1).1 then s.2 :: seen start sim (masterStep start sim d s.1).2 l
    else seen start sim (masterStep start sim d s.1).2 l

theorem run_go (start : α) (sim : Bool) (l : List (α × Scene α)) (p : PD α)
    (hg : ∀ s ∈ l, (s.2 p.skin p.same).Good ∧ 0 < (s.2 p.skin p.same).n) :
    ∃ (p' : PD α) (new : List (List ℕ)), l.foldlM (PD.postStep start sim) p = some p' ∧ p'.record = p.record ++ new ∧ p'.skin = p.skin ∧ p'.same = p.same ∧
      List.Forall₂ (fun (s : Scene α) sizes => Sizes (s p.skin p.same) sizes) (seen start sim p.cadence l) new := by
  induction l generalizing p with
  | nil => exact ⟨p, [], by simp, by simp, rfl, rfl, by simp [seen]⟩
  | cons s l ih =>
    rw [List.foldlM_cons]
    unfold PD.postStep seen
    obtain ⟨h1, h2⟩ := hg s (by simp)
    obtain ⟨st', e⟩ := find_some _ h1 h2 p.clustering
    by_cases hb : (masterStep start sim p.cadence s.1).1 = true
    · simp only [hb, if_true, e, Option.map_some]
      obtain ⟨p', new, e1, e2, e3, e4, e5⟩ := ih { p with cadence := (masterStep start sim p.cadence s.1).2, clustering := st', record := p.record ++ [st'.sizes] }
        fun t ht => hg t (by simp [ht])
      refine ⟨p', st'.sizes :: new, e1, ?_, e3, e4, ?_⟩
      · rw [e2]
        simp
      · exact List.Forall₂.cons (sizes_ok _ h1 h2 _ _ e) e5
    · simp only [hb, if_false, Bool.false_eq_true]
      obtain ⟨p', new, e1, e2, e3, e4, e5⟩ := ih { p with cadence := (masterStep start sim p.cadence s.1).2 } fun t ht => hg t (by simp [ht])
      exact ⟨p', new, e1, e2, e3, e4, e5⟩

theorem seen_times (start : α) (sim : Bool) (d : DO α) (l : List (α × Scene α)) :
    (seen start sim d l).length = (Recording.record start sim d (l.map Prod.fst)).1.length := by
  induction l generalizing d with
  | nil => simp [seen, Recording.record]
  | cons s l ih =>
    rw [List.map_cons, Recording.record_cons]
    unfold seen
    by_cases hb : (masterStep start sim d s.1).1 = true
    · simp [hb, ih]
    · simp [hb, ih]

theorem gather_go (cl : ℕ → ℤ) (x : ℕ → List α) (sg : ℕ → α) (count left i : ℕ) (con : ℕ → List α)
    (h : ∀ j, i ≤ j → j < i + left → 0 ≤ cl j ∧ cl j < count) :
    gather cl x sg count left i con =
      some fun c => con c ++ ((List.range' i left).filter fun j => cl j == (c : ℤ)).flatMap fun j => x j ++ [sg j] := by
  induction left generalizing i con with
  | zero => simp [gather]
  | succ left ih =>
    obtain ⟨h1, h2⟩ := h i (le_refl _) (by omega)
    unfold gather
    rw [if_pos ⟨h1, h2⟩, ih (i + 1) _ fun j h3 h4 => h j (by omega) (by omega)]
    congr 1
    funext c
    rw [List.range'_succ]
    by_cases e : cl i = (c : ℤ)
    · have e' : (cl i).toNat = c := by omega
      subst e'
      rw [Function.update_self, List.filter_cons_of_pos (by simpa using e)]
      simp [List.append_assoc]
    · have e' : c ≠ (cl i).toNat := by omega
      rw [Function.update_of_ne e', List.filter_cons_of_neg (by simpa using e)]

theorem gather_none (cl : ℕ → ℤ) (x : ℕ → List α) (sg : ℕ → α) (count left i : ℕ) (con : ℕ → List α) (j : ℕ) (h1 : i ≤ j) (h2 : j < i + left)
    (h : cl j = -1) : gather cl x sg count left i con = none := by
  induction left generalizing i con with
  | zero => omega
  | succ left ih =>
    unfold gather
    by_cases e : i = j
    · subst e
      rw [if_neg (by omega)]
    · split
      · exact ih (i + 1) _ (by omega) (by omega)
      · rfl

/-! ## C130 -/

/-- C130 (partial): after a run the record has grown by one entry for each step at which data is recorded (at the cadence of C56), and each new entry holds the sizes
of the clusters at that step. Missing: the skin given to the constructor, see `C130_negation_skin`; steps without particles, see
`C130_negation_no_particles`; particles of different radius and empty slots, which are not `Good`, see C62. -/
theorem C130_sizes_partial (start : α) (sim : Bool) (p : PD α) (l : List (α × Scene α))
    (hg : ∀ s ∈ l, (s.2 p.skin p.same).Good ∧ 0 < (s.2 p.skin p.same).n) :
    ∃ (p' : PD α) (new : List (List ℕ)), p.run start sim l = some p' ∧ p'.record = p.record ++ new ∧
      List.Forall₂ (fun (s : Scene α) sizes => Sizes (s p.skin p.same) sizes) (seen start sim (preIntegrate p.cadence) l) new ∧
      new.length = (recorded start sim p.cadence (l.map Prod.fst)).length := by
  obtain ⟨p', new, e1, e2, _, _, e5⟩ := run_go start sim l { p with cadence := preIntegrate p.cadence } hg
  refine ⟨p', new, e1, e2, e5, ?_⟩
  rw [← e5.length_eq, seen_times]
  rfl

/-- C130: the sizes of one entry add up to the number of particles. -/
theorem C130_total (g : G) (l : List ℕ) (h : Sizes g l) : l.sum = {i | g.Live i}.ncard := by
  obtain ⟨cls, h1, h2, h3⟩ := h
  have fin : {i | g.Live i}.Finite := (Set.finite_lt_nat g.n).subset fun i hl => hl.1
  have e1 : l = List.ofFn fun c : Fin l.length => {i | g.Live i ∧ cls i = c}.ncard := by
    apply List.ext_getElem
    · simp
    · intro c a b
      rw [List.getElem_ofFn]
      exact (h3 c a).2
  have e2 : l.sum = ∑ c ∈ Finset.range l.length, {i | g.Live i ∧ cls i = c}.ncard := by
    conv_lhs => rw [e1]
    rw [List.sum_ofFn, Fin.sum_univ_eq_sum_range fun c => {i | g.Live i ∧ cls i = c}.ncard]
  classical
  rw [e2, Set.ncard_eq_toFinset_card _ fin, Finset.card_eq_sum_card_fiberwise (f := cls) (t := Finset.range l.length)
    fun i hl => by simpa using h1 i (by simpa using hl)]
  apply Finset.sum_congr rfl
  intro c _
  rw [← Set.ncard_coe_finset]
  congr 1
  ext i
  simp

/-- C130: the list of sizes is determined by the particles up to the order of its entries. -/
theorem C130_unique (g : G) (l l' : List ℕ) (h : Sizes g l) (h' : Sizes g l') : l.Perm l' := by
  obtain ⟨cls, h1, h2, h3⟩ := h
  obtain ⟨cls', h1', h2', h3'⟩ := h'
  -- one particle of each cluster
  have rep : ∀ c : Fin l.length, ∃ i, g.Live i ∧ cls i = c := by
    intro c
    have := h3 c c.2
    obtain ⟨i, hi⟩ := Set.nonempty_of_ncard_ne_zero (s := {i | g.Live i ∧ cls i = c}) (by omega)
    exact ⟨i, hi⟩
  have rep' : ∀ c : Fin l'.length, ∃ i, g.Live i ∧ cls' i = c := by
    intro c
    have := h3' c c.2
    obtain ⟨i, hi⟩ := Set.nonempty_of_ncard_ne_zero (s := {i | g.Live i ∧ cls' i = c}) (by omega)
    exact ⟨i, hi⟩
  choose r hr er using rep
  choose r' hr' er' using rep'
  let f : Fin l.length ≃ Fin l'.length :=
    { toFun := fun c => ⟨cls' (r c), h1' _ (hr c)⟩
      invFun := fun c => ⟨cls (r' c), h1 _ (hr' c)⟩
      left_inv := by
        intro c
        apply Fin.ext
        simp only
        rw [← er c, h2 _ _ (hr' _) (hr c), ← h2' _ _ (hr' _) (hr c), er']
      right_inv := by
        intro c
        apply Fin.ext
        simp only
        rw [← er' c, h2' _ _ (hr _) (hr' c), ← h2 _ _ (hr _) (hr' c), er] }
  have same : ∀ c : Fin l.length, l[c] = l'[f c] := by
    intro c
    have a1 := (h3 c c.2).2
    have a2 := (h3' (f c) (f c).2).2
    simp only [Fin.getElem_fin]
    rw [a1, a2]
    congr 1
    ext i
    simp only [Set.mem_ofPred_eq, and_congr_right_iff]
    intro hl
    rw [← er c, h2 _ _ hl (hr c), ← h2' _ _ hl (hr c)]
    rfl
  have e1 : l = List.ofFn fun c : Fin l.length => l[c] := by
    apply List.ext_getElem <;> simp
  have e2 : l' = List.ofFn fun c : Fin l'.length => l'[c] := by
    apply List.ext_getElem <;> simp
  rw [e1, e2, ← Multiset.coe_eq_coe]
  simp only [List.ofFn_eq_map, ← Multiset.map_coe]
  have u1 : ((List.finRange l.length : List _) : Multiset (Fin l.length)) = (Finset.univ : Finset (Fin l.length)).val := by
    simp [Finset.univ, Fintype.elems]
  have u2 : ((List.finRange l'.length : List _) : Multiset (Fin l'.length)) = (Finset.univ : Finset (Fin l'.length)).val := by
    simp [Finset.univ, Fintype.elems]
  rw [u1, u2, ← Finset.map_univ_equiv f, Finset.map_val, Multiset.map_map]
  apply Multiset.map_congr rfl
  intro c _
  exact same c

/-- C130 (partial): if no slot is empty, the snapshot has one record for each cluster: positions and radii of its particles in the order of the slots, each particle
once, and the number of particles. Missing: empty slots, see `C130_negation_snapshot_hole`. -/
theorem C130_snapshot_partial (d : ℕ) (g : G) (hg : g.Good) (hn : 0 < g.n) (hl : ∀ i < g.n, g.typ i ≠ -1) (x : ℕ → List α) (hx : ∀ i, (x i).length = d)
    (sg : ℕ → α) (st : Clustering.St) :
    ∃ (r : List (List α × ℕ)) (st' : Clustering.St) (cls : ℕ → ℕ), snapshot d g x sg st = some (r, st') ∧
      (∀ i < g.n, cls i < r.length) ∧ (∀ i j, i < g.n → j < g.n → (cls i = cls j ↔ g.Connected i j)) ∧
      r = (List.range r.length).map fun c => (((List.range g.n).filter fun i => cls i == c).flatMap fun i => x i ++ [sg i],
        ((List.range g.n).filter fun i => cls i == c).length) := by
  obtain ⟨st', e, h1, h2, h3, h4, h5⟩ := C62_clusters_partial g hg hn st
  have live : ∀ i < g.n, g.Live i := fun i h => ⟨h, hl i h⟩
  have gg := gather_go st'.cl x sg st'.count g.n 0 (fun _ => []) fun j _ hj => by
    obtain ⟨c, e, hc⟩ := h1 j (live j (by omega))
    omega
  refine ⟨_, st', fun i => (st'.cl i).toNat, by unfold snapshot; rw [e, Option.bind_some, gg, Option.map_some], ?_, ?_, ?_⟩
  · intro i h
    obtain ⟨c, e, hc⟩ := h1 i (live i h)
    simp only [List.length_map, List.length_range, e]
    omega
  · intro i j hi' hj
    rw [← h3 i j (live i hi') (live j hj)]
    obtain ⟨c, e, hc⟩ := h1 i (live i hi')
    obtain ⟨c', e', hc'⟩ := h1 j (live j hj)
    simp only [e, e']
    omega
  · rw [List.length_map, List.length_range]
    apply List.map_congr_left
    intro c _
    have eq : ((List.range' 0 g.n).filter fun j => st'.cl j == (c : ℤ)) = (List.range g.n).filter fun i => (st'.cl i).toNat == c := by
      rw [← List.range_eq_range']
      apply List.filter_congr
      intro i hi'
      obtain ⟨c', e', hc'⟩ := h1 i (live i (List.mem_range.mp hi'))
      rw [e', Bool.eq_iff_iff]
      simp
    simp only [List.nil_append, eq]
    refine Prod.ext rfl ?_
    simp only
    have len : (((List.range g.n).filter fun i => (st'.cl i).toNat == c).flatMap fun i => x i ++ [sg i]).length =
        ((List.range g.n).filter fun i => (st'.cl i).toNat == c).length * (d + 1) := by
      rw [List.length_flatMap]
      have : ∀ i, (x i ++ [sg i]).length = d + 1 := fun i => by simp [hx]
      simp [this]
    rw [len]
    exact Nat.mul_div_cancel _ (Nat.succ_pos d)

/-- C130 is false of the skin: it is ignored, so that the data of an object made with any skin are those of skin 0. -/
theorem C130_negation_skin (c : DO α) (x : α) : PD.new c x = PD.new c 0 ∧ (PD.new c x).skin = 0 := ⟨rfl, rfl⟩

/-- C130 is false of a skin: two particles at distance 3 with radius 1 and skin 2 are one cluster, but the object made with skin 2 records two. -/
theorem C130_negation_skin_sizes :
    let scene : Scene ℚ := fun skin same => ⟨2, fun _ => 0, fun i => if (3 : ℚ) < 2 * 1 + skin then [1 - i] else [], same⟩
    Sizes (scene 2 true) [2] ∧ ((PD.new ⟨1, 0, false⟩ 2).run 0 true [(0, scene)]).map (·.record) = some [[1, 1]] := by
  intro scene
  have hg : (scene 2 true).Good := by
    refine ⟨?_, ?_, fun _ => by simp [scene]⟩
    · intro i _ j hj
      simp only [scene] at hj ⊢
      norm_num at hj
      omega
    · intro i j hi' hj' hj
      simp only [scene] at hj hi' hj' ⊢
      norm_num at hj ⊢
      omega
  refine ⟨?_, by decide +kernel⟩
  have : (findClusters (scene 2 true) Clustering.fresh).map (fun s => s.sizes) = some [2] := by decide +kernel
  obtain ⟨st, e⟩ := find_some _ hg (by simp [scene]) Clustering.fresh
  have hs := sizes_ok _ hg (by simp [scene]) _ _ e
  rw [e] at this
  simp only [Option.map_some, Option.some.injEq] at this
  rwa [this] at hs

/-- C130 is false at a step without particles: the sizes of the previous recording are repeated. -/
theorem C130_negation_no_particles :
    ((PD.new (⟨1, 0, false⟩ : DO ℚ) 0).run 0 true
      [(0, fun _ s => ⟨2, fun _ => 0, fun i => [1 - i], s⟩), (1, fun _ s => ⟨0, fun _ => 0, fun _ => [], s⟩)]).map (·.record) = some [[2], [2]] := by
  decide +kernel

/-- C130 is false of the snapshot if a slot is empty (a particle was removed and the arrays are not yet compacted): the vector of constituents is accessed at
index -1. -/
theorem C130_negation_snapshot_hole (d : ℕ) (g : G) (hg : g.Good) (i : ℕ) (h : i < g.n) (ht : g.typ i = -1) (x : ℕ → List α) (sg : ℕ → α)
    (st : Clustering.St) : snapshot d g x sg st = none := by
  obtain ⟨st', e, h1, h2, _⟩ := C62_clusters_partial g hg (by omega) st
  unfold snapshot
  rw [e, Option.bind_some, gather_none _ _ _ _ _ _ _ i (by omega) (by omega) (h2 i fun hl => hl.2 ht)]
  rfl

/-! ## Examples -/

/-- Three particles on a line, two of them touching. -/
def three : Scene ℚ := fun skin same => ⟨3, fun _ => 0, fun i => (List.range 3).filter fun j =>
  j != i && decide (|(if i = 2 then (10 : ℚ) else (i : ℚ)) - (if j = 2 then (10 : ℚ) else (j : ℚ))| < 2 * 1 + skin), same⟩

theorem three_good (skin : ℚ) (same : Bool) : (three skin same).Good := by
  refine ⟨?_, ?_, fun _ => by simp [three]⟩
  · intro i _ j hj
    have := (List.mem_filter.mp hj).1
    simpa [three] using this
  · intro i j hi' hj' hj
    have hj := (List.mem_filter.mp hj).2
    refine List.mem_filter.mpr ⟨by simpa [three] using hi', ?_⟩
    simp only [Bool.and_eq_true, bne_iff_ne, ne_eq, decide_eq_true_eq] at hj ⊢
    refine ⟨fun e => hj.1 e.symm, ?_⟩
    rw [abs_sub_comm]
    exact hj.2

/-- Hypotheses of `C130_sizes_partial`, and the record. -/
example : (∀ s ∈ [((0 : ℚ), three), (1/2, three), (1, three)], (s.2 0 true).Good ∧ 0 < (s.2 0 true).n) ∧
    ((PD.new (⟨1, 0, false⟩ : DO ℚ) 0).run 0 true [(0, three), (1/2, three), (1, three)]).map (·.record) = some [[2, 1], [2, 1]] := by
  constructor
  · intro s hs
    have : s.2 = three := by
      simp only [List.mem_cons, List.not_mem_nil, or_false] at hs
      rcases hs with rfl | rfl | rfl <;> rfl
    rw [this]
    exact ⟨three_good 0 true, by simp [three]⟩
  · decide +kernel

/-- Hypotheses of `C130_snapshot_partial`, and the records of the two clusters. -/
example : (three 0 true).Good ∧ (∀ i < (three 0 true).n, (three 0 true).typ i ≠ -1) ∧
    (snapshot 1 (three 0 true) (fun i => [if i = 2 then 10 else (i : ℚ)]) (fun _ => 1) Clustering.fresh).map Prod.fst =
      some [([0, 1, 1, 1], 2), ([10, 1], 1)] := by
  refine ⟨three_good 0 true, fun i _ => by simp [three], by decide +kernel⟩

/-- Hypotheses of `C130_negation_snapshot_hole`: the second of three slots is empty. -/
example : (⟨3, fun i => if i = 1 then -1 else 0, fun _ => [], true⟩ : G).Good := ⟨by simp, by simp, by simp⟩

end Verif.Percolation
