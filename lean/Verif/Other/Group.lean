import Verif.Forces.PairForces

/-!
# Groups of particles (C44, C45, C46, C70)

Models `other/group.cpp`. Exact real arithmetic. A local id outside of the arrays, an access outside of a vector or a
division by zero is undefined (`none`).
-/

set_option linter.unusedSectionVars false

namespace Verif.Groups
open Verif.PairForces

variable {d : ℕ}

/-- The members of `Group`, `other/group.hpp`. -/
structure Group where
  gids : List ℕ
  lids : List ℕ
deriving DecidableEq, Repr

/-- What a group reads: `getLocalID` (`none` is -1) and the particle arrays; box minimum, width and wrapping. -/
structure World (d : ℕ) where
  lid : ℕ → Option ℕ
  x : ℕ → Fin d → ℝ
  v : ℕ → Fin d → ℝ
  f : ℕ → Fin d → ℝ
  im : ℕ → ℝ
  lo : Fin d → ℝ
  hi : Fin d → ℝ
  wrap : Fin d → Bool

/-- An empty group. -/
def Group.new : Group := ⟨[], []⟩

/-- `Group::add`, `other/group.cpp:158-161`: the id is stored in both lists. -/
def Group.add (G : Group) (id : ℕ) : Group := ⟨G.gids ++ [id], G.lids ++ [id]⟩

/-- `Group::size`, `other/group.cpp:29-31`. -/
def Group.size (G : Group) : ℕ := G.gids.length

/-- `Group::contains`, `other/group.cpp:137-139`. -/
def Group.contains (G : Group) (id : ℕ) : Bool := G.lids.any (· == id)

/-- `Group::getIndex`, `other/group.cpp:130-135`. -/
def Group.getIndex (G : Group) (id : ℕ) : ℤ := match G.lids.findIdx? (· == id) with | none => -1 | some n => n

/-- `Group::at`, `other/group.cpp:37-39`; `none` is the exception of `vector::at`. -/
def Group.at (G : Group) (i : ℤ) : Option ℕ := if i < 0 then none else G.lids[i.toNat]?

/-- `Group::g_at`, `other/group.cpp:41-43`. -/
def Group.gAt (G : Group) (i : ℤ) : Option ℕ := if i < 0 then none else G.gids[i.toNat]?

/-- Body of the loop of `update_local_ids`, `other/group.cpp:224-233`; the state is the group and `_count`. -/
def updStep (lid : ℕ → Option ℕ) (s : Group × ℕ) (i : ℕ) : Option (Group × ℕ) :=
  match s.1.gids[i]? with
  | none => none
  | some gid =>
    match lid gid with
    | none => some s
    | some l =>
      if s.2 < s.1.lids.length then some (⟨s.1.gids.set s.2 gid, s.1.lids.set s.2 l⟩, s.2 + 1) else none

/-- `Group::update_local_ids`, `other/group.cpp:220-236`. -/
def Group.update (lid : ℕ → Option ℕ) (G : Group) : Option Group :=
  ((List.range G.size).foldlM (updStep lid) (G, 0)).map fun s => ⟨s.1.gids.take s.2, s.1.lids.take s.2⟩

/-- `Group::shift_global_ids`, `other/group.cpp:238-240` for a shift upwards. -/
def Group.shift (G : Group) (n : ℕ) : Group := ⟨G.gids.map (· + n), G.lids⟩

/-! ## C44 -/

/-- Calls on a group. -/
inductive Op where
  | add (id : ℕ)
  | update (lid : ℕ → Option ℕ)
  | shift (n : ℕ)

/-- The group after a history, newest first. -/
def run : List Op → Option Group
  | [] => some Group.new
  | .add id :: h => (run h).map fun G => G.add id
  | .update lid :: h => (run h).bind fun G => G.update lid
  | .shift n :: h => (run h).map fun G => G.shift n

/-- Spec: the global ids after a history: those added, in order, shifted, without those not found by an update. -/
def members : List Op → List ℕ
  | [] => []
  | .add id :: h => members h ++ [id]
  | .update lid :: h => (members h).filter fun g => (lid g).isSome
  | .shift n :: h => (members h).map (· + n)

/-- State of the loop after `i` rounds. -/
theorem upd_inv (lid : ℕ → Option ℕ) (G : Group) (hlen : G.lids.length = G.gids.length) (i : ℕ) (hi : i ≤ G.gids.length) :
    ∃ s, (List.range i).foldlM (updStep lid) (G, 0) = some s ∧
      s.2 = ((G.gids.take i).filter fun g => (lid g).isSome).length ∧ s.2 ≤ i ∧
      s.1.gids.length = G.gids.length ∧ s.1.lids.length = G.gids.length ∧
      s.1.gids.take s.2 = (G.gids.take i).filter (fun g => (lid g).isSome) ∧
      s.1.lids.take s.2 = (G.gids.take i).filterMap lid ∧ s.1.gids.drop i = G.gids.drop i := by
  induction i with
  | zero => exact ⟨(G, 0), rfl, by simp, le_rfl, rfl, hlen, by simp, by simp, rfl⟩
  | succ i ih =>
    obtain ⟨s, e, h1, h2, h3, h4, h5, h6, h7⟩ := ih (by omega)
    have hi' : i < G.gids.length := hi
    have hget : s.1.gids[i]? = some G.gids[i] := by
      have := congrArg (·[0]?) h7
      simpa [List.getElem?_drop, List.getElem?_eq_getElem hi'] using this
    have htake : G.gids.take (i+1) = G.gids.take i ++ [G.gids[i]] := by
      rw [List.take_add_one, List.getElem?_eq_getElem hi']; rfl
    have hdrop : ∀ (l : List ℕ), l.drop i = G.gids.drop i → l.drop (i+1) = G.gids.drop (i+1) := by
      intro l hl
      rw [← List.drop_drop, ← List.drop_drop, hl]
    rw [List.range_succ, List.foldlM_append, e]
    cases hl : lid G.gids[i] with
    | none =>
      refine ⟨s, ?_, ?_, by omega, h3, h4, ?_, ?_, hdrop _ h7⟩
      · simp [updStep, hget, hl]
      · rw [htake, List.filter_append, h1]; simp [hl]
      · rw [htake, List.filter_append, h5]; simp [hl]
      · rw [htake, List.filterMap_append, h6]; simp [hl]
    | some l =>
      have hlt : s.2 < s.1.lids.length := by omega
      refine ⟨(⟨s.1.gids.set s.2 G.gids[i], s.1.lids.set s.2 l⟩, s.2 + 1), ?_, ?_, by simp only; omega, by simpa using h3,
        by simpa using h4, ?_, ?_, ?_⟩
      · simp [updStep, hget, hl, hlt]
      · simp only; rw [htake, List.filter_append, List.length_append, ← h1]; simp [hl]
      · simp only
        rw [htake, List.filter_append, ← h5, List.take_add_one, List.take_set_of_le le_rfl, List.getElem?_set_self (by omega)]
        simp [hl]
      · simp only
        rw [htake, List.filterMap_append, ← h6, List.take_add_one, List.take_set_of_le le_rfl, List.getElem?_set_self (by omega)]
        simp [hl]
      · simp only
        rw [List.drop_set_of_lt (by omega)]
        exact hdrop _ h7

theorem update_eq (lid : ℕ → Option ℕ) (G : Group) (hlen : G.lids.length = G.gids.length) :
    G.update lid = some ⟨G.gids.filter fun g => (lid g).isSome, G.gids.filterMap lid⟩ := by
  obtain ⟨s, e, _, _, _, _, h5, h6, _⟩ := upd_inv lid G hlen G.gids.length le_rfl
  unfold Group.update Group.size
  rw [e]
  simp only [Option.map_some, h5, h6, List.take_length]

theorem run_spec (h : List Op) : ∃ G, run h = some G ∧ G.gids = members h ∧ G.lids.length = G.gids.length := by
  induction h with
  | nil => exact ⟨_, rfl, rfl, rfl⟩
  | cons o h ih =>
    obtain ⟨G, e, h1, h2⟩ := ih
    cases o with
    | add id => exact ⟨G.add id, by simp [run, e], by simp [Group.add, h1, members], by simp [Group.add, h2]⟩
    | update lid =>
      refine ⟨_, by simp only [run, e, Option.bind_some]; exact update_eq lid G h2, by simp [h1, members], ?_⟩
      simp only
      induction G.gids with
      | nil => rfl
      | cons g l ih => cases hg : lid g <;> simp [hg, ih]
    | shift n => exact ⟨G.shift n, by simp [run, e], by simp [Group.shift, h1, members], by simp [Group.shift, h2]⟩

/-- **C44.** After every history of `add`, `update_local_ids` and `shift_global_ids`, the group is in a defined state and one
more `update_local_ids` with the id map `lid` leaves exactly those members that the map knows, in their order, each with
its current local id; `size` is their number; `contains(id)` holds precisely for their local ids; `getIndex(id)` is the
first position of `id`, and -1 if it is not there. -/
theorem C44_update (h : List Op) (lid : ℕ → Option ℕ) :
    ∃ G, run (.update lid :: h) = some G ∧
      G.gids = (members h).filter (fun g => (lid g).isSome) ∧
      G.gids.map lid = G.lids.map some ∧ G.size = G.lids.length ∧
      (∀ id, G.contains id = true ↔ ∃ g ∈ members h, lid g = some id) ∧
      (∀ id, (G.getIndex id = -1 ↔ G.contains id = false) ∧
        ∀ n : ℕ, G.getIndex id = n → G.lids[n]? = some id ∧ ∀ m < n, G.lids[m]? ≠ some id) := by
  obtain ⟨G0, e, h1, h2⟩ := run_spec h
  have hG := update_eq lid G0 h2
  refine ⟨_, by simp only [run, e, Option.bind_some]; exact hG, by rw [h1], ?_, ?_, ?_, ?_⟩
  · simp only
    induction G0.gids with
    | nil => rfl
    | cons g l ih => cases hg : lid g <;> simp [hg, ih]
  · simp only [Group.size]
    induction G0.gids with
    | nil => rfl
    | cons g l ih => cases hg : lid g <;> simp [hg, ih]
  · intro id
    simp only [Group.contains, List.any_eq_true, beq_iff_eq, h1, List.mem_filterMap]
    constructor
    · rintro ⟨x, ⟨g, hg, hx⟩, rfl⟩; exact ⟨g, hg, hx⟩
    · rintro ⟨g, hg, hx⟩; exact ⟨id, ⟨g, hg, hx⟩, rfl⟩
  · intro id
    set L := List.filterMap lid G0.gids
    simp only [Group.getIndex, Group.contains]
    cases hf : L.findIdx? (· == id) with
    | none =>
      rw [List.findIdx?_eq_none_iff] at hf
      refine ⟨⟨fun _ => ?_, fun _ => rfl⟩, ?_⟩
      · rw [List.any_eq_false]; intro x hx; simp [hf x hx]
      · intro n hn; simp only at hn; omega
    | some k =>
      obtain ⟨hk, hk1, hk2⟩ := List.findIdx?_eq_some_iff_getElem.mp hf
      refine ⟨⟨fun h => by simp only at h; omega, fun h => ?_⟩, ?_⟩
      · rw [List.any_eq_false] at h
        exact absurd hk1 (by simpa using h _ (List.getElem_mem hk))
      · intro n hn
        have : n = k := by simp only at hn; omega
        subst this
        refine ⟨by rw [List.getElem?_eq_getElem hk]; simpa using hk1, ?_⟩
        intro m hm hc
        obtain ⟨hm', hc'⟩ := List.getElem?_eq_some_iff.mp hc
        have := hk2 m hm
        simp [hc'] at this

/-- A run of the model: three particles added, the second one is gone at the update. -/
example : run [.update fun g => if g = 4 then none else some (g + 10), .add 9, .add 4, .add 7] =
    some ⟨[7, 9], [17, 19]⟩ := by decide

/-- Before the first update `add` has stored the global id as local id: here global id 3 has local id 0, and `contains(0)` is
false while `contains(3)` is true. -/
theorem C44_add_needs_update : ∃ G, run [.add 3] = some G ∧ G.contains 3 = true ∧ G.contains 0 = false := ⟨_, rfl, rfl, rfl⟩

/-- `at` and `g_at` throw exactly outside of `0..size-1`. -/
theorem C44_access (h : List Op) : ∃ G, run h = some G ∧ ∀ i : ℤ,
    ((G.at i).isSome ↔ 0 ≤ i ∧ i < G.size) ∧ ((G.gAt i).isSome ↔ 0 ≤ i ∧ i < G.size) := by
  obtain ⟨G, e, _, h2⟩ := run_spec h
  refine ⟨G, e, fun i => ?_⟩
  unfold Group.at Group.gAt Group.size
  by_cases hi : i < 0
  · rw [if_pos hi, if_pos hi]; constructor <;> (simp; omega)
  · rw [if_neg hi, if_neg hi]
    have key : ∀ l : List ℕ, (l[i.toNat]?).isSome ↔ i.toNat < l.length := by
      intro l
      rw [Option.isSome_iff_exists]
      constructor
      · rintro ⟨a, ha⟩; exact (List.getElem?_eq_some_iff.mp ha).1
      · intro h; exact ⟨_, List.getElem?_eq_getElem h⟩
    rw [key, key]
    omega

/-! ## C45 -/

/-- Body of the loop of `findTotalMass`, `other/group.cpp:192-196`: `return 0` for an infinite mass. -/
noncomputable def massLoop (im : ℕ → ℝ) : List ℕ → ℝ → ℝ
  | [], m => m
  | i :: l, m => open Classical in if im i = 0 then 0 else massLoop im l (m + 1 / im i)

/-- `Group::findTotalMass`, `other/group.cpp:188-199`. -/
noncomputable def Group.totalMass (W : World d) (G : Group) : ℝ := if G.size = 0 then 0 else massLoop W.im G.lids 0

/-- `Group::findNetForce`, `other/group.cpp:176-186`. -/
noncomputable def Group.netForce (W : World d) (G : Group) : Fin d → ℝ :=
  if G.size = 0 then fun _ => 0 else G.lids.foldl (fun a i k => a k + W.f i k) (fun _ => 0)

open Classical in
/-- `Group::findCOMVelocity`, `other/group.cpp:89-104`; an infinite mass is undefined. -/
noncomputable def Group.comVelocity (W : World d) (G : Group) : Option (Fin d → ℝ) :=
  if G.size = 0 then some fun _ => 0
  else
    (G.lids.foldlM (fun (s : (Fin d → ℝ) × ℝ) i =>
      if W.im i = 0 then none else some (fun k => s.1 k + 1 / W.im i * W.v i k, s.2 + 1 / W.im i)) (fun _ => 0, 0)).bind
    fun s => if s.2 = 0 then none else some fun k => 1 / s.2 * s.1 k

/-- `Group::addVelocity`, `other/group.cpp:106-113`. -/
noncomputable def Group.addVelocity (W : World d) (G : Group) (V : Fin d → ℝ) : ℕ → Fin d → ℝ :=
  if G.size = 0 then W.v else G.lids.foldl (fun v i => addAt v i 1 V) W.v

open Classical in
/-- `Group::addAcceleration`, `other/group.cpp:115-128`. -/
noncomputable def Group.addAcceleration (W : World d) (G : Group) (A : Fin d → ℝ) : ℕ → Fin d → ℝ :=
  if G.size = 0 then W.f else G.lids.foldl (fun f i => if 0 < W.im i then addAt f i (1 / W.im i) A else f) W.f

/-- `getDisplacement`, `gflow.cpp:418-426`. -/
noncomputable def disp (W : World d) (x y : Fin d → ℝ) : Fin d → ℝ :=
  correct (fun k => if W.wrap k then some (W.hi k - W.lo k) else none) (x - y)

open Classical in
/-- `Group::findCenterOfMass`, `other/group.cpp:45-87`. -/
noncomputable def Group.centerOfMass (W : World d) (G : Group) : Option (Fin d → ℝ) :=
  if G.size = 0 then some fun _ => 0
  else
    (G.lids[G.lids.length / 2]?).bind fun mid =>
    (G.lids.foldlM (fun (s : (Fin d → ℝ) × ℝ) i =>
      if W.im i = 0 then none
      else some (fun k => s.1 k + 1 / W.im i * disp W (W.x i) (W.x mid) k, s.2 + 1 / W.im i)) (fun _ => 0, 0)).bind
    fun s => if s.2 = 0 then none else some fun k =>
      let c := 1 / s.2 * s.1 k + W.x mid k
      if c < W.lo k then c + (W.hi k - W.lo k) else if W.hi k < c then c - (W.hi k - W.lo k) else c

/-- Spec: sum over the members. -/
noncomputable def total (l : List ℕ) (q : ℕ → ℝ) : ℝ := (l.map q).sum

theorem massLoop_eq (im : ℕ → ℝ) (l : List ℕ) (m : ℝ) (h : ∀ i ∈ l, im i ≠ 0) :
    massLoop im l m = m + total l fun i => 1 / im i := by
  induction l generalizing m with
  | nil => simp [massLoop, total]
  | cons i l ih =>
    simp only [massLoop]
    rw [if_neg (h i (by simp)), ih _ (fun j hj => h j (List.mem_cons_of_mem _ hj))]
    simp [total]; ring

theorem massLoop_zero (im : ℕ → ℝ) (l : List ℕ) (m : ℝ) (h : ∃ i ∈ l, im i = 0) : massLoop im l m = 0 := by
  induction l generalizing m with
  | nil => simp at h
  | cons i l ih =>
    simp only [massLoop]
    by_cases hi : im i = 0
    · rw [if_pos hi]
    · rw [if_neg hi]
      apply ih
      obtain ⟨j, hj, h0⟩ := h
      rcases List.mem_cons.mp hj with rfl | hj
      · exact absurd h0 hi
      · exact ⟨j, hj, h0⟩

theorem foldl_sum (l : List ℕ) (q : ℕ → Fin d → ℝ) (a : Fin d → ℝ) :
    l.foldl (fun a i k => a k + q i k) a = fun k => a k + total l fun i => q i k := by
  induction l generalizing a with
  | nil => simp [total]
  | cons i l ih => rw [List.foldl_cons, ih]; funext k; simp [total]; ring

open Classical in
theorem foldlM_weighted (im : ℕ → ℝ) (q : ℕ → Fin d → ℝ) (l : List ℕ) (s : (Fin d → ℝ) × ℝ) (h : ∀ i ∈ l, im i ≠ 0) :
    l.foldlM (fun (s : (Fin d → ℝ) × ℝ) i =>
      if im i = 0 then none else some (fun k => s.1 k + 1 / im i * q i k, s.2 + 1 / im i)) s =
    some (fun k => s.1 k + total l fun i => 1 / im i * q i k, s.2 + total l fun i => 1 / im i) := by
  induction l generalizing s with
  | nil => simp [total]
  | cons i l ih =>
    rw [List.foldlM_cons, if_neg (h i (by simp))]
    simp only [Option.bind_eq_bind, Option.bind_some]
    rw [ih _ (fun j hj => h j (List.mem_cons_of_mem _ hj))]
    simp only [total, List.map_cons, List.sum_cons, Option.some.injEq, Prod.mk.injEq]
    exact ⟨by funext k; ring, by ring⟩

/-- Spec: a group as `run` produces it. -/
def OK (G : Group) : Prop := G.lids.length = G.gids.length

theorem total_pos (im : ℕ → ℝ) (l : List ℕ) (hne : l ≠ []) (h : ∀ i ∈ l, 0 < im i) : 0 < total l fun i => 1 / im i := by
  induction l with
  | nil => exact absurd rfl hne
  | cons i l ih =>
    have hi := h i (by simp)
    by_cases hl : l = []
    · subst hl; simpa [total] using hi
    · have := ih hl (fun j hj => h j (List.mem_cons_of_mem _ hj))
      simp only [total, List.map_cons, List.sum_cons] at this ⊢
      have : 0 < 1 / im i := by positivity
      linarith

/-- **C45, mass.** The total mass is the sum of the masses of the members, zero for an empty group, and zero when some member
has infinite mass (inverse mass zero). -/
theorem C45_total_mass (W : World d) (G : Group) (hG : OK G) :
    ((∀ i ∈ G.lids, W.im i ≠ 0) → G.totalMass W = total G.lids fun i => 1 / W.im i) ∧
    ((∃ i ∈ G.lids, W.im i = 0) → G.totalMass W = 0) ∧ (G.size = 0 → G.totalMass W = 0) := by
  have empty : G.size = 0 → G.lids = [] := by
    intro h; unfold Group.size at h; exact List.length_eq_zero_iff.mp (by rw [hG, h])
  unfold Group.totalMass
  refine ⟨fun h => ?_, fun h => ?_, fun h => if_pos h⟩
  · by_cases h0 : G.size = 0
    · rw [if_pos h0, empty h0]; simp [total]
    · rw [if_neg h0, massLoop_eq _ _ _ h, zero_add]
  · by_cases h0 : G.size = 0
    · exact if_pos h0
    · rw [if_neg h0, massLoop_zero _ _ _ h]

/-- **C45, net force.** It is the sum of the forces on the members. -/
theorem C45_net_force (W : World d) (G : Group) (hG : OK G) (k : Fin d) :
    G.netForce W k = total G.lids fun i => W.f i k := by
  unfold Group.netForce
  by_cases h0 : G.size = 0
  · have : G.lids = [] := List.length_eq_zero_iff.mp (by rw [hG]; exact h0)
    rw [if_pos h0, this]; simp [total]
  · rw [if_neg h0, foldl_sum]; simp

/-- **C45, centre of mass velocity.** For members of finite positive mass the total mass times the velocity returned is the
total momentum; an empty group gives zero. -/
theorem C45_com_velocity (W : World d) (G : Group) (hG : OK G) (him : ∀ i ∈ G.lids, 0 < W.im i) :
    ∃ v, G.comVelocity W = some v ∧
      ∀ k, (total G.lids fun i => 1 / W.im i) * v k = total G.lids fun i => 1 / W.im i * W.v i k := by
  unfold Group.comVelocity
  by_cases h0 : G.size = 0
  · have : G.lids = [] := List.length_eq_zero_iff.mp (by rw [hG]; exact h0)
    rw [if_pos h0]
    exact ⟨_, rfl, by simp [this, total]⟩
  · have hne : G.lids ≠ [] := by intro h; apply h0; unfold Group.size; rw [← hG, h]; rfl
    have hp := total_pos W.im G.lids hne him
    rw [if_neg h0, foldlM_weighted W.im W.v G.lids _ (fun i hi => (him i hi).ne')]
    simp only [Option.bind_some, zero_add]
    rw [if_neg hp.ne']
    refine ⟨_, rfl, fun k => ?_⟩
    field_simp

theorem foldl_addAt (c : ℕ → ℝ) (V : Fin d → ℝ) (l : List ℕ) (v : ℕ → Fin d → ℝ) (m : ℕ) (k : Fin d) :
    l.foldl (fun v i => addAt v i (c i) V) v m k = v m k + l.count m * (c m * V k) := by
  induction l generalizing v with
  | nil => simp
  | cons i l ih =>
    rw [List.foldl_cons, ih, List.count_cons]
    unfold addAt
    by_cases h : m = i
    · subst h; simp; ring
    · rw [Function.update_of_ne h]
      have : (i == m) = false := by simp; exact fun e => h e.symm
      simp [this]

/-- **C45, velocity shift.** `addVelocity(V)` adds `V` to the velocity of each member (once per occurrence in the group) and
changes no other velocity; for a group without repetitions the momentum changes by total mass times `V`. -/
theorem C45_add_velocity (W : World d) (G : Group) (hG : OK G) (V : Fin d → ℝ) (m : ℕ) (k : Fin d) :
    G.addVelocity W V m k = W.v m k + G.lids.count m * V k := by
  unfold Group.addVelocity
  by_cases h0 : G.size = 0
  · have : G.lids = [] := List.length_eq_zero_iff.mp (by rw [hG]; exact h0)
    rw [if_pos h0, this]; simp
  · rw [if_neg h0]
    have := foldl_addAt (fun _ => 1) V G.lids W.v m k
    simpa using this

/-- **C45, acceleration.** `addAcceleration(A)` adds mass times `A` to the force on each member of finite positive mass, and
nothing to the others. -/
theorem C45_add_acceleration (W : World d) (G : Group) (hG : OK G) (A : Fin d → ℝ) (m : ℕ) (k : Fin d) :
    G.addAcceleration W A m k = W.f m k + if 0 < W.im m then G.lids.count m * (1 / W.im m * A k) else 0 := by
  unfold Group.addAcceleration
  by_cases h0 : G.size = 0
  · have : G.lids = [] := List.length_eq_zero_iff.mp (by rw [hG]; exact h0)
    rw [if_pos h0, this]; simp
  · rw [if_neg h0]
    generalize G.lids = l
    generalize W.f = f
    induction l generalizing f with
    | nil => simp
    | cons i l ih =>
      rw [List.foldl_cons, ih, List.count_cons]
      by_cases h : m = i
      · subst h
        by_cases hp : 0 < W.im m
        · rw [if_pos hp, if_pos hp, if_pos hp]
          simp [addAt]; ring
        · rw [if_neg hp, if_neg hp, if_neg hp]
      · have hb : (i == m) = false := by simp; exact fun e => h e.symm
        have : (if 0 < W.im i then addAt f i (1 / W.im i) A else f) m = f m := by
          split_ifs
          · unfold addAt; rw [Function.update_of_ne h]
          · rfl
        rw [this]; simp [hb]

theorem correct_image (w : Fin d → Option ℝ) (X : Fin d → ℝ) (k : Fin d) :
    ∃ n : ℤ, |n| ≤ 1 ∧ (w k = none → n = 0) ∧ correct w X k = X k + n * (w k).getD 0 := by
  unfold correct
  cases h : w k with
  | none => exact ⟨0, by simp, fun _ => rfl, by simp⟩
  | some wd =>
    simp only [Option.getD_some]
    split_ifs with h1 h2
    · refine ⟨-1, by simp, by simp, ?_⟩
      rw [abs_of_pos h2]; push_cast; ring
    · refine ⟨1, by simp, by simp, ?_⟩
      rw [abs_of_nonpos (not_lt.mp h2)]; push_cast; ring
    · exact ⟨0, by simp, by simp, by simp⟩

/-- The value `findCenterOfMass` computes in coordinate `k` before it is moved into the box. -/
theorem com_eq (W : World d) (G : Group) (hG : OK G) (hne : G.size ≠ 0) (him : ∀ i ∈ G.lids, 0 < W.im i) :
    ∃ (c : Fin d → ℝ) (mid : ℕ), mid ∈ G.lids ∧ G.centerOfMass W = some (fun k =>
        if c k < W.lo k then c k + (W.hi k - W.lo k) else if W.hi k < c k then c k - (W.hi k - W.lo k) else c k) ∧
      ∀ k, (total G.lids fun i => 1 / W.im i) * c k =
        total G.lids fun i => 1 / W.im i * (W.x mid k + disp W (W.x i) (W.x mid) k) := by
  have hne' : G.lids ≠ [] := by intro h; apply hne; unfold Group.size; rw [← hG, h]; rfl
  have hlen : 0 < G.lids.length := List.length_pos_of_ne_nil hne'
  have hmid : G.lids.length / 2 < G.lids.length := by omega
  have hp := total_pos W.im G.lids hne' him
  refine ⟨fun k => 1 / (total G.lids fun i => 1 / W.im i) *
      (total G.lids fun i => 1 / W.im i * disp W (W.x i) (W.x G.lids[G.lids.length / 2]) k) + W.x G.lids[G.lids.length / 2] k,
    G.lids[G.lids.length / 2], List.getElem_mem hmid, ?_, ?_⟩
  · unfold Group.centerOfMass
    rw [if_neg hne, List.getElem?_eq_getElem hmid]
    simp only [Option.bind_some]
    rw [foldlM_weighted W.im (fun i => disp W (W.x i) (W.x G.lids[G.lids.length / 2])) G.lids _
      (fun i hi => (him i hi).ne')]
    simp only [Option.bind_some, zero_add]
    rw [if_neg hp.ne']
  · intro k
    have key : ∀ l : List ℕ, (total l fun i => 1 / W.im i * (W.x G.lids[G.lids.length / 2] k +
        disp W (W.x i) (W.x G.lids[G.lids.length / 2]) k)) =
        (total l fun i => 1 / W.im i) * W.x G.lids[G.lids.length / 2] k +
          total l fun i => 1 / W.im i * disp W (W.x i) (W.x G.lids[G.lids.length / 2]) k := by
      intro l
      induction l with
      | nil => simp [total]
      | cons i l ih => simp only [total, List.map_cons, List.sum_cons] at ih ⊢; rw [ih]; ring
    rw [key]
    field_simp
    ring

theorem total_congr {l : List ℕ} {p q : ℕ → ℝ} (h : ∀ i ∈ l, p i = q i) : total l p = total l q := by
  unfold total; rw [List.map_congr_left h]

/-- **C45, centre of mass (partial).** For members of finite positive mass the centre of mass is the mass-weighted mean of
periodic images of the members (each moved by at most one box width, and not at all in dimensions that do not wrap), moved
by at most one box width itself. In a dimension that does not wrap it is the plain mass-weighted mean, provided this lies in
the box.
Missing: dimensions that do not wrap when the mean is outside of the box, see `C45_negation_center_of_mass`. -/
theorem C45_center_of_mass_partial (W : World d) (G : Group) (hG : OK G) (hne : G.size ≠ 0)
    (him : ∀ i ∈ G.lids, 0 < W.im i) :
    ∃ c, G.centerOfMass W = some c ∧ ∀ k,
      (∃ (n : ℕ → ℤ) (n0 : ℤ), (∀ i, |n i| ≤ 1 ∧ (W.wrap k = false → n i = 0)) ∧ |n0| ≤ 1 ∧
        (total G.lids fun i => 1 / W.im i) * (c k + n0 * (W.hi k - W.lo k)) =
          total G.lids fun i => 1 / W.im i * (W.x i k + n i * (W.hi k - W.lo k))) ∧
      (W.wrap k = false → ∀ y, (total G.lids fun i => 1 / W.im i) * y = (total G.lids fun i => 1 / W.im i * W.x i k) →
        W.lo k ≤ y → y ≤ W.hi k → c k = y) := by
  obtain ⟨c0, mid, _, e, hc⟩ := com_eq W G hG hne him
  have hne' : G.lids ≠ [] := by intro h; apply hne; unfold Group.size; rw [← hG, h]; rfl
  have hp := total_pos W.im G.lids hne' him
  refine ⟨_, e, fun k => ⟨?_, ?_⟩⟩
  · choose n hn using fun i => correct_image (fun k => if W.wrap k then some (W.hi k - W.lo k) else none)
      (W.x i - W.x mid) k
    have hd : ∀ i, W.x mid k + disp W (W.x i) (W.x mid) k = W.x i k + n i * (W.hi k - W.lo k) := by
      intro i
      unfold disp
      rw [(hn i).2.2]
      simp only [Pi.sub_apply]
      cases hw : W.wrap k with
      | true => simp; ring
      | false => rw [(hn i).2.1 (by simp [hw])]; simp
    have hm : (total G.lids fun i => 1 / W.im i) * c0 k =
        total G.lids fun i => 1 / W.im i * (W.x i k + n i * (W.hi k - W.lo k)) := by
      rw [hc k]; exact total_congr (fun i _ => by rw [hd i])
    have hni : ∀ i, |n i| ≤ 1 ∧ (W.wrap k = false → n i = 0) := fun i => ⟨(hn i).1, fun h => (hn i).2.1 (by simp [h])⟩
    split_ifs with h1 h2
    · refine ⟨n, -1, hni, by simp, ?_⟩
      rw [← hm]; push_cast; ring
    · refine ⟨n, 1, hni, by simp, ?_⟩
      rw [← hm]; push_cast; ring
    · refine ⟨n, 0, hni, by simp, ?_⟩
      rw [← hm]; push_cast; ring
  · intro hw y hy h1 h2
    have : c0 k = y := by
      have hd : ∀ i, W.x mid k + disp W (W.x i) (W.x mid) k = W.x i k := by
        intro i; unfold disp correct; simp [hw]
      have h3 : (total G.lids fun i => 1 / W.im i) * c0 k = (total G.lids fun i => 1 / W.im i) * y := by
        rw [hc k, hy]; exact total_congr (fun i _ => by rw [hd i])
      exact mul_left_cancel₀ hp.ne' h3
    simp only [this]
    rw [if_neg (not_lt.mpr h1), if_neg (not_lt.mpr h2)]

/-- A one-dimensional world: box [0, 10], no wrapping, unit masses, particle `i` at `x i`. -/
noncomputable def world1 (x : ℕ → ℝ) : World 1 :=
  ⟨some, fun i _ => x i, fun _ _ => 0, fun _ _ => 0, fun _ => 1, fun _ => 0, fun _ => 10, fun _ => false⟩

/-- The hypotheses of the theorems above are met. -/
example : OK ⟨[0, 1], [0, 1]⟩ ∧ (⟨[0, 1], [0, 1]⟩ : Group).size ≠ 0 ∧
    (∀ i ∈ (⟨[0, 1], [0, 1]⟩ : Group).lids, 0 < (world1 fun i => i).im i) := by
  refine ⟨rfl, by decide, ?_⟩
  intro i _; simp [world1]

/-- **C45 is false of the centre of mass outside of a box that does not wrap.** A single particle at -1 in a box `[0,10]`
without wrapping: the centre of mass returned is 9. -/
theorem C45_negation_center_of_mass : ∃ c, (⟨[0], [0]⟩ : Group).centerOfMass (world1 fun _ => -1) = some c ∧ c 0 = 9 := by
  obtain ⟨c, mid, hmid, e, hc⟩ := com_eq (world1 fun _ => -1) ⟨[0], [0]⟩ rfl (by decide) (by intro i _; simp [world1])
  refine ⟨_, e, ?_⟩
  have := hc 0
  have h1 : c 0 = -1 := by
    simpa [total, world1, disp, correct] using this
  simp only [h1, world1]
  norm_num

/-! ## C46 -/

/-- `getDistance`, `gflow.cpp:444-459`. -/
noncomputable def dist (W : World d) (x y : Fin d → ℝ) : ℝ := Real.sqrt (dot (disp W x y) (disp W x y))

/-- `Group::distance`, `other/group.cpp:163-174`: the state is `(_distance, minimum_distance)`. -/
noncomputable def Group.distance (W : World d) (G : Group) (p : Fin d → ℝ) : ℝ :=
  if G.size = 0 then -1
  else (G.lids.foldl (fun (s : ℝ × ℝ) i =>
    let c := dist W (W.x i) p
    (c, open Classical in if c < s.2 then c else s.2)) (1000000, 1000000)).1

open Classical in
/-- `Group::findClosestObject`, `other/group.cpp:201-218`; `none` for an empty group means that the output is not written. -/
noncomputable def Group.findClosest (W : World d) (G : Group) (p : Fin d → ℝ) : Option (Fin d → ℝ) :=
  if G.size = 0 then none
  else some (G.lids.foldl (fun (s : ℝ × (Fin d → ℝ)) i =>
    let D := disp W (W.x i) p
    if s.1 < dot D D then (dot D D, D) else s) (0, fun _ => 0)).2

/-- **C46 is false of the code (distance).** For every non-empty group the value returned is the distance of the member that
happens to be last in the list; the minimum that was computed is dropped. -/
theorem C46_negation_distance (W : World d) (gs ls : List ℕ) (g l : ℕ) (p : Fin d → ℝ) :
    Group.distance W ⟨gs ++ [g], ls ++ [l]⟩ p = dist W (W.x l) p := by
  unfold Group.distance
  rw [if_neg (by simp [Group.size])]
  simp [List.foldl_append]

/-- **C46 (partial).** For a group of one particle both queries are right.
Missing: all other groups, see the two negations. -/
theorem C46_single_partial (W : World d) (g l : ℕ) (p : Fin d → ℝ) :
    Group.distance W ⟨[g], [l]⟩ p = dist W (W.x l) p ∧
    Group.findClosest W ⟨[g], [l]⟩ p = some (disp W (W.x l) p) := by
  constructor
  · simp [Group.distance, Group.size]
  · unfold Group.findClosest
    rw [if_neg (by simp [Group.size])]
    simp only [List.foldl_cons, List.foldl_nil]
    by_cases h : 0 < dot (disp W (W.x l) p) (disp W (W.x l) p)
    · rw [if_pos h]
    · rw [if_neg h]
      have h0 : dot (disp W (W.x l) p) (disp W (W.x l) p) = 0 :=
        le_antisymm (not_lt.mp h) (Finset.sum_nonneg fun k _ => mul_self_nonneg _)
      have := (Finset.sum_eq_zero_iff_of_nonneg (fun k _ => mul_self_nonneg _)).mp h0
      congr 1
      funext k
      exact (mul_self_eq_zero.mp (this k (Finset.mem_univ k))).symm

/-- **C46 is false of the code (closest object).** For every non-empty group the displacement returned is that of a member
of maximal, not minimal, distance. -/
theorem C46_negation_closest (W : World d) (G : Group) (hne : G.size ≠ 0) (hG : OK G) (p : Fin d → ℝ) :
    ∃ i ∈ G.lids, G.findClosest W p = some (disp W (W.x i) p) ∧
      ∀ j ∈ G.lids, dot (disp W (W.x j) p) (disp W (W.x j) p) ≤ dot (disp W (W.x i) p) (disp W (W.x i) p) := by
  unfold Group.findClosest
  rw [if_neg hne]
  have nn : ∀ D : Fin d → ℝ, 0 ≤ dot D D := fun D => Finset.sum_nonneg fun k _ => mul_self_nonneg _
  have z : ∀ D : Fin d → ℝ, dot D D ≤ 0 → D = fun _ => 0 := by
    intro D h
    have := (Finset.sum_eq_zero_iff_of_nonneg (fun k _ => mul_self_nonneg _)).mp (le_antisymm h (nn D))
    funext k
    exact mul_self_eq_zero.mp (this k (Finset.mem_univ k))
  have gen : ∀ (l : List ℕ) (s : ℝ × (Fin d → ℝ)), dot s.2 s.2 = s.1 →
      ∃ s', l.foldl (fun (s : ℝ × (Fin d → ℝ)) i =>
        let D := disp W (W.x i) p
        open Classical in if s.1 < dot D D then (dot D D, D) else s) s = s' ∧ dot s'.2 s'.2 = s'.1 ∧ s.1 ≤ s'.1 ∧
        (∀ j ∈ l, dot (disp W (W.x j) p) (disp W (W.x j) p) ≤ s'.1) ∧
        (s' = s ∨ ∃ i ∈ l, s'.2 = disp W (W.x i) p) := by
    intro l
    induction l with
    | nil => intro s hs; exact ⟨s, rfl, hs, le_rfl, by simp, Or.inl rfl⟩
    | cons i l ih =>
      intro s hs
      rw [List.foldl_cons]
      simp only
      by_cases hlt : s.1 < dot (disp W (W.x i) p) (disp W (W.x i) p)
      · rw [if_pos hlt]
        obtain ⟨s', e, h1, h2, h3, h4⟩ := ih (dot (disp W (W.x i) p) (disp W (W.x i) p), disp W (W.x i) p) rfl
        refine ⟨s', e, h1, le_trans hlt.le h2, ?_, ?_⟩
        · intro j hj
          rcases List.mem_cons.mp hj with rfl | hj
          · exact h2
          · exact h3 j hj
        · right
          rcases h4 with rfl | ⟨m, hm, h⟩
          · exact ⟨i, by simp, rfl⟩
          · exact ⟨m, List.mem_cons_of_mem _ hm, h⟩
      · rw [if_neg hlt]
        obtain ⟨s', e, h1, h2, h3, h4⟩ := ih s hs
        refine ⟨s', e, h1, h2, ?_, ?_⟩
        · intro j hj
          rcases List.mem_cons.mp hj with rfl | hj
          · exact le_trans (not_lt.mp hlt) h2
          · exact h3 j hj
        · rcases h4 with rfl | ⟨m, hm, h⟩
          · exact Or.inl rfl
          · exact Or.inr ⟨m, List.mem_cons_of_mem _ hm, h⟩
  obtain ⟨s', e, h1, h2, h3, h4⟩ := gen G.lids (0, fun _ => 0) (by simp [dot])
  have hne' : G.lids ≠ [] := by intro h; apply hne; unfold Group.size; rw [← hG, h]; rfl
  rw [e]
  rcases h4 with h4 | ⟨i, hi, h4⟩
  · obtain ⟨i, hi⟩ := List.exists_mem_of_ne_nil _ hne'
    have hi0 := h3 i hi
    rw [h4] at hi0
    refine ⟨i, hi, by rw [h4, z _ hi0], ?_⟩
    intro j hj
    have := h3 j hj
    rw [h4] at this
    exact le_trans this (nn _)
  · refine ⟨i, hi, by rw [h4], ?_⟩
    intro j hj
    rw [← h4, h1]; exact h3 j hj

/-- Particles at 1 and 5, point 0: the distance returned is 5 although one member has distance 1. -/
theorem C46_negation_witness : Group.distance (world1 fun i => if i = 0 then 1 else 5) ⟨[0] ++ [1], [0] ++ [1]⟩ (fun _ => 0) = 5 ∧
    dist (world1 fun i => if i = 0 then 1 else 5) (fun _ => 1) (fun _ => 0) = 1 := by
  constructor
  · rw [C46_negation_distance]
    simp only [dist, disp, world1, correct, dot]
    norm_num
    rw [show (25 : ℝ) = 5 ^ 2 by norm_num]
    exact Real.sqrt_sq (by norm_num)
  · simp [dist, disp, world1, correct, dot]

/-! ## Chained length -/

/-- `Group::getChainedLength`, `other/group.cpp:141-152`. `local_ids.size()-1` is unsigned: for an empty group the loop runs
and reads outside of the vector. -/
noncomputable def Group.chainedLength (W : World d) (G : Group) : Option ℝ :=
  if G.lids.length = 0 then none
  else (List.range (G.lids.length - 1)).foldlM (fun s i =>
    match G.lids[i]?, G.lids[i+1]? with
    | some a, some b => some (s + dist W (W.x a) (W.x b))
    | _, _ => none) 0

/-- Spec: sum of the distances of consecutive members. -/
noncomputable def pathLength (W : World d) : List ℕ → ℝ
  | a :: b :: l => dist W (W.x a) (W.x b) + pathLength W (b :: l)
  | _ => 0

theorem pathLength_snoc (W : World d) (l : List ℕ) (a b : ℕ) :
    pathLength W (l ++ [a, b]) = pathLength W (l ++ [a]) + dist W (W.x a) (W.x b) := by
  induction l with
  | nil => simp [pathLength]
  | cons c l ih =>
    cases l with
    | nil => simp [pathLength]
    | cons e l =>
      simp only [List.cons_append, pathLength] at ih ⊢
      rw [ih]; ring

/-- **C70.** The chained length of a non-empty group is the sum of the distances of consecutive members; it is undefined
exactly for an empty group. -/
theorem C70_chained_length (W : World d) (G : Group) :
    (G.lids ≠ [] → G.chainedLength W = some (pathLength W G.lids)) ∧ (G.lids = [] → G.chainedLength W = none) := by
  constructor
  · intro hne
    have hlen : 0 < G.lids.length := List.length_pos_of_ne_nil hne
    unfold Group.chainedLength
    rw [if_neg (by omega)]
    have gen : ∀ n, n < G.lids.length → (List.range n).foldlM (fun s i =>
        match G.lids[i]?, G.lids[i+1]? with
        | some a, some b => some (s + dist W (W.x a) (W.x b))
        | _, _ => none) 0 = some (pathLength W (G.lids.take (n + 1))) := by
      intro n
      induction n with
      | zero =>
        intro h
        obtain ⟨a, l, e⟩ := List.exists_cons_of_ne_nil hne
        rw [e]; simp [pathLength]
      | succ n ih =>
        intro h
        rw [List.range_succ, List.foldlM_append, ih (by omega)]
        have h1 : n < G.lids.length := by omega
        have e : G.lids.take (n + 1 + 1) = G.lids.take n ++ [G.lids[n], G.lids[n+1]] := by
          rw [List.take_add_one, List.take_add_one, List.getElem?_eq_getElem h1, List.getElem?_eq_getElem h]
          simp only [Option.toList_some, List.append_assoc, List.cons_append, List.nil_append]
        have e1 : G.lids.take (n + 1) = G.lids.take n ++ [G.lids[n]] := by
          rw [List.take_add_one, List.getElem?_eq_getElem h1]; simp
        rw [e, pathLength_snoc, ← e1]
        simp [List.getElem?_eq_getElem h1, List.getElem?_eq_getElem h]
    rw [gen _ (by omega)]
    rw [Nat.sub_add_cancel (by omega), List.take_length]
  · intro h
    unfold Group.chainedLength
    rw [if_pos (by rw [h]; rfl)]

end Verif.Groups
