import Mathlib.Data.List.Basic
import Mathlib.Data.List.Pairwise
import Mathlib.Tactic.Linarith

/-!
# Polymers of all areas: chains, correlations, pairs (C148)

Models `createArea`, `make_bond_objects` and the bookkeeping of `createRandomPolymer`, `createSinglePolymer`, `createRandomLine` and `createParallelPolymers` of `creators/polymercreator.cpp`.
One creator makes all polymer areas of a file (`creators/fileparsecreator.cpp:353-358`), so its state goes from one area to the next.

Simplifications: particles are their global ids; positions and numbers of beads are those of C95 (here any numbers). Not modelled: radii, masses, the persistence length object, the fixers (see
`Polymer.C95_negation_ids`), the two-wall modifier. `useAngle` is always true (`creators/polymercreator.cpp:54`), so the plain harmonic bonds are never made.
-/

namespace Verif.PolymerArea

/-- What is asked for in an area: `Number`, `Parallel`, `Line`, `Correlation`; whether the fractions, lengths, radii and types are valid (`creators/polymercreator.cpp:230`); the number of beads of
each polymer. -/
structure Area where
  number : ℕ
  pair : Bool
  line : Bool
  corr : Bool
  valid : Bool
  beads : ℕ → ℕ

/-- A polymer that was made: whether its beads are to be bonded (polymers, not lines), whether correlation was asked for, its ids. For the specification only. -/
structure Made where
  bonded : Bool
  corr : Bool
  ids : List ℕ

/-- A `TwoPolymerBinForce`: its polymers with their chains, each empty until set. -/
structure Pair where
  first : Option (List ℕ × Option ℕ)
  second : Option (List ℕ × Option ℕ)
  deriving DecidableEq

/-- The creator, with the objects it has handed to the simulation: the next global id; the atoms of all chain objects (`addBonded`); which of them is `harmonicchain`; `n_polymers`; the ids of
`correlation`; all `TwoPolymerBinForce`s, of which the last is `polycorr`; `useCorr`; and all polymers made. -/
structure St where
  next : ℕ
  chains : List (List ℕ)
  chain : Option ℕ
  n : ℕ
  corr : Option (List ℕ)
  pairs : List Pair
  useCorr : Bool
  made : List Made

/-- The creator of a simulation without polymers, `creators/polymercreator.hpp:42-75`; `next` is the next id of the simulation. -/
def St.init (next : ℕ) : St := ⟨next, [], none, 0, none, [], false, []⟩

/-- `make_bond_objects`, `creators/polymercreator.cpp:140-180`: in two and three dimensions a new chain, otherwise none. -/
def makeBonds (dims : ℕ) (s : St) : St :=
  if dims = 2 ∨ dims = 3 then ⟨s.next, s.chains ++ [[]], some s.chains.length, s.n, s.corr, s.pairs, s.useCorr, s.made⟩
  else ⟨s.next, s.chains, none, s.n, s.corr, s.pairs, s.useCorr, s.made⟩

/-- A bead: added to the correlation object (`creators/polymercreator.cpp:301, 396-398`) and, in a polymer, to the chain (331). The next id moves on by two (`base/simdata.tpp:69-70`). -/
def bead (bonded : Bool) (s : St) : St :=
  ⟨s.next + 2, match s.chain with
    | some c => if bonded then s.chains.modify c (· ++ [s.next]) else s.chains
    | none => s.chains,
   s.chain, s.n, if s.useCorr then s.corr.map (· ++ [s.next]) else s.corr, s.pairs, s.useCorr, s.made⟩

/-- The beads of a polymer and their ids (`group.add(gid2)`, 334, `group.add(gid)`, 401). -/
def beads (bonded : Bool) : ℕ → St → List ℕ × St
  | 0, s => ([], s)
  | k + 1, s => let r := beads bonded k (bead bonded s); (s.next :: r.1, r.2)

/-- `createSinglePolymer`, `creators/polymercreator.cpp:263-360`, and `createRandomLine`, 362-409: the beads; `n_polymers` goes up. -/
def create (bonded : Bool) (k : ℕ) (s : St) : List ℕ × St :=
  let r := beads bonded k s
  (r.1, ⟨r.2.next, r.2.chains, r.2.chain, r.2.n + 1, r.2.corr, r.2.pairs, r.2.useCorr, r.2.made ++ [⟨bonded, s.useCorr, r.1⟩]⟩)

/-- `createRandomPolymer`, `creators/polymercreator.cpp:228-261`. -/
def randomPolymer (dims : ℕ) (a : Area) (k : ℕ) (s : St) : List ℕ × St := if a.valid then create true k (makeBonds dims s) else ([], s)

/-- Change of the last element of a list. -/
def onLast {β : Type} (f : β → β) : List β → List β
  | [] => []
  | [x] => [f x]
  | x :: y :: l => x :: onLast f (y :: l)

/-- The assignment of polymers to the pair, `creators/polymercreator.cpp:122-131`. -/
def setPair (g : List ℕ) (s : St) : St :=
  ⟨s.next, s.chains, s.chain, s.n, s.corr,
    onLast (fun p => ⟨if s.n = 1 then some (g, s.chain) else p.first, if s.n = 2 then some (g, s.chain) else p.second⟩) s.pairs, s.useCorr, s.made⟩

/-- The loop over polymers, `creators/polymercreator.cpp:108-132`. -/
def loop (dims : ℕ) (a : Area) : ℕ → ℕ → St → St
  | 0, _, s => s
  | k + 1, i, s =>
    let r := if a.line then create false (a.beads i) s else randomPolymer dims a (a.beads i) s
    loop dims a k (i + 1) (setPair r.1 r.2)

/-- The objects of an area: `creators/polymercreator.cpp:50, 67-72` (`useCorr`), 86-101. -/
def objects (dims : ℕ) (a : Area) (s : St) : St :=
  let s := makeBonds dims s
  ⟨s.next, s.chains, s.chain, s.n, if s.corr = none ∧ a.corr then some [] else s.corr, if a.number = 2 then s.pairs ++ [⟨none, none⟩] else s.pairs, a.corr, s.made⟩

/-- `createArea`, `creators/polymercreator.cpp:14-136`; the parallel pair is `createParallelPolymers`, 465-513. -/
def area (dims : ℕ) (a : Area) (s : St) : St :=
  let s := objects dims a s
  if a.pair then (create false (a.beads 1) (create false (a.beads 0) s).2).2 else loop dims a a.number 0 s

/-- All areas of a file. -/
def areas (dims : ℕ) (l : List Area) (s : St) : St := l.foldl (fun s a => area dims a s) s

/-! ## What is kept -/

theorem modify_last (l : List (List ℕ)) (x : List ℕ) (g : ℕ) : (l ++ [x]).modify l.length (· ++ [g]) = l ++ [x ++ [g]] := by
  induction l with
  | nil => rfl
  | cons a l ih => simpa using ih

/-- The ids of beads. -/
def ids (next k : ℕ) : List ℕ := (List.range k).map fun i : ℕ => next + 2 * i

theorem ids_succ (next k : ℕ) : ids next (k + 1) = next :: ids (next + 2) k := by
  unfold ids
  rw [List.range_succ_eq_map, List.map_cons, List.map_map]
  refine List.cons_eq_cons.mpr ⟨by omega, ?_⟩
  apply List.map_congr_left
  intro i _
  simp only [Function.comp]
  omega

/-- What the beads of a polymer change. -/
theorem beads_spec (bonded : Bool) (k : ℕ) (s : St) : (beads bonded k s).1 = ids s.next k ∧ (beads bonded k s).2.next = s.next + 2 * k ∧ (beads bonded k s).2.chain = s.chain ∧
    (beads bonded k s).2.n = s.n ∧ (beads bonded k s).2.pairs = s.pairs ∧ (beads bonded k s).2.useCorr = s.useCorr ∧ (beads bonded k s).2.made = s.made ∧
    (beads bonded k s).2.corr = (if s.useCorr then s.corr.map (· ++ ids s.next k) else s.corr) ∧
    (bonded = false ∨ s.chain = none → (beads bonded k s).2.chains = s.chains) ∧
    (bonded = true → ∀ l x, s.chains = l ++ [x] → s.chain = some l.length → (beads bonded k s).2.chains = l ++ [x ++ ids s.next k]) := by
  induction k generalizing s with
  | zero =>
    refine ⟨rfl, rfl, rfl, rfl, rfl, rfl, rfl, ?_, fun _ => rfl, fun _ l x h _ => ?_⟩
    · simp [beads, ids]
    · simp [beads, ids, h]
  | succ k ih =>
    obtain ⟨h1, h2, h3, h4, h5, h6, h7, h8, h9, h10⟩ := ih (bead bonded s)
    refine ⟨?_, ?_, h3, h4, h5, h6, h7, ?_, ?_, ?_⟩
    · show s.next :: (beads bonded k (bead bonded s)).1 = _
      rw [h1, ids_succ]
      rfl
    · show (beads bonded k (bead bonded s)).2.next = _
      rw [h2]
      show s.next + 2 + 2 * k = _
      omega
    · show (beads bonded k (bead bonded s)).2.corr = _
      rw [h8, ids_succ]
      show (if s.useCorr then Option.map _ (if s.useCorr then s.corr.map (· ++ [s.next]) else s.corr) else (if s.useCorr then s.corr.map (· ++ [s.next]) else s.corr)) = _
      cases s.useCorr
      · rfl
      · simp only [if_true, Option.map_map]
        congr 1
        funext l
        simp only [Function.comp, List.append_assoc, List.singleton_append]
        rfl
    · intro hb
      show (beads bonded k (bead bonded s)).2.chains = _
      rw [h9 hb]
      rcases hb with hb | hb
      · rw [hb]
        unfold bead
        simp only [Bool.false_eq_true, if_false]
        split <;> rfl
      · unfold bead
        simp only [hb]
    · intro hb l x hx hc
      show (beads bonded k (bead bonded s)).2.chains = _
      have e : (bead bonded s).chains = l ++ [x ++ [s.next]] := by
        show (match s.chain with
          | some c => if bonded then s.chains.modify c (· ++ [s.next]) else s.chains
          | none => s.chains) = _
        rw [hc, hb, hx]
        exact modify_last l x s.next
      rw [h10 hb l (x ++ [s.next]) e hc, ids_succ, List.append_assoc]
      rfl

/-- The polymers that are to be bonded. -/
def toBond (m : List Made) : List (List ℕ) := (m.filter fun x => x.bonded && !x.ids.isEmpty).map Made.ids

/-- The chains that do something. -/
def active (c : List (List ℕ)) : List (List ℕ) := c.filter fun l => !l.isEmpty

theorem active_append (a b : List (List ℕ)) : active (a ++ b) = active a ++ active b := List.filter_append ..

theorem toBond_append (a b : List Made) : toBond (a ++ b) = toBond a ++ toBond b := by
  unfold toBond
  rw [List.filter_append, List.map_append]

/-- The ids that are to be correlated. -/
def toCorr (m : List Made) : List ℕ := (m.filter Made.corr).flatMap Made.ids

/-- What holds between polymers. -/
structure Inv (first : ℕ) (s : St) : Prop where
  sorted : (s.made.flatMap Made.ids).Pairwise (· < ·)
  range : ∀ g ∈ s.made.flatMap Made.ids, first ≤ g ∧ g < s.next
  le : first ≤ s.next
  corr : s.corr.getD [] = toCorr s.made
  some : s.useCorr = true → s.corr.isSome
  num : s.n = s.made.length

theorem ids_mem (next k g : ℕ) (h : g ∈ ids next k) : next ≤ g ∧ g < next + 2 * k := by
  unfold ids at h
  obtain ⟨i, hk, rfl⟩ := List.mem_map.mp h
  have := List.mem_range.mp hk
  omega

theorem ids_sorted (next k : ℕ) : (ids next k).Pairwise (· < ·) := by
  unfold ids
  rw [List.pairwise_map]
  exact List.pairwise_lt_range.imp (by intros; omega)

theorem create_inv (first : ℕ) (bonded : Bool) (k : ℕ) (s : St) (h : Inv first s) : Inv first (create bonded k s).2 := by
  obtain ⟨h1, h2, h3, h4, h5, h6, h7, h8, h9, h10⟩ := beads_spec bonded k s
  have em : (create bonded k s).2.made = s.made ++ [⟨bonded, s.useCorr, ids s.next k⟩] := by
    show (beads bonded k s).2.made ++ [⟨bonded, s.useCorr, (beads bonded k s).1⟩] = _
    rw [h7, h1]
  have en : (create bonded k s).2.next = s.next + 2 * k := h2
  have ef : (s.made ++ [⟨bonded, s.useCorr, ids s.next k⟩] : List Made).flatMap Made.ids = s.made.flatMap Made.ids ++ ids s.next k := by simp
  constructor
  · rw [em, ef, List.pairwise_append]
    refine ⟨h.sorted, ids_sorted _ _, fun a ha b hb => ?_⟩
    have := (h.range a ha).2
    have := (ids_mem _ _ _ hb).1
    omega
  · rw [em, ef, en]
    intro g hg
    have hle := h.le
    rcases List.mem_append.mp hg with hg | hg
    · have := h.range g hg
      omega
    · have := ids_mem _ _ _ hg
      omega
  · rw [en]
    have := h.le
    omega
  · rw [em]
    show (beads bonded k s).2.corr.getD [] = _
    rw [h8]
    unfold toCorr
    rw [List.filter_append, List.flatMap_append]
    have hc := h.corr
    unfold toCorr at hc
    cases hu : s.useCorr with
    | false =>
      rw [if_neg (by simp), hc]
      simp
    | true =>
      obtain ⟨l, hl⟩ := Option.isSome_iff_exists.mp (h.some hu)
      rw [hl, Option.getD_some] at hc
      rw [if_pos rfl, hl, Option.map_some, Option.getD_some, hc]
      simp
  · intro hu
    have hu' : s.useCorr = true := h6 ▸ hu
    show (beads bonded k s).2.corr.isSome
    rw [h8, if_pos hu']
    rw [Option.isSome_map]
    exact h.some hu'
  · rw [em]
    show (beads bonded k s).2.n + 1 = _
    rw [h4, h.num]
    simp

theorem makeBonds_same (dims : ℕ) (s : St) : (makeBonds dims s).next = s.next ∧ (makeBonds dims s).n = s.n ∧ (makeBonds dims s).corr = s.corr ∧ (makeBonds dims s).pairs = s.pairs ∧
    (makeBonds dims s).useCorr = s.useCorr ∧ (makeBonds dims s).made = s.made := by
  unfold makeBonds
  split <;> exact ⟨rfl, rfl, rfl, rfl, rfl, rfl⟩

theorem inv_congr (first : ℕ) {s t : St} (h : Inv first s) (h1 : t.next = s.next) (h2 : t.n = s.n) (h3 : t.corr = s.corr) (h5 : t.useCorr = s.useCorr) (h6 : t.made = s.made) : Inv first t := by
  obtain ⟨a, b, c, d, e, f⟩ := h
  exact ⟨h6 ▸ a, by rw [h6, h1]; exact b, h1 ▸ c, by rw [h3, h6]; exact d, by rw [h5, h3]; exact e, by rw [h2, h6]; exact f⟩

theorem makeBonds_inv (first dims : ℕ) (s : St) (h : Inv first s) : Inv first (makeBonds dims s) := by
  obtain ⟨a, b, c, d, e, f⟩ := makeBonds_same dims s
  exact inv_congr first h a b c e f

theorem loop_inv (first dims : ℕ) (a : Area) (k i : ℕ) (s : St) (h : Inv first s) : Inv first (loop dims a k i s) := by
  induction k generalizing i s with
  | zero => exact h
  | succ k ih =>
    apply ih
    have : Inv first (if a.line then create false (a.beads i) s else randomPolymer dims a (a.beads i) s).2 := by
      split
      · exact create_inv first _ _ _ h
      · unfold randomPolymer
        split
        · exact create_inv first _ _ _ (makeBonds_inv first dims s h)
        · exact h
    exact inv_congr first this rfl rfl rfl rfl rfl

theorem objects_inv (first dims : ℕ) (a : Area) (s : St) (h : Inv first s) : Inv first (objects dims a s) := by
  obtain ⟨e1, e2, e3, e4, e5, e6⟩ := makeBonds_same dims s
  constructor
  · show ((makeBonds dims s).made.flatMap _).Pairwise _
    rw [e6]
    exact h.sorted
  · show ∀ g ∈ (makeBonds dims s).made.flatMap _, _ ∧ g < (makeBonds dims s).next
    rw [e6, e1]
    exact h.range
  · show first ≤ (makeBonds dims s).next
    rw [e1]
    exact h.le
  · show (if (makeBonds dims s).corr = none ∧ a.corr then some [] else (makeBonds dims s).corr).getD [] = toCorr (makeBonds dims s).made
    rw [e3, e6, ← h.corr]
    split
    · rename_i hc
      rw [hc.1]
      rfl
    · rfl
  · intro hu
    have hu' : a.corr = true := hu
    show (if (makeBonds dims s).corr = none ∧ a.corr then some [] else (makeBonds dims s).corr).isSome
    split
    · rfl
    · rename_i hc
      by_contra hn
      exact hc ⟨by simpa using hn, hu'⟩
  · show (makeBonds dims s).n = (makeBonds dims s).made.length
    rw [e2, e6]
    exact h.num

theorem area_inv (first dims : ℕ) (a : Area) (s : St) (h : Inv first s) : Inv first (area dims a s) := by
  unfold area
  simp only []
  split
  · exact create_inv first _ _ _ (create_inv first _ _ _ (objects_inv first dims a s h))
  · exact loop_inv first dims a _ _ _ (objects_inv first dims a s h)

theorem areas_inv (first dims : ℕ) (l : List Area) (s : St) (h : Inv first s) : Inv first (areas dims l s) := by
  unfold areas
  induction l generalizing s with
  | nil => exact h
  | cons a l ih => exact ih _ (area_inv first dims a s h)

theorem init_inv (first : ℕ) : Inv first (St.init first) := ⟨List.Pairwise.nil, by simp [St.init], le_refl _, rfl, by simp [St.init], rfl⟩

/-- The active chains are the bonded polymers. -/
def Chained (s : St) : Prop := active s.chains = toBond s.made

theorem create_line_chained (k : ℕ) (s : St) (h : Chained s) : Chained (create false k s).2 := by
  obtain ⟨_, _, _, _, _, _, h7, _, h9, _⟩ := beads_spec false k s
  show active (beads false k s).2.chains = toBond ((beads false k s).2.made ++ [⟨false, s.useCorr, (beads false k s).1⟩])
  rw [h9 (Or.inl rfl), h7, toBond_append, ← h]
  simp [toBond]

theorem create_polymer_chained (dims k : ℕ) (hd : dims = 2 ∨ dims = 3) (s : St) (h : Chained s) : Chained (create true k (makeBonds dims s)).2 := by
  obtain ⟨h1, _, _, _, _, _, h7, _, _, h10⟩ := beads_spec true k (makeBonds dims s)
  obtain ⟨e1, _, _, _, _, e6⟩ := makeBonds_same dims s
  show active (beads true k (makeBonds dims s)).2.chains = toBond ((beads true k (makeBonds dims s)).2.made ++ [⟨true, _, (beads true k (makeBonds dims s)).1⟩])
  have ec : (makeBonds dims s).chains = s.chains ++ [[]] ∧ (makeBonds dims s).chain = some s.chains.length := by
    unfold makeBonds
    rw [if_pos hd]
    exact ⟨rfl, rfl⟩
  rw [h10 rfl s.chains [] ec.1 ec.2, h7, h1, e1, e6, toBond_append, active_append, List.nil_append]
  congr 1
  unfold active toBond
  simp only [List.filter_cons, List.filter_nil, Bool.true_and]
  split <;> simp

theorem makeBonds_chained (dims : ℕ) (s : St) (h : Chained s) : Chained (makeBonds dims s) := by
  unfold makeBonds
  split
  · show active (s.chains ++ [[]]) = _
    rw [active_append]
    show active s.chains ++ [] = toBond s.made
    rw [List.append_nil]
    exact h
  · exact h

theorem loop_chained (dims : ℕ) (hd : dims = 2 ∨ dims = 3) (a : Area) (k i : ℕ) (s : St) (h : Chained s) : Chained (loop dims a k i s) := by
  induction k generalizing i s with
  | zero => exact h
  | succ k ih =>
    apply ih
    have : Chained (if a.line then create false (a.beads i) s else randomPolymer dims a (a.beads i) s).2 := by
      split
      · exact create_line_chained _ _ h
      · unfold randomPolymer
        split
        · exact create_polymer_chained dims _ hd s h
        · exact h
    exact this

theorem areas_chained (dims : ℕ) (hd : dims = 2 ∨ dims = 3) (l : List Area) (s : St) (h : Chained s) : Chained (areas dims l s) := by
  unfold areas
  induction l generalizing s with
  | nil => exact h
  | cons a l ih =>
    apply ih
    unfold area
    simp only []
    have ho : Chained (objects dims a s) := makeBonds_chained dims s h
    split
    · exact create_line_chained _ _ (create_line_chained _ _ ho)
    · exact loop_chained dims hd a _ _ _ ho

/-! ## C148 -/

/-- **C148**, ids. The particles of all polymers of a file are different, and new: their ids go up from the first free id. -/
theorem C148_ids (dims next : ℕ) (l : List Area) : ((areas dims l (St.init next)).made.flatMap Made.ids).Pairwise (· < ·) ∧
    (∀ g ∈ (areas dims l (St.init next)).made.flatMap Made.ids, next ≤ g ∧ g < (areas dims l (St.init next)).next) ∧
    (areas dims l (St.init next)).n = (areas dims l (St.init next)).made.length := by
  have h := areas_inv next dims l _ (init_inv next)
  exact ⟨h.sorted, h.range, h.num⟩

/-- **C148**, chains. In two and three dimensions, after any list of areas, the chains that bind anything are the polymers (lines are not bound), each in the order of its beads.
Missing: other dimensions, see `C148_negation_dims`. -/
theorem C148_chains_partial (dims next : ℕ) (hd : dims = 2 ∨ dims = 3) (l : List Area) :
    (areas dims l (St.init next)).chains.filter (fun c => !c.isEmpty) =
      ((areas dims l (St.init next)).made.filter fun x => x.bonded && !x.ids.isEmpty).map Made.ids :=
  areas_chained dims hd l _ rfl

/-- **C148**, correlations. The particles of the correlation object are those of the polymers of all areas that ask for it, in their order; there is no such object only if none has asked. -/
theorem C148_correlation (dims next : ℕ) (l : List Area) :
    (areas dims l (St.init next)).corr.getD [] = ((areas dims l (St.init next)).made.filter Made.corr).flatMap Made.ids :=
  (areas_inv next dims l _ (init_inv next)).corr

theorem made_loop (dims : ℕ) (a : Area) (k i : ℕ) (s : St) (hv : a.line = true ∨ a.valid = true) :
    (loop dims a k i s).made.map (fun m => (m.bonded, m.ids.length)) = s.made.map (fun m => (m.bonded, m.ids.length)) ++ (List.range k).map (fun j : ℕ => (!a.line, a.beads (i + j))) := by
  induction k generalizing i s with
  | zero => simp [loop]
  | succ k ih =>
    have key : ∀ (b : Bool) (m : ℕ) (t : St), (create b m t).2.made.map (fun m => (m.bonded, m.ids.length)) = t.made.map (fun m => (m.bonded, m.ids.length)) ++ [(b, m)] := by
      intro b m t
      obtain ⟨h1, _, _, _, _, _, h7, _, _, _⟩ := beads_spec b m t
      show ((beads b m t).2.made ++ [Made.mk b t.useCorr (beads b m t).1]).map _ = _
      rw [h7, h1]
      simp [ids]
    show (loop dims a k (i + 1) (setPair _ (if a.line then create false (a.beads i) s else randomPolymer dims a (a.beads i) s).2)).made.map _ = _
    rw [ih]
    have : (setPair (if a.line then create false (a.beads i) s else randomPolymer dims a (a.beads i) s).1
        (if a.line then create false (a.beads i) s else randomPolymer dims a (a.beads i) s).2).made.map (fun m => (m.bonded, m.ids.length)) =
        s.made.map (fun m => (m.bonded, m.ids.length)) ++ [(!a.line, a.beads i)] := by
      show (if a.line then create false (a.beads i) s else randomPolymer dims a (a.beads i) s).2.made.map _ = _
      by_cases hl : a.line = true
      · rw [if_pos hl, key, hl]
        rfl
      · have hv' : a.valid = true := hv.resolve_left hl
        rw [if_neg hl]
        unfold randomPolymer
        rw [if_pos hv', key, (makeBonds_same dims s).2.2.2.2.2]
        simp [hl]
    rw [this, List.append_assoc, List.range_succ_eq_map, List.map_cons, List.map_map]
    simp only [List.singleton_append, Nat.add_zero]
    congr 2
    apply List.map_congr_left
    intro j _
    simp only [Function.comp]
    congr 2
    omega

/-- **C148**, numbers. An area makes the number of polymers that is asked for, with the numbers of beads of the arrangement (in an area with `Parallel`: two lines). -/
theorem C148_number (dims : ℕ) (a : Area) (s : St) (hp : a.pair = false) (hv : a.line = true ∨ a.valid = true) :
    (area dims a s).made.map (fun m => (m.bonded, m.ids.length)) = s.made.map (fun m => (m.bonded, m.ids.length)) ++ (List.range a.number).map (fun j : ℕ => (!a.line, a.beads j)) := by
  unfold area
  simp only [hp, Bool.false_eq_true, if_false]
  rw [made_loop dims a _ _ _ hv]
  show (makeBonds dims s).made.map _ ++ _ = _
  rw [(makeBonds_same dims s).2.2.2.2.2]
  simp

/-- C148 is false in other dimensions: there are no chains at all, so polymers are not held together. -/
theorem C148_negation_dims (dims next : ℕ) (hd : ¬(dims = 2 ∨ dims = 3)) (l : List Area) : (areas dims l (St.init next)).chains = [] := by
  have mk : ∀ s : St, s.chains = [] → (makeBonds dims s).chains = [] ∧ (makeBonds dims s).chain = none := by
    intro s hs
    unfold makeBonds
    rw [if_neg hd]
    exact ⟨hs, rfl⟩
  have cr : ∀ (b : Bool) (k : ℕ) (s : St), s.chains = [] → s.chain = none → (create b k s).2.chains = [] ∧ (create b k s).2.chain = none := by
    intro b k s h1 h2
    obtain ⟨_, _, h3, _, _, _, _, _, h9, _⟩ := beads_spec b k s
    exact ⟨(h9 (Or.inr h2)).trans h1, h3.trans h2⟩
  have lp : ∀ (a : Area) (k i : ℕ) (s : St), s.chains = [] → s.chain = none → (loop dims a k i s).chains = [] := by
    intro a k
    induction k with
    | zero => exact fun i s h _ => h
    | succ k ih =>
      intro i s h1 h2
      have : (if a.line then create false (a.beads i) s else randomPolymer dims a (a.beads i) s).2.chains = [] ∧
          (if a.line then create false (a.beads i) s else randomPolymer dims a (a.beads i) s).2.chain = none := by
        split
        · exact cr _ _ _ h1 h2
        · unfold randomPolymer
          split
          · exact cr _ _ _ (mk s h1).1 (mk s h1).2
          · exact ⟨h1, h2⟩
      exact ih _ _ this.1 this.2
  suffices ∀ s : St, s.chains = [] → (areas dims l s).chains = [] from this _ rfl
  unfold areas
  induction l with
  | nil => exact fun s h => h
  | cons a l ih =>
    intro s hs
    apply ih
    unfold area
    simp only []
    have o := mk s hs
    split
    · have c := cr false (a.beads 0) (objects dims a s) o.1 o.2
      exact (cr false (a.beads 1) _ c.1 c.2).1
    · exact lp a _ _ _ o.1 o.2

/-! ## Pairs -/

theorem onLast_append {β : Type} (f : β → β) (l : List β) (x : β) : onLast f (l ++ [x]) = l ++ [f x] := by
  induction l with
  | nil => rfl
  | cons a l ih =>
    cases l with
    | nil => rfl
    | cons b l =>
      show a :: onLast f (b :: l ++ [x]) = _
      rw [ih]
      rfl

theorem onLast_id {β : Type} (l : List β) : onLast (fun x => x) l = l := by
  induction l with
  | nil => rfl
  | cons a l ih =>
    cases l with
    | nil => rfl
    | cons b l =>
      show a :: onLast _ (b :: l) = _
      rw [ih]

theorem create_same (b : Bool) (m : ℕ) (t : St) : (create b m t).2.pairs = t.pairs ∧ (create b m t).2.n = t.n + 1 := by
  obtain ⟨_, _, _, h4, h5, _⟩ := beads_spec b m t
  exact ⟨h5, congrArg (· + 1) h4⟩

/-- One polymer of the loop. -/
def one (dims : ℕ) (a : Area) (i : ℕ) (s : St) : List ℕ × St := if a.line then create false (a.beads i) s else randomPolymer dims a (a.beads i) s

theorem one_same (dims : ℕ) (a : Area) (hv : a.line = true ∨ a.valid = true) (i : ℕ) (s : St) : (one dims a i s).2.pairs = s.pairs ∧ (one dims a i s).2.n = s.n + 1 := by
  unfold one
  by_cases hl : a.line = true
  · rw [if_pos hl]
    exact create_same _ _ _
  · rw [if_neg hl]
    unfold randomPolymer
    rw [if_pos (hv.resolve_left hl)]
    obtain ⟨_, e2, _, e4, _, _⟩ := makeBonds_same dims s
    have := create_same true (a.beads i) (makeBonds dims s)
    rw [e2, e4] at this
    exact this

/-- Polymers after the second do not change pairs. -/
theorem loop_late (dims : ℕ) (a : Area) (hv : a.line = true ∨ a.valid = true) (k i : ℕ) (s : St) (hn : 2 ≤ s.n) : (loop dims a k i s).pairs = s.pairs := by
  induction k generalizing i s with
  | zero => rfl
  | succ k ih =>
    obtain ⟨h1, h2⟩ := one_same dims a hv i s
    have e : (setPair (one dims a i s).1 (one dims a i s).2).pairs = s.pairs := by
      unfold setPair
      simp only []
      rw [h1, h2]
      simp only [show ¬(s.n + 1 = 1) by omega, show ¬(s.n + 1 = 2) by omega, if_false]
      exact onLast_id _
    exact (ih (i + 1) (setPair (one dims a i s).1 (one dims a i s).2) (show 2 ≤ (one dims a i s).2.n by omega)).trans e

theorem loop_n (dims : ℕ) (a : Area) (hv : a.line = true ∨ a.valid = true) (k i : ℕ) (s : St) : (loop dims a k i s).n = s.n + k := by
  induction k generalizing i s with
  | zero => rfl
  | succ k ih =>
    obtain ⟨_, h2⟩ := one_same dims a hv i s
    refine (ih (i + 1) (setPair (one dims a i s).1 (one dims a i s).2)).trans ?_
    show (one dims a i s).2.n + k = _
    omega

theorem area_late (dims : ℕ) (a : Area) (hv : a.pair = true ∨ a.line = true ∨ a.valid = true) (s : St) (hn : 2 ≤ s.n) :
    (area dims a s).pairs = (if a.number = 2 then s.pairs ++ [⟨none, none⟩] else s.pairs) ∧ 2 ≤ (area dims a s).n := by
  obtain ⟨_, e2, _, e4, _, _⟩ := makeBonds_same dims s
  have o : (objects dims a s).pairs = (if a.number = 2 then s.pairs ++ [⟨none, none⟩] else s.pairs) := by
    show (if a.number = 2 then (makeBonds dims s).pairs ++ _ else (makeBonds dims s).pairs) = _
    rw [e4]
  have on : (objects dims a s).n = s.n := e2
  unfold area
  simp only []
  by_cases hp : a.pair = true
  · rw [if_pos hp]
    rw [(create_same _ _ _).1, (create_same _ _ _).1, (create_same _ _ _).2, (create_same _ _ _).2, on]
    exact ⟨o, by omega⟩
  · rw [if_neg hp, loop_late dims a (hv.resolve_left hp) _ _ _ (by omega), loop_n dims a (hv.resolve_left hp), on]
    exact ⟨o, by omega⟩

/-- **C148**, pairs. If the first area of a file asks for two polymers, the object that measures the forces between two polymers has these two, the first with its chain and the second with its, and
keeps them whatever areas follow.
Missing: other orders of areas, see `C148_negation_later` and `C148_negation_one_before`; areas that are not valid, see `C148_negation_invalid`. -/
theorem C148_pair_partial (dims next : ℕ) (hd : dims = 2 ∨ dims = 3) (a : Area) (ha : a.number = 2) (hp : a.pair = false) (hl : a.line = false) (hv : a.valid = true) :
    ∃ p q, (area dims a (St.init next)).made.map Made.ids = [p, q] ∧ p.length = a.beads 0 ∧ q.length = a.beads 1 ∧
      (area dims a (St.init next)).chains = [[], p, q] ∧
      ∀ rest : List Area, (∀ b ∈ rest, b.pair = true ∨ b.line = true ∨ b.valid = true) →
        (areas dims (a :: rest) (St.init next)).pairs.head? = some ⟨some (p, some 1), some (q, some 2)⟩ := by
  have mb : ∀ s : St, makeBonds dims s = ⟨s.next, s.chains ++ [[]], some s.chains.length, s.n, s.corr, s.pairs, s.useCorr, s.made⟩ := fun s => if_pos hd
  let s0 := objects dims a (St.init next)
  have hs0 : s0.chains = [[]] ∧ s0.n = 0 ∧ s0.pairs = [⟨none, none⟩] ∧ s0.made = [] := by
    refine ⟨?_, ?_, ?_, ?_⟩
    · show (makeBonds dims (St.init next)).chains = _
      rw [mb]
      rfl
    · show (makeBonds dims (St.init next)).n = _
      rw [mb]
      rfl
    · show (if a.number = 2 then (makeBonds dims (St.init next)).pairs ++ _ else _) = _
      rw [if_pos ha, mb]
      rfl
    · show (makeBonds dims (St.init next)).made = _
      rw [mb]
      rfl
  have hone : ∀ (i : ℕ) (s : St), one dims a i s = create true (a.beads i) (makeBonds dims s) := by
    intro i s
    unfold one randomPolymer
    rw [hl, hv]
    rfl
  have cr : ∀ (i : ℕ) (s : St), (one dims a i s).1 = ids s.next (a.beads i) ∧ (one dims a i s).2.chains = s.chains ++ [ids s.next (a.beads i)] ∧
      (one dims a i s).2.chain = some s.chains.length ∧ (one dims a i s).2.made.map Made.ids = s.made.map Made.ids ++ [ids s.next (a.beads i)] := by
    intro i s
    rw [hone, mb]
    obtain ⟨h1, _, h3, _, _, _, h7, _, _, h10⟩ := beads_spec true (a.beads i) ⟨s.next, s.chains ++ [[]], some s.chains.length, s.n, s.corr, s.pairs, s.useCorr, s.made⟩
    refine ⟨h1, (h10 rfl s.chains [] rfl rfl).trans ?_, h3, ?_⟩
    · rw [List.nil_append]
    · show ((beads true (a.beads i) _).2.made ++ [Made.mk true s.useCorr (beads true (a.beads i) _).1]).map Made.ids = _
      rw [h7, h1, List.map_append]
      rfl
  have e : area dims a (St.init next) = (let r0 := one dims a 0 s0; let s1 := setPair r0.1 r0.2; let r1 := one dims a 1 s1; setPair r1.1 r1.2) := by
    unfold area
    simp only [hp, Bool.false_eq_true, if_false]
    rw [ha]
    rfl
  simp only [] at e
  obtain ⟨a1, a2, a3, a4⟩ := cr 0 s0
  obtain ⟨p1, n1⟩ := one_same dims a (Or.inr hv) 0 s0
  set r0 := one dims a 0 s0 with hr0
  let s1 := setPair r0.1 r0.2
  have q1 : s1.pairs = [⟨some (ids s0.next (a.beads 0), some 1), none⟩] := by
    show onLast _ r0.2.pairs = _
    rw [p1, hs0.2.2.1, n1, hs0.2.1, a3, a1, hs0.1]
    rfl
  have c1 : s1.chains = [[], ids s0.next (a.beads 0)] := by
    show r0.2.chains = _
    rw [a2, hs0.1]
    rfl
  obtain ⟨b1, b2, b3, b4⟩ := cr 1 s1
  obtain ⟨p2, n2⟩ := one_same dims a (Or.inr hv) 1 s1
  have sn : s1.n = 1 := by
    show r0.2.n = 1
    rw [n1, hs0.2.1]
  have fin : (area dims a (St.init next)).pairs = [⟨some (ids s0.next (a.beads 0), some 1), some (ids s1.next (a.beads 1), some 2)⟩] := by
    rw [e]
    show onLast _ (one dims a 1 s1).2.pairs = _
    rw [p2, q1, n2, sn, b3, b1, c1]
    rfl
  have fn : (area dims a (St.init next)).n = 2 := by
    rw [e]
    show (one dims a 1 s1).2.n = 2
    rw [n2, sn]
  refine ⟨ids s0.next (a.beads 0), ids s1.next (a.beads 1), ?_, by simp [ids], by simp [ids], ?_, ?_⟩
  · rw [e]
    show (one dims a 1 s1).2.made.map Made.ids = _
    rw [b4]
    show r0.2.made.map Made.ids ++ _ = _
    rw [a4, hs0.2.2.2]
    rfl
  · rw [e]
    show (one dims a 1 s1).2.chains = _
    rw [b2, c1]
    rfl
  · intro rest hrest
    show (areas dims rest (area dims a (St.init next))).pairs.head? = _
    have key : ∀ (rest : List Area) (s : St) (x : Pair), (∀ b ∈ rest, b.pair = true ∨ b.line = true ∨ b.valid = true) → 2 ≤ s.n → s.pairs.head? = some x →
        (areas dims rest s).pairs.head? = some x := by
      intro rest
      induction rest with
      | nil => exact fun s x _ _ h => h
      | cons b rest ih =>
        intro s x hb hn hx
        obtain ⟨l1, l2⟩ := area_late dims b (hb b List.mem_cons_self) s hn
        apply ih (area dims b s) x (fun c hc => hb c (List.mem_cons_of_mem _ hc)) l2
        rw [l1]
        split
        · rw [List.head?_append, hx]
          rfl
        · exact hx
    exact key rest _ _ hrest (by omega) (by rw [fin]; rfl)

/-- C148 is false of an area of two polymers that follows areas with at least two polymers: its force object is given no polymers, so it never records anything. -/
theorem C148_negation_later (dims : ℕ) (a : Area) (ha : a.number = 2) (hv : a.pair = true ∨ a.line = true ∨ a.valid = true) (s : St) (hn : 2 ≤ s.n) :
    (area dims a s).pairs = s.pairs ++ [⟨none, none⟩] := by
  rw [(area_late dims a hv s hn).1, if_pos ha]

/-- The areas of the examples: `k` valid polymers of three beads. -/
def some' (k : ℕ) : Area := ⟨k, false, false, true, true, fun _ => 3⟩

/-- An area with an unknown type. -/
def bad : Area := ⟨1, false, false, false, false, fun _ => 3⟩

/-- C148 is false of an area of two polymers that follows one polymer: its first polymer is taken as the second, and there is no first. -/
theorem C148_negation_one_before : (areas 2 [some' 1, some' 2] (St.init 0)).pairs = [⟨none, some ([6, 8, 10], some 3)⟩] := by decide +kernel

/-- C148 is false if an area that is not valid follows the pair: the second polymer of the pair is replaced by an empty one. -/
theorem C148_negation_invalid : (areas 2 [some' 2, bad] (St.init 0)).pairs = [⟨some ([0, 2, 4], some 1), some ([], some 3)⟩] := by decide +kernel

/-! ## Examples -/

/-- Hypotheses of the theorems: three areas, the first with two polymers. -/
example : ((some' 2).number = 2 ∧ (some' 2).pair = false ∧ (some' 2).line = false ∧ (some' 2).valid = true) ∧
    ((areas 3 [some' 2, ⟨5, true, false, false, false, fun i => i + 1⟩, some' 1] (St.init 7)).made.map Made.ids = [[7, 9, 11], [13, 15, 17], [19], [21, 23], [25, 27, 29]]) ∧
    (areas 3 [some' 2, ⟨5, true, false, false, false, fun i => i + 1⟩, some' 1] (St.init 7)).chains = [[], [7, 9, 11], [13, 15, 17], [], [], [25, 27, 29]] ∧
    (areas 3 [some' 2, ⟨5, true, false, false, false, fun i => i + 1⟩, some' 1] (St.init 7)).corr = some [7, 9, 11, 13, 15, 17, 25, 27, 29] := by decide +kernel

/-- Hypotheses of `C148_negation_later`. -/
example : 2 ≤ (area 2 (some' 3) (St.init 0)).n := by decide +kernel

/-- Hypotheses of `C148_negation_dims`: a polymer of four dimensions. -/
example : ¬((4 : ℕ) = 2 ∨ 4 = 3) ∧ (areas 4 [some' 1] (St.init 0)).made.map Made.ids = [[0, 2, 4]] := by decide +kernel

end Verif.PolymerArea
