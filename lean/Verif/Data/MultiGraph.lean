import Mathlib.Algebra.Order.Field.Basic
import Mathlib.Algebra.Order.Field.Rat
import Mathlib.Algebra.BigOperators.Group.List.Basic
import Mathlib.Tactic.Linarith
import Mathlib.Tactic.NormNum
import Mathlib.Logic.Function.Basic

/-!
# Tables of recorded data (C57)

Models `dataobjects/dataobjecttypes/data-base/multigraphdata.cpp` on one processor. Numbers are elements of a field. Undefined
accesses are `ub`; an exception leaves the object as it was at that point.
-/

namespace Verif.MultiGraph

variable {α : Type} [Field α]

/-- `MultiGraphData`, `multigraphdata.hpp:85-98`, without the names of the axes. -/
structure MG (α : Type) where
  nd : ℕ
  data : List (List α)
  write : List Bool

/-- Results of calls. -/
inductive Res (β : Type) where
  | ok (b : β)
  | throws (b : β)
  | ub

/-- `MultiGraphData::resetData`, `multigraphdata.cpp:85-88`. -/
def MG.reset (m : MG α) (size : ℤ) : MG α :=
  if 0 < size then ⟨m.nd, List.replicate (m.nd + 1) (List.replicate size.toNat 0), m.write⟩
  else ⟨m.nd, List.replicate (m.nd + 1) [], m.write⟩

/-- The constructors, `multigraphdata.cpp:5-25`; `none`: `EmptyData` is thrown. -/
def MG.new (nd : ℤ) : Option (MG α) :=
  if nd ≤ 0 then none else some (MG.reset ⟨nd.toNat, [], List.replicate nd.toNat true⟩ 0)

/-- Assigning to the last element of a vector. -/
def setLast (l : List α) (v : α) : List α := l.set (l.length - 1) v

/-- `MultiGraphData::addEntry()`, `multigraphdata.cpp:90-94`. -/
def MG.addEntry (m : MG α) : MG α := ⟨m.nd, m.data.map fun c => c ++ [0], m.write⟩

/-- `MultiGraphData::addEntry(v)`, `multigraphdata.cpp:96-102`. -/
def MG.addX (m : MG α) (v : α) : MG α := ⟨m.nd, m.addEntry.data.modify 0 fun c => setLast c v, m.write⟩

/-- `getX() = v`, `multigraphdata.cpp:104-109`. -/
def MG.setX (m : MG α) (v : α) : Res (MG α) :=
  match m.data with
  | [] => .ub
  | [] :: _ => .throws m
  | (_ :: _) :: _ => .ok ⟨m.nd, m.data.modify 0 fun c => setLast c v, m.write⟩

/-- `getY(i) = v`, `multigraphdata.cpp:111-118`. -/
def MG.setY (m : MG α) (i : ℤ) (v : α) : Res (MG α) :=
  match m.data with
  | [] => .ub
  | [] :: _ => .throws m
  | (_ :: _) :: _ =>
    if i < 0 ∨ (m.nd : ℤ) ≤ i then .throws m
    else .ok ⟨m.nd, m.data.modify (i.toNat + 1) fun c => setLast c v, m.write⟩

/-- The loop `for d: getY(d) = yvals[d]`, from `d` on. -/
def MG.setYs (m : MG α) (d : ℕ) : List α → Res (MG α)
  | [] => .ok m
  | y :: ys =>
    match m.setY d y with
    | .ok m' => m'.setYs (d + 1) ys
    | .throws m' => .throws m'
    | .ub => .ub

/-- `MultiGraphData::gatherData`, `multigraphdata.cpp:142-152`, on one processor. -/
def MG.gather (m : MG α) (x : α) (ys : List α) : Res (MG α) := (m.addX x).setYs 0 ys

/-- `MultiGraphData::gatherAverageData`, `multigraphdata.cpp:128-140`, on one processor. -/
def MG.gatherAverage (m : MG α) (x : α) (ys : List α) (count : ℤ) : Res (MG α) :=
  (m.addX x).setYs 0 (ys.map fun y => y / (count : α))

/-- `MultiGraphData::atX`, `atY`, `multigraphdata.cpp:120-126`: reading column `c` (0 is x). `none`: outside. -/
def MG.at (m : MG α) (c i : ℤ) : Option α :=
  if 0 ≤ c ∧ 0 ≤ i then m.data[c.toNat]?.bind fun l => l[i.toNat]? else none

/-- `MultiGraphData::ave`, `multigraphdata.cpp:62-69`. -/
def MG.ave (m : MG α) (i : ℤ) : Option α :=
  if i < 0 ∨ (m.nd : ℤ) ≤ i then some 0
  else
    match m.data[0]? with
    | none => some 0
    | some c0 => if c0.length = 0 then some 0 else m.data[i.toNat + 1]?.map fun c => c.sum / (c0.length : α)

/-- `MultiGraphData::getEntry`, `multigraphdata.cpp:71-79`. -/
def MG.getEntry (m : MG α) (i : ℤ) : Option (List (α × α)) :=
  if i < 0 ∨ (m.nd : ℤ) ≤ i then some []
  else
    match m.data[0]? with
    | none => some []
    | some c0 => (List.range c0.length).mapM fun j => (c0[j]?).bind fun x => (m.data[i.toNat + 1]?.bind fun c => c[j]?).map fun y => (x, y)

/-- `MultiGraphData::size`, `multigraphdata.cpp:81-83`. -/
def MG.size (m : MG α) : ℕ := m.data.length

/-- `MultiGraphData::write_to_file`, `multigraphdata.cpp:27-60`: the lines of the file, each with its fields; `none`: an access
outside. -/
def MG.lines (m : MG α) : Option (List (List α)) :=
  match m.data with
  | [] => some []
  | c0 :: _ => (List.range c0.length).mapM fun i =>
      ((List.range (m.nd + 1)).filter fun j => j = 0 || (m.write[j - 1]?).getD false).mapM fun j => m.data[j]?.bind fun c => c[i]?

/-! ## Specification -/

/-- An abstract table: for each recorded point its x value, and the y values. -/
abbrev Rows (α : Type) := List (α × (ℕ → α))

/-- The calls. -/
inductive Op (α : Type) where
  | reset (size : ℤ)
  | add
  | addX (v : α)
  | setX (v : α)
  | setY (i : ℤ) (v : α)
  | gather (x : α) (ys : List α)
  | gatherAverage (x : α) (ys : List α) (count : ℤ)
  | setWrite (w : List Bool)

/-- One call on the object. Derived classes set the write flags directly, `multigraphdata.hpp:89`. -/
def step (m : MG α) : Op α → Res (MG α)
  | .reset n => .ok (m.reset n)
  | .add => .ok m.addEntry
  | .addX v => .ok (m.addX v)
  | .setX v => m.setX v
  | .setY i v => m.setY i v
  | .gather x ys => m.gather x ys
  | .gatherAverage x ys c => m.gatherAverage x ys c
  | .setWrite w => .ok ⟨m.nd, m.data, w⟩

/-- Changing the last row. -/
def onLast (f : α × (ℕ → α) → α × (ℕ → α)) (r : Rows α) : Rows α :=
  match r.getLast? with
  | none => r
  | some l => r.dropLast ++ [f l]

/-- Specification: a row with only its x value. -/
def row (x : α) : α × (ℕ → α) := (x, fun _ => 0)

/-- Specification: a new value for one column. -/
def setAt (y : ℕ → α) (i : ℕ) (v : α) : ℕ → α := fun k => if k = i then v else y k

/-- Specification: values that are given for the columns `d, d+1, …` of the last row, as many as there are columns. -/
def fill (nd d : ℕ) (ys : List α) (r : Rows α) : Rows α :=
  onLast (fun l => (l.1, fun k => if d ≤ k ∧ k < nd then (ys[k - d]?).getD (l.2 k) else l.2 k)) r

/-- Specification: what a call does to the table. -/
def spec (nd : ℕ) (r : Rows α) : Op α → Rows α
  | .reset n => List.replicate n.toNat (row 0)
  | .add => r ++ [row 0]
  | .addX v => r ++ [row v]
  | .setX v => onLast (fun l => (v, l.2)) r
  | .setY i v => if 0 ≤ i ∧ i < nd then onLast (fun l => (l.1, setAt l.2 i.toNat v)) r else r
  | .gather x ys => fill nd 0 ys (r ++ [row x])
  | .gatherAverage x ys c => fill nd 0 (ys.map fun y => y / (c : α)) (r ++ [row x])
  | .setWrite _ => r

/-- The object holds the table. -/
def Rep (m : MG α) (r : Rows α) : Prop :=
  m.data = r.map (·.1) :: (List.range m.nd).map fun j => r.map fun p => p.2 j

/-- Objects that can occur, with the table they hold: any history of calls, in which exceptions may be caught. -/
inductive Reachable (nd : ℕ) : MG α → Rows α → Prop where
  | new (m : MG α) : MG.new (nd : ℤ) = some m → Reachable nd m []
  | step (m : MG α) (r : Rows α) (o : Op α) (m' : MG α) : Reachable nd m r → step m o = .ok m' → Reachable nd m' (spec nd r o)
  | caught (m : MG α) (r : Rows α) (o : Op α) (m' : MG α) : Reachable nd m r → step m o = .throws m' → Reachable nd m' (spec nd r o)

/-! ## Lemmas -/

theorem setLast_append (l : List α) (a v : α) : setLast (l ++ [a]) v = l ++ [v] := by
  unfold setLast
  simp

theorem onLast_append (f) (r : Rows α) (l) : onLast f (r ++ [l]) = r ++ [f l] := by
  simp [onLast]

theorem rep_add (m : MG α) (r : Rows α) (h : Rep m r) : Rep m.addEntry (r ++ [row 0]) := by
  unfold Rep MG.addEntry at *
  simp only [h, List.map_cons, List.map_append, List.map_nil, List.map_map]
  rfl

theorem rep_setX (m : MG α) (r : Rows α) (l) (v : α) (h : Rep m (r ++ [l])) :
    Rep ⟨m.nd, m.data.modify 0 fun c => setLast c v, m.write⟩ (r ++ [(v, l.2)]) := by
  unfold Rep at *
  simp only [h, List.modify_zero_cons, List.map_append, List.map_cons, List.map_nil, setLast_append]

theorem rep_addX (m : MG α) (r : Rows α) (v : α) (h : Rep m r) : Rep (m.addX v) (r ++ [row v]) :=
  rep_setX m.addEntry r (row 0) v (rep_add m r h)

theorem rep_setY (m : MG α) (r : Rows α) (l) (v : α) (i : ℕ) (h : Rep m (r ++ [l])) :
    Rep ⟨m.nd, m.data.modify (i + 1) fun c => setLast c v, m.write⟩ (r ++ [(l.1, setAt l.2 i v)]) := by
  unfold Rep at *
  simp only [h, List.modify_succ_cons, List.map_append, List.map_cons, List.map_nil, List.cons.injEq, true_and]
  apply List.ext_getElem?
  intro j
  rw [List.getElem?_modify]
  simp only [List.getElem?_map]
  by_cases hj : j < m.nd
  · rw [List.getElem?_range hj]
    simp only [Option.map_some]
    by_cases hi : i = j
    · subst hi
      simp [setLast_append, setAt]
    · simp [hi, setAt, Ne.symm hi]
  · rw [List.getElem?_eq_none (by simpa using hj)]
    simp

theorem rep_setY_res (m : MG α) (r : Rows α) (l) (i : ℤ) (v : α) (h : Rep m (r ++ [l])) :
    m.setY i v = if i < 0 ∨ (m.nd : ℤ) ≤ i then .throws m
      else .ok ⟨m.nd, m.data.modify (i.toNat + 1) fun c => setLast c v, m.write⟩ := by
  unfold MG.setY
  have h' := h
  unfold Rep at h'
  cases hc : (r ++ [l]).map (·.1) with
  | nil => simp at hc
  | cons a b => rw [h', hc]

theorem rep_setX_res (m : MG α) (r : Rows α) (l) (v : α) (h : Rep m (r ++ [l])) :
    m.setX v = .ok ⟨m.nd, m.data.modify 0 fun c => setLast c v, m.write⟩ := by
  unfold MG.setX
  have h' := h
  unfold Rep at h'
  cases hc : (r ++ [l]).map (·.1) with
  | nil => simp at hc
  | cons a b => rw [h', hc]

theorem rep_setYs (ys : List α) (m : MG α) (r : Rows α) (l) (d : ℕ) (h : Rep m (r ++ [l])) :
    ∃ m', m'.nd = m.nd ∧ m'.write = m.write ∧
      Rep m' (r ++ [(l.1, fun k => if d ≤ k ∧ k < m.nd then (ys[k - d]?).getD (l.2 k) else l.2 k)]) ∧
      m.setYs d ys = if d + ys.length ≤ m.nd ∨ ys = [] then .ok m' else .throws m' := by
  induction ys generalizing m l d with
  | nil =>
    refine ⟨m, rfl, rfl, ?_, by simp [MG.setYs]⟩
    simpa using h
  | cons y ys ih =>
    rw [MG.setYs, rep_setY_res m r l d y h]
    by_cases hd : d < m.nd
    · rw [if_neg (by omega)]
      simp only [Int.toNat_natCast]
      have h1 := rep_setY m r l y d h
      obtain ⟨m', i1, i2, i3, i4⟩ := ih _ _ (d + 1) h1
      refine ⟨m', i1, i2, ?_, ?_⟩
      · have e : (fun k => if d ≤ k ∧ k < m.nd then (((y :: ys)[k - d]?).getD (l.2 k)) else l.2 k) =
            fun k => if d + 1 ≤ k ∧ k < m.nd then (ys[k - (d + 1)]?).getD (setAt l.2 d y k) else setAt l.2 d y k := by
          funext k
          by_cases hk : k = d
          · subst hk
            simp [hd, setAt]
          · by_cases hk2 : d ≤ k ∧ k < m.nd
            · rw [if_pos hk2, if_pos (by omega), setAt, if_neg hk]
              have : k - d = (k - (d + 1)) + 1 := by omega
              rw [this, List.getElem?_cons_succ]
            · rw [if_neg hk2, if_neg (by omega), setAt, if_neg hk]
        rw [e]
        exact i3
      · rw [i4]
        simp only [List.length_cons]
        by_cases hy : ys = []
        · subst hy
          simp
          omega
        · simp only [hy, or_false, reduceCtorEq]
          congr 1
          apply propext
          omega
    · rw [if_pos (by omega)]
      refine ⟨m, rfl, rfl, ?_, ?_⟩
      · convert h using 3
        refine Prod.ext rfl ?_
        funext k
        simp only
        rw [if_neg (by omega)]
      · rw [if_neg (by simp only [List.length_cons]; intro h; rcases h with h | h; · omega
                       · cases h)]

theorem append_last (r : Rows α) (h : r ≠ []) : ∃ r' l, r = r' ++ [l] :=
  ⟨r.dropLast, r.getLast h, (List.dropLast_append_getLast h).symm⟩

theorem rep_step (m : MG α) (r : Rows α) (h : Rep m r) (o : Op α) :
    ∃ m', (step m o = .ok m' ∨ step m o = .throws m') ∧ m'.nd = m.nd ∧ Rep m' (spec m.nd r o) := by
  cases o with
  | reset n =>
    refine ⟨m.reset n, Or.inl rfl, by unfold MG.reset; split <;> rfl, ?_⟩
    unfold Rep MG.reset spec
    split
    · simp [List.replicate_succ, List.map_replicate, row]
    · have : n.toNat = 0 := by omega
      simp [List.replicate_succ, this]
  | add => exact ⟨_, Or.inl rfl, rfl, rep_add m r h⟩
  | addX v => exact ⟨_, Or.inl rfl, rfl, rep_addX m r v h⟩
  | setX v =>
    by_cases hr : r = []
    · subst hr
      refine ⟨m, Or.inr ?_, rfl, h⟩
      simp only [step, MG.setX]
      unfold Rep at h
      rw [h]
      rfl
    · obtain ⟨r, l, rfl⟩ := append_last r hr
      refine ⟨_, Or.inl (rep_setX_res m r l v h), rfl, ?_⟩
      rw [spec, onLast_append]
      exact rep_setX m r l v h
  | setY i v =>
    by_cases hr : r = []
    · subst hr
      refine ⟨m, Or.inr ?_, rfl, ?_⟩
      · simp only [step, MG.setY]
        have h' := h
        unfold Rep at h'
        rw [h']
        rfl
      · rw [spec]
        simpa [onLast] using h
    · obtain ⟨r, l, rfl⟩ := append_last r hr
      have := rep_setY_res m r l i v h
      by_cases hi : i < 0 ∨ (m.nd : ℤ) ≤ i
      · rw [if_pos hi] at this
        exact ⟨m, Or.inr this, rfl, by rw [spec, if_neg (by omega)]; exact h⟩
      · rw [if_neg hi] at this
        refine ⟨_, Or.inl this, rfl, ?_⟩
        rw [spec, if_pos (by omega), onLast_append]
        exact rep_setY m r l v i.toNat h
  | gather x ys =>
    obtain ⟨m', h1, h2, h3, h4⟩ := rep_setYs ys (m.addX x) r (row x) 0 (rep_addX m r x h)
    refine ⟨m', ?_, h1, ?_⟩
    · change (m.addX x).setYs 0 ys = _ ∨ (m.addX x).setYs 0 ys = _
      rw [h4]
      split
      · exact Or.inl rfl
      · exact Or.inr rfl
    · rw [spec, fill, onLast_append]
      exact h3
  | gatherAverage x ys c =>
    obtain ⟨m', h1, h2, h3, h4⟩ := rep_setYs (ys.map fun y => y / (c : α)) (m.addX x) r (row x) 0 (rep_addX m r x h)
    refine ⟨m', ?_, h1, ?_⟩
    · change (m.addX x).setYs 0 _ = _ ∨ (m.addX x).setYs 0 _ = _
      rw [h4]
      split
      · exact Or.inl rfl
      · exact Or.inr rfl
    · rw [spec, fill, onLast_append]
      exact h3
  | setWrite w => exact ⟨_, Or.inl rfl, rfl, h⟩

theorem Reachable.rep {nd : ℕ} {m : MG α} {r : Rows α} (h : Reachable nd m r) : m.nd = nd ∧ Rep m r := by
  induction h with
  | new m hm =>
    unfold MG.new at hm
    split at hm
    · cases hm
    · cases hm
      simp [MG.reset, Rep, List.replicate_succ]
  | step m r o m' _ hs ih =>
    obtain ⟨m'', h1, h2, h3⟩ := rep_step m r ih.2 o
    rw [hs] at h1
    rcases h1 with h1 | h1
    · cases h1; rw [ih.1] at h2 h3; exact ⟨h2, h3⟩
    · cases h1
  | caught m r o m' _ hs ih =>
    obtain ⟨m'', h1, h2, h3⟩ := rep_step m r ih.2 o
    rw [hs] at h1
    rcases h1 with h1 | h1
    · cases h1
    · cases h1; rw [ih.1] at h2 h3; exact ⟨h2, h3⟩

/-! ## C57 -/

/-- C57: after every history of calls, also with exceptions in between, all columns have the same length, there are as many as data sets (and
one for x), and the object holds exactly the table of the values that were given: the x column and column `j` of the table. -/
theorem C57_columns (nd : ℕ) (m : MG α) (r : Rows α) (h : Reachable nd m r) :
    m.data.length = nd + 1 ∧ (∀ c ∈ m.data, c.length = r.length) ∧ m.data[0]? = some (r.map (·.1)) ∧
    ∀ j < nd, m.data[j + 1]? = some (r.map fun p => p.2 j) := by
  obtain ⟨h1, h2⟩ := h.rep
  unfold Rep at h2
  rw [h2, h1]
  refine ⟨by simp, ?_, rfl, ?_⟩
  · intro c hc
    rcases List.mem_cons.mp hc with rfl | hc
    · simp
    · obtain ⟨j, _, rfl⟩ := List.mem_map.mp hc
      simp
  · intro j hj
    rw [List.getElem?_cons_succ, List.getElem?_map, List.getElem?_range hj]
    rfl

/-- C57: no call of a history is undefined. -/
theorem C57_defined (nd : ℕ) (m : MG α) (r : Rows α) (h : Reachable nd m r) (o : Op α) :
    ∃ m', step m o = .ok m' ∨ step m o = .throws m' :=
  let ⟨m', h1, _⟩ := rep_step m r h.rep.2 o
  ⟨m', h1⟩

/-- C57: `getY(i)` throws exactly if there is no data or the index is out of range. -/
theorem C57_throws (nd : ℕ) (m : MG α) (r : Rows α) (h : Reachable nd m r) (i : ℤ) (v : α) :
    m.setY i v = .throws m ↔ r = [] ∨ i < 0 ∨ nd ≤ i := by
  obtain ⟨h1, h2⟩ := h.rep
  by_cases hr : r = []
  · subst hr
    simp only [true_or, iff_true]
    have h' := h2
    unfold Rep at h'
    unfold MG.setY
    rw [h']
    rfl
  · obtain ⟨r, l, rfl⟩ := append_last r hr
    rw [rep_setY_res m r l i v h2, h1]
    by_cases hi : i < 0 ∨ (nd : ℤ) ≤ i
    · simp [hi]
    · simp only [hi, if_false, reduceCtorEq, List.append_eq_nil_iff, List.cons_ne_self, and_false, or_false]

/-- C57: `gatherData` with one value for each data set appends exactly these values. -/
theorem C57_gather (nd : ℕ) (m : MG α) (r : Rows α) (h : Reachable nd m r) (x : α) (ys : List α) (hl : ys.length = nd) :
    ∃ m', m.gather x ys = .ok m' ∧ m'.data[0]? = some (r.map (·.1) ++ [x]) ∧
      ∀ j (hj : j < nd), m'.data[j + 1]? = some ((r.map fun p => p.2 j) ++ [ys[j]]) := by
  obtain ⟨h1, h2⟩ := h.rep
  obtain ⟨m', g1, g2, g3, g4⟩ := rep_setYs ys (m.addX x) r (row x) 0 (rep_addX m r x h2)
  have e : (m.addX x).nd = nd := h1
  rw [e] at g3 g4
  rw [if_pos (by omega)] at g4
  unfold Rep at g3
  rw [g1, e] at g3
  refine ⟨m', g4, by rw [g3]; simp [row], ?_⟩
  intro j hj
  rw [g3, List.getElem?_cons_succ, List.getElem?_map, List.getElem?_range hj]
  simp [hj, hl]

/-- C57: `getEntry(i)` gives the points of data set `i`, and nothing for an index that is out of range. -/
theorem C57_entry (nd : ℕ) (m : MG α) (r : Rows α) (h : Reachable nd m r) (i : ℤ) :
    m.getEntry i = some (if 0 ≤ i ∧ i < nd then r.map (fun p => (p.1, p.2 i.toNat)) else []) := by
  obtain ⟨h1, h2⟩ := h.rep
  obtain ⟨_, _, c0, cj⟩ := C57_columns nd m r h
  unfold MG.getEntry
  rw [h1]
  by_cases hi : i < 0 ∨ (nd : ℤ) ≤ i
  · rw [if_pos hi, if_neg (by omega)]
  · rw [if_neg hi, if_pos (by omega), c0, cj i.toNat (by omega)]
    simp only [List.length_map, Option.bind_some, List.getElem?_map]
    have : ∀ (r : Rows α) (n : ℕ) (hn : n ≤ r.length), (List.range n).mapM (m := Option) (fun j =>
        (r[j]?.map (·.1)).bind fun x => (r[j]?.map fun p => p.2 i.toNat).map fun y => (x, y)) =
        some ((r.take n).map fun p => (p.1, p.2 i.toNat)) := by
      intro r n hn
      induction n with
      | zero => rfl
      | succ n ih =>
        rw [List.range_succ, List.mapM_append, ih (by omega), List.take_succ_eq_append_getElem (by omega)]
        simp [List.getElem?_eq_getElem (show n < r.length by omega), -List.map_take, -List.take_append_getElem]
    rw [this r r.length (le_refl _), List.take_length]

/-- C57: `ave(i)` is the mean of the values of data set `i`, zero if there are none. -/
theorem C57_average (nd : ℕ) (m : MG α) (r : Rows α) (h : Reachable nd m r) (i : ℕ) (hi : i < nd) :
    m.ave i = some (if r = [] then 0 else (r.map fun p => p.2 i).sum / (r.length : α)) := by
  obtain ⟨h1, h2⟩ := h.rep
  obtain ⟨_, _, c0, cj⟩ := C57_columns nd m r h
  unfold MG.ave
  rw [h1, if_neg (by omega), c0]
  simp only [List.length_map, Int.toNat_natCast, cj i hi]
  by_cases hr : r = []
  · simp [hr]
  · rw [if_neg (by simpa using hr), if_neg hr]
    rfl

/-- C57: the file has a line for each recorded point: its x value, and the values of the data sets that are marked for writing, in their order. All
lines have the same number of fields. -/
theorem C57_file (nd : ℕ) (m : MG α) (r : Rows α) (h : Reachable nd m r) :
    m.lines = some (r.map fun p => p.1 :: ((List.range nd).filter fun j => (m.write[j]?).getD false).map p.2) := by
  obtain ⟨h1, h2⟩ := h.rep
  obtain ⟨_, _, c0, cj⟩ := C57_columns nd m r h
  have hl : m.lines = (List.range r.length).mapM fun i =>
      ((List.range (nd + 1)).filter fun j => j = 0 || (m.write[j - 1]?).getD false).mapM fun j => m.data[j]?.bind fun c => c[i]? := by
    unfold MG.lines
    unfold Rep at h2
    rw [h1]
    cases hd : m.data with
    | nil => rw [hd] at h2; cases h2
    | cons a b => rw [hd] at h2; cases h2; simp
  have hf : ((List.range (nd + 1)).filter fun j => j = 0 || (m.write[j - 1]?).getD false) =
      0 :: ((List.range nd).filter fun j => (m.write[j]?).getD false).map (· + 1) := by
    rw [List.range_succ_eq_map, List.filter_cons]
    simp only [decide_true, Bool.true_or, if_true, List.filter_map]
    rfl
  have hrow : ∀ i (hi : i < r.length),
      (0 :: ((List.range nd).filter fun j => (m.write[j]?).getD false).map (· + 1)).mapM (fun j => m.data[j]?.bind fun c => c[i]?) =
      some (r[i].1 :: ((List.range nd).filter fun j => (m.write[j]?).getD false).map r[i].2) := by
    intro i hi
    have : ∀ l : List ℕ, (∀ j ∈ l, j < nd) → (l.map (· + 1)).mapM (fun j => m.data[j]?.bind fun c => c[i]?) = some (l.map r[i].2) := by
      intro l hl
      induction l with
      | nil => rfl
      | cons j l ih =>
        rw [List.map_cons, List.mapM_cons, cj j (hl j (by simp)), ih (fun k hk => hl k (by simp [hk]))]
        simp [List.getElem?_eq_getElem hi]
    rw [List.mapM_cons, c0, this _ (fun j hj => by simpa using (List.mem_filter.mp hj).1)]
    simp [List.getElem?_eq_getElem hi]
  rw [hl, hf]
  generalize hg : (fun p : α × (ℕ → α) => p.1 :: ((List.range nd).filter fun j => (m.write[j]?).getD false).map p.2) = g at *
  have : ∀ n, n ≤ r.length → (List.range n).mapM (fun i =>
      (0 :: ((List.range nd).filter fun j => (m.write[j]?).getD false).map (· + 1)).mapM (fun j => m.data[j]?.bind fun c => c[i]?)) =
      some ((r.take n).map g) := by
    intro n hn
    induction n with
    | zero => rfl
    | succ n ih =>
      rw [List.range_succ, List.mapM_append, ih (by omega), List.take_succ_eq_append_getElem (by omega), List.mapM_cons, hrow n (by omega)]
      subst hg
      simp [-List.map_take, -List.take_append_getElem]
  rw [this r.length (le_refl _), List.take_length]

/-- C57 (partial): `atX` and `atY` give the value for indices in range. Missing: for other indices they do not throw, see `C57_negation_at`. -/
theorem C57_at_partial (nd : ℕ) (m : MG α) (r : Rows α) (h : Reachable nd m r) (i j : ℕ) (hi : i < r.length) (hj : j < nd) :
    m.at 0 i = some r[i].1 ∧ m.at (1 + j) i = some (r[i].2 j) := by
  obtain ⟨_, _, c0, cj⟩ := C57_columns nd m r h
  unfold MG.at
  rw [if_pos (by omega), if_pos (by omega), show ((1 : ℤ) + j).toNat = j + 1 by omega, cj j hj]
  simp only [Int.toNat_zero, c0]
  simp [List.getElem?_eq_getElem hi]

/-- C57 is false of `atX` and `atY`: for every index past the end, or column out of range, the access is undefined. -/
theorem C57_negation_at (nd : ℕ) (m : MG α) (r : Rows α) (h : Reachable nd m r) (i j : ℕ) (hi : r.length ≤ i ∨ nd + 1 ≤ j) :
    m.at j i = none := by
  obtain ⟨hl, hc, _, _⟩ := C57_columns nd m r h
  unfold MG.at
  rw [if_pos (by omega)]
  simp only [Int.toNat_natCast]
  cases hj : m.data[j]? with
  | none => rfl
  | some c =>
    rcases hi with hi | hi
    · have := hc c (List.mem_of_getElem? hj)
      simp only [Option.bind_some]
      exact List.getElem?_eq_none (by omega)
    · rw [List.getElem?_eq_none (by omega)] at hj
      cases hj

/-- C57 is false of `size()`: it is the number of columns, whatever was recorded (the header says: the number of data points). -/
theorem C57_negation_size (nd : ℕ) (m : MG α) (r : Rows α) (h : Reachable nd m r) : m.size = nd + 1 :=
  (C57_columns nd m r h).1

/-- C57: an object needs at least one data set. -/
theorem C57_positive (nd : ℤ) : (MG.new nd : Option (MG α)) = none ↔ nd ≤ 0 := by
  unfold MG.new
  split <;> simp_all

/-- A history: two data sets, two points, the second with too many values. -/
example : ∃ (m : MG ℚ) (r : Rows ℚ), Reachable 2 m r ∧ m.data = [[5, 6], [1, 3], [2, 4]] := by
  let m0 : MG ℚ := ⟨2, [[], [], []], [true, true]⟩
  let m1 : MG ℚ := ⟨2, [[5], [1], [2]], [true, true]⟩
  let m2 : MG ℚ := ⟨2, [[5, 6], [1, 3], [2, 4]], [true, true]⟩
  have h0 : Reachable 2 m0 [] := .new m0 rfl
  have h1 : Reachable 2 m1 _ := .step m0 [] (.gather 5 [1, 2]) m1 h0 rfl
  have h2 : Reachable 2 m2 _ := .caught m1 _ (.gather 6 [3, 4, 7]) m2 h1 rfl
  exact ⟨m2, _, h2, rfl⟩

end Verif.MultiGraph
