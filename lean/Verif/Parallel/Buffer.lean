import Mathlib.Data.List.Range
import Mathlib.Logic.Function.Basic
import Mathlib.Tactic.Ring

/-!
# Migrating particles between processors

Models `SimData::pack_buffer` (`base/simdata.cpp:414-434`), `SimData::unpack_buffer`
(`base/simdata.tpp:299-315`), `byte_cast` (`utility/utility.hpp:127-135`), on 32-bit patterns: a `float`
is its bit pattern `BitVec 32` (it is only copied here, never computed with), an `int` is an `Int32`.
The transport (`MPI_Isend`/`MPI_Recv`, `parallel/kdtreetopology.tpp:11-14, 45-54`) is taken to deliver the
first `size * data_width` words; both processors have the same columns.
-/

namespace Verif.Buffer

/-- The bits of a `float`. -/
abbrev Word := BitVec 32

/-- The column layout of a `SimData`: `sim_dimensions`, `nvectors()`, `nscalars()`, `nintegers()`. -/
structure Layout where
  dims : ℕ
  nv : ℕ
  ns : ℕ
  ni : ℕ

/-- `data_width`, `simdata.cpp:39` and `:70`. -/
def Layout.width (l : Layout) : ℕ := l.nv * l.dims + l.ns + l.ni

/-- All columns of one particle: `VectorData(i,id)[d]`, `ScalarData(i,id)`, `IntegerData(i,id)`.
`simdata.tpp:98-268`. -/
structure Part where
  vec : ℕ → ℕ → Word
  sc : ℕ → Word
  int : ℕ → Int32

/-- `Type` is integer column 0, `ID` is integer column 1 (`simdata.cpp:25-27`). -/
def Part.type (p : Part) : Int32 := p.int 0
def Part.gid (p : Part) : Int32 := p.int 1

/-- The part of `SimData` that packing and unpacking touch. `simdata.hpp:324-360`. `removeSet` is
the content of `std::set<int> remove_list`. -/
structure Store where
  mem : ℕ → Part
  cap : ℕ
  size : ℕ
  number : ℤ
  idMap : Int32 → Option ℕ
  removeSet : ℕ → Prop

/-- `byte_cast<RealType>(int)`, `utility.hpp:130-135`. -/
def castToFloat (i : Int32) : Word := i.toBitVec

/-- `byte_cast<int>(RealType)`, `utility.hpp:130-135`. -/
def castToInt (w : Word) : Int32 := Int32.ofBitVec w

/-- The bit pattern of the float `-1000000.f` (`simdata.tpp:91`). -/
def farAway : Word := 0xC9742400#32

/-- `markForRemoval<0>(id)`, `simdata.tpp:78-94`. `none`: `id` is outside of the arrays. -/
def mark (s : Store) (id : ℕ) : Option Store :=
  if id < s.cap then
    if (s.mem id).type < 0 ∨ s.size ≤ id then some s
    else some { s with
      removeSet := fun k => k = id ∨ s.removeSet k
      idMap := Function.update s.idMap (s.mem id).gid none
      mem := Function.update s.mem id
        { s.mem id with
          int := Function.update (s.mem id).int 0 (-1)
          vec := Function.update (s.mem id).vec 0 (Function.update ((s.mem id).vec 0) 0 farAway) }
      number := s.number - 1 }
  else none

/-- The assignments `buffer[k] = v` for particle number `j` of the list, in the order of
`simdata.cpp:423-430`. -/
def packWrites (l : Layout) (j : ℕ) (p : Part) : List (ℕ × Word) :=
  ((List.range l.nv).flatMap fun i =>
    (List.range l.dims).map fun d => (l.width * j + i * l.dims + d, p.vec i d))
  ++ ((List.range l.ns).map fun i => (l.width * j + l.nv * l.dims + i, p.sc i))
  ++ ((List.range l.ni).map fun i => (l.width * j + l.nv * l.dims + l.ns + i, castToFloat (p.int i)))

/-- A series of assignments to a `vector<real>`; `none` if one of them is outside of it. -/
def applyWrites : List (ℕ × Word) → List Word → Option (List Word)
  | [], b => some b
  | (k, v) :: ws, b => if k < b.length then applyWrites ws (b.set k v) else none

/-- The loop of `simdata.cpp:420-433`, at list position `j`. -/
def packLoop (l : Layout) (remove : Bool) : ℕ → List ℕ → Store → List Word → Option (Store × List Word)
  | _, [], s, b => some (s, b)
  | j, id :: ids, s, b =>
    if id < s.cap then
      (applyWrites (packWrites l j (s.mem id)) b).bind fun b' =>
        (if remove then mark s id else some s).bind fun s' => packLoop l remove (j + 1) ids s' b'
    else none

/-- `if (buffer.size() < n) buffer.resize(n)`: new words are zero. `simdata.cpp:417`. -/
def growTo (b : List Word) (n : ℕ) : List Word := b ++ List.replicate (n - b.length) 0

/-- `pack_buffer(id_list, buffer, remove)`, `simdata.cpp:414-434`. -/
def pack (l : Layout) (remove : Bool) (ids : List ℕ) (s : Store) (b : List Word) :
    Option (Store × List Word) :=
  packLoop l remove 0 ids s (growTo b (ids.length * l.width))

/-- What lands in the columns of a new particle at buffer position `j`, `simdata.tpp:305-313`. Columns that
do not exist keep whatever `old` says. -/
def readPart (l : Layout) (b : List Word) (j : ℕ) (old : Part) : Part :=
  { vec := fun i d =>
      if i < l.nv ∧ d < l.dims then b.getD (l.width * j + i * l.dims + d) 0 else old.vec i d
    sc := fun i => if i < l.ns then b.getD (l.width * j + l.nv * l.dims + i) 0 else old.sc i
    int := fun i =>
      if i < l.ni then castToInt (b.getD (l.width * j + l.nv * l.dims + l.ns + i) 0) else old.int i }

/-- A reset slot with type 0, as `addParticle(false)` leaves it: `simdata.tpp:32-34, 319-324`. -/
def blank : Part := { vec := fun _ _ => 0, sc := fun _ => 0, int := fun i => if i = 0 then 0 else -1 }

/-- One pass of the loop of `simdata.tpp:302-314`: `addParticle(false)` (`simdata.tpp:11-46`, no global id, so the
id map stays as it is) and the copy. `none` if the buffer is too short. -/
def unpackOne (l : Layout) (b : List Word) (j : ℕ) (s : Store) : Option Store :=
  if l.width * (j + 1) ≤ b.length then
    some { s with
      cap := if s.cap < s.size + 1 then s.cap + max 32 ((1 + s.size - s.cap) / 10) else s.cap
      mem := Function.update s.mem s.size (readPart l b j blank)
      number := s.number + 1
      size := s.size + 1 }
  else none

/-- The loop of `simdata.tpp:302-314`: `k` particles to go, next one is `j`. -/
def unpackLoop (l : Layout) (b : List Word) : ℕ → ℕ → Store → Option Store
  | 0, _, s => some s
  | k + 1, j, s => (unpackOne l b j s).bind (unpackLoop l b k (j + 1))

/-- `unpack_buffer<0>(n_particles, buffer)`, `simdata.tpp:299-315`. -/
def unpack (l : Layout) (n : ℕ) (b : List Word) (s : Store) : Option Store := unpackLoop l b n 0 s

/-- `getLocalID`, `simdata.cpp:338-345`. -/
def getLocalID (s : Store) (g : Int32) : Option ℕ := s.idMap g

/-! ## Lemmas -/

theorem applyWrites_some : ∀ (ws : List (ℕ × Word)) (b : List Word),
    (∀ w ∈ ws, w.1 < b.length) → ∃ b', applyWrites ws b = some b' ∧ b'.length = b.length ∧
      (∀ k, (∀ w ∈ ws, w.1 ≠ k) → b'[k]? = b[k]?) ∧
      ((ws.map Prod.fst).Nodup → ∀ w ∈ ws, b'[w.1]? = some w.2) := by
  intro ws
  induction ws with
  | nil => intro b _; exact ⟨b, rfl, rfl, fun _ _ => rfl, by simp⟩
  | cons w ws ih =>
    obtain ⟨k, v⟩ := w
    intro b h
    have hk : k < b.length := h _ (List.mem_cons_self)
    obtain ⟨b', h1, h2, h3, h4⟩ := ih (b.set k v) (by
      intro w hw; simpa using h w (List.mem_cons_of_mem _ hw))
    refine ⟨b', by simp [applyWrites, hk, h1], by simpa using h2, ?_, ?_⟩
    · intro m hm
      rw [h3 m (fun w hw => hm w (List.mem_cons_of_mem _ hw))]
      have : k ≠ m := hm (k, v) (List.mem_cons_self)
      simp [this]
    · intro hnd w hw
      simp only [List.map_cons, List.nodup_cons] at hnd
      rcases List.mem_cons.1 hw with rfl | hw
      · rw [h3 _ (fun w' hw' e => hnd.1 (List.mem_map.2 ⟨w', hw', e⟩))]
        simp [hk]
      · exact h4 hnd.2 w hw

theorem range_map_add (b n : ℕ) : (List.range n).map (fun i => b + i) = List.range' b n := by
  rw [List.range_eq_range', List.map_add_range']; simp

theorem flat_range (d b : ℕ) : ∀ n, ((List.range n).flatMap fun i => (List.range d).map fun k => b + i * d + k)
    = List.range' b (n * d) := by
  intro n
  induction n with
  | zero => simp
  | succ n ih =>
    rw [List.range_succ, List.flatMap_append, ih]
    simp only [List.flatMap_cons, List.flatMap_nil, List.append_nil]
    rw [range_map_add]
    rw [Nat.succ_mul, ← List.range'_append_1]

theorem packWrites_fst (l : Layout) (j : ℕ) (p : Part) :
    (packWrites l j p).map Prod.fst = List.range' (l.width * j) l.width := by
  unfold packWrites
  simp only [List.map_append, List.map_flatMap, List.map_map, Function.comp_def]
  rw [flat_range, range_map_add, range_map_add, List.range'_append_1]
  rw [Nat.add_assoc, List.range'_append_1]
  rfl

theorem packWrites_range {l : Layout} {j : ℕ} {p : Part} {w : ℕ × Word} (h : w ∈ packWrites l j p) :
    l.width * j ≤ w.1 ∧ w.1 < l.width * (j + 1) := by
  have : w.1 ∈ (packWrites l j p).map Prod.fst := List.mem_map_of_mem h
  rw [packWrites_fst] at this
  rw [List.mem_range'_1] at this
  rw [Nat.mul_succ]; exact this

theorem mark_eq {s s' : Store} {id : ℕ} (h : mark s id = some s') :
    s'.cap = s.cap ∧ s'.size = s.size ∧ ∀ k, k ≠ id → s'.mem k = s.mem k := by
  unfold mark at h
  split at h
  · split at h
    · simp at h; subst h; simp
    · simp at h; subst h; simp +contextual [Function.update_of_ne]
  · simp at h

/-- The words of the buffer that stand for particle `p` at list position `j`. -/
def Holds (l : Layout) (b : List Word) (j : ℕ) (p : Part) : Prop :=
  ∀ w ∈ packWrites l j p, b[w.1]? = some w.2

/-- The store after the marking the loop does. -/
def markAll (remove : Bool) : List ℕ → Store → Option Store
  | [], s => some s
  | id :: ids, s => (if remove then mark s id else some s).bind (markAll remove ids)

theorem markAll_some (remove : Bool) : ∀ (ids : List ℕ) (s : Store), (∀ i ∈ ids, i < s.cap) →
    ∃ s', markAll remove ids s = some s' := by
  intro ids
  induction ids with
  | nil => intro s _; exact ⟨s, rfl⟩
  | cons id ids ih =>
    intro s h
    cases remove with
    | false =>
      obtain ⟨s', hs'⟩ := ih s (fun i hi => h i (List.mem_cons_of_mem _ hi))
      exact ⟨s', by simp [markAll, hs']⟩
    | true =>
      have : ∃ t, mark s id = some t := by
        unfold mark; rw [if_pos (h id List.mem_cons_self)]; split <;> simp
      obtain ⟨t, ht⟩ := this
      obtain ⟨s', hs'⟩ := ih t (fun i hi => by
        rw [(mark_eq ht).1]; exact h i (List.mem_cons_of_mem _ hi))
      exact ⟨s', by simp [markAll, ht, hs']⟩

theorem packLoop_spec (l : Layout) (remove : Bool) : ∀ (ids : List ℕ) (j : ℕ) (s : Store) (b : List Word),
    (∀ i ∈ ids, i < s.cap) → (remove = true → ids.Nodup) → l.width * (j + ids.length) ≤ b.length →
    ∃ s' b', packLoop l remove j ids s b = some (s', b') ∧ markAll remove ids s = some s' ∧
      b'.length = b.length ∧
      (∀ k, k < l.width * j → b'[k]? = b[k]?) ∧
      (∀ m (hm : m < ids.length), Holds l b' (j + m) (s.mem ids[m])) := by
  intro ids
  induction ids with
  | nil => intro j s b _ _ _; exact ⟨s, b, rfl, rfl, rfl, fun _ _ => rfl, by simp⟩
  | cons id ids ih =>
    intro j s b hcap hnd hlen
    simp only [List.length_cons] at hlen
    have hw1 : l.width * (j + 1) ≤ b.length := le_trans (Nat.mul_le_mul_left _ (by omega)) hlen
    obtain ⟨b1, hb1, hb1l, hb1o, hb1v⟩ := applyWrites_some (packWrites l j (s.mem id)) b
      (fun w hw => lt_of_lt_of_le (packWrites_range hw).2 hw1)
    have hv := hb1v (by rw [packWrites_fst]; exact List.nodup_range')
    have hid : id < s.cap := hcap id List.mem_cons_self
    -- the store for the rest of the loop
    have hs1 : ∃ s1, (if remove then mark s id else some s) = some s1 ∧ s1.cap = s.cap ∧
        ∀ k ∈ ids, s1.mem k = s.mem k := by
      cases remove with
      | false => exact ⟨s, by simp, rfl, fun _ _ => rfl⟩
      | true =>
        have : ∃ t, mark s id = some t := by
          unfold mark; rw [if_pos hid]; split <;> simp
        obtain ⟨t, ht⟩ := this
        refine ⟨t, by simp [ht], (mark_eq ht).1, fun k hk => (mark_eq ht).2.2 k ?_⟩
        rintro rfl
        exact (List.nodup_cons.1 (hnd rfl)).1 hk
    obtain ⟨s1, hs1, hs1c, hs1m⟩ := hs1
    obtain ⟨s', b', h1, h2, h3, h4, h5⟩ := ih (j + 1) s1 b1
      (fun i hi => by rw [hs1c]; exact hcap i (List.mem_cons_of_mem _ hi))
      (fun hr => (List.nodup_cons.1 (hnd hr)).2)
      (by rw [hb1l]; refine le_trans (Nat.mul_le_mul_left _ ?_) hlen; omega)
    refine ⟨s', b', ?_, ?_, by rw [h3, hb1l], ?_, ?_⟩
    · simp [packLoop, hid, hb1, hs1, h1]
    · simp [markAll, hs1, h2]
    · intro k hk
      rw [h4 k (lt_of_lt_of_le hk (Nat.mul_le_mul_left _ (by omega)))]
      refine hb1o k (fun w hw e => ?_)
      have := (packWrites_range hw).1
      omega
    · intro m hm
      cases m with
      | zero =>
        intro w hw
        simp only [Nat.add_zero] at hw
        rw [h4 w.1 (packWrites_range hw).2]
        exact hv w hw
      | succ m =>
        have hm' : m < ids.length := by simpa using hm
        have := h5 m hm'
        rw [hs1m _ (List.getElem_mem hm')] at this
        simpa [Nat.add_assoc, Nat.add_comm 1 m] using this

theorem unpackLoop_spec (l : Layout) (b : List Word) : ∀ (k j : ℕ) (s : Store),
    l.width * (j + k) ≤ b.length →
    ∃ s', unpackLoop l b k j s = some s' ∧ s'.size = s.size + k ∧ s'.number = s.number + k ∧
      s'.idMap = s.idMap ∧ s'.removeSet = s.removeSet ∧
      (s.size ≤ s.cap → s'.size ≤ s'.cap) ∧
      (∀ i < s.size, s'.mem i = s.mem i) ∧
      (∀ m < k, s'.mem (s.size + m) = readPart l b (j + m) blank) := by
  intro k
  induction k with
  | zero => intro j s _; exact ⟨s, rfl, by simp, by simp, rfl, rfl, id, fun _ _ => rfl, by simp⟩
  | succ k ih =>
    intro j s h
    have h1 : l.width * (j + 1) ≤ b.length := le_trans (Nat.mul_le_mul_left _ (by omega)) h
    obtain ⟨s', e, hs, hn, hi, hr, hc, hl, hu⟩ := ih (j + 1) { s with
      cap := if s.cap < s.size + 1 then s.cap + max 32 ((1 + s.size - s.cap) / 10) else s.cap
      mem := Function.update s.mem s.size (readPart l b j blank)
      number := s.number + 1
      size := s.size + 1 } (by rw [Nat.add_right_comm, Nat.add_assoc]; exact h)
    refine ⟨s', ?_, by rw [hs]; simp; omega, by rw [hn]; simp; omega, hi, hr, ?_, ?_, ?_⟩
    · simp [unpackLoop, unpackOne, h1, e]
    · intro hsc; apply hc; dsimp; split <;> omega
    · intro i hlt; rw [hl i (by simp; omega)]; simp [Function.update_of_ne (Nat.ne_of_lt hlt)]
    · intro m hm
      cases m with
      | zero => rw [Nat.add_zero, hl s.size (by simp)]; simp
      | succ m =>
        have := hu m (by omega)
        simp only at this
        rw [show s.size + (m + 1) = s.size + 1 + m by omega, this, show j + 1 + m = j + (m + 1) by omega]

theorem readPart_of_holds {l : Layout} {b : List Word} {j : ℕ} {p old : Part} (h : Holds l b j p) :
    (∀ i < l.nv, ∀ d < l.dims, (readPart l b j old).vec i d = p.vec i d) ∧
    (∀ i < l.ns, (readPart l b j old).sc i = p.sc i) ∧
    (∀ i < l.ni, (readPart l b j old).int i = p.int i) := by
  refine ⟨?_, ?_, ?_⟩
  · intro i hi d hd
    have := h (l.width * j + i * l.dims + d, p.vec i d) (by
      unfold packWrites
      simp only [List.mem_append, List.mem_flatMap, List.mem_map, List.mem_range]
      exact Or.inl (Or.inl ⟨i, hi, d, hd, rfl⟩))
    simp only [readPart, hi, hd, and_self, if_true, List.getD_eq_getElem?_getD]
    simp only at this
    rw [this]; rfl
  · intro i hi
    have := h (l.width * j + l.nv * l.dims + i, p.sc i) (by
      unfold packWrites
      simp only [List.mem_append, List.mem_map, List.mem_range]
      exact Or.inl (Or.inr ⟨i, hi, rfl⟩))
    simp only [readPart, hi, if_true, List.getD_eq_getElem?_getD]
    simp only at this
    rw [this]; rfl
  · intro i hi
    have := h (l.width * j + l.nv * l.dims + l.ns + i, castToFloat (p.int i)) (by
      unfold packWrites
      simp only [List.mem_append, List.mem_map, List.mem_range]
      exact Or.inr ⟨i, hi, rfl⟩)
    simp only [readPart, hi, if_true, List.getD_eq_getElem?_getD]
    simp only at this
    rw [this]
    simp [castToInt, castToFloat]

theorem markAll_mem : ∀ (ids : List ℕ) (s s' : Store), markAll true ids s = some s' →
    s'.size = s.size ∧ s'.cap = s.cap ∧
    (∀ k, k ∉ ids → s'.mem k = s.mem k) ∧ (∀ k ∈ ids, k < s.size → (s'.mem k).type < 0) := by
  intro ids
  induction ids with
  | nil => intro s s' h; simp [markAll] at h; subst h; simp
  | cons id ids ih =>
    intro s s' h
    simp only [markAll, if_true, Option.bind_eq_some_iff] at h
    obtain ⟨t, ht, h⟩ := h
    obtain ⟨e1, e2, e3, e4⟩ := ih t s' h
    obtain ⟨m1, m2, m3⟩ := mark_eq ht
    refine ⟨by omega, by omega, ?_, ?_⟩
    · intro k hk
      rw [List.mem_cons, not_or] at hk
      rw [e3 k hk.2, m3 k hk.1]
    · intro k hk hlt
      by_cases hk' : k ∈ ids
      · exact e4 k hk' (by omega)
      · have : k = id := by rcases List.mem_cons.1 hk with h | h; exacts [h, absurd h hk']
        subst this
        rw [e3 k hk']
        unfold mark at ht
        split at ht
        · split at ht
          · next hh =>
            simp at ht; subst ht
            rcases hh with hh | hh
            · exact hh
            · omega
          · simp at ht; subst ht
            simp [Part.type]
        · simp at ht

/-! ## Specification and property theorems -/

/-- Two particles agree in every column the layout has. -/
def SameColumns (l : Layout) (p q : Part) : Prop :=
  (∀ i < l.nv, ∀ d < l.dims, p.vec i d = q.vec i d) ∧ (∀ i < l.ns, p.sc i = q.sc i) ∧
    (∀ i < l.ni, p.int i = q.int i)

/-- **C10.** Sender `s`, receiver `r` with equal column layout, any old buffer contents on both sides
(`b` is reused; only the first `ids.length * width` words travel; `junk` is what is behind them in the
receiver's buffer). The listed particles are distinct slots of the sender. Then packing and unpacking
are defined, the receiver gets exactly `ids.length` new particles behind its old ones, the `m`-th one equal
in every column to the `m`-th listed one (as it was before it was marked), and the receiver's old
particles are untouched. On the sender exactly the listed ones have become dead when `remove` is set, and
nothing has changed otherwise. -/
theorem C10_round_trip (l : Layout) (remove : Bool) (ids : List ℕ) (s r : Store) (b junk : List Word)
    (hin : ∀ i ∈ ids, i < s.size) (hcap : s.size ≤ s.cap) (hnd : ids.Nodup) :
    ∃ s' b' r', pack l remove ids s b = some (s', b') ∧
      unpack l ids.length (b'.take (ids.length * l.width) ++ junk) r = some r' ∧
      r'.size = r.size + ids.length ∧ r'.number = r.number + ids.length ∧
      (r.size ≤ r.cap → r'.size ≤ r'.cap) ∧
      (∀ i < r.size, r'.mem i = r.mem i) ∧
      (∀ m (hm : m < ids.length), SameColumns l (r'.mem (r.size + m)) (s.mem ids[m])) ∧
      (remove = false → s' = s) ∧
      (remove = true → s'.size = s.size ∧ (∀ k ∈ ids, (s'.mem k).type < 0) ∧
        ∀ k, k ∉ ids → s'.mem k = s.mem k) := by
  obtain ⟨s', b', h1, h2, h3, _, h5⟩ := packLoop_spec l remove ids 0 s
    (growTo b (ids.length * l.width)) (fun i hi => lt_of_lt_of_le (hin i hi) hcap) (fun _ => hnd)
    (by simp [growTo, Nat.mul_comm l.width]; omega)
  have hlen : ids.length * l.width ≤ b'.length := by rw [h3]; simp [growTo]; omega
  obtain ⟨r', u1, u2, u3, u4, u5, u6, u7, u8⟩ := unpackLoop_spec l (b'.take (ids.length * l.width) ++ junk)
    ids.length 0 r (by simp [Nat.mul_comm l.width, hlen])
  refine ⟨s', b', r', h1, u1, u2, u3, u6, u7, ?_, ?_, ?_⟩
  · intro m hm
    rw [u8 m hm]
    apply readPart_of_holds
    intro w hw
    have hw2 := (packWrites_range hw).2
    have hlt : w.1 < ids.length * l.width := by
      refine lt_of_lt_of_le hw2 ?_
      rw [Nat.mul_comm ids.length]; exact Nat.mul_le_mul_left _ (by omega)
    rw [List.getElem?_append_left (by simp; omega), List.getElem?_take_of_lt hlt]
    exact h5 m hm w hw
  · rintro rfl
    have : ∀ (ids : List ℕ) (s : Store), markAll false ids s = some s := by
      intro ids; induction ids with
      | nil => intro s; rfl
      | cons a ids ih => intro s; simp [markAll, ih]
    rw [this] at h2; exact (Option.some.inj h2).symm
  · rintro rfl
    obtain ⟨e1, _, e3, e4⟩ := markAll_mem ids s s' h2
    exact ⟨e1, fun k hk => e4 k hk (hin k hk), e3⟩

/-- The hypotheses of `C10_round_trip` are met by a store with three particles of which two are sent. -/
example : let s : Store := { mem := fun i => { vec := fun c d => (i + c + d : ℕ), sc := fun _ => 7,
                                               int := fun c => if c = 0 then 1 else 5 },
                             cap := 32, size := 3, number := 3, idMap := fun _ => none, removeSet := fun _ => False }
    (∀ i ∈ [2, 0], i < s.size) ∧ s.size ≤ s.cap ∧ [2, 0].Nodup := by decide

/-- The integer columns survive the trip through the float buffer: `byte_cast` is injective and its two
directions are inverse, for all `2^32` integers. -/
theorem C10_byte_cast (i : Int32) (w : Word) : castToInt (castToFloat i) = i ∧ castToFloat (castToInt w) = w := by
  simp [castToInt, castToFloat]

/-- **C11 is false of the code, for every buffer**: unpacking does not change the id map, so a global id that
was unknown to the receiver before stays unknown, although the particle now is there. -/
theorem C11_received_never_found (l : Layout) (n : ℕ) (b : List Word) (r r' : Store)
    (h : unpack l n b r = some r') (g : Int32) : getLocalID r' g = getLocalID r g := by
  unfold unpack at h
  have key : ∀ (k j : ℕ) (r r' : Store), unpackLoop l b k j r = some r' → r'.idMap = r.idMap := by
    intro k
    induction k with
    | zero => intro j r r' h; simp [unpackLoop] at h; rw [h]
    | succ k ih =>
      intro j r r' h
      simp only [unpackLoop, Option.bind_eq_some_iff] at h
      obtain ⟨t, ht, h⟩ := h
      rw [ih _ _ _ h]
      unfold unpackOne at ht
      split at ht <;> simp at ht
      rw [← ht]
  unfold getLocalID; rw [key _ _ _ _ h]

/-- **C11, negation.** A migration after which the received particle (global id 5, in slot 0) is alive but not found
by its global id. -/
theorem C11_negation : ∃ (l : Layout) (s r s' r' : Store) (b : List Word),
    pack l true [0] s [] = some (s', b) ∧ unpack l 1 b r = some r' ∧
    (s.mem 0).gid = 5 ∧ getLocalID s 5 = some 0 ∧
    r'.size = 1 ∧ (r'.mem 0).gid = 5 ∧ (r'.mem 0).type = 0 ∧ getLocalID r' 5 = none := by
  let l : Layout := ⟨2, 3, 2, 2⟩
  let s : Store := { mem := fun _ => { vec := fun _ _ => 0, sc := fun _ => 0, int := fun c => if c = 0 then 0 else 5 },
                     cap := 1, size := 1, number := 1, idMap := fun g => if g = 5 then some 0 else none,
                     removeSet := fun _ => False }
  let r : Store := { mem := fun _ => blank, cap := 0, size := 0, number := 0, idMap := fun _ => none,
                     removeSet := fun _ => False }
  obtain ⟨s', b', r', h1, h2, h3, _, _, _, h7, _⟩ := C10_round_trip l true [0] s r [] [] (by simp [s]) (by simp [s]) (by simp)
  have hcol := (h7 0 (by simp)).2.2
  have hlen : b'.length = 1 * l.width := by
    unfold pack at h1
    obtain ⟨_, b2, e1, _, e3, _⟩ := packLoop_spec l true [0] 0 s (growTo [] ([0].length * l.width))
      (by simp [s]) (by simp) (by simp [growTo])
    rw [e1] at h1
    simp only [Option.some.injEq, Prod.mk.injEq] at h1
    rw [← h1.2, e3]; simp [growTo]
  have hb : b'.take ([0].length * l.width) ++ [] = b' := by
    rw [List.append_nil, List.take_of_length_le (by rw [hlen]; simp)]
  rw [hb] at h2
  refine ⟨l, s, r, s', r', b', h1, h2, by simp [s, Part.gid], by simp [s, getLocalID], by simpa [r] using h3, ?_, ?_, ?_⟩
  · have := hcol 1 (by simp [l]); simp [r, s] at this; simpa [Part.gid] using this
  · have := hcol 0 (by simp [l]); simp [r, s] at this; simpa [Part.type] using this
  · rw [C11_received_never_found l 1 b' r r' h2]; simp [r, getLocalID]

/-- **C11, what does hold**: a particle received under an id that the receiver already knew leaves that entry
as it was; entries of the receiver's own particles stay correct. -/
theorem C11_own_entries_kept_partial (l : Layout) (n : ℕ) (b : List Word) (r r' : Store)
    (h : unpack l n b r = some r') (hb : l.width * n ≤ b.length)
    (hr : ∀ g i, getLocalID r g = some i → i < r.size ∧ (r.mem i).gid = g) :
    ∀ g i, getLocalID r' g = some i → i < r'.size ∧ (r'.mem i).gid = g := by
  obtain ⟨t, e, hs, _, _, _, _, hl, _⟩ := unpackLoop_spec l b n 0 r (by simpa using hb)
  have : t = r' := by unfold unpack at h; rw [e] at h; exact Option.some.inj h
  subst this
  intro g i hg
  rw [C11_received_never_found l n b r t h] at hg
  obtain ⟨h1, h2⟩ := hr g i hg
  exact ⟨by omega, by rw [hl i h1]; exact h2⟩

/-- The hypothesis on the receiver's own entries holds for a concrete receiver. -/
example : let r : Store := { mem := fun i => { vec := fun _ _ => 0, sc := fun _ => 0, int := fun c => if c = 0 then 0 else Int32.ofNat i },
                             cap := 32, size := 1, number := 1, idMap := fun g => if g = 0 then some 0 else none,
                             removeSet := fun _ => False }
    ∀ g i, getLocalID r g = some i → i < r.size ∧ (r.mem i).gid = g := by
  intro r g i h
  simp only [r, getLocalID] at h
  split at h
  · next hg => simp at h; subst h; simp [r, Part.gid, hg]
  · simp at h

end Verif.Buffer
