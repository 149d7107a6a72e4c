import Verif.Parallel.Exchange

/-!
# Ghost particles (C143)

Models the creation and the updates of ghost particles: `create_ghost_particles`, `send_ghost_updates`, `recv_ghost_updates` (`parallel/kdtreetopology.cpp:146-290`), `pack_buffer_relative`,
`unpack_buffer` (`base/simdata.tpp:270-316`), `pack_ghost_buffer`, `unpack_ghost_buffer` (`base/simdata.cpp:436-482`) and the counters of ghosts, between two rebuilds (in which local
ids do not change), with the messages of `Verif.Parallel.Rounds`.

Simplifications: exact real arithmetic. The contents of full messages are particles (their packing is modelled in `Verif.Parallel.Buffer`); the layout of the smaller messages of updates is modelled
by `bufferOf` and `readFrom`. What happens between two updates is any function of the own particles and the ghosts.
-/

namespace Verif.Ghosts
open Verif.Rounds Verif.KDTree Verif.Bounds Verif.PairForces Verif.Exchange

variable {n : ℕ} {γ : Type}

/-- A particle: position, velocity, angular velocity, and the rest (radius, mass, type, global id, …). -/
structure Part (n : ℕ) (γ : Type) where
  x : Fin (n + 1) → ℝ
  v : Fin (n + 1) → ℝ
  om : ℝ
  rest : γ

/-- What is sent of a particle: the position; velocity, angular velocity and the rest only if they are sent. -/
structure Upd (n : ℕ) (γ : Type) where
  x : Fin (n + 1) → ℝ
  v : Option (Fin (n + 1) → ℝ)
  om : Option ℝ
  rest : Option γ

/-- Settings: bounds, boundaries, number of processors, what updates contain (`send_ghost_velocity`, `send_ghost_omega`), the skin depth, radius and largest cutoff of a particle, and what the
processors do between updates. -/
structure Cfg (n : ℕ) (γ : Type) where
  b : Box (n + 1)
  wrap : Fin (n + 1) → Bool
  P : ℕ
  sendV : Bool
  sendOm : Bool
  skin : ℝ
  size : γ → ℝ × ℝ
  evolve : ℕ → ℕ → List (Part n γ) → List (Part n γ) → List (Part n γ)

/-- A processor: own particles, the ids to send to each neighbour (`send_ghost_list`), ghosts, and their numbers (`recv_ghost_sizes`). -/
structure St (n : ℕ) (γ : Type) where
  owned : List (Part n γ)
  lists : ℕ → List ℕ
  ghosts : List (Part n γ)
  sizes : ℕ → ℕ

/-- The centre of the bounds of a processor, `parallel/kdtreetopology.cpp:216-217`, `parallel/kdtreetopology.tpp:28-29`. -/
noncomputable def centre (c : Cfg n γ) (q : ℕ) : Fin (n + 1) → ℝ := fun k => ((processBounds c.b c.P q).lo k + (processBounds c.b c.P q).hi k) / 2

/-- The position relative to a point: `getDisplacement` (`gflow.cpp:418-426`), then the point is added, `base/simdata.cpp:450-452`, `base/simdata.tpp:281-282`. -/
noncomputable def relative (c : Cfg n γ) (ctr x : Fin (n + 1) → ℝ) : Fin (n + 1) → ℝ := fun k => ctr k + correct (widths c.b c.wrap) (fun j => x j - ctr j) k

/-- The ids of the particles that are ghosts on another processor, `parallel/kdtreetopology.cpp:152-169`. -/
noncomputable def idsFor (c : Cfg n γ) (p : ℕ) (l : List (Part n γ)) (q : ℕ) : List ℕ :=
  ghostsFor c.b c.wrap c.P p q (l.map fun a => (a.x, (c.size a.rest).1, (c.size a.rest).2)) c.skin

/-- `pack_buffer_relative`, `base/simdata.tpp:270-297`: everything, with the relative position. -/
noncomputable def packFull (c : Cfg n γ) (l : List (Part n γ)) (ids : List ℕ) (q : ℕ) : List (Upd n γ) :=
  ids.filterMap fun id => l[id]?.map fun a => ⟨relative c (centre c q) a.x, some a.v, some a.om, some a.rest⟩

/-- `pack_ghost_buffer`, `base/simdata.cpp:436-464`: relative position, perhaps velocity and angular velocity. -/
noncomputable def packGhost (c : Cfg n γ) (l : List (Part n γ)) (ids : List ℕ) (q : ℕ) : List (Upd n γ) :=
  ids.filterMap fun id => l[id]?.map fun a => ⟨relative c (centre c q) a.x, if c.sendV then some a.v else none, if c.sendOm then some a.om else none, none⟩

/-- A new ghost, `unpack_buffer<1>`, `base/simdata.tpp:299-316`; `none` without all data. -/
def create (u : Upd n γ) : Option (Part n γ) := u.v.bind fun v => u.om.bind fun om => u.rest.map fun rest => ⟨u.x, v, om, rest⟩

/-- The writes of an update to a ghost, `base/simdata.cpp:471-482`. -/
def applyUpd (u : Upd n γ) (g : Part n γ) : Part n γ := ⟨u.x, u.v.getD g.v, u.om.getD g.om, g.rest⟩

/-- `unpack_ghost_buffer`, `base/simdata.cpp:466-484`: the updates are for the ghosts from an id on. -/
def applyFrom : ℕ → List (Upd n γ) → List (Part n γ) → List (Part n γ)
  | _, [], g => g
  | id, u :: us, g => applyFrom (id + 1) us (g.modify id (applyUpd u))

/-- The loop over neighbours, `parallel/kdtreetopology.cpp:251-259`: the first id of the ghosts of a neighbour is the number of ghosts of those before. -/
def applyAll : ℕ → List (ℕ × List (Upd n γ)) → List (Part n γ) → List (Part n γ)
  | _, [], g => g
  | id, (_, us) :: l, g => applyAll (id + us.length) l (applyFrom id us g)

/-- What a processor makes of received messages: in the first round (`create_ghost_particles`) new ghosts, `parallel/kdtreetopology.cpp:184-191`, later updates. Then it continues. -/
def receive (c : Cfg n γ) (ids : ℕ → List ℕ) (r p : ℕ) (s : St n γ) (recv : List (ℕ × List (Upd n γ))) : St n γ :=
  if r = 0 then
    let g := (recv.flatMap (·.2)).filterMap create
    ⟨c.evolve r p s.owned g, ids, g, fun q => ((recv.find? fun x => x.1 == q).map fun x => x.2.length).getD 0⟩
  else
    let g := applyAll 0 recv s.ghosts
    ⟨c.evolve r p s.owned g, s.lists, g, s.sizes⟩

/-- The parallel program: creation of ghosts, then updates. -/
noncomputable def program (c : Cfg n γ) : Program (St n γ) (Upd n γ) :=
  ⟨nbs c.b c.wrap c.P,
    fun r p s q => if r = 0 then packFull c s.owned (idsFor c p s.owned q) q else packGhost c s.owned (s.lists q) q,
    fun r p s recv => receive c (idsFor c p s.owned) r p s recv,
    fun r => r == 0,
    fun _ _ s q => s.sizes q⟩

/-! ## Specification -/

/-- A ghost: of the particle `a`, which was `a0` when ghosts were created, as seen from a processor. -/
noncomputable def snapshot (c : Cfg n γ) (p r : ℕ) (a0 a : Part n γ) : Part n γ :=
  ⟨relative c (centre c p) a.x, if c.sendV ∨ r = 0 then a.v else a0.v, if c.sendOm ∨ r = 0 then a.om else a0.om, a0.rest⟩

/-- The ghosts a processor should have in a round, if these are the particles of all processors now and at the creation: for each neighbour, in order, one for each particle close to the bounds. -/
noncomputable def view (c : Cfg n γ) (w0 w : ℕ → List (Part n γ)) (r p : ℕ) : List (Part n γ) :=
  (nbs c.b c.wrap c.P p).flatMap fun q => (idsFor c q (w0 q) p).filterMap fun id => (w0 q)[id]?.bind fun a0 => (w q)[id]?.map fun a => snapshot c p r a0 a

/-- All particles of all processors, if every processor always sees the present particles of the others. -/
noncomputable def world (c : Cfg n γ) (w0 : ℕ → List (Part n γ)) : ℕ → ℕ → List (Part n γ)
  | 0 => w0
  | r + 1 => fun p => c.evolve r p (world c w0 r p) (view c w0 (world c w0 r) r p)

/-! ## Proof -/

theorem world_length (c : Cfg n γ) (he : ∀ r p l g, (c.evolve r p l g).length = l.length) (w0 : ℕ → List (Part n γ)) (r p : ℕ) : (world c w0 r p).length = (w0 p).length := by
  induction r with
  | zero => rfl
  | succ r ih => exact (he r p _ _).trans ih

theorem idsFor_lt (c : Cfg n γ) (p : ℕ) (l : List (Part n γ)) (q : ℕ) : ∀ id ∈ idsFor c p l q, id < l.length := by
  intro id h
  unfold idsFor ghostsFor at h
  have := List.mem_range.mp (List.mem_filter.mp h).1
  simpa using this

/-- With valid ids, all ids are packed. -/
theorem filterMap_total {δ ε : Type} (ids : List ℕ) (l : List δ) (f : δ → ε) (h : ∀ id ∈ ids, id < l.length) :
    (ids.filterMap fun id => l[id]?.map f).length = ids.length := by
  induction ids with
  | nil => rfl
  | cons id ids ih =>
    have hl := h id List.mem_cons_self
    rw [List.filterMap_cons, List.getElem?_eq_getElem hl]
    simp only [Option.map_some, List.length_cons]
    rw [ih fun i hi => h i (List.mem_cons_of_mem _ hi)]

theorem applyFrom_block (us : List (Upd n γ)) (blk pre post : List (Part n γ)) (h : us.length = blk.length) :
    applyFrom pre.length us (pre ++ blk ++ post) = pre ++ List.zipWith applyUpd us blk ++ post := by
  induction us generalizing pre blk with
  | nil =>
    have : blk = [] := List.length_eq_zero_iff.mp h.symm
    subst this
    simp [applyFrom]
  | cons u us ih =>
    cases blk with
    | nil => simp at h
    | cons g blk =>
      unfold applyFrom
      have e : (pre ++ g :: blk ++ post).modify pre.length (applyUpd u) = (pre ++ [applyUpd u g]) ++ blk ++ post := by
        rw [List.append_assoc]
        induction pre with
        | nil => rfl
        | cons a pre ihp => simp only [List.cons_append, List.length_cons, List.modify_succ_cons] at ihp ⊢; rw [ihp]
      rw [e]
      have := ih blk (pre ++ [applyUpd u g]) (by simpa using h)
      rw [List.length_append, List.length_singleton] at this
      rw [this]
      simp

theorem applyAll_blocks (l : List (ℕ × List (Upd n γ))) (blk : ℕ → List (Part n γ)) (pre : List (Part n γ)) (h : ∀ x ∈ l, x.2.length = (blk x.1).length) :
    applyAll pre.length l (pre ++ l.flatMap fun x => blk x.1) = pre ++ l.flatMap fun x => List.zipWith applyUpd x.2 (blk x.1) := by
  induction l generalizing pre with
  | nil => simp [applyAll]
  | cons x l ih =>
    obtain ⟨q, us⟩ := x
    have hx := h (q, us) List.mem_cons_self
    simp only at hx
    unfold applyAll
    rw [List.flatMap_cons, List.flatMap_cons, ← List.append_assoc, applyFrom_block us (blk q) pre _ hx]
    have := ih (pre ++ List.zipWith applyUpd us (blk q)) fun y hy => h y (List.mem_cons_of_mem _ hy)
    rw [List.length_append, List.length_zipWith, hx, min_self] at this
    rw [hx, this, List.append_assoc]

/-- The block of a neighbour. -/
noncomputable def block (c : Cfg n γ) (w0 w : ℕ → List (Part n γ)) (r p q : ℕ) : List (Part n γ) :=
  (idsFor c q (w0 q) p).filterMap fun id => (w0 q)[id]?.bind fun a0 => (w q)[id]?.map fun a => snapshot c p r a0 a

theorem block_length (c : Cfg n γ) (w0 w : ℕ → List (Part n γ)) (r p q : ℕ) (h : (w q).length = (w0 q).length) : (block c w0 w r p q).length = (idsFor c q (w0 q) p).length := by
  unfold block
  have hlt := idsFor_lt c q (w0 q) p
  generalize idsFor c q (w0 q) p = ids at hlt
  induction ids with
  | nil => rfl
  | cons id ids ih =>
    have hl := hlt id List.mem_cons_self
    rw [List.filterMap_cons, List.getElem?_eq_getElem hl, Option.bind_some, List.getElem?_eq_getElem (h ▸ hl)]
    simp only [Option.map_some, List.length_cons]
    rw [ih fun i hi => hlt i (List.mem_cons_of_mem _ hi)]

theorem create_block (c : Cfg n γ) (w0 : ℕ → List (Part n γ)) (p q : ℕ) : (packFull c (w0 q) (idsFor c q (w0 q) p) p).filterMap create = block c w0 w0 0 p q := by
  unfold packFull block
  rw [List.filterMap_filterMap]
  congr 1
  funext id
  cases h : (w0 q)[id]? with
  | none => rfl
  | some a => simp [create, snapshot]

theorem zip_block (c : Cfg n γ) (w0 w w' : ℕ → List (Part n γ)) (r r' p q : ℕ) (h : (w q).length = (w0 q).length) (h' : (w' q).length = (w0 q).length)
    (hr : r = 0 → w q = w0 q) : List.zipWith applyUpd (packGhost c (w' q) (idsFor c q (w0 q) p) p) (block c w0 w r p q) = block c w0 w' (r' + 1) p q := by
  unfold packGhost block
  have hlt := idsFor_lt c q (w0 q) p
  generalize idsFor c q (w0 q) p = ids at hlt
  induction ids with
  | nil => rfl
  | cons id ids ih =>
    have hl := hlt id List.mem_cons_self
    have ih := ih fun i hi => hlt i (List.mem_cons_of_mem _ hi)
    rw [List.filterMap_cons, List.filterMap_cons, List.filterMap_cons, List.getElem?_eq_getElem hl, Option.bind_some, Option.bind_some,
      List.getElem?_eq_getElem (h' ▸ hl), List.getElem?_eq_getElem (h ▸ hl)]
    simp only [Option.map_some, List.zipWith_cons_cons]
    rw [ih]
    congr 1
    have same : r = 0 → (w q)[id]'(h ▸ hl) = (w0 q)[id]'hl := fun e => by simp only [hr e]
    unfold applyUpd snapshot
    by_cases e : r = 0
    · rw [same e]
      cases c.sendV <;> cases c.sendOm <;> simp
    · cases c.sendV <;> cases c.sendOm <;> simp [e]

theorem find_block {δ : Type} (l : List ℕ) (f : ℕ → List δ) (q : ℕ) (h : q ∈ l) : (((l.map fun q => (q, f q)).find? fun x => x.1 == q).map fun x => x.2.length).getD 0 = (f q).length := by
  induction l with
  | nil => simp at h
  | cons a l ih =>
    rw [List.map_cons, List.find?_cons]
    by_cases e : a = q
    · subst e
      simp
    · have : (a == q) = false := by simpa using e
      simp only [this]
      exact ih ((List.mem_cons.mp h).resolve_left (Ne.symm e))

/-- The lockstep is the specification. -/
theorem lock_eq (c : Cfg n γ) (hP : 2 ≤ c.P) (he : ∀ r p l g, (c.evolve r p l g).length = l.length) (s0 : ℕ → St n γ) (r : ℕ) :
    ∀ p < c.P, (lock (program c) s0 r p).owned = world c (fun q => (s0 q).owned) r p ∧
      (0 < r → (lock (program c) s0 r p).lists = idsFor c p (s0 p).owned ∧
        (lock (program c) s0 r p).ghosts = view c (fun q => (s0 q).owned) (world c (fun q => (s0 q).owned) (r - 1)) (r - 1) p ∧
        ∀ q ∈ nbs c.b c.wrap c.P p, (lock (program c) s0 r p).sizes q = (idsFor c q (s0 q).owned p).length) := by
  set w0 := fun q => (s0 q).owned with hw0
  have wl := world_length c he w0
  induction r with
  | zero => exact fun p _ => ⟨rfl, fun h => absurd h (lt_irrefl _)⟩
  | succ r ih =>
    intro p hp
    have nb := fun q (hq : q ∈ nbs c.b c.wrap c.P p) => (mem_nbs c.b c.wrap c.P p q hP hq).1
    cases r with
    | zero =>
      have hstep : lock (program c) s0 1 p = receive c (idsFor c p (s0 p).owned) 0 p (s0 p)
          ((nbs c.b c.wrap c.P p).map fun q => (q, packFull c (w0 q) (idsFor c q (w0 q) p) p)) := rfl
      have hg : (((nbs c.b c.wrap c.P p).map fun q => (q, packFull c (w0 q) (idsFor c q (w0 q) p) p)).flatMap (·.2)).filterMap create = view c w0 w0 0 p := by
        rw [List.flatMap_map, List.filterMap_flatMap]
        unfold view
        congr 1
        funext q
        exact create_block c w0 p q
      rw [hstep]
      unfold receive
      rw [if_pos rfl]
      refine ⟨?_, fun _ => ⟨rfl, hg, fun q hq => ?_⟩⟩
      · show c.evolve 0 p _ _ = _
        rw [hg]
        rfl
      · show Option.getD _ 0 = _
        rw [find_block _ (fun q => packFull c (w0 q) (idsFor c q (w0 q) p) p) q hq]
        exact filterMap_total _ _ _ (idsFor_lt c q (w0 q) p)
    | succ r =>
      obtain ⟨o, rest⟩ := ih p hp
      obtain ⟨r1, r2, r3⟩ := rest (Nat.succ_pos r)
      have hstep : lock (program c) s0 (r + 2) p = receive c (idsFor c p (lock (program c) s0 (r + 1) p).owned) (r + 1) p (lock (program c) s0 (r + 1) p)
          ((nbs c.b c.wrap c.P p).map fun q => (q, packGhost c (lock (program c) s0 (r + 1) q).owned ((lock (program c) s0 (r + 1) q).lists p) p)) := rfl
      have hm : ((nbs c.b c.wrap c.P p).map fun q => (q, packGhost c (lock (program c) s0 (r + 1) q).owned ((lock (program c) s0 (r + 1) q).lists p) p)) =
          (nbs c.b c.wrap c.P p).map fun q => (q, packGhost c (world c w0 (r + 1) q) (idsFor c q (w0 q) p) p) := by
        apply List.map_congr_left
        intro q hq
        obtain ⟨oq, restq⟩ := ih q (nb q hq)
        rw [oq, (restq (Nat.succ_pos r)).1]
      have hg : applyAll 0 ((nbs c.b c.wrap c.P p).map fun q => (q, packGhost c (world c w0 (r + 1) q) (idsFor c q (w0 q) p) p)) (lock (program c) s0 (r + 1) p).ghosts =
          view c w0 (world c w0 (r + 1)) (r + 1) p := by
        rw [r2]
        have key := applyAll_blocks ((nbs c.b c.wrap c.P p).map fun q => (q, packGhost c (world c w0 (r + 1) q) (idsFor c q (w0 q) p) p)) (block c w0 (world c w0 r) r p) [] ?_
        · rw [List.flatMap_map, List.flatMap_map, List.nil_append, List.nil_append, List.length_nil] at key
          refine key.trans ?_
          unfold view
          congr 1
          funext q
          exact zip_block c w0 (world c w0 r) (world c w0 (r + 1)) r r p q (wl r q) (wl (r + 1) q) fun e => by rw [e]; rfl
        · intro x hx
          obtain ⟨q, _, rfl⟩ := List.mem_map.mp hx
          simp only
          rw [block_length c w0 _ r p q (wl r q)]
          exact filterMap_total _ _ _ fun id h => (wl (r + 1) q).symm ▸ idsFor_lt c q (w0 q) p id h
      rw [hstep, hm]
      unfold receive
      rw [if_neg (Nat.succ_ne_zero r)]
      refine ⟨?_, fun _ => ⟨r1, hg, r3⟩⟩
      show c.evolve (r + 1) p _ _ = _
      rw [hg, o]
      rfl

theorem proper (c : Cfg n γ) (hP : 2 ≤ c.P) : Proper (program c) c.P := by
  have := Exchange.proper c.b c.wrap c.P hP (fun _ _ l => l : ℕ → ℕ → List (Pt n ℕ) → List (Pt n ℕ))
  exact ⟨this.nodup, this.lt, this.symm⟩

theorem agreed (c : Cfg n γ) (hP : 2 ≤ c.P) (he : ∀ r p l g, (c.evolve r p l g).length = l.length) (s0 : ℕ → St n γ) : Agreed (program c) c.P s0 := by
  intro r p q hp hq hs
  have hr : 0 < r := by
    by_contra h
    have : r = 0 := by omega
    subst this
    exact absurd hs (by simp [program])
  have hqP := (mem_nbs c.b c.wrap c.P p q hP hq).1
  obtain ⟨_, a⟩ := lock_eq c hP he s0 r p hp
  obtain ⟨o, b⟩ := lock_eq c hP he s0 r q hqP
  show (lock (program c) s0 r p).sizes q = (if r = 0 then _ else packGhost c (lock (program c) s0 r q).owned ((lock (program c) s0 r q).lists p) p).length
  rw [if_neg (by omega), (a hr).2.2 q hq, o, (b hr).1]
  exact (filterMap_total _ _ _ fun id h => (world_length c he _ r q).symm ▸ idsFor_lt c q _ p id h).symm

/-- C143: in any order of events, the ghosts of a processor after each round are the images, closest to its centre, of the present particles of its neighbours that were selected when the ghosts were
created, in the order of neighbours; the particles of all processors are those of a computation in which every processor always sees the present particles of its neighbours. -/
theorem C143_ghosts (c : Cfg n γ) (hP : 2 ≤ c.P) (he : ∀ r p l g, (c.evolve r p l g).length = l.length) (s0 : ℕ → St n γ) (R : ℕ) (sync : Bool) (k : ℕ) (net : Net (St n γ) (Upd n γ))
    (h : Run (program c) c.P R sync s0 k net) (p : ℕ) (hp : p < c.P) (r : ℕ) (hr : (net.procs p).round = r + 1) :
    (net.procs p).st.ghosts = view c (fun q => (s0 q).owned) (world c (fun q => (s0 q).owned) r) r p ∧
    (net.procs p).st.owned = world c (fun q => (s0 q).owned) (r + 1) p := by
  rw [C141_states _ c.P R sync (proper c hP) s0 (agreed c hP he s0) k net h p hp, hr]
  obtain ⟨o, a⟩ := lock_eq c hP he s0 (r + 1) p hp
  exact ⟨(a (Nat.succ_pos r)).2.1, o⟩

/-- C143: the updates do not deadlock. -/
theorem C143_completes (c : Cfg n γ) (hP : 2 ≤ c.P) (he : ∀ r p l g, (c.evolve r p l g).length = l.length) (s0 : ℕ → St n γ) (R : ℕ) (sync : Bool) (k : ℕ) (net : Net (St n γ) (Upd n γ))
    (h : Run (program c) c.P R sync s0 k net) : ∃ k' net', Run (program c) c.P R sync s0 k' net' ∧ ∀ p < c.P, (net'.procs p).round = R := by
  obtain ⟨k', net', _, h1, h2⟩ := C141_completes _ c.P R sync (proper c hP) s0 (agreed c hP he s0) k net h
  exact ⟨k', net', h1, fun p hp => (h2 p hp).1⟩

/-- C143: the position of a ghost is that of its particle up to periods, and no image is closer to the centre of the processor in any direction, if the particle is in the simulation. -/
theorem C143_image (c : Cfg n γ) (hb : ∀ k, c.b.lo k < c.b.hi k) (p : ℕ) (hp : p < c.P) (x : Fin (n + 1) → ℝ) (hx : c.b.contains x = true) :
    IsShift c.b c.wrap (fun k => relative c (centre c p) x k - x k) ∧
    ∀ k s, IsShift c.b c.wrap s → |relative c (centre c p) x k - centre c p k| ≤ |x k + s k - centre c p k| := by
  constructor
  · intro k
    obtain ⟨m, h1, h2⟩ := correct_shift c.b c.wrap (fun j => x j - centre c p j) k
    refine ⟨m, ?_, h2⟩
    rw [← h1]
    unfold relative
    ring
  · intro k s hs
    have hX : |x k - centre c p k| ≤ c.b.hi k - c.b.lo k := by
      obtain ⟨i1, i2, i3⟩ := C47_inside c.b hb c.P p hp k
      rw [contains_iff] at hx
      have := hx k
      unfold centre
      rw [abs_le]
      constructor <;> linarith [this.1, this.2]
    have := correct_min c.b c.wrap (fun j => x j - centre c p j) k hX s hs
    unfold relative
    rw [add_sub_cancel_left]
    refine this.trans (le_of_eq ?_)
    congr 1
    ring

/-! ## The layout of updates -/

/-- The words of one update: position, velocity if sent, angular velocity if sent, `base/simdata.cpp:449-462`. -/
def wordsOf (u : Upd n γ) : List ℝ :=
  List.ofFn u.x ++ (match u.v with | some v => List.ofFn v | none => []) ++ (match u.om with | some om => [om] | none => [])

/-- `ghost_data_width`, `base/simdata.cpp:71-76`. -/
def ghostWidth (n : ℕ) (sendV sendOm : Bool) : ℕ := (n + 1) + (if sendV then n + 1 else 0) + (if sendOm then 1 else 0)

/-- The buffer, which may be longer than the message, `base/simdata.cpp:438-440`. -/
def bufferOf (us : List (Upd n γ)) (junk : List ℝ) : List ℝ := us.flatMap wordsOf ++ junk

/-- Reading the `j`-th update, `base/simdata.cpp:471-482`. -/
def readFrom (sendV sendOm : Bool) (buf : List ℝ) (j : ℕ) : Upd n γ :=
  let w := ghostWidth n sendV sendOm
  ⟨fun k => buf.getD (w * j + k) 0,
    if sendV then some fun k => buf.getD (w * j + (n + 1) + k) 0 else none,
    if sendOm then some (buf.getD (w * j + ((n + 1) + if sendV then n + 1 else 0)) 0) else none, none⟩

theorem flat_get {δ ε : Type} (f : δ → List ε) (w : ℕ) (us : List δ) (junk : List ε) (h : ∀ u ∈ us, (f u).length = w) (j : ℕ) (hj : j < us.length) (i : ℕ) (hi : i < w) :
    (us.flatMap f ++ junk)[w * j + i]? = (f us[j])[i]? := by
  induction us generalizing j with
  | nil => simp at hj
  | cons u us ih =>
    have hu := h u List.mem_cons_self
    rw [List.flatMap_cons, List.append_assoc]
    cases j with
    | zero =>
      rw [Nat.mul_zero, Nat.zero_add, List.getElem?_append_left (by omega)]
      rfl
    | succ j =>
      rw [List.getElem?_append_right (by rw [hu]; nlinarith), hu]
      have : w * (j + 1) + i - w = w * j + i := by rw [Nat.mul_add, Nat.mul_one]; omega
      rw [this]
      exact ih (fun u hu => h u (List.mem_cons_of_mem _ hu)) j (by simpa using hj)

/-- C143: what is read from the buffer of an update is what was written to it, for each particle. -/
theorem C143_buffer (sendV sendOm : Bool) (us : List (Upd n γ)) (junk : List ℝ) (h : ∀ u ∈ us, u.v.isSome = sendV ∧ u.om.isSome = sendOm ∧ u.rest = none) (j : ℕ) (hj : j < us.length) :
    readFrom sendV sendOm (bufferOf us junk) j = us[j] := by
  have hw : ∀ u ∈ us, (wordsOf u).length = ghostWidth n sendV sendOm := by
    intro u hu
    obtain ⟨h1, h2, _⟩ := h u hu
    rw [← h1, ← h2]
    unfold wordsOf ghostWidth
    cases u.v <;> cases u.om <;> simp
    all_goals omega
  obtain ⟨h1, h2, h3⟩ := h us[j] (List.getElem_mem hj)
  have get := fun i hi => flat_get wordsOf _ us junk hw j hj i hi
  generalize us[j] = u at h1 h2 h3 get
  obtain ⟨x, v, om, rest⟩ := u
  simp only at h1 h2 h3
  unfold readFrom bufferOf
  simp only [List.getD_eq_getElem?_getD]
  subst h1 h2 h3
  have l1 : (List.ofFn x).length = n + 1 := List.length_ofFn
  have gx : ∀ k : Fin (n + 1), (us.flatMap wordsOf ++ junk)[ghostWidth n v.isSome om.isSome * j + k]?.getD 0 = x k := by
    intro k
    rw [get k (by unfold ghostWidth; omega)]
    unfold wordsOf
    simp only []
    rw [List.append_assoc, List.getElem?_append_left (by rw [l1]; exact k.2), List.getElem?_ofFn, dif_pos k.2]
    rfl
  have gv : ∀ w, v = some w → ∀ k : Fin (n + 1), (us.flatMap wordsOf ++ junk)[ghostWidth n v.isSome om.isSome * j + (n + 1) + k]?.getD 0 = w k := by
    intro w hw k
    subst hw
    rw [Nat.add_assoc, get (n + 1 + k) (by unfold ghostWidth; simp; omega)]
    unfold wordsOf
    simp only []
    rw [List.append_assoc, List.getElem?_append_right (by rw [l1]; omega), l1, List.getElem?_append_left (by rw [List.length_ofFn]; omega), Nat.add_sub_cancel_left, List.getElem?_ofFn, dif_pos k.2]
    rfl
  have go : ∀ o, om = some o → (us.flatMap wordsOf ++ junk)[ghostWidth n v.isSome om.isSome * j + ((n + 1) + if v.isSome then n + 1 else 0)]?.getD 0 = o := by
    intro o ho
    subst ho
    rw [get _ (by unfold ghostWidth; simp)]
    unfold wordsOf
    cases v with
    | none =>
      simp only []
      rw [List.getElem?_append_right (by simp)]
      simp
    | some v =>
      simp only []
      rw [List.getElem?_append_right (by simp), List.length_append, List.length_ofFn, List.length_ofFn, Option.isSome_some, if_pos rfl, Nat.sub_self]
      rfl
  simp only [gx]
  congr 1
  · cases hv : v with
    | none => rfl
    | some w =>
      subst hv
      simp only [Option.isSome_some, if_true, Option.some.injEq]
      funext k
      exact gv w rfl k
  · cases ho : om with
    | none => rfl
    | some o =>
      subst ho
      simp only [Option.isSome_some, if_true, Option.some.injEq]
      exact go o rfl

/-! ## The number of ghosts -/

/-- `_number[1]` and `_size[1]`. -/
structure Count where
  number : ℕ
  size : ℕ

/-- `addParticle<1>` for each received particle, `base/simdata.tpp:299-304, 41-42`. -/
def addGhosts (c : Count) (k : ℕ) : Count := ⟨c.number + k, c.size + k⟩

/-- One neighbour, `parallel/kdtreetopology.cpp:186-190`: after the particles are added the number is changed again (`change_simdata_number`, `base/topology.cpp:82-84`). -/
def countFrom (c : Count) (k : ℕ) : Count := ⟨(addGhosts c k).number + k, (addGhosts c k).size⟩

/-- `create_ghost_particles` after `removeGhostParticles` (`base/simdata.cpp:238-250`), `parallel/kdtreetopology.cpp:181-191`. -/
def countAll (sizes : List ℕ) : Count := sizes.foldl countFrom ⟨0, 0⟩

theorem countAll_eq (sizes : List ℕ) : countAll sizes = ⟨2 * sizes.sum, sizes.sum⟩ := by
  have gen : ∀ (l : List ℕ) (c : Count), l.foldl countFrom c = ⟨c.number + 2 * l.sum, c.size + l.sum⟩ := by
    intro l
    induction l with
    | nil => intro c; simp
    | cons a l ih =>
      intro c
      rw [List.foldl_cons, ih, List.sum_cons]
      unfold countFrom addGhosts
      simp only [Count.mk.injEq]
      constructor <;> ring
  unfold countAll
  rw [gen]
  simp

/-- C143, partial. The size of the ghosts is the number of ghosts received. Missing: `number_ghosts`, `number` (`C143_negation_number`). -/
theorem C143_size_partial (sizes : List ℕ) : (countAll sizes).size = sizes.sum := by rw [countAll_eq]

/-- C143 is false for the number of ghosts that is reported (`number_ghosts`, `base/simdata.cpp:297-299`): it is twice the number of ghosts. -/
theorem C143_negation_number (sizes : List ℕ) : (countAll sizes).number = 2 * (countAll sizes).size := by rw [countAll_eq]

example : countAll [2, 0, 3] = ⟨10, 5⟩ := rfl

/-! ## Example -/

/-- Three processors on a line; particles (radius 0.2) move by 0.01 for each ghost they see. -/
noncomputable def exCfg : Cfg 0 Unit :=
  ⟨line3, fun _ => false, 3, true, false, 25/1000, fun _ => (2/10, 1), fun _ _ l g => l.map fun a => { a with x := fun k => a.x k + g.length / 100 }⟩

/-- One particle on the second processor. -/
noncomputable def exStart : ℕ → St 0 Unit := fun p => ⟨if p = 1 then [⟨fun _ => 105/100, fun _ => 1, 0, ()⟩] else [], fun _ => [], [], fun _ => 0⟩

/-- C143, the hypotheses are met, and there is a ghost. -/
example : 2 ≤ exCfg.P ∧ (∀ r p l g, (exCfg.evolve r p l g).length = l.length) ∧ (∀ k, exCfg.b.lo k < exCfg.b.hi k) ∧ idsFor exCfg 1 (exStart 1).owned 0 = [0] := by
  refine ⟨by decide, fun r p l g => by simp [exCfg], fun k => by norm_num [exCfg, line3], ?_⟩
  exact C76_negation_small_particle.2.2.2.2

end Verif.Ghosts
