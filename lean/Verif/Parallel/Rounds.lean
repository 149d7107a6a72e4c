import Mathlib.Data.List.Nodup
import Mathlib.Data.Finset.Max
import Mathlib.Algebra.BigOperators.Group.Finset.Basic
import Mathlib.Algebra.Order.BigOperators.Group.Finset
import Mathlib.Tactic.Ring
import Mathlib.Tactic.Linarith

/-!
# Rounds of messages between processors (C141)

Models the communication of `parallel/kdtreetopology.cpp` and `parallel/kdtreetopology.tpp`: in `exchange_particles`, `create_ghost_particles` and `send_ghost_updates` with
`recv_ghost_updates` every processor first starts its sends to all neighbours, in the order of its list, then receives from all neighbours in the order of its list, then waits for its sends
to be completed. With sizes (exchange, creation of ghosts): a message with the number of particles, then, if it is not 0, one with the particles. Without sizes (updates): one message with
the particles, if the number known from before is not 0. Processors run at any speed. What they send and what they do with the received is any function of their own state.

Simplifications: messages from one processor to another arrive in the order of sending (MPI promises it per tag; each receive names the tag of the message it waits for, in the order of sending).
A message carries the value at the time of sending (for the sizes that is not promised, see `Exchange.C142_negation_slot`). A receive of a message of the wrong kind or length blocks forever.
-/

namespace Verif.Rounds

variable {σ α : Type}

/-- A message: a number of particles (`send_single`, `parallel/kdtreetopology.tpp:9, 25`), or particles (`MPI_Isend`, 13, 31; `parallel/kdtreetopology.cpp:219`). -/
inductive Msg (α : Type) where
  | size (n : ℕ)
  | data (l : List α)

/-- A parallel program: neighbours (`neighbor_ranks`), what each processor sends to which neighbour in which round, what it makes of the received lists, which rounds send sizes, and the numbers expected
in those that do not (`recv_ghost_sizes`). -/
structure Program (σ α : Type) where
  nb : ℕ → List ℕ
  out : ℕ → ℕ → σ → ℕ → List α
  next : ℕ → ℕ → σ → List (ℕ × List α) → σ
  sized : ℕ → Bool
  expect : ℕ → ℕ → σ → ℕ → ℕ

/-- Where a processor is in its round: messages still to send, or neighbours still to receive from, with the size just received, and the received lists. -/
inductive Ctl (α : Type) where
  | sending (todo : List (ℕ × Msg α))
  | recving (todo : List ℕ) (pend : Option ℕ) (acc : List (ℕ × List α))

/-- A processor. -/
structure Proc (σ α : Type) where
  round : ℕ
  st : σ
  ctl : Ctl α

/-- All processors; `sent p q` are the messages sent from `p` to `q` so far, `read p q` is how many of these `q` has received. -/
structure Net (σ α : Type) where
  procs : ℕ → Proc σ α
  sent : ℕ → ℕ → List (Msg α)
  read : ℕ → ℕ → ℕ

/-- The messages of one processor to one neighbour in a round, `parallel/kdtreetopology.tpp:7-15, 23-33`, `parallel/kdtreetopology.cpp:209-221`. -/
def packet (sized : Bool) (l : List α) : List (Msg α) :=
  (if sized then [.size l.length] else []) ++ if l.length > 0 then [.data l] else []

/-- The loop of sends, `parallel/kdtreetopology.cpp:117-118, 176-177, 209-221`. -/
def sends (pr : Program σ α) (r p : ℕ) (s : σ) : List (ℕ × Msg α) :=
  (pr.nb p).flatMap fun q => (packet (pr.sized r) (pr.out r p s q)).map fun m => (q, m)

/-- A processor at the start of a round. -/
def start (pr : Program σ α) (r p : ℕ) (s : σ) : Proc σ α := ⟨r, s, .sending (sends pr r p s)⟩

/-- The next action of a processor; `none` if it is blocked, or has done `R` rounds. With `sync` a send is complete when the message is received (so `MPI_Waitall` at the end of a round,
`parallel/kdtreetopology.cpp:140, 195, 286`, waits for all receivers), without it when it is sent. Receives: `parallel/kdtreetopology.cpp:135-138, 184-191, 238-259`,
`parallel/kdtreetopology.tpp:40-60`. -/
def step (pr : Program σ α) (R : ℕ) (sync : Bool) (net : Net σ α) (p : ℕ) : Option (Net σ α) :=
  let me := net.procs p
  if me.round < R then
    match me.ctl with
    | .sending ((q, m) :: t) => some
        ⟨Function.update net.procs p { me with ctl := .sending t },
          fun a b => if a = p ∧ b = q then net.sent a b ++ [m] else net.sent a b, net.read⟩
    | .sending [] => some ⟨Function.update net.procs p { me with ctl := .recving (pr.nb p) none [] }, net.sent, net.read⟩
    | .recving (q :: t) none acc =>
      if pr.sized me.round then
        match (net.sent q p)[net.read q p]? with
        | some (.size n) => some
            ⟨Function.update net.procs p { me with ctl := if n > 0 then .recving (q :: t) (some n) acc else .recving t none (acc ++ [(q, [])]) }, net.sent,
              fun a b => if a = q ∧ b = p then net.read a b + 1 else net.read a b⟩
        | _ => none
      else
        let n := pr.expect me.round p me.st q
        some ⟨Function.update net.procs p { me with ctl := if n > 0 then .recving (q :: t) (some n) acc else .recving t none (acc ++ [(q, [])]) }, net.sent, net.read⟩
    | .recving (q :: t) (some n) acc =>
      match (net.sent q p)[net.read q p]? with
      | some (.data l) =>
        if l.length = n then some
          ⟨Function.update net.procs p { me with ctl := .recving t none (acc ++ [(q, l)]) }, net.sent, fun a b => if a = q ∧ b = p then net.read a b + 1 else net.read a b⟩
        else none
      | _ => none
    | .recving [] _ acc =>
      if sync = false ∨ ∀ q ∈ pr.nb p, net.read p q = (net.sent p q).length then
        some ⟨Function.update net.procs p (start pr (me.round + 1) p (pr.next me.round p me.st acc)), net.sent, net.read⟩
      else none
  else none

/-- The start of the program. -/
def start0 (pr : Program σ α) (s0 : ℕ → σ) : Net σ α := ⟨fun p => start pr 0 p (s0 p), fun _ _ => [], fun _ _ => 0⟩

/-- `Run pr P R sync s0 k net`: the first `P` processors, in any order, have made `k` actions together. -/
inductive Run (pr : Program σ α) (P R : ℕ) (sync : Bool) (s0 : ℕ → σ) : ℕ → Net σ α → Prop where
  | init : Run pr P R sync s0 0 (start0 pr s0)
  | step (k : ℕ) (net net' : Net σ α) (p : ℕ) (hp : p < P) (h : Run pr P R sync s0 k net) (hs : step pr R sync net p = some net') : Run pr P R sync s0 (k + 1) net'

/-! ## Specification: all processors in step -/

/-- The states if all processors exchange all lists at once, round by round. -/
def lock (pr : Program σ α) (s0 : ℕ → σ) : ℕ → ℕ → σ
  | 0, p => s0 p
  | r + 1, p => pr.next r p (lock pr s0 r p) ((pr.nb p).map fun q => (q, pr.out r q (lock pr s0 r q) p))

/-- The neighbours are proper: different processors, mutual. -/
structure Proper (pr : Program σ α) (P : ℕ) : Prop where
  nodup : ∀ p < P, (pr.nb p).Nodup
  lt : ∀ p < P, ∀ q ∈ pr.nb p, q < P
  symm : ∀ p < P, ∀ q ∈ pr.nb p, p ∈ pr.nb q

/-- In rounds without sizes, the numbers expected are the numbers sent (if all processors are in step). -/
def Agreed (pr : Program σ α) (P : ℕ) (s0 : ℕ → σ) : Prop :=
  ∀ r p q, p < P → q ∈ pr.nb p → pr.sized r = false → pr.expect r p (lock pr s0 r p) q = (pr.out r q (lock pr s0 r q) p).length

/-! ## Logs -/

/-- All messages from `p` to `q` of the first rounds. -/
def logs (pr : Program σ α) (s0 : ℕ → σ) (p q : ℕ) : ℕ → List (Msg α)
  | 0 => []
  | r + 1 => logs pr s0 p q r ++ packet (pr.sized r) (pr.out r p (lock pr s0 r p) q)

theorem logs_prefix (pr : Program σ α) (s0 : ℕ → σ) (p q : ℕ) {a b : ℕ} (h : a ≤ b) : logs pr s0 p q a <+: logs pr s0 p q b := by
  induction b with
  | zero => rw [Nat.le_zero.mp h]
  | succ b ih =>
    rcases Nat.lt_or_eq_of_le h with h | h
    · exact (ih (by omega)).trans (List.prefix_append _ _)
    · rw [h]

/-- The messages of a list of sends to one processor. -/
def todoFor (q : ℕ) (todo : List (ℕ × Msg α)) : List (Msg α) := (todo.filter fun x => x.1 == q).map (·.2)

theorem todoFor_flat (l : List ℕ) (f : ℕ → List (Msg α)) (q : ℕ) (hn : l.Nodup) :
    todoFor q (l.flatMap fun q => (f q).map fun m => (q, m)) = if q ∈ l then f q else [] := by
  induction l with
  | nil => rfl
  | cons a l ih =>
    obtain ⟨h1, h2⟩ := List.nodup_cons.mp hn
    rw [List.flatMap_cons]
    unfold todoFor at ih ⊢
    rw [List.filter_append, List.map_append, ih h2]
    by_cases e : a = q
    · subst e
      have : ((f a).map fun m => (a, m)).filter (fun x => x.1 == a) = (f a).map fun m => (a, m) := by
        apply List.filter_eq_self.mpr
        intro x hx
        obtain ⟨m, _, rfl⟩ := List.mem_map.mp hx
        simp
      rw [this, if_neg h1, if_pos List.mem_cons_self, List.append_nil, List.map_map]
      simp [Function.comp_def]
    · have : ((f a).map fun m => (a, m)).filter (fun x => x.1 == q) = [] := by
        apply List.filter_eq_nil_iff.mpr
        intro x hx
        obtain ⟨m, _, rfl⟩ := List.mem_map.mp hx
        simpa using e
      rw [this, List.map_nil, List.nil_append]
      by_cases hq : q ∈ l
      · rw [if_pos hq, if_pos (List.mem_cons_of_mem _ hq)]
      · rw [if_neg hq, if_neg]
        intro hc
        rcases List.mem_cons.mp hc with rfl | hc
        · exact e rfl
        · exact hq hc

/-! ## The invariant -/

/-- What holds of a processor: its state is that of the lockstep; what it has sent and received are the messages of the lockstep. -/
def Good (pr : Program σ α) (s0 : ℕ → σ) (net : Net σ α) (p : ℕ) : Prop :=
  (net.procs p).st = lock pr s0 (net.procs p).round p ∧
  (∀ q ∈ pr.nb p, net.read q p ≤ (net.sent q p).length) ∧
  match (net.procs p).ctl with
  | .sending todo => ∀ q ∈ pr.nb p, net.sent p q ++ todoFor q todo = logs pr s0 p q ((net.procs p).round + 1) ∧ net.read q p = (logs pr s0 q p (net.procs p).round).length
  | .recving todo pend acc =>
    (∀ q ∈ pr.nb p, net.sent p q = logs pr s0 p q ((net.procs p).round + 1)) ∧
    ∃ done, pr.nb p = done ++ todo ∧ acc = done.map (fun q => (q, pr.out (net.procs p).round q (lock pr s0 (net.procs p).round q) p)) ∧
      (∀ q ∈ done, net.read q p = (logs pr s0 q p ((net.procs p).round + 1)).length) ∧
      (∀ q ∈ todo.tail, net.read q p = (logs pr s0 q p (net.procs p).round).length) ∧
      match todo, pend with
      | [], none => True
      | [], some _ => False
      | q :: _, none => net.read q p = (logs pr s0 q p (net.procs p).round).length
      | q :: _, some n => n > 0 ∧ n = (pr.out (net.procs p).round q (lock pr s0 (net.procs p).round q) p).length ∧
          net.read q p = (logs pr s0 q p (net.procs p).round).length + if pr.sized (net.procs p).round then 1 else 0

/-- What a processor has sent is the beginning of the messages of the lockstep. -/
theorem sent_prefix (pr : Program σ α) (s0 : ℕ → σ) (net : Net σ α) (p : ℕ) (h : Good pr s0 net p) (q : ℕ) (hq : q ∈ pr.nb p) :
    net.sent p q <+: logs pr s0 p q ((net.procs p).round + 1) := by
  obtain ⟨_, _, h⟩ := h
  split at h
  · rw [← (h q hq).1]
    exact List.prefix_append _ _
  · rw [h.1 q hq]

/-- A message that has arrived is the one of the lockstep. -/
theorem arrived (pr : Program σ α) (s0 : ℕ → σ) (net : Net σ α) (p q : ℕ) (h : Good pr s0 net q) (hp : p ∈ pr.nb q) (i r : ℕ) (m m' : Msg α)
    (h1 : (net.sent q p)[i]? = some m) (h2 : (logs pr s0 q p r)[i]? = some m') : m = m' := by
  have a := (sent_prefix pr s0 net q h p hp).trans (logs_prefix pr s0 q p (le_max_left ((net.procs q).round + 1) r))
  have b := logs_prefix pr s0 q p (le_max_right ((net.procs q).round + 1) r)
  obtain ⟨u, hu⟩ := a
  obtain ⟨v, hv⟩ := b
  have i1 : i < (net.sent q p).length := (List.getElem?_eq_some_iff.mp h1).1
  have i2 : i < (logs pr s0 q p r).length := (List.getElem?_eq_some_iff.mp h2).1
  have e1 : (logs pr s0 q p (max ((net.procs q).round + 1) r))[i]? = some m := by rw [← hu, List.getElem?_append_left i1, h1]
  have e2 : (logs pr s0 q p (max ((net.procs q).round + 1) r))[i]? = some m' := by rw [← hv, List.getElem?_append_left i2, h2]
  exact Option.some.inj (e1.symm.trans e2)

/-- A processor that has finished its sends of round `r` (or a later one) has sent all messages of that round. -/
def Past (net : Net σ α) (q r : ℕ) : Prop := r < (net.procs q).round ∨ (net.procs q).round = r ∧ ∃ t n a, (net.procs q).ctl = .recving t n a

theorem past_prefix (pr : Program σ α) (s0 : ℕ → σ) (net : Net σ α) (q p r : ℕ) (h : Good pr s0 net q) (hp : p ∈ pr.nb q) (hpast : Past net q r)
    (hr : ∀ todo, (net.procs q).ctl = .sending todo → logs pr s0 q p (net.procs q).round <+: net.sent q p) : logs pr s0 q p (r + 1) <+: net.sent q p := by
  obtain ⟨_, _, h⟩ := h
  rcases hpast with hlt | ⟨he, t, n, a, hc⟩
  · cases hc : (net.procs q).ctl with
    | sending todo => exact (logs_prefix pr s0 q p (by omega)).trans (hr todo hc)
    | recving t n a =>
      rw [hc] at h
      rw [h.1 p hp]
      exact logs_prefix pr s0 q p (by omega)
  · rw [hc] at h
    rw [h.1 p hp, he]

/-- What is still to be sent belongs to the present round. -/
def Rest (pr : Program σ α) (s0 : ℕ → σ) (net : Net σ α) (p : ℕ) : Prop :=
  ∀ todo, (net.procs p).ctl = .sending todo → todo.length ≤ (pr.nb p).length * 2 ∧
    ∀ q ∈ pr.nb p, logs pr s0 p q (net.procs p).round <+: net.sent p q

theorem packet_length (b : Bool) (l : List α) : (packet b l).length ≤ 2 := by
  unfold packet
  rw [List.length_append]
  have h1 : (if b = true then [Msg.size (α := α) l.length] else []).length ≤ 1 := by split <;> simp
  have h2 : (if l.length > 0 then [Msg.data l] else []).length ≤ 1 := by split <;> simp
  omega

theorem sends_length (pr : Program σ α) (r p : ℕ) (s : σ) : (sends pr r p s).length ≤ (pr.nb p).length * 2 := by
  unfold sends
  generalize pr.nb p = l
  induction l with
  | nil => simp
  | cons a l ih =>
    rw [List.flatMap_cons, List.length_append, List.length_map, List.length_cons]
    have := packet_length (pr.sized r) (pr.out r p s a)
    omega

theorem start_good (pr : Program σ α) (P : ℕ) (hpr : Proper pr P) (s0 : ℕ → σ) (net : Net σ α) (p r : ℕ) (hp : p < P) (hc : net.procs p = start pr r p (lock pr s0 r p))
    (hs : ∀ q ∈ pr.nb p, net.sent p q = logs pr s0 p q r) (hread : ∀ q ∈ pr.nb p, net.read q p = (logs pr s0 q p r).length)
    (hle : ∀ q ∈ pr.nb p, net.read q p ≤ (net.sent q p).length) : Good pr s0 net p ∧ Rest pr s0 net p := by
  constructor
  · unfold Good
    rw [hc]
    refine ⟨rfl, hle, fun q hq => ⟨?_, hread q hq⟩⟩
    rw [hs q hq]
    unfold sends
    rw [todoFor_flat _ _ _ (hpr.nodup p hp), if_pos hq]
    rfl
  · intro todo ht
    rw [hc] at ht
    have e : sends pr r p (lock pr s0 r p) = todo := by
      have := ht
      unfold start at this
      exact Ctl.sending.inj this
    refine ⟨e ▸ sends_length pr r p _, fun q hq => ?_⟩
    rw [hc, hs q hq]
    exact List.prefix_refl _

theorem good_congr (pr : Program σ α) (s0 : ℕ → σ) (net net' : Net σ α) (p : ℕ) (h : Good pr s0 net p ∧ Rest pr s0 net p) (h1 : net'.procs p = net.procs p)
    (h2 : ∀ q ∈ pr.nb p, net'.sent p q = net.sent p q) (h3 : ∀ q ∈ pr.nb p, net'.read q p = net.read q p) (h4 : ∀ q ∈ pr.nb p, (net.sent q p).length ≤ (net'.sent q p).length) :
    Good pr s0 net' p ∧ Rest pr s0 net' p := by
  obtain ⟨⟨a, b, c⟩, d⟩ := h
  constructor
  · unfold Good
    rw [h1]
    refine ⟨a, fun q hq => by rw [h3 q hq]; exact (b q hq).trans (h4 q hq), ?_⟩
    split at c
    · rename_i todo hc
      intro q hq
      rw [h2 q hq, h3 q hq]
      exact c q hq
    · rename_i todo pend acc hc
      obtain ⟨c1, done, c2, c3, c4, c5, c6⟩ := c
      refine ⟨fun q hq => by rw [h2 q hq]; exact c1 q hq, done, c2, c3, fun q hq => ?_, fun q hq => ?_, ?_⟩
      · rw [h3 q (by rw [c2]; exact List.mem_append_left _ hq)]
        exact c4 q hq
      · rw [h3 q (by rw [c2]; exact List.mem_append_right _ (List.mem_of_mem_tail hq))]
        exact c5 q hq
      · revert c6
        cases todo with
        | nil => cases pend <;> exact id
        | cons q t =>
          have := h3 q (by rw [c2]; simp)
          cases pend with
          | none =>
            simp only []
            rw [this]
            exact id
          | some n =>
            simp only []
            rw [this]
            exact id
  · intro todo ht
    rw [h1] at ht ⊢
    obtain ⟨d1, d2⟩ := d todo ht
    exact ⟨d1, fun q hq => by rw [h2 q hq]; exact d2 q hq⟩

theorem packet_get (b : Bool) (l : List α) :
    (b = true → (packet b l)[0]? = some (.size l.length)) ∧ (l.length > 0 → (packet b l)[if b then 1 else 0]? = some (.data l)) ∧
    (packet b l).length = (if b then 1 else 0) + if l.length > 0 then 1 else 0 := by
  unfold packet
  cases b <;> by_cases h : l.length > 0
  · simp [h]
  · have h0 : l = [] := List.length_eq_zero_iff.mp (by omega)
    subst h0
    simp
  · simp [h]
  · have h0 : l = [] := List.length_eq_zero_iff.mp (by omega)
    subst h0
    simp

theorem logs_succ_get (pr : Program σ α) (s0 : ℕ → σ) (q p r i : ℕ) :
    (logs pr s0 q p (r + 1))[(logs pr s0 q p r).length + i]? = (packet (pr.sized r) (pr.out r q (lock pr s0 r q) p))[i]? := by
  show (logs pr s0 q p r ++ _)[_]? = _
  rw [List.getElem?_append_right (by omega), Nat.add_sub_cancel_left]

theorem logs_succ_length (pr : Program σ α) (s0 : ℕ → σ) (q p r : ℕ) :
    (logs pr s0 q p (r + 1)).length = (logs pr s0 q p r).length + (packet (pr.sized r) (pr.out r q (lock pr s0 r q) p)).length := by
  show (logs pr s0 q p r ++ _).length = _
  rw [List.length_append]

/-- Every action keeps the invariant. -/
theorem step_good (pr : Program σ α) (P R : ℕ) (sync : Bool) (hpr : Proper pr P) (s0 : ℕ → σ) (ha : Agreed pr P s0) (net net' : Net σ α) (p : ℕ) (hp : p < P)
    (h : ∀ q < P, Good pr s0 net q ∧ Rest pr s0 net q) (hs : step pr R sync net p = some net') : ∀ q < P, Good pr s0 net' q ∧ Rest pr s0 net' q := by
  have hnotself : ∀ q' < P, q' ≠ p → net'.procs q' = net.procs q' := by
    intro q' _ hne
    unfold step at hs
    simp only [] at hs
    repeat' split at hs
    all_goals first | (simp at hs; done) | (rw [← Option.some.inj hs]; exact Function.update_of_ne hne _ _)
  have hsent : ∀ a b, a ≠ p → net'.sent a b = net.sent a b := by
    intro a b hne
    unfold step at hs
    simp only [] at hs
    repeat' split at hs
    all_goals first | (simp at hs; done) | (rw [← Option.some.inj hs]; try simp [hne])
  have hread : ∀ a b, b ≠ p → net'.read a b = net.read a b := by
    intro a b hne
    unfold step at hs
    simp only [] at hs
    repeat' split at hs
    all_goals first | (simp at hs; done) | (rw [← Option.some.inj hs]; try simp [hne])
  have hgrow : ∀ a b, (net.sent a b).length ≤ (net'.sent a b).length := by
    intro a b
    unfold step at hs
    simp only [] at hs
    repeat' split at hs
    all_goals first | (simp at hs; done) | (rw [← Option.some.inj hs]) 
    · simp only []
      split
      · simp
      · exact le_rfl
  intro q' hq'
  by_cases hne : q' ≠ p
  · exact good_congr pr s0 net net' q' (h q' hq') (hnotself q' hq' hne) (fun q _ => hsent q' q hne) (fun q _ => hread q q' hne) (fun q _ => hgrow q q')
  · push Not at hne
    subst hne
    obtain ⟨⟨g1, g2, g3⟩, rst⟩ := h q' hq'
    unfold step at hs
    simp only [] at hs
    split at hs
    swap
    · simp at hs
    rename_i hR
    split at hs
    · -- a message is sent
      rename_i q m t hc
      rw [← Option.some.inj hs]
      rw [hc] at g3
      obtain ⟨r1, r2⟩ := rst _ hc
      constructor
      · unfold Good
        simp only [Function.update_self]
        refine ⟨g1, fun a haq => ?_, fun a haq => ⟨?_, (g3 a haq).2⟩⟩
        · split
          · rw [List.length_append]
            have := g2 a haq
            omega
          · exact g2 a haq
        · rw [← (g3 a haq).1]
          unfold todoFor
          by_cases e : a = q
          · subst e
            simp
          · rw [if_neg (by simp [e]), List.filter_cons_of_neg (by simpa using fun h => e h.symm)]
      · intro todo ht
        simp only [Function.update_self] at ht ⊢
        have e := Ctl.sending.inj ht
        subst e
        refine ⟨by rw [List.length_cons] at r1; omega, fun a haq => ?_⟩
        split
        · exact (r2 a haq).trans (List.prefix_append _ _)
        · exact r2 a haq
    · -- all messages are sent
      rename_i hc
      rw [← Option.some.inj hs]
      rw [hc] at g3
      constructor
      · unfold Good
        simp only [Function.update_self]
        refine ⟨g1, g2, fun a haq => ?_, [], rfl, rfl, by simp, fun a haq => (g3 a (List.mem_of_mem_tail haq)).2, ?_⟩
        · have := (g3 a haq).1
          unfold todoFor at this
          simpa using this
        · cases hnb : pr.nb q' with
          | nil => trivial
          | cons a l => exact (g3 a (by rw [hnb]; simp)).2
      · intro todo ht
        simp [Function.update_self] at ht
    · -- receive a size
      rename_i q t acc hc
      rw [hc] at g3
      obtain ⟨c1, done, c2, c3, c4, c5, c6⟩ := g3
      simp only [] at c6
      have nd := hpr.nodup q' hq'
      rw [c2] at nd
      have hqnb : q ∈ pr.nb q' := by rw [c2]; simp
      have qlt : q < P := hpr.lt q' hq' q hqnb
      have hback : q' ∈ pr.nb q := hpr.symm q' hq' q hqnb
      have qd : q ∉ done := fun hh => (List.nodup_append.mp nd).2.2 q hh q (by simp) rfl
      have qt : q ∉ t := (List.nodup_cons.mp (List.nodup_append.mp nd).2.1).1
      split at hs
      · rename_i hsz
        split at hs
        · rename_i n hmsg
          have hn : n = (pr.out (net.procs q').round q (lock pr s0 (net.procs q').round q) q').length := by
            have e2 : (logs pr s0 q q' ((net.procs q').round + 1))[net.read q q']? = some (.size (pr.out (net.procs q').round q (lock pr s0 (net.procs q').round q) q').length) := by
              have := logs_succ_get pr s0 q q' (net.procs q').round 0
              rw [← c6, Nat.add_zero (net.read q q')] at this
              rw [this, hsz]
              exact (packet_get true _).1 rfl
            have := arrived pr s0 net q' q (h q qlt).1 hback _ _ _ _ hmsg e2
            exact Msg.size.inj this
          have bnd : net.read q q' < (net.sent q q').length := (List.getElem?_eq_some_iff.mp hmsg).1
          rw [← Option.some.inj hs]
          by_cases hz : n > 0
          · rw [if_pos hz]
            constructor
            · unfold Good
              simp only [Function.update_self]
              refine ⟨g1, fun a haq => ?_, c1, done, c2, c3, fun a had => ?_, fun a hat => ?_, hz, hn, ?_⟩
              · split
                · rename_i e
                  rw [e.1]
                  omega
                · exact g2 a haq
              · rw [if_neg (by rintro ⟨rfl, _⟩; exact qd had)]
                exact c4 a had
              · rw [if_neg (by rintro ⟨rfl, _⟩; exact qt hat)]
                exact c5 a hat
              · rw [if_pos (by simp), hsz, c6]
                simp
            · intro todo ht
              simp [Function.update_self] at ht
          · rw [if_neg hz]
            have hempty : pr.out (net.procs q').round q (lock pr s0 (net.procs q').round q) q' = [] := List.length_eq_zero_iff.mp (by omega)
            constructor
            · unfold Good
              simp only [Function.update_self]
              refine ⟨g1, fun a haq => ?_, c1, done ++ [q], by rw [c2]; simp, by rw [c3]; simp [hempty], fun a had => ?_, fun a hat => ?_, ?_⟩
              · split
                · rename_i e
                  rw [e.1]
                  omega
                · exact g2 a haq
              · rcases List.mem_append.mp had with had' | had
                · rw [if_neg (by rintro ⟨rfl, _⟩; exact qd had')]
                  exact c4 a had'
                · rw [List.mem_singleton.mp had, if_pos (by simp), c6, logs_succ_length, (packet_get _ _).2.2, hsz, if_pos rfl, hempty]
                  simp
              · have hat' := List.mem_of_mem_tail hat
                rw [if_neg (by rintro ⟨rfl, _⟩; exact qt hat')]
                exact c5 a hat'
              · cases t with
                | nil => trivial
                | cons a l =>
                  simp only []
                  rw [if_neg (by rintro ⟨rfl, _⟩; exact qt (by simp))]
                  exact c5 a (by simp)
            · intro todo ht
              simp [Function.update_self] at ht
        · simp at hs
      · rename_i hsz
        have hsz' : pr.sized (net.procs q').round = false := by simpa using hsz
        have hn : pr.expect (net.procs q').round q' (net.procs q').st q = (pr.out (net.procs q').round q (lock pr s0 (net.procs q').round q) q').length := by
          rw [g1]
          exact ha _ _ _ hq' hqnb hsz'
        rw [← Option.some.inj hs]
        rw [hn]
        by_cases hz : (pr.out (net.procs q').round q (lock pr s0 (net.procs q').round q) q').length > 0
        · rw [if_pos hz]
          constructor
          · unfold Good
            simp only [Function.update_self]
            refine ⟨g1, g2, c1, done, c2, c3, c4, c5, hz, trivial, ?_⟩
            rw [hsz', c6]
            simp
          · intro todo ht
            simp [Function.update_self] at ht
        · rw [if_neg hz]
          have hempty : pr.out (net.procs q').round q (lock pr s0 (net.procs q').round q) q' = [] := List.length_eq_zero_iff.mp (by omega)
          constructor
          · unfold Good
            simp only [Function.update_self]
            refine ⟨g1, g2, c1, done ++ [q], by rw [c2]; simp, by rw [c3]; simp [hempty], fun a had => ?_, fun a hat => c5 a (List.mem_of_mem_tail hat), ?_⟩
            · rcases List.mem_append.mp had with had | had
              · exact c4 a had
              · rw [List.mem_singleton.mp had, c6, logs_succ_length, (packet_get _ _).2.2, hsz', hempty]
                simp
            · cases t with
              | nil => trivial
              | cons a l => exact c5 a (by simp)
          · intro todo ht
            simp [Function.update_self] at ht
    · -- receive data
      rename_i q t n acc hc
      rw [hc] at g3
      obtain ⟨c1, done, c2, c3, c4, c5, c6⟩ := g3
      simp only [] at c6
      obtain ⟨c6, c7, c8⟩ := c6
      have nd := hpr.nodup q' hq'
      rw [c2] at nd
      have hqnb : q ∈ pr.nb q' := by rw [c2]; simp
      have qlt : q < P := hpr.lt q' hq' q hqnb
      have hback : q' ∈ pr.nb q := hpr.symm q' hq' q hqnb
      have qd : q ∉ done := fun hh => (List.nodup_append.mp nd).2.2 q hh q (by simp) rfl
      have qt : q ∉ t := (List.nodup_cons.mp (List.nodup_append.mp nd).2.1).1
      split at hs
      · rename_i l hmsg
        split at hs
        · have hl : l = pr.out (net.procs q').round q (lock pr s0 (net.procs q').round q) q' := by
            have e2 : (logs pr s0 q q' ((net.procs q').round + 1))[net.read q q']? = some (.data (pr.out (net.procs q').round q (lock pr s0 (net.procs q').round q) q')) := by
              rw [c8, logs_succ_get]
              exact (packet_get _ _).2.1 (by omega)
            exact Msg.data.inj (arrived pr s0 net q' q (h q qlt).1 hback _ _ _ _ hmsg e2)
          have bnd : net.read q q' < (net.sent q q').length := (List.getElem?_eq_some_iff.mp hmsg).1
          rw [← Option.some.inj hs]
          constructor
          · unfold Good
            simp only [Function.update_self]
            refine ⟨g1, fun a haq => ?_, c1, done ++ [q], by rw [c2]; simp, by rw [c3]; simp [hl], fun a had => ?_, fun a hat => ?_, ?_⟩
            · split
              · rename_i e
                rw [e.1]
                omega
              · exact g2 a haq
            · rcases List.mem_append.mp had with had' | had
              · rw [if_neg (by rintro ⟨rfl, _⟩; exact qd had')]
                exact c4 a had'
              · rw [List.mem_singleton.mp had, if_pos (by simp), c8, logs_succ_length, (packet_get _ _).2.2, if_pos (show (pr.out (net.procs q').round q (lock pr s0 (net.procs q').round q) q').length > 0 by omega)]
                omega
            · have hat' := List.mem_of_mem_tail hat
              rw [if_neg (by rintro ⟨rfl, _⟩; exact qt hat')]
              exact c5 a hat'
            · cases t with
              | nil => trivial
              | cons a l =>
                simp only []
                rw [if_neg (by rintro ⟨rfl, _⟩; exact qt (by simp))]
                exact c5 a (by simp)
          · intro todo ht
            simp [Function.update_self] at ht
        · simp at hs
      · simp at hs
    · -- the next round
      rename_i pend acc hc
      rw [hc] at g3
      obtain ⟨c1, done, c2, c3, c4, c5, c6⟩ := g3
      rw [List.append_nil] at c2
      split at hs
      · rw [← Option.some.inj hs]
        apply start_good pr P hpr s0 _ q' ((net.procs q').round + 1) hq'
        · simp only [Function.update_self]
          rw [g1, c3, ← c2]
          rfl
        · exact c1
        · intro q hq
          exact c4 q (by rw [← c2]; exact hq)
        · exact g2
      · simp at hs

theorem run_good (pr : Program σ α) (P R : ℕ) (sync : Bool) (hpr : Proper pr P) (s0 : ℕ → σ) (ha : Agreed pr P s0) (k : ℕ) (net : Net σ α) (h : Run pr P R sync s0 k net) :
    ∀ q < P, Good pr s0 net q ∧ Rest pr s0 net q := by
  induction h with
  | init =>
    intro q hq
    exact start_good pr P hpr s0 _ q 0 hq rfl (fun _ _ => rfl) (fun _ _ => rfl) (fun _ _ => le_rfl)
  | step k net net' p hp _ hs ih => exact step_good pr P R sync hpr s0 ha net net' p hp ih hs

/-! ## No deadlock -/

/-- A processor that waits for a message of a neighbour that is past its sends of the round can go on. -/
theorem can_receive (pr : Program σ α) (P R : ℕ) (sync : Bool) (hpr : Proper pr P) (s0 : ℕ → σ) (net : Net σ α) (h : ∀ q < P, Good pr s0 net q ∧ Rest pr s0 net q) (p : ℕ) (hp : p < P)
    (hR : (net.procs p).round < R) (q : ℕ) (t : List ℕ) (pend : Option ℕ) (acc : List (ℕ × List α)) (hc : (net.procs p).ctl = .recving (q :: t) pend acc)
    (hpast : Past net q (net.procs p).round) : (step pr R sync net p).isSome := by
  obtain ⟨⟨g1, g2, g3⟩, _⟩ := h p hp
  rw [hc] at g3
  obtain ⟨c1, done, c2, c3, c4, c5, c6⟩ := g3
  have hqnb : q ∈ pr.nb p := by rw [c2]; simp
  have qlt : q < P := hpr.lt p hp q hqnb
  have hback : p ∈ pr.nb q := hpr.symm p hp q hqnb
  obtain ⟨gq, rq⟩ := h q qlt
  obtain ⟨u, hu⟩ := past_prefix pr s0 net q p _ gq hback hpast (fun todo ht => (rq todo ht).2 p hback)
  unfold step
  simp only []
  rw [if_pos hR, hc]
  cases pend with
  | none =>
    simp only [] at c6 ⊢
    by_cases hsz : pr.sized (net.procs p).round = true
    · rw [if_pos hsz]
      have e : (net.sent q p)[net.read q p]? = some (.size (pr.out (net.procs p).round q (lock pr s0 (net.procs p).round q) p).length) := by
        have hg := logs_succ_get pr s0 q p (net.procs p).round 0
        rw [← c6, Nat.add_zero (net.read q p), hsz, (packet_get true _).1 rfl] at hg
        rw [← hu, List.getElem?_append_left (List.getElem?_eq_some_iff.mp hg).1, hg]
      rw [e]
      rfl
    · rw [if_neg hsz]
      rfl
  | some n =>
    simp only [] at c6 ⊢
    obtain ⟨c6, c7, c8⟩ := c6
    have e : (net.sent q p)[net.read q p]? = some (.data (pr.out (net.procs p).round q (lock pr s0 (net.procs p).round q) p)) := by
      have hg := logs_succ_get pr s0 q p (net.procs p).round (if pr.sized (net.procs p).round then 1 else 0)
      rw [← c8, (packet_get _ _).2.1 (by omega)] at hg
      rw [← hu, List.getElem?_append_left (List.getElem?_eq_some_iff.mp hg).1, hg]
    rw [e]
    simp only []
    rw [if_pos c7.symm]
    rfl

theorem sending_can (pr : Program σ α) (R : ℕ) (sync : Bool) (net : Net σ α) (p : ℕ) (hR : (net.procs p).round < R) (todo : List (ℕ × Msg α))
    (hc : (net.procs p).ctl = .sending todo) : (step pr R sync net p).isSome := by
  unfold step
  simp only []
  rw [if_pos hR, hc]
  cases todo <;> rfl

theorem progress (pr : Program σ α) (P R : ℕ) (sync : Bool) (hpr : Proper pr P) (s0 : ℕ → σ) (net : Net σ α) (h : ∀ q < P, Good pr s0 net q ∧ Rest pr s0 net q)
    (hstuck : ∀ p < P, step pr R sync net p = none) : ∀ p < P, R ≤ (net.procs p).round := by
  by_contra hcon
  push Not at hcon
  obtain ⟨p0, hp0, hr0⟩ := hcon
  -- a processor that is furthest behind
  obtain ⟨p, hp, hmin⟩ := Finset.exists_min_image (Finset.range P) (fun q => (net.procs q).round) ⟨p0, Finset.mem_range.mpr hp0⟩
  have hp := Finset.mem_range.mp hp
  have hmin : ∀ q < P, (net.procs p).round ≤ (net.procs q).round := fun q hq => hmin q (Finset.mem_range.mpr hq)
  have hR : (net.procs p).round < R := lt_of_le_of_lt (hmin p0 hp0) hr0
  have nosend : ∀ q < P, (net.procs q).round < R → ∀ todo, (net.procs q).ctl ≠ .sending todo := by
    intro q hq hqR todo hc
    have := sending_can pr R sync net q hqR todo hc
    rw [hstuck q hq] at this
    simp at this
  have past : ∀ q < P, Past net q (net.procs p).round := by
    intro q hq
    rcases Nat.lt_or_eq_of_le (hmin q hq) with hlt | he
    · exact Or.inl hlt
    · refine Or.inr ⟨he.symm, ?_⟩
      cases hc : (net.procs q).ctl with
      | sending todo => exact absurd hc (nosend q hq (by omega) todo)
      | recving t n a => exact ⟨t, n, a, rfl⟩
  -- none in that round waits for a message
  have norecv : ∀ q < P, (net.procs q).round = (net.procs p).round → ∀ a t n acc, (net.procs q).ctl ≠ .recving (a :: t) n acc := by
    intro q hq he a t n acc hc
    have ga := (h q hq).1.2.2
    rw [hc] at ga
    obtain ⟨_, done, c2, _⟩ := ga
    have alt : a < P := hpr.lt q hq a (by rw [c2]; simp)
    have := can_receive pr P R sync hpr s0 net h q hq (by omega) a t n acc hc (he ▸ past a alt)
    rw [hstuck q hq] at this
    simp at this
  cases hc : (net.procs p).ctl with
  | sending todo => exact nosend p hp hR todo hc
  | recving todo pend acc =>
    cases todo with
    | cons a t => exact norecv p hp rfl a t pend acc hc
    | nil =>
      have gp := (h p hp).1.2.2
      rw [hc] at gp
      obtain ⟨c1, done, c2, c3, c4, c5, c6⟩ := gp
      have hs := hstuck p hp
      unfold step at hs
      simp only [] at hs
      rw [if_pos hR, hc] at hs
      simp only [] at hs
      split at hs
      · simp at hs
      · rename_i hn
        push Not at hn
        obtain ⟨_, q, hqnb, hneq⟩ := hn
        have qlt : q < P := hpr.lt p hp q hqnb
        have hback : p ∈ pr.nb q := hpr.symm p hp q hqnb
        obtain ⟨⟨q1, q2, q3⟩, _⟩ := h q qlt
        apply hneq
        apply le_antisymm (q2 p hback)
        rw [c1 q hqnb]
        cases hqc : (net.procs q).ctl with
        | sending todo =>
          have hlt : (net.procs p).round < (net.procs q).round := by
            rcases Nat.lt_or_eq_of_le (hmin q qlt) with hlt | he
            · exact hlt
            · exact absurd hqc (nosend q qlt (by omega) todo)
          rw [hqc] at q3
          rw [(q3 p hback).2]
          exact (logs_prefix pr s0 p q (by omega)).length_le
        | recving t n a =>
          rw [hqc] at q3
          obtain ⟨d1, dn, d2, d3, d4, d5, d6⟩ := q3
          by_cases hin : p ∈ dn
          · rw [d4 p hin]
            exact (logs_prefix pr s0 p q (by have := hmin q qlt; omega)).length_le
          · have hin' : p ∈ t := by
              rw [d2] at hback
              exact (List.mem_append.mp hback).resolve_left hin
            cases t with
            | nil => simp at hin'
            | cons b l =>
              have hlt : (net.procs p).round < (net.procs q).round := by
                rcases Nat.lt_or_eq_of_le (hmin q qlt) with hlt | he
                · exact hlt
                · exact absurd hqc (norecv q qlt he.symm b l n a)
              have base : (logs pr s0 p q ((net.procs p).round + 1)).length ≤ (logs pr s0 p q (net.procs q).round).length :=
                (logs_prefix pr s0 p q (by omega)).length_le
              rcases List.mem_cons.mp hin' with rfl | hin'
              · cases n with
                | none =>
                  simp only [] at d6
                  rw [d6]
                  exact base
                | some n =>
                  simp only [] at d6
                  rw [d6.2.2]
                  omega
              · rw [d5 p hin']
                exact base

/-! ## Termination -/

/-- An upper bound of the number of actions left in a round. -/
def ctlCost (n : ℕ) : Ctl α → ℕ
  | .sending todo => todo.length + 2 * n + 2
  | .recving todo none _ => 2 * todo.length + 1
  | .recving todo (some _) _ => 2 * todo.length

/-- An upper bound of the number of actions left. -/
def cost (pr : Program σ α) (R : ℕ) (net : Net σ α) (p : ℕ) : ℕ :=
  if (net.procs p).round < R then
    (R - (net.procs p).round - 1) * (4 * (pr.nb p).length + 3) + ctlCost (pr.nb p).length (net.procs p).ctl
  else 0

theorem cost_step (pr : Program σ α) (P R : ℕ) (sync : Bool) (s0 : ℕ → σ) (net net' : Net σ α) (p : ℕ) (hp : p < P)
    (h : ∀ q < P, Good pr s0 net q ∧ Rest pr s0 net q) (hs : step pr R sync net p = some net') :
    cost pr R net' p + 1 ≤ cost pr R net p ∧ ∀ q, q ≠ p → cost pr R net' q = cost pr R net q := by
  constructor
  · obtain ⟨⟨_, _, g3⟩, _⟩ := h p hp
    unfold step at hs
    simp only [] at hs
    split at hs
    swap
    · simp at hs
    rename_i hR
    split at hs
    · rename_i q m t hc
      rw [← Option.some.inj hs]
      unfold cost
      simp only [Function.update_self]
      rw [if_pos hR, if_pos hR, hc]
      simp only [List.length_cons, ctlCost]
      omega
    · rename_i hc
      rw [← Option.some.inj hs]
      unfold cost
      simp only [Function.update_self]
      rw [if_pos hR, if_pos hR, hc]
      simp only [List.length_nil, ctlCost]
      omega
    · rename_i q t acc hc
      split at hs
      · split at hs
        · rename_i n _
          rw [← Option.some.inj hs]
          unfold cost
          simp only [Function.update_self]
          rw [if_pos hR, if_pos hR, hc]
          by_cases hz : n > 0
          · rw [if_pos hz]
            simp only [List.length_cons, ctlCost]
            omega
          · rw [if_neg hz]
            simp only [List.length_cons, ctlCost]
            omega
        · simp at hs
      · rw [← Option.some.inj hs]
        unfold cost
        simp only [Function.update_self]
        rw [if_pos hR, if_pos hR, hc]
        by_cases hz : pr.expect (net.procs p).round p (net.procs p).st q > 0
        · rw [if_pos hz]
          simp only [List.length_cons, List.length_nil, ctlCost]
          omega
        · rw [if_neg hz]
          simp only [List.length_cons, List.length_nil, ctlCost]
          omega
    · rename_i q t n acc hc
      split at hs
      · split at hs
        · rw [← Option.some.inj hs]
          unfold cost
          simp only [Function.update_self]
          rw [if_pos hR, if_pos hR, hc]
          simp only [List.length_cons, List.length_nil, ctlCost]
          omega
        · simp at hs
      · simp at hs
    · rename_i pend acc hc
      rw [hc] at g3
      obtain ⟨_, _, _, _, _, _, c6⟩ := g3
      have hpend : pend = none := by
        cases pend with
        | none => rfl
        | some _ => exact absurd c6 id
      subst hpend
      split at hs
      · rw [← Option.some.inj hs]
        unfold cost start
        simp only [Function.update_self]
        rw [if_pos hR, hc]
        have hl := sends_length pr ((net.procs p).round + 1) p (pr.next (net.procs p).round p (net.procs p).st acc)
        by_cases hR' : (net.procs p).round + 1 < R
        · rw [if_pos hR']
          have e : R - (net.procs p).round - 1 = (R - ((net.procs p).round + 1) - 1) + 1 := by omega
          rw [e, Nat.add_mul]
          simp only [List.length_cons, List.length_nil, ctlCost]
          omega
        · rw [if_neg hR']
          simp only [ctlCost]
          omega
      · simp at hs
  · intro q hne
    have e : net'.procs q = net.procs q := by
      unfold step at hs
      simp only [] at hs
      repeat' split at hs
      all_goals first | (simp at hs; done) | (rw [← Option.some.inj hs]; exact Function.update_of_ne hne _ _)
    unfold cost
    rw [e]

theorem run_cost (pr : Program σ α) (P R : ℕ) (sync : Bool) (hpr : Proper pr P) (s0 : ℕ → σ) (ha : Agreed pr P s0) (k : ℕ) (net : Net σ α) (h : Run pr P R sync s0 k net) :
    k + ∑ p ∈ Finset.range P, cost pr R net p ≤ ∑ p ∈ Finset.range P, R * (4 * (pr.nb p).length + 3) := by
  induction h with
  | init =>
    rw [Nat.zero_add]
    apply Finset.sum_le_sum
    intro p _
    unfold cost start0 start
    simp only [ctlCost]
    have hl := sends_length pr 0 p (s0 p)
    by_cases hR : 0 < R
    · rw [if_pos hR]
      have e : R = (R - 0 - 1) + 1 := by omega
      nth_rewrite 2 [e]
      rw [Nat.add_mul]
      omega
    · rw [if_neg hR]
      omega
  | step k net net' p hp hrun hs ih =>
    obtain ⟨c1, c2⟩ := cost_step pr P R sync s0 net net' p hp (run_good pr P R sync hpr s0 ha k net hrun) hs
    have mem : p ∈ Finset.range P := Finset.mem_range.mpr hp
    rw [← Finset.add_sum_erase _ _ mem] at ih ⊢
    have : ∑ q ∈ (Finset.range P).erase p, cost pr R net' q = ∑ q ∈ (Finset.range P).erase p, cost pr R net q :=
      Finset.sum_congr rfl fun q hq => c2 q (Finset.ne_of_mem_erase hq)
    rw [this]
    omega

/-! ## C141 -/

/-- C141: at every moment of every execution, with sends that complete at once or only when received, the state of each processor is the one it has when all processors are in step. -/
theorem C141_states (pr : Program σ α) (P R : ℕ) (sync : Bool) (hpr : Proper pr P) (s0 : ℕ → σ) (ha : Agreed pr P s0) (k : ℕ) (net : Net σ α) (h : Run pr P R sync s0 k net)
    (p : ℕ) (hp : p < P) : (net.procs p).st = lock pr s0 (net.procs p).round p :=
  (run_good pr P R sync hpr s0 ha k net h p hp).1.1

theorem round_le (pr : Program σ α) (P R : ℕ) (sync : Bool) (s0 : ℕ → σ) (k : ℕ) (net : Net σ α) (h : Run pr P R sync s0 k net) (p : ℕ) : (net.procs p).round ≤ R := by
  induction h with
  | init => exact Nat.zero_le _
  | step k net net' q hq hrun hs ih =>
    unfold step at hs
    simp only [] at hs
    split at hs
    swap
    · simp at hs
    rename_i hR
    by_cases e : p = q
    · subst e
      repeat' split at hs
      all_goals first | (simp at hs; done) | (rw [← Option.some.inj hs]; simp only [Function.update_self, start]; first | exact ih | omega)
    · repeat' split at hs
      all_goals first | (simp at hs; done) | (rw [← Option.some.inj hs]; simp only [Function.update_of_ne e]; exact ih)

/-- C141: there is no deadlock: an execution in which no processor can act has finished: all processors have done all rounds, with the states of the lockstep. -/
theorem C141_no_deadlock (pr : Program σ α) (P R : ℕ) (sync : Bool) (hpr : Proper pr P) (s0 : ℕ → σ) (ha : Agreed pr P s0) (k : ℕ) (net : Net σ α) (h : Run pr P R sync s0 k net)
    (hstuck : ∀ p < P, step pr R sync net p = none) : ∀ p < P, (net.procs p).round = R ∧ (net.procs p).st = lock pr s0 R p := by
  intro p hp
  have e : (net.procs p).round = R :=
    le_antisymm (round_le pr P R sync s0 k net h p) (progress pr P R sync hpr s0 net (run_good pr P R sync hpr s0 ha k net h) hstuck p hp)
  exact ⟨e, e ▸ C141_states pr P R sync hpr s0 ha k net h p hp⟩

/-- C141: there is no endless waiting: every execution ends after a number of actions that does not depend on the contents of the messages. -/
theorem C141_terminates (pr : Program σ α) (P R : ℕ) (sync : Bool) (hpr : Proper pr P) (s0 : ℕ → σ) (ha : Agreed pr P s0) (k : ℕ) (net : Net σ α) (h : Run pr P R sync s0 k net) :
    k ≤ ∑ p ∈ Finset.range P, R * (4 * (pr.nb p).length + 3) :=
  (Nat.le_add_right _ _).trans (run_cost pr P R sync hpr s0 ha k net h)

/-- C141: every execution can be completed, and every way of completing it gives each processor the state of the lockstep. -/
theorem C141_completes (pr : Program σ α) (P R : ℕ) (sync : Bool) (hpr : Proper pr P) (s0 : ℕ → σ) (ha : Agreed pr P s0) (k : ℕ) (net : Net σ α) (h : Run pr P R sync s0 k net) :
    ∃ k' net', k ≤ k' ∧ Run pr P R sync s0 k' net' ∧ ∀ p < P, (net'.procs p).round = R ∧ (net'.procs p).st = lock pr s0 R p := by
  by_contra hno
  have more : ∀ j, ∃ k' net', k + j ≤ k' ∧ Run pr P R sync s0 k' net' := by
    intro j
    induction j with
    | zero => exact ⟨k, net, le_rfl, h⟩
    | succ j ih =>
      obtain ⟨k', net', hk, hrun⟩ := ih
      by_cases hstuck : ∀ p < P, step pr R sync net' p = none
      · exact absurd ⟨k', net', by omega, hrun, C141_no_deadlock pr P R sync hpr s0 ha k' net' hrun hstuck⟩ hno
      · push Not at hstuck
        obtain ⟨p, hp, hs⟩ := hstuck
        obtain ⟨n2, hn2⟩ := Option.ne_none_iff_exists'.mp hs
        exact ⟨k' + 1, n2, by omega, .step k' net' n2 p hp hrun hn2⟩
  obtain ⟨k', net', hk, hrun⟩ := more (∑ p ∈ Finset.range P, R * (4 * (pr.nb p).length + 3) + 1)
  have := C141_terminates pr P R sync hpr s0 ha k' net' hrun
  omega

/-- Two processors that send their numbers to each other and add what they get, with sizes. -/
def swapProgram : Program ℕ ℕ := ⟨fun p => if p = 0 then [1] else if p = 1 then [0] else [], fun _ _ s _ => [s], fun _ _ s l => s + (l.map fun x => x.2.sum).sum, fun _ => true, fun _ _ _ _ => 0⟩

/-- C141, the hypotheses are met: proper neighbours, agreed numbers, and the lockstep does something: 1 and 10 become 22 and 22 after two rounds. -/
example : Proper swapProgram 2 ∧ Agreed swapProgram 2 (fun p => if p = 0 then 1 else 10) ∧ lock swapProgram (fun p => if p = 0 then 1 else 10) 2 0 = 22 := by
  refine ⟨⟨?_, ?_, ?_⟩, ?_, by decide⟩
  · decide
  · decide
  · decide
  · intro r p q _ _ h
    exact absurd h (by simp [swapProgram])

/-- **C141**, completion of sends. If sends are completed only when they are received, a processor begins a round only when all it has sent to its neighbours in earlier rounds has been received. -/
theorem C141_sync (pr : Program σ α) (R : ℕ) (net net' : Net σ α) (p : ℕ) (hs : step pr R true net p = some net') (hr : (net'.procs p).round ≠ (net.procs p).round) :
    ∀ q ∈ pr.nb p, net'.read p q = (net'.sent p q).length := by
  unfold step at hs
  simp only [] at hs
  split at hs
  · split at hs
    · obtain rfl := Option.some.inj hs
      simp at hr
    · obtain rfl := Option.some.inj hs
      simp at hr
    · split at hs
      · split at hs
        · obtain rfl := Option.some.inj hs
          simp at hr
        · simp at hs
      · obtain rfl := Option.some.inj hs
        simp at hr
    · split at hs
      · split at hs
        · obtain rfl := Option.some.inj hs
          simp at hr
        · simp at hs
      · simp at hs
    · split at hs
      · rename_i hc
        obtain rfl := Option.some.inj hs
        exact hc.resolve_left (by simp)
      · simp at hs
  · simp at hs

/-- C141 is false if neighbours are not mutual: a processor waits for ever for one that does not send to it. -/
theorem C141_negation_one_sided :
    let pr : Program ℕ ℕ := ⟨fun p => if p = 0 then [1] else [], fun _ _ s _ => [s], fun _ _ s _ => s, fun _ => true, fun _ _ _ _ => 0⟩
    ∃ k net, Run pr 2 1 false (fun p => p) k net ∧ (∀ p < 2, step pr 1 false net p = none) ∧ (net.procs 0).round = 0 := by
  intro pr
  have h0 : Run pr 2 1 false (fun p => p) 0 (start0 pr fun p => p) := .init
  refine ⟨5, _, .step 4 _ _ 1 (by omega) (.step 3 _ _ 1 (by omega) (.step 2 _ _ 0 (by omega) (.step 1 _ _ 0 (by omega) (.step 0 _ _ 0 (by omega) h0 rfl) rfl) rfl) rfl) rfl, ?_, rfl⟩
  intro p hp
  have : p = 0 ∨ p = 1 := by omega
  rcases this with rfl | rfl <;> rfl

end Verif.Rounds
