import Mathlib.Data.List.Basic
import Mathlib.Algebra.BigOperators.Group.List.Basic
import Mathlib.Algebra.Order.BigOperators.Group.List
import Mathlib.Tactic.Common
import Mathlib.Tactic.Ring
import Mathlib.Tactic.Linarith

/-!
# Data of all processors gathered on the root (C145)

Models `MPIObject::mpi_reduce0_position_data`, `parallel/mpi-communication.hpp:183-216`, with which the recorders of positions collect a frame on processor 0
(`dataobjects/positiondata.cpp:39`, `dataobjects/ending-snapshot.cpp:29`, `dataobjects/course-position-data.cpp:24`), called once per frame, for any number of frames, on any number of processors, in
any interleaving of the processors.

Messages from a processor to the root arrive in the order in which they were sent. A blocking send may return at once (`sync = false`) or only after the message has been received (`sync = true`).
Simplification: what processors do between two frames is left out (a processor may run ahead of the root by any number of frames).
-/

namespace Verif.Gather

variable {α : Type}

/-- Messages: a size (`MPI_INT`), data (`RealType`). -/
inductive Msg (α : Type) where
  | size (n : ℕ)
  | data (l : List α)

/-- What a processor other than the root sends for a frame, `parallel/mpi-communication.hpp:206-212`. -/
def packet (l : List α) : List (Msg α) := .size l.length :: if l.length > 0 then [.data l] else []

/-- The root: it receives the sizes (`parallel/mpi-communication.hpp:190-195`; those received so far, from processors 1, 2, …), then the data (200-204; the processor, the sizes, `place`, the vector). -/
inductive Ctl (α : Type) where
  | sizes (acc : List ℕ)
  | datas (i : ℕ) (sizes : List ℕ) (place : ℕ) (buf : List α)

/-- All processors: what each still has to send, what it has sent, how much of it the root has received; the frame of the root, its state, the frames it has finished. -/
structure Net (α : Type) where
  todo : ℕ → List (Msg α)
  sent : ℕ → List (Msg α)
  read : ℕ → ℕ
  frame : ℕ
  ctl : Ctl α
  out : List (List α)

/-- A received message is written to the vector from `place` on, `parallel/mpi-communication.hpp:202`. -/
def writeAt (buf : List α) (place : ℕ) (l : List α) : List α := buf.take place ++ l ++ buf.drop (place + l.length)

/-- The root receives a message of processor `i`. -/
def Net.take (net : Net α) (i : ℕ) (c : Ctl α) : Net α := ⟨net.todo, net.sent, fun j => if j = i then net.read j + 1 else net.read j, net.frame, c, net.out⟩

/-- The root goes on without a message. -/
def Net.go (net : Net α) (c : Ctl α) : Net α := ⟨net.todo, net.sent, net.read, net.frame, c, net.out⟩

/-- A step of the root in the frame whose own data is `own`, `parallel/mpi-communication.hpp:189-205`. Nothing if it waits, or the message is not the expected one. -/
def rootStep [Zero α] (P : ℕ) (own : List α) (net : Net α) : Option (Net α) :=
  match net.ctl with
  | .sizes acc =>
    if acc.length + 1 < P then
      match (net.sent (acc.length + 1))[net.read (acc.length + 1)]? with
      | some (.size n) => some (net.take (acc.length + 1) (.sizes (acc ++ [n])))
      | _ => none
    else some (net.go (.datas 1 acc own.length (own ++ List.replicate acc.sum 0)))
  | .datas i sizes place buf =>
    if i < P then
      if sizes.getD (i - 1) 0 > 0 then
        match (net.sent i)[net.read i]? with
        | some (.data l) =>
          if l.length ≤ sizes.getD (i - 1) 0 then some (net.take i (.datas (i + 1) sizes (place + sizes.getD (i - 1) 0) (writeAt buf place l))) else none
        | _ => none
      else some (net.go (.datas (i + 1) sizes (place + sizes.getD (i - 1) 0) buf))
    else some ⟨net.todo, net.sent, net.read, net.frame + 1, .sizes [], net.out ++ [buf]⟩

/-- A step of processor `p < P` in a run with `R` frames, `parallel/mpi-communication.hpp:183-216`; `d r p` is the data of processor `p` in frame `r`. -/
def step [Zero α] (P R : ℕ) (sync : Bool) (d : ℕ → ℕ → List α) (net : Net α) (p : ℕ) : Option (Net α) :=
  if p = 0 then if net.frame < R then rootStep P (d net.frame 0) net else none
  else if p < P then
    match net.todo p with
    | m :: t =>
      if sync = false ∨ net.read p = (net.sent p).length then
        some ⟨fun j => if j = p then t else net.todo j, fun j => if j = p then net.sent j ++ [m] else net.sent j, net.read, net.frame, net.ctl, net.out⟩
      else none
    | [] => none
  else none

/-- At the start: all frames are still to be sent. -/
def start (R : ℕ) (d : ℕ → ℕ → List α) : Net α := ⟨fun p => (List.range R).flatMap fun r => packet (d r p), fun _ => [], fun _ => 0, 0, .sizes [], []⟩

/-- `Run n net`: a schedule of `n` steps leads from the start to `net`. -/
inductive Run [Zero α] (P R : ℕ) (sync : Bool) (d : ℕ → ℕ → List α) : ℕ → Net α → Prop where
  | start : Run P R sync d 0 (start R d)
  | step (n : ℕ) (net net' : Net α) (p : ℕ) (h : Run P R sync d n net) (hs : step P R sync d net p = some net') : Run P R sync d (n + 1) net'

/-! ## Specification -/

/-- All processors are finished. -/
def Finished (P R : ℕ) (net : Net α) : Prop := net.frame = R ∧ ∀ p, 0 < p → p < P → net.todo p = []

/-- What the root should have recorded: for each frame the data of all processors, in their order. -/
def gathered (P R : ℕ) (d : ℕ → ℕ → List α) : List (List α) := (List.range R).map fun r => (List.range P).flatMap (d r)

/-! ## Invariant -/

/-- Everything a processor sends in the first `r` frames. -/
def logs (d : ℕ → ℕ → List α) (p : ℕ) (r : ℕ) : List (Msg α) := (List.range r).flatMap fun r => packet (d r p)

theorem logs_succ (d : ℕ → ℕ → List α) (p r : ℕ) : logs d p (r + 1) = logs d p r ++ packet (d r p) := by
  simp [logs, List.range_succ]

theorem logs_prefix (d : ℕ → ℕ → List α) (p : ℕ) {r R : ℕ} (h : r ≤ R) : logs d p r <+: logs d p R := by
  induction R with
  | zero => obtain rfl := Nat.le_zero.1 h; exact List.prefix_refl _
  | succ R ih =>
    rcases Nat.lt_or_ge r (R + 1) with h' | h'
    · rw [logs_succ]; exact (ih (Nat.lt_succ_iff.1 h')).trans (List.prefix_append _ _)
    · rw [Nat.le_antisymm h h']; exact List.prefix_refl _

/-- How many of the messages of the frame processor `p` has had received. -/
def offset (d : ℕ → ℕ → List α) (r : ℕ) (c : Ctl α) (p : ℕ) : ℕ :=
  match c with
  | .sizes acc => if p ≤ acc.length then 1 else 0
  | .datas i _ _ _ => if p < i then (packet (d r p)).length else 1

/-- The state of the root is right. -/
def RootOk [Zero α] (P : ℕ) (d : ℕ → ℕ → List α) (r : ℕ) : Ctl α → Prop
  | .sizes acc => acc.length + 1 ≤ max P 1 ∧ acc = (List.range acc.length).map fun j => (d r (j + 1)).length
  | .datas i sizes place buf => 1 ≤ i ∧ i ≤ max P 1 ∧ sizes = ((List.range (P - 1)).map fun j => (d r (j + 1)).length) ∧
      place = ((List.range i).flatMap (d r)).length ∧
      buf = (List.range i).flatMap (d r) ++ List.replicate (((List.range (P - i)).map fun j => (d r (i + j)).length).sum) 0

structure Good [Zero α] (P R : ℕ) (d : ℕ → ℕ → List α) (net : Net α) : Prop where
  frame : net.frame ≤ R
  sent : ∀ p, 0 < p → p < P → net.sent p ++ net.todo p = logs d p R
  read : ∀ p, 0 < p → p < P → net.read p ≤ (net.sent p).length ∧ net.read p = (logs d p net.frame).length + offset d net.frame net.ctl p
  root : RootOk P d net.frame net.ctl
  out : net.out = (List.range net.frame).map fun r => (List.range (max P 1)).flatMap (d r)

theorem good_start [Zero α] (P R : ℕ) (d : ℕ → ℕ → List α) : Good P R d (start R d) := by
  refine ⟨Nat.zero_le _, fun p _ _ => by simp [start, logs], fun p h _ => ?_, ?_, by simp [start]⟩
  · simp [start, logs, offset]; omega
  · simp [start, RootOk]

/-- The next message of `p`, if it has been sent, is that of the frame. -/
theorem next_msg [Zero α] {P R : ℕ} {d : ℕ → ℕ → List α} {net : Net α} (g : Good P R d net) {p : ℕ} (h0 : 0 < p) (hp : p < P) {m : Msg α} (hr : net.frame < R)
    (k : ℕ) (hk : net.read p = (logs d p net.frame).length + k) (hkl : k < (packet (d net.frame p)).length) (h : (net.sent p)[net.read p]? = some m) :
    (packet (d net.frame p))[k]? = some m := by
  have hs := g.sent p h0 hp
  obtain ⟨t, ht⟩ := logs_prefix d p (Nat.succ_le_of_lt hr)
  rw [logs_succ] at ht
  have hlt : net.read p < (net.sent p).length := (List.getElem?_eq_some_iff.1 h).1
  have h1 : (net.sent p ++ net.todo p)[net.read p]? = some m := by rw [List.getElem?_append_left hlt, h]
  rw [hs, ← ht, List.append_assoc, hk, List.getElem?_append_right (by omega), Nat.add_sub_cancel_left, List.getElem?_append_left hkl] at h1
  exact h1

/-- There is a next message to come. -/
theorem next_waits [Zero α] {P R : ℕ} {d : ℕ → ℕ → List α} {net : Net α} (g : Good P R d net) {p : ℕ} (h0 : 0 < p) (hp : p < P) (hr : net.frame < R)
    (k : ℕ) (hk : net.read p = (logs d p net.frame).length + k) (hkl : k < (packet (d net.frame p)).length) (h : (net.sent p)[net.read p]? = none) :
    net.read p = (net.sent p).length ∧ net.todo p ≠ [] := by
  have hs := g.sent p h0 hp
  obtain ⟨t, ht⟩ := logs_prefix d p (Nat.succ_le_of_lt hr)
  rw [logs_succ] at ht
  have h1 : (net.sent p).length ≤ net.read p := List.getElem?_eq_none_iff.1 h
  refine ⟨le_antisymm (g.read p h0 hp).1 h1, fun h2 => ?_⟩
  have := congrArg List.length hs
  rw [← ht, h2] at this
  simp at this
  omega

theorem range_flatMap_succ (f : ℕ → List α) (i : ℕ) : (List.range (i + 1)).flatMap f = (List.range i).flatMap f ++ f i := by simp [List.range_succ]

theorem sum_first (f : ℕ → ℕ) (n i : ℕ) (h : i < n) : ((List.range (n - i)).map fun j => f (i + j)).sum = f i + ((List.range (n - (i + 1))).map fun j => f (i + 1 + j)).sum := by
  obtain ⟨k, rfl⟩ : ∃ k, n = i + k + 1 := ⟨n - i - 1, by omega⟩
  rw [show i + k + 1 - i = k + 1 by omega, show i + k + 1 - (i + 1) = k by omega, List.range_succ_eq_map]
  simp [Function.comp_def, Nat.add_comm, Nat.add_left_comm]

theorem writeAt_spec [Zero α] (a l : List α) (n : ℕ) : writeAt (a ++ List.replicate (l.length + n) 0) a.length l = a ++ l ++ List.replicate n 0 := by
  have h : (a ++ List.replicate (l.length + n) (0 : α)).drop (a.length + l.length) = List.replicate n 0 := by
    rw [List.drop_append, List.drop_eq_nil_of_le (by omega)]
    simp
  rw [writeAt, h, List.take_left']
  rfl

theorem good_step [Zero α] {P R : ℕ} {sync : Bool} {d : ℕ → ℕ → List α} {net net' : Net α} {p : ℕ} (g : Good P R d net) (h : step P R sync d net p = some net') : Good P R d net' := by
  rw [step] at h
  by_cases h0 : p = 0
  · rw [if_pos h0] at h
    by_cases hf : net.frame < R
    swap
    · rw [if_neg hf] at h; cases h
    rw [if_pos hf] at h
    have gr := g.root
    rw [rootStep] at h
    split at h
    · rename_i acc hc
      rw [hc] at gr
      split_ifs at h with hl
      · split at h
        · rename_i n hm
          cases h
          have hrd := (g.read (acc.length + 1) (by omega) hl).2
          rw [hc] at hrd
          simp only [offset] at hrd
          rw [if_neg (by omega)] at hrd
          have hn := next_msg g (by omega) hl hf 0 hrd (by simp [packet]) hm
          simp [packet] at hn
          refine ⟨g.frame, g.sent, fun q hq0 hq => ?_, ?_, g.out⟩
          · have h1 := g.read q hq0 hq
            rw [hc] at h1
            simp only [offset] at h1
            simp only [Net.take, offset, List.length_append, List.length_singleton]
            by_cases hqe : q = acc.length + 1
            · subst hqe
              have hlt := (List.getElem?_eq_some_iff.1 hm).1
              rw [if_pos rfl, if_pos (by omega)]
              rw [if_neg (by omega)] at h1
              omega
            · rw [if_neg hqe]
              by_cases h2 : q ≤ acc.length
              · rw [if_pos h2] at h1; rw [if_pos (by omega)]; exact h1
              · rw [if_neg h2] at h1; rw [if_neg (by omega)]; exact h1
          · show RootOk P d net.frame (.sizes (acc ++ [n]))
            refine ⟨by simp; omega, ?_⟩
            simp only [List.length_append, List.length_singleton, List.range_succ, List.map_append, List.map_singleton]
            rw [← gr.2, hn]
        · cases h
      · cases h
        have hP : acc.length = P - 1 := by have := gr.1; omega
        refine ⟨g.frame, g.sent, fun q hq0 hq => ?_, ?_, g.out⟩
        · have h1 := g.read q hq0 hq
          rw [hc] at h1
          simp only [offset] at h1
          rw [if_pos (by omega)] at h1
          simp only [Net.go, offset]
          rw [if_neg (by omega)]
          exact h1
        · show RootOk P d net.frame (.datas 1 acc (d net.frame 0).length (d net.frame 0 ++ List.replicate acc.sum 0))
          refine ⟨le_rfl, by omega, ?_, by simp, ?_⟩
          · rw [← hP]; exact gr.2
          · have h2 : ((List.range (P - 1)).map fun j => (d net.frame (1 + j)).length) = acc := by
              rw [← hP]
              conv_rhs => rw [gr.2]
              simp only [Nat.add_comm]
            rw [h2]; simp
    · rename_i i sizes place buf hc
      rw [hc] at gr
      obtain ⟨hi1, hiP, hsz, hpl, hbuf⟩ := gr
      split_ifs at h with hl hpos
      · have hge : sizes.getD (i - 1) 0 = (d net.frame i).length := by
          rw [hsz, List.getD_eq_getElem?_getD, List.getElem?_map, List.getElem?_range (by omega)]
          simp [Nat.sub_add_cancel hi1]
        rw [hge] at h hpos
        have hrd := (g.read i (by omega) hl).2
        rw [hc] at hrd
        simp only [offset] at hrd
        rw [if_neg (by omega)] at hrd
        split at h
        · rename_i l hm
          have hn := next_msg g (by omega) hl hf 1 hrd (by simp [packet, hpos]) hm
          simp [packet, hpos] at hn
          subst hn
          rw [if_pos le_rfl] at h
          cases h
          refine ⟨g.frame, g.sent, fun q hq0 hq => ?_, ?_, g.out⟩
          · have h1 := g.read q hq0 hq
            rw [hc] at h1
            simp only [offset] at h1
            simp only [Net.take, offset]
            by_cases hqe : q = i
            · subst hqe
              have hlt := (List.getElem?_eq_some_iff.1 hm).1
              have hpk : (packet (d net.frame q)).length = 2 := by simp [packet, hpos]
              rw [if_pos rfl, if_pos (by omega)]
              rw [if_neg (by omega)] at h1
              omega
            · rw [if_neg hqe]
              by_cases h2 : q < i
              · rw [if_pos h2] at h1; rw [if_pos (by omega)]; exact h1
              · rw [if_neg h2] at h1; rw [if_neg (by omega)]; exact h1
          · show RootOk P d net.frame (.datas (i + 1) sizes (place + (d net.frame i).length) (writeAt buf place (d net.frame i)))
            refine ⟨by omega, by omega, hsz, ?_, ?_⟩
            · rw [range_flatMap_succ, List.length_append, hpl]
            · rw [hbuf, hpl, sum_first (fun j => (d net.frame j).length) P i hl, writeAt_spec, range_flatMap_succ]
        · cases h
      · cases h
        have hge : sizes.getD (i - 1) 0 = (d net.frame i).length := by
          rw [hsz, List.getD_eq_getElem?_getD, List.getElem?_map, List.getElem?_range (by omega)]
          simp [Nat.sub_add_cancel hi1]
        rw [hge] at hpos
        have hnil : d net.frame i = [] := List.length_eq_zero_iff.1 (by omega)
        refine ⟨g.frame, g.sent, fun q hq0 hq => ?_, ?_, g.out⟩
        · have h1 := g.read q hq0 hq
          rw [hc] at h1
          simp only [offset] at h1
          simp only [Net.go, offset]
          by_cases hqe : q = i
          · subst hqe
            rw [if_neg (by omega)] at h1
            rw [if_pos (by omega)]
            simpa [packet, hnil] using h1
          · by_cases h2 : q < i
            · rw [if_pos h2] at h1; rw [if_pos (by omega)]; exact h1
            · rw [if_neg h2] at h1; rw [if_neg (by omega)]; exact h1
        · show RootOk P d net.frame (.datas (i + 1) sizes (place + sizes.getD (i - 1) 0) buf)
          refine ⟨by omega, by omega, hsz, ?_, ?_⟩
          · rw [range_flatMap_succ, List.length_append, hpl, hge]
          · rw [hbuf, sum_first (fun j => (d net.frame j).length) P i hl, range_flatMap_succ, hnil]
            simp
      · cases h
        refine ⟨hf, g.sent, fun q hq0 hq => ?_, ?_, ?_⟩
        · have h1 := g.read q hq0 hq
          rw [hc] at h1
          simp only [offset] at h1
          rw [if_pos (by omega)] at h1
          refine ⟨h1.1, ?_⟩
          simp only [offset, List.length_nil]
          rw [if_neg (by omega), logs_succ, List.length_append]
          exact h1.2
        · simp [RootOk]
        · have hie : i = max P 1 := by omega
          have h3 : P - i = 0 := by omega
          rw [h3] at hbuf
          simp at hbuf
          simp only [List.range_succ, List.map_append, List.map_singleton]
          rw [g.out, hbuf, hie]
  · rw [if_neg h0] at h
    by_cases hp : p < P
    swap
    · rw [if_neg hp] at h; cases h
    rw [if_pos hp] at h
    split at h
    · rename_i m t ht
      by_cases hsy : sync = false ∨ net.read p = (net.sent p).length
      swap
      · rw [if_neg hsy] at h; cases h
      rw [if_pos hsy] at h
      cases h
      refine ⟨g.frame, fun q hq0 hq => ?_, fun q hq0 hq => ?_, g.root, g.out⟩
      · have h1 := g.sent q hq0 hq
        by_cases hqe : q = p
        · subst hqe; simp only [if_pos]; rw [ht] at h1; simpa using h1
        · simp only [if_neg hqe]; exact h1
      · have h1 := g.read q hq0 hq
        refine ⟨?_, h1.2⟩
        by_cases hqe : q = p
        · subst hqe; simp only [if_pos, List.length_append, List.length_singleton]; omega
        · simp only [if_neg hqe]; exact h1.1
    · cases h

theorem good_run [Zero α] {P R : ℕ} {sync : Bool} {d : ℕ → ℕ → List α} {n : ℕ} {net : Net α} (h : Run P R sync d n net) : Good P R d net := by
  induction h with
  | start => exact good_start P R d
  | step n net net' p _ hs ih => exact good_step ih hs

theorem worker_can [Zero α] {P R : ℕ} {sync : Bool} {d : ℕ → ℕ → List α} {net : Net α} {p : ℕ} (h0 : 0 < p) (hp : p < P) (h1 : net.read p = (net.sent p).length) (h2 : net.todo p ≠ []) :
    ∃ net', step P R sync d net p = some net' := by
  obtain ⟨m, t, ht⟩ := List.exists_cons_of_ne_nil h2
  refine ⟨⟨fun j => if j = p then t else net.todo j, fun j => if j = p then net.sent j ++ [m] else net.sent j, net.read, net.frame, net.ctl, net.out⟩, ?_⟩
  rw [step, if_neg (by omega), if_pos hp, ht]
  simp only []
  rw [if_pos (Or.inr h1)]

theorem progress [Zero α] {P R : ℕ} {sync : Bool} {d : ℕ → ℕ → List α} {net : Net α} (g : Good P R d net) :
    (∃ p net', step P R sync d net p = some net') ∨ Finished P R net := by
  by_cases hf : net.frame < R
  · left
    have gr := g.root
    cases hc : net.ctl with
    | sizes acc =>
      rw [hc] at gr
      by_cases hl : acc.length + 1 < P
      · have hrd := (g.read (acc.length + 1) (by omega) hl).2
        rw [hc] at hrd
        simp only [offset] at hrd
        rw [if_neg (by omega)] at hrd
        cases hm : (net.sent (acc.length + 1))[net.read (acc.length + 1)]? with
        | none =>
          obtain ⟨h1, h2⟩ := next_waits g (by omega) hl hf 0 hrd (by simp [packet]) hm
          exact ⟨_, worker_can (by omega) hl h1 h2⟩
        | some m =>
          have hn := next_msg g (by omega) hl hf 0 hrd (by simp [packet]) hm
          simp [packet] at hn
          subst hn
          refine ⟨0, net.take (acc.length + 1) (.sizes (acc ++ [(d net.frame (acc.length + 1)).length])), ?_⟩
          rw [step, if_pos rfl, if_pos hf, rootStep, hc]
          simp only []
          rw [if_pos hl, hm]
      · refine ⟨0, net.go (.datas 1 acc (d net.frame 0).length (d net.frame 0 ++ List.replicate acc.sum 0)), ?_⟩
        rw [step, if_pos rfl, if_pos hf, rootStep, hc]
        simp only []
        rw [if_neg hl]
    | datas i sizes place buf =>
      rw [hc] at gr
      obtain ⟨hi1, hiP, hsz, hpl, hbuf⟩ := gr
      by_cases hl : i < P
      · have hge : sizes.getD (i - 1) 0 = (d net.frame i).length := by
          rw [hsz, List.getD_eq_getElem?_getD, List.getElem?_map, List.getElem?_range (by omega)]
          simp [Nat.sub_add_cancel hi1]
        have hrd := (g.read i (by omega) hl).2
        rw [hc] at hrd
        simp only [offset] at hrd
        rw [if_neg (by omega)] at hrd
        by_cases hpos : (d net.frame i).length > 0
        · cases hm : (net.sent i)[net.read i]? with
          | none =>
            obtain ⟨h1, h2⟩ := next_waits g (by omega) hl hf 1 hrd (by simp [packet, hpos]) hm
            exact ⟨_, worker_can (by omega) hl h1 h2⟩
          | some m =>
            have hn := next_msg g (by omega) hl hf 1 hrd (by simp [packet, hpos]) hm
            simp [packet, hpos] at hn
            subst hn
            refine ⟨0, net.take i (.datas (i + 1) sizes (place + (d net.frame i).length) (writeAt buf place (d net.frame i))), ?_⟩
            rw [step, if_pos rfl, if_pos hf, rootStep, hc]
            simp only []
            rw [if_pos hl, hge, if_pos hpos, hm]
            simp only []
            rw [if_pos le_rfl]
        · refine ⟨0, net.go (.datas (i + 1) sizes (place + (d net.frame i).length) buf), ?_⟩
          rw [step, if_pos rfl, if_pos hf, rootStep, hc]
          simp only []
          rw [if_pos hl, hge, if_neg hpos]
      · refine ⟨0, ⟨net.todo, net.sent, net.read, net.frame + 1, .sizes [], net.out ++ [buf]⟩, ?_⟩
        rw [step, if_pos rfl, if_pos hf, rootStep, hc]
        simp only []
        rw [if_neg hl]
  · have hfr : net.frame = R := le_antisymm g.frame (by omega)
    right
    refine ⟨hfr, fun p h0 hp => ?_⟩
    have hs := congrArg List.length (g.sent p h0 hp)
    have h1 := g.read p h0 hp
    rw [hfr] at h1
    rw [List.length_append] at hs
    exact List.length_eq_zero_iff.1 (by omega)

/-! ## Theorems -/

/-- What the root still has to do. -/
def rootCost (P R : ℕ) (net : Net α) : ℕ :=
  (R - net.frame) * (2 * P + 4) - (match net.ctl with | .sizes acc => acc.length | .datas i _ _ _ => P + 1 + i)

/-- The number of steps still to be taken. -/
def cost (P R : ℕ) (net : Net α) : ℕ := ((List.range P).map fun p => if p = 0 then 0 else (net.todo p).length).sum + rootCost P R net

theorem cost_step [Zero α] {P R : ℕ} {sync : Bool} {d : ℕ → ℕ → List α} {net net' : Net α} {p : ℕ} (g : Good P R d net) (h : step P R sync d net p = some net') :
    cost P R net' < cost P R net := by
  rw [step] at h
  by_cases h0 : p = 0
  · rw [if_pos h0] at h
    by_cases hf : net.frame < R
    swap
    · rw [if_neg hf] at h; cases h
    rw [if_pos hf] at h
    have gr := g.root
    obtain ⟨k, hk⟩ : ∃ k, R - net.frame = k + 1 := ⟨R - net.frame - 1, by omega⟩
    have hmul : (k + 1) * (2 * P + 4) = k * (2 * P + 4) + (2 * P + 4) := by ring
    rw [rootStep] at h
    split at h
    · rename_i acc hc
      rw [hc] at gr
      have hg1 := gr.1
      split_ifs at h with hl
      · split at h
        · cases h
          simp only [cost, rootCost, Net.take, hc, hk, hmul, List.length_append, List.length_singleton]
          omega
        · cases h
      · cases h
        simp only [cost, rootCost, Net.go, hc, hk, hmul]
        omega
    · rename_i i sizes place buf hc
      rw [hc] at gr
      have hg1 := gr.2.1
      split_ifs at h with hl hpos
      · split at h
        · by_cases hle : (‹List α› : List α).length ≤ sizes.getD (i - 1) 0
          · rw [if_pos hle] at h
            cases h
            simp only [cost, rootCost, Net.take, hc, hk, hmul]
            omega
          · rw [if_neg hle] at h; cases h
        · cases h
      · cases h
        simp only [cost, rootCost, Net.go, hc, hk, hmul]
        omega
      · cases h
        have hk' : R - (net.frame + 1) = k := by omega
        simp only [cost, rootCost, hc, hk, hk', hmul, List.length_nil]
        omega
  · rw [if_neg h0] at h
    by_cases hp : p < P
    swap
    · rw [if_neg hp] at h; cases h
    rw [if_pos hp] at h
    split at h
    · rename_i m t ht
      by_cases hsy : sync = false ∨ net.read p = (net.sent p).length
      swap
      · rw [if_neg hsy] at h; cases h
      rw [if_pos hsy] at h
      cases h
      have hlt : ((List.range P).map fun q => if q = 0 then 0 else ((if q = p then t else net.todo q) : List (Msg α)).length).sum <
          ((List.range P).map fun q => if q = 0 then 0 else (net.todo q).length).sum := by
        apply List.sum_lt_sum
        · intro q _
          by_cases hq0 : q = 0
          · simp [hq0]
          · by_cases hqp : q = p
            · subst hqp; simp [hq0, ht]
            · simp [hq0, hqp]
        · exact ⟨p, List.mem_range.2 hp, by simp [h0, ht]⟩
      simp only [cost, rootCost]
      omega
    · cases h

/-- The number of steps of a complete gathering is bounded by this. -/
theorem run_cost [Zero α] {P R : ℕ} {sync : Bool} {d : ℕ → ℕ → List α} {n : ℕ} {net : Net α} (h : Run P R sync d n net) : n + cost P R net ≤ cost P R (start R d) := by
  induction h with
  | start => omega
  | step n net net' p hr hs ih => have := cost_step (good_run hr) hs; omega

/-- **C145.** Whatever the order in which the processors act, how far they run ahead and whether sends wait: the gathering never gets stuck, comes to an end, and the root has then recorded, for every
frame, exactly the data of processors 0, 1, 2, …, in this order. -/
theorem C145_gather [Zero α] {P R : ℕ} (hP : 0 < P) (sync : Bool) (d : ℕ → ℕ → List α) {n : ℕ} {net : Net α} (h : Run P R sync d n net) :
    ((∃ p net', step P R sync d net p = some net') ∨ Finished P R net) ∧ n ≤ cost P R (start R d) ∧ (net.frame = R → net.out = gathered P R d) ∧
      net.out = gathered P net.frame d := by
  have g := good_run h
  have ho : net.out = gathered P net.frame d := by rw [g.out, gathered, Nat.max_eq_left hP]
  exact ⟨progress g, le_trans (Nat.le_add_right _ _) (run_cost h), fun hf => by rw [ho, hf], ho⟩

/-- Hence there is an end, reached by every schedule that goes on as long as it can. -/
theorem C145_end [Zero α] {P R : ℕ} (hP : 0 < P) (sync : Bool) (d : ℕ → ℕ → List α) {n : ℕ} {net : Net α} (h : Run P R sync d n net) :
    ∃ m net', Run P R sync d m net' ∧ n ≤ m ∧ Finished P R net' ∧ net'.out = gathered P R d := by
  induction hc : cost P R net using Nat.strong_induction_on generalizing n net with
  | _ c ih =>
    rcases (C145_gather hP sync d h).1 with ⟨p, net', hs⟩ | hf
    · obtain ⟨m, e, h1, h2, h3⟩ := ih _ (hc ▸ cost_step (good_run h) hs) (.step n net net' p h hs) rfl
      exact ⟨m, e, h1, by omega, h3⟩
    · exact ⟨n, net, h, le_rfl, hf, (C145_gather hP sync d h).2.2.1 hf.1⟩

/-- If every processor sends whole records of `w` numbers, the recorded frame consists of whole records: those of all processors. -/
theorem C145_records {P : ℕ} (w : ℕ) (recs : ℕ → ℕ → List (List α)) (hw : ∀ r p, ∀ l ∈ recs r p, l.length = w) (R : ℕ) (r : ℕ) (hr : r < R) :
    ∃ f, (gathered P R fun r p => (recs r p).flatten)[r]? = some f ∧ f = ((List.range P).flatMap (recs r)).flatten ∧ f.length = w * ((List.range P).flatMap (recs r)).length := by
  refine ⟨(List.range P).flatMap fun p => (recs r p).flatten, ?_, ?_, ?_⟩
  · rw [gathered, List.getElem?_map, List.getElem?_range hr]; rfl
  · induction P with
    | zero => rfl
    | succ P ih => simp [List.range_succ, ih]
  · induction P with
    | zero => simp
    | succ P ih =>
      have h1 : ((recs r P).flatten).length = w * (recs r P).length := by
        rw [List.length_flatten, List.map_congr_left (hw r P)]
        simp [Nat.mul_comm]
      simp only [List.range_succ, List.flatMap_append, List.length_append, List.flatMap_singleton, ih, h1, Nat.mul_add]

/-- Three processors, two frames, one of which is empty on processor 1. -/
def three (r p : ℕ) : List ℤ := if p = 1 ∧ r = 0 then [] else [(10 * r + p : ℕ), 7]

example : Run 3 2 true three 0 (start 2 three) := .start
example : ∃ n net, Run 3 2 true three n net ∧ Finished 3 2 net ∧ net.out = [[0, 7, 2, 7], [10, 7, 11, 7, 12, 7]] := by
  obtain ⟨m, net, h, _, hf, ho⟩ := C145_end (by decide : 0 < 3) true three (.start : Run 3 2 true three 0 (start 2 three))
  exact ⟨m, net, h, hf, by rw [ho]; decide⟩
/-- The root may not take the messages out of order: processor 2 has sent, processor 1 has not, the root waits. -/
example : ((step 3 2 true three (start 2 three) 2).bind fun net => step 3 2 true three net 0).isNone = true := by decide
example : ∀ r p : ℕ, ∀ l ∈ (fun _ p => List.replicate p [1, 2] : ℕ → ℕ → List (List ℤ)) r p, l.length = 2 := by
  intro r p l hl; obtain rfl := List.eq_of_mem_replicate hl; rfl

end Verif.Gather
