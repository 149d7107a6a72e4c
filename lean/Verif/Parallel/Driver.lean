import Mathlib.Data.List.Basic
import Mathlib.Data.Fin.Basic
import Mathlib.Tactic.Common

/-!
# The main program on all processors (C146)

Models `main`, `applications/driver.cpp:48-500`, as a program in which all processors take part in operations together, with `GFlow::writeData` (`gflow.cpp:302-306`) and the operations in
`DataMaster::writeToDirectory` (`base/datamaster.cpp:167-181`, 342-696, 826-897).

Simplifications: the operations during the creation of the simulation and during the run are sequences of equal operations, of any length on each processor (that decisions are taken together in a run is
C144); what the options do is not modelled here; what the parser and the creator do are arbitrary functions; an exception in `writeToDirectory` is not modelled. `MPI_Finalize` belongs to the exit.
-/

namespace Verif.Driver

/-- Operations of all processors, `parallel/mpi-communication.hpp`: broadcast from the root, and, sum on the root, gather on the root, barrier, and those in the creation and in the run. -/
inductive Op where
  | bcast | and | reduce | gather | barrier | create | run
  deriving DecidableEq

/-- What a processor still does: it has ended, or takes part in an operation with a value and continues with the result. -/
inductive Prog (ω : Type) where
  | done (o : ω)
  | coll (op : Op) (v : List ℕ) (k : List ℕ → Prog ω)

open Classical in
/-- Results: of a broadcast, the value of the root (`parallel/mpi-communication.hpp:236-257`), of `mpi_and`, 1 if no value is 0 (146-153). -/
noncomputable def combine {P : ℕ} (op : Op) (v : Fin (P + 1) → List ℕ) : List ℕ :=
  match op with
  | .bcast => v 0
  | .and => if ∀ p, v p = [1] then [1] else [0]
  | _ => []

/-- `Joint f o`: all processors end, with outcomes `o`: at any time all of them take part in the same operation. If they do not, they wait for ever (or exchange wrong values), and there is no outcome. -/
inductive Joint {P : ℕ} {ω : Type} : (Fin (P + 1) → Prog ω) → (Fin (P + 1) → ω) → Prop where
  | done (o : Fin (P + 1) → ω) : Joint (fun p => .done (o p)) o
  | coll (op : Op) (v : Fin (P + 1) → List ℕ) (k : Fin (P + 1) → List ℕ → Prog ω) (o : Fin (P + 1) → ω) (h : Joint (fun p => k p (combine op v)) o) :
      Joint (fun p => .coll op (v p) (k p)) o

/-- What differs between processors: the arguments given to it, whether the creator succeeds with some arguments and after how many operations, whether `parser.check` passes, whether there is an
integrator, how many operations the run has and whether it ends without an exception, whether the files can be opened. -/
structure Rank where
  args : List (List ℕ)
  createOps : ℕ
  created : List (List ℕ) → Bool
  checked : List (List ℕ) → Bool
  integrator : Bool
  runOps : ℕ
  runs : Bool
  opens : Bool

/-- What is common: whether arguments are legal tokens (`ArgParse::set`), the number of interactions, whether there is timing, the number of types. -/
structure Cfg where
  legal : List (List ℕ) → Bool
  inters : ℕ
  timed : Bool
  types : ℕ

/-- The end of a processor: its exit code, the arguments it used, whether the run took place, whether it wrote (took part in writing) the data. -/
structure Out where
  code : ℕ
  args : List (List ℕ)
  ran : Bool
  wrote : Bool

/-- A sequence of operations whose results are not used. -/
def seq {ω : Type} : List Op → Prog ω → Prog ω
  | [], k => k
  | op :: l, k => .coll op [] fun _ => seq l k

/-- The operations of `writeSummary`, `base/datamaster.cpp:386`, 425-430, 434, 484-499, 546, 591. -/
def summaryOps (c : Cfg) (P : ℕ) : List Op :=
  [.reduce] ++ List.replicate c.inters .reduce ++ [.reduce] ++ (if c.timed ∧ P > 0 then List.replicate 11 .gather else []) ++ [.reduce] ++ if c.types > 1 then [.reduce] else []

/-- The operations of `writeMPIFile`, `base/datamaster.cpp:838-884`. -/
def mpiOps (c : Cfg) : List Op := List.replicate 5 .gather ++ if c.timed then List.replicate 8 .gather else []

/-- `writeData`, `gflow.cpp:302-306`, `base/datamaster.cpp:167-181`: on the root, the summary ends at once if its file cannot be opened (`base/datamaster.cpp:354-360`). Other processors: `P`. -/
def writeData {ω : Type} (c : Cfg) (P : ℕ) (root : Bool) (opens : Bool) (k : Prog ω) : Prog ω :=
  seq (if root && !opens then [] else summaryOps c P) (seq (if P > 0 then mpiOps c else []) k)

/-- The strings, one by one, `applications/driver.cpp:71-76`, 83-87. -/
def bcastArgs {ω : Type} (mine : List (List ℕ)) : List ℕ → List (List ℕ) → (List (List ℕ) → Prog ω) → Prog ω
  | [], acc, k => k acc
  | _ :: sizes, acc, k => .coll .bcast (mine.headD []) fun s => bcastArgs mine.tail sizes (acc ++ [s]) k

/-- The number of arguments, their lengths, the arguments, a barrier, `applications/driver.cpp:60-91`. -/
def shareArgs {ω : Type} (mine : List (List ℕ)) (k : List (List ℕ) → Prog ω) : Prog ω :=
  .coll .bcast [mine.length] fun _ => .coll .bcast (mine.map List.length) fun sizes => bcastArgs mine sizes [] fun args => .coll .barrier [] fun _ => k args

/-- A Boolean as the argument of `mpi_and`. -/
def bit (b : Bool) : List ℕ := if b then [1] else [0]

/-- `mpi_and(no_errors); if (!no_errors) return 1;`, `applications/driver.cpp:181-185`, 313-317, 331-335. -/
def agree (b : Bool) (args : List (List ℕ)) (k : Prog Out) : Prog Out := .coll .and (bit b) fun r => if r = [1] then k else .done ⟨1, args, false, false⟩

/-- The run and the end, `applications/driver.cpp:420-500`. -/
def runPart (c : Cfg) (P : ℕ) (root : Bool) (r : Rank) (args : List (List ℕ)) : Prog Out :=
  .coll .reduce [] fun _ => seq (List.replicate r.runOps .run) (.coll .and (bit r.runs) fun ok =>
    if ok = [1] then .coll .barrier [] fun _ => writeData c P root r.opens (.coll .barrier [] fun _ => .done ⟨0, args, true, true⟩)
    else if root then writeData c P root r.opens (.done ⟨1, args, true, true⟩) else .done ⟨1, args, true, false⟩)

/-- `main`, `applications/driver.cpp:48-500`, on one of `P + 1` processors. Without an integrator: 394-398. -/
def main (c : Cfg) (P : ℕ) (root : Bool) (r : Rank) : Prog Out :=
  shareArgs r.args fun args => agree (c.legal args) args (seq (List.replicate r.createOps .create) (agree (r.created args) args (agree (r.checked args) args
    (if r.integrator then runPart c P root r args else .done ⟨0, args, false, false⟩))))

/-- All processors. -/
def world (c : Cfg) (P : ℕ) (rs : Fin (P + 1) → Rank) : Fin (P + 1) → Prog Out := fun p => main c P (p == 0) (rs p)

/-! ## Joint actions -/

variable {P : ℕ} {ω : Type}

theorem joint_done (o o' : Fin (P + 1) → ω) : Joint (fun p => .done (o p)) o' ↔ o' = o := by
  constructor
  · intro h
    generalize hf : (fun p => Prog.done (o p)) = f at h
    cases h with
    | done _ => funext p; exact (Prog.done.inj (congrFun hf p)).symm
    | coll op v k o h => exact absurd (congrFun hf 0) (by simp)
  · rintro rfl; exact .done _

theorem joint_coll (op : Op) (v : Fin (P + 1) → List ℕ) (k : Fin (P + 1) → List ℕ → Prog ω) (o : Fin (P + 1) → ω) :
    Joint (fun p => .coll op (v p) (k p)) o ↔ Joint (fun p => k p (combine op v)) o := by
  constructor
  · intro h
    generalize hf : (fun p => Prog.coll op (v p) (k p)) = f at h
    cases h with
    | done _ => exact absurd (congrFun hf 0) (by simp)
    | coll op' v' k' o h =>
      have h0 := congrFun hf 0
      simp only [Prog.coll.injEq] at h0
      obtain rfl := h0.1
      have hv : v = v' := by funext p; have := congrFun hf p; simp only [Prog.coll.injEq] at this; exact this.2.1
      have hk : k = k' := by funext p; have := congrFun hf p; simp only [Prog.coll.injEq] at this; exact this.2.2
      rw [hv, hk]; exact h
  · exact .coll op v k o

/-- Processors at different points have no common outcome. -/
theorem joint_mixed {f : Fin (P + 1) → Prog ω} {o : Fin (P + 1) → ω} (h : Joint f o) (p q : Fin (P + 1)) {op : Op} {v : List ℕ} {k : List ℕ → Prog ω} (hp : f p = .coll op v k) :
    ∃ v' k', f q = .coll op v' k' := by
  cases h with
  | done _ => cases hp
  | coll op' v' k' o h => simp only [Prog.coll.injEq] at hp; rw [← hp.1]; exact ⟨_, _, rfl⟩

theorem joint_seq (l : List Op) (k : Fin (P + 1) → Prog ω) (o : Fin (P + 1) → ω) : Joint (fun p => seq l (k p)) o ↔ Joint k o := by
  induction l with
  | nil => rfl
  | cons op l ih => simp only [seq]; rw [joint_coll op (fun _ => []) (fun p _ => seq l (k p))]; exact ih

theorem joint_bcastArgs (sizes : List ℕ) (mine : Fin (P + 1) → List (List ℕ)) (acc : List (List ℕ)) (hl : sizes.length = (mine 0).length) (k : Fin (P + 1) → List (List ℕ) → Prog ω)
    (o : Fin (P + 1) → ω) : Joint (fun p => bcastArgs (mine p) sizes acc (k p)) o ↔ Joint (fun p => k p (acc ++ mine 0)) o := by
  induction sizes generalizing mine acc with
  | nil => have : mine 0 = [] := List.length_eq_zero_iff.1 hl.symm; simp [bcastArgs, this]
  | cons s sizes ih =>
    simp only [bcastArgs]
    rw [joint_coll .bcast (fun p => (mine p).headD []) (fun p s => bcastArgs (mine p).tail sizes (acc ++ [s]) (k p))]
    simp only [combine]
    rw [ih (fun p => (mine p).tail) _ (by simp at hl ⊢; omega)]
    obtain ⟨a, t, ht⟩ : ∃ a t, mine 0 = a :: t := by
      cases h : mine 0 with
      | nil => rw [h] at hl; simp at hl
      | cons a t => exact ⟨a, t, rfl⟩
    simp [ht]

theorem joint_shareArgs (mine : Fin (P + 1) → List (List ℕ)) (k : Fin (P + 1) → List (List ℕ) → Prog ω) (o : Fin (P + 1) → ω) :
    Joint (fun p => shareArgs (mine p) (k p)) o ↔ Joint (fun p => k p (mine 0)) o := by
  simp only [shareArgs]
  rw [joint_coll .bcast (fun p => [(mine p).length])
    (fun p _ => .coll .bcast ((mine p).map List.length) fun sizes => bcastArgs (mine p) sizes [] fun args => .coll .barrier [] fun _ => k p args)]
  rw [joint_coll .bcast (fun p => (mine p).map List.length) (fun p sizes => bcastArgs (mine p) sizes [] fun args => .coll .barrier [] fun _ => k p args)]
  simp only [combine]
  rw [joint_bcastArgs _ mine [] (by simp) (fun p args => .coll .barrier [] fun _ => k p args)]
  rw [joint_coll .barrier (fun _ => []) (fun p _ => k p ([] ++ mine 0))]
  rfl

theorem bit_one (b : Bool) : bit b = [1] ↔ b = true := by cases b <;> simp [bit]

theorem combine_and (b : Fin (P + 1) → Bool) (h : ∀ p, b p = true) : combine .and (fun p => bit (b p)) = [1] := by
  simp only [combine]
  rw [if_pos fun p => (bit_one _).2 (h p)]

theorem combine_and' (b : Fin (P + 1) → Bool) (h : ¬∀ p, b p = true) : combine .and (fun p => bit (b p)) = [0] := by
  simp only [combine]
  rw [if_neg fun h' => h fun p => (bit_one _).1 (h' p)]

theorem joint_agree (b : Fin (P + 1) → Bool) (args : List (List ℕ)) (k : Fin (P + 1) → Prog Out) (o : Fin (P + 1) → Out) :
    Joint (fun p => agree (b p) args (k p)) o ↔ ((∀ p, b p = true) ∧ Joint k o) ∨ ((∃ p, b p = false) ∧ o = fun _ => ⟨1, args, false, false⟩) := by
  simp only [agree]
  rw [joint_coll .and (fun p => bit (b p)) (fun p r => if r = [1] then k p else .done ⟨1, args, false, false⟩)]
  by_cases h : ∀ p, b p = true
  · simp only [combine_and b h, if_true]
    constructor
    · exact fun hj => .inl ⟨h, hj⟩
    · rintro (⟨_, hj⟩ | ⟨⟨p, hp⟩, _⟩)
      · exact hj
      · rw [h p] at hp; cases hp
  · simp only [combine_and' b h, List.cons.injEq, Nat.zero_ne_one, and_true, if_false]
    rw [joint_done]
    have h2 : ∃ p, b p = false := by push Not at h; obtain ⟨p, hp⟩ := h; exact ⟨p, by simpa using hp⟩
    constructor
    · exact fun hj => .inr ⟨h2, hj⟩
    · rintro (⟨h', _⟩ | ⟨_, hj⟩)
      · exact absurd h' h
      · exact hj

theorem joint_writeData (c : Cfg) (opens : Fin (P + 1) → Bool) (h0 : opens 0 = true) (k : Fin (P + 1) → Prog ω) (o : Fin (P + 1) → ω) :
    Joint (fun p => writeData c P (p == 0) (opens p) (k p)) o ↔ Joint k o := by
  have h : ∀ p : Fin (P + 1), ((p == 0) && !opens p) = false := by
    intro p
    by_cases hp : p = 0
    · subst hp; simp [h0]
    · simp [hp]
  simp only [writeData, h, Bool.false_eq_true, if_false]
  rw [joint_seq, joint_seq]

/-! ## Theorems -/

/-- Before the run nothing has gone wrong on any processor. -/
def Clean (c : Cfg) (rs : Fin (P + 1) → Rank) : Prop :=
  c.legal (rs 0).args = true ∧ ∀ p, (rs p).created (rs 0).args = true ∧ (rs p).checked (rs 0).args = true

/-- All processors take part in the same operations while the simulation is created, and while it runs. -/
def InStep (rs : Fin (P + 1) → Rank) : Prop := ∀ p, (rs p).createOps = (rs 0).createOps ∧ (rs p).runOps = (rs 0).runOps ∧ (rs p).integrator = (rs 0).integrator

theorem joint_world (c : Cfg) (rs : Fin (P + 1) → Rank) (hin : InStep rs) (o : Fin (P + 1) → Out) :
    Joint (world c P rs) o ↔ (Clean c rs ∧ Joint (fun p => if (rs p).integrator then runPart c P (p == 0) (rs p) (rs 0).args else .done ⟨0, (rs 0).args, false, false⟩) o) ∨
      (¬Clean c rs ∧ o = fun _ => ⟨1, (rs 0).args, false, false⟩) := by
  have h1 : ∀ p, (rs p).createOps = (rs 0).createOps := fun p => (hin p).1
  have hw : world c P rs = fun p => main c P (p == 0) (rs p) := rfl
  rw [hw]
  simp only [main, h1]
  rw [joint_shareArgs (fun p => (rs p).args) (fun p args => agree (c.legal args) args (seq (List.replicate (rs 0).createOps .create) (agree ((rs p).created args) args
    (agree ((rs p).checked args) args (if (rs p).integrator then runPart c P (p == 0) (rs p) args else .done ⟨0, args, false, false⟩)))))]
  rw [joint_agree (fun _ => c.legal (rs 0).args), joint_seq, joint_agree, joint_agree]
  constructor
  · rintro (⟨hl, ⟨hc, ⟨hk, hj⟩ | ⟨⟨p, hp⟩, he⟩⟩ | ⟨⟨p, hp⟩, he⟩⟩ | ⟨⟨p, hp⟩, he⟩)
    · exact .inl ⟨⟨hl 0, fun p => ⟨hc p, hk p⟩⟩, hj⟩
    · exact .inr ⟨fun h => (by rw [(h.2 p).2] at hp; cases hp), he⟩
    · exact .inr ⟨fun h => (by rw [(h.2 p).1] at hp; cases hp), he⟩
    · exact .inr ⟨fun h => (by rw [h.1] at hp; cases hp), he⟩
  · rintro (⟨hc, hj⟩ | ⟨hn, he⟩)
    · exact .inl ⟨fun _ => hc.1, .inl ⟨fun p => (hc.2 p).1, .inl ⟨fun p => (hc.2 p).2, hj⟩⟩⟩
    · by_cases hl : c.legal (rs 0).args = true
      · by_cases hc : ∀ p, (rs p).created (rs 0).args = true
        · have hk : ∃ p, (rs p).checked (rs 0).args = false := by
            by_contra h'
            push Not at h'
            exact hn ⟨hl, fun p => ⟨hc p, by simpa using h' p⟩⟩
          exact .inl ⟨fun _ => hl, .inl ⟨hc, .inr ⟨hk, he⟩⟩⟩
        · have hk : ∃ p, (rs p).created (rs 0).args = false := by push Not at hc; obtain ⟨p, hp⟩ := hc; exact ⟨p, by simpa using hp⟩
          exact .inl ⟨fun _ => hl, .inr ⟨hk, he⟩⟩
      · exact .inr ⟨⟨0, by simpa using hl⟩, he⟩

theorem joint_runPart (c : Cfg) (rs : Fin (P + 1) → Rank) (hin : InStep rs) (args : List (List ℕ)) (o : Fin (P + 1) → Out) :
    Joint (fun p => runPart c P (p == 0) (rs p) args) o ↔
      ((∀ p, (rs p).runs = true) ∧ Joint (fun p => writeData c P (p == 0) (rs p).opens (.coll .barrier [] fun _ => .done ⟨0, args, true, true⟩)) o) ∨
      ((∃ p, (rs p).runs = false) ∧ Joint (fun p => if p == 0 then writeData c P (p == 0) (rs p).opens (.done ⟨1, args, true, true⟩) else .done ⟨1, args, true, false⟩) o) := by
  have h1 : ∀ p, (rs p).runOps = (rs 0).runOps := fun p => (hin p).2.1
  simp only [runPart, h1]
  rw [joint_coll (ω := Out) .reduce (fun _ => []) (fun p _ => seq (List.replicate (rs 0).runOps .run) (.coll .and (bit (rs p).runs) fun ok =>
    if ok = [1] then .coll .barrier [] fun _ => writeData c P (p == 0) (rs p).opens (.coll .barrier [] fun _ => .done ⟨0, args, true, true⟩)
    else if (p == 0) = true then writeData c P (p == 0) (rs p).opens (.done ⟨1, args, true, true⟩) else .done ⟨1, args, true, false⟩))]
  rw [joint_seq]
  rw [joint_coll (ω := Out) .and (fun p => bit (rs p).runs) (fun p ok =>
    if ok = [1] then .coll .barrier [] fun _ => writeData c P (p == 0) (rs p).opens (.coll .barrier [] fun _ => .done ⟨0, args, true, true⟩)
    else if (p == 0) = true then writeData c P (p == 0) (rs p).opens (.done ⟨1, args, true, true⟩) else .done ⟨1, args, true, false⟩)]
  by_cases h : ∀ p, (rs p).runs = true
  · simp only [combine_and (fun p => (rs p).runs) h, if_true]
    rw [joint_coll (ω := Out) .barrier (fun _ => []) (fun p _ => writeData c P (p == 0) (rs p).opens (.coll .barrier [] fun _ => .done ⟨0, args, true, true⟩))]
    constructor
    · exact fun hj => .inl ⟨h, hj⟩
    · rintro (⟨_, hj⟩ | ⟨⟨p, hp⟩, _⟩)
      · exact hj
      · rw [h p] at hp; cases hp
  · simp only [combine_and' (fun p => (rs p).runs) h, List.cons.injEq, Nat.zero_ne_one, and_true, if_false]
    have h2 : ∃ p, (rs p).runs = false := by push Not at h; obtain ⟨p, hp⟩ := h; exact ⟨p, by simpa using hp⟩
    constructor
    · exact fun hj => .inr ⟨h2, hj⟩
    · rintro (⟨h', _⟩ | ⟨_, hj⟩)
      · exact absurd h' h
      · exact hj

/-- **C146 (before the run).** The arguments given to the root decide, on all processors. If they are illegal, or the creation fails on any processor, or an option is unknown, all processors end with
exit code 1, none has run or written anything. -/
theorem C146_early (c : Cfg) (rs : Fin (P + 1) → Rank) (hin : InStep rs) (hbad : ¬Clean c rs) (o : Fin (P + 1) → Out) :
    Joint (world c P rs) o ↔ o = fun _ => ⟨1, (rs 0).args, false, false⟩ := by
  rw [joint_world c rs hin]
  constructor
  · rintro (⟨h, _⟩ | ⟨_, h⟩)
    · exact absurd h hbad
    · exact h
  · exact fun h => .inr ⟨hbad, h⟩

/-- **C146 (partial).** If nothing goes wrong before the run, there is an integrator, the run ends without an exception on all processors and the root can open its files, all processors end with exit
code 0, have run with the arguments of the root, and the data is written.
Missing: an exception during the run on some processor, or a summary which cannot be opened, leaves more than one processor without an end (`C146_negation_exception`, `C146_negation_open`,
`C146_negation_steps`). -/
theorem C146_success_partial (c : Cfg) (rs : Fin (P + 1) → Rank) (hin : InStep rs) (hok : Clean c rs) (hint : (rs 0).integrator = true) (hrun : ∀ p, (rs p).runs = true)
    (hopen : (rs 0).opens = true) (o : Fin (P + 1) → Out) : Joint (world c P rs) o ↔ o = fun _ => ⟨0, (rs 0).args, true, true⟩ := by
  have hint' : ∀ p, (rs p).integrator = true := fun p => by rw [(hin p).2.2]; exact hint
  rw [joint_world c rs hin]
  simp only [hint', if_true]
  rw [joint_runPart c rs hin, joint_writeData c (fun p => (rs p).opens) hopen]
  rw [joint_coll (ω := Out) .barrier (fun _ => []) (fun _ _ => .done ⟨0, (rs 0).args, true, true⟩), joint_done]
  constructor
  · rintro (⟨_, ⟨_, h⟩ | ⟨⟨p, hp⟩, _⟩⟩ | ⟨h, _⟩)
    · exact h
    · rw [hrun p] at hp; cases hp
    · exact absurd hok h
  · exact fun h => .inl ⟨hok, .inl ⟨hrun, h⟩⟩

/-- On one processor an exception during the run gives exit code 1, and what has been recorded is written. -/
theorem C146_serial (c : Cfg) (r : Rank) (hok : Clean c (fun _ : Fin 1 => r)) (hint : r.integrator = true) (hrun : r.runs = false) (o : Fin 1 → Out) :
    Joint (world c 0 fun _ => r) o ↔ o = fun _ => ⟨1, r.args, true, true⟩ := by
  have hin : InStep (fun _ : Fin 1 => r) := fun p => ⟨rfl, rfl, rfl⟩
  rw [joint_world c (fun _ => r) hin]
  simp only [hint, if_true]
  rw [joint_runPart c (fun _ => r) hin]
  have he : (fun p : Fin 1 => if (p == 0) = true then writeData c 0 (p == 0) r.opens (.done ⟨1, r.args, true, true⟩) else .done ⟨1, r.args, true, false⟩)
      = fun _ : Fin 1 => writeData c 0 true r.opens (.done (⟨1, r.args, true, true⟩ : Out)) := by
    funext p; have : p = 0 := Subsingleton.elim _ _; subst this; rfl
  rw [he]
  simp only [writeData]
  rw [joint_seq, joint_seq, joint_done]
  constructor
  · rintro (⟨_, ⟨h, _⟩ | ⟨_, h⟩⟩ | ⟨h, _⟩)
    · rw [h 0] at hrun; cases hrun
    · exact h
    · exact absurd hok h
  · exact fun h => .inl ⟨hok, .inr ⟨⟨0, hrun⟩, h⟩⟩

theorem seq_cons {op : Op} {l : List Op} {k : Prog ω} : seq (op :: l) k = .coll op [] fun _ => seq l k := rfl

/-- **An exception during the run, on whichever of several processors, even if all have taken part in the same operations: the root alone goes on to the operations of writing, the others have ended.** No
outcome: the root waits for ever. -/
theorem C146_negation_exception (c : Cfg) (rs : Fin (P + 1) → Rank) (hP : 0 < P) (hin : InStep rs) (hok : Clean c rs) (hint : (rs 0).integrator = true) (hrun : ∃ p, (rs p).runs = false) :
    ¬∃ o, Joint (world c P rs) o := by
  have hint' : ∀ p, (rs p).integrator = true := fun p => by rw [(hin p).2.2]; exact hint
  rintro ⟨o, h⟩
  rw [joint_world c rs hin] at h
  simp only [hint', if_true] at h
  rw [joint_runPart c rs hin] at h
  rcases h with ⟨_, ⟨h, _⟩ | ⟨_, h⟩⟩ | ⟨h, _⟩
  · obtain ⟨p, hp⟩ := hrun; rw [h p] at hp; cases hp
  · have hq : ((⟨1, by omega⟩ : Fin (P + 1)) == 0) = false := by simp [Fin.ext_iff]
    have hne : ∃ op v k, (if ((0 : Fin (P + 1)) == 0) = true then writeData c P ((0 : Fin (P + 1)) == 0) (rs 0).opens (.done ⟨1, (rs 0).args, true, true⟩)
        else .done ⟨1, (rs 0).args, true, false⟩ : Prog Out) = .coll op v k := by
      simp only [beq_self_eq_true, if_true, writeData, Bool.true_and, hP]
      cases (rs 0).opens
      · exact ⟨_, _, _, rfl⟩
      · exact ⟨_, _, _, rfl⟩
    obtain ⟨op, v, k, hk⟩ := hne
    obtain ⟨v', k', h'⟩ := joint_mixed h 0 ⟨1, by omega⟩ hk
    rw [hq] at h'
    simp at h'
  · exact absurd hok h

/-- **A summary which the root cannot open: several processors have no outcome even if the run was fine.** The root leaves out the sums the others take part in. -/
theorem C146_negation_open (c : Cfg) (rs : Fin (P + 1) → Rank) (hP : 0 < P) (hin : InStep rs) (hok : Clean c rs) (hint : (rs 0).integrator = true) (hrun : ∀ p, (rs p).runs = true)
    (hopen : (rs 0).opens = false) : ¬∃ o, Joint (world c P rs) o := by
  have hint' : ∀ p, (rs p).integrator = true := fun p => by rw [(hin p).2.2]; exact hint
  rintro ⟨o, h⟩
  rw [joint_world c rs hin] at h
  simp only [hint', if_true] at h
  rw [joint_runPart c rs hin] at h
  rcases h with ⟨_, ⟨_, h⟩ | ⟨⟨p, hp⟩, _⟩⟩ | ⟨h, _⟩
  · have hq : ((⟨1, by omega⟩ : Fin (P + 1)) == 0) = false := by simp [Fin.ext_iff]
    obtain ⟨l, hl⟩ : ∃ l, mpiOps c = .gather :: l := ⟨_, rfl⟩
    obtain ⟨l', hl'⟩ : ∃ l, summaryOps c P = .reduce :: l := ⟨_, rfl⟩
    have h0 : writeData c P ((0 : Fin (P + 1)) == 0) (rs 0).opens (.coll .barrier [] fun _ => .done ⟨0, (rs 0).args, true, true⟩)
        = .coll .gather [] fun _ => seq l (.coll .barrier [] fun _ => .done (⟨0, (rs 0).args, true, true⟩ : Out)) := by
      simp [writeData, hopen, hP, hl, seq]
    obtain ⟨v', k', h'⟩ := joint_mixed h 0 ⟨1, by omega⟩ h0
    simp only [writeData, hq, Bool.false_and, Bool.false_eq_true, if_false, hl', seq_cons, Prog.coll.injEq] at h'
    exact absurd h'.1 (by decide)
  · rw [hrun p] at hp; cases hp
  · exact absurd hok h

/-- The processors other than those in step: processor `q` has an exception earlier in the run than processor `p`. -/
theorem joint_seq_run (n m : ℕ) (h : n < m) (f : Fin (P + 1) → Prog ω) (o : Fin (P + 1) → ω) (p q : Fin (P + 1)) {op : Op} (hop : op ≠ .run) (v : List ℕ) (k : List ℕ → Prog ω) (kp : Prog ω)
    (hq : f q = seq (List.replicate n .run) (.coll op v k)) (hp : f p = seq (List.replicate m .run) kp) : ¬Joint f o := by
  induction n generalizing m f with
  | zero =>
    intro hj
    obtain ⟨m, rfl⟩ : ∃ l, m = l + 1 := ⟨m - 1, by omega⟩
    rw [List.replicate_succ, seq_cons] at hp
    obtain ⟨v', k', h'⟩ := joint_mixed hj p q hp
    rw [hq] at h'
    simp only [List.replicate_zero, seq, Prog.coll.injEq] at h'
    exact hop h'.1
  | succ n ih =>
    intro hj
    obtain ⟨m, rfl⟩ : ∃ l, m = l + 1 := ⟨m - 1, by omega⟩
    rw [List.replicate_succ, seq_cons] at hp hq
    cases hj with
    | done _ => cases hp
    | coll op' v' k' o hj =>
      simp only [Prog.coll.injEq] at hp hq
      have e1 := congrFun hp.2.2 (combine op' v')
      have e2 := congrFun hq.2.2 (combine op' v')
      exact ih m (by omega) _ e2 e1 hj

/-- **An exception on one processor before the others have finished their operations: no outcome.** The others wait for it in an operation of the run. -/
theorem C146_negation_steps (c : Cfg) (rs : Fin (P + 1) → Rank) (hcr : ∀ p, (rs p).createOps = (rs 0).createOps) (hok : Clean c rs) (hint : ∀ p, (rs p).integrator = true)
    (p q : Fin (P + 1)) (hlt : (rs q).runOps < (rs p).runOps) : ¬∃ o, Joint (world c P rs) o := by
  rintro ⟨o, h⟩
  have hw : world c P rs = fun p => main c P (p == 0) (rs p) := rfl
  rw [hw] at h
  simp only [main, hcr] at h
  rw [joint_shareArgs (fun p => (rs p).args) (fun p args => agree (c.legal args) args (seq (List.replicate (rs 0).createOps .create) (agree ((rs p).created args) args
    (agree ((rs p).checked args) args (if (rs p).integrator then runPart c P (p == 0) (rs p) args else .done ⟨0, args, false, false⟩)))))] at h
  rw [joint_agree (fun _ => c.legal (rs 0).args), joint_seq, joint_agree, joint_agree] at h
  rcases h with (⟨hl, ⟨hc, ⟨hk, hj⟩ | ⟨⟨a, ha⟩, _⟩⟩ | ⟨⟨a, ha⟩, _⟩⟩ | ⟨⟨a, ha⟩, _⟩)
  · simp only [hint, if_true, runPart] at hj
    rw [joint_coll (ω := Out) .reduce (fun _ => []) (fun p _ => seq (List.replicate (rs p).runOps .run) (.coll .and (bit (rs p).runs) fun ok =>
      if ok = [1] then .coll .barrier [] fun _ => writeData c P (p == 0) (rs p).opens (.coll .barrier [] fun _ => .done ⟨0, (rs 0).args, true, true⟩)
      else if (p == 0) = true then writeData c P (p == 0) (rs p).opens (.done ⟨1, (rs 0).args, true, true⟩) else .done ⟨1, (rs 0).args, true, false⟩))] at hj
    exact joint_seq_run _ _ hlt _ o p q (op := .and) (by decide) _ _ _ rfl rfl hj
  · rw [(hok.2 a).2] at ha; cases ha
  · rw [(hok.2 a).1] at ha; cases ha
  · rw [hok.1] at ha; cases ha

/-- **Exit code 0 does not say that anything was simulated**: without an integrator. -/
theorem C146_negation_no_integrator (c : Cfg) (rs : Fin (P + 1) → Rank) (hin : InStep rs) (hok : Clean c rs) (hint : (rs 0).integrator = false) :
    Joint (world c P rs) fun _ => ⟨0, (rs 0).args, false, false⟩ := by
  have hint' : ∀ p, (rs p).integrator = false := fun p => by rw [(hin p).2.2]; exact hint
  rw [joint_world c rs hin]
  simp only [hint', Bool.false_eq_true, if_false]
  exact .inl ⟨hok, .done _⟩

/-! ## Cases that meet the hypotheses -/

/-- A processor: the root has two arguments, the others none. -/
def aRank (root created runs opens : Bool) (ops : ℕ) : Rank := ⟨if root then [[45, 97], [45, 98, 61, 51]] else [], 2, fun a => created && a.length == 2, fun _ => true, true, ops, runs, opens⟩

/-- A configuration. -/
def aCfg : Cfg := ⟨fun a => a.all fun s => s.headD 0 == 45, 3, true, 2⟩

example : InStep (P := 2) (fun p => aRank (p == 0) true true true 5) ∧ Clean (P := 2) aCfg (fun p => aRank (p == 0) true true true 5) := ⟨fun _ => ⟨rfl, rfl, rfl⟩, by unfold Clean; decide⟩
example : ∃ o, Joint (world aCfg 2 fun p => aRank (p == 0) true true true 5) o ∧ ∀ p, (o p).code = 0 ∧ (o p).args = [[45, 97], [45, 98, 61, 51]] :=
  ⟨_, (C146_success_partial aCfg (fun p => aRank (p == 0) true true true 5) (fun _ => ⟨rfl, rfl, rfl⟩) (by unfold Clean; decide) rfl (fun _ => rfl) rfl _).2 rfl, fun _ => ⟨rfl, rfl⟩⟩
/-- The creation fails on processor 1 only. -/
example : ¬Clean (P := 2) aCfg (fun p => aRank (p == 0) (p != 1) true true 5) := by
  intro h; have := (h.2 1).1; revert this; decide
example : ∃ p, (aRank (p == (0 : Fin 3)) true (p != 1) true 5).runs = false := ⟨1, rfl⟩
example : Clean (P := 0) aCfg (fun _ => aRank true true false true 5) := by unfold Clean; decide
example : (aRank false true false true 4).runOps < (aRank true true true true 5).runOps := by decide

end Verif.Driver
