import Mathlib.Data.List.Basic
import Mathlib.Data.List.Nodup
import Mathlib.Tactic.Common

/-!
# Repeated creation of simulations and the copy of the setup file (C154)

Models the ownership of the simulation and of the parse tree by `FileParseCreator` over all histories of calls, with exceptions:
`creators/fileparsecreator.cpp:36-39,42-111,127-153,223-226`, and `copyFile`, `creators/fileparsecreator.cpp:584-595`.
-/

namespace Verif.Lifecycle

/-! ## Model -/

/-- How far one attempt to set a simulation up gets. -/
inductive Outcome where
  /-- An exception before the simulation object is made: headings are missing, a value is empty, the dimension is bad
  (`creators/fileparsecreator.cpp:155-222`). -/
  | early
  /-- An exception after that (`creators/fileparsecreator.cpp:227-402`). -/
  | late
  | success
deriving DecidableEq

/-- What parsing the file does, `creators/fileparsecreator.cpp:127-153`: there is no name, an exception, or a tree. -/
inductive Parse where
  | noFile | error | tree
deriving DecidableEq

/-- Objects are numbered in the order in which they are made. `none` is the null pointer; `freed` are the deleted objects; `given` the
simulations that were returned. -/
structure State where
  root : Option ℕ
  gflow : Option ℕ
  next : ℕ
  freed : List ℕ
  given : List ℕ

/-- A new creator. -/
def State.new : State := ⟨none, none, 0, [], []⟩

/-- `if (p) delete p`. Deleting a deleted object is undefined (`none`). -/
def release (p : Option ℕ) (freed : List ℕ) : Option (List ℕ) :=
  match p with
  | none => some freed
  | some x => if x ∈ freed then none else some (x :: freed)

/-- What a call reports to the caller. -/
inductive Result where
  | null
  | exception
  | simulation (id : ℕ)
deriving DecidableEq

/-- `createFromOptions` as far as the simulation object goes, `creators/fileparsecreator.cpp:155-226`. Returns whether it threw. -/
def createFromOptions (o : Outcome) (s : State) : Option (Bool × State) :=
  match o with
  | .early => some (true, s)
  | _ =>
    match release s.gflow s.freed with
    | none => none
    | some fr => some (decide (o = .late), ⟨s.root, some s.next, s.next + 1, fr, s.given⟩)

/-- `parseFile`, `creators/fileparsecreator.cpp:127-153`; it is called with `root` null only. -/
def parseFile (p : Parse) (s : State) : Result × State :=
  match p with
  | .noFile => (.null, s)
  | .error => (.exception, s)
  | .tree => (.simulation 0, ⟨some s.next, s.gflow, s.next + 1, s.freed, s.given⟩)

/-- `createSimulation` after the tree is there, `creators/fileparsecreator.cpp:66-111`: the old simulation is deleted (and the pointer
kept), a new one is set up, and the pointer is given away. -/
def createTree (o : Outcome) (s : State) : Option (Result × State) :=
  match release s.gflow s.freed with
  | none => none
  | some fr =>
    match createFromOptions o ⟨s.root, s.gflow, s.next, fr, s.given⟩ with
    | none => none
    | some (true, s') => some (.exception, s')
    | some (false, s') =>
      match s'.gflow with
      | none => none
      | some g => some (.simulation g, ⟨s'.root, none, s'.next, s'.freed, g :: s'.given⟩)

/-- `createSimulation`, `creators/fileparsecreator.cpp:42-111`. -/
def createSimulation (p : Parse) (o : Outcome) (s : State) : Option (Result × State) :=
  match s.root with
  | some _ => createTree o s
  | none =>
    match parseFile p s with
    | (.simulation _, s') => createTree o s'
    | (r, s') => some (r, s')

/-- The destructor, `creators/fileparsecreator.cpp:36-39`. -/
def destroy (s : State) : Option State := (release s.root s.freed).map fun fr => ⟨none, s.gflow, s.next, fr, s.given⟩

/-- A history of calls. -/
def calls : List (Parse × Outcome) → State → Option (List Result × State)
  | [], s => some ([], s)
  | (p, o) :: l, s =>
    match createSimulation p o s with
    | none => none
    | some (r, s') => (calls l s').map fun q => (r :: q.1, q.2)

/-- An input file stream: what is left, and the end-of-file flag. -/
structure Stream where
  rest : List UInt8
  eof : Bool

/-- `fin.get(c)`: the next byte, or `c` as it was and the flag set. -/
def Stream.get (f : Stream) (c : UInt8) : UInt8 × Stream :=
  match f.rest with
  | [] => (c, ⟨[], true⟩)
  | b :: r => (b, ⟨r, f.eof⟩)

/-- The loop of `copyFile`, `creators/fileparsecreator.cpp:590-593`. -/
def copyLoop : ℕ → UInt8 → Stream → List UInt8 → Option (List UInt8)
  | 0, _, f, s => if f.eof then some s else none
  | n + 1, c, f, s => if f.eof then some s else copyLoop n (f.get c).1 (f.get c).2 (s ++ [c])

/-- `copyFile`, `creators/fileparsecreator.cpp:584-595`; `none` is a file that cannot be opened; the variable `c` is uninitialised
(`garbage`). -/
def copyFile (garbage : UInt8) : Option (List UInt8) → Option (List UInt8)
  | none => some []
  | some content => copyLoop (content.length + 1) ((Stream.mk content false).get garbage).1 ((Stream.mk content false).get garbage).2 []

/-! ## Specification -/

/-- What the caller should see of a call, without the number of the simulation. -/
inductive Seen where
  | null | exception | simulation
deriving DecidableEq

/-- Of a result. -/
def Result.seen : Result → Seen
  | .null => .null
  | .exception => .exception
  | .simulation _ => .simulation

/-- The number of the simulation. -/
def Result.id? : Result → Option ℕ
  | .simulation x => some x
  | _ => none

/-- What the calls of a history should report: `tree` says that the file has been parsed. -/
def expected : Bool → List (Parse × Outcome) → List Seen
  | _, [] => []
  | tree, (p, o) :: l =>
    (if tree = false ∧ p = .noFile then .null else if tree = false ∧ p = .error then .exception
      else if o = .success then .simulation else .exception) :: expected (tree || decide (p = .tree)) l

/-- One of the calls has parsed the file. -/
def HasTree (l : List (Parse × Outcome)) : Prop := ∃ c ∈ l, c.1 = .tree

/-- After the failure of a simulation that was begun nothing more is tried. -/
def LastFailure (h : List (Parse × Outcome)) : Prop :=
  ∀ l c l', h = l ++ c :: l' → c.2 = .late → HasTree (l ++ [c]) → l' = []

/-! ## Proofs -/

/-- What the destructor needs. -/
structure Ok (s : State) : Prop where
  given : ∀ x ∈ s.given, x ∉ s.freed
  root : ∀ r, s.root = some r → r ∉ s.freed ∧ r ∉ s.given

/-- Between calls: the creator holds no simulation, and what it gave away exists. -/
structure Clean (s : State) : Prop where
  gflow : s.gflow = none
  freed : ∀ x ∈ s.freed, x < s.next
  given : ∀ x ∈ s.given, x < s.next ∧ x ∉ s.freed
  root : ∀ r, s.root = some r → r < s.next ∧ r ∉ s.freed ∧ r ∉ s.given

theorem Clean.ok {s : State} (h : Clean s) : Ok s := ⟨fun x hx => (h.given x hx).2, fun r e => (h.root r e).2⟩

theorem clean_new : Clean .new := ⟨rfl, by simp [State.new], by simp [State.new], by simp [State.new]⟩

theorem destroy_ok {s : State} (h : Ok s) : ∃ t, destroy s = some t ∧ t.given = s.given ∧ ∀ x ∈ t.given, x ∉ t.freed := by
  unfold destroy release
  cases hr : s.root with
  | none => exact ⟨_, rfl, rfl, h.given⟩
  | some r =>
    obtain ⟨h1, h2⟩ := h.root r hr
    simp only [if_neg h1, Option.map_some]
    refine ⟨_, rfl, rfl, fun x hx hm => ?_⟩
    rcases List.mem_cons.mp hm with rfl | hm
    · exact h2 hx
    · exact h.given x hx hm

theorem parse_clean {s : State} (h : Clean s) : Clean ⟨some s.next, s.gflow, s.next + 1, s.freed, s.given⟩ := by
  refine ⟨h.gflow, fun x hx => Nat.lt_succ_of_lt (h.freed x hx), fun x hx => ⟨Nat.lt_succ_of_lt (h.given x hx).1, (h.given x hx).2⟩, ?_⟩
  intro r e
  simp only [Option.some.injEq] at e
  subst e
  exact ⟨Nat.lt_succ_self _, fun hx => absurd (h.freed _ hx) (Nat.lt_irrefl _), fun hx => absurd (h.given _ hx).1 (Nat.lt_irrefl _)⟩

theorem tree_early {s : State} (h : s.gflow = none) : createTree .early s = some (.exception, s) := by
  cases s
  simp only at h
  subst h
  rfl

theorem tree_late {s : State} (h : s.gflow = none) :
    createTree .late s = some (.exception, ⟨s.root, some s.next, s.next + 1, s.freed, s.given⟩) := by
  cases s
  simp only at h
  subst h
  rfl

theorem tree_success {s : State} (h : s.gflow = none) :
    createTree .success s = some (.simulation s.next, ⟨s.root, none, s.next + 1, s.freed, s.next :: s.given⟩) := by
  cases s
  simp only at h
  subst h
  rfl

theorem clean_success {s : State} (h : Clean s) : Clean ⟨s.root, none, s.next + 1, s.freed, s.next :: s.given⟩ := by
  refine ⟨rfl, fun x hx => Nat.lt_succ_of_lt (h.freed x hx), fun x hx => ?_, fun r e => ?_⟩
  · rcases List.mem_cons.mp hx with rfl | hx
    · exact ⟨Nat.lt_succ_self _, fun hx => absurd (h.freed _ hx) (Nat.lt_irrefl _)⟩
    · exact ⟨Nat.lt_succ_of_lt (h.given x hx).1, (h.given x hx).2⟩
  · obtain ⟨a, b, c⟩ := h.root r e
    refine ⟨Nat.lt_succ_of_lt a, b, fun hx => ?_⟩
    rcases List.mem_cons.mp hx with rfl | hx
    · exact absurd a (Nat.lt_irrefl _)
    · exact c hx

theorem ok_late {s : State} (h : Clean s) : Ok ⟨s.root, some s.next, s.next + 1, s.freed, s.given⟩ := ⟨h.ok.given, h.ok.root⟩

/-- A call without a tree changes nothing, one with a tree starts from a clean state that has it. -/
theorem call_cases {s : State} (h : Clean s) (p : Parse) (o : Outcome) :
    (s.root = none ∧ p = .noFile ∧ createSimulation p o s = some (.null, s)) ∨
    (s.root = none ∧ p = .error ∧ createSimulation p o s = some (.exception, s)) ∨
    ((s.root ≠ none ∨ p = .tree) ∧ ∃ t, Clean t ∧ t.root ≠ none ∧ t.given = s.given ∧ s.next ≤ t.next ∧ createSimulation p o s = createTree o t) := by
  unfold createSimulation
  cases hr : s.root with
  | some r =>
    right; right
    exact ⟨Or.inl (by simp), s, h, by rw [hr]; simp, rfl, Nat.le_refl _, rfl⟩
  | none =>
    cases p with
    | noFile => left; exact ⟨rfl, rfl, rfl⟩
    | error => right; left; exact ⟨rfl, rfl, rfl⟩
    | tree =>
      right; right
      exact ⟨Or.inr rfl, _, parse_clean h, by simp, rfl, Nat.le_succ _, rfl⟩

/-- The induction. -/
theorem calls_clean (h : List (Parse × Outcome)) (s : State) (hc : Clean s)
    (hl : ∀ l c l', h = l ++ c :: l' → c.2 = .late → (s.root ≠ none ∨ HasTree (l ++ [c])) → l' = []) :
    ∃ rs s', calls h s = some (rs, s') ∧ rs.map Result.seen = expected s.root.isSome h ∧
      (∀ x ∈ rs.filterMap Result.id?, s.next ≤ x) ∧ (rs.filterMap Result.id?).Nodup ∧
      (∀ x, x ∈ s'.given ↔ x ∈ s.given ∨ x ∈ rs.filterMap Result.id?) ∧ Ok s' := by
  induction h generalizing s with
  | nil => exact ⟨[], s, rfl, rfl, by simp, by simp, by simp, hc.ok⟩
  | cons c h ih =>
    obtain ⟨p, o⟩ := c
    have tail : ∀ t : State, (t.root ≠ none → s.root ≠ none ∨ p = .tree) →
        ∀ l c l', h = l ++ c :: l' → c.2 = .late → (t.root ≠ none ∨ HasTree (l ++ [c])) → l' = [] := by
      intro t ht l c l' e hlate hh
      apply hl ((p, o) :: l) c l' (by rw [e]; rfl) hlate
      rcases hh with hh | ⟨c', hc', e'⟩
      · rcases ht hh with h1 | h1
        · exact Or.inl h1
        · exact Or.inr ⟨(p, o), by simp, h1⟩
      · exact Or.inr ⟨c', by simp only [List.cons_append]; exact List.mem_cons_of_mem _ hc', e'⟩
    rcases call_cases hc p o with ⟨hr, hp, e⟩ | ⟨hr, hp, e⟩ | ⟨hb, t, ht, htr, htg, htn, e⟩
    · obtain ⟨rs, s', i1, i2, i3, i4, i5, i6⟩ := ih s hc (tail s fun h => absurd hr h)
      refine ⟨.null :: rs, s', by simp only [calls, e, i1, Option.map_some], ?_, i3, i4, i5, i6⟩
      subst hp
      simp only [List.map_cons, i2, hr, expected, Option.isSome_none]
      rfl
    · obtain ⟨rs, s', i1, i2, i3, i4, i5, i6⟩ := ih s hc (tail s fun h => absurd hr h)
      refine ⟨.exception :: rs, s', by simp only [calls, e, i1, Option.map_some], ?_, i3, i4, i5, i6⟩
      subst hp
      simp only [List.map_cons, i2, hr, expected, Option.isSome_none]
      rfl
    · have hsome : (s.root.isSome || decide (p = .tree)) = true := by
        rcases hb with h1 | h1
        · cases hr : s.root with
          | none => exact absurd hr h1
          | some r => rfl
        · simp [h1]
      have hn : ¬ (s.root.isSome = false ∧ p = .noFile) ∧ ¬ (s.root.isSome = false ∧ p = .error) := by
        rcases hb with h1 | h1
        · cases hr : s.root with
          | none => exact absurd hr h1
          | some r => simp
        · subst h1; simp
      have hex : expected s.root.isSome ((p, o) :: h) = (if o = .success then .simulation else .exception) :: expected true h := by
        simp only [expected, if_neg hn.1, if_neg hn.2, hsome]
      have htsome : t.root.isSome = true := by
        cases hr : t.root with
        | none => exact absurd hr htr
        | some r => rfl
      cases o with
      | early =>
        rw [tree_early ht.gflow] at e
        obtain ⟨rs, s', i1, i2, i3, i4, i5, i6⟩ := ih t ht (tail t fun _ => hb)
        refine ⟨.exception :: rs, s', by simp only [calls, e, i1, Option.map_some], ?_, fun x hx => Nat.le_trans htn (i3 x hx), i4, by rw [← htg]; exact i5, i6⟩
        rw [hex, List.map_cons, i2, htsome]
        rfl
      | late =>
        rw [tree_late ht.gflow] at e
        have hnil : h = [] := hl [] (p, .late) h rfl rfl (by
          rcases hb with h1 | h1
          · exact Or.inl h1
          · exact Or.inr ⟨(p, .late), by simp, h1⟩)
        subst hnil
        refine ⟨[.exception], _, by rw [calls, e]; rfl, ?_, (fun x hx => by cases hx), List.nodup_nil, fun x => ?_, ok_late ht⟩
        · rw [hex]
          rfl
        · show x ∈ t.given ↔ _
          rw [htg]
          exact ⟨Or.inl, fun h => h.resolve_right (by intro h; cases h)⟩
      | success =>
        rw [tree_success ht.gflow] at e
        obtain ⟨rs, s', i1, i2, i3, i4, i5, i6⟩ := ih _ (clean_success ht) (tail _ fun _ => hb)
        refine ⟨.simulation t.next :: rs, s', by simp only [calls, e, i1, Option.map_some], ?_, ?_, ?_, ?_, i6⟩
        · rw [hex, List.map_cons, i2, htsome]
          rfl
        · intro x hx
          rcases List.mem_cons.mp hx with rfl | hx
          · exact htn
          · exact Nat.le_trans htn (Nat.le_trans (Nat.le_succ _) (i3 x hx))
        · exact List.nodup_cons.mpr ⟨fun hx => absurd (i3 _ hx) (Nat.not_succ_le_self _), i4⟩
        · intro x
          rw [i5 x]
          simp only [List.mem_cons, htg]
          show _ ↔ x ∈ s.given ∨ x ∈ t.next :: List.filterMap Result.id? rs
          rw [List.mem_cons]
          constructor
          · rintro ((h | h) | h)
            · exact Or.inr (Or.inl h)
            · exact Or.inl h
            · exact Or.inr (Or.inr h)
          · rintro (h | h | h)
            · exact Or.inl (Or.inr h)
            · exact Or.inl (Or.inl h)
            · exact Or.inr h

/-- **C154 (partial).** For every history of calls in which nothing is tried after a simulation that was begun failed: no object is
deleted twice; each call returns a simulation if the file could be parsed (now or before) and the setup succeeds, null if there is no
file, and throws otherwise; the simulations that were returned are different and are not deleted by the creator, also not by its
destructor. Missing: further attempts after such a failure (`C154_negation_retry`). -/
theorem C154_safe_partial (h : List (Parse × Outcome)) (hl : LastFailure h) :
    ∃ rs s s', calls h .new = some (rs, s) ∧ destroy s = some s' ∧ rs.map Result.seen = expected false h ∧
      (rs.filterMap Result.id?).Nodup ∧ ∀ x ∈ rs.filterMap Result.id?, x ∉ s'.freed := by
  obtain ⟨rs, s, h1, h2, _, h4, h5, h6⟩ := calls_clean h .new clean_new (by
    intro l c l' e hc hh
    rcases hh with hh | hh
    · exact absurd rfl hh
    · exact hl l c l' e hc hh)
  obtain ⟨s', d1, d2, d3⟩ := destroy_ok h6
  exact ⟨rs, s, s', h1, d1, h2, h4, fun x hx => d3 x (d2 ▸ (h5 x).mpr (Or.inr hx))⟩

/-- Example: a missing name, a failure before the simulation is begun, two successes and a last failure. -/
example : LastFailure [(.noFile, .success), (.tree, .early), (.tree, .success), (.noFile, .success), (.tree, .late)] := by
  intro l c l' e hc _
  rcases l with _ | ⟨a, _ | ⟨b, _ | ⟨c1, _ | ⟨d, _ | ⟨e1, l⟩⟩⟩⟩⟩ <;>
    simp only [List.nil_append, List.cons_append, List.cons.injEq] at e
  · rw [← e.1] at hc; cases hc
  · rw [← e.2.1] at hc; cases hc
  · rw [← e.2.2.1] at hc; cases hc
  · rw [← e.2.2.2.1] at hc; cases hc
  · exact e.2.2.2.2.2.symm
  · simp at e

/-- **C154 is false after a failure.** If a simulation that was begun fails and the next attempt gets as far, the object of the failed one
is deleted twice. -/
theorem C154_negation_retry (h : List (Parse × Outcome)) (p p' : Parse) (o : Outcome) (l : List (Parse × Outcome))
    (hn : ∀ c ∈ h, c.2 ≠ .late) (hp : p = .tree ∨ HasTree h) (ho : o ≠ .early) : calls (h ++ (p, .late) :: (p', o) :: l) .new = none := by
  suffices ∀ s : State, Clean s → (s.root ≠ none ∨ p = .tree ∨ HasTree h) → calls (h ++ (p, .late) :: (p', o) :: l) s = none from
    this _ clean_new (Or.inr hp)
  clear hp
  induction h with
  | nil =>
    intro s hs hb
    have hb' : s.root ≠ none ∨ p = .tree := by
      rcases hb with h | h | ⟨c, hc, _⟩
      · exact Or.inl h
      · exact Or.inr h
      · simp at hc
    rcases call_cases hs p .late with ⟨hr, hp, e⟩ | ⟨hr, hp, e⟩ | ⟨_, t, ht, htr, _, _, e⟩
    · rcases hb' with h | h
      · exact absurd hr h
      · rw [hp] at h; simp at h
    · rcases hb' with h | h
      · exact absurd hr h
      · rw [hp] at h; simp at h
    · rw [tree_late ht.gflow] at e
      simp only [List.nil_append, calls, e]
      have : createSimulation p' o ⟨t.root, some t.next, t.next + 1, t.freed, t.given⟩ = none := by
        unfold createSimulation
        cases hr : t.root with
        | none => exact absurd hr htr
        | some r =>
          simp only
          unfold createTree release
          have hf : t.next ∉ t.freed := fun hx => absurd (ht.freed _ hx) (Nat.lt_irrefl _)
          simp only [if_neg hf]
          cases o with
          | early => exact absurd rfl ho
          | late => simp [createFromOptions, release]
          | success => simp [createFromOptions, release]
      simp [this]
  | cons c h ih =>
    intro s hs hb
    obtain ⟨pc, oc⟩ := c
    have step : ∀ t : State, Clean t → (t.root ≠ none ∨ p = .tree ∨ HasTree h) → calls (h ++ (p, .late) :: (p', o) :: l) t = none :=
      ih (fun c hc => hn c (List.mem_cons_of_mem _ hc))
    have hb' : s.root ≠ none ∨ pc = .tree ∨ p = .tree ∨ HasTree h := by
      rcases hb with h1 | h1 | ⟨c, hc, e⟩
      · exact Or.inl h1
      · exact Or.inr (Or.inr (Or.inl h1))
      · rcases List.mem_cons.mp hc with rfl | hc
        · exact Or.inr (Or.inl e)
        · exact Or.inr (Or.inr (Or.inr ⟨c, hc, e⟩))
    have hoc : oc ≠ .late := hn _ List.mem_cons_self
    simp only [List.cons_append, calls]
    rcases call_cases hs pc oc with ⟨hr, hp, e⟩ | ⟨hr, hp, e⟩ | ⟨_, t, ht, htr, _, _, e⟩
    · rw [e]
      simp only
      rw [step s hs (by
        rcases hb' with h1 | h1 | h1
        · exact absurd hr h1
        · rw [hp] at h1; simp at h1
        · exact Or.inr h1)]
      rfl
    · rw [e]
      simp only
      rw [step s hs (by
        rcases hb' with h1 | h1 | h1
        · exact absurd hr h1
        · rw [hp] at h1; simp at h1
        · exact Or.inr h1)]
      rfl
    · cases oc with
      | early =>
        rw [e, tree_early ht.gflow]
        simp only
        rw [step t ht (Or.inl htr)]
        rfl
      | late => exact absurd rfl hoc
      | success =>
        rw [e, tree_success ht.gflow]
        simp only
        rw [step _ (clean_success ht) (Or.inl htr)]
        rfl

/-- **C154 is false of the memory of a failed simulation**: it is never released if the creator is destroyed. -/
theorem C154_negation_leak : ∃ rs s s' x, calls [(.tree, .late)] .new = some (rs, s) ∧ destroy s = some s' ∧ x < s'.next ∧ x ∉ s'.freed ∧ x ∉ s'.given :=
  ⟨_, _, _, 1, rfl, rfl, by decide, by decide, by decide⟩

/-! ## The copy of the file -/

theorem copyLoop_eq (content : List UInt8) (c : UInt8) (s : List UInt8) :
    copyLoop (content.length + 1) c ⟨content, false⟩ s = some (s ++ c :: content) ∧ ∀ n c', copyLoop n c' ⟨[], true⟩ s = some s := by
  have h0 : ∀ n c' s, copyLoop n c' ⟨[], true⟩ s = some s := by intro n c' s; cases n <;> rfl
  refine ⟨?_, fun n c' => h0 n c' s⟩
  induction content generalizing c s with
  | nil => simp only [List.length_nil, copyLoop, Stream.get]; rfl
  | cons b r ih =>
    rw [List.length_cons, copyLoop]
    simp only [Stream.get, Bool.false_eq_true, if_false]
    rw [ih]
    simp

/-- **C154, copy.** The copy of the setup file that is stored with the results is byte by byte the file, for every file that can be read
(whatever the uninitialised variable holds), and empty otherwise. -/
theorem C154_copy (garbage : UInt8) (file : Option (List UInt8)) : copyFile garbage file = some (file.getD []) := by
  cases file with
  | none => rfl
  | some content =>
    cases content with
    | nil => rfl
    | cons b r =>
      simp only [copyFile, Stream.get, List.length_cons, Option.getD_some]
      rw [show r.length + 1 + 1 = (r.length + 1) + 1 from rfl]
      have := (copyLoop_eq r b []).1
      have mono : ∀ n c f s x, copyLoop n c f s = some x → copyLoop (n + 1) c f s = some x := by
        intro n
        induction n with
        | zero =>
          intro c f s x h
          simp only [copyLoop] at h ⊢
          split at h
          · rename_i he; rw [if_pos he]; exact h
          · simp at h
        | succ n ih =>
          intro c f s x h
          rw [copyLoop] at h ⊢
          split at h
          · rename_i he; rw [if_pos he]; exact h
          · rename_i he; rw [if_neg he]; exact ih _ _ _ _ h
      rw [mono _ _ _ _ _ this]
      rfl

end Verif.Lifecycle
