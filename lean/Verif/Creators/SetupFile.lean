import Verif.Utility.ArgParse
import Verif.Utility.TreeParser
import Verif.Forces.ForceMaster
import Verif.Creators.Regions
import Verif.GFlow.Boundary
import Verif.Other.Eval

/-!
# Setup files: variables, interaction table, boundary conditions, single particles (C110–C112)

Models parts of `FileParseCreator::createFromOptions` and `createParticle` (`creators/fileparsecreator.cpp:116-126`, `180-218`, `243-262`, `278-341`, `468-555`). The headings that are visited by the loops, and their order, are those of C53
(`begin(name)` in file order); here they are lists. Evaluation of texts is a parameter.
-/

namespace Verif.SetupFile

open Verif

/-! ## Variables (C110) -/

/-- Text. -/
abbrev Str := List Char

/-- `std::map<string, string> variables`, `creators/fileparsecreator.hpp:99`. -/
abbrev Vars := Str → Option Str

/-- `FileParseCreator::setVariable`, `creators/fileparsecreator.cpp:116-126`. -/
def setVariable (vars : Vars) (name value : Str) (overwrite : Bool) : Vars :=
  match vars name with
  | none => Function.update vars name (some value)
  | some _ => if overwrite then Function.update vars name (some value) else vars

/-- `stream >> var` for a text: the first word. If there is none the text keeps its value. `utility/ArgParse.hpp:101`. -/
def word (v : Str) (old : Str) : Str :=
  match (v.dropWhile (· = ' ')).takeWhile (· ≠ ' ') with
  | [] => old
  | w => w

/-- Ways to fail: undefined behaviour, or an exception. -/
inductive Err where
  | undef
  | throws
deriving DecidableEq

/-- One turn of the loop over `Var`, `creators/fileparsecreator.cpp:187-194`: the parameters of the heading, the variables and the command line. -/
def varStep (s : Vars × ArgParse.Args) (ps : List (Str × Str)) : Except Err (Vars × ArgParse.Args) :=
  match TreeParser.argvalName ps 0 with
  | none => .error .undef
  | some (_, name, value) =>
    let r := ArgParse.get word s.2 name value
    .ok (setVariable s.1 name r.1 false, r.2)

/-- One turn of the loop over `Value`, `creators/fileparsecreator.cpp:203-215`. `ev` is `Eval::evaluate` followed by `toStr`. -/
def valueStep (ev : Str → Vars → Str) (s : Vars × ArgParse.Args) (ps : List (Str × Str)) : Except Err (Vars × ArgParse.Args) :=
  match TreeParser.argvalName ps 0 with
  | none => .error .undef
  | some (_, name, value) =>
    let r := ArgParse.get word s.2 name value
    if r.1 = [] then .error .throws
    else .ok (setVariable s.1 name (ev r.1 s.1) false, r.2)

/-- A loop over headings. -/
def each {α β : Type} (f : α → β → Except Err α) : α → List β → Except Err α
  | s, [] => .ok s
  | s, b :: bs =>
    match f s b with
    | .error e => .error e
    | .ok s' => each f s' bs

/-- The variables of a file, `creators/fileparsecreator.cpp:184-218`. -/
def readVars (ev : Str → Vars → Str) (s : Vars × ArgParse.Args) (vs ws : List (List (Str × Str))) : Except Err (Vars × ArgParse.Args) :=
  match each varStep s vs with
  | .error e => .error e
  | .ok s' => each (valueStep ev) s' ws

/-! ### Specification -/

/-- What the command line makes of a value: the last value that was given for the name, otherwise the value of the file. -/
def override (ts : List (Str × Str)) (name value : Str) : Str :=
  match ArgParse.lastValue name ts with
  | none => value
  | some v => word (if v = [] then ['1'] else v) value

/-- An entry `name = value` of the file. -/
def entry (name value : Str) (rest : List (Str × Str)) : List (Str × Str) := (name, value) :: rest

/-- The definitions of a list of `Var` entries: the first entry with the name counts, and only if the name was not defined before. -/
def defined (ts : List (Str × Str)) (vars : Vars) (es : List (Str × Str)) (name : Str) : Option Str :=
  match vars name with
  | some v => some v
  | none => (es.find? fun e => e.1 = name).map fun e => override ts name e.2

/-- The definitions of a list of `Value` entries: each is evaluated with all definitions before it. -/
def evaluated (ev : Str → Vars → Str) (ts : List (Str × Str)) (vars : Vars) : List (Str × Str) → Vars
  | [] => vars
  | e :: es => evaluated ev ts (fun n => if n = e.1 ∧ vars n = none then some (ev (override ts e.1 e.2) vars) else vars n) es

theorem argvalName_cons (e : Str × Str) (ps : List (Str × Str)) : TreeParser.argvalName (e :: ps) 0 = some (true, e) := by
  simp [TreeParser.argvalName, TreeParser.guard, TreeParser.elem]

theorem setVariable_false (vars : Vars) (name value : Str) :
    setVariable vars name value false = fun n => if n = name ∧ vars n = none then some value else vars n := by
  funext n
  unfold setVariable
  cases h : vars name with
  | none =>
    by_cases hn : n = name
    · subst hn; simp [h]
    · simp [hn]
  | some v =>
    by_cases hn : n = name
    · subst hn; simp [h]
    · simp [hn]

theorem get_override (p : ArgParse.Args) (ts : List (Str × Str)) (qs) (h : ArgParse.Reachable p ts qs) (name value : Str) (hn : name ≠ []) :
    (ArgParse.get word p name value).1 = override ts name value := by
  rw [ArgParse.C59_get word p ts qs h name hn value]
  rfl

theorem varStep_eq (vars : Vars) (p : ArgParse.Args) (ts) (qs) (h : ArgParse.Reachable p ts qs) (e : Str × Str) (rest : List (Str × Str)) (hn : e.1 ≠ []) :
    ∃ p' qs', varStep (vars, p) (e :: rest) = .ok ((fun n => if n = e.1 ∧ vars n = none then some (override ts e.1 e.2) else vars n), p') ∧ ArgParse.Reachable p' ts qs' := by
  unfold varStep
  rw [argvalName_cons]
  refine ⟨(ArgParse.get word p e.1 e.2).2, e.1 :: qs, ?_, ArgParse.Reachable.ask p ts qs e.1 h⟩
  simp only
  rw [get_override p ts qs h e.1 e.2 hn, setVariable_false]

theorem vars_aux (ts : List (Str × Str)) (es : List ((Str × Str) × List (Str × Str))) : ∀ (vars : Vars) (p : ArgParse.Args) (qs), ArgParse.Reachable p ts qs → (∀ e ∈ es, e.1.1 ≠ []) →
    ∃ p' qs', each varStep (vars, p) (es.map fun e => entry e.1.1 e.1.2 e.2) = .ok (defined ts vars (es.map (·.1)), p') ∧ ArgParse.Reachable p' ts qs' := by
  induction es with
  | nil =>
    intro vars p qs h _
    refine ⟨p, qs, ?_, h⟩
    show Except.ok (vars, p) = .ok (defined ts vars [], p)
    have : defined ts vars [] = vars := by
      funext n; unfold defined; cases vars n <;> simp
    rw [this]
  | cons e es ih =>
    intro vars p qs h he
    obtain ⟨p1, qs1, e1, h1⟩ := varStep_eq vars p ts qs h e.1 e.2 (he e (by simp))
    obtain ⟨p2, qs2, e2, h2⟩ := ih (fun n => if n = e.1.1 ∧ vars n = none then some (override ts e.1.1 e.1.2) else vars n) p1 qs1 h1 (fun x hx => he x (by simp [hx]))
    refine ⟨p2, qs2, ?_, h2⟩
    have e1' : varStep (vars, p) (entry e.1.1 e.1.2 e.2) = _ := e1
    simp only [List.map_cons, each, e1']
    rw [e2]
    congr 2
    funext n
    unfold defined
    cases hv : vars n with
    | some v => simp [hv]
    | none =>
      by_cases hn : n = e.1.1
      · subst hn; simp [hv]
      · have : ¬ e.1.1 = n := fun h => hn h.symm
        simp [hn, this, hv]

/-- **C110, variables.** For every list of `Var` entries and every command line: a variable that was set before keeps its value, otherwise its first entry defines it; a value of the command line replaces the one of the file. -/
theorem C110_variables (ts : List (Str × Str)) (es : List ((Str × Str) × List (Str × Str))) (vars : Vars) (p : ArgParse.Args) (qs) (h : ArgParse.Reachable p ts qs) (he : ∀ e ∈ es, e.1.1 ≠ []) :
    ∃ p', each varStep (vars, p) (es.map fun e => entry e.1.1 e.1.2 e.2) = .ok (defined ts vars (es.map (·.1)), p') := by
  obtain ⟨p', _, e, _⟩ := vars_aux ts es vars p qs h he
  exact ⟨p', e⟩

/-- **C110, values (partial).** For every list of `Value` entries with values that are not empty: each is evaluated with the definitions before it; what is defined already stays. Missing: values in further simulations of the same creator, which stay as they were (below). -/
theorem C110_values_partial (ev : Str → Vars → Str) (ts : List (Str × Str)) (es : List ((Str × Str) × List (Str × Str))) : ∀ (vars : Vars) (p : ArgParse.Args) (qs), ArgParse.Reachable p ts qs →
    (∀ e ∈ es, e.1.1 ≠ [] ∧ override ts e.1.1 e.1.2 ≠ []) →
    ∃ p', each (valueStep ev) (vars, p) (es.map fun e => entry e.1.1 e.1.2 e.2) = .ok (evaluated ev ts vars (es.map (·.1)), p') := by
  induction es with
  | nil => intro vars p qs h _; exact ⟨p, rfl⟩
  | cons e es ih =>
    intro vars p qs h he
    obtain ⟨p2, e2⟩ := ih (fun n => if n = e.1.1 ∧ vars n = none then some (ev (override ts e.1.1 e.1.2) vars) else vars n) (ArgParse.get word p e.1.1 e.1.2).2 (e.1.1 :: qs)
      (ArgParse.Reachable.ask p ts qs e.1.1 h) (fun x hx => he x (by simp [hx]))
    refine ⟨p2, ?_⟩
    have e1 : valueStep ev (vars, p) (entry e.1.1 e.1.2 e.2) = .ok ((fun n => if n = e.1.1 ∧ vars n = none then some (ev (override ts e.1.1 e.1.2) vars) else vars n), (ArgParse.get word p e.1.1 e.1.2).2) := by
      unfold valueStep entry
      rw [argvalName_cons]
      simp only
      rw [get_override p ts qs h e.1.1 e.1.2 (he e (by simp)).1, if_neg (he e (by simp)).2, setVariable_false]
    simp only [List.map_cons, each, e1]
    rw [e2]
    rfl

/-- A value without text (in the file and on the command line) is refused. -/
theorem C110_empty (ev : Str → Vars → Str) (ts : List (Str × Str)) (vars : Vars) (p : ArgParse.Args) (qs) (h : ArgParse.Reachable p ts qs) (name value : Str) (hn : name ≠ []) (rest) (ho : override ts name value = [])
    (ws : List (List (Str × Str))) : each (valueStep ev) (vars, p) (entry name value rest :: ws) = .error .throws := by
  unfold each valueStep entry
  rw [argvalName_cons]
  simp only
  rw [get_override p ts qs h name value hn, if_pos ho]

/-- Variables set by the program come first: whatever the file and the command line say, a variable that is set before the file is read keeps its value. -/
theorem C110_program_first (ev : Str → Vars → Str) (vs ws : List (List (Str × Str))) (s s' : Vars × ArgParse.Args) (h : readVars ev s vs ws = .ok s') (n v : Str) (hv : s.1 n = some v) : s'.1 n = some v := by
  have keep : ∀ (vars : Vars) (name value : Str), vars n = some v → setVariable vars name value false n = some v := by
    intro vars name value hn
    rw [setVariable_false]
    simp [hn]
  have k1 : ∀ (es : List (List (Str × Str))) (s s' : Vars × ArgParse.Args), each varStep s es = .ok s' → s.1 n = some v → s'.1 n = some v := by
    intro es
    induction es with
    | nil => intro s s' h hv; injection h with h; subst h; exact hv
    | cons e es ih =>
      intro s s' h hv
      unfold each at h
      cases he : varStep s e with
      | error x => rw [he] at h; simp at h
      | ok t =>
        rw [he] at h
        refine ih t s' h ?_
        unfold varStep at he
        cases hq : TreeParser.argvalName e 0 with
        | none => rw [hq] at he; simp at he
        | some q =>
          rw [hq] at he
          injection he with he
          subst he
          exact keep _ _ _ hv
  have k2 : ∀ (es : List (List (Str × Str))) (s s' : Vars × ArgParse.Args), each (valueStep ev) s es = .ok s' → s.1 n = some v → s'.1 n = some v := by
    intro es
    induction es with
    | nil => intro s s' h hv; injection h with h; subst h; exact hv
    | cons e es ih =>
      intro s s' h hv
      unfold each at h
      cases he : valueStep ev s e with
      | error x => rw [he] at h; simp at h
      | ok t =>
        rw [he] at h
        refine ih t s' h ?_
        unfold valueStep at he
        cases hq : TreeParser.argvalName e 0 with
        | none => rw [hq] at he; simp at he
        | some q =>
          rw [hq] at he
          simp only at he
          by_cases hb : (ArgParse.get word s.2 q.2.1 q.2.2).1 = []
          · rw [if_pos hb] at he; simp at he
          · rw [if_neg hb] at he
            injection he with he
            subst he
            exact keep _ _ _ hv
  unfold readVars at h
  cases h1 : each varStep s vs with
  | error x => rw [h1] at h; simp at h
  | ok t =>
    rw [h1] at h
    exact k2 ws t s' h (k1 vs s t h1 hv)

/-- **C110, negation: values of a second simulation are stale.** The variables are kept between simulations (`createFromOptions` does not clear them): if a program makes a simulation, then sets a variable `x` again with `overwrite` and makes another one
from the same file, every `Value` (here `y`, defined by any text `f` of `x`) keeps the value computed with the old variable. -/
theorem C110_negation_stale (ev : Str → Vars → Str) (f a b : Str) (hf : f ≠ []) (p : ArgParse.Args) (hp : ArgParse.Reachable p [] []) (vars : Vars) (hx : vars ['x'] = none) (hy : vars ['y'] = none) :
    ∃ s1 s2, readVars ev (setVariable vars ['x'] a true, p) [] [entry ['y'] f []] = .ok s1
      ∧ s1.1 ['y'] = some (ev f (setVariable vars ['x'] a true))
      ∧ readVars ev (setVariable s1.1 ['x'] b true, s1.2) [] [entry ['y'] f []] = .ok s2
      ∧ s2.1 ['x'] = some b ∧ s2.1 ['y'] = some (ev f (setVariable vars ['x'] a true)) := by
  have ov : ∀ v, override [] ['y'] v = v := fun v => rfl
  have hy1 : setVariable vars ['x'] a true ['y'] = none := by
    unfold setVariable
    rw [hx]
    simp [hy]
  obtain ⟨p1, e1⟩ := C110_values_partial ev [] [((['y'], f), [])] (setVariable vars ['x'] a true) p [] hp (by simp [ov, hf])
  refine ⟨(evaluated ev [] (setVariable vars ['x'] a true) [(['y'], f)], p1), ?_⟩
  have hv1 : evaluated ev [] (setVariable vars ['x'] a true) [(['y'], f)] ['y'] = some (ev f (setVariable vars ['x'] a true)) := by
    simp [evaluated, hy1, ov]
  have hs2 : ∀ (w : Vars) (n : Str), n ≠ ['x'] → setVariable w ['x'] b true n = w n := by
    intro w n hn
    unfold setVariable
    cases w ['x'] <;> simp [hn]
  have hsx : ∀ (w : Vars), setVariable w ['x'] b true ['x'] = some b := by
    intro w
    unfold setVariable
    cases w ['x'] <;> simp
  have r1 : readVars ev (setVariable vars ['x'] a true, p) [] [entry ['y'] f []] = .ok (evaluated ev [] (setVariable vars ['x'] a true) [(['y'], f)], p1) := by
    unfold readVars
    simp only [each] at e1 ⊢
    exact e1
  -- the second reading does not fail
  have step : ∀ (w : Vars) (q : ArgParse.Args), q.tlist = [] → ∃ q', valueStep ev (w, q) (entry ['y'] f []) = .ok (setVariable w ['y'] (ev f w) false, q') := by
    intro w q hq
    unfold valueStep entry
    rw [argvalName_cons]
    have : (ArgParse.get word q ['y'] f).1 = f := by
      unfold ArgParse.get ArgParse.find
      rw [hq]
      simp [ArgParse.findLoop]
    simp only [this]
    rw [if_neg hf]
    exact ⟨_, rfl⟩
  have htl : p1.tlist = [] := by
    have h0 : p.tlist = [] := hp.inv.1
    simp only [each, List.map_cons, List.map_nil] at e1
    unfold valueStep entry at e1
    rw [argvalName_cons] at e1
    simp only at e1
    by_cases hb : (ArgParse.get word p ['y'] f).1 = []
    · rw [if_pos hb] at e1; simp at e1
    · rw [if_neg hb] at e1
      simp only [Except.ok.injEq, Prod.mk.injEq] at e1
      rw [← e1.2]
      exact h0
  obtain ⟨q', hq'⟩ := step (setVariable (evaluated ev [] (setVariable vars ['x'] a true) [(['y'], f)]) ['x'] b true) p1 htl
  refine ⟨(setVariable (setVariable (evaluated ev [] (setVariable vars ['x'] a true) [(['y'], f)]) ['x'] b true) ['y']
        (ev f (setVariable (evaluated ev [] (setVariable vars ['x'] a true) [(['y'], f)]) ['x'] b true)) false, q'), r1, hv1, ?_, ?_, ?_⟩
  · unfold readVars
    simp only [each, hq']
  · have : setVariable (setVariable (evaluated ev [] (setVariable vars ['x'] a true) [(['y'], f)]) ['x'] b true) ['y']
        (ev f (setVariable (evaluated ev [] (setVariable vars ['x'] a true) [(['y'], f)]) ['x'] b true)) false ['x'] = some b := by
      rw [setVariable_false]
      simp [hsx]
    exact this
  · have : setVariable (setVariable (evaluated ev [] (setVariable vars ['x'] a true) [(['y'], f)]) ['x'] b true) ['y']
        (ev f (setVariable (evaluated ev [] (setVariable vars ['x'] a true) [(['y'], f)]) ['x'] b true)) false ['y'] = some (ev f (setVariable vars ['x'] a true)) := by
      rw [setVariable_false]
      simp [hs2, hv1]
    exact this

/-- **C110, negation: texts with spaces.** A value of the command line is read up to its first space: `-x="2 + 3"` sets `x` to `2`. -/
theorem C110_negation_spaces : override [(['x'], ['2', ' ', '+', ' ', '3'])] ['x'] ['1'] = ['2'] := by decide

/-- **C110, negation: a heading without parameter** is read outside of its parameters. -/
theorem C110_negation_no_parameter (s : Vars × ArgParse.Args) (vs : List (List (Str × Str))) : each varStep s ([] :: vs) = .error .undef := by
  rfl

/-- The hypotheses are met: a command line with one option, two entries with the same name and one other. -/
example : ArgParse.Reachable ⟨[], []⟩ [] [] ∧ defined [] (fun _ => none) [(['x'], ['1']), (['x'], ['2']), (['y'], ['3'])] ['x'] = some ['1']
    ∧ defined [(['x'], ['7'])] (fun _ => none) [(['x'], ['1'])] ['x'] = some ['7'] := by
  refine ⟨?_, by decide, by decide⟩
  exact ArgParse.Reachable.new

/-! ## The interaction table (C111) -/

section Grid

variable {K : Type} [Field K] [LinearOrder K] [IsStrictOrderedRing K] {P : Type}

/-- An entry of the force table with three arguments, `creators/fileparsecreator.cpp:316-336`: types, the name of the interaction (after looking it up among the variables) and its parameters (the body of the heading). -/
structure GEntry (P : Type) where
  t1 : ℤ
  t2 : ℤ
  token : Str
  params : P

/-- The name of no interaction, `interactions/interaction-choice.hpp:7`. -/
def noneToken : Str := ['N', 'o', 'n', 'e']

/-- The force master, the local map `interactions` (line 307) and the interaction objects made so far, each with its name and parameters. -/
structure GState (K P : Type) where
  fm : ForceMaster.FM K
  map : Str → Option (Option ℕ)
  objs : List (Str × P)

/-- `ParseConstructor::getInteraction` (`creators/helperclasses/parse-constructor.cpp:237-244`) with `InteractionChoice::choose` (`interactions/interaction-choice.cpp:7-75`): `valid` says for which names there is a class in this dimension. The new object has the next number. -/
def makeInteraction (valid : Str → Bool) (objs : List (Str × P)) (token : Str) (params : P) : Except Err (Option ℕ × List (Str × P)) :=
  if token = noneToken then .ok (none, objs)
  else if valid token then .ok (some objs.length, objs ++ [(token, params)])
  else .error .throws

/-- One turn of the loop over the table, `creators/fileparsecreator.cpp:316-336`. `cut i` is the cutoff of the `i`-th object. -/
def gridStep (cut : ℕ → K) (valid : Str → Bool) (ntypes : ℕ) (s : GState K P) (e : GEntry P) : Except Err (GState K P) :=
  if e.t1 < 0 ∨ e.t2 < 0 ∨ (ntypes : ℤ) ≤ e.t1 ∨ (ntypes : ℤ) ≤ e.t2 then .error .throws
  else
    let made : Except Err (Option ℕ × List (Str × P) × (Str → Option (Option ℕ))) :=
      match s.map e.token with
      | some it => .ok (it, s.objs, s.map)
      | none =>
        match makeInteraction valid s.objs e.token e.params with
        | .error x => .error x
        | .ok (it, objs) => .ok (it, objs, Function.update s.map e.token (some it))
    match made with
    | .error x => .error x
    | .ok (it, objs, map) =>
      match ForceMaster.setInteraction cut s.fm e.t1 e.t2 it true with
      | none => .error .undef
      | some fm => .ok ⟨fm, map, objs⟩

/-- The table of a file: `setNTypes` (line 283) and the loop, `creators/fileparsecreator.cpp:280-340`. -/
def readGrid (cut : ℕ → K) (valid : Str → Bool) (ntypes : ℕ) (fm : ForceMaster.FM K) (es : List (GEntry P)) : Except Err (GState K P) :=
  each (gridStep cut valid ntypes) ⟨ForceMaster.setNTypes fm ntypes, fun _ => none, []⟩ es

/-- Specification: the last entry for two types, in either order. -/
def lastEntry (es : List (GEntry P)) (a b : ℤ) : Option (GEntry P) :=
  es.reverse.find? fun e => decide ((e.t1 = a ∧ e.t2 = b) ∨ (e.t1 = b ∧ e.t2 = a))

/-- Specification: the first entry with a name. -/
def firstNamed (es : List (GEntry P)) (token : Str) : Option (GEntry P) := es.find? fun e => decide (e.token = token)

/-- The interaction (name and parameters) that acts between two types; the outer `none` is undefined behaviour, the inner one no interaction. -/
def acts (s : GState K P) (a b : ℤ) : Option (Option (Str × P)) :=
  match ForceMaster.getInteraction s.fm a b with
  | none => none
  | some none => some none
  | some (some i) => (s.objs[i]?).map some

/-- The invariant of the loop after the entries `es`. -/
structure GInv (cut : ℕ → K) (ntypes : ℕ) (es : List (GEntry P)) (s : GState K P) : Prop where
  hist : ∃ h : List ForceMaster.Call, ForceMaster.InRange h ∧ ForceMaster.typesOf h = ntypes ∧ ForceMaster.run cut h = some s.fm
    ∧ ∀ a b, ForceMaster.lastSet h a b = (lastEntry es a b).bind fun e => ((s.map e.token).getD none)
  map : ∀ tok, match s.map tok with
    | none => firstNamed es tok = none
    | some none => tok = noneToken
    | some (some i) => tok ≠ noneToken ∧ ∃ e, firstNamed es tok = some e ∧ s.objs[i]? = some (tok, e.params)

theorem firstNamed_append (es : List (GEntry P)) (e : GEntry P) (tok : Str) :
    firstNamed (es ++ [e]) tok = (firstNamed es tok).or (if e.token = tok then some e else none) := by
  unfold firstNamed
  rw [List.find?_append]
  by_cases h : e.token = tok <;> simp [h]

theorem lastEntry_append (es : List (GEntry P)) (e : GEntry P) (a b : ℤ) :
    lastEntry (es ++ [e]) a b = if (e.t1 = a ∧ e.t2 = b) ∨ (e.t1 = b ∧ e.t2 = a) then some e else lastEntry es a b := by
  unfold lastEntry
  rw [List.reverse_append, List.reverse_singleton, List.singleton_append, List.find?_cons]
  by_cases h : (e.t1 = a ∧ e.t2 = b) ∨ (e.t1 = b ∧ e.t2 = a)
  · simp [h]
  · rw [if_neg h]
    have : decide ((e.t1 = a ∧ e.t2 = b) ∨ (e.t1 = b ∧ e.t2 = a)) = false := by simpa using h
    rw [this]

theorem lastEntry_mem (es : List (GEntry P)) (a b : ℤ) (e : GEntry P) (h : lastEntry es a b = some e) : e ∈ es := by
  unfold lastEntry at h
  have := List.mem_of_find?_eq_some h
  simpa using this

theorem firstNamed_isSome (es : List (GEntry P)) (e : GEntry P) (h : e ∈ es) : firstNamed es e.token ≠ none := by
  unfold firstNamed
  rw [ne_eq, List.find?_eq_none]
  push Not
  exact ⟨e, h, by simp⟩

theorem gridStep_inv (cut : ℕ → K) (valid : Str → Bool) (ntypes : ℕ) (es : List (GEntry P)) (s : GState K P) (hI : GInv cut ntypes es s) (e : GEntry P)
    (hr : (0 ≤ e.t1 ∧ e.t1 < ntypes) ∧ 0 ≤ e.t2 ∧ e.t2 < ntypes) (hv : e.token = noneToken ∨ valid e.token = true) :
    ∃ s', gridStep cut valid ntypes s e = .ok s' ∧ GInv cut ntypes (es ++ [e]) s' := by
  obtain ⟨h, h1, h2, h3, h4⟩ := hI.hist
  -- the call of the force master succeeds
  have call : ∀ it : Option ℕ, ∃ fm, ForceMaster.setInteraction cut s.fm e.t1 e.t2 it true = some fm ∧ ForceMaster.InRange (.set e.t1 e.t2 it true :: h)
      ∧ ForceMaster.run cut (.set e.t1 e.t2 it true :: h) = some fm := by
    intro it
    have hr' : ForceMaster.InRange (.set e.t1 e.t2 it true :: h) := ⟨⟨hr.1.1, by rw [h2]; exact hr.1.2, hr.2.1, by rw [h2]; exact hr.2.2⟩, h1⟩
    obtain ⟨fm, e1, _⟩ := ForceMaster.run_good cut _ hr'
    refine ⟨fm, ?_, hr', e1⟩
    rw [ForceMaster.run, h3] at e1
    exact e1
  unfold gridStep
  rw [if_neg (by omega)]
  -- the history afterwards, for any map that extends the old one and gives the interaction for the name
  have hist : ∀ (it : Option ℕ) (fm) (map' : Str → Option (Option ℕ)), (∀ tok, (∃ x ∈ es, x.token = tok) → map' tok = s.map tok) → map' e.token = some it →
      ForceMaster.InRange (.set e.t1 e.t2 it true :: h) → ForceMaster.run cut (.set e.t1 e.t2 it true :: h) = some fm →
      ∃ h : List ForceMaster.Call, ForceMaster.InRange h ∧ ForceMaster.typesOf h = ntypes ∧ ForceMaster.run cut h = some fm
        ∧ ∀ a b, ForceMaster.lastSet h a b = (lastEntry (es ++ [e]) a b).bind fun e => ((map' e.token).getD none) := by
    intro it fm map' hm hme hin hrun
    refine ⟨_, hin, h2, hrun, fun a b => ?_⟩
    rw [lastEntry_append]
    unfold ForceMaster.lastSet
    by_cases hc : (e.t1 = a ∧ e.t2 = b) ∨ (e.t1 = b ∧ e.t2 = a)
    · rw [if_pos hc, if_pos (by rcases hc with ⟨x, y⟩ | ⟨x, y⟩ <;> simp [x, y])]
      simp [hme]
    · rw [if_neg hc, if_neg (by
        rintro (⟨x, y⟩ | ⟨_, x, y⟩)
        · exact hc (Or.inl ⟨x.symm, y.symm⟩)
        · exact hc (Or.inr ⟨y.symm, x.symm⟩)), h4]
      cases hl : lastEntry es a b with
      | none => rfl
      | some x =>
        simp only [Option.bind_some]
        rw [hm x.token ⟨x, lastEntry_mem es a b x hl, rfl⟩]
  cases hm : s.map e.token with
  | some it =>
    obtain ⟨fm, e1, e2, e3⟩ := call it
    simp only [e1]
    refine ⟨_, rfl, ⟨hist it fm s.map (fun _ _ => rfl) hm e2 e3, fun tok => ?_⟩⟩
    have := hI.map tok
    cases ht : s.map tok with
    | none =>
      rw [ht] at this
      simp only at this ⊢
      rw [firstNamed_append, this]
      have : e.token ≠ tok := by rintro rfl; rw [ht] at hm; simp at hm
      simp [this]
    | some it' =>
      rw [ht] at this
      cases it' with
      | none => exact this
      | some i =>
        simp only at this ⊢
        obtain ⟨x1, x, x2, x3⟩ := this
        exact ⟨x1, x, by rw [firstNamed_append, x2]; rfl, x3⟩
  | none =>
    have hold : firstNamed es e.token = none := by have := hI.map e.token; rw [hm] at this; exact this
    have hne : ∀ tok, (∃ x ∈ es, x.token = tok) → tok ≠ e.token := by
      rintro tok ⟨x, hx, rfl⟩ heq
      exact firstNamed_isSome es x hx (by rw [heq]; exact hold)
    -- the rest of the map
    have rest : ∀ (it : Option ℕ) (objs' : List (Str × P)), (∀ i, i < s.objs.length → objs'[i]? = s.objs[i]?) → ∀ tok, tok ≠ e.token →
        match Function.update s.map e.token (some it) tok with
        | none => firstNamed (es ++ [e]) tok = none
        | some none => tok = noneToken
        | some (some i) => tok ≠ noneToken ∧ ∃ x, firstNamed (es ++ [e]) tok = some x ∧ objs'[i]? = some (tok, x.params) := by
      intro it objs' ho tok htok
      rw [Function.update_of_ne htok]
      have := hI.map tok
      cases ht : s.map tok with
      | none =>
        rw [ht] at this
        simp only at this ⊢
        rw [firstNamed_append, this]
        simp [Ne.symm htok]
      | some it' =>
        rw [ht] at this
        cases it' with
        | none => exact this
        | some i =>
          simp only at this ⊢
          obtain ⟨x1, x, x2, x3⟩ := this
          refine ⟨x1, x, by rw [firstNamed_append, x2]; rfl, ?_⟩
          have hlt : i < s.objs.length := (List.getElem?_eq_some_iff.1 x3).1
          rw [ho i hlt]; exact x3
    simp only
    unfold makeInteraction
    by_cases hN : e.token = noneToken
    · rw [if_pos hN]
      obtain ⟨fm, e1, e2, e3⟩ := call none
      simp only [e1]
      refine ⟨_, rfl, ⟨hist none fm _ (fun tok ht => Function.update_of_ne (hne tok ht) _ _) (Function.update_self _ _ _) e2 e3, fun tok => ?_⟩⟩
      by_cases htok : tok = e.token
      · subst htok
        simp only [Function.update_self]
        exact hN
      · exact rest none s.objs (fun _ _ => rfl) tok htok
    · rw [if_neg hN]
      have hv' : valid e.token = true := by rcases hv with hv | hv; exact absurd hv hN; exact hv
      rw [hv']
      simp only [if_true]
      obtain ⟨fm, e1, e2, e3⟩ := call (some s.objs.length)
      simp only [e1]
      refine ⟨_, rfl, ⟨hist (some s.objs.length) fm _ (fun tok ht => Function.update_of_ne (hne tok ht) _ _) (Function.update_self _ _ _) e2 e3, fun tok => ?_⟩⟩
      by_cases htok : tok = e.token
      · subst htok
        simp only [Function.update_self]
        refine ⟨hN, e, ?_, by simp⟩
        rw [firstNamed_append, hold]
        simp
      · exact rest (some s.objs.length) (s.objs ++ [(e.token, e.params)]) (fun i hlt => List.getElem?_append_left hlt) tok htok

theorem readGrid_inv (cut : ℕ → K) (valid : Str → Bool) (ntypes : ℕ) (es : List (GEntry P)) (h0 : List ForceMaster.Call) (fm : ForceMaster.FM K) (hfm : ForceMaster.InRange h0 ∧ ForceMaster.run cut h0 = some fm)
    (hr : ∀ e ∈ es, (0 ≤ e.t1 ∧ e.t1 < ntypes) ∧ 0 ≤ e.t2 ∧ e.t2 < ntypes) (hv : ∀ e ∈ es, e.token = noneToken ∨ valid e.token = true) :
    ∃ s, readGrid cut valid ntypes fm es = .ok s ∧ GInv cut ntypes es s := by
  have start : GInv cut ntypes ([] : List (GEntry P)) ⟨ForceMaster.setNTypes fm ntypes, fun _ => none, []⟩ := by
    refine ⟨⟨.setNTypes ntypes :: h0, hfm.1, rfl, ?_, fun a b => rfl⟩, fun tok => rfl⟩
    rw [ForceMaster.run, hfm.2]; rfl
  have key : ∀ (qs ds : List (GEntry P)) (s : GState K P), GInv cut ntypes ds s → (∀ e ∈ qs, (0 ≤ e.t1 ∧ e.t1 < ntypes) ∧ 0 ≤ e.t2 ∧ e.t2 < ntypes) → (∀ e ∈ qs, e.token = noneToken ∨ valid e.token = true) →
      ∃ s', each (gridStep cut valid ntypes) s qs = .ok s' ∧ GInv cut ntypes (ds ++ qs) s' := by
    intro qs
    induction qs with
    | nil => intro ds s hI _ _; exact ⟨s, rfl, by simpa using hI⟩
    | cons q qs ih =>
      intro ds s hI h1 h2
      obtain ⟨s1, e1, i1⟩ := gridStep_inv cut valid ntypes ds s hI q (h1 q (by simp)) (h2 q (by simp))
      obtain ⟨s2, e2, i2⟩ := ih (ds ++ [q]) s1 i1 (fun e he => h1 e (by simp [he])) (fun e he => h2 e (by simp [he]))
      refine ⟨s2, ?_, by simpa using i2⟩
      simp only [each, e1]
      exact e2
  have := key es [] _ start hr hv
  rw [List.nil_append] at this
  exact this

/-- **C111.** For every table with legal types and known names, after any history of the force master: reading it succeeds, and between two types acts the interaction that their last entry (in either order) names — with the parameters of the *first* entry of that name — and none
if there is no entry or the entry says `None`. -/
theorem C111_table (cut : ℕ → K) (valid : Str → Bool) (ntypes : ℕ) (es : List (GEntry P)) (h0 : List ForceMaster.Call) (fm : ForceMaster.FM K) (hfm : ForceMaster.InRange h0 ∧ ForceMaster.run cut h0 = some fm)
    (hr : ∀ e ∈ es, (0 ≤ e.t1 ∧ e.t1 < ntypes) ∧ 0 ≤ e.t2 ∧ e.t2 < ntypes) (hv : ∀ e ∈ es, e.token = noneToken ∨ valid e.token = true) :
    ∃ s, readGrid cut valid ntypes fm es = .ok s ∧ ∀ a b : ℤ, 0 ≤ a ∧ a < ntypes → 0 ≤ b ∧ b < ntypes →
      acts s a b = some (match lastEntry es a b with
        | none => none
        | some e => if e.token = noneToken then none else (firstNamed es e.token).map fun x => (e.token, x.params)) := by
  obtain ⟨s, e0, hI⟩ := readGrid_inv cut valid ntypes es h0 fm hfm hr hv
  refine ⟨s, e0, fun a b ha hb => ?_⟩
  obtain ⟨h, h1, h2, h3, h4⟩ := hI.hist
  obtain ⟨s', e1, _, hg, _⟩ := ForceMaster.C31_table cut h h1
  rw [h3] at e1
  cases e1
  unfold acts
  rw [hg a b, h2, if_pos ⟨ha.1, ha.2, hb.1, hb.2⟩, h4]
  cases hl : lastEntry es a b with
  | none => rfl
  | some e =>
    simp only [Option.bind_some]
    have hm := hI.map e.token
    have hsome := firstNamed_isSome es e (lastEntry_mem es a b e hl)
    cases hmt : s.map e.token with
    | none => rw [hmt] at hm; exact absurd hm hsome
    | some it =>
      rw [hmt] at hm
      cases it with
      | none =>
        simp only at hm
        simp [hm]
      | some i =>
        simp only at hm
        obtain ⟨x1, x, x2, x3⟩ := hm
        simp [x1, x2, x3]

/-- **C111, partial.** If entries of the same name have the same parameters, between two types acts exactly what their last entry says. Missing: entries of the same name with different parameters, see below. -/
theorem C111_parameters_partial (cut : ℕ → K) (valid : Str → Bool) (ntypes : ℕ) (es : List (GEntry P)) (h0 : List ForceMaster.Call) (fm : ForceMaster.FM K) (hfm : ForceMaster.InRange h0 ∧ ForceMaster.run cut h0 = some fm)
    (hr : ∀ e ∈ es, (0 ≤ e.t1 ∧ e.t1 < ntypes) ∧ 0 ≤ e.t2 ∧ e.t2 < ntypes) (hv : ∀ e ∈ es, e.token = noneToken ∨ valid e.token = true)
    (hp : ∀ e ∈ es, ∀ x ∈ es, e.token = x.token → e.params = x.params) :
    ∃ s, readGrid cut valid ntypes fm es = .ok s ∧ ∀ a b : ℤ, 0 ≤ a ∧ a < ntypes → 0 ≤ b ∧ b < ntypes →
      acts s a b = some (match lastEntry es a b with
        | none => none
        | some e => if e.token = noneToken then none else some (e.token, e.params)) := by
  obtain ⟨s, e0, hs⟩ := C111_table cut valid ntypes es h0 fm hfm hr hv
  refine ⟨s, e0, fun a b ha hb => ?_⟩
  rw [hs a b ha hb]
  cases hl : lastEntry es a b with
  | none => rfl
  | some e =>
    simp only
    by_cases hN : e.token = noneToken
    · rw [if_pos hN, if_pos hN]
    · rw [if_neg hN, if_neg hN]
      have he := lastEntry_mem es a b e hl
      cases hf : firstNamed es e.token with
      | none => exact absurd hf (firstNamed_isSome es e he)
      | some x =>
        have hx : x ∈ es := by unfold firstNamed at hf; exact List.mem_of_find?_eq_some hf
        have hxt : x.token = e.token := by unfold firstNamed at hf; simpa using List.find?_some hf
        simp only [Option.map_some]
        rw [hp x hx e he hxt]

/-- **C111, negation.** A second entry of the same name for other types does not get its own parameters: for all names and parameters. -/
theorem C111_negation_parameters (cut : ℕ → K) (valid : Str → Bool) (tok : Str) (hN : tok ≠ noneToken) (hv : valid tok = true) (p q : P) :
    ∃ s, readGrid cut valid 2 ForceMaster.fresh [⟨0, 0, tok, p⟩, ⟨1, 1, tok, q⟩] = .ok s ∧ acts s 1 1 = some (some (tok, p)) := by
  obtain ⟨s, e0, hs⟩ := C111_table cut valid 2 [⟨0, 0, tok, p⟩, ⟨1, 1, tok, q⟩] [] ForceMaster.fresh ⟨trivial, rfl⟩ (by simp) (by simp [hv])
  refine ⟨s, e0, ?_⟩
  rw [hs 1 1 (by norm_num) (by norm_num)]
  have h1 : lastEntry [⟨0, 0, tok, p⟩, ⟨1, 1, tok, q⟩] 1 1 = some (⟨1, 1, tok, q⟩ : GEntry P) := by simp [lastEntry]
  have h2 : firstNamed [⟨0, 0, tok, p⟩, ⟨1, 1, tok, q⟩] tok = some (⟨0, 0, tok, p⟩ : GEntry P) := by simp [firstNamed]
  rw [h1]
  simp only
  rw [if_neg hN, h2]
  rfl

/-- Illegal types and unknown names are refused, whatever the state. -/
theorem C111_refused (cut : ℕ → K) (valid : Str → Bool) (ntypes : ℕ) (s : GState K P) (e : GEntry P)
    (h : (¬ ((0 ≤ e.t1 ∧ e.t1 < ntypes) ∧ 0 ≤ e.t2 ∧ e.t2 < ntypes)) ∨ (s.map e.token = none ∧ e.token ≠ noneToken ∧ valid e.token = false)) (es : List (GEntry P)) :
    each (gridStep cut valid ntypes) s (e :: es) = .error .throws := by
  unfold each gridStep
  by_cases hr : e.t1 < 0 ∨ e.t2 < 0 ∨ (ntypes : ℤ) ≤ e.t1 ∨ (ntypes : ℤ) ≤ e.t2
  · rw [if_pos hr]
  · rw [if_neg hr]
    rcases h with h | ⟨h1, h2, h3⟩
    · exact absurd h (by omega)
    · rw [h1]
      simp only [makeInteraction, if_neg h2, h3]
      rfl

/-- The hypotheses are met by a table with two types and an entry that replaces an earlier one. -/
example : (∀ e ∈ ([⟨0, 1, ['A'], 1⟩, ⟨1, 0, ['B'], 2⟩, ⟨1, 1, noneToken, 3⟩] : List (GEntry ℕ)), (0 ≤ e.t1 ∧ e.t1 < (2 : ℕ)) ∧ 0 ≤ e.t2 ∧ e.t2 < (2 : ℕ))
    ∧ (lastEntry ([⟨0, 1, ['A'], 1⟩, ⟨1, 0, ['B'], 2⟩, ⟨1, 1, noneToken, 3⟩] : List (GEntry ℕ)) 0 1).map (·.token) = some ['B']
    ∧ ForceMaster.InRange [] ∧ ForceMaster.run (fun _ => (1 : ℚ)) [] = some ForceMaster.fresh := by
  refine ⟨by simp, by decide, trivial, rfl⟩

end Grid

/-! ## Boundary conditions and single particles (C112) -/

open Boundary

/-- `FileParseCreator::choose_bc`, `creators/fileparsecreator.cpp:460-466`. -/
def chooseBC (t : Str) : Except Err BC :=
  if t = ['W', 'r', 'a', 'p'] then .ok .wrap
  else if t = ['R', 'e', 'f', 'l', 'e', 'c', 't'] then .ok .refl
  else if t = ['R', 'e', 'p', 'u', 'l', 's', 'e'] then .ok .repl
  else if t = ['O', 'p', 'e', 'n'] then .ok .open'
  else .error .throws

/-- **C112, names of boundary conditions.** Exactly the four names of the manual are accepted, each with its own meaning; every other text is refused with an exception. -/
theorem C112_names (t : Str) :
    (chooseBC t = .ok .wrap ↔ t = "Wrap".toList) ∧ (chooseBC t = .ok .refl ↔ t = "Reflect".toList)
    ∧ (chooseBC t = .ok .repl ↔ t = "Repulse".toList) ∧ (chooseBC t = .ok .open' ↔ t = "Open".toList)
    ∧ (t ∉ ["Wrap".toList, "Reflect".toList, "Repulse".toList, "Open".toList] → chooseBC t = .error .throws) := by
  have e1 : "Wrap".toList = ['W', 'r', 'a', 'p'] := by decide
  have e2 : "Reflect".toList = ['R', 'e', 'f', 'l', 'e', 'c', 't'] := by decide
  have e3 : "Repulse".toList = ['R', 'e', 'p', 'u', 'l', 's', 'e'] := by decide
  have e4 : "Open".toList = ['O', 'p', 'e', 'n'] := by decide
  rw [e1, e2, e3, e4]
  unfold chooseBC
  split_ifs <;> simp_all

/-- The four names and another one. -/
example : chooseBC "Reflect".toList = .ok .refl ∧ chooseBC "wrap".toList = .error .throws :=
  ⟨(C112_names _).2.1.2 rfl, (C112_names _).2.2.2.2 (by decide)⟩

/-- The first argument of a heading as a text (`argName()`), `utility/treeparser.cpp:165-170`; empty if there is none. -/
def firstName (ps : List (Str × Str)) : Str :=
  match ps with
  | [] => []
  | e :: _ => e.1

/-- The loop over the directions, `creators/fileparsecreator.cpp:251-257`: `d` is the direction, the headings are visited in the order of the map. -/
def bcLoop (node : FileParse.Head) : (ℕ → BC) → ℕ → List (Str × List ℕ) → Except Err (ℕ → BC)
  | bcs, _, [] => .ok bcs
  | bcs, d, e :: es =>
    match TreeParser.nodeAt node e.2 with
    | none => .error .undef
    | some h =>
      match chooseBC (firstName (TreeParser.params h)) with
      | .error x => .error x
      | .ok b => bcLoop node (Function.update bcs d b) (d + 1) es

/-- The boundary conditions, `creators/fileparsecreator.cpp:244-263`: `none` is a file without `Boundary`. The old conditions are those of the constructor of `GFlow`. -/
def readBCs (dims : ℕ) (old : ℕ → BC) : Option FileParse.Head → Except Err (ℕ → BC)
  | none => .ok fun d => if d < dims then .wrap else old d
  | some node =>
    if firstName (TreeParser.params node) ≠ [] then
      match chooseBC (firstName (TreeParser.params node)) with
      | .error x => .error x
      | .ok b => .ok fun d => if d < dims then b else old d
    else if (TreeParser.subs node).length = dims then
      match TreeParser.sortOptions node (some []) with
      | [] => .error .undef
      | e :: es => bcLoop node old 0 (e :: es)
    else .error .throws

theorem bcLoop_ok (node : FileParse.Head) (es : List (Str × List ℕ)) : ∀ (bcs : ℕ → BC) (d : ℕ) (f : ℕ → BC),
    (∀ k (hk : k < es.length), ∃ h, TreeParser.nodeAt node (es[k]).2 = some h ∧ chooseBC (firstName (TreeParser.params h)) = .ok (f (d + k))) →
    ∃ r, bcLoop node bcs d es = .ok r ∧ ∀ k, r k = if d ≤ k ∧ k < d + es.length then f k else bcs k := by
  induction es with
  | nil => intro bcs d f _; exact ⟨bcs, rfl, fun k => by rw [if_neg (by simp)]⟩
  | cons e es ih =>
    intro bcs d f hf
    obtain ⟨h, h1, h2⟩ := hf 0 (by simp)
    obtain ⟨r, r1, r2⟩ := ih (Function.update bcs d (f d)) (d + 1) f (fun k hk => by
      have := hf (k + 1) (by simpa using hk)
      simpa [add_assoc, add_comm 1 k] using this)
    refine ⟨r, ?_, fun k => ?_⟩
    · unfold bcLoop
      simp only [List.getElem_cons_zero] at h1
      rw [h1]
      simp only
      rw [add_zero] at h2
      rw [h2]
      exact r1
    · rw [r2 k]
      simp only [List.length_cons]
      by_cases hk : k = d
      · subst hk
        rw [if_neg (by omega), if_pos (by omega)]
        simp
      · by_cases hk2 : d + 1 ≤ k ∧ k < d + 1 + es.length
        · rw [if_pos hk2, if_pos (by omega)]
        · rw [if_neg hk2, if_neg (by omega), Function.update_of_ne hk]

/-- **C112, boundary conditions.** Without the heading all directions are periodic; with one name all directions get it; with a body of as many entries as there are directions, all under the same heading, the `k`-th direction gets the condition of the `k`-th entry of the file. -/
theorem C112_boundaries (dims : ℕ) (hd : 0 < dims) (old : ℕ → BC) :
    (∃ r, readBCs dims old none = .ok r ∧ ∀ d < dims, r d = .wrap)
    ∧ (∀ node b, firstName (TreeParser.params node) ≠ [] → chooseBC (firstName (TreeParser.params node)) = .ok b → ∃ r, readBCs dims old (some node) = .ok r ∧ ∀ d < dims, r d = b)
    ∧ (∀ node (f : ℕ → BC) (name : Str), firstName (TreeParser.params node) = [] → (TreeParser.subs node).length = dims → (∀ c ∈ TreeParser.subs node, TreeParser.hd c = name) →
        (∀ k (hk : k < (TreeParser.subs node).length), chooseBC (firstName (TreeParser.params ((TreeParser.subs node)[k]))) = .ok (f k)) →
        ∃ r, readBCs dims old (some node) = .ok r ∧ ∀ d < dims, r d = f d) := by
  refine ⟨⟨_, rfl, fun d h => if_pos h⟩, fun node b h1 h2 => ?_, fun node f name h1 h2 h3 h4 => ?_⟩
  · refine ⟨fun d => if d < dims then b else old d, ?_, fun d h => if_pos h⟩
    unfold readBCs
    simp only
    rw [if_pos h1, h2]
  · have hall : ∀ e ∈ TreeParser.children node [], e.1 = name := by
      intro e he
      simp only [TreeParser.children, TreeParser.nodeAt, List.mem_map] at he
      obtain ⟨c, hc, rfl⟩ := he
      exact h3 c.1 ((by
        obtain ⟨_, _, h⟩ := List.mem_zipIdx hc
        rw [h]; exact List.getElem_mem _))
    have hsorted : TreeParser.sortOptions node (some []) = TreeParser.children node [] := by
      have hp : (TreeParser.sortOptions node (some [])).Perm (TreeParser.children node []) := by
        have := TreeParser.foldl_perm (TreeParser.children node []) []
        simpa [TreeParser.sortOptions] using this
      have h5 := (TreeParser.sortOptions_some node [] name).2
      rw [List.filter_eq_self.2 (fun e he => by simpa using hall e (hp.mem_iff.1 he)), List.filter_eq_self.2 (fun e he => by simpa using hall e he)] at h5
      exact h5
    have hlen : (TreeParser.children node []).length = dims := by simp [TreeParser.children, TreeParser.nodeAt, h2]
    have h1' : ¬ (firstName (TreeParser.params node) ≠ []) := by simpa using h1
    unfold readBCs
    simp only
    rw [if_neg h1', if_pos h2, hsorted]
    cases hc : TreeParser.children node [] with
    | nil => rw [hc] at hlen; simp at hlen; omega
    | cons e es =>
      simp only
      rw [← hc]
      obtain ⟨r, r1, r2⟩ := bcLoop_ok node (TreeParser.children node []) old 0 f (fun k hk => by
        have hk' : k < (TreeParser.subs node).length := by rw [hlen] at hk; omega
        refine ⟨(TreeParser.subs node)[k], ?_, by simpa using h4 k hk'⟩
        simp [TreeParser.children, TreeParser.nodeAt, hk'])
      refine ⟨r, r1, fun d hlt => ?_⟩
      rw [r2 d, if_pos (by omega)]

/-- **C112, negation: named directions.** Entries under different headings are visited in the order of their names, not of the file: with the headings `second` before `axis` the first direction gets the condition of the second entry. -/
theorem C112_negation_order : readBCs 2 (fun _ => .open') (some (.mk ['B'] [] [.mk ['s'] [(['W', 'r', 'a', 'p'], [])] [], .mk ['a'] [(['R', 'e', 'f', 'l', 'e', 'c', 't'], [])] []]))
    = .ok (Function.update (Function.update (fun _ => BC.open') 0 .refl) 1 .wrap) := by
  have e : TreeParser.sortOptions (.mk ['B'] [] [.mk ['s'] [(['W', 'r', 'a', 'p'], [])] [], .mk ['a'] [(['R', 'e', 'f', 'l', 'e', 'c', 't'], [])] []]) (some []) = [(['a'], [1]), (['s'], [0])] := by decide
  unfold readBCs
  simp only
  rw [if_neg (by simp [firstName, TreeParser.params]), if_pos (by simp [TreeParser.subs]), e]
  simp [bcLoop, TreeParser.nodeAt, TreeParser.subs, TreeParser.params, firstName, chooseBC]

/-- A wrong number of entries is refused. -/
theorem C112_refused (dims : ℕ) (old : ℕ → BC) (node : FileParse.Head) (h1 : firstName (TreeParser.params node) = []) (h2 : (TreeParser.subs node).length ≠ dims) : readBCs dims old (some node) = .error .throws := by
  have h1' : ¬ (firstName (TreeParser.params node) ≠ []) := by simpa using h1
  unfold readBCs
  simp only
  rw [if_neg h1', if_neg h2]

/-! ### Single particles -/

/-- The option `Mass` of a particle, `creators/fileparsecreator.cpp:513-524`: `inf`, a density (`none` if the value is missing), or a mass. -/
inductive MassOpt where
  | inf
  | density (d : Option ℝ)
  | mass (m : ℝ)

/-- The modifiers of a particle, `creators/fileparsecreator.cpp:536-548`; the text after `=` of `CV-D`. -/
inductive ModOpt where
  | cv
  | cvd (distance : Str)

/-- The headings of a particle: the arguments of `Position` and `Velocity`, the first argument of `Sigma` and `Type` (`none` if it is missing), `Mass`, and the modifiers, `creators/fileparsecreator.cpp:493-505`. -/
structure PEntry where
  pos : List ℝ
  vel : List ℝ
  sigma : Option ℝ
  type : Option ℤ
  mass : Option MassOpt
  mods : List ModOpt

/-- A particle, and a modifier that keeps the velocity of the particle with a global id (for a distance). -/
structure Particle where
  x : List ℝ
  v : List ℝ
  sigma : ℝ
  im : ℝ
  type : ℤ
  id : ℕ

/-- The modifiers `ConstantVelocity` and `ConstantVelocityDistance` that were made. -/
inductive Mod where
  | cv (id : ℕ) (v : List ℝ)
  | cvd (id : ℕ) (v : List ℝ) (distance : ℝ)

/-- The inverse mass, `creators/fileparsecreator.cpp:511-527`. -/
noncomputable def inverseMassOf (dims : ℕ) (sigma : ℝ) : Option MassOpt → Except Err ℝ
  | some .inf => .ok 0
  | some (.density none) => .error .throws
  | some (.density (some d)) => .ok (1 / (d * Regions.sphereVolume sigma dims))
  | some (.mass m) => .ok (1 / m)
  | none => .ok (1 / Regions.sphereVolume sigma dims)

/-- The distance of `CV-D`, `creators/fileparsecreator.cpp:543-545`: `parser.arg(D)` evaluates the first part of the parameter, which is the text `CV-D`. `num` is the value of a word (of a variable or a number). -/
noncomputable def cvdDistance (num : Str → ℝ) (_ : Str) : Option ℝ := Eval.evaluate num ['C', 'V', '-', 'D']

/-- The modifiers, `creators/fileparsecreator.cpp:532-550`. -/
noncomputable def makeMods (num : Str → ℝ) (id : ℕ) (v : List ℝ) : List ModOpt → Except Err (List Mod)
  | [] => .ok []
  | .cv :: ms =>
    match makeMods num id v ms with
    | .error e => .error e
    | .ok r => .ok (.cv id v :: r)
  | .cvd t :: ms =>
    match cvdDistance num t with
    | none => .error .undef
    | some D =>
      match makeMods num id v ms with
      | .error e => .error e
      | .ok r => .ok (.cvd id v D :: r)

/-- `FileParseCreator::createParticle`, `creators/fileparsecreator.cpp:486-554`; the vectors hold as many numbers as the headings have arguments (zeros of the dimension if there are none), and `dims` of them are read; a missing radius is an uninitialised variable. `next` is the next global id. -/
noncomputable def createParticle (num : Str → ℝ) (dims next : ℕ) (e : PEntry) : Except Err (Particle × List Mod) :=
  let x := if e.pos = [] then List.replicate dims 0 else e.pos
  let v := if e.vel = [] then List.replicate dims 0 else e.vel
  match e.sigma with
  | none => .error .undef
  | some sigma =>
    match inverseMassOf dims sigma e.mass with
    | .error x => .error x
    | .ok im =>
      if x.length < dims ∨ v.length < dims then .error .undef
      else
        match makeMods num next (v.take dims) e.mods with
        | .error x => .error x
        | .ok ms => .ok (⟨x.take dims, v.take dims, sigma, im, e.type.getD 0, next⟩, ms)

theorem cvd_distance (num : Str → ℝ) (t : Str) : cvdDistance num t = some (num ['C', 'V'] - num ['D']) := by
  unfold cvdDistance Eval.evaluate
  have : Eval.parse .start ['C', 'V', '-', 'D'] = some (.node ['-'] (.node ['C', 'V'] .nil .nil) (.node ['D'] .nil .nil), []) := by decide +kernel
  rw [this]
  simp [Eval.evalT]

theorem makeMods_ids (num : Str → ℝ) (id : ℕ) (v : List ℝ) (ms : List ModOpt) : ∃ r, makeMods num id v ms = .ok r ∧ r.length = ms.length ∧
    ∀ m ∈ r, m = .cv id v ∨ ∃ D, m = .cvd id v D := by
  induction ms with
  | nil => exact ⟨[], rfl, rfl, by simp⟩
  | cons m ms ih =>
    obtain ⟨r, e, h1, h2⟩ := ih
    cases m with
    | cv => exact ⟨.cv id v :: r, by simp [makeMods, e], by simp [h1], by
        intro m hm
        rcases List.mem_cons.1 hm with rfl | hm
        · exact Or.inl rfl
        · exact h2 m hm⟩
    | cvd t => exact ⟨.cvd id v (num ['C', 'V'] - num ['D']) :: r, by simp [makeMods, e, cvd_distance], by simp [h1], by
        intro m hm
        rcases List.mem_cons.1 hm with rfl | hm
        · exact Or.inr ⟨_, rfl⟩
        · exact h2 m hm⟩

/-- **C112, single particles (partial).** A particle with a radius and with as many coordinates as dimensions gets exactly these, its type (zero by default), the next id, and the mass that was given: immovable for `inf`, otherwise the mass, the density times the volume, or the volume; its modifiers refer to
it and keep its velocity. Missing: the distance of `CV-D`, missing arguments (below). -/
theorem C112_particle_partial (num : Str → ℝ) (dims next : ℕ) (e : PEntry) (sigma : ℝ) (hs : e.sigma = some sigma) (hx : e.pos.length = dims) (hv : e.vel.length = dims)
    (hm : e.mass ≠ some (.density none)) :
    ∃ p ms, createParticle num dims next e = .ok (p, ms) ∧ p.x = e.pos ∧ p.v = e.vel ∧ p.sigma = sigma ∧ p.type = e.type.getD 0 ∧ p.id = next
      ∧ (match e.mass with
        | some .inf => p.im = 0
        | some (.mass m) => m ≠ 0 → p.im * m = 1
        | some (.density (some d)) => d * Regions.sphereVolume sigma dims ≠ 0 → p.im * (d * Regions.sphereVolume sigma dims) = 1
        | some (.density none) => False
        | none => Regions.sphereVolume sigma dims ≠ 0 → p.im * Regions.sphereVolume sigma dims = 1)
      ∧ ms.length = e.mods.length ∧ ∀ m ∈ ms, m = .cv p.id p.v ∨ ∃ D, m = .cvd p.id p.v D := by
  have hx' : (if e.pos = [] then List.replicate dims 0 else e.pos) = e.pos := by
    by_cases h : e.pos = []
    · rw [if_pos h, ← hx, h]; rfl
    · rw [if_neg h]
  have hv' : (if e.vel = [] then List.replicate dims 0 else e.vel) = e.vel := by
    by_cases h : e.vel = []
    · rw [if_pos h, ← hv, h]; rfl
    · rw [if_neg h]
  have hxt : e.pos.take dims = e.pos := by rw [← hx, List.take_length]
  have hvt : e.vel.take dims = e.vel := by rw [← hv, List.take_length]
  obtain ⟨im, him, hspec⟩ : ∃ im, inverseMassOf dims sigma e.mass = .ok im ∧ (match e.mass with
        | some .inf => im = 0
        | some (.mass m) => m ≠ 0 → im * m = 1
        | some (.density (some d)) => d * Regions.sphereVolume sigma dims ≠ 0 → im * (d * Regions.sphereVolume sigma dims) = 1
        | some (.density none) => False
        | none => Regions.sphereVolume sigma dims ≠ 0 → im * Regions.sphereVolume sigma dims = 1) := by
    cases hc : e.mass with
    | none => exact ⟨_, rfl, fun h => one_div_mul_cancel h⟩
    | some o =>
      cases o with
      | inf => exact ⟨_, rfl, rfl⟩
      | mass m => exact ⟨_, rfl, fun h => one_div_mul_cancel h⟩
      | density d =>
        cases d with
        | none => exact absurd hc hm
        | some d => exact ⟨_, rfl, fun h => one_div_mul_cancel h⟩
  obtain ⟨ms, hms, hl, hid⟩ := makeMods_ids num next e.vel e.mods
  refine ⟨⟨e.pos, e.vel, sigma, im, e.type.getD 0, next⟩, ms, ?_, rfl, rfl, rfl, rfl, rfl, hspec, hl, hid⟩
  unfold createParticle
  simp only [hx', hv', hs, him, hxt, hvt, hms]
  rw [if_neg (by omega)]

/-- **C112, negation: the distance.** The distance after which a particle with `CV-D` stops does not depend on the value in the file: it is the difference of the words `CV` and `D`, which is zero if these are not variables. -/
theorem C112_negation_distance (num : Str → ℝ) (dims next : ℕ) (x v : List ℝ) (hx : x.length = dims) (hv : v.length = dims) (t : Str) :
    ∃ p, createParticle num dims next ⟨x, v, some 1, none, some .inf, [.cvd t]⟩ = .ok (p, [.cvd next v (num ['C', 'V'] - num ['D'])]) := by
  have hx' : (if x = [] then List.replicate dims 0 else x) = x := by
    by_cases h : x = []
    · rw [if_pos h, ← hx, h]; rfl
    · rw [if_neg h]
  have hv' : (if v = [] then List.replicate dims 0 else v) = v := by
    by_cases h : v = []
    · rw [if_pos h, ← hv, h]; rfl
    · rw [if_neg h]
  refine ⟨⟨x, v, 1, 0, 0, next⟩, ?_⟩
  have hvt : v.take dims = v := by rw [← hv, List.take_length]
  have hxt : x.take dims = x := by rw [← hx, List.take_length]
  unfold createParticle
  simp only [hx', hv', inverseMassOf, hvt, hxt, makeMods, cvd_distance]
  rw [if_neg (by omega)]
  rfl

/-- **C112, negation: missing arguments.** With fewer coordinates than dimensions numbers outside of the array are read, and a `Sigma` without argument leaves the radius uninitialised. -/
theorem C112_negation_missing (num : Str → ℝ) (dims next : ℕ) (e : PEntry) (h : e.sigma = none ∨ (e.pos ≠ [] ∧ e.pos.length < dims ∧ e.mass ≠ some (.density none))) :
    createParticle num dims next e = .error .undef := by
  unfold createParticle
  cases hs : e.sigma with
  | none => rfl
  | some sigma =>
    rcases h with h | ⟨h1, h2, h3⟩
    · rw [hs] at h; simp at h
    · obtain ⟨im, him⟩ : ∃ im, inverseMassOf dims sigma e.mass = .ok im := by
        cases hc : e.mass with
        | none => exact ⟨_, rfl⟩
        | some o =>
          cases o with
          | inf => exact ⟨_, rfl⟩
          | mass m => exact ⟨_, rfl⟩
          | density d =>
            cases d with
            | none => exact absurd hc h3
            | some d => exact ⟨_, rfl⟩
      simp only [him, if_neg h1]
      rw [if_pos (Or.inl h2)]

/-- The hypotheses are met by a particle in the plane with mass 3 and a modifier. -/
example : ∃ e : PEntry, e.sigma = some 1 ∧ e.pos.length = 2 ∧ e.vel.length = 2 ∧ e.mass ≠ some (.density none) ∧ e.mods ≠ [] :=
  ⟨⟨[1, 2], [3, 4], some 1, some 1, some (.mass 3), [.cv]⟩, rfl, rfl, rfl, by simp, by simp⟩

end Verif.SetupFile
