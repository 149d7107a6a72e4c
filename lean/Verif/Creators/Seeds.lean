import Mathlib.Data.Real.Basic
import Mathlib.Data.List.Range
import Mathlib.Data.List.Nodup
import Mathlib.Data.List.Basic
import Mathlib.Tactic.Linarith
import Mathlib.Tactic.NormNum

/-!
# Random numbers of a setup and its seed (C153)

Models which generator each random number of a setup comes from and which of them the seed of a setup file reaches:
`creators/fileparsecreator.cpp:10-34,228-234,566-586`, `base/creator.cpp:18-29`, `utility/utility.hpp:234-248`,
`applications/driver.cpp:265`, `creators/area-creator.hpp:31`, `creators/fillareacreator.cpp:142-174,206-273`,
`creators/boxcreator.cpp:20-27`, `utility/bounds.cpp:147-152`.

`global_generator` is a `static` variable of a header, so each translation unit has its own. Units are numbered; unit 0 is that of
`driver.cpp`. Numbers are reals; generators are arbitrary deterministic machines.
-/

namespace Verif.Seeds

/-! ## Model -/

/-- Where a random number comes from: `drand48`, the `global_generator` of a translation unit (`utility/utility.hpp:235`; used through
`randNormal` and the engines of `utility/randomengines.hpp`), or the generator of the area creators (`creators/area-creator.hpp:31`). -/
inductive Source where
  | r48
  | global (unit : ℕ)
  | area
deriving DecidableEq

/-- A program that draws random numbers, adaptively: which numbers it draws next can depend on those before. The number `dist` says
which distribution makes a real out of the state of the generator. -/
inductive Prog (α : Type) : Type where
  | ret (a : α)
  | draw (s : Source) (dist : ℕ) (k : ℝ → Prog α)

/-- One program after another. -/
def Prog.bind {α β : Type} : Prog α → (α → Prog β) → Prog β
  | .ret a, f => f a
  | .draw s d k, f => .draw s d fun x => (k x).bind f

/-- Generators. `next` makes a number and the next state (the state includes what a distribution has saved); `seed48` is `srand48`
with a seed, `mt` a generator with a seed, `fresh` one without seed (as `std::mt19937` is constructed by default), `start48` the state of
`drand48` when a process starts. -/
structure Rng (σ : Type) where
  next : ℕ → σ → ℝ × σ
  seed48 : ℕ → σ
  mt : ℕ → σ
  fresh : σ
  start48 : σ

/-- The states of all generators. -/
structure Sources (σ : Type) where
  r48 : σ
  global : ℕ → σ
  area : σ

/-- The generators when a process starts. -/
def Rng.start {σ : Type} (R : Rng σ) : Sources σ := ⟨R.start48, fun _ => R.fresh, R.fresh⟩

/-- The state of one generator. -/
def Sources.get {σ : Type} (w : Sources σ) : Source → σ
  | .r48 => w.r48
  | .global u => w.global u
  | .area => w.area

/-- The state of one generator changes. -/
def Sources.set {σ : Type} (w : Sources σ) (s : Source) (x : σ) : Sources σ :=
  match s with
  | .r48 => ⟨x, w.global, w.area⟩
  | .global u => ⟨w.r48, fun v => if v = u then x else w.global v, w.area⟩
  | .area => ⟨w.r48, w.global, x⟩

/-- A program runs. -/
def Prog.run {σ α : Type} (R : Rng σ) : Prog α → Sources σ → α × Sources σ
  | .ret a, w => (a, w)
  | .draw s d k, w => (k (R.next d (w.get s)).1).run R (w.set s (R.next d (w.get s)).2)

/-- What a setup file says about random numbers: a seed, if there is one, and what is made with them (everything after
`creators/fileparsecreator.cpp:234`). -/
structure Setup (α : Type) where
  seed : Option ℕ
  build : Prog α

/-- `createFromOptions`, `creators/fileparsecreator.cpp:228-234` and the rest: `seedGenerator` keeps the number
(`base/creator.cpp:26-28`), `srand48` is called, and the area creators are new objects (`:343-347`). The generators of the translation
units are as they were. Returns what is made, the generators and the seed. -/
def createFrom {σ α : Type} (R : Rng σ) (clock : ℕ) (f : Setup α) (w : Sources σ) : α × Sources σ × ℕ :=
  let s := f.seed.getD clock
  let r := f.build.run R ⟨R.seed48 s, w.global, R.fresh⟩
  (r.1, r.2, s)

/-- A process: the generators and the seed of the creator. -/
structure Process (σ : Type) where
  sources : Sources σ
  seed : ℕ

/-- What can happen in a process before a simulation is created. -/
inductive Op where
  /-- `seedGlobalGenerator()` in `main`, `applications/driver.cpp:265`, `utility/utility.hpp:240-243`, with the time. -/
  | main (clock : ℕ)
  /-- Construction of a creator, `creators/fileparsecreator.cpp:10-34`. -/
  | construct (clock : ℕ)
  /-- `setSeed`, `base/creator.cpp:18-20`. -/
  | setSeed (s : ℕ)
  /-- `seedGenerator`, `base/creator.cpp:26-28`. -/
  | seedGenerator (s : ℕ)
  /-- Another simulation is created at some time. -/
  | create (clock : ℕ) (seed : Option ℕ) (build : Prog Unit)
  /-- A simulation runs (Langevin noise, stream tunnels, demon walls). -/
  | run (p : Prog Unit)

/-- One of these. (The creator's own generator, `creators/fileparsecreator.hpp:105`, is seeded when it is constructed and never used.) -/
def Process.step {σ : Type} (R : Rng σ) (p : Process σ) : Op → Process σ
  | .main c => ⟨p.sources.set (.global 0) (R.mt c), p.seed⟩
  | .construct c => ⟨p.sources, c⟩
  | .setSeed s => ⟨p.sources, s⟩
  | .seedGenerator s => ⟨p.sources, s⟩
  | .create c s b => ⟨(createFrom R c ⟨s, b⟩ p.sources).2.1, (createFrom R c ⟨s, b⟩ p.sources).2.2⟩
  | .run q => ⟨(q.run R p.sources).2, p.seed⟩

/-- A history of a process. -/
def Process.after {σ : Type} (R : Rng σ) (h : List Op) : Process σ := h.foldl (Process.step R) ⟨R.start, 0⟩

/-- `createSimulation` at the end of a history, `creators/fileparsecreator.cpp:42-111`. -/
def created {σ α : Type} (R : Rng σ) (h : List Op) (clock : ℕ) (f : Setup α) : α × Sources σ × ℕ :=
  createFrom R clock f (Process.after R h).sources

/-- `BoxCreator::createSimulation`, `creators/boxcreator.cpp:25-27`: `drand48` is seeded with the time in seconds. `gen` is the
generator of the creator (`:20-23`), which takes the place of that of the areas. -/
def boxCreate {σ α : Type} (R : Rng σ) (time : ℕ) (gen : σ) (build : Prog α) (w : Sources σ) : α × Sources σ :=
  build.run R ⟨R.seed48 time, w.global, gen⟩

/-- The three interactions of `makeRandomForces`. -/
inductive Kind where
  | hardSphere | lennardJones | coulomb
deriving DecidableEq

open Classical in
/-- The choice, `creators/fileparsecreator.cpp:572-574`. -/
noncomputable def kind (u : ℝ) : Kind := if u < 333/1000 then .hardSphere else if u < 666/1000 then .lennardJones else .coulomb

/-- `setInteraction(i, j, it)`, `base/forcemaster.cpp:139-144`. -/
def setPair (t : ℕ → ℕ → Option Kind) (i j : ℕ) (k : Kind) : ℕ → ℕ → Option Kind :=
  fun a b => if (a = i ∧ b = j) ∨ (a = j ∧ b = i) then some k else t a b

/-- The pairs in the order of the loops, `creators/fileparsecreator.cpp:569-576`. -/
def pairs (n : ℕ) : List (ℕ × ℕ) := (List.range n).flatMap fun i => (i, i) :: (List.range' (i + 1) (n - (i + 1))).map fun j => (i, j)

/-- The loops of `makeRandomForces`, `creators/fileparsecreator.cpp:566-582`. -/
noncomputable def randomLoop : List (ℕ × ℕ) → (ℕ → ℕ → Option Kind) → Prog (ℕ → ℕ → Option Kind)
  | [], t => .ret t
  | p :: l, t => .draw .r48 0 fun u => randomLoop l (setPair t p.1 p.2 (kind u))

/-- `makeRandomForces`. -/
noncomputable def randomForces (n : ℕ) : Prog (ℕ → ℕ → Option Kind) := randomLoop (pairs n) fun _ _ => none

/-- `n` draws. -/
def draws (s : Source) (d : ℕ) : ℕ → Prog (List ℝ)
  | 0 => .ret []
  | n + 1 => .draw s d fun x => (draws s d n).bind fun l => .ret (x :: l)

/-- `Bounds::randomPoint`, `utility/bounds.cpp:147-152`, for bounds given by the minimum and the widths. -/
def randomPoint (lower width : List ℝ) : Prog (List ℝ) :=
  (draws .r48 0 width.length).bind fun u => .ret (List.zipWith (· + ·) (List.zipWith (· * ·) u width) lower)

/-- `choose_by_normal`, `creators/fillareacreator.cpp:143-151`, and `choose_by_temperature`, `:161-168`: the energy is from the generator
of the area creator, the direction from that of the translation unit. `speed` makes the velocity from the two. -/
def velocity {V : Type} (dist unit dims : ℕ) (speed : ℝ → List ℝ → V) : Prog V :=
  .draw .area dist fun e => (draws (.global unit) 1 dims).bind fun v => .ret (speed e v)

/-- A particle made by the fill: position, radius and the like, velocity. -/
structure Made (P V : Type) where
  x : List ℝ
  props : P
  v : V

/-- The loop that fills to a density, `creators/fillareacreator.cpp:235-270`, without excluded regions, for at most `fuel` particles
(the loop itself has no limit): `more` is `keep_adding`, of the particles made so far; `tmpl` chooses the template with the generator of
the area creator and makes radius, mass and type with it. -/
noncomputable def fill {P V : Type} (lower width : List ℝ) (tmpl : ℕ → Prog P) (vel : P → Prog V) (more : List P → Bool) : ℕ → List P → Prog (List (Made P V))
  | 0, _ => .ret []
  | fuel + 1, done =>
    if more done then
      (randomPoint lower width).bind fun x => (tmpl done.length).bind fun p => (vel p).bind fun v =>
        (fill lower width tmpl vel more fuel (p :: done)).bind fun l => .ret (⟨x, p, v⟩ :: l)
    else .ret []

/-! ## Specification -/

/-- A program draws only from some sources. -/
def Prog.Uses {α : Type} (ok : Source → Prop) : Prog α → Prop
  | .ret _ => True
  | .draw s _ k => ok s ∧ ∀ x, (k x).Uses ok

/-- Not from the generators of translation units. -/
def NotGlobal : Source → Prop
  | .global _ => False
  | _ => True

/-- Not from that of the unit of `main`. -/
def NotMain : Source → Prop
  | .global u => u ≠ 0
  | _ => True

/-- Not from `drand48`. -/
def NotR48 : Source → Prop
  | .r48 => False
  | _ => True

/-- No number has been drawn from the generators of the translation units: creators are constructed, seeds are set, and simulations
that need no such numbers are made and run. -/
def Op.Quiet : Op → Prop
  | .create _ _ b => b.Uses NotGlobal
  | .run p => p.Uses NotGlobal
  | _ => True

/-! ## Programs -/

theorem get_set_ne {σ : Type} (w : Sources σ) {s t : Source} (h : t ≠ s) (x : σ) : (w.set s x).get t = w.get t := by
  cases s <;> cases t <;> simp_all [Sources.set, Sources.get]

theorem get_set {σ : Type} (w : Sources σ) (s : Source) (x : σ) : (w.set s x).get s = x := by
  cases s <;> simp [Sources.set, Sources.get]

/-- A program sees only the sources that it uses, and changes no other. -/
theorem run_uses {σ α : Type} (R : Rng σ) {ok : Source → Prop} {p : Prog α} (hp : p.Uses ok) {w w' : Sources σ}
    (h : ∀ s, ok s → w.get s = w'.get s) :
    (p.run R w).1 = (p.run R w').1 ∧ (∀ s, ok s → (p.run R w).2.get s = (p.run R w').2.get s) ∧
      ∀ s, ¬ ok s → (p.run R w).2.get s = w.get s := by
  induction p generalizing w w' with
  | ret a => exact ⟨rfl, h, fun _ _ => rfl⟩
  | draw s d k ih =>
    simp only [Prog.run]
    rw [← h s hp.1]
    obtain ⟨a, b, c⟩ := ih (R.next d (w.get s)).1 (hp.2 _) (w := w.set s (R.next d (w.get s)).2) (w' := w'.set s (R.next d (w.get s)).2) (by
      intro t ht
      by_cases e : t = s
      · rw [e, get_set, get_set]
      · rw [get_set_ne _ e, get_set_ne _ e]; exact h t ht)
    refine ⟨a, b, fun t ht => ?_⟩
    rw [c t ht, get_set_ne]
    rintro rfl
    exact ht hp.1

theorem sources_ext {σ : Type} {w w' : Sources σ} (h : ∀ s, w.get s = w'.get s) : w = w' := by
  cases w; cases w'
  have h1 := h .r48
  have h2 := h .area
  have h3 : ∀ u, _ := fun u => h (.global u)
  simp only [Sources.get] at h1 h2 h3
  congr
  funext u
  exact h3 u

theorem run_bind {σ α β : Type} (R : Rng σ) (p : Prog α) (f : α → Prog β) (w : Sources σ) :
    (p.bind f).run R w = (f (p.run R w).1).run R (p.run R w).2 := by
  induction p generalizing w with
  | ret a => rfl
  | draw s d k ih => exact ih _ _

theorem uses_bind {α β : Type} {ok : Source → Prop} {p : Prog α} {f : α → Prog β} (hp : p.Uses ok) (hf : ∀ a, (f a).Uses ok) : (p.bind f).Uses ok := by
  induction p with
  | ret a => exact hf a
  | draw s d k ih => exact ⟨hp.1, fun x => ih x (hp.2 x)⟩

theorem uses_draws {ok : Source → Prop} {s : Source} (h : ok s) (d n : ℕ) : (draws s d n).Uses ok := by
  induction n with
  | zero => trivial
  | succ n ih => exact ⟨h, fun x => uses_bind ih fun _ => trivial⟩

/-! ## The property -/

/-- The units other than that of `main` are as at the start after a quiet history. -/
theorem quiet_global {σ : Type} (R : Rng σ) {h : List Op} (hq : ∀ o ∈ h, o.Quiet) (u : ℕ) (hu : u ≠ 0) :
    (Process.after R h).sources.get (.global u) = R.fresh := by
  unfold Process.after
  suffices ∀ p : Process σ, p.sources.get (.global u) = R.fresh → (h.foldl (Process.step R) p).sources.get (.global u) = R.fresh from
    this _ rfl
  induction h with
  | nil => exact fun p hp => hp
  | cons o h ih =>
    intro p hp
    apply ih (fun o' ho' => hq o' (List.mem_cons_of_mem _ ho'))
    have ho := hq o List.mem_cons_self
    cases o with
    | main c => exact (get_set_ne (s := .global 0) (t := .global u) _ (fun e => hu (Source.global.inj e)) _).trans hp
    | construct c => exact hp
    | setSeed s => exact hp
    | seedGenerator s => exact hp
    | create c s b =>
      have := (run_uses R ho (w := ⟨R.seed48 (s.getD c), p.sources.global, R.fresh⟩) (w' := ⟨R.seed48 (s.getD c), p.sources.global, R.fresh⟩) (fun _ _ => rfl)).2.2
        (.global u) (fun h => h)
      exact this.trans hp
    | run q =>
      have := (run_uses R ho (w := p.sources) (w' := p.sources) (fun _ _ => rfl)).2.2 (.global u) (fun h => h)
      exact this.trans hp

/-- **C153 (partial).** A file with a seed makes the same simulation in every process, at every time, whatever creators were
constructed, seeds set and simulations made before, as long as these did not draw from the generators of translation units; and all
generators but that of `main` are in the same state afterwards, so what is run then is the same too. Missing: earlier simulations that
use the generators of translation units, as all with random radii or velocities do (`C153_negation_second`); and this needs that the
generator seeded in `main` is not one of those that are used (`C153_negation_main`). -/
theorem C153_reproducible_partial {σ α : Type} (R : Rng σ) (s : ℕ) (build : Prog α) (hb : build.Uses NotMain) (h h' : List Op)
    (hq : ∀ o ∈ h, o.Quiet) (hq' : ∀ o ∈ h', o.Quiet) (clock clock' : ℕ) :
    (created R h clock ⟨some s, build⟩).1 = (created R h' clock' ⟨some s, build⟩).1 ∧
    (∀ t, NotMain t → (created R h clock ⟨some s, build⟩).2.1.get t = (created R h' clock' ⟨some s, build⟩).2.1.get t) ∧
    (created R h clock ⟨some s, build⟩).2.2 = s := by
  have := run_uses R hb (w := ⟨R.seed48 s, (Process.after R h).sources.global, R.fresh⟩) (w' := ⟨R.seed48 s, (Process.after R h').sources.global, R.fresh⟩) (by
    intro t ht
    cases t with
    | r48 => rfl
    | area => rfl
    | global u => exact (quiet_global R hq u ht).trans (quiet_global R hq' u ht).symm)
  exact ⟨this.1, this.2.1, rfl⟩

/-- **C153, setups that use only `drand48` and the generators of areas** (fixed radii and velocities) are the same for the same seed
after every history. -/
theorem C153_always {σ α : Type} (R : Rng σ) (s : ℕ) (build : Prog α) (hb : build.Uses NotGlobal) (h h' : List Op) (clock clock' : ℕ) :
    (created R h clock ⟨some s, build⟩).1 = (created R h' clock' ⟨some s, build⟩).1 := by
  exact (run_uses R hb (by
    intro t ht
    cases t with
    | r48 => rfl
    | area => rfl
    | global u => exact absurd ht (fun h => h))).1

/-- **C153, the seed can be read back.** A simulation made without a seed is made again, in another process, by the seed that `getSeed`
returned. -/
theorem C153_get_seed {σ α : Type} (R : Rng σ) (build : Prog α) (hb : build.Uses NotMain) (h h' : List Op)
    (hq : ∀ o ∈ h, o.Quiet) (hq' : ∀ o ∈ h', o.Quiet) (clock clock' : ℕ) :
    (created R h' clock' ⟨some (created R h clock ⟨none, build⟩).2.2, build⟩).1 = (created R h clock ⟨none, build⟩).1 := by
  exact (C153_reproducible_partial R clock build hb h' h hq' hq clock' clock).1

/-- **C153, setting the seed of the creator has no effect.** Calls of `setSeed` and `seedGenerator` can be left out of a history. -/
theorem C153_set_seed {σ α : Type} (R : Rng σ) (h₁ h₂ : List Op) (o : Op) (ho : (∃ s, o = .setSeed s) ∨ (∃ s, o = .seedGenerator s) ∨ ∃ c, o = .construct c)
    (clock : ℕ) (f : Setup α) :
    created R (h₁ ++ o :: h₂) clock f = created R (h₁ ++ h₂) clock f := by
  have main : ∀ (l : List Op) (p q : Process σ), p.sources = q.sources →
      (l.foldl (Process.step R) p).sources = (l.foldl (Process.step R) q).sources := by
    intro l
    induction l with
    | nil => exact fun p q e => e
    | cons a l ih =>
      intro p q e
      apply ih
      cases a <;> simp only [Process.step, e]
  unfold created Process.after
  rw [List.foldl_append, List.foldl_append, List.foldl_cons, main h₂ _ (h₁.foldl (Process.step R) ⟨R.start, 0⟩)]
  rcases ho with ⟨s, rfl⟩ | ⟨s, rfl⟩ | ⟨s, rfl⟩ <;> rfl

/-- **C153 is false of what is drawn from translation units: the seed does not reach it.** What is made without `drand48` is the same for
all seeds, and without one. -/
theorem C153_negation_unused {σ α : Type} (R : Rng σ) (build : Prog α) (hb : build.Uses NotR48) (h : List Op) (s s' : Option ℕ) (clock clock' : ℕ) :
    (created R h clock ⟨s, build⟩).1 = (created R h clock' ⟨s', build⟩).1 := by
  exact (run_uses R hb (by
    intro t ht
    cases t with
    | r48 => exact absurd ht (fun h => h)
    | area => rfl
    | global u => rfl)).1

/-- The velocities of fill areas are such: they are the same for all seeds. -/
theorem C153_velocities {σ V : Type} (R : Rng σ) (dist unit dims n : ℕ) (speed : ℝ → List ℝ → V) (h : List Op) (s s' : Option ℕ) (clock clock' : ℕ) :
    let all : Prog (List V) := Nat.rec (.ret []) (fun _ p => p.bind fun l => (velocity dist unit dims speed).bind fun v => .ret (v :: l)) n
    (created R h clock ⟨s, all⟩).1 = (created R h clock' ⟨s', all⟩).1 := by
  intro all
  apply C153_negation_unused
  have hv : (velocity dist unit dims speed).Uses NotR48 := ⟨trivial, fun e => uses_bind (uses_draws (s := .global unit) trivial 1 dims) fun _ => trivial⟩
  show (Nat.rec (Prog.ret []) (fun _ p => p.bind fun l => (velocity dist unit dims speed).bind fun v => .ret (v :: l)) n : Prog (List V)).Uses NotR48
  induction n with
  | zero => trivial
  | succ n ih => exact uses_bind ih fun l => uses_bind hv fun _ => trivial

/-! ## Counterexamples -/

/-- A generator that counts. -/
def counter : Rng ℕ := ⟨fun _ n => ((n : ℝ), n + 1), fun s => s, fun s => s, 0, 0⟩

/-- The number drawn. -/
def one (s : Source) : Prog ℝ := .draw s 0 .ret

/-- **C153 is false of a second simulation.** The second simulation that a process makes from a file differs from the first one although
the seed is the same. -/
theorem C153_negation_second : ∃ (R : Rng ℕ) (build : Prog ℝ), build.Uses NotMain ∧ ∀ s clock,
    (created R [] clock ⟨some s, build⟩).1 ≠ (created R [.create clock (some s) (build.bind fun _ => .ret ())] clock ⟨some s, build⟩).1 := by
  refine ⟨counter, one (.global 1), ⟨by simp [NotMain], fun _ => trivial⟩, fun s clock => ?_⟩
  simp [created, createFrom, Process.after, Process.step, one, Prog.run, Prog.bind, counter, Sources.get, Sources.set, Rng.start]

/-- **C153 is false if the generator seeded in `main` is used** (as it would be if there was one for all translation units): its numbers
depend on the time. -/
theorem C153_negation_main : ∃ (R : Rng ℕ) (build : Prog ℝ), ∀ s clock, ∃ c c',
    (created R [.main c] clock ⟨some s, build⟩).1 ≠ (created R [.main c'] clock ⟨some s, build⟩).1 := by
  refine ⟨counter, one (.global 0), fun s clock => ⟨0, 1, ?_⟩⟩
  simp [created, createFrom, Process.after, Process.step, one, Prog.run, counter, Sources.get, Sources.set, Rng.start]

/-- **C153 is false of boxes.** The positions that `BoxCreator` draws depend on the time, with every seed. -/
theorem C153_negation_box : ∃ (R : Rng ℕ), ∀ gen w, ∃ time time' : ℕ,
    (boxCreate R time gen (randomPoint [0] [1]) w).1 ≠ (boxCreate R time' gen (randomPoint [0] [1]) w).1 := by
  refine ⟨counter, fun gen w => ⟨0, 1, ?_⟩⟩
  simp [boxCreate, randomPoint, draws, Prog.bind, Prog.run, counter, Sources.get]

/-! ## Several processors -/

/-- The `k`-th number that `drand48` gives. -/
def nth48 {σ : Type} (R : Rng σ) (x : σ) : ℕ → ℝ × σ
  | 0 => R.next 0 x
  | k + 1 => R.next 0 (nth48 R x k).2

theorem nth48_shift {σ : Type} (R : Rng σ) (x : σ) (k : ℕ) : nth48 R (R.next 0 x).2 k = nth48 R x (k + 1) := by
  induction k with
  | zero => rfl
  | succ k ih => simp only [nth48] at ih ⊢; rw [ih]

theorem mem_pairs {n : ℕ} {p : ℕ × ℕ} : p ∈ pairs n ↔ p.1 ≤ p.2 ∧ p.2 < n := by
  obtain ⟨a, b⟩ := p
  simp only [pairs, List.mem_flatMap, List.mem_range, List.mem_cons, List.mem_map, List.mem_range', Prod.mk.injEq]
  constructor
  · rintro ⟨i, hi, ⟨rfl, rfl⟩ | ⟨j, ⟨k, hk, rfl⟩, rfl, rfl⟩⟩
    · exact ⟨le_refl _, hi⟩
    · constructor <;> omega
  · rintro ⟨h1, h2⟩
    refine ⟨a, by omega, ?_⟩
    rcases Nat.lt_or_ge a b with h | h
    · right
      exact ⟨b, ⟨b - (a + 1), by omega, by omega⟩, rfl, rfl⟩
    · left
      exact ⟨rfl, by omega⟩

theorem nodup_pairs (n : ℕ) : (pairs n).Nodup := by
  unfold pairs
  rw [List.nodup_flatMap]
  constructor
  · intro i hi
    rw [List.nodup_cons]
    constructor
    · simp only [List.mem_map, List.mem_range', Prod.mk.injEq]
      rintro ⟨j, ⟨k, hk, rfl⟩, -, h⟩
      omega
    · exact List.Nodup.map (fun a b h => (Prod.mk.inj h).2) (List.nodup_range' ..)
  · apply List.Pairwise.imp_of_mem _ List.nodup_range
    intro a b _ _ hab
    simp only [Function.onFun, List.Disjoint, List.mem_cons, List.mem_map]
    rintro ⟨x, y⟩ h1 h2
    apply hab
    have e1 : x = a := by
      rcases h1 with h | ⟨j, _, h⟩
      · exact (Prod.mk.inj h).1
      · exact (Prod.mk.inj h).1.symm
    have e2 : x = b := by
      rcases h2 with h | ⟨j, _, h⟩
      · exact (Prod.mk.inj h).1
      · exact (Prod.mk.inj h).1.symm
    rw [← e1, e2]

theorem randomLoop_run {σ : Type} (R : Rng σ) (l : List (ℕ × ℕ)) (hl : ∀ p ∈ l, p.1 ≤ p.2) (hn : l.Nodup) (t : ℕ → ℕ → Option Kind) (w : Sources σ) :
    (∀ k (hk : k < l.length), ((randomLoop l t).run R w).1 l[k].1 l[k].2 = some (kind (nth48 R w.r48 k).1) ∧
      ((randomLoop l t).run R w).1 l[k].2 l[k].1 = some (kind (nth48 R w.r48 k).1)) ∧
    (∀ a b, (a, b) ∉ l → (b, a) ∉ l → ((randomLoop l t).run R w).1 a b = t a b) := by
  induction l generalizing t w with
  | nil => exact ⟨fun k hk => absurd hk (by simp), fun a b _ _ => rfl⟩
  | cons p l ih =>
    rw [List.nodup_cons] at hn
    have hrun : (randomLoop (p :: l) t).run R w = (randomLoop l (setPair t p.1 p.2 (kind (R.next 0 w.r48).1))).run R (w.set .r48 (R.next 0 w.r48).2) := rfl
    obtain ⟨i1, i2⟩ := ih (fun q hq => hl q (List.mem_cons_of_mem _ hq)) hn.2 (setPair t p.1 p.2 (kind (R.next 0 w.r48).1)) (w.set .r48 (R.next 0 w.r48).2)
    rw [hrun]
    have hswap : ∀ a b, (a, b) = p ∨ (b, a) = p → (a, b) ∉ l ∧ (b, a) ∉ l := by
      intro a b h
      have hp : (p.2, p.1) ∈ l → p.1 = p.2 := by
        intro h
        have h1 := hl _ (List.mem_cons_of_mem _ h)
        have h2 := hl p List.mem_cons_self
        simp only at h1
        omega
      have hp2 : (p.2, p.1) ∉ l := by
        intro h
        have e := hp h
        apply hn.1
        have : (p.2, p.1) = p := by rw [← e]; exact Prod.ext rfl e
        rwa [this] at h
      rcases h with h | h
      · subst h; exact ⟨hn.1, hp2⟩
      · subst h; exact ⟨hp2, hn.1⟩
    constructor
    · intro k hk
      cases k with
      | zero =>
        simp only [List.getElem_cons_zero]
        obtain ⟨n1, n2⟩ := hswap p.1 p.2 (Or.inl rfl)
        rw [i2 _ _ n1 n2, i2 _ _ n2 n1]
        constructor
        · show (if _ then _ else _) = _
          rw [if_pos (Or.inl ⟨rfl, rfl⟩)]; rfl
        · show (if _ then _ else _) = _
          rw [if_pos (Or.inr ⟨rfl, rfl⟩)]; rfl
      | succ k =>
        simp only [List.getElem_cons_succ]
        have := i1 k (by simpa using hk)
        rw [show (w.set .r48 (R.next 0 w.r48).2).r48 = (R.next 0 w.r48).2 from rfl, nth48_shift] at this
        exact this
    · intro a b ha hb
      rw [List.mem_cons, not_or] at ha hb
      rw [i2 a b ha.2 hb.2]
      show (if _ then _ else _) = _
      rw [if_neg]
      rintro (⟨h1, h2⟩ | ⟨h1, h2⟩)
      · exact ha.1 (Prod.ext h1 h2)
      · exact hb.1 (Prod.ext h2 h1)

/-- **C153, random interactions.** For every number of types the table of random interactions gives each pair of types one of the three
interactions, the same in both orders, and each pair is decided by a number of its own; nothing else is set. -/
theorem C153_random {σ : Type} (R : Rng σ) (n : ℕ) (w : Sources σ) :
    ∃ idx : ℕ → ℕ → ℕ, (∀ a b c d, a ≤ b → b < n → c ≤ d → d < n → idx a b = idx c d → a = c ∧ b = d) ∧
      (∀ a b, a ≤ b → b < n →
        ((randomForces n).run R w).1 a b = some (kind (nth48 R w.r48 (idx a b)).1) ∧
        ((randomForces n).run R w).1 b a = some (kind (nth48 R w.r48 (idx a b)).1)) ∧
      ∀ a b, (n ≤ a ∨ n ≤ b) → ((randomForces n).run R w).1 a b = none := by
  obtain ⟨h1, h2⟩ := randomLoop_run R (pairs n) (fun p hp => (mem_pairs.mp hp).1) (nodup_pairs n) (fun _ _ => none) w
  refine ⟨fun a b => (pairs n).idxOf (a, b), fun a b c d h h' k k' e => ?_, fun a b h h' => ?_, fun a b h => ?_⟩
  · have m1 : (a, b) ∈ pairs n := mem_pairs.mpr ⟨h, h'⟩
    have := (List.idxOf_inj m1).mp e
    exact Prod.mk.inj this
  · have m1 : (a, b) ∈ pairs n := mem_pairs.mpr ⟨h, h'⟩
    have l1 := List.idxOf_lt_length_of_mem m1
    have := h1 _ l1
    rw [List.getElem_idxOf] at this
    exact this
  · exact h2 a b (fun hm => by have := mem_pairs.mp hm; simp only at this; omega) (fun hm => by have := mem_pairs.mp hm; simp only at this; omega)

/-- **C153, processors.** With a seed all processors get the same table of random interactions, whenever they make it. -/
theorem C153_processors {σ : Type} (R : Rng σ) (n s : ℕ) (h h' : List Op) (clock clock' : ℕ) :
    (created R h clock ⟨some s, randomForces n⟩).1 = (created R h' clock' ⟨some s, randomForces n⟩).1 := by
  apply C153_always
  unfold randomForces
  generalize (fun _ _ => none : ℕ → ℕ → Option Kind) = t
  induction pairs n generalizing t with
  | nil => trivial
  | cons p l ih => exact ⟨trivial, fun u => ih _⟩

/-- **C153 is false without a seed**: processors that seed by their own clocks can have different tables, even for one type. -/
theorem C153_negation_processors : ∃ (R : Rng ℕ) (clock clock' : ℕ),
    (created R [] clock ⟨none, randomForces 1⟩).1 0 0 ≠ (created R [] clock' ⟨none, randomForces 1⟩).1 0 0 := by
  refine ⟨counter, 0, 1, ?_⟩
  have e : pairs 1 = [(0, 0)] := by decide
  simp only [created, createFrom, randomForces, e, randomLoop, Prog.run, counter, Sources.get, setPair, Option.getD, kind]
  norm_num
  decide

theorem fill_translate {σ P V : Type} (R : Rng σ) (lower lower' width : List ℝ) (hl : lower.length = width.length) (hl' : lower'.length = width.length)
    (tmpl : ℕ → Prog P) (vel : P → Prog V) (more : List P → Bool) (fuel : ℕ) (done : List P) (w : Sources σ) :
    ((fill lower' width tmpl vel more fuel done).run R w).2 = ((fill lower width tmpl vel more fuel done).run R w).2 ∧
    ((fill lower' width tmpl vel more fuel done).run R w).1 =
      ((fill lower width tmpl vel more fuel done).run R w).1.map fun m => ⟨List.zipWith (· + ·) m.x (List.zipWith (· - ·) lower' lower), m.props, m.v⟩ := by
  induction fuel generalizing done w with
  | zero => exact ⟨rfl, rfl⟩
  | succ fuel ih =>
    unfold fill
    by_cases h : more done
    · rw [if_pos h, if_pos h]
      simp only [run_bind, Prog.run, randomPoint]
      obtain ⟨i1, i2⟩ := ih (((tmpl done.length).run R ((draws .r48 0 width.length).run R w).2).1 :: done)
        ((vel ((tmpl done.length).run R ((draws .r48 0 width.length).run R w).2).1).run R ((tmpl done.length).run R ((draws .r48 0 width.length).run R w).2).2).2
      refine ⟨i1, ?_⟩
      rw [i2]
      simp only [List.map_cons, List.cons.injEq, and_true, Made.mk.injEq]
      have hu : ∀ (k : ℕ) (w : Sources σ), ((draws .r48 0 k).run R w).1.length = k := by
        intro k
        induction k with
        | zero => intro w; rfl
        | succ k ih =>
          intro w
          simp only [draws, Prog.run, run_bind, List.length_cons, ih]
      generalize hU : ((draws .r48 0 width.length).run R w).1 = U
      have hUl : U.length = width.length := by rw [← hU]; exact hu _ _
      clear hU i1 i2 hu ih h
      induction width generalizing lower lower' U with
      | nil => simp_all
      | cons a width ih =>
        cases lower with
        | nil => simp at hl
        | cons b lower =>
          cases lower' with
          | nil => simp at hl'
          | cons b' lower' =>
            cases U with
            | nil => simp at hUl
            | cons u U =>
              simp only [List.zipWith_cons_cons, List.cons.injEq]
              simp only [List.length_cons, Nat.add_right_cancel_iff] at hl hl' hUl
              exact ⟨by linarith, ih lower lower' hl hl' U hUl⟩
    · rw [if_neg h, if_neg h]
      exact ⟨rfl, rfl⟩

/-- **C153, processors fill copies.** With a seed (or the same clock), processors whose parts of the area have the same widths are filled
with copies of the same particles, with the same radii and velocities, moved by the distance of the parts: the start of a parallel run is
a repeated pattern, not a random one. -/
theorem C153_copies {σ P V : Type} (R : Rng σ) (s : ℕ) (h : List Op) (clock clock' : ℕ) (lower lower' width : List ℝ)
    (hl : lower.length = width.length) (hl' : lower'.length = width.length) (tmpl : ℕ → Prog P) (vel : P → Prog V) (more : List P → Bool) (fuel : ℕ) :
    (created R h clock' ⟨some s, fill lower' width tmpl vel more fuel []⟩).1 =
      (created R h clock ⟨some s, fill lower width tmpl vel more fuel []⟩).1.map fun m =>
        ⟨List.zipWith (· + ·) m.x (List.zipWith (· - ·) lower' lower), m.props, m.v⟩ :=
  (fill_translate R lower lower' width hl hl' tmpl vel more fuel [] _).2

/-- Example: a quiet history, and a build that uses all sources but that of `main`. -/
example : (∀ o ∈ [Op.main 5, .construct 7, .setSeed 3, .create 1 none ((one .r48).bind fun _ => .ret ())], o.Quiet) ∧
    ((one .r48).bind fun _ => (one (.global 2)).bind fun _ => one .area).Uses NotMain := by
  constructor
  · intro o ho
    simp only [List.mem_cons, List.not_mem_nil, or_false] at ho
    rcases ho with rfl | rfl | rfl | rfl <;> simp [Op.Quiet, one, Prog.bind, Prog.Uses, NotGlobal]
  · simp [one, Prog.bind, Prog.Uses, NotMain]

end Verif.Seeds
