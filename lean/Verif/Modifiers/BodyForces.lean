import Verif.Modifiers.Motion
import Verif.Integrators.Verlet

/-!
# Body forces and damping (C83), wind tunnel (C84)

Models `modifiers/constantacceleration.cpp`, `modifiers/linearvelocitydamping.cpp`, `modifiers/quadraticvelocitydamping.cpp`,
`modifiers/windtunnel.cpp` and `modifiers/stream-tunnel.cpp:61-94`. Exact real arithmetic.
-/

namespace Verif.BodyForces
open Verif.PairForces Verif.Groups Verif.Removers Verif.Motion

variable {d : ℕ}

/-- One turn of the loop of `ConstantAcceleration::post_forces`, `modifiers/constantacceleration.cpp:24-28`. -/
noncomputable def caOne (a : Fin d → ℝ) (im : ℕ → ℝ) (f : ℕ → Fin d → ℝ) (n : ℕ) : ℕ → Fin d → ℝ :=
  addAt f n (if 0 < im n then 1 / im n else 0) a

/-- `ConstantAcceleration::post_forces`, `modifiers/constantacceleration.cpp:17-29`: `none` is the exception of line 18. `size` is
`size_owned()`. -/
noncomputable def caPost (a : Fin d → ℝ) (size : ℕ) (W : World d) : Option (World d) :=
  if d > 4 then none else some (setF W ((List.range size).foldl (caOne a W.im) W.f))

/-- A step of velocity Verlet with the modifier, in the order of `gflow.cpp:142-260`, the other forces being `F`. -/
noncomputable def caStep (a : Fin d → ℝ) (size : ℕ) (W : World d) (dt : ℝ) (F : ℕ → Fin d → ℝ) : Option (World d) :=
  (caPost a size (first W dt F)).map fun W => second W dt

/-- A run of steps without other forces. -/
noncomputable def caRun (a : Fin d → ℝ) (size : ℕ) (W : World d) (dts : List ℝ) : Option (World d) :=
  dts.foldlM (fun W dt => caStep a size W dt fun _ _ => 0) W

/-! ## C83: constant acceleration -/

theorem ca_loop (a : Fin d → ℝ) (im : ℕ → ℝ) (f : ℕ → Fin d → ℝ) (size i : ℕ) (k : Fin d) :
    (List.range size).foldl (caOne a im) f i k = f i k + if i < size then (if 0 < im i then 1 / im i else 0) * a k else 0 := by
  induction size with
  | zero => simp
  | succ n ih =>
    rw [List.range_succ, List.foldl_append]
    simp only [List.foldl_cons, List.foldl_nil]
    by_cases hi : i = n
    · subst hi
      rw [caOne, addAt, Function.update_self, ih, if_neg (lt_irrefl i), if_pos (Nat.lt_succ_self i)]; ring
    · rw [caOne, addAt, Function.update_of_ne hi, ih]
      have : i < n + 1 ↔ i < n := by omega
      simp only [this]

/-- **C83, forces.** In up to four dimensions each owned particle of finite mass gets its mass times the acceleration added to its force; immovable
particles and all others keep theirs; nothing else changes. In more dimensions an exception is thrown. -/
theorem C83_acceleration (a : Fin d → ℝ) (size : ℕ) (W : World d) :
    (d ≤ 4 → ∃ f, caPost a size W = some (setF W f) ∧
      (∀ i < size, 0 < W.im i → ∀ k, W.im i * f i k = W.im i * W.f i k + a k) ∧
      ∀ i, (¬ 0 < W.im i ∨ size ≤ i) → f i = W.f i) ∧ (4 < d → caPost a size W = none) := by
  refine ⟨fun hd => ⟨_, by unfold caPost; rw [if_neg (by omega)], fun i hi him k => ?_, fun i hi => ?_⟩, fun hd => ?_⟩
  · rw [ca_loop, if_pos hi, if_pos him]; field_simp
  · funext k
    rw [ca_loop]
    rcases hi with hi | hi
    · rw [if_neg hi]; simp
    · rw [if_neg (by omega)]; simp
  · unfold caPost; rw [if_pos hd]

/-- **C83, free fall.** Without other forces, an owned particle of finite mass that starts with the force of the acceleration follows the
exact parabola, for any number of steps of any size; its velocity grows linearly; an immovable particle goes on with its
velocity. -/
theorem C83_free_fall (a : Fin d → ℝ) (hd : d ≤ 4) (size i : ℕ) (hi : i < size) (W : World d) (him : 0 ≤ W.im i)
    (hf : ∀ k, W.im i * W.f i k = if 0 < W.im i then a k else 0) (dts : List ℝ) :
    ∃ W', caRun a size W dts = some W' ∧
      (0 < W.im i → ∀ k, W'.v i k = W.v i k + a k * dts.sum ∧
        W'.x i k = W.x i k + W.v i k * dts.sum + 1/2 * a k * dts.sum ^ 2) ∧
      (W.im i = 0 → ∀ k, W'.v i k = W.v i k ∧ W'.x i k = W.x i k + W.v i k * dts.sum) := by
  set A : Fin d → ℝ := fun k => if 0 < W.im i then a k else 0 with hA
  have key : ∀ (dts : List ℝ) (U : World d), U.im = W.im → (∀ k, U.im i * U.f i k = A k) →
      ∃ W', caRun a size U dts = some W' ∧ ∀ k, W'.v i k = U.v i k + A k * dts.sum ∧
        W'.x i k = U.x i k + U.v i k * dts.sum + 1/2 * A k * dts.sum ^ 2 := by
    intro dts
    induction dts with
    | nil => intro U _ _; exact ⟨U, rfl, fun k => by simp⟩
    | cons h dts ih =>
      intro U h1 h2
      obtain ⟨f, e, q1, q2⟩ := (C83_acceleration a size (first U h fun _ _ => 0)).1 hd
      have hff : ∀ k, W.im i * f i k = A k := by
        intro k
        by_cases hp : 0 < W.im i
        · have := q1 i hi (by simp only [first, h1]; exact hp) k
          simp only [first, h1] at this
          rw [this, hA]; simp [hp]
        · have h0 : W.im i = 0 := le_antisymm (not_lt.mp hp) him
          rw [h0, hA]; simp [h0]
      obtain ⟨W', e', r⟩ := ih (second (setF (first U h fun _ _ => 0) f) h) h1 (by
        intro k; simp only [second, setV, setF, first, h1]; exact hff k)
      refine ⟨W', ?_, fun k => ?_⟩
      · unfold caRun at e' ⊢
        rw [List.foldlM_cons]
        unfold caStep
        rw [e]
        exact e'
      · have hv : (second (setF (first U h fun _ _ => 0) f) h).v i k = U.v i k + A k * h := by
          simp only [second, setV, setF, first]
          rw [show 1/2 * h * U.im i * U.f i k = 1/2 * h * (U.im i * U.f i k) by ring, h2 k,
            show 1/2 * h * U.im i * f i k = 1/2 * h * (W.im i * f i k) by rw [h1]; ring, hff k]
          ring
        have hx : (second (setF (first U h fun _ _ => 0) f) h).x i k = U.x i k + h * (U.v i k + 1/2 * h * A k) := by
          simp only [second, setV, setF, first]
          rw [show 1/2 * h * U.im i * U.f i k = 1/2 * h * (U.im i * U.f i k) by ring, h2 k]
        rw [(r k).1, (r k).2, hv, hx]
        simp only [List.sum_cons]
        constructor <;> ring
  obtain ⟨W', e, r⟩ := key dts W rfl hf
  refine ⟨W', e, fun hp k => ?_, fun h0 k => ?_⟩
  · have : A k = a k := by rw [hA]; simp [hp]
    rw [← this]; exact r k
  · have : A k = 0 := by rw [hA]; simp [h0]
    obtain ⟨r1, r2⟩ := r k
    rw [r1, r2, this]; constructor <;> ring

/-- The hypotheses are met: mass one, gravity 10 in the plane, the particle starts with that force. -/
example : ∃ W : World 2, (0:ℝ) ≤ W.im 0 ∧ ∀ k, W.im 0 * W.f 0 k = if 0 < W.im 0 then (![0, -10] : Fin 2 → ℝ) k else 0 :=
  ⟨⟨some, fun _ _ => 0, fun _ _ => 0, fun _ => ![0, -10], fun _ => 1, fun _ => 0, fun _ => 10, fun _ => false⟩, by norm_num, by
    intro k; simp⟩

/-! ## C83: damping -/

open Verif.Verlet in
/-- `LinearVelocityDamping::pre_forces`, `modifiers/linearvelocitydamping.cpp:12-36`. -/
def linearDamping (m : Mode) (total : ℕ) (g : ℝ) (v f : Arr) : Arr :=
  match m with
  | none => plain total (fun i fi => fi - g * v i) 0 f
  | some w => vectorised w total true (fun i f => store w f i fun k => load f i k - g * load v i k) (fun i fi => fi - g * v i) f

open Verif.Verlet in
/-- `QuadraticVelocityDamping::pre_forces`, `modifiers/quadraticvelocitydamping.cpp:12-36`; `c` is `inv_v_char`. -/
def quadraticDamping (m : Mode) (total : ℕ) (g c : ℝ) (v f : Arr) : Arr :=
  match m with
  | none => plain total (fun i fi => fi - g * (v i * c) ^ 2) 0 f
  | some w => vectorised w total true (fun i f => store w f i fun k => load f i k - g * c ^ 2 * load v i k * load v i k)
      (fun i fi => fi - g * (v i * c) ^ 2) f

open Verif.Verlet in
/-- A step of velocity Verlet with linear damping, in the order of `gflow.cpp:142-260`: the modifier changes the forces of the previous step, half kick, move,
the forces are cleared and computed anew (`F`), half kick. -/
noncomputable def dampedStep (m : Mode) (d n : ℕ) (g : ℝ) (im F : Arr) (dt : ℝ) (s : PS) : PS :=
  let f0 := linearDamping m (n * d) g s.v s.f
  let v1 := updateVelocities m d (n * d) dt im f0 s.v
  ⟨updatePositions m (n * d) dt v1 s.x, updateVelocities m d (n * d) dt im F v1, F⟩

open Verif.Verlet in
/-- **C83, drag.** Serially and vectorised with any width, the linear modifier subtracts `γ v` from the force of every owned particle, and
touches nothing else. -/
theorem C83_linear_drag (m : Mode) (hm : m.OK) (total : ℕ) (g : ℝ) (v f : Arr) (j : ℕ) :
    linearDamping m total g v f j = if j < total then f j - g * v j else f j := by
  cases m with
  | none => simp only [linearDamping]; rw [plain_spec]; simp
  | some w =>
    simp only [linearDamping]
    refine vectorised_spec w total hm true _ (fun j fj => fj - g * v j) ?_ f j
    intro i a j
    unfold store load
    by_cases h : i ≤ j ∧ j < i + w
    · rw [if_pos h, if_pos h]; beta_reduce; rw [show i + (j - i) = j by omega]
    · rw [if_neg h, if_neg h]

open Verif.Verlet in
theorem C83_quadratic (m : Mode) (hm : m.OK) (total : ℕ) (g c : ℝ) (v f : Arr) (j : ℕ) :
    quadraticDamping m total g c v f j = if j < total then f j - g * c ^ 2 * v j ^ 2 else f j := by
  cases m with
  | none =>
    simp only [quadraticDamping]; rw [plain_spec]
    by_cases h : j < total <;> simp [h]; ring
  | some w =>
    simp only [quadraticDamping]
    have := vectorised_spec w total hm true (fun i f => store w f i fun k => load f i k - g * c ^ 2 * load v i k * load v i k)
      (fun j fj => fj - g * (v j * c) ^ 2) ?_ f j
    · rw [this]; by_cases h : j < total <;> simp [h]; ring
    · intro i a j
      unfold store load
      by_cases h : i ≤ j ∧ j < i + w
      · rw [if_pos h, if_pos h]; beta_reduce; rw [show i + (j - i) = j by omega]; ring
      · rw [if_neg h, if_neg h]

/-- **C83, quadratic drag (partial).** For a positive constant, the force that the quadratic modifier adds opposes every positive component of a velocity
and its size is `γ (v / v_c)²`.
Missing: negative components, see `C83_negation_quadratic`. -/
theorem C83_quadratic_drag_partial (m : Verlet.Mode) (hm : m.OK) (total : ℕ) (g c : ℝ) (hg : 0 < g) (hc : 0 < c) (v f : Verlet.Arr)
    (j : ℕ) (hj : j < total) (hv : 0 < v j) :
    (quadraticDamping m total g c v f j - f j) * v j < 0 ∧ |quadraticDamping m total g c v f j - f j| = g * (v j * c) ^ 2 := by
  rw [C83_quadratic m hm, if_pos hj]
  have : f j - g * c ^ 2 * v j ^ 2 - f j = -(g * (v j * c) ^ 2) := by ring
  rw [this, abs_neg, abs_of_pos (by positivity)]
  refine ⟨?_, rfl⟩
  have : 0 < g * (v j * c) ^ 2 * v j := by positivity
  linarith

/-- **C83 is false of the quadratic modifier for particles that move in a negative direction**: it pushes them on. -/
theorem C83_negation_quadratic (m : Verlet.Mode) (hm : m.OK) (total : ℕ) (g c : ℝ) (hg : 0 < g) (hc : 0 < c) (v f : Verlet.Arr)
    (j : ℕ) (hj : j < total) (hv : v j < 0) : 0 < (quadraticDamping m total g c v f j - f j) * v j := by
  rw [C83_quadratic m hm, if_pos hj]
  have : f j - g * c ^ 2 * v j ^ 2 - f j = -(g * (v j * c) ^ 2) := by ring
  rw [this]
  have h1 : 0 < g * (v j * c) ^ 2 := by
    have : v j * c ≠ 0 := mul_ne_zero hv.ne hc.ne'
    positivity
  nlinarith

open Verif.Verlet in
/-- **C83, damping in a step (partial).** In a step the velocity of an owned particle changes by the other forces as without the
modifier, and by the drag of half of the time step.
Missing: the other half. The forces are cleared after the first half kick and the modifier does not act again, see
`C83_negation_half_strength`. -/
theorem C83_damped_step_partial (m : Mode) (hm : m.OK) (d n : ℕ) (g : ℝ) (im F : Arr) (dt : ℝ) (s : PS) (j : ℕ) (hj : j < n * d) :
    (dampedStep m d n g im F dt s).v j =
      s.v j + 1/2 * dt * im (j / d) * (s.f j + F j) - 1/2 * dt * (im (j / d) * (g * s.v j)) := by
  unfold dampedStep
  simp only
  rw [C41_velocities m hm, if_pos hj, C41_velocities m hm, if_pos hj, C83_linear_drag m hm, if_pos hj]
  ring

open Verif.Verlet in
/-- **C83 is false of damping.** A free particle loses only half of the velocity that a drag `-γ v` takes from it in the time
step. -/
theorem C83_negation_half_strength (m : Mode) (hm : m.OK) (d n : ℕ) (g : ℝ) (im : Arr) (dt : ℝ) (s : PS) (j : ℕ) (hj : j < n * d)
    (hf : s.f j = 0) :
    s.v j - (dampedStep m d n g im (fun _ => 0) dt s).v j = 1/2 * (dt * (im (j / d) * (g * s.v j))) := by
  rw [C83_damped_step_partial m hm d n g im _ dt s j hj, hf]; ring

/-- The hypotheses are met: two particles in the plane, vectors of four numbers. -/
example : Verlet.Mode.OK (some 4) ∧ 3 < 2 * 2 ∧ (0:ℝ) < 1/100 := ⟨by show 0 < 4; norm_num, by norm_num, by norm_num⟩

/-! ## C84: tunnels -/

/-- The constructor of `WindTunnel`, `modifiers/windtunnel.cpp:7-13`: the left and the right bound of the free region. -/
noncomputable def windBounds (lo hi : ℝ) : ℝ × ℝ :=
  let hw := min (1/10 * (hi - lo)) 4
  (lo + hw, hi - hw)

/-- One turn of the loop of `WindTunnel::post_forces`, `modifiers/windtunnel.cpp:32-41`, on velocity and force; also of
`StreamTunnel::post_forces`, `modifiers/stream-tunnel.cpp:85-91`, with `c` the factor of the force. -/
noncomputable def drive (V c : ℝ) (W : World (d+1)) (i : ℕ) : World (d+1) :=
  setF (setV W (Function.update W.v i fun k => (if k = 0 then V else 0) + W.f i k * c)) (Function.update W.f i fun _ => 0)

/-- `WindTunnel::post_forces`, `modifiers/windtunnel.cpp:23-42`: `sim` tells whether the run mode is SIM, `none` is the exception of line
28. -/
noncomputable def windPost (b : ℝ × ℝ) (V : ℝ) (sim : Bool) (size : ℕ) (W : World (d+1)) : Option (World (d+1)) :=
  if !sim then some W
  else if d + 1 > 4 then none
  else some ((List.range size).foldl (fun W i =>
    if W.x i 0 < b.1 ∨ b.2 < W.x i 0 then drive V (1/4 * (1/100)) W i else W) W)

/-- What `StreamTunnel::post_forces` works on: the world and the particles marked for removal. -/
structure Stream (d : ℕ) where
  world : World d
  marked : ℕ → Bool

/-- The members of `StreamTunnel` set by its constructor, `modifiers/stream-tunnel.cpp:7-16`: entry and exit threshold. -/
noncomputable def streamBounds (lo hi : ℝ) : ℝ × ℝ :=
  (min 2 (1/10 * (hi - lo)) + lo, hi - min 2 (1/10 * (hi - lo)))

/-- One turn of the loop of `StreamTunnel::post_forces`, `modifiers/stream-tunnel.cpp:79-93`; `dead` tells `type < 0`. -/
noncomputable def streamOne (b : ℝ × ℝ) (V hi : ℝ) (dead : ℕ → Bool) (s : Stream (d+1)) (i : ℕ) : Stream (d+1) :=
  if dead i then s
  else if s.world.x i 0 > hi then ⟨s.world, Function.update s.marked i true⟩
  else if s.world.x i 0 < b.1 ∨ b.2 < s.world.x i 0 then ⟨drive V (5/100 * (1/100) * s.world.im i) s.world i, s.marked⟩
  else s

/-- `StreamTunnel::post_forces`, `modifiers/stream-tunnel.cpp:61-94`, with a topology; `plo`, `phi` are the bounds of the processor along the first
axis. -/
noncomputable def streamPost (b : ℝ × ℝ) (V hi plo phi : ℝ) (sim : Bool) (dead : ℕ → Bool) (size : ℕ) (s : Stream (d+1)) :
    Stream (d+1) :=
  if !sim then s
  else if b.1 < plo ∧ phi < b.2 then s
  else (List.range size).foldl (streamOne b V hi dead) s

theorem drive_spec (V c : ℝ) (W : World (d+1)) (i : ℕ) :
    (drive V c W i).x = W.x ∧ (drive V c W i).im = W.im ∧
      (∀ j, (drive V c W i).v j = if j = i then fun k => (if k = 0 then V else 0) + W.f i k * c else W.v j) ∧
      ∀ j, (drive V c W i).f j = if j = i then fun _ => 0 else W.f j := by
  refine ⟨rfl, rfl, fun j => ?_, fun j => ?_⟩
  · by_cases h : j = i
    · subst h; simp [drive, setF, setV]
    · simp [drive, setF, setV, h]
  · by_cases h : j = i
    · subst h; simp [drive, setF, setV]
    · simp [drive, setF, setV, h]

/-- Any of the loops: particles are treated one by one, each once. -/
theorem drive_loop (V : ℝ) (c : ℕ → ℝ) (P : ℕ → Prop) [DecidablePred P] (W : World (d+1)) (size : ℕ) :
    let R := (List.range size).foldl (fun W i => if P i then drive V (c i) W i else W) W
    R.x = W.x ∧ R.im = W.im ∧ R.lid = W.lid ∧ ∀ i k,
      R.v i k = (if i < size ∧ P i then (if k = 0 then V else 0) + W.f i k * c i else W.v i k) ∧
      R.f i k = if i < size ∧ P i then 0 else W.f i k := by
  induction size with
  | zero => refine ⟨rfl, rfl, rfl, fun i k => ?_⟩; simp
  | succ n ih =>
    intro R
    obtain ⟨h1, h2, h5, h3⟩ := ih
    have hR : R = (fun W i => if P i then drive V (c i) W i else W)
        ((List.range n).foldl (fun W i => if P i then drive V (c i) W i else W) W) n := by
      simp only [R, List.range_succ, List.foldl_append, List.foldl_cons, List.foldl_nil]
    set U := (List.range n).foldl (fun W i => if P i then drive V (c i) W i else W) W with hU
    rw [hR]
    by_cases hp : P n
    · simp only [hp, if_true]
      obtain ⟨e1, e2, e3, e4⟩ := drive_spec V (c n) U n
      refine ⟨e1.trans h1, e2.trans h2, h5, fun i k => ?_⟩
      rw [e3 i, e4 i]
      by_cases hi : i = n
      · subst hi
        simp only [if_true, Nat.lt_succ_self, hp, and_self]
        rw [(h3 i k).2]; simp
      · simp only [hi, if_false]
        have : i < n + 1 ↔ i < n := by omega
        simp only [this]; exact h3 i k
    · simp only [hp, if_false]
      refine ⟨h1, h2, h5, fun i k => ?_⟩
      have : (i < n + 1 ∧ P i) ↔ (i < n ∧ P i) := by
        constructor
        · rintro ⟨a, b⟩; refine ⟨?_, b⟩
          rcases Nat.lt_succ_iff_lt_or_eq.mp a with h | h
          · exact h
          · subst h; exact absurd b hp
        · rintro ⟨a, b⟩; exact ⟨by omega, b⟩
      simp only [this]; exact h3 i k

/-- **C84, wind tunnel.** In a simulation run in up to four dimensions, every owned particle within the half width of the left or the right end of the
box gets the velocity of the wind plus a quarter of a hundredth of its force, and no force; every other particle keeps
velocity and force; no particle is moved. The driven regions do not overlap: each takes at most a tenth of the box. In other run modes nothing is done. -/
theorem C84_wind (lo hi : ℝ) (hb : lo ≤ hi) (V : ℝ) (size : ℕ) (W : World (d+1)) :
    (windPost (windBounds lo hi) V false size W = some W) ∧
    (d + 1 ≤ 4 → ∃ W', windPost (windBounds lo hi) V true size W = some W' ∧ W'.x = W.x ∧ W'.im = W.im ∧
      ∀ i k, (i < size → W.x i 0 < (windBounds lo hi).1 ∨ (windBounds lo hi).2 < W.x i 0 →
          W'.v i k = (if k = 0 then V else 0) + 1/400 * W.f i k ∧ W'.f i k = 0) ∧
        ((windBounds lo hi).1 ≤ W.x i 0 → W.x i 0 ≤ (windBounds lo hi).2 → W'.v i k = W.v i k ∧ W'.f i k = W.f i k)) ∧
    lo ≤ (windBounds lo hi).1 ∧ (windBounds lo hi).1 ≤ lo + 1/10 * (hi - lo) ∧
      hi - 1/10 * (hi - lo) ≤ (windBounds lo hi).2 ∧ (windBounds lo hi).2 ≤ hi ∧ (windBounds lo hi).1 ≤ lo + 4 := by
  refine ⟨by simp [windPost], fun hd => ?_, ?_⟩
  · set b := windBounds lo hi with hbd
    have hloop : ∀ n, (List.range n).foldl (fun U i => if U.x i 0 < b.1 ∨ b.2 < U.x i 0 then drive V (1/4 * (1/100)) U i else U) W =
        (List.range n).foldl (fun U i => if W.x i 0 < b.1 ∨ b.2 < W.x i 0 then drive V (1/4 * (1/100)) U i else U) W := by
      intro n
      induction n with
      | zero => rfl
      | succ n ih =>
        rw [List.range_succ, List.foldl_append, List.foldl_append, ih]
        simp only [List.foldl_cons, List.foldl_nil]
        have hx := (drive_loop V (fun _ => 1/4 * (1/100)) (fun i => W.x i 0 < b.1 ∨ b.2 < W.x i 0) W n).1
        rw [hx]
    obtain ⟨e1, e2, _, e3⟩ := drive_loop V (fun _ => 1/4 * (1/100)) (fun i => W.x i 0 < b.1 ∨ b.2 < W.x i 0) W size
    refine ⟨_, by simp only [windPost, Bool.not_true, Bool.false_eq_true, if_false]; rw [if_neg (by omega), hloop], e1, e2, fun i k => ⟨fun hi hp => ?_, fun h1 h2 => ?_⟩⟩
    · obtain ⟨q1, q2⟩ := e3 i k
      rw [if_pos ⟨hi, hp⟩] at q1 q2
      exact ⟨by rw [q1]; ring, q2⟩
    · have hn : ¬ (i < size ∧ (W.x i 0 < b.1 ∨ b.2 < W.x i 0)) := by
        rintro ⟨_, h | h⟩ <;> linarith
      obtain ⟨q1, q2⟩ := e3 i k
      rw [if_neg hn] at q1 q2
      exact ⟨q1, q2⟩
  · have hm1 := min_le_left (1/10 * (hi - lo)) 4
    have hm2 := min_le_right (1/10 * (hi - lo)) 4
    have hm3 : 0 ≤ min (1/10 * (hi - lo)) 4 := le_min (by linarith) (by norm_num)
    unfold windBounds
    refine ⟨?_, ?_, ?_, ?_, ?_⟩ <;> simp only <;> linarith

/-- **C84, uniform wind.** A driven particle on which no force acts moves through its region with exactly the velocity of the wind: after the
rest of the step it has this velocity, and the next step displaces it by the velocity times the time step. -/
theorem C84_wind_speed (lo hi V : ℝ) (hb : lo ≤ hi) (size : ℕ) (hd : d + 1 ≤ 4) (W : World (d+1)) (i : ℕ) (hi' : i < size)
    (hx : W.x i 0 < (windBounds lo hi).1 ∨ (windBounds lo hi).2 < W.x i 0) (hf : ∀ k, W.f i k = 0) (dt dt' : ℝ)
    (F : ℕ → Fin (d+1) → ℝ) :
    ∃ W', windPost (windBounds lo hi) V true size W = some W' ∧ ∀ k, (second W' dt).v i k = (if k = 0 then V else 0) ∧
      (first (second W' dt) dt' F).x i k = W.x i k + dt' * if k = 0 then V else 0 := by
  obtain ⟨W', e, h1, h2, h3⟩ := (C84_wind lo hi hb V size W).2.1 hd
  refine ⟨W', e, fun k => ?_⟩
  obtain ⟨q1, q2⟩ := (h3 i k).1 hi' hx
  have hv : (second W' dt).v i k = if k = 0 then V else 0 := by
    simp only [second, setV]; rw [q1, q2, hf k]; ring
  refine ⟨hv, ?_⟩
  have hv' : W'.v i k + 1/2 * dt * W'.im i * W'.f i k = if k = 0 then V else 0 := hv
  simp only [first, second, setV, h1, q2]
  rw [show W'.v i k + 1/2 * dt * W'.im i * 0 = W'.v i k by ring, show W'.v i k = if k = 0 then V else 0 by
    rw [← hv', q2]; ring]
  ring

/-- **C84 is false of immovable particles.** A particle of infinite mass at the end of the box is set in motion, and the next step
moves it. -/
theorem C84_negation_immovable : ∃ W W' : World 1, W.im 0 = 0 ∧ W.v 0 0 = 0 ∧
    windPost (windBounds 0 100) 2 true 1 W = some W' ∧ (first (second W' 1) 1 fun _ _ => 0).x 0 0 = W.x 0 0 + 2 := by
  set W : World 1 := ⟨some, fun _ _ => 1, fun _ _ => 0, fun _ _ => 0, fun _ => 0, fun _ => 0, fun _ => 100, fun _ => false⟩
  obtain ⟨W', e, h⟩ := C84_wind_speed (d := 0) 0 100 2 (by norm_num) 1 (by norm_num) W 0 (by norm_num)
    (Or.inl (by simp [windBounds, W]; norm_num)) (fun _ => rfl) 1 1 fun _ _ => 0
  refine ⟨W, W', rfl, rfl, e, ?_⟩
  rw [(h 0).2]; norm_num

/-- **C84, stream tunnel (partial).** In a simulation run, on a processor that reaches into the entry or the exit region: exactly the live owned
particles beyond the right end are newly marked for removal; the other live owned particles left of the entry threshold or right of the
exit threshold get the stream velocity plus the small multiple of their acceleration, and no force; all other velocities and forces, and all positions,
stay. On other processors and in other run modes nothing is done.
Missing: immovable particles in the regions are driven as well (the theorem says so; compare `C84_negation_immovable`). -/
theorem C84_stream_partial (lo hi V plo phi : ℝ) (dead : ℕ → Bool) (size : ℕ) (s : Stream (d+1))
    (hb : ¬ ((streamBounds lo hi).1 < plo ∧ phi < (streamBounds lo hi).2)) :
    let b := streamBounds lo hi
    let R := streamPost b V hi plo phi true dead size s
    R.world.x = s.world.x ∧ R.world.im = s.world.im ∧
    (∀ i, R.marked i = true ↔ s.marked i = true ∨ (i < size ∧ dead i = false ∧ hi < s.world.x i 0)) ∧
    ∀ i k,
      (i < size → dead i = false → s.world.x i 0 ≤ hi → (s.world.x i 0 < b.1 ∨ b.2 < s.world.x i 0) →
        R.world.v i k = (if k = 0 then V else 0) + 5/10000 * s.world.im i * s.world.f i k ∧ R.world.f i k = 0) ∧
      (¬ (i < size ∧ dead i = false ∧ s.world.x i 0 ≤ hi ∧ (s.world.x i 0 < b.1 ∨ b.2 < s.world.x i 0)) →
        R.world.v i k = s.world.v i k ∧ R.world.f i k = s.world.f i k) := by
  intro b R
  have hR : R = (List.range size).foldl (streamOne b V hi dead) s := by
    simp only [R, streamPost, Bool.not_true, Bool.false_eq_true, if_false]
    rw [if_neg hb]
  have key : ∀ n, (fun R : Stream (d+1) => R.world.x = s.world.x ∧ R.world.im = s.world.im ∧
      (∀ i, R.marked i = true ↔ s.marked i = true ∨ (i < n ∧ dead i = false ∧ hi < s.world.x i 0)) ∧
      ∀ i k, (R.world.v i k = if i < n ∧ dead i = false ∧ s.world.x i 0 ≤ hi ∧ (s.world.x i 0 < b.1 ∨ b.2 < s.world.x i 0)
          then (if k = 0 then V else 0) + 5/10000 * s.world.im i * s.world.f i k else s.world.v i k) ∧
        (R.world.f i k = if i < n ∧ dead i = false ∧ s.world.x i 0 ≤ hi ∧ (s.world.x i 0 < b.1 ∨ b.2 < s.world.x i 0)
          then 0 else s.world.f i k)) ((List.range n).foldl (streamOne b V hi dead) s) := by
    intro n
    induction n with
    | zero => refine ⟨rfl, rfl, fun i => by simp, fun i k => by simp⟩
    | succ n ih =>
      obtain ⟨h1, h2, h3, h4⟩ := ih
      rw [List.range_succ, List.foldl_append]
      simp only [List.foldl_cons, List.foldl_nil]
      set U := (List.range n).foldl (streamOne b V hi dead) s with hU
      have hlt : ∀ i, i ≠ n → (i < n + 1 ↔ i < n) := fun i hin => by omega
      unfold streamOne
      by_cases hdn : dead n = true
      · rw [if_pos hdn]
        refine ⟨h1, h2, fun i => ?_, fun i k => ?_⟩
        · rw [h3 i]
          by_cases hin : i = n
          · subst hin; simp [hdn]
          · rw [hlt i hin]
        · by_cases hin : i = n
          · subst hin; have := h4 i k; simpa [hdn] using this
          · simp only [hlt i hin]; exact h4 i k
      · have hdf : dead n = false := by simpa using hdn
        rw [if_neg hdn, h1]
        by_cases hx : s.world.x n 0 > hi
        · rw [if_pos hx]
          refine ⟨h1, h2, fun i => ?_, fun i k => ?_⟩
          · by_cases hin : i = n
            · subst hin; simp [hdf, hx]
            · simp only [Function.update_of_ne hin]; rw [h3 i, hlt i hin]
          · by_cases hin : i = n
            · subst hin; have := h4 i k; simpa [not_le.mpr hx] using this
            · simp only [hlt i hin]; exact h4 i k
        · rw [if_neg hx]
          by_cases hr : s.world.x n 0 < b.1 ∨ b.2 < s.world.x n 0
          · rw [if_pos hr]
            obtain ⟨e1, e2, e3, e4⟩ := drive_spec V (5/100 * (1/100) * U.world.im n) U.world n
            refine ⟨e1.trans h1, e2.trans h2, fun i => ?_, fun i k => ?_⟩
            · simp only
              rw [h3 i]
              by_cases hin : i = n
              · subst hin; simp [hx]
              · rw [hlt i hin]
            · simp only
              rw [e3 i, e4 i]
              by_cases hin : i = n
              · subst hin
                simp only [if_true]
                have hc : i < i + 1 ∧ dead i = false ∧ s.world.x i 0 ≤ hi ∧ (s.world.x i 0 < b.1 ∨ b.2 < s.world.x i 0) :=
                  ⟨Nat.lt_succ_self i, hdf, not_lt.mp hx, hr⟩
                have hc' : ¬ (i < i ∧ dead i = false ∧ s.world.x i 0 ≤ hi ∧ (s.world.x i 0 < b.1 ∨ b.2 < s.world.x i 0)) := by simp
                have h6 := (h4 i k).2
                rw [if_neg hc'] at h6
                refine ⟨?_, (if_pos hc).symm⟩
                refine Eq.trans ?_ (if_pos hc).symm
                rw [h6, h2]; ring
              · simp only [hin, if_false]; simp only [hlt i hin]; exact h4 i k
          · rw [if_neg hr]
            refine ⟨h1, h2, fun i => ?_, fun i k => ?_⟩
            · rw [h3 i]
              by_cases hin : i = n
              · subst hin; simp [hx]
              · rw [hlt i hin]
            · by_cases hin : i = n
              · subst hin; have := h4 i k; simpa [hr] using this
              · simp only [hlt i hin]; exact h4 i k
  obtain ⟨h1, h2, h3, h4⟩ := key size
  rw [← hR] at h1 h2 h3 h4
  refine ⟨h1, h2, h3, fun i k => ⟨fun a1 a2 a3 a4 => ?_, fun hn => ?_⟩⟩
  · obtain ⟨q1, q2⟩ := h4 i k
    rw [if_pos ⟨a1, a2, a3, a4⟩] at q1 q2
    exact ⟨q1, q2⟩
  · obtain ⟨q1, q2⟩ := h4 i k
    rw [if_neg hn] at q1 q2
    exact ⟨q1, q2⟩

/-- Elsewhere the stream tunnel does nothing. -/
theorem C84_stream_elsewhere (b : ℝ × ℝ) (V hi plo phi : ℝ) (sim : Bool) (dead : ℕ → Bool) (size : ℕ) (s : Stream (d+1))
    (h : sim = false ∨ (b.1 < plo ∧ phi < b.2)) : streamPost b V hi plo phi sim dead size s = s := by
  unfold streamPost
  cases sim with
  | false => simp
  | true => simp only [Bool.not_true, Bool.false_eq_true, if_false]; rw [if_pos (h.resolve_left (by decide))]

/-- The hypotheses are met: a box from 0 to 100 on one processor; the particle at 1 is in the entry region. -/
example : ¬ ((streamBounds 0 100).1 < 0 ∧ 100 < (streamBounds 0 100).2) ∧ (1:ℝ) < (streamBounds 0 100).1 := by
  constructor
  · unfold streamBounds; rintro ⟨h, _⟩
    have : (0:ℝ) ≤ min 2 (1/10 * (100 - 0)) := le_min (by norm_num) (by norm_num)
    simp only at h; linarith
  · unfold streamBounds; rw [min_eq_left (by norm_num)]; norm_num

end Verif.BodyForces
