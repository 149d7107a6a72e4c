# Formal model of nrupprecht/GFlow in Lean 4

Sources modelled: `/repo/GFlowSim/src`. All paths below are relative to that directory.

## 1. Trusted base

* Lean 4.33.0's kernel. Every property theorem depends on at most the three standard axioms
  `propext`, `Classical.choice`, `Quot.sound`; no axioms are added, and no compiled-code tactics are used.
* Mathlib (only as a library of kernel-checked lemmas, imported one module at a time).
* My reading of the C++ code. The code is not run here; each definition of the model cites the file
  and lines it models, and says where it simplifies.

### Idealisations that hold everywhere

| aspect | code | model |
|---|---|---|
| reals | `float` (`RealType`) | exact numbers: `ℚ`, an arbitrary ordered field `K`, or `ℝ` when `sqrt` occurs. Rounding, NaN, infinities are not modelled. |
| integers | 32-bit `int` | `ℕ`/`ℤ` without overflow, except `byte_cast` (buffer packing), which is modelled on 32-bit patterns |
| memory | raw arrays, pointers | lists / total functions with an explicit bound; an access outside the array is a distinct outcome (`none`, `Err.oob`) |
| exceptions | C++ `throw` | `Except`/`Option` results |
| iostreams | `ifstream`, `stringstream` | `List Char`; number formatting abstracted where said |
| MPI | message passing | the packing/unpacking and decomposition logic is modelled; transport is not |
| randomness, wall-clock | | not modelled (parameters) |

## 2. Plan, property by property

(The final status of every property is in `MANIFEST.json`; findings are in section 3.)

| properties | module(s) | what is modelled | proof method |
|---|---|---|---|
| C01–C08, C13 | `SimData/*` | the particle store as an array of slots with `size`, `number`, id map, remove list, capacity; one Lean function per C++ member function | invariant by induction over arbitrary op lists; refinement to a finite map; witnesses for the two memory errors |
| C09 | `Columns` | name→column maps with `request/add/get` | induction over request histories |
| C10, C11 | `Buffer` | `pack_buffer`/`unpack_buffer` over words; `byte_cast` on 32-bit patterns | round trip; witness for the missing map update |
| C12 | `GlobalIds` | id issue rule on P processors | arithmetic (mod P); witness |
| C14–C19 | `Boundary` | wrap/reflect/repulse/displacement per coordinate, lifted to vectors | ordered-field arithmetic, floor |
| C20, C21 | `RunLoop` | run loop with clock and trace of hook calls | strong induction on remaining steps |
| C22, C23 | `Registry` | modifier list, registration lists | list induction |
| C24–C30 | `Grid`, `Stencil`, `Cells`, `Remake` | addresses, cell assignment, stencil, pair traversal, remake test | mixed radix induction; counting; arithmetic |
| C31, C32 | `ForceMaster` | interaction table | induction over histories |
| C33 | `Handlers` | the three pair containers | refinement to list of pairs |
| C34–C39 | `Forces`, `Bonds` | force kernels over `ℝ` vectors | algebra; induction over pair lists |
| C40–C43 | `Integrator`, `Verlet` | time step controller, velocity Verlet, Nose-Hoover | invariants, induction over steps |
| C44–C46 | `Group` | group operations over a local id oracle | list induction |
| C47–C49 | `Bounds`, `KDTree` | boxes, decomposition, ownership | structural induction over the tree |
| C50 | `Eval` | character-level evaluator | induction over expression trees |
| C51–C55 | `FileParse`, `TreeParser` | character-level parser, heading iteration, checks | structural induction, round trip |
| C56–C63 | `Recording`, `MultiGraph`, `StoreLoad`, `ArgParse`, `Database`, `Timer`, `Clustering`, `Bins` | respective classes | induction over histories; round trip; reachability |
| C64 | `SimData/Props` | the "needs remake" flag | invariant over histories |
| C65 | `GFlow/Boundary` | attraction towards the centre | ordered-field arithmetic, witness |
| C66, C67 | `ForceMaster`, `Handlers`, `StepSize` | copies of the interaction grid, time scales | induction over histories, witnesses |
| C68, C69 | `Forces/PairForces` | torque and virial of pair lists | algebra; induction over pair lists |
| C70, C72 | `Other/Group`, `Forces/Bonds` | chained length, springs between groups | list induction |
| C71 | `Forces/AngleChain` | chains with angles | algebra, witnesses |
| C73, C74 | `Integrators/{StepSize,Verlet}` | displacement per step, angular momentum | invariants |
| C75 | `Verlet` | angular velocity integrator | index arithmetic, witness |
| C76, C77 | `Parallel/KDTree` | neighbours and ghosts of processors | structural induction, witnesses |
| C78 | `Data/StoreFrame` | a frame of stored data over several runs | length arithmetic, witness |
| C79, C80 | `Modifiers/Removers` | force and torque removal for groups | sums over groups, runs of velocity Verlet |
| C81–C87 | `Modifiers/*` | walls, constant motion, body forces, streams, update intervals, the demon | invariants over histories, witnesses |
| C88–C93 | `Creators/{Regions,Wall,Circle,Fill,Thermal}` | regions (measure theory), walls, spheres, fill areas, temperatures, templates | Lebesgue measure, induction, witnesses |
| C94 | `Creators/Fixers` | assignment of velocities over the particle store | refinement of the store |
| C95, C96 | `Creators/{Polymer,BoxCreator}` | polymers, lines, the box creator | induction over segments, floor arithmetic |
| C97–C99 | `SimData/Maintain` | `reserve`, renumbering, removal of bad particles | invariant of the store |
| C100 | `Utility/VecMem` | `Vec` objects over a heap of arrays | simulation of programs by value semantics, witnesses |
| C101, C102 | `Utility/ForLoop` | loops and templates over any number of dimensions | induction over dimensions |
| C103 | `Domain/LinkedList` | `DomainList` with linked lists per cell | chains are lists of members; counting pairs |
| C104 | `Domain/Overlap` | removal of overlapping particles during the traversal | simulation of the changing traversal by the static one, witnesses |
| C105 | `GFlow/Relaxation` | relaxation runs in the setup, pointers of components | equations over whole states, negations for all simulations |
| C106 | `Visual/RayTree` | ray and sphere geometry, search tree, exhaustive search | real geometry, structural induction on trees, witnesses |
| C107 | `Integrators/Overdamped` | overdamped steps, their time step control, relaxation | ordered-field arithmetic, invariants, witnesses |
| C108 | `Integrators/Langevin` | noise schedule, drag and noise of the two Langevin integrators | induction over steps and runs, witnesses |
| C109 | `Forces/DemonWall` | the wall of Maxwell's demon: turning on moves particles away, turning off, the pair loop | every particle cleared of the wall strip, forces balanced; negations for the ignored lists, stale cells, missing side |
| C110–C112 | `Creators/SetupFile` | variables and values of setup files, the interaction table, boundary conditions and single particles | induction over the entries of the file; last entry/first definition characterised by specifications that do not mention the loops; negations for stale values, named directions, `CV-D` |
| C113–C116 | `Data/Observables` | energies, averages, counts, temperature, pressure of all processors; records of later runs | loops equal sums over filtered lists of all particles; permutation invariance; negations for all states |
| C117, C118 | `Data/Correlation` | histograms over distances, distance from a chain, persistence length | floor arithmetic and induction over records; minimisation of a quadratic on a segment; witness |
| C119, C120 | `Data/RunDirectory` | file system with `rm -rf`, `mkdir`, writing; `DataMaster::writeToDirectory` and the output of the data objects | frame and freshness invariants over the sequence of file operations; negations |
| C121, C122 | `Data/Summary` | particle statistics, type table and packing fraction of the summary | induction over the particles; permutation-free specification by mean and extremes; negations |
| C123 | `Data/VolumePlot` | bins of two dimensional plots, default numbers of bins, output | floor arithmetic, induction over particles and steps; negations |
| C124 | `Data/GroupAngular` | torque, angular momentum, moment of inertia of a group | unwrapped positions, uniqueness of the nearest image, sums over members; negations |
| C125 | `Data/TwoGroups` | record and histograms of two groups, labels | floor arithmetic, induction over records; negations |
| C126, C127 | `Data/BinForce` | binning of forces between walls and between polymers; two closest particles and the line between them | induction over records and particles, minimisation on a segment; negations |
| C128 | `GFlow/ForceSum` | a full step of forces: table of interactions, traversal of the cells, filling of every container, kernels | composition of C27-C29, C35-C38 with the containers: each pair within the cutoff is processed exactly once, sum over pairs; rebuilding and the class of the container change nothing |
| C129 | `GFlow/Trajectory` | velocity Verlet steps with rebuilds, wrapping and forces of C128 | simulation relation (same velocities and forces, positions up to whole widths) by induction over the steps |
| C130 | `Data/Percolation` | cadence of recorded steps, cluster sizes over `findClusters` of C62, records of the snapshot | induction over the steps; partition lemma of the clusters |
| C131 | `Visual/Palette` | image, owners, sequences of dots of any palettes, depth test, bitmap, covering | induction over the dots; least-depth specification by uniqueness |
| C132 | `Visual/Palette` | loops of `drawCircle`, without and with wrapping | membership in the loops against the disc of the plane |
| C133 | `Visual/Palette` | the three kinds of parts | integer and rational arithmetic |
| C134 | `Visual/Palette` | reference counts of images | invariant (count = number of palettes) over all histories |
| C135 | `Visual/Plot` | line algorithm with its rounding | closed form of each column by induction over the loop |
| C136 | `Visual/Plot` | extent, limits and chain of lines of a graph | folds and monotonicity of rounding |
| C137 | `Visual/Frames` | columns of stored data, places, values, loading | case analysis over column names; induction over histories |
| C138 | `Visual/Colours` | banks, scales, colour functions | bounds and monotonicity of real functions; folds |
| C139 | `Visual/Colours` | size of images, shading of discs, projections | real arithmetic with truncation |
| C140 | `Data/Fields` | binning and fields | counting, floor arithmetic |
| C141 | `Parallel/Rounds` | asynchronous rounds of messages with FIFO logs per pair | inductive invariant over all interleavings, refinement to a synchronous specification, progress by the processor furthest behind, cost function |
| C142 | `Parallel/Exchange` | exchange of particles, numbers sent from a variable | instance of C141; double counting; C76, C77 |
| C143 | `Parallel/Ghosts` | creation and updates of ghosts, layout of updates, counters | instance of C141; block lemma for in-place updates |
| C144 | `Parallel/Collective` | operations of all processors in the loop of `run` | joint semantics of collective operations; invariant of what is equal on all processors |
| C145 | `Parallel/Gather` | messages of `mpi_reduce0_position_data`, all interleavings of any number of frames | invariant of the places in the channels; measure of the remaining actions |
| C146 | `Parallel/Driver` | collective operations of `main` of the driver on all processors | joint semantics of the programs of all processors; necessary and sufficient conditions for their completion |
| C147 | `Data/Video` | options of videos in the driver, recording times | counting of intervals of length of the delay |
| C148 | `Creators/PolymerArea` | all lists of polymer areas, all states of the creator | invariants over the fold of areas |
| C149 | `Domain/GhostPairs` | all grids, regions, positions of ghosts and owned particles | geometry per dimension, stencil of halo cells, counting in lists |
| C150 | `Domain/SkinDepth` | all densities, dimensions, numbers of processors, histories | real analysis (rpow, Gamma), induction over histories |
| C151 | `Parallel/GhostForces` | all distributions of all systems over processors, all central interactions | superposition over lists, double counting, periodic images |
| C152 | `Visual/Camera` | all cameras, images, rays, scenes without cut spheres, numbers of spheres | orthonormal frames over the reals, loops as folds, strong induction for the tree |
| C153 | `Creators/Seeds` | all setups as adaptive random programs, arbitrary deterministic generators, all histories | noninterference: a program sees only the sources it uses |
| C154 | `Creators/Lifecycle` | all histories of attempts and points of failure, all files | ownership invariant over calls, undefined on double deletion; induction over the stream |
| C155 | `Parallel/ParallelRun`, `Parallel/ParallelMotion` | runs on any number of processors: exchange (C142), ghosts (C143), forces (C151), velocity Verlet | simulation relation between the particles of all processors and an ideal motion, induction over steps and cycles; nearest images |
| C156 | `Integrators/Convergence` | velocity Verlet steps (C41, C42) from any stored forces; exact solutions as functions with derivatives | Taylor estimates by comparison of derivatives, error recursion, discrete Gronwall with varying steps; a wrong first kick is a perturbation of the initial velocities |
| C157 | `GFlow/TrueMotion` | the run loop of C129 with boundaries, cells, lists | composition of C129 with the error bounds of C156 for all pair forces |
| C158 | `Integrators/Volume` | velocity Verlet on phase space, any stored forces | kicks and drifts are measure preserving bijections; induction over steps |
| C159 | `Integrators/Energy` | velocity Verlet with forces that have a potential | C156 composed with the exact conservation along the motion; free fall for fresh simulations |
| C160 | `Integrators/Energy` | step limit of `ForceMaster::pre_integrate`, hard sphere time scale, contacts on a line | energy minus h²/8 of squared forces is conserved exactly; Cauchy-Schwarz; witness for fixed steps |
| C161 | `Integrators/Rotation` | angular integrators added by Hooke interactions, their calls in a step, torques of the Hooke kernel | induction over integrators and steps; algebra of the kernel |
| C162 | `Data/RunFigures` | run timer of the data master, sums and rates of `writeSummary` on all processors | induction over histories; sums over processors |
| C163 | `Modifiers/DemonRecords` | the series, animation and whole runs of the demon | induction over histories, double counting of sides |
| C164 | `Modifiers/DemonRecords` | door places over runs, boundary conditions on the open door | invariant of histories, arithmetic of the wrap |
| C165 | `GFlow/Symmetry` | two runs of the whole model of C129 whose starting states are related by renumbering, linear map, shift and boost | equivariance of the pair forces and of one step of the specification, induction over the steps, transferred to the model with `C129_run_partial` |
| C166 | `Creators/Templates` | `parse_particle_template`, `getRandomEngine`, the map of templates | computation over all trees with the lemmas of C54 about finding headings; induction over entries and definitions |
| C167 | `Creators/Areas` | `parse_region`, the reading of areas in `createArea`, the choice of templates and numbers (drawing is C91) | computation over all trees; the map of entries by induction over the sorted list; local templates by `C166_first_definition` |
| C168 | `Creators/Parameters` | `getInteraction`, `parse_construct` of all pair interactions with their defaults, the time step limit of the chosen interactions | computation over all trees; the limit with the lemmas of C25 about `compute_timescale` |
| C169 | `Parallel/ParallelTrue` | the parallel runs of C155 against exact solutions of Newton's equations | the motion of C155 is a chain of Verlet steps, the error estimates of C156 apply; constants do not depend on processors or messages |
| C170 | `Creators/Integrators` | `choose_integrator`, conversion of texts to whole numbers and truth values, time steps of the chosen integrator with C40 | computation over all trees; digits by induction; C40 for runs |
| C171 | `GFlow/SoftPairs`, `GFlow/SoftSpheres`, `GFlow/SoftMotion`, `GFlow/SoftRun` | pairs of `HardSphere` in wrapped boxes, the run of C129, the entry of `TotalEnergyData` (C113) | force is minus the gradient of the potential and Lipschitz away from coincident centres; energy by continuous induction; existence by Picard–Lindelöf for a field changed near coincidence; C156 on prefixes of runs gives the hypotheses of C129; C128 for the recorded energy |
| C172 | `Utility/Vectors` | the operations of `generic-dimension.hpp` and `vectormath.hpp` on one memory with pointers, so that arguments may be the same or overlap | induction over the dimension with the set of written addresses as invariant |
| C173 | `GFlow/Reversal` | the runs of C129, made twice | one step is undone exactly (algebra), the forces of a step are those of the new positions without friction, induction over the steps from the end; the conditions of the way back follow from those of the way there |
| C174 | `GFlow/Walls` | the runs of C129 with `reflectPositions`, `repulsePositions`, `attractPositions` and the modifiers `ConstantAcceleration` and `LinearVelocityDamping` in the order of `GFlow::run` | the functions of C14–C17, C65 and C83 in one step; invariant of C129 with positions before the reflection as reference; containment, momentum and speeds by induction over the steps; a concrete run for the negation |
| C175 | `GFlow/WalledMotion`, `Integrators/RoughSteps` | the runs of C174 and Newton's equations with walls, centre, constant accelerations and half of the drag | C174 reduces a run to steps without lists; with the drag these are velocity Verlet up to errors of one order more (`Rough`), for which errors grow as in C156; a fall with constant velocity 2 instead of 1 for the negation |
| C176 | `GFlow/Mirrors` | the runs of C174 with reflecting sides and runs in a row of mirror images | one reflection is a step through a mirror (`mirror_step`), invariant over all steps; convergence by `Integrators/RoughSteps` in the row of images and because folding does not increase distances |
| C177 | `Data/Tables` | the text of graph, multi graph, percolation and array files, the pretty printer and the lines of the run summary, character by character | a reader of comma separated texts is the specification; induction over rows and fields; the pretty printer by the value of digit lists |
| C178 | `GFlow/BondedRun`, `GFlow/BondedMotion` | the step of the run loop with bonded objects: kick, drift, construction, forces from lists, then every bond object's `interact` with local ids renewed when needed | the invariant of C129 for the pair forces (`Trajectory.step_inv`); the displacement that bonds correct for wrapping is the nearest image (`correct_eq`); springs of histories of `addBond` from C39; convergence from C156 as in C157 |
| C179 | `GFlow/OwnTimes` (with `Domain/Remake`) | the run loop of C129 closed with the handler's decision (C29's `preForces`) on elapsed time, flags and drifted positions | an invariant of the handler for each rule bounds the age of lists in time; C129 and C171 then apply to the decisions made |
| C180 | `Domain/OwnPairs` (with `Domain/GhostPairs`, `Domain/Stencil`) | `traversePairs` on the grid of any processor, halo cells included | as C28: filter the calls for an ordered pair, count the cells that list one another (C27), closeness gives near cells; halo cells are empty |
| C181 | `Domain/SerialBuild` | the five copies of the bounds and the calls that change them, with the build flag as a parameter; the grid made of them | invariants over histories; without MPI every wrapping side is a border, so cells near one another are near without wrapping |
| C182 | `GFlow/Settings` | the fields behind the setters of a simulation, its data objects' rates and bounds, its integrator's time step; calls as a datatype | a call changes a setting only as the specification's selector says; induction over histories |
| C183 | `Parallel/ParallelLists` | the domain of each processor after exchange and creation of ghosts, the pairs its traversals give to each interaction; runs that use these lists | join of C143/C76 (which ghosts), C149 (pairs with ghosts), C180 (own pairs) through the images of displacements; result is the hypothesis of C155, so runs follow the motion |
| C184 | `Parallel/ParallelWhole` | runs of constructions (wrap, exchange, ghosts, lists from the domains) and steps | induction over constructions with the invariant: the state follows the motion, and particles are within 0.1 of their processor's part; C142 brings them home, then the conditions of C183 follow from those on the set-up |
| C185 | `Parallel/ParallelConverge` | the runs of C184 and exact solutions of Newton's equations (C156) | the discrete motion is near the exact one whatever the processors do (C169), so for small steps the conditions of C184 on it follow from speeds, distances and the time between constructions of the exact motion |

## 3. Disagreements between the code and the properties

Each item was found by trying to prove the property. Where a theorem is named `Cxx_negation_…` it proves that the property
fails in the model; the other items are remarks on the source.

**Particle store** (`base/simdata.*`, `base/particle-data.hpp`). Compaction after all particles were marked reads `Type(-1)` (C06). A bulk addition
grows the arrays too little (33 particles into a fresh store overflow, C08). A second `addVectorData` with the same name shifts the columns; `IntegerData(name)`
looks in the map of scalars (C09). Unpacking received particles never updates the id map (C11). The full `addParticle` advances the id counter by `d + 1`, and ids of
different processors collide (C12). `markForRemoval` reads the type before checking the index. Accessors keep raw pointers that dangle after growth.
`reserve` on a non-empty store leaves stale ids and a stale removal list (C97). `removeBadParticles` when all are bad reads outside (C99).

**Boundaries** (`gflow.cpp`). A particle below the lower bound by a whole number of widths is put on the upper bound (C15). The boundary energy is a tenth of
the potential of the force, and removed particles contribute (C17). One wrap only (C18). Immovable particles are divided by zero (C65).

**Run loop** (`gflow.cpp`). One extra step may be done; an empty system keeps its requested time; integrators and modifiers are registered twice if added twice;
`handleModifiers` erases from a container while iterating over it.

**Domains and handlers** (`domains/`, `interactionhandlers/`). The stencil test uses a dot product and drops neighbours or lists a cell as its own neighbour; a periodic grid
forced to four cells lists pairs twice; the in-cell test `rd1 + rd2*cut + skin` misses pairs for cutoffs above one; pairs of large particles that reach each other are visited twice;
the window of neighbour queries is too small on grids without wrapping; types without interactions are never found (C27–C30). The remake test compares with `0.95 * 1.2 > 1`
times the skin, the default decision ignores it until the step delay is over, and displacements of ten skins or more are ignored (C29). The copy of the interaction grid in the
handler becomes stale (C66). `VerletListVector` is never resized. `typesInteract` accepts an index one past the end (C32), `setInteraction` checks nothing,
`any_interactions` and the largest cutoffs are never lowered, the time scale is stale when all particles are immovable (C67).

**Forces** (`interactions/`, `bonded/`). The Hooke force tests `f1(id0)` and never repels (C36). The shift of the Coulomb force uses the cutoff factor instead of the distance and
an extra constant (C37). `min(-1, Fn)` makes the Buckingham force always attractive; it uses `1/r` for `1/R` (C38). `HarmonicBond_2d` applies the force twice, its virial has the wrong size and
sign; bonds of removed particles index with -1; the general `HarmonicBond` has no energy; in three dimensions the second loop adds both signs to one particle; `HarmonicChain` uses a
global id as a local one. `AngleHarmonicChain_2d` skips the springs of collinear atoms, and `distance[]` is misaligned after a removal; the three-dimensional version adds the force of the third atom to
the second and has no springs. `TwoGroupHarmonic::setGroupB` uses the mass of group A.

**Groups** (`other/group.cpp`). `distance` returns the distance of the last member, `findClosestObject` the farthest; the centre of mass is shifted by a width without wrapping; the copy constructor from a shared
pointer assigns to itself; `add` stores a global id as a local one; `getChainedLength` of an empty group is undefined. Groups of data objects are not renumbered by `correct_global_ids`.

**Modifiers**. `ForceRemover` keeps the mass of removed members, reads `projection[1]` in one dimension, and makes velocities NaN with an infinite mass (C79). `TorqueRemover` divides 0 by 0 for a
single particle, is wrong in three dimensions (C80). `WallSlideBody` has a wrong length; `TwoWallModifier` makes accelerations, not forces, equal (C81). `ConstantVelocityDistance` counts the time step of the
call but moves by the next (C82). Damping acts in half of each step; quadratic damping has the wrong sign for negative velocities (C83). Wind tunnels drive immovable particles (C84). `StreamTunnel` does not continue its
grid in a second run, creates points outside on thin processors, and writes stripe data through a dangling pointer (C85). Update intervals are stale in later runs; `StripeX` never
updates (C86). The demon restores neither forces nor the total time (C87).

**Integrators**. The time step becomes NaN if all radii are zero and nothing moves (C40); limits are not cross-checked; with default flags the "no information" test never fires. The leftover loop of the vectorised
Nose-Hoover integrator omits friction (C43), immovable particles are divided by zero. `AngularVelocityVerlet2d` skips odd particles in its serial loop (C75). `valign_load_to_simd` tests macros that are never defined. The overdamped integrators limit
the motion only in the steps in which the time step is calculated, and a fixed time step is overwritten by the smallest one at the start of a run; relaxation with another step delay can end with stale accelerations (C107). The second run of a
Langevin integrator has no noise until it is longer than the first; time at temperature zero counts for the first noise; drag is unstable for `dt*drag/m > 2`; the overdamped one uses the viscosity as a mobility (C108). `RigidBody_2d` does not override
`correct`, so that it is abstract (dead code), its torque has the opposite sign and it rotates about its first particle (not modelled).

**Decomposition** (`parallel/kd-tree-topology.cpp`). The cutoff for neighbours is 0.1; ghosts are chosen with the own radius only (C76, C77); one processor gets two leaves.

**Expressions and files**. `a-b*c+d` is `a-(b*c+d)`, `2*-3` is `-3`, a space after `)` replaces the right operand, leading `+ * /` read an uninitialised value, `1e-5` is a subtraction (C50). `**/` does not close a comment, a `}` on a parameter
line becomes part of the parameter, tabs are not white space (C51–C53). `TreeParser::begin` on a node without headings reads `head_list[0]`; `check` never throws for unknown headings; index guards `-1<i || i<size` guard nothing.

**Data**. A delay larger than the time since the start plus ten records nothing; two runs can record closer than the delay (C56). `MultiGraph::size` is the number of columns; averages over no data divide by zero. Clearing a running timer does not restart
it; `running()` is not defined. An empty name list is written as `0,` and misaligns the reader; five digits lose precision; `nan` is filtered to the empty text; loading twice appends (C58); the second run writes past the frame (C78). Names with commas
or values with spaces break database tables (C60). Clusters depend on the order of particles of different radii, the vector is indexed by slot but sized by number, the largest size is never reset (C62). Histograms read flags shifted by one and lose their labels (C63).

**Utilities**. Assigning to a moved-from `Vec` of the same size writes through a null pointer; self-move loses the array; `Vec(d, p)` with `d <= 0` frees an uninitialised pointer; negative sizes are kept (C100). `DomainList` never reports pairs across a periodic boundary, pairs of large particles in
different cells, pairs of two particles exactly at the size limit, and pairs in boxes narrower than four target cells (C103).

**Setup and pictures**. `removeOverlapping` reads cutoffs at the type -1 after a particle was marked; overlaps with an immovable first particle stay while an immovable second one is removed; overlaps across periodic boundaries and of types without interactions stay; the number of
removed particles depends on the order (C104). After relaxing an empty system the run mode stays that of the setup; `relax` leaves every component with a pointer to its deleted integrator; additional integrators, bonds and bodies are never initialised by `GFlow::initialize` (C105). A sphere that is cut by a
splitting plane hides nearer spheres; a camera inside of a sphere does not see it; the exhaustive search reports the far distance of the last sphere on the line, which can paint the background instead of a sphere (C106).

**Creators**. Walls never touch with the default spacing, overshoot, and exist on every processor (C89). Circles in one dimension recurse without end. A sphere of radius zero yields the origin (C88). Fill areas create the largest of the numbers instead of each, all of them on each
processor, and put the 52nd attempt in an excluded region (C91). Temperatures use integer division, single particles are at rest, immovable ones make NaN (C92). Discrete distributions take values as probabilities; `Radius: X=5` reads the wrong text (C93). Polymers index by global id, never round up, use the wrong default
density; the same fixers are added again for each polymer block; a `Line` starts at the centre instead of being centred (C95). The box creator ignores the height (C96). Single `Particle` entries have no velocity fixer, so that relaxation changes their velocity.

**Demon wall**. Only the first interaction list is used; the wall must have the larger type; in other than two dimensions nothing happens and the flag stays; without the `Side` column a null pointer is read; moved particles can overlap each other because cells are not updated; the search does not end
without a free place (C109).

**Setup files**. Values are stale in further simulations of one creator (as `demonrates.cpp` does); a command-line text ends at a space; a `Var` heading without parameters is read out of range (C110). Interactions of the same name share the parameters of the first (C111). Named directions are visited in alphabetical order;
the distance of `CV-D` is the difference of the words `CV` and `D`, so zero; missing coordinates and radii are uninitialised (C112). `Seed` seeds neither the `generator` of area creators nor `global_generator` (not modelled).

**Observables** (`dataobjects/`). The total energy adds the rotational energy without the factor one half; the kinetic energy counts marked particles and its average immovable ones (C113). Velocities and positions are averaged over the middle three quarters of the box of the constructor; `KineticEnergyTypesData` and
`AverageData` write the particles of processor 0 only; `OscillationData` subtracts nothing and reads outside of its vector (C114). The pressure is in units of `N kB T / V`, counts ghosts in `N`, and is added over processors (C115). Objects that override `pre_integrate` without calling the base (total energy, pressure, cavity statistics,
persistence length, multi-bin objects) do not record a second run until it is longer than the first (C116). A particle exactly at the radius ends the program or is counted outside of the bins; bins of `CenterCorrelation` are never cleared, its negative radius writes outside (C117). The distance from a chain looks only at the bonds of the
closest member (C118). The second constructors of `GroupTorque` and `GroupAngular` use `gflow` before it is set; `MinInteractingDistance` and `MemoryDistance` throw in their constructors (not modelled).

Output (C119-C123). `object_counter` in the writers is 1 for every object, so that two data objects of the same name overwrite each other. Multi bin
objects are never written although they are listed. An exception in a writer is swallowed and success reported, as is a summary that could not be
written. `rm -rf` is called with the unquoted name of the directory, so that `a k` removes `a` and `k`; an empty name given to `writeToDirectory` writes
to `/`. In the summary the range of kinetic energies is twice that of the kinetic energies, all ranges start from particle 0 even if that is immovable;
a particle marked for removal (type -1) writes before the table of types, and ghosts are part of the packing fraction. `setBins` of volume plots sets the
number of columns to that of rows, so that plots of windows that are not square access bins outside of the vectors or use only part of them.

Groups (C124-C127). On several processors `GroupTorque` adds the torques of the parts around their own centres. `GroupAngular` is not gathered at all. In
`TwoGroupStatistics` conversion to `int` rounds towards zero, so that values just below the range are counted in the first bin. `TwoWallBinForce` takes the
nearest image with the width of direction 0 whatever direction the walls slide in, and records nothing if the second wall has the smaller coordinate.
`TwoPolymerBinForce` takes the distance from the line through the two closest particles even if they are no neighbours.

Whole steps (C128, C129). With the containers, traversal and kernels of the code, the force on each particle is the direct sum over all others only under the conditions that C27-C29 show to be necessary: pairs in one cell are found up to cutoff factor 1 only, large
particles and incomplete stencils lose pairs, and the rebuild decision of the code is not always in time (C29). The theorems of C129 therefore quantify over all *timely* schedules of rebuilds instead of the schedule chosen by the code.

Percolation (C130). The skin passed to the constructor of the percolation data is not used; steps without particles record the sizes of the previous step again; the snapshot indexes a vector of the number of particles by slots, so that empty slots access outside of it.

Images (C131-C134). A second cover at the same depth is not seen, so the white frame that pictures are given around the drawing never shows. Wrapped discs larger than the palette colour pixels outside of it. Parts of a palette do not take over the size in space
(it has no value until it is set), their upper limits are not clipped, their rows count from above while drawing counts from below, the vertical margin of the centred part is a fraction of the width, and the ratio of the largest part is rounded to an integer.
Assigning to a palette loses its old image (leak).

Plots (C135, C136). Lines give their end points half of their factor, and pixels beside the line are touched with factor 0 and become black. Graphs of data with a negative maximum leave the palette, and data in one column divide by zero.

Frames and colours (C137-C139). Data without a radius column use the last component of the last vector as radius. A second load of other data keeps the columns chosen before. Custom names are looked up but not stored by the writer. Magnitudes shift the following columns. A colour function stays in use for later images. More than 64 processors share colours; averages are multiplied by an integer quotient that is 0; equal values and particles at rest divide by zero; very narrow bounds give images without rows.

Fields (C140). Particles less than one bin below the bounds are counted in the first bin; the field of speeds is not a mean.

Parallel runs (C141-C144). The numbers of particles are sent without waiting from a local variable that the next call overwrites. Particles that pass a whole processor between exchanges are never handed over. The number of ghosts reported is twice their number. A run hangs if a processor has no particles (at the start, or at a rebuild decision), is at rest when the time step is adjusted, or (with the default way of deciding) marks its particles for rebuilding on its own; with decision type 0 and no interactions a parallel run never ends.

Driver (C146, C147). After an exception on one processor the root alone goes on into the collective operations of writing, so a parallel run hangs; a summary that cannot be opened on the root skips operations the other processors wait in; without an integrator nothing is run and the status is 0. A video shorter than about a frame records nothing.

Polymer areas (C148). Polymers are left without bonds outside two and three dimensions; the pair measurement gets the wrong polymers, or none, when the area of the pair is not the first one; an invalid area empties the second polymer of the pair.

Ghost pairs (C149). The stencil compares a length with a squared length: with cells of width one and a cutoff of one, no ghost below a region is ever paired. A ghost within 0.001 inside of a shared side is looked up one cell too far. Large particles are not paired with ghosts across more than the neighbouring cells. A ghost inside the region sees neither its own cell nor half of the others.

Skin depth (C150). A processor without interacting particles returns before the collective maximum, so initialization of a parallel run blocks. Setting the skin depth to its present automatic value does not fix it.

Forces and energies of parallel runs (C151). `potential_factor` is set to one half for ghost pairs and read nowhere, so the recorded potential energy and virial count pairs of particles on different processors twice; the forces are right.

Ray tracer camera (C152). `initialize` tests the scalar product of up and the direction of view against 1 and not against -1, so a camera looking against up, or along the first axis with an up vector along it, gives every pixel the same ray; the standard camera cuts off corners of the box.

Seeds (C153). `Seed` reaches only `drand48`. `global_generator` is a `static` variable of a header, one per translation unit; `main` seeds the one of its own unit with the clock and the others are never seeded, nor is the generator of the area creators, so radii and velocities are the same for every seed, and a second simulation of the same process differs from the first. (By the one-definition rule the program has no defined behaviour here; the model gives each unit its own generator and leaves open which unit a draw comes from.) With a seed all processors draw the same numbers, so equal parts of an area are filled with copies. `setSeed` is overwritten; `BoxCreator` seeds with the time.

Creators (C154). `createSimulation` deletes the simulation of a failed attempt without clearing the pointer, and `createFromOptions` deletes it again; the destructor does not delete it.

Parallel runs (C155). `pre_integrate` of the handler sets `_handler_remade`, which is reset only at the end of the first step: with update decisions 0 and 1 the ghosts of the first step are those before the move.

Convergence (C156, C157). Nothing calculates forces before the first half kick of a run, and creators leave zeros: the velocities of a fresh simulation lag behind by half of the first kick for ever, so the error of the (second order) integrator is of first order.

Energy (C159, C160). The missing first kick also changes the energy of a fresh simulation by a first order amount for ever. The time step limit of the forces keeps contacts stable, but only for integrators that adjust their step; with a fixed step one contact can gain any factor of energy.

Rotation (C161). The constructor of every Hooke interaction adds an angular integrator and nothing looks for one that exists: with k Hooke interactions torques act k times and discs turn k times per step. The lever arms of friction are the radii, not the distance to the contact, so overlapping discs that slide change the total angular momentum.

Summary (C162). Writing results leaves the run timer running, so a second summary counts the time in between; interactions per particle are those of all processors over the particles of the root; steps are counted from the start of the last run but times over all runs.

Demon records (C163). A particle that crosses while the door is closed is recorded as no current and counted in the next open window; the energy current says nothing of exchanged energy; if the first window is rejected all animation frames are deleted, those of earlier runs too; other series keep entries of the rejected motion and record nothing of its replacement.

Door (C164). The open door is put at twice the right end of the box, which a periodic or reflecting boundary moves back inside (in a box symmetric about 0, onto the partition). A second run notes the places of the open door as the places of the door, so the hole stays open.

Symmetries (C165). No defect found: under the conditions of C129, cells, numbering and times of rebuilding leave no trace in the motion. At a distance of exactly half a box the nearest image is not equivariant; it is proved that no force reaches that far.

Templates (C166). Radii and types whose text does not begin with a digit (`r/2` with a variable `r`, `.5`, `(1+1)`) become the constant 0 without an error. `Radius: a=b` takes `a`. In `Random { P: value, probability }` both reads have index 0, so the values are their own probabilities. The first definition of a name counts, later ones are ignored. The explicit specialisations of the accessors of `TreeParser` for `RealType` are defined in `treeparser.cpp` only and not declared in the header; the model takes them to be the ones that are called for `float` (with `Eval::evaluate`), and the generic ones for `double` and `int`.

Areas (C167). The documented form `Number: { A: 10 }` reads `params[0]` of an empty list. `Number: n` without a body creates nothing, `Number: Rho=x` without a body always throws, `Number: Phi=x` without a body evaluates `particle_templates[0]`, a `std::string` from a null pointer. In `Number: n { … }` the total `n` is not used. `Phi=` and `Rho=` are `double`, so expressions are converted and not evaluated. Local templates are inserted without overwriting into a map that lives as long as the creator. The parts of a region are taken by position. `Velocity:` without parameters and vectors that are too short are read beyond their end.

Parameters of interactions (C168). `check()` is never called in `parse_construct`, so misspelled headings are ignored without a message. A negative repulsion, which the setter refuses, is accepted from files and makes spheres attract. Only hard spheres suggest a time scale; the others, and hard spheres with a negative repulsion (the root of a negative number), never limit the time step.

Integrators of setup files (C170). Switches are read as numbers without `std::boolalpha`, so `Adjust: true`, `UseV: true` and `UseA: true` all turn the switch off. A file with only `MaxDT` below 1e-6 starts its runs with the default smallest step, above the limit. Headings a class does not read are ignored with a warning; the temperature of the Nosé–Hoover thermostat cannot be given. Negative temperatures and a viscosity of 0 are accepted.

Soft spheres (C171). C157 supposes an exact motion near which forces are Lipschitz. For `HardSphere` systems this is now proved: while the energy is below ½κR² for every interacting pair no two centres meet, so the motion exists for all times and every hypothesis of C157 but the ages of lists follows from the initial state. Above the threshold two centres can meet, where the code divides by zero (C128 supposes separate particles). Only the first order holds: contacts have corners, so the smoothness that C157 needs for the second order fails each time spheres begin to touch.

Vector operations (C172): all are right in place and with results apart, in all dimensions. A result that overlaps an argument partly is wrong (no caller does this), and `crossVec` cannot be used in place (its only caller, the ray tracer, does not).

Reversal (C173): a run is undone exactly if stored forces at its start are true ones; the first run of a program starts with stored forces 0, and undoing it leaves velocities that differ by half a kick. Dissipation makes runs irreversible (theorem with a concrete run).

Walls (C174): a construction sees positions before the reflection, so that lists must cover the jump of a reflection, too; this is part of the hypothesis `Timely`. `attractPositions` uses positions that are wrapped at constructions only, and so the attraction depends on the times of constructions if a side wraps (theorem). Particles of types below 0 are reflected and pushed by the code, but take no part in the theorems.

Motion with walls and drag (C175): the exact motion and its bounds are hypotheses, as in C157. Friction of soft walls is not continuous at their edge; motions that cross it with dissipation do not meet the hypothesis `Tame`.

Mirrors (C176): the sign of a velocity on a wall is not determined by its position, so that runs in which a particle stops exactly on a wall are left out (`Clear`). Mirrored forces are continuous only where the force across the wall vanishes; a ball that bounces under gravity does not meet `Tame`, but does meet the hypotheses of the exact part.

Tables (C177): the number format of the C++ library is a parameter (any text without commas and white space); that it has six digits by default enters as `SixDigits`. Failures to open files are those of C-claims about the run directory.

Bonded runs (C178): bonds are those of C39 (`Forces/Bonds`), particles are not removed, and the factor two of `HarmonicBond_2d` is part of the specification (`stiff`). `GFlow::run` never calls the `pre_integrate` of bonds, so local ids are renewed in `interact` only; renewals are a parameter of each step.

Own times (C179): the elapsed time that the handler sees is that before the step, so that an age is wrong by up to a time step; positions recorded at a construction are the wrapped ones. There is no function to change `update_decision_type`, whose default is 2; types 0 and 1 are proved as well.

Build flag (C181): all other properties are about the default build, `USE_MPI=1` of the `Makefile`; those about one processor are about that build run on one processor. In a build with `USE_MPI=0` the domain treats periodic sides as borders with other processors (`base/topology.cpp:77-80`), so that C28 does not apply to periodic boxes, and what rests on it (C128, C129, C157, C165, C171, C175, C178, C179) holds there only without periodic boundaries.

Settings (C182): numbers without rounding and NaN; `argv` is a name of a pointer; data objects are made and added at once and do not choose their own bounds or rate.

Parallel lists (C183): real numbers; every interaction has its own lists; slots without particles have a negative type; the conditions (`Apt`) are those of C149, C180 and C76 and hold at every construction.

Whole parallel runs (C184): as C155 and C183, without conditions on what processors hold during the run; wrapping widths are above 0.1, so that slow particles never wrap to exactly the upper border, which belongs to no processor.

Convergence of whole parallel runs (C185): as C184, with conditions on the exact motion in place of the discrete one; real arithmetic.

## 4. What is modelled and what is not

Modelled, function by function with citations: `demonwall` and the setup-file parser (variables, interaction table, boundary conditions, single particles), `base/simdata.*` (owned particles, ids, removal, sorting, columns, buffers, reservation), `base/creator.cpp` (ids, fixers), the boundary and run-loop parts of `gflow.cpp`, `domains/` (grid,
stencil, cells, traversal, queries, remaking), `base/forcemaster.*`, `interactionhandlers/` (pair containers), pair forces, bonds and angle chains, `other/{group,region,evaluation}`, `utility/{bounds,fileparse,treeparser,argparse,vec,generic-dimension,graphobject parts}`,
integrators (time step control, velocity Verlet, Nose-Hoover, angular), `parallel/kdtreetopology` (decomposition, neighbours, exchange, ghosts), message rounds and collective operations, ray tracing (search), palettes, images, colours and plots, data objects that record, count, cluster and store, modifiers listed above, creators listed above.

Not modelled: floating point rounding, vector instructions (except where a loop bound differs), MPI transport below the level of ordered messages and collective operations, wall-clock time, file system calls, image file formats beyond those named, the numerical quality of random generators, `debugcreator`, performance.
