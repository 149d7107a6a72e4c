{"id": "C01", "title": "Particle counts are exact", "statement": "After any history of SimData calls (addParticle, full addParticle, markForRemoval, doParticleRemoval, sortParticles) number() equals the number of slots below size() whose Type is non-negative, and number() <= size() <= capacity.", "quantifier": "every finite sequence of SimData mutations starting from an empty store, every particle payload and every id argument in range", "why_tests_cant": "the counters are maintained incrementally by five different entry points; a test covers one history, the drift appears only after a particular interleaving of add/mark/compact/sort", "anchors": ["GFlowSim/src/base/simdata.cpp: addParticle, markForRemoval, doParticleRemoval, sortParticles", "GFlowSim/src/base/simdata.hpp: number, size"]}
{"id": "C02", "title": "Global id lookup is exact", "statement": "When the id map is in use, getLocalID(g) returns i >= 0 exactly when slot i is live and its global id is g, and returns -1 for ids that were never issued or whose particle was marked for removal.", "quantifier": "every history of mutations and every global id", "why_tests_cant": "swaps during compaction and sorting each have to repair two map entries; a missing repair shows only for particular orders of ids", "anchors": ["GFlowSim/src/base/simdata.cpp: getLocalID, swap_particle, markForRemoval, addParticle", "GFlowSim/src/base/simdata.hpp: id_map"]}
{"id": "C03", "title": "Global ids are unique and never reused", "statement": "No two live particles of one SimData share a global id, and an id handed out by addParticle is larger than every id handed out before, even after removals.", "quantifier": "every history of mutations", "why_tests_cant": "requires looking at all pairs of particles across all histories", "anchors": ["GFlowSim/src/base/simdata.cpp: addParticle, next_global_id"]}
{"id": "C04", "title": "Marking for removal is idempotent and local", "statement": "markForRemoval(i) on a live slot lowers number() by one, leaves size() and every other slot's data unchanged; on a slot that is already dead it changes nothing.", "quantifier": "every reachable store, every slot index below size()", "why_tests_cant": "modifiers, domain and user code all mark concurrently in one step, so double marking occurs in arbitrary orders", "anchors": ["GFlowSim/src/base/simdata.cpp: markForRemoval"]}
{"id": "C05", "title": "Compaction keeps exactly the surviving particles", "statement": "doParticleRemoval leaves size()==number(), every slot below size() live, and the surviving particles (global id together with all vector, scalar and integer data) are exactly the live ones from before, each once; nothing else survives.", "quantifier": "every reachable store with at least one live particle and every set of marked slots", "why_tests_cant": "the swap-from-the-back loop depends on where the marked slots lie relative to the tail; 2^n mark patterns", "anchors": ["GFlowSim/src/base/simdata.cpp: doParticleRemoval", "GFlowSim/src/base/simdata.tpp: swap_particle"]}
{"id": "C06", "title": "Compaction is memory safe for every mark pattern", "statement": "doParticleRemoval never reads a Type outside [0,size()), in particular when every particle has been marked.", "quantifier": "every reachable store including those in which all particles are marked", "why_tests_cant": "an out of bounds read at index -1 normally goes unnoticed in a test run", "anchors": ["GFlowSim/src/base/simdata.cpp: doParticleRemoval"]}
{"id": "C07", "title": "Sorting permutes particles without losing data and sorts by x", "statement": "sortParticles only permutes complete particle records: afterwards the same records are present and the first position component is non-decreasing over the slots.", "quantifier": "every reachable store without pending removals and every position assignment", "why_tests_cant": "quick sort with in-place swaps: all n! orderings and ties", "anchors": ["GFlowSim/src/base/simdata.cpp: sortParticles, quick_sort, quick_sort_partition"]}
{"id": "C08", "title": "Bulk addParticle(n) never outgrows the arrays", "statement": "After addParticle(n) the arrays have room for all size() particles, so that the new slots can be written.", "quantifier": "every store and every n >= 0", "why_tests_cant": "the growth rule is arithmetic in n, size and capacity; the overflow only shows for n in certain ranges and then silently corrupts the heap", "anchors": ["GFlowSim/src/base/simdata.cpp: addParticle(int)", "GFlowSim/src/base/simdata.cpp: resize_owned"]}
{"id": "C09", "title": "Named data columns are stable", "statement": "requestVectorData/ScalarData/IntegerData(name) returns a valid column number, returns the same number for the same name, distinct numbers for distinct names, and getX(name) agrees with it afterwards and is -1 for names never requested.", "quantifier": "every sequence of requests over any set of names", "why_tests_cant": "columns are requested by independent plug-ins in any order", "anchors": ["GFlowSim/src/base/simdata.tpp: requestVectorData, requestScalarData, requestIntegerData, getVectorData"]}
{"id": "C10", "title": "Migrated particle buffers round trip", "statement": "Packing particles for another processor and unpacking the buffer there restores every vector, scalar and integer entry of every particle in order, for equal column layouts; only the listed particles are sent.", "quantifier": "every list of ids, every column layout and every data value, including all 32-bit integer patterns", "why_tests_cant": "needs all layouts and integer bit patterns reinterpreted as floats", "anchors": ["GFlowSim/src/base/simdata.tpp: pack_buffer, unpack_buffer, copy_buffer", "GFlowSim/src/utility/utility.hpp: byte_cast"]}
{"id": "C11", "title": "Received particles can be found by global id", "statement": "After unpacking a buffer on the receiving processor, getLocalID(g) finds each received particle.", "quantifier": "every received buffer", "why_tests_cant": "only shows with MPI and after a migration", "anchors": ["GFlowSim/src/base/simdata.tpp: unpack_buffer", "GFlowSim/src/base/simdata.cpp: addParticle"]}
{"id": "C12", "title": "Global ids stay unique across processors", "statement": "After ids have been made globally consistent, particles created on different processors never get the same global id.", "quantifier": "every number of processors, all creation histories on each of them", "why_tests_cant": "needs all interleavings of creations on all processors", "anchors": ["GFlowSim/src/base/simdata.cpp: addParticle, correct_global_ids, shift_global_ids"]}
{"id": "C13", "title": "The store refines a map from global id to record", "statement": "For every history the observable contents of SimData (which global ids are alive and which record each one has) are those of a plain map under insert / delete / no-op, independent of slot order, compaction and sorting.", "quantifier": "every history of mutations", "why_tests_cant": "refinement over all histories", "anchors": ["GFlowSim/src/base/simdata.cpp", "GFlowSim/src/base/simdata.tpp"]}
{"id": "C14", "title": "Periodic wrapping returns to the box", "statement": "GFlow::wrapPositions moves every coordinate of a wrapped dimension into [min,max], by an integer multiple of the box width, leaves coordinates already in [min,max), velocities, forces and other dimensions unchanged.", "quantifier": "every real position however far outside, every box with positive width", "why_tests_cant": "the claim is about every real number and arbitrarily many box widths", "anchors": ["GFlowSim/src/gflow.cpp: wrapPositions"]}
{"id": "C15", "title": "Wrapped coordinates are half-open", "statement": "After wrapPositions min <= x < max holds, and a second call of wrapPositions changes nothing.", "quantifier": "every real position, every box", "why_tests_cant": "fails only at exact multiples of the width", "anchors": ["GFlowSim/src/gflow.cpp: wrapPositions"]}
{"id": "C16", "title": "Reflecting boundaries", "statement": "GFlow::reflectPositions leaves interior particles alone, puts a particle that is outside by less than the box width back inside at the mirror position and turns its velocity inward, preserving speed.", "quantifier": "every real position and velocity", "why_tests_cant": "continuous input space", "anchors": ["GFlowSim/src/gflow.cpp: reflectPositions"]}
{"id": "C17", "title": "Repulsive boundaries push inward and account for force and energy", "statement": "GFlow::repulsePositions adds no force to interior particles, adds inward force outside, boundaryForce is the sum of the magnitudes of the forces added, and boundaryEnergy is the potential energy of that force; only live particles count.", "quantifier": "every position, velocity, repulsion strength > 0", "why_tests_cant": "continuous input space; energy/force consistency is a functional identity", "anchors": ["GFlowSim/src/gflow.cpp: repulsePositions"]}
{"id": "C18", "title": "Minimum image displacement", "statement": "GFlow::getDisplacement returns x-y up to integer multiples of the width in periodic dimensions; for two points inside the box the result is the image of smallest magnitude, at most half the width; it is x-y in other dimensions.", "quantifier": "all pairs of points, any mix of boundary conditions, any dimension", "why_tests_cant": "continuous input and all boundary combinations", "anchors": ["GFlowSim/src/gflow.cpp: getDisplacement, minimumImage"]}
{"id": "C19", "title": "Distance is symmetric", "statement": "getDistance(x,y)=getDistance(y,x) >= 0, with getDistance(x,x)=0, for every boundary condition.", "quantifier": "all pairs of points", "why_tests_cant": "continuous input space", "anchors": ["GFlowSim/src/gflow.cpp: getDistance, getDisplacement"]}
{"id": "C20", "title": "The run loop simulates the requested time", "statement": "run(T) with T>0 and constant time step dt>0 on a non-empty system stops; afterwards elapsed time equals iterations*dt, is at least T and less than T+2dt, total time has grown by the same amount, and the iteration counter is the number of steps.", "quantifier": "all T>0, all dt>0, any initial clock", "why_tests_cant": "loop termination and the exact off-by-one overshoot are statements over all T/dt ratios", "anchors": ["GFlowSim/src/gflow.cpp: run, GFlow::terminate"]}
{"id": "C21", "title": "Every step visits the phases in order", "statement": "Each iteration of run on a non-empty single-processor system calls, in this order and exactly once for every registered component, pre_step, pre_forces, boundary forces, interactions, bonds, bodies, modifier removal, post_forces and post_step; pre_integrate and post_integrate bracket the run.", "quantifier": "runs of any length, any number of modifiers and data objects", "why_tests_cant": "a schedule property over unbounded runs", "anchors": ["GFlowSim/src/gflow.cpp: run, integrator/dataMaster/modifier hooks"]}
{"id": "C22", "title": "Modifiers are dropped exactly when they ask for it", "statement": "After handleModifiers exactly those modifiers whose remove flag is set are gone; the order of the others is kept.", "quantifier": "every list of modifiers and flags", "why_tests_cant": "all list/flag combinations including adjacent flagged ones (erase-while-iterating)", "anchors": ["GFlowSim/src/gflow.cpp: handleModifiers"]}
{"id": "C23", "title": "Components are registered once", "statement": "addInteraction, addBonded, addBody register an object once however often they are called, keep registration order and ignore null pointers.", "quantifier": "every sequence of registrations", "why_tests_cant": "all histories", "anchors": ["GFlowSim/src/gflow.cpp: addInteraction, addBonded, addBody"]}
{"id": "C24", "title": "Linear and tuple cell addresses are inverse", "statement": "Converting a cell's linear index to a tuple and back is the identity for all indices below the number of cells, and tuples in range map to distinct in-range indices.", "quantifier": "every dimension count and all positive grid sizes", "why_tests_cant": "unbounded dimensions and sizes", "anchors": ["GFlowSim/src/domains/domain.cpp: tuple_to_linear, linear_to_tuple", "GFlowSim/src/utility/utility.hpp: getAddressCM, getAddress"]}
{"id": "C25", "title": "Every particle falls in an existing cell", "statement": "get_cell_index returns a valid cell index for every position, also outside of the bounds, and the cell's box contains the position when the position is inside the bounds.", "quantifier": "every real position, every grid", "why_tests_cant": "continuous input including far outside", "anchors": ["GFlowSim/src/domains/domain.cpp: get_cell_index, fill_cells"]}
{"id": "C26", "title": "Cells are at least as wide as the cutoff", "statement": "The cell grid computed by the domain has positive extents, covers the bounds exactly, and its cells are at least as wide as the target cell size unless the minimum number of cells was forced; too small bounds raise BadBounds.", "quantifier": "every box and every positive target size", "why_tests_cant": "floor/rounding over all reals", "anchors": ["GFlowSim/src/domains/domain.cpp: calculate_domain_cell_dimensions"]}
{"id": "C27", "title": "Each pair of neighbouring cells is visited once", "statement": "Over the whole grid, for every unordered pair of distinct cells within the sweep range (with periodic wrap where set), exactly one of the two lists the other as adjacent.", "quantifier": "every dimension count, sweep size and grid with at least 2*sweep+1 cells per periodic dimension", "why_tests_cant": "combinatorial over all grids and dimensions", "anchors": ["GFlowSim/src/domains/domain.cpp: create_cells, find_adjacent_cells, correct_index"]}
{"id": "C28", "title": "The neighbour list misses no interacting pair", "statement": "construct passes every pair of live particles closer than the cutoff distance to an interaction exactly once, and no pair twice.", "quantifier": "every particle configuration, every radii/cutoff assignment", "why_tests_cant": "completeness over all configurations is what a neighbour list is for; a missed pair produces slightly wrong physics, not a crash", "anchors": ["GFlowSim/src/domains/domain.cpp: traversePairs, construct", "GFlowSim/src/base/interactionhandler.cpp: construct"]}
{"id": "C29", "title": "Neighbour lists are rebuilt before a pair can be missed", "statement": "Between two rebuilds no pair can come into interaction range without being in the list: the rebuild test fires before twice the largest displacement exceeds the skin depth.", "quantifier": "every trajectory", "why_tests_cant": "depends on all possible motions between checks", "anchors": ["GFlowSim/src/base/interactionhandler.cpp: check_needs_remake, pre_forces"]}
{"id": "C30", "title": "getAllWithin finds all neighbours", "statement": "getAllWithin(id, neighbors, r) returns precisely the other live particles within distance r.", "quantifier": "every configuration, id and radius", "why_tests_cant": "continuous configuration space", "anchors": ["GFlowSim/src/domains/domain.cpp: getAllWithin"]}
{"id": "C31", "title": "The interaction table is symmetric and total", "statement": "After any history of setNTypes and setInteraction calls with existing types, getInteraction(a,b) returns the interaction last set for (a,b), null if none was set, answers null for out-of-range types, does not depend on the order of the types when calls are reflexive, and each interaction is listed once.", "quantifier": "every sequence of table updates, every pair of types", "why_tests_cant": "all histories", "anchors": ["GFlowSim/src/base/forcemaster.cpp: setInteraction, getInteraction, setNTypes"]}
{"id": "C32", "title": "Type queries are consistent with the table", "statement": "doesInteract(t) holds exactly when some entry of row t is non-null (after initialization), maxCutoff(t) bounds all cutoffs in row t, and typesInteract does not read outside of the table.", "quantifier": "every table and every type argument", "why_tests_cant": "all tables; out-of-bounds is silent", "anchors": ["GFlowSim/src/base/forcemaster.cpp: doesInteract, getMaxCutoff, typesInteract, initialize_does_interact"]}
{"id": "C33", "title": "All pair containers enumerate what was added", "statement": "VerletList, VerletListVecPairs and VerletListPairs apply the force kernel to exactly the sequence of pairs passed to addPair since the last clear (closed once for VerletList), list by list and in order, and size() is their number.", "quantifier": "every sequence of addPair/clear", "why_tests_cant": "compressed representation: all groupings of consecutive first ids", "anchors": ["GFlowSim/src/interactions/generic-handlers.hpp:addPair,size,clear,close,dolist"]}
{"id": "C34", "title": "Central forces obey Newton's third law", "statement": "For every pair, HardSphere, HardSphereDs, LennardJones, Coulomb, Buckingham and Hertz add opposite forces to the two particles, so the total momentum change is zero for every neighbour list.", "quantifier": "every pair list and configuration", "why_tests_cant": "sum identity over arbitrary pair lists and continuous states", "anchors": ["GFlowSim/src/interactions/generic-forces.hpp"]}
{"id": "C35", "title": "Repulsive contact forces repel", "statement": "Hard-sphere and Hertz forces are directed along the line of centres, push the particles apart when they overlap and are zero or absent when they do not.", "quantifier": "every configuration with positive distance", "why_tests_cant": "continuous input", "anchors": ["GFlowSim/src/interactions/generic-forces.hpp: HardSphere, HardSphereDs, HertzForce"]}
{"id": "C36", "title": "Hooke friction model is a third-law pair force", "statement": "HookeForce adds opposite forces to both particles and tangential force is bounded by mu times normal force.", "quantifier": "every configuration", "why_tests_cant": "continuous input", "anchors": ["GFlowSim/src/interactions/generic-forces.hpp:HookeGeneric"]}
{"id": "C37", "title": "Potentials are continuous at the cutoff", "statement": "The shifted Lennard-Jones, hard-sphere and Coulomb potentials vanish at the distance where the pair is cut off, and the force is minus the derivative of the potential.", "quantifier": "all parameters", "why_tests_cant": "functional identity", "anchors": ["GFlowSim/src/interactions/generic-forces.hpp:HardSphereGeneric,LennardJonesGeneric,CoulombGeneric,BuckinghamGeneric"]}
{"id": "C38", "title": "Buckingham force has the advertised form inside the inner cutoff", "statement": "Inside the inner force radius the Buckingham force is repulsive.", "quantifier": "all distances", "why_tests_cant": "continuous input", "anchors": ["GFlowSim/src/interactions/generic-forces.hpp:BuckinghamGeneric"]}
{"id": "C39", "title": "Bonded forces obey the third law and pull towards the rest length", "statement": "A harmonic bond adds opposite forces of magnitude K*|r-r0| along the bond, attractive when stretched and repulsive when compressed; its energy matches.", "quantifier": "every bond list and configuration", "why_tests_cant": "continuous input", "anchors": ["GFlowSim/src/bonded/harmonicbond.cpp, harmonicbond_2d.cpp, harmonic-chain.cpp"]}
{"id": "C40", "title": "The adaptive time step stays in its bounds", "statement": "After any history of pre_step calls and setter calls the time step stays in [min_dt,max_dt] whenever it is adjusted, is unchanged when adjustment is off, and stays positive.", "quantifier": "every sequence of steps and every observed velocity/acceleration", "why_tests_cant": "all histories", "anchors": ["GFlowSim/src/base/integrator.cpp: pre_step, setMaxDT, setMinDT, setDT"]}
{"id": "C41", "title": "The vectorised integrator equals the serial one", "statement": "VelocityVerlet's block loop with remainder updates each owned coordinate exactly once as the plain loop does, for every block width.", "quantifier": "every particle number, dimension and SIMD width", "why_tests_cant": "remainder handling for all sizes", "anchors": ["GFlowSim/src/integrators/velocity-verlet.tpp"]}
{"id": "C42", "title": "Velocity Verlet is time reversible and conserves momentum", "statement": "Reversing velocities after n steps and running n steps more returns to the initial positions; total momentum is conserved when the forces sum to zero.", "quantifier": "every force field depending on position, every n, dt", "why_tests_cant": "all step counts", "anchors": ["GFlowSim/src/integrators/velocity-verlet.tpp"]}
{"id": "C43", "title": "Nose-Hoover treats every coordinate alike", "statement": "The thermostat friction term is applied to each velocity component in both half kicks irrespective of particle count.", "quantifier": "every number of particles and SIMD width", "why_tests_cant": "remainder loop only", "anchors": ["GFlowSim/src/integrators/nose-hoover-velocity-verlet.tpp"]}
{"id": "C44", "title": "Groups track their particles", "statement": "After update_local_ids a group contains exactly those former members that are alive, in the original order, each with its current local id; contains/getIndex/size agree.", "quantifier": "every group and every history of removals", "why_tests_cant": "all removal patterns", "anchors": ["GFlowSim/src/other/group.cpp: update_local_ids, add, contains, getIndex"]}
{"id": "C45", "title": "Group mechanics", "statement": "A group's total mass, momentum, centre-of-mass velocity and net force are the sums over its members and are zero for an empty group; addVelocity/addAcceleration shift every member equally.", "quantifier": "every group", "why_tests_cant": "sums over unbounded groups", "anchors": ["GFlowSim/src/other/group.cpp: findTotalMass, findCenterOfMass, findCOMVelocity, findNetForce, addVelocity"]}
{"id": "C46", "title": "Distance to a group is the minimum distance", "statement": "Group::distance returns the minimum of the distances from the point to the members; findClosestObject returns the nearest member.", "quantifier": "every group and point", "why_tests_cant": "all configurations", "anchors": ["GFlowSim/src/other/group.cpp: distance, findClosestObject"]}
{"id": "C47", "title": "The processor decomposition tiles the simulation box", "statement": "The k-d decomposition assigns each processor one box; the boxes have disjoint interiors, cover the simulation bounds and each rank 0..P-1 gets exactly one leaf.", "quantifier": "every box, dimension and processor count", "why_tests_cant": "all processor counts including primes", "anchors": ["GFlowSim/src/parallel/kdtreetopology.cpp: compute_decomp"]}
{"id": "C48", "title": "Domain ownership is consistent", "statement": "domain_ownership(x) returns the rank whose box contains x for every x in the simulation bounds; a point has a unique owner.", "quantifier": "every point", "why_tests_cant": "continuous input, all trees", "anchors": ["GFlowSim/src/parallel/kdtreetopology.cpp: domain_ownership"]}
{"id": "C49", "title": "Bounds algebra", "statement": "Bounds::contains, Bounds::intersection, vol, wd and operator== behave as for half-open boxes: a point lies in the intersection iff it lies in both, equality is reflexive and symmetric, disjoint boxes have an empty (zero volume) intersection.", "quantifier": "all boxes and points in every dimension", "why_tests_cant": "continuous input", "anchors": ["GFlowSim/src/utility/bounds.cpp: contains, intersection, vol, operator=="]}
{"id": "C50", "title": "Arithmetic expressions evaluate with usual precedence", "statement": "Eval::evaluate of the textual rendering of an arithmetic expression over numbers, + - * / and parentheses returns its value under the usual precedence and left associativity.", "quantifier": "every expression tree of every size", "why_tests_cant": "all expression trees", "anchors": ["GFlowSim/src/other/evaluation.cpp"]}
{"id": "C51", "title": "Configuration files parse back", "statement": "FileParse turns the textual form of any configuration tree into that tree: headings, parameters and nested bodies are all preserved in order.", "quantifier": "every well-formed tree, any nesting depth", "why_tests_cant": "unbounded nesting", "anchors": ["GFlowSim/src/utility/fileparse.cpp"]}
{"id": "C52", "title": "Comments and spaces do not matter", "statement": "Inserting spaces or comments where allowed does not change the parsed configuration.", "quantifier": "every file and insertion point", "why_tests_cant": "all positions", "anchors": ["GFlowSim/src/utility/fileparse.cpp: passSpaces, passComment, checkComment"]}
{"id": "C53", "title": "Heading iteration visits every matching heading once", "statement": "begin(name)/next/end visits exactly the sub-headings with that name, in file order, and restores the focus when done.", "quantifier": "every tree", "why_tests_cant": "all trees and nestings", "anchors": ["GFlowSim/src/utility/treeparser.cpp: begin, next, end, focus"]}
{"id": "C54", "title": "Configuration validation is exact", "statement": "check() throws exactly when a declared necessary heading is missing or an undeclared heading occurs.", "quantifier": "every tree and declared heading list", "why_tests_cant": "all combinations", "anchors": ["GFlowSim/src/utility/treeparser.cpp: check, addHeadingNecessary, addHeadingOptional"]}
{"id": "C55", "title": "Indexed argument access is bounds checked", "statement": "argument and value accessors return the i-th element for 0<=i<size and never access outside for any other i.", "quantifier": "all i", "why_tests_cant": "an out-of-range read is silent", "anchors": ["GFlowSim/src/utility/treeparser.cpp: arg, arg_cast, val, valName, argName"]}
{"id": "C56", "title": "Recording cadence", "statement": "A data object records at most once per delay interval, never before the start time, and the first eligible step after pre_integrate records; after the record the next one is at least delay later and not later than the first step after delay has passed.", "quantifier": "all time sequences", "why_tests_cant": "schedules", "anchors": ["GFlowSim/src/base/dataobject.cpp: _check, setFPS"]}
{"id": "C57", "title": "Multi graph data columns stay aligned", "statement": "All columns of a MultiGraphData have equal length after any history; the i-th entry of column j is the i-th appended value; out-of-range access throws.", "quantifier": "all histories", "why_tests_cant": "all histories", "anchors": ["GFlowSim/src/dataobjects/dataobjecttypes/data-base/multigraphdata.cpp"]}
{"id": "C58", "title": "Stored snapshots load back", "statement": "LoadData.load(StoreData.write(frames)) restores header, column names and every frame.", "quantifier": "every header, entry list and number of frames", "why_tests_cant": "unbounded frames, empty name lists", "anchors": ["GFlowSim/src/compute/store_data.cpp", "GFlowSim/src/compute/load_data.cpp"]}
{"id": "C59", "title": "Command line arguments", "statement": "ArgParse: parse(-tok=val ...) then get(tok) yields the last value given for tok, leaves the variable unchanged when absent; check() throws exactly when some given token was never queried.", "quantifier": "every argument vector and query history", "why_tests_cant": "all histories", "anchors": ["GFlowSim/src/utility/ArgParse.hpp"]}
{"id": "C60", "title": "Database CSV shape", "statement": "printToCSV writes one header row and n_rows rows, all with the same number of fields.", "quantifier": "every set of columns of any lengths", "why_tests_cant": "all shapes", "anchors": ["GFlowSim/src/utility/database.cpp"]}
{"id": "C61", "title": "Timers accumulate", "statement": "Timer::time equals the sum of the lengths of all completed start/stop intervals for every sequence of start/stop; nested or repeated calls do not double count.", "quantifier": "all start/stop/clear sequences", "why_tests_cant": "all interleavings", "anchors": ["GFlowSim/src/utility/timer.cpp"]}
{"id": "C62", "title": "Clusters partition the particles", "statement": "findClusters assigns every live particle exactly one cluster, two particles get the same cluster iff connected through the (symmetric) neighbour relation, sizes add up to the number of particles.", "quantifier": "every neighbour graph", "why_tests_cant": "graph reachability over unbounded graphs", "anchors": ["GFlowSim/src/dataobjects/clustering.cpp"]}
{"id": "C63", "title": "Histogram bins count every datum once", "statement": "GraphObject::makeBins gives as many evenly spaced bins as asked for, from the minimum to the maximum; ave is the mean of the entries. MultiBinObject labels its bins evenly, counts each call of increment once in its bin, and writes exactly the data sets that are switched on.", "quantifier": "all bin counts and ranges", "why_tests_cant": "all n", "anchors": ["GFlowSim/src/dataobjects/dataobjecttypes/multibinobject.cpp, graphobject.cpp"]}
{"id": "C64", "title": "Moving particles raises the remake flag", "statement": "Every SimData call that can change the slot of a live particle (doParticleRemoval that moves one, sortParticles) leaves the needs-remake flag raised, so that neighbour lists holding local ids are rebuilt.", "quantifier": "every store state, every mark pattern and sort", "why_tests_cant": "the stale list only shows for particular moves", "anchors": ["GFlowSim/src/base/simdata.cpp:doParticleRemoval, sortParticles", "GFlowSim/src/base/simdata.hpp:needs_remake"]}
{"id": "C65", "title": "Centre attraction is a constant acceleration towards the centre", "statement": "With setAttraction(g), every live particle of finite mass gets per step a force whose acceleration has magnitude |g| and points along the line to the box centre (towards it for g>0), independent of mass and distance; dead particles get none.", "quantifier": "all positions, masses and dimensions", "why_tests_cant": "a statement over all real positions and masses", "anchors": ["GFlowSim/src/gflow.cpp:attractPositions", "GFlowSim/src/utility/vectormath.hpp:normalizeVec"]}
{"id": "C66", "title": "Pairs are routed to the interaction of their types", "statement": "When the interaction handler hands a pair of particles on, it goes exactly to the interaction object the force master holds for the ordered pair of their types, with the cutoff of this object; pairs of types without an interaction are dropped.", "quantifier": "all tables built by any history of calls, all particle types, all sequences of pairs", "why_tests_cant": "a statement over all tables and all sequences of pairs", "anchors": ["GFlowSim/src/base/interactionhandler.cpp:set_up_grids,pair_interaction", "GFlowSim/src/base/forcemaster.cpp:setInteraction"]}
{"id": "C67", "title": "The time step limit chosen at the start of a run respects all interactions", "statement": "At the start of a run the maximal time step is never raised, stays positive, and is at most the configured fraction of the time scale suggested by each interaction for the lightest movable particle.", "quantifier": "all masses, all interactions and all previous limits", "why_tests_cant": "a statement over all sets of masses and suggestions", "anchors": ["GFlowSim/src/base/forcemaster.cpp:pre_integrate,compute_timescale"]}
{"id": "C68", "title": "Central forces exert no net torque", "statement": "On pairs that are not wrapped around the boundary, each central force leaves the total torque about any coordinate plane unchanged, for every neighbour list.", "quantifier": "all positions, lists and dimensions", "why_tests_cant": "a statement over all neighbour lists and real positions", "anchors": ["GFlowSim/src/interactions/generic-forces.hpp", "GFlowSim/src/interactions/generic-handlers.hpp"]}
{"id": "C69", "title": "The virial accounts for the forces", "statement": "With virial computation on, each pair adds the scalar product of its force and displacement to the virial; turning the energy or virial computation on or off changes no force.", "quantifier": "all pairs, forces and flag settings", "why_tests_cant": "a statement over all real configurations", "anchors": ["GFlowSim/src/interactions/generic-forces.hpp"]}
{"id": "C70", "title": "The chained length of a group is the sum of consecutive distances", "statement": "getChainedLength returns the sum over consecutive members of the group of their distance, computed with the boundary conditions of the simulation.", "quantifier": "all groups with at least one member, all positions and boundary conditions", "why_tests_cant": "a sum over lists of any length and real positions", "anchors": ["GFlowSim/src/other/group.cpp:getChainedLength"]}
{"id": "C71", "title": "Angle chains apply the spring forces of their bonds and the forces of their angles", "statement": "For a chain of at least three atoms, interact adds to each atom the spring forces of its bonds and the forces of the angles it takes part in; these sum to zero over the chain, an angle force is perpendicular to its bond, straightens the chain and exerts no net torque; getForce reports the change of the force on each atom.", "quantifier": "all chains of any length, all positions, constants and boundary conditions", "why_tests_cant": "a statement over chains of any length at all real positions", "anchors": ["GFlowSim/src/bonded/angle_harmonic_chain_2d.cpp:interact", "GFlowSim/src/bonded/angle_harmonic_chain_3d.cpp:interact", "GFlowSim/src/utility/vectormath.hpp:tripleProduct2"]}
{"id": "C72", "title": "Springs between groups conserve momentum", "statement": "interact of a spring between two groups leaves the sum of all forces unchanged.", "quantifier": "all groups, masses, positions and spring parameters", "why_tests_cant": "a statement over groups of any size and real masses", "anchors": ["GFlowSim/src/bonded/twogroupharmonic.cpp:interact,pre_integrate,setGroupB", "GFlowSim/src/other/group.cpp:addAcceleration"]}
{"id": "C73", "title": "The adapted time step limits how far a particle moves per step", "statement": "After each adaptation of the time step every owned particle moves in one step by at most the characteristic length divided by the target number of steps, unless the time step is at its lower limit; the maximal speed used is an upper bound of all speeds in the serial and in the vectorised version.", "quantifier": "all states, velocities, numbers of particles, dimensions and vector widths", "why_tests_cant": "a statement over all real velocities and array sizes", "anchors": ["GFlowSim/src/base/integrator.cpp:pre_step,get_max_velocity,get_max_acceleration"]}
{"id": "C74", "title": "Velocity Verlet conserves angular momentum", "statement": "When the forces exert no total torque in any configuration, velocity Verlet conserves the total angular momentum exactly, for any number of steps of any size.", "quantifier": "all forces without torque, all masses, numbers of particles, dimensions and sequences of time steps", "why_tests_cant": "a statement over runs of any length at all real states", "anchors": ["GFlowSim/src/integrators/velocity-verlet.tpp:pre_forces,post_forces"]}
{"id": "C75", "title": "The angular integrator treats every particle", "statement": "In each half kick of the angular integrator every particle's angular velocity gets half a time step of torque over moment of inertia, and each angle moves by the time step times its angular velocity, serially and vectorised.", "quantifier": "all numbers of particles, torques, masses, radii and vector widths", "why_tests_cant": "a statement over arrays of any size", "anchors": ["GFlowSim/src/integrators/angularvelocityverlet2d.cpp:update_position,update_velocity"]}
{"id": "C76", "title": "Ghost copies reach every processor that needs them", "statement": "A particle is copied as a ghost to a processor exactly when its position, or a periodic image of it, is within its cutoff of that processor's bounds; neighbour relations are symmetric and also hold after the simulation bounds were changed.", "quantifier": "all simulation bounds, numbers of processors, dimensions, boundary conditions, positions and cutoffs", "why_tests_cant": "it is a statement about all positions and all decompositions; tests run on one processor", "anchors": ["GFlowSim/src/parallel/kdtreetopology.cpp:find_neighbors,domain_overlaps,create_ghost_particles,computeTopology"]}
{"id": "C77", "title": "Particles move to the processor that owns them", "statement": "In an exchange a live particle inside the bounds of its processor stays, and every other particle in the simulation bounds is sent to the one processor whose bounds contain it.", "quantifier": "all simulation bounds, numbers of processors, boundary conditions and positions", "why_tests_cant": "it is a statement about all positions and all decompositions; tests run on one processor", "anchors": ["GFlowSim/src/parallel/kdtreetopology.cpp:exchange_particles,domain_ownership,find_neighbors"]}
{"id": "C78", "title": "Recorded frames hold exactly the requested data", "statement": "A frame recorded by StoreData holds, for each owned particle that is alive and selected, in slot order, exactly the requested data that exists, in the order of the request, followed by the rank; its length is the data width times the number of those particles. This holds in every run of the simulation.", "quantifier": "all particle data, requests, selections and numbers of runs", "why_tests_cant": "a statement over stores of any size and any number of runs; a write past the end is silent", "anchors": ["GFlowSim/src/compute/store_data.cpp:initialize,store", "GFlowSim/src/dataobjects/positiondata.cpp:pre_integrate,post_step"]}
{"id": "C79", "title": "A force remover keeps its group from drifting", "statement": "From the start of a run, a group with a force remover has neither net force nor momentum along the chosen direction; the accelerations of the members relative to each other, forces perpendicular to the direction and all other particles are as without it, also after particles were reordered or removed.", "quantifier": "all groups, masses, directions, forces and sequences of time steps", "why_tests_cant": "a statement over groups of any size and runs of any length", "anchors": ["GFlowSim/src/modifiers/force-remover.cpp:pre_integrate,post_forces", "GFlowSim/src/base/modifier.cpp"]}
{"id": "C80", "title": "A torque remover keeps its group from spinning", "statement": "A torque remover takes the angular momentum of its group about the centre of mass away at the start of a run, and the total torque in each step, without changing the net force or other particles.", "quantifier": "all groups, positions, masses, velocities and forces", "why_tests_cant": "a statement over groups of any size at all real states", "anchors": ["GFlowSim/src/modifiers/torque-remover.cpp:pre_integrate,post_forces,correct"]}
{"id": "C81", "title": "Sliding walls move rigidly along one axis; a pair of walls is kept in its range", "statement": "All particles of a sliding wall are displaced by the same amount along the sliding axis and stay in place along the others, driven by the net force along the axis; the reported length is the extent of the wall. TwoWallModifier applies no force between the walls inside the allowed range of distances and equal and opposite restoring forces outside of it.", "quantifier": "all walls, masses, forces, sequences of time steps, distances and limits", "why_tests_cant": "a statement over walls of any size and runs of any length", "anchors": ["GFlowSim/src/body/wallslidebody.cpp:correct,pre_integrate,getLength", "GFlowSim/src/modifiers/twowallmodifier.cpp:post_forces"]}
{"id": "C82", "title": "Prescribed motions are followed exactly", "statement": "A particle with a ConstantVelocity modifier moves with exactly that velocity from its first step on, whatever forces act; with ConstantVelocityDistance it does so until it travelled the given distance (by at most one step more) and then rests. Other particles move as without the modifier. When the particle is gone the modifier asks to be removed.", "quantifier": "all velocities, distances, forces, masses and sequences of time steps", "why_tests_cant": "a statement over runs of any length with arbitrary forces", "anchors": ["GFlowSim/src/modifiers/constantvelocity.cpp:post_forces", "GFlowSim/src/modifiers/constantvelocitydistance.cpp:post_forces"]}
{"id": "C83", "title": "Body forces and damping act as documented", "statement": "ConstantAcceleration adds mass times acceleration to the force of each owned particle of finite mass, so that free particles follow the exact parabola; the damping modifiers add a drag that opposes the velocity, over the whole of each time step, in the serial and the vectorised version.", "quantifier": "all particle data, accelerations, damping constants, vector widths and sequences of time steps", "why_tests_cant": "a statement over arrays of any size and runs of any length", "anchors": ["GFlowSim/src/modifiers/constantacceleration.cpp:post_forces", "GFlowSim/src/modifiers/linearvelocitydamping.cpp:pre_forces", "GFlowSim/src/modifiers/quadraticvelocitydamping.cpp:pre_forces"]}
{"id": "C84", "title": "Tunnels drive exactly the particles at the ends", "statement": "WindTunnel and StreamTunnel set the velocity of the movable particles in the regions at the ends of the box to the stream velocity, up to a small multiple of the force, take their force away, and leave all others alone; StreamTunnel removes exactly the live particles that left the box on the right.", "quantifier": "all boxes, positions, forces, numbers of particles and processors' bounds", "why_tests_cant": "a statement over arrays of any size at all real positions", "anchors": ["GFlowSim/src/modifiers/windtunnel.cpp:post_forces", "GFlowSim/src/modifiers/stream-tunnel.cpp:post_forces"]}
{"id": "C85", "title": "The stream tunnel creates a regular inflow", "statement": "In the frame of the stream all columns of particles that StreamTunnel creates lie on one grid without gaps or repetitions, however the times of creation fall; on several processors the points of the grid are divided between them; the stripe data of new particles is written safely.", "quantifier": "all stream velocities, spacings, times of calls, processor bounds and array capacities", "why_tests_cant": "a statement over runs of any length and all decompositions", "anchors": ["GFlowSim/src/modifiers/stream-tunnel.cpp:pre_integrate,pre_forces,recursive_fill"]}
{"id": "C86", "title": "Modifiers with an update interval keep it in each run", "statement": "TemperatureModifier (and StripeX) acts in every run at the first call after each interval, never more often.", "quantifier": "all sequences of times of calls, intervals and runs", "why_tests_cant": "a statement over all histories of calls", "anchors": ["GFlowSim/src/modifiers/temperaturemodifier.cpp:post_forces", "GFlowSim/src/modifiers/stripe-x.cpp:post_forces"]}
{"id": "C87", "title": "The Maxwell demon counts, decides and goes back correctly", "statement": "The demon counts each movable particle on one side and each crossing once; it keeps a window exactly when its rule allows; a rejected window leaves no trace: the state is that of the checkpoint, with the door closed; it never rejects twice in a row.", "quantifier": "all states, kinds of demon, partitions and histories of calls", "why_tests_cant": "a statement over systems of any size and all histories", "anchors": ["GFlowSim/src/modifiers/demon.cpp:pre_forces,count_changes,assign_side,checkpoint_data,revert_to_last_checkpoint,open_door,close_door"]}
{"id": "C88", "title": "Regions: membership, volume and random positions agree", "statement": "The volume that a rectangular or spherical region reports is the volume of the set of points it says it contains, in every dimension; its bounding box is the smallest box around it; every random position lies in the region and every point of it can come out. The radius of a sphere of given volume inverts the volume of a sphere of given radius.", "quantifier": "all dimensions, limits, centres, radii, and all sequences of random numbers", "why_tests_cant": "a statement about measures of continuous sets and all random sequences", "anchors": ["GFlowSim/src/other/region.cpp:pick_position,contains,vol,get_bounding_box", "GFlowSim/src/utility/utility.hpp:sphere_volume,inv_sphere_volume"]}
{"id": "C89", "title": "A wall is a straight line of particles from its start to its end without gaps, created once", "statement": "WallCreator places particles on the segment between the start and the end point, at equal distances that are at most the requested spacing (by default: touching), from the start to the end; each particle is created on one processor only.", "quantifier": "all end points, radii, spacings and decompositions", "why_tests_cant": "a statement over all real parameters and any number of processors", "anchors": ["GFlowSim/src/creators/wallcreator.cpp:createArea"]}
{"id": "C90", "title": "A circle or sphere of particles has the given radius, no holes, and is created once", "statement": "CircleCreator places particles exactly at the given distance from the centre, close enough that every point of the circle or sphere is near a particle; each particle inside the simulation bounds is created on exactly one processor.", "quantifier": "all dimensions from two, radii, particle sizes, packings, centres and decompositions", "why_tests_cant": "a statement over all real parameters, points of the sphere and dimensions", "anchors": ["GFlowSim/src/creators/circle-creator.cpp:createArea,recursive_circle"]}
{"id": "C91", "title": "Filling a region creates the requested number or density of particles outside excluded regions, over all processors", "statement": "A Fill block with a number creates that number of particles of each template; with a volume fraction or number density it draws particles until the density is reached and no longer; no particle is placed in an excluded region; the work is divided between the processors without changing the totals.", "quantifier": "all templates, numbers, densities, random sequences, excluded regions and decompositions", "why_tests_cant": "a statement over all random sequences and any number of processors", "anchors": ["GFlowSim/src/creators/fillareacreator.cpp:createArea"]}
{"id": "C92", "title": "Initial velocities have exactly the requested temperature", "statement": "When a temperature is given, the velocities of the created particles are scaled so that their kinetic energy is that of the temperature, for any number of particles.", "quantifier": "all numbers of particles, random velocities, masses, temperatures and excluded regions", "why_tests_cant": "a statement over all particle numbers and all random velocities", "anchors": ["GFlowSim/src/creators/fillareacreator.cpp:createArea", "GFlowSim/src/base/creator.cpp:fix_particle_velocities"]}
{"id": "C93", "title": "Templates: masses, radii and types follow the given distributions", "statement": "A particle made from a template has the given mass or density in every dimension; proportional radii stay in their limits and have the documented distribution; a discrete distribution yields its values with the given probabilities.", "quantifier": "all radii, densities, dimensions, limits, probabilities and random numbers", "why_tests_cant": "a statement about probability distributions and all real parameters", "anchors": ["GFlowSim/src/creators/particletemplate.cpp:createParticle", "GFlowSim/src/utility/randomengines.hpp", "GFlowSim/src/creators/helperclasses/parse-constructor.cpp:getRandomEngine"]}
{"id": "C94", "title": "Each particle of a fill area gets the velocity chosen for it, after relaxation, removals and sorting", "statement": "When a fill area creates particles, their ids are new; whatever the relaxation does to the system afterwards, assigning the initial velocities gives each surviving particle of the area exactly the velocity chosen for it, and changes nothing else.", "quantifier": "all histories before and during the relaxation and all lists of particles", "why_tests_cant": "a statement over all histories of moves, removals, sorts and creations", "anchors": ["GFlowSim/src/base/creator.cpp:fix_particle_velocities", "GFlowSim/src/creators/fillareacreator.cpp:createArea", "GFlowSim/src/creators/particlefixer.hpp:ParticleFixer"]}
{"id": "C95", "title": "Polymers have the requested composition and do not overlap; lines of particles fill their length", "statement": "A random polymer has the number of primary particles that its fraction requires, links for the rest of its length, and no overlapping primary particles; the particles of random and ordered lines do not overlap and stay within the length and the box; masses follow the densities; the initial velocities are assigned safely.", "quantifier": "all lengths, fractions, radii, boxes and random numbers", "why_tests_cant": "a statement over all real parameters and random sequences", "anchors": ["GFlowSim/src/creators/polymercreator.cpp:createPolymerArrangement,createSinglePolymer,createRandomLine,createOrderedLine,createParallelPolymers,createArea"]}
{"id": "C96", "title": "The box creator fills its box to the requested fraction", "statement": "BoxCreator creates the requested number of particles, or as many as the volume fraction requires, all inside the box, with unit density and random kinetic energies, in every dimension.", "quantifier": "all widths, heights, fractions, radii, dimensions and random numbers", "why_tests_cant": "a statement over all real parameters", "anchors": ["GFlowSim/src/creators/boxcreator.cpp:createSimulation"]}
{"id": "C97", "title": "Reserving space keeps the particle store consistent", "statement": "After reserve the store is consistent (look-ups, pending removals, counts), and the requested number of particles can be added without moving the arrays.", "quantifier": "all stores reached by any history and all amounts", "why_tests_cant": "a statement over all histories of the store", "anchors": ["GFlowSim/src/base/simdata.cpp:reserve", "GFlowSim/src/base/particle-data.hpp:reserve,resize,clear_all"]}
{"id": "C98", "title": "Renumbering of ids at the end of the setup keeps every particle, its look-up and the groups", "statement": "correct_global_ids adds the same offset to the ids of all particles of a processor; look-ups remain exact; groups of bonded forces and modifiers refer to the same particles as before.", "quantifier": "all stores reached by any history, all ranks and numbers of particles", "why_tests_cant": "a statement over all histories and numbers of processors", "anchors": ["GFlowSim/src/base/creator.cpp:correct_global_ids", "GFlowSim/src/base/simdata.cpp:shift_global_ids", "GFlowSim/src/other/group.cpp:shift_global_ids"]}
{"id": "C99", "title": "Removal of bad particles removes exactly those", "statement": "removeBadParticles removes exactly the particles with a position or velocity that is not a number; the others keep their data and look-ups; it reports whether there were any.", "quantifier": "all stores reached by any history", "why_tests_cant": "a statement over all histories of the store", "anchors": ["GFlowSim/src/base/simdata.cpp:removeBadParticles"]}
{"id": "C100", "title": "Vectors behave as values", "statement": "Any program of constructions, copies, assignments, moves, changes of entries and destructions of vectors runs without invalid memory access, copies are independent of their sources, and after the destruction of all vectors no memory is left allocated.", "quantifier": "all programs of these operations, all sizes and contents", "why_tests_cant": "a statement over all sequences of operations and aliasing patterns", "anchors": ["GFlowSim/src/utility/vec.hpp:Vec,operator=,~Vec"]}
{"id": "C101", "title": "Loops over boxes of any dimension execute each index exactly once", "statement": "for_loop executes its body once for every index of the box, first coordinate fastest; the version with a maximum executes exactly the first max bodies, with consecutive counts.", "quantifier": "all dimensions, limits, bodies and maxima", "why_tests_cant": "a statement over all dimensions and boxes", "anchors": ["GFlowSim/src/utility/generic-dimension.hpp:for_loop,for_loop_helper,for_loop_helper_max"]}
{"id": "C102", "title": "The vector templates act on each component independently, also in place", "statement": "Each template function for vectors applies its operation to the components as they were before the call and changes nothing else, also when the result overwrites an operand; the dot product is the sum of the products; normalisation fails exactly for the zero vector and otherwise yields a unit vector in the same direction.", "quantifier": "all dimensions, vectors and aliasing of whole vectors", "why_tests_cant": "a statement over all dimensions and real vectors", "anchors": ["GFlowSim/src/utility/generic-dimension.hpp:add_vec,subtract_vec,dot_vec,normalize_vec,copy_vec"]}
{"id": "C103", "title": "The linked list domain reports every interacting pair exactly once", "statement": "traversePairs of DomainList calls its body exactly once for every pair of particles within the interaction distance plus the skin depth, and for no other pair as an ordinary one.", "quantifier": "all configurations of particles, radii, cutoffs and boxes in two dimensions", "why_tests_cant": "a statement over all configurations", "anchors": ["GFlowSim/src/domains/domain-list.cpp:traversePairs,structure_updates,calculate_domain_cell_dimensions"]}
{"id": "C104", "title": "Removing overlapping particles leaves no excessive overlap", "statement": "After GFlow::removeOverlapping(factor) no two remaining particles overlap by more than factor times the smaller radius; only particles that did so are removed, immovable particles are kept, and the others are unchanged.", "quantifier": "all configurations of particles, masses, types and factors", "why_tests_cant": "particles are marked while the traversal runs, so the outcome depends on the order of visits in every configuration", "anchors": ["GFlowSim/src/base/interactionhandler.cpp:removeOverlapping", "GFlowSim/src/domains/domain.cpp:traversePairs", "GFlowSim/src/base/simdata.tpp:markForRemoval"]}
{"id": "C105", "title": "Relaxation during setup is transparent", "statement": "Hard sphere relaxation and relaxation in the setup change the particles only: afterwards the integrator, force master, interactions and run mode are those that were configured, all times are zero, and no component uses an object of the relaxation.", "quantifier": "all simulations, sets of components and relaxation times", "why_tests_cant": "a statement over all sets of components and their references, including deleted objects", "anchors": ["GFlowSim/src/base/creator.cpp:hs_relax,relax", "GFlowSim/src/gflow.cpp:initialize,initializeBase,run,resetAllTimes"]}
{"id": "C106", "title": "The picture shows the nearest sphere", "statement": "For every pixel of a ray traced picture the sphere that is shown is the first one that the ray of the pixel meets in the scene, with or without the search tree, and the background is shown only if the ray passes through no sphere.", "quantifier": "all scenes of spheres, search trees, boxes and rays", "why_tests_cant": "real geometry over all scenes and trees; errors show up only for particular positions of spheres relative to the splitting planes", "anchors": ["GFlowSim/src/visualization/raykdtree.cpp:insert,traverse,getRayIntersectionParameters", "GFlowSim/src/visualization/raytrace.cpp:brute_force_traverse,trace", "GFlowSim/src/visualization/raytracestructs.cpp:intersect"]}
{"id": "C107", "title": "Overdamped motion and the end of relaxation", "statement": "With the overdamped integrator every particle moves in each step by the damping constant times its acceleration times the time step, immovable particles stay, balanced forces do not move the centre of mass, and no particle moves farther per step than the mean radius divided by the target number of steps; a fixed time step is respected. Relaxation ends only when all accelerations are below the allowed one.", "quantifier": "all histories of forces, particle numbers, dimensions and loop versions", "why_tests_cant": "a statement over all histories of forces; the calculation of the time step happens only in some steps", "anchors": ["GFlowSim/src/integrators/overdamped-integrator.tpp:post_forces,calculate_time_step,pre_integrate", "GFlowSim/src/integrators/relax-integrator.tpp:post_forces", "GFlowSim/src/base/integrator.cpp:get_max_acceleration"]}
{"id": "C108", "title": "Langevin motion", "statement": "The Langevin integrators add noise whose total strength over a run is proportional to temperature over viscosity and to the elapsed time, independent of the time steps, in every run; drag slows particles, immovable particles are not accelerated, and a larger viscosity slows the motion of the overdamped version.", "quantifier": "all times of steps, forces, random numbers, temperatures, viscosities and histories of runs and setters", "why_tests_cant": "a statement over all histories of runs and real parameters", "anchors": ["GFlowSim/src/integrators/langevinintegrator.cpp:pre_forces,post_forces", "GFlowSim/src/integrators/langevintypeintegrator.cpp", "GFlowSim/src/integrators/overdampedlangevin.cpp:post_forces"]}
{"id": "C109", "title": "The wall of the demon repels, and frees itself when it is turned on", "statement": "While it is closed the demon's wall pushes touching particles away along the line to their nearest image with balanced forces and changes nothing else. When it is turned on every movable particle that touches it is put at a free place on its own side with its speed unchanged, no forces act, and nothing else moves.", "quantifier": "all configurations, pair lists, random numbers, boundary conditions and dimensions", "why_tests_cant": "a statement over all random sequences and configurations; particles move while the pairs are visited", "anchors": ["GFlowSim/src/interactions/demon_wall.cpp:interact,turnOn", "GFlowSim/src/domains/domain.cpp:getAllWithin"]}
{"id": "C110", "title": "Variables and values of setup files", "statement": "A variable has the value that the program set, otherwise that of the command line if its name is defined in the file, otherwise that of its first definition; values are evaluated with the definitions before them, in every simulation that is made from the file; empty values are refused.", "quantifier": "all setup files, command lines and histories of simulations", "why_tests_cant": "a statement over all files, command lines and histories", "anchors": ["GFlowSim/src/creators/fileparsecreator.cpp:setVariable,createFromOptions", "GFlowSim/src/utility/ArgParse.hpp:get"]}
{"id": "C111", "title": "The interaction table of setup files", "statement": "Between two types acts the interaction that the last entry of the table for these types names, with the parameters of that entry, and none if there is no entry or it says None; illegal types and unknown names are refused.", "quantifier": "all tables, numbers of types and parameters, after any history", "why_tests_cant": "a statement over all tables", "anchors": ["GFlowSim/src/creators/fileparsecreator.cpp:createFromOptions", "GFlowSim/src/creators/helperclasses/parse-constructor.cpp:getInteraction", "GFlowSim/src/interactions/interaction-choice.cpp:choose", "GFlowSim/src/base/forcemaster.cpp:setInteraction"]}
{"id": "C112", "title": "Boundary conditions and single particles of setup files", "statement": "Each direction gets the boundary condition that the file gives for it, periodic by default. A particle entry creates one particle with the given position, velocity, radius, type and mass, and its modifiers act on this particle with the given distance; incomplete entries are refused.", "quantifier": "all files, dimensions and options", "why_tests_cant": "a statement over all files", "anchors": ["GFlowSim/src/creators/fileparsecreator.cpp:createFromOptions,choose_bc,createParticle", "GFlowSim/src/utility/treeparser.cpp:begin,arg"]}
{"id": "C113", "title": "Recorded energies are the energies of the system", "statement": "At each record the kinetic, rotational and total energy are the sums over all movable particles of all processors that are not removed, each counted once, plus (for the total energy) the potentials of all interactions, bonds and the boundary; as averages they are divided by the number of these particles. They do not depend on the distribution of the particles over processors.", "quantifier": "all sets of particles, dimensions, numbers of processors and distributions", "why_tests_cant": "a statement over all particle sets and all their distributions over processors", "anchors": ["GFlowSim/src/dataobjects/graphobjects/kineticenergydata.cpp:post_step,calculate_kinetic", "GFlowSim/src/dataobjects/graphobjects/rotational-energy-data.cpp:post_step", "GFlowSim/src/dataobjects/graphobjects/total-energy-data.cpp:post_step", "GFlowSim/src/dataobjects/dataobjecttypes/graphobject.cpp:gatherData,gatherAverageData"]}
{"id": "C114", "title": "Recorded averages and counts", "statement": "Average speed, angular velocity, velocity and position are averages over the movable particles of all processors; numbers per type, the filled fraction and the kinetic energy per type count every particle that is not removed exactly once.", "quantifier": "all sets of particles, dimensions, windows, numbers of types and of processors", "why_tests_cant": "a statement over all particle sets", "anchors": ["GFlowSim/src/dataobjects/graphobjects/average-speed-data.cpp:post_step", "GFlowSim/src/dataobjects/graphobjects/average-omega-data.cpp:post_step", "GFlowSim/src/dataobjects/multigraphobjects/average-velocity-data.cpp:post_step", "GFlowSim/src/dataobjects/multigraphobjects/average-position-data.cpp:post_step", "GFlowSim/src/dataobjects/multigraphobjects/number-data.cpp:post_step", "GFlowSim/src/dataobjects/multigraphobjects/phi-data.cpp:post_step", "GFlowSim/src/dataobjects/kineticenergytypesdata.cpp:post_step", "GFlowSim/src/dataobjects/multigraphobjects/oscillation-data.cpp:post_integrate"]}
{"id": "C115", "title": "Temperature and pressure", "statement": "The temperature satisfies equipartition with the kinetic energy, and the recorded pressure is that of the virial equation, for any number of processors.", "quantifier": "all sets of particles, virials, volumes and numbers of processors", "why_tests_cant": "a statement over all states", "anchors": ["GFlowSim/src/dataobjects/graphobjects/kineticenergydata.cpp:calculate_temperature", "GFlowSim/src/dataobjects/graphobjects/pressuredata.cpp:calculate_pressure,post_step", "GFlowSim/src/base/simdata.cpp:number"]}
{"id": "C116", "title": "Every run is recorded afresh", "statement": "After a run each data object holds exactly the records of this run, as a new object would, whatever was run before.", "quantifier": "all histories of runs, times of steps, delays and kinds of data objects", "why_tests_cant": "a statement over histories of runs", "anchors": ["GFlowSim/src/dataobjects/dataobjecttypes/graphobject.cpp:pre_integrate", "GFlowSim/src/dataobjects/dataobjecttypes/multigraphobject.cpp:pre_integrate", "GFlowSim/src/dataobjects/graphobjects/total-energy-data.cpp:pre_integrate", "GFlowSim/src/dataobjects/graphobjects/pressuredata.cpp:pre_integrate", "GFlowSim/src/dataobjects/graphobjects/persistence-length.cpp:pre_integrate", "GFlowSim/src/base/dataobject.cpp:pre_integrate,_check"]}
{"id": "C117", "title": "Histograms over distances", "statement": "Histograms over the distance from the centre, from a line or from a group put each particle within the radius into the one bin that contains its distance, and nothing is written outside of them.", "quantifier": "all radii, numbers of bins and distances, any number of records and runs", "why_tests_cant": "a statement over all real distances, including the edges of bins", "anchors": ["GFlowSim/src/dataobjects/graphobjects/kineticenergybin.cpp:post_integrate", "GFlowSim/src/dataobjects/graphobjects/center-correlation.cpp:post_step", "GFlowSim/src/dataobjects/graphobjects/group-correlation.cpp:post_step"]}
{"id": "C118", "title": "Distance from a chain and persistence length", "statement": "The distance of a particle from a chain is the smallest distance from all points of its bonds. The persistence data holds, for each number of bonds, the average cosine between the first bond and the bond that many places further.", "quantifier": "all chains, positions, dimensions and numbers of records", "why_tests_cant": "a statement over all geometries", "anchors": ["GFlowSim/src/dataobjects/graphobjects/group-correlation.cpp:post_step", "GFlowSim/src/dataobjects/graphobjects/persistence-length.cpp:pre_integrate,post_step,post_integrate", "GFlowSim/src/utility/vec.hpp:normalize"]}
{"id": "C119", "title": "Output of a run is complete", "statement": "When writing the data reports success, the output of every data object, the given files and the summary are found in the output directory with the content they were written with, and nothing of an earlier run is found there.", "quantifier": "all file systems, output directories, lists of data objects and given files", "why_tests_cant": "a statement over all directories and combinations of data objects", "anchors": ["GFlowSim/src/base/datamaster.cpp:writeToDirectory,create_directory,setWriteDirectory", "GFlowSim/src/base/dataobject.cpp:_correctDirName", "GFlowSim/src/dataobjects/dataobjecttypes/graphobject.cpp:writeToFile"]}
{"id": "C120", "title": "Only the output directory is touched", "statement": "Writing the data changes files in the output directory only: files and directories elsewhere are never changed or removed.", "quantifier": "all file systems, names of directories and histories of writing", "why_tests_cant": "a statement over all names and all files of the file system", "anchors": ["GFlowSim/src/base/datamaster.cpp:writeToDirectory,create_directory,setWriteDirectory"]}
{"id": "C121", "title": "Particle statistics of the summary", "statement": "The summary of a run gives the average and the range of the radius, density, mass, speed and kinetic energy of the movable particles.", "quantifier": "all sets of particles", "why_tests_cant": "a statement over all sets of particles", "anchors": ["GFlowSim/src/base/datamaster.cpp:writeParticleData"]}
{"id": "C122", "title": "Type table and packing fraction of the summary", "statement": "The summary gives, for each type, the number of particles of that type over all processors and their percentage, and the fraction of the volume that is filled by particles.", "quantifier": "all sets of particles, types and decompositions over processors", "why_tests_cant": "a statement over all decompositions", "anchors": ["GFlowSim/src/base/datamaster.cpp:writeSummary,writeParticleData"]}
{"id": "C123", "title": "Volume plots", "statement": "A volume plot holds in each of its bins the sum of the values of the particles in that part of the focus window, accesses only its bins, and is written as one line per row.", "quantifier": "all windows, numbers of bins, particles and numbers of steps and runs", "why_tests_cant": "a statement over all shapes of windows", "anchors": ["GFlowSim/src/dataobjects/dataobjecttypes/volumeplotobject2d.cpp:setBins,addToBin,writeToFile,pre_integrate", "GFlowSim/src/dataobjects/volumeplotobjects/velocity-volumeplot.cpp:post_step"]}
{"id": "C124", "title": "Torque and angular momentum of a group", "statement": "The recorded torque, angular momentum and moment of inertia of a group are those around its centre of mass: forces between the members and uniform accelerations have no torque, a common velocity does not change the angular momentum, and the group may lie across periodic boundaries.", "quantifier": "all groups, masses, positions, forces and boundary conditions, in all dimensions", "why_tests_cant": "a statement over all configurations, including groups across boundaries", "anchors": ["GFlowSim/src/dataobjects/graphobjects/grouptorque.cpp:calculate_torque,post_step", "GFlowSim/src/dataobjects/multigraphobjects/groupangular.cpp:calculate_angular_quantities", "GFlowSim/src/other/group.cpp:findCenterOfMass", "GFlowSim/src/utility/vectormath.hpp:crossVec2"]}
{"id": "C125", "title": "Statistics of two groups", "statement": "The histograms of two groups count, for every distance and relative force (velocity), the records whose values are in the bin; a record holds the distance of the centres of mass and the relative force and velocity along their connection and does not depend on the order of the groups.", "quantifier": "all groups, numbers of bins, sequences of records and runs", "why_tests_cant": "a statement over all real values, including the edges of bins, and all histories", "anchors": ["GFlowSim/src/dataobjects/twogroupstatistics.cpp:pre_integrate,post_step,writeToFile,setBins"]}
{"id": "C126", "title": "Force between two walls", "statement": "The force between two walls is given for each distance as the average of the forces on both walls over the moments in which they had this distance.", "quantifier": "all bins, positions, forces and histories of records", "why_tests_cant": "a statement over all real distances and all histories", "anchors": ["GFlowSim/src/dataobjects/multigraphobjects/twowallbinforce.cpp:pre_integrate,post_forces,post_integrate", "GFlowSim/src/gflow.cpp:minimumImage"]}
{"id": "C127", "title": "Force between two polymers", "statement": "The force between two polymers is given for each distance as the average force, without that of the own chain, on the particles that have this distance from the other polymer, in the direction to the other polymer.", "quantifier": "all polymers, positions, forces, bins and histories of records", "why_tests_cant": "a statement over all geometries and histories", "anchors": ["GFlowSim/src/dataobjects/multigraphobjects/twopolymerbinforce.cpp:pre_integrate,post_forces,find_forces,post_integrate"]}
{"id": "C128", "title": "The forces of a step are those of all pairs", "statement": "Whatever neighbour lists, cells and containers are used, the force on a particle is the sum over all other particles of the force of the interaction set for their types, towards the nearest image, and the reported potential energy is that of all pairs, each counted once; rebuilding the lists or the class of the container does not change them.", "quantifier": "all numbers of particles, dimensions, positions, tables of interactions, force laws, containers, and all motions since the lists were built that the skin depth allows", "why_tests_cant": "a statement over all systems and all times of construction, composed of grid, lists, tables and kernels", "anchors": ["GFlowSim/src/base/interactionhandler.cpp:construct,set_up_grids,pair_interaction", "GFlowSim/src/base/forcemaster.cpp:interact,getTotalPotentialEnergy", "GFlowSim/src/interactions/generic-handlers.hpp", "GFlowSim/src/interactions/generic-forces.hpp", "GFlowSim/src/base/domainbase.cpp"]}
{"id": "C129", "title": "Runs do not depend on the machinery of neighbour lists", "statement": "A run moves the particles as if the forces were summed over all pairs in every step and positions were never wrapped: velocities and forces are the same and positions differ by whole widths of the wrapping dimensions, whenever the neighbour lists are rebuilt in time; total momentum is conserved.", "quantifier": "all systems, numbers of steps, time steps, vector widths, containers, and all timely sequences of decisions on rebuilding", "why_tests_cant": "a statement over all schedules of rebuilding and unboundedly many steps", "anchors": ["GFlowSim/src/gflow.cpp:run,wrapPositions", "GFlowSim/src/base/interactionhandler.cpp:pre_integrate,pre_forces,construct", "GFlowSim/src/base/simdata.cpp:update", "GFlowSim/src/integrators/velocity-verlet.tpp:pre_forces,post_forces", "GFlowSim/src/base/forcemaster.cpp:interact"]}
{"id": "C130", "title": "Percolation data hold the cluster sizes of each recorded step; the percolation snapshot lists every particle once, in its cluster", "statement": "After a run the percolation data have one more entry for every step at which data is recorded, and the entry holds the numbers of particles of the clusters (particles connected by chains of neighbours within the skin given, of the same type) at that step; the percolation snapshot has one record for each cluster, with positions and radii of exactly its particles, each once, and their number.", "quantifier": "all times, cadences, numbers of particles, neighbour relations, positions, earlier records", "why_tests_cant": "clusters are of any shape and size and a snapshot must be a partition for every configuration", "anchors": ["GFlowSim/src/dataobjects/percolationdata.cpp:PercolationData::post_step", "GFlowSim/src/dataobjects/percolationsnapshot.cpp:PercolationSnapshot::post_integrate", "GFlowSim/src/dataobjects/clustering.cpp:Clustering::findClusters"]}
{"id": "C131", "title": "Each pixel of a drawn image shows the closest colour drawn on it", "statement": "Whatever is drawn on the palettes of an image, at whatever positions, nothing is written outside of the image; each pixel of the bitmap has the colour with the least depth drawn on it, the first drawn if several have that depth, or the background colour if none was drawn; covering a palette colours exactly its own pixels.", "quantifier": "all sizes of images, palettes, sequences of drawing operations, colours and depths", "why_tests_cant": "the order and place of drawing operations is arbitrary", "anchors": ["GFlowSim/src/visualization/palette.cpp:Image::set,Image::setBMP,Palette::setPixel,Palette::coverPalette"]}
{"id": "C132", "title": "A drawn disc covers exactly the pixels within its radius, also across wrapping edges", "statement": "Drawing a disc colours exactly the pixels of the palette whose distance in space from the pixel of the centre is at most the radius; with wrapping, those of which a periodic image is in the disc; nothing outside of the palette is coloured.", "quantifier": "all palettes, sizes in space, centres, radii, colours", "why_tests_cant": "geometry over all real centres and radii", "anchors": ["GFlowSim/src/visualization/palette.cpp:Palette::drawCircle"]}
{"id": "C133", "title": "Parts of a palette lie in it and have the requested place, size and proportions", "statement": "A part of a palette given by limits has the size asked for, lies in the palette and its image, and position (x, y) of it is position (x + left, y + lower) of the palette; the centred part leaves the given margin on all sides; the largest centred part of a given ratio lies in the palette, touches two opposite sides and has that ratio up to a pixel.", "quantifier": "all palettes, limits, fractions and ratios", "why_tests_cant": "the arithmetic must be right for every size and ratio", "anchors": ["GFlowSim/src/visualization/palette.cpp:Palette::getSubPalette,Palette::getSubPaletteCentered,Palette::getMaxCenteredSubPalette"]}
{"id": "C134", "title": "An image is kept as long as a palette uses it and deleted afterwards", "statement": "In every history of creating, copying, assigning, dividing and destroying palettes, the image of each palette alive exists and is never used after deletion or deleted twice, and an image that no palette refers to is deleted.", "quantifier": "all histories of actions on any number of palettes", "why_tests_cant": "reference counting errors show only in particular histories", "anchors": ["GFlowSim/src/visualization/palette.cpp:Palette::Palette,Palette::~Palette,Palette::operator="]}
{"id": "C135", "title": "A drawn line colours, in each column, the two pixels next to the exact line with weights that add up to one", "statement": "Drawing a line between two pixels colours in each column (in each row, if it is steep) between its ends the pixels just below and above the exact line, with factors that are not negative, add up to one and have the exact line as mean, and nothing outside of the columns of its ends; its ends are coloured, and pixels that are not on the line are not changed.", "quantifier": "all pairs of end points", "why_tests_cant": "must hold for every slope and direction", "anchors": ["GFlowSim/src/visualization/palette.cpp:Palette::drawLine_WuAlgorithm,Palette::drawLineByFactors"]}
{"id": "C136", "title": "A graph of data connects all points in order and lies in its palette", "statement": "Drawing a graph without given limits uses limits that enclose all data, draws one line for each pair of consecutive points, each starting where the previous ends, with all ends in the palette and in the order of the data; a second graph drawn with the same options has the same limits.", "quantifier": "all sizes of palettes, data, options", "why_tests_cant": "data are arbitrary", "anchors": ["GFlowSim/src/visualization/palette.cpp:Palette::drawGraphData2d"]}
{"id": "C137", "title": "Images show each particle of the stored data at its position, with its radius and its own datum", "statement": "An image or video made of stored data shows each particle exactly once, at its stored position with its stored radius, coloured by the datum of the kind of colouring chosen (type, speed, direction, distance, stripe, processor, angular velocity, force), or by order if that datum is not stored; data without positions or radii give no image; the columns stored decide, whatever was drawn before.", "quantifier": "all names and numbers of stored columns, dimensions, particles, histories of choices of colouring", "why_tests_cant": "columns are found by name at run time; the wrong column gives an image that looks plausible", "anchors": ["GFlowSim/src/visualization/visualization.cpp:Visualization::findPlaces,Visualization::get_values,Visualization::setMetaParameters,Visualization::load_and_create", "GFlowSim/src/dataobjects/ending-snapshot.cpp:EndingSnapshot::writeToFile"]}
{"id": "C138", "title": "Colours are valid, ordered like the data, and different for different types", "statement": "Whatever was drawn before, every particle gets a colour of the bank or one with components from 0 to 255; different types (processors) get different places of the bank; on scales of scalars and speeds the least value is blue, the greatest red, and greater values are redder; stripes divide the scale into equal parts; the scales are the least and greatest values and the average of the data; different directions get different colours.", "quantifier": "all histories of bank sizes, data, values", "why_tests_cant": "values are arbitrary, and degenerate data (all equal, all at rest) occur in practice", "anchors": ["GFlowSim/src/visualization/visualization.cpp:Visualization::determine_color,Visualization::getColor,Visualization::setColorBankSize,Visualization::findScalarScaleFactors,Visualization::findVectorScaleFactors", "GFlowSim/src/visualization/palette.hpp:colorAngle"]}
{"id": "C139", "title": "Images have the proportions of the bounds; particles are drawn as shaded discs, projections as sections", "statement": "An image has the resolution asked for in its wider direction and the proportions of the bounds up to a pixel; each pixel in the disc of a particle is coloured, with a brightness that does not increase away from the centre; the projection of a particle of higher dimension is the section of the ball with the plane of projection, and nothing if they do not meet.", "quantifier": "all bounds, resolutions, positions and radii", "why_tests_cant": "geometry over all real positions", "anchors": ["GFlowSim/src/visualization/visualization.cpp:Visualization::createImage,Visualization::projectImage"]}
{"id": "C140", "title": "Velocity fields count each particle in the cell that contains it and average its velocity", "statement": "The fields made of stored data have cells of between 0.15 and 0.3 that cover the bounds; each particle in the bounds is counted in exactly the cell that contains it, at the coordinates written for it; particles outside are not counted; each cell has the number of its particles, their mean velocity, their mean speed and its spread.", "quantifier": "all bounds, frames, particles", "why_tests_cant": "must hold for every position and every set of particles", "anchors": ["GFlowSim/src/compute/binning2d.cpp:Binning2d::bin_data", "GFlowSim/src/compute/field_properties.cpp:FieldProperties::create_field", "GFlowSim/src/compute/field_properties.hpp:Field2d::toCSV"]}
{"id": "C141", "title": "Rounds of messages between processors end, without deadlock, with the result of all processors acting at once", "statement": "If neighbours are mutual and the numbers expected are those sent, then whatever the speeds of processors and whether sends are buffered or completed only when received, the rounds of exchange, creation of ghosts and updates do not block, end after a number of actions fixed by the numbers of neighbours and rounds, and leave every processor in the state it has if all processors exchange all messages at once, round by round.", "quantifier": "all numbers of processors, neighbours, contents of messages, rounds and interleavings", "why_tests_cant": "interleavings of processors cannot be enumerated by tests", "anchors": ["GFlowSim/src/parallel/kdtreetopology.cpp:exchange_particles,create_ghost_particles,send_ghost_updates,recv_ghost_updates", "GFlowSim/src/parallel/kdtreetopology.tpp:send_particle_data,recv_new_particle_data"]}
{"id": "C142", "title": "Exchange between processors loses and doubles no particle, and brings each to the processor of its place", "statement": "In parallel runs, in any order of events, the particles of all processors together are the same after any number of exchanges as at the start, and if particles move less than a tenth between exchanges, each processor has after an exchange only particles in its own bounds; each neighbour is told the number of particles that are sent to it.", "quantifier": "all numbers of processors, bounds, periodic boundaries, particles, motions and interleavings", "why_tests_cant": "must hold for all interleavings and positions", "anchors": ["GFlowSim/src/parallel/kdtreetopology.cpp:exchange_particles", "GFlowSim/src/parallel/mpi-communication.hpp:send_single"]}
{"id": "C143", "title": "Ghosts are the present nearest images of the neighbours' particles", "statement": "In parallel runs, in any order of events, after ghosts are created and after every update the ghosts of a processor are, neighbour by neighbour, the particles selected at creation, at their present position shifted by periods to be nearest to the centre of the processor, with their present velocity and angular velocity if those are sent; so all processors together compute what they would if each always saw the present particles of its neighbours; updates do not deadlock; the number of ghosts reported is their number.", "quantifier": "all numbers of processors, bounds, boundaries, particles, motions, numbers of updates and interleavings", "why_tests_cant": "must hold for all interleavings, and a ghost in the wrong slot gives plausible wrong forces", "anchors": ["GFlowSim/src/parallel/kdtreetopology.cpp:create_ghost_particles,send_ghost_updates,recv_ghost_updates", "GFlowSim/src/base/simdata.cpp:pack_ghost_buffer,unpack_ghost_buffer", "GFlowSim/src/base/simdata.tpp:pack_buffer_relative,unpack_buffer", "GFlowSim/src/base/topology.cpp:change_simdata_number"]}
{"id": "C144", "title": "All processors of a parallel run rebuild, exchange and end together", "statement": "In a parallel run no step blocks: every processor takes part in the same operations in the same order; all rebuild in the same steps, namely when one of them needs it (with the fixed intervals: when the interval, the least any of them needs, has passed), and all leave the run in the same step, at the first rebuild after one of them asked for the end.", "quantifier": "all numbers of processors and steps, ways of deciding, and everything processors measure", "why_tests_cant": "depends on what each processor measures at each step; a mismatch shows as a hang in rare situations", "anchors": ["GFlowSim/src/base/interactionhandler.cpp:InteractionHandler::pre_forces,InteractionHandler::construct", "GFlowSim/src/gflow.cpp:GFlow::run,GFlow::syncRunning,GFlow::terminate", "GFlowSim/src/base/integrator.cpp:Integrator::pre_step", "GFlowSim/src/base/simdata.cpp:SimData::update"]}
{"id": "C145", "title": "Gathering data on the root keeps every record, in the order of processors", "statement": "In parallel runs, whatever the speeds of processors and whether sends are buffered, gathering the data of all processors for each recorded frame never blocks, ends, and gives the root, frame by frame, the data of processor 0, then 1, and so on, each complete and in its own order; records of a fixed width are cut at their true boundaries.", "quantifier": "all numbers of processors, frames, lengths of data (also none) and interleavings", "why_tests_cant": "must hold for all interleavings and all lengths", "anchors": ["GFlowSim/src/parallel/mpi-communication.hpp:mpi_reduce0_position_data", "GFlowSim/src/dataobjects/graphobjects/positiondata.cpp:PositionData::post_step"]}
{"id": "C146", "title": "The driver ends on all processors with the same exit status", "statement": "In a parallel run of the driver every processor gets the arguments of the root; if the arguments, the set-up or the options fail on any of them all end with status 1 and nothing is run; otherwise all run, the results are written and all end with status 0; an exception in the run is reported and data recorded so far are still written.", "quantifier": "all numbers of processors, arguments, and sets of processors on which a stage fails", "why_tests_cant": "which processors fail, and where, cannot be enumerated; a mismatch shows as a hang", "anchors": ["GFlowSim/src/applications/driver.cpp:main", "GFlowSim/src/base/datamaster.cpp:DataMaster::writeSummary,DataMaster::writeMPIFile", "GFlowSim/src/gflow.cpp:GFlow::writeData"]}
{"id": "C147", "title": "A video of length L at 20 frames per second has the number of frames that takes", "statement": "If the driver is asked for a video of some length and no rate, the number of recorded frames is at most twenty per second of the length plus one, and not less than that up to a frame for each that the steps allow; no frame is before the start of recording; a rate that is asked for is used for positions and for all other data, and without both the rate is 20.", "quantifier": "all options and sequences of times of steps", "why_tests_cant": "must hold for every sequence of time steps", "anchors": ["GFlowSim/src/applications/driver.cpp:main", "GFlowSim/src/base/dataobject.cpp:DataObject::setFPS,DataObject::_check"]}
{"id": "C148", "title": "Each polymer of a file is one chain of new particles, and measurements get the polymers asked for", "statement": "After any list of polymer areas the particles of all polymers are new and different; each polymer (not lines) is one chain, in the order of its beads, and nothing else is chained; each area makes the number of polymers asked for; the correlation object has exactly the particles of the areas that ask for it; an area of two polymers has its two polymers and their chains measured as a pair.", "quantifier": "all lists of areas, numbers of polymers and beads, dimensions", "why_tests_cant": "the creator keeps state between areas: every history of areas must be considered", "anchors": ["GFlowSim/src/creators/polymercreator.cpp:PolymerCreator::createArea,PolymerCreator::make_bond_objects,PolymerCreator::createRandomPolymer,PolymerCreator::createSinglePolymer,PolymerCreator::createRandomLine"]}
{"id": "C149", "title": "In a parallel run every interaction between an owned particle and a ghost is listed exactly once", "statement": "When the neighbour lists are built, a ghost (copy of a particle of another processor) beyond a shared side of the region and an owned particle that interacts and is within range of it, or of its image across a wrapping dimension that the processor has alone, are listed once as a ghost pair; nothing is listed that is neither within range nor only close as an image; sides are expected to have ghosts exactly if other processors can be beyond them; every ghost is looked up in a cell that exists.", "quantifier": "all grids, regions, boundary conditions, dimensions, positions of ghosts and particles", "why_tests_cant": "a pair that is missed shows only as a wrong force in a parallel run for some positions, sizes of cells and units", "anchors": ["GFlowSim/src/domains/domain.cpp:Domain::traverseGhostPairs,Domain::create_cells,Domain::is_halo_cell,Domain::correct_index", "GFlowSim/src/base/domainbase.cpp:DomainBase::get_halo_cell_index", "GFlowSim/src/base/interactionhandler.cpp:InteractionHandler::assign_border_types"]}
{"id": "C150", "title": "The skin depth is the one that was set, or is chosen from the density, the same on all processors", "statement": "Once a positive skin depth was set it is kept through all later initializations; otherwise the depth is at least half of the small radius and such that the expected number of particles in the ball of the list is at least 4.4 (exactly the target if more than the minimum), does not grow with the density, and is the same on all processors, which use the largest small radius of all.", "quantifier": "all histories of settings and initializations, densities, dimensions, numbers of processors", "why_tests_cant": "histories and densities are unbounded; volumes of balls in all dimensions", "anchors": ["GFlowSim/src/base/interactionhandler.cpp:InteractionHandler::setSkinDepth,InteractionHandler::calculate_skin_depth,InteractionHandler::calculate_max_small_sigma", "GFlowSim/src/base/domainbase.cpp:DomainBase::initialize", "GFlowSim/src/utility/utility.hpp:sphere_volume,inv_sphere_volume"]}
{"id": "C151", "title": "Forces and energies do not depend on how the particles are spread over processors", "statement": "However the particles are spread over processors, given that neighbour lists and ghosts are as they should be, the force on each particle after the force part of a step is the sum over all other particles and all interactions, the same as on one processor; and the potential energy and the virial summed over processors are those of all pairs, each counted once.", "quantifier": "all numbers of processors and particles, distributions, positions (also across periodic boundaries), numbers and kinds of central interactions, orders of lists, dimensions", "why_tests_cant": "all distributions of particles over processors cannot be tried, and a pair counted twice only shifts a curve", "anchors": ["GFlowSim/src/interactions/generic-handlers.hpp:interact,interact_ghosts", "GFlowSim/src/base/forcemaster.cpp:ForceMaster::interact,ForceMaster::interact_ghosts,ForceMaster::getTotalPotentialEnergy,ForceMaster::getTotalVirial", "GFlowSim/src/gflow.cpp:GFlow::run"]}
{"id": "C152", "title": "Ray traced images show the scene in perspective with up at the top", "statement": "For every camera whose direction of view is not parallel to its up vector the camera vectors are made orthonormal and stay so for all images; every pixel of the image, and no other, is coloured by its own ray; a point ahead of the camera is seen in the pixel given by its offsets divided by its depth, up at the top; a pixel that passes the box is black, one that hits nothing dark grey, otherwise it has the colour of the first sphere met, between a tenth and all of it by the angle to the light, in bytes; the tree is built for every number of spheres with logarithmic depth; the standard camera shows the system.", "quantifier": "all cameras, sizes of images, pixels, scenes, numbers of spheres, boxes", "why_tests_cant": "directions, scenes and pixels are unbounded; degenerate directions are not tried by tests", "anchors": ["GFlowSim/src/visualization/raytrace.cpp:RayTrace::initialize,RayTrace::render,RayTrace::trace,RayTrace::createKDTree", "GFlowSim/src/visualization/visualization.cpp:Visualization::standard_camera_setup", "GFlowSim/src/utility/vectormath.hpp:crossVec,normalizeVec"]}
{"id": "C153", "title": "A setup with a seed is reproducible", "statement": "A setup file with a seed makes the same simulation, with the same random numbers for the run, in every process, at any time and whatever was made before; a simulation made without a seed can be made again with the seed that is reported; the seed that is set for a creator is used; the random table of interactions is symmetric, total and the same on all processors, and other random numbers of different processors are independent.", "quantifier": "all setups (as adaptive programs that draw random numbers), generators, seeds, clocks, histories of a process, numbers of types, areas and templates", "why_tests_cant": "non-reproducibility shows only in some histories; all orders of draws from all generators cannot be tried", "anchors": ["GFlowSim/src/creators/fileparsecreator.cpp:FileParseCreator::createFromOptions,FileParseCreator::makeRandomForces", "GFlowSim/src/base/creator.cpp:Creator::setSeed,Creator::seedGenerator", "GFlowSim/src/utility/utility.hpp:global_generator,seedGlobalGenerator,randNormal", "GFlowSim/src/creators/area-creator.hpp:AreaCreator", "GFlowSim/src/creators/fillareacreator.cpp:FillAreaCreator::createArea", "GFlowSim/src/creators/boxcreator.cpp:BoxCreator::createSimulation"]}
{"id": "C154", "title": "A creator can be used again, also after failures, and keeps a copy of its file", "statement": "Over every history of attempts to create simulations from a file, of which some fail with exceptions, each attempt returns a new simulation, null if there is no file, or throws; no object is deleted twice; simulations that were returned belong to the caller and are never deleted by the creator; failed ones are released; the copy of the setup file stored with the results is the file byte by byte.", "quantifier": "all histories of attempts with all points of failure, all files", "why_tests_cant": "points of failure and histories cannot be enumerated; a double deletion may go unnoticed", "anchors": ["GFlowSim/src/creators/fileparsecreator.cpp:FileParseCreator::createSimulation,FileParseCreator::createFromOptions,FileParseCreator::parseFile,FileParseCreator::copyFile,FileParseCreator::~FileParseCreator"]}
{"id": "C155", "title": "A parallel run moves the particles as a run on one processor does", "statement": "On any number of processors, with any order of the events of their messages, any timely construction of neighbour lists and any history of owners, after every step the processors together hold every particle once, with the velocity and (up to whole widths in periodic directions) the position of the velocity Verlet motion under the sum of all pair forces of nearest images, without processors, wrapping, lists and ghosts; so two runs on different numbers of processors agree; no force is undefined unless particles coincide.", "quantifier": "all numbers of processors, decompositions, interleavings, particle systems, central forces, lengths of runs and construction schedules", "why_tests_cant": "interleavings, schedules and systems are unbounded; tests compare few runs with finite precision", "anchors": ["GFlowSim/src/gflow.cpp:GFlow::run", "GFlowSim/src/base/simdata.cpp:SimData::update", "GFlowSim/src/parallel/kdtreetopology.cpp:exchange_particles,create_ghost_particles,send_ghost_updates,recv_ghost_updates", "GFlowSim/src/integrators/velocity-verlet.tpp", "GFlowSim/src/base/interactionhandler.cpp:InteractionHandler::construct", "GFlowSim/src/base/forcemaster.cpp:interact,interact_ghosts"]}
{"id": "C156", "title": "The integrator converges to the true motion with second order", "statement": "For every system and every exact solution of Newton's equations with forces that are Lipschitz near the motion, runs of the velocity Verlet integrator from the initial state, on any number of particles, with any (also varying) time steps and vector width, have errors of positions and velocities of at most a constant times the square of the largest time step, at all times up to any given time.", "quantifier": "all systems, forces, exact motions, sequences of time steps, vector widths", "why_tests_cant": "a limit over all sequences of time steps; tests see single step sizes, and an error of order one in the first kick looks like noise", "anchors": ["GFlowSim/src/integrators/velocity-verlet.tpp:pre_forces,post_forces,update_velocities,update_positions", "GFlowSim/src/gflow.cpp:GFlow::run", "GFlowSim/src/base/creator.cpp:Creator::hs_relax", "GFlowSim/src/base/simdata.cpp:SimData::clearF"]}
{"id": "C157", "title": "A whole simulation follows Newton's equations", "statement": "For every system of particles with pair interactions in a box with wrapping and open boundaries, and every exact solution of Newton's equations for the sums of all pair forces of nearest images, the simulation - with wrapping of positions, cells, neighbour lists that are built in any timely steps, and forces from the lists - ends within a constant times the largest time step (its square, if forces are smooth and up to date at the start) of the exact motion, up to whole widths of wrapping dimensions.", "quantifier": "all particle systems, boxes, interactions, exact motions, sequences of time steps and construction schedules", "why_tests_cant": "a limit over all step sizes of a run with many interacting parts; the exact motion is known to tests only in trivial cases", "anchors": ["GFlowSim/src/gflow.cpp:GFlow::run,GFlow::wrapPositions", "GFlowSim/src/integrators/velocity-verlet.tpp", "GFlowSim/src/base/interactionhandler.cpp:InteractionHandler::construct", "GFlowSim/src/base/forcemaster.cpp:ForceMaster::interact", "GFlowSim/src/interactions/generic-handlers.hpp"]}
{"id": "C158", "title": "Runs preserve the volume of phase space", "statement": "For every force that depends on positions only, every number of particles, masses and sequence of time steps, a run of the velocity Verlet integrator maps phase space to itself one to one, and every set of initial states ends in a set of states of exactly the same volume (Liouville's theorem), so averages over states are not distorted; also for fresh simulations with zero stored forces.", "quantifier": "all measurable position dependent forces, systems, sequences of time steps, vector widths, sets of states", "why_tests_cant": "a statement about volumes of sets of states of any dimension", "anchors": ["GFlowSim/src/integrators/velocity-verlet.tpp:pre_forces,post_forces,update_velocities,update_positions", "GFlowSim/src/base/creator.cpp:Creator::hs_relax"]}
{"id": "C159", "title": "The energy is kept up to the square of the time step", "statement": "If the forces have a potential, the energy of a run differs from that of the initial state, at all times up to any given time, by at most a constant times the square of the largest time step.", "quantifier": "all systems with potentials, exact motions, sequences of time steps, vector widths", "why_tests_cant": "a limit over all sequences of time steps; a loss of one order looks like noise in single runs", "anchors": ["GFlowSim/src/integrators/velocity-verlet.tpp:pre_forces,post_forces", "GFlowSim/src/base/creator.cpp:Creator::hs_relax"]}
{"id": "C160", "title": "Contacts of hard spheres are stable with the time step limit of the forces", "statement": "With the limit of the time step that forces set at the start of a run, spheres in contact do not gain energy without bound: for any number of particles, masses, radii and stiffnesses the energy stays below a fixed multiple of its initial value for ever.", "quantifier": "all chains and networks of contacts on a line, numbers of steps, masses, radii, stiffnesses, other interactions", "why_tests_cant": "a bound for all times; instabilities appear after any number of steps", "anchors": ["GFlowSim/src/base/forcemaster.cpp:ForceMaster::pre_integrate,ForceMaster::compute_timescale", "GFlowSim/src/base/forcemaster.hpp:time_scale_factor", "GFlowSim/src/interactions/generic-forces.hpp:HardSphere::suggest_timescale,HardSphere::force", "GFlowSim/src/integrators/velocity-verlet.tpp"]}
{"id": "C161", "title": "Discs rotate as the torques of their contacts say", "statement": "In two dimensions, with any contact interactions, every step changes the angular velocity of each particle by the time step times mean torque over moment of inertia, and its angle by the time step times its angular velocity; free discs turn uniformly; contacts keep the total angular momentum, and friction never gives energy to the particles.", "quantifier": "all lists of interactions, numbers of particles, forces, torques, sequences of time steps, contact states and parameters", "why_tests_cant": "continuous states; the effect of several interactions on one run appears only in combination", "anchors": ["GFlowSim/src/interactions/generic-forces.hpp:HookeGeneric", "GFlowSim/src/gflow.cpp:GFlow::addIntegrator,GFlow::run", "GFlowSim/src/integrators/angularvelocityverlet2d.cpp:pre_forces,post_forces"]}
{"id": "C162", "title": "Times and rates in the summary of a run", "statement": "Over every history of runs, checkpoints and writing of results the reported run time is the total length of the runs; on any number of processors the lengths of interactions are sums over all of them, the rate of pairs is that of all pairs, the interactions per particle are pairs over particles, the parts of the time add up to the run time, and the average time step is the mean of the steps.", "quantifier": "all histories of runs, checkpoints and summaries, numbers of processors, distributions of particles and pairs, timings", "why_tests_cant": "histories and distributions are unbounded; times of real runs differ from run to run", "anchors": ["GFlowSim/src/base/datamaster.cpp:DataMaster::writeSummary,DataMaster::startTimer,DataMaster::endTimer,DataMaster::markTimer", "GFlowSim/src/parallel/mpi-communication.hpp:mpi_sum0", "GFlowSim/src/gflow.cpp:GFlow::run,GFlow::resetAllTimes"]}
{"id": "C163", "title": "The demon's records account for what happened", "statement": "The entries of the Maxwell demon's series are at least one delay apart, one for each completed window and none for a rejected one; the recorded numbers on the two sides add up to the number of movable particles, and change from entry to entry by the recorded currents; the same holds of energies. Rejected windows leave nothing in the animation or in other recorded series.", "quantifier": "all histories of motions, kinds of demon, states, windows and recording rates", "why_tests_cant": "a statement over histories of any length with any motions in between", "anchors": ["GFlowSim/src/modifiers/demon.cpp:Demon::pre_integrate,Demon::pre_forces,Demon::add_data,Demon::checkpoint_data,Demon::revert_to_last_checkpoint", "GFlowSim/src/dataobjects/positiondata.cpp:PositionData::post_step", "GFlowSim/src/base/dataobject.cpp:DataObject::_check"]}
{"id": "C164", "title": "The demon's door closes the hole it leaves", "statement": "In every run the particles of the demon's door are out of the box while it is open, and at the places they were given whenever it closes.", "quantifier": "all histories, doors, boxes, boundary conditions and sequences of runs", "why_tests_cant": "a statement over histories of any length and sequences of runs", "anchors": ["GFlowSim/src/modifiers/demon.cpp:Demon::open_door,Demon::close_door,Demon::pre_integrate", "GFlowSim/src/creators/wallcreator.cpp:WallCreator", "GFlowSim/src/gflow.cpp:GFlow::wrapPositions,GFlow::reflectPositions"]}
{"id": "C165", "title": "A run commutes with its symmetries", "statement": "If the starting state is shifted, given a common additional velocity, renumbered, (in an open box) turned or mirrored, or (in a periodic box) inverted, then after any run of the same time steps the state is the image of the state of the original run: velocities and forces exactly, positions up to box lengths, with the shift grown by the additional velocity times the elapsed time. The cells, the numbers of the particles and the times at which neighbour lists are rebuilt do not show.", "quantifier": "all setups, starting states, forces, boxes, numbers of particles, renumberings, length-preserving maps, shifts, boosts, sequences of time steps and pairs of sequences of rebuilds", "why_tests_cant": "a statement about pairs of runs of any length with any number of particles and any symmetry", "anchors": ["GFlowSim/src/gflow.cpp:GFlow::run", "GFlowSim/src/integrators/velocity-verlet.tpp:VelocityVerlet::pre_forces,VelocityVerlet::post_forces", "GFlowSim/src/base/interactionhandler.cpp:InteractionHandler::pre_forces", "GFlowSim/src/base/forcemaster.cpp:ForceMaster::interact", "GFlowSim/src/interactions/generic-forces.hpp:kernels"]}
{"id": "C166", "title": "Templates of setup files make the particles the file describes", "statement": "A particle template of a setup file gives its particles the radius, mass or density and type that its headings say, as numbers, variables, expressions or distributions, in any order of the headings; a template without radius, mass or type is refused, and a name stands for the template that was defined last.", "quantifier": "all templates, variables, expressions, distributions, numbers of types and sequences of definitions", "why_tests_cant": "texts, expressions and sequences of definitions are unbounded", "anchors": ["GFlowSim/src/creators/helperclasses/parse-constructor.cpp:ParseConstructor::parse_particle_template,ParseConstructor::getRandomEngine", "GFlowSim/src/utility/treeparser.cpp:TreeParser::arg,TreeParser::firstArg,TreeParser::val", "GFlowSim/src/utility/randomengines.hpp"]}
{"id": "C167", "title": "Areas of setup files are filled as the file says", "statement": "An area of a setup file is filled within its bounds and outside its excluded regions with the templates, numbers, densities and velocities it names: each form of bounds describes the region it names, each entry of the number heading creates the particles of its template, a template defined in an area is used in that area and only there, and everything else is refused.", "quantifier": "all areas, sequences of areas, bounds, entries, templates, variables and dimensions", "why_tests_cant": "texts and sequences of areas are unbounded, and forms of input combine", "anchors": ["GFlowSim/src/creators/fillareacreator.cpp:FillAreaCreator::createArea", "GFlowSim/src/creators/helperclasses/parse-constructor.cpp:ParseConstructor::parse_region", "GFlowSim/src/creators/fileparsecreator.cpp:FileParseCreator::createFromOptions"]}
{"id": "C168", "title": "Interactions of setup files have the parameters the file gives", "statement": "An interaction chosen in a setup file has the strength, cutoff, dissipation and friction its headings give, in any order, and documented defaults otherwise; energy shifts belong to these values; values without physical meaning and unknown headings are refused, and the time step limit respects every chosen interaction.", "quantifier": "all classes of interactions, trees, values, orders of headings, masses and combinations of interactions", "why_tests_cant": "trees and values are unbounded", "anchors": ["GFlowSim/src/creators/helperclasses/parse-constructor.cpp:ParseConstructor::getInteraction", "GFlowSim/src/interactions/interaction-choice.cpp:InteractionChoice::choose", "GFlowSim/src/interactions/generic-forces.hpp:parse_construct,setCutoff,suggest_timescale,setRepulsion", "GFlowSim/src/base/forcemaster.cpp:ForceMaster::compute_timescale"]}
{"id": "C169", "title": "Parallel simulations converge to the solution of Newton's equations", "statement": "A simulation on any number of processors ends within a constant times the largest time step of the exact motion of the particles under the sums of all pair forces; within a constant times its square if forces are smooth, independent of velocities and known at the start. The constant does not depend on the processors, the distribution of particles, the order of messages or the times of constructions.", "quantifier": "all systems of particles, numbers of processors and dimensions, boxes, time steps, distributions, orders of events of messages, and constructions", "why_tests_cant": "time steps tend to zero, and numbers of steps, processors and orders of events are unbounded", "anchors": ["GFlowSim/src/gflow.cpp:GFlow::run", "GFlowSim/src/integrators/velocityverlet.cpp:VelocityVerlet::pre_forces,VelocityVerlet::post_forces", "GFlowSim/src/parallel/topology.cpp", "GFlowSim/src/base/simdata.cpp:SimData::exchange_particles,SimData::create_ghost_particles,SimData::update_ghost_particles"]}
{"id": "C170", "title": "Integrators of setup files have the settings the file gives", "statement": "A setup file chooses the integrator it names, velocity Verlet if it names none, with the temperature, viscosity, limits of the time step, delay and switches of its headings and documented defaults otherwise; time steps stay within these limits; unknown names and headings and values without meaning are refused.", "quantifier": "all trees, variables, texts, dimensions, radii and sequences of steps", "why_tests_cant": "texts, trees and runs are unbounded", "anchors": ["GFlowSim/src/creators/fileparsecreator.cpp:FileParseCreator::choose_integrator,FileParseCreator::createFromOptions", "GFlowSim/src/utility/treeparser.hpp:TreeParser::firstArg,TreeParser::cast", "GFlowSim/src/utility/printingutility.hpp:convert", "GFlowSim/src/base/integrator.cpp:Integrator::setMaxDT,Integrator::setMinDT,Integrator::pre_integrate,Integrator::pre_step", "GFlowSim/src/integrators/langevintypeintegrator.cpp"]}
{"id": "C171", "title": "Soft spheres move for all times, keep their energy, and simulations follow them", "statement": "Particles with `HardSphere` interactions whose energy at the start is below that which presses two centres together have exactly one exact motion, for every length of time; it keeps the energy and the centres apart; and runs of the simulation with time steps of at most H, whose lists are renewed often enough, go through, end within a constant times H of it, and record a total energy that differs by at most a constant times H from that at the start, however spheres come into and out of contact.", "quantifier": "all numbers of particles, dimensions, types, radii, masses, repulsions, boxes with wrapping or open sides, initial states below the threshold, lengths of runs, and sequences of time steps and constructions", "why_tests_cant": "the statement is about limits of arbitrarily small time steps and about all trajectories", "anchors": ["GFlowSim/src/interactions/generic-forces.hpp:HardSphereGeneric", "GFlowSim/src/integrators/velocity-verlet.tpp:VelocityVerlet", "GFlowSim/src/gflow.cpp:GFlow::run", "GFlowSim/src/dataobjects/graphobjects/total-energy-data.cpp:TotalEnergyData::post_step", "GFlowSim/src/base/forcemaster.cpp:ForceMaster::getTotalPotentialEnergy"]}
{"id": "C172", "title": "Vector operations are right in every dimension, also in place", "statement": "Sums, differences, products, copies, negations, scalings, exchanges, dot products, lengths, unit vectors, displacements with wrapping and cross products of vectors are right in every number of dimensions, whether a result is written to new memory or over an argument, and nothing else in memory changes; cross products need a result apart from the arguments, and vectors that overlap partly give wrong results.", "quantifier": "all dimensions, contents of memory, and positions of vectors in it", "why_tests_cant": "dimensions, memory and overlaps are unbounded", "anchors": ["GFlowSim/src/utility/generic-dimension.hpp:add_vec,subtract_vec,negate_vec,scalar_mult_eq_vec,sum_eq_vec,copy_vec,set1_vec,dot_vec,normalize_vec,harmonic_correction,product,power", "GFlowSim/src/utility/vectormath.hpp:getDisplacement,dotVec,hadamardVec,crossVec,tripleProduct2,swapVec,normalVec,normalizeVec,copyVec"]}
{"id": "C173", "title": "Simulations without friction can be undone", "statement": "Turn around all velocities at the end of a run and run again with the same time steps in the opposite order: the simulation comes back to its initial state with velocities turned around, wherever neighbour lists are built in the two runs. (The half kick of the first step of the first run is made with the stored forces, and undone with the true ones.)", "quantifier": "all systems of particles, boxes, numbers of dimensions, forces without friction, initial states, lengths of runs, time steps and sequences of constructions", "why_tests_cant": "numbers of particles and steps are unbounded, and states and time steps are real", "anchors": ["GFlowSim/src/gflow.cpp:GFlow::run", "GFlowSim/src/integrators/velocity-verlet.tpp:VelocityVerlet", "GFlowSim/src/base/interactionhandler.cpp:InteractionHandler::pre_forces", "GFlowSim/src/interactions/generic-forces.hpp"]}
{"id": "C174", "title": "Simulations in boxes with walls follow the plain equations of motion", "statement": "In a box with any mixture of wrapping, open, reflecting and repulsive sides, with attraction to the centre and with modifiers for constant acceleration and linear drag, a run gives the velocities, forces and positions (up to whole widths in wrapping dimensions) of the motion in which walls, centre and modifiers act on each particle and pair forces are summed over all pairs: it does not depend on cells, neighbour lists, the times of constructions and vectorisation. Particles stay behind reflecting walls; in dimensions without walls momentum grows by the weight times the time and is conserved without constant acceleration; a gas without interactions keeps its speeds. With attraction to the centre and wrapping sides together, the result does depend on the times of constructions.", "quantifier": "all systems of particles, boxes, sides, modifiers, numbers of dimensions, initial states, lengths of runs, time steps and timely sequences of constructions", "why_tests_cant": "numbers of particles and steps are unbounded, and states and time steps are real", "anchors": ["GFlowSim/src/gflow.cpp:GFlow::run,GFlow::wrapPositions,GFlow::reflectPositions,GFlow::repulsePositions,GFlow::attractPositions", "GFlowSim/src/modifiers/constantacceleration.cpp:ConstantAcceleration::post_forces", "GFlowSim/src/modifiers/linearvelocitydamping.cpp:LinearVelocityDamping::pre_forces", "GFlowSim/src/integrators/velocity-verlet.tpp:VelocityVerlet", "GFlowSim/src/base/interactionhandler.cpp:InteractionHandler::pre_forces"]}
{"id": "C175", "title": "Simulations with soft walls, gravity and drag converge to Newton's equations", "statement": "In a box with wrapping, open and repulsive sides, with attraction to the centre, constant acceleration and linear drag, simulations with smaller and smaller time steps converge to the exact solution of Newton's equations with these forces; the error is at most proportional to the largest time step, without drag and with smooth forces to its square. For drag this is false: simulations converge to the motion with half of the given drag. So a particle that falls in a medium reaches twice the terminal velocity.", "quantifier": "all systems of particles, boxes, sides, modifiers, numbers of dimensions, initial states, exact motions with bounded and Lipschitz accelerations, time steps and timely sequences of constructions", "why_tests_cant": "convergence is a statement about infinitely many simulations with real states and time steps", "anchors": ["GFlowSim/src/gflow.cpp:GFlow::run,GFlow::repulsePositions,GFlow::attractPositions", "GFlowSim/src/modifiers/constantacceleration.cpp:ConstantAcceleration::post_forces", "GFlowSim/src/modifiers/linearvelocitydamping.cpp:LinearVelocityDamping::pre_forces", "GFlowSim/src/integrators/velocity-verlet.tpp:VelocityVerlet"]}
{"id": "C176", "title": "Reflecting walls are mirrors", "statement": "A simulation in a box with reflecting walls is the mirror image of a simulation without them: if particles pass through the walls into a row of mirror images of the box, and each is pushed as its image in the box is, then positions and velocities in the box are the mirrored ones, after any number of reflections. So simulations with smaller and smaller time steps converge to the exact motion with elastic bounces (if forces across a wall vanish where it is hit), with errors proportional to the largest time step; only the velocity of a particle that is just hitting a wall may not be reversed yet.", "quantifier": "all systems of particles, boxes, combinations of sides, modifiers, numbers of dimensions, initial states, numbers of bounces, time steps and timely sequences of constructions", "why_tests_cant": "numbers of particles, steps and bounces are unbounded, convergence is a statement about infinitely many simulations, and states are real", "anchors": ["GFlowSim/src/gflow.cpp:GFlow::run,GFlow::reflectPositions", "GFlowSim/src/integrators/velocity-verlet.tpp:VelocityVerlet", "GFlowSim/src/modifiers/linearvelocitydamping.cpp:LinearVelocityDamping::pre_forces"]}
{"id": "C177", "title": "Result tables can be read back", "statement": "The files that data objects write can be read back: the file of a graph has one row for each recorded point, in order, with its two numbers; that of a multi graph one row for each record with the x value and the columns that are to be written, and a file of labels with one row for each of these columns; arrays and cluster sizes likewise; no two files of a directory of records have the same name. The numbers read are the numbers recorded. In the run summary values start in a common column, and percentages are aligned at the decimal point and cut off, not changed.", "quantifier": "all data, numbers of records, columns and flags, all number formats without commas and white space", "why_tests_cant": "lengths, widths and values of tables are unbounded", "anchors": ["GFlowSim/src/dataobjects/dataobjecttypes/graphobject.cpp:GraphObject::writeToFile", "GFlowSim/src/dataobjects/dataobjecttypes/data-base/multigraphdata.cpp:MultiGraphData::write_to_file", "GFlowSim/src/utility/printingutility.cpp:writeArrayDataToFile,writeVectorToDirectory", "GFlowSim/src/utility/printingutility.hpp:toCSV,pprint", "GFlowSim/src/base/datamaster.cpp:DataMaster::writeSummary", "GFlowSim/src/dataobjects/percolationdata.cpp:PercolationData::writeToFile"]}
{"id": "C178", "title": "Simulations with bonds are motions with springs", "statement": "A simulation of particles some of which are joined by harmonic bonds, of any mixture of bond objects with any histories of added bonds, gives the velocities, forces and positions (up to whole widths in wrapping dimensions) of the motion in which pair forces are summed over all pairs and each bond is a spring between nearest images, whose rest length is the distance when it was added; it does not depend on cells, neighbour lists, the times of constructions, renewals of local ids or vectorisation. Momentum is conserved exactly. Simulations with smaller and smaller time steps converge to the exact solution of Newton's equations with these forces, with errors at most proportional to the largest time step, and to its square if forces are smooth.", "quantifier": "all systems of particles, boxes, numbers of dimensions, bond objects, histories of bonds, initial states, lengths of runs, time steps and timely sequences of constructions", "why_tests_cant": "numbers of particles, bonds and steps are unbounded, and states and time steps are real", "anchors": ["GFlowSim/src/gflow.cpp:GFlow::run", "GFlowSim/src/bonded/harmonicbond.cpp:HarmonicBond", "GFlowSim/src/bonded/harmonicbond_2d.cpp:HarmonicBond_2d::interact", "GFlowSim/src/bonded/harmonicbond_3d.cpp:HarmonicBond_3d::interact", "GFlowSim/src/bonded/bond.cpp:Bond::addBond,Bond::updateLocalIDs"]}
{"id": "C179", "title": "Simulations with the program's own rule for renewing neighbour lists", "statement": "In runs in which the program itself decides when neighbour lists are renewed, lists are never older than the maximal update delay plus a time step (with the default rule, for constant time steps), or than the given number of steps (with the fixed rule). So if particles are not faster than half of the skin depth over that age, the run gives the motion with forces summed over all pairs; and simulations of soft spheres with the program's own rule converge to the exact motion and keep the energy. With the default rule this fails if other objects ask for renewals: each request makes all later lists last longer.", "quantifier": "all systems of particles, boxes, numbers of dimensions, initial states, settings of the handler, lengths of runs and time steps", "why_tests_cant": "the decisions depend on the state of the run, whose length is unbounded, and states and time steps are real", "anchors": ["GFlowSim/src/base/interactionhandler.cpp:InteractionHandler::pre_forces,InteractionHandler::pre_integrate,InteractionHandler::check_needs_remake,InteractionHandler::construct,InteractionHandler::setMaxUpdateDelay,InteractionHandler::setUpdateDelaySteps", "GFlowSim/src/gflow.cpp:GFlow::run"]}
{"id": "C180", "title": "Neighbour lists of a processor's own particles", "statement": "In a run on any number of processors, each processor lists every pair of its own particles that are within interaction range plus skin depth of each other, directly or through a periodic dimension that it takes up alone, exactly once, whichever sides of its region are shared with other processors; no pair twice, and no particle with itself.", "quantifier": "all regions, combinations of shared and periodic sides, numbers of dimensions, particles, radii, cutoffs and skin depths (conditions on grids as in C27 and C28)", "why_tests_cant": "numbers of particles and cells are unbounded, and positions are real", "anchors": ["GFlowSim/src/domains/domain.cpp:Domain::traversePairs,Domain::create_cells,Domain::correct_index,Domain::is_halo_cell", "GFlowSim/src/base/interactionhandler.cpp:InteractionHandler::assign_border_types", "GFlowSim/src/base/domainbase.cpp:DomainBase::get_cell_index"]}
{"id": "C181", "title": "A build without MPI simulates the same system", "statement": "A program built without MPI gives, for every sequence of settings, the same interactions as the default build on one processor: the topology and the domain know the bounds of the simulation, and pairs that are close through a periodic boundary are found. This is so in the default build. In a build without MPI it is false: the topology and the domain never learn the bounds of the simulation, every wrapping side is taken for a border with another processor, and no pair is ever found through a periodic boundary.", "quantifier": "all histories of calls that set bounds or initialize, all boxes, boundary conditions, numbers of dimensions and configurations of particles", "why_tests_cant": "histories and numbers of particles are unbounded, and positions are real", "anchors": ["GFlowSim/src/base/topology.cpp:Topology::setSimulationBounds,Topology::initialize", "GFlowSim/src/gflow.cpp:GFlow::setBounds,GFlow::initialize", "GFlowSim/src/base/interactionhandler.cpp:InteractionHandler::initialize,InteractionHandler::checkBounds,InteractionHandler::setSkinDepth,InteractionHandler::assign_border_types", "GFlowSim/src/base/domainbase.cpp:DomainBase::initialize", "GFlowSim/src/domains/domain.cpp:Domain::correct_index"]}
{"id": "C182", "title": "A simulation's settings are the last accepted values", "statement": "After any history of calls of the setters of a simulation every setting read back is the last value the calls gave it, or its default; values that make no sense (negative repulsion or dissipation, intervals that are not positive, a command without arguments) are ignored, a negative requested time counts as 0, boundary conditions of dimensions the simulation does not have are rejected, and no setter changes another setting. A data object records at the last rate set since it was added and looks at the bounds of the time it was added; time steps can be set once there is an integrator.", "quantifier": "all histories of calls with any arguments, all numbers of dimensions and data objects", "why_tests_cant": "histories are unbounded and the arguments are arbitrary numbers and indices", "anchors": ["GFlowSim/src/gflow.cpp:GFlow::setRepulsion,GFlow::setDissipation,GFlow::setUpdateInterval,GFlow::requestTime,GFlow::setBC,GFlow::setAllBCs,GFlow::getBC,GFlow::setCommand,GFlow::setDT,GFlow::setMaxDT,GFlow::getDT,GFlow::resetAllTimes,GFlow::addDataObject,GFlow::setFPS", "GFlowSim/src/base/datamaster.cpp:DataMaster::setFPS,DataMaster::setStartRecTime,DataMaster::setCheckpointingDelay,DataMaster::addDataObject", "GFlowSim/src/base/dataobject.cpp:DataObject::DataObject,DataObject::setFPS", "GFlowSim/src/base/integrator.cpp:Integrator::setDT,Integrator::setMaxDT"]}
{"id": "C183", "title": "Neighbour lists made by all processors are complete", "statement": "In a parallel simulation, right after the particles are exchanged and ghosts are created, the neighbour lists that the processors make of their own particles and of the ghosts they were sent hold, for each interaction, every pair of particles within cutoff and skin depth (also across periodic boundaries and the borders of processors): pairs on one processor once in one order, pairs on two processors once on each; and no pair of types the interaction is not for. So a run on any number of processors is the motion of the particles under all forces, computed without cells, lists and ghosts.", "quantifier": "all numbers of processors and particles, all positions, grids, types, interactions and orders of messages, runs of any length", "why_tests_cant": "completeness is over all configurations of particles, divisions of the box and orders of events; a missed pair changes a force only in rare configurations", "anchors": ["GFlowSim/src/base/interactionhandler.cpp:InteractionHandler::construct,InteractionHandler::pair_interaction", "GFlowSim/src/domains/domain.cpp:Domain::traversePairs,Domain::traverseGhostPairs,Domain::calculate_adjacent_cells", "GFlowSim/src/parallel/kdtreetopology.cpp:KDTreeTopology::create_ghost_particles,KDTreeTopology::exchange_particles", "GFlowSim/src/base/simdata.cpp:SimData::update"]}
{"id": "C184", "title": "A parallel run follows the motion under all forces", "statement": "If a simulation is set up on two or more processors with grids fit for its particles, the particles start with the processors in whose parts they are, and the true motion (all forces between all particles, without processors, cells, neighbour lists and ghosts) is slow compared with the skin depth between constructions, then after any number of constructions and steps, in any order of messages, the processors together hold every particle exactly once with the velocity and, up to whole periods, the position of that motion; and after each exchange every particle is with the processor in whose part of the box it is. No run deadlocks.", "quantifier": "all boxes, divisions, grids, numbers of particles and processors, forces, orders of messages and lengths of runs that meet the stated conditions on the set-up and the motion", "why_tests_cant": "a universally quantified statement over schedules, histories and configurations; a test compares single runs", "anchors": ["GFlowSim/src/gflow.cpp:GFlow::run", "GFlowSim/src/base/simdata.cpp:SimData::update", "GFlowSim/src/base/interactionhandler.cpp:InteractionHandler::construct", "GFlowSim/src/domains/domain.cpp:Domain::traversePairs,Domain::traverseGhostPairs", "GFlowSim/src/parallel/kdtreetopology.cpp:KDTreeTopology::exchange_particles,KDTreeTopology::create_ghost_particles"]}
{"id": "C185", "title": "Parallel runs converge to the exact motion", "statement": "If a simulation is set up on two or more processors with grids fit for its particles, and Newton's equations for its particles have a solution along which forces are bounded and Lipschitz, speeds are bounded, centres stay apart and particles stay in the box, then there is a constant such that every parallel run from that start that constructs lists often enough (so that no particle moves more than half the skin depth, or 0.1, between constructions) ends within the constant times the largest time step of that solution; within the constant times its square if forces are smooth, do not depend on velocities and are up to date at the start. The neighbour lists are those that the processors make.", "quantifier": "all such systems, boxes, divisions, grids, numbers of particles and processors, time steps (also varying), orders of messages, schedules of constructions and lengths of runs up to the time of the solution", "why_tests_cant": "a statement about limits over all runs; a test compares single runs with single step sizes", "anchors": ["GFlowSim/src/gflow.cpp:GFlow::run", "GFlowSim/src/integrators/velocityverlet.cpp:VelocityVerlet::pre_forces,VelocityVerlet::post_forces", "GFlowSim/src/base/interactionhandler.cpp:InteractionHandler::construct", "GFlowSim/src/domains/domain.cpp:Domain::traversePairs,Domain::traverseGhostPairs", "GFlowSim/src/parallel/kdtreetopology.cpp:KDTreeTopology::exchange_particles,KDTreeTopology::create_ghost_particles"]}
