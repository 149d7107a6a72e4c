{
 "claims": [
  {
   "property": "C01",
   "status": "proved",
   "theorems": [
    "Verif.SimData.C01_counts_exact"
   ],
   "note": "all histories of the modelled calls"
  },
  {
   "property": "C02",
   "status": "proved",
   "theorems": [
    "Verif.SimData.C02_lookup_exact"
   ],
   "note": ""
  },
  {
   "property": "C03",
   "status": "proved",
   "theorems": [
    "Verif.SimData.C03_gids_unique",
    "Verif.SimData.C03_gids_never_reused"
   ],
   "note": ""
  },
  {
   "property": "C04",
   "status": "proved",
   "theorems": [
    "Verif.SimData.C04_mark_local_idempotent"
   ],
   "note": ""
  },
  {
   "property": "C05",
   "status": "proved",
   "theorems": [
    "Verif.SimData.C05_compaction_keeps_survivors"
   ],
   "note": "under the guard that one particle is left alive; the other case is C06"
  },
  {
   "property": "C06",
   "status": "partial",
   "theorems": [
    "Verif.SimData.C06_compaction_safe_partial",
    "Verif.SimData.C06_compaction_undefined_iff",
    "Verif.SimData.C06_negation"
   ],
   "note": "false of the code when all particles are marked (reads Type(-1)); exact characterisation and witness proved"
  },
  {
   "property": "C07",
   "status": "proved",
   "theorems": [
    "Verif.SimData.C07_sort_along_x",
    "Verif.SimData.C07_sort_permutes",
    "Verif.SimData.C07_one_dimension"
   ],
   "note": "sortedness holds for the x-axis version and in one dimension; the full version re-sorts blocks along other axes and is proved to be a permutation"
  },
  {
   "property": "C08",
   "status": "partial",
   "theorems": [
    "Verif.SimData.C08_growth_safe_partial",
    "Verif.SimData.C08_bulk_defined_iff",
    "Verif.SimData.C08_negation"
   ],
   "note": "false of the code for bulks larger than the growth rule allows; exact characterisation and witness proved"
  },
  {
   "property": "C13",
   "status": "proved",
   "theorems": [
    "Verif.SimData.C13_refines_map",
    "Verif.SimData.safe_calls_defined"
   ],
   "note": ""
  },
  {
   "property": "C09",
   "status": "partial",
   "theorems": [
    "Verif.Columns.C09_columns_stable_partial",
    "Verif.Columns.C09_scalar_by_name",
    "Verif.Columns.C09_negation_duplicate_add",
    "Verif.Columns.C09_negation_integer_by_name"
   ],
   "note": "holds for request/get histories; false for the add* functions with a name already present and for the by-name integer accessor (witnesses)"
  },
  {
   "property": "C64",
   "status": "proved",
   "theorems": [
    "Verif.SimData.C64_moves_raise_flag",
    "Verif.SimData.C64_sort_raises_flag"
   ],
   "note": ""
  },
  {
   "property": "C10",
   "status": "proved",
   "theorems": [
    "Verif.Buffer.C10_round_trip",
    "Verif.Buffer.C10_byte_cast"
   ],
   "note": "transport itself is assumed to deliver the words sent"
  },
  {
   "property": "C11",
   "status": "partial",
   "theorems": [
    "Verif.Buffer.C11_own_entries_kept_partial",
    "Verif.Buffer.C11_received_never_found",
    "Verif.Buffer.C11_negation"
   ],
   "note": "false of the code: unpacking never updates the id map; proved for every buffer, with witness"
  },
  {
   "property": "C12",
   "status": "partial",
   "theorems": [
    "Verif.GlobalIds.C12_ids_distinct_partial",
    "Verif.GlobalIds.C12_negation_setup",
    "Verif.GlobalIds.C12_negation_mixed",
    "Verif.GlobalIds.C12_negation_single"
   ],
   "note": "holds for default-particle set-up and uniform later additions; false for full-data set-up (which all creators use) and for mixtures"
  },
  {
   "property": "C14",
   "status": "proved",
   "theorems": [
    "Verif.Boundary.C14_wrap"
   ],
   "note": "exact arithmetic (no float rounding)"
  },
  {
   "property": "C15",
   "status": "partial",
   "theorems": [
    "Verif.Boundary.C15_half_open_partial",
    "Verif.Boundary.C15_negation"
   ],
   "note": "false exactly when the particle is below min by a whole number of widths; exact characterisation and witness"
  },
  {
   "property": "C16",
   "status": "proved",
   "theorems": [
    "Verif.Boundary.C16_reflect"
   ],
   "note": "a particle further outside than the width of the box stays outside (part of the theorem)"
  },
  {
   "property": "C17",
   "status": "partial",
   "theorems": [
    "Verif.Boundary.C17_repulse_partial",
    "Verif.Boundary.C17_negation_energy",
    "Verif.Boundary.C17_negation_dead"
   ],
   "note": "force part proved; the energy is a tenth of the potential of the force applied, and particles marked for removal are counted"
  },
  {
   "property": "C18",
   "status": "proved",
   "theorems": [
    "Verif.Boundary.C18_displacement",
    "Verif.Boundary.C18_one_wrap_only"
   ],
   "note": ""
  },
  {
   "property": "C19",
   "status": "proved",
   "theorems": [
    "Verif.Boundary.C19_distance"
   ],
   "note": ""
  },
  {
   "property": "C65",
   "status": "proved",
   "theorems": [
    "Verif.Boundary.C65_attraction",
    "Verif.Boundary.C65_immovable_undefined"
   ],
   "note": ""
  },
  {
   "property": "C20",
   "status": "proved",
   "theorems": [
    "Verif.RunLoop.C20_run_time",
    "Verif.RunLoop.C20_stops_at_first",
    "Verif.RunLoop.C20_empty_system"
   ],
   "note": "exact real arithmetic; the code runs one step more than needed and an empty system keeps the request"
  },
  {
   "property": "C21",
   "status": "proved",
   "theorems": [
    "Verif.RunLoop.C21_phases_in_order"
   ],
   "note": "single-processor path"
  },
  {
   "property": "C22",
   "status": "proved",
   "theorems": [
    "Verif.RunLoop.C22_modifiers_dropped"
   ],
   "note": ""
  },
  {
   "property": "C23",
   "status": "proved",
   "theorems": [
    "Verif.Registry.C23_registered_once",
    "Verif.Registry.C23_negation_integrators"
   ],
   "note": "holds for the three named calls; addIntegrator/addModifier do not deduplicate (witness)"
  },
  {
   "property": "C24",
   "status": "proved",
   "theorems": [
    "Verif.Grid.C24_addresses_inverse",
    "Verif.Grid.C24_row_major"
   ],
   "note": "any number of dimensions"
  },
  {
   "property": "C25",
   "status": "proved",
   "theorems": [
    "Verif.Grid.C25_position_has_cell"
   ],
   "note": "exact arithmetic"
  },
  {
   "property": "C26",
   "status": "proved",
   "theorems": [
    "Verif.Grid.C26_cell_dimensions"
   ],
   "note": "exact arithmetic"
  },
  {
   "property": "C27",
   "status": "partial",
   "theorems": [
    "Verif.Stencil.C27_stencil_in_bounds",
    "Verif.Stencil.C27_pairs_once_partial",
    "Verif.Stencil.C27_complete_small_cells",
    "Verif.Stencil.C27_complete_one_dimension",
    "Verif.Stencil.C27_complete_square_cells",
    "Verif.Stencil.C27_negation_stencil",
    "Verif.Stencil.C27_negation_small_grid"
   ],
   "note": "proved for every grid whose stencil test keeps the half stencil, and the cases in which it does are proved; the test uses a dot product and drops neighbours otherwise (witness), and the forced four-cell grid lists pairs twice (witness)"
  },
  {
   "property": "C28",
   "status": "partial",
   "theorems": [
    "Verif.Cells.C28_no_pair_twice_partial",
    "Verif.Cells.C28_no_pair_missed_partial",
    "Verif.Cells.C28_large_once_partial",
    "Verif.Cells.C28_large_no_pair_missed_partial",
    "Verif.Cells.C28_small_threshold",
    "Verif.Cells.C28_negation_same_cell",
    "Verif.Cells.C28_negation_large"
   ],
   "note": "proved for all systems without large particles on grids with a complete stencil, for pair cutoff at most 1 or different cells, and for the pairs of a large particle with everything that does not reach back to it, in systems with any mixture of sizes; the remaining cases are false of the code (witnesses)"
  },
  {
   "property": "C29",
   "status": "partial",
   "theorems": [
    "Verif.Remake.C29_unlisted_pair_bound_partial",
    "Verif.Remake.C29_default_bound_partial",
    "Verif.Remake.C29_decision_zero",
    "Verif.Remake.C29_bounded_age",
    "Verif.Remake.C29_adaptation",
    "Verif.Remake.C29_negation_tolerance",
    "Verif.Remake.C29_negation_delay"
   ],
   "note": "false of the code with the default constants; exact bound on how deep a missed pair can be, bounded age of lists, and witnesses"
  },
  {
   "property": "C30",
   "status": "partial",
   "theorems": [
    "Verif.Cells.C30_all_within_partial",
    "Verif.Cells.C30_negation"
   ],
   "note": "proved when each dimension wraps or has enough cells, among particles of interacting types; neighbours are missed on small non-wrapping grids (witness)"
  },
  {
   "property": "C31",
   "status": "proved",
   "theorems": [
    "Verif.ForceMaster.C31_table",
    "Verif.ForceMaster.C31_out_of_range_undefined"
   ],
   "note": "setInteraction itself has no range check (second theorem)"
  },
  {
   "property": "C32",
   "status": "partial",
   "theorems": [
    "Verif.ForceMaster.C32_type_interacts",
    "Verif.ForceMaster.C32_max_cutoff",
    "Verif.ForceMaster.C32_types_interact_partial",
    "Verif.ForceMaster.C32_negation_bounds"
   ],
   "note": "typesInteract(a, ntypes) reads past the row (witness); all else proved"
  },
  {
   "property": "C33",
   "status": "partial",
   "theorems": [
    "Verif.Handlers.C33_verlet_list_partial",
    "Verif.Handlers.C33_vec_pairs",
    "Verif.Handlers.C33_pairs",
    "Verif.Handlers.C33_close_needed",
    "Verif.Handlers.C33_no_add_after_close",
    "Verif.Handlers.C33_negation_vector"
   ],
   "note": "proved for the three containers; VerletListVector, the fourth, is never resized and is undefined (theorem)"
  },
  {
   "property": "C34",
   "status": "proved",
   "theorems": [
    "Verif.PairForces.C34_total_force",
    "Verif.PairForces.C34_third_law",
    "Verif.PairForces.C34_superposition"
   ],
   "note": "exact real arithmetic, all six central forces"
  },
  {
   "property": "C35",
   "status": "proved",
   "theorems": [
    "Verif.PairForces.C35_hard_sphere",
    "Verif.PairForces.C35_damped"
   ],
   "note": "exact real arithmetic"
  },
  {
   "property": "C36",
   "status": "partial",
   "theorems": [
    "Verif.PairForces.C36_tangential_partial",
    "Verif.PairForces.C36_negation_no_repulsion"
   ],
   "note": "tangential part proved; the normal force is added twice to the same particle and cancels (theorem for all states)"
  },
  {
   "property": "C37",
   "status": "partial",
   "theorems": [
    "Verif.PairForces.C37_lennard_jones_partial",
    "Verif.PairForces.C37_hard_sphere",
    "Verif.PairForces.C37_negation_coulomb_shift",
    "Verif.PairForces.C37_negation_coulomb_derivative",
    "Verif.PairForces.C37_negation_buckingham"
   ],
   "note": "proved for Lennard-Jones and hard spheres; false of Coulomb and Buckingham (theorems)"
  },
  {
   "property": "C38",
   "status": "partial",
   "theorems": [
    "Verif.PairForces.C38_capped_partial",
    "Verif.PairForces.C38_negation"
   ],
   "note": "false of the code: inner force is -1 and the cap makes the force always attractive"
  },
  {
   "property": "C66",
   "status": "partial",
   "theorems": [
    "Verif.ForceMaster.C66_routing_partial",
    "Verif.ForceMaster.C66_cutoffs",
    "Verif.ForceMaster.C66_negation_stale"
   ],
   "note": "proved for a handler set up after the table; a later change of the table is not seen (witness)"
  },
  {
   "property": "C67",
   "status": "proved",
   "theorems": [
    "Verif.ForceMaster.C67_max_step",
    "Verif.ForceMaster.C67_stale_scale"
   ],
   "note": "second theorem: with no movable particle a stale time scale is used"
  },
  {
   "property": "C68",
   "status": "proved",
   "theorems": [
    "Verif.PairForces.C68_total_torque"
   ],
   "note": ""
  },
  {
   "property": "C69",
   "status": "proved",
   "theorems": [
    "Verif.PairForces.C69_virial"
   ],
   "note": ""
  },
  {
   "property": "C39",
   "status": "partial",
   "theorems": [
    "Verif.Bonds.C39_bond_forces_partial",
    "Verif.Bonds.C39_pre_integrate_current",
    "Verif.Bonds.C39_three_dimensions",
    "Verif.Bonds.C39_total_force",
    "Verif.Bonds.C39_chain_forces",
    "Verif.Bonds.C39_negation_two_dimensions",
    "Verif.Bonds.C39_negation_marked",
    "Verif.Bonds.C39_negation_removed",
    "Verif.Bonds.C39_negation_virial",
    "Verif.Bonds.C39_negation_chain_first_atom"
   ],
   "note": "force law proved for the general and the 3d bond and for chains; the 2d bond applies the force twice, its virial has the wrong sign, a bond to a removed particle is undefined and the first atom of a chain uses its global id as local id (theorems)"
  },
  {
   "property": "C44",
   "status": "proved",
   "theorems": [
    "Verif.Groups.C44_update",
    "Verif.Groups.C44_add_needs_update",
    "Verif.Groups.C44_access"
   ],
   "note": "all histories of add, update and shift"
  },
  {
   "property": "C45",
   "status": "partial",
   "theorems": [
    "Verif.Groups.C45_total_mass",
    "Verif.Groups.C45_net_force",
    "Verif.Groups.C45_com_velocity",
    "Verif.Groups.C45_add_velocity",
    "Verif.Groups.C45_add_acceleration",
    "Verif.Groups.C45_center_of_mass_partial",
    "Verif.Groups.C45_negation_center_of_mass"
   ],
   "note": "centre of mass is shifted by a box width when it lies outside of a box that does not wrap (witness); all else proved"
  },
  {
   "property": "C46",
   "status": "partial",
   "theorems": [
    "Verif.Groups.C46_single_partial",
    "Verif.Groups.C46_negation_distance",
    "Verif.Groups.C46_negation_closest",
    "Verif.Groups.C46_negation_witness"
   ],
   "note": "false of the code: distance returns the distance of the last member and findClosestObject a farthest member (theorems for all groups)"
  },
  {
   "property": "C70",
   "status": "proved",
   "theorems": [
    "Verif.Groups.C70_chained_length"
   ],
   "note": ""
  },
  {
   "property": "C71",
   "status": "partial",
   "theorems": [
    "Verif.AngleChain.C71_forces_partial",
    "Verif.AngleChain.C71_angle",
    "Verif.AngleChain.C71_total_force",
    "Verif.AngleChain.C71_negation_straight",
    "Verif.AngleChain.C71_negation_three_dimensions"
   ],
   "note": "proved in two dimensions for chains without three neighbours on a line; the springs of straight parts are skipped, and in three dimensions the last atom gets no force (theorems)"
  },
  {
   "property": "C72",
   "status": "partial",
   "theorems": [
    "Verif.AngleChain.C72_total_force_partial",
    "Verif.AngleChain.C72_negation_set_group"
   ],
   "note": "proved after pre_integrate; setGroupB stores the wrong mass (witness)"
  },
  {
   "property": "C40",
   "status": "partial",
   "theorems": [
    "Verif.StepSize.C40_adjusted_partial",
    "Verif.StepSize.C40_unchanged",
    "Verif.StepSize.C40_delay",
    "Verif.StepSize.C40_positive",
    "Verif.StepSize.C40_run_in_bounds",
    "Verif.StepSize.C40_overdamped",
    "Verif.StepSize.C40_negation_nan",
    "Verif.StepSize.C40_crossed_limits"
   ],
   "note": "proved for all histories with particles of positive radius; if all radii are zero and nothing moves the time step becomes NaN (theorem)"
  },
  {
   "property": "C41",
   "status": "proved",
   "theorems": [
    "Verif.Verlet.C41_positions",
    "Verif.Verlet.C41_velocities",
    "Verif.Verlet.C41_overdamped",
    "Verif.Verlet.C41_same"
   ],
   "note": "every positive vector width; exact arithmetic"
  },
  {
   "property": "C42",
   "status": "proved",
   "theorems": [
    "Verif.Verlet.C42_time_reversal",
    "Verif.Verlet.C42_momentum",
    "Verif.Verlet.C42_impulse",
    "Verif.Verlet.C42_immovable"
   ],
   "note": "any sequence of time steps; exact arithmetic, without boundary wrapping"
  },
  {
   "property": "C43",
   "status": "partial",
   "theorems": [
    "Verif.Verlet.C43_serial_partial",
    "Verif.Verlet.C43_simd",
    "Verif.Verlet.C43_negation_leftovers",
    "Verif.Verlet.C43_kinetic_energy",
    "Verif.Verlet.C43_before_wait"
   ],
   "note": "false of the vectorised loop when the number of components is not a multiple of the width (theorem); proved for the plain loop"
  },
  {
   "property": "C73",
   "status": "proved",
   "theorems": [
    "Verif.StepSize.C73_motion_per_step",
    "Verif.StepSize.C73_max_velocity",
    "Verif.StepSize.C73_all_particles"
   ],
   "note": ""
  },
  {
   "property": "C74",
   "status": "proved",
   "theorems": [
    "Verif.Verlet.C74_angular_momentum"
   ],
   "note": ""
  },
  {
   "property": "C75",
   "status": "partial",
   "theorems": [
    "Verif.Verlet.C75_omega_partial",
    "Verif.Verlet.C75_angles",
    "Verif.Verlet.C75_negation_plain"
   ],
   "note": "proved for the vectorised loop; the plain loop skips every second particle (theorem)"
  },
  {
   "property": "C47",
   "status": "proved",
   "theorems": [
    "Verif.KDTree.C47_ranks",
    "Verif.KDTree.C47_single",
    "Verif.KDTree.C47_partition",
    "Verif.KDTree.C47_volume",
    "Verif.KDTree.C47_inside"
   ],
   "note": "all dimensions, bounds and numbers of processors; exact arithmetic"
  },
  {
   "property": "C48",
   "status": "proved",
   "theorems": [
    "Verif.KDTree.C48_owner",
    "Verif.KDTree.C48_agree"
   ],
   "note": ""
  },
  {
   "property": "C49",
   "status": "proved",
   "theorems": [
    "Verif.Bounds.C49_contains",
    "Verif.Bounds.C49_intersection",
    "Verif.Bounds.C49_intersection_volume",
    "Verif.Bounds.C49_equality",
    "Verif.Bounds.C49_volume",
    "Verif.Bounds.C49_distance",
    "Verif.Bounds.C49_points",
    "Verif.Bounds.C49_boundary",
    "Verif.Bounds.C49_aspect_ratio"
   ],
   "note": "exact real arithmetic"
  },
  {
   "property": "C76",
   "status": "partial",
   "theorems": [
    "Verif.KDTree.C76_overlaps",
    "Verif.KDTree.C76_complete_partial",
    "Verif.KDTree.C76_only",
    "Verif.KDTree.C76_symmetric",
    "Verif.KDTree.C76_first",
    "Verif.KDTree.C76_negation_large_cutoff",
    "Verif.KDTree.C76_negation_small_particle",
    "Verif.KDTree.C76_negation_recompute"
   ],
   "note": "complete for cutoffs of at most 0.1; false for larger ones, for a small particle next to a large one, and after a change of the bounds (theorems)"
  },
  {
   "property": "C77",
   "status": "partial",
   "theorems": [
    "Verif.KDTree.C77_owner",
    "Verif.KDTree.C77_stays",
    "Verif.KDTree.C77_moves_partial",
    "Verif.KDTree.C77_negation"
   ],
   "note": "proved for particles displaced by at most 0.1; a particle that jumps over a processor stays on the wrong one (witness)"
  },
  {
   "property": "C50",
   "status": "partial",
   "theorems": [
    "Verif.Eval.C50_value_partial",
    "Verif.Eval.C50_complete",
    "Verif.Eval.C50_negation",
    "Verif.Eval.C50_unary_minus",
    "Verif.Eval.C50_negation_unary",
    "Verif.Eval.C50_negation_space",
    "Verif.Eval.C50_undefined"
   ],
   "note": "the value returned is proved for every expression; it agrees with the usual value except after a minus or a division followed by more operators (exact characterisation and witnesses)"
  },
  {
   "property": "C51",
   "status": "proved",
   "theorems": [
    "Verif.FileParse.C51_round_trip",
    "Verif.FileParse.C51_injective"
   ],
   "note": "all trees, all depths"
  },
  {
   "property": "C52",
   "status": "partial",
   "theorems": [
    "Verif.FileParse.C52_layout_partial",
    "Verif.FileParse.C52_same_partial",
    "Verif.FileParse.C52_plain",
    "Verif.FileParse.C52_negation_stars",
    "Verif.FileParse.C52_negation_stars_witness",
    "Verif.FileParse.C52_negation_heading",
    "Verif.FileParse.C52_negation_brace",
    "Verif.FileParse.C52_negation_tab"
   ],
   "note": "proved for spaces, line ends and comments between statements; false of comments that end in two stars, comments in headings, tabs and braces on a parameter line (witnesses)"
  },
  {
   "property": "C53",
   "status": "partial",
   "theorems": [
    "Verif.TreeParser.C53_visits",
    "Verif.TreeParser.C53_absent",
    "Verif.TreeParser.C53_nested",
    "Verif.TreeParser.C53_visits_all_partial",
    "Verif.TreeParser.C53_negation_empty",
    "Verif.TreeParser.C53_negation_next",
    "Verif.TreeParser.C53_end",
    "Verif.TreeParser.C53_focus",
    "Verif.TreeParser.C53_up"
   ],
   "note": "proved of begin(name), next and end for all trees; begin() on a heading without sub-headings reads out of bounds (witness)"
  },
  {
   "property": "C54",
   "status": "partial",
   "theorems": [
    "Verif.TreeParser.C54_throws_partial",
    "Verif.TreeParser.C54_warning",
    "Verif.TreeParser.C54_negation"
   ],
   "note": "throws exactly for missing necessary headings; undeclared headings never throw (theorem)"
  },
  {
   "property": "C55",
   "status": "partial",
   "theorems": [
    "Verif.TreeParser.C55_inside_partial",
    "Verif.TreeParser.C55_negative",
    "Verif.TreeParser.C55_arg_name",
    "Verif.TreeParser.C55_negation",
    "Verif.TreeParser.C55_first"
   ],
   "note": "inside the range and for negative indices; past the end the accessors read out of bounds (theorem)"
  },
  {
   "property": "C56",
   "status": "partial",
   "theorems": [
    "Verif.Recording.C56_after_start",
    "Verif.Recording.C56_spacing",
    "Verif.Recording.C56_rate",
    "Verif.Recording.C56_no_gap_partial",
    "Verif.Recording.C56_first_partial",
    "Verif.Recording.C56_negation_slow",
    "Verif.Recording.C56_setup",
    "Verif.Recording.C56_negation_two_runs",
    "Verif.Recording.C56_rate_setting",
    "Verif.Recording.C56_checkpoints"
   ],
   "note": "all time sequences; delays longer than time plus ten and second runs violate the cadence (witnesses)"
  },
  {
   "property": "C57",
   "status": "partial",
   "theorems": [
    "Verif.MultiGraph.C57_columns",
    "Verif.MultiGraph.C57_defined",
    "Verif.MultiGraph.C57_throws",
    "Verif.MultiGraph.C57_gather",
    "Verif.MultiGraph.C57_entry",
    "Verif.MultiGraph.C57_average",
    "Verif.MultiGraph.C57_file",
    "Verif.MultiGraph.C57_at_partial",
    "Verif.MultiGraph.C57_negation_at",
    "Verif.MultiGraph.C57_negation_size",
    "Verif.MultiGraph.C57_positive"
   ],
   "note": "all histories; atX and atY do not check the row and size() is the number of columns (theorems)"
  },
  {
   "property": "C58",
   "status": "partial",
   "theorems": [
    "Verif.StoreLoad.C58_load_partial",
    "Verif.StoreLoad.C58_exact",
    "Verif.StoreLoad.C58_negation_precision",
    "Verif.StoreLoad.C58_negation_no_vectors"
   ],
   "note": "every header with non-empty name lists and every list of frames; five digits lose precision, an empty list of vectors misaligns the reader (theorems)"
  },
  {
   "property": "C59",
   "status": "proved",
   "theorems": [
    "Verif.ArgParse.C59_parse",
    "Verif.ArgParse.C59_illegal",
    "Verif.ArgParse.C59_get",
    "Verif.ArgParse.C59_check",
    "Verif.ArgParse.C59_get_marks",
    "Verif.ArgParse.C59_order"
   ],
   "note": "all argument vectors and query histories"
  },
  {
   "property": "C61",
   "status": "proved",
   "theorems": [
    "Verif.Recording.C61_time",
    "Verif.Recording.C61_pairs",
    "Verif.Recording.C61_stop_twice",
    "Verif.Recording.C61_start_twice",
    "Verif.Recording.C61_no_double_counting",
    "Verif.Recording.C61_clear_while_running",
    "Verif.Recording.C61_clear",
    "Verif.Recording.C61_current",
    "Verif.Recording.C61_run_time"
   ],
   "note": "all sequences of calls"
  },
  {
   "property": "C78",
   "status": "partial",
   "theorems": [
    "Verif.StoreFrame.C78_frame_partial",
    "Verif.StoreFrame.C78_length",
    "Verif.StoreFrame.C78_negation_second_run",
    "Verif.StoreFrame.C78_no_types"
   ],
   "note": "first run proved for all particle data and requests; every later run writes past the end of the frame (theorem)"
  },
  {
   "property": "C60",
   "status": "partial",
   "theorems": [
    "Verif.Database.C60_table_partial",
    "Verif.Database.C60_shape",
    "Verif.Database.C60_add_column",
    "Verif.Database.C60_set_rows",
    "Verif.Database.C60_clear",
    "Verif.Database.C60_negation_comma",
    "Verif.Database.C60_negation_space"
   ],
   "note": "every database whose names and values hold no separators; names with commas and values with spaces break it (witnesses)"
  },
  {
   "property": "C62",
   "status": "partial",
   "theorems": [
    "Verif.Clustering.C62_clusters_partial",
    "Verif.Clustering.C62_sizes",
    "Verif.Clustering.C62_max",
    "Verif.Clustering.C62_none",
    "Verif.Clustering.C62_negation_radii",
    "Verif.Clustering.C62_negation_empty_slots",
    "Verif.Clustering.C62_negation_max"
   ],
   "note": "every symmetric neighbour graph without empty slots; with particles of different radius the result depends on their order, with empty slots the vector is accessed out of bounds (witnesses)"
  },
  {
   "property": "C63",
   "status": "partial",
   "theorems": [
    "Verif.Bins.C63_make_bins",
    "Verif.Bins.C63_one_bin",
    "Verif.Bins.C63_average",
    "Verif.Bins.C63_labels_partial",
    "Verif.Bins.C63_negation_single",
    "Verif.Bins.C63_negation_labels_lost",
    "Verif.Bins.C63_counts",
    "Verif.Bins.C63_out_of_range",
    "Verif.Bins.C63_written_partial",
    "Verif.Bins.C63_negation_flags",
    "Verif.Bins.C63_first_written",
    "Verif.Bins.C63_negation_no_data"
   ],
   "note": "graphs proved; of histograms the labels are lost at the start of a run and the flags of the data sets are read shifted by one (theorems)"
  },
  {
   "property": "C79",
   "status": "partial",
   "theorems": [
    "Verif.Removers.C79_forces_partial",
    "Verif.Removers.C79_after_reordering",
    "Verif.Removers.C79_immovable",
    "Verif.Removers.C79_start",
    "Verif.Removers.C79_momentum_stays_zero",
    "Verif.Removers.C79_negation_removed_member"
   ],
   "note": "all groups, forces and runs under velocity Verlet; when a member is removed the mass stored at the start is stale and a part of the force remains (witness)"
  },
  {
   "property": "C80",
   "status": "partial",
   "theorems": [
    "Verif.Removers.C80_torque_partial",
    "Verif.Removers.C80_balanced",
    "Verif.Removers.C80_other_dimensions",
    "Verif.Removers.C80_spin_partial",
    "Verif.Removers.C80_negation_single",
    "Verif.Removers.C80_negation_three_dimensions"
   ],
   "note": "two dimensions; nothing is done to torques in other dimensions, the spin is removed wrongly in three, a single particle divides by zero (theorems)"
  },
  {
   "property": "C81",
   "status": "partial",
   "theorems": [
    "Verif.Walls.C81_common_acceleration",
    "Verif.Walls.C81_immovable",
    "Verif.Walls.C81_rigid",
    "Verif.Walls.C81_two_walls_range",
    "Verif.Walls.C81_two_walls_forces_partial",
    "Verif.Walls.C81_negation_momentum",
    "Verif.Walls.C81_negation_length",
    "Verif.Walls.C81_length_partial"
   ],
   "note": "rigid motion for all runs; the forces between two walls are equal and opposite only for equal masses, the length is wrong for example for a single particle (witnesses)"
  },
  {
   "property": "C82",
   "status": "partial",
   "theorems": [
    "Verif.Motion.C82_constant_velocity",
    "Verif.Motion.C82_removed",
    "Verif.Motion.C82_distance_partial",
    "Verif.Motion.C82_negation_short",
    "Verif.Motion.C82_negation_long"
   ],
   "note": "constant velocity for all runs; the distance only with a constant time step: with changing steps the particle stops too early or too late (witnesses)"
  },
  {
   "property": "C83",
   "status": "partial",
   "theorems": [
    "Verif.BodyForces.C83_acceleration",
    "Verif.BodyForces.C83_free_fall",
    "Verif.BodyForces.C83_linear_drag",
    "Verif.BodyForces.C83_quadratic",
    "Verif.BodyForces.C83_quadratic_drag_partial",
    "Verif.BodyForces.C83_negation_quadratic",
    "Verif.BodyForces.C83_damped_step_partial",
    "Verif.BodyForces.C83_negation_half_strength"
   ],
   "note": "accelerations for all runs; damping acts in half of each step only, and quadratic damping accelerates particles that move in a negative direction (theorems)"
  },
  {
   "property": "C84",
   "status": "partial",
   "theorems": [
    "Verif.BodyForces.C84_wind",
    "Verif.BodyForces.C84_wind_speed",
    "Verif.BodyForces.C84_negation_immovable",
    "Verif.BodyForces.C84_stream_partial",
    "Verif.BodyForces.C84_stream_elsewhere"
   ],
   "note": "all states; immovable particles are driven as well (witness)"
  },
  {
   "property": "C85",
   "status": "partial",
   "theorems": [
    "Verif.Stream.C85_regular_partial",
    "Verif.Stream.C85_no_lag",
    "Verif.Stream.C85_negation_two_runs",
    "Verif.Stream.C85_grid_partial",
    "Verif.Stream.C85_negation_thin",
    "Verif.Stream.C85_stripes_partial"
   ],
   "note": "all histories of one run and all processors that reach half a spacing into the box; two runs do not fit together, thin processors create points outside, stripe data is written through a dangling pointer when the arrays grow (theorems)"
  },
  {
   "property": "C86",
   "status": "partial",
   "theorems": [
    "Verif.Stream.C86_interval_partial",
    "Verif.Stream.C86_negation_second_run"
   ],
   "note": "all histories of one run; in a second run the modifier does nothing for as long as the first one lasted (theorem)"
  },
  {
   "property": "C87",
   "status": "partial",
   "theorems": [
    "Verif.Demon.C87_counts",
    "Verif.Demon.C87_decisions",
    "Verif.Demon.C87_revert_partial",
    "Verif.Demon.C87_checkpoint",
    "Verif.Demon.C87_progress",
    "Verif.Demon.C87_negation_forces",
    "Verif.Demon.C87_throws"
   ],
   "note": "all states and histories; forces are not restored (witness)"
  },
  {
   "property": "C88",
   "status": "partial",
   "theorems": [
    "Verif.Regions.C88_contains",
    "Verif.Regions.C88_volume",
    "Verif.Regions.C88_inverse",
    "Verif.Regions.C88_bounding_box",
    "Verif.Regions.C88_pick_partial",
    "Verif.Regions.C88_reach",
    "Verif.Regions.C88_negation_radius"
   ],
   "note": "all regions with ordered limits or positive radius; a spherical region of radius zero yields the origin instead of its centre (witness)"
  },
  {
   "property": "C89",
   "status": "partial",
   "theorems": [
    "Verif.Wall.C89_positions",
    "Verif.Wall.C89_spacing_partial",
    "Verif.Wall.C89_between_partial",
    "Verif.Wall.C89_negation_gaps",
    "Verif.Wall.C89_negation_overshoot",
    "Verif.Wall.C89_negation_processors",
    "Verif.Wall.C89_point"
   ],
   "note": "exact positions for all parameters; with the default spacing the particles never touch, small spacings overshoot the end, every processor creates the whole wall (theorems)"
  },
  {
   "property": "C90",
   "status": "proved",
   "theorems": [
    "Verif.Circle.C90_on_sphere",
    "Verif.Circle.C90_no_holes",
    "Verif.Circle.C90_ring",
    "Verif.Circle.C90_once"
   ],
   "note": "every dimension from two, all parameters and decompositions"
  },
  {
   "property": "C91",
   "status": "partial",
   "theorems": [
    "Verif.Fill.C91_number_partial",
    "Verif.Fill.C91_number_general",
    "Verif.Fill.C91_negation_number",
    "Verif.Fill.C91_negation_no_template",
    "Verif.Fill.C91_excluded_partial",
    "Verif.Fill.C91_negation_excluded",
    "Verif.Fill.C91_phi",
    "Verif.Fill.C91_phi_ends",
    "Verif.Fill.C91_rho",
    "Verif.Fill.C91_volumes",
    "Verif.Fill.C91_rho_processors",
    "Verif.Fill.C91_negation_processors"
   ],
   "note": "densities for all random sequences and decompositions; with several numbered templates only the largest number is created, each processor creates the full number, after 51 attempts a particle is put in an excluded region (theorems)"
  },
  {
   "property": "C92",
   "status": "partial",
   "theorems": [
    "Verif.Thermal.C92_energy",
    "Verif.Thermal.C92_temperature_partial",
    "Verif.Thermal.C92_negation_odd",
    "Verif.Thermal.C92_negation_single",
    "Verif.Thermal.C92_negation_immovable",
    "Verif.Thermal.C92_negation_excluded"
   ],
   "note": "every even number of movable particles outside excluded regions; odd numbers, single particles, immovable ones and excluded regions give a wrong temperature (theorems)"
  },
  {
   "property": "C93",
   "status": "partial",
   "theorems": [
    "Verif.Thermal.C93_mass",
    "Verif.Thermal.C93_proportional_range",
    "Verif.Thermal.C93_proportional_partial",
    "Verif.Thermal.C93_discrete",
    "Verif.Thermal.C93_parse_partial",
    "Verif.Thermal.C93_negation_probabilities"
   ],
   "note": "masses in all dimensions, proportional radii in two; the values of a discrete distribution are read as its probabilities (theorem)"
  },
  {
   "property": "C94",
   "status": "proved",
   "theorems": [
    "Verif.Fixers.C94_velocities"
   ],
   "note": "all histories before and during the relaxation"
  },
  {
   "property": "C95",
   "status": "partial",
   "theorems": [
    "Verif.Polymer.C95_step",
    "Verif.Polymer.C95_primaries",
    "Verif.Polymer.C95_no_overlap",
    "Verif.Polymer.C95_length",
    "Verif.Polymer.C95_negation_rounding",
    "Verif.Polymer.C95_line",
    "Verif.Polymer.C95_ordered_line",
    "Verif.Polymer.C95_parallel",
    "Verif.Polymer.C95_negation_ids",
    "Verif.Polymer.C95_density_partial",
    "Verif.Polymer.C95_negation_density"
   ],
   "note": "composition and positions for all parameters and random numbers; the loop over the atoms takes global ids for local indices and reads outside the arrays from 17 atoms on, the random rounding never rounds up, the default density is computed with the old radius (theorems)"
  },
  {
   "property": "C96",
   "status": "partial",
   "theorems": [
    "Verif.BoxCreator.C96_bounds",
    "Verif.BoxCreator.C96_inside_partial",
    "Verif.BoxCreator.C96_negation_inside",
    "Verif.BoxCreator.C96_number",
    "Verif.BoxCreator.C96_fraction_partial",
    "Verif.BoxCreator.C96_negation_fraction",
    "Verif.BoxCreator.C96_mass_partial",
    "Verif.BoxCreator.C96_negation_mass",
    "Verif.BoxCreator.C96_energy"
   ],
   "note": "cubes proved in every dimension; for other heights the number is wrong and particles can be outside, the density is one only in two dimensions (theorems)"
  },
  {
   "property": "C97",
   "status": "partial",
   "theorems": [
    "Verif.SimData.C97_reserve_partial",
    "Verif.SimData.C97_negation_stale_ids",
    "Verif.SimData.C97_negation_removal"
   ],
   "note": "all stores without entries; with particles the id map and the removal list become stale (theorems for all such stores)"
  },
  {
   "property": "C98",
   "status": "proved",
   "theorems": [
    "Verif.SimData.C98_renumbering"
   ],
   "note": "all reachable stores, ranks and groups"
  },
  {
   "property": "C99",
   "status": "partial",
   "theorems": [
    "Verif.SimData.C99_bad_particles_partial",
    "Verif.SimData.C99_negation_all_bad"
   ],
   "note": "all reachable stores with a good particle; without one the compaction reads outside the arrays (theorem)"
  },
  {
   "property": "C100",
   "status": "partial",
   "theorems": [
    "Verif.VecMem.C100_values_partial",
    "Verif.VecMem.C100_negation_moved",
    "Verif.VecMem.C100_negation_self_move",
    "Verif.VecMem.C100_negation_empty_array",
    "Verif.VecMem.C100_negation_negative"
   ],
   "note": "all programs on values; assigning to a moved-from vector of the same size writes through null, moving a vector to itself loses its array, negative sizes and empty arrays are mishandled (theorems)"
  },
  {
   "property": "C101",
   "status": "proved",
   "theorems": [
    "Verif.ForLoop.C101_for_loop"
   ],
   "note": "all dimensions from one, boxes, bodies and maxima"
  },
  {
   "property": "C102",
   "status": "proved",
   "theorems": [
    "Verif.ForLoop.C102_vector_templates"
   ],
   "note": "all dimensions and aliasing of whole vectors"
  },
  {
   "property": "C103",
   "status": "partial",
   "theorems": [
    "Verif.LinkedList.C103_pairs_partial",
    "Verif.LinkedList.C103_negation_periodic",
    "Verif.LinkedList.C103_negation_large",
    "Verif.LinkedList.C103_negation_limit",
    "Verif.LinkedList.C103_negation_narrow"
   ],
   "note": "all configurations of small particles in wide cells; pairs across periodic boundaries, of large particles and in boxes narrower than four cutoffs are missed (theorems for all such systems, witness for the narrow box)"
  },
  {
   "property": "C104",
   "status": "partial",
   "theorems": [
    "Verif.Cells.C104_remove_overlapping_partial",
    "Verif.Cells.C104_nothing_removed_partial",
    "Verif.Cells.C104_negation_undefined",
    "Verif.Cells.C104_negation_immovable",
    "Verif.Cells.C104_negation_wall_removed",
    "Verif.Cells.C104_negation_periodic",
    "Verif.Cells.C104_negation_types",
    "Verif.Cells.C104_negation_minimal"
   ],
   "note": "all configurations of small movable particles for which the traversal is defined; witnesses: the traversal reads cutoffs at type -1, overlaps with immovable particles stay or remove the wall, overlaps across periodic boundaries stay"
  },
  {
   "property": "C105",
   "status": "partial",
   "theorems": [
    "Verif.Relaxation.C105_hard_sphere_relaxation_partial",
    "Verif.Relaxation.C105_relaxation_partial",
    "Verif.Relaxation.C105_negation_empty",
    "Verif.Relaxation.C105_negation_dangling"
   ],
   "note": "all simulations with particles; without particles the run mode stays that of the setup, and relax leaves all components pointing to its deleted integrator (theorems for all simulations)"
  },
  {
   "property": "C106",
   "status": "partial",
   "theorems": [
    "Verif.RayTree.C106_sphere_partial",
    "Verif.RayTree.C106_box",
    "Verif.RayTree.C106_tree_finds",
    "Verif.RayTree.C106_nearest_partial",
    "Verif.RayTree.C106_brute",
    "Verif.RayTree.C106_negation_inside",
    "Verif.RayTree.C106_negation_cut",
    "Verif.RayTree.C106_negation_far"
   ],
   "note": "all scenes with the camera outside of the spheres: the exhaustive search is right, the tree is right for spheres that no splitting plane cuts; a cut sphere hides nearer ones, a camera inside of a sphere does not see it, and the exhaustive search reports the far distance of the wrong sphere (witnesses)"
  },
  {
   "property": "C107",
   "status": "partial",
   "theorems": [
    "Verif.Overdamped.C107_motion",
    "Verif.Overdamped.C107_centre",
    "Verif.Overdamped.C107_motion_per_step_partial",
    "Verif.Overdamped.C107_relax_end",
    "Verif.Overdamped.C107_relax_ends",
    "Verif.Overdamped.C107_negation_between",
    "Verif.Overdamped.C107_negation_fixed",
    "Verif.Overdamped.C107_negation_stale"
   ],
   "note": "all histories of forces; the motion is limited only in steps in which the time step is calculated, a fixed time step is overwritten at the start of a run, and with a delay other than the default the relaxation can end with any acceleration (theorems)"
  },
  {
   "property": "C108",
   "status": "partial",
   "theorems": [
    "Verif.Langevin.C108_drift",
    "Verif.Langevin.C108_total_noise",
    "Verif.Langevin.C108_noise_bound",
    "Verif.Langevin.C108_step",
    "Verif.Langevin.C108_decay",
    "Verif.Langevin.C108_slows_partial",
    "Verif.Langevin.C108_overdamped",
    "Verif.Langevin.C108_negation_second_run",
    "Verif.Langevin.C108_negation_heating",
    "Verif.Langevin.C108_negation_unstable",
    "Verif.Langevin.C108_negation_viscosity"
   ],
   "note": "all histories; a second run has no noise until it is longer than the first, time at zero temperature counts for the first noise, too large time steps make drag accelerate, viscosity acts as a mobility in the overdamped version (theorems)"
  },
  {
   "property": "C109",
   "status": "partial",
   "theorems": [
    "Verif.DemonWall.C109_force",
    "Verif.DemonWall.C109_repulsion",
    "Verif.DemonWall.C109_nearest_image",
    "Verif.DemonWall.C109_balanced",
    "Verif.DemonWall.C109_turn_on",
    "Verif.DemonWall.C109_cleared_partial",
    "Verif.DemonWall.C109_negation_lists",
    "Verif.DemonWall.C109_negation_dimensions",
    "Verif.DemonWall.C109_negation_no_side",
    "Verif.DemonWall.C109_negation_type",
    "Verif.DemonWall.C109_negation_overlap"
   ],
   "note": "all configurations and random sequences; pairs listed as periodic or ghost pairs are ignored, walls of a smaller type keep their particles, without the data Side a null pointer is read, moved particles can overlap (theorems, witness for the last)"
  },
  {
   "property": "C110",
   "status": "partial",
   "theorems": [
    "Verif.SetupFile.C110_variables",
    "Verif.SetupFile.C110_values_partial",
    "Verif.SetupFile.C110_empty",
    "Verif.SetupFile.C110_program_first",
    "Verif.SetupFile.C110_negation_stale",
    "Verif.SetupFile.C110_negation_spaces",
    "Verif.SetupFile.C110_negation_no_parameter"
   ],
   "note": "all files and command lines for one simulation; values keep their old value in further simulations of the same creator, texts of the command line end at a space, a heading without parameter is read outside (theorems)"
  },
  {
   "property": "C111",
   "status": "partial",
   "theorems": [
    "Verif.SetupFile.C111_table",
    "Verif.SetupFile.C111_parameters_partial",
    "Verif.SetupFile.C111_negation_parameters",
    "Verif.SetupFile.C111_refused"
   ],
   "note": "all tables after any history; entries of the same name share the parameters of the first one (theorem for all names and parameters)"
  },
  {
   "property": "C112",
   "status": "partial",
   "theorems": [
    "Verif.SetupFile.C112_names",
    "Verif.SetupFile.C112_boundaries",
    "Verif.SetupFile.C112_refused",
    "Verif.SetupFile.C112_particle_partial",
    "Verif.SetupFile.C112_negation_order",
    "Verif.SetupFile.C112_negation_distance",
    "Verif.SetupFile.C112_negation_missing"
   ],
   "note": "all files with unnamed directions and complete entries; named directions are taken in the order of the names, the distance of CV-D is never read, missing coordinates or radii are read uninitialised (theorems)"
  },
  {
   "property": "C113",
   "status": "partial",
   "theorems": [
    "Verif.Observables.C113_kinetic_partial",
    "Verif.Observables.C113_rotational",
    "Verif.Observables.C113_total_partial",
    "Verif.Observables.C113_decomposition",
    "Verif.Observables.C113_negation_rotation",
    "Verif.Observables.C113_negation_marked",
    "Verif.Observables.C113_negation_average"
   ],
   "note": "all particle sets and decompositions; the total energy contains twice the rotational energy, the kinetic energy counts particles marked for removal, its average counts immovable particles (theorems)"
  },
  {
   "property": "C114",
   "status": "partial",
   "theorems": [
    "Verif.Observables.C114_speed",
    "Verif.Observables.C114_velocity_partial",
    "Verif.Observables.C114_window",
    "Verif.Observables.C114_negation_window",
    "Verif.Observables.C114_numbers",
    "Verif.Observables.C114_phi",
    "Verif.Observables.C114_types_partial",
    "Verif.Observables.C114_negation_types",
    "Verif.Observables.C114_negation_oscillation"
   ],
   "note": "all particle sets and decompositions; velocities and positions are averaged over the middle of the box only, energies per type are those of processor 0, deviations are never computed (theorems)"
  },
  {
   "property": "C115",
   "status": "partial",
   "theorems": [
    "Verif.Observables.C115_temperature_partial",
    "Verif.Observables.C115_pressure_partial",
    "Verif.Observables.C115_negation_processors",
    "Verif.Observables.C115_negation_rest"
   ],
   "note": "one processor: equipartition and the virial equation in units of N kB T/V; an ideal gas on n processors has the pressure n; no number at rest (theorems)"
  },
  {
   "property": "C116",
   "status": "partial",
   "theorems": [
    "Verif.Observables.C116_runs_partial",
    "Verif.Observables.C116_negation_later",
    "Verif.Observables.C116_negation_lost"
   ],
   "note": "all histories for objects with the inherited preparation; total energy, pressure, persistence and others miss later runs (theorems)"
  },
  {
   "property": "C117",
   "status": "partial",
   "theorems": [
    "Verif.Correlation.C117_kinetic_partial",
    "Verif.Correlation.C117_center",
    "Verif.Correlation.C117_group_partial",
    "Verif.Correlation.C117_negation_edge",
    "Verif.Correlation.C117_negation_runs",
    "Verif.Correlation.C117_negation_radius"
   ],
   "note": "all radii and bins, except distances exactly equal to the radius: exception or write outside of the bins; the bins of the centre correlation are never cleared (theorems)"
  },
  {
   "property": "C118",
   "status": "partial",
   "theorems": [
    "Verif.Correlation.C118_chain_partial",
    "Verif.Correlation.C118_negation_chain",
    "Verif.Correlation.C118_persistence"
   ],
   "note": "all chains: the distance is that from the closest member and its bonds, which is not always that from the chain (witness); persistence data exact and safe"
  },
  {
   "property": "C119",
   "status": "partial",
   "theorems": [
    "Verif.RunDirectory.C119_written_partial",
    "Verif.RunDirectory.C119_success",
    "Verif.RunDirectory.C119_no_stale",
    "Verif.RunDirectory.C119_keeps",
    "Verif.RunDirectory.C119_negation_same_name",
    "Verif.RunDirectory.C119_negation_multibin",
    "Verif.RunDirectory.C119_negation_exception",
    "Verif.RunDirectory.C119_negation_summary"
   ],
   "note": "all file systems and directories for data objects of different names without exceptions; objects of the same name overwrite each other, multi bin objects are never written, exceptions and a missing summary are reported as success (theorems)"
  },
  {
   "property": "C120",
   "status": "partial",
   "theorems": [
    "Verif.RunDirectory.C120_only_directory_partial",
    "Verif.RunDirectory.C120_auto",
    "Verif.RunDirectory.C120_returning",
    "Verif.RunDirectory.C120_negation_spaces",
    "Verif.RunDirectory.C120_negation_words",
    "Verif.RunDirectory.C120_negation_empty"
   ],
   "note": "all names without spaces; the words of a name with spaces are removed, the empty name writes to the root, going back to an earlier directory removes its results (theorems)"
  },
  {
   "property": "C121",
   "status": "partial",
   "theorems": [
    "Verif.Summary.C121_averages",
    "Verif.Summary.C121_ranges_partial",
    "Verif.Summary.C121_between",
    "Verif.Summary.C121_negation_kinetic",
    "Verif.Summary.C121_negation_first"
   ],
   "note": "all sets with movable particles; the range of the kinetic energy is twice that of the kinetic energies, an immovable first particle enters all ranges (theorems)"
  },
  {
   "property": "C122",
   "status": "partial",
   "theorems": [
    "Verif.Summary.C122_types",
    "Verif.Summary.C122_packing_partial",
    "Verif.Summary.C122_negation_gap",
    "Verif.Summary.C122_negation_ghosts"
   ],
   "note": "all decompositions; particles marked for removal write before the table, ghosts are counted in the packing fraction (theorems)"
  },
  {
   "property": "C123",
   "status": "partial",
   "theorems": [
    "Verif.VolumePlot.C123_run_partial",
    "Verif.VolumePlot.C123_square_partial",
    "Verif.VolumePlot.C123_steps",
    "Verif.VolumePlot.C123_negation_narrow",
    "Verif.VolumePlot.C123_negation_narrow_add",
    "Verif.VolumePlot.C123_negation_wide",
    "Verif.VolumePlot.C123_negation_lines"
   ],
   "note": "all windows with equal numbers of bins; with different numbers bins outside of the plot are accessed or only part is used, no line ends without counts (theorems)"
  },
  {
   "property": "C124",
   "status": "partial",
   "theorems": [
    "Verif.GroupAngular.C124_values_partial",
    "Verif.GroupAngular.C124_uniform",
    "Verif.GroupAngular.C124_internal",
    "Verif.GroupAngular.C124_frame",
    "Verif.GroupAngular.C124_inertia",
    "Verif.GroupAngular.C124_negation_processors",
    "Verif.GroupAngular.C124_negation_line"
   ],
   "note": "all groups smaller than half of the box, also across boundaries, on one processor; on several processors the torque of each part is taken around its own centre (zero for one member per processor), in one dimension vectors are read outside (theorems)"
  },
  {
   "property": "C125",
   "status": "partial",
   "theorems": [
    "Verif.TwoGroups.C125_histogram_partial",
    "Verif.TwoGroups.C125_labels",
    "Verif.TwoGroups.C125_symmetric",
    "Verif.TwoGroups.C125_record",
    "Verif.TwoGroups.C125_negation_below",
    "Verif.TwoGroups.C125_negation_lost"
   ],
   "note": "all records not below the range; values less than one bin below the range are counted in the first bin, a group without members is recorded at the origin (theorems)"
  },
  {
   "property": "C126",
   "status": "partial",
   "theorems": [
    "Verif.BinForce.C126_walls_partial",
    "Verif.BinForce.C126_wrap",
    "Verif.BinForce.C126_negation_order",
    "Verif.BinForce.C126_negation_direction"
   ],
   "note": "all histories for walls sliding in direction 0 with the second wall on the right; walls in the other order are never recorded, the boundary of direction 0 is used for all directions (theorems)"
  },
  {
   "property": "C127",
   "status": "partial",
   "theorems": [
    "Verif.BinForce.C127_distance_partial",
    "Verif.BinForce.C127_averages",
    "Verif.BinForce.C127_record",
    "Verif.BinForce.C127_negation_bend"
   ],
   "note": "all histories and geometries; the distance is that from the line through the two closest particles, which is not always that from the polymer (witness)"
  },
  {
   "property": "C128",
   "status": "partial",
   "theorems": [
    "Verif.ForceSum.C128_forces_partial",
    "Verif.ForceSum.C128_energy_partial",
    "Verif.ForceSum.C128_rebuild_partial"
   ],
   "note": "all systems, histories of the table, force laws, containers and old contents, and all motions by at most half of the skin depth; pairs in one cell with cutoff above 1, large particles, incomplete stencils and few cells are excluded (false of the code: C27, C28), and so are larger motions (C29)"
  },
  {
   "property": "C129",
   "status": "partial",
   "theorems": [
    "Verif.Trajectory.C129_run_partial",
    "Verif.Trajectory.C129_delay_partial",
    "Verif.Trajectory.C129_momentum_partial"
   ],
   "note": "all systems, time steps and timely schedules, one processor, wrapping and open boundaries, pair forces; that the decisions of the code are timely is false (C29), same-cell pairs with cutoff above 1, large particles, incomplete stencils, few cells (C27, C28) and particles exactly on a boundary (C15) are excluded"
  },
  {
   "property": "C130",
   "status": "partial",
   "theorems": [
    "Verif.Percolation.C130_sizes_partial",
    "Verif.Percolation.C130_total",
    "Verif.Percolation.C130_unique",
    "Verif.Percolation.C130_snapshot_partial",
    "Verif.Percolation.C130_negation_skin",
    "Verif.Percolation.C130_negation_skin_sizes",
    "Verif.Percolation.C130_negation_no_particles",
    "Verif.Percolation.C130_negation_snapshot_hole"
   ],
   "note": "every run and configuration with symmetric neighbours and particles present; the skin of the constructor is ignored, steps without particles repeat the previous sizes, empty slots make the snapshot access outside of its vector"
  },
  {
   "property": "C131",
   "status": "proved",
   "theorems": [
    "Verif.Palette.C131_pixels",
    "Verif.Palette.C131_unique",
    "Verif.Palette.C131_bitmap",
    "Verif.Palette.C131_cover",
    "Verif.Palette.C131_second_cover"
   ],
   "note": "every sequence of dots of any palettes of an image; consequence: a second cover at the same depth (the white frame of pictures) is not seen"
  },
  {
   "property": "C132",
   "status": "partial",
   "theorems": [
    "Verif.Palette.C132_disc",
    "Verif.Palette.C132_colour",
    "Verif.Palette.C132_centre",
    "Verif.Palette.C132_wrapped_partial",
    "Verif.Palette.C132_negation_large",
    "Verif.Palette.C132_negation_space"
   ],
   "note": "all discs without wrapping, and with wrapping up to the size of the palette; larger ones colour pixels outside of the palette; on a part of a palette the size in space has no value until it is set"
  },
  {
   "property": "C133",
   "status": "partial",
   "theorems": [
    "Verif.Palette.C133_part_partial",
    "Verif.Palette.C133_nested",
    "Verif.Palette.C133_in_image",
    "Verif.Palette.C133_owned",
    "Verif.Palette.C133_centred_partial",
    "Verif.Palette.C133_largest_partial",
    "Verif.Palette.C133_negation_outside",
    "Verif.Palette.C133_negation_rows",
    "Verif.Palette.C133_negation_flat",
    "Verif.Palette.C133_negation_ratio"
   ],
   "note": "all limits in the palette; upper limits are not corrected, rows of parts count from above but rows of drawing from below, the ratio is rounded to an integer"
  },
  {
   "property": "C134",
   "status": "partial",
   "theorems": [
    "Verif.Palette.C134_no_dangling",
    "Verif.Palette.C134_no_leak_partial",
    "Verif.Palette.C134_negation_assignment"
   ],
   "note": "all histories; images are never used after deletion; without assignments they are deleted in time, an assignment loses the old image"
  },
  {
   "property": "C135",
   "status": "partial",
   "theorems": [
    "Verif.Plot.C135_columns_partial",
    "Verif.Plot.C135_steep",
    "Verif.Plot.C135_weights",
    "Verif.Plot.C135_negation_black"
   ],
   "note": "all lines; the ends are drawn with half of their factor, and pixels beside the line are touched with factor 0 and become black (theorem)"
  },
  {
   "property": "C136",
   "status": "partial",
   "theorems": [
    "Verif.Plot.C136_extent",
    "Verif.Plot.C136_graph_partial",
    "Verif.Plot.C136_limits",
    "Verif.Plot.C136_second",
    "Verif.Plot.C136_negation_negative",
    "Verif.Plot.C136_negation_column"
   ],
   "note": "all data with non-negative maxima not in one column or row; negative maxima put points outside of the palette, one column divides by zero (theorems)"
  },
  {
   "property": "C137",
   "status": "partial",
   "theorems": [
    "Verif.Frames.C137_option_partial",
    "Verif.Frames.C137_first",
    "Verif.Frames.C137_again",
    "Verif.Frames.C137_snapshot",
    "Verif.Frames.C137_negation_no_radius",
    "Verif.Frames.C137_negation_second",
    "Verif.Frames.C137_negation_custom",
    "Verif.Frames.C137_negation_magnitudes",
    "Verif.Frames.C137_negation_function"
   ],
   "note": "all columns with positions and radii; without radii the last component of the last vector is used, other columns in a second load, custom names not stored, magnitudes and the colour function of a previous choice are wrong (theorems)"
  },
  {
   "property": "C138",
   "status": "partial",
   "theorems": [
    "Verif.Colours.C138_bank",
    "Verif.Colours.C138_types",
    "Verif.Colours.C138_types_differ",
    "Verif.Colours.C138_scales",
    "Verif.Colours.C138_vscale",
    "Verif.Colours.C138_scalar_partial",
    "Verif.Colours.C138_vector_partial",
    "Verif.Colours.C138_stripes",
    "Verif.Colours.C138_log",
    "Verif.Colours.C138_angle",
    "Verif.Colours.C138_negation_processors",
    "Verif.Colours.C138_negation_average",
    "Verif.Colours.C138_negation_equal",
    "Verif.Colours.C138_negation_rest"
   ],
   "note": "all histories and data; equal values or particles at rest divide by zero, averages are multiplied by an integer quotient that is 0, processors above 64 repeat (theorems)"
  },
  {
   "property": "C139",
   "status": "partial",
   "theorems": [
    "Verif.Colours.C139_shade",
    "Verif.Colours.C139_resolution_partial",
    "Verif.Colours.C139_projection",
    "Verif.Colours.C139_negation_narrow"
   ],
   "note": "all bounds, positions and radii; very narrow bounds give an image without rows (theorem)"
  },
  {
   "property": "C140",
   "status": "partial",
   "theorems": [
    "Verif.Fields.C140_grid",
    "Verif.Fields.C140_bin_partial",
    "Verif.Fields.C140_counted",
    "Verif.Fields.C140_cells",
    "Verif.Fields.C140_fluctuation",
    "Verif.Fields.C140_total",
    "Verif.Fields.C140_negation_below",
    "Verif.Fields.C140_negation_speed"
   ],
   "note": "all bounds and frames; particles less than a bin below the bounds are counted in the first bin, the field of speeds is not a mean (theorems)"
  },
  {
   "property": "C141",
   "status": "proved",
   "theorems": [
    "Verif.Rounds.C141_states",
    "Verif.Rounds.C141_no_deadlock",
    "Verif.Rounds.C141_terminates",
    "Verif.Rounds.C141_completes",
    "Verif.Rounds.C141_sync",
    "Verif.Rounds.C141_negation_one_sided"
   ],
   "note": "all programs of rounds with mutual neighbours and all interleavings, buffered or not; one-sided neighbours block (theorem: the hypothesis is needed; C76_symmetric proves it of the code)"
  },
  {
   "property": "C142",
   "status": "partial",
   "theorems": [
    "Verif.Exchange.C142_conserved",
    "Verif.Exchange.C142_completes",
    "Verif.Exchange.C142_home_partial",
    "Verif.Exchange.C142_sizes_partial",
    "Verif.Exchange.C142_negation_far",
    "Verif.Exchange.C142_negation_slot"
   ],
   "note": "all numbers of processors, bounds and interleavings; particles that pass a whole processor are never handed over, and the numbers are sent from a variable that is overwritten (theorems)"
  },
  {
   "property": "C143",
   "status": "partial",
   "theorems": [
    "Verif.Ghosts.C143_ghosts",
    "Verif.Ghosts.C143_completes",
    "Verif.Ghosts.C143_image",
    "Verif.Ghosts.C143_buffer",
    "Verif.Ghosts.C143_size_partial",
    "Verif.Ghosts.C143_negation_number"
   ],
   "note": "all settings and interleavings between two rebuilds; the number of ghosts reported is twice their number (theorem)"
  },
  {
   "property": "C144",
   "status": "partial",
   "theorems": [
    "Verif.Collective.C144_together_partial",
    "Verif.Collective.C144_rebuild_partial",
    "Verif.Collective.C144_end_partial",
    "Verif.Collective.C144_ends_partial",
    "Verif.Collective.C144_negation_empty",
    "Verif.Collective.C144_negation_rest",
    "Verif.Collective.C144_negation_local",
    "Verif.Collective.C144_negation_start",
    "Verif.Collective.C144_negation_endless"
   ],
   "note": "all numbers of processors, steps and inputs, if each processor has particles, moves, and (intervals) has no local wish to rebuild; otherwise the run hangs, and with type 0 without interactions it never ends (theorems)"
  },
  {
   "property": "C145",
   "status": "proved",
   "theorems": [
    "Verif.Gather.C145_gather",
    "Verif.Gather.C145_end",
    "Verif.Gather.C145_records"
   ],
   "note": "all numbers of processors, frames, lengths and interleavings, sends buffered or not"
  },
  {
   "property": "C146",
   "status": "partial",
   "theorems": [
    "Verif.Driver.C146_early",
    "Verif.Driver.C146_success_partial",
    "Verif.Driver.C146_serial",
    "Verif.Driver.C146_negation_exception",
    "Verif.Driver.C146_negation_open",
    "Verif.Driver.C146_negation_steps",
    "Verif.Driver.C146_negation_no_integrator"
   ],
   "note": "all processors, arguments and failures before the run, and all runs without exception in which the root can write its summary; otherwise the root waits for ever in collective operations; without an integrator status 0 is returned although nothing was run (theorems)"
  },
  {
   "property": "C147",
   "status": "partial",
   "theorems": [
    "Verif.Video.C147_at_most",
    "Verif.Video.C147_at_least_partial",
    "Verif.Video.C147_after_start",
    "Verif.Video.C147_fps",
    "Verif.Video.C147_default",
    "Verif.Video.C147_zero",
    "Verif.Video.C147_negation_short"
   ],
   "note": "all options and all sequences of times; very short videos have no frame at all (theorem)"
  },
  {
   "property": "C148",
   "status": "partial",
   "theorems": [
    "Verif.PolymerArea.C148_ids",
    "Verif.PolymerArea.C148_chains_partial",
    "Verif.PolymerArea.C148_correlation",
    "Verif.PolymerArea.C148_number",
    "Verif.PolymerArea.C148_pair_partial",
    "Verif.PolymerArea.C148_negation_dims",
    "Verif.PolymerArea.C148_negation_later",
    "Verif.PolymerArea.C148_negation_one_before",
    "Verif.PolymerArea.C148_negation_invalid"
   ],
   "note": "all lists of areas; chains in two and three dimensions, in others polymers are not bound; the pair if it is the first area and all others are valid, otherwise the wrong polymers or none are measured (theorems)"
  },
  {
   "property": "C149",
   "status": "partial",
   "theorems": [
    "Verif.GhostPairs.C149_borders",
    "Verif.GhostPairs.C149_cell_exists",
    "Verif.GhostPairs.C149_listed_pairs",
    "Verif.GhostPairs.C149_not_twice_partial",
    "Verif.GhostPairs.C149_ghost_pairs_partial",
    "Verif.GhostPairs.C149_full_small",
    "Verif.GhostPairs.C149_negation_stencil",
    "Verif.GhostPairs.C149_negation_strip",
    "Verif.GhostPairs.C149_negation_large",
    "Verif.GhostPairs.C149_negation_inside"
   ],
   "note": "all states in which the stencil keeps the whole block (cells small in the units used), ghosts are beyond a shared side and not within 0.001 inside of one, and no particle is large; outside these conditions pairs are missed (theorems)"
  },
  {
   "property": "C150",
   "status": "partial",
   "theorems": [
    "Verif.SkinDepth.C150_volume",
    "Verif.SkinDepth.C150_automatic",
    "Verif.SkinDepth.C150_density",
    "Verif.SkinDepth.C150_all_processors_partial",
    "Verif.SkinDepth.C150_set_value",
    "Verif.SkinDepth.C150_negation_empty",
    "Verif.SkinDepth.C150_negation_present"
   ],
   "note": "all histories in which the value is set before the first calculation, all densities and dimensions; all numbers of processors each with an interacting particle, otherwise initialization blocks; setting exactly the present automatic value has no effect (theorems)"
  },
  {
   "property": "C151",
   "status": "partial",
   "theorems": [
    "Verif.GhostForces.C151_forces",
    "Verif.GhostForces.C151_any_distribution",
    "Verif.GhostForces.C151_defined",
    "Verif.GhostForces.C151_energy_partial",
    "Verif.GhostForces.C151_energy_counted_twice"
   ],
   "note": "forces: all systems, distributions, interactions and list orders; energy and virial: equal to those of all pairs plus once more those of pairs on different processors (theorem), so right on one processor only (witness)"
  },
  {
   "property": "C152",
   "status": "partial",
   "theorems": [
    "Verif.Camera.C152_frame_partial",
    "Verif.Camera.C152_frame_aligned",
    "Verif.Camera.C152_repeat",
    "Verif.Camera.C152_image",
    "Verif.Camera.C152_perspective",
    "Verif.Camera.C152_shift",
    "Verif.Camera.C152_shading",
    "Verif.Camera.C152_pixel_partial",
    "Verif.Camera.C152_tree",
    "Verif.Camera.C152_standard_partial",
    "Verif.Camera.C152_negation_opposite",
    "Verif.Camera.C152_negation_axis",
    "Verif.Camera.C152_negation_corner"
   ],
   "note": "all cameras not looking against up, all images, perspective, shading, trees; pixels of scenes in which no splitting plane cuts a sphere; the standard camera shows everything within three quarters of the width of the centre, not the corners of the box; a camera looking against up, or along the first axis with up along it, gives a uniform image (theorems)"
  },
  {
   "property": "C153",
   "status": "partial",
   "theorems": [
    "Verif.Seeds.C153_reproducible_partial",
    "Verif.Seeds.C153_always",
    "Verif.Seeds.C153_get_seed",
    "Verif.Seeds.C153_random",
    "Verif.Seeds.C153_processors",
    "Verif.Seeds.C153_set_seed",
    "Verif.Seeds.C153_negation_unused",
    "Verif.Seeds.C153_velocities",
    "Verif.Seeds.C153_negation_second",
    "Verif.Seeds.C153_negation_main",
    "Verif.Seeds.C153_negation_box",
    "Verif.Seeds.C153_negation_processors",
    "Verif.Seeds.C153_copies"
   ],
   "note": "all setups and histories in which nothing was drawn from the generators of translation units, which no seed reaches: radii and velocities are the same for all seeds, and a second simulation of a process differs; setSeed has no effect; boxes depend on the clock; with a seed, equal parts of an area on different processors are filled with copies of each other (theorems)"
  },
  {
   "property": "C154",
   "status": "partial",
   "theorems": [
    "Verif.Lifecycle.C154_safe_partial",
    "Verif.Lifecycle.C154_copy",
    "Verif.Lifecycle.C154_negation_retry",
    "Verif.Lifecycle.C154_negation_leak"
   ],
   "note": "all histories in which nothing is tried after a simulation that was begun failed; a further attempt deletes the failed simulation twice, without one it is never released (theorems); the copy: all files"
  },
  {
   "property": "C155",
   "status": "partial",
   "theorems": [
    "Verif.ParallelRun.C155_motion_partial",
    "Verif.ParallelRun.C155_same_partial",
    "Verif.ParallelRun.C155_defined",
    "Verif.ParallelRun.C155_negation_first_silent",
    "Verif.ParallelRun.C155_negation_first_step"
   ],
   "note": "all systems, processors, interleavings and schedules in which no particle moves by more than half of the skin depth between constructions (C150) and the lists are complete (C27, C76, C149); in the first step of a run ghosts are neither rebuilt nor updated with update decisions 0 and 1, so forces are those of old positions (theorems); exact arithmetic"
  },
  {
   "property": "C156",
   "status": "partial",
   "theorems": [
    "Verif.Convergence.C156_first_order",
    "Verif.Convergence.C156_second_order_partial",
    "Verif.Convergence.C156_negation_first_kick",
    "Verif.Convergence.C156_negation_order"
   ],
   "note": "first order from every initial force array, all systems and step sequences; second order if the stored forces are those of the initial positions; a fresh simulation begins with forces zero, so its velocities lag by half of the first kick for ever and the error is of first order (theorems); exact arithmetic"
  },
  {
   "property": "C157",
   "status": "partial",
   "theorems": [
    "Verif.TrueMotion.C157_first_order_partial",
    "Verif.TrueMotion.C157_second_order_partial"
   ],
   "note": "all systems and schedules with timely constructions (as C129), and exact motions along which the acceleration is Lipschitz; second order as in C156; one processor, exact arithmetic"
  },
  {
   "property": "C158",
   "status": "proved",
   "theorems": [
    "Verif.Volume.C158_volume",
    "Verif.Volume.C158_bijective",
    "Verif.Volume.C158_image"
   ],
   "note": "all measurable forces of positions, systems, step sequences, vector widths; exact arithmetic, open boundaries"
  },
  {
   "property": "C159",
   "status": "partial",
   "theorems": [
    "Verif.Energy.C159_order",
    "Verif.Energy.C159_first_order",
    "Verif.Energy.C159_second_order_partial",
    "Verif.Energy.C159_negation_fresh"
   ],
   "note": "first order from every initial force array; second order if the stored forces are those of the initial positions; a fresh simulation changes its energy in the first step by a first order amount that stays for ever (theorem); movable particles, exact arithmetic"
  },
  {
   "property": "C160",
   "status": "partial",
   "theorems": [
    "Verif.Energy.C160_stable_partial",
    "Verif.Energy.C160_contacts",
    "Verif.Energy.C160_negation_fixed_step"
   ],
   "note": "all networks of lasting contacts on a line with at most 250 contacts at each particle, constant steps, forces up to date; the limit does not reach integrators with a fixed step: one step can multiply the energy of a contact by any factor (theorem)"
  },
  {
   "property": "C161",
   "status": "partial",
   "theorems": [
    "Verif.Rotation.C161_step_partial",
    "Verif.Rotation.C161_negation_many",
    "Verif.Rotation.C161_negation_free",
    "Verif.Rotation.C161_torque_partial",
    "Verif.Rotation.C161_dissipation",
    "Verif.Rotation.C161_negation_torque"
   ],
   "note": "steps: setups with exactly one Hooke interaction, vectorised builds; each further Hooke interaction adds another angular integrator, so k of them turn discs k times per step (theorems for all k); friction dissipates: all states; angular momentum is changed by the friction force times the overlap (exact formula, witness)"
  },
  {
   "property": "C162",
   "status": "partial",
   "theorems": [
    "Verif.RunFigures.C162_run_time_partial",
    "Verif.RunFigures.C162_reported_partial",
    "Verif.RunFigures.C162_negation_write_twice",
    "Verif.RunFigures.C162_lengths",
    "Verif.RunFigures.C162_rate",
    "Verif.RunFigures.C162_per_particle_partial",
    "Verif.RunFigures.C162_negation_per_particle",
    "Verif.RunFigures.C162_breakdown",
    "Verif.RunFigures.C162_average_partial",
    "Verif.RunFigures.C162_negation_average"
   ],
   "note": "run time: all histories in which results are written at most once after each run, otherwise the time since the last writing is counted (theorem); lengths and rate: all processors; interactions per particle: if the root has its share of particles (witness otherwise); breakdown: exact formula, right on one processor or if the root is average; average time step: single runs, k runs give k times the value (theorem)"
  },
  {
   "property": "C163",
   "status": "partial",
   "theorems": [
    "Verif.DemonRecords.C163_times",
    "Verif.DemonRecords.C163_numbers",
    "Verif.DemonRecords.C163_balance_partial",
    "Verif.DemonRecords.C163_negation_closed",
    "Verif.DemonRecords.C163_energy_partial",
    "Verif.DemonRecords.C163_negation_energy",
    "Verif.DemonRecords.C163_animation",
    "Verif.DemonRecords.C163_negation_first_window",
    "Verif.DemonRecords.C163_negation_other_series"
   ],
   "note": "times and numbers: all histories; balance of numbers: if nothing crosses while the door is closed (witness otherwise); of energies: if no particle's energy changes (witness otherwise); animation: exact from the second checkpoint on, the first deletes all frames; other series keep the rejected motion (theorem)"
  },
  {
   "property": "C164",
   "status": "partial",
   "theorems": [
    "Verif.DemonRecords.C164_places_partial",
    "Verif.DemonRecords.C164_negation_second_run",
    "Verif.DemonRecords.C164_opened",
    "Verif.DemonRecords.C164_negation_inside"
   ],
   "note": "first run: the door is put back at its places whenever it closes; false of a second run, and an open door is moved back into periodic and reflecting boxes (theorems)"
  },
  {
   "property": "C165",
   "status": "partial",
   "theorems": [
    "Verif.Symmetry.C165_run_partial",
    "Verif.Symmetry.C165_galilei_partial",
    "Verif.Symmetry.C165_numbering_partial",
    "Verif.Symmetry.C165_rotation_partial",
    "Verif.Symmetry.C165_inversion_partial"
   ],
   "note": "all symmetries of the box, for runs that meet the conditions of C129 (lists rebuilt in time, no particle exactly on a wrapping boundary, no coinciding particles); contact forces with friction are not covered"
  },
  {
   "property": "C166",
   "status": "partial",
   "theorems": [
    "Verif.Templates.C166_number_partial",
    "Verif.Templates.C166_negation_number",
    "Verif.Templates.C166_negation_assigned",
    "Verif.Templates.C166_equiprobable",
    "Verif.Templates.C166_distributions",
    "Verif.Templates.C166_negation_random",
    "Verif.Templates.C166_mass",
    "Verif.Templates.C166_missing",
    "Verif.Templates.C166_template",
    "Verif.Templates.C166_particle_partial",
    "Verif.Templates.C166_first_definition"
   ],
   "note": "all templates whose radius and type begin with a digit, and continuous distributions; other texts (expressions beginning with a variable, negative numbers, .5) silently give 0, probabilities of discrete distributions are never read, and the first definition of a name counts, not the last (theorems)"
  },
  {
   "property": "C167",
   "status": "partial",
   "theorems": [
    "Verif.Areas.C167_region_partial",
    "Verif.Areas.C167_negation_names",
    "Verif.Areas.C167_missing",
    "Verif.Areas.C167_entries",
    "Verif.Areas.C167_density_partial",
    "Verif.Areas.C167_negation_expression",
    "Verif.Areas.C167_negation_body_only",
    "Verif.Areas.C167_templates",
    "Verif.Areas.C167_area",
    "Verif.Areas.C167_negation_local",
    "Verif.Areas.C167_negation_leak",
    "Verif.Areas.C167_local_partial",
    "Verif.Areas.C167_count_partial",
    "Verif.Areas.C167_negation_several",
    "Verif.Areas.C167_negation_total",
    "Verif.Areas.C167_negation_single",
    "Verif.Areas.C167_velocity_partial",
    "Verif.Areas.C167_negation_velocity"
   ],
   "note": "all regions whose parts are in the expected order, entries, new local templates, single counts with a parameter in the first line, densities that are numbers or variables, complete velocities; false of the documented form Number: { \u2026 }, of numbers without a body, of totals, of densities that are expressions, of local templates with known names, and of velocities that are incomplete (theorems)"
  },
  {
   "property": "C168",
   "status": "partial",
   "theorems": [
    "Verif.Parameters.C168_values",
    "Verif.Parameters.C168_negation_unknown",
    "Verif.Parameters.C168_negation_sign",
    "Verif.Parameters.C168_timescale_partial",
    "Verif.Parameters.C168_negation_timescale"
   ],
   "note": "values: all classes and trees; unknown headings are ignored silently, negative repulsions are accepted and attract, and only hard spheres with positive repulsion limit the time step (theorems)"
  },
  {
   "property": "C169",
   "status": "partial",
   "theorems": [
    "Verif.ParallelTrue.C169_first_order_partial",
    "Verif.ParallelTrue.C169_second_order_partial"
   ],
   "note": "all runs that meet the conditions of C155 (timely constructions, complete lists, no coinciding particles) and exact motions near which forces are Lipschitz; the first step of a run with a delay (C155) and other boundaries are missing"
  },
  {
   "property": "C170",
   "status": "partial",
   "theorems": [
    "Verif.FileIntegrator.C170_values",
    "Verif.FileIntegrator.C170_names",
    "Verif.FileIntegrator.C170_warnings_partial",
    "Verif.FileIntegrator.C170_negation_other",
    "Verif.FileIntegrator.C170_number",
    "Verif.FileIntegrator.C170_flags_partial",
    "Verif.FileIntegrator.C170_negation_words",
    "Verif.FileIntegrator.C170_steps_partial",
    "Verif.FileIntegrator.C170_negation_limits",
    "Verif.FileIntegrator.C170_negation_bath"
   ],
   "note": "values: all trees; switches given by numbers, and limits in order; words such as true turn switches off, a largest time step below 1e-6 alone is exceeded at once, other headings (also a temperature of the Nose-Hoover thermostat) are ignored with a warning, and negative temperatures are accepted (theorems)"
  },
  {
   "property": "C171",
   "status": "partial",
   "theorems": [
    "Verif.SoftSpheres.C171_energy",
    "Verif.SoftSpheres.C171_exists",
    "Verif.SoftSpheres.C171_unique",
    "Verif.SoftSpheres.C171_run_partial"
   ],
   "note": "exact motions: all initial states below the threshold; simulations: positive masses, HardSphere interactions with cutoff 1, wrapping or open sides, lists not older than a time that the theorem gives; immovable particles, other sides, modifiers, several processors and rounding are missing"
  },
  {
   "property": "C172",
   "status": "proved",
   "theorems": [
    "Verif.Vectors.C172_templates",
    "Verif.Vectors.C172_loops",
    "Verif.Vectors.C172_numbers",
    "Verif.Vectors.C172_unit",
    "Verif.Vectors.C172_normal",
    "Verif.Vectors.C172_swap",
    "Verif.Vectors.C172_displacement",
    "Verif.Vectors.C172_cross",
    "Verif.Vectors.C172_planar",
    "Verif.Vectors.C172_negation_overlap"
   ],
   "note": "exact arithmetic; all dimensions and all vectors that are the same or do not overlap; that partial overlap gives wrong results is a theorem"
  },
  {
   "property": "C173",
   "status": "partial",
   "theorems": [
    "Verif.Reversal.C173_run_partial",
    "Verif.Reversal.C173_return_partial",
    "Verif.Reversal.C173_negation_friction"
   ],
   "note": "all runs with lists renewed in time, wrapping or open sides, forces without friction, any stored forces; that friction makes runs irreversible is a theorem; walls, modifiers and rounding are missing"
  },
  {
   "property": "C174",
   "status": "partial",
   "theorems": [
    "Verif.WalledRun.C174_run_partial",
    "Verif.WalledRun.C174_inside_partial",
    "Verif.WalledRun.C174_momentum_partial",
    "Verif.WalledRun.C174_gas_partial",
    "Verif.WalledRun.C174_negation_attraction"
   ],
   "note": "all runs with lists renewed in time on one processor; that attraction with wrapping sides depends on the times of constructions is a theorem; bonded forces, bodies, other modifiers, removal of particles and rounding are missing"
  },
  {
   "property": "C175",
   "status": "partial",
   "theorems": [
    "Verif.WalledMotion.C175_first_order_partial",
    "Verif.WalledMotion.C175_second_order_partial",
    "Verif.WalledMotion.C175_negation_half_drag"
   ],
   "note": "all runs with lists renewed in time on one processor, against exact motions with half of the drag; that the drag acts at half strength, however small the time step, is a theorem; reflecting sides and rounding are missing"
  },
  {
   "property": "C176",
   "status": "partial",
   "theorems": [
    "Verif.Mirrored.C176_mirrors_partial",
    "Verif.Mirrored.C176_convergence_partial"
   ],
   "note": "all runs with lists renewed in time on one processor; missing: steps in which a particle moves by the width of the box or stops exactly on a wall, for convergence also forces across walls that do not vanish where they are hit, and rounding"
  },
  {
   "property": "C177",
   "status": "partial",
   "theorems": [
    "Verif.Tables.C177_graph_partial",
    "Verif.Tables.C177_graph_axes",
    "Verif.Tables.C177_multigraph_partial",
    "Verif.Tables.C177_multigraph_axes_partial",
    "Verif.Tables.C177_array_partial",
    "Verif.Tables.C177_percolation_partial",
    "Verif.Tables.C177_directory",
    "Verif.Tables.C177_graph_exact",
    "Verif.Tables.C177_negation_precision",
    "Verif.Tables.C177_negation_label",
    "Verif.Tables.C177_pprint",
    "Verif.Tables.C177_report",
    "Verif.Tables.C177_formatLine",
    "Verif.Tables.C177_negation_exponent"
   ],
   "note": "all tables, with any number format without separators; that numbers of more than six digits are not read back, that labels with commas add a field and that the pretty printer drops exponents are theorems"
  },
  {
   "property": "C178",
   "status": "partial",
   "theorems": [
    "Verif.BondedRun.C178_run_partial",
    "Verif.BondedRun.C178_momentum_partial",
    "Verif.BondedMotion.C178_first_order_partial",
    "Verif.BondedMotion.C178_second_order_partial"
   ],
   "note": "all systems, bond objects, histories of bonds and schedules with lists renewed in time on one processor; springs of HarmonicBond_2d are twice as stiff as given (a factor in the statement; the negation is in C39); chains, angles, removal of bonded particles, bonds of exactly half a width and rounding are missing"
  },
  {
   "property": "C179",
   "status": "partial",
   "theorems": [
    "Verif.OwnTimes.C179_lists_partial",
    "Verif.OwnTimes.C179_motion_partial",
    "Verif.OwnTimes.C179_soft_partial",
    "Verif.OwnTimes.C179_negation_requests"
   ],
   "note": "all systems, settings and time steps on one processor, for all three rules; that requests of other objects make the default rule arbitrarily late is a theorem; the motion test with its default tolerance does not suffice (C29), so the maximal update delay has to be set; with two of the rules lists may be 0.0001 old whatever the settings; rounding is missing"
  },
  {
   "property": "C180",
   "status": "partial",
   "theorems": [
    "Verif.OwnPairs.C180_no_pair_twice_partial",
    "Verif.OwnPairs.C180_no_pair_missed_partial"
   ],
   "note": "the grid of every processor, with halo cells at shared sides; large particles, same-cell pairs with cutoff above 1, incomplete stencils and periodic dimensions with fewer than 2*sweep+1 cells are left out (negations in C27, C28)"
  },
  {
   "property": "C181",
   "status": "partial",
   "theorems": [
    "Verif.SerialBuild.C181_bounds_partial",
    "Verif.SerialBuild.C181_borders",
    "Verif.SerialBuild.C181_serial_bounds",
    "Verif.SerialBuild.C181_serial_blind",
    "Verif.SerialBuild.C181_serial_direct_partial",
    "Verif.SerialBuild.C181_negation"
   ],
   "note": "true of the default build; that the build without MPI never knows the bounds and finds no pair through a periodic boundary is proved for all histories and configurations, with a witness on which the two builds differ"
  },
  {
   "property": "C182",
   "status": "partial",
   "theorems": [
    "Verif.Settings.C182_settings",
    "Verif.Settings.C182_boundary_conditions",
    "Verif.Settings.C182_defined_partial",
    "Verif.Settings.C182_data_objects",
    "Verif.Settings.C182_time_steps",
    "Verif.Settings.C182_negation"
   ],
   "note": "true of all settings for all histories, except that setBC with an index outside writes outside its array (negation)"
  },
  {
   "property": "C183",
   "status": "partial",
   "theorems": [
    "Verif.ParallelLists.C183_complete_partial",
    "Verif.ParallelLists.C183_motion_partial"
   ],
   "note": "true under the conditions of C149, C180 and C76 (no large particles, cutoff factors at most one, ghosts chosen by a range not below that of any pair, narrow stencils); without them the code loses pairs (negations of C76, C149, C180)"
  },
  {
   "property": "C184",
   "status": "partial",
   "theorems": [
    "Verif.ParallelWhole.C184_motion_partial",
    "Verif.ParallelWhole.C184_home_partial",
    "Verif.ParallelWhole.C184_same_partial",
    "Verif.ParallelWhole.C184_completes",
    "Verif.ParallelWhole.C184_exists"
   ],
   "note": "proved with conditions only on the set-up, the start and the motion; runs exist and never deadlock without conditions; what the processors hold at each construction follows. Not covered: large particles, cutoff factors above one, unequal radii, fast particles (the code fails there, see the negations of C76, C142, C149, C150, C155, C180)"
  },
  {
   "property": "C185",
   "status": "partial",
   "theorems": [
    "Verif.ParallelConverge.C185_first_order_partial",
    "Verif.ParallelConverge.C185_second_order_partial"
   ],
   "note": "conditions are only on the set-up, the start, the exact motion and the time between constructions. Not covered: as in C184 and C169 (large particles, cutoff factors above one, the first step, other boundaries, modifiers, rounding)"
  }
 ]
}