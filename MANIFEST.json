{
 "claims": [
  {
   "property": "C01",
   "status": "proved",
   "theorems": [
    "FVHOE.C01_conservation",
    "FVHOE.C01_succeeds",
    "FVHOE.C01_rhs"
   ],
   "note": "Proviso: at least as many cells per active direction as ghost layers (see C44)."
  },
  {
   "property": "C02",
   "status": "partial",
   "theorems": [
    "FVHOE.C02_partial",
    "FVHOE.C02_simple_partial",
    "FVHOE.C02_defect",
    "FVHOE.C02_violated"
   ],
   "note": "holds when no flagged cell is within reach of the periodic seam (or flags agree across it for simple spreading); violated otherwise: the weights are not wrapped, C02_defect gives the exact defect and C02_violated a concrete state"
  },
  {
   "property": "C03",
   "status": "proved",
   "theorems": [
    "FVHOE.C03_budget",
    "FVHOE.C03_budget_arrays"
   ],
   "note": ""
  },
  {
   "property": "C04",
   "status": "proved",
   "theorems": [
    "FVHOE.C04_uniform_steady",
    "FVHOE.C04_rhs",
    "FVHOE.C04_limiters"
   ],
   "note": ""
  },
  {
   "property": "C05",
   "status": "proved",
   "theorems": [
    "FVHOE.C05_rhs",
    "FVHOE.C05_uniform_velocity_pressure",
    "FVHOE.C05_primitives",
    "FVHOE.nearly_uniform"
   ],
   "note": "Any integrator and number of steps, limited or not. Checked runs: every state at which the right-hand side is evaluated meets no zero density. Sides without prescribed values; reflective walls with no normal velocity. The derivative is also right for the advection solver."
  },
  {
   "property": "C06",
   "status": "proved",
   "theorems": [
    "FVHOE.C06_rhs",
    "FVHOE.C06_passives_inert"
   ],
   "note": "with and without the modelled limiter; the run theorem assumes that the ghost layers can be filled from the cells"
  },
  {
   "property": "C07",
   "status": "proved",
   "theorems": [
    "FVHOE.C07_rhs",
    "FVHOE.C07_uniform_concentration",
    "FVHOE.nearly_uniform"
   ],
   "note": "Any Riemann solver, integrator, limiting; sides without prescribed values; no zero density at a cell centre."
  },
  {
   "property": "C08",
   "status": "proved",
   "theorems": [
    "FVHOE.C08_shift",
    "FVHOE.C08_rhs"
   ],
   "note": "run level, limiting off, at least as many cells as ghost layers; with limiting the seam is treated differently (C02_violated)"
  },
  {
   "property": "C09",
   "status": "proved",
   "theorems": [
    "FVHOE.C09_llf",
    "FVHOE.C09_hllc",
    "FVHOE.turn_run",
    "FVHOE.turn_run_on"
   ],
   "note": "run level; llf at all states, hllc while face states are physical; limiting off (the smooth extrema detector is not mirror symmetric, C40_violated); advection_upwind is not mirror symmetric since it upwinds on one side's velocity"
  },
  {
   "property": "C10",
   "status": "proved",
   "theorems": [
    "FVHOE.C10_exchange",
    "FVHOE.turn_run"
   ],
   "note": "run level, all permutations and solvers, limiting off, no prescribed boundary values (corner ghosts of prescribed values depend on the order x, y, z)"
  },
  {
   "property": "C11",
   "status": "proved",
   "theorems": [
    "FVHOE.C11_shapes_and_memory",
    "FVHOE.C11_open_sides",
    "FVHOE.C11_memory_limited",
    "FVHOE.C11_limited_returns"
   ],
   "note": ""
  },
  {
   "property": "C12",
   "status": "proved",
   "theorems": [
    "FVHOE.C12_step",
    "FVHOE.C12_run"
   ],
   "note": "Any number of active directions; CFL times their number at most one. Periodic, reflective, outflow and free sides."
  },
  {
   "property": "C13",
   "status": "proved",
   "theorems": [
    "FVHOE.C13_cfl",
    "FVHOE.C13_empty",
    "FVHOE.C13_solver"
   ],
   "note": ""
  },
  {
   "property": "C14",
   "status": "proved",
   "theorems": [
    "FVHOE.C14_primitive_round_trip",
    "FVHOE.C14_conservative_round_trip"
   ],
   "note": ""
  },
  {
   "property": "C15",
   "status": "proved",
   "theorems": [
    "FVHOE.C15_llf",
    "FVHOE.C15_advection",
    "FVHOE.C15_hllc"
   ],
   "note": ""
  },
  {
   "property": "C16",
   "status": "proved",
   "theorems": [
    "FVHOE.C16_llf",
    "FVHOE.C16_hllc"
   ],
   "note": ""
  },
  {
   "property": "C17",
   "status": "proved",
   "theorems": [
    "FVHOE.C17_wellposed",
    "FVHOE.C17_flux"
   ],
   "note": ""
  },
  {
   "property": "C18",
   "status": "proved",
   "theorems": [
    "FVHOE.C18_hllc",
    "FVHOE.C18_advection"
   ],
   "note": ""
  },
  {
   "property": "C19",
   "status": "proved",
   "theorems": [
    "FVHOE.C19_exact",
    "FVHOE.C19_unsupported",
    "FVHOE.C19_positions"
   ],
   "note": ""
  },
  {
   "property": "C20",
   "status": "proved",
   "theorems": [
    "FVHOE.C20_exact"
   ],
   "note": ""
  },
  {
   "property": "C21",
   "status": "proved",
   "theorems": [
    "FVHOE.C21_sweep",
    "FVHOE.C21_errors",
    "FVHOE.C21_size"
   ],
   "note": ""
  },
  {
   "property": "C22",
   "status": "proved",
   "theorems": [
    "FVHOE.C22_centers",
    "FVHOE.C22_averages",
    "FVHOE.C22_round_trip"
   ],
   "note": ""
  },
  {
   "property": "C23",
   "status": "proved",
   "theorems": [
    "FVHOE.C23_average",
    "FVHOE.C23_centre",
    "FVHOE.C23_initial",
    "FVHOE.C23_initial_primitive",
    "FVHOE.C23_given",
    "FVHOE.cellAvg_integral"
   ],
   "note": "numpy's leggauss enters as the hypothesis that its n-point rule is exact to degree 2n-1; shown satisfiable for n = 1, 2. C23_initial follows the averages into the array the solver starts from."
  },
  {
   "property": "C24",
   "status": "proved",
   "theorems": [
    "FVHOE.C24_exact_output_times"
   ],
   "note": ""
  },
  {
   "property": "C25",
   "status": "proved",
   "theorems": [
    "FVHOE.C25_terminates"
   ],
   "note": ""
  },
  {
   "property": "C26",
   "status": "partial",
   "theorems": [
    "FVHOE.C26_timestamps",
    "FVHOE.C26_step_sizes",
    "FVHOE.C26_snapshots_partial",
    "FVHOE.C26_read_breaks_snapshot_times"
   ],
   "note": "Time stamps hold for all histories; snapshots/snapshot_times agree unless a saved directory is read, where the claim is disproved."
  },
  {
   "property": "C27",
   "status": "partial",
   "theorems": [
    "FVHOE.C27_no_backward_steps_partial",
    "FVHOE.C27_violated"
   ],
   "note": "The full claim is false in the code (counterexample proved); holds when requested times lie ahead."
  },
  {
   "property": "C28",
   "status": "proved",
   "theorems": [
    "FVHOE.C28_linear_order",
    "FVHOE.C28_fixed_point",
    "FVHOE.C28_linear_invariant"
   ],
   "note": ""
  },
  {
   "property": "C29",
   "status": "proved",
   "theorems": [
    "FVHOE.C29_convex_sets",
    "FVHOE.C29_run",
    "FVHOE.C29_rk4_not_ssp"
   ],
   "note": ""
  },
  {
   "property": "C30",
   "status": "partial",
   "theorems": [
    "FVHOE.C30_stage_times_partial",
    "FVHOE.C30_ssprk2_violated",
    "FVHOE.C30_clock_is_euler",
    "FVHOE.C30_clock_violated"
   ],
   "note": "False for ssprk2 and for time-dependent boundary values (both disproved); proved for the other integrators."
  },
  {
   "property": "C31",
   "status": "proved",
   "theorems": [
    "FVHOE.C31_minmod",
    "FVHOE.C31_minmod_value",
    "FVHOE.C31_moncen",
    "FVHOE.C31_moncen_value",
    "FVHOE.C31_muscl",
    "FVHOE.C31_no_limiter",
    "FVHOE.C31_unknown"
   ],
   "note": ""
  },
  {
   "property": "C32",
   "status": "proved",
   "theorems": [
    "FVHOE.C32_nad",
    "FVHOE.C32_returns",
    "FVHOE.C32_rejects"
   ],
   "note": "local and global ranges, absolute and relative tolerance, with and without the smooth-extremum relaxation, one to three directions; exact arithmetic"
  },
  {
   "property": "C33",
   "status": "partial",
   "theorems": [
    "FVHOE.C33_partial",
    "FVHOE.C33_earlier_ignored",
    "FVHOE.C33_violated"
   ],
   "note": "false in general: each pass of the loop over the bounds overwrites the indicator, so only the last variable is checked (witness with the default bounds: a negative density is not reported); the claim holds for one bounded variable"
  },
  {
   "property": "C34",
   "status": "proved",
   "theorems": [
    "FVHOE.C34_flags",
    "FVHOE.C34_plotting",
    "FVHOE.C34_marks",
    "FVHOE.C34_forced"
   ],
   "note": "the flag equals the sign of the magnitudes returned; with force_trouble the plotting helper raises ValueError"
  },
  {
   "property": "C35",
   "status": "proved",
   "theorems": [
    "FVHOE.C35_simple"
   ],
   "note": "every flag array and set of directions, whatever the periodic flags"
  },
  {
   "property": "C36",
   "status": "proved",
   "theorems": [
    "FVHOE.C36_line",
    "FVHOE.C36_plane",
    "FVHOE.C36_line_mirror",
    "FVHOE.C36_plane_mirror"
   ],
   "note": "weights by distance, larger of the two cells on a face, mirror symmetry; in a plane containing z with a periodic flag the call raises unless the other direction has 5 cells (C37_raises)"
  },
  {
   "property": "C37",
   "status": "partial",
   "theorems": [
    "FVHOE.C37_line_partial",
    "FVHOE.C37_plane_partial",
    "FVHOE.C37_line_violated",
    "FVHOE.C37_plane_violated",
    "FVHOE.C37_raises"
   ],
   "note": "false near the seam: the periodic assignments change nothing in 1D and 2D (or raise ValueError with periodic z); the wrapped weights hold when no troubled cell is within three cells of a periodic boundary"
  },
  {
   "property": "C38",
   "status": "proved",
   "theorems": [
    "FVHOE.C38_convex",
    "FVHOE.C38_between",
    "FVHOE.C38_untroubled",
    "FVHOE.C38_no_tests",
    "FVHOE.C38_forced",
    "FVHOE.C38_high",
    "FVHOE.C38_fallback"
   ],
   "note": "the blended flux on every face lies between the high-order and the fallback flux, equals the former away from flagged cells, the latter where forced"
  },
  {
   "property": "C39",
   "status": "proved",
   "theorems": [
    "FVHOE.C39_bounds",
    "FVHOE.C39_parabola",
    "FVHOE.C39_not_flagged"
   ],
   "note": "one to three directions, every tolerance"
  },
  {
   "property": "C40",
   "status": "partial",
   "theorems": [
    "FVHOE.C40_reversal_partial",
    "FVHOE.C40_negation_partial",
    "FVHOE.C40_violated"
   ],
   "note": "false where the curvature is within the tolerance: the right detector is skipped there, so x^3 and its mirror image get 0 and 1 at the inflection point; proved where the curvature exceeds the tolerance (reversal) or is not exactly zero (negation)"
  },
  {
   "property": "C41",
   "status": "proved",
   "theorems": [
    "FVHOE.C41_periodic"
   ],
   "note": ""
  },
  {
   "property": "C42",
   "status": "proved",
   "theorems": [
    "FVHOE.C42_ghosts",
    "FVHOE.C42_negate",
    "FVHOE.C42_wall"
   ],
   "note": ""
  },
  {
   "property": "C43",
   "status": "proved",
   "theorems": [
    "FVHOE.C43_coordinates",
    "FVHOE.C43_too_wide"
   ],
   "note": ""
  },
  {
   "property": "C44",
   "status": "partial",
   "theorems": [
    "FVHOE.C44_violation",
    "FVHOE.C44_partial"
   ],
   "note": "False as stated: None sides, a right-only periodic side, and ghost widths above the cell number leave uninitialised memory (witnesses). Proved for all other specifications."
  },
  {
   "property": "C45",
   "status": "proved",
   "theorems": [
    "FVHOE.C45_unknown_category",
    "FVHOE.C45_misuse",
    "FVHOE.C45_duplicate_category",
    "FVHOE.C45_isolated",
    "FVHOE.C45_accounting",
    "FVHOE.C45_monotone"
   ],
   "note": ""
  },
  {
   "property": "C46",
   "status": "proved",
   "theorems": [
    "FVHOE.C46_rhs",
    "FVHOE.C46_run",
    "FVHOE.C46_same_rhs",
    "FVHOE.C46_same_run",
    "FVHOE.C46_new",
    "FVHOE.C46_after_exception"
   ],
   "note": "The solver with its timer calls is modelled separately and shown to compute the same as the solver without them. C46_after_exception: a right-hand side that raises leaves timers running and blocks every later one."
  },
  {
   "property": "C47",
   "status": "proved",
   "theorems": [
    "FVHOE.C47_lookup",
    "FVHOE.C47_errors",
    "FVHOE.C47_copy",
    "FVHOE.C47_toggle_breaks_copies"
   ],
   "note": ""
  },
  {
   "property": "C48",
   "status": "proved",
   "theorems": [
    "FVHOE.C48_slots",
    "FVHOE.C48_bijection",
    "FVHOE.C48_duplicates",
    "FVHOE.C48_tuples",
    "FVHOE.C48_reserved_collision"
   ],
   "note": ""
  },
  {
   "property": "C49",
   "status": "proved",
   "theorems": [
    "FVHOE.C49_roundtrip",
    "FVHOE.C49_crash",
    "FVHOE.C49_histories"
   ],
   "note": ""
  },
  {
   "property": "C50",
   "status": "partial",
   "theorems": [
    "FVHOE.C50_partial",
    "FVHOE.C50_first_step"
   ],
   "note": "false for the first step, whose sum is divided by one more than the number of logs because the counter starts at one; the mean is exact after every reset"
  },
  {
   "property": "C51",
   "status": "proved",
   "theorems": [
    "FVHOE.C51_mesh",
    "FVHOE.C51_slabs"
   ],
   "note": ""
  },
  {
   "property": "C52",
   "status": "proved",
   "theorems": [
    "FVHOE.C52_nearest"
   ],
   "note": ""
  },
  {
   "property": "C53",
   "status": "proved",
   "theorems": [
    "FVHOE.C53_domain_of_dependence"
   ],
   "note": "Limiting off."
  },
  {
   "property": "C54",
   "status": "proved",
   "theorems": [
    "FVHOE.C54_run",
    "FVHOE.C54_order"
   ],
   "note": ""
  },
  {
   "property": "C55",
   "status": "proved",
   "theorems": [
    "FVHOE.C55_conversions",
    "FVHOE.C55_llf",
    "FVHOE.C55_hllc",
    "FVHOE.C55_weights",
    "FVHOE.C55_smooth",
    "FVHOE.C55_smooth_zero"
   ],
   "note": "States moving along any direction; the reference's own limiter and driver are not modelled. Smooth-extremum markers agree above the curvature tolerance and differ at zero curvature."
  },
  {
   "property": "C56",
   "status": "proved",
   "theorems": [
    "FVHOE.C56_center",
    "FVHOE.C56_corner"
   ],
   "note": ""
  },
  {
   "property": "C57",
   "status": "proved",
   "theorems": [
    "FVHOE.C57_llf",
    "FVHOE.C57_hllc",
    "FVHOE.C57_hllc_quarter"
   ],
   "note": "hllc up to CFL 1/2 on runs that meet only positive pressures, and with no such condition up to CFL 1/4."
  },
  {
   "property": "C58",
   "status": "partial",
   "theorems": [
    "FVHOE.C58_partial",
    "FVHOE.C58_usable",
    "FVHOE.C58_violated",
    "FVHOE.C58_double_mach"
   ],
   "note": "exact characterisation of accepted arguments; the default arguments, the documented name advection_upwinding and the double-Mach boundary are refused"
  },
  {
   "property": "C59",
   "status": "proved",
   "theorems": [
    "FVHOE.C59_step",
    "FVHOE.C59_run"
   ],
   "note": ""
  },
  {
   "property": "C60",
   "status": "proved",
   "theorems": [
    "FVHOE.C60_rows",
    "FVHOE.C60_missing",
    "FVHOE.C60_reserved"
   ],
   "note": "C60_reserved shows why a passive scalar must not be called passive_scalars."
  },
  {
   "property": "C61",
   "status": "proved",
   "theorems": [
    "FVHOE.C61_run",
    "FVHOE.C61_report"
   ],
   "note": ""
  },
  {
   "property": "C62",
   "status": "proved",
   "theorems": [
    "FVHOE.C62_built"
   ],
   "note": "passive name passive_scalars excluded (see C60_reserved)"
  },
  {
   "property": "C63",
   "status": "proved",
   "theorems": [
    "FVHOE.C63_transport",
    "FVHOE.C63_interior"
   ],
   "note": "limiting off; the RHS itself has no truncation error on these data"
  },
  {
   "property": "C64",
   "status": "proved",
   "theorems": [
    "FVHOE.C64_rhs",
    "FVHOE.C64_units",
    "FVHOE.C64_superposition",
    "FVHOE.C64_sed_violated",
    "FVHOE.C64_minmod_violated"
   ],
   "note": "limiter options without absolute tolerances; the excluded options are shown to depend on the units"
  },
  {
   "property": "C65",
   "status": "proved",
   "theorems": [
    "FVHOE.C65_state",
    "FVHOE.C65_rejected",
    "FVHOE.C65_directions",
    "FVHOE.C65_along",
    "FVHOE.C65_period",
    "FVHOE.C65_bounds",
    "FVHOE.C65_physical",
    "FVHOE.C65_weights",
    "FVHOE.C65_start",
    "FVHOE.C65_run",
    "FVHOE.C65_number"
   ],
   "note": "sin, exp, sqrt, tan, pi are parameters; |sin| <= 1 and 2 pi periodicity assumed where used"
  },
  {
   "property": "C66",
   "status": "proved",
   "theorems": [
    "FVHOE.C66_llf",
    "FVHOE.C66_hllc"
   ],
   "note": "limiting off; hllc for runs with physical face values"
  },
  {
   "property": "C67",
   "status": "proved",
   "theorems": [
    "FVHOE.C67_wall",
    "FVHOE.C67_rhs",
    "FVHOE.C67_llf",
    "FVHOE.C67_hllc",
    "FVHOE.C67_limited_rhs",
    "FVHOE.C67_limited"
   ],
   "note": "hllc for states with physical values at the wall faces"
  },
  {
   "property": "C68",
   "status": "proved",
   "theorems": [
    "FVHOE.C68_limited",
    "FVHOE.C68_rhs",
    "FVHOE.C68_conservation",
    "FVHOE.C68_flat",
    "FVHOE.C68_times",
    "FVHOE.C68_accepts",
    "FVHOE.C68_taylor",
    "FVHOE.C68_starts"
   ],
   "note": "periodic ends from four cells on"
  },
  {
   "property": "C69",
   "status": "proved",
   "theorems": [
    "FVHOE.C69_rhs",
    "FVHOE.C69_run",
    "FVHOE.C69_steps"
   ],
   "note": "squared sound speed above the floor in all visited states; forward Euler"
  },
  {
   "property": "C70",
   "status": "proved",
   "theorems": [
    "FVHOE.C70_order",
    "FVHOE.C70_periodic",
    "FVHOE.C70_exact_rate"
   ],
   "note": "no limiting; the grid must resolve the density: ten times the interpolation error stays below its least value on the stencil"
  },
  {
   "property": "C71",
   "status": "proved",
   "theorems": [
    "FVHOE.C71_run",
    "FVHOE.C71_sine"
   ],
   "note": "forward Euler, which is what run() selects at degree zero"
  },
  {
   "property": "C72",
   "status": "proved",
   "theorems": [
    "FVHOE.C72_line",
    "FVHOE.C72_image",
    "FVHOE.C72_pixels",
    "FVHOE.C72_summary"
   ],
   "note": "data handed to matplotlib; without trouble overlay"
  },
  {
   "property": "C73",
   "status": "proved",
   "theorems": [
    "FVHOE.C73_bins",
    "FVHOE.C73_between",
    "FVHOE.C73_partition",
    "FVHOE.C73_centre",
    "FVHOE.C73_integer"
   ],
   "note": "floating-point radii"
  },
  {
   "property": "C74",
   "status": "partial",
   "theorems": [
    "FVHOE.C74_partial",
    "FVHOE.C74_list_violated",
    "FVHOE.C74_trouble_line_violated",
    "FVHOE.C74_overlay_violated",
    "FVHOE.C74_overlay_true_violated",
    "FVHOE.C74_conserved_violated",
    "FVHOE.C74_fields_violated",
    "FVHOE.C74_line_without_coordinates_violated",
    "FVHOE.C74_integer_violated"
   ],
   "note": "false in the code: snapshot lists raise, the trouble arrays have an axis too many for the plots, overlay_trouble=True raises, conserved names show primitive variables, plot_fields repeats panels, integer radii truncate; proved: the overlay would be right for arrays with one entry per cell"
  },
  {
   "property": "C75",
   "status": "proved",
   "theorems": [
    "FVHOE.C75_rhs",
    "FVHOE.C75_run"
   ],
   "note": "limiting off; whole runs with a prescribed step"
  },
  {
   "property": "C76",
   "status": "proved",
   "theorems": [
    "FVHOE.C76_boost",
    "FVHOE.C76_rhs",
    "FVHOE.C76_run"
   ],
   "note": "limiting off; whole runs with a prescribed step, ending at the first zero centre density"
  },
  {
   "property": "C77",
   "status": "proved",
   "theorems": [
    "FVHOE.C77_rhs",
    "FVHOE.C77_run",
    "FVHOE.C77_llf_smears"
   ],
   "note": "first order; hllc and upwind keep the layers, llf proved to smear"
  },
  {
   "property": "C78",
   "status": "proved",
   "theorems": [
    "FVHOE.C78_local",
    "FVHOE.C78_accepted"
   ],
   "note": "range bound for degrees up to 1 without the smooth-extremum test"
  },
  {
   "property": "C79",
   "status": "proved",
   "theorems": [
    "FVHOE.C79_step",
    "FVHOE.C79_run",
    "FVHOE.C79_default_cfl_violated"
   ],
   "note": "with the CFL limit 2/3 or 1/2; the default 0.8 is proved not to be enough"
  },
  {
   "property": "C80",
   "status": "partial",
   "theorems": [
    "FVHOE.C80_partial",
    "FVHOE.C80_violated"
   ],
   "note": "uniform flow, degrees up to 1, no smooth-extremum exemption; false for untroubled cells next to a troubled one: C80_violated shows a negative density with the default options"
  },
  {
   "property": "C81",
   "status": "proved",
   "theorems": [
    "FVHOE.C81_fixed",
    "FVHOE.C81_steps",
    "FVHOE.C81_zero_step",
    "FVHOE.C81_flow"
   ],
   "note": "prescribed steps for all set-ups; automatic steps for the fallback scheme in a uniform flow"
  },
  {
   "property": "C82",
   "status": "partial",
   "theorems": [
    "FVHOE.C82_partial",
    "FVHOE.C82_order",
    "FVHOE.C82_dims",
    "FVHOE.C82_violated"
   ],
   "note": "false for solvers with fv_ic: json.dump raises TypeError on the attribute u0"
  },
  {
   "property": "C83",
   "status": "proved",
   "theorems": [
    "FVHOE.C83_report",
    "FVHOE.C83_solver"
   ],
   "note": ""
  },
  {
   "property": "C84",
   "status": "proved",
   "theorems": [
    "FVHOE.C84_split",
    "FVHOE.C84_raises",
    "FVHOE.C84_parts",
    "FVHOE.C84_steps"
   ],
   "note": ""
  },
  {
   "property": "C85",
   "status": "proved",
   "theorems": [
    "FVHOE.C85_mass",
    "FVHOE.C85_run",
    "FVHOE.C85_first_order",
    "FVHOE.C85_exact"
   ],
   "note": "C85_run without limiting; averaged format: exactness of the density row"
  },
  {
   "property": "C86",
   "status": "proved",
   "theorems": [
    "FVHOE.C86_mirror_llf",
    "FVHOE.C86_mirror_hllc",
    "FVHOE.C86_exchange",
    "FVHOE.C86_symmetric_exchange",
    "FVHOE.C86_symmetric_llf",
    "FVHOE.C86_symmetric_hllc"
   ],
   "note": "reflection without smooth-extremum relaxation (false with it, C40_violated) and with the relative range or without that velocity among the NAD variables"
  },
  {
   "property": "C87",
   "status": "proved",
   "theorems": [
    "FVHOE.C87_stable"
   ],
   "note": "uniform velocity and pressure without limiting; contact-keeping solvers; deviations below 1/11000 of the density so that every interpolated density stays positive"
  },
  {
   "property": "C88",
   "status": "proved",
   "theorems": [
    "FVHOE.C88_run",
    "FVHOE.C88_sine"
   ],
   "note": "uniform velocity and pressure without limiting; contact-keeping solvers; the condition on the grid (error below 1/11000 of the least density) keeps every interpolated density positive"
  },
  {
   "property": "C89",
   "status": "proved",
   "theorems": [
    "FVHOE.C89_step",
    "FVHOE.C89_run",
    "FVHOE.C89_default_cfl_violated",
    "FVHOE.C89_first_order"
   ],
   "note": "limited scheme: one active direction, force_trouble with simple spreading, no walls, contact-keeping solvers; first order: periodic box of any dimension"
  },
  {
   "property": "C90",
   "status": "partial",
   "theorems": [
    "FVHOE.C90_details_partial",
    "FVHOE.C90_failed",
    "FVHOE.C90_words",
    "FVHOE.C90_missing_violated",
    "FVHOE.C90_author_violated",
    "FVHOE.C90_branch_violated",
    "FVHOE.C90_space_violated",
    "FVHOE.C90_spaces"
   ],
   "note": "false in the code: an author with a bar or a branch with a comma or a Unicode space is misread, and a missing git program raises; proved for names without these characters"
  },
  {
   "property": "C91",
   "status": "partial",
   "theorems": [
    "FVHOE.C91_rounding",
    "FVHOE.C91_exact",
    "FVHOE.C91_hit",
    "FVHOE.C91_run_partial",
    "FVHOE.C91_terminates",
    "FVHOE.C91_hit_violated",
    "FVHOE.C91_final_time_violated",
    "FVHOE.C91_backwards_violated",
    "FVHOE.C91_endless_violated"
   ],
   "note": "false in the code: a step from before half of the way may miss the time by a bit, and steps below the resolution of the clock never end; proved for output times of at least twice the largest step or with a bit to spare, and for steps of at least the resolution"
  },
  {
   "property": "C92",
   "status": "proved",
   "theorems": [
    "FVHOE.C92_solution",
    "FVHOE.C92_energy",
    "FVHOE.C92_errors",
    "FVHOE.C92_inner"
   ],
   "note": "numbers are reals; for the n2 inner samples, where the code replaces the solution by power laws, the claims are sign, order, energy and that the powers are those of the solution at the centre"
  },
  {
   "property": "C93",
   "status": "proved",
   "theorems": [
    "FVHOE.C93_order",
    "FVHOE.C93_periodic",
    "FVHOE.C93_exact_rate"
   ],
   "note": "no limiting; real arithmetic; the bound is r^(q+1)/h, which is order q of the rate (order q+1 of the face fluxes) and needs no condition on the velocity; C94 has the full order"
  },
  {
   "property": "C94",
   "status": "proved",
   "theorems": [
    "FVHOE.C94_order",
    "FVHOE.C94_periodic"
   ],
   "note": "no limiting; real arithmetic; one derivative more than C93; the condition on the velocity with upwind fluxes is not shown to be necessary"
  },
  {
   "property": "C95",
   "status": "proved",
   "theorems": [
    "FVHOE.C95_weak",
    "FVHOE.C95_first_order",
    "FVHOE.C95_run",
    "FVHOE.C95_rest"
   ],
   "note": "no limiting; real arithmetic; convergence in the mean and boundedness of the evaluated states are hypotheses, as in the theorem of Lax and Wendroff; test functions twice continuously differentiable"
  },
  {
   "property": "C96",
   "status": "proved",
   "theorems": [
    "FVHOE.C96_order",
    "FVHOE.C96_method",
    "FVHOE.C96_times"
   ],
   "note": "exact arithmetic for the output times; names of keyword arguments are ASCII; plots left out"
  },
  {
   "property": "C97",
   "status": "partial",
   "theorems": [
    "FVHOE.C97_partial",
    "FVHOE.C97_violated"
   ],
   "note": "false in the code: neither the initial nor the boundary condition is part of the directory name, so a second call returns the snapshots of the first; C97_partial: the other arguments do tell the directories apart when their texts contain no equals sign"
  },
  {
   "property": "C98",
   "status": "proved",
   "theorems": [
    "FVHOE.C98_exact",
    "FVHOE.C98_solver",
    "FVHOE.C98_step",
    "FVHOE.C98_run",
    "FVHOE.C98_scheme",
    "FVHOE.C98_not_exact"
   ],
   "note": "infinities and NaN are left out; the primitive conversion and the Riemann solver are arbitrary functions, so their rounding is included; values and fluxes are assumed to stay within given bounds"
  },
  {
   "property": "C99",
   "status": "proved",
   "theorems": [
    "FVHOE.C99_uniform",
    "FVHOE.C99_translation",
    "FVHOE.C99_mirror_violated"
   ],
   "note": "the same statement for mirror images is false (C99_mirror_violated): the sums of a stencil run from left to right"
  },
  {
   "property": "C100",
   "status": "proved",
   "theorems": [
    "FVHOE.C100_inside",
    "FVHOE.C100_run",
    "FVHOE.C100_open"
   ],
   "note": "nothing is said about the boundary values of the limit; that the gas laws are evaluated in a compact set of gas states, and convergence, are hypotheses; C100_open shows a case, with a jump, limiting everywhere and open ends, in which they hold"
  },
  {
   "property": "C101",
   "status": "proved",
   "theorems": [
    "FVHOE.C101_estimate",
    "FVHOE.C101_converges",
    "FVHOE.C101_square"
   ],
   "note": "degree zero with the euler stepper that run() uses there; convergence without a rate for general densities, C101_estimate gives the error in terms of any smooth density nearby"
  },
  {
   "property": "C102",
   "status": "proved",
   "theorems": [
    "FVHOE.C102_run",
    "FVHOE.C102_doubles",
    "FVHOE.C102_normal",
    "FVHOE.C102_exact",
    "FVHOE.C102_underflow_violated",
    "FVHOE.C102_ten_violated"
   ],
   "note": "rounding without bounds on the exponent, which C102_normal says is the rounding of the format for results in the normal range; the last two theorems show that neither subnormal numbers nor factors that are not powers of two can be admitted"
  },
  {
   "property": "C103",
   "status": "proved",
   "theorems": [
    "FVHOE.C103_mirror",
    "FVHOE.C103_symmetric",
    "FVHOE.C103_hllc_violated"
   ],
   "note": "llf at degree zero along the mirrored direction; C103_hllc_violated is the last sentence of the claim, C99_mirror_violated shows that higher degrees cannot be admitted"
  },
  {
   "property": "C104",
   "status": "proved",
   "theorems": [
    "FVHOE.C104_swap",
    "FVHOE.C104_xz_violated",
    "FVHOE.C104_degree_violated"
   ],
   "note": "the last two theorems are the last sentence of the claim"
  },
  {
   "property": "C105",
   "status": "proved",
   "theorems": [
    "FVHOE.C105_dmr",
    "FVHOE.C105_shu",
    "FVHOE.C105_dmr_violated",
    "FVHOE.C105_gamma_violated"
   ],
   "note": "the violated theorems are the last sentence of the claim; square roots and tangents are those of the real numbers"
  },
  {
   "property": "C106",
   "status": "proved",
   "theorems": [
    "FVHOE.C106_mirror",
    "FVHOE.C106_exchange",
    "FVHOE.C106_run",
    "FVHOE.C106_run_exchange",
    "FVHOE.C106_odd_violated"
   ],
   "note": "the violated theorem is the last sentence of the claim"
  },
  {
   "property": "C107",
   "status": "proved",
   "theorems": [
    "FVHOE.C107_crossing",
    "FVHOE.C107_run",
    "FVHOE.C107_backwards_violated",
    "FVHOE.C107_oblique_violated"
   ],
   "note": "the violated theorems are the last sentence of the claim"
  },
  {
   "property": "C108",
   "status": "proved",
   "theorems": [
    "FVHOE.C108_sharp",
    "FVHOE.C108_default_violated"
   ],
   "note": "the violated theorem is the last sentence of the claim"
  },
  {
   "property": "C109",
   "status": "proved",
   "theorems": [
    "FVHOE.C109_density",
    "FVHOE.C109_scalar",
    "FVHOE.C109_step",
    "FVHOE.C109_cfl",
    "FVHOE.C109_machine",
    "FVHOE.C109_cold_violated"
   ],
   "note": "results are not subnormal and do not overflow; the violated theorem is the last sentence of the claim"
  },
  {
   "property": "C110",
   "status": "proved",
   "theorems": [
    "FVHOE.C110_cut",
    "FVHOE.C110_flip",
    "FVHOE.C110_xyz",
    "FVHOE.C110_errors",
    "FVHOE.C110_from_end",
    "FVHOE.C110_ignored_violated",
    "FVHOE.C110_variables_lost",
    "FVHOE.C110_windows",
    "FVHOE.C110_arrays"
   ],
   "note": "the violated theorem is the clause of the docstring named in the last sentence of the claim"
  },
  {
   "property": "C111",
   "status": "proved",
   "theorems": [
    "FVHOE.C111_averages",
    "FVHOE.C111_start",
    "FVHOE.C111_athena_mirror",
    "FVHOE.C111_athena_exchange",
    "FVHOE.C111_athena_run",
    "FVHOE.C111_athena_run_hllc",
    "FVHOE.C111_athena_run_exchange",
    "FVHOE.C111_wave_run",
    "FVHOE.C111_kelvin_shift",
    "FVHOE.C111_kelvin_glide",
    "FVHOE.C111_kelvin_run",
    "FVHOE.C111_kelvin_run_glide",
    "FVHOE.C111_kelvin_run_glide_hllc",
    "FVHOE.C111_rule"
   ],
   "note": "with limiting the seam of a periodic domain is treated differently (C02_violated), so the Kelvin-Helmholtz runs are without limiting"
  },
  {
   "property": "C112",
   "status": "proved",
   "theorems": [
    "FVHOE.C112_shift",
    "FVHOE.C112_mirror",
    "FVHOE.C112_mirror_hllc",
    "FVHOE.C112_mirror_hllc_run",
    "FVHOE.C112_sedov_off_centre",
    "FVHOE.C112_sedov_run"
   ],
   "note": ""
  },
  {
   "property": "C113",
   "status": "proved",
   "theorems": [
    "FVHOE.C113_rhs",
    "FVHOE.C113_run",
    "FVHOE.C113_sine"
   ],
   "note": ""
  },
  {
   "property": "C114",
   "status": "proved",
   "theorems": [
    "FVHOE.C114_quiet",
    "FVHOE.C114_order"
   ],
   "note": ""
  },
  {
   "property": "C115",
   "status": "proved",
   "theorems": [
    "FVHOE.C115_depends",
    "FVHOE.C115_steps",
    "FVHOE.C115_first_order",
    "FVHOE.C115_first_order_steps",
    "FVHOE.C115_upwind_jumps"
   ],
   "note": ""
  },
  {
   "property": "C116",
   "status": "proved",
   "theorems": [
    "FVHOE.C116_step",
    "FVHOE.C116_runs",
    "FVHOE.C116_fixed_step",
    "FVHOE.C116_sharp"
   ],
   "note": ""
  },
  {
   "property": "C117",
   "status": "proved",
   "theorems": [
    "FVHOE.C117_exists",
    "FVHOE.C117_converges",
    "FVHOE.C117_exact",
    "FVHOE.C117_unique"
   ],
   "note": ""
  },
  {
   "property": "C118",
   "status": "proved",
   "theorems": [
    "FVHOE.C118_order",
    "FVHOE.C118_supersonic",
    "FVHOE.C118_untied",
    "FVHOE.C118_exact",
    "FVHOE.C118_exists"
   ],
   "note": ""
  },
  {
   "property": "C119",
   "status": "proved",
   "theorems": [
    "FVHOE.C119_switch",
    "FVHOE.C119_same",
    "FVHOE.C119_converges",
    "FVHOE.C119_order",
    "FVHOE.C119_exact",
    "FVHOE.C119_default",
    "FVHOE.C119_exists"
   ],
   "note": ""
  },
  {
   "property": "C120",
   "status": "proved",
   "theorems": [
    "FVHOE.C120_local",
    "FVHOE.C120_global_violated"
   ],
   "note": ""
  },
  {
   "property": "C121",
   "status": "proved",
   "theorems": [
    "FVHOE.C121_run"
   ],
   "note": ""
  },
  {
   "property": "C122",
   "status": "proved",
   "theorems": [
    "FVHOE.C122_total",
    "FVHOE.C122_closed",
    "FVHOE.C122_shift",
    "FVHOE.C122_turn",
    "FVHOE.C122_mirror"
   ],
   "note": ""
  },
  {
   "property": "C123",
   "status": "proved",
   "theorems": [
    "FVHOE.C123_lru",
    "FVHOE.C123_size",
    "FVHOE.C123_once",
    "FVHOE.C123_slicer",
    "FVHOE.C123_kept"
   ],
   "note": ""
  },
  {
   "property": "C124",
   "status": "proved",
   "theorems": [
    "FVHOE.C124_rest",
    "FVHOE.C124_first",
    "FVHOE.C124_mild",
    "FVHOE.C124_llf_violated"
   ],
   "note": ""
  }
 ]
}