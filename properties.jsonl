{"id": "C01", "title": "Total mass, momentum, energy and passive mass are conserved on a periodic domain", "statement": "With periodic boundaries in every active direction, at least as many cells in each as ghost layers, and a-posteriori limiting off, the sum over all cells of every conservative variable after EulerSolver.euler/ssprk2/ssprk3/rk4 has taken any number of steps equals the sum before the first step (exact arithmetic).", "quantifier": "every mesh size, every polynomial degree triple 0..8, every Riemann solver, every initial array, every active-dimension set, every step count, every sequence of step sizes, all four integrators", "why_tests_cant": "A test checks one mesh and one initial condition to a tolerance; conservation is a telescoping identity over all arrays, degrees, schedules and step counts, and depends on the ghost cells of both ends agreeing for every stencil width.", "anchors": ["fvhoe/solver.py:EulerSolver.hydrodynamics", "fvhoe/solver.py:EulerSolver.hydrofluxes", "fvhoe/solver.py:EulerSolver.euler_equation", "fvhoe/boundary_conditions.py:_set_periodic_bc", "fvhoe/ode.py:ODE.euler", "fvhoe/ode.py:ODE.ssprk2", "fvhoe/ode.py:ODE.ssprk3", "fvhoe/ode.py:ODE.rk4"]}
{"id": "C02", "title": "Conservation on a periodic domain also holds with a-posteriori limiting", "statement": "With periodic boundaries and a_posteriori_slope_limiting=True a step conserves the total of every conservative variable, i.e. the blended flux used at the left end of a periodic direction is the one used at its right end.", "quantifier": "every troubled-cell pattern, every mesh size, convex or simple broadcasting, every pair of high-order and fallback fluxes that are themselves periodic", "why_tests_cant": "Whether the seam fluxes agree depends on the troubled flags of the first and last cell; random tests on smooth flow never make them differ.", "anchors": ["fvhoe/solver.py:EulerSolver.revise_fluxes", "fvhoe/slope_limiting.py:broadcast_to_troubled_interfaces"]}
{"id": "C03", "title": "Budget: the total changes only through boundary faces", "statement": "For any boundary conditions and any limiting, the change of the total of each conserved variable over one right-hand-side evaluation equals the difference of the fluxes on the outer faces divided by the mesh spacing; no interior face contributes.", "quantifier": "every flux array, every mesh size, every number of active dimensions, every variable", "why_tests_cant": "It is an identity over arrays of any size; a sample of arrays in floating point only shows approximate agreement.", "anchors": ["fvhoe/solver.py:EulerSolver.euler_equation"]}
{"id": "C04", "title": "A uniform flow is an exact steady state", "statement": "If every cell of u holds the same state with non-zero density then the computed time derivative is exactly zero, for periodic, free and outflow boundaries, with or without slope limiting, so every integrator leaves the state unchanged for ever.", "quantifier": "every uniform state with non-zero density, every degree, mesh, dimension set, Riemann solver, limiter, trouble pattern and number of steps", "why_tests_cant": "Needs the weights of every stencil to sum to exactly one and every Riemann solver to be consistent for all states; tests pick a few states.", "anchors": ["fvhoe/solver.py:EulerSolver.hydrodynamics", "fvhoe/stencils.py:get_conservative_interpolation_stencil_weights", "fvhoe/stencils.py:get_transverse_reconstruction_stencil_weights", "fvhoe/riemann_solvers.py:hllc", "fvhoe/riemann_solvers.py:llf"]}
{"id": "C05", "title": "Uniform velocity and pressure are preserved across density variations", "statement": "If velocity and pressure are uniform while density (and passive scalars) vary arbitrarily, every step at every polynomial degree with the llf or hllc solver, limited or not, returns a state with the same uniform velocity and pressure, as long as the densities met on the way are positive (non-zero for llf).", "quantifier": "every density profile, mesh size, degree triple, velocity, pressure, integrator, step size, number of steps, trouble pattern", "why_tests_cant": "An algebraic identity over all density profiles; pressure oscillations at contacts appear only for particular solver formulas, and tests use a handful of profiles.", "anchors": ["fvhoe/riemann_solvers.py:llf", "fvhoe/riemann_solvers.py:hllc", "fvhoe/hydro.py:compute_primitives", "fvhoe/solver.py:EulerSolver.hydrodynamics"]}
{"id": "C06", "title": "Passive scalars do not influence the flow", "statement": "Adding, removing or changing passive scalars leaves the time step and the evolution of density, momentum and energy unchanged.", "quantifier": "every number of passive scalars, every value of them, every degree, mesh, boundary type, Riemann solver", "why_tests_cant": "A two-run non-interference property over all pairs of inputs.", "anchors": ["fvhoe/hydro.py:compute_primitives", "fvhoe/hydro.py:compute_fluxes", "fvhoe/hydro.py:hydro_dt", "fvhoe/riemann_solvers.py:hllc", "fvhoe/solver.py:EulerSolver.hydrofluxes"]}
{"id": "C07", "title": "A uniform passive concentration stays uniform", "statement": "If a passive scalar has the same concentration c everywhere then its conserved density is c times the mass density before and after every step, at every degree, with every Riemann solver and limiter.", "quantifier": "every flow field whose reconstructed densities are non-zero, every concentration c, every degree, mesh and step count", "why_tests_cant": "It is a relational identity between two evolved fields for all flows.", "anchors": ["fvhoe/riemann_solvers.py:hllc", "fvhoe/riemann_solvers.py:llf", "fvhoe/hydro.py:compute_fluxes"]}
{"id": "C08", "title": "The scheme commutes with periodic shifts", "statement": "With slope limiting off, on a fully periodic domain with at least as many cells in each active direction as the scheme uses ghost layers, shifting the initial array cyclically by any whole number of cells and then evolving gives the cyclic shift of the evolved array, with the same steps and times.", "quantifier": "every shift vector, initial array, degree, mesh, Riemann solver, step count", "why_tests_cant": "A relation between two executions for all inputs; any off-by-one between ghost filling and slicing would break it only for some degrees or directions.", "anchors": ["fvhoe/solver.py:EulerSolver.hydrofluxes", "fvhoe/boundary_conditions.py:BoundaryCondition.apply", "fvhoe/fv.py:stencil_sweep"]}
{"id": "C09", "title": "The scheme commutes with mirror reflection", "statement": "With slope limiting off and free, outflow, reflective or periodic sides, reflecting the initial array along one axis (and negating that momentum component) and exchanging the boundary conditions at the two ends of the axis gives the reflection of the evolved array: for llf at all states, for hllc as long as the reconstructed states at faces across the axis have positive density and non-negative pressure.", "quantifier": "every input array, axis, degree, mesh, step count", "why_tests_cant": "A relation between two executions; depends on the left/right weights being exact mirror images and on tie-breaking in the Riemann solver.", "anchors": ["fvhoe/riemann_solvers.py:hllc", "fvhoe/riemann_solvers.py:llf", "fvhoe/stencils.py:get_conservative_interpolation_stencil_weights", "fvhoe/solver.py:EulerSolver.hydrofluxes"]}
{"id": "C10", "title": "The x, y and z code paths are the same scheme", "statement": "With slope limiting off and free, outflow, reflective or periodic sides, permuting the coordinate axes of the problem (array axes, degrees, spacings, boundary conditions and momentum components) permutes the result: a problem solved along y or z evolves exactly as the same problem along x, for every Riemann solver.", "quantifier": "every axis permutation, input, degree triple, mesh", "why_tests_cant": "The solver has three hand-written copies of the flux code; equality for all inputs is a two-run property.", "anchors": ["fvhoe/solver.py:EulerSolver.hydrofluxes", "fvhoe/riemann_solvers.py:hllc", "fvhoe/boundary_conditions.py:BoundaryCondition.apply"]}
{"id": "C11", "title": "Flux arrays always have the declared shape and never see uninitialised ghost memory", "statement": "For every degree triple and every active-dimension set, evaluating the right-hand side raises no shape error, F has nx+1, G has ny+1 and H nz+1 faces along their own axis, and the values do not depend on the uninitialised memory that padding allocates, provided the ghost width does not exceed the number of cells when periodic.", "quantifier": "every mesh, degree triple 0..8, dimension set, boundary types among periodic/free/outflow/reflective/dirichlet, every content of uninitialised memory", "why_tests_cant": "Uninitialised memory is usually zero or benign in tests; independence from it is a statement over all memory contents.", "anchors": ["fvhoe/solver.py:EulerSolver.hydrofluxes", "fvhoe/solver.py:EulerSolver.interpolate_primitives_from_conservatives", "fvhoe/boundary_conditions.py:BoundaryCondition.apply"]}
{"id": "C12", "title": "First-order LLF steps keep density and pressure positive", "statement": "In one dimension at degree 0 with the llf solver, if all densities and pressures are positive and the step size is at most the one hydro_dt returns with CFL<=1, every new density and pressure is positive, for any number of steps.", "quantifier": "every positive state array, mesh size, gamma>1, CFL in (0,1], number of steps", "why_tests_cant": "Positivity must hold for all states including near-vacuum ones; random tests do not reach the extreme corners.", "anchors": ["fvhoe/riemann_solvers.py:llf", "fvhoe/hydro.py:hydro_dt", "fvhoe/ode.py:ODE.euler"]}
{"id": "C13", "title": "The automatic time step is positive and respects the CFL bound in every cell", "statement": "For positive csq_floor, mesh spacing and CFL, hydro_dt returns a positive dt and dt*(|vx|+|vy|+|vz|+ndim*c) <= CFL*h in every cell of the array it is given, with equality in some cell.", "quantifier": "every primitive array with non-empty shape, every h, CFL, gamma, csq_floor>0, ndim>=1", "why_tests_cant": "A bound over every cell of every array.", "anchors": ["fvhoe/hydro.py:hydro_dt", "fvhoe/hydro.py:compute_sound_speed"]}
{"id": "C14", "title": "Primitive and conservative conversions are inverse to each other", "statement": "compute_primitives(compute_conservatives(w)) = w and compute_conservatives(compute_primitives(u)) = u for every state with non-zero density when gamma != 1, including all passive scalars.", "quantifier": "every state, number of passive scalars, gamma != 1", "why_tests_cant": "Identity over all states.", "anchors": ["fvhoe/hydro.py:compute_primitives", "fvhoe/hydro.py:compute_conservatives"]}
{"id": "C15", "title": "Numerical fluxes are consistent with the physical flux", "statement": "When both sides of a face carry the same state, llf and hllc return exactly the Euler flux of that state (with non-zero density and positive sound-speed floor) and advection_upwind returns the pressure-free flux.", "quantifier": "every state, direction x/y/z, gamma, csq_floor>0, any passive scalars", "why_tests_cant": "Identity over all states with piecewise definitions whose branches tests may not visit.", "anchors": ["fvhoe/riemann_solvers.py:advection_upwind", "fvhoe/riemann_solvers.py:llf", "fvhoe/riemann_solvers.py:hllc", "fvhoe/hydro.py:compute_fluxes"]}
{"id": "C16", "title": "Numerical fluxes are mirror symmetric", "statement": "Exchanging the two states and negating the normal velocities negates every flux component except the normal-momentum one, which is unchanged (hllc for physical states, llf always).", "quantifier": "every pair of states, every direction", "why_tests_cant": "Tie cases (contact speed exactly zero) have measure zero and are missed by random tests.", "anchors": ["fvhoe/riemann_solvers.py:llf", "fvhoe/riemann_solvers.py:hllc"]}
{"id": "C17", "title": "HLLC never divides by zero and its flux satisfies the jump conditions", "statement": "For positive densities, non-negative pressures, gamma>1 and a positive floor: the outer speeds strictly bracket the contact speed, star densities are positive, and the returned flux equals F_K + S_K (U*_K - U_K) on the side K the solver samples.", "quantifier": "every physical pair of states, every direction", "why_tests_cant": "A statement about real inequalities for all inputs, including limits where denominators are tiny.", "anchors": ["fvhoe/riemann_solvers.py:hllc"]}
{"id": "C18", "title": "HLLC and upwind take the upwind state in supersonic flow", "statement": "If both acoustic speeds are positive the hllc flux is the physical flux of the left state; if both are negative it is that of the right state; advection_upwind takes the side the velocity comes from.", "quantifier": "every pair of states with the sign condition, every direction", "why_tests_cant": "Decision logic over real inequalities for all inputs.", "anchors": ["fvhoe/riemann_solvers.py:hllc", "fvhoe/riemann_solvers.py:advection_upwind"]}
{"id": "C19", "title": "Conservative interpolation is exact for polynomials up to its degree", "statement": "For every degree p in 0..8 and position l/c/r, the interpolation of the cell averages of any polynomial of degree <= p on a uniform grid returns the exact point value at the left face, centre or right face of each cell; other degrees raise NotImplementedError.", "quantifier": "every p, position, polynomial of degree <= p with arbitrary coefficients, cell index, mesh origin and spacing", "why_tests_cant": "Exactness for all polynomials; a wrong digit in one of the 27 weight tables only degrades the order and passes tolerance tests.", "anchors": ["fvhoe/stencils.py:get_conservative_interpolation_stencil_weights", "fvhoe/fv.py:conservative_interpolation"]}
{"id": "C20", "title": "Transverse reconstruction is exact for polynomials up to its degree", "statement": "For every p in 0..8 the reconstruction of the point values of any polynomial of degree <= p returns its exact cell averages.", "quantifier": "every p, polynomial, cell index, spacing", "why_tests_cant": "As above, for all polynomials.", "anchors": ["fvhoe/stencils.py:get_transverse_reconstruction_stencil_weights", "fvhoe/fv.py:transverse_reconstruction"]}
{"id": "C21", "title": "Stencil sweeps compute the sliding weighted sum with the advertised shape", "statement": "stencil_sweep along any axis of an array of any size n returns n-(2*ceil(p/2)) entries along that axis, entry i being the weighted sum of the 2*ceil(p/2)+1 input entries i..i+2*ceil(p/2); all slices it adds have the same shape.", "quantifier": "every array size and content, axis, degree, mode", "why_tests_cant": "Python slice arithmetic with zero/negative stops (the `or None` idiom) must be right for all sizes.", "anchors": ["fvhoe/fv.py:stencil_sweep", "fvhoe/fv.py:get_symmetric_slices", "fvhoe/stencils.py:get_stencil_size", "fvhoe/hydro.py:HydroState.__call__"]}
{"id": "C22", "title": "Cell averages and cell centres convert exactly both ways for polynomials", "statement": "interpolate_cell_centers of the cell averages of a tensor polynomial of degree <= p per direction gives its centre values, and interpolate_fv_averages of the centre values gives the averages back.", "quantifier": "every degree triple, tensor polynomial, cell", "why_tests_cant": "Exactness for all polynomials in three variables.", "anchors": ["fvhoe/fv.py:interpolate_cell_centers", "fvhoe/fv.py:interpolate_fv_averages"]}
{"id": "C23", "title": "Initial cell averages are exact for polynomials", "statement": "Given Gauss-Legendre nodes and weights that integrate degree <= 2n-1 exactly, fv_average with degree triple p returns the exact cell averages of every polynomial of degree <= p in each variable, and at p=0 it returns the centre value.", "quantifier": "every degree triple, polynomial, cell, spacing", "why_tests_cant": "The number of quadrature points is computed with integer arithmetic that must be right for all p.", "anchors": ["fvhoe/fv.py:fv_average", "fvhoe/fv.py:get_legendre_quadrature"]}
{"id": "C24", "title": "Every requested output time is hit exactly, in order, and never overshot", "statement": "With exact=True, positive right-hand-side time steps and positive requested times, integrate(T, downbeats) visits states whose recorded times are t0 followed by the sorted distinct requested times up to T, each reached exactly, ends with t=T, and no intermediate time exceeds the pending target.", "quantifier": "every T>0, every finite list of positive downbeats (unsorted, repeated, beyond T), every sequence of positive step sizes, every integrator", "why_tests_cant": "Quantifies over all step-size sequences produced by the physics.", "anchors": ["fvhoe/ode.py:ODE.integrate", "fvhoe/ode.py:_hit_target", "fvhoe/ode.py:ODE.take_step"]}
{"id": "C25", "title": "The time loop terminates", "statement": "If every time step proposed by the right-hand side is at least some delta>0 then integrate terminates after at most (T-t)/delta plus the number of requested times steps; time increases strictly at every step.", "quantifier": "every T, downbeats, and step-size sequence bounded below", "why_tests_cant": "Termination is not testable.", "anchors": ["fvhoe/ode.py:ODE.integrate"]}
{"id": "C26", "title": "Step bookkeeping is consistent after every history of runs", "statement": "After any sequence of integrate calls, timestamps has step_count+1 entries, starts with 0, ends with the current time, and consecutive entries differ by the step sizes used; snapshots and snapshot_times have equal length.", "quantifier": "every sequence of integrate calls in step-count or final-time mode with any arguments", "why_tests_cant": "An invariant over all histories.", "anchors": ["fvhoe/ode.py:ODE.integrate", "fvhoe/ode.py:ODE.take_step", "fvhoe/ode.py:ODE.snapshot"]}
{"id": "C27", "title": "Calling integrate again with past output times does not move time backwards", "statement": "integrate never steps backwards in time, including a second call whose downbeats or whose implicit list contain times earlier than the current time.", "quantifier": "every current time, T and downbeats", "why_tests_cant": "Depends on call history; the code compares targets only with zero.", "anchors": ["fvhoe/ode.py:ODE.integrate", "fvhoe/ode.py:_hit_target"]}
{"id": "C28", "title": "Each Runge-Kutta method has its advertised order on linear problems", "statement": "For u'=Au the one-step map of euler, ssprk2, ssprk3 and rk4 is the Taylor polynomial of exp(dt*A) of degree 1, 2, 3 and 4 respectively; steady states are preserved and any linear functional with f in its kernel is conserved by all four.", "quantifier": "every linear operator on every module, every dt, every state", "why_tests_cant": "Algebraic identity over all operators.", "anchors": ["fvhoe/ode.py:ODE.euler", "fvhoe/ode.py:ODE.ssprk2", "fvhoe/ode.py:ODE.ssprk3", "fvhoe/ode.py:ODE.rk4"]}
{"id": "C29", "title": "The SSP methods preserve every convex set that Euler steps preserve", "statement": "If forward Euler steps of size dt stay in a convex set then so do ssprk2 and ssprk3 steps of size dt.", "quantifier": "every convex set, right-hand side and step", "why_tests_cant": "A statement about all convex sets; the code writes ssprk3 in Butcher form where the convex combination is not visible.", "anchors": ["fvhoe/ode.py:ODE.ssprk2", "fvhoe/ode.py:ODE.ssprk3"]}
{"id": "C30", "title": "Runge-Kutta stages evaluate the right-hand side at the right times", "statement": "For u'=g(t) the methods are exact quadratures of the matching degree: ssprk2 integrates linear g, ssprk3 and rk4 quadratic and cubic g exactly, and time-dependent boundary values are evaluated at the stage time.", "quantifier": "every polynomial g of the degree, every t and dt", "why_tests_cant": "Order for time-dependent problems is only visible asymptotically.", "anchors": ["fvhoe/ode.py:ODE.ssprk2", "fvhoe/ode.py:ODE.ssprk3", "fvhoe/ode.py:ODE.rk4", "fvhoe/solver.py:EulerSolver.f"]}
{"id": "C31", "title": "Limited slopes never create new extrema", "statement": "The minmod and moncen slopes have the sign of the one-sided differences (zero when these disagree), minmod is bounded in size by both differences and moncen by twice both, so MUSCL face values lie between the cell and its neighbours and average to the cell value; without limiter the faces equal the degree-1 interpolation.", "quantifier": "every pair of differences (including those below the 1e-16 threshold), every array and axis", "why_tests_cant": "Bounds over all reals including thresholds that tests never touch.", "anchors": ["fvhoe/slope_limiting.py:minmod", "fvhoe/slope_limiting.py:moncen", "fvhoe/slope_limiting.py:MUSCL_interpolations"]}
{"id": "C32", "title": "A cell is flagged by NAD exactly when the candidate leaves the tolerated neighbour range", "statement": "Without smooth-extremum relaxation and without PAD limits, a cell is reported troubled iff for some considered variable the candidate is below min-eps*range or above max+eps*range over the 3^d neighbourhood (range global or local; or the absolute variants), regardless of padding values.", "quantifier": "every array, candidate, mode, range type, tolerance, variable subset, dimension set", "why_tests_cant": "An iff over all arrays and modes.", "anchors": ["fvhoe/slope_limiting.py:detect_troubled_cells"]}
{"id": "C33", "title": "Every physical admissibility bound is enforced", "statement": "A cell whose candidate violates any of the PAD bounds given is reported troubled with a positive PAD magnitude.", "quantifier": "every PAD dictionary, candidate array, cell", "why_tests_cant": "The default dictionary has two entries; only combinations where the first alone is violated show the defect.", "anchors": ["fvhoe/slope_limiting.py:detect_troubled_cells", "fvhoe/solver.py:EulerSolver._init_slope_limiting"]}
{"id": "C34", "title": "Trouble flags, violation magnitudes and the plotting check agree", "statement": "For non-negative tolerance the trouble flag is set iff the NAD or PAD violation magnitude is positive, so plotting_trouble never rejects what the detector returned.", "quantifier": "every array, candidate, options, NAD_vars subset", "why_tests_cant": "An iff for every array.", "anchors": ["fvhoe/slope_limiting.py:detect_troubled_cells", "fvhoe/visualization.py:plotting_trouble"]}
{"id": "C35", "title": "A face falls back exactly when it touches a troubled cell", "statement": "Simple broadcasting gives 1 on the faces adjacent to a troubled cell and 0 on all others, in every active direction; inactive directions get 0.", "quantifier": "every flag array, mesh size, dimension set", "why_tests_cant": "An iff for all arrays and sizes.", "anchors": ["fvhoe/slope_limiting.py:broadcast_to_troubled_interfaces"]}
{"id": "C36", "title": "Convex blending weights depend only on the distance to the nearest troubled cell", "statement": "Convex broadcasting gives cell weights 1, 0.75, 0.25, 0 in 1D at distance 0, 1, 2, >=3, and in 2D 1, 0.75 (edge), 0.5 (diagonal), 0.25 (rest of the 5x5 box), and a face takes the larger of its two cells; the weights are mirror symmetric.", "quantifier": "every flag array and mesh size", "why_tests_cant": "In-place sequential updates could leak further in one direction; needs all patterns.", "anchors": ["fvhoe/slope_limiting.py:convex_1d_broadcast_to_troubled_interfaces", "fvhoe/slope_limiting.py:convex_2d_broadcast_to_troubled_interfaces"]}
{"id": "C37", "title": "Convex blending honours periodic boundaries", "statement": "With convex=True and a periodic flag, a troubled cell near one end influences faces near the other end as if the domain were wrapped, in 1D and 2D.", "quantifier": "every flag array, mesh size, dimension pair", "why_tests_cant": "Only patterns near the seam expose it.", "anchors": ["fvhoe/slope_limiting.py:broadcast_to_troubled_interfaces"]}
{"id": "C38", "title": "Blended fluxes are a convex combination of high-order and fallback fluxes", "statement": "Blending weights are in [0,1], the revised flux lies between the two fluxes on every face, equals the high-order flux when no cell is troubled and the fallback flux when force_trouble is set without convex blending.", "quantifier": "every flag pattern and pair of fluxes", "why_tests_cant": "Holds for every pattern and pair of arrays.", "anchors": ["fvhoe/solver.py:EulerSolver.revise_fluxes", "fvhoe/slope_limiting.py:broadcast_to_troubled_interfaces"]}
{"id": "C39", "title": "Smooth-extremum indicator is in [0,1] and is exactly 1 on parabolas", "statement": "The indicator lies between 0 and 1 everywhere and equals 1 on any quadratic profile with curvature above the tolerance, so NAD flags there are removed.", "quantifier": "every array, axis, tolerance>0, quadratic profile", "why_tests_cant": "Bounds and equality over all arrays.", "anchors": ["fvhoe/smooth_extrema_detection.py:compute_1d_smooth_extrema_detector"]}
{"id": "C40", "title": "Smooth-extremum indicator treats left and right alike", "statement": "Reversing the array along the axis reverses the indicator, and negating the array leaves it unchanged.", "quantifier": "every array and axis", "why_tests_cant": "A two-run relation for all arrays, broken only when curvature is below the tolerance.", "anchors": ["fvhoe/smooth_extrema_detection.py:compute_1d_smooth_extrema_detector"]}
{"id": "C41", "title": "Periodic ghost cells wrap and leave the interior untouched", "statement": "BoundaryCondition.apply with periodic sides returns an array whose entry at padded index i is the input entry at (i-gw) mod n in every direction, corners included, whenever gw<=n.", "quantifier": "every array, size, ghost widths <= n, memory content", "why_tests_cant": "Corners and all widths; slab copies read from one another.", "anchors": ["fvhoe/boundary_conditions.py:BoundaryCondition.apply", "fvhoe/boundary_conditions.py:_set_periodic_bc"]}
{"id": "C42", "title": "Reflective, outflow and free ghost cells mirror or extend the interior", "statement": "For these sides the ghost cell at depth k holds the mirror image (reflective/outflow) or the edge value (free), reflective negates exactly the normal momentum, and the interior is unchanged; a reflective wall gives zero mass flux for llf and hllc at degree 0.", "quantifier": "every array, size, ghost width <= n, side, direction", "why_tests_cant": "All widths, all sides, corner combinations.", "anchors": ["fvhoe/boundary_conditions.py:_set_symmetric_bc", "fvhoe/boundary_conditions.py:_set_free_bc", "fvhoe/boundary_conditions.py:BoundaryCondition.apply"]}
{"id": "C43", "title": "Dirichlet functions receive the exact ghost-cell coordinates", "statement": "A dirichlet/ic boundary function is called with meshes whose entries are exactly the cell-centre coordinates of the ghost slab (including the corner extensions) of an infinitely extended uniform mesh, for every ghost width up to the buffer, and larger widths raise ValueError.", "quantifier": "every mesh, domain, ghost width triple, direction, side", "why_tests_cant": "Index arithmetic with empty cuts (excess 0, width 0) over all widths.", "anchors": ["fvhoe/boundary_conditions.py:BoundaryCondition.trim_slabs", "fvhoe/fv.py:fv_uniform_meshgen"]}
{"id": "C44", "title": "Every accepted boundary specification fills every ghost cell", "statement": "If apply returns normally no entry of its result depends on uninitialised memory.", "quantifier": "every pair of side types accepted, ghost width, array", "why_tests_cant": "Quantifies over memory contents; mixed or short configurations leave garbage which tests rarely notice.", "anchors": ["fvhoe/boundary_conditions.py:BoundaryCondition.apply"]}
{"id": "C45", "title": "Timer never double counts and reports misuse", "statement": "For any sequence of add/start/stop calls, start on a running or unknown category and stop on an idle or unknown one raise and change nothing, cumulative time is the sum of the completed intervals of that category only and never decreases when the clock is monotone.", "quantifier": "every call sequence, every monotone clock", "why_tests_cant": "All histories.", "anchors": ["fvhoe/timer.py:Timer"]}
{"id": "C46", "title": "Timers are balanced by every solver step", "statement": "Every successful right-hand-side evaluation leaves exactly the timers running that were running before, for every option combination.", "quantifier": "every option combination, number of stages", "why_tests_cant": "All paths through the step.", "anchors": ["fvhoe/solver.py:EulerSolver.hydrofluxes", "fvhoe/solver.py:EulerSolver.revise_fluxes", "fvhoe/timer.py:Timer"]}
{"id": "C47", "title": "Array manager behaves as a name-to-array store", "statement": "After any sequence of operations, a lookup returns the array most recently added under that name and not removed; adding an existing name or a non-array, or using an unknown name, raises and changes nothing; get_numpy returns a copy that later writes cannot change, as long as the cupy switch is not toggled.", "quantifier": "every operation sequence", "why_tests_cant": "All histories.", "anchors": ["fvhoe/array_management.py:ArrayManager"]}
{"id": "C48", "title": "Variable names address disjoint slots", "statement": "For distinct passive names not among the reserved names, rho, the three velocity/momentum components, P/E and each passive scalar map to distinct rows 0..nvars-1 covering all rows, primitive and conservative names of the same quantity map to the same row, and unknown or duplicate names raise ValueError.", "quantifier": "every tuple of names", "why_tests_cant": "All name tuples; collisions are silent.", "anchors": ["fvhoe/hydro.py:HydroState"]}
{"id": "C49", "title": "A completed save is read back exactly, and a crash never yields a wrong result", "statement": "write_snapshots then read_snapshots returns the saved snapshot list; after a crash at any point of write_snapshots a later run without overwrite either reads exactly the saved list, recomputes, or raises, never silently returning something else; without overwrite an existing directory is never modified.", "quantifier": "every snapshot list, previous directory content, crash point, overwrite flag", "why_tests_cant": "All crash points.", "anchors": ["fvhoe/solver.py:EulerSolver.write_snapshots", "fvhoe/solver.py:EulerSolver.read_snapshots", "fvhoe/ode.py:ODE.integrate"]}
{"id": "C50", "title": "Logged trouble is the mean over the stages of the last step", "statement": "After each step with limiting the snapshot's trouble, NAD and PAD arrays are the arithmetic mean over the right-hand-side evaluations of that step.", "quantifier": "every number of stages, every step index, every sequence of flag arrays", "why_tests_cant": "All histories; the first step differs from all later ones.", "anchors": ["fvhoe/solver.py:EulerSolver.log_troubles", "fvhoe/solver.py:EulerSolver.step_helper_function"]}
{"id": "C51", "title": "Mesh centres are uniform and inside the domain", "statement": "Cell centres are x0+(i+1/2)h with h=(x1-x0)/n, strictly increasing, symmetric about the domain centre, and strictly inside the domain; slab meshes continue the same sequence outside.", "quantifier": "every n>=1, x0<x1, thickness", "why_tests_cant": "All sizes.", "anchors": ["fvhoe/fv.py:fv_uniform_meshgen"]}
{"id": "C52", "title": "Nearest-index lookup returns a nearest sample", "statement": "get_indices_from_coordinates returns for a requested t, x, y or z an index whose coordinate is at minimal distance, the first such index on ties, and the last snapshot when t is omitted.", "quantifier": "every non-empty snapshot list and coordinate arrays", "why_tests_cant": "A minimum over all lists.", "anchors": ["fvhoe/visualization.py:get_indices_from_coordinates"]}
{"id": "C53", "title": "Finite domain of dependence", "statement": "With a-posteriori limiting off, one right-hand-side evaluation at a cell depends only on the cells within max(3r+1,4r), r=ceil(p/2), of it along each active axis (counted around the end on periodic axes) and on nothing along inactive axes; only the returned time step looks further.", "quantifier": "every pair of arrays agreeing on the stencil neighbourhood, every degree", "why_tests_cant": "A two-run property over all pairs of arrays.", "anchors": ["fvhoe/solver.py:EulerSolver.hydrofluxes", "fvhoe/solver.py:EulerSolver.interpolate_primitives_from_conservatives"]}
{"id": "C54", "title": "run() picks an integrator matching the polynomial degree", "statement": "run uses euler, ssprk2, ssprk3 or rk4 when the largest degree is 0, 1, 2 or at least 3, never raises for non-negative degrees, and forwards all arguments.", "quantifier": "every degree triple of natural numbers", "why_tests_cant": "All degree triples.", "anchors": ["fvhoe/solver.py:EulerSolver.run"]}
{"id": "C55", "title": "The main Riemann solvers agree with the reference 1D solver", "statement": "On 1D states with csq above the floor the llf and hllc fluxes, conversions and interpolation weights equal those of the reference solver in romain_solver.py.", "quantifier": "every pair of 1D states", "why_tests_cant": "Equality of two programs on all inputs.", "anchors": ["fvhoe/romain_solver.py", "fvhoe/riemann_solvers.py:llf", "fvhoe/riemann_solvers.py:hllc"]}
{"id": "C56", "title": "Sedov energy is independent of resolution", "statement": "With mode='center' the deposited blast energy times cell volume sums to E1 for every even resolution; with mode='corner' it is E1/2^d.", "quantifier": "every mesh size and dimension set", "why_tests_cant": "All resolutions.", "anchors": ["fvhoe/initial_conditions.py:SedovBlast"]}
{"id": "C57", "title": "First-order passive scalars obey a maximum principle", "statement": "In one dimension at degree 0 with llf or hllc and a CFL number at most 1/2 a passive concentration stays within its initial bounds.", "quantifier": "every flow with positive density, every concentration field, every step count", "why_tests_cant": "Bounds over all flows.", "anchors": ["fvhoe/riemann_solvers.py:llf", "fvhoe/riemann_solvers.py:hllc", "fvhoe/hydro.py:hydro_dt"]}
{"id": "C58", "title": "The solver accepts every documented configuration", "statement": "Constructing EulerSolver with documented arguments succeeds: the default arguments (all directions inactive), every documented riemann_solver name and every documented boundary type.", "quantifier": "every documented option value", "why_tests_cant": "The option space is finite but the claim is about each branch, incl. those no test enters.", "anchors": ["fvhoe/solver.py:EulerSolver.__init__", "fvhoe/boundary_conditions.py:BoundaryCondition.apply", "fvhoe/fv.py:fv_uniform_meshgen"]}
{"id": "C59", "title": "First-order hllc steps keep density and pressure positive", "statement": "At degree 0 with the hllc solver and the euler integrator, if all densities and pressures are positive and CFL times the number of active directions is at most 1/4, every right-hand side succeeds and every later density and pressure is positive, for any number of steps.", "quantifier": "every positive state array, mesh, gamma>1, set of active directions, plain boundary type, CFL up to the bound, number of steps", "why_tests_cant": "Positivity must hold for all states including near-vacuum and strongly colliding ones.", "anchors": ["fvhoe/riemann_solvers.py:hllc", "fvhoe/hydro.py:hydro_dt", "fvhoe/ode.py:ODE.euler"]}
{"id": "C60", "title": "Initial data are assembled row by row", "statement": "The function returned by build_ic puts the core initial condition into rows 0-4 and the i-th passive scalar's function into row 5+i, for any number of passive scalars; build_ic raises ValueError when the function of some passive scalar is missing.", "quantifier": "every list of distinct passive names none of which is the reserved word passive_scalars, every dictionary of functions, every mesh", "why_tests_cant": "Any number of scalars and any order of dictionary keys; the row is found through a name table that also holds the built-in names.", "anchors": ["fvhoe/initial_conditions.py:InitialCondition.build_ic", "fvhoe/hydro.py:HydroState"]}
{"id": "C61", "title": "Reported times fit into each other", "statement": "After any completed run on a monotone clock, TOTAL is at least the time of the high-order fluxes plus that of the fallback scheme; each hydrofluxes time is at least the sum of its interpolation, Riemann solver and reconstruction times; the fallback scheme time is at least detection plus fallback fluxes.", "quantifier": "every monotone clock, option combination, method, number of steps, state", "why_tests_cant": "All clocks and all paths through the step, including the ones where only some stages run.", "anchors": ["fvhoe/timer.py:Timer", "fvhoe/solver.py:EulerSolver.hydrofluxes", "fvhoe/solver.py:EulerSolver.revise_fluxes", "fvhoe/ode.py:ODE.integrate"]}
{"id": "C62", "title": "The constructed solver is the configured one", "statement": "A constructed EulerSolver has the given cells, degrees, gas, time-step options and Riemann solver, the spacing (x1-x0)/n, periodic sides when no boundary condition is given and otherwise each side's given type and value with the slab meshes of the domain; sides of type ic receive the initial condition in conserved variables, and the initial array is made from the core initial condition (rows 0-4) and the passive functions in dictionary order.", "quantifier": "every accepted argument combination, any number of passive scalars, every initial-condition function", "why_tests_cant": "All combinations of options, boundary tuples and passive dictionaries.", "anchors": ["fvhoe/solver.py:EulerSolver.__init__", "fvhoe/solver.py:EulerSolver._init_boundary_conditions", "fvhoe/boundary_conditions.py:BoundaryCondition.__post_init__"]}
{"id": "C63", "title": "Passive motion of a polynomial density is differenced exactly", "statement": "With limiting off, let the cell averages around a cell be those of a gas moving with one constant velocity v at one constant pressure whose density is a polynomial (sum of products of one-variable polynomials) of degree at most p in each active direction. Then the right-hand side in that cell equals minus the exact cell average of v . grad(rho) times (1, v, |v|^2/2 and the constant passive values), with no truncation error, for every Riemann solver.", "quantifier": "every polynomial density of the admissible degree, velocity, pressure, degree p, dimension, gamma, cell size, Riemann solver choice (with its nonvanishing side conditions), and every cell whose stencil lies inside the domain", "why_tests_cant": "Exactness for all polynomials and velocities; a test observes one convergence rate on one profile.", "anchors": ["fvhoe/solver.py:EulerSolver.hydrofluxes", "fvhoe/solver.py:EulerSolver.euler_equation", "fvhoe/fv.py:conservative_interpolation", "fvhoe/fv.py:transverse_reconstruction"]}
{"id": "C64", "title": "Runs do not depend on the units; passive scalars superpose", "statement": "Multiply densities by a > 0, velocities by b > 0 and lengths by l > 0, move the origin, convert csq_floor by b^2, fixed_dt, final time and output times by l/b and prescribed boundary values accordingly, and replace the passive scalars by fixed linear combinations of them. Then the run of the converted problem is the run of the original one converted: same number of steps, same exceptions, times multiplied by l/b, and converted states at all stored times, with every integrator and Riemann solver. With limiting this holds when no absolute tolerance is in use (no smooth-extremum relaxation, no minmod, scalars not mixed by moncen); it fails for the smooth-extremum tolerance and the minmod guard. In particular (a = b = l = 1) linear combinations of passive scalars are transported as linear combinations.", "quantifier": "all positive factors, all linear maps of the passives, all states, meshes, degrees, boundary conditions and integration arguments", "why_tests_cant": "All unit systems and states; a wrong power in one branch of a wave-speed formula shows only for data selecting that branch.", "anchors": ["fvhoe/solver.py:EulerSolver.run", "fvhoe/hydro.py:hydro_dt", "fvhoe/riemann_solvers.py:hllc", "fvhoe/slope_limiting.py:detect_troubled_cells", "fvhoe/smooth_extrema_detection.py:compute_1d_smooth_extrema_detector"]}
{"id": "C65", "title": "The built-in initial conditions prescribe a physical gas at every point, and solvers built from them start physical", "statement": "Every built-in initial condition (Sinus, Square, SlottedDisk, Shock1D, DoubleShock1D, ShuOsher1D, KelvinHelmholtz2D, DoubleMachReflection2D, ShockTube, AthenaBlast), called with arguments it accepts, fills all five rows at every mesh index with the density, velocity and pressure it describes at that point, leaving no uninitialised memory; it accepts exactly the documented arguments and otherwise raises an exception (ValueError, but KeyError for other substrings of 'xyz' and for the one-dimensional problems, NameError for an unknown mode). The state depends only on the coordinates along the named directions, one-dimensional problems move along their line only, the sine wave has period one and stays between the densities given. For positive densities and pressures in the arguments the state is physical everywhere; hence the initial cell averages of a solver built from it have positive density and pressure and passive mass fractions within the bounds of their initial condition, at every degree, and a degree-zero llf solver on a periodic domain keeps this through every run.", "quantifier": "all arguments, mesh arrays, prior memory contents, degrees, quadrature rules exact as promised, final times, output times and CFL numbers up to one over the number of directions", "why_tests_cant": "Continuously many arguments and points; stale memory shows only when a row is left unwritten, and positivity of averages and runs is a statement about all cells and steps.", "anchors": ["fvhoe/initial_conditions.py:Sinus", "fvhoe/initial_conditions.py:Shock1D", "fvhoe/initial_conditions.py:ShockTube", "fvhoe/initial_conditions.py:KelvinHelmholtz2D", "fvhoe/fv.py:fv_average", "fvhoe/solver.py:EulerSolver._init_initial_conditions"]}
{"id": "C66", "title": "A reflective wall is a plane of symmetry: method of images", "statement": "A run on a domain with reflective walls at both ends of an axis equals, on its cells, the run on the doubled periodic domain whose second half holds the mirror image of the data (normal momentum reversed): same number of steps, same times and step sizes, same exceptions, and at every stored time the doubled state is the state followed by its mirror image. Limiting off, any degree up to 8, any boundary conditions without prescribed values on the other axes, any integrator. With hllc the statement is for runs whose values at the faces along the axis stay physical.", "quantifier": "all data, mesh sizes, degrees, numbers of directions, step counts, output times, final times and memory contents", "why_tests_cant": "A finite set of data cannot exclude a ghost index that is off by one at one stencil width or a component negated in one orientation only.", "anchors": ["fvhoe/boundary_conditions.py:BoundaryCondition.apply", "fvhoe/boundary_conditions.py:_set_symmetric_bc", "fvhoe/solver.py:EulerSolver.hydrofluxes", "fvhoe/solver.py:EulerSolver.euler_equation"]}
{"id": "C67", "title": "Nothing passes through a reflective wall; closed domains keep their contents", "statement": "At every face of a reflective side the flux computed by the solver has zero density, energy, transverse momentum and passive components, whatever the other sides are (llf; hllc when the values at those faces are physical). Hence in a domain whose axes are each periodic or between two walls, the totals of mass, energy, passive mass and momentum along axes without walls are exactly what they were at the start, at the end of every run, for every integrator, degree, step size and output schedule. With all active axes between walls this holds with a-posteriori limiting too, for all limiter options and whichever cells are flagged.", "quantifier": "all states, runs, meshes, degrees, integrators, limiter options with a positive guard, memory contents", "why_tests_cant": "Exact cancellation at every wall face for all states cannot be sampled; a slope limiter that is not symmetric under reflection leaks only for particular neighbours.", "anchors": ["fvhoe/boundary_conditions.py:BoundaryCondition.apply", "fvhoe/boundary_conditions.py:_set_symmetric_bc", "fvhoe/riemann_solvers.py:llf", "fvhoe/riemann_solvers.py:hllc", "fvhoe/slope_limiting.py:minmod", "fvhoe/slope_limiting.py:moncen", "fvhoe/solver.py:EulerSolver.revise_fluxes"]}
{"id": "C68", "title": "The reference solver conserves, limits, keeps flat data and stops where it should", "statement": "Of the reference solver of romain_solver.py: (a) in a cell next to which the smooth-extremum marker is below one both interpolated face values lie between the smallest and the largest average of the cell and its neighbours; (b) with periodic ends and at least four cells, every returned state has the mass, momentum and energy totals of the first; (c) data equal in all cells stay as they are; (d) all returned states but the last are before the end time and the last is not, unless the allowed steps ran out; (e) a call returns exactly for the solvers llf and hllc, orders 1-5 in space and 1-4 in time (and three cells for the Sedov start); (f) on linear problems the integrator of order s is the Taylor polynomial of degree s.", "quantifier": "all data, cell counts, orders, solvers, step sizes, end times", "why_tests_cant": "Totals are kept exactly only if every ghost column and marker at the seam agree; tests compare to a tolerance on a few data.", "anchors": ["fvhoe/romain_solver.py:trace", "fvhoe/romain_solver.py:set_bc", "fvhoe/romain_solver.py:smooth_extrema", "fvhoe/romain_solver.py:cmp_flux", "fvhoe/romain_solver.py:weno"]}
{"id": "C69", "title": "At first order the solver and the reference solver compute the same run", "statement": "For a one-dimensional problem on the unit interval at degree 0 without limiting, with llf or hllc and both ends periodic or both free, the solver and the reference solver (first order in space and time) compute the same derivatives in all cells and the same time step; hence runs to an end time without exact hits visit the same times, take the same number of steps and end with the same density, momentum and energy in every cell, as do runs of a given number of steps. Hypothesis: the squared sound speed stays above the solver's floor, which the reference lacks.", "quantifier": "all data at rest across the axis, cell counts, CFL numbers, end times, output options, memory contents", "why_tests_cant": "The two programs index ghosts, faces and maxima differently; equality on samples does not exclude a difference at another cell count or for another wave pattern.", "anchors": ["fvhoe/solver.py:EulerSolver.euler_equation", "fvhoe/solver.py:EulerSolver.hydrofluxes", "fvhoe/hydro.py:hydro_dt", "fvhoe/ode.py:ODE.euler", "fvhoe/romain_solver.py:weno", "fvhoe/romain_solver.py:cmp_flux"]}
{"id": "C70", "title": "Order of accuracy for smooth densities in a uniform flow", "statement": "With degree at least q in every active direction, hllc or upwind, no limiting, and data that are the exact cell averages of a smooth density in a flow of uniform velocity v, pressure and passive values, the derivative the solver returns in a cell is a rate of change of the density alone (momentum, energy and scalars follow it), and that rate differs from the exact rate of change of the cell average of the transported density by at most 11 (sum |v_d|) M r^(q+1)/(q+1)!, where r is the half width of the stencil (proportional to the spacing) and M bounds the (q+1)-st derivative of the partial derivatives of the density on it. In a periodic box this holds in every cell.", "quantifier": "all smooth densities of period the box, degrees, dimensions, spacings, velocities, pressures, memory contents", "why_tests_cant": "A convergence test measures an order for one profile and a few grids; an error in one weight or a missing transverse correction can hide behind the error of the time integrator.", "anchors": ["fvhoe/fv.py:fv_average", "fvhoe/fv.py:interpolate_cell_centers", "fvhoe/fv.py:transverse_reconstruction", "fvhoe/stencils.py:get_conservative_interpolation_stencil_weights", "fvhoe/riemann_solvers.py:hllc", "fvhoe/solver.py:EulerSolver.euler_equation"]}
{"id": "C71", "title": "Whole first-order runs converge to the exact solution", "statement": "At degree zero with hllc or upwind in a periodic box, CFL number at most one, start from the cell averages of a gas of uniform velocity v, pressure and concentrations whose density is positive with second derivatives at most M. Then no run with explicit Euler raises, and at its end and at each snapshot velocity, pressure and concentrations are unchanged in every cell and the density of every cell is positive and differs from the cell average of the exact solution rho(y - t v) by at most M (sum |v_d|) H t, where H is the largest active spacing. For 2 + sin x on N cells of [0, 2 pi] the error at time T is at most 2 pi |v| T / N.", "quantifier": "all densities, velocities, pressures, grids in one to three dimensions, final times, output times, step counts, memory contents", "why_tests_cant": "Convergence is a statement about all grids at once; a test sees the error on a few grids for one profile.", "anchors": ["fvhoe/solver.py:EulerSolver.f", "fvhoe/ode.py:ODE.euler", "fvhoe/ode.py:ODE.integrate", "fvhoe/hydro.py:hydro_dt", "fvhoe/riemann_solvers.py:hllc", "fvhoe/riemann_solvers.py:advection_upwind"]}
{"id": "C72", "title": "Slice plots show the right cells at the right positions", "statement": "For a solver with non-empty snapshots and a field that is one of the named rows or the speed: with exactly one coordinate omitted, plot_1d_slice plots, against the cell centres of the free axis, the values of that field in the snapshot nearest to t (the last one without t) and in the cells nearest to the two given coordinates. With exactly one coordinate given, plot_2d_slice shows an image with one column per cell along the first free axis and one row per cell along the second, largest coordinate on top, whose entry is the field in that cell; the contour positions are the centres of the same cells, the extent runs between the first and the last centres, and on a uniform mesh the middle of every pixel lies inside the cell whose value it shows.", "quantifier": "all snapshot lists, grids, field names including passive scalars, times, coordinates, choices of the free axes", "why_tests_cant": "An exchanged or flipped axis is invisible on symmetric data and the result is a picture; a test would look at a few points of a few grids.", "anchors": ["fvhoe/visualization.py:plot_1d_slice", "fvhoe/visualization.py:plot_2d_slice", "fvhoe/visualization.py:get_velocity_magnitude"]}
{"id": "C73", "title": "Radial averages are averages over shells", "statement": "For a solver with non-empty snapshots, a centre and radii of floating-point type, sample_circular_average returns for every pair of consecutive radii the mean of the field and the mean distance over exactly the cells with centre distance above the smaller and not above the larger radius, and nan where there is none. Each mean lies between the bounds of the field on the shell, the mean distance lies in the shell, and for increasing radii each cell between the first and the last radius is in exactly one shell, so the means weighted by the cell counts add up to the sum over all of them.", "quantifier": "all snapshot lists, grids, fields, centres, radii", "why_tests_cant": "Double counting or dropping cells on bin edges shows only for particular radii.", "anchors": ["fvhoe/visualization.py:sample_circular_average"]}
{"id": "C74", "title": "Documented requests to the plotting functions are honoured", "statement": "Every request that the docstrings describe works: a list of snapshots in place of a solver; param \"trouble\" shows one flag per cell; overlay_trouble \"all\", \"NAD\", \"PAD\" or True blanks exactly the marked cells; conserved names show the conserved variables; plot_fields shows the fields it names; radii may be any array.", "quantifier": "all snapshot lists, parameters, coordinates, modes, tolerances", "why_tests_cant": "The combinations of options are many, and wrong axes can go unnoticed when the sizes happen to agree.", "anchors": ["fvhoe/visualization.py:plot_1d_slice", "fvhoe/visualization.py:plot_2d_slice", "fvhoe/visualization.py:plotting_trouble", "fvhoe/visualization.py:sample_circular_average", "fvhoe/solver.py:EulerSolver.plot_fields"]}
{"id": "C75", "title": "A direction along which nothing varies can be left out", "statement": "Without limiting, if the data do not vary along an active direction that has no walls, the right-hand side gives in every cell the same rate of change as the solver without this direction, a fixed time step is the same and the automatic one is not larger; with a prescribed step size whole runs of both solvers agree at every cell, for all integrators.", "quantifier": "all set-ups, degrees up to 8 in every direction, Riemann solvers, boundary conditions without walls across the direction, data constant along it, run arguments", "why_tests_cant": "Tests compare one- and two-dimensional runs for one profile and up to a tolerance; a stencil whose weights do not add up to one passes if the error is small.", "anchors": ["fvhoe/solver.py:EulerSolver.hydrofluxes", "fvhoe/solver.py:EulerSolver.hydrodynamics", "fvhoe/solver.py:EulerSolver.interpolate_primitives_from_conservatives", "fvhoe/solver.py:EulerSolver.euler_equation", "fvhoe/fv.py:stencil_sweep"]}
{"id": "C76", "title": "A drift along a uniform direction changes nothing else", "statement": "Without limiting, adding the same velocity component along a direction in which the data do not vary leaves the evolution of density, pressure and the other velocities as it was and only adds the drift: the rates are those of the drifting conserved variables, and whole runs with prescribed step size stay related by the drift.", "quantifier": "all set-ups, degrees, Riemann solvers llf, hllc and upwind, drifts, data constant along the drift direction, run arguments", "why_tests_cant": "Transverse momentum and its kinetic energy enter every Riemann flux; tests with zero transverse velocity never see an error in them.", "anchors": ["fvhoe/riemann_solvers.py:llf", "fvhoe/riemann_solvers.py:hllc", "fvhoe/riemann_solvers.py:advection_upwind", "fvhoe/hydro.py:compute_primitives", "fvhoe/hydro.py:compute_conservatives", "fvhoe/solver.py:EulerSolver.hydrodynamics"]}
{"id": "C77", "title": "Stationary contacts and shear layers are kept exactly", "statement": "At first order with hllc or upwind fluxes, gas of uniform pressure whose density and velocity along the layers vary arbitrarily from layer to layer, and which does not move across them, has rate of change exactly zero, and every run returns the initial state in all cells. With llf the density at a strict density maximum of gas at rest strictly decreases.", "quantifier": "all grids, layer profiles, pressures, heat capacity ratios, integrators, run arguments", "why_tests_cant": "Smearing of a contact is a small rate that a tolerance hides; exact preservation is a statement over all jumps.", "anchors": ["fvhoe/riemann_solvers.py:hllc", "fvhoe/riemann_solvers.py:llf", "fvhoe/riemann_solvers.py:advection_upwind", "fvhoe/solver.py:EulerSolver.hydrodynamics"]}
{"id": "C78", "title": "Limiting is local", "statement": "When the limited right-hand side returns, its step is that of the solver without limiting; a cell with no troubled cell near it (itself and its face neighbours for simple spreading, at most three cells away in every direction for convex blending) has exactly the rate of change of the solver without limiting, and a troubled cell has exactly the rate of change of the solver that falls back everywhere. For degrees up to one, without the smooth-extremum test, the primitive variables of such untouched cells after an Euler step lie in the tolerated range of the block around them.", "quantifier": "all set-ups, degrees up to 8, detector options, both spreading modes, fallback slopes, states, contents of uninitialised memory", "why_tests_cant": "A face index shifted by one or a blend factor applied to the wrong face changes a few cells near shocks; no test compares cell by cell with the two pure schemes.", "anchors": ["fvhoe/solver.py:EulerSolver.revise_fluxes", "fvhoe/solver.py:EulerSolver.hydrodynamics", "fvhoe/slope_limiting.py:detect_troubled_cells", "fvhoe/slope_limiting.py:broadcast_to_troubled_interfaces"]}
{"id": "C79", "title": "The fallback scheme creates no new density extrema in a uniform flow", "statement": "A run of euler, ssprk2 or ssprk3 in which every cell falls back (forced trouble, simple spreading, minmod or moncen slopes), started from uniform velocity, pressure and concentrations and densities between lo > 0 and up, without walls and with hllc or upwind fluxes, keeps velocity, pressure and concentrations and all densities between lo and up, if in one step the flow crosses at most 2/3 (minmod) or 1/2 (moncen) of a cell, which at degrees up to one the automatic step ensures for CFL numbers up to 2/3 and 1/2. With the default CFL number 0.8 it is false: one step with minmod can go below the smallest density.", "quantifier": "all set-ups, dimensions, degrees up to 8, densities, velocities, pressures, integrators with the strong-stability property, run arguments", "why_tests_cant": "The bound fails only for particular profiles and CFL numbers slightly above the limit; tests with the default setting and smooth profiles see neither side.", "anchors": ["fvhoe/slope_limiting.py:MUSCL_interpolations", "fvhoe/slope_limiting.py:minmod", "fvhoe/slope_limiting.py:moncen", "fvhoe/solver.py:EulerSolver.revise_fluxes", "fvhoe/solver.py:EulerSolver.hydrodynamics", "fvhoe/riemann_solvers.py:hllc"]}
{"id": "C80", "title": "An accepted step keeps densities in the tolerated range and positive", "statement": "With a-posteriori limiting switched on, after one Euler step from densities between lo > 0 and up in a uniform flow, every cell has a density within the tolerated range: a troubled cell ends between lo and up, an untroubled cell within the tolerance of the detector.", "quantifier": "all set-ups, degrees up to 1, densities, velocities, detector options without smooth-extremum exemption", "why_tests_cant": "Cells next to a troubled cell are updated with one fallback and one high-order flux and are not checked again; a bad case needs a particular staircase beside a flagged cell.", "anchors": ["fvhoe/solver.py:EulerSolver.revise_fluxes", "fvhoe/solver.py:EulerSolver.hydrodynamics", "fvhoe/slope_limiting.py:detect_troubled_cells", "fvhoe/slope_limiting.py:broadcast_to_troubled_interfaces"]}
{"id": "C81", "title": "Runs of a workable set-up return", "statement": "A run with a prescribed positive step ends without an exception for every final time, in exact mode at exactly that time with all snapshots taken at the requested times; a run of n steps makes exactly n steps; with the automatic step a run of the fallback scheme in a uniform flow ends as well. A prescribed step of zero never reaches the final time.", "quantifier": "all set-ups with enough cells and degrees up to 8, states, contents of uninitialised memory, integrators, run arguments", "why_tests_cant": "Tests run a few set-ups to the end; that no set-up, state or output list raises or loops forever is a statement about all of them.", "anchors": ["fvhoe/ode.py:ODE.integrate", "fvhoe/ode.py:ODE.take_step", "fvhoe/solver.py:EulerSolver.hydrodynamics", "fvhoe/solver.py:EulerSolver.revise_fluxes"]}
{"id": "C82", "title": "A completed run can be saved with its settings", "statement": "A run of any solver that saves into a fresh directory, or with overwrite, raises nothing while saving: the snapshots can be read back, attrs.json holds every attribute name once and all settings with the values given, and timing.txt holds the timing report.", "quantifier": "all constructor arguments of the documented types, all states of the solver at the end of a run, all timings", "why_tests_cant": "The attributes of the object depend on the combination of arguments; one value that json cannot write, in one combination, loses the report at the very end of a long run.", "anchors": ["fvhoe/solver.py:EulerSolver.write_snapshots", "fvhoe/solver.py:EulerSolver._init_initial_conditions", "fvhoe/boundary_conditions.py:BoundaryCondition.to_dict", "fvhoe/array_management.py:ArrayManager.to_dict", "fvhoe/timer.py:Timer.to_dict", "fvhoe/ode.py:ODE.integrate"]}
{"id": "C83", "title": "The timing report is an aligned table of the times measured", "statement": "The report of a timer has a header, a rule and one line per category in the order of their creation, each starting with the name and ending with the cumulative time. All lines after the header are equally long, and the header is as long as they are exactly if there is no category or one with a name of at least eight letters, which holds for every timer of a solver.", "quantifier": "all timers, histories of calls, number formats", "why_tests_cant": "The column widths depend on the longest name and the longest time; a sample report does not show the widths for others.", "anchors": ["fvhoe/timer.py:Timer.report", "fvhoe/timer.py:Timer.add_cat"]}
{"id": "C84", "title": "A run can be split at an output time", "statement": "Running to T1 and then to T2 gives the same states, times, timestamps, number of steps, exceptions and snapshots as one run to T2 with T1 among its output times, except that the snapshot at T1 is stored twice; if the first part raises, the single run raises at the same state; if the single run ends, so do both parts. Taking n1 and then n2 steps is taking n1 + n2 steps.", "quantifier": "all right-hand sides with positive steps, all integrators, states, runs in exact mode, output times up to T1 for the first and beyond it for the second call, both settings of log_every_step", "why_tests_cant": "A test compares one pair of runs; that no bookkeeping of output times, counters or logs differs is a statement about all lists of output times.", "anchors": ["fvhoe/ode.py:ODE.integrate", "fvhoe/ode.py:ODE.take_step", "fvhoe/ode.py:ODE.snapshot"]}
{"id": "C85", "title": "Snapshots show the state", "statement": "Taking a snapshot on a periodic domain succeeds for every state and gives arrays of the shape of the mesh; its density row sums to the total of the density averages of the state, as centroid values and as averages, so all snapshots of a run show the same total mass. At first order the snapshot is the cell by cell conversion of the state. Away from the boundary polynomial fields of the degrees of the scheme are shown exactly.", "quantifier": "all set-ups of degrees up to 8, states, integrators, run arguments, contents of uninitialised memory, both snapshot formats", "why_tests_cant": "Snapshots are interpolated twice from padded copies of the state; that no weight, ghost cell or offset changes the total is a statement about all states.", "anchors": ["fvhoe/solver.py:EulerSolver.snapshot", "fvhoe/solver.py:EulerSolver.interpolate_primitives_from_conservatives", "fvhoe/ode.py:ODE.snapshot"]}
{"id": "C86", "title": "Limited runs keep the symmetries", "statement": "With a-posteriori limiting, exchanging the axes of a problem (mesh, degrees, boundary conditions, variable names in the limiter options) exchanges the axes of the whole run: same steps, times, exceptions and troubled cells, all stored states exchanged. Without the smooth-extremum relaxation the same holds for reflecting an axis. So data that are symmetric on a symmetric mesh stay exactly symmetric.", "quantifier": "all meshes, degrees up to 8, states, permutations of the axes, integrators, run arguments; Riemann solvers, slope limiters, detector and spreading options; reflection: llf at all states, hllc at physical face states", "why_tests_cant": "A test compares one pair of runs up to rounding; detection, spreading and fallback loop over axes separately, and one axis treated differently is only seen when the troubled cells happen to show it.", "anchors": ["fvhoe/slope_limiting.py:detect_troubled_cells", "fvhoe/slope_limiting.py:broadcast_to_troubled_interfaces", "fvhoe/slope_limiting.py:MUSCL_interpolations", "fvhoe/solver.py:EulerSolver.revise_fluxes"]}
{"id": "C87", "title": "Linear stability at every degree", "statement": "In a periodic box, a gas of uniform velocity, pressure and concentrations whose density deviates little from a constant keeps velocity, pressure and concentrations exactly, and the sum over the cells of the squared density deviations never grows, at every reconstruction degree up to 8 in one, two or three dimensions, with ssprk3 or rk4 and a CFL number up to 0.8 (the default), for runs of any length; no step raises.", "quantifier": "all meshes and spacings, degrees up to 8 per direction, velocities, pressures, densities with 11000 times the root of the sum of squared deviations below the reference density, run arguments, numbers of steps; hllc or upwind solver", "why_tests_cant": "An unstable mode grows from rounding errors, slowly near the stability limit; tests of a few hundred steps with one velocity, mesh and degree do not excite the worst mode.", "anchors": ["fvhoe/stencils.py:get_conservative_interpolation_stencil_weights", "fvhoe/stencils.py:get_transverse_reconstruction_stencil_weights", "fvhoe/ode.py:ODE.ssprk3", "fvhoe/ode.py:ODE.rk4", "fvhoe/solver.py:EulerSolver.hydrodynamics"]}
{"id": "C88", "title": "High-order convergence of whole runs", "statement": "In a periodic box, a run with ssprk3 (order s=3) or rk4 (order s=4) at degrees at least q that starts from the cell averages of a smooth positive density carried by a uniform flow stays, on a fine enough grid, within E*t in root mean square of the cell averages of the exact solution, where E is of the order h^min(q+1,s) with a constant that depends only on the derivatives of the density and the velocity; the run does not raise, velocity, pressure and concentrations stay uniform and the density positive.", "quantifier": "all meshes and spacings in one to three dimensions, degrees up to 8, smooth periodic densities, velocities, pressures, final times, requested output times; CFL number up to 0.8", "why_tests_cant": "A convergence test measures the order on a handful of grids, velocities and profiles at one final time; it cannot bound the error for all of them nor show that the error grows at most linearly in time.", "anchors": ["fvhoe/stencils.py:get_conservative_interpolation_stencil_weights", "fvhoe/stencils.py:get_transverse_reconstruction_stencil_weights", "fvhoe/ode.py:ODE.ssprk3", "fvhoe/ode.py:ODE.rk4", "fvhoe/ode.py:ODE.integrate", "fvhoe/solver.py:EulerSolver.hydrodynamics"]}
{"id": "C89", "title": "Total variation of the density does not grow", "statement": "In a uniform flow, a run of euler, ssprk2 or ssprk3 in which every cell falls back does not increase the total variation of the density along a tube with open or joined ends, when no step crosses more than 2/3 (minmod) or 1/2 (moncen) of a cell; at degree zero without limiting, in a periodic box of any dimension and with a CFL number up to 1, the sum of the jumps of the density between cells a given displacement apart does not grow, for any displacement. With minmod and the default CFL number 0.8 the variation can grow.", "quantifier": "all meshes, spacings, densities bounded away from zero, velocities, pressures, concentrations, requested times and numbers of steps; for the limited scheme all degrees up to 8 of the candidate when the step is prescribed", "why_tests_cant": "Tests follow a few profiles for a few steps; an increase of the variation needs a particular arrangement of neighbouring slopes and may appear after many steps only.", "anchors": ["fvhoe/slope_limiting.py:minmod", "fvhoe/slope_limiting.py:moncen", "fvhoe/slope_limiting.py:MUSCL_interpolations", "fvhoe/ode.py:ODE.ssprk2", "fvhoe/ode.py:ODE.ssprk3", "fvhoe/riemann_solvers.py:hllc", "fvhoe/solver.py:EulerSolver.hydrodynamics"]}
{"id": "C90", "title": "Commit details kept with a run", "statement": "The details kept with a run name the commit, its author, its date and the branch that is checked out (HEAD when detached), whatever characters the names contain and whatever other refs point at the commit; when git reports a failure its message is kept instead; gathering the details never prevents a solver from being constructed.", "quantifier": "all hashes, author names, dates, branch names and lists of further refs; all outcomes of running git", "why_tests_cant": "Tests run in one checkout, with one author, one branch and git installed.", "anchors": ["fvhoe/ode.py:ODE.get_commit_details"]}
{"id": "C91", "title": "Output times in floating-point arithmetic", "statement": "With times kept as floating-point numbers, every requested output time is met exactly and recorded exactly, time never runs backwards, the last snapshot is at the final time, and the time loop ends whenever the steps are positive.", "quantifier": "all binary formats with rounding to nearest even, all output times, all positive step sizes that are numbers of the format, all states and steppers", "why_tests_cant": "Tests use a few times and step sizes; whether t + (T - t) rounds to T depends on the last bits of both.", "anchors": ["fvhoe/ode.py:_hit_target", "fvhoe/ode.py:ODE.integrate", "fvhoe/ode.py:ODE.take_step"]}
{"id": "C92", "title": "The analytical Sedov solution is a solution", "statement": "For gamma > 1 other than 2 (below 7 in three dimensions) and any positive energy, density and time, the samples that sedov_rduP returns for the outer region lie on smooth positive fields that solve the Euler equations with planar, cylindrical or spherical symmetry behind a front moving as t^(2/(dim+2)), and on the front they meet the Rankine-Hugoniot conditions against the gas at rest that the last two samples hold; the energy of all samples summed over the shells between their radii is E0 at every time and for any number of samples; other arguments raise ZeroDivisionError, IndexError or ValueError as stated.", "quantifier": "all gamma, dimensions 1 to 3, energies, densities, times, numbers of points of both regions", "why_tests_cant": "A test compares with another implementation of the same formulas at sample points; that the formulas solve the equations is a statement about derivatives at every point and every gamma.", "anchors": ["examples/sedov.py:sedovana", "examples/sedov.py:sedov_rduP"]}
{"id": "C93", "title": "Order of accuracy for smooth flows of the full equations", "statement": "For a smooth flow with positive density and pressure, in which everything may vary, the right-hand side computed from the exact cell averages differs from the exact rate of change of these averages by at most a constant times the sum over the used directions of r^(q+1)/h, where r is the radius of the stencil, h the mesh size and q the smallest degree; the constant depends on the flow, the solver and the region, not on the mesh. Without flattening of the degree this holds for all three Riemann solvers, in any number of dimensions, at a cell whose stencil data are cell averages of the flow and at all cells of a periodic box at once.", "quantifier": "all smooth flows, degrees up to 8, Riemann solvers, mesh sizes, dimensions, numbers of passive scalars", "why_tests_cant": "A convergence test measures one flow on a few meshes and fits a slope; the bound holds for every flow, with one constant for all meshes.", "anchors": ["fvhoe/solver.py:EulerSolver.hydrodynamics", "fvhoe/fv.py:conservative_interpolation", "fvhoe/riemann_solvers.py:hllc"]}
{"id": "C94", "title": "Full order of accuracy for smooth flows of the full equations", "statement": "For a smooth flow with positive density and pressure, in which everything may vary, the right-hand side computed from the exact cell averages differs from the exact rate of change of these averages by at most a constant times r^(q+1), where r is the radius of the stencil and q the smallest degree: nothing is lost by dividing the difference of the fluxes by the mesh size, because the errors of the fluxes through the two faces of a cell agree to one order more. The constant depends on the flow, the solver and the region, not on the mesh. This holds without limiting for the LLF and HLLC solvers at all flows, including those in which the solver changes branch between two faces, and for the upwind solver where the velocity does not vanish.", "quantifier": "all smooth flows, degrees up to 8, LLF and HLLC (upwind where it moves), mesh sizes, dimensions, numbers of passive scalars", "why_tests_cant": "A convergence test measures one flow on a few meshes and fits a slope; whether the order survives every position of the branch changes of the solver relative to the mesh cannot be sampled.", "anchors": ["fvhoe/solver.py:EulerSolver.hydrodynamics", "fvhoe/fv.py:conservative_interpolation", "fvhoe/riemann_solvers.py:hllc", "fvhoe/riemann_solvers.py:llf"]}
{"id": "C95", "title": "Limits of refined runs are weak solutions", "statement": "Take runs of a periodic box on a sequence of grids, without limiting, whose spacings along the directions with more than one cell go to zero, with any fixed degree up to eight, Riemann solver, time stepper and CFL number. If the gas laws are only evaluated in a fixed compact set of states with positive density and pressure, and the initial states and the runs converge in the mean, then the limit is a weak solution of the conservation laws (the Euler equations with passive scalars, or passive transport for the upwind solver) up to the final time, with the limit of the initial states as initial values. So shocks and contact discontinuities found by refining the grid move with the right speeds.", "quantifier": "all sequences of grids, degrees up to 8, Riemann solvers, steppers, dimensions, numbers of passive scalars, limits in the mean, test functions", "why_tests_cant": "A test compares finitely many grids with one known solution; that every limit, including discontinuous ones nobody has computed, satisfies the equations in integral form concerns infinitely many grids and all test functions.", "anchors": ["fvhoe/solver.py:EulerSolver.hydrodynamics", "fvhoe/solver.py:EulerSolver.f", "fvhoe/ode.py:ODE.integrate", "fvhoe/riemann_solvers.py:hllc", "fvhoe/riemann_solvers.py:llf", "fvhoe/riemann_solvers.py:advection_upwind"]}
{"id": "C96", "title": "Wrapper: directory and snapshot times", "statement": "The directory EulerSolver_wrapper saves to does not depend on the order in which its keyword arguments are written. The time integrator it calls has the order given by the argument integrator (for -1: one more than the largest polynomial degree, at most 4), and other values raise ValueError. A call that computes and returns has saved exactly n_snapshots snapshots (n_snapshots at least 2), of the states at the times 0, T/(n-1), ..., T, reading the directory gives them back, and no other directory is touched.", "quantifier": "all keyword arguments, permutations of them, solvers with positive steps, final times, numbers of snapshots from 2, directories", "why_tests_cant": "There are factorially many orders of keyword arguments and no test calls the wrapper at all (the module cannot be imported as it stands).", "anchors": ["fvhoe/scripting.py:EulerSolver_wrapper", "fvhoe/ode.py:ODE.integrate"]}
{"id": "C97", "title": "Wrapper: different setups use different directories", "statement": "Two calls of EulerSolver_wrapper with different setups never share a snapshot directory, so a call without overwrite returns the result of its own setup.", "quantifier": "all pairs of setups (initial condition, boundary condition, keyword arguments, final time, integrator, number of snapshots)", "why_tests_cant": "A test would have to run pairs of setups that differ in one argument, for every argument; the silent reuse shows only in the second of two runs in the same parent directory.", "anchors": ["fvhoe/scripting.py:EulerSolver_wrapper", "fvhoe/solver.py:EulerSolver.read_snapshots"]}
{"id": "C98", "title": "Conservation in floating-point arithmetic", "statement": "With every operation rounded to a binary floating-point format of at least 10 bits, in the order of the code, a step of any of the four integrators on a periodic domain without limiting changes the total of a conserved variable over the cells by at most 2^-p (25 D R + 6 B) per cell, where D bounds the step size, B the values, and R is the sum over the active directions of the largest flux over the mesh size; a whole run changes it by at most the number of steps times that. Exact conservation does not hold.", "quantifier": "all formats from 10 bits, mesh sizes, degrees, primitive conversions, Riemann solvers, states and fluxes within the bounds, step sizes, integrators, requested times", "why_tests_cant": "A test sees the rounding errors of one run and compares them with a tolerance; it cannot show that no data lets them accumulate faster.", "anchors": ["fvhoe/solver.py:EulerSolver.euler_equation", "fvhoe/solver.py:EulerSolver.hydrofluxes", "fvhoe/fv.py:stencil_sweep", "fvhoe/ode.py:ODE.ssprk3", "fvhoe/ode.py:ODE.rk4"]}
{"id": "C99", "title": "Uniform flow and translations bit by bit", "statement": "On a periodic domain without limiting, in floating-point arithmetic: a run from a state that has the same values in all cells leaves every bit of it unchanged (with ssprk2, if the values are not odd subnormal numbers), and moving the initial state by whole cells moves every result by the same cells, bit by bit, with the same step and snapshot times.", "quantifier": "all binary formats, mesh sizes, degrees, primitive conversions, Riemann solvers, signal speeds, integrators, states, displacements, requested times", "why_tests_cant": "A test compares single runs up to a tolerance; that rounding errors cancel exactly for every value and every displacement is a statement about all floating-point numbers.", "anchors": ["fvhoe/fv.py:stencil_sweep", "fvhoe/solver.py:EulerSolver.hydrofluxes", "fvhoe/solver.py:EulerSolver.euler_equation", "fvhoe/hydro.py:hydro_dt"]}
{"id": "C100", "title": "Limits of limited runs with boundaries are weak solutions inside the domain", "statement": "Take runs of a box on a sequence of grids whose spacings along the active directions go to zero, with or without a-posteriori limiting, with any boundary conditions that can be applied, any fixed degree up to eight, Riemann solver, time stepper and CFL number. If the cell averages stay in a fixed compact set of states with positive density and pressure, and a fixed number of cells away from the sides the gas laws are only evaluated in that set, and the initial states and the runs converge in the mean, then the limit satisfies the conservation laws in integral form against all test functions that vanish near the sides of the box, with the limit of the initial states as initial values.", "quantifier": "all sequences of grids, degrees up to 8, Riemann solvers, limiter options, boundary conditions, steppers, dimensions, numbers of passive scalars, limits in the mean, test functions", "why_tests_cant": "A test compares finitely many grids with one known solution; that limiting, which switches between schemes depending on the data, never moves a shock to a wrong speed concerns all limits of infinitely many grids.", "anchors": ["fvhoe/solver.py:EulerSolver.hydrodynamics", "fvhoe/solver.py:EulerSolver.f", "fvhoe/solver.py:EulerSolver.revise_fluxes", "fvhoe/boundary_conditions.py:BoundaryCondition.apply", "fvhoe/ode.py:ODE.integrate"]}
{"id": "C101", "title": "Discontinuous densities: first-order runs converge in the mean", "statement": "Start a run at degree zero in a periodic box with the cell averages of a gas of uniform velocity, pressure and concentrations and of any bounded measurable density with a positive lower bound, with jumps or without. The run does not raise and leaves velocity, pressure and concentrations unchanged. For every time and tolerance, on all fine enough grids, the density, seen as constant in every cell, differs from the initial density displaced with the velocity by at most the tolerance in the mean over the box, at the end of the run and at every snapshot it takes until that time.", "quantifier": "all bounded measurable periodic densities with a positive lower bound, velocities, pressures, concentrations, times, tolerances, grids, CFL numbers up to one, contact-keeping Riemann solvers, dimensions, output times", "why_tests_cant": "The test suite compares smooth profiles on a few grids; a square wave is never resolved by any grid, and that the smeared jumps nevertheless arrive in the right place concerns all grids and all profiles.", "anchors": ["fvhoe/solver.py:EulerSolver.hydrofluxes", "fvhoe/solver.py:EulerSolver.euler_equation", "fvhoe/ode.py:ODE.euler", "fvhoe/ode.py:ODE.integrate"]}
{"id": "C102", "title": "Units that differ by powers of two change no bit", "statement": "Run the solver in floating-point arithmetic with rounding after every operation, in a periodic box without limiting, and run it again with the same problem expressed in units of density, velocity, length and of each passive scalar that differ by powers of two (sound speed floor, cell sizes, fixed step and requested times are converted as well). As long as no number leaves the normal range, the second run performs the same number of steps, raises the same exception if any, and its times, snapshots and final state are those of the first run multiplied by the powers of two, with no bit of any significand changed.", "quantifier": "all states, powers of two, degrees, Riemann solvers, integrators, gammas, grids, CFL numbers, output times, precisions", "why_tests_cant": "Nondimensionalisation is never tested; bit-wise agreement concerns every rounding of every operation of a run of any length, and a single dimensional constant or threshold hidden in the code would break it only for some scales.", "anchors": ["fvhoe/hydro.py:compute_primitives", "fvhoe/hydro.py:compute_conservatives", "fvhoe/hydro.py:compute_sound_speed", "fvhoe/hydro.py:compute_fluxes", "fvhoe/riemann_solvers.py:advection_upwind", "fvhoe/riemann_solvers.py:llf", "fvhoe/riemann_solvers.py:hllc", "fvhoe/solver.py:EulerSolver.hydrodynamics"]}
{"id": "C103", "title": "Mirror images bit by bit", "statement": "Run the solver in floating-point arithmetic, with rounding after every operation, in a periodic box with the llf Riemann solver and degree zero along one direction (any degrees along the others), and run it again from the mirror image of the initial values along that direction (cells in reverse order, momentum along the direction with the opposite sign). The second run takes the same steps at the same times and ends with exactly the mirror image of the final values, bit by bit; flows that are their own mirror image stay so exactly. With the hllc solver this fails in the last bit, because the velocity of the contact is summed from left to right.", "quantifier": "all states, directions, degrees along the other directions, integrators, gammas, grids, CFL numbers, output times, floating-point formats, lengths of runs", "why_tests_cant": "The tests of symmetry compare a few runs up to a tolerance; exact symmetry is a statement about every rounding in runs of any length, and a loss of symmetry in the last bit grows in unstable flows.", "anchors": ["fvhoe/riemann_solvers.py:llf", "fvhoe/riemann_solvers.py:hllc", "fvhoe/hydro.py:compute_fluxes", "fvhoe/hydro.py:compute_conservatives", "fvhoe/solver.py:EulerSolver.euler_equation", "fvhoe/fv.py:conservative_interpolation"]}
{"id": "C104", "title": "The names of x and y change no bit at degree zero", "statement": "Run the solver in floating-point arithmetic, with rounding after every operation, in a periodic box with degree zero along x and y (any degree along z), and run it again with x and y exchanged: cells, spacings, active directions, initial values and the two components of the momenta. The second run takes the same steps at the same times and ends with exactly the same values in the exchanged cells. Exchanging x and z, or a degree of two along x and y, changes last bits.", "quantifier": "all states, degrees along z, Riemann solvers, integrators, gammas, grids, CFL numbers, output times, floating-point formats, lengths of runs", "why_tests_cant": "The tests of directional symmetry compare a few runs up to a tolerance; the equality of all bits depends on the order of evaluation of every sum in the code and on runs of any length.", "anchors": ["fvhoe/solver.py:EulerSolver.hydrofluxes", "fvhoe/solver.py:EulerSolver.euler_equation", "fvhoe/solver.py:EulerSolver.interpolate_primitives_from_conservatives", "fvhoe/hydro.py:compute_primitives", "fvhoe/hydro.py:compute_conservatives", "fvhoe/riemann_solvers.py:hllc"]}
{"id": "C105", "title": "The shocks of the built-in initial conditions satisfy the jump conditions", "statement": "The line on which DoubleMachReflection2D jumps is inclined by 60 degrees; with gamma = 1.4 the states it writes on the two sides are, up to an error of the x-velocity below 3.2e-4, those of a shock of Mach number 10 that moves at right angles to the line: mass, momentum and energy fluxes through the moving front are equal. ShuOsher1D writes, along each direction, the states of a shock of Mach number 3 up to the digits given in the code. (With the digits of the code the double Mach reflection is no exact shock of any speed, and for any other gamma, which is an argument, not even approximately.)", "quantifier": "all meshes, directions, front speeds, values of gamma", "why_tests_cant": "No test looks at these initial conditions; a wrong digit still runs and only sheds spurious waves, which no reference solution in the repository would reveal.", "anchors": ["fvhoe/initial_conditions.py:DoubleMachReflection2D", "fvhoe/initial_conditions.py:ShuOsher1D"]}
{"id": "C106", "title": "The centred Sedov blast is symmetric and stays so", "statement": "With even numbers of cells along the directions of the blast, the state written by SedovBlast in mode 'center' is its own mirror image along every axis and is unchanged by every exchange of axes that keeps the numbers of cells and the directions of the blast. Limited runs from it of any degree and integrator keep the exchange symmetry with any Riemann solver and limiter, and the mirror symmetry with llf and no smooth-extremum relaxation, in the final state and in every snapshot. (With an odd number of at least three cells along a direction of the blast, the blast is not symmetric although the docstring says that it is centred.)", "quantifier": "all meshes, directions, densities, energies, degrees, integrators, numbers of steps, output times", "why_tests_cant": "A test compares one run on one mesh; the symmetry holds at every size and after every number of steps, and the odd sizes are where it fails.", "anchors": ["fvhoe/initial_conditions.py:SedovBlast", "fvhoe/solver.py:EulerSolver"]}
{"id": "C107", "title": "Steps from advection_dt", "statement": "For velocities that do not point backwards, not all zero, advection_dt is positive and the numbers of cells crossed along the three axes add up to exactly the CFL number. A run with that step times a factor, so that the product with the CFL number is at most 2/3 (minmod) or 1/2 (moncen), in which every cell falls back, keeps the densities of a uniform flow within the bounds of the start. (With velocities of either sign the step is negative or exceeds every bound on the crossing numbers.)", "quantifier": "all velocities, spacings, CFL numbers, meshes, data, SSP integrators, numbers of steps", "why_tests_cant": "The tests use the function with positive velocities only and look at errors of single runs.", "anchors": ["fvhoe/hydro.py:advection_dt", "fvhoe/solver.py:EulerSolver"]}
{"id": "C108", "title": "The CFL bound for positive densities is sharp", "statement": "For every set of active directions and every CFL number with ndim*CFL > 1 there is a gas with positive densities and pressures for which one step of the size the code chooses, at degree 0 with llf, makes a density negative. So the bound ndim*CFL <= 1 of C12 cannot be improved, and the default CFL number 0.8 does not keep densities positive in two or three dimensions, not even at first order.", "quantifier": "all sets of active directions, all CFL numbers with ndim*CFL > 1", "why_tests_cant": "Tests run smooth or standard problems, in which the bound is not reached.", "anchors": ["fvhoe/hydro.py:hydro_dt", "fvhoe/riemann_solvers.py:llf", "fvhoe/solver.py:EulerSolver"]}
{"id": "C109", "title": "Rounding does not make densities negative", "statement": "In floating-point arithmetic, every operation rounded, a first-order llf Euler step of at most the size the code chooses leaves all densities positive and no passive scalar negative if ndim*CFL <= 0.999 and no sound speed is below 16 rounding errors of the largest signal speed; the rounded time step obeys the CFL condition in every cell up to a factor 1 + 6 eps. (Without the condition on the sound speeds this is false in double precision with the default CFL number in one dimension.)", "quantifier": "all roundings with relative error eps <= 1e-5 (so single and double precision), meshes, directions, states, numbers of passive scalars, step sizes up to that of the code", "why_tests_cant": "Tests see the rounding errors of single runs; that they never outweigh a nearly empty cell is a statement about all states.", "anchors": ["fvhoe/hydro.py:hydro_dt", "fvhoe/riemann_solvers.py:llf", "fvhoe/solver.py:EulerSolver", "fvhoe/ode.py:ODE"]}
{"id": "C110", "title": "Cuts select the cells they name", "statement": "HydroState called with axis and cut=(a, b) selects the named variables on the first axis, on the given axis exactly the cells from a to b (counted from the end if negative, 0 standing for the end of the axis), with step -1 and cut=(0, 0) all cells in reverse order, and everything on the other axes; x, y and z cut axes 1, 2 and 3; axes not in the array, bounds that are no pair and unknown variables raise ValueError. get_symmetric_slices(ndim, n, axis) gives n windows, number k holding the cells k, ..., N - n + k of an axis of N cells, none if N < n. (A cut without axis, which the docstring says is ignored, raises TypeError, and a cut of axis 0 silently drops the choice of variables.)", "quantifier": "all numbers of dimensions, axes, bounds, variable names, passive scalars, sizes of arrays, numbers of slices", "why_tests_cant": "Off-by-one errors at the ends of an axis show up only for particular bounds and sizes; tests use a few.", "anchors": ["fvhoe/hydro.py:HydroState", "fvhoe/fv.py:get_symmetric_slices"]}
{"id": "C111", "title": "Symmetric initial conditions give symmetric runs", "statement": "If a pointwise initial condition does not change under an exchange of axes, a reflection or a shift by whole cells of the mesh, then neither does the array of cell averages the solver starts from, for every setting of conservative_ic and fv_ic. AthenaBlast on a domain centred at the origin stays its own mirror image for all time (llf, or hllc as long as the states at the faces are physical), with or without limiting without smooth extrema detection, and on a square it does not change when x and y are exchanged. A sine wave or square along a diagonal, with equal velocities along the axes exchanged, does not change when those are exchanged, with any Riemann solver and limiter. KelvinHelmholtz2D without limiting on a periodic domain repeats after half of the cells in x for all time and does not change under a shift by a quarter in x combined with a reflection in y. The symmetry of the quadrature points needed for reflections follows from the exactness of the rules.", "quantifier": "all numbers of cells, degrees, domains, integrators, stopping conditions, numbers of steps, snapshots, passive scalars with the same symmetry", "why_tests_cant": "A run that is symmetric up to a tolerance after a few steps says nothing about other sizes or later times, and the examples only look at pictures.", "anchors": ["fvhoe/initial_conditions.py:AthenaBlast", "fvhoe/initial_conditions.py:KelvinHelmholtz2D", "fvhoe/initial_conditions.py:Square", "fvhoe/fv.py:fv_average", "fvhoe/solver.py:EulerSolver"]}
{"id": "C112", "title": "The reference solver prefers no cell and no direction", "statement": "Of the reference solver of romain_solver.py: with periodic ends and at least four cells the run of data shifted by any number of cells is the shifted run, at the same times, for every solver, order and limiter state; the run with llf of mirrored data (cells in reverse order, velocities negated) is the mirrored run at the same times, for periodic, free and unset ends; the same holds for the derivatives with hllc when the states at the faces have positive density and pressure, and for whole runs with hllc when they have it in every evaluation. The Sedov start puts its energy into cells n // 2 and n // 2 + 1, so it is not symmetric about the middle of the domain for any n; with periodic ends it stays symmetric about the face between those two cells in every state returned.", "quantifier": "all data, numbers of cells, orders in space and time, CFL numbers, end times, numbers of steps, shifts", "why_tests_cant": "The markers and ghost columns at the seam are computed in several overlapping steps; a test with one shift or one cell count does not reach all of them.", "anchors": ["fvhoe/romain_solver.py:set_bc", "fvhoe/romain_solver.py:smooth_extrema", "fvhoe/romain_solver.py:trace", "fvhoe/romain_solver.py:llf", "fvhoe/romain_solver.py:hllc", "fvhoe/romain_solver.py:weno"]}
{"id": "C113", "title": "On fine grids the limiter stays out of smooth densities, so limited runs converge with the order of the scheme", "statement": "Take a gas of uniform velocity, pressure and concentrations in a periodic box whose smooth density is at least m, varies by at least A and has derivatives bounded by M / l^k, and the a-posteriori limiter in its default form (NAD relative to the range over the whole box, default PAD bounds or none, not forced; any SED, convex and slope settings). When the grid is fine enough in terms of m, A, M, l and the NAD tolerance, the right-hand side with limiting returns exactly what the one without limiting returns, for every state near the cell averages of the density. Hence the whole run with limiting returns, at every step, cell averages that follow the moving density with the error bound of the unlimited scheme; for the built-in sinusoidal density wave in particular.", "quantifier": "all densities, velocities, pressures, concentrations, degrees, mesh sizes meeting the fineness bound, CFL numbers, NAD tolerances, SED, convex and slope options, integrators SSPRK3 and RK4, end times", "why_tests_cant": "Convergence tests look at a handful of resolutions and cannot show that the detector reports nothing at any stage of any step on every fine enough grid, nor how fine the grid has to be for a given tolerance.", "anchors": ["fvhoe/slope_limiting.py:detect_troubled_cells", "fvhoe/solver.py:revise_fluxes", "fvhoe/solver.py:hydrodynamics", "fvhoe/ode.py:ssprk3", "fvhoe/ode.py:rk4"]}
{"id": "C114", "title": "On fine grids the limiter stays out of every continuous flow and limiting keeps the order of accuracy", "statement": "Let w be a continuous flow of positive density and pressure that repeats with the periodic box, and let every variable that the NAD test considers vary somewhere (a velocity across the grid may be constant instead). For every NAD tolerance greater than zero and every CFL number there are a spacing H and a deviation B such that on every grid with spacings at most H, for all data within B of the cell averages of the flow, the right-hand side with the a-posteriori limiter in its default form (NAD relative to the range over the whole box, default PAD bounds or none, not forced; any SED, convex and slope settings) returns exactly what the one without limiting returns. Hence for smooth flows the limited right-hand side differs from the exact rate of change of the cell averages by at most a constant times r^(q+1), r the radius of the stencil and q the smallest degree.", "quantifier": "all continuous positive flows in one, two or three dimensions, all Riemann solvers, degrees up to 8, CFL numbers, NAD tolerances, considered variables, SED, convex and slope options, all fine enough grids and all data near the averages", "why_tests_cant": "A test sees finitely many resolutions of a few flows; that no cell of any fine enough grid is reported, whatever the flow, is a statement about a limit and about all flows.", "anchors": ["fvhoe/slope_limiting.py:detect_troubled_cells", "fvhoe/solver.py:revise_fluxes", "fvhoe/solver.py:hydrofluxes", "fvhoe/solver.py:hydrodynamics", "fvhoe/riemann_solvers.py:hllc"]}
{"id": "C115", "title": "The final state depends continuously on the initial data", "statement": "Without limiting, with llf or hllc, for degrees up to eight, every integrator and free, outflow, reflective or periodic boundaries: if a run to the time T with exact target times meets only positive densities (at the cell centres and of the primitive averages) and positive densities and pressures on the faces, then for every tolerance there is a distance such that every run from data within that distance also returns, stops at T, and ends within the tolerance in every cell, although the numbers of steps may differ. The same holds for clock and state after a fixed number of steps. For the explicit Euler method at degree zero with llf and a CFL number times the number of directions of at most one, or hllc and at most a quarter, every start with positive densities and pressures qualifies. advection_upwind does not have the property: it looks at the left velocity only, so where the left gas is at rest and the right gas moves, arbitrarily small changes switch the mass flux of the right side on and off.", "quantifier": "all setups of these kinds, initial data, target times, tolerances", "why_tests_cant": "The time step is a maximum over cells and the number of steps is an integer, so the final state could jump where a step count changes; a test compares finitely many pairs of runs and cannot exclude jumps between them.", "anchors": ["fvhoe/solver.py:hydrodynamics", "fvhoe/solver.py:hydrofluxes", "fvhoe/ode.py:integrate", "fvhoe/riemann_solvers.py:llf", "fvhoe/riemann_solvers.py:hllc", "fvhoe/riemann_solvers.py:advection_upwind"]}
{"id": "C116", "title": "The integrators have their orders of accuracy on nonlinear problems", "statement": "Let f have as many continuous derivatives as the order of the integrator (at least two) on an open set that contains a solution y of u' = f(u). One step of size h from a point of the solution misses the solution by at most C h^(order+1), with one C along the whole solution; euler has order 1, ssprk2 order 2, ssprk3 order 3, rk4 order 4. Runs of integrate with proposed steps of at most H, varying with the state and shortened to hit the target times, with or without exact, raise no exception and follow the solution up to C H^order at the end and at every snapshot. With a fixed step and exact=True the run returns at T for every list of output times. The orders are not higher: on u' = u, N steps of size h stay below exp(N h) by at least N h * h^order/(order+1)!.", "quantifier": "all normed spaces, smooth f, solutions, step-size rules bounded by H, output times", "why_tests_cant": "A convergence test measures the error on one problem for a few step sizes; a wrong coefficient that only appears in a nonlinear elementary differential, or a loss of order where steps are shortened, can remain below the tolerance.", "anchors": ["fvhoe/ode.py:euler", "fvhoe/ode.py:ssprk2", "fvhoe/ode.py:ssprk3", "fvhoe/ode.py:rk4", "fvhoe/ode.py:integrate", "fvhoe/ode.py:take_step"]}
{"id": "C117", "title": "Method of lines: unlimited runs converge to the solution of the semi-discrete equations as the step goes to zero", "statement": "Take a setup without limiting, with llf or hllc, without prescribed boundary values. From every state whose evaluation meets only positive densities and pressures the semi-discrete equations (the time derivative of every stored value is the one the right-hand side returns) have a solution for a while, and only one. As the fixed step or the CFL number kappa goes to zero, runs with any of the four integrators started on such a solution raise no exception and differ from it by at most a constant times kappa, at the end of the run and at every snapshot, with or without exact. With exact=True they return at T, with a fixed step and with the CFL rule. So the four integrators, and fixed and CFL steps, agree in the limit.", "quantifier": "all such setups in one to three dimensions, degrees up to 8, initial states, integrators, output times, step sizes below a threshold", "why_tests_cant": "Whether the numerical flux is regular enough across its case distinctions (signs of the wave speeds, the maximum in the local Lax-Friedrichs speed, the floor under the sound speed) for the limit to exist cannot be seen from finitely many runs.", "anchors": ["fvhoe/solver.py:hydrodynamics", "fvhoe/solver.py:hydrofluxes", "fvhoe/ode.py:integrate", "fvhoe/ode.py:take_step", "fvhoe/riemann_solvers.py:llf", "fvhoe/riemann_solvers.py:hllc", "fvhoe/hydro.py:hydro_dt"]}
{"id": "C118", "title": "Runs have the order of accuracy in time of their integrator wherever the fluxes are smooth along the solution", "statement": "Take a setup without limiting and a solution of the semi-discrete equations along which the numerical flux is smooth near all states met at the faces. As the fixed step or the CFL number kappa goes to zero, runs started on the solution raise no exception and differ from it by at most C kappa^order at the end and at every snapshot, where order is 1, 2, 3, 4 for euler, ssprk2, ssprk3, rk4. For hllc the condition holds in flow that is supersonic in every extended direction (and supersonic data stay supersonic for a while); for llf it holds where no normal velocity vanishes, no sound speed is at its floor and the signal speeds on the two sides of the faces differ.", "quantifier": "all such setups in one to three dimensions, degrees up to 8, solutions, integrators, output times, step sizes below a threshold", "why_tests_cant": "Time-order tests on one flow mix spatial and temporal errors and use a few step sizes; they cannot separate a lost order from the kinks of the fluxes nor cover all flows.", "anchors": ["fvhoe/solver.py:hydrodynamics", "fvhoe/solver.py:hydrofluxes", "fvhoe/ode.py:integrate", "fvhoe/ode.py:rk4", "fvhoe/ode.py:ssprk3", "fvhoe/riemann_solvers.py:llf", "fvhoe/riemann_solvers.py:hllc"]}
{"id": "C119", "title": "On a fixed grid the a-posteriori limiter switches itself off as the time step goes to zero", "statement": "At a state for which the trouble detector has slack (in every cell each tested variable lies strictly inside its tolerated range and strictly inside its physical bounds, densities at the cell centres are positive; velocities along unextended directions may instead vanish everywhere), the right-hand sides with and without limiting agree once the fixed step or the CFL number kappa is below a threshold. Hence limited runs started on a solution of the unlimited semi-discrete equations with slack raise no exception, return exactly what the unlimited runs return, and stay within C kappa of it, and within C kappa^order where the numerical flux is smooth: the limit of small steps of the limited code is the unlimited scheme. Data with slack have such a solution for a positive time, and for the global relative test with a positive tolerance all data with positive pressures and centre densities in which every tested variable varies somewhere on the grid have slack.", "quantifier": "all setups with limiting of the stated kind in one to three dimensions, degrees up to 8, detector options, states, solutions, integrators, output times, step sizes below a threshold", "why_tests_cant": "That the limiter depends on the step size and vanishes in a limit cannot be seen from runs at a few step sizes; a test with a chosen CFL number shows troubled cells or none.", "anchors": ["fvhoe/solver.py:hydrodynamics", "fvhoe/solver.py:hydrofluxes", "fvhoe/slope_limiting.py:detect_troubled_cells", "fvhoe/ode.py:integrate"]}
{"id": "C120", "title": "With limiting and the local test a cell has a finite domain of dependence; with the default global test it has none", "statement": "With a-posteriori limiting and the 'local' admissibility test, the rate of change at a cell depends only on the cells at most s + 3 + 2r + max(3r+1, 4r) away along each active axis (r = ceil(p/2), s = 3 for convex and 1 for simple spreading of the flags), distances taken around the end on periodic axes: two states that agree there and get the same time step get the same rate of change at the cell. With the default 'global' test this is false: on a periodic line of 22 cells with reach 10 a density changed 11 cells away changes the rate of change.", "quantifier": "all configurations whose ghost layers can be filled, all degrees up to 8, detector options with mode local, slope limiters, both ways of spreading, all pairs of states, cells, times, memory contents", "why_tests_cant": "Independence of far cells is a statement about all pairs of states that agree near a cell; a test compares particular pairs.", "anchors": ["fvhoe/solver.py:hydrodynamics", "fvhoe/solver.py:hydrofluxes", "fvhoe/slope_limiting.py:detect_troubled_cells", "fvhoe/slope_limiting.py:broadcast_to_troubled_interfaces"]}
{"id": "C121", "title": "Signals travel a bounded number of cells per time step", "statement": "With a prescribed time step, without limiting or with limiting and the 'local' admissibility test, two runs with the same arguments end at the same time after the same number of steps, and after at most N steps their states agree in a cell whenever the initial states agree in all cells at most N * (evaluations per step) * (reach of one evaluation) away along each axis (1, 2, 3, 4 evaluations for euler, ssprk2, ssprk3, rk4; distances around the end on periodic axes).", "quantifier": "all configurations whose ghost layers can be filled and whose limiter options raise no exception, degrees up to 8, integrators, arguments of integrate, pairs of initial states, cells, numbers of steps", "why_tests_cant": "Independence of far cells over a whole run is a statement about all pairs of initial states that agree near a cell.", "anchors": ["fvhoe/ode.py:integrate", "fvhoe/ode.py:take_step", "fvhoe/solver.py:hydrodynamics", "fvhoe/solver.py:hydrofluxes"]}
{"id": "C122", "title": "The solution of the semi-discrete equations conserves the totals and keeps the symmetries", "statement": "Without limiting, the solution of the equations the code discretises in space only (derivatives in time equal to what the right-hand side returns) keeps the total of every conserved variable on a periodic mesh, and between reflective walls the totals of mass, energy and passive mass; the solution from shifted data on a periodic mesh is the shifted solution; the solution of the problem with axes exchanged or reversed is the solution with axes exchanged or reversed, in particular mirrored data give the mirrored solution.", "quantifier": "all solutions with positive densities and pressures, all time intervals on which they exist, all times in them, llf and hllc, all shifts, permutations and reversals of the axes, degrees up to 8", "why_tests_cant": "The semi-discrete solution is a limit of runs with ever smaller steps; no run computes it.", "anchors": ["fvhoe/solver.py:hydrodynamics", "fvhoe/solver.py:hydrofluxes", "fvhoe/solver.py:euler_equation"]}
{"id": "C123", "title": "The caches do not change any result", "statement": "Any sequence of calls of a function behind functools.lru_cache returns for each call what the function itself returns (TypeError for arguments without a hash), whatever the size of the cache; a bounded cache never exceeds its size and an unbounded one never computes a result twice. For the slicer HydroState.__call__, whose cache is shared by all objects and finds them by their addresses, every call returns what the undecorated method of the object last created at that address returns, whatever objects were created, called and given up before; the price is that an object called once is never freed.", "quantifier": "all functions that do not distinguish arguments that compare equal, all cache sizes, all sequences of calls; all histories of creating, calling and dropping HydroState objects, all addresses the allocator may choose, all arguments", "why_tests_cant": "A stale entry would show only when an address is used again after a particular history of allocations, which a test cannot arrange.", "anchors": ["fvhoe/hydro.py:__call__", "fvhoe/hydro.py:__hash__", "fvhoe/fv.py:get_symmetric_slices", "fvhoe/fv.py:get_legendre_quadrature", "fvhoe/stencils.py:get_stencil_size", "fvhoe/stencils.py:get_conservative_interpolation_stencil_weights", "fvhoe/stencils.py:get_transverse_reconstruction_stencil_weights"]}
{"id": "C124", "title": "The reference solver keeps standing contacts with hllc and smears them with llf", "statement": "Of romain_solver.py: gas at rest with uniform positive pressure, with any positive densities at first order in space, with densities differing at most fourfold at every order, and in general whenever the interpolated face densities of the start are positive, stays exactly as it is in every state returned with hllc, for every order in time and periodic or free ends. With llf it does not: at first order a cell with a left neighbour of equal and a right neighbour of greater (smaller) density starts to gain (lose) mass.", "quantifier": "all numbers of cells (four or more if periodic), all densities and pressures, all CFL numbers and end times, all numbers of steps, orders in time 1 to 4 and in space 1 to 5", "why_tests_cant": "Exactness for every density profile and every number of steps cannot be tested, and rounding blurs the difference between kept and slowly smeared.", "anchors": ["fvhoe/romain_solver.py:hllc", "fvhoe/romain_solver.py:llf", "fvhoe/romain_solver.py:trace", "fvhoe/romain_solver.py:cmp_flux", "fvhoe/romain_solver.py:weno"]}
