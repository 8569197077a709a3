# Formal model of FVHOE: design

Source: `/repo` (read as text, never executed). Model and proofs: `/verif/lean/Verif/`.

* `Verif/Py.lean`       - Python exceptions as values.
* `Verif/Model/*.lean`  - executable definitions mirroring the Python functions, each with a file/line citation.
* `Verif/Spec/*.lean`   - short independent specifications (gas, lattice formula of the scheme); no use of model helpers.
* `Verif/Proofs/*.lean` - helper lemmas.
* `Verif/Props/*.lean`  - the property theorems (named `Cxx_...`), each with a concrete case meeting its hypotheses.
* `seeded/LOG.jsonl`    - wrong programs tried against the theorems, what failed, what was tightened.

## Trusted base

* Lean 4.33.0 kernel; axioms `propext`, `Classical.choice`, `Quot.sound` only.
* Reading fidelity: nothing links the Lean definitions to the Python text except the citations.
* Numbers: floating point is **not** modelled, except for the clock (C91) and, on periodic domains without limiting, the scheme (C98, C99). Arrays hold elements of an arbitrary linearly ordered field `K`
  (so the theorems hold for exact rationals and for the reals). `np.sqrt` is a parameter; theorems that need it state
  what they need (`sqrt x > 0`, `sqrt x * sqrt x = x`). There is no NaN/inf; division by zero in `K` is `0` where numpy
  gives inf/nan, and theorems where that matters carry the non-zero hypothesis or prove it.
* Decimal literals of the code (`0.5`, `1e-16`, weights `1/24`, ...) are the exact rationals.
* Arrays: `Arr` = three spatial sizes plus a total index function; only in-range indices are observable. The leading
  variable axis of the 4-D arrays is the component of a state `Var np → K` (that names reach the right rows is C48, that
  initial data reach them is C60/C62). Python slices (`None`, negative, zero bounds), broadcasting of size-1 axes and
  shape errors are modelled.
* Uninitialised memory (`np.empty`, `np.pad(mode="empty")`) is an arbitrary function given from outside, possibly another
  one at every call.
* `np.polynomial.legendre.leggauss` is an argument; C23 and C65 assume of it that `n` nodes integrate
  degree `2n-1` exactly. `sin`, `exp`, `tan`, `pi` of the initial conditions are arguments too (C65).
* Clock readings (`time.time()`) are an arbitrary sequence.
* File contents are abstract values; a crash may happen between any two file operations.
* Termination: the `while` loop has fuel; theorems speak of any run that ends, C25 shows that runs end.
* Not modelled: cupy arrays beyond the manager's bookkeeping, plotting backends, tqdm, pickle/json
  encodings; of `romain_solver.py` its prints and the clock.

## Model files and the code they mirror

| model | code |
|-------|------|
| Timer, TimerTrace | timer.py; the timer calls of solver.py 422-792, 840-847 and ode.py 94-297 |
| ODE, Run | ode.py 11-297; solver.py 955-974 |
| Stencils, FvSweep, Arr | fv.py 88-226, numpy slicing and broadcasting |
| Hydro, HydroState | hydro.py |
| Cache | functools.lru_cache at hydro.py 69-72, fv.py 88, 227, stencils.py 5, 25, 181 |
| Riemann | riemann_solvers.py |
| BC | boundary_conditions.py 18-402 |
| Mesh, Initial | fv.py 12-85, 227-277; initial_conditions.py 30-81; solver.py 220-312 |
| Construct | solver.py 42-420; boundary_conditions.py 193-225 |
| Muscl, Detect, Broadcast, Limiter | slope_limiting.py, smooth_extrema_detection.py, solver.py 653-732 |
| TroubleLog | solver.py 794-838 |
| Solver, Euler | solver.py 422-792: the right-hand side |
| Snapshots | solver.py 840-953 |
| ArrayManager | array_management.py |
| Sedov, Scenarios | initial_conditions.py 84-574 |
| Viz, Plots | visualization.py; solver.py 976-1001 |
| SedovAna | examples/sedov.py |
| Romain, RomainRun | romain_solver.py (conversions, fluxes, weights, markers; initial data, ghosts, limiter, time loop) |

## Central idea

`Spec/Scheme.lean` writes the scheme as a formula on the infinite lattice ℤ³. `Proofs/SolverFlux.lean` (`rhs_spec`) shows
that the array program (padding, slicing, sweeping, cutting) succeeds and equals that formula applied to the state
continued beyond the boundaries; `Proofs/Revised.lean`, `Limited.lean` do the same with a-posteriori limiting. Symmetry,
conservation, memory safety, locality and positivity are then shown for the formula and carried to any number of steps of
any integrator by general lemmas about the time loop (`Proofs/ODE*.lean`, `Refine.lean`).

## Properties: what is modelled and how it is proved

(The status of each is in MANIFEST.json; text in properties.jsonl.)

| id | proof |
|----|-------|
| C01 | lattice formula, telescoping over a period, linear functionals through each integrator, induction on steps |
| C02 | **false**: weights are not wrapped at the seam. `C02_defect` gives the exact defect, `C02_violated` a state; `C02_partial` where no flagged cell is near the seam |
| C03 | telescoping over arrays of any size, with or without limiting |
| C04 | weights sum to one, consistency of the Riemann solvers, fixed point of each integrator |
| C05, C07 | affine/linear subspaces invariant under every stage; stated for checked runs, i.e. runs meeting no zero density |
| C06 | projection to the active variables commutes with every stage, with and without the limiter |
| C08 | lattice formula commutes with translations (limiting off; with it C02/C37 break the seam) |
| C09 | mirror lemmas for weights and fluxes; hllc at physical face states; limiting off (C40 breaks it); advection_upwind excluded, it upwinds by the left velocity |
| C10 | permutation of axes commutes with the lattice formula; no prescribed boundary values, whose corner ghosts depend on the order x, y, z |
| C11 | `rhs_spec` and its limited version for arbitrary memory contents |
| C12, C59 | Euler step at degree 0 as convex combination of positive states (cone argument); hllc via its two star states, up to CFL·ndim ≤ 1/4 |
| C57 | mass fractions as convex combination; hllc up to CFL 1/2 on runs with positive pressures, or 1/4 without that condition |
| C13 | maximum over the index list |
| C14-C18 | field and order reasoning, branch by branch |
| C19-C20 | moment identities over the finite weight tables, lifted to polynomials by linearity |
| C21 | Python slice arithmetic for all sizes |
| C22 | tensor product of C19/C20 |
| C23 | Gauss rule as hypothesis (`IsGauss`, shown for 1 and 2 nodes), up to the initial array of the solver |
| C24, C25 | induction on the loop, positive steps |
| C26 | bookkeeping invariant; **false** after reading saved snapshots (`C26_read_breaks_snapshot_times`) |
| C27 | **false** when a requested time is in the past (`C27_violated`); partial when times lie ahead |
| C28, C29 | algebra in any module; `C29_rk4_not_ssp` |
| C30 | **false** for ssprk2 (second stage at `t`) and for time-dependent boundary values (clock of the step); partial for the others |
| C31 | order reasoning |
| C32, C34 | unfolding of the filters; force_trouble makes the plotting helper raise (`C34_forced`) |
| C33 | **false**: every pass over the PAD bounds overwrites the indicator, only the last variable counts |
| C35, C36 | case analysis on arrays of any size |
| C37 | **false**: the periodic assignments change nothing, or raise with periodic z; partial away from the seam |
| C38 | blending weights in [0,1], face by face |
| C39 | order reasoning |
| C40 | **false** where the curvature is within the tolerance (the right detector is skipped); partial elsewhere |
| C41-C43 | slab-by-slab refinement to an index map, corners included |
| C44 | **false** for `None`, a right-only periodic side and ghosts wider than the domain (witnesses); partial for the rest |
| C45 | state-machine invariants |
| C46, C61 | the program with its timer calls as a state monad; balanced brackets, same results as without timers; nested intervals on a monotone clock. An exception inside a step leaves timers running and blocks later steps (`C46_after_exception`) |
| C47 | heap with object identity; switching cupy on breaks copies (`C47_toggle_breaks_copies`) |
| C48, C60 | list lemmas; reserved names collide silently (`C48_reserved_collision`, `C60_reserved`) |
| C49 | case analysis over every crash point and history |
| C50 | induction on stages; **false** at the first step (counter starts at one) |
| C51, C52, C54 | arithmetic, list argmin, case analysis |
| C53 | lattice formula: which entries are read |
| C55 | algebra; the smooth-extremum markers differ at zero curvature (`C55_smooth_zero`) |
| C56 | counting |
| C58 | exact condition for construction to succeed, and for the first step to succeed; **false** for the default arguments, the documented name "advection_upwinding", and the double-Mach boundary |
| C62 | the constructor followed into the configuration all other theorems speak of |
| C63 | density = finite sum of products of one-variable polynomials given by antiderivatives; each stage of the flux pipeline (line average, midpoint, face average) computes the exact value of that stage, because velocity and pressure stay constant and every flux is affine in the density |
| C64 | `SchemeUnits` relates two schemes whose conserved, primitive and flux columns are images under linear maps and whose times are in a fixed ratio; every stage of the right-hand side commutes with them (`solverRHS_units`), detection without smooth-extremum relaxation commutes with positive row factors (`detect_units`), and `integrate_scaled` carries a time ratio through the integrators and the output-time logic. `C64_sed_violated`, `C64_minmod_violated`: the tolerances 1e-10 and 1e-16 are absolute, so runs using them depend on the units |
| C65 | the numpy functions are parameters; rows are written by name through the model of `HydroState`; `Scenario.state` is a separate description of each problem, compared entry by entry. Averages stay in convex cones because the weights are positive, which over the reals follows from exactness (`C65_weights`, squares of nodal polynomials); runs by C12 and C57 applied to the built configuration |
| C66 | `doubled` is the configuration with twice the cells and periodic ends; `imagePair` is the relation 'second half is the mirror image'. `rhs_spec` allows any continuation of the data outside the cells, so one is chosen (`wound`) for which the two padded fields coincide (`padded_image`); both right-hand sides are then the same lattice expression (`image_rhs`) and `integrate_rel` lifts this to runs. The time step agrees because the maxima run over cells and their images; hllc needs physical faces for its mirror symmetry (as C09) |
| C67 | `C67_wall` reads the flux arrays the solver fills: some continuation of the data, equal to them on the cells, is symmetric about the wall after the boundary conditions are applied (`wall_seen`), and a Riemann flux of mirror-image sides has only a normal-momentum component (`wall_flux`). Sums over cells telescope (`latDiv_sum`); walls contribute nothing, periodic ends cancel. With limiting, both fluxes blended at a wall face vanish because minmod and moncen commute exactly with negation and exchange (`slopeKind_mirror`); with limiting on, active periodic axes are excluded: there the flux revision may treat the two ends differently (C02) |
| C68 | `Model/RomainRun.lean` models the driver with ghost columns, markers, limiter and the four integrators. Limiter: the factor `theta` is at most the distance to the neighbouring extremum over the overshoot. Conservation: ghosts repeat the cells (`setBC_periodic`), so markers and traced values agree at both ends (`markers_seam`, `traceCols_congr`), the flux differences telescope and every integrator is linear in its slopes (`advance_inv`, `loop_inv`). With fewer than four cells the periodic ghosts copy columns not yet set, hence the hypothesis |
| C69 | `LikeReference` pairs the two set-ups. The padded array of the solver is the ghost-extended row of the reference (`LikeReference.padded`), a state with one velocity component (`along`) gives the same Riemann fluxes (C55), differences are the same linear expression, and the two maxima run over the same cells (`LikeReference.column`). Induction over the two loops. Only the pair (euler, time 1) is stated: ssprk2/ssprk3 are other two- and three-stage methods than the reference's |
| C70 | Taylor: on the stencil box of a cell the density is a polynomial of the degree plus a remainder (`taylor_remainder`, `exists_density`). The scheme is linear on a uniform flow (`contact_rhs`: hllc and upwind move a density jump with the velocity), exact on the polynomial (C63) and its linear maps have norm at most 10 (`bounded_transported`, from the absolute sums of the weights). To gain the last order the flux difference over h is written as the same linear map applied to the cell means of the difference quotient (`transported_shift`, `cellMean_next`). `C70_exact_rate` says that the number compared with is the time derivative of the exact cell average. `Resolved.resolved` keeps the face densities positive |
| C71 | `upwind_rhs`: on a uniform flow the step is `upwindStep`, and the solver's step size makes it an average (the signal speed exceeds the sum of the velocity components). An average does not enlarge the largest error (`upwindStep_contract`); applied to exact averages it errs by at most `M Σ\|v\| H τ` (`upwind_consistent`: second-order Taylor at every point, then means). Induction over the run by `integrate_outcome_fwd`, which also yields that no step raises |
| C72 | `Model/Plots`: arrays with a shape, basic indexing, `rot90`, broadcasting, up to the call of matplotlib. The lookup is C52, the rows C48; the three choices of the axes are gone through. `C72_pixels` computes where an image of the given extent puts its columns |
| C73 | `sum_box`: `np.sum` over the array is the sum over cells; the shells telescope |
| C74 | **false**, eight violations proved: `C74_list_violated` (AttributeError), `C74_trouble_line_violated` and `C74_overlay_violated` (the stored arrays have four axes and are indexed with three), `C74_overlay_true_violated`, `C74_conserved_violated`, `C74_fields_violated` (`varnames[i + j]`), `C74_line_without_coordinates_violated`, `C74_integer_violated` (`np.empty_like`). Kept: `C74_partial`, overlays with one flag per cell |
| C75 | `Scheme.without S d` has one cell and degree 0 along `d`. Every stage of the lattice pipeline maps data constant along `d` to such data, and the weights of every stencil add up to one, so sweeps along `d` do nothing (`latFlux_drop`); ghost layers along `d` repeat the data (`extAll_drop`), the difference of fluxes along `d` vanishes. Runs by `integrate_rel` with the relation `spread`. The automatic step is smaller with the extra direction, so runs are compared with a prescribed step |
| C76 | `boost` is the linear map of the conserved variables that adds the drift, `faster` the one of the primitive variables (`C76_boost` says they match). `Scheme.pair` runs both solvers side by side, so the interpolation commutes with the linear map; each Riemann solver commutes with it up to a flux along the drift direction, whose difference vanishes because nothing varies there |
| C77 | at zero normal velocity and equal pressures hllc and the upwind solver return the pressure and nothing, respectively (`riemann_still`), for every density and tangential velocity; with degree 0 the face states are the neighbouring cells, so all differences cancel. `C77_llf_smears` computes the llf rate at a maximum |
| C78 | the blend factors of `broadcast_to_troubled_interfaces` (C35, C36) are 1 on the faces of a troubled cell and 0 on the faces of a cell far from all of them (`blend_factors`), so the difference of blended fluxes is that of one of the two pure schemes. `C78_accepted` reads the detector's verdict (C32) for such a cell |
| C79 | with uniform velocity and pressure the face states of the fallback are uniform flows again (`face_flowing`), the Riemann flux is affine in the upwind density (`riemann_contact`), and by the slope bounds of C31 the difference of the two crossing densities is a multiple between 0 and `1 + steepness/2` of the difference to the upwind neighbour (`crossing_difference`). So an Euler step is an average; `run_convex` extends this to the integrators. `C79_default_cfl_violated` computes the ramp 1, 1, 2, 3 at CFL number 0.8 |
| C80 | **false** for cells beside a troubled one. `C80_partial` combines C78 (troubled and clear cells see one pure scheme) with C79 and the verdict of the detector (C32). `C80_violated`: a staircase of densities, all default limiting options, one Euler step of its own length: a cell that passed the test sits beside a troubled one, gets one fallback and one high-order flux and ends with a negative density. The revised update is never checked again |
| C81 | `rhs_returns`: the right-hand side of a workable set-up returns for every state; `integrateT_total` (Proofs/Total): a loop whose steps are bounded below reaches its final time. The automatic step is bounded below in a uniform flow by C79. A prescribed step of zero loops forever (`C81_zero_step`) |
| C82 | **false** with `fv_ic`. `Model/Attrs.lean`: `__dict__` of the solver as a list of Python values, the loop of `write_snapshots` over it, `json.dump` as a function that raises TypeError on other values, the three `to_dict` methods. `savedList_eq` evaluates the loop for all arguments; `written` follows the file-system calls (C49). `C82_dims`: the recorded active directions. With `fv_ic` the attribute `u0` is `NotImplemented`, which is neither callable nor serialisable: `C82_violated` |
| C83 | `Timer.report` line by line on lists of characters; the width of a column is the maximum over its entries, the first one without the header |
| C84 | `keyTimes_split`: the sorted output times of the single run are those of the two parts; `loop_prefix`, `loop_resumed`: the loop towards T2 passes through the state in which the loop towards T1 ends. Steps must be positive, snapshots depend on time and state only |
| C85 | `Model/SnapshotW.lean`; `snapshot_spec`: the stored array in terms of sweeps over the extended lattice; `cellSum_sweep`: sweeps whose weights add up to one keep the sum over a period; C01 for the state; C20/C21 exactness of the weights through the stages of C63. In the averaged format primitive variables other than the density are averages of interpolated centre values and not conserved sums |
| C86 | `Proofs/TurnSlope.lean` (slope limiters and fallback fluxes under σ and reversal), `Proofs/TurnDetect.lean` (`reported_turn`: the detector; `spread_turn`: the weights), `Proofs/TurnLimited.lean` (`limited_turn_rhs`); runs by `integrate_rel` as in C09/C10. Reflection excludes the smooth-extremum relaxation, whose detector is not mirror symmetric (C40), and a negated velocity among the variables tested with the absolute range, which is not even |
| C87 | Von Neumann analysis done in the algebra of shifts ℝ[ℤ³] acting on periodic arrays (`Proofs/Shift.lean`): adjoints instead of Fourier modes, sums of squares `adj y * y` instead of non-negative symbols. `Proofs/Stable.lean`: the ssprk3 and rk4 polynomials contract for `-(A + A*)` a sum of squares and `A*A ≤ 64/25`. `Proofs/Dissipate.lean`, `Proofs/Certs.lean`: for every degree 0..8 the 1-D upwind difference of the code's own stencil weights is dissipative with norm ≤ 2; Bernstein coefficients found outside Lean and checked in the kernel. `Proofs/Carry.lean`: three dimensions with the transverse smoothing. `Proofs/UniformFlow.lean`: right-hand side and stages of the model as these operators; `Proofs/Norms.lean`: positivity of the stages. `C87_stable`: whole runs by `integrate_outcome_fwd` |
| C88 | Stability (C87) and consistency (C70). `Proofs/Truncation.lean`: `rateOp_close` (C70 for functions of any sign, by adding a constant), powers of the rate operator against directional derivatives, Taylor's formula in time, `step_close` for one step from exact averages. `Proofs/ForwardT.lean`: outcome of `integrate` from what steps before the final time do. `C88_run`: the error of a run is the sum of the errors of its steps because `nrm_step` is a contraction; `C88_sine`: explicit constant and order `min (q+1) s` in the number of cells for a sine wave in a tube |
| C89 | `Proofs/Variation.lean`: Harten's lemma for a row of values with open or joined ends. `C89_step`: `fallback_rate_padded` (C79) gives the row with its ghosts, `crossing_upstream` the share taken from the cell upstream. `C89_run`: uniform flows of bounded variation form a convex set, so `run_convex` applies. `C89_default_cfl_violated`: one step from the ramp of C79 at CFL 0.8 increases the variation. `C89_first_order`: the upwind step of C71 averages the jumps of a periodic row of any displacement |
| C90 | `Model/Commit.lean`: `get_commit_details` on text, with `strip`, `split(sep)` and `split()` on characters and the three outcomes of running git. `C90_details_partial`: the line git prints for any hash, author, date, head and further refs is taken apart correctly when the author has no bar and the branch neither a bar nor a comma nor white space. `C90_failed`: the message of a failure. `C90_author_violated`, `C90_branch_violated`, `C90_space_violated`: the characters excluded, which git allows, give wrong entries. `C90_missing_violated`: only CalledProcessError is caught, so without git the constructor raises FileNotFoundError |
| C91 | `Model/FloatTime.lean`: binary formats with rounding to nearest even on rationals, and the loop of `integrate` with every addition and subtraction of times rounded; `C91_exact` shows that without rounding it is `ODEState.integrateT` with the four steppers, `C91_rounding` that rounding gives the nearest number. `C91_hit`: when `t + (T - t)` is `T`. `C91_run_partial`: exact output times for a whole run if every requested time is at least twice the largest step or leaves a bit unused. `C91_terminates`: the loop ends if the steps are at least the spacing of the format at `T`. `C91_final_time_violated`, `C91_backwards_violated`: from the double 0.3 one step to 0.9 ends at 0.9000000000000001. `C91_endless_violated`: steps below the spacing never end |
| C92 | `Model/SedovAna.lean`: `sedovana` and `sedov_rduP` on reals. `Props/C92_spec.lean` states the Euler equations with symmetry through partial derivatives, the jump conditions and the energy of the shells. `Proofs/SedovAna.lean` computes the logarithmic derivatives of the profiles, checks the three ordinary differential equations as rational identities, shows that radius is a strictly increasing function of the parameter and inverts it; `Proofs/SedovFields.lean` gives the fields. `C92_solution`: the fields solve the equations, meet the jump conditions, carry the outer samples. `C92_energy`: the shell energies sum to `E0`. `C92_errors`: what other arguments raise. The inner samples are power laws in the code; `C92_inner`: their powers are those with which the exact profile behaves at the centre, joined to the first outer sample |
| C93 | `Proofs/LipAt.lean`: Lipschitz bounds at the points of a compact set of positive states for the conversion to primitive variables and for the three Riemann solvers, whose flux at two equal states is the Euler flux. `Proofs/FaceMean.lean`: the mean of a derivative over a cell is the difference of face means (divergence theorem). `Proofs/FlowChain.lean`: the error of each stage (averages to centres, conversion, centres to averages, face values, transverse points, Riemann solver, face integral), each comparing with the Taylor polynomial at the cell. `C93_order`: one cell; `C93_periodic`: all cells of a periodic box; `C93_exact_rate`: the value compared with is the rate of change of the cell averages when the flow solves the equations |
| C94 | `Proofs/ErrCalc.lean`: a calculus of functions whose difference is bounded by an error `e` and changes by at most a constant times the change of `e` plus `e` times the distance; it is closed under sums, products, quotients and gluing of branches that agree where they meet, which covers the conversion to primitive variables and the LLF and HLLC fluxes at all positive states and the upwind flux at moving ones. `Proofs/FlowDiff.lean`: every stage applied to the difference of the data over one cell width, so that the error of the difference of two neighbouring fluxes is one power of the mesh size smaller. `C94_order`: one cell; `C94_periodic`: all cells of a periodic box |
| C95 | `Proofs/WeakForm.lean`: the theorem of Lax and Wendroff for steps in conservation form whose numerical fluxes stay within a constant times the nearby differences of the flux of the equations (summation by parts in space and time, continuity of translations in the mean). `Proofs/RiemannBound.lean`: the three Riemann solvers are consistent in this sense uniformly on compact sets of gas states. `Proofs/Tracks.lean`, `Proofs/StepTracks.lean`: so are the fluxes computed with the high-order interpolations, and the combination of the stage fluxes over a whole step of any stepper. `Proofs/GridField.lean`: the right-hand side in a periodic box as a lattice operation, and the bound on the step size. `keptIn` restricts the right-hand side to the states at which the gas laws are evaluated in the compact set; by `C95_run` a restricted run that does not raise is a run of the code, and its steps form the trajectory of `C95_weak`. `C95_first_order`: for the first-order scheme the cell averages suffice. `C95_rest`: two gases of different density at rest, with all hypotheses met |
| C96 | `Model/Scripting.lean`: the wrapper with Python strings as lists of characters and the sort key as a list of pairs in lexicographic order. `C96_order`: the key determines the name, so the sorted list is unique; `C96_method`: from C28 and C54; `C96_times`: C24 applied to the requested times `linspace(0, T, n)`, with the round trip of C49 |
| C97 | **false**: `C97_violated` (for every two solvers: the second call returns the snapshots of the first). `C97_partial`: with the same prefix, parent and names of keyword arguments the directory determines the texts of all values, of the final time, the integrator and the number of snapshots |
| C98 | `Model/FloatStep.lean` and `Model/FloatFlux.lean`: flux divergence, steppers, stencil sweeps and fluxes with a rounding after every operation in the order of the code (`C98_exact`, `C98_solver`: without rounding they are those of the scheme, and the right-hand side is that of the solver). `C98_step`: the rounding unit bounds every operation relative to a bound on its argument (`Format.fl_err`); the errors are carried through each stepper; what is multiplied by the rounded `1/h` and `dt/6` telescopes exactly. `C98_run` through the floating-point loop of C91; `C98_scheme`: the fluxes of a periodic array agree on opposite sides bit by bit. `C98_not_exact`: two cells |
| C99 | the same model. `C99_uniform`: every sweep of a constant array is constant, so the differences of the fluxes are exactly zero; `C99_translation`: the runs stay in step (`loopWith_inStep`), the maximum of the signal speeds is over the same set. `C99_mirror_violated`: degree 2 interpolation of 2, 1, 1 |
| C100 | `Proofs/DeepTracks.lean`: the estimates of C95 for the cells at a fixed distance from the sides, where ghost values do not reach in one step, and for convex combinations of the fluxes of the scheme and of its fallback (which is what limiting produces, C38). `Proofs/WeakForm.lean` allows steps that are in conservation form only in a part of the box outside which the test function vanishes; `Proofs/Periodise.lean` continues such test functions periodically. `C100_run`: runs of `integrate`. Concrete case `C100_open`: two gases at rest in a tube with open ends, degree one, limited everywhere with minmod or moncen |
| C101 | The run of C71 with any bounded measurable density. A step of the scheme is an average over upwind neighbours, so it does not enlarge the sum over the cells of the differences (`upwindStep_sum`); compared with a smooth density the steps lose what C71 says. `C101_estimate`: error in the mean at most twice the distance of the density from any smooth one plus first-order terms with the derivatives of that one. `Proofs/Mollify.lean` provides smooth periodic densities as near in the mean as one likes (convolution with bump functions) and splits integrals over the box into cells. Concrete case `C101_square`: a square wave in the tube of C71 |
| C102 | `Model/FloatHydro.lean` gives the conversions, fluxes, sound speed and the three Riemann solvers with a rounding after every operation, in the order of evaluation of Python; together with `Model/FloatFlux.lean` this is the whole right-hand side in machine arithmetic (`C102_exact`: without rounding it is the exact model). `InUnit k x' x` (x' = 2^k x) is carried through every operation (`Proofs/FloatUnits.lean`), every sum then has to be of numbers in the same unit. `C102_run` relates whole runs; `C102_doubles`, `C102_normal`: roundings of which this is true; `C102_underflow_violated`, `C102_ten_violated`: where it ends |
| C103 | The floating-point scheme of C102. Rounding to nearest even is odd (`Format.fl_odd`), so signs pass through all operations; the proof (`Proofs/FloatMirror.lean`) follows the mirror image through conversions, sweeps, `llf` (whose sums and differences are of two terms), differences of fluxes, step sizes, steppers and the loop. `C103_hllc_violated`: two states of which the mass flux and that of the mirror image differ in the last bit, for every square root with value 1 at 1 |
| C104 | The floating-point scheme of C102. At degree zero a sweep only rounds (`interp_zero`), and rounding twice is rounding once, so the orders of the sweeps, which differ between x and y, do not matter (`flux_low`); sums over the three directions start with x and y, and `dudt` starts from zero (`swap_equation`). `C104_xz_violated`, `C104_degree_violated`: exact doubles for which other exchanges change bits |
| C105 | The rows written by the models of the two initial conditions (C65_state) against the Rankine-Hugoniot conditions, stated for gas states in space and a moving front with a unit normal. `C105_dmr`, `C105_shu`: exact shocks of Mach number 10 and 3 within the given distances of the rows; `C105_dmr_violated`: the numbers 7.145, -8.25/2 admit no front speed; `C105_gamma_violated`: `gamma` enters the density ahead only, so other values give no shock |
| C106 | The array of `Model/Sedov.lean` on the mesh of `meshgen`: the slices N//2-1..N//2+1 are mapped to themselves by the reflection of an even axis (`C106_mirror`) and by exchanges (`C106_exchange`); runs by C86. `C106_odd_violated`: every odd axis of at least three cells breaks the symmetry |
| C107 | `C107_crossing`: arithmetic of `advectionDt`; `C107_run`: the step meets `ShortSteps` of C79, so C79_run applies; `C107_backwards_violated`, `C107_oblique_violated`: the sum of signed velocities is no bound |
| C108 | A cell at rest of density and sound speed 1 whose neighbours move away from it at a speed V, each along its axis (`burst`): all its faces are as fast as the fastest cell, so the step takes ndim*CFL*(V+1)/(V+ndim) out of it, more than there is for large V (`C108_sharp`); `C108_default_violated` puts in 0.8 |
| C109 | `Model/FloatHydro.lean` at degree 0: the error of the rounded llf flux of a carried quantity is at most 5 eps s (a + b) (`faceFlux_err`), the inflow terms absorb it if the sound is audible (`outflow_le`), the sums and products of the step cost eleven more roundings (`carried_step`). `C109_machine`: rounding to p bits qualifies. `C109_cold_violated`: four cells with streams at speed 2^64 and sound speed 2^-17 |
| C110 | `Model/HydroState.lean`: the slicer with Python's slice semantics (`PySlice.indices` is `slice.indices`), list assignment with negative indices, exceptions in the order of the code. What is selected is stated through the indices on an axis of any size (`SelectsWindow`, `SelectsReversed`) and through the entries of arrays (`C110_arrays`) |
| C111 | The map of the plane is `turnPoint` (exchange of axes, reflection in the middle of the domain, shift by cells). Averages: the quadrature of a cell is turned into that of the image cell, which for reflections uses that the rule is its own mirror image; `Proofs/GaussUnique.lean` derives this from exactness (nodes are the roots of the orthogonal polynomial, so a Gauss rule is unique). Runs: C08, C86 with the image of the start equal to the start |
| C112 | `Proofs/RomainTurn.lean`: with periodic ends every array of one evaluation is the restriction of a periodic function of all integers (`primAll`, `markersAll`, `fluxAll`), on which shifts and reflections are exact; free ends are reflected directly (`setBC_mirror`). `loop_image` carries a linear relation of the cells from one evaluation to all integrators and the time loop. The hllc flux is compared through C55 and C16; for whole runs with hllc (`C112_mirror_hllc_run`) `RunMeets` says that a condition holds at every state the run evaluates, stages included |
| C113 | `Proofs/QuietFlow.lean`: in a uniform flow the candidate of the detector is again a uniform flow, so velocity and pressure are reproduced exactly; the density seen by the detector has a range of at least the amplitude less the resolution error, and one step changes it by at most `3 (8 ω + 16 B)` (ω the variation between neighbours, B the deviation from the cell averages). Below the tolerance nothing is reported (`not_reported`) and the limited right-hand side is the unlimited one (`quiet_rhs`). `follows_run` of C88, stated for any right-hand side that agrees with the exact rates near the density, then gives the run. The PAD bound uses P ≥ 0, which a uniform flow keeps |
| C114 | `Proofs/QuietNear.lean`: where the 97³ cells around a cell hold nearly one state, the primitive averages are near it and the fluxes near its flux (`NearAt.prim`, `NearAt.flux`, from the weights and from the Lipschitz bounds of C93); so one step, being at most a multiple of the spacing, moves the candidate little, while the range of a variable that varies stays away from zero. Uniform continuity on a ball containing the box and the places where the variables differ gives one spacing for all cells. A constant velocity across the grid is kept exactly (`drift_flux`). The order is that of C94 |
| C115 | `Proofs/Depend.lean` (`loop_near`): a loop whose step and slopes are continuous at the states it meets, compared with the loop from neighbouring clocks and states; where the step of the first run lands exactly on a target the other run may need one more short step. `Proofs/DependRhs.lean`: llf and hllc are continuous at positive states (`continuousAt_riemann`; the branches of hllc agree where they meet), and the lattice operators applied to families of states give continuity of step and slopes (`SmoothSetup.rhs`, `slopes_cont`). The condition on the visited states is written with `onlyOn`, as in C10; for first order it follows from C12 and C59 |
| C116 | The steppers of `Model/ODE.lean` over an arbitrary real normed space. `Proofs/RKOrder.lean`: Taylor expansion of the stages along the solution, uniformly in the starting time, with the derivative of `f` along the solution as an operator (`step_error`). `Proofs/RKRuns.lean`: bounds near the solution by compactness (`exists_tame`), smoothness of the solution from that of `f`, and the growth of differences in one step (`advance_stable`). The run theorem carries the error bound `H^p K (exp(2 M t) - 1)` through the loop |
| C117 | The right-hand side of `Model/Solver.lean` as a vector field on the finite-dimensional space of cell values (`Proofs/LinesLip.lean`): hllc is a continuous selection of four smooth fluxes and therefore locally Lipschitz, llf directly, the rest are affine combinations and the conversion to primitives. `Proofs/Lines.lean`: constants near a compact set, Picard-Lindelöf, the one-step error. `Proofs/LinesRun.lean`: sturdy states form an open set, steps restricted to the cells, bounds on the step of the CFL rule from above and, near the solution, from below. `Proofs/LoopReturns.lean`: the loop returns when the steps are bounded below along the run. The run theorem reuses `follow` of `Proofs/RKRuns.lean`. Only order one is proved, because the fluxes have kinks |
| C118 | As C117, with `Proofs/LinesSmooth.lean`: the right-hand side is as often continuously differentiable as the numerical flux is at the face states; hllc in supersonic flow is the flux of the upwind side; llf away from its ties. The one-step error is that of C116 applied to the vector field on the cell values |
| C119 | As C117 and C118 for the scheme with limiting, with `Proofs/LinesLimited.lean`: the candidate differs from the state by a multiple of the step, so a detector with slack (`Slack`: strict distance from the bounds it tests) reports no cell once the step is small, and slack is an open condition among states whose momenta vanish along unextended directions. Such momenta stay exactly zero, for the run and (by Grönwall) for the semi-discrete solution. `C119_default` turns variation of the data into slack for the global relative test |
| C120 | C53 for the limited right-hand side of Revised.lean, with `Proofs/LimitedReach.lean`: the continued states, the fluxes of both schemes, the detector in mode "local" (values up to three cells away) and the spread flags each look a bounded number of cells around, and the distances add up. The two states are assumed to get the same time step, since the CFL step depends on all cells. `C120_global_violated` computes the rates of change of two states on a line where the global range decides about a flag |
| C121 | C53 and C120 iterated through the stages of the steppers and through both modes of `integrate`. The step is prescribed: with the CFL step every cell influences the step size and so every other cell |
| C122 | `SemiDiscrete` of C117. Totals: their derivative is the sum of the right-hand side, 0 by C01 and, between walls, by C67. Symmetries: the image of a solution satisfies the equations by C08 and `turn_rhs`, and a solution is the only motion with its initial values (local Lipschitz continuity along the solution and continuous induction). For reversals with hllc the array is taken to be 0 outside the mesh, where the code stores nothing |
| C123 | `Model/Cache.lean`: `lru_cache` as a list of entries, last used first; the `HydroState` objects as a heap of addresses with one shared cache whose keys keep their object alive. Invariants: entries are results of the function; entries belong to objects still in memory, so an address in a key is never given out again. That a cached array is not modified by its receivers is read off the code (no caller writes to weights, slices or quadrature points) and not part of the model |
| C124 | `hllc_rest`: the flux between two states at rest of equal pressure is that pressure, so all slopes vanish (`rest_rhs`) and no stage moves the cells (`advance_still`). `C124_rest` asks for positive face densities of the start; `C124_first` and `C124_mild` derive them (factor of `theta` between 0 and 1, weights of the stencils). `C124_llf_violated` computes the mass flux of llf: half the speed times the jump of the density |

## Disagreements between code and documentation found on the way

Besides the rows marked **false**:

* `hydro_dt` is called with the minimum of all three spacings, inactive directions included (safe but possibly small steps).
* A periodic right side with another left side is silently ignored; a periodic ghost layer wider than the domain reads
  uninitialised memory.
* `density_floor`, `pressure_floor` and `fixed_primitive_variables` are accepted and never used.
* `fv_ic` with `conservative_ic` leaves `u0` unset, so "ic" sides then raise at the first step; "ic" sides hold point
  values at the ghost centres, not averages.
* `integrate(T=0)` raises IndexError with `exact=True`; `n` is ignored when `T` is given; without both TypeError.
* `EulerSolver.f` ignores its time argument; boundary functions receive the time of the step.
* All stages of ssprk methods reuse the step size of the first stage.
* With limiting, a cell that passed the detector but sits beside a troubled cell is updated with mixed fluxes and never
  checked again; its density can become negative (C80_violated).
* Saving a run of a solver built with `fv_ic` raises TypeError after the run (C82_violated).
* `_hit_target` in floating point: a step from before half of the way to an output time may end one bit beside it, which is
  then stepped over and reached backwards, or the final time is overshot (C91).
* Splitting a run at an output time stores the snapshot at that time twice (C84_split).
* `sample_circular_average` leaves out a cell at the centre itself, and the extent of `plot_2d_slice` images ends at the
  outer cell centres, so pixels are shifted by up to half a cell (C72_pixels).
* `HydroState.__call__` turns a cut bound of 0 into `None`.
* The tolerances 1e-10 of the smooth-extremum detector and 1e-16 of minmod are absolute, so limited runs depend on the units.
* `AthenaBlast` ignores all its arguments. `Shock1D` tests `dim not in "xyz"`, which lets "" and "xy" through to a KeyError.
  `ShockTube` with an unknown mode fails on an unassigned variable. The descriptions of `sigma` (a width) and `w0` (an
  amplitude) of `KelvinHelmholtz2D` do not fit the formula.
* `DoubleMachReflection2D` takes `gamma` as an argument, but only the density ahead of the shock uses it (C105_gamma_violated).
* `SedovBlast` in mode "center" is off the centre by half a cell for odd numbers of cells (C106_odd_violated).
* `advection_dt` adds signed velocities (C107_backwards_violated, C107_oblique_violated).
* The default CFL number 0.8 exceeds 1/ndim in two and three dimensions, beyond which first-order llf steps can make densities negative (C108_default_violated).
* In flows faster than 1/eps sound speeds a first-order step can make a density negative by rounding alone (C109_cold_violated).
* `HydroState.__call__` says that `cut` is ignored if `axis` is None; it raises TypeError (C110_ignored_violated). A cut of axis 0 silently replaces the variables asked for (C110_variables_lost).
* `romain_solver.py` 104-107 puts the energy of the Sedov start into cells `N // 2` and `N // 2 + 1`, which are not the two cells in the middle (C112_sedov_off_centre).
* `riemann_solvers.py` 40-44 (`advection_upwind`) assumes the velocity continuous across the face and decides by the one on the left, so the flux jumps where the left gas is at rest and the right gas moves (C115_upwind_jumps).
* The scripts in `experiments/scripts` that set up runs of this package (`athena_blast`, `compare_sd_timing_square`, `dmr`, `kh`, `sedov2d`, `sedov3d`, `sedov_timing`, `square_timing`) import functions (`athena_blast`, `square`, `double_mach_reflection_2d`, `variable_array`, `kelvin_helmholtz_2d`, `sedov`) that `initial_conditions.py` no longer defines, and `dmr.py` a module `fvhoe.config` that is not there, so none of them starts; they are not modelled.
* On a fixed grid the a-posteriori limiter does nothing in the limit of small time steps (C119): the global relative tolerance does not shrink with the step while the candidate's change does. What limiting does therefore depends on the CFL number, and the limit of small steps is the unlimited scheme.
* With the default `NAD_mode="global"` the flags of a cell depend on the extreme values of the whole domain, so that apart from the time step, too, every cell can influence every other one within a single evaluation (`C120_global_violated`).
* `HydroState.__call__` is cached and the cache keeps its objects alive, so the `HydroState` of every solver ever built stays in memory (`C123_kept`). Because of the cache a list instead of a tuple as argument raises TypeError (no hash) and never reaches the ValueError written for it (hydro.py 123-126).
* `scripting.py` imports `kelvin_helmholtz_2d`, which `initial_conditions.py` does not define, so the module cannot be imported.
  The directory of `EulerSolver_wrapper` ignores the initial and boundary conditions (C97_violated).
* `romain_solver.py`: the Sedov start writes cells N//2 and N//2+1, one to the right of the middle; the periodic ghosts
  need four cells; the end time is overshot.
* `sedovana` divides by `2 - gamma`, so `gamma = 2` raises although a blast wave exists for it, and so does `gamma = 7` in three
  dimensions (`C92_errors`).

## Testing the theorems

Every line of `seeded/LOG.jsonl` is one edit of a model definition in a scratch copy, rebuilt. An edit that broke a claim
without breaking a theorem led to a stronger theorem (field `tightened`); edits that do not change what is claimed are
recorded as such. Field `outcome` says `survived` for an edit no theorem failed on when it was first tried, whether or not a theorem
was added afterwards (until entry 356 the log gave `detected` for eight of these by mistake; corrected).
