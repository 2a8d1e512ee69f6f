# Formal model of stanleybak/hylaa in Lean 4 — design

Source: `/repo` (read as text; never built or run).
Model: `lean/Verif/Model/*`.  Specifications: `lean/Verif/Spec/*`.
Helper lemmas: `lean/Verif/Proofs/*`.
Property theorems, their counterexamples and their non-vacuity examples: `lean/Verif/Props/*`.
A theorem about property `Cxx` is named `Cxx_…`; `…_partial` marks one that proves only part of the
English claim.  `MANIFEST.json` lists them.

## 1. Trusted base

* Lean 4.33.0's kernel, and the axioms `propext`, `Classical.choice`, `Quot.sound` (every theorem
  rests on at most these; no axiom is declared; no compiled evaluation is used).  Examples which run
  the model on rationals use `decide +kernel` or `norm_num`: the kernel evaluates them.
* The faithfulness of the model to the Python text.  Every definition cites file and lines and says
  what it simplifies.
* **Numbers.**  Elements of an arbitrary linearly ordered field `K` (executable at `ℚ`).  Floating
  point rounding, NaN/inf and overflow are NOT modelled.  Tolerances of the code (`1e-6`, `1e-7`, …)
  are kept as parameters or literals.  Theorems about the matrix exponential and about differential
  equations are at `ℝ`.
* **GLPK** is an arbitrary oracle `Solver`: it sees the whole problem, the objective and an opaque
  warm-start token, and returns a code, a status, primal values and a new token.  Soundness theorems
  assume `Solver.Honest` ("OPT ⇒ the values are feasible and optimal; NOFEAS / ENOPFS ⇒ infeasible").
  Nothing is assumed about when it fails.  Acceptance theorems assume `Solver.Complete` (it answers
  OPT on feasible bounded problems, …).  `Proofs/Simplex.lean` has a verified simplex method, which is
  honest and complete over any ordered field and runs in the kernel: the hypotheses are satisfiable
  and the examples use it.
* **scipy.sparse** matrices are lists of rows of `(column, value)`; duplicate columns add up.
  `np.ndarray` matrices are functions with explicit dimensions.
* **scipy expm / expm_multiply** are parameters (`Dyn`); `Dyn.Laws` says they are powers of one matrix;
  `Model/Expm.lean` instantiates them with Mathlib's `exp` and `C06_one_step_is_flow`,
  `C07_continuous_time` connect them to solutions of `x' = A x + B u`.
* **sympy** (parser, substitution), **odeint**, the **clock**, **random numbers**,
  **ConvexHull / SVD / allclose** are arbitrary oracles; every theorem holds for all their answers
  unless it states what it needs.
* **Python exceptions** are values (`Except Err`): `assertion`, `runtime`, `unsat`, `memory`.
* **Aliasing.**  Where sharing matters it is modelled with heaps (`Model/Heap` for LP objects;
  state sets, nodes and operations of the aggregation DAG in `Model/Core`).
* NOT modelled: matplotlib itself and the look of the plot (of `plotutil.py` the computation loop 963-981, the bookkeeping of
  drawn polygons and markers, deletion, axis limits, simulation lines, frames, pauses and buttons are modelled, as is the choice of colours for modes), video and
  image output, printing, `print_stats`, graphviz export (`viz`), `_version.py`, error-message strings,
  `guard_opt_data.py` (imported nowhere), `find_boundary_pts` and `make_plot_vecs` in `lpplot.py`
  (reachable only from commented-out code).

## 2. Layers of the model

| layer | Lean | Python |
|---|---|---|
| numbers, sparse/dense linear algebra, exceptions | Model/Basic | scipy/numpy use |
| LP instance and solver | Model/Lp, Model/Solver, Model/Heap | lpinstance.py |
| LP utilities | Model/LpUtil | lputil.py |
| modes, transitions, automaton, guard strengthening, tt detection | Model/Mode, Model/Automaton | hybrid_automaton.py |
| scripts of building calls, `setup_ha` | Model/Build, Model/Setup | hybrid_automaton.py, core.py:325-338 |
| matrices of a mode | Model/TimeElapse, Model/Expm | time_elapse.py, time_elapse_expm.py |
| state sets | Model/StateSet | stateset.py |
| approximation models | Model/Approx | stateset.py:238-344 |
| waiting list, aggregation DAG, strategies, deaggregation, main loop | Model/Core | core.py, aggdag.py, aggstrat.py, aggregate.py, deaggregation.py |
| Arnoldi directions | Model/Directions | lputil.py:875-1001, aggregate.py:37-52 |
| counterexamples | Model/Counterexample | result.py |
| settings, timers, Freezable, SwigArray, PlotData | Model/Util | settings.py, timerutil.py, util.py, lpinstance.py, result.py |
| timing report | Model/Report | timerutil.py |
| looking up plotted sets, clicks | Model/Click | result.py, plotutil.py |
| the whole of `check_trace.check` | Model/CheckRun | check_trace.py |
| drawn polygons, axis limits, cached vertices | Model/Draw, Model/Verts | plotutil.py:292-375, 400-470, 658-733, stateset.py:145-235 |
| simulation lines | Model/SimLines | plotutil.py:238-294, 616-656 |
| colours of modes | Model/Colors | plotutil.py:49-129 |
| picture of the aggregation DAG | Model/Viz | aggdag.py:246-279, 540-640 |
| animation: frames, pauses, buttons | Model/Anim | plotutil.py:773-981, core.py:286-292, 380-434 |
| symbolic input | Model/Symbolic | symbolic.py |
| replay of traces | Model/Trace | check_trace.py, result.py |
| simulation | Model/Sim | simulation.py, core.py:436-573 |
| plot vertices | Model/Plot | lpplot.py, kamenev.py |

### The main loop (Model/Core)

`Env K` is everything fixed during an analysis: automaton, settings, solver, matrices of every mode,
aggregation strategy (its score function and its direction matrices are arbitrary functions),
deaggregation decisions.  `Core K` is the mutable state: heaps of state sets, nodes and operations,
waiting list, current state, deaggregation manager, result flags.  `setup` is `Core.setup`, `doStep`
one iteration of the `while` loop (pop, or one continuous post step, or one step of a deaggregation
replay), `runSteps n` is `n` iterations, `ceLoop` follows error transitions and produces the
counterexample.  Assumptions used by the theorems about whole runs:

* `Env.Base`: honest solver, non-negative tolerance, no approximation model (C53, C54, C57 are about those),
  matrices obey the laws of powers, rows of
  guards/invariants have the shape the constructor methods produce;
* `Env.Sound` (no further restriction on modes is needed for C33, C35, C38);
* `Env.OkOn R`: C32's class — the exclusions are exactly the shapes for which C42, C43 and C44 are
  refuted (inputs together with an invariant; zero-dynamics modes with inputs; time-triggered guards
  whose variable does not fall through the guard on the states `R`).

### Specifications (Spec/*)

* `Spec/Sets`: boxes, zonotopes, polytopes, images, Minkowski sums, convex hulls as predicates on
  points `ℕ → K`.
* `Spec/Hybrid`: invariants, guards, admissible inputs, one step, `Flow` (k steps with the invariant
  checked at every step instant).
* `Spec/Run`: `Hyb` (an abstract discrete-time hybrid automaton), `Hyb.Jump`, `Hyb.Reach`, `Hyb.Safe`.
* `Spec/Ode`, `Spec/Continuous`: solutions of `x' = A x + d`, and runs of a hybrid automaton whose
  variables follow them (`Ct.Reach`, `Ct.Safe`); `Spec/Script`: which scripts of API calls are covered
  (canonical matrices, each mode's dynamics set at most once).
* `Spec/Rep`, `Spec/Ops`, `Spec/Witness`: what an LP instance denotes (`Lp.Mem lp x`: some solution of
  the LP has `x` in its current-time columns), the layouts instances can have, traces.

## 3. Plan per property

* C01–C03, C14–C17 (constructors): run the modelled function, obtain the explicit row list, show
  `Mem` ↔ textbook set in both directions; `…_accepts` theorems show when the call succeeds.
* C04, C05, C08, C12, C16: a layout invariant (`Shape`) is established by the constructors and kept by
  every operation; under it each operation's effect on `Mem` is an equivalence.
* C06: invariant over all request histories of the cache state machine.  C07: induction over steps
  using C04/C05/C06; the continuous-time version identifies the matrices with solutions of the ODE.
* C09, C10, C11, C13, C18–C20: with an `Honest` solver, from the optimum's properties.
* C21: invariant "every column with a non-zero objective coefficient is listed in obj_cols".
* C22: case analysis over all solver outcomes.
* C23: explicit heap of LP objects; operations write only the parts reachable from their argument.
* C24, C25: list-level lemmas on the row store.
* C26–C28, C30, C52: invariants/equivalences over arbitrary scripts of building calls.
* C29: real analysis: second derivative zero ⇒ affine.
* C31: expression trees with an evaluation function; translation correctness by induction.
* C32, C41: an invariant of the main loop: every unfinished concrete run into an error has a
  point in a waiting or current set at a not later label (`Proofs/CoreLp … CoreRun`, `CoreDeagg`,
  `CoreReplay*`).
* C33, C35: forward invariant: every solution of the LP of a concrete state set is a trajectory
  (`Conc*`), and column names identify the pieces of the trajectory (`Ce*`).
* C32, C33 end to end (`Props/EndToEnd`): script of API calls → `build_ok` (shapes of what it builds,
  `Proofs/Built`) → `setup_ha` (`Proofs/Prepared`: guards only shrink by conditions every continuing run
  satisfies) → `Env.Base` → verdict → runs of the automaton as written → trajectories
  (`Proofs/Dwell`: discrete flow ↔ trajectory).
* C34: potential function over the tree of sets (`Proofs/Bound`, `Props/Bound`); with deaggregation a
  Dershowitz–Manna multiset of triples (twice the budget of an operation or node, number of parents,
  operations left to replay / steps left) that every round makes smaller; budgets are kept by an invariant of
  the node tree that assumes nothing about the solver (`Proofs/Term … Term7`, `Props/Term`).
* C36, C37, C39: list lemmas.  C38, C40: heap invariants.
* C42–C44, C16, C18, C24, C49, C50, C51: expected to be FALSE of the code in full generality (see §4):
  negation by concrete witness plus a `_partial` positive theorem.
* C45–C48, C51: small state machines, invariants by induction.
* C53: first-order estimates for `exp` in the infinity norm (`Proofs/LggLemma`, `LggReal`), the error of one
  step with arbitrary integrable input (`Spec/Moves`), an invariant for the LGG time-elapse object and state set
  (`Proofs/ApproxStep`); `C53_lgg_accepts` for acceptance; `C53_lgg_formula` is the exact set
  `conv(X ∪ (e^{Aτ} X ⊕ τ B U ⊕ [-α, α]^n))` of the first interval.  C54: from C14 and C04/C05.
* C57: an invariant of runs with the LGG model while no error is reported (`Proofs/LggCov, LggInv, LggRun`): the
  current set contains every motion during the current interval, finished sets were checked at all intervals.
* C55, C56: loop invariants of the Gram-Schmidt loops (`Proofs/Directions`); C56 is FALSE in general (§4, 33).
* C50: support points of an honest solver; closedness and extremes of the returned polygon.
* C58: invariant of Kamenev's refinement loop (every edge between old points has been checked), from what Qhull and
  the SVD return in exact arithmetic (`Geom.HonestHull`, `Geom.HonestOrth`).
* C59: `Model/Draw`: polygon lists per subplot and mode, with the (list, index) pairs a state set remembers for deletion;
  invariant: the lists are the history with deleted entries blanked.  FALSE in general (§4, 38-41).
* C60: fold invariant of the limits (`IsBBox`); the redrawn axes contain them.  FALSE for flat plots (§4, 42).
* C61: `Model/Verts`: the vertex cache; invariant: cached entries are plots of an LP with the current constraints.
* C62: `Model/SimLines` adds the plotted points to the simulation of C45 (one `do_step` per plot: `run_to_completion`, or
  animation with `draw_stride = 1`); invariant: the current lines are the images of the states the active simulations went through;
  for any numbers of steps per frame (`Props/SimStride`): the images of some of these states, in order.
* C63: `Model/Anim`: frames, pauses and buttons around an arbitrary step function; induction over the events, with a measure
  (remaining pause frames) for the video; instantiated with `doStep` and `simStep`.
  FALSE after invariant intersections and approximation models (§4, 44).
* C64: `Model/Report`: the report over the timer heap; a log of the calls as the specification; invariant relating reachable timers to nested names, recursion over the timer tree
* C65: `Model/Click`: the scan over modes and objects, the point-in-polygon test on the sides; a point all sides turn around is in every half-plane
  containing the corners (summing round the polygon); the general claim is false for overlapping shapes
* C66: `Model/Colors`: the colour dictionary, matplotlib's table as a parameter; invariant: the modes seen so far, each with the next colour
  in turn; "different" needs a table without two names for one colour (§4, 51)
* C67: `Model/Viz`: the calls of graphviz as a list; invariant of the loop over a node's operations, then depth-first search
  by induction over the depth of the calls.  `Props/VizRun`: the links between nodes and operations are an invariant of every
  run without deaggregation (`VizOk`), so all nodes can be reached from the roots and no assertion fails.  `Props/VizOrder`: the steps of a node's operations are
  in order (`TInv`).  `Props/VizDraws`: every recorded operation has its transition in the automaton, so each lookup succeeds.

## 4. Disagreements found between the code and the properties

"proved:" names the theorem which exhibits the defect in the model.

1. A mode with inputs and an invariant loses reachable states (proved: `C42_unsound_with_inputs`).
2. `skip_zero_dynamics_modes` ignores inputs (proved: `C43_skips_reachable_states_with_inputs`).
3. The time-triggered stop ignores the direction in which the variable moves
   (proved: `C44_drops_staying_states`); `get_tt_vars` ignores `B` (proved:
   `C29_not_affine_with_inputs`).
4. `apply_approx_*` replaces the LP but keeps the row numbers of invariant constraints (it is called after
   `intersect_invariant`, core.py:250-284), so later replacements work on unrelated rows: an equality may become the
   constraint, states are lost and an analysis can report "System is safe" although an error is reachable in discrete time
   (proved: `C32_stale_row_with_chull`).
5. With an approximation model the counterexample's column names are missing: every run in which a concrete set
   reaches an error guard raises instead of reporting it (proved: `C35_never_reported_with_approximation`,
   `C35_raises_with_approximation`).
6. `do_step_sim` shares one `sim_should_try_guards` flag (proved: `C45_shared_flag`).
7. `PlotData.remove_state` only cleans the first subplot (proved: `C49_kept_in_second_subplot`).
8. `lpplot.pt_to_plot_xy` with `ydim=0` (proved: `C50_ydim_zero_wrong`), direction arrays raise
   (`C50_direction_raises`), `xdim=ydim=None` raises (`C50_both_none_raises`).
9. `get_rhs` of a `>=` row returns the upper bound (proved: `C24_lower_rows_lost`).
10. `almost_equals` compares index arrays of different lengths (proved: `C28_condition_left_out`,
    `C28_strengthening_raises`).
11. `replay_counterexample` uses `linspace(num=steps)`: wrong spacing, nothing for one-step segments
    (proved: `C51_replay_spacing`, `C51_one_step_not_replayed`).
12. "System is safe" is printed although only an aggregated error was found and deaggregation is off
    (proved: `C32_message_false_without_deaggregation`).
13. `require_same_path=False` together with deaggregation drops descendants of other parents
    (proved: `C32_false_without_same_path`, `C41_loses_states_without_same_path`; why C32 and C41 need
    `SamePath`).
14. Children made by deaggregation never get the approximation model; a slow step with LGG
    concatenates a sparse matrix and raises.
15. `set_reset` with a Minkowski matrix but no constraints crashes later (proved:
    `C12_mink_without_constraints_accepted`, `C12_mink_without_constraints_raises`); `set_basis_matrix` after
    `bloat` forgets the bloat (proved: `C16_set_basis_forgets_bloat`); urgent zero-time cycles need
    not terminate (proved: `C34_endless_run_never_ends`, `C34_urgent_cycle_never_ends`); exceptions leave the timer stack unbalanced.
16. `compute_radius_inf` reads LP column `n` (proved: `C18_radius_wrong`).
17. `from_constraints` checks feasibility as if all rows were `<=` (proved: `C03_refuses_feasible`,
    `C03_accepts_infeasible`).
18. A sparse objective with duplicate indices overwrites (proved: `C21_duplicate_index_overwrites`); `add_reset_variables` with 0 new dimensions
    adds one name too many.
19. `from_constraints` extends the caller's `names` list in place.
20. `set_dynamics` may be called again with another size, leaving inputs/invariants/transitions stale
    (proved: `C26_dynamics_twice`); `set_reset` before the target's `set_dynamics` is never checked against the
    target (proved: `C26_reset_unchecked`).
21. `set_guard` keeps the caller's array and the tt relaxation mutates it.
22. `_check_inputs` misses scaled constants (proved: `C52_scaled_constant_accepted`).
23. An initial set in an error mode is never reported as an error (proved: `C32_error_init_unreported`).
24. `check_intersection`'s `None` (infeasible) is treated as "no intersection".
25. A deaggregated replay can exceed the time bound (proved: `C33_false_with_deaggregation`,
    `C34_time_bound_false_with_deaggregation`).
26. `check_trace.check` passes a float `num` to `np.linspace`; `plot` uses `xrange`.
27. A frozen object can be unfrozen by assigning `_frozen` (proved: `C47_unfreeze`).
28. Deaggregated concrete children skip invariant checks that were not recorded.
29. An error is flagged before the reset's Minkowski constraint set is known to be non-empty
    (why C33 needs `MinkOk`; proved: `C33_needs_minkOk`); `set_reset` refuses an empty set, so this takes
    attributes assigned directly.
30. The start of a counterexample from a zonotope has extra entries; initial sets made by
    `from_input_constraints`/`minkowski_sum` make `make_counterexample` raise.
31. `took_tt_transition` is not reset between state sets: a later set is dropped
    (proved: `C32_stale_flag_unsound`).
32. An unknown approximation model is silently ignored (`assert f"..."` is always true); with LGG, `alpha` is 0
    if `0 < |A| < 1e-7`, and after a transition `alpha` uses the radius read from wrong columns (16).
33. `reorthogonalize_matrix` does not reset `cur_vec` after a success: when the argument's rows are used up and no
    unit vector qualifies, it projects the array it appended last onto itself, which replaces that direction by zero
    (proved: `C56_loses_direction`; `aggregate` then skips the zero row, so the direction projected by the reset is
    lost).  It also overwrites the caller's array (proved: `C56_overwrites_argument`).
34. With an approximation model the guards are not checked for the first interval `[0, step)` unless
    `process_urgent_guards` is set (proved: `C57_first_interval_unchecked`).
35. For `0 < |A| < 1e-7` the LGG model bloats by 0 and misses states, for every step size (proved:
    `C53_small_norm_missed`).
36. With the LGG model the radius of a set entered by a transition is read from the columns of the previous mode, so
    too little is added and an analysis can report "System is safe" although a motion after the transition reaches
    an error (proved: `C57_missed_after_transition`).
37. `kamenev` compares support points with `np.allclose`, whose tolerance is relative: a set far from the origin (e.g.
    the unit square at `(10^6, 10^6)`) is drawn as a single point (proved: `C58_far_sets_collapse`).
38. Sets with at most two vertices are drawn as markers, which are never deleted; their stored data are not deleted
    either, so deaggregation leaves the aggregated set in `plot_data` (proved: `C59_small_sets_stay`).
39. The current and the gray set are kept under the names `cur_state` and `gray_state` in the dictionary of modes: a mode
    with such a name loses its polygons (proved: `C59_reserved_name_vanishes`).
40. A set drawn as a marker in one subplot and as a polygon in a later one cannot be deleted: `del_plot_path` unpacks an
    empty list and raises (proved: `C59_mixed_subplots_raise`).
41. With `PLOT_NONE` and `store_plot_result` the stored data are not updated by deaggregation (proved:
    `C59_no_plot_keeps_aggregated`).
42. If everything plotted has the same `y` (or `x`) coordinate the axes are never extended (proved:
    `C60_flat_plot_never_extended`).
43. `PlotData.get_verts_list(mode)` ("a list of lists") returns the first stored object, a tuple (vertices, state, step,
    label), and raises if nothing is stored (proved: `C65_verts_list_is_first_object`).
44. `StateSet._verts` is dropped by `step` only: a set that was plotted (e.g. as a predecessor of an aggregated set) and is
    then cut by its invariant or replaced by an approximation model still answers the old vertices (proved:
    `C61_stale_after_invariant`).
45. Closing the window of a live or interactive plot before the analysis has finished makes `run` report "System is safe"
    (only the video mode checks `is_finished`; proved: `C63_closed_window_reports_safe`).
46. `draw_stride = 0` makes the animation spin forever (proved: `C63_stride_zero_never_ends`).
47. Simulations plotted with coordinate 0 on the y axis show the time instead (finding 8; proved: `C62_y_axis_zero_wrong`).
48. `print_stats_recursive` colours the `Other` line by `other / total_time` without the factor 100, so it is grey even if it
    is most of the time (proved: part of `C64_report`); and it divides by zero if the outermost section was too short for the
    clock (proved: `C64_report_needs_time`).
49. `check_trace.check` divides the number of samples with `/`: with at most 2000 inputs the count handed to `np.linspace` is a
    float, which NumPy (≥ 1.18) refuses, so the function never returns (proved: `C51_check_raises`); with fewer inputs than
    steps it compares the state after the last input, not the one at `max_time` (`C51_check_result`).
50. In the interactive plot, a click on an empty place raises TypeError (proved: `C65_click_on_empty_raises`), and where shapes
    overlap the one plotted first is reported, not the one on top (proved: `C65_first_not_top`).
51. matplotlib knows some colours by two names (`aqua` and `cyan`), and both are used: two modes may look the same although
    there are unused colours (proved: `C66_two_modes_one_colour`).
52. `PlotSettings.show_counterexample` has no effect: the call of `draw_counterexample` is commented out (core.py:127).
53. With `draw_stride >= 2` a simulation may end before it is plotted for the first time; its line is then empty and
    `commit_cur_sims` hands matplotlib a path without points, which raises (proved: `C62_stride_raises`).
54. In the picture of the DAG an edge is ended only if two steps pass without its transition: a transition possible after 1
    and 3 steps but not after 2 is labelled `[1, 3]` (proved: `C67_label_bridges_gap`); edges still open when a node is
    incomplete are never drawn (proved: `C67_incomplete_loses_edges`), nor are transitions into error modes that stop the
    analysis (proved: `C67_error_not_drawn`).

## 5. Testing the theorems against wrong programs

`seeded/LOG.jsonl`: one line per mutant of the model (edited definition, edit, claim it breaks,
theorems that failed, theorems tightened).  Survivors led to tightened theorems
(e.g. `C28_conditions_added`).
