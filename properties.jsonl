{"id": "C01", "title": "from_box represents exactly the box", "statement": "lputil.from_box(box, mode) with every lb<=ub returns an LP instance whose set of current-time points is exactly {x | lb_i <= x_i <= ub_i for all i}; if some lb > ub it raises instead of returning.", "quantifier": "every box list of every length, every mode (with or without inputs)", "why_tests_cant": "A test checks a few boxes and a few points; exactness is a statement about all points of the set and all dimensions.", "anchors": ["hylaa/lputil.py:from_box", "hylaa/lputil.py:from_constraints"]}
{"id": "C02", "title": "from_zonotope represents exactly the zonotope", "statement": "lputil.from_zonotope(c, G, mode) returns an instance whose current-time points are exactly {c + sum a_k g_k | -1 <= a_k <= 1}.", "quantifier": "every center, every list of generators of matching dimension, every dimension", "why_tests_cant": "Set equality over a continuum of points and any number of generators cannot be sampled.", "anchors": ["hylaa/lputil.py:from_zonotope", "hylaa/lputil.py:from_constraints"]}
{"id": "C03", "title": "from_constraints is exact and rejects infeasible sets", "statement": "lputil.from_constraints(csr, rhs, mode, types, names, dims) returns an instance whose current-time points are exactly the projections onto the first dims columns of the solutions of the given typed constraints; an infeasible constraint set is refused, a feasible one accepted.", "quantifier": "every constraint matrix, every rhs, every mixture of <=, >=, == row types, every dims <= columns, modes with and without inputs", "why_tests_cant": "Needs all matrices and all points.", "anchors": ["hylaa/lputil.py:from_constraints", "hylaa/lputil.py:is_feasible"]}
{"id": "C04", "title": "Setting the basis matrix gives the exact linear image of the initial set", "statement": "After any sequence of lputil.set_basis_matrix calls on an instance, its current-time set is exactly {B x0 | x0 in the initial set} for the last matrix B (plus the total input effect if the mode has inputs), get_basis_matrix returns B, and the initial set is unchanged.", "quantifier": "every instance layout produced by the library, every sequence of basis matrices", "why_tests_cant": "Quantifies over all points, matrices and call histories.", "anchors": ["hylaa/lputil.py:set_basis_matrix", "hylaa/lputil.py:get_basis_matrix", "hylaa/lpinstance.py:LpInstance._create_bm_indices"]}
{"id": "C05", "title": "Each input-effects addition is one exact Minkowski sum", "statement": "lputil.add_input_effects_matrix(lpi, N, mode) changes the current-time set from S to exactly {s + N u | s in S, C_u u <= rhs_u}, with fresh input variables on each call; with lgg_beta it additionally adds the scaled box |b_i| <= beta through its extra columns.", "quantifier": "every instance with inputs, every input matrix, every number of previous additions", "why_tests_cant": "Set equality over all points and any number of steps.", "anchors": ["hylaa/lputil.py:add_input_effects_matrix"]}
{"id": "C06", "title": "Time elapse matrices are the k-th powers for every access order", "statement": "For every order of step requests, the basis matrix a mode's time-elapse object returns for step k is E^k (E the one-step matrix exponential), and the input-effects matrix of step k>=1 is E^(k-1) N; step 0 gives the identity and no input effects.", "quantifier": "every sequence of get-matrix requests (consecutive, repeated, backwards, skipping), every A and B", "why_tests_cant": "The cache has fast and slow paths selected by history; tests visit only a few orders.", "anchors": ["hylaa/time_elapse.py:TimeElapser", "hylaa/time_elapse_expm.py:TimeElapseExpm"]}
{"id": "C07", "title": "k steps of a state set give exactly the discrete-time reachable set", "statement": "Starting from a state set with points X0 in a mode without invariant, after k step() calls the set is exactly {E^k x0 + sum_{j<k} E^(k-1-j) N u_j | x0 in X0, each u_j in U}.", "quantifier": "every k, every X0, every dynamics matrix, every polytope of inputs", "why_tests_cant": "Unbounded number of steps and all input sequences.", "anchors": ["hylaa/stateset.py:StateSet.step", "hylaa/time_elapse.py:TimeElapser", "hylaa/lputil.py:set_basis_matrix", "hylaa/lputil.py:add_input_effects_matrix"]}
{"id": "C08", "title": "A constraint put on initial variables cuts exactly the current-time half-space", "statement": "lputil.add_init_constraint(lpi, a, b, ...) changes the current-time set from S to exactly S ∩ {x | a·x <= b}, without inputs and, when all input effect matrices are passed, with inputs.", "quantifier": "every instance layout, direction, bound, basis matrix and number of steps taken", "why_tests_cant": "All points and all layouts.", "anchors": ["hylaa/lputil.py:add_init_constraint"]}
{"id": "C09", "title": "Replacing a redundant invariant row never changes the set it should describe", "statement": "lputil.try_replace_init_constraint changes the represented set from S (with the old row) to exactly S ∩ {a·x <= b}, whether or not it reports that the old row was replaced.", "quantifier": "every instance, every old row of <= type, every new half-space, every honest LP answer", "why_tests_cant": "Correctness depends on the optimum found, on ties and on infeasible outcomes; tests cover one tie-free case.", "anchors": ["hylaa/lputil.py:try_replace_init_constraint", "hylaa/lputil.py:add_init_constraint"]}
{"id": "C10", "title": "Intersection test verdict", "statement": "lputil.check_intersection(lpi, lc) returns None only for an empty set, True exactly when some point of the set satisfies a·x + tol <= rhs, and False only when every point satisfies a·x > rhs - tol.", "quantifier": "every instance, every linear constraint, every honest LP answer", "why_tests_cant": "All sets and all directions.", "anchors": ["hylaa/lputil.py:check_intersection"]}
{"id": "C11", "title": "Guard intersection is exact and leaves the source set untouched", "statement": "Transition.get_guard_intersection(lpi) returns None exactly when the set misses the guard (up to the documented tolerance), otherwise a new instance whose points are exactly the set's points inside the guard; the original instance represents the same set before and after.", "quantifier": "every set, every guard polytope", "why_tests_cant": "All points; independence of the copy must hold for every later mutation.", "anchors": ["hylaa/hybrid_automaton.py:Transition.get_guard_intersection", "hylaa/guard_opt_data.py:GuardOptData"]}
{"id": "C12", "title": "Resets are exact", "statement": "lputil.add_reset_variables maps the current-time set S to exactly {R x + M y | x in S, C y <= d}, also when the number of variables changes, for successor modes with or without inputs.", "quantifier": "every set, every R, M, C, d of matching shape, any previous history of the instance", "why_tests_cant": "Set equality, all shapes.", "anchors": ["hylaa/lputil.py:add_reset_variables"]}
{"id": "C13", "title": "Template aggregation contains the union and is tight", "statement": "lputil.aggregate(lpis, D, mode) returns a set containing every input set, whose bound in each used direction ±d equals the largest value over the inputs.", "quantifier": "every list of two or more sets, every direction matrix", "why_tests_cant": "Over-approximation must hold for all points of all sets.", "anchors": ["hylaa/lputil.py:aggregate"]}
{"id": "C14", "title": "Convex-hull aggregation is the convex hull", "statement": "lputil.aggregate_chull(lpis, mode) returns a set containing the convex hull of the union of the inputs, and equal to it when the inputs are bounded, for any number of inputs.", "quantifier": "every non-empty list of sets of the same dimension", "why_tests_cant": "Recursion over list length and all convex combinations.", "anchors": ["hylaa/lputil.py:aggregate_chull", "hylaa/lputil.py:_aggregate_chull_recursive"]}
{"id": "C15", "title": "minkowski_sum is exact", "statement": "lputil.minkowski_sum(lpis, mode) represents exactly {sum_i x_i | x_i in set i}.", "quantifier": "every non-empty list of sets of equal dimension", "why_tests_cant": "All list lengths, all points.", "anchors": ["hylaa/lputil.py:minkowski_sum"]}
{"id": "C16", "title": "bloat is exact and is not forgotten", "statement": "lputil.bloat(lpi, r) changes the set from S to exactly {s + e | s in S, |e_i| <= r}; later operations on the instance keep the bloating.", "quantifier": "every instance, every r >= 0, every later step", "why_tests_cant": "All points; 'later operations' is a history property.", "anchors": ["hylaa/lputil.py:bloat", "hylaa/lputil.py:set_basis_matrix", "hylaa/lputil.py:scale_with_bm"]}
{"id": "C17", "title": "from_input_constraints is B U", "statement": "lputil.from_input_constraints(B, C, d, mode) represents exactly {B u | C u <= d}.", "quantifier": "every B, C, d of matching shape", "why_tests_cant": "All points.", "anchors": ["hylaa/lputil.py:from_input_constraints"]}
{"id": "C18", "title": "compute_radius_inf is the infinity-norm radius", "statement": "lputil.compute_radius_inf(lpi) returns the maximum of |x_i| over all points x of the set and all dimensions i.", "quantifier": "every bounded non-empty instance the library can produce", "why_tests_cant": "Depends on the column layout of the instance, which tests fix.", "anchors": ["hylaa/lputil.py:compute_radius_inf"]}
{"id": "C19", "title": "get_box_center is the centre of the bounding box", "statement": "lputil.get_box_center(lpi) returns for every dimension the midpoint of the minimum and maximum of that coordinate over the set, and None if the set is empty.", "quantifier": "every instance with at least one dimension", "why_tests_cant": "All sets.", "anchors": ["hylaa/lputil.py:get_box_center"]}
{"id": "C20", "title": "is_point_in_lpi decides membership", "statement": "lputil.is_point_in_lpi(p, lpi) is True exactly when some point of the set starts with the coordinates p, and does not modify lpi.", "quantifier": "every point, every instance", "why_tests_cant": "All points and sets.", "anchors": ["hylaa/lputil.py:is_point_in_lpi", "hylaa/lputil.py:add_curtime_constraints"]}
{"id": "C21", "title": "The objective is always exactly the last requested direction", "statement": "After any interleaving of set_minimize_direction calls (dense or sparse, with or without offset), column additions and clones, the LP objective is exactly the last direction: no coefficient from an earlier direction survives.", "quantifier": "every history of direction settings, column additions and clones", "why_tests_cant": "History property: a leftover coefficient only shows after particular sequences.", "anchors": ["hylaa/lpinstance.py:LpInstance.set_minimize_direction", "hylaa/lpinstance.py:LpInstance.clone"]}
{"id": "C22", "title": "minimize's answer can be trusted", "statement": "LpInstance.minimize returns a result only if it is the solver's optimum, returns None only if the solver reported the problem infeasible (and with fail_on_unsat only after a second attempt, by raising UnsatError), and raises on every other solver outcome; it never returns a non-optimal point.", "quantifier": "every sequence of solver outcomes over the retries, every requested column list", "why_tests_cant": "Solver failures cannot be provoked in tests.", "anchors": ["hylaa/lpinstance.py:LpInstance.minimize", "hylaa/lpinstance.py:LpInstance._process_simplex_result"]}
{"id": "C23", "title": "clone is an independent equal copy", "statement": "LpInstance.clone() represents the same set with the same objective and reach variables, and no later operation on one affects the other.", "quantifier": "every instance, every later operation sequence", "why_tests_cant": "Independence is about all later histories.", "anchors": ["hylaa/lpinstance.py:LpInstance.clone"]}
{"id": "C24", "title": "Constraints read back are the constraints set", "statement": "get_full_constraints, get_types, get_rhs, get_row and get_dense_constraints together return the system that was set: rebuilding an LP from them gives the same solutions.", "quantifier": "every LP with <=, == and >= rows", "why_tests_cant": "All LPs.", "anchors": ["hylaa/lpinstance.py:LpInstance.get_full_constraints", "hylaa/lpinstance.py:LpInstance.get_rhs", "hylaa/lpinstance.py:LpInstance.get_types", "hylaa/lpinstance.py:LpInstance.get_row", "hylaa/lpinstance.py:LpInstance.get_dense_constraints"]}
{"id": "C25", "title": "Out-of-range constraint blocks are refused and in-range ones touch only their block", "statement": "set_constraints_csr/set_constraints_csc raise and leave the LP unchanged when the block does not fit; otherwise exactly the addressed rows (columns) get the given coefficients and every other row (column) keeps its own.", "quantifier": "every LP, every block, every offset", "why_tests_cant": "All shapes and offsets.", "anchors": ["hylaa/lpinstance.py:LpInstance.set_constraints_csr", "hylaa/lpinstance.py:LpInstance.set_constraints_csc"]}
{"id": "C26", "title": "Automaton construction keeps identities consistent", "statement": "For every sequence of new_mode/new_transition calls that succeeds, mode ids are 0,1,2,... in creation order, mode names are unique, each transition is listed in exactly its source mode at its transition_index, and a duplicate mode name is refused.", "quantifier": "every sequence of construction calls", "why_tests_cant": "History property.", "anchors": ["hylaa/hybrid_automaton.py:HybridAutomaton.new_mode", "hylaa/hybrid_automaton.py:HybridAutomaton.new_transition"]}
{"id": "C27", "title": "Invariant and guard constraints mean what the matrices say", "statement": "Mode.set_invariant stores one linear constraint per matrix row, and point_in_invariant / LinearConstraint.is_true hold exactly for the points with M x <= rhs (up to the documented tolerance); negating a constraint gives a·x >= b.", "quantifier": "every matrix, rhs and point", "why_tests_cant": "All points.", "anchors": ["hylaa/hybrid_automaton.py:Mode.set_invariant", "hylaa/hybrid_automaton.py:Mode.point_in_invariant", "hylaa/hybrid_automaton.py:LinearConstraint"]}
{"id": "C28", "title": "Guard strengthening does not remove or add successors", "statement": "HybridAutomaton.do_guard_strengthening changes only guards of identity-reset transitions, adding conditions of the target's invariant, so that a jump followed by the target invariant check is possible from exactly the same points before and after.", "quantifier": "every automaton", "why_tests_cant": "All automata, all points.", "anchors": ["hylaa/hybrid_automaton.py:HybridAutomaton.do_guard_strengthening", "hylaa/hybrid_automaton.py:LinearConstraint.almost_equals"]}
{"id": "C29", "title": "A time-triggered variable really evolves linearly", "statement": "If a variable is classified time-triggered by the tt detection then along every solution of x' = A x it is an affine function of time.", "quantifier": "every dynamics matrix, every solution", "why_tests_cant": "All solutions and all times.", "anchors": ["hylaa/hybrid_automaton.py:Mode.get_tt_vars", "hylaa/hybrid_automaton.py:HybridAutomaton.detect_tt_transitions"]}
{"id": "C30", "title": "The number of steps is the smallest that covers the time bound", "statement": "HylaaSettings(step, max_time) yields num_steps = ceil(max_time/step): num_steps*step >= max_time and no smaller number does.", "quantifier": "every positive step and non-negative time bound", "why_tests_cant": "All rationals (rounding cases).", "anchors": ["hylaa/settings.py:HylaaSettings"]}
{"id": "C31", "title": "Symbolic dynamics and conditions translate exactly", "statement": "symbolic.make_dynamics_mat, make_reset_mat and make_condition return matrices for which A x (and M x <= rhs) has, for every valuation, the value (truth) of the symbolic expression; non-linear input is refused.", "quantifier": "every expression, every valuation of the variables and constants", "why_tests_cant": "All expression shapes and valuations.", "anchors": ["hylaa/symbolic.py:extract_linear_terms", "hylaa/symbolic.py:make_dynamics_mat", "hylaa/symbolic.py:make_reset_mat", "hylaa/symbolic.py:make_condition"]}
{"id": "C32", "title": "A safe verdict is sound", "statement": "If Core.run finishes and reports that the system is safe (no error mode reached, or, with deaggregation on and aggregated errors not stopping the analysis, only aggregated errors that were all refined away), then no trajectory of the discrete-time semantics (flow by whole steps inside the invariant, jumps at step instants through guards, within the time bound) starting in an initial set enters an error mode. Class: no mode has both inputs and an invariant (C42 fails there), with skip_zero_dynamics_modes no zero-dynamics mode has inputs (C43 fails there), time-triggered transitions are absent or used as in C44 with their flag consumed by the set that raised it, deaggregation only with require_same_path (the default), the LP solver's answers are correct.", "quantifier": "every automaton in the stated class, every initial list, every aggregation strategy and deaggregation history, every honest solver, every number of rounds, every trajectory", "why_tests_cant": "Quantifies over all trajectories.", "anchors": ["hylaa/core.py:Core.run", "hylaa/core.py:Core.do_step", "hylaa/core.py:Core.do_step_pop", "hylaa/core.py:Core.do_step_continuous_post", "hylaa/core.py:Core.check_guards", "hylaa/stateset.py:StateSet.intersect_invariant"]}
{"id": "C33", "title": "A concrete error is real", "statement": "If Core reports a concrete (non-aggregated) error then some initial point has a trajectory of the discrete-time semantics (invariants relaxed by the documented tolerance) that enters that error mode within the time bound, provided the reset's Minkowski constraint sets are non-empty. (Without deaggregation; with deaggregation the claim as stated is false of the code.)", "quantifier": "every automaton, every initial list, every strategy", "why_tests_cant": "Absence of spurious unsafe verdicts cannot be sampled.", "anchors": ["hylaa/core.py:Core.error_reached", "hylaa/core.py:Core.check_guards", "hylaa/aggdag.py:AggDag"]}
{"id": "C34", "title": "Analysis stays in the time bound and terminates", "statement": "No state set is propagated for more than num_steps steps along any path, and if no transition cycle can be taken in zero time the analysis loop finishes after finitely many steps.", "quantifier": "every automaton, every strategy", "why_tests_cant": "Termination is not testable.", "anchors": ["hylaa/core.py:Core.do_step_continuous_post", "hylaa/core.py:Core.run", "hylaa/core.py:Core.is_finished"]}
{"id": "C35", "title": "Counterexample segments are a trajectory", "statement": "Each segment of a counterexample starts where the reset of the previous segment's end leads, its end is the flow of its start for the reported number of steps under the reported inputs, and the last end satisfies the guard into the error mode.", "quantifier": "every LP solution found on an error transition, every path length", "why_tests_cant": "All paths and all LP solutions.", "anchors": ["hylaa/result.py:make_counterexample", "hylaa/result.py:CounterExampleSegment"]}
{"id": "C36", "title": "No waiting state is lost or duplicated", "statement": "Popping the waiting list returns a non-empty batch and leaves exactly the others in order; every state added is eventually in exactly one popped batch; batches never mix modes, and error-mode or initial states are popped alone.", "quantifier": "every waiting list, every strategy score", "why_tests_cant": "All lists and histories.", "anchors": ["hylaa/aggdag.py:AggDag.pop_waiting_list", "hylaa/aggstrat.py:Aggregated.pop_waiting_list", "hylaa/aggstrat.py:Unaggregated.pop_waiting_list"]}
{"id": "C37", "title": "Aggregated pop takes the highest score and everything compatible", "statement": "Aggregated.pop_waiting_list selects the first state of maximal score and removes with it exactly the waiting states that are compatible with it (same mode, and same predecessor/transition path if required).", "quantifier": "every waiting list and every score function", "why_tests_cant": "All lists.", "anchors": ["hylaa/aggstrat.py:Aggregated.pop_waiting_list"]}
{"id": "C38", "title": "Aggregated sets carry the whole step interval", "statement": "An aggregated state set's step interval is the smallest interval containing the step intervals of its parts, it is marked non-concrete, and its points include every part's points.", "quantifier": "every list of parts", "why_tests_cant": "All lists.", "anchors": ["hylaa/aggdag.py:AggDag", "hylaa/stateset.py:StateSet"]}
{"id": "C39", "title": "Splitting a node partitions its parts", "statement": "Splitting an aggregated node gives two non-empty groups whose concatenation is a permutation of the original parts.", "quantifier": "every node with at least two parts and every split mode", "why_tests_cant": "All lists.", "anchors": ["hylaa/aggdag.py:AggDagNode.split", "hylaa/aggdag.py:AggDagNode"]}
{"id": "C40", "title": "A concrete state has no aggregated ancestor", "statement": "A state set flagged concrete was produced from an initial set through continuous steps and transitions only, never through an aggregation.", "quantifier": "every history of AggDag operations", "why_tests_cant": "History property.", "anchors": ["hylaa/aggdag.py:AggDag", "hylaa/stateset.py:StateSet.is_concrete"]}
{"id": "C41", "title": "Deaggregation loses no run into an error", "statement": "With deaggregation, splitting an aggregated node and replaying its recorded operations on the parts drops nothing that matters: at every moment of an analysis outside a replay, if the automaton can still enter an error mode and that has not been reported as a concrete error, a waiting set or the set being computed contains a point of such a run, at a time not earlier than the set's label.", "quantifier": "every automaton and initial set in the class of C32, every number of rounds, every aggregation/deaggregation history", "why_tests_cant": "It quantifies over all histories of splits and replays and over all concrete runs.", "anchors": ["hylaa/deaggregation.py:DeaggregationManager", "hylaa/aggdag.py:AggDag.remove_node_decendants"]}
{"id": "C42", "title": "Invariant handling is sound with inputs", "statement": "In a mode with inputs and an invariant, the set after k+1 steps contains every state reached by an input signal that keeps all k earlier samples in the invariant.", "quantifier": "every mode with inputs and invariant, every input sequence", "why_tests_cant": "All input sequences.", "anchors": ["hylaa/stateset.py:StateSet.intersect_invariant", "hylaa/lputil.py:add_init_constraint", "hylaa/stateset.py:StateSet.step"]}
{"id": "C43", "title": "Skipping zero-dynamics modes loses nothing", "statement": "With skip_zero_dynamics_modes, a state set is dropped after its first step only if all its later sets equal that one.", "quantifier": "every mode whose A matrix is zero", "why_tests_cant": "All modes and input sets.", "anchors": ["hylaa/core.py:Core.do_step_continuous_post"]}
{"id": "C44", "title": "Stopping at a time-triggered transition loses nothing", "statement": "With process of tt transitions, a state set is dropped after a tt transition was taken only if no later state of it stays in the invariant, and taking a tt transition in one state set never makes the analysis drop another one. (Both halves are false of the code in general: the direction of the variable is ignored, and the flag is not cleared between state sets.)", "quantifier": "every mode, guard and set", "why_tests_cant": "All trajectories.", "anchors": ["hylaa/core.py:Core.do_step_continuous_post", "hylaa/core.py:Core.check_guards"]}
{"id": "C45", "title": "Simulation traces are trajectories", "statement": "Every simulation produced in SIMULATION mode follows x_{k+1} = E x_k inside the invariant and jumps only through true guards of the current mode.", "quantifier": "every automaton, every number of simulations, every random choice", "why_tests_cant": "All schedules.", "anchors": ["hylaa/core.py:Core.do_step_sim", "hylaa/simulation.py:Simulation"]}
{"id": "C46", "title": "Timers obey stack discipline", "statement": "For every well-nested sequence of tic/toc the call stack ends as it began, every toc matches the innermost tic, and a mismatched toc raises.", "quantifier": "every sequence of tic/toc", "why_tests_cant": "All sequences.", "anchors": ["hylaa/timerutil.py:Timers", "hylaa/timerutil.py:TimerData"]}
{"id": "C47", "title": "Frozen objects never grow attributes", "statement": "After freeze_attrs() no assignment can add an attribute (it raises and leaves the object unchanged), while assignments to existing attributes always work.", "quantifier": "every sequence of assignments", "why_tests_cant": "All histories.", "anchors": ["hylaa/util.py:Freezable"]}
{"id": "C48", "title": "Leak accounting is exact and fail-stop", "statement": "SwigArray counts 8 bytes per element over all array allocations and raises MemoryError exactly at the first allocation that brings the total above the limit.", "quantifier": "every sequence of allocations and every limit", "why_tests_cant": "All sequences.", "anchors": ["hylaa/lpinstance.py:SwigArray"]}
{"id": "C49", "title": "Removing a state from the plot data removes it everywhere", "statement": "PlotData/PlotManager state removal leaves no plotted verts of that state in any subplot and leaves every other state's verts unchanged.", "quantifier": "every plot data content and number of subplots", "why_tests_cant": "All contents.", "anchors": ["hylaa/result.py:PlotData"]}
{"id": "C50", "title": "Plot vertices lie in the set", "statement": "Every vertex produced for plotting is the projection of a point of the state set, the polygon is closed, and for time plots the rectangle spans exactly the time interval and the extremes of the plotted dimension.", "quantifier": "every bounded set, every plot dimension choice", "why_tests_cant": "All sets.", "anchors": ["hylaa/lpplot.py:get_verts", "hylaa/kamenev.py:get_verts", "hylaa/lpplot.py:pt_to_plot_xy"]}
{"id": "C51", "title": "Counterexample replay covers the whole counterexample", "statement": "check_trace/replay groups equal consecutive inputs, its time stamps run from 0 to the end of each segment at the step spacing, and the total number of steps equals the segment's.", "quantifier": "every counterexample", "why_tests_cant": "All input sequences.", "anchors": ["hylaa/result.py:replay_counterexample", "hylaa/check_trace.py"]}
{"id": "C52", "title": "set_inputs stores exactly the given inputs and refuses only malformed or constant ones", "statement": "Mode.set_inputs(B, C, d) raises exactly when the dynamics are not set, the shapes of A, B, C, d do not fit, C u <= d is unsatisfiable, or (without allow_constants) some input that enters a single state variable is pinned by a pair of unit rows to within 1e-9; on success the mode's input set is exactly {u | C u <= d} with matrix B and nothing else of the mode changes.", "quantifier": "every mode, matrices B and C, right-hand side d and flag", "why_tests_cant": "All matrices and all input points.", "anchors": ["hylaa/hybrid_automaton.py:Mode.set_inputs", "hylaa/hybrid_automaton.py:Mode._check_inputs"]}
{"id": "C53", "title": "LGG approximation covers continuous time", "statement": "With approx_model = APPROX_LGG, the state set after k steps in a mode contains the state at every time in [k*step, (k+1)*step] of every trajectory of x' = A x + B u(t) that starts in the set with which the mode was entered, where the input u(t) may change at any time within the input set; the call is refused only if the bloating factor is out of its asserted range.", "quantifier": "every mode, initial set, input set, step size, step number, time and measurable input signal", "why_tests_cant": "Uncountably many times and input signals.", "anchors": ["hylaa/stateset.py:StateSet.apply_approx_lgg", "hylaa/stateset.py:StateSet.step", "hylaa/lputil.py:bloat", "hylaa/lputil.py:minkowski_sum", "hylaa/time_elapse_expm.py:use_lgg_approx"]}
{"id": "C54", "title": "Convex-hull approximation is the hull of the set and its one-step image", "statement": "With approx_model = APPROX_CHULL, the set with which a mode is entered is replaced by the closed convex hull of it and its image after one step (with all admissible inputs), and later steps map exactly that hull.", "quantifier": "every mode, set and number of steps", "why_tests_cant": "All sets and points.", "anchors": ["hylaa/stateset.py:StateSet.apply_approx_chull", "hylaa/stateset.py:StateSet.apply_approx_model", "hylaa/lputil.py:aggregate_chull"]}
{"id": "C55", "title": "Arnoldi directions are an orthonormal basis that follows the dynamics", "statement": "make_direction_matrix(point, A) returns exactly as many vectors as there are dimensions; they have length 1 and are pairwise orthogonal, so bounds in these directions bound every coordinate; the first is parallel to A*point (unless that is shorter than 1e-6), and A times direction i lies within 1e-6 of the span of the directions up to i+1. Random vectors drawn for null spaces cannot spoil this, and the function cannot get stuck: further draws can always complete it.", "quantifier": "every point, every square matrix (also singular or zero), every outcome of the random draws", "why_tests_cant": "All matrices, dimensions and random outcomes.", "anchors": ["hylaa/lputil.py:make_direction_matrix", "hylaa/aggregate.py:aggregate"]}
{"id": "C56", "title": "Re-orthogonalisation keeps order and span and gives orthonormal rows", "statement": "reorthogonalize_matrix(mat, dims) returns dims orthonormal rows; the first j rows span what the first j (independent) rows of mat span, each pointing the same way; mat is not changed.", "quantifier": "every matrix, number of dimensions and outcome of the random draws", "why_tests_cant": "All matrices (of any rank) and random outcomes; the tests only use matrices for which a unit vector completes the basis.", "anchors": ["hylaa/lputil.py:reorthogonalize_matrix", "hylaa/aggregate.py:aggregate"]}
{"id": "C57", "title": "With APPROX_LGG a safe verdict holds at all times, not only at the steps", "statement": "If Core.run with the approximation model APPROX_LGG ends with \"System is safe\", then no motion x' = A x + B u(t), with any admissible input signal, that starts in an initial set and stays in the invariant satisfies the guard of a transition to an error mode at any time within the time bound - also between two steps.", "quantifier": "every automaton (one continuous mode per initial set, transitions into error modes), initial boxes, step size, number of steps, input signal, motion and time", "why_tests_cant": "Continuous time: uncountably many motions, input signals and instants.", "anchors": ["hylaa/core.py:Core.do_step_pop", "hylaa/core.py:Core.do_step_continuous_post", "hylaa/stateset.py:StateSet.apply_approx_lgg", "hylaa/stateset.py:StateSet.step", "hylaa/core.py:Core.check_guards"]}
{"id": "C58", "title": "Two-dimensional plots are accurate", "statement": "The polygon lpplot.get_verts returns for two state variables misses no state of the set by a thousandth of the smaller side of the set's bounding box (at least 1e-5 long) or more, measured in the direction of any of its edge normals; if it is a single point, every state is that close to it in both coordinates; if it is a segment, every state lies on its line between its ends.", "quantifier": "every set (LP instance, whatever its history), pair of plotted variables and outcome of the support queries", "why_tests_cant": "All sets; the number of refinement rounds depends on the set, the tests look at a few boxes.", "anchors": ["hylaa/lpplot.py:get_verts", "hylaa/lpplot.py:bbox_widths", "hylaa/kamenev.py:get_verts", "hylaa/kamenev.py:_find_init_simplex", "hylaa/kamenev.py:_v_h_rep_given_init_simplex"]}
{"id": "C59", "title": "The drawing shows exactly the sets that were plotted and not deleted", "statement": "Whatever sequence of plotting calls an analysis makes (plot the current set, add the parts of a deaggregated set, delete a plotted set, start a frame, pop the next set), every subplot shows for every mode exactly the polygons of the sets plotted and not deleted, in plotting order, and the stored plot data list exactly those sets.", "quantifier": "every sequence of plotting calls, every number of subplots, every set shape and mode name", "why_tests_cant": "The index at which a polygon is deleted depends on the whole history of calls; tests look at a picture.", "anchors": ["hylaa/plotutil.py:DrawnShapes.add_reachable_poly", "hylaa/plotutil.py:PlotManager.plot_current_state", "hylaa/plotutil.py:PlotManager.add_plotted_states", "hylaa/plotutil.py:PlotManager.delete_plotted_state", "hylaa/plotutil.py:PlotManager.state_popped", "hylaa/stateset.py:StateSet.set_plot_path", "hylaa/stateset.py:StateSet.del_plot_path", "hylaa/result.py:PlotData"]}
{"id": "C60", "title": "The axes contain everything plotted", "statement": "Without user-given limits, after any sequence of plotted polygons the recorded limits are their exact bounding box and the axes of the subplot show all of them.", "quantifier": "every sequence of non-empty point lists", "why_tests_cant": "The limits are updated incrementally with early exits; every history of extensions has to be covered.", "anchors": ["hylaa/plotutil.py:PlotManager.update_axis_limits", "hylaa/plotutil.py:AxisLimits"]}
{"id": "C61", "title": "Vertices are those of the current set, and asking for them changes nothing", "statement": "StateSet.verts answers the vertices of the set as it is at the time of the call, over its current time interval and along the dimensions the settings give the subplot in this mode, whatever was plotted before; plotting at any points of an analysis leaves the set, its step counts and the time-elapse cache as they would be without plotting.", "quantifier": "every sequence of verts and step calls, every number of subplots and plot dimension setting", "why_tests_cant": "The cache depends on the history of calls.", "anchors": ["hylaa/stateset.py:StateSet.verts", "hylaa/stateset.py:StateSet.step", "hylaa/lpplot.py:get_verts"]}
{"id": "C62", "title": "The simulation lines in the result are the simulated trajectories", "statement": "After a simulation (run to completion, or animated with one step per frame), every line in result.sim_lines shows, point by point and along the axes of its subplot, the states of one simulation during one stay in a mode, from the state in which the mode was entered to the jump, the time bound or the first state outside the invariant; and every simulation that was started, and every one that entered another mode, has a line in every subplot.", "quantifier": "every automaton without inputs, every list of initial points, every number of rounds, every number of subplots and choice of axes", "why_tests_cant": "Which simulations run together, when lines are committed and who jumps first depend on the whole run.", "anchors": ["hylaa/plotutil.py:PlotManager.plot_current_sim", "hylaa/plotutil.py:PlotManager.commit_cur_sims", "hylaa/plotutil.py:DrawnShapes.set_cur_sim", "hylaa/plotutil.py:DrawnShapes.commit_cur_sims", "hylaa/core.py:Core.do_step_sim", "hylaa/core.py:Core.simulate"]}
{"id": "C63", "title": "How an analysis is displayed does not change what it computes", "statement": "Whether an analysis runs without plotting, into an image or video, or in a live or interactive window, and whatever frames are drawn and buttons pressed, it makes the same steps; when it has finished, result and verdict are those of a run without plotting; displaying it does not keep it from finishing or hide an exception; and the verdict that run() reports is that of a finished analysis.", "quantifier": "every computation, every draw_stride, pause and skip setting, every sequence of frames and button presses, every moment at which the window is closed", "why_tests_cant": "Frames, pauses and button presses interleave with the steps in any order; tests run without a window.", "anchors": ["hylaa/plotutil.py:PlotManager.anim_func", "hylaa/plotutil.py:PlotManager.anim_iterator", "hylaa/plotutil.py:PlotManager.compute_and_animate", "hylaa/plotutil.py:PlotManager.run_to_completion", "hylaa/plotutil.py:PlotManager.save_video", "hylaa/core.py:Core.run", "hylaa/core.py:Core.do_step"]}
{"id": "C64", "title": "The timing report says how the time was spent", "statement": "After any tic/toc history and a reset, if the clock advances between calls and every section is closed, print_stats succeeds and prints, for each nesting of section names used since the reset (or since the outermost name last changed), exactly one line with how often it was entered, the total length of its completed intervals and its share of the section around it; the time not accounted for inside a section is never negative; full_name is the dotted nesting, get_children_recursive finds each timer of a name once; a report with a section still open is refused.", "quantifier": "every earlier history of tic, toc and reset, every sequence of calls with every clock reading, every nesting of names", "why_tests_cant": "Sections with one name occur in many nestings and orders, reuse timers, and follow abandoned runs; clock readings vary.", "anchors": ["hylaa/timerutil.py:TimerData.get_children_recursive", "hylaa/timerutil.py:TimerData.full_name", "hylaa/timerutil.py:Timers.reset", "hylaa/timerutil.py:Timers.print_stats", "hylaa/timerutil.py:Timers.print_stats_recursive"]}
{"id": "C65", "title": "Looking up plotted sets", "statement": "PlotData.get_plot_data only answers an object plotted in that subplot whose shape contains the point, and answers one whenever the point is strictly inside some plotted shape; a click where only one plotted shape contains the point reports that set. get_verts_list answers the vertices of a mode's plotted sets.", "quantifier": "every plot data (any number of subplots, modes, objects and vertices), every point", "why_tests_cant": "Whether a shape contains a point depends on all its sides and orientations, and which object is answered on everything plotted before.", "anchors": ["hylaa/result.py:PlotData.get_plot_data", "hylaa/result.py:PlotData.get_verts_list", "hylaa/plotutil.py:PlotManager.on_click"]}
{"id": "C66", "title": "Colours of the modes", "statement": "In a plot every mode keeps its colour, whatever is plotted in between; different modes have different colours as long as there are not more modes than colours; the face of a shape is a lighter version of its edge; black, red, blue, colours with white or yellow in their name and very light colours are not used; and there is always a colour, the colours being used again in the same order when all have been used.", "quantifier": "every table of named colours, every shuffle, every sequence of plotted modes", "why_tests_cant": "The colour of a mode depends on all modes plotted before it; a test shows one sequence of modes.", "anchors": ["hylaa/plotutil.py:ModeColors.init_colors", "hylaa/plotutil.py:ModeColors.get_edge_face_colors", "hylaa/plotutil.py:ModeColors.lighter"]}
{"id": "C67", "title": "The picture of the aggregation DAG", "statement": "AggDag.viz draws every node that can be reached from a root, each once and nothing else, with its mode and the number of steps it ran (a star if the time bound was reached); every transition a complete node took is on an edge whose label contains its step; the two ends of a label are steps at which the transition was taken; edges lead to drawn nodes, dashed ones being the target modes of transitions not followed yet; and drawing ends.", "quantifier": "every aggregation DAG, complete or not", "why_tests_cant": "Which edges are merged and which nodes are visited depends on the whole history of the analysis; a test looks at one picture.", "anchors": ["hylaa/aggdag.py:AggDag.viz", "hylaa/aggdag.py:AggDagNode.viz"]}
