#!/usr/bin/env python3
"""Generates MANIFEST.json and checks that the theorem names exist in the Lean sources."""
import json, re, glob
C = {}
def c(i, status, thms, note=""):
    C[i] = {"property": i, "status": status, "theorems": thms, "note": note}

R = "Verif.Roadmap."
c("C01", "proved", [R+"C01_components_are_mutual_reachability"])
c("C02", "proved", [R+"C02_canReach_exact"])
c("C03", "proved", [R+"C03_partition"])
c("C04", "proved", [R+"C04_component_graph"])
c("C05", "proved", [R+"C05_pathExists_exact"])
c("C06", "partial", [R+"C06_pathExists_oneWay_partial", R+"C06_pathExists_oneWay_counterexample"],
  "The code violates the 'true only if reachable' half (counterexample); what it computes exactly is proved.")
c("C07", "proved", [R+"C07_addNode", R+"C07_no_duplicates", R+"C07_addNodeAndEdges_duplicate_counterexample"],
  "For distances that separate configurations. The counterexample shows the duplicates the statement mentions.")
c("C08", "proved", [R+"C08_edges_consistent", R+"C08_calls_succeed"])
c("C09", "proved", [R+"C09_twoWay_symmetric"])
c("C10", "proved", [R+"C10_monotone", R+"C10_clear"])
c("C11", "partial", [R+"C11_merge_partial", R+"C11_self_partial", R+"C11_self_counterexample"],
  "Holds for two different roadmaps. r.merge(r) never ends as soon as an edge has a positive length (counterexample for every such roadmap), and changes nothing otherwise.")
c("C15", "proved", [R+"C15_nearestNode", R+"C15_search"])
c("C60", "partial", [R+"C60_insertPathVector_partial", R+"C60_insertPathVector_counterexample"],
  "The last part of the statement fails (counterexample).")
A = "Verif.AStar."
c("C12", "proved", [A+"C12_chain"])
c("C13", "proved", [A+"C13_complete", A+"C13_pathExists"])
c("C14", "proved", [A+"C14_optimal", A+"C14_optimal_distance", A+"C14_parallel_counterexample", A+"C14_inconsistent_counterexample"],
  "The counterexamples show that the hypotheses on parallel edges and on consistency are needed.")
c("C16", "proved", ["Verif.NN.C16_kNearest", "Verif.NN.C16_zero_counterexample"], "For every priority queue implementation; K = 0 is undefined behaviour.")
c("C17", "proved", ["Verif.NN.C17_withinBall"])
c("C27", "proved", ["Verif.Intervals.C27_union"])
c("C28", "proved", ["Verif.Intervals.C28_value", "Verif.Intervals.C28_interval"])
c("C44", "proved", ["Verif.RelMotion.C44_closure", "Verif.RelMotion.C44_monotone"])
c("C18", "partial", ["Verif.KD.C18_search_partial", "Verif.KD.C18_distinct", "Verif.KD.C18_equal_counterexample", "Verif.KD.C18_clear_counterexample"], "Exact search proved for every insertion history inside the root box; the code itself reads an uninitialized variable when a full bucket holds equal configurations (or after clear()), shown by counterexamples; components are fixed at insertion (KDTree::merge is never called by Roadmap).")
PV="Verif.PathV."
c("C19","proved",[PV+"C19_eval",PV+"C19_throws"])
c("C20","partial",[PV+"C20_length",PV+"C20_concatenate",PV+"C20_flatten",PV+"C20_varying_counterexample",PV+"C20_self_counterexample"],"Length and concatenation for every construction history; flatten preserves evaluation when constraints do not depend on the parameter and no nested vector is empty. The counterexamples show a parameter-dependent constraint changes meaning under flatten, and self-concatenation does not terminate.")
c("C21","partial",[PV+"C21_forward_partial",PV+"C21_backward_partial",PV+"C21_nested_partial",PV+"C21_defined",PV+"C21_unconstrained",PV+"C21_constraints_counterexample"],"Holds for vectors whose own constraints do not change the result (in particular none); the code drops the vector's constraints, as the counterexample shows.")
c("C22","partial",[PV+"C22_reverse_partial",PV+"C22_involution_partial",PV+"C21_constraints_counterexample"],"Same restriction as C21.")
c("C23","partial",[PV+x for x in "C23_forward C23_backward_partial C23_backward_iff C23_backward_counterexample C23_compose_partial C23_compose_counterexample C23_velocity C23_derivative".split()],"Forward extraction, bounds and derivatives hold in general; reversal holds exactly when the lower end is 0 (counterexamples otherwise).")
c("C24","proved",[PV+x for x in "C24_points C24_between C24_defined C24_derivative C24_outside_counterexample".split()],"For insertions inside the range (not checked by the code, the counterexample shows what happens outside).")
c("C25","partial",[PV+x for x in "C25_extract_partial C25_extract_end_counterexample C25_reverse_partial C25_reverse_counterexample C25_velocity_partial C25_velocity_counterexample".split()],"Extraction except the empty part at the very end (undefined behaviour); reversal only if the range starts at 0; velocity bound only if t0 is a way point: the code is wrong otherwise (counterexamples).")
c("C26","partial",[PV+x for x in "C26_ends C26_speed C26_extract_partial C26_constraints_counterexample".split()],"Extraction without constraints; with constraints the extracted part interpolates between projected ends (counterexample).")
c("C61","proved",[PV+"C61_velocityBound"])
c("C62","partial",[PV+x for x in "C62_extract_forward C62_velocity C62_derivative C62_shift_counterexample C62_reverse_counterexample C62_extracted_bound_counterexample".split()],"Evaluation, derivative, bound, and forward extraction of paths with the default extraction; the code is wrong for classes that shift their range, for reversal and for the bound of extracted paths.")
V="Verif.Validation."
CV="Verif.CV."
c("C29","proved",[V+x for x in "C29_valid C29_fail C29_between_samples_counterexample".split()],"The counterexample records that nothing is claimed between samples.")
c("C30","proved",[V+x for x in "C30_terminates C30_count C30_zero_step".split()])
c("C31","proved",[CV+x for x in "C31_valid C31_fail C31_terminates".split()])
c("C32","proved",[CV+x for x in "C32_valid C32_fail C32_terminates".split()])
c("C36","partial",[V+x for x in "C36_conjunction C36_part_partial C36_end_counterexample C36_reverse_counterexample C36_null_report_counterexample".split()],"The verdict is the conjunction; the returned part is valid for all validations in forward direction when the part reported is a prefix; the code is wrong in reverse (counterexamples).")
c("C37","proved",[V+x for x in "C37_conjunction C37_first_report C37_jointBound C37_jointBound_report".split()])
c("C63","proved",[V+x for x in "C63_verdict C63_report".split()])
c("C34","partial",[CV+x for x in "C34_pair_partial C34_progressive_partial C34_dichotomy_partial C34_tolerance_counterexample C34_refine_counterexample".split()],"Penetration at most twice the tolerance, for straight paths or zero tolerance; the counterexamples show that the code accepts penetrations beyond the tolerance, and any penetration when the velocity is refined with a positive tolerance.")
c("C35","proved",[CV+x for x in "C35_interval C35_fails C35_smallest".split()])
c("C64","proved",[CV+x for x in "C64_progressive C64_dichotomy".split()])
c("C33","partial",[CV+x for x in "C33_forward C33_part C33_prefix C33_nested C33_report_partial C33_report_counterexample C33_reverse_counterexample".split()],"Forward direction, nested vectors included; in reverse direction the code accesses a piece out of bounds for every vector (C33_reverse_counterexample).")
O="Verif.Obst."
c("C38","proved",[O+x for x in "C38_history C38_requests C38_filter C38_filter_perm C38_remove C38_add C38_addToJoint C38_margins C38_marginBetween C38_remove_filtered_counterexample C38_remove_atomic_counterexample C38_marginBetween_counterexample".split()],"The counterexamples record limits of the interface: a filtered pair cannot be removed, a throwing removal is not atomic, only the first pair between two bodies gets the margin.")
c("C65","partial",[O+"Cont."+x for x in "C65_removeObject C65_remove_partial C65_remove_ub C65_add C65_add_remove_counterexample C65_filter_partial C65_filter_diverges_counterexample C65_marginBetween_partial C65_marginBetween_counterexample C65_margins".split()],"Removal has undefined behaviour as soon as a body pair becomes empty, filtering never ends with a validation that is not a body pair, and a margin update that matches nothing is not reported.")
PL="Verif.Planner."
c("C39","proved",[PL+x for x in "C39_outcome C39_terminates C39_maxIterations C39_only C39_any_target C39_any_target_ends C39_interrupt_counterexample reached_none reached_iff".split()],"The exact outcome for targets whose test has no effect, and for all targets (C39_any_target) the same meaning of outcomes; the counterexample records that an interruption wins over a solved problem.")
c("C40","proved",[PL+x for x in "C40_call C40_active".split()])
c("C41","partial",[PL+x for x in "C41_order C41_links C41_complete C41_connect C41_finishes C41_neighbors C41_one_node_counterexample".split()],"With at least two nodes; numberOfNodes = 1 asks for zero neighbors, which is undefined behaviour (counterexample).")
c("C66","partial",[PL+x for x in "C66_diffusing C66_diffusing_iteration C66_diffusing_delayed C66_visibility C66_birrt_partial C66_birrt_counterexample C66_birrt_null_counterexample Star.C66_birrtstar_partial Star.C66_birrtstar_straight_partial Star.LineStar.C66_birrtstar_counterexample Star.LineStar.C66_birrtstar_second_counterexample".split()],"Proved for the diffusing planner and visibility PRM; for BiRRT without constraints and up to paths reduced to a point. With constraints BiRRT inserts discontinuous edges, and it may use a null pointer (counterexamples). BiRRT*: from an empty roadmap, only a draw near the best path just after the trees met, or a loop that does not end, makes it fail, and the loops end for shortest paths and bounded distances; both this draw and a second resolution read end() (counterexamples).")
c("C67","partial",[PL+x for x in "C67_diffusing C67_diffusing_noError C67_kprm C67_visibility C67_visibility_noError C67_birrt_partial C66_birrt_counterexample Star.C67_birrtstar".split()],"Same restriction for BiRRT as C66; BiRRT* from an empty roadmap.")
c("C68","proved",[PL+"C68_visibility"],"The loop that shoots until the configuration is valid is a parameter.")
OP="Verif.Optim."
c("C42","proved",[OP+x for x in "shootTimes_ordered C42_random Simple.C42_simple".split()],"For a closed path, SimpleShortcut returns the steering path from the configuration to itself.")
c("C43","partial",[OP+x for x in "C43_full C43_waypoints C43_default_partial C43_random_idle_counterexample C43_null_counterexample C43_random_junk_counterexample".split()],"Proved for the default parameters; the random phase never improves a path because its test on the evaluation of the path is inverted, and when enabled it can return a path that was not validated (counterexamples).")
c("C69","proved",[OP+"C69_random_terminates"],"Lengths and distances in an Archimedean ordered field.")
c("C70","proved",[OP+"Simple.C70_simple_shorter"])
PJ="Verif.Proj."
c("C47","partial",[PJ+x for x in "C47_dichotomy C47_terminates C47_diverges_counterexample C47_null_counterexample".split()],"The chain of pieces is proved for all paths; termination when each split shrinks lengths by a fixed amount. The code may not terminate without this (counterexample) and dereferences null constraints (counterexample).")
c("C48","proved",[PJ+x for x in "C48_progressive C48_terminates".split()],"The initial configuration is assumed to satisfy the constraints (only asserted by the code). Includes the way points stored in the interpolated path.")
c("C49","partial",[PJ+x for x in "C49_success C49_vector_partial C49_continuous_partial C49_stale_counterexample".split()],"Result is the stated concatenation when the projection of each piece assigns its output; otherwise the stale output of the previous piece is appended again (counterexample).")
c("C71","partial",[PJ+x for x in "C71_hermite C71_terminates C71_empty_counterexample C71_beta_counterexample".split()],"Proved for interpolated paths with at least two way points; with one way point the result is an empty vector (counterexample). Coefficient 1 may not terminate.")
CN="Verif.Cons."
c("C45","partial",[CN+x for x in "C45_step C45_observations C45_trivial_counterexample C45_strong_counterexample".split()],"Refinement to lists of added constraints for all histories. Adding a set also adds its hidden trivial projector, and an exception while adding a set leaves the first members added (counterexamples).")
c("C72","proved",[CN+x for x in "C72_apply_fixed C72_apply_success C72_projector C72_optimize C72_optimize_outcome C72_order_counterexample".split()],"For solvers that report success only on satisfying configurations. The counterexample shows that the hypothesis on the order of members is needed.")
PB="Verif.Prob."
c("C46","proved",[PB+x for x in "C46_container C46_setParameter C46_getParameter C46_type C46_redeclare_counterexample".split()],"The counterexample shows that C46_type needs that a name is not declared again with another type.")
c("C73","proved",[PB+"C73_checkProblem"])
SV="Verif.Solver."
c("C57","proved",[SV+x for x in "C57_registry C57_defined C57_robot_counterexample C57_robot_remove_counterexample C57_no_robot_counterexample".split()],"For histories that set the robot first, and set it again only when no obstacle is registered; the counterexamples show what happens otherwise (the lists of obstacles are not cleared).")
c("C74","partial",[SV+x for x in "C74_covered C74_init_counterexample C74_flags_counterexample C74_duplicate_counterexample".split()],"All histories without a direct call to initConfigValidation, which forgets the obstacles (counterexample). The other counterexamples: obstacles registered for distance only are also checked for collision; obstacles are given several times.")
TP="Verif.TimeParam."
c("C50","proved",[TP+x for x in "C50_order0 C50_order1 C50_order2 C50_optimize C50_defined C50_still_counterexample".split()],"Also for the whole optimizer: order of pieces, velocity limits of each degree of freedom, rest at the ends, acceleration bound; the final check never fails. The counterexample: a motionless piece makes the call throw. Real numbers.")
c("C51","partial",[TP+x for x in "C51_derivativeBound_partial C51_cubic_counterexample C51_quintic_counterexample".split()],"True for degrees 1, 2, and 3 without extremum of the derivative inside the interval. False for degree 3 with such an extremum (wrong expression); degree 5 is refused.")
c("C52","proved",[TP+x for x in "C52_lookup C52_value C52_high_order_counterexample".split()],"The counterexample: derivatives of high order are 0 even outside of the range.")
c("C75","proved",[TP+x for x in "C75_polynomial C75_hasDeriv".split()])
RS="Verif.TimeParam.RS."
c("C53","partial",[RS+x for x in "C53_profile_partial C53_bound_partial C53_distance_counterexample C53_unreachable_counterexample C53_bound_counterexample C53_tiny_counterexample".split()],"False: with a constant speed segment the distance is exceeded by twice the deceleration distance; when the target speed cannot be reached times decrease; derivativeBound looks at the ends only.")
c("C76","partial",[RS+x for x in "C76_rs_partial C76_last C76_cusp_counterexample".split()],"The speed jumps at changes of direction; the length is exceeded when there is a constant speed segment (C53).")
LN="Verif.Linear."
c("C58","proved",[LN+x for x in "C58_decompose C58_empty C58_check C58_reduce".split()],"Exact arithmetic; the orthogonal decomposition of Eigen is a parameter with a contract. When there is no row, decompose does not set rank.")
c("C77","proved",[LN+x for x in "C77_reduced C77_solve C77_optimum C77_symmetric_counterexample".split()],"Exact arithmetic; the counterexample shows that the matrix of the cost has to be symmetric.")
DS="Verif.Dist."
c("C59","partial",[DS+x for x in "C59_weights C59_weights_partial C59_weights_counterexample C59_distance C59_setWeights C59_setWeight C59_negative_rank_counterexample".split()],"Pseudo-metric properties proved for all weights. Default weights: exact characterisation; finite and positive when the first length is positive, infinite for joints of length zero before any other (counterexample, mentioned in a comment of the source). setWeight does not refuse negative ranks.")
SP="Verif.Spline."
c("C54","partial",[SP+x for x in "C54_basis C54_value C54_hull C54_derivative C54_maxVelocity C54_velocityBound_partial C54_null_counterexample C54_order_counterexample C54_quintic_counterexample C54_septic_counterexample".split()],"Values, end points, convex hull, derivatives of all orders and maxVelocity for all degrees. velocityBound: true for degrees 1 and 3, false for 5 and 7 (wrong extrema). When the range is empty the last control point is not reached; orders above 2 (n + 1) read out of an array.")
c("C78","partial",[SP+x for x in "C78_integral_partial C78_range C78_order0 C78_gradient C78_order1_counterexample".split()],"The result is the integral divided by n!/(n-k)!: true for order 0 only (the factor is applied once instead of twice). The gradient is the one of the value returned.")
c("C55","partial",["Verif.Speed."+x for x in "C55_sequence C55_obstacles C55_pair_partial C55_pair_counterexample".split()],"Proved for bodies and obstacles of the environment, in any normed space. For two joints of the robot the result is not a bound: downward joints need the distance to the parent, the reverse sum uses the radius of the wrong body, and the smaller sum is returned.")
KI="Verif.Kino."
c("C56","partial",[KI+x for x in "C56_minTime C56_fixedTime_partial C56_steer_partial C56_vertical_partial C56_still_counterexample C56_constant_counterexample".split()],"Exact arithmetic. Every degree of freedom reaches its target within the bounds, except in two degenerate cases, where the code is wrong: same position with the same nonzero velocity, and a displacement at constant velocity. Translations only (the code has no other).")
c("C79","partial",[KI+x for x in "C79_minTime C79_distance_partial C79_distance_counterexample C79_max".split()],"Steering method: minimal among all motions with Lipschitz velocity. Distance: minimal except when a direct acceleration joins the states with negative velocities (counterexample: 5 instead of 1).")
c("C80","partial",[KI+x for x in "C80_eval C80_velocity C80_derivative_partial C80_velocityBound_counterexample".split()],"The derivative and the velocity bound are inherited from StraightPath and are wrong (counterexample): velocityBound is lower than the actual velocity.")
c("C81","partial",[KI+x for x in "C81_extract C81_degenerate C81_wait_counterexample".split()],"Proved for all paths whose phases sum up to the length. False along the vertical axis when it is not synchronized and waits at the end (counterexample).")
c("C82","proved",[KI+x for x in "C82_requiredTime C82_steer C82_acceleration".split()],"Termination of the loop included.")
c("C83","partial",[PL+"Star."+x for x in "C83_start C83_start_goals C83_step_partial C83_path_length C83_path_success C83_extend_length C83_costs C83_run C83_connect C83_ends_partial LineStar.C66_birrtstar_counterexample LineStar.C66_birrtstar_second_counterexample".split()],"From an empty roadmap and one goal. Costs never increase, the recomputation of the maps included, when the direct connection failed. Missing: the step after the trees met may read end() (counterexample), and the loop that connects the trees is proved to end only for shortest paths without constraints.")
c("C84","proved",[PL+"Star.C84_computeParentMap",PL+"Star.C84_pop"],"For any queue that gives back its elements in any order; C84_pop specifies the order of the code.")
CA="Verif.Car."
c("C85","partial",[CA+x for x in "C85_create C85_extract C85_reverse C85_rolling C85_heading C85_turn C85_wheels_counterexample".split()],"Everything but the wheels, which jump to the value of the curvature at the beginning of the path (counterexample): the initial value of the path differs from the initial configuration.")
c("C86","partial",[CA+x for x in "C86_velocity C86_derivative_partial C86_derivative_opposite C86_derivative_counterexample C86_absCosineMax C86_absSineMax_partial C86_absSineMax_counterexample C86_bound_rotation C86_bound_partial C86_bound_world_partial C86_bound_counterexample C86_angles_counterexample C86_bound_norm C86_displacement".split()],"Velocity right; derivatives of even orders have the opposite sign in half of the cases. The velocity bound is about the frame of the world whereas the velocity is in the frame of the car: right on lines and when the car turns by more than pi, wrong otherwise (counterexamples). The norm of the two components, which is what continuous validation uses, is right on all intervals (C86_bound_norm, see C159).")
c("C87","partial",[CA+x for x in "C87_dubins_partial C87_shortest C87_triangle C87_steer C87_still_counterexample".split()],"Exact arithmetic. C87_shortest: between two different poses the distance driven is the least one among all the curves along which the car rolls forward and turns by at most the inverse of the radius per unit of length (theorem of Dubins, proved in Car/Drive, Car/Shorten and Car/DubinsThm). When the two poses of the car are the same the lengths are 0/0 (counterexample); the last configuration is the requested one up to the wheels.")
c("C88","partial",[CA+"RS."+x for x in "C88_candidates C88_choice C88_shortest_partial C88_shortest_counterexample C88_path_partial C88_near_found C88_steer_partial C88_found C88_path_all_partial C88_steer_all C88_still_counterexample".split()],"Exact arithmetic. Every word leads to the target and a word is found for every target. The word is the shortest one only when the radius is 1 (counterexample for the radius 10). Segments shorter than the precision are dropped, so that the path ends near the target (bound proved); targets very close with respect to the radius are not reached at all (counterexample).")
SO="Verif.SplineOpt."
c("C89","partial",[SO+x for x in "C89_updateSplines C89_interpolate C89_continuity C89_commutative C89_junction C89_rotation_counterexample C89_optimum_counterexample C89_updateParameters_counterexample".split()],"Proved for vector spaces and for commutative groups (translations, unbounded rotations about one axis). False with rotations of space: the control points of a spline are tangent vectors at its first configuration before the optimization, and the constraints compare those of two splines with different bases; with a ball joint all the equality constraints can hold while the orientation jumps at the junction (counterexample, any degree; C89_junction says exactly when it does not), and the optimum itself jumps (degree 1, C89_optimum_counterexample). The unused method updateParameters skips the first two splines (counterexample).")
c("C90","proved",[SO+x for x in "C90_steer C90_sizes C90_null C90_straight C90_append C90_smooth".split()],"Exact solution of the linear system; derivatives are those of the coordinates (before the Jacobian of the integration). Orders of derivatives have to be distinct and small enough for the degree.")
c("C91","partial",[SO+x for x in "C91_rows C91_validate_partial C91_odd_counterexample C91_refused_counterexample".split()],"Vector spaces. Control points are checked instead of the path, so that some paths within the bounds are refused; with an odd number of finite bounds violations are not seen (counterexamples).")
c("C92","partial",[SO+x for x in "C92_value_partial C92_refused C92_hessian C92_jacobian C92_convex C92_lambdas C92_lambdas_counterexample".split()],"The cost of a piece is the integral divided by n!/(n-k)! (see C78): the weights of the pieces are the same, so that minima are the same ones when all pieces have the same degree, which is the case. If all pieces have length 0 the weights are not finite (counterexample).")
c("C93","partial",[SO+x for x in "C93_valid C93_cost C93_path C93_commutative C93_total C93_rotation_counterexample C93_returnOptimum C93_unsolved_counterexample C93_linearize_counterexample C93_linearize_reached".split()],"Validity of the pieces, constraints, cost and absence of exception in any configuration space; continuity and ends in vector spaces and commutative groups (C93_path, C93_commutative); false with rotations of space: with a ball joint the path returned jumps at a junction though all its pieces are valid (C93_rotation_counterexample). Joint bounds in vector spaces. Proved without the parameters returnOptimum (the path returned is then not validated: C93_returnOptimum) and linearizeAtEachStep (a vector is read out of range: counterexamples), and with a solver which solves the programs that have solutions (otherwise an arbitrary vector is used: counterexample). Reports of joint bound violations raise an exception.")
c("C94","partial",[SO+x for x in "C94_terminates_partial C94_alphaOne_counterexample C94_zero_counterexample".split()],"Ends when 0 < alphaInit < 1, costThreshold > 0, costs are bounded from below by a positive number, and constraints are not linearized at each step. Otherwise it may loop for ever (counterexamples: alphaInit = 1, an optimum of cost 0).")
PR="Verif.Proj."
c("C95","partial",[PR+x for x in "C95_waypoints C95_distances_partial C95_initial C95_short C95_reinterpolate_terminates C95_full_terminates C95_last_counterexample C95_jump_counterexample C95_termination_counterexample".split()],"Version without bound on the hessian (the default). Way points and ends: always right. Distances: right when no discontinuity is detected, except between the last two way points, which are never checked nor refined (counterexample: any path may be replaced by the segment between its ends); after a discontinuity is detected the projector may succeed with lengths that are not up to date (counterexample). The outer loop may not end (counterexample).")
c("C96","partial",[PR+"Hess."+x for x in "C96_path C96_defined C96_same C96_inside C96_reinterpolate_terminates C96_rejected_counterexample C96_interpolated_counterexample C96_zero_counterexample C96_termination_counterexample".split()],"Paths that are not interpolated paths: everything but the end of the outer loop (counterexample), and a path whose first or last configuration has a small singular value is returned as is, with success (counterexample). For interpolated paths the end of the list is written (counterexample). The threshold has to be positive (counterexample).")
SE="Verif.Session."
c("C97","partial",[SE+x for x in "C97_components C97_validations C97_names C97_distance_counterexample C97_reset_counterexample C97_validation_counterexample C97_problem_counterexample".split()],"Everything but the distance, which has no effect (counterexample). Selections made before the robot is given are used by solve, but not before by directPath (counterexample). addConfigValidation without problem throws after it has changed the selection (counterexample). Components set on the problem itself are lost (counterexample).")
c("C98","partial",[SE+x for x in "C98_target C98_prepare C101_task_counterexample".split()],"With goal constraints prepareSolveStepByStep always answers no (C98_prepare, C101_task_counterexample).")
c("C99","partial",[SE+x for x in "C99_shared C99_settings_partial C99_settings_counterexample C99_unknown_counterexample C99_hermite_counterexample".split()],"The settings of a config projector added by addConstraint are its own (counterexample). A call with an unknown name leaves an empty config projector (counterexample). The path projector RecursiveHermite keeps older constraints (counterexample).")
c("C100","partial",[SE+x for x in "C100_solve C100_append C100_ids C100_add_erase C100_direct C100_direct_counterexample".split()],"directPath: undefined behaviour if the projection gives no path, and empty report if the projection fails with a valid path (counterexample).")
c("C101","partial",[SE+x for x in "C101_steps_partial C101_reset_counterexample C101_problem_counterexample C101_task_counterexample".split()],"For goal configurations, as long as the roadmap and the problem are not reset; undefined behaviour otherwise (counterexamples). With goal constraints the answer is always no (counterexample).")
SA="Verif.Sampling."
c("C102","partial",[SA+x for x in "C102_uniform_partial C102_uniform_throws C102_uniform_ends C102_zero_counterexample C102_nan_counterexample C102_seedable C102_seedable_outcome".split()],"Extra degrees of freedom that are not sampled are set to 0 even out of their bounds; twice the same infinite bound is not refused and gives a value that is not a number; UniformSeedable does not check bounds (counterexamples, C102_seedable_outcome). randomConfiguration of pinocchio by contract.")
c("C103","partial",[SA+x for x in "C103_settings_partial C103_bounds C103_returns_partial C103_extra_counterexample C103_center_counterexample C103_rotation_counterexample".split()],"Joints only: the deviations of extra degrees of freedom are never initialized; an empty center (the default of the problem solver) is undefined behaviour; the default deviation of rotations of the plane is not the documented one (counterexamples).")
c("C104","partial",["Verif.Kino."+x for x in "C104_position C104_facing C104_ends C104_keeps C104_extract_partial C104_null C104_steer_counterexample C104_extract_counterexample".split()],"The path does not join the configurations asked for: their orientation is replaced (counterexample). The values of a part are the same ones when the velocity is not zero (counterexample otherwise); null pointer for an interval reduced to a point (C104_null). Translations and base orientation only.")
c("C105","partial",[PL+x for x in "C105_reached_partial C105_noinit C105_goals C105_solves C105_reset C105_found_partial C105_start Line.C105_oneway_counterexample Line.C105_duplicate_counterexample Line.C105_assertion_counterexample".split()],"Configurations that can only be reached one-way are ignored; with the same configuration in two components the search may fail after a positive test; two tests in the same iteration violate an assertion (counterexamples).")
c("C106","proved",[PL+x for x in "C106_search".split()],"For roadmaps without node inserted one-way (C01); steering from a configuration to itself assumed not to fail; shortest for a consistent heuristic.")
c("C107","partial",[PL+x for x in "C107_solve C107_invariant C107_add Line.C107_tryConnect_counterexample".split()],"The direct connection of the base class is tried even if the planner overrides it (counterexample with SearchInRoadmap, which then modifies the roadmap); the limits of the inner planner are not used.")
c("C108","partial",["Verif.Path.Hermite."+x for x in "C108_ends C108_derivatives C108_set C108_create C108_velocity C108_straight C108_length_partial C108_longer C108_distance C108_copy HEx.C108_length_counterexample HEx.C108_copy_counterexample".split()],"The methods of Spline that change the parameters do not reset the length (counterexample); a copy with constraints replaces the velocities that were set (counterexample). Derivatives in the tangent space at the initial configuration.")
c("C109","partial",["Verif.PathV."+x for x in "C109_rview C109_eval C109_ends C109_extract C109_compose C109_copy C109_copyWith C109_copy_counterexample".split()],"A copy with constraints cannot be evaluated (counterexample). Derivatives are not defined by the class.")
c("C110","partial",["Verif.Car."+x for x in "C110_snibud_partial C110_shortest C110_still_counterexample C110_constraints_counterexample".split()],"Same restrictions as C87: exact arithmetic, first configuration up to the wheels; C110_shortest: the least distance among all the curves driven backward; the lengths are 0/0 between configurations with the same pose (counterexample); the constraints are lost by the reversal (counterexample).")
c("C111","partial",["Verif.Car."+x for x in "C111_split C111_wheels C111_radius_partial C111_extra C111_joints C111_copy_partial C111_copy_counterexample C111_radius_counterexample".split()],"The constructor with parameters accepts a radius that is not positive; the copy has no wheels (counterexamples).")
c("C112","partial",["Verif.TimeParam."+x for x in "C112_grid C112_knots C112_velocity C112_law C112_result_partial C112_outcome TEx.C112_shift_counterexample TEx.C112_grid_counterexample TEx.C112_zero_counterexample C112_bound_counterexample".split()],"False for pieces whose parameter does not start at 0, for pieces already parameterized and for N = 0; derivativeBound of the parameterizations calls itself forever (counterexamples). The solver of the toppra library is an oracle.")
c("C113","proved",["Verif.Roadmap."+x for x in "C113_invariant C113_roundtrip C113_continue C113_written".split()],"The order of ties between nearest nodes may change, since components are stored in the order of their addresses.")
c("C114","proved",["Verif.PathArchive."+x for x in "C114_roundtrip C114_written C114_timed".split()],"Tracking of shared pointers by boost is not modelled: constraints are read as the objects that were written.")
c("C115","partial",["Verif.ProblemCopy."+x for x in "C115_copy_partial C115_config C115_validations_partial C115_frame C115_setters C115_obstacles_counterexample C115_shared_counterexample C115_goals_counterexample".split()],"The copy loses goals, distance, steering method, shooter and constraints; its path validation ignores the obstacles; configuration validations are shared with the original (counterexamples).")
c("C116","proved",["Verif.ProblemCopy."+x for x in "C116_find C116_load C116_once C116_twice_counterexample".split()],"Loading the same library twice initializes twice (C116_twice_counterexample). The file system and the dynamic loader are parameters.")
c("C117","proved",["Verif.ProblemCopy.C117_distances"],"The distance between two objects (coal) is a parameter.")
c("C118","partial",["Verif.Obst.Pool."+x for x in "C118_initialize C118_pool C118_filter C118_break_partial C118_break_counterexample".split()],"The pairs added by initialize keep the default break distance of coal (counterexample); without initialize the claim is proved.")
c("C119","proved",["Verif.Compress."+x for x in "C119_uncompress C119_compress C119_matrix C119_product".split()],"Free variables are disjoint blocks, as provided by the explicit constraint set.")
c("C120","partial",["Verif.Compress."+x for x in "C120_frame C120_create C120_setters C120_threshold C120_rhs_partial C120_rhs_counterexample".split()],"rightHandSide for a constraint not in the projector does nothing, silently (counterexample). The solver of hpp-constraints is modelled by its right hand sides.")
c("C121","proved",["Verif.Optim.Monitor."+x for x in "C121_loop C121_limits C121_random C121_interrupt_counterexample".split()],"An interruption asked for before optimize is forgotten (C121_interrupt_counterexample). Only RandomShortcut and the gradient based optimizers use these limits.")
c("C122","partial",["Verif.Dist.W."+x for x in "C122_length C122_velocity_partial C122_far_partial C122_column C122_velocity_counterexample C122_unit_counterexample".split()],"Proved up to a factor two, and exactly when distances are null or at least one; the code squares distances between joints (line 118), so the plain bound is false and depends on the unit of length (counterexamples).")
c("C123","partial",["Verif.Clone."+x for x in "C123_frame C123_setters C123_copy_partial C123_independent C123_clone_partial C123_parameters C123_kino_counterexample C123_wheels_counterexample C123_vertical_counterexample".split()],"Copies agree except for the defects shown by the counterexamples: bounds of the kinodynamic distance, wheels of car steering methods, vertical acceleration bound.")
c("C124","partial",["Verif.Roadmap.Manual."+x for x in "C124_edge C124_refused C124_config C124_added C124_session_partial C124_ends_counterexample".split()],"The last sentence needs the caller to give a path between the two configurations: the code accepts any path (counterexample).")
c("C125","partial",["Verif.Rhs."+x for x in "C125_stable C125_copy C125_steer C125_frame C125_check C125_project_partial C125_shared_counterexample C125_project_counterexample C125_pieces_counterexample".split()],"Proved for the operations of the library; the three sharing defects named in the statement are shown by counterexamples.")
c("C126","proved",["Verif.EndToEnd."+x for x in "C126_diffusing C126_visibility C126_birrt C126_kprm C126_birrtstar C126_noError Plane.C126_penetration_counterexample Plane.C126_wall_counterexample sampled_free check_discretized check_continuous contract pointContract safe_of_solves".split()],"Composition of C20, C26, C29, C30, C31, C32, C34, C61, C64, C66 and C67: the contracts of the planners are proved of the models of straight paths and of the three path validations. Assumed: the collision library returns positive lower bounds of distances, distances vary no faster than the weighed displacement of the joints. The bound of twice the tolerance is reached, and with the discretized validation walls thinner than a step are crossed (counterexamples).")
c("C127","proved",["Verif.EndToEnd."+x for x in "C127_optimize C127_solve apply_safe optContract built_lawful safeVec_safe safeVec_of".split()],"Composition of C126 with C42: the contracts of the optimizers are proved of the models of straight paths and of the three path validations. PartialShortcut is left out: it dereferences the constraints of the paths (C43_null_counterexample), absent here. Spline optimizers are treated separately (C45 and followers).")
c("C128","partial",["Verif.PathV."+x for x in "C128_speed C128_geoPair_partial C128_extract_partial C128_halfturn C128_halfturn_counterexample".split()]+["Verif.HalfTurn.C128_planner_counterexample"]+["Verif.Joints."+x for x in "C128_joints_partial C128_joints_extract_partial C128_ball_counterexample".split()],"Speed proved for all pairs (ball joints: C137_straight). Extraction and reversal proved when no rotation joint does exactly half a turn. For half turns the statement is false: in any group, with any logarithm, the reverse does not go through the middle of the path (C128_halfturn); a path of a rotating joint avoids an angle that its reverse goes through; the diffusing planner then returns a path that the path validation of the problem rejects (C128_planner_counterexample). The logarithm and the exponential of the Lie group library are modelled for lines, circles and rotations of space (unit quaternions up to the sign, any logarithm with values of norm at most pi), and by contract for other groups.")
c("C129","partial",["Verif.SplineOpt.CF."+x for x in "C129_free C129_total C129_updates C129_row C129_explicit C129_explicit_affine C129_explicit_outputs C129_moving_partial C129_parallel_partial C129_obstacle_partial C129_excluded_partial C129_frame_moving_partial C129_obstacle_counterexample C129_row_counterexample C129_moving_counterexample C129_frame_counterexample".split()],"False as stated: for a collision with a fixed obstacle, the direction of the constraint is the difference of the coordinates of a point in the world and in the joint (collision-constraint.hh:199), so that the colliding path may satisfy the constraint, depending on the world frame; between moving bodies, the direction is expressed in the frame of the second joint and the jacobian in that of the first. Proved: exclusion when the joints are parallel or the direction is not orthogonal to the displacement, up to the linearization error; exclusion after updates; bracketing by updates; what the linearized row means. A report without contact aborts the program, one that is not a collision report raises an exception (C129_total). The convention of RelativePosition is that of the documentation of hpp-constraints. With explicit constraints the row is that of the composed function: exactly if they are affine, up to their linearization error otherwise.")
c("C130","partial",["Verif.Planner."+x for x in "C130_diffusing C130_birrt C130_visibility C130_kprm Star.C130_birrtstar".split()]+["Verif.EndToEnd."+x for x in "C130_bounds_diffusing C130_bounds_visibility C130_bounds_birrt C130_bounds_kprm C130_bounds_birrtstar_partial Plane.C130_birrtstar_counterexample".split()],"proved for the diffusing planner, Bi-RRT, Visibility-PRM and kPRM*; for BiRRT* the sampling near the best path (bi-rrt-star.cc:252-267) adds a vector of length close to extendMaxLength without looking at the bounds: a run is given that returns a path out of the bounds, and the statement is proved when this sampling stays in the set")
c("C131","partial",["Verif.Leaf."+x for x in "C131_diffusing_partial C131_visibility_partial C131_kprm_partial C131_birrtstar_partial C131_birrtstar_idle".split()]+["Verif.Leaf.Plane.C131_counterexample"],"Proved for the four planners from an empty roadmap, from the calls of the planner down to the evaluation of straight paths with constraints; the threshold itself is not a bound (counterexample). BiRRT is excluded: with constraints its paths are not continuous (C66). Assumed: a satisfying configuration is left unchanged by the projector (no explicit constraints).")
c("C132","partial",["Verif.Active."+x for x in "C132_active C132_evaluation C132_error C132_guess_partial C132_guess_counterexample".split()],"Proved for a negative threshold (the default) in vector configuration spaces; with the guess, the error is bounded for affine constraints and the claim is false otherwise (counterexample). The sets of degrees of freedom and the iterations of the solver of hpp-constraints are modelled by their contract; constraints whose right-hand side depends on the parameter are covered parameter by parameter.")
c("C133","partial",["Verif.ParamHeap."+x for x in "C133_refines_partial C133_no_leak C133_badAlloc_counterexample".split()],"Proved for histories in which the allocation of an assignment does not fail (other allocations may fail); counterexample otherwise. Modification of the const member through const_cast is not counted as undefined behaviour.")
c("C134","partial",["Verif.Obst.Concurrent."+x for x in "C134_exclusive C134_lists C134_progress C134_ends C134_current C134_throw_counterexample C134_stale_counterexample".split()],"Interleaving model: each operation of pinocchio::Pool is atomic and acquire waits for an element (contract of an external class). Exclusion holds for all histories. Findings: a validation that throws does not give its list back, and a thread that found the pool not empty before then waits for ever; when the pairs are changed during a validation, the old list returns to the pool and later validations use it. Not modelled: data races inside one operation, the robot data shared through DeviceSync, the requests shared by the copies.")
c("C135","partial",["Verif.Shapes."+x for x in "C135_current_partial C135_conservative_partial C135_distance C135_known C135_stale_counterexample C135_freed_counterexample C135_kept_counterexample".split()],"Proved for every history: a test is made with a registered obstacle, at its position, and reads its present shape, unless the obstacle was cut since the validations were made. False after cutObstacle, which gives the obstacle another geometry and leaves the collision pairs with the pointer to the former one: the tests read the shape before the cut (conservative: no collision is missed), while the distances read the new one; if the user does not own the former geometry it is destroyed and the tests read freed memory. A path validation that the user still has after removeObstacle reads freed memory and takes positions of other obstacles. Resetting the problem or initializing the validations after the cut repairs the first two.")
c("C136","partial",["Verif.Interrupt."+x for x in "C136_planning_partial C136_optimizer_partial C136_last_partial C136_call_planner C136_call_optimizer C136_fresh C136_counterexample C136_lost_counterexample C136_between_counterexample C136_limits_counterexample C136_next_counterexample C136_blind_counterexample C136_race_counterexample".split()],"Proved for every schedule: a call made while the planner works stops the resolution without any other step; a call made while the last optimizer runs, if it reads its flag, too; a call made before solve is forgotten, as expected. Otherwise false: a call made during initProblem or before the reset in PathPlanner::solve is lost and the planner may run for ever; so is a call made after the last test of the planner, or during the test of its limits when the target is reached (optimizers run in full); a call made during an optimizer does not stop the next ones; only RandomShortcut and the gradient based optimizers read their flag. interrupt may go through pathOptimizers_ while solve clears it. The flags are plain booleans: the model gives them sequential consistency, which C++ does not.")
c("C137","partial",["Verif.Ball."+x for x in "C137_bound_partial C137_maxVelocity C137_straight C137_coordinate_counterexample chord".split()],"The displacement of points is bounded for straight paths, for splines of degrees 1 and 3, and with maxVelocity for all degrees: the exponential of rotations does not increase distances (chord). Degrees 5 and 7 inherit the wrong bound of C54. The last part is false: the bound is about the tangent vector at the base, and a ball joint can turn about an axis for which the bound is null (counterexample). The exponential of the Lie group library is modelled exactly; configurations are unit quaternions.")
c("C138","partial",["Verif.Turns."+x for x in "C138_diffusing_partial C138_visibility_partial C138_birrt_partial C138_kprm_partial C138_birrtstar_partial C138_safe world_ok Arms.ok Arms.free".split()]+["Verif.HalfTurn.C128_planner_counterexample"],"Generalizes C126: each path carries a ghost bit, set when a straight path of exactly half a turn of some joint is reversed. The five planners return paths that go from the initial configuration to a goal, and all pieces without this bit are free of collision; the whole path is if there is no such piece (C138_safe: in particular when no joint turns). False for half turns: the diffusing planner returns a path in collision (counterexample). The assumptions on segments are proved for robots with translations, unbounded rotations and ball joints (world_ok), and the others for a robot with two arms (Arms).")
c("C139","partial",["Verif.Turns."+x for x in "C139_optimize C139_solve_partial optContract built_forward safeVec_safe".split()]+["Verif.HalfTurn.C128_planner_counterexample"],"Generalizes C127 as C138 generalizes C126. C139_optimize holds for all joints, half turns included: the optimizers extract only forward, and the shortest motion of a sub-segment is the sub-segment. Only the first step is partial: the path given by the planner must contain no reversed half turn; without this the planner itself returns a path in collision (counterexample, as in C138).")
c("C140","partial",["Verif.Turns."+x for x in "C140_trajectory C140_still C140_defined C140_solve_partial dofOk safe_forward".split()]+["Verif.HalfTurn.C128_planner_counterexample","Verif.TimeParam.C50_still_counterexample"],"Composes C138, C139 and C50 on evaluations of path vectors. C140_trajectory holds for all joints, half turns included. Only the first step is partial, as in C139: the path given by the planner must contain no reversed half turn. C140_defined gives conditions under which a trajectory is found; a piece along which no limited degree of freedom moves has none (C50_still_counterexample).")
c("C141","partial",["Verif.Turns."+x for x in "C141_planners C141_optimize C141_trajectory C141_solve_partial segments_robot between_segments".split()]+["Verif.Optim.Simple.simpleShortcut_in","Verif.EndToEnd.Plane.C130_birrtstar_counterexample"],"Generalizes C130 to joints of any kind and carries it through optimizers and time parameterization. Bounds hold on reversed half turns too. Partial: BiRRT* only if its draws near the best path are in the set, which fails in general (C130_birrtstar_counterexample); the combined statement with the absence of collision needs the path of the planner to contain no reversed half turn, as C139.")
c("C142","partial",["Verif.RoadMem."+x for x in "C142_call_partial C142_history_partial C142_no_leak_partial C142_pointers_partial C142_clear C142_destroy C142_same_nn_counterexample C142_shared_nn_counterexample C142_kept_node_counterexample C142_foreign_node_counterexample C142_no_init_counterexample".split()],
"Proved for programs whose node arguments belong to the roadmap called, that give each nearest neighbour object once and to one roadmap, and that set an init node before pathExists. Nothing in the API enforces this: giving a roadmap the nearest neighbour object that it already has releases it and keeps the pointer (roadmap.cc:80-83), two roadmaps may be given the same object and both release it, nodes kept across clear or belonging to another roadmap are accepted by addEdge, pathExists dereferences a null init node: each is a counterexample.")
c("C143","partial",["Verif.Kept."+x for x in "C143_solve_partial C143_constraint_counterexample C143_validation_counterexample C143_edge_counterexample".split()],
"Proved for every session in which constraints are added and the path validation is changed only while the roadmap has no edges, and edges given by hand meet the requirements: obstacles may be added, cut and removed at any time (addObstacle and removeObstacle empty the roadmap). False otherwise: addConstraint, addNumericalConstraintToConfigProjector and pathValidationType keep the roadmap, and the next solve returns the path found before, which violates the new constraint or is in collision.")
c("C144","partial",["Verif.Rounding."+x for x in "C144_rank C144_order C144_position C144_length C144_end_partial C144_end_counterexample C144_discretized_partial C144_discretized_counterexample".split()],
"Proved: rank and local parameter always defined, within the time range (beyond its end by a rounding error only when the range does not begin at 0), order kept, position up to an error proportional to the number of paths passed, value at the end of the range up to an error. False: the value at the end of the range is the end of the last path (numbers of type double, paths of lengths 1 and 2^-60: the second path is never reached, whereas end() is its end), and the discretized validation always ends (double, parameters around 2^53 and step 1/2: the parameter never moves). The partial theorem asks for a step above the rounding error on the parameters. Overflow and subnormal numbers are left out.")
c("C145","partial",["Verif.Rounding."+x for x in "C145_extract C145_begin C145_shortcut_partial C145_extract_counterexample C145_shortcut_counterexample".split()],
"Proved: extraction always exists and joins exactly, from the value at the first parameter to the value at the second one; beginnings are exact; any number of shortcuts joins exactly from the initial configuration. False: extraction over the whole time range leads to the final configuration, and so do shortcuts (double, a last path of length 2^-60 after a path of length 1: the end of the time range is the end of the first path, the last path is lost). Shortcuts keep the final configuration if each vector whose last part is kept is at its final configuration at the end of its time range. Straight paths without constraints nor time parameterization.")
c("C146","proved",["Verif.Rounding."+x for x in "C146_interpolation C146_vector C146_extract C146_shortcut binary_nearest".split()],
"Assumed of the library pinocchio: the interpolation of vector spaces is exact for 0 and 1 and x + u (y - x) otherwise. Rounding to the nearest is an interface (odd, nearest, products by factors below 1 are below) shown to hold for numbers with p bits, for every p; overflow and subnormal numbers are left out. Paths whose time range begins at 0, as those made by the steering method and by extraction.")
c("C147","partial",["Verif.Rounding."+x for x in "C147_shot_partial C147_shot_counterexample".split()],
"Proved for random numbers r with (1+u)^2 r < RAND_MAX, that is, with numbers of type double, for all r below RAND_MAX. False when rand returns RAND_MAX: with bounds -0.8 and 0.3 the value is 0.30000000000000004, which the joint bound validation refuses.")
c("C148","partial",["Verif.Rounding."+x for x in "C148_progressive_partial C148_progressive_fail C148_dichotomy_partial C148_dichotomy_fail C148_progressive_terminates_partial C148_dichotomy_terminates_partial C148_penetration_counterexample C148_loop_counterexample".split()],"Proved for straight paths with the bound of twice the tolerance augmented by the rounding errors, and termination when the advance exceeds them.  The bound without rounding errors fails: in double precision a path whose time range ends at the double nearest to 1/5 is accepted by the dichotomy although the objects penetrate at its end.  Termination without condition fails: two bodies sliding at distance 2^-60 make both loops run for ever in double precision.  Not modelled: rounding in the refinement of the velocity bound for paths that are not straight, and in the distances and velocity bounds themselves.")
c("C149","partial",["Verif.AStar."+x for x in "C149_answers C149_near_partial C149_distance_partial C149_shortest_counterexample".split()],"The factor per edge of the shortest chain is (1 + u)(1 + u)(1 + e)/(1 - u), where u is the relative error of additions and e that of the heuristic: for 1000 edges in double precision the error is less than 1e-12. Proved for edges between the same nodes in the same direction which have the same length (see C14). The path returned may be longer than another one by a rounding error (C149_shortest_counterexample). Infinities and NaN are not modelled.")
c("C150","partial",["Verif.Dist."+x for x in "C150_error C150_metric C150_sqNorm C150_vector C150_nearest C150_search_partial vEnv_accurate vEnv_symmetric".split()],"Error, metric, vector and nearest node parts in full. Search: two edges between the same nodes in the same direction must have the same length, as in C14 and C149. The accuracy of the squared distance of joints with rotations in SO(2), SO(3) is a contract (ε); underflow and overflow are not modelled; Eigen may sum the coordinates in another order.")
c("C151","partial",["Verif.Single."+x for x in "C151_progressive C151_dichotomy C151_discretized C151_discretized_path C151_all C151_report C151_end_counterexample".split()],"Everything is proved except the last sentence, which is false with a positive tolerance: a straight path is accepted although its end, validated alone, is refused (C151_end_counterexample, also with the dichotomy). How far an accepted path may penetrate is C34.")
c("C152","proved",["Verif.Planner.diffStep_links","Verif.Planner.C152_diffusing","Verif.Planner.C152_dense","Verif.EndToEnd.C152_accepts","Verif.EndToEnd.C152_bench"],"The distance separates configurations; the initial roadmap contains no node inserted one way (empty for the last sentence). The random configurations are an arbitrary sequence: that they are dense with probability one is outside of the model. That the last configuration of the chain is not yet a node is a hypothesis on the run (in the dense case on every step).")
c("C153","proved",["Verif.Planner.C153_birrt","Verif.Planner.C153_dense","Verif.EndToEnd.C153_accepts","Verif.EndToEnd.C153_bench"],"That the configurations shot are not yet nodes is a hypothesis on the run up to the end of the chain; without it the planner can throw (C66_birrt_null_counterexample). The last sentence is proved for one goal. The random configurations are an arbitrary sequence: that they contain a chain with probability one is outside of the model.")
c("C154","proved",["Verif.Planner.near_mem","Verif.Planner.kStep_sym","Verif.Planner.C154_kprm","Verif.EndToEnd.C154_bench"],"More nodes than init and goal configurations (otherwise the planner connects these only). No more than the given number of trials (10000 in the code) of invalid configurations in a row, otherwise it fails.")
c("C155","partial",["Verif.ByName.C155_remove_partial","Verif.ByName.C155_defined","Verif.ByName.C155_reset","Verif.ByName.C155_after_reset","Verif.ByName.C155_continuous_never","Verif.ByName.C155_continuous_counterexample","Verif.ByName.C155_declared_order"],"Proved for path validations that compare geometries (discretized, none) and with the arguments in the order of the implementation. The code violates the rest: the declaration in problem-solver.hh has the parameters (jointName, obstacleName) while the definition reads (obstacleName, jointName), so that a call in the declared order throws unless a joint has the name of an obstacle; with Progressive or Dichotomy the call throws after every history and changes nothing, because the solver makes another CollisionObject for the obstacle and the continuous validation compares the pointers.")
c("C156","partial",["Verif.Solver.Device.C156_objects","Verif.Solver.Device.C156_whole","Verif.Solver.Device.C156_frames","Verif.Solver.Device.C156_frames_partial","Verif.Solver.Device.C156_reference","Verif.Solver.Device.C156_frames_counterexample","Verif.Solver.Device.C156_atomic_counterexample","Verif.Solver.Device.C156_names_counterexample"],"Registered objects, exceptions and frame positions are characterized after every history; a device with distinct unused names is added as a whole. The code violates the rest, under the contract that pinocchio keeps the first of two frames with the same name and type: a device that is added again at another place keeps the old frame positions; a name clash leaves the objects before it and all the frames; the names are put side by side, so that distinct devices with distinct objects may clash; a reference to a frame position is dangling after the next device. The kinematics of the device and addFrame, getFrameId are contracts.")
c("C157","partial",["Verif.Rhs.Steered."+x for x in "C157_straight C157_straight_ends C157_satisfied_partial C157_ends_partial C157_ignored C157_ignored_counterexample C157_level_counterexample".split()],"Proved for the straight steering method. Hermite, Spline and Reeds-Shepp keep the right-hand sides of the steering method instead of those of the first configuration: constraints without level sets are satisfied, but a path may start from another level set than its first configuration (counterexample). Dubins, Snibud, the kinodynamic steering method, and Reeds-Shepp between almost equal poses ignore the constraints (counterexample). The solver is a contract, and so are the paths without constraints (C87, C88, C90, C108, C110).")
c("C158","partial",["Verif.Planner.OneWay."+x for x in "C158_step C158_birrt_partial C158_cars C158_birrt_cars_partial C158_reversed C158_reverse_counterexample C158_kinodynamic C158_null C158_null_counterexample".split()],"Proved for BiRRT without constraints, which inserts only the paths it steers, in the direction in which they are computed. The other planners (DiffusingPlanner, VisibilityPrm, kPRM*, BiRRT*) insert the reverse of each path as well, and return paths that cannot be followed, even when there is no solution (counterexample on each of them); the reverse of a kinodynamic path is a null pointer, they insert edges with null paths that the search dereferences (counterexample), BiRRT does not.")
c("C159","proved",["Verif.CV."+x for x in "C159_pair C159_progressive C159_dichotomy C159_progressive_ends C159_dichotomy_ends".split()]+["Verif.Car."+x for x in "C159_finite C159_arc C159_arc_part C159_refused C159_arc_ends C159_vector C159_vector_part".split()],"Assumed: lower bounds of the collision library and coefficients of the pairs (C55). The refinement of the velocity is right for motions of constant speed, whatever the tolerance. Validation of vectors from their end is not covered (C33: it fails).")
c("C160","partial",["Verif.Planner.Cars."+x for x in "C160_steer C160_diffusing_partial C160_visibility_partial C160_kprm_partial".split()],"Missing: wheel joints (their values differ at the ends of arcs: C85); steering between two configurations of the same pose, taken here as a failure (not a number in the code: C87, C110); planners that validate paths from their end (BiRRT), which fails on vectors (C33); edges carry reversed paths, so that the path returned may be driven both ways (C158).")
c("C161","partial",["Verif.Planner.Cars."+x for x in "C161_optimize_partial C161_simple_ends C161_direction C161_diffusing_partial C161_visibility_partial C161_kprm_partial".split()],"Missing: what is missing in C160 (wheel joints, steering between configurations of the same pose, BiRRT); PartialShortcut and the optimizers by splines, which do not apply to cars.")
c("C162","partial",["Verif.Planner.CarsSampled."+x for x in "C162_birrt_partial C162_diffusing_partial C162_visibility_partial C162_kprm_partial C162_steer C162_accepts".split()],"Missing: the wheel joints; steering between configurations of the same pose, which fails; the joint bounds. Only BiRRT keeps the direction (C158_reverse_counterexample).")
c("C163","proved",["Verif.Planner."+x for x in "C163_birrt C163_diffusing C163_visibility C163_birrtstar CarsSampled.C163_car".split()],"k-PRM* and SearchInRoadmap override the direct connection by an empty function (C107_tryConnect_counterexample).")
c("C164","partial",["Verif.Planner.CarsSampled."+x for x in "C164_optimize_partial C164_simple_ends C164_birrt_partial C164_diffusing_partial C164_visibility_partial C164_kprm_partial".split()],"Missing: what is missing in C162 (wheel joints, steering between configurations of the same pose, joint bounds); PartialShortcut and the optimizers by splines, which do not apply to cars.")
c("C165","partial",["Verif.Planner.CarsSampled."+x for x in "C165_trajectory_partial C165_defined_partial C165_birrt_partial C165_solved_partial".split()]+["Verif.Planner.Cars."+x for x in "C165_still C165_continuous_partial C165_continuous_solved_partial C165_continuous_diffusing_partial".split()]+["Verif.Planner.CarsSampled.Demo.C165_limit_counterexample","Verif.Planner.CarsSampled.Demo.C165_throws_counterexample"],"False as stated, because of the velocity bound of the arcs (C86): a car limited along its own axis exceeds its limit (C165_limit_counterexample), and the optimizer throws on an arc in the third quadrant, whatever the limits (C165_throws_counterexample). Proved: the speed is at most the norm of the limits of both coordinates; rotation and other joints meet their limits; the optimizer succeeds if no component of the bounds is negative. Missing: what is missing in C162; the acceleration limit (C50 for one piece).")
c("C166","partial",["Verif.Planner.CarsSampled."+x for x in "C166_steer_partial C166_birrt_partial C166_diffusing_partial C166_visibility_partial C166_kprm_partial C166_position C166_validation C166_validated_birrt_partial C166_validated_diffusing_partial C166_optimize_partial C166_resolution_partial".split()]+["Verif.Planner.CarsSampled.Demo.C166_position_counterexample"],"False for the position of the car: from a position at its upper bound, facing it, each path of Dubins leaves the bounds, and BiRRT returns it (C166_position, C166_position_counterexample); the collision validation does not look at bounds. Proved for all the other joints, for any convex set of bounds; for the position, with the path validation DiscretizedCollisionAndJointBound, up to half a step of the validation (C166_validated_*); the shortcut optimizers keep the other joints within bounds (C166_optimize_partial, C166_resolution_partial). Missing: what is missing in C162.")
#NEXT

names = set()
for f in glob.glob("/verif/lean/Verif/**/*.lean", recursive=True):
    ns = []
    for line in open(f):
        m = re.match(r"namespace (\S+)", line)
        if m: ns.append(m.group(1))
        m = re.match(r"end (\S+)", line)
        if m and ns and ns[-1] == m.group(1): ns.pop()
        m = re.match(r"(?:@\[[^\]]*\] )?(?:private )?(?:theorem|lemma) (\S+)", line)
        if m: names.add(".".join(ns + [m.group(1)]))
missing = [t for x in C.values() for t in x["theorems"] if t not in names]
assert not missing, missing
ids = [json.loads(l)["id"] for l in open("/verif/properties.jsonl")]
json.dump({"claims": [C[i] for i in ids if i in C]}, open("/verif/MANIFEST.json", "w"), indent=1)
print(len(C), "claims; without claim:", [i for i in ids if i not in C])
