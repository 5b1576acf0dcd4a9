{
 "claims": [
  {
   "property": "C01",
   "status": "proved",
   "theorems": [
    "Verif.Roadmap.C01_components_are_mutual_reachability"
   ],
   "note": ""
  },
  {
   "property": "C02",
   "status": "proved",
   "theorems": [
    "Verif.Roadmap.C02_canReach_exact"
   ],
   "note": ""
  },
  {
   "property": "C03",
   "status": "proved",
   "theorems": [
    "Verif.Roadmap.C03_partition"
   ],
   "note": ""
  },
  {
   "property": "C04",
   "status": "proved",
   "theorems": [
    "Verif.Roadmap.C04_component_graph"
   ],
   "note": ""
  },
  {
   "property": "C05",
   "status": "proved",
   "theorems": [
    "Verif.Roadmap.C05_pathExists_exact"
   ],
   "note": ""
  },
  {
   "property": "C06",
   "status": "partial",
   "theorems": [
    "Verif.Roadmap.C06_pathExists_oneWay_partial",
    "Verif.Roadmap.C06_pathExists_oneWay_counterexample"
   ],
   "note": "The code violates the 'true only if reachable' half (counterexample); what it computes exactly is proved."
  },
  {
   "property": "C07",
   "status": "proved",
   "theorems": [
    "Verif.Roadmap.C07_addNode",
    "Verif.Roadmap.C07_no_duplicates",
    "Verif.Roadmap.C07_addNodeAndEdges_duplicate_counterexample"
   ],
   "note": "For distances that separate configurations. The counterexample shows the duplicates the statement mentions."
  },
  {
   "property": "C08",
   "status": "proved",
   "theorems": [
    "Verif.Roadmap.C08_edges_consistent",
    "Verif.Roadmap.C08_calls_succeed"
   ],
   "note": ""
  },
  {
   "property": "C09",
   "status": "proved",
   "theorems": [
    "Verif.Roadmap.C09_twoWay_symmetric"
   ],
   "note": ""
  },
  {
   "property": "C10",
   "status": "proved",
   "theorems": [
    "Verif.Roadmap.C10_monotone",
    "Verif.Roadmap.C10_clear"
   ],
   "note": ""
  },
  {
   "property": "C11",
   "status": "partial",
   "theorems": [
    "Verif.Roadmap.C11_merge_partial",
    "Verif.Roadmap.C11_self_partial",
    "Verif.Roadmap.C11_self_counterexample"
   ],
   "note": "Holds for two different roadmaps. r.merge(r) never ends as soon as an edge has a positive length (counterexample for every such roadmap), and changes nothing otherwise."
  },
  {
   "property": "C12",
   "status": "proved",
   "theorems": [
    "Verif.AStar.C12_chain"
   ],
   "note": ""
  },
  {
   "property": "C13",
   "status": "proved",
   "theorems": [
    "Verif.AStar.C13_complete",
    "Verif.AStar.C13_pathExists"
   ],
   "note": ""
  },
  {
   "property": "C14",
   "status": "proved",
   "theorems": [
    "Verif.AStar.C14_optimal",
    "Verif.AStar.C14_optimal_distance",
    "Verif.AStar.C14_parallel_counterexample",
    "Verif.AStar.C14_inconsistent_counterexample"
   ],
   "note": "The counterexamples show that the hypotheses on parallel edges and on consistency are needed."
  },
  {
   "property": "C15",
   "status": "proved",
   "theorems": [
    "Verif.Roadmap.C15_nearestNode",
    "Verif.Roadmap.C15_search"
   ],
   "note": ""
  },
  {
   "property": "C16",
   "status": "proved",
   "theorems": [
    "Verif.NN.C16_kNearest",
    "Verif.NN.C16_zero_counterexample"
   ],
   "note": "For every priority queue implementation; K = 0 is undefined behaviour."
  },
  {
   "property": "C17",
   "status": "proved",
   "theorems": [
    "Verif.NN.C17_withinBall"
   ],
   "note": ""
  },
  {
   "property": "C18",
   "status": "partial",
   "theorems": [
    "Verif.KD.C18_search_partial",
    "Verif.KD.C18_distinct",
    "Verif.KD.C18_equal_counterexample",
    "Verif.KD.C18_clear_counterexample"
   ],
   "note": "Exact search proved for every insertion history inside the root box; the code itself reads an uninitialized variable when a full bucket holds equal configurations (or after clear()), shown by counterexamples; components are fixed at insertion (KDTree::merge is never called by Roadmap)."
  },
  {
   "property": "C19",
   "status": "proved",
   "theorems": [
    "Verif.PathV.C19_eval",
    "Verif.PathV.C19_throws"
   ],
   "note": ""
  },
  {
   "property": "C20",
   "status": "partial",
   "theorems": [
    "Verif.PathV.C20_length",
    "Verif.PathV.C20_concatenate",
    "Verif.PathV.C20_flatten",
    "Verif.PathV.C20_varying_counterexample",
    "Verif.PathV.C20_self_counterexample"
   ],
   "note": "Length and concatenation for every construction history; flatten preserves evaluation when constraints do not depend on the parameter and no nested vector is empty. The counterexamples show a parameter-dependent constraint changes meaning under flatten, and self-concatenation does not terminate."
  },
  {
   "property": "C21",
   "status": "partial",
   "theorems": [
    "Verif.PathV.C21_forward_partial",
    "Verif.PathV.C21_backward_partial",
    "Verif.PathV.C21_nested_partial",
    "Verif.PathV.C21_defined",
    "Verif.PathV.C21_unconstrained",
    "Verif.PathV.C21_constraints_counterexample"
   ],
   "note": "Holds for vectors whose own constraints do not change the result (in particular none); the code drops the vector's constraints, as the counterexample shows."
  },
  {
   "property": "C22",
   "status": "partial",
   "theorems": [
    "Verif.PathV.C22_reverse_partial",
    "Verif.PathV.C22_involution_partial",
    "Verif.PathV.C21_constraints_counterexample"
   ],
   "note": "Same restriction as C21."
  },
  {
   "property": "C23",
   "status": "partial",
   "theorems": [
    "Verif.PathV.C23_forward",
    "Verif.PathV.C23_backward_partial",
    "Verif.PathV.C23_backward_iff",
    "Verif.PathV.C23_backward_counterexample",
    "Verif.PathV.C23_compose_partial",
    "Verif.PathV.C23_compose_counterexample",
    "Verif.PathV.C23_velocity",
    "Verif.PathV.C23_derivative"
   ],
   "note": "Forward extraction, bounds and derivatives hold in general; reversal holds exactly when the lower end is 0 (counterexamples otherwise)."
  },
  {
   "property": "C24",
   "status": "proved",
   "theorems": [
    "Verif.PathV.C24_points",
    "Verif.PathV.C24_between",
    "Verif.PathV.C24_defined",
    "Verif.PathV.C24_derivative",
    "Verif.PathV.C24_outside_counterexample"
   ],
   "note": "For insertions inside the range (not checked by the code, the counterexample shows what happens outside)."
  },
  {
   "property": "C25",
   "status": "partial",
   "theorems": [
    "Verif.PathV.C25_extract_partial",
    "Verif.PathV.C25_extract_end_counterexample",
    "Verif.PathV.C25_reverse_partial",
    "Verif.PathV.C25_reverse_counterexample",
    "Verif.PathV.C25_velocity_partial",
    "Verif.PathV.C25_velocity_counterexample"
   ],
   "note": "Extraction except the empty part at the very end (undefined behaviour); reversal only if the range starts at 0; velocity bound only if t0 is a way point: the code is wrong otherwise (counterexamples)."
  },
  {
   "property": "C26",
   "status": "partial",
   "theorems": [
    "Verif.PathV.C26_ends",
    "Verif.PathV.C26_speed",
    "Verif.PathV.C26_extract_partial",
    "Verif.PathV.C26_constraints_counterexample"
   ],
   "note": "Extraction without constraints; with constraints the extracted part interpolates between projected ends (counterexample)."
  },
  {
   "property": "C27",
   "status": "proved",
   "theorems": [
    "Verif.Intervals.C27_union"
   ],
   "note": ""
  },
  {
   "property": "C28",
   "status": "proved",
   "theorems": [
    "Verif.Intervals.C28_value",
    "Verif.Intervals.C28_interval"
   ],
   "note": ""
  },
  {
   "property": "C29",
   "status": "proved",
   "theorems": [
    "Verif.Validation.C29_valid",
    "Verif.Validation.C29_fail",
    "Verif.Validation.C29_between_samples_counterexample"
   ],
   "note": "The counterexample records that nothing is claimed between samples."
  },
  {
   "property": "C30",
   "status": "proved",
   "theorems": [
    "Verif.Validation.C30_terminates",
    "Verif.Validation.C30_count",
    "Verif.Validation.C30_zero_step"
   ],
   "note": ""
  },
  {
   "property": "C31",
   "status": "proved",
   "theorems": [
    "Verif.CV.C31_valid",
    "Verif.CV.C31_fail",
    "Verif.CV.C31_terminates"
   ],
   "note": ""
  },
  {
   "property": "C32",
   "status": "proved",
   "theorems": [
    "Verif.CV.C32_valid",
    "Verif.CV.C32_fail",
    "Verif.CV.C32_terminates"
   ],
   "note": ""
  },
  {
   "property": "C33",
   "status": "partial",
   "theorems": [
    "Verif.CV.C33_forward",
    "Verif.CV.C33_part",
    "Verif.CV.C33_prefix",
    "Verif.CV.C33_nested",
    "Verif.CV.C33_report_partial",
    "Verif.CV.C33_report_counterexample",
    "Verif.CV.C33_reverse_counterexample"
   ],
   "note": "Forward direction, nested vectors included; in reverse direction the code accesses a piece out of bounds for every vector (C33_reverse_counterexample)."
  },
  {
   "property": "C34",
   "status": "partial",
   "theorems": [
    "Verif.CV.C34_pair_partial",
    "Verif.CV.C34_progressive_partial",
    "Verif.CV.C34_dichotomy_partial",
    "Verif.CV.C34_tolerance_counterexample",
    "Verif.CV.C34_refine_counterexample"
   ],
   "note": "Penetration at most twice the tolerance, for straight paths or zero tolerance; the counterexamples show that the code accepts penetrations beyond the tolerance, and any penetration when the velocity is refined with a positive tolerance."
  },
  {
   "property": "C35",
   "status": "proved",
   "theorems": [
    "Verif.CV.C35_interval",
    "Verif.CV.C35_fails",
    "Verif.CV.C35_smallest"
   ],
   "note": ""
  },
  {
   "property": "C36",
   "status": "partial",
   "theorems": [
    "Verif.Validation.C36_conjunction",
    "Verif.Validation.C36_part_partial",
    "Verif.Validation.C36_end_counterexample",
    "Verif.Validation.C36_reverse_counterexample",
    "Verif.Validation.C36_null_report_counterexample"
   ],
   "note": "The verdict is the conjunction; the returned part is valid for all validations in forward direction when the part reported is a prefix; the code is wrong in reverse (counterexamples)."
  },
  {
   "property": "C37",
   "status": "proved",
   "theorems": [
    "Verif.Validation.C37_conjunction",
    "Verif.Validation.C37_first_report",
    "Verif.Validation.C37_jointBound",
    "Verif.Validation.C37_jointBound_report"
   ],
   "note": ""
  },
  {
   "property": "C38",
   "status": "proved",
   "theorems": [
    "Verif.Obst.C38_history",
    "Verif.Obst.C38_requests",
    "Verif.Obst.C38_filter",
    "Verif.Obst.C38_filter_perm",
    "Verif.Obst.C38_remove",
    "Verif.Obst.C38_add",
    "Verif.Obst.C38_addToJoint",
    "Verif.Obst.C38_margins",
    "Verif.Obst.C38_marginBetween",
    "Verif.Obst.C38_remove_filtered_counterexample",
    "Verif.Obst.C38_remove_atomic_counterexample",
    "Verif.Obst.C38_marginBetween_counterexample"
   ],
   "note": "The counterexamples record limits of the interface: a filtered pair cannot be removed, a throwing removal is not atomic, only the first pair between two bodies gets the margin."
  },
  {
   "property": "C39",
   "status": "proved",
   "theorems": [
    "Verif.Planner.C39_outcome",
    "Verif.Planner.C39_terminates",
    "Verif.Planner.C39_maxIterations",
    "Verif.Planner.C39_only",
    "Verif.Planner.C39_any_target",
    "Verif.Planner.C39_any_target_ends",
    "Verif.Planner.C39_interrupt_counterexample",
    "Verif.Planner.reached_none",
    "Verif.Planner.reached_iff"
   ],
   "note": "The exact outcome for targets whose test has no effect, and for all targets (C39_any_target) the same meaning of outcomes; the counterexample records that an interruption wins over a solved problem."
  },
  {
   "property": "C40",
   "status": "proved",
   "theorems": [
    "Verif.Planner.C40_call",
    "Verif.Planner.C40_active"
   ],
   "note": ""
  },
  {
   "property": "C41",
   "status": "partial",
   "theorems": [
    "Verif.Planner.C41_order",
    "Verif.Planner.C41_links",
    "Verif.Planner.C41_complete",
    "Verif.Planner.C41_connect",
    "Verif.Planner.C41_finishes",
    "Verif.Planner.C41_neighbors",
    "Verif.Planner.C41_one_node_counterexample"
   ],
   "note": "With at least two nodes; numberOfNodes = 1 asks for zero neighbors, which is undefined behaviour (counterexample)."
  },
  {
   "property": "C42",
   "status": "proved",
   "theorems": [
    "Verif.Optim.shootTimes_ordered",
    "Verif.Optim.C42_random",
    "Verif.Optim.Simple.C42_simple"
   ],
   "note": "For a closed path, SimpleShortcut returns the steering path from the configuration to itself."
  },
  {
   "property": "C43",
   "status": "partial",
   "theorems": [
    "Verif.Optim.C43_full",
    "Verif.Optim.C43_waypoints",
    "Verif.Optim.C43_default_partial",
    "Verif.Optim.C43_random_idle_counterexample",
    "Verif.Optim.C43_null_counterexample",
    "Verif.Optim.C43_random_junk_counterexample"
   ],
   "note": "Proved for the default parameters; the random phase never improves a path because its test on the evaluation of the path is inverted, and when enabled it can return a path that was not validated (counterexamples)."
  },
  {
   "property": "C44",
   "status": "proved",
   "theorems": [
    "Verif.RelMotion.C44_closure",
    "Verif.RelMotion.C44_monotone"
   ],
   "note": ""
  },
  {
   "property": "C45",
   "status": "partial",
   "theorems": [
    "Verif.Cons.C45_step",
    "Verif.Cons.C45_observations",
    "Verif.Cons.C45_trivial_counterexample",
    "Verif.Cons.C45_strong_counterexample"
   ],
   "note": "Refinement to lists of added constraints for all histories. Adding a set also adds its hidden trivial projector, and an exception while adding a set leaves the first members added (counterexamples)."
  },
  {
   "property": "C46",
   "status": "proved",
   "theorems": [
    "Verif.Prob.C46_container",
    "Verif.Prob.C46_setParameter",
    "Verif.Prob.C46_getParameter",
    "Verif.Prob.C46_type",
    "Verif.Prob.C46_redeclare_counterexample"
   ],
   "note": "The counterexample shows that C46_type needs that a name is not declared again with another type."
  },
  {
   "property": "C47",
   "status": "partial",
   "theorems": [
    "Verif.Proj.C47_dichotomy",
    "Verif.Proj.C47_terminates",
    "Verif.Proj.C47_diverges_counterexample",
    "Verif.Proj.C47_null_counterexample"
   ],
   "note": "The chain of pieces is proved for all paths; termination when each split shrinks lengths by a fixed amount. The code may not terminate without this (counterexample) and dereferences null constraints (counterexample)."
  },
  {
   "property": "C48",
   "status": "proved",
   "theorems": [
    "Verif.Proj.C48_progressive",
    "Verif.Proj.C48_terminates"
   ],
   "note": "The initial configuration is assumed to satisfy the constraints (only asserted by the code). Includes the way points stored in the interpolated path."
  },
  {
   "property": "C49",
   "status": "partial",
   "theorems": [
    "Verif.Proj.C49_success",
    "Verif.Proj.C49_vector_partial",
    "Verif.Proj.C49_continuous_partial",
    "Verif.Proj.C49_stale_counterexample"
   ],
   "note": "Result is the stated concatenation when the projection of each piece assigns its output; otherwise the stale output of the previous piece is appended again (counterexample)."
  },
  {
   "property": "C50",
   "status": "proved",
   "theorems": [
    "Verif.TimeParam.C50_order0",
    "Verif.TimeParam.C50_order1",
    "Verif.TimeParam.C50_order2",
    "Verif.TimeParam.C50_optimize",
    "Verif.TimeParam.C50_defined",
    "Verif.TimeParam.C50_still_counterexample"
   ],
   "note": "Also for the whole optimizer: order of pieces, velocity limits of each degree of freedom, rest at the ends, acceleration bound; the final check never fails. The counterexample: a motionless piece makes the call throw. Real numbers."
  },
  {
   "property": "C51",
   "status": "partial",
   "theorems": [
    "Verif.TimeParam.C51_derivativeBound_partial",
    "Verif.TimeParam.C51_cubic_counterexample",
    "Verif.TimeParam.C51_quintic_counterexample"
   ],
   "note": "True for degrees 1, 2, and 3 without extremum of the derivative inside the interval. False for degree 3 with such an extremum (wrong expression); degree 5 is refused."
  },
  {
   "property": "C52",
   "status": "proved",
   "theorems": [
    "Verif.TimeParam.C52_lookup",
    "Verif.TimeParam.C52_value",
    "Verif.TimeParam.C52_high_order_counterexample"
   ],
   "note": "The counterexample: derivatives of high order are 0 even outside of the range."
  },
  {
   "property": "C53",
   "status": "partial",
   "theorems": [
    "Verif.TimeParam.RS.C53_profile_partial",
    "Verif.TimeParam.RS.C53_bound_partial",
    "Verif.TimeParam.RS.C53_distance_counterexample",
    "Verif.TimeParam.RS.C53_unreachable_counterexample",
    "Verif.TimeParam.RS.C53_bound_counterexample",
    "Verif.TimeParam.RS.C53_tiny_counterexample"
   ],
   "note": "False: with a constant speed segment the distance is exceeded by twice the deceleration distance; when the target speed cannot be reached times decrease; derivativeBound looks at the ends only."
  },
  {
   "property": "C54",
   "status": "partial",
   "theorems": [
    "Verif.Spline.C54_basis",
    "Verif.Spline.C54_value",
    "Verif.Spline.C54_hull",
    "Verif.Spline.C54_derivative",
    "Verif.Spline.C54_maxVelocity",
    "Verif.Spline.C54_velocityBound_partial",
    "Verif.Spline.C54_null_counterexample",
    "Verif.Spline.C54_order_counterexample",
    "Verif.Spline.C54_quintic_counterexample",
    "Verif.Spline.C54_septic_counterexample"
   ],
   "note": "Values, end points, convex hull, derivatives of all orders and maxVelocity for all degrees. velocityBound: true for degrees 1 and 3, false for 5 and 7 (wrong extrema). When the range is empty the last control point is not reached; orders above 2 (n + 1) read out of an array."
  },
  {
   "property": "C55",
   "status": "partial",
   "theorems": [
    "Verif.Speed.C55_sequence",
    "Verif.Speed.C55_obstacles",
    "Verif.Speed.C55_pair_partial",
    "Verif.Speed.C55_pair_counterexample"
   ],
   "note": "Proved for bodies and obstacles of the environment, in any normed space. For two joints of the robot the result is not a bound: downward joints need the distance to the parent, the reverse sum uses the radius of the wrong body, and the smaller sum is returned."
  },
  {
   "property": "C56",
   "status": "partial",
   "theorems": [
    "Verif.Kino.C56_minTime",
    "Verif.Kino.C56_fixedTime_partial",
    "Verif.Kino.C56_steer_partial",
    "Verif.Kino.C56_vertical_partial",
    "Verif.Kino.C56_still_counterexample",
    "Verif.Kino.C56_constant_counterexample"
   ],
   "note": "Exact arithmetic. Every degree of freedom reaches its target within the bounds, except in two degenerate cases, where the code is wrong: same position with the same nonzero velocity, and a displacement at constant velocity. Translations only (the code has no other)."
  },
  {
   "property": "C57",
   "status": "proved",
   "theorems": [
    "Verif.Solver.C57_registry",
    "Verif.Solver.C57_defined",
    "Verif.Solver.C57_robot_counterexample",
    "Verif.Solver.C57_robot_remove_counterexample",
    "Verif.Solver.C57_no_robot_counterexample"
   ],
   "note": "For histories that set the robot first, and set it again only when no obstacle is registered; the counterexamples show what happens otherwise (the lists of obstacles are not cleared)."
  },
  {
   "property": "C58",
   "status": "proved",
   "theorems": [
    "Verif.Linear.C58_decompose",
    "Verif.Linear.C58_empty",
    "Verif.Linear.C58_check",
    "Verif.Linear.C58_reduce"
   ],
   "note": "Exact arithmetic; the orthogonal decomposition of Eigen is a parameter with a contract. When there is no row, decompose does not set rank."
  },
  {
   "property": "C59",
   "status": "partial",
   "theorems": [
    "Verif.Dist.C59_weights",
    "Verif.Dist.C59_weights_partial",
    "Verif.Dist.C59_weights_counterexample",
    "Verif.Dist.C59_distance",
    "Verif.Dist.C59_setWeights",
    "Verif.Dist.C59_setWeight",
    "Verif.Dist.C59_negative_rank_counterexample"
   ],
   "note": "Pseudo-metric properties proved for all weights. Default weights: exact characterisation; finite and positive when the first length is positive, infinite for joints of length zero before any other (counterexample, mentioned in a comment of the source). setWeight does not refuse negative ranks."
  },
  {
   "property": "C60",
   "status": "partial",
   "theorems": [
    "Verif.Roadmap.C60_insertPathVector_partial",
    "Verif.Roadmap.C60_insertPathVector_counterexample"
   ],
   "note": "The last part of the statement fails (counterexample)."
  },
  {
   "property": "C61",
   "status": "proved",
   "theorems": [
    "Verif.PathV.C61_velocityBound"
   ],
   "note": ""
  },
  {
   "property": "C62",
   "status": "partial",
   "theorems": [
    "Verif.PathV.C62_extract_forward",
    "Verif.PathV.C62_velocity",
    "Verif.PathV.C62_derivative",
    "Verif.PathV.C62_shift_counterexample",
    "Verif.PathV.C62_reverse_counterexample",
    "Verif.PathV.C62_extracted_bound_counterexample"
   ],
   "note": "Evaluation, derivative, bound, and forward extraction of paths with the default extraction; the code is wrong for classes that shift their range, for reversal and for the bound of extracted paths."
  },
  {
   "property": "C63",
   "status": "proved",
   "theorems": [
    "Verif.Validation.C63_verdict",
    "Verif.Validation.C63_report"
   ],
   "note": ""
  },
  {
   "property": "C64",
   "status": "proved",
   "theorems": [
    "Verif.CV.C64_progressive",
    "Verif.CV.C64_dichotomy"
   ],
   "note": ""
  },
  {
   "property": "C65",
   "status": "partial",
   "theorems": [
    "Verif.Obst.Cont.C65_removeObject",
    "Verif.Obst.Cont.C65_remove_partial",
    "Verif.Obst.Cont.C65_remove_ub",
    "Verif.Obst.Cont.C65_add",
    "Verif.Obst.Cont.C65_add_remove_counterexample",
    "Verif.Obst.Cont.C65_filter_partial",
    "Verif.Obst.Cont.C65_filter_diverges_counterexample",
    "Verif.Obst.Cont.C65_marginBetween_partial",
    "Verif.Obst.Cont.C65_marginBetween_counterexample",
    "Verif.Obst.Cont.C65_margins"
   ],
   "note": "Removal has undefined behaviour as soon as a body pair becomes empty, filtering never ends with a validation that is not a body pair, and a margin update that matches nothing is not reported."
  },
  {
   "property": "C66",
   "status": "partial",
   "theorems": [
    "Verif.Planner.C66_diffusing",
    "Verif.Planner.C66_diffusing_iteration",
    "Verif.Planner.C66_diffusing_delayed",
    "Verif.Planner.C66_visibility",
    "Verif.Planner.C66_birrt_partial",
    "Verif.Planner.C66_birrt_counterexample",
    "Verif.Planner.C66_birrt_null_counterexample",
    "Verif.Planner.Star.C66_birrtstar_partial",
    "Verif.Planner.Star.C66_birrtstar_straight_partial",
    "Verif.Planner.Star.LineStar.C66_birrtstar_counterexample",
    "Verif.Planner.Star.LineStar.C66_birrtstar_second_counterexample"
   ],
   "note": "Proved for the diffusing planner and visibility PRM; for BiRRT without constraints and up to paths reduced to a point. With constraints BiRRT inserts discontinuous edges, and it may use a null pointer (counterexamples). BiRRT*: from an empty roadmap, only a draw near the best path just after the trees met, or a loop that does not end, makes it fail, and the loops end for shortest paths and bounded distances; both this draw and a second resolution read end() (counterexamples)."
  },
  {
   "property": "C67",
   "status": "partial",
   "theorems": [
    "Verif.Planner.C67_diffusing",
    "Verif.Planner.C67_diffusing_noError",
    "Verif.Planner.C67_kprm",
    "Verif.Planner.C67_visibility",
    "Verif.Planner.C67_visibility_noError",
    "Verif.Planner.C67_birrt_partial",
    "Verif.Planner.C66_birrt_counterexample",
    "Verif.Planner.Star.C67_birrtstar"
   ],
   "note": "Same restriction for BiRRT as C66; BiRRT* from an empty roadmap."
  },
  {
   "property": "C68",
   "status": "proved",
   "theorems": [
    "Verif.Planner.C68_visibility"
   ],
   "note": "The loop that shoots until the configuration is valid is a parameter."
  },
  {
   "property": "C69",
   "status": "proved",
   "theorems": [
    "Verif.Optim.C69_random_terminates"
   ],
   "note": "Lengths and distances in an Archimedean ordered field."
  },
  {
   "property": "C70",
   "status": "proved",
   "theorems": [
    "Verif.Optim.Simple.C70_simple_shorter"
   ],
   "note": ""
  },
  {
   "property": "C71",
   "status": "partial",
   "theorems": [
    "Verif.Proj.C71_hermite",
    "Verif.Proj.C71_terminates",
    "Verif.Proj.C71_empty_counterexample",
    "Verif.Proj.C71_beta_counterexample"
   ],
   "note": "Proved for interpolated paths with at least two way points; with one way point the result is an empty vector (counterexample). Coefficient 1 may not terminate."
  },
  {
   "property": "C72",
   "status": "proved",
   "theorems": [
    "Verif.Cons.C72_apply_fixed",
    "Verif.Cons.C72_apply_success",
    "Verif.Cons.C72_projector",
    "Verif.Cons.C72_optimize",
    "Verif.Cons.C72_optimize_outcome",
    "Verif.Cons.C72_order_counterexample"
   ],
   "note": "For solvers that report success only on satisfying configurations. The counterexample shows that the hypothesis on the order of members is needed."
  },
  {
   "property": "C73",
   "status": "proved",
   "theorems": [
    "Verif.Prob.C73_checkProblem"
   ],
   "note": ""
  },
  {
   "property": "C74",
   "status": "partial",
   "theorems": [
    "Verif.Solver.C74_covered",
    "Verif.Solver.C74_init_counterexample",
    "Verif.Solver.C74_flags_counterexample",
    "Verif.Solver.C74_duplicate_counterexample"
   ],
   "note": "All histories without a direct call to initConfigValidation, which forgets the obstacles (counterexample). The other counterexamples: obstacles registered for distance only are also checked for collision; obstacles are given several times."
  },
  {
   "property": "C75",
   "status": "proved",
   "theorems": [
    "Verif.TimeParam.C75_polynomial",
    "Verif.TimeParam.C75_hasDeriv"
   ],
   "note": ""
  },
  {
   "property": "C76",
   "status": "partial",
   "theorems": [
    "Verif.TimeParam.RS.C76_rs_partial",
    "Verif.TimeParam.RS.C76_last",
    "Verif.TimeParam.RS.C76_cusp_counterexample"
   ],
   "note": "The speed jumps at changes of direction; the length is exceeded when there is a constant speed segment (C53)."
  },
  {
   "property": "C77",
   "status": "proved",
   "theorems": [
    "Verif.Linear.C77_reduced",
    "Verif.Linear.C77_solve",
    "Verif.Linear.C77_optimum",
    "Verif.Linear.C77_symmetric_counterexample"
   ],
   "note": "Exact arithmetic; the counterexample shows that the matrix of the cost has to be symmetric."
  },
  {
   "property": "C78",
   "status": "partial",
   "theorems": [
    "Verif.Spline.C78_integral_partial",
    "Verif.Spline.C78_range",
    "Verif.Spline.C78_order0",
    "Verif.Spline.C78_gradient",
    "Verif.Spline.C78_order1_counterexample"
   ],
   "note": "The result is the integral divided by n!/(n-k)!: true for order 0 only (the factor is applied once instead of twice). The gradient is the one of the value returned."
  },
  {
   "property": "C79",
   "status": "partial",
   "theorems": [
    "Verif.Kino.C79_minTime",
    "Verif.Kino.C79_distance_partial",
    "Verif.Kino.C79_distance_counterexample",
    "Verif.Kino.C79_max"
   ],
   "note": "Steering method: minimal among all motions with Lipschitz velocity. Distance: minimal except when a direct acceleration joins the states with negative velocities (counterexample: 5 instead of 1)."
  },
  {
   "property": "C80",
   "status": "partial",
   "theorems": [
    "Verif.Kino.C80_eval",
    "Verif.Kino.C80_velocity",
    "Verif.Kino.C80_derivative_partial",
    "Verif.Kino.C80_velocityBound_counterexample"
   ],
   "note": "The derivative and the velocity bound are inherited from StraightPath and are wrong (counterexample): velocityBound is lower than the actual velocity."
  },
  {
   "property": "C81",
   "status": "partial",
   "theorems": [
    "Verif.Kino.C81_extract",
    "Verif.Kino.C81_degenerate",
    "Verif.Kino.C81_wait_counterexample"
   ],
   "note": "Proved for all paths whose phases sum up to the length. False along the vertical axis when it is not synchronized and waits at the end (counterexample)."
  },
  {
   "property": "C82",
   "status": "proved",
   "theorems": [
    "Verif.Kino.C82_requiredTime",
    "Verif.Kino.C82_steer",
    "Verif.Kino.C82_acceleration"
   ],
   "note": "Termination of the loop included."
  },
  {
   "property": "C83",
   "status": "partial",
   "theorems": [
    "Verif.Planner.Star.C83_start",
    "Verif.Planner.Star.C83_start_goals",
    "Verif.Planner.Star.C83_step_partial",
    "Verif.Planner.Star.C83_path_length",
    "Verif.Planner.Star.C83_path_success",
    "Verif.Planner.Star.C83_extend_length",
    "Verif.Planner.Star.C83_costs",
    "Verif.Planner.Star.C83_run",
    "Verif.Planner.Star.C83_connect",
    "Verif.Planner.Star.C83_ends_partial",
    "Verif.Planner.Star.LineStar.C66_birrtstar_counterexample",
    "Verif.Planner.Star.LineStar.C66_birrtstar_second_counterexample"
   ],
   "note": "From an empty roadmap and one goal. Costs never increase, the recomputation of the maps included, when the direct connection failed. Missing: the step after the trees met may read end() (counterexample), and the loop that connects the trees is proved to end only for shortest paths without constraints."
  },
  {
   "property": "C84",
   "status": "proved",
   "theorems": [
    "Verif.Planner.Star.C84_computeParentMap",
    "Verif.Planner.Star.C84_pop"
   ],
   "note": "For any queue that gives back its elements in any order; C84_pop specifies the order of the code."
  },
  {
   "property": "C85",
   "status": "partial",
   "theorems": [
    "Verif.Car.C85_create",
    "Verif.Car.C85_extract",
    "Verif.Car.C85_reverse",
    "Verif.Car.C85_rolling",
    "Verif.Car.C85_heading",
    "Verif.Car.C85_turn",
    "Verif.Car.C85_wheels_counterexample"
   ],
   "note": "Everything but the wheels, which jump to the value of the curvature at the beginning of the path (counterexample): the initial value of the path differs from the initial configuration."
  },
  {
   "property": "C86",
   "status": "partial",
   "theorems": [
    "Verif.Car.C86_velocity",
    "Verif.Car.C86_derivative_partial",
    "Verif.Car.C86_derivative_opposite",
    "Verif.Car.C86_derivative_counterexample",
    "Verif.Car.C86_absCosineMax",
    "Verif.Car.C86_absSineMax_partial",
    "Verif.Car.C86_absSineMax_counterexample",
    "Verif.Car.C86_bound_rotation",
    "Verif.Car.C86_bound_partial",
    "Verif.Car.C86_bound_world_partial",
    "Verif.Car.C86_bound_counterexample",
    "Verif.Car.C86_angles_counterexample",
    "Verif.Car.C86_bound_norm",
    "Verif.Car.C86_displacement"
   ],
   "note": "Velocity right; derivatives of even orders have the opposite sign in half of the cases. The velocity bound is about the frame of the world whereas the velocity is in the frame of the car: right on lines and when the car turns by more than pi, wrong otherwise (counterexamples). The norm of the two components, which is what continuous validation uses, is right on all intervals (C86_bound_norm, see C159)."
  },
  {
   "property": "C87",
   "status": "partial",
   "theorems": [
    "Verif.Car.C87_dubins_partial",
    "Verif.Car.C87_shortest",
    "Verif.Car.C87_triangle",
    "Verif.Car.C87_steer",
    "Verif.Car.C87_still_counterexample"
   ],
   "note": "Exact arithmetic. C87_shortest: between two different poses the distance driven is the least one among all the curves along which the car rolls forward and turns by at most the inverse of the radius per unit of length (theorem of Dubins, proved in Car/Drive, Car/Shorten and Car/DubinsThm). When the two poses of the car are the same the lengths are 0/0 (counterexample); the last configuration is the requested one up to the wheels."
  },
  {
   "property": "C88",
   "status": "partial",
   "theorems": [
    "Verif.Car.RS.C88_candidates",
    "Verif.Car.RS.C88_choice",
    "Verif.Car.RS.C88_shortest_partial",
    "Verif.Car.RS.C88_shortest_counterexample",
    "Verif.Car.RS.C88_path_partial",
    "Verif.Car.RS.C88_near_found",
    "Verif.Car.RS.C88_steer_partial",
    "Verif.Car.RS.C88_found",
    "Verif.Car.RS.C88_path_all_partial",
    "Verif.Car.RS.C88_steer_all",
    "Verif.Car.RS.C88_still_counterexample"
   ],
   "note": "Exact arithmetic. Every word leads to the target and a word is found for every target. The word is the shortest one only when the radius is 1 (counterexample for the radius 10). Segments shorter than the precision are dropped, so that the path ends near the target (bound proved); targets very close with respect to the radius are not reached at all (counterexample)."
  },
  {
   "property": "C89",
   "status": "partial",
   "theorems": [
    "Verif.SplineOpt.C89_updateSplines",
    "Verif.SplineOpt.C89_interpolate",
    "Verif.SplineOpt.C89_continuity",
    "Verif.SplineOpt.C89_commutative",
    "Verif.SplineOpt.C89_junction",
    "Verif.SplineOpt.C89_rotation_counterexample",
    "Verif.SplineOpt.C89_optimum_counterexample",
    "Verif.SplineOpt.C89_updateParameters_counterexample"
   ],
   "note": "Proved for vector spaces and for commutative groups (translations, unbounded rotations about one axis). False with rotations of space: the control points of a spline are tangent vectors at its first configuration before the optimization, and the constraints compare those of two splines with different bases; with a ball joint all the equality constraints can hold while the orientation jumps at the junction (counterexample, any degree; C89_junction says exactly when it does not), and the optimum itself jumps (degree 1, C89_optimum_counterexample). The unused method updateParameters skips the first two splines (counterexample)."
  },
  {
   "property": "C90",
   "status": "proved",
   "theorems": [
    "Verif.SplineOpt.C90_steer",
    "Verif.SplineOpt.C90_sizes",
    "Verif.SplineOpt.C90_null",
    "Verif.SplineOpt.C90_straight",
    "Verif.SplineOpt.C90_append",
    "Verif.SplineOpt.C90_smooth"
   ],
   "note": "Exact solution of the linear system; derivatives are those of the coordinates (before the Jacobian of the integration). Orders of derivatives have to be distinct and small enough for the degree."
  },
  {
   "property": "C91",
   "status": "partial",
   "theorems": [
    "Verif.SplineOpt.C91_rows",
    "Verif.SplineOpt.C91_validate_partial",
    "Verif.SplineOpt.C91_odd_counterexample",
    "Verif.SplineOpt.C91_refused_counterexample"
   ],
   "note": "Vector spaces. Control points are checked instead of the path, so that some paths within the bounds are refused; with an odd number of finite bounds violations are not seen (counterexamples)."
  },
  {
   "property": "C92",
   "status": "partial",
   "theorems": [
    "Verif.SplineOpt.C92_value_partial",
    "Verif.SplineOpt.C92_refused",
    "Verif.SplineOpt.C92_hessian",
    "Verif.SplineOpt.C92_jacobian",
    "Verif.SplineOpt.C92_convex",
    "Verif.SplineOpt.C92_lambdas",
    "Verif.SplineOpt.C92_lambdas_counterexample"
   ],
   "note": "The cost of a piece is the integral divided by n!/(n-k)! (see C78): the weights of the pieces are the same, so that minima are the same ones when all pieces have the same degree, which is the case. If all pieces have length 0 the weights are not finite (counterexample)."
  },
  {
   "property": "C93",
   "status": "partial",
   "theorems": [
    "Verif.SplineOpt.C93_valid",
    "Verif.SplineOpt.C93_cost",
    "Verif.SplineOpt.C93_path",
    "Verif.SplineOpt.C93_commutative",
    "Verif.SplineOpt.C93_total",
    "Verif.SplineOpt.C93_rotation_counterexample",
    "Verif.SplineOpt.C93_returnOptimum",
    "Verif.SplineOpt.C93_unsolved_counterexample",
    "Verif.SplineOpt.C93_linearize_counterexample",
    "Verif.SplineOpt.C93_linearize_reached"
   ],
   "note": "Validity of the pieces, constraints, cost and absence of exception in any configuration space; continuity and ends in vector spaces and commutative groups (C93_path, C93_commutative); false with rotations of space: with a ball joint the path returned jumps at a junction though all its pieces are valid (C93_rotation_counterexample). Joint bounds in vector spaces. Proved without the parameters returnOptimum (the path returned is then not validated: C93_returnOptimum) and linearizeAtEachStep (a vector is read out of range: counterexamples), and with a solver which solves the programs that have solutions (otherwise an arbitrary vector is used: counterexample). Reports of joint bound violations raise an exception."
  },
  {
   "property": "C94",
   "status": "partial",
   "theorems": [
    "Verif.SplineOpt.C94_terminates_partial",
    "Verif.SplineOpt.C94_alphaOne_counterexample",
    "Verif.SplineOpt.C94_zero_counterexample"
   ],
   "note": "Ends when 0 < alphaInit < 1, costThreshold > 0, costs are bounded from below by a positive number, and constraints are not linearized at each step. Otherwise it may loop for ever (counterexamples: alphaInit = 1, an optimum of cost 0)."
  },
  {
   "property": "C95",
   "status": "partial",
   "theorems": [
    "Verif.Proj.C95_waypoints",
    "Verif.Proj.C95_distances_partial",
    "Verif.Proj.C95_initial",
    "Verif.Proj.C95_short",
    "Verif.Proj.C95_reinterpolate_terminates",
    "Verif.Proj.C95_full_terminates",
    "Verif.Proj.C95_last_counterexample",
    "Verif.Proj.C95_jump_counterexample",
    "Verif.Proj.C95_termination_counterexample"
   ],
   "note": "Version without bound on the hessian (the default). Way points and ends: always right. Distances: right when no discontinuity is detected, except between the last two way points, which are never checked nor refined (counterexample: any path may be replaced by the segment between its ends); after a discontinuity is detected the projector may succeed with lengths that are not up to date (counterexample). The outer loop may not end (counterexample)."
  },
  {
   "property": "C96",
   "status": "partial",
   "theorems": [
    "Verif.Proj.Hess.C96_path",
    "Verif.Proj.Hess.C96_defined",
    "Verif.Proj.Hess.C96_same",
    "Verif.Proj.Hess.C96_inside",
    "Verif.Proj.Hess.C96_reinterpolate_terminates",
    "Verif.Proj.Hess.C96_rejected_counterexample",
    "Verif.Proj.Hess.C96_interpolated_counterexample",
    "Verif.Proj.Hess.C96_zero_counterexample",
    "Verif.Proj.Hess.C96_termination_counterexample"
   ],
   "note": "Paths that are not interpolated paths: everything but the end of the outer loop (counterexample), and a path whose first or last configuration has a small singular value is returned as is, with success (counterexample). For interpolated paths the end of the list is written (counterexample). The threshold has to be positive (counterexample)."
  },
  {
   "property": "C97",
   "status": "partial",
   "theorems": [
    "Verif.Session.C97_components",
    "Verif.Session.C97_validations",
    "Verif.Session.C97_names",
    "Verif.Session.C97_distance_counterexample",
    "Verif.Session.C97_reset_counterexample",
    "Verif.Session.C97_validation_counterexample",
    "Verif.Session.C97_problem_counterexample"
   ],
   "note": "Everything but the distance, which has no effect (counterexample). Selections made before the robot is given are used by solve, but not before by directPath (counterexample). addConfigValidation without problem throws after it has changed the selection (counterexample). Components set on the problem itself are lost (counterexample)."
  },
  {
   "property": "C98",
   "status": "partial",
   "theorems": [
    "Verif.Session.C98_target",
    "Verif.Session.C98_prepare",
    "Verif.Session.C101_task_counterexample"
   ],
   "note": "With goal constraints prepareSolveStepByStep always answers no (C98_prepare, C101_task_counterexample)."
  },
  {
   "property": "C99",
   "status": "partial",
   "theorems": [
    "Verif.Session.C99_shared",
    "Verif.Session.C99_settings_partial",
    "Verif.Session.C99_settings_counterexample",
    "Verif.Session.C99_unknown_counterexample",
    "Verif.Session.C99_hermite_counterexample"
   ],
   "note": "The settings of a config projector added by addConstraint are its own (counterexample). A call with an unknown name leaves an empty config projector (counterexample). The path projector RecursiveHermite keeps older constraints (counterexample)."
  },
  {
   "property": "C100",
   "status": "partial",
   "theorems": [
    "Verif.Session.C100_solve",
    "Verif.Session.C100_append",
    "Verif.Session.C100_ids",
    "Verif.Session.C100_add_erase",
    "Verif.Session.C100_direct",
    "Verif.Session.C100_direct_counterexample"
   ],
   "note": "directPath: undefined behaviour if the projection gives no path, and empty report if the projection fails with a valid path (counterexample)."
  },
  {
   "property": "C101",
   "status": "partial",
   "theorems": [
    "Verif.Session.C101_steps_partial",
    "Verif.Session.C101_reset_counterexample",
    "Verif.Session.C101_problem_counterexample",
    "Verif.Session.C101_task_counterexample"
   ],
   "note": "For goal configurations, as long as the roadmap and the problem are not reset; undefined behaviour otherwise (counterexamples). With goal constraints the answer is always no (counterexample)."
  },
  {
   "property": "C102",
   "status": "partial",
   "theorems": [
    "Verif.Sampling.C102_uniform_partial",
    "Verif.Sampling.C102_uniform_throws",
    "Verif.Sampling.C102_uniform_ends",
    "Verif.Sampling.C102_zero_counterexample",
    "Verif.Sampling.C102_nan_counterexample",
    "Verif.Sampling.C102_seedable",
    "Verif.Sampling.C102_seedable_outcome"
   ],
   "note": "Extra degrees of freedom that are not sampled are set to 0 even out of their bounds; twice the same infinite bound is not refused and gives a value that is not a number; UniformSeedable does not check bounds (counterexamples, C102_seedable_outcome). randomConfiguration of pinocchio by contract."
  },
  {
   "property": "C103",
   "status": "partial",
   "theorems": [
    "Verif.Sampling.C103_settings_partial",
    "Verif.Sampling.C103_bounds",
    "Verif.Sampling.C103_returns_partial",
    "Verif.Sampling.C103_extra_counterexample",
    "Verif.Sampling.C103_center_counterexample",
    "Verif.Sampling.C103_rotation_counterexample"
   ],
   "note": "Joints only: the deviations of extra degrees of freedom are never initialized; an empty center (the default of the problem solver) is undefined behaviour; the default deviation of rotations of the plane is not the documented one (counterexamples)."
  },
  {
   "property": "C104",
   "status": "partial",
   "theorems": [
    "Verif.Kino.C104_position",
    "Verif.Kino.C104_facing",
    "Verif.Kino.C104_ends",
    "Verif.Kino.C104_keeps",
    "Verif.Kino.C104_extract_partial",
    "Verif.Kino.C104_null",
    "Verif.Kino.C104_steer_counterexample",
    "Verif.Kino.C104_extract_counterexample"
   ],
   "note": "The path does not join the configurations asked for: their orientation is replaced (counterexample). The values of a part are the same ones when the velocity is not zero (counterexample otherwise); null pointer for an interval reduced to a point (C104_null). Translations and base orientation only."
  },
  {
   "property": "C105",
   "status": "partial",
   "theorems": [
    "Verif.Planner.C105_reached_partial",
    "Verif.Planner.C105_noinit",
    "Verif.Planner.C105_goals",
    "Verif.Planner.C105_solves",
    "Verif.Planner.C105_reset",
    "Verif.Planner.C105_found_partial",
    "Verif.Planner.C105_start",
    "Verif.Planner.Line.C105_oneway_counterexample",
    "Verif.Planner.Line.C105_duplicate_counterexample",
    "Verif.Planner.Line.C105_assertion_counterexample"
   ],
   "note": "Configurations that can only be reached one-way are ignored; with the same configuration in two components the search may fail after a positive test; two tests in the same iteration violate an assertion (counterexamples)."
  },
  {
   "property": "C106",
   "status": "proved",
   "theorems": [
    "Verif.Planner.C106_search"
   ],
   "note": "For roadmaps without node inserted one-way (C01); steering from a configuration to itself assumed not to fail; shortest for a consistent heuristic."
  },
  {
   "property": "C107",
   "status": "partial",
   "theorems": [
    "Verif.Planner.C107_solve",
    "Verif.Planner.C107_invariant",
    "Verif.Planner.C107_add",
    "Verif.Planner.Line.C107_tryConnect_counterexample"
   ],
   "note": "The direct connection of the base class is tried even if the planner overrides it (counterexample with SearchInRoadmap, which then modifies the roadmap); the limits of the inner planner are not used."
  },
  {
   "property": "C108",
   "status": "partial",
   "theorems": [
    "Verif.Path.Hermite.C108_ends",
    "Verif.Path.Hermite.C108_derivatives",
    "Verif.Path.Hermite.C108_set",
    "Verif.Path.Hermite.C108_create",
    "Verif.Path.Hermite.C108_velocity",
    "Verif.Path.Hermite.C108_straight",
    "Verif.Path.Hermite.C108_length_partial",
    "Verif.Path.Hermite.C108_longer",
    "Verif.Path.Hermite.C108_distance",
    "Verif.Path.Hermite.C108_copy",
    "Verif.Path.Hermite.HEx.C108_length_counterexample",
    "Verif.Path.Hermite.HEx.C108_copy_counterexample"
   ],
   "note": "The methods of Spline that change the parameters do not reset the length (counterexample); a copy with constraints replaces the velocities that were set (counterexample). Derivatives in the tangent space at the initial configuration."
  },
  {
   "property": "C109",
   "status": "partial",
   "theorems": [
    "Verif.PathV.C109_rview",
    "Verif.PathV.C109_eval",
    "Verif.PathV.C109_ends",
    "Verif.PathV.C109_extract",
    "Verif.PathV.C109_compose",
    "Verif.PathV.C109_copy",
    "Verif.PathV.C109_copyWith",
    "Verif.PathV.C109_copy_counterexample"
   ],
   "note": "A copy with constraints cannot be evaluated (counterexample). Derivatives are not defined by the class."
  },
  {
   "property": "C110",
   "status": "partial",
   "theorems": [
    "Verif.Car.C110_snibud_partial",
    "Verif.Car.C110_shortest",
    "Verif.Car.C110_still_counterexample",
    "Verif.Car.C110_constraints_counterexample"
   ],
   "note": "Same restrictions as C87: exact arithmetic, first configuration up to the wheels; C110_shortest: the least distance among all the curves driven backward; the lengths are 0/0 between configurations with the same pose (counterexample); the constraints are lost by the reversal (counterexample)."
  },
  {
   "property": "C111",
   "status": "partial",
   "theorems": [
    "Verif.Car.C111_split",
    "Verif.Car.C111_wheels",
    "Verif.Car.C111_radius_partial",
    "Verif.Car.C111_extra",
    "Verif.Car.C111_joints",
    "Verif.Car.C111_copy_partial",
    "Verif.Car.C111_copy_counterexample",
    "Verif.Car.C111_radius_counterexample"
   ],
   "note": "The constructor with parameters accepts a radius that is not positive; the copy has no wheels (counterexamples)."
  },
  {
   "property": "C112",
   "status": "partial",
   "theorems": [
    "Verif.TimeParam.C112_grid",
    "Verif.TimeParam.C112_knots",
    "Verif.TimeParam.C112_velocity",
    "Verif.TimeParam.C112_law",
    "Verif.TimeParam.C112_result_partial",
    "Verif.TimeParam.C112_outcome",
    "Verif.TimeParam.TEx.C112_shift_counterexample",
    "Verif.TimeParam.TEx.C112_grid_counterexample",
    "Verif.TimeParam.TEx.C112_zero_counterexample",
    "Verif.TimeParam.C112_bound_counterexample"
   ],
   "note": "False for pieces whose parameter does not start at 0, for pieces already parameterized and for N = 0; derivativeBound of the parameterizations calls itself forever (counterexamples). The solver of the toppra library is an oracle."
  },
  {
   "property": "C113",
   "status": "proved",
   "theorems": [
    "Verif.Roadmap.C113_invariant",
    "Verif.Roadmap.C113_roundtrip",
    "Verif.Roadmap.C113_continue",
    "Verif.Roadmap.C113_written"
   ],
   "note": "The order of ties between nearest nodes may change, since components are stored in the order of their addresses."
  },
  {
   "property": "C114",
   "status": "proved",
   "theorems": [
    "Verif.PathArchive.C114_roundtrip",
    "Verif.PathArchive.C114_written",
    "Verif.PathArchive.C114_timed"
   ],
   "note": "Tracking of shared pointers by boost is not modelled: constraints are read as the objects that were written."
  },
  {
   "property": "C115",
   "status": "partial",
   "theorems": [
    "Verif.ProblemCopy.C115_copy_partial",
    "Verif.ProblemCopy.C115_config",
    "Verif.ProblemCopy.C115_validations_partial",
    "Verif.ProblemCopy.C115_frame",
    "Verif.ProblemCopy.C115_setters",
    "Verif.ProblemCopy.C115_obstacles_counterexample",
    "Verif.ProblemCopy.C115_shared_counterexample",
    "Verif.ProblemCopy.C115_goals_counterexample"
   ],
   "note": "The copy loses goals, distance, steering method, shooter and constraints; its path validation ignores the obstacles; configuration validations are shared with the original (counterexamples)."
  },
  {
   "property": "C116",
   "status": "proved",
   "theorems": [
    "Verif.ProblemCopy.C116_find",
    "Verif.ProblemCopy.C116_load",
    "Verif.ProblemCopy.C116_once",
    "Verif.ProblemCopy.C116_twice_counterexample"
   ],
   "note": "Loading the same library twice initializes twice (C116_twice_counterexample). The file system and the dynamic loader are parameters."
  },
  {
   "property": "C117",
   "status": "proved",
   "theorems": [
    "Verif.ProblemCopy.C117_distances"
   ],
   "note": "The distance between two objects (coal) is a parameter."
  },
  {
   "property": "C118",
   "status": "partial",
   "theorems": [
    "Verif.Obst.Pool.C118_initialize",
    "Verif.Obst.Pool.C118_pool",
    "Verif.Obst.Pool.C118_filter",
    "Verif.Obst.Pool.C118_break_partial",
    "Verif.Obst.Pool.C118_break_counterexample"
   ],
   "note": "The pairs added by initialize keep the default break distance of coal (counterexample); without initialize the claim is proved."
  },
  {
   "property": "C119",
   "status": "proved",
   "theorems": [
    "Verif.Compress.C119_uncompress",
    "Verif.Compress.C119_compress",
    "Verif.Compress.C119_matrix",
    "Verif.Compress.C119_product"
   ],
   "note": "Free variables are disjoint blocks, as provided by the explicit constraint set."
  },
  {
   "property": "C120",
   "status": "partial",
   "theorems": [
    "Verif.Compress.C120_frame",
    "Verif.Compress.C120_create",
    "Verif.Compress.C120_setters",
    "Verif.Compress.C120_threshold",
    "Verif.Compress.C120_rhs_partial",
    "Verif.Compress.C120_rhs_counterexample"
   ],
   "note": "rightHandSide for a constraint not in the projector does nothing, silently (counterexample). The solver of hpp-constraints is modelled by its right hand sides."
  },
  {
   "property": "C121",
   "status": "proved",
   "theorems": [
    "Verif.Optim.Monitor.C121_loop",
    "Verif.Optim.Monitor.C121_limits",
    "Verif.Optim.Monitor.C121_random",
    "Verif.Optim.Monitor.C121_interrupt_counterexample"
   ],
   "note": "An interruption asked for before optimize is forgotten (C121_interrupt_counterexample). Only RandomShortcut and the gradient based optimizers use these limits."
  },
  {
   "property": "C122",
   "status": "partial",
   "theorems": [
    "Verif.Dist.W.C122_length",
    "Verif.Dist.W.C122_velocity_partial",
    "Verif.Dist.W.C122_far_partial",
    "Verif.Dist.W.C122_column",
    "Verif.Dist.W.C122_velocity_counterexample",
    "Verif.Dist.W.C122_unit_counterexample"
   ],
   "note": "Proved up to a factor two, and exactly when distances are null or at least one; the code squares distances between joints (line 118), so the plain bound is false and depends on the unit of length (counterexamples)."
  },
  {
   "property": "C123",
   "status": "partial",
   "theorems": [
    "Verif.Clone.C123_frame",
    "Verif.Clone.C123_setters",
    "Verif.Clone.C123_copy_partial",
    "Verif.Clone.C123_independent",
    "Verif.Clone.C123_clone_partial",
    "Verif.Clone.C123_parameters",
    "Verif.Clone.C123_kino_counterexample",
    "Verif.Clone.C123_wheels_counterexample",
    "Verif.Clone.C123_vertical_counterexample"
   ],
   "note": "Copies agree except for the defects shown by the counterexamples: bounds of the kinodynamic distance, wheels of car steering methods, vertical acceleration bound."
  },
  {
   "property": "C124",
   "status": "partial",
   "theorems": [
    "Verif.Roadmap.Manual.C124_edge",
    "Verif.Roadmap.Manual.C124_refused",
    "Verif.Roadmap.Manual.C124_config",
    "Verif.Roadmap.Manual.C124_added",
    "Verif.Roadmap.Manual.C124_session_partial",
    "Verif.Roadmap.Manual.C124_ends_counterexample"
   ],
   "note": "The last sentence needs the caller to give a path between the two configurations: the code accepts any path (counterexample)."
  },
  {
   "property": "C125",
   "status": "partial",
   "theorems": [
    "Verif.Rhs.C125_stable",
    "Verif.Rhs.C125_copy",
    "Verif.Rhs.C125_steer",
    "Verif.Rhs.C125_frame",
    "Verif.Rhs.C125_check",
    "Verif.Rhs.C125_project_partial",
    "Verif.Rhs.C125_shared_counterexample",
    "Verif.Rhs.C125_project_counterexample",
    "Verif.Rhs.C125_pieces_counterexample"
   ],
   "note": "Proved for the operations of the library; the three sharing defects named in the statement are shown by counterexamples."
  },
  {
   "property": "C126",
   "status": "proved",
   "theorems": [
    "Verif.EndToEnd.C126_diffusing",
    "Verif.EndToEnd.C126_visibility",
    "Verif.EndToEnd.C126_birrt",
    "Verif.EndToEnd.C126_kprm",
    "Verif.EndToEnd.C126_birrtstar",
    "Verif.EndToEnd.C126_noError",
    "Verif.EndToEnd.Plane.C126_penetration_counterexample",
    "Verif.EndToEnd.Plane.C126_wall_counterexample",
    "Verif.EndToEnd.sampled_free",
    "Verif.EndToEnd.check_discretized",
    "Verif.EndToEnd.check_continuous",
    "Verif.EndToEnd.contract",
    "Verif.EndToEnd.pointContract",
    "Verif.EndToEnd.safe_of_solves"
   ],
   "note": "Composition of C20, C26, C29, C30, C31, C32, C34, C61, C64, C66 and C67: the contracts of the planners are proved of the models of straight paths and of the three path validations. Assumed: the collision library returns positive lower bounds of distances, distances vary no faster than the weighed displacement of the joints. The bound of twice the tolerance is reached, and with the discretized validation walls thinner than a step are crossed (counterexamples)."
  },
  {
   "property": "C127",
   "status": "proved",
   "theorems": [
    "Verif.EndToEnd.C127_optimize",
    "Verif.EndToEnd.C127_solve",
    "Verif.EndToEnd.apply_safe",
    "Verif.EndToEnd.optContract",
    "Verif.EndToEnd.built_lawful",
    "Verif.EndToEnd.safeVec_safe",
    "Verif.EndToEnd.safeVec_of"
   ],
   "note": "Composition of C126 with C42: the contracts of the optimizers are proved of the models of straight paths and of the three path validations. PartialShortcut is left out: it dereferences the constraints of the paths (C43_null_counterexample), absent here. Spline optimizers are treated separately (C45 and followers)."
  },
  {
   "property": "C128",
   "status": "partial",
   "theorems": [
    "Verif.PathV.C128_speed",
    "Verif.PathV.C128_geoPair_partial",
    "Verif.PathV.C128_extract_partial",
    "Verif.PathV.C128_halfturn",
    "Verif.PathV.C128_halfturn_counterexample",
    "Verif.HalfTurn.C128_planner_counterexample",
    "Verif.Joints.C128_joints_partial",
    "Verif.Joints.C128_joints_extract_partial",
    "Verif.Joints.C128_ball_counterexample"
   ],
   "note": "Speed proved for all pairs (ball joints: C137_straight). Extraction and reversal proved when no rotation joint does exactly half a turn. For half turns the statement is false: in any group, with any logarithm, the reverse does not go through the middle of the path (C128_halfturn); a path of a rotating joint avoids an angle that its reverse goes through; the diffusing planner then returns a path that the path validation of the problem rejects (C128_planner_counterexample). The logarithm and the exponential of the Lie group library are modelled for lines, circles and rotations of space (unit quaternions up to the sign, any logarithm with values of norm at most pi), and by contract for other groups."
  },
  {
   "property": "C129",
   "status": "partial",
   "theorems": [
    "Verif.SplineOpt.CF.C129_free",
    "Verif.SplineOpt.CF.C129_total",
    "Verif.SplineOpt.CF.C129_updates",
    "Verif.SplineOpt.CF.C129_row",
    "Verif.SplineOpt.CF.C129_explicit",
    "Verif.SplineOpt.CF.C129_explicit_affine",
    "Verif.SplineOpt.CF.C129_explicit_outputs",
    "Verif.SplineOpt.CF.C129_moving_partial",
    "Verif.SplineOpt.CF.C129_parallel_partial",
    "Verif.SplineOpt.CF.C129_obstacle_partial",
    "Verif.SplineOpt.CF.C129_excluded_partial",
    "Verif.SplineOpt.CF.C129_frame_moving_partial",
    "Verif.SplineOpt.CF.C129_obstacle_counterexample",
    "Verif.SplineOpt.CF.C129_row_counterexample",
    "Verif.SplineOpt.CF.C129_moving_counterexample",
    "Verif.SplineOpt.CF.C129_frame_counterexample"
   ],
   "note": "False as stated: for a collision with a fixed obstacle, the direction of the constraint is the difference of the coordinates of a point in the world and in the joint (collision-constraint.hh:199), so that the colliding path may satisfy the constraint, depending on the world frame; between moving bodies, the direction is expressed in the frame of the second joint and the jacobian in that of the first. Proved: exclusion when the joints are parallel or the direction is not orthogonal to the displacement, up to the linearization error; exclusion after updates; bracketing by updates; what the linearized row means. A report without contact aborts the program, one that is not a collision report raises an exception (C129_total). The convention of RelativePosition is that of the documentation of hpp-constraints. With explicit constraints the row is that of the composed function: exactly if they are affine, up to their linearization error otherwise."
  },
  {
   "property": "C130",
   "status": "partial",
   "theorems": [
    "Verif.Planner.C130_diffusing",
    "Verif.Planner.C130_birrt",
    "Verif.Planner.C130_visibility",
    "Verif.Planner.C130_kprm",
    "Verif.Planner.Star.C130_birrtstar",
    "Verif.EndToEnd.C130_bounds_diffusing",
    "Verif.EndToEnd.C130_bounds_visibility",
    "Verif.EndToEnd.C130_bounds_birrt",
    "Verif.EndToEnd.C130_bounds_kprm",
    "Verif.EndToEnd.C130_bounds_birrtstar_partial",
    "Verif.EndToEnd.Plane.C130_birrtstar_counterexample"
   ],
   "note": "proved for the diffusing planner, Bi-RRT, Visibility-PRM and kPRM*; for BiRRT* the sampling near the best path (bi-rrt-star.cc:252-267) adds a vector of length close to extendMaxLength without looking at the bounds: a run is given that returns a path out of the bounds, and the statement is proved when this sampling stays in the set"
  },
  {
   "property": "C131",
   "status": "partial",
   "theorems": [
    "Verif.Leaf.C131_diffusing_partial",
    "Verif.Leaf.C131_visibility_partial",
    "Verif.Leaf.C131_kprm_partial",
    "Verif.Leaf.C131_birrtstar_partial",
    "Verif.Leaf.C131_birrtstar_idle",
    "Verif.Leaf.Plane.C131_counterexample"
   ],
   "note": "Proved for the four planners from an empty roadmap, from the calls of the planner down to the evaluation of straight paths with constraints; the threshold itself is not a bound (counterexample). BiRRT is excluded: with constraints its paths are not continuous (C66). Assumed: a satisfying configuration is left unchanged by the projector (no explicit constraints)."
  },
  {
   "property": "C132",
   "status": "partial",
   "theorems": [
    "Verif.Active.C132_active",
    "Verif.Active.C132_evaluation",
    "Verif.Active.C132_error",
    "Verif.Active.C132_guess_partial",
    "Verif.Active.C132_guess_counterexample"
   ],
   "note": "Proved for a negative threshold (the default) in vector configuration spaces; with the guess, the error is bounded for affine constraints and the claim is false otherwise (counterexample). The sets of degrees of freedom and the iterations of the solver of hpp-constraints are modelled by their contract; constraints whose right-hand side depends on the parameter are covered parameter by parameter."
  },
  {
   "property": "C133",
   "status": "partial",
   "theorems": [
    "Verif.ParamHeap.C133_refines_partial",
    "Verif.ParamHeap.C133_no_leak",
    "Verif.ParamHeap.C133_badAlloc_counterexample"
   ],
   "note": "Proved for histories in which the allocation of an assignment does not fail (other allocations may fail); counterexample otherwise. Modification of the const member through const_cast is not counted as undefined behaviour."
  },
  {
   "property": "C134",
   "status": "partial",
   "theorems": [
    "Verif.Obst.Concurrent.C134_exclusive",
    "Verif.Obst.Concurrent.C134_lists",
    "Verif.Obst.Concurrent.C134_progress",
    "Verif.Obst.Concurrent.C134_ends",
    "Verif.Obst.Concurrent.C134_current",
    "Verif.Obst.Concurrent.C134_throw_counterexample",
    "Verif.Obst.Concurrent.C134_stale_counterexample"
   ],
   "note": "Interleaving model: each operation of pinocchio::Pool is atomic and acquire waits for an element (contract of an external class). Exclusion holds for all histories. Findings: a validation that throws does not give its list back, and a thread that found the pool not empty before then waits for ever; when the pairs are changed during a validation, the old list returns to the pool and later validations use it. Not modelled: data races inside one operation, the robot data shared through DeviceSync, the requests shared by the copies."
  },
  {
   "property": "C135",
   "status": "partial",
   "theorems": [
    "Verif.Shapes.C135_current_partial",
    "Verif.Shapes.C135_conservative_partial",
    "Verif.Shapes.C135_distance",
    "Verif.Shapes.C135_known",
    "Verif.Shapes.C135_stale_counterexample",
    "Verif.Shapes.C135_freed_counterexample",
    "Verif.Shapes.C135_kept_counterexample"
   ],
   "note": "Proved for every history: a test is made with a registered obstacle, at its position, and reads its present shape, unless the obstacle was cut since the validations were made. False after cutObstacle, which gives the obstacle another geometry and leaves the collision pairs with the pointer to the former one: the tests read the shape before the cut (conservative: no collision is missed), while the distances read the new one; if the user does not own the former geometry it is destroyed and the tests read freed memory. A path validation that the user still has after removeObstacle reads freed memory and takes positions of other obstacles. Resetting the problem or initializing the validations after the cut repairs the first two."
  },
  {
   "property": "C136",
   "status": "partial",
   "theorems": [
    "Verif.Interrupt.C136_planning_partial",
    "Verif.Interrupt.C136_optimizer_partial",
    "Verif.Interrupt.C136_last_partial",
    "Verif.Interrupt.C136_call_planner",
    "Verif.Interrupt.C136_call_optimizer",
    "Verif.Interrupt.C136_fresh",
    "Verif.Interrupt.C136_counterexample",
    "Verif.Interrupt.C136_lost_counterexample",
    "Verif.Interrupt.C136_between_counterexample",
    "Verif.Interrupt.C136_limits_counterexample",
    "Verif.Interrupt.C136_next_counterexample",
    "Verif.Interrupt.C136_blind_counterexample",
    "Verif.Interrupt.C136_race_counterexample"
   ],
   "note": "Proved for every schedule: a call made while the planner works stops the resolution without any other step; a call made while the last optimizer runs, if it reads its flag, too; a call made before solve is forgotten, as expected. Otherwise false: a call made during initProblem or before the reset in PathPlanner::solve is lost and the planner may run for ever; so is a call made after the last test of the planner, or during the test of its limits when the target is reached (optimizers run in full); a call made during an optimizer does not stop the next ones; only RandomShortcut and the gradient based optimizers read their flag. interrupt may go through pathOptimizers_ while solve clears it. The flags are plain booleans: the model gives them sequential consistency, which C++ does not."
  },
  {
   "property": "C137",
   "status": "partial",
   "theorems": [
    "Verif.Ball.C137_bound_partial",
    "Verif.Ball.C137_maxVelocity",
    "Verif.Ball.C137_straight",
    "Verif.Ball.C137_coordinate_counterexample",
    "Verif.Ball.chord"
   ],
   "note": "The displacement of points is bounded for straight paths, for splines of degrees 1 and 3, and with maxVelocity for all degrees: the exponential of rotations does not increase distances (chord). Degrees 5 and 7 inherit the wrong bound of C54. The last part is false: the bound is about the tangent vector at the base, and a ball joint can turn about an axis for which the bound is null (counterexample). The exponential of the Lie group library is modelled exactly; configurations are unit quaternions."
  },
  {
   "property": "C138",
   "status": "partial",
   "theorems": [
    "Verif.Turns.C138_diffusing_partial",
    "Verif.Turns.C138_visibility_partial",
    "Verif.Turns.C138_birrt_partial",
    "Verif.Turns.C138_kprm_partial",
    "Verif.Turns.C138_birrtstar_partial",
    "Verif.Turns.C138_safe",
    "Verif.Turns.world_ok",
    "Verif.Turns.Arms.ok",
    "Verif.Turns.Arms.free",
    "Verif.HalfTurn.C128_planner_counterexample"
   ],
   "note": "Generalizes C126: each path carries a ghost bit, set when a straight path of exactly half a turn of some joint is reversed. The five planners return paths that go from the initial configuration to a goal, and all pieces without this bit are free of collision; the whole path is if there is no such piece (C138_safe: in particular when no joint turns). False for half turns: the diffusing planner returns a path in collision (counterexample). The assumptions on segments are proved for robots with translations, unbounded rotations and ball joints (world_ok), and the others for a robot with two arms (Arms)."
  },
  {
   "property": "C139",
   "status": "partial",
   "theorems": [
    "Verif.Turns.C139_optimize",
    "Verif.Turns.C139_solve_partial",
    "Verif.Turns.optContract",
    "Verif.Turns.built_forward",
    "Verif.Turns.safeVec_safe",
    "Verif.HalfTurn.C128_planner_counterexample"
   ],
   "note": "Generalizes C127 as C138 generalizes C126. C139_optimize holds for all joints, half turns included: the optimizers extract only forward, and the shortest motion of a sub-segment is the sub-segment. Only the first step is partial: the path given by the planner must contain no reversed half turn; without this the planner itself returns a path in collision (counterexample, as in C138)."
  },
  {
   "property": "C140",
   "status": "partial",
   "theorems": [
    "Verif.Turns.C140_trajectory",
    "Verif.Turns.C140_still",
    "Verif.Turns.C140_defined",
    "Verif.Turns.C140_solve_partial",
    "Verif.Turns.dofOk",
    "Verif.Turns.safe_forward",
    "Verif.HalfTurn.C128_planner_counterexample",
    "Verif.TimeParam.C50_still_counterexample"
   ],
   "note": "Composes C138, C139 and C50 on evaluations of path vectors. C140_trajectory holds for all joints, half turns included. Only the first step is partial, as in C139: the path given by the planner must contain no reversed half turn. C140_defined gives conditions under which a trajectory is found; a piece along which no limited degree of freedom moves has none (C50_still_counterexample)."
  },
  {
   "property": "C141",
   "status": "partial",
   "theorems": [
    "Verif.Turns.C141_planners",
    "Verif.Turns.C141_optimize",
    "Verif.Turns.C141_trajectory",
    "Verif.Turns.C141_solve_partial",
    "Verif.Turns.segments_robot",
    "Verif.Turns.between_segments",
    "Verif.Optim.Simple.simpleShortcut_in",
    "Verif.EndToEnd.Plane.C130_birrtstar_counterexample"
   ],
   "note": "Generalizes C130 to joints of any kind and carries it through optimizers and time parameterization. Bounds hold on reversed half turns too. Partial: BiRRT* only if its draws near the best path are in the set, which fails in general (C130_birrtstar_counterexample); the combined statement with the absence of collision needs the path of the planner to contain no reversed half turn, as C139."
  },
  {
   "property": "C142",
   "status": "partial",
   "theorems": [
    "Verif.RoadMem.C142_call_partial",
    "Verif.RoadMem.C142_history_partial",
    "Verif.RoadMem.C142_no_leak_partial",
    "Verif.RoadMem.C142_pointers_partial",
    "Verif.RoadMem.C142_clear",
    "Verif.RoadMem.C142_destroy",
    "Verif.RoadMem.C142_same_nn_counterexample",
    "Verif.RoadMem.C142_shared_nn_counterexample",
    "Verif.RoadMem.C142_kept_node_counterexample",
    "Verif.RoadMem.C142_foreign_node_counterexample",
    "Verif.RoadMem.C142_no_init_counterexample"
   ],
   "note": "Proved for programs whose node arguments belong to the roadmap called, that give each nearest neighbour object once and to one roadmap, and that set an init node before pathExists. Nothing in the API enforces this: giving a roadmap the nearest neighbour object that it already has releases it and keeps the pointer (roadmap.cc:80-83), two roadmaps may be given the same object and both release it, nodes kept across clear or belonging to another roadmap are accepted by addEdge, pathExists dereferences a null init node: each is a counterexample."
  },
  {
   "property": "C143",
   "status": "partial",
   "theorems": [
    "Verif.Kept.C143_solve_partial",
    "Verif.Kept.C143_constraint_counterexample",
    "Verif.Kept.C143_validation_counterexample",
    "Verif.Kept.C143_edge_counterexample"
   ],
   "note": "Proved for every session in which constraints are added and the path validation is changed only while the roadmap has no edges, and edges given by hand meet the requirements: obstacles may be added, cut and removed at any time (addObstacle and removeObstacle empty the roadmap). False otherwise: addConstraint, addNumericalConstraintToConfigProjector and pathValidationType keep the roadmap, and the next solve returns the path found before, which violates the new constraint or is in collision."
  },
  {
   "property": "C144",
   "status": "partial",
   "theorems": [
    "Verif.Rounding.C144_rank",
    "Verif.Rounding.C144_order",
    "Verif.Rounding.C144_position",
    "Verif.Rounding.C144_length",
    "Verif.Rounding.C144_end_partial",
    "Verif.Rounding.C144_end_counterexample",
    "Verif.Rounding.C144_discretized_partial",
    "Verif.Rounding.C144_discretized_counterexample"
   ],
   "note": "Proved: rank and local parameter always defined, within the time range (beyond its end by a rounding error only when the range does not begin at 0), order kept, position up to an error proportional to the number of paths passed, value at the end of the range up to an error. False: the value at the end of the range is the end of the last path (numbers of type double, paths of lengths 1 and 2^-60: the second path is never reached, whereas end() is its end), and the discretized validation always ends (double, parameters around 2^53 and step 1/2: the parameter never moves). The partial theorem asks for a step above the rounding error on the parameters. Overflow and subnormal numbers are left out."
  },
  {
   "property": "C145",
   "status": "partial",
   "theorems": [
    "Verif.Rounding.C145_extract",
    "Verif.Rounding.C145_begin",
    "Verif.Rounding.C145_shortcut_partial",
    "Verif.Rounding.C145_extract_counterexample",
    "Verif.Rounding.C145_shortcut_counterexample"
   ],
   "note": "Proved: extraction always exists and joins exactly, from the value at the first parameter to the value at the second one; beginnings are exact; any number of shortcuts joins exactly from the initial configuration. False: extraction over the whole time range leads to the final configuration, and so do shortcuts (double, a last path of length 2^-60 after a path of length 1: the end of the time range is the end of the first path, the last path is lost). Shortcuts keep the final configuration if each vector whose last part is kept is at its final configuration at the end of its time range. Straight paths without constraints nor time parameterization."
  },
  {
   "property": "C146",
   "status": "proved",
   "theorems": [
    "Verif.Rounding.C146_interpolation",
    "Verif.Rounding.C146_vector",
    "Verif.Rounding.C146_extract",
    "Verif.Rounding.C146_shortcut",
    "Verif.Rounding.binary_nearest"
   ],
   "note": "Assumed of the library pinocchio: the interpolation of vector spaces is exact for 0 and 1 and x + u (y - x) otherwise. Rounding to the nearest is an interface (odd, nearest, products by factors below 1 are below) shown to hold for numbers with p bits, for every p; overflow and subnormal numbers are left out. Paths whose time range begins at 0, as those made by the steering method and by extraction."
  },
  {
   "property": "C147",
   "status": "partial",
   "theorems": [
    "Verif.Rounding.C147_shot_partial",
    "Verif.Rounding.C147_shot_counterexample"
   ],
   "note": "Proved for random numbers r with (1+u)^2 r < RAND_MAX, that is, with numbers of type double, for all r below RAND_MAX. False when rand returns RAND_MAX: with bounds -0.8 and 0.3 the value is 0.30000000000000004, which the joint bound validation refuses."
  },
  {
   "property": "C148",
   "status": "partial",
   "theorems": [
    "Verif.Rounding.C148_progressive_partial",
    "Verif.Rounding.C148_progressive_fail",
    "Verif.Rounding.C148_dichotomy_partial",
    "Verif.Rounding.C148_dichotomy_fail",
    "Verif.Rounding.C148_progressive_terminates_partial",
    "Verif.Rounding.C148_dichotomy_terminates_partial",
    "Verif.Rounding.C148_penetration_counterexample",
    "Verif.Rounding.C148_loop_counterexample"
   ],
   "note": "Proved for straight paths with the bound of twice the tolerance augmented by the rounding errors, and termination when the advance exceeds them.  The bound without rounding errors fails: in double precision a path whose time range ends at the double nearest to 1/5 is accepted by the dichotomy although the objects penetrate at its end.  Termination without condition fails: two bodies sliding at distance 2^-60 make both loops run for ever in double precision.  Not modelled: rounding in the refinement of the velocity bound for paths that are not straight, and in the distances and velocity bounds themselves."
  },
  {
   "property": "C149",
   "status": "partial",
   "theorems": [
    "Verif.AStar.C149_answers",
    "Verif.AStar.C149_near_partial",
    "Verif.AStar.C149_distance_partial",
    "Verif.AStar.C149_shortest_counterexample"
   ],
   "note": "The factor per edge of the shortest chain is (1 + u)(1 + u)(1 + e)/(1 - u), where u is the relative error of additions and e that of the heuristic: for 1000 edges in double precision the error is less than 1e-12. Proved for edges between the same nodes in the same direction which have the same length (see C14). The path returned may be longer than another one by a rounding error (C149_shortest_counterexample). Infinities and NaN are not modelled."
  },
  {
   "property": "C150",
   "status": "partial",
   "theorems": [
    "Verif.Dist.C150_error",
    "Verif.Dist.C150_metric",
    "Verif.Dist.C150_sqNorm",
    "Verif.Dist.C150_vector",
    "Verif.Dist.C150_nearest",
    "Verif.Dist.C150_search_partial",
    "Verif.Dist.vEnv_accurate",
    "Verif.Dist.vEnv_symmetric"
   ],
   "note": "Error, metric, vector and nearest node parts in full. Search: two edges between the same nodes in the same direction must have the same length, as in C14 and C149. The accuracy of the squared distance of joints with rotations in SO(2), SO(3) is a contract (\u03b5); underflow and overflow are not modelled; Eigen may sum the coordinates in another order."
  },
  {
   "property": "C151",
   "status": "partial",
   "theorems": [
    "Verif.Single.C151_progressive",
    "Verif.Single.C151_dichotomy",
    "Verif.Single.C151_discretized",
    "Verif.Single.C151_discretized_path",
    "Verif.Single.C151_all",
    "Verif.Single.C151_report",
    "Verif.Single.C151_end_counterexample"
   ],
   "note": "Everything is proved except the last sentence, which is false with a positive tolerance: a straight path is accepted although its end, validated alone, is refused (C151_end_counterexample, also with the dichotomy). How far an accepted path may penetrate is C34."
  },
  {
   "property": "C152",
   "status": "proved",
   "theorems": [
    "Verif.Planner.diffStep_links",
    "Verif.Planner.C152_diffusing",
    "Verif.Planner.C152_dense",
    "Verif.EndToEnd.C152_accepts",
    "Verif.EndToEnd.C152_bench"
   ],
   "note": "The distance separates configurations; the initial roadmap contains no node inserted one way (empty for the last sentence). The random configurations are an arbitrary sequence: that they are dense with probability one is outside of the model. That the last configuration of the chain is not yet a node is a hypothesis on the run (in the dense case on every step)."
  },
  {
   "property": "C153",
   "status": "proved",
   "theorems": [
    "Verif.Planner.C153_birrt",
    "Verif.Planner.C153_dense",
    "Verif.EndToEnd.C153_accepts",
    "Verif.EndToEnd.C153_bench"
   ],
   "note": "That the configurations shot are not yet nodes is a hypothesis on the run up to the end of the chain; without it the planner can throw (C66_birrt_null_counterexample). The last sentence is proved for one goal. The random configurations are an arbitrary sequence: that they contain a chain with probability one is outside of the model."
  },
  {
   "property": "C154",
   "status": "proved",
   "theorems": [
    "Verif.Planner.near_mem",
    "Verif.Planner.kStep_sym",
    "Verif.Planner.C154_kprm",
    "Verif.EndToEnd.C154_bench"
   ],
   "note": "More nodes than init and goal configurations (otherwise the planner connects these only). No more than the given number of trials (10000 in the code) of invalid configurations in a row, otherwise it fails."
  },
  {
   "property": "C155",
   "status": "partial",
   "theorems": [
    "Verif.ByName.C155_remove_partial",
    "Verif.ByName.C155_defined",
    "Verif.ByName.C155_reset",
    "Verif.ByName.C155_after_reset",
    "Verif.ByName.C155_continuous_never",
    "Verif.ByName.C155_continuous_counterexample",
    "Verif.ByName.C155_declared_order"
   ],
   "note": "Proved for path validations that compare geometries (discretized, none) and with the arguments in the order of the implementation. The code violates the rest: the declaration in problem-solver.hh has the parameters (jointName, obstacleName) while the definition reads (obstacleName, jointName), so that a call in the declared order throws unless a joint has the name of an obstacle; with Progressive or Dichotomy the call throws after every history and changes nothing, because the solver makes another CollisionObject for the obstacle and the continuous validation compares the pointers."
  },
  {
   "property": "C156",
   "status": "partial",
   "theorems": [
    "Verif.Solver.Device.C156_objects",
    "Verif.Solver.Device.C156_whole",
    "Verif.Solver.Device.C156_frames",
    "Verif.Solver.Device.C156_frames_partial",
    "Verif.Solver.Device.C156_reference",
    "Verif.Solver.Device.C156_frames_counterexample",
    "Verif.Solver.Device.C156_atomic_counterexample",
    "Verif.Solver.Device.C156_names_counterexample"
   ],
   "note": "Registered objects, exceptions and frame positions are characterized after every history; a device with distinct unused names is added as a whole. The code violates the rest, under the contract that pinocchio keeps the first of two frames with the same name and type: a device that is added again at another place keeps the old frame positions; a name clash leaves the objects before it and all the frames; the names are put side by side, so that distinct devices with distinct objects may clash; a reference to a frame position is dangling after the next device. The kinematics of the device and addFrame, getFrameId are contracts."
  },
  {
   "property": "C157",
   "status": "partial",
   "theorems": [
    "Verif.Rhs.Steered.C157_straight",
    "Verif.Rhs.Steered.C157_straight_ends",
    "Verif.Rhs.Steered.C157_satisfied_partial",
    "Verif.Rhs.Steered.C157_ends_partial",
    "Verif.Rhs.Steered.C157_ignored",
    "Verif.Rhs.Steered.C157_ignored_counterexample",
    "Verif.Rhs.Steered.C157_level_counterexample"
   ],
   "note": "Proved for the straight steering method. Hermite, Spline and Reeds-Shepp keep the right-hand sides of the steering method instead of those of the first configuration: constraints without level sets are satisfied, but a path may start from another level set than its first configuration (counterexample). Dubins, Snibud, the kinodynamic steering method, and Reeds-Shepp between almost equal poses ignore the constraints (counterexample). The solver is a contract, and so are the paths without constraints (C87, C88, C90, C108, C110)."
  },
  {
   "property": "C158",
   "status": "partial",
   "theorems": [
    "Verif.Planner.OneWay.C158_step",
    "Verif.Planner.OneWay.C158_birrt_partial",
    "Verif.Planner.OneWay.C158_cars",
    "Verif.Planner.OneWay.C158_birrt_cars_partial",
    "Verif.Planner.OneWay.C158_reversed",
    "Verif.Planner.OneWay.C158_reverse_counterexample",
    "Verif.Planner.OneWay.C158_kinodynamic",
    "Verif.Planner.OneWay.C158_null",
    "Verif.Planner.OneWay.C158_null_counterexample"
   ],
   "note": "Proved for BiRRT without constraints, which inserts only the paths it steers, in the direction in which they are computed. The other planners (DiffusingPlanner, VisibilityPrm, kPRM*, BiRRT*) insert the reverse of each path as well, and return paths that cannot be followed, even when there is no solution (counterexample on each of them); the reverse of a kinodynamic path is a null pointer, they insert edges with null paths that the search dereferences (counterexample), BiRRT does not."
  },
  {
   "property": "C159",
   "status": "proved",
   "theorems": [
    "Verif.CV.C159_pair",
    "Verif.CV.C159_progressive",
    "Verif.CV.C159_dichotomy",
    "Verif.CV.C159_progressive_ends",
    "Verif.CV.C159_dichotomy_ends",
    "Verif.Car.C159_finite",
    "Verif.Car.C159_arc",
    "Verif.Car.C159_arc_part",
    "Verif.Car.C159_refused",
    "Verif.Car.C159_arc_ends",
    "Verif.Car.C159_vector",
    "Verif.Car.C159_vector_part"
   ],
   "note": "Assumed: lower bounds of the collision library and coefficients of the pairs (C55). The refinement of the velocity is right for motions of constant speed, whatever the tolerance. Validation of vectors from their end is not covered (C33: it fails)."
  },
  {
   "property": "C160",
   "status": "partial",
   "theorems": [
    "Verif.Planner.Cars.C160_steer",
    "Verif.Planner.Cars.C160_diffusing_partial",
    "Verif.Planner.Cars.C160_visibility_partial",
    "Verif.Planner.Cars.C160_kprm_partial"
   ],
   "note": "Missing: wheel joints (their values differ at the ends of arcs: C85); steering between two configurations of the same pose, taken here as a failure (not a number in the code: C87, C110); planners that validate paths from their end (BiRRT), which fails on vectors (C33); edges carry reversed paths, so that the path returned may be driven both ways (C158)."
  },
  {
   "property": "C161",
   "status": "partial",
   "theorems": [
    "Verif.Planner.Cars.C161_optimize_partial",
    "Verif.Planner.Cars.C161_simple_ends",
    "Verif.Planner.Cars.C161_direction",
    "Verif.Planner.Cars.C161_diffusing_partial",
    "Verif.Planner.Cars.C161_visibility_partial",
    "Verif.Planner.Cars.C161_kprm_partial"
   ],
   "note": "Missing: what is missing in C160 (wheel joints, steering between configurations of the same pose, BiRRT); PartialShortcut and the optimizers by splines, which do not apply to cars."
  },
  {
   "property": "C162",
   "status": "partial",
   "theorems": [
    "Verif.Planner.CarsSampled.C162_birrt_partial",
    "Verif.Planner.CarsSampled.C162_diffusing_partial",
    "Verif.Planner.CarsSampled.C162_visibility_partial",
    "Verif.Planner.CarsSampled.C162_kprm_partial",
    "Verif.Planner.CarsSampled.C162_steer",
    "Verif.Planner.CarsSampled.C162_accepts"
   ],
   "note": "Missing: the wheel joints; steering between configurations of the same pose, which fails; the joint bounds. Only BiRRT keeps the direction (C158_reverse_counterexample)."
  },
  {
   "property": "C163",
   "status": "proved",
   "theorems": [
    "Verif.Planner.C163_birrt",
    "Verif.Planner.C163_diffusing",
    "Verif.Planner.C163_visibility",
    "Verif.Planner.C163_birrtstar",
    "Verif.Planner.CarsSampled.C163_car"
   ],
   "note": "k-PRM* and SearchInRoadmap override the direct connection by an empty function (C107_tryConnect_counterexample)."
  },
  {
   "property": "C164",
   "status": "partial",
   "theorems": [
    "Verif.Planner.CarsSampled.C164_optimize_partial",
    "Verif.Planner.CarsSampled.C164_simple_ends",
    "Verif.Planner.CarsSampled.C164_birrt_partial",
    "Verif.Planner.CarsSampled.C164_diffusing_partial",
    "Verif.Planner.CarsSampled.C164_visibility_partial",
    "Verif.Planner.CarsSampled.C164_kprm_partial"
   ],
   "note": "Missing: what is missing in C162 (wheel joints, steering between configurations of the same pose, joint bounds); PartialShortcut and the optimizers by splines, which do not apply to cars."
  },
  {
   "property": "C165",
   "status": "partial",
   "theorems": [
    "Verif.Planner.CarsSampled.C165_trajectory_partial",
    "Verif.Planner.CarsSampled.C165_defined_partial",
    "Verif.Planner.CarsSampled.C165_birrt_partial",
    "Verif.Planner.CarsSampled.C165_solved_partial",
    "Verif.Planner.Cars.C165_still",
    "Verif.Planner.Cars.C165_continuous_partial",
    "Verif.Planner.Cars.C165_continuous_solved_partial",
    "Verif.Planner.Cars.C165_continuous_diffusing_partial",
    "Verif.Planner.CarsSampled.Demo.C165_limit_counterexample",
    "Verif.Planner.CarsSampled.Demo.C165_throws_counterexample"
   ],
   "note": "False as stated, because of the velocity bound of the arcs (C86): a car limited along its own axis exceeds its limit (C165_limit_counterexample), and the optimizer throws on an arc in the third quadrant, whatever the limits (C165_throws_counterexample). Proved: the speed is at most the norm of the limits of both coordinates; rotation and other joints meet their limits; the optimizer succeeds if no component of the bounds is negative. Missing: what is missing in C162; the acceleration limit (C50 for one piece)."
  },
  {
   "property": "C166",
   "status": "partial",
   "theorems": [
    "Verif.Planner.CarsSampled.C166_steer_partial",
    "Verif.Planner.CarsSampled.C166_birrt_partial",
    "Verif.Planner.CarsSampled.C166_diffusing_partial",
    "Verif.Planner.CarsSampled.C166_visibility_partial",
    "Verif.Planner.CarsSampled.C166_kprm_partial",
    "Verif.Planner.CarsSampled.C166_position",
    "Verif.Planner.CarsSampled.C166_validation",
    "Verif.Planner.CarsSampled.C166_validated_birrt_partial",
    "Verif.Planner.CarsSampled.C166_validated_diffusing_partial",
    "Verif.Planner.CarsSampled.C166_optimize_partial",
    "Verif.Planner.CarsSampled.C166_resolution_partial",
    "Verif.Planner.CarsSampled.Demo.C166_position_counterexample"
   ],
   "note": "False for the position of the car: from a position at its upper bound, facing it, each path of Dubins leaves the bounds, and BiRRT returns it (C166_position, C166_position_counterexample); the collision validation does not look at bounds. Proved for all the other joints, for any convex set of bounds; for the position, with the path validation DiscretizedCollisionAndJointBound, up to half a step of the validation (C166_validated_*); the shortcut optimizers keep the other joints within bounds (C166_optimize_partial, C166_resolution_partial). Missing: what is missing in C162."
  }
 ]
}