{
 "claims": [
  {
   "property": "C01",
   "status": "proved",
   "theorems": [
    "Simpy.sum_value",
    "Simpy.sum_value_principal"
   ],
   "note": "textbook domain; for every oracle whose root test is exact (Oracle.Exact)"
  },
  {
   "property": "C02",
   "status": "partial",
   "theorems": [
    "Simpy.prod_value_partial",
    "Simpy.prod_value_logfree",
    "Simpy.prod_value_textbook_fails"
   ],
   "note": "proved on the principal domain and, for log-free factors, on the whole plain real domain; false with logs of products of negative numbers (witness)"
  },
  {
   "property": "C03",
   "status": "partial",
   "theorems": [
    "Simpy.power_value_partial",
    "Simpy.power_value_int",
    "Simpy.power_value_atomic",
    "Simpy.power_value_textbook_fails"
   ],
   "note": "proved on the principal domain, for all integer exponents and for all atomic bases; the code is wrong outside ((x**2)**(3/2) -> x**3, witness)"
  },
  {
   "property": "C04",
   "status": "partial",
   "theorems": [
    "Simpy.operators_value_partial",
    "Simpy.operators_value_logfree",
    "Simpy.operators_value_fails"
   ],
   "note": "principal domain; plain real domain for log-free operands; false outside ((x**2)**(3/2) is x**3: operators_value_fails)"
  },
  {
   "property": "C05",
   "status": "proved",
   "theorems": [
    "Simpy.rational_operators_exact",
    "Simpy.rational_sum_exact",
    "Simpy.rational_prod_exact",
    "Simpy.rational_power_exact"
   ],
   "note": "operators, and Sum/Prod/Power on any number of rationals"
  },
  {
   "property": "C06",
   "status": "partial",
   "theorems": [
    "Simpy.rational_root_exact_partial",
    "Simpy.rational_root_even_fails"
   ],
   "note": "full for q >= 0, integer r and odd/odd r; (-8)**(2/3) -> -4 is wrong (witness)"
  },
  {
   "property": "C07",
   "status": "proved",
   "theorems": [
    "Simpy.sum_canonical",
    "Simpy.prod_canonical",
    "Simpy.built_canonical"
   ],
   "note": ""
  },
  {
   "property": "C08",
   "status": "partial",
   "theorems": [
    "Simpy.sum_flat_partial",
    "Simpy.prod_flat_partial",
    "Simpy.sum_flat_fails",
    "Simpy.prod_flat_fails"
   ],
   "note": "false in general (witnesses): the like-term passes can put a nested sum or product back"
  },
  {
   "property": "C09",
   "status": "partial",
   "theorems": [
    "Simpy.like_terms_collected",
    "Simpy.add_self_partial",
    "Simpy.sub_self_partial",
    "Simpy.sub_self_fails"
   ],
   "note": "first half full (float-free); the consequence x-x=0 fails for powers of -1 (witness)"
  },
  {
   "property": "C10",
   "status": "partial",
   "theorems": [
    "Simpy.sum_comm",
    "Simpy.prod_comm_partial",
    "Simpy.prod_comm_fails"
   ],
   "note": "Sum full; Prod for rational exponents and factors defined at some point; the code violates it for symbolic exponents: e**(3*(x+2))*e**(-2*(x+2))*e**(-x) is e**2, in another order e**(x+2-x) (prod_comm_fails)"
  },
  {
   "property": "C100",
   "status": "proved",
   "theorems": [
    "Simpy.bounds_equal",
    "Simpy.bounds_exchanged",
    "Simpy.bounds_joined",
    "Simpy.bounds_found",
    "Simpy.bounds_given_up",
    "Simpy.bound_moved",
    "Simpy.bound_moved_below",
    "Simpy.polynomial_between",
    "Simpy.polynomial_bound_moved",
    "Simpy.polynomial_between_add",
    "Simpy.polynomial_between_mono"
   ],
   "note": ""
  },
  {
   "property": "C11",
   "status": "proved",
   "theorems": [
    "Simpy.sort_sorted",
    "Simpy.sort_sorted_any",
    "Simpy.key_order",
    "Simpy.canonical_order",
    "Simpy.built_ordered"
   ],
   "note": ""
  },
  {
   "property": "C12",
   "status": "partial",
   "theorems": [
    "Simpy.subs_value",
    "Simpy.subs_value_partial",
    "Simpy.subs_value_fails"
   ],
   "note": "full when every power has an integer literal exponent and there is no log/inverse trig; otherwise under run conditions; sqrt(a+b).subs(a=b=x*y) -> sqrt2*sqrtx*sqrty is undefined at x=y=-1 (witness)"
  },
  {
   "property": "C13",
   "status": "proved",
   "theorems": [
    "Simpy.constructors_invent_no_symbols",
    "Simpy.operators_invent_no_symbols",
    "Simpy.diff_expand_invent_no_symbols",
    "Simpy.subs_symbols",
    "Simpy.subs_eliminates"
   ],
   "note": ""
  },
  {
   "property": "C14",
   "status": "partial",
   "theorems": [
    "Simpy.diff_correct",
    "Simpy.diff_correct_partial",
    "Simpy.diff_log_fails",
    "Simpy.diff_abs_fails"
   ],
   "note": "proved for all smooth expressions at all regular points (diff_correct); outside that class under run conditions; log to another base and Abs of negatives are wrong in the code (witnesses)"
  },
  {
   "property": "C15",
   "status": "partial",
   "theorems": [
    "Simpy.diff_constant_partial",
    "Simpy.diff_constant_fails"
   ],
   "note": "for expressions regular somewhere; (z*0**y).diff(x) is not 0 (witness)"
  },
  {
   "property": "C16",
   "status": "partial",
   "theorems": [
    "Simpy.expand_value",
    "Simpy.expand_value_partial",
    "Simpy.expand_log_fails"
   ],
   "note": "full for integer exponents without logs/inverse trig, on the whole real domain; otherwise under run conditions; log(x*(x+1),2).expand() loses the base (witness)"
  },
  {
   "property": "C17",
   "status": "proved",
   "theorems": [
    "Simpy.generate_permutations_spec"
   ],
   "note": ""
  },
  {
   "property": "C18",
   "status": "proved",
   "theorems": [
    "Simpy.multinomial_coefficient_spec",
    "Simpy.multinomial_coefficient_rejects",
    "Simpy.multinomial_theorem"
   ],
   "note": ""
  },
  {
   "property": "C19",
   "status": "proved",
   "theorems": [
    "Simpy.contains_iff_symbols",
    "Simpy.value_independent"
   ],
   "note": ""
  },
  {
   "property": "C20",
   "status": "partial",
   "theorems": [
    "Simpy.eq_iff_identical_partial",
    "Simpy.eq_reflexive",
    "Simpy.eq_value_partial",
    "Simpy.eq_fails"
   ],
   "note": "full under the assumption that no rational compares equal to the floats of pi and e; eq_fails: with such a rational == is neither value respecting nor symmetric"
  },
  {
   "property": "C21",
   "status": "proved",
   "theorems": [
    "Simpy.count_pos_iff",
    "Simpy.count_node",
    "Simpy.general_count_node",
    "Simpy.has_iff"
   ],
   "note": ""
  },
  {
   "property": "C22",
   "status": "partial",
   "theorems": [
    "Simpy.replace_value",
    "Simpy.replace_symbol_value",
    "Simpy.replace_rules_value",
    "Simpy.replace_rules_value_partial",
    "Simpy.replace_absent_value",
    "Simpy.replace_value_fails"
   ],
   "note": "full for tame expressions (integer exponents or plain bases); all expressions under run conditions; false otherwise (witness)"
  },
  {
   "property": "C23",
   "status": "proved",
   "theorems": [
    "Simpy.eq_with_var_iff",
    "Simpy.eq_with_var_value"
   ],
   "note": "under the assumption that no rational compares equal to the floats of pi and e"
  },
  {
   "property": "C24",
   "status": "partial",
   "theorems": [
    "Simpy.to_const_polynomial_partial",
    "Simpy.to_const_polynomial_unexpandable_partial",
    "Simpy.to_const_polynomial_fails"
   ],
   "note": "full when the expanded expression has no number times a Sum/Prod; the multiplier is dropped otherwise (witness)"
  },
  {
   "property": "C25",
   "status": "proved",
   "theorems": [
    "Simpy.polynomial_to_expr_value"
   ],
   "note": ""
  },
  {
   "property": "C26",
   "status": "proved",
   "theorems": [
    "Simpy.rid_ending_zeros_spec",
    "Simpy.rid_ending_zeros_value"
   ],
   "note": ""
  },
  {
   "property": "C27",
   "status": "proved",
   "theorems": [
    "Simpy.polynomial_division_rational",
    "Simpy.polynomial_division_value",
    "Simpy.polynomial_division_partial",
    "Simpy.polynomial_division_fails"
   ],
   "note": "proved for rational coefficients (termination, degree, identity, and the integrand); polynomial_division_partial goes beyond: any coefficients as long as each pass shortens the numerator, and polynomial_division_fails shows that the condition is needed"
  },
  {
   "property": "C28",
   "status": "proved",
   "theorems": [
    "Simpy.invert_value",
    "Simpy.invert_is_2x2",
    "Simpy.invert_none_singular",
    "Simpy.invert_other_sizes"
   ],
   "note": ""
  },
  {
   "property": "C29",
   "status": "proved",
   "theorems": [
    "Simpy.partial_fractions_value"
   ],
   "note": "rational linear factors; away from zeros of the factor taken out when the denominator is an unfactored sum"
  },
  {
   "property": "C30",
   "status": "proved",
   "theorems": [
    "Simpy.integral_table_correct",
    "Simpy.integral_table_rational"
   ],
   "note": ""
  },
  {
   "property": "C31",
   "status": "partial",
   "theorems": [
    "Simpy.not_solved_and_failed_partial",
    "Simpy.solved_and_failed",
    "Simpy.finished_iff",
    "Simpy.and_status",
    "Simpy.or_status",
    "Simpy.leaf_status"
   ],
   "note": "the three characterisations are full; exclusiveness needs that settled nodes have no children (witness)"
  },
  {
   "property": "C32",
   "status": "proved",
   "theorems": [
    "Simpy.unfinished_has_work",
    "Simpy.verdict_is_final",
    "Simpy.failed_not_solvable"
   ],
   "note": ""
  },
  {
   "property": "C33",
   "status": "proved",
   "theorems": [
    "Simpy.best_leaf_correct"
   ],
   "note": ""
  },
  {
   "property": "C34",
   "status": "proved",
   "theorems": [
    "Simpy.add_child_effect",
    "Simpy.no_repeated_problem",
    "Simpy.search_never_repeats"
   ],
   "note": ""
  },
  {
   "property": "C35",
   "status": "proved",
   "theorems": [
    "Simpy.go_backwards_sound",
    "Simpy.go_backwards_only_solved",
    "Simpy.go_backwards_antiderivative",
    "Simpy.go_backwards_antiderivative_run"
   ],
   "note": ""
  },
  {
   "property": "C36",
   "status": "partial",
   "theorems": [
    "Simpy.pull_constant_sound",
    "Simpy.additivity_sound",
    "Simpy.expand_transform_sound_partial",
    "Simpy.polynomial_usub_sound_partial",
    "Simpy.generic_usub_sound_partial",
    "Simpy.trig_usub2_sound_partial",
    "Simpy.inverse_trig_usub_sound_partial",
    "Simpy.linear_usub_sound_partial",
    "Simpy.linear_usub_fails",
    "Simpy.rewrite_trig_sound_partial",
    "Simpy.rewrite_pythagorean_sound_partial",
    "Simpy.by_parts_sound",
    "Simpy.by_parts_same_sound_partial",
    "Simpy.by_parts_twice_sound_partial",
    "Simpy.integ_ok_table",
    "Simpy.complete_the_square_sound_partial",
    "Simpy.polynomial_division_sound_partial",
    "Simpy.partial_fractions_sound_partial",
    "Simpy.product_to_sum_sound_partial",
    "Simpy.simplify_step_sound_partial"
   ],
   "note": "PullConstant, Additivity and ByParts (plain case) without side conditions; the u-substitutions and rewritings under run conditions (the old variable is gone, replace keeps to principal branches), where sin/cos have the sign the code assumes. LinearUSub is wrong in general: linear_usub_fails."
  },
  {
   "property": "C37",
   "status": "partial",
   "theorems": [
    "Simpy.definite_value",
    "Simpy.definite_integral",
    "Simpy.definite_table",
    "Simpy.definite_none",
    "Simpy.definite_value_partial",
    "Simpy.definite_integral_partial",
    "Simpy.definite_value_fails",
    "Simpy.definite_ignores_poles"
   ],
   "note": "full for antiderivatives and bounds built from numbers, symbols, +, *, integer powers and |.|; in general under the run conditions of subs and simplify (false otherwise: definite_value_fails)"
  },
  {
   "property": "C38",
   "status": "proved",
   "theorems": [
    "Simpy.trig_special_value"
   ],
   "note": ""
  },
  {
   "property": "C39",
   "status": "partial",
   "theorems": [
    "Simpy.trig_value",
    "Simpy.trig_value_partial",
    "Simpy.trig_value_fails"
   ],
   "note": "full for arguments without inverse trig functions"
  },
  {
   "property": "C40",
   "status": "partial",
   "theorems": [
    "Simpy.inverse_trig_value_partial",
    "Simpy.inverse_trig_cancel_partial",
    "Simpy.asin_sin_fails",
    "Simpy.inverse_trig_zero_raises"
   ],
   "note": "asin(sin x) -> x is wrong outside the principal range (witness)"
  },
  {
   "property": "C41",
   "status": "proved",
   "theorems": [
    "Simpy.log_value"
   ],
   "note": ""
  },
  {
   "property": "C42",
   "status": "proved",
   "theorems": [
    "Simpy.abs_value",
    "Simpy.abs_dropped_nonneg"
   ],
   "note": ""
  },
  {
   "property": "C43",
   "status": "partial",
   "theorems": [
    "Simpy.pythagorean_value_partial",
    "Simpy.pythagorean_pairs_value_partial",
    "Simpy.pythagorean_value_fails"
   ],
   "note": "all seven identities, any number of pairs and other terms, when no term has two squared sines/cosines as factors and the matches of regex.Eq are squares; false otherwise (witness)"
  },
  {
   "property": "C44",
   "status": "partial",
   "theorems": [
    "Simpy.product_to_sum_plain",
    "Simpy.product_to_sum_value_partial",
    "Simpy.product_to_sum_sum_value_partial",
    "Simpy.product_to_sum_fails"
   ],
   "note": "products of sines, cosines and constants: full (no inverse trig functions inside); with powers: under the run condition ptsOk; false for three or more factors mixing powers and plain functions (witness)"
  },
  {
   "property": "C45",
   "status": "partial",
   "theorems": [
    "Simpy.one_fraction_value",
    "Simpy.one_fraction_value_partial",
    "Simpy.one_fraction_value_fails"
   ],
   "note": "log-free sums: whole real domain; with logs: principal domain, and false outside: e**(ln(x*y)/2 - 2) + 1/e**2 becomes (sqrt(x)*sqrt(y) + 1)/e**2 (one_fraction_value_fails)"
  },
  {
   "property": "C46",
   "status": "proved",
   "theorems": [
    "Simpy.numerator_denominator_recomposes",
    "Simpy.numerator_denominator_principal"
   ],
   "note": "whole real domain (principal roots)"
  },
  {
   "property": "C47",
   "status": "partial",
   "theorems": [
    "Simpy.factor_value",
    "Simpy.factor_value_partial",
    "Simpy.factor_value_fails"
   ],
   "note": "where the common factor is not 0 and (automatic for integer exponents) defined; false in general, since factors are compared by their text: factor_value_fails"
  },
  {
   "property": "C48",
   "status": "partial",
   "theorems": [
    "Simpy.expand_logs_value_partial",
    "Simpy.expand_logs_fails"
   ],
   "note": "natural logarithms, positive arguments of the new logarithms, under run conditions; other bases are dropped (witness)"
  },
  {
   "property": "C49",
   "status": "partial",
   "theorems": [
    "Simpy.reciprocate_trigs_value",
    "Simpy.reciprocate_trigs_value_partial",
    "Simpy.to_sin_cos_value",
    "Simpy.to_sin_cos_value_partial",
    "Simpy.reciprocate_trigs_value_fails",
    "Simpy.to_sin_cos_value_fails"
   ],
   "note": "full for integer exponents without logs/inverse trig; otherwise under run conditions, and false without them: sqrt(x/sin(y) + x*csc(y)) becomes sqrt(2)*sqrt(x)*sqrt(csc(y))"
  },
  {
   "property": "C50",
   "status": "proved",
   "theorems": [
    "Simpy.constructors_budget",
    "Simpy.operators_budget",
    "Simpy.methods_budget"
   ],
   "note": ""
  },
  {
   "property": "C51",
   "status": "partial",
   "theorems": [
    "Simpy.evalf_converges_partial",
    "Simpy.evalf_symbol_free",
    "Simpy.evalf_log_fails"
   ],
   "note": "evalf converges to the value as the accuracy of the floating-point arithmetic improves (for every epsilon a delta, uniformly over every arithmetic of that accuracy). Missing: logarithms to other bases, which the code evaluates as natural ones (evalf_log_fails)."
  },
  {
   "property": "C52",
   "status": "proved",
   "theorems": [
    "Simpy.nesting_zero_iff",
    "Simpy.nesting_child"
   ],
   "note": ""
  },
  {
   "property": "C53",
   "status": "proved",
   "theorems": [
    "Simpy.simplify_smaller",
    "Simpy.simplify_smaller_trig_free"
   ],
   "note": ""
  },
  {
   "property": "C54",
   "status": "proved",
   "theorems": [
    "Simpy.latex_brackets",
    "Simpy.plain_names",
    "Simpy.Nested.counts"
   ],
   "note": "any expression, any floats; parentheses and braces are matched and properly nested"
  },
  {
   "property": "C55",
   "status": "proved",
   "theorems": [
    "Simpy.repr_brackets",
    "Simpy.plain_names",
    "Simpy.Nested.counts",
    "Simpy.repr_ambiguous"
   ],
   "note": "any expression, any floats; properly nested; note repr_ambiguous: two different expressions can have the same repr"
  },
  {
   "property": "C56",
   "status": "partial",
   "theorems": [
    "Simpy.sum_idempotent_partial",
    "Simpy.prod_idempotent_partial",
    "Simpy.sum_idempotent_fails",
    "Simpy.prod_idempotent_fails"
   ],
   "note": "false in general (witnesses)"
  },
  {
   "property": "C57",
   "status": "partial",
   "theorems": [
    "Simpy.simplify_value",
    "Simpy.simplify_value_partial",
    "Simpy.simplify_trig_value_partial",
    "Simpy.simplify_value_fails"
   ],
   "note": "full for numbers, symbols, +, *, integer powers and |.|; in general under the conditions of each stage (false otherwise: simplify_value_fails)"
  },
  {
   "property": "C58",
   "status": "proved",
   "theorems": [
    "Simpy.search_has_work",
    "Simpy.search_never_lost",
    "Simpy.search_fails_only_in_cycle",
    "Simpy.cycle_changes_leaves_only",
    "Simpy.search_makes_progress"
   ],
   "note": "errors raised inside a transform end the loop, as in the code; the time limit is the number of cycles"
  },
  {
   "property": "C59",
   "status": "proved",
   "theorems": [
    "Simpy.search_end_independent_of_time",
    "Simpy.answer_independent_of_time",
    "Simpy.no_answer_reason"
   ],
   "note": "the time limit is the number of cycles"
  },
  {
   "property": "C60",
   "status": "partial",
   "theorems": [
    "Simpy.integrate_fails",
    "Simpy.integrate_square_fails",
    "Simpy.integrate_sound_partial",
    "Simpy.without_heuristics_sound_partial",
    "Simpy.antiderivative_at_isolated_points"
   ],
   "note": "the code violates it (integrate_fails: LinearUSub; integrate_square_fails: integrate(1/(x+1)^2) is inf*x); proved for every run whose steps are regular at the point (RunOk), including two integrations by parts that come back to the integrand (TwiceOk); for the rewriting steps the conditions speak about the integrand (RewriteOk)"
  },
  {
   "property": "C61",
   "status": "proved",
   "theorems": [
    "Simpy.search_tree_provenance",
    "Simpy.search_tree_solutions"
   ],
   "note": ""
  },
  {
   "property": "C62",
   "status": "partial",
   "theorems": [
    "Simpy.integrate_symbols_partial",
    "Simpy.without_heuristics_symbols",
    "Simpy.definite_symbols_partial"
   ],
   "note": "for every run in which no filler node of ByParts gets a child from a u-substitution; unconditional for the search without heuristics"
  },
  {
   "property": "C63",
   "status": "proved",
   "theorems": [
    "Simpy.attempts_are_alternatives",
    "Simpy.others_are_all_needed"
   ],
   "note": ""
  },
  {
   "property": "C64",
   "status": "partial",
   "theorems": [
    "Simpy.Heap.answers_do_not_depend_on_history_partial",
    "Simpy.Heap.answers_stay_partial",
    "Simpy.Heap.asking_changes_nothing",
    "Simpy.Heap.answers_depend_on_history_of_nested_sums_fails"
   ],
   "note": "the code violates it for sums of sums (which it makes itself); proved for all other histories, for all the caches of objects (nesting, symbols, expandable, expand, coefficients, powers, numerators, constant factors, Any_s); only the per-class table of special values is not an object of the model"
  },
  {
   "property": "C65",
   "status": "partial",
   "theorems": [
    "Simpy.Heap.operands_keep_their_value_partial",
    "Simpy.Heap.operands_do_not_change_partial",
    "Simpy.Heap.made_objects_are_acyclic",
    "Simpy.Heap.operand_changed_fails",
    "Simpy.Heap.log_part_of_itself_fails"
   ],
   "note": "class and value are kept in every history without a log(b ** l, b) returning an old log; structure is kept if there are no sums of sums; both exceptions are real (witnesses)"
  },
  {
   "property": "C66",
   "status": "proved",
   "theorems": [
    "Simpy.polynomials_are_integrated",
    "Simpy.polynomials_are_integrated_var",
    "Simpy.polynomials_are_integrated_nothing",
    "Simpy.polynomials_need_no_heuristics",
    "Simpy.polynomial_definite",
    "Simpy.polynomial_definite_default",
    "Simpy.coefficients_make_polynomials",
    "Simpy.polynomials_are_added"
   ],
   "note": "total correctness: the run of the search, the table, the sorting and merging of terms and the way back return; flat polynomials (products and powers of sums are not covered)"
  },
  {
   "property": "C67",
   "status": "partial",
   "theorems": [
    "Simpy.repr_reads_partial",
    "Simpy.same_text_same_value_partial",
    "Simpy.polynomials_read",
    "Simpy.polynomial_texts",
    "Simpy.expanded_reads",
    "Simpy.repr_reads_fails",
    "Simpy.repr_reads_fails_sin",
    "Simpy.repr_reads_fails_minus"
   ],
   "note": "the code violates it (x**(1/y) is printed x^1/y, sin((x+y)*(x+z)) is printed sin(y + x)*(z + x), 2*(x+2) + z**5 - 3*(x+2) is printed z^5 - x + 2); proved for every expression in which nothing is printed without parentheses at a place that needs them (the decidable predicate clear), and unconditionally for flat polynomials in one variable and for whatever expand makes of a polynomial in several"
  },
  {
   "property": "C68",
   "status": "proved",
   "theorems": [
    "Simpy.variable_may_be_left_out",
    "Simpy.variable_may_be_left_out_of_bounds",
    "Simpy.variable_is_asked_for"
   ],
   "note": ""
  },
  {
   "property": "C69",
   "status": "partial",
   "theorems": [
    "Simpy.latex_reads_partial",
    "Simpy.same_latex_same_value_partial",
    "Simpy.polynomials_read_latex",
    "Simpy.polynomial_latex",
    "Simpy.expanded_reads_latex",
    "Simpy.latex_reads_fails"
   ],
   "note": "the code violates it (2*(x+2) + z**5 - 3*(x+2) has the LaTeX z^5 - x + 2); proved for every expression in which no sum or quotient is written bare where it would be torn apart (the decidable condition texClear of Spec/ReadLatex), and, without it, for all polynomials in one symbol and all multiplied-out polynomials in any number of symbols"
  },
  {
   "property": "C70",
   "status": "partial",
   "theorems": [
    "Simpy.match_asserts_partial",
    "Simpy.simplify_asserts_fails",
    "Simpy.arithmetic_asserts_fails"
   ],
   "note": "the code violates it: simplify(x - x*sin(x)^2 + 1/x - sin(x)^2/x) and 2*(-x-1)^(3/2)*(-x-1)^(3/2) + x raise AssertionError; proved for the matcher when the pattern fits the sum in at most one way"
  },
  {
   "property": "C71",
   "status": "partial",
   "theorems": [
    "Simpy.counts_decide",
    "Simpy.generic_usub_inside",
    "Simpy.trig_usub2_inside",
    "Simpy.polynomial_usub_inside_partial",
    "Simpy.linear_usub_inside_partial",
    "Simpy.linear_usub_fails"
   ],
   "note": "full for GenericUSub and TrigUSub2; PolynomialUSub for rational exponents and if multiplying the other factors keeps the occurrences; LinearUSub if no part of the integrand is taken for a constant times a power of the variable (otherwise false: linear_usub_fails)"
  },
  {
   "property": "C72",
   "status": "proved",
   "theorems": [
    "Simpy.combinations_are_integrated",
    "Simpy.combinations_are_integrated_var",
    "Simpy.combinations_are_integrated_nothing",
    "Simpy.combinations_need_no_heuristics"
   ],
   "note": "total correctness, by the same argument as C66, including simplify before and after; sums that have both a sine or cosine and a negative power are not part of the property (simplify puts those over one denominator)"
  },
  {
   "property": "C73",
   "status": "proved",
   "theorems": [
    "Simpy.TakenOut.factor_takes_out_common",
    "Simpy.TakenOut.factor_depends_on_order"
   ],
   "note": "total: factor() returns on all these inputs; which number is taken out depends on the order of the terms (factor_depends_on_order)"
  },
  {
   "property": "C74",
   "status": "partial",
   "theorems": [
    "Simpy.cast_pointwise",
    "Simpy.cast_fails_iff",
    "Simpy.cast_raises_only",
    "Simpy.cast_idempotent",
    "Simpy.mixed_is_const",
    "Simpy.mixed_value_partial",
    "Simpy.bools_are_not_cast"
   ],
   "note": "the value claim is on the principal domain, as C02 - C04; booleans, None and containers as operands are not modelled"
  },
  {
   "property": "C75",
   "status": "partial",
   "theorems": [
    "Simpy.diff_is_method",
    "Simpy.diff_default",
    "Simpy.diff_asks_partial",
    "Simpy.diff_asks_fails"
   ],
   "note": "the code violates it: with no or several symbols the ValueError is returned, not raised"
  },
  {
   "property": "C76",
   "status": "proved",
   "theorems": [
    "Simpy.symbols_one",
    "Simpy.symbols_many",
    "Simpy.symbols_fails_iff",
    "Simpy.symbols_ok"
   ],
   "note": ""
  },
  {
   "property": "C77",
   "status": "proved",
   "theorems": [
    "Simpy.floordiv_exact",
    "Simpy.mod_exact",
    "Simpy.divmod",
    "Simpy.reciprocal_exact",
    "Simpy.lt_exact",
    "Simpy.le_exact",
    "Simpy.isInt_exact"
   ],
   "note": ""
  },
  {
   "property": "C78",
   "status": "partial",
   "theorems": [
    "Simpy.expand_multiplies_out_partial",
    "Simpy.expand_negative_fails",
    "Simpy.expand_nested_fails"
   ],
   "note": "Proved for polynomial expressions in which the constructors keep every sum, product and power as it is, no product stands directly inside a product, and the base of an odd power does not have only negative coefficients. Missing: these cases; for a sum directly inside a sum, and for an odd power of something that expands to negative terms only, the code does not multiply out (expand_nested_fails, expand_negative_fails)."
  },
  {
   "property": "C79",
   "status": "partial",
   "theorems": [
    "Simpy.expand_canonical_partial",
    "Simpy.expand_zero_partial",
    "Simpy.expanded_texts_partial",
    "Simpy.expanded_latex_partial",
    "Simpy.expand_nested_fails"
   ],
   "note": "Proved for the polynomial expressions of C78. Missing: nested sums and odd powers of negative bases, where the result does depend on how the polynomial was written (expand_nested_fails)."
  },
  {
   "property": "C80",
   "status": "partial",
   "theorems": [
    "Simpy.simplify_polynomial_partial",
    "Simpy.simplify_zero_partial",
    "Simpy.simplify_zero_fails"
   ],
   "note": "Proved for the polynomial expressions of C78. Missing: sums directly inside sums and odd powers of negative bases; with a sum inside a sum a polynomial that is 0 everywhere need not be simplified to 0 (simplify_zero_fails)."
  },
  {
   "property": "C81",
   "status": "proved",
   "theorems": [
    "Simpy.expanded_polynomials_are_integrated",
    "Simpy.expand_then_integrate",
    "Simpy.expanded_polynomial_definite"
   ],
   "note": "Names must be ones that can be told apart in the printed form (goodName); the polynomial must be one that the constructors return for its parts (PolyExpr). expand_then_integrate is for the polynomials that expand() multiplies out by C78."
  },
  {
   "property": "C82",
   "status": "partial",
   "theorems": [
    "Simpy.factored_polynomials_are_integrated_partial",
    "Simpy.factored_polynomials_need_no_heuristics_partial",
    "Simpy.factored_polynomials_are_integrated_var_partial"
   ],
   "note": "Proved for sums whose terms are multiplied out, or powers, or products of factors that all contain the variable, and for a number times such a sum or term. Missing: products that are not multiplied out with a factor, other than one number in front of everything, that does not contain the variable."
  },
  {
   "property": "C83",
   "status": "proved",
   "theorems": [
    "Simpy.diff_multiplied_out",
    "Simpy.diff_zero_iff",
    "Simpy.mixed_derivatives",
    "Simpy.diff_of_integral"
   ],
   "note": "Names must be ones that can be told apart in the printed form (goodName); the polynomial must be one that the constructors return for its parts (PolyExpr)."
  },
  {
   "property": "C84",
   "status": "proved",
   "theorems": [
    "Simpy.add_multiplied_out",
    "Simpy.sub_multiplied_out",
    "Simpy.neg_multiplied_out",
    "Simpy.out_unique",
    "Simpy.add_out_laws",
    "Simpy.sub_out_laws"
   ],
   "note": "as C83"
  },
  {
   "property": "C85",
   "status": "proved",
   "theorems": [
    "Simpy.subs_multiplied_out",
    "Simpy.subs_back"
   ],
   "note": "as C83; one symbol is substituted"
  },
  {
   "property": "C86",
   "status": "proved",
   "theorems": [
    "Simpy.mul_multiplied_out",
    "Simpy.pow_multiplied_out",
    "Simpy.mul_out_laws",
    "Simpy.mul_out_add",
    "Simpy.mul_out_zero",
    "Simpy.mul_out_units",
    "Simpy.pow_out_laws",
    "Simpy.product_rule"
   ],
   "note": "as C83: names that can be told apart in the printed form; a stack of at least 13 levels"
  },
  {
   "property": "C87",
   "status": "proved",
   "theorems": [
    "Simpy.antiderivative_out",
    "Simpy.definite_out",
    "Simpy.antiderivative_iff",
    "Simpy.diff_antiderivative",
    "Simpy.antiderivative_diff",
    "Simpy.definite_add",
    "Simpy.definite_factor",
    "Simpy.definite_adjacent",
    "Simpy.definite_reverse",
    "Simpy.definite_order",
    "Simpy.antiderivative_order",
    "Simpy.definite_parts",
    "Simpy.diff_upper_bound",
    "Simpy.definite_number"
   ],
   "note": "as C83: names that can be told apart in the printed form; with a stack that is deep enough"
  },
  {
   "property": "C88",
   "status": "proved",
   "theorems": [
    "Simpy.products_are_power_terms",
    "Simpy.products_are_canonical",
    "Simpy.products_return",
    "Simpy.products_cancel",
    "Simpy.products_associate",
    "Simpy.powers_of_products",
    "Simpy.products_of_one"
   ],
   "note": "names that can be told apart in the printed form; with a stack of at least 6 levels; rational powers of sums and of products are not included ((x*x)**(1/2) is in C10 and C11)"
  },
  {
   "property": "C89",
   "status": "proved",
   "theorems": [
    "Simpy.factor_multiplied_out",
    "Simpy.factor_leaves_no_symbol",
    "Simpy.factor_injective",
    "Simpy.factor_once"
   ],
   "note": "names that can be told apart in the printed form; with a stack of at least 13 levels"
  },
  {
   "property": "C90",
   "status": "partial",
   "theorems": [
    "Simpy.steps_are_not_undone_partial",
    "Simpy.trig_not_rewritten_twice",
    "Simpy.undone_after_simplifying"
   ],
   "note": "InverseTrigUSub adds a Simplify node below its own, which counts as a step: for x**2/(1 - x**2) the search then substitutes back"
  },
  {
   "property": "C91",
   "status": "proved",
   "theorems": [
    "Simpy.inf_add",
    "Simpy.inf_mul",
    "Simpy.inf_neg",
    "Simpy.inf_sub",
    "Simpy.inf_indeterminate",
    "Simpy.inf_abs",
    "Simpy.inf_div",
    "Simpy.div_zero",
    "Simpy.inf_compare",
    "Simpy.compare_symbolic",
    "Simpy.inf_pow",
    "Simpy.neginf_pow",
    "Simpy.rat_pow_inf",
    "Simpy.const_pow_inf",
    "Simpy.unknown_pow_inf",
    "Simpy.negative_pow_inf"
   ],
   "note": "floating-point operations with infinite operands are assumed to be those of IEEE 754 and C's pow (Oracle.Ieee), for rational numbers in the range of floats; a quotient by an infinity is the Float 0.0; 1/0 is inf, but Rat(0)**-1 raises ZeroDivisionError"
  },
  {
   "property": "C92",
   "status": "proved",
   "theorems": [
    "Simpy.improper_exp_above",
    "Simpy.improper_exp_below",
    "Simpy.divergent_is_not_inf"
   ],
   "note": "Oracle.Ieee as for C91; a divergent integral is not simplified to inf (divergent_is_not_inf); powers over infinite ranges give Floats and are not covered"
  },
  {
   "property": "C93",
   "status": "partial",
   "theorems": [
    "Simpy.debug_repr_partial",
    "Simpy.debug_repr_fails",
    "Simpy.pedantic_lost_fails"
   ],
   "note": "proved for sums, products and powers of numbers, pi, e, symbols and trigonometric functions of these, nested in any way; false inside functions (debug_repr_fails), and pedantic is lost below the top (pedantic_lost_fails)"
  },
  {
   "property": "C94",
   "status": "proved",
   "theorems": [
    "Simpy.derivs_exp",
    "Simpy.derivs_sin",
    "Simpy.derivs_cos",
    "Simpy.derivs_power",
    "Simpy.derivs_vanish",
    "Simpy.integral_exp",
    "Simpy.integral_sin",
    "Simpy.integral_cos",
    "Simpy.integral_power",
    "Simpy.diff_integral",
    "Simpy.integral_diff"
   ],
   "note": "sin(a*x+b) and cos(a*x+b) with a and b not both negative (the constructor writes the others differently); q = -1 is in C72"
  },
  {
   "property": "C95",
   "status": "proved",
   "theorems": [
    "Simpy.integral_root",
    "Simpy.derivs_root",
    "Simpy.root_undo",
    "Simpy.root_antiderivative"
   ],
   "note": "b = 0 is left out: the constructor then distributes the power over the product. Integer exponents below -1 are in C60 (integrate_square_fails)"
  },
  {
   "property": "C96",
   "status": "proved",
   "theorems": [
    "Simpy.tree_rows",
    "Simpy.solution_rows",
    "Simpy.success_rows",
    "Simpy.solution_complete",
    "Simpy.column",
    "Simpy.row_text",
    "Simpy.shown_name_may_be_a_parameter"
   ],
   "note": "a parameter that is itself called u_2 can coincide with a shown name (shown_name_may_be_a_parameter)"
  },
  {
   "property": "C97",
   "status": "partial",
   "theorems": [
    "Simpy.log_entries",
    "Simpy.log_sorted",
    "Simpy.dump_content",
    "Simpy.dump_empty",
    "Simpy.log_kept_partial",
    "Simpy.log_lost_fails"
   ],
   "note": "proved but that integrals with different integrands keep different entries: this is proved for polynomials and is false in general, as different expressions may be printed alike (log_lost_fails)"
  },
  {
   "property": "C98",
   "status": "partial",
   "theorems": [
    "Simpy.compound_angle_easy",
    "Simpy.compound_angle_sound_partial",
    "Simpy.sin_usub_sound_partial",
    "Simpy.sin_usub_applies"
   ],
   "note": "CompoundAngle is proved for integrands with integer powers and without logarithms and inverse trigonometric functions (compound_angle_easy); otherwise replace is asked to keep to principal branches (RunTame, a decidable condition), as in C36"
  },
  {
   "property": "C99",
   "status": "proved",
   "theorems": [
    "Simpy.bounded_exp",
    "Simpy.bounded_sin",
    "Simpy.bounded_cos",
    "Simpy.bounded_power",
    "Simpy.bounded_power_value",
    "Simpy.bounded_inverse",
    "Simpy.bounded_inverse_value",
    "Simpy.bounded_pole"
   ],
   "note": "sines and cosines: of arguments that the constructor leaves as they are (isSubtraction = false)"
  }
 ]
}