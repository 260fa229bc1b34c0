#!/usr/bin/env python3
"""Write MANIFEST.json from the table below (property, status, theorems, note)."""
import json, os
C = []
def c(p, status, theorems, note): C.append(dict(property=p, status=status, theorems=["Simpy." + t for t in theorems.split()], note=note))
c("C01","proved","sum_value sum_value_principal","textbook domain; for every oracle whose root test is exact (Oracle.Exact)")
c("C02","partial","prod_value_partial prod_value_logfree prod_value_textbook_fails","proved on the principal domain and, for log-free factors, on the whole plain real domain; false with logs of products of negative numbers (witness)")
c("C03","partial","power_value_partial power_value_int power_value_atomic power_value_textbook_fails","proved on the principal domain, for all integer exponents and for all atomic bases; the code is wrong outside ((x**2)**(3/2) -> x**3, witness)")
c("C04","partial","operators_value_partial operators_value_logfree operators_value_fails","principal domain; plain real domain for log-free operands; false outside ((x**2)**(3/2) is x**3: operators_value_fails)")
c("C42","proved","abs_value abs_dropped_nonneg","")
c("C05","proved","rational_operators_exact rational_sum_exact rational_prod_exact rational_power_exact","operators, and Sum/Prod/Power on any number of rationals")
c("C06","partial","rational_root_exact_partial rational_root_even_fails","full for q >= 0, integer r and odd/odd r; (-8)**(2/3) -> -4 is wrong (witness)")
c("C38","proved","trig_special_value","")
c("C39","partial","trig_value trig_value_partial trig_value_fails","full for arguments without inverse trig functions")
c("C40","partial","inverse_trig_value_partial inverse_trig_cancel_partial asin_sin_fails inverse_trig_zero_raises","asin(sin x) -> x is wrong outside the principal range (witness)")
c("C41","proved","log_value","")
c("C17","proved","generate_permutations_spec","")
c("C18","proved","multinomial_coefficient_spec multinomial_coefficient_rejects multinomial_theorem","")
c("C13","proved","constructors_invent_no_symbols operators_invent_no_symbols diff_expand_invent_no_symbols subs_symbols subs_eliminates","")
c("C19","proved","contains_iff_symbols value_independent","")
c("C14","partial","diff_correct diff_correct_partial diff_log_fails diff_abs_fails","proved for all smooth expressions at all regular points (diff_correct); outside that class under run conditions; log to another base and Abs of negatives are wrong in the code (witnesses)")
c("C15","partial","diff_constant_partial diff_constant_fails","for expressions regular somewhere; (z*0**y).diff(x) is not 0 (witness)")
c("C50","proved","constructors_budget operators_budget methods_budget","")
c("C12","partial","subs_value subs_value_partial subs_value_fails","full when every power has an integer literal exponent and there is no log/inverse trig; otherwise under run conditions; sqrt(a+b).subs(a=b=x*y) -> sqrt2*sqrtx*sqrty is undefined at x=y=-1 (witness)")
c("C16","partial","expand_value expand_value_partial expand_log_fails","full for integer exponents without logs/inverse trig, on the whole real domain; otherwise under run conditions; log(x*(x+1),2).expand() loses the base (witness)")
c("C46","proved","numerator_denominator_recomposes numerator_denominator_principal","whole real domain (principal roots)")
c("C20","partial","eq_iff_identical_partial eq_reflexive eq_value_partial eq_fails","full under the assumption that no rational compares equal to the floats of pi and e; eq_fails: with such a rational == is neither value respecting nor symmetric")
c("C21","proved","count_pos_iff count_node general_count_node has_iff","")
c("C23","proved","eq_with_var_iff eq_with_var_value","under the assumption that no rational compares equal to the floats of pi and e")
c("C22","partial","replace_value replace_symbol_value replace_rules_value replace_rules_value_partial replace_absent_value replace_value_fails","full for tame expressions (integer exponents or plain bases); all expressions under run conditions; false otherwise (witness)")
c("C07","proved","sum_canonical prod_canonical built_canonical","")
c("C08","partial","sum_flat_partial prod_flat_partial sum_flat_fails prod_flat_fails","false in general (witnesses): the like-term passes can put a nested sum or product back")
c("C09","partial","like_terms_collected add_self_partial sub_self_partial sub_self_fails","first half full (float-free); the consequence x-x=0 fails for powers of -1 (witness)")
c("C10","partial","sum_comm prod_comm_partial prod_comm_fails","Sum full; Prod for rational exponents and factors defined at some point; the code violates it for symbolic exponents: e**(3*(x+2))*e**(-2*(x+2))*e**(-x) is e**2, in another order e**(x+2-x) (prod_comm_fails)")
c("C11","proved","sort_sorted sort_sorted_any key_order canonical_order built_ordered","")
c("C56","partial","sum_idempotent_partial prod_idempotent_partial sum_idempotent_fails prod_idempotent_fails","false in general (witnesses)")
c("C24","partial","to_const_polynomial_partial to_const_polynomial_unexpandable_partial to_const_polynomial_fails","full when the expanded expression has no number times a Sum/Prod; the multiplier is dropped otherwise (witness)")
c("C25","proved","polynomial_to_expr_value","")
c("C26","proved","rid_ending_zeros_spec rid_ending_zeros_value","")
c("C27","proved","polynomial_division_rational polynomial_division_value polynomial_division_partial polynomial_division_fails","proved for rational coefficients (termination, degree, identity, and the integrand); polynomial_division_partial goes beyond: any coefficients as long as each pass shortens the numerator, and polynomial_division_fails shows that the condition is needed")
c("C28","proved","invert_value invert_is_2x2 invert_none_singular invert_other_sizes","")
c("C29","proved","partial_fractions_value","rational linear factors; away from zeros of the factor taken out when the denominator is an unfactored sum")
c("C47","partial","factor_value factor_value_partial factor_value_fails","where the common factor is not 0 and (automatic for integer exponents) defined; false in general, since factors are compared by their text: factor_value_fails")
c("C30","proved","integral_table_correct integral_table_rational","")
c("C31","partial","not_solved_and_failed_partial solved_and_failed finished_iff and_status or_status leaf_status","the three characterisations are full; exclusiveness needs that settled nodes have no children (witness)")
c("C32","proved","unfinished_has_work verdict_is_final failed_not_solvable","")
c("C33","proved","best_leaf_correct","")
c("C34","proved","add_child_effect no_repeated_problem search_never_repeats","")
c("C52","proved","nesting_zero_iff nesting_child","")
c("C35","proved","go_backwards_sound go_backwards_only_solved go_backwards_antiderivative go_backwards_antiderivative_run","")
c("C36","partial","pull_constant_sound additivity_sound expand_transform_sound_partial polynomial_usub_sound_partial generic_usub_sound_partial trig_usub2_sound_partial inverse_trig_usub_sound_partial linear_usub_sound_partial linear_usub_fails rewrite_trig_sound_partial rewrite_pythagorean_sound_partial by_parts_sound by_parts_same_sound_partial by_parts_twice_sound_partial integ_ok_table complete_the_square_sound_partial polynomial_division_sound_partial partial_fractions_sound_partial product_to_sum_sound_partial simplify_step_sound_partial","PullConstant, Additivity and ByParts (plain case) without side conditions; the u-substitutions and rewritings under run conditions (the old variable is gone, replace keeps to principal branches), where sin/cos have the sign the code assumes. LinearUSub is wrong in general: linear_usub_fails.")
c("C45","partial","one_fraction_value one_fraction_value_partial one_fraction_value_fails","log-free sums: whole real domain; with logs: principal domain, and false outside: e**(ln(x*y)/2 - 2) + 1/e**2 becomes (sqrt(x)*sqrt(y) + 1)/e**2 (one_fraction_value_fails)")
c("C49","partial","reciprocate_trigs_value reciprocate_trigs_value_partial to_sin_cos_value to_sin_cos_value_partial reciprocate_trigs_value_fails to_sin_cos_value_fails","full for integer exponents without logs/inverse trig; otherwise under run conditions, and false without them: sqrt(x/sin(y) + x*csc(y)) becomes sqrt(2)*sqrt(x)*sqrt(csc(y))")
c("C53","proved","simplify_smaller simplify_smaller_trig_free","")
c("C43","partial","pythagorean_value_partial pythagorean_pairs_value_partial pythagorean_value_fails","all seven identities, any number of pairs and other terms, when no term has two squared sines/cosines as factors and the matches of regex.Eq are squares; false otherwise (witness)")
c("C44","partial","product_to_sum_plain product_to_sum_value_partial product_to_sum_sum_value_partial product_to_sum_fails","products of sines, cosines and constants: full (no inverse trig functions inside); with powers: under the run condition ptsOk; false for three or more factors mixing powers and plain functions (witness)")
c("C48","partial","expand_logs_value_partial expand_logs_fails","natural logarithms, positive arguments of the new logarithms, under run conditions; other bases are dropped (witness)")
c("C37","partial","definite_value definite_integral definite_table definite_none definite_value_partial definite_integral_partial definite_value_fails definite_ignores_poles","full for antiderivatives and bounds built from numbers, symbols, +, *, integer powers and |.|; in general under the run conditions of subs and simplify (false otherwise: definite_value_fails)")
c("C57","partial","simplify_value simplify_value_partial simplify_trig_value_partial simplify_value_fails","full for numbers, symbols, +, *, integer powers and |.|; in general under the conditions of each stage (false otherwise: simplify_value_fails)")
c("C54","proved","latex_brackets plain_names Nested.counts","any expression, any floats; parentheses and braces are matched and properly nested")
c("C55","proved","repr_brackets plain_names Nested.counts repr_ambiguous","any expression, any floats; properly nested; note repr_ambiguous: two different expressions can have the same repr")
c("C51","partial","evalf_converges_partial evalf_symbol_free evalf_log_fails","evalf converges to the value as the accuracy of the floating-point arithmetic improves (for every epsilon a delta, uniformly over every arithmetic of that accuracy). Missing: logarithms to other bases, which the code evaluates as natural ones (evalf_log_fails).")
c("C58","proved","search_has_work search_never_lost search_fails_only_in_cycle cycle_changes_leaves_only search_makes_progress","errors raised inside a transform end the loop, as in the code; the time limit is the number of cycles")
c("C59","proved","search_end_independent_of_time answer_independent_of_time no_answer_reason","the time limit is the number of cycles")
c("C60","partial","integrate_fails integrate_square_fails integrate_sound_partial without_heuristics_sound_partial antiderivative_at_isolated_points","the code violates it (integrate_fails: LinearUSub; integrate_square_fails: integrate(1/(x+1)^2) is inf*x); proved for every run whose steps are regular at the point (RunOk), including two integrations by parts that come back to the integrand (TwiceOk); for the rewriting steps the conditions speak about the integrand (RewriteOk)")
c("C61","proved","search_tree_provenance search_tree_solutions","")
c("C62","partial","integrate_symbols_partial without_heuristics_symbols definite_symbols_partial","for every run in which no filler node of ByParts gets a child from a u-substitution; unconditional for the search without heuristics")
c("C63","proved","attempts_are_alternatives others_are_all_needed","")
c("C64","partial","Heap.answers_do_not_depend_on_history_partial Heap.answers_stay_partial Heap.asking_changes_nothing Heap.answers_depend_on_history_of_nested_sums_fails","the code violates it for sums of sums (which it makes itself); proved for all other histories, for all the caches of objects (nesting, symbols, expandable, expand, coefficients, powers, numerators, constant factors, Any_s); only the per-class table of special values is not an object of the model")
c("C65","partial","Heap.operands_keep_their_value_partial Heap.operands_do_not_change_partial Heap.made_objects_are_acyclic Heap.operand_changed_fails Heap.log_part_of_itself_fails","class and value are kept in every history without a log(b ** l, b) returning an old log; structure is kept if there are no sums of sums; both exceptions are real (witnesses)")
c("C66","proved","polynomials_are_integrated polynomials_are_integrated_var polynomials_are_integrated_nothing polynomials_need_no_heuristics polynomial_definite polynomial_definite_default coefficients_make_polynomials polynomials_are_added","total correctness: the run of the search, the table, the sorting and merging of terms and the way back return; flat polynomials (products and powers of sums are not covered)")
c("C67","partial","repr_reads_partial same_text_same_value_partial polynomials_read polynomial_texts expanded_reads repr_reads_fails repr_reads_fails_sin repr_reads_fails_minus","the code violates it (x**(1/y) is printed x^1/y, sin((x+y)*(x+z)) is printed sin(y + x)*(z + x), 2*(x+2) + z**5 - 3*(x+2) is printed z^5 - x + 2); proved for every expression in which nothing is printed without parentheses at a place that needs them (the decidable predicate clear), and unconditionally for flat polynomials in one variable and for whatever expand makes of a polynomial in several")
c("C68","proved","variable_may_be_left_out variable_may_be_left_out_of_bounds variable_is_asked_for","")
c("C69","partial","latex_reads_partial same_latex_same_value_partial polynomials_read_latex polynomial_latex expanded_reads_latex latex_reads_fails","the code violates it (2*(x+2) + z**5 - 3*(x+2) has the LaTeX z^5 - x + 2); proved for every expression in which no sum or quotient is written bare where it would be torn apart (the decidable condition texClear of Spec/ReadLatex), and, without it, for all polynomials in one symbol and all multiplied-out polynomials in any number of symbols")
c("C70","partial","match_asserts_partial simplify_asserts_fails arithmetic_asserts_fails","the code violates it: simplify(x - x*sin(x)^2 + 1/x - sin(x)^2/x) and 2*(-x-1)^(3/2)*(-x-1)^(3/2) + x raise AssertionError; proved for the matcher when the pattern fits the sum in at most one way")
c("C71","partial","counts_decide generic_usub_inside trig_usub2_inside polynomial_usub_inside_partial linear_usub_inside_partial linear_usub_fails","full for GenericUSub and TrigUSub2; PolynomialUSub for rational exponents and if multiplying the other factors keeps the occurrences; LinearUSub if no part of the integrand is taken for a constant times a power of the variable (otherwise false: linear_usub_fails)")
c("C72","proved","combinations_are_integrated combinations_are_integrated_var combinations_are_integrated_nothing combinations_need_no_heuristics","total correctness, by the same argument as C66, including simplify before and after; sums that have both a sine or cosine and a negative power are not part of the property (simplify puts those over one denominator)")
c("C73","proved","TakenOut.factor_takes_out_common TakenOut.factor_depends_on_order","total: factor() returns on all these inputs; which number is taken out depends on the order of the terms (factor_depends_on_order)")
c("C74","partial","cast_pointwise cast_fails_iff cast_raises_only cast_idempotent mixed_is_const mixed_value_partial bools_are_not_cast","the value claim is on the principal domain, as C02 - C04; booleans, None and containers as operands are not modelled")
c("C75","partial","diff_is_method diff_default diff_asks_partial diff_asks_fails","the code violates it: with no or several symbols the ValueError is returned, not raised")
c("C76","proved","symbols_one symbols_many symbols_fails_iff symbols_ok","")
c("C77","proved","floordiv_exact mod_exact divmod reciprocal_exact lt_exact le_exact isInt_exact","")
c("C78","partial","expand_multiplies_out_partial expand_negative_fails expand_nested_fails","Proved for polynomial expressions in which the constructors keep every sum, product and power as it is, no product stands directly inside a product, and the base of an odd power does not have only negative coefficients. Missing: these cases; for a sum directly inside a sum, and for an odd power of something that expands to negative terms only, the code does not multiply out (expand_nested_fails, expand_negative_fails).")
c("C79","partial","expand_canonical_partial expand_zero_partial expanded_texts_partial expanded_latex_partial expand_nested_fails","Proved for the polynomial expressions of C78. Missing: nested sums and odd powers of negative bases, where the result does depend on how the polynomial was written (expand_nested_fails).")
c("C80","partial","simplify_polynomial_partial simplify_zero_partial simplify_zero_fails","Proved for the polynomial expressions of C78. Missing: sums directly inside sums and odd powers of negative bases; with a sum inside a sum a polynomial that is 0 everywhere need not be simplified to 0 (simplify_zero_fails).")
c("C81","proved","expanded_polynomials_are_integrated expand_then_integrate expanded_polynomial_definite","Names must be ones that can be told apart in the printed form (goodName); the polynomial must be one that the constructors return for its parts (PolyExpr). expand_then_integrate is for the polynomials that expand() multiplies out by C78.")
c("C82","partial","factored_polynomials_are_integrated_partial factored_polynomials_need_no_heuristics_partial factored_polynomials_are_integrated_var_partial","Proved for sums whose terms are multiplied out, or powers, or products of factors that all contain the variable, and for a number times such a sum or term. Missing: products that are not multiplied out with a factor, other than one number in front of everything, that does not contain the variable.")
c("C83","proved","diff_multiplied_out diff_zero_iff mixed_derivatives diff_of_integral","Names must be ones that can be told apart in the printed form (goodName); the polynomial must be one that the constructors return for its parts (PolyExpr).")
c("C84","proved","add_multiplied_out sub_multiplied_out neg_multiplied_out out_unique add_out_laws sub_out_laws","as C83")
c("C85","proved","subs_multiplied_out subs_back","as C83; one symbol is substituted")
c("C86","proved","mul_multiplied_out pow_multiplied_out mul_out_laws mul_out_add mul_out_zero mul_out_units pow_out_laws product_rule","as C83: names that can be told apart in the printed form; a stack of at least 13 levels")
c("C87","proved","antiderivative_out definite_out antiderivative_iff diff_antiderivative antiderivative_diff definite_add definite_factor definite_adjacent definite_reverse definite_order antiderivative_order definite_parts diff_upper_bound definite_number","as C83: names that can be told apart in the printed form; with a stack that is deep enough")
c("C88","proved","products_are_power_terms products_are_canonical products_return products_cancel products_associate powers_of_products products_of_one","names that can be told apart in the printed form; with a stack of at least 6 levels; rational powers of sums and of products are not included ((x*x)**(1/2) is in C10 and C11)")
c("C89","proved","factor_multiplied_out factor_leaves_no_symbol factor_injective factor_once","names that can be told apart in the printed form; with a stack of at least 13 levels")
c("C90","partial","steps_are_not_undone_partial trig_not_rewritten_twice undone_after_simplifying","InverseTrigUSub adds a Simplify node below its own, which counts as a step: for x**2/(1 - x**2) the search then substitutes back")
c("C91","proved","inf_add inf_mul inf_neg inf_sub inf_indeterminate inf_abs inf_div div_zero inf_compare compare_symbolic inf_pow neginf_pow rat_pow_inf const_pow_inf unknown_pow_inf negative_pow_inf","floating-point operations with infinite operands are assumed to be those of IEEE 754 and C's pow (Oracle.Ieee), for rational numbers in the range of floats; a quotient by an infinity is the Float 0.0; 1/0 is inf, but Rat(0)**-1 raises ZeroDivisionError")
c("C92","proved","improper_exp_above improper_exp_below divergent_is_not_inf","Oracle.Ieee as for C91; a divergent integral is not simplified to inf (divergent_is_not_inf); powers over infinite ranges give Floats and are not covered")
c("C93","partial","debug_repr_partial debug_repr_fails pedantic_lost_fails","proved for sums, products and powers of numbers, pi, e, symbols and trigonometric functions of these, nested in any way; false inside functions (debug_repr_fails), and pedantic is lost below the top (pedantic_lost_fails)")
c("C94","proved","derivs_exp derivs_sin derivs_cos derivs_power derivs_vanish integral_exp integral_sin integral_cos integral_power diff_integral integral_diff","sin(a*x+b) and cos(a*x+b) with a and b not both negative (the constructor writes the others differently); q = -1 is in C72")
c("C95","proved","integral_root derivs_root root_undo root_antiderivative","b = 0 is left out: the constructor then distributes the power over the product. Integer exponents below -1 are in C60 (integrate_square_fails)")
c("C96","proved","tree_rows solution_rows success_rows solution_complete column row_text shown_name_may_be_a_parameter","a parameter that is itself called u_2 can coincide with a shown name (shown_name_may_be_a_parameter)")
c("C97","partial","log_entries log_sorted dump_content dump_empty log_kept_partial log_lost_fails","proved but that integrals with different integrands keep different entries: this is proved for polynomials and is false in general, as different expressions may be printed alike (log_lost_fails)")
c("C98","partial","compound_angle_easy compound_angle_sound_partial sin_usub_sound_partial sin_usub_applies","CompoundAngle is proved for integrands with integer powers and without logarithms and inverse trigonometric functions (compound_angle_easy); otherwise replace is asked to keep to principal branches (RunTame, a decidable condition), as in C36")
c("C99","proved","bounded_exp bounded_sin bounded_cos bounded_power bounded_power_value bounded_inverse bounded_inverse_value bounded_pole","sines and cosines: of arguments that the constructor leaves as they are (isSubtraction = false)")
c("C100","proved","bounds_equal bounds_exchanged bounds_joined bounds_found bounds_given_up bound_moved bound_moved_below polynomial_between polynomial_bound_moved polynomial_between_add polynomial_between_mono","")
C.sort(key=lambda d:d["property"])
here=os.path.dirname(os.path.dirname(os.path.abspath(__file__)))
json.dump({"claims":C},open(os.path.join(here,"MANIFEST.json"),"w"),indent=1)
