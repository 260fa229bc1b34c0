{"id": "C01", "title": "Sum() preserves value", "statement": "Whenever Sum(terms) returns an expression, that expression evaluates, at every assignment of real numbers to symbols at which every term is defined, to the sum of the values of the terms, and is defined there.", "quantifier": "all finite lists of well-formed expressions of any size/depth; all assignments of reals to symbols", "why_tests_cant": "flattening, like-term collection, constant accumulation and sorting interact on unboundedly many term lists; tests check a few sums", "anchors": ["src/simpy/expr.py::Sum.__new__", "src/simpy/expr.py::_combine_like_terms_sum", "src/simpy/expr.py::accumulate"]}
{"id": "C02", "title": "Prod() preserves value", "statement": "Whenever Prod(terms) returns an expression, it evaluates, at every assignment where the terms are defined (real principal values), to the product of the values of the terms, and is defined there.", "quantifier": "all finite lists of well-formed expressions; all real assignments in the principal domain", "why_tests_cant": "combining powers of equal bases adds arbitrary exponents; infinitely many products", "anchors": ["src/simpy/expr.py::Prod.__new__", "src/simpy/expr.py::_combine_like_terms"]}
{"id": "C03", "title": "Power() preserves value", "statement": "Whenever Power(b, x) returns an expression, it evaluates to (value of b) ** (value of x) wherever b ** x is defined over the reals.", "quantifier": "all pairs of well-formed expressions; all real assignments where the power is defined", "why_tests_cant": "nested powers, products in the base and logs in the exponent are rewritten recursively; sign conditions hold only for some inputs", "anchors": ["src/simpy/expr.py::Power.__new__", "src/simpy/expr.py::_accumulate_power", "src/simpy/expr.py::_multiply_exponents"]}
{"id": "C04", "title": "Arithmetic operators preserve value", "statement": "a+b, a-b, a*b, a/b, a**b and -a, when they return, evaluate to the sum, difference, product, quotient, power and negation of the operands' values.", "quantifier": "all operand pairs, all real assignments in the domain", "why_tests_cant": "operators dispatch on operand class (Rat overrides) and then run the simplifying constructors", "anchors": ["src/simpy/expr.py::Expr.__add__", "src/simpy/expr.py::Expr.__sub__", "src/simpy/expr.py::Expr.__mul__", "src/simpy/expr.py::Expr.__truediv__", "src/simpy/expr.py::Expr.__pow__", "src/simpy/expr.py::Expr.__neg__", "src/simpy/expr.py::Rat.__add__", "src/simpy/expr.py::Sum.__neg__"]}
{"id": "C05", "title": "Rational arithmetic is exact", "statement": "On two rational numbers +, -, *, / (non-zero divisor) and integer ** return exactly the rational result as a rational number, with no rounding.", "quantifier": "all pairs of rationals of any magnitude", "why_tests_cant": "exactness on unboundedly large numerators and denominators", "anchors": ["src/simpy/expr.py::Rat.__add__", "src/simpy/expr.py::Rat.__mul__", "src/simpy/expr.py::Rat.__truediv__", "src/simpy/expr.py::Rat.__pow__", "src/simpy/expr.py::accumulate"]}
{"id": "C06", "title": "Rational powers are exact", "statement": "Power(q, r) for rationals is a rational only if that rational is exactly q**r.", "quantifier": "all pairs of rationals", "why_tests_cant": "the integrality test goes through floating point; correctness depends on all magnitudes", "anchors": ["src/simpy/expr.py::_accumulate_power"]}
{"id": "C07", "title": "Sums and products are in canonical form", "statement": "Every Sum returned by the constructor has at least two terms and at most one numeric constant, which is not 0; every Prod returned has at least two factors and at most one numeric constant, which is not 1, and which is not 0.", "quantifier": "all finite term lists", "why_tests_cant": "structural invariant over all inputs", "anchors": ["src/simpy/expr.py::Sum.__new__", "src/simpy/expr.py::Prod.__new__", "src/simpy/expr.py::_combine_like_terms_sum", "src/simpy/expr.py::_combine_like_terms"]}
{"id": "C08", "title": "Constructors flatten", "statement": "No Sum returned by Sum() has a Sum among its terms and no Prod returned by Prod() has a Prod among its factors.", "quantifier": "all finite term lists", "why_tests_cant": "depends on what the like-term pass puts back in the list", "anchors": ["src/simpy/expr.py::Associative._flatten_terms", "src/simpy/expr.py::Sum.__new__", "src/simpy/expr.py::Prod.__new__"]}
{"id": "C09", "title": "Like terms are collected", "statement": "In a Sum returned by Sum() no two terms have equal non-numeric factor lists; in particular x - x is 0 and x + x has one term, for every expression x.", "quantifier": "all finite term lists", "why_tests_cant": "pairwise property of outputs of a quadratic loop over arbitrary lists", "anchors": ["src/simpy/expr.py::_combine_like_terms_sum", "src/simpy/expr.py::_deconstruct_prod"]}
{"id": "C10", "title": "Commutativity of the constructors", "statement": "Reordering the terms given to Sum() or Prod() does not change the returned expression when the surviving terms have different sort keys (complexity, power, repr) and numeric constants are rational.", "quantifier": "all finite lists, all permutations of them", "why_tests_cant": "n! permutations of unboundedly long lists; sort comparator is not a lawful total order on ties", "anchors": ["src/simpy/expr.py::Associative._sort_terms", "src/simpy/expr.py::Sum.__new__", "src/simpy/expr.py::Prod.__new__"]}
{"id": "C11", "title": "Canonical order is a permutation and is sorted", "statement": "The ordering pass returns a permutation of its input, and any two elements are in order: first those without symbols by their depth, then by how deep their deepest symbol lies, then by exponent, then by printed form. In every expression the factors of a product stand in this order, the terms of a sum in the reverse of it.", "quantifier": "all finite term lists, all comparators of the kind used; all expressions a user can build", "why_tests_cant": "sorting correctness needs induction on lists", "anchors": ["src/simpy/expr.py::Associative._sort_terms"]}
{"id": "C12", "title": "Substitution lemma", "statement": "expr.subs({x: v,...}) evaluates at rho to what expr evaluates to at rho updated with the values of the substituted expressions, wherever both are defined.", "quantifier": "all expressions, all substitution dictionaries, all real assignments", "why_tests_cant": "recursion through every constructor with re-simplification", "anchors": ["src/simpy/expr.py::Sum.subs", "src/simpy/expr.py::Prod.subs", "src/simpy/expr.py::Power.subs", "src/simpy/expr.py::SingleFunc.subs", "src/simpy/expr.py::log.subs", "src/simpy/expr.py::Symbol.subs"]}
{"id": "C13", "title": "No operation invents symbols", "statement": "Constructors, operators, subs, expand and diff return expressions whose symbols all occur in the arguments (for subs: in the expression or in the substituted values); after subs({x: v}) with v free of x the result is free of x.", "quantifier": "all expressions and dictionaries", "why_tests_cant": "frame property over all inputs", "anchors": ["src/simpy/expr.py::Expr.symbols", "src/simpy/expr.py::Sum.subs", "src/simpy/expr.py::Expr.expand"]}
{"id": "C14", "title": "diff computes the derivative", "statement": "If expr.diff(x) returns d then at every assignment where expr is regular, the function of x obtained by evaluating expr has derivative equal to the value of d.", "quantifier": "all expressions, all variables, all regular real assignments", "why_tests_cant": "needs the chain/product/power rules at every depth, over a continuum of points", "anchors": ["src/simpy/expr.py::Sum.diff", "src/simpy/expr.py::Prod.diff", "src/simpy/expr.py::Power.diff", "src/simpy/expr.py::log.diff", "src/simpy/expr.py::sin.diff", "src/simpy/expr.py::cos.diff", "src/simpy/expr.py::tan.diff", "src/simpy/expr.py::sec.diff", "src/simpy/expr.py::csc.diff", "src/simpy/expr.py::cot.diff", "src/simpy/expr.py::asin.diff", "src/simpy/expr.py::acos.diff", "src/simpy/expr.py::atan.diff", "src/simpy/expr.py::Abs.diff"]}
{"id": "C15", "title": "diff of a constant is literally 0", "statement": "If expr does not contain x then expr.diff(x), when it returns, is structurally the number 0.", "quantifier": "all expressions not containing x", "why_tests_cant": "needs that constructors collapse zero products at every depth", "anchors": ["src/simpy/expr.py::Prod.diff", "src/simpy/expr.py::Sum.diff", "src/simpy/expr.py::Power.diff"]}
{"id": "C16", "title": "expand preserves value", "statement": "If expr.expand() returns, the result evaluates to the same real number as expr wherever expr is defined.", "quantifier": "all expandable expressions, all assignments", "why_tests_cant": "multinomial expansion with arbitrary numbers of summands and exponents", "anchors": ["src/simpy/expr.py::Sum._expand", "src/simpy/expr.py::Prod._expand", "src/simpy/expr.py::Power._expand"]}
{"id": "C17", "title": "generate_permutations enumerates compositions", "statement": "generate_permutations(i, n) returns exactly the lists of i non-negative integers that sum to n, each once.", "quantifier": "all i, n >= 0", "why_tests_cant": "infinite family; completeness and uniqueness both needed", "anchors": ["src/simpy/combinatorics.py::generate_permutations"]}
{"id": "C18", "title": "multinomial_coefficient is the multinomial coefficient", "statement": "multinomial_coefficient(xs, n) with sum(xs) == n is n!/(x1!...xk!), the division is exact, and weights with generate_permutations give the multinomial theorem.", "quantifier": "all non-empty lists of naturals", "why_tests_cant": "exactness of integer division for all arguments", "anchors": ["src/simpy/combinatorics.py::multinomial_coefficient"]}
{"id": "C19", "title": "contains agrees with symbols", "statement": "expr.contains(x) is True iff x is one of expr.symbols(), and then (only then) the value can depend on x.", "quantifier": "all expressions, all symbols", "why_tests_cant": "induction over expression structure", "anchors": ["src/simpy/expr.py::Expr.contains", "src/simpy/expr.py::Expr.symbols"]}
{"id": "C20", "title": "== is an equivalence that respects value", "statement": "On expressions without floating-point numbers == is reflexive, symmetric and transitive and equal expressions have equal values.", "quantifier": "all pairs/triples of expressions", "why_tests_cant": "mixed Num comparisons (Fraction against float) are a non-obvious relation on infinitely many numbers", "anchors": ["src/simpy/expr.py::Num.__eq__", "src/simpy/expr.py::E.__eq__", "src/simpy/expr.py::Symbol.__eq__"]}
{"id": "C21", "title": "count and contains_cls", "statement": "count(expr, query) counts outermost occurrences: it is 0 iff query is not a subexpression, it is 1 on the query itself and it adds up over children; has(cls) holds iff some subexpression is of the class.", "quantifier": "all expressions/queries", "why_tests_cant": "induction over structure", "anchors": ["src/simpy/regex.py::count", "src/simpy/regex.py::contains_cls", "src/simpy/regex.py::general_count"]}
{"id": "C22", "title": "replace preserves value when the replacement does", "statement": "replace(expr, old, new) evaluates as expr does whenever old and new have the same value; the same for replace_factory/kinder_replace with value-preserving performs; when old does not occur the result has the same value.", "quantifier": "all expressions, old/new pairs, all value-preserving rewrite rules", "why_tests_cant": "quantifies over all rewrite rules and all expressions", "anchors": ["src/simpy/regex.py::replace", "src/simpy/regex.py::replace_factory_list", "src/simpy/regex.py::kinder_replace_many"]}
{"id": "C23", "title": "eq_with_var is equality up to renaming", "statement": "eq_with_var((a, x), (b, y)) is True iff renaming x to y in a (structurally, without re-simplifying) gives b, on expressions without floats.", "quantifier": "all pairs of expressions and symbols", "why_tests_cant": "both directions on all trees", "anchors": ["src/simpy/utils.py::eq_with_var"]}
{"id": "C24", "title": "to_const_polynomial is faithful", "statement": "If to_const_polynomial(expr, x) returns coefficients c then expr evaluates to sum c[i]*x^i at every assignment where it is defined.", "quantifier": "all expressions accepted, all assignments", "why_tests_cant": "arbitrary degree and number of terms", "anchors": ["src/simpy/polynomial.py::to_const_polynomial", "src/simpy/polynomial.py::_to_const_polynomial"]}
{"id": "C25", "title": "polynomial_to_expr is faithful", "statement": "polynomial_to_expr(c, x) evaluates to sum c[i]*x^i.", "quantifier": "all coefficient lists", "why_tests_cant": "arbitrary length", "anchors": ["src/simpy/polynomial.py::polynomial_to_expr"]}
{"id": "C26", "title": "rid_ending_zeros", "statement": "rid_ending_zeros(c) is the prefix of c with trailing zeros removed: its last element is not 0 and it denotes the same polynomial.", "quantifier": "all coefficient lists", "why_tests_cant": "arbitrary length", "anchors": ["src/simpy/polynomial.py::rid_ending_zeros"]}
{"id": "C27", "title": "Polynomial division is Euclidean", "statement": "The division done by the PolynomialDivision transform terminates, and gives quotient and remainder with numerator = quotient*denominator + remainder and degree(remainder) < degree(denominator).", "quantifier": "all rational coefficient lists with non-zero leading denominator coefficient", "why_tests_cant": "loop invariant and termination over arbitrary degrees", "anchors": ["src/simpy/transforms.py::PolynomialDivision"]}
{"id": "C28", "title": "Matrix inversion", "statement": "invert(M) of a 2x2 matrix M with M*inverse evaluating to the identity; returns None only if the determinant expression is 0; rejects other sizes.", "quantifier": "all 2x2 matrices of expressions, all assignments with non-zero determinant", "why_tests_cant": "continuum of inputs", "anchors": ["src/simpy/linalg.py::invert"]}
{"id": "C29", "title": "Partial fractions identity", "statement": "When the PartialFractions transform applies to numerator/((linear)(linear)) the new integrand has the same value as the old one away from the poles.", "quantifier": "all numerators of degree <=1 and pairs of linear factors with rational coefficients", "why_tests_cant": "continuum of coefficients", "anchors": ["src/simpy/transforms.py::PartialFractions"]}
{"id": "C30", "title": "Integral table entries are antiderivatives", "statement": "If check_integral_table(f, x) returns F then F is an antiderivative of f with respect to x at every regular point of f where the textbook formula makes sense (x^n with n != -1, b^x with b != 1, sec x with tan x + sec x > 0).", "quantifier": "all integrands, all variables (not only the table's own x), all regular points", "why_tests_cant": "holds at a continuum of points and for arbitrary exponents and bases", "anchors": ["src/simpy/integral_table.py::check_integral_table"]}
{"id": "C31", "title": "Search tree status is consistent", "statement": "In an integration tree no node is both solved and failed; a node is finished iff solved or failed; an AND node is solved iff all its children are, an OR node iff some child is.", "quantifier": "all finite search trees of any shape", "why_tests_cant": "trees of unbounded size and depth", "anchors": ["src/simpy/transforms.py::Node"]}
{"id": "C32", "title": "An unfinished tree has work left", "statement": "If a node is not finished it has an unfinished leaf below it, and a failed tree contains no way to be solved by finishing other leaves.", "quantifier": "all search trees reachable in the engine", "why_tests_cant": "unbounded trees/histories", "anchors": ["src/simpy/transforms.py::Node.unfinished_leaves", "src/simpy/transforms.py::Node.is_finished"]}
{"id": "C33", "title": "Best-leaf selection returns an unfinished leaf", "statement": "_get_best_leaf(root) on an unfinished tree returns an unfinished leaf of that tree, and its complexity is one of the leaves' complexities (min below OR, max below AND).", "quantifier": "all unfinished search trees", "why_tests_cant": "recursion over arbitrary trees", "anchors": ["src/simpy/integration.py::_get_best_leaf", "src/simpy/integration.py::_get_node_with_best_nesting"]}
{"id": "C34", "title": "add_child never repeats an ancestor's problem", "statement": "Adding a child whose (integrand, variable) equals one already on the path to the root leaves the tree unchanged, so no root-to-leaf path repeats a problem up to renaming.", "quantifier": "all trees built by any sequence of add_child calls", "why_tests_cant": "all histories of the search", "anchors": ["src/simpy/transforms.py::Node.add_child", "src/simpy/transforms.py::Node.add_children"]}
{"id": "C35", "title": "Walking back a solved tree yields a correct antiderivative", "statement": "If every leaf solution is an antiderivative of its leaf's integrand and every transform's backward step is sound, then the solution stored at the root is an antiderivative of the root integrand.", "quantifier": "all solved trees over all transforms", "why_tests_cant": "induction over unbounded trees and orders of leaves", "anchors": ["src/simpy/integration.py::Integration._go_backwards"]}
{"id": "C36", "title": "Each transform is sound", "statement": "For PullConstant, Additivity, Expand, u-substitution (PolynomialUSub, LinearUSub, GenericUSub, TrigUSub2), ByParts, RewriteTrig and RewritePythagorean: if the children's solutions are antiderivatives of the children's integrands then the backward solution is an antiderivative of the parent's integrand.", "quantifier": "all integrands on which check() succeeds, all child solutions, all regular points", "why_tests_cant": "chain rule on a continuum; arbitrary integrands", "anchors": ["src/simpy/transforms.py::PullConstant", "src/simpy/transforms.py::Additivity", "src/simpy/transforms.py::Expand", "src/simpy/transforms.py::LinearUSub", "src/simpy/transforms.py::ByParts", "src/simpy/transforms.py::USub"]}
{"id": "C37", "title": "Definite integrals are F(b)-F(a)", "statement": "integrate(f, (x, a, b)) evaluates to F(b) - F(a) for the antiderivative F found by the indefinite search, so equals the Riemann integral when F is an antiderivative on [a,b].", "quantifier": "all integrands, bounds and antiderivatives", "why_tests_cant": "continuum of bounds; fundamental theorem of calculus", "anchors": ["src/simpy/integration.py::Integration.integrate_bounds"]}
{"id": "C38", "title": "Trig special values are right", "statement": "sin, cos, tan, sec, csc, cot of k*pi for every rational k return a constant only if it is exactly the value of the function there.", "quantifier": "all rational multiples of pi (reduced modulo the period)", "why_tests_cant": "infinitely many multiples; modular reduction", "anchors": ["src/simpy/expr.py::TrigFunction.__new__", "src/simpy/expr.py::sin._special_values", "src/simpy/expr.py::cos._special_values", "src/simpy/expr.py::tan._special_values"]}
{"id": "C39", "title": "Trig constructors preserve value", "statement": "sin(e), cos(e), tan(e), sec(e), csc(e), cot(e) evaluate to the function of the value of e: parity, removal of multiples of the period, and cancellation of inverse functions are value-preserving.", "quantifier": "all expressions e, all assignments where defined", "why_tests_cant": "arbitrary arguments, periods in sums", "anchors": ["src/simpy/expr.py::TrigFunction.__new__", "src/simpy/expr.py::sin.__new__", "src/simpy/expr.py::cos.__new__", "src/simpy/expr.py::tan.__new__"]}
{"id": "C40", "title": "Inverse trig constructors preserve value", "statement": "asin(e), acos(e), atan(e) evaluate to the principal inverse of the value of e.", "quantifier": "all expressions e, all assignments where defined", "why_tests_cant": "false outside the principal range; a test inside the range passes", "anchors": ["src/simpy/expr.py::TrigFunction.__new__", "src/simpy/expr.py::asin", "src/simpy/expr.py::acos", "src/simpy/expr.py::atan"]}
{"id": "C41", "title": "log constructor preserves value", "statement": "log(a, b) evaluates to ln(a)/ln(b) wherever defined.", "quantifier": "all expression pairs, all assignments with a>0, b>0, b!=1", "why_tests_cant": "structural cancellation of powers", "anchors": ["src/simpy/expr.py::log.__new__"]}
{"id": "C42", "title": "Abs constructor preserves value", "statement": "Abs(e) evaluates to |value of e|; in particular it drops the bars only if the value is non-negative everywhere.", "quantifier": "all expressions, all assignments", "why_tests_cant": "positivity analysis must be sound on all expressions", "anchors": ["src/simpy/expr.py::Abs.__new__", "src/simpy/expr.py::_is_strictly_positive"]}
{"id": "C43", "title": "Pythagorean simplification preserves value", "statement": "pythagorean_simplification on sums with a*sin(u)^2 + a*cos(u)^2 (any a, u, and any number of such pairs and other terms) returns an expression of the same value.", "quantifier": "all sums, all assignments", "why_tests_cant": "arbitrary numbers of matching pairs/factors", "anchors": ["src/simpy/simplify/simplify.py::_pythagorean_perform"]}
{"id": "C44", "title": "Product-to-sum preserves value", "statement": "product_to_sum_unit(expr), when it returns, has the value of expr.", "quantifier": "all products of sines, cosines and their powers, all assignments", "why_tests_cant": "recursion on arbitrary exponents/numbers of factors", "anchors": ["src/simpy/simplify/product_to_sum.py::product_to_sum_unit", "src/simpy/simplify/product_to_sum.py::_perform_on_terms"]}
{"id": "C45", "title": "rewrite_as_one_fraction preserves value", "statement": "rewrite_as_one_fraction(sum), when it returns an expression, has the value of sum wherever sum is defined.", "quantifier": "all sums, all assignments", "why_tests_cant": "arbitrary numbers of fractions", "anchors": ["src/simpy/simplify/simplify.py::rewrite_as_one_fraction"]}
{"id": "C46", "title": "numerator_denominator recomposes", "statement": "For a Prod p, p.numerator_denominator returns (n, d) with value n/d equal to the value of p.", "quantifier": "all products, all assignments in the domain", "why_tests_cant": "arbitrary factor lists", "anchors": ["src/simpy/expr.py::Prod.numerator_denominator"]}
{"id": "C47", "title": "factor preserves value", "statement": "Sum.factor(), when it returns, has the value of the sum wherever the common factor is non-zero.", "quantifier": "all sums, all assignments", "why_tests_cant": "arbitrary common factors", "anchors": ["src/simpy/expr.py::Sum.factor"]}
{"id": "C48", "title": "expand_logs preserves value", "statement": "expand_logs(expr) has the value of expr where all logarithms' arguments are positive.", "quantifier": "all expressions, all assignments", "why_tests_cant": "log rules hold only under sign conditions", "anchors": ["src/simpy/simplify/simplify.py::expand_logs", "src/simpy/simplify/simplify.py::_log_perform"]}
{"id": "C49", "title": "Reciprocal/combined trig rewriting preserves value", "statement": "_reciprocate_trigs (1/sin^n -> csc^n, ...) and the tan/sec/csc/cot -> sin/cos rewriting preserve value wherever defined.", "quantifier": "all expressions, all assignments", "why_tests_cant": "arbitrary subexpressions", "anchors": ["src/simpy/simplify/simplify.py::reciprocate_trigs", "src/simpy/regex.py::replace_class"]}
{"id": "C50", "title": "Result does not depend on the recursion budget", "statement": "If a constructor returns a value with some recursion limit then it returns the same value with every larger limit.", "quantifier": "all inputs, all recursion limits", "why_tests_cant": "quantifies over all stack depths", "anchors": ["src/simpy/expr.py::Sum.__new__", "src/simpy/expr.py::Prod.__new__", "src/simpy/expr.py::Power.__new__"]}
{"id": "C51", "title": "evalf agrees with value", "statement": "expr.evalf(), when it returns a number, is the value of expr up to floating-point rounding; with exact arithmetic it is the value.", "quantifier": "all symbol-free expressions", "why_tests_cant": "all expressions", "anchors": ["src/simpy/expr.py::Expr.evalf", "src/simpy/expr.py::Num._evalf", "src/simpy/expr.py::log._evalf"]}
{"id": "C52", "title": "nesting is well defined and zero exactly off the variable", "statement": "nesting(expr, x) is 0 iff expr does not contain x, and a child never has larger complexity than its parent except through the -1 factor and reciprocal rules.", "quantifier": "all expressions", "why_tests_cant": "induction on expressions", "anchors": ["src/simpy/expr.py::nesting", "src/simpy/expr.py::_nesting"]}
{"id": "C53", "title": "simplify never makes an expression larger unless trig rules fire", "statement": "simplify(expr) returns expr itself or an expression with strictly fewer symbol occurrences, unless a trig rule fired.", "quantifier": "all expressions", "why_tests_cant": "property of every run", "anchors": ["src/simpy/simplify/simplify.py::simplify", "src/simpy/simplify/simplify.py::is_simpler"]}
{"id": "C54", "title": "LaTeX output has balanced braces", "statement": "expr.latex(), when it returns, has balanced curly braces and parentheses when symbol names do.", "quantifier": "all expressions", "why_tests_cant": "all expressions of any depth", "anchors": ["src/simpy/expr.py::Sum.latex", "src/simpy/expr.py::Prod.latex", "src/simpy/expr.py::Power.latex", "src/simpy/latex.py::group", "src/simpy/latex.py::bracketfy"]}
{"id": "C55", "title": "repr has balanced parentheses", "statement": "repr(expr), when it returns, has balanced parentheses when symbol names do.", "quantifier": "all expressions", "why_tests_cant": "all expressions", "anchors": ["src/simpy/expr.py::Sum.__repr__", "src/simpy/expr.py::Prod.__repr__", "src/simpy/expr.py::Power.__repr__"]}
{"id": "C56", "title": "Constructors are idempotent", "statement": "Rebuilding a constructor's own result (Sum(s.terms), Prod(p.terms)) returns the same expression.", "quantifier": "all results of the constructors", "why_tests_cant": "all outputs", "anchors": ["src/simpy/expr.py::Sum.__new__", "src/simpy/expr.py::Prod.__new__"]}
{"id": "C57", "title": "simplify preserves value", "statement": "simplify(expr) has the value of expr wherever expr is defined.", "quantifier": "all expressions, all assignments", "why_tests_cant": "rules interact in arbitrary expressions", "anchors": ["src/simpy/simplify/simplify.py::simplify", "src/simpy/simplify/simplify.py::trig_simplify"]}
{"id": "C58", "title": "The search never gets stuck", "statement": "As long as the problem is neither solved nor given up, the search of integrate has an unfinished leaf to work on: every step is called on a node of the tree with an unfinished leaf below, makes progress on one, changes nothing but unfinished leaves (and solutions stored by integration by parts), and the loop never fails for want of a next node.", "quantifier": "all integrands, both search orders, all names drawn for new variables, all histories of the search", "why_tests_cant": "trees of any shape reached by any number of steps", "anchors": ["src/simpy/integration.py::Integration.integrate", "src/simpy/integration.py::Integration._cycle", "src/simpy/integration.py::Integration._get_next_node_post_heuristic_depth_first", "src/simpy/integration.py::Integration._get_next_node_post_heuristic_breadth_first"]}
{"id": "C59", "title": "The answer does not depend on the time limit", "statement": "If integrate finds an answer (or gives up for good) within some time limit, it does so with the same result for every longer time limit.", "quantifier": "all integrands, all time limits", "why_tests_cant": "all time limits and histories", "anchors": ["src/simpy/integration.py::Integration.integrate"]}
{"id": "C60", "title": "integrate returns an antiderivative", "statement": "If integrate(f, x) returns F then the derivative of F in x is f, at every point where f and the steps taken are defined.", "quantifier": "all integrands, both search orders, all time limits, all regular points", "why_tests_cant": "quantifies over all runs of a search with unbounded trees, and over a continuum of points", "anchors": ["src/simpy/integration.py::integrate", "src/simpy/integration.py::Integration.integrate", "src/simpy/integration.py::Integration._go_backwards"]}
{"id": "C61", "title": "Every problem in the search tree comes from its parent by the transform it carries", "statement": "In the tree the search returns, the root is the integrand posed (simplified), every other node is the output of its transform's forward step on its parent's integrand, and a node has a solution of its own exactly if it is labelled SOLUTION, the one the integral table gives (or ByParts, for its filler nodes).", "quantifier": "all integrands, both search orders, all names drawn for new variables, all histories of the search", "why_tests_cant": "an invariant of every history of a search with unbounded trees, in which nodes are relabelled and subtrees replaced", "anchors": ["src/simpy/integration.py::Integration._cycle", "src/simpy/integration.py::Integration._integrate_safely", "src/simpy/integration.py::Integration._integrate_heuristically", "src/simpy/transforms.py::Transform.forward"]}
{"id": "C62", "title": "No made-up variable leaks into the answer", "statement": "If integrate(e, x) returns F then F contains no symbols but x and those of e: every variable introduced by a substitution is substituted back. A definite integral contains only symbols of the bounds and, except for x, of the integrand.", "quantifier": "all integrands, both search orders, all time limits, all fresh names drawn for new variables, all histories of the search", "why_tests_cant": "an invariant of unbounded search trees with arbitrarily many nested substitutions", "anchors": ["src/simpy/integration.py::integrate", "src/simpy/integration.py::Integration._go_backwards", "src/simpy/transforms.py::generate_intermediate_var", "src/simpy/transforms.py::USub.backward"]}
{"id": "C63", "title": "Of several possible next steps one is enough", "statement": "When the search has found several possible next steps for an integrand (substitutions, integration by parts, trig rewritings), the problem counts as solved as soon as one of them is solved and is given up only when all of them are; the parts of a sum, and a single step, must all be solved.", "quantifier": "all integrands, both search orders, all time limits, all nodes of the tree", "why_tests_cant": "an invariant of unbounded search trees whose nodes are relabelled as the search goes on", "anchors": ["src/simpy/integration.py::Integration._integrate_heuristically", "src/simpy/integration.py::Integration._integrate_safely", "src/simpy/transforms.py::Node.is_solved", "src/simpy/transforms.py::Node.is_failed"]}
{"id": "C64", "title": "Answers do not depend on what was asked or built before", "statement": "nesting(e, x), e.symbols(), e.expandable(), e.expand(), e.numerator_denominator, deconstruct_power(e), remove_const_factor(e) and get_anys(e) give the same answer however often they, or other questions, have been asked of e or of its parts before, and whatever has been built with e in the meantime.", "quantifier": "all histories of constructions and questions on a shared store of expressions", "why_tests_cant": "the answers are cached in objects that are shared and changed in place, so a failure needs a particular history", "anchors": ["src/simpy/expr.py::nesting", "src/simpy/expr.py::Expr.symbols", "src/simpy/expr.py::Expr.expandable", "src/simpy/expr.py::Associative._flatten", "src/simpy/expr.py::log.__init__"]}
{"id": "C65", "title": "Using an expression as an operand does not change it", "statement": "An expression that is used as a summand, factor or argument of another keeps its class, value and structure, and no expression ever becomes a part of itself.", "quantifier": "all histories of constructions and questions on a shared store of expressions", "why_tests_cant": "constructors change operands in place (flattening, re-initialisation), so a failure needs particular sharing", "anchors": ["src/simpy/expr.py::Associative._flatten", "src/simpy/expr.py::Associative._flatten_terms", "src/simpy/expr.py::Sum.__new__", "src/simpy/expr.py::Prod.__new__", "src/simpy/expr.py::log.__new__", "src/simpy/expr.py::log.__init__"]}
{"id": "C66", "title": "Polynomials are always integrated", "statement": "integrate(p, x) of a polynomial p in x with rational coefficients (a sum of terms c * x ** k, as the operators build it) neither returns None nor raises, for every search order, time limit and choice of new names: it returns a polynomial whose derivative is p everywhere. integrate(p, (x, a, b)) with rational a and b returns the rational number that is the integral.", "quantifier": "all polynomials of any degree and number of terms, both search orders, all time limits, all names, all rational bounds", "why_tests_cant": "needs an answer for infinitely many inputs, not only that the answers given are right", "anchors": ["src/simpy/integration.py::integrate", "src/simpy/integration.py::Integration.integrate", "src/simpy/integration.py::Integration._go_backwards", "src/simpy/integral_table.py::check_integral_table", "src/simpy/expr.py::Sum.__new__", "src/simpy/expr.py::Prod.__new__", "src/simpy/polynomial.py::polynomial_to_expr"]}
{"id": "C67", "title": "The printed text says what the expression is", "statement": "repr(e), read in ordinary notation (^ before * and / before + and -, ^ associating to the right, * and / to the left), says an expression with the value of e; so expressions that are printed alike have the same value.", "quantifier": "all expressions whose symbols have ordinary names, all assignments at which the expression is defined", "why_tests_cant": "the decisions where to put parentheses combine in expressions of any depth", "anchors": ["src/simpy/expr.py::Sum.__repr__", "src/simpy/expr.py::Prod.__repr__", "src/simpy/expr.py::Power.__repr__", "src/simpy/expr.py::Rat.__repr__", "src/simpy/expr.py::log.__repr__", "src/simpy/expr.py::SingleFunc.__repr__", "src/simpy/expr.py::_repr", "src/simpy/expr.py::Abs.__repr__"]}
{"id": "C68", "title": "The variable of integration may be left out exactly if there is one symbol", "statement": "integrate(e) and integrate(e, (a, b)) are integrate(e, v) and integrate(e, (v, a, b)) if v is the only symbol of e, and raise ValueError if e has no symbol or several.", "quantifier": "all integrands, bounds, search orders, time limits", "why_tests_cant": "all integrands", "anchors": ["src/simpy/integration.py::integrate", "src/simpy/expr.py::Expr.symbols"]}
{"id": "C69", "title": "The LaTeX says what the expression is", "statement": "e.latex(), read as LaTeX is read (braces group, \\frac is a quotient, ^ takes the next group, \\cdot and juxtaposition multiply, + and - come last), says an expression with the value of e; so expressions with the same LaTeX have the same value.", "quantifier": "all expressions whose symbols have ordinary names, all assignments at which the expression is defined", "why_tests_cant": "the decisions where to put brackets combine in expressions of any depth", "anchors": ["src/simpy/expr.py::Sum.latex", "src/simpy/expr.py::Prod.latex", "src/simpy/expr.py::Power.latex", "src/simpy/expr.py::Rat.latex", "src/simpy/expr.py::log.latex", "src/simpy/expr.py::TrigFunction.latex", "src/simpy/expr.py::Abs.latex", "src/simpy/latex.py::bracketfy", "src/simpy/latex.py::group"]}
{"id": "C70", "title": "No internal assertion fails", "statement": "Arithmetic, simplify and integrate on expressions a user can build do not raise AssertionError; in particular the matcher of regex.py, asked whether a sum contains an instance of a pattern, answers or returns the leftover terms.", "quantifier": "all expressions, all patterns", "why_tests_cant": "needs a combination of terms that match a pattern in more than one way, or of roots whose product collapses", "anchors": ["src/simpy/regex.py::Eq", "src/simpy/expr.py::Associative", "src/simpy/expr.py::Prod.__new__", "src/simpy/expr.py::remove_const_factor", "src/simpy/simplify/simplify.py::pythagorean_simplification"]}
{"id": "C71", "title": "A u-substitution is tried only if the rest of the integrand is a function of u", "statement": "When PolynomialUSub, GenericUSub, TrigUSub2 or LinearUSub applies to an integrand, the variable occurs in it, apart from the factor that goes into du, nowhere but inside the expression substituted; the u of LinearUSub is a linear function of the variable.", "quantifier": "all integrands", "why_tests_cant": "the tests count occurrences, which must not be fooled by nesting or by repeated parts", "anchors": ["src/simpy/transforms.py::PolynomialUSub.check", "src/simpy/transforms.py::GenericUSub.check", "src/simpy/transforms.py::TrigUSub2.check", "src/simpy/transforms.py::LinearUSub.check", "src/simpy/regex.py::count"]}
{"id": "C72", "title": "Linear combinations of table functions are always integrated", "statement": "integrate(e, x) of a sum of terms c * f, c rational and f one of x ** q with q rational (so also 1/x and sqrt(x)), e ** L, sin(L), cos(L) with L = a*x + b (a, b rational, different for different terms), and without sines and cosines or without negative powers, neither returns None nor raises, for every search order, time limit and choice of new names: it returns an expression whose derivative is e wherever e is regular.", "quantifier": "all numbers of terms, all rational coefficients and exponents, all variables with a non-empty name, both search orders, all time limits, all names", "why_tests_cant": "needs an answer for infinitely many inputs, not only that the answers given are right", "anchors": ["src/simpy/integration.py::integrate", "src/simpy/integration.py::Integration.integrate", "src/simpy/integration.py::Integration._go_backwards", "src/simpy/integral_table.py::check_integral_table", "src/simpy/simplify/simplify.py::simplify", "src/simpy/expr.py::Sum.__new__", "src/simpy/expr.py::Prod.__new__"]}
{"id": "C73", "title": "factor() takes out the greatest common power and a common divisor", "statement": "Sum.factor() of a sum of monomials c * x ** q in one variable (c, q rational, c not 0, not all of them numbers) always returns the product of a monomial k * x ** e and the Sum of the monomials (c/k) * x ** (q-e). e is the least exponent if all are positive, the greatest if all are negative, and 0 otherwise. k divides all the coefficients, is one of them up to sign, and is negative exactly if they all are; or it is 1 and two of the coefficients do not divide each other.", "quantifier": "all numbers of terms, all rational coefficients and exponents, all orders of the terms", "why_tests_cant": "loops over the terms with a running minimum and early exit; exponents of both signs", "anchors": ["src/simpy/expr.py::Sum.factor", "src/simpy/expr.py::_deconstruct_prod", "src/simpy/expr.py::Prod.__new__", "src/simpy/expr.py::Power.__new__"]}
{"id": "C74", "title": "Numbers and expressions can be mixed", "statement": "For a Python int, Fraction or float q and an expression e, q op e and e op q (op one of + - * / **) compute exactly what Const(q) op e and e op Const(q) compute (the same result or the same exception), and for rational q the result has the value of the operation wherever it is defined. Casting an argument turns every number at every depth of nested dicts, tuples and lists into an expression, changes nothing else, is idempotent, and raises NotImplementedError exactly if there is something foreign inside.", "quantifier": "all operators, all numbers and expressions on either side, all nested containers", "why_tests_cant": "ranges over all expressions and all nestings of containers", "anchors": ["src/simpy/expr.py::_cast", "src/simpy/expr.py::cast", "src/simpy/expr.py::Expr.__radd__", "src/simpy/expr.py::Expr.__rsub__", "src/simpy/expr.py::Expr.__rpow__", "src/simpy/expr.py::Rat.__rtruediv__", "src/simpy/expr.py::Rat.__rpow__"]}
{"id": "C75", "title": "diff() differentiates by the only symbol, or asks", "statement": "diff(e, v) is e.diff(v); diff(e, None) is e.diff(v) if v is the only symbol of e, and raises ValueError if there is none or several.", "quantifier": "all expressions, all variables", "why_tests_cant": "ranges over all expressions", "anchors": ["src/simpy/expr.py::diff"]}
{"id": "C76", "title": "symbols() makes the symbols named", "statement": "symbols(' '.join(names)) returns exactly the symbols with these names in this order (the symbol itself if there is one name); a string that begins or ends with a space, has two spaces in a row or is empty is refused with AssertionError, and no other string is refused.", "quantifier": "all strings, all lists of names", "why_tests_cant": "ranges over all strings", "anchors": ["src/simpy/expr.py::symbols", "src/simpy/expr.py::Symbol.__post_init__"]}
{"id": "C77", "title": "Rational numbers divide, compare and invert exactly", "statement": "For rationals a and b: a // b is the floor of the exact quotient, a % b is a - b * (a // b) and lies between 0 and b, a < b and a <= b are the order of the numbers, reciprocal() is the exact inverse, is_int holds exactly of integers; division by zero raises ZeroDivisionError.", "quantifier": "all pairs of rationals, all signs", "why_tests_cant": "all pairs of rationals of any size and sign", "anchors": ["src/simpy/expr.py::Rat.__floordiv__", "src/simpy/expr.py::Rat.__mod__", "src/simpy/expr.py::Rat.reciprocal", "src/simpy/expr.py::Rat.is_int", "src/simpy/expr.py::Num.__lt__", "src/simpy/expr.py::Num.__le__"]}
{"id": "C78", "title": "expand() multiplies polynomials out completely", "statement": "For a polynomial e in any number of symbols (numbers, symbols, sums, products, natural powers), multiplying out (e.expand() if e.expandable(), else e) returns, and the result is a number, a product of powers of different symbols with or without a number in front, or a sum of such terms, none 0 and no two alike; it has the same value everywhere and is not expandable.", "quantifier": "all polynomial expressions of any depth, degree and number of symbols, all stack depths large enough for the expression", "why_tests_cant": "sums, products and powers nest to any depth, and each level relies on the form that the level below returns", "anchors": ["src/simpy/expr.py::Expr.expandable", "src/simpy/expr.py::Expr.expand", "src/simpy/expr.py::Sum._expand", "src/simpy/expr.py::Prod._expand", "src/simpy/expr.py::Power._expand", "src/simpy/expr.py::Power._power_expandable", "src/simpy/expr.py::Sum.__new__", "src/simpy/expr.py::Prod.__new__", "src/simpy/expr.py::Power.__new__"]}
{"id": "C79", "title": "The expanded form is canonical", "statement": "Two polynomials have the same values everywhere exactly if multiplying them out returns the identical expression, with the same terms in the same order, however they were written; a polynomial is 0 everywhere exactly if multiplying it out returns 0.", "quantifier": "all pairs of polynomial expressions, all assignments", "why_tests_cant": "ranges over all pairs of expressions with equal values", "anchors": ["src/simpy/expr.py::Expr.expand", "src/simpy/expr.py::Prod._expand", "src/simpy/expr.py::Power._expand", "src/simpy/expr.py::Sum.__new__", "src/simpy/expr.py::Prod.__new__", "src/simpy/expr.py::Associative._sort_terms", "src/simpy/expr.py::Sum._sort_terms"]}
{"id": "C80", "title": "simplify() returns on polynomials, is idempotent there and recognises zero", "statement": "simplify(p) of a polynomial p in any number of symbols returns p itself or, if it has fewer occurrences of symbols, p multiplied out; simplify(simplify(p)) is simplify(p); and simplify(p) is 0 exactly if p is 0 everywhere, so that (p - q).simplify() == 0 decides whether polynomials p and q are equal.", "quantifier": "all polynomial expressions of any depth, degree and number of symbols, all assignments", "why_tests_cant": "ranges over all polynomial identities", "anchors": ["src/simpy/simplify/simplify.py::simplify", "src/simpy/simplify/simplify.py::is_simpler", "src/simpy/expr.py::Expr.expand", "src/simpy/utils.py::count_symbols"]}
{"id": "C81", "title": "Polynomials in several symbols are always integrated", "statement": "integrate(p, x) of a polynomial p in any number of symbols that is multiplied out neither returns None nor raises, for every search order, time limit and choice of new names: it returns a multiplied-out polynomial whose derivative with respect to x is p everywhere. So integrate(p.expand(), x) works for every polynomial p, and integrate(p, (x, a, b)) with bounds a, b that are numbers, symbols or products of such is the integral from a to b.", "quantifier": "all polynomials of any degree and any number of symbols, all variables, all bounds, both search orders, all time limits, all names", "why_tests_cant": "needs an answer for infinitely many inputs, not only that the answers given are right", "anchors": ["src/simpy/integration.py::integrate", "src/simpy/integration.py::Integration.integrate", "src/simpy/integration.py::Integration.integrate_bounds", "src/simpy/integration.py::Integration._integrate_safely", "src/simpy/integration.py::Integration._go_backwards", "src/simpy/transforms.py::PullConstant", "src/simpy/transforms.py::Additivity", "src/simpy/integral_table.py::check_integral_table", "src/simpy/expr.py::Expr.subs", "src/simpy/expr.py::Sum.__new__", "src/simpy/expr.py::Prod.__new__"]}
{"id": "C82", "title": "Polynomials need not be multiplied out to be integrated", "statement": "integrate(p, x) of a polynomial p in any number of symbols, however it is written (numbers, symbols, sums, products, natural powers), neither returns None nor raises: it returns an expression whose derivative with respect to x is p everywhere.", "quantifier": "all polynomial expressions of any depth and degree, all variables, both search orders, all time limits, all names", "why_tests_cant": "needs an answer for infinitely many inputs; the way from a power of a sum to its terms goes through several transforms whose order matters", "anchors": ["src/simpy/integration.py::integrate", "src/simpy/integration.py::Integration._integrate_safely", "src/simpy/integration.py::Integration._go_backwards", "src/simpy/transforms.py::Expand", "src/simpy/transforms.py::PullConstant", "src/simpy/transforms.py::Additivity", "src/simpy/transforms.py::PolynomialDivision", "src/simpy/transforms.py::PartialFractions", "src/simpy/expr.py::Power._expand", "src/simpy/expr.py::Prod._expand"]}
{"id": "C83", "title": "Differentiation keeps polynomials multiplied out", "statement": "p.diff(x) of a polynomial p in any number of symbols that is multiplied out returns, multiplied out, the polynomial that is the partial derivative of p everywhere. It is literally 0 exactly if x does not occur in p; p.diff(x).diff(y) and p.diff(y).diff(x) are the same expression; and integrate(p, x).diff(x) is literally p.", "quantifier": "all polynomials of any degree and any number of symbols, all variables", "why_tests_cant": "ranges over all polynomials; equality of the expressions, not only of the values, is used to compare results", "anchors": ["src/simpy/expr.py::Sum.diff", "src/simpy/expr.py::Prod.diff", "src/simpy/expr.py::Power.diff", "src/simpy/expr.py::Symbol.diff", "src/simpy/expr.py::Sum.__new__", "src/simpy/expr.py::Prod.__new__", "src/simpy/expr.py::Power.__new__", "src/simpy/integration.py::integrate"]}
{"id": "C84", "title": "Sums and differences of multiplied-out polynomials obey the laws of arithmetic literally", "statement": "For polynomials a, b, c in any number of symbols that are multiplied out, a + b, a - b and -a return, multiplied out, the polynomial with the value of the sum, the difference and the negative. As expressions (the same terms in the same order) a + b is b + a, (a + b) + c is a + (b + c), (a + b) - b is a, a - a is 0, -(-a) is a and a + (-b) is a - b.", "quantifier": "all triples of polynomials of any degree and any number of symbols", "why_tests_cant": "ranges over all polynomials; like terms must be found and the order of the terms restored whatever order they come in", "anchors": ["src/simpy/expr.py::Expr.__add__", "src/simpy/expr.py::Expr.__sub__", "src/simpy/expr.py::Sum.__neg__", "src/simpy/expr.py::Expr.__neg__", "src/simpy/expr.py::Sum.__new__", "src/simpy/expr.py::Sum._sort_terms", "src/simpy/expr.py::Prod.__new__"]}
{"id": "C85", "title": "Numbers and monomials can be put into polynomials", "statement": "p.subs({x: m}) of a polynomial p in any number of symbols that is multiplied out, and m a number, a symbol or a product of a number and powers of symbols (possibly of x itself), returns, multiplied out, the polynomial with the value of p at x = m. Renaming a symbol to one that does not occur in p and back gives p, literally.", "quantifier": "all polynomials, all symbols, all monomials", "why_tests_cant": "ranges over all polynomials and monomials; terms can become alike or vanish", "anchors": ["src/simpy/expr.py::Expr.subs", "src/simpy/expr.py::Sum.subs", "src/simpy/expr.py::Prod.subs", "src/simpy/expr.py::Power.subs", "src/simpy/expr.py::Sum.__new__", "src/simpy/expr.py::Prod.__new__", "src/simpy/expr.py::Power.__new__"]}
{"id": "C86", "title": "Products and powers of multiplied-out polynomials obey the laws of arithmetic literally", "statement": "For polynomials a, b, c in any number of symbols that are multiplied out and natural j, k, multiplying out a * b and a ** k returns the polynomial with the value of the product and the power. As expressions (the same terms in the same order, all products multiplied out) a*b is b*a, (a*b)*c is a*(b*c), a*(b + c) is a*b + a*c, a*1 is a, a*(-1) is -a, a**(j+k) is a**j * a**k, (a**j)**k is a**(j*k), (a*b)**k is a**k * b**k, and (a*b).diff(x) is a.diff(x)*b + a*b.diff(x). a*b is 0 exactly if a or b is 0, and a factor other than 0 can be cancelled.", "quantifier": "all triples of polynomials of any degree and any number of symbols, all natural exponents, all variables", "why_tests_cant": "ranges over all polynomials; equal factors become squares, numbers and signs are treated specially, and the result must not depend on any of it", "anchors": ["src/simpy/expr.py::Expr.__mul__", "src/simpy/expr.py::Expr.__pow__", "src/simpy/expr.py::Prod.__new__", "src/simpy/expr.py::Prod._combine_like_terms", "src/simpy/expr.py::Power.__new__", "src/simpy/expr.py::Prod._expand", "src/simpy/expr.py::Power._expand", "src/simpy/expr.py::Sum.__new__", "src/simpy/expr.py::Prod.diff"]}
{"id": "C87", "title": "The laws of the integral calculus hold literally for multiplied-out polynomials", "statement": "For polynomials in any number of symbols that are multiplied out and bounds that are numbers, symbols or products of a number and powers of symbols: integrate(e, x) and integrate(e, (x, a, b)) have exactly one answer, whatever the strategy, time limit and random names, and it is multiplied out. As expressions, integrate(e, x) is integrate(e, (x, 0, x)); its derivative is e; integrating e.diff(x) gives e minus e at x = 0; integrals of sums are sums of integrals, factors free of the variable come out, integrals over adjacent intervals add up, exchanging the bounds changes the sign, equal bounds give 0, the order of two integrations does not matter (definite with bounds free of the other variable, and indefinite), integration by parts holds, and the derivative by a symbolic upper bound is the integrand there. With numbers as bounds and no other symbol the answer is the exact rational number.", "quantifier": "all polynomials of any degree and any number of symbols, all such bounds, all variables, strategies, time limits and random names", "why_tests_cant": "ranges over all polynomials and all pairs of runs; each law compares the literal results of several searches", "anchors": ["src/simpy/integration.py::integrate", "src/simpy/integration.py::Integration.integrate_bounds", "src/simpy/expr.py::diff", "src/simpy/expr.py::Expr.subs", "src/simpy/expr.py::Sum.__new__", "src/simpy/expr.py::Prod._expand"]}
{"id": "C88", "title": "The laws of exponents hold literally for products of powers of symbols", "statement": "Whatever is made of numbers other than 0 and symbols by *, /, negation, x**q for a symbol x and any rational q, and whole powers is a number, a power of a symbol, or a product of powers of different symbols with or without a number in front. Two such expressions are literally the same if and only if they have the same values for all positive values of the symbols. The operations always return and have the right values, and as expressions: a*b is b*a, (a*b)*c is a*(b*c), a/b is a*b**(-1), (a*b)/b and (a/b)*b are a, a/(b/c) is (a*c)/b, (a/b)/c is a/(b*c), a*b is a*c only if b is c, a**j*a**k is a**(j+k), (a**j)**k is a**(j*k), (a*b)**k is a**k*b**k, (a/b)**k is a**k/b**k, a/a is 1, a*1, a/1 and a**1 are a, a**0 is 1.", "quantifier": "all expressions made of nonzero numbers and symbols by these operations, all whole powers, all rational exponents of symbols, any number of symbols and operations", "why_tests_cant": "ranges over all such expressions and all histories by which they were made; the same value reached in two ways must give the same object", "anchors": ["src/simpy/expr.py::Prod.__new__", "src/simpy/expr.py::Power.__new__", "src/simpy/expr.py::_combine_like_terms", "src/simpy/expr.py::Expr.__mul__", "src/simpy/expr.py::Expr.__truediv__", "src/simpy/expr.py::Expr.__pow__", "src/simpy/expr.py::Expr.__neg__"]}
{"id": "C89", "title": "factor() of a multiplied-out polynomial can be undone by expand()", "statement": "For every sum that is a multiplied-out polynomial in any number of symbols, factor() returns the product of a single term and of a multiplied-out polynomial with as many terms: the term has every symbol with its least exponent, and a number that divides all the coefficients, is one of them up to its sign and is negative exactly if they all are (or 1 if there are two coefficients neither of which divides the other). The values are the same everywhere, and expanding the result gives back literally the polynomial that was factored, so different polynomials have different factored forms. No symbol is in all the terms of what is left. If of any two coefficients one divides the other, factoring what is left returns it unchanged.", "quantifier": "all multiplied-out polynomials with at least two terms, of any degree, with any rational coefficients and any number of symbols", "why_tests_cant": "ranges over all polynomials; the round trip compares the literal result of two different algorithms", "anchors": ["src/simpy/expr.py::Sum.factor", "src/simpy/expr.py::Prod.__new__", "src/simpy/expr.py::Prod._expand", "src/simpy/expr.py::Sum.__new__"]}
{"id": "C90", "title": "The search does not undo a step straight away", "statement": "In the tree of every search: multiplying out never follows completing the square, substituting a function of the variable never follows substituting a function of a new variable for it, nor the other way round, if there are only steps in between that pull out constants and split sums; and trigonometric functions are not rewritten twice with only such steps and multiplying out in between.", "quantifier": "all integrands, all times for the search, depth first and breadth first, all nodes of the tree and all their ancestors", "why_tests_cant": "ranges over all search trees; the heuristics look at the whole path to the root, and nodes are added by many functions, some below nodes added a moment ago", "anchors": ["src/simpy/transforms.py::_get_last_heuristic_transform", "src/simpy/transforms.py::Expand.check", "src/simpy/transforms.py::TrigUSub2.check", "src/simpy/transforms.py::InverseTrigUSub.check", "src/simpy/transforms.py::RewriteTrig.check", "src/simpy/integration.py::Integration._cycle"]}
{"id": "C91", "title": "Infinities", "statement": "Arithmetic and comparison of rational numbers and infinities is that of the extended real numbers: sums, products, differences, quotients, absolute values and comparisons have the extended real value where there is one and are nan where there is none (inf - inf, 0 * inf); powers with an infinite base or exponent are the limits of the powers of real numbers; a power of an unknown to an infinite exponent stays a power.", "quantifier": "all rational numbers in the range of floats, both infinities, all exponents and (positive) bases, pi and e as bases", "why_tests_cant": "ranges over all rational numbers; the tests compare a few", "anchors": ["src/simpy/expr.py::Num.__lt__", "src/simpy/expr.py::Num.__ge__", "src/simpy/expr.py::Infinity", "src/simpy/expr.py::NegInfinity", "src/simpy/expr.py::Accumulateable.accumulate", "src/simpy/expr.py::Power.__new__"]}
{"id": "C92", "title": "Improper integrals of exponential functions", "statement": "integrate(c*e**(a*x+b), (x, A, inf)) for a < 0 and integrate(c*e**(a*x+b), (x, -inf, B)) for a > 0 return an exact expression whose value is the improper integral.", "quantifier": "all rational c != 0, a, b (in the range of floats) and bounds A, B, all ways of writing a*x + b, both search strategies, all times for the search and all random names", "why_tests_cant": "ranges over all coefficients and bounds; the tests have none with infinite bounds", "anchors": ["src/simpy/integration.py::integrate", "src/simpy/integration.py::Integration.integrate_bounds", "src/simpy/expr.py::Power.subs", "src/simpy/expr.py::Power.__new__", "src/simpy/expr.py::Infinity"]}
{"id": "C93", "title": "debug_repr shows the structure", "statement": "debug_repr(a) == debug_repr(b) just when a == b, so that comparing the texts is comparing the structures; pedantic=\"always\" shows the class of every number and symbol.", "quantifier": "all pairs of expressions, of any depth and width", "why_tests_cant": "ranges over all pairs of expressions; the tests compare a few literals", "anchors": ["src/simpy/debug/utils.py::debug_repr", "src/simpy/expr.py::Expr.__eq__", "src/simpy/expr.py::Rat.__repr__"]}
{"id": "C94", "title": "Elementary terms: derivatives of any order and integrals are the textbook ones", "statement": "The k-th derivative of c*e**(a*x+b) is c*a**k*e**(a*x+b), those of c*sin(a*x+b) and c*cos(a*x+b) go round with period four, that of c*x**q is c*q*(q-1)*...*(q-k+1)*x**(q-k) and vanishes after m+1 steps for a natural q = m. integrate returns c/a*e**(a*x+b), -c/a*cos(a*x+b), c/a*sin(a*x+b) and c/(q+1)*x**(q+1) (q not -1). These are the expressions returned, not only their values, so diff(integrate(t)) == t and integrate(diff(t)) == t.", "quantifier": "all orders k, all rational c, a, b and q, all variables, both search orders, any names for the new variables", "why_tests_cant": "ranges over all orders, coefficients and exponents; tests check a few of the first derivatives", "anchors": ["src/simpy/expr.py::Power.diff", "src/simpy/expr.py::Prod.diff", "src/simpy/expr.py::sin.diff", "src/simpy/expr.py::cos.diff", "src/simpy/integration.py::integrate", "src/simpy/expr.py::Prod.__new__"]}
{"id": "C95", "title": "Roots of linear functions: integrals and derivatives of any order are the textbook ones", "statement": "For a fractional exponent q (as in sqrt(a*x+b) or 1/(a*x+b)**(3/2)) integrate(c*(a*x+b)**q) returns c/(a*(q+1))*(a*x+b)**(q+1), and the k-th derivative of c*(a*x+b)**q is c*a**k*q*(q-1)*...*(q-k+1)*(a*x+b)**(q-k). These are the expressions returned; diff undoes integrate and integrate undoes diff, and wherever a*x+b > 0 the integral has the integrand as its derivative in the sense of analysis.", "quantifier": "all orders k, all rational c, a, b not 0, all rational q that are not integers, all variables, both search orders, any names for the new variables", "why_tests_cant": "ranges over all coefficients, exponents and orders; tests check sqrt(x+1)-like samples", "anchors": ["src/simpy/expr.py::Power.__new__", "src/simpy/expr.py::Power.diff", "src/simpy/expr.py::Prod.__new__", "src/simpy/integration.py::integrate", "src/simpy/transforms.py::LinearUSub", "src/simpy/transforms.py::PullConstant"]}
{"id": "C96", "title": "The printed search tree shows every node once, and the printed solution is a complete solution", "statement": "print_tree(root) prints one row for each node of the search tree, parent before child and left to right, with its distance from the root, nesting, integrand, the transform that led to it, whether it is solved, failed or no longer needed, and the type of a leaf. For a solved tree print_solution_tree and print_success_tree print exactly the nodes that are solved together with all their ancestors (the former with their solutions); these contain all children of AND nodes, some child of each OR node, and end in SOLUTION leaves. Different made-up variables (u_...) are shown under different names. Text that fits into its column is shown in full.", "quantifier": "all search trees with any nodes, variables and expressions for which printing does not raise", "why_tests_cant": "ranges over all trees; no test looks at the printed tree", "anchors": ["src/simpy/debug/tree.py::print_tree", "src/simpy/debug/tree.py::print_success_tree", "src/simpy/debug/tree.py::print_solution_tree", "src/simpy/integration.py::integrate"]}
{"id": "C97", "title": "The log of integrals keeps each integral, and the dump lists them by time", "statement": "After any sequence of integrals logged by a Logger, and sorts and dumps in between, data has one entry for each text of a logged integrand, and it is the last one logged for that text; integrals with different integrands keep different entries. Sorting keeps the entries, orders them from most to least time, and does not change the order of entries with the same time. The dumped file has a line for each entry in that order, then the solution and the whole search tree of an integral on which the most time was spent. Dumping an empty log raises IndexError.", "quantifier": "all histories of logging, sorting and dumping, all integrands, times and search trees", "why_tests_cant": "ranges over histories; no test uses the logger", "anchors": ["src/simpy/debug/logger.py::Logger", "src/simpy/debug/logger.py::Datum", "src/simpy/integration.py::Integration"]}
{"id": "C98", "title": "The parked transforms CompoundAngle and SinUSub are right", "statement": "If CompoundAngle or SinUSub (debug/_dead_transforms.py) turns an integral into another and that one is solved, the solution that its backward computes is an antiderivative of the first integrand. CompoundAngle leaves the value of the integrand unchanged. SinUSub applies to products with the sine and the cosine of the same multiple of the variable, and leaves an integrand free of the variable.", "quantifier": "all integrands and points where they are regular, all solutions of the new integral", "why_tests_cant": "ranges over all integrands and points; the transforms have no tests", "anchors": ["src/simpy/debug/_dead_transforms.py::CompoundAngle", "src/simpy/debug/_dead_transforms.py::SinUSub"]}
{"id": "C99", "title": "Definite integrals of exponential functions, sines, cosines and powers are exact", "statement": "integrate(c*e**(a*x+b), (x, A, B)), integrate(c*sin(a*x+b), (x, A, B)) and integrate(c*cos(a*x+b), (x, A, B)) return an exact expression whose value is the integral from A to B, and integrate(c*x**m, (x, A, B)) for a whole m other than -1 (and bounds other than 0 if m is negative) returns the rational number c/(m+1)*(B**(m+1) - A**(m+1)), which is the integral if the interval does not contain a pole; for m = -1 it returns an expression whose value is c*(log|B| - log|A|), with the same proviso.", "quantifier": "all rational a, b, c, A, B (in either order), all whole exponents m but -1, all variables, both search orders, any names for the new variables", "why_tests_cant": "ranges over all rational coefficients and bounds", "anchors": ["src/simpy/expr.py::Expr.subs", "src/simpy/integration.py::integrate", "src/simpy/integration.py::Integration.integrate_bounds"]}
{"id": "C100", "title": "Definite integrals of one integrand fit together", "statement": "For one integrand and variable, the integral over an interval of length 0 is 0, exchanging the bounds changes the sign, and the integrals from a to b and from b to c add up to the integral from a to c, also across poles and wherever b is; the derivative of the integral from a to a symbol t is the integrand at t, and that of the integral from t to a minus the integrand, wherever the antiderivative is right; for a polynomial the answer is the integral and its derivative by the upper bound is the polynomial, everywhere, and the integral of a sum is the sum of the integrals and a smaller integrand has no greater integral; whether integrate gives up does not depend on the bounds.", "quantifier": "all integrands, all bounds (expressions, in any order) and all values of the symbols, for which the antiderivative found and the bounds are built from numbers, symbols, +, *, integer powers and absolute values and are defined; both search orders, any names for the new variables", "why_tests_cant": "ranges over all integrands, all bounds and all values of the symbols", "anchors": ["src/simpy/integration.py::Integration.integrate_bounds", "src/simpy/integration.py::integrate"]}
