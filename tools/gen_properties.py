import json
P=[]
def p(title,statement,quant,why,anchors):
    P.append(dict(id="C%02d"%(len(P)+1),title=title,statement=statement,quantifier=quant,why_tests_cant=why,anchors=anchors))
E="src/simpy/expr.py"
p("Sum() preserves value","Whenever Sum(terms) returns an expression, that expression evaluates, at every assignment of real numbers to symbols at which every term is defined, to the sum of the values of the terms, and is defined there.",
 "all finite lists of well-formed expressions of any size/depth; all assignments of reals to symbols","flattening, like-term collection, constant accumulation and sorting interact on unboundedly many term lists; tests check a few sums",[E+"::Sum.__new__",E+"::_combine_like_terms_sum",E+"::accumulate"])
p("Prod() preserves value","Whenever Prod(terms) returns an expression, it evaluates, at every assignment where the terms are defined (real principal values), to the product of the values of the terms, and is defined there.",
 "all finite lists of well-formed expressions; all real assignments in the principal domain","combining powers of equal bases adds arbitrary exponents; infinitely many products",[E+"::Prod.__new__",E+"::_combine_like_terms"])
p("Power() preserves value","Whenever Power(b, x) returns an expression, it evaluates to (value of b) ** (value of x) wherever b ** x is defined over the reals.",
 "all pairs of well-formed expressions; all real assignments where the power is defined","nested powers, products in the base and logs in the exponent are rewritten recursively; sign conditions hold only for some inputs",[E+"::Power.__new__",E+"::_accumulate_power",E+"::_multiply_exponents"])
p("Arithmetic operators preserve value","a+b, a-b, a*b, a/b, a**b and -a, when they return, evaluate to the sum, difference, product, quotient, power and negation of the operands' values.",
 "all operand pairs, all real assignments in the domain","operators dispatch on operand class (Rat overrides) and then run the simplifying constructors",[E+"::Expr.__add__",E+"::Expr.__sub__",E+"::Expr.__mul__",E+"::Expr.__truediv__",E+"::Expr.__pow__",E+"::Expr.__neg__",E+"::Rat.__add__",E+"::Sum.__neg__"])
p("Rational arithmetic is exact","On two rational numbers +, -, *, / (non-zero divisor) and integer ** return exactly the rational result as a rational number, with no rounding.",
 "all pairs of rationals of any magnitude","exactness on unboundedly large numerators and denominators",[E+"::Rat.__add__",E+"::Rat.__mul__",E+"::Rat.__truediv__",E+"::Rat.__pow__",E+"::accumulate"])
p("Rational powers are exact","Power(q, r) for rationals is a rational only if that rational is exactly q**r.",
 "all pairs of rationals","the integrality test goes through floating point; correctness depends on all magnitudes",[E+"::_accumulate_power"])
p("Sums and products are in canonical form","Every Sum returned by the constructor has at least two terms and at most one numeric constant, which is not 0; every Prod returned has at least two factors and at most one numeric constant, which is not 1, and which is not 0.",
 "all finite term lists","structural invariant over all inputs",[E+"::Sum.__new__",E+"::Prod.__new__",E+"::_combine_like_terms_sum",E+"::_combine_like_terms"])
p("Constructors flatten","No Sum returned by Sum() has a Sum among its terms and no Prod returned by Prod() has a Prod among its factors.",
 "all finite term lists","depends on what the like-term pass puts back in the list",[E+"::Associative._flatten_terms",E+"::Sum.__new__",E+"::Prod.__new__"])
p("Like terms are collected","In a Sum returned by Sum() no two terms have equal non-numeric factor lists; in particular x - x is 0 and x + x has one term, for every expression x.",
 "all finite term lists","pairwise property of outputs of a quadratic loop over arbitrary lists",[E+"::_combine_like_terms_sum",E+"::_deconstruct_prod"])
p("Commutativity of the constructors","Reordering the terms given to Sum() or Prod() does not change the returned expression when the surviving terms have different sort keys (complexity, power, repr) and numeric constants are rational.",
 "all finite lists, all permutations of them","n! permutations of unboundedly long lists; sort comparator is not a lawful total order on ties",[E+"::Associative._sort_terms",E+"::Sum.__new__",E+"::Prod.__new__"])
p("Canonical order is a permutation and is sorted","The ordering pass returns a permutation of its input, and any two elements are in order: first those without symbols by their depth, then by how deep their deepest symbol lies, then by exponent, then by printed form. In every expression the factors of a product stand in this order, the terms of a sum in the reverse of it.",
 "all finite term lists, all comparators of the kind used; all expressions a user can build","sorting correctness needs induction on lists",[E+"::Associative._sort_terms"])
p("Substitution lemma","expr.subs({x: v,...}) evaluates at rho to what expr evaluates to at rho updated with the values of the substituted expressions, wherever both are defined.",
 "all expressions, all substitution dictionaries, all real assignments","recursion through every constructor with re-simplification",[E+"::Sum.subs",E+"::Prod.subs",E+"::Power.subs",E+"::SingleFunc.subs",E+"::log.subs",E+"::Symbol.subs"])
p("No operation invents symbols","Constructors, operators, subs, expand and diff return expressions whose symbols all occur in the arguments (for subs: in the expression or in the substituted values); after subs({x: v}) with v free of x the result is free of x.",
 "all expressions and dictionaries","frame property over all inputs",[E+"::Expr.symbols",E+"::Sum.subs",E+"::Expr.expand"])
p("diff computes the derivative","If expr.diff(x) returns d then at every assignment where expr is regular, the function of x obtained by evaluating expr has derivative equal to the value of d.",
 "all expressions, all variables, all regular real assignments","needs the chain/product/power rules at every depth, over a continuum of points",[E+"::Sum.diff",E+"::Prod.diff",E+"::Power.diff",E+"::log.diff",E+"::sin.diff",E+"::cos.diff",E+"::tan.diff",E+"::sec.diff",E+"::csc.diff",E+"::cot.diff",E+"::asin.diff",E+"::acos.diff",E+"::atan.diff",E+"::Abs.diff"])
p("diff of a constant is literally 0","If expr does not contain x then expr.diff(x), when it returns, is structurally the number 0.",
 "all expressions not containing x","needs that constructors collapse zero products at every depth",[E+"::Prod.diff",E+"::Sum.diff",E+"::Power.diff"])
p("expand preserves value","If expr.expand() returns, the result evaluates to the same real number as expr wherever expr is defined.",
 "all expandable expressions, all assignments","multinomial expansion with arbitrary numbers of summands and exponents",[E+"::Sum._expand",E+"::Prod._expand",E+"::Power._expand"])
p("generate_permutations enumerates compositions","generate_permutations(i, n) returns exactly the lists of i non-negative integers that sum to n, each once.",
 "all i, n >= 0","infinite family; completeness and uniqueness both needed",["src/simpy/combinatorics.py::generate_permutations"])
p("multinomial_coefficient is the multinomial coefficient","multinomial_coefficient(xs, n) with sum(xs) == n is n!/(x1!...xk!), the division is exact, and weights with generate_permutations give the multinomial theorem.",
 "all non-empty lists of naturals","exactness of integer division for all arguments",["src/simpy/combinatorics.py::multinomial_coefficient"])
p("contains agrees with symbols","expr.contains(x) is True iff x is one of expr.symbols(), and then (only then) the value can depend on x.",
 "all expressions, all symbols","induction over expression structure",[E+"::Expr.contains",E+"::Expr.symbols"])
p("== is an equivalence that respects value","On expressions without floating-point numbers == is reflexive, symmetric and transitive and equal expressions have equal values.",
 "all pairs/triples of expressions","mixed Num comparisons (Fraction against float) are a non-obvious relation on infinitely many numbers",[E+"::Num.__eq__",E+"::E.__eq__",E+"::Symbol.__eq__"])
p("count and contains_cls","count(expr, query) counts outermost occurrences: it is 0 iff query is not a subexpression, it is 1 on the query itself and it adds up over children; has(cls) holds iff some subexpression is of the class.",
 "all expressions/queries","induction over structure",["src/simpy/regex.py::count","src/simpy/regex.py::contains_cls","src/simpy/regex.py::general_count"])
p("replace preserves value when the replacement does","replace(expr, old, new) evaluates as expr does whenever old and new have the same value; the same for replace_factory/kinder_replace with value-preserving performs; when old does not occur the result has the same value.",
 "all expressions, old/new pairs, all value-preserving rewrite rules","quantifies over all rewrite rules and all expressions",["src/simpy/regex.py::replace","src/simpy/regex.py::replace_factory_list","src/simpy/regex.py::kinder_replace_many"])
p("eq_with_var is equality up to renaming","eq_with_var((a, x), (b, y)) is True iff renaming x to y in a (structurally, without re-simplifying) gives b, on expressions without floats.",
 "all pairs of expressions and symbols","both directions on all trees",["src/simpy/utils.py::eq_with_var"])
p("to_const_polynomial is faithful","If to_const_polynomial(expr, x) returns coefficients c then expr evaluates to sum c[i]*x^i at every assignment where it is defined.",
 "all expressions accepted, all assignments","arbitrary degree and number of terms",["src/simpy/polynomial.py::to_const_polynomial","src/simpy/polynomial.py::_to_const_polynomial"])
p("polynomial_to_expr is faithful","polynomial_to_expr(c, x) evaluates to sum c[i]*x^i.",
 "all coefficient lists","arbitrary length",["src/simpy/polynomial.py::polynomial_to_expr"])
p("rid_ending_zeros","rid_ending_zeros(c) is the prefix of c with trailing zeros removed: its last element is not 0 and it denotes the same polynomial.",
 "all coefficient lists","arbitrary length",["src/simpy/polynomial.py::rid_ending_zeros"])
p("Polynomial division is Euclidean","The division done by the PolynomialDivision transform terminates, and gives quotient and remainder with numerator = quotient*denominator + remainder and degree(remainder) < degree(denominator).",
 "all rational coefficient lists with non-zero leading denominator coefficient","loop invariant and termination over arbitrary degrees",["src/simpy/transforms.py::PolynomialDivision"])
p("Matrix inversion","invert(M) of a 2x2 matrix M with M*inverse evaluating to the identity; returns None only if the determinant expression is 0; rejects other sizes.",
 "all 2x2 matrices of expressions, all assignments with non-zero determinant","continuum of inputs",["src/simpy/linalg.py::invert"])
p("Partial fractions identity","When the PartialFractions transform applies to numerator/((linear)(linear)) the new integrand has the same value as the old one away from the poles.",
 "all numerators of degree <=1 and pairs of linear factors with rational coefficients","continuum of coefficients",["src/simpy/transforms.py::PartialFractions"])
p("Integral table entries are antiderivatives","If check_integral_table(f, x) returns F then F is an antiderivative of f with respect to x at every regular point of f where the textbook formula makes sense (x^n with n != -1, b^x with b != 1, sec x with tan x + sec x > 0).",
 "all integrands, all variables (not only the table's own x), all regular points","holds at a continuum of points and for arbitrary exponents and bases",["src/simpy/integral_table.py::check_integral_table"])
p("Search tree status is consistent","In an integration tree no node is both solved and failed; a node is finished iff solved or failed; an AND node is solved iff all its children are, an OR node iff some child is.",
 "all finite search trees of any shape","trees of unbounded size and depth",["src/simpy/transforms.py::Node"])
p("An unfinished tree has work left","If a node is not finished it has an unfinished leaf below it, and a failed tree contains no way to be solved by finishing other leaves.",
 "all search trees reachable in the engine","unbounded trees/histories",["src/simpy/transforms.py::Node.unfinished_leaves","src/simpy/transforms.py::Node.is_finished"])
p("Best-leaf selection returns an unfinished leaf","_get_best_leaf(root) on an unfinished tree returns an unfinished leaf of that tree, and its complexity is one of the leaves' complexities (min below OR, max below AND).",
 "all unfinished search trees","recursion over arbitrary trees",["src/simpy/integration.py::_get_best_leaf","src/simpy/integration.py::_get_node_with_best_nesting"])
p("add_child never repeats an ancestor's problem","Adding a child whose (integrand, variable) equals one already on the path to the root leaves the tree unchanged, so no root-to-leaf path repeats a problem up to renaming.",
 "all trees built by any sequence of add_child calls","all histories of the search",["src/simpy/transforms.py::Node.add_child","src/simpy/transforms.py::Node.add_children"])
p("Walking back a solved tree yields a correct antiderivative","If every leaf solution is an antiderivative of its leaf's integrand and every transform's backward step is sound, then the solution stored at the root is an antiderivative of the root integrand.",
 "all solved trees over all transforms","induction over unbounded trees and orders of leaves",["src/simpy/integration.py::Integration._go_backwards"])
p("Each transform is sound","For PullConstant, Additivity, Expand, u-substitution (PolynomialUSub, LinearUSub, GenericUSub, TrigUSub2), ByParts, RewriteTrig and RewritePythagorean: if the children's solutions are antiderivatives of the children's integrands then the backward solution is an antiderivative of the parent's integrand.",
 "all integrands on which check() succeeds, all child solutions, all regular points","chain rule on a continuum; arbitrary integrands",["src/simpy/transforms.py::PullConstant","src/simpy/transforms.py::Additivity","src/simpy/transforms.py::Expand","src/simpy/transforms.py::LinearUSub","src/simpy/transforms.py::ByParts","src/simpy/transforms.py::USub"])
p("Definite integrals are F(b)-F(a)","integrate(f, (x, a, b)) evaluates to F(b) - F(a) for the antiderivative F found by the indefinite search, so equals the Riemann integral when F is an antiderivative on [a,b].",
 "all integrands, bounds and antiderivatives","continuum of bounds; fundamental theorem of calculus",["src/simpy/integration.py::Integration.integrate_bounds"])
p("Trig special values are right","sin, cos, tan, sec, csc, cot of k*pi for every rational k return a constant only if it is exactly the value of the function there.",
 "all rational multiples of pi (reduced modulo the period)","infinitely many multiples; modular reduction",[E+"::TrigFunction.__new__",E+"::sin._special_values",E+"::cos._special_values",E+"::tan._special_values"])
p("Trig constructors preserve value","sin(e), cos(e), tan(e), sec(e), csc(e), cot(e) evaluate to the function of the value of e: parity, removal of multiples of the period, and cancellation of inverse functions are value-preserving.",
 "all expressions e, all assignments where defined","arbitrary arguments, periods in sums",[E+"::TrigFunction.__new__",E+"::sin.__new__",E+"::cos.__new__",E+"::tan.__new__"])
p("Inverse trig constructors preserve value","asin(e), acos(e), atan(e) evaluate to the principal inverse of the value of e.",
 "all expressions e, all assignments where defined","false outside the principal range; a test inside the range passes",[E+"::TrigFunction.__new__",E+"::asin",E+"::acos",E+"::atan"])
p("log constructor preserves value","log(a, b) evaluates to ln(a)/ln(b) wherever defined.",
 "all expression pairs, all assignments with a>0, b>0, b!=1","structural cancellation of powers",[E+"::log.__new__"])
p("Abs constructor preserves value","Abs(e) evaluates to |value of e|; in particular it drops the bars only if the value is non-negative everywhere.",
 "all expressions, all assignments","positivity analysis must be sound on all expressions",[E+"::Abs.__new__",E+"::_is_strictly_positive"])
p("Pythagorean simplification preserves value","pythagorean_simplification on sums with a*sin(u)^2 + a*cos(u)^2 (any a, u, and any number of such pairs and other terms) returns an expression of the same value.",
 "all sums, all assignments","arbitrary numbers of matching pairs/factors",["src/simpy/simplify/simplify.py::_pythagorean_perform"])
p("Product-to-sum preserves value","product_to_sum_unit(expr), when it returns, has the value of expr.",
 "all products of sines, cosines and their powers, all assignments","recursion on arbitrary exponents/numbers of factors",["src/simpy/simplify/product_to_sum.py::product_to_sum_unit","src/simpy/simplify/product_to_sum.py::_perform_on_terms"])
p("rewrite_as_one_fraction preserves value","rewrite_as_one_fraction(sum), when it returns an expression, has the value of sum wherever sum is defined.",
 "all sums, all assignments","arbitrary numbers of fractions",["src/simpy/simplify/simplify.py::rewrite_as_one_fraction"])
p("numerator_denominator recomposes","For a Prod p, p.numerator_denominator returns (n, d) with value n/d equal to the value of p.",
 "all products, all assignments in the domain","arbitrary factor lists",[E+"::Prod.numerator_denominator"])
p("factor preserves value","Sum.factor(), when it returns, has the value of the sum wherever the common factor is non-zero.",
 "all sums, all assignments","arbitrary common factors",[E+"::Sum.factor"])
p("expand_logs preserves value","expand_logs(expr) has the value of expr where all logarithms' arguments are positive.",
 "all expressions, all assignments","log rules hold only under sign conditions",["src/simpy/simplify/simplify.py::expand_logs","src/simpy/simplify/simplify.py::_log_perform"])
p("Reciprocal/combined trig rewriting preserves value","_reciprocate_trigs (1/sin^n -> csc^n, ...) and the tan/sec/csc/cot -> sin/cos rewriting preserve value wherever defined.",
 "all expressions, all assignments","arbitrary subexpressions",["src/simpy/simplify/simplify.py::reciprocate_trigs","src/simpy/regex.py::replace_class"])
p("Result does not depend on the recursion budget","If a constructor returns a value with some recursion limit then it returns the same value with every larger limit.",
 "all inputs, all recursion limits","quantifies over all stack depths",[E+"::Sum.__new__",E+"::Prod.__new__",E+"::Power.__new__"])
p("evalf agrees with value","expr.evalf(), when it returns a number, is the value of expr up to floating-point rounding; with exact arithmetic it is the value.",
 "all symbol-free expressions","all expressions",[E+"::Expr.evalf",E+"::Num._evalf",E+"::log._evalf"])
p("nesting is well defined and zero exactly off the variable","nesting(expr, x) is 0 iff expr does not contain x, and a child never has larger complexity than its parent except through the -1 factor and reciprocal rules.",
 "all expressions","induction on expressions",[E+"::nesting",E+"::_nesting"])
p("simplify never makes an expression larger unless trig rules fire","simplify(expr) returns expr itself or an expression with strictly fewer symbol occurrences, unless a trig rule fired.",
 "all expressions","property of every run",["src/simpy/simplify/simplify.py::simplify","src/simpy/simplify/simplify.py::is_simpler"])
p("LaTeX output has balanced braces","expr.latex(), when it returns, has balanced curly braces and parentheses when symbol names do.",
 "all expressions","all expressions of any depth",[E+"::Sum.latex",E+"::Prod.latex",E+"::Power.latex","src/simpy/latex.py::group","src/simpy/latex.py::bracketfy"])
p("repr has balanced parentheses","repr(expr), when it returns, has balanced parentheses when symbol names do.",
 "all expressions","all expressions",[E+"::Sum.__repr__",E+"::Prod.__repr__",E+"::Power.__repr__"])
p("Constructors are idempotent","Rebuilding a constructor's own result (Sum(s.terms), Prod(p.terms)) returns the same expression.",
 "all results of the constructors","all outputs",[E+"::Sum.__new__",E+"::Prod.__new__"])
p("simplify preserves value","simplify(expr) has the value of expr wherever expr is defined.",
 "all expressions, all assignments","rules interact in arbitrary expressions",["src/simpy/simplify/simplify.py::simplify","src/simpy/simplify/simplify.py::trig_simplify"])
I="src/simpy/integration.py"
p("The search never gets stuck","As long as the problem is neither solved nor given up, the search of integrate has an unfinished leaf to work on: every step is called on a node of the tree with an unfinished leaf below, makes progress on one, changes nothing but unfinished leaves (and solutions stored by integration by parts), and the loop never fails for want of a next node.",
 "all integrands, both search orders, all names drawn for new variables, all histories of the search","trees of any shape reached by any number of steps",[I+"::Integration.integrate",I+"::Integration._cycle",I+"::Integration._get_next_node_post_heuristic_depth_first",I+"::Integration._get_next_node_post_heuristic_breadth_first"])
p("The answer does not depend on the time limit","If integrate finds an answer (or gives up for good) within some time limit, it does so with the same result for every longer time limit.",
 "all integrands, all time limits","all time limits and histories",[I+"::Integration.integrate"])
p("integrate returns an antiderivative","If integrate(f, x) returns F then the derivative of F in x is f, at every point where f and the steps taken are defined.",
 "all integrands, both search orders, all time limits, all regular points","quantifies over all runs of a search with unbounded trees, and over a continuum of points",[I+"::integrate",I+"::Integration.integrate",I+"::Integration._go_backwards"])
p("Every problem in the search tree comes from its parent by the transform it carries","In the tree the search returns, the root is the integrand posed (simplified), every other node is the output of its transform's forward step on its parent's integrand, and a node has a solution of its own exactly if it is labelled SOLUTION, the one the integral table gives (or ByParts, for its filler nodes).",
 "all integrands, both search orders, all names drawn for new variables, all histories of the search","an invariant of every history of a search with unbounded trees, in which nodes are relabelled and subtrees replaced",[I+"::Integration._cycle",I+"::Integration._integrate_safely",I+"::Integration._integrate_heuristically","src/simpy/transforms.py::Transform.forward"])
p("No made-up variable leaks into the answer","If integrate(e, x) returns F then F contains no symbols but x and those of e: every variable introduced by a substitution is substituted back. A definite integral contains only symbols of the bounds and, except for x, of the integrand.",
 "all integrands, both search orders, all time limits, all fresh names drawn for new variables, all histories of the search","an invariant of unbounded search trees with arbitrarily many nested substitutions",[I+"::integrate",I+"::Integration._go_backwards","src/simpy/transforms.py::generate_intermediate_var","src/simpy/transforms.py::USub.backward"])
p("Of several possible next steps one is enough","When the search has found several possible next steps for an integrand (substitutions, integration by parts, trig rewritings), the problem counts as solved as soon as one of them is solved and is given up only when all of them are; the parts of a sum, and a single step, must all be solved.",
 "all integrands, both search orders, all time limits, all nodes of the tree","an invariant of unbounded search trees whose nodes are relabelled as the search goes on",[I+"::Integration._integrate_heuristically",I+"::Integration._integrate_safely","src/simpy/transforms.py::Node.is_solved","src/simpy/transforms.py::Node.is_failed"])
p("Answers do not depend on what was asked or built before","nesting(e, x), e.symbols(), e.expandable(), e.expand(), e.numerator_denominator, deconstruct_power(e), remove_const_factor(e) and get_anys(e) give the same answer however often they, or other questions, have been asked of e or of its parts before, and whatever has been built with e in the meantime.",
 "all histories of constructions and questions on a shared store of expressions","the answers are cached in objects that are shared and changed in place, so a failure needs a particular history",[E+"::nesting",E+"::Expr.symbols",E+"::Expr.expandable",E+"::Associative._flatten",E+"::log.__init__"])
p("Using an expression as an operand does not change it","An expression that is used as a summand, factor or argument of another keeps its class, value and structure, and no expression ever becomes a part of itself.",
 "all histories of constructions and questions on a shared store of expressions","constructors change operands in place (flattening, re-initialisation), so a failure needs particular sharing",[E+"::Associative._flatten",E+"::Associative._flatten_terms",E+"::Sum.__new__",E+"::Prod.__new__",E+"::log.__new__",E+"::log.__init__"])
p("Polynomials are always integrated","integrate(p, x) of a polynomial p in x with rational coefficients (a sum of terms c * x ** k, as the operators build it) neither returns None nor raises, for every search order, time limit and choice of new names: it returns a polynomial whose derivative is p everywhere. integrate(p, (x, a, b)) with rational a and b returns the rational number that is the integral.",
 "all polynomials of any degree and number of terms, both search orders, all time limits, all names, all rational bounds","needs an answer for infinitely many inputs, not only that the answers given are right",[I+"::integrate",I+"::Integration.integrate",I+"::Integration._go_backwards","src/simpy/integral_table.py::check_integral_table",E+"::Sum.__new__",E+"::Prod.__new__","src/simpy/polynomial.py::polynomial_to_expr"])
p("The printed text says what the expression is","repr(e), read in ordinary notation (^ before * and / before + and -, ^ associating to the right, * and / to the left), says an expression with the value of e; so expressions that are printed alike have the same value.",
 "all expressions whose symbols have ordinary names, all assignments at which the expression is defined","the decisions where to put parentheses combine in expressions of any depth",[E+"::Sum.__repr__",E+"::Prod.__repr__",E+"::Power.__repr__",E+"::Rat.__repr__",E+"::log.__repr__",E+"::SingleFunc.__repr__",E+"::_repr",E+"::Abs.__repr__"])
p("The variable of integration may be left out exactly if there is one symbol","integrate(e) and integrate(e, (a, b)) are integrate(e, v) and integrate(e, (v, a, b)) if v is the only symbol of e, and raise ValueError if e has no symbol or several.",
 "all integrands, bounds, search orders, time limits","all integrands",[I+"::integrate",E+"::Expr.symbols"])
p("The LaTeX says what the expression is","e.latex(), read as LaTeX is read (braces group, \\frac is a quotient, ^ takes the next group, \\cdot and juxtaposition multiply, + and - come last), says an expression with the value of e; so expressions with the same LaTeX have the same value.",
 "all expressions whose symbols have ordinary names, all assignments at which the expression is defined","the decisions where to put brackets combine in expressions of any depth",[E+"::Sum.latex",E+"::Prod.latex",E+"::Power.latex",E+"::Rat.latex",E+"::log.latex",E+"::TrigFunction.latex",E+"::Abs.latex","src/simpy/latex.py::bracketfy","src/simpy/latex.py::group"])
p("No internal assertion fails","Arithmetic, simplify and integrate on expressions a user can build do not raise AssertionError; in particular the matcher of regex.py, asked whether a sum contains an instance of a pattern, answers or returns the leftover terms.",
 "all expressions, all patterns","needs a combination of terms that match a pattern in more than one way, or of roots whose product collapses",["src/simpy/regex.py::Eq",E+"::Associative",E+"::Prod.__new__",E+"::remove_const_factor","src/simpy/simplify/simplify.py::pythagorean_simplification"])
p("A u-substitution is tried only if the rest of the integrand is a function of u","When PolynomialUSub, GenericUSub, TrigUSub2 or LinearUSub applies to an integrand, the variable occurs in it, apart from the factor that goes into du, nowhere but inside the expression substituted; the u of LinearUSub is a linear function of the variable.",
 "all integrands","the tests count occurrences, which must not be fooled by nesting or by repeated parts",["src/simpy/transforms.py::PolynomialUSub.check","src/simpy/transforms.py::GenericUSub.check","src/simpy/transforms.py::TrigUSub2.check","src/simpy/transforms.py::LinearUSub.check","src/simpy/regex.py::count"])
p("Linear combinations of table functions are always integrated","integrate(e, x) of a sum of terms c * f, c rational and f one of x ** q with q rational (so also 1/x and sqrt(x)), e ** L, sin(L), cos(L) with L = a*x + b (a, b rational, different for different terms), and without sines and cosines or without negative powers, neither returns None nor raises, for every search order, time limit and choice of new names: it returns an expression whose derivative is e wherever e is regular.",
 "all numbers of terms, all rational coefficients and exponents, all variables with a non-empty name, both search orders, all time limits, all names","needs an answer for infinitely many inputs, not only that the answers given are right",[I+"::integrate",I+"::Integration.integrate",I+"::Integration._go_backwards","src/simpy/integral_table.py::check_integral_table","src/simpy/simplify/simplify.py::simplify",E+"::Sum.__new__",E+"::Prod.__new__"])
p("factor() takes out the greatest common power and a common divisor","Sum.factor() of a sum of monomials c * x ** q in one variable (c, q rational, c not 0, not all of them numbers) always returns the product of a monomial k * x ** e and the Sum of the monomials (c/k) * x ** (q-e). e is the least exponent if all are positive, the greatest if all are negative, and 0 otherwise. k divides all the coefficients, is one of them up to sign, and is negative exactly if they all are; or it is 1 and two of the coefficients do not divide each other.",
 "all numbers of terms, all rational coefficients and exponents, all orders of the terms","loops over the terms with a running minimum and early exit; exponents of both signs",[E+"::Sum.factor",E+"::_deconstruct_prod",E+"::Prod.__new__",E+"::Power.__new__"])
p("Numbers and expressions can be mixed","For a Python int, Fraction or float q and an expression e, q op e and e op q (op one of + - * / **) compute exactly what Const(q) op e and e op Const(q) compute (the same result or the same exception), and for rational q the result has the value of the operation wherever it is defined. Casting an argument turns every number at every depth of nested dicts, tuples and lists into an expression, changes nothing else, is idempotent, and raises NotImplementedError exactly if there is something foreign inside.",
 "all operators, all numbers and expressions on either side, all nested containers","ranges over all expressions and all nestings of containers",[E+"::_cast",E+"::cast",E+"::Expr.__radd__",E+"::Expr.__rsub__",E+"::Expr.__rpow__",E+"::Rat.__rtruediv__",E+"::Rat.__rpow__"])
p("diff() differentiates by the only symbol, or asks","diff(e, v) is e.diff(v); diff(e, None) is e.diff(v) if v is the only symbol of e, and raises ValueError if there is none or several.",
 "all expressions, all variables","ranges over all expressions",[E+"::diff"])
p("symbols() makes the symbols named","symbols(' '.join(names)) returns exactly the symbols with these names in this order (the symbol itself if there is one name); a string that begins or ends with a space, has two spaces in a row or is empty is refused with AssertionError, and no other string is refused.",
 "all strings, all lists of names","ranges over all strings",[E+"::symbols",E+"::Symbol.__post_init__"])
p("Rational numbers divide, compare and invert exactly","For rationals a and b: a // b is the floor of the exact quotient, a % b is a - b * (a // b) and lies between 0 and b, a < b and a <= b are the order of the numbers, reciprocal() is the exact inverse, is_int holds exactly of integers; division by zero raises ZeroDivisionError.",
 "all pairs of rationals, all signs","all pairs of rationals of any size and sign",[E+"::Rat.__floordiv__",E+"::Rat.__mod__",E+"::Rat.reciprocal",E+"::Rat.is_int",E+"::Num.__lt__",E+"::Num.__le__"])
p("expand() multiplies polynomials out completely","For a polynomial e in any number of symbols (numbers, symbols, sums, products, natural powers), multiplying out (e.expand() if e.expandable(), else e) returns, and the result is a number, a product of powers of different symbols with or without a number in front, or a sum of such terms, none 0 and no two alike; it has the same value everywhere and is not expandable.",
 "all polynomial expressions of any depth, degree and number of symbols, all stack depths large enough for the expression","sums, products and powers nest to any depth, and each level relies on the form that the level below returns",[E+"::Expr.expandable",E+"::Expr.expand",E+"::Sum._expand",E+"::Prod._expand",E+"::Power._expand",E+"::Power._power_expandable",E+"::Sum.__new__",E+"::Prod.__new__",E+"::Power.__new__"])
p("The expanded form is canonical","Two polynomials have the same values everywhere exactly if multiplying them out returns the identical expression, with the same terms in the same order, however they were written; a polynomial is 0 everywhere exactly if multiplying it out returns 0.",
 "all pairs of polynomial expressions, all assignments","ranges over all pairs of expressions with equal values",[E+"::Expr.expand",E+"::Prod._expand",E+"::Power._expand",E+"::Sum.__new__",E+"::Prod.__new__",E+"::Associative._sort_terms",E+"::Sum._sort_terms"])
p("simplify() returns on polynomials, is idempotent there and recognises zero","simplify(p) of a polynomial p in any number of symbols returns p itself or, if it has fewer occurrences of symbols, p multiplied out; simplify(simplify(p)) is simplify(p); and simplify(p) is 0 exactly if p is 0 everywhere, so that (p - q).simplify() == 0 decides whether polynomials p and q are equal.",
 "all polynomial expressions of any depth, degree and number of symbols, all assignments","ranges over all polynomial identities",["src/simpy/simplify/simplify.py::simplify","src/simpy/simplify/simplify.py::is_simpler",E+"::Expr.expand","src/simpy/utils.py::count_symbols"])
p("Polynomials in several symbols are always integrated","integrate(p, x) of a polynomial p in any number of symbols that is multiplied out neither returns None nor raises, for every search order, time limit and choice of new names: it returns a multiplied-out polynomial whose derivative with respect to x is p everywhere. So integrate(p.expand(), x) works for every polynomial p, and integrate(p, (x, a, b)) with bounds a, b that are numbers, symbols or products of such is the integral from a to b.",
 "all polynomials of any degree and any number of symbols, all variables, all bounds, both search orders, all time limits, all names","needs an answer for infinitely many inputs, not only that the answers given are right",[I+"::integrate",I+"::Integration.integrate",I+"::Integration.integrate_bounds",I+"::Integration._integrate_safely",I+"::Integration._go_backwards","src/simpy/transforms.py::PullConstant","src/simpy/transforms.py::Additivity","src/simpy/integral_table.py::check_integral_table",E+"::Expr.subs",E+"::Sum.__new__",E+"::Prod.__new__"])
p("Polynomials need not be multiplied out to be integrated","integrate(p, x) of a polynomial p in any number of symbols, however it is written (numbers, symbols, sums, products, natural powers), neither returns None nor raises: it returns an expression whose derivative with respect to x is p everywhere.",
 "all polynomial expressions of any depth and degree, all variables, both search orders, all time limits, all names","needs an answer for infinitely many inputs; the way from a power of a sum to its terms goes through several transforms whose order matters",[I+"::integrate",I+"::Integration._integrate_safely",I+"::Integration._go_backwards","src/simpy/transforms.py::Expand","src/simpy/transforms.py::PullConstant","src/simpy/transforms.py::Additivity","src/simpy/transforms.py::PolynomialDivision","src/simpy/transforms.py::PartialFractions",E+"::Power._expand",E+"::Prod._expand"])
p("Differentiation keeps polynomials multiplied out","p.diff(x) of a polynomial p in any number of symbols that is multiplied out returns, multiplied out, the polynomial that is the partial derivative of p everywhere. It is literally 0 exactly if x does not occur in p; p.diff(x).diff(y) and p.diff(y).diff(x) are the same expression; and integrate(p, x).diff(x) is literally p.",
 "all polynomials of any degree and any number of symbols, all variables","ranges over all polynomials; equality of the expressions, not only of the values, is used to compare results",[E+"::Sum.diff",E+"::Prod.diff",E+"::Power.diff",E+"::Symbol.diff",E+"::Sum.__new__",E+"::Prod.__new__",E+"::Power.__new__",I+"::integrate"])
p("Sums and differences of multiplied-out polynomials obey the laws of arithmetic literally","For polynomials a, b, c in any number of symbols that are multiplied out, a + b, a - b and -a return, multiplied out, the polynomial with the value of the sum, the difference and the negative. As expressions (the same terms in the same order) a + b is b + a, (a + b) + c is a + (b + c), (a + b) - b is a, a - a is 0, -(-a) is a and a + (-b) is a - b.",
 "all triples of polynomials of any degree and any number of symbols","ranges over all polynomials; like terms must be found and the order of the terms restored whatever order they come in",[E+"::Expr.__add__",E+"::Expr.__sub__",E+"::Sum.__neg__",E+"::Expr.__neg__",E+"::Sum.__new__",E+"::Sum._sort_terms",E+"::Prod.__new__"])
p("Numbers and monomials can be put into polynomials","p.subs({x: m}) of a polynomial p in any number of symbols that is multiplied out, and m a number, a symbol or a product of a number and powers of symbols (possibly of x itself), returns, multiplied out, the polynomial with the value of p at x = m. Renaming a symbol to one that does not occur in p and back gives p, literally.",
 "all polynomials, all symbols, all monomials","ranges over all polynomials and monomials; terms can become alike or vanish",[E+"::Expr.subs",E+"::Sum.subs",E+"::Prod.subs",E+"::Power.subs",E+"::Sum.__new__",E+"::Prod.__new__",E+"::Power.__new__"])
p("Products and powers of multiplied-out polynomials obey the laws of arithmetic literally","For polynomials a, b, c in any number of symbols that are multiplied out and natural j, k, multiplying out a * b and a ** k returns the polynomial with the value of the product and the power. As expressions (the same terms in the same order, all products multiplied out) a*b is b*a, (a*b)*c is a*(b*c), a*(b + c) is a*b + a*c, a*1 is a, a*(-1) is -a, a**(j+k) is a**j * a**k, (a**j)**k is a**(j*k), (a*b)**k is a**k * b**k, and (a*b).diff(x) is a.diff(x)*b + a*b.diff(x). a*b is 0 exactly if a or b is 0, and a factor other than 0 can be cancelled.",
 "all triples of polynomials of any degree and any number of symbols, all natural exponents, all variables","ranges over all polynomials; equal factors become squares, numbers and signs are treated specially, and the result must not depend on any of it",[E+"::Expr.__mul__",E+"::Expr.__pow__",E+"::Prod.__new__",E+"::Prod._combine_like_terms",E+"::Power.__new__",E+"::Prod._expand",E+"::Power._expand",E+"::Sum.__new__",E+"::Prod.diff"])
p("The laws of the integral calculus hold literally for multiplied-out polynomials","For polynomials in any number of symbols that are multiplied out and bounds that are numbers, symbols or products of a number and powers of symbols: integrate(e, x) and integrate(e, (x, a, b)) have exactly one answer, whatever the strategy, time limit and random names, and it is multiplied out. As expressions, integrate(e, x) is integrate(e, (x, 0, x)); its derivative is e; integrating e.diff(x) gives e minus e at x = 0; integrals of sums are sums of integrals, factors free of the variable come out, integrals over adjacent intervals add up, exchanging the bounds changes the sign, equal bounds give 0, the order of two integrations does not matter (definite with bounds free of the other variable, and indefinite), integration by parts holds, and the derivative by a symbolic upper bound is the integrand there. With numbers as bounds and no other symbol the answer is the exact rational number.",
 "all polynomials of any degree and any number of symbols, all such bounds, all variables, strategies, time limits and random names","ranges over all polynomials and all pairs of runs; each law compares the literal results of several searches",["src/simpy/integration.py::integrate","src/simpy/integration.py::Integration.integrate_bounds",E+"::diff",E+"::Expr.subs",E+"::Sum.__new__",E+"::Prod._expand"])
p("The laws of exponents hold literally for products of powers of symbols","Whatever is made of numbers other than 0 and symbols by *, /, negation, x**q for a symbol x and any rational q, and whole powers is a number, a power of a symbol, or a product of powers of different symbols with or without a number in front. Two such expressions are literally the same if and only if they have the same values for all positive values of the symbols. The operations always return and have the right values, and as expressions: a*b is b*a, (a*b)*c is a*(b*c), a/b is a*b**(-1), (a*b)/b and (a/b)*b are a, a/(b/c) is (a*c)/b, (a/b)/c is a/(b*c), a*b is a*c only if b is c, a**j*a**k is a**(j+k), (a**j)**k is a**(j*k), (a*b)**k is a**k*b**k, (a/b)**k is a**k/b**k, a/a is 1, a*1, a/1 and a**1 are a, a**0 is 1.",
 "all expressions made of nonzero numbers and symbols by these operations, all whole powers, all rational exponents of symbols, any number of symbols and operations","ranges over all such expressions and all histories by which they were made; the same value reached in two ways must give the same object",[E+"::Prod.__new__",E+"::Power.__new__",E+"::_combine_like_terms",E+"::Expr.__mul__",E+"::Expr.__truediv__",E+"::Expr.__pow__",E+"::Expr.__neg__"])
p("factor() of a multiplied-out polynomial can be undone by expand()","For every sum that is a multiplied-out polynomial in any number of symbols, factor() returns the product of a single term and of a multiplied-out polynomial with as many terms: the term has every symbol with its least exponent, and a number that divides all the coefficients, is one of them up to its sign and is negative exactly if they all are (or 1 if there are two coefficients neither of which divides the other). The values are the same everywhere, and expanding the result gives back literally the polynomial that was factored, so different polynomials have different factored forms. No symbol is in all the terms of what is left. If of any two coefficients one divides the other, factoring what is left returns it unchanged.",
 "all multiplied-out polynomials with at least two terms, of any degree, with any rational coefficients and any number of symbols","ranges over all polynomials; the round trip compares the literal result of two different algorithms",[E+"::Sum.factor",E+"::Prod.__new__",E+"::Prod._expand",E+"::Sum.__new__"])
p("The search does not undo a step straight away","In the tree of every search: multiplying out never follows completing the square, substituting a function of the variable never follows substituting a function of a new variable for it, nor the other way round, if there are only steps in between that pull out constants and split sums; and trigonometric functions are not rewritten twice with only such steps and multiplying out in between.",
 "all integrands, all times for the search, depth first and breadth first, all nodes of the tree and all their ancestors","ranges over all search trees; the heuristics look at the whole path to the root, and nodes are added by many functions, some below nodes added a moment ago",["src/simpy/transforms.py::_get_last_heuristic_transform","src/simpy/transforms.py::Expand.check","src/simpy/transforms.py::TrigUSub2.check","src/simpy/transforms.py::InverseTrigUSub.check","src/simpy/transforms.py::RewriteTrig.check",I+"::Integration._cycle"])
p("Infinities","Arithmetic and comparison of rational numbers and infinities is that of the extended real numbers: sums, products, differences, quotients, absolute values and comparisons have the extended real value where there is one and are nan where there is none (inf - inf, 0 * inf); powers with an infinite base or exponent are the limits of the powers of real numbers; a power of an unknown to an infinite exponent stays a power.",
 "all rational numbers in the range of floats, both infinities, all exponents and (positive) bases, pi and e as bases","ranges over all rational numbers; the tests compare a few",[E+"::Num.__lt__",E+"::Num.__ge__",E+"::Infinity",E+"::NegInfinity",E+"::Accumulateable.accumulate",E+"::Power.__new__"])
p("Improper integrals of exponential functions","integrate(c*e**(a*x+b), (x, A, inf)) for a < 0 and integrate(c*e**(a*x+b), (x, -inf, B)) for a > 0 return an exact expression whose value is the improper integral.",
 "all rational c != 0, a, b (in the range of floats) and bounds A, B, all ways of writing a*x + b, both search strategies, all times for the search and all random names","ranges over all coefficients and bounds; the tests have none with infinite bounds",[I+"::integrate",I+"::Integration.integrate_bounds",E+"::Power.subs",E+"::Power.__new__",E+"::Infinity"])
p("debug_repr shows the structure","debug_repr(a) == debug_repr(b) just when a == b, so that comparing the texts is comparing the structures; pedantic=\"always\" shows the class of every number and symbol.",
 "all pairs of expressions, of any depth and width","ranges over all pairs of expressions; the tests compare a few literals",["src/simpy/debug/utils.py::debug_repr",E+"::Expr.__eq__",E+"::Rat.__repr__"])
p("Elementary terms: derivatives of any order and integrals are the textbook ones","The k-th derivative of c*e**(a*x+b) is c*a**k*e**(a*x+b), those of c*sin(a*x+b) and c*cos(a*x+b) go round with period four, that of c*x**q is c*q*(q-1)*...*(q-k+1)*x**(q-k) and vanishes after m+1 steps for a natural q = m. integrate returns c/a*e**(a*x+b), -c/a*cos(a*x+b), c/a*sin(a*x+b) and c/(q+1)*x**(q+1) (q not -1). These are the expressions returned, not only their values, so diff(integrate(t)) == t and integrate(diff(t)) == t.",
 "all orders k, all rational c, a, b and q, all variables, both search orders, any names for the new variables","ranges over all orders, coefficients and exponents; tests check a few of the first derivatives",[E+"::Power.diff",E+"::Prod.diff",E+"::sin.diff",E+"::cos.diff",I+"::integrate",E+"::Prod.__new__"])
p("Roots of linear functions: integrals and derivatives of any order are the textbook ones","For a fractional exponent q (as in sqrt(a*x+b) or 1/(a*x+b)**(3/2)) integrate(c*(a*x+b)**q) returns c/(a*(q+1))*(a*x+b)**(q+1), and the k-th derivative of c*(a*x+b)**q is c*a**k*q*(q-1)*...*(q-k+1)*(a*x+b)**(q-k). These are the expressions returned; diff undoes integrate and integrate undoes diff, and wherever a*x+b > 0 the integral has the integrand as its derivative in the sense of analysis.",
 "all orders k, all rational c, a, b not 0, all rational q that are not integers, all variables, both search orders, any names for the new variables","ranges over all coefficients, exponents and orders; tests check sqrt(x+1)-like samples",[E+"::Power.__new__",E+"::Power.diff",E+"::Prod.__new__",I+"::integrate","src/simpy/transforms.py::LinearUSub","src/simpy/transforms.py::PullConstant"])
p("The printed search tree shows every node once, and the printed solution is a complete solution","print_tree(root) prints one row for each node of the search tree, parent before child and left to right, with its distance from the root, nesting, integrand, the transform that led to it, whether it is solved, failed or no longer needed, and the type of a leaf. For a solved tree print_solution_tree and print_success_tree print exactly the nodes that are solved together with all their ancestors (the former with their solutions); these contain all children of AND nodes, some child of each OR node, and end in SOLUTION leaves. Different made-up variables (u_...) are shown under different names. Text that fits into its column is shown in full.",
 "all search trees with any nodes, variables and expressions for which printing does not raise","ranges over all trees; no test looks at the printed tree",["src/simpy/debug/tree.py::print_tree","src/simpy/debug/tree.py::print_success_tree","src/simpy/debug/tree.py::print_solution_tree",I+"::integrate"])
p("The log of integrals keeps each integral, and the dump lists them by time","After any sequence of integrals logged by a Logger, and sorts and dumps in between, data has one entry for each text of a logged integrand, and it is the last one logged for that text; integrals with different integrands keep different entries. Sorting keeps the entries, orders them from most to least time, and does not change the order of entries with the same time. The dumped file has a line for each entry in that order, then the solution and the whole search tree of an integral on which the most time was spent. Dumping an empty log raises IndexError.",
 "all histories of logging, sorting and dumping, all integrands, times and search trees","ranges over histories; no test uses the logger",["src/simpy/debug/logger.py::Logger","src/simpy/debug/logger.py::Datum",I+"::Integration"])
p("The parked transforms CompoundAngle and SinUSub are right","If CompoundAngle or SinUSub (debug/_dead_transforms.py) turns an integral into another and that one is solved, the solution that its backward computes is an antiderivative of the first integrand. CompoundAngle leaves the value of the integrand unchanged. SinUSub applies to products with the sine and the cosine of the same multiple of the variable, and leaves an integrand free of the variable.",
 "all integrands and points where they are regular, all solutions of the new integral","ranges over all integrands and points; the transforms have no tests",["src/simpy/debug/_dead_transforms.py::CompoundAngle","src/simpy/debug/_dead_transforms.py::SinUSub"])
p("Definite integrals of exponential functions, sines, cosines and powers are exact","integrate(c*e**(a*x+b), (x, A, B)), integrate(c*sin(a*x+b), (x, A, B)) and integrate(c*cos(a*x+b), (x, A, B)) return an exact expression whose value is the integral from A to B, and integrate(c*x**m, (x, A, B)) for a whole m other than -1 (and bounds other than 0 if m is negative) returns the rational number c/(m+1)*(B**(m+1) - A**(m+1)), which is the integral if the interval does not contain a pole; for m = -1 it returns an expression whose value is c*(log|B| - log|A|), with the same proviso.",
 "all rational a, b, c, A, B (in either order), all whole exponents m but -1, all variables, both search orders, any names for the new variables","ranges over all rational coefficients and bounds",[E+"::Expr.subs",I+"::integrate",I+"::Integration.integrate_bounds"])
p("Definite integrals of one integrand fit together","For one integrand and variable, the integral over an interval of length 0 is 0, exchanging the bounds changes the sign, and the integrals from a to b and from b to c add up to the integral from a to c, also across poles and wherever b is; the derivative of the integral from a to a symbol t is the integrand at t, and that of the integral from t to a minus the integrand, wherever the antiderivative is right; for a polynomial the answer is the integral and its derivative by the upper bound is the polynomial, everywhere, and the integral of a sum is the sum of the integrals and a smaller integrand has no greater integral; whether integrate gives up does not depend on the bounds.",
 "all integrands, all bounds (expressions, in any order) and all values of the symbols, for which the antiderivative found and the bounds are built from numbers, symbols, +, *, integer powers and absolute values and are defined; both search orders, any names for the new variables","ranges over all integrands, all bounds and all values of the symbols",[I+"::Integration.integrate_bounds",I+"::integrate"])
with open('/verif/properties.jsonl','w') as f:
    for q in P: f.write(json.dumps(q)+"\n")
print(len(P))
for q in P: print(q['id'],q['title'])
