# Formal model of laurgao/simpy in Lean 4

## 1. Approach

`/repo/src/simpy` is read as text and transcribed function by function into Lean definitions under
`lean/Verif/Model/`. Theorems about those definitions are in `lean/Verif/Props/` (one file per group
of properties); helper lemmas are in `lean/Verif/Proofs/`; the independent specification (what an
expression *means*, where it is defined) is in `lean/Verif/Spec/`.

* **Expressions** are an inductive type `Expr` with one constructor per Python class that a user can
  build (rationals, floats, pi, e, +-infinity, symbols, Sum, Prod, Power, log, the nine trig functions,
  Abs, Any_).  Python objects are immutable by the project's "rule 1", so values are enough.
* **Exceptions are values.** Every function returns `R a := Except Err a`.
* **The recursion limit is fuel.** The simplifying constructors call each other (Prod -> Power -> Prod,
  sorting -> repr -> Prod, ...). `Ctors` is the record of these entry points; every modelled function takes
  such a record `C` (the calls it makes, one stack level down); `step C` is the record of the functions
  themselves and `ctors (n+1) = step (ctors n)`, `ctors 0` = RecursionError. Theorems are proved for all `n`.
* **Floating point is an oracle.** Everything CPython does in IEEE arithmetic (float + - * **, math.*,
  repr of floats, the `int ** Fraction` root test, comparing a Fraction with math.pi) is a field of a
  structure `Oracle`, and the theorems quantify over *all* oracles; those about values assume `Oracle.Exact`
  ("the integrality test of `_accumulate_power` never reports a root that is not exact; no rational compares
  equal to pi"). The assumption is necessary (CPython violates it on large inputs: see findings) and satisfiable
  (an exact oracle is defined and is used to run the model in the kernel).
* **Meaning.** `den rho e : Real` and definedness predicates (`Dom` and friends) in `Spec/`.
* **Partial correctness.** "If the call returns an expression then ...". Exceptions are possible results.

## 2. Trusted base

* Lean 4.33.0's kernel, and Mathlib as installed. Every theorem named in MANIFEST.json depends on at most
  `propext`, `Classical.choice` and `Quot.sound` (`#print axioms`; some depend on fewer). No axiom is declared, nothing is
  proved by compiled evaluation; concrete runs of the model in examples and witnesses are `decide +kernel`.
* The transcription from Python to Lean, by reading; each definition cites the lines it models and says what it simplifies. It is
  tested against the project's own test suite: `lean/Verif/Conform/*` is a translation of /repo/tests (written by
  tools/gen_conform.py from the tests' syntax trees, and by hand for test_regex and test_transforms), about 275 assertions, among them all
  indefinite and definite integrals of test_integrals.py and test_khan_academy.py, and the kernel evaluates the model on each of
  them. All pass, and the test that the project marks as an expected failure fails. Left out are assertions about floats and
  numerical comparisons, and the tests of `_strictly_positive` (see below). These are tests of the model, not proofs of properties.
* The specification files `lean/Verif/Spec/*` (what expressions mean, where they are defined, what a search tree state is...).
* The real functions of Mathlib stand for the mathematical functions (`Real.log`, `Real.arcsin`, ...); `x ** y` is `pw x y`
  (Spec/Eval): integer exponents are repeated multiplication/division, odd denominators take real roots of negatives,
  otherwise `Real.rpow`.

### What is modelled

| /repo/src/simpy | model |
|---|---|
| expr.py: classes Rat, Float, pi, e, infinity, Symbol, Sum, Prod, Power, log, trig, inverse trig, Abs: constructors, operators, `_flatten`, `_combine_like_terms`, `_accumulate_power`, sorting, `__eq__`, `repr` | Model/Expr, Sort, Ctors, Trig, Regex |
| expr.py: `subs`, `diff`, `expand`, `evalf`, `latex`, `contains`, `symbols`, `numerator_denominator`, `factor`, nesting | Model/Calculus, Poly, Evalf, Latex, Nesting |
| combinatorics.py, linalg.py, polynomial.py, latex.py, utils.py (`eq_with_var`, counting) | Model/Comb, Poly, Latex, Regex |
| regex.py: `Eq`, `divide_anys`, `replace`, `replace_class`, `replace_factory`, `count`, `general_count`, `contains_cls`, `any_find` | Model/Match, Regex, Simplify |
| simplify/: `simplify`, `expand_logs`, `pythagorean_simplification`, `reciprocate_trigs`, `combine_trigs`, `trig_simplify`, `rewrite_as_one_fraction`, product_to_sum.py | Model/Simplify |
| integral_table.py | Model/Table |
| transforms.py: every transform the engine uses: `check`, `forward`, `backward`; `Node` with its properties, `add_child(ren)` | Model/Tree, Transforms, Poly, Backward, Engine |
| integration.py: `integrate`, `integrate_bounds`, `Integration.integrate/_integrate/_cycle/_integrate_safely/_integrate_heuristically/_next_node/_go_backwards` | Model/Engine, Backward, Definite |
| debug/utils.py: `debug_repr` | Model/Debug |
| debug/tree.py: `print_tree`, `print_success_tree`, `print_solution_tree` | Model/PrintTree (`_variable_change`, which no transform has, is left out) |
| debug/logger.py: `Logger.log`, `sort`, `dump` | Model/Logger (`plot` and `log_time` are left out) |
| debug/_dead_transforms.py: `CompoundAngle`, `SinUSub` | Model/Parked |
| expr.py: comparisons of numbers (`Num.__lt__` ...) | Model/Compare |
| expr.py as objects: all the caches of objects (and regex.py's `_any_cache`), `_flatten`, `log.__new__/__init__` | Model/Heap |

### What is not modelled

* Drawing the log (`plot`), `simpy/__init__.py`, the interactive `input` mode.
* The attribute `_strictly_positive` of an expression is False unless a user sets it by hand; that is not modelled.
* Hash values and `dataclass` plumbing; dictionaries keyed by strings are association lists. `@cast` (accepting ints, floats
  and fractions where an Expr is expected) is modelled for the operators (Model/Operand, C74); elsewhere it is the injection of numbers.
* Wall-clock time: the timeout is a number of cycles. Random symbol names (`random_id`) are a name supply `ν`, on which the
  theorems quantify (the ones that need it assume that the supply does not repeat names, which CPython only makes likely).
* In the model of the functions expressions are values, not objects ("rule 1" of the code base: expressions are immutable). Where that
  is not so in the program, namely caches, in-place flattening and re-initialised logarithms, Model/Heap models it separately: its
  histories are sequences of such events, not runs of the functions, and C64, C65 say when expressions are as good as values. ByParts' mutation of another node's `solution` *is* modelled (`rescale`).
* Floating-point arithmetic is abstract (section 1); only C51 says something about its accuracy.
* Python's recursion limit is the fuel; Python's memory limits are not modelled.

## 3. Plan per property

(see section 6 for what was finally proved; ids refer to properties.jsonl)

| id | model | proof |
|---|---|---|
| C01-C04 | Sum/Prod/Power constructors, operators, with fuel | one mutual soundness induction on fuel, list inductions for the loops |
| C05-C06 | Rat operators, `_accumulate_power` | case analysis; root oracle |
| C07-C10, C56 | constructors | structural invariants of the loops; sortedness uniqueness |
| C11 | CPython count_run + binarysort; the order itself is specified apart (Spec/Level): depth of the deepest symbol, exponent, depth of constants | loop invariants; the order of terms in every built expression by induction over construction |
| C12-C13 | subs, symbols | mutual induction on expressions |
| C14-C15 | diff with fuel | induction, HasDerivAt |
| C16-C18 | expand, combinatorics | list inductions, multinomial theorem |
| C19-C23 | contains, ==, count, replace, eq_with_var | mutual structural inductions |
| C24-C27 | polynomial.py, PolynomialDivision | loop invariants |
| C28-C29 | linalg.invert, PartialFractions | field identities |
| C30 | integral_table.py | HasDerivAt per entry |
| C31-C35 | Node tree, engine | tree inductions |
| C36-C37 | transforms, integrate_bounds | calculus per transform |
| C38-C42 | trig/log/abs constructors | real analysis per branch |
| C43-C49 | simplify package, factor, numerator_denominator | list inductions + trig identities |
| C50 | fuel | monotonicity of every function in the record |
| C51-C55 | evalf, nesting, simplify, latex, repr | structural inductions |
| C57 | the whole of `simplify` | stage by stage |
| C58-C59 | the search loop of integration.py on trees, time = number of cycles | invariants of the visited states |
| C60 | `integrate` end to end | certificate on the search tree, from C61, the transforms (C36) and going backwards (C35); two integrations by parts in a row that come back to the integrand have a certificate of their own (`TwiceOk`) |
| C61 | provenance of the nodes of the search tree | invariant kept by every transform and every cycle |
| C63 | types of the nodes of the search tree | invariant kept by every cycle |
| C64-C65 | a store of shared objects with all their caches (numbers, names and objects), in-place `_flatten` and re-initialised logarithms | invariants of all histories |
| C66 | nothing new: the whole engine, run on flat polynomials (`Spec/Polynomial.lean`) | total correctness: each step returns (sorting, `repr`, merging of terms), explicit tree, induction over the terms for the way back; fundamental theorem of calculus |
| C67 | an independent reader of ordinary notation (`Spec/Read.lean`), with the values of what it reads | recursive descent parser proved right on the printed text, by induction on the depth; the predicate `clear` says where parentheses are missing; polynomials are always clear |
| C68 | nothing new | case analysis on the set of symbols |
| C69 | an independent reader of LaTeX (`Spec/ReadLatex.lean`); the LaTeX printers themselves are `Model/Latex.lean` | recursive descent parser proved right on the printed LaTeX, by induction on the depth of the expression; the condition under which the brackets are right is a decidable one on the expression, proved to hold of every polynomial in one symbol and of every multiplied-out polynomial in several |
| C70 | `Eq` with `up_to_sum` (`Model/Match.lean`), the assertions of the constructors (`Model/Ctors.lean`) | the matches of the parts are merged without a conflict if the pattern fits in at most one way (`Spec/Ambiguity.lean`), by induction over the matches; two kernel-checked runs that end with an AssertionError |
| C71 | `count`, the `check` methods of the u-substitutions (`Model/Regex.lean`, `Model/Transforms.lean`) | `Inside` (`Spec/Inside.lean`): every path from the integrand to the variable goes through `u`; counting argument by induction on the expression; for LinearUSub an invariant of the recursive check with its state |
| C72 | `integrate`, `simplify`, the table, the constructors (`Model/Engine.lean`, `Model/Simplify.lean`, `Model/Table.lean`) on linear combinations of table functions (`Spec/Combination.lean`) | total correctness as for C66 (`Proofs/LinArg.lean`, `LinTerms.lean`, `LinSimp.lean`, `LinSub.lean`, `LinRun.lean`); a linear argument is substituted (`linear_u_sub`), the new integrand is never refused as that of an ancestor, and the substitution is undone on the way back; two classes of pieces closed under integration (no sines and cosines; no negative powers and logarithms) on which every rule of `simplify` declines; the derivative from the soundness of the table and of the backward steps |
| C73 | `Sum.factor` (`factorSum` in `Model/Poly.lean`), the constructors | specification `Spec/Factor.lean`; products, inverses and quotients of monomials computed in closed form (`Proofs/MonoArith.lean`), loop invariants for the running minimum of the exponents and the running divisor of the coefficients, totality of sorting and printing for the last product (`Proofs/FactorMono.lean`) |
| C74 | `_cast`, the reflected operators of `Expr` and `Rat`, Python's dispatch (`Model/Operand.lean`) | specification by paths into nested containers (`Spec/Operand.lean`), mutual induction on Python values; reflected methods equal forward methods by cases, then the value theorems of the operators (`Props/Operand.lean`) |
| C75 | `diff` (`diffTop`) | from C68's lemmas on the default variable (`Props/TopLevel.lean`); violation witnessed |
| C76 | `str.split(" ")`, `Symbol.__post_init__`, `symbols` | induction on the string: splitting and joining are inverse (`Props/TopLevel.lean`) |
| C77 | `Fraction.__floordiv__`, `__mod__`, `_richcmp` as CPython computes them, `Rat`'s methods | arithmetic of `Int.fdiv` and the floor (`Props/TopLevel.lean`) |
| C78 | `expandable`, `expand`, the constructors on polynomials in several symbols | every polynomial expression is mapped to an `MvPolynomial` over ℚ; monomials and sums of monomials sorted by the key of `_sort` are a normal form that products, powers (multinomial theorem) and sums of normal forms return to; induction over the expression (`Proofs/NF*.lean`, `Props/Normal.lean`) |
| C79 | the same | the normal form is a function of the polynomial, and polynomials over ℚ with the same values are equal |
| C80 | `simplify`, `is_simpler`, `count_symbols` on polynomials | polynomials contain no trig function or log, so `simplify` compares the expression with its normal form (C78); the zero polynomial has the normal form `0` |
| C81 | the whole run of `integrate` on polynomials in several symbols that are multiplied out, and `subs` for the bounds | Additivity, then PullConstant once per factor without the variable, then the table; the trees are followed by induction (`Ready`, `Solved`), the way back gives the normal form (C78) of the antiderivative; values by `MvPolynomial` |
| C82 | the same with Expand in between | the safe transforms before Expand do not apply (no constant factor, denominator 1), Expand gives the normal form of the term, and its terms are integrated as in C81; no child is refused because ancestors are expandable and normal forms are not |
| C83 | `diff` on polynomials in several symbols that are multiplied out (`Spec/Closed`), and `integrate` before it | the derivative of a factor is a monomial, `Prod` of it and the other factors is one too, and `Sum` gives the normal form of the partial derivative of the `MvPolynomial`; the laws are those of `pderiv` |
| C84 | `+`, `-` and unary minus on such polynomials | the constructors return the normal form of the sum of the polynomials (the lemmas of C78); normal forms with equal values are identical |
| C85 | `subs` on such polynomials, with a monomial | a monomial for a symbol in a monomial gives a monomial, `Sum` the normal form; compared by values |
| C86 | `*`, `**`, `expand` and `diff` on polynomials that are multiplied out | the product of two normal forms is a polynomial expression of C78 (different sums stay factors in their order, since their texts tell them apart; equal ones become a square, -1 is distributed); expanding gives the normal form of the product, and the laws are those of the polynomial ring |
| C87 | `integrate` with and without bounds, `diff`, `subs` and the operators on polynomials that are multiplied out | the answers are multiplied out (C81, C83 - C86) and have the value of the interval integral, so each law follows from Mathlib's for interval integrals (additivity, Fubini, integration by parts, the fundamental theorem) and from the uniqueness of the multiplied-out form (C84) |
| C88 | `Prod`, `Power` and the operators `*`, `/`, `-`, `**` on products of powers | every such expression is shown to be the printed form of a rational number and a finitely supported map from names to rational exponents, and each operation to act on these as it should; different pairs have different values because the logarithm of the value is a linear form in the logarithms of the symbols |
| C89 | `Sum.factor`, `expand`, `*` and `/` on polynomials that are multiplied out | the loop over the factors is shown to compute the infimum of the exponents (`Df`, `Lists`), the division of each term is C88's, the sum of the quotients is C84's, and expanding the product is C86's |
| C90 | the whole search (`search`), with the path to each node | a law about the labels (integrand, variable, step) of a node and of the nodes above it is an invariant of every function that changes the tree (`Law`, `search_law`); it is checked where nodes are added (`Fit`) |
| C91 | `+ - * / ** abs`, `< <= > >= ==` of numbers | case distinction over the classes of the operands; the values are compared in `EReal`, the powers with the limits of `Real.rpow` from Mathlib |
| C92 | `integrateTop` with bounds: the search, `subs` with an infinite bound, `-`, `simplify` | the run of the search is computed for all coefficients (as in C72), the values at the bounds with C91; the improper integrals are from Mathlib |
| C93 | `debug_repr` on top of `repr`, and `==` | the text is shown to be uniquely readable: the word up to the first bracket or comma determines the class, and the arguments are cut off one after the other by induction |
| C94 | `diff` repeated, and the whole run of `integrate` with its first and last `simplify` | induction on the order; the single derivative and the run of the search are computed for a number times a function of the table |
| C95 | the whole run of `integrate` on a root: first simplify, pulling out the constant, linear substitution, table, way back, last simplify; `diff` repeated | the run of the search is computed step by step; induction on the order; the analytic statement by the chain rule for real powers |
| C96 | print_tree with its flags, the dictionary of shown names, the columns and their widths; printed lines are returned instead of printed | induction over the tree, carrying the dictionary of names along with its invariant; the filter of the flags is compared with the nodes of the specification |
| C97 | Logger.log, sort and dump with the text of the file; times are rational numbers and their text is a parameter | the association list after a history is compared with the last logging of each text, by induction over the history; stability and order of the sort; C67 for the texts of polynomials |
| C98 | check and forward of both transforms and the solution computed by backward; they are not in the lists of the engine | the rule preserves the value of a node, hence replace does; u-substitution as for PolynomialUSub |
| C99 | the whole of integrate with bounds: the search, subs of the bounds, the subtraction and simplify of the difference | the answer of the search is known literally (C94); the values at the bounds are rational multiples of powers of e or of sines, cosines and logarithms of rational numbers, whose differences are computed; no rule of simplify applies to them |
| C100 | the whole of integrate with bounds: the search, subs of the bounds, the subtraction and simplify of the difference | the three calls find the same antiderivative, and each answer is the difference of its values at the bounds (C37) |
| C62 | symbols of the answer | closure of every function under the set of allowed symbols; scopes along the paths of the search tree |

## 4. Where the code violates the intended property

Each is a kernel-checked witness theorem (`*_fails`), next to the `_partial` theorem for the part that does hold, or was
found while reading (then marked "read").

**Values of constructors and operators.**
`(x**2)**(3/2)` becomes `x**3`, `(x**2)**(1/4)` becomes `x**(1/2)`, `(x*y)**(1/2)` becomes `x**(1/2)*y**(1/2)`
(power_value_textbook_fails); `(-8)**(2/3)` becomes `-4` (rational_root_even_fails); with CPython's float root test
`sqrt(10**16+1)` becomes `10**8` and `Rat(884279719003555, 281474976710656) == pi` (assumption Oracle.Exact; eq_fails);
products with logs of products of negatives (prod_value_textbook_fails); `asin(sin(z))` becomes `z`, `atan(cot(u))` becomes
`1/u` (asin_sin_fails); `asin(0)`, `acos(0)`, `atan(0)` raise (inverse_trig_zero_raises); `sin(acos(sqrt(1-x*y)))` becomes
`sqrt(x)*sqrt(y)` (trig_value_fails).

**Canonical forms.** `3*(x+2)-2*(x+2)+y` is a sum inside a sum, `(4/3)**(1/3)*(4/3)**(1/6)*x` a product inside a product
(sum_flat_fails, prod_flat_fails, *_idempotent_fails); `(-1)**y - (-1)**y` is not 0 (sub_self_fails); `(z*0**y).diff(x)` is
not 0 (diff_constant_fails); `repr` is not injective: `sin((x+1)**(y+1))` and `sin(x+1)**(y+1)` print alike (repr_ambiguous); products
of powers of the same base depend on the order of the factors, because exponents are added up one by one:
`e**(3*(x+2))*e**(-2*(x+2))*e**(-x)` is `e**2`, `e**(3*(x+2))*e**(-x)*e**(-2*(x+2))` is `e**(x+2-x)` (prod_comm_fails).

**Multiplying out.** `expand` does not always multiply out: `(x - x*(y+2))**3` becomes `-(x*y + x)**3` (the base expands to negative
terms only, the constructor of the power takes the sign out, and the result, now a product, is returned as it is; expand_negative_fails);
`z*(3*(x+2) - 2*(x+2) + y)`, with a sum directly inside a sum, becomes `z*(x+2) + y*z` (expand_nested_fails). Both results are expandable
again, and `simplify` does not recognise `z*(3*(x+2) - 2*(x+2) + y) - y*z - x*z - 2*z` as 0 (simplify_zero_fails). Outside these cases the expanded form of a polynomial is canonical (C79).

**Substitution, calculus.** `sqrt(a+b).subs(a=b=x*y)` is undefined where it should be defined (subs_value_fails,
replace_value_fails, definite_value_fails); `log(x, b).diff` ignores the base (diff_log_fails), so do `expand`
(expand_log_fails), `evalf` (evalf_log_fails), `expand_logs` (expand_logs_fails), and its `repr` raises (read); `Abs.diff`
is the derivative of the inside (diff_abs_fails); definite integration ignores poles: the integral of `1/x**2` from -1 to 1
is -2 (definite_ignores_poles).

**Polynomials.** `to_const_polynomial` drops the multiplier of `c*(sum)` (to_const_polynomial_fails); PolynomialDivision of
`x**2/(2*x+2**pi)` is wrong (polynomial_division_fails); PartialFractions raises for non-linear factors (read).

**Simplification.** `sin(x)**2*cos(y)**2 + cos(x)**2*cos(y)**2` is simplified to `cos(y)**2*sin(x)**2 + cos(y)**2`
(pythagorean_value_fails, simplify_value_fails); `product_to_sum_unit` drops plain factors when one factor is a power and
there are three or more (product_to_sum_fails), with exactly one power and two plain factors it raises (read);
`regex.Eq`: the consistency check of bindings iterates over dictionary keys and is vacuous, `divide_anys` lets one query factor
match several factors, "one any times a constant c" binds c instead of 1/c (read);
`e**(ln(x*y)/2 - 2) + 1/e**2` becomes `(sqrt(x)*sqrt(y) + 1)/e**2` (one_fraction_value_fails), `sqrt(x/sin(y) + x*csc(y))`
becomes `sqrt(2)*sqrt(x)*sqrt(csc(y))` (reciprocate_trigs_value_fails, to_sin_cos_value_fails).

**The integrator.** LinearUSub applied to `sin(x/6)*exp(x**2/36)` leaves the old variable behind (linear_usub_fails), and
`integrate` returns `-6*cos(x/6)*exp(x**2/36)`, which is not an antiderivative (integrate_fails); `integrate(1/(x + 1)**2)` returns
`inf*x`, because CompleteTheSquare of a perfect square divides by 0 (integrate_square_fails); `integrate(2**x*tan(x))`
raises ValueError (example in Props/Engine); TrigUSub2 is only valid where cos (sin) is positive; `add_child` may refuse one of
Additivity's summands because the same problem occurs among the ancestors, and the sum is then "solved" without it (read);
SOLUTION nodes can get children (solved_and_failed); ByParts' two-layer case rescales another node's stored solution (modelled);
`_go_backwards` swallows ValueErrors of `replace` (read); `root.unfinished_leaves == 0` compares a list with 0 (read).

A refused LinearUSub is retried on ByParts' filler node with another name, so that the variable of the substitution is in scope where
the filler's integrand is not (the exception in C62); the filler node of a ByParts whose new integrand is refused by `add_child` counts
as solved with `u*v` alone; a SOLUTION filler can get children and be solved and failed at once; an InverseTrigUSub node whose
integrand is both simplified and split by Additivity adds up all solutions (read).
InverseTrigUSub puts a Simplify node below its own; `_get_last_heuristic_transform` then sees Simplify, so TrigUSub2 may follow at once
(`x**2/(1 - x**2)`, `undone_after_simplifying`).

**Objects.** Constructors flatten their operands in place without clearing caches: for
`t = (3*s+z)-2*s`, `nesting(t)` is 3, and still 3 after `t+1` has turned `t` into a flat sum
(answers_depend_on_history_of_nested_sums_fails, operand_changed_fails); `log(e**l)` with `l = log(x,2)` returns `l`, which Python then
re-initialises, so that `l` contains itself (log_part_of_itself_fails); `Sum([s], skip_checks=True)` with a sum `s` sets `s.terms` to
`[s]` (read); `symbols()` hands out the cached list itself (read); `len(new_sum.terms) < sum.terms` in simplify.py compares a number
with a list (read).

* `repr` leaves out parentheses that are needed (`repr_reads_fails`, `repr_reads_fails_sin`): an exponent that is a reciprocal
  (`x ** (1 / y)` is printed as `x^1/y`, `2 ** (1 / sqrt(2))` as `2^1/sqrt(2)`; `Power.__repr__` asks only for sums, products and
  fractions), and the argument of a function whose text begins with `(` and ends with `)` (`sin((x + y) * (x + z))` is printed
  as `sin(y + x)*(z + x)`; `_repr`). A term `-(x + 2)` that is not the first is written `- x + 2`
  (`2*(x+2) + z**5 - 3*(x+2)` is printed `z^5 - x + 2`, by `repr` and by `latex` alike: `repr_reads_fails_minus`,
  `latex_reads_fails`). Read: negative floats and infinities as bases and factors (`-inf^x`, `y + -2.5*x`).

**Assertions.**
- `simplify(x - x*sin(x)**2 + 1/x - sin(x)**2/x)` raises AssertionError (regex.py:161): the pattern `f - f*sin(a)**2` fits with
  `f = x` and with `f = 1/x`, and `consolidate` takes one match for one part and another for the other
  (`simplify_asserts_fails`); `integrate`, which simplifies first, raises too.
- `2 * (-x-1)**(3/2) * (-x-1)**(3/2)` is a product with a product in it (`2*-(x + 1)^3`; the combined power is a product and is
  not flattened), and adding `x` to it raises AssertionError, in `Prod(..., skip_checks=True)` of a single product
  (`arithmetic_asserts_fails`).

**Top level.** `diff(e, None)` with no or several symbols *returns* a ValueError object (diff_asks_fails), and `var` has no default
although the docstring says that it "doesn't need to be specified", so `diff(e)` is a TypeError. `_cast` leaves `True` and `False`
alone (bools_are_not_cast): `x + True` fails with AttributeError, while `x ** True` is `x` because `True == 1`. In Python before 3.12
`Fraction(1,2) ** x` has a float base. `symbols("x, y")` makes a symbol named `x,`.

**Factoring.** `Sum.factor` decides about a common number by comparing each coefficient with the smallest so far, and gives up at the
first that neither divides nor is divided: 2 is taken out of `2 + 4x**2 + 6x`, nothing out of `4x**2 + 6x + 2`
(`factor_depends_on_order`). The value is right either way.
Factors are compared by their text, and `z**5 - (x+2)` and `z**5 - x + 2` have the same one, so `factor` takes the second out of
`b*(z**5 - x + 2) + a*(z**5 - (x+2))` by dividing; the answer is undefined where it is 0 (factor_value_fails).

**Infinities.** A comparison of a number with anything that is not a number is False, so `not (2 < x)` and `not (2 >= x)`
(compare_symbolic). `1/Rat(0)` is `inf`, and so is `1/0` of anything positive, but `Rat(0)**-1` raises ZeroDivisionError (div_zero). A
number divided by an infinity is a Float 0.0, not 0, while `e ** -inf` is the exact 0.
So an improper integral of an exponential function is exact (C92), while that of `1/x**2` from 1 to infinity is a Float; a divergent one
is left as a sum with `inf` in it: `inf - e` (divergent_is_not_inf).

**Debugging output.** `debug_repr` prints the argument of a function with `repr`, which leaves out brackets, so `sin(z**5 - (x + 2))` and
`sin(z**5 - x + 2)` have the same `debug_repr` (debug_repr_fails), against the comment in tests/test_utils.py:70-74. The recursive calls do not pass
`pedantic` on, so that it has an effect only on a number or a symbol alone (pedantic_lost_fails). `print_tree` renames the made-up variable of a node to `u_2`, `u_3`, … without looking
whether a parameter has that name (shown_name_may_be_a_parameter). The keys of the log of integrals are the printed integrands, so
that an integral is lost when another integrand is printed alike (log_lost_fails).

**Poles between the bounds.** `integrate(1/x, (x, -1, 1))` returns 0 and, generally, a definite integral over a pole returns the difference of the
antiderivative at the bounds (`bounded_pole`); the program does not look for poles. C99 claims the value only without one.

## 5. Assumptions of the theorems, in one place

* `Oracle.Ieee` (C91 only): floating-point operations with an infinite operand are those of IEEE 754 and C's `pow`, for rational
  numbers in the range of floats.
* `Oracle.Exact` (values): the float tests used by exact arithmetic are right. Needed: see eq_fails.
* `Built O e`: the expression was made by the constructors, as every expression of the library is. (Helper lemmas use the
  weaker structural invariant `WF`.)
* Points: `DomF` textbook domain, `DomR` plain real domain, `Dom` principal domain (bases of non-integer powers and arguments
  of logs nonnegative/positive factor by factor), `Regular` = interior points of `Dom` (where one may differentiate).
* "run conditions" (`RunTame`, `SubsOk`, `ExpandOk`, `SimplifyOk`, `DiffOk`...): decidable conditions on the intermediate
  expressions of the run at hand, e.g. that a constructor call inside `replace` does not split a power of a product. They are
  implied by syntactic classes of inputs, for which there are unconditional theorems next to the general ones.
* In section 6 "proved" means that the theorem says all the English statement says; "partial" that something is missing,
  which the note states.

## 6. Results

(generated from MANIFEST.json and properties.jsonl by tools/gen_design.py)

* **C01** Sum() preserves value: *proved*. textbook domain; for every oracle whose root test is exact (Oracle.Exact)
  `sum_value`, `sum_value_principal`

* **C02** Prod() preserves value: *partial*. proved on the principal domain and, for log-free factors, on the whole plain real domain; false with logs of products of negative numbers (witness)
  `prod_value_partial`, `prod_value_logfree`, `prod_value_textbook_fails`

* **C03** Power() preserves value: *partial*. proved on the principal domain, for all integer exponents and for all atomic bases; the code is wrong outside ((x**2)**(3/2) -> x**3, witness)
  `power_value_partial`, `power_value_int`, `power_value_atomic`, `power_value_textbook_fails`

* **C04** Arithmetic operators preserve value: *partial*. principal domain; plain real domain for log-free operands; false outside ((x**2)**(3/2) is x**3: operators_value_fails)
  `operators_value_partial`, `operators_value_logfree`, `operators_value_fails`

* **C05** Rational arithmetic is exact: *proved*. operators, and Sum/Prod/Power on any number of rationals
  `rational_operators_exact`, `rational_sum_exact`, `rational_prod_exact`, `rational_power_exact`

* **C06** Rational powers are exact: *partial*. full for q >= 0, integer r and odd/odd r; (-8)**(2/3) -> -4 is wrong (witness)
  `rational_root_exact_partial`, `rational_root_even_fails`

* **C07** Sums and products are in canonical form: *proved*. as stated.
  `sum_canonical`, `prod_canonical`, `built_canonical`

* **C08** Constructors flatten: *partial*. false in general (witnesses): the like-term passes can put a nested sum or product back
  `sum_flat_partial`, `prod_flat_partial`, `sum_flat_fails`, `prod_flat_fails`

* **C09** Like terms are collected: *partial*. first half full (float-free); the consequence x-x=0 fails for powers of -1 (witness)
  `like_terms_collected`, `add_self_partial`, `sub_self_partial`, `sub_self_fails`

* **C10** Commutativity of the constructors: *partial*. Sum full; Prod for rational exponents and factors defined at some point; the code violates it for symbolic exponents: e**(3*(x+2))*e**(-2*(x+2))*e**(-x) is e**2, in another order e**(x+2-x) (prod_comm_fails)
  `sum_comm`, `prod_comm_partial`, `prod_comm_fails`

* **C100** Definite integrals of one integrand fit together: *proved*. as stated.
  `bounds_equal`, `bounds_exchanged`, `bounds_joined`, `bounds_found`, `bounds_given_up`, `bound_moved`, `bound_moved_below`, `polynomial_between`, `polynomial_bound_moved`, `polynomial_between_add`, `polynomial_between_mono`

* **C11** Canonical order is a permutation and is sorted: *proved*. as stated.
  `sort_sorted`, `sort_sorted_any`, `key_order`, `canonical_order`, `built_ordered`

* **C12** Substitution lemma: *partial*. full when every power has an integer literal exponent and there is no log/inverse trig; otherwise under run conditions; sqrt(a+b).subs(a=b=x*y) -> sqrt2*sqrtx*sqrty is undefined at x=y=-1 (witness)
  `subs_value`, `subs_value_partial`, `subs_value_fails`

* **C13** No operation invents symbols: *proved*. as stated.
  `constructors_invent_no_symbols`, `operators_invent_no_symbols`, `diff_expand_invent_no_symbols`, `subs_symbols`, `subs_eliminates`

* **C14** diff computes the derivative: *partial*. proved for all smooth expressions at all regular points (diff_correct); outside that class under run conditions; log to another base and Abs of negatives are wrong in the code (witnesses)
  `diff_correct`, `diff_correct_partial`, `diff_log_fails`, `diff_abs_fails`

* **C15** diff of a constant is literally 0: *partial*. for expressions regular somewhere; (z*0**y).diff(x) is not 0 (witness)
  `diff_constant_partial`, `diff_constant_fails`

* **C16** expand preserves value: *partial*. full for integer exponents without logs/inverse trig, on the whole real domain; otherwise under run conditions; log(x*(x+1),2).expand() loses the base (witness)
  `expand_value`, `expand_value_partial`, `expand_log_fails`

* **C17** generate_permutations enumerates compositions: *proved*. as stated.
  `generate_permutations_spec`

* **C18** multinomial_coefficient is the multinomial coefficient: *proved*. as stated.
  `multinomial_coefficient_spec`, `multinomial_coefficient_rejects`, `multinomial_theorem`

* **C19** contains agrees with symbols: *proved*. as stated.
  `contains_iff_symbols`, `value_independent`

* **C20** == is an equivalence that respects value: *partial*. full under the assumption that no rational compares equal to the floats of pi and e; eq_fails: with such a rational == is neither value respecting nor symmetric
  `eq_iff_identical_partial`, `eq_reflexive`, `eq_value_partial`, `eq_fails`

* **C21** count and contains_cls: *proved*. as stated.
  `count_pos_iff`, `count_node`, `general_count_node`, `has_iff`

* **C22** replace preserves value when the replacement does: *partial*. full for tame expressions (integer exponents or plain bases); all expressions under run conditions; false otherwise (witness)
  `replace_value`, `replace_symbol_value`, `replace_rules_value`, `replace_rules_value_partial`, `replace_absent_value`, `replace_value_fails`

* **C23** eq_with_var is equality up to renaming: *proved*. under the assumption that no rational compares equal to the floats of pi and e
  `eq_with_var_iff`, `eq_with_var_value`

* **C24** to_const_polynomial is faithful: *partial*. full when the expanded expression has no number times a Sum/Prod; the multiplier is dropped otherwise (witness)
  `to_const_polynomial_partial`, `to_const_polynomial_unexpandable_partial`, `to_const_polynomial_fails`

* **C25** polynomial_to_expr is faithful: *proved*. as stated.
  `polynomial_to_expr_value`

* **C26** rid_ending_zeros: *proved*. as stated.
  `rid_ending_zeros_spec`, `rid_ending_zeros_value`

* **C27** Polynomial division is Euclidean: *proved*. proved for rational coefficients (termination, degree, identity, and the integrand); polynomial_division_partial goes beyond: any coefficients as long as each pass shortens the numerator, and polynomial_division_fails shows that the condition is needed
  `polynomial_division_rational`, `polynomial_division_value`, `polynomial_division_partial`, `polynomial_division_fails`

* **C28** Matrix inversion: *proved*. as stated.
  `invert_value`, `invert_is_2x2`, `invert_none_singular`, `invert_other_sizes`

* **C29** Partial fractions identity: *proved*. rational linear factors; away from zeros of the factor taken out when the denominator is an unfactored sum
  `partial_fractions_value`

* **C30** Integral table entries are antiderivatives: *proved*. as stated.
  `integral_table_correct`, `integral_table_rational`

* **C31** Search tree status is consistent: *partial*. the three characterisations are full; exclusiveness needs that settled nodes have no children (witness)
  `not_solved_and_failed_partial`, `solved_and_failed`, `finished_iff`, `and_status`, `or_status`, `leaf_status`

* **C32** An unfinished tree has work left: *proved*. as stated.
  `unfinished_has_work`, `verdict_is_final`, `failed_not_solvable`

* **C33** Best-leaf selection returns an unfinished leaf: *proved*. as stated.
  `best_leaf_correct`

* **C34** add_child never repeats an ancestor's problem: *proved*. as stated.
  `add_child_effect`, `no_repeated_problem`, `search_never_repeats`

* **C35** Walking back a solved tree yields a correct antiderivative: *proved*. as stated.
  `go_backwards_sound`, `go_backwards_only_solved`, `go_backwards_antiderivative`, `go_backwards_antiderivative_run`

* **C36** Each transform is sound: *partial*. PullConstant, Additivity and ByParts (plain case) without side conditions; the u-substitutions and rewritings under run conditions (the old variable is gone, replace keeps to principal branches), where sin/cos have the sign the code assumes. LinearUSub is wrong in general: linear_usub_fails.
  `pull_constant_sound`, `additivity_sound`, `expand_transform_sound_partial`, `polynomial_usub_sound_partial`, `generic_usub_sound_partial`, `trig_usub2_sound_partial`, `inverse_trig_usub_sound_partial`, `linear_usub_sound_partial`, `linear_usub_fails`, `rewrite_trig_sound_partial`, `rewrite_pythagorean_sound_partial`, `by_parts_sound`, `by_parts_same_sound_partial`, `by_parts_twice_sound_partial`, `integ_ok_table`, `complete_the_square_sound_partial`, `polynomial_division_sound_partial`, `partial_fractions_sound_partial`, `product_to_sum_sound_partial`, `simplify_step_sound_partial`

* **C37** Definite integrals are F(b)-F(a): *partial*. full for antiderivatives and bounds built from numbers, symbols, +, *, integer powers and |.|; in general under the run conditions of subs and simplify (false otherwise: definite_value_fails)
  `definite_value`, `definite_integral`, `definite_table`, `definite_none`, `definite_value_partial`, `definite_integral_partial`, `definite_value_fails`, `definite_ignores_poles`

* **C38** Trig special values are right: *proved*. as stated.
  `trig_special_value`

* **C39** Trig constructors preserve value: *partial*. full for arguments without inverse trig functions
  `trig_value`, `trig_value_partial`, `trig_value_fails`

* **C40** Inverse trig constructors preserve value: *partial*. asin(sin x) -> x is wrong outside the principal range (witness)
  `inverse_trig_value_partial`, `inverse_trig_cancel_partial`, `asin_sin_fails`, `inverse_trig_zero_raises`

* **C41** log constructor preserves value: *proved*. as stated.
  `log_value`

* **C42** Abs constructor preserves value: *proved*. as stated.
  `abs_value`, `abs_dropped_nonneg`

* **C43** Pythagorean simplification preserves value: *partial*. all seven identities, any number of pairs and other terms, when no term has two squared sines/cosines as factors and the matches of regex.Eq are squares; false otherwise (witness)
  `pythagorean_value_partial`, `pythagorean_pairs_value_partial`, `pythagorean_value_fails`

* **C44** Product-to-sum preserves value: *partial*. products of sines, cosines and constants: full (no inverse trig functions inside); with powers: under the run condition ptsOk; false for three or more factors mixing powers and plain functions (witness)
  `product_to_sum_plain`, `product_to_sum_value_partial`, `product_to_sum_sum_value_partial`, `product_to_sum_fails`

* **C45** rewrite_as_one_fraction preserves value: *partial*. log-free sums: whole real domain; with logs: principal domain, and false outside: e**(ln(x*y)/2 - 2) + 1/e**2 becomes (sqrt(x)*sqrt(y) + 1)/e**2 (one_fraction_value_fails)
  `one_fraction_value`, `one_fraction_value_partial`, `one_fraction_value_fails`

* **C46** numerator_denominator recomposes: *proved*. whole real domain (principal roots)
  `numerator_denominator_recomposes`, `numerator_denominator_principal`

* **C47** factor preserves value: *partial*. where the common factor is not 0 and (automatic for integer exponents) defined; false in general, since factors are compared by their text: factor_value_fails
  `factor_value`, `factor_value_partial`, `factor_value_fails`

* **C48** expand_logs preserves value: *partial*. natural logarithms, positive arguments of the new logarithms, under run conditions; other bases are dropped (witness)
  `expand_logs_value_partial`, `expand_logs_fails`

* **C49** Reciprocal/combined trig rewriting preserves value: *partial*. full for integer exponents without logs/inverse trig; otherwise under run conditions, and false without them: sqrt(x/sin(y) + x*csc(y)) becomes sqrt(2)*sqrt(x)*sqrt(csc(y))
  `reciprocate_trigs_value`, `reciprocate_trigs_value_partial`, `to_sin_cos_value`, `to_sin_cos_value_partial`, `reciprocate_trigs_value_fails`, `to_sin_cos_value_fails`

* **C50** Result does not depend on the recursion budget: *proved*. as stated.
  `constructors_budget`, `operators_budget`, `methods_budget`

* **C51** evalf agrees with value: *partial*. evalf converges to the value as the accuracy of the floating-point arithmetic improves (for every epsilon a delta, uniformly over every arithmetic of that accuracy). Missing: logarithms to other bases, which the code evaluates as natural ones (evalf_log_fails).
  `evalf_converges_partial`, `evalf_symbol_free`, `evalf_log_fails`

* **C52** nesting is well defined and zero exactly off the variable: *proved*. as stated.
  `nesting_zero_iff`, `nesting_child`

* **C53** simplify never makes an expression larger unless trig rules fire: *proved*. as stated.
  `simplify_smaller`, `simplify_smaller_trig_free`

* **C54** LaTeX output has balanced braces: *proved*. any expression, any floats; parentheses and braces are matched and properly nested
  `latex_brackets`, `plain_names`, `Nested.counts`

* **C55** repr has balanced parentheses: *proved*. any expression, any floats; properly nested; note repr_ambiguous: two different expressions can have the same repr
  `repr_brackets`, `plain_names`, `Nested.counts`, `repr_ambiguous`

* **C56** Constructors are idempotent: *partial*. false in general (witnesses)
  `sum_idempotent_partial`, `prod_idempotent_partial`, `sum_idempotent_fails`, `prod_idempotent_fails`

* **C57** simplify preserves value: *partial*. full for numbers, symbols, +, *, integer powers and |.|; in general under the conditions of each stage (false otherwise: simplify_value_fails)
  `simplify_value`, `simplify_value_partial`, `simplify_trig_value_partial`, `simplify_value_fails`

* **C58** The search never gets stuck: *proved*. errors raised inside a transform end the loop, as in the code; the time limit is the number of cycles
  `search_has_work`, `search_never_lost`, `search_fails_only_in_cycle`, `cycle_changes_leaves_only`, `search_makes_progress`

* **C59** The answer does not depend on the time limit: *proved*. the time limit is the number of cycles
  `search_end_independent_of_time`, `answer_independent_of_time`, `no_answer_reason`

* **C60** integrate returns an antiderivative: *partial*. the code violates it (integrate_fails: LinearUSub; integrate_square_fails: integrate(1/(x+1)^2) is inf*x); proved for every run whose steps are regular at the point (RunOk), including two integrations by parts that come back to the integrand (TwiceOk); for the rewriting steps the conditions speak about the integrand (RewriteOk)
  `integrate_fails`, `integrate_square_fails`, `integrate_sound_partial`, `without_heuristics_sound_partial`, `antiderivative_at_isolated_points`

* **C61** Every problem in the search tree comes from its parent by the transform it carries: *proved*. as stated.
  `search_tree_provenance`, `search_tree_solutions`

* **C62** No made-up variable leaks into the answer: *partial*. for every run in which no filler node of ByParts gets a child from a u-substitution; unconditional for the search without heuristics
  `integrate_symbols_partial`, `without_heuristics_symbols`, `definite_symbols_partial`

* **C63** Of several possible next steps one is enough: *proved*. as stated.
  `attempts_are_alternatives`, `others_are_all_needed`

* **C64** Answers do not depend on what was asked or built before: *partial*. the code violates it for sums of sums (which it makes itself); proved for all other histories, for all the caches of objects (nesting, symbols, expandable, expand, coefficients, powers, numerators, constant factors, Any_s); only the per-class table of special values is not an object of the model
  `Heap.answers_do_not_depend_on_history_partial`, `Heap.answers_stay_partial`, `Heap.asking_changes_nothing`, `Heap.answers_depend_on_history_of_nested_sums_fails`

* **C65** Using an expression as an operand does not change it: *partial*. class and value are kept in every history without a log(b ** l, b) returning an old log; structure is kept if there are no sums of sums; both exceptions are real (witnesses)
  `Heap.operands_keep_their_value_partial`, `Heap.operands_do_not_change_partial`, `Heap.made_objects_are_acyclic`, `Heap.operand_changed_fails`, `Heap.log_part_of_itself_fails`

* **C66** Polynomials are always integrated: *proved*. total correctness: the run of the search, the table, the sorting and merging of terms and the way back return; flat polynomials (products and powers of sums are not covered)
  `polynomials_are_integrated`, `polynomials_are_integrated_var`, `polynomials_are_integrated_nothing`, `polynomials_need_no_heuristics`, `polynomial_definite`, `polynomial_definite_default`, `coefficients_make_polynomials`, `polynomials_are_added`

* **C67** The printed text says what the expression is: *partial*. the code violates it (x**(1/y) is printed x^1/y, sin((x+y)*(x+z)) is printed sin(y + x)*(z + x), 2*(x+2) + z**5 - 3*(x+2) is printed z^5 - x + 2); proved for every expression in which nothing is printed without parentheses at a place that needs them (the decidable predicate clear), and unconditionally for flat polynomials in one variable and for whatever expand makes of a polynomial in several
  `repr_reads_partial`, `same_text_same_value_partial`, `polynomials_read`, `polynomial_texts`, `expanded_reads`, `repr_reads_fails`, `repr_reads_fails_sin`, `repr_reads_fails_minus`

* **C68** The variable of integration may be left out exactly if there is one symbol: *proved*. as stated.
  `variable_may_be_left_out`, `variable_may_be_left_out_of_bounds`, `variable_is_asked_for`

* **C69** The LaTeX says what the expression is: *partial*. the code violates it (2*(x+2) + z**5 - 3*(x+2) has the LaTeX z^5 - x + 2); proved for every expression in which no sum or quotient is written bare where it would be torn apart (the decidable condition texClear of Spec/ReadLatex), and, without it, for all polynomials in one symbol and all multiplied-out polynomials in any number of symbols
  `latex_reads_partial`, `same_latex_same_value_partial`, `polynomials_read_latex`, `polynomial_latex`, `expanded_reads_latex`, `latex_reads_fails`

* **C70** No internal assertion fails: *partial*. the code violates it: simplify(x - x*sin(x)^2 + 1/x - sin(x)^2/x) and 2*(-x-1)^(3/2)*(-x-1)^(3/2) + x raise AssertionError; proved for the matcher when the pattern fits the sum in at most one way
  `match_asserts_partial`, `simplify_asserts_fails`, `arithmetic_asserts_fails`

* **C71** A u-substitution is tried only if the rest of the integrand is a function of u: *partial*. full for GenericUSub and TrigUSub2; PolynomialUSub for rational exponents and if multiplying the other factors keeps the occurrences; LinearUSub if no part of the integrand is taken for a constant times a power of the variable (otherwise false: linear_usub_fails)
  `counts_decide`, `generic_usub_inside`, `trig_usub2_inside`, `polynomial_usub_inside_partial`, `linear_usub_inside_partial`, `linear_usub_fails`

* **C72** Linear combinations of table functions are always integrated: *proved*. total correctness, by the same argument as C66, including simplify before and after; sums that have both a sine or cosine and a negative power are not part of the property (simplify puts those over one denominator)
  `combinations_are_integrated`, `combinations_are_integrated_var`, `combinations_are_integrated_nothing`, `combinations_need_no_heuristics`

* **C73** factor() takes out the greatest common power and a common divisor: *proved*. total: factor() returns on all these inputs; which number is taken out depends on the order of the terms (factor_depends_on_order)
  `TakenOut.factor_takes_out_common`, `TakenOut.factor_depends_on_order`

* **C74** Numbers and expressions can be mixed: *partial*. the value claim is on the principal domain, as C02 - C04; booleans, None and containers as operands are not modelled
  `cast_pointwise`, `cast_fails_iff`, `cast_raises_only`, `cast_idempotent`, `mixed_is_const`, `mixed_value_partial`, `bools_are_not_cast`

* **C75** diff() differentiates by the only symbol, or asks: *partial*. the code violates it: with no or several symbols the ValueError is returned, not raised
  `diff_is_method`, `diff_default`, `diff_asks_partial`, `diff_asks_fails`

* **C76** symbols() makes the symbols named: *proved*. as stated.
  `symbols_one`, `symbols_many`, `symbols_fails_iff`, `symbols_ok`

* **C77** Rational numbers divide, compare and invert exactly: *proved*. as stated.
  `floordiv_exact`, `mod_exact`, `divmod`, `reciprocal_exact`, `lt_exact`, `le_exact`, `isInt_exact`

* **C78** expand() multiplies polynomials out completely: *partial*. Proved for polynomial expressions in which the constructors keep every sum, product and power as it is, no product stands directly inside a product, and the base of an odd power does not have only negative coefficients. Missing: these cases; for a sum directly inside a sum, and for an odd power of something that expands to negative terms only, the code does not multiply out (expand_nested_fails, expand_negative_fails).
  `expand_multiplies_out_partial`, `expand_negative_fails`, `expand_nested_fails`

* **C79** The expanded form is canonical: *partial*. Proved for the polynomial expressions of C78. Missing: nested sums and odd powers of negative bases, where the result does depend on how the polynomial was written (expand_nested_fails).
  `expand_canonical_partial`, `expand_zero_partial`, `expanded_texts_partial`, `expanded_latex_partial`, `expand_nested_fails`

* **C80** simplify() returns on polynomials, is idempotent there and recognises zero: *partial*. Proved for the polynomial expressions of C78. Missing: sums directly inside sums and odd powers of negative bases; with a sum inside a sum a polynomial that is 0 everywhere need not be simplified to 0 (simplify_zero_fails).
  `simplify_polynomial_partial`, `simplify_zero_partial`, `simplify_zero_fails`

* **C81** Polynomials in several symbols are always integrated: *proved*. Names must be ones that can be told apart in the printed form (goodName); the polynomial must be one that the constructors return for its parts (PolyExpr). expand_then_integrate is for the polynomials that expand() multiplies out by C78.
  `expanded_polynomials_are_integrated`, `expand_then_integrate`, `expanded_polynomial_definite`

* **C82** Polynomials need not be multiplied out to be integrated: *partial*. Proved for sums whose terms are multiplied out, or powers, or products of factors that all contain the variable, and for a number times such a sum or term. Missing: products that are not multiplied out with a factor, other than one number in front of everything, that does not contain the variable.
  `factored_polynomials_are_integrated_partial`, `factored_polynomials_need_no_heuristics_partial`, `factored_polynomials_are_integrated_var_partial`

* **C83** Differentiation keeps polynomials multiplied out: *proved*. Names must be ones that can be told apart in the printed form (goodName); the polynomial must be one that the constructors return for its parts (PolyExpr).
  `diff_multiplied_out`, `diff_zero_iff`, `mixed_derivatives`, `diff_of_integral`

* **C84** Sums and differences of multiplied-out polynomials obey the laws of arithmetic literally: *proved*. as C83
  `add_multiplied_out`, `sub_multiplied_out`, `neg_multiplied_out`, `out_unique`, `add_out_laws`, `sub_out_laws`

* **C85** Numbers and monomials can be put into polynomials: *proved*. as C83; one symbol is substituted
  `subs_multiplied_out`, `subs_back`

* **C86** Products and powers of multiplied-out polynomials obey the laws of arithmetic literally: *proved*. as C83: names that can be told apart in the printed form; a stack of at least 13 levels
  `mul_multiplied_out`, `pow_multiplied_out`, `mul_out_laws`, `mul_out_add`, `mul_out_zero`, `mul_out_units`, `pow_out_laws`, `product_rule`

* **C87** The laws of the integral calculus hold literally for multiplied-out polynomials: *proved*. as C83: names that can be told apart in the printed form; with a stack that is deep enough
  `antiderivative_out`, `definite_out`, `antiderivative_iff`, `diff_antiderivative`, `antiderivative_diff`, `definite_add`, `definite_factor`, `definite_adjacent`, `definite_reverse`, `definite_order`, `antiderivative_order`, `definite_parts`, `diff_upper_bound`, `definite_number`

* **C88** The laws of exponents hold literally for products of powers of symbols: *proved*. names that can be told apart in the printed form; with a stack of at least 6 levels; rational powers of sums and of products are not included ((x*x)**(1/2) is in C10 and C11)
  `products_are_power_terms`, `products_are_canonical`, `products_return`, `products_cancel`, `products_associate`, `powers_of_products`, `products_of_one`

* **C89** factor() of a multiplied-out polynomial can be undone by expand(): *proved*. names that can be told apart in the printed form; with a stack of at least 13 levels
  `factor_multiplied_out`, `factor_leaves_no_symbol`, `factor_injective`, `factor_once`

* **C90** The search does not undo a step straight away: *partial*. InverseTrigUSub adds a Simplify node below its own, which counts as a step: for x**2/(1 - x**2) the search then substitutes back
  `steps_are_not_undone_partial`, `trig_not_rewritten_twice`, `undone_after_simplifying`

* **C91** Infinities: *proved*. floating-point operations with infinite operands are assumed to be those of IEEE 754 and C's pow (Oracle.Ieee), for rational numbers in the range of floats; a quotient by an infinity is the Float 0.0; 1/0 is inf, but Rat(0)**-1 raises ZeroDivisionError
  `inf_add`, `inf_mul`, `inf_neg`, `inf_sub`, `inf_indeterminate`, `inf_abs`, `inf_div`, `div_zero`, `inf_compare`, `compare_symbolic`, `inf_pow`, `neginf_pow`, `rat_pow_inf`, `const_pow_inf`, `unknown_pow_inf`, `negative_pow_inf`

* **C92** Improper integrals of exponential functions: *proved*. Oracle.Ieee as for C91; a divergent integral is not simplified to inf (divergent_is_not_inf); powers over infinite ranges give Floats and are not covered
  `improper_exp_above`, `improper_exp_below`, `divergent_is_not_inf`

* **C93** debug_repr shows the structure: *partial*. proved for sums, products and powers of numbers, pi, e, symbols and trigonometric functions of these, nested in any way; false inside functions (debug_repr_fails), and pedantic is lost below the top (pedantic_lost_fails)
  `debug_repr_partial`, `debug_repr_fails`, `pedantic_lost_fails`

* **C94** Elementary terms: derivatives of any order and integrals are the textbook ones: *proved*. sin(a*x+b) and cos(a*x+b) with a and b not both negative (the constructor writes the others differently); q = -1 is in C72
  `derivs_exp`, `derivs_sin`, `derivs_cos`, `derivs_power`, `derivs_vanish`, `integral_exp`, `integral_sin`, `integral_cos`, `integral_power`, `diff_integral`, `integral_diff`

* **C95** Roots of linear functions: integrals and derivatives of any order are the textbook ones: *proved*. b = 0 is left out: the constructor then distributes the power over the product. Integer exponents below -1 are in C60 (integrate_square_fails)
  `integral_root`, `derivs_root`, `root_undo`, `root_antiderivative`

* **C96** The printed search tree shows every node once, and the printed solution is a complete solution: *proved*. a parameter that is itself called u_2 can coincide with a shown name (shown_name_may_be_a_parameter)
  `tree_rows`, `solution_rows`, `success_rows`, `solution_complete`, `column`, `row_text`, `shown_name_may_be_a_parameter`

* **C97** The log of integrals keeps each integral, and the dump lists them by time: *partial*. proved but that integrals with different integrands keep different entries: this is proved for polynomials and is false in general, as different expressions may be printed alike (log_lost_fails)
  `log_entries`, `log_sorted`, `dump_content`, `dump_empty`, `log_kept_partial`, `log_lost_fails`

* **C98** The parked transforms CompoundAngle and SinUSub are right: *partial*. CompoundAngle is proved for integrands with integer powers and without logarithms and inverse trigonometric functions (compound_angle_easy); otherwise replace is asked to keep to principal branches (RunTame, a decidable condition), as in C36
  `compound_angle_easy`, `compound_angle_sound_partial`, `sin_usub_sound_partial`, `sin_usub_applies`

* **C99** Definite integrals of exponential functions, sines, cosines and powers are exact: *proved*. sines and cosines: of arguments that the constructor leaves as they are (isSubtraction = false)
  `bounded_exp`, `bounded_sin`, `bounded_cos`, `bounded_power`, `bounded_power_value`, `bounded_inverse`, `bounded_inverse_value`, `bounded_pole`
