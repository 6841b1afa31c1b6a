{"id": "C01", "title": "Three-valued logic never lies", "statement": "The connectives and strength comparisons on three-valued truth values are sound and most precise: whenever a compound answer is a definite ALWAYS/NEVER, every way of resolving the MAYBE operands to a definite truth value yields that same classical answer, and MAYBE is answered only when two resolutions disagree.", "quantifier": "all triples of three-valued operands and all resolutions of the MAYBE ones", "why_tests_cant": "The claim relates an abstract answer to every concrete resolution of the operands.", "anchors": ["src/Bool3.inlines.hh: operator||, operator&&, operator!, stronger, stronger_eq, is_strong"]}
{"id": "C02", "title": "Integer gcd is the greatest common divisor and terminates", "statement": "gcd(n, m) terminates for all machine integers and returns a common divisor that every common divisor divides (the greatest common divisor up to sign).", "quantifier": "all pairs of integers", "why_tests_cant": "Termination and universality of the divisor hold for an unbounded domain.", "anchors": ["src/util.cc: gcd(int,int)"]}
{"id": "C03", "title": "lcm of a list of numbers is the least common multiple", "statement": "lcm of a vector of positive integers is a common multiple of all of them that divides every other common multiple.", "quantifier": "all finite vectors of positive integers", "why_tests_cant": "Arbitrary length and arbitrary values.", "anchors": ["src/util.cc: lcm"]}
{"id": "C04", "title": "Trial-division factorization reassembles the number", "statement": "The partial factorization of a nonzero integer returns bases and exponents whose product is exactly the absolute value of the integer, every exponent is at least one, and every base below the trial threshold is prime.", "quantifier": "all nonzero integers", "why_tests_cant": "The integer is unbounded; only an invariant over the trial-division loop covers all of them.", "anchors": ["src/util.cc: partial_factor"]}
{"id": "C05", "title": "Divisor enumeration is exact or refused", "statement": "find_divisors either refuses (number too large or factorization incomplete) or returns exactly the set of all positive divisors of the number, without duplicates.", "quantifier": "all positive integers", "why_tests_cant": "Completeness of a divisor list is a statement on all candidate divisors of all numbers.", "anchors": ["src/util.cc: find_divisors"]}
{"id": "C06", "title": "Rational roots are all found", "statement": "For an integer polynomial whose leading and trailing coefficients are accepted by the divisor enumeration, the rational-root search tries a set of candidates that contains every rational root, so no rational root is missed.", "quantifier": "all integer polynomials with nonzero trailing coefficient", "why_tests_cant": "Every polynomial of every degree.", "anchors": ["src/alg_eq_solver.cc: find_roots (rational root loop)", "src/util.cc: find_divisors"]}
{"id": "C07", "title": "Quadratic, cubic and quartic formulas yield true roots", "statement": "Every value returned by the closed-form solvers for degree 2, 3 and 4 is a root of the equation it was computed for, and together they are all the roots.", "quantifier": "all coefficients (a,b,c,d) of the field of complex numbers", "why_tests_cant": "Identity over a continuum of coefficients.", "anchors": ["src/alg_eq_solver.cc: solve_equation_2, solve_equation_3, solve_equation_4"]}
{"id": "C08", "title": "Roots of a x^n + k", "statement": "The closed-form solver for binomial equations returns n values each of which satisfies the binomial equation it is asked to solve.", "quantifier": "all degrees n and all nonzero coefficients", "why_tests_cant": "All degrees.", "anchors": ["src/alg_eq_solver.cc: solve_monomial_irrational, find_roots"]}
{"id": "C09", "title": "Nested polynomial detection is exact", "statement": "If the nested-polynomial test answers g > 1 for a polynomial p then p(x) = q(x^g) where q is the polynomial returned, and no larger exponent has this property.", "quantifier": "all polynomials", "why_tests_cant": "All degrees and all coefficient patterns.", "anchors": ["src/alg_eq_solver.cc: is_nested_polynomial"]}
{"id": "C10", "title": "Closed-form sum of a polynomial is right at every n", "statement": "The closed form for sum_{k=0}^{n} p(k) alpha^k computed for a polynomial p and a base alpha equals the sum for every natural n, for alpha = 1 as well as alpha /= 1.", "quantifier": "all polynomials p, all alpha, all n", "why_tests_cant": "Unbounded degree and unbounded n.", "anchors": ["src/sum_poly.cc: falling_product, sum_falling_prod_times_exp, poly_dec, sum_poly_times_exponentials"]}
{"id": "C11", "title": "Levy's undetermined-coefficient summation agrees with the sum", "statement": "The alternative polynomial summation returns an expression equal to sum_{k=0}^{n} p(k) for every natural n.", "quantifier": "all polynomials p and all n", "why_tests_cant": "Unbounded degree and n.", "anchors": ["src/sum_poly.cc: sum_poly_alt"]}
{"id": "C12", "title": "Sums of polynomial times cosine", "statement": "The closed form for sum p(k) alpha^k cos(k theta) equals that sum for every n.", "quantifier": "all polynomials, alpha, theta, n", "why_tests_cant": "Continuum of parameters.", "anchors": ["src/sum_poly.cc: sum_poly_times_exponentials_times_cos"]}
{"id": "C13", "title": "Exponential-polynomial decomposition loses nothing", "statement": "Decomposing an expression into exponentials times polynomials (plus non-polynomial remainders) preserves its value: sum_i alpha_i^n (p_i(n)+q_i(n)) equals the input at every n, and the returned bases are pairwise distinct.", "quantifier": "all expressions, all valuations", "why_tests_cant": "Arbitrary expression trees.", "anchors": ["src/ep_decomp.cc: exp_poly_decomposition, exp_poly_decomposition_summand, exp_poly_decomposition_factor"]}
{"id": "C14", "title": "Factorial decomposition loses nothing", "statement": "Decomposing an expression into coefficients of factorials of x-linear arguments plus remainder preserves its value.", "quantifier": "all expressions, all valuations", "why_tests_cant": "Arbitrary expression trees.", "anchors": ["src/fact_decomp.cc"]}
{"id": "C15", "title": "Splitting into polynomial and non-polynomial part is lossless", "statement": "For every expression, the polynomial part and the possibly-non-polynomial part returned add up to the expression, and the polynomial part is a polynomial in the variable.", "quantifier": "all expressions and all valuations of symbols", "why_tests_cant": "Arbitrary expression trees and valuations.", "anchors": ["src/util.cc: isolate_polynomial_part"]}
{"id": "C16", "title": "Conversion to integer polynomial is a scaling", "statement": "Converting a polynomial with rational coefficients to an integer polynomial returns a polynomial with integer coefficients and a rational factor whose product is the original polynomial.", "quantifier": "all rational polynomials", "why_tests_cant": "Arbitrary degree and denominators.", "anchors": ["src/util.cc: convert_to_integer_polynomial"]}
{"id": "C17", "title": "The resultant computed from the Sylvester matrix is the resultant", "statement": "The determinant of the matrix built for two polynomials is their resultant.", "quantifier": "all pairs of polynomials", "why_tests_cant": "Arbitrary degrees.", "anchors": ["src/util.cc: resultant, sylvester_matrix_resultant"]}
{"id": "C18", "title": "Substitution is semantic substitution", "statement": "Substituting an expression for a symbol yields an expression whose value, under every valuation, is the value of the original one with the symbol re-bound to the value of the replacement (for expressions without bound summation indices); substituting for an equal subexpression is replacement.", "quantifier": "all expressions, symbols, replacements, valuations", "why_tests_cant": "Arbitrary trees.", "anchors": ["src/Expr.cc: substitute"]}
{"id": "C19", "title": "Distributing products over sums preserves values", "statement": "Distributing multiplication over addition yields an expression of equal value under every valuation, in which no product has a sum as a factor at top level.", "quantifier": "all expressions and valuations", "why_tests_cant": "Arbitrary trees with arbitrary arities.", "anchors": ["src/Expr.cc: distribute_mul_over_add, distribute_mul_over_add_factor"]}
{"id": "C20", "title": "Scalar representation test is sound", "statement": "If an expression is declared a scalar representation with respect to a variable then its value does not depend on the variable.", "quantifier": "all expressions, all pairs of valuations differing at the variable", "why_tests_cant": "Arbitrary trees and valuations.", "anchors": ["src/Expr.cc: is_scalar_representation"]}
{"id": "C21", "title": "Polynomial tests are sound", "statement": "If an expression is declared polynomial in x (in several variables), then its value as a function of x is given by a polynomial whose coefficients do not depend on x (on the variables).", "quantifier": "all expressions and valuations", "why_tests_cant": "Arbitrary trees.", "anchors": ["src/Expr.cc: is_polynomial, is_integer_polynomial, is_rational_polynomial"]}
{"id": "C22", "title": "Absence of the unknown function is detected exactly", "statement": "has_x_function answers true exactly when the unknown x(.) occurs somewhere in the expression; an expression without it has a value independent of the interpretation of the unknown.", "quantifier": "all expressions and interpretations of x", "why_tests_cant": "Arbitrary trees.", "anchors": ["src/Expr.cc: has_x_function", "src/util.cc: has_parameters"]}
{"id": "C23", "title": "Collecting terms preserves values", "statement": "Collecting the coefficients of a set of terms returns an expression of equal value under every valuation.", "quantifier": "all expressions and valuations", "why_tests_cant": "Arbitrary trees.", "anchors": ["src/Expr.cc: collect_term"]}
{"id": "C24", "title": "Numeric evaluation rules of sum/prod/mod/floor/binomial are right", "statement": "The automatic evaluation rules of the symbolic functions sum, prod, mod, floor, max, min and binomial agree with their mathematical definition whenever they fire.", "quantifier": "all numeric and symbolic arguments accepted by the rules", "why_tests_cant": "Unbounded bounds and arguments.", "anchors": ["src/Expr.cc: sum_eval, prod_eval, mod_eval, floor_eval, binom_eval, max_eval, min_eval"]}
{"id": "C25", "title": "Non-negativity preservation test is sound", "statement": "If an expression is declared to preserve non-negativity, its value is non-negative under every valuation giving non-negative values to its symbols.", "quantifier": "all expressions and non-negative valuations", "why_tests_cant": "Arbitrary trees and real valuations.", "anchors": ["src/Expr.cc: preserves_nonnegativity"]}
{"id": "C26", "title": "Blackboard: definitions are never lost, and rewriting undoes them", "statement": "Each definition inserted yields a fresh symbol; the definition is retrievable for ever after; rewriting an expression on the blackboard yields an expression with the same value where each symbol is given the value of its definition and in which no blackboard symbol occurs.", "quantifier": "all sequences of blackboard operations and all expressions", "why_tests_cant": "Histories of arbitrary length.", "anchors": ["src/Blackboard.cc: insert_definition, get_definition, rewrite", "src/Blackboard.inlines.hh"]}
{"id": "C27", "title": "Blackboard: memoised rewriting and size computation equal the un-memoised ones", "statement": "The time-stamped caches never serve a stale value: at every point of every history of insertions and rewrites, the cached rewriting and cached size norm equal those computed from scratch.", "quantifier": "all histories of blackboard operations", "why_tests_cant": "Stale caches only show on particular interleavings.", "anchors": ["src/Blackboard.cc: rewrite(Definition&), size_norm(Definition&), Cached::timestamp"]}
{"id": "C28", "title": "Blackboard: finding a definition's symbol returns that symbol", "statement": "Looking up the symbol of an expression already defined returns a symbol whose definition is that expression.", "quantifier": "all histories of insertions", "why_tests_cant": "Depends on the order of names over arbitrarily long histories.", "anchors": ["src/Blackboard.cc: find_symbol"]}
{"id": "C29", "title": "System-generated symbols are replaced by fresh distinct names", "statement": "Replacing system-generated symbols by user-readable ones is injective and never captures a symbol already present in the expression.", "quantifier": "all expressions with any number of symbols", "why_tests_cant": "Unbounded number of symbols.", "anchors": ["src/Cached_Expr.cc: replace_system_generated_symbols, new_symbol_name", "src/Symbol.cc: is_system_generated"]}
{"id": "C30", "title": "Order reduction is exact", "statement": "When all decrements share a divisor g, the reduced recurrence in m with n = g m + r has solutions exactly the residue classes of solutions of the original recurrence, and composing the reduced solution with the floor/mod substitution yields a solution of the original one.", "quantifier": "all linear recurrences whose decrements have gcd g>1, all solutions, all n", "why_tests_cant": "All n and all recurrences.", "anchors": ["src/finite_order.cc: rewrite_factor, rewrite_term, write_reduced_order_recurrence, come_back_to_original_variable, write_expanded_solution"]}
{"id": "C31", "title": "Constant-coefficient linear recurrences: the closed form solves the recurrence", "statement": "The solution produced for a linear recurrence of finite order with constant coefficients (order 1, order 2 and the general formula with g_n) satisfies the recurrence for every n beyond the initial indices and takes the initial values.", "quantifier": "all coefficients, all non-homogeneous parts, all initial conditions, all n", "why_tests_cant": "Unbounded n and a continuum of coefficients.", "anchors": ["src/compute_exact_solution.cc: solve_constant_coeff_order_1, solve_constant_coeff_order_2, solve_constant_coeff_order_k, compute_term_about_initial_conditions", "src/finite_order.cc: find_g_n, compute_non_homogeneous_part"]}
{"id": "C32", "title": "First-order variable-coefficient recurrences: the closed form solves the recurrence", "statement": "The solution alpha!(n) (x(f) + sum_{k=f+1}^{n} p(k)/alpha!(k)) satisfies x(n)=alpha(n)x(n-1)+p(n) for all n>f and takes the initial value at f.", "quantifier": "all alpha nonvanishing beyond f, all p, all n", "why_tests_cant": "Arbitrary functions and n.", "anchors": ["src/compute_exact_solution.cc: solve_variable_coeff_order_1"]}
{"id": "C33", "title": "Non-linear recurrences x(n)=c x(n-1)^a", "statement": "The closed form returned for x(n) = c x(n-1)^a, symbolic in x(0) or with an initial condition x(k) = h, has the value of the solution for all n (from k on); the logarithms of a positive sequence satisfy the recorded linear recurrence exactly where the sequence satisfies the recurrence.", "quantifier": "all positive c, exponents a, initial values, n", "why_tests_cant": "All n.", "anchors": ["src/Recurrence.cc: compute_non_linear_recurrence", "src/rr_classifier.cc: rewrite_non_linear_recurrence"]}
{"id": "C34", "title": "Weighted-average recurrences reduce to first order", "statement": "A function satisfies the weighted-average recurrence x(n)=f(n) sum_{k=0}^{n-1} x(k) + g(n) iff it has the right initial value and satisfies the first-order recurrence it is rewritten to.", "quantifier": "all weights f, inhomogeneous terms g, all n", "why_tests_cant": "Arbitrary functions and n.", "anchors": ["src/rr_classifier.cc: rewrite_weighted_average_recurrence", "src/Recurrence.cc: compute_weighted_average_recurrence"]}
{"id": "C35", "title": "Eliminating negative decrements is an equivalence", "statement": "Rewriting a recurrence with x(n+m), m>0, on the right-hand side by shifting n and dividing by the leading coefficient preserves its set of solutions, wherever that coefficient does not vanish; the shift is the largest m.", "quantifier": "all right-hand sides, all functions", "why_tests_cant": "All functions on the integers.", "anchors": ["src/rr_classifier.cc: eliminate_negative_decrements, find_max_decrement_and_coeff"]}
{"id": "C36", "title": "Classification records the recurrence it was given", "statement": "When classification succeeds as a linear recurrence of finite order, the recorded order, coefficients and inhomogeneous part describe the same right-hand side: rhs = sum_i a_i x(n-i) + p(n), with repeated terms accumulated, and the order is the largest decrement.", "quantifier": "all linear right-hand sides", "why_tests_cant": "Any number and order of terms.", "anchors": ["src/rr_classifier.cc: classification_summand, insert_coefficients, compute_order, classify"]}
{"id": "C37", "title": "Functional equations: the recorded coefficients describe the right-hand side", "statement": "When classification succeeds as a functional equation, the recorded divisors and coefficients satisfy rhs = sum_i a_i x(n/b_i) + p(n).", "quantifier": "all right-hand sides made of x(n/b) terms", "why_tests_cant": "Any number and order of terms.", "anchors": ["src/rr_classifier.cc: classification_summand, classify, homogeneous_terms"]}
{"id": "C38", "title": "Upper bounds of functional equations hold at every n", "statement": "For x(n) <= a x(n/b) + p(n) the upper bound computed for each shape of p dominates every solution at all n >= 1.", "quantifier": "all a>0, b>1, all solutions and all n in the domain", "why_tests_cant": "Quantifies over all solutions and n.", "anchors": ["src/compute_bounds.cc: sharper_bounds_for_polynomial_function, compute_bounds_for_power_of_n, compute_bounds_for_power_times_logarithm_function"]}
{"id": "C39", "title": "Lower bounds of functional equations hold at every n", "statement": "The lower bound computed for each shape of p is below every solution at all n >= 1.", "quantifier": "all a>0, b>1, all solutions and all n in the domain", "why_tests_cant": "Quantifies over all solutions and n.", "anchors": ["src/compute_bounds.cc: sharper_bounds_for_polynomial_function, compute_bounds_for_power_of_n"]}
{"id": "C40", "title": "Verification verdict PROVABLY_CORRECT is sound for finite-order recurrences", "statement": "If verifying an exact solution answers PROVABLY_CORRECT then the solution satisfies the recurrence for all n and agrees with the initial conditions.", "quantifier": "all recurrences, candidate solutions and n", "why_tests_cant": "The verdict is about all n.", "anchors": ["src/verify.cc: verify_finite_order, traditional_step_3, verify_new_method_const_coeff, validate_initial_conditions"]}
{"id": "C41", "title": "Verification of weighted-average recurrences", "statement": "If verifying the solution of a weighted-average recurrence answers PROVABLY_CORRECT then the solution satisfies it.", "quantifier": "all weighted-average recurrences", "why_tests_cant": "The verdict is about all n.", "anchors": ["src/verify.cc: verify_weighted_average"]}
{"id": "C42", "title": "Initial conditions are validated before being accepted", "statement": "set_initial_conditions accepts a map exactly when it has enough conditions, of which the last k are consecutive and start where required, with non-negative values where required; an accepted map satisfies the documented constraints, and from then on evaluation uses it.", "quantifier": "all maps of initial conditions and all recurrences", "why_tests_cant": "All maps and call histories.", "anchors": ["src/Recurrence.inlines.hh: set_initial_conditions", "src/Recurrence.cc"]}
{"id": "C43", "title": "Changing initial conditions never leaves a stale evaluated solution", "statement": "After any sequence of calls, exact_solution() (with initial conditions set) equals the symbolic solution with the current initial conditions substituted.", "quantifier": "all call histories", "why_tests_cant": "Only histories expose stale caches.", "anchors": ["src/Recurrence.inlines.hh: exact_solution, lower_bound, upper_bound, reset_initial_conditions, set_initial_conditions"]}
{"id": "C44", "title": "Replacing the recurrence invalidates cached answers", "statement": "After replace_recurrence(e), a successful compute_exact_solution() returns a solution of e.", "quantifier": "all call histories", "why_tests_cant": "Only histories expose stale caches.", "anchors": ["src/Recurrence.inlines.hh: replace_recurrence", "src/Recurrence.cc: compute_exact_solution"]}
{"id": "C45", "title": "Queries before computation fail loudly", "statement": "After a successful computation the corresponding query answers for ever after; on a new recurrence every query throws; verification and the first valid index throw exactly when the queries they depend on throw.", "quantifier": "all call histories", "why_tests_cant": "All interleavings of calls.", "anchors": ["src/Recurrence.inlines.hh", "src/Recurrence.cc: first_valid_index_for_solution", "src/verify.cc: verify_exact_solution, verify_lower_bound, verify_upper_bound"]}
{"id": "C46", "title": "Evaluation over a range is pointwise evaluation", "statement": "Evaluating a solution over a half-open range returns, in order, the evaluations at each index, and rejects reversed ranges and indices before the first valid one.", "quantifier": "all ranges and kinds", "why_tests_cant": "All ranges.", "anchors": ["src/Recurrence.cc: evaluate, check_number_for_evaluation", "src/Recurrence.inlines.hh: evaluate_exact_solution"]}
{"id": "C47", "title": "Copies are independent", "statement": "Copying or assigning a recurrence yields an object whose observable answers are the source's, and destroying both is safe.", "quantifier": "all call histories over several objects", "why_tests_cant": "Object lifetimes and histories.", "anchors": ["src/Recurrence.inlines.hh: Recurrence(const Recurrence&), operator=, ~Recurrence"]}
{"id": "C48", "title": "Indefinite summation by Gosper's algorithm telescopes to the sum", "statement": "Whenever the full Gosper decision procedure returns a closed form it equals sum_{k=lower}^{n} t(k) for every n >= lower.", "quantifier": "all hypergeometric terms (ratio of consecutive terms a quotient of polynomials with rational coefficients), all bounds, all n", "why_tests_cant": "Unbounded n.", "anchors": ["src/gosper.cc: gosper_step_one, gosper_step_two, gosper_step_three, gosper_step_four"]}
{"id": "C49", "title": "Zeilberger's rational-function bookkeeping is exact", "statement": "The first two steps of Zeilberger's algorithm rewrite the term ratio without changing it.", "quantifier": "all hypergeometric terms and orders", "why_tests_cant": "All polynomials.", "anchors": ["src/zeilberger.cc: zeilberger_step_one, parametric_gosper_step_two"]}
{"id": "C50", "title": "Common factor extraction is exact", "statement": "Factorizing an expression into common factor and remainder preserves its value: common * remainder = e.", "quantifier": "all expressions and nonvanishing valuations", "why_tests_cant": "Arbitrary trees.", "anchors": ["src/factorize.cc: factorize"]}
{"id": "C51", "title": "Numerator/denominator splitting is exact", "statement": "Transforming an expression into numerator and denominator preserves its value.", "quantifier": "all expressions and nonvanishing valuations", "why_tests_cant": "Arbitrary trees.", "anchors": ["src/numerator_denominator.cc: transform_in_single_fraction, take_common_and_not_factors, find_factor_for_numerator"]}
{"id": "C52", "title": "Simplification on input keeps the value of powers", "statement": "For every expression in which the bases of powers with non-integer exponents are positive, the result of simplification on input, of simplifying a power and of collecting powers with equal or opposite exponents has the same value, for every integer n.", "quantifier": "all such expressions (also inside sums, products and functions), all integers n, all values of the other symbols", "why_tests_cant": "Unbounded depth, all values.", "anchors": ["src/simplify.cc: erase_factor, return_power, find_real_base_and_build_exponent, simplify_powers, collect_same_exponents, simplify_expanded_ex_for_input, simplify_ex_for_input"]}
{"id": "C53", "title": "Closed-form products are right", "statement": "The closed form computed for prod_{k=lower}^{n} e(k) equals the product for all n >= lower.", "quantifier": "all factors of the recognised shapes, all n", "why_tests_cant": "Unbounded n.", "anchors": ["src/compute_prod.cc: compute_product, compute_product_on_add, compute_product_on_power"]}
{"id": "C54", "title": "Interval operations are sound and exact", "statement": "Intersection of intervals is exact; emptiness, inclusion and equality tests are exact; the forall-comparisons and their three-valued versions are sound for every pair of members; integer tightening keeps exactly the integers; hull, rounding, negation, absolute value, sum and difference contain the results for all members.", "quantifier": "all intervals (open, closed, unbounded) over an ordered domain and all members", "why_tests_cant": "Continuum of members.", "anchors": ["src/Intervals/Interval.inlines.hh", "src/Intervals/Boundary.inlines.hh"]}
{"id": "C55", "title": "Conversion of big integers to machine integers", "statement": "The conversions of a number to int and to long return the same mathematical value exactly when it fits and fail otherwise; mod fails exactly for the modulus 0 and otherwise returns a congruent number below the modulus with its sign.", "quantifier": "all integers", "why_tests_cant": "Unbounded.", "anchors": ["src/Number.inlines.hh: to_int, to_long, mod"]}
{"id": "C56", "title": "Size norm is the tree size and is monotone", "statement": "size_norm counts the nodes of the expression and is smaller on proper subexpressions; the size the blackboard predicts is that of the expression with all definitions written out.", "quantifier": "all expressions", "why_tests_cant": "Arbitrary trees.", "anchors": ["src/size_norm_impl.hh: generic_size_norm", "src/Blackboard.cc: size_norm"]}
{"id": "C57", "title": "Non-decreasing test for functional equations is sound", "statement": "If the inhomogeneous part is accepted as non-negative and non-decreasing, then it is so for all n >= the returned condition.", "quantifier": "all expressions", "why_tests_cant": "Continuum of n.", "anchors": ["src/functional_equation.cc: is_non_negative_non_decreasing"]}
{"id": "C58", "title": "Domain search finds a valid start", "statement": "The index found for the domain of a denominator is beyond all of its natural-number zeros.", "quantifier": "all polynomials", "why_tests_cant": "All naturals beyond the index.", "anchors": ["src/util.cc: find_domain_in_N"]}
{"id": "C59", "title": "Renaming a symbol keeps the meaning of the blackboard", "statement": "After the system-generated symbols of a result are replaced by readable names, looking up a new name gives the definition of the symbol it replaced, and all other symbols keep theirs.", "quantifier": "all blackboards reachable by any sequence of operations, all sequences of replacements", "why_tests_cant": "Depends on the history of earlier replacements.", "anchors": ["src/Cached_Expr.cc: replace_system_generated_symbols", "src/Blackboard.inlines.hh: substitute"]}
{"id": "C60", "title": "The first valid index for the solution is the one the solution is valid from", "statement": "first_valid_index_for_solution() is, for a recurrence of finite order k with initial conditions, the larger of the first valid index and the smallest index of the last k conditions; one more than the larger of the first valid index and the last condition for weighted averages; the first valid index otherwise.", "quantifier": "all call histories, all accepted sets of initial conditions", "why_tests_cant": "Depends on the history of calls and on unbounded maps.", "anchors": ["src/Recurrence.cc: set_first_valid_index_for_solution", "src/Recurrence.inlines.hh: first_valid_index_for_solution"]}
{"id": "C61", "title": "The solution can be evaluated wherever it is valid", "statement": "Every index from first_valid_index_for_solution() on can be evaluated, and the value is numeric once initial conditions are given.", "quantifier": "all objects and indices", "why_tests_cant": "Unbounded indices and call histories.", "anchors": ["src/Recurrence.cc: check_number_for_evaluation, evaluate"]}
{"id": "C62", "title": "The root finder returns exactly the roots of the polynomial", "statement": "When find_roots succeeds on an integer polynomial, the values appended to the vector are exactly its complex roots, the recorded multiplicities are the multiplicities of the roots, and all_distinct is set only if the values are pairwise distinct.", "quantifier": "all non-constant integer polynomials", "why_tests_cant": "Unbounded degrees and coefficients; values in the complex numbers.", "anchors": ["src/alg_eq_solver.cc: find_roots, find_power_roots"]}
{"id": "C63", "title": "The linear systems set up by the solver always have a solution", "statement": "For a linear recurrence with constant coefficients whose characteristic roots and multiplicities are known, the linear system for the coefficients of the special solution of every term poly(n)*base^n, and the linear system for the constants of the general solution, both have a solution.", "quantifier": "all orders, roots, multiplicities, polynomials, bases and initial values", "why_tests_cant": "Unbounded order, degree and values.", "anchors": ["src/compute_exact_solution.cc: compute_special_solution, solve_linear_finite_order"]}
{"id": "C64", "title": "The constant-coefficient solver is right end to end", "statement": "For every linear recurrence of finite order with rational constant coefficients and inhomogeneous term a combination of polynomials times exponentials, from the coefficients through the characteristic equation, its roots and the constants, the expression returned as exact solution equals the sequence defined by the recurrence at every index from the first valid index on.", "quantifier": "all coefficient vectors, inhomogeneous terms, sequences, indices", "why_tests_cant": "Unbounded order and index.", "anchors": ["src/finite_order.cc: build_characteristic_equation", "src/alg_eq_solver.cc: find_roots", "src/compute_exact_solution.cc: solve_linear_finite_order"]}
{"id": "C65", "title": "The inhomogeneous part recorded by the classification is known", "statement": "When classification succeeds, neither the recorded coefficients nor the recorded inhomogeneous part contain the unknown applied to an expression with n.", "quantifier": "all right-hand sides", "why_tests_cant": "Any number, nesting and order of terms.", "anchors": ["src/rr_classifier.cc: classification_summand, find_non_linear_term, x_function_in_powers_or_functions"]}
{"id": "C66", "title": "Classification accepts linear and functional recurrences and refuses with a true reason", "statement": "Every expanded right-hand side that is a sum of products of known factors with at most one x(n-d) each (or at most one x(qn) each) is accepted; every refusal status (null, negative, too large or non-integer decrement, malformed, indeterminate, unsolvable) corresponds to a term of that kind in the right-hand side.", "quantifier": "all right-hand sides", "why_tests_cant": "Any number and order of terms.", "anchors": ["src/rr_classifier.cc: classification_summand, compute_order, classify"]}
{"id": "C67", "title": "Eliminating x(n) from the right-hand side is an equivalence", "statement": "Rewriting x(n) = a x(n) + b into standard form preserves the set of solutions; the answer 'unsolvable' means that there is no solution, the answer 'indeterminate' that every sequence is a solution; the whole rewriting ends with a recurrence equivalent to the given one.", "quantifier": "all right-hand sides, all functions", "why_tests_cant": "All functions on the integers.", "anchors": ["src/rr_classifier.cc: eliminate_null_decrements, find_coeff_x_n_and_remainder, classify_and_catch_special_cases"]}
{"id": "C68", "title": "A recurrence that cannot be classified is always refused, for the same reason", "statement": "If classification refuses a right-hand side then, after any sequence of calls on the object, each compute_* call answers the documented status for that reason, no solution or bound can be read and no initial condition is accepted.", "quantifier": "all right-hand sides refused by the classifier, all histories of calls", "why_tests_cant": "All histories of calls.", "anchors": ["src/Recurrence.cc: map_status, compute_exact_solution, compute_lower_bound, compute_upper_bound, set_initial_conditions"]}
{"id": "C69", "title": "Upper bounds of divide-and-conquer equations with polynomial-logarithmic costs", "statement": "For x(n) = a x(n/b) + g(n), a > 0, integer b >= 2, g a sum of terms c n^k and c n^k log(n) with c > 0, the upper bound is computed (if the numerical comparisons it needs are decided) and, for every n >= b, it dominates every solution with non-negative initial conditions.", "quantifier": "all coefficients, divisors, sums of such terms, solutions, n", "why_tests_cant": "All real solutions and all n.", "anchors": ["src/compute_bounds.cc: approximate_functional_equation, sharper_bounds_for_polynomial_function, sharper_bounds_for_no_polynomial_function"]}
{"id": "C70", "title": "Lower bounds of divide-and-conquer equations in the balanced range", "statement": "For x(n) = a x(n/b) + g(n), g a sum of terms c n^k with c > 0 and k = 0, or k >= 1 and b^(k-1) <= a <= b^k, or 0 < k < 1 and (a <= 1 or a > b^k), the lower bound is computed and, for every n >= b, it is below every solution with non-negative initial conditions.", "quantifier": "all coefficients, divisors, sums of such terms, solutions, n", "why_tests_cant": "All real solutions and all n.", "anchors": ["src/compute_bounds.cc: approximate_functional_equation, compute_bounds_for_power_of_n"]}
{"id": "C71", "title": "Bounds of homogeneous functional equations", "statement": "For x(n) = a x(n/b) both bounds are computed and enclose every solution with non-negative initial conditions, for every n >= b.", "quantifier": "all coefficients, divisors, solutions, n", "why_tests_cant": "All real solutions and all n.", "anchors": ["src/compute_bounds.cc: compute_term_about_initial_condition"]}
{"id": "C72", "title": "Verification of bounds is sound", "statement": "If verifying the lower (upper) bound of a functional equation answers PROVABLY_CORRECT then the expression is a lower (upper) bound of the solution for every n in the range of validity.", "quantifier": "all functional equations, candidate bounds, n", "why_tests_cant": "All candidates and all n.", "anchors": ["src/verify.cc: verify_bound, verify_lower_bound, verify_upper_bound", "src/util.cc: has_only_symbolic_initial_conditions"]}
{"id": "C73", "title": "Verification by substitution is sound for recurrences with variable coefficients", "statement": "For a linear recurrence of finite order with non-constant coefficients, if the simplification steps used preserve values, the answer PROVABLY_CORRECT for a candidate implies that it equals every solution at all indices from the first valid one on; with given initial conditions it implies that it equals every solution that takes the last `order` of the given values, from the first of these on.", "quantifier": "all such recurrences, candidates, solutions, indices", "why_tests_cant": "All orders, candidates and indices.", "anchors": ["src/verify.cc: verify_finite_order, traditional_step_3, validate_initial_conditions, split_solution, fill_vector_coefficients_i_c"]}
{"id": "C74", "title": "Evaluation of floor, binomial coefficients and sums and products with numeric bounds", "statement": "floor(q) of a rational number, binom(p, k) of a rational and a natural number, sum(i, a, b, e) with integer bounds and prod(i, a, b, e) with rational bounds are evaluated to their mathematical values; other numeric arguments are rejected.", "quantifier": "all rational arguments and bounds, all bodies in which the index is not bound again, all values of the symbols", "why_tests_cant": "Infinitely many numbers and bounds.", "anchors": ["src/Expr.cc: floor_eval, binom_eval, sum_eval, prod_eval"]}
{"id": "C75", "title": "Gosper's algorithm decides whether a closed form exists", "statement": "For a hypergeometric term whose ratio of consecutive terms is a quotient of coprime polynomials with rational coefficients: whenever the algorithm answers, it answers with a closed form if and only if some rational multiple of the term has the term as its differences; in particular the symbolic sum is returned only if there is no such closed form.", "quantifier": "all coprime polynomials f, g, all terms t with g(k) t(k+1) = f(k) t(k), all rational multiples", "why_tests_cant": "All terms and all rational functions.", "anchors": ["src/gosper.cc: gosper_algorithm, compute_resultant_and_its_roots, gosper_step_two, gosper_step_three, find_polynomial_solution"]}
{"id": "C76", "title": "Creative telescoping finds recurrences that the sums satisfy", "statement": "If for a hypergeometric F(m,k) coefficients a_0..a_J are found, then at every m that is no zero of a denominator sum_j a_j F(m+j,k) is the difference of consecutive values (in k) of a rational multiple of F(m,k); hence the sums of F(m+j,k) over a range of k satisfy the recurrence up to two boundary terms, and exactly if these vanish.", "quantifier": "all hypergeometric terms, orders and ranges of k", "why_tests_cant": "All terms and ranges.", "anchors": ["src/zeilberger.cc: zeilberger_for_fixed_order, parametric_gosper_step_three"]}
{"id": "C77", "title": "The closed form returned by Zeilberger's algorithm is the sum", "statement": "If Zeilberger's algorithm returns a closed form then it is the sum of F(n,k) over all k, for every n.", "quantifier": "all terms F, all n", "why_tests_cant": "All terms and n.", "anchors": ["src/zeilberger.cc: zeilberger_for_fixed_order, zeilberger_algorithm"]}
{"id": "C78", "title": "Radicals in standard form keep their value", "statement": "The standard form of the k-th root of a positive rational number, and of the k-th root of a negative number for odd k other than 1 and -1, denotes the real root; the product of two powers of positive rational numbers, and of any product whose numeric powers have positive bases, keeps its value.", "quantifier": "all positive rational numbers, exponents and products", "why_tests_cant": "Infinitely many radicands and indices.", "anchors": ["src/simplify.cc: to_std_form, reduce_to_standard_form, red_prod, reduce_product"]}
{"id": "C79", "title": "Radicals of negative numbers keep their value", "statement": "The standard form of the k-th root of a negative number is a k-th root of that number, and products with powers of negative numbers keep their value.", "quantifier": "all negative rational numbers and indices", "why_tests_cant": "Infinitely many radicands and indices.", "anchors": ["src/simplify.cc: reduce_to_standard_form, red_prod, reduce_product"]}
{"id": "C80", "title": "The standard form of a radical is unique", "statement": "Two radicals of positive rational numbers of equal value have the same standard form; the remaining radicand has no factor that is a perfect power of the index.", "quantifier": "all positive rational numbers and indices", "why_tests_cant": "Infinitely many radicands and indices.", "anchors": ["src/simplify.cc: to_std_form, reduce_to_standard_form"]}
{"id": "C81", "title": "Collecting equal bases keeps the value", "statement": "Collecting the powers with equal bases in a product, including a factor that is itself such a base, gives an expression of equal value.", "quantifier": "all products of powers of positive bases and integer powers of non-zero bases, all values of the symbols", "why_tests_cant": "All products and values.", "anchors": ["src/simplify.cc: collect_same_base, collect_base_exponent"]}
{"id": "C82", "title": "Simplification of nested powers keeps the value for all real values of the symbols", "statement": "Rewriting a nested power on input keeps the value wherever the power is defined over the real numbers.", "quantifier": "all powers, all real values of the symbols", "why_tests_cant": "All expressions and values.", "anchors": ["src/simplify.cc: simplify_powers, find_real_base_and_build_exponent"]}
{"id": "C83", "title": "Factorials of shifted arguments keep their value when they are decomposed", "statement": "The factorial of a sum with one integer addend is rewritten as the factorial of the rest times (or divided by) the missing factors; the value is unchanged wherever no missing factor vanishes, in particular for all natural arguments.", "quantifier": "all sums with one integer addend, all values of the symbols", "why_tests_cant": "Infinitely many shifts and values.", "anchors": ["src/simplify.cc: decompose_factorial"]}
{"id": "C84", "title": "Binomial coefficients keep their value when they are rewritten", "statement": "A binomial coefficient whose lower argument is a natural number k and whose upper argument is a natural number not smaller than k, or a negative integer numeral, has the same value after it is rewritten by means of factorials.", "quantifier": "all expressions for the two arguments, all integer values", "why_tests_cant": "Infinitely many arguments, symbolic and numeric.", "anchors": ["src/simplify.cc: rewrite_binomials"]}
{"id": "C85", "title": "Simplification of binomials, factorials and exponentials keeps the value", "statement": "The simplification of binomial coefficients, factorials and exponentials in an expression keeps its value, at any depth, also inside powers, functions, sums and products.", "quantifier": "all expressions, all values of the symbols for which the binomial coefficients and factorials met are defined as in C83 and C84 and the bases of powers are positive or have integer exponents", "why_tests_cant": "Unbounded depth, all values.", "anchors": ["src/simplify.cc: rewrite_binomials, rewrite_factorials_and_exponentials, simplify_binomials_factorials_exponentials"]}
{"id": "C86", "title": "Sums of polynomials times exponentials are computed right", "statement": "The closed form computed for a symbolic sum from a natural number to m + h, whose summand is a combination of polynomials times exponentials of the index with bases other than 1 and does not contain m (or h is 0), has the value of the sum for every natural value of the upper limit.", "quantifier": "all such summands, lower limits, upper limits and values of the symbols", "why_tests_cant": "Infinitely many summands, limits and values.", "anchors": ["src/simplify.cc: compute_sum", "src/sum_poly.cc: sum_poly_times_exponentials", "src/ep_decomp.cc: exp_poly_decomposition"]}
{"id": "C87", "title": "Simplification of symbolic sums keeps the value", "statement": "Computing the symbolic sums of an expression gives an expression of equal value, for every summand, every integer lower limit and every symbolic upper limit.", "quantifier": "all expressions with symbolic sums, all values of the symbols", "why_tests_cant": "Infinitely many summands, limits and values.", "anchors": ["src/simplify.cc: compute_sum, split_sum, simplify_sum_in_expanded_ex, simplify_sum"]}
{"id": "C88", "title": "Rewriting upper limits of sums keeps the value", "statement": "A symbolic sum up to s + c (s a symbol, c an integer) rewritten as the sum up to s plus or minus single terms has the same value, as long as both upper limits are at least the lower limit minus 1; so does every expression in which all such sums are rewritten.", "quantifier": "all summands, integers c, integer values of the limits", "why_tests_cant": "Infinitely many shifts, summands and values.", "anchors": ["src/simplify.cc: split_sum, get_out_factors_from_argument, simplify_sum_in_expanded_ex, simplify_sum"]}
{"id": "C89", "title": "Collecting symbolic sums keeps the value", "statement": "Merging all the multiples of symbolic sums from 1 to n of an expression into one sum keeps the value for every natural n, provided the merged sum is in the domain of the simplification of sums; exactly those sums are merged, if there are at least two.", "quantifier": "all sums of expressions, all natural n, all values of the other symbols", "why_tests_cant": "Unbounded number of addends, all values.", "anchors": ["src/simplify.cc: simplify_collect_sums_in_expanded_ex, simplify_collect_sums"]}
{"id": "C90", "title": "Elementary properties of the logarithm keep its value", "statement": "The logarithm of a positive expression rewritten with the rules for powers, products, quotients and for numbers with equal prime exponents has the same value; the logarithm of a power of a positive integer b^x is x times the logarithm of b.", "quantifier": "all positive expressions, all values of the symbols, all depths of nesting", "why_tests_cant": "Infinitely many expressions and values.", "anchors": ["src/simplify.cc: factorize_base_arg_log, logarithm_of_product, apply_elementary_prop"]}
{"id": "C91", "title": "The perfect power test ends and is right", "statement": "For positive rational numbers a and c the search for an integer b with a^b = c ends; the b it reports satisfies a^b = c, and when it reports none there is no b other than 0 with a^b = c.", "quantifier": "all positive rational numbers a and c", "why_tests_cant": "The loops have no bound; infinitely many pairs.", "anchors": ["src/simplify.cc: is_perfect_power"]}
{"id": "C92", "title": "Simplifying quotients of logarithms keeps the value", "statement": "Replacing log(a/b) / log(b/a) by -1 in a product keeps the value of the product, whatever the number of logarithms and of inverses of logarithms in it.", "quantifier": "all products, all values of the symbols", "why_tests_cant": "Unbounded number of factors, all values.", "anchors": ["src/simplify.cc: simpl_quotient_of_logs"]}
{"id": "C93", "title": "The rules for powers with logarithms in the exponent keep the value", "statement": "Rewriting a power with a^(c log(b)) = b^(c log(a)), (a^b)^(log(c)/log(a)) = c^b or e^(c log(b)) = b^c keeps its value.", "quantifier": "all powers with positive bases and arguments of logarithms, all values of the symbols", "why_tests_cant": "Infinitely many powers and values.", "anchors": ["src/simplify.cc: prepare_simpl_power_in_logarithm"]}
{"id": "C94", "title": "Simplification of logarithms keeps the value", "statement": "The simplification of the logarithms of an expression gives an expression with the same value, for all values of the symbols for which the expression is defined.", "quantifier": "all expressions, all values of the symbols", "why_tests_cant": "Infinitely many expressions and values.", "anchors": ["src/simplify.cc: simplify_logarithm_in_expanded_ex, simplify_logarithm"]}
{"id": "C95", "title": "Simplification of logarithms ends", "statement": "The simplification of the logarithms of an expression ends on every expression: there is no infinite chain of nested calls, and exactly one function satisfies the equations of the code.", "quantifier": "all expressions", "why_tests_cant": "Nested calls on arguments that are not parts of the expression; infinitely many expressions.", "anchors": ["src/simplify.cc: simplify_logarithm_in_expanded_ex, apply_elementary_prop, prepare_simpl_power_in_logarithm, simpl_quotient_of_logs"]}
{"id": "C96", "title": "Simplification for output keeps the value", "statement": "The form of an expression prepared for output (powers simplified, exponentials merged, products of roots reduced, powers with equal bases or exponents collected) has the same value as the expression.", "quantifier": "all expressions, all values of the symbols for which it is defined", "why_tests_cant": "Infinitely many expressions and values.", "anchors": ["src/simplify.cc: manip_factor, simplify_expanded_ex_for_output, simplify_ex_for_output"]}
{"id": "C97", "title": "All simplifications together keep the value", "statement": "Applying all simplifications one after the other gives an expression with the same value as the original one, for every natural number n and all values of the other symbols for which it is defined.", "quantifier": "all expressions, all natural n, all values of the symbols", "why_tests_cant": "Infinitely many expressions and values; five stages that each rewrite the output of the previous one.", "anchors": ["src/simplify.cc: simplify_all, simplify_numer_denom"]}
{"id": "C98", "title": "Sums of polynomial times sine", "statement": "The closed form for sum p(k) alpha^k sin(k theta) equals that sum for every n.", "quantifier": "all polynomials, alpha, theta, n", "why_tests_cant": "Continuum of parameters.", "anchors": ["src/sum_poly.cc: sum_poly_times_exponentials_times_sin"]}
{"id": "C99", "title": "The Euclidean resultant is the resultant", "statement": "The resultant computed by repeated division equals the determinant of the Sylvester matrix, and vanishes exactly when the polynomials have a common root.", "quantifier": "all pairs of polynomials", "why_tests_cant": "Unbounded degrees and coefficients.", "anchors": ["src/util.cc: resultant"]}
{"id": "C100", "title": "Substitution does not capture bound indices", "statement": "Substituting an expression for a symbol gives, also inside symbolic sums and products, the value of the expression with the symbol re-bound to the value of the replacement.", "quantifier": "all expressions, symbols, replacements, valuations", "why_tests_cant": "Arbitrary nesting of sums.", "anchors": ["src/Expr.cc: substitute"]}
{"id": "C101", "title": "Distribution leaves no product of a sum", "statement": "After distributing multiplication over addition no product in the result, at any depth, has a sum as a factor.", "quantifier": "all expressions", "why_tests_cant": "Arbitrary nesting.", "anchors": ["src/Expr.cc: distribute_mul_over_add"]}
{"id": "C102", "title": "Integer and rational polynomial tests are sound", "statement": "If an expression is declared an integer (rational) polynomial in x, then its value as a function of x is given by a polynomial with integer (rational) coefficients.", "quantifier": "all expressions and valuations", "why_tests_cant": "Arbitrary trees.", "anchors": ["src/Expr.cc: is_integer_polynomial, is_rational_polynomial, is_rational_scalar_representation"]}
{"id": "C103", "title": "Collected coefficients are free of the term", "statement": "After collecting a term, the coefficient of the term does not contain it.", "quantifier": "all expressions and terms", "why_tests_cant": "Arbitrary trees.", "anchors": ["src/Expr.cc: collect_term"]}
{"id": "C104", "title": "Renaming on the blackboard leaves no dangling symbol", "statement": "After a symbol of the blackboard is renamed, every symbol used in a definition is still defined.", "quantifier": "all histories of blackboard operations", "why_tests_cant": "Unbounded histories.", "anchors": ["src/Blackboard.cc"]}
{"id": "C105", "title": "Non-linear recurrences with products of powers", "statement": "A recurrence whose right-hand side is a product of powers of previous values is rewritten into a linear recurrence for the logarithms such that the exponential of a solution of the linear one solves the given one.", "quantifier": "all right-hand sides, positive sequences, n", "why_tests_cant": "All n, all right-hand sides.", "anchors": ["src/Recurrence.cc: compute_non_linear_recurrence", "src/rr_classifier.cc: rewrite_non_linear_recurrence"]}
{"id": "C106", "title": "The solution returned for a weighted-average recurrence satisfies it", "statement": "The closed form returned for a weighted-average recurrence satisfies the recurrence for all n from the lower limit on.", "quantifier": "all weights, inhomogeneous terms, limits, n", "why_tests_cant": "All n.", "anchors": ["src/Recurrence.cc: compute_weighted_average_recurrence", "src/rr_classifier.cc: rewrite_weighted_average_recurrence"]}
{"id": "C107", "title": "Legal initial conditions are accepted, and a rejected call changes nothing", "statement": "Every map of initial conditions satisfying the documented constraints is accepted; after a rejected call the recurrence keeps its previous conditions and answers.", "quantifier": "all maps of initial conditions and call histories", "why_tests_cant": "All maps and call histories.", "anchors": ["src/Recurrence.inlines.hh: set_initial_conditions"]}
{"id": "C108", "title": "Without a successful computation every query throws", "statement": "If no computation of a result has succeeded so far, the query for this result throws.", "quantifier": "all call histories", "why_tests_cant": "All interleavings of calls.", "anchors": ["src/Recurrence.inlines.hh", "src/Recurrence.cc"]}
{"id": "C109", "title": "Interval minimum, maximum, square and strict bounds are sound", "statement": "The minimum, maximum and square of intervals contain the minimum, maximum and square of all members, and a strict lower bound excludes exactly the values that are not greater.", "quantifier": "all intervals and all members", "why_tests_cant": "Continuum of members.", "anchors": ["src/Intervals/Interval.inlines.hh"]}
{"id": "C110", "title": "Conversion to unsigned integers", "statement": "The conversion of a number to unsigned int returns the same mathematical value when it is a natural number that fits, and fails otherwise.", "quantifier": "all rational numbers", "why_tests_cant": "Unbounded.", "anchors": ["src/Number.inlines.hh: to_unsigned_int"]}
{"id": "C111", "title": "The size predicted by the blackboard is that of the rewritten expression", "statement": "The size predicted by the blackboard for an expression is the size of the expression obtained by rewriting it.", "quantifier": "all histories and expressions", "why_tests_cant": "Arbitrary trees.", "anchors": ["src/Blackboard.cc: size_norm, rewrite"]}
{"id": "C112", "title": "Factorisation into polynomials, whatever the size of the coefficients", "statement": "The factors returned for a square-free integer polynomial multiply, up to a constant, to the polynomial, whatever the size of their coefficients (as long as they fit a long).", "quantifier": "all square-free integer polynomials with coefficients that fit a long", "why_tests_cant": "Infinitely many polynomials; the error shows only for coefficients of 2^31 (2^24 on 32-bit machines) or more and, by the rules of the language, the conversion is undefined for every 64-bit long.", "anchors": ["src/poly_factor.cc: ZZ_to_long, poly_factor"]}
{"id": "C113", "title": "Factorisation into polynomials with small coefficients", "statement": "If the coefficients of the factors are less than 2^31 in absolute value (on x86-64; less than 2^24 where long has four bytes), the returned factors are non-constant and multiply, up to a constant, to the polynomial; when no factorisation is found the answer is 1 and no factor is returned.", "quantifier": "all square-free integer polynomials, all their factorisations", "why_tests_cant": "Infinitely many polynomials.", "anchors": ["src/poly_factor.cc: poly_factor, ZZ_to_long"]}
{"id": "C114", "title": "Linear recurrences: the solution on given initial conditions", "statement": "If as many consecutive initial conditions as the order are given, at or after the first valid index, then the solution evaluated on them contains no symbolic initial condition and its value at every index from the first of these conditions on is that of the sequence determined by the recurrence and the conditions, also when the conditions are given for later indices than the symbolic ones (the linear system that is then solved always has exactly one solution).", "quantifier": "all linear recurrences of finite order with invertible lowest coefficient, their correct symbolic solutions, all conditions, all indices", "why_tests_cant": "All orders, all offsets of the conditions.", "anchors": ["src/Recurrence.cc: compute_solution_linear_finite_order_on_i_c"]}
{"id": "C115", "title": "Accepted initial conditions determine the solution of linear recurrences", "statement": "Every map of initial conditions accepted for a linear recurrence of finite order yields a solution without symbolic initial conditions.", "quantifier": "all maps of initial conditions that are accepted", "why_tests_cant": "All maps of conditions.", "anchors": ["src/Recurrence.inlines.hh: set_initial_conditions", "src/Recurrence.cc: compute_solution_linear_finite_order_on_i_c"]}
{"id": "C116", "title": "Non-linear recurrences: the solution on given initial conditions", "statement": "The solution of a non-linear recurrence evaluated on accepted initial conditions is the sequence determined by the recurrence and the conditions.", "quantifier": "all non-linear recurrences that are rewritten as linear ones, all accepted conditions", "why_tests_cant": "All orders and conditions, including conditions that are zero.", "anchors": ["src/Recurrence.cc: compute_solution_non_linear_finite_order_on_i_c"]}
{"id": "C117", "title": "Weighted averages: the sum restarted at the last initial condition", "statement": "For a weighted-average recurrence and a condition at an index m, the solution evaluated on the condition is, for every n > m, the solution of the recurrence in which the sum starts at m (with the given value at m); it contains no symbolic initial condition.", "quantifier": "all weighted-average recurrences, conditions and indices", "why_tests_cant": "All indices of the condition.", "anchors": ["src/Recurrence.cc: compute_solution_weighted_average_on_i_c"]}
{"id": "C118", "title": "Weighted averages on initial conditions satisfy the given recurrence", "statement": "The solution of a weighted-average recurrence evaluated on accepted initial conditions satisfies the recurrence the user gave.", "quantifier": "all weighted-average recurrences and accepted conditions", "why_tests_cant": "All indices of the condition.", "anchors": ["src/Recurrence.cc: compute_solution_weighted_average_on_i_c", "src/Recurrence.inlines.hh: set_initial_conditions"]}
{"id": "C119", "title": "Closed forms of the sums in the bounds for functional equations", "statement": "In the bounds of x(n) = a x(n/b) + g(n), the expression that stands for a sum over the levels of the recursion of a term of g has the value of that sum at every integer (lower bounds: the sum of a^(q-k) g(b^k) for k from 1 to q; upper bounds: of a^(q-k) g(b^k - 1) for k from 2 to q), or at least bounds it from the right side.", "quantifier": "all terms of the inhomogeneous part, all coefficients and divisors, all numbers of levels", "why_tests_cant": "All numbers of levels; closed forms for polynomials times exponentials.", "anchors": ["src/compute_bounds.cc: compute_sum", "src/compute_bounds.cc: try_to_compute_sum"]}
{"id": "C120", "title": "Lower bounds for divide-and-conquer recurrences whose coefficient exceeds b^k", "statement": "For x(n) = a x(n/b) + g(n) with non-negative initial values, g a sum of terms c n^k with positive c, each with k = 0, b^(k-1) <= a <= b^k or k a positive integer with b^k < a, the reported lower bound is not greater than the value of any function satisfying the recurrence, at every n >= b.", "quantifier": "all such coefficients, divisors and inhomogeneous parts, all functions satisfying the recurrence, all indices", "why_tests_cant": "All functions satisfying the recurrence, all indices.", "anchors": ["src/compute_bounds.cc: approximate_functional_equation", "src/compute_bounds.cc: compute_sum", "src/compute_bounds.cc: try_to_compute_sum"]}
{"id": "C121", "title": "x(n) = c x(n-1)^a on given initial conditions", "statement": "For x(n) = c x(n-1)^a and accepted initial conditions whose last one is x(L) = v, the solution evaluated on them contains no symbolic initial condition and has, at every n >= L, the value of the sequence with that value at L that satisfies the recurrence from L + 1 on: for integer a >= 2 and every v (also 0), and for rational a other than 1 with c and v positive.", "quantifier": "all c, a, maps of conditions, indices", "why_tests_cant": "All exponents, conditions and indices.", "anchors": ["src/Recurrence.cc: compute_solution_non_linear_finite_order_on_i_c", "src/Recurrence.cc: compute_non_linear_recurrence"]}
{"id": "C122", "title": "Bounds of x(n) = x(n/b)^a for all positive initial values", "statement": "The lower (upper) bound reported for x(n) = x(n/b)^a is below (above) every sequence of positive numbers that satisfies the recurrence, at every n >= 1.", "quantifier": "all a > 0, a <> 1, b >= 2, all positive sequences satisfying the recurrence, all n", "why_tests_cant": "All sequences and indices.", "anchors": ["src/Recurrence.cc: compute_non_linear_recurrence", "src/compute_bounds.cc: approximate_functional_equation"]}
{"id": "C123", "title": "Bounds of x(n) = x(n/b)^a for initial values not below 1", "statement": "For every rational a > 0 other than 1 and integer b >= 2 both bounds of x(n) = x(n/b)^a are computed, and they hold at every n >= 1 for every sequence that satisfies the recurrence and has initial values x(1), ..., x(b-1) >= 1.", "quantifier": "all a, b, all such sequences, all n", "why_tests_cant": "All sequences and indices.", "anchors": ["src/Recurrence.cc: compute_non_linear_recurrence", "src/compute_bounds.cc: approximate_functional_equation"]}
{"id": "C124", "title": "Bounds of functional equations on given initial conditions", "statement": "When initial conditions are accepted for a functional equation, the bounds evaluated on them contain no symbolic initial condition, and they bound every function that satisfies the equation and has these initial values.", "quantifier": "all functional equations and accepted maps of conditions", "why_tests_cant": "All bounds, conditions and indices.", "anchors": ["src/Recurrence.cc: compute_solution_or_bound_on_i_c", "src/Recurrence.cc: compute_bound_functional_equation_on_i_c", "src/Recurrence.cc: set_initial_conditions"]}
{"id": "C125", "title": "Interval products are sound", "statement": "The product of two intervals, or of an interval and a number, contains every product of members, whatever the signs, the open and infinite boundaries and the types.", "quantifier": "all intervals in normal form, all members", "why_tests_cant": "All intervals and members.", "anchors": ["src/Intervals/Interval.cc", "src/Intervals/Interval.inlines.hh", "src/Intervals/Boundary.inlines.hh"]}
{"id": "C126", "title": "Interval quotients are sound", "statement": "The quotient of two intervals contains every quotient of a member of the first by a non-zero member of the second.", "quantifier": "all intervals in normal form, all members", "why_tests_cant": "All intervals and members.", "anchors": ["src/Intervals/Interval.cc", "src/Intervals/Interval.inlines.hh", "src/Intervals/Boundary.inlines.hh"]}
{"id": "C127", "title": "Interval quotients are sound for divisors of one sign or reals around 0", "statement": "If the divisor has no negative member, or is an interval of reals that contains 0, or stays below a negative number, or consists of 0 and smaller numbers, or is one number, the quotient contains every quotient of members, and the integer quotient every truncated quotient, and mod every r - s * trunc(r / s).", "quantifier": "all intervals in normal form, all such divisors, all members", "why_tests_cant": "All intervals and members.", "anchors": ["src/Intervals/Interval.cc", "src/Intervals/Interval.inlines.hh", "src/Intervals/Boundary.inlines.hh"]}
{"id": "C128", "title": "Square root, exponential and logarithm of intervals", "statement": "sqrt, exp and log of an interval contain the images of all members in the domain of the function; for an interval of reals they contain nothing else, and they are empty when no member is in the domain.", "quantifier": "all intervals in normal form, all members", "why_tests_cant": "All intervals and members.", "anchors": ["src/Intervals/Interval.cc", "src/Intervals/Interval.inlines.hh", "src/Intervals/Boundary.inlines.hh"]}
{"id": "C129", "title": "Interval powers are sound", "statement": "The power of an interval to an interval contains every real power of a member by a member, for positive bases.", "quantifier": "all intervals in normal form, all members", "why_tests_cant": "All intervals and members.", "anchors": ["src/Intervals/Interval.cc", "src/Intervals/Interval.inlines.hh", "src/Intervals/Boundary.inlines.hh"]}
{"id": "C130", "title": "Interval powers are sound for the exponents the code handles", "statement": "The power of intervals contains the powers of members when the exponent is not one number, is one natural number, is one positive number (base of reals, members not negative), or is one negative number that is not an integer (base of reals above a positive number).", "quantifier": "all intervals in normal form, all members", "why_tests_cant": "All intervals and members.", "anchors": ["src/Intervals/Interval.cc", "src/Intervals/Interval.inlines.hh", "src/Intervals/Boundary.inlines.hh"]}
{"id": "C131", "title": "Cosine and sine of intervals are sound", "statement": "The cosine (sine) of an interval contains the cosine (sine) of every member.", "quantifier": "all intervals in normal form, all members", "why_tests_cant": "All intervals and members.", "anchors": ["src/Intervals/Interval.cc", "src/Intervals/Interval.inlines.hh", "src/Intervals/Boundary.inlines.hh"]}
{"id": "C132", "title": "Widening contains the new interval and stops", "statement": "The widening of an interval contains the new interval, is in normal form, and every chain of widenings of growing intervals becomes constant; for intervals of reals it changes at most 14 times.", "quantifier": "all intervals in normal form, all infinite chains", "why_tests_cant": "All chains of intervals.", "anchors": ["src/Intervals/Interval.cc", "src/Intervals/Interval.inlines.hh", "src/Intervals/Boundary.inlines.hh"]}
{"id": "C133", "title": "Narrowing stays between the new and the old interval and stops", "statement": "The narrowing of an interval by one inside it lies between the two, is in normal form when the types agree, and every chain of narrowings changes at most 14 times.", "quantifier": "all intervals in normal form of the same type, all infinite chains", "why_tests_cant": "All chains of intervals.", "anchors": ["src/Intervals/Interval.cc", "src/Intervals/Interval.inlines.hh", "src/Intervals/Boundary.inlines.hh"]}
{"id": "C134", "title": "Narrowing keeps the normal form for intervals of different types", "statement": "The narrowing of an interval of reals by an interval of integers inside it is in normal form.", "quantifier": "all intervals in normal form", "why_tests_cant": "All intervals.", "anchors": ["src/Intervals/Interval.cc", "src/Intervals/Interval.inlines.hh", "src/Intervals/Boundary.inlines.hh"]}
{"id": "C135", "title": "Cosine, sine and tangent of intervals are sound unless the ends differ in status at equal values", "statement": "contains_multiple says exactly whether some offset + k period lies between the boundaries. The cosine (sine) of an interval contains that of every member if both ends are open, or both closed, or the function has different values on them; the tangent contains that of every member if no end is a pole.", "quantifier": "all intervals in normal form, all offsets and periods, all members", "why_tests_cant": "All intervals and members.", "anchors": ["src/Intervals/Interval.cc", "src/Intervals/Interval.inlines.hh", "src/Intervals/Boundary.inlines.hh"]}
{"id": "C136", "title": "The answer for a linear recurrence is the solution for the initial conditions in force", "statement": "After any sequence of calls on a Recurrence object (computations, queries, settings and replacements of the initial conditions), for a linear recurrence of finite order an answer of exact_solution(), lower_bound() or upper_bound() equals, without initial conditions, every sequence satisfying the equation, and with initial conditions the sequence that takes the values given last and satisfies the equation, from the smallest of the last k indices on.", "quantifier": "all histories of calls, all linear recurrences of finite order, all initial conditions", "why_tests_cant": "All histories and initial conditions.", "anchors": ["src/Recurrence.cc", "src/Recurrence.inlines.hh", "Recurrence::exact_solution", "Recurrence::set_initial_conditions", "Recurrence::compute_solution_or_bound_on_i_c"]}
{"id": "C137", "title": "Evaluating the solution gives the value of the sequence", "statement": "After any sequence of calls, with initial conditions in force, evaluate_exact_solution(N) (and the evaluation of the bounds) for N not below the smallest of the last k given indices returns the value at N of the sequence that takes the given values and satisfies the equation.", "quantifier": "all histories of calls, all linear recurrences of finite order, all initial conditions, all N", "why_tests_cant": "All histories and indices.", "anchors": ["src/Recurrence.cc", "src/Recurrence.inlines.hh", "Recurrence::exact_solution", "Recurrence::set_initial_conditions", "Recurrence::compute_solution_or_bound_on_i_c"]}
{"id": "C138", "title": "The answer for a weighted-average recurrence is the solution for the initial condition in force", "statement": "After any sequence of calls, for a weighted-average recurrence an answer of exact_solution(), lower_bound() or upper_bound() equals above the lower limit of the sum every sequence satisfying the equation, with the value in force at the lower limit if one was given; the evaluation at N returns the value of the sequence.", "quantifier": "all histories of calls, all weighted-average recurrences, all values at the lower limit, all N", "why_tests_cant": "All histories and indices.", "anchors": ["src/Recurrence.cc", "src/Recurrence.inlines.hh", "Recurrence::exact_solution", "Recurrence::set_initial_conditions", "Recurrence::compute_solution_or_bound_on_i_c"]}
{"id": "C139", "title": "From the right-hand side the user writes to the solution", "statement": "If x(n) = rhs is classified as linear with constant coefficients and the roots of the characteristic equation built from the recorded coefficients are found (square-free factors of the kind handled), the systems for the special solution and the initial values are solvable, and any solution of them gives an expression with the values of the sequence that satisfies x(n) = rhs.", "quantifier": "all right-hand sides, all sequences, all inhomogeneous parts that are sums of polynomials times exponentials", "why_tests_cant": "All right-hand sides and indices.", "anchors": ["src/rr_classifier.cc", "src/finite_order.cc", "src/compute_exact_solution.cc", "src/alg_eq_solver.cc", "Recurrence::classify", "Recurrence::solve_linear_finite_order"]}
{"id": "C140", "title": "The answers for a functional equation are bounds for the initial conditions in force", "statement": "After any sequence of calls on a Recurrence object, for a functional equation x(n) = a x(n/b) + g(n) an answer of lower_bound() (upper_bound()) is a lower (upper) bound: without initial conditions of every function with non-negative initial values that satisfies the equation, with initial conditions of every function that takes these values and satisfies the equation; if b = 2 the answer then does not contain x. exact_solution() never answers with an expression that is only a bound.", "quantifier": "all histories of calls, all functional equations of rank one, all accepted initial conditions, all functions satisfying the equation", "why_tests_cant": "All histories and functions.", "anchors": ["src/Recurrence.cc", "src/Recurrence.inlines.hh", "src/compute_bounds.cc", "Recurrence::lower_bound", "Recurrence::upper_bound", "Recurrence::set_initial_conditions"]}
{"id": "C141", "title": "The answers for x(n) = c x(n-1)^a are the solution for the initial conditions in force", "statement": "After any sequence of calls on a Recurrence object, for x(n) = c x(n-1)^a every answer of exact_solution(), lower_bound() and upper_bound() equals the sequence satisfying the recurrence, and with initial conditions in force the sequence that takes the last value given and satisfies the recurrence from there on; the answer then does not depend on x.", "quantifier": "all histories of calls, all c and a (integer a at least 2, or rational a with positive values), all initial conditions, all indices", "why_tests_cant": "All histories and indices.", "anchors": ["src/Recurrence.cc", "src/Recurrence.inlines.hh", "Recurrence::exact_solution", "Recurrence::compute_solution_non_linear_finite_order_on_i_c"]}
{"id": "C142", "title": "A verification verdict is about the answer the program gives", "statement": "The verdict of verify_exact_solution() is the verdict on the expression that exact_solution() returns, for the recurrence and the initial conditions of the object at that moment; a verification method throws std::logic_error exactly when the corresponding query does. In particular PROVABLY_CORRECT means that this expression has the value of every solution of the recurrence (that takes the given initial values), at every index from the first valid one on.", "quantifier": "all sequences of calls on a recurrence object, all recurrences, initial conditions, solutions, indices", "why_tests_cant": "Which stored expression is verified depends on the whole history of calls.", "anchors": ["src/verify.cc: verify_exact_solution, verify_lower_bound, verify_upper_bound, verify_finite_order, verify_weighted_average", "src/Cached_Expr.inlines.hh: expression, unset_expression"]}
{"id": "C143", "title": "PARTIAL_PROVABLY_CORRECT means that the recurrence used to find the solution was solved correctly", "statement": "verify_exact_solution() answers PARTIAL_PROVABLY_CORRECT only if the solution of the reduced recurrence (order reduction), of the associated linear recurrence (non-linear recurrences) or of the associated first order recurrence (weighted averages) was verified; that solution is then right, and the expression obtained from it has the value of every solution of the original recurrence.", "quantifier": "all recurrences of the three kinds, all their solutions, all indices", "why_tests_cant": "The verdict is about all n and all solutions.", "anchors": ["src/verify.cc: verify_exact_solution, verify_finite_order", "src/Recurrence.defs.hh: Verify_Status"]}
{"id": "C144", "title": "A right solution is confirmed if the simplifier recognises constants", "statement": "If simplify_all turns every expression of constant rational value into that number, and expansion recognises zero, then verify_exact_solution() answers PROVABLY_CORRECT for every right solution of a linear recurrence of finite order that was not reduced: INCONCLUSIVE on a right solution can only come from a simplification that did not recognise a constant. With C40 the verdict decides whether the solution is right.", "quantifier": "all linear recurrences of finite order, all solutions that are sums of terms with at most one symbolic initial condition, all numeric initial conditions, all histories of calls", "why_tests_cant": "The verdict has to be positive for every right solution of every recurrence; tests only sample solutions.", "anchors": ["src/verify.cc: verify_finite_order, validate_initial_conditions, fill_vector_coefficients_i_c, traditional_step_3, traditional_step_4, verify_new_method_const_coeff"]}
{"id": "C145", "title": "The expression returned for a linear recurrence of finite order is its solution", "statement": "Whenever the solver returns an expression for a linear recurrence of finite order (order 0; constant coefficients of any order with a sum of polynomials times exponentials as inhomogeneous term; order 1 with a variable coefficient), every sequence that satisfies the recurrence has the values of this expression at all indices from the first valid index on, and x occurs in the expression only in the symbolic initial conditions x(f), ..., x(f + order - 1). Order 2 and more with variable coefficients is answered with TOO_COMPLEX.", "quantifier": "all right-hand sides, orders, coefficients, first valid indices, inhomogeneous terms, roots and sequences, all choices of new symbols", "why_tests_cant": "The answer is an expression built from substitutions and solutions of two linear systems; that its value is right at every index for all initial values cannot be tested.", "anchors": ["src/compute_exact_solution.cc: solve_linear_finite_order, compute_special_solution, solve_variable_coeff_order_1"]}
{"id": "C146", "title": "A system of equations without a solution never leads to an answer", "statement": "If the linear system set up for the coefficients of a special solution or for the constants of the general solution cannot be solved, no exact solution is returned; in particular the undetermined coefficients never occur in an answer.", "quantifier": "all systems for which lsolve finds nothing", "why_tests_cant": "It must hold for every recurrence whose system is not solved by the external library.", "anchors": ["src/compute_exact_solution.cc: compute_special_solution, solve_linear_finite_order"]}
{"id": "C147", "title": "Every linear recurrence with constant coefficients is solved once its roots are known", "statement": "For a linear recurrence with constant coefficients whose inhomogeneous term is a sum of polynomials times exponentials, once all the distinct roots of the characteristic equation are known with their multiplicities, the solver returns an expression and it is the solution: the systems that it sets up always have a solution, the coefficients of the special solution left undetermined are exactly the first ones, as many as the multiplicity of the base as a root (the number that is asserted), and the constants of the general solution are determined.", "quantifier": "all orders, coefficients, distinct roots and multiplicities, inhomogeneous terms and first valid indices, all choices of new symbols", "why_tests_cant": "That a linear system of arbitrary size always has a solution, with a given number of free unknowns, cannot be tested; the source itself has a FIXME about it.", "anchors": ["src/compute_exact_solution.cc: compute_special_solution, solve_linear_finite_order"]}
{"id": "C148", "title": "From the right-hand side written by the user to the answer, after any calls, for linear recurrences with constant coefficients", "statement": "The user writes a right-hand side that is classified as linear of finite order with constant coefficients (decrements with greatest common divisor 1). Whatever calls are made before (other initial conditions, verifications, bounds, repeated computations), an answer of exact_solution(), lower_bound() or upper_bound() is the solution of the recurrence that the user wrote: without initial conditions it equals every sequence that satisfies the recurrence; with initial conditions it contains no symbolic initial condition and has, from the first of the last k given indices on, the values of the sequence that takes the given values; evaluating it at N gives the value of that sequence at N.", "quantifier": "all right-hand sides of this class, all histories of calls, all sets of initial conditions accepted by set_initial_conditions, all indices", "why_tests_cant": "It composes classification, solver, state of the object and initial conditions over all histories; no finite set of calls exercises them all.", "anchors": ["src/Recurrence.cc: Recurrence, classify_and_catch_special_cases, compute_exact_solution, exact_solution, evaluate_exact_solution", "src/finite_order.cc", "src/compute_exact_solution.cc: solve_linear_finite_order", "src/Recurrence.cc: compute_solution_linear_finite_order_on_i_c"]}
{"id": "C149", "title": "Reducing the order does not change the solution of the recurrence written by the user", "statement": "The user writes a right-hand side that is classified as linear with constant coefficients and all the decrements have a common divisor greater than 1. The library solves a recurrence of smaller order and comes back to the original variable: the expression obtained has, from (common divisor) * (first valid index) on, the values of every sequence that satisfies the recurrence that the user wrote, and expanding mod(n, d) into powers of roots of unity does not change its values.", "quantifier": "all right-hand sides of this class that the rewriting handles (see C30), all common divisors, orders and inhomogeneous terms, all sequences and indices", "why_tests_cant": "The substitution n -> d*n + r must be right in every residue class and for every inhomogeneous term; tests cover a few divisors.", "anchors": ["src/Recurrence.cc: compute_exact_solution_finite_order", "src/finite_order.cc: write_reduced_order_recurrence, come_back_to_original_variable, write_expanded_solution", "src/compute_exact_solution.cc: solve_linear_finite_order"]}
{"id": "C150", "title": "The recurrence can be used from the first valid index on", "statement": "first_valid_index_solution() is chosen so that the recurrence can be evaluated: for a linear recurrence of order k with first valid index f, the denominator of the inhomogeneous term and the coefficient (order 1, variable coefficient) are defined and non-zero at every index from f+k on, for a functional equation the coefficients are non-zero at every index greater than f; the index is 0 (1 for functional equations) or is a zero of one of these expressions, so no index is skipped without need; if one of the expressions contains a parameter, no index is found and the recurrence is reported as too complex.", "quantifier": "all right-hand sides that are classified as linear of finite order or as functional equations, all zeros of the expressions, all indices", "why_tests_cant": "A division by zero or a logarithm of a negative number at some index can be far from the indices that a test looks at.", "anchors": ["src/rr_classifier.cc: classify", "src/util.cc: find_domain_in_N"]}
{"id": "C151", "title": "From the right-hand side written by the user to the answer, after any calls, for first order recurrences with a variable coefficient", "statement": "The user writes a right-hand side that is classified as linear of order 1 with a coefficient that depends on n. Whatever calls are made before, an answer of exact_solution(), lower_bound() or upper_bound() is the solution of the recurrence that the user wrote from the first valid index found by the classification on: without initial conditions it equals every sequence that satisfies the recurrence; with initial conditions it contains no symbolic initial condition and has the values of the sequence that takes the given value; evaluating it at N gives the value of that sequence at N.", "quantifier": "all right-hand sides of this class, all histories of calls, all sets of initial conditions accepted by set_initial_conditions, all indices", "why_tests_cant": "It composes classification, search of the domain, solver, state of the object and initial conditions over all histories; no finite set of calls exercises them all.", "anchors": ["src/rr_classifier.cc: classify", "src/compute_exact_solution.cc: solve_variable_coeff_order_1", "src/Recurrence.cc: exact_solution, evaluate_exact_solution, compute_solution_linear_finite_order_on_i_c"]}
{"id": "C152", "title": "From the right-hand side written by the user to the bounds, after any calls, for functional equations", "statement": "The user writes x(n) = a*x(n/b) + g(n) with a positive number a and an integer b >= 2. Whatever calls are made before, an answer of lower_bound() (upper_bound()) bounds, at every n >= b, every function that satisfies the equation that the user wrote (x(n/b) is the value at the integer part): without initial conditions if its initial values are non-negative, with initial conditions if it takes the given values, and then for b = 2 the answer does not contain x; exact_solution() never answers. If g is a sum of terms c*n^k with c > 0 in the balanced range (see C70), both bounds are computed.", "quantifier": "all right-hand sides of this class, all histories of calls, all sets of initial conditions accepted by set_initial_conditions, all functions that satisfy the equation, all indices", "why_tests_cant": "It composes classification, computation of the bounds, state of the object and initial conditions over all histories and all functions; no finite set of calls exercises them all.", "anchors": ["src/rr_classifier.cc: classify", "src/compute_bounds.cc: approximate_functional_equation", "src/Recurrence.cc: compute_lower_bound, compute_upper_bound, lower_bound, upper_bound, set_initial_conditions"]}
{"id": "C153", "title": "The weight and the inhomogeneous term recorded for a weighted average describe the right-hand side written by the user", "statement": "If a right-hand side is classified as a weighted average, a sequence satisfies x(n) = rhs for all n above the lower limit of the sum iff it satisfies x(n) = f(n)*sum(k, n0, n-1 or n, x(k)) + g(n) with the recorded f, g and limits (also if the sum occurs in several terms), and neither f nor g depends on the unknown.", "quantifier": "all right-hand sides classified as weighted averages, all sequences, all indices above the lower limit", "why_tests_cant": "The recorded data must mean the same as the right-hand side for every sequence and every index; tests compare single solutions.", "anchors": ["src/rr_classifier.cc: rewrite_weighted_average_recurrence, classification_summand", "src/Expr.cc: collect_term"]}
{"id": "C154", "title": "Weighted averages: from the right-hand side the user writes, through any calls, to the answer", "statement": "If x(n) = rhs is taken for a weighted average of x(k) whose associated recurrence of order 1 has first valid index 0 and is solved, then after any sequence of calls the exact solution or bound returned has, from the lower limit of the sum on, the values of every sequence that satisfies what the user wrote (with the initial condition given at the lower limit, if any), and evaluating it returns these values.", "quantifier": "all right-hand sides taken for weighted averages of x(k) with known weight and inhomogeneous term, all call histories, all sequences satisfying the recurrence, all indices from the lower limit on", "why_tests_cant": "Composition of recognition, rewriting, solution, object state and initial conditions over all histories and all indices.", "anchors": ["src/rr_classifier.cc: rewrite_weighted_average_recurrence, classification_summand", "src/Recurrence.cc: compute_weighted_average_recurrence, compute_exact_solution_weighted_average, compute_solution_weighted_average_on_i_c, evaluate", "src/Recurrence.inlines.hh: exact_solution, lower_bound, upper_bound"]}
{"id": "C155", "title": "Right-hand sides without the unknown: the answers are the right-hand side, through any calls", "statement": "If the right-hand side does not contain x, then every answer of exact_solution, lower_bound and upper_bound, after any calls and initial conditions, is an expression without x whose values are those of the sequence; evaluating it at N > 0 (or at 0 with an initial condition at 0) gives the value of the sequence; evaluation at negative indices and at 0 without an initial condition there is refused.", "quantifier": "all right-hand sides without x, all call histories, all initial conditions, all indices", "why_tests_cant": "Every history, every right-hand side, every index; tests look at single expressions.", "anchors": ["src/Recurrence.cc: evaluate, check_number_for_evaluation, compute_solution_or_bound_on_i_c", "src/rr_classifier.cc: classification_summand", "src/Recurrence.cc: compute_exact_solution_finite_order"]}
{"id": "C156", "title": "Recurrences with a maximum: the answers are the sequence x(0) = a, x(n) = max(f, a)", "statement": "For x(n) = max(f, a) with a number or symbol a and a linear recurrence of finite order f, every answer of exact_solution, lower_bound and upper_bound, after any calls, has at every index the value of the sequence with x(0) = a and x(n) = max(f, a) for n >= 1; if f is not of order 1 with first valid index 0, no solution is returned.", "quantifier": "all right-hand sides max(f, a) in either order, all call histories, all sequences, all indices", "why_tests_cant": "Every recurrence, every index and every history; single examples on which f never falls below a do not show that the maximum is simply dropped.", "anchors": ["src/Recurrence.cc: compute_exact_solution_max, compute_exact_solution, set_initial_conditions", "src/Recurrence.inlines.hh: exact_solution, is_linear_finite_order", "src/rr_classifier.cc: classification_summand"]}
{"id": "C157", "title": "Recurrences written with x(n+1), x(n+2), ...: the answers are the solution of what the user wrote, after any calls", "statement": "If the right-hand side contains x(n+m), m being the largest shift, with a coefficient that does not vanish at the indices that count, then after any sequence of calls the answers of exact_solution, lower_bound and upper_bound agree with every sequence that satisfies the recurrence as the user wrote it (not as it was rewritten) and, with initial conditions, takes the given values, and such a sequence exists; evaluating the answer gives its values. If x(n) itself does not occur on the right-hand side, the order recorded is at least m.", "quantifier": "all right-hand sides with negative decrements rewritten into a linear recurrence that is solved, all call histories, all initial conditions, all sequences, all indices", "why_tests_cant": "Composition of rewriting, solution, object state and initial conditions, with a shift of indices, over all histories and all indices.", "anchors": ["src/rr_classifier.cc: eliminate_negative_decrements, find_max_decrement_and_coeff, classify_and_catch_special_cases", "src/Recurrence.cc: compute_exact_solution, compute_solution_or_bound_on_i_c, evaluate", "src/Recurrence.inlines.hh: exact_solution, lower_bound, upper_bound"]}
{"id": "C158", "title": "Recurrences x(n) = x(n/b)^a: the answers bound every solution, after any calls", "statement": "For x(n) = x(n/b)^a with a positive number a different from 1 and an integer b at least 2, after any sequence of calls that leaves no initial conditions in force, an answer of lower_bound (upper_bound) is, at every n from 1 on, a lower (upper) bound of every function that satisfies the equation that the user wrote and whose initial values are at least 1; exact_solution gives no answer. The right-hand side is recognised as non-linear, and its associated equation as x(n) = a x(n/b).", "quantifier": "all such a and b, all call histories that end without initial conditions, all functions that satisfy the equation with initial values at least 1, all n", "why_tests_cant": "Composition of classification, rewriting by logarithms, approximation of the associated functional equation and the state of the object, over all histories and all indices.", "anchors": ["src/rr_classifier.cc: find_non_linear_recurrence, rewrite_non_linear_recurrence, classification_summand", "src/Recurrence.cc: compute_non_linear_recurrence, compute_bound_non_linear", "src/compute_bounds.cc: approximate_functional_equation", "src/Recurrence.inlines.hh: exact_solution, lower_bound, upper_bound"]}
{"id": "C159", "title": "The comparison of intervals is a total order", "statement": "lcompare(x, y) is -1, 0 or 1; exchanging the arguments changes its sign, it is 0 exactly for intervals with the same boundaries, it is transitive, and the lower boundary decides before the upper one.", "quantifier": "all intervals, all pairs and triples of them", "why_tests_cant": "All pairs and triples of intervals.", "anchors": ["src/Intervals/Interval.inlines.hh: lcompare", "src/Intervals/Boundary.inlines.hh: operator<"]}
{"id": "C160", "title": "The inductive step in the verification of bounds", "statement": "If the verification of a bound of x(n) = a x(n/b) + p(n) accepts a candidate by its inductive step, then the candidate put for x in the right-hand side is, at every n from the applicability condition on, no greater (lower bounds: no less) than the candidate; and the candidate, added to a bound of the homogeneous equation, is an upper (lower) bound of every solution as soon as it is one for the initial values.", "quantifier": "all candidates, right-hand sides, applicability conditions, solutions and n", "why_tests_cant": "All candidates, all solutions and all n; the inequality is decided from the shape of the difference.", "anchors": ["src/verify.cc: verify_bound, ok_inequalities, split"]}
{"id": "C161", "title": "The answer of the linear solver for general inhomogeneous terms", "statement": "When the inhomogeneous term of a linear recurrence of finite order with constant coefficients is not a sum of polynomials times exponentials, the answer (for order 1 the initial condition times a power of the coefficient plus sums computed for each base of an exponential, otherwise initial conditions times shifts of the fundamental solution plus its convolution with the inhomogeneous term or, for order 2 with distinct roots, the difference of two geometric sums) is the solution: every sequence satisfying the recurrence has the value of the answer at every n from the first valid index on, and the answer contains x only as x(f), ..., x(f+k-1).", "quantifier": "all coefficients with a nonzero last one, inhomogeneous terms, root lists, solutions and n", "why_tests_cant": "All recurrences, all sequences satisfying them and all n; the answer is an expression with a formal sum over a new index.", "anchors": ["src/compute_exact_solution.cc: compute_term_about_initial_conditions, solve_constant_coeff_order_1, solve_constant_coeff_order_2, solve_constant_coeff_order_k, solve_linear_finite_order", "src/finite_order.cc: find_g_n, return_sum, compute_symbolic_sum, subs_to_sum_roots_and_bases, compute_sum_with_transcendental_method"]}
{"id": "C162", "title": "The factorization through giac loses nothing", "statement": "Provided the library giac computes correctly, factorize_giac returns two factors whose product has the value of the expression; they contain only symbols of the expression (no auxiliary symbol is left), and the numeric factor is free of symbols.", "quantifier": "all expressions, nesting depths, correct libraries, numbers of symbols made before, interpretations and valuations", "why_tests_cant": "All trees, at any depth of nested functions, and all behaviours of an external library; tests link one version of it.", "anchors": ["src/factorize_giac.cc: translate, factorize_giac_recursive, factorize_giac", "src/Blackboard.inlines.hh: find_symbol", "src/Blackboard.cc: rewrite"]}
{"id": "C163", "title": "Zeilberger's algorithm tries all the orders up to nine", "statement": "zeilberger_algorithm succeeds exactly when one of the orders 1 to 9 gives a solution; the result is that of the smallest such order, and it reports failure exactly when all nine fail.", "quantifier": "all behaviours of the search for a fixed order", "why_tests_cant": "All combinations of success and failure of the nine attempts and all results.", "anchors": ["src/zeilberger.cc: zeilberger_algorithm"]}
