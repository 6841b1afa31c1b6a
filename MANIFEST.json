{
 "claims": [
  {
   "property": "C01",
   "status": "proved",
   "theorems": [
    "Purrs.C01_lor_sound",
    "Purrs.C01_land_sound",
    "Purrs.C01_lnot_sound",
    "Purrs.C01_lor_exact",
    "Purrs.C01_land_exact",
    "Purrs.C01_lnot_exact",
    "Purrs.C01_strongerEq_exact",
    "Purrs.C01_stronger_exact",
    "Purrs.C01_isStrong_exact"
   ],
   "note": "Soundness and optimality of every connective against the classical connectives on all resolutions of MAYBE."
  },
  {
   "property": "C02",
   "status": "proved",
   "theorems": [
    "Purrs.C02_gcd_is_gcd",
    "Purrs.C02_gcd_natAbs",
    "Purrs.C02_gcd_nonneg",
    "Purrs.C02_gcd_machine",
    "Purrs.C02_gcd_machine_ub"
   ],
   "note": "gcd on mathematical integers (= Int.gcd) and on 32-bit machine integers; the only machine case outside the claim is INT_MIN with UB, shown by C02_gcd_machine_ub."
  },
  {
   "property": "C03",
   "status": "proved",
   "theorems": [
    "Purrs.C03_lcm_is_lcm",
    "Purrs.C03_lcm_pos"
   ],
   "note": ""
  },
  {
   "property": "C04",
   "status": "proved",
   "theorems": [
    "Purrs.C04_partialFactor_value",
    "Purrs.C04_partialFactor_shape",
    "Purrs.C04_partialFactor_small_primes",
    "Purrs.C04_partialFactor_unit",
    "Purrs.C04_partialFactor_composite_base"
   ],
   "note": ""
  },
  {
   "property": "C05",
   "status": "proved",
   "theorems": [
    "Purrs.C05_findDivisorsMax_exact",
    "Purrs.C05_findDivisors_exact",
    "Purrs.C05_findDivisors_answers",
    "Purrs.C05_findDivisors_nodup"
   ],
   "note": ""
  },
  {
   "property": "C06",
   "status": "proved",
   "theorems": [
    "Purrs.AlgEq.C06_candidates",
    "Purrs.AlgEq.C06_search"
   ],
   "note": "Every rational root is a candidate and the search returns exactly the rational roots, for every square-free integer polynomial with leading and trailing coefficient below the bound of the code."
  },
  {
   "property": "C07",
   "status": "proved",
   "theorems": [
    "Purrs.AlgEq.C07_quadratic",
    "Purrs.AlgEq.C07_cubic",
    "Purrs.AlgEq.C07_cubic_real",
    "Purrs.AlgEq.C07_quartic",
    "Purrs.AlgEq.C07_quartic_refuses"
   ],
   "note": "Quadratic, cubic (both Cardano and trigonometric branch) and quartic formulas: the product of the linear factors of the returned values is the polynomial. The quartic is modelled as failing when the auxiliary root is zero (division by zero in GiNaC)."
  },
  {
   "property": "C08",
   "status": "proved",
   "theorems": [
    "Purrs.AlgEq.C08_values_are_roots",
    "Purrs.AlgEq.C08_all_roots",
    "Purrs.AlgEq.C08_known_positive",
    "Purrs.AlgEq.C08_known_even"
   ],
   "note": "For the function solve_monomial_irrational itself; the caller passes its arguments in the wrong order, see C62_binomial_refuted."
  },
  {
   "property": "C09",
   "status": "proved",
   "theorems": [
    "Purrs.AlgEq.C09_nested",
    "Purrs.AlgEq.C09_constant"
   ],
   "note": "The detected exponent is the largest n with p(x)=q(x^n)."
  },
  {
   "property": "C10",
   "status": "proved",
   "theorems": [
    "Purrs.C10_sum_poly_times_exponentials"
   ],
   "note": ""
  },
  {
   "property": "C11",
   "status": "proved",
   "theorems": [
    "Purrs.C11_sum_poly_alt"
   ],
   "note": ""
  },
  {
   "property": "C12",
   "status": "proved",
   "theorems": [
    "Purrs.C12_cos"
   ],
   "note": ""
  },
  {
   "property": "C13",
   "status": "proved",
   "theorems": [
    "Purrs.C13_decomposition"
   ],
   "note": ""
  },
  {
   "property": "C14",
   "status": "partial",
   "theorems": [
    "Purrs.C14_decomposition_partial",
    "Purrs.C14_repeated_refuted",
    "Purrs.C14_parameter_refuted"
   ],
   "note": "Value preservation proved where the decomposition holds; refuted by a witness otherwise."
  },
  {
   "property": "C15",
   "status": "proved",
   "theorems": [
    "Purrs.C15_isolate_value",
    "Purrs.C15_isolate_polynomial"
   ],
   "note": ""
  },
  {
   "property": "C16",
   "status": "proved",
   "theorems": [
    "Purrs.Resultant.C16_conversion",
    "Purrs.Resultant.C16_zero"
   ],
   "note": "Both conversion functions modelled over Mathlib polynomials (the coefficients GiNaC extracts are taken as given). Proved for every rational polynomial, including the zero polynomial."
  },
  {
   "property": "C17",
   "status": "proved",
   "theorems": [
    "Purrs.Resultant.C17_sylvester"
   ],
   "note": "The determinant of the modelled matrix is Mathlib's resultant, for all polynomials."
  },
  {
   "property": "C18",
   "status": "proved",
   "theorems": [
    "Purrs.C18_substitute_binderfree",
    "Purrs.C18_substitute_equal"
   ],
   "note": ""
  },
  {
   "property": "C19",
   "status": "proved",
   "theorems": [
    "Purrs.C19_distribute_value",
    "Purrs.C19_distribute_shape"
   ],
   "note": ""
  },
  {
   "property": "C20",
   "status": "proved",
   "theorems": [
    "Purrs.C20_scalar_sound",
    "Purrs.C20_scalar_exact"
   ],
   "note": ""
  },
  {
   "property": "C21",
   "status": "proved",
   "theorems": [
    "Purrs.C21_polynomial_sound",
    "Purrs.C21_multivariate_sound"
   ],
   "note": ""
  },
  {
   "property": "C22",
   "status": "proved",
   "theorems": [
    "Purrs.C22_hasX_exact",
    "Purrs.C22_hasXOf_exact",
    "Purrs.C22_hasX_sound",
    "Purrs.C22_hasParameters_sound"
   ],
   "note": ""
  },
  {
   "property": "C23",
   "status": "proved",
   "theorems": [
    "Purrs.C23_collectTerm_value",
    "Purrs.C23_collectTerm_complete",
    "Purrs.C23_collectTerm_nonsum"
   ],
   "note": ""
  },
  {
   "property": "C24",
   "status": "partial",
   "theorems": [
    "Purrs.EvalRules.C24_mod_partial",
    "Purrs.EvalRules.C24_mod_zero_partial",
    "Purrs.EvalRules.C24_mod_refuted",
    "Purrs.EvalRules.C24_mod_nonvacuous",
    "Purrs.EvalRules.C24_sum_symbolic_partial",
    "Purrs.EvalRules.C24_sum_refuted",
    "Purrs.EvalRules.C24_prod_symbolic_partial",
    "Purrs.EvalRules.C24_prod_refuted",
    "Purrs.EvalRules.C24_symbolic_nonvacuous",
    "Purrs.EvalRules.C24_max_min_partial",
    "Purrs.EvalRules.C24_max_min_close_partial",
    "Purrs.EvalRules.C24_max_min_refuted",
    "Purrs.EvalRules.C24_max_min_nonvacuous"
   ],
   "note": "Numeric arguments: see C74. mod is proved for integers, refuted for a symbol plus a fraction; symbolic sums and products are proved for upper limits >= lower - 1 (and, for limits n + c, when no factor is free of the index), refuted otherwise (C24_sum_refuted, C24_prod_refuted); max and min are proved up to 2e-6, refuted for smaller differences."
  },
  {
   "property": "C25",
   "status": "proved",
   "theorems": [
    "Purrs.C25_preservesNonneg_sound"
   ],
   "note": ""
  },
  {
   "property": "C26",
   "status": "proved",
   "theorems": [
    "Purrs.C26_insert",
    "Purrs.C26_retrievable",
    "Purrs.C26_rename",
    "Purrs.C26_rewrite_value",
    "Purrs.C26_rewrite_complete",
    "Purrs.C26_consistent_exists"
   ],
   "note": "Proved for every history."
  },
  {
   "property": "C27",
   "status": "proved",
   "theorems": [
    "Purrs.C27_rewrite_not_stale",
    "Purrs.C27_size_not_stale",
    "Purrs.C27_progress"
   ],
   "note": ""
  },
  {
   "property": "C28",
   "status": "partial",
   "theorems": [
    "Purrs.C28_find_symbol_same_length_partial",
    "Purrs.C28_find_symbol_partial",
    "Purrs.C28_ten_names_in_order",
    "Purrs.C28_find_symbol_history_partial",
    "Purrs.C28_find_symbol_example",
    "Purrs.C28_find_symbol_refuted",
    "Purrs.C28_find_symbol_after_rename_refuted"
   ],
   "note": "Holds for histories without renaming, of any length, in which the generated names on the blackboard have the same length; refuted when the number of digits changes and after a renaming."
  },
  {
   "property": "C29",
   "status": "proved",
   "theorems": [
    "Purrs.C29_names_injective",
    "Purrs.C29_names_not_system",
    "Purrs.C29_system_names_recognised",
    "Purrs.C29_replacement",
    "Purrs.C29_distinct",
    "Purrs.C29_example"
   ],
   "note": "Names injective and never system generated; the replacement renames exactly the system symbols, to distinct unused names, and preserves the value up to that renaming. Hypothesis: bound indices are symbols."
  },
  {
   "property": "C30",
   "status": "partial",
   "theorems": [
    "Purrs.OrderRed.C30_rewrite_factor",
    "Purrs.OrderRed.C30_reduced_rhs_partial",
    "Purrs.OrderRed.C30_reduced_coefficients",
    "Purrs.OrderRed.C30_come_back",
    "Purrs.OrderRed.C30_order_reduction_partial",
    "Purrs.OrderRed.C30_sum_in_power_refuted",
    "Purrs.OrderRed.C30_late_start_refuted",
    "Purrs.OrderRed.C30_mod_closed_form",
    "Purrs.OrderRed.C30_expanded_solution"
   ],
   "note": "Proved: the reduced right-hand side at (m, r) has the value of the original one at g m + r when every term is a product of powers, functions and symbols without sums inside powers (RhsOk), the coefficients are those at multiples of g, composing with mod/floor gives the value of the reduced solution, and hence a solution of the original recurrence from g f on; the expansion in roots of unity preserves every value. Missing: sums nested in powers or functions are left unchanged by rewrite_factor (refuted: C30_sum_in_power_refuted) and below g f the composed solution may be wrong (refuted: C30_late_start_refuted)."
  },
  {
   "property": "C31",
   "status": "proved",
   "theorems": [
    "Purrs.Exact.C31_fundamental",
    "Purrs.Exact.C31_old_method",
    "Purrs.Exact.C31_old_method_order2",
    "Purrs.Exact.C31_characteristic_equation",
    "Purrs.Exact.C31_old_method_order1",
    "Purrs.Exact.C31_special_solution",
    "Purrs.Exact.C31_new_method",
    "Purrs.Exact.C31_new_method_order1",
    "Purrs.Exact.C31_fast_path"
   ],
   "note": "Value-level model of both methods (expressions as functions of n over a field); Matrix::solve and lsolve are modelled by the equations their answers satisfy (existence is C63)."
  },
  {
   "property": "C32",
   "status": "proved",
   "theorems": [
    "Purrs.Exact.C32_variable_coefficient"
   ],
   "note": "Value level; the coefficient is non-zero beyond the first valid index, which the code ensures through find_domain_in_N."
  },
  {
   "property": "C33",
   "status": "proved",
   "theorems": [
    "Purrs.NonLinear.C33_simple_integer",
    "Purrs.NonLinear.C33_simple_integer_ic",
    "Purrs.NonLinear.C33_simple_positive",
    "Purrs.NonLinear.C33_simple_positive_ic",
    "Purrs.NonLinear.C33_associated"
   ],
   "note": "Integer a in any field; rational a for positive values; also with an initial condition x(k)=h."
  },
  {
   "property": "C34",
   "status": "proved",
   "theorems": [
    "Purrs.WeightedAvg.C34_upper_limit",
    "Purrs.WeightedAvg.C34_equivalence"
   ],
   "note": "For weights and inhomogeneous terms not containing the unknown, non-vanishing weight, and weight different from one for the upper limit n."
  },
  {
   "property": "C35",
   "status": "proved",
   "theorems": [
    "Purrs.Eliminate.C35_negative",
    "Purrs.Eliminate.C35_shift",
    "Purrs.Eliminate.C35_shift_positive"
   ],
   "note": "Equivalence for every right-hand side wherever the coefficient divided by does not vanish (true even when the code picks a wrong multiple of the leading coefficient); the shift is the maximum. GiNaC's expand and collect are parameters assumed to keep values."
  },
  {
   "property": "C36",
   "status": "proved",
   "theorems": [
    "Purrs.Classify.C36_order",
    "Purrs.Classify.C36_gcd",
    "Purrs.Classify.C36_type",
    "Purrs.Classify.C36_identity",
    "Purrs.Classify.C36_solutions",
    "Purrs.Classify.C36_constant"
   ],
   "note": "Order, gcd, type, constancy, identity of values and of solution sets proved for every accepted right-hand side."
  },
  {
   "property": "C37",
   "status": "partial",
   "theorems": [
    "Purrs.Classify.C37_identity_partial",
    "Purrs.Classify.C37_repeated_refuted"
   ],
   "note": "Identity proved when no divisor is repeated; refuted when a divisor is repeated (map insert keeps the first)."
  },
  {
   "property": "C38",
   "status": "partial",
   "theorems": [
    "Purrs.Bounds.C38_upper_partial",
    "Purrs.Bounds.C38_upper_nonvacuous",
    "Purrs.Bounds.C38_exponential_refuted",
    "Purrs.Bounds.C38_exponential_nonvacuous"
   ],
   "note": "Upper bound proved for every equation, solution and decomposition whose terms are covered (monomials c*n^k*log(n)^j of either sign in the sound ranges, sums at powers of the divisor), with the numeric comparison a parameter assumed right when it commits itself. Missing: the gamma branch, bases other than 1 with a non-constant coefficient (refuted), sums away from powers of b, applicability condition above 1."
  },
  {
   "property": "C39",
   "status": "partial",
   "theorems": [
    "Purrs.Bounds.C39_lower_partial",
    "Purrs.Bounds.C39_small_coefficient_refuted",
    "Purrs.Bounds.C39_square_root_refuted",
    "Purrs.Bounds.C39_minus_n_refuted"
   ],
   "note": "Lower bound proved in the same setting as C38 in the ranges where the published lemmas apply; refuted by witnesses for a < b^(k-1), for 0<k<1 with 1<a<=b^k and for -n."
  },
  {
   "property": "C40",
   "status": "partial",
   "theorems": [
    "Purrs.Verify.C40_symbolic_partial",
    "Purrs.Verify.C40_solution_partial",
    "Purrs.Verify.C40_evaluated_partial",
    "Purrs.Verify.C40_evaluated_solution_partial",
    "Purrs.Verify.C40_only_initial_conditions_partial",
    "Purrs.Verify.C40_only_initial_conditions_nonvacuous",
    "Purrs.Verify.C40_new_method_refuted",
    "Purrs.Verify.C40_index_refuted",
    "Purrs.Verify.C40_reduction_refuted"
   ],
   "note": "Refuted in three ways (new method checks too few values; the index of the initial condition of a one-term candidate is ignored; after an order reduction the verdict is that on a different expression). Proved when the order reduction was not applied and, for constant coefficients, the difference lies in the class for which the number of checked values suffices. Simplifiers are parameters assumed to preserve values; nonlinear recurrences are not covered."
  },
  {
   "property": "C41",
   "status": "partial",
   "theorems": [
    "Purrs.Verify.C41_recurrence_partial",
    "Purrs.Verify.C41_solution_partial",
    "Purrs.Verify.C41_minus_one_refuted",
    "Purrs.Verify.C41_initial_condition_refuted"
   ],
   "note": "Refuted for weight -1 (nothing is checked) and for an initial condition after the lower limit. Proved for the other weights, with respect to the recurrence that starts at the last initial condition. The fallback to the associated first order recurrence is not modelled."
  },
  {
   "property": "C42",
   "status": "proved",
   "theorems": [
    "Purrs.C42_accepts_exactly",
    "Purrs.C42_accepted_are_used",
    "Purrs.C42_accepted_is_documented",
    "Purrs.C42_example"
   ],
   "note": ""
  },
  {
   "property": "C43",
   "status": "partial",
   "theorems": [
    "Purrs.C43_exact_not_stale_partial",
    "Purrs.C43_lower_not_stale_partial",
    "Purrs.C43_upper_not_stale_partial",
    "Purrs.C43_functional_refuted",
    "Purrs.C43_example"
   ],
   "note": "Every history, every engine; for functional equations the two bounds must differ: otherwise the solution becomes the number 1 (refuted)."
  },
  {
   "property": "C44",
   "status": "partial",
   "theorems": [
    "Purrs.C44_replace_refuted",
    "Purrs.C44_example",
    "Purrs.C44_replace_fresh_partial",
    "Purrs.C44_fresh_example"
   ],
   "note": "Refuted for every engine; holds if nothing was computed or set before."
  },
  {
   "property": "C45",
   "status": "proved",
   "theorems": [
    "Purrs.C45_success_then_answers",
    "Purrs.C45_new_throws",
    "Purrs.C45_verify_throws_iff",
    "Purrs.C45_example"
   ],
   "note": "All engines and histories."
  },
  {
   "property": "C46",
   "status": "proved",
   "theorems": [
    "Purrs.C46_range_is_pointwise",
    "Purrs.C46_range_exception",
    "Purrs.C46_reversed_rejected",
    "Purrs.C46_initial_condition_value",
    "Purrs.C46_early_index_rejected",
    "Purrs.C46_later_index_value",
    "Purrs.C46_example"
   ],
   "note": "All kinds and ranges; renaming assumed idempotent."
  },
  {
   "property": "C47",
   "status": "partial",
   "theorems": [
    "Purrs.C47_copy_same_answers_partial",
    "Purrs.C47_assign_refuted",
    "Purrs.C47_assign_fresh_partial",
    "Purrs.C47_example",
    "Purrs.C47_double_delete_refuted",
    "Purrs.C47_destroy_unclassified_partial",
    "Purrs.C47_double_delete_example"
   ],
   "note": "Copies answer alike; assignment keeps the target's stale evaluated answers and destruction of a copy deletes twice (refuted)."
  },
  {
   "property": "C48",
   "status": "proved",
   "theorems": [
    "Purrs.Gosper.C48_ratio",
    "Purrs.Gosper.C48_dispersion",
    "Purrs.Gosper.C48_solution",
    "Purrs.Gosper.C48_sum_cancelled",
    "Purrs.Gosper.C48_sum_zeros",
    "Purrs.Gosper.C48_sum",
    "Purrs.Gosper.C48_nonvacuous"
   ],
   "note": "Ratio with rational coefficients; gcd, the shifted resultant and lsolve are parameters with their specifications. The closed form is the sum wherever the ratio is defined on the range; for terms with zeros there (as k k! from 0) C48_sum_zeros has the cancelled form. Step one and the simplifiers are not modelled."
  },
  {
   "property": "C49",
   "status": "proved",
   "theorems": [
    "Purrs.Zeilberger.C49_fixSign",
    "Purrs.Zeilberger.C49_step_one",
    "Purrs.Zeilberger.C49_step_two",
    "Purrs.Zeilberger.C49_nonvacuous"
   ],
   "note": "Both steps, for every order: the ratio of the combination is p0(k+1)/p0(k) r(k)/s(k), and r/s = p1(k+1)/p1(k) p2(k)/p3(k); gcd (any common divisor suffices) and the numerator and denominator of r/s are parameters. Modelled at one value of m that is no zero of a denominator."
  },
  {
   "property": "C50",
   "status": "partial",
   "theorems": [
    "Purrs.Factorize.C50_sum_partial",
    "Purrs.Factorize.C50_no_ratio_partial",
    "Purrs.Factorize.C50_factorize_partial",
    "Purrs.Factorize.C50_repeated_base_refuted"
   ],
   "note": "Proved for every expression (recursion over sums, powers and products, any field and any assignment, vanishing or not) if no summand has two factors with the same base and GiNaC's expand, sqrfree and numer_denom preserve values (C50_sum_partial, C50_no_ratio_partial, C50_factorize_partial). Refuted in general: 2 n 2^n + 2 2^n, where 2 is the base of the coefficient and of the exponential (C50_repeated_base_refuted). The common factor is modelled as the list of its powers."
  },
  {
   "property": "C51",
   "status": "partial",
   "theorems": [
    "Purrs.NumDen.C51_sum_partial",
    "Purrs.NumDen.C51_num_den_partial",
    "Purrs.NumDen.C51_numerator_denominator_partial",
    "Purrs.NumDen.C51_single_fraction_partial",
    "Purrs.NumDen.C51_large_primes_refuted",
    "Purrs.NumDen.C51_roots_refuted"
   ],
   "note": "Proved for every interpretation with the two power laws used (they hold over \u2102), every assignment, unbounded sums and nesting, given GiNaC's quotient and power in canonical form as oracles: when in every sum met the denominators have positive integer exponents on non-numeric bases, do not vanish, and have a numeric common multiple whose divisors partial_factor factors completely (e.g. < 101^2), numerator/denominator is the expression. Refuted outside: a/101 + b/103 becomes a + b; n^(-1/2) + n^(-1) becomes 2."
  },
  {
   "property": "C52",
   "status": "proved",
   "theorems": [
    "Purrs.SimplifyPow.C52_simplify_powers",
    "Purrs.SimplifyPow.C52_collect_same_exponents",
    "Purrs.SimplifyPow.C52_simplify_input",
    "Purrs.SimplifyPow.C52_nonvacuous"
   ],
   "note": "With expand, simplify_numer_denom and the test a == -b as parameters with their specifications. The rules for radicals are C78-C80."
  },
  {
   "property": "C53",
   "status": "partial",
   "theorems": [
    "Purrs.Product.C53_comp_prod_partial",
    "Purrs.Product.C53_product_partial",
    "Purrs.Product.C53_negative_shift_refuted",
    "Purrs.Product.C53_rational_shift_refuted",
    "Purrs.Product.C53_lower_zero_refuted",
    "Purrs.Product.C53_power_lower_refuted"
   ],
   "note": "For every lower limit >= 1 and every n >= lower - 1 the closed form has the value of the product, by recursion over all kinds of factors (C53_comp_prod_partial, C53_product_partial), if a summand k + c has an integer c with -c < lower or -c <= n, powers of a constant base start at 1 and have a base to which the law of exponents applies, and the polynomial operations of GiNaC and factorize meet their contracts. Each excluded case is refuted: k - 5 below n = 5, k - 3/2, 2k - 1 from 0, 2^k from 3."
  },
  {
   "property": "C54",
   "status": "proved",
   "theorems": [
    "Purrs.Interval.C54_isEmpty_iff",
    "Purrs.Interval.C54_lt_sound",
    "Purrs.Interval.C54_lt_iff",
    "Purrs.Interval.C54_le_sound",
    "Purrs.Interval.C54_le_iff",
    "Purrs.Interval.C54_eq_iff",
    "Purrs.Interval.C54_ne_sound",
    "Purrs.Interval.C54_three_valued",
    "Purrs.Interval.C54_value_comparisons",
    "Purrs.Interval.C54_hasV_iff",
    "Purrs.Interval.C54_floor_mem",
    "Purrs.Interval.C54_ceil_mem",
    "Purrs.Interval.C54_trunc_mem",
    "Purrs.Interval.C54_neg_mem",
    "Purrs.Interval.C54_abs_mem",
    "Purrs.Interval.C54_addV_mem",
    "Purrs.Interval.C54_add_mem",
    "Purrs.Interval.C54_sub_mem",
    "Purrs.Interval.C54_point_mem",
    "Purrs.Interval.C54_mk_mem",
    "Purrs.Interval.C54_setInteger_mem",
    "Purrs.Interval.C54_setMaybeReal_mem",
    "Purrs.Interval.C54_inter_mem",
    "Purrs.Interval.C54_inter_ok",
    "Purrs.Interval.C54_meets_iff",
    "Purrs.Interval.C54_join_mem",
    "Purrs.Interval.C54_subsetEq_iff",
    "Purrs.Interval.C54_eqIv_iff",
    "Purrs.Interval.C54_subset_iff",
    "Purrs.Interval.C54_join_least"
   ],
   "note": "Exact arithmetic."
  },
  {
   "property": "C55",
   "status": "proved",
   "theorems": [
    "Purrs.C55_toInt",
    "Purrs.C55_toLong",
    "Purrs.C55_mod"
   ],
   "note": ""
  },
  {
   "property": "C56",
   "status": "proved",
   "theorems": [
    "Purrs.C56_size_of_expansion",
    "Purrs.C56_size_monotone"
   ],
   "note": ""
  },
  {
   "property": "C57",
   "status": "partial",
   "theorems": [
    "Purrs.Functional.C57_accepts_partial",
    "Purrs.Functional.C57_difference_partial",
    "Purrs.Functional.C57_sign_refuted",
    "Purrs.Functional.C57_base_refuted",
    "Purrs.Functional.C57_roots_refuted",
    "Purrs.Functional.C57_nonvacuous",
    "Purrs.Functional.C57_difference_nonvacuous"
   ],
   "note": "Sound when the x-free coefficients are non-negative, logarithm arguments at least 1 and bases at least 1, and for the difference route if all real roots are found; refuted otherwise by -n, base 1/2 and n^2-2."
  },
  {
   "property": "C58",
   "status": "partial",
   "theorems": [
    "Purrs.Functional.C58_polynomial_partial",
    "Purrs.Functional.C58_monotone",
    "Purrs.Functional.C58_fraction_partial",
    "Purrs.Functional.C58_find_roots",
    "Purrs.Functional.C58_roots_refuted",
    "Purrs.Functional.C58_log_refuted",
    "Purrs.Functional.C58_nonvacuous"
   ],
   "note": "Holds for rational polynomials when the root search succeeds; linked to the modelled find_roots; refuted when the search gives up and for logarithms."
  },
  {
   "property": "C59",
   "status": "partial",
   "theorems": [
    "Purrs.C59_blackboard_partial",
    "Purrs.C59_blackboard_clash_refuted"
   ],
   "note": "Holds when the chosen name is not on the blackboard; refuted for two successive replacements."
  },
  {
   "property": "C60",
   "status": "partial",
   "theorems": [
    "Purrs.C60_first_valid_index_partial",
    "Purrs.C60_not_read_refuted",
    "Purrs.C60_example"
   ],
   "note": "Holds after the solution was read; stale otherwise (refuted)."
  },
  {
   "property": "C61",
   "status": "partial",
   "theorems": [
    "Purrs.C61_order_zero_refuted",
    "Purrs.C61_symbolic_value_refuted",
    "Purrs.C61_evaluable_partial"
   ],
   "note": "Linear recurrences of order >= 1 and weighted averages; refuted for order zero and for numeric values."
  },
  {
   "property": "C62",
   "status": "partial",
   "theorems": [
    "Purrs.AlgEq.C62_find_roots_partial",
    "Purrs.AlgEq.C62_multiplicity_refuted",
    "Purrs.AlgEq.C62_binomial_refuted",
    "Purrs.AlgEq.C62_multiplicities_partial"
   ],
   "note": "Proved (values and multiplicities) when every square-free factor is simple without a binomial factor a x^n+k, or has small rational roots. NTL factorisation and GiNaC sqrfree are assumed correct (hypotheses GoodFactorizer, IsSqfOf). Refuted: x^2-2 (coefficients swapped in the call), (x^2-x-1)^2 (multiplicity recorded as one)."
  },
  {
   "property": "C63",
   "status": "proved",
   "theorems": [
    "Purrs.Exact.C63_special_solvable",
    "Purrs.Exact.C63_constants_solvable"
   ],
   "note": "Over any field of characteristic zero, for pairwise distinct roots with the right multiplicities."
  },
  {
   "property": "C64",
   "status": "partial",
   "theorems": [
    "Purrs.Exact.C64_end_to_end_partial",
    "Purrs.Exact.C64_multiplicity_refuted"
   ],
   "note": "Proved when every square-free factor of the characteristic polynomial is either simple without binomial factor or splits over small rationals; refuted for a multiple irrational root. NTL and sqrfree assumed correct."
  },
  {
   "property": "C65",
   "status": "partial",
   "theorems": [
    "Purrs.Classify.C65_known_partial",
    "Purrs.Classify.C65_power_refuted",
    "Purrs.OrderZero.C65_sum_refuted"
   ],
   "note": "Proved for expanded right-hand sides without powers of x(n); refuted for 2*x(n)^2 and for sum(k,0,n-1,x(k))^2 (both recorded as of order zero)."
  },
  {
   "property": "C66",
   "status": "proved",
   "theorems": [
    "Purrs.Classify.C66_accepts_linear",
    "Purrs.Classify.C66_accepts_functional",
    "Purrs.Classify.C66_failure"
   ],
   "note": "Acceptance of all expanded linear and functional right-hand sides; every refusal status points to a defect."
  },
  {
   "property": "C67",
   "status": "partial",
   "theorems": [
    "Purrs.Eliminate.C67_null_partial",
    "Purrs.Eliminate.C67_indeterminate",
    "Purrs.Eliminate.C67_unsolvable_partial",
    "Purrs.Eliminate.C67_recorded_partial",
    "Purrs.Eliminate.C67_run",
    "Purrs.Eliminate.C67_product_refuted",
    "Purrs.Eliminate.C67_coefficient_refuted",
    "Purrs.Eliminate.C67_unsolvable_refuted",
    "Purrs.Eliminate.C67_too_complex"
   ],
   "note": "Equivalence under explicit conditions; refuted for x(n)=n*x(n), for variable leading coefficients (coefficient not shifted) and for the answer unsolvable with x in a power."
  },
  {
   "property": "C68",
   "status": "proved",
   "theorems": [
    "Purrs.C68_refused",
    "Purrs.C68_example"
   ],
   "note": "All histories of calls; the classifier is a parameter of the object model (its own correctness is C32, C36, C66)."
  },
  {
   "property": "C69",
   "status": "proved",
   "theorems": [
    "Purrs.Bounds.C69_upper"
   ],
   "note": "Bound computed and right; the floating point comparison is a parameter assumed right where it decides."
  },
  {
   "property": "C70",
   "status": "proved",
   "theorems": [
    "Purrs.Bounds.C70_lower",
    "Purrs.Bounds.C70_nonvacuous"
   ],
   "note": "Bound computed and right; the floating point comparison is a parameter assumed right where it decides."
  },
  {
   "property": "C71",
   "status": "proved",
   "theorems": [
    "Purrs.Bounds.C71_homogeneous"
   ],
   "note": "Bound computed and right; the floating point comparison is a parameter assumed right where it decides."
  },
  {
   "property": "C72",
   "status": "partial",
   "theorems": [
    "Purrs.Verify.C72_accepts_everything_refuted",
    "Purrs.Verify.C72_refuted"
   ],
   "note": "Refuted: terms without any unknown count as terms with initial conditions only and are not checked. Steps 3 and 4 of the verification, which are thus never reached for a bound in closed form, are a parameter here and the subject of C160."
  },
  {
   "property": "C73",
   "status": "proved",
   "theorems": [
    "Purrs.Verify.C73_symbolic",
    "Purrs.Verify.C73_evaluated"
   ],
   "note": "Order reduction not applied (it is not for variable coefficients), order at least 1; simplifiers are parameters assumed to preserve values."
  },
  {
   "property": "C74",
   "status": "proved",
   "theorems": [
    "Purrs.EvalRules.C74_sum",
    "Purrs.EvalRules.C74_sum_rejected",
    "Purrs.EvalRules.C74_prod",
    "Purrs.EvalRules.C74_prod_integer",
    "Purrs.EvalRules.C74_binomial",
    "Purrs.EvalRules.C74_binomial_rejected",
    "Purrs.EvalRules.C74_floor",
    "Purrs.EvalRules.C74_nonvacuous"
   ],
   "note": "Complete for the rational-number model; subs is the modelled substitution and the index must not be bound again in the body."
  },
  {
   "property": "C75",
   "status": "proved",
   "theorems": [
    "Purrs.Gosper.C75_refusal",
    "Purrs.Gosper.C75_decision",
    "Purrs.Gosper.C75_nonvacuous"
   ],
   "note": "Exact decision for rational coefficients, assuming the specifications of gcd, resultant and lsolve; if the lowest coefficient of the resultant is 121 or more the algorithm gives no answer (find_divisors)."
  },
  {
   "property": "C76",
   "status": "proved",
   "theorems": [
    "Purrs.Zeilberger.C76_telescope",
    "Purrs.Zeilberger.C76_sum",
    "Purrs.Zeilberger.C76_recurrence",
    "Purrs.Zeilberger.C76_nonvacuous"
   ],
   "note": "For every order and range, with gcd, numerator/denominator and lsolve as parameters with their specifications. Modelled at one value of m."
  },
  {
   "property": "C77",
   "status": "partial",
   "theorems": [
    "Purrs.Zeilberger.C77_solution_partial",
    "Purrs.Zeilberger.C77_nonvacuous",
    "Purrs.Zeilberger.C77_support_refuted"
   ],
   "note": "True if the support of the first terms lies in [0,10] and the leading coefficient of the recurrence does not vanish; refuted in general: the initial values are sums over k = 0..10 only (binom(n+20,k))."
  },
  {
   "property": "C78",
   "status": "proved",
   "theorems": [
    "Purrs.SimplifyRoot.C78_positive_root",
    "Purrs.SimplifyRoot.C78_odd_root",
    "Purrs.SimplifyRoot.C78_zero_root",
    "Purrs.SimplifyRoot.C78_red_prod",
    "Purrs.SimplifyRoot.C78_reduce_product",
    "Purrs.SimplifyRoot.C78_nonvacuous"
   ],
   "note": ""
  },
  {
   "property": "C79",
   "status": "partial",
   "theorems": [
    "Purrs.SimplifyRoot.C79_even_root_partial",
    "Purrs.SimplifyRoot.C79_fourth_root_refuted",
    "Purrs.SimplifyRoot.C79_first_root_refuted",
    "Purrs.SimplifyRoot.C79_product_refuted"
   ],
   "note": "True for even indices not divisible by 4 (complex roots); refuted for indices divisible by 4 (i is factored out instead of a primitive root), for index 1 and for products: the sign is lost."
  },
  {
   "property": "C80",
   "status": "partial",
   "theorems": [
    "Purrs.SimplifyRoot.C80_unique_refuted",
    "Purrs.SimplifyRoot.C80_power_free_partial"
   ],
   "note": "Power-free with respect to the primes below 101 used by the partial factorization; uniqueness refuted (4^(1/4) and 2^(1/2))."
  },
  {
   "property": "C81",
   "status": "partial",
   "theorems": [
    "Purrs.SimplifyPow.C81_collect_same_base_partial",
    "Purrs.SimplifyPow.C81_other_occurrence_refuted",
    "Purrs.SimplifyPow.C81_nonvacuous"
   ],
   "note": "True if the powers replaced by rule C1 occur once in the product; refuted otherwise (x*x^y*(1+x^y)^z)."
  },
  {
   "property": "C82",
   "status": "partial",
   "theorems": [
    "Purrs.SimplifyPow.C82_root_of_square_refuted",
    "Purrs.SimplifyPow.C82_positive_partial",
    "Purrs.SimplifyPow.C82_opposite_partial"
   ],
   "note": "True for positive bases; refuted for (x^2)^(1/2) at negative x."
  },
  {
   "property": "C83",
   "status": "proved",
   "theorems": [
    "Purrs.SimplifyFact.C83_decompose_factorial",
    "Purrs.SimplifyFact.C83_natural",
    "Purrs.SimplifyFact.C83_nonvacuous"
   ],
   "note": ""
  },
  {
   "property": "C84",
   "status": "proved",
   "theorems": [
    "Purrs.SimplifyFact.C84_binom_rule",
    "Purrs.SimplifyFact.C84_natural",
    "Purrs.SimplifyFact.C84_negative",
    "Purrs.SimplifyFact.C84_nonvacuous"
   ],
   "note": ""
  },
  {
   "property": "C85",
   "status": "proved",
   "theorems": [
    "Purrs.SimplifyFact.C85_rewrite_binomials",
    "Purrs.SimplifyFact.C85_rewrite_factorials_exponentials",
    "Purrs.SimplifyFact.C85_simplify",
    "Purrs.SimplifyFact.C85_nonvacuous"
   ],
   "note": "expand is a parameter with its specification (keeps the value)."
  },
  {
   "property": "C86",
   "status": "proved",
   "theorems": [
    "Purrs.SimplifySum.C86_compute_sum",
    "Purrs.SimplifySum.C86_nonvacuous"
   ],
   "note": "expand and the coefficient lists of polynomials are parameters with their specifications."
  },
  {
   "property": "C87",
   "status": "partial",
   "theorems": [
    "Purrs.SimplifySum.C87_compute_partial",
    "Purrs.SimplifySum.C87_simplify_sum_partial",
    "Purrs.SimplifySum.C87_limit_symbol_refuted",
    "Purrs.SimplifySum.C87_negative_lower_refuted",
    "Purrs.SimplifySum.C87_mixed_refuted",
    "Purrs.SimplifySum.C87_fraction_refuted",
    "Purrs.SimplifySum.C87_nonvacuous"
   ],
   "note": "True for sums of the kinds of C86, and for single hypergeometric terms with a right answer of Gosper's algorithm. Refuted when the symbol of the upper limit occurs in the summand (sum of n^k up to n+1), for negative lower limits, for summands with a polynomial and another part (counted twice), and for fractional shifts (0 is returned)."
  },
  {
   "property": "C88",
   "status": "proved",
   "theorems": [
    "Purrs.SimplifySum.C88_split_sum",
    "Purrs.SimplifySum.C88_other_limits",
    "Purrs.SimplifySum.C88_simplify_sum",
    "Purrs.SimplifySum.C88_nonvacuous"
   ],
   "note": ""
  },
  {
   "property": "C89",
   "status": "proved",
   "theorems": [
    "Purrs.SimplifySum.C89_collect_sums",
    "Purrs.SimplifySum.C89_at_most_one_unchanged",
    "Purrs.SimplifySum.C89_exactly_the_sums",
    "Purrs.SimplifySum.C89_simplify_collect_sums",
    "Purrs.SimplifySum.C89_merged",
    "Purrs.SimplifySum.C89_nonvacuous"
   ],
   "note": "The new summation variable is assumed to be new in the merged summands (GiNaC symbols are)."
  },
  {
   "property": "C90",
   "status": "proved",
   "theorems": [
    "Purrs.SimplifyLog.C90_factorized_base",
    "Purrs.SimplifyLog.C90_elementary_properties"
   ],
   "note": "Positivity is required along the expression; expand, numer and denom are parameters with their specifications."
  },
  {
   "property": "C91",
   "status": "proved",
   "theorems": [
    "Purrs.SimplifyLog.C91_terminates",
    "Purrs.SimplifyLog.C91_sound",
    "Purrs.SimplifyLog.C91_complete",
    "Purrs.SimplifyLog.C91_zero_exponent_missed"
   ],
   "note": "exact_pwr is exact rational arithmetic. The exponent 0 is not searched (C91_zero_exponent_missed)."
  },
  {
   "property": "C92",
   "status": "partial",
   "theorems": [
    "Purrs.SimplifyLog.C92_quotient_of_logs_partial",
    "Purrs.SimplifyLog.C92_lost_factor_refuted"
   ],
   "note": "True except for exactly one logarithm and at least two inverses that do not cancel: there a factor is lost (refuted)."
  },
  {
   "property": "C93",
   "status": "partial",
   "theorems": [
    "Purrs.SimplifyLog.C93_power_rules_partial",
    "Purrs.SimplifyLog.C93_two_logarithms_refuted"
   ],
   "note": "True for at most one logarithm in the exponent; with two a factor is lost (refuted)."
  },
  {
   "property": "C94",
   "status": "partial",
   "theorems": [
    "Purrs.SimplifyLog.C94_simplify_logarithm_partial",
    "Purrs.SimplifyLog.C94_negative_number_refuted",
    "Purrs.SimplifyLog.C94_negative_factors_refuted"
   ],
   "note": "True on the domain (positive bases and arguments). Refuted for negative rational numbers and for products of negative factors."
  },
  {
   "property": "C95",
   "status": "proved",
   "theorems": [
    "Purrs.SimplifyLog.C95_terminates",
    "Purrs.SimplifyLog.C95_calls",
    "Purrs.SimplifyLog.C95_depth",
    "Purrs.SimplifyLog.C95_unique"
   ],
   "note": "Termination of the modelled calls; GiNaC's own operations are total functions of the model."
  },
  {
   "property": "C96",
   "status": "partial",
   "theorems": [
    "Purrs.SimplifyOut.C96_simplify_output_partial",
    "Purrs.SimplifyOut.C96_negative_number_refuted",
    "Purrs.SimplifyOut.C96_nonvacuous"
   ],
   "note": "True when every rule applied is in its domain (positive bases, or integer exponents). Refuted for powers whose simplified base is a negative number: the sign is lost."
  },
  {
   "property": "C97",
   "status": "partial",
   "theorems": [
    "Purrs.SimplifyAll.C97_simplify_all_partial",
    "Purrs.SimplifyAll.C97_nonvacuous",
    "Purrs.SimplifyAll.C97_negative_number_refuted"
   ],
   "note": "True when the stages are in their domains. Refuted: (-3)^(1/2 * 2^(1/3) * 4^(1/3)) becomes 3."
  },
  {
   "property": "C98",
   "status": "partial",
   "theorems": [
    "Purrs.C98_sin_partial",
    "Purrs.C98_sin_refuted"
   ],
   "note": "Proved where the code is right and refuted elsewhere."
  },
  {
   "property": "C99",
   "status": "partial",
   "theorems": [
    "Purrs.Resultant.C99_resultant_partial",
    "Purrs.Resultant.C99_common_root_partial",
    "Purrs.Resultant.C99_resultant_refuted"
   ],
   "note": "Proved when deg p <= deg q + 1, or deg q = 0, or p is monic, with the common-root criterion; refuted for 1 - x^3 and x + 1, where the unsigned exponent deg_g - deg_f + 1 wraps around and the sign is wrong."
  },
  {
   "property": "C100",
   "status": "partial",
   "theorems": [
    "Purrs.C100_capture_free_partial",
    "Purrs.C100_capture_refuted"
   ],
   "note": "Proved when no index of the expression occurs in the replacement or is the symbol; capture refuted by a witness."
  },
  {
   "property": "C101",
   "status": "partial",
   "theorems": [
    "Purrs.C101_nested_refuted"
   ],
   "note": "Refuted for nested products."
  },
  {
   "property": "C102",
   "status": "partial",
   "theorems": [
    "Purrs.C102_integer_polynomial_partial",
    "Purrs.C102_integer_polynomial_refuted",
    "Purrs.C102_rational_polynomial_partial",
    "Purrs.C102_rational_polynomial_refuted",
    "Purrs.C102_rational_scalar_dangling_else"
   ],
   "note": "Proved for expressions without functions; refuted in general."
  },
  {
   "property": "C103",
   "status": "partial",
   "theorems": [
    "Purrs.C103_coefficient_refuted"
   ],
   "note": "Refuted by a witness."
  },
  {
   "property": "C104",
   "status": "partial",
   "theorems": [
    "Purrs.C104_dangling_refuted"
   ],
   "note": "Refuted: a definition mentioning the old name dangles."
  },
  {
   "property": "C105",
   "status": "partial",
   "theorems": [
    "Purrs.NonLinear.C105_linearization",
    "Purrs.NonLinear.C105_product_partial",
    "Purrs.NonLinear.C105_product_factors_partial",
    "Purrs.NonLinear.C105_negative_exponent_refuted",
    "Purrs.NonLinear.C105_power",
    "Purrs.NonLinear.C105_domain_error"
   ],
   "note": "Linearization for a positive common exponent, powers x(arg)^a for every rational a. Refuted for negative non-integer common exponents of products: the base is |a| when rewriting and a when coming back."
  },
  {
   "property": "C106",
   "status": "partial",
   "theorems": [
    "Purrs.WeightedAvg.C106_solution_partial",
    "Purrs.WeightedAvg.C106_minus_one_partial",
    "Purrs.WeightedAvg.C106_minus_one_refuted",
    "Purrs.WeightedAvg.C106_minus_one_lower_refuted",
    "Purrs.WeightedAvg.C106_weight_one_refuted",
    "Purrs.WeightedFirst.C106_first_index_refuted"
   ],
   "note": "Holds for the weights of C34; a weight literally -1 (lower limit 0) only from n = 2 on. Refuted: weight -1 at n = 1, weight -1 with positive lower limit, weight 1 with upper limit n. Also refuted when the associated recurrence has a first valid index other than 0: x(n) = -1/n*sum(k,0,n-1,x(k)) (C106_first_index_refuted). The acceptance test of the summand and find_domain_in_N are not modelled."
  },
  {
   "property": "C107",
   "status": "partial",
   "theorems": [
    "Purrs.C107_documented_rejected_refuted",
    "Purrs.C107_rejection_loses_conditions_refuted",
    "Purrs.C107_rejected_not_used_partial"
   ],
   "note": "Refuted: a documented-legal map with a gap is rejected, and a rejected call drops the previous conditions; the rejected conditions are not used."
  },
  {
   "property": "C108",
   "status": "partial",
   "theorems": [
    "Purrs.C108_no_success_then_throws_partial",
    "Purrs.C108_functional_refuted",
    "Purrs.C108_functional_nonvacuous"
   ],
   "note": "False for functional equations (C108_functional_refuted: a failing compute_exact_solution() leaves both bounds in the object); proved for all the other types."
  },
  {
   "property": "C109",
   "status": "partial",
   "theorems": [
    "Purrs.Interval.C109_min_refuted",
    "Purrs.Interval.C109_min_mem_partial",
    "Purrs.Interval.C109_max_mem_partial",
    "Purrs.Interval.C109_min_exact",
    "Purrs.Interval.C109_max_exact",
    "Purrs.Interval.C109_sqr_refuted",
    "Purrs.Interval.C109_sqr_mem_partial",
    "Purrs.Interval.C109_setGt_refuted",
    "Purrs.Interval.C109_setGt_partial"
   ],
   "note": "min/max of mixed INTEGER/REAL intervals, square of a negative interval and set_gt are refuted by witnesses and proved where they hold."
  },
  {
   "property": "C110",
   "status": "partial",
   "theorems": [
    "Purrs.C110_toUnsignedInt_partial",
    "Purrs.C110_negative_refuted",
    "Purrs.C110_large_refuted"
   ],
   "note": "Wrong for negative and large values (refuted)."
  },
  {
   "property": "C111",
   "status": "partial",
   "theorems": [
    "Purrs.C111_size_of_rewritten_refuted"
   ],
   "note": "Refuted by a witness; C56 has the size of the written-out expansion."
  },
  {
   "property": "C112",
   "status": "partial",
   "theorems": [
    "Purrs.PolyFactor.C112_64bit_refuted",
    "Purrs.PolyFactor.C112_undefined_refuted",
    "Purrs.PolyFactor.C112_32bit_refuted",
    "Purrs.PolyFactor.C112_32bit_exact_partial"
   ],
   "note": "Refuted: the byte loop skips the highest byte and shifts an int. x86-64: x - 2^31 is returned as x + 2^31; four-byte long: x - (2^24+1) as x - 1; by the language rules every call with an eight-byte long is undefined."
  },
  {
   "property": "C113",
   "status": "proved",
   "theorems": [
    "Purrs.PolyFactor.C113_factors_64bit",
    "Purrs.PolyFactor.C113_factors_32bit",
    "Purrs.PolyFactor.C113_good_factorizer",
    "Purrs.PolyFactor.C113_nonvacuous"
   ],
   "note": ""
  },
  {
   "property": "C114",
   "status": "proved",
   "theorems": [
    "Purrs.OnIC.C114_linear",
    "Purrs.OnIC.C114_system_regular",
    "Purrs.OnIC.C114_nonvacuous"
   ],
   "note": ""
  },
  {
   "property": "C115",
   "status": "partial",
   "theorems": [
    "Purrs.OnIC.C115_accepted_partial",
    "Purrs.OnIC.C115_short_refuted"
   ],
   "note": "Refuted: order 2 from index 5 accepts {x(4), x(5)} but x(6) stays in the answer. Partial: fine when the largest index is at least first + order - 1."
  },
  {
   "property": "C116",
   "status": "partial",
   "theorems": [
    "Purrs.OnIC.C116_positive_partial",
    "Purrs.OnIC.C116_product_partial",
    "Purrs.OnIC.C116_power_partial",
    "Purrs.OnIC.C116_zero_refuted",
    "Purrs.OnIC.C116_nonvacuous"
   ],
   "note": "Refuted: x(n) = x(n-2)^3 with x(0)=2, x(1)=0 is answered by 0. Partial: all values positive, the recurrences rewritten through logarithms; the branch for x(n)=c*x(n-1)^a is C121."
  },
  {
   "property": "C117",
   "status": "proved",
   "theorems": [
    "Purrs.OnIC.C117_sum_from_last",
    "Purrs.OnIC.C117_first",
    "Purrs.OnIC.C117_nonvacuous"
   ],
   "note": ""
  },
  {
   "property": "C118",
   "status": "partial",
   "theorems": [
    "Purrs.OnIC.C118_later_index_refuted",
    "Purrs.OnIC.C118_first_partial"
   ],
   "note": "Refuted: x(n) = sum of x(k), k<n, with x(2)=4 is answered with x(3)=4, the recurrence gives 8. Partial: condition at the first valid index."
  },
  {
   "property": "C119",
   "status": "partial",
   "theorems": [
    "Purrs.Bounds.C119_closed_form",
    "Purrs.Bounds.C119_gosper_partial",
    "Purrs.Bounds.C119_symbolic",
    "Purrs.Bounds.C119_sum_partial",
    "Purrs.Bounds.C119_nonvacuous",
    "Purrs.Bounds.C119_two_bases_refuted"
   ],
   "note": "False with Gosper's algorithm and several bases: the loop adds the whole sum once per base (C119_two_bases_refuted; C119_gosper_partial gives the exact value, a multiple of the sum); C119_sum_partial excludes that case (OneBase)."
  },
  {
   "property": "C120",
   "status": "proved",
   "theorems": [
    "Purrs.Bounds.C120_lower",
    "Purrs.Bounds.C120_nonvacuous"
   ],
   "note": ""
  },
  {
   "property": "C121",
   "status": "proved",
   "theorems": [
    "Purrs.OnIC.C121_integer",
    "Purrs.OnIC.C121_positive",
    "Purrs.OnIC.C121_nonvacuous"
   ],
   "note": ""
  },
  {
   "property": "C122",
   "status": "partial",
   "theorems": [
    "Purrs.NonLinear.C122_exchanged_partial",
    "Purrs.NonLinear.C122_exact_partial",
    "Purrs.NonLinear.C122_bounds_refuted"
   ],
   "note": "Refuted: x(n) = x(n/2)^2, x(1) = 1/2. Partial: for initial values at most 1 the two bounds are exchanged; the exact solution is never reported."
  },
  {
   "property": "C123",
   "status": "proved",
   "theorems": [
    "Purrs.NonLinear.C123_power_bounds",
    "Purrs.NonLinear.C123_nonvacuous"
   ],
   "note": ""
  },
  {
   "property": "C124",
   "status": "partial",
   "theorems": [
    "Purrs.OnIC.C124_divisor_two_partial",
    "Purrs.OnIC.C124_nonvacuous",
    "Purrs.OnIC.C124_divisor_three_refuted"
   ],
   "note": "Refuted: with divisor 3 the conditions x(1), x(2) are accepted and nothing is replaced. Partial: divisor 2, bounds in which x occurs only as x(1)."
  },
  {
   "property": "C125",
   "status": "proved",
   "theorems": [
    "Purrs.Interval.C125_mulV_mem",
    "Purrs.Interval.C125_mul_mem",
    "Purrs.Interval.C125_nonvacuous"
   ],
   "note": "Exact arithmetic on extended reals."
  },
  {
   "property": "C126",
   "status": "partial",
   "theorems": [
    "Purrs.Interval.C126_straddling_refuted",
    "Purrs.Interval.C126_open_zero_refuted"
   ],
   "note": "Refuted: INTEGER divisor with members of both signs; negative divisor whose upper end is an open 0. See C127 for the divisors that work."
  },
  {
   "property": "C127",
   "status": "proved",
   "theorems": [
    "Purrs.Interval.C127_divV_mem",
    "Purrs.Interval.C127_div_mem",
    "Purrs.Interval.C127_idiv_mem",
    "Purrs.Interval.C127_imod_mem",
    "Purrs.Interval.C127_nonvacuous"
   ],
   "note": "Exact arithmetic."
  },
  {
   "property": "C128",
   "status": "proved",
   "theorems": [
    "Purrs.Interval.C128_sqrt_mem",
    "Purrs.Interval.C128_exp_mem",
    "Purrs.Interval.C128_log_mem",
    "Purrs.Interval.C128_domain",
    "Purrs.Interval.C128_exp_exact",
    "Purrs.Interval.C128_sqrt_exact",
    "Purrs.Interval.C128_log_exact",
    "Purrs.Interval.C128_nonvacuous"
   ],
   "note": "Exact arithmetic; libm functions as the real functions."
  },
  {
   "property": "C129",
   "status": "partial",
   "theorems": [
    "Purrs.Interval.C129_negative_refuted",
    "Purrs.Interval.C129_integer_refuted",
    "Purrs.Interval.C129_open_zero_refuted"
   ],
   "note": "Refuted: [2,3]^(-1) (boundaries in the wrong order), {2,3}^(1/2) (type INTEGER kept), (0,4]^(-1/2). See C130."
  },
  {
   "property": "C130",
   "status": "proved",
   "theorems": [
    "Purrs.Interval.C130_pow_interval_mem",
    "Purrs.Interval.C130_pow_nat_mem",
    "Purrs.Interval.C130_pow_pos_mem",
    "Purrs.Interval.C130_pow_neg_mem",
    "Purrs.Interval.C130_nonvacuous"
   ],
   "note": "Exact arithmetic."
  },
  {
   "property": "C131",
   "status": "partial",
   "theorems": [
    "Purrs.Interval.C131_half_open_refuted"
   ],
   "note": "Refuted: cos of [-1, 1) does not contain cos(-1). See C135."
  },
  {
   "property": "C132",
   "status": "proved",
   "theorems": [
    "Purrs.Interval.C132_widen_mem",
    "Purrs.Interval.C132_widen_ok",
    "Purrs.Interval.C132_widen_real_chain",
    "Purrs.Interval.C132_widen_stabilises",
    "Purrs.Interval.C132_nonvacuous"
   ],
   "note": ""
  },
  {
   "property": "C133",
   "status": "proved",
   "theorems": [
    "Purrs.Interval.C133_narrow_between",
    "Purrs.Interval.C133_narrow_ok",
    "Purrs.Interval.C133_narrow_chain",
    "Purrs.Interval.C133_nonvacuous"
   ],
   "note": ""
  },
  {
   "property": "C134",
   "status": "partial",
   "theorems": [
    "Purrs.Interval.C134_mixed_refuted"
   ],
   "note": "Refuted: [5/2, 11/2] narrowed by the integers 3..5 keeps the fractional boundaries with type INTEGER."
  },
  {
   "property": "C135",
   "status": "proved",
   "theorems": [
    "Purrs.Interval.C135_hasMultiple",
    "Purrs.Interval.C135_cos_mem",
    "Purrs.Interval.C135_sin_mem",
    "Purrs.Interval.C135_tan_mem",
    "Purrs.Interval.C135_nonvacuous"
   ],
   "note": "Exact arithmetic; M_PI is taken to be the number pi."
  },
  {
   "property": "C136",
   "status": "proved",
   "theorems": [
    "Purrs.Capstone.C136_answer_is_solution",
    "Purrs.Capstone.C136_nonvacuous"
   ],
   "note": "The solver behind the object is assumed to return solutions (C139, C31, C32 prove it for the methods modelled)."
  },
  {
   "property": "C137",
   "status": "proved",
   "theorems": [
    "Purrs.Capstone.C137_evaluation_is_value",
    "Purrs.Capstone.C137_nonvacuous"
   ],
   "note": "As C136."
  },
  {
   "property": "C138",
   "status": "proved",
   "theorems": [
    "Purrs.Capstone.C138_answer_is_solution",
    "Purrs.Capstone.C138_evaluation_is_value",
    "Purrs.Capstone.C138_nonvacuous"
   ],
   "note": "As C136; the solver for the recurrence reduced to first order is C33/C57."
  },
  {
   "property": "C139",
   "status": "proved",
   "theorems": [
    "Purrs.CapstoneExact.C139_linear_form",
    "Purrs.CapstoneExact.C139_rhs_to_solution",
    "Purrs.CapstoneExact.C139_nonvacuous"
   ],
   "note": "Rational coefficients; 0 is not a decrement (n + 0 does not occur in normalised expressions)."
  },
  {
   "property": "C140",
   "status": "proved",
   "theorems": [
    "Purrs.CapstoneBounds.C140_answer_is_bound",
    "Purrs.CapstoneBounds.C140_nonvacuous"
   ],
   "note": "The bounds computed are assumed to be bounds at the points D (C38, C39 prove it for the cases modelled) and the lower and the upper one to be different."
  },
  {
   "property": "C141",
   "status": "proved",
   "theorems": [
    "Purrs.CapstoneBounds.C141_integer",
    "Purrs.CapstoneBounds.C141_positive",
    "Purrs.CapstoneBounds.C141_nonvacuous"
   ],
   "note": "Solver and bounds are assumed to return the expression built for this case (C33)."
  },
  {
   "property": "C142",
   "status": "partial",
   "theorems": [
    "Purrs.C142_verdict_on_answer_partial",
    "Purrs.C142_unread_partial",
    "Purrs.C142_bound_partial",
    "Purrs.C142_throws",
    "Purrs.C142_symbolic_partial",
    "Purrs.C142_evaluated_partial",
    "Purrs.C142_unread_verdict_refuted",
    "Purrs.C142_unread_wrong_refuted"
   ],
   "note": "Proved for all histories once the answer was read (or without initial conditions, or with the value already stored), composed with C40. Refuted otherwise: compute_exact_solution(); set_initial_conditions(); verify_exact_solution() verifies the expression 0, so the right answer 5 of x(n)=x(n-1), x(0)=5 is INCONCLUSIVE before it is read and PROVABLY_CORRECT after, and a wrong answer can be PROVABLY_CORRECT."
  },
  {
   "property": "C143",
   "status": "partial",
   "theorems": [
    "Purrs.C143_linear_only_reduced",
    "Purrs.C143_associated_verified",
    "Purrs.C143_weighted_partial",
    "Purrs.C143_reduced_partial",
    "Purrs.C143_product_partial",
    "Purrs.C143_nonvacuous"
   ],
   "note": "Where the verdict comes from is proved without conditions; what it implies inherits the conditions of C40 (candidate in the class of the new method) and of C30, C105, C106. The refutations of these carry over."
  },
  {
   "property": "C144",
   "status": "proved",
   "theorems": [
    "Purrs.Verify.C144_symbolic",
    "Purrs.Verify.C144_iff",
    "Purrs.Verify.C144_evaluated",
    "Purrs.Verify.C144_nonvacuous",
    "Purrs.C144_history",
    "Purrs.C144_history_evaluated",
    "Purrs.C144_history_nonvacuous"
   ],
   "note": "Proved relative to simplifications that recognise rational constants (C144_nonvacuous: such simplifications exist for every recurrence). For a homogeneous recurrence the program compares the terms without initial conditions with 0 without simplifying them, so they have to be literally absent; this is a hypothesis."
  },
  {
   "property": "C145",
   "status": "proved",
   "theorems": [
    "Purrs.SolveLin.C145_constant_coefficients",
    "Purrs.SolveLin.C145_variable_coefficient",
    "Purrs.SolveLin.C145_order_zero",
    "Purrs.SolveLin.C145_too_complex"
   ],
   "note": "Proved relative to specifications of GiNaC's expand, coeff, degree, lsolve, collect, and of the parts of PURRS proved elsewhere (sums C11, products C53, blackboard). lsolve has to return a solution of the systems in which every unknown is either determined or arbitrary, as in all systems set up here (special_separate, constants_separate), and to find one when the base is not a root (see C146, C147). The old method, used when the inhomogeneous term is not a sum of polynomials times exponentials, is the subject of C161 and, on values, of C31/C32. Concrete cases: SolveLinearEx.lean."
  },
  {
   "property": "C146",
   "status": "partial",
   "theorems": [
    "Purrs.SolveLin.C146_unsolved_refuted",
    "Purrs.SolveLin.C146_checked_partial"
   ],
   "note": "False: compute_special_solution does not check that lsolve found a solution; if the base is not a root (mult = 0) the assertion holds and the ansatz with the unknown coefficients is returned (C146_unsolved_refuted). Proved for the other cases."
  },
  {
   "property": "C147",
   "status": "proved",
   "theorems": [
    "Purrs.Exact.C147_undetermined_coefficients",
    "Purrs.Exact.C147_constants_determined",
    "Purrs.SolveLin.C147_complete"
   ],
   "note": "Relative to: lsolve solves the systems of this run that have a solution; equal bases are recognised (the roots are compared with the bases as expressions); the polynomial whose coefficients are the equations is recognised by GiNaC. Concrete cases in SolveLinearComplete.lean."
  },
  {
   "property": "C148",
   "status": "proved",
   "theorems": [
    "Purrs.CapstoneLinear.C148_answer_is_solution",
    "Purrs.CapstoneLinear.C148_evaluation_is_value",
    "Purrs.CapstoneLinear.C148_nonvacuous"
   ],
   "note": "Relative to the specifications of GiNaC's operations, of the simplifications and of the search of roots collected in the structure Assumed. Coefficients are rational numbers. Concrete history (two sets of initial conditions) in CapstoneLinearEx.lean."
  },
  {
   "property": "C149",
   "status": "proved",
   "theorems": [
    "Purrs.CapstoneReduce.C149_order_reduction",
    "Purrs.CapstoneReduce.C149_expanded",
    "Purrs.CapstoneReduce.C149_nonvacuous"
   ],
   "note": "Relative to the specifications in the structure Assumed; right-hand sides for which the rewriting is right are those of C30 (RhsOk; C30 has the counterexamples). Concrete case x(n) = x(n-2) + 1 in CapstoneReduceEx.lean."
  },
  {
   "property": "C150",
   "status": "partial",
   "theorems": [
    "Purrs.FirstIndex.C150_linear_partial",
    "Purrs.FirstIndex.C150_functional_partial",
    "Purrs.FirstIndex.C150_logarithm_refuted",
    "Purrs.FirstIndex.C150_functional_refuted",
    "Purrs.FirstIndex.C150_nonvacuous"
   ],
   "note": "Proved for what the code looks at, under the specification Searched of the search of zeros of a polynomial. Missing, and refuted with concrete recurrences: logarithms in the inhomogeneous term (x(n) = x(n-1) + log(n-2) has first valid index 0; there is a FIXME in the source) and the denominator of the inhomogeneous term of functional equations (x(n) = x(n/2) + 1/(n-3) has first valid index 1)."
  },
  {
   "property": "C151",
   "status": "proved",
   "theorems": [
    "Purrs.CapstoneVar.C151_answer_is_solution",
    "Purrs.CapstoneVar.C151_evaluation_is_value",
    "Purrs.CapstoneVar.C151_nonvacuous"
   ],
   "note": "Relative to the specifications in the structures IsVariable (search of zeros) and Assumed (GiNaC, product and sum of order 1, simplifications). Values are real numbers. Concrete history in CapstoneVarEx.lean."
  },
  {
   "property": "C152",
   "status": "proved",
   "theorems": [
    "Purrs.CapstoneDiv.C152_answer_is_bound",
    "Purrs.CapstoneDiv.C152_polynomial",
    "Purrs.CapstoneDiv.C152_nonvacuous"
   ],
   "note": "Relative to the specifications in the structure Assumed (comparisons, decomposition of the inhomogeneous term, terms as in C38/C39, renaming). C152_polynomial discharges those about the inhomogeneous term for sums of c n^k in the range of C70. For a = 1 it is assumed that the two bounds are not equal (if they are the same expression the object stores the number 1 as exact solution). Concrete history in CapstoneDivEx.lean."
  },
  {
   "property": "C153",
   "status": "partial",
   "theorems": [
    "Purrs.WeightedExtract.C153_sum_found",
    "Purrs.WeightedExtract.C153_describes_partial",
    "Purrs.WeightedExtract.C153_solutions_partial",
    "Purrs.WeightedExtract.C153_weight_known",
    "Purrs.WeightedExtract.C153_product",
    "Purrs.WeightedExtract.C153_sum",
    "Purrs.WeightedExtract.C153_affine",
    "Purrs.WeightedExtract.C153_nonvacuous",
    "Purrs.WeightedExtract.C153_summand_refuted",
    "Purrs.WeightedExtract.C153_other_sum_refuted",
    "Purrs.WeightedExtract.C153_product_nonvacuous",
    "Purrs.WeightedExtract.C153_sum_nonvacuous"
   ],
   "note": "Partial: proved when the summand of the sum found is x(k). False otherwise: the code only asks that the summand has degree at most 1 in x(k), so x(n) = sum(k,0,n-1,k*x(k)) is treated as x(n) = sum(k,0,n-1,x(k)) (C153_summand_refuted); and a second, different sum of the unknown is put in the inhomogeneous term (C153_other_sum_refuted)."
  },
  {
   "property": "C154",
   "status": "proved",
   "theorems": [
    "Purrs.CapstoneWA.C154_answer_is_solution",
    "Purrs.CapstoneWA.C154_evaluation_is_value",
    "Purrs.CapstoneWA.C154_first_variable",
    "Purrs.CapstoneWA.C154_first_constant",
    "Purrs.CapstoneWA.C154_nonvacuous"
   ],
   "note": "The hypotheses exclude what C153, C106 refute (other summands, associated recurrences with first valid index > 0); the library's algebra (collect, simplify, numerator, denominator) enters through its specification."
  },
  {
   "property": "C155",
   "status": "proved",
   "theorems": [
    "Purrs.OrderZero.C155_answer_is_solution",
    "Purrs.OrderZero.C155_evaluation_is_value",
    "Purrs.OrderZero.C155_refusals",
    "Purrs.OrderZero.C155_nonvacuous",
    "Purrs.OrderZero.C155_zero_nonvacuous"
   ],
   "note": "Simplification and renaming enter through their specification (they keep values and do not introduce x). For right-hand sides where the unknown occurs but is not found by the classification see C65."
  },
  {
   "property": "C156",
   "status": "partial",
   "theorems": [
    "Purrs.MaxRec.C156_answer_is_solution_partial",
    "Purrs.MaxRec.C156_growing",
    "Purrs.MaxRec.C156_refused",
    "Purrs.MaxRec.C156_status",
    "Purrs.MaxRec.C156_nonvacuous",
    "Purrs.MaxRec.C156_falling_refuted",
    "Purrs.MaxRec.C156_throws_nonvacuous",
    "Purrs.MaxRec.C156_order_zero_refuted"
   ],
   "note": "The library drops the maximum: proved when f never falls below a (C156_answer_is_solution_partial; C156_growing derives this for f = c(n)x(n-1)+g(n), c>=1, g>=0, a>=0), refuted in general (C156_falling_refuted). For f of order >= 2 or first valid index >= 1 no solution is returned, and an exception leaves compute_exact_solution (C156_refused)."
  },
  {
   "property": "C157",
   "status": "proved",
   "theorems": [
    "Purrs.CapstoneNeg.C157_answer_is_solution",
    "Purrs.CapstoneNeg.C157_evaluation_is_value",
    "Purrs.CapstoneNeg.C157_shift_le_order",
    "Purrs.CapstoneNeg.C157_nonvacuous"
   ],
   "note": "The solver, the renaming and the treatment of the initial conditions enter as in C136 (SoundLinear, met by C148 and C151 for the recorded recurrence); expand and collect through their specification (RwOk). Right-hand sides with x(n) itself: see C67."
  },
  {
   "property": "C158",
   "status": "proved",
   "theorems": [
    "Purrs.CapstonePow.C158_answer_is_bound",
    "Purrs.CapstonePow.C158_recognised",
    "Purrs.CapstonePow.C158_nonvacuous"
   ],
   "note": "Simplification and renaming enter by their specification (they keep values). While initial conditions are in force the code asks for the order of the associated recurrence, which is a functional equation: that case is not covered."
  },
  {
   "property": "C159",
   "status": "proved",
   "theorems": [
    "Purrs.Interval.C159_antisymmetric",
    "Purrs.Interval.C159_zero",
    "Purrs.Interval.C159_transitive",
    "Purrs.Interval.C159_lower_first",
    "Purrs.Interval.C159_upper_second",
    "Purrs.Interval.C159_nonvacuous"
   ],
   "note": ""
  },
  {
   "property": "C160",
   "status": "partial",
   "theorems": [
    "Purrs.Verify.C160_inequality",
    "Purrs.Verify.C160_step",
    "Purrs.Verify.C160_base",
    "Purrs.Verify.C160_upper_partial",
    "Purrs.Verify.C160_lower_partial",
    "Purrs.Verify.C160_nonvacuous",
    "Purrs.Verify.C160_lower_refuted",
    "Purrs.Verify.C160_upper_refuted",
    "Purrs.Verify.C160_reached",
    "Purrs.Verify.C160_verify"
   ],
   "note": "The inequality of the induction is proved for every accepted candidate. That it gives a bound is proved for upper bounds that do not decrease and lower bounds that do not increase, because the equation has the integer part of n/b and the verification puts n/b itself; for the others it is refuted. The inductive step is only reached by terms with an application of x that is not an initial condition (C72), such as x(Sc(n,b)) for b not an integer (C160_reached)."
  },
  {
   "property": "C161",
   "status": "proved",
   "theorems": [
    "Purrs.OldMethod.C161_old_method",
    "Purrs.OldMethod.C161_nonvacuous",
    "Purrs.OldMethod.C161_old_method_order1",
    "Purrs.OldMethod.C161_order1_nonvacuous"
   ],
   "note": "Assumed: the roots and their multiplicities, the solution of the linear system for the fundamental solution, simplifications and rewriting that keep the values. Roots replaced by symbols are covered: a root is any expression with a constant value. The branches for sums of polynomials times exponentials in these functions are not reached and not modelled. For order 1 sum_poly_times_exponentials (C10), the simplification of its result for alpha and lambda not 0 and, if the closed form is for different alpha and lambda, different, and Gosper's algorithm are parameters with their specifications."
  },
  {
   "property": "C162",
   "status": "partial",
   "theorems": [
    "Purrs.Giac.C162_factorize_partial",
    "Purrs.Giac.C162_numeric_factor_partial",
    "Purrs.Giac.C162_nonvacuous",
    "Purrs.Giac.C162_numeric_nonvacuous",
    "Purrs.Giac.C162_factorize_refuted",
    "Purrs.Giac.C162_numeric_factor_refuted"
   ],
   "note": "Assumed: giac's operations keep the value and invent no identifiers (Sound). Proved as long as the number of digits in the names of the unnamed symbols does not change during the call; the numeric factor is free of symbols if giac leaves no inverse with identifiers among the factors. Refuted: with the names symbol9, symbol10 the factorization of a*b*a gives a*b*b (the look-up of the blackboard, C28); x^(-1) becomes the *numeric* factor. Not covered: complex numbers, symbolic sums and products, integers that do not fit in an int (to_int, val)."
  },
  {
   "property": "C163",
   "status": "proved",
   "theorems": [
    "Purrs.Zeilberger.C163_smallest_order",
    "Purrs.Zeilberger.C163_failure",
    "Purrs.Zeilberger.C163_nonvacuous"
   ],
   "note": "The search for a fixed order is a parameter (modelled and proved separately: C49, C76, C77)."
  }
 ]
}