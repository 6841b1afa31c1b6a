# DESIGN

Formal model of PURRS (`/repo/src`) in Lean 4 (4.33.0) + Mathlib; everything lives in `lean/Verif/`.

## Method

* `Verif/Model/*.lean`: function-by-function models. Every definition cites file and lines. Functions are total and computable where the code is; C++ undefined behaviour, exceptions and refusals are separate outcomes.
* `Verif/Props/*.lean`: the property theorems, stated against Mathlib notions or a small specification at the top of the file, each followed by non-vacuity examples.
* Where the code violates the property as a user would state it, the refutation is proved on a concrete witness (`*_refuted`), and the strongest true version is proved (`*_partial`).
* `seeded/LOG.jsonl` records mutation experiments on scratch copies.

## Plan per property

* **C01** Three-valued logic never lies — Model `Bool3` and its connectives literally; prove soundness and optimality against 'set of resolutions' (finite domain, but stated with a quantifier over resolutions).
* **C02** Integer gcd is the greatest common divisor and terminates — Model the C++ loop over `Int` with truncating `%`; prove termination by |m| decreasing, result by `Int.gcd`. INT_MIN % -1 (UB) modelled as a distinct outcome on a 32-bit wrapper.
* **C03** lcm of a list of numbers is the least common multiple — Fold model; induction over the vector.
* **C04** Trial-division factorization reassembles the number — Model the loops with fuel-free well-founded recursion; loop invariant product*m = |n|.
* **C05** Divisor enumeration is exact or refused — Model the enumeration; prove set equality with all divisors under the threshold.
* **C06** Rational roots are all found — Model the candidate loop; use the rational root theorem.
* **C07** Quadratic, cubic and quartic formulas yield true roots — Model the closed formulas over ℂ with explicit choices of roots as parameters satisfying their defining equations; prove factorisation identity.
* **C08** Roots of a x^n + k — Model the list of roots; prove each satisfies the binomial equation; record defects of the caller.
* **C09** Nested polynomial detection is exact — Model on coefficient lists.
* **C10** Closed-form sum of a polynomial is right at every n — Model falling products, Newton interpolation and the sums over a field of characteristic 0; induction on n and degree.
* **C11** Levy's undetermined-coefficient summation agrees with the sum — Model the recurrence for Levy's coefficients.
* **C12** Sums of polynomial times cosine — Model as complex exponentials; refute the sine version.
* **C13** Exponential-polynomial decomposition loses nothing — Expr AST model with semantics; structural induction.
* **C14** Factorial decomposition loses nothing — Expr AST model; prove the good branches, refute the bad ones.
* **C15** Splitting into polynomial and non-polynomial part is lossless — Expr AST model.
* **C16** Conversion to integer polynomial is a scaling — Expr AST / coefficient-list model.
* **C17** The resultant computed from the Sylvester matrix is the resultant — Model with 32-bit wrap of the unsigned exponent; prove the non-wrapping case; refute.
* **C18** Substitution is semantic substitution — Expr AST model; substitution lemma by structural induction.
* **C19** Distributing products over sums preserves values — Expr AST model, n-ary loops.
* **C20** Scalar representation test is sound — Expr AST model.
* **C21** Polynomial tests are sound — Expr AST model; witness a Mathlib polynomial.
* **C22** Absence of the unknown function is detected exactly — Expr AST model.
* **C23** Collecting terms preserves values — Expr AST model.
* **C24** Numeric evaluation rules of sum/prod/mod/floor/binomial are right — Numeric rules over ℤ/ℚ; symbolic rules against the finite sum/product.
* **C25** Non-negativity preservation test is sound — Expr AST with real semantics.
* **C26** Blackboard: definitions are never lost, and rewriting undoes them — State machine with histories; invariant that definitions only mention earlier symbols.
* **C27** Blackboard: memoised rewriting and size computation equal the un-memoised ones — Same state machine with caches; simulation with uncached one.
* **C28** Blackboard: finding a definition's symbol returns that symbol — Name-ordered map vs insertion order; prove for ≤10 symbols of the same name length, refute in general.
* **C29** System-generated symbols are replaced by fresh distinct names — Model names as letter/index pairs.
* **C30** Order reduction is exact — Functions on ℤ; algebraic equivalence; roots of unity for the expanded form.
* **C31** Constant-coefficient linear recurrences: the closed form solves the recurrence — Closed forms over a field; induction on n.
* **C32** First-order variable-coefficient recurrences: the closed form solves the recurrence — Induction on n.
* **C33** Non-linear recurrences x(n)=c x(n-1)^a — Induction on n over positive reals.
* **C34** Weighted-average recurrences reduce to first order — Equivalence proof over a field.
* **C35** Eliminating negative decrements is an equivalence — Equivalence over functions ℤ → K.
* **C36** Classification records the recurrence it was given — Expr AST / summand-list model; fold invariant.
* **C37** Functional equations: the recorded coefficients describe the right-hand side — Same; map insert semantics; refute for repeated divisors.
* **C38** Upper bounds of functional equations hold at every n — Real analysis by strong induction on n.
* **C39** Lower bounds of functional equations hold at every n — Same.
* **C40** Verification verdict PROVABLY_CORRECT is sound for finite-order recurrences — Vandermonde argument; induction.
* **C41** Verification of weighted-average recurrences — Refute for weight −1; prove the rest.
* **C42** Initial conditions are validated before being accepted — State machine.
* **C43** Changing initial conditions never leaves a stale evaluated solution — State machine; invariant over histories.
* **C44** Replacing the recurrence invalidates cached answers — State machine; refute; prove the corrected scope.
* **C45** Queries before computation fail loudly — State machine.
* **C46** Evaluation over a range is pointwise evaluation — State machine / list model.
* **C47** Copies are independent — State machine over an object heap.
* **C48** Indefinite summation by Gosper's algorithm telescopes to the sum — Term functions over a field; telescoping.
* **C49** Zeilberger's rational-function bookkeeping is exact — Rational identities.
* **C50** Common factor extraction is exact — Factor-list model.
* **C51** Numerator/denominator splitting is exact — Factor-list model.
* **C52** Simplification on input keeps the value of powers — Rule by rule over ℝ / ℚ.
* **C53** Closed-form products are right — Rule by rule.
* **C54** Interval operations are sound and exact — Boundaries over a linear order / ℚ.
* **C55** Conversion of big integers to machine integers — Byte-level model.
* **C56** Size norm is the tree size and is monotone — Expr AST.
* **C57** Non-decreasing test for functional equations is sound — Expr AST with real semantics; refute negative multiples.
* **C58** Domain search finds a valid start — Coefficient lists / Expr.
* **C59** Renaming a symbol keeps the meaning of the blackboard — State machine of the blackboard; invariant that names are distinct, meaning by evaluation.
* **C60** The first valid index for the solution is the one the solution is valid from — Object model; the value stored by the query compared with the validity of the solution.
* **C61** The solution can be evaluated wherever it is valid — Object model with an engine parameter; refusals of `evaluate`.
* **C62** The root finder returns exactly the roots of the polynomial — Coefficient lists and ℂ; soundness and completeness of the list of roots by degree, factor by factor, with the NTL factorisation as a hypothesis; multiplicities.
* **C63** The linear systems set up by the solver always have a solution — Vandermonde-type (confluent) argument: the linear system has trivial kernel.
* **C64** The constant-coefficient solver is right end to end — Composition of C62, C31 and C63.
* **C65** The inhomogeneous part recorded by the classification is known — Fold invariant over the terms; refutation by a witness.
* **C66** Classification accepts linear and functional recurrences and refuses with a true reason — Fold invariant; existence of a term of the reported kind.
* **C67** Eliminating x(n) from the right-hand side is an equivalence — Equivalence over functions on the integers; refutations by witnesses.
* **C68** A recurrence that cannot be classified is always refused, for the same reason — Invariant over call histories of the object model.
* **C69** Upper bounds of divide-and-conquer equations with polynomial-logarithmic costs — Total correctness of the bound on sums of monomials, from the pieces used for C38.
* **C70** Lower bounds of divide-and-conquer equations in the balanced range — The same for the lower bound in the range where the lemmas hold.
* **C71** Bounds of homogeneous functional equations — Unrolling of the equation; comparison of the power of the coefficient with the floor of the logarithm.
* **C72** Verification of bounds is sound — Function model of the verification; every candidate whose unknowns are initial values is accepted (theorem), with a wrong bound as witness.
* **C73** Verification by substitution is sound for recurrences with variable coefficients — Function model of the verification with value-preserving simplifiers as parameters; the residual of the substitution vanishes, so by induction on the index the candidate is the solution.
* **C74** Evaluation of floor, binomial coefficients and sums and products with numeric bounds — Functions on expression trees with the loops as well-founded recursion; the values compared with finite sums and products.
* **C75** Gosper's algorithm decides whether a closed form exists — Polynomials over the rationals; invariant of the loop of step two (dispersion), degree bound of step three from the two highest coefficients, and Abramov's argument with the roots of the denominator in the complex numbers.
* **C76** Creative telescoping finds recurrences that the sums satisfy — Polynomials in k over a field at a fixed m; the identities of the three steps, then telescoping by induction on the length of the range; a continuation of the certificate covers zeros of the denominators.
* **C77** The closed form returned by Zeilberger's algorithm is the sum — Uniqueness of the solution of the recurrence by strong induction, with the initial values as computed; a term with a larger support as a witness of the error.
* **C78** Radicals in standard form keep their value — Function model of the radicals; powers of positive real numbers, prime factorization loop; value of the standard form by the laws of real powers.
* **C79** Radicals of negative numbers keep their value — The same model read in the complex numbers; refutations by witnesses.
* **C80** The standard form of a radical is unique — Shape of the standard form from the factorization; refutation by two radicals of equal value.
* **C81** Collecting equal bases keeps the value — Fold invariant over the pairs of base and exponent; witness where the base occurs elsewhere.
* **C82** Simplification of nested powers keeps the value for all real values of the symbols — Corollary of C52 for positive bases; witness (x^2)^(1/2).
* **C83** Factorials of shifted arguments keep their value when they are decomposed — Function model of the decomposition; the product of missing factors by induction on the shift, from the functional equation of the factorial.
* **C84** Binomial coefficients keep their value when they are rewritten — Function model of the rule; cases on the signs of the arguments.
* **C85** Simplification of binomials, factorials and exponentials keeps the value — Structural induction over the expression with the local theorems.
* **C86** Sums of polynomials times exponentials are computed right — Function model of compute_sum on top of C10 and C13; the closed form is evaluated after the substitution of the upper limit.
* **C87** Simplification of symbolic sums keeps the value — Fuel-indexed model of the whole simplification; domain predicate along the recursion; witnesses outside of it.
* **C88** Rewriting upper limits of sums keeps the value — Function model of split_sum; sums over integer intervals are split.
* **C89** Collecting symbolic sums keeps the value — Fold invariant over the addends: value = rest + merged sum.
* **C90** Elementary properties of the logarithm keep its value — Function model of the rewriting of one logarithm; interpretation in the reals with a specification of log and powers.
* **C91** The perfect power test ends and is right — Fuel-indexed loops; geometric growth bounds the number of rounds, monotonicity gives completeness.
* **C92** Simplifying quotients of logarithms keeps the value — Function model of the pairing loops; the product of the parts is the product.
* **C93** The rules for powers with logarithms in the exponent keep the value — Function model of the scanning loops; laws of real powers with positive bases.
* **C94** Simplification of logarithms keeps the value — Fuel-indexed recursion; domain predicate along the recursion; witnesses in the complex numbers.
* **C95** Simplification of logarithms ends — The calls are listed by a function, the result depends only on them; the relation is well-founded by a lexicographic order (nesting of exponents outside of logarithms, size) with a separate argument for logarithms (size of the base under all powers).
* **C96** Simplification for output keeps the value — Fuel-indexed recursion over the stages of manip_factor; each stage keeps the value on its domain (C52, C78, C81 reused).
* **C97** All simplifications together keep the value — Composition of C85, C89, C96 and C94 with one set of GiNaC operations.
* **C98** Sums of polynomial times sine — Same model as C12; refute, and prove the sums for which the code is right.
* **C99** The Euclidean resultant is the resultant — Model with 32-bit wrap of the unsigned exponent; prove the non-wrapping case; refute.
* **C100** Substitution does not capture bound indices — Substitution lemma by structural induction with a condition on the bound indices; witness of capture.
* **C101** Distribution leaves no product of a sum — Witness.
* **C102** Integer and rational polynomial tests are sound — Expr AST model; witness a Mathlib polynomial; refute for functions.
* **C103** Collected coefficients are free of the term — Witness.
* **C104** Renaming on the blackboard leaves no dangling symbol — State machine; witness history.
* **C105** Non-linear recurrences with products of powers — Expr AST with real and complex logarithms; value of the rewritten right-hand side.
* **C106** The solution returned for a weighted-average recurrence satisfies it — Composition of C34 with the solver of first order recurrences.
* **C107** Legal initial conditions are accepted, and a rejected call changes nothing — State machine over call histories.
* **C108** Without a successful computation every query throws — State machine over call histories.
* **C109** Interval minimum, maximum, square and strict bounds are sound — Boundaries over a linear order; witnesses.
* **C110** Conversion to unsigned integers — Machine integers.
* **C111** The size predicted by the blackboard is that of the rewritten expression — Witness.
* **C112** Factorisation into polynomials, whatever the size of the coefficients — The byte loop over machine integers with the shift as a parameter (language rules or x86); concrete polynomials for the refutations, exact bound for a four-byte long.
* **C113** Factorisation into polynomials with small coefficients — Induction over the coefficients and the factors; NTL is a parameter assumed to return a factorisation.
* **C114** Linear recurrences: the solution on given initial conditions — lsolve and the new symbols are parameters; forward and backward iteration of the recurrence give existence and uniqueness of the values at the symbolic indices, induction over the substitutions the value of the result.
* **C115** Accepted initial conditions determine the solution of linear recurrences — Specification of the acceptance test plus C114; concrete accepted map for the refutation.
* **C116** Non-linear recurrences: the solution on given initial conditions — The associated linear recurrence of the logarithms (C105) and the argument of C114; concrete recurrence for the zero condition.
* **C117** Weighted averages: the sum restarted at the last initial condition — The recurrence is re-classified with the new lower limit (C106), then one substitution.
* **C118** Weighted averages on initial conditions satisfy the given recurrence — C117; concrete recurrence for the refutation.
* **C119** Closed forms of the sums in the bounds for functional equations — compute_sum function by function on top of the decomposition (C13) and the closed form of polynomials times exponentials (C10); Gosper's algorithm as a parameter with the specification of C15; the symbolic sum by evaluation of the binder.
* **C120** Lower bounds for divide-and-conquer recurrences whose coefficient exceeds b^k — Instance of the theorems on the bounds (C70) with the sums computed by C119; for the exponents with b^k < a the closed form of G is shown to be below the sum over the levels.
* **C121** x(n) = c x(n-1)^a on given initial conditions — Case analysis of the branch taken (value zero, later condition, first condition), then C33 for the shifted sequence.
* **C122** Bounds of x(n) = x(n/b)^a for all positive initial values — The bounds of the associated linear equation are linear in the logarithms of the initial values; concrete sequence for the refutation.
* **C123** Bounds of x(n) = x(n/b)^a for initial values not below 1 — Logarithm of the sequence, unrolling of the linear equation (C70's lemma on the initial term), monotonicity of exp.
* **C124** Bounds of functional equations on given initial conditions — Specification of the acceptance test; substitution lemmas for expressions whose only x is x(1); concrete equation for the refutation.
* **C125** Interval products are sound — Corner lemmas for products of extended reals with flags; one case per row of the table.
* **C126** Interval quotients are sound — Concrete intervals computed by the model.
* **C127** Interval quotients are sound for divisors of one sign or reals around 0 — Corner lemmas for quotients with an inverse that is +infinity at 0; one case per row.
* **C128** Square root, exponential and logarithm of intervals — Strictly monotone functions on boundaries; exactness by the inverse function.
* **C129** Interval powers are sound — Concrete intervals computed by the model.
* **C130** Interval powers are sound for the exponents the code handles — Monotonicity of real powers in base and exponent; one case per row.
* **C131** Cosine and sine of intervals are sound — Concrete half-open interval.
* **C132** Widening contains the new interval and stops — Order key of boundaries; rank function for the chain.
* **C133** Narrowing stays between the new and the old interval and stops — Order key of boundaries; rank function for the chain.
* **C134** Narrowing keeps the normal form for intervals of different types — Concrete intervals.
* **C135** Cosine, sine and tangent of intervals are sound unless the ends differ in status at equal values — Integers in a shifted interval; strict monotonicity of the cosine between its extrema.
* **C136** The answer for a linear recurrence is the solution for the initial conditions in force — Invariant over all histories of the object (every cached answer is a solution or the solution for the conditions in force), composed with C114.
* **C137** Evaluating the solution gives the value of the sequence — C136 and the rules for evaluating an expression at a number.
* **C138** The answer for a weighted-average recurrence is the solution for the initial condition in force — The invariant of C136 instantiated with the weighted-average case of C114.
* **C139** From the right-hand side the user writes to the solution — Composition of C36 (classification) and C64 (solver).
* **C140** The answers for a functional equation are bounds for the initial conditions in force — Invariant over all histories of the object with three classes of expressions (solutions, lower bounds, upper bounds), composed with C38, C39 and C124.
* **C141** The answers for x(n) = c x(n-1)^a are the solution for the initial conditions in force — The same invariant composed with C33 and C121.
* **C142** A verification verdict is about the answer the program gives — Model the dispatch and the choice of the verified expression (Model/VerifyObj.lean) on the object state machine; invariant over all histories that nothing is evaluated without initial conditions, then composition with C40; counterexamples for initial conditions set after the computation and not read yet (the expression 0 is verified).
* **C143** PARTIAL_PROVABLY_CORRECT means that the recurrence used to find the solution was solved correctly — Case analysis of the verdicts for where the partial verdict can come from; composition of C40 with C30 (order reduction), C105 (non-linear) and C106 (weighted averages).
* **C144** A right solution is confirmed if the simplifier recognises constants — Converse of C40: from a solution that is right for all initial values (which exist by forward recursion) derive the values of the coefficients and of the remainder, then follow steps 1-4 of the verification; an ideal oracle shows that the hypotheses can be met for every recurrence.
* **C145** The expression returned for a linear recurrence of finite order is its solution — Model of the solver on expressions (Model/SolveLinear.lean): ansatz, substitution into the recurrence, both systems, substitution of their solutions. Prove that the value of the difference is the polynomial of C31 (eval_diffE), that the values found satisfy the recurrence (special_spec, by comparing polynomials at infinitely many indices), that the constants fit the initial conditions (constants_spec), and conclude with the uniqueness of solutions. GiNaC's operations are parameters with specifications.
* **C146** A system of equations without a solution never leads to an answer — Same model with an lsolve that finds nothing: the answer contains the unknown (counterexample); in the other cases there is no answer.
* **C147** Every linear recurrence with constant coefficients is solved once its roots are known — Kernel of the powers of the difference operator on polynomials (diff_pow_kernel) gives which coefficients are undetermined; independence of polynomials times exponentials gives that the constants are determined. The systems of Model/SolveLinear.lean are shown equivalent to those of the value level (system_iff, constants_iff), so with an lsolve that solves solvable systems every step of solveLinear succeeds; correctness by C145.
* **C148** From the right-hand side written by the user to the answer, after any calls, for linear recurrences with constant coefficients — Composition of C36 (classification, value of the right-hand side), C145 (solver on expressions), C136/C137 (state of the object) and C114 (initial conditions): the assumption of C136 that the solver's answers are solutions is discharged (sound). Concrete history: CapstoneLinearEx.lean.
* **C149** Reducing the order does not change the solution of the recurrence written by the user — Composition of C36, C30 and C145: the inhomogeneous term found while rewriting has the value of the original one in each residue class (inhom_val), the coefficients are those at the multiples of the common divisor (sum_multiples, newCoefficients), so the reduced recurrence is of the form C145 works on for each residue (reduced_recIs). Concrete case: CapstoneReduceEx.lean.
* **C150** The recurrence can be used from the first valid index on — Model/FirstIndex.lean: the last part of classify (order 0, linear, functional equations) calling find_domain_in_N (C72); induction over the coefficients. False in general (logarithms in the inhomogeneous term, inhomogeneous terms of functional equations are not looked at): counterexamples x(n) = x(n-1) + log(n-2) and x(n) = x(n/2) + 1/(n-3).
* **C151** From the right-hand side written by the user to the answer, after any calls, for first order recurrences with a variable coefficient — Composition of C36, C150 (the coefficient is non-zero where it is divided by), C145 (variable coefficient), C136/C137 and C114. Concrete history: CapstoneVarEx.lean, x(n) = n*x(n-1) + n!.
* **C152** From the right-hand side written by the user to the bounds, after any calls, for functional equations — Composition of C37 (value of the right-hand side, with the argument of x rounded down), C38/C39 (C69/C70 for polynomials: the bounds are computed) and C140 (histories): the classes of bounds assumed by C140 are those of approximate_functional_equation; their form (x only in the term of the initial condition) is proved by going through the computation, and that the two bounds differ by comparing the coefficients of x(1). Concrete history: CapstoneDivEx.lean.
* **C153** The weight and the inhomogeneous term recorded for a weighted average describe the right-hand side written by the user — Model of the recognition (Model/WeightedExtract.lean: the sum found by the classification, collect_term, the checks of rewrite_weighted_average_recurrence, the three calls of find_domain_in_N). C153_describes_partial/C153_solutions_partial: the identity for summand x(k), from the specification of collect_term proved by induction on addends and factors; C153_weight_known. Refuted for other summands (k x(k) is taken for x(k)) and for a second sum, which ends in the inhomogeneous term.
* **C154** Weighted averages: from the right-hand side the user writes, through any calls, to the answer — Composition (Props/CapstoneWA.lean) of C153, C58, C34, C106, C138 over the reals: hypotheses on the recognised data (IsWeighted), on the associated recurrence (FirstSolved, met by C145's solver: C154_first_variable, C154_first_constant), on the wiring. Case: x(n) = 2/n*sum(k,0,n-1,x(k)) + 1.
* **C155** Right-hand sides without the unknown: the answers are the right-hand side, through any calls — Props/OrderZero.lean: C36's identity plus 'no x in, no x recorded' by induction over the classification steps, then the closure argument over histories (Capstone.answers) and the text of evaluate/check_number.
* **C156** Recurrences with a maximum: the answers are the sequence x(0) = a, x(n) = max(f, a) — Model/MaxRec.lean (the function, on top of the object model of C136); Props/MaxRec.lean: the outcome is an answer of the auxiliary object after a computation and the initial condition x(0)=a, so C136's capstone gives its value; with f >= a along the sequence the maximum is f. C156_growing derives this from c(n)>=1, g(n)>=0, a>=0 by induction. Refuted otherwise: max(n*x(n-1)+n!, -5).
* **C157** Recurrences written with x(n+1), x(n+2), ...: the answers are the solution of what the user wrote, after any calls — Props/CapstoneNeg.lean: the closure argument over histories (Capstone.answers) for an engine whose recorded right-hand side is the rewritten one, then C35 transports the solutions back to what the user wrote, with the shift m of the indices. C157_shift_le_order: comparing two sequences that differ at one index. Case: x(n) = 1/2 x(n+2) - 1/2 x(n+1) - 1, solved by the model of the solver (C145).
* **C158** Recurrences x(n) = x(n/b)^a: the answers bound every solution, after any calls — Props/CapstonePow.lean: classification of the right-hand side and of the rewritten equation (C37), the bounds of C122/C123, and the closure argument over histories (CapstoneBounds.answers). The two bounds never coincide (initialTerm_apart), so nothing is stored as exact solution. Case: x(n) = x(n/3)^(3/2) with a history that asks for all three.
* **C159** The comparison of intervals is a total order — Props/IntervalCompare.lean: boundaries as keys of a lexicographic order (value, flag); lcompare as the comparison of the pairs of keys.
* **C160** The inductive step in the verification of bounds — Model/VerifyBound.lean: split, ok_inequalities, the steps 3 and 4 of verify_bound; Props/VerifyBound.lean: the accepted difference is not negative from the condition on (terms d n^k with d > 0 against a number), substitution as evaluation, induction on n with the integer part of n/b; Props/VerifyBoundEx.lean: concrete candidates and the refutations.
* **C161** The answer of the linear solver for general inhomogeneous terms — Model/OldMethod.lean: compute_term_about_initial_conditions, find_g_n, the closed form of g_n for order 2, the non-homogeneous parts, all as expressions; Props/OldMethod.lean: substitution in expressions with summation indices as evaluation, the values of the parts are those of Model/Exact.lean (C31), hence the answer solves the recurrence; Props/OldMethodEx.lean: n! with distinct and with multiple roots. Model/OldOrder1.lean, Props/OldOrder1.lean, Props/OldOrder1Ex.lean: order 1, with the sums for symbolic base and root (return_sum), the two vectors of compute_symbolic_sum, the substitution of the values and the sums for the other terms; n + n! as example.
* **C162** The factorization through giac loses nothing — Model/FactorizeGiac.lean: both translations, the split and the recursion into the arguments of functions, with giac's +, *, pow and factor as parameters; Props/FactorizeGiac.lean: an invariant of the local blackboard carried through the translation, with C26 and C28, gives the value and the symbols; Props/FactorizeGiacEx.lean: a concrete library, a concrete case and the refutations (the number of digits of the names changes; an inverse counted as numeric).
* **C163** Zeilberger's algorithm tries all the orders up to nine — Model/Zeilberger.lean: the loop, with the search for a fixed order as a parameter; Props/ZeilbergerLoop.lean: induction on the remaining iterations.

## Status

Current status of every property (details and exact theorem names in MANIFEST.json).

* **C01** proved (9 theorems): Soundness and optimality of every connective against the classical connectives on all resolutions of MAYBE.
* **C02** proved (5 theorems): gcd on mathematical integers (= Int.gcd) and on 32-bit machine integers; the only machine case outside the claim is INT_MIN with UB, shown by C02_gcd_machine_ub.
* **C03** proved (2 theorems)
* **C04** proved (5 theorems)
* **C05** proved (4 theorems)
* **C06** proved (2 theorems): Every rational root is a candidate and the search returns exactly the rational roots, for every square-free integer polynomial with leading and trailing coefficient below the bound of the code.
* **C07** proved (5 theorems): Quadratic, cubic (both Cardano and trigonometric branch) and quartic formulas: the product of the linear factors of the returned values is the polynomial. The quartic is modelled as failing when the auxiliary root is zero (division by zero in GiNaC).
* **C08** proved (4 theorems): For the function solve_monomial_irrational itself; the caller passes its arguments in the wrong order, see C62_binomial_refuted.
* **C09** proved (2 theorems): The detected exponent is the largest n with p(x)=q(x^n).
* **C10** proved (1 theorems)
* **C11** proved (1 theorems)
* **C12** proved (1 theorems)
* **C13** proved (1 theorems)
* **C14** partial (3 theorems): Value preservation proved where the decomposition holds; refuted by a witness otherwise.
* **C15** proved (2 theorems)
* **C16** proved (2 theorems): Both conversion functions modelled over Mathlib polynomials (the coefficients GiNaC extracts are taken as given). Proved for every rational polynomial, including the zero polynomial.
* **C17** proved (1 theorems): The determinant of the modelled matrix is Mathlib's resultant, for all polynomials.
* **C18** proved (2 theorems)
* **C19** proved (2 theorems)
* **C20** proved (2 theorems)
* **C21** proved (2 theorems)
* **C22** proved (4 theorems)
* **C23** proved (3 theorems)
* **C24** partial (13 theorems): Numeric arguments: see C74. mod is proved for integers, refuted for a symbol plus a fraction; symbolic sums and products are proved for upper limits >= lower - 1 (and, for limits n + c, when no factor is free of the index), refuted otherwise (C24_sum_refuted, C24_prod_refuted); max and min are proved up to 2e-6, refuted for smaller differences.
* **C25** proved (1 theorems)
* **C26** proved (6 theorems): Proved for every history.
* **C27** proved (3 theorems)
* **C28** partial (7 theorems): Holds for histories without renaming, of any length, in which the generated names on the blackboard have the same length; refuted when the number of digits changes and after a renaming.
* **C29** proved (6 theorems): Names injective and never system generated; the replacement renames exactly the system symbols, to distinct unused names, and preserves the value up to that renaming. Hypothesis: bound indices are symbols.
* **C30** partial (9 theorems): Proved: the reduced right-hand side at (m, r) has the value of the original one at g m + r when every term is a product of powers, functions and symbols without sums inside powers (RhsOk), the coefficients are those at multiples of g, composing with mod/floor gives the value of the reduced solution, and hence a solution of the original recurrence from g f on; the expansion in roots of unity preserves every value. Missing: sums nested in powers or functions are left unchanged by rewrite_factor (refuted: C30_sum_in_power_refuted) and below g f the composed solution may be wrong (refuted: C30_late_start_refuted).
* **C31** proved (9 theorems): Value-level model of both methods (expressions as functions of n over a field); Matrix::solve and lsolve are modelled by the equations their answers satisfy (existence is C63).
* **C32** proved (1 theorems): Value level; the coefficient is non-zero beyond the first valid index, which the code ensures through find_domain_in_N.
* **C33** proved (5 theorems): Integer a in any field; rational a for positive values; also with an initial condition x(k)=h.
* **C34** proved (2 theorems): For weights and inhomogeneous terms not containing the unknown, non-vanishing weight, and weight different from one for the upper limit n.
* **C35** proved (3 theorems): Equivalence for every right-hand side wherever the coefficient divided by does not vanish (true even when the code picks a wrong multiple of the leading coefficient); the shift is the maximum. GiNaC's expand and collect are parameters assumed to keep values.
* **C36** proved (6 theorems): Order, gcd, type, constancy, identity of values and of solution sets proved for every accepted right-hand side.
* **C37** partial (2 theorems): Identity proved when no divisor is repeated; refuted when a divisor is repeated (map insert keeps the first).
* **C38** partial (4 theorems): Upper bound proved for every equation, solution and decomposition whose terms are covered (monomials c*n^k*log(n)^j of either sign in the sound ranges, sums at powers of the divisor), with the numeric comparison a parameter assumed right when it commits itself. Missing: the gamma branch, bases other than 1 with a non-constant coefficient (refuted), sums away from powers of b, applicability condition above 1.
* **C39** partial (4 theorems): Lower bound proved in the same setting as C38 in the ranges where the published lemmas apply; refuted by witnesses for a < b^(k-1), for 0<k<1 with 1<a<=b^k and for -n.
* **C40** partial (9 theorems): Refuted in three ways (new method checks too few values; the index of the initial condition of a one-term candidate is ignored; after an order reduction the verdict is that on a different expression). Proved when the order reduction was not applied and, for constant coefficients, the difference lies in the class for which the number of checked values suffices. Simplifiers are parameters assumed to preserve values; nonlinear recurrences are not covered.
* **C41** partial (4 theorems): Refuted for weight -1 (nothing is checked) and for an initial condition after the lower limit. Proved for the other weights, with respect to the recurrence that starts at the last initial condition. The fallback to the associated first order recurrence is not modelled.
* **C42** proved (4 theorems)
* **C43** partial (5 theorems): Every history, every engine; for functional equations the two bounds must differ: otherwise the solution becomes the number 1 (refuted).
* **C44** partial (4 theorems): Refuted for every engine; holds if nothing was computed or set before.
* **C45** proved (4 theorems): All engines and histories.
* **C46** proved (7 theorems): All kinds and ranges; renaming assumed idempotent.
* **C47** partial (7 theorems): Copies answer alike; assignment keeps the target's stale evaluated answers and destruction of a copy deletes twice (refuted).
* **C48** proved (7 theorems): Ratio with rational coefficients; gcd, the shifted resultant and lsolve are parameters with their specifications. The closed form is the sum wherever the ratio is defined on the range; for terms with zeros there (as k k! from 0) C48_sum_zeros has the cancelled form. Step one and the simplifiers are not modelled.
* **C49** proved (4 theorems): Both steps, for every order: the ratio of the combination is p0(k+1)/p0(k) r(k)/s(k), and r/s = p1(k+1)/p1(k) p2(k)/p3(k); gcd (any common divisor suffices) and the numerator and denominator of r/s are parameters. Modelled at one value of m that is no zero of a denominator.
* **C50** partial (4 theorems): Proved for every expression (recursion over sums, powers and products, any field and any assignment, vanishing or not) if no summand has two factors with the same base and GiNaC's expand, sqrfree and numer_denom preserve values (C50_sum_partial, C50_no_ratio_partial, C50_factorize_partial). Refuted in general: 2 n 2^n + 2 2^n, where 2 is the base of the coefficient and of the exponential (C50_repeated_base_refuted). The common factor is modelled as the list of its powers.
* **C51** partial (6 theorems): Proved for every interpretation with the two power laws used (they hold over ℂ), every assignment, unbounded sums and nesting, given GiNaC's quotient and power in canonical form as oracles: when in every sum met the denominators have positive integer exponents on non-numeric bases, do not vanish, and have a numeric common multiple whose divisors partial_factor factors completely (e.g. < 101^2), numerator/denominator is the expression. Refuted outside: a/101 + b/103 becomes a + b; n^(-1/2) + n^(-1) becomes 2.
* **C52** proved (4 theorems): With expand, simplify_numer_denom and the test a == -b as parameters with their specifications. The rules for radicals are C78-C80.
* **C53** partial (6 theorems): For every lower limit >= 1 and every n >= lower - 1 the closed form has the value of the product, by recursion over all kinds of factors (C53_comp_prod_partial, C53_product_partial), if a summand k + c has an integer c with -c < lower or -c <= n, powers of a constant base start at 1 and have a base to which the law of exponents applies, and the polynomial operations of GiNaC and factorize meet their contracts. Each excluded case is refuted: k - 5 below n = 5, k - 3/2, 2k - 1 from 0, 2^k from 3.
* **C54** proved (30 theorems): Exact arithmetic.
* **C55** proved (3 theorems)
* **C56** proved (2 theorems)
* **C57** partial (7 theorems): Sound when the x-free coefficients are non-negative, logarithm arguments at least 1 and bases at least 1, and for the difference route if all real roots are found; refuted otherwise by -n, base 1/2 and n^2-2.
* **C58** partial (7 theorems): Holds for rational polynomials when the root search succeeds; linked to the modelled find_roots; refuted when the search gives up and for logarithms.
* **C59** partial (2 theorems): Holds when the chosen name is not on the blackboard; refuted for two successive replacements.
* **C60** partial (3 theorems): Holds after the solution was read; stale otherwise (refuted).
* **C61** partial (3 theorems): Linear recurrences of order >= 1 and weighted averages; refuted for order zero and for numeric values.
* **C62** partial (4 theorems): Proved (values and multiplicities) when every square-free factor is simple without a binomial factor a x^n+k, or has small rational roots. NTL factorisation and GiNaC sqrfree are assumed correct (hypotheses GoodFactorizer, IsSqfOf). Refuted: x^2-2 (coefficients swapped in the call), (x^2-x-1)^2 (multiplicity recorded as one).
* **C63** proved (2 theorems): Over any field of characteristic zero, for pairwise distinct roots with the right multiplicities.
* **C64** partial (2 theorems): Proved when every square-free factor of the characteristic polynomial is either simple without binomial factor or splits over small rationals; refuted for a multiple irrational root. NTL and sqrfree assumed correct.
* **C65** partial (3 theorems): Proved for expanded right-hand sides without powers of x(n); refuted for 2*x(n)^2 and for sum(k,0,n-1,x(k))^2 (both recorded as of order zero).
* **C66** proved (3 theorems): Acceptance of all expanded linear and functional right-hand sides; every refusal status points to a defect.
* **C67** partial (9 theorems): Equivalence under explicit conditions; refuted for x(n)=n*x(n), for variable leading coefficients (coefficient not shifted) and for the answer unsolvable with x in a power.
* **C68** proved (2 theorems): All histories of calls; the classifier is a parameter of the object model (its own correctness is C32, C36, C66).
* **C69** proved (1 theorems): Bound computed and right; the floating point comparison is a parameter assumed right where it decides.
* **C70** proved (2 theorems): Bound computed and right; the floating point comparison is a parameter assumed right where it decides.
* **C71** proved (1 theorems): Bound computed and right; the floating point comparison is a parameter assumed right where it decides.
* **C72** partial (2 theorems): Refuted: terms without any unknown count as terms with initial conditions only and are not checked. Steps 3 and 4 of the verification, which are thus never reached for a bound in closed form, are a parameter here and the subject of C160.
* **C73** proved (2 theorems): Order reduction not applied (it is not for variable coefficients), order at least 1; simplifiers are parameters assumed to preserve values.
* **C74** proved (8 theorems): Complete for the rational-number model; subs is the modelled substitution and the index must not be bound again in the body.
* **C75** proved (3 theorems): Exact decision for rational coefficients, assuming the specifications of gcd, resultant and lsolve; if the lowest coefficient of the resultant is 121 or more the algorithm gives no answer (find_divisors).
* **C76** proved (4 theorems): For every order and range, with gcd, numerator/denominator and lsolve as parameters with their specifications. Modelled at one value of m.
* **C77** partial (3 theorems): True if the support of the first terms lies in [0,10] and the leading coefficient of the recurrence does not vanish; refuted in general: the initial values are sums over k = 0..10 only (binom(n+20,k)).
* **C78** proved (6 theorems)
* **C79** partial (4 theorems): True for even indices not divisible by 4 (complex roots); refuted for indices divisible by 4 (i is factored out instead of a primitive root), for index 1 and for products: the sign is lost.
* **C80** partial (2 theorems): Power-free with respect to the primes below 101 used by the partial factorization; uniqueness refuted (4^(1/4) and 2^(1/2)).
* **C81** partial (3 theorems): True if the powers replaced by rule C1 occur once in the product; refuted otherwise (x*x^y*(1+x^y)^z).
* **C82** partial (3 theorems): True for positive bases; refuted for (x^2)^(1/2) at negative x.
* **C83** proved (3 theorems)
* **C84** proved (4 theorems)
* **C85** proved (4 theorems): expand is a parameter with its specification (keeps the value).
* **C86** proved (2 theorems): expand and the coefficient lists of polynomials are parameters with their specifications.
* **C87** partial (7 theorems): True for sums of the kinds of C86, and for single hypergeometric terms with a right answer of Gosper's algorithm. Refuted when the symbol of the upper limit occurs in the summand (sum of n^k up to n+1), for negative lower limits, for summands with a polynomial and another part (counted twice), and for fractional shifts (0 is returned).
* **C88** proved (4 theorems)
* **C89** proved (6 theorems): The new summation variable is assumed to be new in the merged summands (GiNaC symbols are).
* **C90** proved (2 theorems): Positivity is required along the expression; expand, numer and denom are parameters with their specifications.
* **C91** proved (4 theorems): exact_pwr is exact rational arithmetic. The exponent 0 is not searched (C91_zero_exponent_missed).
* **C92** partial (2 theorems): True except for exactly one logarithm and at least two inverses that do not cancel: there a factor is lost (refuted).
* **C93** partial (2 theorems): True for at most one logarithm in the exponent; with two a factor is lost (refuted).
* **C94** partial (3 theorems): True on the domain (positive bases and arguments). Refuted for negative rational numbers and for products of negative factors.
* **C95** proved (4 theorems): Termination of the modelled calls; GiNaC's own operations are total functions of the model.
* **C96** partial (3 theorems): True when every rule applied is in its domain (positive bases, or integer exponents). Refuted for powers whose simplified base is a negative number: the sign is lost.
* **C97** partial (3 theorems): True when the stages are in their domains. Refuted: (-3)^(1/2 * 2^(1/3) * 4^(1/3)) becomes 3.
* **C98** partial (2 theorems): Proved where the code is right and refuted elsewhere.
* **C99** partial (3 theorems): Proved when deg p <= deg q + 1, or deg q = 0, or p is monic, with the common-root criterion; refuted for 1 - x^3 and x + 1, where the unsigned exponent deg_g - deg_f + 1 wraps around and the sign is wrong.
* **C100** partial (2 theorems): Proved when no index of the expression occurs in the replacement or is the symbol; capture refuted by a witness.
* **C101** partial (1 theorems): Refuted for nested products.
* **C102** partial (5 theorems): Proved for expressions without functions; refuted in general.
* **C103** partial (1 theorems): Refuted by a witness.
* **C104** partial (1 theorems): Refuted: a definition mentioning the old name dangles.
* **C105** partial (6 theorems): Linearization for a positive common exponent, powers x(arg)^a for every rational a. Refuted for negative non-integer common exponents of products: the base is |a| when rewriting and a when coming back.
* **C106** partial (6 theorems): Holds for the weights of C34; a weight literally -1 (lower limit 0) only from n = 2 on. Refuted: weight -1 at n = 1, weight -1 with positive lower limit, weight 1 with upper limit n. Also refuted when the associated recurrence has a first valid index other than 0: x(n) = -1/n*sum(k,0,n-1,x(k)) (C106_first_index_refuted). The acceptance test of the summand and find_domain_in_N are not modelled.
* **C107** partial (3 theorems): Refuted: a documented-legal map with a gap is rejected, and a rejected call drops the previous conditions; the rejected conditions are not used.
* **C108** partial (3 theorems): False for functional equations (C108_functional_refuted: a failing compute_exact_solution() leaves both bounds in the object); proved for all the other types.
* **C109** partial (9 theorems): min/max of mixed INTEGER/REAL intervals, square of a negative interval and set_gt are refuted by witnesses and proved where they hold.
* **C110** partial (3 theorems): Wrong for negative and large values (refuted).
* **C111** partial (1 theorems): Refuted by a witness; C56 has the size of the written-out expansion.
* **C112** partial (4 theorems): Refuted: the byte loop skips the highest byte and shifts an int. x86-64: x - 2^31 is returned as x + 2^31; four-byte long: x - (2^24+1) as x - 1; by the language rules every call with an eight-byte long is undefined.
* **C113** proved (4 theorems)
* **C114** proved (3 theorems)
* **C115** partial (2 theorems): Refuted: order 2 from index 5 accepts {x(4), x(5)} but x(6) stays in the answer. Partial: fine when the largest index is at least first + order - 1.
* **C116** partial (5 theorems): Refuted: x(n) = x(n-2)^3 with x(0)=2, x(1)=0 is answered by 0. Partial: all values positive, the recurrences rewritten through logarithms; the branch for x(n)=c*x(n-1)^a is C121.
* **C117** proved (3 theorems)
* **C118** partial (2 theorems): Refuted: x(n) = sum of x(k), k<n, with x(2)=4 is answered with x(3)=4, the recurrence gives 8. Partial: condition at the first valid index.
* **C119** partial (6 theorems): False with Gosper's algorithm and several bases: the loop adds the whole sum once per base (C119_two_bases_refuted; C119_gosper_partial gives the exact value, a multiple of the sum); C119_sum_partial excludes that case (OneBase).
* **C120** proved (2 theorems)
* **C121** proved (3 theorems)
* **C122** partial (3 theorems): Refuted: x(n) = x(n/2)^2, x(1) = 1/2. Partial: for initial values at most 1 the two bounds are exchanged; the exact solution is never reported.
* **C123** proved (2 theorems)
* **C124** partial (3 theorems): Refuted: with divisor 3 the conditions x(1), x(2) are accepted and nothing is replaced. Partial: divisor 2, bounds in which x occurs only as x(1).
* **C125** proved (3 theorems): Exact arithmetic on extended reals.
* **C126** partial (2 theorems): Refuted: INTEGER divisor with members of both signs; negative divisor whose upper end is an open 0. See C127 for the divisors that work.
* **C127** proved (5 theorems): Exact arithmetic.
* **C128** proved (8 theorems): Exact arithmetic; libm functions as the real functions.
* **C129** partial (3 theorems): Refuted: [2,3]^(-1) (boundaries in the wrong order), {2,3}^(1/2) (type INTEGER kept), (0,4]^(-1/2). See C130.
* **C130** proved (5 theorems): Exact arithmetic.
* **C131** partial (1 theorems): Refuted: cos of [-1, 1) does not contain cos(-1). See C135.
* **C132** proved (5 theorems)
* **C133** proved (4 theorems)
* **C134** partial (1 theorems): Refuted: [5/2, 11/2] narrowed by the integers 3..5 keeps the fractional boundaries with type INTEGER.
* **C135** proved (5 theorems): Exact arithmetic; M_PI is taken to be the number pi.
* **C136** proved (2 theorems): The solver behind the object is assumed to return solutions (C139, C31, C32 prove it for the methods modelled).
* **C137** proved (2 theorems): As C136.
* **C138** proved (3 theorems): As C136; the solver for the recurrence reduced to first order is C33/C57.
* **C139** proved (3 theorems): Rational coefficients; 0 is not a decrement (n + 0 does not occur in normalised expressions).
* **C140** proved (2 theorems): The bounds computed are assumed to be bounds at the points D (C38, C39 prove it for the cases modelled) and the lower and the upper one to be different.
* **C141** proved (3 theorems): Solver and bounds are assumed to return the expression built for this case (C33).
* **C142** partial (8 theorems): Proved for all histories once the answer was read (or without initial conditions, or with the value already stored), composed with C40. Refuted otherwise: compute_exact_solution(); set_initial_conditions(); verify_exact_solution() verifies the expression 0, so the right answer 5 of x(n)=x(n-1), x(0)=5 is INCONCLUSIVE before it is read and PROVABLY_CORRECT after, and a wrong answer can be PROVABLY_CORRECT.
* **C143** partial (6 theorems): Where the verdict comes from is proved without conditions; what it implies inherits the conditions of C40 (candidate in the class of the new method) and of C30, C105, C106. The refutations of these carry over.
* **C144** proved (7 theorems): Proved relative to simplifications that recognise rational constants (C144_nonvacuous: such simplifications exist for every recurrence). For a homogeneous recurrence the program compares the terms without initial conditions with 0 without simplifying them, so they have to be literally absent; this is a hypothesis.
* **C145** proved (4 theorems): Proved relative to specifications of GiNaC's expand, coeff, degree, lsolve, collect, and of the parts of PURRS proved elsewhere (sums C11, products C53, blackboard). lsolve has to return a solution of the systems in which every unknown is either determined or arbitrary, as in all systems set up here (special_separate, constants_separate), and to find one when the base is not a root (see C146, C147). The old method, used when the inhomogeneous term is not a sum of polynomials times exponentials, is the subject of C161 and, on values, of C31/C32. Concrete cases: SolveLinearEx.lean.
* **C146** partial (2 theorems): False: compute_special_solution does not check that lsolve found a solution; if the base is not a root (mult = 0) the assertion holds and the ansatz with the unknown coefficients is returned (C146_unsolved_refuted). Proved for the other cases.
* **C147** proved (3 theorems): Relative to: lsolve solves the systems of this run that have a solution; equal bases are recognised (the roots are compared with the bases as expressions); the polynomial whose coefficients are the equations is recognised by GiNaC. Concrete cases in SolveLinearComplete.lean.
* **C148** proved (3 theorems): Relative to the specifications of GiNaC's operations, of the simplifications and of the search of roots collected in the structure Assumed. Coefficients are rational numbers. Concrete history (two sets of initial conditions) in CapstoneLinearEx.lean.
* **C149** proved (3 theorems): Relative to the specifications in the structure Assumed; right-hand sides for which the rewriting is right are those of C30 (RhsOk; C30 has the counterexamples). Concrete case x(n) = x(n-2) + 1 in CapstoneReduceEx.lean.
* **C150** partial (5 theorems): Proved for what the code looks at, under the specification Searched of the search of zeros of a polynomial. Missing, and refuted with concrete recurrences: logarithms in the inhomogeneous term (x(n) = x(n-1) + log(n-2) has first valid index 0; there is a FIXME in the source) and the denominator of the inhomogeneous term of functional equations (x(n) = x(n/2) + 1/(n-3) has first valid index 1).
* **C151** proved (3 theorems): Relative to the specifications in the structures IsVariable (search of zeros) and Assumed (GiNaC, product and sum of order 1, simplifications). Values are real numbers. Concrete history in CapstoneVarEx.lean.
* **C152** proved (3 theorems): Relative to the specifications in the structure Assumed (comparisons, decomposition of the inhomogeneous term, terms as in C38/C39, renaming). C152_polynomial discharges those about the inhomogeneous term for sums of c n^k in the range of C70. For a = 1 it is assumed that the two bounds are not equal (if they are the same expression the object stores the number 1 as exact solution). Concrete history in CapstoneDivEx.lean.
* **C153** partial (12 theorems): Partial: proved when the summand of the sum found is x(k). False otherwise: the code only asks that the summand has degree at most 1 in x(k), so x(n) = sum(k,0,n-1,k*x(k)) is treated as x(n) = sum(k,0,n-1,x(k)) (C153_summand_refuted); and a second, different sum of the unknown is put in the inhomogeneous term (C153_other_sum_refuted).
* **C154** proved (5 theorems): The hypotheses exclude what C153, C106 refute (other summands, associated recurrences with first valid index > 0); the library's algebra (collect, simplify, numerator, denominator) enters through its specification.
* **C155** proved (5 theorems): Simplification and renaming enter through their specification (they keep values and do not introduce x). For right-hand sides where the unknown occurs but is not found by the classification see C65.
* **C156** partial (8 theorems): The library drops the maximum: proved when f never falls below a (C156_answer_is_solution_partial; C156_growing derives this for f = c(n)x(n-1)+g(n), c>=1, g>=0, a>=0), refuted in general (C156_falling_refuted). For f of order >= 2 or first valid index >= 1 no solution is returned, and an exception leaves compute_exact_solution (C156_refused).
* **C157** proved (4 theorems): The solver, the renaming and the treatment of the initial conditions enter as in C136 (SoundLinear, met by C148 and C151 for the recorded recurrence); expand and collect through their specification (RwOk). Right-hand sides with x(n) itself: see C67.
* **C158** proved (3 theorems): Simplification and renaming enter by their specification (they keep values). While initial conditions are in force the code asks for the order of the associated recurrence, which is a functional equation: that case is not covered.
* **C159** proved (6 theorems)
* **C160** partial (10 theorems): The inequality of the induction is proved for every accepted candidate. That it gives a bound is proved for upper bounds that do not decrease and lower bounds that do not increase, because the equation has the integer part of n/b and the verification puts n/b itself; for the others it is refuted. The inductive step is only reached by terms with an application of x that is not an initial condition (C72), such as x(Sc(n,b)) for b not an integer (C160_reached).
* **C161** proved (4 theorems): Assumed: the roots and their multiplicities, the solution of the linear system for the fundamental solution, simplifications and rewriting that keep the values. Roots replaced by symbols are covered: a root is any expression with a constant value. The branches for sums of polynomials times exponentials in these functions are not reached and not modelled. For order 1 sum_poly_times_exponentials (C10), the simplification of its result for alpha and lambda not 0 and, if the closed form is for different alpha and lambda, different, and Gosper's algorithm are parameters with their specifications.
* **C162** partial (6 theorems): Assumed: giac's operations keep the value and invent no identifiers (Sound). Proved as long as the number of digits in the names of the unnamed symbols does not change during the call; the numeric factor is free of symbols if giac leaves no inverse with identifiers among the factors. Refuted: with the names symbol9, symbol10 the factorization of a*b*a gives a*b*b (the look-up of the blackboard, C28); x^(-1) becomes the *numeric* factor. Not covered: complex numbers, symbolic sums and products, integers that do not fit in an int (to_int, val).
* **C163** proved (3 theorems): The search for a fixed order is a parameter (modelled and proved separately: C49, C76, C77).

## Trusted base

* Lean 4.33.0's kernel, Mathlib as installed (only as proofs checked by that kernel), and the elaborator for the meaning of the statements.
* No axioms are added, and nothing rests on compiled code. The theorems depend only on Lean's standard axioms, as printed by `#print axioms`:

  * **no axioms** (2): `C45_new_throws`, `C47_assign_fresh_partial`
  * **Classical.choice, Quot.sound, propext** (623): `C02_gcd_is_gcd`, `C02_gcd_natAbs`, `C02_gcd_nonneg`, `C02_gcd_machine`, `C02_gcd_machine_ub`, `C03_lcm_pos`, `C04_partialFactor_value`, `C04_partialFactor_shape`, `C04_partialFactor_small_primes`, `C04_partialFactor_unit`, `C04_partialFactor_composite_base`, `C05_findDivisorsMax_exact`, `C05_findDivisors_exact`, `C05_findDivisors_nodup`, `AlgEq.C06_candidates`, `AlgEq.C06_search`, `AlgEq.C07_quadratic`, `AlgEq.C07_cubic`, `AlgEq.C07_cubic_real`, `AlgEq.C07_quartic`, `AlgEq.C07_quartic_refuses`, `AlgEq.C08_values_are_roots`, `AlgEq.C08_all_roots`, `AlgEq.C08_known_positive`, `AlgEq.C08_known_even`, `AlgEq.C09_nested`, `AlgEq.C09_constant`, `C10_sum_poly_times_exponentials`, `C11_sum_poly_alt`, `C12_cos`, `C13_decomposition`, `C14_decomposition_partial`, `C14_repeated_refuted`, `C14_parameter_refuted`, `C15_isolate_value`, `C15_isolate_polynomial`, `Resultant.C16_conversion`, `Resultant.C16_zero`, `Resultant.C17_sylvester`, `C18_substitute_binderfree`, `C18_substitute_equal`, `C19_distribute_value`, `C19_distribute_shape`, `C20_scalar_sound`, `C20_scalar_exact`, `C21_polynomial_sound`, `C21_multivariate_sound`, `C22_hasX_exact`, `C22_hasXOf_exact`, `C22_hasX_sound`, `C22_hasParameters_sound`, `C23_collectTerm_value`, `C23_collectTerm_complete`, `C23_collectTerm_nonsum`, `EvalRules.C24_mod_partial`, `EvalRules.C24_mod_refuted`, `EvalRules.C24_mod_nonvacuous`, `EvalRules.C24_sum_symbolic_partial`, `EvalRules.C24_sum_refuted`, `EvalRules.C24_prod_symbolic_partial`, `EvalRules.C24_prod_refuted`, `EvalRules.C24_symbolic_nonvacuous`, `EvalRules.C24_max_min_partial`, `EvalRules.C24_max_min_close_partial`, `EvalRules.C24_max_min_refuted`, `EvalRules.C24_max_min_nonvacuous`, `C25_preservesNonneg_sound`, `C26_insert`, `C26_retrievable`, `C26_rename`, `C26_rewrite_value`, `C26_rewrite_complete`, `C26_consistent_exists`, `C27_rewrite_not_stale`, `C27_size_not_stale`, `C27_progress`, `C28_find_symbol_same_length_partial`, `C28_find_symbol_partial`, `C28_ten_names_in_order`, `C28_find_symbol_history_partial`, `C28_find_symbol_example`, `C28_find_symbol_refuted`, `C28_find_symbol_after_rename_refuted`, `C29_names_injective`, `C29_names_not_system`, `C29_system_names_recognised`, `C29_replacement`, `C29_distinct`, `C29_example`, `OrderRed.C30_rewrite_factor`, `OrderRed.C30_reduced_rhs_partial`, `OrderRed.C30_reduced_coefficients`, `OrderRed.C30_come_back`, `OrderRed.C30_order_reduction_partial`, `OrderRed.C30_sum_in_power_refuted`, `OrderRed.C30_late_start_refuted`, `OrderRed.C30_mod_closed_form`, `OrderRed.C30_expanded_solution`, `Exact.C31_fundamental`, `Exact.C31_old_method`, `Exact.C31_old_method_order2`, `Exact.C31_characteristic_equation`, `Exact.C31_old_method_order1`, `Exact.C31_special_solution`, `Exact.C31_new_method`, `Exact.C31_new_method_order1`, `Exact.C31_fast_path`, `Exact.C32_variable_coefficient`, `NonLinear.C33_simple_integer`, `NonLinear.C33_simple_integer_ic`, `NonLinear.C33_simple_positive`, `NonLinear.C33_simple_positive_ic`, `NonLinear.C33_associated`, `WeightedAvg.C34_upper_limit`, `WeightedAvg.C34_equivalence`, `Eliminate.C35_negative`, `Eliminate.C35_shift`, `Eliminate.C35_shift_positive`, `Classify.C36_order`, `Classify.C36_gcd`, `Classify.C36_type`, `Classify.C36_identity`, `Classify.C36_solutions`, `Classify.C36_constant`, `Classify.C37_identity_partial`, `Classify.C37_repeated_refuted`, `Bounds.C38_upper_partial`, `Bounds.C38_upper_nonvacuous`, `Bounds.C38_exponential_refuted`, `Bounds.C38_exponential_nonvacuous`, `Bounds.C39_lower_partial`, `Bounds.C39_small_coefficient_refuted`, `Bounds.C39_square_root_refuted`, `Bounds.C39_minus_n_refuted`, `Verify.C40_symbolic_partial`, `Verify.C40_solution_partial`, `Verify.C40_evaluated_partial`, `Verify.C40_evaluated_solution_partial`, `Verify.C40_only_initial_conditions_partial`, `Verify.C40_only_initial_conditions_nonvacuous`, `Verify.C40_new_method_refuted`, `Verify.C40_index_refuted`, `Verify.C40_reduction_refuted`, `Verify.C41_recurrence_partial`, `Verify.C41_solution_partial`, `Verify.C41_minus_one_refuted`, `Verify.C41_initial_condition_refuted`, `C42_accepts_exactly`, `C42_accepted_are_used`, `C42_example`, `C43_exact_not_stale_partial`, `C43_lower_not_stale_partial`, `C43_upper_not_stale_partial`, `C44_example`, `C46_range_is_pointwise`, `C46_range_exception`, `C46_reversed_rejected`, `C46_initial_condition_value`, `C46_early_index_rejected`, `C46_later_index_value`, `C46_example`, `C47_copy_same_answers_partial`, `C47_example`, `C47_double_delete_refuted`, `Gosper.C48_ratio`, `Gosper.C48_dispersion`, `Gosper.C48_solution`, `Gosper.C48_sum_cancelled`, `Gosper.C48_sum_zeros`, `Gosper.C48_sum`, `Gosper.C48_nonvacuous`, `Zeilberger.C49_fixSign`, `Zeilberger.C49_step_one`, `Zeilberger.C49_step_two`, `Zeilberger.C49_nonvacuous`, `Factorize.C50_sum_partial`, `Factorize.C50_no_ratio_partial`, `Factorize.C50_factorize_partial`, `Factorize.C50_repeated_base_refuted`, `NumDen.C51_sum_partial`, `NumDen.C51_num_den_partial`, `NumDen.C51_numerator_denominator_partial`, `NumDen.C51_single_fraction_partial`, `NumDen.C51_large_primes_refuted`, `NumDen.C51_roots_refuted`, `SimplifyPow.C52_simplify_powers`, `SimplifyPow.C52_collect_same_exponents`, `SimplifyPow.C52_simplify_input`, `SimplifyPow.C52_nonvacuous`, `Product.C53_comp_prod_partial`, `Product.C53_product_partial`, `Product.C53_negative_shift_refuted`, `Product.C53_rational_shift_refuted`, `Product.C53_lower_zero_refuted`, `Product.C53_power_lower_refuted`, `Interval.C54_isEmpty_iff`, `Interval.C54_lt_sound`, `Interval.C54_lt_iff`, `Interval.C54_le_sound`, `Interval.C54_le_iff`, `Interval.C54_eq_iff`, `Interval.C54_ne_sound`, `Interval.C54_three_valued`, `Interval.C54_value_comparisons`, `Interval.C54_hasV_iff`, `Interval.C54_floor_mem`, `Interval.C54_ceil_mem`, `Interval.C54_trunc_mem`, `Interval.C54_neg_mem`, `Interval.C54_abs_mem`, `Interval.C54_addV_mem`, `Interval.C54_add_mem`, `Interval.C54_sub_mem`, `Interval.C54_point_mem`, `Interval.C54_mk_mem`, `Interval.C54_setInteger_mem`, `Interval.C54_setMaybeReal_mem`, `Interval.C54_inter_mem`, `Interval.C54_inter_ok`, `Interval.C54_meets_iff`, `Interval.C54_join_mem`, `Interval.C54_subsetEq_iff`, `Interval.C54_eqIv_iff`, `Interval.C54_subset_iff`, `Interval.C54_join_least`, `C55_toInt`, `C55_toLong`, `C55_mod`, `C56_size_of_expansion`, `C56_size_monotone`, `Functional.C57_accepts_partial`, `Functional.C57_difference_partial`, `Functional.C57_sign_refuted`, `Functional.C57_base_refuted`, `Functional.C57_roots_refuted`, `Functional.C57_nonvacuous`, `Functional.C57_difference_nonvacuous`, `Functional.C58_polynomial_partial`, `Functional.C58_monotone`, `Functional.C58_fraction_partial`, `Functional.C58_find_roots`, `Functional.C58_roots_refuted`, `Functional.C58_log_refuted`, `Functional.C58_nonvacuous`, `C59_blackboard_partial`, `C59_blackboard_clash_refuted`, `C60_first_valid_index_partial`, `C60_example`, `C61_order_zero_refuted`, `C61_symbolic_value_refuted`, `C61_evaluable_partial`, `AlgEq.C62_find_roots_partial`, `AlgEq.C62_multiplicity_refuted`, `AlgEq.C62_binomial_refuted`, `AlgEq.C62_multiplicities_partial`, `Exact.C63_special_solvable`, `Exact.C63_constants_solvable`, `Exact.C64_end_to_end_partial`, `Exact.C64_multiplicity_refuted`, `Classify.C65_known_partial`, `Classify.C65_power_refuted`, `OrderZero.C65_sum_refuted`, `Classify.C66_accepts_linear`, `Classify.C66_accepts_functional`, `Classify.C66_failure`, `Eliminate.C67_null_partial`, `Eliminate.C67_indeterminate`, `Eliminate.C67_unsolvable_partial`, `Eliminate.C67_recorded_partial`, `Eliminate.C67_run`, `Eliminate.C67_product_refuted`, `Eliminate.C67_coefficient_refuted`, `Eliminate.C67_unsolvable_refuted`, `Eliminate.C67_too_complex`, `Bounds.C69_upper`, `Bounds.C70_lower`, `Bounds.C70_nonvacuous`, `Bounds.C71_homogeneous`, `Verify.C72_accepts_everything_refuted`, `Verify.C72_refuted`, `Verify.C73_symbolic`, `Verify.C73_evaluated`, `EvalRules.C74_sum`, `EvalRules.C74_sum_rejected`, `EvalRules.C74_prod`, `EvalRules.C74_prod_integer`, `EvalRules.C74_binomial`, `EvalRules.C74_binomial_rejected`, `EvalRules.C74_floor`, `EvalRules.C74_nonvacuous`, `Gosper.C75_refusal`, `Gosper.C75_decision`, `Gosper.C75_nonvacuous`, `Zeilberger.C76_telescope`, `Zeilberger.C76_sum`, `Zeilberger.C76_recurrence`, `Zeilberger.C76_nonvacuous`, `Zeilberger.C77_solution_partial`, `Zeilberger.C77_nonvacuous`, `Zeilberger.C77_support_refuted`, `SimplifyRoot.C78_positive_root`, `SimplifyRoot.C78_odd_root`, `SimplifyRoot.C78_zero_root`, `SimplifyRoot.C78_red_prod`, `SimplifyRoot.C78_reduce_product`, `SimplifyRoot.C78_nonvacuous`, `SimplifyRoot.C79_even_root_partial`, `SimplifyRoot.C79_fourth_root_refuted`, `SimplifyRoot.C79_first_root_refuted`, `SimplifyRoot.C79_product_refuted`, `SimplifyRoot.C80_unique_refuted`, `SimplifyRoot.C80_power_free_partial`, `SimplifyPow.C81_collect_same_base_partial`, `SimplifyPow.C81_other_occurrence_refuted`, `SimplifyPow.C81_nonvacuous`, `SimplifyPow.C82_root_of_square_refuted`, `SimplifyPow.C82_positive_partial`, `SimplifyPow.C82_opposite_partial`, `SimplifyFact.C83_decompose_factorial`, `SimplifyFact.C83_natural`, `SimplifyFact.C83_nonvacuous`, `SimplifyFact.C84_binom_rule`, `SimplifyFact.C84_natural`, `SimplifyFact.C84_negative`, `SimplifyFact.C84_nonvacuous`, `SimplifyFact.C85_rewrite_binomials`, `SimplifyFact.C85_rewrite_factorials_exponentials`, `SimplifyFact.C85_simplify`, `SimplifyFact.C85_nonvacuous`, `SimplifySum.C86_compute_sum`, `SimplifySum.C86_nonvacuous`, `SimplifySum.C87_compute_partial`, `SimplifySum.C87_simplify_sum_partial`, `SimplifySum.C87_limit_symbol_refuted`, `SimplifySum.C87_negative_lower_refuted`, `SimplifySum.C87_mixed_refuted`, `SimplifySum.C87_fraction_refuted`, `SimplifySum.C87_nonvacuous`, `SimplifySum.C88_split_sum`, `SimplifySum.C88_other_limits`, `SimplifySum.C88_simplify_sum`, `SimplifySum.C88_nonvacuous`, `SimplifySum.C89_collect_sums`, `SimplifySum.C89_at_most_one_unchanged`, `SimplifySum.C89_exactly_the_sums`, `SimplifySum.C89_simplify_collect_sums`, `SimplifySum.C89_merged`, `SimplifySum.C89_nonvacuous`, `SimplifyLog.C90_factorized_base`, `SimplifyLog.C90_elementary_properties`, `SimplifyLog.C91_terminates`, `SimplifyLog.C91_sound`, `SimplifyLog.C91_complete`, `SimplifyLog.C91_zero_exponent_missed`, `SimplifyLog.C92_quotient_of_logs_partial`, `SimplifyLog.C92_lost_factor_refuted`, `SimplifyLog.C93_power_rules_partial`, `SimplifyLog.C93_two_logarithms_refuted`, `SimplifyLog.C94_simplify_logarithm_partial`, `SimplifyLog.C94_negative_number_refuted`, `SimplifyLog.C94_negative_factors_refuted`, `SimplifyLog.C95_terminates`, `SimplifyLog.C95_calls`, `SimplifyLog.C95_depth`, `SimplifyLog.C95_unique`, `SimplifyOut.C96_simplify_output_partial`, `SimplifyOut.C96_negative_number_refuted`, `SimplifyOut.C96_nonvacuous`, `SimplifyAll.C97_simplify_all_partial`, `SimplifyAll.C97_nonvacuous`, `SimplifyAll.C97_negative_number_refuted`, `C98_sin_partial`, `C98_sin_refuted`, `Resultant.C99_resultant_partial`, `Resultant.C99_common_root_partial`, `Resultant.C99_resultant_refuted`, `C100_capture_free_partial`, `C100_capture_refuted`, `C101_nested_refuted`, `C102_integer_polynomial_partial`, `C102_integer_polynomial_refuted`, `C102_rational_polynomial_partial`, `C102_rational_polynomial_refuted`, `C103_coefficient_refuted`, `C104_dangling_refuted`, `NonLinear.C105_linearization`, `NonLinear.C105_product_partial`, `NonLinear.C105_product_factors_partial`, `NonLinear.C105_negative_exponent_refuted`, `NonLinear.C105_power`, `NonLinear.C105_domain_error`, `WeightedAvg.C106_solution_partial`, `WeightedAvg.C106_minus_one_partial`, `WeightedAvg.C106_minus_one_refuted`, `WeightedAvg.C106_minus_one_lower_refuted`, `WeightedAvg.C106_weight_one_refuted`, `WeightedFirst.C106_first_index_refuted`, `C107_documented_rejected_refuted`, `C107_rejection_loses_conditions_refuted`, `C107_rejected_not_used_partial`, `C108_no_success_then_throws_partial`, `Interval.C109_min_refuted`, `Interval.C109_min_mem_partial`, `Interval.C109_max_mem_partial`, `Interval.C109_min_exact`, `Interval.C109_max_exact`, `Interval.C109_sqr_refuted`, `Interval.C109_sqr_mem_partial`, `Interval.C109_setGt_refuted`, `Interval.C109_setGt_partial`, `C110_toUnsignedInt_partial`, `C110_negative_refuted`, `C110_large_refuted`, `C111_size_of_rewritten_refuted`, `PolyFactor.C112_64bit_refuted`, `PolyFactor.C112_undefined_refuted`, `PolyFactor.C112_32bit_refuted`, `PolyFactor.C112_32bit_exact_partial`, `PolyFactor.C113_factors_64bit`, `PolyFactor.C113_factors_32bit`, `PolyFactor.C113_good_factorizer`, `PolyFactor.C113_nonvacuous`, `OnIC.C114_linear`, `OnIC.C114_system_regular`, `OnIC.C114_nonvacuous`, `OnIC.C115_accepted_partial`, `OnIC.C115_short_refuted`, `OnIC.C116_positive_partial`, `OnIC.C116_product_partial`, `OnIC.C116_power_partial`, `OnIC.C116_zero_refuted`, `OnIC.C116_nonvacuous`, `OnIC.C117_sum_from_last`, `OnIC.C117_first`, `OnIC.C117_nonvacuous`, `OnIC.C118_later_index_refuted`, `OnIC.C118_first_partial`, `Bounds.C119_closed_form`, `Bounds.C119_gosper_partial`, `Bounds.C119_symbolic`, `Bounds.C119_sum_partial`, `Bounds.C119_nonvacuous`, `Bounds.C119_two_bases_refuted`, `Bounds.C120_lower`, `Bounds.C120_nonvacuous`, `OnIC.C121_integer`, `OnIC.C121_positive`, `OnIC.C121_nonvacuous`, `NonLinear.C122_exchanged_partial`, `NonLinear.C122_exact_partial`, `NonLinear.C122_bounds_refuted`, `NonLinear.C123_power_bounds`, `NonLinear.C123_nonvacuous`, `OnIC.C124_divisor_two_partial`, `OnIC.C124_nonvacuous`, `OnIC.C124_divisor_three_refuted`, `Interval.C125_mulV_mem`, `Interval.C125_mul_mem`, `Interval.C125_nonvacuous`, `Interval.C126_straddling_refuted`, `Interval.C126_open_zero_refuted`, `Interval.C127_divV_mem`, `Interval.C127_div_mem`, `Interval.C127_idiv_mem`, `Interval.C127_imod_mem`, `Interval.C127_nonvacuous`, `Interval.C128_sqrt_mem`, `Interval.C128_exp_mem`, `Interval.C128_log_mem`, `Interval.C128_domain`, `Interval.C128_exp_exact`, `Interval.C128_sqrt_exact`, `Interval.C128_log_exact`, `Interval.C128_nonvacuous`, `Interval.C129_negative_refuted`, `Interval.C129_integer_refuted`, `Interval.C129_open_zero_refuted`, `Interval.C130_pow_interval_mem`, `Interval.C130_pow_nat_mem`, `Interval.C130_pow_pos_mem`, `Interval.C130_pow_neg_mem`, `Interval.C130_nonvacuous`, `Interval.C131_half_open_refuted`, `Interval.C132_widen_mem`, `Interval.C132_widen_ok`, `Interval.C132_widen_real_chain`, `Interval.C132_widen_stabilises`, `Interval.C132_nonvacuous`, `Interval.C133_narrow_between`, `Interval.C133_narrow_ok`, `Interval.C133_narrow_chain`, `Interval.C133_nonvacuous`, `Interval.C134_mixed_refuted`, `Interval.C135_hasMultiple`, `Interval.C135_cos_mem`, `Interval.C135_sin_mem`, `Interval.C135_tan_mem`, `Interval.C135_nonvacuous`, `Capstone.C136_answer_is_solution`, `Capstone.C136_nonvacuous`, `Capstone.C137_evaluation_is_value`, `Capstone.C137_nonvacuous`, `Capstone.C138_answer_is_solution`, `Capstone.C138_evaluation_is_value`, `Capstone.C138_nonvacuous`, `CapstoneExact.C139_linear_form`, `CapstoneExact.C139_rhs_to_solution`, `CapstoneExact.C139_nonvacuous`, `CapstoneBounds.C140_answer_is_bound`, `CapstoneBounds.C140_nonvacuous`, `CapstoneBounds.C141_integer`, `CapstoneBounds.C141_positive`, `CapstoneBounds.C141_nonvacuous`, `C142_verdict_on_answer_partial`, `C142_unread_partial`, `C142_bound_partial`, `C142_symbolic_partial`, `C142_evaluated_partial`, `C142_unread_verdict_refuted`, `C142_unread_wrong_refuted`, `C143_linear_only_reduced`, `C143_weighted_partial`, `C143_reduced_partial`, `C143_product_partial`, `C143_nonvacuous`, `Verify.C144_symbolic`, `Verify.C144_iff`, `Verify.C144_evaluated`, `Verify.C144_nonvacuous`, `C144_history`, `C144_history_evaluated`, `C144_history_nonvacuous`, `SolveLin.C145_constant_coefficients`, `SolveLin.C145_variable_coefficient`, `SolveLin.C145_order_zero`, `SolveLin.C145_too_complex`, `SolveLin.C146_unsolved_refuted`, `SolveLin.C146_checked_partial`, `Exact.C147_undetermined_coefficients`, `Exact.C147_constants_determined`, `SolveLin.C147_complete`, `CapstoneLinear.C148_answer_is_solution`, `CapstoneLinear.C148_evaluation_is_value`, `CapstoneLinear.C148_nonvacuous`, `CapstoneReduce.C149_order_reduction`, `CapstoneReduce.C149_expanded`, `CapstoneReduce.C149_nonvacuous`, `FirstIndex.C150_linear_partial`, `FirstIndex.C150_functional_partial`, `FirstIndex.C150_logarithm_refuted`, `FirstIndex.C150_functional_refuted`, `FirstIndex.C150_nonvacuous`, `CapstoneVar.C151_answer_is_solution`, `CapstoneVar.C151_evaluation_is_value`, `CapstoneVar.C151_nonvacuous`, `CapstoneDiv.C152_answer_is_bound`, `CapstoneDiv.C152_polynomial`, `CapstoneDiv.C152_nonvacuous`, `WeightedExtract.C153_sum_found`, `WeightedExtract.C153_describes_partial`, `WeightedExtract.C153_solutions_partial`, `WeightedExtract.C153_weight_known`, `WeightedExtract.C153_product`, `WeightedExtract.C153_sum`, `WeightedExtract.C153_affine`, `WeightedExtract.C153_nonvacuous`, `WeightedExtract.C153_summand_refuted`, `WeightedExtract.C153_other_sum_refuted`, `WeightedExtract.C153_product_nonvacuous`, `WeightedExtract.C153_sum_nonvacuous`, `CapstoneWA.C154_answer_is_solution`, `CapstoneWA.C154_evaluation_is_value`, `CapstoneWA.C154_first_variable`, `CapstoneWA.C154_first_constant`, `CapstoneWA.C154_nonvacuous`, `OrderZero.C155_answer_is_solution`, `OrderZero.C155_evaluation_is_value`, `OrderZero.C155_refusals`, `OrderZero.C155_nonvacuous`, `OrderZero.C155_zero_nonvacuous`, `MaxRec.C156_answer_is_solution_partial`, `MaxRec.C156_growing`, `MaxRec.C156_status`, `MaxRec.C156_nonvacuous`, `MaxRec.C156_falling_refuted`, `MaxRec.C156_throws_nonvacuous`, `MaxRec.C156_order_zero_refuted`, `CapstoneNeg.C157_answer_is_solution`, `CapstoneNeg.C157_evaluation_is_value`, `CapstoneNeg.C157_shift_le_order`, `CapstoneNeg.C157_nonvacuous`, `CapstonePow.C158_answer_is_bound`, `CapstonePow.C158_recognised`, `CapstonePow.C158_nonvacuous`, `Interval.C159_antisymmetric`, `Interval.C159_zero`, `Interval.C159_transitive`, `Interval.C159_lower_first`, `Interval.C159_upper_second`, `Interval.C159_nonvacuous`, `Verify.C160_inequality`, `Verify.C160_step`, `Verify.C160_base`, `Verify.C160_upper_partial`, `Verify.C160_lower_partial`, `Verify.C160_nonvacuous`, `Verify.C160_lower_refuted`, `Verify.C160_upper_refuted`, `Verify.C160_reached`, `Verify.C160_verify`, `OldMethod.C161_old_method`, `OldMethod.C161_nonvacuous`, `OldMethod.C161_old_method_order1`, `OldMethod.C161_order1_nonvacuous`, `Giac.C162_factorize_partial`, `Giac.C162_numeric_factor_partial`, `Giac.C162_nonvacuous`, `Giac.C162_numeric_nonvacuous`, `Giac.C162_factorize_refuted`, `Giac.C162_numeric_factor_refuted`, `Zeilberger.C163_smallest_order`, `Zeilberger.C163_failure`, `Zeilberger.C163_nonvacuous`
  * **Quot.sound, propext** (31): `C01_lor_sound`, `C01_land_sound`, `C01_lnot_sound`, `C01_lor_exact`, `C01_land_exact`, `C01_lnot_exact`, `C01_strongerEq_exact`, `C01_stronger_exact`, `C01_isStrong_exact`, `C03_lcm_is_lcm`, `C05_findDivisors_answers`, `EvalRules.C24_mod_zero_partial`, `C42_accepted_is_documented`, `C43_functional_refuted`, `C43_example`, `C44_replace_refuted`, `C44_replace_fresh_partial`, `C44_fresh_example`, `C45_success_then_answers`, `C45_verify_throws_iff`, `C45_example`, `C47_destroy_unclassified_partial`, `C47_double_delete_example`, `C60_not_read_refuted`, `C68_refused`, `C68_example`, `C108_functional_refuted`, `C108_functional_nonvacuous`, `C142_throws`, `C143_associated_verified`, `MaxRec.C156_refused`
  * **propext** (2): `C47_assign_refuted`, `C102_rational_scalar_dangling_else`

* The correspondence between the C++ text and the model, which is by reading: every definition of `Verif/Model` cites the lines it models, and states what it leaves out.
* What GiNaC, NTL, GMP and PPL do is not modelled; each model module says which of their operations appear, and how. In short: GiNaC's automatic evaluation is modelled by value-preserving smart constructors (`addE`, `mulE`, `powE` in `Verif/Model/Expr.lean`); `expand`, `collect`, polynomial `gcd`, `lsolve` and NTL's factorisation are parameters subject to stated hypotheses (and the hypotheses are shown to be satisfiable).

## What is modelled

One entry per model module, with its own statement of scope and simplifications.

* `AlgEq.lean` (files cited: Expr.inlines.hh, alg_eq_solver.cc, alg_eq_solver.hh): Model of `src/alg_eq_solver.cc` Simplifications: a polynomial with numeric coefficients is a `Polynomial ℚ`; the value of a symbolic root (`sqrt`, `cubic_root`, `cos`, `acos`, `Number::I()`) is the complex number it denotes, with principal powers; `simplify_ex_for_output` only rewrites a root and is omitted; the square-free decomposition of GiNaC and the factorisation of NTL are parameters. The vector `roots` passed by reference is passed and returned; `none` stands for the return value `false`.
* `Blackboard.lean` (files cited: Blackboard.cc, Blackboard.defs.hh, Blackboard.inlines.hh, Symbol.inlines.hh, defs.hh, inlines.hh, size_norm_impl.hh): Model of `src/Blackboard.{cc,inlines.hh,defs.hh}` `Definition`s live in a deque in insertion order; `index` maps symbol names to positions. The caches of `Definition` (time-stamped expansion and size) are part of the state and `rewrite`, `size_norm` update them, as the `mutable` members do. Simplification: `unsigned long` time stamps and `unsigned int` positions do not overflow.
* `Bool3.lean` (files cited: Bool3.inlines.hh, types.hh): Model of `src/Bool3.types.hh` and `src/Bool3.inlines.hh`
* `BoundSums.lean` (files cited: compute_bounds.cc): The sums in the bounds for functional equations: src/compute_bounds.cc:593-691 `compute_sum` and `try_to_compute_sum`; `n` is the name of `Recurrence::n`. Simplifications: `expand` together with the simplifications at the beginning of `exp_poly_decomposition` is a parameter, so are `simplify_ex_for_output`, the coefficients of a polynomial, the new symbols and Gosper's algorithm (`Verif.Model.Gosper`).
* `Bounds.lean` (files cited: Expr.cc, compute_bounds.cc, functional_equation.cc): Model of the bounds for functional equations (src/compute_bounds.cc) `x(n) = a x(n/b) + g(n)`; `n` is the name of `Recurrence::n`. Simplifications: `compare` (src/Expr.cc:718-738), which uses floating point numbers, is a parameter; so are `exp_poly_decomposition` (modelled in `Verif.Model.Decomp`), the closed form of the sums `G` and `H` (`compute_sum`, modelled by the values it must have at the integers) and `find_domain_in_N` with `is_non_negative_non_decreasing` (`Verif.Model.Functional`); `expand`, `simplify_logarithm` and `simplify_ex_for_output`, assumed here not to change the value, are omitted. `Expr bound` starts from zero, so that a part of the bound is returned instead of being added.
* `Classify.lean` (files cited: Recurrence.inlines.hh, rr_classifier.cc): Model of the classification of recurrences (src/rr_classifier.cc) `n` is the name of `Recurrence::n`. Simplifications: the numbers of the model are rational, hence `has_non_rational_numbers()` is never true; the preliminary simplifications of the right-hand side and `find_domain_in_N` are not part of this module; the treatment of a non-linear term and of a sum (`Verif.Model.NonLinear`, `Verif.Model.WeightedAvg`) is only signalled; of a `std::map` only the bindings matter, not their order; failing `assert`s are not modelled.
* `Decomp.lean` (files cited: ep_decomp.cc, fact_decomp.cc): Model of `src/ep_decomp.cc` and `src/fact_decomp.cc` The parallel output vectors are lists of tuples. The simplifications applied first (`simplify_ex_for_input`, `simplify_logarithm`, ...) are not part of this model: the functions are modelled from the simplified expression on.
* `Eliminate.lean` (files cited: rr_classifier.cc): Model of the rewriting into standard form (src/rr_classifier.cc:174-464, 1615-1682) Simplifications: `Expr::expand` and `Expr::collect` (GiNaC) are parameters; `int`s are unbounded; the second execution of the loop of `classify_and_catch_special_cases` after a recursive call that failed repeats the last attempt with the same outcome and is not modelled.
* `EvalRules.lean` (files cited: Expr.cc): The automatic evaluation rules of the symbolic functions (src/Expr.cc:94-650) GiNaC calls the `*_eval` functions whenever a `floor`, `mod`, `binom`, `sum`, `prod`, `max` or `min` is constructed. `none` stands for an exception; `hold()` keeps the application as it is. Simplifications: numbers are rational; the index of a sum or product is a symbol, given by its name; `subs(index == j)` is `substitute`.
* `Exact.lean` (files cited: Finite_Order_Info.defs.hh, Recurrence.defs.hh, compute_exact_solution.cc, finite_order.cc): Model of the solver of finite order linear recurrences `src/compute_exact_solution.cc` and `src/finite_order.cc`. Simplification: an expression in `n` is modelled by the function `ℤ → K` that it denotes over a field `K` (so `substitute(n, n - i)` is composition with a shift, `x(i)` is the value of the unknown sequence, and the rewriting done by `expand`, `simplify_*`, `collect` and `blackboard.rewrite`, which does not change the value, disappears). `Matrix::solve` and `lsolve` (GiNaC) are modelled by the equations that the values returned satisfy.
* `Expr.lean` (files cited: Expr.cc, Expr.defs.hh, Expr.inlines.hh, size_norm_impl.hh, util.cc): Expressions: syntax, semantics and the syntactic queries of `src/Expr.cc` `PURRS::Expr` wraps a GiNaC `ex` (src/Expr.defs.hh). The model is the tree that the PURRS code sees through `is_a_add`, `nops`, `op`, `arg`, .... Simplifications: * numbers are rational (GiNaC's `numeric` also has floating point and complex ones); * symbols and constants are identified with their names; * GiNaC's automatic canonicalisation is modelled by the smart constructors `addE`, `mulE`, `powE` which flatten, fold numbers and drop neutral elements; they do not collect like terms nor reorder operands. Theorems are stated for *all* trees, so they hold whatever (value-preserving) rearrangement GiNaC performs; * exceptions thrown by GiNaC (`0^0`, `0^(-1)`) are not modelled.
* `ExprLemmas.lean` (files cited: ): The smart constructors preserve values
* `Factorize.lean` (files cited: factorize.cc, util.cc): Common factors (src/factorize.cc) and bases and exponents (src/util.cc:175-234) Parallel vectors `bases`, `exponents` are lists of pairs. The common factor of a sum is kept as the list of its bases and exponents: in the code it is a product, which `split_bases_exponents` splits again before every use (src/factorize.cc:47); that the canonical product is split into the powers it was built from is a simplification of the model.
* `FactorizeGiac.lean` (files cited: factorize_giac.cc): Model of `src/factorize_giac.cc` The expression is translated into a tree of the library giac, factorized there, split in numeric and non-numeric factors and translated back. giac's own operations are parameters (`Lib`). Simplifications: numbers are rational (a complex number would become a symbol like a constant); the heads of giac's trees other than the ones below are not modelled; a recursion that does not return, an integer that does not fit in an `int` and a symbolic sum or product give `none`.
* `FirstIndex.lean` (files cited: rr_classifier.cc): Model of the end of the classification: the first valid index (src/rr_classifier.cc:1512-1563) Simplifications: `denominator()` (without expansion) is a parameter, as are the operations of `find_domain_in_N` (see `Verif.Model.Functional`); `to_unsigned_int()` of the index, which is a non-negative integer, is exact (C110 is about this conversion); the map of the homogeneous terms is read in the order of the list. Failure is always `CL_TOO_COMPLEX`.
* `Functional.lean` (files cited: functional_equation.cc, util.cc): Model of the tests on the inhomogeneous part of functional equations (src/functional_equation.cc, and `find_domain_in_N`, src/util.cc:440-573) Simplifications: `numerator().expand()`, `denominator().expand()`, the search of the roots (`convert_to_integer_polynomial` and `find_roots`, modelled in `Verif.Model.AlgEq`) and `simplify_ex_for_input` are parameters; the automatic evaluation of `log` is not modelled; `Number z`, always an integer, is a `ℤ`; the loops `while (z < r) ++z` are written in closed form; the depth of the recursion is bounded by a parameter.
* `Gosper.lean` (files cited: gosper.cc, util.cc): Gosper's algorithm (src/gosper.cc) Simplifications: a polynomial in the index with rational coefficients is a `Polynomial ℚ`, so that `expand()` is the identity, and `taylor k p` is `p.substitute(m, m + k)`; expressions that contain parameters are not modelled. The term `t(m)` is the function of its values; the simplifiers of src/gosper.cc:68-71, 313 and 337 are assumed not to change values, and the ratio `t(m+1)/t(m)` is given by its numerator and denominator (src/gosper.cc:147). GiNaC's `gcd`, the resultant with a symbolic shift (src/gosper.cc:92-105, after `primpart` and the conversion to integer coefficients) and `lsolve` are parameters.
* `IntUtil.lean` (files cited: Number.inlines.hh, util.cc): Model of the integer utilities of `src/util.cc`, `src/Number.inlines.hh`
* `Interval.lean` (files cited: Boundary.inlines.hh, Interval.cc, Interval.defs.hh, Interval.inlines.hh, Intervals/Boundary.defs.hh, Intervals/Boundary.inlines.hh): Intervals (src/Intervals/Boundary.inlines.hh, Interval.inlines.hh, Interval.cc) A boundary is a value (a `double`, or an infinity) and a flag `NEG = -1`, `ZERO = 0`, `POS = 1` that says on which side of the value the boundary sits: a closed boundary has flag `ZERO`, an open lower one `POS`, an open upper one `NEG`. Simplifications: the value is an extended real and the arithmetic on it is exact (the directed rounding of `COMPUTE_ADD` etc. is not modelled); hence the tests against `BOUNDARY_MAX_FRACT`, beyond which every `double` is an integer, are replaced by the test that the value is finite, except in `setGt` and `setLt` where the constants matter. `IEEE_NUMBERS` is taken to be 0, as in the configured build.
* `IntervalMore.lean` (files cited: Boundary.inlines.hh, Interval.cc, Interval.inlines.hh, Intervals/Interval.cc): Intervals, continued: products, quotients, elementary functions, widening (src/Intervals/Interval.cc, Interval.inlines.hh, Boundary.inlines.hh) The same simplifications as in `Verif.Model.Interval`: exact arithmetic on extended reals (the macros `COMPUTE_*` without `USE_DIRECTED_ROUNDING`, which no file of the build defines, are the plain operations), `IEEE_NUMBERS` is 0. Boundaries that are zero are `+0.0`.
* `MaxRec.lean` (files cited: Recurrence.cc, Recurrence.inlines.hh): Recurrences with a maximum, `x(n) = max(f, a)`
* `NonLinear.lean` (files cited: Recurrence.cc, rr_classifier.cc, util.cc, util.hh): Model of the non-linear recurrences (src/rr_classifier.cc, src/Recurrence.cc, src/util.cc) `n` is the name of `Recurrence::n`. Simplifications: `simplify_ex_for_input` and `simplify_logarithm`, assumed here not to change the value (see C52), are omitted; a negative number among the factors, for which the code uses the logarithm of an auxiliary symbol, is kept as it is (the theorems are about positive factors); the solver of the linear recurrence is a parameter.
* `NonLinearBounds.lean` (files cited: Recurrence.cc, rr_classifier.cc): Bounds for non-linear functional equations: the second part of `compute_non_linear_recurrence` (src/Recurrence.cc:574-627) The associated linear recurrence is a functional equation; its bounds are computed by `approximate_functional_equation` (`Verif.Model.Bounds`) and put in the exponent of the base. Simplifications: `simplify_logarithm`, `simplify_ex_for_input` are the parameter `simp`; the auxiliary symbols that stand for negative numbers are not modelled.
* `NumDen.lean` (files cited: numerator_denominator.cc, util.cc): Numerator and denominator (src/numerator_denominator.cc) Denominators are products that GiNaC keeps in canonical form: one numeric coefficient, and powers in which numeric exponents of the same base are added.
* `OldMethod.lean` (files cited: compute_exact_solution.cc, finite_order.cc): The old method of the linear solver, at the level of expressions (src/compute_exact_solution.cc:70-87, 348-646, 908-1000, src/finite_order.cc:470-487) It is used when the inhomogeneous term is not a sum of polynomials times exponentials; the branches that are only run for such sums (src/compute_exact_solution.cc:392-475, 505-507, 603-623, 634-636) cannot be reached and are not modelled. `Model/Exact.lean` has the values. Simplifications: the automatic evaluation of `sum` by GiNaC is left out; `Matrix::solve` is a parameter (the entries `sol`); `h` is the new symbol.
* `OldOrder1.lean` (files cited: compute_exact_solution.cc, finite_order.cc): The old method of the linear solver for order 1 (src/compute_exact_solution.cc:109-163, 918-934, 965-977, src/finite_order.cc:100-121, 253-388, 586-618) Model at the level of expressions; `Model/Exact.lean` has the values (`solveOrder1`). Simplifications: there is one root, of multiplicity 1 (the branches for other orders are never run, see `Model/OldMethod.lean`); `sum_poly_times_exponentials`, `simplify_ex_for_output` and Gosper's algorithm, which have models of their own, are parameters. The symbols created by the functions are the parameters `k`, `x`, `alpha`, `lambda` and `h`; the automatic evaluation of `sum` is left out.
* `OnIC.lean` (files cited: Recurrence.cc): The solution on the initial conditions: `src/Recurrence.cc:876-1133` `compute_solution_or_bound_on_i_c` and the functions for the types of recurrences: the values given by the user are put into the symbolic solution. Simplifications: GiNaC's `lsolve` is a parameter (the list of the values of the unknowns, `none` for the empty list it returns when it fails), so are the new symbols and the simplifications applied to the result; `none` is undefined behaviour (the iterator runs over the end of the map).
* `OrderRed.lean` (files cited: Recurrence.cc, finite_order.cc): Model of the order reduction (src/finite_order.cc, src/Recurrence.cc) For recurrences whose decrements have a common divisor `g > 1`. `n` is the name of `Recurrence::n`, `r` the name of the symbol standing for `mod(n, g)`.
* `PolyFactor.lean` (files cited: poly_factor.cc): Model of `src/poly_factor.cc`: the interface to the factorisation of NTL `ZZ_to_long` and `poly_factor`. The polynomial is an element of `ℤ[X]`, the function `factor()` of NTL is a parameter; the size of `long` is a parameter (4 or 8 bytes) and so is the meaning of the shift of an `int`, which is undefined for a shift count of 32 or more.
* `Product.lean` (files cited: compute_prod.cc): Closed forms of products (src/compute_prod.cc) `none` stands for an exception (or for too little fuel, which bounds the depth of the recursion).
* `RealInterp.lean` (files cited: ): The standard real meaning of expressions (specification side) `realInterp ξ` reads every function symbol with its usual real meaning and the unknown `x(·)` as the function `ξ`.
* `Recurrence.lean` (files cited: Recurrence.cc, Recurrence.defs.hh, Recurrence.inlines.hh, compute_bounds.cc, rr_classifier.cc, verify.cc): The user-visible state machine of `PURRS::Recurrence` (src/Recurrence.inlines.hh, src/Recurrence.cc) The object caches a classification, the symbolic solution and bounds and their values on the initial conditions. The model keeps exactly those caches and the control flow of the public methods. The mathematics (classifying, solving, bounding, applying initial conditions) is a parameter, the `Engine`; the theorems hold for every engine. Simplifications: the `blackboard`, `system_rhs`, `recurrence_rewritten`, `Sc` texts are not in the state; renaming of system-generated symbols is the function `Engine.rename` (modelled concretely in `Verif.Model.Rename`); the divisor of a functional equation is a natural number; failing `assert`s are not modelled.
* `Rename.lean` (files cited: Cached_Expr.cc, Expr.cc, Symbol.cc): `Cached_Expr::replace_system_generated_symbols` (src/Cached_Expr.cc) and `Symbol::is_system_generated` (src/Symbol.cc)
* `Resultant.lean` (files cited: util.cc): Model of the operations on polynomials with rational coefficients of `src/util.cc` Simplifications: a polynomial with rational coefficients is a `Polynomial ℚ`, as in `Verif.Model.AlgEq`; `expand()` and the attempts to bring polynomials to that form (`factorize`, src/util.cc:398-413) are then omitted. `degree`, `lcoeff`, `denominator` of a number, `content`, `unit`, `primpart`, `prem` and `determinant` are GiNaC's; `unsigned int` has 32 bits; `none` is an exception.
* `SimplifyAll.lean` (files cited: simplify.cc): All simplifications: `src/simplify.cc:1976-1986` and `2040-2049` `simplify_numer_denom` and `simplify_all`, with the same operations of GiNaC in all stages.
* `SimplifyFact.lean` (files cited: simplify.cc): Factorials, binomial coefficients and exponentials: `src/simplify.cc:1033-1210`, `2003-2016` `decompose_factorial`, `rewrite_factorials_and_exponentials`, `rewrite_binomials` and `simplify_binomials_factorials_exponentials`. Simplifications: * `factorial(·)` builds the application (GiNaC evaluates it at natural numbers); * `expand` of a power whose exponent is a sum is a parameter.
* `SimplifyLog.lean` (files cited: Expr.inlines.hh, simplify.cc): Logarithms: `src/simplify.cc:1212-1642` and `2016-2019` `factorize_base_arg_log`, `logarithm_of_product`, `apply_elementary_prop`, `is_perfect_power`, `prepare_simpl_power_in_logarithm`, `simpl_quotient_of_logs`, `simplify_logarithm_in_expanded_ex` and `simplify_logarithm`. (`simpl_power_in_logarithm`, src/simplify.cc:1310-1324, is never called.) Simplifications: * GiNaC's `expand`, `numer` and `denom` are parameters, `simplify_powers` is the model of `Model/SimplifyPow.lean` with its own parameters; * the functions call each other without a bound on the depth: the model has a number `fuel` of nested calls of `simplify_logarithm_in_expanded_ex`, beyond which an expression is returned unchanged; * a product such as `log_factors` that is only built, tested for its number of factors and taken apart again is the list of its factors; * `PURRS::apply` builds the application without evaluating it.
* `SimplifyOut.lean` (files cited: simplify.cc): Simplification for output: `src/simplify.cc:790-910`, `979-1031` and `1967-1970` `manip_factor`, `simplify_expanded_ex_for_output` and `simplify_ex_for_output`. Simplifications: * GiNaC's `expand` and the operations of `Model/SimplifyPow.lean` are parameters; * the functions call each other without a bound on the depth: the number `fuel` bounds the nested calls, `none` is its exhaustion (or a number that the model of radicals cannot represent, see `Model/SimplifyRoot.lean`); * `PURRS::apply` builds the application without evaluating it; `exp(0) = 1`.
* `SimplifyPow.lean` (files cited: simplify.cc): Powers: `src/simplify.cc:72-503` and `931-967` `erase_factor`, `return_power`, `find_real_base_and_build_exponent`, `simplify_powers`, `collect_same_exponents`, `collect_same_base` and the driver `simplify_expanded_ex_for_input`. Simplifications: * GiNaC's `expand` and the equality `a == -b` of canonical expressions are parameters (`Ops.expand`, `Ops.opposite`), as is `simplify_numer_denom` (`Ops.nd`, modelled in `Model/NumDen.lean`) and the test `perfect_root` (`Ops.perfect`), which only decides between two forms of the same power; * `PURRS::apply` builds the application without evaluating it.
* `SimplifyRoot.lean` (files cited: simplify.cc): Radicals: `src/simplify.cc:507-783` `to_std_form`, `reduce_to_standard_form`, `red_prod` and `reduce_product`: the rules that rewrite numeric powers `r^{1/k}` and products of them. Simplifications: * the imaginary unit `Number::I()` (a GiNaC number) is the constant `I`; * `to_int` does not overflow (root indices and exponents are unbounded here); * arguments are rational (the branch `!r.is_real()`, lines 603-606, returns the power unchanged and is not reached).
* `SimplifySum.lean` (files cited: Expr.cc, simplify.cc, simplify.hh): Model of the simplification of symbolic sums (src/simplify.cc:1643-1956 and 2021-2030) Simplifications: GiNaC's `expand()`, the coefficients of a polynomial and Gosper's algorithm (modelled on its own, in `Verif.Model.Gosper`) are parameters; new symbols are given by their names. The lower limit of a sum is a number and its index a symbol (`sum_eval`, src/Expr.cc:333-370). When a sum is rebuilt from its simplified arguments it is not evaluated again.
* `SolveLinear.lean` (files cited: compute_exact_solution.cc, ep_decomp.cc): The expressions built by `solve_linear_finite_order` (src/compute_exact_solution.cc:648-756, 757-1113) Model of the solver at the level of expressions: the ansatz with undetermined coefficients, the substitution into the recurrence, the linear systems and the substitution of their solutions. `Model/Exact.lean` has the values. Simplifications: GiNaC's `expand`, `degree`, `coeff`, `lsolve`, `collect`, the automatic evaluation of the difference `recurrence_rhs - inhomogeneous_term`, and the parts of PURRS with a model of their own (the simplifications, `sum_poly_alt`, `compute_product`, `solve_constant_coeff_order_1`, `blackboard.rewrite`) are parameters. `none` stands for `TOO_COMPLEX` and for a failing assertion.
* `SumPoly.lean` (files cited: sum_poly.cc): Model of `src/sum_poly.cc` A polynomial in `x` that GiNaC has expanded is represented by the list of its coefficients `cs` (`p.coeff(x, i) = cs[i]`, `p.degree(x) = cs.length - 1`), which are expressions; the polynomial itself as an expression is `polyExpr x cs`. `expand()` (GiNaC) only rewrites the expression and is omitted.
* `SumTrig.lean` (files cited: sum_poly.cc): Model of the trigonometric sums of `src/sum_poly.cc` Simplification: these two routines differentiate symbolically (`r.diff(x, i)`, GiNaC); they are modelled by the real value of what they return, with `diff` read as the derivative. The result does not mention `x`, which is replaced by `alpha`.
* `Verify.lean` (files cited: Expr.cc, Finite_Order_Info.defs.hh, Recurrence.defs.hh, Recurrence.inlines.hh, util.cc, verify.cc): Model of the verification of solutions (src/verify.cc) The macro `NEW_VERIFICATION` is 1 (src/verify.cc:27). The answer is `none` where an `assert` of the code fails or an element outside of a vector is accessed. Simplifications: `simplify_all`, `simplify_sum`, `Blackboard::rewrite` and `expand()` are parameters; so are the shape of the decomposition of the inhomogeneous term, the multiplicities of the characteristic roots and, when the order reduction was applied, the verdict on the reduced recurrence.
* `VerifyBound.lean` (files cited: verify.cc): Steps 3 and 4 of the verification of bounds (src/verify.cc:46-95, 1226-1277) Simplification: `simplify_ex_for_input` followed by `simplify_logarithm` is one parameter, the automatic evaluation of differences by GiNaC (which collects equal terms) another one.
* `VerifyObj.lean` (files cited: Cached_Expr.inlines.hh, Expr.inlines.hh, verify.cc): The verification methods of `PURRS::Recurrence` (src/verify.cc:1279-1356) What the methods verify and how they dispatch. The checks themselves are parameters (`Checks`); `Verif.Model.Verify` models them. Simplification: the associated recurrence of a non-linear recurrence or of a weighted average is determined by the right-hand side and by the classification.
* `WeightedAvg.lean` (files cited: Expr.inlines.hh, Recurrence.cc, Weighted_Average_Info.defs.hh, rr_classifier.cc): Model of the weighted-average recurrences (src/rr_classifier.cc, src/Recurrence.cc) `x(n) = f(n) sum(k, n_0, u(n), x(k)) + g(n)` with `u(n)` equal to `n` or `n - 1`. `n` is the name of `Recurrence::n`. Simplifications: `simplify_all`, assumed here not to change the value (see C52), is omitted; the answer of `find_domain_in_N` is a parameter; the solver of the associated first order recurrence is a parameter (modelled in `Verif.Model.Exact`).
* `WeightedExtract.lean` (files cited: rr_classifier.cc): Model of the recognition of weighted-average recurrences (src/rr_classifier.cc:912-991, 1158-1205, 1272-1326) From the right-hand side written by the user to the weight, the inhomogeneous term and the limits of the sum. `n` is the name of `Recurrence::n`. Simplifications: `simplify_ex_for_input` (inside `collect_term`), `expand`, `degree`, `numerator`, `denominator` and the cancellation of equal terms that GiNaC performs when `rhs - weight * term_sum` is built are parameters; a lower limit of the sum that is not a non-negative integer, on which the code stops with a failing assertion, is treated like a refusal; `simplify_all` is omitted as in `Verif.Model.WeightedAvg`.
* `Zeilberger.lean` (files cited: zeilberger.cc): Zeilberger's algorithm (src/zeilberger.cc) Simplifications: the algorithm is modelled at one value of `m` that is not a zero of a denominator or of a leading coefficient that occurs, so that a polynomial in `k` with coefficients in `m` is a polynomial over a field and `s 1 (m + i)` is a polynomial for each `i`; `expand()` is the identity. `shift k p` is `p.substitute(k, k + ..)`. The ratios of consecutive terms (src/zeilberger.cc:69-91) are given by their numerators and denominators. GiNaC's `gcd`, the numerator and denominator of `r/s` and `lsolve` are parameters. The output on the console is omitted.

## What is not modelled

* Input and output: parsing, printing, the demos and the command-line drivers (`/repo/demos`), `dump()` functions.
* Memory management and the reference counts of GiNaC; timing (`timings.hh`, `tsc.hh`).
* Running time and memory use, except where a limit is part of the result (thresholds, fuel).
* the library giac called by `factorize_giac.cc` (its operations are parameters), `Init.cc`, `globals.cc`.
