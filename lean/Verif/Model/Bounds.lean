import Verif.Model.WeightedAvg

/-!
# Model of the bounds for functional equations (src/compute_bounds.cc)

`x(n) = a x(n/b) + g(n)`; `n` is the name of `Recurrence::n`.

Simplifications: `compare` (src/Expr.cc:718-738), which uses floating point numbers, is a parameter; so are
`exp_poly_decomposition` (modelled in `Verif.Model.Decomp`), the closed form of the sums `G` and `H` (`compute_sum`,
modelled by the values it must have at the integers) and `find_domain_in_N` with `is_non_negative_non_decreasing`
(`Verif.Model.Functional`); `expand`, `simplify_logarithm` and `simplify_ex_for_output`, assumed here not to change the
value, are omitted.  `Expr bound` starts from zero, so that a part of the bound is returned instead of being added.
-/

namespace Purrs.Bounds

open Purrs Purrs.WeightedAvg

/-- `Type_Bound` (src/compute_bounds.cc:52-58). -/
inductive Ty where
  | upper | lower
  deriving DecidableEq

/-- `swap_type` (src/compute_bounds.cc:292-295). -/
def Ty.swap : Ty → Ty
  | .lower => .upper
  | .upper => .lower

/-- The values `1`, `0`, `-1`, `2` of `compare` (src/Expr.cc:718-738). -/
inductive Cmp where
  | greater | equal | less | unknown
  deriving DecidableEq

/-- `log(e)`. -/
def lnE (e : Expr) : Expr := .fn .log [e]

variable (n : String) (cmp : Expr → Expr → Cmp)

/-- `log(n) / log(divisor)`. -/
def fracLog (b : ℚ) : Expr := divE (lnE (.sym n)) (lnE (.num b))
/-- `pwr(n, log(coeff) / log(divisor))`. -/
def powFracLog (a b : ℚ) : Expr := powE (.sym n) (divE (lnE (.num a)) (lnE (.num b)))

/-- `compute_bounds_for_exp_function` (src/compute_bounds.cc:60-87). -/
def expBound (t : Ty) (a b c : ℚ) : Option Expr :=
  match t with
  | .lower => some (powE (.num c) (.sym n))
  | .upper =>
    let cn := powE (.num c) (.sym n)
    let cnb := powE (.num c) (divE (.sym n) (.num b))
    let gam : Expr := mulE (mulE (mulE (mulE (.num (a * (a - 1)⁻¹)) (powE (.num c) (.num b)))
        (powE (lnE (.num c)) (subE (.num (-1)) (mulE (lnE (.num a)) (powE (lnE (.num b)) (.num (-1)))))))
        (.fn (.other "tgamma") [addE (.num 1) (mulE (lnE (.num a)) (powE (lnE (.num b)) (.num (-1))))])) (.num 1)
    match cmp (powE (.num c) (powE (.num b) (.num 2))) (mulE (.num a) (powE (.num c) (.num b))) with
    | .greater =>
      let tmp := powE (.num c) (.num (b ^ 2))
      some (addE cn (mulE (mulE (mulE (.num a) tmp)
        (powE (subE tmp (mulE (.num a) (powE (.num c) (.num b)))) (.num (-1)))) cnb))
    | .equal => some (addE cn (mulE gam cnb))
    | .less => some (addE cn (mulE gam cnb))
    | .unknown => none

/-- `mu_b` (src/compute_bounds.cc:102-111). -/
def muB (b : ℚ) : Expr := if b.den = 1 then .num 1 else divE (lnE (.num (2 * b / (b - 1)))) (lnE (.num b))
/-- `c_b` (src/compute_bounds.cc:102-111). -/
def cB (b : ℚ) : ℚ := if b.den = 1 then 1 else b / (b - 1)
/-- `lambda_b` (src/compute_bounds.cc:115-120). -/
def lambdaB (b : ℚ) : Expr := if 2 ≤ b then .num 1 else divE (lnE (.num ((2 * b - 1) / (b - 1)))) (lnE (.num b))

/-- The lower bound for `n^0` (src/compute_bounds.cc:114-126). -/
def lowZero (a b : ℚ) : Expr :=
  if a = 1 then subE (fracLog n b) (lambdaB b)
  else divE (subE (.num 1) (mulE (powFracLog n a b) (powE (.num a) (negE (lambdaB b))))) (.num (1 - a))

/-- The lower bound for `n^k`, `k ≥ 1`, `coeff < divisor^(k-1)` (src/compute_bounds.cc:131-133). -/
def lowA (a b k : ℚ) : Expr :=
  let B := powE (.num b) (.num k)
  mulE (divE B (subE B (.num a)))
    (subE (powE (.sym n) (.num k)) (mulE (powFracLog n a b) (powE (divE B (.num a)) (muB b))))

/-- `coeff == divisor^(k-1)` (src/compute_bounds.cc:134-137). -/
def lowB (b k : ℚ) : Expr :=
  subE (mulE (.num (b / (b - 1))) (powE (.sym n) (.num k)))
    (mulE (subE (addE (divE (powE (.num b) (addE (.num 1) (muB b))) (.num (b - 1)))
        (mulE (.num (cB b * k)) (fracLog n b))) (.num 1))
      (powE (.sym n) (.num (k - 1))))

/-- `divisor^(k-1) < coeff < divisor^k` (src/compute_bounds.cc:138-143). -/
def lowC (a b k : ℚ) : Expr :=
  let B := powE (.num b) (.num k)
  let B' := powE (.num b) (.num (k - 1))
  addE (subE (mulE (divE B (subE B (.num a))) (powE (.sym n) (.num k)))
      (mulE (addE (mulE (divE B (subE B (.num a))) (powE (divE B (.num a)) (muB b)))
        (divE (mulE (.num (cB b * k)) B') (subE (.num a) B'))) (powFracLog n a b)))
    (divE (mulE (.num (cB b * k * a)) (powE (.sym n) (.num (k - 1)))) (subE (.num a) B'))

/-- `coeff == divisor^k` (src/compute_bounds.cc:144-146). -/
def lowD (b k : ℚ) : Expr :=
  addE (mulE (powE (.sym n) (.num k)) (subE (subE (fracLog n b) (muB b)) (.num (cB b * k / (b - 1)))))
    (mulE (mulE (.num (cB b * k)) (powE (.sym n) (.num (k - 1)))) (.num (b / (b - 1))))

/-- `0 < k < 1`, `coeff < divisor^k` (src/compute_bounds.cc:167-171). -/
def lowE (a b k : ℚ) : Expr :=
  let B := powE (.num b) (.num k)
  subE (subE (divE (mulE (powE (.sym n) (.num k)) B) (subE B (.num a)))
      (mulE (mulE (divE B (subE B (.num a))) (powE (divE B (.num a)) (addE (.num 1) (muB b)))) (powFracLog n a b)))
    (mulE (powE (.num (cB b)) (.num k)) (subE (fracLog n b) (.num 1)))

/-- `0 < k < 1`, `coeff == divisor^k` (src/compute_bounds.cc:172-174). -/
def lowF (b k : ℚ) : Expr :=
  addE (mulE (subE (fracLog n b) (muB b)) (subE (powE (.sym n) (.num k)) (powE (.num (cB b)) (.num k))))
    (powE (.num (cB b)) (.num k))

/-- `0 < k < 1`, `coeff > divisor^k` (src/compute_bounds.cc:175-180). -/
def lowG (a b k : ℚ) : Expr :=
  let B := powE (.num b) (.num k)
  subE (subE (mulE (mulE (divE B (subE (.num a) B)) (powE (divE B (.num a)) (addE (.num 1) (muB b)))) (powFracLog n a b))
      (mulE (divE B (subE (.num a) B)) (powE (.sym n) (.num k))))
    (mulE (powE (.num (cB b)) (.num k)) (subE (fracLog n b) (.num 1)))

/-- The lower bound for `n^k` (src/compute_bounds.cc:98-185). -/
def powLower (a b k : ℚ) : Option Expr :=
  let B := powE (.num b) (.num k)
  if k = 0 then some (lowZero n a b)
  else if 1 ≤ k then
    let B' := powE (.num b) (.num (k - 1))
    if cmp (.num a) B' = .less then some (lowA n a b k)
    else if cmp (.num a) B' = .equal then some (lowB n b k)
    else if cmp (.num a) B = .less then some (lowC n a b k)
    else if cmp (.num a) B = .equal then some (lowD n b k)
    else none
  else
    match cmp (.num a) B with
    | .less => some (lowE n a b k)
    | .equal => some (lowF n b k)
    | .greater => some (lowG n a b k)
    | .unknown => none

/-- The upper bound for `n^k` (src/compute_bounds.cc:187-198). -/
def powUpper (a b k : ℚ) : Option Expr :=
  let B := powE (.num b) (.num k)
  let nk := powE (.sym n) (.num k)
  match cmp (.num a) B with
  | .less => some (divE (mulE nk B) (subE B (.num a)))
  | .equal => some (mulE nk (fracLog n b))
  | .greater => some (divE (mulE B (subE (powFracLog n a b) nk)) (subE (.num a) B))
  | .unknown => none

/-- `compute_bounds_for_power_of_n` (src/compute_bounds.cc:89-200). -/
def powBound (t : Ty) (a b k : ℚ) : Option Expr :=
  match t with
  | .lower => powLower n cmp a b k
  | .upper => powUpper n cmp a b k

/-- `compute_bounds_for_logarithm_function` (src/compute_bounds.cc:202-239). -/
def logBound (t : Ty) (a b : ℚ) : Option Expr :=
  match t with
  | .lower => none
  | .upper =>
    if a = 1 then some (mulE (mulE (.num (1 / 2)) (lnE (.sym n))) (addE (fracLog n b) (.num 1)))
    else some (mulE (divE (lnE (.num b)) (.num ((a - 1) ^ 2)))
      (subE (subE (mulE (.num a) (powFracLog n a b)) (divE (mulE (.num (a - 1)) (lnE (.sym n))) (lnE (.num b)))) (.num a)))

/-- `compute_bounds_for_power_times_logarithm_function` (src/compute_bounds.cc:241-290). -/
def powLogBound (t : Ty) (a b k : ℚ) : Option Expr :=
  match t with
  | .lower => none
  | .upper =>
    let B := powE (.num b) (.num k)
    let nkl := mulE (powE (.sym n) (.num k)) (lnE (.sym n))
    let other := mulE (divE (mulE B (lnE (.num b))) (powE (subE (.num a) B) (.num 2)))
      (subE (subE (mulE (.num a) (powFracLog n a b)) (divE (mulE (subE (.num a) B) nkl) (lnE (.num b)))) (.num a))
    match cmp (.num a) B with
    | .equal => some (mulE (mulE (.num (1 / 2)) nkl) (addE (fracLog n b) (.num 1)))
    | .less => some other
    | .greater => some other
    | .unknown => none

/-- A number, or a function or power without `n` and without parameters
(src/compute_bounds.cc:306-309 and many other places). -/
def isCoeff (e : Expr) : Bool :=
  match e with
  | .num _ => true
  | .pow _ _ => !has (.sym n) e && !hasParameters n e
  | .fn _ _ => !has (.sym n) e && !hasParameters n e
  | .binder _ _ _ _ _ => !has (.sym n) e && !hasParameters n e
  | _ => false

/-- The bound for `a` times a function, given the bounds of the function: the type is swapped if `a` is negative
(src/compute_bounds.cc:310-325, 380-395 and other places). -/
def scaled (c : Expr) (f : Ty → Option Expr) (t : Ty) : Option Expr :=
  match cmp c (.num 0) with
  | .greater => (f t).map (mulE c)
  | .less => (f t.swap).map (mulE c)
  | _ => none

/-- The exponent of a power of `n`. -/
def asPow : Expr → Option ℚ
  | .pow (.sym s) (.num q) => if s = n then some q else none
  | _ => none

/-- One iteration of the loop over the factors of `a n^k`, `a n^k log(n)`, or `a`: `k`, `factor`, `log_part`
(src/compute_bounds.cc:360-379, 433-455, 559-569); `logs` and `pows` say which factors the loop recognises. -/
def factorStep (pows logs : Bool) (f : Expr) (st : Option (ℚ × Expr × Bool)) : Option (ℚ × Expr × Bool) :=
  match st with
  | none => none
  | some (k, c, l) =>
    if logs ∧ f = lnE (.sym n) then some (k, c, true)
    else if pows ∧ f = .sym n then some (1, c, l)
    else
      match (if pows then asPow n f else none) with
      | some q => some (q, c, l)
      | none => if isCoeff n f then some (k, mulE c f, l) else none

/-- The loop over the factors of a product. -/
def factorLoop (pows logs : Bool) (l : List Expr) : Option (ℚ × Expr × Bool) :=
  l.foldr (factorStep n pows logs) (some (0, .num 1, false))

/-- `a n^k` with a product (src/compute_bounds.cc:358-397). -/
def polyMul (t : Ty) (a b : ℚ) (l : List Expr) : Option Expr :=
  match factorLoop n true false l with
  | none => none
  | some (k, c, _) => scaled cmp c (fun t => powBound n cmp t a b k) t

/-- `sharper_bounds_for_polynomial_function` (src/compute_bounds.cc:297-399): the part added to the bound. -/
def sharperPoly (t : Ty) (a b : ℚ) (e : Expr) : Option Expr :=
  if isCoeff n e then scaled cmp e (fun t => powBound n cmp t a b 0) t
  else if e = .sym n then powBound n cmp t a b 1
  else if e = negE (.sym n) then powBound n cmp t.swap a b 1
  else
    match e with
    | .pow (.sym s) (.num k) => if s = n ∧ 0 < k then powBound n cmp t a b k else none
    | .mul l => polyMul n cmp t a b l
    | _ => none

/-- The last case of `sharper_bounds_for_no_polynomial_function` (src/compute_bounds.cc:431-520). -/
def noPolyMul (t : Ty) (a b : ℚ) (l : List Expr) : Option Expr :=
  match factorLoop n true true l with
  | none => none
  | some (k, c, hasLog) =>
    if k = 0 then scaled cmp c (fun t => logBound n t a b) t
    else if !hasLog then scaled cmp c (fun t => powBound n cmp t a b k) t
    else scaled cmp c (fun t => powLogBound n cmp t a b k) t

/-- `sharper_bounds_for_no_polynomial_function` (src/compute_bounds.cc:401-522). -/
def sharperNoPoly (t : Ty) (a b : ℚ) (e : Expr) : Option Expr :=
  if e = lnE (.sym n) then logBound n t a b
  else
    match e with
    | .pow (.sym s) (.num k) => if s = n ∧ 0 < k then powBound n cmp t a b k else none
    | .mul l => noPolyMul n cmp t a b l
    | _ => none

/-- `sharper_bounds_for_exponential` (src/compute_bounds.cc:524-591); `c` is the base. -/
def sharperExp (t : Ty) (a b c : ℚ) (e : Expr) : Option Expr :=
  if 1 ≤ a then
    if isCoeff n e then scaled cmp e (fun t => expBound n cmp t a b c) t
    else
      match e with
      | .mul l =>
        match factorLoop n false false l with
        | none => none
        | some (_, f, _) => scaled cmp f (fun t => expBound n cmp t a b c) t
      | _ => none
  else none

/-- What the sums need: `sum t s a b` is the result of `try_to_compute_sum` (src/compute_bounds.cc:593-691), an
expression in `n`; `monotone base e poly` is `is_non_negative_non_decreasing` (src/functional_equation.cc). -/
structure Sums where
  sum : Ty → Expr → ℚ → ℚ → Expr
  monotone : ℚ → Expr → Bool → Bool

variable (S : Sums)

/-- The sum with its argument replaced (src/compute_bounds.cc:777-782, 801-806). -/
def sumPart (t : Ty) (a b : ℚ) (s : Expr) : Expr :=
  match t with
  | .lower => substitute (.sym n) (subE (fracLog n b) (.num 1)) (S.sum .lower s a b)
  | .upper => substitute (.sym n) (addE (fracLog n b) (.num 1)) (S.sum .upper s a b)

/-- The sharper bound for a term of the polynomial or non-polynomial part. -/
def sharper (poly : Bool) (t : Ty) (a b : ℚ) (e : Expr) : Option Expr :=
  if poly then sharperPoly n cmp t a b e else sharperNoPoly n cmp t a b e

/-- A term of a sum (src/compute_bounds.cc:758-784): the sharper bound, if any, is added even if the base is not one. -/
def addendPart (poly : Bool) (base : ℚ) (t : Ty) (a b : ℚ) (e : Expr) : Option Expr :=
  let s := sharper n cmp poly t a b e
  if s = none ∨ base ≠ 1 then
    if S.monotone base e poly then
      some (addE (s.getD (.num 0)) (sumPart n S t a b (mulE e (powE (.num base) (.sym n)))))
    else none
  else s

/-- An expression that is not a sum (src/compute_bounds.cc:786-807): the exponential is forgotten. -/
def singlePart (poly : Bool) (base : ℚ) (t : Ty) (a b : ℚ) (e : Expr) : Option Expr :=
  let s := if e = .num 0 then some (.num 0) else sharper n cmp poly t a b e
  if s = none ∨ base ≠ 1 then
    if S.monotone base e poly then some (addE (s.getD (.num 0)) (sumPart n S t a b e)) else none
  else s

/-- Addition of parts, any of which can fail. -/
def addO (x y : Option Expr) : Option Expr :=
  match x, y with
  | some a, some b => some (addE a b)
  | _, _ => none

/-- `compute_poly_or_no_poly` (src/compute_bounds.cc:752-809). -/
def partBound (poly : Bool) (base : ℚ) (t : Ty) (a b : ℚ) (e : Expr) : Option Expr :=
  match e with
  | .add l => l.foldr (fun x acc => addO acc (addendPart n cmp S poly base t a b x)) (some (.num 0))
  | e => singlePart n cmp S poly base t a b e

/-- One term `base^n (poly + no_poly)` of the decomposition (src/compute_bounds.cc:843-882). -/
def termBound (t : Ty) (a b : ℚ) (d : Expr × Expr × Expr) : Option Expr :=
  match d.1 with
  | .num c =>
    if 0 < c then
      if c = 1 then addO (partBound n cmp S true 1 t a b d.2.1) (partBound n cmp S false 1 t a b d.2.2)
      else
        addO
          (if d.2.1 = .num 0 then some (.num 0)
           else match sharperExp n cmp t a b c d.2.1 with
             | some s => some s
             | none => partBound n cmp S true c t a b d.2.1)
          (if d.2.2 = .num 0 then some (.num 0) else partBound n cmp S false c t a b d.2.2)
    else none
  | _ => none

/-- `compute_non_homogeneous_part` (src/compute_bounds.cc:832-884) on the decomposition of `g`. -/
def nonHomogeneous (t : Ty) (a b : ℚ) (ds : List (Expr × Expr × Expr)) : Option Expr :=
  ds.foldr (fun d acc => addO acc (termBound n cmp S t a b d)) (some (.num 0))

/-- `compute_term_about_initial_condition` (src/compute_bounds.cc:886-927); `c` is the applicability condition. -/
def initialTerm (t : Ty) (c : ℕ) (a b : ℚ) : Expr :=
  let idx : Expr := if b = 2 then (if 1 < c then .num c else .num 1) else .fn .sc [.sym n, .num b]
  let e := if (a < 1 ∧ t = .upper) ∨ (1 < a ∧ t = .lower) then subE (fracLog n b) (.num 1) else fracLog n b
  mulE (powE (.num a) e) (.fn .x [idx])

/-- `approximate_functional_equation` (src/compute_bounds.cc:936-980) for an equation of rank one, with
`known_class_of_functional_eq_rank_1` (693-718); `ds` is the decomposition of the inhomogeneous term, `c` the
applicability condition in the end, `none` stands for `TOO_COMPLEX`. -/
def approximate (t : Ty) (a : Expr) (b : ℚ) (g : Expr) (ds : List (Expr × Expr × Expr)) (c : ℕ) : Option Expr :=
  match a with
  | .num a =>
    if 0 < a ∧ ¬ b < 1 ∧ b.den = 1 ∧ hasParameters n g = false then
      (if g = .num 0 then some (.num 0) else nonHomogeneous n cmp S t a b ds).map
        fun s => addE s (initialTerm n t c a b)
    else none
  | _ => none

end Purrs.Bounds
