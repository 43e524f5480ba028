# Formal model of audi

Source of truth: the headers in `/repo/include/audi`. The model is written in Lean 4 (4.33.0) with Mathlib, in
`/verif/lean`. Contents: 1 layers, 2 meaning, 3 the properties, 4 where the code disagrees with a property,
5 what is modelled, what is simplified, what is left out, 6 trusted base, 7 tests of the theorems.

## 1. Layers

| Layer | Module(s) | What it is |
|---|---|---|
| coefficients | `Model/Cf.lean` | the operations a coefficient type must offer (`Cf`, `CfFun`), with an instance for exact scalars and one for `vectorized` values of compatible size |
| polynomials | `Model/Poly.lean` | contract of the *external* library obake: symbol set (sorted list of names) + table of (exponents, coefficient) |
| gdual | `Model/GDual.lean` | `gdual.hpp`, function by function, executable |
| functions | `Model/Functions.lean`, `Model/MoreFunctions.lean` | `functions.hpp`, `functions_from_d.hpp`, loops kept as loops |
| vectorized | `Model/Vectorized.lean`, `Model/VectorizedMore.lean` | `vectorized.hpp`, `detail/overloads_vectorized.hpp`, executable, exceptions as `Except` |
| maps | `Model/InvertMap.lean` | `invert_map.hpp`; Eigen replaced by exact determinant and inverse |
| intervals | `Model/Interval.lean` | contract of the *external* library Boost.Interval, exact end points |
| bounding | `Model/Bounding.lean` | `taylor_model_bounding.hpp`, `matmul`, `transpose` of `taylor_model_utilities.hpp` |
| Taylor models | `Model/TaylorModel.lean`, `Model/TaylorModelFunctions.lean` | `taylor_model.hpp`, `taylor_model_functions.hpp` |
| specification | `Spec/*.lean` | independent meaning: Mathlib polynomials, real functions, derivatives, enclosures |
| proofs | `Proofs/*.lean` | lemmas |
| properties | `Props/*.lean` | the property theorems `Cxx_…`, each with a concrete `example` that meets its hypotheses |

Every definition of the model cites file and lines of `/repo`.

## 2. How the meaning is attached

* A gdual `d` with coefficients in `C` denotes, for each component (lane) `i` of the coefficient type, the Mathlib
  polynomial `d.toMv i : MvPolynomial String K` (sum over the term table). Scalars have one lane; `vectorized` of size n has n lanes.
  All arithmetic theorems are proved once, for any lane family, so they hold for `gdual<double>` and `gdual<vectorized<double>>`.
* `EqUpTo m P Q`: the coefficients of degree at most m agree. `DegLE m P`: no coefficient above degree m.
* "P is the Taylor expansion of F at a to order m" is `IsTaylor`, defined by recursion on m from values and partial derivatives
  (`HasDerivAt` along each variable) only. `IsLift g d r`: r has the order of d, and whenever d is the Taylor expansion of F then r is that of g ∘ F.
* A Taylor model `tm` allows the value y at the point x (`Allows`) when y − P(x − x₀) lies in its remainder interval. An operation is sound
  (`Sound₁`, `Sound₂`) when it returns a well formed Taylor model over the same domain which allows f(y) wherever the argument allows y.
  This implies the usual statement about enclosed functions (`Encloses`).
* Exceptions are values of `Except Exn α`. A value that would be inf/NaN in the C++ is the distinct outcome `Exn.nonFinite`; reading
  outside an array and signed overflow are `Exn.undefinedBehaviour`.

## 3. The properties

| Id | How it is proved |
|---|---|
| C01 | invariant: every public operation preserves it |
| C02 C03 | refinement: `toMv` of the result = operation of Mathlib polynomials (truncated) |
| C04 | ring laws transported through `toMv` + characterisation of `==` |
| C05 | loop invariant (geometric series); witness against mixed orders |
| C06 C07 C08 | coefficient lookup = `MvPolynomial.coeff`; factorials by iterated `pderiv`; witnesses against the documented throw |
| C09 C10 | refinement to `pderiv`; coefficient formula for the integral |
| C11 C12 | refinement to `aeval`; truncation lemma |
| C13 C14 | filter lemmas; witness against documented order |
| C15–C20 | refinement of evaluate, ==, extend_symbol_set, constructors, constant_cf, is_zero; witness for vectorized is_zero |
| C21 | structural induction over expression trees with the closure lemmas of `IsTaylor` |
| C22–C30 | loop invariant to `Σ aᵢ phatⁱ`, then `aᵢ` = Taylor coefficients of the real function, then composition |
| C31 | `_compose_from_derivative`, erf, `_d` variants: telescoping identity on polynomials |
| C32 | case analysis of both overloads of abs; witness for mixed sizes |
| C33 | binomial on 32 bit words: no overflow up to order 30, witnesses for every order from 31 on |
| C34 C35 C36 | refinement of vectorized to functions on lanes; witnesses for fma3 and comparisons |
| C37 | projection to a lane commutes with every operation (consequence of the lane-generic proofs); witness for trim |
| C38 C39 C40 | Picard iteration: the agreement grows by one degree per step; witnesses for names and n ≥ 11 |
| C41 C42 C43 | induction over the loops; binomial modulo 2^64 |
| C44 C45 C61 C62 | Bernstein basis: change of variable matrices, partition of unity, corners, comparison with interval arithmetic |
| C46 | get_bounds with an explicit iteration order of the map |
| C47 C57 C58 C56 | checks, maps, setters, equality of Taylor models |
| C48–C52 | interval enclosure of sums, products, quotients |
| C53–C55 | Taylor's theorem with Lagrange remainder for each function, with its derivatives in closed form |
| C59 | uniqueness of Taylor expansions |
| C60 | refinement; simultaneous substitution |
| C63 | intermediate models of order 1 in one variable, followed step by step with bounds for the remainders (`Props/LineModels.lean`) |
| C64 C65 (and what holds of C63) | invariant `Centred` of a Taylor model, kept by every operation, by induction over expressions; uniqueness of Taylor polynomials |
| C66 | induction over expressions with the enclosure theorems of C48–C55 |
| C67 C68 C69 | coefficients in a floating point format: induction over the term tables, then induction over expressions against the expression with absolute values |
| C70 | induction over the execution of the program on real numbers, carrying a neighbourhood of the arguments; for vectorized coefficients (`C70_vectorized_partial`) over executions that take the same branches in all components (`ExecAll`); for programs with all the functions (`C70_all_partial`) the symbols of the values are carried too; three witnesses |
| C71 C72 | closure lemmas of `IsLift`, uniqueness of Taylor expansions |
| C73 C74 | case analysis and induction over the components; witnesses for references and the empty list |
| C75 C76 | the proofs of C21–C30 and C59 over any normed field (`NontriviallyNormedField`), instantiated with the complex numbers |
| C77 | mean value theorem, by induction on the order, applied to the remainder (`Proofs/Peano.lean`); also for the expressions with all the functions |
| C78 | symbol sets followed through the series of each function, then induction over expressions, also with all the functions; two witnesses |
| C79 | the agreement with the solution grows by one degree per round; coefficients without `t` come from the initial values, the others from the equation (`Proofs/Ode.lean`); witness for constants of order 0; with all the functions in `Proofs/LibOde.lean` |
| C80 | both sides are expansions of the derivative: `partial` by the definition of `IsTaylor`, the derived expression because its meaning is the derivative (`Proofs/Deriv.lean`); witness for the top degree at every order; `C80_all_partial` with all the functions, the derivatives of the older ones taken over by putting an expression in the place of the variable (`Expr.plug`, `Proofs/LibDeriv.lean`) |
| C81 | loop invariants with two polynomials, the exact series and its majorant with absolute values (`RRep`); reciprocals by a two-sided relative error; derivatives of the functions from Mathlib |
| C82 | the exponent vectors of the table are distinct and have sum at most the order; counting by induction on the number of symbols; attained because all the derivatives of `exp(x1 + ... + xn)` are positive; `C82_all` and `C78_all_subset` with all the functions at all orders, from `LExpr.natural` |
| C83 | the expansion of an expression in other functions is a substitution in its expansion (`Expr.subst`); Taylor's formula of degree one for polynomials modulo the square of an ideal (`aeval_linear`); induction on the rounds; solutions exist by the implicit function theorem (`exists_implicit`); with all the functions the derivative comes from the expansions (`LExpr.derives`) instead of symbolic differentiation |
| C84 | expressions are smooth on their domain, smooth functions have expansions (`exists_isTaylor`), Mathlib's inverse function theorem; the expansion of the functions at the local inverse is a substitution (`Expr.subst`); C38 gives a left inverse of the map, so it agrees with this right inverse up to the order; with all the functions by `LExpr.subst`, `LExpr.exists_local_inverse` |
| C85 | a logical relation between the evaluation with rounding and the exact one (`Ap`: coefficients tend to the exact coefficients as the unit roundoff u tends to 0, with errors O(u), `Proofs/Consistency.lean`), preserved by every function of the expressions where it is differentiable; C21 for the exact side; finitely many monomials give a uniform bound; with all the functions (`ApE`) the symbols must agree too, since `_compose_from_derivative` loops over them, which they do at orders of at least 1 |
| C86 | `Model/Access.lean` has the same functions with `int`, `unsigned` and `double`; all outcomes are compared with the ones of C06–C08; the sum in `unsigned` is the sum modulo 2^32 (`expSumU_eq`) |
| C87 | Generating polynomials of the Bernstein coefficients: over a part of the box they are products of convex combinations of the factors over the box, so the patch over the part consists of convex combinations of the entries of the patch (`patch_shrink`); the entries differ from the values at the grid points by terms of second and higher order in the width (`patch_near`) |
| C88 | Induction over expressions: every operation and function of Taylor models takes operands with the same polynomials and smaller remainders over smaller domains to results that are related in the same way (`Finer`, `runTM_finer`); interval operations are isotone (`Proofs/ItvIsotone`), bounds by C87 |
| C89 | Induction over expressions for families of boxes (`Fam`, `runTM_fam`): every remainder has a factor B^(m+1), B the bounds of a polynomial without constant term, hence of size h (`Fam.pow_small`, `getBounds_radius`); the other factors are bounded by their values over the large box (C88); models of lower order are constants, whose bounds are their remainders. The second part adds C87, the third C77 |
| C90 | The computation of the bounds with the rounded numbers `Fl R` and the exact one are run side by side: every entry of every matrix is near its exact value, relative to the entry of the computation with absolute values (`RNear`, `patch_rounded`), which C62 bounds; rounding to nearest keeps the order (`nearest_mono`). Witness by evaluation |
| C91 | Real lanes: every expression is an analytic function of its variables on its domain (`Expr.analyticAt`), the polynomial of the result is the partial sum of its power series (`IsTaylor.unique` along lines), and the remainder of a power series is geometric with one constant for all orders (`Spec.analytic_taylor`). Complex: restriction to complex lines, Cauchy's estimates and averages over roots of unity (`Spec.holomorphic_taylor`, `Spec.holomorphic_coeff`); with all the functions `LExpr.analyticAt` (the error function is the real part of an entire primitive) |
| C92 | One theorem for C92 to C94 (`Expr.natural`, by induction over the expression): evaluation commutes, up to the lower order, with any substitution of polynomials without constant terms. The steps are the Taylor expansions (C21); for `atan` at orders where it is wrong, the series which it does compute (`atanWith_rep`), whose coefficients depend on the constant part only. C92 is the identical substitution. With all the functions: `LExpr.natural` (`Proofs/LibNaturality.lean`), theorems `C92_all_truncation`, `C92_all_order` |
| C93 | `Expr.natural` for the substitution of variables for variables (`MvPolynomial.rename`); derivatives through `coeff_rename_mapDomain`; `C93_all` from `LExpr.natural` |
| C94 | `Expr.natural` for one variable replaced by the polynomial of `g`, with the coefficients of `subs` (C12); `C94_all_subs`, `C94_all_zero` from `LExpr.natural` |
| C95 | `Model/Special.lean`: values of a format with inf and NaN (`XF F`) as coefficients of the generic definitions, `isUnit` always true so that no test is made that the code does not make. Two sets of values are `Absorbing`; an entry of the table that is in such a set stays in it (`tab_keep`, `tab_new`) |
| C96 | The quotient as `(d1 * series) * (1/p0)` (`div_eq`). If `p0` is a number the series has constant coefficient 1 (`divRet_one`: the constant cancels exactly also with rounding). For `p0 = 0` all other coefficients of the series are special (`divRet_all`), so that no monomial of the numerator can cancel (`occurs_mul_one`). For `double` the reciprocal of a number is not 0 (`binary64_inv`) |
| C97 | `==` through the table; constants by cases. `C97_arith_*`: the arithmetic and the comparisons of `Model/Special.lean` (format without rounding) against Mathlib's extended reals |
| C98 | Maps of coefficient types that commute with the operations (`CfHom`), for rational numbers in the format without rounding; whole expressions by induction (`Spec/RatExpr.lean`, `C98_expr`) |
| C99 | `Spec/NumProgram.lean` runs the programs of Spec/Program.lean on numbers; `Spec/SpecialFn.lean` is an arbitrary C library (`XLibm`), of which only C17 F.10 is assumed. The constant coefficient is followed through the series of each function (`Cst`): the nilpotent part has an exact 0 there, also with rounding |
| C100 | The same relation with NaN allowed (`Cst True`); series multiplied by the value 0 have no terms (`NoTerms`); linear terms cannot be cancelled by the higher powers (`Keeps`). For `double`, x > 1 has a rounded square > 1 (`Proofs/Binary64Mono.lean`) |
| C101 | `Spec/Setters.lean`: lists of calls, each of which may throw; the state is followed through all of them |
| C102 | `Model/Python.lean`: objects, references to objects and to members; programs are executed with references (as the module does) and with copies, and the two executions are related by a simulation |
| C103 | as C67; the polynomials with the coefficients of the gdual, and with their absolute values, are given by their coefficients; `std::pow` with an integer exponent is taken as repeated multiplication |
| C104 | Spec/Trapping.lean: binary64 in which overflow and underflow give an infinity (`XFormat.trapping`); `NoTrap`: the run in that format meets numbers only (Spec/Quiet.lean); exact derivatives and absolute values as in C68. The product of the factorials of `get_derivative` is rounded once (gdual.hpp:631-634 rounds each factorial and each product; no difference up to 2^53) |
| C105 | round trip: `load (dump d) = some d`, on the level of characters (Model/Archive.lean); binary64 as in C95 |
| C106 | equality of the results on binary64 with derivatives of the real function, under a bound on one integer computed from the expression; `C106_bound` shows that the bound cannot be larger |
| C107 | refinement: the operators found at run time (Model/PyOps.lean) compute the real function of the expression and its derivatives; comparisons of gduals with numbers raise a TypeError or are false (counterexample) |
| C108 | refinement: derivatives up to the smallest order of the variables are those of the function, for expressions with all the functions; above it they can be wrong (counterexample) |
| C109 | refinement: C21 with all the functions (`abs`, `erf`, functions from derivatives, functions of the Python module) |
| C110 | refinement: Python expressions translated to the expressions of C66; decision logic of operator selection |
| C111 | invariant: each variable holds a constant number or the Taylor expansion of what the program computes for numbers |
| C112 | refinement: a run on Taylor models against the runs of the same program on all numbers of the domain; each variable is a number or results from an expression of C66 |
| C113 | `Model/PyVec.lean` finds the operators of `gdual_vdouble` as Python does; the result is an expression of C21 with vectorized coefficients, read in each component |
| C114 | `RunW` runs a program of C111 on `gdual_vdouble` objects, `ExecW` on the numbers of all components at once, with the same branches; the objects are Taylor polynomials (`Good`) in each component after each statement |
| C115 | `Model/Io.lean`: streams as lists of characters, loops by recursion; invariant of the tables built by any sequence of `add_row` (the widths are the maxima of the lengths) |
| C116 | `Model/Helpers.lean`; the loop of `factorial2(int)` checks each product for overflow; compared with `Nat.doubleFactorial`, `List.rotate` and positions in lists |
| C117 | `Model/Io.lean`; the loops with their flag `first` are compared with `joined`; reading back by the first colon of each entry |
| C118 | `Model/Text.lean`; equal texts have equal parts, by cutting at the first or last occurrence of a character; the text of the polynomial is a parameter |

`MANIFEST.json` lists the theorems of each property. `partial` means that at least one theorem with suffix `_partial`
proves the property under extra hypotheses, or that part of the property is refuted; the docstrings and the notes of the manifest say what is
missing. Where the full statement is false for this code, a theorem with suffix `_counterexample` (or `_not_…`) proves its negation with a
concrete input; these are listed in section 4. C29 shares the witness of C33. C66 has
no witness of its own: its limits come from operations of Taylor models refuted under C49-C55, and whether they are sharp for it is not proved.

## 4. Where the code disagrees with a property

Each line is a theorem about the model of the code as it is, proved with a concrete witness.

gdual and functions

* C04 `C04_mul_not_assoc_mixed_orders`: `*` is not associative when the orders differ.
* C05 `C05_counterexample`: `(a/b)*b ≠ a` when the order of b is smaller, as the series of 1/b is cut at the order of b.
* C08 `C08_no_throw_counterexample`, `C08_unknown_zero_counterexample`: `get_derivative({{"unknown", k}})` returns 0 instead of the documented exception, also for k = 0.
* C14 `C14_order_not_preserved`: `extract_terms(n)` has order n, not the documented original order.
* C20 `C20_vectorized_counterexample`: `is_zero(tol)` of vectorized coefficients is true if *one* component is small.
* C24 `C24_pow_gdual_counterexample`: `pow(gdual, gdual)` is cut at the order of the base.
* C21, C30, C31, C33 `…_counterexample`, C59 `C59_sin_asin_counterexample`: from order 31 on, at every order, `atan`, `asin` and `acos` are wrong, by overflow of a 32 bit product in the binomial coefficients (the coefficient of dx^31, for a variable with value 1, respectively 1/√2); sin(asin(x)) is then not x.
* C32 `C32_counterexample`: `abs` of vectorized gduals changes the sign of the first component only when the constant part has size 1.
* C35 `C35_counterexample`: `fma3` does not throw for sizes 2, 3, 2: it returns its first argument unchanged.
* C36 `C36_eq_counterexample`, `C36_order_counterexample`: `==` and `<` of vectorized are not transitive between different sizes, and `<` does not respect `==`.
* C73 `C73_alias_counterexample`: `v /= *v.begin()` divides the first component only, as the divisor is a reference that becomes 1.
* C74 `C74_empty_counterexample`: an empty Python list becomes an empty vectorized, which C++ does not allow; a gdual with this value is the gdual of 0, the empty value compares equal to, smaller and larger than every number, printing it is undefined.
* C70 `C70_tie_counterexample`, `C70_eq_counterexample`, `C70_vectorized_counterexample`: programs with branches give wrong derivatives at a tie of a comparison, take another path than the values at `==` (it compares polynomials), and take one branch for all the components of vectorized values, the one of a lexicographic comparison (right if all components take the same branches, `C70_vectorized_partial`).
* C76 `C76_log_exp_counterexample`: with complex coefficients `log(exp(d))` is not `d` for constant parts with an imaginary part out of (-π, π]; this is inherent in the principal branch.
* C77 `C77_counterexample`: at order 31 the error of the expansion of atan at 1 is not o(ρ^31) (same cause as C30).
* C78 `C78_order_zero_counterexample`: atan of a gdual of order 0 loses the symbol of its argument, so that `evaluate` accepts dictionaries without it; `C78_pow_counterexample`: so does `pow(2, x - x)` at every order.
* C79 `C79_constant_counterexample`: a gdual made from a number has order 0, and `integrate` truncates at the order of its argument; Picard iteration of y' = y started with `gdual(1)` therefore never changes y.
* C80 `C80_top_degree_counterexample`: `partial` keeps the order, although the term of degree m of the derivative is unknown; at every order `partial(exp(x), x) == exp(x)` is false.
* C72 `C72_log1p_doc_counterexample`: the documentation string of `log1p` in Python says log(x)+1; the function is log(1+x).
* C37 `C37_trim_counterexample`: `trim` does not act on each component independently: one large component keeps the others.
* C86 `C86_get_derivative_counterexample`, `C86_high_order_counterexample`: `get_derivative` throws `std::overflow_error` as soon as one exponent is above 170, also where `std::invalid_argument` is documented and where the expansion contains the derivative; `C86_product_counterexample`: a derivative that is 0 is not finite when the product of the factorials overflows. `C86_find_cf_counterexample`: exponents with a sum of 2^32 pass the test of the order.

maps

* C38 `C38_eleven_counterexample`: `invert_map` permutes the variables from 11 variables on, for orders at least 2; `C38_names_counterexample`: it confuses variables named p0, p1, ….
* C39 `C39_symbols_counterexample`: components of the inverse may lack symbols.
* C60 `C60_compose_counterexample`: `operator&` loses terms when the inner map has constant terms.

bounds

* C43 `C43_overflow_counterexample`: `binomial(n, 31)` is wrong for every n from 63 on. C44 `C44_overflow_counterexample`: so are the Pascal matrices of every degree from 63 on. C45 `C45_overflow_counterexample`, C61 `C61_corner_counterexample`, C62 `C62_patch_counterexample`: the Bernstein patch of polynomials of degree 63 does not bound the values, misses the value at a corner, is wider than interval arithmetic. C87 `C87_monotone_counterexample`: the patch over a part of the box leaves the range of the patch over the box.
* C46 `C46_iteration_order_counterexample`: `get_bounds` pairs the exponents with intervals in the iteration order of an `unordered_map`.
* C90 `C90_counterexample`: with 53 binary digits, the bounds of 1 + 2⁻⁶⁰·x over [0, 1] are [1, 1]: nothing in `get_bounds` is rounded outwards, so that the range of the polynomial is not enclosed.
* C91 `C91_counterexample`: no radius and constant for the orders up to 31 of `atan(x)` at 1 (a consequence of the wrong coefficient of order 31).
* C92 `C92_boundary`: outside of the domain the outcome may depend on the order (`sqrt` of a variable at 0 at the orders 0 and 1); not a defect.
* C94 `C94_counterexample`: with a `g` that has a constant term evaluation and `subs` do not commute (`x * x` at order 1); inherent to truncation.
* C96 `C96_counterexample`, `C96_inf`: a gdual divided by an infinite number, or by a gdual with infinite constant coefficient, is 0, also if it has NaN coefficients; a gdual with NaN coefficients times 0 is 0. (`double`: NaN.) The scaling by `1/inf = 0` or by 0 removes all terms.
* C97 `C97_counterexample`: a gdual whose coefficients are NaN `is_zero(tol)` for every `tol` (gdual.hpp:716 tests `abs(c) > tol`), though it is not equal to 0 and `trim` (which tests `abs(c) < eps`) keeps it. `C97_zero_times`: 0 times inf or NaN is 0 for constant gduals. `C97_div_counterexample`: with `double`, `gdual(49)/gdual(49)` is not 1, since it is computed as `49 * (1/49)`.
* C98 `C98_hidden_counterexample`: in expressions, the outcome `nonFinite` of the exact model does not mean that the result has inf or NaN coefficients: `(1/x)*0` with `x` of value 0 is 0 (a consequence of C96). For single operations it does (`C98_div`, `C98_divGS`, `C98_divSG`).
* C99: besides quotients (`C99_div`), the values of `asin`, `acos`, `asinh` and `acosh` are not those of the C library but of formulas (`C99_inverse`), e.g. `log(x + sqrt(1 + x*x))`. Their counterparts in functions_from_d.hpp do have the values of the C library (`C99_from_d`). Integer powers are products or repeated quotients and powers with gdual exponents `exp(y * log(x))` (`C99_powers`), so that with `double` the value of `pow(x, 3)` at 134218467 is not the number nearest to the cube (`C99_power_counterexample`). With these formulas in the place of the operations on numbers (`Spec/NumFormulas.lean`), the values agree for programs with all operators and functions (`C99_formulas`), except `==` and `pow(number, gdual)`, whose value depends on the degree of the gdual (`C99_base`).
* C100 `C100_counterexample`: infinite derivatives are lost without notice. `sqrt` and `cbrt` of gduals with value 0 are 0 with no terms (`C100_root_zero`); `asin` and `acos` at 1 and -1 are constants (`C100_asin_one`); `acosh` at 1 is `log`, with finite, wrong derivatives (`C100_acosh_one`). Their counterparts in functions_from_d.hpp show inf or NaN at the same values (`C100_from_d`). `C100_cos_counterexample`, `C100_exp_hides`: `cos(NaN dx)` is 1, and `exp` loses NaN coefficients if the exponential of the value underflows. So, for functions (unlike the operations of C98), the outcome `nonFinite` of the exact model does not mean that inf or NaN shows up.
* C101 `C101_throw_counterexample`: a setter that throws has changed the Taylor model, which then fails its own checks (setting the old part again repairs it, `C101_restore`). `C101_names_counterexample`: `set_tpol` accepts a polynomial in other variables, if there are as many. As long as nothing throws, the number of variables cannot be changed with setters (`C101_same_size`).
* C102 `C102_read_counterexample`, `C102_extend_counterexample`: in Python, `tm.tpol` and `tm.rem_bound` are references to the members. `p = tm.tpol; tm.tpol = q` changes `p`; `tm.tpol.extend_symbol_set(["dy"])` changes the polynomial of `tm` behind its back, after which `tm.ndim` is wrong and its bounds throw.
* C105 `C105_nonfinite`, `C105_counterexample`: a gdual with an infinite or NaN coefficient can be pickled and written to a text archive, but not read again (the streams of the C++ library write `inf` and `nan` and do not read them).
* C107 `C107_compare_counterexample`: in Python `gdual_double(1.0) == 1.0` is `False` (the module defines `==` for two gduals only, and Python then compares identities), so that a test like `if x == 0` takes the wrong branch without notice; `x < 2.0` raises a `TypeError`. (By reading, not modelled: for the same reason `int_d(0, 1) == int_d(0, 1)` is `False`, as no `==` is exposed for intervals.)
* C108 `C108_counterexample`: the order of a result is the largest order of the operands, but terms above the smaller order have been dropped from one of them. With `x` of order 1 and `y` of order 2, the second derivative of `(x * x) * y` with respect to `x` is read as 0 instead of 2, without an error.
* C110 `C110_operations_counterexample` (number ** Taylor model, Taylor model ** Taylor model, `cbrt` and `<` raise a `TypeError` for every Taylor model), `C110_equal_counterexample` (`taylor_model(1.0) == 1.0` is `False`), `C110_interval_counterexample` (`int_d` has no operators of its own: `int_d + 1.0` raises a `TypeError`), `C110_interval_operators_counterexample` (`int_d * t`, `int_d / t`, `t * int_d`, `t / int_d` raise for every Taylor model with two or more variables; `int_d - t` keeps the polynomial of `t` with its sign).
* C111 `C111_kind_counterexample` (a function with the test `x < 0` raises a `TypeError` for every gdual `x`), `C111_equal_counterexample` (a function with the test `x == 1` takes the other branch for a gdual with the value 1).
* C112 `C112_equal_counterexample` (`1 if x == 0 else x` with a Taylor model takes the second branch without an exception, and the result does not contain the number that results for 0), `C112_branch_counterexample` (every condition on a Taylor model with `<` or `>` raises a `TypeError`, also if all points of the domain agree).
* C113 `C113_branch_counterexample` (`<` of `gdual_vdouble` is lexicographic: `b if a < b else a` is not the maximum in each component; outcomes that are the same in all components are right, `C113_compare_partial`), `C113_mixed_counterexample` (a `TypeError` for a `gdual_vdouble` with a `gdual_double`, and for its comparison with a number).
* C114 `C114_branch_counterexample` (a program for the maximum ends with `[1, 2]` for `[0, 5]` and `[1, 2]`; programs that take the same branches in all components are right, `C114_programs_partial`).
* C115 `C115_vector_counterexample`, `C115_comma_counterexample` (vectors of more than five elements that differ after the fifth are written alike, and so are vectors of strings with commas; `verbose` output of `invert_map` with more than five components is cut in this way).
* C116 `C116_factorial2_counterexample` (`factorial2(34)` overflows; the documentation excludes only arguments below -1. The library itself calls the overload for `unsigned`, see C54).
* C117 `C117_quotes_counterexample` (names are written without quotes, contrary to the examples in the documentation), `C117_order_counterexample` (equal maps can be written differently).
* C118 `C118_stream_counterexample` (`operator<<`, which is `__repr__` in Python, writes the terms only: variables of order 1 and 2 look the same, but the second derivative of the one exists and that of the other throws).

Taylor models

* C47 `C47_names_counterexample`, `C47_power_counterexample`, `C47_setter_counterexample`; C58 `C58_throw_counterexample`: missing checks, changes before exceptions.
* C48 `C48_tolerance_counterexample`: expansion points that differ by 2⁻⁵² are merged.
* C49 `C49_neg_counterexample`: `-tm` and `s - tm` keep the remainder instead of negating it. `C55_acos_counterexample`: so does acos.
* C50 `C50_zero_counterexample`, `C50_order_zero_counterexample`, `C50_tiny_counterexample`: products with a zero polynomial lose the remainder; the product of constants of order 0 is 0; truncated terms with small coefficients are dropped without a remainder.
* C51 `C51_mul_interval_counterexample` (Taylor model times, or over, interval: 1 plus the interval for one variable named x), `C51_mul_interval_name_counterexample` (throws for one variable named y), `C51_interval_sub_counterexample` (interval minus Taylor model keeps the polynomial), `C51_interval_mul_counterexample` (interval times a Taylor model without variables).
* C52 `C52_scalar_counterexample`, `C52_remainder_counterexample`, `C52_degree_counterexample`: the remainder of s/tm is not scaled by s; remainders of the denominator and truncated powers are not propagated.
* C53 (exp, sin, cos, sinh, cosh, log), C54 (sqrt, 1/sqrt), C55 (atan, asin) `…_remainder_counterexample`: a remainder of the argument is not carried through the polynomial part. `C53_exp_degree_counterexample`: terms truncated from powers of the polynomial are lost.
* C54 `C54_pow_zero_counterexample`, `C54_sqrt_order_counterexample` (overflow of the double factorial for orders 18 to 62), `C54_exponent_counterexample` (exponents of type double are cut to integers).
* C55 `C55_asin_derivative_counterexample` (wrong second derivative), `C55_atan_centre_counterexample` (remainder around 0 instead of the constant term), `C55_abs_sign_counterexample`, `C55_abs_remainder_counterexample`; `C55_order_zero`: atan, asin, acos never return for order 0 with a variable.
* C63 `C63_tan_counterexample`, `C63_tanh_counterexample`, `C63_asinh_counterexample`, `C63_acosh_counterexample`, `C63_atanh_counterexample`: the composed functions miss values already for arguments without remainder; the remainder of an intermediate model is not carried through the next step.
* C64, C65 `…_order_zero_counterexample`: in an expression, the product of two models of order 0 loses its value.
* C69 `C69_counterexample`: with 53 binary digits, adding 2⁻⁶⁰ to a model of x around 1 changes nothing and the remainder stays [0, 0]: rounding of the coefficients is not part of the remainder.
* C56 `C56_zero_tolerance_counterexample`, `C56_not_transitive`.

## 5. Modelled, simplified, left out

Modelled, function by function, except for what is listed below: `gdual.hpp`, `functions.hpp`, `functions_from_d.hpp`, `vectorized.hpp`,
`detail/overloads_vectorized.hpp`, `invert_map.hpp`, `taylor_model.hpp`, `taylor_model_bounding.hpp`, `taylor_model_functions.hpp`; `matmul` and
`transpose` of `taylor_model_utilities.hpp`. `detail/overloads.hpp` is represented by the real functions it calls.

Not modelled:

* gdual.hpp: defaulted constructors 272-281, constructors from initializer lists 290-292 and 308-319 (the second has the same statements as the constructor `mk3`, 294-306), the dispatch operators 881-950 (the functions they call are modelled; the compound assignments 830-865 are the statement `opAssign` of Spec/Program.lean), `_container` and `_poly` 962-991;
* vectorized.hpp: iterators 206-221;
* taylor_model.hpp: getters 211-238 (except as references in C102), dispatch operators 832-965;
* taylor_model_bounding.hpp: in the bounds, `build_dim_to_var_map` 494-502 enters only through the parameter `ord` (the function itself: C116);
* invert_map.hpp: the cast helper 114-116 and the verbose output;
* `real128.hpp`, and the overloads of detail/overloads.hpp for `mppp::real128`. (The functions for `mppp::real128`, functions.hpp:918-943 and functions_from_d.hpp:219-226, are modelled, with exact coefficients. Not visible there: the methods `log10` and `log2` of `gdual_real128` in Python divide by logarithms computed in double precision, expose_gdual.hpp:219-222, the functions of the module by logarithms in quadruple precision, core.cpp:304-312.)
* complex coefficients, except the operators, `exp`, `log`, `sin`, `cos`, `tan`, `sinh`, `cosh`, `tanh`, `atanh`, `pow` (C75, C76). By reading the templates (nothing was compiled): `sqrt`, `cbrt` and all functions that call them cannot be instantiated for `std::complex`, because `binomial(T x, unsigned y)` computes `x - i` with an unsigned `i` (functions.hpp:140-148), although detail/overloads.hpp:120-124 provides `cbrt` for complex numbers; `erf` has no complex version; `abs` compares with `<`.
* `io.hpp` except the functions for `bool`, vectors, pairs, maps, several arguments and tables (C115; the output of numbers, strings and gduals is a parameter), `exceptions.hpp` except the text of the messages (C118), `type_traits.hpp`, `back_compatibility.hpp`, and the Python module `pyaudi`, except the functions `log10`, `log2`, `log1p`, `expm1`, `erfc`, pickling of gduals (C105), `__repr__` and `_repr_latex_` of gduals (C118), the operators, functions and comparisons of `gdual_double` and numbers (C107, programs with them C111), those of `gdual_vdouble` (C113, C114; not with lists), those of `taylor_model`, `int_d` and numbers (C110, programs with them C112; not `abs`, `sin_and_cos`, `sinh_and_cosh`), the properties of Taylor models (C102; the return policies of pybind11 are taken from its documentation) and the conversions of common_utils.hpp (lists of numbers and dictionaries; conversions of the entries themselves are not modelled).

Simplifications (see also the headers of the model files and the comments of the definitions):

* In C95–C100 (`Model/Special.lean`) the coefficients are floating point values with inf and NaN; one zero and one NaN only. The C library is arbitrary up to the laws in `Spec/SpecialFn.lean` (C99, C100); numbers as exponents are exact.
* Otherwise floating point numbers are an exact ordered field (the reals where transcendental functions occur): rounding, overflow to inf and NaN are not modelled. Boost's outward rounding is exact here. Exception: in C67–C69, C81, C85, C90 and C103 (`Model/Rounding.lean`; C81 and C85 add the functions of the standard library with a bound of their relative errors, `Spec/RoundedFn.lean`) the same definitions of polynomials and gduals (and the addition of numbers to Taylor models; in C90 the bounds, `Model/RoundedBounds.lean`, with any error bound for `std::pow` and a rounding that keeps the order of numbers) are used with coefficients that are rounded after each operation; any rounding with relative error at most u < 1 that is odd, idempotent and fixes 1 is allowed, in particular rounding to nearest with p binary digits (`Proofs/Nearest.lean`). Overflow, underflow and fused operations are left out there too; C104 carries bounds of C67, C68 and C103 over to binary64 without overflow and underflow, C106 shows when binary64 is exact.
* obake (hashing, packed exponents with their limits, threads) is replaced by its contract. No theorem depends on the order of the terms.
* Boost.Interval: elementary functions give the smallest interval containing the values. Its failures (empty intervals, division by an interval that contains 0) are `Exn.nonFinite`.
* Eigen: `determinant()` and `inverse()` are exact.
* Boost.Serialization and the streams of the C++ library (C105): the format of text archives as described in Model/Archive.lean, without class identifiers and versions; reading a `double` is correctly rounded.
* The C++ standard library functions on coefficients are the real functions (for complex coefficients, the principal branches of Mathlib; signed zeros, which select the side of a branch cut, are not modelled); where they would return inf or NaN the outcome is `Exn.nonFinite`.
* `unordered_map`: list of entries with distinct keys. Where iteration order matters (`get_bounds`) it is a parameter `ord` of the model.
* Orders, exponents and sizes are natural numbers. Machine integers are modelled where they can overflow for realistic inputs: `binomial` of atan (32 bit), `binomial` of the bounds (64 bit), `factorial2` (64 bit), `UINT_MAX` in the order check of gdual and the exponents, their sum and the factorials of `find_cf` and `get_derivative` (C86; elsewhere these are the functions without bounds, which C86 relates to the ones with machine integers). Orders of Taylor models and sums of orders do not wrap in the model.
* Loop counters are natural numbers: the 32 bit products at functions.hpp:349 and 361 wrap only for orders of 65536 and more.

## 6. Trusted base

* Lean's kernel (all modules are replayed by `vcheck`), and that the statements say what they should.
* Axioms: `propext`, `Classical.choice`, `Quot.sound`, and no others; `#print axioms` of the theorems of the manifest gives all three for all theorems except
  - `propext` and `Quot.sound` only: `C13_trim_idempotent`, `C15_evaluate_throws`, `C36_eq_counterexample`, `C36_order_counterexample`, `C42_no_symbols`, `C42_max_degrees`, `C43_symm`, `C44_transpose`, `C60_trim_throws`, `C115_columns`, `C116_flatten`;
  - `propext` only: `C14_order_partial`, `C34_not_empty`, `C36_lt_gt`, `C41_no_limits`, `C43_out_of_range`, `C43_binom_product_throws`, `C105_state`, `C115_reject`;
  - none: `C118_stream_partial`.
  No `sorry`, no own axioms, no `native_decide`.
* That the model reads the C++ correctly, and the contracts of obake, Boost and Eigen above.

## 7. Tests of the theorems

`seeded/LOG.jsonl` records wrong programs: one definition of the model is edited in a scratch copy, and the theorems that no longer
check are listed (field `caught`; up to 25 names per line). The rounds so far cover gdual, functions,
vectorized (also with numbers), maps, bounds, Taylor models, rounding, special values, programs, archives, setters, and the operators and functions of the Python module. Of the edits that were not caught, four are equivalent programs
(field `note`); the others showed that a theorem said too little, and led to the theorems named in the field `theorems_tightened`. A few edits that
are caught are equivalent programs as well: there only the proof that follows the case distinction fails, not a statement (`binomial` without
the case `k = n`, marked in the field `claim`).
