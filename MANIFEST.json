{
 "claims": [
  {
   "property": "C01",
   "status": "proved",
   "theorems": [
    "Audi.C01_degree_le_order",
    "Audi.C01_no_coefficient_above_order"
   ],
   "note": "Every constructor and every operation that returns a gdual preserves the bound."
  },
  {
   "property": "C02",
   "status": "proved",
   "theorems": [
    "Audi.C02_add",
    "Audi.C02_sub",
    "Audi.C02_neg",
    "Audi.C02_scalar"
   ],
   "note": "Values of +, -, unary -, scalar overloads in every lane; the order is the maximum."
  },
  {
   "property": "C03",
   "status": "proved",
   "theorems": [
    "Audi.C03_mul",
    "Audi.C03_scalar"
   ],
   "note": "The product is the truncation of the polynomial product at the larger order."
  },
  {
   "property": "C04",
   "status": "partial",
   "theorems": [
    "Audi.C04_ring",
    "Audi.C04_mul_not_assoc_mixed_orders"
   ],
   "note": "Ring laws hold for equal orders; associativity fails for mixed orders (witness C04_mul_not_assoc_mixed_orders)."
  },
  {
   "property": "C05",
   "status": "partial",
   "theorems": [
    "Audi.C05_div_mul_cancel_partial",
    "Audi.C05_div_mul_low_degree_partial",
    "Audi.C05_scalar_div",
    "Audi.C05_div_scalar",
    "Audi.C05_division_by_zero",
    "Audi.C05_zero_dividend",
    "Audi.C05_counterexample"
   ],
   "note": "(a/b)*b==a holds when order a <= order b, and up to the order of b in general; C05_counterexample shows that the full claim is false. Non finite outcomes and zero dividends are characterised."
  },
  {
   "property": "C06",
   "status": "proved",
   "theorems": [
    "Audi.C06_find_cf"
   ],
   "note": "find_cf returns the coefficient, or throws exactly when the degree or the length is wrong."
  },
  {
   "property": "C07",
   "status": "proved",
   "theorems": [
    "Audi.C07_get_derivative",
    "Audi.C07_iterated_derivatives"
   ],
   "note": "get_derivative is the coefficient times factorials, equal to the constant term of the iterated partials. True derivatives of expressions are in C21."
  },
  {
   "property": "C08",
   "status": "partial",
   "theorems": [
    "Audi.C08_dict_form",
    "Audi.C08_iteration_order",
    "Audi.C08_unknown_symbol_partial",
    "Audi.C08_no_throw_counterexample",
    "Audi.C08_unknown_zero_counterexample"
   ],
   "note": "The dictionary form agrees with the vector form for known symbols, for all iteration orders. Unknown symbols give 0 instead of the documented exception, even with exponent 0 (counterexamples)."
  },
  {
   "property": "C09",
   "status": "proved",
   "theorems": [
    "Audi.C09_partial_derivative",
    "Audi.C09_bad_name",
    "Audi.C09_linear_comm",
    "Audi.C09_leibniz",
    "Audi.C09_absent_symbol"
   ],
   "note": "partial is the formal partial derivative; linear, commuting, Leibniz up to the order lost; bad names throw."
  },
  {
   "property": "C10",
   "status": "proved",
   "theorems": [
    "Audi.C10_integrate"
   ],
   "note": "integrate is an antiderivative, truncated at the order."
  },
  {
   "property": "C11",
   "status": "proved",
   "theorems": [
    "Audi.C11_subs_value"
   ],
   "note": "Substitution of a value is partial evaluation of the polynomial."
  },
  {
   "property": "C12",
   "status": "proved",
   "theorems": [
    "Audi.C12_subs_gdual",
    "Audi.C12_subs_symbols",
    "Audi.C12_symbol_removed"
   ],
   "note": "Substitution of a gdual is truncated substitution of the polynomial."
  },
  {
   "property": "C13",
   "status": "proved",
   "theorems": [
    "Audi.C13_trim",
    "Audi.C13_trim_zero",
    "Audi.C13_trim_idempotent",
    "Audi.C13_trim_error"
   ],
   "note": "trim removes exactly the coefficients smaller than epsilon."
  },
  {
   "property": "C14",
   "status": "partial",
   "theorems": [
    "Audi.C14_extract_terms",
    "Audi.C14_partition",
    "Audi.C14_order_not_preserved",
    "Audi.C14_order_partial"
   ],
   "note": "The order of the extracted part is not preserved (C14_order_not_preserved)."
  },
  {
   "property": "C15",
   "status": "proved",
   "theorems": [
    "Audi.C15_evaluate_throws",
    "Audi.C15_evaluate_value",
    "Audi.C15_homomorphism"
   ],
   "note": "evaluate is polynomial evaluation; homomorphism for sums, and for products when nothing is truncated."
  },
  {
   "property": "C16",
   "status": "proved",
   "theorems": [
    "Audi.C16_eq_iff",
    "Audi.C16_equivalence",
    "Audi.C16_congr"
   ],
   "note": "== is equality of polynomials in all lanes; equivalence and congruence."
  },
  {
   "property": "C17",
   "status": "proved",
   "theorems": [
    "Audi.C17_extend",
    "Audi.C17_extend_throws"
   ],
   "note": "extend_symbol_set keeps the value, throws exactly when names are bad or symbols would be lost."
  },
  {
   "property": "C18",
   "status": "proved",
   "theorems": [
    "Audi.C18_throws_iff",
    "Audi.C18_constructed"
   ],
   "note": "Constructors throw exactly as documented and build the stated polynomials."
  },
  {
   "property": "C19",
   "status": "proved",
   "theorems": [
    "Audi.C19_constant_cf",
    "Audi.C19_lt_gt",
    "Audi.C19_strict_weak_order"
   ],
   "note": "constant_cf and order."
  },
  {
   "property": "C20",
   "status": "partial",
   "theorems": [
    "Audi.C20_is_zero_partial",
    "Audi.C20_is_zero_all_lanes_partial",
    "Audi.C20_vectorized_counterexample"
   ],
   "note": "Holds for scalar coefficients and for vectorized coefficients all of whose components are large; false for vectorized coefficients in general (C20_vectorized_counterexample)."
  },
  {
   "property": "C21",
   "status": "partial",
   "theorems": [
    "Audi.C21_ad_partial",
    "Audi.C21_counterexample"
   ],
   "note": "All expression trees over variables, scalars, + - * /, the elementary functions and powers; all lanes; both forms of get_derivative. Order at most 30 if atan, asin or acos occurs (C21_counterexample: the derivative of order 31 of atan is wrong at every order from 31 on)."
  },
  {
   "property": "C22",
   "status": "proved",
   "theorems": [
    "Audi.C22_exp"
   ],
   "note": "Full claim."
  },
  {
   "property": "C23",
   "status": "proved",
   "theorems": [
    "Audi.C23_log"
   ],
   "note": "Full claim including the non finite outcome outside of the domain."
  },
  {
   "property": "C24",
   "status": "partial",
   "theorems": [
    "Audi.C24_pow_real",
    "Audi.C24_pow_real_undefined",
    "Audi.C24_pow_real_overflow",
    "Audi.C24_pow_int",
    "Audi.C24_pow_int_undefined",
    "Audi.C24_overloads_agree",
    "Audi.C24_pow_base",
    "Audi.C24_pow_base_undefined",
    "Audi.C24_pow_gdual_partial",
    "Audi.C24_pow_gdual_counterexample",
    "Audi.C24_pow_gdual_undefined"
   ],
   "note": "All overloads. pow(gdual, gdual) holds when the order of the base is not smaller than that of the exponent; otherwise false (counterexample)."
  },
  {
   "property": "C25",
   "status": "proved",
   "theorems": [
    "Audi.C25_sqrt",
    "Audi.C25_cbrt",
    "Audi.C25_sqrt_sq",
    "Audi.C25_cbrt_cube",
    "Audi.C25_sqrt_constant"
   ],
   "note": "Full claim, including squares and cubes of the results."
  },
  {
   "property": "C26",
   "status": "proved",
   "theorems": [
    "Audi.C26_sin",
    "Audi.C26_cos",
    "Audi.C26_sin_and_cos"
   ],
   "note": "Full claim."
  },
  {
   "property": "C27",
   "status": "proved",
   "theorems": [
    "Audi.C27_sinh",
    "Audi.C27_cosh",
    "Audi.C27_sinh_and_cosh"
   ],
   "note": "Full claim."
  },
  {
   "property": "C28",
   "status": "proved",
   "theorems": [
    "Audi.C28_tan",
    "Audi.C28_tanh"
   ],
   "note": "Full claim."
  },
  {
   "property": "C29",
   "status": "partial",
   "theorems": [
    "Audi.C29_atan_partial",
    "Audi.C29_atan_exact_binomials_partial",
    "Audi.C29_atanh"
   ],
   "note": "atanh at all orders; atan up to order 30, wrong at every order from 31 on for a variable with value 1 (C33_counterexample); correct at all orders with exact binomial coefficients."
  },
  {
   "property": "C30",
   "status": "partial",
   "theorems": [
    "Audi.C30_asinh",
    "Audi.C30_acosh",
    "Audi.C30_asin_partial",
    "Audi.C30_acos_partial",
    "Audi.C30_exact_binomials_partial",
    "Audi.C30_asin_acos_undefined",
    "Audi.C30_counterexample"
   ],
   "note": "asinh, acosh at all orders; asin, acos up to order 30, because they use atan, and wrong at every order from 31 on for a variable with value 1/sqrt 2 (C30_counterexample)."
  },
  {
   "property": "C31",
   "status": "partial",
   "theorems": [
    "Audi.C31_compose",
    "Audi.C31_erf",
    "Audi.C31_atan_d",
    "Audi.C31_atanh_d",
    "Audi.C31_asinh_d",
    "Audi.C31_acosh_d",
    "Audi.C31_asin_d",
    "Audi.C31_acos_d",
    "Audi.C31_agree_partial",
    "Audi.C31_counterexample"
   ],
   "note": "compose_from_derivative, erf and the _d functions at all orders; they agree with the direct implementations except atan, asin, acos beyond order 30; atan differs at every order from 31 on (C31_counterexample)."
  },
  {
   "property": "C32",
   "status": "partial",
   "theorems": [
    "Audi.C32_abs",
    "Audi.C32_abs_vectorized_partial",
    "Audi.C32_counterexample"
   ],
   "note": "Scalar coefficients: full claim. Vectorized coefficients: holds per component if the constant part has all its components; false otherwise (C32_counterexample)."
  },
  {
   "property": "C33",
   "status": "partial",
   "theorems": [
    "Audi.C33_atan_32bit_partial",
    "Audi.C33_counterexample"
   ],
   "note": "Exact up to order 30; false at every order from 31 on (C33_counterexample)."
  },
  {
   "property": "C34",
   "status": "proved",
   "theorems": [
    "Audi.C34_add",
    "Audi.C34_sub",
    "Audi.C34_mul",
    "Audi.C34_div",
    "Audi.C34_map",
    "Audi.C34_not_empty"
   ],
   "note": "All sizes; the operations throw exactly for incompatible sizes. Division is not finite exactly for zero divisors."
  },
  {
   "property": "C35",
   "status": "partial",
   "theorems": [
    "Audi.C35_fma3_partial",
    "Audi.C35_counterexample"
   ],
   "note": "fma3 is ret + x*y for compatible sizes and throws when one size is 1; for three different sizes larger than 1 it silently does nothing (C35_counterexample)."
  },
  {
   "property": "C36",
   "status": "partial",
   "theorems": [
    "Audi.C36_eq",
    "Audi.C36_eq_trans_partial",
    "Audi.C36_eq_counterexample",
    "Audi.C36_lt_gt",
    "Audi.C36_lt_partial",
    "Audi.C36_order_counterexample"
   ],
   "note": "== is equality of the broadcast components, reflexive, symmetric; transitive for equal sizes only. < is a strict order for equal sizes only (counterexamples)."
  },
  {
   "property": "C37",
   "status": "partial",
   "theorems": [
    "Audi.C37_no_throw",
    "Audi.C37_ring",
    "Audi.C37_div",
    "Audi.C37_div_scalar_gdual",
    "Audi.C37_div_gdual_scalar",
    "Audi.C37_calculus",
    "Audi.C37_function",
    "Audi.C37_functions",
    "Audi.C37_program_partial",
    "Audi.C37_trim_counterexample"
   ],
   "note": "Ring operations, division, calculus, substitution, coefficients, all elementary functions and all expression trees act on each component independently. trim and abs do not (C37_trim_counterexample, C32_counterexample)."
  },
  {
   "property": "C38",
   "status": "partial",
   "theorems": [
    "Audi.C38_inverse_partial",
    "Audi.C38_left_inverse_partial",
    "Audi.C38_eleven_counterexample",
    "Audi.C38_names_counterexample"
   ],
   "note": "Proved for at most 10 variables (any number for order 1) when the variables of the map, except the first, are not named p0..p(n-1): right and left inverse up to the order. Missing: false from 11 variables on with order >= 2, for every map (C38_eleven_counterexample), and for maps in p0, p1 (C38_names_counterexample). Eigen is replaced by exact determinant and inverse."
  },
  {
   "property": "C39",
   "status": "partial",
   "theorems": [
    "Audi.C39_symbols_partial",
    "Audi.C39_symbols_counterexample"
   ],
   "note": "Size and names proved for all maps; but for order >= 2 a component only has the variables that occur in it (C39_symbols_counterexample)."
  },
  {
   "property": "C40",
   "status": "proved",
   "theorems": [
    "Audi.C40_rejects"
   ],
   "note": "For all lists of gduals with differential names and orders accepted by the constructors."
  },
  {
   "property": "C41",
   "status": "proved",
   "theorems": [
    "Audi.C41_combinations",
    "Audi.C41_no_limits",
    "Audi.C41_nodup",
    "Audi.C41_count"
   ],
   "note": "Membership, lexicographic order, no repetitions, number of vectors."
  },
  {
   "property": "C42",
   "status": "proved",
   "theorems": [
    "Audi.C42_get_poly",
    "Audi.C42_rebuild",
    "Audi.C42_no_symbols",
    "Audi.C42_get_coefficient",
    "Audi.C42_max_degrees",
    "Audi.C42_ndim"
   ],
   "note": "get_poly, get_ndim, get_max_degrees, get_coefficient. With no symbols get_poly lists nothing, not even the constant."
  },
  {
   "property": "C43",
   "status": "proved",
   "theorems": [
    "Audi.C43_binomial",
    "Audi.C43_binomial_small",
    "Audi.C43_out_of_range",
    "Audi.C43_symm",
    "Audi.C43_overflow_counterexample",
    "Audi.C43_binom_product",
    "Audi.C43_binom_product_throws"
   ],
   "note": "Exact under a no-overflow condition, in particular for n <= 62; 0 outside the range; wrong for binomial(63,31), although the value fits into 64 bits."
  },
  {
   "property": "C44",
   "status": "partial",
   "theorems": [
    "Audi.C44_matmul",
    "Audi.C44_transpose",
    "Audi.C44_change_of_variable_partial",
    "Audi.C44_change_of_variable_zero",
    "Audi.C44_bernstein_coefficients_partial",
    "Audi.C44_overflow_counterexample"
   ],
   "note": "Proved for degrees up to 62 and all intervals, for lower end point 0 for all degrees; the Pascal matrix of degree 63 is wrong because binomial overflows."
  },
  {
   "property": "C45",
   "status": "partial",
   "theorems": [
    "Audi.C45_patch_encloses_partial",
    "Audi.C45_overflow_counterexample"
   ],
   "note": "Proved for any number of variables, all boxes and all points, exponents up to 62. For degree 63 a polynomial leaves its computed bounds."
  },
  {
   "property": "C46",
   "status": "partial",
   "theorems": [
    "Audi.C46_bounds_partial",
    "Audi.C46_one_variable_partial",
    "Audi.C46_iteration_order_counterexample"
   ],
   "note": "Proved for every well formed Taylor model of order up to 62 when the map is traversed in insertion order, and for every order with one variable; with two variables a reversed iteration order gives wrong bounds."
  },
  {
   "property": "C47",
   "status": "partial",
   "theorems": [
    "Audi.C47_constructor",
    "Audi.C47_constructor_accepts",
    "Audi.C47_results",
    "Audi.C47_names_counterexample",
    "Audi.C47_power_counterexample",
    "Audi.C47_setter_counterexample"
   ],
   "note": "The constructor accepts exactly the inputs that pass the checks, and the results of all arithmetic operations pass them. Counterexamples: the keys are not compared with the variable names; power 0 gives an object that fails the check; setters change the object before they throw."
  },
  {
   "property": "C48",
   "status": "partial",
   "theorems": [
    "Audi.C48_add",
    "Audi.C48_sub",
    "Audi.C48_encloses",
    "Audi.C48_scalar_add",
    "Audi.C48_add_scalar",
    "Audi.C48_sub_scalar",
    "Audi.C48_interval_add",
    "Audi.C48_add_interval",
    "Audi.C48_sub_interval",
    "Audi.C48_scalar_mul",
    "Audi.C48_mul_scalar",
    "Audi.C48_div_scalar",
    "Audi.C48_tolerance_counterexample"
   ],
   "note": "Proved for all compatible Taylor models, all functions and points, including scalars and intervals. Expansion points that differ by less than the tolerance are merged, which is unsound in exact arithmetic (counterexample)."
  },
  {
   "property": "C49",
   "status": "partial",
   "theorems": [
    "Audi.C49_scalar_sub_partial",
    "Audi.C49_iff",
    "Audi.C49_neg_partial",
    "Audi.C49_neg_counterexample"
   ],
   "note": "Sound exactly when the remainder is symmetric about 0 (iff theorem); counterexample otherwise: the code does not negate the remainder."
  },
  {
   "property": "C50",
   "status": "partial",
   "theorems": [
    "Audi.C50_mul_partial",
    "Audi.C50_mul_zero_partial",
    "Audi.C50_zero_counterexample",
    "Audi.C50_order_zero_counterexample",
    "Audi.C50_tiny_counterexample"
   ],
   "note": "Proved for nonzero polynomials of orders with sum 1 to 62, insertion order, and truncated part zero or with a coefficient above 1e-16. Counterexamples for zero polynomials, two constants of order 0, and small truncated coefficients."
  },
  {
   "property": "C51",
   "status": "partial",
   "theorems": [
    "Audi.C51_interval_mul_throws",
    "Audi.C51_mul_interval_throws",
    "Audi.C51_mul_interval_counterexample",
    "Audi.C51_mul_interval_name_counterexample",
    "Audi.C51_interval_sub_counterexample",
    "Audi.C51_interval_mul_counterexample"
   ],
   "note": "The property is false: interval times/over Taylor model throws whenever there is a variable, Taylor model times/over interval throws unless there is exactly one, and where they return, the result is not an enclosure; interval minus Taylor model is not an enclosure."
  },
  {
   "property": "C52",
   "status": "partial",
   "theorems": [
    "Audi.C52_zero",
    "Audi.C52_reciprocal_partial",
    "Audi.C52_quotient_partial",
    "Audi.C52_scalar_counterexample",
    "Audi.C52_remainder_counterexample",
    "Audi.C52_degree_counterexample"
   ],
   "note": "s/tm encloses the quotient for polynomials of degree at most 1, remainder {0} and 0 <= s <= 1 (C52_reciprocal_partial); tm/tm composed with the product (C52_quotient_partial); a denominator that may be 0 throws (C52_zero). Counterexamples: the remainder is not scaled by s, a remainder of the denominator and the truncated powers are not accounted for."
  },
  {
   "property": "C53",
   "status": "partial",
   "theorems": [
    "Audi.C53_exp_partial",
    "Audi.C53_sin_partial",
    "Audi.C53_cos_partial",
    "Audi.C53_sinh_partial",
    "Audi.C53_cosh_partial",
    "Audi.C53_log_partial",
    "Audi.C53_log_domain",
    "Audi.C53_sin_and_cos",
    "Audi.C53_sinh_and_cosh",
    "Audi.C53_exp_remainder_counterexample",
    "Audi.C53_sin_remainder_counterexample",
    "Audi.C53_cos_remainder_counterexample",
    "Audi.C53_sinh_remainder_counterexample",
    "Audi.C53_cosh_remainder_counterexample",
    "Audi.C53_log_remainder_counterexample",
    "Audi.C53_exp_degree_counterexample"
   ],
   "note": "Sound up to order 62 when the order is 0, or the remainder is {0} and the polynomial has degree at most 1 (log: values and centre positive); sin_and_cos, sinh_and_cosh agree with the single functions; log of a model that may be negative throws. Counterexamples: a remainder of the argument is not propagated, and powers truncated at the order are not accounted for."
  },
  {
   "property": "C54",
   "status": "partial",
   "theorems": [
    "Audi.C54_pow_partial",
    "Audi.C54_pow_negative_partial",
    "Audi.C54_pow_zero",
    "Audi.C54_pow_zero_counterexample",
    "Audi.C54_sqrt_partial",
    "Audi.C54_inverse_sqrt_partial",
    "Audi.C54_root_domain",
    "Audi.C54_sqrt_order_counterexample",
    "Audi.C54_exponent_rejected",
    "Audi.C54_integral_exponent",
    "Audi.C54_exponent_counterexample",
    "Audi.C54_sqrt_remainder_counterexample",
    "Audi.C54_inverse_sqrt_remainder_counterexample"
   ],
   "note": "Positive integer powers sound for every remainder (orders 1-31, products not affected by the treatment of small terms); negative powers and both roots for polynomials of degree at most 1 with remainder {0} (sqrt up to order 17). Counterexamples: pow(tm,0), roots at orders 18 to 62 (overflow), exponents of type double are truncated, remainders of the argument are not propagated by the roots."
  },
  {
   "property": "C55",
   "status": "partial",
   "theorems": [
    "Audi.C55_acos_partial",
    "Audi.C55_acos_counterexample",
    "Audi.C55_asin_derivative_counterexample",
    "Audi.C55_order_zero",
    "Audi.C55_abs_partial",
    "Audi.C55_abs_sign_counterexample",
    "Audi.C55_abs_remainder_counterexample",
    "Audi.C55_atan_remainder_counterexample",
    "Audi.C55_atan_centre_counterexample",
    "Audi.C55_asin_remainder_counterexample",
    "Audi.C55_atan_partial",
    "Audi.C55_asin_returned_partial",
    "Audi.C55_asin_partial",
    "Audi.C55_asin_derivative_partial",
    "Audi.C55_domain"
   ],
   "note": "The code does not satisfy the property. Proved for polynomials of degree 1 without constant term and remainder {0}: atan (all orders 1..30), asin (returns and is sound when the sum of the absolute values of the terms is below 1), acos (when the domain is symmetric about the expansion point), abs (when the polynomial keeps its sign on the domain and the remainder has the same sign). Disproved with concrete witnesses: a remainder other than {0} is ignored (atan, asin, abs), a constant term other than 0 gives a remainder around the wrong point (atan), acos does not negate the remainder, abs of a polynomial that changes its sign, asin_derivative away from 0. Order 0: the result has no variables and the construction is rejected."
  },
  {
   "property": "C56",
   "status": "partial",
   "theorems": [
    "Audi.C56_refl",
    "Audi.C56_symm",
    "Audi.C56_ne",
    "Audi.C56_meaning",
    "Audi.C56_map_refl",
    "Audi.C56_map_symm",
    "Audi.C56_map_num_symm",
    "Audi.C56_zero_tolerance_counterexample",
    "Audi.C56_not_transitive"
   ],
   "note": "Reflexive and symmetric, != is the negation, exact meaning of equality proved. With tolerance 0 the interval comparison is not reflexive (counterexample). Transitivity is disproved."
  },
  {
   "property": "C57",
   "status": "proved",
   "theorems": [
    "Audi.C57_common_exp",
    "Audi.C57_common_domain",
    "Audi.C57_trim"
   ],
   "note": "Proved for all maps, whatever the order of their entries."
  },
  {
   "property": "C58",
   "status": "partial",
   "theorems": [
    "Audi.C58_extend",
    "Audi.C58_missing",
    "Audi.C58_throw_counterexample"
   ],
   "note": "Proved for all valid extensions; missing entries throw. Counterexample: the object is changed before the exception."
  },
  {
   "property": "C59",
   "status": "partial",
   "theorems": [
    "Audi.C59_exp_add",
    "Audi.C59_log_mul",
    "Audi.C59_log_exp",
    "Audi.C59_exp_log",
    "Audi.C59_tan",
    "Audi.C59_tanh",
    "Audi.C59_sqrt_pow",
    "Audi.C59_cosh_sinh_exp",
    "Audi.C59_sin_asin_partial",
    "Audi.C59_sin_asin_counterexample",
    "Audi.C59_sinh_asinh",
    "Audi.C59_tanh_atanh"
   ],
   "note": "Identities hold as equalities of gduals; those through asin and acos up to order 30, and fail at every order from 31 on (C59_sin_asin_counterexample)."
  },
  {
   "property": "C60",
   "status": "partial",
   "theorems": [
    "Audi.C60_add",
    "Audi.C60_sub",
    "Audi.C60_smul",
    "Audi.C60_size",
    "Audi.C60_compose_partial",
    "Audi.C60_trim",
    "Audi.C60_trim_throws",
    "Audi.C60_compose_counterexample"
   ],
   "note": "Sum, difference, multiples and trim proved. Composition is simultaneous substitution up to the order for maps without common variables and B without constant terms; with constant terms terms are lost (C60_compose_counterexample)."
  },
  {
   "property": "C61",
   "status": "partial",
   "theorems": [
    "Audi.C61_corner_values_partial",
    "Audi.C61_multilinear_exact",
    "Audi.C61_corner_counterexample",
    "Audi.C61_bounds_exact"
   ],
   "note": "Corner values for exponents up to 62 (the limit of binomial; C61_corner_counterexample for 63); exactness for polynomials of degree at most 1 in each variable without further restriction, for the patch and for get_bounds (map traversed in insertion order)."
  },
  {
   "property": "C62",
   "status": "partial",
   "theorems": [
    "Audi.C62_patch_interval_partial",
    "Audi.C62_patch_counterexample",
    "Audi.C62_bounds_abs_partial"
   ],
   "note": "For exponents up to 62 (the Pascal matrix overflows beyond; C62_patch_counterexample for 63). The map of domains is traversed in the order of insertion (see C46)."
  },
  {
   "property": "C63",
   "status": "partial",
   "theorems": [
    "Audi.C63_tan_counterexample",
    "Audi.C63_tanh_counterexample",
    "Audi.C63_asinh_counterexample",
    "Audi.C63_atanh_counterexample",
    "Audi.C63_acosh_counterexample",
    "Audi.C63_tan_partial",
    "Audi.C63_tanh_partial",
    "Audi.C63_asinh_partial",
    "Audi.C63_acosh_partial",
    "Audi.C63_atanh_partial"
   ],
   "note": "The enclosure fails for each of the five functions, also for arguments without remainder (counterexamples): the remainders of the intermediate Taylor models are not carried through the next step. Proved: for orders 1 to 31 and remainders containing 0, when the function returns, the result is well formed, its polynomial is the Taylor polynomial of the composition and it allows the right value at the expansion point."
  },
  {
   "property": "C64",
   "status": "partial",
   "theorems": [
    "Audi.C64_polynomial_partial",
    "Audi.C64_order_zero_counterexample"
   ],
   "note": "Proved for orders up to 31, variables whose remainders contain 0, exponents that are multiples of 1/2 other than 0, and expressions without a product of two models of order 0, for which it is false (counterexample). Covers the four operations with models and numbers, powers, and all functions of Taylor models except abs; any iteration order of the map in get_bounds."
  },
  {
   "property": "C65",
   "status": "partial",
   "theorems": [
    "Audi.C65_centre_partial",
    "Audi.C65_order_zero_counterexample"
   ],
   "note": "Same limits as C64; the counterexample is again the product of two constants. Away from the expansion point the enclosure is false (C50-C57, C63)."
  },
  {
   "property": "C66",
   "status": "partial",
   "theorems": [
    "Audi.C66_enclosure_partial"
   ],
   "note": "Proved when each operation (powers: int, or double exponents that are integers or 1/2, -1/2) meets, where it is applied, the conditions of its own enclosure theorem (C48-C50, C52-C55), for orders 1 to 31 and variables whose remainders contain 0; then the evaluation returns. Outside these conditions the enclosure is false (counterexamples of C46, C49-C55, C63)."
  },
  {
   "property": "C67",
   "status": "proved",
   "theorems": [
    "Audi.C67_add_sub_neg",
    "Audi.C67_mul",
    "Audi.C67_scalar"
   ],
   "note": "Standard model of floating point arithmetic: no overflow or underflow, a fused multiply-add counts as two operations. Rounding to nearest with p binary digits, ties to even, is proved to be an instance."
  },
  {
   "property": "C68",
   "status": "proved",
   "theorems": [
    "Audi.C68_derivatives"
   ],
   "note": "Same model of rounding; the product of factorials in get_derivative is rounded once. Division by gduals and the elementary functions are not covered."
  },
  {
   "property": "C69",
   "status": "partial",
   "theorems": [
    "Audi.C69_shift_partial",
    "Audi.C69_counterexample"
   ],
   "note": "False: the remainder does not take the rounding of the constant coefficient into account (counterexample in 53 binary digits). Proved with the remainder widened by u times the absolute value of that coefficient. s - tm is not considered (C49)."
  },
  {
   "property": "C70",
   "status": "partial",
   "theorems": [
    "Audi.C70_all_partial",
    "Audi.C70_all_vectorized_partial",
    "Audi.C70_programs_partial",
    "Audi.C70_tie_counterexample",
    "Audi.C70_eq_counterexample",
    "Audi.C70_vectorized_counterexample",
    "Audi.C70_vectorized_partial"
   ],
   "note": "Proved when no comparison on the path is a tie, and for vectorized coefficients also if all components take the same branches; orders up to 30 if atan, asin or acos occurs. C70_all_partial is for programs with all the functions (also abs, erf, the _d functions and those of the Python module), for scalar coefficients; C70_all_vectorized_partial the same for vectorized ones, without abs. False with ties (the branch for equality is taken although the function is differentiable), with == (it compares polynomials), and for components with different branches."
  },
  {
   "property": "C71",
   "status": "proved",
   "theorems": [
    "Audi.C71_tan",
    "Audi.C71_tanh",
    "Audi.C71_agree"
   ],
   "note": "Exact real coefficients, so the precision itself is not modelled; erf and acos for quadruple precision are the generic formulas with other constants."
  },
  {
   "property": "C72",
   "status": "partial",
   "theorems": [
    "Audi.C72_log10",
    "Audi.C72_log2",
    "Audi.C72_log1p",
    "Audi.C72_expm1",
    "Audi.C72_erfc",
    "Audi.C72_inverse",
    "Audi.C72_pow_log",
    "Audi.C72_log1p_doc_counterexample"
   ],
   "note": "The functions are right; only the documentation string of log1p is not: it says log(x)+1 (counterexample). erfc, as erf (C31), for gduals whose symbols are differentials of legal names."
  },
  {
   "property": "C73",
   "status": "partial",
   "theorems": [
    "Audi.C73_arithmetic",
    "Audi.C73_division",
    "Audi.C73_alias_partial",
    "Audi.C73_alias_counterexample",
    "Audi.C73_comparisons",
    "Audi.C73_stream"
   ],
   "note": "Everything but the reference: v /= *v.begin() gives [1, 4] for [2, 4] (counterexample); the components after the referenced one are not divided."
  },
  {
   "property": "C74",
   "status": "partial",
   "theorems": [
    "Audi.C74_round_trip",
    "Audi.C74_dict",
    "Audi.C74_empty_counterexample"
   ],
   "note": "Proved except for the empty list, which becomes an empty vectorized (counterexample): a gdual built from it is the gdual of 0, and printing such a vectorized is undefined."
  },
  {
   "property": "C75",
   "status": "proved",
   "theorems": [
    "Audi.C75_ad",
    "Audi.C75_exp",
    "Audi.C75_log",
    "Audi.C75_sin_cos",
    "Audi.C75_sinh_cosh",
    "Audi.C75_tan",
    "Audi.C75_tanh",
    "Audi.C75_atanh",
    "Audi.C75_pow_number",
    "Audi.C75_pow_int",
    "Audi.C75_pow_base",
    "Audi.C75_log_cut"
   ],
   "note": "Exact complex coefficients. sqrt, cbrt, the other inverse functions, erf and abs are not covered: they cannot be instantiated for std::complex (binomial subtracts an unsigned integer, erf is missing, abs compares). That the remaining templates can be instantiated was read from the source, not compiled."
  },
  {
   "property": "C76",
   "status": "partial",
   "theorems": [
    "Audi.C76_exp_log",
    "Audi.C76_root",
    "Audi.C76_euler",
    "Audi.C76_hyperbolic",
    "Audi.C76_log_exp_counterexample"
   ],
   "note": "All identities but the last are proved. log(exp(d)) == d fails when the imaginary part of the constant part is out of (-pi, pi] (counterexample at 2 pi i); this is inherent in the principal branch."
  },
  {
   "property": "C77",
   "status": "partial",
   "theorems": [
    "Audi.C77_all_partial",
    "Audi.C77_little_o_partial",
    "Audi.C77_big_o_partial",
    "Audi.C77_complex",
    "Audi.C77_counterexample"
   ],
   "note": "Proved for real and vectorized coefficients for orders up to 30 if atan, asin or acos occurs, for complex coefficients at all orders. Refuted for atan at order 31. C77_all_partial: all the functions of the library."
  },
  {
   "property": "C78",
   "status": "partial",
   "theorems": [
    "Audi.C78_all_partial",
    "Audi.C78_operators",
    "Audi.C78_functions_partial",
    "Audi.C78_expression_subset_partial",
    "Audi.C78_expression_partial",
    "Audi.C78_expression_complex_partial",
    "Audi.C78_order_zero_counterexample",
    "Audi.C78_pow_counterexample",
    "Audi.C78_all_subset"
   ],
   "note": "Operators: proved. Functions and expressions: proved except where symbols are lost: atan, asin, acos, atanh at order 0, and pow(number, d) for a constant d. Both are refuted by witnesses. Depends on the contract of obake (sorted union of the symbol sets). C78_all_partial: expressions with all the functions of the library, at points of the domain. C78_all_subset: no symbols other than those of the arguments, at all orders."
  },
  {
   "property": "C79",
   "status": "partial",
   "theorems": [
    "Audi.C79_all_flow_partial",
    "Audi.C79_all_ode_partial",
    "Audi.C79_all_solution_exists",
    "Audi.C79_flow_partial",
    "Audi.C79_ode_partial",
    "Audi.C79_solution_exists",
    "Audi.C79_constant_counterexample"
   ],
   "note": "Proved for right hand sides that use a variable of order m (orders up to 30 if atan, asin or acos occurs). C79_ode_partial holds for every solution that is differentiable near the initial time; one exists (C79_solution_exists); C79_flow_partial, with initial values and parameters as variables, assumes that the flow has an expansion to order m. Refuted for y' = y started with the constant gdual(1), which has order 0. C79_all_*: the same with all the functions of the library (abs only for scalar coefficients)."
  },
  {
   "property": "C80",
   "status": "partial",
   "theorems": [
    "Audi.C80_all_partial",
    "Audi.C80_derivatives_partial",
    "Audi.C80_top_degree_counterexample"
   ],
   "note": "Proved for orders up to 30 if atan, asin or acos occurs, and for exponents that stay integers of 32 bits when lowered by the differentiation. Equality of the gduals (==) is refuted at every order: partial keeps the order although the term of degree m is unknown to it. C80_all_partial is the same with all the functions (abs for real coefficients, erf, the functions of functions_from_d.hpp and of the Python module)."
  },
  {
   "property": "C81",
   "status": "proved",
   "theorems": [
    "Audi.GDual.C81_exp",
    "Audi.GDual.C81_log",
    "Audi.GDual.C81_sqrt",
    "Audi.GDual.C81_cbrt",
    "Audi.GDual.C81_sin_cos",
    "Audi.GDual.C81_sinh_cosh",
    "Audi.GDual.C81_div",
    "Audi.GDual.C81_divSG"
   ],
   "note": "k = (m + 2)(2^j + 20) + acc for the coefficients of degree j of functions of gduals of order m, (m + 3)(2^j + 4) for quotients. The functions of the standard library have the relative error of acc roundings (hypothesis `Libm`). log and sqrt at positive constant terms, cbrt and quotients at nonzero ones. Overflow and underflow are not modelled. The products i (i - 1) in the factorials of sin, cos, sinh, cosh are rounded once, then multiplied and rounded."
  },
  {
   "property": "C82",
   "status": "proved",
   "theorems": [
    "Audi.C82_all",
    "Audi.C82_number_of_terms",
    "Audi.C82_expression",
    "Audi.C82_attained"
   ],
   "note": "Bound for everything built with the operations of C01 (`C82_number_of_terms`), for expressions with all the functions on their domain, at all orders (`C82_expression`), and the case in which the bound is attained (`C82_attained`). C82_all: with all the functions of the library, at all orders."
  },
  {
   "property": "C83",
   "status": "partial",
   "theorems": [
    "Audi.C83_all_fixed_point_partial",
    "Audi.C83_all_quadratic_partial",
    "Audi.C83_all_fixed_point_exists",
    "Audi.C83_all_root_exists",
    "Audi.C83_all_chord_partial",
    "Audi.C83_all_newton_partial",
    "Audi.C83_fixed_point_partial",
    "Audi.C83_quadratic_partial",
    "Audi.C83_fixed_point_exists",
    "Audi.C83_root_exists",
    "Audi.C83_chord_partial",
    "Audi.C83_newton_partial"
   ],
   "note": "For every solution with an expansion of order m; that it exists, when the derivative is not zero (or, for systems, under the condition of the theorem), is proved too (C83_root_exists, C83_fixed_point_exists). The order is at most 30 if atan, asin or acos occurs, and the equation contains a parameter outside of the exponent of a numeric base. Coefficients are computed exactly. The C83_all theorems allow all the functions of the library (abs for scalar coefficients) and need no condition on powers."
  },
  {
   "property": "C84",
   "status": "partial",
   "theorems": [
    "Audi.C84_all_inverse_function_partial",
    "Audi.C84_all_exists",
    "Audi.C84_all_derivatives_partial",
    "Audi.C84_inverse_function_partial",
    "Audi.C84_exists",
    "Audi.C84_derivatives_partial"
   ],
   "note": "The local inverse exists (C84_exists). At most 10 variables unless the order is 1, names of the variables different from p0, p1, ... (C38 counterexamples); order at most 30 if atan, asin or acos occurs; no power of a number to a gdual; every function contains all the variables. Coefficients are computed exactly. The C84_all theorems allow all the functions of the library."
  },
  {
   "property": "C85",
   "status": "partial",
   "theorems": [
    "Audi.C85_all_error_partial",
    "Audi.C85_all_consistency_partial",
    "Audi.C85_all_precision_partial",
    "Audi.C85_error_partial",
    "Audi.C85_consistency_partial",
    "Audi.C85_precision_partial"
   ],
   "note": "Order at most 30 if atan, asin or acos occurs; no power of a number to a gdual (pow(double, gdual) branches on the degree of the exponent, which depends on the rounding). The relative errors of the library functions are at most those of A roundings, for a fixed A. Overflow and underflow are not modelled. The constant depends on the expression and the point and is not computed; for single operations and functions C67-C69 and C81 give explicit bounds. The C85_all theorems cover expressions with all the other functions too (abs away from 0, sin_and_cos, sinh_and_cosh, erf, functions_from_d.hpp, the functions of the Python module), for orders of at least 1."
  },
  {
   "property": "C86",
   "status": "partial",
   "theorems": [
    "Audi.C86_find_cf_partial",
    "Audi.C86_find_cf_counterexample",
    "Audi.C86_constant_cf",
    "Audi.C86_get_derivative_partial",
    "Audi.C86_get_derivative_counterexample",
    "Audi.C86_high_order_counterexample",
    "Audi.C86_product_counterexample",
    "Audi.C86_dict_form"
   ],
   "note": "Values, when returned, are right if the largest exponent of a key times the number of symbols is below 2^32. Exponents above 170 give std::overflow_error instead of std::invalid_argument or the derivative; products of factorials from 2^1024 on give a value that is not finite; sums that wrap give std::overflow_error from the key. The largest exponent of an obake key is a parameter; rounding of the product of factorials is left out."
  },
  {
   "property": "C87",
   "status": "partial",
   "theorems": [
    "Audi.C87_monotone_partial",
    "Audi.C87_quadratic_partial",
    "Audi.C87_monotone_counterexample"
   ],
   "note": "For order up to 62 (C87_monotone_counterexample: for x^63 the patch over [2, 2] lies above the patch over [1, 2]). The map of domains is traversed in the order of insertion (see C46). Exact arithmetic."
  },
  {
   "property": "C88",
   "status": "partial",
   "theorems": [
    "Audi.C88_isotone_partial",
    "Audi.C88_enclosure_partial"
   ],
   "note": "Over the reals with exact interval arithmetic. Order up to 31 (30 if atan, asin or acos occurs); no product of models that all have order 0; the remainders of the variables contain 0. Any traversal order of the map of domains."
  },
  {
   "property": "C89",
   "status": "partial",
   "theorems": [
    "Audi.C89_remainder_partial",
    "Audi.C89_enclosure_partial",
    "Audi.C89_range_partial"
   ],
   "note": "Over the reals with exact interval arithmetic. Order up to 31 (30 if atan, asin or acos occurs); no product of models that all have order 0; the remainders of the variables contain 0. C89_remainder_partial holds for any traversal order of the map of domains, C89_enclosure_partial for the order of insertion and remainders {0}. C89_range_partial needs the limit for atan, asin and acos at order m + 1."
  },
  {
   "property": "C90",
   "status": "partial",
   "theorems": [
    "Audi.C90_bounds_partial",
    "Audi.C90_double_partial",
    "Audi.C90_counterexample"
   ],
   "note": "The enclosure without widening is refuted. Order up to 62; the map is traversed in the order of insertion; the rounding is monotone (proved for rounding to nearest with p digits). Overflow and underflow are not modelled."
  },
  {
   "property": "C91",
   "status": "partial",
   "theorems": [
    "Audi.C91_all_partial",
    "Audi.C91_series_partial",
    "Audi.C91_counterexample",
    "Audi.C91_complex",
    "Audi.C91_cauchy"
   ],
   "note": "Real lanes: orders up to 30 with atan, asin, acos (refuted above); complex coefficients: the functions available there, all orders. The functions are the mathematical ones; coefficients are exact numbers. C91_all_partial: real lanes, all the functions of the library."
  },
  {
   "property": "C92",
   "status": "proved",
   "theorems": [
    "Audi.C92_all_truncation",
    "Audi.C92_all_order",
    "Audi.C92_truncation",
    "Audi.C92_order",
    "Audi.C92_boundary"
   ],
   "note": "All orders, all functions (also atan, asin, acos above order 30, whose wrong coefficients do not depend on the order). Real lanes; coefficients are exact numbers. C92_boundary shows that the hypothesis on the domain is needed. C92_all_truncation and C92_all_order: the same with all the functions of the library (abs for real coefficients, erf, the functions of functions_from_d.hpp and of the Python module)."
  },
  {
   "property": "C93",
   "status": "proved",
   "theorems": [
    "Audi.C93_all",
    "Audi.C93_renaming"
   ],
   "note": "All orders, all functions. Derivatives up to the orders of the results (a constant result may have a lower order). C93_all: the same with all the functions of the library (abs for real coefficients, erf, the functions of functions_from_d.hpp and of the Python module)."
  },
  {
   "property": "C94",
   "status": "proved",
   "theorems": [
    "Audi.C94_all_subs",
    "Audi.C94_all_zero",
    "Audi.C94_subs",
    "Audi.C94_zero",
    "Audi.C94_counterexample"
   ],
   "note": "Equality in the sense of operator==. The counterexample concerns gduals with constant term, which the statement excludes. C94_all_subs and C94_all_zero: the same with all the functions of the library (abs for real coefficients, erf, the functions of functions_from_d.hpp and of the Python module)."
  },
  {
   "property": "C95",
   "status": "proved",
   "theorems": [
    "Audi.C95_add",
    "Audi.C95_scalar",
    "Audi.C95_scalar_special",
    "Audi.C95_mul",
    "Audi.C95_mul_scalar",
    "Audi.C95_derivative",
    "Audi.C95_integrate",
    "Audi.C95_subs",
    "Audi.C95_trim",
    "Audi.C95_evaluate",
    "Audi.C95_read"
   ],
   "note": "Proved for every format, for NaN and for inf-or-NaN. Operators +, -, * (gduals and numbers), partial, integrate, subs with a number, trim, find_cf, get_derivative, evaluate. Quotients: C96. Not covered: functions.hpp, subs with a gdual. Signed zeros and FMA are not modelled."
  },
  {
   "property": "C96",
   "status": "partial",
   "theorems": [
    "Audi.C96_numerator_partial",
    "Audi.C96_denominator_partial",
    "Audi.C96_nan",
    "Audi.C96_zero",
    "Audi.C96_scalar",
    "Audi.C96_double",
    "Audi.C96_inf",
    "Audi.C96_counterexample"
   ],
   "note": "Proved when 1/p0 is not zero (always for double if p0 is a number), when p0 is NaN, and when p0 is zero. False for infinite p0 (C96_inf, C96_counterexample): the quotient is 0."
  },
  {
   "property": "C97",
   "status": "partial",
   "theorems": [
    "Audi.C97_arith_add",
    "Audi.C97_arith_mul",
    "Audi.C97_arith_div",
    "Audi.C97_arith_neg",
    "Audi.C97_arith_lt",
    "Audi.C97_arith_abs",
    "Audi.C97_eq_nan",
    "Audi.C97_eq_self",
    "Audi.C97_order_nan",
    "Audi.C97_isZero_partial",
    "Audi.C97_counterexample",
    "Audi.C97_const_add",
    "Audi.C97_const_mul_partial",
    "Audi.C97_zero_times",
    "Audi.C97_const_div_partial",
    "Audi.C97_div_counterexample"
   ],
   "note": "Comparisons: all gduals; is_zero only without NaN (C97_counterexample). Constants: sums exactly; products except 0 times inf/NaN; quotients are x * (1/y), which is not x/y (C97_div_counterexample: 49/49 in binary64). C97_arith_*: the special-value arithmetic of the model is that of the extended reals outside the indeterminate forms."
  },
  {
   "property": "C98",
   "status": "partial",
   "theorems": [
    "Audi.C98_ring",
    "Audi.C98_calculus",
    "Audi.C98_div",
    "Audi.C98_divGS",
    "Audi.C98_expr",
    "Audi.C98_hidden_counterexample",
    "Audi.C98_divSG",
    "Audi.C98_subs",
    "Audi.C98_compare"
   ],
   "note": "Rational coefficients, no rounding. Single operations: the operators (also with numbers), calculus, subs with numbers and gduals, reading, trim, extract_terms, comparisons. Expressions: the results of the exact model are those of the code (C98_expr); if the exact model reports nonFinite, the result of an expression can be free of inf and NaN (C98_hidden_counterexample). Not covered: functions (C100)."
  },
  {
   "property": "C99",
   "status": "partial",
   "theorems": [
    "Audi.C99_formulas",
    "Audi.C99_base",
    "Audi.C99_from_d",
    "Audi.C99_powers",
    "Audi.C99_power_counterexample",
    "Audi.C99_program_partial",
    "Audi.C99_div",
    "Audi.C99_inverse"
   ],
   "note": "Proved bit for bit for programs with +, -, *, -x, exp, log, sqrt, cbrt, sin, cos, tan, sinh, cosh, tanh, atanh, atan, pow with exponents that are not positive integers (modulus below 2^31), < and >, as long as all values are numbers. Not the case for / (x*(1/y), C99_div, C97_div_counterexample), asin, acos, asinh, acosh (C99_inverse gives the formulas), == (compares all coefficients). The functions of functions_from_d.hpp and erf have the values of the library for every value, inf and NaN included (C99_from_d). Integer powers and powers with gdual exponents are not those of std::pow either (C99_power_counterexample): C99_powers gives the products, quotients and exp(y*log(x)) which are computed. C99_formulas covers programs with all operators and functions: their values are those of the program on numbers with these formulas; without == and pow(number, gdual), whose value depends on the degree of the gdual (C99_base). Signed zeros and FMA are not modelled."
  },
  {
   "property": "C100",
   "status": "partial",
   "theorems": [
    "Audi.C100_value",
    "Audi.C100_nan",
    "Audi.C100_outside",
    "Audi.C100_outside_inverse",
    "Audi.C100_outside_double",
    "Audi.C100_pole",
    "Audi.C100_root_zero",
    "Audi.C100_acosh_one",
    "Audi.C100_atan_inf",
    "Audi.C100_asin_one",
    "Audi.C100_exp_hides",
    "Audi.C100_counterexample",
    "Audi.C100_cos_counterexample",
    "Audi.C100_exp_keeps",
    "Audi.C100_log_keeps",
    "Audi.C100_root_keeps",
    "Audi.C100_trig_keeps",
    "Audi.C100_from_d"
   ],
   "note": "Proved: no exceptions and values (C100_value), NaN values (C100_nan), values outside of the domain (C100_outside*), poles, special coefficients kept by exp, log, roots, sin, cos, sinh, cosh where the derivative at the value is not 0. False where the derivative is infinite: sqrt and cbrt at 0, asin and acos at 1, acosh at 1 (C100_counterexample), and for NaN coefficients where the derivative is 0 (C100_cos_counterexample). The functions of functions_from_d.hpp do show infinite derivatives with respect to the first variable (C100_from_d). Not covered: powers in C100_nan, coefficients of tan, tanh, atan, atanh and of the inverse functions."
  },
  {
   "property": "C101",
   "status": "partial",
   "theorems": [
    "Audi.C101_bookkeeping",
    "Audi.C101_checked",
    "Audi.C101_last_write",
    "Audi.C101_same_size",
    "Audi.C101_replace",
    "Audi.C101_restore",
    "Audi.C101_restrict",
    "Audi.C101_widen",
    "Audi.C101_names_counterexample",
    "Audi.C101_throw_counterexample"
   ],
   "note": "Proved for all sequences of calls: bookkeeping, checks after each call that returns, last write wins, restoring, replacing all parts, smaller domains and larger remainders. False: a setter that throws has changed the object; the names of the variables are not compared (counterexamples)."
  },
  {
   "property": "C102",
   "status": "partial",
   "theorems": [
    "Audi.C102_copies_partial",
    "Audi.C102_frame",
    "Audi.C102_read_counterexample",
    "Audi.C102_extend_counterexample",
    "Audi.C102_change"
   ],
   "note": "False in general (two counterexamples). Proved for programs in which no variable refers to a member of a Taylor model when this is changed, and extend_symbol_set is not called for such a member: then references behave like copies. C102_frame: which variables a statement can affect. The references are those of the return policy reference_internal of pybind11, taken from its documentation."
  },
  {
   "property": "C103",
   "status": "proved",
   "theorems": [
    "Audi.C103_evaluate",
    "Audi.C103_partial_derivative",
    "Audi.C103_integrate",
    "Audi.C103_partial_integrate",
    "Audi.C103_subs",
    "Audi.C103_expression"
   ],
   "note": "Proved for the standard model of floating point arithmetic (no overflow, no underflow). Powers are repeated products: a library pow with a smaller error also meets the bound, one with a larger error (more than k - 1 roundings for exponent k) does not."
  },
  {
   "property": "C104",
   "status": "proved",
   "theorems": [
    "Audi.C104_derivatives",
    "Audi.C104_evaluate",
    "Audi.C104_underflow"
   ],
   "note": "Proved for binary64 with subnormal numbers and overflow (Model/Special.lean), for arithmetic expressions; functions of the library are not included. C104_underflow shows that the absence of underflow is needed."
  },
  {
   "property": "C105",
   "status": "partial",
   "theorems": [
    "Audi.C105_double",
    "Audi.C105_round_trip_partial",
    "Audi.C105_state",
    "Audi.C105_vectorized_partial",
    "Audi.C105_sequence_partial",
    "Audi.C105_nonfinite",
    "Audi.C105_counterexample"
   ],
   "note": "Partial: all coefficients must be numbers; C105_nonfinite and C105_counterexample show that archives with infinities or NaN cannot be read. The format of Boost text archives and the serialization of obake polynomials are assumptions of the model."
  },
  {
   "property": "C106",
   "status": "proved",
   "theorems": [
    "Audi.C106_derivatives",
    "Audi.C106_evaluate",
    "Audi.C106_bound"
   ],
   "note": "Signed zeros are not modelled (a coefficient of a table is never a zero)."
  },
  {
   "property": "C107",
   "status": "partial",
   "theorems": [
    "Audi.C107_numbers",
    "Audi.C107_derivatives_partial",
    "Audi.C107_compare_partial",
    "Audi.C107_compare_counterexample",
    "Audi.C107_not_equal",
    "Audi.C107_dispatch"
   ],
   "note": "Python numbers are real numbers, coefficients exact. Order at most 30 for atan, asin, acos of gduals (C21); numbers as exponents of gduals, or with gduals as exponents, are rational. Comparisons only if both sides, or none, are gduals (counterexample otherwise). gdual_vdouble and gdual_real128 are not covered. The dispatch of operators is taken from the documentation of Python and pybind11. C107_dispatch: operators never raise a TypeError."
  },
  {
   "property": "C108",
   "status": "partial",
   "theorems": [
    "Audi.C108_all_partial",
    "Audi.C108_all_abs_partial",
    "Audi.C108_mixed_partial",
    "Audi.C108_counterexample"
   ],
   "note": "Only derivatives up to the smallest order of the variables (counterexample above it). Orders at most 30 if atan, asin, acos occur (C21); no limit for their _d forms. C108_all_partial has all the functions except abs, C108_all_abs_partial also abs, for scalar coefficients."
  },
  {
   "property": "C109",
   "status": "proved",
   "theorems": [
    "Audi.C109_ad",
    "Audi.C109_ad_abs"
   ],
   "note": "abs for scalar coefficients only (C32 for vectorized ones)."
  },
  {
   "property": "C110",
   "status": "partial",
   "theorems": [
    "Audi.C110_numbers",
    "Audi.C110_enclosure_partial",
    "Audi.C110_exponent",
    "Audi.C110_operations_counterexample",
    "Audi.C110_equal_counterexample",
    "Audi.C110_equal",
    "Audi.C110_interval_counterexample",
    "Audi.C110_intervals_partial",
    "Audi.C110_interval_operators_counterexample"
   ],
   "note": "Enclosure proved when each operation meets, where it is applied, the conditions of C66. False for powers with a Taylor model in the exponent, cbrt, comparisons (TypeError or False), and outside the conditions of C66."
  },
  {
   "property": "C111",
   "status": "partial",
   "theorems": [
    "Audi.C111_programs_partial",
    "Audi.C111_kind_counterexample",
    "Audi.C111_equal_counterexample"
   ],
   "note": "Proved when comparisons are of two numbers, of two gduals with different values, or == of different values. False for < and > between a gdual and a number (TypeError), == with an equal number, ties."
  },
  {
   "property": "C112",
   "status": "partial",
   "theorems": [
    "Audi.C112_enclosure_partial",
    "Audi.C112_branch_counterexample",
    "Audi.C112_equal_counterexample"
   ],
   "note": "Proved when each operation meets, where it is applied, the conditions of C66, and == is used only between numbers. False for == between a Taylor model and a number; conditions on Taylor models raise a TypeError."
  },
  {
   "property": "C113",
   "status": "partial",
   "theorems": [
    "Audi.C113_dispatch",
    "Audi.C113_derivatives_partial",
    "Audi.C113_compare_partial",
    "Audi.C113_mixed_counterexample",
    "Audi.C113_branch_counterexample"
   ],
   "note": "Derivatives proved with the restrictions of C107. Comparisons are right if their outcome is the same in all components, otherwise not; gdual_vdouble and gdual_double cannot be mixed. Vectors have the size 1 or a common size n. C113_dispatch: operators raise a TypeError exactly for a gdual_double with a gdual_vdouble."
  },
  {
   "property": "C114",
   "status": "partial",
   "theorems": [
    "Audi.C114_programs_partial",
    "Audi.C114_branch_counterexample",
    "Audi.C114_equal"
   ],
   "note": "Proved for executions that take the same branches in all components, with the restrictions of C111; with different branches the result is wrong in some component."
  },
  {
   "property": "C115",
   "status": "partial",
   "theorems": [
    "Audi.Io.C115_vector",
    "Audi.Io.C115_vector_unique_partial",
    "Audi.Io.C115_vector_counterexample",
    "Audi.Io.C115_comma_counterexample",
    "Audi.Io.C115_map",
    "Audi.Io.C115_arguments",
    "Audi.Io.Table.C115_table",
    "Audi.Io.Table.C115_columns",
    "Audi.Io.Table.C115_reject"
   ],
   "note": "Proved, except that vectors of more than five elements, or with elements that contain commas, cannot always be told apart. Lengths are numbers of characters (bytes)."
  },
  {
   "property": "C116",
   "status": "partial",
   "theorems": [
    "Audi.TM.C116_factorial2_partial",
    "Audi.TM.C116_factorial2_counterexample",
    "Audi.TM.C116_shift",
    "Audi.TM.C116_dimensions",
    "Audi.TM.C116_flatten"
   ],
   "note": "Proved, except that factorial2(int) overflows (undefined behaviour) from 34 on."
  },
  {
   "property": "C117",
   "status": "partial",
   "theorems": [
    "Audi.Io.C117_maps",
    "Audi.Io.C117_map_unique",
    "Audi.Io.C117_quotes_counterexample",
    "Audi.Io.C117_order_counterexample",
    "Audi.Io.C117_taylor_model"
   ],
   "note": "Proved for the maps in the order of iteration, which is not determined; names are not quoted as in the documentation. The output of numbers and of the polynomial is a parameter."
  },
  {
   "property": "C118",
   "status": "partial",
   "theorems": [
    "Audi.Io.C118_all",
    "Audi.Io.C118_info",
    "Audi.Io.C118_info_lines",
    "Audi.Io.C118_stream_partial",
    "Audi.Io.C118_latex",
    "Audi.Io.C118_message",
    "Audi.Io.C118_message_lines",
    "Audi.Io.C118_stream_counterexample"
   ],
   "note": "Proved for info(), the LaTeX form and the messages of exceptions; printing does not show the order. The text of the polynomial, written by obake, is a parameter."
  }
 ]
}