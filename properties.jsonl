{"id": "C01", "title": "Degree never exceeds truncation order", "statement": "Every gdual that can be obtained by any finite sequence of public operations has degree() <= get_order() and a well formed term table (no zero coefficient, no repeated monomial, one exponent per symbol), so the assertions in the destructor never fire.", "quantifier": "all finite programs over the public gdual operations, all symbols, all coefficients, all orders", "why_tests_cant": "The set of operation sequences is infinite; tests exercise a handful of short ones.", "anchors": ["include/audi/gdual.hpp:~gdual", "include/audi/gdual.hpp:add", "include/audi/gdual.hpp:mul", "include/audi/gdual.hpp:div", "include/audi/gdual.hpp:integrate", "include/audi/gdual.hpp:subs", "include/audi/gdual.hpp:extract_terms"]}
{"id": "C02", "title": "Sum, difference and negation are coefficient-wise and promote the order", "statement": "For gduals a,b the coefficient of every monomial in a+b, a-b, -a (and the mixed scalar forms) is the sum, difference, opposite of the operands' coefficients, whatever their symbol sets; the order is the maximum of the operands' orders.", "quantifier": "all pairs of gduals with arbitrary, possibly different, symbol sets and orders; all scalars; all monomials", "why_tests_cant": "Infinitely many polynomials and symbol-set combinations.", "anchors": ["include/audi/gdual.hpp:add", "include/audi/gdual.hpp:sub", "include/audi/gdual.hpp:operator-"]}
{"id": "C03", "title": "Multiplication is the product truncated at the larger order", "statement": "The coefficient of a monomial of total degree k in a*b is the convolution of the coefficients of a and b when k <= max(order a, order b), and zero otherwise; the order is that maximum.", "quantifier": "all pairs of gduals (different symbol sets, orders), all monomials", "why_tests_cant": "Infinitely many inputs; a wrong truncation by one only shows for particular degree/order combinations.", "anchors": ["include/audi/gdual.hpp:mul"]}
{"id": "C04", "title": "Truncated polynomials form a commutative ring", "statement": "For gduals of one common order, +,-,* satisfy the commutative ring axioms under operator== (associativity, commutativity, distributivity, neutral elements, opposites). With mixed orders associativity of * is not guaranteed.", "quantifier": "all triples of gduals of the same order", "why_tests_cant": "Universally quantified algebraic laws.", "anchors": ["include/audi/gdual.hpp:add", "include/audi/gdual.hpp:mul", "include/audi/gdual.hpp:operator=="]}
{"id": "C05", "title": "Division inverts multiplication", "statement": "If the constant coefficient of b is not zero then (a/b)*b == a, scalar/b times b equals the scalar, and a/s times s equals a.", "quantifier": "all gduals a,b with non-zero constant part of b, all orders", "why_tests_cant": "Depends on the interplay of the two orders and of the truncated geometric series for every degree.", "anchors": ["include/audi/gdual.hpp:div"]}
{"id": "C06", "title": "find_cf returns the Taylor coefficient or throws", "statement": "find_cf(m) returns the coefficient of the monomial m (0 if absent), throws invalid_argument exactly when the total degree of m exceeds the order or its length differs from the number of symbols.", "quantifier": "all gduals and all exponent vectors", "why_tests_cant": "Infinitely many exponent vectors and gduals.", "anchors": ["include/audi/gdual.hpp:find_cf", "include/audi/gdual.hpp:constant_cf"]}
{"id": "C07", "title": "get_derivative is the coefficient times the factorials, i.e. the iterated partial derivative", "statement": "get_derivative(m) equals m! times the coefficient of m and equals the constant coefficient of the gdual obtained by applying partial() m_i times for each symbol i, in any order.", "quantifier": "all gduals, all exponent vectors within the order, all orders of differentiation", "why_tests_cant": "Relates unboundedly many successive partial() calls to one look-up.", "anchors": ["include/audi/gdual.hpp:get_derivative", "include/audi/gdual.hpp:partial"]}
{"id": "C08", "title": "Dictionary form of get_derivative", "statement": "get_derivative(dict) does not depend on the iteration order of the unordered_map, agrees with the vector form with unmentioned symbols set to zero, and (documentation) throws invalid_argument if a symbol is not in the symbol set.", "quantifier": "all gduals, all dictionaries, all iteration orders", "why_tests_cant": "Hash iteration order is not under the control of a test; documentation claims a throw.", "anchors": ["include/audi/gdual.hpp:get_derivative(const std::unordered_map<std::string, unsigned> &)"]}
{"id": "C09", "title": "partial() is a derivation", "statement": "partial is linear, satisfies the Leibniz rule on every coefficient of degree below the order, mixed partials commute, the partial with respect to an absent symbol is zero, and a name starting with d (or empty) throws.", "quantifier": "all gduals, all variable names", "why_tests_cant": "Universally quantified algebraic laws.", "anchors": ["include/audi/gdual.hpp:partial"]}
{"id": "C10", "title": "integrate() is a right inverse of partial() up to the order", "statement": "partial_x(integrate_x(f)) has the same coefficients as f for every monomial of degree strictly below the order and none of higher degree; integrate_x(f) has no term independent of x; the order does not change.", "quantifier": "all gduals, all variable names (also absent from the symbol set)", "why_tests_cant": "Depends on the truncation boundary for all degrees.", "anchors": ["include/audi/gdual.hpp:integrate", "include/audi/gdual.hpp:partial"]}
{"id": "C11", "title": "subs with a value is evaluation in one variable", "statement": "For every assignment r of the symbols, evaluating f.subs(s,v) at r equals evaluating f at r with s set to v; the symbol set and order do not change.", "quantifier": "all gduals, symbols, values and assignments", "why_tests_cant": "Universal over polynomials and evaluation points.", "anchors": ["include/audi/gdual.hpp:subs(const std::string &, const T &)"]}
{"id": "C12", "title": "subs with a gdual is truncated composition", "statement": "f.subs(s,g) is the composition of the polynomials truncated at the order of f: all coefficients up to the order of f agree with those of the exact composition, none beyond; s disappears from the symbol set unless g brings it back.", "quantifier": "all gduals f,g, all symbols", "why_tests_cant": "Universal over polynomials; truncation boundary.", "anchors": ["include/audi/gdual.hpp:subs(const std::string &, const gdual &)"]}
{"id": "C13", "title": "trim removes exactly the small terms", "statement": "trim(eps) throws for eps<0, otherwise keeps exactly the terms with |c|>=eps unchanged; trim(0) is the identity, trim is idempotent, and on points of the unit box the value changes by at most eps times the number of removed terms.", "quantifier": "all gduals, all tolerances", "why_tests_cant": "Universal over polynomials and tolerances.", "anchors": ["include/audi/gdual.hpp:trim"]}
{"id": "C14", "title": "extract_terms partitions a gdual into homogeneous parts", "statement": "extract_terms(k) contains exactly the terms of total degree k, the sum over k=0..order of extract_terms(k) equals the gdual, k>order throws; (documentation) the order of the original gdual is preserved.", "quantifier": "all gduals, all k", "why_tests_cant": "Universal over gduals and degrees.", "anchors": ["include/audi/gdual.hpp:extract_terms"]}
{"id": "C15", "title": "evaluate is a homomorphism", "statement": "evaluate(a+b)=evaluate(a)+evaluate(b), evaluate(-a)=-evaluate(a), and evaluate(a*b)=evaluate(a)*evaluate(b) whenever degree(a)+degree(b) does not exceed the larger order; it throws when a symbol of the gdual is missing from the dictionary.", "quantifier": "all gduals and dictionaries", "why_tests_cant": "Universal over polynomials and points.", "anchors": ["include/audi/gdual.hpp:evaluate"]}
{"id": "C16", "title": "operator== compares polynomials", "statement": "a==b holds iff all coefficients agree, whatever the symbol sets and orders; it is an equivalence relation and +,-,* with equal-order operands respect it.", "quantifier": "all gduals", "why_tests_cant": "Relational laws over all pairs and triples.", "anchors": ["include/audi/gdual.hpp:operator==", "include/audi/gdual.hpp:operator!="]}
{"id": "C17", "title": "extend_symbol_set does not change the function", "statement": "After extend_symbol_set(S) all coefficients, evaluations and the order are unchanged, the symbol set is the sorted union, and a name in S not beginning with d throws leaving the gdual unchanged.", "quantifier": "all gduals, all lists of names", "why_tests_cant": "Universal; index shifts of all exponent vectors when a symbol is inserted in the middle.", "anchors": ["include/audi/gdual.hpp:extend_symbol_set", "include/audi/gdual.hpp:check_var_name_has_d"]}
{"id": "C18", "title": "Constructors validate and build value + variation", "statement": "gdual(v,name,order) throws iff order >= UINT_MAX-10 or the name is empty or starts with d; otherwise it has constant v, symbol set {name}, derivative 1 with respect to name when order>=1 and degree 0 when order is 0.", "quantifier": "all values, names, orders", "why_tests_cant": "Infinitely many names and orders.", "anchors": ["include/audi/gdual.hpp:gdual(const T &, const std::string &, unsigned)", "include/audi/gdual.hpp:check_order", "include/audi/gdual.hpp:check_var_name", "include/audi/gdual.hpp:get_symbol_set"]}
{"id": "C19", "title": "constant_cf never throws and ordering compares values", "statement": "constant_cf() succeeds for every gdual and equals its evaluation at zero variation; a<b, a>b compare these values and form a strict weak order.", "quantifier": "all gduals", "why_tests_cant": "Relies on the interplay of all checks in find_cf for every symbol-set size.", "anchors": ["include/audi/gdual.hpp:constant_cf", "include/audi/gdual.hpp:operator<", "include/audi/gdual.hpp:operator>"]}
{"id": "C20", "title": "is_zero(tol) detects non-negligible coefficients", "statement": "is_zero(tol) returns true iff every coefficient (every component of it, for vectorized coefficients) is at most tol in absolute value.", "quantifier": "all gduals and tolerances, scalar and vectorized coefficients", "why_tests_cant": "Universal over coefficient tables.", "anchors": ["include/audi/gdual.hpp:is_zero", "include/audi/vectorized.hpp:operator>"]}
{"id": "C21", "title": "End-to-end automatic differentiation", "statement": "For every expression built from variables, constants, + - * /, and the elementary functions, evaluating it on gduals of order m at a point of its domain never fails and get_derivative(alpha) equals the true partial derivative of the expression at that point, for every alpha with |alpha|<=m.", "quantifier": "all expression trees, all points of their domain, all orders, all multi-indices", "why_tests_cant": "Unbounded set of programs, points and orders; floating point tests compare a few digits of a few cases.", "anchors": ["include/audi/gdual.hpp", "include/audi/functions.hpp"]}
{"id": "C22", "title": "exp", "statement": "exp(d) is the Taylor expansion of the exponential of any function whose expansion is d.", "quantifier": "all functions, all orders, all expansion points", "why_tests_cant": "Infinitely many orders and functions.", "anchors": ["include/audi/functions.hpp:exp"]}
{"id": "C23", "title": "log", "statement": "log(d) is the Taylor expansion of the logarithm of any function with positive value whose expansion is d.", "quantifier": "all functions with positive value at the point, all orders", "why_tests_cant": "Infinitely many orders and functions.", "anchors": ["include/audi/functions.hpp:log"]}
{"id": "C24", "title": "pow overloads", "statement": "pow(d,alpha), pow(d,n), pow(base,d), pow(d1,d2) are the Taylor expansions of the corresponding power function on its domain, and the overloads agree with each other where they overlap.", "quantifier": "all bases, exponents (integer and not), orders", "why_tests_cant": "Branching on the exponent, all orders.", "anchors": ["include/audi/functions.hpp:pow", "include/audi/functions.hpp:binomial"]}
{"id": "C25", "title": "sqrt and cbrt", "statement": "sqrt(d) and cbrt(d) are the Taylor expansions of the roots; sqrt(d)*sqrt(d)==d and cbrt(d)^3==d.", "quantifier": "all gduals with admissible constant part, all orders", "why_tests_cant": "All orders and inputs.", "anchors": ["include/audi/functions.hpp:sqrt", "include/audi/functions.hpp:cbrt", "include/audi/functions.hpp:binomial"]}
{"id": "C26", "title": "sin, cos, sin_and_cos", "statement": "sin(d), cos(d) are the Taylor expansions of sine and cosine, sin_and_cos returns exactly the pair, and sin^2+cos^2==1.", "quantifier": "all functions, all orders (odd and even)", "why_tests_cant": "Even/odd loop bounds at every order.", "anchors": ["include/audi/functions.hpp:sin", "include/audi/functions.hpp:cos", "include/audi/functions.hpp:sin_and_cos"]}
{"id": "C27", "title": "sinh, cosh, sinh_and_cosh", "statement": "sinh(d), cosh(d) are the Taylor expansions of the hyperbolic functions, sinh_and_cosh returns exactly the pair, and cosh^2-sinh^2==1.", "quantifier": "all functions, all orders", "why_tests_cant": "Even/odd loop bounds at every order.", "anchors": ["include/audi/functions.hpp:sinh", "include/audi/functions.hpp:cosh", "include/audi/functions.hpp:sinh_and_cosh"]}
{"id": "C28", "title": "tan and tanh", "statement": "tan(d) and tanh(d) (computed from Bernoulli numbers and the addition theorem) are the Taylor expansions of tangent and hyperbolic tangent.", "quantifier": "all functions with admissible constant part, all orders", "why_tests_cant": "The Bernoulli coefficient formula has to hold at every order.", "anchors": ["include/audi/functions.hpp:tan", "include/audi/functions.hpp:tanh"]}
{"id": "C29", "title": "atan and atanh", "statement": "atan(d) and atanh(d) are the Taylor expansions of the inverse tangent and inverse hyperbolic tangent.", "quantifier": "all functions with admissible constant part, all orders", "why_tests_cant": "Closed form derivative sums at every order.", "anchors": ["include/audi/functions.hpp:atan", "include/audi/functions.hpp:atanh", "include/audi/functions.hpp:binomial"]}
{"id": "C30", "title": "asin, acos, asinh, acosh", "statement": "These compositions of log, sqrt, atan are the Taylor expansions of the corresponding inverse functions on the interior of their domains.", "quantifier": "all functions with admissible constant part, all orders", "why_tests_cant": "All orders and inputs; branch choices.", "anchors": ["include/audi/functions.hpp:asin", "include/audi/functions.hpp:acos", "include/audi/functions.hpp:asinh", "include/audi/functions.hpp:acosh"]}
{"id": "C31", "title": "Composition from a derivative", "statement": "_compose_from_derivative(f,dg,g0) returns the Taylor expansion of g(f) whenever dg expands g'(f) and g0=g(f0); hence erf and the atan_d, atanh_d, asin_d, acos_d, asinh_d, acosh_d variants are correct and agree with the direct versions.", "quantifier": "all functions, any number of variables, all orders", "why_tests_cant": "Any number of variables and orders.", "anchors": ["include/audi/functions_from_d.hpp:_compose_from_derivative", "include/audi/functions_from_d.hpp:erf", "include/audi/functions_from_d.hpp:atan_d"]}
{"id": "C32", "title": "abs", "statement": "abs(d) is the Taylor expansion of the absolute value whenever the constant part is not zero; for vectorized coefficients this holds separately for each component.", "quantifier": "all gduals with non-zero constant part, all coefficient sizes", "why_tests_cant": "All sizes of vectorized coefficients, including size-1 ones.", "anchors": ["include/audi/functions.hpp:abs"]}
{"id": "C33", "title": "atan is correct at every order in machine integers", "statement": "The coefficients of atan(d) are not affected by the 32 bit unsigned arithmetic used for the binomial coefficients.", "quantifier": "all orders", "why_tests_cant": "Fails only from some high order on.", "anchors": ["include/audi/functions.hpp:atan", "include/audi/functions.hpp:binomial"]}
{"id": "C34", "title": "Vectorized arithmetic is component-wise with broadcasting", "statement": "a+b, a-b, a*b, a/b on vectorized values equal the component-wise operation, a value of size 1 acting as a constant vector; sizes that are different and both larger than 1 throw invalid_argument; empty vectors cannot be built.", "quantifier": "all vectorized values of all sizes", "why_tests_cant": "All sizes and contents.", "anchors": ["include/audi/vectorized.hpp:operator+=", "include/audi/vectorized.hpp:operator-=", "include/audi/vectorized.hpp:operator*=", "include/audi/vectorized.hpp:operator/="]}
{"id": "C35", "title": "fma3 is ret + x*y with broadcasting", "statement": "fma3(ret,x,y) leaves in ret the component-wise ret+x*y under broadcasting, and throws invalid_argument if the sizes are incompatible.", "quantifier": "all triples of sizes and contents", "why_tests_cant": "27 size patterns times all contents.", "anchors": ["include/audi/vectorized.hpp:fma3"]}
{"id": "C36", "title": "Vectorized comparisons", "statement": "operator== is equality of the broadcast vectors, != its negation, a<b iff b>a, and == is an equivalence relation; the orders are compatible with broadcasting.", "quantifier": "all vectorized values", "why_tests_cant": "Relational laws over all sizes.", "anchors": ["include/audi/vectorized.hpp:operator==", "include/audi/vectorized.hpp:operator<", "include/audi/vectorized.hpp:operator>"]}
{"id": "C37", "title": "Vectorized gdual computes each component independently", "statement": "For every program of gdual operations and functions run on vectorized coefficients of common size n, component i of every resulting coefficient equals the coefficient obtained by running the same program on component i of the inputs.", "quantifier": "all programs, all n, all components", "why_tests_cant": "Unbounded programs and sizes.", "anchors": ["include/audi/vectorized.hpp", "include/audi/gdual.hpp", "include/audi/functions.hpp"]}
{"id": "C38", "title": "invert_map inverts", "statement": "If the linear part is invertible (|det| >= 1e-10), the composition of the map (without its constant part) with invert_map(map) is the identity up to the truncation order, in every dimension.", "quantifier": "all square gdual maps in every number of variables and every order", "why_tests_cant": "All dimensions, orders and maps.", "anchors": ["include/audi/invert_map.hpp:invert_map", "include/audi/invert_map.hpp:operator&"]}
{"id": "C39", "title": "invert_map names and size", "statement": "The inverse map is expressed in the variables p0..p(n-1), each component having all of them in its symbol set, for maps in any variable names and for any n.", "quantifier": "all maps, all variable names, all n", "why_tests_cant": "Names that collide and n >= 11 are not tested.", "anchors": ["include/audi/invert_map.hpp:invert_map"]}
{"id": "C40", "title": "invert_map rejects bad input", "statement": "invert_map throws invalid_argument for an empty map, a map with different symbol sets, a number of variables different from the map size, different orders, and throws for |det|<1e-10; otherwise it succeeds.", "quantifier": "all lists of gduals", "why_tests_cant": "All malformed inputs.", "anchors": ["include/audi/invert_map.hpp:invert_map"]}
{"id": "C41", "title": "generate_combinations enumerates", "statement": "generate_combinations(limits,cap) returns every exponent vector that is component-wise within the limits with sum at most the cap, exactly once and in lexicographic order.", "quantifier": "all limit vectors and caps", "why_tests_cant": "All dimensions and limits.", "anchors": ["include/audi/taylor_model_bounding.hpp:generate_combinations"]}
{"id": "C42", "title": "get_poly lists exactly the terms", "statement": "get_poly(g) returns the list of all (exponents, coefficient) of the non-zero terms of g, no more and no less; rebuilding the polynomial from it gives g back.", "quantifier": "all gduals with at least one symbol", "why_tests_cant": "All polynomials.", "anchors": ["include/audi/taylor_model_bounding.hpp:get_poly", "include/audi/taylor_model_bounding.hpp:get_ndim", "include/audi/taylor_model_bounding.hpp:get_max_degrees", "include/audi/taylor_model_bounding.hpp:get_coefficient"]}
{"id": "C43", "title": "binomial is the binomial coefficient", "statement": "The integer loop returns n choose k exactly for all 0<=k<=n and 0 outside, as long as no intermediate product overflows 64 bits.", "quantifier": "all n,k", "why_tests_cant": "All n,k; the intermediate division must be exact.", "anchors": ["include/audi/taylor_model_bounding.hpp:binomial", "include/audi/taylor_model_bounding.hpp:binom_product"]}
{"id": "C44", "title": "Change of variable matrices", "statement": "The matrices built for one dimension map the coefficients of p(x) to those of p(a+(b-a)t), also when a is zero, and the accumulated diagonal and Pascal matrices turn them into Bernstein coefficients.", "quantifier": "all degrees, all intervals", "why_tests_cant": "All degrees and intervals.", "anchors": ["include/audi/taylor_model_bounding.hpp:get_q_matrix", "include/audi/taylor_model_bounding.hpp:get_d_matrix", "include/audi/taylor_model_bounding.hpp:get_d_acc_matrix", "include/audi/taylor_model_bounding.hpp:get_lower_pascal_matrix", "include/audi/taylor_model_utilities.hpp:matmul", "include/audi/taylor_model_utilities.hpp:transpose"]}
{"id": "C45", "title": "Bernstein patch encloses the range", "statement": "For every polynomial and box, min and max of the Bernstein patch enclose all values of the polynomial over the box, in any number of variables, provided intervals are matched with the right variables.", "quantifier": "all polynomials, dimensions, boxes and points", "why_tests_cant": "All points of a box, all dimensions; the cyclic index arithmetic must be a bijection.", "anchors": ["include/audi/taylor_model_bounding.hpp:get_titi_bernstein_patch_ndim_generalbox", "include/audi/taylor_model_bounding.hpp:get_cycled_2d_array_vec", "include/audi/taylor_model_bounding.hpp:get_titi_base_lambda_generalbox", "include/audi/taylor_model_bounding.hpp:get_a_matrix_vec"]}
{"id": "C46", "title": "get_bounds does not depend on hash iteration order", "statement": "taylor_model::get_bounds returns an enclosure of the polynomial over the domain for every Taylor model, whatever the iteration order of the unordered_map holding the domain.", "quantifier": "all Taylor models, all hash iteration orders", "why_tests_cant": "Iteration order is implementation defined.", "anchors": ["include/audi/taylor_model.hpp:get_bounds", "include/audi/taylor_model_bounding.hpp:build_dim_to_var_map"]}
{"id": "C47", "title": "Constructing a Taylor model checks its ingredients", "statement": "The constructor throws iff the expansion point and domain do not have one entry for each variable, their keys differ, a point lies outside its interval; all reachable Taylor models satisfy this validity.", "quantifier": "all Taylor models and operation sequences", "why_tests_cant": "Infinite set of reachable objects.", "anchors": ["include/audi/taylor_model.hpp:check_input_validity", "include/audi/taylor_model.hpp:taylor_model", "include/audi/taylor_model.hpp:identity"]}
{"id": "C48", "title": "Taylor model addition and subtraction are sound", "statement": "If tm1 encloses f and tm2 encloses g on the (compatible) domains then tm1+tm2 encloses f+g and tm1-tm2 encloses f-g on the joint domain; likewise with scalars and intervals on either side.", "quantifier": "all Taylor models, functions, points", "why_tests_cant": "All functions and domain points.", "anchors": ["include/audi/taylor_model.hpp:add", "include/audi/taylor_model.hpp:sub", "include/audi/taylor_model.hpp:operator+", "include/audi/taylor_model.hpp:operator-"]}
{"id": "C49", "title": "Negation and scalar minus Taylor model are sound", "statement": "If tm encloses f then -tm encloses -f and s-tm encloses s-f.", "quantifier": "all Taylor models, scalars, functions", "why_tests_cant": "Only visible with asymmetric remainders.", "anchors": ["include/audi/taylor_model.hpp:sub", "include/audi/taylor_model.hpp:operator-"]}
{"id": "C50", "title": "Taylor model multiplication is sound", "statement": "If tm1 encloses f and tm2 encloses g then tm1*tm2 encloses f*g.", "quantifier": "all Taylor models, functions, points", "why_tests_cant": "All degrees, remainders and domains.", "anchors": ["include/audi/taylor_model.hpp:multiply", "include/audi/taylor_model.hpp:get_increased_order", "include/audi/taylor_model.hpp:get_bounds"]}
{"id": "C51", "title": "Operations between intervals and Taylor models are sound", "statement": "If tm encloses f and c lies in the interval J then J*tm, tm*J, J/tm, tm/J, J-tm enclose c*f, c/f, f/c, c-f.", "quantifier": "all intervals, Taylor models, functions", "why_tests_cant": "All intervals and functions.", "anchors": ["include/audi/taylor_model.hpp:multiply", "include/audi/taylor_model.hpp:div", "include/audi/taylor_model.hpp:sub"]}
{"id": "C52", "title": "Division of Taylor models is sound", "statement": "If tm encloses f and f does not vanish then s/tm encloses s/f and tm1/tm encloses f1/f.", "quantifier": "all Taylor models, scalars, functions", "why_tests_cant": "All orders, remainders.", "anchors": ["include/audi/taylor_model.hpp:div"]}
{"id": "C53", "title": "exp, log, sin, cos, sinh, cosh of a Taylor model are sound", "statement": "If tm encloses f then exp(tm) encloses exp f, and similarly for the other elementary functions.", "quantifier": "all Taylor models and functions", "why_tests_cant": "All polynomials, remainders and domain points.", "anchors": ["include/audi/taylor_model_functions.hpp:exp", "include/audi/taylor_model_functions.hpp:log", "include/audi/taylor_model_functions.hpp:sin", "include/audi/taylor_model_functions.hpp:cos", "include/audi/taylor_model_functions.hpp:sinh", "include/audi/taylor_model_functions.hpp:cosh"]}
{"id": "C54", "title": "pow and sqrt of a Taylor model are sound", "statement": "If tm encloses f then pow(tm,n) encloses f^n (also n=0) and sqrt(tm), pow(tm,-1/2) enclose the roots.", "quantifier": "all Taylor models, exponents", "why_tests_cant": "All exponents and remainders.", "anchors": ["include/audi/taylor_model_functions.hpp:pow", "include/audi/taylor_model_functions.hpp:sqrt"]}
{"id": "C55", "title": "Inverse trigonometric functions and abs of a Taylor model are sound", "statement": "If tm encloses f then asin, acos, atan, abs of tm enclose the function of f.", "quantifier": "all Taylor models in the domain", "why_tests_cant": "All orders and remainders.", "anchors": ["include/audi/taylor_model_functions.hpp:asin", "include/audi/taylor_model_functions.hpp:asin_derivative", "include/audi/taylor_model_functions.hpp:acos", "include/audi/taylor_model_functions.hpp:atan", "include/audi/taylor_model_functions.hpp:abs"]}
{"id": "C56", "title": "Taylor model equality", "statement": "operator== is reflexive and symmetric, != is its negation; interval and map comparison with tolerance are reflexive and symmetric and accept exactly equal data; transitivity is not guaranteed.", "quantifier": "all Taylor models, maps, tolerances", "why_tests_cant": "Relational laws.", "anchors": ["include/audi/taylor_model.hpp:operator==", "include/audi/taylor_model.hpp:interval_equal", "include/audi/taylor_model.hpp:map_equal", "include/audi/taylor_model.hpp:map_interval_equal"]}
{"id": "C57", "title": "Merging expansion points and domains", "statement": "get_common_map returns the union of the two maps, succeeds iff common keys agree within tolerance, and throws otherwise; trim_map keeps exactly the entries of the given symbols.", "quantifier": "all maps, all iteration orders", "why_tests_cant": "All key sets.", "anchors": ["include/audi/taylor_model.hpp:get_common_map", "include/audi/taylor_model.hpp:trim_map"]}
{"id": "C58", "title": "Extending symbol sets of a Taylor model keeps its meaning", "statement": "Extending a Taylor model with additional variables keeps it valid and the enclosed function unchanged, and on invalid input throws without changing the object.", "quantifier": "all Taylor models and extensions", "why_tests_cant": "Exception paths and all key sets.", "anchors": ["include/audi/taylor_model.hpp:extend_symbol_set", "include/audi/taylor_model.hpp:set_exp", "include/audi/taylor_model.hpp:set_dom"]}
{"id": "C59", "title": "Exact algebraic identities of truncated functions", "statement": "exp(a+b)==exp(a)*exp(b), log(exp(a))==a, exp(log(a))==a, tan==sin/cos, and similar identities hold exactly up to the truncation order.", "quantifier": "all gduals (equal orders) with admissible constants", "why_tests_cant": "Universal identities over all gduals.", "anchors": ["include/audi/functions.hpp"]}
{"id": "C60", "title": "Operators on maps", "statement": "The component-wise sum, difference and scalar multiples of gdual maps and their trimming act on each component, and composition of maps without shared variables is simultaneous substitution.", "quantifier": "all maps of the same size", "why_tests_cant": "All dimensions; sequential versus simultaneous substitution.", "anchors": ["include/audi/invert_map.hpp:operator&", "include/audi/invert_map.hpp:operator+", "include/audi/invert_map.hpp:operator-", "include/audi/invert_map.hpp:operator*", "include/audi/invert_map.hpp:trim"]}
{"id": "C61", "title": "Bernstein bounds are exact for multilinear polynomials", "statement": "The Bernstein patch contains the value of the polynomial at each corner of the box; for polynomials of degree at most 1 in each variable all its entries are such values, so the bounds are attained.", "quantifier": "all polynomials, boxes, dimensions", "why_tests_cant": "All dimensions and boxes; tightness of the bounds is a universal statement about corners.", "anchors": ["include/audi/taylor_model_bounding.hpp:get_titi_bernstein_patch_ndim_generalbox"]}
{"id": "C62", "title": "Bounds are at least as tight as interval arithmetic", "statement": "The bounds of a polynomial over a box that are computed from Bernstein coefficients lie within the interval that term-by-term interval arithmetic gives, and are in absolute value at most the sum of the absolute values of the terms taken at the largest distances from the expansion point.", "quantifier": "all polynomials, boxes, dimensions", "why_tests_cant": "Tests compare widths on a few polynomials; the claim is an inequality for every polynomial, box and dimension.", "anchors": ["include/audi/taylor_model_bounding.hpp:get_titi_bernstein_patch_ndim_generalbox", "include/audi/taylor_model.hpp:get_bounds"]}
{"id": "C63", "title": "Composed functions of Taylor models enclose", "statement": "tan, tanh, asinh, acosh and atanh of a Taylor model enclose the function of every function that the argument encloses; their polynomial parts are the Taylor polynomials of the composition.", "quantifier": "all Taylor models in the domain of the function, all orders", "why_tests_cant": "Tests sample a few models and points; the enclosure is claimed at every point of the domain and for every function within the remainder.", "anchors": ["include/audi/taylor_model_functions.hpp:tan", "include/audi/taylor_model_functions.hpp:tanh", "include/audi/taylor_model_functions.hpp:asinh", "include/audi/taylor_model_functions.hpp:acosh", "include/audi/taylor_model_functions.hpp:atanh"]}
{"id": "C64", "title": "Taylor models carry the polynomial of the gdual", "statement": "When an expression of named variables, numbers, the four operations, powers and elementary functions is evaluated on Taylor models and the evaluation returns, the polynomial part of the result equals the gdual which the same expression gives on gduals of the same order at the same point, and the point is in the domain of the expression.", "quantifier": "all expressions, expansion points, domains, orders and iteration orders of the internal map", "why_tests_cant": "Tests compare a few fixed expressions; the claim is for every composition of operations, and errors in one operation show up only in combinations (e.g. orders of intermediate results).", "anchors": ["include/audi/taylor_model.hpp:multiply", "include/audi/taylor_model.hpp:div", "include/audi/taylor_model_functions.hpp:pow"]}
{"id": "C65", "title": "Expressions of Taylor models enclose the value at the expansion point", "statement": "When an expression is evaluated on Taylor models whose remainders contain 0 and the evaluation returns, the result is well formed, its expansion points and intervals are those of the variables, and the value of the expression at the expansion point lies in the enclosure.", "quantifier": "all expressions, expansion points, domains, orders and iteration orders of the internal map", "why_tests_cant": "It is an invariant over all compositions of operations; tests cover a finite number of them.", "anchors": ["include/audi/taylor_model.hpp:taylor_model", "include/audi/taylor_model_functions.hpp:sqrt", "include/audi/taylor_model_functions.hpp:tan"]}
{"id": "C66", "title": "Expressions of Taylor models enclose over the whole domain", "statement": "The value of an expression of Taylor models encloses the expression over the whole box of the variables: at each point, for all values which the Taylor models of the variables allow there, the result allows the value of the expression.", "quantifier": "all expressions, points of the domain, values of the variables within their remainders", "why_tests_cant": "The claim quantifies over all expressions and a continuum of points and remainders; tests sample some points of some expressions.", "anchors": ["include/audi/taylor_model.hpp:multiply", "include/audi/taylor_model.hpp:add", "include/audi/taylor_model_functions.hpp:exp"]}
{"id": "C67", "title": "Rounding errors of the arithmetic of gduals", "statement": "With floating point coefficients, each coefficient of a sum or difference is the exact sum or difference rounded once, negation is exact, and each coefficient of a product differs from the exact one by at most (1 + u)^N - 1 times the sum of the absolute values of its N products; coefficients above the order are zero.", "quantifier": "all valid gduals with floating point coefficients, all monomials, all formats that meet the standard model of rounding", "why_tests_cant": "Tests compare some coefficients with a tolerance; a bound of the error for all operands and formats needs a proof about each rounding.", "anchors": ["include/audi/gdual.hpp:add", "include/audi/gdual.hpp:sub", "include/audi/gdual.hpp:mul"]}
{"id": "C68", "title": "Rounding errors of derivatives", "statement": "The derivatives of all orders read from a gdual computed with floating point arithmetic (sums, differences, products, division by numbers) differ from the exact derivatives of the function by at most (1 + u)^k - 1 times the same derivative of the expression with absolute values, k being a count of roundings which depends on the expression and the order of the derivative only.", "quantifier": "all arithmetic expressions, floating point values of the variables, orders, derivatives, formats", "why_tests_cant": "Tests compare with a fixed tolerance at sample points; the bound must hold for all expressions and values.", "anchors": ["include/audi/gdual.hpp:get_derivative", "include/audi/gdual.hpp:constant_cf", "include/audi/gdual.hpp:mul"]}
{"id": "C69", "title": "Taylor models enclose in spite of rounding", "statement": "Adding a number to a Taylor model, or subtracting a number from it, gives a Taylor model that encloses the sum or difference also when the coefficients of its polynomial are rounded.", "quantifier": "all Taylor models with floating point data, all numbers, all points of the domain, all formats", "why_tests_cant": "Rounding errors are far below the remainders of the samples used in tests, so that a missing contribution is not seen.", "anchors": ["include/audi/taylor_model.hpp:add", "include/audi/taylor_model.hpp:sub"]}
{"id": "C70", "title": "Programs with branches and loops", "statement": "A program written for a generic number type, with assignments, compound assignments, branches and loops whose conditions compare values, can be run on gduals: it takes the same path as on the values, and the value and all derivatives up to the order read from its variables are those of the function the program computes on real numbers.", "quantifier": "all programs, values of the arguments, orders, derivatives", "why_tests_cant": "Tests run a few fixed loops; the claim is about every program, and the failures (ties, ==, branches on vectorized values) need particular values.", "anchors": ["include/audi/gdual.hpp:operator<", "include/audi/gdual.hpp:operator>", "include/audi/gdual.hpp:operator==", "include/audi/gdual.hpp:operator+="]}
{"id": "C71", "title": "tan and tanh in quadruple precision", "statement": "The versions of tan and tanh for quadruple precision compute the Taylor expansions of the tangent and the hyperbolic tangent at every order, and agree with the generic versions.", "quantifier": "all gduals, orders, expansion points", "why_tests_cant": "Two different algorithms (quotients, Bernoulli numbers) must agree at every order and point.", "anchors": ["include/audi/functions.hpp:tan", "include/audi/functions.hpp:tanh"]}
{"id": "C72", "title": "Functions added by the Python module", "statement": "log10, log2, log1p, expm1 and erfc of the Python module compute the Taylor expansions of the functions they are named after, for all values in their domain and not finite outside; log1p and expm1 are inverse to each other, and powers of 10 and 2 invert log10 and log2. The documentation strings describe the functions computed.", "quantifier": "all gduals, orders, expansion points", "why_tests_cant": "The identities have to hold for all coefficients and orders; tests sample a few polynomials.", "anchors": ["pyaudi/expose_gdual.hpp:log10", "pyaudi/expose_gdual.hpp:log1p", "pyaudi/expose_gdual.hpp:expm1", "pyaudi/expose_gdual.hpp:erfc"]}
{"id": "C73", "title": "Vectorized coefficients and numbers", "statement": "Operations of a vectorized and a number act on each component with that number, keep the size and never throw; comparisons with a number hold iff they hold for every component; v /= s divides all components by s, also if s is a reference to a component of v; writing to a stream shows the components, or the first five and dots.", "quantifier": "all vectorized values, numbers, sizes", "why_tests_cant": "Tests use a few sizes and never pass a reference to a component.", "anchors": ["include/audi/vectorized.hpp:operator+", "include/audi/vectorized.hpp:operator/=", "include/audi/vectorized.hpp:operator<", "include/audi/vectorized.hpp:operator<<"]}
{"id": "C74", "title": "Conversions of the Python module", "statement": "A list of numbers passed from Python to a vectorized and back is not changed; lists which cannot be a vectorized (the empty list) are rejected as in C++; the result of evaluate does not depend on the order of the entries of the dictionary passed from Python.", "quantifier": "all lists, dictionaries, gduals", "why_tests_cant": "Tests use a few lists and dictionaries, never the empty list.", "anchors": ["pyaudi/common_utils.hpp:type_caster", "pyaudi/common_utils.hpp:py_dict_to_obake_sm", "pyaudi/expose_gdual.hpp:evaluate"]}
{"id": "C75", "title": "Complex coefficients", "statement": "With complex coefficients (gdual_c) the operators and exp, log, sin, cos, tan, sinh, cosh, tanh, atanh and pow compute Taylor expansions of the principal branches wherever these are holomorphic, and get_derivative on a composed expression returns the complex partial derivatives of the function. log and pow at a constant part on the branch cut give the branch through the principal value.", "quantifier": "all valid gduals with complex coefficients, all orders, all expressions, all points of the domains", "why_tests_cant": "No test instantiates gdual with complex coefficients; branches matter at uncountably many points.", "anchors": ["include/audi/audi.hpp:gdual_c", "include/audi/functions.hpp:exp", "include/audi/functions.hpp:log", "include/audi/functions.hpp:pow", "include/audi/functions.hpp:atanh", "include/audi/detail/overloads.hpp:ARITH_OR_COMPLEX_OVERLOAD"]}
{"id": "C76", "title": "Identities of the complex functions", "statement": "With complex coefficients: exp(log(d)) == d and pow(d, 1/n)^n == d for every constant part other than zero (also on the branch cut), exp(i d) == cos(d) + i sin(d), cosh(d) == cos(i d), i sinh(d) == sin(i d), and log(exp(d)) == d.", "quantifier": "all valid gduals with complex coefficients, all orders", "why_tests_cant": "The identities must hold for every coefficient and order, in particular on the branch cut.", "anchors": ["include/audi/audi.hpp:gdual_c", "include/audi/functions.hpp:exp", "include/audi/functions.hpp:log", "include/audi/functions.hpp:pow", "include/audi/functions.hpp:sin"]}
{"id": "C77", "title": "The expansion approximates the function", "statement": "Let an expression be evaluated on gduals of order m. The polynomial of the result, evaluated with evaluate at displacements of size at most rho, differs from the value of the function at the displaced point by o(rho^m), and by O(rho^(m+1)), as rho goes to 0. This holds for real, vectorized and complex coefficients.", "quantifier": "all expressions of operators and functions, all points in the domain, all orders, all displacements near 0", "why_tests_cant": "A statement about a limit, over all points, displacements and orders; a test compares finitely many values with a tolerance.", "anchors": ["include/audi/gdual.hpp:evaluate", "include/audi/functions.hpp"]}
{"id": "C78", "title": "Symbols of a result", "statement": "The symbol set of the result of an operator is the union of the symbol sets of the operands, functions keep the symbol set of the argument, and the symbol set of a composed expression consists of exactly d followed by the names of the variables that occur in it (so that evaluate and the derivative dictionaries accept exactly these names).", "quantifier": "all gduals, all expressions, all orders", "why_tests_cant": "Symbols may be dropped on particular paths (constant arguments, order 0, zero coefficients) of any composition of functions.", "anchors": ["include/audi/gdual.hpp:get_symbol_set", "include/audi/gdual.hpp:operator+", "include/audi/functions.hpp:atan", "include/audi/functions.hpp:pow"]}
{"id": "C79", "title": "Differential equations by Picard iteration", "statement": "For the equations y' = f(t, y), with t, initial values and parameters given as gduals of order m, the iteration y := y0 + integrate(f(t, y), t) does not throw, and after k rounds the derivatives up to degree min(k, m) read from y are the derivatives of the solution, with respect to time, initial values and parameters.", "quantifier": "all right hand sides built from the operators and functions, all initial values in the domain, all orders, all numbers of rounds", "why_tests_cant": "Correctness of every coefficient for every equation and every order; needs the interplay of integrate, truncation and orders with all functions.", "anchors": ["include/audi/gdual.hpp:integrate", "include/audi/gdual.hpp:operator+", "include/audi/gdual.hpp:get_derivative"]}
{"id": "C80", "title": "Rules of differentiation", "statement": "partial of a computed expression agrees with the expression obtained by the rules of differentiation (sum, product, quotient, chain rule, and the derivative of each function), computed on the same gduals, in every term of degree up to the order minus the number of differentiations; in particular the derivative can be computed either way.", "quantifier": "all expressions of the operators and functions, all points of the domain, all lists of variables, all orders", "why_tests_cant": "Relates partial with every function and operator at every order and for every composition; the terms of the top degree do not agree, which samples of low order hide.", "anchors": ["include/audi/gdual.hpp:partial", "include/audi/gdual.hpp:extract_terms", "include/audi/functions.hpp:exp", "include/audi/functions.hpp:tan"]}
{"id": "C81", "title": "Rounding errors of the functions", "statement": "With coefficients in a floating point format of unit roundoff u, every coefficient of exp, log, sqrt, cbrt, sin, cos, sin_and_cos, sinh, cosh, sinh_and_cosh of a gdual, of a quotient of gduals and of a number divided by a gdual differs from the coefficient of the exact Taylor expansion by at most (1+u)^k - 1 times the coefficient of the expansion with absolute values, where k depends only on the order of the gdual, on the degree of the coefficient and on the accuracy of the function of the standard library.", "quantifier": "all floating point formats (relative error u <= 1/2), all gduals of any number of variables and any order, all libraries of a given accuracy", "why_tests_cant": "An error bound for all inputs and all orders; tests compare samples with a fixed tolerance.", "anchors": ["include/audi/functions.hpp:exp", "include/audi/functions.hpp:log", "include/audi/functions.hpp:sqrt", "include/audi/functions.hpp:sin_and_cos", "include/audi/functions.hpp:sinh_and_cosh", "include/audi/gdual.hpp:operator/"]}
{"id": "C82", "title": "Number of terms", "statement": "A gdual obtained with the operations of the class has at most binomial(n + m, m) terms, n being the number of its symbols and m its order, however many operations were performed; the bound is attained for every number of variables and every order by exp(x1 + ... + xn).", "quantifier": "all sequences of operations, all numbers of variables, all orders, all coefficient types", "why_tests_cant": "A bound of the memory and of the cost over all computations; tests look at single gduals.", "anchors": ["include/audi/gdual.hpp:_container", "include/audi/gdual.hpp:get_symbol_set_size", "include/audi/gdual.hpp:get_order"]}
{"id": "C83", "title": "Implicit functions and Newton's method", "statement": "Let y = psi(p) be a smooth solution of F(y, p) = 0. If the parameters are gdual variables of order m and y starts as the number psi(p0), then k rounds of y := y - F(y, p) / c, where c is the derivative of F with respect to y at p0, give all the derivatives of psi of degree at most min(k, m), and k rounds of Newton's method y := y - F(y, p) / D(y, p), where D is the derivative of F with respect to y, give all the derivatives of degree at most min(2^k - 1, m). More generally this holds for systems of fixed point equations y = f(y, p) whose derivatives with respect to the unknowns vanish at p0, or along the solution.", "quantifier": "all expressions, all orders, all numbers of unknowns, parameters and rounds, vectorized coefficients included", "why_tests_cant": "The order of convergence for all equations and all orders cannot be inferred from the equations solved in a test.", "anchors": ["include/audi/gdual.hpp:operator-", "include/audi/gdual.hpp:operator/", "include/audi/gdual.hpp:get_derivative", "include/audi/functions.hpp:exp"]}
{"id": "C84", "title": "invert_map and the local inverse function", "statement": "Let n functions of n variables be computed with gduals at a point where their Jacobian determinant is at least 1e-10 in absolute value. Then invert_map of the computed gduals returns gduals whose derivatives with respect to p0, p1, ... up to the order are those of the local inverse function.", "quantifier": "all expressions, all points, all orders, up to 10 variables (any number at order 1)", "why_tests_cant": "Tests check that the composition of a few maps with their inverse is the identity; that the derivatives are those of the inverse function holds for all functions only by a proof.", "anchors": ["include/audi/invert_map.hpp:invert_map", "include/audi/gdual.hpp:get_derivative"]}
{"id": "C85", "title": "Errors of derivatives are proportional to the unit roundoff", "statement": "Let an expression be evaluated on gduals whose numbers, operations and library functions are rounded. At every point of the domain of the expression there is a constant K such that all arithmetics that are precise enough give a result, and all derivatives read from it with get_derivative differ from the exact derivatives of the real function by at most K times the unit roundoff. In particular the derivatives computed with correct rounding to p binary digits tend to the exact derivatives as p grows, with errors of the size of 2^-p.", "quantifier": "all expressions, all points of the domain, all orders, all derivatives, all roundings and libraries of sufficient precision", "why_tests_cant": "A test compares a few derivatives at one precision with an ad hoc tolerance; that the algorithms have no discontinuity (a branch on a coefficient, a cancellation to a wrong constant) at any point of the domain is a limit statement.", "anchors": ["include/audi/gdual.hpp:operator/", "include/audi/gdual.hpp:get_derivative", "include/audi/functions.hpp:tan", "include/audi/functions.hpp:atan", "include/audi/functions.hpp:pow"]}
{"id": "C86", "title": "Coefficient access with machine integers", "statement": "find_cf, get_derivative and constant_cf take exponents of type int or unsigned. For all exponents: a returned value is the coefficient (times the product of the factorials) of exactly the requested monomial, exponents beyond the truncation order or of the wrong number give std::invalid_argument, and every derivative within the order is returned. Sums, factorials and keys of limited size never turn a request for one monomial into the value of another one.", "quantifier": "all gduals, all lists of int or unsigned exponents (including negative and huge ones), all limits of the exponents of a key", "why_tests_cant": "Tests ask for small exponents. Wrap around of the unsigned sum, the limit 170 of the factorial in double precision and the overflow of the product of factorials need inputs that no test contains.", "anchors": ["include/audi/gdual.hpp:find_cf", "include/audi/gdual.hpp:get_derivative", "include/audi/gdual.hpp:constant_cf"]}
{"id": "C87", "title": "Bounds get tighter when the domain shrinks", "statement": "Computing the bounds of the same Taylor polynomial over a part of the domain never gives wider bounds (so splitting the domain never hurts), and the bounds exceed the true range of the polynomial by at most a constant times the square of the width of the domain, with a constant that does not depend on the domain.", "quantifier": "all Taylor polynomials of any order in any number of variables, all domains and all boxes inside them", "why_tests_cant": "Tests compare the bounds of a few polynomials over a few boxes with known numbers. That no polynomial and no pair of nested boxes violates the inclusion, and that one constant serves for all boxes, are statements about infinitely many pairs of calls.", "anchors": ["include/audi/taylor_model.hpp:get_bounds", "include/audi/taylor_model_bounding.hpp:get_titi_bernstein_patch_ndim_generalbox"]}
{"id": "C88", "title": "Taylor models over a part of the domain", "statement": "Evaluating the same expression on Taylor models over a part of the domain, with remainders of the variables inside the old ones, returns a result whenever the evaluation over the domain does (it never meets a division by zero, a logarithm or a root that the larger domain avoids); the polynomial is the same, the remainder lies in the old remainder, and so do the bounds plus remainder. Splitting a domain never makes an enclosure worse.", "quantifier": "all expressions, orders, expansion points, domains and boxes inside them that contain the expansion point, all remainders of the variables", "why_tests_cant": "A test evaluates one function over one or two boxes. That the inclusion holds for every composition of operations and every pair of nested boxes is a statement about infinitely many pairs of evaluations.", "anchors": ["include/audi/taylor_model.hpp", "include/audi/taylor_model_functions.hpp", "include/audi/taylor_model_bounding.hpp"]}
{"id": "C89", "title": "Order of convergence of Taylor models", "statement": "The remainder of the Taylor model of an expression over a box within distance h of the expansion point is at most C h^(m+1), m being the order, with one constant C for all boxes inside a domain over which the evaluation returns; and the interval of bounds plus remainder exceeds the values of the Taylor polynomial over the box by at most C h^2. Near the expansion point the same interval contains the values of the expression up to C h^(m+1), and exceeds values of the expression by at most C h^2.", "quantifier": "all expressions, orders, expansion points, domains over which the evaluation returns, and all boxes inside them around the expansion point", "why_tests_cant": "An order of convergence is a statement about a limit: one constant for all boxes. A test measures a few boxes of one function, down to sizes where rounding errors hide the remainder.", "anchors": ["include/audi/taylor_model.hpp", "include/audi/taylor_model_functions.hpp", "include/audi/taylor_model_bounding.hpp"]}
{"id": "C90", "title": "Bounds of Taylor polynomials with floating point arithmetic", "statement": "The bounds that get_bounds computes in floating point arithmetic contain all values of the polynomial over the domain. Where they do not, they miss by no more than a multiple of the unit roundoff times the sum of the absolute values of the terms, the multiple depending only on the number of variables and the order.", "quantifier": "all polynomials, expansion points and domains, and all roundings that keep the order of numbers and have a relative error of at most u", "why_tests_cant": "A test compares a few polynomials with a tolerance chosen by its author. Whether the rounding errors of several matrix products can push a bound inside the range of the polynomial, and how far, is a statement about all polynomials and all roundings of intermediate results.", "anchors": ["include/audi/taylor_model.hpp", "include/audi/taylor_model_bounding.hpp"]}
{"id": "C91", "title": "Expansions of increasing order", "statement": "Raising the truncation order improves the expansion geometrically: around every point of the domain of a computation there are a radius r and a constant K, the same for all orders m, such that the error of the expansion of order m at displacements of size rho < r is at most K (rho / r)^(m+1). With complex coefficients, if M bounds the function on the polydisc of radius R, the error is at most M (rho / R)^(m+1) / (1 - rho / R), the coefficients are at most M / R^|k|, and the derivatives at most M k! / R^|k|.", "quantifier": "all expressions, points of their domain, orders and displacements", "why_tests_cant": "A test compares expansions of a few orders at a few displacements. Convergence is a statement about all orders at once with one constant, and about a whole neighbourhood of the expansion point.", "anchors": ["include/audi/gdual.hpp", "include/audi/functions.hpp", "include/audi/functions_from_d.hpp"]}
{"id": "C92", "title": "The order changes no coefficient below it", "statement": "Computing at a larger truncation order only adds terms: the derivatives up to order m read from a computation with variables of order n >= m are those of the same computation with variables of order m, and truncating the arguments gives the truncated result.", "quantifier": "all expressions, stores of gduals in the domain of the expression, orders m <= n", "why_tests_cant": "A test compares two orders for one expression. Users raise the order and rely on the lower coefficients staying what they were for every expression and every pair of orders, also those where single coefficients are wrong (atan above 30).", "anchors": ["include/audi/gdual.hpp", "include/audi/functions.hpp"]}
{"id": "C93", "title": "Names of symbols do not matter", "statement": "If the symbols of the arguments are renamed by an injective function (in any way, so that their lexicographic order may change), the result of a computation is the same with the symbols renamed, and get_derivative by dictionary returns the same numbers for the renamed dictionary.", "quantifier": "all expressions, stores of gduals in the domain of the expression, injective renamings", "why_tests_cant": "Symbols are kept in sorted lists and exponents are merged by position; a test can only try some names, while the statement is about all permutations of all symbol sets.", "anchors": ["include/audi/gdual.hpp", "include/audi/functions.hpp"]}
{"id": "C94", "title": "Functions commute with substitution", "statement": "For a gdual g without constant term, evaluating an expression and then substituting g for a symbol of the result gives the gdual that is obtained by substituting g in the arguments and then evaluating. The same holds for the substitution of the number 0. It does not hold for g with constant term.", "quantifier": "all expressions, stores of gduals in the domain of the expression, symbols, gduals g of any order and symbol set without constant term", "why_tests_cant": "subs, the truncated products and the series of each function are separate loops; that they commute is a statement about all their compositions.", "anchors": ["include/audi/gdual.hpp", "include/audi/functions.hpp"]}
{"id": "C95", "title": "inf and NaN in a coefficient do not disappear", "statement": "If a coefficient of a gdual is NaN (or: inf or NaN), it still is in sums, differences and opposites, in scaled gduals (by a number other than 0), in products (at the products of its monomial with those of the other factor, within the order), derivatives, primitives, after substitution of numbers and after trim; and find_cf, get_derivative and evaluate return NaN (inf or NaN).", "quantifier": "all valid gduals, all monomials, all floating point formats with overflow and underflow (double is one)", "why_tests_cant": "Users detect failed computations by testing the final result for NaN; that no operation can hide one is a statement about all gduals and all positions of the NaN.", "anchors": ["include/audi/gdual.hpp"]}
{"id": "C96", "title": "inf and NaN in quotients", "statement": "Quotients keep the inf and NaN coefficients of the numerator and those of the denominator; if the constant coefficient of the denominator is NaN, or zero, all the monomials of the numerator get NaN, or inf or NaN, coefficients.", "quantifier": "all valid gduals with inf and NaN coefficients, all formats", "why_tests_cant": "The quotient is a truncated geometric series multiplied by 1/p0; whether special values survive depends on cancellations over all orders and symbol sets. Tests of division by zero are rare and look at one case.", "anchors": ["include/audi/gdual.hpp"]}
{"id": "C97", "title": "Comparisons with NaN, constants as numbers", "statement": "A gdual with a NaN coefficient is different from every gdual, < and > with a NaN constant coefficient are false, is_zero is false for a gdual with a NaN coefficient. Constant gduals are added, subtracted, multiplied and divided as the numbers they hold, with rounding, overflow, inf and NaN.", "quantifier": "all valid gduals, all values of the coefficient type", "why_tests_cant": "Generic code is run with double and with gdual and is expected to take the same branches and give the same constants for all values.", "anchors": ["include/audi/gdual.hpp"]}
{"id": "C98", "title": "The exact model is right about inf and NaN", "statement": "Without rounding, a computation with numbers, inf and NaN as coefficients, following the code line by line, gives exactly the result of the exact model if that gives one, and gives a result with an inf or NaN coefficient if the exact model reports a non finite outcome.", "quantifier": "all valid gduals with rational coefficients; operators, division, calculus, substitution of numbers, evaluation", "why_tests_cant": "This is a statement about the model in which the other properties are proved: it justifies that they do not consider special values.", "anchors": ["include/audi/gdual.hpp"]}
{"id": "C99", "title": "Values and branches are those of the program run on double", "statement": "The constant coefficients of a computation with gdual<double> are, bit for bit, the results of the same program run on double with the same C library, so that it also takes the same branches.", "quantifier": "all programs (assignments, branches, loops), all inputs, all truncation orders, all floating point formats and all C libraries, as long as the values are numbers", "why_tests_cant": "Generic code is run with double and with gdual; users expect that switching the type does not change results or decisions. A test compares one program on few inputs, mostly up to a tolerance.", "anchors": ["include/audi/gdual.hpp", "include/audi/functions.hpp", "include/audi/functions_from_d.hpp"]}
{"id": "C100", "title": "Functions at and outside of the boundary of their domain", "statement": "Where the value, or the derivative, of a function does not exist or is infinite, or the argument holds NaN, this shows in the result as inf or NaN; elsewhere functions keep special coefficients. No function throws for such values.", "quantifier": "all valid gduals with inf and NaN coefficients, all formats, all C libraries that follow C17 F.10", "why_tests_cant": "The boundary values (sqrt at 0, asin at 1, acosh at 1) have to be guessed, and the outcome depends on cancellations of zeros and infinities in the series at all orders.", "anchors": ["include/audi/gdual.hpp", "include/audi/functions.hpp", "include/audi/functions_from_d.hpp"]}
{"id": "C101", "title": "Setters of Taylor models", "statement": "A Taylor model that is changed through its setters and extend_symbol_set satisfies, after each call that returns, what the constructor checks, each part is the one set last, and the number of variables and the order are those of the polynomial. A setter that throws leaves the Taylor model as it was.", "quantifier": "all Taylor models, all sequences of calls, with exceptions caught after each call", "why_tests_cant": "The setters change one part at a time and compare it with the others; what the object is after a mixture of calls that return and calls that throw depends on the history, of which there are infinitely many.", "anchors": ["include/audi/taylor_model.hpp"]}
{"id": "C102", "title": "What Python variables refer to", "statement": "The polynomial and the remainder that a Python program reads from a Taylor model (tpol, rem_bound) are values: they do not change when the Taylor model is changed later, and working with them does not change the Taylor model.", "quantifier": "all Python programs made of calls of functions, assignments, reading and setting properties, and extend_symbol_set", "why_tests_cant": "Whether a property returns a copy or a reference to a member shows only if the same object is changed later through another name; tests read a property and compare it at once.", "anchors": ["pyaudi/expose_taylor_model.hpp", "pyaudi/expose_gdual.hpp", "include/audi/taylor_model.hpp"]}
{"id": "C103", "title": "Rounding errors of evaluate, partial, integrate and subs", "statement": "In floating point arithmetic, evaluate returns the value of the polynomial up to a relative error (with respect to the sum of the absolute values of the terms) that is proportional to the unit roundoff and grows with the order and the number of terms; each coefficient of partial and integrate is the exact one rounded; a coefficient of subs with a number is off by a few roundings. So evaluating a computed Taylor polynomial gives the value of the exact one up to the errors of both.", "quantifier": "all gduals, all points, all monomials, all formats (rounding functions without overflow and underflow); all arithmetic expressions for the combination", "why_tests_cant": "A test compares with a tolerance at some points; it cannot bound the error for all polynomials, points and formats.", "anchors": ["include/audi/gdual.hpp:393-400", "include/audi/gdual.hpp:416-422", "include/audi/gdual.hpp:431-436", "include/audi/gdual.hpp:512-515"]}
{"id": "C104", "title": "Error bounds for computations on double", "statement": "Derivatives and values of arithmetic expressions computed with gdual<double> in IEEE binary64 arithmetic obey the error bound of the standard model with unit roundoff 2^-53, as long as no result overflows or underflows (which a program can find out from the floating point exception flags); the coefficients are then zero or normal numbers. Without that condition the bound does not hold.", "quantifier": "all expressions of +, -, *, unary minus and division by numbers, all values of the variables, all orders below the limit, all derivatives up to the order, all points", "why_tests_cant": "A test sees a few expressions and tolerances; the bound is for all of them, and an underflow inside a product of polynomials is not visible in the result.", "anchors": ["include/audi/gdual.hpp:98-104", "include/audi/gdual.hpp:184-208", "include/audi/gdual.hpp:512-515", "include/audi/gdual.hpp:628-662"]}
{"id": "C105", "title": "Archives and pickles give back the same gdual", "statement": "A gdual (with double or vectorized coefficients) that is written to a Boost text archive and read again, or pickled and unpickled in Python, is the same object: symbols, terms, order, and each coefficient to the last bit; several gduals in one archive do not disturb each other. (Fails for gduals with an infinite or NaN coefficient: they can be written, but reading throws.)", "quantifier": "all gduals, all doubles (normal, subnormal, zero), all symbol names, all orders, all sizes of vectorized coefficients, all sequences of gduals", "why_tests_cant": "The test of the repository writes one polynomial with small integer coefficients; whether the decimal digits that are written determine every double, and whether names and numbers of any form are separated correctly, is a question about all of them.", "anchors": ["include/audi/gdual.hpp:995-1000", "include/audi/vectorized.hpp:238-242", "pyaudi/expose_gdual.hpp:83-100"]}
{"id": "C106", "title": "Polynomial computations with integers have no rounding errors", "statement": "If an expression of +, -, * and unary minus with integer constants is evaluated on gdual<double> variables at integer values, and the number obtained by replacing each constant c with max(1,|c|), each variable with its absolute value plus one, and differences with sums, is at most 2^53, then all coefficients of the result are exact integers, every derivative (as long as the factorials do not lift the bound over 2^53) equals the derivative of the real function exactly, and evaluate at integers is exact.", "quantifier": "all expressions, all integer values of the variables, all orders, all derivatives, on IEEE binary64", "why_tests_cant": "The tests of the repository compare polynomial results with == and rely on this without saying when it is true; that no intermediate sum or product of any such expression is rounded cannot be seen from examples.", "anchors": ["include/audi/gdual.hpp:160-217", "include/audi/gdual.hpp:512-515", "include/audi/gdual.hpp:628-636"]}
{"id": "C107", "title": "Python functions written for numbers work for gduals", "statement": "A Python function built from +, -, *, /, **, unary minus and the functions of the module can be called with any mixture of numbers and gdual_double variables: whatever operand is found at run time to be a number or a gdual, no TypeError is raised, the result is the number if no gdual is involved, and otherwise a gdual whose derivatives are those of the function with respect to the arguments that are gduals. Comparisons have the outcome that they have on numbers.", "quantifier": "all expressions, all choices of the arguments that are gduals, all points of the domain, all orders", "why_tests_cant": "test.py tries single operators with selected types of operands; which methods are called in a larger expression depends on the types that arise at run time.", "anchors": ["pyaudi/expose_gdual.hpp:114-140", "pyaudi/core.cpp:45-149"]}
{"id": "C108", "title": "Variables of different orders", "statement": "If an expression is evaluated on gdual variables that were created with different orders, every derivative that can be read from the result is the corresponding partial derivative of the function.", "quantifier": "all expressions, all choices of orders for the variables, all points of the domain, all derivatives up to the order of the result", "why_tests_cant": "The test order_promotion of gdual_d.cpp mixes orders in single operations and checks only the order of the result; whether a coefficient is right depends on where in the expression terms have been dropped.", "anchors": ["include/audi/gdual.hpp:164-205", "include/audi/gdual.hpp:629-693"]}
{"id": "C109", "title": "Automatic differentiation with all functions of the library", "statement": "If an expression uses any of the functions of the library (elementary functions, powers, abs, sin_and_cos, sinh_and_cosh, erf, the functions computed from derivatives, log10, log2, log1p, expm1, erfc), every derivative read from its value on gdual variables is the partial derivative of the function it denotes, at every order if atan, asin, acos are replaced by atan_d, asin_d, acos_d.", "quantifier": "all expressions, all points of the domain (abs: scalar coefficients, argument not zero), all orders (up to 30 where atan, asin, acos occur), all derivatives up to the order", "why_tests_cant": "The tests of functions_from_d.cpp compare each function with the direct one on a few polynomials of low order; that results of one kind of function are legal arguments of the others (symbols, orders, constants without symbols) is not tested.", "anchors": ["include/audi/functions_from_d.hpp:62-226", "include/audi/functions.hpp:888-897", "pyaudi/expose_gdual.hpp:219-228"]}
{"id": "C110", "title": "Python functions written for numbers can be called with Taylor models", "statement": "A Python function of arithmetic operators, powers and functions of the module, called with any mixture of numbers (int or float) and Taylor models of variables, raises no TypeError, and returns a Taylor model that encloses the function of the variables, or the number if it uses no Taylor model. Exponents given as int or as float of the same value give the same result. A Taylor model of a constant compares with a number like the constant.", "quantifier": "all functions, all mixtures of arguments, all points of the domain, all exponents in the range of int", "why_tests_cant": "test.py calls single operators with Taylor models; which operator Python selects depends on the type of each intermediate result, so the mixtures grow exponentially with the size of the function.", "anchors": ["pyaudi/expose_taylor_model.hpp:60-67", "pyaudi/expose_taylor_model.hpp:126-154", "pyaudi/core.cpp:213-249"]}
{"id": "C111", "title": "Python functions with loops and branches can be called with gduals", "statement": "A Python function with assignments, branches and loops, written for numbers, can be called with gduals for some of its arguments. It ends as it ends for the numbers, along the same path, without exceptions; variables that do not depend on the gduals stay numbers; the derivatives read from the other ones are the derivatives of what the function computes for numbers.", "quantifier": "all programs, all choices of which arguments are gduals, all orders, all numbers of iterations", "why_tests_cant": "test.py has no functions with control flow; a variable may change from a number to a gdual inside a loop, and the number of paths is unbounded.", "anchors": ["pyaudi/expose_gdual.hpp:114-140", "pyaudi/core.cpp:45-149"]}
{"id": "C112", "title": "Python functions with loops and branches can be called with Taylor models", "statement": "If a Python function with assignments, branches and loops, written for numbers, is called with Taylor models for some of its arguments and ends without an exception, then called with any numbers of the domain instead it ends too, along the same path; variables that hold numbers hold the same numbers, and every Taylor model it computes contains the number computed, at every point of the domain.", "quantifier": "all programs, all choices of which arguments are Taylor models, all points of the domain, all numbers of iterations", "why_tests_cant": "The domain has infinitely many points, for each of which the program may take another path; a test runs one program at some points.", "anchors": ["pyaudi/expose_taylor_model.hpp:126-154", "pyaudi/core.cpp:213-249"]}
{"id": "C113", "title": "Python functions can be called with gdual_vdouble", "statement": "If a function written in Python for numbers is called with gdual_vdouble variables for some of its arguments and numbers for the others, component i of each derivative of its result is the derivative of the function at component i of the arguments, and its conditions hold as they do for the numbers of each component; gdual_vdouble and gdual_double can be used together.", "quantifier": "all functions, all combinations of kinds of arguments, all vector lengths, all orders and derivatives", "why_tests_cant": "A test calls some functions with vectors of one length; whether each component is independent of the others, for every function and every mixture with numbers, cannot be enumerated.", "anchors": ["pyaudi/core.cpp:150-207", "pyaudi/expose_gdual.hpp:114-140", "include/audi/vectorized.hpp:372-409"]}
{"id": "C114", "title": "Python functions with branches and loops can be called with gdual_vdouble", "statement": "If a Python function with assignments, branches and loops is called with gdual_vdouble variables for some of its arguments, it ends as it does for the numbers of each component, and component i of the value and of each derivative of every variable is that of the run with numbers near component i.", "quantifier": "all programs of assignments, branches and loops, all combinations of kinds of arguments, all vector lengths, all orders and derivatives", "why_tests_cant": "The branch taken depends on comparisons of whole vectors; a test runs few programs on few vectors, and the numbers of iterations of a loop are unbounded.", "anchors": ["pyaudi/expose_gdual.hpp:114-140", "include/audi/gdual.hpp:803-828", "include/audi/vectorized.hpp:372-409"]}
{"id": "C115", "title": "Output of vectors, maps and tables", "statement": "audi::stream and audi::print write their arguments one after the other; vectors and maps of at most five elements are written in full, so that different vectors are written differently, and longer ones are cut after five elements. An ascii table can be written whatever rows have been added; all its lines have the same length, the strings of a column begin at the same place, no column is wider than needed, and a row of the wrong size is rejected and leaves the table unchanged.", "quantifier": "all vectors, maps and sequences of rows, of any number and length", "why_tests_cant": "The width of a column depends on all rows added before; an unsigned difference of lengths would wrap if one string did not fit, which no finite set of tables excludes.", "anchors": ["include/audi/io.hpp:54-192", "include/audi/io.hpp:196-218"]}
{"id": "C116", "title": "Helper functions of Taylor models", "statement": "factorial2(int) gives the double factorial of every n >= -1 and throws for smaller n, and agrees with its overload for unsigned; shift_indices rotates by one place, so that as many shifts as entries restore the indices; build_dim_to_var_map numbers the entries of the domain from 0 on; flatten keeps all entries of nested vectors in order.", "quantifier": "all integers, all lists of any length", "why_tests_cant": "Tests use one vector of four indices and a domain of two variables, and no test calls factorial2; the overflow of the product depends on the argument alone and appears only beyond the orders in the tests.", "anchors": ["include/audi/taylor_model_functions.hpp:78-104", "include/audi/taylor_model_bounding.hpp:494-503", "include/audi/taylor_model_bounding.hpp:572-578", "include/audi/taylor_model.hpp:337-343"]}
{"id": "C117", "title": "Output of expansion points, domains and Taylor models", "statement": "Expansion points and domains are written as documented, with all entries separated by commas; different expansion points are written differently; a Taylor model is written as polynomial, remainder bound, expansion point and domain.", "quantifier": "all maps of any size, all Taylor models", "why_tests_cant": "No test compares the text of a map with more than the entries it lists; that separators and entries never merge depends on all names and values.", "anchors": ["include/audi/taylor_model_utilities.hpp:94-143", "include/audi/taylor_model.hpp:1096-1102"]}
{"id": "C118", "title": "Text of gduals and of exceptions", "statement": "The text of info() and the LaTeX form in Python show the polynomial and the order (info() also the degree), so that gduals of different order never have the same text; printing a gdual distinguishes gduals whose derivatives differ; the message of an exception made by audi_throw tells the function, the file, the line and the description.", "quantifier": "all gduals of any order and degree, all texts of the polynomial, all names without line breaks, all lines and descriptions", "why_tests_cant": "Tests print only a few gduals to a stream and compare no text; that the parts of a text cannot be confused depends on all numbers and on all texts of the polynomial.", "anchors": ["include/audi/gdual.hpp:730-755", "pyaudi/expose_gdual.hpp:68-82", "include/audi/exceptions.hpp:62-79"]}
