{"id": "C01", "title": "Integer ring operations are exact", "statement": "For all integers a, b represented as ZZ, the value of a+b, a-b, a*b, -a and of the compound forms +=, -=, *= equals the mathematical sum, difference, product, negation, whether each operand is stored inline or as a GMP integer; no input makes the operation undefined.", "quantifier": "every pair of ZZ values in either representation", "why_tests_cant": "the small/large representation boundary has 2^128 small operand pairs and unboundedly many large ones; the overflow and promotion branches meet exactly at INT64_MIN/INT64_MAX", "anchors": ["clpoly/number/ZZ.hh: operator+, operator-, operator*, operator+=, operator-=, operator*=, unary -"]}
{"id": "C02", "title": "Integer representation is canonical", "statement": "Every ZZ produced by a constructor or arithmetic operation is stored inline exactly when it fits in int64; therefore two ZZ compare == exactly when they are the same integer, <,> agree with the integer order, and equal values have equal hashes.", "quantifier": "every history of ZZ operations", "why_tests_cant": "equality compares representations; a single non-canonical result anywhere in a history breaks == and hashing later", "anchors": ["clpoly/number/ZZ.hh: _demote, operator==, operator<, hash"]}
{"id": "C03", "title": "Integer division and remainder", "statement": "For b != 0, a/b and a%b are quotient truncated toward zero and matching remainder; fdiv_q/fdiv_r/fdiv_qr give the floor quotient and a remainder with the sign of b, and a = q*b + r; inline division by zero throws; no defined input is undefined behaviour.", "quantifier": "all pairs of ZZ values, all signs and representations", "why_tests_cant": "sign combinations times representation combinations times the INT64_MIN/-1 corner are not enumerable", "anchors": ["clpoly/number/ZZ.hh: operator/, operator%, fdiv_q, fdiv_r, fdiv_qr, fdiv_ui"]}
{"id": "C04", "title": "Integer gcd, lcm, abs, pow", "statement": "gcd(a,b) is the non-negative greatest common divisor, lcm(a,b) the non-negative least common multiple, abs the absolute value and pow(a,n) the n-th power, for every a, b and n.", "quantifier": "all ZZ values and exponents", "why_tests_cant": "unbounded inputs and the INT64_MIN corner", "anchors": ["clpoly/number/ZZ.hh: gcd, lcm, abs, pow"]}
{"id": "C05", "title": "Integer fused and shift operations", "statement": "addmul(a,b,c) leaves a+b*c, submul(a,b,c) leaves a-b*c, a<<n is a*2^n and a>>n is floor(a/2^n), for all operands including aliased and mixed-representation ones.", "quantifier": "all operands and shift counts", "why_tests_cant": "overflow of intermediate products depends on every bit of three operands", "anchors": ["clpoly/number/ZZ.hh: addmul, submul, operator<<=, operator>>="]}
{"id": "C06", "title": "Rationals are exact and canonical", "statement": "Every QQ built from a nonzero denominator and every result of +,-,*,/ denotes the exact rational value, is in lowest terms with positive denominator, and two QQ are == exactly when equal as rationals; dividing by zero throws.", "quantifier": "all QQ operands, all histories of operations", "why_tests_cant": "infinite domain; canonical form is an invariant over histories", "anchors": ["clpoly/number/QQ.hh: class QQ, operator+,-,*,/"]}
{"id": "C07", "title": "Prime-field addition, subtraction, negation", "statement": "For a prime p < 2^64 and residues a,b < p, Zp addition, subtraction and negation return the residue of the mathematical result in [0,p), with no 64-bit overflow error even when p > 2^63.", "quantifier": "all primes (indeed all moduli) below 2^64 and all residue pairs", "why_tests_cant": "2^192 cases; overflow occurs only for moduli above 2^63", "anchors": ["clpoly/number.hh: Zp operator+, operator-, unary -"]}
{"id": "C08", "title": "Prime-field multiplication by precomputed inverse", "statement": "For every modulus 2 <= p < 2^64 and residues a,b < p, the product computed with the precomputed normalised reciprocal is exactly a*b mod p.", "quantifier": "all moduli below 2^64 and all residue pairs", "why_tests_cant": "2^192 cases; the quotient estimate is wrong by one only in rare corner cases", "anchors": ["clpoly/number.hh: Zp::__nmod_mul, Zp::__preinvert_limb"]}
{"id": "C09", "title": "Prime-field inverse and division", "statement": "For prime p and nonzero residue a, inv(a)*a = 1 mod p with inv(a) in [0,p), and b/a is the unique residue c with c*a=b; the inverse of 0 is not silently produced.", "quantifier": "all primes below 2^64 and all nonzero residues", "why_tests_cant": "the extended-Euclid loop has data-dependent length and intermediate wrap-around", "anchors": ["clpoly/number.hh: inv_prime, Zp::inv, operator/"]}
{"id": "C10", "title": "Prime-field construction and powers", "statement": "Constructing Zp from any machine integer or ZZ yields the residue class of that integer, in [0,p), and pow(a,n) is the residue of a^n.", "quantifier": "all integers, moduli and exponents", "why_tests_cant": "negative and INT64_MIN inputs and all moduli", "anchors": ["clpoly/number.hh: Zp::Zp, pow"]}
{"id": "C11", "title": "Variable registry", "statement": "After any sequence of variable creations, lookups and deletions, two live variables with different names have different serials, looking a live variable up by name returns the same serial, the name of a serial is the name it was created with, and a freshly generated name never equals a live user name.", "quantifier": "every history of get_variable/new_variable/del_variable calls", "why_tests_cant": "quantifies over histories", "anchors": ["clpoly/variable.hh", "clpoly/variable.cc"]}
{"id": "C12", "title": "Variable orders and monomial orders are strict total orders", "statement": "The default, custom-list and univariate-priority variable orders, and the lex and grlex monomial orders built on them, are irreflexive, transitive and total on normalised monomials; lex agrees with the mathematical lexicographic order on exponent vectors and grlex with total degree first.", "quantifier": "all monomials over any set of variables, all order parameters", "why_tests_cant": "infinite domain; totality must hold for every pair", "anchors": ["clpoly/monomial_order.hh: less, custom_var_order, univariate_order, lex_, grlex_", "clpoly/basic.hh: pair_vec_comp"]}
{"id": "C13", "title": "Monomial orders are compatible with multiplication and well-founded", "statement": "If m1 > m2 then m*m1 > m*m2 for every monomial m; 1 is the least monomial; and over finitely many variables there is no infinite strictly decreasing sequence of monomials.", "quantifier": "all monomials with non-negative exponents, all orders", "why_tests_cant": "infinite domain and infinite sequences", "anchors": ["clpoly/monomial_order.hh: lex_, grlex_", "clpoly/basic_monomial.hh: operator*"]}
{"id": "C14", "title": "Monomial product, quotient, lcm, gcd and divisibility", "statement": "On normalised monomials, * adds exponent vectors, / subtracts them, lcm/gcd take pointwise max/min, is_divexact returns true exactly when every exponent of the divisor is at most that of the dividend and then yields the quotient; results are normalised with the correct cached degree.", "quantifier": "all pairs of normalised monomials", "why_tests_cant": "merge loops over arbitrary length variable lists", "anchors": ["clpoly/basic_monomial.hh: operator*, operator/", "clpoly/monomial.hh: lcm, is_divexact", "clpoly/polynomial_gcd.hh: gcd(monomial)"]}
{"id": "C15", "title": "Polynomial normalisation", "statement": "normalization() of any list of terms yields a canonical polynomial (strictly decreasing monomials, no zero coefficient) denoting the same sum of terms.", "quantifier": "every list of (monomial, coefficient) pairs", "why_tests_cant": "every arrangement of repeated, cancelling and zero terms", "anchors": ["clpoly/basic.hh: pair_vec_normalization", "clpoly/basic_polynomial.hh: normalization"]}
{"id": "C16", "title": "Polynomial addition, subtraction, negation", "statement": "For canonical polynomials p,q the results of p+q, p-q, -p are canonical and denote the sum, difference, negation in the polynomial ring.", "quantifier": "all pairs of canonical polynomials, any coefficient ring, any monomial order", "why_tests_cant": "unbounded term counts and interleavings", "anchors": ["clpoly/basic.hh: pair_vec_add, pair_vec_sub, pair_vec_negate", "clpoly/basic_polynomial.hh"]}
{"id": "C17", "title": "Polynomial multiplication", "statement": "For canonical p,q over an integral domain, p*q is canonical, denotes the product, and the computation terminates: unconditionally for the chained-heap algorithm on unpacked monomials, and for operator* whenever the degrees add up to less than the packing capacity (one variable: 2^63; n variables: total degree below 2^(64/(n+1)) in grlex, every exponent below 2^(64/n) in lex). What happens beyond the capacity is C18.", "quantifier": "all pairs of canonical polynomials", "why_tests_cant": "the heap layout depends on every comparison among m*n products", "anchors": ["clpoly/basic.hh: pair_vec_multiplies, VHC_insert, VHC_extract"]}
{"id": "C18", "title": "Packed-monomial multiplication is correct", "statement": "Multiplication through the 64-bit packed-exponent path returns the same polynomial as the unpacked path for all polynomials for which the library chooses it; packing never lets one exponent field overflow into another.", "quantifier": "all pairs of canonical polynomials, any number of variables and any degrees", "why_tests_cant": "overflow needs specific combinations of variable count and degree", "anchors": ["clpoly/monomial_order.hh: __is_monomial_can_compression, __monomial_compression, __monomial_decompression", "clpoly/monomial.hh: __pair_vec_multiplies_compression"]}
{"id": "C19", "title": "Exact polynomial division", "statement": "If f = q*g over an integral domain with g != 0 then dividing f by g returns q; dividing by the zero polynomial throws.", "quantifier": "all canonical f, g", "why_tests_cant": "unbounded polynomials", "anchors": ["clpoly/basic.hh: pair_vec_div", "clpoly/basic_polynomial.hh: operator/"]}
{"id": "C20", "title": "Division with remainder", "statement": "Over a field, the two-output division of f by g != 0 returns q, r with f = q*g + r and no monomial of r divisible by the leading monomial of g; over the integers it returns q, r with f = q*g + r.", "quantifier": "all canonical f, g", "why_tests_cant": "unbounded polynomials", "anchors": ["clpoly/basic.hh: pair_vec_div (with remainder)", "clpoly/monomial.hh: __pair_vec_div_compression"]}
{"id": "C21", "title": "Polynomial powers", "statement": "pow(p,n) denotes p^n and is canonical for every n >= 0 for which n times the degree of p stays below the packing capacity of C17.", "quantifier": "all canonical polynomials and exponents", "why_tests_cant": "unbounded exponent", "anchors": ["clpoly/basic.hh: pair_vec_power", "clpoly/polynomial_.hh: pow"]}
{"id": "C22", "title": "Polynomial equality and order", "statement": "For canonical polynomials over the same order, == holds exactly when they denote the same element of the polynomial ring; the > comparison is a strict total order.", "quantifier": "all pairs (triples) of canonical polynomials", "why_tests_cant": "requires uniqueness of canonical forms", "anchors": ["clpoly/basic.hh: pair_vec_equal_to, pair_vec_comp", "clpoly/basic_polynomial.hh"]}
{"id": "C23", "title": "Adding a scalar or a monomial to a polynomial", "statement": "p + c, p - c, p + m and m1 - m2 are canonical and denote the mathematical result for every canonical p, scalar c and monomials.", "quantifier": "all canonical polynomials and scalars", "why_tests_cant": "includes the empty polynomial and cancellation of the constant term", "anchors": ["clpoly/polynomial_.hh: operator+, operator-"]}
{"id": "C24", "title": "Pseudo-division", "statement": "prem(G,F,v) and pquo(G,F,v) terminate and return canonical Q, R with lc_v(F)^e * G = Q*F + R, R = 0 or deg_v(R) < deg_v(F), e at most max(deg_v G - deg_v F + 1, 0) and equal to it when is_L is set; F = 0 throws. This holds for every order and whether or not v is the main variable, as long as the exponents met on the way fit the packed monomials (C18).", "quantifier": "all polynomials G and F, all variables v, all orders", "why_tests_cant": "loop count depends on degrees", "anchors": ["clpoly/polynomial.hh: prem, pquo"]}
{"id": "C25", "title": "Coefficients, degrees, leading coefficients", "statement": "degree(p,v) is the degree of p in v; coeff gives deg+1 canonical polynomials not containing v with p = sum coeff_i * v^i; leadcoeff is the coefficient of the highest power and is nonzero for nonzero p, with the single exception of leadcoeff(p) of a lex polynomial without variable argument, which returns 0 for constants.", "quantifier": "all polynomials and variables", "why_tests_cant": "infinite domain", "anchors": ["clpoly/polynomial.hh: degree, coeff, leadcoeff"]}
{"id": "C26", "title": "Substitution", "statement": "assign(p,v,a) and assign(p,map) return the polynomial obtained by substituting the values, with valid strictly decreasing monomials. The result is canonical when every variable is assigned, and for lex orders when the assigned variables come after the others; otherwise terms with coefficient zero can remain.", "quantifier": "all polynomials, variables and values", "why_tests_cant": "terms can cancel only after substitution", "anchors": ["clpoly/polynomial.hh: assign", "clpoly/upolynomial.hh: assign"]}
{"id": "C27", "title": "Derivative", "statement": "derivative(p,v) denotes the formal partial derivative in every characteristic, with valid strictly decreasing monomials; it is canonical exactly when no positive exponent of v in p vanishes in the coefficient ring (always over ZZ and QQ; over Zp terms with coefficient zero can remain).", "quantifier": "all polynomials and variables, all coefficient rings", "why_tests_cant": "characteristic p needs exponents divisible by p", "anchors": ["clpoly/polynomial.hh: derivative", "clpoly/upolynomial.hh: derivative"]}
{"id": "C28", "title": "Order and coefficient conversion", "statement": "Converting a polynomial between monomial orders preserves its value and yields a canonical polynomial in the target order; converting QQ to ZZ returns the polynomial times the lcm of its denominators; reduction mod p is the coefficientwise residue.", "quantifier": "all canonical polynomials", "why_tests_cant": "infinite domain", "anchors": ["clpoly/polynomial_convert.hh"]}
{"id": "C29", "title": "Normal form", "statement": "Over a field normal_form(f,G) terminates and returns r with f - r in the ideal generated by G and no term of r divisible by the leading monomial of a nonzero element of G.", "quantifier": "all f, all finite G, all monomial orders", "why_tests_cant": "termination and every reduction path", "anchors": ["clpoly/groebner.hh: __normal_form, __s_polynomial"]}
{"id": "C30", "title": "Groebner basis generates the same ideal", "statement": "Over a field (QQ), groebner_basis(F) terminates and generates exactly the ideal generated by F.", "quantifier": "all finite families F, all monomial orders", "why_tests_cant": "all selection and criterion paths of Buchberger's algorithm", "anchors": ["clpoly/groebner.hh: __buchberger, __update, __interreduce"]}
{"id": "C31", "title": "Groebner basis property and ideal membership", "statement": "Over a field (QQ), every element of the ideal reduces to zero modulo groebner_basis(F), and Ideal(F).contains(f) is true exactly when f is in the ideal generated by F.", "quantifier": "all finite families F and polynomials f", "why_tests_cant": "pair-deletion criteria must be sound for every history of pairs", "anchors": ["clpoly/groebner.hh: __update, Ideal::contains"]}
{"id": "C32", "title": "Reduced basis", "statement": "The output of inter-reduction has no term divisible by the leading monomial of another element, is monic over a field, and generates the same ideal.", "quantifier": "all finite families", "why_tests_cant": "infinite domain", "anchors": ["clpoly/groebner.hh: __interreduce, __make_monic"]}
{"id": "C33", "title": "Associated graph and connected branches", "statement": "After any history of add_node/add_edge calls a graph has exactly the mentioned nodes and edges; associatedgraph(P) has an edge u-v exactly when some polynomial of P contains both; connected_branch puts every node that has an edge into exactly one branch, its nonempty branches are the connected components of these nodes, and every isolated node yields an empty branch; connected_branch_graph joins exactly the connected pairs.", "quantifier": "all graphs / all polynomial families", "why_tests_cant": "all graphs", "anchors": ["clpoly/associatedgraph.hh", "clpoly/associatedgraph.cc"]}
{"id": "C34", "title": "Elimination game and chordal completion", "statement": "elimination_game(g,order) returns the least supergraph of g for which the order is a perfect elimination ordering; chordal_completion terminates and returns a chordal supergraph with a perfect elimination ordering of it, for every random tie-break; the completion is minimal: no other chordal graph lies between g and it.", "quantifier": "all graphs and orders, all random tie-breaks", "why_tests_cant": "all graphs and all random schedules", "anchors": ["clpoly/associatedgraph.hh: elimination_game, chordal_completion", "clpoly/associatedgraph.cc: __MCS, __MCS_M"]}
{"id": "C35", "title": "Real root bound", "statement": "Every real root of the polynomial has absolute value strictly less than RealRootBound.", "quantifier": "all nonzero integer polynomials and all real roots", "why_tests_cant": "uncountable quantifier", "anchors": ["clpoly/realroot.cc: RealRootBound"]}
{"id": "C36", "title": "Real root isolation", "statement": "uspensky(f) of a squarefree f returns disjoint intervals each containing exactly one real root and covering every real root.", "quantifier": "all squarefree integer polynomials", "why_tests_cant": "uncountable quantifier, recursion depth depends on root separation", "anchors": ["clpoly/realroot.cc: uspensky, __subuspensky"]}
{"id": "C37", "title": "Moebius and affine coefficient transforms", "statement": "The coefficient-array transforms used in isolation compute exactly (x+1)^n f(1/(x+1)), f(Bx), 2^n f(x/2) and 2^n f((x+1)/2).", "quantifier": "all coefficient vectors", "why_tests_cant": "all degrees", "anchors": ["clpoly/realroot.cc"]}
{"id": "C38", "title": "Dense Zp polynomial arithmetic", "statement": "Dense polynomials over Z/p: add, sub, mul (schoolbook and Karatsuba), scalar_mul return the canonical (no leading zero) coefficient array of the mathematical result, for every prime p < 2^64 and every length.", "quantifier": "all coefficient arrays, all primes below 2^64", "why_tests_cant": "three-word lazy accumulators overflow only at extreme lengths; the Karatsuba threshold splits all lengths", "anchors": ["clpoly/dense_upoly_zp.hh: _classical_mul, _kar_mul, mul, add, sub, scalar_mul, _lll_mod_preinv"]}
{"id": "C39", "title": "Dense Zp division with remainder", "statement": "divrem(A,B) for B != 0 returns Q,R with A = Q*B + R and deg R < deg B, both without leading zeros.", "quantifier": "all coefficient arrays, all primes below 2^64", "why_tests_cant": "lazy accumulation over every length", "anchors": ["clpoly/dense_upoly_zp.hh: divrem, _poly_divrem"]}
{"id": "C40", "title": "Dense Zp gcd", "statement": "gcd(A,B) returns a greatest common divisor of A and B in (Z/p)[x], by the Euclidean and by the half-gcd path.", "quantifier": "all coefficient arrays, all primes below 2^64", "why_tests_cant": "half-gcd only starts at length 340; recursion and aliasing", "anchors": ["clpoly/dense_upoly_zp.hh: gcd, _gcd_euclid, _gcd_hgcd, _hgcd_iter, _hgcd_recursive"]}
{"id": "C41", "title": "Squarefree decomposition over Zp", "statement": "For monic f the returned pairs (g_i, e_i) satisfy f = prod g_i^e_i with each g_i monic and squarefree.", "quantifier": "all monic polynomials over Z/p", "why_tests_cant": "p-th power recursion", "anchors": ["clpoly/polynomial_factorize_zp.hh: __squarefree_Zp"]}
{"id": "C42", "title": "Distinct-degree and equal-degree factorisation multiply back", "statement": "For monic f the distinct-degree factors multiply to f, and the equal-degree splitting of g returns monic factors whose product is g for every random stream for which it terminates.", "quantifier": "all monic polynomials, all random streams", "why_tests_cant": "every random stream", "anchors": ["clpoly/polynomial_factorize_zp.hh: __ddf_Zp, __edf_Zp, __factor_Zp"]}
{"id": "C43", "title": "Modular exponentiation of polynomials", "statement": "powmod(b,e,m) is congruent to b^e modulo m, for every e >= 0.", "quantifier": "all b, e, m with m nonzero", "why_tests_cant": "unbounded exponent", "anchors": ["clpoly/polynomial_factorize_zp.hh: __upoly_powmod"]}
{"id": "C44", "title": "Symmetric residues and integer helper functions", "statement": "symmetric_mod(a,m) is the representative of a mod m in (-m/2, m/2]; the integer square root, binomial and coefficient-bound helpers return the exact mathematical values they document.", "quantifier": "all integers", "why_tests_cant": "unbounded integers", "anchors": ["clpoly/polynomial_factorize_univar.hh: __symmetric_mod, __isqrt_ceil, __binomial, __mignotte_bound"]}
{"id": "C45", "title": "Hensel lifting", "statement": "Given f = g*h mod m and s*g + t*h = 1 mod m with h monic, a lifting step returns g*,h*,s*,t* with f = g* h* mod m^2, congruent to g,h mod m, preserving the Bezout identity.", "quantifier": "all polynomials and moduli", "why_tests_cant": "quantifies over all inputs and iterated steps", "anchors": ["clpoly/polynomial_factorize_univar.hh: hensel lift"]}
{"id": "C46", "title": "Integer factorisation multiplies back", "statement": "factorize(f) of a univariate integer polynomial returns a content and primitive non-constant factors in normal form whose product with multiplicities is f up to the sign, for every random stream, every sequence of primes and whatever the lattice reduction returns. (That the product is exactly f does not hold for every input.)", "quantifier": "all integer polynomials", "why_tests_cant": "all prime choices and recombination paths", "anchors": ["clpoly/polynomial_factorize.hh", "clpoly/polynomial_factorize_univar.hh"]}
{"id": "C47", "title": "Univariate real-root refinement and polynomial sign changes", "statement": "coeffsignchanges counts exactly the sign alternations of the coefficient list ignoring zeros.", "quantifier": "all coefficient vectors", "why_tests_cant": "unbounded vectors", "anchors": ["clpoly/realroot.cc: coeffsignchanges"]}
{"id": "C48", "title": "Ideal membership object caches consistently", "statement": "Any sequence of queries on one Ideal object gives the same answers as fresh objects: the cached basis is computed at most once and never stale.", "quantifier": "every history of queries", "why_tests_cant": "histories", "anchors": ["clpoly/groebner.hh: Ideal"]}
{"id": "C49", "title": "Content of univariate integer polynomials", "statement": "An integer divides every coefficient of a nonzero univariate p over ZZ exactly if it divides cont(p); dividing the coefficients by cont(p) leaves a polynomial without integer content whose product with cont(p) is p; cont is positive for two or more terms, the coefficient (with its sign) for one term and 1 for the zero polynomial.  (Several variables: C60.)", "quantifier": "all univariate polynomials over ZZ", "why_tests_cant": "infinite domain", "anchors": ["clpoly/polynomial_gcd.hh: cont, pp"]}
{"id": "C50", "title": "Random generators respect their contracts", "statement": "random_polynomial returns a canonical polynomial in the given variables with exactly the requested total degree and number of terms and non-zero coefficients of the requested range (it returns whenever the range contains a value that is non-zero in the ring); the dense variant stays within degree and range; random_select returns distinct indices below the bound; RandomSample returns elements at distinct positions; random_polynomial_QQ keeps the monomials; random_graph contains exactly the edges whose coin came up; all for every underlying random stream.", "quantifier": "every random stream and all parameters", "why_tests_cant": "every random stream", "anchors": ["clpoly/random.hh"]}
{"id": "C51", "title": "Groebner basis over ZZ", "statement": "groebner_basis(F) over ZZ terminates and returns primitive polynomials with positive leading coefficient that generate, over the rationals, the same ideal as F and form a Groebner basis of it.", "quantifier": "all finite families F over ZZ, all monomial orders", "why_tests_cant": "all selection paths; denominators and contents of arbitrary size", "anchors": ["clpoly/groebner.hh: groebner_basis (ZZ overload)"]}
{"id": "C52", "title": "Ideal membership over ZZ", "statement": "Ideal<ZZ>(F).contains(f) and reduce terminate, and decide membership of f in the ideal generated by F over the integers.", "quantifier": "all finite families F and polynomials f over ZZ", "why_tests_cant": "infinite domain; termination", "anchors": ["clpoly/groebner.hh: Ideal::contains, Ideal::reduce, __normal_form"]}
{"id": "C53", "title": "Maximum cardinality search on chordal graphs", "statement": "On a chordal graph perfect_elimination_ordering returns a perfect elimination ordering of all nodes and chordal_completion adds no edge, for every random tie-break.", "quantifier": "all chordal graphs, all random tie-breaks", "why_tests_cant": "all graphs and all random schedules", "anchors": ["clpoly/associatedgraph.cc: __MCS, __MCS_M", "clpoly/associatedgraph.hh: perfect_elimination_ordering, chordal_completion"]}
{"id": "C54", "title": "Univariate integer polynomial gcd", "statement": "Whenever polynomial_GCD of two univariate integer polynomials returns, the result is a greatest common divisor in Z[x] (unique up to sign), whichever of the zero, single-term, heuristic (evaluation at a power of two) and modular paths was taken and whichever primes were unlucky; the extended gcd over the integers always returns a positive-leading-coefficient combination s*F+t*G that is a gcd over the rationals.", "quantifier": "all pairs of univariate polynomials over ZZ; all primes tried", "why_tests_cant": "infinite domain; the heuristic path and unlucky primes cannot be sampled exhaustively", "anchors": ["clpoly/polynomial_gcd.cc: polynomial_GCD(upolynomial_<ZZ>)", "clpoly/polynomial_gcd.hh"]}
{"id": "C55", "title": "Karatsuba workspace of the dense multiplication", "statement": "dense_upoly_zp::mul never writes past the 6n scratch words it allocates, for operands of up to 2^27 coefficients (the bound fails for larger operands: with 15*2^26+1 coefficients two words too many are used).", "quantifier": "all operand sizes", "why_tests_cant": "sizes of 10^8 and beyond cannot be tested", "anchors": ["clpoly/dense_upoly_zp.hh: _kar_mul, mul"]}
{"id": "C56", "title": "Univariate integer polynomial gcd always returns", "statement": "polynomial_GCD of two univariate integer polynomials terminates with a result for every pair of operands.  (Refuted: for F = 2x + N, N = (2^64-59)(2^64-83), polynomial_GCD(F,F) does not return.  Proved: it returns if two of the primes show the degree of the gcd and all primes up to there exceed twice the coefficients of the gcd scaled to the gcd of the leading coefficients.)", "quantifier": "all pairs of univariate polynomials over ZZ", "why_tests_cant": "termination over all inputs; the offending inputs have coefficients beyond 2^127", "anchors": ["clpoly/polynomial_gcd.cc: polynomial_GCD(upolynomial_<ZZ>)"]}
{"id": "C57", "title": "Comparison of real algebraic numbers", "statement": "uroot comparisons (with another uroot or with a rational) return the order of the two real numbers (infinities included), and although they refine the intervals and factor the polynomials of their operands, every object keeps standing for the same number through every history of comparisons.", "quantifier": "all pairs of uroot objects that isolate a simple root, all rationals, all histories", "why_tests_cant": "infinitely many operands; mutation of the operands makes the answers depend on the history", "anchors": ["clpoly/realroot.cc: uroot::comp, _uroot_check", "clpoly/realroot.hh: class uroot"]}
{"id": "C58", "title": "RandomSample can select every element", "statement": "RandomSample(l,n) draws from the whole list: every element of l occurs in some sample.", "quantifier": "all lists and n, every random stream", "why_tests_cant": "impossibility over all random streams is not observable by sampling", "anchors": ["clpoly/random.hh: RandomSample"]}
{"id": "C59", "title": "Gcd of multivariate integer polynomials", "statement": "Whatever polynomial_GCD(F,G) / gcd(F,G) returns for multivariate polynomials over ZZ is in normal form and a greatest common divisor in Z[x1,x2,...] (unique up to sign), for every monomial order of the operands, every sequence of random evaluation points and every sequence of primes; zero and single-term operands always return.", "quantifier": "all pairs of multivariate polynomials over ZZ, all monomial orders, all random streams, all primes", "why_tests_cant": "unlucky primes and evaluation points cannot be sampled exhaustively; infinite domain", "anchors": ["clpoly/polynomial_gcd.hh: polynomial_GCD, __polynomial_GCD, gcd"]}
{"id": "C60", "title": "Content and primitive part of multivariate polynomials", "statement": "cont(F) is free of the main variable, divides F and is divisible by every divisor of F free of the main variable; pp(F) times a polynomial free of the main variable is F and pp(F) has no non-unit divisor free of the main variable.", "quantifier": "all multivariate polynomials over ZZ, all random streams and primes", "why_tests_cant": "infinite domain; random", "anchors": ["clpoly/polynomial_gcd.hh: cont, pp"]}
{"id": "C61", "title": "Squarefree test and squarefree decomposition of multivariate polynomials", "statement": "is_squarefree(F) tells whether F is non-zero without a square of a non-constant polynomial as a factor; squarefreefactorize(F) returns an integer followed by squarefree, primitive, pairwise coprime factors whose product with multiplicities (and the integer) is F, each prime factor occurring with exactly the recorded multiplicity.", "quantifier": "all multivariate polynomials over ZZ, all monomial orders, all random streams and primes", "why_tests_cant": "infinite domain; random", "anchors": ["clpoly/polynomial_gcd.hh: is_squarefree, squarefreefactorize"]}
{"id": "C62", "title": "Squarefree basis", "statement": "squarefreebasis(F1..Fn) returns squarefree pairwise coprime polynomials and for every non-zero Fk the multiplicities with which Fk is, up to an integer factor, their product.", "quantifier": "all finite lists of multivariate polynomials over ZZ, all monomial orders, all random streams and primes", "why_tests_cant": "all lists, all orders of splitting", "anchors": ["clpoly/polynomial_gcd.hh: squarefreebasis"]}
{"id": "C63", "title": "Factors are irreducible", "statement": "The factors that the integer factorization of a squarefree primitive univariate polynomial returns are irreducible over the integers.", "quantifier": "all squarefree primitive univariate polynomials over ZZ, all random streams and primes", "why_tests_cant": "infinite domain; irreducibility is a universal statement", "anchors": ["clpoly/polynomial_factorize_univar.hh: __zassenhaus_recombine, __vanhoeij_recombine, __factor_squarefree_primitive_ZZ"]}
{"id": "C64", "title": "Factorization in every representation", "statement": "factorize(F) for a polynomial with monomials, in any monomial order, over ZZ or QQ, returns a content and non-constant factors in normal form (over ZZ without integer content, over QQ monic) with positive multiplicities whose product with the content is F up to the sign.", "quantifier": "all polynomials over ZZ and QQ, all monomial orders, all random streams and primes", "why_tests_cant": "infinite domain; random", "anchors": ["clpoly/polynomial_factorize.hh: factorize", "clpoly/upolynomial.hh: poly_convert", "clpoly/polynomial_factorize_univar.hh: factorize, __upoly_to_poly"]}
{"id": "C65", "title": "Resultant", "statement": "resultant(F,G,v) terminates and returns, in normal form and free of v, the determinant of the Sylvester matrix of F and G as polynomials in v (zero if an operand is zero), whichever of its two algorithms (subresultant chain, Bezout determinant) is taken; it is a combination of F and G, vanishes at all their common zeros and is zero exactly when non-zero F, G have a common factor containing v.", "quantifier": "all pairs of multivariate polynomials over an integral domain whose degrees fit the packed exponents, all orders, all variables v", "why_tests_cant": "infinite domain; the value is a determinant of unbounded size", "anchors": ["clpoly/resultant.hh: resultant, BezoutMatrix, det"]}
{"id": "C66", "title": "Subresultant chain", "statement": "subresultant(F,G,v) (deg F >= deg G > 0) returns the vector of all subresultants of F and G with respect to v in increasing index, followed by G and F; with is_list=false it returns the resultant alone.", "quantifier": "all pairs of multivariate polynomials over an integral domain, all orders, all variables v", "why_tests_cant": "infinite domain; defective chains of every shape", "anchors": ["clpoly/resultant.hh: subresultant"]}
{"id": "C67", "title": "Discriminant", "statement": "discriminant(G,v) over ZZ terminates and returns the discriminant of G as a polynomial in v, free of v; it is zero exactly when G is free of v or has a repeated factor containing v.", "quantifier": "all multivariate polynomials over ZZ, all orders, all variables v", "why_tests_cant": "infinite domain; sign and exact division for every degree", "anchors": ["clpoly/resultant.hh: discriminant"]}
{"id": "C68", "title": "Basic sets", "statement": "basset(F) of non-zero polynomials returns one constant of F if there is one and otherwise an ascending chain of elements of F with respect to which no element of F is reduced and such that no ascending chain of elements of F has lower rank; rankcompare and is_reduced decide rank and reduction.  (With the zero polynomial in F, basset never returns.)", "quantifier": "all finite lists of polynomials over every coefficient ring, all variable orders", "why_tests_cant": "infinite domain; non-termination is not observable", "anchors": ["clpoly/charset.hh: rankcompare, is_reduced, basset"]}
{"id": "C69", "title": "Characteristic sets", "statement": "charset(P) of non-zero polynomials terminates and returns elements of the ideal of P that are a single non-zero constant or an ascending chain by which every element of P has pseudo-remainder zero; zeros of P are zeros of the result, and a zero of the result at which no initial vanishes is a zero of P.  (With the zero polynomial in P, charset never returns.)", "quantifier": "all finite lists of polynomials over every integral domain, all variable orders", "why_tests_cant": "infinite domain; termination for all inputs", "anchors": ["clpoly/charset.hh: charset", "clpoly/polynomial.hh: prem"]}
{"id": "C70", "title": "Squarefree part", "statement": "sqrfree(F) of a non-zero polynomial over ZZ returns the squarefree part: squarefree, without integer content, a divisor of F, and F divides an integer times a power of it.", "quantifier": "all non-zero multivariate polynomials over ZZ, all random streams and primes", "why_tests_cant": "infinite domain; random", "anchors": ["clpoly/charset.hh: sqrfree"]}
{"id": "C71", "title": "Wu's zero decomposition", "statement": "Wucharset(P) of non-zero polynomials over ZZ terminates and returns triangular sets of squarefree polynomials such that the common zeros of P, in any field of characteristic 0, are exactly the zeros of these sets at which no initial of the set vanishes.", "quantifier": "all finite non-empty lists of non-zero polynomials over ZZ, all variable orders, all random streams and primes", "why_tests_cant": "a statement about zero sets over all extension fields; termination of an unbounded recursion", "anchors": ["clpoly/charset.hh: Wucharset"]}
{"id": "C72", "title": "Factors of multivariate polynomials", "statement": "factorize(F) of a polynomial over ZZ in two or more variables returns squarefree, pairwise coprime factors without integer content and with positive first coefficient (lexicographic order); content times the product of the factors with their multiplicities is F whenever the univariate factorizations it uses are exact - whatever candidates the Hensel lifting produces.", "quantifier": "all multivariate polynomials over ZZ, all monomial orders, all random streams and primes, all results of the lifting", "why_tests_cant": "infinite domain; wrong candidates of the lifting are not reproducible in tests", "anchors": ["clpoly/polynomial_factorize_wang.hh: __factor_multivar, __wang_core, __extract_monomial_content", "clpoly/polynomial_factorize.hh: factorize"]}
{"id": "C73", "title": "Evaluation points of the multivariate factorization", "statement": "The point chosen for a main variable x gives integer values to exactly the other variables of f; the degree in x is kept, also modulo the lifting prime; the univariate image has no repeated factor; the irreducible factors of the leading coefficient take values other than 0, 1, -1 that are pairwise coprime.", "quantifier": "all multivariate polynomials over ZZ, all main variables, numbers of skipped points and primes", "why_tests_cant": "infinite domain; unbounded search", "anchors": ["clpoly/polynomial_factorize_wang.hh: __select_eval_point"]}
{"id": "C74", "title": "A polynomial returned whole is irreducible", "statement": "If factorize(F) returns a single factor (with any multiplicity) for a multivariate F, that factor is irreducible over ZZ.", "quantifier": "all multivariate polynomials over ZZ, all monomial orders, all random streams and primes, all results of the lifting", "why_tests_cant": "irreducibility quantifies over all factorizations", "anchors": ["clpoly/polynomial_factorize_wang.hh: __wang_core, __select_eval_point"]}
{"id": "C75", "title": "Lattice basis reduction", "statement": "__lll_reduce(M, U, B) on an n x n integer matrix terminates; it replaces M by U*M with det U = 1 or -1, the new rows are LLL-reduced with parameter 3/4, the first row is at most 2^((n-1)/2) times as long as the shortest non-zero vector of the lattice, and the returned indices are those of the rows of squared norm at most B, by increasing norm.  (For singular M it need not terminate: diag(1,0).)", "quantifier": "all square integer matrices, all bounds", "why_tests_cant": "infinite domain; termination of an unbounded loop; a statement about all lattice vectors", "anchors": ["clpoly/polynomial_factorize_univar.hh: __lll_reduce"]}
{"id": "C76", "title": "Combined logarithmic derivatives", "statement": "__cld_polys(f, {h_i}, m) returns for each monic factor h of f modulo m the polynomial c with c*h = f*h' modulo m, coefficients in the symmetric range; for monic factors of f modulo m its assertion never fails.", "quantifier": "all polynomials over ZZ, all moduli m > 1, all lists of monic factors modulo m", "why_tests_cant": "infinite domain; assertion failures", "anchors": ["clpoly/polynomial_factorize_univar.hh: __cld_polys"]}
{"id": "C77", "title": "Test for regular chains", "statement": "is_regular(T) of a triangular set without free variables terminates and returns true exactly if the initial of every element vanishes at no complex zero of the elements before it; then the same holds for zeros in any field of characteristic 0.", "quantifier": "all triangular sets without free variables over ZZ, all variable orders", "why_tests_cant": "a statement about zeros in all extension fields", "anchors": ["clpoly/charset.hh: is_regular", "clpoly/resultant.hh: resultant"]}
{"id": "C78", "title": "Splitting a regular chain by a polynomial", "statement": "wrsd(T, f) of a regular chain T and a polynomial f in its variables terminates and returns two lists of regular chains of the length of T: the zeros of the first are the zeros of T with f = 0, those of the second the zeros of T with f != 0, in every field of characteristic 0.  (The code is wrong when entry 1 of a subresultant chain is lost, e.g. T = {x^4-x^3+x^2-1}, f = x^3-x^2+x-1.)", "quantifier": "all zero-dimensional regular chains over ZZ and all polynomials in their variables, all variable orders", "why_tests_cant": "a statement about zero sets over all extension fields; termination of an unbounded recursion", "anchors": ["clpoly/charset.hh: wrsd", "clpoly/resultant.hh: subresultant", "clpoly/polynomial.hh: pquo"]}
{"id": "C79", "title": "Decomposition of a zero-dimensional system into regular chains", "statement": "ZDtoRC(T) of a triangular set without free variables terminates and returns regular chains of the length of T whose zeros together are the zeros of T at which no initial of T vanishes; GRDforZD(P) of a system P with finitely many zeros returns regular chains whose zeros together are the zeros of P, in every field of characteristic 0.", "quantifier": "all triangular sets without free variables and all systems over ZZ with finitely many zeros, all variable orders, all random draws of the gcd computations", "why_tests_cant": "zero sets over all extension fields; an unbounded recursion; unboundedly many random streams", "anchors": ["clpoly/charset.hh: ZDtoRC", "clpoly/charset.hh: GRDforZD"]}
{"id": "C80", "title": "Relatively simplicial decomposition", "statement": "rsd(T, f) of a regular chain T and a polynomial f in its variables terminates and returns a decomposition of the zeros of T into those with f = 0 and those with f != 0.  (Refuted: for T = {y^2, x^2}, f = x^2 + y the function calls itself with the same arguments forever.)", "quantifier": "all zero-dimensional regular chains and polynomials in their variables", "why_tests_cant": "non-termination cannot be observed by a test", "anchors": ["clpoly/charset.hh: rsd"]}
{"id": "C81", "title": "Regular chains without multiple zeros", "statement": "RCtoSqrfree(T) of a regular chain returns regular chains of the length of T whose elements have no multiple zeros in their main variables over the zeros of the elements before them, and whose zeros together are the zeros of T.  (The code never checks the first element: {x^2} is returned as it is; for T = {y^2, x^3, z^2 + xy} it calls itself with the same argument forever.)", "quantifier": "all zero-dimensional regular chains over ZZ, all variable orders", "why_tests_cant": "zero sets over all extension fields; an unbounded recursion", "anchors": ["clpoly/charset.hh: RCtoSqrfree", "clpoly/resultant.hh: discriminant", "clpoly/resultant.hh: subresultant"]}
{"id": "C82", "title": "Solutions of a zero-dimensional semi-algebraic system", "statement": "GRDforZDSAS({P, G1, G2, H}) for a system P with finitely many zeros and polynomials in the same variables returns pairs of a regular chain and polynomials vanishing at no zero of the chain, such that in every ordered field the points at which some chain vanishes and its polynomials are positive are exactly the solutions of P = 0, G1 >= 0, G2 > 0, H != 0.", "quantifier": "all such systems over ZZ, all ordered fields, all points, all random draws", "why_tests_cant": "quantifies over all points of all ordered fields", "anchors": ["clpoly/charset.hh: GRDforZDSAS", "clpoly/charset.hh: wrsd", "clpoly/charset.hh: RCtoSqrfree"]}
{"id": "C83", "title": "Diophantine equation in one variable over a field", "statement": "__mtshl_zp_univar_mdp(F, c) for two or more non-zero factors: if they are pairwise coprime it returns true and the unique s_i with deg s_i < deg F_i and sum s_i * prod_{l != i} F_l = c modulo the product of the F_l (exactly c when deg c is smaller than the degree of the product); if they are not pairwise coprime and c is not zero it returns false.", "quantifier": "all fields, all lists of at least two non-zero polynomials, all right hand sides", "why_tests_cant": "infinite domain; uniqueness quantifies over all other solutions", "anchors": ["clpoly/polynomial_factorize_wang.hh: __mtshl_zp_univar_mdp"]}
{"id": "C84", "title": "Transposed Vandermonde systems", "statement": "__si_vandermonde_solve(values, nodes) returns true and the unique solution of values[l] = sum_t c_t * node_t^(l+1) if the nodes are distinct and not zero, and false otherwise.", "quantifier": "all fields, all numbers of equations, values and nodes", "why_tests_cant": "infinite domain; uniqueness", "anchors": ["clpoly/polynomial_factorize_wang.hh: __si_vandermonde_solve"]}
{"id": "C85", "title": "Images at the powers of a point", "statement": "__si_theta_array_eval(f, x1, aux, betas, s) returns the s images of f at aux_i = beta_i^l, l = 1..s, as univariate polynomials in x1 in normal form.", "quantifier": "all commutative rings, polynomials, distinct auxiliary variables, points and numbers of images", "why_tests_cant": "infinite domain", "anchors": ["clpoly/polynomial_factorize_wang.hh: __si_theta_array_eval"]}
{"id": "C86", "title": "Irreducible factors in several variables", "statement": "factorize(F) of a polynomial over ZZ in any number of variables returns irreducible factors.", "quantifier": "all polynomials over ZZ with at most 20 variables and bounded degrees, all monomial orders, all random draws", "why_tests_cant": "irreducibility quantifies over all divisors; unboundedly many random streams", "anchors": ["clpoly/polynomial_factorize_wang.hh: __wang_core", "clpoly/polynomial_factorize_wang.hh: __factor_multivar", "clpoly/polynomial_factorize.hh: factorize"]}
{"id": "C87", "title": "Taylor coefficients modulo a prime", "statement": "__taylor_coeff_zp(f, x, a, j) ends and returns the coefficient of (x - a)^j in the expansion of f in powers of x - a with coefficients free of x.", "quantifier": "all fields, polynomials of total degree below 2^63, variables, points and exponents", "why_tests_cant": "infinite domain; an unbounded number of divisions", "anchors": ["clpoly/polynomial_factorize_wang.hh: __taylor_coeff_zp"]}
{"id": "C88", "title": "Sparse interpolation of the Diophantine equation", "statement": "__mtshl_sparse_int(F, c, supports) that returns true returns polynomials s_i with deg_x s_i < deg_x F_i and sum s_i * prod_{l != i} F_l = c, whatever the supports and the random draws are; there is no other such solution if the factors are coprime at some point.  (If all supports are empty it returns true and zeros for every c.  The exponents fit into the packed words.)", "quantifier": "all fields, factors, right hand sides, supports that are not all empty, all random draws", "why_tests_cant": "unboundedly many random streams; uniqueness quantifies over all other solutions", "anchors": ["clpoly/polynomial_factorize_wang.hh: __mtshl_sparse_int"]}
{"id": "C89", "title": "Dense solution of the Diophantine equation", "statement": "__mtshl_multi_bdp and __mtshl_wmds that return true return a solution of sum s_i * prod_{l != i} F_l = c.  (Refuted: F = x^2 + xy + 1, x; c = 1; y = 0: they return true and s = -x, 1.)", "quantifier": "all factors, right hand sides and points", "why_tests_cant": "infinite domain; the wrong answer needs a solution of larger degree than the right hand side", "anchors": ["clpoly/polynomial_factorize_wang.hh: __mtshl_multi_bdp", "clpoly/polynomial_factorize_wang.hh: __mtshl_wmds"]}
{"id": "C90", "title": "Hensel lifting in two variables is complete", "statement": "If f = prod H_i in two variables, the v_i are the images of the H_i at y = b, of the same degrees and pairwise coprime modulo p, the tau_i are the leading coefficients of the H_i and the coefficients of the H_i are below p/2, then __mtshl_lift(f, v, tau, {y = b}, x, p) ends, makes no random choice and returns exactly the H_i (x before y in the variable order, number of factors times degrees below 2^32).", "quantifier": "all factorizations over ZZ in two variables, all primes, points and random draws", "why_tests_cant": "quantifies over all factorizations and all points", "anchors": ["clpoly/polynomial_factorize_wang.hh: __mtshl_lift", "clpoly/polynomial_factorize_wang.hh: __mtshl_step_j"]}
{"id": "C91", "title": "Hensel lifting in any number of variables", "statement": "With the assumptions of the property before, for any number of variables, __mtshl_lift returns exactly the H_i or the empty list.  (Refuted for runs in which the dense solver gives a wrong answer: x^2+xy-xz-yz+1 and x+z lifted from y = z = 0 come out as two other polynomials.)", "quantifier": "all factorizations over ZZ, all primes, points and random draws", "why_tests_cant": "quantifies over all factorizations, points and random streams", "anchors": ["clpoly/polynomial_factorize_wang.hh: __mtshl_lift", "clpoly/polynomial_factorize_wang.hh: __mtshl_step_j"]}
{"id": "C92", "title": "Sparse interpolation finds the solution", "statement": "If sum s_i * prod_{l != i} F_l = c has a solution with deg_x s_i < deg_x F_i, the given supports contain those of the s_i, and the random point is good (coordinates not zero, distinct values of the monomials of a support with the same exponent of x, images of the F_i at the powers 1..N of the point with the same degrees and pairwise coprime, N the largest support), then __mtshl_sparse_int returns true and the s_i.", "quantifier": "all fields, factors, solutions, supports, good random draws, any later random numbers", "why_tests_cant": "quantifies over all equations with their solutions and all good points; a test sees a few draws", "anchors": ["clpoly/polynomial_factorize_wang.hh: __mtshl_sparse_int", "clpoly/polynomial_factorize_wang.hh: __si_theta_array_eval", "clpoly/polynomial_factorize_wang.hh: __si_vandermonde_solve"]}
{"id": "C93", "title": "Distribution of the leading coefficient", "statement": "__wang_leading_coeff(f, {u_i}, alpha, x, c) that succeeds returns delta^(r-1)*f, the polynomials delta*u_i/lc(u_i) and leading coefficients t_i free of x with t_i(alpha) = delta and prod t_i = delta^(r-1)*L, where L is the leading coefficient of f in x and delta = L(alpha) != 0; if f(alpha) = c*prod u_i, the scaled image is the product of the scaled factors.  (The degrees of f fit into the packed words.)", "quantifier": "all polynomials, points, lists of univariate polynomials and contents; all factorizations of L that the call of factorize returns; all random draws", "why_tests_cant": "quantifies over all inputs and all factorizations of the leading coefficient", "anchors": ["clpoly/polynomial_factorize_wang.hh: __wang_leading_coeff"]}
{"id": "C94", "title": "The leading coefficients of true factors are found", "statement": "If f = prod H_i, the u_i are the images of the H_i at alpha up to constants, f(alpha) = c*prod u_i, factorize returns the irreducible factors l_j of the leading coefficient (with the number gamma in front), and each l_j(alpha) has a prime divisor that divides neither c*gamma nor another l_k(alpha), then __wang_leading_coeff succeeds, and its results are the images and the leading coefficients of constant multiples G_i of the H_i with prod G_i = delta^(r-1)*f.", "quantifier": "all factorizations over ZZ in any number of variables, all such points", "why_tests_cant": "quantifies over all factorizations and all points", "anchors": ["clpoly/polynomial_factorize_wang.hh: __wang_leading_coeff"]}
{"id": "C95", "title": "The factors in two variables are found", "statement": "If f = prod H_i in two variables with deg_x H_i > 0, the u_i are the images of the H_i at y = b up to constants and pairwise coprime modulo p, p does not divide L(b), the condition on prime divisors of the property before holds and the coefficients of L(b)*H_i are below p/2, then one round of the factorization (leading coefficients and lifting) ends and returns constant multiples of the H_i.", "quantifier": "all factorizations over ZZ in two variables, all such points and primes, all random draws", "why_tests_cant": "quantifies over all factorizations, points and primes", "anchors": ["clpoly/polynomial_factorize_wang.hh: __wang_leading_coeff", "clpoly/polynomial_factorize_wang.hh: __mtshl_lift", "clpoly/polynomial_factorize_wang.hh: __wang_core"]}
{"id": "C96", "title": "Extended greatest common divisor", "statement": "polynomial_GCD(F, G, s, t) and gcd(F, G, s, t) for nonzero integer polynomials in a lex order end and return canonical c, s, t with s*F + t*G = c; the leading coefficient of c is positive, every common divisor of F and G divides c, for numbers c is the gcd, and c divides a*F and a*G for some a != 0 free of the variable of the elimination (the later one of the first variables of F and G; in one variable a is an integer).  If one operand is zero the other one is returned.  (Runs that leave the packed exponents are excluded; in one variable with degrees below 2^62 there are none.  c need not be a gcd over the integers: 2x and 4x give 4x.)", "quantifier": "all pairs of integer polynomials in any number of variables", "why_tests_cant": "infinite domain; number of steps and sizes depend on the input", "anchors": ["clpoly/polynomial_gcd.hh: polynomial_GCD (extended)", "clpoly/polynomial.hh: pquo"]}
{"id": "C97", "title": "Output of polynomials", "statement": "The text that operator<< and str() write for a canonical polynomial (integer, rational or modular coefficients; several variables or one) is a formula which, read by the usual rules, denotes that polynomial; so different polynomials have different texts.  Assumes that the names of the variables are distinct, begin with no digit and contain none of + - * ^.  (Refuted without that: the library accepts a variable named \"x*y\".)", "quantifier": "all polynomials, all assignments of such names", "why_tests_cant": "infinite domain: signs, coefficients 1 and -1, exponents and numbers in all combinations", "anchors": ["clpoly/basic_polynomial.hh: operator<<", "clpoly/basic_monomial.hh: operator<<", "clpoly/upolynomial.hh: operator<<", "clpoly/variable.hh: is_user_def_variable_name"]}
{"id": "C98", "title": "Real roots of a list of polynomials", "statement": "realroot(F) for integer polynomials in one variable returns, in strictly increasing order, exactly the real roots of the nonzero polynomials of F, each once, as uroot objects (polynomial and isolating interval), and for every root the list of the pairs (index k, multiplicity of the root in F[k]) for the polynomials that vanish there, each index once.  For the empty list both lists are empty; if two different variables occur it throws std::invalid_argument, and only then.  It returns whenever squarefreebasis does.", "quantifier": "all lists of integer polynomials in at most one variable, of degree below 2^63 - 1, all random draws", "why_tests_cant": "infinite domain; completeness over all real numbers and exact multiplicities cannot be observed by tests", "anchors": ["clpoly/realroot.hh: realroot", "clpoly/realroot.cc: uspensky", "clpoly/polynomial_gcd.hh: squarefreebasis"]}
{"id": "C99", "title": "Random systems of polynomials", "statement": "random_polynomials(vars, deg, p1, p2, up, down) returns for every random stream: as many polynomials as there are variables with a neighbour in the random graph, each canonical, of total degree at most deg, with coefficients of the range and variables of vars; two variables occur in one polynomial only if the graph joins them, so the associated graph of the result is a subgraph of the random graph.  random_upolynomial(deg, len, range) returns a polynomial of degree exactly deg with min(len, deg+1) terms and coefficients of the range, if it returns.", "quantifier": "all variable lists without repetition, degrees, ranges and random streams", "why_tests_cant": "a test sees a few streams; termination and the clique property must hold for all of them", "anchors": ["clpoly/random.hh: random_polynomials", "clpoly/random.hh: random_upolynomial", "clpoly/random.hh: random_graph"]}
{"id": "C100", "title": "Multivariate integer polynomial gcd always returns", "statement": "polynomial_GCD / gcd of two multivariate polynomials over ZZ terminates with a result for every pair of operands.  (Refuted: for F = 2x + N, N = (2^64-59)(2^64-83), gcd(F,F) does not return.)", "quantifier": "all pairs of polynomials over ZZ, all variable orders and random evaluation points", "why_tests_cant": "termination over all inputs; the offending inputs have coefficients beyond 2^127", "anchors": ["clpoly/polynomial_gcd.hh: polynomial_GCD", "clpoly/polynomial_gcd.hh: gcd"]}
{"id": "C101", "title": "Numbers are read as they are written", "statement": "Writing a ZZ or a QQ to a stream and reading it back gives the same value in the same representation, with white space in front and anything behind the next white space.  Reading any other text gives the number it denotes (an optional minus sign and digits; for QQ also a quotient of two such texts) or throws, and a QQ that is read is always a valid rational number.  (Refuted in the last part: 3/0 is read as a rational with denominator 0; after the exception for 3/x the object holds 3/(old denominator).)", "quantifier": "all numbers, all texts without null characters, all states of the object read into", "why_tests_cant": "a round trip over unboundedly many numbers and a characterisation of all texts", "anchors": ["clpoly/number/ZZ.hh: operator>>", "clpoly/number/ZZ.hh: ZZ(const char*)", "clpoly/number/QQ.hh: operator>>"]}
{"id": "C102", "title": "The coefficient bound of the lifting", "statement": "For every polynomial f over ZZ, the bound computed for the p-adic phase of the multivariate lifting (largest absolute coefficient times 2^(degree in the main variable + 1)) is at least the absolute value of every coefficient of every divisor of f, so that a modulus above twice the bound determines the factors.  (True for polynomials in one variable; refuted in two: x(1-y)(1-y^2)(1-y^4)(1-y^8) has the bound 4 and the factor (1-y)^4 with the coefficient 6.)", "quantifier": "all polynomials over ZZ, all their divisors, all coefficients", "why_tests_cant": "the divisors of all polynomials of all degrees; a test sees a few factorizations, in which the error of the bound is hidden by the size of the 64-bit prime", "anchors": ["clpoly/polynomial_factorize_wang.hh: __mtshl_coeff_bound", "clpoly/polynomial_factorize_wang.hh: __mtshl_lift"]}
{"id": "C103", "title": "Equality and hashing of polynomial objects", "statement": "For polynomial objects over ZZ, QQ or Zp with one order whose coefficients are in normal form, == holds exactly when they are the same polynomial, and equal polynomials have equal hash_value / std::hash, so that a std::unordered_map or unordered_set of polynomials, monomials or numbers finds a key independently of how it was computed.", "quantifier": "all polynomial objects, all hash functions of words and all mixing functions", "why_tests_cant": "a test compares a few objects; that two ways of computing the same value never give different representations is a statement about all values", "anchors": ["clpoly/basic_polynomial.hh: operator==", "clpoly/basic_polynomial.hh: hash_value", "clpoly/basic_monomial.hh: hash_value", "clpoly/number.hh: hash_value(Zp)"]}
{"id": "C104", "title": "Elimination orders from polynomial systems", "statement": "peo(P) terminates and returns every variable of the polynomials exactly once; if the graph joining two variables that occur together in a polynomial is chordal, the order is a perfect elimination ordering of it, so eliminating in that order adds no edge; for every system, eliminating in that order gives a minimal chordal completion of the graph.  DFV(G, v) is the greatest distance from v to a node that can be reached from it.", "quantifier": "all systems of polynomials (any order, any number of variables); all graphs and nodes", "why_tests_cant": "a test sees a few graphs, while chordality is a condition on all cycles; the search of peo must end for every graph", "anchors": ["clpoly/associatedgraph.hh: peo", "clpoly/associatedgraph.hh: DFV"]}
{"id": "C105", "title": "Height of the elimination tree", "statement": "elimination_height(g, l), for an undirected graph g and an ordering l of all its nodes, is the number of edges of a longest chain of nodes each of which is followed by its first later neighbour in the graph that elimination_game(g, l) returns.", "quantifier": "all undirected graphs, all orderings of their nodes", "why_tests_cant": "all graphs and orderings; the definition quantifies over all chains", "anchors": ["clpoly/associatedgraph.hh: elimination_height"]}
{"id": "C106", "title": "Distance of graphs", "statement": "graph_diff_score(g1, g2) is one minus the quotient of the number of common edges by the number of edges of either graph: it lies between 0 and 1, does not depend on the order of the arguments, and is 0 exactly for graphs with the same edges.  (Proved for graphs on the same nodes; refuted in general: nodes of the second graph only are not looked at.)", "quantifier": "all pairs of graphs", "why_tests_cant": "a statement about all pairs of graphs; tests use graphs on the same nodes", "anchors": ["clpoly/associatedgraph.hh: graph_diff_score"]}
{"id": "C107", "title": "Looking up a term", "statement": "For a polynomial p and a monomial m in normal form, p.find(m) is end() exactly when the coefficient of m in p is 0; otherwise it points to the term of m, whose second component is the coefficient.  The same for polynomials in one variable.", "quantifier": "all polynomials in normal form, all monomials, all orders", "why_tests_cant": "the binary search takes a different path for every size and position; a test sees a few", "anchors": ["clpoly/basic_polynomial.hh: find", "clpoly/basic.hh: pair_vec_find_first"]}
{"id": "C108", "title": "Pseudo-remainder of univariate polynomials", "statement": "upoly_prem(R,F,G,var,is_L) for G != 0 gives R = 0 or deg R < deg G with lc(G)^e F = Q G + R for some Q, e <= max(deg F - deg G + 1, 0), with equality when is_L is set; for G = 0 it throws.", "quantifier": "all integer polynomials F, G in one variable, all names of the variable", "why_tests_cant": "the identity must hold for all coefficients and degrees", "anchors": ["clpoly/upolynomial.hh: upoly_prem"]}
{"id": "C109", "title": "The variables of a polynomial", "statement": "p.variables() / get_variables(p) of a polynomial in normal form is in the order of the variables, has no repetition, and consists of exactly the variables that occur, each with the degree of the polynomial in it.  get_variables of a vector of polynomials lists the variables of all of them with the largest degree; the overload that collects names adds the same names.", "quantifier": "all polynomials and all vectors of polynomials in normal form, all orders", "why_tests_cant": "a merge of sorted lists whose path depends on every pair of neighbours", "anchors": ["clpoly/monomial.hh: __pair_vec_variables", "clpoly/polynomial_.hh: get_variables", "clpoly/basic_polynomial.hh: variables"]}
{"id": "C110", "title": "is_normal recognises normal forms", "statement": "p.is_normal() answers true exactly when the terms are in strictly descending order without a zero coefficient and all monomials are normal; m.is_normal() answers true exactly when the variables are in strict order, no exponent is 0 and the cached degree is the sum of the exponents.  (Proved for nonempty vectors with normal monomials; refuted: for the zero polynomial and for the monomial 1 the check reads past the end, and a polynomial is accepted whose monomials are not normal.)", "quantifier": "all vectors of terms and of variable-exponent pairs", "why_tests_cant": "a characterisation of all vectors", "anchors": ["clpoly/basic_polynomial.hh: is_normal", "clpoly/basic_monomial.hh: is_normal", "clpoly/basic.hh: pair_vec_normal_check", "clpoly/monomial.hh: pair_vec_first_normal_check"]}
{"id": "C111", "title": "Main-variable count and degree of a system", "statement": "__polynomial_m_d(P, l), for polynomials that are not constant and a list l of all their variables without repetition, returns the largest number of polynomials of P with the same first variable in l and the largest degree of a polynomial of P in a variable.  (With a constant among the polynomials the function writes outside its vector of counters.)", "quantifier": "all systems of polynomials that are not constant, all lists of variables", "why_tests_cant": "a statement about all systems and lists", "anchors": ["clpoly/associatedgraph.hh: __polynomial_m_d"]}
{"id": "C112", "title": "Histories of monomial objects", "statement": "After any sequence of constructions, assignments, copies, moves, swaps, push_back / pop_back, clear, normalization, changes of the order, products and quotients of monomial objects, deg() of every object is the sum of its exponents, and two objects compare equal exactly when their vectors are equal; if pairs are only pushed in order and with nonzero exponents, every object stays in normal form and == is equality of power products.  Each call changes only its target (a move also the source, which becomes the monomial 1).  (Refuted when one writes through front(), [], begin(), deg() or calls resize(): the cached degree goes stale.)", "quantifier": "all histories of calls over any number of objects, all orders, all aliasings of target and operands", "why_tests_cant": "a statement about all histories; tests see a few short ones", "anchors": ["clpoly/basic_monomial.hh: basic_monomial", "clpoly/basic_monomial.hh: push_back", "clpoly/basic_monomial.hh: normalization", "clpoly/basic_monomial.hh: operator*", "clpoly/basic_monomial.hh: swap"]}
{"id": "C113", "title": "Histories of polynomial objects", "statement": "For any sequence of constructions, assignments, copies, moves, swaps, push_back in order, sums, differences, negations, products, powers and scalings of polynomial objects, with any sharing of targets and operands, in which operands have one order and products stay within the packing capacity: no call fails, every object stays in normal form, and each object stands for the polynomial that the same assignments compute in the ring of polynomials; so == after two histories answers whether they computed the same polynomial.  (Refuted: multiplication by the coefficient 0 returns a polynomial with the default order, so that the next sum with the other operand fails its assertion; comp(c) does not sort the terms.)", "quantifier": "all histories of calls over any number of objects, all orders, all aliasings of target and operands, all coefficients", "why_tests_cant": "a refinement over all histories; tests see a few short ones", "anchors": ["clpoly/basic_polynomial.hh: basic_polynomial", "clpoly/basic_polynomial.hh: operator+", "clpoly/basic_polynomial.hh: operator*", "clpoly/basic_polynomial.hh: swap", "clpoly/polynomial_.hh: pow", "clpoly/polynomial_.hh: operator*"]}
{"id": "C114", "title": "Memory of integers", "statement": "In every history of calls on ZZ objects in which objects are constructed before they are used and not used after their destructor (and no INT64_MIN is negated or taken modulo -1, no big number divided by 0), with any sharing of operands (x = x, x += x, x.addmul(x, x), swaps, moves): no GMP number is freed twice or used after it is freed, every allocated number belongs to exactly one living object, the objects whose integer fits into 64 bits own none, and when no object is alive nothing is allocated; every object has the value that the same assignments over the integers give it.  A string constructor that throws leaks nothing.", "quantifier": "all histories of calls over any number of objects, all values, all aliasings", "why_tests_cant": "a statement about all histories; a test, even under a leak checker, sees a few", "anchors": ["clpoly/number/ZZ.hh: ZZ", "clpoly/number/ZZ.hh: _mpz_new", "clpoly/number/ZZ.hh: _mpz_del", "clpoly/number/ZZ.hh: _ensure_mpz", "clpoly/number/ZZ.hh: _demote_if_small", "clpoly/number/ZZ.hh: operator=", "clpoly/number/ZZ.hh: addmul"]}
