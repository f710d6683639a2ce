# Formal model of CLPoly in Lean 4

## 1. Method

The C++ in `/repo` is read as text and transcribed function by function into executable Lean
definitions under `lean/Verif/`.  Each definition carries a comment with the file and line range it
models, and says where it simplifies.  The properties of `properties.jsonl` are theorems named
`Cnn_…` in `lean/Verif/Props/`, apart from the models and the helper lemmas; where the English property
is false of the code, the negation is proved with a concrete witness and the strongest true part is
proved with the suffix `_partial`.  Beside each theorem there is an `example` that exercises its
hypotheses on a concrete, non-trivial case.

## 2. Trusted base

* Lean 4.33.0's kernel, with the axioms `propext`, `Classical.choice`, `Quot.sound` only (no own axiom,
  no compiled-code evaluation).
* Mathlib definitions used in statements (`ℤ`, `ℚ`, `ZMod`, `Polynomial`, `AddMonoidAlgebra`,
  `MvPolynomial`, `Ideal`, `Finsupp`, …).
* The reading of the C++ source: the model is not extracted mechanically and the code is not run.
* GMP: an `mpz_t` is an unbounded `ℤ` and each `mpz_*` function computes its documented result;
  division by zero in GMP is the outcome `trap`.
* The C++ runtime: memory allocation, object lifetime/aliasing other than what is modelled, the
  `std::` containers/algorithms behave as specified.  `std::sort` is modelled by what the standard
  promises (a sorted permutation), not by a particular algorithm.
* `interval.hh`/`interval.cc` (marked deprecated in the file, left out of the build and of `clpoly.hh`) and the character
  tests of `parse/basic.hh` (used by nothing) are not modelled.
* Thread interleavings are not modelled (the library has no internal concurrency; the variable registry
  is global and unsynchronised).

## 3. Layers and abstraction steps

| layer | model | ties to next layer |
|---|---|---|
| `ZZ` (number/ZZ.hh) | `small`/`big` representation, C++ UB as outcome `ub`, `throw` as `throws`, GMP SIGFPE as `trap` | C01–C05: outside the listed UB inputs a `ZZ` *is* an integer, so upper layers use `ℤ` |
| `QQ` (number/QQ.hh) | pair num/den of integers with the source's canonicalisation | C06: upper layers use `ℚ` or any field |
| `Zp` (number.hh) | 64-bit words as `Nat` with explicit `% 2^64`, 128-bit products | C07–C10: upper layers use `ZMod p` / any field |
| pair-vector algorithms (basic.hh) | generic in key type, comparator, key product, coefficient ring | instantiated with monomials |
| monomials and orders | sorted lists of (variable, exponent), cached degree | exponent vectors `ℕ →₀ ℤ` |
| packed monomials | 64-bit words with wrap-around | compared with the unpacked algorithm |
| polynomials | sorted lists of (monomial, coefficient) | `AddMonoidAlgebra` / `MvPolynomial` |
| Gröbner, real roots, graphs, dense Zp, factorisation helpers | functional transcriptions | Mathlib ideals, reals, graphs, polynomials |

Exponents: `basic_monomial` stores `int64_t` exponents.  The unpacked layers use unbounded `ℤ`
exponents (overflow of a 64-bit exponent or of the cached degree is *not* modelled there); the packed layer, where the field width is the issue, uses words with wrap-around.

Univariate layer (`Upoly/`): `upolynomial_<T>` is the same pair-vector code with degrees (natural numbers, no `int64_t` overflow) as keys.
`ZZ`, `QQ`, `Zp` coefficients are `ℤ`, `ℚ`, `ZMod p` at this level (justified by C01–C10).  Random numbers are an explicit stream (a list of draws,
each below the modulus), universally quantified.  `std::sort` with a comparator that does not order totally is a parameter of which
only "permutation" is assumed.

Fuel: loops whose termination is not structural take a fuel argument; the theorems show a concrete fuel (or every larger one) sufficient, so that
fuel exhaustion never explains a result, except in the random search of `__edf_Zp`, where termination depends on the stream: there the theorems
are about every terminating run, and separately a terminating stream is shown to exist.

Assertions: a violated `assert` is an explicit failing outcome (`ub`/`none`), i.e. the theorems also show that no assertion fires.

Shifts by the word width (`shl64`): undefined in C++; modelled as on x86 (count modulo 64) where the code performs them (C18).

Graphs (`Graph/`): arrays are functions/lists, the circular queue of the label-correcting search is a list, coin tosses are arbitrary Booleans.

## 4. Plan per property

See the table; `P` = planned full proof, `N` = property false of the code, negation + partial.

| id | model | proof |
|---|---|---|
| C01 | ZZ `+ - * neg += -= *=` | N: exact UB set (`-INT64_MIN`), exact elsewhere |
| C02 | ZZ constructors, compare, hash; histories = lists of ops on a register file | induction over histories |
| C03 | `/ % fdiv_*` | case analysis to `Int.tdiv/fdiv`; N for `fdiv_r`/`fdiv_ui` UB |
| C04 | gcd loop, lcm, abs, pow | Euclid loop invariant; N for `gcd` UB |
| C05 | addmul, submul, shifts | case analysis |
| C06 | QQ canonicalise and operators | refinement to `ℚ`; canonical uniqueness |
| C07 | Zp `+ - neg` on words | refinement to `ZMod p`, arithmetic mod 2^64 |
| C08 | `__preinvert_limb`, `__nmod_mul` | Möller–Granlund style bound on the Barrett quotient |
| C09 | `inv_prime` loop | extended-Euclid invariant |
| C10 | constructors, `pow` | square-and-multiply invariant |
| C11 | registry state machine | invariant over histories; N for clashes with generated names |
| C12, C13 | variable comparators, `pair_vec_comp`, lex, grlex | isomorphism with lexicographic order on exponent functions |
| C14 | monomial operations | pointwise exponent lemmas |
| C15 | sort + merge | N (zero sums kept); value preserved |
| C16 | merge add/sub/negate | induction on merge |
| C17 | chained heap multiplication with array heap, pending counter, re-insertion list | heap invariant, frontier invariant, termination measure |
| C18 | packing, guard, packed multiplication | N: guard inactive for multiplication; partial under the exponent bound |
| C19, C20 | heap division | same frontier invariants; N over ℤ remainder |
| C21 | square-and-multiply | from C17 |
| C22 | equality, lexicographic comparison | canonical forms are unique |
| C23 | scalar / monomial addition | N (zero coefficient kept, empty polynomial UB); partial |
| C24 | prem / pquo loops (`Poly/FnDefs`) | loop invariant `L^e·G = Q·F + S`, for every input whose degrees fit the packed words (C18) |
| C25–C28 | coefficient, substitution, derivative, conversion, reduction mod p (`Poly/FnDefs`, `Poly/ConvertDefs`) | linear maps on terms |
| C29–C32, C48 | normal_form, Buchberger with Gebauer–Möller update, inter-reduction, Ideal | loop invariants over ideals |
| C33 | class `graph` under histories of calls, `associatedgraph`, `connected_branch`, `connected_branch_graph` (`Graph/Defs`) | class invariant; DFS post-condition; isolated nodes give empty branches (exact contract, `C33_isolated_lost`) |
| C34, C53 | `elimination_game`, `__MCS_M`, `chordal_completion`, `__MCS`, `perfect_elimination_ordering` (`Graph/McsDefs`), coin tosses universally quantified | elimination invariant; abstract trace of weights (`Graph/McsAbs`), refined by the label-correcting search (`Graph/McsSpec`, termination by a potential); chordless-path argument for C53 and, in any chordal graph between input and result, for minimality (`mcsM_minimal`) |
| C35, C37, C47 | `RealRootBound`, the four coefficient transforms, `coeffsignchanges` (`Upoly/RealRootDefs`) | Cauchy bound; polynomial identities over ℝ; Mathlib's `signVariations` |
| C36 | `subuspensky`, `uspensky_shrink`, `uspensky` for one polynomial and for a list; recursion is fuel (`none` = goes on). The queue-based overloads in realroot.cc 248–402 are dead code and not modelled | invariant "the current polynomial is the input moved to the unit interval"; 0/1 sign variations (Descartes) with the bisection lemma (variations ≤ 1 is inherited by halves); termination from compactness: near every point of a squarefree polynomial small intervals have ≤ 1 variation. Root 0 of the one-polynomial version refuted |
| C57 | `uroot` comparisons (`_uroot_check`, `uroot::comp`) with the mutations they do to their operands | each object denotes one real number; every refinement keeps the number; result = order of the numbers; bisection loop terminates for different numbers |
| C38–C40, C55 | `dense_upoly_zp` word by word: 3-word accumulators, Barrett reductions, schoolbook, Karatsuba, lazy division, Euclid and the recursive half-gcd (`Dense/Defs`); buffers are functional lists, recursion takes fuel which the theorems show sufficient; assertion failures are `ub` | refinement to `(ZMod p)[X]` (`Dense/Word`, `Lists`, `Div`, `Hgcd`, `Public`); unimodular matrix invariant and degree bounds for the half-gcd; C55: recurrence for the scratch words |
| C41–C43 | `upolynomial_<Zp>`: gcd through the dense code, powmod, squarefree decomposition, DDF, EDF, `__factor_Zp`, extended gcd (`Upoly/Defs`) | multiplicities of irreducibles (`Upoly/Valuation`), Frobenius argument for DDF, trace/power argument for the existence of a splitting draw |
| C44 | integer helpers (`__symmetric_mod`, `__isqrt_ceil`, `__binomial`, `__mignotte_bound`) | Newton iteration invariant; Mahler measure for the Mignotte bound (Mathlib); proved for all integers and polynomials |
| C45 | division mod m, quadratic and linear Hensel step, factor tree, `__hensel_lift` | invariants on congruences modulo m and degrees; induction on the tree and the lifting loop |
| C46, C63 | recombination (`__zassenhaus_recombine`, van Hoeij driver), prime selection, `factorize` with the squarefree decomposition of C61 (`Factor/Defs`, conversions through polynomials in one variable in `Factor/Bridge`) | product invariant with trial division, up to the sign: `C46_sign_wrong` exhibits an input for which the code returns a factorization of −f (the gcd of the squarefree decomposition may come out negative, and the unit −1 is multiplied in once whatever its multiplicity). C63: irreducibility by uniqueness of Hensel lifting and completeness of the subset search. The generic theorems take the rows of the lattice as a parameter (`Rows`); the lattice itself is modelled as well (`factorSqfPrimL`, next row) and every run with it is a run of the generic driver (`Upoly/VHRows`). With the lattice: every row of the reduced matrix is short as long as it has at most 7168 columns for coefficients, the transformation is unimodular, so all candidates are single modular factors and nothing can be grouped wrongly (`Upoly/VHLat`, `Upoly/VHL`); partial because of the degree bound 7168 |
| C75, C76 | `__lll_reduce` with exact rational Gram–Schmidt data, `__cld_polys`, `__build_cld_matrix`, the lattice part of `__vanhoeij_recombine` (`Upoly/LLLDefs`); matrices are functions of two indices, `std::sort` is a stable sort | invariant: `mu`, `B_gs` are the Gram–Schmidt data of the current rows (`Upoly/LLLGs`), `M = U·M₀`, `det U = ±1`, the rows before `k` are reduced; termination by the product of Gram determinants (`Upoly/LLL`); first row by the classical argument (`Upoly/LLLShort`). Singular matrices: the loop never ends for diag(1,0) (`C75_lll_singular_loops`), although the documented precondition allows it |
| C64 | `factorize` for polynomials with monomials in a lexicographic order, in any order, over QQ (`Factor/Defs`, `Factor/Wrap`) | from C46 and C28; univariate inputs in full; several variables through the model of `__factor_multivar` (next row) |
| C72–C74 | `__select_eval_point`, `__extract_monomial_content`, `__wang_core` (batches, rounds, subset recombination), `__factor_multivar` with the recursion through leading coefficients (`Wang/Defs`). `__wang_leading_coeff` and `__mtshl_lift` with all functions under them (lines 209–238, 306–1182, 1312–1525) in `Wang/LiftDefs`; the theorems `…_code_partial` (`Props/FactorCode`) are about the whole code (`facCode`), the others about an arbitrary function in place of the lifting (`Env.lift`); the debug checks and the unused older lifting (lines 1530–2137) are not modelled | C72: every accepted candidate is checked by exact division, so the product invariant holds for whatever is lifted (`Wang/Core`, `Wang/Multi`); C73: invariant of the search (`Wang/Point`); C74: at a good point a factorization with the main variable in both factors would give two irreducible factors of the image (`Wang/Irr`) |
| C65 | resultant.hh in full: `resultant` (both overloads), subresultant branch, `BezoutMatrix`, `det` (`Res/Defs`) | theory of subresultants as determinant polynomials (`Res/Det`, `Res/Chain`): an invariant `Level` of two consecutive elements of the chain, preserved by regular and defective steps, gives exactness of every division; the Bezout rows are row operations on the Sylvester matrix (`Res/Bez`). Consequences (combination, common zeros, common factor) through Mathlib's resultant and Gauss' lemma (`Res/Zero`) |
| C66 | `subresultant`, both modes | same invariant, entry by entry of the vector (`Res/SubLoop`, `Res/SubSpec`); entry 1 below a defective element of degree 1 is never computed: refuted by `C66_chain_defect` |
| C67 | `discriminant` over ZZ (the only coefficient type for which `leadcoeff` with one argument exists) | C65 and Mathlib's `resultant_deriv`; repeated factors through the multiplicity lemmas of C61 |
| C68 | charset.hh 14–97: `rankcompare`, `is_reduced`, `basset` (`Charset/Defs`, `Charset/Basset`) | induction on the loop; minimality by comparing the head of any other chain with the minimum; divergence with a zero element by induction on the fuel |
| C69 | `charset` with its `std::set` (`Charset/Chain`, `Charset/Loop`) | pseudo-division of C24 gives membership in the ideal and the product of initials; termination by Dickson's lemma on the degrees in the main variables. `chk = true`: a variant that gives up where `prem` would overflow its packed exponents |
| C70, C71 | `sqrfree`, `Wucharset` (`Charset/Sqf`, `Charset/Wu`) | C61; zeros by Wu's principle at each node; the recursion is well-founded (the new initial is reduced with respect to the chain, Dickson again) and finitely branching |
| C77, C78 | `is_regular`, `wrsd` (`Charset/RegDefs`); `ZZ` coefficients, `custom_var_order`; checked variants that give up when an operand does not fit or when `subresultant` loses entry 1 of the chain | outcomes as functions of the fuel, eventually constant (`Conv`, `Charset/RegOps`); the principal subresultant coefficients of the specialised polynomials give the gcd at each zero (`Res/Psc`, `Charset/RegWrsd`); recursion on (length, degree of the last element); completeness of the test by a common root over an algebraically closed field (`Charset/RegIs`). The defect of C66 makes `wrsd` wrong (`C78_wrsd_wrong`) |
| C79–C82 | `ZDtoRC`, `GRDforZD`, `rsd`, `RCtoSqrfree`, `GRDforZDSAS` (`Charset/RegDefs`), i.e. the rest of charset.hh | C79: C71 and C78 at each step (GRDforZD refuted for zero-dimensional systems whose Wu decomposition has a free variable); termination by the rank of the chain (`Charset/RegZd`), and runs do not depend on the fuel once they end (`Res/FuelMono`, `Charset/RegMono`). C80, C81: fixed points of the recursion, found by evaluating one level in the kernel and induction on the fuel (`Charset/RegDiv`). C80: induction on the fuel; the first subresultant that does not vanish is the greatest common divisor at every zero of the chain below, whichever operand comes first (`Charset/RegRsd`). C81: division by the last non-vanishing subresultant of an element and its derivative gives its squarefree part at every zero (`Charset/RegSqf`); C82: invariant of the list of systems (`Charset/RegSas`) |
| C83–C85 | the linear algebra of the multivariate Hensel lifting: `__mtshl_zp_univar_mdp`, `__si_vandermonde_solve`, `__si_theta_array_eval` (`Lift/Defs`), over any field (C85: any commutative ring) instead of `Zp` | C83: Bezout coefficients of C38–C40 and uniqueness by degrees (`Lift/Mdp`). C84: the master polynomial and its synthetic division, the inverse of the Vandermonde matrix by Lagrange interpolation (`Lift/Vdm`). C85: induction on the terms with the grouped powers (`Lift/Theta`) |
| C86 | as C72; contract of the lifting `LiftImg` (`Wang/AllIrr`), proved for the lifting of the code with `chk = true` (`Wang/LiftOps` … `Wang/LiftLead`, `Wang/Code`); every such run is a run of the code (`Wang/LiftSub`) | a divisor of the polynomial has at the point an image that is a product of the univariate factors; factors found with one candidate are irreducible, and no candidate is skipped (`Wang/IrrMath`, `Wang/Full`, `Wang/AllIrr`) |
| C87 | `__taylor_coeff_zp` (`Wang/LiftDefs`) over any field | the loop of divisions by `x − a`, uniqueness of the expansion (`Wang/LiftTaylor`) |
| C88 | `__mtshl_sparse_int` with its images, systems and final check of the equation (`Wang/LiftDefs`) | the final comparison of the images is turned into the equation itself, degrees from the images (`Wang/SparseExact`, `Wang/SolveExact`); the test makes no exponent overflow (`Wang/SparseTotal`) |
| C89 | `__mtshl_multi_bdp`, `__mtshl_wmds` | refuted by a run of the model; proved in `Wang/DenseExact` when the solution has no larger degree in the auxiliary variable than the right hand side (Taylor coefficients of the solution, one order per step), total version in `Wang/DenseTotal`; the positive part is used in C91 as the flag `ex`; C91 without it is refuted by a run as well |
| C90, C91 | `__mtshl_lift`, `__mtshl_step_j` with all functions called | invariant of the steps: the current factors agree with the `H_i` modulo `(y − b)^k`; the error has exactly one solution of small degree (`Wang/HenselMath`, `Wang/LiftLin` … `Wang/LiftComplete`, `Wang/SolveExact`); termination and absence of the excluded events in two variables (`Wang/LiftTotal`) |
| C92 | `__mtshl_sparse_int` with all functions called | the images of the solution solve the univariate equations, which are uniquely solvable at a good point; the Vandermonde systems return its coefficients; the final test succeeds without overflow (`Wang/SparseComplete`) |
| C93–C95 | `__wang_leading_coeff`, the round of `__wang_core` | success excludes overflow, since the exponents are compared with their sums (`Wang/LeadUp`); exact division of the values gives `∏ tᵢ = δ^(r−1)·L` (`Wang/LeadExact`); with a prime divisor of its own, the exponent of each factor of `L` in each `lc(H_i)` is the valuation that the code computes (`Wang/LeadTotal`, `Wang/LeadFound`); C95 combines this with C90 |
| C96 | extended `polynomial_GCD(F, G, s, t)` (polynomial_gcd.hh 450–563; `Gcd/ExtDefs`) | loop invariants `sᵢ·F + tᵢ·G = rᵢ`; the degree in the elimination variable falls; going back, `c` divides every `rᵢ` up to leading coefficients (`Gcd/ExtSpec`); in one variable a degree invariant shows that nothing leaves the packed words; that `c` is a gcd over ℤ is refuted |
| C97 | `operator<<`, `str()` of monomials, polynomials, polynomials in one variable and numbers (`Print/Defs`); decimal output of machine integers and `mpz_t` is trusted | `Print/Read` is an independent definition of what a formula means; each term is cut out at its sign, its factors at `*`, exponents at `^`, and the decimal digits are read back (`Print/Spec`). Names with operators are refuted |
| C98 | `realroot(F)` (`Real/Defs`), on top of `squarefreebasis` (`Gcd/SqfDefs`), `poly_convert` to `upolynomial_` (`Factor/Defs`) and the list version of `uspensky` (`Upoly/RealRootDefs`) | squarefree and coprime over ℤ implies the same over ℚ (Gauss); each entry of the isolation is a simple root of one element of the basis and of no other, so the multiplicity in an input is the recorded exponent (`Real/Spec`); records are unique because the squarefree parts of an input are coprime (`Gcd/BasisTags`). With one variable the modular gcd of the code needs no size condition |
| C99 | `random_polynomials` and `random_upolynomial` (`Random/Many`), streams as in C50; the sparsity parameters only enter through the draws | the greedy neighbour set is a clique that contains the node (induction on the neighbours); then C50 and C33 |
| C100 | multivariate `gcdZ` (`Gcd/Defs`), `strict = false` | refuted (`Gcd/Diverge`): on polynomials in one variable the Chinese-remainder step is the univariate one, so the invariant of `Upoly/GcdDiverge` carries over to `primeLoop`; the trial division by the candidate x of 2x + N fails |
| C101 | `operator<<`, `operator>>` of `ZZ` and `QQ`, the constructor from a text (`Num/IO`); a stream is the list of the characters to be read, `mpz_set_str` (base 10) is transcribed from GMP | the words GMP accepts are exactly the numerals; with `canonicalize` (C06) and the uniqueness of representations the round trip. Invalid rationals refuted |
| C102 | `__mtshl_coeff_bound` (`coeffBound` in `Wang/LiftDefs`) | one variable: Mignotte's bound (Mahler measure, Mathlib) and C(d,⌊d/2⌋)²(d+1) ≤ 4^d by induction; two variables: a counterexample |
| C103 | `operator==` and `hash_value` of polynomials, monomials and numbers as objects (`Poly/Hash`); Boost's mixing function is a parameter | normal forms: equal values have equal representations, so every function of the representation agrees |
| C104 | `peo` (all of it: eccentricities, degree scores, weights, label search), `DFV` (`Graph/PeoDefs`); arrays are functions, the two `while` loops have a bound on their rounds that is proved sufficient | breadth-first invariant (`Graph/DfvSpec`); the weights of `peo` refine the abstract MCS-M trace of C53 (`Graph/PeoSpec`), termination by a potential; minimality of the elimination graph by the same argument (`trace_minimal`) |
| C105 | `elimination_height` on the model of `elimination_game` | loop invariant: `height` is the length of a longest chain through eliminated nodes (`Graph/HeightSpec`) |
| C106 | the two counters of `graph_diff_score` (the quotient of doubles is not modelled) | exact counts as sums of cardinalities (`Graph/DiffSpec`); score 0 and symmetry for graphs on the same nodes; counterexample with other nodes |
| C107 | `find` of polynomials (`Poly/Find`): `std::lower_bound` as the bisection of libstdc++ (positions instead of iterators), then the comparison of the keys | loop invariant of the bisection on a vector sorted by a strict total order |
| C108 | `upoly_prem` (`Factor/UPrem`): conversion, `prem` for the order with priority variable, conversion | contract of `prem` (C24); the pseudo-remainder has no other variable by uniqueness (substitute 0 for the others) |
| C109 | the merge of a monomial into the list of variables (`Poly/VarList`: `varMerge`, `addVariables`) | invariant of the merge: sorted, exponent of a variable = maximum, names = union; degree of the polynomial = largest exponent (C16 bridge) |
| C110 (partial) | `pvNormalCheck` (`PairVec/Defs`), `Mono.isNormal`, `polyIsNormal` | transitivity: neighbours in order ⇔ all pairs in order; false parts by counterexample (empty vector, non-normal monomials) |
| C111 | `__polynomial_m_d` (`Graph/MD`): map of positions, counters, maximum | counters after the loop = number of polynomials with that smallest position; C109 for the variables; constants write outside (`C111_constant`) |
| C112 | `Mono/Objects`: store of monomial objects, the calls of basic_monomial.hh 64–213 as steps, histories as lists of calls | invariants over histories (degree; normal form), frame conditions of each call, counterexample histories |
| C113 | `Poly/Objects`: store of polynomial objects, calls as steps; `specRun`: the same calls as assignments over `MvPolynomial` | refinement by induction on the history, from C15–C17, C21, C23; counterexample histories for scaling by 0 and `comp(c)` |
| C114 | `Num/Memory`: heap of GMP numbers, `ZZ` objects with inline value and pointer, constructors, destructor, assignments, moves, arithmetic as steps that fail on double free or dangling pointers; `specRun`: assignments over integers | refinement by induction on the history with an ownership invariant (`Inv`); leak freedom and the count of allocations follow |
| C49 | `cont` of univariate polynomials, division by it, primitive part of the gcd (`Upoly/GcdZDefs`) | gcd fold (`Upoly/Content`) |
| C51, C52 | `groebner_basis` over ZZ via conversion to QQ, `normal_form` over ZZ (`Groebner/ZZDefs`) | C51 from C30–C32; C52 is refuted, soundness only |
| C54, C56 | univariate gcd over ZZ (`Upoly/GcdZDefs`): shortcuts, heuristic evaluation, modular loop with CRT and trial division, extended pseudo-Euclid. `prev_prime_64` is a parameter; the number of rounds is fuel | result divides both by the trial division; every image bounds the degree from above; Cauchy bound for the heuristic (`Upoly/Heu`). C56 (termination): `Upoly/GcdLive`, partial: two primes that show the degree of the gcd suffice when they exceed twice the coefficients of the scaled gcd; beyond that the state kept after a failed trial division is no longer a residue. `Upoly/FirstPrime`: the start value 2^64−59 is prime (Lucas' test). Refutation (`Upoly/GcdDiverge`): for 2x + N the rejected candidate x replaces the image 2x; invariant: image ≡ x modulo N and ≡ 2x + N modulo all later primes, with coefficients at most half the modulus, hence never a multiple of 2x + N |
| C50 | `Random/*`: binomials with `uint64_t` wrap-around, unranking, `random_select`, both `random_polynomial`s, `RandomSample`, `random_polynomial_QQ`, `random_graph`; the values drawn are parameters | unranking is injective (hockey-stick identity), the dense enumeration decreases lexicographically; all for every stream |
| C59–C62 | multivariate gcd over ZZ (`Gcd/Defs`): single-term shortcut, equalisation of main variables, contents, the modular loop with CRT and trial division, the recursive evaluation/interpolation gcd over Zp with random points, `cont`, `pp`; `Gcd/SqfDefs`: `is_squarefree`, `squarefreefactorize`, `squarefreebasis` and the overloads for other orders. Random draws are a list that the run consumes; `prev_prime_64` is a parameter; loops take fuel | partial correctness in a small state/option monad (`Gcd/Run`): every modular image bounds the degree of the gcd from above (`Gcd/ModP`), so a primitive candidate of that degree that divides both operands is a gcd (`Gcd/Theory.isGcd_of_degree`); squarefree parts through multiplicities of primes (`Gcd/SqfTheory.nu`). Partial: runs of the `strict` variant (an extra check of the candidate, see Props/MGcd), or of the code as it is when all primes used are at least 2^63 and the bound `growB` on the growth of coefficients of divisors (`Gcd/Growth`: Gelfond's inequality in several variables, by induction on the number of variables) is at most 2^63; with one variable the bound is 1, so `C59_gcd_univariate` needs no extra check |
| C58 | the same `RandomSample` | refuted: the sample is always a permutation of a prefix |

Status is kept in MANIFEST.json.
