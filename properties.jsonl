{"id": "C01", "title": "BigInt::power is exponentiation", "statement": "`x.power(n)` equals the n-th power of x for every n >= 0 (0.power(0) is 1), for the i32 and the BigInt exponent versions alike; for negative n it returns x unchanged (it never panics and never loops).", "quantifier": "every integer base, every integer exponent", "why_tests_cant": "Inputs are unbounded integers; a test checks finitely many of them. Square-and-multiply bugs show only for particular bit patterns of n.", "anchors": ["src/bigint.rs: Power::power"]}
{"id": "C02", "title": "BigInt::power_modulo is modular exponentiation", "statement": "For modulus p >= 1 and exponent n >= 1, `x.power_modulo(n,p)` is the canonical residue in [0,p) of x^n; it panics exactly when p = 0 (and n != 0). (The code returns 1 for n = 0 without reducing: for p = 1 that is not the canonical residue.) For n != 0 and any p != 0 the result is congruent to x^n (to x itself for a negative n) and lies in [0,p), for a negative p in (p,0].", "quantifier": "every base, every exponent, every modulus", "why_tests_cant": "Inputs are unbounded integers; a test checks finitely many of them.", "anchors": ["src/bigint.rs: PowerModulo::power_modulo"]}
{"id": "C03", "title": "BigInt::inverse is the modular inverse", "statement": "For every prime p and every a not divisible by p, `a.inverse(p)` is the unique r in [0,p) with a*r = 1 mod p; it panics exactly when p < 2. For every p > 2, prime or not, the answer is the residue of a^(p-2), an inverse exactly if a^(p-1) = 1 mod p (so 2.inverse(9) = 2 is wrong).", "quantifier": "every prime modulus, every integer a; every modulus for the last part", "why_tests_cant": "Needs Fermat's little theorem for all primes.", "anchors": ["src/bigint.rs: Inverse::inverse"]}
{"id": "C04", "title": "extended_gcd returns a Bezout identity", "statement": "`extended_gcd(a,b)` terminates for all a,b and returns (g,x,y) with a*x + b*y = g and |g| = gcd(a,b); for non-negative inputs g is gcd(a,b) itself. The coefficients are small: |x| |g| <= max(|g|,|b|) and |y| |g| <= max(|g|,|a|). The recursion nests at most 2s+1 deep, s the number of binary digits of a.", "quantifier": "every pair of integers, any sign", "why_tests_cant": "Inputs are unbounded integers; a test checks finitely many of them.", "anchors": ["src/bigint.rs: extended_gcd"]}
{"id": "C05", "title": "chinese_remainder solves every congruence", "statement": "For positive pairwise coprime moduli the result (l,r) has l = product of the moduli and r congruent to every given residue modulo its modulus; consequently r is determined modulo l. (r itself is not normalised to [0,l).)", "quantifier": "every list length, every list of pairwise coprime moduli and residues", "why_tests_cant": "Any number of congruences, any size.", "anchors": ["src/bigint.rs: chinese_remainder"]}
{"id": "C06", "title": "sigma_divisor is the divisor power sum", "statement": "`sigma_divisor(n,k)` = sum of d^k over the positive divisors d of n, for all 1 <= n < 2^31-1 and k >= 0; it is 0 for n <= 0 or k < 0. In a release build, where i32 arithmetic wraps, the results are the same except that sigma_divisor(2^31-1,k) is 0, which is wrong for every k.", "quantifier": "every n and k in i32", "why_tests_cant": "Inputs are unbounded integers; a test checks finitely many of them.", "anchors": ["src/divisor.rs: sigma_divisor"]}
{"id": "C07", "title": "Variable, monomial and term orders are lawful", "statement": "The `Ord` instances are total orders (reflexive, antisymmetric up to ==, transitive, total), consistent with `==` for variables and monomials, so the BTreeMap inside Polynomial behaves as a map; the order of monomials is lexicographic in (x,y,q,variable), with the empty variable first. `partial_cmp` is never None, and the operators <, >, <=, >= on all three types are those of that order (terms: of their monomials).", "quantifier": "every pair / triple of values", "why_tests_cant": "Order axioms quantify over all triples.", "anchors": ["src/subscripted_variable.rs: Ord, PartialOrd, PartialEq", "src/term.rs: Ord and PartialOrd for Monomial and Term"]}
{"id": "C08", "title": "Subscripted variable converter is a bijection", "statement": "For a prime p, `count()` is (p+1)(p+2)/2. `index_from_variable` is injective from the variables c_i_j with 0 <= i <= j <= p onto 0..count, gives None for the empty variable and panics for every other variable. `variable_from_index` is its inverse on the indices below both count and 2^31 (all of them when count <= 2^31); every other index below 2^32 makes it panic, and an index k >= 2^32 behaves as k mod 2^32 (the code truncates it), so it can return a variable although it is out of range. In a release build, where i32 arithmetic wraps, the results are the same whenever a dev build does not panic with an overflow. In a release build, where the counter wraps, the round trip holds for every index below the count and 2^32; for p = 2^31-1, a prime, the converter has no variables there.", "quantifier": "every prime p with p+1 in i32, every u64 index, every variable", "why_tests_cant": "All primes and all indices; truncation of the index to 32 bits only shows for huge indices.", "anchors": ["src/subscripted_variable.rs: SubscriptedVariableConverter"]}
{"id": "C09", "title": "Polynomial +, -, unary -, +=, -= are ring operations", "statement": "Adding, subtracting and negating polynomials (also with a Term on either side, and through the assigning operators) computes the sum, difference and negation in the ring of Laurent polynomials in x, y, q with subscripted variables, whatever the terms of the operands. `+=` and `-=` update the receiver term by term and never panic.", "quantifier": "every pair of polynomials / terms", "why_tests_cant": "Polynomials with any number of terms and any big-integer coefficients; tests check a handful of literals.", "anchors": ["src/polynomial.rs: + - += -= Neg", "src/term.rs: + -"]}
{"id": "C10", "title": "Polynomial multiplication is ring multiplication", "statement": "Whenever `a * b` (also Term*Polynomial, Polynomial*Term, *=) returns, the result is the product in the Laurent polynomial ring; it returns unless two terms with variables meet or an exponent sum leaves i32. When `a *= b` panics, a is unchanged. In a release build, where i32 arithmetic wraps, the results are the same whenever a dev build does not panic with an overflow. Where it does panic, the release build silently returns a product with wrapped exponents: correct in every ring in which x^(2^32) = y^(2^32) = q^(2^32) = 1, wrong in the Laurent polynomial ring.", "quantifier": "every pair of polynomials", "why_tests_cant": "Polynomials with any number of terms and any big-integer coefficients; tests check a handful of literals.", "anchors": ["src/polynomial.rs: * *=", "src/term.rs: *"]}
{"id": "C11", "title": "Equality of polynomials is equality of values", "statement": "Two polynomials that denote the same ring element are `==`, and conversely. (True for polynomials without stored zero coefficients; + and - of two such polynomials cannot introduce one, but multiplication, Term+Term and += of a zero Term can, and then == fails on equal values.)", "quantifier": "every pair of polynomials produced by the API", "why_tests_cant": "Polynomials with any number of terms and any big-integer coefficients; tests check a handful of literals.", "anchors": ["src/polynomial.rs: PartialEq, + - *", "src/term.rs: +"]}
{"id": "C12", "title": "Polynomial::power is exponentiation", "statement": "Whenever `f.power(n)` returns, its value is f^n in the Laurent polynomial ring (n = 0 gives 1); it panics for n < 0; square and cube are the 2nd and 3rd powers. In a release build, where i32 arithmetic wraps, the results are the same whenever a dev build does not panic with an overflow. Where it does panic, what the release build returns is still the power in every ring in which x^(2^32) = y^(2^32) = q^(2^32) = 1.", "quantifier": "every polynomial, every exponent", "why_tests_cant": "Polynomials with any number of terms and any big-integer coefficients; tests check a handful of literals.", "anchors": ["src/polynomial.rs: Power for Polynomial, square, cube"]}
{"id": "C13", "title": "Reduction modulo p is canonical coefficientwise", "statement": "`f % p` and `f.modular_assign(p)` return, for p >= 1, the polynomial whose coefficients are the residues in [0,p) of f's coefficients, with no zero coefficient stored; hence two polynomials have `==` reductions exactly when they are congruent modulo p; they agree with each other; for p <= 0 and f with a stored term they panic. When `modular_assign` panics, the receiver (polynomial or term) is unchanged, although it writes the coefficients in place.", "quantifier": "every polynomial, every modulus", "why_tests_cant": "Polynomials with any number of terms and any big-integer coefficients; tests check a handful of literals.", "anchors": ["src/polynomial.rs: Rem, modular_assign"]}
{"id": "C14", "title": "Polynomial::power_modulo", "statement": "For p >= 1 and n >= 1, `f.power_modulo(n,p)` is congruent to f^n modulo p with coefficients in [0,p) and no stored zero. (For n = 0 it returns f % p instead of 1.) In a release build, where i32 arithmetic wraps, the results are the same whenever a dev build does not panic with an overflow.", "quantifier": "every polynomial, exponent and modulus", "why_tests_cant": "Polynomials with any number of terms and any big-integer coefficients; tests check a handful of literals.", "anchors": ["src/polynomial.rs: power_modulo"]}
{"id": "C15", "title": "polynomial_modular is the remainder of univariate division", "statement": "For p prime and a divisor g in x alone of positive degree whose leading coefficient is not divisible by p, `f.polynomial_modular(g,p)` terminates for every f in x alone with non-negative exponents and returns the remainder of f modulo g over GF(p), coefficients in [0,p). The loop takes at most deg f + 2 turns. For a constant or zero divisor it never returns. For every p >= 2, prime or not: whatever is returned is reduced, of lower degree than g and congruent to f modulo g and p; the call returns for every f exactly if c^(p-1) = 1 modulo every prime factor of p (c the leading coefficient of g, g of positive degree), otherwise some f make it run for ever; for p < 2 it panics unless f has lower degree. In a release build, where i32 arithmetic wraps, the results are the same whenever a dev build does not panic with an overflow.", "quantifier": "every prime p, every dividend and divisor; for soundness and domain every modulus", "why_tests_cant": "Polynomials with any number of terms and any big-integer coefficients; tests check a handful of literals. Non-termination cannot be observed by a test.", "anchors": ["src/polynomial.rs: polynomial_modular"]}
{"id": "C16", "title": "gcd is the monic greatest common divisor over GF(p)", "statement": "For non-zero univariate f, g whose leading coefficients are not divisible by p, `f.gcd(g,p)` returns the monic gcd over GF(p) with coefficients in [0,p). (It does so exactly when the gcd has positive degree; for coprime inputs it never returns.) The recursion nests at most min(deg f, deg g) + 2 deep in either case: for coprime inputs it is a loop that hangs. For every modulus p >= 2, prime or not, an answer is c^(p-2) times a greatest common divisor e (a common divisor every common divisor divides) with leading coefficient c; so every common divisor divides the answer, and it is itself a greatest common divisor if p divides c^(p-1)-1. In a release build, where i32 arithmetic wraps, the results are the same whenever a dev build does not panic with an overflow.", "quantifier": "every prime p, all univariate polynomials; every modulus p >= 2 for the last part", "why_tests_cant": "Polynomials with any number of terms and any big-integer coefficients; tests check a handful of literals. Termination/non-termination for all inputs.", "anchors": ["src/polynomial.rs: gcd"]}
{"id": "C17", "title": "is_gcd_one decides coprimality", "statement": "`f.is_gcd_one(g,p)` returns true exactly when f and g are coprime over GF(p). (Violated: it never returns false for non-zero inputs, and does not return at all for coprime inputs.) In a release build, where i32 arithmetic wraps, the results are the same whenever a dev build does not panic with an overflow.", "quantifier": "every prime p, all univariate polynomials", "why_tests_cant": "Polynomials with any number of terms and any big-integer coefficients; tests check a handful of literals.", "anchors": ["src/polynomial.rs: is_gcd_one"]}
{"id": "C18", "title": "to_monic", "statement": "For p prime and leading coefficient not divisible by p, `f.to_monic(p)` has leading coefficient 1, is a GF(p)-scalar multiple of f and is reduced. For every modulus: p < 2 panics on a non-zero polynomial; p >= 2, prime or not, multiplies by c^(p-2) (c the leading coefficient), so the result is monic of the same degree exactly if p divides c^(p-1)-1. In a release build, where i32 arithmetic wraps, the results are the same whenever a dev build does not panic with an overflow.", "quantifier": "every prime p, every univariate polynomial; any modulus p for the last part", "why_tests_cant": "Polynomials with any number of terms and any big-integer coefficients; tests check a handful of literals.", "anchors": ["src/polynomial.rs: to_monic"]}
{"id": "C19", "title": "derivative_x / derivative_y are the partial derivatives", "statement": "For polynomials with non-negative exponents `derivative_x`, `derivative_y` are the formal partial derivatives, with no stored zero; a negative exponent makes them panic.", "quantifier": "every polynomial", "why_tests_cant": "Polynomials with any number of terms and any big-integer coefficients; tests check a handful of literals.", "anchors": ["src/polynomial.rs: derivative_x, derivative_y", "src/term.rs: derivative_x, derivative_y"]}
{"id": "C20", "title": "reduction rewrites y^2 and preserves the class", "statement": "`f.reduction(a,b)` returns a polynomial of y-degree < 2 that is congruent to f modulo y^2 - (x^3+ax+b). In a release build, where i32 arithmetic wraps, the results are the same whenever a dev build does not panic with an overflow.", "quantifier": "every polynomial with non-negative exponents, every a, b", "why_tests_cant": "Polynomials with any number of terms and any big-integer coefficients; tests check a handful of literals.", "anchors": ["src/polynomial.rs: reduction"]}
{"id": "C21", "title": "reduction_modular", "statement": "`f.reduction_modular(a,b,p)` returns, for p >= 1, a polynomial of y-degree < 2 with coefficients in [0,p) that is congruent to f modulo (p, y^2-(x^3+ax+b)); its recursion always stops. In a release build, where i32 arithmetic wraps, the results are the same whenever a dev build does not panic with an overflow.", "quantifier": "every polynomial, a, b, p", "why_tests_cant": "Polynomials with any number of terms and any big-integer coefficients; tests check a handful of literals.", "anchors": ["src/polynomial.rs: reduction_modular"]}
{"id": "C22", "title": "Evaluation at points", "statement": "`eval_xy(x,y)` of a polynomial in x,y with non-negative exponents is its value; `eval_x` / `eval_y` substitute one variable and leave the other, and eval_x then eval_y then to_scalar equals eval_xy; evaluation is additive and multiplicative.", "quantifier": "every polynomial, every point", "why_tests_cant": "Polynomials with any number of terms and any big-integer coefficients; tests check a handful of literals.", "anchors": ["src/polynomial.rs: eval_xy, eval_x, eval_y, to_scalar", "src/term.rs: eval_xy"]}
{"id": "C23", "title": "eval_x_polynomial / eval_y_polynomial are substitutions", "statement": "Whenever they return, the result is the ring element obtained by substituting the given polynomial for x (resp. y). In a release build, where i32 arithmetic wraps, the results are the same whenever a dev build does not panic with an overflow.", "quantifier": "every polynomial, every substituted polynomial", "why_tests_cant": "Polynomials with any number of terms and any big-integer coefficients; tests check a handful of literals.", "anchors": ["src/polynomial.rs: eval_x_polynomial, eval_y_polynomial", "src/term.rs: eval_x_polynomial, eval_y_polynomial"]}
{"id": "C24", "title": "to_frob / to_y_power / to_q_power substitute powers", "statement": "`to_frob(n)` is the ring map x -> x^n, y -> y^n; `to_y_power(n)` y -> y^n; `to_q_power(n)` q -> q^n. (Holds for n != 0; for n = 0 terms that collide overwrite each other.) In a release build, where i32 arithmetic wraps, the results are the same whenever a dev build does not panic with an overflow.", "quantifier": "every polynomial, every n", "why_tests_cant": "Polynomials with any number of terms and any big-integer coefficients; tests check a handful of literals.", "anchors": ["src/polynomial.rs: to_frob, to_y_power, to_q_power"]}
{"id": "C25", "title": "Coefficient extraction", "statement": "For f in q and variables, f is the sum over k of q^k * to_q_power_coef(k); to_variable_coef(v) is the coefficient of v in a q-free polynomial; they panic if x or y (or q) occur; to_scalar of a polynomial without subscripted variables returns c exactly if the polynomial is the constant c, and panics exactly if it is not constant.", "quantifier": "every polynomial, power, variable", "why_tests_cant": "Polynomials with any number of terms and any big-integer coefficients; tests check a handful of literals.", "anchors": ["src/polynomial.rs: to_q_power_coef, to_variable_coef"]}
{"id": "C26", "title": "omit_high_order_q truncates", "statement": "`omit_high_order_q(N)` keeps exactly the terms of q-order <= N; `power_omit_high_order_q(n,N)` is congruent to the n-th power modulo q^(N+1) for f with non-negative q-exponents and has no term of higher order. For a Laurent polynomial whose q-exponents are all >= -m and n >= 1, the result has no term above order N and agrees with the n-th power in every coefficient of order <= N-(n-1)m; agreement up to order N itself can fail (q^-1 + q squared at N = 0). When `omit_high_order_q` panics, the receiver is unchanged. In a release build, where i32 arithmetic wraps, the results are the same whenever a dev build does not panic with an overflow.", "quantifier": "every polynomial in q and variables, every order", "why_tests_cant": "Polynomials with any number of terms and any big-integer coefficients; tests check a handful of literals.", "anchors": ["src/polynomial.rs: omit_high_order_q, power_omit_high_order_q"]}
{"id": "C27", "title": "degree_x and highest_term_x", "statement": "For a univariate polynomial without stored zero coefficients, degree_x is its degree and highest_term_x its leading term; degree_x panics exactly when y or q occur.", "quantifier": "every polynomial", "why_tests_cant": "Polynomials with any number of terms and any big-integer coefficients; tests check a handful of literals.", "anchors": ["src/polynomial.rs: degree_x, highest_term_x"]}
{"id": "C28", "title": "Division by a monomial", "statement": "If every coefficient of f is divisible by c, then `f / (c m)` times c m is f; the quotient by a monomial is termwise floor division otherwise; it panics for a zero divisor, for several terms and for a divisor with a variable. When `/=` panics, the receiver is unchanged. In a release build, where i32 arithmetic wraps, the results are the same whenever a dev build does not panic with an overflow.", "quantifier": "every polynomial, every monomial divisor", "why_tests_cant": "Polynomials with any number of terms and any big-integer coefficients; tests check a handful of literals.", "anchors": ["src/polynomial.rs: /", "src/term.rs: /"]}
{"id": "C29", "title": "psi computes the division polynomials", "statement": "Whenever `psi(a,b,n)` returns, its value is the n-th division polynomial of y^2=x^3+ax+b in its reduced form (y-degree < 2), for all integers a,b and n >= 0. In a release build, where i32 arithmetic wraps, psi also returns for n >= 65537, where a dev build panics; the result is then not the division polynomial.", "quantifier": "every a, b, n", "why_tests_cant": "The recursion is unbounded in n and polynomial in a, b; tests check n <= 5 at a=b=1.", "anchors": ["src/division_polynomial.rs: psi"]}
{"id": "C30", "title": "phi computes the x-numerator of multiplication by n", "statement": "Whenever `phi(a,b,n)` returns, its value is x psi_n^2 - psi_{n+1} psi_{n-1} reduced, a polynomial in x alone, equal to Mathlib's Phi_n. In a release build phi also returns from n = 46341 on, where a dev build panics (up to 2^31-2); the result is then not Phi_n.", "quantifier": "every a, b, n >= 1", "why_tests_cant": "As for psi.", "anchors": ["src/division_polynomial.rs: phi"]}
{"id": "C31", "title": "omega computes the y-numerator of multiplication by n", "statement": "Whenever `omega(a,b,n)` returns with n >= 2, 4y omega_n = psi_{n+2} psi_{n-1}^2 - psi_{n-2} psi_{n+1}^2 modulo the curve equation: the division by 4y in the code is exact; for n = 1 it is y.", "quantifier": "every a, b, n >= 1", "why_tests_cant": "Exactness of an integer division for all n.", "anchors": ["src/division_polynomial.rs: omega"]}
{"id": "C32", "title": "Division polynomials do not panic", "statement": "psi(a,b,n), phi(a,b,n), omega(a,b,n) return for every a, b and exactly for the n whose exponents stay inside i32: 0 <= n <= 65536 for psi, 1 <= n <= 46340 for phi, 1 <= n <= 37837 for omega; for every other n they panic (they never loop). For n <= 2^k+4 psi nests at most k+2 deep. In a release build, where i32 arithmetic wraps, the results are the same whenever a dev build does not panic with an overflow. There psi returns for every n >= 0, phi for 1 <= n <= 2^31-2 and omega for 1 <= n <= 2^31-3; every other n still panics.", "quantifier": "every a, b, n up to the bound", "why_tests_cant": "Absence of panics for all inputs.", "anchors": ["src/division_polynomial.rs: psi, phi, omega"]}
{"id": "C33", "title": "eisenstein4 is the truncated Eisenstein series", "statement": "`eisenstein4(N)` = 1 + 240 sum_{1<=n<=N} sigma_3(n) q^n. It returns for every i32 order except the largest i32. In a release build the results are the same, and the largest i32 as order gives 1, which is wrong.", "quantifier": "every order N >= 0", "why_tests_cant": "Unbounded order.", "anchors": ["src/eisenstein.rs: eisenstein4"]}
{"id": "C34", "title": "delta1 is the truncated product", "statement": "`delta1(N)` equals prod_{n>=1} (1-q^n)^24 modulo q^(N+1), and has no term beyond q^N. It returns exactly for i32 orders N with 2N <= 2^31-1 (otherwise it panics), and is 1 for a negative order. In a release build the results are the same whenever a dev build does not panic with an overflow; for the largest i32 it returns 1, which is wrong.", "quantifier": "every order N >= 0", "why_tests_cant": "Unbounded order.", "anchors": ["src/delta.rs: delta1"]}
{"id": "C35", "title": "delta1_inverse inverts delta1", "statement": "`delta1_inverse(N)` * delta1(N) = 1 modulo q^(N+1). It returns exactly for i32 orders N with 2N <= 2^31-1 (otherwise it panics), and is 1 for a negative order. In a release build the results are the same whenever a dev build does not panic with an overflow; for the largest i32 it returns 1, which is wrong.", "quantifier": "every order N >= 0", "why_tests_cant": "Unbounded order.", "anchors": ["src/delta.rs: delta1_inverse"]}
{"id": "C36", "title": "j_invariant is the truncated q-expansion of j", "statement": "`j_invariant1(N)` = E4^3/prod(1-q^n)^24 modulo q^(N+1); `j_invariant(N)` is q^-1 times j_invariant1(N+1); coefficients computed with a larger order extend those with a smaller one. In a release build, where i32 arithmetic wraps, the results are the same whenever a dev build does not panic with an overflow. For the largest i32 as order both functions then return 0.", "quantifier": "every order N", "why_tests_cant": "Unbounded order.", "anchors": ["src/j_invariant.rs: j_invariant1, j_invariant"]}
{"id": "C37", "title": "solve solves the linear system", "statement": "For an integer matrix [A|b] whose system has an integer solution x and whose columns are independent, `solve` returns a matrix whose i-th row gives x_i in the last column, divided by the i-th diagonal entry; all diagonal entries of rows >= 1 are 1. (Row 0 is not normalised.) It panics exactly when the unknown columns are dependent (or the matrix is malformed). In a release build, where i32 arithmetic wraps, the results are the same whenever a dev build does not panic with an overflow.", "quantifier": "every matrix size, every integer matrix", "why_tests_cant": "Any size, any pivoting history.", "anchors": ["src/simultaneous_equation.rs: solve"]}
{"id": "C38", "title": "Generic modular polynomial", "statement": "`subscripted_variable_modular_polynomial(p)` is x^(p+1)+y^(p+1)+sum_i c_ii x^i y^i+sum_{i<j} c_ij (x^i y^j + x^j y^i); it returns for every prime p with p+1 in i32. In a release build, where i32 arithmetic wraps, the results are the same whenever a dev build does not panic with an overflow.", "quantifier": "every prime p", "why_tests_cant": "Every prime.", "anchors": ["src/modular_polynomial.rs: subscripted_variable_modular_polynomial"]}
{"id": "C39", "title": "modular_polynomial is symmetric and monic; which terms it stores", "statement": "Whenever `modular_polynomial(p)` returns, the result is symmetric in x and y, is x^(p+1)+y^(p+1) plus terms of degree <= p in x and in y. The stored terms are exactly x^(p+1), y^(p+1) and x^i y^j for all 0 <= i, j <= p, including those whose coefficient is 0; so modular_polynomial(3), whose constant term is a stored 0, is not == to the same polynomial without stored zeros.", "quantifier": "every prime p for which it returns", "why_tests_cant": "Every prime.", "anchors": ["src/modular_polynomial.rs: modular_polynomial"]}
{"id": "C40", "title": "modular_polynomial vanishes on (j(q), j(q^p))", "statement": "If the linear system assembled by `modular_polynomial(p)` has an integer solution, then substituting j(q) and j(q^p) in the result gives a q-series without terms of order <= 0.", "quantifier": "every prime p for which it returns", "why_tests_cant": "Every prime.", "anchors": ["src/modular_polynomial.rs: modular_polynomial, subscripted_variable_modular_polynomial_q"]}
{"id": "C41", "title": "is_on_curve decides the curve equation", "statement": "For a point not at infinity and p >= 1, is_on_curve is true exactly when y^2 = x^3+ax+b mod p; points at infinity are on the curve; the answer does not depend on the representatives modulo p. For an arbitrary modulus the call returns exactly for a point at infinity or p != 0 (p = 0 divides by zero).", "quantifier": "every curve (any modulus) and point", "why_tests_cant": "Inputs are unbounded integers; a test checks finitely many of them.", "anchors": ["src/elliptic_curve.rs: is_on_curve, canonicalize"]}
{"id": "C42", "title": "plus is the group law", "statement": "For an odd prime p and a nonsingular curve, the sum of two affine points computed by `plus` is on the curve, reduced, and equals the sum in the group of points over GF(p); O+P is P; commutative and associative on affine points whenever no infinity occurs as a right operand. For an arbitrary modulus (new_raw takes any p) plus returns exactly when both points are on the curve and, both being affine, p >= 2 or they are opposite or of y = 0 mod p, and panics otherwise; for a composite p the sum need not be on the curve.", "quantifier": "every odd prime p, nonsingular a,b, all points on the curve; for the domain every modulus and pair of points", "why_tests_cant": "Group law over all primes and points.", "anchors": ["src/elliptic_curve.rs: plus"]}
{"id": "C43", "title": "O is a neutral element of plus", "statement": "P + O = P and O + P = P for every point P on the curve. (Violated: P + O returns (x_P, 1, 0), a point at infinity.)", "quantifier": "every curve, every point", "why_tests_cant": "Inputs are unbounded integers; a test checks finitely many of them.", "anchors": ["src/elliptic_curve.rs: plus"]}
{"id": "C44", "title": "negate is the group inverse", "statement": "negate(P) is on the curve when P is, P + negate(P) is infinity for canonical P, negating twice gives P back, and it is the group inverse. For an arbitrary modulus it returns exactly for a point at infinity or p != 0; a negative p puts y in (p, 0].", "quantifier": "every curve (any modulus for the domain), every point on it", "why_tests_cant": "Inputs are unbounded integers; a test checks finitely many of them.", "anchors": ["src/elliptic_curve.rs: negate"]}
{"id": "C45", "title": "create_points enumerates exactly the rational points", "statement": "EllipticCurve::new(a,b,p) lists every point of the curve over GF(p) exactly once, in canonical form, infinity last; cardinality() is the number of points of the group E(GF(p)). create_points returns for every modulus new_raw accepts: it appends, in order of x and without duplicates, the reduced points (x,y) for which y or -y mod p is the least square root of x^3+ax+b in [0,p), then infinity; for a composite p points of the curve are missing. create_points never panics half-way through its pushes.", "quantifier": "every prime p < 2^64, every a,b; create_points for every integer p", "why_tests_cant": "All curves.", "anchors": ["src/elliptic_curve.rs: new, create_points, points, cardinality"]}
{"id": "C46", "title": "multiply_scalar computes n*P", "statement": "For n >= 0 multiply_scalar(P,n) is the n-fold sum of P, exactly unless the order of P is a power of two that is at most n and does not divide n; when the order is a power of two that is at most n the result is always a point at infinity, and when it does not divide n precisely (x(nP), 1, 0) if n div the order is a power of two and (0, 1, 0) otherwise. It always returns for a point on the curve.", "quantifier": "every curve, point, n", "why_tests_cant": "All n, all points.", "anchors": ["src/elliptic_curve.rs: multiply_scalar"]}
{"id": "C47", "title": "multiply_scalar with negative scalars", "statement": "multiply_scalar(P,-n) = -(multiply_scalar(P,n)). (Violated: it returns |n|*P.)", "quantifier": "every curve, point, n", "why_tests_cant": "All n, all points.", "anchors": ["src/elliptic_curve.rs: multiply_scalar"]}
{"id": "C48", "title": "point_order is the order of the point", "statement": "For an odd prime p and nonsingular curve, point_order(P) terminates and is the additive order of P in E(GF(p)).", "quantifier": "every curve, every point", "why_tests_cant": "Termination and minimality for all points.", "anchors": ["src/elliptic_curve.rs: point_order"]}
{"id": "C49", "title": "division_points is the n-torsion among the listed points", "statement": "division_points(n) lists, in order and without repetition, exactly the listed points P with n*P = O. (Violated in general: every n-torsion point is listed, but a point whose order is a power of two that is at most |n| and does not divide n may be listed too. Precisely, such a point is listed iff |n| div its order is not a power of two or |n|P has x-coordinate 0. It is exact when the number of points is odd or |n| is a power of two.)", "quantifier": "every curve, every n", "why_tests_cant": "All curves and n.", "anchors": ["src/elliptic_curve.rs: division_points"]}
{"id": "C50", "title": "j_invariant of a curve", "statement": "For p a prime > 3 and nonsingular curve, j_invariant() is the canonical residue of the curve's j-invariant 1728*4a^3/(4a^3+27b^2). It returns exactly for p >= 2 (prime or not) and panics otherwise; the result is in [0, p).", "quantifier": "every prime p, every nonsingular a,b; for the domain every curve and modulus", "why_tests_cant": "Inputs are unbounded integers; a test checks finitely many of them.", "anchors": ["src/elliptic_curve.rs: j_invariant"]}
{"id": "C51", "title": "isogeny returns an isogenous curve", "statement": "isogeny(n) returns a curve over the same field with the same number of points (isogenous curves have equal cardinality, Tate). (Violated: the code uses div_floor where mod_floor is meant; with reduced coefficients isogeny(1), which should be the identity, gives the singular y^2 = x^3 for every curve.)", "quantifier": "every curve, every n", "why_tests_cant": "All curves.", "anchors": ["src/elliptic_curve.rs: isogeny"]}
{"id": "C52", "title": "secp256k1 parameters and scalar multiplication", "statement": "The constants are those of secp256k1: p = 2^256-2^32-977 is prime, the generator is on the curve and has odd order n (n*G = O), and multiply_scalar(G,k) is k*G for every k >= 0.", "quantifier": "every scalar k >= 0", "why_tests_cant": "256-bit scalars.", "anchors": ["src/secp256k1.rs: Secp256k1::new"]}
{"id": "C53", "title": "schoof returns the trace of Frobenius modulo 2", "statement": "The entry for l = 2 is the parity of the trace of Frobenius t = q+1-#E(GF(q)). (Violated for every input: whenever schoof returns, the entry is 1 although x^3+ax+b has a root, i.e. t is even.) The same holds in a release build.", "quantifier": "every a, b, prime q for which it returns", "why_tests_cant": "All curves; non-termination.", "anchors": ["src/schoof.rs: schoof"]}
{"id": "C54", "title": "schoof result shape", "statement": "Whenever schoof(a,b,q) returns, the entries have moduli 2, 3, 5 in this order (a prefix, cut at l >= q), residues in [0,l). In a release build, where i32 arithmetic wraps, the results are the same whenever a dev build does not panic with an overflow. No function of the release build panics because of an overflow. The shape of the result is the same in a release build, whatever overflows on the way.", "quantifier": "every a, b, q for which it returns", "why_tests_cant": "All inputs.", "anchors": ["src/schoof.rs: schoof"]}
{"id": "C55", "title": "sea finds roots of the modular polynomial", "statement": "Whenever `sea(ec,l)` returns: gcd is the monic gcd over GF(p) of x^p - x and Phi_l(x, j); degree_of_gcd is its degree; is_elkies_prime says the degree is positive; isogeny_j_invariants is an ascending list of at most two distinct roots of the gcd in [0,p), the smallest ones, and complete when the degree is at most 2. On a curve made by new_raw with a modulus below 2, sea panics for every l. In a release build, where i32 arithmetic wraps, the results are the same whenever a dev build does not panic with an overflow.", "quantifier": "every curve and l for which it returns", "why_tests_cant": "All curves.", "anchors": ["src/schoof_elkies_atkins.rs: sea"]}
{"id": "C56", "title": "sea recognises Atkin primes", "statement": "For an Atkin prime (Phi_l(x,j) has no root in GF(p)) sea returns degree 0 and is_elkies_prime = false. (Violated: it never returns.)", "quantifier": "every curve and l", "why_tests_cant": "Non-termination cannot be observed by a test.", "anchors": ["src/schoof_elkies_atkins.rs: sea"]}
{"id": "C57", "title": "Display of polynomials is faithful", "statement": "The text printed for a polynomial (or a term), read as ordinary notation (blank-separated tokens, juxtaposition is multiplication, + and - separate summands), denotes exactly that polynomial; hence two polynomials print the same text only if they are equal as ring elements, and polynomials without stored zero coefficients print the same text exactly when they are ==.", "quantifier": "every polynomial, every term, every pair of polynomials", "why_tests_cant": "Polynomials with any number of terms and any big-integer coefficients; tests check a handful of literals.", "anchors": ["src/polynomial.rs: Display", "src/term.rs: Display", "src/subscripted_variable.rs: Display"]}
{"id": "C58", "title": "Display of points and point lists", "statement": "ECPoint prints `O` exactly for infinity and `(x, y)` otherwise; two affine points print the same exactly when their x and y agree; point lists are comma separated, and two lists of points print the same only if they are printed pointwise the same.", "quantifier": "every point, every list of points", "why_tests_cant": "Inputs are unbounded integers; a test checks finitely many of them.", "anchors": ["src/elliptic_curve.rs: Display for ECPoint, ECPointVec"]}
{"id": "C59", "title": "Term arithmetic", "statement": "Term *, /, unary -, power, power_modulo, to_frob, to_y_power, to_q_power, modulo, modular_assign, derivative agree with the operations on the ring element coef * monomial, and panic exactly on documented conditions (two variables, overflow, zero modulus). power with a negative exponent multiplies the exponents and keeps the coefficient; modulo with a negative modulus p gives the residue in (p,0]; the exact domains of power_modulo and of the substitutions are given for every argument. In a release build, where i32 arithmetic wraps, the results are the same whenever a dev build does not panic with an overflow.", "quantifier": "every term", "why_tests_cant": "Inputs are unbounded integers; a test checks finitely many of them.", "anchors": ["src/term.rs: Term"]}
{"id": "C60", "title": "Display of curves", "statement": "The text of a curve is produced exactly when its j-invariant can be computed (otherwise printing panics), and it determines the coefficients a and b, the field p, the number of listed points and the j-invariant.", "quantifier": "every pair of curves built by the constructors", "why_tests_cant": "Curves over every prime field with any big-integer coefficients; a test checks finitely many.", "anchors": ["src/elliptic_curve.rs: Display for EllipticCurve"]}
{"id": "C61", "title": "schoof returns the trace of Frobenius modulo 3", "statement": "The entry for l = 3 is the trace of Frobenius t = q+1-#E(GF(q)) modulo 3. (Violated: for y^2 = x^3 + 2x over GF(5) the entry is 2 although t = 4.)", "quantifier": "every a, b, prime q > 3 for which schoof returns", "why_tests_cant": "All curves and primes; the existing tests are ignored because they do not terminate.", "anchors": ["src/schoof.rs: schoof"]}
{"id": "C62", "title": "domain of schoof", "statement": "For a prime q, schoof(a,b,q) returns only if x^3+ax+b has a root modulo q; for q <= 3 it returns exactly then, with the single entry 1 mod 2; for q >= 46341 it never returns (dev build). For every q < 2 it panics (in a release build, too). In a release build, too, it returns only if there is a root, and for q <= 3 exactly then.", "quantifier": "every a, b and prime q, and every q < 2", "why_tests_cant": "Non-termination and overflow for all inputs.", "anchors": ["src/schoof.rs: schoof"]}
{"id": "C63", "title": "division polynomials compute multiples of points", "statement": "For a nonsingular curve y^2=x^3+ax+b over GF(p), p an odd prime, an affine point P on it and n>=1 for which psi(a,b,n), phi(a,b,n), omega(a,b,n) return: evaluating them at P with eval_xy and reading the results modulo p, psi vanishes exactly when n*P is the point at infinity (equivalently when point_order(P) divides n); otherwise x(n*P)*psi^2 = phi and y(n*P)*psi^3 = omega; phi and psi never vanish together; and psi(2n) = 2*psi(n)*omega(n).", "quantifier": "every curve, every prime p != 2, every affine point on the curve, every n >= 1 for which the functions return", "why_tests_cant": "This is the identity Schoof's algorithm rests on; it ranges over all curves, points and n, and points whose order divides n or n+-1 are the delicate cases that sampling misses.", "anchors": ["src/division_polynomial.rs: psi, phi, omega", "src/polynomial.rs: Polynomial::eval_xy", "src/elliptic_curve.rs: EllipticCurve::point_order, EllipticCurve::multiply_scalar"]}
{"id": "C64", "title": "residues of schoof satisfy Schoof's congruence up to sign", "statement": "Whenever schoof(a,b,q) returns for an odd prime q, every entry r mod l with l>=3 has r=0, or r^2=4q (mod l), or: over every field of characteristic q every point P of y^2=x^3+ax+b with l*P=0 satisfies F(F(P))=q*P or F(F(P))+q*P = +-r*F(P), F being the Frobenius map (x,y)->(x^q,y^q). In particular, if l divides the number of points over GF(q) then r=0, r^2=4q, q=1 or r = +- the trace q+1-#E (mod l), and for q=2 (mod 3) a nonzero residue mod 3 is the trace up to sign.", "quantifier": "every a, b, odd prime q for which schoof returns, every entry of the result, every field of characteristic q and every l-torsion point over it", "why_tests_cant": "The congruence is about torsion points over every extension field; a test can only compare single residues with a brute-force count.", "anchors": ["src/schoof.rs: schoof", "src/division_polynomial.rs: psi, phi, omega", "src/polynomial.rs: to_frob, reduction_modular, polynomial_modular"]}
{"id": "C65", "title": "Monomial::eval_q", "statement": "For an exponent n>=0 of q, eval_q(v) is v^n and it panics exactly when v^n is not an i32; for a negative i32 exponent n it returns 0 for v=0, v^|n| for v=1 and v=-1, and panics for |v|>=2. In a release build, where i32 arithmetic wraps, the results are the same whenever a dev build does not panic with an overflow.", "quantifier": "every monomial and every integer v", "why_tests_cant": "The exponent is reinterpreted as u32; the result must be known for all exponents and values.", "anchors": ["src/term.rs: Monomial::eval_q"]}
{"id": "C66", "title": "schoof's search over j is exact", "statement": "Let q be an odd prime, y^2=x^3+ax+b nonsingular over GF(q), K an algebraically closed field of characteristic q. For every entry r mod l, l>=3, of the result of schoof(a,b,q): either r or l-r is the least j in 1..(l-1)/2 such that every point P over K with l*P=0 has F(F(P))=q*P or F(F(P))+q*P=+-j*F(P), or no such j exists and r=0 or r^2=4q (mod l). Hence, if F(F(P))+q*P=tau*F(P) at all these points, r=+-tau (mod l) unless r^2 or tau^2 is 4q (mod l); and for q=2 (mod 3) the residue mod 3, zero or not, is the trace q+1-#E(GF(q)) up to sign.", "quantifier": "every a, b, odd prime q with nonsingular curve for which schoof returns, every entry of the result, every algebraically closed field of characteristic q", "why_tests_cant": "Exactness needs the number of torsion points over the algebraic closure (a rejected j must be rejected by a point that exists only in an extension field), for every curve and prime.", "anchors": ["src/schoof.rs: schoof", "src/division_polynomial.rs: psi, phi, omega", "src/polynomial.rs: polynomial_modular"]}
{"id": "C67", "title": "sign of schoof's residue mod 3", "statement": "For an odd prime q=2 (mod 3) and a nonsingular curve, whenever schoof(a,b,q) returns an entry r mod 3, r=0 if the trace of Frobenius t=q+1-#E(GF(q)) is divisible by 3 and r=2 otherwise. So r is never 1, and the entry is wrong exactly when t=1 (mod 3): the test that should choose the sign never passes, because of the wrong sign of phi in the numerator of the y-coordinate.", "quantifier": "every a, b, odd prime q=2 (mod 3) with nonsingular curve for which schoof returns", "why_tests_cant": "A test shows single wrong residues; that the sign test never passes, for any curve and prime, needs the action of Frobenius on the 3-torsion.", "anchors": ["src/schoof.rs: schoof (the y step, e and num3)"]}
{"id": "C68", "title": "ring laws up to ==", "statement": "For polynomials of any shape, whenever the products return, a*b == b*a, (a*b)*c == a*(b*c), a*1 == a and 1*a == a under the library's own ==. For polynomials without stored zero coefficients + is commutative and associative under ==, a-a is_zero, (a+b)-b == a, a-b == a+(-b), -(-a) == a. a*(b+c) and a*b+a*c have equal values and, after % p for any p>=1, are ==; but without the reduction they need not be == (a counterexample is proved), because products keep zero coefficients.", "quantifier": "every polynomial in x, y, q and subscripted variables, any exponents, every modulus p>=1", "why_tests_cant": "== compares stored terms, including zero coefficients left by cancellation; that the sets of stored monomials agree for every association of a product needs an argument about all polynomials.", "anchors": ["src/polynomial.rs: impl Mul, Add, Sub, Neg, PartialEq for Polynomial, modulo"]}
{"id": "C69", "title": "to_frob is the p-th power mod p", "statement": "For a prime p and a polynomial f in x and y with integer coefficients, f.power(p) % p == f.to_frob(p) % p whenever both return.", "quantifier": "every prime p, every polynomial in x and y", "why_tests_cant": "It is Fermat's little theorem and the freshman's dream for every prime and every number of terms.", "anchors": ["src/polynomial.rs: to_frob, power, modulo, PartialEq"]}
{"id": "C70", "title": "cardinality obeys the Hasse bound", "statement": "For a prime p other than 2 and a nonsingular curve, if EllipticCurve::new(a,b,p) returns ec then |p + 1 - ec.cardinality()| <= 2*sqrt(p), i.e. (p + 1 - cardinality)^2 <= 4p. In particular the point list is never longer than 2p+1, and for p >= 5 never only O.", "quantifier": "every a, b, every odd prime p with nonsingular curve", "why_tests_cant": "Hasse's theorem is about every curve over every prime field; a test counts one curve.", "anchors": ["src/elliptic_curve.rs: EllipticCurve::new, create_points, cardinality"]}
{"id": "C71", "title": "secp256k1 has exactly n points, and multiply_scalar is right for all of them", "statement": "The group of the curve that Secp256k1::new() builds has exactly n elements, where n is the order field of Secp256k1; so it is cyclic and every point is k*G for some 0<=k<n. Hence for every point P that is_on_curve accepts and every k>=0, multiply_scalar(P,k) is k*P in the group.", "quantifier": "every point on secp256k1 (about 2^256 of them), every k >= 0", "why_tests_cant": "2^256 points cannot be enumerated; the count rests on Hasse's bound and the primality of n.", "anchors": ["src/secp256k1.rs: Secp256k1::new", "src/elliptic_curve.rs: multiply_scalar, is_on_curve"]}
{"id": "C72", "title": "schoof's residues are the trace of Frobenius up to sign", "statement": "Let q be an odd prime, y^2=x^3+ax+b nonsingular over GF(q), t = q+1-#E(GF(q)). Over every field of characteristic q every point satisfies F(F(P)) + q*P = t*F(P). For every entry r mod l, l>=3, that schoof(a,b,q) returns: if l does not divide t then r = t or r = -t (mod l), or else l=5, q=1, t=+-2, r=+-1 (mod 5); if l divides t then r=0 or r^2=4q (mod l). If q is not a square mod l, r = +-t (mod l) without exception.", "quantifier": "every a, b, odd prime q with nonsingular curve for which schoof returns, every entry of the result", "why_tests_cant": "It is Schoof's theorem for every curve and prime; it needs the characteristic equation of Frobenius.", "anchors": ["src/schoof.rs: schoof"]}
{"id": "C73", "title": "The exact entry modulo 3 of schoof for q = 1 mod 3", "statement": "Let q be a prime, q=1 mod 3, y^2=x^3+ax+b nonsingular over GF(q) with trace t. If schoof(a,b,q) returns, its entry modulo 3 is: if 3 divides t, 1 if -4b is the cube of a nonzero element of GF(q) and 0 if not; if 3 does not divide t, 1 if 3x^4+6ax^2+12bx-a^2 has four roots in GF(q), or if t=1 mod 3 and q divides a, and 2 otherwise. In particular this decides for every curve whether the entry is the trace modulo 3.", "quantifier": "every a, b, prime q = 1 mod 3 with nonsingular curve for which schoof returns", "why_tests_cant": "Infinitely many curves and fields; it needs the action of Frobenius on the 3-torsion.", "anchors": ["src/schoof.rs: schoof"]}
{"id": "C74", "title": "When schoof returns", "statement": "Let q be a prime, 3 < q <= 21841, y^2=x^3+ax+b nonsingular over GF(q) with trace t, such that x^3+ax+b has a root in GF(q). Then schoof(a,b,q) returns (no panic, no exponent overflow, no endless loop), if 3 does not divide t or q=2 mod 3 or -4b is not the cube of a nonzero element, and if 5 does not divide t or q<=5 or q=+-2 mod 5. For q=2 mod 3 and q=+-2 mod 5 it returns exactly if there is a root, and runs for ever if there is none. A call that returns in a dev build returns the same in a release build.", "quantifier": "every a, b and prime q in the range", "why_tests_cant": "All curves over all fields in the range; termination and the absence of overflow must hold for every run.", "anchors": ["src/schoof.rs: schoof", "src/polynomial.rs: polynomial_modular, reduction_modular, to_frob, power"]}
{"id": "C75", "title": "modular_polynomial returns the classical modular polynomial", "statement": "For every prime p there are integers c_ij such that Phi = x^(p+1)+y^(p+1)+sum c_ii x^i y^i + sum_{i<j} c_ij (x^i y^j + x^j y^i) satisfies Phi(j(q), j(q^p)) = 0 identically, where j = E_4^3/Delta. For every prime p <= 214 modular_polynomial(p) returns exactly this Phi. In a release build, where i32 arithmetic wraps, the results are the same whenever a dev build does not panic with an overflow.", "quantifier": "every prime p (existence), every prime p <= 214 (the function)", "why_tests_cant": "It is an identity of infinite series for every prime; the program only looks at finitely many terms.", "anchors": ["src/modular_polynomial.rs: modular_polynomial"]}
{"id": "C76", "title": "Kronecker's congruence", "statement": "For every prime p <= 214 the result of modular_polynomial(p) is congruent to (x^p - y)(x - y^p) modulo p, coefficient by coefficient.", "quantifier": "every prime p <= 214", "why_tests_cant": "Every prime in the range; for most of them the result is far too large to be computed in a test.", "anchors": ["src/modular_polynomial.rs: modular_polynomial"]}
{"id": "C77", "title": "The exact domain of j_invariant1, j_invariant and modular_polynomial", "statement": "In a build with overflow checks, for N >= 0 j_invariant1(N) returns exactly if 3N <= i32::MAX, for N >= -1 j_invariant(N) returns exactly if 3(N+1) <= i32::MAX, and modular_polynomial(p) returns exactly for the primes p <= 214; in all other cases they panic (they never loop for ever and never return a truncated or wrapped result). Whenever modular_polynomial(p) returns, the result vanishes at (j(q), j(q^p)). For a negative order j_invariant1 is the zero polynomial, and so is j_invariant for an order below -1.", "quantifier": "every N >= 0 (resp. >= -1), every integer p", "why_tests_cant": "The failing cases and most successful ones need hours or terabytes to run; the claim is about all arguments.", "anchors": ["src/modular_polynomial.rs: modular_polynomial", "src/j_invariant.rs: j_invariant1, j_invariant", "src/polynomial.rs: power, mul"]}
{"id": "C78", "title": "sea finds isogenous curves", "statement": "For a nonsingular curve E: y^2=x^3+ax+b over GF(p), p an odd prime in i32: sea(E,2) lists the two smallest of the j-invariants in GF(p) of the quotients E/(e,0) (Velu's formulas) by points of order 2 over the algebraic closure, degree_of_gcd is their number, and sea returns exactly if there is one (in particular if E has a point of order 2 over GF(p)). For 2 < p <= 214, sea(E,p) returns degree 1 and the j-invariant of E itself. For every l: if j(E') is listed by sea(E,l), sea(E',l) returns and j(E) is a root of its gcd (and listed, when the degree is at most 2).", "quantifier": "every nonsingular curve over every prime field (in i32), every pair of such curves, every l", "why_tests_cant": "All curves and fields; relates the modular polynomial to isogenies.", "anchors": ["src/schoof_elkies_atkins.rs: sea", "src/modular_polynomial.rs: modular_polynomial"]}
{"id": "C79", "title": "schoof: the exact entry modulo 5", "statement": "For a prime q > 5 and a nonsingular curve y^2=x^3+ax+b over GF(q) of trace t (q+1-t points), whenever schoof(a,b,q) returns, its entry for l=5 is: if 5 | t: 3 if q=1 mod 5 and the fifth division polynomial of y^2=x^3+b divides X^q-X over GF(q), else 0; otherwise 1 if t^2=4q mod 5 and the fifth division polynomial of the curve divides X^(q^2)-X; otherwise -t mod 5 if t is 1 or 2 mod 5 (unless q=t^2 mod 5 and q | a), and t mod 5 in the remaining cases. Hence exactly when the entry is the trace modulo 5.", "quantifier": "every prime q > 5, every nonsingular curve, every returning run", "why_tests_cant": "All primes and curves; relates the code's polynomial tests to Frobenius on the 5-torsion.", "anchors": ["src/schoof.rs: schoof"]}
{"id": "C80", "title": "Histories of calls on one curve", "statement": "On a nonsingular curve over GF(p): any nest of calls of plus, negate and multiply_scalar starting from points of the curve returns a point of the curve and never panics; if no call in the history is one of the defective cases of C43, C46 and C47 (right operand at infinity of an affine left operand, negative scalar, order a power of two at most n and not dividing n), the result is the group element the history means. Calling create_points k more times multiplies the list of points k+1 fold, so cardinality becomes (k+1) times the number of points, and changes nothing else (is_on_curve, plus, negate, multiply_scalar, point_order, j_invariant; division_points repeats its answer).", "quantifier": "every odd prime p, every nonsingular curve, every finite history of calls, every number of repeated create_points calls", "why_tests_cant": "Unbounded histories of calls on every curve.", "anchors": ["src/elliptic_curve.rs: EllipticCurve::plus, negate, multiply_scalar, create_points, point_order, division_points"]}
{"id": "C81", "title": "Point orders and the number of points", "statement": "On a curve made by new with p an odd prime not dividing 4a^3+27b^2, for every point P on the curve: point_order returns some n >= 1 that divides cardinality and is at most p+1+2 sqrt p; multiply_scalar(P, cardinality) is the point at infinity; if n > 4 sqrt p then cardinality is the only multiple of n in Hasse's interval.", "quantifier": "every odd prime p, every nonsingular curve, every point of it", "why_tests_cant": "Lagrange's theorem and Hasse's bound for all curves; finite tests see only some groups.", "anchors": ["src/elliptic_curve.rs: EllipticCurve::point_order, multiply_scalar, cardinality, new"]}
{"id": "C82", "title": "Isomorphic curves and twists", "statement": "For curves made by new over the same GF(p), p odd: coefficients u^4 a, u^6 b (p not dividing u) give the same cardinality and the same j_invariant; coefficients c^2 a, c^3 b with c a non-square give cardinalities adding up to 2p+2 and the same j_invariant; conversely, for p > 3, curves with the same j_invariant, a and b not 0 modulo p, have equal cardinalities or cardinalities adding up to 2p+2; y^2=x^3+b has p+1 points if p=2 mod 3; y^2=x^3+ax has p+1 points if p=3 mod 4.", "quantifier": "every odd prime p, all coefficients of nonsingular curves, all u and c", "why_tests_cant": "Relates two runs of the code on infinitely many pairs of curves.", "anchors": ["src/elliptic_curve.rs: EllipticCurve::new, cardinality, j_invariant"]}
{"id": "C83", "title": "schoof followed by chinese_remainder", "statement": "Whenever schoof(a,b,q) returns for a nonsingular curve over GF(q), q an odd prime, chinese_remainder of its answer gives an odd residue although the trace is even, so the residue is never the trace modulo the product of the moduli and q+1 minus any number in its class is never the number of points. After replacing the entry modulo 2 by 0, for primes 5 < q <= 53, q+1 minus the representative nearest to zero of the combined residue is the number of points exactly if the entries modulo 3 and 5 are the trace modulo 3 and 5.", "quantifier": "every nonsingular curve over every prime field, every returned answer", "why_tests_cant": "The composition of two functions over all curves; needs the Hasse bound and the exact answers of schoof.", "anchors": ["src/schoof.rs: schoof", "src/bigint.rs: chinese_remainder"]}
{"id": "C84", "title": "The exact domain of schoof", "statement": "Let q > 3 be a prime and y^2=x^3+ax+b a nonsingular curve over GF(q) of trace t. schoof(a,b,q) returns if and only if x^3+ax+b has a root in GF(q), q <= 26754, and for l=3 and (if q > 5) l=5: q <= 21841 unless l divides t; and if l divides t, q=1 mod l and the l-th division polynomial of y^2=x^3+b divides X^q-X, then the argument a itself is odd, 3 <= a <= 1431655765, and (x^3+ax+b)^((a-1)/2)-1 has a common factor with the l-th division polynomial of the curve. For a prime q > 26754 it never returns, for any a, b.", "quantifier": "every a, b and every prime q > 3", "why_tests_cant": "Both directions range over all curves over all fields; non-termination and the absence of overflow cannot be observed by tests.", "anchors": ["src/schoof.rs: schoof", "src/polynomial.rs: polynomial_modular, gcd, reduction_modular, to_frob"]}
{"id": "C85", "title": "schoof depends on the coefficients modulo q only", "statement": "For a = a' and b = b' modulo the prime q (nonsingular curve), schoof(a,b,q) and schoof(a',b',q) have the same outcome. (Violated: schoof(2,5,19) never returns and schoof(6481,5,19) returns. If both return, the answers are equal; and for a = a', or q neither 1 mod 3 nor 1 mod 5, both return or neither does.)", "quantifier": "every prime q and all pairs of congruent coefficients", "why_tests_cant": "A relation between two runs over infinitely many representatives, one of which may not terminate.", "anchors": ["src/schoof.rs: schoof"]}
{"id": "C86", "title": "Point operations on singular curves", "statement": "EllipticCurve accepts coefficients with 4a^3+27b^2 = 0 modulo p. For every a, b and odd prime p, singular or not: plus of two points of the curve returns a point of the curve, and multiply_scalar of one by any integer returns a point of the curve (no panic). On the nonsingular points plus is the addition of the group of nonsingular points, and multiply_scalar and point_order are as in C46 and C48; there is at most one singular point S = (u,0): S + S = (0,1,0), S + P = P + S = S for every other affine P, multiply_scalar(S,n) is infinity for n >= 2, point_order(S) = 2, and j_invariant of a singular curve is 0. For p = 2 plus always returns on points of the curve, and the curve is closed under it exactly if a and b are not both odd (new(1,1,2) is not closed).", "quantifier": "every a, b, every prime p, every pair of points of the curve and every scalar", "why_tests_cant": "Universally quantified over all curves, including the degenerate ones outside the group law's usual hypotheses.", "anchors": ["src/elliptic_curve.rs: EllipticCurve::new, plus, multiply_scalar, point_order, j_invariant"]}
{"id": "C87", "title": "Number of points in terms of the Legendre symbol, and of a singular curve", "statement": "For every odd prime p < 2^64 and all a, b, singular or not, new(a,b,p).cardinality() = p + 1 + sum over 0 <= x < p of the Legendre symbol of x^3+ax+b. If p divides 4a^3+27b^2 there is a singular point (u,0) among the points and cardinality() = p + 1 - (3u/p), one more than the number of nonsingular points.", "quantifier": "every a, b and every odd prime p < 2^64", "why_tests_cant": "An identity between an enumeration and a character sum for every modulus.", "anchors": ["src/elliptic_curve.rs: EllipticCurve::new, create_points, cardinality"]}
{"id": "C88", "title": "Exact domain of polynomial_modular, gcd and is_gcd_one", "statement": "For all polynomials f, g in x (stored zero coefficients and leading coefficients divisible by p allowed) and every prime p: f.polynomial_modular(g,p) returns if and only if g stores a positive power of x and, when p divides the leading coefficient of g, deg(f mod p) is below the stored degree of g; in that latter case the answer is f mod p; otherwise it runs for ever. For deg g <= deg f, f.gcd(g,p) returns if and only if deg g > 0, (p | lc g implies deg(f mod p) < deg g) and (f mod p = 0 or f, g are not coprime mod p); the answer is the monic gcd, except that for f = 0 mod p and p | lc g it is the zero polynomial (g mod 2 for p = 2); otherwise it runs for ever. With deg f < deg g the call behaves as g.gcd(f,p). is_gcd_one answers exactly when gcd does, and false only when gcd gave the zero polynomial.", "quantifier": "all polynomials in x with exponents in i32, every prime p", "why_tests_cant": "Non-termination on an infinite set of inputs cannot be observed by a test.", "anchors": ["src/polynomial.rs: polynomial_modular, gcd, is_gcd_one, to_monic"]}
{"id": "C89", "title": "reduction and reduction_modular are normal forms", "statement": "For f, g in x and y and p >= 1, f.reduction_modular(a,b,p) == g.reduction_modular(a,b,p) if and only if y^2-(x^3+ax+b) divides f-g over Z/p; for reduction the two results denote the same polynomial if and only if y^2-(x^3+ax+b) divides f-g over Z. Reducing twice changes nothing, and factors may be reduced before the product is.", "quantifier": "all polynomials f, g in x, y with non-negative exponents, all a, b, p >= 1, whenever the calls return", "why_tests_cant": "Uniqueness of the representative for every pair of equivalent polynomials.", "anchors": ["src/polynomial.rs: reduction, reduction_modular"]}
{"id": "C90", "title": "Exact domain of power, the substitutions and the reductions", "statement": "f.power(n) returns if and only if n >= 0 and (n <= 1 or no stored monomial of f has a variable and n times each stored exponent fits in i32). to_frob(n), to_y_power(n), to_q_power(n) return if and only if the multiplied exponents fit in i32. reduction(a,b) and reduction_modular(a,b,p), p >= 2, return if and only if for every stored monomial x^i y^j with j >= 2, 3(j/2) and (for a non-zero coefficient) i + 3(j/2) fit in i32. In all other cases the call panics, it never loops.", "quantifier": "all polynomials with i32 exponents, all n, a, b, p >= 2", "why_tests_cant": "Overflow boundaries for every polynomial and exponent.", "anchors": ["src/polynomial.rs: power, to_frob, to_y_power, to_q_power, reduction, reduction_modular"]}
{"id": "C91", "title": "Exact result of isogeny", "statement": "If division_points(n) is the list l, isogeny(n) is the curve built with the coefficients obtained from Velu's two sums over l in the floored arithmetic of the code (sums of (3x^2+a)/p doubled for even n, and of ((-2y)/p)^2/p + x times it); it returns if and only if division_points(n) does and panics exactly as it does; the coefficients of the result are at most 0 and bounded by explicit multiples of the number of points of l.", "quantifier": "all curves built by new (reduced coefficients and p >= 5 for the bounds), all n", "why_tests_cant": "For every curve and n, with the size of l unbounded.", "anchors": ["src/elliptic_curve.rs: isogeny, division_points"]}
{"id": "C92", "title": "sea at 3 and the modular polynomials of level 3 and 5", "statement": "modular_polynomial(3) and modular_polynomial(5) are the classical polynomials, vanishing at (j(q), j(q^l)). sea(ec,3) returns if and only if some quotient of the curve by a subgroup of order 3 over the algebraic closure has its j-invariant in GF(p); it then reports an Elkies prime, the number of those j-invariants, and the two smallest of them; otherwise it never returns.", "quantifier": "all nonsingular curves over GF(p), 3 < p < 2^31", "why_tests_cant": "Every curve and every prime p, and a statement about non-termination.", "anchors": ["src/sea.rs: sea", "src/modular_polynomial.rs: modular_polynomial"]}
{"id": "C93", "title": "Quotients by a point of order 2 have the same cardinality", "statement": "For a curve y^2=x^3+ax+b over GF(p), p odd, and a nonsingular point (e,0), the curve built with coefficients congruent to a-5t, b-7et, t=3e^2+a (Velu's quotient, whose j-invariant sea(ec,2) lists) has the same cardinality().", "quantifier": "all odd primes p < 2^64, all a, b, e", "why_tests_cant": "An equality of point counts over every prime field.", "anchors": ["src/elliptic_curve.rs: new, cardinality"]}
{"id": "C94", "title": "Structure of the group of points", "statement": "For every curve built by EllipticCurve::new with p an odd prime and nonzero discriminant there are m dividing n, with m*n = cardinality() and m dividing p-1, such that the points form Z/m x Z/n: for every k the number of listed points whose point_order divides k is gcd(m,k)*gcd(n,k) (so never more than k^2); n is the largest order, some listed point has it and every point_order divides it. Where division_points(k) is exact its length is gcd(m,k)*gcd(n,k). If cardinality() is square-free or prime to p-1, some listed point has point_order cardinality().", "quantifier": "every a, b, odd prime p < 2^64 with p not dividing 4a^3+27b^2, every k", "why_tests_cant": "it is a theorem about all curves over all prime fields (torsion of order prime to p is at most k^2, and full m-torsion forces m | p-1); tests see a few curves", "anchors": ["src/elliptic_curve.rs: EllipticCurve::new, point_order, division_points, cardinality"]}
{"id": "C95", "title": "sea(ec,2) and sea(ec,3) and the number of points", "statement": "Let ec be a nonsingular curve over GF(p), p > 3 in i32, made by new, N = cardinality(), t = p+1-N. sea(ec,2) returns (reporting an Elkies prime) if N is even or p | a, and never returns otherwise. sea(ec,3) returns, reporting an Elkies prime, whenever t^2-4p is a square modulo 3; so if it never returns, t^2-4p is not a square modulo 3. For p = 2 mod 3 it is exact: sea(ec,3) returns if 3 | N and never returns otherwise. (For p = 1 mod 3 the converse fails: y^2=x^3+x over GF(7).)", "quantifier": "every a, b, every prime 3 < p < 2^31 with p not dividing 4a^3+27b^2", "why_tests_cant": "it relates the termination of a polynomial computation to the number of points of the curve, for every curve; non-termination cannot be tested", "anchors": ["src/schoof_elkies_atkins.rs: sea", "src/elliptic_curve.rs: EllipticCurve::new, cardinality, j_invariant", "src/modular_polynomial.rs: modular_polynomial"]}
{"id": "C96", "title": "Division polynomials as a sequence: degrees, elliptic relation, divisibility, chain rule", "statement": "Whenever the calls return: psi(a,b,n) has highest term n x^((n^2-1)/2) for odd n (degree_x returns (n^2-1)/2) and n x^((n^2-4)/2) y for even n >= 2; phi(a,b,n) has degree_x n^2 and leading coefficient 1; omega(a,b,n) has highest term x^(3n^2/2) for even n and x^(3(n^2-1)/2) y for odd n. For m > n >= 1 the reductions of psi(m+n) psi(m-n) and of psi(m+1) psi(m-1) psi(n)^2 - psi(n+1) psi(n-1) psi(m)^2 are the same polynomial. If m | n then psi(m) divides psi(n) modulo the equation of the curve, and psi(m)(x,y) | psi(n)(x,y) at every integral point. Over GF(p): if S = mP is finite, psi(km)(P) = psi(m)(P)^(k^2) psi(k)(S), and the common zeros of psi(m) and psi(n) on the curve are the zeros of psi(gcd(m,n)).", "quantifier": "all a, b, all m, n, k for which the calls return, all integral points, all curves and points over GF(p)", "why_tests_cant": "identities between infinitely many polynomials, for all coefficients", "anchors": ["src/division_polynomial.rs: psi, phi, omega", "src/polynomial.rs: degree_x, highest_term_x, reduction, eval_xy"]}
{"id": "C97", "title": "extended_gcd and chinese_remainder for arbitrary input", "statement": "extended_gcd(a,b) = (g,x,y) has |x g| <= max(|b|,|g|) and |y g| <= max(|a|,|g|). chinese_remainder always returns the product of the moduli; one congruence is returned unchanged and none gives 1 mod 1. Appending a congruence s to a list with result (L,R) keeps the residue modulo L and makes it R + (s.r - R) g modulo s.l, g the gcd; so for two non-negative moduli the first congruence always holds and the second holds iff its modulus divides (t.r - s.r)(gcd - 1): solvable systems with common factors can be answered wrongly. For positive pairwise coprime moduli every order of the congruences gives the same modulus and the same class.", "quantifier": "all integers a, b; all lists of congruences (any moduli, also 0 and negative); all permutations", "why_tests_cant": "unbounded lists of unbounded integers", "anchors": ["src/bigint.rs: extended_gcd, chinese_remainder, ModResult"]}
{"id": "C98", "title": "Exact domain of substitution and of modular powers", "statement": "f.eval_x_polynomial(F) returns exactly when, for every stored monomial x^n y^j q^k v of f, n is not negative; when n>=2 no monomial of F carries a subscripted variable and n times each of its exponents fits in i32; and when n>=1 no monomial of F carries a variable while v is one, and n times its exponents of y and q plus j and k fit in i32. eval_y_polynomial is the same with x and y exchanged. For a prime p, f.power_modulo(n,p) returns exactly when n is not negative and, for n>=2, every stored monomial whose coefficient p does not divide has no variable and n times its exponents fit in i32: a monomial that vanishes modulo p never matters and one that does not always does. Otherwise these calls panic; none loops.", "quantifier": "all polynomials f and F whose exponents are i32 values, all integers n, all primes p", "why_tests_cant": "the claim fixes the outcome of every call, including those whose overflow happens only in an intermediate square, and that no cancellation modulo p can hide an overflowing monomial; tests see only chosen inputs", "anchors": ["src/polynomial.rs: eval_x_polynomial, eval_y_polynomial, power_modulo", "src/term.rs: Monomial::eval_x_polynomial, Monomial::eval_y_polynomial"]}
{"id": "C99", "title": "What the library prints", "statement": "Printing never changes a result. chinese_remainder prints exactly one line 'r:R l:L' per congruence; the k-th shows the answer for the first k+1 congruences, so for positive pairwise coprime moduli L is the product of their moduli and R satisfies them all, and the last line shows the returned pair. plus prints nothing unless its first point is off the curve; then it prints that point and panics. multiply_scalar, point_order, division_points and isogeny print nothing unless they panic, and then at most one line, a point that is not on the curve; for P off the curve multiply_scalar(P,n) returns only for n = 0 and n = 1, and otherwise panics, printing P first exactly when n is even; point_order(P) prints P and panics. When schoof returns, the printed lines with an equality sign announce exactly the returned residues in order (a = r mod 2; then (iii) or (e) with r and l, or (d) for residue 0); no other printed line, whatever polynomials it shows, contains one. If x^3 + a x + b has no root modulo the prime q, schoof prints '24 l:2' and then nothing, for ever. The example program hello_world prints exactly three lines, the classical modular polynomials of level 2, 3 and 5, and returns.", "quantifier": "all lists of congruences; all curves and points; all a, b, q on which schoof returns; all primes q and curves without 2-torsion", "why_tests_cant": "the output of tests is not compared, and the claim covers unbounded lists and every run, including those that never end", "anchors": ["src/bigint.rs: chinese_remainder (line 132)", "src/elliptic_curve.rs: EllipticCurve::plus (line 98)", "src/schoof.rs: schoof (all println!)", "examples/hello_world.rs: main", "src/elliptic_curve.rs: multiply_scalar, point_order, division_points, isogeny"]}
