# Formal model of pebble8888/ellipticcurve in Lean 4

## Layout

* `lean/Verif/Model/*` – the model, one file per Rust source file (or small group).  Every definition cites the
  file and lines in `/repo` it models; simplifications are stated in the same comment.
* `lean/Verif/Spec/*` – the small specification vocabulary used in theorem statements (what ring element a stored
  polynomial denotes, the Mathlib curve and point a model curve/point denotes, ...).  It refers to data types of the
  model only, never to the model's functions.
* `lean/Verif/Lemmas/*` – helper lemmas.
* `lean/Verif/Props/*` – the property theorems, each next to `example`s that show that its hypotheses are met by a
  concrete, non-trivial case.
* `lean/Verif/Witness/*` – further `example`s: theorems with hypotheses, applied to concrete inputs, so that all their hypotheses
  are met together.
* `properties.jsonl`, `MANIFEST.json`, `seeded/LOG.jsonl`.

## How Rust is modelled

* `BigInt` is `Int`.  `i32` values are `Int`; every `i32` arithmetic operation that can overflow goes through `chk`,
  which panics outside the `i32` range (dev/test profile).  The release profile, where the operation wraps, is modelled by `Model/Release.lean`, which tools/release.py
  derives from the other files (`chk` replaced by `wrp`); Props/Release proves that both agree wherever the dev build does not panic
  with an overflow, so results proved for the model are results of the release build too.  Props/SchoofRelease proves the shape of `schoof`'s result and
  the failure of its entry for 2 for every release run, overflowing or not.  Props/ReleasePsi proves for which arguments the division
  polynomials return in a release build, and that beyond the dev build's domain what `psi` and `phi` return is wrong; Props/ReleaseSeries the same for the largest order of the q-series;
  Props/ReleaseConverter gives the exact result of the converter in a release build.
* A call returns `Res α = ok v | panic why | timeout`.  Loops or recursions that provably terminate are structural or
  well-founded recursion.  Loops of the code that may run for ever (`polynomial_modular`, `gcd`, `point_order` and
  their callers) take a fuel argument; `Returns f v` says that all large enough fuel gives `ok v`, and
  `Diverges f` that every fuel gives `timeout`.  So "the Rust call never returns" is a theorem (`Diverges`), not an
  artefact of the model.
* `&mut self` methods return the new value.  The owned/borrowed operator variants produced by `impl_op_ex!` are one
  definition each.
* `BTreeMap<Monomial, BigInt>` is the list of its entries, strictly increasing for the code's own `Ord` on `Monomial`.
  The map operations search with the code's `cmp`.  That `cmp` is a lawful order is proved (C07), so this is the
  documented contract of `BTreeMap`; the map's implementation is trusted.
* `Model/Panic.lean` models the `&mut self` methods a second time, write by write on an explicit receiver, so that what a panic leaves
  behind can be stated (C09, C10, C13, C26, C28, C45); the other `Model` files return the new value.
* Text (`Display`) is a `List Char`.  `println!` is modelled separately (Model/Output.lean: a list of lines beside the
  outcome) for the three functions that print, their callers and the example program; C99 shows that the printing versions have the same outcomes.

## Trusted base

* Lean's kernel (4.33.0) and the axioms `propext`, `Classical.choice`, `Quot.sound` (no others; no `native_decide`, no
  `bv_decide`).  The exact axioms of every property theorem are those three or a subset.
* Definitions of Mathlib used in statements (`AddMonoidAlgebra`, `Polynomial`, `ZMod`, `WeierstrassCurve.Affine.Point`
  and its group law, division polynomials `WeierstrassCurve.Ψ/Φ`, `PowerSeries`, `ArithmeticFunction.sigma`, ...).
* That the model was read off the source faithfully.  As a check, lean/Verif/UnitTests.lean
  runs the assertions of the repository's own unit tests on the model, one `example` each, evaluated by the kernel (they are
  tests of the model, not claims); the larger ones (`modular_polynomial`, omega at 4 and 5, `sea` at 5) were evaluated with
  `#eval` only.  The two `#[ignore]`d tests of `schoof` are shown there to be calls that do not return.
* External crates: `num-bigint` (exact integer arithmetic, `/`, `%` truncating, `div_floor`/`mod_floor` flooring,
  `lcm` non-negative), `primes::is_prime` (= mathematical primality), `num_iter::range`, `std` (`BTreeMap`, `Vec`,
  `trim_end`, `to_string`).

## Not modelled

`Debug`, `Clone`/`Copy`, performance and memory use (except how deeply `extended_gcd`, `psi` and `gcd` recurse: Model/Depth), the
`assert_eq_str!` test macro, `Deref`/`From` for `ECPointVec` (identity conversions).

## Properties: what is modelled and how it is proved

The denotation of a polynomial is its sum of `coefficient • monomial` in the commutative ring
`ℤ[x^±1, y^±1, q^±1][c_i_j]` (an `AddMonoidAlgebra`), and – for polynomials that use only `x`, only `x, y`, or only
`q`, with non-negative exponents – its image in `ℤ[X]`, `ℤ[X][Y]`, power series.

| id | plan |
|----|------|
| C01–C03 | induction on the exponent of the square-and-multiply loop; Fermat's little theorem from Mathlib; every exponent and modulus of either sign by the same induction over floor residues (Props/BigIntAny) |
| C04–C05 | well-founded induction on `\|a\|`; fold invariant (product of moduli, all congruences so far); size of the coefficients by the same induction; depth of the recursion by a variant with a limit (Model/Depth) |
| C06 | the loop is a sum over a range, compared with `ArithmeticFunction.sigma` |
| C07 | case analysis on the comparison functions; the operators from `partial_cmp` (Model/Operators); antisymmetry of `<=` up to `==` refuted for terms |
| C08 | `visits` lists each pair `i ≤ j ≤ p` once; search in a duplicate-free list is inverse to indexing; the truncation `index as i32` is modelled, so the result is given exactly for every index, and the claims that indices ≥ 2^32 panic and that indices ≥ 2^31 below the count work are refuted by witnesses |
| C09–C10 | `lin φ (op a b)` computed for every linear functional `φ` on monomials, by induction on the entry lists; receivers after a panic: Model/Panic, Props/PanicSafe |
| C11 | uniqueness of sorted lists of non-zero coefficients; closure of that form under `+`, `-`; refuted for `*` by a witness |
| C12, C14 | loop invariant `r * b^e` |
| C13 | entry-list characterisation of the result; state left behind by a panic: write-by-write model (Model/Panic), proved to refine the value model |
| C15 | loop invariant in `(ZMod p)[X]` and a decreasing degree measure; divergence by an invariant state; composite moduli: the leading coefficient is multiplied by `1 - c^(p-1)` in each turn, which is nilpotent or a unit modulo a prime factor (Props/PolyDivAny) |
| C16–C17 | Euclid's algorithm: induction on degree; divergence from C15 for a non-zero constant divisor; nesting by a variant of `gcd` with a limit on the depth (Model/Depth, Props/GcdDepth) |
| C18 | C03 and C10 |
| C19 | comparison with `Polynomial.derivative` coefficientwise via `lin` |
| C20–C21 | per-term congruence in `ℤ[X][Y]` modulo `Y² - (X³+aX+b)`, fold invariant |
| C22–C28 | `lin` with the respective functional; entry-list characterisations; Laurent case of C26: bounds on the support of the value |
| C29–C31 | strong induction on `n`; comparison with Mathlib's `Ψ`, `Φ` through the reduced representation `f + g Y`; exactness of the divisions by `2y` and `4y` is proved (for `4y` through a congruence of `preΨ` modulo 2) |
| C32 | weight bound on exponents (x has weight 2, y weight 3), induction on `n`; nesting by a variant of `psi` with a limit on the depth (Model/Depth) |
| C33–C36 | fold invariants in `PowerSeries ℤ` modulo `X^(N+1)` |
| C37 | the elimination preserves every solution of the system; echelon invariant; back substitution |
| C38–C40 | fold characterisation; C37 for the solved system; the set of stored monomials is followed through both folds (C39) |
| C41–C44 | field arithmetic in `ZMod p`; comparison with Mathlib's `Affine.Point` addition; for moduli that are not odd primes, the exact domain of each call (Props/AnyModulus) and a composite modulus refuting closure |
| C45 | list characterisation of the double loop, quadratic equation in a field; any modulus in Props/AnyModulusPoints |
| C46–C49 | loop invariant in the group `E(GF(p))`, with the code's `P + O` behaviour tracked exactly |
| C50 | C03 and Mathlib's `j`; exact domain for every modulus (Props/AnyModulus) |
| C46, C49 exactly | `Props/TwoPower`: the loop once the doubled point has become O; then membership in `division_points` for every n |
| C51 | refuted by a concrete curve (`decide +kernel`) and, for n with a trivial kernel, for every curve (`Props/TwoPower`); what does hold (field and point list of the result) proved as `_partial` |
| C52 | Pratt/Lucas certificate for `p`; evaluation of `n·G` in the kernel; C46 |
| C53–C54 | from C16–C17: whenever `schoof` returns, the first entry is `(2,1)`; parity of the group order by Cauchy's theorem and the points `(x,0)`; shape by inversion of the monadic code |
| C55–C56 | C16, `x^p - x = ∏ (x - a)`, induction over the root search loop |
| C61 | counterexample run of `schoof` evaluated by the kernel, group order by C45 |
| C62 | C53 and inversion of the monadic code |
| C63 | `Lemmas/EDS*`: the sequence built from the x-coordinates of the multiples of a point of infinite order satisfies the `normEDS` recursion; the generic point over `Frac ℤ[A,X][Y]` has infinite order, which gives the elliptic-net identities over every ring; from these the values at an arbitrary (torsion) point of a curve over a field of odd characteristic; C29–C31 link them to the code |
| C64 | `Lemmas/SchoofEval`: each step of `schoof` is followed at the level of values at a point over a field of characteristic q (`Ev f c`: f has no negative exponents and value c); the cross-multiplied test polynomial vanishes at every l-torsion point because `psi_l` does; C63 and the addition formula turn the vanishing into the congruence; for `l | #E` Cauchy's theorem gives a torsion point fixed by Frobenius |
| C65 | direct computation; `i32 as u32` reinterpretation of a negative exponent |
| C66 | `Lemmas/TorsCount`: over an algebraically closed field at least n^2 points are killed by n (Wronskian of Mathlib's `Φ_n`, `ΨSq_n`), so a polynomial of degree below that of `psi_l` that vanishes at all l-torsion points is zero (`Lemmas/SchoofExact`): the test polynomial is zero iff it vanishes at all torsion points, which is the converse of C64. Mod 3: a root of `psi_3` in GF(q) gives 3 dividing #E or the order of the twist (`Lemmas/Twist`); without such a root `F^2 = 1 ± F` on the 3-torsion (`Lemmas/ThreeTors`) |
| C67 | `Lemmas/SchoofSign`: values of the polynomials of the y step at a torsion point (with `y⁻¹` allowed, because the code divides by `y`); if the test passes, a wrong addition formula holds at every point of order 3; together with `F^2 = 1 ± F`, hence `F^4 = -1`, it is contradictory |
| C68 | `Props/RingLaws`: the stored monomials of a product are the products of stored monomials (associativity and commutativity of exponent addition), and the value is the product; `==` holds iff both agree. Distributivity: value equality plus C13; counterexample for `==` itself |
| C69 | induction over the terms with `(x+y)^p = x^p + y^p + p·…` and Fermat's little theorem, then C12, C24 and C13 |
| C70 | Hasse's theorem proved from scratch: the height (degree of the x-coordinate) of points of the curve over F(x), twisted by its own equation, is a quadratic form (`Lemmas/Height`, `Lemmas/Parallelogram`); the height of `F - 1` is #E (`Lemmas/HasseBound`); Cauchy-Schwarz (`Lemmas/FrobChar`); then C45 |
| C71 | #E is a multiple of `n` (C52) within the Hasse interval, so `n`; C46 for odd order |
| C72 | the characteristic equation of Frobenius, first at the generic point by the bilinear form (`Lemmas/FrobChar`), then at every point by specialisation and translation (`Lemmas/FrobCharAll`); then C66 |
| C73 | the y-test of `schoof` on the 3-torsion (`Lemmas/ModThree`, `Lemmas/SchoofYExact`), the cube test of cases (d), (e) (`Lemmas/SchoofDE`), with the characteristic equation of C72 |
| C74 | a bound on every exponent at every step of `schoof` (`Lemmas/Bounds`, `Lemmas/SchoofTotal`), termination of `polynomial_modular` with y-exponents in [-1,1], and C72/C66 to know which branch is taken |
| C75 | the theory of modular forms of level one in Mathlib: `Δ^(p+1)` times a coefficient of `∏ (X - j(pτ)) (X - j((τ+k)/p))` is a modular form, so a polynomial in `j` (`Lemmas/JInv`, `Lemmas/JPhi`); transfer from functions to formal series by uniqueness of q-expansions and dominated convergence for the product (`Lemmas/SeriesEval`, `Lemmas/JSeries`); symmetry and integrality from the leading terms (`Lemmas/PhiExists`); then C40 |
| C76 | `j(q)^p ≡ j(q^p)` modulo `p` and the same triangular system modulo `p` |
| C77 | a product stores every sum of two stored exponents (even with coefficient 0), so the power `j(q^p)^(p+1)` must store `p²(p+1)²`, which is an `i32` only for `p ≤ 214`; no function involved has fuel |
| C78 | `Φ_2(X, j(E)) = ∏ (X - j(E/(e,0)))` as an identity in the roots `e` of the cubic (`Lemmas/Velu`), with C55, C56; C76 for `l = p`; C39 for symmetry |
| C79 | Frobenius on `E[5]` (two-dimensional over GF(5), C72's characteristic equation): the sign test on `y` analysed by the geometry of lines through 5-torsion points (`Lemmas/FiveTors`, `FiveRho`, `FiveFrob`), cases (d),(e) by divisibility by `psi5 0 b` (`Lemmas/FiveDE`), assembled as in C73 |
| C80 | `Spec/CurveCalls`: histories as nests of calls, their meaning in Mathlib's group of points, and the calls that hit the known defects; proved by induction on the history, on the number of `create_points` calls |
| C81 | C46/C47's order theorem, C45 (cardinality = number of points), Lagrange, Hasse's bound (C66) |
| C82 | character sums for the number of points (`Lemmas/Twist`) under scaling of `x`; C50 for `j_invariant`; cubing is a bijection for `p = 2` mod 3, `-1` a non-square for `p = 3` mod 4 |
| C83 | C53 (the entry modulo 2 is always 1, the trace even), C54 (moduli), C05 (`chinese_remainder`), the Hasse bound (`Props/Hasse`); `C83_recover` by a size argument |
| C84 | totality and overflow both ways: for every test of `schoof` either a bound on all exponents (`Lemmas/SchoofTotal`) or a term with an exponent above 2^31-1 (`Lemmas/SchoofOverflow`, weights); the last test of cases (d), (e) by parity of `a` at an `l`-torsion point over the algebraic closure (`Lemmas/DETail`, `DETail2`, `DEIff`); which branch is taken from the characteristic equation of Frobenius (C66, `Props/Hasse`) |
| C85 | false; refuted with GF(19): C84 both ways (on an `l`-torsion point `F^2 P = -P`, so `f(x)^(q^2-1) = 1`); equality of answers from C67, C73, C79 |
| C86 | `plus_affine` etc. need only a prime field of odd characteristic: Mathlib's group of nonsingular points exists for every Weierstrass curve; the singular point by direct computation with `f = (x-u)^2 (x+2u)` |
| C87 | bijection of the list with the solutions of `y^2 = f(x)` (C45) and `quadraticChar_card_sqrts`; singular curves by `sum chi = 0` |
| C88 | loop of `polynomial_modular` with a leading coefficient divisible by `p`: the degree over GF(p) never drops, so fuel induction shows it never ends; `gcd` unfolded once and reduced to C16's lemmas |
| C89 | image under every ring homomorphism killing the equation (`AdjoinRoot`), then division by a monic polynomial of degree 2 in `(Z/p)[x][y]` |
| C90 | stored monomials of a product are all the sums (zeros are kept), so `n` times a stored exponent occurs in `f^n`; over Z/p by the leading coefficient of `(x^3+ax+b)^h` |
| C91 | the fold of `isogeny` is a pair of sums over the list of division points; bounds from `0 <= x, y < p` |
| C92 | `Φ_3`, `Φ_5` found as literals and checked against the q-expansion conditions of C40/C75 with truncated series; roots of `Φ_3(X, j)` parametrised by roots of the 3-division polynomial (polynomial identities over an algebraic closure) |
| C93 | Legendre sums of C87 and the substitution `X = x + t/(x-e)`: each fibre of the 2-isogeny contributes the same on both sides |
| C94 | division polynomials bound the k-torsion by k^2 for p∤k and Hasse bounds the p-part; a finite abelian group with at most k^2 elements killed by every k is Z/m × Z/n; m ∣ p-1 from the number of points with F P = -v P: the invariant differential shows F+v separable for p∤v, its degree v^2+vt+q comes from the heights of C70, the characteristic equation of Frobenius shows the kernel has exactly that many points, and full rational m-torsion then gives m^2 ∣ v^2+vt+q |
| C95 | C78 and C92 reduce termination to j-invariants of quotients lying in GF(p); Frobenius on the 2- and 3-torsion with its characteristic equation (`frob_char`): an eigenvector gives a rational root of the division polynomial; without one the conjugate subgroups would all lead to the same j-invariant, excluded by comparing the polynomials of the parameters (resultants 63(x+8640), 180(x+25488), ...) |
| C96 | degrees from Mathlib's `coeff_preΨ`, `coeff_Φ` and the weight bound on the stored monomials (so that stored zero coefficients do not matter); the relation, divisibility and chain rule are proved for the generic point over Z[A,X,Y] (a domain in which no division polynomial vanishes) from the group law over its fraction field, with weighted homogeneity of normalised elliptic sequences, and specialised to every ring |
| C97 | induction along the recursion of extended_gcd and along the list (from the right) for chinese_remainder; the step is an identity from Bezout's relation |
| C98 | Exact domains (iff) of `eval_x_polynomial`, `eval_y_polynomial` and, modulo a prime, `power_modulo` (Props/SubstDomain.lean): every n-th power of a stored monomial is stored in the power; modulo p the lexicographically largest monomial survives each product, for six orders, so the extreme exponents are always present. |
| C99 | a writer monad over the outcome; the printing versions of `chinese_remainder`, `plus`, its callers `multiply_scalar`, `point_order`, `division_points`, `isogeny`, and `schoof` are proved to have the same outcomes (monad laws), the texts of polynomials contain no `=` (induction on the terms), so the lines with `=` are the announcements; `examples/hello_world.rs`: a literal with the proved value and stored monomials is what `modular_polynomial` returns, and its text is evaluated term by term by the kernel |
| C57 | an independent reader of printed text (`Spec/Text`) is proved to invert printing; unique decoding for `==` |
| C58, C60 | unique decoding of the printed text |
| C59 | direct computation; remaining arguments and exact domains in Props/TermsAny |

Where a property is false of the code, `properties.jsonl` keeps the property as a user would want it, the manifest says
`partial`, a `_partial` theorem states exactly what does hold and a `_refuted` theorem proves the negation of the full
statement for the model.
