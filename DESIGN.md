# Formal model of ajdmom: design

## 1. Trusted base

* Lean 4.33.0 kernel and the Mathlib version installed with it. Only the axioms
  `propext`, `Classical.choice`, `Quot.sound` may appear in any theorem (checked
  in `lean/Verif/Audit.lean`, for every theorem in `MANIFEST.json`). No own axioms, no `sorry`,
  no `native_decide`/`bv_decide`.
* The reading of `/repo/src/ajdmom` into the Lean definitions in
  `lean/Verif/Model/*.lean`. Every definition cites file and lines. The code is
  never executed. As evidence for this reading `lean/Verif/Fidelity.lean` evaluates the model
  on the expected values that the project records itself: all exact ones of `/repo/tests`
  (`test_poly`, `test_utils`, `test_cpp_mom`, `test_ito_mom`, `test_ito_cond_mom`, `test_itos_mom`) and the
  outputs printed in `docs/source/usage.rst`. These are tests of the model, no property rests on them. The
  model agrees with all of them except the six `test_ito_mom` cases on which the code itself
  differs from its test (section 4, item 2). The simulation-based tests (`test_mdl_*`) are not covered.
* Python numbers: `int` is `ℤ` or `ℕ`, `Fraction` (and the int values stored in a
  Poly) is `ℚ`. Floating point evaluation (`poly2num`, `fZ`, Euler schemes) is
  modelled in `ℝ` (no rounding, no overflow). `math.exp`, `math.sqrt` are the real
  functions.
* A Python dict / `UserDict` is modelled as an association list in insertion
  order; "no repeated key" is a separate theorem (`Poly.WF`), not a subtype.
* Python objects are modelled as values. Where the code mutates an object
  (`merge`, `add_keyval`, `del`), the model returns the new value. Aliasing is
  discussed where it exists (shared `P0` objects are never mutated).
* Nested `for` loops that only call `add_keyval` on one accumulator are modelled
  as one fold of `add_keyval` over the list of (key, value) pairs in loop order.
* Tuple keys of fixed length with integer components are `List ℤ`. `k[i]` is
  modelled by `k.getD i 0`; since Python raises `IndexError` when `i` is out of
  range, the length of every key that is read is proved separately where the
  code depends on it.
* Exceptions are values (`Except PyErr`).
* Not modelled: printing, `__main__` blocks, files (only the text written is
  modelled), numpy random generators (the draws are arbitrary inputs), time
  performance, Python recursion or memory limits.

## 2. Semantics used by the specifications

`Poly.ev f p = Σ v • f k` over the entries of `p`, for an arbitrary
interpretation `f` of keys in a ℚ-module. With `f` the indicator of one key this
is the coefficient; with `f` the product of powers of real parameters this is
`poly2num`. Each specification is written with real integrals, derivatives,
measures, `Finset` sums or Mathlib's `Nat.multinomial`; none uses a model helper
other than the evaluation of the returned object.

Stochastic integrals are not in Mathlib. For SRJD (C50, C51), SVCJ (C43), 1FSV (C18,
C26, C27, C29), 1FSVJ (C30), 2FSV (C52) and 2FSVJ (C53), theorems `_sde`, the
specification is Dynkin's formula for the generator of the documented stochastic
differential equations, for every polynomial; it is proved that the formula has
exactly one solution. For SVVJ, SVIJ and SVCJ given the jumps (C38, C48, C49; theorems
with `_sde` in the name) the formula holds between the jump times and the jumps act at
the given times (`Spec/GenAt.lean`, `Spec/CondSde.lean`); existence and uniqueness are
proved for distinct positive jump times. The joint moments of the Itô integrals
(C16, C20, C22) and of the SRJD variance given its jumps (C37) are treated the same way
(`Spec/ItoSde.lean`, `Spec/ItosSde.lean`, theorems with `_sde`). Besides, for these the
documented recursive integral equations are a specification of their own: "every family of functions that satisfies the
documented equations equals the evaluated output", for all orders.

## 3. Plan per property

| id | model | proof |
|----|-------|-------|
| C01-C07 | `Model/Poly.lean`: dict operations, `add`, `sub`, `mul`, `rmul`, `pow`, `merge`, `mulPoly`, `isExactType` | `ev` is a homomorphism for every `f`; coefficients by indicator `f`; order-insensitive dict equality from equal coefficients |
| C08-C12 | `Model/Utils.lean`: `comb`, odometer loops with explicit stack and fuel, `dbfactorial`, `cmnorm`, `fZ` | induction on the loop; `Nat.multinomial`; permutation/nodup of the enumerations; Gaussian integral for `cmnorm` |
| C13 | `simplifyRho` | binomial theorem |
| C14-C17 | `Model/Ito.lean`: `intEt`, `intEPoly`, `recursiveIEII`, `momentIEII` with table and deletions | fundamental theorem of calculus; invariant of the table over the loops |
| C18 | `momentV`; `C18_stationary` against the stochastic differential equations (`Spec/Sv.lean`) | induction; Gamma integral; the generator on powers of the variance |
| C19, C20 | `Model/ItoCond.lean`, spec `Spec/ItoCond.lean`: a jump functional `f_Z(l,o,p,q)` is a sum over tuples of jumps, times of jumps after `t` have size 0 | `Lemmas/ItoCondInt.lean`: a functional is a nested sum threaded with the running maximum, so integration over `[0,t]` acts at the last maximum; then as C14-C16. The recursion takes `int_e_IEZ_poly` as a parameter: proved for the repaired program at all orders, for the code where it is right, and the exact error at `(2,2,0)` |
| C21, C22 | `Model/Itos.lean`, spec `Spec/Itos.lean`: the documented five-index recursion (`ItoRec2`). The two faulty tests are parameters of one definition, `code` and `fixed` | as C14/C16; proved for `fixed` at all orders and rates without an integer relation, for `code` where it is right; exact error at order 3 |
| C23-C25 | `Model/Cpp.lean`, spec: the compound Poisson law is the mixture of convolution powers of a normal law | Stein recursion for normal moments, size-biased recursion for the Poisson mixture |
| C26, C27 | `Model/Fsv1.lean`; spec: a linear functional `E` with the documented moments (`CondLaw`, `StatLaw`) | multinomial theorem under `E`; existence of such an `E` is proved, so hypotheses are met. The theorems `_sde` state the same from the stochastic differential equations (`Spec/Sv.lean`): Dynkin's formula gives the Itô moment equation and the documented representation of the return (`Lemmas/Heston2.lean`); two returns in a row are a process with the first return frozen |
| C28 | `dpoly` | `HasDerivAt` of the evaluated polynomial, including `rho` |
| C29 | `Model/Fsv1c.lean` | invariant of the table, `cmomsTo` shared with the other models (`Model/CMoms.lean`); `C29_cond_cm_sde` as C26 |
| C30 | `Model/Fsv1j.lean`; the theorems `_sde` state it from the stochastic differential equations (`svj`, `svj2` in `Spec/Sv.lean`) | binomial convolution; the compound Poisson law satisfies Dynkin's formula (`Lemmas/CppDyn.lean`), so the process with jumps is the process without jumps shifted by their sum (`Lemmas/GenJump.lean`) |
| C31 | `Model/Fsv2.lean`, spec `Spec/Fsv2.lean`: any expectation with the joint moments `itos_mom` computes (`CompLaw`); division by a vanishing combination of the rates raises | multinomial theorem under `E`, denominators as multisets, existence of such an `E` |
| C52 | the same, with the Itô moment equation (`CondLaw`) in place of the computed moments; the theorems `_sde` state it from the stochastic differential equations (`sv2`, `sv2two` in `Spec/Sv2.lean`) | C22 for the orders where it holds; at order 3 the exact difference, positive for positive parameters. The two-factor Itô moment equation follows from Dynkin's formula for the five integrals (`Lemmas/Sv2Ito.lean`), the representation of the return from the affine image of that process (`Lemmas/Sv2Repr.lean`) |
| C32 | `dpoly`, `dt0` | `HasDerivAt` through the denominators; the moment can be evaluated near the point |
| C33 | `Model/Fsv2j.lean`, spec `Spec/Fsv2j.lean`: return of C31 plus an independent compound Poisson variable (the measure of C11) | binomial theorem under the product expectation |
| C53 | the same, with the Itô moment equation in place of the computed moments; the theorems `_sde` state it from the stochastic differential equations (`sv2j`, `sv2jtwo`) | as C52; jumps as C30 |
| C54 | `dpoly`, `dm`, `dcm`, `dcov` of `mdl_2fsvj` | as C32 |
| C34 | `Model/SrjdIez.lean`, `Spec/Srjd.lean` | derivatives of a compound Poisson MGF for any jump law, `t-s` cancels by a degree invariant |
| C35 | `Model/SrjdJoint.lean` | the recursion as a definition (`jointMom`), table invariants, recursion depth as fuel; the recursion from the stochastic differential equations (`Srjd.ints` in `Spec/ItoSde.lean`) in `Lemmas/SrjdInts.lean` |
| C36 | `Model/SrjdCond.lean` | loops as sums, expectation as a linear functional on polynomials in `IE_t`, `IEZ_t` |
| C50 | `Model/SrjdCond.lean`, `Spec/SrjdGen.lean` | the generator as an operator with an integral over the jump law, Dynkin's formula as the specification; cumulants of the jump integral and differentiation of the recursion under the integral; uniqueness by induction over the order |
| C51 | `Model/SrjdCmom.lean` | the same equation with the stationary law, coefficient comparison for the division |
| C37 | `Model/SrjdJump.lean`, spec `Spec/SrjdJump.lean`: recursion for the moments of `IE` given the jumps | tuples embedded into those of C19, so integration acts at the last running maximum; table invariant; multinomial theorem under a linear functional with the moments of `IE`, whose existence is proved |
| C38 | `Model/Svvj.lean`, spec `Spec/Svvj.lean`: return as a polynomial in `IE, I, I*` given the jumps | `cmomsTo` of `Model/CMoms.lean`, multinomial theorem, right where C20 is; for order 4 the difference to the repaired program is computed symbolically and is not zero on a witness (one jump at time `log 2`, `h = 2 log 2`). `Props/CondSde.lean` proves the same from the stochastic differential equations: the documented representation of the return follows from Dynkin's formula with jumps at given times (`Lemmas/GenAt.lean`, `Lemmas/CondRepr.lean`, `Lemmas/CondRepr.lean`) |
| C39 | `classify` in `Model/Svvj.lean` | the sub-Polys are the entries filtered by depth; error exactly when the depths have a gap |
| C40, C48 | `Model/Svij.lean`, spec `Spec/Svij.lean`: SVVJ return plus an independent compound Poisson variable | convolution; C48 right where C38 is; from the equations in `Props/CondSde.lean`, the jumps of the price split off in `Lemmas/CondPrice.lean` |
| C41, C49 | `Model/Svcj2.lean`, spec `Spec/Svcj2.lean`: SVVJ return plus an iterated convolution of normal laws; `Run` = partiality (fuel) over exceptions | multinomial theorem over the loop of `next_index`, convolution; C49 right where C38 is; from the equations in `Props/CondSde.lean`, as C48 |
| C42 | `Model/Ieziziz.lean`, `Spec/Ieziziz.lean` | the law of the three sums is a compound Poisson law on R^3; its moments satisfy `E[X_o f(X)] = Λ E[J_o f(X+J)]` (`Lemmas/IezizizLaw.lean`); the code differentiates the MGF formally, `T_o g = X_{e_o} g + ∂_o g` in a polynomial ring with one variable per jump moment, and the same recursion follows from the Leibniz rule (`Lemmas/IezizizAlg.lean`) |
| C43 | `Model/SvcjI.lean`; spec `Spec/Gen.lean`, `Spec/SvcjGen.lean`, `Spec/SvcjInt.lean`: the stochastic differential equations of the model, with Dynkin's formula for polynomials | the formula has exactly one solution for polynomial coefficients (`Lemmas/Gen.lean`); the documented representation of the return follows from it (`Lemmas/SvcjY3.lean`); the recursion of the joint moments is the Itô formula after a change of variables; stationary moments as in C51; the central moments have no `mu` because the generating identity holds in a Laurent ring with `mu` as a variable |
| C44 | `Model/Writer.lean` (text of both writers as a list of characters; the file system and `print` are not modelled) | `Spec/Writer.lean` splits the text at newlines and commas; flat keys and the SVVJ/SVIJ/SVCJ layout with at least one jump index line up; SRJD, no jump index, and 2FSV/2FSVJ do not; the txt file determines the Poly |
| C55 | `Model/Subpolys.lean` (`write_to_subpolys` as the list of file names and texts) | file `d` is the txt file of the entries of depth `d`; names differ; the files determine the Poly and keep its value; error exactly when the depths have a gap |
| C56 | functions as before; `Spec/Law.lean` says what it is to be the moments of a distribution | the generator is non-negative at a minimum over the region the process stays in (`Lemmas/GenPos.lean`), so expectations of polynomials non-negative there stay non-negative; a functional with this property is an integral (Riesz-Haviland, `Lemmas/SvLaw.lean`). The stationary law of the SRJD variance: `v^n` plus a constant is a generator, and a negative expectation would contradict the principle at a minimum (`Lemmas/SrjdPos.lean`) |
| C57 | as C56, two-factor models | as C56, for the orders in which the code is right (up to 2; `_partial`); for all orders with the correction described in section 4 |
| C58 | functions as before; `Spec/Agg.lean` says what it is to be the moments of a sum of two returns | the pair of returns in a row, mapped by addition, solves the equations of one return over the longer interval (`Gen.dynkin_shift`, `Sv.svj2_agg`, `Sv2.sv2j_agg` in `Lemmas/Agg.lean`), and solutions are unique. Two-factor models: orders 1 and 2 of the code (`_partial`), all orders with the correction of section 4 |
| C59 | functions as before | the stochastic differential equations of the extended model with intensity 0 are those of the model it extends, and both codes return the unique solution; for SVIJ against SVVJ and 2FSVJ against 2FSV also the orders in which the code is wrong, from the recursions themselves |
| C60 | functions as before | the moments given the variance are linear in the functional at time 0 (`Lemmas/Tower.lean`), so a polynomial in the initial variance represents them; its average is the solution started from the stationary law |
| C61 | functions as before | a change of the time unit maps the solution of the stochastic differential equations to that of the rescaled ones (`Lemmas/Units.lean`); for two factors every key that `itos_mom` produces is homogeneous of weight 0 (`Lemmas/ItosUnit.lean`), by induction along its recursion |
| C62 | functions as before | the shift by delta*t maps the solution of the stochastic differential equations to that with the other drift (`Lemmas/Drift.lean`); for two factors from the expectation form of the code (`Props/Drift.lean`) |
| C63 | functions as before | binomial expansion of the code over the compound Poisson law; commutation with C62 by exponential generating functions (`Props/Conv.lean`) |
| C64 | functions as before | the exchange of the variances maps solutions of Dynkin's formula to solutions (`Props/Swap.lean`); the code itself violates it from order 4 on (section 4, item 19) |
| C65 | functions as before, as functions of `h` | right derivative at 0 of the solution of Dynkin's formula, computed from the generator at points where the return is 0 (`Lemmas/Short.lean`, `Props/Short.lean`) |
| C66 | functions as before | one expectation behind both functions; for two factors C62 with the drift that makes the mean 0; for jumps the convolution of C63 (`Props/Central.lean`) |
| C67 | limit of the conditional moments of SRJD for long intervals is the stationary moment | `Props/Long.lean`: the difference solves a stable linear equation with vanishing inhomogeneity; induction on the order |
| C68 | constant volatility: normal moments (geometric Brownian motion), Merton's jump diffusion, at all orders and in all models | `Lemmas/Flat.lean` (normal moments solve the moment equations), `Lemmas/ItosFlat.lean` (the recursion of `itos_mom.py` without volatilities), `Props/Flat.lean`, `Props/Flat2.lean` |
| C69 | weak convergence of the truncated Euler scheme, in all moments, for the law of the draws: `Spec/Draws.lean` (independent normal draws), with the moments of C26, C27, C29 as the limits | `Lemmas/EulerLaw.lean` (approximate solutions of the moment equations converge), `EulerStep`, `EulerLaw`, `EulerMain` (uniform moment bounds, one-step error), `EulerCir` (the truncation at 0 is negligible, by an exponential bound), `EulerProc` (laws of the trajectories, chaining samples), `Euler1`, `Props/EulerConv.lean` |
| C70 | as C69, for the two-factor generator; false at order 3 because of the error of `itos_mom` (section 4) | `Lemmas/Euler2.lean`, `Props/EulerConv2.lean` |
| C71 | as C69; the jumps of a sample have the compound Poisson law (induction over the number of jumps) and are independent of the rest, so the moments are the convolutions of C63 | `Spec/DrawsJ.lean`, `Lemmas/EulerJump.lean`, `Props/EulerJump.lean` |
| C72 | as C70 and C71; false at order 3 because of the error of `itos_mom` (section 4) | `Lemmas/Sv2Conv.lean`, `Props/EulerJump.lean` |
| C73 | the moments of the non-central chi-square law by a recursion in the order; they solve the moment equation of the square-root diffusion between the jumps (Dynkin's formula with given jumps); integration over the draws one after the other by independence; strong law of large numbers | `Spec/Ncx2.lean`, `Lemmas/CirFlow.lean`, `Lemmas/CirFlow.lean`, `Lemmas/SrjdDraw.lean`, `Props/SrjdExact.lean` |
| C74 | the moment given the jumps is a composition of flows of the square-root diffusion and jump operators (C37 from the stochastic differential equation); on polynomials of bounded degree these are matrices, the flow is an exponential; the average over n jumps is the n-th term of the Picard series of a linear differential equation, whose sum is the exponential of the generator with jumps; C50. The theorem `Gen.avg_dynkin` is for any polynomial jump-diffusion | `Spec/JumpAvg.lean`, `Lemmas/JumpAvg.lean`, `Props/JumpAvg.lean` |
| C75 | `Gen.avg_dynkin` (see C74) with the Heston generator between the jumps and the jump law given the variance jump; C49 and C43 from the stochastic differential equations | `Lemmas/JumpAvg.lean`, `Props/JumpAvg.lean` |
| C76 | the linear equations of the first two moments, from the generator applied to coordinates and products of two coordinates (`isGen_lin`, `isGen_quad`, `sol_lin`), solved explicitly; C29, C30, C43, C50, C52 and C53 from the stochastic differential equations | `Props/Closed.lean` |
| C77 | C76 and inequalities for `x - 1 + e^{-x}` | `Props/Closed.lean` |
| C78 | Positivity of the expectation between jumps and through each jump, then Haviland's theorem | `Props/LawAt.lean` |
| C79 | Linear equations for the first two moments, with jumps at fixed times | `Props/ClosedAt.lean` |
| C80 | Recursion of the stationary moments divided by n!, induction on the order | `Props/Cumulant.lean` |
| C81 | Equation of the cumulants between the jumps, formal power series, uniqueness of the moments | `Props/CumulantAt.lean` |
| C82 | Equation of the cumulants, formal power series, uniqueness of the moments | `Props/CumulantOf.lean` |
| C83 | Leibniz rule for the moment generating function, power series for the central moments | `Props/CumulantOf.lean` |
| C84 | cumulants of C80, C81 and C82 are monotone (comparison of their differential equations), strong induction on the order | `Props/CumulantOf.lean` |
| C85 | cumulants of C80, C81 and C82 add; products of formal power series | `Props/CumulantOf.lean` |
| C45 | `Model/Euler.lean`: the draws (normals, jump times, jump sizes) are arbitrary inputs; Python floats are reals and division by 0 raises (numpy floats would warn instead) | each generator equals the truncated Euler scheme for all draws |
| C46, C47 | key lengths of `ito_mom` results; see `properties.jsonl` | invariant of the table |

## 4. Disagreements between code and documentation

Proved (negation on a witness in Lean):

1. C20: `ito_cond_mom.int_e_IEZ_poly` overwrites the tuples `l, o, p, q` inside its inner loop, so the
   third and later terms accumulate increments. Wrong at order 4 already; `C20_moment_IEII_error` gives
   the error for `(2,2,0)` for all jumps.
2. C46: `ito_mom.moment_IEII(0,0,0)` and other table entries of order at most 2 have 8-component keys for
   a 7-component keyfor. The project's own tests of these six orders expect 7 components (and `{}` for the
   zero moments), so they fail.
3. C29: `cmoments_y_to(0)` returns two elements, so "the last one" is the order-1 moment 0, not 1
   (`C29_cond_cm_zero`).
4. C45: simultaneous jumps, or a jump at time 0, make the SRJD generator divide by 0
   (`C45_srjd_simultaneous`).
5. C09: the `while` loop over multi-indices does not end when the upper limit is 0 (`C09_diverges`).
6. C13: `simplify_rho` drops terms whose power is negative and even.
7. C17: a negative component with a non-negative total is not rejected.

8. C38: with a jump the central moment of order 4 is wrong (from 1), `C38_cm_wrong`; `cm(0)` is 0.
9. C39, C55: `classify`, and so `write_to_subpolys`, raises IndexError unless the depths are `0, ..., m - 1`,
   `C39_classify_error`, `C55_error`.
10. C48: the errors of C38 carry over to SVIJ (`C48_cm_wrong`, `C48_cm_zero`).
11. C49: likewise for SVCJ (`C49_cm_wrong`, `C49_cm_zero`); `m(0, par)` raises IndexError, because the key
    of the moment of order 0 lacks 3 of 19 components (`C49_m_zero`).
12. C34: `iez_cmom.cm` raises TypeError for every order (`C34_cm_raises`).
13. C35: `moment_ie(2)`, `moment_ie_iez(2, 0)`, `cmoment_ie_iez(2, 0)` have an empty keyfor
    (`C35_keyfor_violated`).

14. C21: `itos_mom.int_et` tests `n1 + n2 == 0` instead of `n1 == 0 and n2 == 0`; `C21_int_et_wrong`.
15. C22: `itos_mom.recursive_IEI_IEII` uses `elif` where the documented equation adds all applicable terms.
    Wrong at total order 3 (`C22_moment_error`, `C22_moment_wrong`). Repairing this alone leaves order 4
    wrong, because of 14 (`C22_rate_test_matters`). A negative total order raises NameError
    (`C22_guard`).

16. C52: consequently `m(3, par)` and `cm(3, par)` of `mdl_2fsv` are too small by
    `gap3 k1 θ1 σ1 h + gap3 k2 θ2 σ2 h`, a positive amount for positive parameters (`C52_order3`,
    `C52_order3_wrong`). The third central moment is what the skewness is computed from.

17. C53: the same holds for `mdl_2fsvj`, by the same amount (`C53_order3`, `C53_order3_wrong`).

18. C44: `write_to_csv` writes a title longer than the rows for every SRJD Poly with `l_{1:n}`
    (`C44_csv_srjd_wrong`) and for every SVVJ-type Poly without jump indices (`C44_csv_level0_wrong`); for
    2FSV and 2FSVJ no row has as many columns as the title (`C44_csv_2fsv_wrong`); a Poly without entries
    raises UnboundLocalError if `l_{1:n}` is in `keyfor` (`C44_csv_empty`).
19. C64: `E[IE_1² IE_2²]` of itos_mom.py depends on which factor is called the first (`C64_itos_wrong`), a consequence
    of item 15. Evaluating the model with floats (not proved),
    `cm(4)` of mdl_2fsv at k1, k2, h, θ1, σ1, θ2, σ2 = 1, 2.3, 1, .5, .4, .3, .6 is 2.083017, and 2.083022 after the exchange.
20. C70, C72: the third moments of the samples of r2FSV and r2FSVJ, in the limit of small steps, exceed `m(3, par)` and
    `cm(3, par)` (`C70_2fsv_order3`, `C72_2fsvj_order3`), a consequence of item 16: simulation and formulas of the package
    disagree.

Each is settled by a proved negation plus a `_partial` theorem for the inputs where the property does hold.
