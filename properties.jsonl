{"id": "C01", "title": "Poly addition adds coefficients and values", "statement": "For two Polys with the same keyfor, p + q returns a Poly whose coefficient at every key is the sum of the two coefficients (a missing key counting as 0), that contains no entry with value 0 and no repeated key, and whose value under every assignment of the variables is the sum of the values. Consequently + is commutative and associative up to dict equality.", "quantifier": "all pairs (triples) of Polys with equal keyfor, all keys, all variable assignments", "why_tests_cant": "Poly contents are unbounded dictionaries with arbitrary rational coefficients; cancellations and key overlaps form an infinite family.", "anchors": ["src/ajdmom/poly.py: Poly.__add__", "src/ajdmom/poly.py: Poly.add_keyval", "src/ajdmom/poly.py: Poly.remove_zero"]}
{"id": "C02", "title": "Poly subtraction", "statement": "p - q has at every key the difference of the coefficients, no zero entries, and its value is the difference of the values; p - p is the empty Poly and (p - q) + q equals p up to explicit zero entries of p.", "quantifier": "all pairs of Polys with equal keyfor, all keys and assignments", "why_tests_cant": "The two branches (key present / absent) interact with cancellation for arbitrary key sets.", "anchors": ["src/ajdmom/poly.py: Poly.__sub__"]}
{"id": "C03", "title": "Poly multiplication is polynomial multiplication", "statement": "p * q evaluates, under every assignment that turns component-wise key addition into multiplication, to the product of the values; its coefficient at a key is the convolution of the coefficients; it contains no zero entries; * is commutative, associative and distributes over + up to dict equality on keys of equal length.", "quantifier": "all pairs (triples) of Polys with equal keyfor and keys of that length, all assignments", "why_tests_cant": "The collisions of summed keys are unbounded; tests check a few products.", "anchors": ["src/ajdmom/poly.py: Poly.__mul__"]}
{"id": "C04", "title": "Scalar multiple and integer power", "statement": "c * p evaluates to c times the value of p and has no zero entries (c = 0 gives the empty Poly). p ** n evaluates to the n-th power for every n >= 1 and raises NotImplementedError for every n <= 0.", "quantifier": "all rationals c, all Polys p, all integers n", "why_tests_cant": "n and p are unbounded.", "anchors": ["src/ajdmom/poly.py: Poly.__rmul__", "src/ajdmom/poly.py: Poly.__pow__"]}
{"id": "C05", "title": "merge is in-place addition", "statement": "After p.merge(q) the first Poly holds exactly what p + q would hold (same keys, same values, same order) and keeps its keyfor; merging a sequence of Polys in any order gives the same dict, equal in value to the sum.", "quantifier": "all Polys with the same keyfor, all finite sequences of merges and all their permutations", "why_tests_cant": "Every moment routine accumulates with merge; sequences and orders are unbounded.", "anchors": ["src/ajdmom/poly.py: Poly.merge"]}
{"id": "C06", "title": "mul_poly multiplies Polys of different types", "statement": "p.mul_poly(q, (idx1, idx2), keyfor) evaluates to the product of p and q whenever each output position i is a variable that carries component idx1[i] of p and idx2[i] of q (index -1 or out of range meaning absent) and every component of p and q is carried by exactly one output position; result has no zero entries and carries the requested keyfor.", "quantifier": "all Polys, all index layouts, all assignments", "why_tests_cant": "The index lists are caller supplied and the Polys unbounded.", "anchors": ["src/ajdmom/poly.py: Poly.mul_poly", "src/ajdmom/poly.py: kv"]}
{"id": "C07", "title": "Polys of different keyfor are never mixed", "statement": "p + q, p - q, p * q and p.merge(q) raise NotImplementedError exactly when the keyfor tuples differ (in length or in any position); in that case no result is produced; otherwise they never raise that error. merge leaves its receiver unchanged when it raises.", "quantifier": "all pairs of Polys, all keyfor tuples", "why_tests_cant": "keyfor tuples are arbitrary; the guard loop has an early exit.", "anchors": ["src/ajdmom/poly.py: Poly.is_exact_type", "src/ajdmom/poly.py: Poly.__add__", "src/ajdmom/poly.py: Poly.__sub__", "src/ajdmom/poly.py: Poly.__mul__", "src/ajdmom/poly.py: Poly.merge"]}
{"id": "C08", "title": "comb is the multinomial coefficient", "statement": "comb(n, ns) with sum(ns) = n and non-negative entries returns the multinomial coefficient n!/(n1!...nk!), a positive integer, and the coefficients of all splittings of n into len(ns) parts sum (weighted) to (x1+...+xk)^n.", "quantifier": "all n, all lists ns of naturals with sum n", "why_tests_cant": "n and the number of parts are unbounded.", "anchors": ["src/ajdmom/utils.py: comb"]}
{"id": "C09", "title": "multilevel_index enumerates every index tuple exactly once", "statement": "multilevel_index(n, m) returns, for m >= 1 and n >= 1, every tuple of n integers in {0..m-1} exactly once, in lexicographic order (so m**n tuples), and terminates.", "quantifier": "all n >= 1 and m >= 1", "why_tests_cant": "The enumeration is an odometer loop whose carry logic must be right for every width and base.", "anchors": ["src/ajdmom/utils.py: multilevel_index"]}
{"id": "C10", "title": "multilevel_comb enumerates every composition exactly once", "statement": "multilevel_comb(n, m) returns, for n >= 2, every n-tuple of non-negative integers with sum m, each exactly once.", "quantifier": "all n >= 2 and m >= 0", "why_tests_cant": "Recursion over unbounded n, m.", "anchors": ["src/ajdmom/utils.py: multilevel_comb"]}
{"id": "C11", "title": "Normal central moments", "statement": "cmnorm(n) evaluates to the n-th central moment of the normal distribution with the given standard deviation: 0 for odd n, (n-1)!! sigma^n for even n; dbfactorial(n) is the double factorial.", "quantifier": "all n >= 0 and all sigma >= 0", "why_tests_cant": "n is unbounded and the reference is an integral.", "anchors": ["src/ajdmom/utils.py: cmnorm", "src/ajdmom/utils.py: dbfactorial"]}
{"id": "C12", "title": "fZ sums over every combination of jumps", "statement": "utils.fZ(l, o, p, q, k, s, J) for exponent tuples of depth n returns the sum, over all n-tuples (j_1..j_n) of jumps, of prod_i e^{l_i k s_{j_i}} J_{j_i} s_{j_i}^{o_i} times prod_{i>=2} e^{p_i k M_i} M_i^{q_i} with M_i = max(s_{j_1}..s_{j_i}), for any number of jumps including none; depth 0 gives 1; it terminates and agrees with summing fZ_each_index over multilevel_index.", "quantifier": "all depths, exponents, jump counts, jump times and sizes", "why_tests_cant": "Number of jumps and depth are unbounded.", "anchors": ["src/ajdmom/utils.py: fZ", "src/ajdmom/utils.py: fZ_each_index"]}
{"id": "C13", "title": "simplify_rho preserves value", "statement": "simplify_rho(poly, n) returns a Poly with the same value as poly whenever the assignment satisfies sqrt(1-rho^2)^2 = 1 - rho^2 and all sqrt powers are even and non-negative, and the sqrt component of the result is eliminated; it raises when an odd power occurs.", "quantifier": "all Polys, all positions n, all rho in [-1,1]", "why_tests_cant": "Unbounded powers of sqrt(1-rho^2) are expanded binomially.", "anchors": ["src/ajdmom/utils.py: simplify_rho"]}
{"id": "C14", "title": "int_et computes the integral of e^(nks) s^m", "statement": "ito_mom.int_et(n, m) evaluates, at every k != 0 and every interval, to the definite integral of e^{n k s} s^m from (n-1)h to t expressed in the shifted time, for every integer n and every natural m.", "quantifier": "all integers n, naturals m, all real k != 0, all end points", "why_tests_cant": "n and m unbounded; the value is a real integral.", "anchors": ["src/ajdmom/ito_mom.py: int_et", "src/ajdmom/ito_mom.py: c_nmi"]}
{"id": "C15", "title": "int_e_poly integrates a moment polynomial", "statement": "ito_mom.int_e_poly(c, tp, m, poly) evaluates to c * factor(tp) * integral from (n-1)h to t of e^{m k s} times the value of poly at s, where factor is e^{k(n-1)h} v (tp 1), -e^{k(n-1)h} theta (tp 2), theta (tp 3), sigma_v (tp 4).", "quantifier": "all integers m, all coefficient c, all moment Polys, all real parameter values with k != 0", "why_tests_cant": "The input Poly is an unbounded dictionary and the spec is an integral.", "anchors": ["src/ajdmom/ito_mom.py: int_e_poly"]}
{"id": "C16", "title": "ito_mom.moment_IEII solves the documented Ito moment recursion", "statement": "For all n3, n4, n5 >= 0 the Poly returned by ito_mom.moment_IEII(n3, n4, n5) evaluates, for all parameter values with k != 0 and all times, to the unique family of functions that satisfies the documented recursive integral equation (equation ito-moment of the docs) with the value 1 at order (0,0,0) and 0 at order 1.", "quantifier": "all orders (n3,n4,n5), all k != 0, theta, sigma, v, and all elapsed times", "why_tests_cant": "Orders are unbounded, tests check orders up to about 4; each value is a function defined by integrals.", "anchors": ["src/ajdmom/ito_mom.py: moment_IEII", "src/ajdmom/ito_mom.py: recursive_IEII"]}
{"id": "C17", "title": "ito_mom.moment_IEII never fails on a dropped lower order", "statement": "The bottom-up table of moment_IEII deletes old orders while it advances; for every n3, n4, n5 >= 0 no lookup hits a deleted or missing entry (no KeyError), and a negative total order is rejected with ValueError.", "quantifier": "all orders and every intermediate state of the table", "why_tests_cant": "A KeyError might first occur at an order larger than any tested.", "anchors": ["src/ajdmom/ito_mom.py: moment_IEII"]}
{"id": "C18", "title": "moment_v gives the stationary variance moments", "statement": "ito_mom.moment_v(n) evaluates to prod_{j<n} (theta + j sigma^2/(2k)) for all n, which is the n-th moment of the Gamma(2k theta/sigma^2, 2k/sigma^2) stationary law.", "quantifier": "all n >= 0, all theta, sigma, k != 0 (k, theta, sigma > 0 for the distribution)", "why_tests_cant": "n is unbounded; the reference is a distributional moment.", "anchors": ["src/ajdmom/ito_mom.py: moment_v"]}
{"id": "C19", "title": "int_et_fZ integrates against the jump functional", "statement": "ito_cond_mom.int_et_fZ(n, m, ctp) evaluates, for given jump times and sizes, to the integral from 0 to t of e^{nks} s^m f_{Z_s}(ctp) ds where f_{Z_s} restricts the jump functional to the jumps before s.", "quantifier": "all n, m, ctp, all jump histories, all t", "why_tests_cant": "Jump history is arbitrary and the value is an integral of a step-like functional.", "anchors": ["src/ajdmom/ito_cond_mom.py: int_et_fZ"]}
{"id": "C20", "title": "ito_cond_mom.moment_IEII solves the Ito recursion given the jump history", "statement": "For all orders, ito_cond_mom.moment_IEII(n3,n4,n5) evaluates to the solution of the documented recursion in which the variance also contains the jump functional IEZ.", "quantifier": "all orders, all jump histories, all parameters", "why_tests_cant": "Orders and histories unbounded.", "anchors": ["src/ajdmom/ito_cond_mom.py: moment_IEII", "src/ajdmom/ito_cond_mom.py: int_e_IEZ_poly", "src/ajdmom/ito_cond_mom.py: recursive_IEII"]}
{"id": "C21", "title": "itos_mom.int_et integrates two-rate exponentials", "statement": "itos_mom.int_et(n1, n2, m) evaluates to the integral of e^{(n1 k1 + n2 k2) s} s^m for all integers n1, n2 (not both zero, or both zero) and all m, whenever n1 k1 + n2 k2 != 0 or n1 = n2 = 0.", "quantifier": "all integers n1, n2, naturals m and reals k1, k2", "why_tests_cant": "unbounded parameters; the tests use one factor only.", "anchors": ["src/ajdmom/itos_mom.py: int_et"]}
{"id": "C22", "title": "itos_mom.moment_IEI_IEII solves the documented two-factor recursion", "statement": "For all orders, moment_IEI_IEII(n4, n5, n6, n7, n8) evaluates to the solution of the documented two-factor Ito recursion (all applicable terms are added).", "quantifier": "all five orders, all parameters", "why_tests_cant": "orders unbounded, tests cover only a handful of single-factor cases.", "anchors": ["src/ajdmom/itos_mom.py: moment_IEI_IEII", "src/ajdmom/itos_mom.py: recursive_IEI_IEII"]}
{"id": "C23", "title": "mnorm gives the normal raw moments", "statement": "cpp_mom.mnorm(n) evaluates to E[J^n] for J normal with mean mu and variance sigma^2.", "quantifier": "all n >= 0, all mu, sigma", "why_tests_cant": "n is unbounded; the reference is an integral.", "anchors": ["src/ajdmom/cpp_mom.py: mnorm", "src/ajdmom/cpp_mom.py: dmgf"]}
{"id": "C24", "title": "mcpp gives the compound Poisson moments", "statement": "cpp_mom.mcpp(n) evaluates to the n-th moment of the compound Poisson increment over time h with normal jumps, i.e. the n-th derivative at 0 of exp(lambda h (M_J(s) - 1)).", "quantifier": "all n >= 0, all lambda, h, mu, sigma", "why_tests_cant": "n unbounded; Faa di Bruno style key bookkeeping.", "anchors": ["src/ajdmom/cpp_mom.py: mcpp", "src/ajdmom/cpp_mom.py: mcpp_original", "src/ajdmom/cpp_mom.py: dmgf_cpp", "src/ajdmom/cpp_mom.py: dterm", "src/ajdmom/cpp_mom.py: decode"]}
{"id": "C25", "title": "cmcpp gives the central compound Poisson moments", "statement": "cpp_mom.cmcpp(n) evaluates to the n-th central moment of the compound Poisson increment: sum_i C(n,i) (-lambda h mu)^i E[Z^{n-i}].", "quantifier": "all n >= 0, all parameters", "why_tests_cant": "n unbounded.", "anchors": ["src/ajdmom/cpp_mom.py: cmcpp"]}
{"id": "C26", "title": "1FSV central moments and raw moments of the return", "statement": "mdl_1fsv.cmom.cmoment_y(l) and mom.moment_y(l) evaluate to the expectation of the l-th power of the documented linear representation of the (centred) return, for every expectation functional whose joint moments of (v, IE, I, I*) are those of moment_IEII and moment_v.", "quantifier": "all l, all parameters, all expectation functionals consistent with the conditional moments", "why_tests_cant": "l unbounded; five- and six-fold multinomial loops.", "anchors": ["src/ajdmom/mdl_1fsv/cmom.py: cmoment_y, moment_comb, b_n, sub_v, ve_IEII", "src/ajdmom/mdl_1fsv/mom.py: moment_y, moment_comb, b_n, sub_v"]}
{"id": "C27", "title": "1FSV covariance", "statement": "mdl_1fsv.cov.cov_yy(l1, l2) evaluates to E[y_n^l1 y_{n+1}^l2] - E[y_n^l1] E[y_{n+1}^l2] where the second return is expanded through v_n = e^{-kh} v_{n-1} + (1-e^{-kh}) theta + sigma e^{-knh} IE_n.", "quantifier": "all l1, l2, all parameters, all consistent expectation functionals", "why_tests_cant": "two unbounded orders and three nested expansions.", "anchors": ["src/ajdmom/mdl_1fsv/cov.py: cov_yy, moment_yy, moment_outer_comb, moment_inner_comb, ve_IEII_vn, exp_vn"]}
{"id": "C28", "title": "1FSV dpoly is the exact partial derivative", "statement": "poly2num(dpoly(p, wrt), par) equals the partial derivative of poly2num(p, par) with respect to the parameter wrt, for wrt in the supported names; any other wrt raises ValueError.", "quantifier": "all Polys of the moment type, all parameter values with k, theta,... nonzero, all wrt", "why_tests_cant": "Polys are unbounded; derivative claims are statements about limits.", "anchors": ["src/ajdmom/mdl_1fsv/mom.py: dpoly, poly2num", "src/ajdmom/mdl_1fsv/cmom.py: dpoly, poly2num"]}
{"id": "C29", "title": "1FSV conditional central moments", "statement": "mdl_1fsv.cond_cmom.cmoments_y_to(l) returns the list of central moments of y given v_0 of orders 0..l, each satisfying the Ito recursion for powers of the centred return.", "quantifier": "all l >= 1, all parameters", "why_tests_cant": "l unbounded; table with deletion.", "anchors": ["src/ajdmom/mdl_1fsv/cond_cmom.py: cmoments_y_to, recursive_IEII, int_mIEII, simplify"]}
{"id": "C30", "title": "1FSVJ moments combine diffusion and jump moments binomially", "statement": "mdl_1fsvj moment_y(l) (cmoment_y(l)) evaluates to sum_i C(l,i) E[y_diffusion^i] E[Z^{l-i}] (central versions likewise); cov_yy(l1,l2) equals E[yy]-E[y]E[y] of the sum of the independent parts.", "quantifier": "all l, l1, l2 and parameters", "why_tests_cant": "unbounded orders.", "anchors": ["src/ajdmom/mdl_1fsvj/mom.py: moment_y", "src/ajdmom/mdl_1fsvj/cmom.py: cmoment_y", "src/ajdmom/mdl_1fsvj/cov.py: cov_yy"]}
{"id": "C31", "title": "2FSV moments and covariance", "statement": "mdl_2fsv moment_y, cmoment_y and cov_yy evaluate to the moments / covariance of the documented two-factor representation, for every expectation functional whose conditional joint moments are those of itos_mom.moment_IEI_IEII.", "quantifier": "all orders, all parameters, all consistent expectation functionals", "why_tests_cant": "seven-fold multinomial loops, unbounded orders.", "anchors": ["src/ajdmom/mdl_2fsv/mom.py: moment_y", "src/ajdmom/mdl_2fsv/cmom.py: cmoment_y", "src/ajdmom/mdl_2fsv/cov.py: cov_yy"]}
{"id": "C32", "title": "2FSV dpoly is the exact partial derivative", "statement": "mdl_2fsv dpoly equals the partial derivative of poly2num, including the derivative through 1/(n1 k1 + n2 k2)^i factors; unknown wrt raises ValueError.", "quantifier": "all Polys of the moment type, all parameter values where denominators do not vanish", "why_tests_cant": "unbounded Polys and products of denominators.", "anchors": ["src/ajdmom/mdl_2fsv/mom.py: dpoly, poly2num", "src/ajdmom/mdl_2fsv/cmom.py: dt0, dpoly, poly2num"]}
{"id": "C33", "title": "2FSVJ moments combine diffusion and jump moments binomially", "statement": "m(l, par), cm(l, par) and cov(l1, l2, par) of mdl_2fsvj equal the moments, central moments and covariances of the sum of the two-factor return and an independent compound Poisson variable with normal jumps, for every law of the Ito integrals with the joint moments that itos_mom computes; the only exception is ZeroDivisionError, and only if an integer combination of k1 and k2 vanishes. The Polys carry the documented keyfor and no negative powers.", "quantifier": "all orders and parameters", "why_tests_cant": "unbounded orders.", "anchors": ["src/ajdmom/mdl_2fsvj/mom.py: moment_y", "src/ajdmom/mdl_2fsvj/cmom.py: cmoment_y", "src/ajdmom/mdl_2fsvj/cov.py: cov_yy"]}
{"id": "C34", "title": "SRJD jump-integral moments", "statement": "mdl_srjd.iez_mom.moment_IEZ(n) evaluates to the n-th moment of the compound Poisson integral IEZ over (s,t] with exponential jumps and never raises; cmoment_IEZ(n) to the central one; iez_cmom.cm(n, par) returns the number.", "quantifier": "all n, all parameters", "why_tests_cant": "n unbounded; the internal raise must be shown unreachable.", "anchors": ["src/ajdmom/mdl_srjd/iez_mom.py: moment_IEZ, moment_EJ, decode", "src/ajdmom/mdl_srjd/iez_cmom.py: cmoment_IEZ, cm"]}
{"id": "C35", "title": "SRJD joint diffusion-jump moments solve the recursion", "statement": "mdl_srjd.cond_ie_iez_mom.moment_ie_iez(n3, n4) evaluates to the solution of its documented recursion for all orders, never raises ValueError from its zero-exponent check, and carries the documented keyfor.", "quantifier": "all orders, all parameters", "why_tests_cant": "unbounded orders; error branch reachability.", "anchors": ["src/ajdmom/mdl_srjd/cond_ie_iez_mom.py: moment_ie_iez, recursive_ie_iez, int_e_poly, moment_ie"]}
{"id": "C36", "title": "SRJD conditional moments", "statement": "mdl_srjd.cond_mom.moment_v(n) and cond_cmom.cmoment_v(n) evaluate to the binomial expansions of the n-th moment / central moment of v_t given v_0 in terms of the joint IE, IEZ moments.", "quantifier": "all n, all parameters", "why_tests_cant": "n unbounded.", "anchors": ["src/ajdmom/mdl_srjd/cond_mom.py", "src/ajdmom/mdl_srjd/cond_cmom.py"]}
{"id": "C37", "title": "SRJD moments given the jump history", "statement": "mdl_srjd.cond2_mom.moment_v(m) evaluates to the m-th moment of v_t given v_0 and the jumps, with IE moments solving their recursion; fZ there sums over all ordered jump tuples.", "quantifier": "all m, all jump histories", "why_tests_cant": "unbounded.", "anchors": ["src/ajdmom/mdl_srjd/cond2_mom.py", "src/ajdmom/mdl_srjd/cond2_cmom.py"]}
{"id": "C38", "title": "SVVJ conditional moments", "statement": "mdl_svvj.cond2_cmom.cmoments_y_to(l) and cond2_mom.moments_y_to(l) return lists whose i-th element is the i-th (central) moment of y given v_0 and the jumps in v, including index 0 (value 1) and index 1 of the central list (value 0).", "quantifier": "all l >= 0, all parameters and jump histories", "why_tests_cant": "unbounded orders; list shape edge cases.", "anchors": ["src/ajdmom/mdl_svvj/cond2_cmom.py: cmoments_y_to, simplify", "src/ajdmom/mdl_svvj/cond2_mom.py: moments_y_to, moment_comb"]}
{"id": "C39", "title": "SVVJ classify partitions a moment by summation depth", "statement": "classify(poly) splits a Poly into sub-Polys, one per summation depth, such that each entry lands in exactly one sub-Poly, all entries of a sub-Poly have the same depth, and nothing is lost.", "quantifier": "all Polys", "why_tests_cant": "depth sets are arbitrary.", "anchors": ["src/ajdmom/mdl_svvj/cond2_cmom.py: classify"]}
{"id": "C40", "title": "SVIJ moments combine SVVJ and jump moments binomially", "statement": "mdl_svij cond2_cmom.cmoments_y_to and cond2_mom.moments_y_to return, for each order i, the binomial convolution of the moments returned by mdl_svvj with the compound Poisson moments of the price jumps.", "quantifier": "all l, all parameters", "why_tests_cant": "unbounded orders.", "anchors": ["src/ajdmom/mdl_svij/cond2_cmom.py: cmoments_y_to", "src/ajdmom/mdl_svij/cond2_mom.py: moments_y_to"]}
{"id": "C41", "title": "SVCJ contemporaneous-jump sums", "statement": "mdl_svcj cond2 moment_IZs / cmoment_IZs evaluate to the (central) moment of a sum of independent normals with means mu + rho_J J_i, for every list of jumps.", "quantifier": "all orders, all numbers of jumps", "why_tests_cant": "number of jumps unbounded.", "anchors": ["src/ajdmom/mdl_svcj/cond2_mom.py: moment_IZs, mnorm_cond, comb_poly", "src/ajdmom/mdl_svcj/cond2_cmom.py: cmoment_IZs"]}
{"id": "C42", "title": "SVCJ joint jump-integral moments", "statement": "mdl_svcj.ieziziz_mom.moment_ieziziz(n3,n4,n5) evaluates to the joint moment of the three compound Poisson integrals (mixed derivative of the joint MGF at 0) for all orders and never raises.", "quantifier": "all orders, all parameters", "why_tests_cant": "unbounded orders.", "anchors": ["src/ajdmom/mdl_svcj/ieziziz_mom.py"]}
{"id": "C43", "title": "SVCJ return moments", "statement": "m_ieii_ieziziz(order, par) of mdl_svcj is the joint moment of the six stochastic and jump integrals; cond_mom.m_y(n, par) and cond_cmom.cm_y(n, par) are the moments and central moments of the SVCJ return given the initial variance; mom.unm_y(n, par) and cmom.cm_y(n, par) those with a stationary initial variance, all for the return defined by the documented stochastic differential equations. The odd-sqrt raise is unreachable; remove_mu_column(cmoment_y(n)) never raises and the central moment does not depend on mu; negative orders raise ValueError.", "quantifier": "all n, all parameters", "why_tests_cant": "unbounded orders, error branch reachability.", "anchors": ["src/ajdmom/mdl_svcj/cond_mom.py", "src/ajdmom/mdl_svcj/mom.py", "src/ajdmom/mdl_svcj/cmom.py", "src/ajdmom/mdl_svcj/cond_ieii_ieziziz_mom.py"]}
{"id": "C44", "title": "Written tables line up with their header", "statement": "Every row written by Poly.write_to_csv has exactly as many columns as the title line, in the order of keyfor, so the file determines the Poly; write_to_txt likewise.", "quantifier": "all Polys whose keys match keyfor", "why_tests_cant": "arbitrary keyfor layouts including the nested l/o/p/q sub-keys.", "anchors": ["src/ajdmom/poly.py: Poly.write_to_csv", "src/ajdmom/poly.py: Poly.write_to_txt"]}
{"id": "C45", "title": "Euler variance stays non-negative", "statement": "In every Euler generator the variance stays >= 0 at every step for every sequence of random draws when it starts >= 0 (so math.sqrt is never called on a negative number), and every given jump with time in (0,T] is applied exactly once and in order.", "quantifier": "all noise sequences, all parameters, all jump histories with non-negative sizes, all step counts", "why_tests_cant": "the noise history is unbounded and random.", "anchors": ["src/ajdmom/mdl_1fsv/euler.py: r1FSV, r1FSV_iid", "src/ajdmom/mdl_1fsvj/euler.py: r1FSVJ", "src/ajdmom/mdl_svvj/euler.py: rIEII, incIEII"]}
{"id": "C46", "title": "Keys of moment_IEII match its keyfor", "statement": "Every key of the Poly returned by ito_mom.moment_IEII has as many components as its keyfor names, and no returned entry is zero.", "quantifier": "all orders n3, n4, n5 >= 0", "why_tests_cant": "Orders are unbounded; consumers index key components by position.", "anchors": ["src/ajdmom/ito_mom.py: moment_IEII"]}
{"id": "C47", "title": "1FSVJ derivatives are exact partial derivatives", "statement": "mdl_1fsvj dm, dcm, dcov evaluate to the partial derivatives of m, cm, cov with respect to the named parameter (k, mu, theta, sigma_v, rho, lambda, mu_j, sigma_j); any other name raises ValueError.", "quantifier": "all orders, all parameter values (k nonzero for k, rho^2<1 for rho), all names", "why_tests_cant": "unbounded orders; derivative claims are statements about limits.", "anchors": ["src/ajdmom/mdl_1fsvj/mom.py: dpoly, dm", "src/ajdmom/mdl_1fsvj/cmom.py: dpoly, dcm", "src/ajdmom/mdl_1fsvj/cov.py: dcov"]}
{"id": "C48", "title": "SVIJ evaluators return the moments of the return", "statement": "mdl_svij cond2_cmom.cm(l, par) and cond2_mom.m(l, par) return the l-th central moment and the l-th moment of the return (SVVJ return plus an independent compound Poisson sum of normal jumps) given v_0 and the variance jumps.", "quantifier": "all l, all parameters, all jump histories", "why_tests_cant": "unbounded orders and numbers of jumps; the tests simulate only.", "anchors": ["src/ajdmom/mdl_svij/cond2_cmom.py: poly2num, cm", "src/ajdmom/mdl_svij/cond2_mom.py: poly2num, m"]}
{"id": "C49", "title": "SVCJ evaluators return the moments of the return given the variance jumps", "statement": "mdl_svcj cond2_cmom.cm(l, par) and cond2_mom.m(l, par) return the l-th central moment and the l-th moment of the return (SVVJ return plus a sum of normal price jumps with means mu_s + rho_J J_i) given v_0 and the variance jumps, for every l.", "quantifier": "all l, all parameters, all jump histories", "why_tests_cant": "unbounded orders and numbers of jumps; the tests simulate only.", "anchors": ["src/ajdmom/mdl_svcj/cond2_cmom.py: poly2num, cm", "src/ajdmom/mdl_svcj/cond2_mom.py: poly2num, m"]}
{"id": "C50", "title": "SRJD conditional moments are those of the stochastic differential equation", "statement": "mdl_srjd.cond_mom.m(n, par), as a function of the time h, starts at v0^n and satisfies Dynkin's formula d/dh E[v_h^n] = E[(A v^n)(v_h)] for the generator A of dv = k(theta - v)dt + sigma sqrt(v)dw + dz with exponential jumps; it is the only family of moments that does.", "quantifier": "all orders n, all h >= 0, all parameters with k != 0, lmbd >= 0, mu_v > 0", "why_tests_cant": "Simulation only approximates a few moments at a few parameters; the claim couples all orders at all times.", "anchors": ["src/ajdmom/mdl_srjd/cond_mom.py", "src/ajdmom/mdl_srjd/cond_ie_iez_mom.py"]}
{"id": "C51", "title": "SRJD stationary moments", "statement": "mdl_srjd.cmom.cmoment_v(n) and mom.moment_v(n) raise nothing (the divisions inside find every key they need) and evaluate to the n-th central moment / moment of the stationary law: the moments annihilated by the generator, i.e. E[(A v^n)] = 0.", "quantifier": "all orders n, all parameters with k > 0", "why_tests_cant": "The recursion divides one polynomial by another; that it always divides exactly is a statement about all orders.", "anchors": ["src/ajdmom/mdl_srjd/cmom.py", "src/ajdmom/mdl_srjd/mom.py"]}
{"id": "C52", "title": "2FSV moments are the moments of the model", "statement": "m(l, par), cm(l, par) and cov(l1, l2, par) of mdl_2fsv are the moments, central moments and covariances of the return of the documented two-factor model, i.e. under the law given by the Ito moment equation (not merely under what itos_mom returns).", "quantifier": "all orders, all parameters, all conditional laws that satisfy the Ito moment equation", "why_tests_cant": "The reference values used in tests come from the same recursion; an error in the recursion is invisible without the moment equation itself.", "anchors": ["src/ajdmom/mdl_2fsv/mom.py: m", "src/ajdmom/mdl_2fsv/cmom.py: cm", "src/ajdmom/mdl_2fsv/cov.py: cov", "src/ajdmom/itos_mom.py"]}
{"id": "C53", "title": "2FSVJ moments are the moments of the model", "statement": "m(l, par), cm(l, par) and cov(l1, l2, par) of mdl_2fsvj are the moments, central moments and covariances of the return of the documented two-factor model with jumps, i.e. under the law given by the Ito moment equation.", "quantifier": "all orders, all parameters, all conditional laws that satisfy the Ito moment equation", "why_tests_cant": "The reference values used in tests come from the same recursion; an error in it is invisible without the moment equation.", "anchors": ["src/ajdmom/mdl_2fsvj/mom.py: m", "src/ajdmom/mdl_2fsvj/cmom.py: cm", "src/ajdmom/mdl_2fsvj/cov.py: cov", "src/ajdmom/itos_mom.py"]}
{"id": "C54", "title": "2FSVJ derivatives are exact", "statement": "dm, dcm and dcov of mdl_2fsvj are the partial derivatives of m, cm and cov with respect to each of the ten parameters, wherever the moment itself can be evaluated; any other name raises ValueError.", "quantifier": "all orders, all parameter values, all names", "why_tests_cant": "Derivatives of unboundedly many Polys with products of denominators at real parameters.", "anchors": ["src/ajdmom/mdl_2fsvj/mom.py: dpoly, dm", "src/ajdmom/mdl_2fsvj/cmom.py: dpoly, dcm", "src/ajdmom/mdl_2fsvj/cov.py: dcov"]}
{"id": "C55", "title": "SVVJ write_to_subpolys writes every entry to one file", "statement": "write_to_subpolys(poly, nth) writes one txt file for each depth of summation, with different names, such that each entry of poly is found in exactly one file, under the header of that file and with the first exponent counting e^{-kt}; the files together determine poly, and the sum of their values is the value of poly.", "quantifier": "all Polys with the documented keyfor, all nth", "why_tests_cant": "the set of depths, the keys and the values are arbitrary; that no file replaces another and nothing is lost is a statement about all of them.", "anchors": ["src/ajdmom/mdl_svvj/cond2_cmom.py: write_to_subpolys", "src/ajdmom/mdl_svvj/cond2_cmom.py: simplify", "src/ajdmom/mdl_svvj/cond2_cmom.py: classify", "src/ajdmom/poly.py: write_to_txt"]}
{"id": "C56", "title": "The returned moments are the moments of a probability distribution", "statement": "For an admissible parameter point the values returned by the moment functions of the 1FSV, 1FSVJ, SVCJ and SRJD models are not only solutions of moment equations: there is a probability distribution on the line (on the plane, for two returns in a row; on the half-line, for the variance) whose moments, central moments and covariances of powers they are, for all orders at once. Hence all inequalities between moments hold for the returned values: Hankel forms of m are not negative, cm of even order is not negative, kurtosis is at least 1 + squared skewness, |cov| is at most the product of the standard deviations.", "quantifier": "all parameters with k, theta, sigma > 0, h >= 0, rho^2 <= 1 (and lam >= 0, v0 >= 0 where they occur), all orders", "why_tests_cant": "The statement is about the infinite sequence of all moments at a real parameter point; a test sees finitely many orders with rounding errors, and a violation of positivity may appear only at high order or in a corner of the parameter space.", "anchors": ["src/ajdmom/mdl_1fsv/mom.py", "src/ajdmom/mdl_1fsv/cmom.py", "src/ajdmom/mdl_1fsv/cov.py", "src/ajdmom/mdl_1fsv/cond_cmom.py", "src/ajdmom/mdl_1fsvj/mom.py", "src/ajdmom/mdl_1fsvj/cmom.py", "src/ajdmom/mdl_1fsvj/cov.py", "src/ajdmom/mdl_svcj", "src/ajdmom/mdl_srjd"]}
{"id": "C57", "title": "The two-factor moments are the moments of a probability distribution", "statement": "For an admissible parameter point of 2FSV or 2FSVJ there is a probability distribution of two returns in a row whose moments, central moments and covariances of powers are the values of m, cm and cov, for all orders. In particular cm(2) is not negative and |cov(1,1)| is at most cm(2).", "quantifier": "all parameters with k1, k2, theta1, theta2, sigma1, sigma2, h > 0 and lam >= 0, all orders", "why_tests_cant": "As for C56: infinitely many orders at a real parameter point.", "anchors": ["src/ajdmom/mdl_2fsv/mom.py", "src/ajdmom/mdl_2fsv/cmom.py", "src/ajdmom/mdl_2fsv/cov.py", "src/ajdmom/mdl_2fsvj/mom.py", "src/ajdmom/mdl_2fsvj/cmom.py", "src/ajdmom/mdl_2fsvj/cov.py"]}
{"id": "C58", "title": "Moments over two intervals follow from the moments and covariances over one", "statement": "The return over an interval of length 2h is the sum of two returns over h in a row. So m(n) with parameter 2h equals the sum over i of binomial(n,i) * (cov(n-i,i) + m(n-i) m(i)) with parameter h. The functions m and cov of one model agree with each other in this way although they are computed by different recursions.", "quantifier": "all orders n, all admissible parameters of 1FSV, 1FSVJ, 2FSV and 2FSVJ", "why_tests_cant": "The identity ties values of two functions at two parameter points for every order and all real parameters; a test samples finitely many points and orders and has to choose a tolerance.", "anchors": ["src/ajdmom/mdl_1fsv/mom.py", "src/ajdmom/mdl_1fsv/cov.py", "src/ajdmom/mdl_1fsvj/mom.py", "src/ajdmom/mdl_1fsvj/cov.py", "src/ajdmom/mdl_2fsv/mom.py", "src/ajdmom/mdl_2fsv/cov.py", "src/ajdmom/mdl_2fsvj/mom.py", "src/ajdmom/mdl_2fsvj/cov.py"]}
{"id": "C59", "title": "A model without its jumps agrees with the model it extends", "statement": "With a jump intensity of zero, or with no jump in the interval, every extended model returns the value of the model it extends: 1FSVJ with lam = 0 that of 1FSV; SRJD with lam = 0 the stationary moments of the square-root diffusion; SVCJ with lam = 0 the moments of 1FSV, given the initial variance and with stationary variance; SVVJ, SVIJ and SVCJ given an empty list of jumps the moments of 1FSV given the initial variance; 2FSVJ with lam = 0 that of 2FSV.", "quantifier": "all orders, all admissible parameters", "why_tests_cant": "Equality of functions computed by different recursions of different packages, for every order and real parameters.", "anchors": ["src/ajdmom/mdl_1fsvj", "src/ajdmom/mdl_srjd", "src/ajdmom/mdl_svcj", "src/ajdmom/mdl_svvj", "src/ajdmom/mdl_svij", "src/ajdmom/mdl_2fsvj"]}
{"id": "C60", "title": "Averaging the conditional moments over the stationary variance gives the unconditional ones", "statement": "The moments given the initial variance are polynomials in it. Putting the stationary moments of the variance in place of its powers gives the unconditional moments returned by the other functions of the package (law of total expectation): for SRJD the conditional moment of the variance averaged over the stationary law is the stationary moment, and for SVCJ the conditional moments of the return averaged over the stationary variance are the unconditional ones.", "quantifier": "all orders, all h >= 0, all admissible parameters", "why_tests_cant": "An identity between two functions with different recursions, for every order and all real parameters.", "anchors": ["src/ajdmom/mdl_srjd", "src/ajdmom/mdl_svcj"]}
{"id": "C61", "title": "The moments do not depend on the unit of time", "statement": "Measuring time in a unit r times as long (k, theta, sigma, mu, the jump rate and the variances multiplied with r, h divided by r, the jump parameters of the return and the correlation as they are) leaves every moment, central moment and covariance of the return as it is and multiplies the n-th moment of the variance with r^n. Daily and annualised parameters therefore give the same moments of the same return.", "quantifier": "all orders, all r > 0, all admissible parameters", "why_tests_cant": "An identity over a continuous group of rescalings for every order; it holds for the exact real arithmetic of the model only if every key of every Poly is homogeneous.", "anchors": ["src/ajdmom/mdl_1fsv", "src/ajdmom/mdl_1fsvj", "src/ajdmom/mdl_2fsv", "src/ajdmom/mdl_2fsvj", "src/ajdmom/mdl_srjd", "src/ajdmom/mdl_svcj", "src/ajdmom/itos_mom.py"]}
{"id": "C62", "title": "The drift only shifts the return", "statement": "Adding delta to mu adds delta*h to the return and does nothing else: cm(l) is unchanged, m(l) becomes the moment of the shifted variable, sum_i C(l,i) (delta h)^(l-i) m(i), and cov(l1,l2) becomes the double shift of the covariances. The central moments given the initial variance do not depend on mu.", "quantifier": "all orders, all delta, all admissible parameters", "why_tests_cant": "A relation between infinitely many parameter values and all orders; a misplaced mu in one key of one Poly breaks it only at some order.", "anchors": ["src/ajdmom/mdl_1fsv", "src/ajdmom/mdl_1fsvj", "src/ajdmom/mdl_2fsv", "src/ajdmom/mdl_2fsvj", "src/ajdmom/mdl_svcj"]}
{"id": "C63", "title": "The jumps of the return are independent of the rest", "statement": "In mdl_1fsvj and mdl_2fsvj the return is that of mdl_1fsv, mdl_2fsv plus an independent compound Poisson variable z: m is the binomial convolution of m of the model without jumps with the moments of z, cm that of cm with the central moments of z, cov(l1,l2) the double convolution of the covariances with the moments of z.", "quantifier": "all orders, all admissible parameters", "why_tests_cant": "Relates two subpackages, for every order, through integrals over the law of a random sum.", "anchors": ["src/ajdmom/mdl_1fsvj", "src/ajdmom/mdl_2fsvj", "src/ajdmom/cpp_mom.py"]}
{"id": "C64", "title": "The two volatility factors have no order", "statement": "In mdl_2fsv and mdl_2fsvj it does not matter which of the two factors the caller calls the first: m, cm and cov return the same values when k1, theta1, sigma1 are exchanged with k2, theta2, sigma2.", "quantifier": "all orders, all positive parameters with generic rates", "why_tests_cant": "A symmetry of real functions of the parameters; the terms of the two symbolic results differ, and a numerical test at low orders passes.", "anchors": ["src/ajdmom/mdl_2fsv", "src/ajdmom/mdl_2fsvj", "src/ajdmom/itos_mom.py:490"]}
{"id": "C65", "title": "Short intervals", "statement": "As h tends to 0 the moments of the return divided by h tend to the local characteristics of the model: drift mu - E[v]/2 for order 1, E[v] plus the jump rate times E[J^2] for order 2, the jump rate times E[J^n] from order 3 on; the same limits hold for the central moments from order 2 on, and for the moments given v0 with v0 for E[v]. For mdl_srjd, (m(n) - v0^n)/h tends to the generator of the process applied to v^n at v0.", "quantifier": "all orders, all admissible parameters", "why_tests_cant": "A limit; near h = 0 the terms e^{kh} k^{-n} of the returned polynomials cancel, so that floating-point evaluation is unreliable there.", "anchors": ["src/ajdmom/mdl_1fsv", "src/ajdmom/mdl_1fsvj", "src/ajdmom/mdl_2fsv", "src/ajdmom/mdl_2fsvj", "src/ajdmom/mdl_svcj", "src/ajdmom/mdl_srjd/cond_mom.py"]}
{"id": "C66", "title": "Moments and central moments belong together", "statement": "In every model with both functions, cm(n) is the central moment computed from m: cm(n) = sum_i binom(n,i) (-m(1))^(n-i) m(i).", "quantifier": "all orders, all admissible parameters", "why_tests_cant": "m and cm are derived along separate symbolic routes with different keys; that they agree for every order and all real parameters is an identity of two families of polynomials.", "anchors": ["src/ajdmom/mdl_1fsv", "src/ajdmom/mdl_1fsvj", "src/ajdmom/mdl_2fsv", "src/ajdmom/mdl_2fsvj", "src/ajdmom/mdl_svcj", "src/ajdmom/mdl_srjd"]}
{"id": "C67", "title": "Long intervals: SRJD forgets the initial variance", "statement": "For mdl_srjd with k > 0, m(n, par) of cond_mom.py tends, as par['h'] grows, to the value of moment_v(n) of mom.py, and cm(n, par) of cond_cmom.py tends to the value of cmoment_v(n) of cmom.py, whatever par['v0'] is.", "quantifier": "every order n, every v0, theta, sigma, every k > 0, lmbd >= 0, mu_v > 0", "why_tests_cant": "A limit over h for all orders and real parameters; the two sides are computed by different code paths.", "anchors": ["src/ajdmom/mdl_srjd/cond_mom.py", "src/ajdmom/mdl_srjd/cond_cmom.py", "src/ajdmom/mdl_srjd/mom.py", "src/ajdmom/mdl_srjd/cmom.py"]}
{"id": "C68", "title": "Constant volatility: the moments are those of geometric Brownian motion and Merton's jump diffusion", "statement": "If the volatility of every variance is 0, m(l, par) of mdl_1fsv and mdl_2fsv is the l-th moment of the normal law with mean (mu - theta/2) h and variance theta h (theta1 + theta2 in the place of theta), cm(l, par) is its central moment and cov(l1, l2, par) is 0; for mdl_1fsvj and mdl_2fsvj the same holds with an independent compound Poisson variable added. cond_cm(l, par) of mdl_1fsv is the central moment of the normal law whose variance is the integral of the deterministic variance. Without jumps mdl_srjd gives the powers of the deterministic variance, and mdl_svcj the normal moments.", "quantifier": "every order, all parameters with the volatilities 0 (two factors: rates k1, k2 > 0 with no integer relation)", "why_tests_cant": "An identity with an independent closed form at every order and all real parameters; it exercises every recursion of the package.", "anchors": ["src/ajdmom/mdl_1fsv/mom.py", "src/ajdmom/mdl_1fsv/cmom.py", "src/ajdmom/mdl_1fsv/cov.py", "src/ajdmom/mdl_1fsv/cond_cmom.py", "src/ajdmom/mdl_1fsvj/mom.py", "src/ajdmom/mdl_2fsv/mom.py", "src/ajdmom/mdl_2fsv/cmom.py", "src/ajdmom/mdl_2fsv/cov.py", "src/ajdmom/mdl_2fsvj/mom.py", "src/ajdmom/mdl_srjd/cond_mom.py", "src/ajdmom/itos_mom.py"]}
{"id": "C69", "title": "The simulated returns have the computed moments in the limit of small steps", "statement": "If the draws of the generator are independent standard normal variables and the initial variance is drawn from the stationary law independently of them, then as n_segment tends to infinity the l-th moment of every sample of r1FSV(v0, par, N, n_segment) converges to m(l, par), its l-th central moment to cm(l, par), and the covariance of the powers l1 and l2 of two samples in a row to cov(l1, l2, par) of mdl_1fsv. With a given initial variance v0, the l-th central moment of every sample of r1FSV_iid converges to cond_cm(l, par) of mdl_1fsv at v0, and its moments to those of the return of the stochastic differential equation. All these moments are finite for every n_segment.", "quantifier": "every probability space and all draws on it, every sample, every order, all k, theta, sigma, h > 0 and |rho| <= 1, every v0 >= 0", "why_tests_cant": "A limit over the number of segments of expectations over all random draws, at every order; a test can only average finitely many samples at a fixed number of segments.", "anchors": ["src/ajdmom/mdl_1fsv/euler.py: r1FSV, r1FSV_iid", "src/ajdmom/mdl_1fsv/mom.py", "src/ajdmom/mdl_1fsv/cmom.py", "src/ajdmom/mdl_1fsv/cov.py", "src/ajdmom/mdl_1fsv/cond_cmom.py"]}
{"id": "C70", "title": "Two factors: the simulated returns have the computed moments in the limit of small steps", "statement": "If the draws of the generator are independent standard normal variables and the initial variances are drawn from their stationary law independently of them, then as n_segment tends to infinity the l-th moment of every sample of r2FSV(v0, par, N, n_segment) converges to m(l, par) of mdl_2fsv, its l-th central moment to cm(l, par), and the covariance of the powers l1 and l2 of two samples in a row to cov(l1, l2, par).", "quantifier": "every probability space and all draws on it, every sample, every order, all positive k1, k2, theta1, theta2, sigma1, sigma2, h", "why_tests_cant": "A limit over the number of segments of expectations over all random draws; a test can only average finitely many samples at a fixed number of segments.", "anchors": ["src/ajdmom/mdl_2fsv/euler.py: r2FSV", "src/ajdmom/mdl_2fsv/mom.py", "src/ajdmom/mdl_2fsv/cmom.py", "src/ajdmom/mdl_2fsv/cov.py", "src/ajdmom/itos_mom.py"]}
{"id": "C71", "title": "One factor with jumps: the simulated returns have the computed moments in the limit of small steps", "statement": "If the numbers of jumps drawn by the generator at the rate lmbd*h are Poisson variables with this mean, its other draws are standard normal, the initial variance is drawn from its stationary law, and all of them are independent, then as n_segment tends to infinity the l-th moment of every sample of r1FSVJ(v0, par, N, n_segment) converges to m(l, par) of mdl_1fsvj, its l-th central moment to cm(l, par), and the covariance of the powers l1 and l2 of two samples in a row to cov(l1, l2, par).", "quantifier": "every probability space and all draws on it, every sample, every order, all positive k, theta, sigma, h, |rho| <= 1, lmbd >= 0, all mu_j and sigma_j", "why_tests_cant": "A limit over the number of segments of expectations over all random draws; a test can only average finitely many samples at a fixed number of segments.", "anchors": ["src/ajdmom/mdl_1fsvj/euler.py: r1FSVJ", "src/ajdmom/mdl_1fsvj/mom.py", "src/ajdmom/mdl_1fsvj/cmom.py", "src/ajdmom/mdl_1fsvj/cov.py", "src/ajdmom/cpp_mom.py"]}
{"id": "C72", "title": "Two factors with jumps: the simulated returns have the computed moments in the limit of small steps", "statement": "Under the same assumptions on the draws, as n_segment tends to infinity the l-th moment of every sample of r2FSVJ(v0, par, N, n_segment) converges to m(l, par) of mdl_2fsvj, its l-th central moment to cm(l, par), and the covariance of the powers l1 and l2 of two samples in a row to cov(l1, l2, par).", "quantifier": "every probability space and all draws on it, every sample, every order, all positive k1, k2, theta1, theta2, sigma1, sigma2, h, lmbd >= 0, all mu_j and sigma_j", "why_tests_cant": "A limit over the number of segments of expectations over all random draws; a test can only average finitely many samples at a fixed number of segments.", "anchors": ["src/ajdmom/mdl_2fsvj/euler.py: r2FSVJ", "src/ajdmom/mdl_2fsvj/mom.py", "src/ajdmom/mdl_2fsvj/cmom.py", "src/ajdmom/mdl_2fsvj/cov.py", "src/ajdmom/itos_mom.py"]}
{"id": "C73", "title": "The samples of rSRJD have the computed moments, and their averages converge to them", "statement": "If the draws of numpy's noncentral_chisquare are independent and have the non-central chi-square law, then rSRJD(v0, k, theta, sigma, T, jumpsize, jumptime, n) returns n samples, and every sample has exactly the l-th moment m(l, par) and the l-th central moment cm(l, par) of mdl_srjd (cond2_mom.py, cond2_cmom.py) for the same initial variance and jumps. With probability one, the sample moments and sample central moments converge to these values when n grows.", "quantifier": "every probability space and all draws on it, every order, every number of samples, all positive k, theta, sigma, T, all v0 >= 0, any number of jumps of nonnegative sizes at increasing positive times up to T", "why_tests_cant": "An equality of expectations over all random draws and an almost sure limit; a test can only average finitely many samples with a tolerance.", "anchors": ["src/ajdmom/mdl_srjd/euler.py: rSRD, rSRJD", "src/ajdmom/mdl_srjd/cond2_mom.py: m", "src/ajdmom/mdl_srjd/cond2_cmom.py: cm"]}
{"id": "C74", "title": "Averaging the SRJD moments given the jumps over the jumps gives the SRJD moments given the initial variance", "statement": "mdl_srjd.cond2_mom.m(n, par), the moment given the initial variance and the jumps, averaged over the jumps of the compound Poisson process up to time h (rate lmbd, exponential sizes of mean mu_v), equals mdl_srjd.cond_mom.m(n, par) for the same parameters. Likewise the averaged variance plus the averaged squared mean given the jumps is the variance plus the squared mean given the initial variance only.", "quantifier": "every order n, all parameters with k != 0, lmbd >= 0, mu_v > 0, h >= 0, any initial variance", "why_tests_cant": "The average is an infinite series, over the number of jumps, of integrals over all jump times and sizes; a test can only sample finitely many jump histories.", "anchors": ["src/ajdmom/mdl_srjd/cond2_mom.py: m", "src/ajdmom/mdl_srjd/cond_mom.py: m", "docs/source/srjd.rst"]}
{"id": "C75", "title": "Averaging the SVCJ return moments given the jumps over the jumps gives the SVCJ moments given the initial variance", "statement": "mdl_svcj.cond2_mom.m(n, par), the moment of the return given the initial variance and the jumps of the variance, averaged over the jumps up to time h (rate lmbd, exponential sizes of mean mu_v), equals mdl_svcj.cond_mom.m_y(n, par); and the averaged conditional variance plus the averaged squared conditional mean equals cm_y(2) + m_y(1)^2.", "quantifier": "every order n >= 1, all parameters with k != 0, |rho| <= 1, mu_v > 0, h >= 0, any initial variance", "why_tests_cant": "The average is an infinite series, over the number of jumps, of integrals over all jump times and sizes; the two modules build their polynomials in unrelated ways, and the formula for n jumps is generated anew for every n.", "anchors": ["src/ajdmom/mdl_svcj/cond2_mom.py: m", "src/ajdmom/mdl_svcj/cond2_cmom.py: cm", "src/ajdmom/mdl_svcj/cond_mom.py: m_y", "src/ajdmom/mdl_svcj/cond_cmom.py: cm_y", "docs/source/svcj.rst"]}
{"id": "C76", "title": "The mean, the variance and the lag-1 covariance of the returns have their textbook closed forms", "statement": "For mdl_1fsv, mdl_1fsvj, mdl_2fsv and mdl_2fsvj, m(1, par), cm(2, par) and cov(1, 1, par) equal explicit elementary formulas in the parameters and exp(-k h) (for 1FSV: mean (mu - theta/2) h, variance theta h + (sigma_v^2 theta/(4k) - rho sigma_v theta)(kh - 1 + e^{-kh})/k^2, covariance (sigma_v^2 theta/(4k) - rho sigma_v theta)(1 - e^{-kh})^2/(2k^2)); the same for the moments given the initial variance of mdl_1fsv and mdl_svcj, for unm_y(1) and cm_y(2) of mdl_svcj and for m(1) and cm(2) of mdl_srjd.cond_mom and cond_cmom. Two returns of the 1FSV model in a row are negatively correlated exactly when sigma_v < 4 k rho; those of the 2FSV model are always positively correlated.", "quantifier": "all parameter values in the range of the models", "why_tests_cant": "A test evaluates the generated polynomials at a few parameter values; equality with a closed formula, and the sign of the covariance, hold for all real parameters.", "anchors": ["src/ajdmom/mdl_1fsv/mom.py: m", "src/ajdmom/mdl_1fsv/cmom.py: cm", "src/ajdmom/mdl_1fsv/cov.py: cov", "src/ajdmom/mdl_1fsv/cond_cmom.py", "src/ajdmom/mdl_1fsvj/mom.py: m", "src/ajdmom/mdl_1fsvj/cmom.py: cm", "src/ajdmom/mdl_1fsvj/cov.py: cov", "src/ajdmom/mdl_2fsv/mom.py: m", "src/ajdmom/mdl_2fsv/cmom.py: cm", "src/ajdmom/mdl_2fsv/cov.py: cov", "src/ajdmom/mdl_2fsvj/cmom.py: cm", "src/ajdmom/mdl_svcj/mom.py: unm_y", "src/ajdmom/mdl_svcj/cmom.py: cm_y", "src/ajdmom/mdl_svcj/cond_mom.py: m_y", "src/ajdmom/mdl_srjd/cond_mom.py: m", "src/ajdmom/mdl_srjd/cond_cmom.py: cm"]}
{"id": "C77", "title": "The variance of the return is positive and grows with the interval, correlations lie between -1 and 1, and both have their long-run limits", "statement": "For mdl_1fsvj and mdl_2fsvj (and so without jumps): cm(2, par) is positive and strictly increasing in h; |cov(1, 1, par)| < cm(2, par), so the lag-1 autocorrelation lies strictly between -1 and 1 (between 0 and 1 with two factors); as h grows, cm(2, par)/h tends to theta + lmbd (mu_j^2 + sigma_j^2) + (sigma_v^2 theta/(4k) - rho sigma_v theta)/k and cov(1, 1, par) to (sigma_v^2 theta/(4k) - rho sigma_v theta)/(2k^2), with the sums over the factors for two factors.", "quantifier": "all parameters with k, theta, sigma_v > 0, |rho| <= 1, lmbd >= 0, every h > 0", "why_tests_cant": "Monotonicity, strict bounds and limits concern all h; a wrong term in cm(2) or cov(1, 1) that keeps the tested values can still make an autocorrelation exceed 1 for other parameters.", "anchors": ["src/ajdmom/mdl_1fsv/cmom.py: cm", "src/ajdmom/mdl_1fsv/cov.py: cov", "src/ajdmom/mdl_1fsvj/cmom.py: cm", "src/ajdmom/mdl_1fsvj/cov.py: cov", "src/ajdmom/mdl_2fsv/cmom.py: cm", "src/ajdmom/mdl_2fsv/cov.py: cov", "src/ajdmom/mdl_2fsvj/cmom.py: cm", "src/ajdmom/mdl_2fsvj/cov.py: cov"]}
{"id": "C78", "title": "The moments given the jumps of the variance are the moments of a probability distribution", "statement": "Given the initial variance and the times and sizes of the jumps of the variance: the values of m (mdl_srjd/cond2_mom.py) and cm (mdl_srjd/cond2_cmom.py) are the moments and central moments of one probability distribution on the non-negative numbers, so even central moments are not negative and m(a+b)^2 <= m(2a) m(2b). The values of m and cm of mdl_svvj, mdl_svij and mdl_svcj given the jumps are those of one probability distribution, so cm(2, par) >= 0.", "quantifier": "all parameters with k != 0, k theta >= 0, |rho| <= 1, v0 >= 0, any finite number of non-negative jumps at different times in (0, h], every order", "why_tests_cant": "Whether a sequence of numbers is the moment sequence of some distribution needs infinitely many inequalities for each choice of parameters; a test compares a few orders at a few parameters.", "anchors": ["src/ajdmom/mdl_srjd/cond2_mom.py: m", "src/ajdmom/mdl_srjd/cond2_cmom.py: cm", "src/ajdmom/mdl_svvj/cond2_mom.py: m", "src/ajdmom/mdl_svvj/cond2_cmom.py: cm", "src/ajdmom/mdl_svij/cond2_mom.py: m", "src/ajdmom/mdl_svij/cond2_cmom.py: cm", "src/ajdmom/mdl_svcj/cond2_mom.py: m", "src/ajdmom/mdl_svcj/cond2_cmom.py: cm"]}
{"id": "C79", "title": "The mean and the variance given the jumps of the variance have closed forms", "statement": "Given the initial variance and the jumps J_i of the variance at the times s_i: m(1, par) and cm(2, par) of mdl_srjd (cond2_mom.py, cond2_cmom.py) are theta + (v0 - theta) e^{-kh} + sum_i J_i e^{-k(h - s_i)} and sigma^2 theta (1 - e^{-kh})^2/(2k) + v0 g(h) + sum_i J_i g(h - s_i), with g(t) = sigma^2 (e^{-kt} - e^{-2kt})/k. For mdl_svvj, mdl_svij and mdl_svcj they are the mean and the variance of the return without jumps, plus for every jump of the variance -J_i (1 - e^{-k(h-s_i)})/(2k) and J_i u(h - s_i), where u(t) >= 0 is explicit, plus the jumps of the return (lmbd mu_s h and lmbd (mu_s^2 + sigma_s^2) h, or mu_s + rho_J J_i and sigma_s^2 for every jump). So in mdl_svvj, for k > 0, upward jumps of the variance never raise the mean of the return and never lower its variance.", "quantifier": "all parameters with k != 0, |rho| <= 1, any finite number of jumps at different times in (0, h]", "why_tests_cant": "The evaluators run the recursions over all combinations of jumps, whose number grows with the number of jumps; the closed form is for any number, any times and any sizes.", "anchors": ["src/ajdmom/mdl_srjd/cond2_mom.py: m", "src/ajdmom/mdl_srjd/cond2_cmom.py: cm", "src/ajdmom/mdl_svvj/cond2_mom.py: m", "src/ajdmom/mdl_svvj/cond2_cmom.py: cm", "src/ajdmom/mdl_svij/cond2_mom.py: m", "src/ajdmom/mdl_svij/cond2_cmom.py: cm", "src/ajdmom/mdl_svcj/cond2_mom.py: m", "src/ajdmom/mdl_svcj/cond2_cmom.py: cm"]}
{"id": "C80", "title": "The stationary cumulants of the square-root jump-diffusion have a closed form", "statement": "The moments returned by moment_v(n) of mdl_srjd/mom.py are those of the law whose n-th cumulant is (n-1)! (theta b^{n-1} + (lmbd/k) sum_{j=1}^n mu_v^j b^{n-j}), b = sigma^2/(2k), for every order n >= 1. So cmoment_v(2), cmoment_v(3), cmoment_v(4) of mdl_srjd/cmom.py are kappa_2, kappa_3 and kappa_4 + 3 kappa_2^2. For k > 0, theta >= 0, lmbd >= 0, mu_v > 0, every stationary central moment is nonnegative, odd orders included; the skewness is positive and the kurtosis above 3 unless the law is degenerate.", "quantifier": "all orders n; all parameters with k != 0, lmbd >= 0, mu_v > 0 (k > 0, theta >= 0 for the signs)", "why_tests_cant": "The code solves a linear equation for each order from all the lower ones; a test compares finitely many orders and has no closed form to compare with.", "anchors": ["src/ajdmom/mdl_srjd/mom.py: moment_v", "src/ajdmom/mdl_srjd/cmom.py: cmoment_v"]}
{"id": "C81", "title": "The cumulants of the variance given its jumps have a closed form", "statement": "m(n, par) of mdl_srjd/cond2_mom.py, for all orders n, are the moments of the law whose n-th cumulant is (n-1)! b^{n-1} (theta (1 - e^{-kh})^n + n v0 e^{-kh} (1 - e^{-kh})^{n-1} + sum_i n J_i e^{-k(h - s_i)} (1 - e^{-k(h - s_i)})^{n-1}), b = sigma^2/(2k): every jump adds its own term to every cumulant. cm(n, par) of mdl_srjd/cond2_cmom.py are the moments with the same cumulants but the first, which is 0. So cm(2), cm(3), cm(4) are kappa_2, kappa_3 and kappa_4 + 3 kappa_2^2; for k > 0, theta >= 0, v0 >= 0 and upward jumps all central moments are nonnegative and the kurtosis is at least 3.", "quantifier": "all orders n; all parameters with k != 0, any finite number of jumps at different times in (0, h] (k > 0, theta >= 0, v0 >= 0, J_i >= 0 for the signs)", "why_tests_cant": "The evaluators sum over all tuples of jumps, whose number grows with the order and the number of jumps; the closed form is for any order, any number, any times and any sizes.", "anchors": ["src/ajdmom/mdl_srjd/cond2_mom.py: m", "src/ajdmom/mdl_srjd/cond2_cmom.py: cm"]}
{"id": "C82", "title": "The cumulants of the square-root jump-diffusion given the initial variance have a closed form", "statement": "m(n, par) of mdl_srjd/cond_mom.py, for all orders n, are the moments of the law whose n-th cumulant is n! (v0 x (b (1-x))^{n-1} + c_n - sum_{m=1}^n C(n-1, m-1) c_m x^m (b (1-x))^{n-m}), with x = e^{-kh}, b = sigma^2/(2k) and n! c_n the stationary cumulants of C80. cm(n, par) of mdl_srjd/cond_cmom.py are the moments with the same cumulants but the first, which is 0. So cm(2), cm(3), cm(4) are kappa_2, kappa_3 and kappa_4 + 3 kappa_2^2; for k > 0, theta >= 0, v0 >= 0 all central moments are nonnegative and the kurtosis is at least 3.", "quantifier": "all orders n; all parameters with k != 0, lmbd >= 0, mu_v > 0, h >= 0 (k > 0, theta >= 0, v0 >= 0 for the signs)", "why_tests_cant": "The code expands recursions over joint moments of two integrals; a test compares finitely many orders with a simulation. The closed form is for every order and all parameters.", "anchors": ["src/ajdmom/mdl_srjd/cond_mom.py: m", "src/ajdmom/mdl_srjd/cond_cmom.py: cm"]}
{"id": "C83", "title": "The cumulants of the compound Poisson variable are lambda h times the moments of a jump", "statement": "mcpp(n) of cpp_mom.py, for all orders n, are the moments of the law whose n-th cumulant is lambda h times mnorm(n), the n-th moment of a jump; cmcpp(n) are the moments with the same cumulants but the first, which is 0. So cmcpp(3) = lambda h mu (mu^2 + 3 sigma^2), which has the sign of mu, and cmcpp(4) = lambda h mnorm(4) + 3 cmcpp(2)^2 >= 3 cmcpp(2)^2.", "quantifier": "all orders n; all lambda h >= 0, all mu and sigma", "why_tests_cant": "The polynomials come from repeated differentiation of the moment generating function; a test compares finitely many orders.", "anchors": ["src/ajdmom/cpp_mom.py: mcpp", "src/ajdmom/cpp_mom.py: cmcpp", "src/ajdmom/cpp_mom.py: mnorm"]}
{"id": "C84", "title": "More variance at the start, a higher mean level, more volatility or more jumps never lower a moment of the variance", "statement": "SRJD. Given the jumps (cond2_mom.py, cond2_cmom.py): m(n, par) and cm(n, par) do not decrease when v0, theta, |sigma| or any of the jump sizes increase, nor when an upward jump at a further time is added. Given the initial variance only (cond_mom.py, cond_cmom.py): m(n, par) and cm(n, par) do not decrease when v0, theta, |sigma|, lmbd or mu_v increase. In the stationary law (mom.py, cmom.py): the values of moment_v(n) and cmoment_v(n) do not decrease when theta, |sigma|, lmbd or mu_v increase.", "quantifier": "all orders n; all k > 0, theta >= 0, v0 >= 0, h >= 0, all sigma; all finite lists of jumps of size >= 0 at distinct times in (0, h]; all lambda >= 0 and mu_v > 0 in the other two cases", "why_tests_cant": "The comparison is between two runs at any order and any parameters; the polynomials have terms of both signs, so no finite set of evaluations settles it.", "anchors": ["src/ajdmom/mdl_srjd/cond2_mom.py: m", "src/ajdmom/mdl_srjd/cond2_cmom.py: cm", "src/ajdmom/mdl_srjd/cond_mom.py: m", "src/ajdmom/mdl_srjd/cond_cmom.py: cm", "src/ajdmom/mdl_srjd/mom.py: moment_v", "src/ajdmom/mdl_srjd/cmom.py: cmoment_v"]}
{"id": "C85", "title": "Independent square-root jump-diffusions add up", "statement": "SRJD, two variances with the same k and sigma, independent of each other. Given the jumps (cond2_mom.py, cond2_cmom.py): the parameters with v0 and theta added and the two lists of jumps joined give moments m(n, par) that are the binomial convolutions sum_j C(n, j) m(j, par1) m(n - j, par2), and likewise for cm(n, par). Given the initial variances only (cond_mom.py, cond_cmom.py), with the same mu_v: the same with v0, theta and lmbd added. In the stationary law (mom.py): the same for the values of moment_v(n), with theta and lmbd added.", "quantifier": "all orders n; all k != 0 and sigma; all v0, theta; all finite lists of jumps at distinct times in (0, h]; all lambda >= 0 and mu_v > 0 in the other two cases", "why_tests_cant": "It relates three runs of the recursion at every order and all parameters.", "anchors": ["src/ajdmom/mdl_srjd/cond2_mom.py: m", "src/ajdmom/mdl_srjd/cond2_cmom.py: cm", "src/ajdmom/mdl_srjd/cond_mom.py: m", "src/ajdmom/mdl_srjd/cond_cmom.py: cm", "src/ajdmom/mdl_srjd/mom.py: moment_v"]}
