{
 "claims": [
  {
   "property": "C01",
   "status": "proved",
   "theorems": [
    "Ajd.C01_add",
    "Ajd.C01_add_comm",
    "Ajd.C01_add_assoc"
   ],
   "note": ""
  },
  {
   "property": "C02",
   "status": "proved",
   "theorems": [
    "Ajd.C02_sub",
    "Ajd.C02_sub_self",
    "Ajd.C02_sub_add_cancel"
   ],
   "note": ""
  },
  {
   "property": "C03",
   "status": "proved",
   "theorems": [
    "Ajd.C03_mul",
    "Ajd.C03_mul_coeff",
    "Ajd.C03_mul_comm",
    "Ajd.C03_mul_assoc",
    "Ajd.C03_mul_add",
    "Ajd.C03_mul_short"
   ],
   "note": ""
  },
  {
   "property": "C04",
   "status": "proved",
   "theorems": [
    "Ajd.C04_rmul",
    "Ajd.C04_rmul_zero",
    "Ajd.C04_pow",
    "Ajd.C04_pow_nonpos"
   ],
   "note": ""
  },
  {
   "property": "C05",
   "status": "proved",
   "theorems": [
    "Ajd.C05_merge_seq",
    "Ajd.C05_merge_self"
   ],
   "note": ""
  },
  {
   "property": "C06",
   "status": "proved",
   "theorems": [
    "Ajd.C06_mulPoly"
   ],
   "note": ""
  },
  {
   "property": "C07",
   "status": "proved",
   "theorems": [
    "Ajd.C07_add_guard",
    "Ajd.C07_merge_guard",
    "Ajd.C07_sub_guard",
    "Ajd.C07_mul_guard"
   ],
   "note": ""
  },
  {
   "property": "C08",
   "status": "proved",
   "theorems": [
    "Ajd.C08_comb",
    "Ajd.C08_comb_overfull",
    "Ajd.C08_multinomial"
   ],
   "note": ""
  },
  {
   "property": "C09",
   "status": "proved",
   "theorems": [
    "Ajd.C09_multilevel_index",
    "Ajd.C09_diverges"
   ],
   "note": ""
  },
  {
   "property": "C10",
   "status": "proved",
   "theorems": [
    "Ajd.C10_multilevel_comb",
    "Ajd.C10_one_part"
   ],
   "note": ""
  },
  {
   "property": "C11",
   "status": "proved",
   "theorems": [
    "Ajd.C11_dbfactorial",
    "Ajd.C11_cmnorm"
   ],
   "note": ""
  },
  {
   "property": "C12",
   "status": "proved",
   "theorems": [
    "Ajd.C12_fZ",
    "Ajd.C12_fZ_each_index"
   ],
   "note": ""
  },
  {
   "property": "C13",
   "status": "proved",
   "theorems": [
    "Ajd.C13_simplify_rho",
    "Ajd.C13_odd_raises",
    "Ajd.C13_negative_dropped"
   ],
   "note": ""
  },
  {
   "property": "C14",
   "status": "proved",
   "theorems": [
    "Ajd.C14_int_et",
    "Ajd.C14_int_et_guard"
   ],
   "note": ""
  },
  {
   "property": "C15",
   "status": "proved",
   "theorems": [
    "Ajd.C15_int_e_poly"
   ],
   "note": ""
  },
  {
   "property": "C16",
   "status": "proved",
   "theorems": [
    "Ajd.C16_moment_IEII",
    "Ajd.C16_unique",
    "Ajd.C16_outputs_solve",
    "Ajd.Ito.C16_sde"
   ],
   "note": "C16_moment_IEII: equal to the unique solution of the documented integral recursion. C16_sde: equal to the joint moment of the processes that follow the stochastic differential equations, by Dynkin's formula for polynomials."
  },
  {
   "property": "C17",
   "status": "proved",
   "theorems": [
    "Ajd.C17_no_error",
    "Ajd.C17_negative",
    "Ajd.C17_negative_component"
   ],
   "note": "C17_negative_component records what happens outside the guard: a negative component with a non-negative total is not rejected."
  },
  {
   "property": "C18",
   "status": "proved",
   "theorems": [
    "Ajd.Sv.C18_stationary",
    "Ajd.C18_moment_v",
    "Ajd.C18_moment_v_gamma",
    "Ajd.C18_moment_v_negative"
   ],
   "note": ""
  },
  {
   "property": "C19",
   "status": "proved",
   "theorems": [
    "Ajd.C19_int_et_fZ",
    "Ajd.C19_int_et_fZ_guard",
    "Ajd.C19_at_last_maximum"
   ],
   "note": ""
  },
  {
   "property": "C20",
   "status": "partial",
   "theorems": [
    "Ajd.C20_int_e_poly",
    "Ajd.C20_moment_IEII_partial",
    "Ajd.C20_moment_IEII_repaired",
    "Ajd.C20_unique",
    "Ajd.C20_odd",
    "Ajd.C20_guard",
    "Ajd.C20_moment_IEII_error",
    "Ajd.C20_moment_IEII_wrong",
    "Ajd.ItoCond.C20_sde_partial",
    "Ajd.ItoCond.C20_sde_repaired",
    "Ajd.ItoCond.C20_sde_wrong",
    "Ajd.ItoCond.C20_sde_law"
   ],
   "note": "False of the code from order 4 on when there are jumps: C20_moment_IEII_wrong, exact error in C20_moment_IEII_error. Proved for order <= 3, for no jumps, and for moments of IE alone; never raises for all orders. C20_moment_IEII_repaired shows that the reused loop variables are the only fault. C20_sde_*: the same from the stochastic differential equations with jumps at given times."
  },
  {
   "property": "C21",
   "status": "partial",
   "theorems": [
    "Ajd.C21_int_et_partial",
    "Ajd.C21_int_et_repaired",
    "Ajd.C21_int_et_wrong",
    "Ajd.C21_int_et_guard"
   ],
   "note": "False of the code for n1 = -n2 != 0 (C21_int_et_wrong, all m, all k1 != k2). Proved for all other n1, n2, m; C21_int_et_repaired: the documented test makes it right everywhere."
  },
  {
   "property": "C22",
   "status": "partial",
   "theorems": [
    "Ajd.C22_moment_partial",
    "Ajd.C22_moment_repaired",
    "Ajd.C22_unique",
    "Ajd.C22_moment_error",
    "Ajd.C22_moment_wrong",
    "Ajd.C22_guard",
    "Ajd.C22_rate_test_matters",
    "Ajd.C22_sde_partial",
    "Ajd.C22_sde_repaired",
    "Ajd.C22_sde_wrong",
    "Ajd.C22_sde_law"
   ],
   "note": "False of the code from total order 3 on (C22_moment_wrong; exact error in C22_moment_error). Proved for order <= 2, order 3 except four indices, and all orders of IE1 or IE2 alone; never raises and key[1] = (n4, n6) for all orders; C22_moment_repaired: right for all orders once both tests are repaired. C22_sde_*: the same from the stochastic differential equations."
  },
  {
   "property": "C23",
   "status": "proved",
   "theorems": [
    "Ajd.C23_mnorm",
    "Ajd.C23_mnorm_negative"
   ],
   "note": ""
  },
  {
   "property": "C24",
   "status": "proved",
   "theorems": [
    "Ajd.C24_mcpp",
    "Ajd.C24_mcpp_original",
    "Ajd.C24_mcpp_negative"
   ],
   "note": ""
  },
  {
   "property": "C25",
   "status": "proved",
   "theorems": [
    "Ajd.C25_cmcpp",
    "Ajd.C25_cmcpp_negative"
   ],
   "note": ""
  },
  {
   "property": "C26",
   "status": "proved",
   "theorems": [
    "Ajd.Fsv1.C26_cm",
    "Ajd.Fsv1.C26_m",
    "Ajd.Fsv1.C26_keys",
    "Ajd.Sv.C26_m_sde",
    "Ajd.Sv.C26_cm_sde"
   ],
   "note": ""
  },
  {
   "property": "C27",
   "status": "proved",
   "theorems": [
    "Ajd.Fsv1.C27_cov",
    "Ajd.Fsv1.C27_condPoly",
    "Ajd.Sv.C27_cov_sde"
   ],
   "note": ""
  },
  {
   "property": "C28",
   "status": "proved",
   "theorems": [
    "Ajd.Fsv1.C28_deriv",
    "Ajd.Fsv1.C28_error",
    "Ajd.Fsv1.C28_dpoly"
   ],
   "note": ""
  },
  {
   "property": "C29",
   "status": "proved",
   "theorems": [
    "Ajd.Fsv1c.C29_cmoments",
    "Ajd.Fsv1c.C29_cond_cm",
    "Ajd.Fsv1c.C29_simplify",
    "Ajd.Fsv1c.C29_simplify_error",
    "Ajd.Fsv1c.C29_cond_cm_zero",
    "Ajd.Sv.C29_cond_cm_sde"
   ],
   "note": ""
  },
  {
   "property": "C30",
   "status": "proved",
   "theorems": [
    "Ajd.Fsv1j.C30_m",
    "Ajd.Fsv1j.C30_cm",
    "Ajd.Fsv1j.C30_cov",
    "Ajd.Fsv1j.C30_condPoly",
    "Ajd.Fsv1j.C30_keys",
    "Ajd.Sv.C30_m_sde",
    "Ajd.Sv.C30_cm_sde",
    "Ajd.Sv.C30_cov_sde"
   ],
   "note": ""
  },
  {
   "property": "C31",
   "status": "proved",
   "theorems": [
    "Ajd.Fsv2.C31_m",
    "Ajd.Fsv2.C31_cm",
    "Ajd.Fsv2.C31_cov",
    "Ajd.Fsv2.C31_condPoly",
    "Ajd.Fsv2.C31_keys"
   ],
   "note": ""
  },
  {
   "property": "C32",
   "status": "proved",
   "theorems": [
    "Ajd.Fsv2.C32_deriv",
    "Ajd.Fsv2.C32_deriv_ok",
    "Ajd.Fsv2.C32_error",
    "Ajd.Fsv2.C32_dpoly"
   ],
   "note": ""
  },
  {
   "property": "C33",
   "status": "proved",
   "theorems": [
    "Ajd.Fsv2j.C33_m",
    "Ajd.Fsv2j.C33_cm",
    "Ajd.Fsv2j.C33_cov",
    "Ajd.Fsv2j.C33_condPoly",
    "Ajd.Fsv2j.C33_keys"
   ],
   "note": ""
  },
  {
   "property": "C34",
   "status": "partial",
   "theorems": [
    "Ajd.Srjd.C34_moment_IEZ",
    "Ajd.Srjd.C34_cmoment_IEZ",
    "Ajd.Srjd.C34_negative",
    "Ajd.Srjd.C34_m",
    "Ajd.Srjd.C34_cm_raises",
    "Ajd.Srjd.C34_law"
   ],
   "note": "moment_IEZ, cmoment_IEZ and m are right and never raise; the last clause is false: iez_cmom.cm always raises TypeError (C34_cm_raises)."
  },
  {
   "property": "C35",
   "status": "partial",
   "theorems": [
    "Ajd.Srjd.C35_moment_ie_iez_sde",
    "Ajd.Srjd.C35_cmoment_ie_iez_sde",
    "Ajd.Srjd.C35_sde_law",
    "Ajd.Srjd.C35_moment_ie_iez_partial",
    "Ajd.Srjd.C35_cmoment_ie_iez_partial",
    "Ajd.Srjd.C35_moment_ie",
    "Ajd.Srjd.C35_keyfor_violated",
    "Ajd.Srjd.C35_negative",
    "Ajd.Srjd.C35_spec_second"
   ],
   "note": "Values and absence of exceptions hold for all orders; the keyfor clause is false exactly at order (2, 0), where it is empty (C35_keyfor_violated). C35_*_sde: the same from the stochastic differential equations by Dynkin's formula."
  },
  {
   "property": "C36",
   "status": "proved",
   "theorems": [
    "Ajd.Srjd.C36_moment_x",
    "Ajd.Srjd.C36_moment_v",
    "Ajd.Srjd.C36_cmoment_x",
    "Ajd.Srjd.C36_cmoment_v",
    "Ajd.Srjd.C36_negative"
   ],
   "note": ""
  },
  {
   "property": "C37",
   "status": "proved",
   "theorems": [
    "Ajd.SrjdJ.C37_moment_v_sde",
    "Ajd.SrjdJ.C37_cmoment_v_sde",
    "Ajd.SrjdJ.C37_sde",
    "Ajd.SrjdJ.C37_law",
    "Ajd.SrjdJ.C37_moment_IE",
    "Ajd.SrjdJ.C37_moment_v",
    "Ajd.SrjdJ.C37_cmoment_v",
    "Ajd.SrjdJ.C37_fZ",
    "Ajd.SrjdJ.C37_m",
    "Ajd.SrjdJ.C37_cm",
    "Ajd.SrjdJ.C37_recursion",
    "Ajd.SrjdJ.C37_negative"
   ],
   "note": "C37_*_sde: from the square-root diffusion with jumps at given (different, positive) times, by Dynkin's formula; the others from the documented recursion, also with simultaneous jumps."
  },
  {
   "property": "C38",
   "status": "partial",
   "theorems": [
    "Ajd.Svvj.C38_cm_sde_partial",
    "Ajd.Svvj.C38_m_sde_partial",
    "Ajd.Svvj.C38_cm_sde_wrong",
    "Ajd.Svvj.C38_sde_repaired",
    "Ajd.Svvj.C38_law",
    "Ajd.Svvj.C38_cmoments_partial",
    "Ajd.Svvj.C38_cmoments_repaired",
    "Ajd.Svvj.C38_cm_partial",
    "Ajd.Svvj.C38_cm_zero",
    "Ajd.Svvj.C38_cm_wrong",
    "Ajd.Svvj.C38_simplify",
    "Ajd.Svvj.C38_moments_partial",
    "Ajd.Svvj.C38_moments_repaired",
    "Ajd.Svvj.C38_m_partial"
   ],
   "note": "False of the code from order 4 on with jumps (C38_cm_wrong) and for cm(0) (C38_cm_zero). Proved for order <= 3, and for all orders without jumps; never raises; C38_*_repaired: right for all orders once int_e_IEZ_poly is repaired. C38_*_sde*: the same from the stochastic differential equations with jumps at given times, by Dynkin's formula."
  },
  {
   "property": "C39",
   "status": "partial",
   "theorems": [
    "Ajd.Svvj.C39_classify_partial",
    "Ajd.Svvj.C39_keys_apart",
    "Ajd.Svvj.C39_classify_error",
    "Ajd.Svvj.C39_classify_violated"
   ],
   "note": "False of the code when the depths that occur are not 0..m-1: IndexError, characterised exactly by C39_classify_error."
  },
  {
   "property": "C40",
   "status": "proved",
   "theorems": [
    "Ajd.Svij.C40_cmoments",
    "Ajd.Svij.C40_moments"
   ],
   "note": ""
  },
  {
   "property": "C41",
   "status": "proved",
   "theorems": [
    "Ajd.Svcj.C41_moment_IZs",
    "Ajd.Svcj.C41_cmoment_IZs",
    "Ajd.Svcj.C41_law"
   ],
   "note": ""
  },
  {
   "property": "C42",
   "status": "proved",
   "theorems": [
    "Ajd.C42_moment_ieziziz",
    "Ajd.C42_m_ieziziz",
    "Ajd.C42_negative"
   ],
   "note": ""
  },
  {
   "property": "C43",
   "status": "proved",
   "theorems": [
    "Ajd.SvcjI.C43_expectation",
    "Ajd.SvcjI.C43_m_ieii_ieziziz",
    "Ajd.SvcjI.C43_m_ieii_ieziziz_error",
    "Ajd.SvcjI.C43_m_y",
    "Ajd.SvcjI.C43_cm_y_cond",
    "Ajd.SvcjI.C43_mean",
    "Ajd.SvcjI.C43_unm_y",
    "Ajd.SvcjI.C43_cm_y",
    "Ajd.SvcjI.C43_remove_mu",
    "Ajd.SvcjI.C43_no_mu",
    "Ajd.SvcjI.C43_error"
   ],
   "note": ""
  },
  {
   "property": "C44",
   "status": "partial",
   "theorems": [
    "Ajd.Writer.C44_csv_flat_partial",
    "Ajd.Writer.C44_csv_flat_injective",
    "Ajd.Writer.C44_csv_svvj_partial",
    "Ajd.Writer.C44_csv_level0_wrong",
    "Ajd.Writer.C44_csv_srjd_wrong",
    "Ajd.Writer.C44_csv_mixed",
    "Ajd.Writer.C44_csv_empty",
    "Ajd.Writer.C44_csv_2fsv_wrong",
    "Ajd.Writer.C44_txt_injective",
    "Ajd.Writer.C44_filename"
   ],
   "note": "False of the code for SRJD (C44_csv_srjd_wrong), for SVVJ-type Polys without jump indices (C44_csv_level0_wrong) and for 2FSV/2FSVJ (C44_csv_2fsv_wrong). Proved for flat keys and the SVVJ/SVIJ/SVCJ layout with jump indices; the txt file determines the Poly for all keys (C44_txt_injective)."
  },
  {
   "property": "C45",
   "status": "partial",
   "theorems": [
    "Ajd.Euler.C45_variance_nonneg",
    "Ajd.Euler.C45_1fsv",
    "Ajd.Euler.C45_1fsv_iid",
    "Ajd.Euler.C45_1fsvj",
    "Ajd.Euler.C45_2fsv",
    "Ajd.Euler.C45_2fsvj",
    "Ajd.Euler.C45_svvj",
    "Ajd.Euler.C45_svvj_nonneg",
    "Ajd.Euler.C45_svij",
    "Ajd.Euler.C45_svcj",
    "Ajd.Euler.C45_srjd_partial",
    "Ajd.Euler.C45_srjd_simultaneous",
    "Ajd.Euler.C45_1fsv_negative"
   ],
   "note": "Draws are arbitrary inputs; reals for floats. C45_srjd_simultaneous records the division by zero for simultaneous jumps."
  },
  {
   "property": "C46",
   "status": "partial",
   "theorems": [
    "Ajd.C46_keys_partial",
    "Ajd.C46_keylen_violated"
   ],
   "note": "Holds for order >= 3; the full claim is false of the code (8-component keys and zero entries at orders 0 to 2), shown by C46_keylen_violated."
  },
  {
   "property": "C47",
   "status": "proved",
   "theorems": [
    "Ajd.Fsv1j.C47_deriv",
    "Ajd.Fsv1j.C47_error"
   ],
   "note": ""
  },
  {
   "property": "C48",
   "status": "partial",
   "theorems": [
    "Ajd.Svij.C48_cm_sde_partial",
    "Ajd.Svij.C48_m_sde_partial",
    "Ajd.Svij.C48_cm_sde_wrong",
    "Ajd.Svij.C48_sde_repaired",
    "Ajd.Svij.C48_cm_partial",
    "Ajd.Svij.C48_m_partial",
    "Ajd.Svij.C48_repaired",
    "Ajd.Svij.C48_cm_wrong",
    "Ajd.Svij.C48_cm_zero"
   ],
   "note": "False of the code from order 4 on with variance jumps (C48_cm_wrong, inherited from int_e_IEZ_poly) and for cm(0) (C48_cm_zero). Proved for order <= 3 and without variance jumps; C48_repaired: right for all orders once int_e_IEZ_poly is repaired. C48_*_sde*: the same from the stochastic differential equations with jumps at given times, by Dynkin's formula."
  },
  {
   "property": "C49",
   "status": "partial",
   "theorems": [
    "Ajd.Svcj.C49_cm_sde_partial",
    "Ajd.Svcj.C49_m_sde_partial",
    "Ajd.Svcj.C49_cm_sde_wrong",
    "Ajd.Svcj.C49_sde_repaired",
    "Ajd.Svcj.C49_cm_partial",
    "Ajd.Svcj.C49_m_partial",
    "Ajd.Svcj.C49_repaired",
    "Ajd.Svcj.C49_cm_wrong",
    "Ajd.Svcj.C49_cm_zero",
    "Ajd.Svcj.C49_m_zero"
   ],
   "note": "False of the code from order 4 on with variance jumps (C49_cm_wrong, inherited from int_e_IEZ_poly), for cm(0) (C49_cm_zero: 0) and m(0) (C49_m_zero: IndexError). Proved for 1 <= order <= 3 and without variance jumps; C49_repaired: right for all orders >= 1 once int_e_IEZ_poly is repaired. C49_*_sde*: the same from the stochastic differential equations with jumps at given times, by Dynkin's formula."
  },
  {
   "property": "C50",
   "status": "proved",
   "theorems": [
    "Ajd.Srjd.C50_dynkin",
    "Ajd.Srjd.C50_unique"
   ],
   "note": ""
  },
  {
   "property": "C51",
   "status": "proved",
   "theorems": [
    "Ajd.Srjd.C51_stationary",
    "Ajd.Srjd.C51_mean",
    "Ajd.Srjd.C51_cmoment_v",
    "Ajd.Srjd.C51_moment_v",
    "Ajd.Srjd.C51_negative"
   ],
   "note": ""
  },
  {
   "property": "C52",
   "status": "partial",
   "theorems": [
    "Ajd.Fsv2.C52_moments_partial",
    "Ajd.Fsv2.C52_cov_partial",
    "Ajd.Fsv2.C52_order3",
    "Ajd.Fsv2.C52_order3_wrong",
    "Ajd.Fsv2.C52_corrected",
    "Ajd.Sv2.C52_moments_sde_partial",
    "Ajd.Sv2.C52_cov_sde_partial",
    "Ajd.Sv2.C52_order3_sde",
    "Ajd.Sv2.C52_corrected_sde"
   ],
   "note": "False at order 3 (C52_order3, C52_order3_wrong): both factors leave out the positive amount gap3, from the errors in itos_mom. Right for orders up to 2 and cov(1,1); right at all orders with itos_mom corrected (C52_corrected). C52_*_sde: the same from the stochastic differential equations by Dynkin's formula."
  },
  {
   "property": "C53",
   "status": "partial",
   "theorems": [
    "Ajd.Fsv2j.C53_moments_partial",
    "Ajd.Fsv2j.C53_cov_partial",
    "Ajd.Fsv2j.C53_order3",
    "Ajd.Fsv2j.C53_order3_wrong",
    "Ajd.Fsv2j.C53_corrected",
    "Ajd.Sv2.C53_moments_sde_partial",
    "Ajd.Sv2.C53_cov_sde_partial",
    "Ajd.Sv2.C53_order3_sde",
    "Ajd.Sv2.C53_corrected_sde"
   ],
   "note": "False at order 3 (C53_order3, C53_order3_wrong), by the same amount as C52. Right for orders up to 2 and cov(1,1); right at all orders with itos_mom corrected (C53_corrected). C53_*_sde: the same from the stochastic differential equations by Dynkin's formula."
  },
  {
   "property": "C54",
   "status": "proved",
   "theorems": [
    "Ajd.Fsv2j.C54_deriv",
    "Ajd.Fsv2j.C54_deriv_ok",
    "Ajd.Fsv2j.C54_error",
    "Ajd.Fsv2j.C54_dpoly"
   ],
   "note": ""
  },
  {
   "property": "C55",
   "status": "partial",
   "theorems": [
    "Ajd.Subpolys.C55_files_partial",
    "Ajd.Subpolys.C55_names",
    "Ajd.Subpolys.C55_determined",
    "Ajd.Subpolys.C55_value",
    "Ajd.Subpolys.C55_error",
    "Ajd.Subpolys.C55_moment_partial",
    "Ajd.Subpolys.C55_noGap"
   ],
   "note": "False of the code when the depths have a gap: IndexError, exactly characterised by C55_error (inherited from classify, C39). Otherwise proved for all Polys; for the moments see C55_moment_partial (no gap shown for orders 1 to 3)."
  },
  {
   "property": "C56",
   "status": "proved",
   "theorems": [
    "Ajd.Sv.C56_fsv1j",
    "Ajd.Sv.C56_fsv1",
    "Ajd.Sv.C56_fsv1_cond",
    "Ajd.Sv.C56_fsv1_ineq",
    "Ajd.Sv.C56_fsv1j_ineq",
    "Ajd.SvcjI.C56_svcj_cond",
    "Ajd.SvcjI.C56_svcj",
    "Ajd.SvcjI.C56_svcj_ineq",
    "Ajd.Srjd.C56_srjd_cond",
    "Ajd.Srjd.C56_srjd"
   ],
   "note": "1FSV, 1FSVJ (two returns in a row); 1FSV and SVCJ given the initial variance; SVCJ with stationary variance; SRJD given the initial value and stationary."
  },
  {
   "property": "C57",
   "status": "partial",
   "theorems": [
    "Ajd.Sv2.C57_fsv2j_partial",
    "Ajd.Sv2.C57_fsv2_partial",
    "Ajd.Sv2.C57_fsv2j_corrected",
    "Ajd.Sv2.C57_fsv2_corrected",
    "Ajd.Sv2.C57_fsv2_ineq",
    "Ajd.Sv2.C57_fsv2j_ineq"
   ],
   "note": "The code is wrong from order 3 on (C52, C53), so C57_fsv2_partial and C57_fsv2j_partial are about orders up to 2 and cov(1,1); C57_*_corrected: all orders for the corrected code."
  },
  {
   "property": "C58",
   "status": "partial",
   "theorems": [
    "Ajd.Sv.C58_fsv1j",
    "Ajd.Sv.C58_fsv1",
    "Ajd.Sv2.C58_fsv2j_partial",
    "Ajd.Sv2.C58_fsv2_partial",
    "Ajd.Sv2.C58_fsv2j_corrected",
    "Ajd.Sv2.C58_fsv2_corrected"
   ],
   "note": "1FSV and 1FSVJ: all orders. Two-factor models: the code is wrong from order 3 on (C52, C53), so C58_fsv2_partial and C58_fsv2j_partial are about orders 1 and 2; C58_*_corrected: all orders for the corrected code."
  },
  {
   "property": "C59",
   "status": "proved",
   "theorems": [
    "Ajd.Sv.C59_fsv1j",
    "Ajd.Srjd.C59_srjd",
    "Ajd.SvcjI.C59_svcj_cond",
    "Ajd.SvcjI.C59_svcj",
    "Ajd.C59_svvj",
    "Ajd.C59_svij",
    "Ajd.C59_svcj2",
    "Ajd.C59_svij_svvj",
    "Ajd.C59_fsv2j"
   ],
   "note": "1FSVJ/1FSV, SRJD/square-root diffusion, SVCJ/1FSV (given the variance and stationary), SVVJ, SVIJ, SVCJ given no jumps/1FSV, SVIJ/SVVJ, 2FSVJ/2FSV."
  },
  {
   "property": "C60",
   "status": "proved",
   "theorems": [
    "Ajd.Srjd.C60_srjd",
    "Ajd.SvcjI.C60_svcj"
   ],
   "note": "SRJD and SVCJ."
  },
  {
   "property": "C61",
   "status": "proved",
   "theorems": [
    "Ajd.Sv.C61_fsv1j",
    "Ajd.Sv.C61_fsv1",
    "Ajd.Sv.C61_cond",
    "Ajd.SvcjI.C61_svcj_cond",
    "Ajd.SvcjI.C61_svcj",
    "Ajd.Srjd.C61_srjd",
    "Ajd.Sv2.C61_fsv2j",
    "Ajd.Sv2.C61_fsv2"
   ],
   "note": "1FSV (also given the variance), 1FSVJ, 2FSV and 2FSVJ (the code as it is, all orders, generic rates), SRJD, SVCJ. 2FSV and 2FSVJ are proved from the homogeneity of the keys, so also where their values are wrong."
  },
  {
   "property": "C62",
   "status": "proved",
   "theorems": [
    "Ajd.Sv.C62_fsv1j",
    "Ajd.Sv.C62_fsv1",
    "Ajd.Sv.C62_cond",
    "Ajd.SvcjI.C62_svcj_cond",
    "Ajd.SvcjI.C62_svcj",
    "Ajd.Sv2.C62_fsv2",
    "Ajd.Sv2.C62_fsv2j"
   ],
   "note": "1FSV (also given the variance), 1FSVJ, SVCJ (conditional and unconditional), 2FSV and 2FSVJ (the code as it is, all orders, generic rates)."
  },
  {
   "property": "C63",
   "status": "proved",
   "theorems": [
    "Ajd.C63_fsv1j",
    "Ajd.C63_fsv2j"
   ],
   "note": "1FSVJ and 2FSVJ (the code as it is, all orders, generic rates). The jump variable is the law jumpLaw of the specification."
  },
  {
   "property": "C64",
   "status": "partial",
   "theorems": [
    "Ajd.Sv2.C64_fsv2_partial",
    "Ajd.Sv2.C64_fsv2j_partial",
    "Ajd.Sv2.C64_corrected",
    "Ajd.Itos.C64_itos_wrong"
   ],
   "note": "The code is not symmetric: C64_itos_wrong (an Ito moment the orders from 4 on use). Proved for orders up to 3 and cov(1,1); for the corrected code, all orders."
  },
  {
   "property": "C65",
   "status": "partial",
   "theorems": [
    "Ajd.Sv.C65_fsv1j",
    "Ajd.Sv.C65_fsv1",
    "Ajd.Sv.C65_fsv1_cond",
    "Ajd.SvcjI.C65_svcj_cond",
    "Ajd.SvcjI.C65_svcj",
    "Ajd.Srjd.C65_srjd",
    "Ajd.Sv2.C65_fsv2j_partial",
    "Ajd.Sv2.C65_fsv2_partial",
    "Ajd.Sv2.C65_corrected"
   ],
   "note": "All orders for 1FSV, 1FSVJ, SVCJ and SRJD. 2FSV and 2FSVJ: orders up to 2, since the code is wrong from order 3 on (C52, C53); all orders for the corrected code."
  },
  {
   "property": "C66",
   "status": "proved",
   "theorems": [
    "Ajd.Sv.C66_fsv1j",
    "Ajd.Sv.C66_fsv1",
    "Ajd.SvcjI.C66_svcj_cond",
    "Ajd.SvcjI.C66_svcj",
    "Ajd.Srjd.C66_srjd_cond",
    "Ajd.Srjd.C66_srjd",
    "Ajd.Fsv2.C66_fsv2",
    "Ajd.Fsv2j.C66_fsv2j"
   ],
   "note": "1FSV, 1FSVJ, 2FSV and 2FSVJ (the code as it is, all orders, generic rates), SVCJ and SRJD with and without the initial variance."
  },
  {
   "property": "C67",
   "status": "proved",
   "theorems": [
    "Ajd.Srjd.C67_moment",
    "Ajd.Srjd.C67_cmoment"
   ],
   "note": "Real arithmetic; for any depth of the table that suffices for the order."
  },
  {
   "property": "C68",
   "status": "proved",
   "theorems": [
    "Ajd.Sv.C68_fsv1",
    "Ajd.Sv.C68_fsv1_cond",
    "Ajd.C68_fsv1j",
    "Ajd.Srjd.C68_srjd",
    "Ajd.SvcjI.C68_svcj",
    "Ajd.Fsv2.C68_fsv2",
    "Ajd.C68_fsv2j"
   ],
   "note": "Real arithmetic. Holds for the two-factor code as it is, at all orders: its errors multiply terms with a volatility. SVCJ and SRJD for tables of sufficient depth."
  },
  {
   "property": "C69",
   "status": "proved",
   "theorems": [
    "Ajd.Euler.C69_1fsv_ok",
    "Ajd.Euler.C69_1fsv",
    "Ajd.Euler.C69_1fsv_cov",
    "Ajd.Euler.C69_1fsv_iid_ok",
    "Ajd.Euler.C69_1fsv_iid_sde",
    "Ajd.Euler.C69_1fsv_iid"
   ],
   "note": "Real arithmetic, ideal random numbers (independent standard normal variables). C69_1fsv (moments and central moments), C69_1fsv_cov, C69_1fsv_iid (cond_cm), C69_1fsv_iid_sde (moments from a given variance); C69_1fsv_ok and C69_1fsv_iid_ok show that the generator returns N samples for every outcome."
  },
  {
   "property": "C70",
   "status": "partial",
   "theorems": [
    "Ajd.Euler.F2.C70_2fsv_ok",
    "Ajd.Euler.F2.C70_2fsv_sde",
    "Ajd.Euler.F2.C70_2fsv_partial",
    "Ajd.Euler.F2.C70_2fsv_cov_partial",
    "Ajd.Euler.F2.C70_2fsv_order3",
    "Ajd.Euler.F2.C70_2fsv_corrected"
   ],
   "note": "Real arithmetic, ideal random numbers. The claim is false at order 3: C70_2fsv_order3 shows that the third moment of the samples exceeds m(3, par) by a positive amount in the limit (the error of itos_mom, C52); the simulation is right. Proved for l <= 2 (C70_2fsv_partial) and cov(1, 1) (C70_2fsv_cov_partial); at all orders the samples have the moments of the stochastic differential equation (C70_2fsv_sde), and the ones computed with the corrected itos_mom (C70_2fsv_corrected)."
  },
  {
   "property": "C71",
   "status": "proved",
   "theorems": [
    "Ajd.Euler.C71_1fsvj_ok",
    "Ajd.Euler.C71_1fsvj",
    "Ajd.Euler.C71_1fsvj_cov"
   ],
   "note": "Real arithmetic, ideal random numbers."
  },
  {
   "property": "C72",
   "status": "partial",
   "theorems": [
    "Ajd.Euler.F2.C72_2fsvj_ok",
    "Ajd.Euler.F2.C72_2fsvj_sde",
    "Ajd.Euler.F2.C72_2fsvj_partial",
    "Ajd.Euler.F2.C72_2fsvj_cov_partial",
    "Ajd.Euler.F2.C72_2fsvj_order3",
    "Ajd.Euler.F2.C72_2fsvj_corrected"
   ],
   "note": "Real arithmetic, ideal random numbers. The claim is false at order 3: C72_2fsvj_order3 shows that the third moment of the samples exceeds m(3, par) by a positive amount in the limit (the error of itos_mom, C53); the simulation is right. Proved for l <= 2 (C72_2fsvj_partial) and cov(1, 1) (C72_2fsvj_cov_partial); at all orders the samples have the moments of the stochastic differential equation (C72_2fsvj_sde), and the ones computed with the corrected itos_mom (C72_2fsvj_corrected)."
  },
  {
   "property": "C73",
   "status": "proved",
   "theorems": [
    "Ajd.SrjdJ.C73_moments",
    "Ajd.SrjdJ.C73_averages"
   ],
   "note": "Real arithmetic, ideal random numbers: each draw is a measurable function of the non-centrality and an independent variable, and has the law defined in numpy's documentation (a Poisson mixture of chi-square laws). Two jumps at the same time and a jump at time 0 make rSRJD fail (C45_srjd_simultaneous) and are excluded."
  },
  {
   "property": "C74",
   "status": "proved",
   "theorems": [
    "Ajd.SrjdJ.C74_average",
    "Ajd.SrjdJ.C74_defined",
    "Ajd.SrjdJ.C74_total",
    "Ajd.SrjdJ.C74_variance"
   ],
   "note": "The law of the jumps is described by its waiting times: the first jump after a is at tau with density lmbd e^{-lmbd (tau - a)}, and the process starts anew at tau. C74_total: the weights add up to 1. C74_variance: the law of total variance."
  },
  {
   "property": "C75",
   "status": "partial",
   "theorems": [
    "Ajd.Svcj.C75_average_partial",
    "Ajd.Svcj.C75_average_repaired",
    "Ajd.Svcj.C75_variance",
    "Ajd.Svcj.C75_defined"
   ],
   "note": "Proved up to order 3 (C75_average_partial) and for all orders with int_e_IEZ_poly repaired (C75_average_repaired); missing: orders from 4 on with the code as it is, where the moments given the jumps are wrong (C49_cm_sde_wrong). C75_variance holds for the code as it is."
  },
  {
   "property": "C76",
   "status": "proved",
   "theorems": [
    "Ajd.Closed.C76_fsv1j",
    "Ajd.Closed.C76_fsv1",
    "Ajd.Closed.C76_sign",
    "Ajd.Closed.C76_fsv1_cond",
    "Ajd.Closed.C76_svcj_cond",
    "Ajd.Closed.C76_svcj",
    "Ajd.Closed.C76_srjd",
    "Ajd.Closed.C76_fsv2j",
    "Ajd.Closed.C76_fsv2",
    "Ajd.Closed.C76_sign2"
   ],
   "note": "For mdl_svcj.mom and cmom the depth d of the recursion in the model has to be large enough, as in C43; then it plays no role."
  },
  {
   "property": "C77",
   "status": "proved",
   "theorems": [
    "Ajd.Closed.C77_increasing",
    "Ajd.Closed.C77_correlation",
    "Ajd.Closed.C77_long",
    "Ajd.Closed.C77_increasing2",
    "Ajd.Closed.C77_correlation2",
    "Ajd.Closed.C77_long2"
   ],
   "note": "From the closed forms of C76."
  },
  {
   "property": "C78",
   "status": "partial",
   "theorems": [
    "Ajd.SrjdJ.C78_srjd",
    "Ajd.SrjdJ.C78_srjd_ineq",
    "Ajd.Svvj.C78_svvj_partial",
    "Ajd.Svvj.C78_svvj_var",
    "Ajd.Svvj.C78_svvj_repaired",
    "Ajd.Svij.C78_svij_partial",
    "Ajd.Svij.C78_svij_var",
    "Ajd.Svij.C78_svij_repaired",
    "Ajd.Svcj.C78_svcj_partial",
    "Ajd.Svcj.C78_svcj_var",
    "Ajd.Svcj.C78_svcj_repaired"
   ],
   "note": "Proved in full for mdl_srjd. For mdl_svvj, mdl_svij and mdl_svcj the code as it is satisfies it up to order 3, and for every order without jumps; from order 4 on with jumps its values are wrong (C38, C48, C49), and with int_e_IEZ_poly repaired all orders are proved."
  },
  {
   "property": "C79",
   "status": "proved",
   "theorems": [
    "Ajd.SrjdJ.C79_srjd",
    "Ajd.Svvj.C79_svvj",
    "Ajd.Svij.C79_svij",
    "Ajd.Svcj.C79_svcj",
    "Ajd.C79_unit",
    "Ajd.Svvj.C79_compare"
   ],
   "note": "From C37, C38, C48, C49 and the linear equations for the first two moments between the jumps."
  },
  {
   "property": "C80",
   "status": "proved",
   "theorems": [
    "Ajd.Srjd.C80_cumulants",
    "Ajd.Srjd.C80_unique",
    "Ajd.Srjd.C80_moment_v",
    "Ajd.Srjd.C80_central",
    "Ajd.Srjd.C80_nonneg",
    "Ajd.Srjd.C80_shape"
   ],
   "note": "From C51: the equations for the stationary moments, divided by n!, and an induction on the order."
  },
  {
   "property": "C81",
   "status": "proved",
   "theorems": [
    "Ajd.SrjdJ.C81_m",
    "Ajd.SrjdJ.C81_cm",
    "Ajd.SrjdJ.C81_shape"
   ],
   "note": "From C37: the equation for the cumulants between the jumps, carried to the moments with formal power series."
  },
  {
   "property": "C82",
   "status": "proved",
   "theorems": [
    "Ajd.Srjd.C82_m",
    "Ajd.Srjd.C82_cm",
    "Ajd.Srjd.C82_shape"
   ],
   "note": "From C50 and C36: the equation for the cumulants, carried to the moments with formal power series."
  },
  {
   "property": "C83",
   "status": "proved",
   "theorems": [
    "Ajd.C83_mcpp",
    "Ajd.C83_cmcpp",
    "Ajd.C83_shape"
   ],
   "note": "From C23, C24 and C25: the derivative of the moment generating function, and power series for the central moments."
  },
  {
   "property": "C84",
   "status": "proved",
   "theorems": [
    "Ajd.SrjdJ.C84_given",
    "Ajd.SrjdJ.C84_jump",
    "Ajd.Srjd.C84_start",
    "Ajd.Srjd.C84_stationary",
    "Ajd.Srjd.C84_moment_v"
   ],
   "note": "From C81 and C82: the cumulants are monotone, and moments are polynomials in the cumulants with nonnegative coefficients."
  },
  {
   "property": "C85",
   "status": "proved",
   "theorems": [
    "Ajd.SrjdJ.C85_given",
    "Ajd.Srjd.C85_start",
    "Ajd.Srjd.C85_stationary"
   ],
   "note": "From C80, C81 and C82: the cumulants are linear in v0, theta, the jump sizes and lmbd, and products of power series."
  }
 ]
}