import Verif.Props.Poly
import Verif.Props.Ito
import Verif.Props.Utils
import Verif.Props.Cpp
import Verif.Props.Fsv1
import Verif.Props.Fsv1j
import Verif.Props.Fsv1c
import Verif.Props.Euler
import Verif.Props.ItoCond
import Verif.Props.Svvj
import Verif.Props.Svij
import Verif.Props.Svcj2
import Verif.Props.Srjd
import Verif.Props.Srjd2
import Verif.Props.Srjd3
import Verif.Props.Srjd4
import Verif.Props.Srjd5
import Verif.Props.Itos
import Verif.Props.Fsv2
import Verif.Props.Fsv2j
import Verif.Props.Ieziziz
import Verif.Props.SvcjI
import Verif.Props.Writer
import Verif.Props.FsvSde
import Verif.Props.FsvjSde
import Verif.Props.Fsv2Sde
import Verif.Props.Fsv2jSde
import Verif.Props.Subpolys
import Verif.Props.CondSde
import Verif.Props.ItoSde
import Verif.Props.ItosSde
import Verif.Props.Law
import Verif.Props.Law2
import Verif.Props.Law3
import Verif.Props.Agg
import Verif.Props.Nest
import Verif.Props.Tower
import Verif.Props.Units
import Verif.Props.Conv
import Verif.Props.Drift
import Verif.Props.Swap
import Verif.Props.Short
import Verif.Props.Central
import Verif.Fidelity
import Verif.Props.Long
import Verif.Props.Flat2
import Verif.Props.EulerConv
import Verif.Props.EulerConv2
import Verif.Props.EulerJump
import Verif.Props.SrjdExact
import Verif.Props.JumpAvg
import Verif.Props.Closed
import Verif.Props.LawAt
import Verif.Props.ClosedAt
import Verif.Props.Cumulant
import Verif.Props.CumulantAt
import Verif.Props.CumulantOf

/-! The axioms of the theorems that MANIFEST.json names. The build fails if one of them uses another axiom.
Written by audit.py. -/

/-- info: 'Ajd.C01_add' depends on axioms: [propext, Classical.choice, Quot.sound] -/
#guard_msgs (whitespace := lax) in
#print axioms Ajd.C01_add

/-- info: 'Ajd.C01_add_comm' depends on axioms: [propext, Classical.choice, Quot.sound] -/
#guard_msgs (whitespace := lax) in
#print axioms Ajd.C01_add_comm

/-- info: 'Ajd.C01_add_assoc' depends on axioms: [propext, Classical.choice, Quot.sound] -/
#guard_msgs (whitespace := lax) in
#print axioms Ajd.C01_add_assoc

/-- info: 'Ajd.C02_sub' depends on axioms: [propext, Classical.choice, Quot.sound] -/
#guard_msgs (whitespace := lax) in
#print axioms Ajd.C02_sub

/-- info: 'Ajd.C02_sub_self' depends on axioms: [propext, Classical.choice, Quot.sound] -/
#guard_msgs (whitespace := lax) in
#print axioms Ajd.C02_sub_self

/-- info: 'Ajd.C02_sub_add_cancel' depends on axioms: [propext, Classical.choice, Quot.sound] -/
#guard_msgs (whitespace := lax) in
#print axioms Ajd.C02_sub_add_cancel

/-- info: 'Ajd.C03_mul' depends on axioms: [propext, Classical.choice, Quot.sound] -/
#guard_msgs (whitespace := lax) in
#print axioms Ajd.C03_mul

/-- info: 'Ajd.C03_mul_coeff' depends on axioms: [propext, Classical.choice, Quot.sound] -/
#guard_msgs (whitespace := lax) in
#print axioms Ajd.C03_mul_coeff

/-- info: 'Ajd.C03_mul_comm' depends on axioms: [propext, Classical.choice, Quot.sound] -/
#guard_msgs (whitespace := lax) in
#print axioms Ajd.C03_mul_comm

/-- info: 'Ajd.C03_mul_assoc' depends on axioms: [propext, Classical.choice, Quot.sound] -/
#guard_msgs (whitespace := lax) in
#print axioms Ajd.C03_mul_assoc

/-- info: 'Ajd.C03_mul_add' depends on axioms: [propext, Classical.choice, Quot.sound] -/
#guard_msgs (whitespace := lax) in
#print axioms Ajd.C03_mul_add

/-- info: 'Ajd.C03_mul_short' depends on axioms: [propext, Classical.choice, Quot.sound] -/
#guard_msgs (whitespace := lax) in
#print axioms Ajd.C03_mul_short

/-- info: 'Ajd.C04_rmul' depends on axioms: [propext, Classical.choice, Quot.sound] -/
#guard_msgs (whitespace := lax) in
#print axioms Ajd.C04_rmul

/-- info: 'Ajd.C04_rmul_zero' depends on axioms: [propext, Classical.choice, Quot.sound] -/
#guard_msgs (whitespace := lax) in
#print axioms Ajd.C04_rmul_zero

/-- info: 'Ajd.C04_pow' depends on axioms: [propext, Classical.choice, Quot.sound] -/
#guard_msgs (whitespace := lax) in
#print axioms Ajd.C04_pow

/-- info: 'Ajd.C04_pow_nonpos' depends on axioms: [propext, Classical.choice, Quot.sound] -/
#guard_msgs (whitespace := lax) in
#print axioms Ajd.C04_pow_nonpos

/-- info: 'Ajd.C05_merge_seq' depends on axioms: [propext, Classical.choice, Quot.sound] -/
#guard_msgs (whitespace := lax) in
#print axioms Ajd.C05_merge_seq

/-- info: 'Ajd.C05_merge_self' depends on axioms: [propext, Classical.choice, Quot.sound] -/
#guard_msgs (whitespace := lax) in
#print axioms Ajd.C05_merge_self

/-- info: 'Ajd.C06_mulPoly' depends on axioms: [propext, Classical.choice, Quot.sound] -/
#guard_msgs (whitespace := lax) in
#print axioms Ajd.C06_mulPoly

/-- info: 'Ajd.C07_add_guard' depends on axioms: [propext, Classical.choice, Quot.sound] -/
#guard_msgs (whitespace := lax) in
#print axioms Ajd.C07_add_guard

/-- info: 'Ajd.C07_merge_guard' depends on axioms: [propext, Classical.choice, Quot.sound] -/
#guard_msgs (whitespace := lax) in
#print axioms Ajd.C07_merge_guard

/-- info: 'Ajd.C07_sub_guard' depends on axioms: [propext, Classical.choice, Quot.sound] -/
#guard_msgs (whitespace := lax) in
#print axioms Ajd.C07_sub_guard

/-- info: 'Ajd.C07_mul_guard' depends on axioms: [propext, Classical.choice, Quot.sound] -/
#guard_msgs (whitespace := lax) in
#print axioms Ajd.C07_mul_guard

/-- info: 'Ajd.C08_comb' depends on axioms: [propext, Classical.choice, Quot.sound] -/
#guard_msgs (whitespace := lax) in
#print axioms Ajd.C08_comb

/-- info: 'Ajd.C08_comb_overfull' depends on axioms: [propext, Classical.choice, Quot.sound] -/
#guard_msgs (whitespace := lax) in
#print axioms Ajd.C08_comb_overfull

/-- info: 'Ajd.C08_multinomial' depends on axioms: [propext, Classical.choice, Quot.sound] -/
#guard_msgs (whitespace := lax) in
#print axioms Ajd.C08_multinomial

/-- info: 'Ajd.C09_multilevel_index' depends on axioms: [propext, Classical.choice, Quot.sound] -/
#guard_msgs (whitespace := lax) in
#print axioms Ajd.C09_multilevel_index

/-- info: 'Ajd.C09_diverges' depends on axioms: [propext, Quot.sound] -/
#guard_msgs (whitespace := lax) in
#print axioms Ajd.C09_diverges

/-- info: 'Ajd.C10_multilevel_comb' depends on axioms: [propext, Classical.choice, Quot.sound] -/
#guard_msgs (whitespace := lax) in
#print axioms Ajd.C10_multilevel_comb

/-- info: 'Ajd.C10_one_part' depends on axioms: [propext] -/
#guard_msgs (whitespace := lax) in
#print axioms Ajd.C10_one_part

/-- info: 'Ajd.C11_dbfactorial' depends on axioms: [propext, Classical.choice, Quot.sound] -/
#guard_msgs (whitespace := lax) in
#print axioms Ajd.C11_dbfactorial

/-- info: 'Ajd.C11_cmnorm' depends on axioms: [propext, Classical.choice, Quot.sound] -/
#guard_msgs (whitespace := lax) in
#print axioms Ajd.C11_cmnorm

/-- info: 'Ajd.C12_fZ' depends on axioms: [propext, Classical.choice, Quot.sound] -/
#guard_msgs (whitespace := lax) in
#print axioms Ajd.C12_fZ

/-- info: 'Ajd.C12_fZ_each_index' depends on axioms: [propext, Classical.choice, Quot.sound] -/
#guard_msgs (whitespace := lax) in
#print axioms Ajd.C12_fZ_each_index

/-- info: 'Ajd.C13_simplify_rho' depends on axioms: [propext, Classical.choice, Quot.sound] -/
#guard_msgs (whitespace := lax) in
#print axioms Ajd.C13_simplify_rho

/-- info: 'Ajd.C13_odd_raises' depends on axioms: [propext, Classical.choice, Quot.sound] -/
#guard_msgs (whitespace := lax) in
#print axioms Ajd.C13_odd_raises

/-- info: 'Ajd.C13_negative_dropped' depends on axioms: [propext, Classical.choice, Quot.sound] -/
#guard_msgs (whitespace := lax) in
#print axioms Ajd.C13_negative_dropped

/-- info: 'Ajd.C14_int_et' depends on axioms: [propext, Classical.choice, Quot.sound] -/
#guard_msgs (whitespace := lax) in
#print axioms Ajd.C14_int_et

/-- info: 'Ajd.C14_int_et_guard' depends on axioms: [propext, Classical.choice, Quot.sound] -/
#guard_msgs (whitespace := lax) in
#print axioms Ajd.C14_int_et_guard

/-- info: 'Ajd.C15_int_e_poly' depends on axioms: [propext, Classical.choice, Quot.sound] -/
#guard_msgs (whitespace := lax) in
#print axioms Ajd.C15_int_e_poly

/-- info: 'Ajd.C16_moment_IEII' depends on axioms: [propext, Classical.choice, Quot.sound] -/
#guard_msgs (whitespace := lax) in
#print axioms Ajd.C16_moment_IEII

/-- info: 'Ajd.C16_unique' depends on axioms: [propext, Classical.choice, Quot.sound] -/
#guard_msgs (whitespace := lax) in
#print axioms Ajd.C16_unique

/-- info: 'Ajd.C16_outputs_solve' depends on axioms: [propext, Classical.choice, Quot.sound] -/
#guard_msgs (whitespace := lax) in
#print axioms Ajd.C16_outputs_solve

/-- info: 'Ajd.Ito.C16_sde' depends on axioms: [propext, Classical.choice, Quot.sound] -/
#guard_msgs (whitespace := lax) in
#print axioms Ajd.Ito.C16_sde

/-- info: 'Ajd.C17_no_error' depends on axioms: [propext, Classical.choice, Quot.sound] -/
#guard_msgs (whitespace := lax) in
#print axioms Ajd.C17_no_error

/-- info: 'Ajd.C17_negative' depends on axioms: [propext, Classical.choice, Quot.sound] -/
#guard_msgs (whitespace := lax) in
#print axioms Ajd.C17_negative

/-- info: 'Ajd.C17_negative_component' depends on axioms: [propext, Classical.choice, Quot.sound] -/
#guard_msgs (whitespace := lax) in
#print axioms Ajd.C17_negative_component

/-- info: 'Ajd.Sv.C18_stationary' depends on axioms: [propext, Classical.choice, Quot.sound] -/
#guard_msgs (whitespace := lax) in
#print axioms Ajd.Sv.C18_stationary

/-- info: 'Ajd.C18_moment_v' depends on axioms: [propext, Classical.choice, Quot.sound] -/
#guard_msgs (whitespace := lax) in
#print axioms Ajd.C18_moment_v

/-- info: 'Ajd.C18_moment_v_gamma' depends on axioms: [propext, Classical.choice, Quot.sound] -/
#guard_msgs (whitespace := lax) in
#print axioms Ajd.C18_moment_v_gamma

/-- info: 'Ajd.C18_moment_v_negative' depends on axioms: [propext, Classical.choice, Quot.sound] -/
#guard_msgs (whitespace := lax) in
#print axioms Ajd.C18_moment_v_negative

/-- info: 'Ajd.C19_int_et_fZ' depends on axioms: [propext, Classical.choice, Quot.sound] -/
#guard_msgs (whitespace := lax) in
#print axioms Ajd.C19_int_et_fZ

/-- info: 'Ajd.C19_int_et_fZ_guard' depends on axioms: [propext, Classical.choice, Quot.sound] -/
#guard_msgs (whitespace := lax) in
#print axioms Ajd.C19_int_et_fZ_guard

/-- info: 'Ajd.C19_at_last_maximum' depends on axioms: [propext, Classical.choice, Quot.sound] -/
#guard_msgs (whitespace := lax) in
#print axioms Ajd.C19_at_last_maximum

/-- info: 'Ajd.C20_int_e_poly' depends on axioms: [propext, Classical.choice, Quot.sound] -/
#guard_msgs (whitespace := lax) in
#print axioms Ajd.C20_int_e_poly

/-- info: 'Ajd.C20_moment_IEII_partial' depends on axioms: [propext, Classical.choice, Quot.sound] -/
#guard_msgs (whitespace := lax) in
#print axioms Ajd.C20_moment_IEII_partial

/-- info: 'Ajd.C20_moment_IEII_repaired' depends on axioms: [propext, Classical.choice, Quot.sound] -/
#guard_msgs (whitespace := lax) in
#print axioms Ajd.C20_moment_IEII_repaired

/-- info: 'Ajd.C20_unique' depends on axioms: [propext, Classical.choice, Quot.sound] -/
#guard_msgs (whitespace := lax) in
#print axioms Ajd.C20_unique

/-- info: 'Ajd.C20_odd' depends on axioms: [propext, Classical.choice, Quot.sound] -/
#guard_msgs (whitespace := lax) in
#print axioms Ajd.C20_odd

/-- info: 'Ajd.C20_guard' depends on axioms: [propext, Classical.choice, Quot.sound] -/
#guard_msgs (whitespace := lax) in
#print axioms Ajd.C20_guard

/-- info: 'Ajd.C20_moment_IEII_error' depends on axioms: [propext, Classical.choice, Quot.sound] -/
#guard_msgs (whitespace := lax) in
#print axioms Ajd.C20_moment_IEII_error

/-- info: 'Ajd.C20_moment_IEII_wrong' depends on axioms: [propext, Classical.choice, Quot.sound] -/
#guard_msgs (whitespace := lax) in
#print axioms Ajd.C20_moment_IEII_wrong

/-- info: 'Ajd.ItoCond.C20_sde_partial' depends on axioms: [propext, Classical.choice, Quot.sound] -/
#guard_msgs (whitespace := lax) in
#print axioms Ajd.ItoCond.C20_sde_partial

/-- info: 'Ajd.ItoCond.C20_sde_repaired' depends on axioms: [propext, Classical.choice, Quot.sound] -/
#guard_msgs (whitespace := lax) in
#print axioms Ajd.ItoCond.C20_sde_repaired

/-- info: 'Ajd.ItoCond.C20_sde_wrong' depends on axioms: [propext, Classical.choice, Quot.sound] -/
#guard_msgs (whitespace := lax) in
#print axioms Ajd.ItoCond.C20_sde_wrong

/-- info: 'Ajd.ItoCond.C20_sde_law' depends on axioms: [propext, Classical.choice, Quot.sound] -/
#guard_msgs (whitespace := lax) in
#print axioms Ajd.ItoCond.C20_sde_law

/-- info: 'Ajd.C21_int_et_partial' depends on axioms: [propext, Classical.choice, Quot.sound] -/
#guard_msgs (whitespace := lax) in
#print axioms Ajd.C21_int_et_partial

/-- info: 'Ajd.C21_int_et_repaired' depends on axioms: [propext, Classical.choice, Quot.sound] -/
#guard_msgs (whitespace := lax) in
#print axioms Ajd.C21_int_et_repaired

/-- info: 'Ajd.C21_int_et_wrong' depends on axioms: [propext, Classical.choice, Quot.sound] -/
#guard_msgs (whitespace := lax) in
#print axioms Ajd.C21_int_et_wrong

/-- info: 'Ajd.C21_int_et_guard' depends on axioms: [propext, Classical.choice, Quot.sound] -/
#guard_msgs (whitespace := lax) in
#print axioms Ajd.C21_int_et_guard

/-- info: 'Ajd.C22_moment_partial' depends on axioms: [propext, Classical.choice, Quot.sound] -/
#guard_msgs (whitespace := lax) in
#print axioms Ajd.C22_moment_partial

/-- info: 'Ajd.C22_moment_repaired' depends on axioms: [propext, Classical.choice, Quot.sound] -/
#guard_msgs (whitespace := lax) in
#print axioms Ajd.C22_moment_repaired

/-- info: 'Ajd.C22_unique' depends on axioms: [propext, Classical.choice, Quot.sound] -/
#guard_msgs (whitespace := lax) in
#print axioms Ajd.C22_unique

/-- info: 'Ajd.C22_moment_error' depends on axioms: [propext, Classical.choice, Quot.sound] -/
#guard_msgs (whitespace := lax) in
#print axioms Ajd.C22_moment_error

/-- info: 'Ajd.C22_moment_wrong' depends on axioms: [propext, Classical.choice, Quot.sound] -/
#guard_msgs (whitespace := lax) in
#print axioms Ajd.C22_moment_wrong

/-- info: 'Ajd.C22_guard' depends on axioms: [propext, Classical.choice, Quot.sound] -/
#guard_msgs (whitespace := lax) in
#print axioms Ajd.C22_guard

/-- info: 'Ajd.C22_rate_test_matters' depends on axioms: [propext, Classical.choice, Quot.sound] -/
#guard_msgs (whitespace := lax) in
#print axioms Ajd.C22_rate_test_matters

/-- info: 'Ajd.C22_sde_partial' depends on axioms: [propext, Classical.choice, Quot.sound] -/
#guard_msgs (whitespace := lax) in
#print axioms Ajd.C22_sde_partial

/-- info: 'Ajd.C22_sde_repaired' depends on axioms: [propext, Classical.choice, Quot.sound] -/
#guard_msgs (whitespace := lax) in
#print axioms Ajd.C22_sde_repaired

/-- info: 'Ajd.C22_sde_wrong' depends on axioms: [propext, Classical.choice, Quot.sound] -/
#guard_msgs (whitespace := lax) in
#print axioms Ajd.C22_sde_wrong

/-- info: 'Ajd.C22_sde_law' depends on axioms: [propext, Classical.choice, Quot.sound] -/
#guard_msgs (whitespace := lax) in
#print axioms Ajd.C22_sde_law

/-- info: 'Ajd.C23_mnorm' depends on axioms: [propext, Classical.choice, Quot.sound] -/
#guard_msgs (whitespace := lax) in
#print axioms Ajd.C23_mnorm

/-- info: 'Ajd.C23_mnorm_negative' depends on axioms: [propext, Classical.choice, Quot.sound] -/
#guard_msgs (whitespace := lax) in
#print axioms Ajd.C23_mnorm_negative

/-- info: 'Ajd.C24_mcpp' depends on axioms: [propext, Classical.choice, Quot.sound] -/
#guard_msgs (whitespace := lax) in
#print axioms Ajd.C24_mcpp

/-- info: 'Ajd.C24_mcpp_original' depends on axioms: [propext, Classical.choice, Quot.sound] -/
#guard_msgs (whitespace := lax) in
#print axioms Ajd.C24_mcpp_original

/-- info: 'Ajd.C24_mcpp_negative' depends on axioms: [propext, Classical.choice, Quot.sound] -/
#guard_msgs (whitespace := lax) in
#print axioms Ajd.C24_mcpp_negative

/-- info: 'Ajd.C25_cmcpp' depends on axioms: [propext, Classical.choice, Quot.sound] -/
#guard_msgs (whitespace := lax) in
#print axioms Ajd.C25_cmcpp

/-- info: 'Ajd.C25_cmcpp_negative' depends on axioms: [propext, Classical.choice, Quot.sound] -/
#guard_msgs (whitespace := lax) in
#print axioms Ajd.C25_cmcpp_negative

/-- info: 'Ajd.Fsv1.C26_cm' depends on axioms: [propext, Classical.choice, Quot.sound] -/
#guard_msgs (whitespace := lax) in
#print axioms Ajd.Fsv1.C26_cm

/-- info: 'Ajd.Fsv1.C26_m' depends on axioms: [propext, Classical.choice, Quot.sound] -/
#guard_msgs (whitespace := lax) in
#print axioms Ajd.Fsv1.C26_m

/-- info: 'Ajd.Fsv1.C26_keys' depends on axioms: [propext, Classical.choice, Quot.sound] -/
#guard_msgs (whitespace := lax) in
#print axioms Ajd.Fsv1.C26_keys

/-- info: 'Ajd.Sv.C26_m_sde' depends on axioms: [propext, Classical.choice, Quot.sound] -/
#guard_msgs (whitespace := lax) in
#print axioms Ajd.Sv.C26_m_sde

/-- info: 'Ajd.Sv.C26_cm_sde' depends on axioms: [propext, Classical.choice, Quot.sound] -/
#guard_msgs (whitespace := lax) in
#print axioms Ajd.Sv.C26_cm_sde

/-- info: 'Ajd.Fsv1.C27_cov' depends on axioms: [propext, Classical.choice, Quot.sound] -/
#guard_msgs (whitespace := lax) in
#print axioms Ajd.Fsv1.C27_cov

/-- info: 'Ajd.Fsv1.C27_condPoly' depends on axioms: [propext, Classical.choice, Quot.sound] -/
#guard_msgs (whitespace := lax) in
#print axioms Ajd.Fsv1.C27_condPoly

/-- info: 'Ajd.Sv.C27_cov_sde' depends on axioms: [propext, Classical.choice, Quot.sound] -/
#guard_msgs (whitespace := lax) in
#print axioms Ajd.Sv.C27_cov_sde

/-- info: 'Ajd.Fsv1.C28_deriv' depends on axioms: [propext, Classical.choice, Quot.sound] -/
#guard_msgs (whitespace := lax) in
#print axioms Ajd.Fsv1.C28_deriv

/-- info: 'Ajd.Fsv1.C28_error' depends on axioms: [propext, Classical.choice, Quot.sound] -/
#guard_msgs (whitespace := lax) in
#print axioms Ajd.Fsv1.C28_error

/-- info: 'Ajd.Fsv1.C28_dpoly' depends on axioms: [propext, Classical.choice, Quot.sound] -/
#guard_msgs (whitespace := lax) in
#print axioms Ajd.Fsv1.C28_dpoly

/-- info: 'Ajd.Fsv1c.C29_cmoments' depends on axioms: [propext, Classical.choice, Quot.sound] -/
#guard_msgs (whitespace := lax) in
#print axioms Ajd.Fsv1c.C29_cmoments

/-- info: 'Ajd.Fsv1c.C29_cond_cm' depends on axioms: [propext, Classical.choice, Quot.sound] -/
#guard_msgs (whitespace := lax) in
#print axioms Ajd.Fsv1c.C29_cond_cm

/-- info: 'Ajd.Fsv1c.C29_simplify' depends on axioms: [propext, Classical.choice, Quot.sound] -/
#guard_msgs (whitespace := lax) in
#print axioms Ajd.Fsv1c.C29_simplify

/-- info: 'Ajd.Fsv1c.C29_simplify_error' depends on axioms: [propext, Classical.choice, Quot.sound] -/
#guard_msgs (whitespace := lax) in
#print axioms Ajd.Fsv1c.C29_simplify_error

/-- info: 'Ajd.Fsv1c.C29_cond_cm_zero' depends on axioms: [propext, Classical.choice, Quot.sound] -/
#guard_msgs (whitespace := lax) in
#print axioms Ajd.Fsv1c.C29_cond_cm_zero

/-- info: 'Ajd.Sv.C29_cond_cm_sde' depends on axioms: [propext, Classical.choice, Quot.sound] -/
#guard_msgs (whitespace := lax) in
#print axioms Ajd.Sv.C29_cond_cm_sde

/-- info: 'Ajd.Fsv1j.C30_m' depends on axioms: [propext, Classical.choice, Quot.sound] -/
#guard_msgs (whitespace := lax) in
#print axioms Ajd.Fsv1j.C30_m

/-- info: 'Ajd.Fsv1j.C30_cm' depends on axioms: [propext, Classical.choice, Quot.sound] -/
#guard_msgs (whitespace := lax) in
#print axioms Ajd.Fsv1j.C30_cm

/-- info: 'Ajd.Fsv1j.C30_cov' depends on axioms: [propext, Classical.choice, Quot.sound] -/
#guard_msgs (whitespace := lax) in
#print axioms Ajd.Fsv1j.C30_cov

/-- info: 'Ajd.Fsv1j.C30_condPoly' depends on axioms: [propext, Classical.choice, Quot.sound] -/
#guard_msgs (whitespace := lax) in
#print axioms Ajd.Fsv1j.C30_condPoly

/-- info: 'Ajd.Fsv1j.C30_keys' depends on axioms: [propext, Classical.choice, Quot.sound] -/
#guard_msgs (whitespace := lax) in
#print axioms Ajd.Fsv1j.C30_keys

/-- info: 'Ajd.Sv.C30_m_sde' depends on axioms: [propext, Classical.choice, Quot.sound] -/
#guard_msgs (whitespace := lax) in
#print axioms Ajd.Sv.C30_m_sde

/-- info: 'Ajd.Sv.C30_cm_sde' depends on axioms: [propext, Classical.choice, Quot.sound] -/
#guard_msgs (whitespace := lax) in
#print axioms Ajd.Sv.C30_cm_sde

/-- info: 'Ajd.Sv.C30_cov_sde' depends on axioms: [propext, Classical.choice, Quot.sound] -/
#guard_msgs (whitespace := lax) in
#print axioms Ajd.Sv.C30_cov_sde

/-- info: 'Ajd.Fsv2.C31_m' depends on axioms: [propext, Classical.choice, Quot.sound] -/
#guard_msgs (whitespace := lax) in
#print axioms Ajd.Fsv2.C31_m

/-- info: 'Ajd.Fsv2.C31_cm' depends on axioms: [propext, Classical.choice, Quot.sound] -/
#guard_msgs (whitespace := lax) in
#print axioms Ajd.Fsv2.C31_cm

/-- info: 'Ajd.Fsv2.C31_cov' depends on axioms: [propext, Classical.choice, Quot.sound] -/
#guard_msgs (whitespace := lax) in
#print axioms Ajd.Fsv2.C31_cov

/-- info: 'Ajd.Fsv2.C31_condPoly' depends on axioms: [propext, Classical.choice, Quot.sound] -/
#guard_msgs (whitespace := lax) in
#print axioms Ajd.Fsv2.C31_condPoly

/-- info: 'Ajd.Fsv2.C31_keys' depends on axioms: [propext, Classical.choice, Quot.sound] -/
#guard_msgs (whitespace := lax) in
#print axioms Ajd.Fsv2.C31_keys

/-- info: 'Ajd.Fsv2.C32_deriv' depends on axioms: [propext, Classical.choice, Quot.sound] -/
#guard_msgs (whitespace := lax) in
#print axioms Ajd.Fsv2.C32_deriv

/-- info: 'Ajd.Fsv2.C32_deriv_ok' depends on axioms: [propext, Classical.choice, Quot.sound] -/
#guard_msgs (whitespace := lax) in
#print axioms Ajd.Fsv2.C32_deriv_ok

/-- info: 'Ajd.Fsv2.C32_error' depends on axioms: [propext, Classical.choice, Quot.sound] -/
#guard_msgs (whitespace := lax) in
#print axioms Ajd.Fsv2.C32_error

/-- info: 'Ajd.Fsv2.C32_dpoly' depends on axioms: [propext, Classical.choice, Quot.sound] -/
#guard_msgs (whitespace := lax) in
#print axioms Ajd.Fsv2.C32_dpoly

/-- info: 'Ajd.Fsv2j.C33_m' depends on axioms: [propext, Classical.choice, Quot.sound] -/
#guard_msgs (whitespace := lax) in
#print axioms Ajd.Fsv2j.C33_m

/-- info: 'Ajd.Fsv2j.C33_cm' depends on axioms: [propext, Classical.choice, Quot.sound] -/
#guard_msgs (whitespace := lax) in
#print axioms Ajd.Fsv2j.C33_cm

/-- info: 'Ajd.Fsv2j.C33_cov' depends on axioms: [propext, Classical.choice, Quot.sound] -/
#guard_msgs (whitespace := lax) in
#print axioms Ajd.Fsv2j.C33_cov

/-- info: 'Ajd.Fsv2j.C33_condPoly' depends on axioms: [propext, Classical.choice, Quot.sound] -/
#guard_msgs (whitespace := lax) in
#print axioms Ajd.Fsv2j.C33_condPoly

/-- info: 'Ajd.Fsv2j.C33_keys' depends on axioms: [propext, Classical.choice, Quot.sound] -/
#guard_msgs (whitespace := lax) in
#print axioms Ajd.Fsv2j.C33_keys

/-- info: 'Ajd.Srjd.C34_moment_IEZ' depends on axioms: [propext, Classical.choice, Quot.sound] -/
#guard_msgs (whitespace := lax) in
#print axioms Ajd.Srjd.C34_moment_IEZ

/-- info: 'Ajd.Srjd.C34_cmoment_IEZ' depends on axioms: [propext, Classical.choice, Quot.sound] -/
#guard_msgs (whitespace := lax) in
#print axioms Ajd.Srjd.C34_cmoment_IEZ

/-- info: 'Ajd.Srjd.C34_negative' depends on axioms: [propext, Classical.choice, Quot.sound] -/
#guard_msgs (whitespace := lax) in
#print axioms Ajd.Srjd.C34_negative

/-- info: 'Ajd.Srjd.C34_m' depends on axioms: [propext, Classical.choice, Quot.sound] -/
#guard_msgs (whitespace := lax) in
#print axioms Ajd.Srjd.C34_m

/-- info: 'Ajd.Srjd.C34_cm_raises' depends on axioms: [propext, Classical.choice, Quot.sound] -/
#guard_msgs (whitespace := lax) in
#print axioms Ajd.Srjd.C34_cm_raises

/-- info: 'Ajd.Srjd.C34_law' depends on axioms: [propext, Classical.choice, Quot.sound] -/
#guard_msgs (whitespace := lax) in
#print axioms Ajd.Srjd.C34_law

/-- info: 'Ajd.Srjd.C35_moment_ie_iez_sde' depends on axioms: [propext, Classical.choice, Quot.sound] -/
#guard_msgs (whitespace := lax) in
#print axioms Ajd.Srjd.C35_moment_ie_iez_sde

/-- info: 'Ajd.Srjd.C35_cmoment_ie_iez_sde' depends on axioms: [propext, Classical.choice, Quot.sound] -/
#guard_msgs (whitespace := lax) in
#print axioms Ajd.Srjd.C35_cmoment_ie_iez_sde

/-- info: 'Ajd.Srjd.C35_sde_law' depends on axioms: [propext, Classical.choice, Quot.sound] -/
#guard_msgs (whitespace := lax) in
#print axioms Ajd.Srjd.C35_sde_law

/-- info: 'Ajd.Srjd.C35_moment_ie_iez_partial' depends on axioms: [propext, Classical.choice, Quot.sound] -/
#guard_msgs (whitespace := lax) in
#print axioms Ajd.Srjd.C35_moment_ie_iez_partial

/-- info: 'Ajd.Srjd.C35_cmoment_ie_iez_partial' depends on axioms: [propext, Classical.choice, Quot.sound] -/
#guard_msgs (whitespace := lax) in
#print axioms Ajd.Srjd.C35_cmoment_ie_iez_partial

/-- info: 'Ajd.Srjd.C35_moment_ie' depends on axioms: [propext, Classical.choice, Quot.sound] -/
#guard_msgs (whitespace := lax) in
#print axioms Ajd.Srjd.C35_moment_ie

/-- info: 'Ajd.Srjd.C35_keyfor_violated' depends on axioms: [propext, Classical.choice, Quot.sound] -/
#guard_msgs (whitespace := lax) in
#print axioms Ajd.Srjd.C35_keyfor_violated

/-- info: 'Ajd.Srjd.C35_negative' depends on axioms: [propext, Classical.choice, Quot.sound] -/
#guard_msgs (whitespace := lax) in
#print axioms Ajd.Srjd.C35_negative

/-- info: 'Ajd.Srjd.C35_spec_second' depends on axioms: [propext, Classical.choice, Quot.sound] -/
#guard_msgs (whitespace := lax) in
#print axioms Ajd.Srjd.C35_spec_second

/-- info: 'Ajd.Srjd.C36_moment_x' depends on axioms: [propext, Classical.choice, Quot.sound] -/
#guard_msgs (whitespace := lax) in
#print axioms Ajd.Srjd.C36_moment_x

/-- info: 'Ajd.Srjd.C36_moment_v' depends on axioms: [propext, Classical.choice, Quot.sound] -/
#guard_msgs (whitespace := lax) in
#print axioms Ajd.Srjd.C36_moment_v

/-- info: 'Ajd.Srjd.C36_cmoment_x' depends on axioms: [propext, Classical.choice, Quot.sound] -/
#guard_msgs (whitespace := lax) in
#print axioms Ajd.Srjd.C36_cmoment_x

/-- info: 'Ajd.Srjd.C36_cmoment_v' depends on axioms: [propext, Classical.choice, Quot.sound] -/
#guard_msgs (whitespace := lax) in
#print axioms Ajd.Srjd.C36_cmoment_v

/-- info: 'Ajd.Srjd.C36_negative' depends on axioms: [propext, Classical.choice, Quot.sound] -/
#guard_msgs (whitespace := lax) in
#print axioms Ajd.Srjd.C36_negative

/-- info: 'Ajd.SrjdJ.C37_moment_v_sde' depends on axioms: [propext, Classical.choice, Quot.sound] -/
#guard_msgs (whitespace := lax) in
#print axioms Ajd.SrjdJ.C37_moment_v_sde

/-- info: 'Ajd.SrjdJ.C37_cmoment_v_sde' depends on axioms: [propext, Classical.choice, Quot.sound] -/
#guard_msgs (whitespace := lax) in
#print axioms Ajd.SrjdJ.C37_cmoment_v_sde

/-- info: 'Ajd.SrjdJ.C37_sde' depends on axioms: [propext, Classical.choice, Quot.sound] -/
#guard_msgs (whitespace := lax) in
#print axioms Ajd.SrjdJ.C37_sde

/-- info: 'Ajd.SrjdJ.C37_law' depends on axioms: [propext, Classical.choice, Quot.sound] -/
#guard_msgs (whitespace := lax) in
#print axioms Ajd.SrjdJ.C37_law

/-- info: 'Ajd.SrjdJ.C37_moment_IE' depends on axioms: [propext, Classical.choice, Quot.sound] -/
#guard_msgs (whitespace := lax) in
#print axioms Ajd.SrjdJ.C37_moment_IE

/-- info: 'Ajd.SrjdJ.C37_moment_v' depends on axioms: [propext, Classical.choice, Quot.sound] -/
#guard_msgs (whitespace := lax) in
#print axioms Ajd.SrjdJ.C37_moment_v

/-- info: 'Ajd.SrjdJ.C37_cmoment_v' depends on axioms: [propext, Classical.choice, Quot.sound] -/
#guard_msgs (whitespace := lax) in
#print axioms Ajd.SrjdJ.C37_cmoment_v

/-- info: 'Ajd.SrjdJ.C37_fZ' depends on axioms: [propext, Classical.choice, Quot.sound] -/
#guard_msgs (whitespace := lax) in
#print axioms Ajd.SrjdJ.C37_fZ

/-- info: 'Ajd.SrjdJ.C37_m' depends on axioms: [propext, Classical.choice, Quot.sound] -/
#guard_msgs (whitespace := lax) in
#print axioms Ajd.SrjdJ.C37_m

/-- info: 'Ajd.SrjdJ.C37_cm' depends on axioms: [propext, Classical.choice, Quot.sound] -/
#guard_msgs (whitespace := lax) in
#print axioms Ajd.SrjdJ.C37_cm

/-- info: 'Ajd.SrjdJ.C37_recursion' depends on axioms: [propext, Classical.choice, Quot.sound] -/
#guard_msgs (whitespace := lax) in
#print axioms Ajd.SrjdJ.C37_recursion

/-- info: 'Ajd.SrjdJ.C37_negative' depends on axioms: [propext, Classical.choice, Quot.sound] -/
#guard_msgs (whitespace := lax) in
#print axioms Ajd.SrjdJ.C37_negative

/-- info: 'Ajd.Svvj.C38_cm_sde_partial' depends on axioms: [propext, Classical.choice, Quot.sound] -/
#guard_msgs (whitespace := lax) in
#print axioms Ajd.Svvj.C38_cm_sde_partial

/-- info: 'Ajd.Svvj.C38_m_sde_partial' depends on axioms: [propext, Classical.choice, Quot.sound] -/
#guard_msgs (whitespace := lax) in
#print axioms Ajd.Svvj.C38_m_sde_partial

/-- info: 'Ajd.Svvj.C38_cm_sde_wrong' depends on axioms: [propext, Classical.choice, Quot.sound] -/
#guard_msgs (whitespace := lax) in
#print axioms Ajd.Svvj.C38_cm_sde_wrong

/-- info: 'Ajd.Svvj.C38_sde_repaired' depends on axioms: [propext, Classical.choice, Quot.sound] -/
#guard_msgs (whitespace := lax) in
#print axioms Ajd.Svvj.C38_sde_repaired

/-- info: 'Ajd.Svvj.C38_law' depends on axioms: [propext, Classical.choice, Quot.sound] -/
#guard_msgs (whitespace := lax) in
#print axioms Ajd.Svvj.C38_law

/-- info: 'Ajd.Svvj.C38_cmoments_partial' depends on axioms: [propext, Classical.choice, Quot.sound] -/
#guard_msgs (whitespace := lax) in
#print axioms Ajd.Svvj.C38_cmoments_partial

/-- info: 'Ajd.Svvj.C38_cmoments_repaired' depends on axioms: [propext, Classical.choice, Quot.sound] -/
#guard_msgs (whitespace := lax) in
#print axioms Ajd.Svvj.C38_cmoments_repaired

/-- info: 'Ajd.Svvj.C38_cm_partial' depends on axioms: [propext, Classical.choice, Quot.sound] -/
#guard_msgs (whitespace := lax) in
#print axioms Ajd.Svvj.C38_cm_partial

/-- info: 'Ajd.Svvj.C38_cm_zero' depends on axioms: [propext, Classical.choice, Quot.sound] -/
#guard_msgs (whitespace := lax) in
#print axioms Ajd.Svvj.C38_cm_zero

/-- info: 'Ajd.Svvj.C38_cm_wrong' depends on axioms: [propext, Classical.choice, Quot.sound] -/
#guard_msgs (whitespace := lax) in
#print axioms Ajd.Svvj.C38_cm_wrong

/-- info: 'Ajd.Svvj.C38_simplify' depends on axioms: [propext, Classical.choice, Quot.sound] -/
#guard_msgs (whitespace := lax) in
#print axioms Ajd.Svvj.C38_simplify

/-- info: 'Ajd.Svvj.C38_moments_partial' depends on axioms: [propext, Classical.choice, Quot.sound] -/
#guard_msgs (whitespace := lax) in
#print axioms Ajd.Svvj.C38_moments_partial

/-- info: 'Ajd.Svvj.C38_moments_repaired' depends on axioms: [propext, Classical.choice, Quot.sound] -/
#guard_msgs (whitespace := lax) in
#print axioms Ajd.Svvj.C38_moments_repaired

/-- info: 'Ajd.Svvj.C38_m_partial' depends on axioms: [propext, Classical.choice, Quot.sound] -/
#guard_msgs (whitespace := lax) in
#print axioms Ajd.Svvj.C38_m_partial

/-- info: 'Ajd.Svvj.C39_classify_partial' depends on axioms: [propext, Classical.choice, Quot.sound] -/
#guard_msgs (whitespace := lax) in
#print axioms Ajd.Svvj.C39_classify_partial

/-- info: 'Ajd.Svvj.C39_keys_apart' depends on axioms: [propext] -/
#guard_msgs (whitespace := lax) in
#print axioms Ajd.Svvj.C39_keys_apart

/-- info: 'Ajd.Svvj.C39_classify_error' depends on axioms: [propext, Classical.choice, Quot.sound] -/
#guard_msgs (whitespace := lax) in
#print axioms Ajd.Svvj.C39_classify_error

/-- info: 'Ajd.Svvj.C39_classify_violated' depends on axioms: [propext, Classical.choice, Quot.sound] -/
#guard_msgs (whitespace := lax) in
#print axioms Ajd.Svvj.C39_classify_violated

/-- info: 'Ajd.Svij.C40_cmoments' depends on axioms: [propext, Classical.choice, Quot.sound] -/
#guard_msgs (whitespace := lax) in
#print axioms Ajd.Svij.C40_cmoments

/-- info: 'Ajd.Svij.C40_moments' depends on axioms: [propext, Classical.choice, Quot.sound] -/
#guard_msgs (whitespace := lax) in
#print axioms Ajd.Svij.C40_moments

/-- info: 'Ajd.Svcj.C41_moment_IZs' depends on axioms: [propext, Classical.choice, Quot.sound] -/
#guard_msgs (whitespace := lax) in
#print axioms Ajd.Svcj.C41_moment_IZs

/-- info: 'Ajd.Svcj.C41_cmoment_IZs' depends on axioms: [propext, Classical.choice, Quot.sound] -/
#guard_msgs (whitespace := lax) in
#print axioms Ajd.Svcj.C41_cmoment_IZs

/-- info: 'Ajd.Svcj.C41_law' depends on axioms: [propext, Classical.choice, Quot.sound] -/
#guard_msgs (whitespace := lax) in
#print axioms Ajd.Svcj.C41_law

/-- info: 'Ajd.C42_moment_ieziziz' depends on axioms: [propext, Classical.choice, Quot.sound] -/
#guard_msgs (whitespace := lax) in
#print axioms Ajd.C42_moment_ieziziz

/-- info: 'Ajd.C42_m_ieziziz' depends on axioms: [propext, Classical.choice, Quot.sound] -/
#guard_msgs (whitespace := lax) in
#print axioms Ajd.C42_m_ieziziz

/-- info: 'Ajd.C42_negative' depends on axioms: [propext, Classical.choice, Quot.sound] -/
#guard_msgs (whitespace := lax) in
#print axioms Ajd.C42_negative

/-- info: 'Ajd.SvcjI.C43_expectation' depends on axioms: [propext, Classical.choice, Quot.sound] -/
#guard_msgs (whitespace := lax) in
#print axioms Ajd.SvcjI.C43_expectation

/-- info: 'Ajd.SvcjI.C43_m_ieii_ieziziz' depends on axioms: [propext, Classical.choice, Quot.sound] -/
#guard_msgs (whitespace := lax) in
#print axioms Ajd.SvcjI.C43_m_ieii_ieziziz

/-- info: 'Ajd.SvcjI.C43_m_ieii_ieziziz_error' depends on axioms: [propext, Classical.choice, Quot.sound] -/
#guard_msgs (whitespace := lax) in
#print axioms Ajd.SvcjI.C43_m_ieii_ieziziz_error

/-- info: 'Ajd.SvcjI.C43_m_y' depends on axioms: [propext, Classical.choice, Quot.sound] -/
#guard_msgs (whitespace := lax) in
#print axioms Ajd.SvcjI.C43_m_y

/-- info: 'Ajd.SvcjI.C43_cm_y_cond' depends on axioms: [propext, Classical.choice, Quot.sound] -/
#guard_msgs (whitespace := lax) in
#print axioms Ajd.SvcjI.C43_cm_y_cond

/-- info: 'Ajd.SvcjI.C43_mean' depends on axioms: [propext, Classical.choice, Quot.sound] -/
#guard_msgs (whitespace := lax) in
#print axioms Ajd.SvcjI.C43_mean

/-- info: 'Ajd.SvcjI.C43_unm_y' depends on axioms: [propext, Classical.choice, Quot.sound] -/
#guard_msgs (whitespace := lax) in
#print axioms Ajd.SvcjI.C43_unm_y

/-- info: 'Ajd.SvcjI.C43_cm_y' depends on axioms: [propext, Classical.choice, Quot.sound] -/
#guard_msgs (whitespace := lax) in
#print axioms Ajd.SvcjI.C43_cm_y

/-- info: 'Ajd.SvcjI.C43_remove_mu' depends on axioms: [propext, Classical.choice, Quot.sound] -/
#guard_msgs (whitespace := lax) in
#print axioms Ajd.SvcjI.C43_remove_mu

/-- info: 'Ajd.SvcjI.C43_no_mu' depends on axioms: [propext, Classical.choice, Quot.sound] -/
#guard_msgs (whitespace := lax) in
#print axioms Ajd.SvcjI.C43_no_mu

/-- info: 'Ajd.SvcjI.C43_error' depends on axioms: [propext, Classical.choice, Quot.sound] -/
#guard_msgs (whitespace := lax) in
#print axioms Ajd.SvcjI.C43_error

/-- info: 'Ajd.Writer.C44_csv_flat_partial' depends on axioms: [propext, Classical.choice, Quot.sound] -/
#guard_msgs (whitespace := lax) in
#print axioms Ajd.Writer.C44_csv_flat_partial

/-- info: 'Ajd.Writer.C44_csv_flat_injective' depends on axioms: [propext, Classical.choice, Quot.sound] -/
#guard_msgs (whitespace := lax) in
#print axioms Ajd.Writer.C44_csv_flat_injective

/-- info: 'Ajd.Writer.C44_csv_svvj_partial' depends on axioms: [propext, Classical.choice, Quot.sound] -/
#guard_msgs (whitespace := lax) in
#print axioms Ajd.Writer.C44_csv_svvj_partial

/-- info: 'Ajd.Writer.C44_csv_level0_wrong' depends on axioms: [propext, Classical.choice, Quot.sound] -/
#guard_msgs (whitespace := lax) in
#print axioms Ajd.Writer.C44_csv_level0_wrong

/-- info: 'Ajd.Writer.C44_csv_srjd_wrong' depends on axioms: [propext, Classical.choice, Quot.sound] -/
#guard_msgs (whitespace := lax) in
#print axioms Ajd.Writer.C44_csv_srjd_wrong

/-- info: 'Ajd.Writer.C44_csv_mixed' depends on axioms: [propext, Classical.choice, Quot.sound] -/
#guard_msgs (whitespace := lax) in
#print axioms Ajd.Writer.C44_csv_mixed

/-- info: 'Ajd.Writer.C44_csv_empty' depends on axioms: [propext, Classical.choice, Quot.sound] -/
#guard_msgs (whitespace := lax) in
#print axioms Ajd.Writer.C44_csv_empty

/-- info: 'Ajd.Writer.C44_csv_2fsv_wrong' depends on axioms: [propext, Classical.choice, Quot.sound] -/
#guard_msgs (whitespace := lax) in
#print axioms Ajd.Writer.C44_csv_2fsv_wrong

/-- info: 'Ajd.Writer.C44_txt_injective' depends on axioms: [propext, Classical.choice, Quot.sound] -/
#guard_msgs (whitespace := lax) in
#print axioms Ajd.Writer.C44_txt_injective

/-- info: 'Ajd.Writer.C44_filename' depends on axioms: [propext, Classical.choice, Quot.sound] -/
#guard_msgs (whitespace := lax) in
#print axioms Ajd.Writer.C44_filename

/-- info: 'Ajd.Euler.C45_variance_nonneg' depends on axioms: [propext, Classical.choice, Quot.sound] -/
#guard_msgs (whitespace := lax) in
#print axioms Ajd.Euler.C45_variance_nonneg

/-- info: 'Ajd.Euler.C45_1fsv' depends on axioms: [propext, Classical.choice, Quot.sound] -/
#guard_msgs (whitespace := lax) in
#print axioms Ajd.Euler.C45_1fsv

/-- info: 'Ajd.Euler.C45_1fsv_iid' depends on axioms: [propext, Classical.choice, Quot.sound] -/
#guard_msgs (whitespace := lax) in
#print axioms Ajd.Euler.C45_1fsv_iid

/-- info: 'Ajd.Euler.C45_1fsvj' depends on axioms: [propext, Classical.choice, Quot.sound] -/
#guard_msgs (whitespace := lax) in
#print axioms Ajd.Euler.C45_1fsvj

/-- info: 'Ajd.Euler.C45_2fsv' depends on axioms: [propext, Classical.choice, Quot.sound] -/
#guard_msgs (whitespace := lax) in
#print axioms Ajd.Euler.C45_2fsv

/-- info: 'Ajd.Euler.C45_2fsvj' depends on axioms: [propext, Classical.choice, Quot.sound] -/
#guard_msgs (whitespace := lax) in
#print axioms Ajd.Euler.C45_2fsvj

/-- info: 'Ajd.Euler.C45_svvj' depends on axioms: [propext, Classical.choice, Quot.sound] -/
#guard_msgs (whitespace := lax) in
#print axioms Ajd.Euler.C45_svvj

/-- info: 'Ajd.Euler.C45_svvj_nonneg' depends on axioms: [propext, Classical.choice, Quot.sound] -/
#guard_msgs (whitespace := lax) in
#print axioms Ajd.Euler.C45_svvj_nonneg

/-- info: 'Ajd.Euler.C45_svij' depends on axioms: [propext, Classical.choice, Quot.sound] -/
#guard_msgs (whitespace := lax) in
#print axioms Ajd.Euler.C45_svij

/-- info: 'Ajd.Euler.C45_svcj' depends on axioms: [propext, Classical.choice, Quot.sound] -/
#guard_msgs (whitespace := lax) in
#print axioms Ajd.Euler.C45_svcj

/-- info: 'Ajd.Euler.C45_srjd_partial' depends on axioms: [propext, Classical.choice, Quot.sound] -/
#guard_msgs (whitespace := lax) in
#print axioms Ajd.Euler.C45_srjd_partial

/-- info: 'Ajd.Euler.C45_srjd_simultaneous' depends on axioms: [propext, Classical.choice, Quot.sound] -/
#guard_msgs (whitespace := lax) in
#print axioms Ajd.Euler.C45_srjd_simultaneous

/-- info: 'Ajd.Euler.C45_1fsv_negative' depends on axioms: [propext, Classical.choice, Quot.sound] -/
#guard_msgs (whitespace := lax) in
#print axioms Ajd.Euler.C45_1fsv_negative

/-- info: 'Ajd.C46_keys_partial' depends on axioms: [propext, Classical.choice, Quot.sound] -/
#guard_msgs (whitespace := lax) in
#print axioms Ajd.C46_keys_partial

/-- info: 'Ajd.C46_keylen_violated' depends on axioms: [propext, Classical.choice, Quot.sound] -/
#guard_msgs (whitespace := lax) in
#print axioms Ajd.C46_keylen_violated

/-- info: 'Ajd.Fsv1j.C47_deriv' depends on axioms: [propext, Classical.choice, Quot.sound] -/
#guard_msgs (whitespace := lax) in
#print axioms Ajd.Fsv1j.C47_deriv

/-- info: 'Ajd.Fsv1j.C47_error' depends on axioms: [propext, Classical.choice, Quot.sound] -/
#guard_msgs (whitespace := lax) in
#print axioms Ajd.Fsv1j.C47_error

/-- info: 'Ajd.Svij.C48_cm_sde_partial' depends on axioms: [propext, Classical.choice, Quot.sound] -/
#guard_msgs (whitespace := lax) in
#print axioms Ajd.Svij.C48_cm_sde_partial

/-- info: 'Ajd.Svij.C48_m_sde_partial' depends on axioms: [propext, Classical.choice, Quot.sound] -/
#guard_msgs (whitespace := lax) in
#print axioms Ajd.Svij.C48_m_sde_partial

/-- info: 'Ajd.Svij.C48_cm_sde_wrong' depends on axioms: [propext, Classical.choice, Quot.sound] -/
#guard_msgs (whitespace := lax) in
#print axioms Ajd.Svij.C48_cm_sde_wrong

/-- info: 'Ajd.Svij.C48_sde_repaired' depends on axioms: [propext, Classical.choice, Quot.sound] -/
#guard_msgs (whitespace := lax) in
#print axioms Ajd.Svij.C48_sde_repaired

/-- info: 'Ajd.Svij.C48_cm_partial' depends on axioms: [propext, Classical.choice, Quot.sound] -/
#guard_msgs (whitespace := lax) in
#print axioms Ajd.Svij.C48_cm_partial

/-- info: 'Ajd.Svij.C48_m_partial' depends on axioms: [propext, Classical.choice, Quot.sound] -/
#guard_msgs (whitespace := lax) in
#print axioms Ajd.Svij.C48_m_partial

/-- info: 'Ajd.Svij.C48_repaired' depends on axioms: [propext, Classical.choice, Quot.sound] -/
#guard_msgs (whitespace := lax) in
#print axioms Ajd.Svij.C48_repaired

/-- info: 'Ajd.Svij.C48_cm_wrong' depends on axioms: [propext, Classical.choice, Quot.sound] -/
#guard_msgs (whitespace := lax) in
#print axioms Ajd.Svij.C48_cm_wrong

/-- info: 'Ajd.Svij.C48_cm_zero' depends on axioms: [propext, Classical.choice, Quot.sound] -/
#guard_msgs (whitespace := lax) in
#print axioms Ajd.Svij.C48_cm_zero

/-- info: 'Ajd.Svcj.C49_cm_sde_partial' depends on axioms: [propext, Classical.choice, Quot.sound] -/
#guard_msgs (whitespace := lax) in
#print axioms Ajd.Svcj.C49_cm_sde_partial

/-- info: 'Ajd.Svcj.C49_m_sde_partial' depends on axioms: [propext, Classical.choice, Quot.sound] -/
#guard_msgs (whitespace := lax) in
#print axioms Ajd.Svcj.C49_m_sde_partial

/-- info: 'Ajd.Svcj.C49_cm_sde_wrong' depends on axioms: [propext, Classical.choice, Quot.sound] -/
#guard_msgs (whitespace := lax) in
#print axioms Ajd.Svcj.C49_cm_sde_wrong

/-- info: 'Ajd.Svcj.C49_sde_repaired' depends on axioms: [propext, Classical.choice, Quot.sound] -/
#guard_msgs (whitespace := lax) in
#print axioms Ajd.Svcj.C49_sde_repaired

/-- info: 'Ajd.Svcj.C49_cm_partial' depends on axioms: [propext, Classical.choice, Quot.sound] -/
#guard_msgs (whitespace := lax) in
#print axioms Ajd.Svcj.C49_cm_partial

/-- info: 'Ajd.Svcj.C49_m_partial' depends on axioms: [propext, Classical.choice, Quot.sound] -/
#guard_msgs (whitespace := lax) in
#print axioms Ajd.Svcj.C49_m_partial

/-- info: 'Ajd.Svcj.C49_repaired' depends on axioms: [propext, Classical.choice, Quot.sound] -/
#guard_msgs (whitespace := lax) in
#print axioms Ajd.Svcj.C49_repaired

/-- info: 'Ajd.Svcj.C49_cm_wrong' depends on axioms: [propext, Classical.choice, Quot.sound] -/
#guard_msgs (whitespace := lax) in
#print axioms Ajd.Svcj.C49_cm_wrong

/-- info: 'Ajd.Svcj.C49_cm_zero' depends on axioms: [propext, Classical.choice, Quot.sound] -/
#guard_msgs (whitespace := lax) in
#print axioms Ajd.Svcj.C49_cm_zero

/-- info: 'Ajd.Svcj.C49_m_zero' depends on axioms: [propext, Classical.choice, Quot.sound] -/
#guard_msgs (whitespace := lax) in
#print axioms Ajd.Svcj.C49_m_zero

/-- info: 'Ajd.Srjd.C50_dynkin' depends on axioms: [propext, Classical.choice, Quot.sound] -/
#guard_msgs (whitespace := lax) in
#print axioms Ajd.Srjd.C50_dynkin

/-- info: 'Ajd.Srjd.C50_unique' depends on axioms: [propext, Classical.choice, Quot.sound] -/
#guard_msgs (whitespace := lax) in
#print axioms Ajd.Srjd.C50_unique

/-- info: 'Ajd.Srjd.C51_stationary' depends on axioms: [propext, Classical.choice, Quot.sound] -/
#guard_msgs (whitespace := lax) in
#print axioms Ajd.Srjd.C51_stationary

/-- info: 'Ajd.Srjd.C51_mean' depends on axioms: [propext, Classical.choice, Quot.sound] -/
#guard_msgs (whitespace := lax) in
#print axioms Ajd.Srjd.C51_mean

/-- info: 'Ajd.Srjd.C51_cmoment_v' depends on axioms: [propext, Classical.choice, Quot.sound] -/
#guard_msgs (whitespace := lax) in
#print axioms Ajd.Srjd.C51_cmoment_v

/-- info: 'Ajd.Srjd.C51_moment_v' depends on axioms: [propext, Classical.choice, Quot.sound] -/
#guard_msgs (whitespace := lax) in
#print axioms Ajd.Srjd.C51_moment_v

/-- info: 'Ajd.Srjd.C51_negative' depends on axioms: [propext, Classical.choice, Quot.sound] -/
#guard_msgs (whitespace := lax) in
#print axioms Ajd.Srjd.C51_negative

/-- info: 'Ajd.Fsv2.C52_moments_partial' depends on axioms: [propext, Classical.choice, Quot.sound] -/
#guard_msgs (whitespace := lax) in
#print axioms Ajd.Fsv2.C52_moments_partial

/-- info: 'Ajd.Fsv2.C52_cov_partial' depends on axioms: [propext, Classical.choice, Quot.sound] -/
#guard_msgs (whitespace := lax) in
#print axioms Ajd.Fsv2.C52_cov_partial

/-- info: 'Ajd.Fsv2.C52_order3' depends on axioms: [propext, Classical.choice, Quot.sound] -/
#guard_msgs (whitespace := lax) in
#print axioms Ajd.Fsv2.C52_order3

/-- info: 'Ajd.Fsv2.C52_order3_wrong' depends on axioms: [propext, Classical.choice, Quot.sound] -/
#guard_msgs (whitespace := lax) in
#print axioms Ajd.Fsv2.C52_order3_wrong

/-- info: 'Ajd.Fsv2.C52_corrected' depends on axioms: [propext, Classical.choice, Quot.sound] -/
#guard_msgs (whitespace := lax) in
#print axioms Ajd.Fsv2.C52_corrected

/-- info: 'Ajd.Sv2.C52_moments_sde_partial' depends on axioms: [propext, Classical.choice, Quot.sound] -/
#guard_msgs (whitespace := lax) in
#print axioms Ajd.Sv2.C52_moments_sde_partial

/-- info: 'Ajd.Sv2.C52_cov_sde_partial' depends on axioms: [propext, Classical.choice, Quot.sound] -/
#guard_msgs (whitespace := lax) in
#print axioms Ajd.Sv2.C52_cov_sde_partial

/-- info: 'Ajd.Sv2.C52_order3_sde' depends on axioms: [propext, Classical.choice, Quot.sound] -/
#guard_msgs (whitespace := lax) in
#print axioms Ajd.Sv2.C52_order3_sde

/-- info: 'Ajd.Sv2.C52_corrected_sde' depends on axioms: [propext, Classical.choice, Quot.sound] -/
#guard_msgs (whitespace := lax) in
#print axioms Ajd.Sv2.C52_corrected_sde

/-- info: 'Ajd.Fsv2j.C53_moments_partial' depends on axioms: [propext, Classical.choice, Quot.sound] -/
#guard_msgs (whitespace := lax) in
#print axioms Ajd.Fsv2j.C53_moments_partial

/-- info: 'Ajd.Fsv2j.C53_cov_partial' depends on axioms: [propext, Classical.choice, Quot.sound] -/
#guard_msgs (whitespace := lax) in
#print axioms Ajd.Fsv2j.C53_cov_partial

/-- info: 'Ajd.Fsv2j.C53_order3' depends on axioms: [propext, Classical.choice, Quot.sound] -/
#guard_msgs (whitespace := lax) in
#print axioms Ajd.Fsv2j.C53_order3

/-- info: 'Ajd.Fsv2j.C53_order3_wrong' depends on axioms: [propext, Classical.choice, Quot.sound] -/
#guard_msgs (whitespace := lax) in
#print axioms Ajd.Fsv2j.C53_order3_wrong

/-- info: 'Ajd.Fsv2j.C53_corrected' depends on axioms: [propext, Classical.choice, Quot.sound] -/
#guard_msgs (whitespace := lax) in
#print axioms Ajd.Fsv2j.C53_corrected

/-- info: 'Ajd.Sv2.C53_moments_sde_partial' depends on axioms: [propext, Classical.choice, Quot.sound] -/
#guard_msgs (whitespace := lax) in
#print axioms Ajd.Sv2.C53_moments_sde_partial

/-- info: 'Ajd.Sv2.C53_cov_sde_partial' depends on axioms: [propext, Classical.choice, Quot.sound] -/
#guard_msgs (whitespace := lax) in
#print axioms Ajd.Sv2.C53_cov_sde_partial

/-- info: 'Ajd.Sv2.C53_order3_sde' depends on axioms: [propext, Classical.choice, Quot.sound] -/
#guard_msgs (whitespace := lax) in
#print axioms Ajd.Sv2.C53_order3_sde

/-- info: 'Ajd.Sv2.C53_corrected_sde' depends on axioms: [propext, Classical.choice, Quot.sound] -/
#guard_msgs (whitespace := lax) in
#print axioms Ajd.Sv2.C53_corrected_sde

/-- info: 'Ajd.Fsv2j.C54_deriv' depends on axioms: [propext, Classical.choice, Quot.sound] -/
#guard_msgs (whitespace := lax) in
#print axioms Ajd.Fsv2j.C54_deriv

/-- info: 'Ajd.Fsv2j.C54_deriv_ok' depends on axioms: [propext, Classical.choice, Quot.sound] -/
#guard_msgs (whitespace := lax) in
#print axioms Ajd.Fsv2j.C54_deriv_ok

/-- info: 'Ajd.Fsv2j.C54_error' depends on axioms: [propext, Classical.choice, Quot.sound] -/
#guard_msgs (whitespace := lax) in
#print axioms Ajd.Fsv2j.C54_error

/-- info: 'Ajd.Fsv2j.C54_dpoly' depends on axioms: [propext, Classical.choice, Quot.sound] -/
#guard_msgs (whitespace := lax) in
#print axioms Ajd.Fsv2j.C54_dpoly

/-- info: 'Ajd.Subpolys.C55_files_partial' depends on axioms: [propext, Classical.choice, Quot.sound] -/
#guard_msgs (whitespace := lax) in
#print axioms Ajd.Subpolys.C55_files_partial

/-- info: 'Ajd.Subpolys.C55_names' depends on axioms: [propext, Classical.choice, Quot.sound] -/
#guard_msgs (whitespace := lax) in
#print axioms Ajd.Subpolys.C55_names

/-- info: 'Ajd.Subpolys.C55_determined' depends on axioms: [propext, Classical.choice, Quot.sound] -/
#guard_msgs (whitespace := lax) in
#print axioms Ajd.Subpolys.C55_determined

/-- info: 'Ajd.Subpolys.C55_value' depends on axioms: [propext, Classical.choice, Quot.sound] -/
#guard_msgs (whitespace := lax) in
#print axioms Ajd.Subpolys.C55_value

/-- info: 'Ajd.Subpolys.C55_error' depends on axioms: [propext, Classical.choice, Quot.sound] -/
#guard_msgs (whitespace := lax) in
#print axioms Ajd.Subpolys.C55_error

/-- info: 'Ajd.Subpolys.C55_moment_partial' depends on axioms: [propext, Classical.choice, Quot.sound] -/
#guard_msgs (whitespace := lax) in
#print axioms Ajd.Subpolys.C55_moment_partial

/-- info: 'Ajd.Subpolys.C55_noGap' depends on axioms: [propext, Classical.choice, Quot.sound] -/
#guard_msgs (whitespace := lax) in
#print axioms Ajd.Subpolys.C55_noGap

/-- info: 'Ajd.Sv.C56_fsv1j' depends on axioms: [propext, Classical.choice, Quot.sound] -/
#guard_msgs (whitespace := lax) in
#print axioms Ajd.Sv.C56_fsv1j

/-- info: 'Ajd.Sv.C56_fsv1' depends on axioms: [propext, Classical.choice, Quot.sound] -/
#guard_msgs (whitespace := lax) in
#print axioms Ajd.Sv.C56_fsv1

/-- info: 'Ajd.Sv.C56_fsv1_cond' depends on axioms: [propext, Classical.choice, Quot.sound] -/
#guard_msgs (whitespace := lax) in
#print axioms Ajd.Sv.C56_fsv1_cond

/-- info: 'Ajd.Sv.C56_fsv1_ineq' depends on axioms: [propext, Classical.choice, Quot.sound] -/
#guard_msgs (whitespace := lax) in
#print axioms Ajd.Sv.C56_fsv1_ineq

/-- info: 'Ajd.Sv.C56_fsv1j_ineq' depends on axioms: [propext, Classical.choice, Quot.sound] -/
#guard_msgs (whitespace := lax) in
#print axioms Ajd.Sv.C56_fsv1j_ineq

/-- info: 'Ajd.SvcjI.C56_svcj_cond' depends on axioms: [propext, Classical.choice, Quot.sound] -/
#guard_msgs (whitespace := lax) in
#print axioms Ajd.SvcjI.C56_svcj_cond

/-- info: 'Ajd.SvcjI.C56_svcj' depends on axioms: [propext, Classical.choice, Quot.sound] -/
#guard_msgs (whitespace := lax) in
#print axioms Ajd.SvcjI.C56_svcj

/-- info: 'Ajd.SvcjI.C56_svcj_ineq' depends on axioms: [propext, Classical.choice, Quot.sound] -/
#guard_msgs (whitespace := lax) in
#print axioms Ajd.SvcjI.C56_svcj_ineq

/-- info: 'Ajd.Srjd.C56_srjd_cond' depends on axioms: [propext, Classical.choice, Quot.sound] -/
#guard_msgs (whitespace := lax) in
#print axioms Ajd.Srjd.C56_srjd_cond

/-- info: 'Ajd.Srjd.C56_srjd' depends on axioms: [propext, Classical.choice, Quot.sound] -/
#guard_msgs (whitespace := lax) in
#print axioms Ajd.Srjd.C56_srjd

/-- info: 'Ajd.Sv2.C57_fsv2j_partial' depends on axioms: [propext, Classical.choice, Quot.sound] -/
#guard_msgs (whitespace := lax) in
#print axioms Ajd.Sv2.C57_fsv2j_partial

/-- info: 'Ajd.Sv2.C57_fsv2_partial' depends on axioms: [propext, Classical.choice, Quot.sound] -/
#guard_msgs (whitespace := lax) in
#print axioms Ajd.Sv2.C57_fsv2_partial

/-- info: 'Ajd.Sv2.C57_fsv2j_corrected' depends on axioms: [propext, Classical.choice, Quot.sound] -/
#guard_msgs (whitespace := lax) in
#print axioms Ajd.Sv2.C57_fsv2j_corrected

/-- info: 'Ajd.Sv2.C57_fsv2_corrected' depends on axioms: [propext, Classical.choice, Quot.sound] -/
#guard_msgs (whitespace := lax) in
#print axioms Ajd.Sv2.C57_fsv2_corrected

/-- info: 'Ajd.Sv2.C57_fsv2_ineq' depends on axioms: [propext, Classical.choice, Quot.sound] -/
#guard_msgs (whitespace := lax) in
#print axioms Ajd.Sv2.C57_fsv2_ineq

/-- info: 'Ajd.Sv2.C57_fsv2j_ineq' depends on axioms: [propext, Classical.choice, Quot.sound] -/
#guard_msgs (whitespace := lax) in
#print axioms Ajd.Sv2.C57_fsv2j_ineq

/-- info: 'Ajd.Sv.C58_fsv1j' depends on axioms: [propext, Classical.choice, Quot.sound] -/
#guard_msgs (whitespace := lax) in
#print axioms Ajd.Sv.C58_fsv1j

/-- info: 'Ajd.Sv.C58_fsv1' depends on axioms: [propext, Classical.choice, Quot.sound] -/
#guard_msgs (whitespace := lax) in
#print axioms Ajd.Sv.C58_fsv1

/-- info: 'Ajd.Sv2.C58_fsv2j_partial' depends on axioms: [propext, Classical.choice, Quot.sound] -/
#guard_msgs (whitespace := lax) in
#print axioms Ajd.Sv2.C58_fsv2j_partial

/-- info: 'Ajd.Sv2.C58_fsv2_partial' depends on axioms: [propext, Classical.choice, Quot.sound] -/
#guard_msgs (whitespace := lax) in
#print axioms Ajd.Sv2.C58_fsv2_partial

/-- info: 'Ajd.Sv2.C58_fsv2j_corrected' depends on axioms: [propext, Classical.choice, Quot.sound] -/
#guard_msgs (whitespace := lax) in
#print axioms Ajd.Sv2.C58_fsv2j_corrected

/-- info: 'Ajd.Sv2.C58_fsv2_corrected' depends on axioms: [propext, Classical.choice, Quot.sound] -/
#guard_msgs (whitespace := lax) in
#print axioms Ajd.Sv2.C58_fsv2_corrected

/-- info: 'Ajd.Sv.C59_fsv1j' depends on axioms: [propext, Classical.choice, Quot.sound] -/
#guard_msgs (whitespace := lax) in
#print axioms Ajd.Sv.C59_fsv1j

/-- info: 'Ajd.Srjd.C59_srjd' depends on axioms: [propext, Classical.choice, Quot.sound] -/
#guard_msgs (whitespace := lax) in
#print axioms Ajd.Srjd.C59_srjd

/-- info: 'Ajd.SvcjI.C59_svcj_cond' depends on axioms: [propext, Classical.choice, Quot.sound] -/
#guard_msgs (whitespace := lax) in
#print axioms Ajd.SvcjI.C59_svcj_cond

/-- info: 'Ajd.SvcjI.C59_svcj' depends on axioms: [propext, Classical.choice, Quot.sound] -/
#guard_msgs (whitespace := lax) in
#print axioms Ajd.SvcjI.C59_svcj

/-- info: 'Ajd.C59_svvj' depends on axioms: [propext, Classical.choice, Quot.sound] -/
#guard_msgs (whitespace := lax) in
#print axioms Ajd.C59_svvj

/-- info: 'Ajd.C59_svij' depends on axioms: [propext, Classical.choice, Quot.sound] -/
#guard_msgs (whitespace := lax) in
#print axioms Ajd.C59_svij

/-- info: 'Ajd.C59_svcj2' depends on axioms: [propext, Classical.choice, Quot.sound] -/
#guard_msgs (whitespace := lax) in
#print axioms Ajd.C59_svcj2

/-- info: 'Ajd.C59_svij_svvj' depends on axioms: [propext, Classical.choice, Quot.sound] -/
#guard_msgs (whitespace := lax) in
#print axioms Ajd.C59_svij_svvj

/-- info: 'Ajd.C59_fsv2j' depends on axioms: [propext, Classical.choice, Quot.sound] -/
#guard_msgs (whitespace := lax) in
#print axioms Ajd.C59_fsv2j

/-- info: 'Ajd.Srjd.C60_srjd' depends on axioms: [propext, Classical.choice, Quot.sound] -/
#guard_msgs (whitespace := lax) in
#print axioms Ajd.Srjd.C60_srjd

/-- info: 'Ajd.SvcjI.C60_svcj' depends on axioms: [propext, Classical.choice, Quot.sound] -/
#guard_msgs (whitespace := lax) in
#print axioms Ajd.SvcjI.C60_svcj

/-- info: 'Ajd.Sv.C61_fsv1j' depends on axioms: [propext, Classical.choice, Quot.sound] -/
#guard_msgs (whitespace := lax) in
#print axioms Ajd.Sv.C61_fsv1j

/-- info: 'Ajd.Sv.C61_fsv1' depends on axioms: [propext, Classical.choice, Quot.sound] -/
#guard_msgs (whitespace := lax) in
#print axioms Ajd.Sv.C61_fsv1

/-- info: 'Ajd.Sv.C61_cond' depends on axioms: [propext, Classical.choice, Quot.sound] -/
#guard_msgs (whitespace := lax) in
#print axioms Ajd.Sv.C61_cond

/-- info: 'Ajd.SvcjI.C61_svcj_cond' depends on axioms: [propext, Classical.choice, Quot.sound] -/
#guard_msgs (whitespace := lax) in
#print axioms Ajd.SvcjI.C61_svcj_cond

/-- info: 'Ajd.SvcjI.C61_svcj' depends on axioms: [propext, Classical.choice, Quot.sound] -/
#guard_msgs (whitespace := lax) in
#print axioms Ajd.SvcjI.C61_svcj

/-- info: 'Ajd.Srjd.C61_srjd' depends on axioms: [propext, Classical.choice, Quot.sound] -/
#guard_msgs (whitespace := lax) in
#print axioms Ajd.Srjd.C61_srjd

/-- info: 'Ajd.Sv2.C61_fsv2j' depends on axioms: [propext, Classical.choice, Quot.sound] -/
#guard_msgs (whitespace := lax) in
#print axioms Ajd.Sv2.C61_fsv2j

/-- info: 'Ajd.Sv2.C61_fsv2' depends on axioms: [propext, Classical.choice, Quot.sound] -/
#guard_msgs (whitespace := lax) in
#print axioms Ajd.Sv2.C61_fsv2

/-- info: 'Ajd.Sv.C62_fsv1j' depends on axioms: [propext, Classical.choice, Quot.sound] -/
#guard_msgs (whitespace := lax) in
#print axioms Ajd.Sv.C62_fsv1j

/-- info: 'Ajd.Sv.C62_fsv1' depends on axioms: [propext, Classical.choice, Quot.sound] -/
#guard_msgs (whitespace := lax) in
#print axioms Ajd.Sv.C62_fsv1

/-- info: 'Ajd.Sv.C62_cond' depends on axioms: [propext, Classical.choice, Quot.sound] -/
#guard_msgs (whitespace := lax) in
#print axioms Ajd.Sv.C62_cond

/-- info: 'Ajd.SvcjI.C62_svcj_cond' depends on axioms: [propext, Classical.choice, Quot.sound] -/
#guard_msgs (whitespace := lax) in
#print axioms Ajd.SvcjI.C62_svcj_cond

/-- info: 'Ajd.SvcjI.C62_svcj' depends on axioms: [propext, Classical.choice, Quot.sound] -/
#guard_msgs (whitespace := lax) in
#print axioms Ajd.SvcjI.C62_svcj

/-- info: 'Ajd.Sv2.C62_fsv2' depends on axioms: [propext, Classical.choice, Quot.sound] -/
#guard_msgs (whitespace := lax) in
#print axioms Ajd.Sv2.C62_fsv2

/-- info: 'Ajd.Sv2.C62_fsv2j' depends on axioms: [propext, Classical.choice, Quot.sound] -/
#guard_msgs (whitespace := lax) in
#print axioms Ajd.Sv2.C62_fsv2j

/-- info: 'Ajd.C63_fsv1j' depends on axioms: [propext, Classical.choice, Quot.sound] -/
#guard_msgs (whitespace := lax) in
#print axioms Ajd.C63_fsv1j

/-- info: 'Ajd.C63_fsv2j' depends on axioms: [propext, Classical.choice, Quot.sound] -/
#guard_msgs (whitespace := lax) in
#print axioms Ajd.C63_fsv2j

/-- info: 'Ajd.Sv2.C64_fsv2_partial' depends on axioms: [propext, Classical.choice, Quot.sound] -/
#guard_msgs (whitespace := lax) in
#print axioms Ajd.Sv2.C64_fsv2_partial

/-- info: 'Ajd.Sv2.C64_fsv2j_partial' depends on axioms: [propext, Classical.choice, Quot.sound] -/
#guard_msgs (whitespace := lax) in
#print axioms Ajd.Sv2.C64_fsv2j_partial

/-- info: 'Ajd.Sv2.C64_corrected' depends on axioms: [propext, Classical.choice, Quot.sound] -/
#guard_msgs (whitespace := lax) in
#print axioms Ajd.Sv2.C64_corrected

/-- info: 'Ajd.Itos.C64_itos_wrong' depends on axioms: [propext, Classical.choice, Quot.sound] -/
#guard_msgs (whitespace := lax) in
#print axioms Ajd.Itos.C64_itos_wrong

/-- info: 'Ajd.Sv.C65_fsv1j' depends on axioms: [propext, Classical.choice, Quot.sound] -/
#guard_msgs (whitespace := lax) in
#print axioms Ajd.Sv.C65_fsv1j

/-- info: 'Ajd.Sv.C65_fsv1' depends on axioms: [propext, Classical.choice, Quot.sound] -/
#guard_msgs (whitespace := lax) in
#print axioms Ajd.Sv.C65_fsv1

/-- info: 'Ajd.Sv.C65_fsv1_cond' depends on axioms: [propext, Classical.choice, Quot.sound] -/
#guard_msgs (whitespace := lax) in
#print axioms Ajd.Sv.C65_fsv1_cond

/-- info: 'Ajd.SvcjI.C65_svcj_cond' depends on axioms: [propext, Classical.choice, Quot.sound] -/
#guard_msgs (whitespace := lax) in
#print axioms Ajd.SvcjI.C65_svcj_cond

/-- info: 'Ajd.SvcjI.C65_svcj' depends on axioms: [propext, Classical.choice, Quot.sound] -/
#guard_msgs (whitespace := lax) in
#print axioms Ajd.SvcjI.C65_svcj

/-- info: 'Ajd.Srjd.C65_srjd' depends on axioms: [propext, Classical.choice, Quot.sound] -/
#guard_msgs (whitespace := lax) in
#print axioms Ajd.Srjd.C65_srjd

/-- info: 'Ajd.Sv2.C65_fsv2j_partial' depends on axioms: [propext, Classical.choice, Quot.sound] -/
#guard_msgs (whitespace := lax) in
#print axioms Ajd.Sv2.C65_fsv2j_partial

/-- info: 'Ajd.Sv2.C65_fsv2_partial' depends on axioms: [propext, Classical.choice, Quot.sound] -/
#guard_msgs (whitespace := lax) in
#print axioms Ajd.Sv2.C65_fsv2_partial

/-- info: 'Ajd.Sv2.C65_corrected' depends on axioms: [propext, Classical.choice, Quot.sound] -/
#guard_msgs (whitespace := lax) in
#print axioms Ajd.Sv2.C65_corrected

/-- info: 'Ajd.Sv.C66_fsv1j' depends on axioms: [propext, Classical.choice, Quot.sound] -/
#guard_msgs (whitespace := lax) in
#print axioms Ajd.Sv.C66_fsv1j

/-- info: 'Ajd.Sv.C66_fsv1' depends on axioms: [propext, Classical.choice, Quot.sound] -/
#guard_msgs (whitespace := lax) in
#print axioms Ajd.Sv.C66_fsv1

/-- info: 'Ajd.SvcjI.C66_svcj_cond' depends on axioms: [propext, Classical.choice, Quot.sound] -/
#guard_msgs (whitespace := lax) in
#print axioms Ajd.SvcjI.C66_svcj_cond

/-- info: 'Ajd.SvcjI.C66_svcj' depends on axioms: [propext, Classical.choice, Quot.sound] -/
#guard_msgs (whitespace := lax) in
#print axioms Ajd.SvcjI.C66_svcj

/-- info: 'Ajd.Srjd.C66_srjd_cond' depends on axioms: [propext, Classical.choice, Quot.sound] -/
#guard_msgs (whitespace := lax) in
#print axioms Ajd.Srjd.C66_srjd_cond

/-- info: 'Ajd.Srjd.C66_srjd' depends on axioms: [propext, Classical.choice, Quot.sound] -/
#guard_msgs (whitespace := lax) in
#print axioms Ajd.Srjd.C66_srjd

/-- info: 'Ajd.Fsv2.C66_fsv2' depends on axioms: [propext, Classical.choice, Quot.sound] -/
#guard_msgs (whitespace := lax) in
#print axioms Ajd.Fsv2.C66_fsv2

/-- info: 'Ajd.Fsv2j.C66_fsv2j' depends on axioms: [propext, Classical.choice, Quot.sound] -/
#guard_msgs (whitespace := lax) in
#print axioms Ajd.Fsv2j.C66_fsv2j

/-- info: 'Ajd.Srjd.C67_moment' depends on axioms: [propext, Classical.choice, Quot.sound] -/
#guard_msgs (whitespace := lax) in
#print axioms Ajd.Srjd.C67_moment

/-- info: 'Ajd.Srjd.C67_cmoment' depends on axioms: [propext, Classical.choice, Quot.sound] -/
#guard_msgs (whitespace := lax) in
#print axioms Ajd.Srjd.C67_cmoment

/-- info: 'Ajd.Sv.C68_fsv1' depends on axioms: [propext, Classical.choice, Quot.sound] -/
#guard_msgs (whitespace := lax) in
#print axioms Ajd.Sv.C68_fsv1

/-- info: 'Ajd.Sv.C68_fsv1_cond' depends on axioms: [propext, Classical.choice, Quot.sound] -/
#guard_msgs (whitespace := lax) in
#print axioms Ajd.Sv.C68_fsv1_cond

/-- info: 'Ajd.C68_fsv1j' depends on axioms: [propext, Classical.choice, Quot.sound] -/
#guard_msgs (whitespace := lax) in
#print axioms Ajd.C68_fsv1j

/-- info: 'Ajd.Srjd.C68_srjd' depends on axioms: [propext, Classical.choice, Quot.sound] -/
#guard_msgs (whitespace := lax) in
#print axioms Ajd.Srjd.C68_srjd

/-- info: 'Ajd.SvcjI.C68_svcj' depends on axioms: [propext, Classical.choice, Quot.sound] -/
#guard_msgs (whitespace := lax) in
#print axioms Ajd.SvcjI.C68_svcj

/-- info: 'Ajd.Fsv2.C68_fsv2' depends on axioms: [propext, Classical.choice, Quot.sound] -/
#guard_msgs (whitespace := lax) in
#print axioms Ajd.Fsv2.C68_fsv2

/-- info: 'Ajd.C68_fsv2j' depends on axioms: [propext, Classical.choice, Quot.sound] -/
#guard_msgs (whitespace := lax) in
#print axioms Ajd.C68_fsv2j

/-- info: 'Ajd.Euler.C69_1fsv_ok' depends on axioms: [propext, Classical.choice, Quot.sound] -/
#guard_msgs (whitespace := lax) in
#print axioms Ajd.Euler.C69_1fsv_ok

/-- info: 'Ajd.Euler.C69_1fsv' depends on axioms: [propext, Classical.choice, Quot.sound] -/
#guard_msgs (whitespace := lax) in
#print axioms Ajd.Euler.C69_1fsv

/-- info: 'Ajd.Euler.C69_1fsv_cov' depends on axioms: [propext, Classical.choice, Quot.sound] -/
#guard_msgs (whitespace := lax) in
#print axioms Ajd.Euler.C69_1fsv_cov

/-- info: 'Ajd.Euler.C69_1fsv_iid_ok' depends on axioms: [propext, Classical.choice, Quot.sound] -/
#guard_msgs (whitespace := lax) in
#print axioms Ajd.Euler.C69_1fsv_iid_ok

/-- info: 'Ajd.Euler.C69_1fsv_iid_sde' depends on axioms: [propext, Classical.choice, Quot.sound] -/
#guard_msgs (whitespace := lax) in
#print axioms Ajd.Euler.C69_1fsv_iid_sde

/-- info: 'Ajd.Euler.C69_1fsv_iid' depends on axioms: [propext, Classical.choice, Quot.sound] -/
#guard_msgs (whitespace := lax) in
#print axioms Ajd.Euler.C69_1fsv_iid

/-- info: 'Ajd.Euler.F2.C70_2fsv_ok' depends on axioms: [propext, Classical.choice, Quot.sound] -/
#guard_msgs (whitespace := lax) in
#print axioms Ajd.Euler.F2.C70_2fsv_ok

/-- info: 'Ajd.Euler.F2.C70_2fsv_sde' depends on axioms: [propext, Classical.choice, Quot.sound] -/
#guard_msgs (whitespace := lax) in
#print axioms Ajd.Euler.F2.C70_2fsv_sde

/-- info: 'Ajd.Euler.F2.C70_2fsv_partial' depends on axioms: [propext, Classical.choice, Quot.sound] -/
#guard_msgs (whitespace := lax) in
#print axioms Ajd.Euler.F2.C70_2fsv_partial

/-- info: 'Ajd.Euler.F2.C70_2fsv_cov_partial' depends on axioms: [propext, Classical.choice, Quot.sound] -/
#guard_msgs (whitespace := lax) in
#print axioms Ajd.Euler.F2.C70_2fsv_cov_partial

/-- info: 'Ajd.Euler.F2.C70_2fsv_order3' depends on axioms: [propext, Classical.choice, Quot.sound] -/
#guard_msgs (whitespace := lax) in
#print axioms Ajd.Euler.F2.C70_2fsv_order3

/-- info: 'Ajd.Euler.F2.C70_2fsv_corrected' depends on axioms: [propext, Classical.choice, Quot.sound] -/
#guard_msgs (whitespace := lax) in
#print axioms Ajd.Euler.F2.C70_2fsv_corrected

/-- info: 'Ajd.Euler.C71_1fsvj_ok' depends on axioms: [propext, Classical.choice, Quot.sound] -/
#guard_msgs (whitespace := lax) in
#print axioms Ajd.Euler.C71_1fsvj_ok

/-- info: 'Ajd.Euler.C71_1fsvj' depends on axioms: [propext, Classical.choice, Quot.sound] -/
#guard_msgs (whitespace := lax) in
#print axioms Ajd.Euler.C71_1fsvj

/-- info: 'Ajd.Euler.C71_1fsvj_cov' depends on axioms: [propext, Classical.choice, Quot.sound] -/
#guard_msgs (whitespace := lax) in
#print axioms Ajd.Euler.C71_1fsvj_cov

/-- info: 'Ajd.Euler.F2.C72_2fsvj_ok' depends on axioms: [propext, Classical.choice, Quot.sound] -/
#guard_msgs (whitespace := lax) in
#print axioms Ajd.Euler.F2.C72_2fsvj_ok

/-- info: 'Ajd.Euler.F2.C72_2fsvj_sde' depends on axioms: [propext, Classical.choice, Quot.sound] -/
#guard_msgs (whitespace := lax) in
#print axioms Ajd.Euler.F2.C72_2fsvj_sde

/-- info: 'Ajd.Euler.F2.C72_2fsvj_partial' depends on axioms: [propext, Classical.choice, Quot.sound] -/
#guard_msgs (whitespace := lax) in
#print axioms Ajd.Euler.F2.C72_2fsvj_partial

/-- info: 'Ajd.Euler.F2.C72_2fsvj_cov_partial' depends on axioms: [propext, Classical.choice, Quot.sound] -/
#guard_msgs (whitespace := lax) in
#print axioms Ajd.Euler.F2.C72_2fsvj_cov_partial

/-- info: 'Ajd.Euler.F2.C72_2fsvj_order3' depends on axioms: [propext, Classical.choice, Quot.sound] -/
#guard_msgs (whitespace := lax) in
#print axioms Ajd.Euler.F2.C72_2fsvj_order3

/-- info: 'Ajd.Euler.F2.C72_2fsvj_corrected' depends on axioms: [propext, Classical.choice, Quot.sound] -/
#guard_msgs (whitespace := lax) in
#print axioms Ajd.Euler.F2.C72_2fsvj_corrected

/-- info: 'Ajd.SrjdJ.C73_moments' depends on axioms: [propext, Classical.choice, Quot.sound] -/
#guard_msgs (whitespace := lax) in
#print axioms Ajd.SrjdJ.C73_moments

/-- info: 'Ajd.SrjdJ.C73_averages' depends on axioms: [propext, Classical.choice, Quot.sound] -/
#guard_msgs (whitespace := lax) in
#print axioms Ajd.SrjdJ.C73_averages

/-- info: 'Ajd.SrjdJ.C74_average' depends on axioms: [propext, Classical.choice, Quot.sound] -/
#guard_msgs (whitespace := lax) in
#print axioms Ajd.SrjdJ.C74_average

/-- info: 'Ajd.SrjdJ.C74_defined' depends on axioms: [propext, Classical.choice, Quot.sound] -/
#guard_msgs (whitespace := lax) in
#print axioms Ajd.SrjdJ.C74_defined

/-- info: 'Ajd.SrjdJ.C74_total' depends on axioms: [propext, Classical.choice, Quot.sound] -/
#guard_msgs (whitespace := lax) in
#print axioms Ajd.SrjdJ.C74_total

/-- info: 'Ajd.SrjdJ.C74_variance' depends on axioms: [propext, Classical.choice, Quot.sound] -/
#guard_msgs (whitespace := lax) in
#print axioms Ajd.SrjdJ.C74_variance

/-- info: 'Ajd.Svcj.C75_average_partial' depends on axioms: [propext, Classical.choice, Quot.sound] -/
#guard_msgs (whitespace := lax) in
#print axioms Ajd.Svcj.C75_average_partial

/-- info: 'Ajd.Svcj.C75_average_repaired' depends on axioms: [propext, Classical.choice, Quot.sound] -/
#guard_msgs (whitespace := lax) in
#print axioms Ajd.Svcj.C75_average_repaired

/-- info: 'Ajd.Svcj.C75_variance' depends on axioms: [propext, Classical.choice, Quot.sound] -/
#guard_msgs (whitespace := lax) in
#print axioms Ajd.Svcj.C75_variance

/-- info: 'Ajd.Svcj.C75_defined' depends on axioms: [propext, Classical.choice, Quot.sound] -/
#guard_msgs (whitespace := lax) in
#print axioms Ajd.Svcj.C75_defined

/-- info: 'Ajd.Closed.C76_fsv1j' depends on axioms: [propext, Classical.choice, Quot.sound] -/
#guard_msgs (whitespace := lax) in
#print axioms Ajd.Closed.C76_fsv1j

/-- info: 'Ajd.Closed.C76_fsv1' depends on axioms: [propext, Classical.choice, Quot.sound] -/
#guard_msgs (whitespace := lax) in
#print axioms Ajd.Closed.C76_fsv1

/-- info: 'Ajd.Closed.C76_sign' depends on axioms: [propext, Classical.choice, Quot.sound] -/
#guard_msgs (whitespace := lax) in
#print axioms Ajd.Closed.C76_sign

/-- info: 'Ajd.Closed.C76_fsv1_cond' depends on axioms: [propext, Classical.choice, Quot.sound] -/
#guard_msgs (whitespace := lax) in
#print axioms Ajd.Closed.C76_fsv1_cond

/-- info: 'Ajd.Closed.C76_svcj_cond' depends on axioms: [propext, Classical.choice, Quot.sound] -/
#guard_msgs (whitespace := lax) in
#print axioms Ajd.Closed.C76_svcj_cond

/-- info: 'Ajd.Closed.C76_svcj' depends on axioms: [propext, Classical.choice, Quot.sound] -/
#guard_msgs (whitespace := lax) in
#print axioms Ajd.Closed.C76_svcj

/-- info: 'Ajd.Closed.C76_srjd' depends on axioms: [propext, Classical.choice, Quot.sound] -/
#guard_msgs (whitespace := lax) in
#print axioms Ajd.Closed.C76_srjd

/-- info: 'Ajd.Closed.C76_fsv2j' depends on axioms: [propext, Classical.choice, Quot.sound] -/
#guard_msgs (whitespace := lax) in
#print axioms Ajd.Closed.C76_fsv2j

/-- info: 'Ajd.Closed.C76_fsv2' depends on axioms: [propext, Classical.choice, Quot.sound] -/
#guard_msgs (whitespace := lax) in
#print axioms Ajd.Closed.C76_fsv2

/-- info: 'Ajd.Closed.C76_sign2' depends on axioms: [propext, Classical.choice, Quot.sound] -/
#guard_msgs (whitespace := lax) in
#print axioms Ajd.Closed.C76_sign2

/-- info: 'Ajd.Closed.C77_increasing' depends on axioms: [propext, Classical.choice, Quot.sound] -/
#guard_msgs (whitespace := lax) in
#print axioms Ajd.Closed.C77_increasing

/-- info: 'Ajd.Closed.C77_correlation' depends on axioms: [propext, Classical.choice, Quot.sound] -/
#guard_msgs (whitespace := lax) in
#print axioms Ajd.Closed.C77_correlation

/-- info: 'Ajd.Closed.C77_long' depends on axioms: [propext, Classical.choice, Quot.sound] -/
#guard_msgs (whitespace := lax) in
#print axioms Ajd.Closed.C77_long

/-- info: 'Ajd.Closed.C77_increasing2' depends on axioms: [propext, Classical.choice, Quot.sound] -/
#guard_msgs (whitespace := lax) in
#print axioms Ajd.Closed.C77_increasing2

/-- info: 'Ajd.Closed.C77_correlation2' depends on axioms: [propext, Classical.choice, Quot.sound] -/
#guard_msgs (whitespace := lax) in
#print axioms Ajd.Closed.C77_correlation2

/-- info: 'Ajd.Closed.C77_long2' depends on axioms: [propext, Classical.choice, Quot.sound] -/
#guard_msgs (whitespace := lax) in
#print axioms Ajd.Closed.C77_long2

/-- info: 'Ajd.SrjdJ.C78_srjd' depends on axioms: [propext, Classical.choice, Quot.sound] -/
#guard_msgs (whitespace := lax) in
#print axioms Ajd.SrjdJ.C78_srjd

/-- info: 'Ajd.SrjdJ.C78_srjd_ineq' depends on axioms: [propext, Classical.choice, Quot.sound] -/
#guard_msgs (whitespace := lax) in
#print axioms Ajd.SrjdJ.C78_srjd_ineq

/-- info: 'Ajd.Svvj.C78_svvj_partial' depends on axioms: [propext, Classical.choice, Quot.sound] -/
#guard_msgs (whitespace := lax) in
#print axioms Ajd.Svvj.C78_svvj_partial

/-- info: 'Ajd.Svvj.C78_svvj_var' depends on axioms: [propext, Classical.choice, Quot.sound] -/
#guard_msgs (whitespace := lax) in
#print axioms Ajd.Svvj.C78_svvj_var

/-- info: 'Ajd.Svvj.C78_svvj_repaired' depends on axioms: [propext, Classical.choice, Quot.sound] -/
#guard_msgs (whitespace := lax) in
#print axioms Ajd.Svvj.C78_svvj_repaired

/-- info: 'Ajd.Svij.C78_svij_partial' depends on axioms: [propext, Classical.choice, Quot.sound] -/
#guard_msgs (whitespace := lax) in
#print axioms Ajd.Svij.C78_svij_partial

/-- info: 'Ajd.Svij.C78_svij_var' depends on axioms: [propext, Classical.choice, Quot.sound] -/
#guard_msgs (whitespace := lax) in
#print axioms Ajd.Svij.C78_svij_var

/-- info: 'Ajd.Svij.C78_svij_repaired' depends on axioms: [propext, Classical.choice, Quot.sound] -/
#guard_msgs (whitespace := lax) in
#print axioms Ajd.Svij.C78_svij_repaired

/-- info: 'Ajd.Svcj.C78_svcj_partial' depends on axioms: [propext, Classical.choice, Quot.sound] -/
#guard_msgs (whitespace := lax) in
#print axioms Ajd.Svcj.C78_svcj_partial

/-- info: 'Ajd.Svcj.C78_svcj_var' depends on axioms: [propext, Classical.choice, Quot.sound] -/
#guard_msgs (whitespace := lax) in
#print axioms Ajd.Svcj.C78_svcj_var

/-- info: 'Ajd.Svcj.C78_svcj_repaired' depends on axioms: [propext, Classical.choice, Quot.sound] -/
#guard_msgs (whitespace := lax) in
#print axioms Ajd.Svcj.C78_svcj_repaired

/-- info: 'Ajd.SrjdJ.C79_srjd' depends on axioms: [propext, Classical.choice, Quot.sound] -/
#guard_msgs (whitespace := lax) in
#print axioms Ajd.SrjdJ.C79_srjd

/-- info: 'Ajd.Svvj.C79_svvj' depends on axioms: [propext, Classical.choice, Quot.sound] -/
#guard_msgs (whitespace := lax) in
#print axioms Ajd.Svvj.C79_svvj

/-- info: 'Ajd.Svij.C79_svij' depends on axioms: [propext, Classical.choice, Quot.sound] -/
#guard_msgs (whitespace := lax) in
#print axioms Ajd.Svij.C79_svij

/-- info: 'Ajd.Svcj.C79_svcj' depends on axioms: [propext, Classical.choice, Quot.sound] -/
#guard_msgs (whitespace := lax) in
#print axioms Ajd.Svcj.C79_svcj

/-- info: 'Ajd.C79_unit' depends on axioms: [propext, Classical.choice, Quot.sound] -/
#guard_msgs (whitespace := lax) in
#print axioms Ajd.C79_unit

/-- info: 'Ajd.Svvj.C79_compare' depends on axioms: [propext, Classical.choice, Quot.sound] -/
#guard_msgs (whitespace := lax) in
#print axioms Ajd.Svvj.C79_compare

/-- info: 'Ajd.Srjd.C80_cumulants' depends on axioms: [propext, Classical.choice, Quot.sound] -/
#guard_msgs (whitespace := lax) in
#print axioms Ajd.Srjd.C80_cumulants

/-- info: 'Ajd.Srjd.C80_unique' depends on axioms: [propext, Classical.choice, Quot.sound] -/
#guard_msgs (whitespace := lax) in
#print axioms Ajd.Srjd.C80_unique

/-- info: 'Ajd.Srjd.C80_moment_v' depends on axioms: [propext, Classical.choice, Quot.sound] -/
#guard_msgs (whitespace := lax) in
#print axioms Ajd.Srjd.C80_moment_v

/-- info: 'Ajd.Srjd.C80_central' depends on axioms: [propext, Classical.choice, Quot.sound] -/
#guard_msgs (whitespace := lax) in
#print axioms Ajd.Srjd.C80_central

/-- info: 'Ajd.Srjd.C80_nonneg' depends on axioms: [propext, Classical.choice, Quot.sound] -/
#guard_msgs (whitespace := lax) in
#print axioms Ajd.Srjd.C80_nonneg

/-- info: 'Ajd.Srjd.C80_shape' depends on axioms: [propext, Classical.choice, Quot.sound] -/
#guard_msgs (whitespace := lax) in
#print axioms Ajd.Srjd.C80_shape

/-- info: 'Ajd.SrjdJ.C81_m' depends on axioms: [propext, Classical.choice, Quot.sound] -/
#guard_msgs (whitespace := lax) in
#print axioms Ajd.SrjdJ.C81_m

/-- info: 'Ajd.SrjdJ.C81_cm' depends on axioms: [propext, Classical.choice, Quot.sound] -/
#guard_msgs (whitespace := lax) in
#print axioms Ajd.SrjdJ.C81_cm

/-- info: 'Ajd.SrjdJ.C81_shape' depends on axioms: [propext, Classical.choice, Quot.sound] -/
#guard_msgs (whitespace := lax) in
#print axioms Ajd.SrjdJ.C81_shape

/-- info: 'Ajd.Srjd.C82_m' depends on axioms: [propext, Classical.choice, Quot.sound] -/
#guard_msgs (whitespace := lax) in
#print axioms Ajd.Srjd.C82_m

/-- info: 'Ajd.Srjd.C82_cm' depends on axioms: [propext, Classical.choice, Quot.sound] -/
#guard_msgs (whitespace := lax) in
#print axioms Ajd.Srjd.C82_cm

/-- info: 'Ajd.Srjd.C82_shape' depends on axioms: [propext, Classical.choice, Quot.sound] -/
#guard_msgs (whitespace := lax) in
#print axioms Ajd.Srjd.C82_shape

/-- info: 'Ajd.C83_mcpp' depends on axioms: [propext, Classical.choice, Quot.sound] -/
#guard_msgs (whitespace := lax) in
#print axioms Ajd.C83_mcpp

/-- info: 'Ajd.C83_cmcpp' depends on axioms: [propext, Classical.choice, Quot.sound] -/
#guard_msgs (whitespace := lax) in
#print axioms Ajd.C83_cmcpp

/-- info: 'Ajd.C83_shape' depends on axioms: [propext, Classical.choice, Quot.sound] -/
#guard_msgs (whitespace := lax) in
#print axioms Ajd.C83_shape

/-- info: 'Ajd.SrjdJ.C84_given' depends on axioms: [propext, Classical.choice, Quot.sound] -/
#guard_msgs (whitespace := lax) in
#print axioms Ajd.SrjdJ.C84_given

/-- info: 'Ajd.SrjdJ.C84_jump' depends on axioms: [propext, Classical.choice, Quot.sound] -/
#guard_msgs (whitespace := lax) in
#print axioms Ajd.SrjdJ.C84_jump

/-- info: 'Ajd.Srjd.C84_start' depends on axioms: [propext, Classical.choice, Quot.sound] -/
#guard_msgs (whitespace := lax) in
#print axioms Ajd.Srjd.C84_start

/-- info: 'Ajd.Srjd.C84_stationary' depends on axioms: [propext, Classical.choice, Quot.sound] -/
#guard_msgs (whitespace := lax) in
#print axioms Ajd.Srjd.C84_stationary

/-- info: 'Ajd.Srjd.C84_moment_v' depends on axioms: [propext, Classical.choice, Quot.sound] -/
#guard_msgs (whitespace := lax) in
#print axioms Ajd.Srjd.C84_moment_v

/-- info: 'Ajd.SrjdJ.C85_given' depends on axioms: [propext, Classical.choice, Quot.sound] -/
#guard_msgs (whitespace := lax) in
#print axioms Ajd.SrjdJ.C85_given

/-- info: 'Ajd.Srjd.C85_start' depends on axioms: [propext, Classical.choice, Quot.sound] -/
#guard_msgs (whitespace := lax) in
#print axioms Ajd.Srjd.C85_start

/-- info: 'Ajd.Srjd.C85_stationary' depends on axioms: [propext, Classical.choice, Quot.sound] -/
#guard_msgs (whitespace := lax) in
#print axioms Ajd.Srjd.C85_stationary
