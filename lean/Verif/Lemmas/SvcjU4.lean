import Verif.Lemmas.SvcjY3
import Verif.Lemmas.SrjdCmom2
import Mathlib.Algebra.QuadraticAlgebra.Basic
import Mathlib.Algebra.MonoidAlgebra.Basic
import Mathlib.LinearAlgebra.Basis.Basic
import Mathlib.RingTheory.MvPolynomial.Basic

section -- SvcjU

/-! `moment_y` of the SVCJ model for a stationary initial variance. -/

namespace Ajd.SvcjI
open Poly Ieziziz Finset

variable {R : Type} [CommRing R] [Algebra ℚ R]

/-! ### the conditional moment -/

/-- the Poly of `moment_y` of cond_mom.py -/
def cY (n : ℕ) : IPoly :=
  match condY n with
  | .ok r => r
  | .error _ => ⟨[], []⟩

theorem cY_ok (n : ℕ) : condY n = .ok (cY n) ∧ (cY n).keyfor = kfY ∧ (cY n).WF ∧ (cY n).Keys (KS 13 S13) := by
  obtain ⟨r, e, k, w, K, -⟩ := condY_spec (R := ℝ) n
  have : cY n = r := by unfold cY; rw [e]
  rw [this]
  exact ⟨e, k, w, K⟩

open MvPolynomial in
theorem cY_val (n : ℕ) (W : Wt R) (hW : W.rt ^ 2 = 1 - W.rh ^ 2) (E : MvPolynomial (Fin 6) R →ₗ[R] R)
    (hE : ∀ n1 n2 n3 n4 n5 n6 : ℕ, E (X 0 ^ n1 * X 1 ^ n2 * X 2 ^ n3 * X 3 ^ n4 * X 4 ^ n5 * X 5 ^ n6) =
        ev (w10 W) (momI n1 n2 n3 n4 n5 n6)) : ev (w13 W) (cY n) = E (yW W ^ n) := by
  obtain ⟨r, e, -, -, -, v⟩ := condY_spec (R := R) n
  have : cY n = r := by unfold cY; rw [e]
  rw [this]
  exact v W hW E hE

/-! ### `moment_v_theta` -/

/-- keyfor of `moment_v_theta` -/
def kfV : List String := ["k^{-}", "E[v]", "sigma", "lmbd", "mu_v"]

open Polynomial in
theorem vTheta_spec (d j : ℕ) (hd : j ≤ d) : ∃ r, vTheta d j = .ok r ∧ r.keyfor = kfV ∧ r.WF ∧ r.Keys (NN 5) ∧
    ∀ p : Srjd.Par, p.OK → ev (Srjd.vS p.k (p.theta + p.lmbd * p.mu_v / p.k) p.sigma p.lmbd p.mu_v) r =
      Srjd.Lp (Srjd.rmS p.k (p.theta + p.lmbd * p.mu_v / p.k) p.sigma p.lmbd p.mu_v) ((X - C p.theta) ^ j) := by
  obtain ⟨r, e, k, w, c, v⟩ := addLoop_spec kfV (vThetaTerms d j) (pyRange 0 ((j : ℤ) + 1)) (NN 5)
    (fun i : {p : Srjd.Par // p.OK} =>
      Srjd.vS i.1.k (i.1.theta + i.1.lmbd * i.1.mu_v / i.1.k) i.1.sigma i.1.lmbd i.1.mu_v)
    (fun i m => j.choose m.toNat * (i.1.lmbd * i.1.mu_v / i.1.k) ^ m.toNat *
      Srjd.cmS i.1.k (i.1.theta + i.1.lmbd * i.1.mu_v / i.1.k) i.1.sigma i.1.lmbd i.1.mu_v (j - m.toNat)) (by
      intro m hm
      rw [mem_pyRange] at hm
      obtain ⟨m, rfl⟩ := Int.eq_ofNat_of_zero_le hm.1
      obtain ⟨q, e, -, -, hk, hv⟩ := Srjd.ucmomentV_spec d (j - m) (by omega)
      refine ⟨_, by rw [vThetaTerms, show ((j : ℕ) : ℤ) - (m : ℤ) = ((j - m : ℕ) : ℤ) by omega, e, ok_bind]; rfl, ?_, ?_⟩
      · intro x hx
        obtain ⟨y, hy, rfl⟩ := List.mem_map.1 hx
        have h := (hk y hy).2
        have h0 := h 0; have h3 := h 3; have h4 := h 4
        exact Srjd.NN5 _ _ _ _ _ (by omega) (h 1) (h 2) (by omega) (by omega)
      · rintro ⟨p, hp⟩
        dsimp only at hp ⊢
        rw [List.map_map, Int.toNat_natCast, Int.toNat_natCast, ← hv p hp _, ev, ← List.sum_map_mul_left]
        congr 1
        refine List.map_congr_left fun y hy => ?_
        have h := (hk y hy).2
        simp only [Function.comp_def, Srjd.vS, ix_cons_zero, ix_cons_succ, Rat.smul_def]
        rw [zpow_add_nn _ _ _ (h 3) (by omega), zpow_add_nn _ _ _ (h 4) (by omega), neg_add, zpow_add₀ hp.k,
          zpow_neg _ (m : ℤ), div_pow, mul_pow]
        simp only [zpow_natCast]
        push_cast
        ring)
  refine ⟨r, e, k, w, c, fun p hp => ?_⟩
  have := v ⟨p, hp⟩
  dsimp only at this
  rw [this, Srjd.sum_pyRange, Srjd.Lp_shift, pow_comp, sub_comp, X_comp, C_comp]
  have e1 : (X + C (p.theta + p.lmbd * p.mu_v / p.k) - C p.theta : ℝ[X]) = C (p.lmbd * p.mu_v / p.k) + X := by
    rw [C_add]; ring
  rw [e1, add_pow, map_sum]
  refine sum_congr rfl fun i _ => ?_
  have e2 : (C (p.lmbd * p.mu_v / p.k) ^ i * X ^ (j - i) * (j.choose i : ℝ[X])) =
      C (j.choose i * (p.lmbd * p.mu_v / p.k) ^ i) * X ^ (j - i) := by
    rw [C_mul, C_pow, map_natCast]; ring
  rw [e2, Srjd.Lp_X]
  simp

/-- the Poly of `moment_v_theta` -/
def vT (d j : ℕ) : IPoly :=
  match vTheta d j with
  | .ok r => r
  | .error _ => ⟨[], []⟩

open Polynomial in
theorem vT_ok (d j : ℕ) (hd : j ≤ d) : vTheta d j = .ok (vT d j) ∧ (vT d j).keyfor = kfV ∧ (vT d j).Keys (NN 5) ∧
    ∀ p : Srjd.Par, p.OK → ev (Srjd.vS p.k (p.theta + p.lmbd * p.mu_v / p.k) p.sigma p.lmbd p.mu_v) (vT d j) =
      Srjd.Lp (Srjd.rmS p.k (p.theta + p.lmbd * p.mu_v / p.k) p.sigma p.lmbd p.mu_v) ((X - C p.theta) ^ j) := by
  obtain ⟨r, e, k, -, K, v⟩ := vTheta_spec d j hd
  have : vT d j = r := by unfold vT; rw [e]
  rw [this]
  exact ⟨e, k, K, v⟩

/-- value of a key of `moment_v_theta` -/
def w5 (W : Wt R) (K : List ℤ) : R := ((W.c ^ ix K 0 : Rˣ) : R) * (W.x ^ (ix K 1).toNat * (W.sg ^ (ix K 2).toNat *
  (W.lm ^ (ix K 3).toNat * W.mv ^ (ix K 4).toNat)))

/-- value of a key without the factor `v0-theta` -/
def wR (W : Wt R) (K : List ℤ) : R := w13 { W with x := 1 } K

/-! ### `key_times_poly` -/

theorem keyTimesU_spec (coef : ℚ) (K : List ℤ) (hK : KS 13 S13 K) (q : IPoly) (hq : q.Keys (NN 5)) :
    (keyTimesU coef K q).keyfor = kfU ∧ (keyTimesU coef K q).Keys (KS 13 S13) ∧
      ∀ W : Wt R, ev (w13 W) (keyTimesU coef K q) = coef • (wR W K * ev (w5 W) q) := by
  obtain ⟨a0, a1, a2, a3, a4, a5, a6, a7, a8, a9, a10, a11, a12, rfl⟩ := len13 K hK.1
  have hs := (KS13_iff _ _ _ _ _ _ _ _ _ _ _ _ _).1 hK
  refine ⟨by simp [keyTimesU], ofTerms_Keys _ _ _ ?_, fun W => ?_⟩
  · intro z hz
    obtain ⟨y, hy, rfl⟩ := List.mem_map.1 hz
    have h := (hq y hy).2
    have h1 := h 1; have h2 := h 2; have h3 := h 3; have h4 := h 4
    simp only [ix_cons_zero, ix_cons_succ]
    exact (KS13_iff _ _ _ _ _ _ _ _ _ _ _ _ _).2 (by omega)
  · rw [keyTimesU, ev_ofTerms, List.map_map, ev, ← List.sum_map_mul_left, List.smul_sum, List.map_map]
    congr 1
    refine List.map_congr_left fun y hy => ?_
    have h := (hq y hy).2
    simp only [Function.comp, ix_cons_zero, ix_cons_succ]
    rw [wR, w13_lit, w13_lit, w5, zpow_add, Int.toNat_add hs.2.2.2.2.1 (h 2), Int.toNat_add hs.2.2.2.2.2.2.1 (h 3),
      Int.toNat_add hs.2.2.2.2.2.2.2.1 (h 4), Algebra.smul_def, Algebra.smul_def, Algebra.smul_def]
    simp only [map_mul, Units.val_mul, pow_add, one_pow]
    ring

/-! ### `moment_y` -/

theorem uncY_spec (d n : ℕ) (hd : ∀ e ∈ (cY n).items, (ix e.1 4).toNat ≤ d) :
    ∃ r, uncY d n = .ok r ∧ r.keyfor = kfU ∧ r.WF ∧ r.Keys (KS 13 S13) ∧
      ∀ W : Wt R, ev (w13 W) r = ev (fun K => wR W K * ev (w5 W) (vT d (ix K 4).toNat)) (cY n) := by
  obtain ⟨e, -, -, K⟩ := cY_ok n
  obtain ⟨r, e1, k1, w1, -, K1, v1⟩ := mergeLoop_spec (ι := Wt R) (fun e : List ℤ × ℚ => do
      let pol1 ← vTheta d (ix e.1 4)
      pure (keyTimesU e.2 e.1 pol1)) (cY n).items ⟨kfU, []⟩ (KS 13 S13) w13
    (fun W e => e.2 • (wR W e.1 * ev (w5 W) (vT d (ix e.1 4).toNat))) (fun x hx => by simp at hx) (by
      intro e he
      have h4 : 0 ≤ ix e.1 4 := (K e he).2 4 (by simp [S13])
      obtain ⟨et, kt, Kt, -⟩ := vT_ok d (ix e.1 4).toNat (hd e he)
      rw [Int.toNat_of_nonneg h4] at et
      obtain ⟨ku, Ku, vu⟩ := keyTimesU_spec (R := R) e.2 e.1 (K e he) _ Kt
      exact ⟨_, by rw [et, ok_bind]; rfl, ku, Ku, vu⟩)
  refine ⟨r, by rw [uncY, e, ok_bind, e1], k1, w1 (WF_nil _), K1, fun W => ?_⟩
  rw [v1, ev_nil, zero_add]
  rfl

end Ajd.SvcjI

end -- SvcjU

section -- SvcjU2

/-! Central moments of the return of the SVCJ model. -/

namespace Ajd.SvcjI
open Poly Ieziziz Finset

variable {R : Type} [CommRing R] [Algebra ℚ R]

/-! ### central moments of a functional -/

section
variable {P : Type} [CommRing P] [Algebra R P]

omit [Algebra ℚ R] in
theorem F_alg (F : P →ₗ[R] R) (a : R) (z : P) : F (algebraMap R P a * z) = a * F z := by
  rw [← Algebra.smul_def, map_smul, smul_eq_mul]

omit [Algebra ℚ R] in
theorem central (F : P →ₗ[R] R) (y : P) (n : ℕ) : ∑ i ∈ range (n + 1), (n.choose i : R) * (-1) ^ i * F y ^ i *
    F (y ^ (n - i)) = F ((y - algebraMap R P (F y)) ^ n) := by
  rw [sub_eq_add_neg, add_comm y, add_pow, map_sum]
  refine sum_congr rfl fun i _ => ?_
  rw [← map_neg, ← map_pow (algebraMap R P), mul_assoc (algebraMap R P _), F_alg, mul_comm _ (n.choose i : P), ← map_natCast (algebraMap R P), F_alg,
    neg_pow]
  ring

omit [Algebra ℚ R] in
theorem central_shift (F : P →ₗ[R] R) (h1 : F 1 = 1) (y : P) (a : R) :
    y + algebraMap R P a - algebraMap R P (F (y + algebraMap R P a)) = y - algebraMap R P (F y) := by
  have := F_alg F a 1
  rw [mul_one, h1, mul_one] at this
  rw [map_add, this, map_add]
  ring
end

/-! ### the loop of the central moments -/

theorem one13_keys (kf : List String) : (one13 kf).Keys (KS 13 S13) := by
  intro y hy
  simp only [one13, List.mem_singleton] at hy
  subst hy
  exact (KS13_iff _ _ _ _ _ _ _ _ _ _ _ _ _).2 (by simp)

theorem one13_ev (kf : List String) (W : Wt R) : ev (w13 W) (one13 kf) = 1 := by
  simp [one13, ev, w13_lit]

theorem w13_mul (W : Wt R) : MulOn (KS 13 S13) (w13 W) := wq_mul W.e W.c W.v13 13 S13

theorem cLoop_spec (mom : ℤ → Except PyErr IPoly) (kf : List String) (r : ℕ → IPoly) (n : ℕ) (hn : 1 ≤ n)
    (hmom : ∀ j : ℕ, j ≤ n → mom j = .ok (r j) ∧ (r j).keyfor = kf ∧ (r j).Keys (KS 13 S13)) :
    ∃ q, mergeLoop (cTerm mom kf (r 1) n) (pyRange 0 ((n : ℤ) + 1)) ⟨kf, []⟩ = .ok q ∧ q.keyfor = kf ∧ q.WF ∧
      q.NoZero ∧ q.Keys (KS 13 S13) ∧ ∀ W : Wt R, ev (w13 W) q = ∑ i ∈ range (n + 1), (n.choose i : R) * (-1) ^ i *
        ev (w13 W) (r 1) ^ i * ev (w13 W) (r (n - i)) := by
  obtain ⟨q, e, k, w, z, K, v⟩ := mergeLoop_spec (ι := Wt R) (cTerm mom kf (r 1) n) (pyRange 0 ((n : ℤ) + 1))
    ⟨kf, []⟩ (KS 13 S13) w13 (fun W i => (n.choose i.toNat : R) * (-1) ^ i.toNat *
        ev (w13 W) (r 1) ^ i.toNat * ev (w13 W) (r (n - i.toNat))) (fun x hx => by simp at hx) (by
      intro i hi
      rw [mem_pyRange] at hi
      obtain ⟨i, rfl⟩ := Int.eq_ofNat_of_zero_le hi.1
      obtain ⟨e1, k1, K1⟩ := hmom 1 hn
      obtain ⟨e2, k2, K2⟩ := hmom (n - i) (by omega)
      obtain ⟨p1, ep, kp, Kp, vp⟩ : ∃ p1, (if (i : ℤ) = 0 then .ok (one13 kf) else (r 1).pow i) = .ok p1 ∧
          p1.keyfor = kf ∧ p1.Keys (KS 13 S13) ∧ ∀ W : Wt R, ev (w13 W) p1 = ev (w13 W) (r 1) ^ i := by
        by_cases h0 : i = 0
        · subst h0
          exact ⟨_, rfl, rfl, one13_keys kf, fun W => by rw [one13_ev, pow_zero]⟩
        · obtain ⟨p1, a, b, c, d⟩ := pow_on (r 1) 13 (KS 13 S13) (KS_add _ _) (fun k h => h.1) K1 i (by omega)
          exact ⟨p1, by rw [if_neg (by omega)]; exact a, by rw [b, k1], c, fun W => d _ (w13_mul W)⟩
      obtain ⟨q, eq, kq, -, -, Kq, vq⟩ := mul_on p1 (r (n - i)) (by rw [kp, k2]) 13 (KS 13 S13) (KS_add _ _)
        (fun k h => h.1) Kp K2
      obtain ⟨mk, mw, mn, mK⟩ := rmul_spec ((n.choose i : ℚ) * (-1) ^ i) q _ Kq
      refine ⟨_, ?_, by rw [mk, kq, kp], mK, fun W => ?_⟩
      · unfold cTerm
        dsimp only
        by_cases h0 : (i : ℤ) = 0
        · rw [if_pos h0] at ep ⊢
          rw [ep, ok_bind, show (n : ℤ) - (i : ℤ) = ((n - i : ℕ) : ℤ) by omega, e2, ok_bind, eq, ok_bind]
          rfl
        · rw [if_neg h0] at ep ⊢
          rw [ep, ok_bind, show (n : ℤ) - (i : ℤ) = ((n - i : ℕ) : ℤ) by omega, e2, ok_bind, eq, ok_bind]
          rfl
      · rw [ev_rmul, vq _ (w13_mul W), vp, Algebra.smul_def]
        simp
        ring)
  refine ⟨q, e, k, w (WF_nil _), z (by simp [NoZero]), K, fun W => ?_⟩
  rw [v, ev_nil, zero_add, Srjd.sum_pyRange]
  simp

/-! ### conditional central moments -/

theorem condC_spec (n : ℕ) : ∃ q, condC n = .ok q ∧ q.keyfor = kfY ∧ q.WF ∧ q.Keys (KS 13 S13) ∧
    ∀ W : Wt R, ev (w13 W) q = ∑ i ∈ range (n + 1), (n.choose i : R) * (-1) ^ i *
        ev (w13 W) (cY 1) ^ i * ev (w13 W) (cY (n - i)) := by
  have e1 : condY 1 = .ok (cY 1) := (cY_ok 1).1
  unfold condC
  rw [e1, ok_bind, if_neg (by omega)]
  rcases Nat.eq_zero_or_pos n with rfl | hn
  · refine ⟨_, rfl, rfl, by simp [WF, one13], one13_keys _, fun W => ?_⟩
    have h0 : cY 0 = one13 kfY := by unfold cY condY; rfl
    simp [h0, one13_ev]
  · rw [if_neg (by omega)]
    obtain ⟨q, e, k, w, z, K, v⟩ := cLoop_spec (R := R) condY kfY cY n hn fun j _ =>
      ⟨(cY_ok j).1, (cY_ok j).2.1, (cY_ok j).2.2.2⟩
    exact ⟨q, e, k, w, K, v⟩

/-! ### unconditional moments as a functional -/

/-- the Poly of `moment_y` of mom.py -/
def uY (d n : ℕ) : IPoly :=
  match uncY d n with
  | .ok r => r
  | .error _ => ⟨[], []⟩

/-- the depth of recursion that `moment_y(n)` needs -/
def depth (n : ℕ) : ℕ := ((cY n).items.map fun e => (ix e.1 4).toNat).foldl max 0

theorem le_foldl_max (l : List ℕ) (a x : ℕ) (h : x = a ∨ x ∈ l) : x ≤ l.foldl max a := by
  induction l generalizing a x with
  | nil => simp at h; simp [h]
  | cons b l ih =>
    rw [List.foldl_cons]
    have := ih (max a b) (max a b) (Or.inl rfl)
    rcases h with h | h
    · omega
    · rcases List.mem_cons.1 h with h | h
      · omega
      · exact ih _ _ (Or.inr h)

theorem uY_ok (d n : ℕ) (hd : depth n ≤ d) : uncY d n = .ok (uY d n) ∧ (uY d n).keyfor = kfU ∧ (uY d n).WF ∧
    (uY d n).Keys (KS 13 S13) := by
  obtain ⟨r, e, k, w, K, -⟩ := uncY_spec (R := ℝ) d n fun e he =>
    (le_foldl_max _ _ _ (Or.inr (List.mem_map.2 ⟨e, he, rfl⟩))).trans hd
  have : uY d n = r := by unfold uY; rw [e]
  rw [this]
  exact ⟨e, k, w, K⟩

theorem uY_val (d n : ℕ) (hd : depth n ≤ d) (W : Wt R) :
    ev (w13 W) (uY d n) = ev (fun K => wR W K * ev (w5 W) (vT d (ix K 4).toNat)) (cY n) := by
  obtain ⟨r, e, -, -, -, v⟩ := uncY_spec (R := R) d n fun e he =>
    (le_foldl_max _ _ _ (Or.inr (List.mem_map.2 ⟨e, he, rfl⟩))).trans hd
  have : uY d n = r := by unfold uY; rw [e]
  rw [this]
  exact v W

section
open Polynomial

/-- `v0-theta` is a variable -/
noncomputable def Wt.lift (W : Wt R) : Wt R[X] where
  e := Units.map (C : R →+* R[X]) W.e
  c := Units.map (C : R →+* R[X]) W.c
  t := C W.t
  mu := C W.mu
  x := X
  th := C W.th
  sg := C W.sg
  rh := C W.rh
  rt := C W.rt
  lm := C W.lm
  mv := C W.mv
  J := C W.J
  ms := C W.ms
  ss := C W.ss

/-- replaces the powers of `v0-theta` by their moments -/
noncomputable def Lam (W : Wt R) (d : ℕ) : R[X] →ₗ[R] R :=
  Polynomial.lsum fun j => ev (w5 W) (vT d j) • LinearMap.id

theorem Lam_X (W : Wt R) (d : ℕ) (a : R) (j : ℕ) : Lam W d (C a * X ^ j) = a * ev (w5 W) (vT d j) := by
  rw [Lam, lsum_apply, C_mul_X_pow_eq_monomial, Polynomial.sum_monomial_index _ _ (by simp)]
  simp [mul_comm]

omit [Algebra ℚ R] in
theorem lift_w13 (W : Wt R) (K : List ℤ) (hK : KS 13 S13 K) : w13 W.lift K = C (wR W K) * X ^ (ix K 4).toNat := by
  obtain ⟨a0, a1, a2, a3, a4, a5, a6, a7, a8, a9, a10, a11, a12, rfl⟩ := len13 K hK.1
  rw [wR, w13_lit, w13_lit]
  simp only [Wt.lift, ix_cons_zero, ix_cons_succ, map_mul, map_pow, one_pow, map_one, ← map_zpow, Units.coe_map,
    MonoidHom.coe_coe]
  ring

theorem map_ev {M N : Type} [AddCommGroup M] [AddCommGroup N] [Module ℚ M] [Module ℚ N] (g : M →+ N)
    (f : List ℤ → M) (q : IPoly) : g (ev f q) = ev (fun K => g (f K)) q := by
  unfold ev
  rw [map_list_sum, List.map_map]
  congr 1
  exact List.map_congr_left fun e _ => map_rat_smul g e.2 _

theorem Lam_ev (W : Wt R) (d n : ℕ) (hd : depth n ≤ d) :
    Lam W d (ev (w13 W.lift) (cY n)) = ev (w13 W) (uY d n) := by
  rw [uY_val d n hd W]
  have := map_ev (Lam W d).toAddMonoidHom (w13 W.lift) (cY n)
  refine this.trans (ev_congr _ _ _ fun e he => ?_)
  rw [lift_w13 W _ ((cY_ok n).2.2.2 e he)]
  exact Lam_X W d _ _

end

open MvPolynomial in
/-- the functional with the moments of the integrals -/
noncomputable def EW (W : Wt R) : MvPolynomial (Fin 6) R →ₗ[R] R :=
  (basisMonomials (Fin 6) R).constr R fun m => ev (w10 W) (momI (m 0) (m 1) (m 2) (m 3) (m 4) (m 5))

open MvPolynomial in
theorem EW_mon (W : Wt R) (n1 n2 n3 n4 n5 n6 : ℕ) :
    EW W (X 0 ^ n1 * X 1 ^ n2 * X 2 ^ n3 * X 3 ^ n4 * X 4 ^ n5 * X 5 ^ n6) =
      ev (w10 W) (momI n1 n2 n3 n4 n5 n6) := by
  let m : Fin 6 →₀ ℕ := Finsupp.equivFunOnFinite.symm ![n1, n2, n3, n4, n5, n6]
  have hm : (X 0 ^ n1 * X 1 ^ n2 * X 2 ^ n3 * X 3 ^ n4 * X 4 ^ n5 * X 5 ^ n6 : MvPolynomial (Fin 6) R) =
      basisMonomials (Fin 6) R m := by
    rw [coe_basisMonomials]
    show _ = monomial m 1
    rw [monomial_eq, C_1, one_mul, Finsupp.prod_fintype _ _ (by simp), Fin.prod_univ_six]
    rfl
  rw [hm, EW, Module.Basis.constr_basis]
  rfl

open MvPolynomial in
/-- the moments of the integrals and of the initial variance -/
noncomputable def FW (W : Wt R) (d : ℕ) : MvPolynomial (Fin 6) (Polynomial R) →ₗ[R] R :=
  Lam W d ∘ₗ (EW W.lift).restrictScalars R

theorem uY_FW (W : Wt R) (hW : W.rt ^ 2 = 1 - W.rh ^ 2) (d n : ℕ) (hd : depth n ≤ d) :
    ev (w13 W) (uY d n) = FW W d (yW W.lift ^ n) := by
  rw [← Lam_ev W d n hd, cY_val n W.lift (by
    simp only [Wt.lift, ← map_pow, hW, map_sub, map_one]) (EW W.lift) (EW_mon W.lift)]
  rfl

/-! ### unconditional central moments -/

/-- the depth for all orders up to `n` -/
def depthC (n : ℕ) : ℕ := ∑ i ∈ range (n + 2), depth i

theorem depth_le (n j : ℕ) (h : j ≤ n ∨ j ≤ 1) : depth j ≤ depthC n :=
  single_le_sum (f := depth) (fun _ _ => Nat.zero_le _) (mem_range.2 (by omega))

theorem cY0 : cY 0 = one13 kfY := by unfold cY condY; rfl

theorem uY0 (d : ℕ) (W : Wt R) (hd : depth 0 ≤ d) : ev (w13 W) (uY d 0) = 1 := by
  rw [uY_val d 0 hd, cY0]
  have h : vT d 0 = ⟨kfV, [([0, 0, 0, 0, 0], 1)]⟩ := by
    have h1 : Srjd.ucmomentV d ((0 : ℕ) - 0 : ℤ) = .ok ⟨kfV, [([0, 0, 0, 0, 0], 1)]⟩ := by
      rw [Srjd.ucmomentV]; rfl
    have h2 : vTheta d (0 : ℕ) = .ok ⟨kfV, [([0, 0, 0, 0, 0], 1)]⟩ := by
      unfold vTheta Srjd.addLoop
      rw [show pyRange 0 (((0 : ℕ) : ℤ) + 1) = [0] from rfl, List.mapM_cons, vThetaTerms, h1, ok_bind, List.mapM_nil]
      decide +kernel
    unfold vT
    rw [h2]
  simp only [one13, ev, List.map_cons, List.map_nil, List.sum_cons, List.sum_nil, wR, w13_lit]
  simp only [ix_cons_zero, ix_cons_succ]
  rw [show (0 : ℤ).toNat = 0 from rfl, h]
  simp [w5]

theorem uncC_spec (d n : ℕ) (hd : depthC n ≤ d) : ∃ q, uncC d n = .ok q ∧ q.keyfor = kfU ∧ q.WF ∧
    q.Keys (KS 13 S13) ∧ ∀ W : Wt R, ev (w13 W) q = ∑ i ∈ range (n + 1), (n.choose i : R) * (-1) ^ i *
        ev (w13 W) (uY d 1) ^ i * ev (w13 W) (uY d (n - i)) := by
  have e1 : uncY d 1 = .ok (uY d 1) := (uY_ok d 1 ((depth_le n 1 (Or.inr le_rfl)).trans hd)).1
  have h0 := (depth_le n 0 (Or.inr zero_le_one)).trans hd
  unfold uncC
  rw [e1, ok_bind, if_neg (by omega)]
  rcases Nat.lt_or_ge n 2 with hn | hn
  · match n, hn with
    | 0, _ =>
      refine ⟨_, rfl, rfl, by simp [WF, one13], one13_keys _, fun W => ?_⟩
      simp [one13_ev, uY0 d W h0]
    | 1, _ =>
      refine ⟨_, rfl, rfl, by simp [WF], ?_, fun W => ?_⟩
      · intro y hy
        simp only [List.mem_singleton] at hy
        subst hy
        exact (KS13_iff _ _ _ _ _ _ _ _ _ _ _ _ _).2 (by simp)
      · simp [ev, sum_range_succ]
        have := uY0 d W h0
        unfold ev at this
        rw [this]
        ring
  · rw [if_neg (by omega), if_neg (by omega)]
    obtain ⟨q, e, k, w, z, K, v⟩ := cLoop_spec (R := R) (uncY d) kfU (uY d) n (by omega) fun j hj =>
      have h := uY_ok d j ((depth_le n j (Or.inl hj)).trans hd)
      ⟨h.1, h.2.1, h.2.2.2⟩
    exact ⟨q, e, k, w, K, v⟩

end Ajd.SvcjI

end -- SvcjU2

section -- SvcjU3

/-! The central moments of the return of the SVCJ model do not depend on `mu`. -/

namespace Ajd.SvcjI
open Poly Ieziziz Finset

variable {R : Type} [CommRing R] [Algebra ℚ R]

theorem FW_one (W : Wt R) (hW : W.rt ^ 2 = 1 - W.rh ^ 2) (d : ℕ) (hd : depth 0 ≤ d) : FW W d 1 = 1 := by
  have := uY_FW W hW d 0 hd
  rw [pow_zero] at this
  rw [← this, uY0 d W hd]

theorem unc_central (W : Wt R) (hW : W.rt ^ 2 = 1 - W.rh ^ 2) (d n : ℕ) (hd : depthC n ≤ d) :
    ∑ i ∈ range (n + 1), (n.choose i : R) * (-1) ^ i * ev (w13 W) (uY d 1) ^ i * ev (w13 W) (uY d (n - i)) =
      FW W d ((yW W.lift - algebraMap R _ (FW W d (yW W.lift))) ^ n) := by
  rw [← central]
  refine sum_congr rfl fun i _ => ?_
  rw [uY_FW W hW d 1 ((depth_le n 1 (Or.inr le_rfl)).trans hd),
    uY_FW W hW d (n - i) ((depth_le n _ (Or.inl (by omega))).trans hd), pow_one]

/-- the same without `mu` -/
def Wt.mu0 (W : Wt R) : Wt R := { W with mu := 0 }

theorem FW_mu0 (W : Wt R) (d : ℕ) : FW W.mu0 d = FW W d := rfl

theorem yW_mu0 (W : Wt R) : yW W.lift = yW W.mu0.lift + algebraMap R _ (W.mu * W.t) := by
  have h : algebraMap R (MvPolynomial (Fin 6) (Polynomial R)) (W.mu * W.t) =
      MvPolynomial.C (Polynomial.C (W.mu * W.t)) := rfl
  rw [h]
  simp only [yW, Wt.lift, Wt.mu0, map_zero, map_mul, map_sub]
  ring

theorem uncC_mu0 (d n : ℕ) (hd : depthC n ≤ d) (q : IPoly) (hq : uncC d n = .ok q) (W : Wt R)
    (hW : W.rt ^ 2 = 1 - W.rh ^ 2) : ev (w13 W) q = ev (w13 W.mu0) q := by
  obtain ⟨q', e, -, -, -, v⟩ := uncC_spec (R := R) d n hd
  obtain rfl := Except.ok.inj (hq.symm.trans e)
  rw [v, v, unc_central W hW d n hd, unc_central W.mu0 hW d n hd, FW_mu0, yW_mu0,
    central_shift (FW W d) (FW_one W hW d ((depth_le n 0 (Or.inr zero_le_one)).trans hd))]

/-! ### keys are linearly independent -/

/-- Laurent polynomials -/
abbrev LA := AddMonoidAlgebra ℚ (Fin 13 → ℤ)

/-- a variable -/
noncomputable def gU (i : Fin 13) : LAˣ :=
  (AddMonoidAlgebra.of ℚ (Fin 13 → ℤ)).toHomUnits (Multiplicative.ofAdd (Pi.single i 1))

noncomputable def WA : Wt LA where
  e := gU 0
  c := gU 2
  t := gU 1
  mu := gU 3
  x := gU 4
  th := gU 5
  sg := gU 6
  rh := gU 7
  rt := 0
  lm := gU 8
  mv := gU 9
  J := gU 10
  ms := gU 11
  ss := gU 12

theorem gU_pow (i : Fin 13) (a : ℤ) (h : 0 ≤ a) : (gU i : LA) ^ a.toNat = ((gU i ^ a : LAˣ) : LA) := by
  obtain ⟨n, rfl⟩ := Int.eq_ofNat_of_zero_le h
  simp

/-- the exponents of a key -/
def expo (K : List ℤ) : Fin 13 → ℤ := fun i => ix K i

theorem w13_WA (K : List ℤ) (hK : KS 13 S13 K) : w13 WA K = AddMonoidAlgebra.single (expo K) 1 := by
  obtain ⟨a0, a1, a2, a3, a4, a5, a6, a7, a8, a9, a10, a11, a12, rfl⟩ := len13 K hK.1
  have hs := (KS13_iff _ _ _ _ _ _ _ _ _ _ _ _ _).1 hK
  rw [w13_lit]
  simp only [WA]
  rw [gU_pow _ _ hs.1, gU_pow _ _ hs.2.1, gU_pow _ _ hs.2.2.1, gU_pow _ _ hs.2.2.2.1,
    gU_pow _ _ hs.2.2.2.2.1, gU_pow _ _ hs.2.2.2.2.2.1, gU_pow _ _ hs.2.2.2.2.2.2.1,
    gU_pow _ _ hs.2.2.2.2.2.2.2.1, gU_pow _ _ hs.2.2.2.2.2.2.2.2.1, gU_pow _ _ hs.2.2.2.2.2.2.2.2.2.1,
    gU_pow _ _ hs.2.2.2.2.2.2.2.2.2.2]
  simp only [← Units.val_mul, gU, ← map_zpow, ← map_mul]
  show AddMonoidAlgebra.single _ _ = _
  congr 1
  simp only [← ofAdd_zsmul, ← ofAdd_add, toAdd_ofAdd]
  funext i
  fin_cases i <;> simp [expo, ix, Pi.single_apply]

theorem expo_inj (K K' : List ℤ) (h : K.length = 13) (h' : K'.length = 13) (e : expo K = expo K') : K = K' := by
  obtain ⟨a0, a1, a2, a3, a4, a5, a6, a7, a8, a9, a10, a11, a12, rfl⟩ := len13 K h
  obtain ⟨b0, b1, b2, b3, b4, b5, b6, b7, b8, b9, b10, b11, b12, rfl⟩ := len13 K' h'
  have := fun i => congrFun e i
  have h0 := this 0; have h1 := this 1; have h2 := this 2; have h3 := this 3; have h4 := this 4
  have h5 := this 5; have h6 := this 6; have h7 := this 7; have h8 := this 8; have h9 := this 9
  have h10 := this 10; have h11 := this 11; have h12 := this 12
  simp [expo, ix] at h0 h1 h2 h3 h4 h5 h6 h7 h8 h9 h10 h11 h12
  simp [*]

theorem w13_mu0 (W : Wt R) (K : List ℤ) (hK : KS 13 S13 K) : w13 W.mu0 K = if ix K 3 = 0 then w13 W K else 0 := by
  obtain ⟨a0, a1, a2, a3, a4, a5, a6, a7, a8, a9, a10, a11, a12, rfl⟩ := len13 K hK.1
  have hs := (KS13_iff _ _ _ _ _ _ _ _ _ _ _ _ _).1 hK
  rw [w13_lit, w13_lit]
  simp only [Wt.mu0, ix_cons_zero, ix_cons_succ]
  split_ifs with h
  · subst h; simp
  · have : a3.toNat ≠ 0 := by omega
    simp [this, h]

/-- with a root of `1 - rho^2` -/
abbrev LQ := QuadraticAlgebra LA (1 - WA.rh ^ 2) 0

noncomputable def WQ : Wt LQ where
  e := Units.map (algebraMap LA LQ) WA.e
  c := Units.map (algebraMap LA LQ) WA.c
  t := algebraMap LA LQ WA.t
  mu := algebraMap LA LQ WA.mu
  x := algebraMap LA LQ WA.x
  th := algebraMap LA LQ WA.th
  sg := algebraMap LA LQ WA.sg
  rh := algebraMap LA LQ WA.rh
  rt := QuadraticAlgebra.omega
  lm := algebraMap LA LQ WA.lm
  mv := algebraMap LA LQ WA.mv
  J := algebraMap LA LQ WA.J
  ms := algebraMap LA LQ WA.ms
  ss := algebraMap LA LQ WA.ss

theorem WQ_rt : WQ.rt ^ 2 = 1 - WQ.rh ^ 2 := by
  show (QuadraticAlgebra.omega : LQ) ^ 2 = 1 - (algebraMap LA LQ WA.rh) ^ 2
  rw [pow_two, QuadraticAlgebra.omega_mul_omega_eq_add, zero_smul, add_zero, ← Algebra.algebraMap_eq_smul_one,
    map_sub, map_one, map_pow]

theorem w13_WQ (K : List ℤ) (hK : KS 13 S13 K) : w13 WQ K = algebraMap LA LQ (w13 WA K) := by
  obtain ⟨a0, a1, a2, a3, a4, a5, a6, a7, a8, a9, a10, a11, a12, rfl⟩ := len13 K hK.1
  rw [w13_lit, w13_lit]
  simp only [WQ, map_mul, map_pow, ← map_zpow, Units.coe_map, MonoidHom.coe_coe]

theorem WA_mu0 (d n : ℕ) (hd : depthC n ≤ d) (q : IPoly) (hq : uncC d n = .ok q) :
    ev (fun K => if ix K 3 = 0 then w13 WA K else 0) q = ev (w13 WA) q := by
  have h := uncC_mu0 d n hd q hq WQ WQ_rt
  obtain ⟨q', e, -, -, hK, -⟩ := uncC_spec (R := ℝ) d n hd
  obtain rfl := Except.ok.inj (hq.symm.trans e)
  have inj : Function.Injective (algebraMap LA LQ) := QuadraticAlgebra.C_injective
  apply inj
  have m1 := map_ev (algebraMap LA LQ).toAddMonoidHom (w13 WA) q
  have m2 := map_ev (algebraMap LA LQ).toAddMonoidHom (fun K => if ix K 3 = 0 then w13 WA K else 0) q
  refine m2.trans (Eq.trans ?_ m1.symm)
  have e1 : ev (w13 WQ) q = ev (fun K => (algebraMap LA LQ).toAddMonoidHom (w13 WA K)) q :=
    ev_congr _ _ _ fun e he => w13_WQ e.1 (hK e he)
  rw [← e1, h]
  refine ev_congr _ _ _ fun e he => ?_
  rw [w13_mu0 WQ e.1 (hK e he), w13_WQ e.1 (hK e he)]
  split_ifs
  · rfl
  · exact map_zero _

/-- No entry with a power of `mu` is left in a central moment. -/
theorem uncC_no_mu (d n : ℕ) (hd : depthC n ≤ d) (q : IPoly) (hq : uncC d n = .ok q) :
    ∀ e ∈ q.removeZero.items, ix e.1 3 = 0 := by
  obtain ⟨q', e, -, hw, hK, -⟩ := uncC_spec (R := ℝ) d n hd
  obtain rfl := Except.ok.inj (hq.symm.trans e)
  intro a ha
  by_contra hne
  have ha' : a ∈ q.items := by
    simp [removeZero] at ha
    exact ha.1
  have hv := removeZero_NoZero q a ha
  have hc : q.coeff a.1 = a.2 := by
    unfold Poly.coeff
    rw [dget_eq_some_of_mem q.items hw a.1 a.2 ha']
    rfl
  let g : LA →+ ℚ := (Finsupp.applyAddHom (expo a.1)).comp AddMonoidAlgebra.coeffAddEquiv.toAddMonoidHom
  have hg : ∀ K, KS 13 S13 K → g (w13 WA K) = if K = a.1 then 1 else 0 := by
    intro K h
    rw [w13_WA K h]
    show (Finsupp.single (expo K) (1 : ℚ)) (expo a.1) = _
    rw [Finsupp.single_apply]
    have : expo K = expo a.1 ↔ K = a.1 := ⟨expo_inj _ _ h.1 (hK a ha').1, fun h => by rw [h]⟩
    simp only [this]
  have h := congrArg g (WA_mu0 d n hd q hq)
  rw [map_ev, map_ev] at h
  have e1 : ev (fun K => g (w13 WA K)) q = q.coeff a.1 := by
    rw [coeff_eq_ev q hw]
    exact ev_congr _ _ _ fun e he => hg e.1 (hK e he)
  have e2 : ev (fun K => g (if ix K 3 = 0 then w13 WA K else 0)) q = 0 := by
    have : ev (fun _ : List ℤ => (0 : ℚ)) q = 0 := by simp [ev]
    rw [← this]
    refine ev_congr _ _ _ fun e he => ?_
    split_ifs with h3
    · rw [hg e.1 (hK e he), if_neg]
      intro hh
      rw [hh] at h3
      exact hne h3
    · exact map_zero g
  rw [e1, e2, hc] at h
  exact hv h.symm

end Ajd.SvcjI

end -- SvcjU3

section -- SvcjU4

/-! The moments of the return of the SVCJ model with a stationary initial variance. -/

namespace Ajd.SvcjI
open Poly Ieziziz Finset

/-- the polynomial in the initial variance -/
noncomputable def atV : MvPolynomial (Fin 2) ℝ →ₐ[ℝ] Polynomial ℝ := MvPolynomial.aeval ![Polynomial.X, 0]

theorem Start.eq {E0 : MvPolynomial (Fin 2) ℝ →ₗ[ℝ] ℝ} {M : ℕ → ℝ} (h : Start E0 M) (f : MvPolynomial (Fin 2) ℝ) :
    E0 f = Srjd.Lp M (atV f) := by
  suffices hs : E0 = Srjd.Lp M ∘ₗ atV.toLinearMap by rw [hs]; rfl
  refine (MvPolynomial.basisMonomials (Fin 2) ℝ).ext fun s => ?_
  have hm : MvPolynomial.basisMonomials (Fin 2) ℝ s =
      MvPolynomial.X 0 ^ s 0 * MvPolynomial.X 1 ^ s 1 := by
    rw [MvPolynomial.coe_basisMonomials]
    show MvPolynomial.monomial s 1 = _
    rw [MvPolynomial.monomial_eq, MvPolynomial.C_1, one_mul, Finsupp.prod_fintype _ _ (by simp), Fin.prod_univ_two]
  rw [hm, LinearMap.comp_apply, AlgHom.toLinearMap_apply]
  cases s 1 with
  | zero =>
    rw [pow_zero, mul_one, h.v, map_pow, atV, MvPolynomial.aeval_X]
    have := Srjd.Lp_X M 1 (s 0)
    rw [map_one, one_mul, one_mul] at this
    exact this.symm
  | succ b =>
    rw [pow_succ', mul_left_comm, h.y, map_mul, atV, MvPolynomial.aeval_X]
    simp

theorem eval_atV (f : MvPolynomial (Fin 2) ℝ) (v : ℝ) :
    (atV f).eval v = MvPolynomial.aeval ![v, 0] f := by
  induction f using MvPolynomial.induction_on with
  | C a => simp [atV]
  | add p q hp hq => rw [map_add, Polynomial.eval_add, hp, hq, map_add]
  | mul_X p i hp =>
    rw [map_mul, Polynomial.eval_mul, hp, map_mul]
    congr 1
    fin_cases i <;> simp [atV]

theorem numY_x (p : SPar) (x : ℝ) (K : List ℤ) (h : KS 13 S13 K) : numY p x K = numY p 1 K * x ^ (ix K 4).toNat := by
  have h4 : 0 ≤ ix K 4 := h.2 4 (by simp [S13])
  unfold numY
  rw [one_zpow, ← zpow_toNat' x _ h4]
  ring

open Polynomial in
/-- the conditional moment as a polynomial in the initial variance -/
noncomputable def polyV (p : SPar) (n : ℕ) : ℝ[X] :=
  ev (fun K => C (numY p 1 K) * (X - C p.theta) ^ (ix K 4).toNat) (cY n)

theorem polyV_eval (p : SPar) (n : ℕ) (v : ℝ) : (polyV p n).eval v = ev (numY p (v - p.theta)) (cY n) := by
  have := map_ev (Polynomial.evalRingHom v).toAddMonoidHom (fun K => Polynomial.C (numY p 1 K) *
    (Polynomial.X - Polynomial.C p.theta) ^ (ix K 4).toNat) (cY n)
  refine Eq.trans this (ev_congr _ _ _ fun e he => ?_)
  rw [numY_x p (v - p.theta) _ ((cY_ok n).2.2.2 e he)]
  simp

theorem cY_num (n : ℕ) (p : SPar) (hp : Ok p) (E : ℝ → MvPolynomial (Fin 2) ℝ →ₗ[ℝ] ℝ)
    (hE : p.sde.Dynkin (MvPolynomial.aeval ![p.v0, 0]).toLinearMap E) :
    poly2numC (cY n) p = E p.h (MvPolynomial.X 1 ^ n) := by
  obtain ⟨r, e, -, -, -, v⟩ := condY_num n
  have : cY n = r := by unfold cY; rw [e]
  rw [this]
  exact v p hp E hE

theorem w5_real (p : SPar) (hk : p.k ≠ 0) (x : ℝ) (K : List ℤ) (hK : NN 5 K) :
    w5 (realW p hk x) K = Srjd.vS p.k x p.sigma p.lmbd p.mu_v K := by
  unfold w5 Srjd.vS
  simp only [realW, Units.val_zpow_eq_zpow_val, Units.val_mk0, inv_zpow, zpow_neg]
  rw [zpow_toNat' _ _ (hK.2 1), zpow_toNat' _ _ (hK.2 2), zpow_toNat' _ _ (hK.2 3), zpow_toNat' _ _ (hK.2 4)]
  ring

theorem poly2numU_eq (q : IPoly) (p : SPar) : poly2numU q p = ev (numY p (p.theta + p.lmbd * p.mu_v / p.k)) q := by
  unfold poly2numU ev
  generalize q.items = l
  generalize p.theta + p.lmbd * p.mu_v / p.k = x
  have : ∀ a : ℝ, l.foldl (fun f e => f + numY p x e.1 * e.2) a =
      a + (l.map fun kv => kv.2 • numY p x kv.1).sum := by
    induction l with
    | nil => simp
    | cons b l ih =>
      intro a
      rw [List.foldl_cons, ih, List.map_cons, List.sum_cons, Rat.smul_def]
      ring
  rw [this, zero_add]

theorem uY_num (d n : ℕ) (hd : depth n ≤ d) (p : SPar) (hp : Ok p) (hl : 0 ≤ p.lmbd)
    (E0 : MvPolynomial (Fin 2) ℝ →ₗ[ℝ] ℝ) (M : ℕ → ℝ) (h0 : Start E0 M)
    (hM : Srjd.Stationary p.k p.theta p.sigma p.lmbd p.mu_v M) (E : ℝ → MvPolynomial (Fin 2) ℝ →ₗ[ℝ] ℝ)
    (hE : p.sde.Dynkin E0 E) : poly2numU (uY d n) p = E p.h (MvPolynomial.X 1 ^ n) := by
  have hc := sY_coef p.toPar hp.mu_v p.mu p.theta p.sigma p.rho p.rhoJ
  have hm := momY p.toPar hp.mu_v p.rhoJ
  obtain ⟨Q, hQ⟩ := Gen.dynkin_exists hc hm
  have h1 : E p.h (MvPolynomial.X 1 ^ n) = E0 (Q p.h (MvPolynomial.X 1 ^ n)) := by
    rw [Gen.dynkin_unique hc hm hE (hQ E0) p.h hp.h]
    rfl
  have h2 : atV (Q p.h (MvPolynomial.X 1 ^ n)) = polyV p n := by
    refine Polynomial.funext fun v => ?_
    rw [polyV_eval, eval_atV]
    have := cY_num n { p with v0 := v } ⟨hp.k, hp.rho, hp.mu_v, hp.h⟩ _ (hQ (MvPolynomial.aeval ![v, 0]).toLinearMap)
    rw [poly2numC_eq] at this
    exact this.symm
  have hM' : M = Srjd.rmS p.k (p.theta + p.lmbd * p.mu_v / p.k) p.sigma p.lmbd p.mu_v :=
    funext fun i => Srjd.stat_unique hp.k hp.mu_v hM (Srjd.stat_rmS _ _ _ _ _ hp.k hp.mu_v) i
  obtain ⟨-, -, -, hU⟩ := uY_ok d n hd
  rw [h1, h0.eq, h2, poly2numU_eq, ← w13_ev p hp.k _ _ hU, uY_val d n hd, polyV]
  refine (Eq.trans (map_ev (Srjd.Lp M).toAddMonoidHom _ _) (ev_congr _ _ _ fun e he => ?_)).symm
  have hK := (cY_ok n).2.2.2 e he
  have hle : (ix e.1 4).toNat ≤ d := (le_foldl_max _ _ _ (Or.inr (List.mem_map.2 ⟨e, he, rfl⟩))).trans hd
  obtain ⟨-, -, vK, vv⟩ := vT_ok d (ix e.1 4).toNat hle
  have e1 : wR (realW p hp.k (p.theta + p.lmbd * p.mu_v / p.k)) e.1 = numY p 1 e.1 := w13_real p hp.k 1 e.1 hK
  have e2 : ev (w5 (realW p hp.k (p.theta + p.lmbd * p.mu_v / p.k))) (vT d (ix e.1 4).toNat) =
      Srjd.Lp M ((Polynomial.X - Polynomial.C p.theta) ^ (ix e.1 4).toNat) := by
    rw [ev_congr _ _ _ fun e he => w5_real p hp.k _ e.1 (vK e he), hM']
    exact vv ⟨p.v0, p.k, p.theta, p.sigma, p.lmbd, p.mu_v, p.h⟩ ⟨hp.k, hl, hp.mu_v⟩
  rw [e1, e2]
  show Srjd.Lp M (Polynomial.C (numY p 1 e.1) * _) = _
  rw [← Polynomial.smul_eq_C_mul, map_smul, smul_eq_mul]

/-! ### central moments -/

theorem condC_num (n : ℕ) : ∃ q, condC n = .ok q ∧ q.keyfor = kfY ∧ q.WF ∧
    ∀ (p : SPar) (_ : Ok p) (E : ℝ → MvPolynomial (Fin 2) ℝ →ₗ[ℝ] ℝ)
      (_ : p.sde.Dynkin (MvPolynomial.aeval ![p.v0, 0]).toLinearMap E),
      poly2numC q p = E p.h ((MvPolynomial.X 1 - MvPolynomial.C (E p.h (MvPolynomial.X 1))) ^ n) := by
  obtain ⟨q, e, k, w, K, v⟩ := condC_spec (R := ℝ) n
  refine ⟨q, e, k, w, fun p hp E hE => ?_⟩
  have h : ∀ j, ev (w13 (realW p hp.k (p.v0 - p.theta))) (cY j) = E p.h (MvPolynomial.X 1 ^ j) := fun j => by
    rw [w13_ev p hp.k _ _ (cY_ok j).2.2.2, ← poly2numC_eq, cY_num j p hp E hE]
  rw [poly2numC_eq, ← w13_ev p hp.k _ _ K, v]
  have := central (R := ℝ) (E p.h) (MvPolynomial.X 1) n
  rw [MvPolynomial.algebraMap_eq] at this
  rw [← this]
  exact sum_congr rfl fun i _ => by rw [h, h, pow_one]

theorem uncC_num (d n : ℕ) (hd : depthC n ≤ d) : ∃ q, uncC d n = .ok q ∧ q.keyfor = kfU ∧ q.WF ∧
    q.Keys (KS 13 S13) ∧
    ∀ (p : SPar) (_ : Ok p) (_ : 0 ≤ p.lmbd) (E0 : MvPolynomial (Fin 2) ℝ →ₗ[ℝ] ℝ) (M : ℕ → ℝ) (_ : Start E0 M)
      (_ : Srjd.Stationary p.k p.theta p.sigma p.lmbd p.mu_v M) (E : ℝ → MvPolynomial (Fin 2) ℝ →ₗ[ℝ] ℝ)
      (_ : p.sde.Dynkin E0 E),
      poly2numU q p = E p.h ((MvPolynomial.X 1 - MvPolynomial.C (E p.h (MvPolynomial.X 1))) ^ n) := by
  obtain ⟨q, e, k, w, K, v⟩ := uncC_spec (R := ℝ) d n hd
  refine ⟨q, e, k, w, K, fun p hp hl E0 M h0 hM E hE => ?_⟩
  have h : ∀ j, (j ≤ n ∨ j ≤ 1) → ev (w13 (realW p hp.k (p.theta + p.lmbd * p.mu_v / p.k))) (uY d j) =
      E p.h (MvPolynomial.X 1 ^ j) := fun j hj => by
    have hj := (depth_le n j hj).trans hd
    rw [w13_ev p hp.k _ _ (uY_ok d j hj).2.2.2, ← poly2numU_eq, uY_num d j hj p hp hl E0 M h0 hM E hE]
  rw [poly2numU_eq, ← w13_ev p hp.k _ _ K, v]
  have := central (R := ℝ) (E p.h) (MvPolynomial.X 1) n
  rw [MvPolynomial.algebraMap_eq] at this
  rw [← this]
  exact sum_congr rfl fun i _ => by rw [h 1 (Or.inr le_rfl), h (n - i) (Or.inl (by omega)), pow_one]

/-- `remove_mu_column` -/
theorem removeMu_spec (q : IPoly) (hq : q.Keys (KS 13 S13)) (h3 : ∀ e ∈ q.removeZero.items, ix e.1 3 = 0)
    (ψ : SPar → List ℤ → ℝ) (hψ : ∀ p a0 a1 a2 a4 a5 a6 a7 a8 a9 a10 a11 a12,
      ψ p [-a0, a1, a2, a4, a5, a6, a7, a8, a9, a10, a11, a12] =
        numY p (p.theta + p.lmbd * p.mu_v / p.k) [a0, a1, a2, 0, a4, a5, a6, a7, a8, a9, a10, a11, a12]) :
    ∃ r, removeMu q = .ok r ∧ r.keyfor = ["e^{-kt}", "t", "k^{-}", "E[v]", "theta", "sigma", "rho", "lmbd", "mu_v",
      "rhoJ", "mu_s", "sigma_s"] ∧ r.WF ∧ ∀ p, ev (ψ p) r = poly2numU q p := by
  obtain ⟨r, e, k, w, -, v⟩ := subst_spec (ι := SPar) ["e^{-kt}", "t", "k^{-}", "E[v]", "theta", "sigma", "rho", "lmbd",
      "mu_v", "rhoJ", "mu_s", "sigma_s"] (fun e : List ℤ × ℚ => if ix e.1 3 = 0 then
      .ok [([-ix e.1 0, ix e.1 1, ix e.1 2] ++ e.1.drop 4, e.2)] else .error .exception) q.removeZero (fun _ => True)
    ψ (fun p => numY p (p.theta + p.lmbd * p.mu_v / p.k)) (by
      intro e he
      have h := h3 e he
      have hK := removeZero_Keys _ _ hq e he
      refine ⟨_, if_pos h, fun _ _ => trivial, fun p => ?_⟩
      obtain ⟨a0, a1, a2, a3, a4, a5, a6, a7, a8, a9, a10, a11, a12, hE⟩ := len13 e.1 hK.1
      rw [hE] at h ⊢
      simp only [ix_cons_zero, ix_cons_succ] at h
      subst h
      simp only [ix_cons_zero, ix_cons_succ, List.map_cons, List.map_nil, List.sum_cons, List.sum_nil, add_zero]
      rw [← hψ]
      rfl)
  refine ⟨r, e, k, w, fun p => ?_⟩
  rw [v, ev_removeZero, poly2numU_eq]

end Ajd.SvcjI

end -- SvcjU4
