import Verif.Lemmas.PolyAlg
import Verif.Lemmas.Table
import Mathlib.Analysis.Calculus.Deriv.Add
import Mathlib.Analysis.Calculus.Deriv.Mul

/-! Products of Polys whose keys satisfy a predicate closed under addition, so that monomials may be
evaluated where some variable is zero. -/

namespace Ajd
namespace Poly

/-- `P` is closed under component-wise addition -/
def AddClosed (P : List ℤ → Prop) : Prop :=
  ∀ k1 k2, P k1 → P k2 → P (List.zipWith (· + ·) k1 k2)

/-- `f` is multiplicative on keys with `P` -/
def MulOn {R : Type*} [Mul R] (P : List ℤ → Prop) (f : List ℤ → R) : Prop :=
  ∀ k1 k2, P k1 → P k2 → f (List.zipWith (· + ·) k1 k2) = f k1 * f k2

/-- `n` components, non-negative wherever the variable vanishes -/
def OKAt (x : ℕ → ℝ) (n : ℕ) (k : List ℤ) : Prop :=
  k.length = n ∧ ∀ i, x i = 0 → 0 ≤ ix k i

/-- `n` non-negative components -/
def NN (n : ℕ) (k : List ℤ) : Prop := k.length = n ∧ ∀ i, 0 ≤ ix k i

theorem ix_zipWith (k1 k2 : List ℤ) (h : k1.length = k2.length) (i : ℕ) :
    ix (List.zipWith (· + ·) k1 k2) i = ix k1 i + ix k2 i := by
  unfold ix
  by_cases hi : i < k1.length
  · simp only [List.getD_eq_getElem?_getD]
    rw [List.getElem?_eq_getElem (by simp; omega), List.getElem?_eq_getElem (by omega),
      List.getElem?_eq_getElem (by omega)]
    simp
  · simp only [List.getD_eq_getElem?_getD]
    rw [List.getElem?_eq_none (by simp; omega), List.getElem?_eq_none (by omega),
      List.getElem?_eq_none (by omega)]
    simp

theorem NN.okAt {n : ℕ} {k : List ℤ} (h : NN n k) (x : ℕ → ℝ) : OKAt x n k :=
  ⟨h.1, fun i _ => h.2 i⟩

theorem addClosed_NN (n : ℕ) : AddClosed (NN n) := by
  intro k1 k2 h1 h2
  refine ⟨by simp [h1.1, h2.1], fun i => ?_⟩
  rw [ix_zipWith _ _ (by rw [h1.1, h2.1])]
  have := h1.2 i; have := h2.2 i; omega

theorem addClosed_OKAt (x : ℕ → ℝ) (n : ℕ) : AddClosed (OKAt x n) := by
  intro k1 k2 h1 h2
  refine ⟨by simp [h1.1, h2.1], fun i hi => ?_⟩
  rw [ix_zipWith _ _ (by rw [h1.1, h2.1])]
  have := h1.2 i hi; have := h2.2 i hi; omega

theorem zpow_add_ok (x : ℝ) (a b : ℤ) (ha : x = 0 → 0 ≤ a) (hb : x = 0 → 0 ≤ b) :
    x ^ (a + b) = x ^ a * x ^ b := by
  by_cases h : x = 0
  · obtain ⟨a, rfl⟩ := Int.eq_ofNat_of_zero_le (ha h)
    obtain ⟨b, rfl⟩ := Int.eq_ofNat_of_zero_le (hb h)
    have : ((a : ℤ) + (b : ℤ)) = ((a + b : ℕ) : ℤ) := by push_cast; rfl
    rw [this, zpow_natCast, zpow_natCast, zpow_natCast, pow_add]
  · exact zpow_add₀ h a b

theorem mono_mulOn (x : ℕ → ℝ) (n : ℕ) : MulOn (OKAt x n) (mono x) := by
  intro k1 k2 h1 h2
  unfold mono
  have hl : (List.zipWith (· + ·) k1 k2).length = k1.length := by simp [h1.1, h2.1]
  have hl2 : k2.length = k1.length := by rw [h1.1, h2.1]
  rw [hl, hl2, ← Finset.prod_mul_distrib]
  apply Finset.prod_congr rfl
  intro i _
  have := ix_zipWith k1 k2 hl2.symm i
  unfold ix at this
  rw [this]
  exact zpow_add_ok _ _ _ (h1.2 i) (h2.2 i)

theorem mono_mulOn_NN (x : ℕ → ℝ) (n : ℕ) : MulOn (NN n) (mono x) :=
  fun k1 k2 h1 h2 => mono_mulOn x n k1 k2 (h1.okAt x) (h2.okAt x)

theorem mul_on (p q : IPoly) (h : p.keyfor = q.keyfor) (n : ℕ) (P : List ℤ → Prop)
    (hc : AddClosed P) (hn : ∀ k, P k → k.length = n) (hp : p.Keys P) (hq : q.Keys P) :
    ∃ r, p.mul q = .ok r ∧ r.keyfor = p.keyfor ∧ r.WF ∧ r.NoZero ∧ r.Keys P ∧
      ∀ {R : Type} [CommRing R] [Algebra ℚ R] (f : List ℤ → R), MulOn P f →
        ev f r = ev f p * ev f q := by
  refine ⟨_, mul_eq p q h n (fun x hx => hn _ (hp x hx)) (fun x hx => hn _ (hq x hx)), by simp,
    removeZero_WF _ (ofTerms_WF _ _), removeZero_NoZero _, ?_, ?_⟩
  · apply removeZero_Keys
    apply ofTerms_Keys
    intro x hx
    obtain ⟨t, ht, rfl⟩ := List.mem_map.1 hx
    obtain ⟨a, ha, b, hb, rfl⟩ := (mem_pairs _ _ _).1 ht
    exact hc _ _ (hp a ha) (hq b hb)
  · intro R _ _ f hf
    rw [ev_removeZero, ev_ofTerms]
    unfold ev
    rw [← sum_pairs f f, List.map_map]
    congr 1
    apply List.map_congr_left
    intro t ht
    obtain ⟨a, ha, b, hb, rfl⟩ := (mem_pairs _ _ _).1 ht
    simp only [Function.comp]
    rw [hf _ _ (hp a ha) (hq b hb)]

theorem powLoop_on (p : IPoly) (n : ℕ) (P : List ℤ → Prop)
    (hc : AddClosed P) (hn : ∀ k, P k → k.length = n) (hp : p.Keys P) (m : ℕ) (acc : IPoly)
    (hk : acc.keyfor = p.keyfor) (ha : acc.Keys P) :
    ∃ r, powLoop p m acc = .ok r ∧ r.keyfor = p.keyfor ∧ r.Keys P ∧
      ∀ {R : Type} [CommRing R] [Algebra ℚ R] (f : List ℤ → R), MulOn P f →
        ev f r = ev f acc * ev f p ^ m := by
  induction m generalizing acc with
  | zero => exact ⟨acc, rfl, hk, ha, by intros; simp⟩
  | succ m ih =>
    obtain ⟨r1, e1, k1, w1, z1, l1, v1⟩ := mul_on acc p hk n P hc hn ha hp
    obtain ⟨r, e, k, l, v⟩ := ih r1 (k1.trans hk) l1
    refine ⟨r, ?_, k, l, ?_⟩
    · simp only [powLoop, e1]; exact e
    · intro R _ _ f hf
      rw [v f hf, v1 f hf, pow_succ]; ring

theorem pow_on (p : IPoly) (n : ℕ) (P : List ℤ → Prop)
    (hc : AddClosed P) (hn : ∀ k, P k → k.length = n) (hp : p.Keys P) (m : ℤ) (hm : 1 ≤ m) :
    ∃ r, p.pow m = .ok r ∧ r.keyfor = p.keyfor ∧ r.Keys P ∧
      ∀ {R : Type} [CommRing R] [Algebra ℚ R] (f : List ℤ → R), MulOn P f →
        ev f r = ev f p ^ m.toNat := by
  obtain ⟨r, e, k, l, v⟩ := powLoop_on p n P hc hn hp (m - 1).toNat p rfl hp
  refine ⟨r, by rw [pow, if_neg (by omega)]; exact e, k, l, fun f hf => ?_⟩
  rw [v f hf, ← pow_succ']
  congr 1; omega

section
variable {K L : Type} [DecidableEq K]

theorem ev_ofTerms_flatMap {M : Type*} [AddCommMonoid M] [Module ℚ M] (f : K → M) (g : L → M)
    (kf : List String) (p : Poly L) (t : L × ℚ → List (K × ℚ))
    (h : ∀ e ∈ p.items, ((t e).map fun kv => kv.2 • f kv.1).sum = e.2 • g e.1) :
    ev f (ofTerms kf (p.items.flatMap t)) = ev g p := by
  rw [ev_ofTerms]
  unfold ev
  generalize p.items = l at h ⊢
  induction l with
  | nil => rfl
  | cons a l ih =>
    rw [List.flatMap_cons, List.map_append, List.sum_append, h a (by simp),
      ih fun e he => h e (by simp [he]), List.map_cons, List.sum_cons]

theorem ev_ofTerms_map {M : Type*} [AddCommMonoid M] [Module ℚ M] (f : K → M) (g : L → M)
    (kf : List String) (p : Poly L) (t : L × ℚ → K × ℚ)
    (h : ∀ e ∈ p.items, (t e).2 • f (t e).1 = e.2 • g e.1) :
    ev f (ofTerms kf (p.items.map t)) = ev g p := by
  rw [ev_ofTerms, List.map_map]
  unfold ev
  congr 1
  exact List.map_congr_left h

omit [DecidableEq K] in
theorem ev_congr {M : Type*} [AddCommMonoid M] [Module ℚ M] (f g : K → M) (p : Poly K)
    (h : ∀ e ∈ p.items, f e.1 = g e.1) : ev f p = ev g p := by
  unfold ev
  congr 1
  exact List.map_congr_left fun e he => by rw [h e he]

omit [DecidableEq K] in
theorem ev_add_fun {M : Type*} [AddCommMonoid M] [Module ℚ M] (f g : K → M) (p : Poly K) :
    ev (fun k => f k + g k) p = ev f p + ev g p := by
  unfold ev
  rw [← List.sum_map_add]
  congr 1
  exact List.map_congr_left fun e _ => smul_add _ _ _

omit [DecidableEq K] in
theorem ev_mul_const (c : ℝ) (f : K → ℝ) (p : Poly K) :
    ev (fun k => c * f k) p = c * ev f p := by
  unfold ev
  rw [← List.sum_map_mul_left]
  congr 1
  exact List.map_congr_left fun e _ => by simp only [Rat.smul_def]; ring

omit [DecidableEq K] in
theorem hasDerivAt_ev (f : ℝ → K → ℝ) (f' : K → ℝ) (p : Poly K) (s : ℝ)
    (h : ∀ e ∈ p.items, HasDerivAt (fun s => f s e.1) (f' e.1) s) :
    HasDerivAt (fun s => ev (f s) p) (ev f' p) s := by
  unfold ev
  generalize p.items = l at h ⊢
  induction l with
  | nil => simpa using hasDerivAt_const s (0 : ℝ)
  | cons a l ih =>
    simp only [List.map_cons, List.sum_cons]
    refine HasDerivAt.add ?_ (ih fun e he => h e (by simp [he]))
    simp only [Rat.smul_def]
    exact (h a (by simp)).const_mul _

end
end Poly
end Ajd
