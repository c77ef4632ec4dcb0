import Verif.Lemmas.PolyOn
import Verif.Lemmas.Loop

/-! Products of Polys whose keys are graded. -/

namespace Ajd
namespace Poly

/-- `G` is a grading compatible with component-wise addition -/
def GAdd (G : ℤ → List ℤ → Prop) : Prop :=
  ∀ a b k1 k2, G a k1 → G b k2 → G (a + b) (List.zipWith (· + ·) k1 k2)

/-- `f` is multiplicative on graded keys -/
def GMul {R : Type*} [Mul R] (G : ℤ → List ℤ → Prop) (f : List ℤ → R) : Prop :=
  ∀ a b k1 k2, G a k1 → G b k2 → f (List.zipWith (· + ·) k1 k2) = f k1 * f k2

variable {G : ℤ → List ℤ → Prop} {n : ℕ} (hc : GAdd G) (hn : ∀ a k, G a k → k.length = n)
include hc hn

theorem gmul_on (p q : IPoly) (h : p.keyfor = q.keyfor) (a b : ℤ) (hp : p.Keys (G a))
    (hq : q.Keys (G b)) :
    ∃ r, p.mul q = .ok r ∧ r.keyfor = p.keyfor ∧ r.WF ∧ r.NoZero ∧ r.Keys (G (a + b)) ∧
      ∀ {R : Type} [CommRing R] [Algebra ℚ R] (f : List ℤ → R), GMul G f →
        ev f r = ev f p * ev f q := by
  refine ⟨_, mul_eq p q h n (fun x hx => hn _ _ (hp x hx)) (fun x hx => hn _ _ (hq x hx)), by simp,
    removeZero_WF _ (ofTerms_WF _ _), removeZero_NoZero _, ?_, ?_⟩
  · apply removeZero_Keys
    apply ofTerms_Keys
    intro x hx
    obtain ⟨t, ht, rfl⟩ := List.mem_map.1 hx
    obtain ⟨y, hy, z, hz, rfl⟩ := (mem_pairs _ _ _).1 ht
    exact hc _ _ _ _ (hp y hy) (hq z hz)
  · intro R _ _ f hf
    rw [ev_removeZero, ev_ofTerms]
    unfold ev
    rw [← sum_pairs f f, List.map_map]
    congr 1
    apply List.map_congr_left
    intro t ht
    obtain ⟨y, hy, z, hz, rfl⟩ := (mem_pairs _ _ _).1 ht
    simp only [Function.comp]
    rw [hf _ _ _ _ (hp y hy) (hq z hz)]

theorem gpowLoop_on (p : IPoly) (a : ℤ) (hp : p.Keys (G a)) (m : ℕ) (acc : IPoly)
    (hk : acc.keyfor = p.keyfor) (b : ℤ) (ha : acc.Keys (G b)) :
    ∃ r, powLoop p m acc = .ok r ∧ r.keyfor = p.keyfor ∧ r.Keys (G (b + m * a)) ∧
      ∀ {R : Type} [CommRing R] [Algebra ℚ R] (f : List ℤ → R), GMul G f →
        ev f r = ev f acc * ev f p ^ m := by
  induction m generalizing acc b with
  | zero => exact ⟨acc, rfl, hk, by simpa using ha, by intros; simp⟩
  | succ m ih =>
    obtain ⟨r1, e1, k1, w1, z1, l1, v1⟩ := gmul_on hc hn acc p hk b a ha hp
    obtain ⟨r, e, k, l, v⟩ := ih r1 (k1.trans hk) _ l1
    refine ⟨r, ?_, k, ?_, ?_⟩
    · simp only [powLoop, e1]; exact e
    · have : b + ((m + 1 : ℕ) : ℤ) * a = b + a + m * a := by push_cast; ring
      rw [this]; exact l
    · intro R _ _ f hf
      rw [v f hf, v1 f hf, pow_succ]; ring

theorem gpow_on (p : IPoly) (a : ℤ) (hp : p.Keys (G a)) (m : ℤ) (hm : 1 ≤ m) :
    ∃ r, p.pow m = .ok r ∧ r.keyfor = p.keyfor ∧ r.Keys (G (m * a)) ∧
      ∀ {R : Type} [CommRing R] [Algebra ℚ R] (f : List ℤ → R), GMul G f →
        ev f r = ev f p ^ m.toNat := by
  obtain ⟨r, e, k, l, v⟩ := gpowLoop_on hc hn p a hp (m - 1).toNat p rfl a hp
  refine ⟨r, by rw [pow, if_neg (by omega)]; exact e, k, ?_, fun f hf => ?_⟩
  · have h : (((m - 1).toNat : ℕ) : ℤ) = m - 1 := by omega
    rw [h, show a + (m - 1) * a = m * a by ring] at l
    exact l
  · rw [v f hf, ← pow_succ']
    congr 1; omega

end Poly
end Ajd
