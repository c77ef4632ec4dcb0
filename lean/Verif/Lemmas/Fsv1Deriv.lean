import Verif.Lemmas.Fsv1Inst
import Verif.Lemmas.Deriv

namespace Ajd.Fsv1
open Poly

theorem dpoly_spec (P : IPoly) (hP : P.Keys M8) (p : Par) (wrt : String) (hw : wrt ∈ wrts)
    (hk : wrt = "k" → p.k ≠ 0) (hρ : wrt = "rho" → 0 < 1 - p.ρ ^ 2) :
    ∃ d, dpoly P wrt = .ok d ∧
      HasDerivAt (fun s => poly2num P (p.set wrt s)) (poly2num d p) (p.get wrt) := by
  simp only [poly2num_eq]
  simp only [wrts, List.mem_cons, List.not_mem_nil, or_false] at hw
  rcases hw with rfl | rfl | rfl | rfl | rfl
  · refine ⟨_, by simp [dpoly]; rfl, ?_⟩
    simp only [Par.set, Par.get]
    have := deriv_k kfM p.h (fun s => bmVal { p with k := s }) (fun key => p.μ ^ ix key 3 *
      p.θ ^ ix key 4 * p.σ ^ ix key 5 * p.ρ ^ ix key 6 * sq p.ρ (ix key 7))
      (fun s key => by simp only [bmVal]; ring)
      (fun key a => by simp [ix_modify_ne]) (fun key a => by simp [ix_modify_ne]) P p.k (hk rfl)
      (fun e he => by obtain ⟨_, _⟩ := hP e he; omega)
    exact this
  · refine ⟨_, by simp [dpoly]; rfl, ?_⟩
    have := deriv_pow 3 kfM (fun s => bmVal { p with μ := s }) (fun key =>
      Real.exp (-(ix key 0) * p.k * p.h) * p.h ^ ix key 1 * p.k ^ (-ix key 2) *
      p.θ ^ ix key 4 * p.σ ^ ix key 5 * p.ρ ^ ix key 6 * sq p.ρ (ix key 7))
      (fun s key => by simp only [bmVal]; ring)
      (fun key a => by simp [ix_modify_ne]) P p.μ
      (fun e he => by obtain ⟨_, _⟩ := hP e he; omega)
    exact this
  · refine ⟨_, by simp [dpoly]; rfl, ?_⟩
    have := deriv_pow 4 kfM (fun s => bmVal { p with θ := s }) (fun key =>
      Real.exp (-(ix key 0) * p.k * p.h) * p.h ^ ix key 1 * p.k ^ (-ix key 2) *
      p.μ ^ ix key 3 * p.σ ^ ix key 5 * p.ρ ^ ix key 6 * sq p.ρ (ix key 7))
      (fun s key => by simp only [bmVal]; ring)
      (fun key a => by simp [ix_modify_ne]) P p.θ
      (fun e he => by obtain ⟨_, _⟩ := hP e he; omega)
    exact this
  · refine ⟨_, by simp [dpoly]; rfl, ?_⟩
    have := deriv_pow 5 kfM (fun s => bmVal { p with σ := s }) (fun key =>
      Real.exp (-(ix key 0) * p.k * p.h) * p.h ^ ix key 1 * p.k ^ (-ix key 2) *
      p.μ ^ ix key 3 * p.θ ^ ix key 4 * p.ρ ^ ix key 6 * sq p.ρ (ix key 7))
      (fun s key => by simp only [bmVal]; ring)
      (fun key a => by simp [ix_modify_ne]) P p.σ
      (fun e he => by obtain ⟨_, _⟩ := hP e he; omega)
    exact this
  · refine ⟨_, by simp [dpoly]; rfl, ?_⟩
    have := deriv_rho 6 kfM (fun s => bmVal { p with ρ := s }) (fun key =>
      Real.exp (-(ix key 0) * p.k * p.h) * p.h ^ ix key 1 * p.k ^ (-ix key 2) *
      p.μ ^ ix key 3 * p.θ ^ ix key 4 * p.σ ^ ix key 5)
      (fun s key => by simp only [bmVal]; ring)
      (fun key a => by simp [ix_modify_ne]) (fun key a => by simp [ix_modify_ne]) P p.ρ (hρ rfl)
      (fun e he => by obtain ⟨_, _⟩ := hP e he; omega)
    exact this

theorem dpolyC_spec (P : IPoly) (hP : P.Keys C7) (p : Par) (wrt : String) (hw : wrt ∈ wrts)
    (hk : wrt = "k" → p.k ≠ 0) (hρ : wrt = "rho" → 0 < 1 - p.ρ ^ 2) :
    ∃ d, dpolyC P wrt = .ok d ∧
      HasDerivAt (fun s => poly2numC P (p.set wrt s)) (poly2numC d p) (p.get wrt) := by
  simp only [poly2numC_eq]
  simp only [wrts, List.mem_cons, List.not_mem_nil, or_false] at hw
  rcases hw with rfl | rfl | rfl | rfl | rfl
  · refine ⟨_, by simp [dpolyC]; rfl, ?_⟩
    have := deriv_k kfC p.h (fun s => cVal { p with k := s }) (fun key =>
      p.θ ^ ix key 3 * p.σ ^ ix key 4 * p.ρ ^ ix key 5 * sq p.ρ (ix key 6))
      (fun s key => by simp only [cVal]; ring)
      (fun key a => by simp [ix_modify_ne]) (fun key a => by simp [ix_modify_ne]) P p.k (hk rfl)
      (fun e he => by obtain ⟨_, _⟩ := hP e he; omega)
    exact this
  · refine ⟨_, by simp [dpolyC]; rfl, ?_⟩
    have h : (fun s => ev (cVal (p.set "mu" s)) P) = fun _ => ev (cVal p) P := by
      funext s
      rfl
    rw [h]
    simpa [ev] using hasDerivAt_const (p.get "mu") (ev (cVal p) P)
  · refine ⟨_, by simp [dpolyC]; rfl, ?_⟩
    have := deriv_pow 3 kfC (fun s => cVal { p with θ := s }) (fun key =>
      Real.exp (-(ix key 0) * p.k * p.h) * p.h ^ ix key 1 * p.k ^ (-ix key 2) *
      p.σ ^ ix key 4 * p.ρ ^ ix key 5 * sq p.ρ (ix key 6))
      (fun s key => by simp only [cVal]; ring)
      (fun key a => by simp [ix_modify_ne]) P p.θ
      (fun e he => by obtain ⟨_, _⟩ := hP e he; omega)
    exact this
  · refine ⟨_, by simp [dpolyC]; rfl, ?_⟩
    have := deriv_pow 4 kfC (fun s => cVal { p with σ := s }) (fun key =>
      Real.exp (-(ix key 0) * p.k * p.h) * p.h ^ ix key 1 * p.k ^ (-ix key 2) *
      p.θ ^ ix key 3 * p.ρ ^ ix key 5 * sq p.ρ (ix key 6))
      (fun s key => by simp only [cVal]; ring)
      (fun key a => by simp [ix_modify_ne]) P p.σ
      (fun e he => by obtain ⟨_, _⟩ := hP e he; omega)
    exact this
  · refine ⟨_, by simp [dpolyC]; rfl, ?_⟩
    have := deriv_rho 5 kfC (fun s => cVal { p with ρ := s }) (fun key =>
      Real.exp (-(ix key 0) * p.k * p.h) * p.h ^ ix key 1 * p.k ^ (-ix key 2) *
      p.θ ^ ix key 3 * p.σ ^ ix key 4)
      (fun s key => by simp only [cVal]; ring)
      (fun key a => by simp [ix_modify_ne]) (fun key a => by simp [ix_modify_ne]) P p.ρ (hρ rfl)
      (fun e he => by obtain ⟨_, _⟩ := hP e he; omega)
    exact this

theorem dpoly_error (P : IPoly) (wrt : String) (hw : wrt ∉ wrts) :
    dpoly P wrt = .error .valueError ∧ dpolyC P wrt = .error .valueError := by
  simp only [wrts, List.mem_cons, List.not_mem_nil, or_false, not_or] at hw
  obtain ⟨h1, h2, h3, h4, h5⟩ := hw
  simp [dpoly, dpolyC, h1, h2, h3, h4, h5]

end Ajd.Fsv1
