import Verif.Gcd.Theory
import Mathlib.RingTheory.Multiplicity
import Mathlib.RingTheory.PrincipalIdealDomain
import Mathlib.Algebra.EuclideanDomain.Int
import Mathlib.Algebra.Polynomial.Derivative
import Mathlib.Algebra.MvPolynomial.PDeriv
import Mathlib.Algebra.Squarefree.Basic

/-! # Multiplicities of prime factors and the partial derivative -/

namespace CLPoly
namespace Mgcd
open MvPolynomial
open Dense (IsGcd)

section
variable {A : Type*} [CommRing A] [IsDomain A] [WfDvdMonoid A] {P F G D : A}

/-- multiplicity of `P` in `F` -/
noncomputable def nu (P F : A) : ℕ := multiplicity P F

theorem nu_fin (hP : Prime P) (hF : F ≠ 0) : FiniteMultiplicity P F := FiniteMultiplicity.of_prime_left hP hF

theorem pow_dvd_iff_nu (hP : Prime P) (hF : F ≠ 0) {k : ℕ} : P ^ k ∣ F ↔ k ≤ nu P F := (nu_fin hP hF).pow_dvd_iff_le_multiplicity

theorem dvd_iff_nu (hP : Prime P) (hF : F ≠ 0) : P ∣ F ↔ nu P F ≠ 0 := by
  have := pow_dvd_iff_nu hP hF (k := 1)
  rw [pow_one] at this
  rw [this]; omega

theorem nu_eq_of (hP : Prime P) (hF : F ≠ 0) {n : ℕ} (h : ∀ k, P ^ k ∣ F ↔ k ≤ n) : nu P F = n := by
  have h1 := (h (nu P F)).1 ((pow_dvd_iff_nu hP hF).2 le_rfl)
  have h2 := (pow_dvd_iff_nu hP hF).1 ((h n).2 le_rfl)
  omega

theorem nu_mul (hP : Prime P) (hF : F ≠ 0) (hG : G ≠ 0) : nu P (F * G) = nu P F + nu P G := multiplicity_mul hP (nu_fin hP (mul_ne_zero hF hG))

theorem nu_unit (hP : Prime P) (hF : IsUnit F) : nu P F = 0 := by
  by_contra h
  exact hP.not_isUnit (isUnit_of_dvd_unit ((dvd_iff_nu hP hF.ne_zero).2 h) hF)

/-- squarefree means that no prime divides twice -/
theorem squarefree_of_nu (hF : F ≠ 0) (hprime : ∀ a : A, Irreducible a → Prime a) (h : ∀ P, Prime P → nu P F ≤ 1) : Squarefree F := by
  intro Q hQ
  by_contra hu
  have hQ0 : Q ≠ 0 := by rintro rfl; exact hF (by simpa using hQ)
  obtain ⟨P, hP, hPQ⟩ := WfDvdMonoid.exists_irreducible_factor hu hQ0
  have := (pow_dvd_iff_nu (hprime P hP) hF (k := 2)).1 (by rw [pow_two]; exact (mul_dvd_mul hPQ hPQ).trans hQ)
  have := h P (hprime P hP)
  omega

theorem isRelPrime_of_prime (hF : F ≠ 0) (hprime : ∀ a : A, Irreducible a → Prime a) (h : ∀ P, Prime P → P ∣ F → ¬ P ∣ G) : IsRelPrime F G := by
  intro Q h1 h2
  by_contra hu
  have hQ0 : Q ≠ 0 := by rintro rfl; exact hF (by simpa using h1)
  obtain ⟨P, hP, hPQ⟩ := WfDvdMonoid.exists_irreducible_factor hu hQ0
  exact h P (hprime P hP) (hPQ.trans h1) (hPQ.trans h2)

end

section
variable {R : Type*} [CommRing R]

theorem toU_pderiv (v : Var) (f : MvPolynomial Var R) : toU v (pderiv v f) = Polynomial.derivative (toU v f) := by
  induction f using MvPolynomial.induction_on' with
  | add f g hf hg => rw [map_add, map_add, map_add, hf, hg, Polynomial.derivative_add]
  | monomial s a =>
    rw [pderiv_monomial, toU_monomial, toU_monomial, Polynomial.derivative_mul, Polynomial.derivative_C, zero_mul, zero_add, Polynomial.derivative_X_pow]
    by_cases h : s v = 0
    · simp [h]
    have e1 : (s - Finsupp.single v 1).erase v = s.erase v := by
      ext w
      by_cases hw : w = v
      · subst hw; simp
      · simp [Finsupp.erase_ne hw, Finsupp.single_apply, Ne.symm hw]
    have e2 : (s - Finsupp.single v 1 : Var →₀ ℕ) v = s v - 1 := by simp
    rw [e1, e2]
    have e3 : monomial (s.erase v) (a * (s v : R)) = monomial (s.erase v) a * ((s v : ℕ) : MvPolynomial Var R) := by
      have : ((s v : ℕ) : MvPolynomial Var R) = C ((s v : ℕ) : R) := by simp
      rw [this, mul_comm (monomial (s.erase v) a), C_mul_monomial, mul_comm]
    rw [e3]
    simp only [map_mul, map_natCast]
    ring

end

variable {v : Var} {P f g : MvPolynomial Var ℤ}

theorem pderiv_lt (h : 0 < P.degreeOf v) : pderiv v P ≠ 0 ∧ (pderiv v P).degreeOf v < P.degreeOf v := by
  rw [← natDegree_toU] at h ⊢
  refine ⟨fun hc => ?_, ?_⟩
  · have : Polynomial.derivative (toU v P) = 0 := by rw [← toU_pderiv, hc, map_zero]
    have := Polynomial.natDegree_eq_zero_of_derivative_eq_zero this
    omega
  · rw [← natDegree_toU, toU_pderiv]
    exact Polynomial.natDegree_derivative_lt (by omega)

theorem prime_not_dvd_pderiv (h : 0 < P.degreeOf v) : ¬ P ∣ pderiv v P := by
  intro hd
  obtain ⟨h1, h2⟩ := pderiv_lt h
  have := degreeOf_le_of_dvd (v := v) hd h1
  omega

theorem pow_dvd_pderiv {k e : ℕ} (h : P ^ e ∣ f) (hk : k + 1 ≤ e) : P ^ k ∣ pderiv v f := by
  obtain ⟨q, rfl⟩ := h
  obtain ⟨m, rfl⟩ := Nat.exists_eq_add_of_le hk
  rw [Derivation.leibniz, Derivation.leibniz_pow]
  refine dvd_add ?_ ?_
  · rw [smul_eq_mul]; exact (pow_dvd_pow P (by omega)).mul_right _
  · rw [smul_eq_mul, smul_eq_mul, nsmul_eq_mul]
    refine Dvd.dvd.mul_left ?_ _
    refine Dvd.dvd.mul_left ?_ _
    exact (pow_dvd_pow P (by omega)).mul_right _

theorem not_pow_dvd_pderiv (hP : Prime P) (h : 0 < P.degreeOf v) (hf : f ≠ 0) (he : nu P f ≠ 0) : ¬ P ^ nu P f ∣ pderiv v f := by
  obtain ⟨q, hq⟩ := (pow_dvd_iff_nu hP hf).2 (le_refl (nu P f))
  obtain ⟨e, hee⟩ : ∃ e, nu P f = e + 1 := ⟨nu P f - 1, by omega⟩
  rw [hee] at hq ⊢
  have hq' : ¬ P ∣ q := fun hd => by
    have : P ^ (e + 2) ∣ f := by rw [hq, pow_succ]; exact mul_dvd_mul_left _ hd
    have := (pow_dvd_iff_nu hP hf).1 this
    omega
  intro hd
  rw [hq, Derivation.leibniz, Derivation.leibniz_pow] at hd
  simp only [smul_eq_mul, nsmul_eq_mul, Nat.add_sub_cancel] at hd
  rw [dvd_add_right (dvd_mul_right _ _)] at hd
  have e1 : q * (((e + 1 : ℕ) : MvPolynomial Var ℤ) * (P ^ e * pderiv v P)) = P ^ e * (q * ((e + 1 : ℕ) : MvPolynomial Var ℤ) * pderiv v P) := by ring
  rw [e1, pow_succ] at hd
  have hd := (mul_dvd_mul_iff_left (pow_ne_zero e hP.ne_zero)).1 hd
  rcases hP.dvd_or_dvd hd with hd | hd
  · rcases hP.dvd_or_dvd hd with hd | hd
    · exact hq' hd
    · have h0 : ((e + 1 : ℕ) : MvPolynomial Var ℤ) ≠ 0 := by exact_mod_cast Nat.succ_ne_zero e
      have h1 : (((e + 1 : ℕ) : MvPolynomial Var ℤ)).degreeOf v = 0 := by
        have : (((e + 1 : ℕ) : MvPolynomial Var ℤ)) = C ((e + 1 : ℕ) : ℤ) := by simp
        rw [this, degreeOf_C]
      have := degreeOf_le_of_dvd (v := v) hd h0
      omega
  · exact prime_not_dvd_pderiv h hd

/-- the gcd with the derivative: every multiplicity goes down by one -/
theorem nu_gcd_pderiv (hP : Prime P) (h : 0 < P.degreeOf v) (hf : f ≠ 0) (hg : IsGcd g f (pderiv v f)) : nu P g = nu P f - 1 := by
  have g0 : g ≠ 0 := by rintro rfl; exact hf (zero_dvd_iff.1 hg.1)
  refine nu_eq_of hP g0 fun k => ?_
  have e : P ^ k ∣ g ↔ P ^ k ∣ f ∧ P ^ k ∣ pderiv v f := ⟨fun hk => ⟨hk.trans hg.1, hk.trans hg.2.1⟩, fun hk => hg.2.2 _ hk.1 hk.2⟩
  rw [e, pow_dvd_iff_nu hP hf]
  constructor
  · rintro ⟨h1, h2⟩
    by_contra hc
    have : nu P f = k := by omega
    have h0 : nu P f ≠ 0 := by omega
    exact not_pow_dvd_pderiv hP h hf h0 (this ▸ h2)
  · intro hk
    refine ⟨by omega, ?_⟩
    by_cases h0 : nu P f = 0
    · rw [h0] at hk
      rw [Nat.le_zero.1 hk, pow_zero]; exact one_dvd _
    exact pow_dvd_pderiv ((pow_dvd_iff_nu hP hf).2 le_rfl) (by omega)

theorem PrimWrt.prime_deg {v : Var} {f P : MvPolynomial Var ℤ} (h : PrimWrt v f) (hP : Prime P) (hd : P ∣ f) : 0 < P.degreeOf v := by
  by_contra hc
  exact hP.not_isUnit (h P (degreeOf_zero_iff.1 (by omega)) hd)

/-- for primitive polynomials: all primes -/
theorem PrimWrt.nu_gcd (hf : PrimWrt v f) (hg : IsGcd g f (pderiv v f)) (hP : Prime P) : nu P g = nu P f - 1 := by
  by_cases hd : P ∣ f
  · exact nu_gcd_pderiv hP (hf.prime_deg hP hd) hf.ne_zero hg
  · have h1 : nu P f = 0 := by
      by_contra hc; exact hd ((dvd_iff_nu hP hf.ne_zero).2 hc)
    have g0 : g ≠ 0 := by rintro rfl; exact hf.ne_zero (zero_dvd_iff.1 hg.1)
    by_contra hc
    exact hd (((dvd_iff_nu hP g0).2 (by omega)).trans hg.1)

/-- divisibility by comparing multiplicities -/
theorem dvd_of_nu (hf : f ≠ 0) (h : ∀ P, Prime P → nu P f ≤ nu P g) : f ∣ g := by
  by_cases hg : g = 0
  · rw [hg]; exact dvd_zero _
  induction f using WfDvdMonoid.induction_on_irreducible generalizing g with
  | zero => exact absurd rfl hf
  | unit u hu => exact hu.dvd
  | mul a i ha hi ih =>
    have hP := hi.prime
    have h1 : i ∣ g := by
      rw [dvd_iff_nu hP hg]
      have := h i hP
      rw [nu_mul hP hi.ne_zero ha] at this
      have h2 : nu i i ≠ 0 := (dvd_iff_nu hP hi.ne_zero).1 dvd_rfl
      omega
    obtain ⟨k, rfl⟩ := h1
    have k0 : k ≠ 0 := right_ne_zero_of_mul hg
    refine mul_dvd_mul_left _ (ih ha (fun P hP => ?_) k0)
    have := h P hP
    rw [nu_mul hP hi.ne_zero ha, nu_mul hP hi.ne_zero k0] at this
    omega

/-- a polynomial all of whose prime factors are constants is a constant -/
theorem vars_of_primes (hf : f ≠ 0) (h : ∀ P, Prime P → P ∣ f → P.vars = ∅) : f.vars = ∅ := by
  induction f using WfDvdMonoid.induction_on_irreducible with
  | zero => exact absurd rfl hf
  | unit u hu =>
    have := vars_of_dvd (hu.dvd (a := (1 : MvPolynomial Var ℤ))) one_ne_zero
    rw [vars_one] at this
    exact Finset.subset_empty.1 this
  | mul a i ha hi ih =>
    have h1 := h i hi.prime (dvd_mul_right _ _)
    have h2 := ih ha fun P hP hd => h P hP (hd.mul_left _)
    have := vars_mul i a
    rw [h1, h2] at this
    exact Finset.subset_empty.1 this

theorem irreducible_prime (a : MvPolynomial Var ℤ) (h : Irreducible a) : Prime a := h.prime

end Mgcd
end CLPoly
