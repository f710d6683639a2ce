import Verif.Res.ResSpec
import Mathlib.RingTheory.Localization.Integral

/-! # What the resultant tells about common factors and common zeros -/

namespace CLPoly
namespace Res
open MvPolynomial Mgcd

section uni
open Polynomial
variable {A : Type*} [CommRing A] [IsDomain A] [UniqueFactorizationMonoid A]

/-- a common factor of positive degree -/
theorem resultant_zero_iff {f g : A[X]} (hf : f ≠ 0) (hg : g ≠ 0) : Polynomial.resultant f g = 0 ↔ ∃ h, h ∣ f ∧ h ∣ g ∧ 0 < h.natDegree := by
  have inj : Function.Injective (algebraMap A (FractionRing A)) := IsFractionRing.injective A (FractionRing A)
  obtain ⟨φ, hφ⟩ : ∃ φ, φ = algebraMap A (FractionRing A) := ⟨_, rfl⟩
  rw [← hφ] at inj
  have hdeg : ∀ p : A[X], (p.map φ).natDegree = p.natDegree := fun p => natDegree_map_eq_of_injective inj p
  have hmap : Polynomial.resultant f g = 0 ↔ Polynomial.resultant (f.map φ) (g.map φ) = 0 := by
    rw [hdeg, hdeg, resultant_map_map]
    exact (map_eq_zero_iff φ inj).symm
  have f0 : f.map φ ≠ 0 := (Polynomial.map_ne_zero_iff inj).2 hf
  have g0 : g.map φ ≠ 0 := (Polynomial.map_ne_zero_iff inj).2 hg
  rw [hmap, Polynomial.resultant_eq_zero_iff]
  constructor
  · rintro ⟨-, hc⟩
    by_contra hno
    push Not at hno
    -- a common factor over the fraction field
    obtain ⟨e, he1, he2, he3⟩ : ∃ e : (FractionRing A)[X], e ∣ f.map φ ∧ e ∣ g.map φ ∧ ¬ IsUnit e := by
      by_contra h
      push Not at h
      exact hc (isRelPrime_iff_isCoprime.1 fun e h1 h2 => h e h1 h2)
    obtain ⟨f1, hf1⟩ := he1
    obtain ⟨g1, hg1⟩ := he2
    have e0 : e ≠ 0 := by rintro rfl; rw [zero_mul] at hf1; exact f0 hf1
    have f10 : f1 ≠ 0 := by rintro rfl; rw [mul_zero] at hf1; exact f0 hf1
    have hed : 0 < e.natDegree := by
      by_contra h
      exact he3 (isUnit_iff_degree_eq_zero.2 (by rw [degree_eq_natDegree e0]; simp; omega))
    obtain ⟨b1, h1⟩ := IsLocalization.integerNormalization_map_to_map (nonZeroDivisors A) f1
    obtain ⟨b2, h2⟩ := IsLocalization.integerNormalization_map_to_map (nonZeroDivisors A) g1
    obtain ⟨p, hp⟩ : ∃ p, p = IsLocalization.integerNormalization (nonZeroDivisors A) f1 := ⟨_, rfl⟩
    obtain ⟨q, hq⟩ : ∃ q, q = IsLocalization.integerNormalization (nonZeroDivisors A) g1 := ⟨_, rfl⟩
    rw [← hp, ← hφ] at h1
    rw [← hq, ← hφ] at h2
    have h1' : p.map φ = Polynomial.C (φ b1) * f1 := by
      rw [h1, Algebra.smul_def, hφ]; rfl
    have h2' : q.map φ = Polynomial.C (φ b2) * g1 := by
      rw [h2, Algebra.smul_def, hφ]; rfl
    have hb1 : φ b1 ≠ 0 := fun h => nonZeroDivisors.coe_ne_zero b1 ((map_eq_zero_iff φ inj).1 h)
    have p0 : p ≠ 0 := by
      rintro rfl
      rw [Polynomial.map_zero] at h1'
      exact mul_ne_zero (Polynomial.C_ne_zero.2 hb1) f10 h1'.symm
    have hpd : p.natDegree < f.natDegree := by
      rw [← hdeg p, ← hdeg f, h1', hf1, natDegree_C_mul hb1, natDegree_mul e0 f10]
      omega
    have key : f * (Polynomial.C (b1 : A) * q) = g * (Polynomial.C (b2 : A) * p) := by
      apply Polynomial.map_injective φ inj
      simp only [Polynomial.map_mul, Polynomial.map_C, h1', h2']
      rw [hf1, hg1]
      ring
    -- the gcd
    letI : GCDMonoid A[X] := UniqueFactorizationMonoid.toGCDMonoid _
    obtain ⟨f', hf'⟩ := gcd_dvd_left f g
    obtain ⟨g', hg'⟩ := gcd_dvd_right f g
    have d0 : gcd f g ≠ 0 := fun h => by rw [h, zero_mul] at hf'; exact hf hf'
    have hdd := hno _ (gcd_dvd_left f g) (gcd_dvd_right f g)
    have f'0 : f' ≠ 0 := by
      intro h
      rw [h, mul_zero] at hf'
      exact hf hf'
    have hrel : IsRelPrime f' g' := by
      intro x hx hy
      have : gcd f g * x ∣ gcd f g := by
        refine dvd_gcd ?_ ?_
        · conv_rhs => rw [hf']
          exact mul_dvd_mul_left _ hx
        · conv_rhs => rw [hg']
          exact mul_dvd_mul_left _ hy
      obtain ⟨y, hy⟩ := this
      have : x * y = 1 := mul_left_cancel₀ d0 (by rw [← mul_assoc, ← hy, mul_one])
      exact IsUnit.of_mul_eq_one _ this
    have key2 : f' * (Polynomial.C (b1 : A) * q) = g' * (Polynomial.C (b2 : A) * p) := by
      refine mul_left_cancel₀ d0 ?_
      rw [← mul_assoc, ← hf', key, ← mul_assoc (gcd f g), ← hg']
    have hdv : f' ∣ Polynomial.C (b2 : A) * p := hrel.dvd_of_dvd_mul_left (Dvd.intro _ key2)
    have hb2 : (b2 : A) ≠ 0 := nonZeroDivisors.coe_ne_zero b2
    have l1 := natDegree_le_of_dvd hdv (mul_ne_zero (Polynomial.C_ne_zero.2 hb2) p0)
    rw [natDegree_C_mul hb2] at l1
    have l2 : f.natDegree = (gcd f g).natDegree + f'.natDegree := by
      conv_lhs => rw [hf']
      exact natDegree_mul d0 f'0
    omega
  · rintro ⟨h, h1, h2, h3⟩
    refine ⟨.inl f0, fun hc => ?_⟩
    have := (isRelPrime_iff_isCoprime.2 hc) (Polynomial.map_dvd φ h1) (Polynomial.map_dvd φ h2)
    have := natDegree_eq_zero_of_isUnit this
    rw [hdeg] at this
    omega

end uni

variable {R : Type*} [CommRing R] [IsDomain R] {v : Var}

theorem toU_eval_free {h : Polynomial (MvPolynomial Var R)} (hh : ∀ i, v ∉ (h.coeff i).vars) : toU v (h.eval (X v)) = h := by
  rw [Polynomial.eval_eq_sum_range, map_sum]
  conv_rhs => rw [h.as_sum_range_C_mul_X_pow]
  refine Finset.sum_congr rfl fun i _ => ?_
  rw [map_mul, map_pow, toU_free (hh i), toU_X]

/-- a common factor of positive degree in `v` -/
theorem resultant_zero_iff_mv [UniqueFactorizationMonoid R] {f g : MvPolynomial Var R} (hf : f ≠ 0) (hg : g ≠ 0) :
    Polynomial.resultant (toU v f) (toU v g) = 0 ↔ ∃ h, h ∣ f ∧ h ∣ g ∧ v ∈ h.vars := by
  rw [resultant_zero_iff (toU_ne_zero hf) (toU_ne_zero hg)]
  constructor
  · rintro ⟨h, h1, h2, h3⟩
    -- put `0` for `v` in the coefficients
    obtain ⟨ψ, hψ⟩ : ∃ ψ : MvPolynomial Var R →+* MvPolynomial Var R, ψ = eval₂Hom C fun w => if w = v then 0 else X w := ⟨_, rfl⟩
    have fix : ∀ a : MvPolynomial Var R, v ∉ a.vars → ψ a = a := fun a ha => by
      rw [hψ]
      have : eval₂Hom (C : R →+* MvPolynomial Var R) (fun w => if w = v then 0 else X w) a = eval₂Hom C X a :=
        eval₂Hom_congr' rfl (fun i hi _ => by
          rw [if_neg]
          rintro rfl
          exact ha hi) rfl
      rw [this]
      exact eval₂_eta a
    have free : ∀ a : MvPolynomial Var R, v ∉ (ψ a).vars := fun a => by
      rw [← degreeOf_zero_iff, hψ]
      induction a using MvPolynomial.induction_on with
      | C a => simp
      | add p q hp hq => rw [map_add]; exact Nat.le_zero.1 ((degreeOf_add_le _ _ _).trans (by rw [hp, hq]; simp))
      | mul_X p i hp =>
        rw [map_mul]
        refine Nat.le_zero.1 ((degreeOf_mul_le _ _ _).trans ?_)
        rw [hp, zero_add]
        simp only [coe_eval₂Hom, eval₂_X]
        split
        · simp
        · rename_i hne
          rw [degreeOf_X_of_ne]
          exact Ne.symm hne
    have fixU : ∀ a : MvPolynomial Var R, (toU v a).map ψ = toU v a := fun a => by
      ext1 i
      rw [Polynomial.coeff_map, fix _ (free_coeff v i a)]
    have h1' := fixU f ▸ Polynomial.map_dvd ψ h1
    have h2' := fixU g ▸ Polynomial.map_dvd ψ h2
    have hlc : v ∉ h.leadingCoeff.vars := free_of_dvd (Polynomial.leadingCoeff_dvd_leadingCoeff h1) (Polynomial.leadingCoeff_ne_zero.2 (toU_ne_zero hf)) (free_coeff v _ f)
    have h0 : h ≠ 0 := by rintro rfl; simp at h3
    have hdeg : (h.map ψ).natDegree = h.natDegree := Polynomial.natDegree_map_of_leadingCoeff_ne_zero ψ (by
      rw [fix _ hlc]
      exact Polynomial.leadingCoeff_ne_zero.2 h0)
    refine ⟨(h.map ψ).eval (X v), ?_, ?_, ?_⟩
    · have := Polynomial.eval_dvd (x := X v) h1'
      rwa [toU_eval] at this
    · have := Polynomial.eval_dvd (x := X v) h2'
      rwa [toU_eval] at this
    · by_contra hv
      rw [← degreeOf_zero_iff, ← natDegree_toU, toU_eval_free (fun i => by rw [Polynomial.coeff_map]; exact free _), hdeg] at hv
      omega
  · rintro ⟨h, h1, h2, h3⟩
    exact ⟨toU v h, map_dvd _ h1, map_dvd _ h2, by
      rw [natDegree_toU]
      by_contra h0
      exact degreeOf_zero_iff.1 (by omega) h3⟩

/-- the resultant is a combination of the operands -/
theorem resultant_comb {f g : MvPolynomial Var R} (h : f.degreeOf v ≠ 0 ∨ g.degreeOf v ≠ 0) :
    ∃ a b : MvPolynomial Var R, Polynomial.resultant (toU v f) (toU v g) = a * f + b * g := by
  obtain ⟨p, q, -, -, e⟩ := Polynomial.exists_mul_add_mul_eq_C_resultant (toU v f) (toU v g) le_rfl le_rfl (by rw [natDegree_toU, natDegree_toU]; exact h)
  refine ⟨p.eval (X v), q.eval (X v), ?_⟩
  have := congrArg (Polynomial.eval (X v)) e
  rw [Polynomial.eval_C, Polynomial.eval_add, Polynomial.eval_mul, Polynomial.eval_mul, toU_eval, toU_eval] at this
  rw [← this]
  ring

/-- a factor of positive degree has a prime factor of positive degree -/
theorem exists_prime_deg {h : MvPolynomial Var ℤ} (h0 : h ≠ 0) (hv : v ∈ h.vars) : ∃ P, Prime P ∧ P ∣ h ∧ 0 < P.degreeOf v := by
  induction h using WfDvdMonoid.induction_on_irreducible with
  | zero => exact absurd rfl h0
  | unit u hu =>
    rcases unit_pm hu with e | e <;> · rw [e] at hv; simp [vars_neg] at hv
  | mul a i ha hi ih =>
    by_cases hi' : v ∈ i.vars
    · exact ⟨i, hi.prime, Dvd.intro _ rfl, by
        by_contra h
        exact degreeOf_zero_iff.1 (by omega) hi'⟩
    · by_cases ha' : v ∈ a.vars
      · obtain ⟨P, h1, h2, h3⟩ := ih ha ha'
        exact ⟨P, h1, h2.trans (Dvd.intro_left _ rfl), h3⟩
      · exact absurd hv (free_mul hi' ha')

/-- the discriminant vanishes exactly for polynomials with a repeated factor -/
theorem discr_zero_iff {f : MvPolynomial Var ℤ} (hf : f.degreeOf v ≠ 0) : (toU v f).discr = 0 ↔ ∃ h, h * h ∣ f ∧ v ∈ h.vars := by
  have f0 : f ≠ 0 := by rintro rfl; simp at hf
  obtain ⟨d0, -⟩ := pderiv_lt (P := f) (v := v) (by omega)
  have hd : 0 < (toU v f).degree := Polynomial.natDegree_pos_iff_degree_pos.1 (by rw [natDegree_toU]; omega)
  have hl : (toU v f).leadingCoeff ≠ 0 := Polynomial.leadingCoeff_ne_zero.2 (toU_ne_zero f0)
  have hr := Polynomial.resultant_deriv hd
  have hdd : (toU v (pderiv v f)).natDegree = (toU v f).natDegree - 1 := by rw [toU_pderiv, Polynomial.natDegree_derivative]
  have e : (toU v f).discr = 0 ↔ Polynomial.resultant (toU v f) (toU v (pderiv v f)) = 0 := by
    rw [hdd, toU_pderiv, hr]
    constructor
    · intro h; rw [h, mul_zero]
    · intro h
      exact (mul_eq_zero.1 h).resolve_left (mul_ne_zero (pow_ne_zero _ (by norm_num)) hl)
  rw [e, resultant_zero_iff_mv f0 d0]
  constructor
  · rintro ⟨h, h1, h2, h3⟩
    obtain ⟨P, hP, p1, p2⟩ := exists_prime_deg (fun h0 => by rw [h0] at h1; exact f0 (zero_dvd_iff.1 h1)) h3
    have n0 : nu P f ≠ 0 := (dvd_iff_nu hP f0).1 (p1.trans h1)
    have n1 : nu P f ≠ 1 := fun h => not_pow_dvd_pderiv hP p2 f0 n0 (by rw [h, pow_one]; exact p1.trans h2)
    exact ⟨P, by rw [← pow_two]; exact (pow_dvd_iff_nu hP f0).2 (by omega), by
      by_contra h
      rw [← degreeOf_zero_iff] at h
      omega⟩
  · rintro ⟨h, h1, h2⟩
    refine ⟨h, (Dvd.intro _ rfl).trans h1, ?_, h2⟩
    have := pow_dvd_pderiv (v := v) (P := h) (f := f) (k := 1) (e := 2) (by rw [pow_two]; exact h1) le_rfl
    rwa [pow_one] at this

end Res
end CLPoly
