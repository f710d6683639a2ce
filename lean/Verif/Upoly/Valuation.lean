import Verif.Upoly.ZpBasic
import Mathlib.RingTheory.UniqueFactorizationDomain.Multiplicity
import Mathlib.RingTheory.Multiplicity
import Mathlib.FieldTheory.Perfect
import Mathlib.FieldTheory.Finite.Basic
import Mathlib.RingTheory.Polynomial.Content

/-! # Multiplicities of irreducible factors (proof device for the factorization code) -/

namespace CLPoly
namespace Upoly
open Polynomial
open Dense (IsGcd)

variable {K : Type*} [Field K] [DecidableEq K] {P F G H D : K[X]}

/-- multiplicity of `P` in `F` -/
noncomputable def vm (P F : K[X]) : Nat := multiplicity P F

theorem fin (hP : Irreducible P) (hF : F ≠ 0) : FiniteMultiplicity P F := FiniteMultiplicity.of_prime_left hP.prime hF

theorem pow_dvd_iff (hP : Irreducible P) (hF : F ≠ 0) {k : Nat} : P ^ k ∣ F ↔ k ≤ vm P F :=
  (fin hP hF).pow_dvd_iff_le_multiplicity

theorem dvd_iff_vm (hP : Irreducible P) (hF : F ≠ 0) : P ∣ F ↔ vm P F ≠ 0 := by
  have := pow_dvd_iff hP hF (k := 1)
  rw [pow_one] at this
  rw [this]; omega

theorem vm_eq_of (hP : Irreducible P) (hF : F ≠ 0) {n : Nat} (h : ∀ k, P ^ k ∣ F ↔ k ≤ n) : vm P F = n := by
  have h1 := (h (vm P F)).1 ((pow_dvd_iff hP hF).2 le_rfl)
  have h2 := (pow_dvd_iff hP hF).1 ((h n).2 le_rfl)
  omega

theorem vm_mul (hP : Irreducible P) (hF : F ≠ 0) (hG : G ≠ 0) : vm P (F * G) = vm P F + vm P G :=
  multiplicity_mul hP.prime (fin hP (mul_ne_zero hF hG))

theorem vm_one (hP : Irreducible P) : vm P 1 = 0 :=
  vm_eq_of hP one_ne_zero fun k => by
    refine ⟨fun h => ?_, fun h => by rw [Nat.le_zero.1 h]; simp⟩
    by_contra hk
    exact hP.not_isUnit (isUnit_of_dvd_one ((dvd_pow_self P (by omega)).trans h))

theorem vm_pow (hP : Irreducible P) (hF : F ≠ 0) (k : Nat) : vm P (F ^ k) = k * vm P F := by
  induction k with
  | zero => simp [vm_one hP]
  | succ k ih => rw [pow_succ, vm_mul hP (pow_ne_zero _ hF) hF, ih, Nat.succ_mul]

theorem vm_gcd (hP : Irreducible P) (h : IsGcd D F G) (hF : F ≠ 0) (hG : G ≠ 0) : vm P D = min (vm P F) (vm P G) := by
  have hD := isGcd_ne_zero h (.inl hF)
  refine vm_eq_of hP hD fun k => ?_
  rw [Nat.le_min, ← pow_dvd_iff hP hF, ← pow_dvd_iff hP hG]
  exact ⟨fun hk => ⟨hk.trans h.1, hk.trans h.2.1⟩, fun hk => h.2.2 _ hk.1 hk.2⟩

theorem vm_pos_degree (hP : Irreducible P) (hF : F ≠ 0) : vm P F ≤ F.natDegree := by
  have h1 := natDegree_le_of_dvd ((pow_dvd_iff hP hF).2 le_rfl) hF
  rw [natDegree_pow] at h1
  have h2 := hP.natDegree_pos
  nlinarith

theorem exists_irreducible_dvd (hF : 0 < F.natDegree) : ∃ P : K[X], Irreducible P ∧ P.Monic ∧ P ∣ F := by
  obtain ⟨Q, hQ, hQF⟩ := WfDvdMonoid.exists_irreducible_factor (a := F) (fun h => by
    rw [natDegree_eq_zero_of_isUnit h] at hF; omega) (by rintro rfl; simp at hF)
  have h0 : Q.leadingCoeff⁻¹ ≠ 0 := inv_ne_zero (by simpa using hQ.ne_zero)
  have hu : IsUnit (C Q.leadingCoeff⁻¹) := by simpa using hQ.ne_zero
  refine ⟨C Q.leadingCoeff⁻¹ * Q, (irreducible_isUnit_mul hu).2 hQ, monic_C_mul hQ.ne_zero, hu.mul_left_dvd.2 hQF⟩

theorem dvd_of_vm (hF : F ≠ 0) (hG : G ≠ 0) (h : ∀ P, Irreducible P → P.Monic → vm P F ≤ vm P G) : F ∣ G := by
  induction hn : F.natDegree using Nat.strong_induction_on generalizing F G with
  | _ n ih =>
    by_cases h0 : F.natDegree = 0
    · rw [eq_C_of_natDegree_eq_zero h0] at hF ⊢
      have : IsUnit (C (F.coeff 0)) := by simpa using hF
      exact this.dvd
    · obtain ⟨P, hP, hm, hPF⟩ := exists_irreducible_dvd (F := F) (by omega)
      have h1 := (dvd_iff_vm hP hF).1 hPF
      have h2 := h P hP hm
      have hPG := (dvd_iff_vm hP hG).2 (by omega)
      obtain ⟨F', rfl⟩ := hPF
      obtain ⟨G', rfl⟩ := hPG
      have f0 := right_ne_zero_of_mul hF
      have g0 := right_ne_zero_of_mul hG
      refine mul_dvd_mul_left P (ih F'.natDegree ?_ f0 g0 ?_ rfl)
      · rw [natDegree_mul hP.ne_zero f0] at hn
        have := hP.natDegree_pos
        omega
      · intro Q hQ hQm
        have := h Q hQ hQm
        rw [vm_mul hQ hP.ne_zero f0, vm_mul hQ hP.ne_zero g0] at this
        omega

theorem eq_of_vm (hF : F.Monic) (hG : G.Monic) (h : ∀ P, Irreducible P → P.Monic → vm P F = vm P G) : F = G :=
  eq_of_monic_of_associated hF hG (associated_of_dvd_dvd
    (dvd_of_vm hF.ne_zero hG.ne_zero fun P a b => (h P a b).le) (dvd_of_vm hG.ne_zero hF.ne_zero fun P a b => (h P a b).ge))

theorem squarefree_of_vm (hF : F ≠ 0) (h : ∀ P, Irreducible P → P.Monic → vm P F ≤ 1) : Squarefree F := by
  intro Q hQ
  by_contra hu
  have hQ0 : Q ≠ 0 := by rintro rfl; exact hF (by simpa using hQ)
  have hd : 0 < Q.natDegree := by
    by_contra h0
    push Not at h0
    rw [eq_C_of_natDegree_le_zero h0] at hu hQ0
    exact hu (by simpa using hQ0)
  obtain ⟨P, hP, hm, hPQ⟩ := exists_irreducible_dvd hd
  have h1 : P ^ 2 ∣ F := by rw [pow_two]; exact (mul_dvd_mul hPQ hPQ).trans hQ
  have := h P hP hm
  rw [pow_dvd_iff hP hF] at h1
  omega

theorem vm_le_one_of_squarefree (hF : Squarefree F) (hP : Irreducible P) : vm P F ≤ 1 := by
  by_contra h
  have hF0 : F ≠ 0 := hF.ne_zero
  have h2 : P ^ 2 ∣ F := (pow_dvd_iff hP hF0).2 (by omega)
  rw [pow_two] at h2
  exact hP.not_isUnit (hF P h2)

theorem isCoprime_of_irreducible (h0 : F ≠ 0) (h : ∀ P, Irreducible P → P.Monic → P ∣ F → ¬ P ∣ G) : IsCoprime F G := by
  refine isCoprime_of_irreducible_dvd (fun hh => h0 hh.1) fun Q hQ h1 h2 => ?_
  have hu : IsUnit (C Q.leadingCoeff⁻¹) := by simpa using hQ.ne_zero
  exact h _ ((irreducible_isUnit_mul hu).2 hQ) (monic_C_mul hQ.ne_zero) (hu.mul_left_dvd.2 h1) (hu.mul_left_dvd.2 h2)

/-! ## the derivative in characteristic `p` -/

section zp
variable {p : Nat} [hp : Fact p.Prime] {P F G : (ZMod p)[X]}

theorem irreducible_not_dvd_derivative (hP : Irreducible P) : ¬ P ∣ Polynomial.derivative P := by
  intro h
  have hs : IsCoprime P (Polynomial.derivative P) := PerfectField.separable_of_irreducible hP
  exact hP.not_isUnit (hs.isUnit_of_dvd' dvd_rfl h)

theorem pow_pred_dvd_derivative {e : Nat} (h : P ^ e ∣ F) : P ^ (e - 1) ∣ Polynomial.derivative F := by
  obtain ⟨H, rfl⟩ := h
  rw [derivative_mul, derivative_pow]
  refine dvd_add ?_ ?_
  · exact dvd_mul_of_dvd_left (dvd_mul_of_dvd_left (Dvd.intro_left _ rfl) _) _
  · exact dvd_mul_of_dvd_left (pow_dvd_pow P (Nat.sub_le _ _)) _

theorem pow_dvd_derivative {e : Nat} (he : p ∣ e) (h : P ^ e ∣ F) : P ^ e ∣ Polynomial.derivative F := by
  obtain ⟨H, rfl⟩ := h
  rw [derivative_mul, derivative_pow, (ZMod.natCast_eq_zero_iff e p).2 he]
  simp

theorem not_pow_dvd_derivative (hP : Irreducible P) (hF : F ≠ 0) (he : ¬ p ∣ vm P F) : ¬ P ^ (vm P F) ∣ Polynomial.derivative F := by
  intro h
  obtain ⟨H, hH⟩ := (pow_dvd_iff hP hF).2 (le_refl (vm P F))
  have hnd : ¬ P ∣ H := by
    rintro ⟨H', rfl⟩
    have : P ^ (vm P F + 1) ∣ F := ⟨H', by rw [pow_succ, mul_assoc]; exact hH⟩
    rw [pow_dvd_iff hP hF] at this
    omega
  obtain ⟨e, he'⟩ : ∃ e, e = vm P F := ⟨_, rfl⟩
  rw [← he'] at h he hH
  have hpos : e ≠ 0 := by rintro rfl; exact he (dvd_zero _)
  obtain ⟨k, rfl⟩ : ∃ k, e = k + 1 := ⟨e - 1, by omega⟩
  rw [hH, derivative_mul, derivative_pow, Nat.add_sub_cancel] at h
  rw [dvd_add_left (Dvd.intro _ rfl), mul_assoc, mul_assoc, mul_left_comm, pow_succ] at h
  have h3 := (mul_dvd_mul_iff_left (pow_ne_zero k hP.ne_zero)).1 h
  rcases hP.prime.dvd_or_dvd h3 with h4 | h4
  · have hc : ((k + 1 : Nat) : ZMod p) ≠ 0 := fun h => he ((ZMod.natCast_eq_zero_iff _ _).1 h)
    have hu : IsUnit (C ((k + 1 : Nat) : ZMod p)) := by rw [isUnit_C, isUnit_iff_ne_zero]; exact hc
    exact hP.not_isUnit (isUnit_of_dvd_unit h4 hu)
  · rcases hP.prime.dvd_or_dvd h4 with h5 | h5
    · exact irreducible_not_dvd_derivative hP h5
    · exact hnd h5

/-- multiplicities of `gcd(F, F')` -/
theorem vm_gcd_derivative {D : (ZMod p)[X]} (hP : Irreducible P) (hF : F ≠ 0) (h : IsGcd D F (Polynomial.derivative F)) :
    vm P D = if p ∣ vm P F then vm P F else vm P F - 1 := by
  have hD := isGcd_ne_zero h (.inl hF)
  refine vm_eq_of hP hD fun k => ?_
  have h1 : P ^ k ∣ D ↔ k ≤ vm P F ∧ P ^ k ∣ Polynomial.derivative F := by
    rw [← pow_dvd_iff hP hF]
    exact ⟨fun hk => ⟨hk.trans h.1, hk.trans h.2.1⟩, fun hk => h.2.2 _ hk.1 hk.2⟩
  rw [h1]
  have hFd := (pow_dvd_iff hP hF).2 (le_refl (vm P F))
  by_cases hd : p ∣ vm P F
  · rw [if_pos hd]
    exact ⟨fun hk => hk.1, fun hk => ⟨hk, (pow_dvd_pow P hk).trans (pow_dvd_derivative hd hFd)⟩⟩
  · rw [if_neg hd]
    have hn := not_pow_dvd_derivative hP hF hd
    constructor
    · rintro ⟨a, b⟩
      by_contra hk
      exact hn ((pow_dvd_pow P (by omega)).trans b)
    · intro hk
      exact ⟨by omega, (pow_dvd_pow P hk).trans (pow_pred_dvd_derivative hFd)⟩

theorem derivative_eq_zero_of_vm (hF : F ≠ 0) (h : ∀ P, Irreducible P → P.Monic → p ∣ vm P F) : Polynomial.derivative F = 0 := by
  by_contra hd
  have h1 : F ∣ Polynomial.derivative F := dvd_of_vm hF hd fun P hP hm =>
    (pow_dvd_iff hP hd).1 (pow_dvd_derivative (h P hP hm) ((pow_dvd_iff hP hF).2 le_rfl))
  have h2 := natDegree_le_of_dvd h1 hd
  rcases Nat.eq_zero_or_pos F.natDegree with h0 | h0
  · rw [eq_C_of_natDegree_eq_zero h0] at hd; simp at hd
  · have := natDegree_derivative_lt (p := F) (by omega)
    omega

end zp
end Upoly
end CLPoly
