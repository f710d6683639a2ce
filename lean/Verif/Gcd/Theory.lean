import Mathlib.RingTheory.Polynomial.UniqueFactorization
import Mathlib.RingTheory.UniqueFactorizationDomain.GCDMonoid
import Mathlib.Algebra.MvPolynomial.NoZeroDivisors
import Mathlib.Algebra.MvPolynomial.Nilpotent
import Verif.Poly.FnSpec
import Verif.Dense.Div

/-!
# Gcds of multivariate polynomials over a factorial ring, seen as polynomials in one variable `v`
-/

namespace CLPoly
namespace Mgcd
open MvPolynomial
open Dense (IsGcd)

section
variable {R : Type*} [CommRing R]

/-- the polynomial as a polynomial in `v` -/
noncomputable def toU (v : Var) : MvPolynomial Var R →+* Polynomial (MvPolynomial Var R) :=
  eval₂Hom (Polynomial.C.comp C) fun w => if w = v then Polynomial.X else Polynomial.C (X w)

theorem toU_monomial (v : Var) (s : Var →₀ ℕ) (a : R) : toU v (monomial s a) = Polynomial.C (monomial (s.erase v) a) * Polynomial.X ^ s v := by
  have hs : monomial s a = C a * (monomial (s.erase v) 1 * X v ^ s v) := by
    rw [X_pow_eq_monomial, monomial_mul, C_mul_monomial, mul_one, mul_one, Finsupp.erase_add_single]
  have h2 : toU v (monomial (s.erase v) (1 : R)) = Polynomial.C (monomial (s.erase v) 1) := by
    rw [monomial_eq, C_1, one_mul, Finsupp.prod, map_prod, map_prod]
    refine Finset.prod_congr rfl fun w hw => ?_
    have : w ≠ v := by rintro rfl; simp at hw
    rw [map_pow, map_pow]
    simp [toU, this]
  rw [hs, map_mul, map_mul, map_pow, h2]
  have h3 : toU v (C a) = Polynomial.C (C a) := by simp [toU]
  have h4 : toU v (X v : MvPolynomial Var R) = Polynomial.X := by simp [toU]
  rw [h3, h4, ← mul_assoc, ← Polynomial.C_mul, C_mul_monomial, mul_one]

theorem isCoeff_add {v : Var} {i : ℕ} {f g c d : MvPolynomial Var R} (h : IsCoeff v i f c) (h' : IsCoeff v i g d) : IsCoeff v i (f + g) (c + d) := by
  intro s
  rw [coeff_add, h s, h' s, coeff_add]
  split <;> simp

theorem toU_coeff (v : Var) (i : ℕ) (f : MvPolynomial Var R) : IsCoeff v i f ((toU v f).coeff i) := by
  classical
  induction f using MvPolynomial.induction_on' with
  | add f g hf hg => rw [map_add, Polynomial.coeff_add]; exact isCoeff_add hf hg
  | monomial s a =>
    intro t
    rw [toU_monomial, Polynomial.coeff_C_mul, Polynomial.coeff_X_pow]
    have key : (i = s v ∧ s.erase v = t) ↔ (t v = 0 ∧ s = t + Finsupp.single v i) := by
      constructor
      · rintro ⟨rfl, rfl⟩
        exact ⟨by simp, (Finsupp.erase_add_single v s).symm⟩
      · rintro ⟨h1, rfl⟩
        refine ⟨by simp [h1], ?_⟩
        ext w
        by_cases hw : w = v
        · subst hw; simp [h1]
        · simp [hw, Finsupp.erase_ne, Finsupp.single_eq_of_ne hw]
    by_cases h1 : i = s v
    · rw [if_pos h1, mul_one, coeff_monomial]
      by_cases h2 : s.erase v = t
      · obtain ⟨k1, k2⟩ := key.1 ⟨h1, h2⟩
        rw [if_pos h2, if_pos k1, coeff_monomial, if_pos k2]
      · rw [if_neg h2]
        split
        · rename_i k1
          rw [coeff_monomial, if_neg fun k2 => h2 (key.2 ⟨k1, k2⟩).2]
        · rfl
    · rw [if_neg h1, mul_zero, coeff_zero]
      split
      · rename_i k1
        rw [coeff_monomial, if_neg fun k2 => h1 (key.2 ⟨k1, k2⟩).1]
      · rfl

theorem degreeOf_zero_iff {v : Var} {f : MvPolynomial Var R} : f.degreeOf v = 0 ↔ v ∉ f.vars := by
  classical
  rw [degreeOf_def, Multiset.count_eq_zero, vars_def, Multiset.mem_toFinset]

theorem toU_free {v : Var} {f : MvPolynomial Var R} (h : v ∉ f.vars) : toU v f = Polynomial.C f := by
  classical
  ext i : 1
  rw [Polynomial.coeff_C]
  split
  · rename_i h0
    rw [h0]
    exact (toU_coeff v 0 f).unique (IsCoeff.self (degreeOf_zero_iff.2 h))
  · rename_i h0
    have := toU_coeff v i f
    refine this.unique fun s => ?_
    rw [coeff_zero]
    split
    · symm
      by_contra hc
      have := monomial_le_degreeOf v (mem_support_iff.2 hc)
      rw [degreeOf_zero_iff.2 h] at this
      simp at this
      omega
    · rfl

theorem toU_eval (v : Var) (f : MvPolynomial Var R) : (toU v f).eval (X v) = f := by
  have : (Polynomial.evalRingHom (X v)).comp (toU v) = RingHom.id (MvPolynomial Var R) := by
    refine MvPolynomial.ringHom_ext (fun r => by simp [toU]) fun w => ?_
    by_cases hw : w = v
    · subst hw; simp [toU]
    · simp [toU, hw]
  have h := congrArg (fun g : MvPolynomial Var R →+* MvPolynomial Var R => g f) this
  simpa using h

theorem toU_injective (v : Var) : Function.Injective (toU (R := R) v) := fun f g h => by rw [← toU_eval v f, h, toU_eval]

theorem toU_ne_zero {v : Var} {f : MvPolynomial Var R} (h : f ≠ 0) : toU v f ≠ 0 := fun e => h (toU_injective v (by rw [e, map_zero]))

theorem natDegree_toU (v : Var) (f : MvPolynomial Var R) : (toU v f).natDegree = f.degreeOf v := by
  by_cases h0 : f = 0
  · rw [h0, map_zero, degreeOf_zero]; rfl
  refine le_antisymm ?_ ?_
  · rw [Polynomial.natDegree_le_iff_coeff_eq_zero]
    intro i hi
    refine (toU_coeff v i f).unique fun s => ?_
    rw [coeff_zero]
    split
    · symm
      by_contra hc
      have := monomial_le_degreeOf v (mem_support_iff.2 hc)
      simp at this
      omega
    · rfl
  · exact Polynomial.le_natDegree_of_ne_zero (IsCoeff.lead_ne h0 (toU_coeff v _ f))

theorem isCoeff_iff {v : Var} {i : ℕ} {f c : MvPolynomial Var R} : IsCoeff v i f c ↔ c = (toU v f).coeff i :=
  ⟨fun h => h.unique (toU_coeff v i f), fun h => h ▸ toU_coeff v i f⟩

theorem free_mul {v : Var} {f g : MvPolynomial Var R} (hf : v ∉ f.vars) (hg : v ∉ g.vars) : v ∉ (f * g).vars := by
  classical
  intro h
  rcases Finset.mem_union.1 (vars_mul f g h) with h | h
  · exact hf h
  · exact hg h

/-- a polynomial without `v` divides iff it divides all coefficients in `v` -/
theorem free_dvd_iff {v : Var} {e f : MvPolynomial Var R} (he : v ∉ e.vars) : e ∣ f ↔ ∀ i, e ∣ (toU v f).coeff i := by
  constructor
  · rintro ⟨k, rfl⟩ i
    rw [map_mul, toU_free he, Polynomial.coeff_C_mul]
    exact dvd_mul_right _ _
  · intro h
    rw [← Polynomial.C_dvd_iff_dvd_coeff] at h
    obtain ⟨k, hk⟩ := h
    refine ⟨k.eval (X v), ?_⟩
    rw [← toU_eval v f, hk, Polynomial.eval_mul, Polynomial.eval_C]

theorem free_coeff (v : Var) (i : ℕ) (f : MvPolynomial Var R) : v ∉ ((toU v f).coeff i).vars := (toU_coeff v i f).not_vars

end

section
variable {R : Type*} [CommRing R] [IsDomain R]

theorem degreeOf_mul_dom {v : Var} {f g : MvPolynomial Var R} (hf : f ≠ 0) (hg : g ≠ 0) : (f * g).degreeOf v = f.degreeOf v + g.degreeOf v := by
  rw [← natDegree_toU, map_mul, Polynomial.natDegree_mul (toU_ne_zero hf) (toU_ne_zero hg), natDegree_toU, natDegree_toU]

theorem degreeOf_le_of_dvd {v : Var} {e f : MvPolynomial Var R} (h : e ∣ f) (hf : f ≠ 0) : e.degreeOf v ≤ f.degreeOf v := by
  obtain ⟨k, rfl⟩ := h
  rw [degreeOf_mul_dom (left_ne_zero_of_mul hf) (right_ne_zero_of_mul hf)]
  exact Nat.le_add_right _ _

theorem free_of_dvd {v : Var} {e f : MvPolynomial Var R} (h : e ∣ f) (hf : f ≠ 0) (hv : v ∉ f.vars) : v ∉ e.vars := by
  rw [← degreeOf_zero_iff] at hv ⊢
  have := degreeOf_le_of_dvd (v := v) h hf
  omega

theorem vars_of_dvd {e f : MvPolynomial Var R} (h : e ∣ f) (hf : f ≠ 0) : e.vars ⊆ f.vars := by
  intro v hv
  by_contra hc
  exact free_of_dvd h hf hc hv

/-- no divisor without `v` except units -/
def PrimWrt (v : Var) (f : MvPolynomial Var R) : Prop := ∀ e : MvPolynomial Var R, v ∉ e.vars → e ∣ f → IsUnit e

theorem PrimWrt.of_dvd {v : Var} {f g : MvPolynomial Var R} (h : PrimWrt v f) (hg : g ∣ f) : PrimWrt v g := fun e he hd => h e he (hd.trans hg)

theorem PrimWrt.ne_zero {v : Var} {f : MvPolynomial Var R} (h : PrimWrt v f) : f ≠ 0 := by
  rintro rfl
  exact not_isUnit_zero (h 0 (by simp) (dvd_zero _))

/-- `c` is a content of `f` with respect to `v` -/
structure IsCont (v : Var) (f c : MvPolynomial Var R) : Prop where
  dvd : c ∣ f
  free : v ∉ c.vars
  max : ∀ e, v ∉ e.vars → e ∣ f → e ∣ c

theorem IsCont.ne_zero {v : Var} {f c : MvPolynomial Var R} (h : IsCont v f c) (hf : f ≠ 0) : c ≠ 0 := by
  rintro rfl
  exact hf (zero_dvd_iff.1 h.dvd)

/-- dividing by the content leaves a primitive polynomial -/
theorem IsCont.prim {v : Var} {f c q : MvPolynomial Var R} (h : IsCont v f c) (hf : f ≠ 0) (hq : f = q * c) : PrimWrt v q := by
  intro e he hd
  have hc := h.ne_zero hf
  have h1 : e * c ∣ f := by rw [hq]; exact mul_dvd_mul_right hd c
  have h2 := h.max _ (free_mul he h.free) h1
  obtain ⟨k, hk⟩ := h2
  refine IsUnit.of_mul_eq_one k ?_
  have : c * (e * k) = c * 1 := by rw [mul_one]; linear_combination -hk
  exact mul_left_cancel₀ hc this

end

section
variable {R : Type*} [CommRing R] [IsDomain R] [UniqueFactorizationMonoid R]

theorem exists_gcd (f g : MvPolynomial Var R) : ∃ d, IsGcd d f g := by
  classical
  letI : GCDMonoid (MvPolynomial Var R) := UniqueFactorizationMonoid.toGCDMonoid _
  exact ⟨gcd f g, gcd_dvd_left f g, gcd_dvd_right f g, fun e h1 h2 => dvd_gcd h1 h2⟩

/-- the largest common divisor in `v` of primitive polynomials, if it divides, is the gcd -/
theorem isGcd_of_degree {v : Var} {f g t : MvPolynomial Var R} (hf : PrimWrt v f) (h1 : t ∣ f) (h2 : t ∣ g)
    (hd : ∀ e, e ∣ f → e ∣ g → e.degreeOf v ≤ t.degreeOf v) : IsGcd t f g := by
  obtain ⟨d, d1, d2, d3⟩ := exists_gcd f g
  obtain ⟨k, hk⟩ := d3 t h1 h2
  have d0 : d ≠ 0 := fun e => hf.ne_zero (zero_dvd_iff.1 (e ▸ d1))
  have hdeg := hd d d1 d2
  rw [hk] at d0 hdeg
  rw [degreeOf_mul_dom (left_ne_zero_of_mul d0) (right_ne_zero_of_mul d0)] at hdeg
  have hku : IsUnit k := hf k (degreeOf_zero_iff.1 (by omega)) ((Dvd.intro_left t hk.symm).trans d1)
  refine ⟨h1, h2, fun e e1 e2 => (d3 e e1 e2).trans ?_⟩
  rw [hk]; exact hku.mul_right_dvd.2 dvd_rfl

/-- every polynomial is a polynomial without `v` times a primitive one -/
theorem exists_split (v : Var) (f : MvPolynomial Var R) (hf : f ≠ 0) : ∃ c p, f = c * p ∧ v ∉ c.vars ∧ PrimWrt v p := by
  classical
  refine WfDvdMonoid.induction_on_irreducible (motive := fun f => f ≠ 0 → ∃ c p, f = c * p ∧ v ∉ c.vars ∧ PrimWrt v p) f (fun h => absurd rfl h) ?_ ?_ hf
  · intro u hu _
    have h1 : v ∉ u.vars := free_of_dvd (hu.dvd (a := (1 : MvPolynomial Var R))) one_ne_zero (by simp)
    exact ⟨u, 1, (mul_one _).symm, h1, fun e _ he => isUnit_of_dvd_one he⟩
  · intro a i ha hi ih _
    obtain ⟨c, p, e, hc, hp⟩ := ih ha
    by_cases hiv : v ∈ i.vars
    · refine ⟨c, i * p, by rw [e]; ring, hc, fun d hd hdp => ?_⟩
      have hne : i * p ≠ 0 := mul_ne_zero hi.ne_zero hp.ne_zero
      have hd0 : d ≠ 0 := fun h => hne (zero_dvd_iff.1 (h ▸ hdp))
      have hnd : ¬ i ∣ d := fun h => free_of_dvd h hd0 hd hiv
      have hrel : IsRelPrime i d := (hi.isRelPrime_iff_not_dvd).2 hnd
      exact hp d hd (hrel.symm.dvd_of_dvd_mul_left hdp)
    · exact ⟨i * c, p, by rw [e]; ring, free_mul hiv hc, hp⟩

/-- a primitive divisor of `c * f`, `c` without `v`, divides `f` -/
theorem PrimWrt.dvd_of_dvd_mul {v : Var} {p c f : MvPolynomial Var R} (hp : PrimWrt v p) (hc : v ∉ c.vars) (c0 : c ≠ 0) (h : p ∣ c * f) : p ∣ f := by
  have : IsRelPrime p c := fun d d1 d2 => hp d (free_of_dvd d2 c0 hc) d1
  exact this.dvd_of_dvd_mul_left h

/-- the gcd is the gcd of the contents times the gcd of the primitive parts -/
theorem isGcd_assemble {v : Var} {f g cf cg f1 g1 c h : MvPolynomial Var R} (hf0 : f ≠ 0) (hg0 : g ≠ 0) (hcf : IsCont v f cf) (hcg : IsCont v g cg)
    (ef : f = f1 * cf) (eg : g = g1 * cg) (hc : IsGcd c cf cg) (hh : IsGcd h f1 g1) : IsGcd (h * c) f g := by
  refine ⟨by rw [ef]; exact mul_dvd_mul hh.1 hc.1, by rw [eg]; exact mul_dvd_mul hh.2.1 hc.2.1, fun e e1 e2 => ?_⟩
  have e0 : e ≠ 0 := fun h => hf0 (zero_dvd_iff.1 (h ▸ e1))
  obtain ⟨a, p, he, ha, hp⟩ := exists_split v e e0
  have a1 : a ∣ e := he ▸ dvd_mul_right a p
  have p1 : p ∣ e := he ▸ dvd_mul_left p a
  have h1 := hcf.max a ha (a1.trans e1)
  have h2 := hcg.max a ha (a1.trans e2)
  have h3 : p ∣ f1 := hp.dvd_of_dvd_mul hcf.free (hcf.ne_zero hf0) (by rw [mul_comm, ← ef]; exact p1.trans e1)
  have h4 : p ∣ g1 := hp.dvd_of_dvd_mul hcg.free (hcg.ne_zero hg0) (by rw [mul_comm, ← eg]; exact p1.trans e2)
  rw [he, mul_comm a p]
  exact mul_dvd_mul (hh.2.2 p h3 h4) (hc.2.2 a h1 h2)

/-- an operand with a variable that the other one does not have can be replaced by its content -/
theorem isGcd_cont {v : Var} {f g c d : MvPolynomial Var R} (hg0 : g ≠ 0) (hg : v ∉ g.vars) (hc : IsCont v f c) (h : IsGcd d c g) : IsGcd d f g :=
  ⟨h.1.trans hc.dvd, h.2.1, fun e e1 e2 => h.2.2 e (hc.max e (free_of_dvd e2 hg0 hg) e1) e2⟩

end

theorem IsGcd.symm' {R : Type*} [CommRing R] {d a b : R} (h : IsGcd d a b) : IsGcd d b a := ⟨h.2.1, h.1, fun e e1 e2 => h.2.2 e e2 e1⟩

section
variable {R S : Type*} [CommRing R] [CommRing S] [IsDomain R] [IsDomain S]

/-- a ring homomorphism that does not raise degrees in `v` and keeps the degree of `f` keeps the degrees of its divisors -/
theorem degreeOf_image {v : Var} (φ : MvPolynomial Var R →+* MvPolynomial Var S) (hφ : ∀ k, (φ k).degreeOf v ≤ k.degreeOf v) {e f : MvPolynomial Var R} (hf : f ≠ 0)
    (hφf : φ f ≠ 0) (hd : (φ f).degreeOf v = f.degreeOf v) (h : e ∣ f) : (φ e).degreeOf v = e.degreeOf v := by
  obtain ⟨k, rfl⟩ := h
  rw [map_mul] at hφf hd
  rw [degreeOf_mul_dom (left_ne_zero_of_mul hf) (right_ne_zero_of_mul hf), degreeOf_mul_dom (left_ne_zero_of_mul hφf) (right_ne_zero_of_mul hφf)] at hd
  have h1 := hφ e
  have h2 := hφ k
  omega

end

end Mgcd
end CLPoly
