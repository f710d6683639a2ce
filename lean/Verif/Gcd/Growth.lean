import Mathlib.Analysis.Polynomial.MahlerMeasure
import Mathlib.Data.Finset.Finsupp
import Verif.Gcd.Theory

/-!
# Coefficients of factors

How much larger than the coefficients of `q · c` the coefficients of `q` can be (Gelfond's inequality, by induction on the variables).
-/

namespace CLPoly
namespace Mgcd
open MvPolynomial

section univariate
open Polynomial Filter MeasureTheory Set Real

theorem mahler_le_sup {p : ℂ[X]} {S : ℝ} (h : ∀ z : ℂ, ‖z‖ = 1 → ‖p.eval z‖ ≤ S) : p.mahlerMeasure ≤ S := by
  have hS : 0 ≤ S := (norm_nonneg _).trans (h 1 (by simp))
  by_cases hp : p = 0
  · simpa [hp] using hS
  have hpos : 0 < S := by
    rcases hS.lt_or_eq with h' | h'
    · exact h'
    · exfalso
      refine hp (Polynomial.eq_zero_of_infinite_isRoot p ?_)
      refine Set.Infinite.mono (s := (fun x : ℝ => circleMap 0 1 x) '' Set.Ioc 0 1) ?_ ?_
      · rintro _ ⟨x, _, rfl⟩
        have := h (circleMap 0 1 x) (by simp)
        rw [← h'] at this
        exact norm_le_zero_iff.1 this
      · refine Set.Infinite.image (fun a ha b hb e => ?_) (Set.Ioc_infinite (by norm_num))
        have hpi := Real.two_le_pi
        exact injOn_circleMap_of_abs_sub_le' one_ne_zero (a := 0) (b := 2 * π) (by linarith) ⟨ha.1.le, by linarith [ha.2]⟩ ⟨hb.1.le, by linarith [hb.2]⟩ e
  rw [show S = rexp (circleAverage (fun _ ↦ log S) 0 1) by simp [circleAverage_def, mul_assoc, exp_log hpos], mahlerMeasure_def_of_ne_zero hp, circleAverage_def, smul_eq_mul]
  gcongr
  apply intervalIntegral.integral_mono_ae_restrict (by positivity) p.intervalIntegrable_mahlerMeasure (by simp)
  rw [EventuallyLE, eventually_iff_exists_mem]
  use {x : ℝ | Polynomial.eval (circleMap 0 1 x) p ≠ 0}
  constructor
  · rw [mem_ae_iff, compl_def, Measure.restrict_apply' (by simp)]
    apply (Finite.of_sdiff _ <| finite_singleton (2 * π)).measure_zero
    simp only [ne_eq, mem_ofPred_eq, Decidable.not_not, inter_sdiff_assoc, Icc_sdiff_right]
    rw [ofPred_inter_eq_sep]
    apply Finite.of_finite_image (f := circleMap 0 1) ((Multiset.finite_toSet p.roots).subset _)
      <| fun _ h _ k l ↦ injOn_circleMap_of_abs_sub_le' one_ne_zero (by linarith) h.1 k.1 l
    simp [hp]
  · intro x _
    gcongr
    exact h _ (by simp)

theorem coeff_mul_coeff_le {a b : ℂ[X]} {S : ℝ} (h : ∀ z : ℂ, ‖z‖ = 1 → ‖a.eval z * b.eval z‖ ≤ S) {m n : ℕ} (ha : a.natDegree ≤ m) (hb : b.natDegree ≤ n) (i j : ℕ) :
    ‖a.coeff i‖ * ‖b.coeff j‖ ≤ 2 ^ (m + n) * S := by
  have key : ∀ {p : ℂ[X]} {k : ℕ}, p.natDegree ≤ k → ∀ i, ‖p.coeff i‖ ≤ 2 ^ k * p.mahlerMeasure := by
    intro p k hk i
    refine (norm_coeff_le_choose_mul_mahlerMeasure i p).trans (mul_le_mul_of_nonneg_right ?_ (mahlerMeasure_nonneg p))
    have h1 : (p.natDegree).choose i ≤ 2 ^ k := (Nat.choose_le_two_pow _ _).trans (Nat.pow_le_pow_right (by norm_num) hk)
    exact_mod_cast h1
  have hM : a.mahlerMeasure * b.mahlerMeasure ≤ S := by
    rw [← mahlerMeasure_mul]
    exact mahler_le_sup fun z hz => by rw [Polynomial.eval_mul]; exact h z hz
  calc ‖a.coeff i‖ * ‖b.coeff j‖ ≤ (2 ^ m * a.mahlerMeasure) * (2 ^ n * b.mahlerMeasure) :=
        mul_le_mul (key ha i) (key hb j) (norm_nonneg _) (mul_nonneg (by positivity) (mahlerMeasure_nonneg a))
    _ = 2 ^ (m + n) * (a.mahlerMeasure * b.mahlerMeasure) := by rw [pow_add]; ring
    _ ≤ 2 ^ (m + n) * S := mul_le_mul_of_nonneg_left hM (by positivity)

end univariate

/-- evaluation, variable `v` last -/
theorem eval_toU {R : Type*} [CommRing R] (v : Var) (t : Var → R) (z : R) (f : MvPolynomial Var R) :
    ((toU v f).map (eval t)).eval z = eval (Function.update t v z) f := by
  induction f using MvPolynomial.induction_on with
  | C a => simp [toU]
  | add f g hf hg => rw [map_add, Polynomial.map_add, Polynomial.eval_add, hf, hg, map_add]
  | mul_X f w hf =>
    rw [map_mul, Polynomial.map_mul, Polynomial.eval_mul, hf, map_mul]
    congr 1
    by_cases hw : w = v
    · subst hw; simp [toU]
    · simp [toU, hw]

theorem coeff_toU {R : Type*} [CommRing R] (v : Var) (u : Var →₀ ℕ) (f : MvPolynomial Var R) : coeff u f = coeff (u.erase v) ((toU v f).coeff (u v)) := by
  rw [toU_coeff v (u v) f, if_pos (by simp), Finsupp.erase_add_single]

/-- Gelfond's inequality -/
theorem gelfond (W : Finset Var) : ∀ (f g : MvPolynomial Var ℂ), f.vars ⊆ W → g.vars ⊆ W → ∀ (S : ℝ) (D : Var → ℕ), (∀ x, f.degreeOf x + g.degreeOf x ≤ D x) →
    (∀ t : Var → ℂ, (∀ x, ‖t x‖ = 1) → ‖eval t f * eval t g‖ ≤ S) → ∀ u w, ‖coeff u f‖ * ‖coeff w g‖ ≤ 2 ^ (∑ x ∈ W, D x) * S := by
  classical
  induction W using Finset.induction_on with
  | empty =>
    intro f g hf hg S D hD h u w
    have ef := vars_eq_empty_iff_eq_C.1 (Finset.subset_empty.1 hf)
    have eg := vars_eq_empty_iff_eq_C.1 (Finset.subset_empty.1 hg)
    have := h (fun _ => 1) (by simp)
    rw [ef, eg, eval_C, eval_C, norm_mul] at this
    rw [Finset.sum_empty, pow_zero, one_mul]
    refine le_trans ?_ this
    rw [ef, eg, coeff_C, coeff_C]
    refine mul_le_mul ?_ ?_ (norm_nonneg _) (norm_nonneg _)
    · split <;> simp
    · split <;> simp
  | insert v W hv ih =>
    intro f g hf hg S D hD h u w
    rw [coeff_toU v u f, coeff_toU v w g, Finset.sum_insert hv, pow_add, mul_comm (2 ^ D v), mul_assoc]
    have hvars : ∀ {f : MvPolynomial Var ℂ} (i : ℕ), f.vars ⊆ insert v W → ((toU v f).coeff i).vars ⊆ W := by
      intro f i hf x hx
      have h1 : x ≠ v := by rintro rfl; exact free_coeff x i f hx
      exact Finset.mem_of_mem_insert_of_ne (hf ((toU_coeff v i f).vars_subset hx)) h1
    have hdeg : ∀ (f : MvPolynomial Var ℂ) (i : ℕ) (x : Var), ((toU v f).coeff i).degreeOf x ≤ f.degreeOf x := fun f i x => (toU_coeff v i f).degreeOf_le
    refine ih _ _ (hvars _ hf) (hvars _ hg) (2 ^ D v * S) D (fun x => (add_le_add (hdeg f _ x) (hdeg g _ x)).trans (hD x)) (fun t ht => ?_) _ _
    have e : ∀ (f : MvPolynomial Var ℂ) (i : ℕ), eval t ((toU v f).coeff i) = ((toU v f).map (eval t)).coeff i := fun f i => by rw [Polynomial.coeff_map]
    rw [e, e, norm_mul]
    have dg : ∀ f : MvPolynomial Var ℂ, ((toU v f).map (eval t)).natDegree ≤ f.degreeOf v := fun f => Polynomial.natDegree_map_le.trans (natDegree_toU v f).le
    refine (coeff_mul_coeff_le (S := S) (fun z hz => ?_) (dg f) (dg g) _ _).trans ?_
    · rw [eval_toU, eval_toU]
      refine h _ fun x => ?_
      by_cases hx : x = v
      · subst hx; simpa using hz
      · simpa [Function.update_of_ne hx] using ht x
    · refine mul_le_mul_of_nonneg_right (pow_le_pow_right₀ (by norm_num) (hD v)) ?_
      exact (norm_nonneg _).trans (h (fun _ => 1) (by simp))

/-- on the torus a polynomial is at most the sum of the sizes of its coefficients -/
theorem eval_le_card {W : Finset Var} {N : ℕ} {f : MvPolynomial Var ℂ} (hf : f.vars ⊆ W) (hd : ∀ x, f.degreeOf x ≤ N) {K : ℝ} (hK : ∀ u, ‖coeff u f‖ ≤ K) {t : Var → ℂ}
    (ht : ∀ x, ‖t x‖ = 1) : ‖eval t f‖ ≤ (N + 1) ^ W.card * K := by
  classical
  have hK0 : 0 ≤ K := (norm_nonneg _).trans (hK 0)
  rw [eval_eq]
  have hcard : (f.support).card ≤ (N + 1) ^ W.card := by
    have : f.support ⊆ W.finsupp fun _ => Finset.range (N + 1) := by
      intro s hs
      rw [Finset.mem_finsupp_iff]
      refine ⟨fun x hx => hf ((mem_vars x).2 ⟨s, hs, hx⟩), fun x _ => ?_⟩
      rw [Finset.mem_range]
      have := (monomial_le_degreeOf x hs).trans (hd x)
      omega
    refine (Finset.card_le_card this).trans ?_
    rw [Finset.card_finsupp]
    simp
  refine (norm_sum_le _ _).trans ((Finset.sum_le_card_nsmul _ _ K fun s _ => ?_).trans ?_)
  · rw [norm_mul]
    have : ‖∏ i ∈ s.support, t i ^ s i‖ = 1 := by
      rw [norm_prod]
      exact Finset.prod_eq_one fun i _ => by rw [norm_pow, ht, one_pow]
    rw [this, mul_one]; exact hK s
  · rw [nsmul_eq_mul]
    exact mul_le_mul_of_nonneg_right (by exact_mod_cast hcard) hK0

/-- how much the division by a content can enlarge coefficients -/
def growB (n N : ℕ) : ℕ := (2 ^ N * (N + 1)) ^ n

theorem growB_pos (n N : ℕ) : 0 < growB n N := by unfold growB; positivity

theorem growth {V : Finset Var} {N : ℕ} {v : Var} {p q c : MvPolynomial Var ℤ} (e : p = q * c) (p0 : p ≠ 0) (hc : v ∉ c.vars) (hv : p.vars ⊆ V) (hd : ∀ w, p.degreeOf w ≤ N)
    {K : ℤ} (hK : ∀ u, |coeff u p| ≤ K) (u : Var →₀ ℕ) : |coeff u q| ≤ growB (V.erase v).card N * K := by
  classical
  have hK0 : 0 ≤ K := (abs_nonneg _).trans (hK 0)
  have c0 : c ≠ 0 := fun h => p0 (by rw [e, h, mul_zero])
  rw [coeff_toU v u q]
  obtain ⟨i, hi⟩ : ∃ i, i = u v := ⟨_, rfl⟩
  obtain ⟨w, hw⟩ : ∃ w, w = u.erase v := ⟨_, rfl⟩
  rw [← hi, ← hw]
  have ei : (toU v p).coeff i = (toU v q).coeff i * c := by rw [e, map_mul, toU_free hc, Polynomial.coeff_mul_C]
  by_cases q0 : (toU v q).coeff i = 0
  · rw [q0, coeff_zero, abs_zero]; positivity
  obtain ⟨Q, hQ⟩ : ∃ Q, Q = (toU v q).coeff i := ⟨_, rfl⟩
  obtain ⟨P, hP⟩ : ∃ P, P = (toU v p).coeff i := ⟨_, rfl⟩
  rw [← hQ] at q0 ei ⊢
  rw [← hP] at ei
  have P0 : P ≠ 0 := by rw [ei]; exact mul_ne_zero q0 c0
  have Pv : P.vars ⊆ V.erase v := by
    intro x hx
    rw [hP] at hx
    refine Finset.mem_erase.2 ⟨?_, hv ((toU_coeff v i p).vars_subset hx)⟩
    rintro rfl
    exact free_coeff x i p hx
  have Pd : ∀ x, P.degreeOf x ≤ N := fun x => by rw [hP]; exact (toU_coeff v i p).degreeOf_le.trans (hd x)
  have Pc : ∀ s, |coeff s P| ≤ K := by
    intro s
    rw [hP, toU_coeff v i p s]
    split
    · exact hK _
    · rw [abs_zero]; exact hK0
  obtain ⟨φ, hφ⟩ : ∃ φ : ℤ →+* ℂ, φ = Int.castRingHom ℂ := ⟨_, rfl⟩
  have cf : ∀ (f : MvPolynomial Var ℤ) s, ‖coeff s (map φ f)‖ = |((coeff s f : ℤ) : ℝ)| := by
    intro f s
    rw [coeff_map, hφ]
    simp
  have dm : ∀ (f : MvPolynomial Var ℤ) (x : Var), (map φ f).degreeOf x ≤ f.degreeOf x := by
    intro f x
    rw [degreeOf_le_iff]
    intro s hs
    exact monomial_le_degreeOf x (support_map_subset _ _ hs)
  obtain ⟨s, hs⟩ := ne_zero_iff.1 c0
  have hs1 : (1 : ℝ) ≤ ‖coeff s (map φ c)‖ := by
    rw [cf]
    have : (1 : ℤ) ≤ |coeff s c| := Int.one_le_abs hs
    exact_mod_cast this
  have key := gelfond (V.erase v) (map φ Q) (map φ c) ((vars_map (f := φ) _).trans ((vars_of_dvd ⟨c, ei⟩ P0).trans Pv)) ((vars_map (f := φ) _).trans ((vars_of_dvd ⟨Q, by rw [ei, mul_comm]⟩ P0).trans Pv))
    ((N + 1 : ℝ) ^ (V.erase v).card * K) (fun _ => N) (fun x => by
      refine (add_le_add (dm Q x) (dm c x)).trans ?_
      rw [← degreeOf_mul_dom q0 c0, ← ei]; exact Pd x) (fun t ht => by
      rw [← map_mul, ← map_mul, ← ei]
      refine eval_le_card ((vars_map (f := φ) _).trans Pv) (fun x => (dm P x).trans (Pd x)) (fun s => ?_) ht
      rw [cf]
      exact_mod_cast Pc s) w s
  have h1 : ‖coeff w (map φ Q)‖ ≤ 2 ^ (∑ x ∈ V.erase v, N) * ((N + 1 : ℝ) ^ (V.erase v).card * K) :=
    (le_mul_of_one_le_right (norm_nonneg _) hs1).trans key
  rw [cf, Finset.sum_const, smul_eq_mul, ← mul_assoc, mul_comm _ N, pow_mul, ← mul_pow] at h1
  unfold growB
  exact_mod_cast h1

end Mgcd
end CLPoly
