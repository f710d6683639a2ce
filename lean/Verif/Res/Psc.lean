import Verif.Res.Chain
import Mathlib.LinearAlgebra.Matrix.ToLinearEquiv
import Mathlib.LinearAlgebra.Matrix.NonsingularInverse
import Mathlib.RingTheory.EuclideanDomain
import Mathlib.Algebra.Polynomial.FieldDivision

/-! # Principal subresultant coefficients and the greatest common divisor over a field -/

namespace CLPoly
namespace Res
open Polynomial Matrix

section ring
variable {R S : Type*} [CommRing R] [CommRing S]

theorem dpol_map (φ : R →+* S) (N k : ℕ) (p : ℕ → R[X]) : (dpol N k p).map φ = dpol N k fun i => (p i).map φ := by
  unfold dpol
  rw [← Polynomial.coe_mapRingHom, RingHom.map_det]
  congr 1
  ext i c : 2
  simp only [RingHom.mapMatrix_apply, map_apply, of_apply, Polynomial.coe_mapRingHom]
  split
  · rfl
  · rw [Polynomial.map_C, Polynomial.coeff_map]

theorem rows_map (φ : R →+* S) (F G : R[X]) (a b i : ℕ) : (rows F G a b i).map φ = rows (F.map φ) (G.map φ) a b i := by
  unfold rows
  split <;> simp

/-- subresultants commute with ring homomorphisms -/
theorem Sub_map (φ : R →+* S) (F G : R[X]) (m n i : ℕ) : (Sub F G m n i).map φ = Sub (F.map φ) (G.map φ) m n i := by
  unfold Sub SB
  rw [dpol_map]
  simp only [rows_map]

/-- the coefficients of a determinant polynomial are determinants -/
theorem dpol_coeff (N k : ℕ) (p : ℕ → R[X]) (c : ℕ) :
    (dpol N (k + 1) p).coeff c = (Matrix.of fun i j : Fin (k + 1) => if (j : ℕ) = k then (p i).coeff c else (p i).coeff (N - 1 - j)).det := by
  unfold dpol
  rw [Matrix.det_apply, Matrix.det_apply, Polynomial.finsetSum_coeff]
  refine Finset.sum_congr rfl fun σ _ => ?_
  rw [Units.smul_def, Units.smul_def, Polynomial.coeff_smul]
  congr 1
  rw [Fin.prod_univ_castSucc, Fin.prod_univ_castSucc]
  have e : ∀ j : Fin k, (Matrix.of fun i c : Fin (k + 1) => if (c : ℕ) + 1 = k + 1 then p i else C ((p i).coeff (N - 1 - c))) (σ j.castSucc) j.castSucc
      = C ((Matrix.of fun i j : Fin (k + 1) => if (j : ℕ) = k then (p i).coeff c else (p i).coeff (N - 1 - j)) (σ j.castSucc) j.castSucc) := by
    intro j
    have := j.2
    simp only [of_apply, Fin.val_castSucc]
    rw [if_neg (by omega), if_neg (by omega)]
  rw [Finset.prod_congr rfl fun j _ => e j, ← map_prod, Polynomial.coeff_C_mul]
  congr 1
  simp

theorem dpol_dvd (N k : ℕ) (p : ℕ → R[X]) {g : R[X]} (h : ∀ i, g ∣ p i) : g ∣ dpol N (k + 1) p := by
  unfold dpol
  rw [Matrix.det_apply]
  refine Finset.dvd_sum fun σ _ => ?_
  rw [Units.smul_def]
  rw [zsmul_eq_mul]
  refine Dvd.dvd.mul_left ?_ _
  rw [Fin.prod_univ_castSucc]
  refine Dvd.dvd.mul_left ?_ _
  simp only [of_apply, Fin.val_last, if_true]
  exact h _

theorem dpol_natDegree {N k : ℕ} {p : ℕ → R[X]} (hk : k + 1 ≤ N) (h : ∀ i < k + 1, (p i).natDegree < N) : (dpol N (k + 1) p).natDegree ≤ N - (k + 1) := by
  rw [Polynomial.natDegree_le_iff_coeff_eq_zero]
  intro c hc
  rw [dpol_coeff]
  by_cases hcN : c < N
  · refine Matrix.det_zero_of_column_eq (i := ⟨N - 1 - c, by omega⟩) (j := ⟨k, by omega⟩) (fun e => ?_) fun i => ?_
    · rw [Fin.mk.injEq] at e; omega
    · simp only [of_apply, if_true]
      rw [if_neg (by omega)]
      congr 1; omega
  · refine Matrix.det_eq_zero_of_column_eq_zero ⟨k, by omega⟩ fun i => ?_
    simp only [of_apply, if_true]
    exact Polynomial.coeff_eq_zero_of_natDegree_lt (lt_of_lt_of_le (h i i.2) (by omega))

theorem rows_natDegree {F G : R[X]} {m n i : ℕ} (hF : F.natDegree ≤ m) (hG : G.natDegree ≤ n) {j : ℕ} (hj : j < (n - i) + (m - i)) :
    (rows F G (n - i) (m - i) j).natDegree < m + n - i := by
  unfold rows
  split
  · refine lt_of_le_of_lt natDegree_mul_le ?_
    have := natDegree_X_pow_le (R := R) (n - i - 1 - j)
    omega
  · refine lt_of_le_of_lt natDegree_mul_le ?_
    have := natDegree_X_pow_le (R := R) (n - i + (m - i) - 1 - j)
    omega

theorem Sub_natDegree {F G : R[X]} {m n i : ℕ} (hF : F.natDegree ≤ m) (hG : G.natDegree ≤ n) (hm : i ≤ m) (hn : i ≤ n) (hi : i < max m n) : (Sub F G m n i).natDegree ≤ i := by
  unfold Sub SB
  obtain ⟨k, hk⟩ : ∃ k, k + 1 = (n - i) + (m - i) := ⟨(n - i) + (m - i) - 1, by omega⟩
  have h := dpol_natDegree (N := m + n - i) (k := k) (p := rows F G (n - i) (m - i)) (by omega) fun j hj => rows_natDegree hF hG (by omega)
  rw [← hk]
  omega

theorem Sub_dvd {F G g : R[X]} {m n i : ℕ} (hF : g ∣ F) (hG : g ∣ G) (hi : i < max m n) : g ∣ Sub F G m n i := by
  unfold Sub SB
  obtain ⟨k, hk⟩ : ∃ k, k + 1 = (n - i) + (m - i) := ⟨(n - i) + (m - i) - 1, by omega⟩
  rw [← hk]
  refine dpol_dvd _ _ _ fun j => ?_
  unfold rows
  split
  · exact hF.mul_left _
  · exact hG.mul_left _

theorem Sub_swap (F G : R[X]) (m n i : ℕ) : Sub F G m n i = (-1) ^ ((m - i) * (n - i)) * Sub G F n m i := by
  unfold Sub
  rw [SB_swap, add_comm m n]

end ring

section field
variable {K : Type*} [Field K]

open Classical in
/-- the principal subresultant coefficient at the degree of the gcd is not zero -/
theorem psc_ne_zero {P Q : K[X]} {m l e : ℕ} (hm : P.natDegree = m) (hP : P ≠ 0) (hQ : Q.natDegree ≤ l) (he : (EuclideanDomain.gcd P Q).natDegree = e) (hel : e ≤ l) (hem : e ≤ m) (hlt : e < max m l) :
    (Sub P Q m l e).coeff e ≠ 0 := by
  obtain ⟨k, hk⟩ : ∃ k, k + 1 = (l - e) + (m - e) := ⟨(l - e) + (m - e) - 1, by omega⟩
  unfold Sub SB
  rw [← hk, dpol_coeff]
  intro hdet
  obtain ⟨v, hv0, hv⟩ := Matrix.exists_vecMul_eq_zero_iff.2 hdet
  obtain ⟨w, hw⟩ : ∃ w : ℕ → K, w = fun i => if h : i < k + 1 then v ⟨i, h⟩ else 0 := ⟨_, rfl⟩
  have hwv : ∀ i : Fin (k + 1), w i = v i := fun i => by rw [hw]; exact dif_pos i.2
  obtain ⟨g, hg⟩ : ∃ g, g = EuclideanDomain.gcd P Q := ⟨_, rfl⟩
  have g0 : g ≠ 0 := by
    rw [hg]; intro h
    exact hP (EuclideanDomain.gcd_eq_zero_iff.1 h).1
  -- the combination has low degree
  obtain ⟨Z, hZ⟩ : ∃ Z, Z = ∑ i ∈ Finset.range (k + 1), C (w i) * rows P Q (l - e) (m - e) i := ⟨_, rfl⟩
  have hZc : ∀ c, Z.coeff c = ∑ i ∈ Finset.range (k + 1), w i * (rows P Q (l - e) (m - e) i).coeff c := by
    intro c
    rw [hZ, Polynomial.finsetSum_coeff]
    exact Finset.sum_congr rfl fun i _ => by rw [Polynomial.coeff_C_mul]
  have hcol : ∀ c : ℕ, e ≤ c → Z.coeff c = 0 := by
    intro c hc
    rw [hZc]
    by_cases hcN : c < m + l - e
    · by_cases hce : c = e
      · have := congrFun hv ⟨k, by omega⟩
        simp only [vecMul, dotProduct, of_apply, Pi.zero_apply, if_true] at this
        rw [Finset.sum_range, ← this]
        exact Finset.sum_congr rfl fun i _ => by rw [hwv, hce]
      · have := congrFun hv ⟨m + l - e - 1 - c, by omega⟩
        simp only [vecMul, dotProduct, of_apply, Pi.zero_apply] at this
        rw [Finset.sum_range, ← this]
        refine Finset.sum_congr rfl fun i _ => ?_
        rw [hwv, if_neg (by omega)]
        congr 2; omega
    · refine Finset.sum_eq_zero fun i hi => ?_
      rw [Polynomial.coeff_eq_zero_of_natDegree_lt, mul_zero]
      exact lt_of_lt_of_le (rows_natDegree hm.le hQ (by rw [Finset.mem_range] at hi; omega)) (by omega)
  have hgZ : g ∣ Z := by
    rw [hZ]
    refine Finset.dvd_sum fun i _ => Dvd.dvd.mul_left ?_ _
    unfold rows
    rw [hg]
    split
    · exact (EuclideanDomain.gcd_dvd_left P Q).mul_left _
    · exact (EuclideanDomain.gcd_dvd_right P Q).mul_left _
  have Z0 : Z = 0 := by
    by_contra hZ0
    have h1 := Polynomial.natDegree_le_of_dvd hgZ hZ0
    rw [hg, he] at h1
    exact hZ0 (Polynomial.leadingCoeff_eq_zero.1 (hcol _ h1))
  -- split
  obtain ⟨U, hU⟩ : ∃ U : K[X], U = ∑ i ∈ Finset.range (l - e), C (w i) * X ^ (l - e - 1 - i) := ⟨_, rfl⟩
  obtain ⟨V, hV⟩ : ∃ V : K[X], V = ∑ i ∈ Finset.range (m - e), C (w (l - e + i)) * X ^ (m - e - 1 - i) := ⟨_, rfl⟩
  have hUV : U * P + V * Q = 0 := by
    rw [← Z0, hZ, hk, Finset.sum_range_add, hU, hV, Finset.sum_mul, Finset.sum_mul]
    congr 1
    · refine Finset.sum_congr rfl fun i hi => ?_
      unfold rows
      rw [if_pos (Finset.mem_range.1 hi)]; ring
    · refine Finset.sum_congr rfl fun i hi => ?_
      unfold rows
      rw [if_neg (by omega), show l - e + (m - e) - 1 - (l - e + i) = m - e - 1 - i by omega]; ring
  have sumc : ∀ (n : ℕ) (u : ℕ → K) (i : ℕ), i < n → (∑ i ∈ Finset.range n, C (u i) * X ^ (n - 1 - i) : K[X]).coeff (n - 1 - i) = u i := by
    intro n u i hi
    rw [Polynomial.finsetSum_coeff, Finset.sum_eq_single i]
    · rw [Polynomial.coeff_C_mul, Polynomial.coeff_X_pow, if_pos rfl, mul_one]
    · intro j hj hji
      rw [Polynomial.coeff_C_mul, Polynomial.coeff_X_pow, if_neg, mul_zero]
      rw [Finset.mem_range] at hj; omega
    · intro h; rw [Finset.mem_range] at h; omega
  have sumd : ∀ (n : ℕ) (u : ℕ → K), 1 ≤ n → (∑ i ∈ Finset.range n, C (u i) * X ^ (n - 1 - i) : K[X]).natDegree < n := by
    intro n u hn
    refine lt_of_le_of_lt (Polynomial.natDegree_sum_le_of_forall_le (n := n - 1) _ _ fun i _ => ?_) (by omega)
    refine natDegree_mul_le.trans ?_
    rw [natDegree_C]
    have := natDegree_X_pow_le (R := K) (n - 1 - i)
    omega
  obtain ⟨P', hP'⟩ := EuclideanDomain.gcd_dvd_left P Q
  obtain ⟨Q', hQ'⟩ := EuclideanDomain.gcd_dvd_right P Q
  rw [← hg] at hP' hQ'
  have P'0 : P' ≠ 0 := by rintro rfl; rw [mul_zero] at hP'; exact hP hP'
  have hcop : IsCoprime P' Q' := by
    have h1 := EuclideanDomain.gcd_eq_gcd_ab P Q
    rw [← hg] at h1
    refine ⟨EuclideanDomain.gcdA P Q, EuclideanDomain.gcdB P Q, mul_left_cancel₀ g0 ?_⟩
    linear_combination -h1 - (EuclideanDomain.gcdA P Q) * hP' - (EuclideanDomain.gcdB P Q) * hQ'
  have hrel : U * P' = - (V * Q') := by
    refine mul_left_cancel₀ g0 ?_
    linear_combination hUV - U * hP' - V * hQ'
  have hdvd : P' ∣ V := hcop.dvd_of_dvd_mul_right ((dvd_neg).1 ⟨U, by rw [← hrel, mul_comm]⟩)
  have hdP' : P'.natDegree = m - e := by
    have := congrArg natDegree hP'
    rw [natDegree_mul g0 P'0, hm, hg, he] at this
    omega
  have V0 : V = 0 := by
    by_contra hne
    have h1 := natDegree_le_of_dvd hdvd hne
    rcases Nat.eq_zero_or_pos (m - e) with h | h
    · rw [hV, h] at hne; simp at hne
    · have := sumd (m - e) (fun i => w (l - e + i)) h
      rw [← hV] at this
      omega
  have U0 : U = 0 := by
    rw [V0, zero_mul, neg_zero] at hrel
    exact (mul_eq_zero.1 hrel).resolve_right P'0
  refine hv0 (funext fun i => ?_)
  rw [← hwv, Pi.zero_apply]
  by_cases hi : (i : ℕ) < l - e
  · rw [← sumc (l - e) w i hi, ← hU, U0, coeff_zero]
  · have := sumc (m - e) (fun i => w (l - e + i)) (i - (l - e)) (by omega)
    rw [show l - e + ((i : ℕ) - (l - e)) = i by omega] at this
    rw [← this, ← hV, V0, coeff_zero]

open Classical in
/-- the first subresultant with non-vanishing principal coefficient is the gcd -/
theorem sub_assoc_gcd {P Q : K[X]} {m l d : ℕ} (hm : P.natDegree = m) (hP : P ≠ 0) (hQ : Q.natDegree ≤ l) (hdl : d ≤ l) (hdm : d ≤ m) (hlt : d < max m l)
    (hz : ∀ j < d, (Sub P Q m l j).coeff j = 0) (hd : (Sub P Q m l d).coeff d ≠ 0) : Associated (Sub P Q m l d) (EuclideanDomain.gcd P Q) := by
  have h0 : Sub P Q m l d ≠ 0 := by intro h; rw [h] at hd; simp at hd
  have hdeg : (Sub P Q m l d).natDegree = d := le_antisymm (Sub_natDegree hm.le hQ hdm hdl hlt) (le_natDegree_of_ne_zero hd)
  have hdvd : EuclideanDomain.gcd P Q ∣ Sub P Q m l d := Sub_dvd (EuclideanDomain.gcd_dvd_left P Q) (EuclideanDomain.gcd_dvd_right P Q) hlt
  have he := natDegree_le_of_dvd hdvd h0
  rw [hdeg] at he
  have he' : (EuclideanDomain.gcd P Q).natDegree = d := by
    rcases he.lt_or_eq with h | h
    · exact absurd (hz _ h) (psc_ne_zero hm hP hQ rfl (by omega) (by omega) (by omega))
    · exact h
  refine Associated.symm ?_
  exact associated_of_dvd_of_natDegree_le hdvd h0 (by rw [hdeg, he'])

theorem sub_root {P Q : K[X]} {m l d : ℕ} (hm : P.natDegree = m) (hP : P ≠ 0) (hQ : Q.natDegree ≤ l) (hdl : d ≤ l) (hdm : d ≤ m) (hlt : d < max m l)
    (hz : ∀ j < d, (Sub P Q m l j).coeff j = 0) (hd : (Sub P Q m l d).coeff d ≠ 0) :
    Sub P Q m l d ∣ P ∧ Sub P Q m l d ∣ Q ∧ ∀ r, (Sub P Q m l d).eval r = 0 ↔ P.eval r = 0 ∧ Q.eval r = 0 := by
  classical
  have h := sub_assoc_gcd hm hP hQ hdl hdm hlt hz hd
  have h1 := h.dvd.trans (EuclideanDomain.gcd_dvd_left P Q)
  have h2 := h.dvd.trans (EuclideanDomain.gcd_dvd_right P Q)
  refine ⟨h1, h2, fun r => ⟨fun hr => ⟨eval_eq_zero_of_dvd_of_eval_eq_zero h1 hr, eval_eq_zero_of_dvd_of_eval_eq_zero h2 hr⟩, fun ⟨a, b⟩ => ?_⟩⟩
  have hg : (EuclideanDomain.gcd P Q).eval r = 0 := by rw [EuclideanDomain.gcd_eq_gcd_ab P Q, eval_add, eval_mul, eval_mul, a, b, zero_mul, zero_mul, add_zero]
  exact eval_eq_zero_of_dvd_of_eval_eq_zero h.symm.dvd hg

/-- if all principal coefficients vanish, the second polynomial is zero -/
theorem sub_all_zero {P Q : K[X]} {m l : ℕ} (hm : P.natDegree = m) (hP : P ≠ 0) (hQ : Q.natDegree ≤ l) (hlm : l < m)
    (hz : ∀ j ≤ l, (Sub P Q m l j).coeff j = 0) : Q = 0 := by
  classical
  by_contra hQ0
  have := natDegree_le_of_dvd (EuclideanDomain.gcd_dvd_right P Q) hQ0
  exact psc_ne_zero hm hP hQ rfl (by omega) (by omega) (by omega) (hz _ (by omega))

end field

end Res
end CLPoly
