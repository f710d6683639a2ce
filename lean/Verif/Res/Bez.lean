import Verif.Res.Det

/-! # The Bezout (Cayley) matrix and the resultant -/

namespace CLPoly
namespace Res
open Polynomial Matrix

variable {R : Type*} [CommRing R]

/-- when the degrees are small enough the last column may be replaced by the constant coefficients -/
theorem dpol_plain {k : ℕ} (p : ℕ → R[X]) (h : ∀ i < k, (p i).natDegree < k) :
    dpol k k p = C (Matrix.of fun i c : Fin k => (p i).coeff (k - 1 - c)).det := by
  rw [RingHom.map_det]
  unfold dpol
  let U : Matrix (Fin k) (Fin k) R[X] := Matrix.of fun c d => if (d : ℕ) + 1 = k then X ^ (k - 1 - c) else if c = d then 1 else 0
  have hU : U.det = 1 := by
    have hb : U.BlockTriangular id := by
      intro i j hij
      have : j.1 < i.1 := hij
      have := i.2
      simp only [U, of_apply]
      rw [if_neg (by omega), if_neg (fun e => by rw [e] at hij; exact lt_irrefl _ hij)]
    rw [Matrix.det_of_isUpperTriangular hb]
    refine Finset.prod_eq_one fun i _ => ?_
    simp only [U, of_apply, if_true]
    split
    · rw [show k - 1 - i.1 = 0 by omega, pow_zero]
    · rfl
  have hmul : (Matrix.of fun i c : Fin k => if (c : ℕ) + 1 = k then p i else C ((p i).coeff (k - 1 - c))) = C.mapMatrix (Matrix.of fun i c : Fin k => (p i).coeff (k - 1 - c)) * U := by
    refine Matrix.ext fun i c => ?_
    simp only [mul_apply, of_apply, RingHom.mapMatrix_apply, map_apply, U]
    split
    · refine (as_sum_range_C_mul_X_pow' (p i) (h i i.2)).trans ?_
      rw [← Finset.sum_range_reflect, Finset.sum_range]
    · rw [Finset.sum_eq_single c]
      · simp
      · intro d _ hd
        rw [if_neg hd, mul_zero]
      · simp
  rw [hmul, det_mul, hU, mul_one]

/-- the rows of the matrix, with `t` more multiples of `G` -/
noncomputable def brow (G : R[X]) (K : ℕ → R[X]) (n m t i : ℕ) : R[X] := if i < m then K (m - i) else X ^ (n + t - 1 - i) * G

theorem brow_drop {G : R[X]} {K : ℕ → R[X]} {n m : ℕ} (hm : 1 ≤ m) (hmn : m ≤ n) (hG : G.natDegree = m) (hK : ∀ i, 1 ≤ i → i ≤ m → (K i).natDegree < n) :
    ∀ t, dpol (n + t) (n + t) (brow G K n m t) = ((-1) ^ m * C G.leadingCoeff) ^ t * dpol n n (brow G K n m 0) := by
  intro t
  induction t with
  | zero => simp
  | succ t ih =>
    rw [pow_succ', mul_assoc, ← ih, ← add_assoc, dpol_drop (by omega) _ (s := m) (by omega)]
    · congr 1
      · congr 2
        rw [brow, if_neg (lt_irrefl m), coeff_X_pow_mul', if_pos (by omega), show n + t - (n + (t + 1) - 1 - m) = m by omega, ← hG]
        rfl
      · refine dpol_congr fun i hi => ?_
        unfold brow
        by_cases h : i < m
        · rw [if_pos h, if_pos h, if_pos h]
        · rw [if_neg h, if_neg (by omega), if_neg h, show n + (t + 1) - 1 - (i + 1) = n + t - 1 - i by omega]
    · intro i hi hne
      unfold brow
      split
      · rename_i h
        exact coeff_eq_zero_of_natDegree_lt ((hK (m - i) (by omega) (by omega)).trans_le (by omega))
      · exact coeff_top (by omega)

theorem brow_upper {F G : R[X]} {K f2 f4 : ℕ → R[X]} {n m : ℕ} (hmn : m ≤ n)
    (hK : ∀ i, 1 ≤ i → i ≤ m → K i = X ^ (n - m) * G * f2 i - F * f4 i)
    (h2 : ∀ i, 1 ≤ i → (f2 i).natDegree < i) (h4 : ∀ i, 1 ≤ i → (f4 i).natDegree < i) (h4' : ∀ i, 1 ≤ i → i ≤ m → (f4 i).coeff (i - 1) = G.leadingCoeff) :
    dpol (n + m) (n + m) (brow G K n m m) = C ((-G.leadingCoeff) ^ m) * SB (n + m) m n F G := by
  unfold SB
  rw [show m + n = n + m from add_comm m n, dpol_upper (n + m) (n + m) (rows F G m n) (brow G K n m m)
    (fun i j => if i < m then (if j < m then -(f4 (m - i)).coeff (m - 1 - j) else (X ^ (n - m) * f2 (m - i)).coeff (m + n - 1 - j)) else if j = i then 1 else 0)]
  · congr 2
    rw [add_comm n m, Finset.prod_range_add, Finset.prod_eq_pow_card (b := -G.leadingCoeff), Finset.card_range, Finset.prod_eq_one, mul_one]
    · intro i _
      rw [if_neg (by omega), if_pos rfl]
    · intro i hi
      have hi := Finset.mem_range.1 hi
      rw [if_pos hi, if_pos hi, show m - 1 - i = m - i - 1 by omega, h4' _ (by omega) (by omega)]
  · intro i j hij
    split
    · rename_i h
      rw [if_pos (by omega), coeff_eq_zero_of_natDegree_lt ((h4 (m - i) (by omega)).trans_le (by omega)), neg_zero]
    · rw [if_neg (by omega)]
  · intro i hi
    unfold brow
    by_cases h : i < m
    · simp only [if_pos h]
      have d2 := h2 (m - i) (by omega)
      have d4 := h4 (m - i) (by omega)
      rw [add_comm n m, Finset.sum_range_add, hK _ (by omega) (by omega)]
      have e1 : ∑ j ∈ Finset.range m, C (if j < m then -(f4 (m - i)).coeff (m - 1 - j) else (X ^ (n - m) * f2 (m - i)).coeff (m + n - 1 - j)) * rows F G m n j = -(F * f4 (m - i)) := by
        conv_rhs => rw [as_sum_range_C_mul_X_pow' (f4 (m - i)) (d4.trans_le (Nat.sub_le m i)), ← Finset.sum_range_reflect, Finset.mul_sum, ← Finset.sum_neg_distrib]
        refine Finset.sum_congr rfl fun j hj => ?_
        rw [if_pos (Finset.mem_range.1 hj), rows, if_pos (Finset.mem_range.1 hj), map_neg]
        ring
      have e2 : ∑ j ∈ Finset.range n, C (if m + j < m then -(f4 (m - i)).coeff (m - 1 - (m + j)) else (X ^ (n - m) * f2 (m - i)).coeff (m + n - 1 - (m + j))) * rows F G m n (m + j) = X ^ (n - m) * f2 (m - i) * G := by
        have hd : (X ^ (n - m) * f2 (m - i)).natDegree < n := by
          refine lt_of_le_of_lt natDegree_mul_le ?_
          have := natDegree_X_pow_le (R := R) (n - m)
          omega
        conv_rhs => rw [as_sum_range_C_mul_X_pow' _ hd, ← Finset.sum_range_reflect, Finset.sum_mul]
        refine Finset.sum_congr rfl fun j hj => ?_
        rw [if_neg (by omega), rows, if_neg (by omega), show m + n - 1 - (m + j) = n - 1 - j by omega]
        ring
      rw [e1, e2]
      ring
    · simp only [if_neg h]
      rw [Finset.sum_eq_single i]
      · rw [if_pos rfl, C_1, one_mul, rows, if_neg h, show n + m - 1 - i = m + n - 1 - i by omega]
      · intro j _ hne
        rw [if_neg hne, C_0, zero_mul]
      · intro h'
        exact absurd (Finset.mem_range.2 hi) h'

/-- **the determinant of the Bezout matrix is the resultant**, exactly -/
theorem brow_resultant [IsDomain R] {F G : R[X]} {K f2 f4 : ℕ → R[X]} {n m : ℕ} (hm : 1 ≤ m) (hmn : m ≤ n) (hF : F.natDegree = n) (hG : G.natDegree = m)
    (hK : ∀ i, 1 ≤ i → i ≤ m → K i = X ^ (n - m) * G * f2 i - F * f4 i) (hKd : ∀ i, 1 ≤ i → i ≤ m → (K i).natDegree < n)
    (h2 : ∀ i, 1 ≤ i → (f2 i).natDegree < i) (h4 : ∀ i, 1 ≤ i → (f4 i).natDegree < i) (h4' : ∀ i, 1 ≤ i → i ≤ m → (f4 i).coeff (i - 1) = G.leadingCoeff) :
    (Matrix.of fun i c : Fin n => (brow G K n m 0 i).coeff (n - 1 - c)).det = resultant F G n m := by
  have e1 := brow_drop hm hmn hG hKd m
  have e2 := brow_upper hmn hK h2 h4 h4'
  have hG0 : G ≠ 0 := by rintro rfl; simp at hG; omega
  rw [e1, SB_resultant F G hF.le hG.le (by omega)] at e2
  have e3 : ((-1 : R[X]) ^ m * C G.leadingCoeff) ^ m = C ((-G.leadingCoeff) ^ m) := by
    rw [mul_pow, ← pow_mul, neg_pow (G.leadingCoeff) m, map_mul, map_pow, map_pow, map_neg, C_1]
    congr 1
    rcases Nat.even_or_odd m with h | h
    · rw [h.neg_one_pow, (h.mul_left m).neg_one_pow]
    · rw [h.neg_one_pow, (h.mul h).neg_one_pow]
  rw [e3, dpol_plain _ (fun i hi => ?_)] at e2
  · refine C_injective (mul_left_cancel₀ ?_ e2)
    rw [Ne, C_eq_zero]
    exact pow_ne_zero _ (neg_ne_zero.2 (leadingCoeff_ne_zero.2 hG0))
  · unfold brow
    split
    · exact hKd _ (by omega) (by omega)
    · refine lt_of_le_of_lt natDegree_mul_le ?_
      have := natDegree_X_pow_le (R := R) (n + 0 - 1 - i)
      omega

end Res
end CLPoly
