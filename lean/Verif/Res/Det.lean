import Mathlib.LinearAlgebra.Matrix.Block
import Mathlib.LinearAlgebra.Matrix.Determinant.Basic
import Mathlib.RingTheory.Polynomial.Resultant.Basic

/-!
# Determinant polynomials

`dpol N k p`: the determinant whose `i`-th row consists of the coefficients of `x^(N-1), …, x^(N-k+1)` of `p i` followed by `p i` itself.
-/

namespace CLPoly
namespace Res
open Polynomial Matrix

variable {R : Type*} [CommRing R]

/-- the determinant polynomial of `p 0, …, p (k-1)` -/
noncomputable def dpol (N k : ℕ) (p : ℕ → R[X]) : R[X] :=
  (Matrix.of fun i c : Fin k => if (c : ℕ) + 1 = k then p i else C ((p i).coeff (N - 1 - c))).det

theorem dpol_one (N : ℕ) (p : ℕ → R[X]) : dpol N 1 p = p 0 := by simp [dpol]

theorem dpol_congr {N k : ℕ} {p q : ℕ → R[X]} (h : ∀ i < k, p i = q i) : dpol N k p = dpol N k q := by
  unfold dpol
  congr 1
  ext i c
  simp only [of_apply, h i i.2]

/-- row operations -/
theorem dpol_rows (N k : ℕ) (p q : ℕ → R[X]) (u : Matrix (Fin k) (Fin k) R) (h : ∀ i : Fin k, q i = ∑ j, C (u i j) * p j) : dpol N k q = C u.det * dpol N k p := by
  unfold dpol
  rw [RingHom.map_det, ← Matrix.det_mul]
  congr 1
  refine Matrix.ext fun i c => ?_
  simp only [mul_apply, of_apply, RingHom.mapMatrix_apply, map_apply]
  split
  · rw [h i]
  · rw [h i, finsetSum_coeff, map_sum]
    exact Finset.sum_congr rfl fun j _ => by rw [coeff_C_mul, C_mul]

theorem dpol_upper (N k : ℕ) (p q : ℕ → R[X]) (u : ℕ → ℕ → R) (hu : ∀ i j, j < i → u i j = 0) (h : ∀ i < k, q i = ∑ j ∈ Finset.range k, C (u i j) * p j) :
    dpol N k q = C (∏ i ∈ Finset.range k, u i i) * dpol N k p := by
  rw [dpol_rows N k p q (Matrix.of fun i j : Fin k => u i j) fun i => by rw [h i i.2, Finset.sum_range]; rfl]
  have hb : (Matrix.of fun i j : Fin k => u i j).BlockTriangular id := fun i j hij => hu i j hij
  rw [Matrix.det_of_isUpperTriangular hb, Finset.prod_range]
  rfl

/-- one row of degree `N`, the others of smaller degree -/
theorem dpol_drop {N k : ℕ} (hk : 1 ≤ k) (p : ℕ → R[X]) {s : ℕ} (hs : s ≤ k) (h : ∀ i ≤ k, i ≠ s → (p i).coeff N = 0) :
    dpol (N + 1) (k + 1) p = (-1) ^ s * C ((p s).coeff N) * dpol N k fun i => p (if i < s then i else i + 1) := by
  unfold dpol
  rw [det_succ_column_zero, Finset.sum_eq_single ⟨s, by omega⟩]
  · congr 1
    · congr 1
      have hne : ¬((0 : Fin (k + 1)) : ℕ) + 1 = k + 1 := by simp; omega
      simp only [of_apply]
      rw [if_neg hne]
      simp
    · congr 1
      refine Matrix.ext fun i c => ?_
      simp only [submatrix_apply, of_apply, Fin.val_succ, Fin.succAbove, Fin.lt_def, Fin.val_castSucc]
      have e : N + 1 - 1 - (c.1 + 1) = N - 1 - c := by omega
      have e2 : ((if i.1 < s then i.castSucc else i.succ : Fin (k + 1)) : ℕ) = if i.1 < s then i.1 else i.1 + 1 := by split <;> rfl
      rw [e, e2]
      simp only [Nat.add_right_cancel_iff]
  · intro i _ hi
    have : (p i).coeff N = 0 := h i (by omega) fun e => hi (Fin.ext e)
    have hne : ¬((0 : Fin (k + 1)) : ℕ) + 1 = k + 1 := by simp; omega
    simp only [of_apply]
    rw [if_neg hne]
    simp [this]
  · simp

/-- all rows of smaller degree -/
theorem dpol_zero {N k : ℕ} (hk : 1 ≤ k) (p : ℕ → R[X]) (h : ∀ i ≤ k, (p i).coeff N = 0) : dpol (N + 1) (k + 1) p = 0 := by
  rw [dpol_drop hk p (Nat.zero_le k) fun i hi _ => h i hi, h 0 (Nat.zero_le _)]
  simp

/-! ## two polynomials -/

/-- the rows `x^(a-1) F, …, F, x^(b-1) G, …, G` -/
noncomputable def rows (F G : R[X]) (a b : ℕ) (i : ℕ) : R[X] := if i < a then X ^ (a - 1 - i) * F else X ^ (a + b - 1 - i) * G

noncomputable def SB (N a b : ℕ) (F G : R[X]) : R[X] := dpol N (a + b) (rows F G a b)

theorem SB_one_zero (N : ℕ) (F G : R[X]) : SB N 1 0 F G = F := by simp [SB, dpol_one, rows]
theorem SB_zero_one (N : ℕ) (F G : R[X]) : SB N 0 1 F G = G := by simp [SB, dpol_one, rows]

theorem coeff_top {N k : ℕ} {F : R[X]} (h : F.natDegree + k < N) : (X ^ k * F).coeff N = 0 := by
  rw [coeff_X_pow_mul', if_pos (by omega), coeff_eq_zero_of_natDegree_lt (by omega)]

theorem SB_dropG {N a b : ℕ} {F G : R[X]} (hab : 1 ≤ a + b) (hF : F.natDegree + a ≤ N) (hG : G.natDegree + b ≤ N) :
    SB (N + 1) a (b + 1) F G = (-1) ^ a * C (G.coeff (N - b)) * SB N a b F G := by
  unfold SB
  rw [show a + (b + 1) = (a + b) + 1 from rfl, dpol_drop hab _ (s := a) (by omega)]
  · congr 1
    · congr 2
      rw [rows, if_neg (by omega), coeff_X_pow_mul', if_pos (by omega)]
      congr 1
      omega
    · refine dpol_congr fun i hi => ?_
      unfold rows
      split
      · rfl
      · rw [if_neg (by omega)]
        congr 2
        omega
  · intro i hi hne
    unfold rows
    split
    · exact coeff_top (by omega)
    · exact coeff_top (by omega)

theorem SB_dropF {N a b : ℕ} {F G : R[X]} (hab : 1 ≤ a + b) (hF : F.natDegree + a ≤ N) (hG : G.natDegree + b ≤ N) :
    SB (N + 1) (a + 1) b F G = C (F.coeff (N - a)) * SB N a b F G := by
  unfold SB
  rw [show a + 1 + b = (a + b) + 1 by omega, dpol_drop hab _ (s := 0) (by omega)]
  · rw [pow_zero, one_mul]
    congr 1
    · rw [rows, if_pos (by omega), coeff_X_pow_mul', if_pos (by omega)]
      congr 2
    · refine dpol_congr fun i hi => ?_
      unfold rows
      rw [if_neg (Nat.not_lt_zero i)]
      by_cases h : i < a
      · rw [if_pos (by omega), if_pos h]
        congr 2
        omega
      · rw [if_neg (by omega), if_neg h]
        congr 2
        omega
  · intro i hi hne
    unfold rows
    split
    · exact coeff_top (by omega)
    · exact coeff_top (by omega)

theorem SB_zero {N a b : ℕ} {F G : R[X]} (hab : 2 ≤ a + b) (hF : F.natDegree + a ≤ N) (hG : G.natDegree + b ≤ N) : SB (N + 1) a b F G = 0 := by
  unfold SB
  obtain ⟨k, hk⟩ : ∃ k, a + b = k + 1 := ⟨a + b - 1, by omega⟩
  rw [hk]
  refine dpol_zero (by omega) _ fun i hi => ?_
  unfold rows
  split
  · exact coeff_top (by omega)
  · exact coeff_top (by omega)

/-- iterated drops -/
theorem SB_dropG_pow {N a b : ℕ} {F G : R[X]} (hab : 1 ≤ a + b) (hF : F.natDegree + a ≤ N) (hG : G.natDegree + b = N) : ∀ t : ℕ,
    SB (N + t) a (b + t) F G = ((-1) ^ a * C G.leadingCoeff) ^ t * SB N a b F G := by
  intro t
  induction t with
  | zero => simp
  | succ t ih =>
    rw [← add_assoc, ← add_assoc, SB_dropG (by omega) (by omega) (by omega), ih, pow_succ, show N + t - (b + t) = G.natDegree by omega, coeff_natDegree]
    ring

theorem SB_dropF_pow {N a b : ℕ} {F G : R[X]} {M : ℕ} (hab : 1 ≤ a + b) (hM : F.natDegree ≤ M) (hF : M + a = N) (hG : G.natDegree + b ≤ N) : ∀ t : ℕ,
    SB (N + t) (a + t) b F G = C (F.coeff M) ^ t * SB N a b F G := by
  intro t
  induction t with
  | zero => simp
  | succ t ih =>
    rw [← add_assoc, ← add_assoc, SB_dropF (by omega) (by omega) (by omega), ih, pow_succ, show N + t - (a + t) = M by omega]
    ring

/-- `c F + Q G` instead of `F` -/
theorem SB_rowF {N a b : ℕ} {F G Q : R[X]} {c : R} (hQ : Q.natDegree + a ≤ b) : SB N a b (C c * F + Q * G) G = C (c ^ a) * SB N a b F G := by
  unfold SB
  rw [dpol_upper N (a + b) (rows F G a b) (rows (C c * F + Q * G) G a b)
    (fun i j => if i < a then (if j = i then c else if a ≤ j then (if a - 1 - i ≤ a + b - 1 - j then Q.coeff (a + b - 1 - j - (a - 1 - i)) else 0) else 0) else if j = i then 1 else 0)]
  · congr 2
    rw [Finset.prod_range_add]
    rw [Finset.prod_congr rfl (g := fun _ => c) fun i hi => by simp [Finset.mem_range.1 hi], Finset.prod_const, Finset.card_range]
    rw [Finset.prod_congr rfl (g := fun _ => (1 : R)) fun i hi => by simp, Finset.prod_const_one, mul_one]
  · intro i j hij
    split
    · rw [if_neg (by omega), if_neg (by omega)]
    · rw [if_neg (by omega)]
  · intro i hi
    by_cases hia : i < a
    · rw [Finset.sum_range_add]
      have e1 : ∑ x ∈ Finset.range a, C (if i < a then (if x = i then c else if a ≤ x then (if a - 1 - i ≤ a + b - 1 - x then Q.coeff (a + b - 1 - x - (a - 1 - i)) else 0) else 0) else if x = i then 1 else 0) * rows F G a b x = C c * (X ^ (a - 1 - i) * F) := by
        rw [Finset.sum_eq_single i]
        · simp [hia, rows]
        · intro x hx hne
          have := Finset.mem_range.1 hx
          rw [if_pos hia, if_neg hne, if_neg (by omega)]
          simp
        · simp [hia]
      rw [e1]
      have e2 : ∀ x ∈ Finset.range b, C (if i < a then (if a + x = i then c else if a ≤ a + x then (if a - 1 - i ≤ a + b - 1 - (a + x) then Q.coeff (a + b - 1 - (a + x) - (a - 1 - i)) else 0) else 0) else if a + x = i then 1 else 0) * rows F G a b (a + x)
          = C ((X ^ (a - 1 - i) * Q).coeff (b - 1 - x)) * X ^ (b - 1 - x) * G := by
        intro x hx
        have := Finset.mem_range.1 hx
        have n1 : ¬a + x = i := by omega
        have n2 : ¬a + x < a := by omega
        simp only [hia, n1, n2, rows, if_true, if_false, Nat.le_add_right, coeff_X_pow_mul', show a + b - 1 - (a + x) = b - 1 - x by omega]
        ring
      rw [Finset.sum_congr rfl e2, ← Finset.sum_mul]
      have e3 : ∑ x ∈ Finset.range b, C ((X ^ (a - 1 - i) * Q).coeff (b - 1 - x)) * (X : R[X]) ^ (b - 1 - x) = ∑ k ∈ Finset.range b, C ((X ^ (a - 1 - i) * Q).coeff k) * (X : R[X]) ^ k :=
        Finset.sum_range_reflect (fun k => C ((X ^ (a - 1 - i) * Q).coeff k) * (X : R[X]) ^ k) b
      rw [e3, rows, if_pos hia]
      rw [← as_sum_range_C_mul_X_pow' (p := X ^ (a - 1 - i) * Q)]
      · ring
      · by_cases hQ0 : Q = 0
        · rw [hQ0, mul_zero, natDegree_zero]; omega
        · refine lt_of_le_of_lt natDegree_mul_le ?_
          have := natDegree_X_pow_le (R := R) (a - 1 - i)
          omega
    · rw [Finset.sum_eq_single i]
      · simp [hia, rows]
      · intro j _ hj
        rw [if_neg hia, if_neg hj]
        simp
      · intro h
        exact absurd (Finset.mem_range.2 hi) h

theorem SB_smulF (N a b : ℕ) (F G : R[X]) (c : R) : SB N a b (C c * F) G = C (c ^ a) * SB N a b F G := by
  unfold SB
  rw [dpol_upper N (a + b) (rows F G a b) _ (fun i j => if j = i then (if i < a then c else 1) else 0)]
  · congr 2
    rw [Finset.prod_range_add]
    rw [Finset.prod_congr rfl (g := fun _ => c) fun i hi => by simp [Finset.mem_range.1 hi], Finset.prod_const, Finset.card_range]
    rw [Finset.prod_congr rfl (g := fun _ => (1 : R)) fun i hi => by simp, Finset.prod_const_one, mul_one]
  · intro i j hij
    rw [if_neg (by omega)]
  · intro i hi
    rw [Finset.sum_eq_single i]
    · unfold rows
      by_cases h : i < a
      · simp only [h, if_true]; ring
      · simp [h]
    · intro j _ hj
      rw [if_neg hj]; simp
    · intro h
      exact absurd (Finset.mem_range.2 hi) h

theorem SB_smulG (N a b : ℕ) (F G : R[X]) (c : R) : SB N a b F (C c * G) = C (c ^ b) * SB N a b F G := by
  unfold SB
  rw [dpol_upper N (a + b) (rows F G a b) _ (fun i j => if j = i then (if i < a then 1 else c) else 0)]
  · congr 2
    rw [Finset.prod_range_add]
    rw [Finset.prod_congr rfl (g := fun _ => (1 : R)) fun i hi => by simp [Finset.mem_range.1 hi], Finset.prod_const_one, one_mul]
    rw [Finset.prod_congr rfl (g := fun _ => c) fun i hi => by simp, Finset.prod_const, Finset.card_range]
  · intro i j hij
    rw [if_neg (by omega)]
  · intro i hi
    rw [Finset.sum_eq_single i]
    · unfold rows
      by_cases h : i < a
      · simp [h]
      · simp only [h, if_false, if_true]; ring
    · intro j _ hj
      rw [if_neg hj]; simp
    · intro h
      exact absurd (Finset.mem_range.2 hi) h


set_option backward.defeqAttrib.useBackward true in
theorem SB_swap (N a b : ℕ) (F G : R[X]) : SB N a b F G = (-1) ^ (b * a) * SB N b a G F := by
  unfold SB dpol
  have key : (Matrix.of fun i c : Fin (a + b) => if (c : ℕ) + 1 = a + b then rows F G a b i else C ((rows F G a b i).coeff (N - 1 - c)))
      = (Matrix.of fun i c : Fin (b + a) => if (c : ℕ) + 1 = b + a then rows G F b a i else C ((rows G F b a i).coeff (N - 1 - c))).reindex
        (finSumFinEquiv.symm.trans <| (Equiv.sumComm _ _).trans finSumFinEquiv) (finCongr (add_comm b a)) := by
    refine Matrix.ext fun i c => ?_
    have e : ∀ i : Fin (a + b), rows F G a b i = rows G F b a ((finSumFinEquiv.symm.trans <| (Equiv.sumComm (Fin b) (Fin a)).trans finSumFinEquiv).symm i : Fin (b + a)) := by
      intro i
      induction i using Fin.addCases with
      | left i =>
        simp [rows, i.2]
        congr 2
        omega
      | right i =>
        simp [rows, i.2]
        congr 2
        omega
    simp only [reindex_apply, submatrix_apply, of_apply, e, finCongr_symm, finCongr_apply, Fin.val_cast, Nat.add_comm b a]
  rw [key, Matrix.det_reindex, ← Equiv.Perm.sign_inv, Equiv.Perm.sign_eq_prod_prod_Ioi]
  congr 1
  rw [show ((finCongr (add_comm b a)).trans (finSumFinEquiv.symm.trans <| (Equiv.sumComm (Fin b) (Fin a)).trans finSumFinEquiv).symm)⁻¹ = (finSumFinEquiv.symm.trans <| (Equiv.sumComm (Fin b) (Fin a)).trans finSumFinEquiv).trans (finCongr (add_comm b a)).symm from rfl]
  dsimp
  simp only [Fin.cast_lt_cast, Units.coe_prod, apply_ite, Units.val_one, Units.val_neg,
    Int.reduceNeg, Int.cast_prod, Int.cast_one, Int.cast_neg]
  simp_rw [← finSumFinEquiv.prod_comp, ← Finset.prod_map_equiv finSumFinEquiv.symm]
  simp only [Equiv.symm_apply_apply, ← Fin.val_fin_lt, Equiv.symm_symm, Function.comp_apply,
    ← Finset.prod_ite_mem_eq (Finset.map _ _), Finset.mem_map_equiv, Finset.mem_Ioi,
    Fintype.prod_sum_type, finSumFinEquiv_apply_left, Fin.val_castAdd, Sum.swap_inl,
    finSumFinEquiv_apply_right, Fin.val_natAdd, Sum.swap_inr, add_lt_add_iff_left,
    ← ite_not (α := R[X]) (p := _ < _) (y := 1), ← ite_and, and_not_self]
  simp [(Fin.isLt _).trans_le, (Fin.isLt _).le.trans, pow_mul]
  rw [← pow_mul, ← pow_mul, mul_comm]

/-- the last row of the full matrix: the resultant -/
theorem SB_resultant (F G : R[X]) {m n : ℕ} (hF : F.natDegree ≤ m) (hG : G.natDegree ≤ n) (h : 0 < m + n) : SB (m + n) n m F G = C (resultant F G m n) := by
  have hN : 0 < n + m := by omega
  -- the plain coefficient matrix
  let M : Matrix (Fin (n + m)) (Fin (n + m)) R := Matrix.of fun i c => (rows F G n m i).coeff (m + n - 1 - c)
  have hM : M.det = resultant F G m n := by
    have e : M = ((sylvester F G m n)ᵀ).submatrix (fun i : Fin (n + m) => (finCongr (add_comm n m) i).rev) (fun i : Fin (n + m) => (finCongr (add_comm n m) i).rev) := by
      refine Matrix.ext fun i c => ?_
      obtain ⟨k, hk⟩ : ∃ k, k = (finCongr (add_comm n m) i).rev := ⟨_, rfl⟩
      have hkv : k.1 = m + n - 1 - i := by rw [hk]; simp; omega
      simp only [M, submatrix_apply, transpose_apply, of_apply, ← hk, sylvester]
      have hi := i.2
      have hc := c.2
      induction k using Fin.addCases with
      | left k =>
        simp only [Fin.addCases_left, Fin.val_castAdd] at hkv ⊢
        have : ¬i.1 < n := by omega
        rw [rows, if_neg this, coeff_X_pow_mul', show n + m - 1 - i.1 = k by omega]
        simp only [finCongr_apply, Fin.val_rev, Fin.val_cast, Set.mem_Icc]
        rw [show m + n - (c.1 + 1) = m + n - 1 - c by omega]
        by_cases h1 : k.1 ≤ m + n - 1 - c
        · by_cases h2 : m + n - 1 - c ≤ k.1 + n
          · rw [if_pos h1, if_pos ⟨h1, h2⟩]
          · rw [if_pos h1, if_neg (fun h => h2 h.2), coeff_eq_zero_of_natDegree_lt (by omega)]
        · rw [if_neg h1, if_neg (fun h => h1 h.1)]
      | right k =>
        simp only [Fin.addCases_right, Fin.val_natAdd] at hkv ⊢
        have : i.1 < n := by omega
        rw [rows, if_pos this, coeff_X_pow_mul', show n - 1 - i.1 = k by omega]
        simp only [finCongr_apply, Fin.val_rev, Fin.val_cast, Set.mem_Icc]
        rw [show m + n - (c.1 + 1) = m + n - 1 - c by omega]
        by_cases h1 : k.1 ≤ m + n - 1 - c
        · by_cases h2 : m + n - 1 - c ≤ k.1 + m
          · rw [if_pos h1, if_pos ⟨h1, h2⟩]
          · rw [if_pos h1, if_neg (fun h => h2 h.2), coeff_eq_zero_of_natDegree_lt (by omega)]
        · rw [if_neg h1, if_neg (fun h => h1 h.1)]
    rw [e, show (fun i : Fin (n + m) => (finCongr (add_comm n m) i).rev) = ((finCongr (add_comm n m)).trans Fin.revPerm) from rfl, Matrix.det_submatrix_equiv_self, det_transpose]
    rfl
  rw [← hM, RingHom.map_det]
  unfold SB dpol
  -- subtract multiples of the other columns from the last one
  let U : Matrix (Fin (n + m)) (Fin (n + m)) R[X] := Matrix.of fun c d => if (d : ℕ) + 1 = n + m then X ^ (n + m - 1 - c) else if c = d then 1 else 0
  have hU : U.det = 1 := by
    have hb : U.BlockTriangular id := by
      intro i j hij
      have : j.1 < i.1 := hij
      have := i.2
      simp only [U, of_apply]
      rw [if_neg (by omega), if_neg (fun e => by rw [e] at hij; exact lt_irrefl _ hij)]
    rw [Matrix.det_of_isUpperTriangular hb]
    refine Finset.prod_eq_one fun i _ => ?_
    simp only [U, of_apply, if_true]
    split
    · rw [show n + m - 1 - i.1 = 0 by omega, pow_zero]
    · rfl
  have hmul : (Matrix.of fun i c : Fin (n + m) => if (c : ℕ) + 1 = n + m then rows F G n m i else C ((rows F G n m i).coeff (m + n - 1 - c))) = C.mapMatrix M * U := by
    refine Matrix.ext fun i c => ?_
    simp only [mul_apply, of_apply, RingHom.mapMatrix_apply, map_apply, U, M]
    split
    · have hd : (rows F G n m i).natDegree < n + m := by
        unfold rows
        have hi := i.2
        split
        · refine lt_of_le_of_lt natDegree_mul_le ?_
          have := natDegree_X_pow_le (R := R) (n - 1 - i)
          omega
        · refine lt_of_le_of_lt natDegree_mul_le ?_
          have := natDegree_X_pow_le (R := R) (n + m - 1 - i)
          omega
      refine (as_sum_range_C_mul_X_pow' (rows F G n m i) hd).trans ?_
      rw [← Finset.sum_range_reflect, Finset.sum_range]
      refine Finset.sum_congr rfl fun x _ => ?_
      rw [add_comm m n]
    · rw [Finset.sum_eq_single c]
      · simp
      · intro d _ hd
        rw [if_neg hd, mul_zero]
      · simp
  rw [hmul, det_mul, hU, mul_one]

end Res
end CLPoly
