import Verif.Gcd.Defs
import Mathlib.Algebra.BigOperators.Ring.Finset
import Mathlib.Algebra.BigOperators.Intervals
import Mathlib.Tactic.Ring

/-! # Interpolation: the rows of `lag` are the Lagrange basis -/

namespace CLPoly
namespace Mgcd

section
variable {p : ℕ} [Fact p.Prime]

/-- the value at `y` of the polynomial with the coefficient list `row` -/
def rowEval (row : List (ZMod p)) (y : ZMod p) : ZMod p := ∑ j ∈ Finset.range row.length, row.getD j 0 * y ^ j

theorem lagStep_length (row : List (ZMod p)) (x inv : ZMod p) : (lagStep p row x inv).length = row.length := by simp [lagStep]

theorem lagStep_getD (row : List (ZMod p)) (x inv : ZMod p) {k : ℕ} (hk : k < row.length) :
    (lagStep p row x inv).getD k 0 = if k = 0 then -row.getD 0 0 * x * inv else (row.getD (k - 1) 0 - row.getD k 0 * x) * inv := by
  have h : k < (lagStep p row x inv).length := by rw [lagStep_length]; exact hk
  rw [List.getD, List.getElem?_eq_getElem h, Option.getD_some]
  simp [lagStep, hk]

theorem lagStep_eval {row : List (ZMod p)} {x inv : ZMod p} {n : ℕ} (hn : row.length = n + 1) (h0 : row.getD n 0 = 0) (y : ZMod p) :
    rowEval (lagStep p row x inv) y = inv * (y - x) * rowEval row y := by
  unfold rowEval
  rw [lagStep_length, hn, Finset.sum_range_succ' (fun j => (lagStep p row x inv).getD j 0 * y ^ j)]
  have e1 : ∑ k ∈ Finset.range n, (lagStep p row x inv).getD (k + 1) 0 * y ^ (k + 1)
      = ∑ k ∈ Finset.range n, (inv * y * (row.getD k 0 * y ^ k) - inv * x * (row.getD (k + 1) 0 * y ^ (k + 1))) := by
    refine Finset.sum_congr rfl fun k hk => ?_
    rw [lagStep_getD _ _ _ (by rw [hn]; have := Finset.mem_range.1 hk; omega), if_neg (by omega), Nat.add_sub_cancel]
    ring
  rw [e1, Finset.sum_sub_distrib, ← Finset.mul_sum, ← Finset.mul_sum, lagStep_getD _ _ _ (by omega), if_pos rfl]
  have e2 : ∑ j ∈ Finset.range (n + 1), row.getD j 0 * y ^ j = ∑ k ∈ Finset.range n, row.getD k 0 * y ^ k := by
    rw [Finset.sum_range_succ, h0]; ring
  have e3 : ∑ j ∈ Finset.range (n + 1), row.getD j 0 * y ^ j = ∑ k ∈ Finset.range n, row.getD (k + 1) 0 * y ^ (k + 1) + row.getD 0 0 := by
    rw [Finset.sum_range_succ']; ring
  rw [mul_sub, sub_mul, e2, ← e2, e3]
  ring

/-- the rows take the value 1 at their own point and 0 at the others -/
theorem lagRow_spec {pts : List (ZMod p)} (hnd : pts.Nodup) {i : ℕ} (hi : i < pts.length) :
    (lagRow p pts i).length = pts.length ∧ ∀ k < pts.length, rowEval (lagRow p pts i) (pts.getD k 0) = if k = i then 1 else 0 := by
  obtain ⟨n, hn⟩ : ∃ n, pts.length = n + 1 := ⟨pts.length - 1, by omega⟩
  have hinj : ∀ a < pts.length, ∀ b < pts.length, pts.getD a 0 = pts.getD b 0 → a = b := by
    intro a ha b hb h
    rw [List.getD, List.getD, List.getElem?_eq_getElem ha, List.getElem?_eq_getElem hb] at h
    exact (List.Nodup.getElem_inj_iff hnd).1 h
  have key : ∀ m ≤ pts.length, ∀ row, row = (List.range m).foldl (fun row j => if i ≠ j then lagStep p row (pts.getD j 0) (pts.getD i 0 - pts.getD j 0)⁻¹ else row)
      (1 :: List.replicate (pts.length - 1) 0) →
      row.length = n + 1 ∧ (∀ k, (if m ≤ i then m else m - 1) < k → row.getD k 0 = 0) ∧ rowEval row (pts.getD i 0) = 1 ∧
        ∀ k < m, k ≠ i → rowEval row (pts.getD k 0) = 0 := by
    intro m
    induction m with
    | zero =>
      intro _ row hrow
      simp only [List.range_zero, List.foldl_nil] at hrow
      subst hrow
      refine ⟨by simp [hn], fun k hk => ?_, ?_, fun k hk => absurd hk (by omega)⟩
      · rw [if_pos (by omega)] at hk
        obtain ⟨k, rfl⟩ : ∃ j, k = j + 1 := ⟨k - 1, by omega⟩
        simp only [List.getD, List.getElem?_cons_succ]
        by_cases h : k < pts.length - 1
        · simp [h]
        · simp [List.getElem?_replicate, h]
      · unfold rowEval
        rw [List.length_cons, Finset.sum_range_succ']
        rw [Finset.sum_eq_zero]
        · simp [List.getD]
        · intro k hk
          simp only [List.length_replicate, Finset.mem_range] at hk
          simp [List.getD, hk]
    | succ m ih =>
      intro hm row hrow
      rw [List.range_succ, List.foldl_append, List.foldl_cons, List.foldl_nil] at hrow
      obtain ⟨a1, a2, a3, a4⟩ := ih (by omega) _ rfl
      obtain ⟨r0, hr0⟩ : ∃ r0, r0 = (List.range m).foldl (fun row j => if i ≠ j then lagStep p row (pts.getD j 0) (pts.getD i 0 - pts.getD j 0)⁻¹ else row)
        (1 :: List.replicate (pts.length - 1) 0) := ⟨_, rfl⟩
      rw [← hr0] at hrow a1 a2 a3 a4
      by_cases him : i = m
      · rw [if_neg (by simp [him])] at hrow
        subst hrow
        refine ⟨a1, fun k hk => a2 k ?_, a3, fun k hk hki => a4 k (by omega) hki⟩
        rw [if_neg (by omega)] at hk
        rw [if_pos (by omega)]
        omega
      · rw [if_pos him] at hrow
        have hz : r0.getD n 0 = 0 := a2 n (by split <;> omega)
        have hev := fun y => lagStep_eval (x := pts.getD m 0) (inv := (pts.getD i 0 - pts.getD m 0)⁻¹) a1 hz y
        subst hrow
        refine ⟨by rw [lagStep_length]; exact a1, fun k hk => ?_, ?_, fun k hk hki => ?_⟩
        · by_cases hkl : k < r0.length
          · rw [lagStep_getD _ _ _ hkl]
            have hk0 : k ≠ 0 := by rintro rfl; omega
            rw [if_neg hk0, a2 (k - 1) (by split at hk <;> split <;> omega), a2 k (by split at hk <;> split <;> omega)]
            ring
          · have : ¬ k < (lagStep p r0 (pts.getD m 0) (pts.getD i 0 - pts.getD m 0)⁻¹).length := by rw [lagStep_length]; exact hkl
            rw [List.getD, List.getElem?_eq_none (by omega)]; rfl
        · rw [hev, a3]
          have : pts.getD i 0 - pts.getD m 0 ≠ 0 := fun h => him (hinj _ hi _ (by omega) (sub_eq_zero.1 h))
          rw [inv_mul_cancel₀ this, one_mul]
        · rw [hev]
          by_cases hkm : k = m
          · rw [hkm, sub_self, mul_zero, zero_mul]
          · rw [a4 k (by omega) hki, mul_zero]
  obtain ⟨b1, -, b3, b4⟩ := key pts.length le_rfl _ rfl
  refine ⟨b1.trans hn.symm, fun k hk => ?_⟩
  by_cases h : k = i
  · rw [if_pos h, h]; exact b3
  · rw [if_neg h]; exact b4 k hk h

theorem foldl_add_sum (f : ℕ → ZMod p) (n : ℕ) : (List.range n).foldl (fun s k => s + f k) 0 = ∑ k ∈ Finset.range n, f k := by
  induction n with
  | zero => rfl
  | succ n ih => rw [List.range_succ, List.foldl_append, ih, Finset.sum_range_succ]; rfl

/-- the interpolation polynomial takes the given values -/
theorem interp_eval {pts vals : List (ZMod p)} (hnd : pts.Nodup) {k : ℕ} (hk : k < pts.length) :
    ∑ j ∈ Finset.range pts.length, interpCoef p pts vals j * (pts.getD k 0) ^ j = vals.getD k 0 := by
  have e : ∀ j, interpCoef p pts vals j = ∑ i ∈ Finset.range pts.length, vals.getD i 0 * (lagRow p pts i).getD j 0 := fun j => foldl_add_sum _ _
  simp only [e, Finset.sum_mul]
  rw [Finset.sum_comm]
  have : ∀ i ∈ Finset.range pts.length, ∑ j ∈ Finset.range pts.length, vals.getD i 0 * (lagRow p pts i).getD j 0 * pts.getD k 0 ^ j = if k = i then vals.getD i 0 else 0 := by
    intro i hi
    obtain ⟨h1, h2⟩ := lagRow_spec hnd (Finset.mem_range.1 hi)
    have := h2 k hk
    unfold rowEval at this
    rw [h1] at this
    simp only [mul_assoc]
    rw [← Finset.mul_sum, this]
    split <;> simp
  rw [Finset.sum_congr rfl this, Finset.sum_ite_eq, if_pos (Finset.mem_range.2 hk)]

/-- a value list that is not zero gives a coefficient that is not zero -/
theorem interp_nonzero {pts vals : List (ZMod p)} (hnd : pts.Nodup) {k : ℕ} (hk : k < pts.length) (h : vals.getD k 0 ≠ 0) :
    ∃ j < pts.length, interpCoef p pts vals j ≠ 0 := by
  by_contra hc
  push Not at hc
  refine h ?_
  rw [← interp_eval (vals := vals) hnd hk]
  exact Finset.sum_eq_zero fun j hj => by rw [hc j (Finset.mem_range.1 hj), zero_mul]

end
end Mgcd
end CLPoly
