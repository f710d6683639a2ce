import Verif.Upoly.LLL

/-! # Consequences of LLL reduction -/

namespace CLPoly
namespace Upoly
open Finset

theorem GS.ip_row_lt {n : ℕ} {M : Mat} {mu : ℕ → ℕ → ℚ} {B : ℕ → ℚ} {bs : ℕ → ℕ → ℚ} (h : GS n M mu B bs) {t k : ℕ} (htk : t < k) (hk : k < n) : ip n (fun c => (M t c : ℚ)) (bs k) = 0 := by
  rw [ip_congr (h.row t (by omega)) (fun _ _ => rfl), ip_add, ip_sum, ip_comm, h.orth k hk t htk, zero_add]
  refine sum_eq_zero fun j hj => ?_
  rw [ip_comm, h.orth k hk j (by have := mem_range.1 hj; omega), mul_zero]

theorem GS.ip_row_self {n : ℕ} {M : Mat} {mu : ℕ → ℕ → ℚ} {B : ℕ → ℚ} {bs : ℕ → ℕ → ℚ} (h : GS n M mu B bs) {k : ℕ} (hk : k < n) : ip n (fun c => (M k c : ℚ)) (bs k) = B k := by
  rw [ip_congr (h.row k hk) (fun _ _ => rfl), ip_add, ip_sum, h.norm k hk]
  simp only [add_eq_left]
  refine sum_eq_zero fun j hj => ?_
  rw [ip_comm, h.orth k hk j (mem_range.1 hj), mul_zero]

/-- a nonzero combination of the rows is at least as long as some Gram–Schmidt vector -/
theorem GS.le_norm {n : ℕ} {M : Mat} {mu : ℕ → ℕ → ℚ} {B : ℕ → ℚ} {bs : ℕ → ℕ → ℚ} (h : GS n M mu B bs) (hp : ∀ i < n, 0 < B i) {z v : ℕ → ℤ} (hz : ∃ t < n, z t ≠ 0)
    (hv : ∀ c < n, v c = ∑ t ∈ range n, z t * M t c) : ∃ k < n, B k ≤ (dotZ n v v : ℤ) := by
  obtain ⟨k, hk, zk, hmax⟩ : ∃ k < n, z k ≠ 0 ∧ ∀ t < n, k < t → z t = 0 := by
    obtain ⟨t, ht, h0⟩ := hz
    let S := (range n).filter fun t => z t ≠ 0
    have hS : S.Nonempty := ⟨t, mem_filter.2 ⟨mem_range.2 ht, h0⟩⟩
    obtain ⟨h1, h2⟩ := mem_filter.1 (S.max'_mem hS)
    refine ⟨S.max' hS, mem_range.1 h1, h2, fun u hu hlt => ?_⟩
    by_contra hc
    exact absurd (S.le_max' u (mem_filter.2 ⟨mem_range.2 hu, hc⟩)) (by omega)
  refine ⟨k, hk, ?_⟩
  have e : ip n (fun c => (v c : ℚ)) (bs k) = z k * B k := by
    have e1 : ip n (fun c => (v c : ℚ)) (bs k) = ip n (fun c => ∑ t ∈ range n, (z t : ℚ) * (fun t c => (M t c : ℚ)) t c) (bs k) := ip_congr (fun c hc => by rw [hv c hc]; push_cast; rfl) fun _ _ => rfl
    rw [e1, ip_sum, sum_eq_single k]
    · rw [h.ip_row_self hk]
    · intro t ht hne
      rcases lt_or_gt_of_ne hne with h' | h'
      · rw [h.ip_row_lt h' hk, mul_zero]
      · rw [hmax t (mem_range.1 ht) h']; simp
    · intro h'; exact absurd (mem_range.2 hk) h'
  have cs : ip n (fun c => (v c : ℚ)) (bs k) ^ 2 ≤ ip n (fun c => (v c : ℚ)) (fun c => (v c : ℚ)) * ip n (bs k) (bs k) := by
    unfold ip
    have := sum_mul_sq_le_sq_mul_sq (range n) (fun c => (v c : ℚ)) (bs k)
    simpa only [sq] using this
  rw [e, ip_cast, ← h.norm k hk] at cs
  have hz1 : (1 : ℚ) ≤ (z k : ℚ) ^ 2 := by
    have : (1 : ℤ) ≤ z k ^ 2 := by have := sq_pos_of_ne_zero zk; omega
    exact_mod_cast this
  have hB := hp k hk
  have : (z k : ℚ) ^ 2 * B k ≤ (dotZ n v v : ℤ) := by
    by_contra hc
    push Not at hc
    nlinarith
  nlinarith

/-- the first row of a reduced basis is short -/
theorem GS.first_row {n : ℕ} (hn : 1 ≤ n) {M : Mat} {mu : ℕ → ℕ → ℚ} {B : ℕ → ℚ} {bs : ℕ → ℕ → ℚ} (h : GS n M mu B bs) (hp : ∀ i < n, 0 < B i) (hr : ∀ i < n, ∀ j < i, |mu i j| ≤ 1 / 2)
    (hl : ∀ i, i + 1 < n → (3 / 4 - mu (i + 1) i * mu (i + 1) i) * B i ≤ B (i + 1)) {z v : ℕ → ℤ} (hz : ∃ t < n, z t ≠ 0) (hv : ∀ c < n, v c = ∑ t ∈ range n, z t * M t c) :
    dotZ n (M 0) (M 0) ≤ 2 ^ (n - 1) * dotZ n v v := by
  obtain ⟨k, hk, hle⟩ := h.le_norm hp hz hv
  have step : ∀ i, i + 1 < n → B i ≤ 2 * B (i + 1) := fun i hi => by
    have h1 := hl i hi
    have h2 := hr (i + 1) hi i (by omega)
    have h3 := hp i (by omega)
    rw [abs_le] at h2
    nlinarith [mul_nonneg (by nlinarith : (0 : ℚ) ≤ 1 / 4 - mu (i + 1) i * mu (i + 1) i) h3.le]
  have chain : ∀ i < n, B 0 ≤ 2 ^ i * B i := by
    intro i
    induction i with
    | zero => intro _; simp
    | succ i ih =>
      intro hi
      have h1 := ih (by omega)
      have h2 := step i hi
      rw [pow_succ]
      have : (0 : ℚ) < 2 ^ i := by positivity
      nlinarith
  have e0 : ((dotZ n (M 0) (M 0) : ℤ) : ℚ) = B 0 := by
    have := h.norm_row 0 (by omega)
    simpa using this
  have e1 : (2 : ℚ) ^ k ≤ 2 ^ (n - 1) := pow_le_pow_right₀ (by norm_num) (by omega)
  have : ((dotZ n (M 0) (M 0) : ℤ) : ℚ) ≤ ((2 ^ (n - 1) * dotZ n v v : ℤ) : ℚ) := by
    rw [e0]
    push_cast
    have h1 := chain k hk
    have h2 := hp k hk
    have h3 : (0 : ℚ) < 2 ^ k := by positivity
    have h4 : (0 : ℚ) < 2 ^ (n - 1) := by positivity
    calc B 0 ≤ 2 ^ k * B k := h1
      _ ≤ 2 ^ (n - 1) * B k := by nlinarith
      _ ≤ 2 ^ (n - 1) * (dotZ n v v : ℤ) := by nlinarith
  exact_mod_cast this

/-- combinations of the old rows are combinations of the new ones -/
theorem Uni.combo {n : ℕ} {M0 : Mat} {s : LSt} (h : Uni n M0 s) (z : ℕ → ℤ) : ∃ y : ℕ → ℤ, ∀ c < n, ∑ t ∈ range n, y t * s.M t c = ∑ t ∈ range n, z t * M0 t c := by
  have hu : IsUnit (toM n s.U).det := by rcases h.det with h | h <;> rw [h] <;> decide
  have hM : toM n s.M = toM n s.U * toM n M0 := by
    ext i j
    rw [Matrix.mul_apply]
    show s.M i j = _
    rw [h.mul i i.2 j j.2]
    exact (Fin.sum_univ_eq_sum_range (fun t => s.U i t * M0 t j) n).symm
  obtain ⟨w, hw⟩ : ∃ w : Fin n → ℤ, w = Matrix.vecMul (fun i : Fin n => z i) (toM n s.U)⁻¹ := ⟨_, rfl⟩
  refine ⟨fun t => if ht : t < n then w ⟨t, ht⟩ else 0, fun c hc => ?_⟩
  have e : Matrix.vecMul w (toM n s.M) = Matrix.vecMul (fun i : Fin n => z i) (toM n M0) := by
    rw [hw, Matrix.vecMul_vecMul, hM, ← Matrix.mul_assoc, Matrix.nonsing_inv_mul _ hu, Matrix.one_mul]
  have := congrFun e ⟨c, hc⟩
  simp only [Matrix.vecMul, dotProduct] at this
  have e1 := Fin.sum_univ_eq_sum_range (fun t => (if ht : t < n then w ⟨t, ht⟩ else 0) * s.M t c) n
  have e2 := Fin.sum_univ_eq_sum_range (fun t => z t * M0 t c) n
  rw [← e1, ← e2]
  refine Eq.trans (sum_congr rfl fun i _ => ?_) this
  rw [dif_pos i.2]
  rfl

end Upoly
end CLPoly
