import Verif.Upoly.LLLGs
import Mathlib.LinearAlgebra.Matrix.Block
import Mathlib.Algebra.Order.Floor.Ring
import Mathlib.Data.Rat.Floor

/-! # `__lll_reduce`: unimodular transformation, reducedness, termination -/

namespace CLPoly
namespace Upoly
open Finset

/-! ## determinants -/

/-- the leading part of a matrix as a `Matrix` -/
def toM (n : ℕ) (U : Mat) : Matrix (Fin n) (Fin n) ℤ := fun i j => U i j

theorem GS.pad {n t : ℕ} (ht : t ≤ n) {M : Mat} {mu : ℕ → ℕ → ℚ} {B : ℕ → ℚ} {bs : ℕ → ℕ → ℚ} (h : GS n M mu B bs) : ∀ i < t, ∀ c < n,
    (M i c : ℚ) = ∑ j ∈ range t, (if j < i then mu i j else if j = i then 1 else 0) * bs j c := by
  intro i hi c hc
  rw [h.row i (by omega) c hc]
  have := sum_upto hi (fun j => mu i j * bs j c) (bs i c)
  rw [add_comm, ← this]
  refine sum_congr rfl fun j _ => ?_
  split
  · rfl
  · split
    · next e => subst e; rw [one_mul]
    · rw [zero_mul]

/-- the Gram determinants -/
theorem GS.gram {n t : ℕ} (ht : t ≤ n) {M : Mat} {mu : ℕ → ℕ → ℚ} {B : ℕ → ℚ} {bs : ℕ → ℕ → ℚ} (h : GS n M mu B bs) :
    (((Matrix.of fun i j : Fin t => dotZ n (M i) (M j)).det : ℤ) : ℚ) = ∏ j ∈ range t, B j := by
  obtain ⟨L, hL⟩ : ∃ L : Matrix (Fin t) (Fin t) ℚ, L = Matrix.of fun i j : Fin t => if (j : ℕ) < i then mu i j else if (j : ℕ) = i then 1 else 0 := ⟨_, rfl⟩
  have hdet : L.det = 1 := by
    rw [Matrix.det_of_isLowerTriangular]
    · refine prod_eq_one fun i _ => ?_
      rw [hL]
      simp
    · intro i j hij
      have hij' : (i : ℕ) < j := hij
      rw [hL]
      simp only [Matrix.of_apply]
      rw [if_neg (by omega), if_neg (by omega)]
  have hG : (Matrix.of fun i j : Fin t => dotZ n (M i) (M j)).map (Int.cast : ℤ → ℚ) = L * Matrix.diagonal (fun j : Fin t => B j) * L.transpose := by
    ext i j
    rw [Matrix.map_apply, Matrix.of_apply, ← ip_cast, Matrix.mul_apply]
    have e1 : ∀ i : Fin t, ∀ x, ip n (fun c => (M i c : ℚ)) x = ∑ l ∈ range t, (if l < (i : ℕ) then mu i l else if l = i then 1 else 0) * ip n (bs l) x := fun i x => by
      rw [← ip_sum]
      exact ip_congr (h.pad ht i i.2) fun _ _ => rfl
    rw [e1, ← Fin.sum_univ_eq_sum_range (fun l => (if l < (i : ℕ) then mu i l else if l = i then 1 else 0) * ip n (bs l) (fun c => (M j c : ℚ))) t]
    refine sum_congr rfl fun l _ => ?_
    rw [Matrix.mul_diagonal, Matrix.transpose_apply, hL]
    simp only [Matrix.of_apply]
    rw [mul_assoc]
    congr 1
    rw [ip_comm, e1, sum_eq_single_of_mem (l : ℕ) (mem_range.2 l.2), ← h.norm l (by omega), mul_comm]
    intro b hb hbl
    have hb' := mem_range.1 hb
    rcases lt_or_gt_of_ne hbl with h' | h'
    · rw [ip_comm, h.orth l (by omega) b h', mul_zero]
    · rw [h.orth b (by omega) l h', mul_zero]
  have : (((Matrix.of fun i j : Fin t => dotZ n (M i) (M j)).det : ℤ) : ℚ) = ((Matrix.of fun i j : Fin t => dotZ n (M i) (M j)).map (Int.cast : ℤ → ℚ)).det := by
    have := (Int.castRingHom ℚ).map_det (Matrix.of fun i j : Fin t => dotZ n (M i) (M j))
    simpa using this
  rw [this, hG, Matrix.det_mul, Matrix.det_mul, Matrix.det_transpose, hdet, Matrix.det_diagonal, one_mul, mul_one, Fin.prod_univ_eq_prod_range B t]

theorem gram_self (n : ℕ) (M : Mat) : (Matrix.of fun i j : Fin n => dotZ n (M i) (M j)).det = (toM n M).det * (toM n M).det := by
  have : (Matrix.of fun i j : Fin n => dotZ n (M i) (M j)) = toM n M * (toM n M).transpose := by
    ext i j
    rw [Matrix.mul_apply, Matrix.of_apply]
    exact (Fin.sum_univ_eq_sum_range (fun c => M i c * M j c) n).symm
  rw [this, Matrix.det_mul, Matrix.det_transpose]

theorem GS.pos {n : ℕ} {M : Mat} {mu : ℕ → ℕ → ℚ} {B : ℕ → ℚ} {bs : ℕ → ℕ → ℚ} (h : GS n M mu B bs) (hd : (toM n M).det ≠ 0) : ∀ i < n, 0 < B i := by
  intro i hi
  have h1 := h.gram le_rfl
  rw [gram_self] at h1
  have h2 : (∏ j ∈ range n, B j) ≠ 0 := by
    rw [← h1]
    exact_mod_cast mul_ne_zero hd hd
  have h3 : B i ≠ 0 := fun h0 => h2 (prod_eq_zero (mem_range.2 hi) h0)
  have h4 : 0 ≤ B i := by rw [h.norm i hi]; exact ip_self_nonneg _ _
  exact lt_of_le_of_ne h4 (Ne.symm h3)

theorem GS.det_ne {n : ℕ} {M : Mat} {mu : ℕ → ℕ → ℚ} {B : ℕ → ℚ} {bs : ℕ → ℕ → ℚ} (h : GS n M mu B bs) (hp : ∀ i < n, 0 < B i) : (toM n M).det ≠ 0 := by
  intro h0
  have h1 := h.gram le_rfl
  rw [gram_self, h0] at h1
  have : 0 < ∏ j ∈ range n, B j := prod_pos fun j hj => hp j (mem_range.1 hj)
  rw [← h1] at this
  simp at this

/-! ## rounding -/

theorem roundQ_spec (q : ℚ) : |q - roundQ q| ≤ 1 / 2 := by
  have hd : (0 : ℤ) < q.den * 2 := by have := q.den_pos; omega
  have hd' : (0 : ℚ) < q.den := by exact_mod_cast q.den_pos
  obtain ⟨r, hr⟩ : ∃ r, r = roundQ q := ⟨_, rfl⟩
  rw [← hr]
  have e : (q.den * 2 : ℤ) * r + Int.fmod (q.num * 2 + q.den) (q.den * 2) = q.num * 2 + q.den := by
    rw [hr]; exact Int.mul_fdiv_add_fmod _ _
  have h1 := Int.fmod_nonneg_of_pos (q.num * 2 + q.den) hd
  have h2 := Int.fmod_lt_of_pos (q.num * 2 + q.den) hd
  have hq : q * q.den = q.num := Rat.mul_den_eq_num q
  have a1 : ((q.den : ℚ) * 2) * r ≤ q.num * 2 + q.den := by exact_mod_cast (by omega : (q.den * 2 : ℤ) * r ≤ q.num * 2 + q.den)
  have a2 : (q.num : ℚ) * 2 + q.den < (q.den : ℚ) * 2 * r + q.den * 2 := by exact_mod_cast (by omega : (q.num * 2 + q.den : ℤ) < (q.den * 2 : ℤ) * r + q.den * 2)
  rw [← hq] at a1 a2
  rw [abs_le]
  constructor <;> nlinarith

/-! ## what the steps do to `mu`, `B` and `U` -/

theorem sizeRed_B (k j : ℕ) (s : LSt) : (sizeRed k j s).B = s.B := by
  unfold sizeRed; simp only; split <;> rfl

theorem sizeRed_mu_ne {k j : ℕ} {s : LSt} {a : ℕ} (h : a ≠ k) (b : ℕ) : (sizeRed k j s).mu a b = s.mu a b := by
  unfold sizeRed; simp only; split
  · rfl
  · dsimp only; rw [if_neg h]

theorem sizeRed_mu_gt {k j : ℕ} {s : LSt} {b : ℕ} (h : j < b) : (sizeRed k j s).mu k b = s.mu k b := by
  unfold sizeRed; simp only; split
  · rfl
  · dsimp only; rw [if_pos rfl, if_neg (by omega), if_neg (by omega)]

theorem sizeRed_mu_self (k j : ℕ) (s : LSt) : |(sizeRed k j s).mu k j| ≤ 1 / 2 := by
  have h := roundQ_spec (s.mu k j)
  unfold sizeRed; simp only; split
  · next h0 => rw [h0] at h; simpa using h
  · dsimp only; rw [if_pos rfl, if_neg (lt_irrefl _), if_pos rfl]; exact h

/-- `U` is unimodular and `M = U·M₀` -/
structure Uni (n : ℕ) (M0 : Mat) (s : LSt) : Prop where
  det : (toM n s.U).det = 1 ∨ (toM n s.U).det = -1
  mul : ∀ i < n, ∀ c < n, s.M i c = ∑ t ∈ range n, s.U i t * M0 t c

theorem Uni.sizeRed {n k j : ℕ} (hk : k < n) (hj : j < k) {M0 : Mat} {s : LSt} (h : Uni n M0 s) : Uni n M0 (sizeRed k j s) := by
  unfold Upoly.sizeRed
  simp only
  split
  · exact h
  obtain ⟨q, hq⟩ : ∃ q, q = roundQ (s.mu k j) := ⟨_, rfl⟩
  rw [← hq]
  constructor
  · dsimp only
    have e : toM n (fun a b => if a = k then s.U k b - q * s.U j b else s.U a b) = Matrix.updateRow (toM n s.U) ⟨k, hk⟩ (toM n s.U ⟨k, hk⟩ + (-q) • toM n s.U ⟨j, by omega⟩) := by
      ext a b
      by_cases ha : a = ⟨k, hk⟩
      · subst ha
        rw [Matrix.updateRow_self]
        simp only [toM, Pi.add_apply, Pi.smul_apply, smul_eq_mul, if_pos]
        ring
      · rw [Matrix.updateRow_ne ha]
        have : (a : ℕ) ≠ k := fun h => ha (Fin.ext h)
        simp only [toM, if_neg this]
    rw [e, Matrix.det_updateRow_add_smul_self _ (by intro h; have := congrArg Fin.val h; simp only at this; omega)]
    exact h.det
  · intro i hi c hc
    dsimp only
    by_cases hik : i = k
    · rw [if_pos hik, h.mul k hk c hc, h.mul j (by omega) c hc, mul_sum, ← sum_sub_distrib]
      refine sum_congr rfl fun t _ => ?_
      rw [if_pos hik]
      ring
    · rw [if_neg hik, h.mul i hi c hc]
      exact sum_congr rfl fun t _ => by rw [if_neg hik]

theorem Uni.swapStep {n k : ℕ} (hk : k < n) {M0 : Mat} {s : LSt} (h : Uni n M0 s) : Uni n M0 (swapStep n k s) := by
  constructor
  · have e : toM n (Upoly.swapStep n k s).U = (toM n s.U).submatrix (Equiv.swap (⟨k, hk⟩ : Fin n) ⟨k - 1, by omega⟩) id := by
      ext a b
      rw [Matrix.submatrix_apply, Equiv.swap_apply_def]
      show swapRows s.U k (k - 1) a b = _
      unfold swapRows
      by_cases h1 : a = ⟨k, hk⟩
      · rw [if_pos h1, if_pos (by rw [h1])]; rfl
      · rw [if_neg h1, if_neg (fun h => h1 (Fin.ext h))]
        by_cases h2 : a = ⟨k - 1, by omega⟩
        · rw [if_pos h2, if_pos (by rw [h2])]; rfl
        · rw [if_neg h2, if_neg (fun h => h2 (Fin.ext h))]; rfl
    rw [e, Matrix.det_permute]
    rcases Int.units_eq_one_or (Equiv.Perm.sign (Equiv.swap (⟨k, hk⟩ : Fin n) ⟨k - 1, by omega⟩)) with h' | h' <;> rw [h'] <;> rcases h.det with h2 | h2 <;> rw [h2] <;> simp
  · intro i hi c hc
    show swapRows s.M k (k - 1) i c = ∑ t ∈ range n, swapRows s.U k (k - 1) i t * M0 t c
    unfold swapRows
    split
    · exact h.mul _ (by omega) c hc
    · split
      · exact h.mul _ hk c hc
      · exact h.mul _ hi c hc

/-! ## the invariant of the loop -/

/-- the invariant of the main loop at row `k`, started with `M0` and the squared norms `B0` -/
structure LInv (n : ℕ) (M0 : Mat) (B0 : ℕ → ℚ) (k : ℕ) (s : LSt) : Prop where
  gs : ∃ bs, GS n s.M s.mu s.B bs
  uni : Uni n M0 s
  pos : ∀ i < n, 0 < s.B i
  red : ∀ i < k, ∀ j < i, |s.mu i j| ≤ 1 / 2
  lov : ∀ i, i + 1 < k → (3 / 4 - s.mu (i + 1) i * s.mu (i + 1) i) * s.B i ≤ s.B (i + 1)
  max : ∀ X, (∀ i < n, B0 i ≤ X) → ∀ i < n, s.B i ≤ X
  sum : ∑ i ∈ range n, s.B i ≤ ∑ i ∈ range n, B0 i

theorem LInv.sizeRed {n k j : ℕ} (hk : k < n) (hj : j < k) {M0 : Mat} {B0 : ℕ → ℚ} {s : LSt} (h : LInv n M0 B0 k s) : LInv n M0 B0 k (sizeRed k j s) := by
  obtain ⟨⟨bs, g⟩, h2, h3, h4, h5, h6, h7⟩ := h
  have hB := sizeRed_B k j s
  refine ⟨⟨bs, g.sizeRed hk hj⟩, h2.sizeRed hk hj, by rwa [hB], fun i hi l hl => ?_, fun i hi => ?_, by rwa [hB], by rwa [hB]⟩
  · rw [sizeRed_mu_ne (by omega)]; exact h4 i hi l hl
  · rw [sizeRed_mu_ne (by omega), hB]; exact h5 i hi

theorem sizeRedAll_inv {n k : ℕ} (hk : k < n) {M0 : Mat} {B0 : ℕ → ℚ} : ∀ (j : ℕ) (s : LSt), j ≤ k → LInv n M0 B0 k s →
    LInv n M0 B0 k (sizeRedAll k j s) ∧ (sizeRedAll k j s).B = s.B ∧ (∀ l < j, |(sizeRedAll k j s).mu k l| ≤ 1 / 2) ∧ ∀ l, j ≤ l → (sizeRedAll k j s).mu k l = s.mu k l
  | 0, s, _, h => ⟨h, rfl, by simp, fun _ _ => rfl⟩
  | j + 1, s, hj, h => by
    obtain ⟨a, b, c, d⟩ := sizeRedAll_inv hk j (Upoly.sizeRed k j s) (by omega) (h.sizeRed hk (by omega))
    refine ⟨a, by rw [show sizeRedAll k (j + 1) s = sizeRedAll k j (Upoly.sizeRed k j s) from rfl, b, sizeRed_B], fun l hl => ?_, fun l hl => ?_⟩
    · rw [show sizeRedAll k (j + 1) s = sizeRedAll k j (Upoly.sizeRed k j s) from rfl]
      rcases Nat.lt_succ_iff_lt_or_eq.1 hl with h' | h'
      · exact c l h'
      · rw [d l (by omega), h']; exact sizeRed_mu_self k j s
    · rw [show sizeRedAll k (j + 1) s = sizeRedAll k j (Upoly.sizeRed k j s) from rfl, d l (by omega), sizeRed_mu_gt (by omega)]

/-- the step without exchange -/
theorem LInv.next {n κ : ℕ} (hk : κ + 1 < n) {M0 : Mat} {B0 : ℕ → ℚ} {s : LSt} (h : LInv n M0 B0 (κ + 1) s) (hr : |s.mu (κ + 1) κ| ≤ 1 / 2)
    (hl : (3 / 4 - s.mu (κ + 1) κ * s.mu (κ + 1) κ) * s.B κ ≤ s.B (κ + 1)) : LInv n M0 B0 (κ + 2) (sizeRedAll (κ + 1) κ s) ∧ (sizeRedAll (κ + 1) κ s).B = s.B := by
  obtain ⟨a, b, c, d⟩ := sizeRedAll_inv hk κ s (by omega) h
  refine ⟨⟨a.gs, a.uni, a.pos, fun i hi j hj => ?_, fun i hi => ?_, a.max, a.sum⟩, b⟩
  · rcases Nat.lt_succ_iff_lt_or_eq.1 hi with h' | h'
    · exact a.red i h' j hj
    · subst h'
      by_cases hj' : j < κ
      · exact c j hj'
      · have : j = κ := by omega
        rw [this, d κ le_rfl]; exact hr
  · rcases Nat.lt_succ_iff_lt_or_eq.1 hi with h' | h'
    · exact a.lov i h'
    · have : i = κ := by omega
      rw [this, d κ le_rfl, b]; exact hl

theorem swap_B {n κ : ℕ} {s : LSt} (hB : s.B (κ + 1) + s.mu (κ + 1) κ * s.mu (κ + 1) κ * s.B κ ≠ 0) (i : ℕ) : (swapStep n (κ + 1) s).B i =
    if i = κ then s.B (κ + 1) + s.mu (κ + 1) κ * s.mu (κ + 1) κ * s.B κ
    else if i = κ + 1 then s.B (κ + 1) * s.B κ / (s.B (κ + 1) + s.mu (κ + 1) κ * s.mu (κ + 1) κ * s.B κ) else s.B i := by
  show (if s.B (κ + 1) + s.mu (κ + 1) κ * s.mu (κ + 1) κ * s.B κ ≠ 0 then _ else _ : ℕ → ℚ) i = _
  rw [if_pos hB]
  rfl

theorem swap_mu_lt {n κ : ℕ} {s : LSt} {i : ℕ} (h : i < κ) (j : ℕ) : (swapStep n (κ + 1) s).mu i j = s.mu i j := by
  unfold swapStep
  simp only
  rw [if_neg (by omega)]
  unfold set2 swapRows
  rw [if_neg (by omega), if_neg (by omega), if_neg (by omega)]

/-- the exchange -/
theorem LInv.swap {n κ : ℕ} (hk : κ + 1 < n) {M0 : Mat} {B0 : ℕ → ℚ} {s : LSt} (h : LInv n M0 B0 (κ + 1) s) (hl : ¬ (3 / 4 - s.mu (κ + 1) κ * s.mu (κ + 1) κ) * s.B κ ≤ s.B (κ + 1)) :
    LInv n M0 B0 (Max.max κ 1) (swapStep n (κ + 1) s) ∧ (∀ t ≤ n, t ≠ κ + 1 → ∏ j ∈ range t, (swapStep n (κ + 1) s).B j = ∏ j ∈ range t, s.B j) ∧
      ∏ j ∈ range (κ + 1), (swapStep n (κ + 1) s).B j < ∏ j ∈ range (κ + 1), s.B j := by
  obtain ⟨⟨bs, g⟩, h2, h3, h4, h5, h6, h7⟩ := h
  obtain ⟨x, hx⟩ : ∃ x, x = s.B κ := ⟨_, rfl⟩
  obtain ⟨y, hy⟩ : ∃ y, y = s.B (κ + 1) := ⟨_, rfl⟩
  obtain ⟨z, hz⟩ : ∃ z, z = s.B (κ + 1) + s.mu (κ + 1) κ * s.mu (κ + 1) κ * s.B κ := ⟨_, rfl⟩
  have x0 : 0 < x := hx ▸ h3 κ (by omega)
  have y0 : 0 < y := hy ▸ h3 (κ + 1) hk
  have yz : y ≤ z := by
    rw [hz, hy]
    have := mul_nonneg (mul_self_nonneg (s.mu (κ + 1) κ)) (h3 κ (by omega)).le
    linarith
  have zx : z < 3 / 4 * x := by
    rw [not_le, ← hx, ← hy] at hl
    rw [hz, ← hx, ← hy]
    linarith
  have z0 : 0 < z := lt_of_lt_of_le y0 yz
  have hB := fun i => swap_B (n := n) (κ := κ) (s := s) (by rw [← hz]; exact z0.ne') i
  simp only [← hz] at hB
  simp only [← hx, ← hy] at hB
  have Bκ : (swapStep n (κ + 1) s).B κ = z := by rw [hB, if_pos rfl]
  have Bk : (swapStep n (κ + 1) s).B (κ + 1) = y * x / z := by rw [hB, if_neg (by omega), if_pos rfl]
  have Bo : ∀ i, i ≠ κ → i ≠ κ + 1 → (swapStep n (κ + 1) s).B i = s.B i := fun i a b => by rw [hB, if_neg a, if_neg b]
  have yxz : y * x / z ≤ x := by rw [div_le_iff₀ z0]; nlinarith
  have yxz0 : 0 < y * x / z := div_pos (mul_pos y0 x0) z0
  have prodlt : ∏ j ∈ range κ, (swapStep n (κ + 1) s).B j = ∏ j ∈ range κ, s.B j := prod_congr rfl fun j hj => by
    have := mem_range.1 hj
    exact Bo j (by omega) (by omega)
  refine ⟨⟨g.swapStep hk (by rw [← hz]; exact z0.ne'), h2.swapStep hk, fun i hi => ?_, fun i hi j hj => ?_, fun i hi => ?_, fun X hX i hi => ?_, ?_⟩, fun t ht ht' => ?_, ?_⟩
  · by_cases a : i = κ
    · rw [a, Bκ]; exact z0
    by_cases b : i = κ + 1
    · rw [b, Bk]; exact yxz0
    rw [Bo i a b]; exact h3 i hi
  · have hi' : i < κ := by omega
    rw [swap_mu_lt hi']; exact h4 i (by omega) j hj
  · have hi' : i + 1 < κ := by omega
    rw [swap_mu_lt hi', Bo i (by omega) (by omega), Bo (i + 1) (by omega) (by omega)]; exact h5 i (by omega)
  · have hm := h6 X hX
    by_cases a : i = κ
    · rw [a, Bκ]; have := hm κ (by omega); rw [← hx] at this; linarith
    by_cases b : i = κ + 1
    · rw [b, Bk]; have := hm κ (by omega); rw [← hx] at this; linarith
    rw [Bo i a b]; exact hm i hi
  · refine le_trans ?_ h7
    have e : ∑ i ∈ range n, (s.B i - (swapStep n (κ + 1) s).B i) = (x - z) + (y - y * x / z) := by
      rw [← sum_subset (s₁ := {κ, κ + 1}), sum_pair (by omega), Bκ, Bk, ← hx, ← hy]
      · intro l hl
        simp only [mem_insert, mem_singleton] at hl
        exact mem_range.2 (by omega)
      · intro l _ hl
        simp only [mem_insert, mem_singleton, not_or] at hl
        rw [Bo l hl.1 hl.2, sub_self]
    have : 0 ≤ (x - z) + (y - y * x / z) := by
      have e2 : (x - z) + (y - y * x / z) = (x - z) * (z - y) / z := by field_simp; ring
      rw [e2]
      exact div_nonneg (mul_nonneg (by linarith) (by linarith)) z0.le
    rw [sum_sub_distrib] at e
    linarith
  · rcases lt_or_gt_of_ne ht' with h' | h'
    · exact prod_congr rfl fun j hj => by
        have := mem_range.1 hj
        exact Bo j (by omega) (by omega)
    · have key : ∀ d, ∏ j ∈ range (κ + 2 + d), (swapStep n (κ + 1) s).B j = ∏ j ∈ range (κ + 2 + d), s.B j := by
        intro d
        induction d with
        | zero =>
          rw [Nat.add_zero, prod_range_succ, prod_range_succ, prod_range_succ, prod_range_succ, prodlt, Bκ, Bk, ← hx, ← hy, mul_assoc, mul_assoc]
          congr 1
          field_simp
        | succ d ih => rw [← Nat.add_assoc, prod_range_succ, ih, prod_range_succ, Bo _ (by omega) (by omega)]
      obtain ⟨d, rfl⟩ : ∃ d, t = κ + 2 + d := ⟨t - (κ + 2), by omega⟩
      exact key d
  · rw [prod_range_succ, prod_range_succ, prodlt, Bκ, ← hx]
    refine mul_lt_mul_of_pos_left (by linarith) (prod_pos fun j hj => ?_)
    have := mem_range.1 hj
    exact h3 j (by omega)

/-! ## the loop -/

theorem lllLoop_inv {n : ℕ} {M0 : Mat} {B0 : ℕ → ℚ} : ∀ (fuel k : ℕ) (s out : LSt), 1 ≤ k → k ≤ n → LInv n M0 B0 k s → lllLoop n fuel k s = some out → LInv n M0 B0 n out := by
  intro fuel
  induction fuel with
  | zero => intro k s out _ _ _ h; cases h
  | succ fuel ih =>
    intro k s out h1 h2 hi h
    obtain ⟨κ, rfl⟩ : ∃ κ, k = κ + 1 := ⟨k - 1, by omega⟩
    have e : lllLoop n (fuel + 1) (κ + 1) s = if κ + 1 < n then (if lovasz (sizeRed (κ + 1) κ s) (κ + 1) = true then lllLoop n fuel (κ + 2) (sizeRedAll (κ + 1) κ (sizeRed (κ + 1) κ s))
      else lllLoop n fuel (max κ 1) (swapStep n (κ + 1) (sizeRed (κ + 1) κ s))) else some s := rfl
    rw [e] at h
    split at h
    · next hk =>
      have hs := hi.sizeRed hk (Nat.lt_succ_self κ)
      split at h
      · next hl =>
        exact ih _ _ out (by omega) (by omega) (hs.next hk (sizeRed_mu_self _ _ s) (of_decide_eq_true hl)).1 h
      · next hl =>
        exact ih _ _ out (by omega) (by omega) (hs.swap hk (fun h' => hl (decide_eq_true h'))).1 h
    · next hk =>
      cases h
      have : κ + 1 = n := by omega
      rw [← this] at hi ⊢
      exact hi

theorem lllLoop_mono {n : ℕ} : ∀ (fuel k : ℕ) (s out : LSt), lllLoop n fuel k s = some out → lllLoop n (fuel + 1) k s = some out := by
  intro fuel
  induction fuel with
  | zero => intro k s out h; cases h
  | succ fuel ih =>
    intro k s out h
    unfold lllLoop at h ⊢
    split at h
    · next hk =>
      rw [if_pos hk]
      simp only at h ⊢
      split at h
      · next hl => rw [if_pos hl]; exact ih _ _ _ h
      · next hl => rw [if_neg hl]; exact ih _ _ _ h
    · next hk => rw [if_neg hk]; exact h

/-- the potential: the product of the Gram determinants is a natural number -/
theorem LInv.potential {n : ℕ} {M0 : Mat} {B0 : ℕ → ℚ} {k : ℕ} {s : LSt} (h : LInv n M0 B0 k s) : ∃ z : ℕ, ∏ t ∈ range n, ∏ j ∈ range t, s.B j = z := by
  obtain ⟨⟨bs, g⟩, h2, h3, h4, h5, h6, h7⟩ := h
  have e : ∏ t ∈ range n, ∏ j ∈ range t, s.B j = ((∏ t ∈ range n, (Matrix.of fun i j : Fin t => dotZ n (s.M i) (s.M j)).det : ℤ) : ℚ) := by
    rw [Int.cast_prod]
    exact prod_congr rfl fun t ht => (g.gram (mem_range.1 ht).le).symm
  have hp : 0 < ∏ t ∈ range n, ∏ j ∈ range t, s.B j := prod_pos fun t ht => prod_pos fun j hj => h3 j (by have := mem_range.1 hj; have := mem_range.1 ht; omega)
  rw [e] at hp ⊢
  have hz : 0 < ∏ t ∈ range n, (Matrix.of fun i j : Fin t => dotZ n (s.M i) (s.M j)).det := by exact_mod_cast hp
  refine ⟨(∏ t ∈ range n, (Matrix.of fun i j : Fin t => dotZ n (s.M i) (s.M j)).det).toNat, ?_⟩
  rw [← Int.cast_natCast, Int.toNat_of_nonneg hz.le]

theorem lllLoop_total {n : ℕ} {M0 : Mat} {B0 : ℕ → ℚ} : ∀ (z d k : ℕ) (s : LSt), 1 ≤ k → k + d = n → LInv n M0 B0 k s → ∏ t ∈ range n, ∏ j ∈ range t, s.B j = z → ∃ fuel out, lllLoop n fuel k s = some out := by
  intro z
  induction z using Nat.strong_induction_on with
  | _ z ihz =>
    intro d
    induction d with
    | zero =>
      intro k s h1 h2 hi hz
      exact ⟨1, s, by unfold lllLoop; rw [if_neg (by omega)]⟩
    | succ d ihd =>
      intro k s h1 h2 hi hz
      obtain ⟨κ, rfl⟩ : ∃ κ, k = κ + 1 := ⟨k - 1, by omega⟩
      have hk : κ + 1 < n := by omega
      have e : ∀ fuel, lllLoop n (fuel + 1) (κ + 1) s = if lovasz (sizeRed (κ + 1) κ s) (κ + 1) = true then lllLoop n fuel (κ + 2) (sizeRedAll (κ + 1) κ (sizeRed (κ + 1) κ s))
        else lllLoop n fuel (max κ 1) (swapStep n (κ + 1) (sizeRed (κ + 1) κ s)) := fun fuel => if_pos hk
      have hs := hi.sizeRed hk (Nat.lt_succ_self κ)
      by_cases hl : lovasz (sizeRed (κ + 1) κ s) (κ + 1) = true
      · obtain ⟨a, b⟩ := hs.next hk (sizeRed_mu_self _ _ s) (of_decide_eq_true hl)
        obtain ⟨fuel, out, ho⟩ := ihd (κ + 2) _ (by omega) (by omega) a (by rw [b, sizeRed_B]; exact hz)
        exact ⟨fuel + 1, out, by rw [e, if_pos hl]; exact ho⟩
      · obtain ⟨a, b, c⟩ := hs.swap hk (fun h' => hl (decide_eq_true h'))
        obtain ⟨z', hz'⟩ := a.potential
        have hlt : z' < z := by
          have : (z' : ℚ) < z := by
            rw [← hz, ← hz', ← sizeRed_B (κ + 1) κ s]
            refine prod_lt_prod (fun t ht => ?_) (fun t ht => ?_) ⟨κ + 1, mem_range.2 hk, c⟩
            · exact prod_pos fun j hj => a.pos j (by have := mem_range.1 hj; have := mem_range.1 ht; omega)
            · by_cases h' : t = κ + 1
              · rw [h']; exact c.le
              · exact (b t (mem_range.1 ht).le h').le
          exact_mod_cast this
        obtain ⟨fuel, out, ho⟩ := ihz z' hlt (n - max κ 1) (max κ 1) _ (by omega) (by omega) a hz'
        exact ⟨fuel + 1, out, by rw [e, if_neg hl]; exact ho⟩

theorem lllInit_inv {n : ℕ} (hn : 1 ≤ n) {M : Mat} (hd : (toM n M).det ≠ 0) : LInv n M (gsInit n M).2 1 (lllInit n M) := by
  have g := gsInit_gs n M
  refine ⟨⟨_, g⟩, ⟨.inl ?_, fun i hi c hc => ?_⟩, g.pos hd, fun i hi j hj => by omega, fun i hi => by omega, fun X hX => hX, le_rfl⟩
  · have : toM n (lllInit n M).U = 1 := by
      ext i j
      rw [Matrix.one_apply]
      show (if (i : ℕ) = j then (1 : ℤ) else 0) = _
      simp only [Fin.ext_iff]
    rw [this, Matrix.det_one]
  · show M i c = ∑ t ∈ range n, (if i = t then (1 : ℤ) else 0) * M t c
    rw [sum_eq_single_of_mem i (mem_range.2 hi)]
    · rw [if_pos rfl, one_mul]
    · intro t _ ht
      rw [if_neg (Ne.symm ht), zero_mul]

/-- `__lll_reduce` returns on a nonsingular matrix -/
theorem lllReduce_total {n : ℕ} (hn : 1 ≤ n) {M : Mat} (hd : (toM n M).det ≠ 0) (B : ℤ) : ∃ fuel, lllReduce fuel n M B ≠ none := by
  have hi := lllInit_inv hn hd
  obtain ⟨z, hz⟩ := hi.potential
  obtain ⟨fuel, out, h⟩ := lllLoop_total z (n - 1) 1 _ le_rfl (by omega) hi hz
  exact ⟨fuel, by unfold lllReduce; rw [h]; simp⟩

theorem lllReduce_mono {fuel n : ℕ} {M : Mat} {B : ℤ} {r : Mat × Mat × List ℕ} (h : lllReduce fuel n M B = some r) (d : ℕ) : lllReduce (fuel + d) n M B = some r := by
  induction d with
  | zero => exact h
  | succ d ih =>
    unfold lllReduce at ih ⊢
    rw [Option.map_eq_some_iff] at ih ⊢
    obtain ⟨s, h1, h2⟩ := ih
    exact ⟨s, lllLoop_mono _ _ _ _ h1, h2⟩

/-- the squared norm of a row in terms of the Gram–Schmidt data -/
theorem GS.norm_row {n : ℕ} {M : Mat} {mu : ℕ → ℕ → ℚ} {B : ℕ → ℚ} {bs : ℕ → ℕ → ℚ} (h : GS n M mu B bs) : ∀ i < n, ((dotZ n (M i) (M i) : ℤ) : ℚ) = B i + ∑ j ∈ range i, mu i j * mu i j * B j := by
  intro i hi
  have hl : ∀ x, ip n (fun c => (M i c : ℚ)) x = ip n (bs i) x + ∑ j ∈ range i, mu i j * ip n (bs j) x := fun x => by
    rw [← ip_sum, ← ip_add]
    exact ip_congr (h.row i hi) fun _ _ => rfl
  rw [← ip_cast, hl, ip_comm, hl, ← h.norm i hi, sum_eq_zero, add_zero]
  · congr 1
    refine sum_congr rfl fun j hj => ?_
    have hj' := mem_range.1 hj
    rw [ip_comm, hl, ip_comm, ip_comm n (bs j), h.orth i hi j hj', zero_add, sum_eq_single_of_mem j hj, ← h.norm j (by omega)]
    · ring
    · intro l hl' hlj
      have := mem_range.1 hl'
      rcases lt_or_gt_of_ne hlj with h' | h'
      · rw [ip_comm, h.orth j (by omega) l h', mul_zero]
      · rw [h.orth l (by omega) j h', mul_zero]
  · intro j hj
    rw [ip_comm, h.orth i hi j (mem_range.1 hj), mul_zero]

end Upoly
end CLPoly
