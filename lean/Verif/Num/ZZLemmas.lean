import Verif.Num.ZZ
import Mathlib.Tactic.Ring
import Mathlib.Tactic.LinearCombination
import Mathlib.Tactic.Linarith
import Mathlib.Tactic.Positivity

/-! Helper lemmas about the `ZZ` model (used by `Verif/Props/NumZZ.lean`). -/

namespace CLPoly.ZZ
open CLPoly

theorem demote_val (v : Int) : (demote v).val = v := by unfold demote; split <;> rfl
theorem demote_canon (v : Int) : (demote v).Canon := by
  unfold demote; split <;> simpa [Canon]

/-- The operation returns normally, in canonical representation, with the given integer value. -/
def Exact (o : Out ZZ) (v : Int) : Prop := ∃ r, o = .ok r ∧ r.Canon ∧ r.val = v

theorem exact_demote {v w : Int} (h : v = w) : Exact (.ok (demote v)) w :=
  ⟨_, rfl, demote_canon v, by rw [demote_val, h]⟩

theorem exact_small {v w : Int} (hv : InI64 v) (h : v = w) : Exact (.ok (small v)) w :=
  ⟨_, rfl, hv, h⟩

theorem canon_ext {a b : ZZ} (ha : a.Canon) (hb : b.Canon) (h : a.val = b.val) : a = b := by
  cases a <;> cases b <;> simp only [val] at h <;> subst h <;> simp_all [Canon]

theorem gcdLoop_eq (x y : Nat) : gcdLoop x y = Nat.gcd x y := by
  fun_induction gcdLoop x y with
  | case1 x => simp
  | case2 x y h ih => rw [ih, Nat.gcd_comm x y, Nat.gcd_rec y x, Nat.gcd_comm]

theorem abs64_ub {v : Int} (h : v = i64min) : abs64 v = .ub := by
  subst h; decide

theorem abs64_ok {v : Int} (h : v ≠ i64min) : abs64 v = .ok (v.natAbs : Int) := by
  unfold abs64 neg64
  rw [if_neg h]
  split <;> (congr 1; omega)

theorem tdiv_inI64 {x y : Int} (hx : InI64 x) (hy : InI64 y) (h0 : y ≠ 0)
    (h : ¬ (x = i64min ∧ y = -1)) : InI64 (x.tdiv y) := by
  have habs : (x.tdiv y).natAbs = x.natAbs / y.natAbs := Int.natAbs_tdiv x y
  have h1 : x.natAbs / y.natAbs ≤ x.natAbs := Nat.div_le_self _ _
  have hxb : x.natAbs ≤ 9223372036854775808 := by
    unfold InI64 i64min i64max at hx; omega
  unfold InI64 i64min i64max at *
  by_cases hxm : x = -9223372036854775808
  · have hy1 : y ≠ -1 := fun e => h ⟨hxm, e⟩
    by_cases hy2 : y = 1
    · subst hy2; simp at habs ⊢; omega
    · have : 2 ≤ y.natAbs := by omega
      have h2 : x.natAbs / y.natAbs ≤ x.natAbs / 2 := Nat.div_le_div_left this (by norm_num)
      omega
  · omega

theorem tmod_inI64 {x y : Int} (hx : InI64 x) (_hy : InI64 y) : InI64 (x.tmod y) := by
  have h1 : (x.tmod y).natAbs = x.natAbs % y.natAbs := Int.natAbs_tmod x y
  have h2 : x.natAbs % y.natAbs ≤ x.natAbs := Nat.mod_le _ _
  unfold InI64 i64min i64max at *
  rcases le_or_gt 0 x with hx0 | hx0
  · have := Int.tmod_nonneg y hx0; omega
  · have h3 := Int.tmod_nonneg y (a := -x) (by omega)
    rw [Int.neg_tmod] at h3; omega

/-- floor quotient and remainder from the truncated ones, as `fdiv_qr` computes them -/
theorem fdiv_fmod_of_tdiv {x y : Int} (h0 : y ≠ 0) :
    (if x.tmod y ≠ 0 ∧ ((x.tmod y < 0 ∧ 0 ≤ y) ∨ (0 ≤ x.tmod y ∧ y < 0)) then x.tdiv y - 1 else x.tdiv y) = x.fdiv y ∧
    (if x.tmod y ≠ 0 ∧ ((x.tmod y < 0 ∧ 0 ≤ y) ∨ (0 ≤ x.tmod y ∧ y < 0)) then x.tmod y + y else x.tmod y) = x.fmod y := by
  have ht : y * x.tdiv y + x.tmod y = x := Int.mul_tdiv_add_tmod x y
  have habs : (x.tmod y).natAbs < y.natAbs := by
    rw [Int.natAbs_tmod]; exact Nat.mod_lt _ (by omega)
  have key : ∀ q r : Int, y * q + r = x → (0 < y → 0 ≤ r ∧ r < y) → (y < 0 → y < r ∧ r ≤ 0) →
      q = x.fdiv y ∧ r = x.fmod y := by
    intro q r hq h1 h2
    have hf : y * x.fdiv y + x.fmod y = x := Int.mul_fdiv_add_fmod x y
    have hfr : (0 < y → 0 ≤ x.fmod y ∧ x.fmod y < y) ∧ (y < 0 → y < x.fmod y ∧ x.fmod y ≤ 0) := by
      constructor
      · intro hy; exact ⟨Int.fmod_nonneg_of_pos _ hy, Int.fmod_lt_of_pos _ hy⟩
      · intro hy
        have h3 : x.fmod y = -((-x).fmod (-y)) := by
          rw [Int.neg_fmod_neg]; simp
        have h4 := Int.fmod_nonneg_of_pos (-x) (b := -y) (by omega)
        have h5 := Int.fmod_lt_of_pos (-x) (b := -y) (by omega)
        constructor <;> omega
    have hrr : r = x.fmod y := by
      rcases lt_or_gt_of_ne h0 with hy | hy
      · obtain ⟨a1, a2⟩ := h2 hy
        obtain ⟨b1, b2⟩ := hfr.2 hy
        have hd : y * (q - x.fdiv y) = x.fmod y - r := by linear_combination hq - hf
        have hz : q - x.fdiv y = 0 := by
          rcases lt_trichotomy (q - x.fdiv y) 0 with hh | hh | hh
          · nlinarith
          · exact hh
          · nlinarith
        rw [hz] at hd; omega
      · obtain ⟨a1, a2⟩ := h1 hy
        obtain ⟨b1, b2⟩ := hfr.1 hy
        have hd : y * (q - x.fdiv y) = x.fmod y - r := by linear_combination hq - hf
        have hz : q - x.fdiv y = 0 := by
          rcases lt_trichotomy (q - x.fdiv y) 0 with hh | hh | hh
          · nlinarith
          · exact hh
          · nlinarith
        rw [hz] at hd; omega
    refine ⟨?_, hrr⟩
    have : y * q = y * x.fdiv y := by rw [hrr] at hq; omega
    exact mul_left_cancel₀ h0 this
  split
  · rename_i hc
    exact key _ _ (by linear_combination ht) (by intro hy; omega) (by intro hy; omega)
  · rename_i hc
    exact key _ _ ht (by intro hy; omega) (by intro hy; omega)

theorem fdiv_inI64 {x y : Int} (hx : InI64 x) (hy : InI64 y) (h0 : y ≠ 0)
    (h : ¬ (x = i64min ∧ y = -1)) : InI64 (x.fdiv y) := by
  have h1 := (fdiv_fmod_of_tdiv (x := x) h0).1
  have h2 := tdiv_inI64 hx hy h0 h
  have ht : y * x.tdiv y + x.tmod y = x := Int.mul_tdiv_add_tmod x y
  rw [← h1]
  split
  · rename_i hc
    -- quot = INT64_MIN would force |x| > 2^63
    unfold InI64 at *
    refine ⟨?_, by omega⟩
    by_contra hlt
    have hq : x.tdiv y = i64min := by omega
    have hn : (x.tdiv y).natAbs = x.natAbs / y.natAbs := Int.natAbs_tdiv x y
    have h3 : x.natAbs ≤ 9223372036854775808 := by unfold i64min i64max at hx; omega
    have h4 : (x.tdiv y).natAbs = 9223372036854775808 := by rw [hq]; rfl
    rw [hn] at h4
    have hy0 : 0 < y.natAbs := by omega
    have h5 : 9223372036854775808 * y.natAbs ≤ x.natAbs := by
      rw [← h4]; exact Nat.div_mul_le_self _ _
    have hy1 : y.natAbs = 1 := by nlinarith
    have : (x.tmod y).natAbs = 0 := by rw [Int.natAbs_tmod, hy1, Nat.mod_one]
    omega
  · exact h2

theorem fmod_inI64 {x y : Int} (hx : InI64 x) (hy : InI64 y) (h0 : y ≠ 0) : InI64 (x.fmod y) := by
  have h1 := (fdiv_fmod_of_tdiv (x := x) h0).2
  have h2 := tmod_inI64 hx hy
  have habs : (x.tmod y).natAbs < y.natAbs := by
    rw [Int.natAbs_tmod]; exact Nat.mod_lt _ (by omega)
  rw [← h1]
  unfold InI64 i64min i64max at *
  split <;> omega

end CLPoly.ZZ
