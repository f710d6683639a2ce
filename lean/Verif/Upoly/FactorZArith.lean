import Verif.Upoly.FactorZDefs
import Verif.Upoly.Content
import Mathlib.Analysis.Polynomial.MahlerMeasure
import Mathlib.Data.Nat.Choose.Basic
import Mathlib.Tactic.Linarith
import Mathlib.Tactic.LinearCombination
import Mathlib.Data.Nat.Size

/-! # Integer helpers of the factorization: symmetric residues, square root, binomial coefficients, the coefficient bound -/

namespace CLPoly
namespace Upoly
open Polynomial

theorem symMod_spec (a : ℤ) {m : ℤ} (hm : 0 < m) : m ∣ symMod a m - a ∧ -m < 2 * symMod a m ∧ 2 * symMod a m ≤ m := by
  have h1 : Int.fmod a m = a % m := Int.fmod_eq_emod_of_nonneg a hm.le
  have h2 : Int.fdiv m 2 = m / 2 := Int.fdiv_eq_ediv_of_nonneg m (by norm_num)
  have h3 := Int.emod_nonneg a hm.ne'
  have h4 := Int.emod_lt_of_pos a hm
  have h5 : m ∣ a % m - a := by
    have := Int.emod_add_mul_ediv a m
    exact ⟨-(a / m), by linear_combination this⟩
  unfold symMod
  simp only [h1, h2]
  split
  · refine ⟨?_, by omega, by omega⟩
    have : a % m - m - a = (a % m - a) - m := by ring
    rw [this]
    exact dvd_sub h5 dvd_rfl
  · exact ⟨h5, by omega, by omega⟩

/-- a residue in the symmetric range is determined by its class -/
theorem symMod_unique {a m r : ℤ} (hm : 0 < m) (h1 : m ∣ r - a) (h2 : -m < 2 * r) (h3 : 2 * r ≤ m) : symMod a m = r := by
  obtain ⟨e1, e2, e3⟩ := symMod_spec a hm
  have h : m ∣ symMod a m - r := by
    have : symMod a m - r = (symMod a m - a) - (r - a) := by ring
    rw [this]
    exact dvd_sub e1 h1
  have := Int.eq_zero_of_abs_lt_dvd h (by rw [abs_lt]; constructor <;> omega)
  omega

/-! ## square root -/

theorem newton_ge {n x s : ℤ} (hx : 0 < x) (hs : s * s ≤ n) : s ≤ (x + n / x) / 2 := by
  have h : 2 * s - x ≤ n / x := by
    rw [Int.le_ediv_iff_mul_le hx]
    nlinarith [sq_nonneg (s - x)]
  omega

theorem isqrtLoop_spec {n s : ℤ} (hn : 0 < n) (hs0 : 0 ≤ s) (hs : s * s ≤ n) (hs' : n < (s + 1) * (s + 1)) :
    ∀ (fuel : Nat) (x : ℤ), s ≤ x → 0 < x → x < fuel → isqrtLoop n fuel x = some s := by
  have s1 : 0 < s := by nlinarith
  intro fuel
  induction fuel with
  | zero => intro x _ h1 h2; simp at h2; omega
  | succ fuel ih =>
    intro x h1 h2 h3
    have e : isqrtLoop n (fuel + 1) x = if Int.tdiv (x + Int.tdiv n x) 2 ≥ x then some x else isqrtLoop n fuel (Int.tdiv (x + Int.tdiv n x) 2) := rfl
    have q0 : 0 ≤ n / x := Int.ediv_nonneg hn.le h2.le
    have e1 : Int.tdiv n x = n / x := Int.tdiv_eq_ediv_of_nonneg hn.le
    have e2 : Int.tdiv (x + n / x) 2 = (x + n / x) / 2 := Int.tdiv_eq_ediv_of_nonneg (by omega)
    rw [e, e1, e2]
    have g := newton_ge h2 hs
    split
    · next h =>
      have : x ≤ n / x := by omega
      rw [Int.le_ediv_iff_mul_le h2] at this
      have : ¬ s + 1 ≤ x := fun h' => by nlinarith
      congr 1
      omega
    · next h =>
      refine ih _ g (by omega) ?_
      push_cast at h3
      omega

theorem lt_two_pow_bitLen {n : ℤ} (hn : 0 < n) : n < 2 ^ bitLen n := by
  unfold bitLen
  rw [if_neg hn.ne']
  have h := Nat.lt_size_self n.natAbs
  have e : (n.natAbs : ℤ) = n := Int.natAbs_of_nonneg hn.le
  have : (n.natAbs : ℤ) < ((2 ^ n.natAbs.size : ℕ) : ℤ) := by exact_mod_cast h
  rw [e] at this
  simpa using this

/-- the loop ends and the result is the least integer `≥ 0` whose square is at least `n` -/
theorem isqrtCeil_spec (n : ℤ) : ∃ r, isqrtCeil n = some r ∧ 0 ≤ r ∧ n ≤ r * r ∧ ∀ k, 0 ≤ k → k < r → k * k < n := by
  unfold isqrtCeil
  by_cases hn : n ≤ 0
  · rw [if_pos hn]
    exact ⟨0, rfl, le_rfl, by omega, fun k h1 h2 => by omega⟩
  rw [if_neg hn]
  push Not at hn
  obtain ⟨s, hs0, hs, hs'⟩ : ∃ s : ℤ, 0 ≤ s ∧ s * s ≤ n ∧ n < (s + 1) * (s + 1) := by
    refine ⟨(Nat.sqrt n.toNat : ℤ), Int.natCast_nonneg _, ?_, ?_⟩
    · have := Nat.sqrt_le n.toNat
      have e : (n.toNat : ℤ) = n := Int.toNat_of_nonneg hn.le
      rw [← e]
      exact_mod_cast this
    · have := Nat.lt_succ_sqrt n.toNat
      have e : (n.toNat : ℤ) = n := Int.toNat_of_nonneg hn.le
      rw [← e]
      exact_mod_cast this
  obtain ⟨x, hx⟩ : ∃ x : ℤ, x = 2 ^ ((bitLen n + 1) / 2) := ⟨_, rfl⟩
  have x0 : 0 < x := by rw [hx]; positivity
  have hxx : n < x * x := by
    refine lt_of_lt_of_le (lt_two_pow_bitLen hn) ?_
    rw [hx, ← pow_add]
    exact pow_le_pow_right₀ (by norm_num) (by omega)
  have hsx : s ≤ x := by
    by_contra h
    push Not at h
    nlinarith
  have key := isqrtLoop_spec hn hs0 hs hs' (x.toNat + 1) x hsx x0 (by push_cast; omega)
  simp only [← hx, key, Option.map_some]
  refine ⟨_, rfl, ?_⟩
  split
  · next h =>
    refine ⟨by omega, by nlinarith, fun k h1 h2 => ?_⟩
    have : k ≤ s := by omega
    nlinarith
  · next h =>
    push Not at h
    refine ⟨hs0, h, fun k h1 h2 => ?_⟩
    nlinarith

/-! ## binomial coefficients -/

theorem binom_fold (n : Nat) : ∀ k : Nat, k ≤ n →
    (List.range k).foldl (fun (r : ℤ) (i : Nat) => Int.tdiv (r * ((n : ℤ) - i)) (i + 1)) 1 = n.choose k := by
  intro k
  induction k with
  | zero => intro _; simp
  | succ k ih =>
    intro h
    rw [List.range_succ, List.foldl_append, ih (by omega)]
    simp only [List.foldl_cons, List.foldl_nil]
    have e : (n.choose k : ℤ) * ((n : ℤ) - k) = (n.choose (k + 1) : ℤ) * ((k : ℤ) + 1) := by
      have h1 := Nat.choose_succ_right_eq n k
      have h2 : ((n - k : ℕ) : ℤ) = (n : ℤ) - k := by omega
      rw [← h2]
      exact_mod_cast h1.symm
    rw [e]
    exact Int.mul_tdiv_cancel _ (by omega)

theorem binomialZ_spec (n k : Nat) : binomialZ n k = n.choose k := by
  unfold binomialZ
  by_cases h1 : (k : ℤ) < 0 ∨ (k : ℤ) > n
  · rw [if_pos h1, Nat.choose_eq_zero_of_lt (by omega)]
    rfl
  rw [if_neg h1]
  by_cases h2 : (k : ℤ) = 0 ∨ (k : ℤ) = n
  · rw [if_pos h2]
    rcases h2 with h | h
    · have : k = 0 := by omega
      simp [this]
    · have : k = n := by omega
      simp [this]
  rw [if_neg h2]
  push Not at h1
  dsimp only
  split
  · next h =>
    have e : ((n : ℤ) - k).toNat = n - k := by omega
    rw [e, binom_fold n (n - k) (by omega), Nat.choose_symm (by omega)]
  · next h =>
    rw [Int.toNat_natCast, binom_fold n k (by omega)]

theorem binomialZ_zero {n k : ℤ} (h : k < 0 ∨ k > n) : binomialZ n k = 0 := by
  unfold binomialZ
  rw [if_pos h]

/-! ## norm and the coefficient bound -/

theorem normL2Sq_aux (f : UPoly ℤ) : ∀ s : ℤ, f.foldl (fun s t => s + t.2 * t.2) s = s + (f.map fun t => t.2 * t.2).sum := by
  induction f with
  | nil => simp
  | cons t l ih => intro s; simp only [List.foldl_cons, List.map_cons, List.sum_cons]; rw [ih]; ring

theorem normL2Sq_spec {f : UPoly ℤ} {F : ℤ[X]} (h : Is f F) : normL2Sq f = ∑ i ∈ F.support, F.coeff i ^ 2 := by
  unfold normL2Sq
  rw [normL2Sq_aux, zero_add]
  induction f generalizing F with
  | nil =>
    have : F = 0 := (is_nil_iff h).1 rfl
    simp [this]
  | cons t l ih =>
    obtain ⟨c1, c2, c3⟩ := canon_cons.1 h.canon
    have hl : Is l (toPoly l) := is_of_canon c3
    have hd := toPoly_degree_lt c1
    have hF : F = monomial t.1 t.2 + toPoly l := by rw [← h.eq, toPoly_cons]
    have hz : (toPoly l).coeff t.1 = 0 := coeff_eq_zero_of_degree_lt hd
    have hs : F.support = insert t.1 (toPoly l).support := by
      ext i
      rw [Finset.mem_insert, mem_support_iff, mem_support_iff, hF, coeff_add, coeff_monomial]
      by_cases hi : t.1 = i
      · subst hi
        simp [hz, c2]
      · rw [if_neg hi, zero_add]
        constructor
        · exact Or.inr
        · rintro (h | h)
          · exact absurd h.symm hi
          · exact h
    have hn : t.1 ∉ (toPoly l).support := by rw [mem_support_iff]; simpa using hz
    rw [List.map_cons, List.sum_cons, ih hl, hs, Finset.sum_insert hn]
    congr 1
    · rw [hF, coeff_add, coeff_monomial, if_pos rfl, hz]; ring
    · refine Finset.sum_congr rfl fun i hi => ?_
      have : t.1 ≠ i := fun e => hn (e ▸ hi)
      rw [hF, coeff_add, coeff_monomial, if_neg this, zero_add]

/-- Mignotte's bound for integer polynomials -/
theorem mignotte_aux {F G : ℤ[X]} (F0 : F ≠ 0) (hG : G ∣ F) {r : ℤ} (r0 : 0 ≤ r) (hr : ∑ i ∈ F.support, F.coeff i ^ 2 ≤ r * r) (i : ℕ) :
    |G.coeff i| ≤ (F.natDegree.choose (F.natDegree / 2) : ℤ) * r := by
  obtain ⟨H, rfl⟩ := hG
  have G0 : G ≠ 0 := left_ne_zero_of_mul F0
  have H0 : H ≠ 0 := right_ne_zero_of_mul F0
  have inj : Function.Injective (Int.castRingHom ℂ) := Int.cast_injective
  obtain ⟨φ, hφ⟩ : ∃ φ : ℤ →+* ℂ, φ = Int.castRingHom ℂ := ⟨_, rfl⟩
  rw [← hφ] at inj
  have nrm : ∀ a : ℤ, ‖φ a‖ = |(a : ℝ)| := fun a => by rw [hφ]; simp
  have M2 : 1 ≤ (H.map φ).mahlerMeasure := by
    refine le_trans ?_ (leadingCoeff_le_mahlerMeasure _)
    rw [leadingCoeff_map_of_injective inj, nrm]
    have := Int.one_le_abs (leadingCoeff_ne_zero.2 H0)
    exact_mod_cast this
  have M1 : (G.map φ).mahlerMeasure ≤ ((G * H).map φ).mahlerMeasure := by
    rw [Polynomial.map_mul, mahlerMeasure_mul]
    exact le_mul_of_one_le_right (mahlerMeasure_nonneg _) M2
  have M3 : ((G * H).map φ).mahlerMeasure ≤ (r : ℝ) := by
    refine (mahlerMeasure_le_sqrt_sum_sq_norm_coeff _).trans ?_
    rw [Real.sqrt_le_iff]
    refine ⟨by exact_mod_cast r0, ?_⟩
    rw [support_map_of_injective _ inj]
    have : ∑ i ∈ (G * H).support, ‖((G * H).map φ).coeff i‖ ^ 2 = ((∑ i ∈ (G * H).support, (G * H).coeff i ^ 2 : ℤ) : ℝ) := by
      push_cast
      refine Finset.sum_congr rfl fun i _ => ?_
      rw [coeff_map, nrm, sq_abs]
    rw [this, sq]
    exact_mod_cast hr
  have b1 := norm_coeff_le_choose_mul_mahlerMeasure i (G.map φ)
  rw [coeff_map, nrm, natDegree_map_eq_of_injective inj] at b1
  have hc : G.natDegree.choose i ≤ (G * H).natDegree.choose ((G * H).natDegree / 2) := by
    refine le_trans (Nat.choose_le_choose i ?_) (Nat.choose_le_middle i _)
    rw [natDegree_mul G0 H0]; omega
  have : |(G.coeff i : ℝ)| ≤ (((G * H).natDegree.choose ((G * H).natDegree / 2) : ℕ) : ℝ) * (r : ℝ) := by
    refine b1.trans (mul_le_mul (by exact_mod_cast hc) (M1.trans M3) (mahlerMeasure_nonneg _) (by positivity))
  exact_mod_cast this

/-- `__mignotte_bound` returns for every nonzero polynomial, and bounds the coefficients of all its divisors -/
theorem mignotte_spec {f : UPoly ℤ} {F : ℤ[X]} (h : Is f F) (h0 : F ≠ 0) :
    ∃ B, mignotte f = some B ∧ 0 < B ∧ (∀ G, G ∣ F → ∀ i, |G.coeff i| ≤ B) ∧
      ∃ r, 0 ≤ r ∧ B = (F.natDegree.choose (F.natDegree / 2) : ℤ) * r ∧ ∑ i ∈ F.support, F.coeff i ^ 2 ≤ r * r ∧ ∀ k, 0 ≤ k → k < r → k * k < ∑ i ∈ F.support, F.coeff i ^ 2 := by
  unfold mignotte
  rw [if_neg (by rw [is_nil_iff h]; exact h0)]
  obtain ⟨r, e, r0, r1, r2⟩ := isqrtCeil_spec (normL2Sq f)
  rw [e, Option.map_some]
  have e2 : Int.tdiv (deg f : ℤ) 2 = ((F.natDegree / 2 : ℕ) : ℤ) := by
    rw [is_deg h]
    exact (Int.ofNat_tdiv _ 2).symm
  rw [normL2Sq_spec h] at r1 r2
  rw [e2, is_deg h, binomialZ_spec]
  have key := fun G hG i => mignotte_aux (G := G) h0 hG r0 r1 i
  refine ⟨_, rfl, ?_, key, r, r0, rfl, r1, r2⟩
  have := key F dvd_rfl F.natDegree
  have h2 := Int.one_le_abs (leadingCoeff_ne_zero.2 h0)
  rw [leadingCoeff] at h2
  omega

end Upoly
end CLPoly
