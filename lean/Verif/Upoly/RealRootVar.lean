import Verif.Upoly.RealRootSigns
import Mathlib.Topology.Order.Compact

/-!
# Sign variations on an interval: roots, bisection, and small intervals
-/

namespace CLPoly
namespace Upoly
open Polynomial

/-- the number the code computes for the unit interval -/
noncomputable def vars (G : ℤ[X]) : Nat := (G.reverse.comp (X + 1)).signVariations

theorem int_poly_ext {P Q : ℤ[X]} (h : ∀ x : ℝ, 0 < x → aeval x P = aeval x Q) : P = Q := by
  apply map_injective (Int.castRingHom ℝ) Int.cast_injective
  apply eq_of_infinite_eval_eq
  apply (Set.Ioi_infinite (0 : ℝ)).mono
  intro x hx
  have := h x hx
  simpa [aeval_def, eval_map] using this

theorem reflect_eval (P : ℤ[X]) {N : Nat} (hN : P.natDegree ≤ N) {x : ℝ} (hx : x ≠ 0) : aeval x (reflect N P) = x ^ N * aeval x⁻¹ P := by
  haveI : Invertible x⁻¹ := invertibleOfNonzero (inv_ne_zero hx)
  have := eval₂_reflect_mul_pow (algebraMap ℤ ℝ) x⁻¹ N P hN
  have e : ⅟(x⁻¹) = x := by simp
  rw [e] at this
  rw [aeval_def, aeval_def, ← this, inv_pow]
  field_simp

/-- `(x+1)^m G(1/(x+1))` -/
theorem inf_eval (G : ℤ[X]) {x : ℝ} (hx : x + 1 ≠ 0) : aeval x (G.reverse.comp (X + 1)) = (x + 1) ^ G.natDegree * aeval (x + 1)⁻¹ G := by
  have := reflect_eval G le_rfl hx
  rw [aeval_comp]
  simpa [reverse] using this

theorem inf_ne_zero {G : ℤ[X]} (h : G ≠ 0) : G.reverse.comp (X + 1) ≠ 0 := by
  intro hc
  have h1 : (G.reverse.comp (X + 1)).comp (X - 1) = 0 := by rw [hc]; simp
  rw [comp_assoc] at h1
  have : ((X + 1 : ℤ[X]).comp (X - 1)) = X := by simp
  rw [this, comp_X] at h1
  exact h (reverse_eq_zero.1 h1)

theorem unit_root_iff (G : ℤ[X]) {t : ℝ} (h0 : 0 < t) : aeval (t⁻¹ - 1) (G.reverse.comp (X + 1)) = 0 ↔ aeval t G = 0 := by
  have e : t⁻¹ - 1 + 1 = t⁻¹ := by ring
  rw [inf_eval G (by rw [e]; positivity), e, inv_inv]
  have : t⁻¹ ^ G.natDegree ≠ 0 := by positivity
  rw [mul_eq_zero]
  tauto

theorem inv_sub_pos {t : ℝ} (h0 : 0 < t) (h1 : t < 1) : 0 < t⁻¹ - 1 := by
  have := (one_lt_inv₀ h0).2 h1
  linarith

/-- no sign variation: no root in the open unit interval -/
theorem vars_zero {G : ℤ[X]} (h : G ≠ 0) (hv : vars G = 0) {t : ℝ} (h0 : 0 < t) (h1 : t < 1) : aeval t G ≠ 0 := by
  intro hr
  have := (unit_root_iff G h0).2 hr
  exact ((signVariations_zero_iff _).1 hv).no_root (inf_ne_zero h) (inv_sub_pos h0 h1) this

/-- one sign variation: exactly one root in the open unit interval -/
theorem vars_le_one_unique {G : ℤ[X]} (h : G ≠ 0) (hv : vars G ≤ 1) {t u : ℝ} (h0 : 0 < t) (h1 : t < 1) (h2 : 0 < u) (h3 : u < 1)
    (ht : aeval t G = 0) (hu : aeval u G = 0) : t = u := by
  have h4 := (unit_root_iff G h0).2 ht
  have h5 := (unit_root_iff G h2).2 hu
  have ho := (signVariations_le_one_iff _).1 hv
  rcases lt_trichotomy t u with hlt | heq | hgt
  · exact (ho.unique (inf_ne_zero h) (inv_sub_pos h2 h3) (by have := inv_strictAnti₀ h0 hlt; linarith) h5 h4).elim
  · exact heq
  · exact (ho.unique (inf_ne_zero h) (inv_sub_pos h0 h1) (by have := inv_strictAnti₀ h2 hgt; linarith) h4 h5).elim

theorem vars_one {G : ℤ[X]} (hv : vars G = 1) : ∃ t : ℝ, 0 < t ∧ t < 1 ∧ aeval t G = 0 := by
  obtain ⟨x, hx, hr⟩ := exists_root_of_one hv
  refine ⟨(x + 1)⁻¹, by positivity, inv_lt_one_of_one_lt₀ (by linarith), ?_⟩
  rw [inf_eval G (by linarith)] at hr
  have : (x + 1) ^ G.natDegree ≠ 0 := by positivity
  exact (mul_eq_zero.1 hr).resolve_left this

/-! ### Taylor shift keeps "at most one variation" -/

theorem shift_coeff (P : ℤ[X]) {n : Nat} (hn : P.natDegree < n) (k : Nat) :
    (P.comp (X + 1)).coeff k = ∑ i ∈ Finset.range n, (i.choose k : ℤ) * P.coeff i := by
  have e : P.comp (X + 1) = taylor 1 P := by rw [taylor_apply, C_1]
  rw [e, taylor_coeff, hasseDeriv_apply, sum_over_range' P _ n hn, eval_finsetSum]
  · exact Finset.sum_congr rfl fun i _ => by simp
  · intro i; simp

theorem One.shift {P : ℤ[X]} (h : One P) : One (P.comp (X + 1)) := by
  obtain ⟨s, hs, j, hh⟩ := h
  obtain ⟨c, hc⟩ : ∃ c : Nat → ℤ, c = fun k => s * (P.comp (X + 1)).coeff k := ⟨_, rfl⟩
  have hck : ∀ k, c k = ∑ i ∈ Finset.range (P.natDegree + 1), (i.choose k : ℤ) * (s * P.coeff i) := by
    intro k
    rw [hc]
    simp only
    rw [shift_coeff P (Nat.lt_succ_self _), Finset.mul_sum]
    exact Finset.sum_congr rfl fun i _ => by ring
  have hstep : ∀ k, 0 ≤ c k → 0 ≤ c (k + 1) := by
    intro k hk
    rcases Nat.lt_or_ge k j with hkj | hkj
    · have key : ((j : ℤ) - k) * c k ≤ (k + 1) * c (k + 1) := by
        rw [hck, hck, Finset.mul_sum, Finset.mul_sum]
        refine Finset.sum_le_sum fun i _ => ?_
        have e : ((k : ℤ) + 1) * (i.choose (k + 1) : ℤ) = ((i : ℤ) - k) * (i.choose k : ℤ) := by
          have := Nat.choose_succ_right_eq i k
          rcases Nat.lt_or_ge i k with hik | hik
          · rw [Nat.choose_eq_zero_of_lt hik, Nat.choose_eq_zero_of_lt (by omega)]; simp
          · have h2 : ((i - k : Nat) : ℤ) = (i : ℤ) - k := by omega
            rw [← h2]
            have h3 : ((i.choose (k + 1) * (k + 1) : Nat) : ℤ) = ((i.choose k * (i - k) : Nat) : ℤ) := by rw [this]
            push_cast at h3 ⊢
            linarith
        have e2 : ((k : ℤ) + 1) * ((i.choose (k + 1) : ℤ) * (s * P.coeff i)) = ((i : ℤ) - k) * (i.choose k : ℤ) * (s * P.coeff i) := by
          rw [← mul_assoc, e]
        rw [e2]
        have hcn : (0 : ℤ) ≤ (i.choose k : ℤ) := by positivity
        have h4 : 0 ≤ ((i : ℤ) - j) * (s * P.coeff i) := by
          rcases Nat.lt_or_ge i j with hi | hi
          · have := (hh i).2 hi
            have : ((i : ℤ) - j) < 0 := by omega
            nlinarith
          · have := (hh i).1 hi
            have : (0 : ℤ) ≤ ((i : ℤ) - j) := by omega
            positivity
        nlinarith [mul_nonneg hcn h4]
      have h5 : 0 ≤ ((j : ℤ) - k) * c k := mul_nonneg (by omega) hk
      have h6 : (0 : ℤ) ≤ (k + 1) * c (k + 1) := h5.trans key
      have h7 : (0 : ℤ) < (k : ℤ) + 1 := by omega
      exact nonneg_of_mul_nonneg_right h6 h7
    · rw [hck]
      refine Finset.sum_nonneg fun i _ => ?_
      rcases Nat.lt_or_ge i (k + 1) with hi | hi
      · rw [Nat.choose_eq_zero_of_lt hi]; simp
      · have := (hh i).1 (by omega)
        positivity
  by_cases hex : ∃ k, 0 ≤ c k
  · classical
    refine ⟨s, hs, Nat.find hex, fun i => ⟨fun hi => ?_, fun hi => ?_⟩⟩
    · have : 0 ≤ c i := by
        induction i, hi using Nat.le_induction with
        | base => exact Nat.find_spec hex
        | succ n _ ih => exact hstep n ih
      simpa [hc] using this
    · have := Nat.find_min hex hi
      rw [hc] at this
      simp only at this
      omega
  · push Not at hex
    refine ⟨-s, by rcases hs with rfl | rfl <;> simp, 0, fun i => ⟨fun _ => ?_, fun hi => by omega⟩⟩
    have := hex i
    rw [hc] at this
    simp only at this
    linarith

theorem One.shift2 {P : ℤ[X]} (h : One P) : One (P.comp (C 2 * X + 1)) := by
  obtain ⟨s, hs, j, hh⟩ := h.shift
  have e : P.comp (C 2 * X + 1) = (P.comp (X + 1)).comp (C 2 * X) := by rw [comp_assoc]; simp
  refine ⟨s, hs, j, fun i => ?_⟩
  rw [e, comp_C_mul_X_coeff]
  obtain ⟨h1, h2⟩ := hh i
  have hp : (0 : ℤ) < 2 ^ i := by positivity
  refine ⟨fun hi => ?_, fun hi => ?_⟩
  · have := h1 hi; rw [← mul_assoc]; positivity
  · have := h2 hi; rw [← mul_assoc]; exact mul_nonpos_of_nonpos_of_nonneg this hp.le

theorem One.reflect {P : ℤ[X]} (h : One P) {m : Nat} (hm : P.natDegree ≤ m) : One (reflect m P) := by
  obtain ⟨s, hs, j, hh⟩ := h
  refine ⟨-s, by rcases hs with rfl | rfl <;> simp, m + 1 - j, fun i => ?_⟩
  rw [coeff_reflect]
  rcases Nat.lt_or_ge m i with hi | hi
  · rw [revAt_eq_self_of_lt hi, coeff_eq_zero_of_natDegree_lt (by omega)]; simp
  · rw [revAt_le hi]
    obtain ⟨h1, h2⟩ := hh (m - i)
    refine ⟨fun hj => ?_, fun hj => ?_⟩
    · have := h2 (by omega); linarith
    · have := h1 (by omega); linarith

/-! ### the affine relation between a transformed polynomial and the original one -/

/-- `G` on the unit interval is `F` on `(a, a+h)`, up to a positive factor -/
def Sub (F : ℤ[X]) (a h : ℝ) (G : ℤ[X]) : Prop := ∃ c : ℝ, 0 < c ∧ ∀ x : ℝ, aeval x G = c * aeval (a + h * x) F

theorem Sub.map {F G : ℤ[X]} {a h c : ℝ} (hs : ∀ x : ℝ, aeval x G = c * aeval (a + h * x) F) :
    G.map (Int.castRingHom ℝ) = C c * (F.map (Int.castRingHom ℝ)).comp (C a + C h * X) := by
  apply Polynomial.funext
  intro x
  have := hs x
  rw [aeval_def, aeval_def] at this
  simp only [eval_map, eval_mul, eval_C, eval_comp, eval_add, eval_X]
  simpa using this

theorem Sub.natDegree {F G : ℤ[X]} {a h : ℝ} (hs : Sub F a h G) (hh : h ≠ 0) : G.natDegree = F.natDegree := by
  obtain ⟨c, hc, hs⟩ := hs
  have := congrArg Polynomial.natDegree (Sub.map hs)
  rw [natDegree_map_eq_of_injective Int.cast_injective, natDegree_C_mul hc.ne', natDegree_comp, natDegree_map_eq_of_injective Int.cast_injective,
    add_comm (C a), natDegree_linear hh, mul_one] at this
  exact this

theorem Sub.ne_zero {F G : ℤ[X]} {a h : ℝ} (hs : Sub F a h G) (hh : h ≠ 0) (h0 : F ≠ 0) : G ≠ 0 := by
  obtain ⟨c, hc, hs⟩ := hs
  rintro rfl
  have : F = 0 := by
    apply map_injective (Int.castRingHom ℝ) Int.cast_injective
    apply Polynomial.funext
    intro y
    have := hs ((y - a) / h)
    have e : a + h * ((y - a) / h) = y := by field_simp; ring
    rw [e] at this
    simp only [map_zero] at this
    have h2 := (mul_eq_zero.1 this.symm).resolve_left hc.ne'
    simpa [aeval_def, eval_map] using h2
  exact h0 this

theorem Sub.root {F G : ℤ[X]} {a h : ℝ} (hs : Sub F a h G) (x : ℝ) : aeval x G = 0 ↔ aeval (a + h * x) F = 0 := by
  obtain ⟨c, hc, hs⟩ := hs
  rw [hs x, mul_eq_zero]
  have := hc.ne'
  tauto

theorem Sub.coeff {F G : ℤ[X]} {a h c : ℝ} (hs : ∀ x : ℝ, aeval x G = c * aeval (a + h * x) F) (k : Nat) :
    (G.coeff k : ℝ) = c * ((taylor a (F.map (Int.castRingHom ℝ))).coeff k * h ^ k) := by
  have := congrArg (fun P => Polynomial.coeff P k) (Sub.map hs)
  simp only [coeff_map, coeff_C_mul] at this
  have e : (F.map (Int.castRingHom ℝ)).comp (C a + C h * X) = (taylor a (F.map (Int.castRingHom ℝ))).comp (C h * X) := by
    rw [taylor_apply, comp_assoc]; congr 1; simp [add_comm]
  rw [e, comp_C_mul_X_coeff] at this
  simpa using this

theorem Sub.left {F G G' : ℤ[X]} {a h : ℝ} (hs : Sub F a h G) (m : Nat) (h' : ∀ x : ℝ, aeval x G' = 2 ^ m * aeval (x / 2) G) : Sub F a (h / 2) G' := by
  obtain ⟨c, hc, hs⟩ := hs
  refine ⟨2 ^ m * c, by positivity, fun x => ?_⟩
  rw [h', hs, mul_assoc]
  congr 3; ring

theorem Sub.right {F G G' : ℤ[X]} {a h : ℝ} (hs : Sub F a h G) (m : Nat) (h' : ∀ x : ℝ, aeval x G' = 2 ^ m * aeval ((x + 1) / 2) G) :
    Sub F (a + h / 2) (h / 2) G' := by
  obtain ⟨c, hc, hs⟩ := hs
  refine ⟨2 ^ m * c, by positivity, fun x => ?_⟩
  rw [h', hs, mul_assoc]
  congr 3; ring

/-! ### the two halves of an interval with at most one variation -/

theorem vars_left {G G' : ℤ[X]} (h' : ∀ x : ℝ, aeval x G' = 2 ^ G.natDegree * aeval (x / 2) G) (hv : vars G ≤ 1) : vars G' ≤ 1 := by
  have hd : G'.natDegree = G.natDegree :=
    Sub.natDegree (a := 0) (h := 1 / 2) ⟨2 ^ G.natDegree, by positivity, fun x => by rw [h']; congr 2; ring⟩ (by norm_num)
  have e : G'.reverse.comp (X + 1) = (G.reverse.comp (X + 1)).comp (C 2 * X + 1) := by
    apply int_poly_ext
    intro x hx
    rw [inf_eval G' (by linarith), aeval_comp, h', hd]
    have e2 : aeval x (C 2 * X + 1 : ℤ[X]) = 2 * x + 1 := by rw [map_add, map_mul, aeval_C, aeval_X, map_one]; norm_num
    rw [e2, inf_eval G (by linarith), ← mul_assoc, ← mul_pow]
    have e3 : 2 * x + 1 + 1 = (x + 1) * 2 := by ring
    rw [e3]
    congr 2
    rw [mul_inv]; ring
  rw [vars, signVariations_le_one_iff, e]
  exact ((signVariations_le_one_iff _).1 hv).shift2

theorem natDegree_inf (G : ℤ[X]) : (G.reverse.comp (X + 1)).natDegree ≤ G.natDegree := by
  have h := natDegree_comp_le (p := G.reverse) (q := (X + 1 : ℤ[X]))
  have h1 : (X + 1 : ℤ[X]).natDegree = 1 := by simpa using natDegree_X_add_C (1 : ℤ)
  rw [h1, mul_one] at h
  exact h.trans (reverse_natDegree_le G)

theorem vars_right {G G' : ℤ[X]} (h' : ∀ x : ℝ, aeval x G' = 2 ^ G.natDegree * aeval ((x + 1) / 2) G) (hv : vars G ≤ 1) : vars G' ≤ 1 := by
  have hd : G'.natDegree = G.natDegree :=
    Sub.natDegree (a := 1 / 2) (h := 1 / 2) ⟨2 ^ G.natDegree, by positivity, fun x => by rw [h']; congr 2; ring⟩ (by norm_num)
  obtain ⟨m, hm⟩ : ∃ m, m = G.natDegree := ⟨_, rfl⟩
  have hm1 : (G.reverse.comp (X + 1)).natDegree ≤ m := hm ▸ natDegree_inf G
  have hm2 : (G'.reverse.comp (X + 1)).natDegree ≤ m := by rw [hm, ← hd]; exact natDegree_inf G'
  have e : reflect m (G'.reverse.comp (X + 1)) = (reflect m (G.reverse.comp (X + 1))).comp (C 2 * X + 1) := by
    apply int_poly_ext
    intro x hx
    have hx1 : 0 < x⁻¹ := by positivity
    have hx2 : 0 < (2 * x + 1)⁻¹ := by positivity
    have e2 : aeval x (C 2 * X + 1 : ℤ[X]) = 2 * x + 1 := by rw [map_add, map_mul, aeval_C, aeval_X, map_one]; norm_num
    rw [reflect_eval _ hm2 hx.ne', inf_eval G' (by linarith), h', hd, ← hm, aeval_comp, e2, reflect_eval _ hm1 (by linarith),
      inf_eval G (by linarith), ← hm, ← mul_assoc, ← mul_assoc, ← mul_assoc, ← mul_pow, ← mul_pow, ← mul_pow]
    congr 2
    · field_simp
      ring
    · congr 1
      field_simp
      ring
  have h1 := (((signVariations_le_one_iff _).1 hv).reflect hm1).shift2
  rw [← e] at h1
  have h2 : (reflect m (G'.reverse.comp (X + 1))).natDegree ≤ m := by
    rw [natDegree_le_iff_coeff_eq_zero]
    intro N hN
    rw [coeff_reflect, revAt_eq_self_of_lt hN, coeff_eq_zero_of_natDegree_lt (by omega)]
  have h3 := h1.reflect h2
  have e4 : reflect m (reflect m (G'.reverse.comp (X + 1))) = G'.reverse.comp (X + 1) := by
    ext i; rw [coeff_reflect, coeff_reflect, revAt_invol]
  rw [e4] at h3
  exact (signVariations_le_one_iff _).2 h3

/-! ### small intervals -/

theorem inf_coeff (G : ℤ[X]) (i : Nat) :
    (G.reverse.comp (X + 1)).coeff i = ∑ k ∈ Finset.range (G.natDegree + 1), G.coeff k * ((G.natDegree - k).choose i : ℤ) := by
  rw [shift_coeff _ (Nat.lt_succ_of_le (reverse_natDegree_le G)), ← Finset.sum_range_reflect]
  refine Finset.sum_congr rfl fun k hk => ?_
  have hk' : k ≤ G.natDegree := by simp at hk; omega
  have e : G.natDegree + 1 - 1 - k = G.natDegree - k := by omega
  rw [e, coeff_reverse, revAt_le (by omega), mul_comm]
  congr 2
  omega

theorem sgn_abs (x : ℤ) : ∃ s : ℤ, (s = 1 ∨ s = -1) ∧ s * x = |x| := by
  rcases le_total 0 x with h | h
  · exact ⟨1, Or.inl rfl, by rw [abs_of_nonneg h]; ring⟩
  · exact ⟨-1, Or.inr rfl, by rw [abs_of_nonpos h]; ring⟩

/-- a dominating term decides the sign of `Σ uₖ C(m-k, i)` -/
theorem dominate {u : Nat → ℤ} {m k0 : Nat} (hk : k0 ≤ m) {s : ℤ} (hs : s = 1 ∨ s = -1) (h0 : s * u k0 = |u k0|) (hz : ∀ k < k0, u k = 0)
    (h : ∑ k ∈ (Finset.range (m + 1)).erase k0, |u k| ≤ |u k0|) (i : Nat) :
    0 ≤ s * ∑ k ∈ Finset.range (m + 1), u k * ((m - k).choose i : ℤ) := by
  rw [← Finset.add_sum_erase _ _ (show k0 ∈ Finset.range (m + 1) by simp; omega), mul_add, ← mul_assoc, h0, Finset.mul_sum]
  have h1 : -(∑ k ∈ (Finset.range (m + 1)).erase k0, |u k|) * ((m - k0).choose i : ℤ) ≤ ∑ k ∈ (Finset.range (m + 1)).erase k0, s * (u k * ((m - k).choose i : ℤ)) := by
    rw [neg_mul, Finset.sum_mul, ← Finset.sum_neg_distrib]
    refine Finset.sum_le_sum fun k hk' => ?_
    simp only [Finset.mem_erase, Finset.mem_range] at hk'
    rcases Nat.lt_or_ge k k0 with hlt | hge
    · rw [hz k hlt]; simp
    · have h2 : ((m - k).choose i : ℤ) ≤ ((m - k0).choose i : ℤ) := by exact_mod_cast Nat.choose_le_choose i (by omega)
      have h3 : -|u k| ≤ s * u k := by
        have := neg_abs_le (s * u k)
        have e : |s * u k| = |u k| := by rcases hs with rfl | rfl <;> simp
        rwa [e] at this
      have h4 : (0 : ℤ) ≤ ((m - k).choose i : ℤ) := by positivity
      have h5 := abs_nonneg (u k)
      rw [← mul_assoc]
      nlinarith
  have h6 : (0 : ℤ) ≤ ((m - k0).choose i : ℤ) := by positivity
  nlinarith

theorem vars_small0 {G : ℤ[X]} (h : ∑ k ∈ (Finset.range (G.natDegree + 1)).erase 0, |G.coeff k| ≤ |G.coeff 0|) : vars G = 0 := by
  rw [vars, signVariations_zero_iff]
  obtain ⟨s, hs, h0⟩ := sgn_abs (G.coeff 0)
  refine ⟨s, hs, fun i => ?_⟩
  rw [inf_coeff]
  exact dominate (u := G.coeff) (Nat.zero_le _) hs h0 (by simp) h i

theorem inf_rec (G : ℤ[X]) (i : Nat) :
    ((G.natDegree : ℤ) - i) * (G.reverse.comp (X + 1)).coeff i - (i + 1) * (G.reverse.comp (X + 1)).coeff (i + 1) =
      ∑ k ∈ Finset.range (G.natDegree + 1), ((k : ℤ) * G.coeff k) * ((G.natDegree - k).choose i : ℤ) := by
  rw [inf_coeff, inf_coeff, Finset.mul_sum, Finset.mul_sum, ← Finset.sum_sub_distrib]
  refine Finset.sum_congr rfl fun k hk => ?_
  have hk' : k ≤ G.natDegree := by simp at hk; omega
  obtain ⟨n, hn⟩ : ∃ n, n = G.natDegree - k := ⟨_, rfl⟩
  rw [← hn]
  have hn' : (G.natDegree : ℤ) = n + k := by omega
  have e : ((i : ℤ) + 1) * (n.choose (i + 1) : ℤ) = ((n : ℤ) - i) * (n.choose i : ℤ) := by
    have := Nat.choose_succ_right_eq n i
    rcases Nat.lt_or_ge n i with hik | hik
    · rw [Nat.choose_eq_zero_of_lt hik, Nat.choose_eq_zero_of_lt (by omega)]; simp
    · have h2 : ((n - i : Nat) : ℤ) = (n : ℤ) - i := by omega
      rw [← h2]
      have h3 : ((n.choose (i + 1) * (i + 1) : Nat) : ℤ) = ((n.choose i * (n - i) : Nat) : ℤ) := by rw [this]
      push_cast at h3 ⊢
      linarith
  have e2 : ((i : ℤ) + 1) * (G.coeff k * (n.choose (i + 1) : ℤ)) = G.coeff k * (((n : ℤ) - i) * (n.choose i : ℤ)) := by rw [← e]; ring
  rw [e2, hn']
  ring

theorem vars_small1 {G : ℤ[X]} (h : ∑ k ∈ (Finset.range (G.natDegree + 1)).erase 1, |(k : ℤ) * G.coeff k| ≤ |G.coeff 1|) : vars G ≤ 1 := by
  by_cases hm : G.natDegree = 0
  · have : vars G = 0 := vars_small0 (by rw [hm]; simp)
    omega
  rw [vars, signVariations_le_one_iff]
  obtain ⟨s, hs, h0⟩ := sgn_abs (G.coeff 1)
  obtain ⟨q, hq⟩ : ∃ q : Nat → ℤ, q = fun i => s * (G.reverse.comp (X + 1)).coeff i := ⟨_, rfl⟩
  have hd : ∀ i : Nat, ((i : ℤ) + 1) * q (i + 1) ≤ ((G.natDegree : ℤ) - i) * q i := by
    intro i
    have h1 := dominate (u := fun k => (k : ℤ) * G.coeff k) (m := G.natDegree) (k0 := 1) (by omega) hs (by simpa using h0)
      (fun k hk => by obtain rfl : k = 0 := by omega
                      simp) (by simpa using h) i
    rw [← inf_rec] at h1
    rw [hq]
    simp only
    linarith
  have hzero : ∀ i, G.natDegree < i → q i = 0 := by
    intro i hi
    rw [hq]
    simp only
    rw [coeff_eq_zero_of_natDegree_lt (lt_of_le_of_lt (natDegree_inf G) hi), mul_zero]
  by_cases hex : ∃ i, q i < 0
  · classical
    refine ⟨-s, by rcases hs with rfl | rfl <;> simp, Nat.find hex, fun i => ⟨fun hi => ?_, fun hi => ?_⟩⟩
    · have : q i ≤ 0 ∧ (i ≤ G.natDegree → q i < 0) := by
        induction i, hi using Nat.le_induction with
        | base => exact ⟨(Nat.find_spec hex).le, fun _ => Nat.find_spec hex⟩
        | succ n _ ih =>
          rcases Nat.lt_or_ge G.natDegree (n + 1) with hlt | hge
          · exact ⟨(hzero _ hlt).le, fun h => by omega⟩
          · have h1 := ih.2 (by omega)
            have h2 := hd n
            have h3 : (0 : ℤ) < (G.natDegree : ℤ) - n := by omega
            have h4 : ((G.natDegree : ℤ) - n) * q n < 0 := mul_neg_of_pos_of_neg h3 h1
            have h5 : ((n : ℤ) + 1) * q (n + 1) < 0 := by linarith
            have h6 : q (n + 1) < 0 := by
              by_contra hc
              have : 0 ≤ ((n : ℤ) + 1) * q (n + 1) := mul_nonneg (by omega) (by omega)
              omega
            exact ⟨h6.le, fun _ => h6⟩
      have := this.1
      rw [hq] at this
      simp only at this
      linarith
    · have := Nat.find_min hex hi
      rw [hq] at this
      simp only at this
      linarith
  · push Not at hex
    refine ⟨s, hs, 0, fun i => ⟨fun _ => ?_, fun hi => by omega⟩⟩
    have := hex i
    rwa [hq] at this

/-- on every sufficiently small subinterval of `[0, W]` a polynomial without multiple root there has at most one variation -/
theorem eventually_small (F : ℤ[X]) (W : ℝ) (hW : 0 ≤ W)
    (hF : ∀ x : ℝ, 0 ≤ x → x ≤ W → aeval x F = 0 → aeval x (Polynomial.derivative F) ≠ 0) :
    ∃ δ : ℝ, 0 < δ ∧ ∀ a h : ℝ, 0 ≤ a → a ≤ W → 0 < h → h ≤ δ → ∀ G, Sub F a h G → vars G ≤ 1 := by
  obtain ⟨FR, hFR⟩ : ∃ FR : ℝ[X], FR = F.map (Int.castRingHom ℝ) := ⟨_, rfl⟩
  obtain ⟨m, hm⟩ : ∃ m, m = F.natDegree := ⟨_, rfl⟩
  have hcontk : ∀ k, Continuous fun a : ℝ => (taylor a FR).coeff k := by
    intro k
    simp only [taylor_coeff]
    exact (hasseDeriv k FR).continuous
  obtain ⟨Mf, hMf⟩ : ∃ Mf : ℝ → ℝ, Mf = fun a => ∑ k ∈ Finset.range (m + 1), ((k : ℝ) + 1) * |(taylor a FR).coeff k| := ⟨_, rfl⟩
  obtain ⟨Ef, hEf⟩ : ∃ Ef : ℝ → ℝ, Ef = fun a => max |(taylor a FR).coeff 0| |(taylor a FR).coeff 1| := ⟨_, rfl⟩
  have hMc : Continuous Mf := by
    rw [hMf]
    exact continuous_finset_sum _ fun k _ => continuous_const.mul (hcontk k).abs
  have hEc : Continuous Ef := by
    rw [hEf]
    exact (hcontk 0).abs.max (hcontk 1).abs
  have hne : (Set.Icc (0 : ℝ) W).Nonempty := ⟨0, le_rfl, hW⟩
  obtain ⟨a1, _, ha1⟩ := isCompact_Icc.exists_isMaxOn hne hMc.continuousOn
  obtain ⟨a2, ha2m, ha2⟩ := isCompact_Icc.exists_isMinOn hne hEc.continuousOn
  have hεpos : 0 < Ef a2 := by
    rw [hEf]
    simp only [taylor_coeff_zero, taylor_coeff_one]
    by_contra hcon
    push Not at hcon
    have h1 : |FR.eval a2| = 0 := le_antisymm ((le_max_left _ _).trans hcon) (abs_nonneg _)
    have h2 : |FR.derivative.eval a2| = 0 := le_antisymm ((le_max_right _ _).trans hcon) (abs_nonneg _)
    rw [abs_eq_zero] at h1 h2
    refine hF a2 ha2m.1 ha2m.2 ?_ ?_
    · rw [hFR, eval_map] at h1
      simpa [aeval_def] using h1
    · rw [hFR, derivative_map, eval_map] at h2
      simpa [aeval_def] using h2
  obtain ⟨M, hM⟩ : ∃ M, M = Mf a1 := ⟨_, rfl⟩
  obtain ⟨ε, hε⟩ : ∃ ε, ε = Ef a2 := ⟨_, rfl⟩
  rw [← hε] at hεpos
  have hMnn : ∀ a, 0 ≤ Mf a := by
    intro a; rw [hMf]; exact Finset.sum_nonneg fun k _ => by positivity
  have hM0 : 0 ≤ M := hM ▸ hMnn a1
  refine ⟨min 1 (ε / (M + 1)), lt_min one_pos (by positivity), ?_⟩
  intro a h ha0 haW hh hhδ G hs
  have hdeg := Sub.natDegree hs hh.ne'
  obtain ⟨c, hc, hs⟩ := hs
  have hco := Sub.coeff hs
  rw [← hFR] at hco
  have hh1 : h ≤ 1 := hhδ.trans (min_le_left _ _)
  have hhε : h * (M + 1) ≤ ε := by
    have := hhδ.trans (min_le_right _ _)
    rwa [le_div_iff₀ (by positivity)] at this
  have hMa : Mf a ≤ M := hM ▸ ha1 ⟨ha0, haW⟩
  have hEa : ε ≤ Ef a := hε ▸ ha2 ⟨ha0, haW⟩
  have hhM : h * Mf a ≤ ε := by nlinarith
  -- a sum of scaled coefficients is bounded by `Mf a`
  have hbound : ∀ (k0 : Nat) (w : Nat → ℝ), (∀ k, 0 ≤ w k ∧ w k ≤ (k : ℝ) + 1) → (∀ k < k0, w k = 0) →
      ∑ k ∈ (Finset.range (m + 1)).erase k0, w k * |c * ((taylor a FR).coeff k * h ^ k)| ≤ c * h ^ k0 * (h * Mf a) := by
    intro k0 w hw hz
    have h1 : ∀ k ∈ (Finset.range (m + 1)).erase k0, w k * |c * ((taylor a FR).coeff k * h ^ k)| ≤
        c * h ^ (k0 + 1) * (((k : ℝ) + 1) * |(taylor a FR).coeff k|) := by
      intro k hk
      simp only [Finset.mem_erase, Finset.mem_range] at hk
      rcases Nat.lt_or_ge k k0 with hlt | hge
      · rw [hz k hlt, zero_mul]; positivity
      · rw [abs_mul, abs_mul, abs_of_pos hc, abs_of_pos (show (0 : ℝ) < h ^ k by positivity)]
        have h2 : h ^ k ≤ h ^ (k0 + 1) := pow_le_pow_of_le_one hh.le hh1 (by omega)
        have h3 := (hw k).2
        have h4 := (hw k).1
        have h5 : w k * (c * (|(taylor a FR).coeff k| * h ^ k)) ≤ ((k : ℝ) + 1) * (c * (|(taylor a FR).coeff k| * h ^ (k0 + 1))) := by
          gcongr
        calc _ ≤ _ := h5
          _ = _ := by ring
    refine (Finset.sum_le_sum h1).trans ?_
    rw [← Finset.mul_sum]
    have h6 : ∑ k ∈ (Finset.range (m + 1)).erase k0, ((k : ℝ) + 1) * |(taylor a FR).coeff k| ≤ Mf a := by
      rw [hMf]
      exact Finset.sum_le_sum_of_subset_of_nonneg (Finset.erase_subset _ _) fun k _ _ => by positivity
    have h7 : 0 ≤ c * h ^ (k0 + 1) := by positivity
    calc _ ≤ c * h ^ (k0 + 1) * Mf a := by gcongr
      _ = _ := by ring
  have hEa' : ε ≤ max |(taylor a FR).coeff 0| |(taylor a FR).coeff 1| := by rw [hEf] at hEa; exact hEa
  rcases le_max_iff.1 hEa' with hcase | hcase
  · have : vars G = 0 := by
      apply vars_small0
      rw [hdeg, ← hm]
      have h1 := hbound 0 (fun _ => 1) (fun k => ⟨zero_le_one, by linarith [(Nat.cast_nonneg k : (0 : ℝ) ≤ k)]⟩) (by simp)
      have h2 : c * h ^ 0 * (h * Mf a) ≤ |c * ((taylor a FR).coeff 0 * h ^ 0)| := by
        rw [abs_mul, abs_of_pos hc, pow_zero, mul_one, mul_one]
        gcongr
        linarith
      have h3 := h1.trans h2
      simp only [one_mul] at h3
      have h4 : ((∑ k ∈ (Finset.range (m + 1)).erase 0, |G.coeff k| : ℤ) : ℝ) ≤ ((|G.coeff 0| : ℤ) : ℝ) := by
        push_cast
        rw [hco 0]
        calc _ = _ := Finset.sum_congr rfl fun k _ => by rw [hco k]
          _ ≤ _ := h3
      exact_mod_cast h4
    omega
  · apply vars_small1
    rw [hdeg, ← hm]
    have h1 := hbound 1 (fun k => k) (fun k => ⟨Nat.cast_nonneg k, by linarith⟩) (fun k hk => by
      obtain rfl : k = 0 := by omega
      simp)
    have h2 : c * h ^ 1 * (h * Mf a) ≤ |c * ((taylor a FR).coeff 1 * h ^ 1)| := by
      rw [abs_mul, abs_mul, abs_of_pos hc, abs_of_pos (show (0 : ℝ) < h ^ 1 by positivity), mul_assoc, mul_comm (|_|)]
      gcongr
      linarith
    have h3 := h1.trans h2
    have h4 : ((∑ k ∈ (Finset.range (m + 1)).erase 1, |(k : ℤ) * G.coeff k| : ℤ) : ℝ) ≤ ((|G.coeff 1| : ℤ) : ℝ) := by
      push_cast
      rw [hco 1]
      calc _ = _ := Finset.sum_congr rfl fun k _ => by rw [abs_mul, hco k, abs_of_nonneg (Nat.cast_nonneg k : (0 : ℝ) ≤ k)]
        _ ≤ _ := h3
    exact_mod_cast h4

end Upoly
end CLPoly
