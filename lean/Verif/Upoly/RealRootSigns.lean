import Verif.Upoly.RealRootPoly
import Mathlib.Algebra.Polynomial.Taylor
import Mathlib.Topology.Algebra.Polynomial
import Mathlib.Analysis.Real.Sqrt
import Mathlib.Topology.Order.IntermediateValue
import Mathlib.Algebra.Order.BigOperators.Ring.Finset

/-!
# Sign patterns: at most one sign variation, and what it says about positive roots
-/

namespace CLPoly
namespace Upoly
open Polynomial

/-- all coefficients have the same sign -/
def Same (P : ℤ[X]) : Prop := ∃ s : ℤ, (s = 1 ∨ s = -1) ∧ ∀ i, 0 ≤ s * P.coeff i
/-- the coefficients change their sign at most once -/
def One (P : ℤ[X]) : Prop := ∃ s : ℤ, (s = 1 ∨ s = -1) ∧ ∃ j, ∀ i, (j ≤ i → 0 ≤ s * P.coeff i) ∧ (i < j → s * P.coeff i ≤ 0)

theorem coeff_eraseLead {P : ℤ[X]} (i : Nat) : P.eraseLead.coeff i = if i = P.natDegree then 0 else P.coeff i := by
  rw [eraseLead_coeff]

theorem sgn_cases {s : ℤ} (hs : s = 1 ∨ s = -1) (x : ℤ) : 0 ≤ s * x ↔ (s = 1 ∧ 0 ≤ x ∨ s = -1 ∧ x ≤ 0) := by
  rcases hs with rfl | rfl <;> simp

theorem lt_of_erase {P : ℤ[X]} (h : P.eraseLead ≠ 0) : P.eraseLead.natDegree < P.natDegree := by
  have := eraseLead_natDegree_lt_or_eraseLead_eq_zero P
  tauto

theorem same_erase {P : ℤ[X]} {s : ℤ} (h : ∀ i, 0 ≤ s * P.coeff i) : ∀ i, 0 ≤ s * P.eraseLead.coeff i := by
  intro i; rw [coeff_eraseLead]; split
  · simp
  · exact h i

theorem sv_zero : ∀ (n : Nat) (P : ℤ[X]), P.support.card ≤ n → (P.signVariations = 0 ↔ Same P) := by
  intro n
  induction n with
  | zero =>
    intro P hP
    have : P = 0 := by simpa using hP
    subst this
    simp only [signVariations_zero, true_iff]
    exact ⟨1, Or.inl rfl, by simp⟩
  | succ n ih =>
    intro P hP
    by_cases h0 : P = 0
    · subst h0
      simp only [signVariations_zero, true_iff]
      exact ⟨1, Or.inl rfl, by simp⟩
    have hcard : P.eraseLead.support.card ≤ n := by
      have := eraseLead_support_card_lt h0
      omega
    have hl : P.leadingCoeff ≠ 0 := leadingCoeff_ne_zero.2 h0
    rw [signVariations_eq_eraseLead_add_ite h0]
    constructor
    · intro h
      obtain ⟨h1, h2⟩ := Nat.add_eq_zero_iff.1 h
      have hc : ¬ SignType.sign P.leadingCoeff = -SignType.sign P.eraseLead.leadingCoeff := by
        intro hc; rw [if_pos hc] at h2; omega
      by_cases hQ : P.eraseLead = 0
      · have hco : ∀ i, i ≠ P.natDegree → P.coeff i = 0 := by
          intro i hi
          have := coeff_eraseLead (P := P) i
          rw [if_neg hi, hQ] at this; simpa using this.symm
        rcases lt_or_gt_of_ne hl with hneg | hpos
        · refine ⟨-1, Or.inr rfl, fun i => ?_⟩
          by_cases hi : i = P.natDegree
          · subst hi; have : P.coeff P.natDegree < 0 := hneg; omega
          · simp [hco i hi]
        · refine ⟨1, Or.inl rfl, fun i => ?_⟩
          by_cases hi : i = P.natDegree
          · subst hi; have : 0 < P.coeff P.natDegree := hpos; omega
          · simp [hco i hi]
      obtain ⟨s, hs, hh⟩ := (ih _ hcard).1 h1
      refine ⟨s, hs, fun i => ?_⟩
      by_cases hi : i = P.natDegree
      · subst hi
        have hq : P.eraseLead.leadingCoeff ≠ 0 := leadingCoeff_ne_zero.2 hQ
        have := hh P.eraseLead.natDegree
        change 0 ≤ s * P.eraseLead.leadingCoeff at this
        change 0 ≤ s * P.leadingCoeff
        rcases hs with rfl | rfl
        · rcases lt_or_gt_of_ne hl with hneg | hpos
          · exfalso; apply hc; rw [sign_neg hneg, sign_pos (by omega)]
          · omega
        · rcases lt_or_gt_of_ne hl with hneg | hpos
          · omega
          · exfalso; apply hc; rw [sign_pos hpos, sign_neg (by omega)]; rfl
      · have := hh i
        rwa [coeff_eraseLead, if_neg hi] at this
    · rintro ⟨s, hs, hh⟩
      rw [(ih _ hcard).2 ⟨s, hs, same_erase hh⟩, zero_add, if_neg]
      intro hc
      have h1 := hh P.natDegree
      have h2 := same_erase hh P.eraseLead.natDegree
      change 0 ≤ s * P.leadingCoeff at h1
      change 0 ≤ s * P.eraseLead.leadingCoeff at h2
      rcases lt_trichotomy P.eraseLead.leadingCoeff 0 with hq | hq | hq
      · rw [sign_neg hq, neg_neg] at hc
        have := sign_eq_one_iff.1 hc
        rcases hs with rfl | rfl <;> omega
      · rw [hq, sign_zero, neg_zero] at hc
        exact hl (sign_eq_zero_iff.1 hc)
      · rw [sign_pos hq] at hc
        have := sign_eq_neg_one_iff.1 hc
        rcases hs with rfl | rfl <;> omega

theorem signVariations_zero_iff (P : ℤ[X]) : P.signVariations = 0 ↔ Same P := sv_zero _ P le_rfl

theorem Same.one {P : ℤ[X]} (h : Same P) : One P := by
  obtain ⟨s, hs, h⟩ := h
  exact ⟨s, hs, 0, fun i => ⟨fun _ => h i, fun hi => by omega⟩⟩

theorem one_erase {P : ℤ[X]} {s : ℤ} {j : Nat} (h : ∀ i, (j ≤ i → 0 ≤ s * P.coeff i) ∧ (i < j → s * P.coeff i ≤ 0)) :
    ∀ i, (j ≤ i → 0 ≤ s * P.eraseLead.coeff i) ∧ (i < j → s * P.eraseLead.coeff i ≤ 0) := by
  intro i; rw [coeff_eraseLead]; split
  · simp
  · exact h i

theorem sv_one : ∀ (n : Nat) (P : ℤ[X]), P.support.card ≤ n → (P.signVariations ≤ 1 ↔ One P) := by
  intro n
  induction n with
  | zero =>
    intro P hP
    have : P = 0 := by simpa using hP
    subst this
    simp only [signVariations_zero, zero_le, true_iff]
    exact ⟨1, Or.inl rfl, 0, by simp⟩
  | succ n ih =>
    intro P hP
    by_cases h0 : P = 0
    · subst h0
      simp only [signVariations_zero, zero_le, true_iff]
      exact ⟨1, Or.inl rfl, 0, by simp⟩
    have hcard : P.eraseLead.support.card ≤ n := by
      have := eraseLead_support_card_lt h0
      omega
    have hl : P.leadingCoeff ≠ 0 := leadingCoeff_ne_zero.2 h0
    constructor
    · intro h
      by_cases hV0 : P.signVariations = 0
      · exact ((signVariations_zero_iff P).1 hV0).one
      have hV1 : P.signVariations = 1 := by omega
      rw [signVariations_eq_eraseLead_add_ite h0] at hV1
      have hQ : P.eraseLead ≠ 0 := by
        intro hQ
        rw [hQ] at hV1
        simp only [signVariations_zero, leadingCoeff_zero, sign_zero, neg_zero] at hV1
        rw [if_neg (by simpa using h0)] at hV1
        omega
      have hq : P.eraseLead.leadingCoeff ≠ 0 := leadingCoeff_ne_zero.2 hQ
      have hdeg := lt_of_erase hQ
      by_cases hc : SignType.sign P.leadingCoeff = -SignType.sign P.eraseLead.leadingCoeff
      · rw [if_pos hc] at hV1
        obtain ⟨s, hs, hh⟩ := (signVariations_zero_iff _).1 (show P.eraseLead.signVariations = 0 by omega)
        refine ⟨-s, by rcases hs with rfl | rfl <;> simp, P.natDegree, fun i => ⟨fun hi => ?_, fun hi => ?_⟩⟩
        · rcases Nat.lt_or_ge P.natDegree i with hlt | hge
          · rw [coeff_eq_zero_of_natDegree_lt hlt]; simp
          · obtain rfl : i = P.natDegree := le_antisymm hge hi
            have h2 := hh P.eraseLead.natDegree
            change 0 ≤ s * P.eraseLead.leadingCoeff at h2
            change 0 ≤ -s * P.leadingCoeff
            rcases lt_or_gt_of_ne hq with hq' | hq'
            · rw [sign_neg hq', neg_neg] at hc
              have := sign_eq_one_iff.1 hc
              rcases hs with rfl | rfl <;> omega
            · rw [sign_pos hq'] at hc
              have := sign_eq_neg_one_iff.1 hc
              rcases hs with rfl | rfl <;> omega
        · have := hh i
          rw [coeff_eraseLead, if_neg (by omega)] at this
          linarith
      · rw [if_neg hc] at hV1
        obtain ⟨s, hs, j, hh⟩ := (ih _ hcard).1 (show P.eraseLead.signVariations ≤ 1 by omega)
        by_cases hj : j ≤ P.eraseLead.natDegree
        · refine ⟨s, hs, j, fun i => ?_⟩
          by_cases hi : i = P.natDegree
          · subst hi
            refine ⟨fun _ => ?_, fun h => by omega⟩
            have h2 := (hh P.eraseLead.natDegree).1 hj
            change 0 ≤ s * P.eraseLead.leadingCoeff at h2
            change 0 ≤ s * P.leadingCoeff
            rcases hs with rfl | rfl
            · rcases lt_or_gt_of_ne hl with hneg | hpos
              · exfalso; apply hc; rw [sign_neg hneg, sign_pos (by omega)]
              · omega
            · rcases lt_or_gt_of_ne hl with hneg | hpos
              · omega
              · exfalso; apply hc; rw [sign_pos hpos, sign_neg (by omega)]; rfl
          · have := hh i
            rwa [coeff_eraseLead, if_neg hi] at this
        · exfalso
          have : P.eraseLead.signVariations = 0 := by
            rw [signVariations_zero_iff]
            refine ⟨-s, by rcases hs with rfl | rfl <;> simp, fun i => ?_⟩
            rcases Nat.lt_or_ge P.eraseLead.natDegree i with hlt | hge
            · rw [coeff_eq_zero_of_natDegree_lt hlt]; simp
            · have := (hh i).2 (by omega)
              linarith
          omega
    · rintro ⟨s, hs, j, hh⟩
      rw [signVariations_eq_eraseLead_add_ite h0]
      have h1 := (ih _ hcard).2 ⟨s, hs, j, one_erase hh⟩
      by_cases hc : SignType.sign P.leadingCoeff = -SignType.sign P.eraseLead.leadingCoeff
      · rw [if_pos hc]
        suffices P.eraseLead.signVariations = 0 by omega
        rw [signVariations_zero_iff]
        by_cases hQ : P.eraseLead = 0
        · rw [hQ]; exact ⟨1, Or.inl rfl, by simp⟩
        have hdeg := lt_of_erase hQ
        have hq : P.eraseLead.leadingCoeff ≠ 0 := leadingCoeff_ne_zero.2 hQ
        by_cases hj : j ≤ P.eraseLead.natDegree
        · exfalso
          have h2 := (one_erase hh P.eraseLead.natDegree).1 hj
          have h3 := (hh P.natDegree).1 (by omega)
          change 0 ≤ s * P.eraseLead.leadingCoeff at h2
          change 0 ≤ s * P.leadingCoeff at h3
          rcases lt_or_gt_of_ne hq with hq' | hq'
          · rw [sign_neg hq', neg_neg] at hc
            have := sign_eq_one_iff.1 hc
            rcases hs with rfl | rfl <;> omega
          · rw [sign_pos hq'] at hc
            have := sign_eq_neg_one_iff.1 hc
            rcases hs with rfl | rfl <;> omega
        · refine ⟨-s, by rcases hs with rfl | rfl <;> simp, fun i => ?_⟩
          rcases Nat.lt_or_ge P.eraseLead.natDegree i with hlt | hge
          · rw [coeff_eq_zero_of_natDegree_lt hlt]; simp
          · have := (one_erase hh i).2 (by omega)
            linarith
      · rw [if_neg hc]; omega

theorem signVariations_le_one_iff (P : ℤ[X]) : P.signVariations ≤ 1 ↔ One P := sv_one _ P le_rfl

/-! ### positive roots -/

theorem aeval_sum (P : ℤ[X]) (x : ℝ) : aeval x P = ∑ i ∈ Finset.range (P.natDegree + 1), (P.coeff i : ℝ) * x ^ i := by
  rw [aeval_eq_sum_range]; simp

theorem sgn_real {s : ℤ} (hs : s = 1 ∨ s = -1) : (s : ℝ) ≠ 0 := by rcases hs with rfl | rfl <;> simp

theorem Same.no_root {P : ℤ[X]} (h : Same P) (h0 : P ≠ 0) {x : ℝ} (hx : 0 < x) : aeval x P ≠ 0 := by
  obtain ⟨s, hs, hh⟩ := h
  intro hr
  have hnn : ∀ i ∈ Finset.range (P.natDegree + 1), 0 ≤ (s : ℝ) * ((P.coeff i : ℝ) * x ^ i) := by
    intro i _
    have : (0 : ℝ) ≤ (s : ℝ) * (P.coeff i : ℝ) := by exact_mod_cast hh i
    rw [← mul_assoc]; positivity
  have hsum : ∑ i ∈ Finset.range (P.natDegree + 1), (s : ℝ) * ((P.coeff i : ℝ) * x ^ i) = 0 := by
    rw [← Finset.mul_sum, ← aeval_sum, hr, mul_zero]
  have := (Finset.sum_eq_zero_iff_of_nonneg hnn).1 hsum P.natDegree (by simp)
  have hl : (P.coeff P.natDegree : ℝ) ≠ 0 := by exact_mod_cast leadingCoeff_ne_zero.2 h0
  have hs' := sgn_real hs
  have : (s : ℝ) * ((P.coeff P.natDegree : ℝ) * x ^ P.natDegree) ≠ 0 := by positivity
  contradiction

theorem One.unique {P : ℤ[X]} (h : One P) (h0 : P ≠ 0) {x y : ℝ} (hx : 0 < x) (hxy : x < y) (h1 : aeval x P = 0) (h2 : aeval y P = 0) : False := by
  obtain ⟨s, hs, j, hh⟩ := h
  have hs' := sgn_real hs
  have hy : 0 < y := hx.trans hxy
  obtain ⟨r, hr⟩ : ∃ r, r = y / x := ⟨_, rfl⟩
  have hr1 : 1 < r := by rw [hr, lt_div_iff₀ hx]; linarith
  have hyr : y = r * x := by rw [hr]; field_simp
  have hnn : ∀ i ∈ Finset.range (P.natDegree + 1), 0 ≤ (s : ℝ) * (P.coeff i : ℝ) * x ^ i * (r ^ i - r ^ j) := by
    intro i _
    rcases Nat.lt_or_ge i j with hi | hi
    · have hc : (s : ℝ) * (P.coeff i : ℝ) ≤ 0 := by exact_mod_cast (hh i).2 hi
      have : r ^ i ≤ r ^ j := pow_le_pow_right₀ hr1.le hi.le
      have h3 : (s : ℝ) * (P.coeff i : ℝ) * x ^ i ≤ 0 := mul_nonpos_of_nonpos_of_nonneg hc (by positivity)
      nlinarith
    · have hc : 0 ≤ (s : ℝ) * (P.coeff i : ℝ) := by exact_mod_cast (hh i).1 hi
      have : r ^ j ≤ r ^ i := pow_le_pow_right₀ hr1.le hi
      have : 0 ≤ r ^ i - r ^ j := by linarith
      positivity
  have hsum : ∑ i ∈ Finset.range (P.natDegree + 1), (s : ℝ) * (P.coeff i : ℝ) * x ^ i * (r ^ i - r ^ j) = 0 := by
    have e1 : ∀ i, (s : ℝ) * (P.coeff i : ℝ) * x ^ i * (r ^ i - r ^ j) = s * ((P.coeff i : ℝ) * y ^ i) - s * r ^ j * ((P.coeff i : ℝ) * x ^ i) := by
      intro i; rw [hyr, mul_pow]; ring
    simp only [e1]
    rw [Finset.sum_sub_distrib, ← Finset.mul_sum, ← Finset.mul_sum, ← aeval_sum, ← aeval_sum, h1, h2]; simp
  have hall := (Finset.sum_eq_zero_iff_of_nonneg hnn).1 hsum
  have hco : ∀ i, i ≠ j → P.coeff i = 0 := by
    intro i hi
    rcases Nat.lt_or_ge P.natDegree i with hlt | hge
    · exact coeff_eq_zero_of_natDegree_lt hlt
    have := hall i (by simp; omega)
    have hne : r ^ i - r ^ j ≠ 0 := by
      intro h
      have := pow_right_injective₀ (by linarith : (0 : ℝ) < r) hr1.ne' (show r ^ i = r ^ j by linarith)
      exact hi this
    have hx' : x ^ i ≠ 0 := by positivity
    have : (P.coeff i : ℝ) = 0 := by
      rcases mul_eq_zero.1 this with h | h
      · rcases mul_eq_zero.1 h with h | h
        · rcases mul_eq_zero.1 h with h | h
          · exact absurd h hs'
          · exact h
        · exact absurd h hx'
      · exact absurd h hne
    exact_mod_cast this
  have hP : P = monomial j (P.coeff j) := by
    ext i
    rw [coeff_monomial]
    split
    · rename_i h; rw [h]
    · rename_i h; exact hco i (fun e => h e.symm)
  have hcj : P.coeff j ≠ 0 := by
    intro h; apply h0; rw [hP, h]; simp
  rw [hP, aeval_monomial] at h1
  have hcj' : (P.coeff j : ℝ) ≠ 0 := by exact_mod_cast hcj
  have : x ^ j ≠ 0 := by positivity
  simp at h1
  rcases h1 with h1 | h1
  · exact hcj h1
  · exact hx.ne' h1.1

theorem exists_root_of_one {P : ℤ[X]} (h : P.signVariations = 1) : ∃ x : ℝ, 0 < x ∧ aeval x P = 0 := by
  obtain ⟨s, hs, j, hh⟩ := (signVariations_le_one_iff P).1 h.le
  have hns : ¬ Same P := fun hc => by rw [(signVariations_zero_iff P).2 hc] at h; omega
  have hs' := sgn_real hs
  have hk : ∃ k, j ≤ k ∧ 0 < s * P.coeff k := by
    by_contra hcon
    push Not at hcon
    apply hns
    refine ⟨-s, by rcases hs with rfl | rfl <;> simp, fun i => ?_⟩
    rcases Nat.lt_or_ge i j with hi | hi
    · have := (hh i).2 hi; linarith
    · have := hcon i hi; linarith
  have hl : ∃ l, l < j ∧ s * P.coeff l < 0 := by
    by_contra hcon
    push Not at hcon
    apply hns
    refine ⟨s, hs, fun i => ?_⟩
    rcases Nat.lt_or_ge i j with hi | hi
    · exact hcon i hi
    · exact (hh i).1 hi
  obtain ⟨k, hjk, hk⟩ := hk
  obtain ⟨l, hlj, hl⟩ := hl
  have hkn : k ≤ P.natDegree := by
    by_contra hc
    rw [coeff_eq_zero_of_natDegree_lt (by omega)] at hk; simp at hk
  obtain ⟨S, hS⟩ : ∃ S : ℝ, S = ∑ i ∈ Finset.range (P.natDegree + 1), |(P.coeff i : ℝ)| + 1 := ⟨_, rfl⟩
  have hS1 : 1 ≤ S := by
    rw [hS]; have : 0 ≤ ∑ i ∈ Finset.range (P.natDegree + 1), |(P.coeff i : ℝ)| := Finset.sum_nonneg fun _ _ => abs_nonneg _
    linarith
  have habs : ∀ i, |(s : ℝ) * (P.coeff i : ℝ)| = |(P.coeff i : ℝ)| := by
    intro i; rcases hs with rfl | rfl <;> simp
  obtain ⟨f, hf⟩ : ∃ f : ℝ → ℝ, f = fun x : ℝ => (s : ℝ) * aeval x P := ⟨_, rfl⟩
  have hfs : ∀ x, f x = ∑ i ∈ Finset.range (P.natDegree + 1), (s : ℝ) * (P.coeff i : ℝ) * x ^ i := by
    intro x; rw [hf]; simp only [aeval_sum, Finset.mul_sum]; exact Finset.sum_congr rfl fun i _ => by ring
  obtain ⟨j', rfl⟩ : ∃ j', j = j' + 1 := ⟨j - 1, by omega⟩
  -- large argument
  have hbig : 0 < f (S + 1) := by
    obtain ⟨x, hx⟩ : ∃ x : ℝ, x = S + 1 := ⟨_, rfl⟩
    rw [← hx, hfs]
    have hx1 : 1 ≤ x := by linarith
    -- each term is at least -|c_i| x^j', and term k is at least x^(j'+1)
    have hterm : ∀ i ∈ Finset.range (P.natDegree + 1), -(|(P.coeff i : ℝ)| * x ^ j') + (if i = k then x ^ (j' + 1) else 0) ≤ (s : ℝ) * (P.coeff i : ℝ) * x ^ i := by
      intro i _
      have hp : 0 ≤ |(P.coeff i : ℝ)| * x ^ j' := by positivity
      split
      · rename_i he
        subst he
        have h1 : (1 : ℝ) ≤ (s : ℝ) * (P.coeff i : ℝ) := by exact_mod_cast hk
        have h2 : x ^ (j' + 1) ≤ x ^ i := pow_le_pow_right₀ hx1 hjk
        have h3 : 0 < x ^ i := by positivity
        nlinarith
      · rcases Nat.lt_or_ge i (j' + 1) with hi | hi
        · have h2 : x ^ i ≤ x ^ j' := pow_le_pow_right₀ hx1 (by omega)
          have h3 : 0 < x ^ i := by positivity
          have h4 := neg_abs_le ((s : ℝ) * (P.coeff i : ℝ))
          rw [habs] at h4
          have h5 := abs_nonneg (P.coeff i : ℝ)
          nlinarith
        · have hc : 0 ≤ (s : ℝ) * (P.coeff i : ℝ) := by exact_mod_cast (hh i).1 hi
          have : 0 ≤ (s : ℝ) * (P.coeff i : ℝ) * x ^ i := by positivity
          linarith
    have := Finset.sum_le_sum hterm
    rw [Finset.sum_add_distrib, Finset.sum_neg_distrib, ← Finset.sum_mul, Finset.sum_ite_eq' _ _ _, if_pos (by simp; omega)] at this
    have h6 : 0 < x ^ j' := by positivity
    have h7 : x ^ (j' + 1) = x * x ^ j' := by ring
    have h8 : ∑ i ∈ Finset.range (P.natDegree + 1), |(P.coeff i : ℝ)| = x - 2 := by linarith
    rw [h8, h7] at this
    nlinarith
  have hsmall : f (1 / (S + 1)) < 0 := by
    obtain ⟨x, hx⟩ : ∃ x : ℝ, x = 1 / (S + 1) := ⟨_, rfl⟩
    rw [← hx, hfs]
    have hx0 : 0 < x := by rw [hx]; positivity
    have hx1 : x ≤ 1 := by rw [hx, div_le_one (by linarith)]; linarith
    have hSx : (S + 1) * x = 1 := by rw [hx]; field_simp
    have hterm : ∀ i ∈ Finset.range (P.natDegree + 1), (s : ℝ) * (P.coeff i : ℝ) * x ^ i ≤ (|(P.coeff i : ℝ)| * x ^ (j' + 1)) - (if i = l then x ^ j' else 0) := by
      intro i _
      have hp : 0 ≤ |(P.coeff i : ℝ)| * x ^ (j' + 1) := by positivity
      split
      · rename_i he
        subst he
        have h1 : (s : ℝ) * (P.coeff i : ℝ) ≤ -1 := by exact_mod_cast Int.le_sub_one_of_lt hl
        have h2 : x ^ j' ≤ x ^ i := pow_le_pow_of_le_one hx0.le hx1 (by omega)
        have h3 : 0 < x ^ i := by positivity
        nlinarith
      · rcases Nat.lt_or_ge i (j' + 1) with hi | hi
        · have hc : (s : ℝ) * (P.coeff i : ℝ) ≤ 0 := by exact_mod_cast (hh i).2 hi
          have : (s : ℝ) * (P.coeff i : ℝ) * x ^ i ≤ 0 := mul_nonpos_of_nonpos_of_nonneg hc (by positivity)
          linarith
        · have h2 : x ^ i ≤ x ^ (j' + 1) := pow_le_pow_of_le_one hx0.le hx1 hi
          have h3 : 0 < x ^ i := by positivity
          have h4 := le_abs_self ((s : ℝ) * (P.coeff i : ℝ))
          rw [habs] at h4
          have h5 := abs_nonneg (P.coeff i : ℝ)
          nlinarith
    have := Finset.sum_le_sum hterm
    rw [Finset.sum_sub_distrib, ← Finset.sum_mul, Finset.sum_ite_eq' _ _ _, if_pos (by simp; omega)] at this
    have h6 : 0 < x ^ j' := by positivity
    have h7 : x ^ (j' + 1) = x * x ^ j' := by ring
    have h8 : ∑ i ∈ Finset.range (P.natDegree + 1), |(P.coeff i : ℝ)| = S - 1 := by linarith
    rw [h8, h7] at this
    have : (S - 1) * (x * x ^ j') - x ^ j' = ((S - 1) * x - 1) * x ^ j' := by ring
    have h9 : (S - 1) * x - 1 < 0 := by nlinarith
    nlinarith
  have hcont : Continuous f := by
    rw [hf]
    exact continuous_const.mul (P.continuous_aeval)
  have hle : 1 / (S + 1) ≤ S + 1 := by
    rw [div_le_iff₀ (by linarith)]; nlinarith
  obtain ⟨x, hx, hx0⟩ := intermediate_value_Icc hle hcont.continuousOn (show (0 : ℝ) ∈ Set.Icc (f (1 / (S + 1))) (f (S + 1)) from ⟨hsmall.le, hbig.le⟩)
  refine ⟨x, lt_of_lt_of_le (by positivity) hx.1, ?_⟩
  rw [hf] at hx0
  exact (mul_eq_zero.1 hx0).resolve_left hs'

end Upoly
end CLPoly
