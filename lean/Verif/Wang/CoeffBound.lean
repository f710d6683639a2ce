import Verif.Wang.LiftDefs
import Verif.Upoly.FactorZArith
import Verif.Gcd.Lists
import Verif.Factor.Wrap

/-! # `__mtshl_coeff_bound`: Mignotte's bound from the largest coefficient -/

namespace CLPoly
namespace Mtshl
open Mono Mgcd Upoly MvPolynomial

theorem choose_sq_even : ∀ k : ℕ, ((2 * k).choose k) ^ 2 * (2 * k + 1) ≤ 16 ^ k
  | 0 => by simp
  | k + 1 => by
    have ih := choose_sq_even k
    have h : (k + 1) * (2 * (k + 1)).choose (k + 1) = 2 * (2 * k + 1) * (2 * k).choose k := by
      have := Nat.succ_mul_centralBinom_succ k
      simpa only [Nat.centralBinom] using this
    have h2 : ((k + 1) * (2 * (k + 1)).choose (k + 1)) ^ 2 = (2 * (2 * k + 1) * (2 * k).choose k) ^ 2 := by rw [h]
    generalize (2 * (k + 1)).choose (k + 1) = a at *
    generalize (2 * k).choose k = b at *
    have : (k + 1) ^ 2 * (a ^ 2 * (2 * (k + 1) + 1)) ≤ (k + 1) ^ 2 * 16 ^ (k + 1) := by
      calc (k + 1) ^ 2 * (a ^ 2 * (2 * (k + 1) + 1)) = (4 * (2 * k + 1) * (2 * k + 3)) * (b ^ 2 * (2 * k + 1)) := by linear_combination (2 * k + 3) * h2
        _ ≤ (16 * (k + 1) ^ 2) * 16 ^ k := Nat.mul_le_mul (by nlinarith) ih
        _ = (k + 1) ^ 2 * 16 ^ (k + 1) := by ring
    exact Nat.le_of_mul_le_mul_left this (by positivity)

theorem choose_half_sq (d : ℕ) : (d.choose (d / 2)) ^ 2 * (d + 1) ≤ 4 ^ d := by
  rcases Nat.even_or_odd' d with ⟨k, rfl | rfl⟩
  · rw [Nat.mul_div_cancel_left _ (by norm_num)]
    exact (choose_sq_even k).trans_eq (by rw [pow_mul]; norm_num)
  · rw [show (2 * k + 1) / 2 = k by omega]
    have h := choose_sq_even (k + 1)
    have h2 : (2 * (k + 1)).choose (k + 1) = 2 * (2 * k + 1).choose k := by
      rw [show 2 * (k + 1) = 2 * k + 1 + 1 by ring, Nat.choose_succ_succ, Nat.choose_symm_half]; ring
    rw [h2] at h
    have e : (16 : ℕ) ^ (k + 1) = 4 * 4 ^ (2 * k + 1) := by rw [show (16 : ℕ) = 4 ^ 2 by norm_num, ← pow_mul]; ring
    rw [e] at h
    nlinarith

/-- Mignotte's bound from the largest coefficient -/
theorem mignotte_max {F G : Polynomial ℤ} (F0 : F ≠ 0) (hG : G ∣ F) {m : ℤ} (hm : ∀ i, |F.coeff i| ≤ m) (i : ℕ) : |G.coeff i| ≤ m * 2 ^ (F.natDegree + 1) := by
  have m1 : 1 ≤ m := by
    have h1 : F.leadingCoeff ≠ 0 := Polynomial.leadingCoeff_ne_zero.2 F0
    have := hm F.natDegree
    have h2 : 0 < |F.coeff F.natDegree| := abs_pos.2 h1
    omega
  obtain ⟨d, hd⟩ : ∃ d, d = F.natDegree := ⟨_, rfl⟩
  rw [← hd]
  obtain ⟨M, rfl⟩ : ∃ M : ℕ, m = M := ⟨m.toNat, (Int.toNat_of_nonneg (by omega)).symm⟩
  obtain ⟨N, hN⟩ : ∃ N, N = (d + 1) * M ^ 2 := ⟨_, rfl⟩
  have N1 : 1 ≤ N := by
    rw [hN]
    have : 1 ≤ M := by exact_mod_cast m1
    exact Nat.one_le_iff_ne_zero.2 (by positivity)
  have s1 : 1 ≤ Nat.sqrt N := Nat.le_sqrt.2 (by simpa using N1)
  have s2 := Nat.sqrt_le N
  have s3 := Nat.lt_succ_sqrt N
  have hsum : ∑ i ∈ F.support, F.coeff i ^ 2 ≤ ((Nat.sqrt N + 1 : ℕ) : ℤ) * ((Nat.sqrt N + 1 : ℕ) : ℤ) := by
    calc ∑ i ∈ F.support, F.coeff i ^ 2 ≤ ∑ i ∈ Finset.range (d + 1), F.coeff i ^ 2 :=
          Finset.sum_le_sum_of_subset_of_nonneg (fun i hi => Finset.mem_range.2 (by
            have := Polynomial.le_natDegree_of_mem_supp i hi
            omega)) fun _ _ _ => sq_nonneg _
      _ ≤ ∑ _i ∈ Finset.range (d + 1), (M : ℤ) ^ 2 := Finset.sum_le_sum fun i _ => sq_le_sq' (abs_le.1 (hm i)).1 (abs_le.1 (hm i)).2
      _ = (N : ℤ) := by rw [Finset.sum_const, Finset.card_range, hN]; simp
      _ ≤ _ := by exact_mod_cast s3.le
  have key := mignotte_aux F0 hG (by positivity) hsum i
  rw [← hd] at key
  refine key.trans ?_
  have hc := choose_half_sq d
  have : d.choose (d / 2) * (Nat.sqrt N + 1) ≤ M * 2 ^ (d + 1) := by
    refine (Nat.pow_le_pow_iff_left (n := 2) (by norm_num)).1 ?_
    calc (d.choose (d / 2) * (Nat.sqrt N + 1)) ^ 2 ≤ (d.choose (d / 2)) ^ 2 * (4 * N) := by
          rw [mul_pow]
          exact Nat.mul_le_mul_left _ (by nlinarith)
      _ = 4 * M ^ 2 * ((d.choose (d / 2)) ^ 2 * (d + 1)) := by rw [hN]; ring
      _ ≤ 4 * M ^ 2 * 4 ^ d := Nat.mul_le_mul_left _ hc
      _ = (M * 2 ^ (d + 1)) ^ 2 := by rw [mul_pow, ← pow_mul, mul_comm (d + 1) 2, pow_mul]; ring
  exact_mod_cast this

theorem foldl_max_le (l : PV Mono ℤ) : ∀ m : ℤ, m ≤ l.foldl (fun m t => max m |t.2|) m ∧ ∀ t ∈ l, |t.2| ≤ l.foldl (fun m t => max m |t.2|) m := by
  induction l with
  | nil => exact fun m => ⟨le_refl _, by simp⟩
  | cons t l ih =>
    intro m
    rw [List.foldl_cons]
    obtain ⟨h1, h2⟩ := ih (max m |t.2|)
    refine ⟨(le_max_left _ _).trans h1, fun s hs => ?_⟩
    rcases List.mem_cons.1 hs with rfl | hs
    · exact (le_max_right _ _).trans h1
    · exact h2 s hs

theorem ret_coeff {x : Var} {f : MvPolynomial Var ℤ} (h : f.vars ⊆ {x}) (i : ℕ) : (Factor.ret f).coeff i = coeff (Finsupp.single x i) f := by
  conv_rhs => rw [← Factor.emb_ret h]
  generalize Factor.ret f = F
  induction F using Polynomial.induction_on' with
  | add p q hp hq => rw [map_add, coeff_add, Polynomial.coeff_add, hp, hq]
  | monomial k c =>
    rw [Factor.emb_monomial, coeff_monomial, Polynomial.coeff_monomial]
    by_cases e : k = i
    · rw [if_pos e, if_pos (by rw [e])]
    · rw [if_neg e, if_neg fun h => e (Finsupp.single_injective x h)]

variable {vc : Var → Var → Bool}

theorem coeffBound_one (ho : VarOrd vc) {f : PV Mono ℤ} (hf : PolyOK vc (lexGt vc) f) {x : Var} (hx : (val f).vars ⊆ {x}) (h0 : val f ≠ 0) {g : MvPolynomial Var ℤ} (hg : g ∣ val f) (s : Var →₀ ℕ) : |coeff s g| ≤ coeffBound f := by
  have M := lex_ord ho
  have hgv : g.vars ⊆ {x} := (vars_of_dvd hg h0).trans hx
  have hF0 : Factor.ret (val f) ≠ 0 := fun z => h0 (by rw [← Factor.emb_ret hx, z, map_zero])
  have hco : ∀ i, |(Factor.ret (val f)).coeff i| ≤ f.foldl (fun m t => max m |t.2|) 0 := fun i => by
    rw [ret_coeff hx]
    by_cases hz : coeff (Finsupp.single x i) (val f) = 0
    · rw [hz, abs_zero]; exact (foldl_max_le f 0).1
    · obtain ⟨t, ht, e⟩ := (hf.mem_support M).1 (mem_support_iff.2 hz)
      rw [← e, hf.coeff_mem M ht]
      exact (foldl_max_le f 0).2 t ht
  have hdeg : (Factor.ret (val f)).natDegree + 1 ≤ (pFirstDeg f + 1).toNat := by
    have h1 := Factor.ret_natDegree x hx (le_refl _)
    rcases Nat.eq_zero_or_pos ((val f).degreeOf x) with hz | hz
    · have : 0 ≤ pFirstDeg f := by
        cases f with
        | nil => exact le_refl _
        | cons t l =>
          show 0 ≤ firstDeg t.1
          unfold firstDeg
          cases e : t.1.data with
          | nil => exact le_refl _
          | cons y l' => exact ((hf.monos t (by simp)).pos y (by rw [e]; simp)).le
      omega
    · have := firstDeg_eq ho (v := x) (V := {x}) (fun w hw => Or.inl (Finset.mem_singleton.1 hw)) hf hx hz
      omega
  by_cases hs : s ∈ g.support
  · have hsup : s.support ⊆ {x} := fun w hw => hgv ((mem_vars _).2 ⟨s, hs, hw⟩)
    have e : s = Finsupp.single x (s x) := by
      ext w
      by_cases hw : w = x
      · subst hw; simp
      · rw [Finsupp.single_eq_of_ne hw]
        by_contra hc
        exact hw (Finset.mem_singleton.1 (hsup (Finsupp.mem_support_iff.2 hc)))
    rw [e, ← ret_coeff hgv]
    refine (mignotte_max hF0 (map_dvd Factor.ret hg) hco _).trans ?_
    unfold coeffBound
    exact mul_le_mul_of_nonneg_left (pow_le_pow_right₀ (by norm_num) hdeg) (foldl_max_le f 0).1
  · rw [notMem_support_iff.1 hs, abs_zero]
    unfold coeffBound
    exact mul_nonneg (foldl_max_le f 0).1 (by positivity)

end Mtshl
end CLPoly
