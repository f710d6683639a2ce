import Verif.Upoly.ZpBasic

/-! # Extended gcd over a field -/

namespace CLPoly
namespace Upoly
open Polynomial
open Dense (IsGcd)

variable {R : Type*} [DecidableEq R] [Field R]

theorem extLoop_spec {F G : R[X]} : ∀ (fuel : Nat) (r0 r1 s0 s1 t0 t1 : UPoly R) (R0 R1 S0 S1 T0 T1 : R[X]), Is r0 R0 → Is r1 R1 → Is s0 S0 → Is s1 S1 → Is t0 T0 →
    Is t1 T1 → (if R1 = 0 then 1 else R1.natDegree + 2) ≤ fuel → S0 * F + T0 * G = R0 → S1 * F + T1 * G = R1 →
    (∀ D, IsGcd D R0 R1 → IsGcd D F G) →
    ∃ r s t D S T, extLoop fuel r0 r1 s0 s1 t0 t1 = some (r, s, t) ∧ Is r D ∧ Is s S ∧ Is t T ∧ S * F + T * G = D ∧ IsGcd D F G := by
  intro fuel
  induction fuel with
  | zero => intro r0 r1 s0 s1 t0 t1 R0 R1 S0 S1 T0 T1 _ _ _ _ _ _ h; split at h <;> omega
  | succ fuel ih =>
    intro r0 r1 s0 s1 t0 t1 R0 R1 S0 S1 T0 T1 hr0 hr1 hs0 hs1 ht0 ht1 hfuel e0 e1 hg
    rw [extLoop]
    by_cases h : r1 = []
    · rw [if_pos h]
      have h1 := (is_nil_iff hr1).1 h
      exact ⟨r0, s0, t0, R0, S0, T0, rfl, hr0, hs0, ht0, e0, hg _ (by rw [h1]; exact IsGcd.zero_right R0)⟩
    · rw [if_neg h]
      have h1 : R1 ≠ 0 := fun e => h ((is_nil_iff hr1).2 e)
      obtain ⟨q, r, d1, d2, d3⟩ := divRem_is hr0 hr1 h1
      rw [d1]
      have hlt := EuclideanDomain.mod_lt R0 h1
      rw [if_neg h1] at hfuel
      refine ih r1 r s1 _ t1 _ R1 _ S1 _ T1 _ hr1 d3 hs1 (sub_is hs0 (mul_is d2 hs1)).norm ht1 (sub_is ht0 (mul_is d2 ht1)).norm ?_ e1 ?_ ?_
      · split
        · omega
        · rename_i h0
          have : (R0 % R1).natDegree < R1.natDegree := (natDegree_lt_natDegree_iff h0).2 hlt
          omega
      · have := EuclideanDomain.div_add_mod R0 R1
        linear_combination e0 - R0 / R1 * e1 - this
      · intro D hD
        refine hg D (hD.of_combo (q := R0 / R1) ?_)
        rw [mul_comm]; exact EuclideanDomain.div_add_mod R0 R1

/-- the extended `polynomial_GCD`: a monic gcd with its Bézout coefficients -/
theorem extGcd_spec {f g : UPoly R} {F G : R[X]} (hf : Is f F) (hg : Is g G) (f0 : F ≠ 0) (g0 : G ≠ 0) :
    ∃ r s t D S T, extGcd f g = some (r, s, t) ∧ Is r D ∧ Is s S ∧ Is t T ∧ D.Monic ∧ IsGcd D F G ∧ S * F + T * G = D := by
  have h0 : ¬ (f = [] ∨ g = []) := by
    rintro (h | h)
    · exact f0 ((is_nil_iff hf).1 h)
    · exact g0 ((is_nil_iff hg).1 h)
  unfold extGcd
  rw [if_neg h0]
  obtain ⟨r, s, t, D, S, T, h1, h2, h3, h4, h5, h6⟩ := extLoop_spec (F := F) (G := G) (max (deg f) (deg g) + 3) f g [(0, 1)] [] [] [(0, 1)] F G 1 0 0 1 hf hg one_is nil_is
    nil_is one_is (by rw [if_neg g0, is_deg hg]; omega) (by ring) (by ring) (fun _ h => h)
  have hD0 := isGcd_ne_zero h6 (.inl f0)
  have hr0 : r ≠ [] := fun h => hD0 ((is_nil_iff h2).1 h)
  have hc : D.leadingCoeff⁻¹ ≠ 0 := inv_ne_zero (by simpa using hD0)
  rw [h1]
  simp only [Option.bind_some, if_neg hr0]
  rw [is_lc h2]
  refine ⟨_, _, _, _, _, _, rfl, (map_mul_is h2 hc).norm, (map_mul_is h3 hc).norm, (map_mul_is h4 hc).norm, monic_C_mul hD0, isGcd_C_mul hc h6, ?_⟩
  rw [← h5]; ring

end Upoly
end CLPoly
