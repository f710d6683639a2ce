import Verif.Upoly.Basic
import Verif.Dense.Public
import Mathlib.Algebra.Ring.GeomSum

/-! # Greatest common divisors and modular powers over `Zp` -/

namespace CLPoly
namespace Upoly
open Polynomial
open Dense (IsGcd)

section field
variable {R : Type*} [DecidableEq R] [Field R]

theorem dvd_sub_mod' (A M : R[X]) : M ∣ A - A % M := by
  rw [sub_eq_of_eq_add (EuclideanDomain.div_add_mod A M).symm]
  exact Dvd.intro _ rfl

theorem isGcd_C_mul {D F G : R[X]} {c : R} (hc : c ≠ 0) (h : IsGcd D F G) : IsGcd (C c * D) F G := by
  have hu : IsUnit (C c : R[X]) := by simpa using hc
  exact ⟨(hu.mul_left_dvd).2 h.1, (hu.mul_left_dvd).2 h.2.1, fun d h1 h2 => dvd_mul_of_dvd_right (h.2.2 d h1 h2) _⟩

theorem monic_C_mul {D : R[X]} (h : D ≠ 0) : (C D.leadingCoeff⁻¹ * D).Monic := by
  unfold Monic
  rw [leadingCoeff_mul, leadingCoeff_C, inv_mul_cancel₀ (by simpa using h)]

theorem isGcd_ne_zero {D F G : R[X]} (h : IsGcd D F G) (h0 : F ≠ 0 ∨ G ≠ 0) : D ≠ 0 := by
  rintro rfl
  rcases h0 with h0 | h0
  · exact h0 (zero_dvd_iff.1 h.1)
  · exact h0 (zero_dvd_iff.1 h.2.1)

/-- monic greatest common divisors are unique -/
theorem isGcd_unique {D E F G : R[X]} (h : IsGcd D F G) (h' : IsGcd E F G) (hD : D.Monic) (hE : E.Monic) : D = E :=
  eq_of_monic_of_associated hD hE (associated_of_dvd_dvd (h'.2.2 D h.1 h.2.1) (h.2.2 E h'.1 h'.2.1))

end field

section zp
variable {p : Nat} [hp : Fact p.Prime] {f g : UPoly (ZMod p)} {F G : (ZMod p)[X]}

theorem toTerms_ok (hf : Is f F) : Dense.SparseOK p (toTerms p f) ∧ Dense.termsPoly p (toTerms p f) = F := by
  refine ⟨⟨?_, ?_⟩, ?_⟩
  · refine List.pairwise_map.2 (hf.canon.1.imp fun {a b} h => ?_)
    simpa [comp] using h
  · intro x hx
    obtain ⟨y, hy, rfl⟩ := List.mem_map.1 hx
    have := hf.canon.2 y hy
    refine ⟨Nat.pos_of_ne_zero fun h => this ((ZMod.val_eq_zero _).1 h), ZMod.val_lt _⟩
  · rw [← hf.eq]
    unfold Dense.termsPoly toTerms toPoly
    rw [List.map_map]
    congr 1
    refine List.map_congr_left fun t _ => ?_
    simp

theorem ofTerms_is {t : List (Nat × Nat)} (h : Dense.SparseOK p t) : Is (ofTerms p t) (Dense.termsPoly p t) := by
  refine ⟨⟨?_, ?_⟩, ?_⟩
  · refine List.pairwise_map.2 (h.1.imp fun {a b} h => ?_)
    simpa [comp] using h
  · intro x hx
    obtain ⟨y, hy, rfl⟩ := List.mem_map.1 hx
    have := h.2 y hy
    intro h0
    rw [ZMod.natCast_eq_zero_iff] at h0
    have := Nat.le_of_dvd this.1 h0
    omega
  · unfold toPoly ofTerms Dense.termsPoly
    rw [List.map_map]
    rfl

theorem dense_length {A : Dense.DPoly} (h : A.Is p F) : A.coeffs.length = if F = 0 then 0 else F.natDegree + 1 := by
  by_cases h0 : A.coeffs = []
  · have : F = 0 := by rw [← h.toP, h0]; rfl
    rw [if_pos this, h0]; rfl
  · have hd := h.can.degree_eq h0
    have hl := List.length_pos_iff.2 h0
    rw [h.toP] at hd
    have hF : F ≠ 0 := by rintro rfl; simp at hd
    rw [if_neg hF]
    have := natDegree_eq_of_degree_eq_some hd
    omega

theorem dense_lead {A : Dense.DPoly} (h : A.Is p F) (hF : F ≠ 0) : Dense.lead A < p ∧ ((Dense.lead A : Nat) : ZMod p) = F.leadingCoeff := by
  have hl := dense_length h
  rw [if_neg hF] at hl
  have h0 : A.coeffs ≠ [] := fun e => by rw [e] at hl; simp at hl
  unfold Dense.lead
  rw [if_neg h0]
  refine ⟨?_, ?_⟩
  · rw [List.getD_eq_getElem _ _ (by omega)]
    exact h.below _ (List.getElem_mem _)
  · rw [hl, Nat.add_sub_cancel, h.coeff]; rfl

/-- `__polynomial_GCD` over `Zp`: the gcd with leading coefficient `c`, or a refusal when its degree exceeds the bound -/
theorem gcdScaled_is (hW : p < W) (hf : Is f F) (hg : Is g G) (f0 : F ≠ 0) (g0 : G ≠ 0) (lf : F.natDegree + 1 < W) (lg : G.natDegree + 1 < W)
    {c : ZMod p} (hc : c ≠ 0) (d : Int) :
    ∃ D, IsGcd D G F ∧ D.leadingCoeff = c ∧ (gcdScaled p g f c d = none ↔ (d < D.natDegree)) ∧ ∀ r, gcdScaled p g f c d = some r → Is r D := by
  have hF := Dense.ofSparse_is (toTerms_ok hf).1
  have hG := Dense.ofSparse_is (toTerms_ok hg).1
  rw [(toTerms_ok hf).2] at hF
  rw [(toTerms_ok hg).2] at hG
  obtain ⟨D, hD, hgcd⟩ := Dense.gcd_is hW hF hG (by rw [dense_length hF, if_neg f0]; exact lf) (by rw [dense_length hG, if_neg g0]; exact lg)
  have hD0 := isGcd_ne_zero hgcd (.inl f0)
  obtain ⟨l1, l2⟩ := dense_lead hD hD0
  have l0 : Dense.lead (Dense.gcd (Dense.ofSparse (toTerms p f) p) (Dense.ofSparse (toTerms p g) p)) ≠ 0 := by
    intro h
    rw [h, Nat.cast_zero] at l2
    exact hD0 (leadingCoeff_eq_zero.1 l2.symm)
  obtain ⟨i1, i2⟩ := Dense.nmodInv_spec hp.out hW l1 l0
  obtain ⟨m1, m2⟩ := Dense.nmodMul_spec hp.out.pos hW i1 (ZMod.val_lt c)
  have hs := Dense.scalarMul_is hW hD (k := Dense.nmodMul (Dense.precompute p) (Dense.nmodInv (Dense.precompute p)
    (Dense.lead (Dense.gcd (Dense.ofSparse (toTerms p f) p) (Dense.ofSparse (toTerms p g) p)))) c.val) m1
  rw [m2, ZMod.natCast_zmod_val] at hs
  have hi : ((Dense.nmodInv (Dense.precompute p) (Dense.lead (Dense.gcd (Dense.ofSparse (toTerms p f) p)
      (Dense.ofSparse (toTerms p g) p))) : Nat) : ZMod p) = D.leadingCoeff⁻¹ := by
    rw [l2] at i2
    exact eq_inv_of_mul_eq_one_left i2
  rw [hi] at hs
  have hlc : D.leadingCoeff ≠ 0 := by simpa using hD0
  have hk : D.leadingCoeff⁻¹ * c ≠ 0 := mul_ne_zero (inv_ne_zero hlc) hc
  refine ⟨C (D.leadingCoeff⁻¹ * c) * D, isGcd_C_mul hk ⟨hgcd.2.1, hgcd.1, fun d h1 h2 => hgcd.2.2 d h2 h1⟩, ?_, ?_, ?_⟩
  · rw [leadingCoeff_mul, leadingCoeff_C, mul_comm, ← mul_assoc, mul_inv_cancel₀ hlc, one_mul]
  · unfold gcdScaled
    simp only
    rw [hD.modulus]
    have hl := dense_length hs
    rw [if_neg (mul_ne_zero (by simpa using hk) hD0)] at hl
    have e : Dense.deg (Dense.scalarMul (Dense.gcd (Dense.ofSparse (toTerms p f) p) (Dense.ofSparse (toTerms p g) p))
        (Dense.nmodMul (Dense.precompute p) (Dense.nmodInv (Dense.precompute p)
          (Dense.lead (Dense.gcd (Dense.ofSparse (toTerms p f) p) (Dense.ofSparse (toTerms p g) p)))) c.val))
        = ((C (D.leadingCoeff⁻¹ * c) * D).natDegree : Int) := by
      unfold Dense.deg; rw [hl]; push_cast; ring
    rw [e]
    split
    · rename_i h; simpa using h
    · rename_i h; simpa using h
  · intro r hr
    unfold gcdScaled at hr
    simp only at hr
    rw [hD.modulus] at hr
    split at hr
    · exact absurd hr (by simp)
    · rw [← Option.some.inj hr]
      have := ofTerms_is (Dense.toSparse_sparseOK hs)
      rwa [Dense.toSparse_is hs] at this

/-- `polynomial_GCD` over `Zp`: the monic gcd -/
theorem gcd_is (hW : p < W) (hf : Is f F) (hg : Is g G) (h0 : F ≠ 0 ∨ G ≠ 0) (lf : F.natDegree + 1 < W) (lg : G.natDegree + 1 < W) :
    ∃ d D, gcd p f g = some d ∧ Is d D ∧ D.Monic ∧ IsGcd D F G := by
  have mk : ∀ {h : UPoly (ZMod p)} {H : (ZMod p)[X]}, Is h H → H ≠ 0 →
      Is (h.map fun t => (t.1, t.2 * (lc h)⁻¹)) (C H.leadingCoeff⁻¹ * H) ∧ (C H.leadingCoeff⁻¹ * H).Monic := by
    intro h H hh hH
    refine ⟨?_, monic_C_mul hH⟩
    rw [is_lc hh]
    exact map_mul_is hh (inv_ne_zero (by simpa using hH))
  unfold gcd
  by_cases e1 : f = []
  · have f0 := (is_nil_iff hf).1 e1
    have g0 : G ≠ 0 := h0.resolve_left fun h => h f0
    rw [if_pos e1]
    refine ⟨_, _, rfl, (mk hg g0).1, (mk hg g0).2, isGcd_C_mul (inv_ne_zero (by simpa using g0)) ?_⟩
    rw [f0]
    exact ⟨dvd_zero _, dvd_rfl, fun d _ h => h⟩
  · have f0 : F ≠ 0 := fun h => e1 ((is_nil_iff hf).2 h)
    rw [if_neg e1]
    by_cases e2 : g = []
    · have g0 := (is_nil_iff hg).1 e2
      rw [if_pos e2]
      refine ⟨_, _, rfl, (mk hf f0).1, (mk hf f0).2, isGcd_C_mul (inv_ne_zero (by simpa using f0)) ?_⟩
      rw [g0]
      exact IsGcd.zero_right F
    · have g0 : G ≠ 0 := fun h => e2 ((is_nil_iff hg).2 h)
      rw [if_neg e2]
      obtain ⟨D, hD, h1, h2, h3⟩ := gcdScaled_is hW hg hf g0 f0 lg lf (one_ne_zero (α := ZMod p)) (min (deg f) (deg g) : Nat)
      have hD0 := isGcd_ne_zero hD (.inl f0)
      rw [is_deg hf, is_deg hg] at h2 h3
      rw [is_deg hf, is_deg hg]
      have a1 := natDegree_le_of_dvd hD.1 f0
      have a2 := natDegree_le_of_dvd hD.2.1 g0
      cases e : gcdScaled p f g 1 ((min F.natDegree G.natDegree : Nat) : Int) with
      | none =>
        have := h2.1 e
        omega
      | some r =>
        have hr := h3 r e
        push_cast at e
        rw [e]
        refine ⟨_, _, rfl, (mk hr hD0).1, (mk hr hD0).2, isGcd_C_mul (inv_ne_zero (by simpa using hD0)) hD⟩

end zp

/-! ## modular powers -/
section field
variable {R : Type*} [DecidableEq R] [Field R]

theorem powmodLoop_is {m : UPoly R} {M : R[X]} (hm : Is m M) (m0 : M ≠ 0) : ∀ (fuel e : Nat) (result b : UPoly R) (P B : R[X]), e < fuel → Is result P → Is b B →
    ∃ r H, powmodLoop m fuel e result b = some r ∧ Is r H ∧ M ∣ P * B ^ e - H ∧ (e = 0 → H = P) ∧ (e ≠ 0 → H.degree < M.degree ∨ H = P % M) := by
  intro fuel
  induction fuel with
  | zero => intro e _ _ _ _ h; omega
  | succ fuel ih =>
    intro e result b P B he hr hb
    rw [powmodLoop]
    by_cases h0 : e > 0
    · rw [if_pos h0]
      have hodd : ∃ r' P', (if e % 2 ≠ 0 then mod (mul result b) m else some result) = some r' ∧ Is r' P' ∧ M ∣ P * B ^ (e % 2) - P' ∧
          (e % 2 ≠ 0 → P'.degree < M.degree) ∧ (e % 2 = 0 → P' = P) := by
        by_cases h : e % 2 ≠ 0
        · rw [if_pos h]
          obtain ⟨r', h1, h2⟩ := mod_is (mul_is hr hb) hm m0
          have h1' : e % 2 = 1 := by omega
          refine ⟨r', _, h1, h2, ?_, fun _ => EuclideanDomain.mod_lt _ m0, fun h' => absurd h' h⟩
          rw [h1', pow_one]
          exact (dvd_sub_mod' _ _)
        · rw [if_neg h]
          push Not at h
          exact ⟨_, P, rfl, hr, by rw [h]; simp, fun h' => absurd h h', fun _ => rfl⟩
      obtain ⟨r', P', o1, o2, o3, o4, o5⟩ := hodd
      have hsq : ∃ b' B', (if e / 2 > 0 then mod (mul b b) m else some b) = some b' ∧ Is b' B' ∧ (e / 2 > 0 → M ∣ B * B - B') := by
        by_cases h : e / 2 > 0
        · rw [if_pos h]
          obtain ⟨b', h1, h2⟩ := mod_is (mul_is hb hb) hm m0
          exact ⟨b', _, h1, h2, fun _ => (dvd_sub_mod' _ _)⟩
        · rw [if_neg h]; exact ⟨_, B, rfl, hb, fun h' => absurd h' h⟩
      obtain ⟨b', B', s1, s2, s3⟩ := hsq
      rw [o1, s1]
      obtain ⟨r, H, k1, k2, k3, k4, k5⟩ := ih (e / 2) r' b' P' B' (by omega) o2 s2
      refine ⟨r, H, k1, k2, ?_, fun h => by omega, fun _ => ?_⟩
      · have e1 : P * B ^ e = P * B ^ (e % 2) * (B * B) ^ (e / 2) := by
          conv_lhs => rw [← Nat.mod_add_div e 2]
          rw [pow_add, pow_mul, pow_two, mul_assoc]
        have e2 : M ∣ (B * B) ^ (e / 2) - B' ^ (e / 2) := by
          by_cases h : e / 2 > 0
          · exact (s3 h).trans (sub_dvd_pow_sub_pow _ _ _)
          · rw [show e / 2 = 0 by omega]; simp
        have e3 := dvd_add (dvd_mul_of_dvd_left o3 ((B * B) ^ (e / 2))) (dvd_add (dvd_mul_of_dvd_right e2 P') k3)
        have e4 : P * B ^ e - H = (P * B ^ (e % 2) - P') * (B * B) ^ (e / 2) + (P' * ((B * B) ^ (e / 2) - B' ^ (e / 2)) + (P' * B' ^ (e / 2) - H)) := by
          rw [e1]; ring
        rw [e4]; exact e3
      · by_cases h : e / 2 = 0
        · rw [k4 h]
          exact .inl (o4 (by omega))
        · rcases k5 h with h1 | h1
          · exact .inl h1
          · exact .inl (by rw [h1]; exact EuclideanDomain.mod_lt _ m0)
    · rw [if_neg h0]
      obtain rfl : e = 0 := by omega
      exact ⟨_, P, rfl, hr, by simp, fun _ => rfl, fun h => absurd rfl h⟩

/-- `__upoly_powmod`: `base^e mod m`; for `e = 0` the constant 1 (not reduced: this matters only for a constant `m`) -/
theorem powmod_is {b m : UPoly R} {B M : R[X]} (hb : Is b B) (hm : Is m M) (m0 : M ≠ 0) (e : Nat) :
    ∃ r, powmod b e m = some r ∧ Is r (if e = 0 then 1 else B ^ e % M) := by
  have hm0 : m ≠ [] := fun h => m0 ((is_nil_iff hm).1 h)
  unfold powmod
  rw [if_neg hm0]
  obtain ⟨b', h1, h2⟩ := mod_is hb hm m0
  rw [h1]
  obtain ⟨r, H, k1, k2, k3, k4, k5⟩ := powmodLoop_is hm m0 (e + 1) e _ b' 1 _ (by omega) one_is h2
  refine ⟨r, k1, ?_⟩
  by_cases h : e = 0
  · rw [if_pos h, ← k4 h]; exact k2
  · rw [if_neg h]
    have hd : H.degree < M.degree := by
      rcases k5 h with h1 | h1
      · exact h1
      · rw [h1]; exact EuclideanDomain.mod_lt _ m0
    have e1 : M ∣ B ^ e - H := by
      rw [one_mul] at k3
      have h3 : M ∣ B ^ e - (B % M) ^ e := (dvd_sub_mod' _ _).trans (sub_dvd_pow_sub_pow _ _ _)
      have := dvd_add h3 k3
      rwa [sub_add_sub_cancel] at this
    have e2 : B ^ e % M = H := by
      obtain ⟨q, hq⟩ := e1
      rw [show B ^ e = M * q + H by rw [← hq]; ring, add_mod, (mod_eq_self_iff m0).2 hd, EuclideanDomain.mod_eq_zero.2 (Dvd.intro _ rfl), zero_add]
    rw [e2]; exact k2

end field
end Upoly
end CLPoly
