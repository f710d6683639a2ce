import Verif.Upoly.ModDiv
import Verif.Upoly.Ext

/-! # One Hensel step, quadratic and linear -/

namespace CLPoly
namespace Upoly
open Polynomial

theorem Red.natDegree_le {m : ℤ} {E K : ℤ[X]} {n : Nat} (hE : Red m E) (h : Cong m E K) (hK : K.natDegree ≤ n) : E.natDegree ≤ n := by
  rw [natDegree_le_iff_coeff_eq_zero]
  intro i hi
  have h1 := Cong.iff_coeff.1 h i
  rw [coeff_eq_zero_of_natDegree_lt (p := K) (by omega), sub_zero] at h1
  have h2 := hE i
  exact Int.eq_zero_of_abs_lt_dvd h1 (by rw [abs_lt]; constructor <;> omega)

/-- degree of a reduced cofactor of a monic polynomial -/
theorem Red.natDegree_mul_le {m : ℤ} {E H K : ℤ[X]} {n : Nat} (hE : Red m E) (hH : H.Monic) (h : Cong m (E * H) K) (hK : K.natDegree ≤ n) (hn : H.natDegree ≤ n) :
    E.natDegree + H.natDegree ≤ n := by
  by_cases h0 : E = 0
  · rw [h0]; simpa using hn
  by_contra hc
  push Not at hc
  have h1 := Cong.iff_coeff.1 h (E.natDegree + H.natDegree)
  rw [coeff_eq_zero_of_natDegree_lt (p := K) (by omega), sub_zero, coeff_mul_degree_add_degree, hH.leadingCoeff, mul_one] at h1
  have h2 := hE E.natDegree
  have := Int.eq_zero_of_abs_lt_dvd h1 (by rw [leadingCoeff, abs_lt]; constructor <;> omega)
  exact h0 (leadingCoeff_eq_zero.1 this)

/-- `mulCoeff` -/
theorem mulCoeff_is {m : ℤ} (hm : m ≠ 0) {f : UPoly ℤ} {F : ℤ[X]} (h : Is f F) : Is (mulCoeff m f) (C m * F) := map_mul_is h hm

/-- monic correction: `H + m·R` with `deg R < deg H`, reduced -/
theorem monic_lift {m M : ℤ} (hM : 1 < M) {H R H' : ℤ[X]} (hH : H.Monic) (hR : R.degree < H.degree) (h : ∀ i, H'.coeff i = (H + C m * R).coeff i % M) :
    H'.Monic ∧ H'.natDegree = H.natDegree := by
  have c1 : H'.coeff H.natDegree = 1 := by
    rw [h, coeff_add, coeff_C_mul, coeff_eq_zero_of_degree_lt (p := R) (by rwa [degree_eq_natDegree hH.ne_zero] at hR), mul_zero, add_zero, hH.coeff_natDegree]
    exact Int.emod_eq_of_lt (by norm_num) hM
  have c2 : H'.natDegree ≤ H.natDegree := by
    rw [natDegree_le_iff_coeff_eq_zero]
    intro i hi
    have : R.coeff i = 0 := coeff_eq_zero_of_degree_lt (lt_trans hR (by rw [degree_eq_natDegree hH.ne_zero]; exact_mod_cast hi))
    rw [h, coeff_add, coeff_C_mul, this, coeff_eq_zero_of_natDegree_lt (p := H) hi]
    simp
  have c3 : H'.natDegree = H.natDegree := le_antisymm c2 (le_natDegree_of_ne_zero (by rw [c1]; norm_num))
  exact ⟨by rw [Monic, leadingCoeff, c3, c1], c3⟩

/-- the data of one node of the factor tree modulo `m`: `F ≡ G·H`, `S·G + T·H ≡ 1`, `H` monic -/
structure Node (m : ℤ) (n : Nat) (F G H S T : ℤ[X]) : Prop where
  prod : Cong m (G * H) F
  bez : Cong m (S * G + T * H) 1
  monic : H.Monic
  degF : F.natDegree ≤ n
  deg : G.natDegree + H.natDegree ≤ n

/-- the quadratic step -/
theorem henselStep_spec {m : ℤ} (hm : 1 < m) {n : Nat} {f g h s t : UPoly ℤ} {F G H S T : ℤ[X]} (hf : Is f F) (hg : Is g G) (hh : Is h H) (hs : Is s S) (ht : Is t T)
    (N : Node m n F G H S T) :
    ∃ g' h' s' t' G' H' S' T', henselStep m f g h s t = some (g', h', s', t') ∧ Is g' G' ∧ Is h' H' ∧ Is s' S' ∧ Is t' T' ∧ Node (m * m) n F G' H' S' T' ∧
      Cong m G' G ∧ Cong m H' H ∧ H'.natDegree = H.natDegree ∧ Red (m * m) G' ∧ Red (m * m) H' ∧ Cong m S' S ∧ Cong m T' T := by
  have m0 : 0 < m := by omega
  have mm1 : 1 < m * m := by nlinarith
  have mm0 : 0 < m * m := by omega
  have H0 := N.monic.ne_zero
  have sub1 : ∀ {A B : ℤ[X]}, Cong (m * m) A B → Cong m A B := fun h => h.of_dvd (Dvd.intro _ rfl)
  -- the error
  obtain ⟨E0, hE0⟩ : C m ∣ F - G * H := N.prod.symm
  obtain ⟨E, e1, e2, e3⟩ := divRed_is m0 m0 (sub_is hf (mul_is hg hh)) hE0
  have dE0 : E0.natDegree ≤ n := by
    have : (C m * E0).natDegree = E0.natDegree := natDegree_C_mul m0.ne'
    rw [← this, ← hE0]
    exact (natDegree_sub_le _ _).trans (max_le N.degF (natDegree_mul_le.trans N.deg))
  have dE := e3.natDegree_le e2 dE0
  obtain ⟨q, r, Q, R, q1, q2, q3, _, q4, q5, q6⟩ := divModMod_spec hm (mul_is hs e1) hh H0 (by rw [N.monic.leadingCoeff]; exact isCoprime_one_left)
  obtain ⟨Tau, t1, _, t2, t3⟩ := modCoeff_is m0 (add_is (mul_is ht e1) (mul_is q2 hg))
  obtain ⟨G', g1, _, g2, g3⟩ := modCoeff_is mm0 (add_is hg (mulCoeff_is m0.ne' t1))
  obtain ⟨H', h1, h1', h2, h3⟩ := modCoeff_is mm0 (add_is hh (mulCoeff_is m0.ne' q3))
  obtain ⟨mo, hd⟩ := monic_lift mm1 N.monic q5 h1'
  -- `Tau·H + R·G ≡ E`
  have key : Cong m (Tau * H + R * G) E := by
    have a1 : Cong m (Tau * H + R * G) ((T * E + Q * G) * H + R * G) := (t2.mul .rfl').add .rfl'
    have a2 : (T * E + Q * G) * H + R * G = (Q * H + R) * G + T * E * H := by ring
    rw [a2] at a1
    have a3 : Cong m ((Q * H + R) * G + T * E * H) (S * E * G + T * E * H) := (q6.mul .rfl').add .rfl'
    have a4 : S * E * G + T * E * H = (S * G + T * H) * E := by ring
    rw [a4] at a3
    have a5 : Cong m ((S * G + T * H) * E) (1 * E) := N.bez.mul .rfl'
    rw [one_mul] at a5
    exact a1.trans (a3.trans a5)
  have prod' : Cong (m * m) (G' * H') F := by
    have a1 : Cong (m * m) (G' * H') ((G + C m * Tau) * (H + C m * R)) := g2.mul h2
    have a2 : (G + C m * Tau) * (H + C m * R) = G * H + C m * (Tau * H + R * G) + C (m * m) * (Tau * R) := by rw [C_mul]; ring
    rw [a2] at a1
    have a3 : Cong (m * m) (C m * (Tau * H + R * G)) (C m * E0) := (key.trans e2).scale m
    have a4 : Cong (m * m) (C (m * m) * (Tau * R)) 0 := by unfold Cong; rw [sub_zero]; exact Dvd.intro _ rfl
    have a5 : Cong (m * m) (G * H + C m * (Tau * H + R * G) + C (m * m) * (Tau * R)) (G * H + C m * E0 + 0) := (Cong.rfl'.add a3).add a4
    have a6 : G * H + C m * E0 + 0 = F := by rw [← hE0]; ring
    rw [a6] at a5
    exact a1.trans a5
  have cG : Cong m G' G := by
    refine (sub1 g2).trans ?_
    unfold Cong
    exact ⟨Tau, by ring⟩
  have cH : Cong m H' H := by
    refine (sub1 h2).trans ?_
    unfold Cong
    exact ⟨R, by ring⟩
  -- degree of the new `G`
  have dT : Tau.natDegree + H.natDegree ≤ n := by
    refine t3.natDegree_mul_le (K := E - R * G) N.monic ?_ ?_ (by have := N.deg; omega)
    · have := key.sub (Cong.rfl' (m := m) (F := R * G))
      simpa using this
    · refine (natDegree_sub_le _ _).trans (max_le dE (natDegree_mul_le.trans ?_))
      have := natDegree_le_natDegree q5.le
      have := N.deg
      omega
  have dG : G'.natDegree + H'.natDegree ≤ n := by
    rw [hd]
    have : G'.natDegree ≤ n - H.natDegree := by
      refine g3.natDegree_le g2 ((natDegree_add_le _ _).trans (max_le ?_ ((natDegree_C_mul_le _ _).trans ?_)))
      · have := N.deg; omega
      · omega
    have := N.deg
    omega
  -- Bezout
  have bz : Cong m (S * G' + T * H') 1 := ((Cong.rfl'.mul cG).add (Cong.rfl'.mul cH)).trans N.bez
  obtain ⟨P0, hP0⟩ : C m ∣ 1 - S * G' - T * H' := by
    have := bz.symm
    unfold Cong at this
    rwa [← sub_sub] at this
  obtain ⟨P, p1, p2, p3⟩ := divRed_is m0 m0 (sub_is (sub_is one_is (mul_is hs g1)) (mul_is ht h1)) hP0
  obtain ⟨q', r', Q', R', u1, u2, u3, _, u4, u5, u6⟩ := divModMod_spec hm (mul_is hs p1) h1 mo.ne_zero (by rw [mo.leadingCoeff]; exact isCoprime_one_left)
  obtain ⟨S', s1, _, s2, _⟩ := modCoeff_is mm0 (add_is hs (mulCoeff_is m0.ne' u3))
  obtain ⟨Tau2, v1, _, v2, v3⟩ := modCoeff_is m0 (add_is (mul_is ht p1) (mul_is u2 g1))
  obtain ⟨T', w1, _, w2, _⟩ := modCoeff_is mm0 (add_is ht (mulCoeff_is m0.ne' v1))
  have key2 : Cong m (R' * G' + Tau2 * H') P := by
    have a1 : Cong m (R' * G' + Tau2 * H') (R' * G' + (T * P + Q' * G') * H') := Cong.rfl'.add (v2.mul .rfl')
    have a2 : R' * G' + (T * P + Q' * G') * H' = (Q' * H' + R') * G' + T * P * H' := by ring
    rw [a2] at a1
    have a3 : Cong m ((Q' * H' + R') * G' + T * P * H') (S * P * G' + T * P * H') := (u6.mul .rfl').add .rfl'
    have a4 : S * P * G' + T * P * H' = (S * G' + T * H') * P := by ring
    rw [a4] at a3
    have a5 : Cong m ((S * G' + T * H') * P) (1 * P) := bz.mul .rfl'
    rw [one_mul] at a5
    exact a1.trans (a3.trans a5)
  have bez' : Cong (m * m) (S' * G' + T' * H') 1 := by
    have a1 : Cong (m * m) (S' * G' + T' * H') ((S + C m * R') * G' + (T + C m * Tau2) * H') := (s2.mul .rfl').add (w2.mul .rfl')
    have a2 : (S + C m * R') * G' + (T + C m * Tau2) * H' = S * G' + T * H' + C m * (R' * G' + Tau2 * H') := by ring
    rw [a2] at a1
    have a3 : Cong (m * m) (C m * (R' * G' + Tau2 * H')) (C m * P0) := (key2.trans p2).scale m
    have a4 : Cong (m * m) (S * G' + T * H' + C m * (R' * G' + Tau2 * H')) (S * G' + T * H' + C m * P0) := Cong.rfl'.add a3
    have a5 : S * G' + T * H' + C m * P0 = 1 := by rw [← hP0]; ring
    rw [a5] at a4
    exact a1.trans a4
  have cS : Cong m S' S := by
    refine (sub1 s2).trans ?_
    unfold Cong
    exact ⟨R', by ring⟩
  have cT : Cong m T' T := by
    refine (sub1 w2).trans ?_
    unfold Cong
    exact ⟨Tau2, by ring⟩
  refine ⟨_, _, _, _, G', H', S', T', ?_, g1, h1, s1, w1, ⟨prod', bez', mo, N.degF, dG⟩, cG, cH, hd, g3, h3, cS, cT⟩
  unfold henselStep
  simp only [q1, u1, Option.bind_some]

/-- the linear step -/
theorem henselStepLin_spec {m p : ℤ} (hm : 0 < m) (hp : 1 < p) {n : Nat} {f g h s t : UPoly ℤ} {F G H S T : ℤ[X]} (hf : Is f F) (hg : Is g G) (hh : Is h H) (hs : Is s S) (ht : Is t T)
    (hprod : Cong m (G * H) F) (hbez : Cong p (S * G + T * H) 1) (hmon : H.Monic) (hF : F.natDegree ≤ n) (hdeg : G.natDegree + H.natDegree ≤ n) (hpm : p ∣ m) :
    ∃ g' h' G' H', henselStepLin m p f g h s t = some (g', h') ∧ Is g' G' ∧ Is h' H' ∧ Cong (m * p) (G' * H') F ∧ Cong p (S * G' + T * H') 1 ∧ Cong m G' G ∧ Cong m H' H ∧
      H'.Monic ∧ H'.natDegree = H.natDegree ∧ G'.natDegree + H'.natDegree ≤ n := by
  have p0 : 0 < p := by omega
  have mp0 : 0 < m * p := by positivity
  have mp1 : 1 < m * p := by nlinarith
  have sub1 : ∀ {A B : ℤ[X]}, Cong (m * p) A B → Cong m A B := fun h => h.of_dvd (Dvd.intro _ rfl)
  obtain ⟨E0, hE0⟩ : C m ∣ F - G * H := hprod.symm
  obtain ⟨E, e1, e2, e3⟩ := divRed_is hm p0 (sub_is hf (mul_is hg hh)) hE0
  have dE0 : E0.natDegree ≤ n := by
    have : (C m * E0).natDegree = E0.natDegree := natDegree_C_mul hm.ne'
    rw [← this, ← hE0]
    exact (natDegree_sub_le _ _).trans (max_le hF (natDegree_mul_le.trans hdeg))
  have dE := e3.natDegree_le e2 dE0
  have e : henselStepLin m p f g h s t = if divRed m p (sub f (mul g h)) = [] then some (g, h) else (divModMod p (mul s (divRed m p (sub f (mul g h)))) h).map fun qr =>
      (modCoeff (m * p) (add g (mulCoeff m (modCoeff p (add (mul t (divRed m p (sub f (mul g h)))) (mul qr.1 g))))), modCoeff (m * p) (add h (mulCoeff m qr.2))) := rfl
  rw [e]
  by_cases hz : divRed m p (sub f (mul g h)) = []
  · rw [if_pos hz]
    refine ⟨g, h, G, H, rfl, hg, hh, ?_, hbez, .rfl', .rfl', hmon, rfl, hdeg⟩
    have E00 : E = 0 := (is_nil_iff e1).1 hz
    rw [E00] at e2
    have := e2.scale m
    rw [mul_zero, ← hE0] at this
    unfold Cong at this ⊢
    rwa [show (0 : ℤ[X]) - (F - G * H) = G * H - F by ring] at this
  rw [if_neg hz]
  obtain ⟨q, r, Q, R, q1, q2, q3, _, q4, q5, q6⟩ := divModMod_spec hp (mul_is hs e1) hh hmon.ne_zero (by rw [hmon.leadingCoeff]; exact isCoprime_one_left)
  rw [q1, Option.map_some]
  obtain ⟨Tau, t1, _, t2, t3⟩ := modCoeff_is p0 (add_is (mul_is ht e1) (mul_is q2 hg))
  obtain ⟨G', g1, _, g2, g3⟩ := modCoeff_is mp0 (add_is hg (mulCoeff_is hm.ne' t1))
  obtain ⟨H', h1, h1', h2, h3⟩ := modCoeff_is mp0 (add_is hh (mulCoeff_is hm.ne' q3))
  obtain ⟨mo, hd⟩ := monic_lift mp1 hmon q5 h1'
  have key : Cong p (Tau * H + R * G) E := by
    have a1 : Cong p (Tau * H + R * G) ((T * E + Q * G) * H + R * G) := (t2.mul .rfl').add .rfl'
    have a2 : (T * E + Q * G) * H + R * G = (Q * H + R) * G + T * E * H := by ring
    rw [a2] at a1
    have a3 : Cong p ((Q * H + R) * G + T * E * H) (S * E * G + T * E * H) := (q6.mul .rfl').add .rfl'
    have a4 : S * E * G + T * E * H = (S * G + T * H) * E := by ring
    rw [a4] at a3
    have a5 : Cong p ((S * G + T * H) * E) (1 * E) := hbez.mul .rfl'
    rw [one_mul] at a5
    exact a1.trans (a3.trans a5)
  have cG : Cong m G' G := (sub1 g2).trans ⟨Tau, by ring⟩
  have cH : Cong m H' H := (sub1 h2).trans ⟨R, by ring⟩
  refine ⟨_, _, G', H', rfl, g1, h1, ?_, ((Cong.rfl'.mul (cG.of_dvd hpm)).add (Cong.rfl'.mul (cH.of_dvd hpm))).trans hbez, cG, cH, mo, hd, ?_⟩
  · have a1 : Cong (m * p) (G' * H') ((G + C m * Tau) * (H + C m * R)) := g2.mul h2
    have a2 : (G + C m * Tau) * (H + C m * R) = G * H + C m * (Tau * H + R * G) + C (m * m) * (Tau * R) := by rw [C_mul]; ring
    rw [a2] at a1
    have a3 : Cong (m * p) (C m * (Tau * H + R * G)) (C m * E0) := (key.trans e2).scale m
    have a4 : Cong (m * p) (C (m * m) * (Tau * R)) 0 := by
      unfold Cong; rw [sub_zero]
      exact dvd_mul_of_dvd_left (C_dvd_C.2 (mul_dvd_mul_left m hpm)) _
    have a5 : Cong (m * p) (G * H + C m * (Tau * H + R * G) + C (m * m) * (Tau * R)) (G * H + C m * E0 + 0) := (Cong.rfl'.add a3).add a4
    have a6 : G * H + C m * E0 + 0 = F := by rw [← hE0]; ring
    rw [a6] at a5
    exact a1.trans a5
  · have dT : Tau.natDegree + H.natDegree ≤ n := by
      refine t3.natDegree_mul_le (K := E - R * G) hmon ?_ ?_ (by omega)
      · have := key.sub (Cong.rfl' (m := p) (F := R * G))
        simpa using this
      · refine (natDegree_sub_le _ _).trans (max_le dE (natDegree_mul_le.trans ?_))
        have := natDegree_le_natDegree q5.le
        omega
    rw [hd]
    have : G'.natDegree ≤ n - H.natDegree := by
      refine g3.natDegree_le g2 ((natDegree_add_le _ _).trans (max_le ?_ ((natDegree_C_mul_le _ _).trans ?_)))
      · omega
      · omega
    omega

end Upoly
end CLPoly
