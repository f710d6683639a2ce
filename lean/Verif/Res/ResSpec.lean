import Verif.Res.BezSpec
import Verif.Gcd.SqfSpec

/-! # The resultant and the discriminant -/

namespace CLPoly
namespace Res
open Mono MvPolynomial Mgcd

variable {R : Type*} [CommRing R] [IsDomain R] [DecidableEq R] {v : Var} {V : Finset Var}

/-- degrees and variables of the resultant -/
theorem res_bounds {f g h : MvPolynomial Var R} {m l d : ℕ} (hm : f.degreeOf v = m) (hl : g.degreeOf v = l) (hm1 : 1 ≤ m) (hl1 : 1 ≤ l) (hf : f.vars ⊆ V) (hg : g.vars ⊆ V)
    (hd : ∀ w, l * f.degreeOf w + m * g.degreeOf w ≤ d) (hh : toU v h = Polynomial.C (Polynomial.resultant (toU v f) (toU v g) m l)) : h.vars ⊆ V ∧ ∀ w, h.degreeOf w ≤ d := by
  obtain ⟨S, hS, hSv, hSd⟩ := exists_chain v f g hm hl hm1 hl1 hf hg hd
  have e : h = S 0 := by
    refine toU_injective v ?_
    rw [hh, congrFun hS 0, ← SB_resultant _ _ (by rw [natDegree_toU, hm]) (by rw [natDegree_toU, hl]) (by omega)]
    rfl
  rw [e]
  exact ⟨hSv 0, hSd 0⟩

variable {K : ℕ} (hK : (K : ℤ) < capLex V.card) {divc : R → R → R × R} (D : CoefDiv divc)
include hK D

theorem resGo_spec {m l d : ℕ} {F G : PV Mono R} (hF : Sz v V d F) (hG : Sz v V d G) (hm : (val F).degreeOf v = m) (hl : (val G).degreeOf v = l) (hl1 : 1 ≤ l) (hlm : l ≤ m)
    (hd : ∀ w, l * (val F).degreeOf w + m * (val G).degreeOf w ≤ d) (hcap : (m + 1) * d ≤ K) :
    ∃ N out, (∀ fuel ≥ N, (if (pvVars (varUni v) G (pvVars (varUni v) F [])).length > 3 then (bezout v F G).bind fun B => detP v (udeg v F) B else resChain v divc fuel F G) = some out) ∧
      PolyOK (varUni v) (lexGt (varUni v)) out ∧ toU v (val out) = Polynomial.C (Polynomial.resultant (toU v (val F)) (toU v (val G)) m l) := by
  by_cases h3 : (pvVars (varUni v) G (pvVars (varUni v) F [])).length > 3
  · simp only [if_pos h3]
    obtain ⟨out, o1, o2, o3⟩ := resBez_spec hK hF.ok hG.ok hF.vars hG.vars hm hl hl1 hlm hd hcap
    exact ⟨0, out, fun fuel _ => o1, o2, o3⟩
  · simp only [if_neg h3]
    exact resChain_spec hK D hF hG hm hl hl1 hlm hd hcap

theorem resUp_spec {d m l : ℕ} {F G : PV Mono R} (hF : PolyOK (varUni v) (lexGt (varUni v)) F) (hG : PolyOK (varUni v) (lexGt (varUni v)) G) (hFV : (val F).vars ⊆ V) (hGV : (val G).vars ⊆ V)
    (hm : (val F).degreeOf v = m) (hl : (val G).degreeOf v = l) (hd : ∀ w, l * (val F).degreeOf w + m * (val G).degreeOf w ≤ d) (hcap : (max m l + 1) * d ≤ K) :
    ∃ N out, (∀ fuel ≥ N, resUp v divc fuel F G = some out) ∧ PolyOK (varUni v) (lexGt (varUni v)) out ∧ (val F = 0 ∨ val G = 0 → val out = 0) ∧
      (val F ≠ 0 → val G ≠ 0 → toU v (val out) = Polynomial.C (Polynomial.resultant (toU v (val F)) (toU v (val G)) m l)) ∧ (val out).vars ⊆ V ∧ ∀ w, (val out).degreeOf w ≤ d := by
  have M := lex_ord (varUni_ord v)
  have hm' : (toU v (val F)).natDegree = m := by rw [natDegree_toU, hm]
  have hl' : (toU v (val G)).natDegree = l := by rw [natDegree_toU, hl]
  have uF : udeg v F = m := by rw [udeg, pUpDeg_eq (varUni_ord v) hF (top_uni v F), hm, Int.toNat_natCast]
  have uG : udeg v G = l := by rw [udeg, pUpDeg_eq (varUni_ord v) hG (top_uni v G), hl, Int.toNat_natCast]
  have hdK : d ≤ K := (Nat.le_mul_of_pos_left d (by omega)).trans hcap
  have hpow : ∀ {p : PV Mono R} {n : ℕ}, PolyOK (varUni v) (lexGt (varUni v)) p → (val p).vars ⊆ V → (∀ w, n * (val p).degreeOf w ≤ d) →
      ∃ out, polyPow (varUni v) (codeLex R (varUni v)) p n = some out ∧ PolyOK (varUni v) (lexGt (varUni v)) out ∧ val out = val p ^ n ∧ (val out).vars ⊆ V ∧ ∀ w, (val out).degreeOf w ≤ d := by
    intro p n hp hpV hpd
    have hfit : PowFits (varUni v) (codeLex R (varUni v)) (FitsLex (varUni v)) p n := powFits_lex (varUni_ord v) fun w => by
      have h3 := CLPoly.capLex_anti (Finset.card_le_card hpV)
      have h4 : ((n * (val p).degreeOf w : ℕ) : ℤ) ≤ K := by exact_mod_cast (hpd w).trans hdK
      push_cast at h4
      omega
    obtain ⟨out, o1, o2, o3⟩ := polyPow_spec (codeLex_ok (varUni_ord v)) hfit hp
    exact ⟨out, o1, o2, o3, by rw [o3]; exact (vars_pow_subset _ _).trans hpV, fun w => by rw [o3]; exact (degreeOf_pow_le w _ _).trans (hpd w)⟩
  unfold resUp
  by_cases h0 : G = [] ∨ F = []
  · simp only [if_pos h0]
    refine ⟨0, [], fun _ _ => rfl, .nil, fun _ => val_nil, fun hf hg => ?_, by simp [val_nil], by simp [val_nil]⟩
    rcases h0 with rfl | rfl
    · exact absurd val_nil hg
    · exact absurd val_nil hf
  push Not at h0
  have F0 : val F ≠ 0 := fun e => h0.2 ((hF.val_eq_zero M).1 e)
  have G0 : val G ≠ 0 := fun e => h0.1 ((hG.val_eq_zero M).1 e)
  have hz : val F = 0 ∨ val G = 0 → False := fun h => h.elim F0 G0
  simp only [if_neg (not_or.2 h0), uF, uG]
  by_cases hm0 : m = 0
  · subst hm0
    simp only [if_true]
    obtain ⟨out, o1, o2, o3, o4, o5⟩ := hpow hF hFV (n := l) fun w => (Nat.le_add_right _ _).trans (hd w)
    refine ⟨0, out, fun _ _ => o1, o2, fun h => (hz h).elim, fun _ _ => ?_, o4, o5⟩
    rw [o3, map_pow, Polynomial.resultant_zero_left_deg, toU_free (degreeOf_zero_iff.1 hm), Polynomial.coeff_C_zero, map_pow]
  by_cases hl0 : l = 0
  · subst hl0
    simp only [if_neg hm0, if_true]
    obtain ⟨out, o1, o2, o3, o4, o5⟩ := hpow hG hGV (n := m) fun w => (Nat.le_add_left _ _).trans (hd w)
    refine ⟨0, out, fun _ _ => o1, o2, fun h => (hz h).elim, fun _ _ => ?_, o4, o5⟩
    rw [o3, map_pow, Polynomial.resultant_zero_right_deg, toU_free (degreeOf_zero_iff.1 hl), Polynomial.coeff_C_zero, map_pow]
  simp only [if_neg hm0, if_neg hl0]
  have sF : Sz v V d F := ⟨hF, hFV, fun w => by
    have h1 := hd w
    have h2 := Nat.le_mul_of_pos_left ((val F).degreeOf w) (show 0 < l by omega)
    omega⟩
  have sG : Sz v V d G := ⟨hG, hGV, fun w => by
    have h1 := hd w
    have h2 := Nat.le_mul_of_pos_left ((val G).degreeOf w) (show 0 < m by omega)
    omega⟩
  by_cases hml : m < l
  · simp only [if_pos hml]
    rw [max_eq_right hml.le] at hcap
    obtain ⟨N, out, o1, o2, o3⟩ := resGo_spec hK D sG sF hl hm (by omega) hml.le (fun w => by rw [add_comm]; exact hd w) hcap
    rw [uG] at o1
    obtain ⟨b1, b2⟩ := res_bounds hl hm (by omega) (by omega) hGV hFV (fun w => by rw [add_comm]; exact hd w) o3
    refine ⟨N, if l % 2 = 1 ∧ m % 2 = 1 then pvNeg out else out, fun fuel hf => by rw [o1 fuel hf]; rfl, by split; exacts [o2.neg, o2], fun h => (hz h).elim, fun _ _ => ?_, ?_, fun w => ?_⟩
    · rw [Polynomial.resultant_comm, map_mul, ← o3]
      split
      · rename_i h
        rw [val_pvNeg, map_neg, ((Nat.odd_iff.2 h.2).mul (Nat.odd_iff.2 h.1)).neg_one_pow, map_neg, map_one]
        exact (neg_one_mul (toU v (val out))).symm
      · rename_i h
        have he : Even (m * l) := by
          rw [Nat.even_mul, Nat.even_iff, Nat.even_iff]
          omega
        rw [he.neg_one_pow, map_one, one_mul]
    · split
      · rw [val_pvNeg, vars_neg]; exact b1
      · exact b1
    · split
      · rw [val_pvNeg, degreeOf_neg]; exact b2 w
      · exact b2 w
  · simp only [if_neg hml]
    rw [max_eq_left (by omega)] at hcap
    obtain ⟨N, out, o1, o2, o3⟩ := resGo_spec hK D sF sG hm hl (by omega) (by omega) hd hcap
    rw [uF] at o1
    obtain ⟨b1, b2⟩ := res_bounds hm hl (by omega) (by omega) hFV hGV hd o3
    exact ⟨N, out, o1, o2, fun h => (hz h).elim, fun _ _ => o3, b1, b2⟩

omit [IsDomain R] hK D in
theorem conv_val {vc₁ vc₂ : Var → Var → Bool} {mc₁ mc₂ : Mono → Mono → Bool} (M : MonoOrd vc₁ mc₁) (M' : MonoOrd vc₂ mc₂) {p : PV Mono R} (hp : PolyOK vc₁ mc₁ p) :
    PolyOK vc₂ mc₂ (polyConvert vc₂ mc₂ id p) ∧ val (polyConvert vc₂ mc₂ id p) = val p := by
  obtain ⟨a, b⟩ := polyConvert_spec M M' hp id rfl
  exact ⟨a, by ext s; exact b s⟩

omit hK in
/-- **`resultant`** -/
theorem resultant_spec {vc : Var → Var → Bool} {mc : Mono → Mono → Bool} (M : MonoOrd vc mc) {F G : PV Mono R} (hF : PolyOK vc mc F) (hG : PolyOK vc mc G) (v : Var) {m l : ℕ}
    (hm : (val F).degreeOf v = m) (hl : (val G).degreeOf v = l)
    (hcap : ∀ w, (((max m l + 1) * (l * (val F).degreeOf w + m * (val G).degreeOf w) : ℕ) : ℤ) < capLex ((val F).vars ∪ (val G).vars).card) :
    ∃ N out, (∀ fuel ≥ N, resultant vc mc divc fuel F G v = some out) ∧ PolyOK vc mc out ∧ (val F = 0 ∨ val G = 0 → val out = 0) ∧
      (val F ≠ 0 → val G ≠ 0 → v ∉ (val out).vars ∧ val out = Polynomial.resultant (toU v (val F)) (toU v (val G)) m l) := by
  have Mu := lex_ord (varUni_ord v)
  obtain ⟨f1, f2⟩ := conv_val M Mu hF
  obtain ⟨g1, g2⟩ := conv_val M Mu hG
  obtain ⟨K, hKe⟩ : ∃ K : ℕ, (K : ℤ) + 1 = capLex ((val F).vars ∪ (val G).vars).card := by
    refine ⟨(capLex ((val F).vars ∪ (val G).vars).card - 1).toNat, ?_⟩
    have := hcap 0
    omega
  have hcap' : ∀ w, (max m l + 1) * (l * (val F).degreeOf w + m * (val G).degreeOf w) ≤ K := fun w => by
    have := hcap w
    omega
  obtain ⟨N, out, o1, o2, o3, o4, -, -⟩ := resUp_spec (V := (val F).vars ∪ (val G).vars) (K := K) (v := v) (d := K / (max m l + 1)) (by omega) D f1 g1
    (by rw [f2]; exact Finset.subset_union_left) (by rw [g2]; exact Finset.subset_union_right) (by rw [f2]; exact hm) (by rw [g2]; exact hl)
    (fun w => by
      rw [f2, g2, Nat.le_div_iff_mul_le (by omega), mul_comm]
      exact hcap' w) (Nat.mul_div_le _ _)
  obtain ⟨c1, c2⟩ := conv_val Mu M o2
  rw [f2, g2] at o3 o4
  refine ⟨N, polyConvert vc mc id out, fun fuel hf => by rw [resultant, o1 fuel hf, Option.map_some], c1, fun h => by rw [c2]; exact o3 h, fun hf hg => ?_⟩
  have h1 := o4 hf hg
  have h2 : (val out).degreeOf v = 0 := by rw [← natDegree_toU, h1, Polynomial.natDegree_C]
  rw [c2]
  have h3 := degreeOf_zero_iff.1 h2
  refine ⟨h3, ?_⟩
  rw [toU_free h3] at h1
  exact Polynomial.C_injective h1

omit hK D in
/-- **`discriminant`** over the integers -/
theorem discriminant_spec {vc : Var → Var → Bool} {mc : Mono → Mono → Bool} {divc : ℤ → ℤ → ℤ × ℤ} (D : CoefDiv divc) (M : MonoOrd vc mc) {G : PV Mono ℤ} (hG : PolyOK vc mc G) (v : Var) {m : ℕ}
    (hm : (val G).degreeOf v = m)
    (hcap : ∀ w, (((m + 1) * (2 * m * (val G).degreeOf w) : ℕ) : ℤ) < capLex (val G).vars.card) :
    ∃ N out, (∀ fuel ≥ N, discriminant vc mc divc fuel G v = some out) ∧ PolyOK vc mc out ∧ (m = 0 → val out = 0) ∧
      (m ≠ 0 → v ∉ (val out).vars ∧ val out = (toU v (val G)).discr) := by
  have ho := varUni_ord v
  have Mu := lex_ord ho
  obtain ⟨g1, g2⟩ := conv_val M Mu hG
  obtain ⟨G1, hG1⟩ : ∃ G1, G1 = polyConvert (varUni v) (lexGt (varUni v)) id G := ⟨_, rfl⟩
  rw [← hG1] at g1 g2
  have uG : udeg v G1 = m := by rw [udeg, pUpDeg_eq ho g1 (top_uni v G1), g2, hm, Int.toNat_natCast]
  unfold discriminant
  simp only [← hG1, uG]
  by_cases hm0 : m = 0
  · simp only [if_pos hm0]
    exact ⟨0, [], fun _ _ => rfl, .nil, fun _ => val_nil, fun h => absurd hm0 h⟩
  simp only [if_neg hm0]
  have hfv : pFirstVar G1 = v := by
    by_contra hne
    have := top_first ho g1 (top_uni v G1)
    rw [if_neg hne, g2, hm] at this
    omega
  have hmu : (toU v (val G)).natDegree = m := by rw [natDegree_toU, hm]
  -- the derivative
  have e1 := derivLex_eq ho g1
  rw [hfv] at e1
  obtain ⟨d1, d2⟩ : PolyOK (varUni v) (lexGt (varUni v)) (derivLex G1) ∧ val (derivLex G1) = pderiv v (val G) := by
    rw [e1]
    exact ⟨derivative_ok Mu g1 v, by rw [val_derivative ho g1.monos, g2]⟩
  have d3 : toU v (val (derivLex G1)) = Polynomial.derivative (toU v (val G)) := by rw [d2, toU_pderiv]
  have d4 : (val (derivLex G1)).degreeOf v = m - 1 := by
    rw [← natDegree_toU, d3, Polynomial.natDegree_derivative, hmu]
  obtain ⟨d5, -⟩ := pderiv_lt (P := val G) (v := v) (by omega)
  have G0 : val G ≠ 0 := by
    intro e
    rw [e, degreeOf_zero] at hm
    exact hm0 hm.symm
  have d6 : ∀ w, (pderiv v (val G)).degreeOf w ≤ (val G).degreeOf w := by
    intro w
    rw [degreeOf_eq_sup]
    refine Finset.sup_le fun s hs => ?_
    have h1 := mem_support_iff.1 hs
    rw [coeff_pderiv] at h1
    have h2 := monomial_le_degreeOf w (mem_support_iff.2 (left_ne_zero_of_mul h1))
    rw [Finsupp.add_apply] at h2
    omega
  have d7 : (pderiv v (val G)).vars ⊆ (val G).vars := fun w hw => by
    by_contra h0
    have h1 : (val G).degreeOf w = 0 := degreeOf_zero_iff.2 h0
    have h2 := d6 w
    exact degreeOf_zero_iff.1 (by omega) hw
  obtain ⟨K, hKe⟩ : ∃ K : ℕ, (K : ℤ) + 1 = capLex (val G).vars.card := by
    refine ⟨(capLex (val G).vars.card - 1).toNat, ?_⟩
    have := hcap 0
    omega
  have hcap' : ∀ w, (m + 1) * (2 * m * (val G).degreeOf w) ≤ K := fun w => by
    have := hcap w
    omega
  obtain ⟨N, O1, o1, o2, -, o4, o5, o6⟩ := resUp_spec (V := (val G).vars) (K := K) (v := v) (d := K / (m + 1)) (m := m) (l := m - 1) (by omega) D g1 d1
    (by rw [g2]) (by rw [d2]; exact d7) (by rw [g2]; exact hm) d4
    (fun w => by
      rw [g2, d2, Nat.le_div_iff_mul_le (by omega), mul_comm]
      refine le_trans (Nat.mul_le_mul_left _ ?_) (hcap' w)
      have h1 := Nat.mul_le_mul_left m (d6 w)
      have h2 := Nat.mul_le_mul_right ((val G).degreeOf w) (Nat.sub_le m 1)
      rw [mul_assoc, two_mul]
      exact add_le_add h2 h1) (by rw [max_eq_left (Nat.sub_le m 1)]; exact Nat.mul_div_le _ _)
  have hdeg : 0 < (toU v (val G)).degree := Polynomial.natDegree_pos_iff_degree_pos.1 (by omega)
  have r1 := o4 (by rw [g2]; exact G0) (by rw [d2]; exact d5)
  rw [g2, d3] at r1
  have r2 := Polynomial.resultant_deriv hdeg
  rw [hmu] at r2
  rw [r2] at r1
  have hfree : v ∉ (val O1).vars := degreeOf_zero_iff.1 (by rw [← natDegree_toU, r1, Polynomial.natDegree_C])
  rw [toU_free hfree] at r1
  have r3 := Polynomial.C_injective r1
  have hdle : K / (m + 1) ≤ K := Nat.div_le_self _ _
  have sO : Sz v (val G).vars K O1 := ⟨o2, o5, fun w => (o6 w).trans hdle⟩
  -- the leading coefficient
  have hnn : isNumber G1 = false := by
    by_contra h
    obtain ⟨c, hc⟩ := (isNumber_iff Mu g1).1 (by simpa using h)
    rw [g2] at hc
    rw [hc, degreeOf_C] at hm
    exact hm0 hm.symm
  obtain ⟨l1, -, l3⟩ := leadLex_spec ho g1 hnn
  rw [hfv, g2, hm] at l3
  have l4 : val (leadLex G1) = (toU v (val G)).leadingCoeff := by rw [isCoeff_iff.1 l3, Polynomial.leadingCoeff, hmu]
  have sL : Sz v (val G).vars K (leadLex G1) := ⟨l1, l3.vars_subset, fun w => l3.degreeOf_le.trans (by
    have h1 := hcap' w
    have h2 := Nat.le_mul_of_pos_left ((val G).degreeOf w) (show 0 < (m + 1) * (2 * m) by positivity)
    rw [mul_assoc] at h2
    omega)⟩
  have hev : (if m * (m - 1) % 4 ≠ 0 then pvNeg O1 else O1) = signP (m * (m - 1) / 2) O1 := by
    have h2 : m * (m - 1) % 2 = 0 := Nat.even_iff.1 (Nat.even_mul_pred_self m)
    unfold signP
    by_cases h : m * (m - 1) % 4 = 0
    · rw [if_neg (by simpa using h), if_neg (by omega)]
    · rw [if_pos h, if_pos (by omega)]
  obtain ⟨s1, s2⟩ := signP_spec (k := m * (m - 1) / 2) sO
  obtain ⟨N2, out, q1, q2, q3⟩ := divP_spec (K := K) (V := (val G).vars) (v := v) (by omega) D (h := (toU v (val G)).discr) s1 sL (by rw [l4]; exact Polynomial.leadingCoeff_ne_zero.2 (toU_ne_zero G0)) (by
    rw [s2, r3, l4, mul_assoc, ← mul_assoc, ← pow_add, (Even.add_self _).neg_one_pow, one_mul, mul_comm])
  obtain ⟨c1, c2⟩ := conv_val Mu M q2
  refine ⟨max N N2, polyConvert vc mc id out, fun fuel hf => by rw [o1 fuel (by omega), Option.bind_some, hev, q1 fuel (by omega), Option.map_some], c1, fun h => absurd h hm0, fun _ => ?_⟩
  rw [c2]
  refine ⟨?_, q3⟩
  -- a factor of a polynomial without `v`
  by_cases hz : (toU v (val G)).discr = 0
  · rw [q3, hz]; simp
  · have e2 : val O1 = (-1) ^ (m * (m - 1) / 2) * (toU v (val G)).leadingCoeff * val out := by rw [r3, q3]
    have hne : val O1 ≠ 0 := by
      rw [r3]
      exact mul_ne_zero (mul_ne_zero (pow_ne_zero _ (by norm_num)) (Polynomial.leadingCoeff_ne_zero.2 (toU_ne_zero G0))) hz
    have := vars_of_dvd (Dvd.intro_left _ e2.symm) hne
    exact fun h => hfree (this h)

end Res
end CLPoly
