import Verif.Res.Loop

/-! # The subresultant branch of the resultant -/

namespace CLPoly
namespace Res
open Mono MvPolynomial Mgcd

variable {R : Type*} [CommRing R] [IsDomain R] [DecidableEq R] {v : Var} {V : Finset Var}

theorem sign_eq {k : ℕ} {s p : MvPolynomial Var R} (h : toU v s = (-1) ^ k * toU v p) : s = (-1) ^ k * p :=
  toU_injective v (by rw [h, map_mul, map_pow, map_neg, map_one])

theorem unsign {k : ℕ} {s p : MvPolynomial Var R} (h : s = (-1) ^ k * p) : p = (-1) ^ k * s := by
  have := sign_cancel (k := k) (a := 1) (h := s) (P := p) (by rw [one_mul]; exact h)
  rwa [mul_one] at this

theorem degreeOf_sign (k : ℕ) (h : MvPolynomial Var R) (w : Var) : ((-1) ^ k * h).degreeOf w = h.degreeOf w := by
  rcases neg_one_pow_eq_or (MvPolynomial Var R) k with e | e <;> rw [e]
  · rw [one_mul]
  · rw [neg_one_mul, degreeOf_neg]

theorem vars_sign (k : ℕ) (h : MvPolynomial Var R) : ((-1) ^ k * h).vars = h.vars := by
  rcases neg_one_pow_eq_or (MvPolynomial Var R) k with e | e <;> rw [e]
  · rw [one_mul]
  · rw [neg_one_mul, vars_neg]

variable {K : ℕ} (hK : (K : ℤ) < capLex V.card)
include hK
variable {divc : R → R → R × R} (D : CoefDiv divc)
include D

/-- operands of the same degree -/
theorem startEq_spec {m d j : ℕ} {S : ℕ → MvPolynomial Var R} (hSv : ∀ i, (S i).vars ⊆ V) (hSd : ∀ i w, (S i).degreeOf w ≤ d) (hcap : (m + 1) * d ≤ K)
    {G B : PV Mono R} (hj1 : 1 ≤ j) (hm : j + 1 ≤ m) (hA : Sz v V d G) (hB : Sz v V d B) (hL : Level (fun i => toU v (S i)) j 1 (toU v (val G)) (toU v (val B))) :
    ∃ N out, (∀ fuel ≥ N, startEq v divc fuel G B j = some out) ∧ PolyOK (varUni v) (lexGt (varUni v)) out ∧ val out = S 0 := by
  have hmd : ∀ k, k ≤ m + 1 → k * d ≤ K := fun k hk => (Nat.mul_le_mul_right d hk).trans hcap
  have hA0 : val G ≠ 0 := fun e => hL.ne (by rw [e, map_zero])
  have hdA := hL.degA
  have hdB := hL.degB
  obtain ⟨lA, lA2, lA3⟩ := lcP_spec hA
  obtain ⟨lB, lB2, lB3⟩ := lcP_spec hB
  have hlA : val (lcP v G) ≠ 0 := by rw [lA2]; exact Polynomial.leadingCoeff_ne_zero.2 (toU_ne_zero hA0)
  obtain ⟨r, hr⟩ : ∃ r, r = (toU v (val B)).natDegree := ⟨_, rfl⟩
  have hud : udeg v B = r := by rw [hr]; exact udeg_eq hB
  rw [← hr] at hdB
  have hatDeg := hL.atDeg (by norm_num)
  rw [← hr, Nat.sub_self, Nat.zero_mul, pow_zero, Polynomial.C_1, one_mul] at hatDeg
  -- the next subresultant, when `B` is not constant
  have hnext : 1 ≤ r → ∃ N P T, premP v G B = some P ∧ (∀ fuel ≥ N, divP v divc fuel P (lcP v G) = some T) ∧ Sz v V d T ∧ Sz v V d (signP (j - r) T) ∧ val (signP (j - r) T) = S (r - 1) ∧
      Level (fun i => toU v (S i)) (r - 1) 2 (toU v (S r)) (toU v (S (r - 1))) := by
    intro hr1
    have hB0 : toU v (val B) ≠ 0 := by
      intro e
      rw [e, Polynomial.natDegree_zero] at hr
      omega
    obtain ⟨P, Q, p1, p2, p3, p4, p5⟩ := premP_spec hK hA hB (by omega) (by omega) (by
      rw [← hr, hdA]
      have := hmd (j + 1 + 1 - r + 1) (by omega)
      rw [show (j + 1 + 1 - r + 1) * d = d + (j + 1 + 1 - r) * d by ring] at this
      exact this)
    rw [← hr, hdA] at p3 p4
    rw [← hr] at p5
    have hstep := hL.step1 (Q := Q) (P := toU v (val P)) hB0 (by omega) (by rw [← p3, ← hr]; congr 3; omega) (by omega) (by omega)
    rw [← hr] at hstep
    obtain ⟨e1, e2⟩ := hstep
    have e3 : val P = ((-1) ^ (j - r) * S (r - 1)) * val (lcP v G) := by
      refine toU_injective v ?_
      rw [map_mul, map_mul, map_pow, lA3, map_neg, map_one]
      exact sign_cancel e1
    have szP : Sz v V K P := .of_val p2 e3 ((vars_mul _ _).trans (Finset.union_subset (by rw [vars_sign]; exact hSv _) lA.vars)) fun w => by
      refine (degreeOf_mul_le w _ _).trans ?_
      rw [degreeOf_sign]
      have := hSd (r - 1) w
      have := lA.deg w
      have := hmd 2 (by omega)
      omega
    obtain ⟨N, T, t1, t2, t3⟩ := divP_spec hK D szP (lA.mono (by have := hmd 1 (by omega); omega)) hlA e3
    have szT : Sz v V d T := .of_val t2 t3 (by rw [vars_sign]; exact hSv _) fun w => by rw [degreeOf_sign]; exact hSd _ w
    obtain ⟨g1, g2⟩ := signP_spec (k := j - r) szT
    exact ⟨N, P, T, p1, t1, szT, g1, by rw [g2, t3]; exact (unsign rfl).symm, e2⟩
  unfold startEq
  simp only [hud]
  by_cases hgap : r < j
  · obtain ⟨Sr, s1, s2, s3⟩ := powMulP_spec hK lB hB (k := j - r) (by omega) (by
      have := hmd (j - r + 1) (by omega)
      rw [add_mul, one_mul] at this
      exact this)
    have s4 : val Sr = S r := by
      refine toU_injective v ?_
      rw [s3, map_mul, map_pow, lB3, hatDeg, ← map_pow]
    by_cases hr0 : r = 0
    · refine ⟨0, Sr, fun fuel _ => ?_, s2.ok, by rw [s4, hr0]⟩
      rw [if_pos hgap, if_pos (by omega), s1, Option.bind_some, if_pos hr0]
    · obtain ⟨N1, P, T, p1, t1, szT, sz2, v2, lev⟩ := hnext (by omega)
      by_cases hr1 : r = 1
      · refine ⟨N1, signP (j - r) T, fun fuel hf => ?_, sz2.ok, by rw [v2, hr1]⟩
        rw [if_pos hgap, if_neg (not_not.2 hr1), Option.bind_some, if_neg hr0, p1, Option.bind_some, t1 fuel hf, Option.bind_some, hr1]
        rw [resLoop]
      · have szS : Sz v V d Sr := .of_val s2.ok s4 (hSv _) (hSd _)
        obtain ⟨N3, out, o1, o2, o3⟩ := resLoop_spec hK D (fun i _ => hSv i) (fun i _ => hSd i) hcap (r - 1) (r - 1) Sr (signP (j - r) T) le_rfl (by omega) szS sz2 (by rw [s4, v2]; exact lev)
        refine ⟨max N1 N3, out, fun fuel hf => ?_, o2, o3⟩
        rw [if_pos hgap, if_pos hr1, s1, Option.bind_some, if_neg hr0, p1, Option.bind_some, t1 fuel (by omega), Option.bind_some, o1 fuel (by omega)]
  · have hrj : r = j := by omega
    obtain ⟨N1, P, T, p1, t1, szT, sz2, v2, lev⟩ := hnext (by omega)
    rw [hrj] at v2 lev hatDeg
    rw [Nat.sub_self, signP, if_neg (by norm_num)] at v2
    rw [Nat.sub_self, pow_zero, Polynomial.C_1, one_mul] at hatDeg
    obtain ⟨N3, out, o1, o2, o3⟩ := resLoop_spec hK D (fun i _ => hSv i) (fun i _ => hSd i) hcap (j - 1) (j - 1) B T le_rfl (by omega) hB szT (by rw [v2, ← hatDeg]; exact lev)
    refine ⟨max N1 N3, out, fun fuel hf => ?_, o2, o3⟩
    rw [if_neg hgap, p1, Option.bind_some, t1 fuel (by omega), Option.bind_some, o1 fuel (by omega)]

/-- **the subresultant branch** -/
theorem resChain_spec {m l d : ℕ} {F G : PV Mono R} (hF : Sz v V d F) (hG : Sz v V d G) (hm : (val F).degreeOf v = m) (hl : (val G).degreeOf v = l) (hl1 : 1 ≤ l) (hlm : l ≤ m)
    (hd : ∀ w, l * (val F).degreeOf w + m * (val G).degreeOf w ≤ d) (hcap : (m + 1) * d ≤ K) :
    ∃ N out, (∀ fuel ≥ N, resChain v divc fuel F G = some out) ∧ PolyOK (varUni v) (lexGt (varUni v)) out ∧
      toU v (val out) = Polynomial.C (Polynomial.resultant (toU v (val F)) (toU v (val G)) m l) := by
  have hmd : ∀ k, k ≤ m + 1 → k * d ≤ K := fun k hk => (Nat.mul_le_mul_right d hk).trans hcap
  obtain ⟨S, hS, hSv, hSd⟩ := exists_chain v (val F) (val G) hm hl (by omega) hl1 hF.vars hG.vars hd
  have hm' : (toU v (val F)).natDegree = m := by rw [natDegree_toU, hm]
  have hl' : (toU v (val G)).natDegree = l := by rw [natDegree_toU, hl]
  have hSi : ∀ i, toU v (S i) = Sub (toU v (val F)) (toU v (val G)) m l i := fun i => congrFun hS i
  suffices h : ∃ N out, (∀ fuel ≥ N, resChain v divc fuel F G = some out) ∧ PolyOK (varUni v) (lexGt (varUni v)) out ∧ val out = S 0 by
    obtain ⟨N, out, h1, h2, h3⟩ := h
    refine ⟨N, out, h1, h2, ?_⟩
    rw [h3, hSi, ← SB_resultant _ _ hm'.le hl'.le (by omega)]
    rfl
  have uF : udeg v F = m := by rw [udeg_eq hF, hm']
  have uG : udeg v G = l := by rw [udeg_eq hG, hl']
  obtain ⟨P, Q, p1, p2, p3, p4, p5⟩ := premP_spec hK hF hG (by omega) (by omega) (by
    rw [hm', hl']
    have := hmd (m + 1 - l + 1) (by omega)
    rw [show (m + 1 - l + 1) * d = d + (m + 1 - l) * d by ring] at this
    exact this)
  rw [hm', hl'] at p3 p4
  rw [hl'] at p5
  unfold resChain
  simp only [uF, uG]
  by_cases hlt : l < m
  · obtain ⟨q1, q2, q3⟩ := start_lt hm' hl' hl1 hlt p3 p4 p5
    rw [← hSi] at q1 q2
    rw [← hS] at q3
    have vP : S (l - 1) = (-1) ^ (m - 1 - l) * val P := sign_eq q1
    have szP : Sz v V d P := .of_val p2 (unsign vP) (by rw [vars_sign]; exact hSv _) fun w => by rw [degreeOf_sign]; exact hSd _ w
    obtain ⟨g1, g2⟩ := signP_spec (k := m - 1 - l) szP
    have g3 : val (signP (m - 1 - l) P) = S (l - 1) := by rw [g2, vP]
    simp only [hlt, if_true]
    by_cases hl2 : m - 1 = l
    · have e0 : m - 1 - l = 0 := by omega
      rw [e0] at q2 g3
      rw [pow_zero, Polynomial.C_1, one_mul] at q2
      rw [signP, if_neg (by norm_num)] at g3
      obtain ⟨N3, out, o1, o2, o3⟩ := resLoop_spec hK D (fun i _ => hSv i) (fun i _ => hSd i) hcap (l - 1) (l - 1) G P le_rfl (by omega) hG szP (by rw [g3, ← q2]; exact q3)
      exact ⟨N3, out, fun fuel hf => by rw [if_pos hl2, p1, Option.bind_some, o1 fuel hf], o2, o3⟩
    · obtain ⟨lB, lB2, lB3⟩ := lcP_spec hG
      obtain ⟨Sr, s1, s2, s3⟩ := powMulP_spec hK lB hG (k := m - 1 - l) (by omega) (by
        have := hmd (m - 1 - l + 1) (by omega)
        rw [add_mul, one_mul] at this
        exact this)
      have s4 : val Sr = S l := by
        refine toU_injective v ?_
        rw [s3, map_mul, map_pow, lB3, q2, ← map_pow]
      have szS : Sz v V d Sr := .of_val s2.ok s4 (hSv _) (hSd _)
      obtain ⟨N3, out, o1, o2, o3⟩ := resLoop_spec hK D (fun i _ => hSv i) (fun i _ => hSd i) hcap (l - 1) (l - 1) Sr (signP (m - 1 - l) P) le_rfl (by omega) szS g1 (by rw [g3, s4]; exact q3)
      exact ⟨N3, out, fun fuel hf => by rw [if_neg hl2, s1, Option.bind_some, p1, Option.bind_some, o1 fuel hf], o2, o3⟩
  · obtain rfl : l = m := by omega
    rw [show l + 1 - l = 1 by omega] at p3
    rw [Nat.sub_self] at p4
    obtain ⟨q1, q2⟩ := start_eq hm' hl' hl1 p3 p4 p5
    rw [← hSi] at q1
    rw [← hS] at q2
    have vP : val (pvNeg P) = S (l - 1) := by
      refine toU_injective v ?_
      rw [q1, val_pvNeg, map_neg]
    have szP : Sz v V d (pvNeg P) := .of_val p2.neg vP (hSv _) (hSd _)
    simp only [lt_irrefl, if_false]
    by_cases h1 : l - 1 = 0
    · exact ⟨0, pvNeg P, fun fuel _ => by rw [p1, Option.bind_some, if_pos h1], p2.neg, by rw [vP, h1]⟩
    · obtain ⟨N, out, o1, o2, o3⟩ := startEq_spec hK D hSv hSd hcap (j := l - 1) (by omega) (by omega) hG szP (by rw [vP]; exact q2)
      exact ⟨N, out, fun fuel hf => by rw [p1, Option.bind_some, if_neg h1, o1 fuel hf], o2, o3⟩

end Res
end CLPoly
