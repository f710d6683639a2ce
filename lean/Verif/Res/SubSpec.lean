import Verif.Res.SubLoop
import Verif.Res.ResSpec

/-! # The chain returned by `subresultant` -/

namespace CLPoly
namespace Res
open Mono MvPolynomial Mgcd

variable {R : Type*} [CommRing R] [IsDomain R] [DecidableEq R] {v : Var} {V : Finset Var}
variable {K : ℕ} (hK : (K : ℤ) < capLex V.card)
include hK
variable {divc : R → R → R × R} (D : CoefDiv divc)
include D

section start
variable {m d j : ℕ} {S : ℕ → MvPolynomial Var R} (hSv : ∀ i, (S i).vars ⊆ V) (hSd : ∀ i w, (S i).degreeOf w ≤ d) (hcap : (m + 1) * d ≤ K)
    {G B : PV Mono R} (hj1 : 1 ≤ j) (hm : j + 1 ≤ m) (hA : Sz v V d G) (hB : Sz v V d B) (hL : Level (fun i => toU v (S i)) j 1 (toU v (val G)) (toU v (val B)))
    {r : ℕ} (hr : r = (toU v (val B)).natDegree)
include hSv hSd hcap hj1 hm hA hB hL hr

/-- the next subresultant, when `B` is not constant -/
theorem start_next (hr1 : 1 ≤ r) : ∃ N P T, premP v G B = some P ∧ (∀ fuel ≥ N, divP v divc fuel P (lcP v G) = some T) ∧ Sz v V d T ∧ Sz v V d (signP (j - r) T) ∧ val (signP (j - r) T) = S (r - 1) ∧
      Level (fun i => toU v (S i)) (r - 1) 2 (toU v (S r)) (toU v (S (r - 1))) := by
  have hmd : ∀ k, k ≤ m + 1 → k * d ≤ K := fun k hk => (Nat.mul_le_mul_right d hk).trans hcap
  have hA0 : val G ≠ 0 := fun e => hL.ne (by rw [e, map_zero])
  have hdA := hL.degA
  have hdB := hL.degB
  obtain ⟨lA, lA2, lA3⟩ := lcP_spec hA
  have hlA : val (lcP v G) ≠ 0 := by rw [lA2]; exact Polynomial.leadingCoeff_ne_zero.2 (toU_ne_zero hA0)
  rw [← hr] at hdB
  have hB0 : toU v (val B) ≠ 0 := by
    intro e
    rw [e, Polynomial.natDegree_zero] at hr
    omega
  obtain ⟨P, Q, p1, p2, p3, p4, p5⟩ := premP_spec hK hA hB (by omega) (by omega) (by
    rw [← hr, hdA]
    have := hmd (j + 1 + 1 - r + 1) (by omega)
    rw [show (j + 1 + 1 - r + 1) * d = d + (j + 1 + 1 - r) * d by ring] at this
    exact this)
  rw [← hr, hdA] at p3 p4
  rw [← hr] at p5
  have hstep := hL.step1 (Q := Q) (P := toU v (val P)) hB0 (by omega) (by rw [← p3, ← hr]; congr 3; omega) (by omega) (by omega)
  rw [← hr] at hstep
  obtain ⟨e1, e2⟩ := hstep
  have e3 : val P = ((-1) ^ (j - r) * S (r - 1)) * val (lcP v G) := by
    refine toU_injective v ?_
    rw [map_mul, map_mul, map_pow, lA3, map_neg, map_one]
    exact sign_cancel e1
  have szP : Sz v V K P := .of_val p2 e3 ((vars_mul _ _).trans (Finset.union_subset (by rw [vars_sign]; exact hSv _) lA.vars)) fun w => by
    refine (degreeOf_mul_le w _ _).trans ?_
    rw [degreeOf_sign]
    have := hSd (r - 1) w
    have := lA.deg w
    have := hmd 2 (by omega)
    omega
  obtain ⟨N, T, t1, t2, t3⟩ := divP_spec hK D szP (lA.mono (by have := hmd 1 (by omega); omega)) hlA e3
  have szT : Sz v V d T := .of_val t2 t3 (by rw [vars_sign]; exact hSv _) fun w => by rw [degreeOf_sign]; exact hSd _ w
  obtain ⟨g1, g2⟩ := signP_spec (k := j - r) szT
  exact ⟨N, P, T, p1, t1, szT, g1, by rw [g2, t3]; exact (unsign rfl).symm, e2⟩

/-- the subresultant at the bottom of the gap -/
theorem start_gap (hgap : r < j) : ∃ Sr, powMulP v (lcP v B) B (j - r) = some Sr ∧ Sz v V d Sr ∧ val Sr = S r := by
  have hmd : ∀ k, k ≤ m + 1 → k * d ≤ K := fun k hk => (Nat.mul_le_mul_right d hk).trans hcap
  have hatDeg := hL.atDeg (by norm_num)
  rw [← hr, Nat.sub_self, Nat.zero_mul, pow_zero, Polynomial.C_1, one_mul] at hatDeg
  obtain ⟨lB, lB2, lB3⟩ := lcP_spec hB
  obtain ⟨Sr, s1, s2, s3⟩ := powMulP_spec hK lB hB (k := j - r) (by omega) (by
    have := hmd (j - r + 1) (by omega)
    rw [add_mul, one_mul] at this
    exact this)
  have s4 : val Sr = S r := by
    refine toU_injective v ?_
    rw [s3, map_mul, map_pow, lB3, hatDeg, ← map_pow]
  exact ⟨Sr, s1, .of_val s2.ok s4 (hSv _) (hSd _), s4⟩

end start

/-- operands of the same degree, list mode -/
theorem subStartEq_list {m d j : ℕ} {S : ℕ → MvPolynomial Var R} (hSv : ∀ i, (S i).vars ⊆ V) (hSd : ∀ i w, (S i).degreeOf w ≤ d) (hcap : (m + 1) * d ≤ K)
    {G B : PV Mono R} (hj1 : 1 ≤ j) (hm : j + 1 ≤ m) (hA : Sz v V d G) (hB : Sz v V d B) (hL : Level (fun i => toU v (S i)) j 1 (toU v (val G)) (toU v (val B)))
    {L : List (PV Mono R)} (hL0 : ∀ i ≤ j, L.getD i [] = []) (hl : j < L.length) :
    ∃ N L', (∀ fuel ≥ N, subStartEq v divc fuel true G B j L = some L') ∧ L'.length = L.length ∧ (∀ i, j < i → L'.getD i [] = L.getD i []) ∧ ∀ i ≤ j, Entry v S j L' i := by
  have hBv : val B = S j := toU_injective v hL.last.symm
  have hg : ∀ k, (L.set j B).getD k [] = if k = j then B else L.getD k [] := fun k => getD_set _ _ _ _ hl
  have hlen : (L.set j B).length = L.length := by simp
  have hgB : (L.set j B).getD j [] = B := by rw [hg, if_pos rfl]
  have hgl : ∀ i < j, (L.set j B).getD i [] = [] := fun i hi => by rw [hg, if_neg (by omega), hL0 i (by omega)]
  have hgh : ∀ i, j < i → (L.set j B).getD i [] = L.getD i [] := fun i hi => by rw [hg, if_neg (by omega)]
  unfold subStartEq
  simp only [if_true]
  by_cases hB0 : B = []
  · simp only [if_pos hB0]
    refine ⟨0, _, fun _ _ => rfl, hlen, hgh, fun i hi => ?_⟩
    have hz := hL.zero (by rw [hB0, val_nil, map_zero])
    have hz' : ∀ i ≤ j, S i = 0 := fun i hi => toU_injective v (by rw [map_zero]; exact hz i hi)
    by_cases h2 : i = j
    · subst h2
      exact .of_eq hgB hB.ok hBv
    · exact .of_eq (hgl i (by omega)) .nil (by rw [val_nil, hz' i (by omega)])
  simp only [if_neg hB0]
  obtain ⟨r, hr⟩ : ∃ r, r = (toU v (val B)).natDegree := ⟨_, rfl⟩
  have hud : udeg v B = r := by rw [hr]; exact udeg_eq hB
  have hdB := hL.degB
  rw [← hr] at hdB
  have hatDeg := hL.atDeg (by norm_num)
  rw [← hr, Nat.sub_self, Nat.zero_mul, pow_zero, Polynomial.C_1, one_mul] at hatDeg
  simp only [hud]
  by_cases hgap : r < j
  · simp only [if_pos hgap]
    have hz : ∀ i, r < i → i < j → S i = 0 := fun i h1 h2 => toU_injective v (by rw [map_zero]; exact hL.gap (i := i) (by omega) h2)
    obtain ⟨Sr, s1, szS, s4⟩ := start_gap hK D hSv hSd hcap hj1 hm hA hB hL hr hgap
    by_cases hr0 : r = 0
    · refine ⟨0, (L.set j B).set 0 Sr, fun fuel _ => by rw [if_pos (by omega), s1, Option.bind_some, if_pos hr0], by rw [List.length_set, hlen], fun i hi => ?_, fun i hi => ?_⟩
      · rw [getD_set _ _ _ _ (by rw [hlen]; omega), if_neg (by omega), hgh i (by omega)]
      · have hs : ∀ i, ((L.set j B).set 0 Sr).getD i [] = if i = 0 then Sr else (L.set j B).getD i [] := fun i => getD_set _ _ _ _ (by rw [hlen]; omega)
        by_cases h0 : i = 0
        · subst h0
          exact .of_eq (by rw [hs, if_pos rfl]) szS.ok (by rw [s4, hr0])
        by_cases h2 : i = j
        · subst h2
          exact .of_eq (by rw [hs, if_neg h0, hgB]) hB.ok hBv
        · exact .of_eq (by rw [hs, if_neg h0, hgl i (by omega)]) .nil (by rw [val_nil, hz i (by omega) (by omega)])
    · obtain ⟨N1, P, T, p1, t1, szT, sz2, v2, lev⟩ := start_next hK D hSv hSd hcap hj1 hm hA hB hL hr (by omega)
      by_cases hr1 : r = 1
      · subst hr1
        refine ⟨N1, ((L.set j B).set 1 []).set 0 (signP (j - 1) T), fun fuel hf => ?_, by rw [List.length_set, List.length_set, hlen], fun i hi => ?_, fun i hi => ?_⟩
        · rw [if_neg (not_not.2 rfl), Option.bind_some, if_neg hr0, p1, Option.bind_some, t1 fuel hf, Option.bind_some, Nat.sub_self, subLoop, if_pos rfl]
        · rw [getD_set _ _ _ _ (by rw [List.length_set, hlen]; omega), if_neg (by omega), getD_set _ _ _ _ (by rw [hlen]; omega), if_neg (by omega), hgh i (by omega)]
        · have hs : ∀ i, ((((L.set j B).set 1 []).set 0 (signP (j - 1) T)).getD i []) = if i = 0 then signP (j - 1) T else if i = 1 then [] else (L.set j B).getD i [] := fun i => by
            rw [getD_set _ _ _ _ (by rw [List.length_set, hlen]; omega), getD_set _ _ _ _ (by rw [hlen]; omega)]
          by_cases h0 : i = 0
          · subst h0
            exact .of_eq (by rw [hs, if_pos rfl]) sz2.ok v2
          by_cases h1 : i = 1
          · subst h1
            refine ⟨by rw [hs, if_neg (by omega), if_pos rfl]; exact .nil, .inr ⟨rfl, by rw [hs, if_neg (by omega), if_pos rfl], j, by omega, le_rfl, ?_⟩⟩
            rw [← natDegree_toU, ← hBv, ← hr]
          by_cases h3 : i = j
          · subst h3
            exact .of_eq (by rw [hs, if_neg h0, if_neg h1, hgB]) hB.ok hBv
          · exact .of_eq (by rw [hs, if_neg h0, if_neg h1, hgl i (by omega)]) .nil (by rw [val_nil, hz i (by omega) (by omega)])
      · obtain ⟨N3, L', o1, o2, o3, o4⟩ := subLoop_list hK D (fun i _ => hSv i) (fun i _ => hSd i) hcap (r - 1) (r - 1) Sr (signP (j - r) T) (L.set j B) le_rfl (by omega) szS sz2 (by rw [s4, v2]; exact lev)
          (by rw [s4, Nat.sub_add_cancel (by omega)]) (fun i hi => hgl i (by omega)) (by rw [hlen]; omega)
        rw [Nat.sub_add_cancel (by omega : 1 ≤ r)] at o3 o4
        refine ⟨max N1 N3, L', fun fuel hf => ?_, by rw [o2, hlen], fun i hi => by rw [o3 i (by omega), hgh i (by omega)], fun i hi => ?_⟩
        · rw [if_pos hr1, s1, Option.bind_some, if_neg hr0, p1, Option.bind_some, t1 fuel (by omega), Option.bind_some, o1 fuel (by omega)]
        · by_cases h0 : i ≤ r
          · exact (o4 i h0).mono (by omega)
          by_cases h3 : i = j
          · subst h3
            exact .of_eq (by rw [o3 _ (by omega), hgB]) hB.ok hBv
          · exact .of_eq (by rw [o3 _ (by omega), hgl i (by omega)]) .nil (by rw [val_nil, hz i (by omega) (by omega)])
  · simp only [if_neg hgap]
    have hrj : r = j := by omega
    obtain ⟨N1, P, T, p1, t1, szT, sz2, v2, lev⟩ := start_next hK D hSv hSd hcap hj1 hm hA hB hL hr (by omega)
    rw [hrj] at v2 lev hatDeg
    rw [Nat.sub_self, signP, if_neg (by norm_num)] at v2
    rw [Nat.sub_self, pow_zero, Polynomial.C_1, one_mul] at hatDeg
    obtain ⟨N3, L', o1, o2, o3, o4⟩ := subLoop_list hK D (fun i _ => hSv i) (fun i _ => hSd i) hcap (j - 1) (j - 1) B T L le_rfl (by omega) hB szT (by rw [v2, ← hatDeg]; exact lev)
      (by rw [hBv, Nat.sub_add_cancel hj1]) (fun i hi => hL0 i (by omega)) (by omega)
    rw [Nat.sub_add_cancel hj1] at o3 o4
    refine ⟨max N1 N3, L', fun fuel hf => ?_, o2, fun i hi => o3 i hi, fun i hi => (o4 i hi).mono (by omega)⟩
    rw [p1, Option.bind_some, t1 fuel (by omega), Option.bind_some, o1 fuel (by omega)]

/-- operands of the same degree, last subresultant only -/
theorem subStartEq_last {m d j : ℕ} {S : ℕ → MvPolynomial Var R} (hSv : ∀ i, (S i).vars ⊆ V) (hSd : ∀ i w, (S i).degreeOf w ≤ d) (hcap : (m + 1) * d ≤ K)
    {G B : PV Mono R} (hj1 : 1 ≤ j) (hm : j + 1 ≤ m) (hA : Sz v V d G) (hB : Sz v V d B) (hL : Level (fun i => toU v (S i)) j 1 (toU v (val G)) (toU v (val B))) :
    ∃ N out, (∀ fuel ≥ N, subStartEq v divc fuel false G B j [[]] = some [out]) ∧ PolyOK (varUni v) (lexGt (varUni v)) out ∧ val out = S 0 := by
  unfold subStartEq
  simp only [Bool.false_eq_true, if_false]
  by_cases hB0 : B = []
  · simp only [if_pos hB0]
    refine ⟨0, [], fun _ _ => rfl, .nil, ?_⟩
    have hz := hL.zero (by rw [hB0, val_nil, map_zero]) 0 (by omega)
    exact (toU_injective v (by rw [val_nil, map_zero]; exact hz.symm))
  simp only [if_neg hB0]
  obtain ⟨r, hr⟩ : ∃ r, r = (toU v (val B)).natDegree := ⟨_, rfl⟩
  have hud : udeg v B = r := by rw [hr]; exact udeg_eq hB
  have hdB := hL.degB
  rw [← hr] at hdB
  have hatDeg := hL.atDeg (by norm_num)
  rw [← hr, Nat.sub_self, Nat.zero_mul, pow_zero, Polynomial.C_1, one_mul] at hatDeg
  simp only [hud]
  by_cases hgap : r < j
  · simp only [if_pos hgap]
    obtain ⟨Sr, s1, szS, s4⟩ := start_gap hK D hSv hSd hcap hj1 hm hA hB hL hr hgap
    by_cases hr0 : r = 0
    · exact ⟨0, Sr, fun fuel _ => by rw [if_pos (by omega), s1, Option.bind_some, if_pos hr0]; rfl, szS.ok, by rw [s4, hr0]⟩
    · obtain ⟨N1, P, T, p1, t1, szT, sz2, v2, lev⟩ := start_next hK D hSv hSd hcap hj1 hm hA hB hL hr (by omega)
      by_cases hr1 : r = 1
      · subst hr1
        refine ⟨N1, signP (j - 1) T, fun fuel hf => ?_, sz2.ok, v2⟩
        rw [if_neg (not_not.2 rfl), Option.bind_some, if_neg hr0, p1, Option.bind_some, t1 fuel hf, Option.bind_some, Nat.sub_self, subLoop]
        rfl
      · obtain ⟨N3, out, o1, o2, o3⟩ := subLoop_last hK D (fun i _ => hSv i) (fun i _ => hSd i) hcap (r - 1) (r - 1) Sr (signP (j - r) T) le_rfl (by omega) szS sz2 (by rw [s4, v2]; exact lev)
        refine ⟨max N1 N3, out, fun fuel hf => ?_, o2, o3⟩
        rw [if_pos hr1, s1, Option.bind_some, if_neg hr0, p1, Option.bind_some, t1 fuel (by omega), Option.bind_some, o1 fuel (by omega)]
  · simp only [if_neg hgap]
    have hrj : r = j := by omega
    obtain ⟨N1, P, T, p1, t1, szT, sz2, v2, lev⟩ := start_next hK D hSv hSd hcap hj1 hm hA hB hL hr (by omega)
    rw [hrj] at v2 lev hatDeg
    rw [Nat.sub_self, signP, if_neg (by norm_num)] at v2
    rw [Nat.sub_self, pow_zero, Polynomial.C_1, one_mul] at hatDeg
    obtain ⟨N3, out, o1, o2, o3⟩ := subLoop_last hK D (fun i _ => hSv i) (fun i _ => hSd i) hcap (j - 1) (j - 1) B T le_rfl (by omega) hB szT (by rw [v2, ← hatDeg]; exact lev)
    refine ⟨max N1 N3, out, fun fuel hf => ?_, o2, o3⟩
    rw [p1, Option.bind_some, t1 fuel (by omega), Option.bind_some, o1 fuel (by omega)]

/-- the chain, for operands sorted for `v` -/
theorem subresUp_list {m l d : ℕ} {F G : PV Mono R} (hF : Sz v V d F) (hG : Sz v V d G) (hm : (val F).degreeOf v = m) (hl : (val G).degreeOf v = l) (hl1 : 1 ≤ l) (hlm : l ≤ m)
    (hcap : (m + 1) * d ≤ K) {S : ℕ → MvPolynomial Var R} (hS : (fun i => toU v (S i)) = Sub (toU v (val F)) (toU v (val G)) m l) (hSv : ∀ i, (S i).vars ⊆ V) (hSd : ∀ i w, (S i).degreeOf w ≤ d)
    {u : ℕ} (hu : u = if l < m then m else m + 1) :
    ∃ N L, (∀ fuel ≥ N, subresUp v divc fuel true F G = some L) ∧ L.length = u + 1 ∧ L.getD u [] = F ∧ (L.getD (u - 1) []) = G ∧
      (∀ i, i ≤ l → i < u - 1 → Entry v S (u - 2) L i) ∧ ∀ i, l < i → i < u - 1 → L.getD i [] = [] := by
  have hmd : ∀ k, k ≤ m + 1 → k * d ≤ K := fun k hk => (Nat.mul_le_mul_right d hk).trans hcap
  have hm' : (toU v (val F)).natDegree = m := by rw [natDegree_toU, hm]
  have hl' : (toU v (val G)).natDegree = l := by rw [natDegree_toU, hl]
  have hSi : ∀ i, toU v (S i) = Sub (toU v (val F)) (toU v (val G)) m l i := fun i => congrFun hS i
  have uF : udeg v F = m := by rw [udeg_eq hF, hm']
  have uG : udeg v G = l := by rw [udeg_eq hG, hl']
  obtain ⟨P, Q, p1, p2, p3, p4, p5⟩ := premP_spec hK hF hG (by omega) (by omega) (by
    rw [hm', hl']
    have := hmd (m + 1 - l + 1) (by omega)
    rw [show (m + 1 - l + 1) * d = d + (m + 1 - l) * d by ring] at this
    exact this)
  rw [hm', hl'] at p3 p4
  rw [hl'] at p5
  unfold subresUp
  simp only [uF, uG, if_true, ← hu]
  obtain ⟨L0, hL0⟩ : ∃ L0, L0 = ((List.replicate (u + 1) ([] : PV Mono R)).set u F).set (u - 1) G := ⟨_, rfl⟩
  simp only [← hL0]
  have len0 : L0.length = u + 1 := by rw [hL0]; simp
  have hu1 : 1 ≤ u := by split at hu <;> omega
  have g0 : ∀ i, L0.getD i [] = if i = u - 1 then G else if i = u then F else [] := fun i => by
    rw [hL0, getD_set _ _ _ _ (by simp), getD_set _ _ _ _ (by simp)]
    congr 2
    rw [List.getD_eq_getElem?_getD, List.getElem?_replicate]
    split <;> rfl
  have gF : L0.getD u [] = F := by rw [g0, if_neg (by omega), if_pos rfl]
  have gG : L0.getD (u - 1) [] = G := by rw [g0, if_pos rfl]
  have gl : ∀ i, i < u - 1 → L0.getD i [] = [] := fun i hi => by rw [g0, if_neg (by omega), if_neg (by omega)]
  by_cases hlt : l < m
  · rw [if_pos hlt] at hu
    obtain ⟨q1, q2, q3⟩ := start_lt hm' hl' hl1 hlt p3 p4 p5
    rw [← hSi] at q1 q2
    rw [← hS] at q3
    have vP : S (l - 1) = (-1) ^ (m - 1 - l) * val P := sign_eq q1
    have szP : Sz v V d P := .of_val p2 (unsign vP) (by rw [vars_sign]; exact hSv _) fun w => by rw [degreeOf_sign]; exact hSd _ w
    obtain ⟨g1, g2⟩ := signP_spec (k := m - 1 - l) szP
    have g3 : val (signP (m - 1 - l) P) = S (l - 1) := by rw [g2, vP]
    simp only [hlt, if_true]
    by_cases hl2 : m - 1 = l
    · have e0 : m - 1 - l = 0 := by omega
      rw [e0] at q2 g3
      rw [pow_zero, Polynomial.C_1, one_mul] at q2
      rw [signP, if_neg (by norm_num)] at g3
      simp only [if_pos hl2, p1, Option.bind_some]
      have hGv : val G = S l := toU_injective v q2.symm
      obtain ⟨N3, L, o1, o2, o3, o4⟩ := subLoop_list hK D (fun i _ => hSv i) (fun i _ => hSd i) hcap (l - 1) (l - 1) G P L0 le_rfl (by omega) hG szP (by rw [g3, ← q2]; exact q3)
        (by rw [hGv, Nat.sub_add_cancel hl1]) (fun i hi => gl i (by omega)) (by rw [len0]; omega)
      rw [Nat.sub_add_cancel hl1] at o3 o4
      refine ⟨N3, L, o1, by rw [o2, len0], by rw [o3 u (by omega), gF], ?_, fun i h1 h2 => (o4 i h1).mono (by omega), fun i h1 h2 => by omega⟩
      -- the entry `u - 1 = l` is written again
      rw [show u - 1 = l by omega]
      obtain ⟨a1, a2⟩ := o4 l le_rfl
      have ho := lex_ord (varUni_ord v)
      rcases a2 with a2 | ⟨b1, b2, k, b3, b4, -⟩
      · exact a1.ext ho hG.ok (by rw [a2, hGv])
      · omega
    · obtain ⟨lB, lB2, lB3⟩ := lcP_spec hG
      obtain ⟨Sr, s1, s2, s3⟩ := powMulP_spec hK lB hG (k := m - 1 - l) (by omega) (by
        have := hmd (m - 1 - l + 1) (by omega)
        rw [add_mul, one_mul] at this
        exact this)
      have s4 : val Sr = S l := by
        refine toU_injective v ?_
        rw [s3, map_mul, map_pow, lB3, q2, ← map_pow]
      have szS : Sz v V d Sr := .of_val s2.ok s4 (hSv _) (hSd _)
      simp only [if_neg hl2, s1, p1, Option.bind_some]
      obtain ⟨N3, L, o1, o2, o3, o4⟩ := subLoop_list hK D (fun i _ => hSv i) (fun i _ => hSd i) hcap (l - 1) (l - 1) Sr (signP (m - 1 - l) P) L0 le_rfl (by omega) szS g1 (by rw [g3, s4]; exact q3)
        (by rw [s4, Nat.sub_add_cancel hl1]) (fun i hi => gl i (by omega)) (by rw [len0]; omega)
      rw [Nat.sub_add_cancel hl1] at o3 o4
      exact ⟨N3, L, o1, by rw [o2, len0], by rw [o3 u (by omega), gF], by rw [o3 _ (by omega), gG], fun i h1 h2 => (o4 i h1).mono (by omega), fun i h1 h2 => by rw [o3 i h1, gl i h2]⟩
  · obtain rfl : l = m := by omega
    rw [if_neg hlt] at hu
    rw [show l + 1 - l = 1 by omega] at p3
    rw [Nat.sub_self] at p4
    obtain ⟨q1, q2⟩ := start_eq hm' hl' hl1 p3 p4 p5
    rw [← hSi] at q1
    rw [← hS] at q2
    have vP : val (pvNeg P) = S (l - 1) := by
      refine toU_injective v ?_
      rw [q1, val_pvNeg, map_neg]
    have szP : Sz v V d (pvNeg P) := .of_val p2.neg vP (hSv _) (hSd _)
    simp only [lt_irrefl, if_false, p1, Option.bind_some]
    by_cases h1 : l - 1 = 0
    · simp only [if_pos h1]
      have hs : ∀ i, (L0.set 0 (pvNeg P)).getD i [] = if i = 0 then pvNeg P else L0.getD i [] := fun i => getD_set _ _ _ _ (by omega)
      refine ⟨0, _, fun fuel _ => rfl, by rw [List.length_set, len0], by rw [hs, if_neg (by omega), gF], by rw [hs, if_neg (by omega), gG], fun i _ hi => ?_, fun i _ _ => by omega⟩
      obtain rfl : i = 0 := by omega
      exact .of_eq (by rw [hs, if_pos rfl]) p2.neg (by rw [vP, h1])
    · simp only [if_neg h1]
      obtain ⟨N, L, o1, o2, o3, o4⟩ := subStartEq_list hK D hSv hSd hcap (j := l - 1) (by omega) (by omega) hG szP (by rw [vP]; exact q2) (L := L0) (fun i hi => gl i (by omega)) (by omega)
      exact ⟨N, L, o1, by rw [o2, len0], by rw [o3 u (by omega), gF], by rw [o3 _ (by omega), gG], fun i _ h2 => by rw [show u - 2 = l - 1 by omega]; exact o4 i (by omega), fun i _ _ => by omega⟩

theorem subresUp_last {m l d : ℕ} {F G : PV Mono R} (hF : Sz v V d F) (hG : Sz v V d G) (hm : (val F).degreeOf v = m) (hl : (val G).degreeOf v = l) (hl1 : 1 ≤ l) (hlm : l ≤ m)
    (hcap : (m + 1) * d ≤ K) {S : ℕ → MvPolynomial Var R} (hS : (fun i => toU v (S i)) = Sub (toU v (val F)) (toU v (val G)) m l) (hSv : ∀ i, (S i).vars ⊆ V) (hSd : ∀ i w, (S i).degreeOf w ≤ d) :
    ∃ N out, (∀ fuel ≥ N, subresUp v divc fuel false F G = some [out]) ∧ PolyOK (varUni v) (lexGt (varUni v)) out ∧ val out = S 0 := by
  have hmd : ∀ k, k ≤ m + 1 → k * d ≤ K := fun k hk => (Nat.mul_le_mul_right d hk).trans hcap
  have hm' : (toU v (val F)).natDegree = m := by rw [natDegree_toU, hm]
  have hl' : (toU v (val G)).natDegree = l := by rw [natDegree_toU, hl]
  have hSi : ∀ i, toU v (S i) = Sub (toU v (val F)) (toU v (val G)) m l i := fun i => congrFun hS i
  have uF : udeg v F = m := by rw [udeg_eq hF, hm']
  have uG : udeg v G = l := by rw [udeg_eq hG, hl']
  obtain ⟨P, Q, p1, p2, p3, p4, p5⟩ := premP_spec hK hF hG (by omega) (by omega) (by
    rw [hm', hl']
    have := hmd (m + 1 - l + 1) (by omega)
    rw [show (m + 1 - l + 1) * d = d + (m + 1 - l) * d by ring] at this
    exact this)
  rw [hm', hl'] at p3 p4
  rw [hl'] at p5
  unfold subresUp
  simp only [uF, uG, Bool.false_eq_true, if_false]
  by_cases hlt : l < m
  · obtain ⟨q1, q2, q3⟩ := start_lt hm' hl' hl1 hlt p3 p4 p5
    rw [← hSi] at q1 q2
    rw [← hS] at q3
    have vP : S (l - 1) = (-1) ^ (m - 1 - l) * val P := sign_eq q1
    have szP : Sz v V d P := .of_val p2 (unsign vP) (by rw [vars_sign]; exact hSv _) fun w => by rw [degreeOf_sign]; exact hSd _ w
    obtain ⟨g1, g2⟩ := signP_spec (k := m - 1 - l) szP
    have g3 : val (signP (m - 1 - l) P) = S (l - 1) := by rw [g2, vP]
    simp only [hlt, if_true]
    by_cases hl2 : m - 1 = l
    · have e0 : m - 1 - l = 0 := by omega
      rw [e0] at q2 g3
      rw [pow_zero, Polynomial.C_1, one_mul] at q2
      rw [signP, if_neg (by norm_num)] at g3
      simp only [if_pos hl2, p1, Option.bind_some]
      exact subLoop_last hK D (fun i _ => hSv i) (fun i _ => hSd i) hcap (l - 1) (l - 1) G P le_rfl (by omega) hG szP (by rw [g3, ← q2]; exact q3)
    · obtain ⟨lB, lB2, lB3⟩ := lcP_spec hG
      obtain ⟨Sr, s1, s2, s3⟩ := powMulP_spec hK lB hG (k := m - 1 - l) (by omega) (by
        have := hmd (m - 1 - l + 1) (by omega)
        rw [add_mul, one_mul] at this
        exact this)
      have s4 : val Sr = S l := by
        refine toU_injective v ?_
        rw [s3, map_mul, map_pow, lB3, q2, ← map_pow]
      have szS : Sz v V d Sr := .of_val s2.ok s4 (hSv _) (hSd _)
      simp only [if_neg hl2, s1, p1, Option.bind_some]
      exact subLoop_last hK D (fun i _ => hSv i) (fun i _ => hSd i) hcap (l - 1) (l - 1) Sr (signP (m - 1 - l) P) le_rfl (by omega) szS g1 (by rw [g3, s4]; exact q3)
  · obtain rfl : l = m := by omega
    rw [show l + 1 - l = 1 by omega] at p3
    rw [Nat.sub_self] at p4
    obtain ⟨q1, q2⟩ := start_eq hm' hl' hl1 p3 p4 p5
    rw [← hSi] at q1
    rw [← hS] at q2
    have vP : val (pvNeg P) = S (l - 1) := by
      refine toU_injective v ?_
      rw [q1, val_pvNeg, map_neg]
    have szP : Sz v V d (pvNeg P) := .of_val p2.neg vP (hSv _) (hSd _)
    simp only [lt_irrefl, if_false, p1, Option.bind_some]
    by_cases h1 : l - 1 = 0
    · simp only [if_pos h1]
      exact ⟨0, pvNeg P, fun fuel _ => rfl, p2.neg, by rw [vP, h1]⟩
    · simp only [if_neg h1]
      exact subStartEq_last hK D hSv hSd hcap (j := l - 1) (by omega) (by omega) hG szP (by rw [vP]; exact q2)

omit hK D in
/-- the operands, sorted for `v`, and the chain -/
theorem sub_prep {vc : Var → Var → Bool} {mc : Mono → Mono → Bool} (M : MonoOrd vc mc) {F G : PV Mono R} (hF : PolyOK vc mc F) (hG : PolyOK vc mc G) (v : Var) {m l : ℕ}
    (hm : (val F).degreeOf v = m) (hl : (val G).degreeOf v = l) (hl1 : 1 ≤ l) (hlm : l ≤ m)
    (hcap : ∀ w, (((m + 1) * (l * (val F).degreeOf w + m * (val G).degreeOf w) : ℕ) : ℤ) < capLex ((val F).vars ∪ (val G).vars).card) :
    ∃ (K d : ℕ) (S : ℕ → MvPolynomial Var R), (K : ℤ) < capLex ((val F).vars ∪ (val G).vars).card ∧ (m + 1) * d ≤ K ∧
      Sz v ((val F).vars ∪ (val G).vars) d (polyConvert (varUni v) (lexGt (varUni v)) id F) ∧ Sz v ((val F).vars ∪ (val G).vars) d (polyConvert (varUni v) (lexGt (varUni v)) id G) ∧
      (fun i => toU v (S i)) = Sub (toU v (val F)) (toU v (val G)) m l ∧ (∀ i, (S i).vars ⊆ (val F).vars ∪ (val G).vars) ∧ ∀ i w, (S i).degreeOf w ≤ d := by
  have Mu := lex_ord (varUni_ord v)
  obtain ⟨f1, f2⟩ := conv_val M Mu hF
  obtain ⟨g1, g2⟩ := conv_val M Mu hG
  obtain ⟨K, hKe⟩ : ∃ K : ℕ, (K : ℤ) + 1 = capLex ((val F).vars ∪ (val G).vars).card := by
    refine ⟨(capLex ((val F).vars ∪ (val G).vars).card - 1).toNat, ?_⟩
    have := hcap 0
    omega
  have hd : ∀ w, l * (val F).degreeOf w + m * (val G).degreeOf w ≤ K / (m + 1) := fun w => by
    rw [Nat.le_div_iff_mul_le (by omega), mul_comm]
    have := hcap w
    omega
  obtain ⟨S, hS, hSv, hSd⟩ := exists_chain v (val F) (val G) hm hl (by omega) hl1 Finset.subset_union_left Finset.subset_union_right hd
  exact ⟨K, K / (m + 1), S, by omega, Nat.mul_div_le _ _, ⟨f1, by rw [f2]; exact Finset.subset_union_left, fun w => by
    rw [f2]
    have h1 := hd w
    have h2 := Nat.le_mul_of_pos_left ((val F).degreeOf w) (show 0 < l by omega)
    omega⟩, ⟨g1, by rw [g2]; exact Finset.subset_union_right, fun w => by
    rw [g2]
    have h1 := hd w
    have h2 := Nat.le_mul_of_pos_left ((val G).degreeOf w) (show 0 < m by omega)
    omega⟩, hS, hSv, hSd⟩

omit [CommRing R] [IsDomain R] hK D in
theorem getD_map_nil {f : PV Mono R → PV Mono R} (hf : f [] = []) (L : List (PV Mono R)) (i : ℕ) : (L.map f).getD i [] = f (L.getD i []) := by
  rw [List.getD_eq_getElem?_getD, List.getD_eq_getElem?_getD, List.getElem?_map]
  cases L[i]? with
  | none => exact hf.symm
  | some a => rfl

omit hK in
/-- **`subresultant`**, list mode -/
theorem subresultant_list {vc : Var → Var → Bool} {mc : Mono → Mono → Bool} (M : MonoOrd vc mc) {F G : PV Mono R} (hF : PolyOK vc mc F) (hG : PolyOK vc mc G) (v : Var) {m l : ℕ}
    (hm : (val F).degreeOf v = m) (hl : (val G).degreeOf v = l) (hl1 : 1 ≤ l) (hlm : l ≤ m)
    (hcap : ∀ w, (((m + 1) * (l * (val F).degreeOf w + m * (val G).degreeOf w) : ℕ) : ℤ) < capLex ((val F).vars ∪ (val G).vars).card) {u : ℕ} (hu : u = if l < m then m else m + 1) :
    ∃ N L, (∀ fuel ≥ N, subresultant vc mc divc fuel F G v true = some L) ∧ L.length = u + 1 ∧ L.getD u [] = F ∧ L.getD (u - 1) [] = G ∧
      (∀ i, l < i → i < u - 1 → L.getD i [] = []) ∧
      ∀ i, i ≤ l → i < u - 1 → PolyOK vc mc (L.getD i []) ∧
        (toU v (val (L.getD i [])) = Sub (toU v (val F)) (toU v (val G)) m l i ∨
          i = 1 ∧ L.getD 1 [] = [] ∧ ∃ k, 2 ≤ k ∧ k ≤ u - 2 ∧ (Sub (toU v (val F)) (toU v (val G)) m l k).natDegree = 1) := by
  have Mu := lex_ord (varUni_ord v)
  obtain ⟨K, d, S, hK, hcap', sF, sG, hS, hSv, hSd⟩ := sub_prep M hF hG v hm hl hl1 hlm hcap
  obtain ⟨f1, f2⟩ := conv_val M Mu hF
  obtain ⟨g1, g2⟩ := conv_val M Mu hG
  obtain ⟨N, L, h1, h2, h3, h4, h5, h6⟩ := subresUp_list hK D sF sG (by rw [f2]; exact hm) (by rw [g2]; exact hl) hl1 hlm hcap' (S := S) (by rw [f2, g2]; exact hS) hSv hSd hu
  have hSi : ∀ i, toU v (S i) = Sub (toU v (val F)) (toU v (val G)) m l i := fun i => congrFun hS i
  have hn : polyConvert vc mc id ([] : PV Mono R) = [] := rfl
  have back : ∀ {p : PV Mono R}, PolyOK vc mc p → polyConvert vc mc id (polyConvert (varUni v) (lexGt (varUni v)) id p) = p := fun {p} hp => by
    obtain ⟨a1, a2⟩ := conv_val M Mu hp
    obtain ⟨b1, b2⟩ := conv_val Mu M a1
    exact b1.ext M hp (by rw [b2, a2])
  refine ⟨N, L.map (polyConvert vc mc id), fun fuel hf => by rw [subresultant, h1 fuel hf, Option.map_some], by rw [List.length_map, h2],
    by rw [getD_map_nil hn, h3, back hF], by rw [getD_map_nil hn, h4, back hG], fun i a b => by rw [getD_map_nil hn, h6 i a b, hn], fun i a b => ?_⟩
  obtain ⟨c1, c2⟩ := h5 i a b
  obtain ⟨e1, e2⟩ := conv_val Mu M c1
  rw [getD_map_nil hn]
  refine ⟨e1, ?_⟩
  rcases c2 with c2 | ⟨x1, x2, k, x3, x4, x5⟩
  · left
    rw [e2, c2, hSi]
  · right
    exact ⟨x1, by rw [getD_map_nil hn, x2, hn], k, x3, x4, by rw [← hSi, natDegree_toU, x5]⟩

omit hK in
/-- **`subresultant`**, last subresultant only -/
theorem subresultant_last {vc : Var → Var → Bool} {mc : Mono → Mono → Bool} (M : MonoOrd vc mc) {F G : PV Mono R} (hF : PolyOK vc mc F) (hG : PolyOK vc mc G) (v : Var) {m l : ℕ}
    (hm : (val F).degreeOf v = m) (hl : (val G).degreeOf v = l) (hl1 : 1 ≤ l) (hlm : l ≤ m)
    (hcap : ∀ w, (((m + 1) * (l * (val F).degreeOf w + m * (val G).degreeOf w) : ℕ) : ℤ) < capLex ((val F).vars ∪ (val G).vars).card) :
    ∃ N out, (∀ fuel ≥ N, subresultant vc mc divc fuel F G v false = some [out]) ∧ PolyOK vc mc out ∧ v ∉ (val out).vars ∧
      val out = Polynomial.resultant (toU v (val F)) (toU v (val G)) m l := by
  have Mu := lex_ord (varUni_ord v)
  obtain ⟨K, d, S, hK, hcap', sF, sG, hS, hSv, hSd⟩ := sub_prep M hF hG v hm hl hl1 hlm hcap
  obtain ⟨f1, f2⟩ := conv_val M Mu hF
  obtain ⟨g1, g2⟩ := conv_val M Mu hG
  obtain ⟨N, out, h1, h2, h3⟩ := subresUp_last hK D sF sG (by rw [f2]; exact hm) (by rw [g2]; exact hl) hl1 hlm hcap' (S := S) (by rw [f2, g2]; exact hS) hSv hSd
  obtain ⟨e1, e2⟩ := conv_val Mu M h2
  have e : toU v (val out) = Polynomial.C (Polynomial.resultant (toU v (val F)) (toU v (val G)) m l) := by
    rw [h3, congrFun hS 0, ← SB_resultant _ _ (by rw [natDegree_toU, hm]) (by rw [natDegree_toU, hl]) (by omega)]
    rfl
  have hf : v ∉ (val out).vars := degreeOf_zero_iff.1 (by rw [← natDegree_toU, e, Polynomial.natDegree_C])
  rw [toU_free hf] at e
  exact ⟨N, polyConvert vc mc id out, fun fuel h => by rw [subresultant, h1 fuel h]; rfl, e1, by rw [e2]; exact hf, by rw [e2]; exact Polynomial.C_injective e⟩

end Res
end CLPoly
