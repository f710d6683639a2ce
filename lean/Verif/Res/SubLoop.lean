import Verif.Res.Start

/-! # The main loop of `subresultant` fills the vector with the subresultants -/

namespace CLPoly
namespace Res
open Mono MvPolynomial Mgcd

theorem getD_set {α : Type*} (L : List (List α)) (i k : ℕ) (a : List α) (hi : i < L.length) : (L.set i a).getD k [] = if k = i then a else L.getD k [] := by
  rw [List.getD_eq_getElem?_getD, List.getElem?_set, List.getD_eq_getElem?_getD]
  by_cases h : i = k
  · rw [if_pos h, if_pos h.symm, if_pos hi]; rfl
  · rw [if_neg h, if_neg (Ne.symm h)]

variable {R : Type*} [CommRing R] [IsDomain R] [DecidableEq R] {v : Var} {V : Finset Var}
variable {K : ℕ} (hK : (K : ℤ) < capLex V.card)
include hK
variable {divc : R → R → R × R} (D : CoefDiv divc)
include D
variable {m d j : ℕ} {S : ℕ → MvPolynomial Var R} (hSv : ∀ i < m, (S i).vars ⊆ V) (hSd : ∀ i < m, ∀ w, (S i).degreeOf w ≤ d) (hcap : (m + 1) * d ≤ K) (hm : j + 2 ≤ m)
  {A B : PV Mono R} (hA : Sz v V d A) (hB : Sz v V d B) (hL : Level (fun i => toU v (S i)) (j + 1) 2 (toU v (val A)) (toU v (val B))) {r : ℕ} (hr : r = (toU v (val B)).natDegree)
include hSv hSd hcap hm hA hB hL hr

theorem step_gapS (hgap : r < j + 1) : ∃ N Sr, (∀ fuel ≥ N, gapS v divc fuel A B (j + 1 - r) = some Sr) ∧ Sz v V d Sr ∧ val Sr = S r := by
  have hA0 : val A ≠ 0 := fun e => hL.ne (by rw [e, map_zero])
  have hmd : ∀ k, k ≤ m + 1 → k * d ≤ K := fun k hk => (Nat.mul_le_mul_right d hk).trans hcap
  have hatDeg := hL.atDeg (by norm_num)
  rw [← hr, show (2 - 1) * (j + 1 - r) = j + 1 - r by omega] at hatDeg
  have hSr : (toU v (val B)).leadingCoeff ^ (j + 1 - r) * val B = S r * (toU v (val A)).leadingCoeff ^ (j + 1 - r) := by
    refine toU_injective v ?_
    have f1 := (lcP_spec hA).2
    have f2 := (lcP_spec hB).2
    rw [map_mul, map_mul, map_pow, map_pow, ← f2.1, ← f1.1, f2.2, f1.2, ← map_pow, ← map_pow, mul_comm (toU v (S r))]
    exact hatDeg.symm
  obtain ⟨N1, Sr, s1, s2, s3⟩ := gapS_spec hK D hA hB hA0 (k := j + 1 - r) (by omega)
    (by have := hmd (j + 1 - r + 1) (by omega); rw [add_mul, one_mul] at this; exact this) (hmd (j + 1 - r) (by omega)) hSr
  exact ⟨N1, Sr, s1, .of_val s2 s3 (hSv _ (by omega)) (hSd _ (by omega)), s3⟩

theorem step_gapT (hgap : r < j + 1) (hr0 : r ≠ 0) : ∃ N T, (∀ fuel ≥ N, gapT v divc fuel A B (j + 1 - r) = some T) ∧ Sz v V d T ∧ val T = S (r - 1) ∧
    Level (fun i => toU v (S i)) (r - 1) 2 (toU v (S r)) (toU v (S (r - 1))) := by
  have hA0 : val A ≠ 0 := fun e => hL.ne (by rw [e, map_zero])
  have hmd : ∀ k, k ≤ m + 1 → k * d ≤ K := fun k hk => (Nat.mul_le_mul_right d hk).trans hcap
  have hdA := hL.degA
  obtain ⟨k, hk⟩ : ∃ k, k = j + 1 - r := ⟨_, rfl⟩
  have hB0 : toU v (val B) ≠ 0 := by
    intro e
    rw [e, Polynomial.natDegree_zero] at hr
    exact hr0 hr
  have hstep := fun (P Q : Polynomial (MvPolynomial Var R)) h1 h2 h3 => hL.step (Q := Q) (P := P) hB0 (by omega) h1 h2 h3
  rw [← hr] at hstep
  obtain ⟨N2, T, t1, t2, t3⟩ := gapT_spec hK D (s := d) (h := S (r - 1)) (k := k) hA hB hA0 (by omega) (by omega) (by omega) (hSv _ (by omega)) (hSd _ (by omega))
    (by have := hmd (k + 3) (by omega); rw [show (k + 3) * d = d + (k + 2) * d by ring] at this; exact this)
    (by have := hmd (k + 3) (by omega); rw [show (k + 3) * d = (k + 2) * d + d by ring] at this; exact this)
    (fun P Q h1 h2 h3 => by
      rw [hk] at h1 h2 ⊢
      exact (hstep P Q h1 (by omega) (by rw [hr]; exact h3)).1)
  obtain ⟨P, Q, -, -, p3, p4, p5⟩ := premP_spec hK hA hB (by omega) (by omega) (by
    rw [← hr, hdA, show j + 1 + 1 + 1 - r = k + 2 by omega]
    have := hmd (k + 3) (by omega)
    rw [show (k + 3) * d = d + (k + 2) * d by ring] at this
    exact this)
  rw [← hr, hdA] at p3 p4
  rw [← hr] at p5
  have hnext := (hstep (toU v (val P)) Q (by rw [← p3]; congr 3; omega) (by omega) p5).2
  rw [hk] at t1
  exact ⟨N2, T, t1, .of_val t2 t3 (hSv _ (by omega)) (hSd _ (by omega)), t3, hnext⟩

theorem step_reg (hrj : r = j + 1) : ∃ N T, (∀ fuel ≥ N, regT v divc fuel A B = some T) ∧ Sz v V d T ∧ val T = S j ∧ val B = S (j + 1) ∧
    Level (fun i => toU v (S i)) j 2 (toU v (val B)) (toU v (val T)) := by
  have hA0 : val A ≠ 0 := fun e => hL.ne (by rw [e, map_zero])
  have hmd : ∀ k, k ≤ m + 1 → k * d ≤ K := fun k hk => (Nat.mul_le_mul_right d hk).trans hcap
  have hdA := hL.degA
  have hatDeg := hL.atDeg (by norm_num)
  rw [← hr, show (2 - 1) * (j + 1 - r) = j + 1 - r by omega] at hatDeg
  have hB0 : toU v (val B) ≠ 0 := by
    intro e
    rw [e, Polynomial.natDegree_zero] at hr
    omega
  have hstep := fun (P Q : Polynomial (MvPolynomial Var R)) h1 h2 h3 => hL.step (Q := Q) (P := P) hB0 (by omega) h1 h2 h3
  rw [← hr, hrj] at hstep
  simp only [Nat.sub_self, zero_add, pow_zero, one_mul, Nat.add_sub_cancel, show j + 1 + 1 - (j + 1) = 1 by omega] at hstep
  rw [hrj, Nat.sub_self, pow_zero, pow_zero, Polynomial.C_1, one_mul, one_mul] at hatDeg
  obtain ⟨N2, T, t1, t2, t3⟩ := regT_spec hK D (s := d) (h := S j) hA hB hA0 (by omega) (by omega) (hSv _ (by omega)) (hSd _ (by omega))
      (by have := hmd 3 (by omega); omega) (by have := hmd 3 (by omega); omega)
      (fun P Q h1 h2 h3 => (hstep P Q h1 h2 (by omega)).1)
  obtain ⟨P, Q, -, -, p3, p4, p5⟩ := premP_spec hK hA hB (by omega) (by omega) (by
    rw [← hr, hdA, hrj, show j + 1 + 1 + 1 - (j + 1) = 2 by omega]
    have := hmd 3 (by omega)
    omega)
  rw [← hr, hdA, hrj, show j + 1 + 1 + 1 - (j + 1) = 2 by omega] at p3
  rw [← hr, hdA, hrj] at p4
  rw [← hr, hrj] at p5
  have hnext := (hstep (toU v (val P)) Q p3 (by omega) p5).2
  exact ⟨N2, T, t1, .of_val t2 t3 (hSv _ (by omega)) (hSd _ (by omega)), t3, toU_injective v hatDeg.symm, by rw [t3, ← hatDeg]; exact hnext⟩

omit hA hB hL hm hr

/-- entry `i` of the vector is the subresultant `S i`; the only exception is `i = 1` below a defective subresultant of degree 1 -/
def Entry (v : Var) (S : ℕ → MvPolynomial Var R) (top : ℕ) (L : List (PV Mono R)) (i : ℕ) : Prop :=
  PolyOK (varUni v) (lexGt (varUni v)) (L.getD i []) ∧ (val (L.getD i []) = S i ∨ i = 1 ∧ L.getD 1 [] = [] ∧ ∃ k, 2 ≤ k ∧ k ≤ top ∧ (S k).degreeOf v = 1)

omit [DecidableEq R] [IsDomain R] hK D hSv hSd hcap in
theorem Entry.mono {a b : ℕ} {L : List (PV Mono R)} {i : ℕ} (hab : a ≤ b) (h : Entry v S a L i) : Entry v S b L i :=
  ⟨h.1, h.2.imp_right fun ⟨h1, h2, k, h3, h4, h5⟩ => ⟨h1, h2, k, h3, h4.trans hab, h5⟩⟩

omit [DecidableEq R] [IsDomain R] hK D hSv hSd hcap in
theorem Entry.of_eq {top : ℕ} {L : List (PV Mono R)} {i : ℕ} {p : PV Mono R} (e : L.getD i [] = p) (h : PolyOK (varUni v) (lexGt (varUni v)) p) (hv : val p = S i) : Entry v S top L i :=
  ⟨by rw [e]; exact h, .inl (by rw [e]; exact hv)⟩

/-- **the main loop**, list mode -/
theorem subLoop_list : ∀ (n j : ℕ) (A B : PV Mono R) (L : List (PV Mono R)), j ≤ n → j + 1 ≤ m → Sz v V d A → Sz v V d B → Level (fun i => toU v (S i)) j 2 (toU v (val A)) (toU v (val B)) →
    val A = S (j + 1) → (∀ i ≤ j, L.getD i [] = []) → j + 1 < L.length →
    ∃ N L', (∀ fuel ≥ N, subLoop v divc fuel true n j A B L = some L') ∧ L'.length = L.length ∧ (∀ i, j + 1 < i → L'.getD i [] = L.getD i []) ∧ ∀ i ≤ j + 1, Entry v S j L' i := by
  have base : ∀ (A B : PV Mono R) (L : List (PV Mono R)), Sz v V d A → Sz v V d B → Level (fun i => toU v (S i)) 0 2 (toU v (val A)) (toU v (val B)) → val A = S 1 → 1 < L.length →
      ((L.set 1 A).set 0 B).length = L.length ∧ (∀ i, 1 < i → ((L.set 1 A).set 0 B).getD i [] = L.getD i []) ∧ ∀ i ≤ 1, Entry v S 0 ((L.set 1 A).set 0 B) i := by
    intro A B L hA hB hL hAv hl
    have hg : ∀ k, ((L.set 1 A).set 0 B).getD k [] = if k = 0 then B else if k = 1 then A else L.getD k [] := fun k => by
      rw [getD_set _ _ _ _ (by rw [List.length_set]; omega), getD_set _ _ _ _ hl]
    refine ⟨by simp, fun i hi => by rw [hg, if_neg (by omega), if_neg (by omega)], fun i hi => ?_⟩
    rcases Nat.lt_or_ge i 1 with h | h
    · obtain rfl : i = 0 := by omega
      exact .of_eq (by rw [hg, if_pos rfl]) hB.ok (toU_injective v hL.last.symm)
    · obtain rfl : i = 1 := by omega
      exact .of_eq (by rw [hg, if_neg (by omega), if_pos rfl]) hA.ok hAv
  intro n
  induction n with
  | zero =>
    intro j A B L hj hm hA hB hL hAv _ hl
    obtain rfl : j = 0 := by omega
    exact ⟨0, _, fun fuel _ => by rw [subLoop, if_pos rfl], base A B L hA hB hL hAv hl⟩
  | succ n ih =>
    intro j A B L hj hm hA hB hL hAv hL0 hl
    cases j with
    | zero => exact ⟨0, _, fun fuel _ => by rw [subLoop, if_pos rfl], base A B L hA hB hL hAv hl⟩
    | succ j =>
      have hBv : val B = S (j + 1) := toU_injective v hL.last.symm
      have hlen : ((L.set (j + 2) A).set (j + 1) B).length = L.length := by simp
      have hg : ∀ k, ((L.set (j + 2) A).set (j + 1) B).getD k [] = if k = j + 1 then B else if k = j + 2 then A else L.getD k [] := fun k => by
        rw [getD_set _ _ _ _ (by rw [List.length_set]; omega), getD_set _ _ _ _ (by omega)]
      have hgA : ((L.set (j + 2) A).set (j + 1) B).getD (j + 2) [] = A := by rw [hg, if_neg (by omega), if_pos rfl]
      have hgB : ((L.set (j + 2) A).set (j + 1) B).getD (j + 1) [] = B := by rw [hg, if_pos rfl]
      have hgl : ∀ i ≤ j, ((L.set (j + 2) A).set (j + 1) B).getD i [] = [] := fun i hi => by
        rw [hg, if_neg (by omega), if_neg (by omega), hL0 i (by omega)]
      have hgh : ∀ i, j + 2 < i → ((L.set (j + 2) A).set (j + 1) B).getD i [] = L.getD i [] := fun i hi => by
        rw [hg, if_neg (by omega), if_neg (by omega)]
      by_cases hB0 : B = []
      · refine ⟨0, _, fun fuel _ => by rw [subLoop]; simp only [if_pos hB0, if_true], hlen, hgh, fun i hi => ?_⟩
        have hz := hL.zero (by rw [hB0, val_nil, map_zero])
        have hz' : ∀ i ≤ j + 1, S i = 0 := fun i hi => toU_injective v (by rw [map_zero]; exact hz i hi)
        by_cases h1 : i = j + 2
        · subst h1
          exact .of_eq hgA hA.ok hAv
        by_cases h2 : i = j + 1
        · subst h2
          exact .of_eq hgB hB.ok hBv
        · exact .of_eq (hgl i (by omega)) .nil (by rw [val_nil, hz' i (by omega)])
      · obtain ⟨r, hr⟩ : ∃ r, r = (toU v (val B)).natDegree := ⟨_, rfl⟩
        have hud : udeg v B = r := by rw [hr]; exact udeg_eq hB
        by_cases hgap : r < j + 1
        · have hz : ∀ i, r < i → i < j + 1 → S i = 0 := fun i h1 h2 => toU_injective v (by rw [map_zero]; exact hL.gap (i := i) (by omega) h2)
          obtain ⟨N1, Sr, s1, szS, s3⟩ := step_gapS hK D hSv hSd hcap (by omega) hA hB hL hr hgap
          by_cases hr0 : r = 0
          · refine ⟨N1, ((L.set (j + 2) A).set (j + 1) B).set 0 Sr, fun fuel hf => ?_, by rw [List.length_set, hlen], fun i hi => ?_, fun i hi => ?_⟩
            · rw [subLoop]
              simp only [if_neg hB0, hud, if_true]
              rw [if_pos hgap, if_pos (by omega), s1 fuel hf, Option.bind_some, if_pos hr0]
            · rw [getD_set _ _ _ _ (by rw [hlen]; omega), if_neg (by omega), hgh i (by omega)]
            · have hs : ∀ i, i ≠ 0 → (((L.set (j + 2) A).set (j + 1) B).set 0 Sr).getD i [] = ((L.set (j + 2) A).set (j + 1) B).getD i [] := fun i hi => by
                rw [getD_set _ _ _ _ (by rw [hlen]; omega), if_neg hi]
              by_cases h0 : i = 0
              · subst h0
                exact .of_eq (by rw [getD_set _ _ _ _ (by rw [hlen]; omega), if_pos rfl]) szS.ok (by rw [s3, hr0])
              by_cases h1 : i = j + 2
              · subst h1
                exact .of_eq (by rw [hs _ h0, hgA]) hA.ok hAv
              by_cases h2 : i = j + 1
              · subst h2
                exact .of_eq (by rw [hs _ h0, hgB]) hB.ok hBv
              · exact .of_eq (by rw [hs _ h0, hgl i (by omega)]) .nil (by rw [val_nil, hz i (by omega) (by omega)])
          · obtain ⟨N2, T, t1, szT, t3, lev⟩ := step_gapT hK D hSv hSd hcap (by omega) hA hB hL hr hgap hr0
            by_cases hr1 : r = 1
            · -- the entry of index 1 is lost
              subst hr1
              refine ⟨N2, (((L.set (j + 2) A).set (j + 1) B).set 1 []).set 0 T, fun fuel hf => ?_, by rw [List.length_set, List.length_set, hlen], fun i hi => ?_, fun i hi => ?_⟩
              · rw [subLoop]
                simp only [if_neg hB0, hud, if_true]
                rw [if_pos hgap, if_neg (not_not.2 rfl), Option.bind_some, if_neg hr0, t1 fuel hf, Option.bind_some, Nat.sub_self]
                cases n <;> rw [subLoop, if_pos rfl]
              · rw [getD_set _ _ _ _ (by rw [List.length_set, hlen]; omega), if_neg (by omega), getD_set _ _ _ _ (by rw [hlen]; omega), if_neg (by omega), hgh i (by omega)]
              · have hs : ∀ i, (((((L.set (j + 2) A).set (j + 1) B).set 1 []).set 0 T).getD i []) = if i = 0 then T else if i = 1 then [] else ((L.set (j + 2) A).set (j + 1) B).getD i [] := fun i => by
                  rw [getD_set _ _ _ _ (by rw [List.length_set, hlen]; omega), getD_set _ _ _ _ (by rw [hlen]; omega)]
                by_cases h0 : i = 0
                · subst h0
                  exact .of_eq (by rw [hs, if_pos rfl]) szT.ok t3
                by_cases h1 : i = 1
                · subst h1
                  refine ⟨by rw [hs, if_neg (by omega), if_pos rfl]; exact .nil, .inr ⟨rfl, by rw [hs, if_neg (by omega), if_pos rfl], j + 1, by omega, le_rfl, ?_⟩⟩
                  rw [← natDegree_toU, ← hBv, ← hr]
                by_cases h2 : i = j + 2
                · subst h2
                  exact .of_eq (by rw [hs, if_neg h0, if_neg h1, hgA]) hA.ok hAv
                by_cases h3 : i = j + 1
                · subst h3
                  exact .of_eq (by rw [hs, if_neg h0, if_neg h1, hgB]) hB.ok hBv
                · exact .of_eq (by rw [hs, if_neg h0, if_neg h1, hgl i (by omega)]) .nil (by rw [val_nil, hz i (by omega) (by omega)])
            · obtain ⟨N3, L', o1, o2, o3, o4⟩ := ih (r - 1) Sr T ((L.set (j + 2) A).set (j + 1) B) (by omega) (by omega) szS szT (by rw [s3, t3]; exact lev) (by rw [s3, Nat.sub_add_cancel (by omega)])
                (fun i hi => hgl i (by omega)) (by rw [hlen]; omega)
              rw [Nat.sub_add_cancel (by omega : 1 ≤ r)] at o3 o4
              refine ⟨max N1 (max N2 N3), L', fun fuel hf => ?_, by rw [o2, hlen], fun i hi => by rw [o3 i (by omega), hgh i (by omega)], fun i hi => ?_⟩
              · rw [subLoop]
                simp only [if_neg hB0, hud, if_true]
                rw [if_pos hgap, if_pos hr1, s1 fuel (by omega), Option.bind_some, if_neg hr0, t1 fuel (by omega), Option.bind_some, o1 fuel (by omega)]
              · by_cases h0 : i ≤ r
                · exact (o4 i h0).mono (by omega)
                by_cases h2 : i = j + 2
                · subst h2
                  exact .of_eq (by rw [o3 _ (by omega), hgA]) hA.ok hAv
                by_cases h3 : i = j + 1
                · subst h3
                  exact .of_eq (by rw [o3 _ (by omega), hgB]) hB.ok hBv
                · exact .of_eq (by rw [o3 _ (by omega), hgl i (by omega)]) .nil (by rw [val_nil, hz i (by omega) (by omega)])
        · have hrj : r = j + 1 := by
            have := hL.degB
            omega
          obtain ⟨N2, T, t1, szT, t3, hBv', lev⟩ := step_reg hK D hSv hSd hcap (by omega) hA hB hL hr hrj
          obtain ⟨N3, L', o1, o2, o3, o4⟩ := ih j B T (L.set (j + 2) A) (by omega) (by omega) hB szT lev hBv'
            (fun i hi => by rw [getD_set _ _ _ _ (by omega), if_neg (by omega), hL0 i (by omega)]) (by rw [List.length_set]; omega)
          refine ⟨max N2 N3, L', fun fuel hf => ?_, by rw [o2, List.length_set], fun i hi => by rw [o3 i (by omega), getD_set _ _ _ _ (by omega), if_neg (by omega)], fun i hi => ?_⟩
          · rw [subLoop]
            simp only [if_neg hB0, hud, if_true]
            rw [if_neg hgap, t1 fuel (by omega), Option.bind_some, o1 fuel (by omega)]
          · by_cases h2 : i = j + 2
            · subst h2
              exact .of_eq (by rw [o3 _ (by omega), getD_set _ _ _ _ (by omega), if_pos rfl]) hA.ok hAv
            · exact (o4 i (by omega)).mono (by omega)

/-- **the main loop**, only the last subresultant -/
theorem subLoop_last : ∀ (n j : ℕ) (A B : PV Mono R), j ≤ n → j + 1 ≤ m → Sz v V d A → Sz v V d B → Level (fun i => toU v (S i)) j 2 (toU v (val A)) (toU v (val B)) →
    ∃ N out, (∀ fuel ≥ N, subLoop v divc fuel false n j A B [[]] = some [out]) ∧ PolyOK (varUni v) (lexGt (varUni v)) out ∧ val out = S 0 := by
  intro n
  induction n with
  | zero =>
    intro j A B hj hm hA hB hL
    obtain rfl : j = 0 := by omega
    exact ⟨0, B, fun fuel _ => by rw [subLoop]; rfl, hB.ok, toU_injective v hL.last.symm⟩
  | succ n ih =>
    intro j A B hj hm hA hB hL
    cases j with
    | zero => exact ⟨0, B, fun fuel _ => by rw [subLoop]; rfl, hB.ok, toU_injective v hL.last.symm⟩
    | succ j =>
      by_cases hB0 : B = []
      · refine ⟨0, [], fun fuel _ => by rw [subLoop]; simp only [if_pos hB0, Bool.false_eq_true, if_false], .nil, ?_⟩
        have hz := hL.zero (by rw [hB0, val_nil, map_zero]) 0 (by omega)
        exact (toU_injective v (by rw [val_nil, map_zero]; exact hz.symm))
      · obtain ⟨r, hr⟩ : ∃ r, r = (toU v (val B)).natDegree := ⟨_, rfl⟩
        have hud : udeg v B = r := by rw [hr]; exact udeg_eq hB
        by_cases hgap : r < j + 1
        · obtain ⟨N1, Sr, s1, szS, s3⟩ := step_gapS hK D hSv hSd hcap (by omega) hA hB hL hr hgap
          by_cases hr0 : r = 0
          · refine ⟨N1, Sr, fun fuel hf => ?_, szS.ok, by rw [s3, hr0]⟩
            rw [subLoop]
            simp only [if_neg hB0, hud, Bool.false_eq_true, if_false]
            rw [if_pos hgap, if_pos (by omega), s1 fuel hf, Option.bind_some, if_pos hr0]
            rfl
          · obtain ⟨N2, T, t1, szT, t3, lev⟩ := step_gapT hK D hSv hSd hcap (by omega) hA hB hL hr hgap hr0
            by_cases hr1 : r = 1
            · subst hr1
              refine ⟨N2, T, fun fuel hf => ?_, szT.ok, t3⟩
              rw [subLoop]
              simp only [if_neg hB0, hud, Bool.false_eq_true, if_false]
              rw [if_pos hgap, if_neg (not_not.2 rfl), Option.bind_some, if_neg hr0, t1 fuel hf, Option.bind_some, Nat.sub_self]
              cases n <;> rw [subLoop] <;> rfl
            · obtain ⟨N3, out, o1, o2, o3⟩ := ih (r - 1) Sr T (by omega) (by omega) szS szT (by rw [s3, t3]; exact lev)
              refine ⟨max N1 (max N2 N3), out, fun fuel hf => ?_, o2, o3⟩
              rw [subLoop]
              simp only [if_neg hB0, hud, Bool.false_eq_true, if_false]
              rw [if_pos hgap, if_pos hr1, s1 fuel (by omega), Option.bind_some, if_neg hr0, t1 fuel (by omega), Option.bind_some, o1 fuel (by omega)]
        · have hrj : r = j + 1 := by
            have := hL.degB
            omega
          obtain ⟨N2, T, t1, szT, t3, hBv', lev⟩ := step_reg hK D hSv hSd hcap (by omega) hA hB hL hr hrj
          obtain ⟨N3, out, o1, o2, o3⟩ := ih j B T (by omega) (by omega) hB szT lev
          refine ⟨max N2 N3, out, fun fuel hf => ?_, o2, o3⟩
          rw [subLoop]
          simp only [if_neg hB0, hud, Bool.false_eq_true, if_false]
          rw [if_neg hgap, t1 fuel (by omega), Option.bind_some, o1 fuel (by omega)]

end Res
end CLPoly
