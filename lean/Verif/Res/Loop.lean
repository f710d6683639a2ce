import Verif.Res.Ops

/-! # The main loop of the resultant computes the subresultants -/

namespace CLPoly
namespace Res
open Mono MvPolynomial Mgcd

variable {R : Type*} [CommRing R] [IsDomain R] [DecidableEq R] {v : Var} {V : Finset Var}

theorem signP_spec {N k : ℕ} {p : PV Mono R} (h : Sz v V N p) : Sz v V N (signP k p) ∧ val (signP k p) = (-1) ^ k * val p := by
  unfold signP
  split
  · rename_i hk
    exact ⟨h.neg, by rw [val_pvNeg, (Nat.odd_iff.2 hk).neg_one_pow, neg_one_mul]⟩
  · rename_i hk
    exact ⟨h, by rw [(Nat.even_iff.2 (by omega)).neg_one_pow, one_mul]⟩

omit [IsDomain R] [DecidableEq R] in
theorem sign_cancel {k : ℕ} {a h P : R} (e : a * h = (-1) ^ k * P) : P = (-1) ^ k * h * a := by
  rw [mul_assoc, mul_comm h a, e, ← mul_assoc, ← pow_add, (Even.add_self k).neg_one_pow, one_mul]

/-- polynomials given by their value -/
theorem Sz.of_val {N : ℕ} {p : PV Mono R} (h : PolyOK (varUni v) (lexGt (varUni v)) p) {f : MvPolynomial Var R} (e : val p = f) (hv : f.vars ⊆ V) (hd : ∀ w, f.degreeOf w ≤ N) : Sz v V N p :=
  ⟨h, by rw [e]; exact hv, fun w => by rw [e]; exact hd w⟩

variable {K : ℕ} (hK : (K : ℤ) < capLex V.card)
include hK

theorem powMulP_spec {a b k : ℕ} {c p : PV Mono R} (hc : Sz v V a c) (hp : Sz v V b p) (hk : 1 ≤ k) (h : k * a + b ≤ K) :
    ∃ out, powMulP v c p k = some out ∧ Sz v V (k * a + b) out ∧ val out = val c ^ k * val p := by
  unfold powMulP
  by_cases h2 : k < 2
  · rw [if_pos h2]
    obtain rfl : k = 1 := by omega
    obtain ⟨out, o1, o2, o3⟩ := mulP_spec hK hc hp (by omega)
    exact ⟨out, o1, o2.mono (by omega), by rw [o3, pow_one]⟩
  · rw [if_neg h2]
    obtain ⟨t, t1, t2, t3⟩ := powP_spec hK hc hk (by omega)
    obtain ⟨out, o1, o2, o3⟩ := mulP_spec hK t2 hp h
    exact ⟨out, by rw [t1, Option.bind_some, o1], o2, by rw [o3, t3]⟩

variable {divc : R → R → R × R} (D : CoefDiv divc)
include D

theorem gapS_spec {a b k : ℕ} {A B : PV Mono R} {h : MvPolynomial Var R} (hA : Sz v V a A) (hB : Sz v V b B) (A0 : val A ≠ 0) (hk : 1 ≤ k) (h1 : k * b + b ≤ K) (h2 : k * a ≤ K)
    (he : (toU v (val B)).leadingCoeff ^ k * val B = h * (toU v (val A)).leadingCoeff ^ k) :
    ∃ N out, (∀ fuel ≥ N, gapS v divc fuel A B k = some out) ∧ PolyOK (varUni v) (lexGt (varUni v)) out ∧ val out = h := by
  obtain ⟨lA, lA2, -⟩ := lcP_spec hA
  obtain ⟨lB, lB2, -⟩ := lcP_spec hB
  have hlA : val (lcP v A) ≠ 0 := by rw [lA2]; exact Polynomial.leadingCoeff_ne_zero.2 (toU_ne_zero A0)
  unfold gapS
  by_cases hk2 : k < 2
  · obtain rfl : k = 1 := by omega
    simp only [show (1 : ℕ) < 2 by norm_num, if_true]
    obtain ⟨t, t1, t2, t3⟩ := mulP_spec hK lB hB (by omega)
    rw [pow_one, pow_one, ← lA2, ← lB2, ← t3] at he
    obtain ⟨N, out, o1, o2, o3⟩ := divP_spec hK D (t2.mono (by omega)) (lA.mono (by omega)) hlA he
    exact ⟨N, out, fun fuel hf => by rw [t1, Option.bind_some, o1 fuel hf], o2, o3⟩
  · simp only [hk2, if_false]
    obtain ⟨s, s1, s2, s3⟩ := powP_spec hK lB hk (by omega)
    obtain ⟨t, t1, t2, t3⟩ := mulP_spec hK s2 hB (by omega)
    obtain ⟨u, u1, u2, u3⟩ := powP_spec hK lA hk h2
    rw [← lA2, ← lB2, ← s3, ← t3, ← u3] at he
    obtain ⟨N, out, o1, o2, o3⟩ := divP_spec hK D (t2.mono (by omega)) (u2.mono h2) (by rw [u3]; exact pow_ne_zero _ hlA) he
    exact ⟨N, out, fun fuel hf => by rw [s1, Option.bind_some, t1, Option.bind_some, u1, Option.bind_some, o1 fuel hf], o2, o3⟩

/-- the value of an exact quotient of a pseudo-remainder -/
theorem gapT_spec {a b s k : ℕ} {A B : PV Mono R} {h : MvPolynomial Var R} (hA : Sz v V a A) (hB : Sz v V b B) (A0 : val A ≠ 0) (hk : 1 ≤ k)
    (hB1 : 1 ≤ (toU v (val B)).natDegree) (hBA : (toU v (val A)).natDegree + 1 = (toU v (val B)).natDegree + k + 2 - 0)
    (hs : h.vars ⊆ V) (hsd : ∀ w, h.degreeOf w ≤ s) (h1 : a + (k + 2) * b ≤ K) (h2 : (k + 2) * a + s ≤ K)
    (he : ∀ P Q : Polynomial (MvPolynomial Var R), Polynomial.C ((toU v (val B)).leadingCoeff ^ (k + 2)) * toU v (val A) = Q * toU v (val B) + P →
      Q.natDegree ≤ k + 1 → P.natDegree < (toU v (val B)).natDegree → Polynomial.C ((toU v (val A)).leadingCoeff ^ (k + 2)) * toU v h = (-1) ^ k * P) :
    ∃ N out, (∀ fuel ≥ N, gapT v divc fuel A B k = some out) ∧ PolyOK (varUni v) (lexGt (varUni v)) out ∧ val out = h := by
  obtain ⟨lA, lA2, lA3⟩ := lcP_spec hA
  have hlA : val (lcP v A) ≠ 0 := by rw [lA2]; exact Polynomial.leadingCoeff_ne_zero.2 (toU_ne_zero A0)
  obtain ⟨P, Q, p1, p2, p3, p4, p5⟩ := premP_spec hK hA hB hB1 (by omega) (by
    rw [show (toU v (val A)).natDegree + 1 - (toU v (val B)).natDegree = k + 2 by omega]
    exact h1)
  rw [show (toU v (val A)).natDegree + 1 - (toU v (val B)).natDegree = k + 2 by omega] at p3
  have e1 := he _ _ p3 (by omega) p5
  have e2 : val P = ((-1) ^ k * h) * val (lcP v A) ^ (k + 2) := by
    refine toU_injective v ?_
    rw [map_mul, map_mul, map_pow, map_pow, lA3, map_neg, map_one, ← map_pow]
    exact sign_cancel e1
  have hdeg : ∀ w, (((-1) ^ k * h) * val (lcP v A) ^ (k + 2)).degreeOf w ≤ K := by
    intro w
    refine (degreeOf_mul_le w _ _).trans ?_
    have h3 : ((-1) ^ k * h).degreeOf w = h.degreeOf w := by
      rcases neg_one_pow_eq_or (MvPolynomial Var R) k with e | e <;> rw [e]
      · rw [one_mul]
      · rw [neg_one_mul, degreeOf_neg]
    rw [h3]
    have h4 := degreeOf_pow_le w (val (lcP v A)) (k + 2)
    have h5 := Nat.mul_le_mul_left (k + 2) (lA.deg w)
    have := hsd w
    omega
  have hvars : (((-1) ^ k * h) * val (lcP v A) ^ (k + 2)).vars ⊆ V := by
    refine (vars_mul _ _).trans (Finset.union_subset ?_ ((vars_pow_subset _ _).trans lA.vars))
    rcases neg_one_pow_eq_or (MvPolynomial Var R) k with e | e <;> rw [e]
    · rw [one_mul]; exact hs
    · rw [neg_one_mul, vars_neg]; exact hs
  have szP : Sz v V K P := .of_val p2 e2 hvars hdeg
  obtain ⟨a2, a21, a22, a23⟩ := mulP_spec hK lA lA (by
    have : 2 * a ≤ (k + 2) * a := Nat.mul_le_mul_right _ (by omega)
    omega)
  obtain ⟨d, d1, d2, d3⟩ : ∃ d, (if k < 2 then mulP v (lcP v A) a2 else (powP v (lcP v A) k).bind fun t => mulP v a2 t) = some d ∧ Sz v V ((k + 2) * a) d ∧ val d = val (lcP v A) ^ (k + 2) := by
    by_cases hk2 : k < 2
    · rw [if_pos hk2]
      obtain rfl : k = 1 := by omega
      obtain ⟨d, d1, d2, d3⟩ := mulP_spec hK lA a22 (by omega)
      exact ⟨d, d1, d2.mono (by omega), by rw [d3, a23]; ring⟩
    · rw [if_neg hk2]
      have hle : k * a + 2 * a = (k + 2) * a := by ring
      obtain ⟨t, t1, t2, t3⟩ := powP_spec hK lA hk (by omega)
      obtain ⟨d, d1, d2, d3⟩ := mulP_spec hK a22 t2 (by omega)
      exact ⟨d, by rw [t1, Option.bind_some, d1], d2.mono (by omega), by rw [d3, a23, t3]; ring⟩
  rw [← d3] at e2
  obtain ⟨N, out, o1, o2, o3⟩ := divP_spec hK D szP (d2.mono (by omega)) (by rw [d3]; exact pow_ne_zero _ hlA) e2
  have szo : Sz v V s out := .of_val o2 o3 (by
      rcases neg_one_pow_eq_or (MvPolynomial Var R) k with e | e <;> rw [e]
      · rw [one_mul]; exact hs
      · rw [neg_one_mul, vars_neg]; exact hs) fun w => by
      rcases neg_one_pow_eq_or (MvPolynomial Var R) k with e | e <;> rw [e]
      · rw [one_mul]; exact hsd w
      · rw [neg_one_mul, degreeOf_neg]; exact hsd w
  obtain ⟨g1, g2⟩ := signP_spec (k := k) szo
  refine ⟨N, signP k out, fun fuel hf => ?_, g1.ok, ?_⟩
  · rw [gapT, a21, Option.bind_some, d1, Option.bind_some, p1, Option.bind_some, o1 fuel hf]; rfl
  · rw [g2, o3, ← mul_assoc, ← mul_pow]
    simp

theorem regT_spec {a b s : ℕ} {A B : PV Mono R} {h : MvPolynomial Var R} (hA : Sz v V a A) (hB : Sz v V b B) (A0 : val A ≠ 0)
    (hB1 : 1 ≤ (toU v (val B)).natDegree) (hBA : (toU v (val A)).natDegree = (toU v (val B)).natDegree + 1)
    (hs : h.vars ⊆ V) (hsd : ∀ w, h.degreeOf w ≤ s) (h1 : a + 2 * b ≤ K) (h2 : 2 * a + s ≤ K)
    (he : ∀ P Q : Polynomial (MvPolynomial Var R), Polynomial.C ((toU v (val B)).leadingCoeff ^ 2) * toU v (val A) = Q * toU v (val B) + P →
      Q.natDegree ≤ 1 → P.natDegree < (toU v (val B)).natDegree → Polynomial.C ((toU v (val A)).leadingCoeff ^ 2) * toU v h = P) :
    ∃ N out, (∀ fuel ≥ N, regT v divc fuel A B = some out) ∧ PolyOK (varUni v) (lexGt (varUni v)) out ∧ val out = h := by
  obtain ⟨lA, lA2, lA3⟩ := lcP_spec hA
  have hlA : val (lcP v A) ≠ 0 := by rw [lA2]; exact Polynomial.leadingCoeff_ne_zero.2 (toU_ne_zero A0)
  obtain ⟨P, Q, p1, p2, p3, p4, p5⟩ := premP_spec hK hA hB hB1 (by omega) (by
    rw [show (toU v (val A)).natDegree + 1 - (toU v (val B)).natDegree = 2 by omega]
    exact h1)
  rw [show (toU v (val A)).natDegree + 1 - (toU v (val B)).natDegree = 2 by omega] at p3
  have e1 := he _ _ p3 (by omega) p5
  obtain ⟨d, d1, d2, d3⟩ := mulP_spec hK lA lA (by omega)
  have e2 : val P = h * val d := by
    refine toU_injective v ?_
    rw [d3, map_mul, map_mul, lA3, ← map_mul, ← e1, pow_two, mul_comm]
  have szP : Sz v V K P := .of_val p2 e2 ((vars_mul _ _).trans (Finset.union_subset hs d2.vars)) fun w => by
    refine (degreeOf_mul_le w _ _).trans ?_
    have := hsd w
    have := d2.deg w
    omega
  obtain ⟨N, out, o1, o2, o3⟩ := divP_spec hK D szP (d2.mono (by omega)) (by rw [d3]; exact mul_ne_zero hlA hlA) e2
  exact ⟨N, out, fun fuel hf => by rw [regT, p1, Option.bind_some, d1, Option.bind_some, o1 fuel hf], o2, o3⟩

/-- **the main loop** ends with the subresultant of index 0 -/
theorem resLoop_spec {m d : ℕ} {S : ℕ → MvPolynomial Var R} (hSv : ∀ i < m, (S i).vars ⊆ V) (hSd : ∀ i < m, ∀ w, (S i).degreeOf w ≤ d) (hcap : (m + 1) * d ≤ K) :
    ∀ (n j : ℕ) (A B : PV Mono R), j ≤ n → j + 1 ≤ m → Sz v V d A → Sz v V d B → Level (fun i => toU v (S i)) j 2 (toU v (val A)) (toU v (val B)) →
    ∃ N out, (∀ fuel ≥ N, resLoop v divc fuel n j A B = some out) ∧ PolyOK (varUni v) (lexGt (varUni v)) out ∧ val out = S 0 := by
  intro n
  induction n with
  | zero =>
    intro j A B hj hm hA hB hL
    obtain rfl : j = 0 := by omega
    refine ⟨0, B, fun fuel _ => by rw [resLoop], hB.ok, toU_injective v hL.last.symm⟩
  | succ n ih =>
    intro j A B hj hm hA hB hL
    cases j with
    | zero => exact ⟨0, B, fun fuel _ => by rw [resLoop], hB.ok, toU_injective v hL.last.symm⟩
    | succ j =>
      have hA0 : val A ≠ 0 := fun e => hL.ne (by rw [e, map_zero])
      have hdA := hL.degA
      have hdB := hL.degB
      have hmd : ∀ k, k ≤ m + 1 → k * d ≤ K := fun k hk => (Nat.mul_le_mul_right d hk).trans hcap
      obtain ⟨r, hr⟩ : ∃ r, r = (toU v (val B)).natDegree := ⟨_, rfl⟩
      have hud : udeg v B = r := by rw [hr]; exact udeg_eq hB
      rw [← hr] at hdB
      have hatDeg := hL.atDeg (by norm_num)
      rw [← hr, show (2 - 1) * (j + 1 - r) = j + 1 - r by omega] at hatDeg
      by_cases hgap : r < j + 1
      · obtain ⟨k, hk⟩ : ∃ k, k = j + 1 - r := ⟨_, rfl⟩
        -- the subresultant at the degree of B
        have hSr : (toU v (val B)).leadingCoeff ^ k * val B = S r * (toU v (val A)).leadingCoeff ^ k := by
          refine toU_injective v ?_
          have f1 := (lcP_spec hA).2
          have f2 := (lcP_spec hB).2
          rw [map_mul, map_mul, map_pow, map_pow, ← f2.1, ← f1.1, f2.2, f1.2, ← map_pow, ← map_pow, mul_comm (toU v (S r))]
          rw [hk]
          exact hatDeg.symm
        obtain ⟨N1, Sr, s1, s2, s3⟩ := gapS_spec hK D hA hB hA0 (k := k) (by omega)
          (by have := hmd (k + 1) (by omega); rw [add_mul, one_mul] at this; exact this) (hmd k (by omega)) hSr
        by_cases hr0 : r = 0
        · refine ⟨N1, Sr, fun fuel hf => ?_, s2, by rw [s3, hr0]⟩
          rw [resLoop]
          simp only [hud]
          rw [if_pos hgap, if_pos (by omega), ← hk, s1 fuel hf, Option.bind_some, if_pos hr0]
        · have hB0 : toU v (val B) ≠ 0 := by
            intro e
            rw [e, Polynomial.natDegree_zero] at hr
            exact hr0 hr
          have hstep := fun (P Q : Polynomial (MvPolynomial Var R)) h1 h2 h3 => hL.step (Q := Q) (P := P) hB0 (by omega) h1 h2 h3
          rw [← hr] at hstep
          obtain ⟨N2, T, t1, t2, t3⟩ := gapT_spec hK D (s := d) (h := S (r - 1)) (k := k) hA hB hA0 (by omega) (by omega) (by omega) (hSv _ (by omega)) (hSd _ (by omega))
            (by have := hmd (k + 3) (by omega); rw [show (k + 3) * d = d + (k + 2) * d by ring] at this; exact this)
            (by have := hmd (k + 3) (by omega); rw [show (k + 3) * d = (k + 2) * d + d by ring] at this; exact this)
            (fun P Q h1 h2 h3 => by
              rw [hk] at h1 h2 ⊢
              exact (hstep P Q h1 (by omega) (by rw [hr]; exact h3)).1)
          have szT : Sz v V d T := .of_val t2 t3 (hSv _ (by omega)) (hSd _ (by omega))
          by_cases hr1 : r = 1
          · refine ⟨N2, T, fun fuel hf => ?_, t2, by rw [t3, hr1]⟩
            rw [resLoop]
            simp only [hud]
            rw [if_pos hgap, if_neg (not_not.2 hr1), Option.bind_some, if_neg hr0, ← hk, t1 fuel hf, Option.bind_some, hr1]
            cases n <;> rw [resLoop]
          · -- the next level
            have szS : Sz v V d Sr := .of_val s2 s3 (hSv _ (by omega)) (hSd _ (by omega))
            obtain ⟨P, Q, -, -, p3, p4, p5⟩ := premP_spec hK hA hB (by omega) (by omega) (by
              rw [← hr, hdA, show j + 1 + 1 + 1 - r = k + 2 by omega]
              have := hmd (k + 3) (by omega)
              rw [show (k + 3) * d = d + (k + 2) * d by ring] at this
              exact this)
            rw [← hr, hdA] at p3 p4
            rw [← hr] at p5
            have hnext := (hstep (toU v (val P)) Q (by rw [← p3]; congr 3; omega) (by omega) p5).2
            have hLn : Level (fun i => toU v (S i)) (r - 1) 2 (toU v (val Sr)) (toU v (val T)) := by rw [s3, t3]; exact hnext
            obtain ⟨N3, out, o1, o2, o3⟩ := ih (r - 1) Sr T (by omega) (by omega) szS szT hLn
            refine ⟨max N1 (max N2 N3), out, fun fuel hf => ?_, o2, o3⟩
            rw [resLoop]
            simp only [hud]
            rw [if_pos hgap, if_pos hr1, ← hk, s1 fuel (by omega), Option.bind_some, if_neg hr0, t1 fuel (by omega), Option.bind_some, o1 fuel (by omega)]
      · -- the regular step
        have hrj : r = j + 1 := by omega
        have hB0 : toU v (val B) ≠ 0 := by
          intro e
          rw [e, Polynomial.natDegree_zero] at hr
          omega
        have hstep := fun (P Q : Polynomial (MvPolynomial Var R)) h1 h2 h3 => hL.step (Q := Q) (P := P) hB0 (by omega) h1 h2 h3
        rw [← hr, hrj] at hstep
        simp only [Nat.sub_self, zero_add, pow_zero, one_mul, Nat.add_sub_cancel, show j + 1 + 1 - (j + 1) = 1 by omega] at hstep
        rw [hrj, Nat.sub_self, pow_zero, pow_zero, Polynomial.C_1, one_mul, one_mul] at hatDeg
        obtain ⟨N2, T, t1, t2, t3⟩ := regT_spec hK D (s := d) (h := S j) hA hB hA0 (by omega) (by omega) (hSv _ (by omega)) (hSd _ (by omega))
            (by have := hmd 3 (by omega); omega) (by have := hmd 3 (by omega); omega)
            (fun P Q h1 h2 h3 => (hstep P Q h1 h2 (by omega)).1)
        have szT : Sz v V d T := .of_val t2 t3 (hSv _ (by omega)) (hSd _ (by omega))
        obtain ⟨P, Q, -, -, p3, p4, p5⟩ := premP_spec hK hA hB (by omega) (by omega) (by
          rw [← hr, hdA, hrj, show j + 1 + 1 + 1 - (j + 1) = 2 by omega]
          have := hmd 3 (by omega)
          omega)
        rw [← hr, hdA, hrj, show j + 1 + 1 + 1 - (j + 1) = 2 by omega] at p3
        rw [← hr, hdA, hrj] at p4
        rw [← hr, hrj] at p5
        have hnext := (hstep (toU v (val P)) Q p3 (by omega) p5).2
        have hLn : Level (fun i => toU v (S i)) j 2 (toU v (val B)) (toU v (val T)) := by rw [t3, ← hatDeg]; exact hnext
        obtain ⟨N3, out, o1, o2, o3⟩ := ih j B T (by omega) (by omega) hB szT hLn
        refine ⟨max N2 N3, out, fun fuel hf => ?_, o2, o3⟩
        rw [resLoop]
        simp only [hud]
        rw [if_neg hgap, t1 fuel (by omega), Option.bind_some, o1 fuel (by omega)]

end Res
end CLPoly
