import Verif.Res.Defs
import Verif.Res.Chain
import Verif.Gcd.Cont
import Verif.Poly.PremSpec

/-! # The operations used by the resultant, and subresultants of multivariate polynomials -/

namespace CLPoly
namespace Res
open Mono MvPolynomial Mgcd

section theory
variable {R : Type*} [CommRing R]

theorem degreeOf_det_le {n : ℕ} (M : Matrix (Fin n) (Fin n) (MvPolynomial Var R)) (w : Var) (d : ℕ → ℕ) (h : ∀ i c : Fin n, (M i c).degreeOf w ≤ d i) :
    M.det.degreeOf w ≤ ∑ i ∈ Finset.range n, d i := by
  rw [← Matrix.det_transpose, Matrix.det_apply]
  refine (degreeOf_sum_le w _ _).trans (Finset.sup_le fun σ _ => ?_)
  have h1 : (Equiv.Perm.sign σ • ∏ i, Matrix.transpose M (σ i) i).degreeOf w ≤ (∏ i, Matrix.transpose M (σ i) i).degreeOf w := by
    rcases Int.units_eq_one_or (Equiv.Perm.sign σ) with e | e
    · rw [e, one_smul]
    · rw [e, Units.neg_smul, one_smul, degreeOf_neg]
  refine h1.trans ((degreeOf_prod_le w _ _).trans ?_)
  rw [Finset.sum_range]
  exact Finset.sum_le_sum fun i _ => h i (σ i)

theorem toU_X (v : Var) : toU v (X v : MvPolynomial Var R) = Polynomial.X := by simp [toU]

/-- the subresultants of two multivariate polynomials with respect to `v` are multivariate polynomials -/
theorem exists_sub (v : Var) (f g : MvPolynomial Var R) (m n i : ℕ) :
    ∃ s : MvPolynomial Var R, toU v s = Sub (toU v f) (toU v g) m n i ∧ (∀ w, w ≠ v → s.degreeOf w ≤ (n - i) * f.degreeOf w + (m - i) * g.degreeOf w) ∧
      (f.degreeOf v ≤ m → g.degreeOf v ≤ n → s.degreeOf v ≤ m + n) := by
  obtain ⟨a, ha⟩ : ∃ a, a = n - i := ⟨_, rfl⟩
  obtain ⟨b, hb⟩ : ∃ b, b = m - i := ⟨_, rfl⟩
  obtain ⟨N, hN⟩ : ∃ N, N = m + n - i := ⟨_, rfl⟩
  unfold Sub SB dpol
  rw [← ha, ← hb, ← hN]
  let row : ℕ → MvPolynomial Var R := fun i => if i < a then X v ^ (a - 1 - i) * f else X v ^ (a + b - 1 - i) * g
  have hrow : ∀ i, toU v (row i) = rows (toU v f) (toU v g) a b i := by
    intro i
    simp only [row, rows]
    split <;> rw [map_mul, map_pow, toU_X]
  let M : Matrix (Fin (a + b)) (Fin (a + b)) (MvPolynomial Var R) := Matrix.of fun i c => if (c : ℕ) + 1 = a + b then row i else (toU v (row i)).coeff (N - 1 - c)
  refine ⟨M.det, ?_, fun w hw => ?_, fun hf hg => ?_⟩
  · rw [RingHom.map_det]
    congr 1
    refine Matrix.ext fun i c => ?_
    simp only [M, RingHom.mapMatrix_apply, Matrix.map_apply, Matrix.of_apply]
    split
    · exact hrow i
    · rw [toU_free (free_coeff v _ _), hrow]
  · have hXw : ∀ k : ℕ, ((X v : MvPolynomial Var R) ^ k).degreeOf w = 0 := by
      intro k
      refine degreeOf_zero_iff.2 fun h => ?_
      have h1 := MvPolynomial.vars_pow (X v : MvPolynomial Var R) k h
      classical
      by_cases hR : Nontrivial R
      · rw [vars_X, Finset.mem_singleton] at h1
        exact hw h1
      · have := not_nontrivial_iff_subsingleton.1 hR
        rw [Subsingleton.elim (X v : MvPolynomial Var R) 0] at h1
        simp at h1
    have hdrow : ∀ i, (row i).degreeOf w ≤ if i < a then f.degreeOf w else g.degreeOf w := by
      intro i
      simp only [row]
      split
      · refine (degreeOf_mul_le w _ _).trans ?_
        rw [hXw, zero_add]
      · refine (degreeOf_mul_le w _ _).trans ?_
        rw [hXw, zero_add]
    refine (degreeOf_det_le M w (fun i => if i < a then f.degreeOf w else g.degreeOf w) fun i c => ?_).trans ?_
    · simp only [M, Matrix.of_apply]
      split
      · exact hdrow i
      · exact (isCoeff_iff.2 rfl : IsCoeff v _ (row i) _).degreeOf_le.trans (hdrow i)
    · rw [Finset.sum_range_add, Finset.sum_congr rfl (g := fun _ => f.degreeOf w) fun i hi => by rw [if_pos (Finset.mem_range.1 hi)],
        Finset.sum_congr rfl (g := fun _ => g.degreeOf w) (s₂ := Finset.range b) fun i hi => by rw [if_neg (by omega)]]
      simp
  · have hXv : ∀ k : ℕ, ((X v : MvPolynomial Var R) ^ k).degreeOf v ≤ k := by
      intro k
      rw [← natDegree_toU, map_pow, toU_X]
      exact Polynomial.natDegree_X_pow_le k
    rw [← Matrix.det_transpose]
    refine (degreeOf_det_le M.transpose v (fun c => if c + 1 = a + b then m + n else 0) fun c i => ?_).trans ?_
    · simp only [M, Matrix.transpose_apply, Matrix.of_apply]
      have hi := i.2
      split
      · simp only [row]
        split
        · have h1 := degreeOf_mul_le v (X v ^ (a - 1 - i.1)) f
          have h2 := hXv (a - 1 - i)
          omega
        · have h1 := degreeOf_mul_le v (X v ^ (a + b - 1 - i.1)) g
          have h2 := hXv (a + b - 1 - i)
          omega
      · exact (degreeOf_zero_iff.2 (free_coeff v _ _)).le
    · rw [Finset.sum_ite]
      simp only [Finset.sum_const_zero, add_zero, Finset.sum_const, smul_eq_mul]
      have : ((Finset.range (a + b)).filter fun c => c + 1 = a + b).card ≤ 1 := by
        refine Finset.card_le_one.2 fun x hx y hy => ?_
        simp at hx hy
        omega
      calc _ ≤ 1 * (m + n) := Nat.mul_le_mul_right _ this
        _ = m + n := one_mul _

/-- the chain of subresultants -/
theorem exists_chain (v : Var) (f g : MvPolynomial Var R) {m n d : ℕ} {V : Finset Var} (hm : f.degreeOf v = m) (hn : g.degreeOf v = n) (hm1 : 1 ≤ m) (hn1 : 1 ≤ n)
    (hf : f.vars ⊆ V) (hg : g.vars ⊆ V) (hd : ∀ w, n * f.degreeOf w + m * g.degreeOf w ≤ d) :
    ∃ S : ℕ → MvPolynomial Var R, (fun i => toU v (S i)) = Sub (toU v f) (toU v g) m n ∧ (∀ i, (S i).vars ⊆ V) ∧ ∀ i w, (S i).degreeOf w ≤ d := by
  choose S h1 h2 h3 using exists_sub v f g m n
  have hle : ∀ i w, w ≠ v → (S i).degreeOf w ≤ n * f.degreeOf w + m * g.degreeOf w := fun i w hw =>
    (h2 i w hw).trans (add_le_add (Nat.mul_le_mul_right _ (Nat.sub_le _ _)) (Nat.mul_le_mul_right _ (Nat.sub_le _ _)))
  refine ⟨S, funext h1, fun i w hw => ?_, fun i w => ?_⟩
  · by_contra hwV
    by_cases hwv : w = v
    · subst hwv
      have : f.degreeOf w = 0 := degreeOf_zero_iff.2 fun h => hwV (hf h)
      omega
    · have e1 : f.degreeOf w = 0 := degreeOf_zero_iff.2 fun h => hwV (hf h)
      have e2 : g.degreeOf w = 0 := degreeOf_zero_iff.2 fun h => hwV (hg h)
      have := hle i w hwv
      rw [e1, e2, mul_zero, mul_zero] at this
      exact degreeOf_zero_iff.1 (by omega) hw
  · by_cases hwv : w = v
    · subst hwv
      have e1 := h3 i hm.le hn.le
      have e2 := hd w
      rw [hm, hn] at e2
      have e3 : m ≤ n * m := Nat.le_mul_of_pos_left _ hn1
      have e4 : n ≤ m * n := Nat.le_mul_of_pos_left _ hm1
      omega
    · exact (hle i w hwv).trans (hd w)
end theory

section ops
variable {R : Type*} [CommRing R] [IsDomain R] [DecidableEq R]

/-- normal form for the order with priority `v`, variables in `V`, degrees at most `N` -/
structure Sz (v : Var) (V : Finset Var) (N : ℕ) (p : PV Mono R) : Prop where
  ok : PolyOK (varUni v) (lexGt (varUni v)) p
  vars : (val p).vars ⊆ V
  deg : ∀ w, (val p).degreeOf w ≤ N

variable {v : Var} {V : Finset Var}

omit [IsDomain R] in
theorem Sz.mono {M N : ℕ} {p : PV Mono R} (h : Sz v V M p) (hMN : M ≤ N) : Sz v V N p := ⟨h.ok, h.vars, fun w => (h.deg w).trans hMN⟩

omit [IsDomain R] in
theorem Sz.nil {N : ℕ} : Sz v V N ([] : PV Mono R) := ⟨.nil, by simp [val_nil], by simp [val_nil]⟩

omit [IsDomain R] in
theorem Sz.neg {N : ℕ} {p : PV Mono R} (h : Sz v V N p) : Sz v V N (pvNeg p) :=
  ⟨h.ok.neg, by rw [val_pvNeg, vars_neg]; exact h.vars, fun w => by rw [val_pvNeg, degreeOf_neg]; exact h.deg w⟩

omit [IsDomain R] in
theorem Sz.nil_iff {N : ℕ} {p : PV Mono R} (h : Sz v V N p) : val p = 0 ↔ p = [] := h.ok.val_eq_zero (lex_ord (varUni_ord v))

omit [IsDomain R] in
theorem udeg_eq {N : ℕ} {p : PV Mono R} (h : Sz v V N p) : udeg v p = (toU v (val p)).natDegree := by
  rw [udeg, pUpDeg_eq (varUni_ord v) h.ok (top_uni v p), natDegree_toU, Int.toNat_natCast]

omit [IsDomain R] in
theorem lcP_spec {N : ℕ} {p : PV Mono R} (h : Sz v V N p) : Sz v V N (lcP v p) ∧ val (lcP v p) = (toU v (val p)).leadingCoeff ∧ toU v (val (lcP v p)) = Polynomial.C (toU v (val p)).leadingCoeff := by
  obtain ⟨-, h2, h3⟩ := leadUp_spec (varUni_ord v) h.ok (top_uni v p)
  have h4 : val (lcP v p) = (toU v (val p)).leadingCoeff := by rw [Polynomial.leadingCoeff, natDegree_toU]; exact isCoeff_iff.1 h3
  exact ⟨⟨h2, h3.vars_subset.trans h.vars, fun w => h3.degreeOf_le.trans (h.deg w)⟩, h4, by rw [show val (lcP v p) = val (leadUp v p).1 from rfl, toU_free h3.not_vars]; exact congrArg _ h4⟩

variable {K : ℕ} (hK : (K : ℤ) < capLex V.card)
include hK

theorem mulP_spec {a b : ℕ} {p q : PV Mono R} (hp : Sz v V a p) (hq : Sz v V b q) (hab : a + b ≤ K) :
    ∃ out, mulP v p q = some out ∧ Sz v V (a + b) out ∧ val out = val p * val q := by
  obtain ⟨out, h1, h2, h3⟩ := lexMul (varUni_ord v) hp.ok hq.ok hp.vars hq.vars fun w => by
    have := hp.deg w
    have := hq.deg w
    omega
  exact ⟨out, h1, ⟨h2, by rw [h3]; exact (vars_mul _ _).trans (Finset.union_subset hp.vars hq.vars), fun w => by
    rw [h3]; exact (degreeOf_mul_le w _ _).trans (add_le_add (hp.deg w) (hq.deg w))⟩, h3⟩

theorem powP_spec {a n : ℕ} {p : PV Mono R} (hp : Sz v V a p) (hn : 1 ≤ n) (hab : n * a ≤ K) :
    ∃ out, powP v p n = some out ∧ Sz v V (n * a) out ∧ val out = val p ^ n := by
  have hsz : ∀ out : PV Mono R, PolyOK (varUni v) (lexGt (varUni v)) out → val out = val p ^ n → Sz v V (n * a) out := fun out h1 h2 =>
    ⟨h1, by rw [h2]; exact (vars_pow_subset _ _).trans hp.vars, fun w => by
      rw [h2]; exact (degreeOf_pow_le w _ _).trans (Nat.mul_le_mul_left _ (hp.deg w))⟩
  unfold powP pvPower
  rw [if_neg (by omega)]
  by_cases h1 : n = 1
  · subst h1
    rw [if_pos rfl]
    exact ⟨p, rfl, by rw [one_mul]; exact hp, by rw [pow_one]⟩
  · rw [if_neg h1]
    have hfit : PowFits (varUni v) (codeLex R (varUni v)) (FitsLex (varUni v)) p n := powFits_lex (varUni_ord v) fun w => by
      have h2 := Nat.mul_le_mul_left n (hp.deg w)
      have h3 := CLPoly.capLex_anti (Finset.card_le_card hp.vars)
      have h4 : ((n * (val p).degreeOf w : ℕ) : ℤ) ≤ K := by exact_mod_cast h2.trans hab
      push_cast at h4
      omega
    obtain ⟨out, o1, o2, o3⟩ := polyPowLoop_spec (codeLex_ok (varUni_ord v)) hfit n n [] p true 0 1 le_rfl (by omega) le_rfl (by omega) hp.ok (pow_one _).symm (.inl ⟨rfl, rfl⟩)
    rw [show 0 + 1 * n = n by omega] at o3
    exact ⟨out, o1, hsz out o2 o3, o3⟩

omit [DecidableEq R] [IsDomain R] [CommRing R] in
theorem total_cap : V.card * K < 2 ^ 63 := by
  unfold capLex at hK
  split at hK
  · rename_i hc
    calc V.card * K ≤ 1 * K := Nat.mul_le_mul_right _ hc
      _ < 2 ^ 63 := by omega
  · rename_i hc
    push Not at hc
    by_cases hb : 64 < V.card
    · rw [Nat.div_eq_of_lt hb] at hK
      have : K = 0 := by omega
      rw [this]; norm_num
    · have h32 : 64 / V.card ≤ 32 := by
        calc 64 / V.card ≤ 64 / 2 := Nat.div_le_div_left hc (by norm_num)
          _ = 32 := rfl
      have h3 : (K : ℤ) < 2 ^ 32 := lt_of_lt_of_le hK (pow_le_pow_right₀ (by norm_num) h32)
      have h4 : K < 2 ^ 32 := by exact_mod_cast h3
      calc V.card * K ≤ 64 * 2 ^ 32 := Nat.mul_le_mul (by omega) h4.le
        _ < 2 ^ 63 := by norm_num

omit [IsDomain R] in
theorem Sz.deg63 {p : PV Mono R} (hp : Sz v V K p) : ∀ t ∈ p, t.1.deg < 2 ^ 63 := by
  intro t ht
  have h1 := hp.ok.deg_le_total (lex_ord (varUni_ord v)) ht
  have h2 : (val p).totalDegree ≤ V.card * K := by
    rw [totalDegree]
    refine Finset.sup_le fun s hs => ?_
    have hsub : s.support ⊆ V := fun w hw => hp.vars ((mem_vars w).2 ⟨s, hs, hw⟩)
    calc (s.sum fun _ e => e) ≤ ∑ w ∈ s.support, K := Finset.sum_le_sum fun w _ => (monomial_le_degreeOf w hs).trans (hp.deg w)
      _ = s.support.card * K := by rw [Finset.sum_const, smul_eq_mul]
      _ ≤ V.card * K := Nat.mul_le_mul_right _ (Finset.card_le_card hsub)
  have h3 := total_cap hK
  have h4 : ((val p).totalDegree : ℤ) < 2 ^ 63 := by exact_mod_cast lt_of_le_of_lt h2 h3
  omega

/-- exact division -/
theorem divP_spec {divc : R → R → R × R} (D : CoefDiv divc) {p q : PV Mono R} {h : MvPolynomial Var R} (hp : Sz v V K p) (hq : Sz v V K q) (q0 : val q ≠ 0) (he : val p = h * val q) :
    ∃ N out, (∀ fuel ≥ N, divP v divc fuel p q = some out) ∧ PolyOK (varUni v) (lexGt (varUni v)) out ∧ val out = h := by
  have ho := varUni_ord v
  have M := lex_ord ho
  obtain ⟨out, o1, o2⟩ := GB.exists_polyOK M h
  obtain ⟨N, hN⟩ := polyDiv_exact (C := codeLex R (varUni v)) (divc := divc) M D hp.ok hq.ok (fun e => q0 (by rw [e, val_nil]))
    (fun h2 => plan_lex ho hp.ok hq.ok h2 ⟨hp.deg63 hK, hq.deg63 hK⟩) o1 (by rw [o2, he])
  exact ⟨N, out, fun fuel hf => by rw [divP, hN fuel hf]; rfl, o1, o2⟩

/-- pseudo-division -/
theorem premP_spec {a b : ℕ} {A B : PV Mono R} (hA : Sz v V a A) (hB : Sz v V b B) (hB1 : 1 ≤ (toU v (val B)).natDegree) (hBA : (toU v (val B)).natDegree ≤ (toU v (val A)).natDegree)
    (hfit : a + ((toU v (val A)).natDegree + 1 - (toU v (val B)).natDegree) * b ≤ K) :
    ∃ P Q, premP v A B = some P ∧ PolyOK (varUni v) (lexGt (varUni v)) P ∧
      Polynomial.C ((toU v (val B)).leadingCoeff ^ ((toU v (val A)).natDegree + 1 - (toU v (val B)).natDegree)) * toU v (val A) = Q * toU v (val B) + toU v (val P) ∧
      Q.natDegree ≤ (toU v (val A)).natDegree - (toU v (val B)).natDegree ∧ (toU v (val P)).natDegree < (toU v (val B)).natDegree := by
  have hne : val B ≠ 0 := by
    intro e
    rw [e, map_zero, Polynomial.natDegree_zero] at hB1
    omega
  have hcard : capLex V.card ≤ capLex ((val A).vars ∪ (val B).vars).card := CLPoly.capLex_anti (Finset.card_le_card (Finset.union_subset hA.vars hB.vars))
  obtain ⟨Q, S, -, h2, h3, h4, ⟨L, e, e1, -, e3, e4⟩, e5⟩ := pquoLex_spec (v := v) (G := A) (F := B) (varUni_ord v)
    (fun w _ => by
      by_cases h : w = v
      · exact .inl h
      · refine .inr ?_
        simp [varUni, h])
    true hA.ok hB.ok (fun e => hne (by rw [e, val_nil]))
    ⟨by
      have := hA.deg v
      have h5 : ((val A).degreeOf v : ℤ) ≤ K := by exact_mod_cast this.trans ((Nat.le_add_right _ _).trans hfit)
      omega, fun w _ => by
      rw [← natDegree_toU v (val A), ← natDegree_toU v (val B)]
      have h6 : (val A).degreeOf w + ((toU v (val A)).natDegree + 1 - (toU v (val B)).natDegree) * (val B).degreeOf w ≤ K :=
        (add_le_add (hA.deg w) (Nat.mul_le_mul_left _ (hB.deg w))).trans hfit
      have h7 : (((val A).degreeOf w + ((toU v (val A)).natDegree + 1 - (toU v (val B)).natDegree) * (val B).degreeOf w : ℕ) : ℤ) ≤ K := by exact_mod_cast h6
      exact lt_of_le_of_lt h7 (lt_of_lt_of_le hK hcard)⟩
  have e3' := e3 rfl
  rw [← natDegree_toU, ← natDegree_toU] at e3'
  have hL : L = (toU v (val B)).leadingCoeff := by rw [Polynomial.leadingCoeff, natDegree_toU]; exact isCoeff_iff.1 e1
  have hP : (toU v (val S)).natDegree < (toU v (val B)).natDegree := by
    rcases e5 with e5 | e5
    · rw [e5, map_zero, Polynomial.natDegree_zero]; omega
    · rw [natDegree_toU, natDegree_toU]; exact e5
  have heq : Polynomial.C ((toU v (val B)).leadingCoeff ^ ((toU v (val A)).natDegree + 1 - (toU v (val B)).natDegree)) * toU v (val A) = toU v (val Q) * toU v (val B) + toU v (val S) := by
    rw [← e3', ← hL, ← map_mul, ← map_add, ← e4, map_mul, map_pow (toU v), toU_free e1.not_vars, map_pow]
  refine ⟨S, toU v (val Q), by rw [premP, h2]; rfl, h4, heq, ?_, hP⟩
  by_cases hQ : toU v (val Q) = 0
  · rw [hQ, Polynomial.natDegree_zero]; omega
  · have hB0 : toU v (val B) ≠ 0 := toU_ne_zero hne
    have h8 : toU v (val Q) * toU v (val B) = Polynomial.C ((toU v (val B)).leadingCoeff ^ ((toU v (val A)).natDegree + 1 - (toU v (val B)).natDegree)) * toU v (val A) - toU v (val S) := by rw [heq]; ring
    have h9 := congrArg Polynomial.natDegree h8
    rw [Polynomial.natDegree_mul hQ hB0] at h9
    have h10 := Polynomial.natDegree_sub_le (Polynomial.C ((toU v (val B)).leadingCoeff ^ ((toU v (val A)).natDegree + 1 - (toU v (val B)).natDegree)) * toU v (val A)) (toU v (val S))
    have h11 := Polynomial.natDegree_C_mul_le ((toU v (val B)).leadingCoeff ^ ((toU v (val A)).natDegree + 1 - (toU v (val B)).natDegree)) (toU v (val A))
    rw [← h9] at h10
    have h12 := max_le_iff.1 (le_refl (max (Polynomial.natDegree (Polynomial.C ((toU v (val B)).leadingCoeff ^ ((toU v (val A)).natDegree + 1 - (toU v (val B)).natDegree)) * toU v (val A))) (toU v (val S)).natDegree))
    rcases le_max_iff.1 h10 with h | h <;> omega

end ops
end Res
end CLPoly
