import Verif.Res.SubSpec
import Verif.Res.Zero
import Verif.Props.MGcd

/-!
# Properties C65–C67: resultant, subresultant chain, discriminant

`PolyOK vc mc p` (Poly/OpsSpec.lean): `p` is in normal form for the order; `val p` is the polynomial.  `toU v f` (Gcd/Theory.lean) is `f` read as a polynomial in `v`: the ring
homomorphism that maps `v` to the variable of `Polynomial` and keeps the other variables as coefficients.  `Polynomial.resultant f g m l` is Mathlib's determinant of the Sylvester
matrix for the formal degrees `m, l`.  `capLex n`: the exponents the packed representation of `n` variables can hold (`2^63` for one, `2^(64/n)` for more); all theorems need only
that the degrees of the operands times a small factor stay below it.  `CoefDiv divc`: `divc` divides exactly when it can (the integers and every field, see the examples).
`fuel` bounds the inner loops of the divisions: the theorems say that for every large enough bound the result is the same, so the loops terminate.
-/

namespace CLPoly
open Mono Mgcd MvPolynomial

section
variable {R : Type*} [CommRing R] [IsDomain R] [DecidableEq R] {divc : R → R → R × R} {vc : Var → Var → Bool} {mc : Mono → Mono → Bool}

/-! ## C65: the resultant -/

/-- `resultant(F, G, v)` terminates, returns a polynomial in normal form that is free of `v`, and this is the determinant of the Sylvester matrix of the operands as polynomials
in `v`; if an operand is zero the result is zero.  Both algorithms of the code (the subresultant chain for up to three variables, the Bezout determinant for more) are covered. -/
theorem C65_resultant (D : CoefDiv divc) (M : MonoOrd vc mc) {F G : PV Mono R} (hF : PolyOK vc mc F) (hG : PolyOK vc mc G) (v : Var)
    (hcap : ∀ w, (((max ((val F).degreeOf v) ((val G).degreeOf v) + 1) * ((val G).degreeOf v * (val F).degreeOf w + (val F).degreeOf v * (val G).degreeOf w) : ℕ) : ℤ)
      < capLex ((val F).vars ∪ (val G).vars).card) :
    ∃ N out, (∀ fuel ≥ N, Res.resultant vc mc divc fuel F G v = some out) ∧ PolyOK vc mc out ∧ v ∉ (val out).vars ∧
      (val F = 0 ∨ val G = 0 → val out = 0) ∧
      (val F ≠ 0 → val G ≠ 0 → val out = Polynomial.resultant (toU v (val F)) (toU v (val G))) := by
  obtain ⟨N, out, h1, h2, h3, h4⟩ := Res.resultant_spec D M hF hG v rfl rfl hcap
  refine ⟨N, out, h1, h2, ?_, h3, fun a b => by rw [(h4 a b).2, natDegree_toU, natDegree_toU]⟩
  by_cases hF0 : val F = 0
  · rw [h3 (.inl hF0)]; simp
  by_cases hG0 : val G = 0
  · rw [h3 (.inr hG0)]; simp
  exact (h4 hF0 hG0).1

/-- the resultant is a polynomial combination of the operands (unless both are free of `v`) -/
theorem C65_resultant_combination (D : CoefDiv divc) (M : MonoOrd vc mc) {F G : PV Mono R} (hF : PolyOK vc mc F) (hG : PolyOK vc mc G) (v : Var)
    (hcap : ∀ w, (((max ((val F).degreeOf v) ((val G).degreeOf v) + 1) * ((val G).degreeOf v * (val F).degreeOf w + (val F).degreeOf v * (val G).degreeOf w) : ℕ) : ℤ)
      < capLex ((val F).vars ∪ (val G).vars).card)
    (hv : v ∈ (val F).vars ∪ (val G).vars) :
    ∃ N out, (∀ fuel ≥ N, Res.resultant vc mc divc fuel F G v = some out) ∧ ∃ a b : MvPolynomial Var R, val out = a * val F + b * val G := by
  obtain ⟨N, out, h1, -, -, h3, h4⟩ := C65_resultant D M hF hG v hcap
  refine ⟨N, out, h1, ?_⟩
  by_cases hF0 : val F = 0
  · exact ⟨0, 0, by rw [h3 (.inl hF0)]; ring⟩
  by_cases hG0 : val G = 0
  · exact ⟨0, 0, by rw [h3 (.inr hG0)]; ring⟩
  rw [h4 hF0 hG0]
  refine Res.resultant_comb ?_
  rcases Finset.mem_union.1 hv with h | h
  · exact .inl fun e => degreeOf_zero_iff.1 e h
  · exact .inr fun e => degreeOf_zero_iff.1 e h

/-- elimination: the resultant vanishes at every common zero of the operands, in every extension ring -/
theorem C65_resultant_common_zero (D : CoefDiv divc) (M : MonoOrd vc mc) {F G : PV Mono R} (hF : PolyOK vc mc F) (hG : PolyOK vc mc G) (v : Var)
    (hcap : ∀ w, (((max ((val F).degreeOf v) ((val G).degreeOf v) + 1) * ((val G).degreeOf v * (val F).degreeOf w + (val F).degreeOf v * (val G).degreeOf w) : ℕ) : ℤ)
      < capLex ((val F).vars ∪ (val G).vars).card)
    (hv : v ∈ (val F).vars ∪ (val G).vars) :
    ∃ N out, (∀ fuel ≥ N, Res.resultant vc mc divc fuel F G v = some out) ∧
      ∀ {S : Type} [CommRing S] (φ : R →+* S) (a : Var → S), eval₂ φ a (val F) = 0 → eval₂ φ a (val G) = 0 → eval₂ φ a (val out) = 0 := by
  obtain ⟨N, out, h1, x, y, e⟩ := C65_resultant_combination D M hF hG v hcap hv
  exact ⟨N, out, h1, fun φ a hf hg => by rw [e, eval₂_add, eval₂_mul, eval₂_mul, hf, hg, mul_zero, mul_zero, add_zero]⟩

/-- the resultant of non-zero polynomials is zero exactly when they have a common factor that contains `v` -/
theorem C65_resultant_zero_iff [UniqueFactorizationMonoid R] (D : CoefDiv divc) (M : MonoOrd vc mc) {F G : PV Mono R} (hF : PolyOK vc mc F) (hG : PolyOK vc mc G) (v : Var)
    (hcap : ∀ w, (((max ((val F).degreeOf v) ((val G).degreeOf v) + 1) * ((val G).degreeOf v * (val F).degreeOf w + (val F).degreeOf v * (val G).degreeOf w) : ℕ) : ℤ)
      < capLex ((val F).vars ∪ (val G).vars).card)
    (hF0 : val F ≠ 0) (hG0 : val G ≠ 0) :
    ∃ N out, (∀ fuel ≥ N, Res.resultant vc mc divc fuel F G v = some out) ∧ (out = [] ↔ ∃ h, h ∣ val F ∧ h ∣ val G ∧ v ∈ h.vars) := by
  obtain ⟨N, out, h1, h2, -, -, h4⟩ := C65_resultant D M hF hG v hcap
  exact ⟨N, out, h1, by rw [← h2.val_eq_zero M, h4 hF0 hG0, Res.resultant_zero_iff_mv hF0 hG0]⟩

/-! ## C66: the subresultant chain -/

/-- **specification**: the `i`-th subresultant of polynomials of degrees `m, n`: the determinant with the rows `x^(n-i-1) F, …, F, x^(m-i-1) G, …, G`, where the columns are the
coefficients of `x^(m+n-i-1), x^(m+n-i-2), …` and the last column consists of the polynomials themselves -/
noncomputable def subres {A : Type*} [CommRing A] (F G : Polynomial A) (m n i : ℕ) : Polynomial A :=
  (Matrix.of fun r c : Fin ((n - i) + (m - i)) =>
    let p : Polynomial A := if (r : ℕ) < n - i then Polynomial.X ^ (n - i - 1 - r) * F else Polynomial.X ^ ((n - i) + (m - i) - 1 - r) * G
    if (c : ℕ) + 1 = (n - i) + (m - i) then p else Polynomial.C (p.coeff (m + n - i - 1 - c))).det

theorem subres_eq {A : Type*} [CommRing A] (F G : Polynomial A) (m n i : ℕ) : subres F G m n i = Res.Sub F G m n i := rfl

/-- the specification is not void: the subresultant of index 0 is the resultant -/
theorem subres_zero {A : Type*} [CommRing A] {F G : Polynomial A} (h : 1 ≤ F.natDegree + G.natDegree) :
    subres F G F.natDegree G.natDegree 0 = Polynomial.C (Polynomial.resultant F G) := by
  rw [subres_eq, ← Res.SB_resultant _ _ le_rfl le_rfl h]
  rfl

/-- `subresultant(F, G, v)` (operands in the asserted order `m = deg F ≥ l = deg G > 0`) returns the vector `S_0, …, S_{u-2}, G, F` (`u = m` if `l < m`, else `m + 1`) of all
subresultants, with zeros between the degree of `G` and `m - 1`.
Missing for the full statement, and false of the code (`C66_chain_defect`): when some `S_k`, `2 ≤ k ≤ u - 2`, has degree 1 in `v`, the entry of index 1 may be left empty. -/
theorem C66_chain_partial (D : CoefDiv divc) (M : MonoOrd vc mc) {F G : PV Mono R} (hF : PolyOK vc mc F) (hG : PolyOK vc mc G) (v : Var) {m l u : ℕ}
    (hm : (val F).degreeOf v = m) (hl : (val G).degreeOf v = l) (hl1 : 1 ≤ l) (hlm : l ≤ m) (hu : u = if l < m then m else m + 1)
    (hcap : ∀ w, (((m + 1) * (l * (val F).degreeOf w + m * (val G).degreeOf w) : ℕ) : ℤ) < capLex ((val F).vars ∪ (val G).vars).card) :
    ∃ N L, (∀ fuel ≥ N, Res.subresultant vc mc divc fuel F G v true = some L) ∧ L.length = u + 1 ∧ L.getD u [] = F ∧ L.getD (u - 1) [] = G ∧
      (∀ i, l < i → i < u - 1 → L.getD i [] = []) ∧
      (∀ i, i ≤ l → i < u - 1 → PolyOK vc mc (L.getD i [])) ∧
      ∀ i, i ≤ l → i < u - 1 → (i = 1 → ∀ k, 2 ≤ k → k ≤ u - 2 → (subres (toU v (val F)) (toU v (val G)) m l k).natDegree ≠ 1) →
        toU v (val (L.getD i [])) = subres (toU v (val F)) (toU v (val G)) m l i := by
  obtain ⟨N, L, h1, h2, h3, h4, h5, h6⟩ := Res.subresultant_list D M hF hG v hm hl hl1 hlm hcap hu
  refine ⟨N, L, h1, h2, h3, h4, h5, fun i a b => (h6 i a b).1, fun i a b hne => ?_⟩
  rcases (h6 i a b).2 with h | ⟨x1, -, k, x2, x3, x4⟩
  · exact h
  · exact absurd x4 (hne x1 k x2 x3)

/-- and in the exceptional case the entry of index 1 is either right or empty -/
theorem C66_chain_index_one_partial (D : CoefDiv divc) (M : MonoOrd vc mc) {F G : PV Mono R} (hF : PolyOK vc mc F) (hG : PolyOK vc mc G) (v : Var) {m l u : ℕ}
    (hm : (val F).degreeOf v = m) (hl : (val G).degreeOf v = l) (hl1 : 1 ≤ l) (hlm : l ≤ m) (hu : u = if l < m then m else m + 1) (hu2 : 2 < u)
    (hcap : ∀ w, (((m + 1) * (l * (val F).degreeOf w + m * (val G).degreeOf w) : ℕ) : ℤ) < capLex ((val F).vars ∪ (val G).vars).card) :
    ∃ N L, (∀ fuel ≥ N, Res.subresultant vc mc divc fuel F G v true = some L) ∧
      (toU v (val (L.getD 1 [])) = subres (toU v (val F)) (toU v (val G)) m l 1 ∨ L.getD 1 [] = []) := by
  obtain ⟨N, L, h1, h2, h3, h4, h5, h6⟩ := Res.subresultant_list D M hF hG v hm hl hl1 hlm hcap hu
  refine ⟨N, L, h1, ?_⟩
  rcases (h6 1 (by omega) (by omega)).2 with h | ⟨-, x, -⟩
  · exact .inl h
  · exact .inr x

/-- `subresultant(F, G, v, false)` returns the vector with the resultant only -/
theorem C66_last (D : CoefDiv divc) (M : MonoOrd vc mc) {F G : PV Mono R} (hF : PolyOK vc mc F) (hG : PolyOK vc mc G) (v : Var) {m l : ℕ}
    (hm : (val F).degreeOf v = m) (hl : (val G).degreeOf v = l) (hl1 : 1 ≤ l) (hlm : l ≤ m)
    (hcap : ∀ w, (((m + 1) * (l * (val F).degreeOf w + m * (val G).degreeOf w) : ℕ) : ℤ) < capLex ((val F).vars ∪ (val G).vars).card) :
    ∃ N out, (∀ fuel ≥ N, Res.subresultant vc mc divc fuel F G v false = some [out]) ∧ PolyOK vc mc out ∧ v ∉ (val out).vars ∧
      val out = Polynomial.resultant (toU v (val F)) (toU v (val G)) := by
  obtain ⟨N, out, h1, h2, h3, h4⟩ := Res.subresultant_last D M hF hG v hm hl hl1 hlm hcap
  exact ⟨N, out, h1, h2, h3, by rw [h4, natDegree_toU, natDegree_toU, hm, hl]⟩

end

/-! ## C67: the discriminant -/

section
variable {divc : ℤ → ℤ → ℤ × ℤ} {vc : Var → Var → Bool} {mc : Mono → Mono → Bool}

/-- `discriminant(G, v)` over the integers: Mathlib's discriminant of `G` as a polynomial in `v`, zero if `G` is free of `v` -/
theorem C67_discriminant (D : CoefDiv divc) (M : MonoOrd vc mc) {G : PV Mono ℤ} (hG : PolyOK vc mc G) (v : Var)
    (hcap : ∀ w, ((((val G).degreeOf v + 1) * (2 * (val G).degreeOf v * (val G).degreeOf w) : ℕ) : ℤ) < capLex (val G).vars.card) :
    ∃ N out, (∀ fuel ≥ N, Res.discriminant vc mc divc fuel G v = some out) ∧ PolyOK vc mc out ∧ v ∉ (val out).vars ∧
      (v ∉ (val G).vars → val out = 0) ∧ (v ∈ (val G).vars → val out = (toU v (val G)).discr) := by
  obtain ⟨N, out, h1, h2, h3, h4⟩ := Res.discriminant_spec D M hG v rfl hcap
  refine ⟨N, out, h1, h2, ?_, fun h => h3 (degreeOf_zero_iff.2 h), fun h => (h4 fun e => degreeOf_zero_iff.1 e h).2⟩
  by_cases h0 : (val G).degreeOf v = 0
  · rw [h3 h0]; simp
  · exact (h4 h0).1

/-- the discriminant is zero exactly for polynomials without `v` and polynomials with a repeated factor that contains `v` -/
theorem C67_discriminant_zero_iff (D : CoefDiv divc) (M : MonoOrd vc mc) {G : PV Mono ℤ} (hG : PolyOK vc mc G) (v : Var)
    (hcap : ∀ w, ((((val G).degreeOf v + 1) * (2 * (val G).degreeOf v * (val G).degreeOf w) : ℕ) : ℤ) < capLex (val G).vars.card) :
    ∃ N out, (∀ fuel ≥ N, Res.discriminant vc mc divc fuel G v = some out) ∧ (out = [] ↔ v ∉ (val G).vars ∨ ∃ h, h * h ∣ val G ∧ v ∈ h.vars) := by
  obtain ⟨N, out, h1, h2, -, h3, h4⟩ := C67_discriminant D M hG v hcap
  refine ⟨N, out, h1, ?_⟩
  rw [← h2.val_eq_zero M]
  by_cases hv : v ∈ (val G).vars
  · rw [h4 hv, Res.discr_zero_iff (fun e => degreeOf_zero_iff.1 e hv)]
    simp [hv]
  · simp [h3 hv, hv]

end

/-! ## concrete cases -/

example : CoefDiv coefDivZ ∧ CoefDiv (coefDivF (F := ℚ)) := ⟨coefDivZ_ok, coefDivF_ok⟩

/-- `x² + y² − 1` -/
def rsF : PV Mono ℤ := [(exXY 2 0, 1), (exXY 0 2, 1), (exXY 0 0, -1)]
/-- `x − y` -/
def rsG : PV Mono ℤ := [(exXY 1 0, 1), (exXY 0 1, -1)]

/-- the resultant is `2y² − 1` -/
example : PolyOK varLess (lexGt varLess) rsF ∧ PolyOK varLess (lexGt varLess) rsG ∧
    Res.resultant varLess (lexGt varLess) coefDivZ 60 rsF rsG 1 = some [(exXY 0 2, 2), (exXY 0 0, -1)] := by decide +kernel

/-- and the operands satisfy the hypotheses of the theorems -/
example : ∀ w, (((max ((val rsF).degreeOf 1) ((val rsG).degreeOf 1) + 1) * ((val rsG).degreeOf 1 * (val rsF).degreeOf w + (val rsF).degreeOf 1 * (val rsG).degreeOf w) : ℕ) : ℤ)
    < capLex ((val rsF).vars ∪ (val rsG).vars).card := by
  have hF : MgOperand varLess (lexGt varLess) {1, 2} 2 rsF := MgOperand.of_list (lex_ord varLess_ord) (by decide +kernel) (by decide +kernel)
  have hG : MgOperand varLess (lexGt varLess) {1, 2} 2 rsG := MgOperand.of_list (lex_ord varLess_ord) (by decide +kernel) (by decide +kernel)
  intro w
  have h1 := CLPoly.capLex_anti (Finset.card_le_card (Finset.union_subset hF.vars hG.vars))
  have h2 : (24 : ℤ) < capLex ({1, 2} : Finset Var).card := by decide +kernel
  refine lt_of_le_of_lt ?_ (lt_of_lt_of_le h2 h1)
  have h3 : (max ((val rsF).degreeOf 1) ((val rsG).degreeOf 1) + 1) * ((val rsG).degreeOf 1 * (val rsF).degreeOf w + (val rsF).degreeOf 1 * (val rsG).degreeOf w) ≤ (2 + 1) * (2 * 2 + 2 * 2) :=
    Nat.mul_le_mul (Nat.succ_le_succ (max_le (hF.deg 1) (hG.deg 1))) (add_le_add (Nat.mul_le_mul (hG.deg 1) (hF.deg w)) (Nat.mul_le_mul (hF.deg 1) (hG.deg w)))
  exact_mod_cast h3

/-- `x^a` for the variable `i` -/
def rsV (i : Var) (a : ℤ) : Mono := ⟨[(i, a)], a⟩

/-- four variables: the Bezout determinant; the resultant of `x₁² + x₂` and `x₃ x₁ + x₄` with respect to `x₁` is `x₂ x₃² + x₄²` -/
example : Res.resultant varLess (lexGt varLess) coefDivZ 60 ([(rsV 1 2, 1), (rsV 2 1, 1)] : PV Mono ℤ) [(⟨[(1, 1), (3, 1)], 2⟩, 1), (rsV 4 1, 1)] 1 =
    some [(⟨[(2, 1), (3, 2)], 3⟩, 1), (rsV 4 2, 1)] := by decide +kernel

/-- the discriminant of `y x² + 3x − 1` with respect to `x` is `4y + 9` -/
example : Res.discriminant varLess (lexGt varLess) coefDivZ 60 ([(exXY 2 1, 1), (exXY 1 0, 3), (exXY 0 0, -1)] : PV Mono ℤ) 1 =
    some [(exXY 0 1, 4), (exXY 0 0, 9)] := by decide +kernel

/-- the chain of `x⁴ + y` and `x³ + x`: `S_2 = −x² + y`, `S_1 = xy + x`, `S_0 = y(y + 1)²` -/
example : Res.subresultant varLess (lexGt varLess) coefDivZ 60 ([(exXY 4 0, 1), (exXY 0 1, 1)] : PV Mono ℤ) [(exXY 3 0, 1), (exXY 1 0, 1)] 1 true =
    some [[(exXY 0 3, 1), (exXY 0 2, 2), (exXY 0 1, 1)], [(exXY 1 1, 1), (exXY 1 0, 1)], [(exXY 2 0, -1), (exXY 0 1, 1)], [(exXY 3 0, 1), (exXY 1 0, 1)], [(exXY 4 0, 1), (exXY 0 1, 1)]] := by
  decide +kernel

/-- `x³` -/
def rdF : PV Mono ℤ := [(exXY 3 0, 1)]
/-- `x³ + x + 1` -/
def rdG : PV Mono ℤ := [(exXY 3 0, 1), (exXY 1 0, 1), (exXY 0 0, 1)]

theorem rd_sub {A : Type*} [CommRing A] [IsDomain A] : subres (Polynomial.X ^ 3) (Polynomial.X ^ 3 + Polynomial.X + 1 : Polynomial A) 3 3 1 = Polynomial.X + 1 := by
  have hF : (Polynomial.X ^ 3 : Polynomial A).natDegree = 3 := Polynomial.natDegree_X_pow 3
  have hG : (Polynomial.X ^ 3 + Polynomial.X + 1 : Polynomial A).natDegree = 3 := by compute_degree!
  have hGm : (Polynomial.X ^ 3 + Polynomial.X + 1 : Polynomial A).leadingCoeff = 1 := by
    rw [Polynomial.leadingCoeff, hG]
    simp [Polynomial.coeff_X, Polynomial.coeff_one]
  have hP : (-(Polynomial.X + 1) : Polynomial A).natDegree = 1 := by
    rw [Polynomial.natDegree_neg]; compute_degree!
  obtain ⟨h1, h2⟩ := Res.start_eq (Q := 1) (P := -(Polynomial.X + 1)) hF hG (by norm_num) (by rw [hGm]; simp) (by simp) (by rw [hP]; norm_num)
  rw [neg_neg] at h1
  have hd : (Polynomial.X + 1 : Polynomial A).natDegree = 1 := by compute_degree!
  have hl : (Polynomial.X + 1 : Polynomial A).leadingCoeff = 1 := by
    rw [Polynomial.leadingCoeff, hd]
    simp [Polynomial.coeff_one]
  have h3 := h2.atDeg le_rfl
  rw [h1, hd, hl] at h3
  simpa [subres_eq] using h3

/-- **the full property is false of the code**: for `x³` and `x³ + x + 1` the subresultant of index 1 is `x + 1`, but entry 1 of the returned vector is the zero polynomial -/
theorem C66_chain_defect : Res.subresultant varLess (lexGt varLess) coefDivZ 60 rdF rdG 1 true = some [[(exXY 0 0, 1)], [], [(exXY 1 0, 1), (exXY 0 0, 1)], rdG, rdF] ∧
    subres (toU 1 (val rdF)) (toU 1 (val rdG)) 3 3 1 = Polynomial.X + 1 := by
  refine ⟨by decide +kernel, ?_⟩
  have e1 : toU 1 (val rdF) = Polynomial.X ^ 3 := by
    simp only [rdF, val_cons, val_nil, add_zero, toU_monomial]
    simp [expo, exXY]
  have e2 : toU 1 (val rdG) = Polynomial.X ^ 3 + Polynomial.X + 1 := by
    simp only [rdG, val_cons, val_nil, add_zero, map_add, toU_monomial]
    simp [expo, exXY, add_assoc]
  rw [e1, e2, rd_sub]

end CLPoly
