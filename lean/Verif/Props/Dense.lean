import Verif.Dense.Public
import Mathlib.Tactic.NormNum.Prime
import Mathlib.Algebra.Polynomial.FieldDivision

/-!
# Properties C38–C40, C55: dense univariate polynomials over `Zp`

`DPoly.Is p f F` (Dense/Public.lean): the object `f` with modulus `p` holds exactly the coefficients of `F : (ZMod p)[X]`, as residues in `[0, p)`
and with no zero at the top.  `IsGcd D F G`: `D` divides both and every common divisor divides `D`.  `termsPoly`/`SparseOK`: the sparse
polynomials `dense_upoly_zp` is built from and converted to.  `W = 2^64`; `size < W` holds of every array a 64-bit machine can hold.
-/

namespace CLPoly
open Polynomial Dense

variable {p : Nat}

/-! ## C38 -/

/-- An object is determined by the polynomial it represents: element-wise comparison is comparison of polynomials. -/
theorem C38_dense_unique {f g : DPoly} {F G : (ZMod p)[X]} (hf : f.Is p F) (hg : g.Is p G) : f = g ↔ F = G :=
  ⟨fun e => by rw [← hf.toP, ← hg.toP, e], fun e => by subst e; exact is_unique hf hg⟩

/-- `deg`, `lead`, `empty`, `operator[]` -/
theorem C38_dense_queries {f : DPoly} {F : (ZMod p)[X]} (hf : f.Is p F) : (f.coeffs = [] ↔ F = 0) ∧ deg f = (if F = 0 then -1 else (F.natDegree : Int)) ∧
    ((lead f : Nat) : ZMod p) = F.leadingCoeff ∧ ∀ i, ((f.coeffs.getD i 0 : Nat) : ZMod p) = F.coeff i := by
  have h1 : f.coeffs = [] ↔ F = 0 := by rw [hf.can.eq_nil_iff, hf.toP]
  refine ⟨h1, ?_, ?_, hf.coeff⟩
  · by_cases h : F = 0
    · rw [if_pos h]; unfold deg; rw [h1.2 h]; rfl
    · rw [if_neg h]
      have hn : f.coeffs ≠ [] := fun e => h (h1.1 e)
      have := hf.can.degree_eq hn
      rw [hf.toP, degree_eq_natDegree h] at this
      have e : F.natDegree = f.coeffs.length - 1 := by exact_mod_cast this
      have := List.length_pos_iff.2 hn
      unfold deg; omega
  · by_cases h : F = 0
    · unfold lead; rw [if_pos (h1.2 h), h]; simp
    · have hn : f.coeffs ≠ [] := fun e => h (h1.1 e)
      have := hf.can.degree_eq hn
      rw [hf.toP, degree_eq_natDegree h] at this
      have e : F.natDegree = f.coeffs.length - 1 := by exact_mod_cast this
      unfold lead leadingCoeff; rw [if_neg hn, hf.coeff, e]

/-- construction from a sparse polynomial -/
theorem C38_dense_ofSparse {t : List (Nat × Nat)} (h : SparseOK p t) : (ofSparse t p).Is p (termsPoly p t) := ofSparse_is h

/-- conversion to a sparse polynomial: well formed, same value, and inverse of the construction -/
theorem C38_dense_toSparse {f : DPoly} {F : (ZMod p)[X]} (hf : f.Is p F) : SparseOK p (toSparse f) ∧ termsPoly p (toSparse f) = F ∧
    ofSparse (toSparse f) p = f :=
  ⟨toSparse_sparseOK hf, toSparse_is hf, is_unique (ofSparse_is (toSparse_sparseOK hf)) (by rw [toSparse_is hf]; exact hf)⟩

theorem C38_dense_roundtrip {t : List (Nat × Nat)} (h : SparseOK p t) : toSparse (ofSparse t p) = t :=
  sparse_unique (toSparse_sparseOK (ofSparse_is h)) h (toSparse_is (ofSparse_is h))

/-- addition, for every modulus below 2^64 -/
theorem C38_dense_add (hW : p < W) {A B : DPoly} {F G : (ZMod p)[X]} (hA : A.Is p F) (hB : B.Is p G) :
    ∃ r, add A B = .ok r ∧ r.Is p (F + G) := add_is hW hA hB

theorem C38_dense_sub (hW : p < W) {A B : DPoly} {F G : (ZMod p)[X]} (hA : A.Is p F) (hB : B.Is p G) :
    ∃ r, sub A B = .ok r ∧ r.Is p (F - G) := sub_is hW hA hB

/-- multiplication, schoolbook or Karatsuba, for every positive modulus below 2^64 and all sizes -/
theorem C38_dense_mul (h0 : 0 < p) (hW : p < W) {A B : DPoly} {F G : (ZMod p)[X]} (hA : A.Is p F) (hB : B.Is p G)
    (lA : A.coeffs.length < W) (lB : B.coeffs.length < W) : ∃ r, mul A B = .ok r ∧ r.Is p (F * G) := mul_is h0 hW hA hB lA lB

theorem C38_dense_scalarMul [Fact p.Prime] (hW : p < W) {A : DPoly} {F : (ZMod p)[X]} (hA : A.Is p F) {k : Nat} (hk : k < p) :
    (scalarMul A k).Is p (C (k : ZMod p) * F) := scalarMul_is hW hA hk

/-- operands with different moduli violate the assertion, in all four operations -/
theorem C38_dense_modulus_mismatch {A B : DPoly} (h : A.c.p ≠ B.c.p) : add A B = .ub ∧ sub A B = .ub ∧ mul A B = .ub ∧ divrem A B = .ub := by
  unfold add sub mul divrem
  simp [h]

/-- `scalar_mul` really needs a prime: with modulus 4, doubling `2X + 1` leaves a zero leading coefficient. -/
theorem C38_scalarMul_composite : ¬ ∃ F : (ZMod 4)[X], (scalarMul ⟨[1, 2], precompute 4⟩ 2).Is 4 F := by
  rintro ⟨F, h⟩
  exact h.trim (by decide +kernel) (by decide +kernel)

/-- a non-trivial instance: `f = 3X^17 + 5` and `g = X^2 + 2` modulo the 64-bit prime 2^64 − 59 -/
example : SparseOK 18446744073709551557 [(17, 3), (0, 5)] ∧ SparseOK 18446744073709551557 [(2, 1), (0, 2)] := by
  constructor <;> decide +kernel

/-! ## C39 -/

/-- Division with remainder: for a non-zero divisor the results satisfy the division identity with a remainder of smaller degree, hence are
*the* quotient and remainder. -/
theorem C39_dense_divrem [Fact p.Prime] (hW : p < W) {A B : DPoly} {F G : (ZMod p)[X]} (hA : A.Is p F) (hB : B.Is p G) (hG : G ≠ 0)
    (lA : A.coeffs.length < W) : ∃ q r Q R, divrem A B = .ok (q, r) ∧ q.Is p Q ∧ r.Is p R ∧ F = Q * G + R ∧ R.degree < G.degree :=
  divrem_is hW hA hB hG lA

/-- the same, against Mathlib's `/` and `%` on polynomials over a field -/
theorem C39_dense_divrem_eq [Fact p.Prime] (hW : p < W) {A B : DPoly} {F G : (ZMod p)[X]} (hA : A.Is p F) (hB : B.Is p G) (hG : G ≠ 0)
    (lA : A.coeffs.length < W) : ∃ q r, divrem A B = .ok (q, r) ∧ q.Is p (F / G) ∧ r.Is p (F % G) := by
  obtain ⟨q, r, Q, R, h1, h2, h3, h4, h5⟩ := divrem_is hW hA hB hG lA
  have hd := EuclideanDomain.div_add_mod F G
  have hr : (F % G).degree < G.degree := by
    have := EuclideanDomain.mod_lt F hG
    exact this
  have hmul : G * (F / G - Q) = R - F % G := by linear_combination hd + h4
  have hz : F / G - Q = 0 := by
    by_contra hne
    have h1 : (R - F % G).degree < G.degree := lt_of_le_of_lt (degree_sub_le _ _) (max_lt h5 hr)
    rw [← hmul, degree_mul] at h1
    have h2 : (0 : WithBot ℕ) ≤ (F / G - Q).degree := zero_le_degree_iff.2 hne
    have h3 : G.degree ≤ G.degree + (F / G - Q).degree := le_add_of_nonneg_right h2
    exact absurd h1 (not_lt.2 h3)
  have e1 : F / G = Q := sub_eq_zero.1 hz
  have e2 : F % G = R := by rw [hz, mul_zero] at hmul; exact (sub_eq_zero.1 hmul.symm).symm
  exact ⟨q, r, h1, by rw [e1]; exact h2, by rw [e2]; exact h3⟩

/-- division by the zero polynomial is an assertion failure -/
theorem C39_dense_div_zero {A B : DPoly} (h : B.coeffs = []) : divrem A B = .ub := by
  unfold divrem; rw [if_pos (Or.inl h)]

/-! ## C40 -/

/-- `gcd`: a greatest common divisor, canonically represented, by Euclid's algorithm or the half-gcd recursion, for all sizes (zero operands
included) and both argument orders. -/
theorem C40_dense_gcd [Fact p.Prime] (hW : p < W) {A B : DPoly} {F G : (ZMod p)[X]} (hA : A.Is p F) (hB : B.Is p G) (lA : A.coeffs.length < W)
    (lB : B.coeffs.length < W) : ∃ D, (Dense.gcd A B).Is p D ∧ IsGcd D F G := gcd_is hW hA hB lA lB

/-- in particular the degree of the result is the degree of the mathematical gcd -/
theorem C40_dense_gcd_associated [Fact p.Prime] (hW : p < W) {A B : DPoly} {F G : (ZMod p)[X]} (hA : A.Is p F) (hB : B.Is p G)
    (lA : A.coeffs.length < W) (lB : B.coeffs.length < W) : ∃ D, (Dense.gcd A B).Is p D ∧ Associated D (EuclideanDomain.gcd F G) := by
  obtain ⟨D, h1, h2, h3, h4⟩ := gcd_is hW hA hB lA lB
  exact ⟨D, h1, associated_of_dvd_dvd (EuclideanDomain.dvd_gcd h2 h3) (h4 _ (EuclideanDomain.gcd_dvd_left F G) (EuclideanDomain.gcd_dvd_right F G))⟩

/-- the half-gcd routine used for operands of at least 340 coefficients returns a matrix of determinant ±1 that reconstructs its inputs from
the reduced pair, and stops in the middle of the remainder sequence -/
theorem C40_hgcd [Fact p.Prime] (hW : p < W) {a b : List Nat} {A B : (ZMod p)[X]} (ha : (⟨a, precompute p⟩ : DPoly).Is p A)
    (hb : (⟨b, precompute p⟩ : DPoly).Is p B) (hn : a.length < W) (hlt : b.length < a.length) :
    ∃ r, r = hgcdRec (precompute p) (a.length + 1) a b ∧ ∃ A' B' M00 M01 M10 M11 : (ZMod p)[X],
      (⟨r.A, precompute p⟩ : DPoly).Is p A' ∧ (⟨r.B, precompute p⟩ : DPoly).Is p B' ∧
      A = M00 * A' + M01 * B' ∧ B = M10 * A' + M11 * B' ∧ M00 * M11 - M01 * M10 = (r.sgn : (ZMod p)[X]) ∧ (r.sgn = 1 ∨ r.sgn = -1) ∧
      a.length / 2 < r.A.length ∧ r.B.length ≤ a.length / 2 := by
  have h := hgcdRec_spec hW (a.length + 1) a b (Nat.lt_succ_self _) ha.can hb.can hn hlt
  refine ⟨_, rfl, _, _, _, _, _, _, DPoly.is_of rfl h.canA rfl, DPoly.is_of rfl h.canB rfl, ?_, ?_, h.uni.det, h.uni.sgn, ?_, ?_⟩
  · rw [← ha.toP]; exact h.uni.fst
  · rw [← hb.toP]; exact h.uni.snd
  · have := h.big; omega
  · have := h.small; omega

instance : Fact (Nat.Prime 7) := ⟨by norm_num⟩

/-- the hypotheses are met by `X^400 + 6` and `X^350 + 3X` over Z/7, whose gcd goes through the half-gcd branch -/
example : (ofSparse [(400, 1), (0, 6)] 7).Is 7 (termsPoly 7 [(400, 1), (0, 6)]) ∧ (ofSparse [(350, 1), (1, 3)] 7).Is 7 (termsPoly 7 [(350, 1), (1, 3)]) :=
  ⟨C38_dense_ofSparse (by decide), C38_dense_ofSparse (by decide)⟩

/-! ## C55 -/

/-- The scratch area of `6·n` words given to the Karatsuba product is large enough for all operands of up to 2^27 coefficients. -/
theorem C55_karatsuba_scratch {n : Nat} (h : n ≤ 2 ^ 27) (fuel : Nat) : karScratch fuel n ≤ 6 * n := by
  by_cases h8 : 8 ≤ n
  · have := karScratch_le 24 n fuel h8 h; omega
  · cases fuel with
    | zero => simp only [karScratch]; omega
    | succ f => simp only [karScratch]; rw [if_pos (by omega)]; omega

/-- ... but not for all sizes: for 15·2^26 + 1 coefficients the recursion uses two words more than were allocated (a heap overflow). -/
theorem C55_karatsuba_scratch_overflow : karScratch 64 (15 * 2 ^ 26 + 1) = 6 * (15 * 2 ^ 26 + 1) + 2 := by
  rw [karScratch_eq]; decide +kernel

end CLPoly
