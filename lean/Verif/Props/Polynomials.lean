import Verif.Poly.ScalarSpec
import Verif.Poly.PowSpec
import Verif.Poly.DivSpec

/-!
# Properties C15–C23: polynomials

Vocabulary: `PV Mono R` is a term vector; `val p : MvPolynomial Var R` is the polynomial it stands for;
`PolyOK vc mc p`: `p` is canonical (valid monomials, strictly decreasing in the monomial order `mc`, no zero coefficient).
`MonoOrd vc mc`: `mc` is an admissible monomial order over the variable order `vc`; `lex_ord` and `grlex_ord` (C12, C13) show that
the two orders of the library are.  `codeGr`, `codeLex` are the packed-monomial machinery of the two orders.
-/

namespace CLPoly
open Mono MvPolynomial
variable {vc : Var → Var → Bool} {mc : Mono → Mono → Bool} {R : Type*} [CommRing R] [DecidableEq R]

/-! Concrete operands used in the examples: `x` is variable 1, `y` is variable 2, default variable order. -/
/-- `x^a y^b` -/
def exXY (a b : Int) : Mono := ⟨(if a = 0 then [] else [(1, a)]) ++ (if b = 0 then [] else [(2, b)]), a + b⟩
/-- `3x²y + x − 5` -/
def exP : PV Mono Int := [(exXY 2 1, 3), (exXY 1 0, 1), (exXY 0 0, -5)]
/-- `x − y²`, in grlex order -/
def exQ : PV Mono Int := [(exXY 0 2, -1), (exXY 1 0, 1)]

theorem exP_ok : PolyOK varLess (grlexGt varLess) exP := by decide +kernel
theorem exQ_ok : PolyOK varLess (grlexGt varLess) exQ := by decide +kernel
theorem exP_ok_lex : PolyOK varLess (lexGt varLess) exP := by decide +kernel

/-! ## C15 normalisation -/

/-- Whatever order `std::sort` leaves the terms in (`SortResult`), `normalization()` returns strictly decreasing valid monomials and
the same polynomial.  Missing for the full property: zero coefficients (see `C15_canonical_iff`, `C15_zero_kept`). -/
theorem C15_normalization_partial (M : MonoOrd vc mc) (p s : PV Mono R) (h : ∀ t ∈ p, ∀ x ∈ t.1.data, 0 ≤ x.2)
    (hs : SortResult mc (firstNormalize vc p) s) :
    (∀ t ∈ pvMerge s, Valid vc t.1) ∧ (pvMerge s).Pairwise (fun a b => mc a.1 b.1 = true) ∧ val (pvMerge s) = val p :=
  have h1 := normalize_spec M h hs
  ⟨h1.1.monos, h1.1.sorted, h1.2.1⟩

/-- the result is canonical exactly when no monomial occurring with a non-zero coefficient cancels -/
theorem C15_canonical_iff (M : MonoOrd vc mc) (p s : PV Mono R) (h : ∀ t ∈ p, ∀ x ∈ t.1.data, 0 ≤ x.2)
    (hs : SortResult mc (firstNormalize vc p) s) :
    PolyOK vc mc (pvMerge s) ↔ ∀ t ∈ p, t.2 ≠ 0 → coeff (expo t.1) (val p) ≠ 0 := polyNormalize_ok_iff M h hs

/-- the insertion sort of the model is one of the possible outcomes of the sort, so the hypotheses above can be met by every list of terms -/
theorem C15_sort_exists (M : MonoOrd vc mc) (p : PV Mono R) (h : ∀ t ∈ p, ∀ x ∈ t.1.data, 0 ≤ x.2) :
    ∃ s, SortResult mc (firstNormalize vc p) s ∧ polyNormalize vc mc p = pvMerge s :=
  ⟨_, sortResult_merge M (firstNormalize_valid M.vo h), rfl⟩

/-- normalising twice changes nothing when the first result is canonical -/
theorem C15_idempotent (M : MonoOrd vc mc) (p : PV Mono R) (hp : PolyOK vc mc p) : polyNormalize vc mc p = p := polyNormalize_id M hp

/-- the full property is false of the code: `x − x` normalises to a vector with the term `0·x` -/
theorem C15_zero_kept : polyNormalize varLess (grlexGt varLess) [(exXY 1 0, (1 : Int)), (exXY 1 0, -1)] = [(exXY 1 0, 0)] := by decide +kernel

example : polyNormalize varLess (grlexGt varLess) [(⟨[(2, 1), (1, 2)], 0⟩, (2 : Int)), (exXY 0 0, -5), (exXY 1 0, 1), (exXY 2 1, 1)] = exP := by
  decide +kernel

/-! ## C16 addition, subtraction, negation -/

theorem C16_add (M : MonoOrd vc mc) (p q : PV Mono R) (hp : PolyOK vc mc p) (hq : PolyOK vc mc q) :
    PolyOK vc mc (pvAdd mc p q) ∧ val (pvAdd mc p q) = val p + val q := ⟨hp.add M hq, val_pvAdd p q⟩
theorem C16_sub (M : MonoOrd vc mc) (p q : PV Mono R) (hp : PolyOK vc mc p) (hq : PolyOK vc mc q) :
    PolyOK vc mc (pvSub mc p q) ∧ val (pvSub mc p q) = val p - val q := ⟨hp.sub M hq, val_pvSub p q⟩
theorem C16_neg (p : PV Mono R) (hp : PolyOK vc mc p) : PolyOK vc mc (pvNeg p) ∧ val (pvNeg p) = -val p := ⟨hp.neg, val_pvNeg p⟩
/-- `p - p` is the empty polynomial and `p + 0 = p`, as vectors -/
theorem C16_cancel (M : MonoOrd vc mc) (p : PV Mono R) (hp : PolyOK vc mc p) : pvSub mc p p = [] ∧ pvAdd mc p [] = p ∧ pvAdd mc [] p = p :=
  ⟨(hp.sub M hp).ext M .nil (by rw [val_pvSub, sub_self, val_nil]), pvAdd_nil_right mc p, by rw [pvAdd]⟩

example : PolyOK varLess (grlexGt varLess) exP ∧ PolyOK varLess (grlexGt varLess) exQ ∧
    pvAdd (grlexGt varLess) exP exQ = [(exXY 2 1, 3), (exXY 0 2, -1), (exXY 1 0, 2), (exXY 0 0, -5)] := by decide +kernel

/-! ## C17 multiplication -/

/-- multiplication in grlex: whenever one operand has at most one term or the degrees add up to less than the packing capacity
(`2^63` in one variable, `2^(64/(n+1))` in `n` variables) the product terminates, is canonical and is the product -/
theorem C17_mul_grlex [NoZeroDivisors R] (ho : VarOrd vc) (p q : PV Mono R) (hp : PolyOK vc (grlexGt vc) p) (hq : PolyOK vc (grlexGt vc) q)
    (hcap : p.length ≤ 1 ∨ q.length ≤ 1 ∨
      ((val p).totalDegree + (val q).totalDegree : ℤ) < capGr ((val p).vars ∪ (val q).vars).card) :
    ∃ out, polyMul vc (codeGr R vc) p q = some out ∧ PolyOK vc (grlexGt vc) out ∧ val out = val p * val q := by
  refine polyMul_spec (codeGr_ok ho) hp hq ?_
  rcases hcap with h | h | h
  · exact .inl h
  · exact .inr (.inl h)
  · exact fits_gr_total ho hp hq h

/-- multiplication in lex: capacity `2^63` in one variable, `2^(64/n)` for every exponent in `n` variables -/
theorem C17_mul_lex [NoZeroDivisors R] (ho : VarOrd vc) (p q : PV Mono R) (hp : PolyOK vc (lexGt vc) p) (hq : PolyOK vc (lexGt vc) q)
    (hcap : p.length ≤ 1 ∨ q.length ≤ 1 ∨
      ∀ v, ((val p).degreeOf v + (val q).degreeOf v : ℤ) < capLex ((val p).vars ∪ (val q).vars).card) :
    ∃ out, polyMul vc (codeLex R vc) p q = some out ∧ PolyOK vc (lexGt vc) out ∧ val out = val p * val q := by
  refine polyMul_spec (codeLex_ok ho) hp hq ?_
  rcases hcap with h | h | h
  · exact .inl h
  · exact .inr (.inl h)
  · exact fits_lex_total ho hp hq h

section
local instance propMulDefault : Inhabited R := ⟨0⟩

/-- the chained-heap algorithm on unpacked monomials needs no capacity condition at all -/
theorem C17_heap [NoZeroDivisors R] (M : MonoOrd vc mc) (p q : PV Mono R) (hp : PolyOK vc mc p) (hq : PolyOK vc mc q) :
    ∃ out, pvMul (Mono.mul vc) mc p q = some out ∧ PolyOK vc mc out ∧ val out = val p * val q := by
  have MS := monoSys (R := R) M (polyVars p ∪ polyVars q)
  obtain ⟨out, o1, o2, o3, o4⟩ := MS.pvMul_spec (hp.keysIn Finset.subset_union_left) (hq.keysIn Finset.subset_union_right) hp.canon hq.canon
  exact ⟨out, o1, .of_keysIn o4 o3, o2⟩

/-! ## C18 packed multiplication -/

/-- whenever the capacity condition holds, the packed path and the plain heap path give the same vector (grlex).  Missing for the
full property: the library chooses the packed path without checking this condition (`C18_overflow_grlex`, `C18_overflow_lex`). -/
theorem C18_packed_eq_grlex_partial [NoZeroDivisors R] (ho : VarOrd vc) (p q : PV Mono R) (hp : PolyOK vc (grlexGt vc) p)
    (hq : PolyOK vc (grlexGt vc) q)
    (hcap : ((val p).totalDegree + (val q).totalDegree : ℤ) < capGr ((val p).vars ∪ (val q).vars).card) :
    polyMul vc (codeGr R vc) p q = pvMul (Mono.mul vc) (grlexGt vc) p q := by
  obtain ⟨o1, a1, a2, a3⟩ := C17_mul_grlex ho p q hp hq (.inr (.inr hcap))
  obtain ⟨o2, b1, b2, b3⟩ := C17_heap (grlex_ord ho) p q hp hq
  rw [a1, b1, a2.ext (grlex_ord ho) b2 (a3.trans b3.symm)]

/-- the same for lex -/
theorem C18_packed_eq_lex_partial [NoZeroDivisors R] (ho : VarOrd vc) (p q : PV Mono R) (hp : PolyOK vc (lexGt vc) p)
    (hq : PolyOK vc (lexGt vc) q)
    (hcap : ∀ v, ((val p).degreeOf v + (val q).degreeOf v : ℤ) < capLex ((val p).vars ∪ (val q).vars).card) :
    polyMul vc (codeLex R vc) p q = pvMul (Mono.mul vc) (lexGt vc) p q := by
  obtain ⟨o1, a1, a2, a3⟩ := C17_mul_lex ho p q hp hq (.inr (.inr hcap))
  obtain ⟨o2, b1, b2, b3⟩ := C17_heap (lex_ord ho) p q hp hq
  rw [a1, b1, a2.ext (lex_ord ho) b2 (a3.trans b3.symm)]

end

/-- `x^(2^20) + y`, two variables: fields of 21 bits in grlex -/
def ovP : PV Mono Int := [(exXY (2 ^ 20) 0, 1), (exXY 0 1, 1)]

/-- the full property is false of the code: `(x^(2^20) + y)²` in grlex loses the leading term's degree -/
theorem C18_overflow_grlex : PolyOK varLess (grlexGt varLess) ovP ∧
    polyMul varLess (codeGr Int varLess) ovP ovP ≠ pvMul (Mono.mul varLess) (grlexGt varLess) ovP ovP := by
  constructor
  · decide
  · decide +kernel

/-- `x + y^(2^31)` in lex: fields of 32 bits -/
def ovL : PV Mono Int := [(exXY 1 0, 1), (exXY 0 (2 ^ 31), 1)]

/-- and in lex the square of `x + y^(2^31)` is wrong -/
theorem C18_overflow_lex : PolyOK varLess (lexGt varLess) ovL ∧
    polyMul varLess (codeLex Int varLess) ovL ovL ≠ pvMul (Mono.mul varLess) (lexGt varLess) ovL ovL := by
  constructor
  · decide
  · decide +kernel

example : polyMul varLess (codeGr Int varLess) exP exQ =
    some [(exXY 2 3, -3), (exXY 3 1, 3), (exXY 1 2, -1), (exXY 2 0, 1), (exXY 0 2, 5), (exXY 1 0, -5)] := by decide +kernel
/-- the capacity hypothesis of `C17_mul_grlex` holds for `exP`, `exQ` (total degrees 3 and 2, two variables: `5 < 2^21`) -/
example : ((val exP).totalDegree + (val exQ).totalDegree : ℤ) < capGr ((val exP).vars ∪ (val exQ).vars).card := by
  have M := grlex_ord varLess_ord
  obtain ⟨t, ht, e1⟩ := exP_ok.exists_total M (by simp [exP])
  obtain ⟨u, hu, e2⟩ := exQ_ok.exists_total M (by simp [exQ])
  rw [← e1, ← e2, ← polyVars_eq M exP_ok, ← polyVars_eq M exQ_ok]
  have h1 : ∀ t ∈ exP, ∀ u ∈ exQ, t.1.deg + u.1.deg < capGr (polyVars exP ∪ polyVars exQ).card := by decide +kernel
  exact h1 t ht u hu

/-! ## C19 exact division -/

/-- floor division with remainder, the coefficient division of `ZZ` (number.hh 28–38) -/
def divZ (a b : Int) : Int × Int := (Int.fdiv a b, Int.fmod a b)
/-- division in a field, the coefficient division of `QQ` and `Zp` (number.hh 39–48, 338–350) -/
def divF {F : Type*} [Field F] (a b : F) : F × F := (a / b, 0)

theorem divZ_ok : CoefDiv divZ where
  div lc _ k := by simp only [divZ]; rw [Int.fdiv_mul_add_fmod]
  exact lc h q := by simp only [divZ]; rw [Int.mul_fdiv_cancel _ h, Int.mul_fmod_left]

theorem divF_ok {F : Type*} [Field F] : CoefDiv (divF : F → F → F × F) where
  div lc h k := by simp only [divF]; rw [div_mul_cancel₀ _ h, add_zero]
  exact lc h q := by simp only [divF]; rw [mul_div_cancel_right₀ _ h]

/-- Exact division, grlex: if `p = h·q` the quotient computed is `h` (the computation terminates: more fuel changes nothing).
Missing for the full property: one-variable operands of degree `≥ 2^31` (`C19_wrong_quotient`). -/
theorem C19_exact_grlex_partial [NoZeroDivisors R] (ho : VarOrd vc) {divc : R → R → R × R} (D : CoefDiv divc) (p q h : PV Mono R)
    (hp : PolyOK vc (grlexGt vc) p) (hq : PolyOK vc (grlexGt vc) q) (hh : PolyOK vc (grlexGt vc) h) (q0 : q ≠ [])
    (he : val p = val h * val q)
    (h31 : ((val p).vars ∪ (val q).vars).card = 1 → (val p).totalDegree < 2 ^ 31 ∧ (val q).totalDegree < 2 ^ 31) :
    ∃ N, ∀ fuel ≥ N, polyDiv vc (codeGr R vc) divc fuel p q = some (some h) := by
  have M := grlex_ord ho
  refine polyDiv_exact (C := codeGr R vc) M D hp hq q0 (full := True) (fun h2 => plan_gr ho hp hq h2 fun h1 => ?_) hh he
  rw [polyVars_eq M hp, polyVars_eq M hq] at h1
  obtain ⟨a, b⟩ := h31 h1
  exact ⟨fun t ht => lt_of_le_of_lt (hp.deg_le_total M ht) (by exact_mod_cast a),
    fun t ht => lt_of_le_of_lt (hq.deg_le_total M ht) (by exact_mod_cast b)⟩

/-- Exact division, lex: holds for all operands whose degrees are machine integers. -/
theorem C19_exact_lex [NoZeroDivisors R] (ho : VarOrd vc) {divc : R → R → R × R} (D : CoefDiv divc) (p q h : PV Mono R)
    (hp : PolyOK vc (lexGt vc) p) (hq : PolyOK vc (lexGt vc) q) (hh : PolyOK vc (lexGt vc) h) (q0 : q ≠ [])
    (he : val p = val h * val q) (h63 : (val p).totalDegree < 2 ^ 63 ∧ (val q).totalDegree < 2 ^ 63) :
    ∃ N, ∀ fuel ≥ N, polyDiv vc (codeLex R vc) divc fuel p q = some (some h) := by
  have M := lex_ord ho
  refine polyDiv_exact (C := codeLex R vc) M D hp hq q0 (fun h2 => plan_lex ho hp hq h2 ?_) hh he
  exact ⟨fun t ht => lt_of_le_of_lt (hp.deg_le_total M ht) (by exact_mod_cast h63.1),
    fun t ht => lt_of_le_of_lt (hq.deg_le_total M ht) (by exact_mod_cast h63.2)⟩

/-- dividing by the zero polynomial throws (`some none`) -/
theorem C19_divide_by_zero (C : OrderCode R) (divc : R → R → R × R) (fuel : Nat) (p : PV Mono R) :
    polyDiv vc C divc fuel p [] = some none ∧ polyDivRem vc C divc fuel p [] = some none := ⟨rfl, rfl⟩

/-- `x^(2^32+2^31) + x^(2^31) = x^(2^31)·(x^(2^32)+1)` -/
def bigP : PV Mono Int := [(exXY (2 ^ 32 + 2 ^ 31) 0, 1), (exXY (2 ^ 31) 0, 1)]
def bigQ : PV Mono Int := [(exXY (2 ^ 32) 0, 1), (exXY 0 0, 1)]
def bigH : PV Mono Int := [(exXY (2 ^ 31) 0, 1)]

/-- the full property is false of the code: the quotient `x^(2^31)` is lost (the empty polynomial is returned) -/
theorem C19_wrong_quotient : PolyOK varLess (grlexGt varLess) bigP ∧ PolyOK varLess (grlexGt varLess) bigQ ∧ PolyOK varLess (grlexGt varLess) bigH ∧
    polyMul varLess (codeGr Int varLess) bigH bigQ = some bigP ∧
    polyDiv varLess (codeGr Int varLess) divZ 10 bigP bigQ = some (some []) := by
  refine ⟨by decide, by decide, by decide, by decide +kernel, by decide +kernel⟩

example : (polyMul varLess (codeGr Int varLess) exP exQ).bind (fun f => polyDiv varLess (codeGr Int varLess) divZ 20 f exQ) = some (some exP) := by
  decide +kernel

/-! ## C20 division with remainder -/

/-- over a field, grlex: `p = Q·q + R` and no term of the remainder is divisible by the leading monomial of `q`.  Missing: one
variable and degree `≥ 2^31`. -/
theorem C20_field_grlex_partial {F : Type*} [Field F] [DecidableEq F] (ho : VarOrd vc) (p q : PV Mono F)
    (hp : PolyOK vc (grlexGt vc) p) (hq : PolyOK vc (grlexGt vc) q) (q0 : q ≠ [])
    (h31 : ((val p).vars ∪ (val q).vars).card = 1 → (val p).totalDegree < 2 ^ 31 ∧ (val q).totalDegree < 2 ^ 31) :
    ∃ N Q R', (∀ fuel ≥ N, polyDivRem vc (codeGr F vc) divF fuel p q = some (some (Q, R'))) ∧ PolyOK vc (grlexGt vc) Q ∧
      PolyOK vc (grlexGt vc) R' ∧ val p = val Q * val q + val R' ∧
      ∀ t ∈ R', ∀ lt ∈ q.head?, ∀ m, Valid vc m → Mono.mul vc m lt.1 ≠ t.1 := by
  have M := grlex_ord ho
  obtain ⟨N, Q, R', a1, a2, a3, a4, a5⟩ := polyDivRem_field (C := codeGr F vc) (divc := divF) M hp hq q0 (full := True)
    (fun h2 => plan_gr ho hp hq h2 fun h1 => by
      rw [polyVars_eq M hp, polyVars_eq M hq] at h1
      obtain ⟨a, b⟩ := h31 h1
      exact ⟨fun t ht => lt_of_le_of_lt (hp.deg_le_total M ht) (by exact_mod_cast a),
        fun t ht => lt_of_le_of_lt (hq.deg_le_total M ht) (by exact_mod_cast b)⟩)
    (fun lc h k => ⟨by simp only [divF]; rw [div_mul_cancel₀ _ h], rfl⟩)
  exact ⟨N, Q, R', a1, a2, a3, a4, a5 trivial⟩

/-- over a field, lex: `p = Q·q + R` always; the remainder is reduced when there is one variable.  Missing: reducedness in several
variables (`C20_not_reduced`). -/
theorem C20_field_lex_partial {F : Type*} [Field F] [DecidableEq F] (ho : VarOrd vc) (p q : PV Mono F)
    (hp : PolyOK vc (lexGt vc) p) (hq : PolyOK vc (lexGt vc) q) (q0 : q ≠ [])
    (h63 : (val p).totalDegree < 2 ^ 63 ∧ (val q).totalDegree < 2 ^ 63) :
    ∃ N Q R', (∀ fuel ≥ N, polyDivRem vc (codeLex F vc) divF fuel p q = some (some (Q, R'))) ∧ PolyOK vc (lexGt vc) Q ∧
      PolyOK vc (lexGt vc) R' ∧ val p = val Q * val q + val R' ∧
      (((val p).vars ∪ (val q).vars).card = 1 → ∀ t ∈ R', ∀ lt ∈ q.head?, ∀ m, Valid vc m → Mono.mul vc m lt.1 ≠ t.1) := by
  have M := lex_ord ho
  rw [← polyVars_eq M hp, ← polyVars_eq M hq]
  exact polyDivRem_field (C := codeLex F vc) (divc := divF) M hp hq q0
    (fun h2 => plan_lex ho hp hq h2 ⟨fun t ht => lt_of_le_of_lt (hp.deg_le_total M ht) (by exact_mod_cast h63.1),
        fun t ht => lt_of_le_of_lt (hq.deg_le_total M ht) (by exact_mod_cast h63.2)⟩)
    (fun lc h k => ⟨by simp only [divF]; rw [div_mul_cancel₀ _ h], rfl⟩)

/-- over any domain, in particular `ZZ` with floor division: an empty remainder means `p = Q·q`, and if `q` divides `p` the remainder
is empty and the quotient right (both orders) -/
theorem C20_divides_grlex_partial [NoZeroDivisors R] (ho : VarOrd vc) {divc : R → R → R × R} (D : CoefDiv divc) (p q : PV Mono R)
    (hp : PolyOK vc (grlexGt vc) p) (hq : PolyOK vc (grlexGt vc) q) (q0 : q ≠ [])
    (h31 : ((val p).vars ∪ (val q).vars).card = 1 → (val p).totalDegree < 2 ^ 31 ∧ (val q).totalDegree < 2 ^ 31) :
    ∃ N Q R', (∀ fuel ≥ N, polyDivRem vc (codeGr R vc) divc fuel p q = some (some (Q, R'))) ∧ PolyOK vc (grlexGt vc) Q ∧
      (R' = [] → val p = val Q * val q) ∧ ∀ h, PolyOK vc (grlexGt vc) h → val p = val h * val q → Q = h ∧ R' = [] := by
  have M := grlex_ord ho
  refine polyDivRem_test (C := codeGr R vc) M D hp hq q0 (full := True) (fun h2 => plan_gr ho hp hq h2 fun h1 => ?_)
  rw [polyVars_eq M hp, polyVars_eq M hq] at h1
  obtain ⟨a, b⟩ := h31 h1
  exact ⟨fun t ht => lt_of_le_of_lt (hp.deg_le_total M ht) (by exact_mod_cast a),
    fun t ht => lt_of_le_of_lt (hq.deg_le_total M ht) (by exact_mod_cast b)⟩

theorem C20_divides_lex_partial [NoZeroDivisors R] (ho : VarOrd vc) {divc : R → R → R × R} (D : CoefDiv divc) (p q : PV Mono R)
    (hp : PolyOK vc (lexGt vc) p) (hq : PolyOK vc (lexGt vc) q) (q0 : q ≠ [])
    (h63 : (val p).totalDegree < 2 ^ 63 ∧ (val q).totalDegree < 2 ^ 63) :
    ∃ N Q R', (∀ fuel ≥ N, polyDivRem vc (codeLex R vc) divc fuel p q = some (some (Q, R'))) ∧ PolyOK vc (lexGt vc) Q ∧
      (R' = [] → val p = val Q * val q) ∧ ∀ h, PolyOK vc (lexGt vc) h → val p = val h * val q → Q = h ∧ R' = [] := by
  have M := lex_ord ho
  refine polyDivRem_test (C := codeLex R vc) M D hp hq q0 (fun h2 => plan_lex ho hp hq h2 ?_)
  exact ⟨fun t ht => lt_of_le_of_lt (hp.deg_le_total M ht) (by exact_mod_cast h63.1),
    fun t ht => lt_of_le_of_lt (hq.deg_le_total M ht) (by exact_mod_cast h63.2)⟩

/-- the full property is false in lex: `x³ / (x + y^j)`, `j = 2^31−1`, leaves `x·y^(2j)`, divisible by `x` -/
theorem C20_not_reduced :
    (polyDivRem varLess (codeLex ℚ varLess) divF 30 [(exXY 3 0, (1 : ℚ))] [(exXY 1 0, 1), (exXY 0 (2 ^ 31 - 1), 1)]).map
      (Option.map fun r => r.2) = some (some [(exXY 1 (2 ^ 32 - 2), 1)]) := by decide +kernel

/-- the full property is false over `ZZ`: dividing `3x` by `2x` returns quotient `1` and remainder `1`; the remainder should be `x`
(basic.hh 744 pushes the quotient monomial) -/
theorem C20_wrong_remainder_monomial :
    polyDivRem varLess (codeGr Int varLess) divZ 10 [(exXY 1 0, 3)] [(exXY 1 0, 2)] = some (some ([(exXY 0 0, 1)], [(exXY 0 0, 1)])) ∧
    val ([(exXY 1 0, 3)] : PV Mono Int) ≠ val ([(exXY 0 0, 1)] : PV Mono Int) * val ([(exXY 1 0, 2)] : PV Mono Int) + val ([(exXY 0 0, 1)] : PV Mono Int) := by
  refine ⟨by decide +kernel, fun h => ?_⟩
  have h1 := congrArg (MvPolynomial.eval fun _ => (0 : Int)) h
  simp [val, expo, exXY, MvPolynomial.eval_monomial, MvPolynomial.constantCoeff_monomial] at h1

/-! ## C21 powers -/

theorem C21_pow_grlex [NoZeroDivisors R] [Nontrivial R] (ho : VarOrd vc) (p : PV Mono R) (hp : PolyOK vc (grlexGt vc) p) (n : ℕ)
    (hcap : (n * (val p).totalDegree : ℤ) < capGr (val p).vars.card) :
    ∃ out, polyPow vc (codeGr R vc) p n = some out ∧ PolyOK vc (grlexGt vc) out ∧ val out = val p ^ n :=
  polyPow_spec (codeGr_ok ho) (powFits_gr ho hcap) hp

theorem C21_pow_lex [NoZeroDivisors R] [Nontrivial R] (ho : VarOrd vc) (p : PV Mono R) (hp : PolyOK vc (lexGt vc) p) (n : ℕ)
    (hcap : ∀ v, (n * (val p).degreeOf v : ℤ) < capLex (val p).vars.card) :
    ∃ out, polyPow vc (codeLex R vc) p n = some out ∧ PolyOK vc (lexGt vc) out ∧ val out = val p ^ n :=
  polyPow_spec (codeLex_ok ho) (powFits_lex ho hcap) hp

example : polyPow varLess (codeGr Int varLess) exQ 5 = some [(exXY 0 10, -1), (exXY 1 8, 5), (exXY 2 6, -10), (exXY 3 4, 10),
    (exXY 4 2, -5), (exXY 5 0, 1)] := by decide +kernel

/-! ## C22 equality and order -/

theorem C22_eq (M : MonoOrd vc mc) (p q : PV Mono R) (hp : PolyOK vc mc p) (hq : PolyOK vc mc q) :
    pvEqualTo q p = true ↔ val p = val q := by
  rw [pvEqualTo_iff]
  exact ⟨fun h => by rw [h], fun h => hq.ext M hp h.symm⟩

/-- `>` on canonical polynomials is a strict total order (up to equality of the polynomials), for any strict total order `gt` of the
coefficients -/
theorem C22_gt (M : MonoOrd vc mc) (gt : R → R → Bool) (hg : Lawful (fun _ : R => True) gt) :
    (∀ p : PV Mono R, PolyOK vc mc p → pvComp mc gt p p = false) ∧
    (∀ p q r : PV Mono R, PolyOK vc mc p → PolyOK vc mc q → PolyOK vc mc r →
      pvComp mc gt p q = true → pvComp mc gt q r = true → pvComp mc gt p r = true) ∧
    (∀ p q : PV Mono R, PolyOK vc mc p → PolyOK vc mc q → val p ≠ val q → pvComp mc gt p q = true ∨ pvComp mc gt q p = true) :=
  ⟨fun p _ => pvComp_irrefl p,
   fun p q r hp hq hr => pvComp_trans M.lawful hg p q r hp.monos hq.monos hr.monos,
   fun p q hp hq h => pvComp_total_of M.lawful hg p q hp.monos hq.monos fun e => h (by rw [e])⟩

theorem C22_int_order : Lawful (fun _ : Int => True) gtI where
  irrefl a _ := by simp [gtI]
  trans a b c _ _ _ := by simp only [gtI, decide_eq_true_eq]; omega
  total a b _ _ := by simp only [gtI, decide_eq_true_eq]; omega

example : pvComp (grlexGt varLess) gtI exP exQ = true ∧ pvEqualTo exP exQ = false := by decide +kernel

/-! ## C23 scalar and monomial operands -/

/-- `p + c` for non-empty `p`: always the right polynomial, and canonical exactly when the new constant term is not zero.
Missing for the full property: the empty polynomial (undefined behaviour) and cancelling constants. -/
theorem C23_add_scalar_partial (M : MonoOrd vc mc) (p : PV Mono R) (hp : PolyOK vc mc p) (h0 : p ≠ []) (c : R) :
    ∃ out, polyAddConst p c = some out ∧ val out = val p + C c ∧ (PolyOK vc mc out ↔ coeff 0 (val p) + c ≠ 0) := by
  obtain ⟨out, h1, h2, h3, h4⟩ := polyAddConst_spec M hp h0 c
  exact ⟨out, h1, h2, fun h hz => h4 hz h, fun h => h3 fun d hd => hd ▸ h⟩

/-- `p - c` -/
theorem C23_sub_scalar_partial (M : MonoOrd vc mc) (p : PV Mono R) (hp : PolyOK vc mc p) (h0 : p ≠ []) (c : R) :
    ∃ out, polySubConst p c = some out ∧ val out = val p - C c ∧ (PolyOK vc mc out ↔ coeff 0 (val p) ≠ c) := by
  obtain ⟨out, h1, h2, h3⟩ := C23_add_scalar_partial M p hp h0 (-c)
  refine ⟨out, h1, by rw [h2, map_neg, sub_eq_add_neg], h3.trans ?_⟩
  rw [ne_eq, ne_eq, ← sub_eq_add_neg, sub_eq_zero]

/-- `c - p` -/
theorem C23_scalar_sub_partial (M : MonoOrd vc mc) (p : PV Mono R) (hp : PolyOK vc mc p) (h0 : p ≠ []) (c : R) :
    ∃ out, constSubPoly c p = some out ∧ val out = C c - val p ∧ (PolyOK vc mc out ↔ c ≠ coeff 0 (val p)) := by
  obtain ⟨out, h1, h2, h3⟩ := C23_add_scalar_partial M (pvNeg p) hp.neg (by simpa [pvNeg] using h0) c
  refine ⟨out, h1, by rw [h2, val_pvNeg]; ring, h3.trans ?_⟩
  rw [val_pvNeg, coeff_neg, ne_eq, ne_eq, neg_add_eq_zero, eq_comm]

/-- `p + m` and `p - m` for a monomial: full property -/
theorem C23_add_monomial [Nontrivial R] (M : MonoOrd vc mc) (p : PV Mono R) (hp : PolyOK vc mc p) (m : Mono) (hm : Valid vc m) :
    (PolyOK vc mc (polyAddMono mc p m 1) ∧ val (polyAddMono mc p m 1) = val p + monomial (expo m) 1) ∧
    (PolyOK vc mc (polyAddMono mc p m (-1)) ∧ val (polyAddMono mc p m (-1)) = val p - monomial (expo m) 1) := by
  refine ⟨polyAddMono_spec M hp hm one_ne_zero, ?_⟩
  have := polyAddMono_spec M hp hm (c := (-1 : R)) (neg_ne_zero.2 one_ne_zero)
  rwa [map_neg, ← sub_eq_add_neg] at this

/-- `p * c`: full property -/
theorem C23_scale [NoZeroDivisors R] (M : MonoOrd vc mc) (p : PV Mono R) (hp : PolyOK vc mc p) (c : R) :
    PolyOK vc mc (polyScale vc mc p c) ∧ val (polyScale vc mc p c) = val p * C c := polyScale_spec M hp c

/-- the full property is false of the code: `0 + c` is undefined behaviour; `(x + 1) - 1` and `x + 0` keep a zero term, so do
`x - x` and `1 - 1` built from monomials -/
theorem C23_counterexamples :
    polyAddConst ([] : PV Mono Int) 5 = none ∧
    polySubConst [(exXY 1 0, (1 : Int)), (exXY 0 0, 1)] 1 = some [(exXY 1 0, 1), (exXY 0 0, 0)] ∧
    polyAddConst [(exXY 1 0, (1 : Int))] 0 = some [(exXY 1 0, 1), (exXY 0 0, 0)] ∧
    monoAddMono varLess (grlexGt varLess) (exXY 1 0) (exXY 1 0) (1 : Int) (-1) = [(exXY 1 0, 0)] ∧
    monoAddConst varLess (grlexGt varLess) (exXY 0 0) (1 : Int) (-1) = [(exXY 0 0, 0)] := by decide +kernel

example : polyAddConst exP 7 = some [(exXY 2 1, 3), (exXY 1 0, 1), (exXY 0 0, 2)] ∧
    polyAddMono (grlexGt varLess) exP (exXY 1 1) 1 = [(exXY 2 1, 3), (exXY 1 1, 1), (exXY 1 0, 1), (exXY 0 0, -5)] := by decide +kernel

end CLPoly
