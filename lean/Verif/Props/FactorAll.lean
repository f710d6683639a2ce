import Verif.Factor.Wrap
import Verif.Upoly.VHRows
import Verif.Factor.SignCase
import Verif.Props.MGcd

/-!
# C46 (`factorize` over ℤ, univariate), C63 (irreducibility), C64 (`factorize` for other representations and over ℚ)

`Is f F`: the pair vector `f` is in normal form and denotes `F`; `val p`: the polynomial denoted by the pair vector `p` with monomials; `PolyOK vc mc p`: `p` is in normal form for the order.
-/

namespace CLPoly
open Mono Mgcd Upoly Factor

/-- **specification**: admissible settings of a run of the univariate factorization: primes below `2^64` and random numbers below them; the sorting functions
permute -/
structure FacSettings (ps : List ({p : Nat // p.Prime} × List Nat)) (sort : List (UPoly ℤ) → List (UPoly ℤ)) (sort' : List (UPoly ℤ × Nat) → List (UPoly ℤ × Nat)) : Prop where
  primes : ∀ x ∈ ps, x.1.1 < 2 ^ 64 ∧ ∀ c ∈ x.2, c < x.1.1
  sort : ∀ l, (sort l).Perm l
  sort' : ∀ l, (sort' l).Perm l

/-- **specification**: the contract of the source of primes of the modular gcd: smaller primes -/
structure PrimeSource (prev : ℕ → Option ℕ) : Prop where
  prime : ∀ n q, prev n = some q → q < n ∧ q.Prime

section
variable {vc : Var → Var → Bool} {prev : ℕ → Option ℕ} {fuel fuel' lf : ℕ} {draws : List ℕ} {ps : List ({p : Nat // p.Prime} × List Nat)} {ah : Nat}
  {sort : List (UPoly ℤ) → List (UPoly ℤ)} {sort' : List (UPoly ℤ × Nat) → List (UPoly ℤ × Nat)}

/-- `factorize` of a univariate polynomial over ℤ: the content times the product of the factors with their multiplicities is the input or its negative, the factors are in normal form, primitive, of positive
degree with positive multiplicity — whatever random numbers and primes the run uses -/
theorem C46_factorize (ho : VarOrd vc) {v : Var} (v0 : v ≠ 0) (hprev : PrimeSource prev) (hs : FacSettings ps sort sort') {f : UPoly ℤ} {F : Polynomial ℤ} (hf : Is f F)
    (hN : F.natDegree < 2 ^ 63 - 1) {c : ℤ} {l : List (UPoly ℤ × ℕ)} (h : factorizeU vc v prev fuel draws (factorSqfPrimL fuel' lf ps ah sort) sort' f = some (c, l)) :
    (Polynomial.C c * (l.map fun x => toPoly x.1 ^ x.2).prod = F ∨ Polynomial.C c * (l.map fun x => toPoly x.1 ^ x.2).prod = -F) ∧
      ∀ x ∈ l, Canon Upoly.comp x.1 ∧ (toPoly x.1).IsPrimitive ∧ 0 < (toPoly x.1).natDegree ∧ 0 < x.2 := by
  have hW : F.natDegree + 1 < 2 ^ 64 := by omega
  by_cases F0 : F = 0
  · subst F0
    have hnil : f = [] := (is_nil_iff hf).2 rfl
    subst hnil
    cases h
    simp
  obtain ⟨h1, h2, _⟩ := factorize_signed hs.sort' hf (fun l hl => by
    obtain ⟨H, e1, e2, e3, e4, _⟩ := primitive_any hf F0
    rw [e1.eq]
    have dH : H.natDegree = F.natDegree := by
      conv_rhs => rw [e3]
      rw [Polynomial.natDegree_C_mul e4]
    exact (sqfU_spec ho v0 hprev.prime e1 e2.ne_zero (by rw [dH]; exact hN) hl).1) (fun g G hg pG d2 dN res hr => by
    exact factorSqfPrimL_spec hs.primes hs.sort hg pG d2 (lt_of_le_of_lt (by omega) hW) hr) h
  exact ⟨associated_int h1, fun x hx => ⟨(h2 x hx).1, (h2 x hx).2.1, (h2 x hx).2.2.1, Nat.pos_of_ne_zero (h2 x hx).2.2.2⟩⟩

/-- the factors that `factorize` returns for a univariate polynomial over ℤ are irreducible.  Missing: degrees above 7168 -/
theorem C63_factorize_irreducible_partial (ho : VarOrd vc) {v : Var} (v0 : v ≠ 0) (hprev : PrimeSource prev) (hs : FacSettings ps sort sort') {f : UPoly ℤ} {F : Polynomial ℤ} (hf : Is f F)
    (hN : F.natDegree ≤ 7168) {c : ℤ} {l : List (UPoly ℤ × ℕ)} (h : factorizeU vc v prev fuel draws (factorSqfPrimL fuel' lf ps ah sort) sort' f = some (c, l)) :
    ∀ x ∈ l, Irreducible (toPoly x.1) := by
  have hW : F.natDegree + 1 < 2 ^ 64 := by omega
  by_cases F0 : F = 0
  · subst F0
    have hnil : f = [] := (is_nil_iff hf).2 rfl
    subst hnil
    cases h
    simp
  obtain ⟨_, _, h3⟩ := factorize_signed hs.sort' hf (fun l hl => by
    obtain ⟨H, e1, e2, e3, e4, _⟩ := primitive_any hf F0
    rw [e1.eq]
    have dH : H.natDegree = F.natDegree := by
      conv_rhs => rw [e3]
      rw [Polynomial.natDegree_C_mul e4]
    exact (sqfU_spec ho v0 hprev.prime e1 e2.ne_zero (by rw [dH]; omega) hl).1) (fun g G hg pG d2 dN res hr =>
    factorSqfPrimL_spec hs.primes hs.sort hg pG d2 (lt_of_le_of_lt (by omega) hW) hr) h
  refine h3 fun g G hg pG d2 dN res hr r hr' => ?_
  obtain ⟨Rs, a, _, _, d⟩ := factorSqfPrimL_irr hs.primes hs.sort hg pG d2 (dN.trans hN) hr
  obtain ⟨i, hi, rfl⟩ := List.getElem_of_mem hr'
  have hl := a.length_eq
  have := List.forall₂_iff_get.1 a
  have h2 := this.2 i hi (by omega)
  simp only [List.get_eq_getElem] at h2
  rw [h2.eq]
  exact d _ (List.getElem_mem _)

/-- the exact product is not guaranteed: for `f = (x² + 1)³ (L x + 1)`, `L = 6 (P₁P₂ − 1)` with `P₁`, `P₂` the first two primes of the modular gcd, `factorize` returns the content `−1` and the right
factors, that is, a factorization of `−f` -/
theorem C46_sign_wrong : ∃ (ps : List ({p : Nat // p.Prime} × List Nat)) (sort : List (UPoly ℤ) → List (UPoly ℤ)) (sort' : List (UPoly ℤ × Nat) → List (UPoly ℤ × Nat)) (prev : ℕ → Option ℕ)
    (f : UPoly ℤ) (F : Polynomial ℤ) (c : ℤ) (l : List (UPoly ℤ × ℕ)), FacSettings ps sort sort' ∧ PrimeSource prev ∧ (∀ n q, prev n = some q → 2 ^ 63 ≤ q) ∧ Is f F ∧ F ≠ 0 ∧
      factorizeU varLess 1 prev 20 [] (factorSqfPrimL 10 10 ps 1 sort) sort' f = some (c, l) ∧ Polynomial.C c * (l.map fun x => toPoly x.1 ^ x.2).prod = -F := by
  have hI : Is SignCase.fsF (toPoly SignCase.fsF) := is_of_canon (by decide +kernel)
  refine ⟨[(⟨3, Nat.prime_three⟩, [])], id, id, SignCase.fsPrev, SignCase.fsF, _, _, _,
    ⟨by simp, fun l => .refl _, fun l => .refl _⟩, ⟨fun n q h => ?_⟩, fun n q h => ?_, hI, ?_, SignCase.fs_factorize, ?_⟩
  · unfold SignCase.fsPrev at h
    split at h
    · next hn => cases h; rw [hn]; exact ⟨by decide, secondPrime_prime⟩
    · cases h
  · unfold SignCase.fsPrev at h
    split at h
    · cases h; decide
    · cases h
  · intro h0
    have := (is_nil_iff hI).2 h0
    exact absurd this (by decide)
  · simp only [SignCase.fsF, toPoly, List.map_cons, List.map_nil, List.prod_cons, List.prod_nil, List.sum_cons, List.sum_nil, ← Polynomial.C_mul_X_pow_eq_monomial, map_neg, Polynomial.C_1, Polynomial.C_mul]
    simp only [map_ofNat]
    ring

/-! ## C64 -/

/-- **specification**: `c · ∏ fᵢ^mᵢ` is `F` or `−F`, with factors in normal form, not constant, without integer content, with positive multiplicities -/
structure FactorsOf (vc : Var → Var → Bool) (mc : Mono → Mono → Bool) (F : MvPolynomial Var ℤ) (c : ℤ) (l : List (PV Mono ℤ × ℕ)) : Prop where
  ok : ∀ x ∈ l, PolyOK vc mc x.1
  nonconst : ∀ x ∈ l, ∀ z : ℤ, val x.1 ≠ MvPolynomial.C z
  pos : ∀ x ∈ l, 0 < x.2
  prim : ∀ x ∈ l, ∀ z : ℤ, (MvPolynomial.C z : MvPolynomial Var ℤ) ∣ val x.1 → IsUnit z
  prod : MvPolynomial.C c * (l.map fun x => val x.1 ^ x.2).prod = F ∨ MvPolynomial.C c * (l.map fun x => val x.1 ^ x.2).prod = -F

/-- **specification**: the same over ℚ, with monic factors -/
structure FactorsOfQ (vc : Var → Var → Bool) (mc : Mono → Mono → Bool) (F : MvPolynomial Var ℚ) (c : ℚ) (l : List (PV Mono ℚ × ℕ)) : Prop where
  ok : ∀ x ∈ l, PolyOK vc mc x.1
  nonconst : ∀ x ∈ l, ∀ z : ℚ, val x.1 ≠ MvPolynomial.C z
  pos : ∀ x ∈ l, 0 < x.2
  monic : ∀ x ∈ l, ∃ t r, x.1 = (t, 1) :: r
  prod : MvPolynomial.C c * (l.map fun x => val x.1 ^ x.2).prod = F ∨ MvPolynomial.C c * (l.map fun x => val x.1 ^ x.2).prod = -F

theorem facOut_iff {mc : Mono → Mono → Bool} {F : MvPolynomial Var ℤ} {c : ℤ} {l : List (PV Mono ℤ × ℕ)} : FacOut vc mc F c l ↔ FactorsOf vc mc F c l :=
  ⟨fun h => ⟨h.ok, h.nonconst, h.pos, h.prim, h.prod⟩, fun h => ⟨h.ok, h.nonconst, h.pos, h.prim, h.prod⟩⟩

theorem ufac_of (ho : VarOrd vc) (hprev : PrimeSource prev) (hs : FacSettings ps sort sort') {N : ℕ} (hN : N < 2 ^ 63 - 1) (v : Var) (v0 : v ≠ 0) :
    UFac N (factorizeU vc v prev fuel draws (factorSqfPrimL fuel' lf ps ah sort) sort') := fun f F hf hd c l h => by
  obtain ⟨a, b⟩ := C46_factorize ho v0 hprev hs hf (lt_of_le_of_lt hd hN) h
  refine ⟨?_, fun x hx => ⟨(b x hx).1, (b x hx).2.1, (b x hx).2.2.1, (b x hx).2.2.2.ne'⟩⟩
  show Associated (Polynomial.C c * (l.map fun x => toPoly x.1 ^ x.2).prod) F
  rcases a with a | a
  · rw [a]
  · rw [a]; exact (Associated.refl F).neg_left

/-- `factorize` of a polynomial over ℤ in one variable, in a lexicographic order -/
theorem C64_factorize_univariate (ho : VarOrd vc) (hprev : PrimeSource prev) (hs : FacSettings ps sort sort') {v : Var} (v0 : v ≠ 0) {N : ℕ} (hN : N < 2 ^ 63 - 1) {F : PV Mono ℤ}
    (hF : MgOperand vc (lexGt vc) {v} N F) (multi : PV Mono ℤ → Option (ℤ × List (PV Mono ℤ × ℕ))) {c : ℤ} {l : List (PV Mono ℤ × ℕ)}
    (h : factorizeLex vc prev fuel draws (factorSqfPrimL fuel' lf ps ah sort) sort' multi F = some (c, l)) : FactorsOf vc (lexGt vc) (val F) c l :=
  facOut_iff.1 (factorizeLex_spec ho (fun w w0 => ufac_of ho hprev hs hN w w0) hF.ok (fun h => v0 (Finset.mem_singleton.1 (hF.vars h)).symm) hF.deg
    (fun h1 => absurd (Finset.card_le_card hF.vars) (by simpa using h1)) h)

/-- `factorize` of a polynomial over ℤ in one variable, in any monomial order -/
theorem C64_factorize_univariate_any (ho : VarOrd vc) {vc' : Var → Var → Bool} {mc' : Mono → Mono → Bool} (M : MonoOrd vc' mc') (hprev : PrimeSource prev) (hs : FacSettings ps sort sort') {v : Var}
    (v0 : v ≠ 0) {N : ℕ} (hN : N < 2 ^ 63 - 1) {F : PV Mono ℤ} (hF : MgOperand vc' mc' {v} N F) (multi : PV Mono ℤ → Option (ℤ × List (PV Mono ℤ × ℕ))) {c : ℤ} {l : List (PV Mono ℤ × ℕ)}
    (h : factorizeAny vc prev fuel draws (factorSqfPrimL fuel' lf ps ah sort) sort' multi vc' mc' F = some (c, l)) : FactorsOf vc' mc' (val F) c l :=
  facOut_iff.1 (factorizeAny_spec ho M (fun w w0 => ufac_of ho hprev hs hN w w0) hF.ok (fun h => v0 (Finset.mem_singleton.1 (hF.vars h)).symm) hF.deg
    (fun h1 => absurd (Finset.card_le_card hF.vars) (by simpa using h1)) h)

/-- `factorize` of a polynomial over ℚ in one variable, in any monomial order -/
theorem C64_factorize_univariate_QQ (ho : VarOrd vc) {vc' : Var → Var → Bool} {mc' : Mono → Mono → Bool} (M : MonoOrd vc' mc') (hprev : PrimeSource prev) (hs : FacSettings ps sort sort') {v : Var}
    (v0 : v ≠ 0) {N : ℕ} (hN : N < 2 ^ 63 - 1) {F : PV Mono ℚ} (hok : PolyOK vc' mc' F) (hv : (val F).vars ⊆ {v}) (hd : ∀ w, (val F).degreeOf w ≤ N)
    (multi : PV Mono ℤ → Option (ℤ × List (PV Mono ℤ × ℕ))) {c : ℚ} {l : List (PV Mono ℚ × ℕ)}
    (h : factorizeQ (factorizeAny vc prev fuel draws (factorSqfPrimL fuel' lf ps ah sort) sort' multi vc' mc') vc' mc' F = some (c, l)) : FactorsOfQ vc' mc' (val F) c l := by
  have := factorizeQ_spec M hok (fun c l hz => by
    obtain ⟨k1, k2⟩ := convQZ_spec M M hok
    have hsup : (val (convQZ vc' mc' F)).support ⊆ (val F).support := fun s hs => by
      rw [MvPolynomial.mem_support_iff] at hs ⊢
      intro h0
      have := k2 s
      rw [h0, mul_zero] at this
      exact hs (by exact_mod_cast this)
    refine facOut_iff.2 (C64_factorize_univariate_any ho M hprev hs v0 hN (F := convQZ vc' mc' F) ⟨k1, fun w hw => hv ?_, fun w => (MvPolynomial.degreeOf_le_iff.2 fun s hs => ?_)⟩ multi hz)
    · obtain ⟨s, h1, h2⟩ := (MvPolynomial.mem_vars _).1 hw
      exact (MvPolynomial.mem_vars _).2 ⟨s, hsup h1, h2⟩
    · exact MvPolynomial.degreeOf_le_iff.1 (hd w) s (hsup hs)) h
  exact ⟨this.ok, this.nonconst, this.pos, this.monic, this.prod⟩

/-- polynomials in several variables over ℤ.  Missing: the contract of the multivariate part (`__factor_multivar`) is a hypothesis -/
theorem C64_factorize_multivariate_partial (ho : VarOrd vc) {vc' : Var → Var → Bool} {mc' : Mono → Mono → Bool} (M : MonoOrd vc' mc') (hprev : PrimeSource prev) (hs : FacSettings ps sort sort')
    {V : Finset Var} (hV : 0 ∉ V) {N : ℕ} (hN : N < 2 ^ 63 - 1) {F : PV Mono ℤ} (hF : MgOperand vc' mc' V N F) {multi : PV Mono ℤ → Option (ℤ × List (PV Mono ℤ × ℕ))}
    (hmulti : ∀ G c l, PolyOK vc (lexGt vc) G → 1 < (val G).vars.card → multi G = some (c, l) → FactorsOf vc (lexGt vc) (val G) c l) {c : ℤ} {l : List (PV Mono ℤ × ℕ)}
    (h : factorizeAny vc prev fuel draws (factorSqfPrimL fuel' lf ps ah sort) sort' multi vc' mc' F = some (c, l)) : FactorsOf vc' mc' (val F) c l := by
  obtain ⟨a, b⟩ := convert_val M (lex_ord ho) hF.ok
  refine facOut_iff.1 (factorizeAny_spec ho M (fun w w0 => ufac_of ho hprev hs hN w w0) hF.ok (fun h => hV (hF.vars h)) hF.deg (fun h1 c l hm => ?_) h)
  have hb : val (Mgcd.toLex vc F) = val F := b
  have := hmulti _ c l a (by show 1 < (val (Mgcd.toLex vc F)).vars.card; rw [hb]; exact h1) hm
  exact facOut_iff.2 (hb ▸ this)
end

/-! non-vacuity: `−6x + 6` in the variable 1, over ℤ; the settings of `C46_sign_wrong` -/
section
def facEx : PV Mono ℤ := [(⟨[(1, 1)], 1⟩, -6), (⟨[], 0⟩, 6)]
example : MgOperand varLess (lexGt varLess) {1} 5 facEx := MgOperand.of_list (lex_ord varLess_ord) (by decide +kernel) (by decide +kernel)
example : factorizeAny varLess (fun _ => none) 5 [] (fun _ => none) id (fun _ => none) varLess (lexGt varLess) facEx = some (-6, [([(⟨[(1, 1)], 1⟩, 1), (⟨[], 0⟩, -1)], 1)]) := by decide +kernel
end

end CLPoly
