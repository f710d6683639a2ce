import Verif.Factor.Bridge
import Verif.Poly.PremSpec

/-! # `upoly_prem`: the pseudo-remainder of polynomials in one variable through the polynomials in several variables (/repo/clpoly/upolynomial.hh 164–181) -/

namespace CLPoly
namespace Factor
open Mono MvPolynomial
open Upoly (UPoly toPoly Is)

/-- upolynomial.hh 167–181 `upoly_prem(R, F, G, var, is_L)`: both operands become polynomials in `var` for the order with priority variable `var`, then `prem`, then back -/
def upolyPrem (v : Var) (isL : Bool) (F G : UPoly ℤ) : Option (Out (UPoly ℤ)) :=
  (premLex (varUni v) v isL (upolyToPoly v F) (upolyToPoly v G)).map fun o => o.bind fun r => .ok (polyToUpoly r)

variable {R : Type*} [CommRing R]

theorem coeff_emb (v : Var) (F : Polynomial R) (s : Var →₀ ℕ) : coeff s (emb v F) = if s = Finsupp.single v (s v) then F.coeff (s v) else 0 := by
  classical
  induction F using Polynomial.induction_on' with
  | add a b ha hb =>
    rw [map_add, coeff_add, ha, hb]
    split
    · rw [Polynomial.coeff_add]
    · rw [add_zero]
  | monomial n c =>
    rw [emb_monomial, coeff_monomial, Polynomial.coeff_monomial]
    by_cases h : Finsupp.single v n = s
    · rw [if_pos h, ← h]; simp
    · rw [if_neg h]
      split
      · rename_i e
        rw [if_neg]
        intro hn
        exact h (by rw [hn]; exact e.symm)
      · rfl

theorem degreeOf_emb (v : Var) (F : Polynomial R) : (emb v F).degreeOf v = F.natDegree := by
  refine le_antisymm (emb_degreeOf v F v) ?_
  by_cases h0 : F = 0
  · rw [h0]; simp
  · have h := monomial_le_degreeOf v (f := emb v F) (m := Finsupp.single v F.natDegree) (by
      rw [mem_support_iff, coeff_emb]
      simpa using h0)
    simpa using h

theorem isCoeff_emb (v : Var) (F : Polynomial R) (i : ℕ) : IsCoeff v i (emb v F) (C (F.coeff i)) := by
  classical
  intro s
  rw [coeff_C, coeff_emb]
  by_cases h0 : s v = 0
  · rw [if_pos h0]
    by_cases h : (0 : Var →₀ ℕ) = s
    · subst h; simp
    · rw [if_neg h, if_neg]
      intro e
      apply h
      ext w
      have := DFunLike.congr_fun e w
      by_cases hw : w = v
      · subst hw; simp [h0]
      · simpa [Finsupp.single_apply, Ne.symm hw] using this.symm
  · rw [if_neg h0, if_neg]
    rintro rfl
    exact h0 rfl

/-- all variables but `v` become zero -/
noncomputable def only (v : Var) : MvPolynomial Var R →+* MvPolynomial Var R :=
  (MvPolynomial.aeval (fun w : Var => if w = v then (X v : MvPolynomial Var R) else 0) : MvPolynomial Var R →ₐ[R] _).toRingHom

theorem only_emb (v : Var) (F : Polynomial R) : only v (emb v F) = emb v F := by
  have : ((only v).comp (emb v) : Polynomial R →+* MvPolynomial Var R) = emb v := by
    refine Polynomial.ringHom_ext (fun c => ?_) ?_
    · simp [only, emb]
    · simp [only, emb]
  exact RingHom.congr_fun this F

theorem only_range (v : Var) (f : MvPolynomial Var R) : ∃ F : Polynomial R, only v f = emb v F := by
  refine ⟨MvPolynomial.aeval (fun w : Var => if w = v then (Polynomial.X : Polynomial R) else 0) f, ?_⟩
  have : (only v : MvPolynomial Var R →+* _) = (emb v).comp (MvPolynomial.aeval (fun w : Var => if w = v then (Polynomial.X : Polynomial R) else 0) : MvPolynomial Var R →ₐ[R] _).toRingHom := by
    refine MvPolynomial.ringHom_ext (fun c => ?_) fun w => ?_
    · simp [only, emb]
    · by_cases hw : w = v
      · simp [only, emb, hw]
      · simp [only, emb, hw]
  exact RingHom.congr_fun this f

theorem coeff_only (v : Var) (f : MvPolynomial Var R) (k : ℕ) : coeff (Finsupp.single v k) (only v f) = coeff (Finsupp.single v k) f := by
  classical
  induction f using MvPolynomial.induction_on' with
  | add a b ha hb => rw [map_add, coeff_add, ha, hb, coeff_add]
  | monomial s c =>
    rw [coeff_monomial]
    unfold only
    show coeff _ ((MvPolynomial.aeval _) (monomial s c)) = _
    rw [aeval_monomial, algebraMap_eq, coeff_C_mul]
    by_cases hs : ∃ w, w ≠ v ∧ s w ≠ 0
    · obtain ⟨w, hw, hsw⟩ := hs
      have h0 : (s.prod fun i e => (if i = v then (X v : MvPolynomial Var R) else 0) ^ e) = 0 := by
        refine Finset.prod_eq_zero (i := w) (Finsupp.mem_support_iff.2 hsw) ?_
        dsimp only
        rw [if_neg hw, zero_pow hsw]
      rw [h0, coeff_zero, mul_zero, if_neg]
      rintro rfl
      exact hsw (by simp [Finsupp.single_apply, Ne.symm hw])
    · push Not at hs
      have e : s = Finsupp.single v (s v) := by
        ext w
        by_cases hw : w = v
        · subst hw; simp
        · simp [Finsupp.single_apply, Ne.symm hw, hs w hw]
      rw [e]
      have e2 : ((Finsupp.single v (s v)).prod fun i k => (if i = v then (X v : MvPolynomial Var R) else 0) ^ k) = X v ^ s v := by
        rw [Finsupp.prod_single_index (by simp), if_pos rfl]
      rw [e2, coeff_X_pow]
      split
      · simp
      · simp

theorem degreeOf_only (v : Var) (f : MvPolynomial Var R) : (only v f).degreeOf v ≤ f.degreeOf v := by
  classical
  obtain ⟨F, hF⟩ := only_range v f
  rw [hF, degreeOf_emb]
  by_cases h0 : F = 0
  · rw [h0]; simp
  · have h := monomial_le_degreeOf v (f := f) (m := Finsupp.single v F.natDegree) (by
      rw [mem_support_iff, ← coeff_only, hF, coeff_emb]
      simpa using h0)
    simpa using h

/-- the pseudo-remainder of polynomials in one variable has no other variable -/
theorem pseudo_only [IsDomain R] {v : Var} {isL : Bool} {F G : Polynomial R} {Q S : MvPolynomial Var R} (hG : G ≠ 0) (h : IsPseudo v isL (emb v F) (emb v G) Q S) :
    S = only v S ∧ Q = only v Q := by
  obtain ⟨⟨L, e, h1, h2, h3, h4⟩, h5⟩ := h
  have eL := h1.unique (isCoeff_emb v G _)
  have h6 := congrArg (only v) h4
  rw [map_mul, map_pow, map_add, map_mul, only_emb, only_emb, eL] at h6
  have hc : only v (C (G.coeff ((emb v G).degreeOf v)) : MvPolynomial Var R) = C (G.coeff ((emb v G).degreeOf v)) := by simp [only]
  rw [hc, ← eL, h4] at h6
  have h7 : (Q - only v Q) * emb v G = only v S - S := by linear_combination h6
  have hGe : emb v G ≠ 0 := by
    intro h
    exact hG (emb_injective v (by rw [h, map_zero]))
  by_cases hS : S = 0
  · rw [hS] at h7 ⊢
    rw [map_zero, sub_zero] at h7
    have := (mul_eq_zero.1 h7).resolve_right hGe
    exact ⟨(map_zero _).symm, sub_eq_zero.1 this⟩
  have h5 := h5.resolve_left hS
  by_cases hQ : Q - only v Q = 0
  · rw [hQ, zero_mul] at h7
    exact ⟨(sub_eq_zero.1 h7.symm).symm, sub_eq_zero.1 hQ⟩
  · have hd := degreeOf_mul_eq (n := v) hQ hGe
    rw [h7] at hd
    have := degreeOf_sub_le v (only v S) S
    have := degreeOf_only v S
    omega

theorem vars_only (v : Var) [Nontrivial R] (f : MvPolynomial Var R) : (only v f).vars ⊆ {v} := by
  obtain ⟨F, hF⟩ := only_range v f
  rw [hF]; exact emb_vars v F

theorem upolyPrem_spec (v : Var) (isL : Bool) {F G : Polynomial ℤ} {f g : UPoly ℤ} (hf : Is f F) (hg : Is g G) (hG : G ≠ 0) (h63 : F.natDegree < 2 ^ 63) :
    ∃ (Q S : Polynomial ℤ) (r : UPoly ℤ) (e : ℕ), upolyPrem v isL f g = some (.ok r) ∧ Is r S ∧ e ≤ F.natDegree + 1 - G.natDegree ∧
      (isL = true → e = F.natDegree + 1 - G.natDegree) ∧
      Polynomial.C (G.leadingCoeff ^ e) * F = Q * G + S ∧ (S = 0 ∨ S.natDegree < G.natDegree) := by
  have ho := varUni_ord v
  have M := lex_ord ho
  obtain ⟨f1, f2⟩ := upolyToPoly_spec ho v hf
  obtain ⟨g1, g2⟩ := upolyToPoly_spec ho v hg
  have hV : (val (upolyToPoly v f)).vars ∪ (val (upolyToPoly v g)).vars ⊆ {v} := by
    rw [f2, g2]; exact Finset.union_subset (emb_vars v F) (emb_vars v G)
  have hcap : capLex ((val (upolyToPoly v f)).vars ∪ (val (upolyToPoly v g)).vars).card = 2 ^ 63 := by
    unfold capLex
    rw [if_pos ((Finset.card_le_card hV).trans (by simp))]
  have hne : upolyToPoly v g ≠ [] := by
    intro h
    rw [h, val_nil] at g2
    exact hG (emb_injective v (by rw [← g2, map_zero]))
  have hdw : ∀ (H : Polynomial ℤ) w, w ≠ v → (emb v H).degreeOf w = 0 := by
    intro H w hw
    by_contra hc
    have : w ∈ (emb v H).vars := by
      by_contra hm
      exact hc (Nat.le_zero.1 (degreeOf_le_iff.2 fun s hs => (mem_support_notMem_vars_zero hs hm).le))
    exact hw (Finset.mem_singleton.1 (emb_vars v H this))
  obtain ⟨Q, S, _, h2, _, h4, h5⟩ := pquoLex_spec ho (fun w hw => .inl (Finset.mem_singleton.1 (hV hw))) isL f1 g1 hne ⟨by
      rw [hcap, f2, degreeOf_emb]; exact_mod_cast h63, by
      intro w hw
      rw [hcap, f2, g2, hdw F w hw, hdw G w hw]; norm_num⟩
  rw [f2, g2] at h5
  obtain ⟨e1, e2⟩ := pseudo_only hG h5
  obtain ⟨⟨L, e, k1, k2, k3, k4⟩, k5⟩ := h5
  rw [degreeOf_emb, degreeOf_emb] at k2 k3
  have hSv : (val S).vars ⊆ {v} := by rw [e1]; exact vars_only v _
  have eL := k1.unique (isCoeff_emb v G _)
  rw [degreeOf_emb] at eL
  refine ⟨ret (val Q), ret (val S), polyToUpoly S, e, by unfold upolyPrem; rw [h2]; rfl, polyToUpoly_spec ho M h4 hSv, k2, k3, ?_, ?_⟩
  · have := congrArg ret k4
    rw [map_mul, map_pow, map_add, map_mul, ret_emb, ret_emb, eL, ret_C] at this
    rw [← this, map_pow]; rfl
  · rcases k5 with h | h
    · left; rw [h, map_zero]
    · right
      rw [← emb_ret hSv, degreeOf_emb, degreeOf_emb] at h
      exact h

end Factor
end CLPoly
