import Verif.Factor.Defs
import Verif.Gcd.SqfSpec
import Verif.Gcd.SqfStrict
import Verif.Upoly.Driver

/-! # Univariate polynomials inside the multivariate ones -/

namespace CLPoly
namespace Factor
open Mono Mgcd MvPolynomial
open Upoly (UPoly toPoly Is)

section
variable {R : Type*} [CommRing R]

/-- substitution of `v` for the variable -/
noncomputable def emb (v : Var) : Polynomial R →+* MvPolynomial Var R := (Polynomial.aeval (MvPolynomial.X v : MvPolynomial Var R) : Polynomial R →ₐ[R] _).toRingHom
/-- all variables become the variable of the univariate polynomial -/
noncomputable def ret : MvPolynomial Var R →+* Polynomial R := (MvPolynomial.aeval (fun _ : Var => (Polynomial.X : Polynomial R)) : MvPolynomial Var R →ₐ[R] _).toRingHom

theorem emb_C (v : Var) (c : R) : emb v (Polynomial.C c) = C c := by simp [emb]
theorem emb_X (v : Var) : emb (R := R) v Polynomial.X = X v := by simp [emb]
theorem ret_C (c : R) : ret (C c : MvPolynomial Var R) = Polynomial.C c := by simp [ret]
theorem ret_X (v : Var) : ret (X v : MvPolynomial Var R) = Polynomial.X := by simp [ret]

theorem emb_monomial (v : Var) (k : ℕ) (c : R) : emb v (Polynomial.monomial k c) = monomial (Finsupp.single v k) c := by
  rw [← Polynomial.C_mul_X_pow_eq_monomial, map_mul, map_pow, emb_C, emb_X, ← MvPolynomial.C_mul_X_pow_eq_monomial]

theorem ret_monomial (s : Var →₀ ℕ) (c : R) : ret (monomial s c) = Polynomial.monomial (s.sum fun _ e => e) c := by
  rw [monomial_eq, map_mul, ret_C, Finsupp.prod, map_prod, ← Polynomial.C_mul_X_pow_eq_monomial, Finsupp.sum, ← Finset.prod_pow_eq_pow_sum]
  congr 1
  exact Finset.prod_congr rfl fun i _ => by rw [map_pow, ret_X]

theorem ret_emb (v : Var) (F : Polynomial R) : ret (emb v F) = F := by
  have : (ret.comp (emb v) : Polynomial R →+* Polynomial R) = RingHom.id _ := by
    refine Polynomial.ringHom_ext (fun c => ?_) ?_
    · simp [emb_C, ret_C]
    · simp [emb_X, ret_X]
  exact RingHom.congr_fun this F

theorem emb_ret {v : Var} {f : MvPolynomial Var R} (h : f.vars ⊆ {v}) : emb v (ret f) = f := by
  conv_rhs => rw [f.as_sum]
  conv_lhs => rw [f.as_sum]
  rw [map_sum, map_sum]
  refine Finset.sum_congr rfl fun s hs => ?_
  have hsup : s.support ⊆ {v} := fun w hw => h (by rw [mem_vars]; exact ⟨s, hs, hw⟩)
  have e : s = Finsupp.single v (s v) := by
    ext w
    by_cases hw : w = v
    · subst hw; simp
    · rw [Finsupp.single_eq_of_ne hw]
      by_contra hc
      exact hw (Finset.mem_singleton.1 (hsup (Finsupp.mem_support_iff.2 hc)))
  rw [ret_monomial, emb_monomial]
  rw [e]; simp

theorem emb_injective (v : Var) : Function.Injective (emb (R := R) v) := fun a b h => by rw [← ret_emb v a, h, ret_emb]

theorem emb_vars [Nontrivial R] (v : Var) (F : Polynomial R) : (emb v F).vars ⊆ {v} := by
  classical
  rw [F.as_sum_range_C_mul_X_pow, map_sum]
  refine (vars_sum_subset _ _).trans (Finset.biUnion_subset.2 fun i _ => ?_)
  rw [map_mul, map_pow, emb_C, emb_X]
  refine (vars_mul _ _).trans (Finset.union_subset ?_ ?_)
  · rw [vars_C]; exact Finset.empty_subset _
  · exact (vars_pow _ _).trans (by rw [vars_X])

theorem emb_degreeOf (v : Var) (F : Polynomial R) (w : Var) : (emb v F).degreeOf w ≤ F.natDegree := by
  classical
  rw [degreeOf_le_iff]
  intro s hs
  rw [F.as_sum_range, map_sum] at hs
  obtain ⟨i, hi, h⟩ := Finset.mem_biUnion.1 (support_sum hs)
  rw [emb_monomial] at h
  have := Finset.mem_singleton.1 (support_monomial_subset h)
  rw [this]
  have := Finset.mem_range.1 hi
  by_cases hw : w = v
  · subst hw; simp; omega
  · rw [Finsupp.single_eq_of_ne hw]; omega

end

section
variable {R : Type*} [CommRing R] [DecidableEq R] {vc : Var → Var → Bool}

theorem powMono_valid (v : Var) (k : ℕ) : Valid vc (powMono v k) := by
  unfold powMono
  split
  · exact ⟨List.pairwise_singleton _ _, by simpa using by omega, by simp⟩
  · exact ⟨.nil, by simp [Mono.one], rfl⟩

theorem powMono_expo (v : Var) (k : ℕ) : expo (powMono v k) = Finsupp.single v k := by
  have h := powMono_valid (vc := fun _ _ => false) v k
  ext w
  have e := h.expo_eq w
  have : E (powMono v k).data w = (Finsupp.single v k w : ℕ) := by
    unfold powMono
    split
    · rw [E_cons, E_nil, add_zero, Finsupp.single_apply]
      dsimp only
      split <;> simp
    · rw [show k = 0 by omega]; simp [Mono.one, E_nil]
  rw [this] at e
  exact_mod_cast e

theorem powMono_gt (ho : VarOrd vc) (v : Var) {a b : ℕ} (h : b < a) : lexGt vc (powMono v a) (powMono v b) = true := by
  unfold lexGt powMono
  rw [if_pos (by omega)]
  split
  · simp [pvComp, ho.irrefl v trivial, gtI, h, h.ne']
  · simp [pvComp, Mono.one]

theorem upolyToPoly_spec (ho : VarOrd vc) (v : Var) {f : UPoly R} {F : Polynomial R} (hf : Is f F) : LP vc (upolyToPoly v f) ∧ val (upolyToPoly v f) = emb v F := by
  refine ⟨⟨fun t ht => ?_, ?_, fun t ht => ?_⟩, ?_⟩
  · obtain ⟨u, _, rfl⟩ := List.mem_map.1 ht; exact powMono_valid v _
  · unfold upolyToPoly
    rw [List.pairwise_map]
    refine hf.canon.1.imp fun {a b} h => powMono_gt ho v ?_
    simpa [Upoly.comp] using h
  · obtain ⟨u, hu, rfl⟩ := List.mem_map.1 ht; exact hf.canon.2 u hu
  · rw [← hf.eq]
    clear hf
    induction f with
    | nil => simp [upolyToPoly, val_nil]
    | cons t f ih =>
      rw [Upoly.toPoly_cons, map_add, ← ih, emb_monomial]
      show val ((powMono v t.1, t.2) :: upolyToPoly v f) = _
      rw [val_cons, powMono_expo]

/-- polynomials in at most one variable -/
theorem polyToUpoly_spec (ho : VarOrd vc) {mc : Mono → Mono → Bool} (M : MonoOrd vc mc) {v : Var} {p : PV Mono R} (hp : PolyOK vc mc p) (hv : (val p).vars ⊆ {v}) :
    Is (polyToUpoly p) (ret (val p)) := by
  have hE : ∀ t ∈ p, ∀ w, w ≠ v → E t.1.data w = 0 := by
    intro t ht w hw
    have hval := hp.monos t ht
    by_contra hc
    have : w ∈ (val p).vars := by
      rw [mem_vars]
      refine ⟨expo t.1, (hp.mem_support M).2 ⟨t, ht, rfl⟩, ?_⟩
      rw [Finsupp.mem_support_iff]
      intro h0
      have := hval.expo_eq w
      rw [h0] at this
      exact hc this.symm
    exact hw (Finset.mem_singleton.1 (hv this))
  have hmono : ∀ t ∈ p, t.1 = powMono v t.1.deg.toNat ∧ 0 ≤ t.1.deg := by
    intro t ht
    have hval := hp.monos t ht
    have hd0 : 0 ≤ t.1.deg := by
      rw [hval.deg]
      exact List.sum_nonneg fun x hx => by obtain ⟨y, hy, rfl⟩ := List.mem_map.1 hx; exact (hval.pos y hy).le
    refine ⟨?_, hd0⟩
    have hdata : t.1.data = [] ∨ ∃ e, t.1.data = [(v, e)] := by
      have hmem : ∀ x ∈ t.1.data, x.1 = v := by
        intro x hx
        by_contra hc
        have h1 := hE t ht x.1 hc
        have := E_mem ho hval.sorted hx
        have := hval.pos x hx
        omega
      match hd : t.1.data with
      | [] => exact .inl rfl
      | [x] => exact .inr ⟨x.2, by rw [← hmem x (by rw [hd]; simp)]⟩
      | x :: y :: l =>
        have hs := hval.sorted
        rw [hd, List.pairwise_cons] at hs
        have := hs.1 y (by simp)
        rw [hmem x (by rw [hd]; simp), hmem y (by rw [hd]; simp), ho.irrefl v trivial] at this
        exact absurd this (by simp)
    have hdeg := hval.deg
    rcases hdata with h | ⟨e, h⟩
    · rw [h] at hdeg
      simp at hdeg
      rw [hdeg]
      show t.1 = Mono.one
      obtain ⟨⟨d, g⟩, c⟩ := t
      simp only at h hdeg
      rw [h, hdeg]; rfl
    · have hpos := hval.pos (v, e) (by rw [h]; simp)
      rw [h] at hdeg
      simp at hdeg
      dsimp only at hpos
      obtain ⟨⟨d, g⟩, c⟩ := t
      simp only at h hdeg hd0
      subst h hdeg
      unfold powMono
      dsimp only at hd0 ⊢
      rw [if_pos (by omega)]
      simp only [Int.toNat_of_nonneg hd0]
  obtain ⟨q, hq⟩ : ∃ q : UPoly R, q = p.map fun t => (t.1.deg.toNat, t.2) := ⟨_, rfl⟩
  have hpq : ∀ t ∈ p, t = (powMono v t.1.deg.toNat, t.2) := fun t ht => Prod.ext (hmono t ht).1 rfl
  have hcanon : Canon Upoly.comp q := by
    rw [hq]
    refine ⟨?_, fun t ht => ?_⟩
    · rw [List.pairwise_map]
      refine hp.canon.1.imp_of_mem fun {a b} ha hb h => ?_
      simp only [Upoly.comp, decide_eq_true_eq]
      by_contra hc
      rw [gt_iff_lt, not_lt] at hc
      have va := hp.monos a ha
      have vb := hp.monos b hb
      have : mc a.1 b.1 = false := by
        refine M.dom _ _ va vb fun w => ?_
        rw [← va.expo_eq, ← vb.expo_eq, (hmono a ha).1, (hmono b hb).1, powMono_expo, powMono_expo, Finsupp.single_apply, Finsupp.single_apply]
        split
        · exact_mod_cast hc
        · exact le_refl _
      rw [this] at h
      exact absurd h (by simp)
    · obtain ⟨u, hu, rfl⟩ := List.mem_map.1 ht; exact hp.canon.2 u hu
  have e : polyToUpoly p = q := by
    unfold polyToUpoly
    rw [← hq, Upoly.norm_eq_self hcanon]
  rw [e]
  refine ⟨hcanon, ?_⟩
  have hv' : val p = emb v (toPoly q) := by
    rw [hq]
    have key : ∀ l : PV Mono R, (∀ t ∈ l, t.1 = powMono v t.1.deg.toNat) → val l = emb v (toPoly (l.map fun t => (t.1.deg.toNat, t.2))) := by
      intro l
      induction l with
      | nil => simp [val_nil]
      | cons t l ih =>
        intro hl
        rw [List.map_cons, Upoly.toPoly_cons, map_add, val_cons, emb_monomial, ← ih fun u hu => hl u (by simp [hu]), ← powMono_expo, ← hl t (by simp)]
    exact key p fun t ht => (hmono t ht).1
  rw [hv', ret_emb]

end
end Factor
end CLPoly
