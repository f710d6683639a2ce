import Verif.Wang.LiftDefs
import Verif.Wang.Point
import Verif.Lift.Mdp

/-! # The operations under the multivariate Hensel lifting -/

namespace CLPoly
namespace Mtshl
open Mono Mgcd Run Upoly Factor Lift Wang Charset MvPolynomial

section
variable {R : Type} [DecidableEq R] [CommRing R] {vc : Var → Var → Bool}

/-- a polynomial in normal form with variables in `W` -/
def OKIn (vc : Var → Var → Bool) (W : Finset Var) (p : PV Mono R) : Prop := PolyOK vc (lexGt vc) p ∧ (val p).vars ⊆ W

theorem OKIn.mono {W W' : Finset Var} {p : PV Mono R} (h : OKIn vc W p) (hW : W ⊆ W') : OKIn vc W' p := ⟨h.1, h.2.trans hW⟩
theorem OKIn.nil {W : Finset Var} : OKIn vc W ([] : PV Mono R) := ⟨PolyOK.nil, by rw [val_nil, vars_0]; exact Finset.empty_subset _⟩

/-- the substitution `x := a` -/
noncomputable def sub1 (x : Var) (a : R) : MvPolynomial Var R →+* MvPolynomial Var R := eval₂Hom C fun v => if v = x then C a else X v

/-- evaluation of all variables but `x` -/
noncomputable def evR (x : Var) (a : Var → R) : MvPolynomial Var R →+* Polynomial R := eval₂Hom Polynomial.C fun w => if w = x then Polynomial.X else Polynomial.C (a w)

theorem evR_C (x : Var) (a : Var → R) (c : R) : evR x a (C c) = Polynomial.C c := by simp [evR]
theorem evR_X (x : Var) (a : Var → R) (w : Var) : evR x a (X w) = if w = x then Polynomial.X else Polynomial.C (a w) := by simp [evR]

theorem evR_eq (x : Var) (a : Var → R) (f : MvPolynomial Var R) : evR x a f = (toU x f).map (eval a) := by
  have : evR x a = (Polynomial.mapRingHom (eval a)).comp (toU x) := by
    refine MvPolynomial.ringHom_ext (fun r => ?_) fun w => ?_
    · simp [evR, toU]
    · simp only [evR, toU, eval₂Hom_X', RingHom.comp_apply, Polynomial.coe_mapRingHom]
      split <;> simp
  rw [this]; rfl

theorem evR_coeff (x : Var) (a : Var → R) {f c : MvPolynomial Var R} {i : ℕ} (h : IsCoeff x i f c) : (evR x a f).coeff i = eval a c := by
  rw [evR_eq, Polynomial.coeff_map, isCoeff_iff.1 h]

theorem evR_natDegree_le (x : Var) (a : Var → R) (f : MvPolynomial Var R) : (evR x a f).natDegree ≤ f.degreeOf x := by
  rw [evR_eq]
  exact (Polynomial.natDegree_map_le).trans (natDegree_toU x f).le

theorem evR_sub1 {x x1 : Var} (hx : x ≠ x1) {a : Var → R} {b : R} (hb : b = a x) (f : MvPolynomial Var R) : evR x1 a (sub1 x b f) = evR x1 a f := by
  have : (evR x1 a).comp (sub1 x b) = evR x1 a := by
    refine MvPolynomial.ringHom_ext (fun r => ?_) fun w => ?_
    · simp [sub1, evR_C]
    · rw [RingHom.comp_apply, sub1, eval₂Hom_X']
      by_cases h : w = x
      · rw [if_pos h, evR_C, evR_X, h, if_neg hx, hb]
      · rw [if_neg h]
  exact RingHom.congr_fun this f

theorem evR_linear {x x1 : Var} (hx : x ≠ x1) {a : Var → R} {b : R} (hb : b = a x) : evR x1 a (X x - C b) = 0 := by
  rw [map_sub, evR_X, if_neg hx, evR_C, hb, sub_self]

theorem evR_ret {x : Var} {f : MvPolynomial Var R} (h : f.vars ⊆ {x}) (a : Var → R) : evR x a f = Factor.ret f := by
  rw [← emb_ret h]
  have : (evR x a).comp (emb x) = RingHom.id _ := by
    refine Polynomial.ringHom_ext (fun c => ?_) ?_
    · simp [emb_C, evR_C]
    · simp [emb_X, evR_X]
  rw [ret_emb]
  exact RingHom.congr_fun this _

theorem sub1_vars [Nontrivial R] (x : Var) (a : R) (f : MvPolynomial Var R) : (sub1 x a f).vars ⊆ f.vars.erase x := by
  classical
  rw [f.as_sum, map_sum]
  refine (vars_sum_subset _ _).trans (Finset.biUnion_subset.2 fun s hs => ?_)
  rw [← f.as_sum, sub1, coe_eval₂Hom, eval₂_monomial]
  refine (vars_mul _ _).trans (Finset.union_subset (by rw [vars_C]; exact Finset.empty_subset _) ?_)
  refine (vars_prod _).trans (Finset.biUnion_subset.2 fun w hw => (vars_pow _ _).trans ?_)
  split
  · rw [vars_C]; exact Finset.empty_subset _
  · next h =>
    rw [vars_X, Finset.singleton_subset_iff, Finset.mem_erase]
    exact ⟨h, by rw [mem_vars]; exact ⟨s, hs, hw⟩⟩

theorem degreeOf_prod_pow [Nontrivial R] (x1 : Var) (g : Var → MvPolynomial Var R) (hg : ∀ v, (g v).degreeOf x1 ≤ if v = x1 then 1 else 0) (s : Var →₀ ℕ) :
    (s.prod fun n e => g n ^ e).degreeOf x1 ≤ s x1 := by
  classical
  unfold Finsupp.prod
  refine (degreeOf_prod_le _ _ _).trans ?_
  calc ∑ i ∈ s.support, (g i ^ s i).degreeOf x1 ≤ ∑ i ∈ s.support, if i = x1 then s i else 0 := Finset.sum_le_sum fun i _ => by
        refine (degreeOf_pow_le _ _ _).trans ?_
        have := hg i
        split at this <;> rename_i h
        · rw [if_pos h]; exact (Nat.mul_le_mul_left _ this).trans (by simp)
        · rw [if_neg h]; simp at this; rw [this]; simp
    _ ≤ s x1 := by
        rw [Finset.sum_ite_eq']
        split <;> simp

theorem sub1_degreeOf [Nontrivial R] (x x1 : Var) (a : R) (f : MvPolynomial Var R) : (sub1 x a f).degreeOf x1 ≤ f.degreeOf x1 := by
  classical
  conv_lhs => rw [f.as_sum, map_sum]
  refine (degreeOf_sum_le _ _ _).trans (Finset.sup_le fun s hs => ?_)
  rw [sub1, coe_eval₂Hom, eval₂_monomial]
  refine (degreeOf_C_mul_le _ _ _).trans ((degreeOf_prod_pow x1 _ (fun v => ?_) s).trans (monomial_le_degreeOf x1 hs))
  by_cases h : v = x
  · rw [if_pos h, degreeOf_C]; split <;> simp
  · rw [if_neg h, degreeOf_X]
    by_cases e : x1 = v
    · rw [if_pos e, if_pos e.symm]
    · rw [if_neg e]; exact Nat.zero_le _

theorem sub1_free {x : Var} {a : R} {f : MvPolynomial Var R} (h : x ∉ f.vars) : sub1 x a f = f := by
  have : sub1 x a f = eval₂Hom C X f := by
    refine eval₂Hom_congr' rfl (fun i hi _ => ?_) rfl
    rw [if_neg]
    rintro rfl
    exact h hi
  rw [this, eval₂Hom_X_eq_id' f]
where eval₂Hom_X_eq_id' (f : MvPolynomial Var R) : eval₂Hom C X f = f := by simp

end

section
variable {R : Type} [DecidableEq R] [CommRing R] [IsDomain R] {vc : Var → Var → Bool} (ho : VarOrd vc)

include ho in
theorem nrm_id {p : PV Mono R} (h : PolyOK vc (lexGt vc) p) : nrm vc p = p := polyNormalize_id (lex_ord ho) h

include ho in
/-- `p * q` -/
theorem mulN_spec {p q : PV Mono R} (hp : PolyOK vc (lexGt vc) p) (hq : PolyOK vc (lexGt vc) q) : Post (mulN true vc p q) fun r => PolyOK vc (lexGt vc) r ∧ val r = val p * val q := by
  unfold mulN
  refine Post.ite (fun _ => Post.fail) fun hf => ?_
  have hfit : p.length ≤ 1 ∨ q.length ≤ 1 ∨ MulFits vc (FitsLex vc) p q := by
    by_cases h1 : p = []
    · left; rw [h1]; simp
    by_cases h2 : q = []
    · right; left; rw [h2]; simp
    right; right
    refine mulFits_lex ho hp.monos hq.monos h1 h2 fun x hx y hy v => ?_
    have hf : fitsMul p q = true := by simpa using hf
    have h3 := List.all_eq_true.1 (List.all_eq_true.1 (List.all_eq_true.1 hf x hx) y hy)
    by_cases h4 : ∃ z ∈ x.1.data ++ y.1.data, z.1 = v
    · obtain ⟨z, hz, rfl⟩ := h4
      exact of_decide_eq_true (h3 z hz)
    · push Not at h4
      rw [degIn_eq ho (hp.monos x hx).sorted, degIn_eq ho (hq.monos y hy).sorted, E_not_mem fun z hz => h4 z (List.mem_append_left _ hz), E_not_mem fun z hz => h4 z (List.mem_append_right _ hz)]
      exact capLex_pos _
  obtain ⟨out, h1, h2, h3⟩ := polyMul_spec (codeLex_ok (R := R) ho) hp hq hfit
  refine (Post.lift (Q := fun r => r = out) fun a ha => ?_).bind fun r hr => Post.ret ?_
  · rw [h1] at ha; cases ha; rfl
  · subst hr
    rw [nrm_id ho h2]
    exact ⟨h2, h3⟩

include ho in
theorem mulN_in {W : Finset Var} {p q : PV Mono R} (hp : OKIn vc W p) (hq : OKIn vc W q) : Post (mulN true vc p q) fun r => OKIn vc W r ∧ val r = val p * val q := by
  classical
  refine (mulN_spec ho hp.1 hq.1).mono fun r hr => ⟨⟨hr.1, ?_⟩, hr.2⟩
  rw [hr.2]
  exact (vars_mul _ _).trans (Finset.union_subset hp.2 hq.2)

include ho in
theorem add_in {W : Finset Var} {p q : PV Mono R} (hp : OKIn vc W p) (hq : OKIn vc W q) : OKIn vc W (nrm vc (pvAdd (lexGt vc) p q)) ∧ val (nrm vc (pvAdd (lexGt vc) p q)) = val p + val q := by
  classical
  rw [nrm_id ho (hp.1.add (lex_ord ho) hq.1)]
  refine ⟨⟨hp.1.add (lex_ord ho) hq.1, ?_⟩, val_pvAdd _ _⟩
  rw [val_pvAdd]
  exact (vars_add_subset _ _).trans (Finset.union_subset hp.2 hq.2)

include ho in
theorem sub_in {W : Finset Var} {p q : PV Mono R} (hp : OKIn vc W p) (hq : OKIn vc W q) : OKIn vc W (nrm vc (pvSub (lexGt vc) p q)) ∧ val (nrm vc (pvSub (lexGt vc) p q)) = val p - val q := by
  classical
  rw [nrm_id ho (hp.1.sub (lex_ord ho) hq.1)]
  refine ⟨⟨hp.1.sub (lex_ord ho) hq.1, ?_⟩, val_pvSub _ _⟩
  rw [val_pvSub]
  exact (vars_sub_subset _).trans (Finset.union_subset hp.2 hq.2)

include ho in
/-- `assign(p, x, a)` -/
theorem asg_spec {x : Var} {a : R} {p : PV Mono R} (hp : PolyOK vc (lexGt vc) p) : Post (asg true vc x a p) fun r => PolyOK vc (lexGt vc) r ∧ val r = sub1 x a (val p) := by
  unfold asg
  refine Post.ite (fun _ => Post.fail) fun h => Post.ret ?_
  obtain ⟨h1, h2⟩ := assign_spec (lex_ord ho) (RingHom.id R) (fun v => if v = x then some a else none) (p := p) fun t ht y hy => ((hp.monos t ht).pos y hy).le
  refine ⟨h1.polyOK fun t ht h0 => h ⟨rfl, List.any_eq_true.2 ⟨t, ht, by simpa using h0⟩⟩, h2.trans ?_⟩
  rw [RingHom.comp_id, sub1, coe_eval₂Hom]
  congr 1
  funext v
  unfold substOf
  by_cases hv : v = x
  · simp only [if_pos hv]
  · simp only [if_neg hv]

include ho in
theorem asg_in {x : Var} {a : R} {W : Finset Var} {p : PV Mono R} (hp : OKIn vc W p) : Post (asg true vc x a p) fun r => OKIn vc (W.erase x) r ∧ val r = sub1 x a (val p) :=
  (asg_spec ho hp.1).mono fun r hr => ⟨⟨hr.1, by rw [hr.2]; exact (sub1_vars x a _).trans (Finset.erase_subset_erase _ hp.2)⟩, hr.2⟩

include ho in
/-- a list with distinct valid monomials and coefficients that are not zero -/
theorem nrm_nodup {l : PV Mono R} (hm : ∀ t ∈ l, Valid vc t.1) (hc : ∀ t ∈ l, t.2 ≠ 0) (hn : (l.map Prod.fst).Nodup) :
    PolyOK vc (lexGt vc) (nrm vc l) ∧ val (nrm vc l) = val l ∧ ∀ t ∈ nrm vc l, t ∈ l := by
  have M := lex_ord ho
  have hnn : ∀ t ∈ l, ∀ x ∈ t.1.data, 0 ≤ x.2 := fun t ht x hx => ((hm t ht).pos x hx).le
  obtain ⟨h1, h2, h3⟩ := polyNormalize_spec M hnn
  have hcoef : ∀ {l : PV Mono R}, (∀ t ∈ l, Valid vc t.1) → (l.map Prod.fst).Nodup → ∀ t ∈ l, coeff (expo t.1) (val l) = t.2 := by
    intro l
    induction l with
    | nil => intro _ _ t ht; simp at ht
    | cons u l ih =>
      intro hm hn t ht
      rw [List.map_cons, List.nodup_cons] at hn
      have hz : ∀ {l : PV Mono R} {m : Mono}, Valid vc m → (∀ t ∈ l, Valid vc t.1) → m ∉ l.map Prod.fst → coeff (expo m) (val l) = 0 := by
        intro l m hv
        induction l with
        | nil => intro _ _; rw [val_nil, coeff_zero]
        | cons z l ih =>
          intro hl hm
          rw [val_cons, coeff_add, coeff_monomial, ih (fun t ht => hl t (by simp [ht])) (fun h => hm (by simp only [List.map_cons, List.mem_cons]; exact .inr h)), if_neg, add_zero]
          intro e
          exact hm (by rw [← expo_inj ho (hl z (by simp)) hv e]; simp)
      rw [val_cons, coeff_add, coeff_monomial]
      rcases List.mem_cons.1 ht with rfl | ht
      · rw [if_pos rfl, hz (hm t (by simp)) (fun y hy => hm y (by simp [hy])) hn.1, add_zero]
      · rw [if_neg, zero_add, ih (fun y hy => hm y (by simp [hy])) hn.2 t ht]
        intro e
        exact hn.1 (by rw [expo_inj ho (hm u (by simp)) (hm t (by simp [ht])) e]; exact List.mem_map_of_mem ht)
  have hok : PolyOK vc (lexGt vc) (nrm vc l) :=
    (polyNormalize_ok_iff M hnn (sortResult_merge M (firstNormalize_valid M.vo hnn))).2 fun t ht h0 => by rw [hcoef hm hn t ht]; exact h0
  refine ⟨hok, h2, fun t ht => ?_⟩
  obtain ⟨z, hz, z0, e⟩ := (h3 (expo t.1)).1 ⟨t, ht, rfl⟩
  have e1 := expo_inj ho (hm z hz) (hok.monos t ht) e
  have e2 := hok.coeff_mem M ht
  rw [show val (nrm vc l) = val l from h2, ← e, hcoef hm hn z hz] at e2
  rwa [show t = z from Prod.ext e1.symm e2.symm]

include ho in
theorem OKIn_of_mem {W : Finset Var} {p : PV Mono R} (hp : PolyOK vc (lexGt vc) p) (h : ∀ t ∈ p, ∀ y ∈ t.1.data, y.1 ∈ W) : OKIn vc W p := by
  refine ⟨hp, ?_⟩
  rw [← polyVars_eq (lex_ord ho) hp]
  intro w hw
  rw [polyVars, List.mem_toFinset, List.mem_flatMap] at hw
  obtain ⟨t, ht, hw⟩ := hw
  obtain ⟨y, hy, rfl⟩ := List.mem_map.1 hw
  exact h t ht y hy

include ho in
theorem OKIn.mem {W : Finset Var} {p : PV Mono R} (hp : OKIn vc W p) {t : Mono × R} (ht : t ∈ p) {y : Var × ℤ} (hy : y ∈ t.1.data) : y.1 ∈ W :=
  hp.2 (by rw [← polyVars_eq (lex_ord ho) hp.1]; exact mem_polyVars ht hy)

end

end Mtshl
end CLPoly
