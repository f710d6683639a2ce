import Verif.Factor.Signed
import Verif.Poly.ConvertSpec

/-! # `factorize` for polynomials with monomials, for other orders and over `QQ` -/

namespace CLPoly
namespace Factor
open Upoly Mgcd Run Mono MvPolynomial

/-- a factorization up to sign -/
structure FacOut (vc : Var → Var → Bool) (mc : Mono → Mono → Bool) (F : MvPolynomial Var ℤ) (c : ℤ) (l : List (PV Mono ℤ × ℕ)) : Prop where
  ok : ∀ x ∈ l, PolyOK vc mc x.1
  nonconst : ∀ x ∈ l, ∀ z : ℤ, val x.1 ≠ C z
  pos : ∀ x ∈ l, 0 < x.2
  prim : ∀ x ∈ l, ∀ z : ℤ, (C z : MvPolynomial Var ℤ) ∣ val x.1 → IsUnit z
  prod : C c * (l.map fun x => val x.1 ^ x.2).prod = F ∨ C c * (l.map fun x => val x.1 ^ x.2).prod = -F

/-- the univariate contract -/
def UFac (N : ℕ) (fu : UPoly ℤ → Option (ℤ × List (UPoly ℤ × ℕ))) : Prop := ∀ f F, Is f F → F.natDegree ≤ N → ∀ c l, fu f = some (c, l) →
  Associated (Polynomial.C c * powProd l) F ∧ ∀ x ∈ l, Canon Upoly.comp x.1 ∧ (toPoly x.1).IsPrimitive ∧ 0 < (toPoly x.1).natDegree ∧ x.2 ≠ 0

section
variable {vc : Var → Var → Bool} {N : ℕ}

theorem ret_natDegree (v : Var) {f : MvPolynomial Var ℤ} (h : f.vars ⊆ {v}) (hd : f.degreeOf v ≤ N) : (Factor.ret f).natDegree ≤ N := by
  rw [Polynomial.natDegree_le_iff_coeff_eq_zero]
  intro n hn
  conv_lhs => rw [f.as_sum]
  rw [map_sum, Polynomial.finset_sum_coeff]
  refine Finset.sum_eq_zero fun s hs => ?_
  have hsup : s.support ⊆ {v} := fun w hw => h (by rw [mem_vars]; exact ⟨s, hs, hw⟩)
  rw [ret_monomial, Polynomial.coeff_monomial, if_neg]
  have : (s.sum fun _ e => e) = s v := by
    rw [Finsupp.sum]
    rw [Finset.sum_subset hsup (fun x _ hx => by simpa using hx)]
    simp
  rw [this]
  have := (degreeOf_le_iff.1 hd) s hs
  omega

theorem upolyFactors (ho : VarOrd vc) (v : Var) {f : MvPolynomial Var ℤ} (hv : f.vars ⊆ {v}) {c : ℤ} {l : List (UPoly ℤ × ℕ)} (h : Associated (Polynomial.C c * powProd l) (Factor.ret f))
    (hl : ∀ x ∈ l, Canon Upoly.comp x.1 ∧ (toPoly x.1).IsPrimitive ∧ 0 < (toPoly x.1).natDegree ∧ x.2 ≠ 0) : FacOut vc (lexGt vc) f c (l.map fun x => (upolyToPoly v x.1, x.2)) := by
  have key : ∀ x ∈ l, LP vc (upolyToPoly v x.1) ∧ val (upolyToPoly v x.1) = emb v (toPoly x.1) := fun x hx => upolyToPoly_spec ho v (is_of_canon (hl x hx).1)
  have hprod : ∀ l : List (UPoly ℤ × ℕ), (∀ x ∈ l, val (upolyToPoly v x.1) = emb v (toPoly x.1)) →
      ((l.map fun x => (upolyToPoly v x.1, x.2)).map fun x => val x.1 ^ x.2).prod = emb v (powProd l) := by
    intro l
    induction l with
    | nil => intro _; simp [powProd]
    | cons x l ih =>
      intro h
      have i := ih fun y hy => h y (by simp [hy])
      have e : powProd (x :: l) = toPoly x.1 ^ x.2 * powProd l := by simp [powProd]
      rw [List.map_cons, List.map_cons, List.prod_cons, i, e, map_mul, map_pow]
      dsimp only
      rw [h x (by simp)]
  refine ⟨fun y hy => ?_, fun y hy z hz => ?_, fun y hy => ?_, fun y hy z hz => ?_, ?_⟩
  · obtain ⟨x, hx, rfl⟩ := List.mem_map.1 hy
    exact (key x hx).1
  · obtain ⟨x, hx, rfl⟩ := List.mem_map.1 hy
    have := congrArg Factor.ret hz
    dsimp only at this
    rw [(key x hx).2, ret_emb, ret_C] at this
    have h3 := (hl x hx).2.2.1
    rw [this, Polynomial.natDegree_C] at h3
    exact absurd h3 (by omega)
  · obtain ⟨x, hx, rfl⟩ := List.mem_map.1 hy
    exact Nat.pos_of_ne_zero (hl x hx).2.2.2
  · obtain ⟨x, hx, rfl⟩ := List.mem_map.1 hy
    dsimp only at hz
    rw [(key x hx).2] at hz
    have := map_dvd (Factor.ret (R := ℤ)) hz
    rw [ret_C, ret_emb] at this
    exact (hl x hx).2.1 z this
  · rw [hprod l fun x hx => (key x hx).2, ← emb_C v, ← map_mul]
    have hf := emb_ret hv
    rcases associated_int h with e | e
    · left; rw [e, hf]
    · right; rw [e, map_neg, hf]

variable (ho : VarOrd vc) {prev : ℕ → Option ℕ} {fuel : ℕ} {draws : List ℕ} {fact : UPoly ℤ → Option (List (UPoly ℤ))} {sort : List (UPoly ℤ × ℕ) → List (UPoly ℤ × ℕ)}
  {multi : PV Mono ℤ → Option (ℤ × List (PV Mono ℤ × ℕ))}

include ho in
theorem factorizeLex_spec (hU : ∀ v : Var, v ≠ 0 → UFac N (factorizeU vc v prev fuel draws fact sort)) {F : PV Mono ℤ} (hF : LP vc F) (h0 : 0 ∉ (val F).vars) (hd : ∀ w, (val F).degreeOf w ≤ N)
    (hmulti : 1 < (val F).vars.card → ∀ c l, multi F = some (c, l) → FacOut vc (lexGt vc) (val F) c l) {c : ℤ} {l : List (PV Mono ℤ × ℕ)}
    (h : factorizeLex vc prev fuel draws fact sort multi F = some (c, l)) : FacOut vc (lexGt vc) (val F) c l := by
  have M := lex_ord ho
  match F, hF, h with
  | [], hF, h =>
    cases h
    exact ⟨by simp, by simp, by simp, by simp, .inl (by simp [val_nil])⟩
  | t :: F', hF, h =>
    obtain ⟨F, e⟩ : ∃ F, F = t :: F' := ⟨_, rfl⟩
    unfold factorizeLex at h
    dsimp only at h
    rw [← e] at h hF h0 hd hmulti ⊢
    split at h
    · next hn =>
      cases h
      refine ⟨by simp, by simp, by simp, by simp, .inl ?_⟩
      have : F = [t] := by
        rw [e] at hn ⊢
        cases F' with
        | nil => rfl
        | cons a b => simp [isNumber] at hn
      have hm : t.1.data = [] := by
        rw [this] at hn
        simpa [isNumber] using hn
      obtain ⟨z, hz⟩ := (isNumber_iff M hF).1 hn
      have he : val F = C t.2 := by
        rw [this, val_cons, val_nil, add_zero]
        have : expo t.1 = 0 := by
          ext w
          have := (hF.monos t (by rw [this]; simp)).expo_eq w
          rw [hm] at this
          simpa [E] using this
        rw [this]; rfl
      rw [he]; simp
    · next hn =>
      have hn' : (val F).vars ≠ ∅ := fun h => hn ((number_of_vars ho hF).2 h)
      split at h
      · next h1 => exact hmulti (by rwa [polyVars_eq M hF] at h1) c l h
      · next h1 =>
        rw [polyVars_eq M hF] at h1
        have hfv : pFirstVar F ≠ 0 := fun h => hn' ((first_zero ho hF h0).1 h)
        obtain ⟨f1, f2, _⟩ := first_spec ho hF hfv
        have hmem : pFirstVar F ∈ (val F).vars := by
          by_contra hc
          rw [degreeOf_zero_iff.2 hc] at f2
          exact absurd f2 (by omega)
        have hv : (val F).vars ⊆ {pFirstVar F} := fun w hw => by
          rw [Finset.mem_singleton]
          exact Finset.card_le_one.1 (by omega) w hw _ hmem
        rw [Option.map_eq_some_iff] at h
        obtain ⟨⟨c', l'⟩, hr, e2⟩ := h
        cases e2
        have hI := polyToUpoly_spec ho M hF hv
        obtain ⟨a, b⟩ := hU _ hfv _ _ hI (ret_natDegree _ hv (hd _)) _ _ hr
        exact upolyFactors ho _ hv a b

include ho in
theorem factorizeAny_spec {vc' : Var → Var → Bool} {mc' : Mono → Mono → Bool} (M' : MonoOrd vc' mc') (hU : ∀ v : Var, v ≠ 0 → UFac N (factorizeU vc v prev fuel draws fact sort)) {F : PV Mono ℤ}
    (hF : PolyOK vc' mc' F) (h0 : 0 ∉ (val F).vars) (hd : ∀ w, (val F).degreeOf w ≤ N)
    (hmulti : 1 < (val F).vars.card → ∀ c l, multi (Mgcd.toLex vc F) = some (c, l) → FacOut vc (lexGt vc) (val F) c l) {c : ℤ} {l : List (PV Mono ℤ × ℕ)}
    (h : factorizeAny vc prev fuel draws fact sort multi vc' mc' F = some (c, l)) : FacOut vc' mc' (val F) c l := by
  have M := lex_ord ho
  obtain ⟨a, b⟩ := convert_val M' M hF
  rw [factorizeAny, Option.map_eq_some_iff] at h
  obtain ⟨⟨c', l'⟩, hr, e⟩ := h
  cases e
  have hb : val (Mgcd.toLex vc F) = val F := b
  have S := factorizeLex_spec ho hU (F := Mgcd.toLex vc F) a (by rw [hb]; exact h0) (by rw [hb]; exact hd) (by rw [hb]; exact hmulti) hr
  rw [hb] at S
  have key : ∀ x ∈ l', PolyOK vc' mc' (polyConvert vc' mc' id x.1) ∧ val (polyConvert vc' mc' id x.1) = val x.1 := fun x hx => convert_val M M' (S.ok x hx)
  refine ⟨fun y hy => ?_, fun y hy => ?_, fun y hy => ?_, fun y hy => ?_, ?_⟩
  · obtain ⟨x, hx, rfl⟩ := List.mem_map.1 hy; exact (key x hx).1
  · obtain ⟨x, hx, rfl⟩ := List.mem_map.1 hy
    dsimp only; rw [(key x hx).2]; exact S.nonconst x hx
  · obtain ⟨x, hx, rfl⟩ := List.mem_map.1 hy; exact S.pos x hx
  · obtain ⟨x, hx, rfl⟩ := List.mem_map.1 hy
    dsimp only; rw [(key x hx).2]; exact S.prim x hx
  · have e : ((l'.map fun x => (polyConvert vc' mc' id x.1, x.2)).map fun x => val x.1 ^ x.2) = l'.map fun x => val x.1 ^ x.2 := by
      rw [List.map_map]
      exact List.map_congr_left fun x hx => by
        show val (polyConvert vc' mc' id x.1) ^ x.2 = _
        rw [(key x hx).2]
    rw [e]; exact S.prod
end

/-! ## over the rationals -/

section
variable {vc : Var → Var → Bool} {mc : Mono → Mono → Bool}

/-- a monic rational copy -/
def monicQ (p : PV Mono ℤ) : PV Mono ℚ := match p with
  | [] => []
  | u :: _ => p.map fun w => (w.1, (w.2 : ℚ) / (u.2 : ℚ))

/-- the leading coefficient -/
def headC (p : PV Mono ℤ) : ℚ := match p with
  | [] => 0
  | u :: _ => u.2

theorem val_map_div (p : PV Mono ℤ) (c : ℚ) : val (p.map fun w => (w.1, (w.2 : ℚ) / c)) = C c⁻¹ * map (Int.castRingHom ℚ) (val p) := by
  induction p with
  | nil => simp [val_nil]
  | cons t p ih =>
    rw [List.map_cons, val_cons, ih, val_cons, map_add, mul_add, map_monomial, C_mul_monomial]
    congr 2
    simp [div_eq_inv_mul]

theorem headC_ne {p : PV Mono ℤ} (hp : PolyOK vc mc p) (h : p ≠ []) : headC p ≠ 0 := by
  match p, h with
  | u :: p', _ =>
    have := hp.canon.2 u (by simp)
    show (u.2 : ℚ) ≠ 0
    exact_mod_cast this

theorem monicQ_spec {p : PV Mono ℤ} (hp : PolyOK vc mc p) (h : p ≠ []) : PolyOK vc mc (monicQ p) ∧ map (Int.castRingHom ℚ) (val p) = C (headC p) * val (monicQ p) ∧ ∃ t r, monicQ p = (t, 1) :: r := by
  have hc := headC_ne hp h
  match p, h with
  | u :: p', _ =>
    have hu : (u.2 : ℚ) ≠ 0 := hc
    refine ⟨⟨?_, ?_, ?_⟩, ?_, ?_⟩
    · intro t ht
      obtain ⟨w, hw, rfl⟩ := List.mem_map.1 ht
      exact hp.monos w hw
    · show (List.map _ _).Pairwise _
      rw [List.pairwise_map]
      exact hp.canon.1
    · intro t ht
      obtain ⟨w, hw, rfl⟩ := List.mem_map.1 ht
      have := hp.canon.2 w hw
      have : (w.2 : ℚ) ≠ 0 := by exact_mod_cast this
      exact div_ne_zero this hu
    · show _ = C (u.2 : ℚ) * val (List.map (fun w : Mono × ℤ => (w.1, (w.2 : ℚ) / (u.2 : ℚ))) (u :: p'))
      rw [val_map_div, ← mul_assoc, ← C_mul, mul_inv_cancel₀ hu, C_1, one_mul]
    · refine ⟨u.1, p'.map fun w => (w.1, (w.2 : ℚ) / (u.2 : ℚ)), ?_⟩
      show List.map (fun w : Mono × ℤ => (w.1, (w.2 : ℚ) / (u.2 : ℚ))) (u :: p') = _
      rw [List.map_cons, div_self hu]

theorem factorizeQ_fold (l : List (PV Mono ℤ × ℕ)) (hl : ∀ x ∈ l, x.1 ≠ []) : ∀ s : ℚ × List (PV Mono ℚ × ℕ),
    l.foldl (fun (s : ℚ × List (PV Mono ℚ × ℕ)) x =>
        match x.1 with
        | [] => s
        | u :: _ => (s.1 * (u.2 : ℚ) ^ x.2, s.2 ++ [(x.1.map fun w => (w.1, (w.2 : ℚ) / (u.2 : ℚ)), x.2)])) s
      = (s.1 * (l.map fun x => headC x.1 ^ x.2).prod, s.2 ++ l.map fun x => (monicQ x.1, x.2)) := by
  induction l with
  | nil => intro s; simp
  | cons x l ih =>
    intro s
    rw [List.foldl_cons, ih fun y hy => hl y (by simp [hy])]
    obtain ⟨p, m⟩ := x
    match p, hl (p, m) (by simp) with
    | u :: p', _ => simp [headC, monicQ, mul_assoc]

/-- a factorization over the rationals up to sign, into monic factors -/
structure FacOutQ (vc : Var → Var → Bool) (mc : Mono → Mono → Bool) (F : MvPolynomial Var ℚ) (c : ℚ) (l : List (PV Mono ℚ × ℕ)) : Prop where
  ok : ∀ x ∈ l, PolyOK vc mc x.1
  nonconst : ∀ x ∈ l, ∀ z : ℚ, val x.1 ≠ C z
  pos : ∀ x ∈ l, 0 < x.2
  monic : ∀ x ∈ l, ∃ t r, x.1 = (t, 1) :: r
  prod : C c * (l.map fun x => val x.1 ^ x.2).prod = F ∨ C c * (l.map fun x => val x.1 ^ x.2).prod = -F

theorem factorizeQ_spec {vc : Var → Var → Bool} {mc : Mono → Mono → Bool} (M : MonoOrd vc mc) {facZ : PV Mono ℤ → Option (ℤ × List (PV Mono ℤ × ℕ))} {F : PV Mono ℚ} (hF : PolyOK vc mc F)
    (hZ : ∀ c l, facZ (convQZ vc mc F) = some (c, l) → FacOut vc mc (val (convQZ vc mc F)) c l) {c : ℚ} {l : List (PV Mono ℚ × ℕ)} (h : factorizeQ facZ vc mc F = some (c, l)) :
    FacOutQ vc mc (val F) c l := by
  match F, hF, h with
  | [], hF, h =>
    cases h
    exact ⟨by simp, by simp, by simp, by simp, .inl (by simp [val_nil])⟩
  | t :: F', hF, h =>
    obtain ⟨F, e⟩ : ∃ F, F = t :: F' := ⟨_, rfl⟩
    unfold factorizeQ at h
    dsimp only at h
    rw [← e] at h hF hZ ⊢
    split at h
    · next hn =>
      cases h
      refine ⟨by simp, by simp, by simp, by simp, .inl ?_⟩
      have : F = [t] := by
        rw [e] at hn ⊢
        cases F' with
        | nil => rfl
        | cons a b => simp [isNumber] at hn
      have hm : t.1.data = [] := by
        rw [this] at hn
        simpa [isNumber] using hn
      have he : val F = C t.2 := by
        rw [this, val_cons, val_nil, add_zero]
        have : expo t.1 = 0 := by
          ext w
          have := (hF.monos t (by rw [this]; simp)).expo_eq w
          rw [hm] at this
          simpa [E] using this
        rw [this]; rfl
      rw [he]; simp
    · next hn =>
      rw [Option.map_eq_some_iff] at h
      obtain ⟨⟨c', l'⟩, hr, e2⟩ := h
      have S := hZ _ _ hr
      have hne : ∀ x ∈ l', x.1 ≠ [] := fun x hx hx0 => S.nonconst x hx 0 (by rw [hx0, val_nil, C_0])
      have fo := factorizeQ_fold l' hne ((c' : ℚ) / (denLcm F : ℚ), [])
      replace e2 := fo.symm.trans e2
      cases e2
      rw [List.nil_append]
      have key := fun x (hx : x ∈ l') => monicQ_spec (S.ok x hx) (hne x hx)
      refine ⟨fun y hy => ?_, fun y hy z hz => ?_, fun y hy => ?_, fun y hy => ?_, ?_⟩
      · obtain ⟨x, hx, rfl⟩ := List.mem_map.1 hy; exact (key x hx).1
      · obtain ⟨x, hx, rfl⟩ := List.mem_map.1 hy
        have k := (key x hx).2.1
        dsimp only at hz
        rw [hz, ← C_mul] at k
        obtain ⟨w, hw⟩ : ∃ w : ℤ, val x.1 = C w := by
          refine ⟨coeff 0 (val x.1), ?_⟩
          ext s
          have := congrArg (coeff s) k
          rw [coeff_map, coeff_C] at this
          rw [coeff_C]
          split
          · next hs => rw [hs]
          · next hs =>
            rw [if_neg hs] at this
            have : ((coeff s (val x.1) : ℤ) : ℚ) = 0 := this
            exact_mod_cast this
        exact S.nonconst x hx w hw
      · obtain ⟨x, hx, rfl⟩ := List.mem_map.1 hy; exact S.pos x hx
      · obtain ⟨x, hx, rfl⟩ := List.mem_map.1 hy; exact (key x hx).2.2
      · have hD : (denLcm F : ℚ) ≠ 0 := by
          have := denLcm_pos F
          exact_mod_cast this.ne'
        have hprod : ∀ l : List (PV Mono ℤ × ℕ), (∀ x ∈ l, map (Int.castRingHom ℚ) (val x.1) = C (headC x.1) * val (monicQ x.1)) →
            map (Int.castRingHom ℚ) ((l.map fun x => val x.1 ^ x.2).prod) = C (l.map fun x => headC x.1 ^ x.2).prod * ((l.map fun x => (monicQ x.1, x.2)).map fun x => val x.1 ^ x.2).prod := by
          intro l
          induction l with
          | nil => intro _; simp
          | cons x l ih =>
            intro h
            have i := ih fun y hy => h y (by simp [hy])
            simp only [List.map_cons, List.prod_cons]
            rw [map_mul, i, map_pow, h x (by simp), C_mul, C_pow]
            ring
        have hp := hprod l' fun x hx => (key x hx).2.1
        have hm := convQZ_map M M hF
        have hmul : ∀ g : MvPolynomial Var ℤ, C c' * (l'.map fun x => val x.1 ^ x.2).prod = g →
            C ((c' : ℚ) / (denLcm F : ℚ) * (l'.map fun x => headC x.1 ^ x.2).prod) * ((l'.map fun x => (monicQ x.1, x.2)).map fun x => val x.1 ^ x.2).prod = C ((denLcm F : ℚ))⁻¹ * map (Int.castRingHom ℚ) g := by
          intro g hg
          rw [← hg, map_mul (map (Int.castRingHom ℚ)), hp, map_C, div_eq_inv_mul]
          rw [C_mul, C_mul]
          show _ = C (denLcm F : ℚ)⁻¹ * (C ((c' : ℤ) : ℚ) * _)
          ring
        rcases S.prod with e | e
        · left
          rw [hmul _ e, hm, ← mul_assoc, ← C_mul, inv_mul_cancel₀ hD, C_1, one_mul]
        · right
          rw [hmul _ e, map_neg, hm, mul_neg, ← mul_assoc, ← C_mul, inv_mul_cancel₀ hD, C_1, one_mul]

end

end Factor
end CLPoly
