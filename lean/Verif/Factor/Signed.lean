import Verif.Factor.Bridge

/-! # `factorize` from a squarefree decomposition whose parts may be units or have negative leading coefficients -/

namespace CLPoly
namespace Factor
open Upoly Polynomial

/-- what `squarefreefactorize` gives: numbers with multiplicity 1 or units, and primitive polynomials -/
structure SqfSigned (G : ℤ[X]) (l : List (UPoly ℤ × Nat)) : Prop where
  canon : ∀ x ∈ l, Canon comp x.1
  part : ∀ x ∈ l, x.2 ≠ 0 ∧ (((toPoly x.1).natDegree = 0 ∧ (x.2 = 1 ∨ IsUnit (toPoly x.1))) ∨ ((toPoly x.1).IsPrimitive ∧ 0 < (toPoly x.1).natDegree))
  prod : powProd l = G

theorem factorizeParts_signed {fact : UPoly ℤ → Option (List (UPoly ℤ))} {N : Nat}
    (hfact : ∀ f F, Is f F → F.IsPrimitive → 2 ≤ F.natDegree → F.natDegree ≤ N → ∀ res, fact f = some res → ∃ Rs, List.Forall₂ Is res Rs ∧ Associated Rs.prod F ∧ ∀ R ∈ Rs, R.IsPrimitive ∧ 0 < R.natDegree) :
    ∀ (l : List (UPoly ℤ × Nat)) (s : ℤ × List (UPoly ℤ × Nat)) (r : ℤ × List (UPoly ℤ × Nat)), (∀ x ∈ l, Canon comp x.1) →
      (∀ x ∈ l, x.2 ≠ 0 ∧ (((toPoly x.1).natDegree = 0 ∧ (x.2 = 1 ∨ IsUnit (toPoly x.1))) ∨ ((toPoly x.1).IsPrimitive ∧ 0 < (toPoly x.1).natDegree))) →
      (∀ x ∈ l, (toPoly x.1).natDegree ≤ N) → factorizeParts fact l s = some r →
      ∃ new, r.2 = s.2 ++ new ∧ Associated (C r.1 * powProd new) (C s.1 * powProd l) ∧
        (∀ x ∈ new, Canon comp x.1 ∧ (toPoly x.1).IsPrimitive ∧ 0 < (toPoly x.1).natDegree ∧ x.2 ≠ 0) ∧
        ((∀ x ∈ l, (toPoly x.1).IsPrimitive → 2 ≤ (toPoly x.1).natDegree → ∀ res, fact x.1 = some res → ∀ g ∈ res, Irreducible (toPoly g)) → ∀ x ∈ new, Irreducible (toPoly x.1)) := by
  intro l
  induction l with
  | nil =>
    intro s r _ _ _ h
    cases h
    exact ⟨[], by simp, .refl _, by simp, by simp⟩
  | cons x l ih =>
    intro s r hc hp hN h
    have e : factorizeParts fact (x :: l) s = if x.1 = [] ∨ deg x.1 = 0 then factorizeParts fact l (s.1 * lc x.1, s.2)
      else if deg x.1 ≤ 1 then factorizeParts fact l (s.1, s.2 ++ [x])
      else (fact x.1).bind fun irr => factorizeParts fact l (s.1, s.2 ++ irr.map fun g => (flipSign g, x.2)) := rfl
    rw [e] at h
    have hx : Is x.1 (toPoly x.1) := is_of_canon (hc x (by simp))
    simp only [is_nil_iff hx, is_deg hx, is_lc hx] at h
    replace ih := fun s r => ih s r (fun y hy => hc y (by simp [hy])) (fun y hy => hp y (by simp [hy])) fun y hy => hN y (by simp [hy])
    have pp : ∀ y l, powProd (y :: l) = toPoly y.1 ^ y.2 * powProd l := fun y l => by simp [powProd]
    obtain ⟨x2, hpx⟩ := hp x (by simp)
    rcases hpx with ⟨d0, hu⟩ | ⟨px, dx⟩
    · rw [if_pos (.inr d0)] at h
      obtain ⟨new, n2, n3, n4, n5⟩ := ih _ _ h
      refine ⟨new, n2, n3.trans ?_, n4, fun hi => n5 fun y hy => hi y (by simp [hy])⟩
      have hl : C (toPoly x.1).leadingCoeff = toPoly x.1 := by
        rw [leadingCoeff, d0]
        exact (eq_C_of_natDegree_eq_zero d0).symm
      rw [pp, C_mul, mul_assoc, hl]
      refine (Associated.refl (C s.1)).mul_mul (Associated.mul_mul ?_ (.refl _))
      rcases hu with h1 | h1
      · rw [h1, pow_one]; exact .refl _
      · exact (associated_one_iff_isUnit.2 h1).trans (associated_one_iff_isUnit.2 (h1.pow _)).symm
    · have h0 : ¬ (toPoly x.1 = 0 ∨ (toPoly x.1).natDegree = 0) := by
        rw [not_or]
        exact ⟨px.ne_zero, by omega⟩
      rw [if_neg h0] at h
      split at h
      · next h1 =>
        obtain ⟨new, n2, n3, n4, n5⟩ := ih _ _ h
        refine ⟨x :: new, by rw [n2]; simp, ?_, fun y hy => ?_, fun hi y hy => ?_⟩
        · rw [pp, pp, mul_left_comm, mul_left_comm (C s.1)]
          exact (Associated.refl _).mul_mul n3
        · rcases List.mem_cons.1 hy with rfl | hy
          · exact ⟨hx.canon, px, by omega, x2⟩
          · exact n4 y hy
        · rcases List.mem_cons.1 hy with rfl | hy
          · exact deg_one_irreducible px (by omega)
          · exact n5 (fun z hz => hi z (by simp [hz])) y hy
      · next h1 =>
        cases ef : fact x.1 with
        | none => rw [ef] at h; cases h
        | some irr =>
          rw [ef, Option.bind_some] at h
          obtain ⟨new, n2, n3, n4, n5⟩ := ih _ _ h
          obtain ⟨Rs, r1, r2, r3⟩ := hfact _ _ hx px (by omega) (hN x (by simp)) irr ef
          obtain ⟨H, hH, hHa⟩ : ∃ H : ℤ[X], 0 < H.leadingCoeff ∧ Associated H (toPoly x.1) := by
            have := leadingCoeff_ne_zero.2 px.ne_zero
            by_cases hs : 0 < (toPoly x.1).leadingCoeff
            · exact ⟨_, hs, .refl _⟩
            · exact ⟨-toPoly x.1, by rw [leadingCoeff_neg]; omega, (Associated.refl _).neg_left⟩
          obtain ⟨f1, f2, f3⟩ := flip_map r1 r3 (r2.trans hHa.symm) hH x.2
          refine ⟨(irr.map fun g => (flipSign g, x.2)) ++ new, by rw [n2]; simp, ?_, fun y hy => ?_, fun hi y hy => ?_⟩
          · have : powProd ((irr.map fun g => (flipSign g, x.2)) ++ new) = H ^ x.2 * powProd new := by
              rw [← f1, powProd, List.map_append, List.prod_append]
            rw [this, pp, mul_left_comm, mul_left_comm (C s.1)]
            exact (hHa.pow_pow).mul_mul n3
          · rcases List.mem_append.1 hy with hy | hy
            · obtain ⟨a, b, c, d, z⟩ := f2 y hy
              exact ⟨a, b, d, by rw [z]; exact x2⟩
            · exact n4 y hy
          · rcases List.mem_append.1 hy with hy | hy
            · refine f3 (fun R hR => ?_) y hy
              obtain ⟨i1, i2⟩ := forall2_toPoly_of r1
              rw [i1] at hR
              obtain ⟨g, hg, rfl⟩ := List.mem_map.1 hR
              exact hi x (by simp) px (by omega) irr ef g hg
            · exact n5 (fun z hz => hi z (by simp [hz])) y hy

/-- `factorize` on univariate integer polynomials, up to sign -/
theorem factorize_signed {sqf : UPoly ℤ → Option (List (UPoly ℤ × Nat))} {fact : UPoly ℤ → Option (List (UPoly ℤ))} {sort : List (UPoly ℤ × Nat) → List (UPoly ℤ × Nat)} (hsort : ∀ l, (sort l).Perm l)
    {f : UPoly ℤ} {F : ℤ[X]} (hf : Is f F) (hsqf : ∀ l, sqf (primitive f).2 = some l → SqfSigned (toPoly (primitive f).2) l)
    (hfact : ∀ g G, Is g G → G.IsPrimitive → 2 ≤ G.natDegree → G.natDegree ≤ F.natDegree → ∀ res, fact g = some res →
      ∃ Rs, List.Forall₂ Is res Rs ∧ Associated Rs.prod G ∧ ∀ R ∈ Rs, R.IsPrimitive ∧ 0 < R.natDegree) {c : ℤ} {l : List (UPoly ℤ × Nat)} (h : factorize sqf fact sort f = some (c, l)) :
    Associated (C c * powProd l) F ∧ (∀ x ∈ l, Canon comp x.1 ∧ (toPoly x.1).IsPrimitive ∧ 0 < (toPoly x.1).natDegree ∧ x.2 ≠ 0) ∧
      ((∀ g G, Is g G → G.IsPrimitive → 2 ≤ G.natDegree → G.natDegree ≤ F.natDegree → ∀ res, fact g = some res → ∀ r ∈ res, Irreducible (toPoly r)) → ∀ x ∈ l, Irreducible (toPoly x.1)) := by
  unfold factorize at h
  simp only [is_nil_iff hf, is_deg hf, is_lc hf] at h
  split at h
  · next h0 => cases h; subst h0; simp
  next h0 =>
  split at h
  · next hd =>
    cases h
    refine ⟨?_, by simp, by simp⟩
    rw [leadingCoeff, hd, powProd, List.map_nil, List.prod_nil, mul_one, ← eq_C_of_natDegree_eq_zero hd]
  next hd =>
  obtain ⟨H, h1, h2, h3, hc, _⟩ := primitive_any hf h0
  have dH : H.natDegree = F.natDegree := by
    conv_rhs => rw [h3]
    rw [natDegree_C_mul hc]
  simp only [is_deg h1] at h
  rw [h1.eq] at hsqf
  split at h
  · next hd1 =>
    cases h
    refine ⟨?_, ?_, ?_⟩
    · simp only [powProd, List.map_cons, List.map_nil, List.prod_cons, List.prod_nil, mul_one, pow_one]
      rw [h1.eq, ← h3]
    · simpa using ⟨h1.canon, h1.eq ▸ ⟨h2, by omega⟩⟩
    · intro _
      simpa using h1.eq ▸ deg_one_irreducible h2 (by omega)
  · cases es : sqf (primitive f).2 with
    | none => rw [es] at h; cases h
    | some sq =>
      rw [es, Option.bind_some] at h
      have S := hsqf sq es
      have hdeg : ∀ x ∈ sq, (toPoly x.1).natDegree ≤ F.natDegree := fun x hx => by
        have hx2 : x.2 ≠ 0 := (S.part x hx).1
        have : toPoly x.1 ∣ H := by
          rw [← S.prod]
          exact (dvd_pow_self _ hx2).trans (List.dvd_prod (List.mem_map_of_mem (f := fun x : UPoly ℤ × Nat => toPoly x.1 ^ x.2) hx))
        rw [← dH]
        exact natDegree_le_of_dvd this h2.ne_zero
      cases ep : factorizeParts fact sq ((primitive f).1, []) with
      | none => rw [ep] at h; cases h
      | some r =>
        rw [ep] at h
        cases h
        obtain ⟨new, n2, n3, n4, n5⟩ := factorizeParts_signed hfact sq _ r S.canon S.part hdeg ep
        rw [List.nil_append] at n2
        have hp := hsort r.2
        refine ⟨?_, fun x hx => n4 x (n2 ▸ hp.subset hx), fun hi x hx => ?_⟩
        · have : powProd (sort r.2) = powProd r.2 := (hp.map _).prod_eq
          rw [this, n2, h3, ← S.prod]
          exact n3
        · refine n5 (fun y hy p1 hy2 res hr g hg => ?_) x (n2 ▸ hp.subset hx)
          exact hi y.1 _ (is_of_canon (S.canon y hy)) p1 hy2 (hdeg y hy) res hr g hg

/-! ## the decomposition that the code computes -/

open Mgcd Run Mono

theorem sqfU_spec {vc : Var → Var → Bool} (ho : VarOrd vc) {v : Var} (v0 : v ≠ 0) {prev : ℕ → Option ℕ} (hprev : PrevOK prev) {fuel : ℕ} {draws : List ℕ}
    {f : UPoly ℤ} {F : ℤ[X]} (hf : Is f F) (F0 : F ≠ 0) (hN : F.natDegree < 2 ^ 63 - 1) {l : List (UPoly ℤ × ℕ)} (h : sqfU vc v prev fuel draws f = some l) :
    SqfSigned F l ∧ (∀ x ∈ l.tail, Squarefree (toPoly x.1)) := by
  have M := lex_ord ho
  have hS : Small {v} F.natDegree := ⟨by simpa using v0.symm, by simp [capLex]; omega, hN⟩
  obtain ⟨a1, a2⟩ := upolyToPoly_spec ho v hf
  have hin : In vc {v} F.natDegree (upolyToPoly v f) := ⟨a1, by rw [a2]; exact emb_vars v F, fun w => by rw [a2]; exact emb_degreeOf v F w⟩
  unfold sqfU at h
  rw [Option.map_eq_some_iff] at h
  obtain ⟨⟨l', rest⟩, hl', rfl⟩ := h
  have hT : Tame false {v} F.natDegree prev := tame_one (by simp) hprev
  have hp := squarefreeFactorize_spec ho hS (gcdZ_spec' ho hS hprev hT fuel fuel) fuel fuel _ hin _ _ hl'
  rcases hp with ⟨e, _⟩ | ⟨_, c, t, e, ht⟩
  · exfalso
    have : f = [] := by simpa [upolyToPoly] using e
    exact F0 ((is_nil_iff hf).1 this)
  dsimp only at e
  subst e
  have key : ∀ p : PV Mono ℤ, In vc {v} F.natDegree p → Is (polyToUpoly p) (Factor.ret (val p)) ∧ emb v (Factor.ret (val p)) = val p :=
    fun p hp => ⟨polyToUpoly_spec ho M hp.ok hp.vars, emb_ret hp.vars⟩
  have dvd_emb : ∀ {A B : ℤ[X]}, emb v A ∣ emb v B → A ∣ B := fun {A B} hd => by
    have := map_dvd (Factor.ret (R := ℤ)) hd
    rwa [ret_emb, ret_emb] at this
  have hall : ∀ x ∈ (c, 1) :: t, In vc {v} F.natDegree x.1 := by
    intro x hx
    rcases List.mem_cons.1 hx with rfl | hx
    · exact ht.inc
    · exact (ht.parts x hx).1
  refine ⟨⟨fun y hy => ?_, fun y hy => ?_, ?_⟩, fun y hy => ?_⟩
  · obtain ⟨x, hx, rfl⟩ := List.mem_map.1 hy
    exact (key x.1 (hall x hx)).1.canon
  · obtain ⟨x, hx, rfl⟩ := List.mem_map.1 hy
    obtain ⟨k1, k2⟩ := key x.1 (hall x hx)
    show x.2 ≠ 0 ∧ (((toPoly (polyToUpoly x.1)).natDegree = 0 ∧ (x.2 = 1 ∨ IsUnit (toPoly (polyToUpoly x.1)))) ∨ ((toPoly (polyToUpoly x.1)).IsPrimitive ∧ 0 < (toPoly (polyToUpoly x.1)).natDegree))
    rw [k1.eq]
    rcases List.mem_cons.1 hx with rfl | hx
    · refine ⟨one_ne_zero, .inl ⟨?_, .inl rfl⟩⟩
      have := ht.const
      rw [MvPolynomial.vars_eq_empty_iff_eq_C] at this
      dsimp only
      rw [this, ret_C, natDegree_C]
    · obtain ⟨_, q2, q3, q4⟩ := ht.parts x hx
      have hprim : (Factor.ret (val x.1)).IsPrimitive := fun r hr => by
        have : (MvPolynomial.C r : MvPolynomial Var ℤ) ∣ val x.1 := by
          rw [← k2, ← emb_C v r]; exact map_dvd _ hr
        have := (q4 _ MvPolynomial.vars_C this).map (Factor.ret (R := ℤ))
        rw [ret_C] at this
        exact Polynomial.isUnit_C.1 this
      refine ⟨by omega, ?_⟩
      rcases Nat.eq_zero_or_pos (Factor.ret (val x.1)).natDegree with h0 | h0
      · refine .inl ⟨h0, .inr ?_⟩
        rw [eq_C_of_natDegree_eq_zero h0] at hprim ⊢
        exact (hprim _ dvd_rfl).map C
      · exact .inr ⟨hprim, h0⟩
  · have hret : ∀ l : List (PV Mono ℤ × ℕ), (∀ x ∈ l, In vc {v} F.natDegree x.1) → powProd (l.map fun x => (polyToUpoly x.1, x.2)) = Factor.ret (prodPow l) := by
      intro l
      induction l with
      | nil => intro _; simp [powProd, prodPow]
      | cons x l ih =>
        intro hl
        have i := ih fun y hy => hl y (by simp [hy])
        have k1 := (key x.1 (hl x (by simp))).1.eq
        have e1 : powProd ((x :: l).map fun x => (polyToUpoly x.1, x.2)) = toPoly (polyToUpoly x.1) ^ x.2 * powProd (l.map fun x => (polyToUpoly x.1, x.2)) := by simp [powProd]
        have e2 : prodPow (x :: l) = val x.1 ^ x.2 * prodPow l := by simp [prodPow]
        rw [e1, e2, i, k1, map_mul, map_pow]
    rw [hret _ hall]
    have e2 : prodPow ((c, 1) :: t) = val c * prodPow t := by simp [prodPow]
    rw [e2, ← ht.prod, a2, ret_emb]
  · rw [← List.map_tail] at hy
    obtain ⟨x, hx, rfl⟩ := List.mem_map.1 hy
    have hx : x ∈ t := hx
    obtain ⟨k1, k2⟩ := key x.1 (ht.parts x hx).1
    show Squarefree (toPoly (polyToUpoly x.1))
    rw [k1.eq]
    intro d hd
    have := (ht.parts x hx).2.2.1 (emb v d) (by rw [← map_mul, ← k2]; exact map_dvd _ hd)
    have := this.map (Factor.ret (R := ℤ))
    rwa [ret_emb] at this

end Factor
end CLPoly
