import Verif.Wang.LeadUp
import Verif.Props.MultiLift
import Verif.Props.FactorAll

/-!
# C93–C95: `__wang_leading_coeff` (polynomial_factorize_wang.hh 1324–1528)

The function distributes the leading coefficient `L` of `f` in the main variable among the univariate factors `u₁, …, u_r` of an image `f(α)`, and scales `f` and the factors.  C93: the results fit together (soundness).  C94: if the `uᵢ` are
images of factors of `f`, the results belong to exactly these factors (completeness).  C95: together with the lifting (C90) the factors of a polynomial in two variables are found.

The model is `wangLc` in Wang/LiftDefs.lean; `facL` is the factorization of `L` (a call of `factorize`).
-/

namespace CLPoly
open Mono Mgcd Run Upoly Factor Wang Mtshl MvPolynomial

section
variable {vc : Var → Var → Bool}

theorem facX_of {F : MvPolynomial Var ℤ} {c : ℤ} {l : List (PV Mono ℤ × ℕ)} (h : FactorsOf vc (lexGt vc) F c l) : FacX False vc (lexGt vc) F c l := ⟨h.ok, h.nonconst, h.pos, h.prim, h.prod.imp id fun e => ⟨not_false, e⟩⟩

/-! ## C93 -/

/-- **specification**: `(fs, vs, ts)` fit together: with `δ = L(α) ≠ 0` for the leading coefficient `L` of `f` in `x`, `fs = δ^(r-1)·f`, `vᵢ = δ·uᵢ/lc(uᵢ)`, the `tᵢ` are polynomials in the other variables with the value `δ` at the point, and
`∏ tᵢ = δ^(r-1)·L` (the leading coefficient of `fs`).  If the `uᵢ` are the factors of `f(α)`, then `fs(α) = ∏ vᵢ` -/
structure LeadResult (vc : Var → Var → Bool) (x : Var) (α : List (Var × ℤ)) (f : PV Mono ℤ) (us : List (UPoly ℤ)) (c : ℤ) (fs : PV Mono ℤ) (vs : List (UPoly ℤ)) (ts : List (PV Mono ℤ)) (L : MvPolynomial Var ℤ) : Prop where
  lead : IsCoeff x ((val f).degreeOf x) (val f) L
  nonzero : eval (ptVal α) L ≠ 0
  scaled : PolyOK vc (lexGt vc) fs ∧ val fs = C (eval (ptVal α) L ^ (us.length - 1)) * val f
  factors : List.Forall₂ (fun v u => ∃ V, Is v V ∧ Polynomial.C (toPoly u).leadingCoeff * V = Polynomial.C (eval (ptVal α) L) * toPoly u) vs us
  count : ts.length = us.length
  targets : ∀ t ∈ ts, PolyOK vc (lexGt vc) t ∧ (val t).vars ⊆ (α.map Prod.fst).toFinset ∧ eval (ptVal α) (val t) = eval (ptVal α) L
  product : (ts.map val).prod = C (eval (ptVal α) L ^ (us.length - 1)) * L
  image : evalAt x (ptVal α) (val f) = Polynomial.C c * (us.map toPoly).prod → evalAt x (ptVal α) (val fs) = (vs.map toPoly).prod

/-- whenever `__wang_leading_coeff` succeeds, its results fit together (`f` fits into the packed words) -/
theorem C93_leading_coefficients (ho : VarOrd vc) {x : Var} {α : List (Var × ℤ)} (hx : x ∉ α.map Prod.fst) {f : PV Mono ℤ} (hf : PolyOK vc (lexGt vc) f) (hv : (val f).vars ⊆ insert x (α.map Prod.fst).toFinset)
    (hdeg : ∀ w, ((val f).degreeOf w : ℤ) < capLex (insert x (α.map Prod.fst).toFinset).card) {us : List (UPoly ℤ)} (hne : us ≠ []) (hus : ∀ u ∈ us, Is u (toPoly u) ∧ toPoly u ≠ 0) {facL : PV Mono ℤ → Run (ℤ × List (PV Mono ℤ × ℕ))}
    (hfac : ∀ L, PolyOK vc (lexGt vc) L → IsCoeff x ((val f).degreeOf x) (val f) (val L) → ∀ s r, facL L s = some r → FactorsOf vc (lexGt vc) (val L) r.1.1 r.1.2) {c : ℤ} {fuel : ℕ} {draws rest : List ℕ} {fs : PV Mono ℤ} {vs : List (UPoly ℤ)}
    {ts : List (PV Mono ℤ)} (h : wangLc false vc fuel facL f us α x c draws = some (some (fs, vs, ts), rest)) : ∃ L, LeadResult vc x α f us c fs vs ts L := by
  obtain ⟨_, l2, l3⟩ := leadIn_spec (lex_ord ho) hf x
  have hα : ∀ w ∈ (α.map Prod.fst).toFinset, (α.lookup w).isSome = true := fun w hw => lookup_keys.2 (List.mem_toFinset.1 hw)
  have hfac' : Post (facL (leadIn vc (lexGt vc) f x).1) fun r => FacX False vc (lexGt vc) (val (leadIn vc (lexGt vc) f x).1) r.1 r.2 := fun s r hr => facX_of (hfac _ l2 l3 s r hr)
  obtain ⟨B, hB⟩ : ∃ B : ℕ, (B : ℤ) = capLex (insert x (α.map Prod.fst).toFinset).card := ⟨_, Int.toNat_of_nonneg (capLex_pos _).le⟩
  replace h := wangLc_up ho (K := (α.map Prod.fst).toFinset) hB.le ⟨hf, hv⟩ (fun w => by have := hdeg w; rw [← hB] at this; exact_mod_cast this) hα hfac' h
  have hUs : List.Forall₂ Is us (us.map toPoly) := by
    rw [List.forall₂_map_right_iff, List.forall₂_same]
    exact fun u hu => (hus u hu).1
  obtain ⟨δ, d0, d1, d2, d3, d4, d5⟩ := wangLc_spec ho (K := (α.map Prod.fst).toFinset) ⟨hf, hv⟩ (by simpa using hx) hUs (fun U hU => by
    obtain ⟨u, hu, rfl⟩ := List.mem_map.1 hU
    exact (hus u hu).2) hα hfac' c _ _ h _ rfl
  obtain ⟨p1, p2⟩ := wangLc_prod ho (K := (α.map Prod.fst).toFinset) ⟨hf, hv⟩ hne hα hfac' c _ _ h _ rfl
  have hδ : δ = eval (ptVal α) (val (leadIn vc (lexGt vc) f x).1) := d1.trans (evalAt_coeff x (ptVal α) l3)
  subst hδ
  rw [List.forall₂_map_right_iff] at d4
  refine ⟨_, l3, d0, ⟨d2.1, by rw [d3, mul_comm]⟩, d4, p1, fun t ht => ⟨(d5 t ht).1.1, (d5 t ht).1.2, (d5 t ht).2⟩, p2, fun himg => ?_⟩
  obtain ⟨δ, hδ⟩ : ∃ δ, δ = eval (ptVal α) (val (leadIn vc (lexGt vc) f x).1) := ⟨_, rfl⟩
  rw [← hδ] at d0 d3 d4
  have hC : evalAt x (ptVal α) (C (δ ^ (us.length - 1))) = Polynomial.C (δ ^ (us.length - 1)) := by unfold evalAt; exact eval₂Hom_C ..
  dsimp only at d3 ⊢
  rw [d3, map_mul, hC, himg]
  -- the product of the scaled factors
  have h1 : ∀ {vs us : List (UPoly ℤ)}, List.Forall₂ (fun v u => ∃ V, Is v V ∧ Polynomial.C (toPoly u).leadingCoeff * V = Polynomial.C δ * toPoly u) vs us →
      Polynomial.C (us.map toPoly).prod.leadingCoeff * (vs.map toPoly).prod = Polynomial.C (δ ^ us.length) * (us.map toPoly).prod := fun {vs us} h => by
    induction h with
    | nil => simp
    | @cons v u vs us h _ ih =>
      obtain ⟨V, hV, e⟩ := h
      simp only [List.map_cons, List.prod_cons, List.length_cons, pow_succ, Polynomial.leadingCoeff_mul, Polynomial.C_mul]
      rw [mul_mul_mul_comm, ih, hV.eq, e]
      ring
  have h2 := h1 d4
  have hU0 : (us.map toPoly).prod ≠ 0 := List.prod_ne_zero fun h => by
    obtain ⟨u, hu, e⟩ := List.mem_map.1 h
    exact (hus u hu).2 e
  have hl0 : (Polynomial.C (us.map toPoly).prod.leadingCoeff : Polynomial ℤ) ≠ 0 := fun e => hU0 (Polynomial.leadingCoeff_eq_zero.1 (Polynomial.C_injective (by rw [e, Polynomial.C_0])))
  have hlc : δ = c * (us.map toPoly).prod.leadingCoeff := by
    have h3 := evalAt_coeff x (ptVal α) l3
    rw [← hδ] at h3
    have h4 : (evalAt x (ptVal α) (val f)).natDegree = (val f).degreeOf x := le_antisymm (evalAt_natDegree_le _ _ _) (Polynomial.le_natDegree_of_ne_zero (by rw [h3]; exact d0))
    rw [← h3, ← h4, ← Polynomial.leadingCoeff, himg, Polynomial.leadingCoeff_mul, Polynomial.leadingCoeff_C]
  have hpos : 0 < us.length := List.length_pos_iff.2 hne
  refine mul_left_cancel₀ hl0 ?_
  rw [h2]
  have e : δ ^ us.length = δ ^ (us.length - 1) * δ := by rw [← pow_succ, Nat.sub_add_cancel hpos]
  obtain ⟨A, hA⟩ : ∃ A, A = δ ^ (us.length - 1) := ⟨_, rfl⟩
  rw [e, ← hA, hlc]
  simp only [Polynomial.C_mul]
  ring

/-! ## C94 -/

/-- **specification**: the arguments of `__wang_leading_coeff(f, us, α, x, c)` come from a factorization `f = ∏ H`: `f(α) = c·∏ uᵢ`, each `uᵢ` is the image of `Hᵢ` up to a constant; the leading coefficient `L` of `f` does not vanish at `α` -/
structure LeadInput (vc : Var → Var → Bool) (x : Var) (α : List (Var × ℤ)) (f : PV Mono ℤ) (us : List (UPoly ℤ)) (c : ℤ) (H : List (MvPolynomial Var ℤ)) (L : MvPolynomial Var ℤ) : Prop where
  f_ok : PolyOK vc (lexGt vc) f ∧ (val f).vars ⊆ insert x (α.map Prod.fst).toFinset
  us_ok : us ≠ [] ∧ ∀ u ∈ us, Is u (toPoly u) ∧ toPoly u ≠ 0
  product : val f = H.prod
  images : List.Forall₂ (fun u h => ∃ d : ℤ, evalAt x (ptVal α) h = Polynomial.C d * toPoly u) us H
  image : evalAt x (ptVal α) (val f) = Polynomial.C c * (us.map toPoly).prod
  lead : IsCoeff x ((val f).degreeOf x) (val f) L
  nonzero : eval (ptVal α) L ≠ 0

/-- **specification**: `γ·∏ lⱼ^eⱼ` is the factorization of `±L` into irreducible polynomials, and each value `lⱼ(α)` has a prime divisor that divides neither `c·γ` nor another value -/
structure LeadFactors (vc : Var → Var → Bool) (α : List (Var × ℤ)) (c : ℤ) (L : MvPolynomial Var ℤ) (γ : ℤ) (l : List (PV Mono ℤ × ℕ)) : Prop where
  fac : FactorsOf vc (lexGt vc) L γ l
  irr : ∀ e ∈ l, Irreducible (val e.1)
  own : ∀ a e b, l = a ++ e :: b → ∃ q : ℤ, Prime q ∧ q ∣ eval (ptVal α) (val e.1) ∧ ¬ q ∣ c * γ ∧ ∀ z ∈ a ++ b, ¬ q ∣ eval (ptVal α) (val z.1)

/-- **specification**: the leading coefficient is constant, or the call of `factorize` returns its factorization -/
def LeadCall (vc : Var → Var → Bool) (α : List (Var × ℤ)) (c : ℤ) (L : MvPolynomial Var ℤ) (facL : PV Mono ℤ → Run (ℤ × List (PV Mono ℤ × ℕ))) (draws rest : List ℕ) : Prop :=
  ((∃ z, L = C z) ∧ rest = draws) ∨ ((¬ ∃ z, L = C z) ∧ ∃ γ l, LeadFactors vc α c L γ l ∧ ∀ P, PolyOK vc (lexGt vc) P → val P = L → facL P draws = some ((γ, l), rest))

theorem wangLc_call (ho : VarOrd vc) {f : PV Mono ℤ} (hf : PolyOK vc (lexGt vc) f) {x : Var} {α : List (Var × ℤ)} {c : ℤ} {L : MvPolynomial Var ℤ} (hL : IsCoeff x ((val f).degreeOf x) (val f) L) {facL : PV Mono ℤ → Run (ℤ × List (PV Mono ℤ × ℕ))}
    {draws rest : List ℕ} (h : LeadCall vc α c L facL draws rest) (us : List (UPoly ℤ)) (h0 : constVal (if isNumber (leadIn vc (lexGt vc) f x).1 = true then (leadIn vc (lexGt vc) f x).1 else assignAt vc α (leadIn vc (lexGt vc) f x).1) ≠ 0) :
    ∃ γ l, (isNumber (leadIn vc (lexGt vc) f x).1 = false → LeadFactors vc α c L γ l) ∧ ∀ chk fuel, wangLc chk vc fuel facL f us α x c draws = wangLc chk vc fuel (fun _ => Run.ret (γ, l)) f us α x c rest := by
  obtain ⟨_, l2, l3⟩ := leadIn_spec (lex_ord ho) hf x
  have e := l3.unique hL
  have hnum := isNumber_iff (lex_ord ho) l2
  rcases h with ⟨⟨z, hz⟩, rfl⟩ | ⟨hn, γ, l, h1, h2⟩
  · have hN : isNumber (leadIn vc (lexGt vc) f x).1 = true := hnum.2 ⟨z, by rw [e, hz]⟩
    refine ⟨0, [], fun h => absurd hN (by simp [h]), fun chk fuel => ?_⟩
    have key : wangLc chk vc fuel facL f us α x c = wangLc chk vc fuel (fun _ => Run.ret (0, [])) f us α x c := by
      unfold wangLc
      simp only [if_pos hN]
    rw [key]
  · have hN : ¬ isNumber (leadIn vc (lexGt vc) f x).1 = true := fun h => hn (by obtain ⟨z, hz⟩ := hnum.1 h; exact ⟨z, by rw [← e, hz]⟩)
    refine ⟨γ, l, fun _ => h1, fun chk fuel => ?_⟩
    have h3 := h2 _ l2 e
    rw [if_neg hN] at h0
    obtain ⟨K, hK⟩ : ∃ K, ∀ facL, wangLc chk vc fuel facL f us α x c = Run.bind (splitLc chk vc fuel facL (leadIn vc (lexGt vc) f x).1 us α c) K := by
      obtain ⟨δ, hδ⟩ : ∃ δ, δ = constVal (assignAt vc α (leadIn vc (lexGt vc) f x).1) := ⟨_, rfl⟩
      refine ⟨fun o => match o with
        | none => Run.ret none
        | some sg => Run.bind (mulN chk vc f (mkConst (δ ^ (us.length - 1)))) fun fs => Run.bind (Charset.runMap (scaleFactor δ) us) fun vs => Run.bind (targets chk vc α δ sg) fun o => Run.ret (o.map fun ts => (fs, vs, ts)), fun facL => ?_⟩
      unfold wangLc
      simp only [if_neg hN, ← hδ]
      rw [← hδ] at h0
      rw [if_neg h0]
      exact congrArg _ (funext fun o => by cases o <;> rfl)
    rw [hK, hK]
    have h4 : splitLc chk vc fuel facL (leadIn vc (lexGt vc) f x).1 us α c draws = splitLc chk vc fuel (fun _ => Run.ret (γ, l)) (leadIn vc (lexGt vc) f x).1 us α c rest := by
      unfold splitLc
      show (facL _ draws).bind _ = (Run.ret (γ, l) rest).bind _
      rw [h3]
      rfl
    show (splitLc chk vc fuel facL (leadIn vc (lexGt vc) f x).1 us α c draws).bind _ = (splitLc chk vc fuel (fun _ => Run.ret (γ, l)) (leadIn vc (lexGt vc) f x).1 us α c rest).bind _
    rw [h4]

/-- the run, with the scaled factors -/
theorem lead_found (ho : VarOrd vc) {x : Var} {α : List (Var × ℤ)} {f : PV Mono ℤ} {us : List (UPoly ℤ)} {c : ℤ} {H : List (MvPolynomial Var ℤ)} {L : MvPolynomial Var ℤ} (hI : LeadInput vc x α f us c H L) {B : ℕ}
    (hB : (B : ℤ) ≤ capLex (insert x (α.map Prod.fst).toFinset).card) (hdeg : ∀ w, (val f).degreeOf w < B) {facL : PV Mono ℤ → Run (ℤ × List (PV Mono ℤ × ℕ))} {draws rest : List ℕ} (hc : LeadCall vc α c L facL draws rest) :
    ∃ (N : ℕ) (fs : PV Mono ℤ) (vs : List (UPoly ℤ)) (ts : List (PV Mono ℤ)), (∀ fuel ≥ N, wangLc false vc fuel facL f us α x c draws = some (some (fs, vs, ts), rest)) ∧ OKIn vc (insert x (α.map Prod.fst).toFinset) fs ∧
      val fs = (H.map (scaledTo x (ptVal α) (eval (ptVal α) L))).prod ∧ List.Forall₂ (fun v h => Is v (evalAt x (ptVal α) (scaledTo x (ptVal α) (eval (ptVal α) L) h))) vs H ∧
      List.Forall₂ (fun T h => OKIn vc (α.map Prod.fst).toFinset T ∧ IsCoeff x ((scaledTo x (ptVal α) (eval (ptVal α) L) h).degreeOf x) (scaledTo x (ptVal α) (eval (ptVal α) L) h) (val T)) ts H := by
  obtain ⟨_, l2, l3⟩ := leadIn_spec (lex_ord ho) hI.f_ok.1 x
  have e := l3.unique hI.lead
  have hα : ∀ w ∈ (α.map Prod.fst).toFinset, (α.lookup w).isSome = true := fun w hw => lookup_keys.2 (List.mem_toFinset.1 hw)
  have hδ : constVal (if isNumber (leadIn vc (lexGt vc) f x).1 = true then (leadIn vc (lexGt vc) f x).1 else assignAt vc α (leadIn vc (lexGt vc) f x).1) = eval (ptVal α) L := by
    rw [← e]
    by_cases hn : isNumber (leadIn vc (lexGt vc) f x).1 = true
    · rw [if_pos hn, number_val ho l2 hn, eval_C]
    · rw [if_neg hn]
      exact assignAt_const ho l2 fun w hw => hα w (by
        have h1 := hI.f_ok.2 (l3.vars_subset hw)
        rcases Finset.mem_insert.1 h1 with e | e
        · exact absurd (e ▸ hw) l3.not_vars
        · exact e)
  obtain ⟨γ, l, h1, h2⟩ := wangLc_call ho hI.f_ok.1 hI.lead hc us (by rw [hδ]; exact hI.nonzero)
  have hw := wangLc_wp ho (K := (α.map Prod.fst).toFinset) hB ⟨hI.f_ok.1, hI.f_ok.2⟩ hdeg hI.product hI.us_ok.1 hI.us_ok.2 hα hI.images hI.image rfl (by rw [e]; exact hI.nonzero) (γ := γ) (l := l) fun hn => by
    have := h1 hn
    rw [e]
    exact ⟨facX_of this.fac, this.irr, this.own⟩
  obtain ⟨o, ⟨w, rfl, w1, w2, w3, w4⟩, N, hrun⟩ := hw
  rw [e] at w2 w3 w4
  refine ⟨N, w.1, w.2.1, w.2.2, fun fuel hf => ?_, w1, w2, w3, w4⟩
  rw [h2]
  exact wangLc_sub (fun _ => Sub.refl _) f us α x c _ _ (hrun fuel hf rest)

theorem scaledTo_spec {x : Var} {α : List (Var × ℤ)} {f : PV Mono ℤ} {us : List (UPoly ℤ)} {c : ℤ} {H : List (MvPolynomial Var ℤ)} {L : MvPolynomial Var ℤ} (hI : LeadInput vc x α f us c H L) {h : MvPolynomial Var ℤ} (hh : h ∈ H) :
    ∃ k : ℤ, k ≠ 0 ∧ |k| ≤ |eval (ptVal α) L| ∧ scaledTo x (ptVal α) (eval (ptVal α) L) h = C k * h ∧ k * eval (ptVal α) (toU x h).leadingCoeff = eval (ptVal α) L := by
  have hd : eval (ptVal α) (toU x h).leadingCoeff ∣ eval (ptVal α) L := by
    have h1 : L = (H.map fun h => (toU x h).leadingCoeff).prod := by rw [isLead_iff.1 hI.lead, hI.product, lead_prod]
    rw [h1, map_list_prod, List.map_map]
    exact List.dvd_prod (List.mem_map_of_mem (f := (eval (ptVal α)) ∘ fun h => (toU x h).leadingCoeff) hh)
  have h2 := Int.ediv_mul_cancel hd
  obtain ⟨k, hk⟩ : ∃ k, k = eval (ptVal α) L / eval (ptVal α) (toU x h).leadingCoeff := ⟨_, rfl⟩
  rw [← hk] at h2
  refine ⟨k, fun e => hI.nonzero (by rw [← h2, e, zero_mul]), Int.le_of_dvd (abs_pos.2 hI.nonzero) ?_, by rw [scaledTo, hk], h2⟩
  rw [abs_dvd_abs, ← h2]
  exact dvd_mul_right _ _

/-- `__wang_leading_coeff` on images of factors: it ends with success, and the results are `δ^(r-1)·f` and the images and leading coefficients of constant multiples `Gᵢ` of the factors with `∏ Gᵢ = δ^(r-1)·f` -/
theorem C94_factors_found (ho : VarOrd vc) {x : Var} {α : List (Var × ℤ)} {f : PV Mono ℤ} {us : List (UPoly ℤ)} {c : ℤ} {H : List (MvPolynomial Var ℤ)} {L : MvPolynomial Var ℤ} (hI : LeadInput vc x α f us c H L)
    (hdeg : ∀ w, ((val f).degreeOf w : ℤ) < capLex (insert x (α.map Prod.fst).toFinset).card) {facL : PV Mono ℤ → Run (ℤ × List (PV Mono ℤ × ℕ))} {draws rest : List ℕ} (hc : LeadCall vc α c L facL draws rest) :
    ∃ (N : ℕ) (fs : PV Mono ℤ) (vs : List (UPoly ℤ)) (ts : List (PV Mono ℤ)) (G : List (MvPolynomial Var ℤ)), (∀ fuel ≥ N, wangLc false vc fuel facL f us α x c draws = some (some (fs, vs, ts), rest)) ∧
      List.Forall₂ (fun g h => ∃ k : ℤ, k ≠ 0 ∧ g = C k * h) G H ∧ PolyOK vc (lexGt vc) fs ∧ val fs = G.prod ∧ List.Forall₂ (fun v g => Is v (evalAt x (ptVal α) g)) vs G ∧
      List.Forall₂ (fun t g => PolyOK vc (lexGt vc) t ∧ IsCoeff x (g.degreeOf x) g (val t)) ts G := by
  obtain ⟨B, hB⟩ : ∃ B : ℕ, (B : ℤ) = capLex (insert x (α.map Prod.fst).toFinset).card := ⟨_, Int.toNat_of_nonneg (capLex_pos _).le⟩
  obtain ⟨N, fs, vs, ts, h1, h2, h3, h4, h5⟩ := lead_found ho hI hB.le (fun w => by have := hdeg w; rw [← hB] at this; exact_mod_cast this) hc
  refine ⟨N, fs, vs, ts, H.map (scaledTo x (ptVal α) (eval (ptVal α) L)), h1, ?_, h2.1, h3, ?_, ?_⟩
  · rw [List.forall₂_map_left_iff, List.forall₂_same]
    intro h hh
    obtain ⟨k, k1, _, k2, _⟩ := scaledTo_spec hI hh
    exact ⟨k, k1, k2⟩
  · rw [List.forall₂_map_right_iff]; exact h4
  · rw [List.forall₂_map_right_iff]; exact h5.imp fun _ _ h => ⟨h.1.1, h.2⟩

/-! ## C95 -/

/-- leading coefficients and lifting in two variables: the factors of `f` are found up to constants -/
theorem C95_two_variable_factors (ho : VarOrd vc) {x y : Var} {b : ℤ} {f : PV Mono ℤ} {us : List (UPoly ℤ)} {c : ℤ} {H : List (MvPolynomial Var ℤ)} {L : MvPolynomial Var ℤ} (hI : LeadInput vc x [(y, b)] f us c H L) (hv : vc x y = true)
    (hdeg : ∀ w, H.length * (val f).degreeOf w < 2 ^ 32) (h2 : 2 ≤ H.length) (hpos : ∀ h ∈ H, 0 < h.degreeOf x) {facL : PV Mono ℤ → Run (ℤ × List (PV Mono ℤ × ℕ))} {draws rest : List ℕ} (hc : LeadCall vc [(y, b)] c L facL draws rest)
    {p : ℕ} (hp : p.Prime) (hpL : ((eval (ptVal [(y, b)]) L : ℤ) : ZMod p) ≠ 0) (hcop : (us.map fun u => (toPoly u).map (Int.castRingHom (ZMod p))).Pairwise IsCoprime)
    (hsmall : ∀ h ∈ H, ∀ s, 2 * |eval (ptVal [(y, b)]) L * coeff s h| < p) (M : ℕ) :
    ∃ (N : ℕ) (r : List (PV Mono ℤ)), (∀ fuel ≥ N, codeLift false vc fuel M facL f us [(y, b)] x c p draws = some (r, rest)) ∧ List.Forall₂ (fun g h => PolyOK vc (lexGt vc) g ∧ ∃ k : ℤ, k ≠ 0 ∧ val g = C k * h) r H := by
  haveI := Fact.mk hp
  have hxy : x ≠ y := fun e => by subst e; simp [ho.irrefl] at hv
  have hins : insert x (([(y, b)] : List (Var × ℤ)).map Prod.fst).toFinset = {x, y} := by simp
  have hcard : (insert x (([(y, b)] : List (Var × ℤ)).map Prod.fst).toFinset).card ≤ 2 := by rw [hins]; exact Finset.card_le_two
  obtain ⟨N, fs, vs, ts, h1, w1, w2, w3, w4⟩ := lead_found ho hI (cap_two hcard) (fun w => lt_of_le_of_lt (Nat.le_mul_of_pos_left _ (by omega)) (hdeg w)) hc
  obtain ⟨δ, hδ⟩ : ∃ δ, δ = eval (ptVal [(y, b)]) L := ⟨_, rfl⟩
  have hsc := fun {h} (hh : h ∈ H) => scaledTo_spec hI hh
  rw [← hδ] at w2 w3 w4 hsc hpL hsmall
  obtain ⟨G, hG⟩ : ∃ G, G = scaledTo x (ptVal [(y, b)]) δ := ⟨_, rfl⟩
  rw [← hG] at w2 w3 w4 hsc
  have hδ0 : δ ≠ 0 := hδ ▸ hI.nonzero
  have hf0 : val f ≠ 0 := fun e => hI.nonzero (by
    have := isLead_iff.1 hI.lead
    rw [this, e, map_zero, Polynomial.leadingCoeff_zero, map_zero])
  have hH0 : ∀ h ∈ H, h ≠ 0 := fun h hh e => hf0 (by rw [hI.product]; exact List.prod_eq_zero (e ▸ hh))
  have hCk : ∀ k : ℤ, k ≠ 0 → (C k : MvPolynomial Var ℤ) ≠ 0 := fun k hk e => hk (C_injective _ _ (by rw [e, C_0]))
  have hGdeg : ∀ h ∈ H, ∀ w, (G h).degreeOf w = h.degreeOf w := fun h hh w => by
    obtain ⟨k, k0, _, k1, _⟩ := hsc hh
    rw [k1, degreeOf_mul_dom (hCk k k0) (hH0 h hh), degreeOf_C, zero_add]
  have hGlead : ∀ h ∈ H, ((evalAt x (ptVal [(y, b)]) (G h)).map (Int.castRingHom (ZMod p))).natDegree = h.degreeOf x := fun h hh => by
    obtain ⟨k, k0, _, k1, k2⟩ := hsc hh
    have h3 := evalAt_coeff x (ptVal [(y, b)]) (isLead_iff.2 rfl : IsCoeff x ((G h).degreeOf x) (G h) (toU x (G h)).leadingCoeff)
    have h4 : eval (ptVal [(y, b)]) (toU x (G h)).leadingCoeff = δ := by rw [k1, lead_C_mul, map_mul, eval_C, k2]
    rw [h4, hGdeg h hh] at h3
    refine le_antisymm ((Polynomial.natDegree_map_le).trans ((evalAt_natDegree_le _ _ _).trans (hGdeg h hh x).le)) (Polynomial.le_natDegree_of_ne_zero ?_)
    rw [Polynomial.coeff_map, h3]
    exact hpL
  have hfdeg : ∀ w, (val fs).degreeOf w = (val f).degreeOf w := fun w => by
    have h3 : ∀ l : List (MvPolynomial Var ℤ), (∀ h ∈ l, h ∈ H) → (l.map G).prod.degreeOf w = l.prod.degreeOf w ∧ (l.map G).prod ≠ 0 ∧ l.prod ≠ 0 := fun l => by
      induction l with
      | nil => intro _; simp
      | cons h l ih =>
        intro hl
        obtain ⟨i1, i2, i3⟩ := ih fun g hg => hl g (by simp [hg])
        have hh := hl h (by simp)
        have g0 : G h ≠ 0 := by
          obtain ⟨k, k0, _, k1, _⟩ := hsc hh
          rw [k1]; exact mul_ne_zero (hCk k k0) (hH0 h hh)
        rw [List.map_cons, List.prod_cons, List.prod_cons]
        exact ⟨by rw [degreeOf_mul_dom g0 i2, degreeOf_mul_dom (hH0 h hh) i3, i1, hGdeg h hh], mul_ne_zero g0 i2, mul_ne_zero (hH0 h hh) i3⟩
    rw [w2, (h3 H fun _ h => h).1, hI.product]
  have T : LiftTarget vc p x [(y, b)] fs vs ts (H.map G) := by
    refine ⟨⟨by simp, by simpa using hxy⟩, ⟨w1.1, w1.2⟩, by rw [List.length_map]; exact h2, w2, ?_, ?_, ?_, ?_, ?_, ?_, ?_⟩
    · intro g hg
      have h0 : val fs ≠ 0 := by
        intro e
        have h3 : ∀ l : List (MvPolynomial Var ℤ), (∀ h ∈ l, h ∈ H) → (l.map G).prod ≠ 0 := fun l hl => List.prod_ne_zero fun h => by
          obtain ⟨g, hg, e⟩ := List.mem_map.1 h
          obtain ⟨k, k0, _, k1, _⟩ := hsc (hl g hg)
          rw [k1] at e
          exact mul_ne_zero (hCk k k0) (hH0 g (hl g hg)) e
        exact h3 H (fun _ h => h) (w2 ▸ e)
      refine (vars_of_dvd ?_ h0).trans w1.2
      rw [w2]
      exact List.dvd_prod hg
    · rw [List.forall₂_map_right_iff]; exact w3
    · rw [List.forall₂_map_right_iff]; exact w4.imp fun _ _ h => ⟨h.1.1, h.2⟩
    · intro g hg
      obtain ⟨h, hh, rfl⟩ := List.mem_map.1 hg
      rw [hGdeg h hh]; exact hpos h hh
    · intro g hg
      obtain ⟨h, hh, rfl⟩ := List.mem_map.1 hg
      rw [hGdeg h hh]; exact hGlead h hh
    · -- coprime images
      have h3 : ∀ {us : List (UPoly ℤ)} {l : List (MvPolynomial Var ℤ)}, List.Forall₂ (fun u h => ∃ d : ℤ, evalAt x (ptVal [(y, b)]) h = Polynomial.C d * toPoly u) us l → (∀ h ∈ l, h ∈ H) → (us.map fun u => (toPoly u).map (Int.castRingHom (ZMod p))).Pairwise IsCoprime →
          ((l.map G).map fun h => (evalAt x (ptVal [(y, b)]) h).map (Int.castRingHom (ZMod p))).Pairwise IsCoprime := fun {us l} h => by
        have key : ∀ u h, h ∈ H → (∃ d : ℤ, evalAt x (ptVal [(y, b)]) h = Polynomial.C d * toPoly u) → ∃ z : Polynomial (ZMod p), IsUnit z ∧ (evalAt x (ptVal [(y, b)]) (G h)).map (Int.castRingHom (ZMod p)) = z * (toPoly u).map (Int.castRingHom (ZMod p)) := fun u h hh hd => by
          obtain ⟨d, hd⟩ := hd
          obtain ⟨k, k0, _, k1, _⟩ := hsc hh
          have hC : evalAt x (ptVal [(y, b)]) (C k) = Polynomial.C k := by unfold evalAt; exact eval₂Hom_C ..
          have e1 : (evalAt x (ptVal [(y, b)]) (G h)).map (Int.castRingHom (ZMod p)) = Polynomial.C (((k * d : ℤ)) : ZMod p) * (toPoly u).map (Int.castRingHom (ZMod p)) := by
            rw [k1, map_mul, hC, hd, ← mul_assoc, ← Polynomial.C_mul, Polynomial.map_mul, Polynomial.map_C]; rfl
          refine ⟨_, ?_, e1⟩
          rw [Polynomial.isUnit_C, isUnit_iff_ne_zero]
          intro e
          rw [e, Polynomial.C_0, zero_mul] at e1
          have h4 := hGlead h hh
          rw [e1, Polynomial.natDegree_zero] at h4
          have := hpos h hh
          omega
        have hP := h
        clear h
        induction hP with
        | nil => intro _ _; exact List.Pairwise.nil
        | @cons u h us l hu hs ih =>
          intro hl hp
          rw [List.map_cons, List.pairwise_cons] at hp
          rw [List.map_cons, List.map_cons, List.pairwise_cons]
          refine ⟨fun z hz => ?_, ih (fun g hg => hl g (by simp [hg])) hp.2⟩
          rw [List.map_map] at hz
          obtain ⟨g, hg, rfl⟩ := List.mem_map.1 hz
          obtain ⟨u', hu', hd'⟩ := forall₂_mem_right hs hg
          obtain ⟨z1, z1u, e1⟩ := key u h (hl h (by simp)) hu
          obtain ⟨z2, z2u, e2⟩ := key u' g (hl g (by simp [hg])) hd'
          have h5 := hp.1 _ (List.mem_map_of_mem (f := fun u => (toPoly u).map (Int.castRingHom (ZMod p))) hu')
          rw [Function.comp_apply, e1, e2]
          exact (isCoprime_mul_unit_left_left z1u _ _).2 ((isCoprime_mul_unit_left_right z2u _ _).2 h5)
      exact h3 hI.images (fun _ h => h) hcop
    · intro g hg s
      obtain ⟨h, hh, rfl⟩ := List.mem_map.1 hg
      obtain ⟨k, k0, k3, k1, _⟩ := hsc hh
      have h4 := hsmall h hh s
      rw [k1, coeff_C_mul, abs_mul]
      rw [abs_mul] at h4
      have := mul_le_mul_of_nonneg_right k3 (abs_nonneg (coeff s h))
      linarith
  obtain ⟨N', r, h3, h4⟩ := C90_two_variables ho T hv fun w => by rw [List.length_map, hfdeg]; exact hdeg w
  refine ⟨max N N', r, fun fuel hf => ?_, ?_⟩
  · unfold codeLift
    cases primeDec p with
    | isFalse h => exact absurd hp h
    | isTrue hp' =>
      dsimp only
      rw [if_neg (by simp)]
      show (wangLc false vc fuel facL f us [(y, b)] x c draws).bind _ = _
      rw [h1 fuel (le_trans (le_max_left _ _) hf)]
      dsimp only [Option.bind]
      rw [if_neg (by simp)]
      show (mtshlLift false false vc fuel p fs vs ts [(y, b)] x rest).bind _ = _
      rw [h3 fuel (le_trans (le_max_right _ _) hf) rest]
      rfl
  · rw [List.forall₂_map_right_iff] at h4
    refine List.forall₂_iff_zip.2 ⟨h4.length_eq, fun {g h} hz => ?_⟩
    obtain ⟨a1, a2⟩ := (List.forall₂_iff_zip.1 h4).2 hz
    obtain ⟨k, k0, _, k1, _⟩ := hsc (List.of_mem_zip hz).2
    exact ⟨a1, k, k0, by rw [a2, k1]⟩

end

/-! ## Examples: `(x²y + y + 1)(2x + y²)` with the image at `y = 3` -/

/-- the leading coefficient is `2y` -/
theorem lead_y : val ([(exXY 0 1, 2)] : PV Mono ℤ) = C 2 * X 2 := by
  have := val_exXY (R := ℤ) 0 1 2
  simpa [val] using this

theorem lead_deg (w : Var) : (val liftF).degreeOf w ≤ 4 := by
  have hF : PolyOK varLess (lexGt varLess) liftF := by decide +kernel
  refine (degreeOf_le_iff).2 fun s hs => ?_
  obtain ⟨t, ht, rfl⟩ := (hF.mem_support (lex_ord varLess_ord)).1 hs
  have h2 : ∀ t ∈ liftF, ∀ y ∈ t.1.data, y.2 ≤ 4 := by decide +kernel
  rw [← Int.ofNat_le]
  have h3 := (hF.monos t ht).expo_eq w
  rw [h3]
  by_cases hw : ∃ y ∈ t.1.data, y.1 = w
  · obtain ⟨y, hy, rfl⟩ := hw
    rw [E_mem varLess_ord (hF.monos t ht).sorted hy]
    exact h2 t ht y hy
  · push Not at hw
    rw [E_not_mem fun y hy => hw y hy]; decide

theorem lead_us : ∀ u ∈ ([[(2, 3), (0, 4)], [(1, 2), (0, 9)]] : List (UPoly ℤ)), Is u (toPoly u) ∧ toPoly u ≠ 0 := by
  intro u hu
  have hc : Is u (toPoly u) := is_of_canon (by simp only [List.mem_cons, List.not_mem_nil, or_false] at hu; rcases hu with rfl | rfl <;> decide +kernel)
  refine ⟨hc, fun e => ?_⟩
  have : u = [] := by rw [e] at hc; exact is_nil_iff hc |>.2 rfl
  subst this
  simp at hu

set_option maxRecDepth 100000 in
theorem lead_input : LeadInput varLess 1 [(2, 3)] liftF [[(2, 3), (0, 4)], [(1, 2), (0, 9)]] 1 ([liftA, liftB].map val) (C 2 * X 2) where
  f_ok := lift_target.f_ok
  us_ok := ⟨by simp, lead_us⟩
  product := lift_target.product
  images := lift_target.images.imp fun u h e => ⟨1, by rw [map_one, one_mul, e.eq]⟩
  image := by
    have h := lift_target.images
    rw [lift_target.product, map_one, one_mul]
    simp only [List.map_cons, List.map_nil, List.forall₂_cons] at h
    simp only [List.map_cons, List.map_nil, List.prod_cons, List.prod_nil, map_mul, map_one, h.1.eq, h.2.1.eq]
  lead := by
    have h := (leadIn_spec (lex_ord varLess_ord) lift_target.f_ok.1 1).2.2
    have e : (leadIn varLess (lexGt varLess) liftF 1).1 = [(exXY 0 1, 2)] := by decide +kernel
    rwa [e, lead_y] at h
  nonzero := by simp [ptVal]

theorem lead_factors : LeadFactors varLess [(2, 3)] 1 (C 2 * X 2) 2 [([(exXY 0 1, 1)], 1)] where
  fac := by
    have e : val ([(exXY 0 1, 1)] : PV Mono ℤ) = X 2 := by
      have := val_exXY (R := ℤ) 0 1 1
      simpa [val] using this
    refine ⟨?_, ?_, ?_, ?_, Or.inl ?_⟩
    · decide +kernel
    · simp only [List.mem_singleton, forall_eq, e]
      intro z h
      have := congrArg (coeff (Finsupp.single 2 1)) h
      rw [coeff_X, coeff_C, if_neg (c := 0 = _) (by intro h; simpa using congrArg (fun q => q 2) h)] at this
      simp at this
    · simp
    · simp only [List.mem_singleton, forall_eq, e]
      intro z h
      obtain ⟨q, hq⟩ := h
      have := congrArg (coeff (Finsupp.single 2 1)) hq
      rw [coeff_C_mul, coeff_X] at this
      rw [if_pos rfl] at this
      exact IsUnit.of_mul_eq_one _ this.symm
    · simp [e]
  irr := by
    have e : val ([(exXY 0 1, 1)] : PV Mono ℤ) = X 2 := by
      have := val_exXY (R := ℤ) 0 1 1
      simpa [val] using this
    simp only [List.mem_singleton, forall_eq, e]
    exact X_prime.irreducible
  own := by
    have e : val ([(exXY 0 1, 1)] : PV Mono ℤ) = X 2 := by
      have := val_exXY (R := ℤ) 0 1 1
      simpa [val] using this
    intro a z b h
    have hl := congrArg List.length h
    simp only [List.length_cons, List.length_nil, List.length_append] at hl
    have ha : a = [] := List.length_eq_zero_iff.1 (by omega)
    have hb : b = [] := List.length_eq_zero_iff.1 (by omega)
    subst ha hb
    obtain rfl : z = ([(exXY 0 1, 1)], 1) := by simpa using h.symm
    exact ⟨3, by norm_num, by simp [e, ptVal], by norm_num, by simp⟩

theorem lead_call : LeadCall varLess [(2, 3)] 1 (C 2 * X 2) (fun _ => Run.ret (2, [([(exXY 0 1, 1)], 1)])) [7] [7] := by
  refine Or.inr ⟨fun ⟨z, h⟩ => ?_, 2, _, lead_factors, fun _ _ _ => rfl⟩
  have := congrArg (coeff (Finsupp.single 2 1)) h
  rw [coeff_C_mul, coeff_X, coeff_C, if_neg (c := 0 = _) (by intro h; simpa using congrArg (fun q => q 2) h)] at this
  simp at this

set_option maxRecDepth 100000 in
set_option synthInstance.maxSize 1000 in
/-- C93 applies to a run of the function: `6·f`, `6x² + 8`, `6x + 27`, and the leading coefficients `2y` and `6` -/
example : ∃ L, LeadResult varLess 1 [(2, 3)] liftF [[(2, 3), (0, 4)], [(1, 2), (0, 9)]] 1 [(exXY 3 1, 12), (exXY 2 3, 6), (exXY 1 1, 12), (exXY 1 0, 12), (exXY 0 3, 6), (exXY 0 2, 6)] [[(2, 6), (0, 8)], [(1, 6), (0, 27)]] [[(exXY 0 1, 2)], [(exXY 0 0, 6)]] L := by
  refine C93_leading_coefficients varLess_ord (by decide) lift_target.f_ok.1 lift_target.f_ok.2 (fun w => lt_of_le_of_lt (Int.ofNat_le.2 (lead_deg w)) (by decide +kernel)) (by simp) lead_us (facL := fun _ => Run.ret (2, [([(exXY 0 1, 1)], 1)])) (fun L _ hL s r hr => ?_) (fuel := 50) (draws := [7])
    (rest := [7]) ?_
  · cases hr
    rw [hL.unique lead_input.lead]
    exact lead_factors.fac
  · have h : wangLc true varLess 50 (fun _ => Run.ret (2, [([(exXY 0 1, 1)], 1)])) liftF [[(2, 3), (0, 4)], [(1, 2), (0, 9)]] [(2, 3)] 1 1 [7] =
      some (some (([(exXY 3 1, 12), (exXY 2 3, 6), (exXY 1 1, 12), (exXY 1 0, 12), (exXY 0 3, 6), (exXY 0 2, 6)], [[(2, 6), (0, 8)], [(1, 6), (0, 27)]], [[(exXY 0 1, 2)], [(exXY 0 0, 6)]]) : List (Mono × ℤ) × List (List (ℕ × ℤ)) × List (List (Mono × ℤ))), ([7] : List ℕ)) := of_decide_eq_true (by decide +kernel)
    exact wangLc_sub (fun _ => Sub.refl _) _ _ _ _ _ _ _ h

/-- C94 applies -/
example : ∃ (N : ℕ) (fs : PV Mono ℤ) (vs : List (UPoly ℤ)) (ts : List (PV Mono ℤ)) (G : List (MvPolynomial Var ℤ)), (∀ fuel ≥ N, wangLc false varLess fuel (fun _ => Run.ret (2, [([(exXY 0 1, 1)], 1)])) liftF [[(2, 3), (0, 4)], [(1, 2), (0, 9)]] [(2, 3)] 1 1 [7] = some (some (fs, vs, ts), [7])) ∧
      List.Forall₂ (fun g h => ∃ k : ℤ, k ≠ 0 ∧ g = C k * h) G ([liftA, liftB].map val) ∧ PolyOK varLess (lexGt varLess) fs ∧ val fs = G.prod ∧ List.Forall₂ (fun v g => Is v (evalAt 1 (ptVal [(2, 3)]) g)) vs G ∧
      List.Forall₂ (fun t g => PolyOK varLess (lexGt varLess) t ∧ IsCoeff 1 (g.degreeOf 1) g (val t)) ts G :=
  C94_factors_found varLess_ord lead_input (fun w => lt_of_le_of_lt (Int.ofNat_le.2 (lead_deg w)) (by decide +kernel)) lead_call

set_option maxRecDepth 100000 in
/-- C95 applies: the two factors are found up to constants -/
example : ∃ (N : ℕ) (r : List (PV Mono ℤ)), (∀ fuel ≥ N, codeLift false varLess fuel 10 (fun _ => Run.ret (2, [([(exXY 0 1, 1)], 1)])) liftF [[(2, 3), (0, 4)], [(1, 2), (0, 9)]] [(2, 3)] 1 1 Upoly.firstPrime [7] = some (r, [7])) ∧
    List.Forall₂ (fun g h => PolyOK varLess (lexGt varLess) g ∧ ∃ k : ℤ, k ≠ 0 ∧ val g = C k * h) r ([liftA, liftB].map val) := by
  have hev : eval (ptVal [(2, 3)]) (C 2 * X 2 : MvPolynomial Var ℤ) = 6 := by simp [ptVal]
  refine C95_two_variable_factors varLess_ord lead_input (by decide) (fun w => ?_) (by simp) lift_target.positive lead_call Upoly.firstPrime_prime ?_ ?_ (fun h hh s => ?_) 10
  · have := lead_deg w
    simp only [List.length_map, List.length_cons, List.length_nil]
    omega
  · rw [hev]; decide +kernel
  · have h := lift_target.coprime
    have e := lift_target.images
    simp only [List.map_cons, List.map_nil, List.forall₂_cons] at e
    simp only [List.map_cons, List.map_nil, e.1.eq, e.2.1.eq] at h ⊢
    exact h
  · rw [hev]
    have hok : ∀ g ∈ [liftA, liftB], PolyOK varLess (lexGt varLess) g := by decide +kernel
    have hsm : ∀ g ∈ [liftA, liftB], ∀ t ∈ g, |t.2| ≤ 2 := by decide +kernel
    have h2 : |coeff s h| ≤ 2 := by
      obtain ⟨g, hg, rfl⟩ := List.mem_map.1 hh
      by_cases h0 : coeff s (val g) = 0
      · rw [h0]; decide
      · obtain ⟨t, ht, rfl⟩ := ((hok g hg).mem_support (lex_ord varLess_ord)).1 (mem_support_iff.2 h0)
        rw [(hok g hg).coeff_mem (lex_ord varLess_ord) ht]
        exact hsm g hg t ht
    have h3 : (100 : ℤ) < (Upoly.firstPrime : ℕ) := by decide +kernel
    rw [abs_mul, show |(6 : ℤ)| = 6 from rfl]
    omega

set_option maxRecDepth 100000 in
/-- the run: `2(x²y + y + 1)` and `3(2x + y²)` -/
example : codeLift true varLess 50 10 (fun _ => Run.ret (2, [([(exXY 0 1, 1)], 1)])) liftF [[(2, 3), (0, 4)], [(1, 2), (0, 9)]] [(2, 3)] 1 1 Upoly.firstPrime [7] =
    some (([[(exXY 2 1, 2), (exXY 0 1, 2), (exXY 0 0, 2)], [(exXY 1 0, 6), (exXY 0 2, 3)]] : List (PV Mono ℤ)), [7]) := of_decide_eq_true (by decide +kernel)

end CLPoly
