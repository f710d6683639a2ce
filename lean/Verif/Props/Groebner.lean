import Verif.Groebner.ZZSpec
import Verif.Props.Polynomials

/-!
# Properties C28–C32, C48: conversions, normal forms, Gröbner bases, the class `Ideal`

Vocabulary: `val p` is the polynomial a term vector stands for, `PolyOK vc mc p` says it is canonical, `expo m` is the exponent vector of a
monomial, `GB.lm p` / `GB.lc p` the first monomial / coefficient of a non-empty vector, `GB.idealOf F` the ideal generated by the list.
Loops take fuel: "for all `n ≥ N`" says that the loop stops, and with which result.  `(· / ·)` is the division of a field (QQ, Zp);
`Int.tdiv` the truncating division of ZZ.  `sort` stands for `std::sort` on the pairs: any permutation is allowed.
-/

namespace CLPoly
open Mono MvPolynomial GB

variable {vc vc' : Var → Var → Bool} {mc mc' : Mono → Mono → Bool}

/-! ## C28 conversions -/

/-- between two monomial orders, same coefficients: canonical for the target order, the same polynomial -/
theorem C28_order {R : Type*} [CommRing R] [DecidableEq R] (M : MonoOrd vc mc) (M' : MonoOrd vc' mc') (p : PV Mono R) (hp : PolyOK vc mc p) :
    PolyOK vc' mc' (polyConvert vc' mc' id p) ∧ val (polyConvert vc' mc' id p) = val p :=
  ⟨(polyConvert_spec M M' hp id rfl).1, by ext s; exact (polyConvert_spec M M' hp id rfl).2 s⟩

/-- there and back is the identity -/
theorem C28_roundtrip {R : Type*} [CommRing R] [DecidableEq R] (M : MonoOrd vc mc) (M' : MonoOrd vc' mc') (p : PV Mono R) (hp : PolyOK vc mc p) :
    polyConvert vc mc id (polyConvert vc' mc' id p) = p := by
  obtain ⟨h1, h2⟩ := C28_order M M' p hp
  obtain ⟨h3, h4⟩ := C28_order M' M _ h1
  exact PolyOK.ext M h3 hp (h4.trans h2)

/-- ZZ→QQ: the same polynomial with rational coefficients -/
theorem C28_ZZ_to_QQ (M : MonoOrd vc mc) (M' : MonoOrd vc' mc') (p : PV Mono ℤ) (hp : PolyOK vc mc p) :
    PolyOK vc' mc' (convZQ vc' mc' p) ∧ val (convZQ vc' mc' p) = MvPolynomial.map (Int.castRingHom ℚ) (val p) := convZQ_spec M M' hp

/-- QQ→ZZ: the polynomial times the least positive integer that clears all denominators -/
theorem C28_QQ_to_ZZ (M : MonoOrd vc mc) (M' : MonoOrd vc' mc') (p : PV Mono ℚ) (hp : PolyOK vc mc p) :
    ∃ D : ℤ, 0 < D ∧ (∀ t ∈ p, (t.2.den : ℤ) ∣ D) ∧ (∀ m : ℤ, (∀ t ∈ p, (t.2.den : ℤ) ∣ m) → D ∣ m) ∧ PolyOK vc' mc' (convQZ vc' mc' p) ∧
      MvPolynomial.map (Int.castRingHom ℚ) (val (convQZ vc' mc' p)) = C (D : ℚ) * val p :=
  ⟨denLcm p, denLcm_pos p, fun _ ht => den_dvd_denLcm ht, fun _ h => denLcm_dvd h, (convQZ_spec M M' hp).1, convQZ_map M M' hp⟩

/-- Zp→ZZ: every coefficient becomes its least non-negative representative -/
theorem C28_Zp_to_ZZ {n : ℕ} [NeZero n] (M : MonoOrd vc mc) (M' : MonoOrd vc' mc') (p : PV Mono (ZMod n)) (hp : PolyOK vc mc p) :
    PolyOK vc' mc' (polyConvert vc' mc' (fun c : ZMod n => (c.val : ℤ)) p) ∧
    ∀ s, coeff s (val (polyConvert vc' mc' (fun c : ZMod n => (c.val : ℤ)) p)) = ((coeff s (val p)).val : ℤ) :=
  polyConvert_spec M M' hp _ (by simp)

/-- numbers, variables and monomials as polynomials; `tonum` -/
theorem C28_of {R : Type*} [CommRing R] [DecidableEq R] (M : MonoOrd vc mc) (c : R) (v : Var) (m : Mono) (hm : Valid vc m) :
    (PolyOK vc mc (ofNum vc mc c) ∧ val (ofNum vc mc c) = C c) ∧
    (PolyOK vc mc (ofVar vc mc v : PV Mono R) ∧ val (ofVar vc mc v : PV Mono R) = X v) ∧
    (PolyOK vc mc (ofMono vc mc m : PV Mono R) ∧ val (ofMono vc mc m : PV Mono R) = monomial (expo m) 1) :=
  ⟨ofNum_spec M c, ofVar_spec M v, ofMono_spec M hm⟩

theorem C28_tonum {R : Type*} [CommRing R] (M : MonoOrd vc mc) (p : PV Mono R) (hp : PolyOK vc mc p) :
    (isNumber p = true ↔ ∃ c, val p = C c) ∧ ∀ c, tonum p = some c ↔ val p = C c :=
  ⟨isNumber_iff M hp, tonum_spec M hp⟩

example : convQZ varLess (lexGt varLess) [(exXY 1 1, (1 / 2 : ℚ)), (exXY 1 0, 2 / 3), (exXY 0 0, -1)] =
    [(exXY 1 1, 3), (exXY 1 0, 4), (exXY 0 0, -6)] := by decide +kernel

/-! ## C29 normal forms -/

section
variable {K : Type*} [Field K] [DecidableEq K]

theorem setup (M : MonoOrd vc mc) (Fs : List (PV Mono K)) : ∃ (L : Type) (_ : LinearOrder L) (r : (Var →₀ ℕ) → L) (V : Finset Var), Setup vc mc r ∧
    ∀ f ∈ Fs, PolyOK vc mc f → OKin vc mc V f := by
  obtain ⟨L, iL, r, hr, hrm⟩ := exists_erank M
  refine ⟨L, iL, r, (Fs.map polyVars).foldr (· ∪ ·) ∅, ⟨M, hr, hrm⟩, fun f hf ok => ⟨ok, ok.keysIn ?_⟩⟩
  induction Fs with
  | nil => cases hf
  | cons g Fs ih =>
    rw [List.map_cons, List.foldr_cons]
    rcases List.mem_cons.1 hf with rfl | hf
    · exact Finset.subset_union_left
    · exact (ih hf).trans Finset.subset_union_right

/-- Over a field, with non-zero divisors, `normal_form` stops; the result is canonical, congruent to `f` modulo the ideal, has no term
divisible by a leading monomial, and no monomial above the leading monomial of `f`. -/
theorem C29_normal_form (M : MonoOrd vc mc) (f : PV Mono K) (G : List (PV Mono K)) (hf : PolyOK vc mc f) (hG : ∀ g ∈ G, PolyOK vc mc g ∧ g ≠ []) :
    ∃ out, (∃ N, ∀ n ≥ N, normalForm vc mc (· / ·) n f G = some (.ok out)) ∧ PolyOK vc mc out ∧ val f - val out ∈ idealOf G ∧
      (∀ t ∈ out, ∀ g ∈ G, ¬ expo (lm g) ≤ expo t.1) ∧ ∀ t ∈ out, f ≠ [] ∧ mc t.1 (lm f) = false := by
  obtain ⟨L, iL, r, V, S, hV⟩ := setup M (f :: G)
  have okG : ∀ g ∈ G, OKin vc mc V g ∧ g ≠ [] := fun g hg => ⟨hV g (by simp [hg]) (hG g hg).1, (hG g hg).2⟩
  have okf := hV f (by simp) hf
  obtain ⟨out, H⟩ := nf_exists M S.hr S.hrm okG f okf
  refine ⟨out, H.normalForm, H.ok.ok, H.ideal S okf, ?_, ?_⟩
  · intro t ht g hg
    rw [← divExact_none M.vo (H.ok.ok.monos t ht) ((okG g hg).1.lm_valid (okG g hg).2).1]
    exact H.reduced t ht g hg
  · intro t ht
    have vt := H.ok.ok.monos t ht
    have f0 : f ≠ [] := by
      rintro rfl
      have := nf_lead S H (r (expo t.1)) okf (by simp) t ht
      exact lt_irrefl _ this
    refine ⟨f0, ?_⟩
    rw [Bool.eq_false_iff]
    intro hc
    have h1 := (S.hrm _ _ vt (okf.lm_valid f0).1).1 hc
    exact lt_irrefl _ (nf_lead S H (r (expo t.1)) okf (fun x hx => (le_lm S okf hx).trans_lt h1) t ht)

/-- a zero divisor is undefined behaviour (`front()` of an empty vector) -/
theorem C29_zero_divisor (f : PV Mono K) (hf : f ≠ []) (G : List (PV Mono K)) (n : ℕ) : normalForm vc mc (· / ·) (n + 1) f ([] :: G) = some .ub := by
  unfold normalForm
  rw [if_neg (by simp [hf])]
  cases f with
  | nil => exact absurd rfl hf
  | cons t f => simp [nfLoop, findDiv]

/-! ## C30–C32 Gröbner bases over a field -/

/-- The reduced Gröbner basis: the specification. -/
structure IsReducedGB (vc : Var → Var → Bool) (mc : Mono → Mono → Bool) (I : Ideal (MvPolynomial Var K)) (G : List (PV Mono K)) : Prop where
  canonical : ∀ g ∈ G, PolyOK vc mc g ∧ g ≠ []
  generates : idealOf G = I
  /-- the leading monomial of every non-zero member is divisible by that of a basis element -/
  groebner : ∀ f : PV Mono K, PolyOK vc mc f → f ≠ [] → val f ∈ I → ∃ g ∈ G, expo (lm g) ≤ expo (lm f)
  monic : ∀ g ∈ G, lc g = 1
  /-- no term is divisible by the leading monomial of another element -/
  reduced : ∀ (i j : ℕ) (hi : i < G.length) (hj : j < G.length), i ≠ j → ∀ t ∈ G[i], ¬ expo (lm G[j]) ≤ expo t.1

theorem lead_div {L : Type*} [LinearOrder L] {r : (Var →₀ ℕ) → L} {V V' : Finset Var} (S : Setup vc mc r) {I : Ideal (MvPolynomial Var K)} {G : List (PV Mono K)}
    (h : RGB vc mc r V I G) {f : PV Mono K} (hf : OKin vc mc V' f) (f0 : f ≠ []) (hfI : val f ∈ I) : ∃ g ∈ G, expo (lm g) ≤ expo (lm f) := by
  obtain ⟨m1, m2, m3, m4⟩ := makeMonic_spec hf f0
  obtain ⟨g, hg, hle⟩ := lm_mem_of S h m1 (by rw [m3]; exact Ideal.mul_mem_left _ _ hfI)
  exact ⟨g, hg, by rw [m2] at hle; exact hle⟩

theorem RGB.spec {L : Type*} [LinearOrder L] {r : (Var →₀ ℕ) → L} {V : Finset Var} (S : Setup vc mc r) {I : Ideal (MvPolynomial Var K)} {G : List (PV Mono K)}
    (h : RGB vc mc r V I G) : IsReducedGB vc mc I G where
  canonical g hg := ⟨(h.monic g hg).okin.ok, (h.monic g hg).ne⟩
  generates := h.span
  groebner f hf f0 hI := lead_div S h (V' := polyVars f) ⟨hf, hf.keysIn subset_rfl⟩ f0 hI
  monic g hg := (h.monic g hg).lc
  reduced i j hi hj hne t ht := by
    have := h.red i hi j hj hne t (by rw [at_eq hi]; exact ht)
    rwa [at_eq hj] at this

/-- `groebner_basis` stops and returns a reduced Gröbner basis of the ideal of the generators (C30: same ideal, C31: Gröbner, C32: reduced). -/
theorem C30_groebner_basis (M : MonoOrd vc mc) (sort : List CP → List CP) (hsort : ∀ l, (sort l).Perm l) (F : List (PV Mono K))
    (hF : ∀ f ∈ F, PolyOK vc mc f) :
    ∃ G, (∃ N, ∀ n ≥ N, buchbergerAlg vc mc (· / ·) sort n F = some (.ok G)) ∧ IsReducedGB vc mc (idealOf F) G := by
  obtain ⟨L, iL, r, V, S, hV⟩ := setup M F
  obtain ⟨G, hG, rgb⟩ := buchbergerAlg_spec S hsort F (V := V) fun f hf => hV f hf (hF f hf)
  exact ⟨G, hG, RGB.spec S rgb⟩

/-- C31, membership: `contains` answers, and answers `true` exactly for the members of the ideal.  (`freshAnswer`: what the object answers,
see `C48_history`.) -/
theorem C31_contains (M : MonoOrd vc mc) (sort : List CP → List CP) (hsort : ∀ l, (sort l).Perm l) (F : List (PV Mono K))
    (hF : ∀ f ∈ F, PolyOK vc mc f) (f : PV Mono K) (hf : PolyOK vc mc f) :
    ∃ b : Bool, (∃ N, ∀ n ≥ N, freshAnswer (buchbergerAlg vc mc (· / ·) sort n) (normalForm vc mc (· / ·) n) F (.contains f) = some (.ok (.bool b))) ∧
      (b = true ↔ val f ∈ idealOf F) := by
  obtain ⟨L, iL, r, V, S, hV⟩ := setup M (f :: F)
  obtain ⟨G, ⟨N, hN⟩, rgb⟩ := buchbergerAlg_spec S hsort F (V := V) fun f hf => hV f (by simp [hf]) (hF f hf)
  have okf := hV f (by simp) hf
  obtain ⟨out, H⟩ := nf_exists M S.hr S.hrm (fun g hg => ⟨(rgb.monic g hg).okin, (rgb.monic g hg).ne⟩) f okf
  obtain ⟨N', hN'⟩ := H.normalForm
  refine ⟨decide (out = []), ⟨N + N', fun n hn => ?_⟩, ?_⟩
  · rw [freshAnswer, hN n (by omega), andThen_ok, hN' n (by omega), andThen_ok]
  · rw [decide_eq_true_iff, ← nf_zero S rgb.monic (fun g hg => rgb.span ▸ mem_idealOf hg) rgb.gb okf H]

/-- C31, canonical representatives: `reduce` returns, congruent to its argument, and two polynomials have the same result exactly when they are congruent. -/
theorem C31_reduce (M : MonoOrd vc mc) (sort : List CP → List CP) (hsort : ∀ l, (sort l).Perm l) (F : List (PV Mono K))
    (hF : ∀ f ∈ F, PolyOK vc mc f) (f g : PV Mono K) (hf : PolyOK vc mc f) (hg : PolyOK vc mc g) :
    ∃ a b : PV Mono K, (∃ N, ∀ n ≥ N, freshAnswer (buchbergerAlg vc mc (· / ·) sort n) (normalForm vc mc (· / ·) n) F (.reduce f) = some (.ok (.poly a))) ∧
      (∃ N, ∀ n ≥ N, freshAnswer (buchbergerAlg vc mc (· / ·) sort n) (normalForm vc mc (· / ·) n) F (.reduce g) = some (.ok (.poly b))) ∧
      PolyOK vc mc a ∧ val f - val a ∈ idealOf F ∧ (a = b ↔ val f - val g ∈ idealOf F) := by
  obtain ⟨L, iL, r, V, S, hV⟩ := setup M (f :: g :: F)
  obtain ⟨G, ⟨N, hN⟩, rgb⟩ := buchbergerAlg_spec S hsort F (V := V) fun f hf => hV f (by simp [hf]) (hF f hf)
  have okf := hV f (by simp) hf
  have okg := hV g (by simp) hg
  have hGI : ∀ g ∈ G, val g ∈ idealOf F := fun g hg => rgb.span ▸ mem_idealOf hg
  obtain ⟨a, Ha⟩ := nf_exists M S.hr S.hrm (fun g hg => ⟨(rgb.monic g hg).okin, (rgb.monic g hg).ne⟩) f okf
  obtain ⟨b, Hb⟩ := nf_exists M S.hr S.hrm (fun g hg => ⟨(rgb.monic g hg).okin, (rgb.monic g hg).ne⟩) g okg
  obtain ⟨N1, h1⟩ := Ha.normalForm
  obtain ⟨N2, h2⟩ := Hb.normalForm
  have ia := idealOf_le hGI (Ha.ideal S okf)
  have ib := idealOf_le hGI (Hb.ideal S okg)
  refine ⟨a, b, ⟨N + N1, fun n hn => ?_⟩, ⟨N + N2, fun n hn => ?_⟩, Ha.ok.ok, ia, ?_, ?_⟩
  · rw [freshAnswer, hN n (by omega), andThen_ok, h1 n (by omega), andThen_ok]
  · rw [freshAnswer, hN n (by omega), andThen_ok, h2 n (by omega), andThen_ok]
  · rintro rfl
    have := Ideal.sub_mem _ ia ib
    convert this using 1; ring
  · intro hfg
    refine PolyOK.ext M Ha.ok.ok Hb.ok.ok ?_
    by_contra hne
    have hd : val a - val b ∈ idealOf F := by
      have := Ideal.add_mem _ (Ideal.sub_mem _ hfg ia) ib
      convert this using 1; ring
    obtain ⟨e, he, _, x, hx, hxe⟩ := rgb.gb _ hd (sub_ne_zero.2 hne)
    obtain ⟨g', hg', rfl⟩ := List.mem_map.1 hx
    have contra : ∀ {h out : PV Mono K}, NF vc mc r V G h out → coeff e (val out) ≠ 0 → False := by
      intro h out H hc
      obtain ⟨t, ht, rfl⟩ := coeff_ne hc
      have := H.reduced t ht g' hg'
      rw [divExact_none M.vo (H.ok.ok.monos t ht) ((rgb.monic g' hg').okin.lm_valid (rgb.monic g' hg').ne).1] at this
      exact this hxe
    by_cases hc : coeff e (val a) = 0
    · refine contra Hb fun h0 => ?_
      rw [coeff_sub, hc, h0, sub_self] at he; exact he rfl
    · exact contra Ha hc

theorem IsReducedGB.nodup {I : Ideal (MvPolynomial Var K)} {G : List (PV Mono K)} (h : IsReducedGB vc mc I G) : G.Nodup := by
  rw [List.nodup_iff_injective_get]
  intro i j hij
  by_contra hne
  have hne' : i.1 ≠ j.1 := fun h => hne (Fin.ext h)
  have hij' : G[i.1] = G[j.1] := hij
  have h0 := (h.canonical G[i.1] (List.getElem_mem _)).2
  obtain ⟨t, p, ht⟩ : ∃ t p, G[i.1] = t :: p := by
    cases h : G[i.1] with
    | nil => exact absurd h h0
    | cons t p => exact ⟨t, p, rfl⟩
  refine h.reduced i.1 j.1 i.2 j.2 hne' t (by rw [ht]; simp) ?_
  rw [← hij', ht]; exact le_rfl

/-- C32: the result depends only on the ideal, up to the order of the elements: other generators of the same ideal, in any order, and any
behaviour of `std::sort` on equal pairs, give the same basis. -/
theorem C32_unique (M : MonoOrd vc mc) (sort sort' : List CP → List CP) (hsort : ∀ l, (sort l).Perm l) (hsort' : ∀ l, (sort' l).Perm l)
    (F F' : List (PV Mono K)) (hF : ∀ f ∈ F, PolyOK vc mc f) (hF' : ∀ f ∈ F', PolyOK vc mc f) (hI : idealOf F = idealOf F') :
    ∃ G G' N, (∀ n ≥ N, buchbergerAlg vc mc (· / ·) sort n F = some (.ok G) ∧ buchbergerAlg vc mc (· / ·) sort' n F' = some (.ok G')) ∧ G.Perm G' := by
  obtain ⟨L, iL, r, V, S, hV⟩ := setup M (F ++ F')
  obtain ⟨G, ⟨N, hN⟩, rgb⟩ := buchbergerAlg_spec S hsort F (V := V) fun f hf => hV f (by simp [hf]) (hF f hf)
  obtain ⟨G', ⟨N', hN'⟩, rgb'⟩ := buchbergerAlg_spec S hsort' F' (V := V) fun f hf => hV f (by simp [hf]) (hF' f hf)
  refine ⟨G, G', N + N', fun n hn => ⟨hN n (by omega), hN' n (by omega)⟩, ?_⟩
  rw [← hI] at rgb'
  exact (List.perm_ext_iff_of_nodup (RGB.spec S rgb).nodup (RGB.spec S rgb').nodup).2 fun g =>
    ⟨RGB.unique S rgb rgb' g, RGB.unique S rgb' rgb g⟩

/-- C32: uniqueness of the specification itself: any two reduced Gröbner bases of an ideal have the same elements, so `IsReducedGB`
determines what `groebner_basis` returns. -/
theorem C32_spec_unique (M : MonoOrd vc mc) (I : Ideal (MvPolynomial Var K)) (G G' : List (PV Mono K)) (h : IsReducedGB vc mc I G)
    (h' : IsReducedGB vc mc I G') : G.Perm G' := by
  obtain ⟨L, iL, r, V, S, hV⟩ := setup M (G ++ G')
  have conv : ∀ {G : List (PV Mono K)}, (∀ g ∈ G, OKin vc mc V g) → IsReducedGB vc mc I G → RGB vc mc r V I G := by
    intro G hin h
    refine ⟨fun g hg => ⟨hin g hg, (h.canonical g hg).2, h.monic g hg⟩, h.generates, ?_, ?_⟩
    · intro f hf f0
      obtain ⟨p, hp, rfl⟩ := exists_polyOK M f
      have p0 : p ≠ [] := by rintro rfl; exact f0 val_nil
      obtain ⟨g, hg, hle⟩ := h.groebner p hp p0 hf
      have okp : OKin vc mc (polyVars p) p := ⟨hp, hp.keysIn subset_rfl⟩
      refine ⟨expo (lm p), ?_, ?_, expo (lm g), List.mem_map.2 ⟨g, hg, rfl⟩, hle⟩
      · rw [coeff_lm M okp p0]; exact (makeMonic_spec okp p0).2.2.2
      · intro s hs
        obtain ⟨t, ht, rfl⟩ := coeff_ne hs
        exact le_lm S okp ht
    · intro i hi j hj hne t ht
      rw [at_eq hi] at ht
      rw [at_eq hj]
      exact h.reduced i j hi hj hne t ht
  have r1 := conv (fun g hg => hV g (by simp [hg]) (h.canonical g hg).1) h
  have r2 := conv (fun g hg => hV g (by simp [hg]) (h'.canonical g hg).1) h'
  exact (List.perm_ext_iff_of_nodup h.nodup h'.nodup).2 fun g => ⟨RGB.unique S r1 r2 g, RGB.unique S r2 r1 g⟩

end

/-! ## the entries over ZZ -/

theorem setupZ (M : MonoOrd vc mc) (F : List (PV Mono ℤ)) (hF : ∀ f ∈ F, PolyOK vc mc f) :
    ∃ (L : Type) (_ : LinearOrder L) (r : (Var →₀ ℕ) → L) (V : Finset Var), Setup vc mc r ∧ ∀ f ∈ F, OKin vc mc V (convZQ vc mc f) := by
  obtain ⟨L, iL, r, V, S, hV⟩ := setup M (F.map (convZQ vc mc))
  exact ⟨L, iL, r, V, S, fun f hf => hV _ (List.mem_map.2 ⟨f, hf, rfl⟩) (convZQ_spec M M (hF f hf)).1⟩

/-- Over ZZ, `groebner_basis` stops; its elements are canonical and primitive with positive leading coefficient; over the rationals they
generate the same ideal as the generators, and form a Gröbner basis of it.  (Over ZZ itself the ideals differ: `C52_false_ideal_over_ZZ`.) -/
theorem C51_groebner_basis_ZZ (M : MonoOrd vc mc) (sort : List CP → List CP) (hsort : ∀ l, (sort l).Perm l) (F : List (PV Mono ℤ))
    (hF : ∀ f ∈ F, PolyOK vc mc f) :
    ∃ G, (∃ N, ∀ n ≥ N, gbZZ vc mc sort n F = some (.ok G)) ∧
      (∀ g ∈ G, PolyOK vc mc g ∧ g ≠ [] ∧ 0 < lc g ∧ ∀ d : ℤ, (∀ t ∈ g, d ∣ t.2) → IsUnit d) ∧
      Ideal.span {x | ∃ g ∈ G, x = MvPolynomial.map (Int.castRingHom ℚ) (val g)} = Ideal.span {x | ∃ f ∈ F, x = MvPolynomial.map (Int.castRingHom ℚ) (val f)} ∧
      ∀ f : PV Mono ℤ, PolyOK vc mc f → f ≠ [] →
        MvPolynomial.map (Int.castRingHom ℚ) (val f) ∈ Ideal.span {x | ∃ f ∈ F, x = MvPolynomial.map (Int.castRingHom ℚ) (val f)} →
        ∃ g ∈ G, expo (lm g) ≤ expo (lm f) := by
  obtain ⟨L, iL, r, V, S, hV⟩ := setupZ M F hF
  obtain ⟨G, rgb, N, hN⟩ := gbZZ_spec S hsort F hF hV
  refine ⟨_, ⟨N, hN⟩, ?_, ?_, ?_⟩
  · intro z hz
    obtain ⟨g, hg, rfl⟩ := List.mem_map.1 hz
    obtain ⟨p1, p2, _, p4, p5, _⟩ := toZZ_spec M (rgb.monic g hg)
    exact ⟨p1, p2, p4, p5⟩
  · rw [show {x | ∃ f ∈ F, x = MvPolynomial.map (Int.castRingHom ℚ) (val f)} = {x | ∃ f ∈ F, x = valQ f} from rfl, ← rgb.span]
    have h1 := span_scaled (l := G) (fun g => valQ (primitive (convQZ vc mc g))) val fun g hg => (toZZ_spec M (rgb.monic g hg)).2.2.2.2.2
    refine Eq.trans ?_ h1
    congr 1
    ext x
    constructor
    · rintro ⟨_, hg, rfl⟩
      obtain ⟨g, hg', rfl⟩ := List.mem_map.1 hg
      exact ⟨g, hg', rfl⟩
    · rintro ⟨g, hg, rfl⟩; exact ⟨_, List.mem_map.2 ⟨g, hg, rfl⟩, rfl⟩
  · intro f hf f0 hfI
    obtain ⟨q1, q2⟩ := convZQ_spec M M hf
    have hne : convZQ vc mc f ≠ [] := by
      intro h
      rw [h, val_nil] at q2
      have hv : val f = 0 := (MvPolynomial.map_injective (Int.castRingHom ℚ) Int.cast_injective) (by rw [← q2, map_zero])
      exact f0 (PolyOK.ext M hf PolyOK.nil (by rw [hv, val_nil]))
    obtain ⟨g, hg, hle⟩ := lead_div S rgb (V' := polyVars (convZQ vc mc f)) ⟨q1, q1.keysIn subset_rfl⟩ hne (by rw [q2]; exact hfI)
    refine ⟨_, List.mem_map.2 ⟨g, hg, rfl⟩, ?_⟩
    rw [(toZZ_spec M (rgb.monic g hg)).2.2.1]
    refine hle.trans (le_of_eq ?_)
    congr 1
    -- conversion keeps the monomials
    have : convZQ vc mc f = f.map fun t => (t.1, (t.2 : ℚ)) := by
      have ok : PolyOK vc mc (f.map fun t => (t.1, (t.2 : ℚ))) := by
        refine ⟨?_, ?_, ?_⟩
        · intro t ht; obtain ⟨u, hu, rfl⟩ := List.mem_map.1 ht; exact hf.monos u hu
        · rw [List.pairwise_map]; exact hf.canon.1
        · intro t ht; obtain ⟨u, hu, rfl⟩ := List.mem_map.1 ht; exact Int.cast_ne_zero.2 (hf.canon.2 u hu)
      exact polyNormalize_id M ok
    rw [this]
    cases f with
    | nil => rfl
    | cons t f => rfl

/-- The integer reading fails: the generator `2x` gives the basis `x`, whose ideal over the integers is larger. -/
theorem C52_false_ideal_over_ZZ : primitive (convQZ varLess (grlexGt varLess) (makeMonic (· / ·) (convZQ varLess (grlexGt varLess) [(exXY 1 0, 2)]))) = [(exXY 1 0, 1)] ∧
    val ([(exXY 1 0, 1)] : PV Mono ℤ) ∉ Ideal.span {x | ∃ f ∈ [([(exXY 1 0, 2)] : PV Mono ℤ)], x = val f} := by
  refine ⟨by decide +kernel, ?_⟩
  intro h
  have e1 : val ([(exXY 1 0, 1)] : PV Mono ℤ) = monomial (expo (exXY 1 0)) 1 := by rw [val_cons, val_nil, add_zero]
  have e2 : val ([(exXY 1 0, 2)] : PV Mono ℤ) = monomial (expo (exXY 1 0)) 2 := by rw [val_cons, val_nil, add_zero]
  have hs : {x | ∃ f ∈ [([(exXY 1 0, 2)] : PV Mono ℤ)], x = val f} = {val ([(exXY 1 0, 2)] : PV Mono ℤ)} := by
    ext x; simp
  rw [hs, Ideal.mem_span_singleton, e1, e2] at h
  obtain ⟨q, hq⟩ := h
  have := congrArg (coeff (expo (exXY 1 0))) hq
  rw [coeff_monomial, if_pos rfl, show monomial (expo (exXY 1 0)) (2 : ℤ) = C 2 * monomial (expo (exXY 1 0)) 1 by rw [C_mul_monomial, mul_one],
    mul_assoc, coeff_C_mul] at this
  omega

/-- `normal_form` over any coefficient ring with any coefficient division (so also over ZZ): what it returns is congruent to its argument
modulo the ideal of the divisors.  Missing: termination and completeness, which fail over ZZ, `C52_false_diverges`. -/
theorem C52_normal_form_sound_partial {R : Type*} [CommRing R] [DecidableEq R] (ho : VarOrd vc) (dv : R → R → R) (f out : PV Mono R) (G : List (PV Mono R))
    (hf : ∀ t ∈ f, Valid vc t.1) (hG : ∀ g ∈ G, ∀ t ∈ g, Valid vc t.1) (n : ℕ) (h : normalForm vc mc dv n f G = some (.ok out)) :
    val f - val out ∈ Ideal.span {x | ∃ g ∈ G, x = val g} := normalForm_sound ho dv hG hf h

/-- over ZZ `normal_form` does not stop on `x` modulo `{2x − 1}`: the quotient `1/2` is `0` -/
theorem C52_false_diverges (n : ℕ) : normalForm varLess (grlexGt varLess) Int.tdiv n [(exXY 1 0, 1)] [[(exXY 1 0, 2), (exXY 0 0, -1)]] = none := by
  have key : ∀ n, nfLoop varLess (grlexGt varLess) Int.tdiv [[(exXY 1 0, 2), (exXY 0 0, -1)]] n [(exXY 1 0, 1)] [] = none ∧
      nfLoop varLess (grlexGt varLess) Int.tdiv [[(exXY 1 0, 2), (exXY 0 0, -1)]] n [(exXY 1 0, 1), (exXY 0 0, 0)] [] = none := by
    intro n
    induction n with
    | zero => exact ⟨rfl, rfl⟩
    | succ n ih =>
      refine ⟨?_, ?_⟩
      · rw [nfLoop]
        simp only [show findDiv varLess (exXY 1 0) 0 [[(exXY 1 0, (2 : ℤ)), (exXY 0 0, -1)]] = .ok (some (0, [(exXY 1 0, 2), (exXY 0 0, -1)], exXY 0 0)) by decide +kernel]
        rw [show cancel varLess (grlexGt varLess) Int.tdiv [(exXY 1 0, 1)] [(exXY 1 0, 2), (exXY 0 0, -1)] (exXY 0 0) = [(exXY 1 0, 1), (exXY 0 0, 0)] by decide +kernel]
        exact ih.2
      · rw [nfLoop]
        simp only [show findDiv varLess (exXY 1 0) 0 [[(exXY 1 0, (2 : ℤ)), (exXY 0 0, -1)]] = .ok (some (0, [(exXY 1 0, 2), (exXY 0 0, -1)], exXY 0 0)) by decide +kernel]
        rw [show cancel varLess (grlexGt varLess) Int.tdiv [(exXY 1 0, 1), (exXY 0 0, 0)] [(exXY 1 0, 2), (exXY 0 0, -1)] (exXY 0 0) = [(exXY 1 0, 1)] by decide +kernel]
        exact ih.1
  exact (key n).1

/-- a case of the hypotheses, and a computed normal form: `x²y + x` modulo `{xy − 1, y²}` over the rationals -/
example : (PolyOK varLess (grlexGt varLess) [(exXY 1 1, (1 : ℚ)), (exXY 0 0, -1)] ∧ PolyOK varLess (grlexGt varLess) [(exXY 0 2, (1 : ℚ))]) ∧
    normalForm varLess (grlexGt varLess) (· / ·) 10 [(exXY 2 1, (1 : ℚ)), (exXY 1 0, 1)] [[(exXY 1 1, 1), (exXY 0 0, -1)], [(exXY 0 2, 1)]] =
      some (.ok [(exXY 1 0, 2)]) := by decide +kernel

/-! ## C48 the class `Ideal` -/

/-- For every history of calls on an object made from `gens`: the answers are those computed from the generators without a cache
(`freshAnswer`), whatever calls came before.  `gb` and `nf` are the free functions `groebner_basis` and `normal_form`. -/
theorem C48_history {R : Type*} [DecidableEq R] (gb : List (PV Mono R) → Option (Out (List (PV Mono R))))
    (nf : PV Mono R → List (PV Mono R) → Option (Out (PV Mono R))) (gens : List (PV Mono R)) (calls : List (Call R)) (answers : List (Answer R)) :
    (IdealSt.make gens).run gb nf calls = some (.ok answers) ↔ List.Forall₂ (fun c a => freshAnswer gb nf gens c = some (.ok a)) calls answers :=
  run_fresh calls _ answers ⟨rfl, fun h => by cases h⟩

example : (IdealSt.make [[(exXY 1 0, (1 : ℚ))]]).run (fun F => some (.ok F)) (normalForm varLess (grlexGt varLess) (· / ·) 5)
    [.contains [(exXY 1 1, 1)], .reduce [(exXY 0 1, 1)], .generators] =
    some (.ok [.bool true, .poly [(exXY 0 1, 1)], .basis [[(exXY 1 0, 1)]]]) := by decide +kernel

end CLPoly
