import Verif.Groebner.ZZDefs
import Verif.Groebner.Reduced
import Verif.Poly.ConvertSpec

/-! # The entries over ZZ, the class `Ideal`, soundness of `normal_form` over any ring -/

namespace CLPoly.GB
open CLPoly Mono MvPolynomial

variable {vc : Var → Var → Bool} {mc : Mono → Mono → Bool}

/-! ## `normal_form` over any commutative ring and any coefficient division: what it returns differs by an element of the ideal -/

section
variable {R : Type*} [CommRing R] [DecidableEq R]

theorem findDiv_some {m : Mono} : ∀ {G : List (PV Mono R)} {k i : Nat} {g : PV Mono R} {q : Mono},
    findDiv vc m k G = .ok (some (i, g, q)) → g ∈ G ∧ g ≠ [] ∧ divExact vc m (lm g) = some q
  | [], k, i, g, q, h => by simp [findDiv] at h
  | g0 :: G, k, i, g, q, h => by
    rw [findDiv] at h
    split at h
    · cases h
    · rename_i h0
      split at h
      · rename_i q' hq
        simp only [Out.ok.injEq, Option.some.injEq, Prod.mk.injEq] at h
        obtain ⟨_, rfl, rfl⟩ := h
        exact ⟨by simp, h0, hq⟩
      · obtain ⟨h1, h2, h3⟩ := findDiv_some h
        exact ⟨by simp [h1], h2, h3⟩

theorem val_mapTerms (ho : VarOrd vc) {p : PV Mono R} (hp : KeysIn (Valid vc) p) {q : Mono} (hq : Valid vc q) (c : R) :
    KeysIn (Valid vc) (mapTerms vc p q fun x => x * c) ∧ val (mapTerms vc p q fun x => x * c) = monomial (expo q) c * val p := by
  refine ⟨?_, ?_⟩
  · intro x hx
    obtain ⟨t, ht, rfl⟩ := List.mem_map.1 hx
    exact mul_valid ho (hp t ht) hq
  · unfold val mapTerms
    rw [List.map_map, ← List.sum_map_mul_left]
    congr 1
    refine List.map_congr_left fun t ht => ?_
    show monomial (expo (mul vc t.1 q)) (t.2 * c) = _
    rw [expo_mul ho (hp t ht) hq, monomial_mul, add_comm, mul_comm c]

theorem nfLoop_sound (ho : VarOrd vc) (dv : R → R → R) {G : List (PV Mono R)} (hG : ∀ g ∈ G, KeysIn (Valid vc) g) :
    ∀ {n : Nat} {h acc out : PV Mono R}, KeysIn (Valid vc) h → nfLoop vc mc dv G n h acc = some (.ok out) →
      val acc + val h - val out ∈ Ideal.span {f | ∃ g ∈ G, f = val g}
  | 0, _, _, _, _, h => by simp [nfLoop] at h
  | n + 1, [], acc, out, _, h => by
    rw [nfLoop] at h
    simp only [Option.some.injEq, Out.ok.injEq] at h
    rw [h, val_nil, add_zero, sub_self]; exact Ideal.zero_mem _
  | n + 1, t :: h', acc, out, hv, h => by
    rw [nfLoop] at h
    have ht := hv t (by simp)
    rcases hf : findDiv vc t.1 0 G with (_ | ⟨i, g, q⟩) | _ | _ <;> simp only [hf] at h
    · have := nfLoop_sound ho dv hG (KeysIn.cons.1 hv).2 h
      rw [val_append, val_cons, val_nil, add_zero] at this
      rw [val_cons, ← add_assoc]; exact this
    · obtain ⟨hg, g0, hq⟩ := findDiv_some hf
      have vg := hG g hg
      have vlm : Valid vc (lm g) := by
        cases g with
        | nil => exact absurd rfl g0
        | cons u g => exact vg u (by simp)
      have vq := ((C14_is_divexact vc ho _ _ ht vlm).2 q hq).1
      obtain ⟨k1, v1⟩ := val_mapTerms ho vg vq (dv (lc (t :: h')) (lc g))
      have := nfLoop_sound ho dv hG (pvSub_keysIn (comp := mc) hv k1) h
      rw [val_pvSub, v1] at this
      have h2 : monomial (expo q) (dv (lc (t :: h')) (lc g)) * val g ∈ Ideal.span {f | ∃ g ∈ G, f = val g} :=
        Ideal.mul_mem_left _ _ (Ideal.subset_span ⟨g, hg, rfl⟩)
      have := Ideal.add_mem _ this h2
      convert this using 1
      ring
    all_goals simp at h

theorem normalForm_sound (ho : VarOrd vc) (dv : R → R → R) {G : List (PV Mono R)} (hG : ∀ g ∈ G, KeysIn (Valid vc) g) {n : Nat} {f out : PV Mono R}
    (hf : KeysIn (Valid vc) f) (h : normalForm vc mc dv n f G = some (.ok out)) : val f - val out ∈ Ideal.span {f | ∃ g ∈ G, f = val g} := by
  unfold normalForm at h
  split at h
  · simp only [Option.some.injEq, Out.ok.injEq] at h
    rw [h, sub_self]; exact Ideal.zero_mem _
  · have := nfLoop_sound ho dv hG hf h
    rwa [val_nil, zero_add] at this
end

/-- every polynomial has a canonical term vector -/
theorem exists_polyOK {R : Type*} [CommRing R] [DecidableEq R] (M : MonoOrd vc mc) (f : MvPolynomial Var R) : ∃ p : PV Mono R, PolyOK vc mc p ∧ val p = f := by
  obtain ⟨p0, hp0⟩ : ∃ p0 : PV Mono R, p0 = f.support.toList.map fun s => (ofExpo vc s, coeff s f) := ⟨_, rfl⟩
  have hv : val p0 = f := by
    rw [hp0]
    unfold val
    rw [List.map_map]
    conv_rhs => rw [as_sum f]
    rw [← Finset.sum_map_toList]
    congr 1
    refine List.map_congr_left fun s _ => ?_
    show monomial (expo (ofExpo vc s)) (coeff s f) = _
    rw [expo_ofExpo M.vo]
  have hpos : ∀ t ∈ p0, ∀ x ∈ t.1.data, 0 ≤ x.2 := by
    intro t ht x hx
    rw [hp0] at ht
    obtain ⟨s, _, rfl⟩ := List.mem_map.1 ht
    exact ((ofExpo_valid M.vo s).pos x hx).le
  refine ⟨polyNormalize vc mc p0, (polyNormalize_ok_iff M hpos (sortResult_merge M (firstNormalize_valid M.vo hpos))).2 ?_, ?_⟩
  · intro t ht ht0
    rw [hv]
    rw [hp0] at ht
    obtain ⟨s, _, rfl⟩ := List.mem_map.1 ht
    show coeff (expo (ofExpo vc s)) f ≠ 0
    rw [expo_ofExpo M.vo]; exact ht0
  · rw [(polyNormalize_spec M hpos).2.1, hv]

/-! ## the primitive part -/

theorem contLoop_spec : ∀ (p : PV Mono ℤ) (c : ℤ), 0 < c → 0 < contLoop c p ∧ contLoop c p ∣ c ∧ (∀ t ∈ p, contLoop c p ∣ t.2) ∧
    ∀ d : ℤ, d ∣ c → (∀ t ∈ p, d ∣ t.2) → d ∣ contLoop c p
  | [], c, h => ⟨h, dvd_rfl, by simp, fun d h _ => h⟩
  | t :: p, c, h => by
    rw [contLoop]
    have hg : 0 < (Int.gcd c (t.2.natAbs : ℤ) : ℤ) := by
      have : Int.gcd c (t.2.natAbs : ℤ) ≠ 0 := by
        intro h0
        have := (Int.gcd_eq_zero_iff.1 h0).1
        omega
      omega
    have g1 : (Int.gcd c (t.2.natAbs : ℤ) : ℤ) ∣ c := Int.gcd_dvd_left _ _
    have g2 : (Int.gcd c (t.2.natAbs : ℤ) : ℤ) ∣ t.2 := Int.dvd_natAbs.1 (Int.gcd_dvd_right _ _)
    have g3 : ∀ d : ℤ, d ∣ c → d ∣ t.2 → d ∣ (Int.gcd c (t.2.natAbs : ℤ) : ℤ) := fun d h1 h2 => Int.dvd_coe_gcd h1 (Int.dvd_natAbs.2 h2)
    by_cases h1 : (Int.gcd c (t.2.natAbs : ℤ) : ℤ) = 1
    · simp only [h1, if_true]
      refine ⟨one_pos, one_dvd _, fun _ _ => one_dvd _, fun d hd hp => ?_⟩
      rw [← h1]; exact g3 d hd (hp t (by simp))
    · simp only [h1, if_false]
      obtain ⟨e1, e2, e3, e4⟩ := contLoop_spec p _ hg
      refine ⟨e1, e2.trans g1, ?_, ?_⟩
      · intro u hu
        rcases List.mem_cons.1 hu with rfl | hu
        · exact e2.trans g2
        · exact e3 u hu
      · intro d hd hp
        exact e4 d (g3 d hd (hp t (by simp))) fun u hu => hp u (by simp [hu])

theorem primitive_spec {p : PV Mono ℤ} (hp : PolyOK vc mc p) (h0 : p ≠ []) :
    PolyOK vc mc (primitive p) ∧ primitive p ≠ [] ∧ lm (primitive p) = lm p ∧ 0 < lc (primitive p) ∧
    (∀ d : ℤ, (∀ t ∈ primitive p, d ∣ t.2) → IsUnit d) ∧ ∃ c : ℤ, c ≠ 0 ∧ val p = C c * val (primitive p) := by
  have l0 : lc p ≠ 0 := by
    cases p with
    | nil => exact absurd rfl h0
    | cons t p => exact hp.canon.2 t (by simp)
  obtain ⟨c, hc⟩ : ∃ c, c = contLoop (lc p).natAbs p := ⟨_, rfl⟩
  obtain ⟨e1, e2, e3, e4⟩ := contLoop_spec p (lc p).natAbs (by omega)
  rw [← hc] at e1 e2 e3 e4
  obtain ⟨d, hd⟩ : ∃ d, d = if lc p < 0 then -c else c := ⟨_, rfl⟩
  have hprim : primitive p = p.map fun t => (t.1, Int.tdiv t.2 d) := by rw [hd, hc]; rfl
  have d0 : d ≠ 0 := by rw [hd]; split <;> omega
  have dd : ∀ t ∈ p, d ∣ t.2 := by
    intro t ht
    rw [hd]; split
    · exact Int.neg_dvd.2 (e3 t ht)
    · exact e3 t ht
  have ed : ∀ t ∈ p, Int.tdiv t.2 d * d = t.2 := fun t ht => Int.tdiv_mul_cancel (dd t ht)
  rw [hprim]
  refine ⟨⟨?_, ?_, ?_⟩, by simpa using h0, ?_, ?_, ?_, d, d0, ?_⟩
  · intro t ht
    obtain ⟨u, hu, rfl⟩ := List.mem_map.1 ht
    exact hp.monos u hu
  · rw [List.pairwise_map]; exact hp.canon.1
  · intro t ht
    obtain ⟨u, hu, rfl⟩ := List.mem_map.1 ht
    intro hz
    have := ed u hu
    rw [show Int.tdiv u.2 d = 0 from hz, zero_mul] at this
    exact hp.canon.2 u hu this.symm
  · cases p with
    | nil => rfl
    | cons t p => rfl
  · cases p with
    | nil => exact absurd rfl h0
    | cons t p =>
      show 0 < Int.tdiv t.2 d
      have h1 := ed t (by simp)
      have h2 : lc (t :: p) = t.2 := rfl
      rw [h2] at hd l0
      by_cases hneg : t.2 < 0
      · rw [if_pos hneg] at hd
        by_contra hle
        have : 0 ≤ Int.tdiv t.2 d * d := mul_nonneg_of_nonpos_of_nonpos (by omega) (by omega)
        omega
      · rw [if_neg hneg] at hd
        by_contra hle
        have : Int.tdiv t.2 d * d ≤ 0 := mul_nonpos_of_nonpos_of_nonneg (by omega) (by omega)
        omega
  · intro k hk
    have h1 : k * c ∣ c := by
      refine e4 _ ?_ ?_
      · have : k * c ∣ lc p := by
          cases p with
          | nil => exact absurd rfl h0
          | cons t p =>
            have h2 : k ∣ Int.tdiv t.2 d := hk (t.1, Int.tdiv t.2 d) (by simp)
            show k * c ∣ t.2
            rw [← ed t (by simp)]
            refine mul_dvd_mul h2 ?_
            rw [hd]; split
            · exact (dvd_neg).2 dvd_rfl
            · exact dvd_rfl
        exact Int.dvd_natAbs.2 this
      · intro t ht
        have h2 : k ∣ Int.tdiv t.2 d := hk (t.1, Int.tdiv t.2 d) (List.mem_map.2 ⟨t, ht, rfl⟩)
        rw [← ed t ht]
        refine mul_dvd_mul h2 ?_
        rw [hd]; split
        · exact (dvd_neg).2 dvd_rfl
        · exact dvd_rfl
    obtain ⟨m, hm⟩ := h1
    have : k * m = 1 := by
      have h3 : c * (k * m) = c * 1 := by rw [mul_one]; conv_rhs => rw [hm]
                                          ring
      exact mul_left_cancel₀ (by omega) h3
    exact IsUnit.of_mul_eq_one _ this
  · unfold val
    rw [List.map_map, ← List.sum_map_mul_left]
    congr 1
    refine List.map_congr_left fun t ht => ?_
    show monomial (expo t.1) t.2 = C d * monomial (expo t.1) (Int.tdiv t.2 d)
    rw [C_mul_monomial, mul_comm, ed t ht]

/-! ## `groebner_basis` over ZZ -/

variable {L : Type*} [LinearOrder L] {r : (Var →₀ ℕ) → L} {V : Finset Var}

/-- a polynomial over the integers, as one over the rationals -/
noncomputable def valQ (p : PV Mono ℤ) : MvPolynomial Var ℚ := map (Int.castRingHom ℚ) (val p)

/-- what the entry does to one element of the rational basis -/
theorem toZZ_spec (M : MonoOrd vc mc) {g : PV Mono ℚ} (hg : Monic vc mc V g) :
    PolyOK vc mc (primitive (convQZ vc mc g)) ∧ primitive (convQZ vc mc g) ≠ [] ∧ lm (primitive (convQZ vc mc g)) = lm g ∧
    0 < lc (primitive (convQZ vc mc g)) ∧ (∀ d : ℤ, (∀ t ∈ primitive (convQZ vc mc g), d ∣ t.2) → IsUnit d) ∧
    ∃ c : ℚ, c ≠ 0 ∧ valQ (primitive (convQZ vc mc g)) = C c * val g := by
  obtain ⟨ok, co⟩ := convQZ_spec M M hg.okin.ok
  have hv := convQZ_map M M hg.okin.ok
  have d0 : (denLcm g : ℚ) ≠ 0 := by exact_mod_cast (denLcm_pos g).ne'
  have supp : ∀ s, coeff s (val (convQZ vc mc g)) ≠ 0 ↔ coeff s (val g) ≠ 0 := by
    intro s
    have := co s
    constructor
    · intro h h'; rw [h', mul_zero] at this; exact h (by exact_mod_cast this)
    · intro h h'; rw [h', Int.cast_zero] at this; exact (mul_ne_zero d0 h) this.symm
  have ne : convQZ vc mc g ≠ [] := by
    intro h
    have h1 := coeff_lm M hg.okin hg.ne
    rw [hg.lc] at h1
    have := (supp (expo (lm g))).2 (by rw [h1]; exact one_ne_zero)
    rw [h, val_nil, coeff_zero] at this
    exact this rfl
  have hlm : lm (convQZ vc mc g) = lm g := by
    obtain ⟨t, p, ht⟩ : ∃ t p, convQZ vc mc g = t :: p := by
      cases h : convQZ vc mc g with
      | nil => exact absurd h ne
      | cons t p => exact ⟨t, p, rfl⟩
    obtain ⟨u, q, hu⟩ : ∃ t p, g = t :: p := by
      cases h : g with
      | nil => exact absurd h hg.ne
      | cons t p => exact ⟨t, p, rfl⟩
    have okt := ok.monos t (by rw [ht]; simp)
    have oku := hg.okin.ok.monos u (by rw [hu]; simp)
    have c1 : coeff (expo t.1) (val (convQZ vc mc g)) ≠ 0 := by
      rw [ok.coeff_mem M (t := t) (by rw [ht]; simp)]; exact ok.canon.2 t (by rw [ht]; simp)
    have c2 : coeff (expo u.1) (val g) ≠ 0 := by
      rw [hg.okin.ok.coeff_mem M (t := u) (by rw [hu]; simp)]; exact hg.okin.ok.canon.2 u (by rw [hu]; simp)
    obtain ⟨u', hu', e1⟩ := coeff_ne ((supp _).1 c1)
    have c3 := (supp _).2 c2
    obtain ⟨t', ht', e2⟩ : ∃ t ∈ convQZ vc mc g, expo t.1 = expo u.1 := by
      by_contra h
      push Not at h
      exact c3 (coeff_val_not_mem h)
    have f1 : u'.1 = t.1 := expo_inj M.vo (hg.okin.ok.monos u' hu') okt e1
    have f2 : t'.1 = u.1 := expo_inj M.vo (ok.monos t' ht') oku e2
    rw [ht, hu]
    show t.1 = u.1
    by_contra hne
    have h1 : mc u.1 t.1 = true := by
      rw [hu] at hu'
      rcases List.mem_cons.1 hu' with h | h
      · rw [h] at f1; exact absurd f1.symm hne
      · have hs := hg.okin.ok.canon.1
        rw [hu] at hs
        rw [← f1]; exact (List.pairwise_cons.1 hs).1 u' h
    have h2 : mc t.1 u.1 = true := by
      rw [ht] at ht'
      rcases List.mem_cons.1 ht' with h | h
      · rw [h] at f2; exact absurd f2 hne
      · have hs := ok.canon.1
        rw [ht] at hs
        rw [← f2]; exact (List.pairwise_cons.1 hs).1 t' h
    have := M.lawful.trans _ _ _ okt oku okt h2 h1
    rw [M.lawful.irrefl _ okt] at this
    cases this
  obtain ⟨p1, p2, p3, p4, p5, c, c0, pv⟩ := primitive_spec ok ne
  refine ⟨p1, p2, p3.trans hlm, p4, p5, (c : ℚ)⁻¹ * denLcm g, mul_ne_zero (inv_ne_zero (by exact_mod_cast c0)) d0, ?_⟩
  have h1 : map (Int.castRingHom ℚ) (val (convQZ vc mc g)) = C (c : ℚ) * valQ (primitive (convQZ vc mc g)) := by
    rw [pv, map_mul, map_C]; rfl
  rw [hv] at h1
  rw [C_mul, mul_assoc, h1, ← mul_assoc, ← C_mul, inv_mul_cancel₀ (by exact_mod_cast c0), C_1, one_mul]

theorem span_scaled {A : Type*} {l : List A} (f g : A → MvPolynomial Var ℚ) (h : ∀ a ∈ l, ∃ c : ℚ, c ≠ 0 ∧ f a = C c * g a) :
    Ideal.span {x | ∃ a ∈ l, x = f a} = Ideal.span {x | ∃ a ∈ l, x = g a} := by
  refine le_antisymm (Ideal.span_le.2 ?_) (Ideal.span_le.2 ?_)
  · rintro _ ⟨a, ha, rfl⟩
    obtain ⟨c, _, e⟩ := h a ha
    rw [e]; exact Ideal.mul_mem_left _ _ (Ideal.subset_span ⟨a, ha, rfl⟩)
  · rintro _ ⟨a, ha, rfl⟩
    obtain ⟨c, c0, e⟩ := h a ha
    have : g a = C c⁻¹ * f a := by rw [e, ← mul_assoc, ← C_mul, inv_mul_cancel₀ c0, C_1, one_mul]
    rw [this]; exact Ideal.mul_mem_left _ _ (Ideal.subset_span ⟨a, ha, rfl⟩)

theorem gbZZ_spec (S : Setup vc mc r) {sort : List CP → List CP} (hsort : ∀ l, (sort l).Perm l) (F : List (PV Mono ℤ)) (hF : ∀ f ∈ F, PolyOK vc mc f)
    (hV : ∀ f ∈ F, OKin vc mc V (convZQ vc mc f)) :
    ∃ G : List (PV Mono ℚ), RGB vc mc r V (Ideal.span {x | ∃ f ∈ F, x = valQ f}) G ∧
      ∃ N, ∀ n ≥ N, gbZZ vc mc sort n F = some (.ok (G.map fun g => primitive (convQZ vc mc g))) := by
  obtain ⟨G, ⟨N, hN⟩, rgb⟩ := buchbergerAlg_spec S hsort (F.map (convZQ vc mc)) (V := V) (by
    intro f hf
    obtain ⟨g, hg, rfl⟩ := List.mem_map.1 hf
    exact hV g hg)
  refine ⟨G, ?_, N, fun n hn => by unfold gbZZ; rw [hN n hn, andThen_ok]⟩
  have : idealOf (F.map (convZQ vc mc)) = Ideal.span {x | ∃ f ∈ F, x = valQ f} := by
    unfold idealOf; congr 1
    ext x
    constructor
    · rintro ⟨_, hg, rfl⟩
      obtain ⟨f, hf, rfl⟩ := List.mem_map.1 hg
      exact ⟨f, hf, (convZQ_spec S.M S.M (hF f hf)).2⟩
    · rintro ⟨f, hf, rfl⟩
      exact ⟨_, List.mem_map.2 ⟨f, hf, rfl⟩, ((convZQ_spec S.M S.M (hF f hf)).2).symm⟩
  rw [← this]; exact rgb

/-! ## the class `Ideal` -/

section
variable {R : Type*} [DecidableEq R] [Zero R] [One R] [Sub R] [Neg R] [Mul R]

/-- the answer computed from the generators alone, without a cache -/
def freshAnswer (gb : List (PV Mono R) → Option (Out (List (PV Mono R)))) (nf : PV Mono R → List (PV Mono R) → Option (Out (PV Mono R)))
    (gens : List (PV Mono R)) : Call R → Option (Out (Answer R))
  | .generators => some (.ok (.basis gens))
  | .groebnerBasis => andThen (gb gens) fun G => some (.ok (.basis G))
  | .contains f => andThen (gb gens) fun G => andThen (nf f G) fun r => some (.ok (.bool (decide (r = []))))
  | .reduce f => andThen (gb gens) fun G => andThen (nf f G) fun r => some (.ok (.poly r))

variable {gb : List (PV Mono R) → Option (Out (List (PV Mono R)))} {nf : PV Mono R → List (PV Mono R) → Option (Out (PV Mono R))}
  {gens : List (PV Mono R)}

/-- a reachable state of an object made from `gens` -/
def CacheOK (gb : List (PV Mono R) → Option (Out (List (PV Mono R)))) (gens : List (PV Mono R)) (s : IdealSt R) : Prop :=
  s.generators = gens ∧ (s.computed = true → gb gens = some (.ok s.cache))

omit [DecidableEq R] [Zero R] [One R] [Sub R] [Neg R] [Mul R] in
theorem andThen_some {α β : Type*} {x : Option (Out α)} {f : α → Option (Out β)} {b : β} (h : andThen x f = some (.ok b)) :
    ∃ a, x = some (.ok a) ∧ f a = some (.ok b) := by
  unfold andThen at h
  split at h
  · cases h
  · exact ⟨_, rfl, h⟩
  all_goals simp at h

omit [DecidableEq R] [Zero R] [One R] [Sub R] [Neg R] [Mul R] in
theorem basis_cached {s : IdealSt R} (h : CacheOK gb gens s) :
    (∀ G, gb gens = some (.ok G) → ∃ s', s.groebnerBasis gb = some (.ok (s', G)) ∧ CacheOK gb gens s') ∧
    (∀ x, s.groebnerBasis gb = some (.ok x) → gb gens = some (.ok x.2) ∧ CacheOK gb gens x.1) := by
  unfold IdealSt.groebnerBasis
  by_cases hc : s.computed = true
  · rw [if_pos hc]
    have := h.2 hc
    refine ⟨fun G hG => ?_, fun x hx => ?_⟩
    · rw [this] at hG
      simp only [Option.some.injEq, Out.ok.injEq] at hG
      exact ⟨s, by rw [hG], h⟩
    · simp only [Option.some.injEq, Out.ok.injEq] at hx
      rw [← hx]; exact ⟨this, h⟩
  · rw [if_neg hc, h.1]
    refine ⟨fun G hG => ⟨_, by rw [hG, andThen_ok], rfl, fun _ => hG⟩, fun x hx => ?_⟩
    obtain ⟨G, hG, e⟩ := andThen_some hx
    simp only [Option.some.injEq, Out.ok.injEq] at e
    rw [← e]; exact ⟨hG, rfl, fun _ => hG⟩

omit [Zero R] [One R] [Sub R] [Neg R] [Mul R] in
theorem call_fresh {s : IdealSt R} (h : CacheOK gb gens s) (c : Call R) :
    (∀ a, freshAnswer gb nf gens c = some (.ok a) → ∃ s', s.call gb nf c = some (.ok (s', a)) ∧ CacheOK gb gens s') ∧
    (∀ x, s.call gb nf c = some (.ok x) → freshAnswer gb nf gens c = some (.ok x.2) ∧ CacheOK gb gens x.1) := by
  have hb := basis_cached h
  have emp : ∀ r : PV Mono R, r.isEmpty = decide (r = []) := by intro r; cases r <;> rfl
  cases c with
  | generators =>
    refine ⟨fun a ha => ?_, fun x hx => ?_⟩
    · simp only [freshAnswer, Option.some.injEq, Out.ok.injEq] at ha
      exact ⟨s, by rw [← ha, ← h.1]; rfl, h⟩
    · simp only [IdealSt.call, Option.some.injEq, Out.ok.injEq] at hx
      rw [← hx]; exact ⟨by rw [← h.1]; rfl, h⟩
  | groebnerBasis =>
    refine ⟨fun a ha => ?_, fun x hx => ?_⟩
    · obtain ⟨G, hG, e⟩ := andThen_some ha
      simp only [Option.some.injEq, Out.ok.injEq] at e
      obtain ⟨s', h1, h2⟩ := hb.1 G hG
      exact ⟨s', by rw [IdealSt.call, h1, andThen_ok, e], h2⟩
    · obtain ⟨y, hy, e⟩ := andThen_some hx
      simp only [Option.some.injEq, Out.ok.injEq] at e
      obtain ⟨h1, h2⟩ := hb.2 y hy
      rw [← e]; exact ⟨by rw [freshAnswer, h1, andThen_ok], h2⟩
  | contains f =>
    refine ⟨fun a ha => ?_, fun x hx => ?_⟩
    · obtain ⟨G, hG, e⟩ := andThen_some ha
      obtain ⟨r, hr, e⟩ := andThen_some e
      simp only [Option.some.injEq, Out.ok.injEq] at e
      obtain ⟨s', h1, h2⟩ := hb.1 G hG
      exact ⟨s', by rw [IdealSt.call, h1, andThen_ok, hr, andThen_ok, emp, e], h2⟩
    · obtain ⟨y, hy, e⟩ := andThen_some hx
      obtain ⟨r, hr, e⟩ := andThen_some e
      simp only [Option.some.injEq, Out.ok.injEq] at e
      obtain ⟨h1, h2⟩ := hb.2 y hy
      rw [← e]; exact ⟨by rw [freshAnswer, h1, andThen_ok, hr, andThen_ok, emp], h2⟩
  | reduce f =>
    refine ⟨fun a ha => ?_, fun x hx => ?_⟩
    · obtain ⟨G, hG, e⟩ := andThen_some ha
      obtain ⟨r, hr, e⟩ := andThen_some e
      simp only [Option.some.injEq, Out.ok.injEq] at e
      obtain ⟨s', h1, h2⟩ := hb.1 G hG
      exact ⟨s', by rw [IdealSt.call, h1, andThen_ok, hr, andThen_ok, e], h2⟩
    · obtain ⟨y, hy, e⟩ := andThen_some hx
      obtain ⟨r, hr, e⟩ := andThen_some e
      simp only [Option.some.injEq, Out.ok.injEq] at e
      obtain ⟨h1, h2⟩ := hb.2 y hy
      rw [← e]; exact ⟨by rw [freshAnswer, h1, andThen_ok, hr, andThen_ok], h2⟩

omit [Zero R] [One R] [Sub R] [Neg R] [Mul R] in
theorem run_fresh : ∀ (cs : List (Call R)) (s : IdealSt R) (as : List (Answer R)), CacheOK gb gens s →
    (s.run gb nf cs = some (.ok as) ↔ List.Forall₂ (fun c a => freshAnswer gb nf gens c = some (.ok a)) cs as)
  | [], s, as, _ => by
    rw [IdealSt.run]
    constructor
    · intro h; simp only [Option.some.injEq, Out.ok.injEq] at h; rw [← h]; exact .nil
    · intro h; cases h; rfl
  | c :: cs, s, as, hs => by
    rw [IdealSt.run]
    obtain ⟨h1, h2⟩ := call_fresh (nf := nf) hs c
    constructor
    · intro h
      obtain ⟨x, hx, e⟩ := andThen_some h
      obtain ⟨bs, hbs, e⟩ := andThen_some e
      simp only [Option.some.injEq, Out.ok.injEq] at e
      obtain ⟨h3, h4⟩ := h2 x hx
      rw [← e]
      exact .cons h3 ((run_fresh cs x.1 bs h4).1 hbs)
    · intro h
      cases h with
      | cons ha hcs =>
        obtain ⟨s', h3, h4⟩ := h1 _ ha
        rw [h3, andThen_ok]
        simp only
        rw [(run_fresh cs s' _ h4).2 hcs, andThen_ok]
end

end CLPoly.GB
