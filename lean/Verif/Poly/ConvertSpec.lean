import Verif.Poly.ConvertDefs
import Verif.Poly.OpsSpec
import Mathlib.Data.Rat.Lemmas

/-! # Conversions keep the polynomial -/

namespace CLPoly
open Mono MvPolynomial

variable {vc vc' : Var → Var → Bool} {mc mc' : Mono → Mono → Bool}

section
variable {R₁ R₂ : Type*} [CommRing R₁] [CommRing R₂] [DecidableEq R₂]

theorem coeff_map_terms (M : MonoOrd vc mc) {p : PV Mono R₁} (hp : PolySorted vc mc p) (f : R₁ → R₂) (f0 : f 0 = 0) (s : Var →₀ ℕ) :
    coeff s (val (p.map fun t => (t.1, f t.2))) = f (coeff s (val p)) := by
  have hq : PolySorted vc mc (p.map fun t => (t.1, f t.2)) :=
    ⟨by intro t ht; obtain ⟨u, hu, rfl⟩ := List.mem_map.1 ht; exact hp.monos u hu, by rw [List.pairwise_map]; exact hp.sorted⟩
  by_cases h : ∃ t ∈ p, expo t.1 = s
  · obtain ⟨t, ht, rfl⟩ := h
    rw [hp.coeff_mem M ht]
    exact hq.coeff_mem M (t := (t.1, f t.2)) (List.mem_map.2 ⟨t, ht, rfl⟩)
  · push Not at h
    rw [coeff_val_not_mem h, f0, coeff_val_not_mem]
    intro t ht
    obtain ⟨u, hu, rfl⟩ := List.mem_map.1 ht
    exact h u hu

/-- conversion to another order or coefficient type: canonical, coefficient by coefficient -/
theorem polyConvert_spec (M : MonoOrd vc mc) (M' : MonoOrd vc' mc') {p : PV Mono R₁} (hp : PolyOK vc mc p) (f : R₁ → R₂) (f0 : f 0 = 0) :
    PolyOK vc' mc' (polyConvert vc' mc' f p) ∧ ∀ s, coeff s (val (polyConvert vc' mc' f p)) = f (coeff s (val p)) := by
  have hps : PolySorted vc mc p := ⟨hp.monos, hp.canon.1⟩
  have hpos : ∀ t ∈ p.map fun t => (t.1, f t.2), ∀ x ∈ t.1.data, 0 ≤ x.2 := by
    intro t ht x hx
    obtain ⟨u, hu, rfl⟩ := List.mem_map.1 ht
    exact ((hp.monos u hu).pos x hx).le
  obtain ⟨h1, h2, h3⟩ := polyNormalize_spec M' hpos
  refine ⟨(polyNormalize_ok_iff M' hpos (sortResult_merge M' (firstNormalize_valid M'.vo hpos))).2 ?_, fun s => ?_⟩
  · intro t ht ht0
    obtain ⟨u, hu, rfl⟩ := List.mem_map.1 ht
    rw [coeff_map_terms M hps f f0, hps.coeff_mem M hu]; exact ht0
  · show coeff s (val (polyNormalize vc' mc' _)) = _
    rw [h2, coeff_map_terms M hps f f0]

theorem polyConvert_hom (M : MonoOrd vc mc) (M' : MonoOrd vc' mc') {p : PV Mono R₁} (hp : PolyOK vc mc p) (f : R₁ →+* R₂) :
    val (polyConvert vc' mc' f p) = map f (val p) := by
  ext s
  rw [(polyConvert_spec M M' hp f (map_zero f)).2, coeff_map]

end

/-! ## QQ → ZZ -/

theorem denLcm_fold (p : PV Mono ℚ) (d : ℤ) (hd : 0 < d) :
    0 < p.foldl (fun d t => (Int.lcm d t.2.den : ℤ)) d ∧ d ∣ p.foldl (fun d t => (Int.lcm d t.2.den : ℤ)) d ∧
    (∀ t ∈ p, (t.2.den : ℤ) ∣ p.foldl (fun d t => (Int.lcm d t.2.den : ℤ)) d) ∧
    ∀ m : ℤ, d ∣ m → (∀ t ∈ p, (t.2.den : ℤ) ∣ m) → p.foldl (fun d t => (Int.lcm d t.2.den : ℤ)) d ∣ m := by
  induction p generalizing d with
  | nil => exact ⟨hd, dvd_rfl, by simp, fun m h _ => h⟩
  | cons t p ih =>
    have hl : 0 < (Int.lcm d t.2.den : ℤ) := by
      have : Int.lcm d t.2.den ≠ 0 := Int.lcm_ne_zero hd.ne' (by exact_mod_cast t.2.den_ne_zero)
      omega
    obtain ⟨h1, h2, h3, h4⟩ := ih (Int.lcm d t.2.den) hl
    refine ⟨h1, (Int.dvd_lcm_left _ _).trans h2, ?_, ?_⟩
    · intro u hu
      rcases List.mem_cons.1 hu with rfl | hu
      · exact (Int.dvd_lcm_right _ _).trans h2
      · exact h3 u hu
    · intro m hm hp
      exact h4 m (Int.coe_lcm_dvd hm (hp t (by simp))) fun u hu => hp u (by simp [hu])

theorem denLcm_pos (p : PV Mono ℚ) : 0 < denLcm p := (denLcm_fold p 1 one_pos).1
theorem den_dvd_denLcm {p : PV Mono ℚ} {t : Mono × ℚ} (ht : t ∈ p) : (t.2.den : ℤ) ∣ denLcm p := (denLcm_fold p 1 one_pos).2.2.1 t ht
theorem denLcm_dvd {p : PV Mono ℚ} {m : ℤ} (h : ∀ t ∈ p, (t.2.den : ℤ) ∣ m) : denLcm p ∣ m := (denLcm_fold p 1 one_pos).2.2.2 m (one_dvd _) h

theorem num_mul_tdiv {D : ℤ} {q : ℚ} (h : (q.den : ℤ) ∣ D) : ((q.num * Int.tdiv D q.den : ℤ) : ℚ) = D * q := by
  obtain ⟨k, rfl⟩ := h
  have hd : (q.den : ℤ) ≠ 0 := by exact_mod_cast q.den_ne_zero
  rw [Int.mul_tdiv_cancel_left _ hd]
  have hq : (q.num : ℚ) = q * q.den := (Rat.mul_den_eq_num q).symm
  push_cast
  rw [hq]; ring

/-- the result is the polynomial times the lcm of the denominators -/
theorem convQZ_spec (M : MonoOrd vc mc) (M' : MonoOrd vc' mc') {p : PV Mono ℚ} (hp : PolyOK vc mc p) :
    PolyOK vc' mc' (convQZ vc' mc' p) ∧ ∀ s, ((coeff s (val (convQZ vc' mc' p)) : ℤ) : ℚ) = denLcm p * coeff s (val p) := by
  obtain ⟨h1, h2⟩ := polyConvert_spec M M' hp (fun q : ℚ => q.num * Int.tdiv (denLcm p) q.den) (by simp)
  refine ⟨h1, fun s => ?_⟩
  unfold convQZ
  rw [h2]
  by_cases h : ∃ t ∈ p, expo t.1 = s
  · obtain ⟨t, ht, rfl⟩ := h
    rw [hp.coeff_mem M ht]
    exact num_mul_tdiv (den_dvd_denLcm ht)
  · push Not at h
    rw [coeff_val_not_mem h]; simp

theorem convZQ_spec (M : MonoOrd vc mc) (M' : MonoOrd vc' mc') {p : PV Mono ℤ} (hp : PolyOK vc mc p) :
    PolyOK vc' mc' (convZQ vc' mc' p) ∧ val (convZQ vc' mc' p) = map (Int.castRingHom ℚ) (val p) :=
  ⟨(polyConvert_spec M M' hp _ (by simp)).1, polyConvert_hom M M' hp (Int.castRingHom ℚ)⟩

theorem convQZ_map (M : MonoOrd vc mc) (M' : MonoOrd vc' mc') {p : PV Mono ℚ} (hp : PolyOK vc mc p) :
    map (Int.castRingHom ℚ) (val (convQZ vc' mc' p)) = C (denLcm p : ℚ) * val p := by
  ext s
  rw [coeff_map, coeff_C_mul]
  exact (convQZ_spec M M' hp).2 s

/-- the leading term of a canonical polynomial is determined by its value: same order, same polynomial -/
theorem polyConvert_id (M : MonoOrd vc mc) {R : Type*} [CommRing R] [DecidableEq R] {p : PV Mono R} (hp : PolyOK vc mc p) : polyConvert vc mc id p = p := by
  refine PolyOK.ext M (polyConvert_spec M M hp id rfl).1 hp ?_
  ext s; exact (polyConvert_spec M M hp id rfl).2 s

theorem isNumber_iff {R : Type*} [CommRing R] (M : MonoOrd vc mc) {p : PV Mono R} (hp : PolyOK vc mc p) : isNumber p = true ↔ ∃ c, val p = C c := by
  constructor
  · intro h
    match p, h with
    | [], _ => exact ⟨0, by rw [val_nil, C_0]⟩
    | [t], h =>
      refine ⟨t.2, ?_⟩
      have : t.1.data = [] := by simpa [isNumber] using h
      rw [val_cons, val_nil, add_zero, show expo t.1 = 0 by unfold expo; rw [this]; rfl, monomial_zero']
    | _ :: _ :: _, h => simp [isNumber] at h
  · rintro ⟨c, hc⟩
    have key : ∀ t ∈ p, expo t.1 = 0 := by
      intro t ht
      have h1 := hp.coeff_mem M ht
      rw [hc, coeff_C] at h1
      by_contra h0
      rw [if_neg (Ne.symm h0)] at h1
      exact hp.canon.2 t ht h1.symm
    have data : ∀ t ∈ p, t.1 = Mono.one := fun t ht => expo_inj M.vo (hp.monos t ht) Mono.one_valid (by rw [key t ht, expo_one])
    match p with
    | [] => rfl
    | [t] => rw [isNumber, data t (by simp)]; rfl
    | t :: u :: p =>
      exfalso
      have := (List.pairwise_cons.1 hp.canon.1).1 u (by simp)
      rw [data t (by simp), data u (by simp), M.lawful.irrefl _ Mono.one_valid] at this
      cases this

theorem tonum_spec {R : Type*} [CommRing R] (M : MonoOrd vc mc) {p : PV Mono R} (hp : PolyOK vc mc p) (c : R) : tonum p = some c ↔ val p = C c := by
  unfold tonum
  by_cases h : isNumber p = true
  · rw [if_pos h, Option.some.injEq]
    match p, h with
    | [], _ => rw [val_nil, ← C_0]; exact (C_injective Var R).eq_iff.symm
    | [t], h =>
      have : t.1.data = [] := by simpa [isNumber] using h
      rw [val_cons, val_nil, add_zero, show expo t.1 = 0 by unfold expo; rw [this]; rfl, monomial_zero']
      exact (C_injective Var R).eq_iff.symm
    | _ :: _ :: _, h => simp [isNumber] at h
  · rw [if_neg h]
    constructor
    · intro h'; cases h'
    · intro h'; exact absurd ((isNumber_iff M hp).2 ⟨c, h'⟩) h

section
variable {R : Type*} [CommRing R] [DecidableEq R]

theorem ofTerm_spec (M : MonoOrd vc mc) {m : Mono} (hm : ∀ x ∈ m.data, 0 ≤ x.2) (c : R) :
    PolyOK vc mc (polyNormalize vc mc [(m, c)]) ∧ val (polyNormalize vc mc [(m, c)]) = monomial (expo m) c := by
  have hpos : ∀ t ∈ [(m, c)], ∀ x ∈ t.1.data, 0 ≤ x.2 := by
    intro t ht; rw [List.mem_singleton.1 ht]; exact hm
  have hv : val [(m, c)] = monomial (expo m) c := by rw [val_cons, val_nil, add_zero]
  refine ⟨(polyNormalize_ok_iff M hpos (sortResult_merge M (firstNormalize_valid M.vo hpos))).2 ?_, ?_⟩
  · intro t ht ht0
    rw [List.mem_singleton.1 ht] at ht0 ⊢
    rw [hv, coeff_monomial, if_pos rfl]; exact ht0
  · rw [(polyNormalize_spec M hpos).2.1, hv]

theorem ofNum_spec (M : MonoOrd vc mc) (c : R) : PolyOK vc mc (ofNum vc mc c) ∧ val (ofNum vc mc c) = C c := by
  have := ofTerm_spec M (m := Mono.one) (by simp [Mono.one]) c
  rw [expo_one, monomial_zero'] at this
  exact this

theorem ofVar_spec (M : MonoOrd vc mc) (v : Var) : PolyOK vc mc (ofVar vc mc v : PV Mono R) ∧ val (ofVar vc mc v : PV Mono R) = X v := by
  have := ofTerm_spec (R := R) M (m := ⟨[(v, 1)], 1⟩) (by simp) 1
  rw [show expo ⟨[(v, 1)], 1⟩ = Finsupp.single v 1 by unfold expo; simp] at this
  exact this

theorem ofMono_spec (M : MonoOrd vc mc) {m : Mono} (hm : Valid vc m) : PolyOK vc mc (ofMono vc mc m : PV Mono R) ∧ val (ofMono vc mc m : PV Mono R) = monomial (expo m) 1 :=
  ofTerm_spec M (fun x hx => (hm.pos x hx).le) 1
end

end CLPoly
