import Verif.Wang.LeadTotal

/-! # `__wang_leading_coeff` on the image of a factorization -/

namespace CLPoly
namespace Mtshl
open Mono Mgcd Run Upoly Factor Lift Wang Charset MvPolynomial

/-- the factor `h`, scaled such that its leading coefficient has the value `δ` at the point -/
noncomputable def scaledTo (x : Var) (a : Var → ℤ) (δ : ℤ) (h : MvPolynomial Var ℤ) : MvPolynomial Var ℤ := C (δ / eval a (toU x h).leadingCoeff) * h

section
variable {vc : Var → Var → Bool} (ho : VarOrd vc) {K : Finset Var} {B : ℕ}

theorem images_scale {x : Var} {a : Var → ℤ} : ∀ {us : List (UPoly ℤ)} {H : List (MvPolynomial Var ℤ)}, List.Forall₂ (fun u h => ∃ d : ℤ, evalAt x a h = Polynomial.C d * toPoly u) us H →
    ∃ ds : List ℤ, evalAt x a H.prod = Polynomial.C ds.prod * (us.map toPoly).prod ∧ List.Forall₂ (fun u h => ∃ d ∈ ds, evalAt x a h = Polynomial.C d * toPoly u) us H
  | [], [], _ => ⟨[], by simp, List.Forall₂.nil⟩
  | u :: us, h :: H, List.Forall₂.cons hh hs => by
    obtain ⟨d, hd⟩ := hh
    obtain ⟨ds, h1, h2⟩ := images_scale hs
    refine ⟨d :: ds, ?_, List.Forall₂.cons ⟨d, by simp, hd⟩ (h2.imp fun _ _ ⟨e, he, h⟩ => ⟨e, by simp [he], h⟩)⟩
    rw [List.prod_cons, map_mul, h1, hd, List.prod_cons, List.map_cons, List.prod_cons, Polynomial.C_mul]; ring

include ho in
theorem targets_wp (hB : (B : ℤ) ≤ capLex K.card) {α : List (Var × ℤ)} (hα : ∀ w ∈ K, (α.lookup w).isSome = true) {δ : ℤ} : ∀ {sg : List (PV Mono ℤ)}, (∀ s ∈ sg, OKIn vc K s ∧ (∀ w, (val s).degreeOf w < B) ∧ eval (ptVal α) (val s) ≠ 0 ∧ eval (ptVal α) (val s) ∣ δ) →
    Wp (fun _ => targets true vc α δ sg) fun o => ∃ l, o = some l
  | [], _ => Wp.ret ⟨[], rfl⟩
  | s :: ss, hs => by
    unfold targets
    obtain ⟨s1, s2, s3, s4⟩ := hs s (by simp)
    refine Wp.bind (P := fun o => ∃ T, o = some T) (f := fun _ o => match o with
      | none => Run.ret none
      | some t => Run.bind (targets true vc α δ ss) fun r => Run.ret (r.map (t :: ·))) ?_ fun o hq => ?_
    · unfold target
      dsimp only
      rw [assignAt_const ho s1.1 fun w hw => hα w (s1.2 hw)]
      simp only [if_neg s3, Int.tmod_eq_zero_of_dvd s4, ne_eq, not_true_eq_false, if_false]
      obtain ⟨m1, m2⟩ := mkConst_in (vc := vc) (K := K) (Int.tdiv δ (eval (ptVal α) (val s)))
      exact Wp.bind (f := fun _ t => Run.ret (some t)) (mulN_wp ho hB s1 m1 fun w => by rw [m2, degreeOf_C]; exact s2 w) fun t _ => Wp.ret ⟨t, rfl⟩
    · obtain ⟨t, rfl⟩ := hq
      refine Wp.bind (f := fun _ r => Run.ret (r.map (t :: ·))) (targets_wp hB hα (sg := ss) fun s h => hs s (by simp [h])) fun r hr => ?_
      obtain ⟨l, rfl⟩ := hr
      exact Wp.ret ⟨t :: l, rfl⟩

theorem scaleFactor_wp {δ : ℤ} (hδ : δ ≠ 0) {u : UPoly ℤ} {U : Polynomial ℤ} (hu : Is u U) (u0 : U ≠ 0) (hd : Upoly.lc u ∣ δ) : Wp (fun _ => scaleFactor δ u) fun v => ∃ V, Is v V ∧ Polynomial.C U.leadingCoeff * V = Polynomial.C δ * U := by
  refine Wp.mono (Wp.and_post (P := fun _ => True) ?_ fun _ => scaleFactor_spec hδ hu u0) fun v h => h.2
  unfold scaleFactor
  have : (u.all fun t => decide (Int.tmod (δ * t.2) (Upoly.lc u) = 0)) = true := List.all_eq_true.2 fun t _ => decide_eq_true (Int.tmod_eq_zero_of_dvd (hd.mul_right _))
  rw [if_pos this]
  exact Wp.ret trivial

include ho in
/-- the factors `H` of `f` have the images `us` up to constants, and the factors of the leading coefficient have own primes at the point: the scaled factors are found -/
theorem wangLc_wp (hB : (B : ℤ) ≤ capLex (insert x K).card) {f : PV Mono ℤ} (hf : OKIn vc (insert x K) f) (hdeg : ∀ w, (val f).degreeOf w < B) {H : List (MvPolynomial Var ℤ)} (hH : val f = H.prod) {us : List (UPoly ℤ)} (hne : us ≠ [])
    (hus : ∀ u ∈ us, Is u (toPoly u) ∧ toPoly u ≠ 0) {α : List (Var × ℤ)} (hα : ∀ w ∈ K, (α.lookup w).isSome = true) (himg : List.Forall₂ (fun u h => ∃ d : ℤ, evalAt x (ptVal α) h = Polynomial.C d * toPoly u) us H) {c : ℤ}
    (hc : evalAt x (ptVal α) (val f) = Polynomial.C c * (us.map toPoly).prod) {L : PV Mono ℤ} (hLe : L = (leadIn vc (lexGt vc) f x).1) (hL0 : eval (ptVal α) (val L) ≠ 0) {γ : ℤ} {l : List (PV Mono ℤ × ℕ)}
    (hfl : isNumber L = false → FacX False vc (lexGt vc) (val L) γ l ∧ (∀ x ∈ l, Irreducible (val x.1)) ∧
      ∀ a e b, l = a ++ e :: b → ∃ q : ℤ, Prime q ∧ q ∣ eval (ptVal α) (val e.1) ∧ ¬ q ∣ c * γ ∧ ∀ z ∈ a ++ b, ¬ q ∣ eval (ptVal α) (val z.1)) :
    Wp (fun n => wangLc true vc n (fun _ => Run.ret (γ, l)) f us α x c) fun o => ∃ w, o = some w ∧ OKIn vc (insert x K) w.1 ∧ val w.1 = (H.map (scaledTo x (ptVal α) (eval (ptVal α) (val L)))).prod ∧
      List.Forall₂ (fun v h => Is v (evalAt x (ptVal α) (scaledTo x (ptVal α) (eval (ptVal α) (val L)) h))) w.2.1 H ∧
      List.Forall₂ (fun T h => OKIn vc K T ∧ IsCoeff x ((scaledTo x (ptVal α) (eval (ptVal α) (val L)) h).degreeOf x) (scaledTo x (ptVal α) (eval (ptVal α) (val L)) h) (val T)) w.2.2 H := by
  have M := lex_ord ho
  obtain ⟨_, l2, l3⟩ := leadIn_spec M hf.1 x
  rw [← hLe] at l2 l3
  have hLK : OKIn vc K L := ⟨l2, fun w hw => by
    have h1 := hf.2 (l3.vars_subset hw)
    rcases Finset.mem_insert.1 h1 with e | e
    · exact absurd (e ▸ hw) l3.not_vars
    · exact e⟩
  have hBK : (B : ℤ) ≤ capLex K.card := hB.trans (capLex_anti (Finset.card_le_card (Finset.subset_insert _ _)))
  have hδ : constVal (if isNumber L = true then L else assignAt vc α L) = eval (ptVal α) (val L) := by
    by_cases hn : isNumber L = true
    · rw [if_pos hn, number_val ho l2 hn, eval_C]
    · rw [if_neg hn]; exact assignAt_const ho l2 fun w hw => hα w (hLK.2 hw)
  have hLl : val L = (toU x (val f)).leadingCoeff := isLead_iff.1 l3
  have hlp : val L = (H.map fun h => (toU x h).leadingCoeff).prod := by rw [hLl, hH, lead_prod]
  have L0 : val L ≠ 0 := fun e => hL0 (by rw [e, map_zero])
  obtain ⟨δ, hd⟩ : ∃ δ, δ = eval (ptVal α) (val L) := ⟨_, rfl⟩
  have hLdeg : ∀ w, (val L).degreeOf w < B := fun w => lt_of_le_of_lt l3.degreeOf_le (hdeg w)
  -- values of the leading coefficients
  have hδp : δ = ((H.map fun h => (toU x h).leadingCoeff).map (eval (ptVal α))).prod := by rw [hd, hlp, map_list_prod]
  have hl0 : ∀ h ∈ H, eval (ptVal α) (toU x h).leadingCoeff ≠ 0 ∧ eval (ptVal α) (toU x h).leadingCoeff ∣ δ := fun h hh => by
    have : eval (ptVal α) (toU x h).leadingCoeff ∣ δ := by
      rw [hδp, List.map_map]
      exact List.dvd_prod (List.mem_map_of_mem (f := (eval (ptVal α)) ∘ fun h => (toU x h).leadingCoeff) hh)
    refine ⟨fun e => hL0 ?_, this⟩
    rw [e] at this
    rw [← hd]; exact zero_dvd_iff.1 this
  have hlc : ∀ g : MvPolynomial Var ℤ, eval (ptVal α) (toU x g).leadingCoeff ≠ 0 → (evalAt x (ptVal α) g).leadingCoeff = eval (ptVal α) (toU x g).leadingCoeff := fun g hg => by
    have h1 := evalAt_coeff x (ptVal α) (isLead_iff.2 rfl : IsCoeff x (g.degreeOf x) g (toU x g).leadingCoeff)
    have h2 : (evalAt x (ptVal α) g).natDegree = g.degreeOf x := le_antisymm (evalAt_natDegree_le _ _ _) (Polynomial.le_natDegree_of_ne_zero (by rw [h1]; exact hg))
    rw [Polynomial.leadingCoeff, h2, h1]
  have hlcu : ∀ u ∈ us, Upoly.lc u = (toPoly u).leadingCoeff := fun u hu => is_lc (hus u hu).1
  obtain ⟨ds, hds, himg'⟩ := images_scale himg
  have hU0 : (us.map toPoly).prod ≠ 0 := List.prod_ne_zero fun h => by
    obtain ⟨u, hu, e⟩ := List.mem_map.1 h
    exact (hus u hu).2 e
  have hdc : ds.prod = c := by
    rw [← hH, hc] at hds
    exact (Polynomial.C_injective (mul_right_cancel₀ hU0 hds)).symm
  have hlprod : ∀ vs : List (UPoly ℤ), (∀ u ∈ vs, Upoly.lc u = (toPoly u).leadingCoeff) → (vs.map Upoly.lc).prod = (vs.map toPoly).prod.leadingCoeff := fun vs => by
    induction vs with
    | nil => simp
    | cons u vs ih =>
      intro h
      rw [List.map_cons, List.prod_cons, List.map_cons, List.prod_cons, Polynomial.leadingCoeff_mul, h u (by simp), ih fun v hv => h v (by simp [hv])]
  have hδc : δ = c * (us.map Upoly.lc).prod := by
    have h1 := hlc (val f) (by rw [← hLl]; exact hL0)
    rw [hc, Polynomial.leadingCoeff_mul, Polynomial.leadingCoeff_C, ← hLl, ← hd] at h1
    rw [← h1, hlprod us hlcu]
  have hud : ∀ u ∈ us, Upoly.lc u ∣ δ := fun u hu => by rw [hδc]; exact (List.dvd_prod (List.mem_map_of_mem hu)).mul_left _
  have hrel : List.Forall₂ (fun u P => ∃ d, eval (ptVal α) P = d * Upoly.lc u ∧ d ∣ c) us (H.map fun h => (toU x h).leadingCoeff) := by
    rw [List.forall₂_map_right_iff]
    refine List.forall₂_iff_zip.2 ⟨himg'.length_eq, fun {u h} hz => ?_⟩
    obtain ⟨d, h1, h2⟩ := (List.forall₂_iff_zip.1 himg').2 hz
    obtain ⟨hu, hh⟩ := List.of_mem_zip hz
    refine ⟨d, ?_, hdc ▸ List.dvd_prod h1⟩
    rw [← hlc h (hl0 h hh).1, h2, Polynomial.leadingCoeff_mul, Polynomial.leadingCoeff_C, hlcu u hu]
  unfold wangLc
  dsimp only
  rw [← hLe, hδ, ← hd]
  simp only [if_neg (show ¬ δ = 0 by rw [hd]; exact hL0)]
  have hδ0 : δ ≠ 0 := by rw [hd]; exact hL0
  refine Wp.bind (P := fun o => ∃ sg, o = some sg ∧ List.Forall₂ (fun s P => OKIn vc K s ∧ (∀ w, (val s).degreeOf w < B) ∧ ∃ a b : ℤ, a ≠ 0 ∧ b ≠ 0 ∧ C a * val s = C b * P) sg (H.map fun h => (toU x h).leadingCoeff) ∧ ((sg.map val).prod = val L ∨ (sg.map val).prod = -val L))
    (m := fun n => if isNumber L = true then Run.ret (some (L :: (us.tail.map fun _ => [(Mono.one, 1)]))) else splitLc true vc n (fun _ => Run.ret (γ, l)) L us α c)
    (f := fun _ o => match o with
      | none => Run.ret none
      | some sg =>
        Run.bind (mulN true vc f (mkConst (δ ^ (us.length - 1)))) fun fs =>
        Run.bind (runMap (scaleFactor δ) us) fun vs =>
        Run.bind (targets true vc α δ sg) fun o => Run.ret (o.map fun ts => (fs, vs, ts))) (Wp.ite (fun hn => Wp.ret ?_) fun hn => ?_) fun o hq => ?_
  · have hz := number_val ho l2 hn
    obtain ⟨z, hzz⟩ : ∃ z, val L = C z := ⟨_, hz⟩
    have z0 : z ≠ 0 := fun e => L0 (by rw [hzz, e, C_0])
    have hcst : ∀ P ∈ H.map (fun h => (toU x h).leadingCoeff), ∃ g : ℤ, g ≠ 0 ∧ P = C g := fun P hP => by
      have hPd : P ∣ val L := by rw [hlp]; exact List.dvd_prod hP
      have hv := vars_of_dvd hPd L0
      rw [hzz, vars_C, Finset.subset_empty] at hv
      have e := vars_eq_empty_iff_eq_C.1 hv
      refine ⟨_, fun h => ?_, e⟩
      rw [h, C_0] at e
      rw [e] at hPd
      exact L0 (zero_dvd_iff.1 hPd)
    refine ⟨_, rfl, ?_, .inl ?_⟩
    · have hlen := hrel.length_eq
      match us, (H.map fun h => (toU x h).leadingCoeff), hlen, hcst, hne with
      | u :: us, P :: Ps, hlen, hcst, _ =>
        obtain ⟨g, g0, hg⟩ := hcst P (by simp)
        refine List.Forall₂.cons ⟨hLK, hLdeg, g, z, g0, z0, by rw [hzz, hg, mul_comm]⟩ ?_
        rw [List.tail_cons, List.forall₂_map_left_iff]
        refine List.forall₂_iff_zip.2 ⟨by simpa using hlen, fun {u' Q} hq => ?_⟩
        obtain ⟨g, g0, hg⟩ := hcst Q (by simp [(List.of_mem_zip hq).2])
        refine ⟨one_in, fun w => ?_, g, 1, g0, one_ne_zero, by rw [val_one, hg, C_1, mul_one, one_mul]⟩
        rw [val_one, ← C_1, degreeOf_C]
        exact lt_of_le_of_lt (Nat.zero_le _) (hdeg w)
    · rw [List.map_cons, List.prod_cons, List.map_map]
      have : ((us.tail.map (val ∘ fun _ => [((Mono.one, 1) : Mono × ℤ)])).prod) = 1 := by
        refine List.prod_eq_one fun z hz => ?_
        obtain ⟨_, _, rfl⟩ := List.mem_map.1 hz
        exact val_one
      rw [this, mul_one]
  · obtain ⟨f1, f2, f3⟩ := hfl (by simpa using hn)
    refine ((splitLc_wp ho hBK hLK hLdeg f1 f2 hα hL0 hlp.symm hrel (by rw [← hd, hδc]) hne f3).and_post fun n => splitLc_prod ho hLK L0 (facL := fun _ => Run.ret (γ, l)) (Post.ret f1) us α c).mono fun o ho' => ?_
    obtain ⟨⟨sg, rfl, h1⟩, h2⟩ := ho'
    exact ⟨sg, rfl, h1, (h2 sg rfl).2.2⟩
  obtain ⟨sg, rfl, hs1, hs2⟩ := hq
  have hpos : 0 < us.length := List.length_pos_iff.2 hne
  have hsg : ∀ s ∈ sg, OKIn vc K s ∧ (∀ w, (val s).degreeOf w < B) ∧ eval (ptVal α) (val s) ≠ 0 ∧ eval (ptVal α) (val s) ∣ δ := fun s hs => by
    obtain ⟨P, _, p1, p2, _⟩ := forall₂_mem_left hs1 hs
    have h1 : eval (ptVal α) (val s) ∣ δ := by
      have h2 : val s ∣ (sg.map val).prod := List.dvd_prod (List.mem_map_of_mem hs)
      have h3 : val s ∣ val L := by
        rcases hs2 with e | e <;> rw [e] at h2
        · exact h2
        · exact (dvd_neg).1 h2
      rw [hd]
      exact map_dvd (eval (ptVal α)) h3
    exact ⟨p1, p2, fun e => hδ0 (zero_dvd_iff.1 (e ▸ h1)), h1⟩
  obtain ⟨m1, m2⟩ := mkConst_in (vc := vc) (K := insert x K) (δ ^ (us.length - 1))
  dsimp only
  refine Wp.bind (f := fun _ fs => Run.bind (runMap (scaleFactor δ) us) fun vs => Run.bind (targets true vc α δ sg) fun o => Run.ret (o.map fun ts => (fs, vs, ts))) (mulN_wp ho hB hf m1 fun w => by rw [m2, degreeOf_C]; exact hdeg w) fun fs hfs => ?_
  refine Wp.bind (f := fun _ vs => Run.bind (targets true vc α δ sg) fun o => Run.ret (o.map fun ts => (fs, vs, ts))) (Wp.runMap (f := fun _ => scaleFactor δ) (P := fun u v => ∃ V, Is v V ∧ Polynomial.C (toPoly u).leadingCoeff * V = Polynomial.C δ * toPoly u) fun u hu => scaleFactor_wp hδ0 (hus u hu).1 (hus u hu).2 (hud u hu)) fun vs hvs => ?_
  refine Wp.bind (f := fun _ o => Run.ret (o.map fun ts => (fs, vs, ts))) ((targets_wp ho hBK hα hsg).and_post fun _ => targets_rel ho hα fun s hs => (hsg s hs).1) fun o hto => ?_
  obtain ⟨⟨ts, rfl⟩, ht⟩ := hto
  have ht' := ht ts rfl
  have hk : ∀ h ∈ H, δ / eval (ptVal α) (toU x h).leadingCoeff * eval (ptVal α) (toU x h).leadingCoeff = δ := fun h hh => Int.ediv_mul_cancel (hl0 h hh).2
  refine Wp.ret ⟨(fs, vs, ts), rfl, hfs.1, ?_, ?_, ?_⟩
  · -- the product
    have hlen : us.length = H.length := himg.length_eq
    have hCδ : (C δ : MvPolynomial Var ℤ) ≠ 0 := fun e => hδ0 (C_injective _ _ (by rw [e, C_0]))
    have h1 : ∀ G : List (MvPolynomial Var ℤ), (∀ h ∈ G, h ∈ H) → C ((G.map fun h => (toU x h).leadingCoeff).map (eval (ptVal α))).prod * (G.map (scaledTo x (ptVal α) δ)).prod = C (δ ^ G.length) * G.prod := fun G => by
      induction G with
      | nil => intro _; simp
      | cons h G ih =>
        intro hG
        have h2 := hk h (hG h (by simp))
        simp only [List.map_cons, List.prod_cons, List.length_cons, pow_succ, C_mul]
        rw [mul_mul_mul_comm, ih fun g hg => hG g (by simp [hg]), scaledTo, ← mul_assoc (C (eval _ _)), ← C_mul, mul_comm (eval _ _), h2]
        ring
    have h2 := h1 H fun _ h => h
    rw [← hδp] at h2
    refine mul_left_cancel₀ hCδ ?_
    dsimp only
    rw [h2, hfs.2, m2, ← hH, ← hlen, mul_left_comm, ← C_mul, ← pow_succ', Nat.sub_add_cancel hpos, mul_comm]
  · -- the images
    refine List.forall₂_iff_zip.2 ⟨hvs.length_eq.symm.trans himg.length_eq, fun {v h} hz => ?_⟩
    obtain ⟨i, hi, e⟩ := List.getElem_of_mem hz
    have i1 : i < vs.length := lt_of_lt_of_le hi (by rw [List.length_zip]; exact min_le_left _ _)
    have i2 : i < H.length := by rw [List.length_zip] at hi; omega
    have i3 : i < us.length := by rw [himg.length_eq]; exact i2
    rw [List.getElem_zip] at e
    obtain ⟨V, V1, V2⟩ := (List.forall₂_iff_get.1 hvs).2 i i3 i1
    obtain ⟨d, hd'⟩ := (List.forall₂_iff_get.1 himg).2 i i3 i2
    simp only [List.get_eq_getElem] at V1 V2 hd'
    rw [(Prod.mk.inj e).1] at V1
    rw [(Prod.mk.inj e).2] at hd'
    have hh : h ∈ H := (Prod.mk.inj e).2 ▸ List.getElem_mem _
    have hu : us[i] ∈ us := List.getElem_mem _
    have e1 : V = evalAt x (ptVal α) (scaledTo x (ptVal α) δ h) := by
      have hC : (Polynomial.C (toPoly us[i]).leadingCoeff : Polynomial ℤ) ≠ 0 := fun e => (hus _ hu).2 (Polynomial.leadingCoeff_eq_zero.1 (Polynomial.C_injective (by rw [e, Polynomial.C_0])))
      refine mul_left_cancel₀ hC ?_
      have h3 := hlc h (hl0 h hh).1
      rw [hd', Polynomial.leadingCoeff_mul, Polynomial.leadingCoeff_C] at h3
      have h4 : evalAt x (ptVal α) (C (δ / eval (ptVal α) (toU x h).leadingCoeff)) = Polynomial.C (δ / eval (ptVal α) (toU x h).leadingCoeff) := by simp [evalAt]
      rw [V2, scaledTo, map_mul, h4, hd']
      have h5 := hk h hh
      rw [← h3] at h5 ⊢
      conv_lhs => rw [← h5]
      simp only [Polynomial.C_mul]
      ring
    rw [← e1]; exact V1
  · -- the leading coefficients
    rw [List.forall₂_map_right_iff] at hs1
    refine List.forall₂_iff_zip.2 ⟨ht'.length_eq.symm.trans hs1.length_eq, fun {T h} hz => ?_⟩
    obtain ⟨i, hi, e⟩ := List.getElem_of_mem hz
    have i1 : i < ts.length := lt_of_lt_of_le hi (by rw [List.length_zip]; exact min_le_left _ _)
    have i2 : i < H.length := by rw [List.length_zip] at hi; omega
    have i3 : i < sg.length := by rw [hs1.length_eq]; exact i2
    rw [List.getElem_zip] at e
    obtain ⟨t1, t2, _, t4⟩ := (List.forall₂_iff_get.1 ht').2 i i3 i1
    obtain ⟨_, _, a, b, a0, b0, hab⟩ := (List.forall₂_iff_get.1 hs1).2 i i3 i2
    simp only [List.get_eq_getElem] at t1 t2 t4 hab
    rw [(Prod.mk.inj e).1] at t1 t4
    rw [(Prod.mk.inj e).2] at hab
    have hh : h ∈ H := (Prod.mk.inj e).2 ▸ List.getElem_mem _
    refine ⟨t1, ?_⟩
    rw [isLead_iff, scaledTo, lead_C_mul]
    have hev := congrArg (eval (ptVal α)) hab
    rw [map_mul, map_mul, eval_C, eval_C] at hev
    obtain ⟨P, hP⟩ : ∃ P, P = (toU x h).leadingCoeff := ⟨_, rfl⟩
    rw [← hP] at hab hev ⊢
    have h5 := hk h hh
    rw [← hP] at h5
    have hC : (C (b * eval (ptVal α) P) : MvPolynomial Var ℤ) ≠ 0 := fun e => by
      have := C_injective _ _ (e.trans C_0.symm)
      rcases mul_eq_zero.1 this with h | h
      · exact b0 h
      · exact (hl0 _ hh).1 (hP ▸ h)
    refine mul_left_cancel₀ hC ?_
    calc C (b * eval (ptVal α) P) * val T = C a * (C (eval (ptVal α) (val sg[i])) * val T) := by rw [← hev, C_mul]; ring
      _ = C δ * (C a * val sg[i]) := by rw [t4]; ring
      _ = C (δ / eval (ptVal α) P * eval (ptVal α) P) * (C b * P) := by rw [hab, h5]
      _ = _ := by rw [C_mul, C_mul]; ring

end

end Mtshl
end CLPoly
