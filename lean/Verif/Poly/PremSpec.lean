import Verif.Poly.FnSpec
import Verif.Poly.PowSpec
import Mathlib.Algebra.MvPolynomial.CommRing

/-! # Pseudo-division -/

namespace CLPoly
open Mono MvPolynomial
variable {vc : Var → Var → Bool} {R : Type*} [CommRing R] [DecidableEq R] [NoZeroDivisors R] {v : Var}

section split
variable {p : PV Mono R}

omit [DecidableEq R] [NoZeroDivisors R] in
theorem val_changeTerms (ho : VarOrd vc) (hp : ∀ t ∈ p, Valid vc t.1) (v : Var) (d : ℕ) :
    val (p.map fun t => (changeVarDeg vc t.1 v d, t.2)) = val (p.map fun t => (changeVarDeg vc t.1 v 0, t.2)) * X v ^ d := by
  induction p with
  | nil => simp [val_nil]
  | cons t p ih =>
    rw [List.map_cons, List.map_cons, val_cons, val_cons, ih fun t ht => hp t (by simp [ht]), add_mul]
    dsimp only
    rw [expo_change_add ho (hp t (by simp)) v, X_pow_eq_monomial, monomial_mul, mul_one]

omit [DecidableEq R] [NoZeroDivisors R] in
theorem val_keepTerms (ho : VarOrd vc) (hp : ∀ t ∈ p, Valid vc t.1) (v : Var) {m : ℕ} (h : ∀ t ∈ p, E t.1.data v = m) :
    val p = val (p.map fun t => (changeVarDeg vc t.1 v 0, t.2)) * X v ^ m := by
  rw [← val_changeTerms ho hp v m]
  congr 1
  conv_lhs => rw [← List.map_id p]
  refine List.map_congr_left fun t ht => ?_
  rw [changeVarDeg_self ho (hp t ht) v (h t ht)]; rfl

omit [DecidableEq R] [NoZeroDivisors R] in
theorem PolyOK.degreeOf_lt {mc : Mono → Mono → Bool} (M : MonoOrd vc mc) (hp : PolyOK vc mc p) (v : Var) {m : ℕ} (hm : 0 < m)
    (h : ∀ t ∈ p, E t.1.data v < m) : (val p).degreeOf v < m := by
  by_cases h0 : p = []
  · rw [h0, val_nil, degreeOf_zero]; exact hm
  · obtain ⟨t, ht, e⟩ := hp.exists_exp M h0 v
    have := h t ht
    omega

omit [DecidableEq R] [NoZeroDivisors R] in
theorem PolyOK.sublist_deg {mc : Mono → Mono → Bool} (M : MonoOrd vc mc) (hp : PolyOK vc mc p) {q : PV Mono R} (h : q.Sublist p) (w : Var) :
    (val q).degreeOf w ≤ (val p).degreeOf w := by
  have hq := hp.sublist h
  by_cases h0 : q = []
  · rw [h0, val_nil, degreeOf_zero]; exact Nat.zero_le _
  · obtain ⟨t, ht, e⟩ := hq.exists_exp M h0 w
    have := hp.exp_le M (h.subset ht) w
    omega

omit [NoZeroDivisors R] in
theorem PolyOK.sublist_vars {mc : Mono → Mono → Bool} (M : MonoOrd vc mc) (hp : PolyOK vc mc p) {q : PV Mono R} (h : q.Sublist p) :
    (val q).vars ⊆ (val p).vars := by
  rw [← polyVars_eq M hp, ← polyVars_eq M (hp.sublist h)]
  intro w hw
  unfold polyVars at hw ⊢
  rw [List.mem_toFinset, List.mem_flatMap] at hw ⊢
  obtain ⟨t, ht, h'⟩ := hw
  exact ⟨t, h.subset ht, h'⟩

omit [NoZeroDivisors R] in
theorem top_of_vars {mc : Mono → Mono → Bool} (M : MonoOrd vc mc) (hp : PolyOK vc mc p) {V : Finset Var} (hV : ∀ w ∈ V, w = v ∨ vc v w = true)
    (h : (val p).vars ⊆ V) : Top vc v p := fun t ht x hx =>
  hV x.1 (h (by rw [← polyVars_eq M hp]; exact mem_polyVars ht hx))

/-- the tests of `prem` on a term -/
theorem first_iff (ho : VarOrd vc) {m : Mono} (hm : Valid vc m) (ht : TopM vc v m) {g : Int} (hg : 0 < g) :
    (firstVar m = v ∧ firstDeg m = g) ↔ E m.data v = g := by
  rw [← upDeg_eq ho hm ht]
  unfold firstVar firstDeg upDeg
  cases m.data with
  | nil => simp; omega
  | cons x l => by_cases e : x.1 = v <;> simp [e]; omega

/-- splitting off the terms of highest degree in the top variable -/
structure Split (vc : Var → Var → Bool) (v : Var) (g : ℕ) (p T D : PV Mono R) : Prop where
  app : p = T ++ D
  top : ∀ t ∈ T, E t.1.data v = g
  rest : ∀ t ∈ D, E t.1.data v < g
  filt : T = p.filter fun t => E t.1.data v = g

omit [DecidableEq R] [NoZeroDivisors R] in
theorem split_spec (ho : VarOrd vc) (hp : PolyOK vc (lexGt vc) p) (ht : Top vc v p) {g : ℕ} (hg : 0 < g) (hd : (val p).degreeOf v = g) (b : Mono × R → Bool)
    (hb : ∀ t ∈ p, b t = true ↔ firstVar t.1 = v ∧ firstDeg t.1 = g) : Split vc v g p (p.takeWhile b) (p.dropWhile b) := by
  obtain ⟨h1, h2⟩ := takeWhile_top (fun t : Mono × R => E t.1.data v) b g p (lex_top_sorted ho hp ht)
    (fun t h => by rw [← hd]; exact hp.exp_le (lex_ord ho) h v) (fun t h => (hb t h).trans (first_iff ho (hp.monos t h) (ht t h) (by omega)))
  exact ⟨List.takeWhile_append_dropWhile.symm, fun t h => by rw [h1] at h; simpa using (List.mem_filter.1 h).2, h2, h1⟩

end split

/-! ## multiplication within the capacity -/

theorem lexMul (ho : VarOrd vc) {V : Finset Var} {p q : PV Mono R} (hp : PolyOK vc (lexGt vc) p) (hq : PolyOK vc (lexGt vc) q)
    (vp : (val p).vars ⊆ V) (vq : (val q).vars ⊆ V) (h : ∀ w, ((val p).degreeOf w + (val q).degreeOf w : ℤ) < capLex V.card) :
    ∃ out, polyMul vc (codeLex R vc) p q = some out ∧ PolyOK vc (lexGt vc) out ∧ val out = val p * val q :=
  polyMul_spec (codeLex_ok ho) hp hq (fits_lex_total ho hp hq fun w =>
    lt_of_lt_of_le (h w) (capLex_anti (Finset.card_le_card (Finset.union_subset vp vq))))

theorem premFix_spec (ho : VarOrd vc) {V : Finset Var} {F0 O : PV Mono R} (hF : PolyOK vc (lexGt vc) F0) (hO : PolyOK vc (lexGt vc) O)
    (vF : (val F0).vars ⊆ V) (vO : (val O).vars ⊆ V) {d : ℕ} (hd : 1 ≤ d)
    (h : ∀ w, ((val O).degreeOf w + d * (val F0).degreeOf w : ℤ) < capLex V.card) :
    ∃ out, premFix vc F0 d O = some out ∧ PolyOK vc (lexGt vc) out ∧ val out = val O * val F0 ^ d := by
  unfold premFix
  by_cases h1 : d = 1
  · subst h1
    rw [if_pos (by norm_num), pow_one]
    exact lexMul ho hO hF vO vF fun w => by have := h w; push_cast at this; linarith
  · rw [if_neg (by exact_mod_cast h1)]
    have hfit : PowFits vc (codeLex R vc) (FitsLex vc) F0 d := powFits_lex ho fun w => by
      have h2 := h w
      have h3 := capLex_anti (Finset.card_le_card vF)
      have : (0 : ℤ) ≤ ((val O).degreeOf w : ℤ) := by positivity
      linarith
    obtain ⟨P, p1, p2, p3⟩ := polyPowLoop_spec (codeLex_ok ho) hfit d d [] F0 true 0 1 le_rfl (by omega) le_rfl (by omega) hF (pow_one _).symm (.inl ⟨rfl, rfl⟩)
    rw [zero_add, one_mul] at p3
    have e : pvPower vc (codeLex R vc) [] F0 (d : ℤ).toNat = some P := by
      rw [Int.toNat_natCast]; unfold pvPower; rw [if_neg (by omega), if_neg h1, p1]
    rw [e, Option.bind_some]
    obtain ⟨out, o1, o2, o3⟩ := lexMul ho (V := V) hO p2 vO (by rw [p3]; exact (vars_pow _ _).trans vF) fun w => by
      have h4 := degreeOf_pow_le w (val F0) d
      rw [p3]
      refine lt_of_le_of_lt ?_ (h w)
      have : ((val F0 ^ d).degreeOf w : ℤ) ≤ d * (val F0).degreeOf w := by exact_mod_cast h4
      linarith
    exact ⟨out, o1, o2, by rw [o3, p3]⟩

/-! ## one step -/

/-- the divisor split into leading coefficient and rest -/
structure Divisor (vc : Var → Var → Bool) (v : Var) (V : Finset Var) (f : ℕ) (F F0 F' : PV Mono R) : Prop where
  ok : PolyOK vc (lexGt vc) F
  ok0 : PolyOK vc (lexGt vc) F0
  ok' : PolyOK vc (lexGt vc) F'
  vars : (val F).vars ⊆ V
  pos : 0 < f
  deg : (val F).degreeOf v = f
  lead : IsCoeff v f (val F) (val F0)
  rest : (val F').degreeOf v < f
  sum : val F = val F0 * X v ^ f + val F'
  degs : ∀ w, (val F').degreeOf w ≤ (val F).degreeOf w
  vars' : (val F').vars ⊆ V

section
variable (ho : VarOrd vc) {V : Finset Var} (hV : ∀ w ∈ V, w = v ∨ vc v w = true)
include ho hV

omit [NoZeroDivisors R] in
theorem firstDeg_eq {p : PV Mono R} (hp : PolyOK vc (lexGt vc) p) (hv : (val p).vars ⊆ V) (h : 0 < (val p).degreeOf v) :
    pFirstVar p = v ∧ pFirstDeg p = (val p).degreeOf v := by
  have h1 := top_first ho hp (top_of_vars (lex_ord ho) hp hV hv)
  by_cases e : pFirstVar p = v
  · rw [if_pos e] at h1; exact ⟨e, h1⟩
  · rw [if_neg e] at h1; omega

theorem divisor_spec {F : PV Mono R} (hF : PolyOK vc (lexGt vc) F) (hv : (val F).vars ⊆ V) (h : 0 < (val F).degreeOf v) :
    Divisor vc v V ((val F).degreeOf v) F (premLead vc v F) (premRest v F) := by
  have ht := top_of_vars (lex_ord ho) hF hV hv
  obtain ⟨e1, e2⟩ := firstDeg_eq ho hV hF hv h
  have hs := split_spec ho hF ht h rfl (fun t => decide (firstVar t.1 = v) && decide (firstDeg t.1 = pFirstDeg F)) (by intro t _; rw [e2]; simp)
  have e0 : premLead vc v F = termsAt vc v ((val F).degreeOf v) 0 F := by
    unfold premLead termsAt
    rw [hs.filt]
  have hsub : (premRest v F).Sublist F := List.dropWhile_sublist _
  refine ⟨hF, ?_, hF.sublist hsub, hv, h, rfl, ?_, ?_, ?_, ?_, ?_⟩
  · rw [e0]; exact hF.termsAt (lex_ord ho) v _ le_rfl
  · rw [e0]; exact isCoeff_termsAt ho hF.monos v _
  · exact (hF.sublist hsub).degreeOf_lt (lex_ord ho) v h hs.rest
  · conv_lhs => rw [hs.app, val_append]
    congr 1
    exact val_keepTerms ho (fun t ht => hF.monos t ((List.takeWhile_sublist _).subset ht)) v hs.top
  · exact fun w => hF.sublist_deg (lex_ord ho) hsub w
  · exact (hF.sublist_vars (lex_ord ho) hsub).trans hv

theorem premStep_spec {f : ℕ} {F F0 F' G : PV Mono R} (dv : Divisor vc v V f F F0 F') (hG : PolyOK vc (lexGt vc) G) (vG : (val G).vars ⊆ V)
    (hg : f ≤ (val G).degreeOf v) (hcap : ∀ w, w ≠ v → ((val G).degreeOf w + (val F).degreeOf w : ℤ) < capLex V.card)
    (hcapv : ((val G).degreeOf v : ℤ) < capLex V.card) :
    ∃ O G1, premStep vc v f F0 F' G = some (O, G1) ∧ PolyOK vc (lexGt vc) O ∧ PolyOK vc (lexGt vc) G1 ∧
      val O = val F0 * val G - val G1 * val F ∧ (val O).degreeOf v < (val G).degreeOf v ∧ (val O).vars ⊆ V ∧ (val G1).vars ⊆ V ∧
      (∀ w, w ≠ v → (val O).degreeOf w ≤ (val G).degreeOf w + (val F).degreeOf w) ∧
      (∀ t ∈ G1, E t.1.data v = (val G).degreeOf v - f) ∧ (∀ w, w ≠ v → (val G1).degreeOf w ≤ (val G).degreeOf w) := by
  have M := lex_ord ho
  have hpos := dv.pos
  obtain ⟨e1, e2⟩ := firstDeg_eq ho hV hG vG (by omega)
  have ht := top_of_vars M hG hV vG
  obtain ⟨g, hgd⟩ : ∃ g, g = (val G).degreeOf v := ⟨_, rfl⟩
  rw [← hgd] at hg e2 hcapv
  have hs := split_spec ho hG ht (by omega) hgd.symm (fun t => decide (firstDeg t.1 = pFirstDeg G) && decide (firstVar t.1 = v)) (by intro t _; rw [e2]; simp [and_comm])
  obtain ⟨T, hT⟩ : ∃ T, T = G.takeWhile (fun t => decide (firstDeg t.1 = pFirstDeg G) && decide (firstVar t.1 = v)) := ⟨_, rfl⟩
  obtain ⟨D, hD⟩ : ∃ D, D = G.dropWhile (fun t => decide (firstDeg t.1 = pFirstDeg G) && decide (firstVar t.1 = v)) := ⟨_, rfl⟩
  have hTs : T.Sublist G := hT ▸ List.takeWhile_sublist _
  have hDs : D.Sublist G := hD ▸ List.dropWhile_sublist _
  rw [← hT, ← hD] at hs
  have okT := hG.sublist hTs
  have okD := hG.sublist hDs
  -- G1
  obtain ⟨G1, hG1⟩ : ∃ G1, G1 = premTop vc v f G := ⟨_, rfl⟩
  have eG1 : G1 = T.map fun t => (changeVarDeg vc t.1 v ((g - f : ℕ) : ℤ), t.2) := by
    rw [hG1]; unfold premTop; rw [← hT, e2]
    refine List.map_congr_left fun t _ => ?_
    rw [Nat.cast_sub hg]
  have okG1 : PolyOK vc (lexGt vc) G1 := eG1 ▸ okT.changeTerms M v (by omega) hs.top
  have valG1 : val G1 = val (T.map fun t => (changeVarDeg vc t.1 v 0, t.2)) * X v ^ (g - f) := by
    rw [eG1]; exact val_changeTerms ho okT.monos v _
  have valT : val T = val G1 * X v ^ f := by
    rw [val_keepTerms ho okT.monos v hs.top, valG1, mul_assoc, ← pow_add, Nat.sub_add_cancel hg]
  have lcT : IsCoeff v g (val G) (val (T.map fun t => (changeVarDeg vc t.1 v 0, t.2))) := by
    have := isCoeff_termsAt ho hG.monos v g
    unfold termsAt at this
    rwa [← hs.filt] at this
  have EG1 : ∀ t ∈ G1, E t.1.data v = (g : ℤ) - f := by
    intro t h
    rw [eG1] at h
    obtain ⟨u, hu, rfl⟩ := List.mem_map.1 h
    show E (changeData vc v _ u.1.data) v = _
    rw [E_changeData ho v _ _ (okT.monos u hu).sorted, if_pos rfl, Nat.cast_sub hg]
  have Ew1 : ∀ t ∈ G1, ∀ w, w ≠ v → E t.1.data w ≤ (val G).degreeOf w := by
    intro t h w hw
    rw [eG1] at h
    obtain ⟨u, hu, rfl⟩ := List.mem_map.1 h
    show E (changeData vc v _ u.1.data) w ≤ _
    rw [E_changeData ho v _ _ (okT.monos u hu).sorted, if_neg hw]
    exact hG.exp_le M (hTs.subset hu) w
  have degG1 : ∀ w, w ≠ v → (val G1).degreeOf w ≤ (val G).degreeOf w := by
    intro w hw
    by_cases h0 : G1 = []
    · rw [h0, val_nil, degreeOf_zero]; exact Nat.zero_le _
    · obtain ⟨t, h, e⟩ := okG1.exists_exp M h0 w
      have := Ew1 t h w hw
      omega
  have degG1v : (val G1).degreeOf v ≤ g - f := by
    by_cases h0 : G1 = []
    · rw [h0, val_nil, degreeOf_zero]; exact Nat.zero_le _
    · obtain ⟨t, h, e⟩ := okG1.exists_exp M h0 v
      have := EG1 t h
      omega
  have vG1 : (val G1).vars ⊆ V := by
    intro w hw
    by_cases e : w = v
    · subst e
      have hmem : w ∈ (val G).vars := by
        rw [← polyVars_eq M hG]
        have hne : G ≠ [] := by rintro rfl; rw [val_nil, degreeOf_zero] at hgd; omega
        obtain ⟨t, h, e⟩ := hG.exists_exp M hne w
        obtain ⟨x, hx, ex⟩ := exists_of_E (d := t.1.data) (v := w) (by omega)
        rw [← ex]; exact mem_polyVars h hx
      exact vG hmem
    · rw [← polyVars_eq M okG1] at hw
      unfold polyVars at hw
      rw [List.mem_toFinset, List.mem_flatMap] at hw
      obtain ⟨t, h, h'⟩ := hw
      obtain ⟨x, hx, ex⟩ := List.mem_map.1 h'
      have hE : 0 < E t.1.data w := by rw [← ex, E_mem ho (okG1.monos t h).sorted hx]; exact (okG1.monos t h).pos x hx
      have h3 := Ew1 t h w e
      have h4 : 0 < (val G).degreeOf w := by omega
      have hne : G ≠ [] := by rintro rfl; rw [val_nil, degreeOf_zero] at h4; omega
      obtain ⟨t', h', e'⟩ := hG.exists_exp M hne w
      obtain ⟨y, hy, ey⟩ := exists_of_E (d := t'.1.data) (v := w) (by omega)
      exact vG (by rw [← polyVars_eq M hG, ← ey]; exact mem_polyVars h' hy)
  -- the first product
  have restdeg := dv.rest
  obtain ⟨F1, m1, m2, m3⟩ := lexMul ho (V := V) okG1 dv.ok' vG1 dv.vars' fun w => by
    by_cases e : w = v
    · subst e
      refine lt_of_le_of_lt ?_ hcapv
      have : (val G1).degreeOf w + (val F').degreeOf w ≤ g := by omega
      exact_mod_cast this
    · refine lt_of_le_of_lt ?_ (hcap w e)
      have h1 := degG1 w e
      have h2 := dv.degs w
      have : (val G1).degreeOf w + (val F').degreeOf w ≤ (val G).degreeOf w + (val F).degreeOf w := by omega
      exact_mod_cast this
  have vF0 : (val F0).vars ⊆ V := dv.lead.vars_subset.trans dv.vars
  have v1 : (val F1).vars ⊆ V := by rw [m3]; exact (vars_mul _ _).trans (Finset.union_subset vG1 dv.vars')
  have d1v : (val F1).degreeOf v < g := by
    rw [m3]
    have := degreeOf_mul_le v (val G1) (val F')
    omega
  have d1w : ∀ w, w ≠ v → (val F1).degreeOf w ≤ (val G).degreeOf w + (val F).degreeOf w := by
    intro w hw
    rw [m3]
    have h0 := degreeOf_mul_le w (val G1) (val F')
    have h1 := degG1 w hw
    have h2 := dv.degs w
    omega
  have valG : val G = val T + val D := by conv_lhs => rw [hs.app, val_append]
  have ident : val F0 * val D - val F1 = val F0 * val G - val G1 * val F := by
    rw [m3, valG, valT, dv.sum]; ring
  unfold premStep
  dsimp only
  rw [← hG1, ← hD, m1, Option.bind_some]
  cases hDc : D with
  | nil =>
    refine ⟨_, _, rfl, m2.neg, okG1, ?_, ?_, ?_, vG1, ?_, hgd ▸ EG1, degG1⟩
    · rw [val_pvNeg, ← ident, hDc, val_nil]; ring
    · rw [val_pvNeg, degreeOf_neg, ← hgd]; exact d1v
    · rw [val_pvNeg, vars_neg]; exact v1
    · intro w hw; rw [val_pvNeg, degreeOf_neg]; exact d1w w hw
  | cons u D' =>
    rw [← hDc]
    have dDv : (val D).degreeOf v < g := okD.degreeOf_lt M v (by omega) hs.rest
    have dDw := fun w => hG.sublist_deg M hDs w
    have dF0v : (val F0).degreeOf v = 0 := dv.lead.degreeOf
    have dF0w : ∀ w, (val F0).degreeOf w ≤ (val F).degreeOf w := fun w => dv.lead.degreeOf_le
    have vD := (hG.sublist_vars M hDs).trans vG
    obtain ⟨O, o1, o2, o3⟩ := lexMul ho (V := V) okD dv.ok0 vD vF0 fun w => by
      by_cases e : w = v
      · subst e
        refine lt_of_le_of_lt ?_ hcapv
        have : (val D).degreeOf w + (val F0).degreeOf w ≤ g := by omega
        exact_mod_cast this
      · refine lt_of_le_of_lt ?_ (hcap w e)
        have h1 := dDw w
        have h2 := dF0w w
        have : (val D).degreeOf w + (val F0).degreeOf w ≤ (val G).degreeOf w + (val F).degreeOf w := by omega
        exact_mod_cast this
    have hv : val (pvSub (lexGt vc) O F1) = val F0 * val D - val F1 := by rw [val_pvSub, o3]; ring
    have hOv : (val O).degreeOf v < g := by
      rw [o3]; have := degreeOf_mul_le v (val D) (val F0); omega
    have hOw : ∀ w, (val O).degreeOf w ≤ (val G).degreeOf w + (val F).degreeOf w := by
      intro w; rw [o3]
      have h0 := degreeOf_mul_le w (val D) (val F0)
      have h1 := dDw w
      have h2 := dF0w w
      omega
    refine ⟨pvSub (lexGt vc) O F1, G1, ?_, o2.sub M m2, okG1, by rw [hv, ident], ?_, ?_, vG1, ?_, hgd ▸ EG1, degG1⟩
    · rw [hDc] at o1 ⊢
      show (polyMul vc (codeLex R vc) (u :: D') F0).bind _ = _
      rw [o1, Option.bind_some]
    · rw [val_pvSub, ← hgd]
      exact lt_of_le_of_lt (degreeOf_sub_le v _ _) (max_lt hOv d1v)
    · rw [val_pvSub]
      refine (vars_sub_subset _).trans (Finset.union_subset ?_ v1)
      rw [o3]; exact (vars_mul _ _).trans (Finset.union_subset vD vF0)
    · intro w hw
      rw [val_pvSub]
      exact (degreeOf_sub_le w _ _).trans (max_le (hOw w) (d1w w hw))

/-! ## the loops -/

omit hV in
theorem lexGt_of_top {a b : Mono} (ha : Valid vc a) (hb : Valid vc b) (ta : TopM vc v a) (tb : TopM vc v b) (h : E b.data v < E a.data v) :
    lexGt vc a b = true := by
  rw [lexGt_iff ho ha hb]
  refine ⟨v, h, fun u hu => ?_⟩
  have key : ∀ {m : Mono}, TopM vc v m → E m.data u = 0 := by
    intro m tm
    by_contra hc
    obtain ⟨x, hx, e⟩ := exists_of_E hc
    rcases tm x hx with h' | h'
    · rw [e] at h'; rw [h', ho.irrefl _ trivial] at hu; simp at hu
    · rw [e] at h'
      have := ho.trans _ _ _ trivial trivial trivial hu h'
      rw [ho.irrefl _ trivial] at this; simp at this
  rw [key ta, key tb]

/-- after `k` steps of pseudo-division of `G` by `F` -/
structure PremInv (vc : Var → Var → Bool) (v : Var) (V : Finset Var) (f : ℕ) (F F0 G : PV Mono R) (k : ℕ) (Q O : PV Mono R) : Prop where
  okQ : PolyOK vc (lexGt vc) Q
  okO : PolyOK vc (lexGt vc) O
  vQ : (val Q).vars ⊆ V
  vO : (val O).vars ⊆ V
  eq : val F0 ^ k * val G = val Q * val F + val O
  dvO : (val O).degreeOf v + k ≤ (val G).degreeOf v
  kf : k + f ≤ (val G).degreeOf v + 1
  dwO : ∀ w, w ≠ v → (val O).degreeOf w ≤ (val G).degreeOf w + k * (val F).degreeOf w
  dwQ : ∀ w, w ≠ v → (val Q).degreeOf w ≤ (val G).degreeOf w + k * (val F).degreeOf w
  lo : ∀ t ∈ Q, ((val O).degreeOf v : ℤ) + 1 - f ≤ E t.1.data v
  hi : ∀ t ∈ Q, E t.1.data v ≤ ((val G).degreeOf v : ℤ) - f

variable {f : ℕ} {F F0 F' G : PV Mono R} (dv : Divisor vc v V f F F0 F')
  (hcap : ∀ w, w ≠ v → ((val G).degreeOf w + ((val G).degreeOf v + 1 - f : ℕ) * (val F).degreeOf w : ℤ) < capLex V.card)
  (hcapv : ((val G).degreeOf v : ℤ) < capLex V.card)
include dv hcap hcapv

omit ho hV hcapv in
theorem PremInv.cap {k : ℕ} {Q O : PV Mono R} (h : PremInv vc v V f F F0 G k Q O) {w : Var} (hw : w ≠ v) {a j : ℕ}
    (ha : a ≤ (val G).degreeOf w + k * (val F).degreeOf w) (hj : k + j ≤ (val G).degreeOf v + 1 - f) :
    ((a + j * (val F).degreeOf w : ℕ) : ℤ) < capLex V.card := by
  refine lt_of_le_of_lt ?_ (hcap w hw)
  have h1 : (k + j) * (val F).degreeOf w ≤ ((val G).degreeOf v + 1 - f) * (val F).degreeOf w := Nat.mul_le_mul_right _ hj
  have h2 : a + j * (val F).degreeOf w ≤ (val G).degreeOf w + ((val G).degreeOf v + 1 - f) * (val F).degreeOf w := by
    rw [add_mul] at h1; omega
  exact_mod_cast h2

theorem PremInv.step {k : ℕ} {Q O : PV Mono R} (h : PremInv vc v V f F F0 G k Q O) (hg : f ≤ (val O).degreeOf v) :
    ∃ O' G1 Q', premStep vc v f F0 F' O = some (O', G1) ∧ polyMul vc (codeLex R vc) F0 Q = some Q' ∧ (Q = [] → Q' = []) ∧
      PremInv vc v V f F F0 G (k + 1) (Q' ++ G1) O' ∧ (val O').degreeOf v < (val O).degreeOf v := by
  have M := lex_ord ho
  have hdv := h.dvO
  have hpos := dv.pos
  have hj : k + 1 ≤ (val G).degreeOf v + 1 - f := by omega
  obtain ⟨O', G1, s1, s2, s3, s4, s5, s6, s7, s8, s9, s10⟩ := premStep_spec ho hV dv h.okO h.vO hg
    (fun w hw => by have := h.cap dv hcap hw (h.dwO w hw) hj; rw [one_mul] at this; exact_mod_cast this)
    (lt_of_le_of_lt (by exact_mod_cast (by omega : (val O).degreeOf v ≤ (val G).degreeOf v)) hcapv)
  have vF0 : (val F0).vars ⊆ V := dv.lead.vars_subset.trans dv.vars
  have dF0v : (val F0).degreeOf v = 0 := dv.lead.degreeOf
  have dF0w : ∀ w, (val F0).degreeOf w ≤ (val F).degreeOf w := fun w => dv.lead.degreeOf_le
  have dQv : (val Q).degreeOf v ≤ (val G).degreeOf v := by
    by_cases h0 : Q = []
    · rw [h0, val_nil, degreeOf_zero]; exact Nat.zero_le _
    · obtain ⟨t, ht, e⟩ := h.okQ.exists_exp M h0 v
      have := h.hi t ht
      omega
  obtain ⟨Q', m1, m2, m3⟩ := lexMul ho (V := V) dv.ok0 h.okQ vF0 h.vQ fun w => by
    by_cases e : w = v
    · subst e
      refine lt_of_le_of_lt ?_ hcapv
      rw [dF0v]
      push_cast; omega
    · refine lt_of_le_of_lt ?_ (h.cap dv hcap e (h.dwQ w e) hj)
      have := dF0w w
      push_cast; omega
  have hQ0 : Q = [] → Q' = [] := by
    rintro rfl
    rw [val_nil, mul_zero] at m3
    exact (m2.val_eq_zero M).1 m3
  -- exponents of `v` in `Q'`
  have hE : ∀ t ∈ Q', ∃ u ∈ Q, E t.1.data v = E u.1.data v := by
    intro t ht
    have h1 : expo t.1 ∈ (val F0 * val Q).support := by rw [← m3]; exact (m2.mem_support M).2 ⟨t, ht, rfl⟩
    classical
    obtain ⟨a, ha, b, hb, e⟩ := Finset.mem_add.1 (support_mul _ _ h1)
    obtain ⟨u, hu, eu⟩ := (h.okQ.mem_support M).1 hb
    refine ⟨u, hu, ?_⟩
    have h2 := congrArg (fun s => s v) e
    simp only [Finsupp.add_apply] at h2
    have h3 : a v = 0 := by have := monomial_le_degreeOf v ha; omega
    rw [← (m2.monos t ht).expo_eq v, ← (h.okQ.monos u hu).expo_eq v, ← h2, h3, eu, zero_add]
  have hs5 : ((val O').degreeOf v : ℤ) + 1 ≤ (val O).degreeOf v := by exact_mod_cast s5
  have vQ' : (val Q').vars ⊆ V := by rw [m3]; exact (vars_mul _ _).trans (Finset.union_subset vF0 h.vQ)
  have tQ' := top_of_vars M m2 hV vQ'
  have tG1 := top_of_vars M s3 hV s7
  refine ⟨O', G1, Q', s1, m1, hQ0, ⟨⟨?_, ?_, ?_⟩, s2, ?_, s6, ?_, by omega, by omega, ?_, ?_, ?_, ?_⟩, s5⟩
  · intro t ht
    rcases List.mem_append.1 ht with ht | ht
    · exact m2.monos t ht
    · exact s3.monos t ht
  · refine List.pairwise_append.2 ⟨m2.canon.1, s3.canon.1, fun a ha b hb => ?_⟩
    refine lexGt_of_top ho (m2.monos a ha) (s3.monos b hb) (tQ' a ha) (tG1 b hb) ?_
    obtain ⟨u, hu, e⟩ := hE a ha
    have := h.lo u hu
    rw [e, s9 b hb]; omega
  · intro t ht
    rcases List.mem_append.1 ht with ht | ht
    · exact m2.canon.2 t ht
    · exact s3.canon.2 t ht
  · rw [val_append]; exact (vars_add_subset _ _).trans (Finset.union_subset vQ' s7)
  · rw [val_append, m3, s4, pow_succ, mul_right_comm, h.eq]; ring
  · intro w hw
    have h1 := s8 w hw
    have h2 := h.dwO w hw
    rw [add_mul, one_mul]; omega
  · intro w hw
    rw [val_append]
    refine (degreeOf_add_le _ _ _).trans (max_le ?_ ?_)
    · rw [m3]
      have h0 := degreeOf_mul_le w (val F0) (val Q)
      have h1 := dF0w w
      have h2 := h.dwQ w hw
      rw [add_mul, one_mul]; omega
    · have h1 := s10 w hw
      have h2 := h.dwO w hw
      rw [add_mul, one_mul]; omega
  · intro t ht
    rcases List.mem_append.1 ht with ht | ht
    · obtain ⟨u, hu, e⟩ := hE t ht
      have := h.lo u hu
      rw [e]; omega
    · rw [s9 t ht]; omega
  · intro t ht
    rcases List.mem_append.1 ht with ht | ht
    · obtain ⟨u, hu, e⟩ := hE t ht
      rw [e]; exact h.hi u hu
    · rw [s9 t ht]; omega

omit hcap hcapv in
theorem loop_cond {O : PV Mono R} (hO : PolyOK vc (lexGt vc) O) (vO : (val O).vars ⊆ V) :
    (pFirstVar O = v ∧ pFirstDeg O ≥ f) ↔ f ≤ (val O).degreeOf v := by
  have h1 := top_first ho hO (top_of_vars (lex_ord ho) hO hV vO)
  have := dv.pos
  by_cases e : pFirstVar O = v
  · rw [if_pos e] at h1; rw [h1]; simp [e]
  · rw [if_neg e] at h1
    constructor
    · intro h; exact absurd h.1 e
    · intro h; omega

theorem pquoLoop_spec : ∀ (n k : ℕ) (Q O : PV Mono R), PremInv vc v V f F F0 G k Q O → (val O).degreeOf v < f + n →
    ∃ (k' : ℕ) (Q' O' : PV Mono R), pquoLoop vc v f F0 F' n Q O (((val G).degreeOf v : ℤ) - f + 1 - k) = some (Q', O', ((val G).degreeOf v : ℤ) - f + 1 - k') ∧
      premLoop vc v f F0 F' n O (((val G).degreeOf v : ℤ) - f + 1 - k) = some (O', ((val G).degreeOf v : ℤ) - f + 1 - k') ∧
      PremInv vc v V f F F0 G k' Q' O' ∧ (val O').degreeOf v < f := by
  intro n
  induction n with
  | zero =>
    intro k Q O h hn
    have hc : ¬ (pFirstVar O = v ∧ pFirstDeg O ≥ f) := by rw [loop_cond ho hV dv h.okO h.vO]; omega
    unfold pquoLoop premLoop
    rw [if_neg hc, if_neg hc]
    exact ⟨k, Q, O, rfl, rfl, h, by omega⟩
  | succ n ih =>
    intro k Q O h hn
    unfold pquoLoop premLoop
    by_cases hc : pFirstVar O = v ∧ pFirstDeg O ≥ f
    · rw [if_pos hc, if_pos hc]
      obtain ⟨O', G1, Q', s1, s2, -, s3, s4⟩ := h.step ho hV dv hcap hcapv ((loop_cond ho hV dv h.okO h.vO).1 hc)
      rw [s1, Option.bind_some, s2, Option.bind_some, Option.bind_some]
      have := ih (k + 1) _ _ s3 (by omega)
      rw [show ((val G).degreeOf v : ℤ) - f + 1 - (k + 1 : ℕ) = ((val G).degreeOf v : ℤ) - f + 1 - k - 1 by push_cast; ring] at this
      exact this
    · rw [if_neg hc, if_neg hc]
      rw [loop_cond ho hV dv h.okO h.vO] at hc
      exact ⟨k, Q, O, rfl, rfl, h, by omega⟩

end

/-- what pseudo-division returns: `L^e G = Q F + S` with `L` the leading coefficient of `F` in `v` -/
def IsPseudo {R : Type*} [CommRing R] (v : Var) (isL : Bool) (G F Q S : MvPolynomial Var R) : Prop :=
  (∃ L e, IsCoeff v (F.degreeOf v) F L ∧ e ≤ G.degreeOf v + 1 - F.degreeOf v ∧ (isL = true → e = G.degreeOf v + 1 - F.degreeOf v) ∧
    L ^ e * G = Q * F + S) ∧ (S = 0 ∨ S.degreeOf v < F.degreeOf v)

/-- the operands fit the packed representation at every step -/
def PremFits {R : Type*} [CommRing R] (v : Var) (G F : MvPolynomial Var R) : Prop :=
  ((G.degreeOf v : ℕ) : ℤ) < capLex (G.vars ∪ F.vars).card ∧
  ∀ w, w ≠ v → ((G.degreeOf w + (G.degreeOf v + 1 - F.degreeOf v) * F.degreeOf w : ℕ) : ℤ) < capLex (G.vars ∪ F.vars).card

theorem isPseudo_nil {R : Type*} [CommRing R] {v : Var} (isL : Bool) {G F L : MvPolynomial Var R} (hL : IsCoeff v (F.degreeOf v) F L) (h : G.degreeOf v < F.degreeOf v) :
    IsPseudo v isL G F 0 G :=
  ⟨⟨L, 0, hL, Nat.zero_le _, fun _ => by omega, by ring⟩, .inr h⟩

variable {G F : PV Mono R}

theorem pquoLex_spec (ho : VarOrd vc) (hV : ∀ w ∈ (val G).vars ∪ (val F).vars, w = v ∨ vc v w = true) (isL : Bool)
    (hG : PolyOK vc (lexGt vc) G) (hF : PolyOK vc (lexGt vc) F) (hne : F ≠ []) (hfit : PremFits v (val G) (val F)) :
    ∃ Q S, pquoLex vc v isL G F = some (.ok (Q, S)) ∧ premLex vc v isL G F = some (.ok S) ∧ PolyOK vc (lexGt vc) Q ∧ PolyOK vc (lexGt vc) S ∧
      IsPseudo v isL (val G) (val F) (val Q) (val S) := by
  have M := lex_ord ho
  obtain ⟨V, eV⟩ : ∃ V, V = (val G).vars ∪ (val F).vars := ⟨_, rfl⟩
  obtain ⟨hcapv, hcap⟩ := hfit
  rw [← eV] at hV hcapv hcap
  have vG : (val G).vars ⊆ V := eV ▸ Finset.subset_union_left
  have vF : (val F).vars ⊆ V := eV ▸ Finset.subset_union_right
  have fG := top_first ho hG (top_of_vars M hG hV vG)
  have fF := top_first ho hF (top_of_vars M hF hV vF)
  by_cases hf : (val F).degreeOf v = 0
  · -- `v` does not occur in `F`
    have hcond : isNumber F = true ∨ pFirstVar F ≠ v := by
      by_cases e : pFirstVar F = v
      · left
        rw [if_pos e, hf] at fF
        cases F with
        | nil => exact absurd rfl hne
        | cons t F =>
          have hdata : t.1.data = [] := by
            cases hd : t.1.data with
            | nil => rfl
            | cons x l =>
              have := (hF.monos t (by simp)).pos x (by rw [hd]; simp)
              have h2 : pFirstDeg (t :: F) = x.2 := by show firstDeg t.1 = _; unfold firstDeg; rw [hd]
              rw [h2] at fF
              push_cast at fF
              omega
          have := lex_const_front ho hF hdata
          subst this
          simp [isNumber, hdata]
      · exact .inr e
    have hprem : premLex vc v isL G F = some (.ok []) := by
      unfold premLex
      rw [if_neg hne]
      by_cases e : isNumber F = true
      · rw [if_pos e]
      · rw [if_neg e, if_pos (hcond.resolve_left e)]
    have hL : IsCoeff v 0 (val F) (val F) := IsCoeff.self hf
    have hd : (if v = pFirstVar G then pFirstDeg G else 0) = ((val G).degreeOf v : ℤ) := by
      rw [← fG]; simp only [eq_comm]
    unfold pquoLex
    dsimp only
    rw [if_neg hne, if_pos hcond, hd]
    by_cases hg : (val G).degreeOf v = 0
    · rw [if_neg (by rw [hg]; simp)]
      refine ⟨G, [], rfl, hprem, hG, .nil, ⟨val F, 1, by rw [hf]; exact hL, by rw [hf]; omega, fun _ => by omega, ?_⟩, .inl val_nil⟩
      rw [val_nil]; ring
    · rw [if_pos (show ((val G).degreeOf v : ℤ) ≠ 0 by exact_mod_cast hg)]
      obtain ⟨Q, q1, q2, q3⟩ := premFix_spec ho (V := V) hF hG vF vG (d := (val G).degreeOf v) (by omega) fun w => by
        by_cases e : w = v
        · subst e; rw [hf]; simpa using hcapv
        · refine lt_of_le_of_lt ?_ (hcap w e)
          rw [hf, Nat.sub_zero, add_mul]; push_cast; omega
      rw [q1]
      refine ⟨Q, [], rfl, hprem, q2, .nil, ⟨val F, (val G).degreeOf v + 1, by rw [hf]; exact hL, by rw [hf]; omega, fun _ => by omega, ?_⟩, .inl val_nil⟩
      rw [val_nil, q3]; ring
  · obtain ⟨e1, e2⟩ := firstDeg_eq ho hV hF vF (by omega)
    have hnum : ¬ isNumber F = true := by
      intro h
      obtain ⟨c, hc⟩ := (isNumber_iff M hF).1 h
      rw [hc, degreeOf_C] at hf; exact hf rfl
    have hcond : ¬ (isNumber F = true ∨ pFirstVar F ≠ v) := by simp [hnum, e1]
    by_cases hlt : (val G).degreeOf v < (val F).degreeOf v
    · have hc2 : pFirstVar G ≠ v ∨ pFirstDeg G < pFirstDeg F := by
        by_cases e : pFirstVar G = v
        · rw [if_pos e] at fG; right; rw [fG, e2]; exact_mod_cast hlt
        · exact .inl e
      refine ⟨[], G, ?_, ?_, .nil, hG, ?_⟩
      · unfold pquoLex; rw [if_neg hne, if_neg hcond, if_pos hc2]
      · unfold premLex; rw [if_neg hne, if_neg hnum, if_neg (by simp [e1]), if_pos hc2]
      · rw [val_nil]; exact isPseudo_nil isL (divisor_spec ho hV hF vF (by omega)).lead hlt
    · obtain ⟨f, hfe⟩ : ∃ f, f = (val F).degreeOf v := ⟨_, rfl⟩
      obtain ⟨g, hge⟩ : ∃ g, g = (val G).degreeOf v := ⟨_, rfl⟩
      obtain ⟨g1, g2⟩ := firstDeg_eq ho hV hG vG (by omega)
      have hc2 : ¬ (pFirstVar G ≠ v ∨ pFirstDeg G < pFirstDeg F) := by
        rw [g2, e2]; simp only [g1]; push Not; exact ⟨rfl, by exact_mod_cast (by omega : (val F).degreeOf v ≤ (val G).degreeOf v)⟩
      have dv := divisor_spec ho hV hF vF (by omega)
      rw [← hfe] at dv e2
      have hcap' : ∀ w, w ≠ v → ((val G).degreeOf w + ((val G).degreeOf v + 1 - f : ℕ) * (val F).degreeOf w : ℤ) < capLex V.card := by
        intro w hw; have := hcap w hw; rw [← hfe] at this; exact_mod_cast this
      have inv0 : PremInv vc v V f F (premLead vc v F) G 0 [] G :=
        ⟨.nil, hG, by rw [val_nil, vars_0]; exact Finset.empty_subset _, vG, by rw [val_nil]; ring, by omega, by omega,
          fun w _ => by omega, fun w _ => by rw [val_nil, degreeOf_zero]; omega, by simp, by simp⟩
      obtain ⟨O1, G1, Q1, s1, s2, s3, s4, s5⟩ := inv0.step ho hV dv hcap' hcapv (by omega)
      rw [s3 rfl, List.nil_append, zero_add] at s4
      obtain ⟨k, Q, O, l1, l2, l3, l4⟩ := pquoLoop_spec ho hV dv hcap' hcapv (val G |>.degreeOf v) 1 G1 O1 s4 (by omega)
      have hk := l3.kf
      rw [show ((val G).degreeOf v : ℤ) - f + 1 - (1 : ℕ) = ((val G).degreeOf v : ℤ) - f by push_cast; ring] at l1 l2
      have hd : ((val G).degreeOf v : ℤ) - f + 1 - k = ((g + 1 - f - k : ℕ) : ℤ) := by omega
      rw [hd] at l1 l2
      unfold pquoLex premLex
      dsimp only
      rw [if_neg hne, if_neg hcond, if_neg hc2, if_neg hne, if_neg hnum, if_neg (by simp [e1]), if_neg hc2, g2, e2, s1, Option.bind_some, Option.bind_some,
        Int.toNat_natCast, l1, l2, Option.bind_some, Option.bind_some]
      dsimp only
      by_cases hfix : isL = true ∧ ((g + 1 - f - k : ℕ) : ℤ) > 0
      · rw [if_pos hfix, if_pos hfix]
        have hdpos : 1 ≤ g + 1 - f - k := by have := hfix.2; omega
        have vF0 := dv.lead.vars_subset.trans vF
        have dF0v := dv.lead.degreeOf
        have fits : ∀ A : MvPolynomial Var R, (∀ w, w ≠ v → A.degreeOf w ≤ (val G).degreeOf w + k * (val F).degreeOf w) → A.degreeOf v ≤ g →
            ∀ w, (A.degreeOf w + (g + 1 - f - k : ℕ) * (val (premLead vc v F)).degreeOf w : ℤ) < capLex V.card := by
          intro A h1 h2 w
          by_cases e : w = v
          · subst e
            rw [dF0v]; push_cast; rw [mul_zero, add_zero]
            exact lt_of_le_of_lt (by exact_mod_cast h2) (hge ▸ hcapv)
          · have h3 := l3.cap dv hcap' e (h1 w e) (j := g + 1 - f - k) (by omega)
            refine lt_of_le_of_lt ?_ h3
            have h4 : (g + 1 - f - k) * (val (premLead vc v F)).degreeOf w ≤ (g + 1 - f - k) * (val F).degreeOf w :=
              Nat.mul_le_mul_left _ dv.lead.degreeOf_le
            exact_mod_cast Nat.add_le_add_left h4 _
        have dQv : (val Q).degreeOf v ≤ g := by
          by_cases h0 : Q = []
          · rw [h0, val_nil, degreeOf_zero]; exact Nat.zero_le _
          · obtain ⟨t, ht, e⟩ := l3.okQ.exists_exp M h0 v
            have := l3.hi t ht
            omega
        obtain ⟨O', o1, o2, o3⟩ := premFix_spec ho dv.ok0 l3.okO vF0 l3.vO hdpos (fits _ l3.dwO (by have := l3.dvO; omega))
        obtain ⟨Q', q1, q2, q3⟩ := premFix_spec ho dv.ok0 l3.okQ vF0 l3.vQ hdpos (fits _ l3.dwQ dQv)
        rw [o1, q1]
        refine ⟨Q', O', rfl, rfl, q2, o2, ⟨val (premLead vc v F), g + 1 - f, by rw [← hfe]; exact dv.lead, by omega, fun _ => by omega, ?_⟩, ?_⟩
        · have h5 := l3.eq
          rw [q3, o3]
          conv_lhs => rw [show g + 1 - f = (g + 1 - f - k) + k by omega, pow_add, mul_assoc, h5]
          ring
        · right
          rw [o3]
          have h6 := degreeOf_mul_le v (val O) (val (premLead vc v F) ^ (g + 1 - f - k))
          have h7 := degreeOf_pow_le v (val (premLead vc v F)) (g + 1 - f - k)
          rw [dF0v, mul_zero] at h7
          omega
      · rw [if_neg hfix, if_neg hfix]
        refine ⟨Q, O, rfl, rfl, l3.okQ, l3.okO, ⟨val (premLead vc v F), k, by rw [← hfe]; exact dv.lead, by omega, fun hl => ?_, l3.eq⟩, .inr (by omega)⟩
        have : ¬ ((g + 1 - f - k : ℕ) : ℤ) > 0 := fun h => hfix ⟨hl, h⟩
        omega

theorem premLex_zero (isL : Bool) (G : PV Mono R) : premLex vc v isL G [] = some .throws ∧ pquoLex vc v isL G [] = some .throws := ⟨rfl, rfl⟩

/-! ## the public entry points -/

theorem premConv_spec {mc : Mono → Mono → Bool} (M : MonoOrd vc mc) (isL : Bool) (hG : PolyOK vc mc G) (hF : PolyOK vc mc F) (hne : F ≠ [])
    (hnum : isNumber F = false) (hfit : PremFits v (val G) (val F)) :
    ∃ Q S, ((pquoLex (varUni v) v isL (polyConvert (varUni v) (lexGt (varUni v)) id G) (polyConvert (varUni v) (lexGt (varUni v)) id F)).map
        fun o => o.bind fun r => .ok (polyConvert vc mc id r.1, polyConvert vc mc id r.2)) = some (.ok (Q, S)) ∧
      premConv vc mc v isL G F = some (.ok S) ∧ PolyOK vc mc Q ∧ PolyOK vc mc S ∧ IsPseudo v isL (val G) (val F) (val Q) (val S) := by
  have hu := varUni_ord v
  have Mu := lex_ord hu
  obtain ⟨g1, g2⟩ := polyConvert_spec M Mu hG id rfl
  obtain ⟨f1, f2⟩ := polyConvert_spec M Mu hF id rfl
  replace g2 : val (polyConvert (varUni v) (lexGt (varUni v)) id G) = val G := by ext s; exact g2 s
  replace f2 : val (polyConvert (varUni v) (lexGt (varUni v)) id F) = val F := by ext s; exact f2 s
  have hne' : polyConvert (varUni v) (lexGt (varUni v)) id F ≠ [] := by
    intro h
    rw [h, val_nil] at f2
    exact hne ((hF.val_eq_zero M).1 f2.symm)
  obtain ⟨Q, S, h1, h2, h3, h4, h5⟩ := pquoLex_spec hu (v := v) (fun w _ => by by_cases e : w = v <;> simp [varUni, e]) isL g1 f1 hne'
    (by rw [g2, f2]; exact hfit)
  obtain ⟨q1, q2⟩ := polyConvert_spec Mu M h3 id rfl
  obtain ⟨s1, s2⟩ := polyConvert_spec Mu M h4 id rfl
  replace q2 : val (polyConvert vc mc id Q) = val Q := by ext s; exact q2 s
  replace s2 : val (polyConvert vc mc id S) = val S := by ext s; exact s2 s
  refine ⟨_, _, by rw [h1]; rfl, ?_, q1, s1, by rw [q2, s2, ← g2, ← f2]; exact h5⟩
  unfold premConv
  rw [if_neg hne, if_neg (by simp [hnum]), h2]; rfl

theorem isPseudo_number {c : R} (hF : val F = C c) (isL : Bool) (Gv : MvPolynomial Var R) :
    IsPseudo v isL Gv (val F) (Gv * val F ^ Gv.degreeOf v) 0 := by
  have h0 : (val F).degreeOf v = 0 := by rw [hF, degreeOf_C]
  refine ⟨⟨val F, Gv.degreeOf v + 1, by rw [h0]; exact IsCoeff.self h0, by omega, fun _ => by omega, by ring⟩, .inl rfl⟩

omit [NoZeroDivisors R] in
theorem number_length {mc : Mono → Mono → Bool} (M : MonoOrd vc mc) {p : PV Mono R} (hp : PolyOK vc mc p) {c : R} (h : val p = C c) : p.length ≤ 1 := by
  have := (isNumber_iff M hp).2 ⟨c, h⟩
  match p, this with
  | [], _ => simp
  | [t], _ => simp
  | _ :: _ :: _, h => simp [isNumber] at h

/-- a constant divisor: nothing can overflow -/
theorem numberCase [Nontrivial R] {C' : OrderCode R} {B : List Var → Mono → Prop} (H : CodeOK vc C' B) (hG : PolyOK vc C'.mc G) (hF : PolyOK vc C'.mc F)
    (hnum : isNumber F = true) (isL : Bool) :
    ∃ Q, (if ((val G).degreeOf v : ℤ) ≠ 0 then (polyPow vc C' F ((val G).degreeOf v : ℤ).toNat).bind fun P => (polyMul vc C' G P).map fun Q => Out.ok (Q, [])
        else some (.ok (G, []))) = some (.ok (Q, ([] : PV Mono R))) ∧ PolyOK vc C'.mc Q ∧ IsPseudo v isL (val G) (val F) (val Q) 0 := by
  obtain ⟨c, hc⟩ := (isNumber_iff H.ord hF).1 hnum
  by_cases h0 : (val G).degreeOf v = 0
  · rw [if_neg (by rw [h0]; simp)]
    refine ⟨G, rfl, hG, ?_⟩
    have := isPseudo_number (v := v) hc isL (val G)
    rwa [h0, pow_zero, mul_one] at this
  · rw [if_pos (show ((val G).degreeOf v : ℤ) ≠ 0 by exact_mod_cast h0), Int.toNat_natCast]
    have hp : PowFits vc C' B F ((val G).degreeOf v) := by
      intro a b _ _ _ x y hx _ ex _
      exact .inl (number_length H.ord hx (c := c ^ a) (by rw [ex, hc, map_pow]))
    obtain ⟨P, p1, p2, p3⟩ := polyPow_spec H hp hF
    obtain ⟨Q, q1, q2, q3⟩ := polyMul_spec H hG p2 (.inr (.inl (number_length H.ord p2 (c := c ^ (val G).degreeOf v) (by rw [p3, hc, map_pow]))))
    rw [p1, Option.bind_some, q1]
    refine ⟨Q, rfl, q2, ?_⟩
    rw [q3, p3]
    exact isPseudo_number hc isL (val G)

omit [NoZeroDivisors R] in
theorem top_of_firstVar (ho : VarOrd vc) {p : PV Mono R} (hp : PolyOK vc (lexGt vc) p)
    (h : isNumber p = true ∨ v = pFirstVar p ∨ vc v (pFirstVar p) = true) : ∀ w ∈ (val p).vars, w = v ∨ vc v w = true := by
  have M := lex_ord ho
  by_cases hn : isNumber p = true
  · obtain ⟨c, hc⟩ := (isNumber_iff M hp).1 hn
    rw [hc, vars_C]; simp
  replace h := h.resolve_left hn
  cases p with
  | nil => simp [isNumber] at hn
  | cons t p =>
    cases hd : t.1.data with
    | nil =>
      have := lex_const_front ho hp hd
      subst this
      simp [isNumber, hd] at hn
    | cons x l =>
      have ht := lex_first ho hp hd
      have hf : pFirstVar (t :: p) = x.1 := by show firstVar t.1 = _; unfold firstVar; rw [hd]
      rw [hf] at h
      intro w hw
      rw [← polyVars_eq M hp] at hw
      unfold polyVars at hw
      rw [List.mem_toFinset, List.mem_flatMap] at hw
      obtain ⟨u, hu, hw⟩ := hw
      obtain ⟨y, hy, rfl⟩ := List.mem_map.1 hw
      rcases h with h | h
      · rw [h]; exact ht u hu y hy
      · rcases ht u hu y hy with h' | h'
        · rw [h']; exact .inr h
        · exact .inr (ho.trans _ _ _ trivial trivial trivial h h')

theorem pquoConv_spec [Nontrivial R] {C' : OrderCode R} {B : List Var → Mono → Prop} (H : CodeOK vc C' B) (isL : Bool) (hG : PolyOK vc C'.mc G)
    (hF : PolyOK vc C'.mc F) (hne : F ≠ []) (hfit : PremFits v (val G) (val F)) :
    ∃ Q S, pquoConv vc C' v isL G F = some (.ok (Q, S)) ∧ premConv vc C'.mc v isL G F = some (.ok S) ∧ PolyOK vc C'.mc Q ∧ PolyOK vc C'.mc S ∧
      IsPseudo v isL (val G) (val F) (val Q) (val S) := by
  unfold pquoConv
  dsimp only
  rw [if_neg hne]
  by_cases hnum : isNumber F = true
  · obtain ⟨Q, q1, q2, q3⟩ := numberCase (v := v) H hG hF hnum isL
    rw [if_pos hnum, degreeV_spec H.ord hG]
    refine ⟨Q, [], q1, ?_, q2, .nil, by rw [val_nil]; exact q3⟩
    unfold premConv; rw [if_neg hne, if_pos hnum]
  · rw [if_neg hnum]
    exact premConv_spec H.ord isL hG hF hne (by simpa using hnum) hfit

theorem pquoLexEntry_spec [Nontrivial R] (ho : VarOrd vc) (isL : Bool) (hG : PolyOK vc (lexGt vc) G)
    (hF : PolyOK vc (lexGt vc) F) (hne : F ≠ []) (hfit : PremFits v (val G) (val F)) :
    ∃ Q S, pquoLexEntry vc v isL G F = some (.ok (Q, S)) ∧ premLexEntry vc v isL G F = some (.ok S) ∧ PolyOK vc (lexGt vc) Q ∧ PolyOK vc (lexGt vc) S ∧
      IsPseudo v isL (val G) (val F) (val Q) (val S) := by
  have H : CodeOK vc (codeLex R vc) (FitsLex vc) := codeLex_ok ho
  unfold pquoLexEntry premLexEntry
  dsimp only
  rw [if_neg hne, if_neg hne]
  by_cases hnum : isNumber F = true
  · obtain ⟨Q, q1, q2, q3⟩ := numberCase (v := v) H hG hF hnum isL
    rw [if_pos hnum, if_pos hnum, degreeLex_spec ho hG]
    exact ⟨Q, [], q1, rfl, q2, .nil, by rw [val_nil]; exact q3⟩
  · rw [if_neg hnum, if_neg hnum]
    by_cases hd : directLex vc v G F = true
    · rw [if_pos hd, if_pos hd]
      refine pquoLex_spec ho ?_ isL hG hF hne hfit
      unfold directLex at hd
      simp only [Bool.and_eq_true, Bool.or_eq_true, decide_eq_true_eq] at hd
      intro w hw
      rcases Finset.mem_union.1 hw with hw | hw
      · exact top_of_firstVar ho hG (by rw [← or_assoc]; exact hd.2) w hw
      · exact top_of_firstVar ho hF (.inr hd.1) w hw
    · rw [if_neg hd, if_neg hd]
      exact pquoConv_spec H isL hG hF hne hfit

end CLPoly
