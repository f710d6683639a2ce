import Verif.Wang.LiftStep
import Verif.Wang.LiftLead

/-! # Completeness of the lifting of all variables -/

namespace CLPoly
namespace Mtshl
open Mono Mgcd Run Upoly Factor Lift Wang Charset MvPolynomial

section
variable {R : Type} [DecidableEq R] [Field R] {vc : Var → Var → Bool} (ho : VarOrd vc) {x1 : Var} {α : Var → R}

/-- the substitutions of a list, from the left -/
noncomputable def subs : List (Var × R) → MvPolynomial Var R →+* MvPolynomial Var R
  | [] => RingHom.id _
  | y :: ys => (subs ys).comp (sub1 y.1 y.2)

theorem subs_nil (f : MvPolynomial Var R) : subs [] f = f := rfl
theorem subs_cons (y : Var × R) (ys : List (Var × R)) (f : MvPolynomial Var R) : subs (y :: ys) f = subs ys (sub1 y.1 y.2 f) := rfl

theorem sub1_comm {x y : Var} (h : x ≠ y) (a b : R) (f : MvPolynomial Var R) : sub1 x a (sub1 y b f) = sub1 y b (sub1 x a f) := by
  have : (sub1 x a).comp (sub1 y b) = (sub1 y b).comp (sub1 x a) := by
    refine MvPolynomial.ringHom_ext (fun r => ?_) fun w => ?_
    · simp [sub1_C]
    · rw [RingHom.comp_apply, RingHom.comp_apply, sub1_X, sub1_X]
      by_cases hw : w = y
      · have hwx : w ≠ x := fun e => h (e.symm.trans hw)
        rw [if_pos hw, if_neg hwx, sub1_C, sub1_X, if_pos hw]
      · rw [if_neg hw, sub1_X]
        by_cases hx : w = x
        · rw [if_pos hx, sub1_C]
        · rw [if_neg hx, sub1_X, if_neg hw]
  exact RingHom.congr_fun this f

theorem subs_comm {x : Var} (a : R) : ∀ {ys : List (Var × R)} (f : MvPolynomial Var R), x ∉ keys ys → subs ys (sub1 x a f) = sub1 x a (subs ys f)
  | [], f, _ => rfl
  | y :: ys, f, h => by
    rw [keys_cons, Finset.mem_insert, not_or] at h
    rw [subs_cons, subs_cons, sub1_comm (Ne.symm h.1), subs_comm a _ h.2]

theorem Im.subs {v : Polynomial R} : ∀ {ys : List (Var × R)} {f : MvPolynomial Var R}, (∀ y ∈ ys, y.1 ≠ x1 ∧ y.2 = α y.1) → Im x1 α f v → Im x1 α (subs ys f) v
  | [], _, _, h => h
  | y :: ys, f, hα, h => by
    rw [subs_cons]
    exact Im.subs (fun z hz => hα z (by simp [hz])) (h.sub1 (hα y (by simp)).1 (hα y (by simp)).2)

theorem isCoeff_subs {i : ℕ} : ∀ {ys : List (Var × R)} {f c : MvPolynomial Var R}, (∀ y ∈ ys, y.1 ≠ x1) → IsCoeff x1 i f c → IsCoeff x1 i (subs ys f) (subs ys c)
  | [], _, _, _, h => h
  | y :: ys, f, c, hα, h => by
    rw [subs_cons, subs_cons]
    exact isCoeff_subs (fun z hz => hα z (by simp [hz])) (isCoeff_sub1 (hα y (by simp)) h)

theorem subs_vars : ∀ {ys : List (Var × R)} {f : MvPolynomial Var R} {W : Finset Var}, f.vars ⊆ W → (subs ys f).vars ⊆ W \ keys ys
  | [], f, W, h => by simpa [keys, subs_nil] using h
  | y :: ys, f, W, h => by
    rw [subs_cons]
    refine (subs_vars ((sub1_vars _ _ _).trans (Finset.erase_subset_erase _ h))).trans ?_
    intro w hw
    rw [keys_cons]
    simp only [Finset.mem_sdiff, Finset.mem_erase, Finset.mem_insert, not_or] at hw ⊢
    exact ⟨hw.1.2, hw.1.1, hw.2⟩

include ho in
theorem asgAll_exact : ∀ {ys : List (Var × R)} {W : Finset Var} {f : PV Mono R}, OKIn vc W f → Post (asgAll true vc ys f) fun r => OKIn vc (W \ keys ys) r ∧ val r = subs ys (val f)
  | [], W, f, hf => by unfold asgAll; exact Post.ret ⟨by simpa [keys] using hf, rfl⟩
  | y :: ys, W, f, hf => by
    unfold asgAll
    refine (asg_in ho hf).bind fun g hg => ?_
    rw [nrm_id ho hg.1.1]
    refine (asgAll_exact hg.1).mono fun r hr => ⟨hr.1.mono ?_, by rw [hr.2, hg.2, subs_cons]⟩
    intro w hw
    rw [keys_cons]
    simp only [Finset.mem_sdiff, Finset.mem_erase, Finset.mem_insert, not_or] at hw ⊢
    exact ⟨hw.1.2, hw.1.1, hw.2⟩

/-- `mod p` of an integer polynomial -/
noncomputable abbrev mz (R : Type) [Field R] : MvPolynomial Var ℤ →+* MvPolynomial Var R := MvPolynomial.map (Int.castRingHom R)

variable {us : List (MvPolynomial Var R × Polynomial R)} (hc : Lift.Cop (us.map Prod.snd)) (hpos : ∀ u ∈ us, 0 < u.2.natDegree) (hne : us ≠ [])

include ho hc hpos hne in
/-- the loop over the variables finds the targets -/
theorem liftLoop_exact {nn : Prop} {ex : Bool} {fuel : ℕ} (p : ℕ) {f : PV Mono ℤ} {taus : List (PV Mono ℤ)} {K : Finset Var} (hf : OKIn vc (insert x1 K) f) (hK : x1 ∉ K)
    (hprod : mz R (val f) = (us.map Prod.fst).prod) (hU : ∀ u ∈ us, Im x1 α u.1 u.2 ∧ u.1.vars ⊆ insert x1 K)
    (hT : List.Forall₂ (fun T u => OKIn vc K T ∧ IsCoeff x1 u.2.natDegree u.1 (mz R (val T))) taus us) {Z : List (Var × R)}
    (hs : ∀ aux y zs, Z = aux ++ y :: zs → ∀ forms, List.Forall₂ (FormOK vc x1 (insert y.1 (insert x1 (keys aux)))) forms (us.map Prod.snd) → (∀ f ∈ forms, f ≠ []) →
      SolveEx nn vc x1 α (us.map Prod.snd) (insert x1 (keys aux)) fun F c => stepSolve true ex vc fuel p x1 aux F c forms) :
    ∀ {ys aux : List (Var × R)} {F : List (PV Mono R)}, Z = aux ++ ys → ((aux ++ ys).map Prod.fst).Nodup → (∀ y ∈ aux ++ ys, y.1 ≠ x1 ∧ y.2 = α y.1) → keys (aux ++ ys) = K →
      List.Forall₂ (fun r u => OKIn vc (insert x1 (keys aux)) r ∧ val r = subs ys u.1) F us →
      Post (liftLoop true ex vc fuel p x1 f taus aux ys F) fun o => (nn → o ≠ none) ∧ ∀ s, o = some s → List.Forall₂ (fun r u => OKIn vc (insert x1 K) r ∧ val r = u.1) s us := by
  intro ys
  induction ys with
  | nil =>
    intro aux F _ _ _ hk hF
    unfold liftLoop
    rw [List.append_nil] at hk
    rw [hk] at hF
    exact Post.ret ⟨fun _ => by simp, fun s e => by cases e; exact hF⟩
  | cons y ys ih =>
    intro aux F hZ hn hα hk hF
    unfold liftLoop
    have hsub : insert x1 K \ keys ys ⊆ insert y.1 (insert x1 (keys aux)) := by
      intro w hw
      rw [← hk, keys_append, keys_cons] at hw
      simp only [Finset.mem_sdiff, Finset.mem_insert, Finset.mem_union] at hw ⊢
      tauto
    have hys : ∀ z ∈ ys, z.1 ≠ x1 ∧ z.2 = α z.1 := fun z hz => hα z (by simp [hz])
    have hy := hα y (by simp)
    have hn' := hn
    rw [List.map_append, List.map_cons, List.nodup_append, List.nodup_cons] at hn
    have hyk : y.1 ∉ keys aux := fun h => hn.2.2 y.1 (by simpa [keys] using h) y.1 (by simp) rfl
    have hyy : y.1 ∉ keys ys := fun h => hn.2.1.1 (by simpa [keys] using h)
    have hajp : Post (asgPartial true vc ys f : Run (PV Mono R)) fun aj => OKIn vc (insert y.1 (insert x1 (keys aux))) aj ∧ val aj = subs ys (mz R (val f)) := by
      unfold asgPartial
      obtain ⟨z1, z2⟩ := toZp_spec (R := R) ho hf
      exact (asgAll_exact ho z1).mono fun r hr => ⟨hr.1.mono hsub, by rw [hr.2, z2]⟩
    refine hajp.bind fun aj haj => ?_
    have htz : Post (runMap (asgPartial true vc ys) taus : Run (List (PV Mono R))) fun tz => List.Forall₂ (fun T t => OKIn vc (insert y.1 (insert x1 (keys aux))) t ∧ val t = subs ys (mz R (val T))) taus tz := by
      refine runMap_post fun T hTm => ?_
      obtain ⟨u, _, t1, _⟩ := forall₂_mem_left hT hTm
      unfold asgPartial
      obtain ⟨z1, z2⟩ := toZp_spec (R := R) ho t1
      exact (asgAll_exact ho z1).mono fun r hr => ⟨(hr.1.mono (Finset.sdiff_subset_sdiff (Finset.subset_insert _ _) le_rfl)).mono hsub, by rw [hr.2, z2]⟩
    refine htz.bind fun tz htz => ?_
    -- the targets of this step
    obtain ⟨ws, hws⟩ : ∃ ws : List (MvPolynomial Var R × Polynomial R), ws = us.map fun u => (subs ys u.1, u.2) := ⟨_, rfl⟩
    have hws2 : ws.map Prod.snd = us.map Prod.snd := by rw [hws, List.map_map]; rfl
    have hwprod : val aj = (ws.map Prod.fst).prod := by
      rw [haj.2, hprod, map_list_prod, hws, List.map_map, List.map_map]; rfl
    have hIm : ∀ u ∈ us, Im x1 α (subs ys u.1) u.2 := fun u hu => (hU u hu).1.subs hys
    have hw0 : ∀ u ∈ us, subs ys u.1 ≠ 0 := fun u hu e => by
      have := (hIm u hu).2
      rw [e, map_zero] at this
      have h2 := hpos u hu
      rw [← this, Polynomial.natDegree_zero] at h2
      omega
    have haj0 : val aj ≠ 0 := by
      rw [hwprod, hws, List.map_map]
      refine List.prod_ne_zero fun h => ?_
      obtain ⟨u, hu, e⟩ := List.mem_map.1 h
      exact hw0 u hu e
    have hTg : ∀ w ∈ ws, Tgt x1 α (insert y.1 (insert x1 (keys aux))) y.1 ((degreeLex vc aj y.1).toNat) w := fun w hw => by
      have hw' := hw
      rw [hws] at hw
      obtain ⟨u, hu, rfl⟩ := List.mem_map.1 hw
      refine ⟨hIm u hu, hpos u hu, (subs_vars (hU u hu).2).trans hsub, ?_⟩
      rw [degreeLex_spec ho haj.1.1, Int.toNat_natCast]
      refine degreeOf_le_of_dvd ?_ haj0
      rw [hwprod]
      exact List.dvd_prod (List.mem_map_of_mem hw')
    have hstep := stepJ_exact ho (n := (degreeLex vc aj y.1).toNat) (x := y.1) (a := y.2) hn.1 (fun z hz => hα z (by simp [hz])) hy.1 hyk hy.2 (us := ws) (by rw [hws2]; exact hc) hTg (nn := nn) (ex := ex) (fuel := fuel) p
      (by rw [hws]; simpa using hne) haj.1 hwprod rfl (F := F) (taus := tz) (by
        rw [hws, List.forall₂_map_right_iff]
        exact hF.imp fun r u h => ⟨h.1, by rw [h.2, subs_cons, subs_comm _ _ hyy]⟩) (by
        rw [hws, List.forall₂_map_right_iff]
        refine List.forall₂_iff_get.2 ⟨htz.length_eq.symm.trans hT.length_eq, fun i h1 h2 => ?_⟩
        have i1 : i < taus.length := by rw [htz.length_eq]; exact h1
        obtain ⟨a1, a2⟩ := (List.forall₂_iff_get.1 htz).2 i i1 h1
        obtain ⟨b1, b2⟩ := (List.forall₂_iff_get.1 hT).2 i i1 h2
        exact ⟨a1, by rw [a2]; exact isCoeff_subs (fun z hz => (hys z hz).1) b2⟩)
      (by rw [hws2]; exact hs aux y ys hZ)
    refine hstep.bind fun o ho' => ?_
    match o, ho' with
    | none, h => exact Post.ret ⟨fun h' => absurd rfl (h.1 h'), fun s e => by cases e⟩
    | some F', hF' =>
      refine ih (aux := aux ++ [y]) (by rw [hZ]; simp) (by simpa using hn') (fun z hz => hα z (by simpa using hz)) (by rw [← hk]; simp) ?_
      have := hF'.2 F' rfl
      rw [hws, List.forall₂_map_right_iff] at this
      refine this.imp fun r u h => ⟨h.1.mono ?_, h.2⟩
      rw [keys_append]
      intro w hw
      simp only [keys, List.map_cons, List.map_nil, List.toFinset_cons, List.toFinset_nil, Finset.mem_insert, Finset.mem_union, Finset.notMem_empty, or_false] at hw ⊢
      tauto

end

section
variable {p : ℕ} [Fact p.Prime] {vc : Var → Var → Bool} (ho : VarOrd vc) {W : Finset Var}

include ho in
/-- the coefficients of `__symmetric_mod_poly` -/
theorem symPoly_bound {f : PV Mono (ZMod p)} (hf : OKIn vc W f) (s : Var →₀ ℕ) : -(p : ℤ) < 2 * coeff s (val (symPoly vc p f)) ∧ 2 * coeff s (val (symPoly vc p f)) ≤ p := by
  have hp : (0 : ℤ) < p := by exact_mod_cast (Fact.out : p.Prime).pos
  have key : ∀ t ∈ f.filterMap (fun t => if symMod (t.2.val : ℤ) p ≠ 0 then some (t.1, symMod (t.2.val : ℤ) p) else none), ∃ z ∈ f, z.1 = t.1 ∧ t.2 = symMod (z.2.val : ℤ) p ∧ t.2 ≠ 0 := fun t ht => by
    obtain ⟨z, hz, e⟩ := List.mem_filterMap.1 ht
    by_cases h : symMod (z.2.val : ℤ) p = 0
    · rw [if_neg (not_not.2 h)] at e; cases e
    · rw [if_pos h] at e; cases e; exact ⟨z, hz, rfl, rfl, h⟩
  obtain ⟨k1, k2, k3⟩ := nrm_nodup ho (l := f.filterMap fun t => if symMod (t.2.val : ℤ) p ≠ 0 then some (t.1, symMod (t.2.val : ℤ) p) else none)
    (fun t ht => by obtain ⟨z, hz, e, _⟩ := key t ht; rw [← e]; exact hf.1.monos z hz) (fun t ht => by obtain ⟨z, hz, e, _, h⟩ := key t ht; exact h)
    ((nodup_monos ho hf.1).sublist (filterMap_fst_sublist (fun z : ZMod p => symMod (z.val : ℤ) p) f))
  have M := lex_ord ho
  unfold symPoly
  by_cases h : coeff s (val (nrm vc (f.filterMap fun t => if symMod (t.2.val : ℤ) p ≠ 0 then some (t.1, symMod (t.2.val : ℤ) p) else none))) = 0
  · rw [h]; omega
  · obtain ⟨t, ht, rfl⟩ := (k1.mem_support M).1 (mem_support_iff.2 h)
    rw [k1.coeff_mem M ht]
    obtain ⟨z, _, _, e, _⟩ := key t (k3 t ht)
    rw [e]
    exact (symMod_spec (z.2.val : ℤ) hp).2

include ho in
/-- a polynomial with small coefficients is found from its residues -/
theorem symPoly_exact {f : PV Mono (ZMod p)} (hf : OKIn vc W f) {H : MvPolynomial Var ℤ} (e : val f = mz (ZMod p) H) (hb : ∀ s, 2 * |coeff s H| < p) : OKIn vc W (symPoly vc p f) ∧ val (symPoly vc p f) = H := by
  obtain ⟨l1, l2⟩ := symPoly_spec ho hf
  refine ⟨l1, ?_⟩
  ext s
  have h1 := congrArg (coeff s) (l2.trans e)
  rw [coeff_map, coeff_map] at h1
  have h2 := (ZMod.intCast_eq_intCast_iff_dvd_sub _ _ p).1 h1
  obtain ⟨b1, b2⟩ := symPoly_bound ho hf s
  have b3 := abs_lt.1 (show |coeff s H| < (p + 1) / 2 by have := hb s; omega)
  have b4 := hb s
  rw [show (2 : ℤ) * |coeff s H| = |2 * coeff s H| by rw [abs_mul]; rfl, abs_lt] at b4
  have h3 := Int.eq_zero_of_abs_lt_dvd h2 (by rw [abs_lt]; constructor <;> omega)
  omega

theorem map_of_forall₂ {A B : Type} {f : A → B} {l : List A} {m : List B} (h : List.Forall₂ (fun a b => f a = b) l m) : l.map f = m := by
  induction h with
  | nil => rfl
  | cons h _ ih => rw [List.map_cons, h, ih]

include ho in
/-- the univariate factors are the values of the targets -/
theorem lift_start {vs : List (UPoly ℤ)} {β : Var → ℤ} {K : Finset Var} {x1 : Var} {Hs : List (MvPolynomial Var ℤ)} (hvs : List.Forall₂ (fun v H => Is v (evalAt x1 β H)) vs Hs)
    (hH : ∀ H ∈ Hs, H.vars ⊆ insert x1 K ∧ (Wang.red p (evalAt x1 β H)).natDegree = H.degreeOf x1) {ys : List (Var × ZMod p)} (hk : keys ys = K) (hα : ∀ y ∈ ys, y.1 ≠ x1 ∧ y.2 = ((β y.1 : ℤ) : ZMod p)) :
    List.Forall₂ (fun (r : PV Mono (ZMod p)) u => OKIn vc (insert x1 (keys ([] : List (Var × ZMod p)))) r ∧ val r = subs ys u.1) (vs.map (upToZp vc x1))
      (Hs.map fun H => (mz (ZMod p) H, Wang.red p (evalAt x1 β H))) := by
  have hdm : ∀ H : MvPolynomial Var ℤ, (mz (ZMod p) H).degreeOf x1 ≤ H.degreeOf x1 := fun H => by
    rw [← natDegree_toU, ← natDegree_toU, toU_mapC]
    exact Polynomial.natDegree_map_le
  have hev : ∀ H, evR x1 (fun w => ((β w : ℤ) : ZMod p)) (mz (ZMod p) H) = Wang.red p (evalAt x1 β H) := red_evalAt x1 β
  rw [List.forall₂_map_left_iff, List.forall₂_map_right_iff]
  refine List.forall₂_iff_zip.2 ⟨hvs.length_eq, fun {v H} hvH => ?_⟩
  have hi := (List.forall₂_iff_zip.1 hvs).2 hvH
  obtain ⟨a, b⟩ := upolyToPoly_spec ho x1 hi
  have e : (upToZp vc x1 v : PV Mono (ZMod p)) = toZp vc (upolyToPoly x1 v) := by
    unfold upToZp toZp
    rw [filterMap_cast]
  have hok : OKIn vc {x1} (upolyToPoly x1 v) := ⟨a, by rw [b]; exact emb_vars x1 _⟩
  obtain ⟨z1, z2⟩ := toZp_spec (R := ZMod p) ho hok
  rw [e]
  have hk0 : insert x1 (keys ([] : List (Var × ZMod p))) = {x1} := by simp [keys]
  rw [hk0]
  refine ⟨z1, ?_⟩
  have hIm : Im x1 (fun w => ((β w : ℤ) : ZMod p)) (mz (ZMod p) H) (Wang.red p (evalAt x1 (β) H)) :=
    ⟨(hdm H).trans (hH H (List.of_mem_zip hvH).2).2.ge, hev H⟩
  have h1 := (hIm.subs hα).2
  have hvars : (subs ys (mz (ZMod p) H)).vars ⊆ {x1} := by
    refine (subs_vars ((vars_map _ _).trans (hH H (List.of_mem_zip hvH).2).1)).trans ?_
    rw [hk]
    intro w hw
    simp only [Finset.mem_sdiff, Finset.mem_insert, Finset.mem_singleton] at hw ⊢
    tauto
  have h2 : evR x1 (fun w => ((β w : ℤ) : ZMod p)) (val (toZp vc (upolyToPoly x1 v) : PV Mono (ZMod p))) = Wang.red p (evalAt x1 (β) H) := by
    rw [z2, b, red_evalAt]
    congr 1
    have : (evalAt x1 (β)).comp (emb x1) = RingHom.id (Polynomial ℤ) := by
      refine Polynomial.ringHom_ext (fun c => ?_) ?_
      · simp [evalAt, emb]
      · simp [evalAt, emb]
    exact RingHom.congr_fun this _
  rw [← emb_ret hvars, ← emb_ret z1.2, ← evR_ret hvars (fun w => ((β w : ℤ) : ZMod p)), ← evR_ret z1.2 (fun w => ((β w : ℤ) : ZMod p)), h1, h2]

include ho in
/-- `__mtshl_lift` finds the factors -/
theorem mtshlLift_exact {nn : Prop} {ex : Bool} (fuel : ℕ) {f : PV Mono ℤ} {vs : List (UPoly ℤ)} {taus : List (PV Mono ℤ)} {α : List (Var × ℤ)} {x1 : Var} {Hs : List (MvPolynomial Var ℤ)}
    (hn : (α.map Prod.fst).Nodup) (hx : x1 ∉ α.map Prod.fst) (hf : OKIn vc (insert x1 (α.map Prod.fst).toFinset) f) (hprod : val f = Hs.prod) (hne : Hs ≠ [])
    (hvs : List.Forall₂ (fun v H => Is v (evalAt x1 (ptVal α) H)) vs Hs)
    (hH : ∀ H ∈ Hs, H.vars ⊆ insert x1 (α.map Prod.fst).toFinset ∧ 0 < H.degreeOf x1 ∧ (Wang.red p (evalAt x1 (ptVal α) H)).natDegree = H.degreeOf x1 ∧ ∀ s, 2 * |coeff s H| < p)
    (hT : List.Forall₂ (fun T H => OKIn vc (α.map Prod.fst).toFinset T ∧ IsCoeff x1 (H.degreeOf x1) H (val T)) taus Hs)
    (hcop : Lift.Cop (Hs.map fun H => Wang.red p (evalAt x1 (ptVal α) H)))
    (hs : ∀ aux y zs, ((α.insertionSort fun a b => a.1 ≤ b.1).map fun y => (y.1, ((y.2 : ℤ) : ZMod p))) = aux ++ y :: zs →
      ∀ forms, List.Forall₂ (FormOK vc x1 (insert y.1 (insert x1 (keys aux)))) forms (Hs.map fun H => Wang.red p (evalAt x1 (ptVal α) H)) → (∀ f ∈ forms, f ≠ []) →
      SolveEx nn vc x1 (fun w => ((ptVal α w : ℤ) : ZMod p)) (Hs.map fun H => Wang.red p (evalAt x1 (ptVal α) H)) (insert x1 (keys aux)) fun F c => stepSolve true ex vc fuel p x1 aux F c forms) :
    Post (mtshlLift true ex vc fuel p f vs taus α x1) fun r => (nn → r ≠ []) ∧ (r ≠ [] → List.Forall₂ (fun h H => OKIn vc (insert x1 (α.map Prod.fst).toFinset) h ∧ val h = H) r Hs) := by
  unfold mtshlLift
  dsimp only
  obtain ⟨ys, hys⟩ : ∃ ys : List (Var × ZMod p), ys = (α.insertionSort fun a b => a.1 ≤ b.1).map fun y => (y.1, ((y.2 : ℤ) : ZMod p)) := ⟨_, rfl⟩
  rw [← hys] at hs ⊢
  have hperm : (ys.map Prod.fst).Perm (α.map Prod.fst) := by
    rw [hys, List.map_map]
    exact (List.perm_insertionSort _ α).map _
  have hk : keys ys = (α.map Prod.fst).toFinset := by
    unfold keys
    exact List.toFinset_eq_of_perm _ _ hperm
  have hα : ∀ y ∈ ys, y.1 ≠ x1 ∧ y.2 = ((ptVal α y.1 : ℤ) : ZMod p) := fun y hy => by
    rw [hys] at hy
    obtain ⟨z, hz, rfl⟩ := List.mem_map.1 hy
    have hz' : z ∈ α := (List.perm_insertionSort _ α).subset hz
    refine ⟨fun e => hx (e ▸ List.mem_map_of_mem hz'), ?_⟩
    dsimp only
    rw [ptVal, lookup_of_nodup hn z hz']
    rfl
  obtain ⟨us, hus⟩ : ∃ us : List (MvPolynomial Var (ZMod p) × Polynomial (ZMod p)), us = Hs.map fun H => (mz (ZMod p) H, Wang.red p (evalAt x1 (ptVal α) H)) := ⟨_, rfl⟩
  have hus2 : us.map Prod.snd = Hs.map fun H => Wang.red p (evalAt x1 (ptVal α) H) := by rw [hus, List.map_map]; rfl
  have hmem : ∀ u ∈ us, ∃ H ∈ Hs, u = (mz (ZMod p) H, Wang.red p (evalAt x1 (ptVal α) H)) := fun u hu => by
    rw [hus] at hu
    obtain ⟨H, hH, rfl⟩ := List.mem_map.1 hu
    exact ⟨H, hH, rfl⟩
  have hdm : ∀ H : MvPolynomial Var ℤ, (mz (ZMod p) H).degreeOf x1 ≤ H.degreeOf x1 := fun H => by
    rw [← natDegree_toU, ← natDegree_toU, toU_mapC]
    exact Polynomial.natDegree_map_le
  have hev : ∀ H, evR x1 (fun w => ((ptVal α w : ℤ) : ZMod p)) (mz (ZMod p) H) = Wang.red p (evalAt x1 (ptVal α) H) := red_evalAt x1 (ptVal α)
  have hF0 : List.Forall₂ (fun (r : PV Mono (ZMod p)) u => OKIn vc (insert x1 (keys ([] : List (Var × ZMod p)))) r ∧ val r = subs ys u.1) (vs.map (upToZp vc x1)) us := by
    rw [hus]
    exact lift_start ho hvs (fun H h => ⟨(hH H h).1, (hH H h).2.2.1⟩) hk hα
  refine (liftLoop_exact ho (us := us) (x1 := x1) (α := fun w => ((ptVal α w : ℤ) : ZMod p)) (by rw [hus2]; exact hcop) (fun u hu => ?_) (by rw [hus]; simpa using hne) (nn := nn) (ex := ex) (fuel := fuel) p
    (K := (α.map Prod.fst).toFinset) hf (by rwa [List.mem_toFinset]) ?_ (fun u hu => ?_) (taus := taus) ?_ (Z := ys) (by rw [hus2]; exact hs) (ys := ys) (aux := []) rfl ?_ ?_ ?_ hF0).bind fun o hq => ?_
  · obtain ⟨H, hHm, rfl⟩ := hmem u hu
    dsimp only
    rw [(hH H hHm).2.2.1]; exact (hH H hHm).2.1
  · rw [hprod, map_list_prod, hus, List.map_map]; rfl
  · obtain ⟨H, hHm, rfl⟩ := hmem u hu
    exact ⟨⟨(hdm H).trans (hH H hHm).2.2.1.ge, hev H⟩, (vars_map _ _).trans (hH H hHm).1⟩
  · rw [hus, List.forall₂_map_right_iff]
    refine List.forall₂_iff_zip.2 ⟨hT.length_eq, fun {T H} hTH => ?_⟩
    obtain ⟨t1, t2⟩ := (List.forall₂_iff_zip.1 hT).2 hTH
    refine ⟨t1, ?_⟩
    dsimp only
    rw [(hH H (List.of_mem_zip hTH).2).2.2.1, isCoeff_iff, toU_mapC, Polynomial.coeff_map, ← isCoeff_iff.1 t2]
  · rw [List.nil_append]; exact hperm.nodup_iff.2 hn
  · rw [List.nil_append]; exact hα
  · rw [List.nil_append]; exact hk
  match o, hq with
  | none, hq => exact Post.ret ⟨fun h => absurd rfl (hq.1 h), fun h => absurd rfl h⟩
  | some F, hq =>
    have hF := hq.2 F rfl
    rw [hus, List.forall₂_map_right_iff] at hF
    have hres : List.Forall₂ (fun h H => OKIn vc (insert x1 (α.map Prod.fst).toFinset) h ∧ val h = H) (F.map (symPoly vc p)) Hs := by
      rw [List.forall₂_map_left_iff]
      refine List.forall₂_iff_zip.2 ⟨hF.length_eq, fun {g H} hgH => ?_⟩
      obtain ⟨g1, g2⟩ := (List.forall₂_iff_zip.1 hF).2 hgH
      exact symPoly_exact ho g1 g2 (hH H (List.of_mem_zip hgH).2).2.2.2
    have hne' : F.map (symPoly vc p) ≠ [] := fun h => by rw [h, List.forall₂_nil_left_iff] at hres; exact hne hres
    have hok : ∀ h ∈ F.map (symPoly vc p), OKIn vc (insert x1 (α.map Prod.fst).toFinset) h := fun h hh => by
      obtain ⟨H, _, h1⟩ := forall₂_mem_left hres hh
      exact h1.1
    have hval : (F.map (symPoly vc p)).map val = Hs := map_of_forall₂ (hres.imp fun _ _ h => h.2)
    dsimp only
    refine Post.ite (fun _ => Post.ret ⟨fun _ => hne', fun _ => hres⟩) fun _ => ?_
    unfold padicLoop
    refine Post.ite (fun _ => Post.ret ⟨fun _ => hne', fun _ => hres⟩) fun _ => (prodAll_spec ho _ hok).bind fun pr hpr => ?_
    obtain ⟨r1, r2⟩ := sub_in ho hf hpr.1
    rw [hpr.2 hne', hval, hprod, sub_self] at r2
    dsimp only
    rw [if_pos ((r1.1.val_eq_zero (lex_ord ho)).1 r2)]
    exact Post.ret ⟨fun _ => hne', fun _ => hres⟩

end

end Mtshl
end CLPoly
