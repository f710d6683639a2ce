import Verif.Wang.LiftAll
import Verif.Wang.AllIrr

/-! # The leading coefficients; the whole lifting -/

namespace CLPoly
namespace Mtshl
open Mono Mgcd Run Upoly Factor Lift Wang Charset MvPolynomial

section
variable {vc : Var → Var → Bool} (ho : VarOrd vc) {W : Finset Var} {p : ℕ} [Fact p.Prime]

theorem red_evalAt (x : Var) (a : Var → ℤ) (g : MvPolynomial Var ℤ) : evR x (fun w => ((a w : ℤ) : ZMod p)) (MvPolynomial.map (Int.castRingHom (ZMod p)) g) = Wang.red p (evalAt x a g) := by
  have : (evR x fun w => ((a w : ℤ) : ZMod p)).comp (MvPolynomial.map (Int.castRingHom (ZMod p))) = (Polynomial.mapRingHom (Int.castRingHom (ZMod p))).comp (evalAt x a) := by
    refine MvPolynomial.ringHom_ext (fun r => ?_) fun w => ?_
    · simp [evR, evalAt]
    · simp only [RingHom.comp_apply, map_X, evR_X, evalAt, eval₂Hom_X', Polynomial.coe_mapRingHom]
      split <;> simp
  exact RingHom.congr_fun this g

theorem eval_cast (a : Var → ℤ) (g : MvPolynomial Var ℤ) : eval (fun w => ((a w : ℤ) : ZMod p)) (MvPolynomial.map (Int.castRingHom (ZMod p)) g) = ((eval a g : ℤ) : ZMod p) := by
  have : (eval fun w => ((a w : ℤ) : ZMod p)).comp (MvPolynomial.map (Int.castRingHom (ZMod p))) = (Int.castRingHom (ZMod p)).comp (eval a) := by
    refine MvPolynomial.ringHom_ext (fun r => ?_) fun w => ?_
    · simp
    · simp
  exact RingHom.congr_fun this g

theorem lookup_of_nodup : ∀ {α : List (Var × ℤ)}, (α.map Prod.fst).Nodup → ∀ y ∈ α, α.lookup y.1 = some y.2
  | [], _, y, hy => by simp at hy
  | z :: α, hn, y, hy => by
    rw [List.map_cons, List.nodup_cons] at hn
    rcases List.mem_cons.1 hy with rfl | hm
    · simp [List.lookup]
    · have : (y.1 == z.1) = false := by
        rw [beq_eq_false_iff_ne]
        intro e
        exact hn.1 (e ▸ List.mem_map_of_mem hm)
      obtain ⟨a, b⟩ := z
      rw [List.lookup_cons, this]
      exact lookup_of_nodup hn.2 y hm

include ho in
/-- the result of the lifting has the given images modulo `p` -/
theorem mtshlLift_spec {ex : Bool} (fuel : ℕ) {f : PV Mono ℤ} {vs : List (UPoly ℤ)} {Vs : List (Polynomial ℤ)} {taus : List (PV Mono ℤ)} {α : List (Var × ℤ)} {x1 : Var} {δ : ℤ} (hδ : ((δ : ℤ) : ZMod p) ≠ 0)
    (hn : (α.map Prod.fst).Nodup) (hx : x1 ∉ α.map Prod.fst) (hf : OKIn vc (insert x1 (α.map Prod.fst).toFinset) f) (h2 : 2 ≤ vs.length) (hvs : List.Forall₂ Is vs Vs)
    (hv : ∀ v ∈ Vs, v.leadingCoeff = δ ∧ 0 < v.natDegree) (hT : ∀ T ∈ taus, OKIn vc (α.map Prod.fst).toFinset T ∧ eval (ptVal α) (val T) = δ) :
    Post (mtshlLift true ex vc fuel p f vs taus α x1) fun r => r ≠ [] →
      List.Forall₂ (fun h v => OKIn vc (insert x1 (α.map Prod.fst).toFinset) h ∧ Wang.red p (evalAt x1 (ptVal α) (val h)) = Wang.red p v) r Vs := by
  unfold mtshlLift
  dsimp only
  set ys := (α.insertionSort fun a b => a.1 ≤ b.1).map fun y => (y.1, ((y.2 : ℤ) : ZMod p)) with hys
  have hperm : (ys.map Prod.fst).Perm (α.map Prod.fst) := by
    rw [hys, List.map_map]
    exact (List.perm_insertionSort _ α).map _
  have hk : keys ys = (α.map Prod.fst).toFinset := by
    unfold keys
    exact List.toFinset_eq_of_perm _ _ hperm
  have hα : ∀ y ∈ ys, y.1 ≠ x1 ∧ y.2 = ((ptVal α y.1 : ℤ) : ZMod p) := fun y hy => by
    rw [hys] at hy
    obtain ⟨z, hz, rfl⟩ := List.mem_map.1 hy
    have hz' : z ∈ α := (List.perm_insertionSort _ α).subset hz
    refine ⟨fun e => hx (e ▸ List.mem_map_of_mem hz'), ?_⟩
    dsimp only
    rw [ptVal, lookup_of_nodup hn z hz']
    rfl
  have hlen : vs.length = Vs.length := hvs.length_eq
  have hmap : ∀ v ∈ Vs, (Wang.red p v).natDegree = v.natDegree ∧ (Wang.red p v).leadingCoeff = ((δ : ℤ) : ZMod p) := fun v hvm => by
    have hc : (Int.castRingHom (ZMod p)) v.leadingCoeff ≠ 0 := by rw [(hv v hvm).1]; exact hδ
    refine ⟨Polynomial.natDegree_map_of_leadingCoeff_ne_zero _ hc, ?_⟩
    rw [Polynomial.leadingCoeff_map_of_leadingCoeff_ne_zero _ hc, (hv v hvm).1]
    rfl
  have h2' : 2 ≤ (Vs.map (Wang.red p)).length := by rw [List.length_map, ← hlen]; exact h2
  have hv' : ∀ v ∈ Vs.map (Wang.red p), v.leadingCoeff = ((δ : ℤ) : ZMod p) ∧ 0 < v.natDegree := fun v hvm => by
    obtain ⟨w, hw, rfl⟩ := List.mem_map.1 hvm
    exact ⟨(hmap w hw).2, by rw [(hmap w hw).1]; exact (hv w hw).2⟩
  have h0' : ∀ v ∈ Vs.map (Wang.red p), v ≠ 0 := fun v hvm e => by
    have := (hv' v hvm).2
    rw [e] at this
    simp at this
  have hF0 : List.Forall₂ (Img vc x1 (fun w => ((ptVal α w : ℤ) : ZMod p)) (insert x1 (keys ([] : List (Var × ZMod p))))) (vs.map (upToZp vc x1)) (Vs.map (Wang.red p)) := by
    rw [List.forall₂_map_left_iff, List.forall₂_map_right_iff]
    rw [List.forall₂_iff_get] at hvs ⊢
    refine ⟨hvs.1, fun i h h' => ?_⟩
    have := upToZp_spec (R := ZMod p) (x1 := x1) (α := fun w => ((ptVal α w : ℤ) : ZMod p)) ho (hvs.2 i h h') (v := Wang.red p (Vs.get ⟨i, h'⟩)) rfl (hmap _ (List.get_mem _ _)).1.symm
    refine this.mono ?_
    simp [keys]
  refine (liftLoop_spec ho h2' h0' p hδ hv' (K := (α.map Prod.fst).toFinset) hf (by rwa [List.mem_toFinset]) (fun T h => ⟨(hT T h).1, by rw [eval_cast, (hT T h).2]⟩) (ys := ys) (aux := []) ?_ ?_ ?_ hF0).bind fun o hq => ?_
  · rw [List.nil_append]; exact hperm.nodup_iff.2 hn
  · rw [List.nil_append]; exact hα
  · rw [List.nil_append]; exact hk
  match o, hq with
  | none, _ => exact Post.ret fun h => absurd rfl h
  | some F, hq =>
    have hF := hq F rfl
    have hres : List.Forall₂ (Lifted vc p (insert x1 (α.map Prod.fst).toFinset)) (F.map (symPoly vc p)) (F.map val) := by
      rw [List.forall₂_map_left_iff, List.forall₂_map_right_iff, List.forall₂_same]
      intro G hG
      exact symPoly_spec ho (sols_mem (hF.imp fun _ _ h => h.1) G hG)
    have fin : ∀ r : List (PV Mono ℤ), List.Forall₂ (Lifted vc p (insert x1 (α.map Prod.fst).toFinset)) r (F.map val) →
        List.Forall₂ (fun h v => OKIn vc (insert x1 (α.map Prod.fst).toFinset) h ∧ Wang.red p (evalAt x1 (ptVal α) (val h)) = Wang.red p v) r Vs := fun r hr => by
      rw [List.forall₂_map_right_iff] at hr
      rw [List.forall₂_map_right_iff] at hF
      rw [List.forall₂_iff_get] at hr hF ⊢
      refine ⟨hr.1.trans hF.1, fun i h h' => ?_⟩
      have i1 : i < F.length := hr.1 ▸ h
      refine ⟨(hr.2 i h i1).1, ?_⟩
      rw [← (hF.2 i i1 h').2, ← (hr.2 i h i1).2, red_evalAt]
    dsimp only
    refine Post.ite (fun _ => Post.ret fun _ => fin _ hres) fun _ => ?_
    refine (padicLoop_spec ho (W := insert x1 (α.map Prod.fst).toFinset) (x1 := x1) _ f _ (vs := Vs.map (Wang.red p)) hF.length_eq (Fs := F.map val) 4 ?_ (dvd_refl _) hres (forms_of_sols ho (hF.imp fun _ _ h => h.1))).mono fun r hr _ => fin r hr
    exact_mod_cast (Fact.out : p.Prime).ne_zero

end

/-! ## scaled factors and leading coefficients -/

section
variable {vc : Var → Var → Bool} (ho : VarOrd vc) {K : Finset Var}

theorem scaleFactor_spec {δ : ℤ} (hδ : δ ≠ 0) {u : UPoly ℤ} {U : Polynomial ℤ} (hu : Is u U) (u0 : U ≠ 0) :
    Post (scaleFactor δ u) fun v => ∃ V, Is v V ∧ Polynomial.C U.leadingCoeff * V = Polynomial.C δ * U := by
  unfold scaleFactor
  refine Post.ite (fun h => Post.ret ?_) fun _ => Post.fail
  rw [is_lc hu] at h ⊢
  obtain ⟨m, hm⟩ : ∃ m, m = U.leadingCoeff := ⟨_, rfl⟩
  rw [← hm] at h ⊢
  have m0 : m ≠ 0 := by rw [hm]; exact Polynomial.leadingCoeff_ne_zero.2 u0
  have key : ∀ t ∈ u, m * Int.tdiv (δ * t.2) m = δ * t.2 ∧ Int.tdiv (δ * t.2) m ≠ 0 := fun t ht => by
    have h1 := List.all_eq_true.1 h t ht
    have h2 : m ∣ δ * t.2 := Int.dvd_of_tmod_eq_zero (by simpa using h1)
    have h3 := Int.mul_tdiv_cancel' h2
    refine ⟨h3, fun e => ?_⟩
    rw [e, mul_zero] at h3
    rcases mul_eq_zero.1 h3.symm with e | e
    exacts [hδ e, hu.canon.2 t ht e]
  have e1 : (u.filterMap fun t => if Int.tdiv (δ * t.2) m ≠ 0 then some (t.1, Int.tdiv (δ * t.2) m) else none) = u.map fun t => (t.1, Int.tdiv (δ * t.2) m) := by
    rw [← List.filterMap_eq_map]
    exact List.filterMap_congr fun t ht => by rw [if_pos (key t ht).2]; rfl
  rw [e1]
  have hc : Canon Upoly.comp (u.map fun t => (t.1, Int.tdiv (δ * t.2) m)) := by
    refine ⟨?_, fun t ht => ?_⟩
    · rw [List.pairwise_map]; exact hu.canon.1
    · obtain ⟨z, hz, rfl⟩ := List.mem_map.1 ht; exact (key z hz).2
  refine ⟨toPoly (u.map fun t => (t.1, Int.tdiv (δ * t.2) m)), (is_of_canon hc).norm, ?_⟩
  rw [← hu.eq]
  clear hc e1 h hu
  induction u with
  | nil => simp
  | cons t u ih =>
    rw [List.map_cons, toPoly_cons, toPoly_cons, mul_add, mul_add, ih fun s hs => key s (by simp [hs])]
    congr 1
    rw [Polynomial.C_mul_monomial, Polynomial.C_mul_monomial, (key t (by simp)).1]

theorem mkConst_in (c : ℤ) : OKIn vc K (mkConst c) ∧ val (mkConst c) = C c := by
  unfold mkConst
  by_cases h : c = 0
  · rw [if_neg (not_not.2 h), h, C_0]; exact ⟨OKIn.nil, val_nil⟩
  · rw [if_pos h]
    have e : val [((Mono.one, c) : Mono × ℤ)] = C c := by rw [val_cons, val_nil, add_zero, expo_one]; rfl
    refine ⟨⟨PolyOK.single one_valid h, ?_⟩, e⟩
    rw [e, vars_C]; exact Finset.empty_subset _

include ho in
theorem target_spec {α : List (Var × ℤ)} (hα : ∀ w ∈ K, (α.lookup w).isSome = true) {δ : ℤ} {sg : PV Mono ℤ} (hs : OKIn vc K sg) :
    Post (target true vc α δ sg) fun o => ∀ T, o = some T → OKIn vc K T ∧ eval (ptVal α) (val T) = δ := by
  unfold target
  dsimp only
  rw [assignAt_const ho hs.1 fun w hw => hα w (hs.2 hw)]
  refine Post.ite (fun _ => Post.ret fun _ h => by cases h) fun v0 => Post.ite (fun _ => Post.fail) fun hd => ?_
  obtain ⟨a, b⟩ := mkConst_in (vc := vc) (K := K) (Int.tdiv δ (eval (ptVal α) (val sg)))
  refine (mulN_in ho hs a).bind fun t ht => Post.ret fun T e => ?_
  cases e
  refine ⟨ht.1, ?_⟩
  rw [ht.2, b, map_mul, eval_C]
  exact Int.mul_tdiv_cancel' (Int.dvd_of_tmod_eq_zero (not_not.1 hd))

include ho in
theorem targets_spec {α : List (Var × ℤ)} (hα : ∀ w ∈ K, (α.lookup w).isSome = true) {δ : ℤ} : ∀ {sg : List (PV Mono ℤ)}, (∀ s ∈ sg, OKIn vc K s) →
    Post (targets true vc α δ sg) fun o => ∀ l, o = some l → ∀ T ∈ l, OKIn vc K T ∧ eval (ptVal α) (val T) = δ
  | [], _ => Post.ret fun l e => by cases e; simp
  | s :: ss, hs => by
    unfold targets
    refine (target_spec ho hα (hs s (by simp))).bind fun o hq => ?_
    match o, hq with
    | none, _ => exact Post.ret fun l e => by cases e
    | some t, hq =>
      refine (targets_spec hα fun s h => hs s (by simp [h])).bind fun r hr => Post.ret fun l e => ?_
      match r, hr, e with
      | some r, hr, e =>
        rw [Option.map_some] at e
        cases e
        intro T hT
        rcases List.mem_cons.1 hT with rfl | h
        exacts [hq _ rfl, hr r rfl T h]

include ho in
theorem powFrom_spec {l : PV Mono ℤ} (hl : OKIn vc K l) : ∀ (k : ℕ) {acc : PV Mono ℤ}, OKIn vc K acc → Post (powFrom true vc l acc k) (OKIn vc K)
  | 0, _, h => Post.ret h
  | k + 1, _, h => (mulN_in ho h hl).bind fun _ ha => powFrom_spec hl k ha.1

include ho in
theorem assignLc_spec {fuel : ℕ} : ∀ {ls : List (PV Mono ℤ × ℤ)} (R : ℤ) {sg : PV Mono ℤ}, (∀ x ∈ ls, OKIn vc K x.1) → OKIn vc K sg → Post (assignLc true vc fuel ls R sg) fun r => OKIn vc K r.2
  | [], _, _, _, h => Post.ret h
  | le :: ls, R, sg, hl, h => by
    unfold assignLc
    refine (Post.any _).bind fun kR _ => Post.bind (P := OKIn vc K) (Post.ite (fun _ => (powFrom_spec ho (hl le (by simp)) _ (hl le (by simp))).bind fun lp hlp => (mulN_in ho h hlp).mono fun _ h => h.1) fun _ => Post.ret h) fun sg' hs => ?_
    exact (assignLc_spec _ (fun x hx => hl x (by simp [hx])) hs).bind fun r hr => Post.ret hr

theorem one_in : OKIn vc K [((Mono.one, 1) : Mono × ℤ)] := by
  have := (mkConst_in (vc := vc) (K := K) 1).1
  unfold mkConst at this
  rwa [if_pos one_ne_zero] at this

include ho in
theorem assignAll_spec {fuel : ℕ} {ls : List (PV Mono ℤ × ℤ)} (hl : ∀ x ∈ ls, OKIn vc K x.1) : ∀ ws : List ℤ, Post (assignAll true vc fuel ls ws) fun r => ∀ s ∈ r.2, OKIn vc K s
  | [] => Post.ret (by simp)
  | w :: ws => by
    unfold assignAll
    refine (assignLc_spec ho _ hl one_in).bind fun r hr => (assignAll_spec hl ws).bind fun rs hrs => Post.ret fun s hs => ?_
    rcases List.mem_cons.1 hs with rfl | h
    exacts [hr, hrs s h]

variable {facL : PV Mono ℤ → Run (ℤ × List (PV Mono ℤ × ℕ))}

include ho in
theorem splitLc_spec {fuel : ℕ} {L : PV Mono ℤ} (hL : OKIn vc K L) (L0 : val L ≠ 0) (hfac : Post (facL L) fun r => FacX False vc (lexGt vc) (val L) r.1 r.2) (us : List (UPoly ℤ)) (α : List (Var × ℤ)) (c : ℤ) :
    Post (splitLc true vc fuel facL L us α c) fun o => ∀ sg, o = some sg → ∀ s ∈ sg, OKIn vc K s := by
  unfold splitLc
  refine hfac.bind fun fl hfl => ?_
  have hx : ∀ x ∈ fl.2, OKIn vc K x.1 := fun x hxm => by
    refine ⟨hfl.ok x hxm, (vars_of_dvd ?_ L0).trans hL.2⟩
    have h1 : val x.1 ∣ facProd fl.2 := by
      refine (dvd_pow_self _ (hfl.pos x hxm).ne').trans ?_
      unfold facProd
      exact List.dvd_prod (List.mem_map_of_mem (f := fun x : PV Mono ℤ × ℕ => val x.1 ^ x.2) hxm)
    rcases hfl.prod with e | ⟨_, e⟩
    · rw [← e]; exact h1.mul_left _
    · rw [← dvd_neg, ← e]; exact h1.mul_left _
  dsimp only
  refine Post.ite (fun _ => Post.ret fun _ h => by cases h) fun _ => Post.ite (fun _ => Post.ret fun _ h => by cases h) fun _ => (Post.any _).bind fun b _ => Post.ite (fun _ => Post.ret fun _ h => by cases h) fun _ => ?_
  refine (assignAll_spec ho (K := K) (fun x hxm => ?_) _).bind fun r hr => Post.ite (fun _ => Post.ret fun _ h => by cases h) fun _ => ?_
  · have h1 := List.mem_reverse.1 hxm
    have h2 := (List.of_mem_zip h1).1
    obtain ⟨z, hz, e⟩ := List.mem_map.1 h2
    rw [← e]
    exact hx z ((List.perm_insertionSort _ _).subset hz)
  · match h : r.2, hr with
    | [], _ => exact Post.fail
    | s :: ss, hr =>
      refine (mulN_in ho (hr s (by simp)) (mkConst_in _).1).bind fun s' hs' => Post.ret fun sg e => ?_
      cases e
      intro t ht
      rcases List.mem_cons.1 ht with rfl | h'
      exacts [hs'.1, hr t (by simp [h'])]

include ho in
/-- `__wang_leading_coeff`: on success the scaled factors are `δ·u / lc(u)`, and the leading coefficients have the value `δ` -/
theorem wangLc_spec {fuel : ℕ} {f : PV Mono ℤ} {x : Var} (hf : OKIn vc (insert x K) f) (hx : x ∉ K) {us : List (UPoly ℤ)} {Us : List (Polynomial ℤ)} (hus : List.Forall₂ Is us Us) (U0 : ∀ U ∈ Us, U ≠ 0)
    {α : List (Var × ℤ)} (hα : ∀ w ∈ K, (α.lookup w).isSome = true) (hfac : Post (facL (leadIn vc (lexGt vc) f x).1) fun r => FacX False vc (lexGt vc) (val (leadIn vc (lexGt vc) f x).1) r.1 r.2) (c : ℤ) :
    Post (wangLc true vc fuel facL f us α x c) fun o => ∀ w, o = some w → ∃ δ : ℤ, δ ≠ 0 ∧ δ = (evalAt x (ptVal α) (val f)).coeff ((val f).degreeOf x) ∧ OKIn vc (insert x K) w.1 ∧ val w.1 = val f * C (δ ^ (us.length - 1)) ∧
      List.Forall₂ (fun v U => ∃ V, Is v V ∧ Polynomial.C U.leadingCoeff * V = Polynomial.C δ * U) w.2.1 Us ∧ ∀ T ∈ w.2.2, OKIn vc K T ∧ eval (ptVal α) (val T) = δ := by
  have M := lex_ord ho
  obtain ⟨_, l2, l3⟩ := leadIn_spec M hf.1 x
  unfold wangLc
  dsimp only
  obtain ⟨L, hL⟩ : ∃ L, L = (leadIn vc (lexGt vc) f x).1 := ⟨_, rfl⟩
  rw [← hL] at l2 l3 hfac ⊢
  have hLK : OKIn vc K L := ⟨l2, fun w hw => by
    have h1 := hf.2 (l3.vars_subset hw)
    rcases Finset.mem_insert.1 h1 with e | e
    · exact absurd (e ▸ hw) l3.not_vars
    · exact e⟩
  have hδ : constVal (if isNumber L = true then L else assignAt vc α L) = eval (ptVal α) (val L) := by
    by_cases hn : isNumber L = true
    · rw [if_pos hn, number_val ho l2 hn, eval_C]
    · rw [if_neg hn]; exact assignAt_const ho l2 fun w hw => hα w (hLK.2 hw)
  rw [hδ]
  obtain ⟨δ, hd⟩ : ∃ δ, δ = eval (ptVal α) (val L) := ⟨_, rfl⟩
  rw [← hd]
  refine Post.ite (fun _ => Post.ret fun _ h => by cases h) fun δ0 => ?_
  have L0 : val L ≠ 0 := fun e => δ0 (by rw [hd, e, map_zero])
  refine Post.bind (P := fun o => ∀ sg, o = some sg → ∀ s ∈ sg, OKIn vc K s) (Post.ite (fun _ => Post.ret fun sg e => ?_) fun _ => splitLc_spec ho hLK L0 hfac us α c) fun o hq => ?_
  · cases e
    intro s hs
    rcases List.mem_cons.1 hs with rfl | h
    · exact hLK
    · obtain ⟨_, _, rfl⟩ := List.mem_map.1 h
      exact one_in
  match o, hq with
  | none, _ => exact Post.ret fun _ h => by cases h
  | some sg, hq =>
    obtain ⟨m1, m2⟩ := mkConst_in (vc := vc) (K := insert x K) (δ ^ (us.length - 1))
    refine (mulN_in ho hf m1).bind fun fs hfs => ?_
    refine Post.bind (P := fun vs => List.Forall₂ (fun v U => ∃ V, Is v V ∧ Polynomial.C U.leadingCoeff * V = Polynomial.C δ * U) vs Us) ?_ fun vs hvs => ?_
    · have hmem : ∀ u ∈ us, ∃ U, Is u U ∧ U ≠ 0 := fun u hu => by
        obtain ⟨i, hi, rfl⟩ := List.getElem_of_mem hu
        have := (List.forall₂_iff_get.1 hus)
        exact ⟨_, this.2 i hi (this.1 ▸ hi), U0 _ (List.get_mem _ _)⟩
      refine (runMap_post (Q := fun u v => ∀ U, Is u U → ∃ V, Is v V ∧ Polynomial.C U.leadingCoeff * V = Polynomial.C δ * U) fun u hu => ?_).mono fun vs h => ?_
      · obtain ⟨U, hU, hU0⟩ := hmem u hu
        refine (scaleFactor_spec δ0 hU hU0).mono fun v hv U' hU' => ?_
        rw [← hU'.eq, hU.eq]; exact hv
      · rw [List.forall₂_iff_get] at h hus ⊢
        exact ⟨h.1.symm.trans hus.1, fun i h1 h2' => h.2 i (h.1 ▸ h1) h1 _ (hus.2 i (h.1 ▸ h1) h2')⟩
    · refine (targets_spec ho hα (hq sg rfl)).bind fun o ht => Post.ret fun w e => ?_
      match o, ht, e with
      | some ts, ht, e =>
        rw [Option.map_some] at e
        cases e
        refine ⟨δ, δ0, ?_, hfs.1, ?_, hvs, ht ts rfl⟩
        · rw [hd, evalAt_coeff x (ptVal α) l3]
        · rw [hfs.2, m2]

end

/-! ## leading coefficients and lifting -/

section
variable {vc : Var → Var → Bool} (ho : VarOrd vc) {V : Finset Var} {N : ℕ}

theorem coprimeU_spec {p : ℕ} [Fact p.Prime] {u v : UPoly ℤ} {U W : Polynomial ℤ} (hu : Is u U) (hv : Is v W) (u0 : Wang.red p U ≠ 0) (v0 : Wang.red p W ≠ 0) (h : coprimeU (Upoly.polyMod p u) (Upoly.polyMod p v) = true) :
    IsCoprime (Wang.red p U) (Wang.red p W) := by
  obtain ⟨r, s, t, D, S, T, e, hr, _, _, hD, _, hST⟩ := extGcd_spec (polyMod_is (p := p) hu) (polyMod_is (p := p) hv) u0 v0
  unfold coprimeU at h
  rw [e] at h
  have hd : D.natDegree = 0 := by rw [← is_deg hr]; simpa using h
  rw [hD.natDegree_eq_zero.1 hd] at hST
  exact ⟨S, T, hST⟩

theorem scaled_eq {p : ℕ} [Fact p.Prime] {δ : ℤ} (hδ : δ ≠ 0) {U W : Polynomial ℤ} (h : Polynomial.C U.leadingCoeff * W = Polynomial.C δ * U) (hd : 0 < U.natDegree) :
    W.leadingCoeff = δ ∧ 0 < W.natDegree := by
  have u0 : U ≠ 0 := by rintro rfl; simp at hd
  have l0 := Polynomial.leadingCoeff_ne_zero.2 u0
  constructor
  · have := congrArg Polynomial.leadingCoeff h
    rw [Polynomial.leadingCoeff_mul, Polynomial.leadingCoeff_mul, Polynomial.leadingCoeff_C, Polynomial.leadingCoeff_C, mul_comm δ] at this
    exact mul_left_cancel₀ l0 this
  · have := congrArg Polynomial.natDegree h
    rw [Polynomial.natDegree_C_mul l0, Polynomial.natDegree_C_mul hδ] at this
    omega

theorem scaled_assoc {p : ℕ} [Fact p.Prime] {δ : ℤ} (hδ : ((δ : ℤ) : ZMod p) ≠ 0) {U W : Polynomial ℤ} (h : Polynomial.C U.leadingCoeff * W = Polynomial.C δ * U) (hl : ((U.leadingCoeff : ℤ) : ZMod p) ≠ 0) :
    Associated (Wang.red p W) (Wang.red p U) := by
  have h1 := congrArg (Wang.red p) h
  unfold Wang.red at h1
  rw [Polynomial.map_mul, Polynomial.map_mul, Polynomial.map_C, Polynomial.map_C, eq_intCast, eq_intCast] at h1
  have i1 : Associated (Wang.red p W) (Polynomial.C ((U.leadingCoeff : ℤ) : ZMod p) * Wang.red p W) := (associated_unit_mul_left _ _ (Polynomial.isUnit_C.2 hl.isUnit)).symm
  have i2 : Associated (Polynomial.C ((δ : ℤ) : ZMod p) * Wang.red p U) (Wang.red p U) := associated_unit_mul_left _ _ (Polynomial.isUnit_C.2 hδ.isUnit)
  exact (h1 ▸ i1).trans i2

include ho in
theorem outFits_spec {r : List (PV Mono ℤ)} (hr : ∀ h ∈ r, LP vc h) (h : outFits vc N r = true) (w : Var) : (r.map fun h => (val h).degreeOf w).sum ≤ N := by
  have M := lex_ord ho
  by_cases hw : w ∈ r.flatMap fun h => pvVars vc h []
  · have h1 := List.all_eq_true.1 h w hw
    have h2 : (r.map fun h => (degreeLex vc h w).toNat) = r.map fun h => (val h).degreeOf w := List.map_congr_left fun h hh => by
      rw [degreeLex_spec ho (hr h hh) w]; simp
    rw [h2] at h1
    simpa using h1
  · have h2 : (r.map fun h => (val h).degreeOf w) = r.map fun _ => 0 := List.map_congr_left fun h hh => by
      rw [degreeOf_zero_iff]
      intro hm
      refine hw (List.mem_flatMap.2 ⟨h, hh, ?_⟩)
      rw [mem_pvVars ho]
      rw [← polyVars_eq M (hr h hh)] at hm
      exact .inr hm
    rw [h2]
    simp

include ho in
/-- leading coefficients and lifting, with the tests: the results fit, and they have the right images -/
theorem codeLift_spec {fuel : ℕ} {facL : PV Mono ℤ → Run (ℤ × List (PV Mono ℤ × ℕ))} (hfac : ∀ L, In vc V N L → Post (facL L) fun r => FacX False vc (lexGt vc) (val L) r.1 r.2) {g : PV Mono ℤ} (hg : In vc V N g)
    (us : List (UPoly ℤ)) (α : List (Var × ℤ)) (x : Var) (c : ℤ) (p : ℕ) :
    Post (codeLift true vc fuel N facL g us α x c p) fun r => Fits vc V N r ∧ (r ≠ [] → (us.map toPoly).Pairwise (fun u v => IsCoprime (Wang.red p u) (Wang.red p v)) ∧
      List.Forall₂ (fun h u => Associated (Wang.red p (evalAt x (ptVal α) (val h))) (Wang.red p (toPoly u))) r us) := by
  have M := lex_ord ho
  have hnil : Fits vc V N [] := ⟨by simp, by simp⟩
  unfold codeLift
  cases primeDec p with
  | isFalse _ => exact Post.fail
  | isTrue hp =>
  haveI := Fact.mk hp
  dsimp only
  refine Post.ite (fun _ => Post.fail) fun hpre => ?_
  have hpre' : preOK p g us α x := by by_contra h; exact hpre ⟨rfl, h⟩
  obtain ⟨h2, hu, hn, hk, hx, hcop⟩ := hpre'
  rw [polyVars_eq M hg.ok] at hk hx
  have hkK : ∀ w ∈ (α.map Prod.fst).toFinset, (α.lookup w).isSome = true := fun w hw => lookup_keys.2 (List.mem_toFinset.1 hw)
  have hxK : x ∉ (α.map Prod.fst).toFinset := by rw [hk]; simp
  have hins : insert x (α.map Prod.fst).toFinset = (val g).vars := by rw [hk, Finset.insert_erase hx]
  have hgin : OKIn vc (insert x (α.map Prod.fst).toFinset) g := ⟨hg.ok, by rw [hins]⟩
  have hIs : ∀ u ∈ us, Is u (toPoly u) := fun u h => is_of_canon ⟨(hu u h).1, (hu u h).2.1⟩
  have hUs : List.Forall₂ Is us (us.map toPoly) := by
    rw [List.forall₂_map_right_iff, List.forall₂_same]
    exact hIs
  have hdeg : ∀ u ∈ us, 0 < (toPoly u).natDegree := fun u h => by rw [← is_deg (hIs u h)]; exact (hu u h).2.2.1
  have hlc : ∀ u ∈ us, (((toPoly u).leadingCoeff : ℤ) : ZMod p) ≠ 0 := fun u h => by rw [← is_lc (hIs u h)]; exact (hu u h).2.2.2
  have hne : ∀ u ∈ us, toPoly u ≠ 0 := fun u h e => by have := hdeg u h; rw [e] at this; simp at this
  have hred : ∀ u ∈ us, Wang.red p (toPoly u) ≠ 0 := fun u h e => by
    have h1 := Polynomial.coeff_map (Int.castRingHom (ZMod p)) (p := toPoly u) (toPoly u).natDegree
    rw [show (toPoly u).map (Int.castRingHom (ZMod p)) = 0 from e, Polynomial.coeff_zero, eq_intCast] at h1
    exact hlc u h h1.symm
  have hpair : (us.map toPoly).Pairwise fun u v => IsCoprime (Wang.red p u) (Wang.red p v) := by
    rw [List.pairwise_map]
    unfold coprimeMod at hcop
    refine (of_decide_eq_true hcop).imp_of_mem fun {a b} ha hb hab => ?_
    exact coprimeU_spec (hIs a ha) (hIs b hb) (hred a ha) (hred b hb) hab
  have hLin : In vc V N (leadIn vc (lexGt vc) g x).1 := by
    obtain ⟨_, l2, l3⟩ := leadIn_spec M hg.ok x
    exact hg.of_coeff l2 l3
  refine (wangLc_spec ho hgin hxK hUs (fun U hU => by obtain ⟨u, h, rfl⟩ := List.mem_map.1 hU; exact hne u h) hkK (hfac _ hLin) c).bind fun o hq => ?_
  match o, hq with
  | none, _ => exact Post.ret ⟨hnil, fun h => absurd rfl h⟩
  | some w, hq =>
    obtain ⟨δ, δ0, _, w1, _, w3, w4⟩ := hq w rfl
    dsimp only
    refine Post.ite (fun _ => Post.fail) fun hvl => ?_
    have hvl' : ∀ v ∈ w.2.1, ((Upoly.lc v : ℤ) : ZMod p) ≠ 0 := by by_contra h; exact hvl ⟨rfl, h⟩
    rw [List.forall₂_map_right_iff] at w3
    have hlen := w3.length_eq
    have hvs : List.Forall₂ (fun v u => Is v (toPoly v) ∧ Polynomial.C (toPoly u).leadingCoeff * toPoly v = Polynomial.C δ * toPoly u) w.2.1 us := w3.imp fun v u ⟨W, hW, e⟩ => by
      have := hW.eq
      rw [this]; exact ⟨hW, e⟩
    have hget := List.forall₂_iff_get.1 hvs
    have hδ : ((δ : ℤ) : ZMod p) ≠ 0 := by
      have i0 : 0 < w.2.1.length := by omega
      have i1 : 0 < us.length := by omega
      obtain ⟨a, b⟩ := hget.2 0 i0 i1
      have h1 := hvl' _ (List.get_mem w.2.1 ⟨0, i0⟩)
      rw [is_lc a, (scaled_eq (p := p) δ0 b (hdeg _ (List.get_mem us ⟨0, i1⟩))).1] at h1
      exact h1
    have hvI : List.Forall₂ Is w.2.1 (w.2.1.map toPoly) := by
      rw [List.forall₂_map_right_iff, List.forall₂_same]
      intro v hv
      obtain ⟨i, hi, rfl⟩ := List.getElem_of_mem hv
      exact (hget.2 i hi (hget.1 ▸ hi)).1
    refine (mtshlLift_spec ho fuel hδ hn (fun h => hxK (List.mem_toFinset.2 h)) w1 (by omega) hvI (fun v hv => ?_) w4).bind fun r hr => Post.ite (fun _ => Post.fail) fun hfit => Post.ret ?_
    · obtain ⟨z, hz, rfl⟩ := List.mem_map.1 hv
      obtain ⟨i, hi, rfl⟩ := List.getElem_of_mem hz
      exact scaled_eq (p := p) δ0 (hget.2 i hi (hget.1 ▸ hi)).2 (hdeg _ (List.get_mem us ⟨i, hget.1 ▸ hi⟩))
    · by_cases hr0 : r = []
      · rw [hr0]; exact ⟨hnil, fun h => absurd rfl h⟩
      have hr1 := hr hr0
      rw [List.forall₂_map_right_iff] at hr1
      have hrg := List.forall₂_iff_get.1 hr1
      have hok : ∀ h ∈ r, LP vc h ∧ (val h).vars ⊆ V := fun h hh => by
        obtain ⟨i, hi, rfl⟩ := List.getElem_of_mem hh
        have := (hrg.2 i hi (hrg.1 ▸ hi)).1
        rw [hins] at this
        exact ⟨this.1, this.2.trans hg.vars⟩
      refine ⟨⟨hok, outFits_spec ho (fun h hh => (hok h hh).1) ?_⟩, fun _ => ⟨hpair, ?_⟩⟩
      · by_contra h; exact hfit ⟨rfl, by simpa using h⟩
      · rw [List.forall₂_iff_get]
        refine ⟨hrg.1.trans hget.1, fun i h h' => ?_⟩
        have hi : i < w.2.1.length := hrg.1 ▸ h
        rw [(hrg.2 i h hi).2]
        exact scaled_assoc hδ (hget.2 i hi h').2 (hlc _ (List.get_mem us ⟨i, h'⟩))

end

end Mtshl
end CLPoly
