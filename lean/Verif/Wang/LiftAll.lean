import Verif.Wang.LiftSparse

/-! # The lifting of all variables and the p-adic correction keep the images -/

namespace CLPoly
namespace Mtshl
open Mono Mgcd Run Upoly Factor Lift Wang Charset MvPolynomial

section
variable {R : Type} [DecidableEq R] [CommRing R] [IsDomain R] {vc : Var → Var → Bool} (ho : VarOrd vc) {W : Finset Var}

theorem val_filterMap_hom {S : Type} [CommRing S] (φ : S →+* R) : ∀ (f : PV Mono S), val (f.filterMap fun t => if φ t.2 ≠ 0 then some (t.1, φ t.2) else none) = MvPolynomial.map φ (val f)
  | [] => by rw [List.filterMap_nil, val_nil, val_nil, map_zero]
  | t :: f => by
    rw [List.filterMap_cons, val_cons, map_add, map_monomial, ← val_filterMap_hom φ f]
    by_cases h : φ t.2 = 0
    · rw [if_neg (not_not.2 h), h, monomial_zero, zero_add]
    · rw [if_pos h]; rw [val_cons]

theorem filterMap_fst_sublist {S : Type} (g : S → R) : ∀ (f : PV Mono S), ((f.filterMap fun t => if g t.2 ≠ 0 then some (t.1, g t.2) else none).map Prod.fst).Sublist (f.map Prod.fst)
  | [] => by simp
  | t :: f => by
    rw [List.filterMap_cons]
    by_cases h : g t.2 = 0
    · rw [if_neg (not_not.2 h)]; exact (filterMap_fst_sublist g f).cons _
    · rw [if_pos h]; exact (filterMap_fst_sublist g f).cons_cons _

include ho in
theorem nodup_monos {S : Type} [CommRing S] {f : PV Mono S} (hf : PolyOK vc (lexGt vc) f) : (f.map Prod.fst).Nodup := by
  rw [List.Nodup, List.pairwise_map]
  refine hf.canon.1.imp_of_mem fun {a b} ha hb hab e => ?_
  rw [e, (lex_ord ho).lawful.irrefl _ (hf.monos b hb)] at hab
  exact absurd hab (by simp)

include ho in
/-- the coefficients are replaced, zeros are dropped -/
theorem nrm_filterMap {S : Type} [CommRing S] [DecidableEq S] [IsDomain S] {f : PV Mono S} (hf : OKIn vc W f) (g : S → R) :
    OKIn vc W (nrm vc (f.filterMap fun t => if g t.2 ≠ 0 then some (t.1, g t.2) else none)) ∧
      val (nrm vc (f.filterMap fun t => if g t.2 ≠ 0 then some (t.1, g t.2) else none)) = val (f.filterMap fun t => if g t.2 ≠ 0 then some (t.1, g t.2) else none) ∧
      ∀ t ∈ nrm vc (f.filterMap fun t => if g t.2 ≠ 0 then some (t.1, g t.2) else none), ∃ z ∈ f, z.1 = t.1 := by
  have key : ∀ t ∈ f.filterMap (fun t => if g t.2 ≠ 0 then some (t.1, g t.2) else none), ∃ z ∈ f, z.1 = t.1 ∧ t.2 ≠ 0 := fun t ht => by
    obtain ⟨z, hz, e⟩ := List.mem_filterMap.1 ht
    by_cases h : g z.2 = 0
    · rw [if_neg (not_not.2 h)] at e; cases e
    · rw [if_pos h] at e; cases e; exact ⟨z, hz, rfl, h⟩
  obtain ⟨k1, k2, k3⟩ := nrm_nodup ho (l := f.filterMap fun t => if g t.2 ≠ 0 then some (t.1, g t.2) else none)
    (fun t ht => by obtain ⟨z, hz, e, _⟩ := key t ht; rw [← e]; exact hf.1.monos z hz) (fun t ht => by obtain ⟨z, hz, e, h⟩ := key t ht; exact h)
    ((nodup_monos ho hf.1).sublist (filterMap_fst_sublist g f))
  have k4 : ∀ t ∈ nrm vc (f.filterMap fun t => if g t.2 ≠ 0 then some (t.1, g t.2) else none), ∃ z ∈ f, z.1 = t.1 := fun t ht => by
    obtain ⟨z, hz, e, _⟩ := key t (k3 t ht); exact ⟨z, hz, e⟩
  refine ⟨OKIn_of_mem ho k1 fun t ht y hy => ?_, k2, k4⟩
  obtain ⟨z, hz, e⟩ := k4 t ht
  rw [← e] at hy
  exact hf.mem ho hz hy

end

section
variable {R : Type} [DecidableEq R] [Field R] {vc : Var → Var → Bool} (ho : VarOrd vc) {W : Finset Var} {x1 : Var} {α : Var → R} {vs : List (Polynomial R)}

include ho in
theorem toZp_spec {f : PV Mono ℤ} (hf : OKIn vc W f) : OKIn vc W (toZp vc f : PV Mono R) ∧ val (toZp vc f : PV Mono R) = MvPolynomial.map (Int.castRingHom R) (val f) := by
  obtain ⟨a, b, _⟩ := nrm_filterMap (R := R) ho hf (fun z => (z : R))
  exact ⟨a, b.trans (val_filterMap_hom (Int.castRingHom R) f)⟩

theorem eval_sub1 {x : Var} {b : R} (hb : b = α x) (f : MvPolynomial Var R) : eval α (sub1 x b f) = eval α f := by
  have : (eval α).comp (sub1 x b) = eval α := by
    refine MvPolynomial.ringHom_ext (fun r => ?_) fun w => ?_
    · simp [sub1]
    · rw [RingHom.comp_apply, sub1, eval₂Hom_X']
      by_cases h : w = x
      · rw [if_pos h, eval_C, eval_X, h, hb]
      · rw [if_neg h]
  exact RingHom.congr_fun this f

include ho in
theorem asgAll_spec : ∀ {ys : List (Var × R)} {W : Finset Var} {f : PV Mono R}, OKIn vc W f → (∀ y ∈ ys, y.2 = α y.1) →
    Post (asgAll true vc ys f) fun r => OKIn vc (W \ keys ys) r ∧ (val r).degreeOf x1 ≤ (val f).degreeOf x1 ∧ eval α (val r) = eval α (val f)
  | [], W, f, hf, _ => by unfold asgAll; exact Post.ret ⟨by simpa [keys] using hf, le_rfl, rfl⟩
  | y :: ys, W, f, hf, hy => by
    unfold asgAll
    refine (asg_in ho hf).bind fun g hg => ?_
    rw [nrm_id ho hg.1.1]
    refine (asgAll_spec hg.1 fun z hz => hy z (by simp [hz])).mono fun r hr => ⟨hr.1.mono ?_, hr.2.1.trans ?_, hr.2.2.trans ?_⟩
    · intro w hw
      simp only [keys, List.map_cons, List.toFinset_cons, Finset.mem_sdiff, Finset.mem_erase, Finset.mem_insert, not_or] at hw ⊢
      exact ⟨hw.1.2, hw.1.1, hw.2⟩
    · rw [hg.2]; exact sub1_degreeOf _ _ _ _
    · rw [hg.2]; exact eval_sub1 (hy y (by simp)) _

theorem keys_append (a b : List (Var × R)) : keys (a ++ b) = keys a ∪ keys b := by simp [keys]
theorem keys_cons (y : Var × R) (b : List (Var × R)) : keys (y :: b) = insert y.1 (keys b) := by simp [keys]

variable (h2 : 2 ≤ vs.length) (h0 : ∀ v ∈ vs, v ≠ 0)

include ho h2 h0 in
theorem liftLoop_spec {ex : Bool} {fuel : ℕ} (p : ℕ) {δ : R} (hδ : δ ≠ 0) (hv : ∀ v ∈ vs, v.leadingCoeff = δ ∧ 0 < v.natDegree) {f : PV Mono ℤ} {taus : List (PV Mono ℤ)} {K : Finset Var} (hf : OKIn vc (insert x1 K) f)
    (hK : x1 ∉ K) (hT : ∀ T ∈ taus, OKIn vc K T ∧ eval α (MvPolynomial.map (Int.castRingHom R) (val T)) = δ) :
    ∀ {ys aux : List (Var × R)} {F : List (PV Mono R)}, ((aux ++ ys).map Prod.fst).Nodup → (∀ y ∈ aux ++ ys, y.1 ≠ x1 ∧ y.2 = α y.1) → keys (aux ++ ys) = K →
      List.Forall₂ (Img vc x1 α (insert x1 (keys aux))) F vs →
      Post (liftLoop true ex vc fuel p x1 f taus aux ys F) fun o => ∀ s, o = some s → List.Forall₂ (Img vc x1 α (insert x1 K)) s vs := by
  intro ys
  induction ys with
  | nil =>
    intro aux F _ _ hk hF
    unfold liftLoop
    rw [List.append_nil] at hk
    rw [hk] at hF
    exact Post.ret fun s e => by cases e; exact hF
  | cons y ys ih =>
    intro aux F hn hα hk hF
    unfold liftLoop
    have hsub : insert x1 K \ keys ys ⊆ insert y.1 (insert x1 (keys aux)) := by
      intro w hw
      rw [← hk, keys_append, keys_cons] at hw
      simp only [Finset.mem_sdiff, Finset.mem_insert, Finset.mem_union] at hw ⊢
      tauto
    have hys : ∀ z ∈ ys, z.2 = α z.1 := fun z hz => (hα z (by simp [hz])).2
    refine Post.bind (P := fun aj => OKIn vc (insert y.1 (insert x1 (keys aux))) aj) ?_ fun aj haj => ?_
    · unfold asgPartial
      exact (asgAll_spec ho (x1 := x1) (α := α) (toZp_spec (R := R) ho hf).1 hys).mono fun r hr => hr.1.mono hsub
    refine Post.bind (P := fun tz => ∀ T ∈ tz, Tau vc x1 α δ (insert y.1 (insert x1 (keys aux))) T) ?_ fun tz htz => ?_
    · refine (runMap_post (Q := fun _ T => Tau vc x1 α δ (insert y.1 (insert x1 (keys aux))) T) fun T hTm => ?_).mono fun bs h b hb => ?_
      · unfold asgPartial
        obtain ⟨t1, t2⟩ := hT T hTm
        obtain ⟨z1, z2⟩ := toZp_spec (R := R) ho t1
        refine (asgAll_spec ho (x1 := x1) (α := α) z1 hys).mono fun r hr => ⟨(hr.1.mono (Finset.sdiff_subset_sdiff (Finset.subset_insert _ _) le_rfl)).mono hsub, ?_, ?_⟩
        · refine Nat.le_zero.1 (hr.2.1.trans (le_of_eq (degreeOf_zero_iff.2 fun h => hK (z1.2 h))))
        · rw [hr.2.2, z2, t2]
      · obtain ⟨i, hi, rfl⟩ := List.getElem_of_mem hb
        exact (List.forall₂_iff_get.1 h).2 i (by rw [h.length_eq]; exact hi) hi
    have hy := hα y (by simp)
    have hn' := hn
    rw [List.map_append, List.map_cons, List.nodup_append, List.nodup_cons] at hn
    have hyk : y.1 ∉ keys aux := fun h => hn.2.2 y.1 (by simpa [keys] using h) y.1 (by simp) rfl
    refine (stepJ_spec ho h2 h0 p hn.1 (fun z hz => hα z (by simp [hz])) hy.1 hyk hy.2 hδ hv haj hF htz).bind fun o ho' => ?_
    match o, ho' with
    | none, _ => exact Post.ret fun s e => by cases e
    | some F', hF' =>
      refine ih (aux := aux ++ [y]) ?_ (fun z hz => hα z (by simpa using hz)) ?_ ?_
      · simpa using hn'
      · rw [← hk]; simp
      · refine (hF' F' rfl).imp fun _ _ h => h.mono ?_
        rw [keys_append]
        intro w hw
        simp only [keys, List.map_cons, List.map_nil, Finset.mem_insert, Finset.mem_union, List.toFinset_cons, List.toFinset_nil, Finset.notMem_empty, or_false] at hw ⊢
        tauto

theorem filterMap_cast (u : UPoly ℤ) : (u.filterMap fun t => if ((t.2 : ℤ) : R) ≠ 0 then some (powMono x1 t.1, ((t.2 : ℤ) : R)) else none) =
    (upolyToPoly x1 u).filterMap fun t => if ((t.2 : ℤ) : R) ≠ 0 then some (t.1, ((t.2 : ℤ) : R)) else none := by
  unfold upolyToPoly
  rw [List.filterMap_map]
  rfl

include ho in
theorem upToZp_spec {u : UPoly ℤ} {U : Polynomial ℤ} (hu : Is u U) {v : Polynomial R} (hv : U.map (Int.castRingHom R) = v) (hd : U.natDegree = v.natDegree) : Img vc x1 α {x1} (upToZp vc x1 u : PV Mono R) v := by
  obtain ⟨a, b⟩ := upolyToPoly_spec ho x1 hu
  have e : (upToZp vc x1 u : PV Mono R) = toZp vc (upolyToPoly x1 u) := by
    unfold upToZp toZp
    rw [filterMap_cast]
  have hok : OKIn vc {x1} (upolyToPoly x1 u) := ⟨a, by rw [b]; exact emb_vars x1 U⟩
  obtain ⟨c, d⟩ := toZp_spec (R := R) ho hok
  have hmap : MvPolynomial.map (Int.castRingHom R) (emb x1 U) = emb x1 v := by
    rw [← hv]
    have : (MvPolynomial.map (Int.castRingHom R)).comp (emb x1) = (emb x1).comp (Polynomial.mapRingHom (Int.castRingHom R)) := by
      refine Polynomial.ringHom_ext (fun z => ?_) ?_
      · simp [emb_C]
      · simp [emb_X]
    exact RingHom.congr_fun this U
  rw [b, hmap] at d
  rw [e]
  refine ⟨⟨c, by rw [d]; exact emb_degreeOf x1 v x1⟩, ?_⟩
  rw [d, evR_ret (emb_vars x1 v), ret_emb]

end

/-! ## coefficients in ℤ -/

section
variable {vc : Var → Var → Bool} (ho : VarOrd vc) {W : Finset Var} {p : ℕ} [Fact p.Prime]

/-- a polynomial over ℤ in normal form whose reduction is given -/
def Lifted (vc : Var → Var → Bool) (p : ℕ) (W : Finset Var) (h : PV Mono ℤ) (F : MvPolynomial Var (ZMod p)) : Prop := OKIn vc W h ∧ MvPolynomial.map (Int.castRingHom (ZMod p)) (val h) = F

theorem symMod_cast (z : ZMod p) : ((symMod (z.val : ℤ) p : ℤ) : ZMod p) = z := by
  have hp := (Fact.out : p.Prime).pos
  obtain ⟨h, _⟩ := symMod_spec (z.val : ℤ) (m := (p : ℤ)) (by exact_mod_cast hp)
  have h1 := (ZMod.intCast_eq_intCast_iff_dvd_sub (z.val : ℤ) (symMod (z.val : ℤ) p) p).2 h
  rw [← h1]
  simp

theorem map_filterMap_sym : ∀ f : PV Mono (ZMod p), MvPolynomial.map (Int.castRingHom (ZMod p)) (val (f.filterMap fun t => if symMod (t.2.val : ℤ) p ≠ 0 then some (t.1, symMod (t.2.val : ℤ) p) else none)) = val f
  | [] => by rw [List.filterMap_nil, val_nil, val_nil, map_zero]
  | t :: f => by
    rw [List.filterMap_cons, val_cons]
    have hc := symMod_cast t.2
    by_cases h : symMod (t.2.val : ℤ) p = 0
    · rw [if_neg (not_not.2 h)]
      rw [h, Int.cast_zero] at hc
      rw [← hc, monomial_zero, zero_add]
      exact map_filterMap_sym f
    · rw [if_pos h]
      rw [val_cons, map_add, map_monomial, map_filterMap_sym f, eq_intCast, hc]

include ho in
theorem symPoly_spec {f : PV Mono (ZMod p)} (hf : OKIn vc W f) : Lifted vc p W (symPoly vc p f) (val f) := by
  obtain ⟨a, b, _⟩ := nrm_filterMap (R := ℤ) ho hf (fun z : ZMod p => symMod (z.val : ℤ) p)
  refine ⟨a, ?_⟩
  unfold symPoly
  rw [b, map_filterMap_sym]

theorem val_scale (M : ℤ) : ∀ f : PV Mono ℤ, val (f.map fun t => (t.1, t.2 * M)) = C M * val f
  | [] => by rw [List.map_nil, val_nil, mul_zero]
  | t :: f => by rw [List.map_cons, val_cons, val_cons, val_scale M f, mul_add, C_mul_monomial, mul_comm M]

theorem scale_in {M : ℤ} (hM : M ≠ 0) {f : PV Mono ℤ} (hf : OKIn vc W f) : OKIn vc W (f.map fun t => (t.1, t.2 * M)) := by
  refine ⟨⟨fun t ht => ?_, ⟨?_, fun t ht => ?_⟩⟩, ?_⟩
  · obtain ⟨z, hz, rfl⟩ := List.mem_map.1 ht
    exact hf.1.monos z hz
  · rw [List.pairwise_map]
    exact hf.1.canon.1
  · obtain ⟨z, hz, rfl⟩ := List.mem_map.1 ht
    exact mul_ne_zero (hf.1.canon.2 z hz) hM
  · rw [val_scale]
    classical
    refine (vars_mul _ _).trans ?_
    rw [vars_C, Finset.empty_union]
    exact hf.2

include ho in
theorem padicAdd_spec {M : ℤ} (hM : M ≠ 0) (hpM : (p : ℤ) ∣ M) : ∀ {rs : List (PV Mono ℤ)} {Fs : List (MvPolynomial Var (ZMod p))} {ss : List (PV Mono (ZMod p))}, List.Forall₂ (Lifted vc p W) rs Fs → (∀ s ∈ ss, OKIn vc W s) →
    List.Forall₂ (Lifted vc p W) (padicAdd vc p M rs ss) Fs
  | [], _, _, h, _ => by unfold padicAdd; exact h
  | r :: rs, _, [], h, _ => by unfold padicAdd; exact h
  | r :: rs, [], s :: ss, h, _ => absurd h (by simp)
  | r :: rs, F :: Fs, s :: ss, h, hs => by
    rw [List.forall₂_cons] at h
    unfold padicAdd
    refine List.Forall₂.cons ?_ (padicAdd_spec hM hpM h.2 fun t ht => hs t (by simp [ht]))
    by_cases hs0 : s = []
    · rw [if_pos hs0]; exact h.1
    · rw [if_neg hs0]
      have h1 := symPoly_spec ho (hs s (by simp))
      obtain ⟨a, b⟩ := add_in ho h.1.1 (scale_in hM h1.1)
      refine ⟨a, ?_⟩
      rw [b, val_scale, map_add, map_mul, map_C, h.1.2, eq_intCast, (ZMod.intCast_zmod_eq_zero_iff_dvd M p).2 hpM, C_0, zero_mul, add_zero]

include ho in
theorem padicLoop_spec {x1 : Var} (aux : List Var) (f : PV Mono ℤ) (B : ℤ) {F : List (PV Mono (ZMod p))} {vs : List (Polynomial (ZMod p))} (hF : F.length = vs.length) {Fs : List (MvPolynomial Var (ZMod p))} :
    ∀ (n : ℕ) {M : ℤ} {res : List (PV Mono ℤ)} {forms : List (List Mono)}, M ≠ 0 → (p : ℤ) ∣ M → List.Forall₂ (Lifted vc p W) res Fs → List.Forall₂ (FormOK vc x1 W) forms vs →
      Post (padicLoop true vc p x1 aux f B F n M res forms) fun r => List.Forall₂ (Lifted vc p W) r Fs := by
  intro n
  induction n with
  | zero => intro M res forms _ _ h _; exact Post.ret h
  | succ n ih =>
    intro M res forms hM hpM h hfo
    unfold padicLoop
    refine Post.ite (fun _ => Post.ret h) fun _ => (Post.any _).bind fun pr _ => ?_
    dsimp only
    refine Post.ite (fun _ => Post.ret h) fun _ => Post.ite (fun _ => Post.ret h) fun _ => ?_
    have hsp := sparseInt_spec ho (W := W) (x1 := x1) p aux hF (errDiv vc p M (nrm vc (pvSub (lexGt vc) f pr))) hfo
    refine Post.bind (P := fun o => ∀ s, o = some s → List.Forall₂ (Sol vc x1 W) s vs) (hsp.bind fun o hq => ?_) fun o hq => ?_
    · match o, hq with
      | none, _ => exact hsp
      | some s, hs => exact Post.ret hs
    · match o, hq with
      | none, _ => exact Post.ret h
      | some σ, hs =>
        have h1 := hs σ rfl
        have hp := (Fact.out : p.Prime).ne_zero
        exact ih (mul_ne_zero hM (by exact_mod_cast hp)) (hpM.mul_right _) (padicAdd_spec ho hM hpM h (sols_mem h1)) (forms_of_sols ho h1)

end

end Mtshl
end CLPoly
