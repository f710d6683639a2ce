import Verif.Gcd.ModPLists

/-! # The modular gcd `__polynomial_GCD` over `Zp` -/

namespace CLPoly
namespace Mgcd
open Mono MvPolynomial Run
open Dense (IsGcd)

variable {vc : Var → Var → Bool}

section
variable {R S : Type*} [CommRing R] [CommRing S]

/-- homomorphisms that keep `v` apart commute with the view as a polynomial in `v` -/
theorem toU_hom {v : Var} (φ : MvPolynomial Var R →+* MvPolynomial Var S) (hv : φ (X v) = X v) (hX : ∀ w, w ≠ v → v ∉ (φ (X w)).vars) (hC : ∀ r, v ∉ (φ (C r)).vars)
    (f : MvPolynomial Var R) : toU v (φ f) = (toU v f).map φ := by
  have : (toU v).comp φ = (Polynomial.mapRingHom φ).comp (toU v) := by
    refine MvPolynomial.ringHom_ext (fun r => ?_) fun w => ?_
    · rw [RingHom.comp_apply, toU_free (hC r)]
      simp [toU]
    · rw [RingHom.comp_apply]
      by_cases hw : w = v
      · subst hw
        rw [hv]; simp [toU]
      · rw [toU_free (hX w hw)]
        simp [toU, hw]
  exact congrArg (fun h : MvPolynomial Var R →+* Polynomial (MvPolynomial Var S) => h f) this

theorem toU_evV {v w : Var} (h : w ≠ v) (x : R) (f : MvPolynomial Var R) : toU v (evV w x f) = (toU v f).map (evV w x) := by
  refine toU_hom _ (by simp [evV, h.symm]) (fun u hu => ?_) (fun r => ?_) f
  · by_cases huw : u = w
    · simp [evV, huw]
    · intro hc
      have : evV w x (X u : MvPolynomial Var R) = X u := by simp [evV, huw]
      rw [this] at hc
      rcases subsingleton_or_nontrivial R with hR | hR
      · rw [Subsingleton.elim (X u : MvPolynomial Var R) 0] at hc; simp at hc
      · rw [vars_X] at hc; exact hu (Finset.mem_singleton.1 hc).symm
  · simp [evV]

theorem toU_mapC {v : Var} (φ : R →+* S) (f : MvPolynomial Var R) : toU v (map φ f) = (toU v f).map (map φ) := by
  refine toU_hom (map φ) (by simp) (fun u hu hc => ?_) (fun r => by simp) f
  rw [map_X] at hc
  rcases subsingleton_or_nontrivial S with hR | hR
  · rw [Subsingleton.elim (X u : MvPolynomial Var S) 0] at hc; simp at hc
  · rw [vars_X] at hc; exact hu (Finset.mem_singleton.1 hc).symm

/-- the leading coefficient with respect to `v` -/
noncomputable def lcV (v : Var) (f : MvPolynomial Var R) : MvPolynomial Var R := (toU v f).coeff (f.degreeOf v)

theorem lcV_ne_zero {v : Var} {f : MvPolynomial Var R} (hf : f ≠ 0) : lcV v f ≠ 0 := by
  unfold lcV
  rw [← natDegree_toU]
  exact Polynomial.leadingCoeff_ne_zero.2 (toU_ne_zero hf)

theorem lcV_vars (v : Var) (f : MvPolynomial Var R) : (lcV v f).vars ⊆ f.vars := (toU_coeff v _ f).vars_subset

end

section
variable {p : ℕ} [Fact p.Prime]

/-- what a result `(P, d)` of the modular gcd satisfies -/
structure PSpec (vc : Var → Var → Bool) (F G P : PV Mono (ZMod p)) (d : Int) : Prop where
  ok : LP vc P
  ne : P ≠ []
  dom : ∀ w, (val P).degreeOf w ≤ max ((val F).degreeOf w) ((val G).degreeOf w)
  deg : ((val P).degreeOf (pFirstVar F) : Int) = d
  max : ∀ e, e ∣ val F → e ∣ val G → (e.degreeOf (pFirstVar F) : Int) ≤ d

theorem pick_spec (hp : 0 < p) (used : List ℕ) : Post (pick p used) fun x => x < p ∧ x ∉ used := by
  intro s
  induction s with
  | nil => intro r hr; simp [pick] at hr
  | cons x s ih =>
    intro r hr
    rw [pick] at hr
    split at hr
    · exact ih r hr
    · rename_i hc
      rw [Option.some.injEq] at hr
      rw [← hr]
      exact ⟨Nat.mod_lt _ hp, hc⟩

/-- the invariant of the loop over the points -/
structure PInv (vc : Var → Var → Bool) (F G : PV Mono (ZMod p)) (v0 v : Var) (deg : Int) (st : PtSt p) : Prop where
  le : st.deg ≤ deg
  nodup : st.pts.Nodup
  used : ∀ x ∈ st.pts, ∃ u ∈ st.used, (u : ZMod p) = x
  lt : ∀ u ∈ st.used, u < p
  vals : st.pts = [] ∨ VOK vc st.pts.length (fun w => if w = v then 0 else Max.max ((val F).degreeOf w) ((val G).degreeOf w)) v0 st.deg st.vals ∧
    ∀ e, e ∣ val F → e ∣ val G → (e.degreeOf v0 : Int) ≤ st.deg

/-- the input condition of the modular gcd -/
structure PIn (vc : Var → Var → Bool) (F G Lc : PV Mono (ZMod p)) : Prop where
  okF : LP vc F
  okG : LP vc G
  okL : LP vc Lc
  zF : 0 ∉ (val F).vars
  zG : 0 ∉ (val G).vars
  dF : ∀ w, (val F).degreeOf w < 2 ^ 63
  dG : ∀ w, (val G).degreeOf w < 2 ^ 63
  lc : F ≠ [] → val Lc ∣ lcV (pFirstVar F) (val F)

theorem ptLoop_spec (ho : VarOrd vc) {F G Lc : PV Mono (ZMod p)} {v : Var} {vd : ℕ} {deg : Int} (hin : PIn vc F G Lc) (F0 : F ≠ []) (hf : pFirstVar F ≠ 0)
    (hfg : pFirstVar F = pFirstVar G) (hv : v ≠ pFirstVar F) (hlast : ∀ w, w ∈ (val F).vars ∨ w ∈ (val G).vars → w = v ∨ vc w v = true)
    (hvd0 : 0 < vd) (hvd : vd ≤ Max.max ((val F).degreeOf v) ((val G).degreeOf v) + 1)
    (rec : PV Mono (ZMod p) → PV Mono (ZMod p) → PV Mono (ZMod p) → Int → Run (Option (PV Mono (ZMod p) × Int)))
    (hrec : ∀ F G Lc deg, PIn vc F G Lc → Post (rec F G Lc deg) fun o => ∀ Pd, o = some Pd → PSpec vc F G Pd.1 Pd.2) :
    ∀ (fuel : ℕ) (st : PtSt p), PInv vc F G (pFirstVar F) v deg st → Post (ptLoop p vc rec F G Lc v vd fuel st) fun o => ∀ Pd, o = some Pd → PSpec vc F G Pd.1 Pd.2 ∧ Pd.2 ≤ deg := by
  have M := lex_ord ho
  have hF0 : val F ≠ 0 := fun h => F0 ((hin.okF.val_eq_zero M).1 h)
  have hLv : ∀ w ∈ (val Lc).vars, w ∈ (val F).vars := fun w hw =>
    lcV_vars _ _ (vars_of_dvd (hin.lc F0) (lcV_ne_zero hF0) hw)
  intro fuel
  induction fuel with
  | zero => intro st _; exact Post.fail
  | succ fuel ih =>
    intro st hst
    rw [ptLoop]
    refine Post.ite (fun _ => Post.ret (by intro Pd h; simp at h)) fun _ => ?_
    refine Post.bind (pick_spec (Fact.out : p.Prime).pos st.used) fun x hx => ?_
    obtain ⟨xlt, xnew⟩ := hx
    obtain ⟨xc, hxc⟩ : ∃ xc, xc = (x : ZMod p) := ⟨_, rfl⟩
    -- the images
    obtain ⟨f1, f2⟩ := image_spec ho (x := xc) hin.okF (v := v) fun w hw => hlast w (.inl hw)
    obtain ⟨g1, g2⟩ := image_spec ho (x := xc) hin.okG (v := v) fun w hw => hlast w (.inr hw)
    obtain ⟨l1, l2⟩ := image_spec ho (x := xc) hin.okL (v := v) fun w hw => hlast w (.inl (hLv w hw))
    obtain ⟨Fv, hFv⟩ : ∃ Fv, Fv = imageAt p vc v xc F := ⟨_, rfl⟩
    obtain ⟨Gv, hGv⟩ : ∃ Gv, Gv = imageAt p vc v xc G := ⟨_, rfl⟩
    obtain ⟨Lv, hLv'⟩ : ∃ Lv, Lv = imageAt p vc v xc Lc := ⟨_, rfl⟩
    have f1' : LP vc Fv := hFv ▸ f1
    have g1' : LP vc Gv := hGv ▸ g1
    have l1' : LP vc Lv := hLv' ▸ l1
    have f2' : val Fv = evV v xc (val F) := hFv ▸ f2
    have g2' : val Gv = evV v xc (val G) := hGv ▸ g2
    have l2' : val Lv = evV v xc (val Lc) := hLv' ▸ l2
    -- the state with the new point marked as used
    have hst0 : PInv vc F G (pFirstVar F) v deg { st with used := x :: st.used } :=
      ⟨hst.le, hst.nodup, fun y hy => by obtain ⟨u, hu, e⟩ := hst.used y hy; exact ⟨u, List.mem_cons_of_mem _ hu, e⟩,
        fun u hu => by rcases List.mem_cons.1 hu with rfl | hu; exacts [xlt, hst.lt u hu], hst.vals⟩
    show Post (Run.bind (if pFirstDeg (imageAt p vc v x F) = pFirstDeg F ∧ pFirstVar (imageAt p vc v x F) = pFirstVar F ∧ pFirstDeg (imageAt p vc v x G) = pFirstDeg G ∧ pFirstVar (imageAt p vc v x G) = pFirstVar G then _ else _) _) _
    rw [← hxc, ← hFv, ← hGv, ← hLv']
    refine Post.bind (P := fun r : PtSt p × Bool => PInv vc F G (pFirstVar F) v deg r.1 ∧ (r.2 = true → r.1.pts ≠ [])) ?_ ?_
    · refine Post.ite (fun hc => ?_) fun _ => Post.ret ⟨hst0, by simp⟩
      obtain ⟨c1, c2, c3, c4⟩ := hc
      have sF := first_spec ho hin.okF hf
      have sG := first_spec ho hin.okG (by rw [← hfg]; exact hf)
      have sFv := first_spec ho f1' (by rw [c2]; exact hf)
      have sGv := first_spec ho g1' (by rw [c4, ← hfg]; exact hf)
      have eF : (val Fv).degreeOf (pFirstVar F) = (val F).degreeOf (pFirstVar F) := by
        have h1 := sFv.2.2; have h2 := sF.2.2
        rw [c2] at h1; omega
      have Fv0 : Fv ≠ [] := by rintro rfl; exact hf c2.symm
      have vFv0 : val Fv ≠ 0 := fun h => Fv0 ((f1'.val_eq_zero M).1 h)
      have hin' : PIn vc Fv Gv Lv := by
        refine ⟨f1', g1', l1', fun h => hin.zF ?_, fun h => hin.zG ?_, fun w => ?_, fun w => ?_, fun _ => ?_⟩
        · rw [f2'] at h; exact vars_evV _ _ _ h
        · rw [g2'] at h; exact vars_evV _ _ _ h
        · rw [f2']; exact lt_of_le_of_lt (degreeOf_evV _ _ _ _) (hin.dF w)
        · rw [g2']; exact lt_of_le_of_lt (degreeOf_evV _ _ _ _) (hin.dG w)
        · rw [c2]
          have : lcV (pFirstVar F) (val Fv) = evV v xc (lcV (pFirstVar F) (val F)) := by
            unfold lcV
            rw [eF, f2', toU_evV hv, Polynomial.coeff_map]
          rw [this, l2']
          exact map_dvd _ (hin.lc F0)
      refine Post.bind (hrec Fv Gv Lv st.deg hin') fun o ho' => ?_
      cases o with
      | none => exact Post.ret ⟨hst0, by simp⟩
      | some Pd =>
        have sp := ho' Pd rfl
        show Post (if Pd.2 ≤ st.deg then _ else _) _
        refine Post.ite (fun hle => Post.ret ?_) fun _ => Post.ret ⟨hst0, by simp⟩
        -- the facts about the image
        have dom : ∀ t ∈ Pd.1, ∀ w, E t.1.data w ≤ ((if w = v then 0 else Max.max ((val F).degreeOf w) ((val G).degreeOf w) : ℕ) : Int) := by
          intro t ht w
          have h1 := sp.ok.exp_le M ht w
          have h2 := sp.dom w
          rw [f2', g2'] at h2
          have h3 := degreeOf_evV v w xc (val F)
          have h4 := degreeOf_evV v w xc (val G)
          by_cases hw : w = v
          · rw [if_pos hw]
            subst hw
            rw [degreeOf_evV_self, degreeOf_evV_self] at h2
            omega
          · rw [if_neg hw]; omega
        have hdeg := sp.deg
        rw [c2] at hdeg
        have le : ∀ t ∈ Pd.1, E t.1.data (pFirstVar F) ≤ Pd.2 := fun t ht => by
          have := sp.ok.exp_le M ht (pFirstVar F); omega
        have top : ∃ t ∈ Pd.1, E t.1.data (pFirstVar F) = Pd.2 := by
          obtain ⟨t, ht, e⟩ := sp.ok.exists_exp M sp.ne (pFirstVar F)
          exact ⟨t, ht, by rw [e]; exact hdeg⟩
        have hmax : ∀ e, e ∣ val F → e ∣ val G → (e.degreeOf (pFirstVar F) : Int) ≤ Pd.2 := by
          intro e e1 e2
          have h1 := sp.max (evV v xc e) (by rw [f2']; exact map_dvd _ e1) (by rw [g2']; exact map_dvd _ e2)
          rw [c2] at h1
          have h2 := degreeOf_image (v := pFirstVar F) (evV v xc) (fun k => degreeOf_evV _ _ _ _) hF0 (by rw [← f2']; exact vFv0) (by rw [← f2']; exact eF) e1
          rw [h2] at h1
          exact h1
        show PInv vc F G (pFirstVar F) v deg (accept p vc { st with used := x :: st.used } xc Pd.1 Pd.2) ∧ (true = true → _)
        unfold accept
        have xused : ∃ u ∈ x :: st.used, (u : ZMod p) = xc := ⟨x, by simp, hxc.symm⟩
        by_cases hreset : Pd.2 < st.deg ∨ st.pts = []
        · rw [if_pos hreset]
          refine ⟨⟨hle.trans hst.le, by simp, ?_, hst0.lt, .inr ⟨?_, hmax⟩⟩, by simp⟩
          · intro y hy
            rw [show y = xc by simpa using hy]; exact xused
          · exact vok_first sp.ok dom le top
        · rw [if_neg hreset]
          push Not at hreset
          have hd : Pd.2 = st.deg := le_antisymm hle hreset.1
          have hv' := hst.vals.resolve_left hreset.2
          refine ⟨⟨hst.le, ?_, ?_, hst0.lt, .inr ⟨?_, hv'.2⟩⟩, by simp⟩
          · show (st.pts ++ [xc]).Nodup
            rw [List.nodup_append]
            refine ⟨hst.nodup, by simp, fun a ha b hb hab => ?_⟩
            rw [List.mem_singleton] at hb
            obtain ⟨u, hu, e⟩ := hst.used a ha
            have : u = x := by
              have h1 : (u : ZMod p) = (x : ZMod p) := by rw [e, hab, hb, hxc]
              rw [ZMod.natCast_eq_natCast_iff'] at h1
              rwa [Nat.mod_eq_of_lt (hst.lt u hu), Nat.mod_eq_of_lt xlt] at h1
            exact xnew (this ▸ hu)
          · intro y hy
            rcases List.mem_append.1 hy with hy | hy
            · obtain ⟨u, hu, e⟩ := hst.used y hy; exact ⟨u, List.mem_cons_of_mem _ hu, e⟩
            · rw [List.mem_singleton.1 hy]; exact xused
          · show VOK vc (st.pts ++ [xc]).length _ _ _ _
            rw [List.length_append, List.length_singleton]
            exact vok_merge M hv'.1 sp.ok dom (by rw [← hd]; exact le)
    · rintro ⟨st', b⟩ ⟨hinv, hne⟩
      show Post (if b = true ∧ st'.pts.length = vd then _ else _) _
      refine Post.ite (fun hc => Post.ret ?_) fun _ => ?_
      · intro Pd hPd
        rw [Option.some.injEq] at hPd
        subst hPd
        have hne' := hne hc.1
        obtain ⟨hvok, hmax⟩ := hinv.vals.resolve_left hne'
        have hB : ∀ w, 0 < (if w = v then 0 else Max.max ((val F).degreeOf w) ((val G).degreeOf w)) → vc w v = true := by
          intro w hw
          by_cases hwv : w = v
          · rw [if_pos hwv] at hw; omega
          · rw [if_neg hwv] at hw
            refine (hlast w ?_).resolve_left hwv
            by_contra hcc
            push Not at hcc
            rw [degreeOf_zero_iff.2 hcc.1, degreeOf_zero_iff.2 hcc.2] at hw
            simp at hw
        obtain ⟨i1, i2, i3, i4, i5⟩ := interp_spec M hinv.nodup hv hvok hB
        refine ⟨⟨i1, ?_, fun w => ?_, ?_, hmax⟩, hinv.le⟩
        · intro h
          obtain ⟨t, ht, _⟩ := i5
          change st'.vals.flatMap (interpTerms p st'.pts v) = [] at h
          rw [h] at ht
          simp at ht
        · by_cases hw : w = v
          · subst hw
            refine degreeOf_le_of_list M i1 fun t ht => ?_
            have h1 := i3 t ht
            rw [show st'.pts.length = vd from hc.2] at h1
            omega
          · refine degreeOf_le_of_list M i1 fun t ht => ?_
            have h1 := i2 t ht w hw
            simp only [if_neg hw] at h1
            exact h1
        · exact (degreeOf_eq_of M i1 (pFirstVar F) i4 (.inr i5)).symm
      · refine Post.ite (fun _ => Post.ret (by intro Pd h; simp at h)) fun _ => ?_
        exact ih _ ⟨hinv.le, hinv.nodup, hinv.used, hinv.lt, hinv.vals⟩

theorem gcdP_spec (ho : VarOrd vc) (dfuel : ℕ) : ∀ (fuel : ℕ) (F G Lc : PV Mono (ZMod p)) (deg : Int), PIn vc F G Lc →
    Post (gcdP p vc dfuel fuel F G Lc deg) fun o => ∀ Pd, o = some Pd → PSpec vc F G Pd.1 Pd.2 ∧ (pFirstVar F ≠ 0 → Pd.2 ≤ deg) := by
  have M := lex_ord ho
  intro fuel
  induction fuel with
  | zero => intro F G Lc deg _; exact Post.fail
  | succ fuel ih =>
    intro F G Lc deg hin
    rw [gcdP]
    refine Post.ite (fun _ => Post.fail) fun h0 => ?_
    push Not at h0
    obtain ⟨F0, G0, L0⟩ := h0
    have hF0 : val F ≠ 0 := fun h => F0 ((hin.okF.val_eq_zero M).1 h)
    have hG0 : val G ≠ 0 := fun h => G0 ((hin.okG.val_eq_zero M).1 h)
    refine Post.ite (fun _ => Post.fail) fun hfg => ?_
    rw [not_not] at hfg
    refine Post.ite (fun hz => ?_) fun hf => ?_
    · -- both are constants
      refine Post.ite (fun hcon => Post.ret ?_) fun _ => Post.fail
      intro Pd hPd
      rw [Option.some.injEq] at hPd
      subst hPd
      have hd0 : ∀ w, (val Lc).degreeOf w = 0 := fun w => by
        match Lc, hcon, hin with
        | [t], hcon, hin =>
          have ht : t.1.data = [] := by simpa [isConstTerm] using hcon
          refine degreeOf_zero_iff.2 fun hc => ?_
          obtain ⟨u, hu, x, hx, _⟩ := (mem_vars_iff ho hin.okL).1 hc
          rw [List.mem_singleton.1 hu, ht] at hx
          simp at hx
      refine ⟨⟨hin.okL, L0, fun w => ?_, ?_, fun e e1 _ => ?_⟩, fun h => absurd hz h⟩
      · rw [show (val (Lc, (0 : Int)).1).degreeOf w = 0 from hd0 w]; exact Nat.zero_le _
      · show (((val Lc).degreeOf _ : ℕ) : Int) = 0
        rw [hd0]; rfl
      · have := degreeOf_le_of_dvd (v := pFirstVar F) e1 hF0
        rw [hz, degreeOf_zero_iff.2 hin.zF] at this
        rw [hz]
        show ((degreeOf 0 e : ℕ) : Int) ≤ 0
        omega
    · have sF := first_spec ho hin.okF hf
      have hg : pFirstVar G ≠ 0 := hfg ▸ hf
      have sG := first_spec ho hin.okG hg
      obtain ⟨lF1, lF2, lF3⟩ := lastVarDeg_spec ho hin.okF hf
      obtain ⟨lG1, lG2, lG3⟩ := lastVarDeg_spec ho hin.okG hg
      have tF := (top_iff ho hin.okF).1 sF.1
      have tG := (top_iff ho hin.okG).1 sG.1
      rw [← hfg] at tG
      have asymm : ∀ a b, vc a b = true → vc b a = true → False := fun a b h1 h2 => by
        have := ho.trans _ _ _ trivial trivial trivial h1 h2
        rw [ho.irrefl _ trivial] at this; simp at this
      refine Post.ite (fun hbase => ?_) fun hbase => ?_
      · -- one variable: Euclid
        have one : ∀ (A : PV Mono (ZMod p)) (w : Var), w = pFirstVar F → (∀ u ∈ (val A).vars, u = w ∨ vc u w = true) → (∀ u ∈ (val A).vars, u = pFirstVar F ∨ vc (pFirstVar F) u = true) →
            (val A).vars ⊆ {pFirstVar F} := by
          rintro A w rfl h1 h2 u hu
          rw [Finset.mem_singleton]
          rcases h1 u hu with e | e
          · exact e
          · rcases h2 u hu with e' | e'
            · exact e'
            · exact (asymm _ _ e e').elim
        have vF : (val F).vars ⊆ {pFirstVar F} := one F _ hbase.1.symm lF2 tF
        have vG : (val G).vars ⊆ {pFirstVar F} := one G _ (by rw [← hbase.2, hfg]) lG2 tG
        have vF' : (val F).vars = {pFirstVar F} := Finset.Subset.antisymm vF (Finset.singleton_subset_iff.2 (first_mem ho hin.okF hf))
        refine Post.bind (P := fun D => LP vc D ∧ D ≠ [] ∧ IsGcd (val D) (val F) (val G)) (Post.lift fun D hD => ?_) fun D hD => ?_
        · rw [Option.bind_eq_some_iff] at hD
          obtain ⟨qr, h1, h2⟩ := hD
          obtain ⟨q1, q2, q3, q4⟩ := quoRemP_spec ho hin.okF hin.okG G0 vF' vG (hin.dF _) (hin.dG _) h1
          obtain ⟨e1, e2, e3⟩ := euclid_spec ho dfuel dfuel G qr.2 D hin.okG q1 G0 vG q3 (hin.dG _) q4 h2
          exact ⟨e1, e2, e3.of_combo q2.symm⟩
        · obtain ⟨d1, d2, d3⟩ := hD
          match D, Lc, d1, d2, d3, L0, hin with
          | [], _, _, d2, _, _, _ => exact absurd rfl d2
          | t :: D', [], _, _, _, L0, _ => exact absurd rfl L0
          | t :: D', _ :: _ :: _, _, _, _, _, _ => exact Post.fail
          | t :: D', [l], d1, d2, d3, L0, hin =>
            show Post (if ¬ l.1.data.isEmpty then _ else _) _
            refine Post.ite (fun _ => Post.fail) fun _ => ?_
            obtain ⟨c, hc⟩ : ∃ c, c = t.2⁻¹ * l.2 := ⟨_, rfl⟩
            have hc0 : c ≠ 0 := by
              rw [hc]
              exact mul_ne_zero (inv_ne_zero (d1.canon.2 t (by simp))) (hin.okL.canon.2 l (by simp))
            obtain ⟨P, hP⟩ : ∃ P : PV Mono (ZMod p), P = (t :: D').map fun u => (u.1, u.2 * c) := ⟨_, rfl⟩
            have okP : LP vc P := by
              rw [hP]
              refine ⟨fun u hu => ?_, ?_, fun u hu => ?_⟩
              · obtain ⟨w, hw, rfl⟩ := List.mem_map.1 hu; exact d1.monos w hw
              · rw [List.pairwise_map]; exact d1.canon.1
              · obtain ⟨w, hw, rfl⟩ := List.mem_map.1 hu; exact mul_ne_zero (d1.canon.2 w hw) hc0
            have vP : val P = C c * val (t :: D') := by
              rw [hP]
              generalize t :: D' = D
              induction D with
              | nil => simp [val_nil]
              | cons u D ih => rw [List.map_cons, val_cons, val_cons, ih, mul_add, C_mul_monomial, mul_comm]
            have P0 : P ≠ [] := by rw [hP]; simp
            have hdvd : ∀ f, val (t :: D') ∣ f → val P ∣ f := by
              intro f hf'
              rw [vP]
              obtain ⟨k, rfl⟩ := hf'
              refine ⟨C c⁻¹ * k, ?_⟩
              rw [show C c * val (t :: D') * (C c⁻¹ * k) = C (c * c⁻¹) * (val (t :: D') * k) by rw [C_mul]; ring, mul_inv_cancel₀ hc0, C_1, one_mul]
            have vPF : val P ∣ val F := hdvd _ d3.1
            have hfd : pFirstDeg P = (val P).degreeOf (pFirstVar F) := by
              have hvp : (val P).vars ⊆ {pFirstVar F} := (vars_of_dvd vPF hF0).trans vF
              by_cases hz : pFirstVar P = 0
              · have h0 : 0 ∉ (val P).vars := fun h => hin.zF (vars_of_dvd vPF hF0 h)
                have hemp := (first_zero ho okP h0).1 hz
                rw [degreeOf_zero_iff.2 (by rw [hemp]; simp)]
                cases P with
                | nil => rfl
                | cons u P =>
                  show firstDeg u.1 = 0
                  unfold firstDeg
                  cases hd : u.1.data with
                  | nil => rfl
                  | cons y m =>
                    have := (mem_vars_iff ho okP (w := y.1)).2 ⟨u, by simp, y, by rw [hd]; simp, rfl⟩
                    rw [hemp] at this; simp at this
              · have h1 := first_spec ho okP hz
                have h2 := hvp (first_mem ho okP hz)
                rw [Finset.mem_singleton] at h2
                rw [h1.2.2, h2]
            show Post (if pFirstDeg ((t :: D').map fun u => (u.1, u.2 * (t.2⁻¹ * l.2))) ≤ deg then _ else _) _
            rw [← hc, ← hP]
            refine Post.ite (fun hle => Post.ret ?_) fun _ => Post.ret (by intro Pd h; simp at h)
            intro Pd hPd
            rw [Option.some.injEq] at hPd
            subst hPd
            refine ⟨⟨okP, P0, fun w => ?_, hfd.symm, fun e e1 e2 => ?_⟩, fun _ => hle⟩
            · exact (degreeOf_le_of_dvd vPF hF0).trans (le_max_left _ _)
            · show _ ≤ pFirstDeg P
              rw [hfd]
              have hPne : val P ≠ 0 := fun h => P0 ((okP.val_eq_zero M).1 h)
              have : e ∣ val P := by
                rw [vP]; exact dvd_mul_of_dvd_right (d3.2.2 e e1 e2) _
              exact_mod_cast degreeOf_le_of_dvd this hPne
      · -- several variables
        obtain ⟨v, hv⟩ : ∃ v, v = (if (lastVarDeg vc F).1 = (lastVarDeg vc G).1 then (lastVarDeg vc F).1 else if vc (lastVarDeg vc F).1 (lastVarDeg vc G).1 then (lastVarDeg vc G).1 else (lastVarDeg vc F).1) := ⟨_, rfl⟩
        obtain ⟨vd, hvd⟩ : ∃ vd, vd = (if (lastVarDeg vc F).1 = (lastVarDeg vc G).1 then (max (lastVarDeg vc F).2 (lastVarDeg vc G).2 + 1).toNat else 1) := ⟨_, rfl⟩
        show Post (ptLoop p vc (gcdP p vc dfuel fuel) F G Lc (if (lastVarDeg vc F).1 = (lastVarDeg vc G).1 then _ else _) (if (lastVarDeg vc F).1 = (lastVarDeg vc G).1 then _ else _) dfuel _) _
        rw [← hv, ← hvd]
        have hFv : (lastVarDeg vc F).1 = v ∨ vc (lastVarDeg vc F).1 v = true := by
          rw [hv]
          by_cases e : (lastVarDeg vc F).1 = (lastVarDeg vc G).1
          · rw [if_pos e]; exact .inl rfl
          · rw [if_neg e]
            by_cases e2 : vc (lastVarDeg vc F).1 (lastVarDeg vc G).1 = true
            · rw [if_pos e2]; exact .inr e2
            · rw [if_neg e2]; exact .inl rfl
        have hGv : (lastVarDeg vc G).1 = v ∨ vc (lastVarDeg vc G).1 v = true := by
          rw [hv]
          by_cases e : (lastVarDeg vc F).1 = (lastVarDeg vc G).1
          · rw [if_pos e]; exact .inl e.symm
          · rw [if_neg e]
            by_cases e2 : vc (lastVarDeg vc F).1 (lastVarDeg vc G).1 = true
            · rw [if_pos e2]; exact .inl rfl
            · rw [if_neg e2]; exact .inr ((ho.total _ _ trivial trivial e).resolve_left e2)
        have step : ∀ u l : Var, (u = l ∨ vc u l = true) → (l = v ∨ vc l v = true) → u = v ∨ vc u v = true := by
          rintro u l (rfl | h1) (rfl | h2)
          · exact .inl rfl
          · exact .inr h2
          · exact .inr h1
          · exact .inr (ho.trans _ _ _ trivial trivial trivial h1 h2)
        refine Post.mono (ptLoop_spec ho (deg := deg) (vd := vd) (v := v) hin F0 hf hfg ?_ ?_ ?_ ?_ (gcdP p vc dfuel fuel)
          (fun F G Lc deg h => Post.mono (ih F G Lc deg h) fun o ho Pd hPd => (ho Pd hPd).1) dfuel _ ?_) fun o ho Pd hPd => ⟨(ho Pd hPd).1, fun _ => (ho Pd hPd).2⟩
        · intro e
          apply hbase
          constructor
          · rcases tF _ lF1 with h | h
            · exact h.symm
            · rcases hFv with h' | h'
              · rw [h', e]
              · rw [e] at h'; exact (asymm _ _ h h').elim
          · rcases tG _ lG1 with h | h
            · rw [h]; exact hfg.symm
            · rcases hGv with h' | h'
              · rw [h', e]; exact hfg.symm
              · rw [e] at h'; exact (asymm _ _ h h').elim
        · rintro w (hw | hw)
          · exact step w _ (lF2 w hw) hFv
          · exact step w _ (lG2 w hw) hGv
        · rw [hvd]; split
          · rw [lF3, lG3]; omega
          · omega
        · rw [hvd]
          by_cases e : (lastVarDeg vc F).1 = (lastVarDeg vc G).1
          · rw [if_pos e, lF3, lG3]
            rw [if_pos e] at hv
            rw [hv, e]
            omega
          · rw [if_neg e]; omega
        · exact ⟨le_rfl, by simp, by simp, by simp, .inl rfl⟩

end

end Mgcd
end CLPoly
