import Verif.Wang.LiftExact

/-! # Completeness of `__mtshl_step_j` -/

namespace CLPoly
namespace Mtshl
open Mono Mgcd Run Upoly Factor Lift Wang Charset MvPolynomial

section
variable {R : Type} [DecidableEq R] [Field R] {vc : Var → Var → Bool} (ho : VarOrd vc) {W : Finset Var} {x1 : Var} {α : Var → R} {x : Var} {a : R} {n : ℕ}

theorem isCoeff_sub1 (hx : x ≠ x1) {i : ℕ} {f c : MvPolynomial Var R} (h : IsCoeff x1 i f c) : IsCoeff x1 i (sub1 x a f) (sub1 x a c) := by
  have h1 : toU x1 (sub1 x a f) = (toU x1 f).map (sub1 x a) := toU_evV hx a f
  rw [isCoeff_iff] at h ⊢
  rw [h1, Polynomial.coeff_map, ← h]

/-- the coefficient of the largest possible power vanishes -/
theorem sml_of_coeff {f : MvPolynomial Var R} {d : ℕ} (hd : 0 < d) (h : f.degreeOf x1 ≤ d) (h0 : (toU x1 f).coeff d = 0) : f.degreeOf x1 < d := by
  rw [← natDegree_toU] at h ⊢
  rcases h.lt_or_eq with h | h
  · exact h
  · exfalso
    rw [← h, Polynomial.coeff_natDegree, Polynomial.leadingCoeff_eq_zero] at h0
    rw [h0, Polynomial.natDegree_zero] at h
    omega

theorem St.sub_eq {k : ℕ} (hk : 0 < k) {r : PV Mono R} {u : MvPolynomial Var R × Polynomial R} (h : St vc x1 W x a n k r u) : sub1 x a (val r) = sub1 x a u.1 := by
  have h1 : X x - C a ∣ u.1 - val r := (dvd_pow_self _ (by omega)).trans h.dvd
  rw [lin_dvd_iff, map_sub] at h1
  exact (sub_eq_zero.1 h1).symm

theorem St.img {k : ℕ} (hk : 0 < k) (hx : x ≠ x1) (ha : a = α x) {r : PV Mono R} {u : MvPolynomial Var R × Polynomial R} (h : St vc x1 W x a n k r u) (ht : Tgt x1 α W x n u) : Img vc x1 α W r u.2 := by
  refine ⟨⟨h.ok, ?_⟩, ?_⟩
  · have : val r = u.1 - (u.1 - val r) := by ring
    rw [this]
    exact (degreeOf_sub_le _ _ _).trans (max_le ht.im.1 h.sml.le)
  · rw [← evR_sub1 hx ha, h.sub_eq hk, evR_sub1 hx ha, ht.im.2]

include ho in
/-- `lc_correct`: the leading coefficient is the right one -/
theorem lcCorrect_exact (hx : x ≠ x1) (hx1 : x1 ∈ W) {G T : PV Mono R} {u : MvPolynomial Var R × Polynomial R} (ht : Tgt x1 α W x n u) (hG : OKIn vc (W.erase x) G) (hGv : val G = sub1 x a u.1)
    (hGd : (val G).degreeOf x1 = u.2.natDegree) (hT : OKIn vc W T) (hTc : IsCoeff x1 u.2.natDegree u.1 (val T)) : Post (lcCorrect true vc x1 G T) (St vc x1 W x a n 1 · u) := by
  have M := lex_ord ho
  obtain ⟨d, hd⟩ : ∃ d, d = u.2.natDegree := ⟨_, rfl⟩
  rw [← hd] at hGd hTc
  have hp : 0 < d := hd ▸ ht.pos
  unfold lcCorrect
  have G0 : G ≠ [] := fun h => by rw [h, val_nil, degreeOf_zero] at hGd; omega
  rw [if_neg G0]
  dsimp only
  obtain ⟨_, l1, l2⟩ := leadIn_spec M hG.1 x1
  rw [hGd] at l2
  obtain ⟨lc, hlc⟩ : ∃ lc, lc = (leadIn vc (lexGt vc) G x1).1 := ⟨_, rfl⟩
  rw [← hlc] at l1 l2 ⊢
  have hGW : OKIn vc W G := hG.mono (Finset.erase_subset _ _)
  have hlv : (val lc).vars ⊆ W.erase x := l2.vars_subset.trans hG.2
  have hlT : val lc = sub1 x a (val T) := by
    have h1 := isCoeff_sub1 (a := a) hx hTc
    rw [← hGv] at h1
    exact l2.unique h1
  obtain ⟨s1, s2⟩ := sub_in ho hT (q := lc) ⟨l1, hlv.trans (Finset.erase_subset _ _)⟩
  have hTd : (val T).degreeOf x1 = 0 := hTc.degreeOf
  have hl0 : (val lc).degreeOf x1 = 0 := l2.degreeOf
  have free : ∀ {g : MvPolynomial Var R}, g.vars ⊆ W.erase x → g.degreeOf x = 0 := fun h => degreeOf_zero_iff.2 fun hm => by simpa using h hm
  -- the value of the result
  have key : ∀ r, OKIn vc W r → val r = val G + (val T - val lc) * X x1 ^ d → St vc x1 W x a n 1 r u := fun r hr e => by
    refine ⟨hr, ?_, ?_, ?_⟩
    · rw [pow_one, lin_dvd_iff, map_sub, e, map_add, map_mul, map_sub, ← hlT, hGv, ← hGv, sub1_free (f := val lc) (fun h => by simpa using hlv h), sub_self, zero_mul, add_zero,
        sub1_free (f := val G) (fun h => by simpa using hG.2 h), hGv, sub_self]
    · rw [Sml, ← hd]
      have hX : (X x1 ^ d : MvPolynomial Var R).degreeOf x1 ≤ d := (degreeOf_pow_le _ _ _).trans (by rw [degreeOf_X, if_pos rfl, mul_one])
      have hD : (val T - val lc).degreeOf x1 = 0 := Nat.le_zero.1 ((degreeOf_sub_le _ _ _).trans (by rw [hTd, hl0]; simp))
      refine sml_of_coeff hp ?_ ?_
      · refine (degreeOf_sub_le _ _ _).trans (max_le (by rw [hd]; exact ht.im.1) ?_)
        rw [e]
        refine (degreeOf_add_le _ _ _).trans (max_le hGd.le ((degreeOf_mul_le _ _ _).trans ?_))
        rw [hD, zero_add]; exact hX
      · rw [e, map_sub, map_add, map_mul, map_pow, toU_free (degreeOf_zero_iff.1 hD)]
        have : toU x1 (X x1 : MvPolynomial Var R) = Polynomial.X := by simp [toU]
        rw [this, Polynomial.coeff_sub, Polynomial.coeff_add, Polynomial.coeff_C_mul_X_pow, if_pos rfl, ← isCoeff_iff.1 hTc, ← isCoeff_iff.1 l2]
        ring
    · rw [e]
      refine (degreeOf_add_le _ _ _).trans (max_le (by rw [free hG.2]; exact Nat.zero_le _) ((degreeOf_mul_le _ _ _).trans ?_))
      have h1 : (X x1 ^ d : MvPolynomial Var R).degreeOf x = 0 := Nat.le_zero.1 ((degreeOf_pow_le _ _ _).trans (by rw [degreeOf_X, if_neg hx, mul_zero]))
      rw [h1, add_zero]
      refine (degreeOf_sub_le _ _ _).trans (max_le (hTc.degreeOf_le.trans ht.deg) (by rw [free hlv]; exact Nat.zero_le _))
  refine Post.ite (fun h => Post.ret (key G hGW ?_)) fun _ => ?_
  · rw [h, val_nil] at s2
    rw [← s2, zero_mul, add_zero]
  have hdeg : degreeLex vc G x1 = (d : ℤ) := by rw [degreeLex_spec ho hG.1, hGd]
  have hvm : Valid vc (mkMono [(x1, degreeLex vc G x1)]) := mkMono_valid (List.pairwise_singleton _ _) (by rw [hdeg]; simpa using hp)
  have m1 : OKIn vc W [((mkMono [(x1, degreeLex vc G x1)] : Mono), (1 : R))] := OKIn_of_mem ho (PolyOK.single hvm one_ne_zero) fun t ht y hy => by
    rw [List.mem_singleton.1 ht] at hy
    simp [mkMono] at hy
    rw [hy]; exact hx1
  have m2 : val [((mkMono [(x1, degreeLex vc G x1)] : Mono), (1 : R))] = X x1 ^ d := by
    rw [val_cons, val_nil, add_zero]
    have : expo (mkMono [(x1, degreeLex vc G x1)]) = Finsupp.single x1 d := by
      have := powMono_expo x1 d
      rw [powMono, if_pos (by omega)] at this
      rw [← this, hdeg]
      congr 1
    rw [this, X_pow_eq_monomial]
  refine (mulN_in ho s1 m1).bind fun t ht' => Post.ret ?_
  obtain ⟨k1, k2⟩ := add_in ho hGW ht'.1
  exact key _ k1 (by rw [k2, ht'.2, s2, m2])

include ho in
theorem lcCorrectAll_exact (hx : x ≠ x1) (hx1 : x1 ∈ W) : ∀ {Gs Ts : List (PV Mono R)} {us : List (MvPolynomial Var R × Polynomial R)}, (∀ u ∈ us, Tgt x1 α W x n u) →
    List.Forall₂ (fun G u => OKIn vc (W.erase x) G ∧ val G = sub1 x a u.1 ∧ (val G).degreeOf x1 = u.2.natDegree) Gs us → List.Forall₂ (fun T u => OKIn vc W T ∧ IsCoeff x1 u.2.natDegree u.1 (val T)) Ts us →
    Post (lcCorrectAll true vc x1 Gs Ts) fun r => List.Forall₂ (St vc x1 W x a n 1) r us
  | [], [], [], _, _, _ => by unfold lcCorrectAll; exact Post.ret List.Forall₂.nil
  | [], [], _ :: _, _, h, _ => absurd h (by simp)
  | [], _ :: _, [], _, _, h => absurd h (by simp)
  | [], _ :: _, _ :: _, _, h, _ => absurd h (by simp)
  | _ :: _, _, [], _, h, _ => absurd h (by simp)
  | _ :: _, [], _ :: _, _, _, h => absurd h (by simp)
  | G :: Gs, T :: Ts, u :: us, hU, h, hT => by
    rw [List.forall₂_cons] at h hT
    unfold lcCorrectAll
    exact (lcCorrect_exact ho hx hx1 (hU u (by simp)) h.1.1 h.1.2.1 h.1.2.2 hT.1.1 hT.1.2).bind fun r hr =>
      (lcCorrectAll_exact hx hx1 (fun w hw => hU w (by simp [hw])) h.2 hT.2).bind fun l hl => Post.ret (List.Forall₂.cons hr hl)

variable {aux : List (Var × R)} (hn : (aux.map Prod.fst).Nodup) (hα : ∀ y ∈ aux, y.1 ≠ x1 ∧ y.2 = α y.1) (hx : x ≠ x1) (hxk : x ∉ keys aux) (ha : a = α x)
  {us : List (MvPolynomial Var R × Polynomial R)} (hc : Lift.Cop (us.map Prod.snd)) (hU : ∀ u ∈ us, Tgt x1 α (insert x (insert x1 (keys aux))) x n u)

include ho hn hα hx hxk ha hc hU in
/-- `__mtshl_step_j` finds the targets -/
theorem stepJ_exact {nn : Prop} {ex : Bool} {fuel : ℕ} (p : ℕ) (hne : us ≠ []) {aj : PV Mono R} (haj : OKIn vc (insert x (insert x1 (keys aux))) aj) (hprod : val aj = (us.map Prod.fst).prod)
    (hdeg : (degreeLex vc aj x).toNat = n) {F taus : List (PV Mono R)}
    (hF : List.Forall₂ (fun G u => OKIn vc (insert x1 (keys aux)) G ∧ val G = sub1 x a u.1) F us)
    (hT : List.Forall₂ (fun T u => OKIn vc (insert x (insert x1 (keys aux))) T ∧ IsCoeff x1 u.2.natDegree u.1 (val T)) taus us)
    (hs : ∀ forms, List.Forall₂ (FormOK vc x1 (insert x (insert x1 (keys aux)))) forms (us.map Prod.snd) → (∀ f ∈ forms, f ≠ []) →
      SolveEx nn vc x1 α (us.map Prod.snd) (insert x1 (keys aux)) fun F c => stepSolve true ex vc fuel p x1 aux F c forms) :
    Post (stepJ true ex vc fuel p x1 aux aj F taus x a) fun o => (nn → o ≠ none) ∧
      ∀ s, o = some s → List.Forall₂ (fun r u => OKIn vc (insert x (insert x1 (keys aux))) r ∧ val r = u.1) s us := by
  have hxW : x ∉ insert x1 (keys aux) := by rw [Finset.mem_insert]; rintro (h | h); exacts [hx h, hxk h]
  have h0 : ∀ u ∈ us, u.2 ≠ 0 := fun u hu e => by
    have := (hU u hu).pos
    rw [e, Polynomial.natDegree_zero] at this
    omega
  unfold stepJ
  have hF0 : List.Forall₂ (fun G u => OKIn vc ((insert x (insert x1 (keys aux))).erase x) G ∧ val G = sub1 x a u.1 ∧ (val G).degreeOf x1 = u.2.natDegree) F us := by
    refine List.forall₂_iff_zip.2 ⟨hF.length_eq, fun {G u} hGu => ?_⟩
    obtain ⟨g1, g2⟩ := (List.forall₂_iff_zip.1 hF).2 hGu
    have ht := hU u (List.of_mem_zip hGu).2
    rw [Finset.erase_insert hxW]
    refine ⟨g1, g2, le_antisymm ?_ ?_⟩
    · rw [g2]; exact (sub1_degreeOf _ _ _ _).trans ht.im.1
    · rw [← ht.im.2, ← evR_sub1 hx ha, ← g2]; exact evR_natDegree_le _ _ _
  refine (lcCorrectAll_exact ho hx (by simp) hU hF0 hT).bind fun F1 hF1 => ?_
  have hF1i : List.Forall₂ (Img vc x1 α (insert x (insert x1 (keys aux)))) F1 (us.map Prod.snd) := by
    rw [List.forall₂_map_right_iff]
    exact List.forall₂_iff_zip.2 ⟨hF1.length_eq, fun {r u} hru => ((List.forall₂_iff_zip.1 hF1).2 hru).img one_pos hx ha (hU u (List.of_mem_zip hru).2)⟩
  have hb : Post (runMap (asg true vc x a) F1) fun Fb => List.Forall₂ (fun f b => OKIn vc (insert x1 (keys aux)) b ∧ val b = sub1 x a (val f)) F1 Fb := by
    refine runMap_post fun f hf => ?_
    obtain ⟨u, _, h⟩ := forall₂_mem_left hF1 hf
    have := asg_in (x := x) (a := a) ho h.ok
    rwa [Finset.erase_insert hxW] at this
  have hb2 := imgs_asg ho hx ha hF1i
  rw [Finset.erase_insert hxW] at hb2
  refine (hb.and hb2).bind fun Fb hFb => ?_
  have hFv : Fb.map val = us.map fun u => sub1 x a u.1 := by
    have h1 := hFb.1
    clear hb hb2 hFb hF1i hs hT hF hF0 hU h0 hc hprod hne
    induction hF1 generalizing Fb with
    | nil => rw [List.forall₂_nil_left_iff] at h1; rw [h1]; rfl
    | cons hr _ ih =>
      rw [List.forall₂_cons_left_iff] at h1
      obtain ⟨b, Fb, hb, h1, rfl⟩ := h1
      rw [List.map_cons, List.map_cons, ih Fb h1, hb.2, hr.sub_eq one_pos]
  have hok : ∀ f ∈ F1, OKIn vc (insert x (insert x1 (keys aux))) f := fun f hf => by
    obtain ⟨u, _, h⟩ := forall₂_mem_left hF1 hf
    exact h.ok
  have hF1ne : F1 ≠ [] := fun h => by rw [h, List.forall₂_nil_left_iff] at hF1; exact hne hF1
  refine (prodAll_spec ho F1 hok).bind fun pr hpr => ?_
  obtain ⟨r1, r2⟩ := sub_in ho haj hpr.1
  rw [hpr.2 hF1ne] at r2
  rw [hdeg]
  refine stepLoop_exact ho hn hα hx hxk ha h0 hc hU p hne haj hprod hFb.2 hFv hs n 1 one_pos (by omega) one_okin ?_ r1 r2 hF1 (forms_of_sols ho (imgs_sols hF1i)) ?_
  · rw [val_cons, val_nil, add_zero, expo_one]
    simp
  · intro f hf
    obtain ⟨g, hg, rfl⟩ := List.mem_map.1 hf
    obtain ⟨v, hv, hi⟩ := forall₂_mem_left hF1i hg
    obtain ⟨u, hu, rfl⟩ := List.mem_map.1 hv
    intro h
    have : g = [] := by simpa using h
    rw [this, Img, val_nil, map_zero] at hi
    exact h0 u hu hi.2.symm

end

end Mtshl
end CLPoly
