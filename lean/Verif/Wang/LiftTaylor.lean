import Verif.Wang.LiftOps
import Verif.Gcd.ModPLists

/-! # Taylor coefficients and diophantine equations keep the degrees and the images -/

namespace CLPoly
namespace Mtshl
open Mono Mgcd Run Upoly Factor Lift Wang Charset MvPolynomial

section
variable {R : Type} [DecidableEq R] [CommRing R] [IsDomain R] {vc : Var → Var → Bool} (ho : VarOrd vc)

include ho in
/-- `x - a` -/
theorem linear_spec (x : Var) (a : R) : OKIn vc {x} (linear vc x a) ∧ val (linear vc x a) = X x - C a := by
  have hv : Valid vc (mkMono [(x, 1)]) := mkMono_valid (List.pairwise_singleton _ _) (by simp)
  have hx : expo (mkMono [(x, 1)]) = Finsupp.single x 1 := by
    have := powMono_expo x 1
    simpa [powMono, mkMono, sumDeg] using this
  have key : ∀ l : PV Mono R, (l = [(mkMono [(x, 1)], 1)] ∨ l = [(mkMono [(x, 1)], 1), (Mono.one, -a)] ∧ a ≠ 0) → OKIn vc {x} (nrm vc l) ∧ val (nrm vc l) = val l := by
    intro l hl
    have h1 : ∀ t ∈ l, Valid vc t.1 := by
      rcases hl with rfl | ⟨rfl, _⟩
      · simpa using hv
      · simp only [List.mem_cons, List.not_mem_nil, or_false, forall_eq_or_imp, forall_eq]
        exact ⟨hv, one_valid⟩
    obtain ⟨k1, k2, k3⟩ := nrm_nodup ho h1 (by
      rcases hl with rfl | ⟨rfl, h⟩
      · simp
      · simpa using h) (by
      rcases hl with rfl | ⟨rfl, h⟩
      · simp
      · simp [mkMono, Mono.one])
    refine ⟨OKIn_of_mem ho k1 fun t ht y hy => ?_, k2⟩
    have := k3 t ht
    rcases hl with rfl | ⟨rfl, _⟩
    · rw [List.mem_singleton.1 this] at hy
      simp [mkMono] at hy
      simp [hy]
    · simp only [List.mem_cons, List.not_mem_nil, or_false] at this
      rcases this with rfl | rfl
      · simp [mkMono] at hy
        simp [hy]
      · simp [Mono.one] at hy
  have e1 : val [((mkMono [(x, 1)] : Mono), (1 : R))] = X x := by
    rw [val_cons, val_nil, add_zero, hx]; rfl
  unfold linear
  by_cases h : a = 0
  · rw [if_neg (not_not.2 h)]
    obtain ⟨k1, k2⟩ := key [(mkMono [(x, 1)], 1)] (.inl rfl)
    exact ⟨k1, by rw [k2, e1, h, C_0, sub_zero]⟩
  · rw [if_pos h]
    obtain ⟨k1, k2⟩ := key [(mkMono [(x, 1)], 1), (Mono.one, -a)] (.inr ⟨rfl, h⟩)
    refine ⟨k1, ?_⟩
    rw [k2, val_cons, val_cons, val_nil, hx, expo_one]
    change X x + (C (-a) + 0) = _
    rw [C_neg]; ring

variable {W : Finset Var}

include ho in
theorem prodFrom_spec : ∀ (l : List (PV Mono R)) (acc : PV Mono R), OKIn vc W acc → (∀ f ∈ l, OKIn vc W f) → Post (prodFrom true vc acc l) fun r => OKIn vc W r ∧ val r = val acc * (l.map val).prod
  | [], acc, ha, _ => Post.ret ⟨ha, by simp⟩
  | f :: l, acc, ha, hl => by
    unfold prodFrom
    refine (mulN_in ho ha (hl f (by simp))).bind fun a h => (prodFrom_spec l a h.1 fun g hg => hl g (by simp [hg])).mono fun r hr => ⟨hr.1, ?_⟩
    rw [hr.2, h.2, List.map_cons, List.prod_cons, mul_assoc]

include ho in
theorem prodAll_spec (l : List (PV Mono R)) (hl : ∀ f ∈ l, OKIn vc W f) : Post (prodAll true vc l) fun r => OKIn vc W r ∧ (l ≠ [] → val r = (l.map val).prod) := by
  match l with
  | [] => exact Post.ret ⟨OKIn.nil, fun h => absurd rfl h⟩
  | f :: l =>
    exact (prodFrom_spec ho l f (hl f (by simp)) fun g hg => hl g (by simp [hg])).mono fun r hr => ⟨hr.1, fun _ => by rw [hr.2]; simp⟩

include ho in
theorem cofactors_spec {F : List (PV Mono R)} (hF : ∀ f ∈ F, OKIn vc W f) : Post (cofactors true vc F) fun bs => ∀ b ∈ bs, OKIn vc W b := by
  unfold cofactors
  refine (runMap_post (Q := fun _ b => OKIn vc W b) fun i _ => (prodAll_spec ho _ fun f hf => hF f (List.mem_of_mem_eraseIdx hf)).mono fun r hr => hr.1).mono fun bs h b hb => ?_
  obtain ⟨i, hi, rfl⟩ := List.getElem_of_mem hb
  exact (List.forall₂_iff_get.1 h).2 i (by rw [h.length_eq]; exact hi) hi

include ho in
theorem errorOf_spec : ∀ (rs bs : List (PV Mono R)) {e : PV Mono R}, OKIn vc W e → (∀ r ∈ rs, OKIn vc W r) → (∀ b ∈ bs, OKIn vc W b) → Post (errorOf true vc e rs bs) (OKIn vc W) := by
  intro rs
  induction rs with
  | nil => intro bs e he _ _; exact Post.ret he
  | cons r rs ih =>
    intro bs e he hr hb
    cases bs with
    | nil => exact Post.ret he
    | cons b bs =>
      unfold errorOf
      refine Post.ite (fun _ => ih bs he (fun z hz => hr z (by simp [hz])) fun z hz => hb z (by simp [hz])) fun _ => ?_
      exact (mulN_in ho (hr r (by simp)) (hb b (by simp))).bind fun t ht => ih bs (sub_in ho he ht.1).1 (fun z hz => hr z (by simp [hz])) fun z hz => hb z (by simp [hz])

include ho in
/-- `result[i] += delta[i]·(x - a)^k` -/
theorem addCorr_spec {U : Type} {A B : PV Mono R → U → Prop} {xp : PV Mono R} (hxp : OKIn vc W xp) (hA : ∀ r u, A r u → OKIn vc W r) (hB : ∀ d u, B d u → OKIn vc W d)
    (step : ∀ r d u r', A r u → B d u → OKIn vc W r' → val r' = val r + val d * val xp → A r' u) :
    ∀ {rs ds : List (PV Mono R)} {us : List U}, List.Forall₂ A rs us → List.Forall₂ B ds us → Post (addCorr true vc xp rs ds) fun l => List.Forall₂ A l us
  | [], _, _, h, _ => by unfold addCorr; exact Post.ret h
  | r :: rs, [], us, h, h' => by
    rw [List.forall₂_nil_left_iff] at h'; subst h'
    exact absurd h (by simp)
  | r :: rs, d :: ds, [], h, _ => absurd h (by simp)
  | r :: rs, d :: ds, u :: us, h, h' => by
    rw [List.forall₂_cons] at h h'
    unfold addCorr
    refine Post.bind (P := fun r' => A r' u) ?_ fun r' hr' => (addCorr_spec hxp hA hB step h.2 h'.2).bind fun l hl => Post.ret (List.Forall₂.cons hr' hl)
    refine Post.ite (fun hd => Post.ret (step r d u r h.1 h'.1 (hA r u h.1) ?_)) fun _ => ?_
    · rw [hd, val_nil, zero_mul, add_zero]
    · refine (mulN_in ho (hB d u h'.1) hxp).bind fun t ht => Post.ret ?_
      obtain ⟨k1, k2⟩ := add_in ho (hA r u h.1) ht.1
      exact step r d u _ h.1 h'.1 k1 (by rw [k2, ht.2])

end

section
variable {R : Type} [DecidableEq R] [Field R] {vc : Var → Var → Bool} (ho : VarOrd vc) {W : Finset Var}

include ho in
/-- division by `x - a` -/
theorem quoX_spec {fuel : ℕ} {x : Var} (hx : x ∈ W) (a : R) {g : PV Mono R} (hg : OKIn vc W g) : Post (quoX true vc fuel g (linear vc x a)) fun q => OKIn vc W q := by
  have M := lex_ord ho
  obtain ⟨l1, l2⟩ := linear_spec ho x a
  have l0 : linear vc x a ≠ [] := fun h => by
    rw [h, val_nil] at l2
    have := congrArg (coeff (Finsupp.single x 1)) l2
    rw [coeff_sub, coeff_X, coeff_C, coeff_zero, if_pos rfl, if_neg (fun e => by have := DFunLike.congr_fun e x; simp at this)] at this
    simp at this
  unfold quoX
  refine Post.ite (fun _ => Post.fail) fun hd => ?_
  have hd' : ∀ t ∈ g, t.1.deg < 2 ^ 63 := fun t ht => by
    by_contra hc
    exact hd ⟨rfl, List.any_eq_true.2 ⟨t, ht, by simpa using hc⟩⟩
  have hdl : ∀ t ∈ linear vc x a, t.1.deg < 2 ^ 63 := fun t ht => by
    have := l1.1.deg_le_total M ht
    rw [l2] at this
    have h2 : (X x - C a : MvPolynomial Var R).totalDegree ≤ 1 := (totalDegree_sub _ _).trans (by rw [totalDegree_X, totalDegree_C]; simp)
    have h3 : ((X x - C a : MvPolynomial Var R).totalDegree : ℤ) ≤ 1 := by exact_mod_cast h2
    omega
  refine (Post.lift (Q := fun qr => OKIn vc W qr.1) fun qr h => ?_).bind fun qr hqr => Post.ret hqr
  obtain ⟨N, Q, R', r1, r2, r3, r4, r5, r6⟩ := polyDivRem_field_vars (C := codeLex R vc) (divc := coefDivF) M hg.1 l1.1 l0 (fun h2 => plan_lex ho hg.1 l1.1 h2 ⟨hd', hdl⟩)
    (fun lc hlc k => ⟨by simp only [coefDivF]; rw [div_mul_cancel₀ _ hlc], rfl⟩)
  have h2 := polyDivRem_mono (Option.join_eq_some_iff.1 h) N
  rw [r1 (fuel + N) (by omega), Option.some.injEq, Option.some.injEq] at h2
  subst h2
  refine ⟨r2, ?_⟩
  by_cases hQ : val Q = 0
  · dsimp only; rw [hQ, vars_0]; exact Finset.empty_subset _
  have hR : (val R').vars ⊆ W := by
    refine (OKIn_of_mem ho r3 fun t ht y hy => ?_).2
    have := r6 t ht y hy
    rw [polyVars_eq M hg.1, polyVars_eq M l1.1, Finset.mem_union] at this
    rcases this with h | h
    · exact hg.2 h
    · rw [Finset.mem_singleton.1 (l1.2 h)]; exact hx
  have hne : val (linear vc x a) ≠ 0 := fun h => l0 ((l1.1.val_eq_zero M).1 h)
  have e : val Q * val (linear vc x a) = val g - val R' := by rw [r4]; ring
  refine (vars_of_dvd (Dvd.intro _ e) (by rw [← e]; exact mul_ne_zero hQ hne)).trans ?_
  classical
  exact (vars_sub_subset _).trans (Finset.union_subset hg.2 hR)

include ho in
theorem divPow_spec {fuel : ℕ} {x : Var} (hx : x ∈ W) (a : R) : ∀ (j : ℕ) {g : PV Mono R}, OKIn vc W g → Post (divPow true vc fuel (linear vc x a) j g) (OKIn vc W)
  | 0, _, hg => Post.ret hg
  | j + 1, _, hg => by
    unfold divPow
    exact (quoX_spec ho hx a hg).bind fun q hq => divPow_spec hx a j hq

include ho in
theorem taylorCoeff_in {fuel : ℕ} {x : Var} (hx : x ∈ W) (a : R) (j : ℕ) {f : PV Mono R} (hf : OKIn vc W f) : Post (taylorCoeff true vc fuel f x a j) (OKIn vc (W.erase x)) := by
  unfold taylorCoeff
  exact Post.ite (fun _ => Post.ret OKIn.nil) fun _ => (divPow_spec ho hx a j hf).bind fun g hg => (asg_in ho hg).mono fun r hr => hr.1

/-! ## solutions and images -/

variable (x1 : Var) (α : Var → R)

/-- a polynomial of degree at most that of `v` in `x1` -/
def Sol (vc : Var → Var → Bool) (x1 : Var) (W : Finset Var) (σ : PV Mono R) (v : Polynomial R) : Prop := OKIn vc W σ ∧ (val σ).degreeOf x1 ≤ v.natDegree

/-- a polynomial with the image `v` at the point `α`, of the same degree in `x1` -/
def Img (vc : Var → Var → Bool) (x1 : Var) (α : Var → R) (W : Finset Var) (F : PV Mono R) (v : Polynomial R) : Prop := Sol vc x1 W F v ∧ evR x1 α (val F) = v

theorem Sol.mono {x1 : Var} {W W' : Finset Var} (hW : W ⊆ W') {σ : PV Mono R} {v : Polynomial R} (h : Sol vc x1 W σ v) : Sol vc x1 W' σ v := ⟨h.1.mono hW, h.2⟩
theorem Img.mono {x1 : Var} {α : Var → R} {W W' : Finset Var} (hW : W ⊆ W') {σ : PV Mono R} {v : Polynomial R} (h : Img vc x1 α W σ v) : Img vc x1 α W' σ v := ⟨h.1.mono hW, h.2⟩

theorem sols_mem {x1 : Var} {ss : List (PV Mono R)} {vs : List (Polynomial R)} (h : List.Forall₂ (Sol vc x1 W) ss vs) : ∀ s ∈ ss, OKIn vc W s := by
  intro s hs
  obtain ⟨i, hi, rfl⟩ := List.getElem_of_mem hs
  exact ((List.forall₂_iff_get.1 h).2 i hi (by rw [← h.length_eq]; exact hi)).1

theorem imgs_sols {x1 : Var} {α : Var → R} {ss : List (PV Mono R)} {vs : List (Polynomial R)} (h : List.Forall₂ (Img vc x1 α W) ss vs) : List.Forall₂ (Sol vc x1 W) ss vs := h.imp fun _ _ h => h.1

variable {x1 α} {vs : List (Polynomial R)} (h2 : 2 ≤ vs.length) (h0 : ∀ v ∈ vs, v ≠ 0)

/-- `solve` returns polynomials of bounded degree for factors with the images `vs` -/
def SolveOK (vc : Var → Var → Bool) (x1 : Var) (α : Var → R) (vs : List (Polynomial R)) (W : Finset Var) (solve : List (PV Mono R) → PV Mono R → Run (Option (List (PV Mono R)))) : Prop :=
  ∀ F c, List.Forall₂ (Img vc x1 α W) F vs → OKIn vc W c → Post (solve F c) fun o => ∀ s, o = some s → List.Forall₂ (Sol vc x1 W) s vs

include ho h2 h0 in
theorem mdpBase_ok : SolveOK vc x1 α vs {x1} (mdpBase x1) := by
  intro F c hF hc
  have M := lex_ord ho
  unfold mdpBase
  have hIs : List.Forall₂ Is (F.map polyToUpoly) vs := by
    rw [List.forall₂_map_left_iff]
    refine hF.imp fun f v h => ?_
    have := polyToUpoly_spec ho M h.1.1.1 h.1.1.2
    rwa [← evR_ret h.1.1.2 α, h.2] at this
  have hcI := polyToUpoly_spec ho M hc.1 hc.2
  obtain ⟨k1, k2⟩ := univarMdp_spec hIs h2 h0 hcI
  refine (Post.lift (Q := fun o => ∀ s, o = some s → ∃ P, List.Forall₂ Is s P ∧ P.length = vs.length ∧ ∀ x ∈ List.zip P vs, x.1.degree < x.2.degree) fun o e s es => ?_).bind fun o ho' => Post.ret ?_
  · subst es
    by_cases hcop : Lift.Cop vs ∨ Factor.ret (val c) = 0
    · obtain ⟨r, P, e1, e2, e3, e4, -⟩ := k1 hcop
      rw [e1] at e
      cases e
      exact ⟨P, e2, e3, e4⟩
    · push Not at hcop
      rw [k2 hcop.1 hcop.2] at e
      cases e
  · intro s es
    cases o with
    | none => simp at es
    | some s' =>
      rw [Option.map_some, Option.some.injEq] at es
      subst es
      obtain ⟨P, p1, p2, p3⟩ := ho' s' rfl
      rw [List.forall₂_map_left_iff, List.forall₂_iff_get]
      refine ⟨p1.length_eq.trans p2, fun i h1 h2 => ?_⟩
      have hP : i < P.length := by omega
      have hi := (List.forall₂_iff_get.1 p1).2 i h1 hP
      dsimp only [List.get_eq_getElem] at hi ⊢
      obtain ⟨q1, q2⟩ := upolyToPoly_spec ho x1 hi
      refine ⟨⟨q1, by rw [q2]; exact emb_vars x1 _⟩, ?_⟩
      rw [q2]
      refine (emb_degreeOf x1 _ x1).trans (Polynomial.natDegree_le_natDegree (p3 (P[i], vs[i]) ?_).le)
      have : (List.zip P vs)[i]'(by rw [List.length_zip]; omega) = (P[i], vs[i]) := List.getElem_zip
      rw [← this]
      exact List.getElem_mem _

include ho in
theorem xp_step {x : Var} (hx : x ≠ x1) {a : R} (ha : a = α x) {xp : PV Mono R} (hxp : OKIn vc {x} xp) :
    Post (mulN true vc xp (linear vc x a)) fun xp' => OKIn vc {x} xp' ∧ evR x1 α (val xp') = 0 ∧ (val xp').degreeOf x1 = 0 := by
  obtain ⟨l1, l2⟩ := linear_spec ho x a
  refine (mulN_in ho hxp l1).mono fun r hr => ⟨hr.1, ?_, ?_⟩
  · rw [hr.2, l2, map_mul, evR_linear hx ha, mul_zero]
  · by_contra hc
    have : x1 ∈ (val r).vars := by
      by_contra h
      exact hc (degreeOf_zero_iff.2 h)
    exact hx (Finset.mem_singleton.1 (hr.1.2 this)).symm

/-- a correction keeps the degree -/
theorem sol_step {xp r d r' : PV Mono R} {v : Polynomial R} (hxp : (val xp).degreeOf x1 = 0) (hr : Sol vc x1 W r v) (hd : Sol vc x1 W d v) (h' : OKIn vc W r') (e : val r' = val r + val d * val xp) : Sol vc x1 W r' v := by
  refine ⟨h', ?_⟩
  rw [e]
  refine (degreeOf_add_le _ _ _).trans (max_le hr.2 ((degreeOf_mul_le _ _ _).trans ?_))
  rw [hxp, add_zero]
  exact hd.2

/-- a correction keeps the image -/
theorem img_step {xp r d r' : PV Mono R} {v : Polynomial R} (hxp : (val xp).degreeOf x1 = 0) (hx0 : evR x1 α (val xp) = 0) (hr : Img vc x1 α W r v) (hd : Sol vc x1 W d v) (h' : OKIn vc W r')
    (e : val r' = val r + val d * val xp) : Img vc x1 α W r' v :=
  ⟨sol_step hxp hr.1 hd h' e, by rw [e, map_add, map_mul, hx0, mul_zero, add_zero, hr.2]⟩

include ho in
theorem taylorLoop_spec {fuel : ℕ} {x : Var} (hx : x ≠ x1) (hxW : x ∉ W) {a : R} (ha : a = α x) {solve : List (PV Mono R) → PV Mono R → Run (Option (List (PV Mono R)))} (hs : SolveOK vc x1 α vs W solve)
    {Fb : List (PV Mono R)} (hFb : List.Forall₂ (Img vc x1 α W) Fb vs) {c : PV Mono R} (hc : OKIn vc (insert x W) c) {bs : List (PV Mono R)} (hbs : ∀ b ∈ bs, OKIn vc (insert x W) b) :
    ∀ (n k : ℕ) {xp e : PV Mono R} {res : List (PV Mono R)}, OKIn vc {x} xp → OKIn vc (insert x W) e → List.Forall₂ (Sol vc x1 (insert x W)) res vs →
      Post (taylorLoop true vc fuel solve Fb c bs x a n k xp e res) fun o => ∀ s, o = some s → List.Forall₂ (Sol vc x1 (insert x W)) s vs := by
  intro n
  induction n with
  | zero => intro k xp e res _ _ hr; exact Post.ret fun s e => by cases e; exact hr
  | succ n ih =>
    intro k xp e res hxp he hr
    unfold taylorLoop
    have hx1 : ({x} : Finset Var) ⊆ insert x W := by simp
    refine (xp_step ho hx ha hxp).bind fun xp' hxp' => (taylorCoeff_in ho (Finset.mem_insert_self x W) a k he).bind fun ck hck => ?_
    rw [Finset.erase_insert hxW] at hck
    refine Post.ite (fun _ => ih _ hxp'.1 he hr) fun _ => (hs Fb ck hFb hck).bind fun o hδ => ?_
    match o, hδ with
    | none, _ => exact Post.ret fun s e => by cases e
    | some δ, hδ =>
      refine (addCorr_spec ho (A := Sol vc x1 (insert x W)) (B := Sol vc x1 (insert x W)) (hxp'.1.mono hx1) (fun r u h => h.1) (fun d u h => h.1) (fun r d u r' h1 h2 h3 h4 => sol_step hxp'.2.2 h1 h2 h3 h4) hr
        ((hδ δ rfl).imp fun _ _ h => h.mono (Finset.subset_insert _ _))).bind fun res' hres' => ?_
      refine (errorOf_spec ho res' bs hc (sols_mem hres') hbs).bind fun e' he' => ?_
      exact Post.ite (fun _ => Post.ret fun s e => by cases e; exact hres') fun _ => ih _ hxp'.1 he' hres'

theorem one_okin : OKIn vc W [(Mono.one, (1 : R))] := ⟨PolyOK.single one_valid one_ne_zero, by
  rw [val_cons, val_nil, add_zero, expo_one]
  change (C (1 : R)).vars ⊆ W
  rw [vars_C]; exact Finset.empty_subset _⟩

include ho in
theorem img_asg {x : Var} (hx : x ≠ x1) {a : R} (ha : a = α x) {F : PV Mono R} {v : Polynomial R} (h : Img vc x1 α W F v) : Post (asg true vc x a F) fun r => Img vc x1 α (W.erase x) r v :=
  (asg_in ho h.1.1).mono fun r hr => ⟨⟨hr.1, by rw [hr.2]; exact (sub1_degreeOf x x1 a _).trans h.1.2⟩, by rw [hr.2, evR_sub1 hx ha, h.2]⟩

include ho in
theorem imgs_asg {x : Var} (hx : x ≠ x1) {a : R} (ha : a = α x) : ∀ {F : List (PV Mono R)} {vs : List (Polynomial R)}, List.Forall₂ (Img vc x1 α W) F vs →
    Post (runMap (asg true vc x a) F) fun r => List.Forall₂ (Img vc x1 α (W.erase x)) r vs
  | [], [], _ => Post.ret List.Forall₂.nil
  | [], _ :: _, h => absurd h (by simp)
  | _ :: _, [], h => absurd h (by simp)
  | f :: F, v :: vs, h => by
    rw [List.forall₂_cons] at h
    exact (img_asg ho hx ha h.1).bind fun b hb => (imgs_asg hx ha h.2).bind fun bs hbs => Post.ret (List.Forall₂.cons hb hbs)

include ho in
theorem solveTaylor_ok {fuel : ℕ} {x : Var} (hx : x ≠ x1) (hxW : x ∉ W) {a : R} (ha : a = α x) {solve : List (PV Mono R) → PV Mono R → Run (Option (List (PV Mono R)))} (hs : SolveOK vc x1 α vs W solve)
    {nb : PV Mono R → PV Mono R} (hnb : ∀ p, PolyOK vc (lexGt vc) p → nb p = p) : SolveOK vc x1 α vs (insert x W) (solveTaylor true vc fuel solve nb x a) := by
  intro F c hF hc
  unfold solveTaylor
  refine (imgs_asg ho hx ha hF).bind fun Fb0 hFb0 => (asg_in ho hc).bind fun cb hcb => ?_
  rw [Finset.erase_insert hxW] at hFb0 hcb
  have hmap : Fb0.map nb = Fb0 := by
    conv_rhs => rw [← List.map_id Fb0]
    exact List.map_congr_left fun p hp => hnb p (sols_mem (imgs_sols hFb0) p hp).1
  dsimp only
  rw [hmap, hnb cb hcb.1.1]
  refine (hs Fb0 cb hFb0 hcb.1).bind fun o hδ => ?_
  match o, hδ with
  | none, _ => exact Post.ret fun s e => by cases e
  | some r0, hδ =>
    have hr0 : List.Forall₂ (Sol vc x1 (insert x W)) r0 vs := (hδ r0 rfl).imp fun _ _ h => h.mono (Finset.subset_insert _ _)
    refine (cofactors_spec ho (sols_mem (imgs_sols hF))).bind fun bs hbs => (errorOf_spec ho r0 bs hc (sols_mem hr0) hbs).bind fun e he => ?_
    exact Post.ite (fun _ => Post.ret fun s e => by cases e; exact hr0) fun _ => taylorLoop_spec ho hx hxW ha hs hFb0 hc hbs _ _ one_okin he hr0

include ho h2 h0 in
theorem bdp_ok {fuel : ℕ} {x : Var} (hx : x ≠ x1) {a : R} (ha : a = α x) : SolveOK vc x1 α vs {x, x1} (bdp true vc fuel x1 x a) :=
  solveTaylor_ok ho hx (by simpa using hx) ha (mdpBase_ok ho h2 h0) fun _ _ => rfl

/-- the variables of a list of points -/
def keys (ys : List (Var × R)) : Finset Var := (ys.map Prod.fst).toFinset

include ho h2 h0 in
theorem wmds_ok {fuel : ℕ} : ∀ {ys : List (Var × R)}, (ys.map Prod.fst).Nodup → (∀ y ∈ ys, y.1 ≠ x1 ∧ y.2 = α y.1) → SolveOK vc x1 α vs (insert x1 (keys ys)) (wmds true vc fuel x1 ys)
  | [], _, _ => by
    have := mdpBase_ok ho (x1 := x1) (α := α) h2 h0
    have e : wmds true vc fuel x1 ([] : List (Var × R)) = mdpBase x1 := by funext F c; rw [wmds]
    rw [e]
    simpa [keys] using this
  | y :: ys, hn, hy => by
    rw [List.map_cons, List.nodup_cons] at hn
    have ih := wmds_ok (fuel := fuel) hn.2 fun z hz => hy z (by simp [hz])
    have hh := hy y (by simp)
    have := solveTaylor_ok ho (fuel := fuel) hh.1 (x := y.1) (W := insert x1 (keys ys)) (by
      rw [Finset.mem_insert, keys, List.mem_toFinset]
      rintro (h | h)
      · exact hh.1 h
      · exact hn.1 h) hh.2 ih (nb := nrm vc) fun p hp => nrm_id ho hp
    rw [Finset.insert_comm] at this
    have e : wmds true vc fuel x1 (y :: ys) = solveTaylor true vc fuel (wmds true vc fuel x1 ys) (nrm vc) y.1 y.2 := by funext F c; rw [wmds]
    rw [e]
    simpa [keys] using this

end

end Mtshl
end CLPoly
