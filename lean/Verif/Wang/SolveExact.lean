import Verif.Wang.SparseExact

/-! # The diophantine equation in several variables: what is returned is the solution -/

namespace CLPoly
namespace Mtshl
open Mono Mgcd Run Upoly Factor Lift Wang Charset MvPolynomial

section
variable {R : Type} [DecidableEq R] [Field R] {vc : Var → Var → Bool} (ho : VarOrd vc) {W : Finset Var} {x1 : Var} {α : Var → R}

theorem comb_sub {A : Type} [CommRing A] : ∀ (S S' F : List A), S.length = S'.length → comb (List.zipWith (fun s t => s - t) S S') F = comb S F - comb S' F
  | [], [], F, _ => by simp [comb]
  | [], _ :: _, _, h => by simp at h
  | _ :: _, [], _, h => by simp at h
  | s :: S, t :: S', [], _ => by simp [comb]
  | s :: S, t :: S', f :: F, h => by
    rw [List.zipWith_cons_cons]
    simp only [comb]
    rw [comb_sub S S' F (by simpa using h)]
    ring

/-- small solutions are unique -/
theorem comb_inj {vs : List (Polynomial R)} (hc : Lift.Cop vs) (h0 : ∀ v ∈ vs, v ≠ 0) {ys : List (Var × R)} (hn : (ys.map Prod.fst).Nodup) (hα : ∀ y ∈ ys, y.1 ≠ x1 ∧ y.2 = α y.1) {S S' F : List (MvPolynomial Var R)}
    (hF : List.Forall₂ (Im x1 α) F vs) (hS : List.Forall₂ (Sml x1) S vs) (hS' : List.Forall₂ (Sml x1) S' vs) (hv : ∀ s ∈ S, s.vars ⊆ insert x1 (keys ys)) (hv' : ∀ s ∈ S', s.vars ⊆ insert x1 (keys ys))
    (e : comb S F = comb S' F) : S = S' := by
  classical
  have hl : S.length = S'.length := hS.length_eq.trans hS'.length_eq.symm
  have hz := comb_zero hc h0 ys hn hα (S := List.zipWith (fun s t => s - t) S S') hF
    (List.forall₂_iff_get.2 ⟨by rw [List.length_zipWith, hl, min_self]; exact hS'.length_eq, fun i h1 h2 => by
      have i1 : i < S.length := by rw [hS.length_eq]; exact h2
      have i2 : i < S'.length := by rw [hS'.length_eq]; exact h2
      have a1 := (List.forall₂_iff_get.1 hS).2 i i1 h2
      have a2 := (List.forall₂_iff_get.1 hS').2 i i2 h2
      simp only [List.get_eq_getElem, List.getElem_zipWith] at a1 a2 ⊢
      exact (degreeOf_sub_le _ _ _).trans_lt (max_lt a1 a2)⟩)
    (fun s hs => by
      obtain ⟨i, hi, rfl⟩ := List.getElem_of_mem hs
      rw [List.getElem_zipWith]
      exact (vars_sub_subset _).trans (Finset.union_subset (hv _ (List.getElem_mem _)) (hv' _ (List.getElem_mem _))))
    (by rw [comb_sub _ _ _ hl, e, sub_self])
  refine List.ext_getElem hl fun i h1 h2 => ?_
  have hi : i < (List.zipWith (fun s t => s - t) S S').length := by rw [List.length_zipWith]; omega
  have := hz _ (List.getElem_mem hi)
  rw [List.getElem_zipWith] at this
  exact sub_eq_zero.1 this

include ho in
theorem checkSum_spec {F : List (PV Mono R)} (hF : ∀ f ∈ F, OKIn vc W f) (h2 : 2 ≤ F.length) : ∀ (rs : List (PV Mono R)) (i : ℕ) {acc : PV Mono R}, OKIn vc W acc → (∀ r ∈ rs, OKIn vc W r) →
    Post (checkSum true vc F i acc rs) fun k => OKIn vc W k ∧ val k = val acc + ∑ j ∈ Finset.range rs.length, (rs.map val).getD j 0 * ((F.map val).eraseIdx (i + j)).prod
  | [], i, acc, ha, _ => Post.ret ⟨ha, by simp⟩
  | r :: rs, i, acc, ha, hr => by
    unfold checkSum
    have hsum : ∑ j ∈ Finset.range (r :: rs).length, ((r :: rs).map val).getD j 0 * ((F.map val).eraseIdx (i + j)).prod =
        ∑ j ∈ Finset.range rs.length, (rs.map val).getD j 0 * ((F.map val).eraseIdx (i + 1 + j)).prod + val r * ((F.map val).eraseIdx i).prod := by
      rw [List.length_cons, Finset.sum_range_succ']
      simp only [List.map_cons, List.getD_cons_succ, List.getD_cons_zero, add_zero]
      congr 1
      exact Finset.sum_congr rfl fun j _ => by rw [show i + (j + 1) = i + 1 + j by ring]
    refine Post.ite (fun h0 => (checkSum_spec hF h2 rs (i + 1) ha fun z hz => hr z (by simp [hz])).mono fun k hk => ⟨hk.1, ?_⟩) fun _ => ?_
    · rw [hk.2, hsum, h0, val_nil, zero_mul, add_zero]
    · refine (prodAll_spec ho _ fun f hf => hF f (List.mem_of_mem_eraseIdx hf)).bind fun b hb => (mulN_in ho (hr r (by simp)) hb.1).bind fun t ht => ?_
      obtain ⟨k1, k2⟩ := add_in ho ha ht.1
      refine (checkSum_spec hF h2 rs (i + 1) k1 fun z hz => hr z (by simp [hz])).mono fun k hk => ⟨hk.1, ?_⟩
      have hne : F.eraseIdx i ≠ [] := fun h => by
        have h3 := congrArg List.length h
        rw [List.length_nil, List.length_eraseIdx] at h3
        split at h3 <;> omega
      rw [hk.2, hsum, k2, ht.2, hb.2 hne, List.eraseIdx_map]
      ring

/-- the results are among the given supports, of smaller degree -/
theorem mapM_forall₂ {A B : Type} {f : A → Option B} {P : A → B → Prop} : ∀ {l : List A} {m : List B}, l.mapM f = some m → (∀ a ∈ l, ∀ b, f a = some b → P a b) → List.Forall₂ P l m
  | [], m, e, _ => by
    rw [List.mapM_nil] at e
    cases e; exact List.Forall₂.nil
  | a :: l, m, e, h => by
    rw [List.mapM_cons] at e
    obtain ⟨b, hb, e⟩ := Option.bind_eq_some_iff.1 e
    obtain ⟨bs, hbs, e⟩ := Option.bind_eq_some_iff.1 e
    cases e
    exact List.Forall₂.cons (h a (by simp) b hb) (mapM_forall₂ hbs fun z hz => h z (by simp [hz]))

theorem drawBetas_length (p : ℕ) : ∀ n, Post (drawBetas p n : Run (List R)) fun l => l.length = n
  | 0 => Post.ret rfl
  | n + 1 => by
    unfold drawBetas
    exact (Post.any _).bind fun d _ => (drawBetas_length p n).bind fun l hl => Post.ret (by simp [hl])

theorem theta_degree (Z : List (Var × R)) (k : ℕ) (f : MvPolynomial Var R) : (eval₂ Polynomial.C (powPoint x1 Z k) f).natDegree ≤ f.degreeOf x1 := by
  rw [eval₂_eq]
  refine Polynomial.natDegree_sum_le_of_forall_le _ _ fun s hs => ?_
  refine Polynomial.natDegree_C_mul_le _ _ |>.trans ((Polynomial.natDegree_prod_le _ _).trans ?_)
  refine le_trans (Finset.sum_le_sum (g := fun i => if i = x1 then s x1 else 0) fun i _ => ?_) ?_
  · refine Polynomial.natDegree_pow_le.trans ?_
    by_cases e : i = x1
    · rw [if_pos e, powPoint, if_pos e, e, Polynomial.natDegree_X, mul_one]
    · rw [if_neg e, powPoint, if_neg e, Polynomial.natDegree_C, mul_zero]
  · rw [Finset.sum_ite_eq' s.support x1 fun _ => s x1]
    split
    · exact monomial_le_degreeOf x1 hs
    · exact Nat.zero_le _

theorem split_imgs {s l : ℕ} (hl : l < s) {iF : List (List (UPoly R))} {vs : List (Polynomial R)} (h : List.Forall₂ (fun im v => ∀ i < s, ∃ U : Polynomial R, Is (im.getD i []) U ∧ U.natDegree ≤ v.natDegree) iF vs) :
    ∃ G : List (Polynomial R), List.Forall₂ Is (iF.map fun im => im.getD l []) G ∧ List.Forall₂ (fun (U v : Polynomial R) => U.natDegree ≤ v.natDegree) G vs := by
  induction h with
  | nil => exact ⟨[], List.Forall₂.nil, List.Forall₂.nil⟩
  | cons h1 _ ih =>
    obtain ⟨G, g1, g2⟩ := ih
    obtain ⟨U, u1, u2⟩ := h1 l hl
    exact ⟨U :: G, List.Forall₂.cons u1 g1, List.Forall₂.cons u2 g2⟩

include ho in
/-- `__mtshl_sparse_int` with the return value `true`: a solution of smaller degrees -/
theorem sparseInt_sol (p : ℕ) {aux : List Var} (hn : aux.Nodup) (hx : x1 ∉ aux) {F : List (PV Mono R)} {vs : List (Polynomial R)} (hF : List.Forall₂ (Sol vc x1 W) F vs) (h2 : 2 ≤ vs.length) (hp : ∀ v ∈ vs, 0 < v.natDegree)
    {c : PV Mono R} (hc : OKIn vc W c) {forms : List (List Mono)} (h : List.Forall₂ (FormOK vc x1 W) forms vs) (hne : ∃ f ∈ forms, f ≠ []) :
    Post (sparseInt true vc p x1 aux F c forms) fun o => ∀ s, o = some s → List.Forall₂ (fun r v => OKIn vc W r ∧ Sml x1 (val r) v) s vs ∧ comb (s.map val) (F.map val) = val c := by
  have M := lex_ord ho
  unfold sparseInt
  have hs0 : forms.foldl (fun s f => max s f.length) 0 ≠ 0 := by
    have key : ∀ (l : List (List Mono)) (a : ℕ), a ≤ l.foldl (fun s f => max s f.length) a ∧ ∀ f ∈ l, f.length ≤ l.foldl (fun s f => max s f.length) a := by
      intro l
      induction l with
      | nil => intro a; simp
      | cons g l ih =>
        intro a
        rw [List.foldl_cons]
        obtain ⟨i1, i2⟩ := ih (max a g.length)
        refine ⟨(le_max_left _ _).trans i1, fun f hf => ?_⟩
        rcases List.mem_cons.1 hf with rfl | hf
        · exact (le_max_right _ _).trans i1
        · exact i2 f hf
    obtain ⟨f, hf, hf0⟩ := hne
    have h1 := (key forms 0).2 f hf
    have h2 : 0 < f.length := List.length_pos_iff.2 hf0
    omega
  obtain ⟨s, hs⟩ : ∃ s, s = forms.foldl (fun s f => max s f.length) 0 := ⟨_, rfl⟩
  rw [← hs] at hs0
  dsimp only
  rw [← hs]
  refine Post.ite (fun hc0 => Post.ret fun r e => ?_) fun _ => ?_
  · cases e
    have hc0 := hc0.resolve_left hs0
    constructor
    · rw [List.forall₂_map_left_iff]
      refine List.forall₂_iff_zip.2 ⟨hF.length_eq, fun {f v} hfv => ⟨OKIn.nil, ?_⟩⟩
      rw [val_nil, Sml, degreeOf_zero]
      exact hp v (List.of_mem_zip hfv).2
    · rw [hc0, val_nil, List.map_map]
      have hz := comb_map_mul (0 : MvPolynomial Var R) (F.map val) (F.map val)
      rw [zero_mul, List.map_map] at hz
      rw [← hz]
      congr 1
      exact List.map_congr_left fun f _ => by simp [val_nil]
  refine (drawBetas_length p aux.length).bind fun betas hb => ?_
  have hval : ∀ {q : PV Mono R}, OKIn vc W q → ∀ t ∈ q, Mono.Valid vc t.1 := fun hq => hq.1.monos
  refine (Post.lift (Q := fun ic => ∀ u ∈ ic, ∃ U : Polynomial R, Is u U) fun ic e => ?_).bind fun ic hic => ?_
  · obtain ⟨im, e1, e2, e3⟩ := thetaEval_spec ho (hval hc) hb.symm hn hx s
    rw [e1] at e
    cases e
    intro u hu
    obtain ⟨i, hi, rfl⟩ := List.getElem_of_mem hu
    have := e3 i (by omega)
    rw [List.getD_eq_getElem _ _ hi] at this
    exact ⟨_, this⟩
  refine (Post.lift (Q := fun iF => List.Forall₂ (fun im v => ∀ i < s, ∃ U : Polynomial R, Is (im.getD i []) U ∧ U.natDegree ≤ v.natDegree) iF vs) fun iF e => ?_).bind fun iF hiF => ?_
  · have h1 : List.Forall₂ (fun f im => ∀ i < s, Is (im.getD i []) (eval₂ Polynomial.C (powPoint x1 (aux.zip betas) (i + 1)) (val f))) F iF := mapM_forall₂ e fun f hf im him => by
      obtain ⟨im', e1, e2, e3⟩ := thetaEval_spec ho (hval (sols_mem hF f hf)) hb.symm hn hx s
      rw [e1] at him
      cases him
      exact e3
    refine List.forall₂_iff_get.2 ⟨h1.length_eq.symm.trans hF.length_eq, fun j j1 j2 i hi => ?_⟩
    have jF : j < F.length := by rw [hF.length_eq]; exact j2
    have a1 := (List.forall₂_iff_get.1 h1).2 j jF j1 i hi
    have a2 := ((List.forall₂_iff_get.1 hF).2 j jF j2).2
    exact ⟨_, a1, (theta_degree _ _ _).trans a2⟩
  refine (mdpAll_post _ ic).bind fun o ho' => ?_
  match o, ho' with
  | none, _ => exact Post.ret fun s e => by cases e
  | some sv, ho' =>
    have hz : ∀ j < vs.length, ∀ d ≥ (vs.getD j 0).natDegree, ∀ σ ∈ sv, ucoeff (σ.getD (0 + j) []) d = 0 := by
      intro j hj d hd σ hσ
      obtain ⟨Fl, hFl, cl, hcl, e⟩ := ho' sv rfl σ hσ
      obtain ⟨l, hl, rfl⟩ := List.mem_map.1 hFl
      obtain ⟨C', hC'⟩ := hic cl hcl
      have hl' : l < s := List.mem_range.1 hl
      obtain ⟨G, hG⟩ := split_imgs hl' hiF
      have hsm := univarMdp_small hG.1 hC' e
      rw [zero_add]
      have jG : j < G.length := by rw [hG.2.length_eq]; exact hj
      have jσ : j < σ.length := by rw [hsm.length_eq]; exact jG
      obtain ⟨P, p1, p2⟩ := (List.forall₂_iff_get.1 hsm).2 j jσ jG
      have p3 := (List.forall₂_iff_get.1 hG.2).2 j jG hj
      dsimp only [List.get_eq_getElem] at p1 p2 p3
      rw [List.getD_eq_getElem _ _ jσ]
      rw [List.getD_eq_getElem _ _ hj] at hd
      refine ucoeff_zero p1 ?_
      by_cases hP : P = 0
      · exact Or.inl hP
      · have := Polynomial.natDegree_lt_natDegree hP (p2.resolve_left hP)
        exact Or.inr (by omega)
    refine (recoverAll_small ho aux betas sv 0 h hp hz).bind fun o hr => ?_
    match o, hr with
    | none, _ => exact Post.ret fun s e => by cases e
    | some res, hr =>
      have hres := hr res rfl
      have hresW : ∀ r ∈ res, OKIn vc W r := fun r hr => by
        obtain ⟨v, _, h1, _⟩ := forall₂_mem_left hres hr
        exact h1
      refine (checkSum_spec ho (sols_mem hF) (by rw [hF.length_eq]; exact h2) res 0 OKIn.nil hresW).bind fun k hk => Post.ret fun s' es => ?_
      split at es
      · next hkc =>
        cases es
        refine ⟨hres, ?_⟩
        rw [comb_eq_sum (by rw [List.length_map, List.length_map, hres.length_eq, hF.length_eq]), ← hkc, hk.2, val_nil, zero_add, List.length_map, hF.length_eq, hres.length_eq]
        simp only [zero_add]
      · cases es

/-! ## the dense solver -/

/-- of smaller degree in `x1` -/
def Sm (vc : Var → Var → Bool) (x1 : Var) (W : Finset Var) (σ : PV Mono R) (v : Polynomial R) : Prop := OKIn vc W σ ∧ Sml x1 (val σ) v

/-- `solve` returns polynomials of smaller degree for factors with the images `vs` -/
def SolveSm (vc : Var → Var → Bool) (x1 : Var) (α : Var → R) (vs : List (Polynomial R)) (W : Finset Var) (solve : List (PV Mono R) → PV Mono R → Run (Option (List (PV Mono R)))) : Prop :=
  ∀ F c, List.Forall₂ (Img vc x1 α W) F vs → OKIn vc W c → Post (solve F c) fun o => ∀ s, o = some s → List.Forall₂ (Sm vc x1 W) s vs

theorem Sm.mono {W' : Finset Var} (hW : W ⊆ W') {σ : PV Mono R} {v : Polynomial R} (h : Sm vc x1 W σ v) : Sm vc x1 W' σ v := ⟨h.1.mono hW, h.2⟩

theorem sms_mem {ss : List (PV Mono R)} {vs : List (Polynomial R)} (h : List.Forall₂ (Sm vc x1 W) ss vs) : ∀ s ∈ ss, OKIn vc W s := fun s hs => by
  obtain ⟨v, _, h1⟩ := forall₂_mem_left h hs
  exact h1.1

theorem sm_step {xp r d r' : PV Mono R} {v : Polynomial R} (hxp : (val xp).degreeOf x1 = 0) (hr : Sm vc x1 W r v) (hd : Sm vc x1 W d v) (h' : OKIn vc W r') (e : val r' = val r + val d * val xp) : Sm vc x1 W r' v := by
  refine ⟨h', ?_⟩
  rw [Sml, e]
  refine (degreeOf_add_le _ _ _).trans_lt (max_lt hr.2 ((degreeOf_mul_le _ _ _).trans_lt ?_))
  rw [hxp, add_zero]
  exact hd.2

variable {vs : List (Polynomial R)} (h2 : 2 ≤ vs.length) (hp : ∀ v ∈ vs, 0 < v.natDegree)

include ho hp in
theorem mdpBase_sm : SolveSm vc x1 α vs {x1} (mdpBase x1) := by
  intro F c hF hc
  have M := lex_ord ho
  unfold mdpBase
  have hIs : List.Forall₂ Is (F.map polyToUpoly) vs := by
    rw [List.forall₂_map_left_iff]
    refine hF.imp fun f v h => ?_
    have := polyToUpoly_spec ho M h.1.1.1 h.1.1.2
    rwa [← evR_ret h.1.1.2 α, h.2] at this
  have hcI := polyToUpoly_spec ho M hc.1 hc.2
  refine (Post.lift (Q := fun o => ∀ s, o = some s → univarMdp (F.map polyToUpoly) (polyToUpoly c) = some (some s)) fun o e s es => by rw [e, es]).bind fun o ho' => Post.ret ?_
  intro s es
  cases o with
  | none => simp at es
  | some s' =>
    rw [Option.map_some, Option.some.injEq] at es
    subst es
    have hsm := univarMdp_small hIs hcI (ho' s' rfl)
    rw [List.forall₂_map_left_iff]
    refine List.forall₂_iff_zip.2 ⟨hsm.length_eq, fun {σ v} hz => ?_⟩
    obtain ⟨P, p1, p2⟩ := (List.forall₂_iff_zip.1 hsm).2 hz
    obtain ⟨q1, q2⟩ := upolyToPoly_spec ho x1 p1
    refine ⟨⟨q1, by rw [q2]; exact emb_vars x1 _⟩, ?_⟩
    have hv := hp v (List.of_mem_zip hz).2
    rw [Sml, q2]
    by_cases hP : P = 0
    · rw [hP, map_zero, degreeOf_zero]; exact hv
    · exact (emb_degreeOf x1 _ x1).trans_lt (Polynomial.natDegree_lt_natDegree hP (p2.resolve_left hP))

include ho in
theorem taylorLoop_sm {fuel : ℕ} {x : Var} (hx : x ≠ x1) (hxW : x ∉ W) {a : R} (ha : a = α x) {solve : List (PV Mono R) → PV Mono R → Run (Option (List (PV Mono R)))} (hs : SolveSm vc x1 α vs W solve)
    {Fb : List (PV Mono R)} (hFb : List.Forall₂ (Img vc x1 α W) Fb vs) {c : PV Mono R} (hc : OKIn vc (insert x W) c) {bs : List (PV Mono R)} (hbs : ∀ b ∈ bs, OKIn vc (insert x W) b) :
    ∀ (n k : ℕ) {xp e : PV Mono R} {res : List (PV Mono R)}, OKIn vc {x} xp → OKIn vc (insert x W) e → List.Forall₂ (Sm vc x1 (insert x W)) res vs →
      Post (taylorLoop true vc fuel solve Fb c bs x a n k xp e res) fun o => ∀ s, o = some s → List.Forall₂ (Sm vc x1 (insert x W)) s vs := by
  intro n
  induction n with
  | zero => intro k xp e res _ _ hr; exact Post.ret fun s e => by cases e; exact hr
  | succ n ih =>
    intro k xp e res hxp he hr
    unfold taylorLoop
    have hx1 : ({x} : Finset Var) ⊆ insert x W := by simp
    refine (xp_step ho hx ha hxp).bind fun xp' hxp' => (taylorCoeff_in ho (Finset.mem_insert_self x W) a k he).bind fun ck hck => ?_
    rw [Finset.erase_insert hxW] at hck
    refine Post.ite (fun _ => ih _ hxp'.1 he hr) fun _ => (hs Fb ck hFb hck).bind fun o hδ => ?_
    match o, hδ with
    | none, _ => exact Post.ret fun s e => by cases e
    | some δ, hδ =>
      refine (addCorr_spec ho (A := Sm vc x1 (insert x W)) (B := Sm vc x1 (insert x W)) (hxp'.1.mono hx1) (fun r u h => h.1) (fun d u h => h.1) (fun r d u r' h1 h2 h3 h4 => sm_step hxp'.2.2 h1 h2 h3 h4) hr
        ((hδ δ rfl).imp fun _ _ h => h.mono (Finset.subset_insert _ _))).bind fun res' hres' => ?_
      refine (errorOf_spec ho res' bs hc (sms_mem hres') hbs).bind fun e' he' => ?_
      exact Post.ite (fun _ => Post.ret fun s e => by cases e; exact hres') fun _ => ih _ hxp'.1 he' hres'

include ho in
theorem solveTaylor_sm {fuel : ℕ} {x : Var} (hx : x ≠ x1) (hxW : x ∉ W) {a : R} (ha : a = α x) {solve : List (PV Mono R) → PV Mono R → Run (Option (List (PV Mono R)))} (hs : SolveSm vc x1 α vs W solve)
    {nb : PV Mono R → PV Mono R} (hnb : ∀ p, PolyOK vc (lexGt vc) p → nb p = p) : SolveSm vc x1 α vs (insert x W) (solveTaylor true vc fuel solve nb x a) := by
  intro F c hF hc
  unfold solveTaylor
  refine (imgs_asg ho hx ha hF).bind fun Fb0 hFb0 => (asg_in ho hc).bind fun cb hcb => ?_
  rw [Finset.erase_insert hxW] at hFb0 hcb
  have hmap : Fb0.map nb = Fb0 := by
    conv_rhs => rw [← List.map_id Fb0]
    exact List.map_congr_left fun p hp => hnb p (sols_mem (imgs_sols hFb0) p hp).1
  dsimp only
  rw [hmap, hnb cb hcb.1.1]
  refine (hs Fb0 cb hFb0 hcb.1).bind fun o hδ => ?_
  match o, hδ with
  | none, _ => exact Post.ret fun s e => by cases e
  | some r0, hδ =>
    have hr0 : List.Forall₂ (Sm vc x1 (insert x W)) r0 vs := (hδ r0 rfl).imp fun _ _ h => h.mono (Finset.subset_insert _ _)
    refine (cofactors_spec ho (sols_mem (imgs_sols hF))).bind fun bs hbs => (errorOf_spec ho r0 bs hc (sms_mem hr0) hbs).bind fun e he => ?_
    exact Post.ite (fun _ => Post.ret fun s e => by cases e; exact hr0) fun _ => taylorLoop_sm ho hx hxW ha hs hFb0 hc hbs _ _ one_okin he hr0

include ho hp in
theorem bdp_sm {fuel : ℕ} {x : Var} (hx : x ≠ x1) {a : R} (ha : a = α x) : SolveSm vc x1 α vs {x, x1} (bdp true vc fuel x1 x a) :=
  solveTaylor_sm ho hx (by simpa using hx) ha (mdpBase_sm ho hp) fun _ _ => rfl

include ho hp in
theorem wmds_sm {fuel : ℕ} : ∀ {ys : List (Var × R)}, (ys.map Prod.fst).Nodup → (∀ y ∈ ys, y.1 ≠ x1 ∧ y.2 = α y.1) → SolveSm vc x1 α vs (insert x1 (keys ys)) (wmds true vc fuel x1 ys)
  | [], _, _ => by
    have := mdpBase_sm ho (x1 := x1) (α := α) hp
    have e : wmds true vc fuel x1 ([] : List (Var × R)) = mdpBase x1 := by funext F c; rw [wmds]
    rw [e]
    simpa [keys] using this
  | y :: ys, hn, hy => by
    rw [List.map_cons, List.nodup_cons] at hn
    have ih := wmds_sm (fuel := fuel) hn.2 fun z hz => hy z (by simp [hz])
    have hh := hy y (by simp)
    have := solveTaylor_sm ho (fuel := fuel) hh.1 (x := y.1) (W := insert x1 (keys ys)) (by
      rw [Finset.mem_insert, keys, List.mem_toFinset]
      rintro (h | h)
      · exact hh.1 h
      · exact hn.1 h) hh.2 ih (nb := nrm vc) fun p hp => nrm_id ho hp
    rw [Finset.insert_comm] at this
    have e : wmds true vc fuel x1 (y :: ys) = solveTaylor true vc fuel (wmds true vc fuel x1 ys) (nrm vc) y.1 y.2 := by funext F c; rw [wmds]
    rw [e]
    simpa [keys] using this

/-! ## the test of the answer -/

include ho in
theorem cofactors_val {F : List (PV Mono R)} (hF : ∀ f ∈ F, OKIn vc W f) (h2 : 2 ≤ F.length) : Post (cofactors true vc F) fun bs => List.Forall₂ (fun i b => OKIn vc W b ∧ val b = ((F.map val).eraseIdx i).prod) (List.range F.length) bs := by
  unfold cofactors
  refine runMap_post fun i _ => (prodAll_spec ho _ fun f hf => hF f (List.mem_of_mem_eraseIdx hf)).mono fun r hr => ⟨hr.1, ?_⟩
  rw [hr.2 (fun h => by
    have h3 := congrArg List.length h
    rw [List.length_nil, List.length_eraseIdx] at h3
    split at h3 <;> omega), List.eraseIdx_map]

include ho in
theorem errorOf_val : ∀ (rs bs : List (PV Mono R)) {e : PV Mono R}, rs.length = bs.length → OKIn vc W e → (∀ r ∈ rs, OKIn vc W r) → (∀ b ∈ bs, OKIn vc W b) →
    Post (errorOf true vc e rs bs) fun k => OKIn vc W k ∧ val k = val e - ∑ i ∈ Finset.range rs.length, (rs.map val).getD i 0 * (bs.map val).getD i 0
  | [], bs, e, _, he, _, _ => by unfold errorOf; exact Post.ret ⟨he, by simp⟩
  | r :: rs, [], e, h, _, _, _ => by simp at h
  | r :: rs, b :: bs, e, h, he, hr, hb => by
    unfold errorOf
    have hsum : ∑ i ∈ Finset.range (r :: rs).length, ((r :: rs).map val).getD i 0 * ((b :: bs).map val).getD i 0 = ∑ i ∈ Finset.range rs.length, (rs.map val).getD i 0 * (bs.map val).getD i 0 + val r * val b := by
      rw [List.length_cons, Finset.sum_range_succ']
      simp only [List.map_cons, List.getD_cons_succ, List.getD_cons_zero]
    have hl : rs.length = bs.length := by simpa using h
    refine Post.ite (fun h0 => (errorOf_val rs bs hl he (fun z hz => hr z (by simp [hz])) fun z hz => hb z (by simp [hz])).mono fun k hk => ⟨hk.1, ?_⟩) fun _ => ?_
    · rw [hk.2, hsum, h0, val_nil, zero_mul, add_zero]
    · refine (mulN_in ho (hr r (by simp)) (hb b (by simp))).bind fun t ht => ?_
      obtain ⟨k1, k2⟩ := sub_in ho he ht.1
      refine (errorOf_val rs bs hl k1 (fun z hz => hr z (by simp [hz])) fun z hz => hb z (by simp [hz])).mono fun k hk => ⟨hk.1, ?_⟩
      rw [hk.2, hsum, k2, ht.2]
      ring

include ho in
/-- an answer that passes the test solves the equation -/
theorem solved {F : List (PV Mono R)} (hF : ∀ f ∈ F, OKIn vc W f) (h2 : 2 ≤ F.length) {c : PV Mono R} (hc : OKIn vc W c) {s : List (PV Mono R)} (hs : ∀ r ∈ s, OKIn vc W r) (hl : s.length = F.length)
    (h : unsolved vc F c (some s) = false) : comb (s.map val) (F.map val) = val c := by
  unfold unsolved at h
  rw [decide_eq_false_iff_not, not_not] at h
  obtain ⟨r, hr, hr1⟩ := Option.map_eq_some_iff.1 h
  have hpost : Post (Run.bind (cofactors true vc F) fun bs => errorOf true vc c s bs) fun k => val k = val c - comb (s.map val) (F.map val) := by
    refine (cofactors_val ho hF h2).bind fun bs hbs => ?_
    have hbl : bs.length = F.length := by rw [← hbs.length_eq, List.length_range]
    refine (errorOf_val ho s bs (hl.trans hbl.symm) hc hs fun b hb => ?_).mono fun k hk => ?_
    · obtain ⟨i, _, h1, _⟩ := forall₂_mem_right hbs hb
      exact h1
    · rw [hk.2, comb_eq_sum (by rw [List.length_map, List.length_map, hl]), List.length_map, hl]
      congr 1
      refine Finset.sum_congr rfl fun i hi => ?_
      have hi' := Finset.mem_range.1 hi
      have := (List.forall₂_iff_get.1 hbs).2 i (by simpa using hi') (by omega)
      simp only [List.get_eq_getElem, List.getElem_range] at this
      rw [List.getD_eq_getElem (bs.map val) _ (by rw [List.length_map]; omega), List.getElem_map, this.2]
  have := hpost [] r hr
  rw [hr1, val_nil] at this
  exact (sub_eq_zero.1 this.symm).symm

include ho h2 hp in
/-- the solver of one step of the lifting returns the solution, if its dense answers are tested -/
theorem stepSolve_ex {fuel : ℕ} (p : ℕ) (hcop : Lift.Cop vs) {aux : List (Var × R)} {x : Var} (hn : (aux.map Prod.fst).Nodup) (hα : ∀ y ∈ aux, y.1 ≠ x1 ∧ y.2 = α y.1) (hx : x ≠ x1) (hxk : x ∉ keys aux)
    {forms : List (List Mono)} (hf : List.Forall₂ (FormOK vc x1 (insert x (insert x1 (keys aux)))) forms vs) (hne : ∀ f ∈ forms, f ≠ []) :
    SolveEx (aux = []) vc x1 α vs (insert x1 (keys aux)) fun F c => stepSolve true true vc fuel p x1 aux F c forms := by
  have h0 : ∀ v ∈ vs, v ≠ 0 := fun v hv e => by have := hp v hv; rw [e, Polynomial.natDegree_zero] at this; omega
  intro F c S hF hc hS hSv e
  by_cases haux : aux = []
  · subst haux
    unfold stepSolve
    have hk : insert x1 (keys ([] : List (Var × R))) = {x1} := by simp [keys]
    rw [hk] at hF hc hSv
    exact (mdpBase_ex ho h2 h0 hcop F c S hF hc hS hSv e).mono fun o h => ⟨fun _ => h.1 trivial, h.2⟩
  -- a small solution in one variable more is the solution
  have key : ∀ s : List (PV Mono R), List.Forall₂ (Sm vc x1 (insert x (insert x1 (keys aux)))) s vs → comb (s.map val) (F.map val) = val c → List.Forall₂ (fun σ P => PolyOK vc (lexGt vc) σ ∧ val σ = P) s S := by
    intro s hs hcs
    have hk : insert x1 (keys ((x, α x) :: aux)) = insert x (insert x1 (keys aux)) := by
      rw [Finset.insert_comm]; simp [keys]
    have hS' : S = s.map val := (comb_inj (x1 := x1) (α := α) hcop h0 (ys := (x, α x) :: aux) (by
        rw [List.map_cons, List.nodup_cons]
        exact ⟨fun h => hxk (by rwa [keys, List.mem_toFinset]), hn⟩) (fun y hy => by
        rcases List.mem_cons.1 hy with rfl | hy
        · exact ⟨hx, rfl⟩
        · exact hα y hy) (F := F.map val) (by
        rw [List.forall₂_map_left_iff]
        exact hF.imp fun f v h => ⟨h.1.2, h.2⟩) hS (by
        rw [List.forall₂_map_left_iff]
        exact hs.imp fun _ _ h => h.2) (fun r hr => (hSv r hr).trans (by rw [hk]; exact Finset.subset_insert _ _)) (fun r hr => by
        obtain ⟨σ, hσ, rfl⟩ := List.mem_map.1 hr
        rw [hk]
        exact (sms_mem hs σ hσ).2) (by rw [hcs, e]))
    rw [hS']
    exact forall₂_of_map _ fun σ hσ => ⟨(sms_mem hs σ hσ).1, rfl⟩
  have up : ∀ s : List (PV Mono R), List.Forall₂ (Sm vc x1 (insert x1 (keys aux))) s vs → List.Forall₂ (Sm vc x1 (insert x (insert x1 (keys aux)))) s vs := fun _ h => h.imp fun _ _ h => h.mono (Finset.subset_insert _ _)
  refine Post.mono (P := fun o => ∀ s, o = some s → List.Forall₂ (fun σ P => PolyOK vc (lexGt vc) σ ∧ val σ = P) s S) ?_ fun o h => ⟨fun h' => absurd h' haux, h⟩
  have hne' : ∃ f ∈ forms, f ≠ [] := by
    match forms, hf with
    | [], hf => rw [List.forall₂_nil_left_iff] at hf; subst hf; simp at h2
    | f :: forms, _ => exact ⟨f, by simp, hne f (by simp)⟩
  match aux, hn, hα, hF, hc, key, up, hf, haux with
  | y :: ys, hn, hα, hF, hc, key, up, hf, _ =>
    dsimp only
    unfold stepSolve
    have hF' : List.Forall₂ (Sol vc x1 (insert x (insert x1 (keys (y :: ys))))) F vs := (imgs_sols hF).imp fun _ _ h => h.mono (Finset.subset_insert _ _)
    have hsp := (sparseInt_sol ho p (aux := (y :: ys).map Prod.fst) hn (fun h => by
      obtain ⟨z, hz, e⟩ := List.mem_map.1 h
      exact (hα z hz).1 e) hF' h2 hp (hc.mono (Finset.subset_insert _ _)) hf hne').mono fun o h s es => key s (h s es).1 (h s es).2
    refine hsp.bind fun o h1 => ?_
    match o, h1 with
    | some s, h1 => exact Post.ret fun s' e => by cases e; exact h1 s rfl
    | none, _ =>
      refine hsp.bind fun o h1 => ?_
      match o, h1 with
      | some s, h1 => exact Post.ret fun s' e => by cases e; exact h1 s rfl
      | none, _ =>
        refine Post.bind (P := fun o => ∀ s, o = some s → List.Forall₂ (Sm vc x1 (insert x1 (keys (y :: ys)))) s vs) (Post.ite (fun hy => ?_) fun _ => ?_) fun o h => Post.ite (fun _ => Post.fail) fun hun => Post.ret fun s es => ?_
        · subst hy
          have hh := hα y (by simp)
          have hk : insert x1 (keys [y]) = {y.1, x1} := by ext z; simp [keys, or_comm]
          rw [hk] at hF hc ⊢
          exact bdp_sm ho hp hh.1 hh.2 F c hF hc
        · have hk : keys (y :: ys).reverse = keys (y :: ys) := by unfold keys; rw [List.map_reverse, List.toFinset_reverse]
          have := wmds_sm ho (fuel := fuel) (x1 := x1) (α := α) hp (ys := (y :: ys).reverse) (by rw [List.map_reverse, List.nodup_reverse]; exact hn) fun z hz => hα z (List.mem_reverse.1 hz)
          rw [hk] at this
          exact this F c hF hc
        · subst es
          have hs := h s rfl
          refine key s (up s hs) (solved ho (sols_mem (imgs_sols hF)) (by rw [hF.length_eq]; exact h2) hc (sms_mem hs) (hs.length_eq.trans hF.length_eq.symm) ?_)
          cases hu : unsolved vc F c (some s)
          · rfl
          · exact absurd ⟨rfl, hu⟩ hun

end

end Mtshl
end CLPoly
