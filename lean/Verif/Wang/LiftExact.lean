import Verif.Wang.LiftSparse
import Verif.Wang.LiftLin

/-!
# Completeness of the lifting of one variable

If the polynomial is a product of polynomials `H` with the prescribed images, leading coefficients and values at `x = a`, then the lifted polynomials are the `H`.
-/

namespace CLPoly
namespace Mtshl
open Mono Mgcd Run Upoly Factor Lift Wang Charset MvPolynomial

section
variable {R : Type} [DecidableEq R] [Field R] {vc : Var → Var → Bool} (ho : VarOrd vc) {W : Finset Var}

include ho in
theorem quoX_exact {fuel : ℕ} {x : Var} (hx : x ∈ W) (a : R) {g : PV Mono R} (hg : OKIn vc W g) {G : MvPolynomial Var R} (e : val g = (X x - C a) * G) :
    Post (quoX true vc fuel g (linear vc x a)) fun q => OKIn vc W q ∧ val q = G := by
  refine (quoX_spec ho hx a hg).and ?_
  unfold quoX
  refine Post.ite (fun _ => Post.fail) fun hd => ?_
  have hd' : ∀ t ∈ g, t.1.deg < 2 ^ 63 := fun t ht => by
    by_contra hc
    exact hd ⟨rfl, List.any_eq_true.2 ⟨t, ht, by simpa using hc⟩⟩
  refine (Post.lift (Q := fun qr => val qr.1 = G) fun qr h => ?_).bind fun qr hqr => Post.ret hqr
  obtain ⟨N, Q, R', r1, r2, r3, r4⟩ := divRem_lin ho x a hg.1 hd'
  have h2 := polyDivRem_mono (Option.join_eq_some_iff.1 h) N
  rw [r1 (fuel + N) (by omega), Option.some.injEq, Option.some.injEq] at h2
  subst h2
  dsimp only
  have hR : val R' = 0 := by
    have := congrArg (sub1 x a) r3
    rw [e, map_mul, map_add, map_mul, sub1_lin, zero_mul, mul_zero, zero_add, sub1_free r4] at this
    exact this.symm
  rw [e, hR, add_zero, mul_comm] at r3
  exact (mul_right_cancel₀ (lin_ne x a) r3).symm

include ho in
theorem divPow_exact {fuel : ℕ} {x : Var} (hx : x ∈ W) (a : R) : ∀ (j : ℕ) {g : PV Mono R} {G : MvPolynomial Var R}, OKIn vc W g → val g = (X x - C a) ^ j * G →
    Post (divPow true vc fuel (linear vc x a) j g) fun q => OKIn vc W q ∧ val q = G
  | 0, g, G, hg, e => Post.ret ⟨hg, by rw [e, pow_zero, one_mul]⟩
  | j + 1, g, G, hg, e => by
    unfold divPow
    exact (quoX_exact ho hx a hg (G := (X x - C a) ^ j * G) (by rw [e]; ring)).bind fun q hq => divPow_exact hx a j hq.1 hq.2

include ho in
/-- the Taylor coefficient of a polynomial that vanishes to the order `j` -/
theorem taylorCoeff_exact {fuel : ℕ} {x : Var} (hx : x ∈ W) (a : R) (j : ℕ) {f : PV Mono R} {G : MvPolynomial Var R} (hf : OKIn vc W f) (e : val f = (X x - C a) ^ j * G) :
    Post (taylorCoeff true vc fuel f x a j) fun r => OKIn vc (W.erase x) r ∧ val r = sub1 x a G := by
  unfold taylorCoeff
  refine Post.ite (fun h => Post.ret ⟨OKIn.nil, ?_⟩) fun _ => (divPow_exact ho hx a j hf e).bind fun g hg => (asg_in ho hg.1).mono fun r hr => ⟨hr.1, by rw [hr.2, hg.2]⟩
  rw [h, val_nil] at e
  have := (mul_eq_zero.1 e.symm).resolve_left (pow_ne_zero _ (lin_ne x a))
  rw [val_nil, this, map_zero]

include ho in
theorem addCorr_spec' {U : Type} {A A' B : PV Mono R → U → Prop} {xp : PV Mono R} (hxp : OKIn vc W xp) (hA : ∀ r u, A r u → OKIn vc W r) (hB : ∀ d u, B d u → OKIn vc W d)
    (step : ∀ r d u r', A r u → B d u → OKIn vc W r' → val r' = val r + val d * val xp → A' r' u) :
    ∀ {rs ds : List (PV Mono R)} {us : List U}, List.Forall₂ A rs us → List.Forall₂ B ds us → Post (addCorr true vc xp rs ds) fun l => List.Forall₂ A' l us
  | [], _, _, h, _ => by
    rw [List.forall₂_nil_left_iff] at h; subst h
    unfold addCorr; exact Post.ret List.Forall₂.nil
  | r :: rs, [], us, h, h' => by
    rw [List.forall₂_nil_left_iff] at h'; subst h'
    exact absurd h (by simp)
  | r :: rs, d :: ds, [], h, _ => absurd h (by simp)
  | r :: rs, d :: ds, u :: us, h, h' => by
    rw [List.forall₂_cons] at h h'
    unfold addCorr
    refine Post.bind (P := fun r' => A' r' u) ?_ fun r' hr' => (addCorr_spec' hxp hA hB step h.2 h'.2).bind fun l hl => Post.ret (List.Forall₂.cons hr' hl)
    refine Post.ite (fun hd => Post.ret (step r d u r h.1 h'.1 (hA _ _ h.1) (by rw [hd, val_nil, zero_mul, add_zero]))) fun _ => ?_
    refine (mulN_in ho (hB _ _ h'.1) hxp).bind fun t ht => Post.ret ?_
    obtain ⟨k1, k2⟩ := add_in ho (hA _ _ h.1) ht.1
    exact step r d u _ h.1 h'.1 k1 (by rw [k2, ht.2])

/-! ## exact solvers -/

variable {x1 : Var} {α : Var → R} {vs : List (Polynomial R)}

/-- `solve` returns the solution of small degree, if there is one; `nn`: it never returns `false` then -/
def SolveEx (nn : Prop) (vc : Var → Var → Bool) (x1 : Var) (α : Var → R) (vs : List (Polynomial R)) (W : Finset Var) (solve : List (PV Mono R) → PV Mono R → Run (Option (List (PV Mono R)))) : Prop :=
  ∀ F c S, List.Forall₂ (Img vc x1 α W) F vs → OKIn vc W c → List.Forall₂ (Sml x1) S vs → (∀ s ∈ S, s.vars ⊆ W) → val c = comb S (F.map val) →
    Post (solve F c) fun o => (nn → o ≠ none) ∧ ∀ s, o = some s → List.Forall₂ (fun σ P => PolyOK vc (lexGt vc) σ ∧ val σ = P) s S

theorem imgs_evR {F : List (PV Mono R)} {vs : List (Polynomial R)} (h : List.Forall₂ (Img vc x1 α W) F vs) : (F.map val).map (evR x1 α) = vs := by
  induction h with
  | nil => rfl
  | cons h _ ih => rw [List.map_cons, List.map_cons, h.2, ih]

include ho in
theorem mdpBase_ex (h2 : 2 ≤ vs.length) (h0 : ∀ v ∈ vs, v ≠ 0) (hc : Lift.Cop vs) : SolveEx True vc x1 α vs {x1} (mdpBase x1) := by
  intro F c S hF hcI hS hSv e
  have M := lex_ord ho
  unfold mdpBase
  have hIs : List.Forall₂ Is (F.map polyToUpoly) vs := by
    rw [List.forall₂_map_left_iff]
    refine hF.imp fun f v h => ?_
    have := polyToUpoly_spec ho M h.1.1.1 h.1.1.2
    rwa [← evR_ret h.1.1.2 α, h.2] at this
  have hcI' := polyToUpoly_spec ho M hcI.1 hcI.2
  obtain ⟨r, P, k1, k2, k3, k4, k5, k6⟩ := (univarMdp_spec hIs h2 h0 hcI').1 (Or.inl hc)
  have hS' : List.Forall₂ (fun p v => p.degree < v.degree) (S.map (evR x1 α)) vs := by
    rw [List.forall₂_map_left_iff]
    exact hS.imp fun s v h => Polynomial.degree_lt_degree ((evR_natDegree_le _ _ _).trans_lt h)
  have hzip : ∀ z ∈ List.zip (S.map (evR x1 α)) vs, z.1.degree < z.2.degree := fun z hz => (List.forall₂_iff_zip.1 hS').2 hz
  have hC : Factor.ret (val c) = comb (S.map (evR x1 α)) vs := by rw [← evR_ret hcI.2 α, e, comb_map, imgs_evR hF]
  have hP : P = S.map (evR x1 α) := by
    refine comb_unique k3 hS'.length_eq hc h0 k4 hzip ?_
    rw [k6 (by rw [hC]; exact comb_degree hS'.length_eq h0 hzip), hC]
  subst hP
  rw [k1]
  refine (Post.lift (Q := fun o => o = some r) fun o eo => by cases eo; rfl).bind fun o eo => Post.ret ⟨fun _ => by rw [eo]; simp, fun s es => ?_⟩
  rw [eo, Option.map_some, Option.some.injEq] at es
  subst es
  rw [List.forall₂_map_left_iff]
  have k2 : List.Forall₂ Is r (S.map (evR x1 α)) := k2
  rw [List.forall₂_map_right_iff] at k2
  refine (List.forall₂_iff_zip.2 ⟨k2.length_eq, fun {a b} hab => ?_⟩)
  have h1 := (List.forall₂_iff_zip.1 k2).2 hab
  obtain ⟨q1, q2⟩ := upolyToPoly_spec ho x1 h1
  have hv := hSv b (List.of_mem_zip hab).2
  exact ⟨q1, by rw [q2, evR_ret hv, emb_ret hv]⟩

/-! ## the loop over the Taylor coefficients -/

/-- agrees with the target up to the order `k` -/
structure St (vc : Var → Var → Bool) (x1 : Var) (W : Finset Var) (x : Var) (a : R) (n k : ℕ) (r : PV Mono R) (u : MvPolynomial Var R × Polynomial R) : Prop where
  ok : OKIn vc W r
  dvd : (X x - C a) ^ k ∣ u.1 - val r
  sml : Sml x1 (u.1 - val r) u.2
  deg : (val r).degreeOf x ≤ n

/-- a target -/
structure Tgt (x1 : Var) (α : Var → R) (W : Finset Var) (x : Var) (n : ℕ) (u : MvPolynomial Var R × Polynomial R) : Prop where
  im : Im x1 α u.1 u.2
  pos : 0 < u.2.natDegree
  vars : u.1.vars ⊆ W
  deg : u.1.degreeOf x ≤ n

theorem St.done {x : Var} {a : R} {n k : ℕ} {r : PV Mono R} {u : MvPolynomial Var R × Polynomial R} (h : St vc x1 W x a n k r u) (hu : u.1.degreeOf x ≤ n) (hk : n < k) : val r = u.1 := by
  by_contra hc
  have := pow_dvd_degree h.dvd (sub_ne_zero.2 (Ne.symm hc))
  have h2 := (degreeOf_sub_le x u.1 (val r)).trans (max_le hu h.deg)
  omega

variable {x : Var} {a : R} {n : ℕ}

/-- quotients of the differences by `(x - a)^k` -/
theorem choose_quot {k : ℕ} : ∀ {F : List (PV Mono R)} {us : List (MvPolynomial Var R × Polynomial R)}, List.Forall₂ (St vc x1 W x a n k) F us →
    ∃ ds : List ((MvPolynomial Var R × Polynomial R) × MvPolynomial Var R), ds.map Prod.fst = us ∧ List.Forall₂ (fun r d => St vc x1 W x a n k r d.1 ∧ d.1.1 - val r = (X x - C a) ^ k * d.2) F ds
  | [], [], _ => ⟨[], rfl, List.Forall₂.nil⟩
  | [], _ :: _, h => absurd h (by simp)
  | _ :: _, [], h => absurd h (by simp)
  | r :: F, u :: us, h => by
    rw [List.forall₂_cons] at h
    obtain ⟨ds, e, hd⟩ := choose_quot h.2
    obtain ⟨q, hq⟩ := h.1.dvd
    exact ⟨(u, q) :: ds, by rw [List.map_cons, e], List.Forall₂.cons ⟨h.1, hq⟩ hd⟩

theorem forall₂_mem_right {A B : Type} {P : A → B → Prop} {l : List A} {m : List B} (h : List.Forall₂ P l m) {b : B} (hb : b ∈ m) : ∃ a ∈ l, P a b := by
  induction h with
  | nil => simp at hb
  | cons h _ ih =>
    rcases List.mem_cons.1 hb with rfl | hb
    · exact ⟨_, by simp, h⟩
    · obtain ⟨a, ha, hP⟩ := ih hb
      exact ⟨a, by simp [ha], hP⟩

theorem forall₂_of_map {A B : Type} {P : A → B → Prop} (f : A → B) : ∀ {l : List A}, (∀ a ∈ l, P a (f a)) → List.Forall₂ P l (l.map f)
  | [], _ => List.Forall₂.nil
  | a :: l, h => List.Forall₂.cons (h a (by simp)) (forall₂_of_map f fun b hb => h b (by simp [hb]))

/-- the quotients are small and in the same variables -/
theorem quot_small {k : ℕ} {r : PV Mono R} {d : (MvPolynomial Var R × Polynomial R) × MvPolynomial Var R} (h : St vc x1 W x a n k r d.1) (ht : Tgt x1 α W x n d.1) (e : d.1.1 - val r = (X x - C a) ^ k * d.2) :
    Sml x1 d.2 d.1.2 ∧ d.2.vars ⊆ W := by
  classical
  by_cases h0 : d.2 = 0
  · rw [h0]; exact ⟨by rw [Sml, degreeOf_zero]; exact ht.pos, by rw [vars_0]; exact Finset.empty_subset _⟩
  have hne : d.1.1 - val r ≠ 0 := by rw [e]; exact mul_ne_zero (pow_ne_zero _ (lin_ne x a)) h0
  have hdv : d.2 ∣ d.1.1 - val r := ⟨_, by rw [e, mul_comm]⟩
  exact ⟨(degreeOf_le_of_dvd hdv hne).trans_lt h.sml, (vars_of_dvd hdv hne).trans ((vars_sub_subset _).trans (Finset.union_subset ht.vars h.ok.2))⟩

/-- the error, up to the first order -/
theorem err_form {k : ℕ} (hk : 0 < k) {F : List (PV Mono R)} {ds : List ((MvPolynomial Var R × Polynomial R) × MvPolynomial Var R)}
    (h : List.Forall₂ (fun r d => St vc x1 W x a n k r d.1 ∧ d.1.1 - val r = (X x - C a) ^ k * d.2) F ds) :
    ∃ Q, (ds.map fun d => d.1.1).prod - (F.map val).prod = (X x - C a) ^ k * (comb (ds.map Prod.snd) (ds.map fun d => d.1.1) + (X x - C a) * Q) := by
  refine prod_diff _ hk ?_ (by simp)
  rw [List.forall₂_map_left_iff]
  have : List.zip (ds.map fun d => d.1.1) (ds.map Prod.snd) = ds.map fun d => (d.1.1, d.2) := by
    rw [List.zip_map']
  rw [this, List.forall₂_map_right_iff]
  exact h.imp fun _ _ h => h.2

variable {aux : List (Var × R)} (hn : (aux.map Prod.fst).Nodup) (hα : ∀ y ∈ aux, y.1 ≠ x1 ∧ y.2 = α y.1) (hx : x ≠ x1) (hxk : x ∉ keys aux) (ha : a = α x)
  {us : List (MvPolynomial Var R × Polynomial R)} (h0 : ∀ u ∈ us, u.2 ≠ 0) (hc : Lift.Cop (us.map Prod.snd)) (hU : ∀ u ∈ us, Tgt x1 α (insert x (insert x1 (keys aux))) x n u)

theorem sub1_vars_aux {f : MvPolynomial Var R} (h : f.vars ⊆ insert x (insert x1 (keys aux))) : (sub1 x a f).vars ⊆ insert x1 (keys aux) := by
  refine (sub1_vars _ _ _).trans fun w hw => ?_
  rw [Finset.mem_erase] at hw
  exact (Finset.mem_insert.1 (h hw.2)).resolve_left hw.1

include hU hx ha in
theorem quot_data {k : ℕ} {F : List (PV Mono R)} {ds : List ((MvPolynomial Var R × Polynomial R) × MvPolynomial Var R)} (hds : ds.map Prod.fst = us)
    (h : List.Forall₂ (fun r d => St vc x1 (insert x (insert x1 (keys aux))) x a n k r d.1 ∧ d.1.1 - val r = (X x - C a) ^ k * d.2) F ds) :
    List.Forall₂ (Im x1 α) (us.map fun u => sub1 x a u.1) (us.map Prod.snd) ∧ List.Forall₂ (Sml x1) (ds.map fun d => sub1 x a d.2) (us.map Prod.snd) ∧
      (∀ d ∈ ds, (sub1 x a d.2).vars ⊆ insert x1 (keys aux)) := by
  have hm : ∀ d ∈ ds, Sml x1 d.2 d.1.2 ∧ d.2.vars ⊆ insert x (insert x1 (keys aux)) := fun d hd => by
    obtain ⟨r, _, h1, h2⟩ := forall₂_mem_right h hd
    exact quot_small h1 (hU d.1 (hds ▸ List.mem_map_of_mem hd)) h2
  refine ⟨?_, ?_, fun d hd => sub1_vars_aux (hm d hd).2⟩
  · rw [List.forall₂_map_left_iff]
    exact forall₂_of_map _ fun u hu => (hU u hu).im.sub1 hx ha
  · rw [← hds, List.map_map, List.forall₂_map_left_iff]
    exact forall₂_of_map _ fun d hd => (hm d hd).1.sub1 _ _

include hn hα hx ha h0 hc hU in
/-- a vanishing coefficient: nothing changes -/
theorem zero_step {k : ℕ} {F : List (PV Mono R)} {ds : List ((MvPolynomial Var R × Polynomial R) × MvPolynomial Var R)} (hds : ds.map Prod.fst = us)
    (h : List.Forall₂ (fun r d => St vc x1 (insert x (insert x1 (keys aux))) x a n k r d.1 ∧ d.1.1 - val r = (X x - C a) ^ k * d.2) F ds)
    (e : comb (ds.map fun d => sub1 x a d.2) (us.map fun u => sub1 x a u.1) = 0) : List.Forall₂ (St vc x1 (insert x (insert x1 (keys aux))) x a n (k + 1)) F us := by
  obtain ⟨q1, q2, q3⟩ := quot_data hx ha hU hds h
  have hz := comb_zero (x1 := x1) (α := α) hc (fun v hv => by obtain ⟨u, hu, rfl⟩ := List.mem_map.1 hv; exact h0 u hu) aux hn hα q1 q2
    (fun s hs => by obtain ⟨d, hd, rfl⟩ := List.mem_map.1 hs; exact q3 d hd) e
  rw [← hds, List.forall₂_map_right_iff]
  refine List.forall₂_iff_zip.2 ⟨h.length_eq, fun {r d} hrd => ?_⟩
  obtain ⟨s1, s2⟩ := (List.forall₂_iff_zip.1 h).2 hrd
  refine ⟨s1.ok, ?_, s1.sml, s1.deg⟩
  have hd0 : sub1 x a d.2 = 0 := hz _ (List.mem_map.2 ⟨d, (List.of_mem_zip hrd).2, rfl⟩)
  obtain ⟨q, hq⟩ := (lin_dvd_iff x a d.2).2 hd0
  exact ⟨q, by rw [s2, hq, pow_succ, mul_assoc]⟩

include hn hα hx ha h0 hc hU in
/-- the product is right: so are the factors -/
theorem descend {F : List (PV Mono R)} (e : (us.map Prod.fst).prod = (F.map val).prod) : ∀ (m k : ℕ), 0 < k → List.Forall₂ (St vc x1 (insert x (insert x1 (keys aux))) x a n k) F us →
    List.Forall₂ (St vc x1 (insert x (insert x1 (keys aux))) x a n (k + m)) F us
  | 0, _, _, h => h
  | m + 1, k, hk, h => by
    obtain ⟨ds, hds, hd⟩ := choose_quot h
    obtain ⟨Q, hQ⟩ := err_form hk hd
    have e1 : (ds.map fun d => d.1.1) = us.map Prod.fst := by rw [← hds, List.map_map]; rfl
    rw [e1, e, sub_self] at hQ
    have h1 := (mul_eq_zero.1 hQ.symm).resolve_left (pow_ne_zero _ (lin_ne x a))
    have h2 := congrArg (sub1 x a) h1
    rw [map_add, map_mul, sub1_lin, zero_mul, add_zero, map_zero, comb_map, List.map_map, List.map_map] at h2
    have := descend e m (k + 1) (by omega) (zero_step hn hα hx ha h0 hc hU hds hd h2)
    rwa [show k + (m + 1) = k + 1 + m by ring]

include hU in
theorem all_done {k : ℕ} (hk : n < k) {F : List (PV Mono R)} (h : List.Forall₂ (St vc x1 (insert x (insert x1 (keys aux))) x a n k) F us) :
    List.Forall₂ (fun r u => OKIn vc (insert x (insert x1 (keys aux))) r ∧ val r = u.1) F us :=
  List.forall₂_iff_zip.2 ⟨h.length_eq, fun {r u} hru => by
    have := (List.forall₂_iff_zip.1 h).2 hru
    exact ⟨this.ok, this.done (hU u (List.of_mem_zip hru).2).deg hk⟩⟩

theorem newForms_ne : ∀ {fs : List (List Mono)} {ss : List (PV Mono R)}, (∀ f ∈ fs, f ≠ []) → ∀ f ∈ newForms fs ss, f ≠ []
  | [], _, h => by unfold newForms; exact h
  | _ :: _, [], h => by unfold newForms; exact h
  | f :: fs, s :: ss, h => by
    unfold newForms
    intro g hg
    rcases List.mem_cons.1 hg with rfl | hg
    · split
      · exact h f (by simp)
      · next hs => simpa using hs
    · exact newForms_ne (fun f hf => h f (by simp [hf])) g hg

include ho hn hα hx hxk ha h0 hc hU in
/-- the loop of `__mtshl_step_j` finds the targets -/
theorem stepLoop_exact {nn : Prop} {ex : Bool} {fuel : ℕ} (p : ℕ) (hne : us ≠ []) {aj : PV Mono R} (haj : OKIn vc (insert x (insert x1 (keys aux))) aj) (hprod : val aj = (us.map Prod.fst).prod)
    {Fb : List (PV Mono R)} (hFb : List.Forall₂ (Img vc x1 α (insert x1 (keys aux))) Fb (us.map Prod.snd)) (hFv : Fb.map val = us.map fun u => sub1 x a u.1)
    (hs : ∀ forms, List.Forall₂ (FormOK vc x1 (insert x (insert x1 (keys aux)))) forms (us.map Prod.snd) → (∀ f ∈ forms, f ≠ []) →
      SolveEx nn vc x1 α (us.map Prod.snd) (insert x1 (keys aux)) fun F c => stepSolve true ex vc fuel p x1 aux F c forms) :
    ∀ (m k : ℕ) {xp e : PV Mono R} {F : List (PV Mono R)} {forms : List (List Mono)}, 0 < k → n + 1 = k + m → OKIn vc {x} xp → val xp = (X x - C a) ^ (k - 1) → OKIn vc (insert x (insert x1 (keys aux))) e →
      val e = val aj - (F.map val).prod → List.Forall₂ (St vc x1 (insert x (insert x1 (keys aux))) x a n k) F us → List.Forall₂ (FormOK vc x1 (insert x (insert x1 (keys aux)))) forms (us.map Prod.snd) →
      (∀ f ∈ forms, f ≠ []) → Post (stepLoop true ex vc fuel p x1 aux aj Fb x a m k xp e F forms) fun o => (nn → o ≠ none) ∧
        ∀ s, o = some s → List.Forall₂ (fun r u => OKIn vc (insert x (insert x1 (keys aux))) r ∧ val r = u.1) s us := by
  intro m
  have hxW : x ∉ insert x1 (keys aux) := by rw [Finset.mem_insert]; rintro (h | h); exacts [hx h, hxk h]
  induction m with
  | zero =>
    intro k xp e F forms hk hkm _ _ _ _ hF _ _
    unfold stepLoop
    exact Post.ret ⟨fun _ => by simp, fun s es => by cases es; exact all_done hU (by omega) hF⟩
  | succ m ih =>
    intro k xp e F forms hk hkm hxp hxv he hev hF hf hfn
    unfold stepLoop
    obtain ⟨l1, l2⟩ := linear_spec ho x a
    have hpow : (X x - C a : MvPolynomial Var R) ^ (k - 1) * (X x - C a) = (X x - C a) ^ k := by rw [← pow_succ]; congr 1; omega
    refine (mulN_in ho hxp l1).bind fun xp' hxp' => ?_
    have hxv' : val xp' = (X x - C a) ^ k := by rw [hxp'.2, hxv, l2, hpow]
    obtain ⟨ds, hds, hd⟩ := choose_quot hF
    obtain ⟨Q, hQ⟩ := err_form hk hd
    have e1 : (ds.map fun d => d.1.1) = us.map Prod.fst := by rw [← hds, List.map_map]; rfl
    rw [e1, ← hprod, ← hev] at hQ
    obtain ⟨q1, q2, q3⟩ := quot_data hx ha hU hds hd
    refine (taylorCoeff_exact ho (Finset.mem_insert_self x _) a k he hQ).bind fun ck hck => ?_
    rw [Finset.erase_insert hxW] at hck
    have hckv : val ck = comb (ds.map fun d => sub1 x a d.2) (us.map fun u => sub1 x a u.1) := by
      rw [hck.2, map_add, map_mul, sub1_lin, zero_mul, add_zero, comb_map, List.map_map, List.map_map]; rfl
    refine Post.ite (fun h => ?_) fun _ => ?_
    · refine ih (k + 1) (by omega) (by omega) hxp'.1 (by rw [hxv']; rfl) he hev ?_ hf hfn
      exact zero_step hn hα hx ha h0 hc hU hds hd (by rw [← hckv, h, val_nil])
    · have q4 : ∀ s ∈ ds.map (fun d => sub1 x a d.2), s.vars ⊆ insert x1 (keys aux) := fun s hs => by
        obtain ⟨d, hd, rfl⟩ := List.mem_map.1 hs
        exact q3 d hd
      rw [← hFv] at hckv
      have hq := hs forms hf hfn Fb ck _ hFb hck.1 q2 q4 hckv
      refine hq.bind fun o hσ => ?_
      match o, hσ with
      | none, hσ => exact Post.ret ⟨fun h => absurd rfl (hσ.1 h), fun s e => by cases e⟩
      | some σ, hσ =>
        have hσ := hσ.2 σ rfl
        rw [List.forall₂_map_right_iff] at hσ
        -- the properties of the corrections
        have hB : List.Forall₂ (fun s d => (OKIn vc (insert x (insert x1 (keys aux))) s ∧ val s = sub1 x a d.2) ∧ Sml x1 (sub1 x a d.2) d.1.2) σ ds := by
          refine List.forall₂_iff_zip.2 ⟨hσ.length_eq, fun {s d} hsd => ?_⟩
          obtain ⟨t1, t2⟩ := (List.forall₂_iff_zip.1 hσ).2 hsd
          have hdm := (List.of_mem_zip hsd).2
          refine ⟨⟨⟨t1, by rw [t2]; exact (q3 d hdm).trans (Finset.subset_insert _ _)⟩, t2⟩, ?_⟩
          rw [← hds, List.map_map, List.forall₂_map_left_iff, List.forall₂_map_right_iff] at q2
          exact List.forall₂_same.1 q2 d hdm
        have hx1xp : (val xp').degreeOf x1 = 0 := by
          rw [hxv']
          exact Nat.le_zero.1 ((degreeOf_pow_le _ _ _).trans (by rw [lin_degreeOf_ne hx.symm, mul_zero]))
        refine (addCorr_spec' ho (A := fun r d => St vc x1 (insert x (insert x1 (keys aux))) x a n k r d.1 ∧ d.1.1 - val r = (X x - C a) ^ k * d.2)
          (A' := fun r d => d ∈ ds → St vc x1 (insert x (insert x1 (keys aux))) x a n (k + 1) r d.1)
          (B := fun s d => (OKIn vc (insert x (insert x1 (keys aux))) s ∧ val s = sub1 x a d.2) ∧ Sml x1 (sub1 x a d.2) d.1.2) (hxp'.1.mono (by simp)) (fun r u h => h.1.ok) (fun d u h => h.1.1)
          (fun r s d r' hA hB h3 h4 hdm => ?_) hd hB).bind fun F' hF' => ?_
        · have hsub : d.1.1 - val r' = (X x - C a) ^ k * (d.2 - sub1 x a d.2) := by rw [h4, hB.1.2, hxv']; linear_combination hA.2
          refine ⟨h3, ?_, ?_, ?_⟩
          · obtain ⟨q, hq⟩ := lin_dvd_sub x a d.2
            exact ⟨q, by rw [hsub, hq, pow_succ, mul_assoc]⟩
          · have : d.1.1 - val r' = (d.1.1 - val r) - val s * val xp' := by rw [h4]; ring
            rw [Sml, this]
            refine (degreeOf_sub_le _ _ _).trans_lt (max_lt hA.1.sml ((degreeOf_mul_le _ _ _).trans_lt ?_))
            rw [hx1xp, add_zero, hB.1.2]
            exact hB.2
          · rw [h4]
            refine (degreeOf_add_le _ _ _).trans (max_le hA.1.deg ((degreeOf_mul_le _ _ _).trans ?_))
            have h5 : (val s).degreeOf x = 0 := degreeOf_zero_iff.2 fun hxs => by
              rw [hB.1.2] at hxs
              exact hxW (q3 d hdm hxs)
            rw [h5, zero_add, hxv']
            exact (degreeOf_pow_le _ _ _).trans (by rw [lin_degreeOf_self, mul_one]; omega)
        · have hF'2 : List.Forall₂ (St vc x1 (insert x (insert x1 (keys aux))) x a n (k + 1)) F' us := by
            rw [← hds, List.forall₂_map_right_iff]
            exact List.forall₂_iff_zip.2 ⟨hF'.length_eq, fun {r d} hrd => (List.forall₂_iff_zip.1 hF').2 hrd (List.of_mem_zip hrd).2⟩
          have hF'ok : ∀ f ∈ F', OKIn vc (insert x (insert x1 (keys aux))) f := fun f hf => by
            obtain ⟨u, _, h⟩ := forall₂_mem_left hF'2 hf
            exact h.ok
          have hF'ne : F' ≠ [] := fun h => by rw [h, List.forall₂_nil_left_iff] at hF'2; exact hne hF'2
          refine (prodAll_spec ho F' hF'ok).bind fun pr hpr => ?_
          obtain ⟨r1, r2⟩ := sub_in ho haj hpr.1
          rw [hpr.2 hF'ne] at r2
          dsimp only
          refine Post.ite (fun h => Post.ret ⟨fun _ => by simp, fun s es => ?_⟩) fun _ => ?_
          · cases es
            rw [h, val_nil] at r2
            have := descend hn hα hx ha h0 hc hU (F := F') (by rw [← hprod]; linear_combination -r2) n (k + 1) (by omega) hF'2
            exact all_done hU (by omega) this
          · have hSol : List.Forall₂ (Sol vc x1 (insert x (insert x1 (keys aux)))) σ (us.map Prod.snd) := by
              rw [← hds, List.map_map, List.forall₂_map_right_iff]
              exact hB.imp fun s d h => ⟨h.1.1, by rw [h.1.2]; exact h.2.le⟩
            exact ih (k + 1) (by omega) (by omega) hxp'.1 (by rw [hxv']; rfl) r1 r2 hF'2 (newForms_spec ho hf hSol) (newForms_ne hfn)

end

end Mtshl
end CLPoly
