import Verif.Wang.SolveExact
import Verif.Wang.LiftTotal
import Verif.Wang.SparseComplete

/-! # The dense solver returns the solution, if its degree in the last variable is at most that of the right hand side -/

namespace CLPoly
namespace Mtshl
open Mono Mgcd Run Upoly Factor Lift Wang Charset MvPolynomial

section
variable {R : Type} [DecidableEq R] [Field R] {vc : Var → Var → Bool} (ho : VarOrd vc)

include ho in
/-- the degree in the right hand side, as the code takes it -/
theorem degX_ge {W : Finset Var} {c : PV Mono R} (hc : OKIn vc W c) (x : Var) : (val c).degreeOf x ≤ degX c x := by
  have key : ∀ (l : PV Mono R) (d : ℕ), d ≤ l.foldl (fun d t => max d (expOf t.1.data x).toNat) d ∧ ∀ t ∈ l, (expOf t.1.data x).toNat ≤ l.foldl (fun d t => max d (expOf t.1.data x).toNat) d := by
    intro l
    induction l with
    | nil => exact fun d => ⟨le_refl _, by simp⟩
    | cons t l ih =>
      intro d
      rw [List.foldl_cons]
      obtain ⟨h1, h2⟩ := ih (max d (expOf t.1.data x).toNat)
      refine ⟨(le_max_left _ _).trans h1, fun s hs => ?_⟩
      rcases List.mem_cons.1 hs with rfl | hs
      · exact (le_max_right _ _).trans h1
      · exact h2 s hs
  refine degreeOf_le_iff.2 fun s hs => ?_
  obtain ⟨t, ht, rfl⟩ := (hc.1.mem_support (lex_ord ho)).1 hs
  have := (key c 0).2 t ht
  rw [expOf_eq ho (hc.1.monos t ht), ← Mono.expo_toNat (hc.1.monos t ht).pos] at this
  exact this

theorem comb_quot {q : MvPolynomial Var R} {P : PV Mono R → ((MvPolynomial Var R × Polynomial R) × MvPolynomial Var R) → Prop} {rs : List (PV Mono R)} {ds : List ((MvPolynomial Var R × Polynomial R) × MvPolynomial Var R)}
    (h : List.Forall₂ (fun r d => P r d ∧ d.1.1 - val r = q * d.2) rs ds) : ∀ F : List (MvPolynomial Var R), comb (ds.map fun d => d.1.1) F - comb (rs.map val) F = q * comb (ds.map Prod.snd) F := by
  induction h with
  | nil => intro F; simp [comb]
  | cons h _ ih =>
    intro F
    cases F with
    | nil => simp [comb]
    | cons f F =>
      simp only [List.map_cons, comb]
      linear_combination F.prod * h.2 + f * ih F

include ho in
/-- the error of an answer -/
theorem errorOf_comb {W : Finset Var} {F : List (PV Mono R)} (hF : ∀ f ∈ F, OKIn vc W f) {c : PV Mono R} (hc : OKIn vc W c) {s : List (PV Mono R)} (hs : ∀ r ∈ s, OKIn vc W r) (hl : s.length = F.length)
    {bs : List (PV Mono R)} (hbs : List.Forall₂ (fun i b => OKIn vc W b ∧ val b = ((F.map val).eraseIdx i).prod) (List.range F.length) bs) :
    Post (errorOf true vc c s bs) fun k => OKIn vc W k ∧ val k = val c - comb (s.map val) (F.map val) := by
  have hbl : bs.length = F.length := by rw [← hbs.length_eq, List.length_range]
  refine (errorOf_val ho s bs (hl.trans hbl.symm) hc hs fun b hb => ?_).mono fun k hk => ⟨hk.1, ?_⟩
  · obtain ⟨i, _, h1, _⟩ := forall₂_mem_right hbs hb
    exact h1
  · rw [hk.2, comb_eq_sum (by rw [List.length_map, List.length_map, hl]), List.length_map, hl]
    congr 1
    refine Finset.sum_congr rfl fun i hi => ?_
    have hi' := Finset.mem_range.1 hi
    have := (List.forall₂_iff_get.1 hbs).2 i (by simpa using hi') (by omega)
    simp only [List.get_eq_getElem, List.getElem_range] at this
    rw [List.getD_eq_getElem (bs.map val) _ (by rw [List.length_map]; omega), List.getElem_map, this.2]

variable {x1 x : Var} {α : Var → R} {a : R} {aux : List (Var × R)} {vs : List (Polynomial R)}
  (hn : (aux.map Prod.fst).Nodup) (hα : ∀ y ∈ aux, y.1 ≠ x1 ∧ y.2 = α y.1) (hx : x ≠ x1) (hxk : x ∉ keys aux) (ha : a = α x) (h2 : 2 ≤ vs.length) (h0 : ∀ v ∈ vs, v ≠ 0) (hc : Lift.Cop vs)

include ho hn hα hx hxk ha h0 hc in
theorem taylorLoop_exact {nn : Prop} {fuel : ℕ} {solve : List (PV Mono R) → PV Mono R → Run (Option (List (PV Mono R)))} (hs : SolveEx nn vc x1 α vs (insert x1 (keys aux)) solve)
    {F Fb : List (PV Mono R)} (hF : ∀ f ∈ F, OKIn vc (insert x (insert x1 (keys aux))) f) (hF2 : 2 ≤ F.length) (hFb : List.Forall₂ (Img vc x1 α (insert x1 (keys aux))) Fb vs) (hFv : Fb.map val = (F.map val).map (sub1 x a))
    {c : PV Mono R} (hcI : OKIn vc (insert x (insert x1 (keys aux))) c) {us : List (MvPolynomial Var R × Polynomial R)} (hus : us.map Prod.snd = vs) (hlen : us.length = F.length) (n : ℕ)
    (hU : ∀ u ∈ us, Sml x1 u.1 u.2 ∧ u.1.vars ⊆ insert x (insert x1 (keys aux)) ∧ u.1.degreeOf x ≤ n) (hcv : val c = comb (us.map Prod.fst) (F.map val))
    {bs : List (PV Mono R)} (hbs : List.Forall₂ (fun i b => OKIn vc (insert x (insert x1 (keys aux))) b ∧ val b = ((F.map val).eraseIdx i).prod) (List.range F.length) bs) :
    ∀ (m k : ℕ) {xp e : PV Mono R} {res : List (PV Mono R)}, 0 < k → n < k + m → k + m ≤ n + 1 → OKIn vc {x} xp → val xp = (X x - C a) ^ (k - 1) → OKIn vc (insert x (insert x1 (keys aux))) e →
      val e = val c - comb (res.map val) (F.map val) → List.Forall₂ (St vc x1 (insert x (insert x1 (keys aux))) x a n k) res us →
      Post (taylorLoop true vc fuel solve Fb c bs x a m k xp e res) fun o => (nn → o ≠ none) ∧ ∀ s, o = some s → List.Forall₂ (fun r u => OKIn vc (insert x (insert x1 (keys aux))) r ∧ val r = u.1) s us := by
  classical
  have hxW : x ∉ insert x1 (keys aux) := by rw [Finset.mem_insert]; rintro (h | h); exacts [hx h, hxk h]
  have hIm : List.Forall₂ (Im x1 α) ((F.map val).map (sub1 x a)) vs := by
    rw [← hFv, List.forall₂_map_left_iff]
    exact hFb.imp fun f v h => ⟨h.1.2, h.2⟩
  have hv0 : ∀ u ∈ us, 0 < u.2.natDegree := fun u hu => Nat.lt_of_le_of_lt (Nat.zero_le _) (hU u hu).1
  -- the quotients
  have hq : ∀ {k : ℕ} {res : List (PV Mono R)} {ds : List ((MvPolynomial Var R × Polynomial R) × MvPolynomial Var R)}, ds.map Prod.fst = us →
      List.Forall₂ (fun r d => St vc x1 (insert x (insert x1 (keys aux))) x a n k r d.1 ∧ d.1.1 - val r = (X x - C a) ^ k * d.2) res ds →
      List.Forall₂ (Sml x1) (ds.map fun d => sub1 x a d.2) vs ∧ ∀ d ∈ ds, (sub1 x a d.2).vars ⊆ insert x1 (keys aux) := by
    intro k res ds hds h
    have hm : ∀ d ∈ ds, Sml x1 d.2 d.1.2 ∧ d.2.vars ⊆ insert x (insert x1 (keys aux)) := fun d hd => by
      obtain ⟨r, _, k1, k2⟩ := forall₂_mem_right h hd
      have hu := hU d.1 (hds ▸ List.mem_map_of_mem hd)
      by_cases hz : d.2 = 0
      · rw [hz]
        exact ⟨by rw [Sml, degreeOf_zero]; exact hv0 d.1 (hds ▸ List.mem_map_of_mem hd), by rw [vars_0]; exact Finset.empty_subset _⟩
      have hne : d.1.1 - val r ≠ 0 := by rw [k2]; exact mul_ne_zero (pow_ne_zero _ (lin_ne x a)) hz
      have hdv : d.2 ∣ d.1.1 - val r := ⟨_, by rw [k2, mul_comm]⟩
      exact ⟨(degreeOf_le_of_dvd hdv hne).trans_lt k1.sml, (vars_of_dvd hdv hne).trans ((vars_sub_subset _).trans (Finset.union_subset hu.2.1 k1.ok.2))⟩
    refine ⟨?_, fun d hd => sub1_vars_aux (hm d hd).2⟩
    rw [← hus, ← hds, List.map_map, List.forall₂_map_left_iff]
    exact forall₂_of_map _ fun d hd => (hm d hd).1.sub1 _ _
  -- nothing is left to be corrected
  have hz : ∀ {k : ℕ} {res : List (PV Mono R)} {ds : List ((MvPolynomial Var R × Polynomial R) × MvPolynomial Var R)}, ds.map Prod.fst = us →
      List.Forall₂ (fun r d => St vc x1 (insert x (insert x1 (keys aux))) x a n k r d.1 ∧ d.1.1 - val r = (X x - C a) ^ k * d.2) res ds →
      comb (ds.map fun d => sub1 x a d.2) ((F.map val).map (sub1 x a)) = 0 → List.Forall₂ (St vc x1 (insert x (insert x1 (keys aux))) x a n (k + 1)) res us := by
    intro k res ds hds h e
    obtain ⟨q2, q3⟩ := hq hds h
    have hz := comb_zero (x1 := x1) (α := α) hc h0 aux hn hα hIm q2 (fun s hs => by obtain ⟨d, hd, rfl⟩ := List.mem_map.1 hs; exact q3 d hd) e
    rw [← hds, List.forall₂_map_right_iff]
    refine List.forall₂_iff_zip.2 ⟨h.length_eq, fun {r d} hrd => ?_⟩
    obtain ⟨s1, s2⟩ := (List.forall₂_iff_zip.1 h).2 hrd
    refine ⟨s1.ok, ?_, s1.sml, s1.deg⟩
    have hd0 : sub1 x a d.2 = 0 := hz _ (List.mem_map.2 ⟨d, (List.of_mem_zip hrd).2, rfl⟩)
    obtain ⟨q, hq⟩ := (lin_dvd_iff x a d.2).2 hd0
    exact ⟨q, by rw [s2, hq, pow_succ, mul_assoc]⟩
  have hall : ∀ {k : ℕ} {res : List (PV Mono R)}, n < k → List.Forall₂ (St vc x1 (insert x (insert x1 (keys aux))) x a n k) res us → List.Forall₂ (fun r u => OKIn vc (insert x (insert x1 (keys aux))) r ∧ val r = u.1) res us :=
    fun hk h => List.forall₂_iff_zip.2 ⟨h.length_eq, fun {r u} hru => by
      have := (List.forall₂_iff_zip.1 h).2 hru
      exact ⟨this.ok, this.done (hU u (List.of_mem_zip hru).2).2.2 hk⟩⟩
  -- the equation holds: all further orders agree
  have hdesc : ∀ (m k : ℕ) {res : List (PV Mono R)}, comb (us.map Prod.fst) (F.map val) = comb (res.map val) (F.map val) → List.Forall₂ (St vc x1 (insert x (insert x1 (keys aux))) x a n k) res us →
      List.Forall₂ (St vc x1 (insert x (insert x1 (keys aux))) x a n (k + m)) res us := by
    intro m
    induction m with
    | zero => intro k res _ h; exact h
    | succ m ih =>
      intro k res e h
      obtain ⟨ds, hds, hd⟩ := choose_quot h
      have hQ := comb_quot hd (F.map val)
      have e1 : (ds.map fun d => d.1.1) = us.map Prod.fst := by rw [← hds, List.map_map]; rfl
      rw [e1, e, sub_self] at hQ
      have h1 := (mul_eq_zero.1 hQ.symm).resolve_left (pow_ne_zero _ (lin_ne x a))
      have h2 := congrArg (sub1 x a) h1
      rw [map_zero, comb_map, List.map_map] at h2
      have := ih (k + 1) e (hz hds hd h2)
      rwa [show k + (m + 1) = k + 1 + m by ring]
  intro m
  induction m with
  | zero =>
    intro k xp e res hk hkm _ _ _ _ _ hr
    exact Post.ret ⟨fun _ => by simp, fun s es => by cases es; exact hall (by omega) hr⟩
  | succ m ih =>
    intro k xp e res hk hkm hkm' hxp hxv he hev hr
    unfold taylorLoop
    obtain ⟨l1, l2⟩ := linear_spec ho x a
    have hpow : (X x - C a : MvPolynomial Var R) ^ (k - 1) * (X x - C a) = (X x - C a) ^ k := by rw [← pow_succ]; congr 1; omega
    refine (mulN_in ho hxp l1).bind fun xp' hxp' => ?_
    have hxv' : val xp' = (X x - C a) ^ k := by rw [hxp'.2, hxv, l2, hpow]
    obtain ⟨ds, hds, hd⟩ := choose_quot hr
    have hQ := comb_quot hd (F.map val)
    have e1 : (ds.map fun d => d.1.1) = us.map Prod.fst := by rw [← hds, List.map_map]; rfl
    rw [e1, ← hcv, ← hev] at hQ
    obtain ⟨q2, q3⟩ := hq hds hd
    refine (taylorCoeff_exact ho (Finset.mem_insert_self x _) a k he hQ).bind fun ck hck => ?_
    rw [Finset.erase_insert hxW] at hck
    have hckv : val ck = comb (ds.map fun d => sub1 x a d.2) ((F.map val).map (sub1 x a)) := by
      rw [hck.2, comb_map, List.map_map]; rfl
    refine Post.ite (fun h => ?_) fun _ => ?_
    · exact ih (k + 1) (by omega) (by omega) (by omega) hxp'.1 (by rw [hxv']; rfl) he hev (hz hds hd (by rw [← hckv, h, val_nil]))
    · have q4 : ∀ s ∈ ds.map (fun d => sub1 x a d.2), s.vars ⊆ insert x1 (keys aux) := fun s hs => by
        obtain ⟨d, hd, rfl⟩ := List.mem_map.1 hs
        exact q3 d hd
      rw [← hFv] at hckv
      refine (hs Fb ck _ hFb hck.1 q2 q4 hckv).bind fun o hσ => ?_
      match o, hσ with
      | none, hσ => exact Post.ret ⟨fun h => absurd rfl (hσ.1 h), fun s e => by cases e⟩
      | some σ, hσ =>
        have hσ := hσ.2 σ rfl
        rw [List.forall₂_map_right_iff] at hσ
        have hB : List.Forall₂ (fun s d => (OKIn vc (insert x (insert x1 (keys aux))) s ∧ val s = sub1 x a d.2) ∧ Sml x1 (sub1 x a d.2) d.1.2) σ ds := by
          refine List.forall₂_iff_zip.2 ⟨hσ.length_eq, fun {s d} hsd => ?_⟩
          obtain ⟨t1, t2⟩ := (List.forall₂_iff_zip.1 hσ).2 hsd
          have hdm := (List.of_mem_zip hsd).2
          refine ⟨⟨⟨t1, by rw [t2]; exact (q3 d hdm).trans (Finset.subset_insert _ _)⟩, t2⟩, ?_⟩
          rw [← hus, ← hds, List.map_map, List.forall₂_map_left_iff, List.forall₂_map_right_iff] at q2
          exact List.forall₂_same.1 q2 d hdm
        have hx1xp : (val xp').degreeOf x1 = 0 := by
          rw [hxv']
          exact Nat.le_zero.1 ((degreeOf_pow_le _ _ _).trans (by rw [lin_degreeOf_ne hx.symm, mul_zero]))
        refine (addCorr_spec' ho (A := fun r d => St vc x1 (insert x (insert x1 (keys aux))) x a n k r d.1 ∧ d.1.1 - val r = (X x - C a) ^ k * d.2)
          (A' := fun r d => d ∈ ds → St vc x1 (insert x (insert x1 (keys aux))) x a n (k + 1) r d.1)
          (B := fun s d => (OKIn vc (insert x (insert x1 (keys aux))) s ∧ val s = sub1 x a d.2) ∧ Sml x1 (sub1 x a d.2) d.1.2) (hxp'.1.mono (by simp)) (fun r u h => h.1.ok) (fun d u h => h.1.1)
          (fun r s d r' hA hB h3 h4 hdm => ?_) hd hB).bind fun F' hF' => ?_
        · have hsub : d.1.1 - val r' = (X x - C a) ^ k * (d.2 - sub1 x a d.2) := by rw [h4, hB.1.2, hxv']; linear_combination hA.2
          refine ⟨h3, ?_, ?_, ?_⟩
          · obtain ⟨q, hq⟩ := lin_dvd_sub x a d.2
            exact ⟨q, by rw [hsub, hq, pow_succ, mul_assoc]⟩
          · have : d.1.1 - val r' = (d.1.1 - val r) - val s * val xp' := by rw [h4]; ring
            rw [Sml, this]
            refine (degreeOf_sub_le _ _ _).trans_lt (max_lt hA.1.sml ((degreeOf_mul_le _ _ _).trans_lt ?_))
            rw [hx1xp, add_zero, hB.1.2]
            exact hB.2
          · rw [h4]
            refine (degreeOf_add_le _ _ _).trans (max_le hA.1.deg ((degreeOf_mul_le _ _ _).trans ?_))
            have h5 : (val s).degreeOf x = 0 := degreeOf_zero_iff.2 fun hxs => by
              rw [hB.1.2] at hxs
              exact hxW (q3 d hdm hxs)
            rw [h5, zero_add, hxv']
            exact (degreeOf_pow_le _ _ _).trans (by rw [lin_degreeOf_self, mul_one]; omega)
        · have hres' : List.Forall₂ (St vc x1 (insert x (insert x1 (keys aux))) x a n (k + 1)) F' us := by
            rw [← hds, List.forall₂_map_right_iff]
            exact List.forall₂_iff_zip.2 ⟨hF'.length_eq, fun {r d} hrd => (List.forall₂_iff_zip.1 hF').2 hrd (List.of_mem_zip hrd).2⟩
          have hl : F'.length = F.length := by rw [hres'.length_eq, hlen]
          have hok : ∀ r ∈ F', OKIn vc (insert x (insert x1 (keys aux))) r := fun r hr => by
            obtain ⟨u, _, h⟩ := forall₂_mem_left hres' hr
            exact h.ok
          have hbl : bs.length = F.length := by rw [← hbs.length_eq, List.length_range]
          refine (errorOf_comb ho hF hcI hok hl hbs).bind fun e' he' => Post.ite (fun h => ?_) fun _ => ?_
          · refine Post.ret ⟨fun _ => by simp, fun s es => ?_⟩
            cases es
            rw [h, val_nil] at he'
            exact hall (k := k + 1 + n) (by omega) (hdesc n (k + 1) (by rw [← hcv]; exact sub_eq_zero.1 he'.2.symm) hres')
          · exact ih (k + 1) (by omega) (by omega) (by omega) hxp'.1 (by rw [hxv']; rfl) he'.1 he'.2 hres'

include ho hn hα hx hxk ha h0 hc h2 in
/-- one level of the dense solver -/
theorem solveTaylor_exact {nn : Prop} {fuel : ℕ} {solve : List (PV Mono R) → PV Mono R → Run (Option (List (PV Mono R)))} (hs : SolveEx nn vc x1 α vs (insert x1 (keys aux)) solve) {nb : PV Mono R → PV Mono R}
    (hnb : ∀ p, PolyOK vc (lexGt vc) p → nb p = p) {F : List (PV Mono R)} {c : PV Mono R} {S : List (MvPolynomial Var R)} (hF : List.Forall₂ (Img vc x1 α (insert x (insert x1 (keys aux)))) F vs)
    (hcI : OKIn vc (insert x (insert x1 (keys aux))) c) (hS : List.Forall₂ (Sml x1) S vs) (hSv : ∀ s ∈ S, s.vars ⊆ insert x (insert x1 (keys aux))) (e : val c = comb S (F.map val)) (hdeg : ∀ s ∈ S, s.degreeOf x ≤ (val c).degreeOf x) :
    Post (solveTaylor true vc fuel solve nb x a F c) fun o => (nn → o ≠ none) ∧ ∀ s, o = some s → List.Forall₂ (fun r P => PolyOK vc (lexGt vc) r ∧ val r = P) s S := by
  have hxW : x ∉ insert x1 (keys aux) := by rw [Finset.mem_insert]; rintro (h | h); exacts [hx h, hxk h]
  have hF' : ∀ f ∈ F, OKIn vc (insert x (insert x1 (keys aux))) f := fun f hf => by
    obtain ⟨v, _, h⟩ := forall₂_mem_left hF hf
    exact h.1.1
  have hFl : F.length = vs.length := hF.length_eq
  have hFb : Post (runMap (asg true vc x a) F) fun r => List.Forall₂ (Img vc x1 α (insert x1 (keys aux))) r vs ∧ r.map val = (F.map val).map (sub1 x a) := by
    refine Post.and ((imgs_asg ho hx ha hF).mono fun r hr => by rwa [Finset.erase_insert hxW] at hr) ((runMap_post fun f hf => asg_in ho (hF' f hf)).mono fun r hr => ?_)
    clear e hF hF' hFl
    induction hr with
    | nil => rfl
    | cons h _ ih => simp only [List.map_cons]; rw [h.2, ih]
  unfold solveTaylor
  refine hFb.bind fun Fb0 hFb0 => (asg_in ho hcI).bind fun cb hcb => ?_
  rw [Finset.erase_insert hxW] at hcb
  have hmap : Fb0.map nb = Fb0 := by
    conv_rhs => rw [← List.map_id Fb0]
    exact List.map_congr_left fun p hp => hnb p (sols_mem (imgs_sols hFb0.1) p hp).1
  dsimp only
  rw [hmap, hnb cb hcb.1.1]
  have hS0 : List.Forall₂ (Sml x1) (S.map (sub1 x a)) vs := by
    rw [List.forall₂_map_left_iff]
    exact hS.imp fun s v h => h.sub1 x a
  refine (hs Fb0 cb (S.map (sub1 x a)) hFb0.1 hcb.1 hS0 (fun s hs => ?_) (by rw [hcb.2, e, comb_map, hFb0.2])).bind fun o hσ => ?_
  · obtain ⟨t, ht, rfl⟩ := List.mem_map.1 hs
    exact sub1_vars_aux (hSv t ht)
  match o, hσ with
  | none, hσ => exact Post.ret ⟨fun h => absurd rfl (hσ.1 h), fun s e => by cases e⟩
  | some r0, hσ =>
    have hσ := hσ.2 r0 rfl
    rw [List.forall₂_map_right_iff] at hσ
    obtain ⟨us, hu⟩ : ∃ us, us = List.zip S vs := ⟨_, rfl⟩
    have hlS : S.length = vs.length := hS.length_eq
    have u1 : us.map Prod.fst = S := by rw [hu, List.map_fst_zip hlS.le]
    have u2 : us.map Prod.snd = vs := by rw [hu, List.map_snd_zip hlS.ge]
    have hdx := degX_ge ho hcI x
    have hU : ∀ u ∈ us, Sml x1 u.1 u.2 ∧ u.1.vars ⊆ insert x (insert x1 (keys aux)) ∧ u.1.degreeOf x ≤ degX c x := fun u hu' => by
      rw [hu] at hu'
      have hm := (List.of_mem_zip (a := u.1) (b := u.2) hu').1
      exact ⟨(List.forall₂_iff_zip.1 hS).2 hu', hSv _ hm, (hdeg _ hm).trans hdx⟩
    rw [← u1, List.forall₂_map_right_iff] at hσ
    have hr0 : List.Forall₂ (St vc x1 (insert x (insert x1 (keys aux))) x a (degX c x) 1) r0 us := by
      refine List.forall₂_iff_zip.2 ⟨hσ.length_eq, fun {r u} hru => ?_⟩
      obtain ⟨t1, t2⟩ := (List.forall₂_iff_zip.1 hσ).2 hru
      obtain ⟨a1, a2, a3⟩ := hU u (List.of_mem_zip hru).2
      have hv : (val r).vars ⊆ insert x1 (keys aux) := by rw [t2]; exact sub1_vars_aux a2
      refine ⟨⟨t1, hv.trans (Finset.subset_insert _ _)⟩, ?_, ?_, ?_⟩
      · rw [pow_one, t2]; exact lin_dvd_sub x a _
      · rw [Sml, t2]
        exact (degreeOf_sub_le _ _ _).trans_lt (max_lt a1 ((sub1_degreeOf _ _ _ _).trans_lt a1))
      · rw [degreeOf_zero_iff.2 fun h => hxW (hv h)]; exact Nat.zero_le _
    have hok : ∀ r ∈ r0, OKIn vc (insert x (insert x1 (keys aux))) r := fun r hr => by
      obtain ⟨u, _, h⟩ := forall₂_mem_left hr0 hr
      exact h.ok
    have hlu : us.length = F.length := by rw [hFl, ← u2, List.length_map]
    have hl : r0.length = F.length := by rw [hr0.length_eq, hlu]
    have hfin : ∀ s, List.Forall₂ (fun r u => OKIn vc (insert x (insert x1 (keys aux))) r ∧ val r = u.1) s us → List.Forall₂ (fun r P => PolyOK vc (lexGt vc) r ∧ val r = P) s S := fun s h => by
      rw [← u1, List.forall₂_map_right_iff]
      exact h.imp fun _ _ h => ⟨h.1.1, h.2⟩
    have hcv : val c = comb (us.map Prod.fst) (F.map val) := by rw [u1]; exact e
    refine (cofactors_val ho hF' (by omega)).bind fun bs hbs => (errorOf_comb ho hF' hcI hok hl hbs).bind fun e1 he1 => Post.ite (fun h => ?_) fun _ => ?_
    · refine Post.ret ⟨fun _ => by simp, fun s es => ?_⟩
      cases es
      rw [h, val_nil] at he1
      -- the equation holds: the answer is the solution, which is unique
      have hcomb : comb (r0.map val) (F.map val) = comb S (F.map val) := by rw [← e]; exact (sub_eq_zero.1 he1.2.symm).symm
      have hnd : ((aux ++ [(x, a)]).map Prod.fst).Nodup := by
        rw [List.map_append, List.nodup_append]
        refine ⟨hn, by simp, fun y hy z hz => ?_⟩
        simp only [List.map_cons, List.map_nil, List.mem_singleton] at hz
        rintro rfl
        exact hxk (by rw [keys, List.mem_toFinset, ← hz]; exact hy)
      have hkeys : insert x1 (keys (aux ++ [(x, a)])) = insert x (insert x1 (keys aux)) := by
        ext w; simp [keys]; tauto
      have hIm : List.Forall₂ (Im x1 α) (F.map val) vs := by
        rw [List.forall₂_map_left_iff]
        exact hF.imp fun f v h => ⟨h.1.2, h.2⟩
      have hr0s : List.Forall₂ (Sml x1) (r0.map val) vs := by
        rw [List.forall₂_map_left_iff, ← u2, List.forall₂_map_right_iff]
        refine List.forall₂_iff_zip.2 ⟨hσ.length_eq, fun {r u} hru => ?_⟩
        obtain ⟨t1, t2⟩ := (List.forall₂_iff_zip.1 hσ).2 hru
        rw [Sml, t2]
        exact (sub1_degreeOf _ _ _ _).trans_lt (hU u (List.of_mem_zip hru).2).1
      have key := comb_inj (x1 := x1) (α := α) hc h0 (ys := aux ++ [(x, a)]) hnd (fun y hy => by
        rcases List.mem_append.1 hy with h | h
        · exact hα y h
        · rw [List.mem_singleton] at h; subst h; exact ⟨hx, ha⟩) hIm hr0s hS (fun s hs => by
          rw [hkeys]
          obtain ⟨r, hr, rfl⟩ := List.mem_map.1 hs
          exact (hok r hr).2) (fun s hs => by rw [hkeys]; exact hSv s hs) hcomb
      rw [← key, List.forall₂_map_right_iff, List.forall₂_same]
      exact fun r hr => ⟨(hok r hr).1, rfl⟩
    · refine (taylorLoop_exact ho hn hα hx hxk ha h0 hc hs hF' (by omega) hFb0.1 hFb0.2 hcI u2 hlu (degX c x) hU hcv hbs (degX c x) 1 (by omega) (by omega) (by omega) one_okin ?_ he1.1 he1.2 hr0).mono
        fun o h => ⟨h.1, fun s es => hfin s (h.2 s es)⟩
      simp [val_cons, val_nil, expo_one]

end
end Mtshl
end CLPoly
