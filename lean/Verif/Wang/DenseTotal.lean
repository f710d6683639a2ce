import Verif.Wang.DenseExact
import Verif.Wang.LiftTotal

/-! # The dense solver in two variables ends, and makes none of the excluded events -/

namespace CLPoly
namespace Mtshl
open Mono Mgcd Run Upoly Factor Lift Wang Charset MvPolynomial

section
variable {R : Type} [DecidableEq R] [Field R] {vc : Var → Var → Bool} (ho : VarOrd vc)

include ho in
theorem errorOf_wp {W : Finset Var} (hW2 : W.card ≤ 2) {M K : ℕ} (hMK : M + K < 2 ^ 32) : ∀ (rs bs : List (PV Mono R)) {e : PV Mono R}, OKIn vc W e → (∀ r ∈ rs, OKIn vc W r ∧ ∀ w, (val r).degreeOf w ≤ M) →
    (∀ b ∈ bs, OKIn vc W b ∧ ∀ w, (val b).degreeOf w ≤ K) → Wp (fun _ => errorOf true vc e rs bs) fun _ => True
  | [], _, _, _, _, _ => by unfold errorOf; exact Wp.ret trivial
  | _ :: _, [], _, _, _, _ => by unfold errorOf; exact Wp.ret trivial
  | r :: rs, b :: bs, e, he, hr, hb => by
    unfold errorOf
    have hr' := fun s hs => hr s (List.mem_cons_of_mem _ hs)
    have hb' := fun s hs => hb s (List.mem_cons_of_mem _ hs)
    refine Wp.ite (fun _ => errorOf_wp hW2 hMK rs bs he hr' hb') fun _ => Wp.bind (mulN_wp ho (cap_two hW2) (hr r (by simp)).1 (hb b (by simp)).1 fun w => ?_) fun t ht => errorOf_wp hW2 hMK rs bs (sub_in ho he ht.1).1 hr' hb'
    have h1 := (hr r (by simp)).2 w
    have h2 := (hb b (by simp)).2 w
    omega

include ho in
theorem cofactors_wp {W : Finset Var} (hW2 : W.card ≤ 2) {M : ℕ} {F : List (PV Mono R)} (hF : ∀ f ∈ F, OKIn vc W f ∧ ∀ w, (val f).degreeOf w ≤ M) (hb : F.length * M < 2 ^ 32) : Wp (fun _ => cofactors true vc F) fun _ => True := by
  unfold cofactors
  refine (Wp.runMap (f := fun _ i => prodAll true vc (F.eraseIdx i)) (P := fun _ _ => True) fun i _ => (prodAll_wp ho (cap_two hW2) (M := M) (fun f hf => hF f (List.mem_of_mem_eraseIdx hf)) ?_).mono fun _ _ => trivial).mono fun _ _ => trivial
  exact lt_of_le_of_lt (Nat.mul_le_mul_right _ (List.length_eraseIdx_le _ _)) hb

include ho in
theorem degX_le {W : Finset Var} {c : PV Mono R} (hc : OKIn vc W c) {x : Var} {M : ℕ} (h : (val c).degreeOf x ≤ M) : degX c x ≤ M := by
  have key : ∀ (l : PV Mono R) (d : ℕ), d ≤ M → (∀ t ∈ l, (expOf t.1.data x).toNat ≤ M) → l.foldl (fun d t => max d (expOf t.1.data x).toNat) d ≤ M := by
    intro l
    induction l with
    | nil => exact fun d hd _ => hd
    | cons t l ih => exact fun d hd hl => ih _ (max_le hd (hl t List.mem_cons_self)) fun s hs => hl s (List.mem_cons_of_mem _ hs)
  refine key c 0 (Nat.zero_le _) fun t ht => ?_
  rw [expOf_eq ho (hc.1.monos t ht), ← Mono.expo_toNat (hc.1.monos t ht).pos]
  exact (monomial_le_degreeOf x ((hc.1.mem_support (lex_ord ho)).2 ⟨t, ht, rfl⟩)).trans h

variable {x1 x : Var} {α : Var → R} {a : R} {vs : List (Polynomial R)}
  (hx : x ≠ x1) (hv : vc x1 x = true) (ha : a = α x) (h2 : 2 ≤ vs.length) (h0 : ∀ v ∈ vs, v ≠ 0) (hc : Lift.Cop vs)
  {M : ℕ} (hvM : ∀ v ∈ vs, v.natDegree ≤ M) (hb : vs.length * M < 2 ^ 32)

/-- the cofactors have small degrees -/
theorem cof_degs {W : Finset Var} {F bs : List (PV Mono R)} (hF : ∀ f ∈ F, OKIn vc W f ∧ ∀ w, (val f).degreeOf w ≤ M) (h2 : 2 ≤ F.length) (hbs : List.Forall₂ (fun i b => OKIn vc W b ∧ val b = ((F.map val).eraseIdx i).prod) (List.range F.length) bs) :
    ∀ b ∈ bs, OKIn vc W b ∧ ∀ w, (val b).degreeOf w ≤ (F.length - 1) * M := fun b hb => by
  obtain ⟨i, hi, h1, h2'⟩ := forall₂_mem_right hbs hb
  refine ⟨h1, fun w => ?_⟩
  rw [h2']
  refine (degreeOf_prod_le (M := M) fun f hf => ?_).trans (le_of_eq ?_)
  · obtain ⟨g, hg, rfl⟩ := List.mem_map.1 (List.mem_of_mem_eraseIdx hf)
    exact (hF g hg).2 w
  · rw [List.length_eraseIdx_of_lt (by rw [List.length_map]; exact List.mem_range.1 hi), List.length_map]

theorem comb_degs {K N : ℕ} {w : Var} : ∀ {s F : List (MvPolynomial Var R)}, s.length = F.length → (∀ p ∈ s, p.degreeOf w ≤ N) → (∀ p ∈ F, p.degreeOf w ≤ N) → F.length * N ≤ K → (comb s F).degreeOf w ≤ K
  | [], [], _, _, _, _ => by simp [comb]
  | [], _ :: _, h, _, _, _ => by simp at h
  | _ :: _, [], h, _, _, _ => by simp at h
  | p :: s, f :: F, h, hs, hF, hK => by
    rw [comb]
    rw [List.length_cons, Nat.succ_mul] at hK
    have hF' := fun p hp => hF p (List.mem_cons_of_mem _ hp)
    have i1 : F.prod.degreeOf w ≤ F.length * N := degreeOf_prod_le hF'
    have i2 := comb_degs (K := F.length * N) (by simpa using h) (fun p hp => hs p (List.mem_cons_of_mem _ hp)) hF' le_rfl
    have i3 := hs p (by simp)
    have i4 := hF f (by simp)
    refine (degreeOf_add_le _ _ _).trans (max_le ((degreeOf_mul_le _ _ _).trans ?_) ((degreeOf_mul_le _ _ _).trans ?_)) <;> omega

include ho hx hv ha h0 hc h2 hvM hb in
/-- the loop over the Taylor coefficients ends -/
theorem taylorLoop_wp {F Fb : List (PV Mono R)} (hF : ∀ f ∈ F, OKIn vc (two R x x1) f ∧ ∀ w, (val f).degreeOf w ≤ M) (hF2 : 2 ≤ F.length) (hFb : List.Forall₂ (Img vc x1 α (insert x1 (keys ([] : List (Var × R))))) Fb vs) (hFv : Fb.map val = (F.map val).map (sub1 x a))
    {c : PV Mono R} (hcI : OKIn vc (two R x x1) c) {us : List (MvPolynomial Var R × Polynomial R)} (hus : us.map Prod.snd = vs) (hlen : us.length = F.length) (n : ℕ) (hnM : n ≤ M)
    (hU : ∀ u ∈ us, Sml x1 u.1 u.2 ∧ u.1.vars ⊆ two R x x1 ∧ u.1.degreeOf x ≤ n) (hcv : val c = comb (us.map Prod.fst) (F.map val))
    {bs : List (PV Mono R)} (hbs : List.Forall₂ (fun i b => OKIn vc (two R x x1) b ∧ val b = ((F.map val).eraseIdx i).prod) (List.range F.length) bs) :
    ∀ (m k : ℕ) {xp e : PV Mono R} {res : List (PV Mono R)}, 0 < k → k + m ≤ n + 1 → OKIn vc {x} xp → val xp = (X x - C a) ^ (k - 1) → OKIn vc (two R x x1) e →
      val e = val c - comb (res.map val) (F.map val) → List.Forall₂ (St vc x1 (two R x x1) x a n k) res us →
      Wp (fun fuel => taylorLoop true vc fuel (mdpBase x1) Fb c bs x a m k xp e res) fun _ => True := by
  classical
  have hxW : x ∉ insert x1 (keys ([] : List (Var × R))) := by simpa [keys] using hx
  have hIm : List.Forall₂ (Im x1 α) ((F.map val).map (sub1 x a)) vs := by
    rw [← hFv, List.forall₂_map_left_iff]
    exact hFb.imp fun f v h => ⟨h.1.2, h.2⟩
  have hv0 : ∀ u ∈ us, 0 < u.2.natDegree := fun u hu => Nat.lt_of_le_of_lt (Nat.zero_le _) (hU u hu).1
  -- the quotients
  have hq : ∀ {k : ℕ} {res : List (PV Mono R)} {ds : List ((MvPolynomial Var R × Polynomial R) × MvPolynomial Var R)}, ds.map Prod.fst = us →
      List.Forall₂ (fun r d => St vc x1 (two R x x1) x a n k r d.1 ∧ d.1.1 - val r = (X x - C a) ^ k * d.2) res ds →
      List.Forall₂ (Sml x1) (ds.map fun d => sub1 x a d.2) vs ∧ ∀ d ∈ ds, (sub1 x a d.2).vars ⊆ insert x1 (keys ([] : List (Var × R))) := by
    intro k res ds hds h
    have hm : ∀ d ∈ ds, Sml x1 d.2 d.1.2 ∧ d.2.vars ⊆ two R x x1 := fun d hd => by
      obtain ⟨r, _, k1, k2⟩ := forall₂_mem_right h hd
      have hu := hU d.1 (hds ▸ List.mem_map_of_mem hd)
      by_cases hz : d.2 = 0
      · rw [hz]
        exact ⟨by rw [Sml, degreeOf_zero]; exact hv0 d.1 (hds ▸ List.mem_map_of_mem hd), by rw [vars_0]; exact Finset.empty_subset _⟩
      have hne : d.1.1 - val r ≠ 0 := by rw [k2]; exact mul_ne_zero (pow_ne_zero _ (lin_ne x a)) hz
      have hdv : d.2 ∣ d.1.1 - val r := ⟨_, by rw [k2, mul_comm]⟩
      exact ⟨(degreeOf_le_of_dvd hdv hne).trans_lt k1.sml, (vars_of_dvd hdv hne).trans ((vars_sub_subset _).trans (Finset.union_subset hu.2.1 k1.ok.2))⟩
    refine ⟨?_, fun d hd => sub1_vars_aux (hm d hd).2⟩
    rw [← hus, ← hds, List.map_map, List.forall₂_map_left_iff]
    exact forall₂_of_map _ fun d hd => (hm d hd).1.sub1 _ _
  -- nothing is left to be corrected
  have hz : ∀ {k : ℕ} {res : List (PV Mono R)} {ds : List ((MvPolynomial Var R × Polynomial R) × MvPolynomial Var R)}, ds.map Prod.fst = us →
      List.Forall₂ (fun r d => St vc x1 (two R x x1) x a n k r d.1 ∧ d.1.1 - val r = (X x - C a) ^ k * d.2) res ds →
      comb (ds.map fun d => sub1 x a d.2) ((F.map val).map (sub1 x a)) = 0 → List.Forall₂ (St vc x1 (two R x x1) x a n (k + 1)) res us := by
    intro k res ds hds h e
    obtain ⟨q2, q3⟩ := hq hds h
    have hz := comb_zero (x1 := x1) (α := α) hc h0 [] (by simp) (by simp) hIm q2 (fun s hs => by obtain ⟨d, hd, rfl⟩ := List.mem_map.1 hs; exact q3 d hd) e
    rw [← hds, List.forall₂_map_right_iff]
    refine List.forall₂_iff_zip.2 ⟨h.length_eq, fun {r d} hrd => ?_⟩
    obtain ⟨s1, s2⟩ := (List.forall₂_iff_zip.1 h).2 hrd
    refine ⟨s1.ok, ?_, s1.sml, s1.deg⟩
    have hd0 : sub1 x a d.2 = 0 := hz _ (List.mem_map.2 ⟨d, (List.of_mem_zip hrd).2, rfl⟩)
    obtain ⟨q, hq⟩ := (lin_dvd_iff x a d.2).2 hd0
    exact ⟨q, by rw [s2, hq, pow_succ, mul_assoc]⟩
  have hW2 := two_card (R := R) x x1
  have ord := two_order (R := R) hv
  have hF'' : ∀ f ∈ F, OKIn vc (two R x x1) f := fun f hf => (hF f hf).1
  have hlv : vs.length = F.length := by rw [← hus, List.length_map, hlen]
  have hb' : F.length * M < 2 ^ 32 := hlv ▸ hb
  have hM2 : M + M < 2 ^ 32 := by
    have : 2 * M ≤ F.length * M := Nat.mul_le_mul_right _ hF2
    omega
  have hMK : M + (F.length - 1) * M < 2 ^ 32 := by
    have h1 : F.length * M = M + (F.length - 1) * M := by
      obtain ⟨l, hl⟩ : ∃ l, F.length = l + 1 := ⟨F.length - 1, by omega⟩
      rw [hl, Nat.add_sub_cancel]; ring
    omega
  have huM : ∀ u ∈ us, u.2.natDegree ≤ M := fun u hu => hvM _ (hus ▸ List.mem_map_of_mem hu)
  have hdU : ∀ p ∈ us.map Prod.fst, ∀ w, p.degreeOf w ≤ M := fun p hp w => by
    obtain ⟨u, hu, rfl⟩ := List.mem_map.1 hp
    obtain ⟨u1, u2, u3⟩ := hU u hu
    exact degs_two u2 (u3.trans hnM) (u1.le.trans (huM u hu)) w
  have hdR : ∀ {k : ℕ} {res : List (PV Mono R)}, List.Forall₂ (St vc x1 (two R x x1) x a n k) res us → ∀ r ∈ res, OKIn vc (two R x x1) r ∧ ∀ w, (val r).degreeOf w ≤ M := fun {k res} h r hr => by
    obtain ⟨u, hu, hs⟩ := forall₂_mem_left h hr
    obtain ⟨u1, u2, u3⟩ := hU u hu
    refine ⟨hs.ok, degs_two hs.ok.2 (hs.deg.trans hnM) ?_⟩
    have e1 : val r = u.1 - (u.1 - val r) := by ring
    rw [e1]
    exact ((degreeOf_sub_le _ _ _).trans (max_le u1.le (le_of_lt hs.sml))).trans (huM u hu)
  have hdE : ∀ {k : ℕ} {res : List (PV Mono R)}, List.Forall₂ (St vc x1 (two R x x1) x a n k) res us → ∀ w, (val c - comb (res.map val) (F.map val)).degreeOf w < 2 ^ 32 := fun {k res} h w => by
    have hFd : ∀ p ∈ F.map val, p.degreeOf w ≤ M := fun p hp => by obtain ⟨f, hf, rfl⟩ := List.mem_map.1 hp; exact (hF f hf).2 w
    refine lt_of_le_of_lt ((degreeOf_sub_le _ _ _).trans (max_le ?_ ?_)) hb'
    · rw [hcv]
      exact comb_degs (N := M) (by rw [List.length_map, List.length_map, hlen]) (fun p hp => hdU p hp w) hFd (by rw [List.length_map])
    · exact comb_degs (N := M) (by rw [List.length_map, List.length_map, h.length_eq, hlen]) (fun p hp => by obtain ⟨r, hr, rfl⟩ := List.mem_map.1 hp; exact (hdR h r hr).2 w) hFd (by rw [List.length_map])
  intro m
  induction m with
  | zero => intro k xp e res _ _ _ _ _ _ _; exact Wp.ret trivial
  | succ m ih =>
    intro k xp e res hk hkm hxp hxv he hev hr
    unfold taylorLoop
    obtain ⟨l1, l2⟩ := linear_spec ho x a
    have hpow : (X x - C a : MvPolynomial Var R) ^ (k - 1) * (X x - C a) = (X x - C a) ^ k := by rw [← pow_succ]; congr 1; omega
    have lin_deg : ∀ (i : ℕ) (w : Var), ((X x - C a : MvPolynomial Var R) ^ i).degreeOf w ≤ i := fun i w => by
      refine (degreeOf_pow_le _ _ _).trans ?_
      by_cases h : w = x
      · rw [h, lin_degreeOf_self, mul_one]
      · rw [lin_degreeOf_ne h, mul_zero]; exact Nat.zero_le _
    refine Wp.bind (mulN_wp ho (W := {x}) (cap_two (by simp)) hxp l1 fun w => ?_) fun xp' hxp' => ?_
    · have h1 := lin_deg (k - 1) w
      have h2 := lin_deg 1 w
      rw [pow_one] at h2
      rw [hxv, l2]
      omega
    have hxv' : val xp' = (X x - C a) ^ k := by rw [hxp'.2, hxv, l2, hpow]
    obtain ⟨ds, hds, hd⟩ := choose_quot hr
    have hQ := comb_quot hd (F.map val)
    have e1 : (ds.map fun d => d.1.1) = us.map Prod.fst := by rw [← hds, List.map_map]; rfl
    rw [e1, ← hcv, ← hev] at hQ
    obtain ⟨q2, q3⟩ := hq hds hd
    refine Wp.bind (taylorCoeff_wp ho hW2 (Finset.mem_insert_self x _) ord a k he (by rw [hev]; exact hdE hr) hQ) fun ck hck => ?_
    rw [Finset.erase_insert hxW] at hck
    have hckv : val ck = comb (ds.map fun d => sub1 x a d.2) ((F.map val).map (sub1 x a)) := by
      rw [hck.2, comb_map, List.map_map]; rfl
    refine Wp.ite (fun h => ?_) fun _ => ?_
    · exact ih (k + 1) (by omega) (by omega) hxp'.1 (by rw [hxv']; rfl) he hev (hz hds hd (by rw [← hckv, h, val_nil]))
    · have q4 : ∀ s ∈ ds.map (fun d => sub1 x a d.2), s.vars ⊆ insert x1 (keys ([] : List (Var × R))) := fun s hs => by
        obtain ⟨d, hd, rfl⟩ := List.mem_map.1 hs
        exact q3 d hd
      rw [← hFv] at hckv
      have hsolve := Wp.and_post (mdpBase_wp (α := α) ho h2 h0 hc hFb hck.1) fun _ => mdpBase_ex ho h2 h0 hc Fb ck _ hFb hck.1 q2 q4 hckv
      refine Wp.bind (m := fun _ => mdpBase x1 Fb ck) hsolve fun o hσ => ?_
      match o, hσ with
      | none, hσ => exact absurd rfl hσ.1
      | some σ, hσ =>
        have hσ := hσ.2.2 σ rfl
        rw [List.forall₂_map_right_iff] at hσ
        have hB : List.Forall₂ (fun s d => (OKIn vc (two R x x1) s ∧ val s = sub1 x a d.2) ∧ Sml x1 (sub1 x a d.2) d.1.2) σ ds := by
          refine List.forall₂_iff_zip.2 ⟨hσ.length_eq, fun {s d} hsd => ?_⟩
          obtain ⟨t1, t2⟩ := (List.forall₂_iff_zip.1 hσ).2 hsd
          have hdm := (List.of_mem_zip hsd).2
          refine ⟨⟨⟨t1, by rw [t2]; exact (q3 d hdm).trans (Finset.subset_insert _ _)⟩, t2⟩, ?_⟩
          rw [← hus, ← hds, List.map_map, List.forall₂_map_left_iff, List.forall₂_map_right_iff] at q2
          exact List.forall₂_same.1 q2 d hdm
        have hx1xp : (val xp').degreeOf x1 = 0 := by
          rw [hxv']
          exact Nat.le_zero.1 ((degreeOf_pow_le _ _ _).trans (by rw [lin_degreeOf_ne hx.symm, mul_zero]))
        have hcorr := addCorr_spec' ho (A := fun r d => St vc x1 (two R x x1) x a n k r d.1 ∧ d.1.1 - val r = (X x - C a) ^ k * d.2)
          (A' := fun r d => d ∈ ds → St vc x1 (two R x x1) x a n (k + 1) r d.1)
          (B := fun s d => (OKIn vc (two R x x1) s ∧ val s = sub1 x a d.2) ∧ Sml x1 (sub1 x a d.2) d.1.2) (hxp'.1.mono (by simp)) (fun r u h => h.1.ok) (fun d u h => h.1.1)
          (fun r s d r' hA hB h3 h4 hdm => ?_) hd hB
        · refine Wp.bind (Wp.and_post (addCorr_wp ho hW2 (hxp'.1.mono (by simp)) fun d hd' => ?_) fun _ => hcorr) fun F' hF' => ?_
          · obtain ⟨dd, hdm, hbb⟩ := forall₂_mem_left hB hd'
            refine ⟨hbb.1.1, fun w => ?_⟩
            have hdM : (val d).degreeOf w ≤ M := by
              rw [hbb.1.2]
              refine degs_two (x := x) ((q3 dd hdm).trans (Finset.subset_insert _ _)) ?_ ?_ w
              · rw [degreeOf_zero_iff.2 fun h => hxW (q3 dd hdm h)]; exact Nat.zero_le _
              · exact le_of_lt (lt_of_lt_of_le hbb.2 (huM dd.1 (hds ▸ List.mem_map_of_mem hdm)))
            have := lin_deg k w
            rw [hxv']
            omega
          have hF' := hF'.2
          have hres' : List.Forall₂ (St vc x1 (two R x x1) x a n (k + 1)) F' us := by
            rw [← hds, List.forall₂_map_right_iff]
            exact List.forall₂_iff_zip.2 ⟨hF'.length_eq, fun {r d} hrd => (List.forall₂_iff_zip.1 hF').2 hrd (List.of_mem_zip hrd).2⟩
          have hl : F'.length = F.length := by rw [hres'.length_eq, hlen]
          refine Wp.bind (Wp.and_post (errorOf_wp ho hW2 hMK F' bs hcI (hdR hres') (cof_degs hF hF2 hbs)) fun _ => errorOf_comb ho hF'' hcI (fun r hr => (hdR hres' r hr).1) hl hbs) fun e' he' => ?_
          exact Wp.ite (fun _ => Wp.ret trivial) fun _ => ih (k + 1) (by omega) (by omega) hxp'.1 (by rw [hxv']; rfl) he'.2.1 he'.2.2 hres'
        · have hsub : d.1.1 - val r' = (X x - C a) ^ k * (d.2 - sub1 x a d.2) := by rw [h4, hB.1.2, hxv']; linear_combination hA.2
          refine ⟨h3, ?_, ?_, ?_⟩
          · obtain ⟨q, hq⟩ := lin_dvd_sub x a d.2
            exact ⟨q, by rw [hsub, hq, pow_succ, mul_assoc]⟩
          · have : d.1.1 - val r' = (d.1.1 - val r) - val s * val xp' := by rw [h4]; ring
            rw [Sml, this]
            refine (degreeOf_sub_le _ _ _).trans_lt (max_lt hA.1.sml ((degreeOf_mul_le _ _ _).trans_lt ?_))
            rw [hx1xp, add_zero, hB.1.2]
            exact hB.2
          · rw [h4]
            refine (degreeOf_add_le _ _ _).trans (max_le hA.1.deg ((degreeOf_mul_le _ _ _).trans ?_))
            have h5 : (val s).degreeOf x = 0 := degreeOf_zero_iff.2 fun hxs => by
              rw [hB.1.2] at hxs
              exact hxW (q3 d hdm hxs)
            rw [h5, zero_add, hxv']
            exact (degreeOf_pow_le _ _ _).trans (by rw [lin_degreeOf_self, mul_one]; omega)

include ho hx hv ha h0 hc h2 hvM hb in
/-- one level of the dense solver, two variables: it ends -/
theorem solveTaylor_wp {nb : PV Mono R → PV Mono R} (hnb : ∀ p, PolyOK vc (lexGt vc) p → nb p = p) {F : List (PV Mono R)} {c : PV Mono R} {S : List (MvPolynomial Var R)} (hF : List.Forall₂ (Img vc x1 α (two R x x1)) F vs)
    (hFM : ∀ f ∈ F, ∀ w, (val f).degreeOf w ≤ M) (hcI : OKIn vc (two R x x1) c) (hcM : degX c x ≤ M) (hS : List.Forall₂ (Sml x1) S vs) (hSv : ∀ s ∈ S, s.vars ⊆ two R x x1) (e : val c = comb S (F.map val)) (hdeg : ∀ s ∈ S, s.degreeOf x ≤ (val c).degreeOf x) :
    Wp (fun fuel => solveTaylor true vc fuel (mdpBase x1) nb x a F c) fun _ => True := by
  classical
  have hxW : x ∉ insert x1 (keys ([] : List (Var × R))) := by simpa [keys] using hx
  have hW2 := two_card (R := R) x x1
  have ord := two_order (R := R) hv
  have hF' : ∀ f ∈ F, OKIn vc (two R x x1) f := fun f hf => by
    obtain ⟨v, _, h⟩ := forall₂_mem_left hF hf
    exact h.1.1
  have hF'' : ∀ f ∈ F, OKIn vc (two R x x1) f ∧ ∀ w, (val f).degreeOf w ≤ M := fun f hf => ⟨hF' f hf, hFM f hf⟩
  have hFl : F.length = vs.length := hF.length_eq
  have hFb : Post (runMap (asg true vc x a) F) fun r => List.Forall₂ (Img vc x1 α (insert x1 (keys ([] : List (Var × R))))) r vs ∧ r.map val = (F.map val).map (sub1 x a) := by
    refine Post.and ((imgs_asg ho hx ha hF).mono fun r hr => by rwa [Finset.erase_insert hxW] at hr) ((runMap_post fun f hf => asg_in ho (hF' f hf)).mono fun r hr => ?_)
    clear e hF hF' hF'' hFl hFM
    induction hr with
    | nil => rfl
    | cons h _ ih => simp only [List.map_cons]; rw [h.2, ih]
  unfold solveTaylor
  refine Wp.bind (Wp.and_post (Wp.runMap (f := fun _ => asg true vc x a) (P := fun _ _ => True) fun f hf => (asg_wp ho ord (hF' f hf)).mono fun _ _ => trivial) fun _ => hFb) fun Fb0 hFb0 => Wp.bind (asg_wp ho ord hcI) fun cb hcb => ?_
  have hFb0 := hFb0.2
  rw [Finset.erase_insert hxW] at hcb
  have hmap : Fb0.map nb = Fb0 := by
    conv_rhs => rw [← List.map_id Fb0]
    exact List.map_congr_left fun p hp => hnb p (sols_mem (imgs_sols hFb0.1) p hp).1
  dsimp only
  rw [hmap, hnb cb hcb.1.1]
  have hS0 : List.Forall₂ (Sml x1) (S.map (sub1 x a)) vs := by
    rw [List.forall₂_map_left_iff]
    exact hS.imp fun s v h => h.sub1 x a
  have hso := Wp.and_post (mdpBase_wp (α := α) ho h2 h0 hc hFb0.1 hcb.1) fun _ => mdpBase_ex ho h2 h0 hc Fb0 cb (S.map (sub1 x a)) hFb0.1 hcb.1 hS0 (fun s hs => by
    obtain ⟨t, ht, rfl⟩ := List.mem_map.1 hs
    exact sub1_vars_aux (hSv t ht)) (by rw [hcb.2, e, comb_map, hFb0.2])
  refine Wp.bind (m := fun _ => mdpBase x1 Fb0 cb) hso fun o hσ => ?_
  match o, hσ with
  | none, hσ => exact absurd rfl hσ.1
  | some r0, hσ =>
    have hσ := hσ.2.2 r0 rfl
    rw [List.forall₂_map_right_iff] at hσ
    obtain ⟨us, hu⟩ : ∃ us, us = List.zip S vs := ⟨_, rfl⟩
    have hlS : S.length = vs.length := hS.length_eq
    have u1 : us.map Prod.fst = S := by rw [hu, List.map_fst_zip hlS.le]
    have u2 : us.map Prod.snd = vs := by rw [hu, List.map_snd_zip hlS.ge]
    have hdx := degX_ge ho hcI x
    have hU : ∀ u ∈ us, Sml x1 u.1 u.2 ∧ u.1.vars ⊆ two R x x1 ∧ u.1.degreeOf x ≤ degX c x := fun u hu' => by
      rw [hu] at hu'
      have hm := (List.of_mem_zip (a := u.1) (b := u.2) hu').1
      exact ⟨(List.forall₂_iff_zip.1 hS).2 hu', hSv _ hm, (hdeg _ hm).trans hdx⟩
    rw [← u1, List.forall₂_map_right_iff] at hσ
    have hr0 : List.Forall₂ (St vc x1 (two R x x1) x a (degX c x) 1) r0 us := by
      refine List.forall₂_iff_zip.2 ⟨hσ.length_eq, fun {r u} hru => ?_⟩
      obtain ⟨t1, t2⟩ := (List.forall₂_iff_zip.1 hσ).2 hru
      obtain ⟨a1, a2, a3⟩ := hU u (List.of_mem_zip hru).2
      have hv : (val r).vars ⊆ insert x1 (keys ([] : List (Var × R))) := by rw [t2]; exact sub1_vars_aux a2
      refine ⟨⟨t1, hv.trans (Finset.subset_insert _ _)⟩, ?_, ?_, ?_⟩
      · rw [pow_one, t2]; exact lin_dvd_sub x a _
      · rw [Sml, t2]
        exact (degreeOf_sub_le _ _ _).trans_lt (max_lt a1 ((sub1_degreeOf _ _ _ _).trans_lt a1))
      · rw [degreeOf_zero_iff.2 fun h => hxW (hv h)]; exact Nat.zero_le _
    have hlu : us.length = F.length := by rw [hFl, ← u2, List.length_map]
    have hl : r0.length = F.length := by rw [hr0.length_eq, hlu]
    have hcv : val c = comb (us.map Prod.fst) (F.map val) := by rw [u1]; exact e
    have hr0d : ∀ r ∈ r0, OKIn vc (two R x x1) r ∧ ∀ w, (val r).degreeOf w ≤ M := fun r hr => by
      obtain ⟨u, hu, hs⟩ := forall₂_mem_left hr0 hr
      obtain ⟨a1, a2, a3⟩ := hU u hu
      refine ⟨hs.ok, degs_two hs.ok.2 (hs.deg.trans hcM) ?_⟩
      have e1 : val r = u.1 - (u.1 - val r) := by ring
      rw [e1]
      exact ((degreeOf_sub_le _ _ _).trans (max_le a1.le (le_of_lt hs.sml))).trans (hvM _ (u2 ▸ List.mem_map_of_mem hu))
    have hMK : M + (F.length - 1) * M < 2 ^ 32 := by
      have h1 : F.length * M = M + (F.length - 1) * M := by
        obtain ⟨l, hl⟩ : ∃ l, F.length = l + 1 := ⟨F.length - 1, by omega⟩
        rw [hl, Nat.add_sub_cancel]; ring
      rw [hFl] at h1 ⊢
      omega
    refine Wp.bind (Wp.and_post (cofactors_wp ho hW2 hF'' (by rw [hFl]; exact hb)) fun _ => cofactors_val ho hF' (by omega)) fun bs hbs => ?_
    have hbs := hbs.2
    refine Wp.bind (Wp.and_post (errorOf_wp ho hW2 hMK r0 bs hcI hr0d (cof_degs hF'' (by omega) hbs)) fun _ => errorOf_comb ho hF' hcI (fun r hr => (hr0d r hr).1) hl hbs) fun e1 he1 => Wp.ite (fun _ => Wp.ret trivial) fun _ => ?_
    refine taylorLoop_wp ho hx hv ha h2 h0 hc hvM hb hF'' (by omega) hFb0.1 hFb0.2 hcI u2 hlu (degX c x) hcM hU hcv hbs (degX c x) 1 (by omega) (by omega) one_okin ?_ he1.2.1 he1.2.2 hr0
    simp [val_cons, val_nil, expo_one]

end
end Mtshl
end CLPoly
