import Verif.Wang.IrrMath

/-! # Recombination: every factor found from candidates with the right images is irreducible -/

namespace CLPoly
namespace Wang
open Mono Mgcd Run Upoly Factor MvPolynomial

section
variable {vc : Var → Var → Bool} {V : Finset Var} {N : ℕ}

/-- a normalized candidate: primitive with respect to its first variable -/
def Np (vc : Var → Var → Bool) (h : PV Mono ℤ) : Prop := isNumber h = false ∧ ∃ v, Prm vc v (val h) ∧ 0 < (val h).degreeOf v

theorem Np.of_pm {h h' : PV Mono ℤ} (e : val h' = val h ∨ val h' = -val h) {v : Var} (hv : Prm vc v (val h)) : Prm vc v (val h') :=
  hv.of_dvd (by rcases e with e | e <;> rw [e]; exact neg_dvd.2 dvd_rfl)

variable (ho : VarOrd vc) {E : Env} (hE : E.vc = vc) (hS : Small V N) (hprev : PrevOK E.prev) (hT : Tame E.strict V N E.prev)

include ho hS in
theorem first_of_not_number {h : PV Mono ℤ} (hh : In vc V N h) (hn : isNumber h = false) : Top vc (pFirstVar h) h ∧ 0 < (val h).degreeOf (pFirstVar h) := by
  have hn' : (val h).vars ≠ ∅ := fun e => by rw [(number_of_vars ho hh.ok).2 e] at hn; exact absurd hn (by simp)
  have hfv : pFirstVar h ≠ 0 := fun e => hn' ((first_zero ho hh.ok (hh.zero hS)).1 e)
  obtain ⟨a, b, _⟩ := first_spec ho hh.ok hfv
  exact ⟨a, b⟩

include ho hE hS hprev hT in
/-- normalization: primitive with respect to the first variable; the rest is free of that variable -/
theorem normFactor_np {h : PV Mono ℤ} (hh : In vc V N h) (hn : isNumber h = false) :
    Post (normFactor E h) fun q => In vc V N q ∧ Pos q ∧ isNumber q = false ∧ Prm vc (pFirstVar h) (val q) ∧ 0 < (val q).degreeOf (pFirstVar h) ∧ ∃ c, pFirstVar h ∉ c.vars ∧ val h = val q * c := by
  have M := lex_ord ho
  have h0 : h ≠ [] := fun e => by rw [e] at hn; exact absurd hn (by simp [isNumber])
  obtain ⟨t1, t2⟩ := first_of_not_number ho hS hh hn
  have hv0 : val h ≠ 0 := fun e => h0 ((hh.ok.val_eq_zero M).1 e)
  refine ((normFactor_in ho hE hS hprev hT hh).and (Q := fun q => Prm vc (pFirstVar h) (val q) ∧ ∃ c, pFirstVar h ∉ c.vars ∧ val h = val q * c) ?_).mono fun q hq => ?_
  · unfold normFactor
    rw [hE]
    refine (pp_spec ho hS hprev hT E.fuel hh h0 hn).bind fun q hq => Post.ret ?_
    obtain ⟨q1, q2, c, c1, c2⟩ := hq
    have hp : Prm vc (pFirstVar h) (val q) := ⟨fun w hw => (top_iff ho hh.ok).1 t1 w (vars_of_dvd ⟨c, c2⟩ hv0 hw), q2⟩
    have e := (makePos_spec q1.ok).2.1
    refine ⟨Np.of_pm e hp, ?_⟩
    rcases e with e | e <;> rw [e]
    · exact ⟨c, c1, c2⟩
    · exact ⟨-c, by rwa [vars_neg], by rw [c2]; ring⟩
  · obtain ⟨⟨q1, q2⟩, q3, c, c1, c2⟩ := hq
    have hd : 0 < (val q).degreeOf (pFirstVar h) := by
      have c0 : c ≠ 0 := by rintro rfl; rw [mul_zero] at c2; exact hv0 c2
      rw [c2, degreeOf_mul_dom q3.prim.ne_zero c0, degreeOf_zero_iff.2 c1] at t2
      omega
    refine ⟨q1, q2 h0, ?_, q3, hd, c, c1, c2⟩
    by_contra hc
    rw [Bool.not_eq_false, number_of_vars ho q1.ok] at hc
    rw [degreeOf_zero_iff.2 (by rw [hc]; simp)] at hd
    omega

include ho hE hS in
theorem prodSel_val : ∀ (l : List (PV Mono ℤ)) (acc : PV Mono ℤ), Fits vc V N (acc :: l) → acc ≠ [] → (∀ h ∈ l, h ≠ []) →
    Post (prodSel E.vc acc l) fun p => val p = val acc * (l.map val).prod := by
  subst hE
  have M := lex_ord ho
  intro l
  induction l with
  | nil => intro acc h h0 _; exact Post.ret (by simp)
  | cons b l ih =>
    intro acc h h0 hl
    unfold prodSel
    have ha := h.ok acc (by simp)
    have hb := h.ok b (by simp)
    have a0 : val acc ≠ 0 := fun e => h0 ((ha.1.val_eq_zero M).1 e)
    have b0 : val b ≠ 0 := fun e => hl b (by simp) ((hb.1.val_eq_zero M).1 e)
    have hdeg : ∀ w, (val acc).degreeOf w + (val b).degreeOf w + (l.map fun h => (val h).degreeOf w).sum ≤ N := fun w => by
      have := h.deg w
      simp only [List.map_cons, List.sum_cons] at this
      omega
    obtain ⟨r, hr, hr1, hr2⟩ := polyMul_in ho hS ha.1 hb.1 a0 b0 ha.2 hb.2 fun w => by
      rw [degreeOf_mul_dom a0 b0]; have := hdeg w; omega
    rw [hr]
    refine (Post.lift (Q := fun a => a = r) fun a ha => (Option.some.inj ha).symm).bind fun a ea => ?_
    subst ea
    refine (ih a ⟨fun x hx => ?_, fun w => ?_⟩ (fun e => ?_) fun x hx => hl x (by simp [hx])).mono fun q hq => ?_
    · rcases List.mem_cons.1 hx with rfl | hx
      · exact ⟨hr1, by rw [hr2]; exact (vars_mul _ _).trans (Finset.union_subset ha.2 hb.2)⟩
      · exact h.ok x (by simp [hx])
    · rw [List.map_cons, List.sum_cons, hr2, degreeOf_mul_dom a0 b0]
      exact hdeg w
    · rw [e, val_nil] at hr2
      exact mul_ne_zero a0 b0 hr2.symm
    · rw [hq, hr2, List.map_cons, List.prod_cons, mul_assoc]

theorem vc_antisymm (ho : VarOrd vc) {a b : Var} (h1 : a = b ∨ vc b a = true) (h2 : b = a ∨ vc a b = true) : a = b := by
  rcases h1 with h1 | h1
  · exact h1
  rcases h2 with h2 | h2
  · exact h2.symm
  have := ho.trans _ _ _ trivial trivial trivial h1 h2
  rw [ho.irrefl _ trivial] at this
  exact absurd this (by simp)

theorem mem_prod_vars {x : Var} : ∀ {l : List (MvPolynomial Var ℤ)}, x ∈ l.prod.vars → ∃ f ∈ l, x ∈ f.vars
  | [], h => by simp at h
  | f :: l, h => by
    rw [List.prod_cons] at h
    rcases Finset.mem_union.1 (vars_mul _ _ h) with h | h
    · exact ⟨f, by simp, h⟩
    · obtain ⟨g, h1, h2⟩ := mem_prod_vars h
      exact ⟨g, by simp [h1], h2⟩

include ho hE hS hprev hT in
theorem trySubset_aux {grem : PV Mono ℤ} {h : PV Mono ℤ} {l : List (PV Mono ℤ)} (hf : Fits vc V N (h :: l)) (hn : ∀ k ∈ h :: l, Np vc k) :
    Post (trySubset E grem (h :: l)) fun o => ∀ y, o = some y → (∃ k ∈ h :: l, val k ∣ val y.1) ∧ val y.1 ∣ ((h :: l).map val).prod := by
  have M := lex_ord ho
  have h0 : ∀ k ∈ h :: l, k ≠ [] := fun k hk e => by have := (hn k hk).1; rw [e] at this; exact absurd this (by simp [isNumber])
  unfold trySubset
  refine ((prodSel_spec ho hE hS l h hf (h0 h (by simp)) fun y hy => h0 y (by simp [hy])).and (prodSel_val ho hE hS l h hf (h0 h (by simp)) fun y hy => h0 y (by simp [hy]))).bind fun pr hpr => ?_
  obtain ⟨⟨p1, p2⟩, p3⟩ := hpr
  have p3' : val pr = ((h :: l).map val).prod := by rw [p3, List.map_cons, List.prod_cons]
  have pz : val pr ≠ 0 := fun e => p2 ((p1.ok.val_eq_zero M).1 e)
  have pn : isNumber pr = false := by
    by_contra hc
    rw [Bool.not_eq_false, number_of_vars ho p1.ok] at hc
    obtain ⟨n1, v, _, n3⟩ := hn h (by simp)
    have hd : val h ∣ val pr := ⟨_, p3⟩
    have hvm : v ∈ (val h).vars := by
      by_contra hc'
      rw [degreeOf_zero_iff.2 hc'] at n3
      omega
    have := vars_of_dvd hd pz hvm
    rw [hc] at this
    simp at this
  refine (normFactor_np ho hE hS hprev hT p1 pn).bind fun prod hprod => ?_
  obtain ⟨r1, r2, r3, r4, r5, c, c1, c2⟩ := hprod
  have key : (∃ k ∈ h :: l, val k ∣ val prod) ∧ val prod ∣ ((h :: l).map val).prod := by
    refine ⟨?_, p3' ▸ ⟨c, c2⟩⟩
    obtain ⟨w, hw⟩ : ∃ w, w = pFirstVar pr := ⟨_, rfl⟩
    rw [← hw] at r4 r5 c1
    have c0 : c ≠ 0 := by rintro rfl; rw [mul_zero] at c2; exact pz c2
    have hwm : w ∈ (val prod).vars := by
      by_contra hc'
      rw [degreeOf_zero_iff.2 hc'] at r5
      omega
    have hwp : w ∈ (val pr).vars := vars_of_dvd ⟨c, c2⟩ pz hwm
    have htop := (top_iff ho p1.ok).1 (first_of_not_number ho hS p1 pn).1
    rw [← hw] at htop
    rw [p3'] at hwp
    obtain ⟨f, hf1, hf2⟩ := mem_prod_vars hwp
    obtain ⟨k, hk, rfl⟩ := List.mem_map.1 hf1
    refine ⟨k, hk, ?_⟩
    obtain ⟨_, v, v1, v2⟩ := hn k hk
    have kd : val k ∣ val pr := by rw [p3']; exact List.dvd_prod hf1
    have hvk : v ∈ (val k).vars := by
      by_contra hc'
      rw [degreeOf_zero_iff.2 hc'] at v2
      omega
    have e : v = w := vc_antisymm ho (htop v (vars_of_dvd kd pz hvk)) (v1.top w hf2)
    rw [e] at v1
    rw [c2, mul_comm] at kd
    exact v1.prim.dvd_of_dvd_mul c1 c0 kd
  refine Post.ite (fun _ => Post.ret (by simp)) fun _ => (Post.any _).bind fun qr _ => Post.ite (fun _ => (Post.any _).bind fun g' _ => Post.ret ?_) fun _ => Post.ret (by simp)
  intro y hy
  rw [← Option.some.inj hy]
  exact key

include ho hE hS hprev hT in
/-- a subset that passes the test contains a candidate that divides the factor found; the factor divides the product -/
theorem trySubset_found {grem : PV Mono ℤ} (hg : In vc V N grem) (hpos : Pos grem) {x : Var} (hp : Prm vc x (val grem)) {sel : List (PV Mono ℤ)} (hf : Fits vc V N sel) (hn : ∀ h ∈ sel, Np vc h) :
    Post (trySubset E grem sel) fun o => ∀ y, o = some y → Split vc V N grem y.1 y.2 ∧ (∃ h ∈ sel, val h ∣ val y.1) ∧ val y.1 ∣ (sel.map val).prod := by
  have h0 : ∀ h ∈ sel, h ≠ [] := fun h hh e => by have := (hn h hh).1; rw [e] at this; exact absurd this (by simp [isNumber])
  match sel with
  | [] => exact Post.fail
  | h :: l =>
    refine Post.mono ((trySubset_spec ho hE hS hprev hT hg hpos hp hf h0).and (trySubset_aux ho hE hS hprev hT hf hn)) ?_
    intro o ho' y hy
    exact ⟨ho'.1 y hy, ho'.2 y hy⟩

include ho hE hS hprev hT in
/-- a single candidate that divides is found -/
theorem trySubset_single {grem : PV Mono ℤ} (hg : In vc V N grem) {x : Var} (hp : Prm vc x (val grem)) {h : PV Mono ℤ} (hh : In vc V N h) (hn : isNumber h = false) (hd : val h ∣ val grem) :
    Post (trySubset E grem [h]) fun o => o ≠ none := by
  have M := lex_ord ho
  have hpx := hp.of_dvd hd
  unfold trySubset
  refine Post.bind (P := fun q => q = h) (Post.ret rfl) fun pr hpr => ?_
  subst hpr
  refine (normFactor_dvd ho hE hS hprev hT hh hpx).bind fun prod hprod => ?_
  obtain ⟨r1, r2, r3⟩ := hprod
  have hnum : isNumber prod = false := by
    by_contra hc
    rw [Bool.not_eq_false, number_of_vars ho r1.ok] at hc
    have : (val pr).vars = ∅ := by
      rcases r3 with e | e
      · rwa [e] at hc
      · rwa [e, vars_neg] at hc
    rw [(number_of_vars ho hh.ok).2 this] at hn
    exact absurd hn (by simp)
  have hd' : val prod ∣ val grem := by
    rcases r3 with e | e <;> rw [e]
    · exact hd
    · exact neg_dvd.2 hd
  refine Post.ite (fun hc => ?_) fun _ => ?_
  · rcases hc with hc | hc
    · exact absurd hc r2.ne
    · rw [hnum] at hc; exact absurd hc (by simp)
  · refine (Post.lift (Q := fun qr => qr.2 = [] ∧ qr.1 ≠ []) fun qr hqr => ?_).bind fun qr hqr => Post.ite (fun _ => (Post.any _).bind fun g' _ => Post.ret (by simp)) fun hc => absurd hqr hc
    rw [hE] at hqr
    refine ⟨(quoRemZ_test ho hS hg r1.ok (r1.deg63 M hS) r2.ne hqr).2 hd', fun e => ?_⟩
    have := (quoRemZ_dvd ho hS hg hp.prim.ne_zero r1 hd' hqr).2
    rw [e, val_nil, zero_mul] at this
    exact hp.prim.ne_zero this

include ho hE hS hprev hT in
theorem combLoop_found {grem : PV Mono ℤ} (hg : In vc V N grem) (hpos : Pos grem) {x : Var} (hp : Prm vc x (val grem)) {T : List (PV Mono ℤ)} (hf : Fits vc V N T) (hn : ∀ h ∈ T, Np vc h) :
    ∀ (fuel : ℕ) (idx : List ℕ), Upoly.Valid T.length idx → Post (combLoop E grem T fuel idx) fun o => ∀ y, o = some y → Upoly.Valid T.length y.1 ∧ y.1.length = idx.length ∧
      Split vc V N grem y.2.1 y.2.2 ∧ (∃ h ∈ y.1.reverse.map fun i => T.getD i [], val h ∣ val y.2.1) ∧ val y.2.1 ∣ ((y.1.reverse.map fun i => T.getD i []).map val).prod := by
  intro fuel
  induction fuel with
  | zero => intro _ _; exact Post.fail
  | succ fuel ih =>
    intro idx hv
    unfold combLoop
    have hsub : (idx.reverse.map fun i => T.getD i []).Sublist T := (getD_map_reverse_sublist [] T hv le_rfl).trans (List.take_sublist _ _)
    refine (trySubset_found ho hE hS hprev hT hg hpos hp (hf.sublist hsub) fun h hh => hn h (hsub.subset hh)).bind fun o ho' => ?_
    match o, ho' with
    | some y, hy =>
      refine Post.ret ?_
      rintro _ ⟨⟩
      exact ⟨hv, rfl, hy y rfl⟩
    | none, _ =>
      dsimp only
      cases e : nextComb T.length idx with
      | none => exact Post.ret (by simp)
      | some idx' =>
        obtain ⟨a, b⟩ := nextComb_some e hv
        refine (ih idx' a).mono fun o ho' y hy => ?_
        obtain ⟨c, d, k⟩ := ho' y hy
        exact ⟨c, by rw [d]; exact b.1, k⟩

include ho hE hS hprev hT in
/-- single candidates: if none is found, none divides -/
theorem combLoop_none {grem : PV Mono ℤ} (hg : In vc V N grem) {x : Var} (hp : Prm vc x (val grem)) {T : List (PV Mono ℤ)} (hf : Fits vc V N T) (hn : ∀ h ∈ T, Np vc h) :
    ∀ (fuel i : ℕ), i < T.length → Post (combLoop E grem T fuel [i]) fun o => o = none → ∀ j, i ≤ j → (hj : j < T.length) → ¬ val T[j] ∣ val grem := by
  intro fuel
  induction fuel with
  | zero => intro _ _; exact Post.fail
  | succ fuel ih =>
    intro i hi
    unfold combLoop
    rw [show ([i].reverse.map fun i => T.getD i []) = [T[i]] by simp [List.getElem?_eq_getElem hi]]
    have hm : T[i] ∈ T := List.getElem_mem hi
    refine Post.bind (P := fun o => o = none → ¬ val T[i] ∣ val grem) ?_ fun o ho' => ?_
    · by_cases hd : val T[i] ∣ val grem
      · exact (trySubset_single ho hE hS hprev hT hg hp (hf.in hm) (hn _ hm).1 hd).mono fun o h1 h2 => absurd h2 h1
      · exact (Post.any _).mono fun _ _ _ => hd
    · match o, ho' with
      | some y, _ => exact Post.ret (by simp)
      | none, hy =>
        dsimp only
        by_cases h1 : i + 1 < T.length
        · rw [show nextComb T.length [i] = some [i + 1] by simp [nextComb, h1]]
          refine (ih (i + 1) h1).mono fun o h2 h3 j hj hj' => ?_
          rcases Nat.eq_or_lt_of_le hj with e | e
          · subst e; exact hy rfl
          · exact h2 h3 j (by omega) hj'
        · rw [show nextComb T.length [i] = none by simp [nextComb, h1]]
          refine Post.ret fun _ j hj hj' => ?_
          have : j = i := by omega
          subst this
          exact hy rfl

/-- the candidates and the factors of the image they stand for -/
def Cands (p : ℕ) (y : Var) (a : Var → ℤ) (T : List (PV Mono ℤ)) (us : List (Polynomial ℤ)) : Prop := List.Forall₂ (fun h u => red p (evalAt y a (val h)) ∣ red p u) T us

include ho hE hS hprev hT in
theorem recLoop_irr {x : Var} {G : MvPolynomial Var ℤ} (hG : Prm vc x G) {p : ℕ} [Fact p.Prime] {y : Var} {a : Var → ℤ} {c : ℤ} :
    ∀ (fuel s : ℕ) (grem : PV Mono ℤ) (T ver : List (PV Mono ℤ)) (us : List (Polynomial ℤ)), RecInv vc V N G ver grem → Fits vc V N T → (∀ h ∈ T, Np vc h) →
    (∀ h ∈ ver, Irreducible (val h)) → Cands p y a T us → Rem p y a us c (val grem) → 1 ≤ s → (1 < s → ∀ h ∈ T, ¬ val h ∣ val grem) →
    Post (recLoop E fuel s grem T ver) fun r => (∀ h ∈ r.1, Irreducible (val h)) ∧ ∃ us', Cands p y a r.2.2 us' ∧ Rem p y a us' c (val r.2.1) := by
  have M := lex_ord ho
  intro fuel
  induction fuel with
  | zero => intro _ _ _ _ _ _ _ _ _ _ _ _ _; exact Post.fail
  | succ fuel ih =>
    intro s grem T ver us hI hf hn hv hC hR hs1 hs2
    unfold recLoop
    refine Post.ite (fun hs => ?_) fun _ => Post.ret ⟨hv, us, hC, hR⟩
    have h0 : ∀ h ∈ T, h ≠ [] := fun h hh e => by have := (hn h hh).1; rw [e] at this; exact absurd this (by simp [isNumber])
    have hnone : Post (combLoop E grem T (2 ^ T.length + 1) (List.range s).reverse) fun o => o = none → ∀ h ∈ T, ¬ val h ∣ val grem := by
      by_cases e : s = 1
      · subst e
        rw [show (List.range 1).reverse = [0] from rfl]
        refine (combLoop_none ho hE hS hprev hT hI.hg (hI.prm hG) hf hn _ 0 (by omega)).mono fun o h1 h2 h hh => ?_
        obtain ⟨j, hj, rfl⟩ := List.getElem_of_mem hh
        exact h1 h2 j (by omega) hj
      · exact (Post.any _).mono fun _ _ _ => hs2 (by omega)
    refine ((combLoop_found ho hE hS hprev hT hI.hg hI.pos (hI.prm hG) hf hn _ _ ((range_rev_valid s).mono (by omega))).and hnone).bind fun o ho' => ?_
    match o, ho' with
    | none, ho' => exact ih _ _ _ _ _ hI hf hn hv hC hR (by omega) fun _ => ho'.2 rfl
    | some z, ho' =>
      obtain ⟨z1, z2, z3, ⟨h, hh, hd⟩, z5⟩ := ho'.1 z rfl
      obtain ⟨k1, k2, k3, k4, k5, k6⟩ := z3
      have hsub : (z.1.reverse.map fun i => T.getD i []).Sublist T := (getD_map_reverse_sublist [] T z1 le_rfl).trans (List.take_sublist _ _)
      have hdv : val h ∣ val grem := hd.trans ⟨_, k6⟩
      have e : s = 1 := by
        by_contra hc
        exact hs2 (by omega) h (hsub.subset hh) hdv
      subst e
      obtain ⟨idx, pr, g'⟩ := z
      dsimp only at z1 z2 z5 hh hd k1 k2 k3 k4 k5 k6 ⊢
      simp only [List.length_reverse, List.length_range] at z2
      obtain ⟨i, rfl⟩ := List.length_eq_one_iff.1 z2
      have hi : i < T.length := valid_mem_lt z1 i (by simp)
      have hlen : T.length = us.length := hC.length_eq
      rw [show ([i].reverse.map fun i => T.getD i []) = [T[i]] by simp [List.getElem?_eq_getElem hi]] at z5
      simp only [List.map_cons, List.map_nil, List.prod_cons, List.prod_nil, mul_one] at z5
      have hum : us[i] ∈ us := List.getElem_mem (by omega)
      have hnu : ¬ IsUnit (val pr) := fun hu => by
        rw [(number_of_vars ho k1.ok).2 (unit_vars hu)] at k5
        exact absurd k5 (by simp)
      have hRp := hR.of_dvd (B := val pr) ⟨_, k6⟩
      have hdiv : red p (evalAt y a (val T[i])) ∣ red p us[i] := (List.forall₂_iff_get.1 hC).2 i hi (by omega)
      obtain ⟨i1, i2⟩ := hRp.irreducible hnu hum ((Polynomial.map_dvd _ (map_dvd (evalAt y a) z5)).trans hdiv)
      have hdr : dropIdx T [i] = T.take i ++ T.drop (i + 1) := by
        simp [dropIdx, List.eraseIdx_eq_take_drop_succ]
      have hsd := dropIdx_sublist [i] T
      have hus : us = us.take i ++ us[i] :: us.drop (i + 1) := by
        rw [List.cons_getElem_drop_succ, List.take_append_drop]
      refine ih 1 g' (dropIdx T [i]) (ver ++ [pr]) (us.take i ++ us.drop (i + 1)) ⟨k2, k4, fun h hh => ?_, ?_⟩ (hf.sublist hsd) (fun h hh => hn h (hsd.subset hh)) (fun h hh => ?_) ?_ ?_ le_rfl (by omega)
      · rcases List.mem_append.1 hh with hh | hh
        · exact hI.fac h hh
        · rw [List.mem_singleton.1 hh]; exact ⟨k1, k3, k5⟩
      · rw [← hI.prod, k6, List.map_append, List.prod_append, List.map_singleton, List.prod_singleton, mul_assoc]
      · rcases List.mem_append.1 hh with hh | hh
        · exact hv h hh
        · rw [List.mem_singleton.1 hh]; exact i1
      · rw [hdr]
        exact List.rel_append (List.forall₂_take i hC) (List.forall₂_drop (i + 1) hC)
      · rw [hus] at hR
        exact hR.split k6 i2

include ho hE hS hprev hT in
/-- one list of candidates whose images are the univariate factors modulo `p`: every factor found is irreducible -/
theorem tryCands_irr {x : Var} {g : PV Mono ℤ} (hg : In vc V N g) (hpos : Pos g) (hG : Prm vc x (val g)) {p : ℕ} [Fact p.Prime] {y : Var} {a : Var → ℤ} {c : ℤ} {cands : List (PV Mono ℤ)} {us : List (Polynomial ℤ)}
    (hf : Fits vc V N cands) (hC : Cands p y a cands us) (hpos' : ∀ h ∈ cands, 0 < (red p (evalAt y a (val h))).natDegree) (hR : Rem p y a us c (val g)) :
    Post (tryCands E g cands) fun r => ∀ ver, r = some ver → ∀ h ∈ ver, Irreducible (val h) := by
  have M := lex_ord ho
  unfold tryCands
  have hnn : ∀ h ∈ cands, isNumber h = false := fun h hh => by
    by_contra hc
    rw [Bool.not_eq_false] at hc
    have := hpos' h hh
    rw [number_val ho (hf.ok h hh).1 hc] at this
    simp [evalAt] at this
  have hcode : Post (Charset.runMap (normFactor E) cands) (List.Forall₂ (fun h q => In vc V N q ∧ Np vc q ∧ val q ∣ val h ∧ val h ≠ 0) cands) := by
    refine Charset.runMap_post fun h hh => ?_
    have hI := hf.in hh
    refine (normFactor_np ho hE hS hprev hT hI (hnn h hh)).mono fun q hq => ?_
    obtain ⟨q1, q2, q3, q4, q5, d, d1, d2⟩ := hq
    refine ⟨q1, ⟨q3, _, q4, q5⟩, ⟨d, d2⟩, fun e => ?_⟩
    have := hnn h hh
    rw [(hI.ok.val_eq_zero M).1 e] at this
    exact absurd this (by simp [isNumber])
  refine hcode.bind fun normed hn => ?_
  have hall : ∀ q ∈ normed, In vc V N q ∧ Np vc q := fun q hq => by
    clear hcode hf hC hpos' hnn
    induction hn with
    | nil => simp at hq
    | cons h _ ih =>
      rcases List.mem_cons.1 hq with rfl | hq
      · exact ⟨h.1, h.2.1⟩
      · exact ih hq
  have hfn : Fits vc V N normed := by
    refine ⟨fun q hq => ⟨(hall q hq).1.ok, (hall q hq).1.vars⟩, fun w => ?_⟩
    refine le_trans ?_ (hf.deg w)
    clear hf hcode hC hpos' hnn hall
    induction hn with
    | nil => simp
    | cons h _ ih => simp only [List.map_cons, List.sum_cons]; exact Nat.add_le_add (degreeOf_le_of_dvd h.2.2.1 h.2.2.2) ih
  have hCn : Cands p y a normed us := by
    clear hf hcode hpos' hnn hall hfn hR
    induction hn generalizing us with
    | nil => exact hC
    | cons h _ ih =>
      cases hC with
      | cons h1 h2 => exact List.Forall₂.cons ((Polynomial.map_dvd _ (map_dvd (evalAt y a) h.2.2.1)).trans h1) (ih h2)
  have hfil : (normed.filter fun h => h ≠ [] ∧ isNumber h = false) = normed := List.filter_eq_self.2 fun q hq => by
    have := (hall q hq).2.1
    rw [decide_eq_true_eq]
    exact ⟨fun e => by rw [e] at this; exact absurd this (by simp [isNumber]), this⟩
  dsimp only
  rw [hfil]
  refine ((recLoop_irr ho hE hS hprev hT hG _ 1 g normed [] us ⟨hg, hpos, by simp, by simp⟩ hfn (fun h hh => (hall h hh).2) (by simp) hCn hR le_rfl (by omega)).and
    (recLoop_spec ho hE hS hprev hT hG _ 1 g normed [] ⟨hg, hpos, by simp, by simp⟩ hfn fun h hh e => by
      have := (hall h hh).2.1; rw [e] at this; exact absurd this (by simp [isNumber]))).bind fun r hr => ?_
  obtain ⟨⟨r1, us', r2, r3⟩, hr⟩ := hr
  refine Post.ite (fun hl => ?_) fun _ => Post.ret (by simp)
  have hp := hr.prm hG
  refine Post.bind (P := fun ver => ∀ h ∈ ver, Irreducible (val h)) ?_ fun ver hver => Post.ite (fun hl => Post.ret ?_) fun _ => Post.ret (by simp)
  · refine Post.ite (fun hc => ?_) fun hc => Post.ret r1
    refine (normFactor_dvd ho hE hS hprev hT hr.hg hp).bind fun h hh => Post.ret ?_
    have e := pos_pm M hh.1.ok hr.hg.ok hh.2.1 hr.pos hh.2.2
    have hnum : isNumber h = false := by rw [hh.1.ok.ext M hr.hg.ok e]; exact hc.2
    rw [if_pos hnum]
    intro k hk
    rcases List.mem_append.1 hk with hk | hk
    · exact r1 k hk
    · rw [List.mem_singleton.1 hk, e]
      refine r3.last (by rw [← r2.length_eq]; exact hl) fun hu => ?_
      rw [(number_of_vars ho hr.hg.ok).2 (unit_vars hu)] at hc
      exact absurd hc.2 (by simp)
  · rintro _ ⟨⟩
    exact hver

end

end Wang
end CLPoly
