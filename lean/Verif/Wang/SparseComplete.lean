import Verif.Wang.SparseTotal
import Verif.Upoly.Content

/-! # Sparse interpolation finds the solution, if the supports contain it and the random point is good -/

namespace CLPoly
namespace Mtshl
open Mono Mgcd Run Upoly Factor Lift Wang Charset MvPolynomial

section
variable {R : Type} [DecidableEq R] [Field R]

theorem ucoeff_eq {f : UPoly R} {P : Polynomial R} (h : Is f P) (d : ℕ) : ucoeff f d = P.coeff d := by
  unfold ucoeff
  cases e : f.find? fun t => decide (t.1 = d) with
  | none =>
    rw [coeff_not_mem h]
    intro t ht
    have := List.find?_eq_none.1 e t ht
    simpa using this
  | some t =>
    have h1 := List.mem_of_find?_eq_some e
    have h2 := List.find?_some e
    simp only [decide_eq_true_eq] at h2
    rw [← h2, coeff_mem h h1]

/-- the image number `k` -/
noncomputable def ev (x1 : Var) (aux : List Var) (betas : List R) (k : ℕ) : MvPolynomial Var R →+* Polynomial R := eval₂Hom Polynomial.C (powPoint x1 (aux.zip betas) k)

variable {vc : Var → Var → Bool} (ho : VarOrd vc) {x1 : Var} {aux : List Var} {betas : List R} (hl : aux.length = betas.length) (hn : aux.Nodup) (hx : x1 ∉ aux)

include ho hl hn hx in
theorem ev_monomial {m : Mono} (hm : Valid vc m) (c : R) (k : ℕ) : ev x1 aux betas k (monomial (expo m) c) = Polynomial.monomial (expOf m.data x1).toNat (c * thetaOf aux betas m.data ^ k) := by
  have hk : ((aux.zip betas).map Prod.fst) = aux := List.map_fst_zip hl.le
  have hlk : (aux.zip betas).lookup x1 = none := by
    rw [List.lookup_eq_none_iff]
    intro p hp
    have : p.1 ∈ aux := hk ▸ List.mem_map_of_mem hp
    rw [bne_iff_ne]
    rintro rfl; exact hx this
  have := term_eval (aux.zip betas) x1 hlk (hk.symm ▸ hn) k m.data (nodup_keys ho hm)
  rw [thetaOf, thetaOf_eq, one_mul, ← Polynomial.C_mul_X_pow_eq_monomial, Polynomial.C_mul, mul_assoc, mul_comm (Polynomial.C _) (Polynomial.X ^ _), ← this]
  rw [ev, MvPolynomial.monomial_eq, map_mul]
  simp only [MvPolynomial.coe_eval₂Hom, MvPolynomial.eval₂_C]
  congr 1
  rw [Mono.expo]
  clear this
  generalize m.data = d
  induction d with
  | nil => simp
  | cons x d ihd =>
    rw [List.map_cons, List.sum_cons, List.map_cons, List.prod_cons, ← ihd]
    rw [Finsupp.prod_add_index' (by simp) (by intros; rw [pow_add]), MvPolynomial.eval₂_mul, Finsupp.prod_single_index (by simp), MvPolynomial.eval₂_pow, MvPolynomial.eval₂_X]
    rfl

include ho hl hn hx in
/-- the coefficients of an image -/
theorem ev_coeff (a : Mono → R) (d k : ℕ) : ∀ {form : List Mono}, (∀ m ∈ form, Valid vc m) →
    (ev x1 aux betas k (val (form.map fun m => (m, a m)))).coeff d = ((form.filter fun m => decide ((expOf m.data x1).toNat = d)).map fun m => a m * thetaOf aux betas m.data ^ k).sum
  | [], _ => by simp [val_nil]
  | m :: form, h => by
    rw [List.map_cons, val_cons, map_add, Polynomial.coeff_add, ev_monomial ho hl hn hx (h m (by simp)), Polynomial.coeff_monomial, ev_coeff a d k fun m' hm' => h m' (by simp [hm'])]
    by_cases e : (expOf m.data x1).toNat = d
    · rw [if_pos e, List.filter_cons_of_pos (by simpa using e), List.map_cons, List.sum_cons]
    · rw [if_neg e, List.filter_cons_of_neg (by simpa using e), zero_add]

theorem sum_range_list (a th : Mono → R) (k : ℕ) : ∀ l : List Mono, (l.map fun m => a m * th m ^ k).sum = ∑ t ∈ Finset.range l.length, (l.map a).getD t 0 * (l.map th).getD t 0 ^ k
  | [] => by simp
  | m :: l => by
    rw [List.map_cons, List.sum_cons, sum_range_list a th k l, List.length_cons, Finset.sum_range_succ', add_comm]
    simp only [List.map_cons, List.getD_cons_succ, List.getD_cons_zero]

include ho in
/-- a polynomial from its coefficients at monomials that contain its support -/
theorem val_form {S : MvPolynomial Var R} {form : List Mono} (hnd : form.Nodup) (hv : ∀ m ∈ form, Valid vc m) (hS : ∀ s ∈ S.support, ∃ m ∈ form, expo m = s) : val (form.map fun m => (m, coeff (expo m) S)) = S := by
  classical
  have h1 : (form.map expo).Nodup := by
    rw [List.Nodup, List.pairwise_map]
    exact hnd.imp_of_mem fun {a b} ha hb hab e => hab (expo_inj ho (hv a ha) (hv b hb) e)
  have h2 : val (form.map fun m => (m, coeff (expo m) S)) = ((form.map expo).map fun s => monomial s (coeff s S)).sum := by
    rw [List.map_map]
    clear h1 hnd hv hS
    induction form with
    | nil => simp [val_nil]
    | cons m form ih => rw [List.map_cons, val_cons, ih, List.map_cons, List.sum_cons]; rfl
  rw [h2, ← List.sum_toFinset _ h1]
  conv_rhs => rw [as_sum S]
  symm
  refine Finset.sum_subset (fun s hs => ?_) fun s _ hs => ?_
  · obtain ⟨m, hm, rfl⟩ := hS s hs
    exact List.mem_toFinset.2 (List.mem_map_of_mem hm)
  · rw [notMem_support_iff.1 hs, monomial_zero]

/-- one group -/
theorem solveGroup_wp {sig : List (UPoly R)} {d : ℕ} {monos : List Mono} (h0 : monos ≠ []) (h1 : (monos.map fun m => thetaOf aux betas m.data).Nodup) (h2 : (0 : R) ∉ monos.map fun m => thetaOf aux betas m.data) (a : Mono → R)
    (hv : ∀ l < monos.length, ucoeff (sig.getD l []) d = (monos.map fun m => a m * thetaOf aux betas m.data ^ (l + 1)).sum) :
    solveGroup aux betas sig d monos = Run.ret (some ((monos.map fun m => (m, a m)).filter fun t => decide (t.2 ≠ 0))) := by
  obtain ⟨values, hval⟩ : ∃ v, v = (List.range monos.length).map fun l => ucoeff (sig.getD l []) d := ⟨_, rfl⟩
  obtain ⟨th, hth⟩ : ∃ th, th = monos.map fun m => thetaOf aux betas m.data := ⟨_, rfl⟩
  have hlv : values.length = monos.length := by rw [hval]; simp
  have hlt : th.length = monos.length := by rw [hth]; simp
  obtain ⟨c, e1, e2, e3⟩ := (vandermonde_spec (values := values) (thetas := th) (fun h => h0 (List.length_eq_zero_iff.1 (by rw [← hlv, h]; rfl))) (by omega)).1 (by rw [hth]; exact ⟨h1, h2⟩)
  have hc : c = monos.map a := by
    have key := vandermonde_unique (s := monos.length) (th := fun t => th.getD t 0) (x := fun t => c.getD t 0) (y := fun t => (monos.map a).getD t 0) (fun i hi j hj e => by
        rw [List.getD_eq_getElem _ _ (by omega), List.getD_eq_getElem _ _ (by omega)] at e
        rw [← hth] at h1
        exact (List.Nodup.getElem_inj_iff h1).1 e) (fun i hi e => by
        rw [List.getD_eq_getElem _ _ (by omega)] at e
        rw [← hth] at h2
        exact h2 (e ▸ List.getElem_mem _)) fun l hl => by
          have := e3 l (by omega)
          rw [hlv] at this
          rw [this, hth, ← sum_range_list, hval, List.getD_eq_getElem _ _ (by simpa using hl), List.getElem_map, List.getElem_range]
          exact hv l hl
    refine List.ext_getElem (by rw [e2, hlv, List.length_map]) fun i hi hi' => ?_
    have := key i (by omega)
    rwa [List.getD_eq_getElem _ _ hi, List.getD_eq_getElem _ _ hi'] at this
  unfold solveGroup
  rw [← hval, ← hth, e1, hc]
  funext s
  show some ((some (List.zip monos (monos.map a))).map _, s) = _
  rw [Option.map_some]
  have : List.zip monos (monos.map a) = monos.map fun m => (m, a m) := by
    clear * -
    induction monos with
    | nil => rfl
    | cons m l ih => rw [List.map_cons, List.zip_cons_cons, ih]; rfl
  rw [this]
  rfl

theorem solveGroups_wp {sig : List (UPoly R)} {form : List Mono} (a : Mono → R) : ∀ ds : List ℕ, (∀ d ∈ ds, ∃ m ∈ form, (expOf m.data x1).toNat = d) →
    (∀ d ∈ ds, ((form.filter fun m => decide ((expOf m.data x1).toNat = d)).map fun m => thetaOf aux betas m.data).Nodup) → (∀ m ∈ form, thetaOf aux betas m.data ≠ 0) →
    (∀ d ∈ ds, ∀ l < form.length, ucoeff (sig.getD l []) d = ((form.filter fun m => decide ((expOf m.data x1).toNat = d)).map fun m => a m * thetaOf aux betas m.data ^ (l + 1)).sum) →
    solveGroups x1 aux betas sig form ds = Run.ret (some (ds.flatMap fun d => ((form.filter fun m => decide ((expOf m.data x1).toNat = d)).map fun m => (m, a m)).filter fun t => decide (t.2 ≠ 0)))
  | [], _, _, _, _ => rfl
  | d :: ds, h1, h2, h3, h4 => by
    unfold solveGroups
    have hle : (form.filter fun m => decide ((expOf m.data x1).toNat = d)).length ≤ form.length := List.length_filter_le _ _
    rw [solveGroup_wp (a := a) (fun h => by
      obtain ⟨m, hm, e⟩ := h1 d (by simp)
      have : m ∈ form.filter fun m => decide ((expOf m.data x1).toNat = d) := List.mem_filter.2 ⟨hm, by simpa using e⟩
      rw [h] at this; simp at this) (h2 d (by simp)) (fun h => by
      obtain ⟨m, hm, e⟩ := List.mem_map.1 h
      exact h3 m (List.mem_filter.1 hm).1 e) fun l hl => h4 d (by simp) l (by omega)]
    rw [solveGroups_wp a ds (fun e he => h1 e (by simp [he])) (fun e he => h2 e (by simp [he])) h3 fun e he => h4 e (by simp [he])]
    rfl

include ho hl hn hx in
/-- one unknown polynomial -/
theorem solveGroups_sol {S : MvPolynomial Var R} {form : List Mono} (hnd : form.Nodup) (hv : ∀ m ∈ form, Valid vc m) (hS : ∀ s ∈ S.support, ∃ m ∈ form, expo m = s)
    (hth : form.Pairwise fun m m' => expOf m.data x1 = expOf m'.data x1 → thetaOf aux betas m.data ≠ thetaOf aux betas m'.data) (hz : ∀ m ∈ form, thetaOf aux betas m.data ≠ 0) {sig : List (UPoly R)}
    (hsig : ∀ l < form.length, Is (sig.getD l []) (ev x1 aux betas (l + 1) S)) :
    ∃ t, solveGroups x1 aux betas sig form (groupDegs x1 form) = Run.ret (some t) ∧ PolyOK vc (lexGt vc) (nrm vc t) ∧ val (nrm vc t) = S := by
  have hmem : ∀ d, d ∈ groupDegs x1 form ↔ ∃ m ∈ form, (expOf m.data x1).toNat = d := fun d => by
    unfold groupDegs
    rw [(List.perm_insertionSort _ _).mem_iff, List.mem_dedup, List.mem_map]
  have hg : (groupDegs x1 form).Nodup := by
    unfold groupDegs
    exact (List.perm_insertionSort _ _).nodup_iff.2 (List.nodup_dedup _)
  have hpos : ∀ m ∈ form, 0 ≤ expOf m.data x1 := fun m hm => by rw [expOf_eq ho (hv m hm)]; exact E_nonneg (hv m hm).pos x1
  obtain ⟨a, ha⟩ : ∃ a : Mono → R, a = fun m => coeff (expo m) S := ⟨_, rfl⟩
  have hvS : val (form.map fun m => (m, a m)) = S := by rw [ha]; exact val_form ho hnd hv hS
  have e1 := solveGroups_wp (x1 := x1) (aux := aux) (betas := betas) (sig := sig) (form := form) a (groupDegs x1 form) (fun d hd => (hmem d).1 hd) (fun d _ => by
    rw [List.Nodup, List.pairwise_map]
    refine (hth.filter _).imp_of_mem fun {m m'} hm hm' h => h ?_
    have h1 := List.mem_filter.1 hm
    have h2 := List.mem_filter.1 hm'
    have h3 : (expOf m.data x1).toNat = d := by simpa using h1.2
    have h4 : (expOf m'.data x1).toNat = d := by simpa using h2.2
    have := hpos m h1.1
    have := hpos m' h2.1
    omega) hz fun d _ l hl' => by rw [ucoeff_eq (hsig l hl'), ← ev_coeff ho hl hn hx a d (l + 1) hv, hvS]
  obtain ⟨t, ht⟩ : ∃ t, t = (groupDegs x1 form).flatMap fun d => ((form.filter fun m => decide ((expOf m.data x1).toNat = d)).map fun m => (m, a m)).filter fun t => decide (t.2 ≠ 0) := ⟨_, rfl⟩
  rw [← ht] at e1
  obtain ⟨k1, k2, k3⟩ := solveGroups_spec (x1 := x1) aux betas sig hnd _ hg [] (some t, []) (by rw [e1]; rfl) t rfl
  obtain ⟨n1, n2, _⟩ := nrm_nodup ho (fun z hz => hv _ (k3 z hz).1) k2 k1
  refine ⟨t, e1, n1, n2.trans ?_⟩
  have hperm : t.Perm ((form.map fun m => (m, a m)).filter fun t => decide (t.2 ≠ 0)) := by
    refine (List.perm_ext_iff_of_nodup (List.Nodup.of_map _ k1) (((List.nodup_map_iff_inj_on hnd).2 fun m _ m' _ h => (Prod.mk.inj h).1).filter _)).2 fun z => ?_
    rw [ht, List.mem_flatMap]
    constructor
    · rintro ⟨d, _, h⟩
      obtain ⟨h1, h2⟩ := List.mem_filter.1 h
      obtain ⟨m, hm, e⟩ := List.mem_map.1 h1
      exact List.mem_filter.2 ⟨List.mem_map.2 ⟨m, (List.mem_filter.1 hm).1, e⟩, h2⟩
    · intro h
      obtain ⟨h1, h2⟩ := List.mem_filter.1 h
      obtain ⟨m, hm, e⟩ := List.mem_map.1 h1
      exact ⟨(expOf m.data x1).toNat, (hmem _).2 ⟨m, hm, rfl⟩, List.mem_filter.2 ⟨List.mem_map.2 ⟨m, List.mem_filter.2 ⟨hm, by simp⟩, e⟩, h2⟩⟩
  have hsum : ∀ {l l' : PV Mono R}, l.Perm l' → val l = val l' := fun h => by
    unfold val; exact (h.map _).sum_eq
  have hfil : ∀ l : PV Mono R, val (l.filter fun t => decide (t.2 ≠ 0)) = val l := fun l => by
    induction l with
    | nil => rfl
    | cons u l ih =>
      by_cases h0 : u.2 = 0
      · rw [List.filter_cons_of_neg (by simpa using h0), ih, val_cons, h0, monomial_zero, zero_add]
      · rw [List.filter_cons_of_pos (by simpa using h0), val_cons, val_cons, ih]
  rw [hsum hperm, hfil, hvS]

include ho hl hn hx in
theorem recoverAll_sol {sv : List (List (UPoly R))} : ∀ (i : ℕ) {forms : List (List Mono)} {S : List (MvPolynomial Var R)},
    List.Forall₂ (fun form S => form.Nodup ∧ (∀ m ∈ form, Valid vc m) ∧ (∀ s ∈ S.support, ∃ m ∈ form, expo m = s) ∧
      form.Pairwise (fun m m' => expOf m.data x1 = expOf m'.data x1 → thetaOf aux betas m.data ≠ thetaOf aux betas m'.data) ∧ (∀ m ∈ form, thetaOf aux betas m.data ≠ 0) ∧ form.length ≤ sv.length) forms S →
    (∀ j < S.length, ∀ l < sv.length, Is ((sv.getD l []).getD (i + j) []) (ev x1 aux betas (l + 1) (S.getD j 0))) →
    ∃ res, recoverAll vc x1 aux betas sv i forms = Run.ret (some res) ∧ (∀ r ∈ res, PolyOK vc (lexGt vc) r) ∧ res.map val = S
  | _, [], [], _, _ => ⟨[], rfl, by simp, rfl⟩
  | _, [], _ :: _, h, _ => absurd h (by simp)
  | _, _ :: _, [], h, _ => absurd h (by simp)
  | i, form :: fs, s :: S, h, hs => by
    rw [List.forall₂_cons] at h
    obtain ⟨⟨a1, a2, a3, a4, a5, a6⟩, hfs⟩ := h
    obtain ⟨t, e1, e2, e3⟩ := solveGroups_sol ho hl hn hx a1 a2 a3 a4 a5 (sig := sv.map fun σ => σ.getD i []) fun l hl' => by
      have := hs 0 (by simp) l (by omega)
      rw [List.getD_eq_getElem _ _ (by rw [List.length_map]; omega), List.getElem_map]
      rwa [List.getD_eq_getElem sv _ (by omega), List.getD_cons_zero, Nat.add_zero] at this
    obtain ⟨res, r1, r2, r3⟩ := recoverAll_sol (i + 1) hfs fun j hj l hl' => by
      have := hs (j + 1) (by simpa using hj) l hl'
      rwa [List.getD_cons_succ, show i + (j + 1) = i + 1 + j by ring] at this
    refine ⟨nrm vc t :: res, ?_, fun r hr => ?_, by rw [List.map_cons, e3, r3]⟩
    · unfold recoverAll
      rw [e1, r1]
      rfl
    · rcases List.mem_cons.1 hr with rfl | hr
      · exact e2
      · exact r2 r hr

theorem mdpAll_sol : ∀ (Fs : List (List (UPoly R))) (cs : List (UPoly R)) (Q : ℕ → List (UPoly R) → Prop), Fs.length = cs.length → (∀ i < Fs.length, ∃ σ, univarMdp (Fs.getD i []) (cs.getD i []) = some (some σ) ∧ Q i σ) →
    ∃ sv, mdpAll Fs cs = Run.ret (some sv) ∧ sv.length = Fs.length ∧ ∀ i < Fs.length, Q i (sv.getD i [])
  | [], _, _, _, _ => ⟨[], rfl, rfl, by simp⟩
  | _ :: _, [], _, h, _ => by simp at h
  | F :: Fs, c :: cs, Q, h, hQ => by
    obtain ⟨σ, e1, e2⟩ := hQ 0 (by simp)
    rw [List.getD_cons_zero, List.getD_cons_zero] at e1
    obtain ⟨sv, h1, h2, h3⟩ := mdpAll_sol Fs cs (fun i => Q (i + 1)) (by simpa using h) fun i hi => by
      have := hQ (i + 1) (by simpa using hi)
      rwa [List.getD_cons_succ, List.getD_cons_succ] at this
    refine ⟨σ :: sv, ?_, by rw [List.length_cons, List.length_cons, h2], fun i hi => ?_⟩
    · unfold mdpAll
      rw [e1, h1]
      rfl
    · cases i with
      | zero => exact e2
      | succ i => rw [List.getD_cons_succ]; exact h3 i (by simpa using hi)

/-- the random elements of the point -/
theorem drawBetas_eq (p : ℕ) : ∀ (ds rest : List ℕ), (drawBetas p ds.length : Run (List R)) (ds ++ rest) = some (ds.map fun d => ((1 + d % (p - 1) : ℕ) : R), rest)
  | [], _ => rfl
  | d :: ds, rest => by
    rw [List.length_cons, drawBetas]
    show ((drawBetas p ds.length : Run (List R)) (ds ++ rest)).bind _ = _
    rw [drawBetas_eq p ds rest]
    rfl

theorem le_foldl_max : ∀ (l : List (List Mono)) (a : ℕ), a ≤ l.foldl (fun s f => max s f.length) a ∧ ∀ f ∈ l, f.length ≤ l.foldl (fun s f => max s f.length) a := by
  intro l
  induction l with
  | nil => intro a; simp
  | cons g l ih =>
    intro a
    rw [List.foldl_cons]
    obtain ⟨i1, i2⟩ := ih (max a g.length)
    refine ⟨(le_max_left _ _).trans i1, fun f hf => ?_⟩
    rcases List.mem_cons.1 hf with rfl | hf
    · exact (le_max_right _ _).trans i1
    · exact i2 f hf

theorem comb_map_hom {A B : Type} [CommRing A] [CommRing B] (φ : A →+* B) : ∀ S F : List A, comb (S.map φ) (F.map φ) = φ (comb S F)
  | [], F => by simp [comb]
  | _ :: _, [] => by simp [comb]
  | s :: S, f :: F => by simp only [List.map_cons, comb, comb_map_hom φ S F, map_add, map_mul, map_list_prod]

theorem mapM_some {A B : Type} {f : A → Option B} {P : A → B → Prop} : ∀ {l : List A}, (∀ a ∈ l, ∃ b, f a = some b ∧ P a b) → ∃ m, l.mapM f = some m ∧ List.Forall₂ P l m
  | [], _ => ⟨[], rfl, List.Forall₂.nil⟩
  | a :: l, h => by
    obtain ⟨b, h1, h2⟩ := h a (by simp)
    obtain ⟨m, h3, h4⟩ := mapM_some (l := l) fun c hc => h c (by simp [hc])
    exact ⟨b :: m, by rw [List.mapM_cons, h1, h3]; rfl, List.Forall₂.cons h2 h4⟩

theorem lift_some_bind {A B : Type _} (a : A) (f : A → Run B) : Run.bind (Run.lift (some a)) f = f a := rfl
theorem ret_some_bind {A B : Type _} (a : A) (f : A → Run B) : Run.bind (Run.ret a) f = f a := rfl

include ho hn hx in
/-- the solution is found -/
theorem sparseInt_found {W : Finset Var} {B : ℕ} (hB : (B : ℤ) ≤ capLex W.card) {D : ℕ} {F : List (PV Mono R)} (hF : ∀ f ∈ F, OKIn vc W f ∧ ∀ w, (val f).degreeOf w ≤ D) (h2 : 2 ≤ F.length) (hD : F.length * D < B)
    {c : PV Mono R} (hc : OKIn vc W c) (hc0 : c ≠ []) {S : List (MvPolynomial Var R)} (hS : List.Forall₂ (fun s f => s.degreeOf x1 < (val f).degreeOf x1) S F) (hSW : ∀ s ∈ S, s.vars ⊆ W ∧ ∀ w, s.degreeOf w ≤ D)
    (he : comb S (F.map val) = val c) {p : ℕ} {ds rest : List ℕ} (hds : ds.length = aux.length) (hb : betas = ds.map fun d => ((1 + d % (p - 1) : ℕ) : R)) {forms : List (List Mono)}
    (hf : List.Forall₂ (fun form S => form.Nodup ∧ (∀ m ∈ form, Valid vc m) ∧ (∀ s ∈ S.support, ∃ m ∈ form, expo m = s) ∧
      form.Pairwise (fun m m' => expOf m.data x1 = expOf m'.data x1 → thetaOf aux betas m.data ≠ thetaOf aux betas m'.data) ∧ (∀ m ∈ form, thetaOf aux betas m.data ≠ 0)) forms S)
    (hi : ∀ l < forms.foldl (fun s f => max s f.length) 0, (∀ f ∈ F, (ev x1 aux betas (l + 1) (val f)).natDegree = (val f).degreeOf x1) ∧ (F.map fun f => ev x1 aux betas (l + 1) (val f)).Pairwise IsCoprime) :
    ∃ res, sparseInt false vc p x1 aux F c forms (ds ++ rest) = some (some res, rest) ∧ (∀ r ∈ res, PolyOK vc (lexGt vc) r) ∧ res.map val = S := by
  have M := lex_ord ho
  have hl : aux.length = betas.length := by rw [hb, List.length_map, hds]
  obtain ⟨s, hs⟩ : ∃ s, s = forms.foldl (fun s f => max s f.length) 0 := ⟨_, rfl⟩
  rw [← hs] at hi
  have hs0 : s ≠ 0 := fun h0 => by
    have hz : ∀ f ∈ forms, f = [] := fun f hf => by
      have := (le_foldl_max forms 0).2 f hf
      rw [← hs, h0] at this
      exact List.length_eq_zero_iff.1 (by omega)
    have hS0 : ∀ t ∈ S, t = 0 := fun t ht => by
      obtain ⟨form, hform, h⟩ := forall₂_mem_right hf ht
      rw [← support_eq_empty]
      refine Finset.eq_empty_of_forall_notMem fun u hu => ?_
      obtain ⟨m, hm, _⟩ := h.2.2.1 u hu
      rw [hz form hform] at hm; simp at hm
    have h3 : val c = 0 := by
      rw [← he]
      have h4 : ∀ (T G : List (MvPolynomial Var R)), (∀ t ∈ T, t = 0) → comb T G = 0 := by
        intro T
        induction T with
        | nil => intro G _; simp [comb]
        | cons t T ih =>
          intro G h
          cases G with
          | nil => simp [comb]
          | cons g G => rw [comb, h t (by simp), ih G fun u hu => h u (by simp [hu])]; ring
      exact h4 _ _ hS0
    exact hc0 ((hc.1.val_eq_zero M).1 h3)
  obtain ⟨ic, i1, i2, i3⟩ := thetaEval_spec ho hc.1.monos hl hn hx s
  obtain ⟨iF, f1, f2⟩ := mapM_some (l := F) (f := fun f => thetaEval f x1 aux betas s) (P := fun f im => ∀ i < s, Is (im.getD i []) (ev x1 aux betas (i + 1) (val f))) fun f hf' => by
    obtain ⟨im, e1, _, e3⟩ := thetaEval_spec ho (hF f hf').1.1.monos hl hn hx s
    exact ⟨im, e1, e3⟩
  obtain ⟨sv, m1, m2, m3⟩ := mdpAll_sol ((List.range s).map fun l => iF.map fun im => im.getD l []) ic (fun l σ => List.Forall₂ Is σ (S.map (ev x1 aux betas (l + 1)))) (by rw [List.length_map, List.length_range, i2]) fun l hl' => by
    rw [List.length_map, List.length_range] at hl'
    rw [List.getD_eq_getElem _ _ (by rw [List.length_map, List.length_range]; exact hl'), List.getElem_map, List.getElem_range]
    obtain ⟨d1, d2⟩ := hi l hl'
    have hIs : List.Forall₂ Is (iF.map fun im => im.getD l []) (F.map fun f => ev x1 aux betas (l + 1) (val f)) := by
      rw [List.forall₂_map_left_iff, List.forall₂_map_right_iff]
      exact f2.flip.imp fun im f h => h l hl'
    have hpos : ∀ f ∈ F, 0 < (val f).degreeOf x1 := fun f hf' => by
      obtain ⟨t, _, h⟩ := forall₂_mem_right hS hf'
      omega
    have h0 : ∀ G ∈ F.map fun f => ev x1 aux betas (l + 1) (val f), G ≠ 0 := fun G hG e => by
      obtain ⟨f, hf', rfl⟩ := List.mem_map.1 hG
      have := d1 f hf'
      rw [e, Polynomial.natDegree_zero] at this
      have := hpos f hf'
      omega
    have hmm : (F.map val).map (ev x1 aux betas (l + 1)) = F.map fun f => ev x1 aux betas (l + 1) (val f) := by rw [List.map_map]; rfl
    have hcomb : comb (S.map (ev x1 aux betas (l + 1))) (F.map fun f => ev x1 aux betas (l + 1) (val f)) = ev x1 aux betas (l + 1) (val c) := by rw [← hmm, comb_map_hom, he]
    have hlen : (S.map (ev x1 aux betas (l + 1))).length = (F.map fun f => ev x1 aux betas (l + 1) (val f)).length := by rw [List.length_map, List.length_map, hS.length_eq]
    have hdeg : ∀ x ∈ List.zip (S.map (ev x1 aux betas (l + 1))) (F.map fun f => ev x1 aux betas (l + 1) (val f)), x.1.degree < x.2.degree := by
      intro x hx'
      rw [List.zip_map] at hx'
      obtain ⟨⟨t, f⟩, htf, rfl⟩ := List.mem_map.1 hx'
      have k1 := (List.forall₂_iff_zip.1 hS).2 htf
      have k2 := d1 f (List.of_mem_zip htf).2
      have k3 : (ev x1 aux betas (l + 1) t).natDegree ≤ t.degreeOf x1 := theta_degree _ _ _
      refine Polynomial.degree_lt_degree ?_
      show (ev x1 aux betas (l + 1) t).natDegree < (ev x1 aux betas (l + 1) (val f)).natDegree
      omega
    obtain ⟨r, P, u1, u2, u3, u4, _, u6⟩ := (univarMdp_spec hIs (by rw [List.length_map]; exact h2) h0 (i3 l hl')).1 (Or.inl d2)
    have hC : (eval₂ Polynomial.C (powPoint x1 (aux.zip betas) (l + 1)) (val c)) = ev x1 aux betas (l + 1) (val c) := rfl
    rw [hC] at u6
    have hPc := u6 (by rw [← hcomb]; exact comb_degree hlen h0 hdeg)
    have hP : P = S.map (ev x1 aux betas (l + 1)) := comb_unique u3 hlen d2 h0 u4 hdeg (by rw [hPc, hcomb])
    exact ⟨r, u1, hP ▸ u2⟩
  rw [List.length_map, List.length_range] at m2 m3
  obtain ⟨res, r1, r2, r3⟩ := recoverAll_sol ho hl hn hx (sv := sv) 0 (forms := forms) (S := S) (List.forall₂_iff_zip.2 ⟨hf.length_eq, fun {form t} h => by
      obtain ⟨a1, a2, a3, a4, a5⟩ := (List.forall₂_iff_zip.1 hf).2 h
      exact ⟨a1, a2, a3, a4, a5, by rw [m2, hs]; exact (le_foldl_max forms 0).2 form (List.of_mem_zip h).1⟩⟩) fun j hj l hl' => by
    rw [m2] at hl'
    have h1 := m3 l hl'
    have jσ : j < (sv.getD l []).length := by rw [h1.length_eq, List.length_map]; exact hj
    have h3 := (List.forall₂_iff_get.1 h1).2 j jσ (by rw [List.length_map]; exact hj)
    rw [zero_add, List.getD_eq_getElem _ _ jσ, List.getD_eq_getElem _ _ hj]
    simpa using h3
  have hres : ∀ r ∈ res, OKIn vc W r ∧ ∀ w, (val r).degreeOf w ≤ D := fun r hr => by
    have := hSW (val r) (r3 ▸ List.mem_map_of_mem hr)
    exact ⟨⟨r2 r hr, this.1⟩, this.2⟩
  have hlr : res.length = F.length := by rw [← hS.length_eq, ← r3, List.length_map]
  have hwp := checkSum_wp ho hB hF h2 hD res 0 (by omega) OKIn.nil hres
  have heq := hwp.eq_of_sub (checkSum_sub F 0 [] res)
  obtain ⟨k, _, _, hk⟩ := hwp
  have hk : checkSum true vc F 0 [] res rest = some (k, rest) := hk _ le_rfl rest
  obtain ⟨k1, k2⟩ := checkSum_spec ho (fun f hf' => (hF f hf').1) h2 res 0 OKIn.nil (fun r hr => (hres r hr).1) _ _ hk
  have hkc : k = c := by
    refine k1.1.ext M hc.1 (k2.trans ?_)
    rw [← he, ← r3, comb_eq_sum (by rw [List.length_map, List.length_map, hlr]), val_nil, zero_add, List.length_map, hlr]
    simp only [zero_add]
  refine ⟨res, ?_, r2, r3⟩
  unfold sparseInt
  rw [← hs, if_neg (by rintro (h | h); exacts [hs0 h, hc0 h])]
  show ((drawBetas p aux.length : Run (List R)) (ds ++ rest)).bind _ = _
  rw [← hds, drawBetas_eq, ← hb]
  dsimp only [Option.bind_some]
  rw [i1, lift_some_bind, f1, lift_some_bind, m1, ret_some_bind]
  dsimp only
  rw [r1, ret_some_bind]
  show ((checkSum false vc F 0 [] res) rest).bind _ = _
  rw [← heq, hk]
  show some ((if k = c then some res else none), rest) = _
  rw [if_pos hkc]

end

end Mtshl
end CLPoly
