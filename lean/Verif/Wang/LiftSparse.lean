import Verif.Wang.LiftTaylor

/-! # Sparse interpolation, and the lifting of one variable and of all variables, keep the degrees and the images -/

namespace CLPoly
namespace Mtshl
open Mono Mgcd Run Upoly Factor Lift Wang Charset MvPolynomial

section
variable {R : Type} [DecidableEq R] [Field R] {vc : Var → Var → Bool} (ho : VarOrd vc) {W : Finset Var} {x1 : Var} {α : Var → R} {vs : List (Polynomial R)}

/-- distinct monomials in `W` of bounded degree in `x1` -/
def FormOK (vc : Var → Var → Bool) (x1 : Var) (W : Finset Var) (form : List Mono) (v : Polynomial R) : Prop :=
  form.Nodup ∧ ∀ m ∈ form, Valid vc m ∧ (∀ y ∈ m.data, y.1 ∈ W) ∧ E m.data x1 ≤ v.natDegree

theorem zip_fst_sublist {A B : Type} : ∀ (l : List A) (m : List B), ((List.zip l m).map Prod.fst).Sublist l
  | [], _ => by simp
  | _ :: _, [] => by simp
  | a :: l, b :: m => by
    rw [List.zip_cons_cons, List.map_cons]
    exact (zip_fst_sublist l m).cons_cons a

theorem solveGroup_spec (aux : List Var) (betas : List R) (sig : List (UPoly R)) (d : ℕ) (monos : List Mono) :
    Post (solveGroup aux betas sig d monos) fun o => ∀ t, o = some t → (t.map Prod.fst).Sublist monos ∧ ∀ z ∈ t, z.2 ≠ 0 := by
  unfold solveGroup
  refine (Post.any _).bind fun o _ => Post.ret fun t et => ?_
  cases o with
  | none => simp at et
  | some cs =>
    rw [Option.map_some, Option.some.injEq] at et
    subst et
    refine ⟨((List.filter_sublist).map _).trans ?_, fun z hz => by simpa using (List.mem_filter.1 hz).2⟩
    exact zip_fst_sublist monos cs

theorem solveGroups_spec (aux : List Var) (betas : List R) (sig : List (UPoly R)) {form : List Mono} (hn : form.Nodup) : ∀ ds : List ℕ, ds.Nodup →
    Post (solveGroups x1 aux betas sig form ds) fun o => ∀ t, o = some t → (t.map Prod.fst).Nodup ∧ (∀ z ∈ t, z.2 ≠ 0) ∧ ∀ z ∈ t, z.1 ∈ form ∧ (expOf z.1.data x1).toNat ∈ ds := by
  intro ds
  induction ds with
  | nil => intro _; exact Post.ret fun t et => by cases et; simp
  | cons d ds ih =>
    intro hd
    rw [List.nodup_cons] at hd
    unfold solveGroups
    refine (solveGroup_spec aux betas sig d _).bind fun o h1 => ?_
    match o, h1 with
    | none, _ => exact Post.ret fun t et => by cases et
    | some t1, h1 =>
      obtain ⟨a1, a2⟩ := h1 t1 rfl
      have a3 : ∀ z ∈ t1, z.1 ∈ form ∧ (expOf z.1.data x1).toNat = d := fun z hz => by
        have := List.mem_filter.1 (a1.subset (List.mem_map_of_mem (f := Prod.fst) hz))
        exact ⟨this.1, by simpa using this.2⟩
      refine (ih hd.2).bind fun r hr => Post.ret fun t et => ?_
      cases r with
      | none => simp at et
      | some t2 =>
        rw [Option.map_some, Option.some.injEq] at et
        subst et
        obtain ⟨b1, b2, b3⟩ := hr t2 rfl
        refine ⟨?_, fun z hz => ?_, fun z hz => ?_⟩
        · rw [List.map_append, List.nodup_append]
          refine ⟨(hn.filter _).sublist a1, b1, ?_⟩
          intro m hm m' hm' e
          obtain ⟨z, hz, rfl⟩ := List.mem_map.1 hm
          obtain ⟨w, hw, rfl⟩ := List.mem_map.1 hm'
          have := (b3 w hw).2
          rw [← e, (a3 z hz).2] at this
          exact hd.1 this
        · rcases List.mem_append.1 hz with h | h
          · exact a2 z h
          · exact b2 z h
        · rcases List.mem_append.1 hz with h | h
          · exact ⟨(a3 z h).1, by rw [(a3 z h).2]; simp⟩
          · exact ⟨(b3 z h).1, by simp [(b3 z h).2]⟩

include ho in
theorem recoverAll_spec (aux : List Var) (betas : List R) (sv : List (List (UPoly R))) : ∀ (i : ℕ) {forms : List (List Mono)} {vs : List (Polynomial R)}, List.Forall₂ (FormOK vc x1 W) forms vs →
    Post (recoverAll vc x1 aux betas sv i forms) fun o => ∀ s, o = some s → List.Forall₂ (Sol vc x1 W) s vs
  | _, [], [], _ => Post.ret fun s e => by cases e; exact List.Forall₂.nil
  | _, [], _ :: _, h => absurd h (by simp)
  | _, _ :: _, [], h => absurd h (by simp)
  | i, form :: fs, v :: vs, h => by
    rw [List.forall₂_cons] at h
    obtain ⟨⟨hn, hm⟩, hfs⟩ := h
    unfold recoverAll
    have hg : (groupDegs x1 form).Nodup := by
      unfold groupDegs
      exact (List.perm_insertionSort _ _).nodup_iff.2 (List.nodup_dedup _)
    refine (solveGroups_spec aux betas _ hn _ hg).bind fun o h1 => ?_
    match o, h1 with
    | none, _ => exact Post.ret fun t et => by cases et
    | some t, h1 =>
      obtain ⟨a1, a2, a3⟩ := h1 t rfl
      refine (recoverAll_spec aux betas sv (i + 1) hfs).bind fun r hr => Post.ret fun s es => ?_
      cases r with
      | none => simp at es
      | some ss =>
        rw [Option.map_some, Option.some.injEq] at es
        subst es
        refine List.Forall₂.cons ?_ (hr ss rfl)
        obtain ⟨k1, k2, k3⟩ := nrm_nodup ho (fun z hz => (hm _ (a3 z hz).1).1) a2 a1
        refine ⟨OKIn_of_mem ho k1 fun z hz y hy => (hm _ (a3 z (k3 z hz)).1).2.1 y hy, ?_⟩
        exact degreeOf_le_of_list (lex_ord ho) k1 fun z hz => (hm _ (a3 z (k3 z hz)).1).2.2

theorem zeros_sol (W : Finset Var) (x1 : Var) : ∀ {F : List (PV Mono R)} {vs : List (Polynomial R)}, F.length = vs.length → List.Forall₂ (Sol vc x1 W) (F.map fun _ => ([] : PV Mono R)) vs
  | [], [], _ => List.Forall₂.nil
  | [], _ :: _, h => by simp at h
  | _ :: _, [], h => by simp at h
  | _ :: F, _ :: vs, h => List.Forall₂.cons ⟨OKIn.nil, by rw [val_nil, degreeOf_zero]; exact Nat.zero_le _⟩ (zeros_sol W x1 (by simpa using h))

include ho in
/-- `__mtshl_sparse_int`: the results have monomials from the given supports -/
theorem sparseInt_spec (p : ℕ) (aux : List Var) {F : List (PV Mono R)} (hF : F.length = vs.length) (c : PV Mono R) {forms : List (List Mono)} (h : List.Forall₂ (FormOK vc x1 W) forms vs) :
    Post (sparseInt true vc p x1 aux F c forms) fun o => ∀ s, o = some s → List.Forall₂ (Sol vc x1 W) s vs := by
  unfold sparseInt
  refine Post.ite (fun _ => Post.ret fun s e => by cases e; exact zeros_sol W x1 hF) fun _ => ?_
  refine (Post.any _).bind fun betas _ => (Post.any _).bind fun ic _ => (Post.any _).bind fun iF _ => (Post.any _).bind fun o _ => ?_
  match o with
  | none => exact Post.ret fun s e => by cases e
  | some sv =>
    refine (recoverAll_spec ho aux betas sv 0 h).bind fun o ho' => ?_
    match o, ho' with
    | none, _ => exact Post.ret fun s e => by cases e
    | some res, hres =>
      refine (Post.any _).bind fun k _ => Post.ret fun s es => ?_
      split at es
      · cases es; exact hres _ rfl
      · cases es

include ho in
theorem form_of_sol {σ : PV Mono R} {v : Polynomial R} (h : Sol vc x1 W σ v) : FormOK vc x1 W (σ.map Prod.fst) v := by
  refine ⟨?_, fun m hm => ?_⟩
  · rw [List.Nodup, List.pairwise_map]
    refine h.1.1.canon.1.imp_of_mem fun {a b} ha hb hab e => ?_
    rw [e, (lex_ord ho).lawful.irrefl _ (h.1.1.monos b hb)] at hab
    exact absurd hab (by simp)
  · obtain ⟨t, ht, rfl⟩ := List.mem_map.1 hm
    refine ⟨h.1.1.monos t ht, fun y hy => h.1.mem ho ht hy, (h.1.1.exp_le (lex_ord ho) ht x1).trans ?_⟩
    exact_mod_cast h.2

include ho in
theorem forms_of_sols : ∀ {ss : List (PV Mono R)} {vs : List (Polynomial R)}, List.Forall₂ (Sol vc x1 W) ss vs → List.Forall₂ (FormOK vc x1 W) (ss.map fun f => f.map Prod.fst) vs := by
  intro ss vs h
  rw [List.forall₂_map_left_iff]
  exact h.imp fun _ _ h => form_of_sol ho h

include ho in
theorem newForms_spec : ∀ {fs : List (List Mono)} {ss : List (PV Mono R)} {vs : List (Polynomial R)}, List.Forall₂ (FormOK vc x1 W) fs vs → List.Forall₂ (Sol vc x1 W) ss vs → List.Forall₂ (FormOK vc x1 W) (newForms fs ss) vs
  | [], _, _, h, _ => by unfold newForms; exact h
  | f :: fs, [], vs, h, h' => by unfold newForms; exact h
  | f :: fs, s :: ss, [], h, _ => absurd h (by simp)
  | f :: fs, s :: ss, v :: vs, h, h' => by
    rw [List.forall₂_cons] at h h'
    unfold newForms
    refine List.Forall₂.cons ?_ (newForms_spec h.2 h'.2)
    split
    · exact h.1
    · exact form_of_sol ho h'.1

/-! ## one variable -/

variable (h2 : 2 ≤ vs.length) (h0 : ∀ v ∈ vs, v ≠ 0)

include ho h2 h0 in
theorem stepSolve_spec {ex : Bool} {fuel : ℕ} (p : ℕ) {aux : List (Var × R)} (hn : (aux.map Prod.fst).Nodup) (hα : ∀ y ∈ aux, y.1 ≠ x1 ∧ y.2 = α y.1) {x : Var} {Fb : List (PV Mono R)}
    (hFb : List.Forall₂ (Img vc x1 α (insert x1 (keys aux))) Fb vs) {ck : PV Mono R} (hck : OKIn vc (insert x1 (keys aux)) ck) {forms : List (List Mono)}
    (hf : List.Forall₂ (FormOK vc x1 (insert x (insert x1 (keys aux)))) forms vs) :
    Post (stepSolve true ex vc fuel p x1 aux Fb ck forms) fun o => ∀ s, o = some s → List.Forall₂ (Sol vc x1 (insert x (insert x1 (keys aux)))) s vs := by
  have up : ∀ s : List (PV Mono R), List.Forall₂ (Sol vc x1 (insert x1 (keys aux))) s vs → List.Forall₂ (Sol vc x1 (insert x (insert x1 (keys aux)))) s vs := fun _ h => h.imp fun _ _ h => h.mono (Finset.subset_insert _ _)
  match aux, hn, hα, hFb, hck, hf, up with
  | [], _, _, hFb, hck, _, up =>
    unfold stepSolve
    have hk : insert x1 (keys ([] : List (Var × R))) = {x1} := by simp [keys]
    rw [hk] at hFb hck
    refine (mdpBase_ok ho h2 h0 Fb ck hFb hck).mono fun o h s e => up s ?_
    rw [hk]; exact h s e
  | y :: ys, hn, hα, hFb, hck, hf, up =>
    unfold stepSolve
    have hsp := sparseInt_spec ho p ((y :: ys).map Prod.fst) (F := Fb) hFb.length_eq ck hf
    refine hsp.bind fun o h1 => ?_
    match o, h1 with
    | some s, h1 => exact Post.ret fun s' e => by cases e; exact h1 s rfl
    | none, _ =>
      refine hsp.bind fun o h1 => ?_
      match o, h1 with
      | some s, h1 => exact Post.ret fun s' e => by cases e; exact h1 s rfl
      | none, _ =>
        refine Post.bind (P := fun o => ∀ s, o = some s → List.Forall₂ (Sol vc x1 (insert x (insert x1 (keys (y :: ys))))) s vs) (Post.ite (fun hy => ?_) fun _ => ?_) fun o h => Post.ite (fun _ => Post.fail) fun _ => Post.ret h
        · subst hy
          have hh := hα y (by simp)
          have hk : insert x1 (keys [y]) = {y.1, x1} := by ext z; simp [keys, or_comm]
          rw [hk] at hFb hck up
          rw [hk]
          exact (bdp_ok ho h2 h0 hh.1 hh.2 Fb ck hFb hck).mono fun o h s e => up s (h s e)
        · have hk : keys (y :: ys).reverse = keys (y :: ys) := by unfold keys; rw [List.map_reverse, List.toFinset_reverse]
          have := wmds_ok ho (fuel := fuel) (x1 := x1) (α := α) h2 h0 (ys := (y :: ys).reverse) (by rw [List.map_reverse, List.nodup_reverse]; exact hn) fun z hz => hα z (List.mem_reverse.1 hz)
          rw [hk] at this
          exact (this Fb ck hFb hck).mono fun o h s e => up s (h s e)

/-- a leading coefficient: without `x1`, with the value `δ` at the point -/
def Tau (vc : Var → Var → Bool) (x1 : Var) (α : Var → R) (δ : R) (W : Finset Var) (T : PV Mono R) : Prop := OKIn vc W T ∧ (val T).degreeOf x1 = 0 ∧ eval α (val T) = δ

theorem evR_free {x1 : Var} {α : Var → R} {f : MvPolynomial Var R} (h : f.degreeOf x1 = 0) : evR x1 α f = Polynomial.C (eval α f) := by
  have h1 := evR_natDegree_le x1 α f
  rw [h] at h1
  rw [Polynomial.eq_C_of_natDegree_le_zero h1]
  congr 1
  have hc : IsCoeff x1 0 f f := by
    intro s
    rw [Finsupp.single_zero, add_zero]
    split
    · rfl
    · next hs =>
      by_contra hc
      have := monomial_le_degreeOf x1 (mem_support_iff.2 hc)
      omega
  exact evR_coeff x1 α hc

include ho in
theorem lcCorrect_spec {δ : R} (hδ : δ ≠ 0) {G T : PV Mono R} {v : Polynomial R} (hv : v.leadingCoeff = δ) (hp : 0 < v.natDegree) (hG : Img vc x1 α W G v) (hT : Tau vc x1 α δ W T) (hx : x1 ∈ W) : Post (lcCorrect true vc x1 G T) fun r => Img vc x1 α W r v := by
  have M := lex_ord ho
  unfold lcCorrect
  have v0 : v ≠ 0 := fun h => hδ (by rw [← hv, h, Polynomial.leadingCoeff_zero])
  have G0 : G ≠ [] := fun h => v0 (by rw [← hG.2, h, val_nil, map_zero])
  rw [if_neg G0]
  dsimp only
  obtain ⟨_, l1, l2⟩ := leadIn_spec M hG.1.1.1 x1
  have hd : (val G).degreeOf x1 = v.natDegree := le_antisymm hG.1.2 (by rw [← hG.2]; exact evR_natDegree_le _ _ _)
  rw [hd] at l2
  have hlv : (val (leadIn vc (lexGt vc) G x1).1).vars ⊆ W := l2.vars_subset.trans hG.1.1.2
  obtain ⟨s1, s2⟩ := sub_in ho hT.1 ⟨l1, hlv⟩
  refine Post.ite (fun _ => Post.ret hG) fun _ => ?_
  have hl0 : (val (leadIn vc (lexGt vc) G x1).1).degreeOf x1 = 0 := l2.degreeOf
  have hev : eval α (val (leadIn vc (lexGt vc) G x1).1) = δ := by rw [← evR_coeff x1 α l2, hG.2]; exact hv
  have hdeg : degreeLex vc G x1 = (v.natDegree : ℤ) := by rw [degreeLex_spec ho hG.1.1.1, hd]
  have hvm : Valid vc (mkMono [(x1, degreeLex vc G x1)]) := mkMono_valid (List.pairwise_singleton _ _) (by rw [hdeg]; simpa using hp)
  have m1 : OKIn vc W [((mkMono [(x1, degreeLex vc G x1)] : Mono), (1 : R))] := OKIn_of_mem ho (PolyOK.single hvm one_ne_zero) fun t ht y hy => by
    rw [List.mem_singleton.1 ht] at hy
    simp [mkMono] at hy
    rw [hy]; exact hx
  have m2 : val [((mkMono [(x1, degreeLex vc G x1)] : Mono), (1 : R))] = X x1 ^ v.natDegree := by
    rw [val_cons, val_nil, add_zero]
    have : expo (mkMono [(x1, degreeLex vc G x1)]) = Finsupp.single x1 v.natDegree := by
      have := powMono_expo x1 v.natDegree
      rw [powMono, if_pos (by omega)] at this
      rw [← this, hdeg]
      congr 1
    rw [this, X_pow_eq_monomial]
  refine (mulN_in ho s1 m1).bind fun t ht => Post.ret ?_
  obtain ⟨k1, k2⟩ := add_in ho hG.1.1 ht.1
  refine ⟨⟨k1, ?_⟩, ?_⟩
  · rw [k2, ht.2, s2, m2]
    refine (degreeOf_add_le _ _ _).trans (max_le hG.1.2 ((degreeOf_mul_le _ _ _).trans ?_))
    have h1 : (val T - val (leadIn vc (lexGt vc) G x1).1).degreeOf x1 = 0 := Nat.le_zero.1 ((degreeOf_sub_le _ _ _).trans (by rw [hT.2.1, hl0]; simp))
    have h3 : (X x1 ^ v.natDegree : MvPolynomial Var R).degreeOf x1 ≤ v.natDegree := (degreeOf_pow_le _ _ _).trans (by rw [degreeOf_X, if_pos rfl, mul_one])
    omega
  · rw [k2, ht.2, s2, m2, map_add, hG.2, map_mul, map_sub, evR_free hT.2.1, evR_free hl0, hT.2.2, hev, sub_self, zero_mul, add_zero]

include ho in
theorem lcCorrectAll_spec {δ : R} (hδ : δ ≠ 0) (hx : x1 ∈ W) : ∀ {Gs Ts : List (PV Mono R)} {vs : List (Polynomial R)}, (∀ v ∈ vs, v.leadingCoeff = δ ∧ 0 < v.natDegree) → List.Forall₂ (Img vc x1 α W) Gs vs →
    (∀ T ∈ Ts, Tau vc x1 α δ W T) → Post (lcCorrectAll true vc x1 Gs Ts) fun r => List.Forall₂ (Img vc x1 α W) r vs
  | [], _, _, _, h, _ => by unfold lcCorrectAll; exact Post.ret h
  | G :: Gs, [], _, _, h, _ => by unfold lcCorrectAll; exact Post.ret h
  | G :: Gs, T :: Ts, [], _, h, _ => absurd h (by simp)
  | G :: Gs, T :: Ts, v :: vs, hv, h, hT => by
    rw [List.forall₂_cons] at h
    unfold lcCorrectAll
    exact (lcCorrect_spec ho hδ (hv v (by simp)).1 (hv v (by simp)).2 h.1 (hT T (by simp)) hx).bind fun r hr =>
      (lcCorrectAll_spec hδ hx (fun w hw => hv w (by simp [hw])) h.2 fun U hU => hT U (by simp [hU])).bind fun l hl => Post.ret (List.Forall₂.cons hr hl)

include ho h2 h0 in
theorem stepLoop_spec {ex : Bool} {fuel : ℕ} (p : ℕ) {aux : List (Var × R)} (hn : (aux.map Prod.fst).Nodup) (hα : ∀ y ∈ aux, y.1 ≠ x1 ∧ y.2 = α y.1) {x : Var} (hx : x ≠ x1) (hxk : x ∉ keys aux) {a : R} (ha : a = α x)
    {aj : PV Mono R} (haj : OKIn vc (insert x (insert x1 (keys aux))) aj) {Fb : List (PV Mono R)} (hFb : List.Forall₂ (Img vc x1 α (insert x1 (keys aux))) Fb vs) :
    ∀ (n k : ℕ) {xp e : PV Mono R} {F : List (PV Mono R)} {forms : List (List Mono)}, OKIn vc {x} xp → OKIn vc (insert x (insert x1 (keys aux))) e → List.Forall₂ (Img vc x1 α (insert x (insert x1 (keys aux)))) F vs →
      List.Forall₂ (FormOK vc x1 (insert x (insert x1 (keys aux)))) forms vs →
      Post (stepLoop true ex vc fuel p x1 aux aj Fb x a n k xp e F forms) fun o => ∀ s, o = some s → List.Forall₂ (Img vc x1 α (insert x (insert x1 (keys aux)))) s vs := by
  intro n
  have hxW : x ∉ insert x1 (keys aux) := by rw [Finset.mem_insert]; rintro (h | h); exacts [hx h, hxk h]
  induction n with
  | zero => intro k xp e F forms _ _ hF _; unfold stepLoop; exact Post.ret fun s e => by cases e; exact hF
  | succ n ih =>
    intro k xp e F forms hxp he hF hf
    unfold stepLoop
    refine (xp_step ho hx ha hxp).bind fun xp' hxp' => (taylorCoeff_in ho (Finset.mem_insert_self x _) a k he).bind fun ck hck => ?_
    rw [Finset.erase_insert hxW] at hck
    refine Post.ite (fun _ => ih _ hxp'.1 he hF hf) fun _ => (stepSolve_spec ho h2 h0 p hn hα hFb hck hf).bind fun o hδ => ?_
    match o, hδ with
    | none, _ => exact Post.ret fun s e => by cases e
    | some σ, hδ =>
      have hσ := hδ σ rfl
      refine (addCorr_spec ho (A := Img vc x1 α (insert x (insert x1 (keys aux)))) (B := Sol vc x1 (insert x (insert x1 (keys aux)))) (hxp'.1.mono (by simp)) (fun r u h => h.1.1) (fun d u h => h.1)
        (fun r d u r' h1 h2 h3 h4 => img_step hxp'.2.2 hxp'.2.1 h1 h2 h3 h4) hF hσ).bind fun F' hF' => ?_
      refine (prodAll_spec ho F' (sols_mem (imgs_sols hF'))).bind fun pr hpr => ?_
      exact Post.ite (fun _ => Post.ret fun s e => by cases e; exact hF') fun _ => ih _ hxp'.1 (sub_in ho haj hpr.1).1 hF' (newForms_spec ho hf hσ)

include ho h2 h0 in
/-- `__mtshl_step_j` keeps the images -/
theorem stepJ_spec {ex : Bool} {fuel : ℕ} (p : ℕ) {aux : List (Var × R)} (hn : (aux.map Prod.fst).Nodup) (hα : ∀ y ∈ aux, y.1 ≠ x1 ∧ y.2 = α y.1) {x : Var} (hx : x ≠ x1) (hxk : x ∉ keys aux) {a : R} (ha : a = α x)
    {δ : R} (hδ : δ ≠ 0) (hv : ∀ v ∈ vs, v.leadingCoeff = δ ∧ 0 < v.natDegree) {aj : PV Mono R} (haj : OKIn vc (insert x (insert x1 (keys aux))) aj) {F taus : List (PV Mono R)}
    (hF : List.Forall₂ (Img vc x1 α (insert x1 (keys aux))) F vs) (hT : ∀ T ∈ taus, Tau vc x1 α δ (insert x (insert x1 (keys aux))) T) :
    Post (stepJ true ex vc fuel p x1 aux aj F taus x a) fun o => ∀ s, o = some s → List.Forall₂ (Img vc x1 α (insert x (insert x1 (keys aux)))) s vs := by
  have hxW : x ∉ insert x1 (keys aux) := by rw [Finset.mem_insert]; rintro (h | h); exacts [hx h, hxk h]
  unfold stepJ
  refine (lcCorrectAll_spec ho hδ (by simp) hv (hF.imp fun _ _ h => h.mono (Finset.subset_insert _ _)) hT).bind fun F1 hF1 => ?_
  refine (imgs_asg ho hx ha hF1).bind fun Fb hFb => ?_
  rw [Finset.erase_insert hxW] at hFb
  refine (prodAll_spec ho F1 (sols_mem (imgs_sols hF1))).bind fun pr hpr => ?_
  exact stepLoop_spec ho h2 h0 p hn hα hx hxk ha haj hFb _ _ one_okin (sub_in ho haj hpr.1).1 hF1 (forms_of_sols ho (imgs_sols hF1))

end

end Mtshl
end CLPoly
