import Verif.Wang.Multi
import Verif.Upoly.GcdZ
import Verif.Poly.SubstSpec

/-! # Evaluation points -/

namespace CLPoly
namespace Wang
open Mono Mgcd Run Upoly Factor MvPolynomial
open Dense (IsGcd)

/-! ## conversion of a sorted polynomial in one variable -/

section
variable {vc : Var → Var → Bool} {mc : Mono → Mono → Bool}

theorem mergeLoop_filter : ∀ {l : UPoly ℤ} {t : ℕ × ℤ}, ((t :: l).Pairwise fun a b => Upoly.comp a.1 b.1 = true) → pvMergeLoop t l = t :: l.filter fun x => x.2 ≠ 0
  | [], t, _ => rfl
  | u :: l, t, h => by
    obtain ⟨h1, h2⟩ := List.pairwise_cons.1 h
    rw [pvMergeLoop]
    by_cases e : u.2 = 0
    · rw [if_pos e, mergeLoop_filter (t := t) (List.pairwise_cons.2 ⟨fun x hx => h1 x (by simp [hx]), (List.pairwise_cons.1 h2).2⟩), List.filter_cons, if_neg (by simp [e])]
    · have := h1 u (by simp)
      simp only [Upoly.comp, decide_eq_true_eq] at this
      rw [if_neg e, if_neg (by omega), mergeLoop_filter h2, List.filter_cons, if_pos (by simp [e])]

theorem norm_filter {l : UPoly ℤ} (h : l.Pairwise fun a b => Upoly.comp a.1 b.1 = true) : Upoly.norm l = l.filter fun x => x.2 ≠ 0 := by
  unfold Upoly.norm
  rw [vecSort_eq_self (h.imp fun {a b} hab => by simp [Upoly.comp] at *; omega)]
  induction l with
  | nil => rfl
  | cons t l ih =>
    rw [pvMerge]
    by_cases e : t.2 = 0
    · rw [if_pos e, ih (List.pairwise_cons.1 h).2, List.filter_cons, if_neg (by simp [e])]
    · rw [if_neg e, mergeLoop_filter h, List.filter_cons, if_pos (by simp [e])]

theorem val_filter (p : PV Mono ℤ) : val (p.filter fun x => x.2 ≠ 0) = val p := by
  induction p with
  | nil => rfl
  | cons t p ih =>
    rw [List.filter_cons]
    by_cases e : t.2 = 0
    · rw [if_neg (by simp [e]), ih, val_cons, e, monomial_zero, zero_add]
    · rw [if_pos (by simp [e]), val_cons, ih, val_cons]

theorem E_all {d : List (Var × ℤ)} {x : Var} (h : ∀ y ∈ d, y.1 = x) : E d x = (d.map Prod.snd).sum := by
  unfold E
  rw [List.filter_eq_self.2 fun y hy => by simpa using h y hy]

theorem polyToUpoly_sorted (ho : VarOrd vc) (M : MonoOrd vc mc) {x : Var} {p : PV Mono ℤ} (hp : PolySorted vc mc p) (hx : ∀ t ∈ p, ∀ y ∈ t.1.data, y.1 = x) :
    Is (polyToUpoly p) (Factor.ret (val p)) := by
  have hq : PolyOK vc mc (p.filter fun t => t.2 ≠ 0) :=
    ⟨fun t ht => hp.monos t (List.mem_of_mem_filter ht), hp.sorted.sublist List.filter_sublist, fun t ht => by simpa using (List.mem_filter.1 ht).2⟩
  have hv : (val (p.filter fun t => t.2 ≠ 0)).vars ⊆ {x} := by
    rw [← polyVars_eq M hq]
    intro w hw
    rw [polyVars, List.mem_toFinset, List.mem_flatMap] at hw
    obtain ⟨t, ht, hw⟩ := hw
    obtain ⟨y, hy, rfl⟩ := List.mem_map.1 hw
    rw [Finset.mem_singleton]
    exact hx t (List.mem_of_mem_filter ht) y hy
  have h1 := polyToUpoly_spec ho M hq hv
  rw [val_filter] at h1
  have hd0 : ∀ t ∈ p, 0 ≤ t.1.deg := fun t ht => by
    rw [(hp.monos t ht).deg]
    exact List.sum_nonneg fun y hy => by obtain ⟨z, hz, rfl⟩ := List.mem_map.1 hy; exact ((hp.monos t ht).pos z hz).le
  have hs : (p.map fun t => (t.1.deg.toNat, t.2)).Pairwise fun a b => Upoly.comp a.1 b.1 = true := by
    rw [List.pairwise_map]
    refine hp.sorted.imp_of_mem fun {a b} ha hb hab => ?_
    simp only [Upoly.comp, decide_eq_true_eq]
    by_contra hc
    have va := hp.monos a ha
    have vb := hp.monos b hb
    have := M.dom _ _ va vb fun w => by
      by_cases e : w = x
      · subst e
        rw [E_all (hx a ha), E_all (hx b hb), ← va.deg, ← vb.deg]
        have := hd0 a ha
        have := hd0 b hb
        omega
      · rw [E_not_mem fun y hy => by rw [hx a ha y hy]; exact Ne.symm e, E_not_mem fun y hy => by rw [hx b hb y hy]; exact Ne.symm e]
    rw [this] at hab
    exact absurd hab (by simp)
  have e : polyToUpoly p = polyToUpoly (p.filter fun t => t.2 ≠ 0) := by
    unfold polyToUpoly
    rw [norm_filter hs, norm_filter (hs.sublist (List.filter_sublist.map _)), List.filter_map, List.filter_map]
    rw [List.filter_filter]
    congr 1
    exact List.filter_congr fun t _ => by simp
  rw [e]; exact h1

/-! ## partial evaluation -/

/-- evaluation of all variables but `x` -/
noncomputable def evalAt (x : Var) (a : Var → ℤ) : MvPolynomial Var ℤ →+* Polynomial ℤ := eval₂Hom Polynomial.C fun w => if w = x then Polynomial.X else Polynomial.C (a w)

theorem evalAt_eq (x : Var) (a : Var → ℤ) (f : MvPolynomial Var ℤ) : evalAt x a f = (toU x f).map (eval a) := by
  have : evalAt x a = (Polynomial.mapRingHom (eval a)).comp (toU x) := by
    refine MvPolynomial.ringHom_ext (fun r => ?_) fun w => ?_
    · simp [evalAt, toU]
    · simp only [evalAt, toU, eval₂Hom_X', RingHom.comp_apply, Polynomial.coe_mapRingHom]
      split <;> simp
  rw [this]; rfl

theorem evalAt_coeff (x : Var) (a : Var → ℤ) {f c : MvPolynomial Var ℤ} {i : ℕ} (h : IsCoeff x i f c) : (evalAt x a f).coeff i = eval a c := by
  rw [evalAt_eq, Polynomial.coeff_map, isCoeff_iff.1 h]

theorem evalAt_natDegree_le (x : Var) (a : Var → ℤ) (f : MvPolynomial Var ℤ) : (evalAt x a f).natDegree ≤ f.degreeOf x := by
  rw [evalAt_eq]
  exact (Polynomial.natDegree_map_le).trans (natDegree_toU x f).le

theorem assignLoop_monos (f : ℤ → ℤ) (s : Var → Option ℤ) : ∀ (p : PV Mono ℤ) (cur : Mono × ℤ) (out : PV Mono ℤ) (Q : Mono → Prop), (∀ t ∈ p, Q (assignTerm f s t).1) → Q cur.1 → (∀ t ∈ out, Q t.1) →
    ∀ t ∈ assignLoop f s p cur out, Q t.1 := by
  intro p
  induction p with
  | nil =>
    intro cur out Q _ hc ho t ht
    rw [assignLoop] at ht
    split at ht
    · rcases List.mem_append.1 ht with ht | ht
      · exact ho t ht
      · rw [List.mem_singleton.1 ht]; exact hc
    · exact ho t ht
  | cons u p ih =>
    intro cur out Q hp hc ho
    rw [assignLoop]
    split
    · refine ih _ _ Q (fun t ht => hp t (by simp [ht])) (hp u (by simp)) fun t ht => ?_
      split at ht
      · rcases List.mem_append.1 ht with ht | ht
        · exact ho t ht
        · rw [List.mem_singleton.1 ht]; exact hc
      · exact ho t ht
    · exact ih _ _ Q (fun t ht => hp t (by simp [ht])) hc ho

theorem assign_vars (M : MonoOrd vc mc) {s : Var → Option ℤ} {x : Var} {p : PV Mono ℤ} (hp : PolyOK vc mc p) (hs : ∀ w ∈ (val p).vars, w = x ∨ (s w).isSome = true) :
    ∀ t ∈ assign vc mc id s p, ∀ y ∈ t.1.data, y.1 = x := by
  cases p with
  | nil => simp [assign]
  | cons u p =>
    intro t ht y hy
    have hnn : ∀ t ∈ u :: p, ∀ x ∈ t.1.data, 0 ≤ x.2 := fun t ht x hx => ((hp.monos t ht).pos x hx).le
    have hnn' := assignLoop_nonneg (id : ℤ → ℤ) s p (fun t ht => hnn t (List.mem_cons_of_mem _ ht)) (assignTerm id s u) [] (assignTerm_nonneg (hnn u (by simp))) (by simp)
    obtain ⟨h1, _, h3⟩ := polyNormalize_spec M hnn'
    have key : ∀ t ∈ u :: p, ∀ y ∈ (assignTerm id s t).1.data, y.1 = x := by
      intro t ht y hy
      obtain ⟨hy, hy'⟩ := List.mem_filter.1 (show y ∈ t.1.data.filter fun j => (s j.1).isNone from hy)
      have hw : y.1 ∈ (val (u :: p)).vars := by
        rw [← polyVars_eq M hp, polyVars, List.mem_toFinset, List.mem_flatMap]
        exact ⟨t, ht, List.mem_map_of_mem hy⟩
      rcases hs _ hw with e | e
      · exact e
      · simp at hy' e
        rw [hy'] at e
        simp at e
    have hloop := assignLoop_monos id s p (assignTerm id s u) [] (fun m => ∀ w, w ≠ x → expo m w = 0) (fun t ht w hw => ?_) (fun w hw => ?_) (by simp)
    · obtain ⟨z, hz, _, e⟩ := (h3 (expo t.1)).1 ⟨t, ht, rfl⟩
      by_contra hc
      have h5 := hloop z hz y.1 hc
      rw [e] at h5
      have vt := h1.monos t ht
      have := vt.expo_eq y.1
      rw [h5, E_mem M.vo vt.sorted hy] at this
      have := vt.pos y hy
      omega
    · have := (assignTerm_valid (id : ℤ → ℤ) s (hp.monos t (by simp [ht]))).expo_eq w
      rw [E_not_mem fun y hy => by rw [key t (by simp [ht]) y hy]; exact Ne.symm hw] at this
      exact_mod_cast this
    · have := (assignTerm_valid (id : ℤ → ℤ) s (hp.monos u (by simp))).expo_eq w
      rw [E_not_mem fun y hy => by rw [key u (by simp) y hy]; exact Ne.symm hw] at this
      exact_mod_cast this

/-- the values of the point; 0 for variables that do not occur -/
def ptVal (α : List (Var × ℤ)) (w : Var) : ℤ := (α.lookup w).getD 0

theorem assignAt_upoly (ho : VarOrd vc) {α : List (Var × ℤ)} {x : Var} (hx : α.lookup x = none) {f : PV Mono ℤ} (hf : LP vc f) (hα : ∀ w ∈ (val f).vars, w = x ∨ (α.lookup w).isSome = true) :
    Is (polyToUpoly (assignAt vc α f)) (evalAt x (ptVal α) (val f)) := by
  have M := lex_ord ho
  obtain ⟨h1, h2⟩ := assign_spec M (RingHom.id ℤ) (fun v => α.lookup v) fun t ht y hy => ((hf.monos t ht).pos y hy).le
  have h3 := polyToUpoly_sorted ho M (x := x) h1 (assign_vars M hf hα)
  have e : Factor.ret (val (assign vc (lexGt vc) (RingHom.id ℤ) (fun v => α.lookup v) f)) = evalAt x (ptVal α) (val f) := by
    rw [h2]
    have : ∀ g : MvPolynomial Var ℤ, Factor.ret (eval₂ (C.comp (RingHom.id ℤ)) (substOf fun v => α.lookup v) g) = eval₂Hom Polynomial.C (fun w => Factor.ret (substOf (fun v => α.lookup v) w)) g := by
      intro g
      have : (Factor.ret (R := ℤ)).comp (eval₂Hom (C.comp (RingHom.id ℤ)) (substOf fun v => α.lookup v)) = eval₂Hom Polynomial.C (fun w => Factor.ret (substOf (fun v => α.lookup v) w)) := by
        refine MvPolynomial.ringHom_ext (fun r => ?_) fun w => ?_
        · simp [ret_C]
        · simp
      exact RingHom.congr_fun this g
    rw [this, evalAt]
    refine eval₂Hom_congr' rfl (fun w hw _ => ?_) rfl
    rcases hα w hw with e | e
    · rw [e, if_pos rfl, substOf]
      rw [hx]
      exact ret_X x
    · obtain ⟨b, hb⟩ := Option.isSome_iff_exists.1 e
      have hne : w ≠ x := by rintro rfl; rw [hx] at hb; simp at hb
      rw [if_neg hne, substOf, ptVal]
      rw [hb]
      exact ret_C b
  rw [e] at h3
  exact h3

theorem assignLoop_congr (f : ℤ → ℤ) {s s' : Var → Option ℤ} : ∀ (p : PV Mono ℤ) (cur : Mono × ℤ) (out : PV Mono ℤ), (∀ t ∈ p, assignTerm f s t = assignTerm f s' t) → assignLoop f s p cur out = assignLoop f s' p cur out := by
  intro p
  induction p with
  | nil => intro _ _ _; rfl
  | cons t p ih =>
    intro cur out h
    rw [assignLoop, assignLoop, h t (by simp)]
    rw [ih _ _ fun u hu => h u (by simp [hu]), ih _ _ fun u hu => h u (by simp [hu])]

theorem assignTerm_congr (f : ℤ → ℤ) {s s' : Var → Option ℤ} {t : Mono × ℤ} (h : ∀ y ∈ t.1.data, s y.1 = s' y.1) : assignTerm f s t = assignTerm f s' t := by
  unfold assignTerm
  have h1 : (t.1.data.filter fun j => (s j.1).isNone) = t.1.data.filter fun j => (s' j.1).isNone := List.filter_congr fun y hy => by rw [h y hy]
  rw [h1]
  congr 1
  generalize f t.2 = z
  generalize t.1.data = d at h
  induction d generalizing z with
  | nil => rfl
  | cons y d ih =>
    rw [List.foldl_cons, List.foldl_cons, h y (by simp)]
    exact ih _ (fun u hu => h u (by simp [hu]))

theorem assignAt_const (ho : VarOrd vc) {α : List (Var × ℤ)} {f : PV Mono ℤ} (hf : LP vc f) (hα : ∀ w ∈ (val f).vars, (α.lookup w).isSome = true) :
    constVal (assignAt vc α f) = eval (ptVal α) (val f) := by
  have M := lex_ord ho
  have e : assignAt vc α f = assign vc (lexGt vc) (RingHom.id ℤ) (fun v => some (ptVal α v)) f := by
    have key : ∀ t ∈ f, assignTerm (id : ℤ → ℤ) (fun v => α.lookup v) t = assignTerm (RingHom.id ℤ) (fun v => some (ptVal α v)) t := fun t ht => by
      refine assignTerm_congr id fun y hy => ?_
      have hw : y.1 ∈ (val f).vars := by
        rw [← polyVars_eq M hf, polyVars, List.mem_toFinset, List.mem_flatMap]
        exact ⟨t, ht, List.mem_map_of_mem hy⟩
      obtain ⟨b, hb⟩ := Option.isSome_iff_exists.1 (hα _ hw)
      simp [ptVal, hb]
    unfold assignAt assign
    cases f with
    | nil => rfl
    | cons t f =>
      dsimp only
      rw [key t (by simp)]
      congr 1
      exact assignLoop_congr id f _ _ fun u hu => key u (by simp [hu])
  obtain ⟨h1, h2⟩ := assign_full M (RingHom.id ℤ) (a := ptVal α) hf
  rw [← e] at h1 h2
  have hn := (isNumber_iff M h1).2 ⟨_, h2⟩
  have := number_val ho h1 hn
  rw [h2] at this
  have := C_injective _ _ this
  rw [← this]
  rfl

/-! ## the point -/

theorem decodePt_keys (bound : ℕ) : ∀ (vars : List Var) (i : ℕ), (decodePt bound vars i).map Prod.fst = vars
  | [], _ => rfl
  | v :: vs, i => by rw [decodePt, List.map_cons, decodePt_keys bound vs]

theorem lookup_keys {α : List (Var × ℤ)} {w : Var} : (α.lookup w).isSome = true ↔ w ∈ α.map Prod.fst := by
  induction α with
  | nil => simp
  | cons y α ih =>
    obtain ⟨a, b⟩ := y
    rw [List.lookup_cons, List.map_cons, List.mem_cons]
    split
    · next e => rw [beq_iff_eq] at e; simp [e]
    · next e =>
      rw [ih]
      have : w ≠ a := by simpa using e
      simp [this]

theorem shell_spec {ok : List (Var × ℤ) → Option Bool} {vars : List Var} {bound : ℕ} : ∀ (is : List ℕ) (skip : ℕ) {α : List (Var × ℤ)}, shell ok vars bound is skip = some (.inl α) →
    ok α = some true ∧ α.map Prod.fst = vars := by
  intro is
  induction is with
  | nil => intro skip α h; simp [shell] at h
  | cons i is ih =>
    intro skip α h
    rw [shell] at h
    split at h
    · exact ih _ h
    · rw [Option.bind_eq_some_iff] at h
      obtain ⟨b, hb, h⟩ := h
      split at h
      · exact ih _ h
      · next hbt =>
        split at h
        · exact ih _ h
        · cases h
          rw [Bool.not_eq_false] at hbt
          exact ⟨by rw [hb, hbt], decodePt_keys _ _ _⟩

theorem shells_spec {ok : List (Var × ℤ) → Option Bool} {vars : List Var} : ∀ (n bound skip : ℕ) {α : List (Var × ℤ)}, shells ok vars n bound skip = some α → ok α = some true ∧ α.map Prod.fst = vars := by
  intro n
  induction n with
  | zero => intro _ _ α h; simp [shells] at h
  | succ n ih =>
    intro bound skip α h
    rw [shells, Option.bind_eq_some_iff] at h
    obtain ⟨r, hr, h⟩ := h
    match r, hr, h with
    | .inl β, hr, h => cases h; exact shell_spec _ _ hr
    | .inr s, _, h => exact ih _ _ h

/-- no square of a non-constant polynomial -/
def USqf (F : Polynomial ℤ) : Prop := ∀ e : Polynomial ℤ, e * e ∣ F → e.natDegree = 0

/-- **specification** of a point for the main variable `x`: it gives a value to exactly the other variables of `f`; the degree in `x` is kept, also modulo `p`; the values are squarefree -/
structure GoodPoint (x : Var) (p : ℕ) (f : MvPolynomial Var ℤ) (α : List (Var × ℤ)) : Prop where
  keys : ∀ w, w ∈ α.map Prod.fst ↔ w ∈ f.vars ∧ w ≠ x
  lead : (evalAt x (ptVal α) f).coeff (f.degreeOf x) ≠ 0
  modp : p ≠ 0 → ¬ (p : ℤ) ∣ (evalAt x (ptVal α) f).coeff (f.degreeOf x)
  sqf : USqf (evalAt x (ptVal α) f)

/-- **specification**: the values of the factors of the leading coefficient have absolute value at least 2 and are pairwise coprime -/
def GoodVals (a : Var → ℤ) (facs : List (MvPolynomial Var ℤ)) : Prop := (∀ l ∈ facs, 2 ≤ (eval a l).natAbs) ∧ facs.Pairwise fun l m => Int.gcd (eval a l) (eval a m) = 1

theorem usqf_of_gcd {F D : Polynomial ℤ} (h : IsGcd D F (Polynomial.derivative F)) (hd : D.natDegree = 0) (F0 : F ≠ 0) : USqf F := by
  intro e he
  have D0 : D ≠ 0 := by rintro rfl; exact F0 (zero_dvd_iff.1 h.1)
  obtain ⟨k, hk⟩ := he
  have h1 : e ∣ F := ⟨e * k, by rw [hk, mul_assoc]⟩
  have h2 : e ∣ Polynomial.derivative F := by
    rw [hk, Polynomial.derivative_mul, Polynomial.derivative_mul]
    exact ⟨2 * Polynomial.derivative e * k + e * Polynomial.derivative k, by ring⟩
  have := Polynomial.natDegree_le_of_dvd (h.2.2 e h1 h2) D0
  omega

variable {V : Finset Var} {N : ℕ}

theorem evalOK_spec (ho : VarOrd vc) {E : Env} (hE : E.vc = vc) (hS : Small V N) (hprev : PrevOK E.prev) {f : PV Mono ℤ} (hf : In vc V N f) {x : Var} {facs : List (PV Mono ℤ)}
    (hfacs : ∀ l ∈ facs, LP vc l ∧ ∀ w ∈ (val l).vars, w ∈ (val f).vars ∧ w ≠ x) {p : ℕ} {α : List (Var × ℤ)} (hk : α.map Prod.fst = otherVars E.vc f x)
    (h : evalOK E f (leadIn E.vc (lexGt E.vc) f x).1 facs p α = some true) : GoodPoint x p (val f) α ∧ GoodVals (ptVal α) (facs.map val) := by
  have M := lex_ord ho
  rw [hE] at hk h
  have keys : ∀ w, w ∈ α.map Prod.fst ↔ w ∈ (val f).vars ∧ w ≠ x := fun w => by
    rw [hk, otherVars, List.mem_filter, mem_pvVars ho, ← polyVars_eq M hf.ok]
    simp
  have hx : α.lookup x = none := by
    by_contra hc
    exact ((keys x).1 (lookup_keys.1 (Option.isSome_iff_ne_none.2 hc))).2 rfl
  have hα : ∀ w ∈ (val f).vars, w = x ∨ (α.lookup w).isSome = true := fun w hw => by
    by_cases e : w = x
    · exact .inl e
    · exact .inr (lookup_keys.2 ((keys w).2 ⟨hw, e⟩))
  obtain ⟨L, hL⟩ : ∃ L, L = (leadIn vc (lexGt vc) f x).1 := ⟨_, rfl⟩
  obtain ⟨_, l2, l3⟩ := leadIn_spec M hf.ok x
  rw [← hL] at h l2 l3
  have hLv : ∀ w ∈ (val L).vars, (α.lookup w).isSome = true := fun w hw => by
    refine lookup_keys.2 ((keys w).2 ⟨l3.vars_subset hw, ?_⟩)
    rintro rfl
    exact l3.not_vars hw
  have hdelta : constVal (if isNumber L = true then L else assignAt E.vc α L) = (evalAt x (ptVal α) (val f)).coeff ((val f).degreeOf x) := by
    rw [evalAt_coeff x _ l3, hE]
    split
    · next hn =>
      have := number_val ho l2 hn
      rw [this, eval_C]
    · exact assignAt_const ho l2 hLv
  have hf0 := assignAt_upoly ho hx hf.ok hα
  unfold evalOK at h
  dsimp only at h
  rw [hdelta, hE] at h
  split at h
  · simp at h
  next h1 =>
  split at h
  · simp at h
  next h2 =>
  have F0 : evalAt x (ptVal α) (val f) ≠ 0 := fun e => h1 (by rw [e, Polynomial.coeff_zero])
  have hmod : p ≠ 0 → ¬ (p : ℤ) ∣ (evalAt x (ptVal α) (val f)).coeff ((val f).degreeOf x) := fun hp hd => h2 ⟨hp, Int.fmod_eq_zero_of_dvd hd⟩
  have hvals : valsOK (facs.map fun l => constVal (assignAt vc α l)) = true → GoodVals (ptVal α) (facs.map val) := fun hv => by
    have e : facs.map (fun l => constVal (assignAt vc α l)) = facs.map fun l => eval (ptVal α) (val l) :=
      List.map_congr_left fun l hl => assignAt_const ho (hfacs l hl).1 fun w hw => lookup_keys.2 ((keys w).2 ((hfacs l hl).2 w hw))
    rw [e, valsOK, Bool.and_eq_true, List.all_eq_true, decide_eq_true_eq, List.pairwise_map] at hv
    refine ⟨fun l hl => ?_, ?_⟩
    · obtain ⟨q, hq, rfl⟩ := List.mem_map.1 hl
      have := hv.1 _ (List.mem_map_of_mem hq)
      rw [decide_eq_true_eq] at this
      exact this
    · rw [List.pairwise_map]; exact hv.2
  split at h
  · next hd =>
    have hz := (is_nil_iff (derivative_is hf0)).1 hd
    refine ⟨⟨keys, h1, hmod, fun e he => ?_⟩, hvals (Option.some.inj h)⟩
    have h0 : (evalAt x (ptVal α) (val f)).natDegree = 0 := Polynomial.natDegree_eq_zero_of_derivative_eq_zero hz
    have := Polynomial.natDegree_le_of_dvd ((dvd_mul_right e e).trans he) F0
    omega
  · next hd =>
    rw [Option.map_eq_some_iff] at h
    obtain ⟨g, hg, h⟩ := h
    have hdeg : (evalAt x (ptVal α) (val f)).natDegree < 2 ^ 63 - 1 := lt_of_le_of_lt ((evalAt_natDegree_le x _ _).trans (hf.deg x)) hS.max
    obtain ⟨D, hD1, hD2⟩ := gcdZ_spec hprev (derivative_is hf0) hf0 (lt_of_le_of_lt (Polynomial.natDegree_derivative_le _) (by omega)) hdeg hg
    split at h
    · simp at h
    · next hc =>
      refine ⟨⟨keys, h1, hmod, usqf_of_gcd hD2 ?_ F0⟩, hvals h⟩
      by_contra hne
      refine hc ⟨fun e => ?_, by rw [is_deg hD1]; omega⟩
      rw [(is_nil_iff hD1).1 e] at hne
      simp at hne

/-- the factors of the leading coefficient used by the choice of the point -/
def LcFactors (facL : PV Mono ℤ → Run (ℤ × List (PV Mono ℤ × ℕ))) (L : PV Mono ℤ) (facs : List (PV Mono ℤ)) : Prop :=
  (isNumber L = true ∧ facs = []) ∨ (isNumber L = false ∧ ∃ s r, facL L s = some r ∧ facs = r.1.2.map Prod.fst)

/-- **`__select_eval_point`** -/
theorem selectEval_spec (ho : VarOrd vc) {E : Env} (hE : E.vc = vc) (hS : Small V N) (hprev : PrevOK E.prev) {f : PV Mono ℤ} (hf : In vc V N f) (f0 : f ≠ []) {x : Var}
    {facL : PV Mono ℤ → Run (ℤ × List (PV Mono ℤ × ℕ))} (hfac : ∀ L, In vc V N L → Post (facL L) fun r => FacX False vc (lexGt vc) (val L) r.1 r.2) {skip p : ℕ} :
    Post (selectEval E facL f x skip p) fun α => GoodPoint x p (val f) α ∧ ∃ facs, LcFactors facL (leadIn vc (lexGt vc) f x).1 facs ∧ GoodVals (ptVal α) (facs.map val) := by
  have M := lex_ord ho
  have fz : val f ≠ 0 := fun e => f0 ((hf.ok.val_eq_zero M).1 e)
  obtain ⟨_, l2, l3⟩ := leadIn_spec M hf.ok x
  have hL : In vc V N (leadIn vc (lexGt vc) f x).1 := hf.of_coeff l2 l3
  have L0 : val (leadIn vc (lexGt vc) f x).1 ≠ 0 := by
    rw [isCoeff_iff.1 l3]
    exact lcV_ne_zero fz
  unfold selectEval
  dsimp only
  rw [hE]
  refine Post.bind (P := fun facs => LcFactors facL (leadIn vc (lexGt vc) f x).1 facs ∧ ∀ l ∈ facs, LP vc l ∧ ∀ w ∈ (val l).vars, w ∈ (val f).vars ∧ w ≠ x) ?_ fun facs hfacs => Post.lift fun α hα => ?_
  · refine Post.ite (fun hn => Post.ret ⟨.inl ⟨hn, rfl⟩, by simp⟩) fun hn => ?_
    have hP : Post (facL (leadIn vc (lexGt vc) f x).1) fun r => FacX False vc (lexGt vc) (val (leadIn vc (lexGt vc) f x).1) r.1 r.2 ∧ ∃ s q, facL (leadIn vc (lexGt vc) f x).1 s = some q ∧ q.1 = r :=
      (hfac _ hL).and fun s r hr => ⟨s, r, hr, rfl⟩
    refine hP.bind fun r hr => Post.ret ⟨.inr ⟨by simpa using hn, ?_⟩, fun l hl => ?_⟩
    · obtain ⟨s, q, hq, rfl⟩ := hr.2
      exact ⟨s, q, hq, rfl⟩
    · obtain ⟨y, hy, rfl⟩ := List.mem_map.1 hl
      refine ⟨hr.1.ok y hy, fun w hw => ?_⟩
      have hd : val y.1 ∣ val (leadIn vc (lexGt vc) f x).1 := by
        have h1 := (dvd_pow_self (val y.1) (hr.1.pos y hy).ne').trans (List.dvd_prod (List.mem_map_of_mem (f := fun x : PV Mono ℤ × ℕ => val x.1 ^ x.2) hy))
        rcases hr.1.prod with e | ⟨_, e⟩
        · rw [← e]; exact Dvd.dvd.mul_left h1 _
        · rw [← neg_neg (val (leadIn vc (lexGt vc) f x).1), ← e]; exact (dvd_neg).2 (Dvd.dvd.mul_left h1 _)
      have hw' := vars_of_dvd hd L0 hw
      refine ⟨l3.vars_subset hw', ?_⟩
      rintro rfl
      exact l3.not_vars hw'
  · obtain ⟨a, b⟩ := shells_spec _ _ _ hα
    obtain ⟨c, d⟩ := evalOK_spec ho hE hS hprev hf hfacs.2 (by rw [b, hE]) (by rw [hE]; exact a)
    exact ⟨c, facs, hfacs.1, d⟩

end

end Wang
end CLPoly
