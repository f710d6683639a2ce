import Verif.Charset.RegZd

/-! # `RCtoSqrfree`: correctness of the results -/

namespace CLPoly
namespace Charset
open Mono MvPolynomial Mgcd Run

/-! ## results of computations that may not end -/

/-- every result satisfies `P` -/
def Snd {α : Type} (o : O2 α) (P : α → Prop) : Prop := ∀ a, o = ok2 a → P a

theorem Snd.ok {α : Type} {P : α → Prop} {a : α} (h : P a) : Snd (ok2 a) P := fun b e => by cases e; exact h
theorem Snd.mono {α : Type} {P P' : α → Prop} {o : O2 α} (h : Snd o P) (hP : ∀ a, P a → P' a) : Snd o P' := fun a e => hP a (h a e)
theorem Snd.and {α : Type} {P P' : α → Prop} {o : O2 α} (h : Snd o P) (h' : Snd o P') : Snd o fun a => P a ∧ P' a := fun a e => ⟨h a e, h' a e⟩
theorem Snd.bind {α β : Type} {P : α → Prop} {Q : β → Prop} {o : O2 α} {f : α → O2 β} (h : Snd o P) (hf : ∀ a, P a → Snd (f a) Q) : Snd (bind2 o f) Q := by
  intro b e
  rcases o with - | - | a
  · cases e
  · cases e
  · exact hf a (h a rfl) b e
theorem Snd.give {α : Type} {P : α → Prop} : Snd (some none : O2 α) P := fun a e => by cases e
theorem Snd.none {α : Type} {P : α → Prop} : Snd (none : O2 α) P := fun a e => by cases e
theorem Snd.self {α : Type} (o : O2 α) : Snd o fun a => o = ok2 a := fun _ e => e
theorem Conv.snd {α : Type} {P : α → Prop} {o : ℕ → O2 α} (h : Conv o P) (hm : ∀ {n m}, n ≤ m → OLe (o n) (o m)) (n : ℕ) : Snd (o n) P := by
  obtain ⟨N, r, h1, h2⟩ := h
  intro a e
  have h3 := hm (le_max_left n N) _ e
  rw [h1 _ (le_max_right n N)] at h3
  exact h2 a (Option.some.inj h3)

/-- collecting lists -/
theorem Snd.collect {α β : Type} {f : α → O2 (List β)} {Q : α → List β → Prop} : ∀ {l : List α}, (∀ a ∈ l, Snd (f a) (Q a)) → Snd (collect1 f l) fun r =>
    (∀ a ∈ l, ∃ s, Q a s ∧ ∀ x ∈ s, x ∈ r) ∧ ∀ x ∈ r, ∃ a ∈ l, ∃ s, Q a s ∧ x ∈ s := by
  intro l
  induction l with
  | nil => intro _; exact Snd.ok ⟨by simp, by simp⟩
  | cons a l ih =>
    intro h
    refine (h a (by simp)).bind fun x hx => (ih fun b hb => h b (List.mem_cons_of_mem _ hb)).bind fun y hy => Snd.ok ⟨?_, ?_⟩
    · intro b hb
      rcases List.mem_cons.1 hb with rfl | hb
      · exact ⟨x, hx, fun z hz => List.mem_append_left _ hz⟩
      · obtain ⟨s, h1, h2⟩ := hy.1 b hb
        exact ⟨s, h1, fun z hz => List.mem_append_right _ (h2 z hz)⟩
    · intro z hz
      rcases List.mem_append.1 hz with hz | hz
      · exact ⟨a, by simp, x, hx, hz⟩
      · obtain ⟨b, hb, s, h1, h2⟩ := hy.2 z hz
        exact ⟨b, List.mem_cons_of_mem _ hb, s, h1, h2⟩

/-! ## discriminants -/

section discr
variable {v : Var} {f : MvPolynomial Var ℤ}

theorem pderiv_deg (v : Var) (f : MvPolynomial Var ℤ) : (pderiv v f).degreeOf v = f.degreeOf v - 1 := by
  rw [← natDegree_toU, toU_pderiv, Polynomial.natDegree_derivative, natDegree_toU]

/-- the resultant with the derivative -/
theorem discr_res (hf : f.degreeOf v ≠ 0) : ∃ e : ℕ, Polynomial.resultant (toU v f) (toU v (pderiv v f)) (f.degreeOf v) (f.degreeOf v - 1) = (-1) ^ e * (toU v f).leadingCoeff * (toU v f).discr := by
  have hd : 0 < (toU v f).degree := Polynomial.natDegree_pos_iff_degree_pos.1 (by rw [natDegree_toU]; omega)
  have hr := Polynomial.resultant_deriv hd
  rw [← toU_pderiv, natDegree_toU] at hr
  exact ⟨_, hr⟩

theorem discr_comb (hf : f.degreeOf v ≠ 0) : ∃ a b, (toU v f).leadingCoeff * (toU v f).discr = a * f + b * pderiv v f := by
  obtain ⟨e, h⟩ := discr_res hf
  obtain ⟨a, b, h'⟩ := Res.resultant_comb (v := v) (f := f) (g := pderiv v f) (.inl hf)
  rw [natDegree_toU, natDegree_toU, pderiv_deg, h] at h'
  refine ⟨(-1) ^ e * a, (-1) ^ e * b, ?_⟩
  have h2 : ((-1 : MvPolynomial Var ℤ) ^ e) * (-1) ^ e = 1 := by rw [← mul_pow]; simp
  calc (toU v f).leadingCoeff * (toU v f).discr = ((-1) ^ e * (-1) ^ e) * ((toU v f).leadingCoeff * (toU v f).discr) := by rw [h2, one_mul]
    _ = (-1) ^ e * ((-1) ^ e * (toU v f).leadingCoeff * (toU v f).discr) := by ring
    _ = _ := by rw [h']; ring

theorem discr_sub (hf : f.degreeOf v ≠ 0) : ∃ e : ℕ, Res.Sub (toU v f) (toU v (pderiv v f)) (f.degreeOf v) ((pderiv v f).degreeOf v) 0 =
    Polynomial.C ((-1) ^ e * (toU v f).leadingCoeff * (toU v f).discr) := by
  obtain ⟨e, h⟩ := discr_res hf
  refine ⟨e, ?_⟩
  rw [← h, pderiv_deg]
  unfold Res.Sub
  rw [Nat.sub_zero, Nat.sub_zero, Nat.sub_zero, Res.SB_resultant]
  · rw [natDegree_toU]
  · rw [natDegree_toU, pderiv_deg]
  · omega

theorem pderiv_vars {V : Finset Var} (h : f.vars ⊆ V) : (pderiv v f).vars ⊆ V := by
  intro w hw
  by_contra h0
  have h1 : f.degreeOf w = 0 := degreeOf_zero_iff.2 fun hm => h0 (h hm)
  refine degreeOf_zero_iff.1 (Nat.le_zero.1 ?_) hw
  rw [← h1, degreeOf_eq_sup]
  refine Finset.sup_le fun s hs => ?_
  have h1 := mem_support_iff.1 hs
  rw [coeff_pderiv] at h1
  have h2 := monomial_le_degreeOf w (mem_support_iff.2 (left_ne_zero_of_mul h1))
  rw [Finsupp.add_apply] at h2
  omega

/-- the variables of the discriminant -/
theorem discr_vars {V : Finset Var} (hf : f.degreeOf v ≠ 0) (h : f.vars ⊆ V) (hv : v ∉ ((toU v f).discr).vars) : ((toU v f).discr).vars ⊆ V := by
  obtain ⟨e, h1⟩ := discr_sub hf
  obtain ⟨s, h2, h3, -⟩ := Res.exists_sub v f (pderiv v f) (f.degreeOf v) ((pderiv v f).degreeOf v) 0
  have f0 : f ≠ 0 := by rintro rfl; simp at hf
  by_cases hd : (toU v f).discr = 0
  · rw [hd, vars_0]; exact Finset.empty_subset _
  have hl : (toU v f).leadingCoeff ≠ 0 := Polynomial.leadingCoeff_ne_zero.2 (toU_ne_zero f0)
  rw [h1] at h2
  have hs : s = (-1) ^ e * (toU v f).leadingCoeff * (toU v f).discr := by
    have := congrArg (Polynomial.eval (X v)) h2
    rwa [toU_eval, Polynomial.eval_C] at this
  obtain ⟨D, hD⟩ : ∃ D, D = (toU v f).discr := ⟨_, rfl⟩
  rw [← hD] at hs hd hv ⊢
  obtain ⟨c, hc⟩ : ∃ c, c = (-1) ^ e * (toU v f).leadingCoeff := ⟨_, rfl⟩
  have c0 : c ≠ 0 := by rw [hc]; exact mul_ne_zero (pow_ne_zero _ (by norm_num)) hl
  rw [← hc] at hs
  have hs0 : s ≠ 0 := by rw [hs]; exact mul_ne_zero c0 hd
  have hdv : D ∣ s := by rw [hs]; exact dvd_mul_left _ _
  clear h1 h2 hc hD
  intro w hw
  have hw' := vars_of_dvd hdv hs0 hw
  by_contra hn
  have hwv : w ≠ v := fun e => hv (e ▸ hw)
  have h4 := h3 w hwv
  rw [degreeOf_zero_iff.2 fun hm => hn (h hm), degreeOf_zero_iff.2 fun hm => hn (pderiv_vars h hm), mul_zero, mul_zero, add_zero, Nat.le_zero, degreeOf_zero_iff] at h4
  exact h4 hw'

end discr

variable {ord : List Var}

/-- what `discriminant` returns for an element of a triangular set -/
structure DOut (ord : List Var) (j : ℕ) (t d : PV Mono ℤ) : Prop where
  ok : LP (varCustom ord) d
  vars : (val d).vars ⊆ Lo ord j
  eq : val d = (toU (lv ord j) (val t)).discr

theorem discC_conv {A : List (PV Mono ℤ)} {t : PV Mono ℤ} (h : Lvl0 ord A t) : Conv (fun k => discC (varCustom ord) true k t (lv ord A.length)) (DOut ord A.length t) := by
  have ho := varCustom_ord ord
  unfold discC
  by_cases hf : resFits (varCustom ord) (lv ord A.length) t t = true
  · simp only [hf, Bool.not_true, Bool.and_false, Bool.false_eq_true, if_false]
    have hcap := resFits_ok ho h.ok h.ok hf
    have hp := h.deg_pos
    obtain ⟨N, out, h1, h2, -, h3⟩ := Res.discriminant_spec coefDivZ_ok (lex_ord ho) h.ok (lv ord A.length) rfl (fun w => by
      have := hcap w
      rw [max_self, Finset.union_self] at this
      rwa [show ∀ a b : ℕ, (a + 1) * (2 * a * b) = (a + 1) * (a * b + a * b) by intros; ring])
    obtain ⟨h4, h5⟩ := h3 (by omega)
    refine ⟨N, some out, fun k hk => by beta_reduce; rw [h1 k hk]; rfl, fun a e => ?_⟩
    cases e
    refine ⟨h2, Lo_free ?_ h4, h5⟩
    rw [h5] at h4 ⊢
    exact discr_vars (by omega) h.vars h4
  · simp only [hf, Bool.not_false, Bool.and_true, if_true]
    exact Conv.give

/-- `a` is not a multiple zero: the derivative in the main variable does not vanish at a common zero of `A` and `t` -/
def Sp (ord : List Var) (i : ℕ) (A : List (PV Mono ℤ)) (t : PV Mono ℤ) : Prop :=
  ∀ (X : Fld) (a : Var → X.K), Zr A a → aeval a (val t) = 0 → aeval a (pderiv (lv ord i) (val t)) ≠ 0

theorem sp_of_discr {A : List (PV Mono ℤ)} {t : PV Mono ℤ} (h : Lvl0 ord A t) (hr : ∀ X : Fld, Reg X.K ord A t)
    (hd : ∀ (X : Fld) (a : Var → X.K), Zr A a → aeval a (toU (lv ord A.length) (val t)).discr ≠ 0) : Sp ord A.length A t := by
  intro X a ha h1 h2
  have hp := h.deg_pos
  obtain ⟨u, w, e⟩ := discr_comb (v := lv ord A.length) (f := val t) (by omega)
  have := congrArg (aeval a) e
  rw [map_mul, map_add, map_mul, map_mul, h1, h2, mul_zero, mul_zero, add_zero] at this
  exact (mul_eq_zero.1 this).elim (hr X a ha) (hd X a ha)

theorem lastDisc_conv (hn : ord.Nodup) {T : List (PV Mono ℤ)} (hT : RA ord T) : ∀ k < T.length, Conv (fun n => lastDisc (varCustom ord) true n T k)
    (fun j => j ≤ k ∧ (∀ i, j < i → i ≤ k → Sp ord i (T.take i) (T.getD i [])) ∧
      (j ≠ 0 → ∃ a : Var → ℂ, Zr (T.take j) a ∧ aeval a (toU (lv ord j) (val (T.getD j []))).discr = 0)) := by
  intro k
  induction k with
  | zero => intro _; exact Conv.ok ⟨le_rfl, fun i h1 h2 => by omega, fun h => absurd rfl h⟩
  | succ k ih =>
    intro hk
    have hl := lvl0_at hT.tc hk
    have hlen : (T.take (k + 1)).length = k + 1 := by rw [List.length_take]; omega
    have hRA : RA ord (T.take (k + 1)) := fun X => (hT X).take _
    have hreg : ∀ X : Fld, Reg X.K ord (T.take (k + 1)) (T.getD (k + 1) []) := fun X => (hT X).2 _ _ _ (getD_split hk)
    simp only [lastDisc]
    have e := (hl.num hn).2
    have hc := discC_conv hl
    rw [hlen] at e hc
    rw [e]
    refine hc.bind fun d hd => ?_
    have hv : (val d).vars ⊆ Lo ord (T.take (k + 1)).length := by rw [hlen]; exact hd.vars
    refine ((Conv.all fun X : Fld => iterResB_conv (K := X.K) hn hRA.tc hd.ok hv).and (iterResB_back (K := ℂ) hn (hRA ⟨ℂ⟩) hd.ok hv)).bind fun r hr => ?_
    by_cases h0 : r = []
    · simp only [if_pos h0]
      refine Conv.ok ⟨le_rfl, fun i h1 h2 => by omega, fun _ => ?_⟩
      obtain ⟨a, h1, h2⟩ := hr.2 h0
      exact ⟨a, h1, by rw [← hd.eq]; exact h2⟩
    · simp only [if_neg h0]
      refine (ih (by omega)).mono fun j hj => ⟨by omega, fun i h1 h2 => ?_, hj.2.2⟩
      rcases Nat.lt_or_ge k i with h3 | h3
      · obtain rfl : i = k + 1 := by omega
        have := sp_of_discr hl hreg fun X a ha => by
          have h4 := (hr.1 X).ne h0 ha
          rw [hlen, ← hd.eq]; exact h4
        rwa [hlen] at this
      · exact hj.2.1 i h1 h3

/-! ## remainders of a polynomial of the next level -/

section maps
variable {K : Type*} [Field K]

theorem pseudo_map {a : Var → K} {x y : Var} {isL : Bool} {G F Q S : MvPolynomial Var ℤ} (h : IsPseudo y isL G F Q S) (hx : x ∉ F.vars) (hl : aeval a (toU y F).leadingCoeff ≠ 0) (hF : aeval a F = 0) :
    ∃ c : K, c ≠ 0 ∧ (toU x S).map (ev a) = Polynomial.C c * (toU x G).map (ev a) := by
  obtain ⟨⟨L, e, hL, -, -, heq⟩, -⟩ := h
  have hL' : aeval a L ≠ 0 := by rw [isCoeff_iff.1 hL, ← natDegree_toU]; exact hl
  have hLx : x ∉ (L ^ e).vars := fun hc => hx (hL.vars_subset (vars_pow _ _ hc))
  refine ⟨(aeval a L) ^ e, pow_ne_zero _ hL', ?_⟩
  have := congrArg (fun p => (toU x p).map (ev a)) heq
  simp only [map_mul, map_add, Polynomial.map_add, Polynomial.map_mul] at this
  rw [toU_free hLx, toU_free hx, Polynomial.map_C, Polynomial.map_C] at this
  rw [show (ev a) F = 0 from hF, Polynomial.C_0, mul_zero, zero_add] at this
  rw [← this, show (ev a) (L ^ e) = (aeval a L) ^ e from map_pow _ _ _]

theorem remChain_scale (hn : ord.Nodup) {j : ℕ} (hj : j < ord.length) : ∀ {A : List (PV Mono ℤ)} {f g : PV Mono ℤ}, RC K ord A → A.length ≤ j → LP (varCustom ord) f →
    remChain (varCustom ord) true A f = ok2 g → ∀ a : Var → K, Zr A a → ∃ c : K, c ≠ 0 ∧ (toU (lv ord j) (val g)).map (ev a) = Polynomial.C c * (toU (lv ord j) (val f)).map (ev a) := by
  intro A
  induction A using List.reverseRecOn with
  | nil =>
    intro f g _ _ _ e a _
    cases e
    exact ⟨1, one_ne_zero, by rw [Polynomial.C_1, one_mul]⟩
  | append_singleton A c ih =>
    intro f g hA hl hf e a ha
    rw [List.length_append, List.length_singleton] at hl
    rw [remChain_snoc] at e
    obtain ⟨hA', hc, hr⟩ := RC.snoc.1 hA
    rw [(hc.num hn).2] at e
    obtain ⟨r, e1, hr'⟩ := premD_spec (varCustom_ord ord) (v := lv ord A.length) hf hc.ok hc.ne
    rw [e1] at e
    cases r with
    | none => cases e
    | some S =>
      obtain ⟨h1, Q, -, hp⟩ := hr' S rfl
      rw [Zr.append, Zr.single] at ha
      obtain ⟨c1, k1, k2⟩ := pseudo_map (x := lv ord j) hp (fun hm => lv_not_Lo hn (by omega) hj (hc.vars hm)) (hr a ha.1) ha.2
      obtain ⟨c2, k3, k4⟩ := ih hA' (by omega) h1 e a ha.1
      exact ⟨c2 * c1, mul_ne_zero k3 k1, by rw [k4, k2, Polynomial.C_mul, mul_assoc]⟩

/-- the pseudo-quotient by a polynomial that divides at a point -/
theorem pquo_map {x : Var} {G F Q S : MvPolynomial Var ℤ} (h : IsPseudo x true G F Q S) (hd0 : 0 < F.degreeOf x) (a : Var → K) (hFa : aeval a (toU x F).leadingCoeff ≠ 0)
    (hdv : (toU x F).map (ev a) ∣ (toU x G).map (ev a)) : ∃ c : K, c ≠ 0 ∧ (toU x Q).map (ev a) * (toU x F).map (ev a) = Polynomial.C c * (toU x G).map (ev a) := by
  obtain ⟨⟨L, e, hL, -, -, heq⟩, hS⟩ := h
  have hL' : aeval a L ≠ 0 := by rw [isCoeff_iff.1 hL, ← natDegree_toU]; exact hFa
  have hLx : x ∉ (L ^ e).vars := fun hc => hL.not_vars (vars_pow _ _ hc)
  have h1 := congrArg (fun p => (toU x p).map (ev a)) heq
  simp only [map_mul, map_add, Polynomial.map_add, Polynomial.map_mul] at h1
  rw [toU_free hLx, Polynomial.map_C, show (ev a) (L ^ e) = (aeval a L) ^ e from map_pow _ _ _] at h1
  refine ⟨(aeval a L) ^ e, pow_ne_zero _ hL', ?_⟩
  have s0 : (toU x S).map (ev a) = 0 := by
    by_contra hne
    have h2 : (toU x F).map (ev a) ∣ (toU x S).map (ev a) := by
      have : (toU x S).map (ev a) = Polynomial.C ((aeval a L) ^ e) * (toU x G).map (ev a) - (toU x Q).map (ev a) * (toU x F).map (ev a) := by rw [h1]; ring
      rw [this]
      exact dvd_sub (Dvd.dvd.mul_left hdv _) (Dvd.intro_left _ rfl)
    have h2 := Polynomial.natDegree_le_of_dvd h2 hne
    rw [ev_natDegree hFa] at h2
    have h3 := (Polynomial.natDegree_map_le (f := ev a) (p := toU x S))
    rw [natDegree_toU] at h3
    rcases hS with rfl | hS
    · exact hne (by rw [map_zero, Polynomial.map_zero])
    · omega
  rw [h1, s0, add_zero]

/-- the quotient by a common divisor of a polynomial and its derivative has the same zeros -/
theorem sqf_root [CharZero K] {P D Q : Polynomial K} (hP : P ≠ 0) (h1 : D ∣ Polynomial.derivative P) {c : K} (hc : c ≠ 0) (he : Q * D = Polynomial.C c * P) (y : K) :
    Q.eval y = 0 ↔ P.eval y = 0 := by
  have hPc : Polynomial.C c * P ≠ 0 := mul_ne_zero (Polynomial.C_ne_zero.2 hc) hP
  have hQD : Q * D ≠ 0 := he ▸ hPc
  constructor
  · intro h
    have := congrArg (Polynomial.eval y) he
    rw [Polynomial.eval_mul, Polynomial.eval_mul, h, zero_mul, Polynomial.eval_C, eq_comm, mul_eq_zero] at this
    exact this.resolve_left hc
  · intro h
    have hr : P.IsRoot y := h
    have hm := Polynomial.derivative_rootMultiplicity_of_root hr
    have hpos := (Polynomial.rootMultiplicity_pos hP).2 hr
    have hm2 : Q.rootMultiplicity y + D.rootMultiplicity y = P.rootMultiplicity y := by
      rw [← Polynomial.rootMultiplicity_mul hQD, he, Polynomial.rootMultiplicity_mul hPc, Polynomial.rootMultiplicity_C, zero_add]
    have hQ : Q ≠ 0 := left_ne_zero_of_mul hQD
    by_contra hq
    have hq0 : Q.rootMultiplicity y = 0 := Polynomial.rootMultiplicity_eq_zero hq
    have hP' : Polynomial.derivative P ≠ 0 := by
      intro h0
      have hc := Polynomial.natDegree_eq_zero_of_derivative_eq_zero h0
      rw [Polynomial.natDegree_eq_zero] at hc
      obtain ⟨z, rfl⟩ := hc
      rw [Polynomial.eval_C] at h
      rw [h, Polynomial.C_0] at hP
      exact hP rfl
    have := Polynomial.rootMultiplicity_le_rootMultiplicity_of_dvd hP' h1 y
    omega

end maps

/-! ## the first regular subresultant -/

theorem firstReg_spec {vc : Var → Var → Bool} {chk : Bool} {x : Var} {A : List (PV Mono ℤ)} : ∀ {L : List (PV Mono ℤ)} {k : ℕ} {s : PV Mono ℤ} {i : ℕ}, firstReg vc chk x A (L.zipIdx k) = ok2 (s, i) →
    k ≤ i ∧ i < k + L.length ∧ s = L.getD (i - k) [] ∧ degreeLex vc s x = i ∧ ∀ i', k ≤ i' → i' < i → degreeLex vc (L.getD (i' - k) []) x = i' → remChain vc chk A (pscOf i' (L.getD (i' - k) [])) = ok2 [] := by
  intro L
  induction L with
  | nil => intro k s i h; cases h
  | cons t L ih =>
    intro k s i h
    rw [List.zipIdx_cons, firstReg] at h
    have hrec : firstReg vc chk x A (L.zipIdx (k + 1)) = ok2 (s, i) → (degreeLex vc t x = k → remChain vc chk A (pscOf k t) = ok2 []) → 
      k ≤ i ∧ i < k + (t :: L).length ∧ s = (t :: L).getD (i - k) [] ∧ degreeLex vc s x = i ∧
        ∀ i', k ≤ i' → i' < i → degreeLex vc ((t :: L).getD (i' - k) []) x = i' → remChain vc chk A (pscOf i' ((t :: L).getD (i' - k) [])) = ok2 [] := by
      intro h ht
      obtain ⟨h1, h2, h3, h4, h5⟩ := ih h
      have cut : ∀ i', k + 1 ≤ i' → (t :: L).getD (i' - k) [] = L.getD (i' - (k + 1)) [] := fun i' hi => by
        rw [show i' - k = i' - (k + 1) + 1 by omega, List.getD_cons_succ]
      refine ⟨by omega, by simp only [List.length_cons]; omega, by rw [h3, cut i h1], h4, fun i' k1 k2 k3 => ?_⟩
      rcases Nat.lt_or_ge k i' with k4 | k4
      · rw [cut i' k4] at k3 ⊢
        exact h5 i' k4 k2 k3
      · obtain rfl : i' = k := by omega
        rw [Nat.sub_self, List.getD_cons_zero] at k3 ⊢
        exact ht k3
    by_cases hd : degreeLex vc t x = k
    · rw [if_pos hd] at h
      obtain ⟨o, ho⟩ : ∃ o, o = remChain vc chk A (pscOf k t) := ⟨_, rfl⟩
      rw [← ho] at h
      rcases o with - | - | R
      · cases h
      · cases h
      · simp only [bind2] at h
        by_cases hR : R = []
        · rw [if_neg (not_not.2 hR)] at h
          exact hrec h fun _ => by rw [← ho, hR]; rfl
        · rw [if_pos hR] at h
          cases h
          refine ⟨le_rfl, by simp, by simp, hd, fun i' k1 k2 => by omega⟩
    · rw [if_neg hd] at h
      exact hrec h fun hc => absurd hc hd

/-- the coefficients tested by the loop -/
theorem pscOf_spec (hn : ord.Nodup) {j : ℕ} (hj : j < ord.length) {s : PV Mono ℤ} (hs : LP (varCustom ord) s) (hv : (val s).vars ⊆ Lo ord (j + 1)) {i : ℕ} (he : (val s).degreeOf (lv ord j) = i) :
    LP (varCustom ord) (pscOf i s) ∧ (val (pscOf i s)).vars ⊆ Lo ord j ∧ val (pscOf i s) = (toU (lv ord j) (val s)).leadingCoeff := by
  unfold pscOf
  by_cases h0 : i = 0
  · rw [if_pos h0]
    have hf : lv ord j ∉ (val s).vars := degreeOf_zero_iff.1 (he.trans h0)
    exact ⟨hs, Lo_free hv hf, by rw [toU_free hf, Polynomial.leadingCoeff_C]⟩
  · rw [if_neg h0]
    have hm : lv ord j ∈ (val s).vars := by
      by_contra hc; rw [degreeOf_zero_iff.2 hc] at he; omega
    obtain ⟨n1, n2⟩ := main_num (varCustom_ord ord) hs (lo_main hn hj hv hm)
    obtain ⟨l1, -, -, l4⟩ := lead_spec (varCustom_ord ord) hs n1
    rw [n2] at l4
    refine ⟨l1, Lo_free (fun w hw => hv ?_) ?_, l4⟩
    · rw [l4, Polynomial.leadingCoeff] at hw
      exact (toU_coeff _ _ _).vars_subset hw
    · rw [l4, Polynomial.leadingCoeff]
      exact free_coeff _ _ _

/-- the derivative as second operand of `subresultant` -/
theorem sqf_ctx (hn : ord.Nodup) {A : List (PV Mono ℤ)} {t : PV Mono ℤ} (ht : Lvl0 ord A t) (h2 : 2 ≤ (val t).degreeOf (lv ord A.length)) :
    Conv (fun k => subC (varCustom ord) true k t (derivative (lv ord A.length) t) (lv ord A.length)) (SubCtx ord A.length t (derivative (lv ord A.length) t)) := by
  have ho := varCustom_ord ord
  have h1 : val (derivative (lv ord A.length) t) = pderiv (lv ord A.length) (val t) := val_derivative ho ht.ok.monos _
  have h3 := derivative_ok (lex_ord ho) ht.ok (lv ord A.length)
  have hd : (val (derivative (lv ord A.length) t)).degreeOf (lv ord A.length) = (val t).degreeOf (lv ord A.length) - 1 := by rw [h1, pderiv_deg]
  refine (subC_conv ho ht.ok h3 (lv ord A.length) rfl rfl (by omega) (by omega) rfl).mono fun L hL => ?_
  rw [if_pos (by omega)] at hL
  exact ⟨hn, ht.len, ht.ok, h3, ht.vars, by rw [h1]; exact pderiv_vars ht.vars, by omega, by omega, hL⟩

/-- an element whose discriminant vanishes somewhere is not linear -/
theorem two_le {A : List (PV Mono ℤ)} {t : PV Mono ℤ} (ht : Lvl0 ord A t) {K : Type*} [Field K] {a : Var → K} (h : aeval a (toU (lv ord A.length) (val t)).discr = 0) :
    2 ≤ (val t).degreeOf (lv ord A.length) := by
  have hp := ht.deg_pos
  by_contra hc
  have h1 : (toU (lv ord A.length) (val t)).degree = 1 := by
    rw [Polynomial.degree_eq_natDegree (toU_ne_zero ht.val_ne), natDegree_toU, show (val t).degreeOf (lv ord A.length) = 1 by omega]; rfl
  rw [Polynomial.discr_of_degree_eq_one h1, map_one] at h
  exact one_ne_zero h

section step
variable {A : List (PV Mono ℤ)} {t : PV Mono ℤ} {L : List (PV Mono ℤ)}

/-- entry 0 of the chain and the discriminant -/
theorem sub_zero_discr (ht : Lvl0 ord A t) (h : SubCtx ord A.length t (derivative (lv ord A.length) t) L) {K : Type*} [Field K] {a : Var → K}
    (hd : aeval a (toU (lv ord A.length) (val t)).discr = 0) : aeval a (val (L.getD 0 [])) = 0 := by
  have hp := ht.deg_pos
  have h1 : val (derivative (lv ord A.length) t) = pderiv (lv ord A.length) (val t) := val_derivative (varCustom_ord ord) ht.ok.monos _
  have h2 := (h.low (Nat.zero_le _)).2
  obtain ⟨e, h3⟩ := discr_sub (v := lv ord A.length) (f := val t) (by omega)
  rw [h1, h3] at h2
  have h4 := congrArg (Polynomial.eval (X (lv ord A.length))) h2
  rw [toU_eval, Polynomial.eval_C] at h4
  rw [h4, map_mul, hd, mul_zero]

/-- the squarefree part at all zeros of the chain -/
theorem sqf_step (hn : ord.Nodup) (hA : RA ord A) (ht : Lvl0 ord A t) (hreg : ∀ X : Fld, Reg X.K ord A t) (h : SubCtx ord A.length t (derivative (lv ord A.length) t) L) {s f1 f2 : PV Mono ℤ} {i : ℕ}
    (hfr : firstReg (varCustom ord) true (lv ord A.length) A L.zipIdx = ok2 (s, i)) (hd : ∃ a : Var → ℂ, Zr A a ∧ aeval a (toU (lv ord A.length) (val t)).discr = 0)
    (hne : ∀ (X : Fld) (a : Var → X.K), Zr A a → aeval a (val (pscOf i s)) ≠ 0) (hf1 : remChain (varCustom ord) true A s = ok2 f1) (hf2 : pquoC (varCustom ord) true (lv ord A.length) t f1 = ok2 f2) :
    Lvl0 ord A f2 ∧ ∀ X : Fld, Reg X.K ord A f2 ∧ ∀ a : Var → X.K, Zr A a → (aeval a (val f2) = 0 ↔ aeval a (val t) = 0) := by
  have ho := varCustom_ord ord
  have hp := ht.deg_pos
  have hdv : val (derivative (lv ord A.length) t) = pderiv (lv ord A.length) (val t) := val_derivative ho ht.ok.monos _
  have hdeg : (val (derivative (lv ord A.length) t)).degreeOf (lv ord A.length) = (val t).degreeOf (lv ord A.length) - 1 := by rw [hdv, pderiv_deg]
  obtain ⟨-, f2', f3, f4, f5⟩ := firstReg_spec hfr
  rw [Nat.sub_zero] at f3
  rw [h.out.len] at f2'
  have him : i ≤ (val t).degreeOf (lv ord A.length) := by omega
  have hLok : LP (varCustom ord) s ∧ (val s).vars ⊆ Lo ord (A.length + 1) := by
    subst f3
    by_cases hi : i ≤ (val (derivative (lv ord A.length) t)).degreeOf (lv ord A.length)
    · exact ⟨(h.low hi).1, h.low_vars hi⟩
    · rw [show i = (val t).degreeOf (lv ord A.length) by omega, h.out.top]
      exact ⟨ht.ok, ht.vars⟩
  have hsd : (val s).degreeOf (lv ord A.length) = i := by
    rw [degreeLex_spec ho hLok.1] at f4; exact_mod_cast f4
  obtain ⟨p1, p2, p3⟩ := pscOf_spec hn ht.len hLok.1 hLok.2 hsd
  have hlc : ∀ (X : Fld) (a : Var → X.K), Zr A a → aeval a (toU (lv ord A.length) (val s)).leadingCoeff ≠ 0 := fun X a ha => by rw [← p3]; exact hne X a ha
  -- the earlier principal coefficients vanish
  have hz : ∀ (X : Fld) (a : Var → X.K), Zr A a → ∀ i' < i, i' ≤ (val (derivative (lv ord A.length) t)).degreeOf (lv ord A.length) →
      psc a (lv ord A.length) (val t) (val (derivative (lv ord A.length) t)) i' = 0 := by
    intro X a ha i' hi' hle
    by_cases hr : (val (L.getD i' [])).degreeOf (lv ord A.length) = i'
    · have hok := (h.low hle).1
      have hrem := f5 i' (Nat.zero_le _) hi' (by rw [Nat.sub_zero, degreeLex_spec ho hok, hr])
      rw [Nat.sub_zero] at hrem
      obtain ⟨q1, q2, q3⟩ := pscOf_spec hn ht.len hok (h.low_vars hle) hr
      obtain ⟨r, e1, e2⟩ := remChain_out (K := X.K) hn (hA X) q1
      rw [hrem] at e1
      have := (e2 [] (Option.some.inj e1).symm).zero a ha
      rw [val_nil, map_zero, q3] at this
      rw [h.reg hle hr]
      exact this.1 rfl
    · exact h.irr hle hr a
  obtain ⟨a0, ha0, hd0⟩ := hd
  -- the index is neither 0 nor the degree
  have hi0 : i ≠ 0 := by
    intro hc
    have h1 := hne ⟨ℂ⟩ a0 ha0
    rw [show pscOf i s = s by unfold pscOf; rw [if_pos hc], f3, hc] at h1
    exact h1 (sub_zero_discr ht h hd0)
  have hle : i ≤ (val (derivative (lv ord A.length) t)).degreeOf (lv ord A.length) := by
    by_contra hc
    have h1 := hz ⟨ℂ⟩ a0 ha0 ((val t).degreeOf (lv ord A.length) - 1) (by omega) (by omega)
    have htop := h.out.top'
    rw [h.reg (by omega) (by rw [htop, hdeg]), htop, hdv, toU_pderiv, Polynomial.leadingCoeff, Polynomial.natDegree_derivative, Polynomial.coeff_derivative, natDegree_toU] at h1
    rw [show (val t).degreeOf (lv ord A.length) - 1 + 1 = (val t).degreeOf (lv ord A.length) by omega, map_mul] at h1
    have h2 := hreg ⟨ℂ⟩ a0 ha0
    rw [Polynomial.leadingCoeff, natDegree_toU] at h2
    refine (mul_eq_zero.1 h1).elim h2 fun h3 => ?_
    have h4 : (((val t).degreeOf (lv ord A.length) - 1 : ℕ) : ℂ) + 1 = 0 := by simpa using h3
    have h5 : (((val t).degreeOf (lv ord A.length) - 1 + 1 : ℕ) : ℂ) ≠ 0 := Nat.cast_ne_zero.2 (by omega)
    exact h5 (by push_cast; exact h4)
  -- the remainder
  have hred : RedOut ℂ ord A s f1 := by
    obtain ⟨r, e1, e2⟩ := remChain_out (K := ℂ) hn (hA ⟨ℂ⟩) hLok.1
    rw [hf1] at e1
    exact e2 f1 (Option.some.inj e1).symm
  have hscale := fun (X : Fld) => remChain_scale (K := X.K) hn ht.len (hA X) le_rfl hLok.1 hf1
  have f1deg : (val f1).degreeOf (lv ord A.length) = i := by
    refine le_antisymm (hsd ▸ hred.deg _ le_rfl ht.len) ?_
    obtain ⟨c, c0, e⟩ := hscale ⟨ℂ⟩ a0 ha0
    have h1 := congrArg Polynomial.natDegree e
    rw [Polynomial.natDegree_C_mul c0, ev_natDegree (hlc ⟨ℂ⟩ a0 ha0), hsd] at h1
    rw [← h1, ← natDegree_toU]
    exact Polynomial.natDegree_map_le
  have f1v : (val f1).vars ⊆ Lo ord (A.length + 1) := hred.vars _ (by omega) hLok.2
  have f1lc : ∀ (X : Fld) (a : Var → X.K), Zr A a → aeval a (toU (lv ord A.length) (val f1)).leadingCoeff ≠ 0 := by
    intro X a ha
    obtain ⟨c, c0, e⟩ := hscale X a ha
    have h1 := congrArg (fun p => Polynomial.coeff p i) e
    simp only [Polynomial.coeff_map, Polynomial.coeff_C_mul] at h1
    have h2 := hlc X a ha
    rw [Polynomial.leadingCoeff, natDegree_toU, hsd] at h2
    rw [Polynomial.leadingCoeff, natDegree_toU, f1deg]
    intro h3
    rw [show (ev a) ((toU (lv ord A.length) (val f1)).coeff i) = 0 from h3, eq_comm, mul_eq_zero] at h1
    exact h1.elim c0 h2
  -- it divides the polynomial and its derivative
  have hdvd : ∀ (X : Fld) (a : Var → X.K), Zr A a → (toU (lv ord A.length) (val f1)).map (ev a) ∣ (toU (lv ord A.length) (val t)).map (ev a) ∧
      (toU (lv ord A.length) (val f1)).map (ev a) ∣ Polynomial.derivative ((toU (lv ord A.length) (val t)).map (ev a)) := by
    intro X a ha
    have hQ : ((toU (lv ord A.length) (val (derivative (lv ord A.length) t))).map (ev a)).natDegree ≤ (val (derivative (lv ord A.length) t)).degreeOf (lv ord A.length) := by
      rw [← natDegree_toU]; exact Polynomial.natDegree_map_le
    obtain ⟨g1, g2, -⟩ := Res.sub_root (ev_natDegree (hreg X a ha)) (ev_ne (hreg X a ha)) hQ hle (by omega) (by omega) (fun i' hi' => hz X a ha i' hi' (by omega)) (by
      have h1 := h.reg hle (f3 ▸ hsd) a
      unfold psc at h1
      rw [h1, ← f3]; exact hlc X a ha)
    rw [← h.low_map hle a, ← f3] at g1 g2
    rw [hdv, toU_pderiv, ← Polynomial.derivative_map] at g2
    obtain ⟨c, c0, e⟩ := hscale X a ha
    rw [e]
    have hu : IsUnit (Polynomial.C c) := Polynomial.isUnit_C.2 (isUnit_iff_ne_zero.2 c0)
    exact ⟨(hu.mul_left_dvd).2 g1, (hu.mul_left_dvd).2 g2⟩
  -- the quotient
  obtain ⟨r, e, hr⟩ := pquoC_spec ho (v := lv ord A.length) ht.ok hred.ok (by intro e; rw [e, val_nil, degreeOf_zero] at f1deg; omega)
  rw [hf2] at e
  obtain ⟨q1, S, -, hps⟩ := hr f2 (Option.some.inj e).symm
  obtain ⟨l1, l2, -⟩ := pquo_level (K := ℂ) hps rfl f1deg (by omega) him
  have hq := fun (X : Fld) => (pquo_level (K := X.K) hps rfl f1deg (by omega) him).2.2
  refine ⟨⟨ht.len, q1, l2 _ ht.vars f1v, ?_⟩, fun X => ⟨fun a ha => (hq X a (f1lc X a ha) (hreg X a ha) (hdvd X a ha).1).1, fun a ha => ?_⟩⟩
  · by_contra hc
    rw [degreeOf_zero_iff.2 hc] at l1
    omega
  · obtain ⟨c, c0, e⟩ := pquo_map hps (by omega) a (f1lc X a ha) (hdvd X a ha).1
    have := sqf_root (ev_ne (hreg X a ha)) (hdvd X a ha).2 c0 e (a (lv ord A.length))
    rwa [ev_eval, ev_eval] at this

end step

/-! ## the recursion -/

/-- chains of length `n` without multiple zeros (after the first element) whose zeros are those in `Z` -/
structure POut (ord : List Var) (n : ℕ) (Z : ∀ X : Fld, (Var → X.K) → Prop) (O : List (List (PV Mono ℤ))) : Prop where
  rc : ∀ C ∈ O, RA ord C ∧ C.length = n ∧ ∀ i, 1 ≤ i → i < n → Sp ord i (C.take i) (C.getD i [])
  zr : ∀ (X : Fld) (a : Var → X.K), (∃ C ∈ O, Zr C a) ↔ Z X a

theorem POut.append {n : ℕ} {Z Z' Z'' : ∀ X : Fld, (Var → X.K) → Prop} {O O' : List (List (PV Mono ℤ))} (h : POut ord n Z O) (h' : POut ord n Z' O') (hz : ∀ X a, Z'' X a ↔ Z X a ∨ Z' X a) :
    POut ord n Z'' (O ++ O') := by
  refine ⟨fun C hC => (List.mem_append.1 hC).elim (h.rc C) (h'.rc C), fun X a => ?_⟩
  rw [hz, ← h.zr, ← h'.zr]
  simp only [List.mem_append]
  constructor
  · rintro ⟨g, hg | hg, hz⟩
    · exact .inl ⟨g, hg, hz⟩
    · exact .inr ⟨g, hg, hz⟩
  · rintro (⟨g, hg, hz⟩ | ⟨g, hg, hz⟩)
    · exact ⟨g, .inl hg, hz⟩
    · exact ⟨g, .inr hg, hz⟩

theorem POut.congr {n n' : ℕ} {Z Z' : ∀ X : Fld, (Var → X.K) → Prop} {O : List (List (PV Mono ℤ))} (h : POut ord n Z O) (hn : n' = n) (hz : ∀ X a, Z' X a ↔ Z X a) : POut ord n' Z' O :=
  ⟨fun C hC => hn ▸ h.rc C hC, fun X a => (h.zr X a).trans (hz X a).symm⟩

/-- the recursive calls for chains whose first elements are replaced -/
theorem sqf_collect {f : List (PV Mono ℤ) → O2 (List (List (PV Mono ℤ)))} (hf : ∀ T, RA ord T → Snd (f T) (POut ord T.length fun X a => Zr T a)) {A B : List (PV Mono ℤ)}
    (hAB : RA ord (A ++ B)) {Z : ∀ X : Fld, (Var → X.K) → Prop} (hZ : ∀ X a, Z X a → Zr A a) {H : List (List (PV Mono ℤ))} (hH : ∀ X : Fld, Uni X.K ord A.length (Z X) H) :
    Snd (collect1 (fun g => f (g ++ B)) H) (POut ord (A ++ B).length fun X a => Z X a ∧ Zr B a) := by
  have hlen : ∀ g ∈ H, g.length = A.length := fun g hg => ((hH ⟨ℂ⟩).rc g hg).2
  have hg : ∀ g ∈ H, RA ord (g ++ B) := fun g hg X => ((hH X).rc g hg).1.replace (hAB X) (hlen g hg) fun a ha => hZ X a (((hH X).zr a).1 ⟨g, hg, ha⟩)
  refine (Snd.collect fun g hgm => hf (g ++ B) (hg g hgm)).mono fun r hr => ⟨fun C hC => ?_, fun X a => ?_⟩
  · obtain ⟨g, hgm, s, hs, hCs⟩ := hr.2 C hC
    have := hs.rc C hCs
    rwa [show (g ++ B).length = (A ++ B).length by simp [hlen g hgm]] at this
  · rw [← (hH X).zr]
    constructor
    · rintro ⟨C, hC, hz⟩
      obtain ⟨g, hgm, s, hs, hCs⟩ := hr.2 C hC
      have := (hs.zr X a).1 ⟨C, hCs, hz⟩
      rw [Zr.append] at this
      exact ⟨⟨g, hgm, this.1⟩, this.2⟩
    · rintro ⟨⟨g, hgm, hz⟩, hB⟩
      obtain ⟨s, hs, hsub⟩ := hr.1 g hgm
      obtain ⟨C, hC, hz'⟩ := (hs.zr X a).2 (Zr.append.2 ⟨hz, hB⟩)
      exact ⟨C, hsub C hC, hz'⟩

/-- whatever `RCtoSqrfree` returns -/
theorem rcToSqf_sound (hn : ord.Nodup) : ∀ (n : ℕ) (T : List (PV Mono ℤ)), RA ord T → Snd (rcToSqf ord true n T) (POut ord T.length fun X a => Zr T a) := by
  intro n
  induction n with
  | zero => intro T _; exact Snd.none
  | succ n ih =>
    intro T hT
    rw [rcToSqf]
    dsimp only
    by_cases h0 : T = []
    · rw [if_pos h0]; exact Snd.give
    rw [if_neg h0]
    have hpos : 0 < T.length := List.length_pos_iff.2 h0
    refine ((lastDisc_conv hn hT (T.length - 1) (by omega)).snd (fun h => lastDisc_mono h _ _) n).bind fun k hk => ?_
    obtain ⟨hk1, hk2, hk3⟩ := hk
    by_cases hk0 : k = 0
    · rw [if_pos hk0]
      refine Snd.ok ⟨fun C hC => ?_, fun X a => by simp⟩
      rw [List.mem_singleton] at hC
      subst hC
      exact ⟨hT, rfl, fun i h1 h2 => hk2 i (by omega) (by omega)⟩
    rw [if_neg hk0]
    have hkT : k < T.length := by omega
    have hl := lvl0_at hT.tc hkT
    obtain ⟨A, hA⟩ : ∃ A, A = T.take k := ⟨_, rfl⟩
    have hlen : A.length = k := by rw [hA, List.length_take]; omega
    obtain ⟨t, ht⟩ : ∃ t, t = T.getD k [] := ⟨_, rfl⟩
    have hTs : T = A ++ T.drop k := by rw [hA, List.take_append_drop]
    have hTs' : T = A ++ t :: T.drop (k + 1) := by rw [hA, ht]; exact getD_split hkT
    have hRA : RA ord A := fun X => hA ▸ (hT X).take _
    have hreg : ∀ X : Fld, Reg X.K ord A t := fun X => (hT X).2 _ _ _ hTs'
    have hd := hk3 hk0
    rw [← hA, ← ht] at hl hd ⊢
    have hx := (hl.num hn).2
    rw [← hlen] at hd
    rw [hx]
    obtain ⟨x, hxe⟩ : ∃ x, x = lv ord A.length := ⟨_, rfl⟩
    have h2 : 2 ≤ (val t).degreeOf (lv ord A.length) := two_le hl hd.choose_spec.2
    refine ((discC_conv hl).snd (fun h => discC_mono h _ _) n).bind fun d hdo => ?_
    refine ((wrsd_all hn hRA hdo.ok hdo.vars).snd (fun h => wrsd_mono ord h _ _) n).bind fun W hW => ?_
    have hT2 : RA ord (A ++ T.drop k) := hTs ▸ hT
    have hcol := fun {Z : ∀ X : Fld, (Var → X.K) → Prop} (hZ : ∀ X a, Z X a → Zr A a) {H : List (List (PV Mono ℤ))} (hH : ∀ X : Fld, Uni X.K ord A.length (Z X) H) =>
      sqf_collect (f := rcToSqf ord true n) ih hT2 hZ hH
    rw [← hTs] at hcol
    refine (hcol (Z := fun X a => Zr A a ∧ aeval a (val d) ≠ 0) (fun X a h => h.1) fun X => (wout_iff.1 (hW X)).2).bind fun OA hOA => ?_
    have hdeg : ¬ (degreeLex (varCustom ord) (derivative (lv ord A.length) t) (lv ord A.length) > pFirstDeg t) := by
      have ho := varCustom_ord ord
      rw [degreeLex_spec ho (derivative_ok (lex_ord ho) hl.ok _), val_derivative ho hl.ok.monos, pderiv_deg]
      obtain ⟨-, e⟩ := main_spec ho hl.ok (hl.num hn).1
      rw [hx] at e
      omega
    rw [if_neg hdeg]
    refine ((sqf_ctx hn hl h2).snd (fun h => subC_mono h _ _ _) n).bind fun L hL => ?_
    refine (Snd.self _).bind fun ⟨s, i⟩ hfr => ?_
    dsimp only
    have hfr' := firstReg_spec hfr
    obtain ⟨-, f2, f3, f4, -⟩ := hfr'
    have ho := varCustom_ord ord
    have hLok : LP (varCustom ord) s ∧ (val s).vars ⊆ Lo ord (A.length + 1) := by
      rw [Nat.sub_zero] at f3
      rw [hL.out.len] at f2
      have hdv : val (derivative (lv ord A.length) t) = pderiv (lv ord A.length) (val t) := val_derivative ho hl.ok.monos _
      have hdg : (val (derivative (lv ord A.length) t)).degreeOf (lv ord A.length) = (val t).degreeOf (lv ord A.length) - 1 := by rw [hdv, pderiv_deg]
      subst f3
      by_cases hi : i ≤ (val (derivative (lv ord A.length) t)).degreeOf (lv ord A.length)
      · exact ⟨(hL.low hi).1, hL.low_vars hi⟩
      · rw [show i = (val t).degreeOf (lv ord A.length) by omega, hL.out.top]
        exact ⟨hl.ok, hl.vars⟩
    have hsd : (val s).degreeOf (lv ord A.length) = i := by
      rw [degreeLex_spec ho hLok.1] at f4; exact_mod_cast f4
    obtain ⟨p1, p2, p3⟩ := pscOf_spec hn hl.len hLok.1 hLok.2 hsd
    refine ((Conv.all fun X : Fld => iterResB_conv (K := X.K) hn hRA.tc p1 p2).snd (fun h => iterResB_mono h _ _) n).bind fun r hr => ?_
    by_cases hr0 : r = []
    · rw [if_neg (not_not.2 hr0)]
      refine ((wrsd_all hn hRA p1 p2).snd (fun h => wrsd_mono ord h _ _) n).bind fun V hV => ?_
      refine (hcol (Z := fun X a => Zr A a ∧ aeval a (val (pscOf i s)) = 0) (fun X a h => h.1) fun X => (wout_iff.1 (hV X)).1).bind fun OB hOB => ?_
      by_cases hi0 : i = 0
      · rw [if_neg (not_not.2 hi0)]
        refine Snd.ok (hOA.append hOB fun X a => ?_)
        rw [show (Zr T a ↔ Zr A a ∧ Zr (T.drop k) a) by rw [← Zr.append, ← hTs]]
        constructor
        · rintro ⟨z1, z2⟩
          by_cases hda : aeval a (val d) = 0
          · refine .inr ⟨⟨z1, ?_⟩, z2⟩
            rw [show pscOf i s = s by unfold pscOf; rw [if_pos hi0], f3, hi0, Nat.sub_zero]
            exact sub_zero_discr hl hL (hdo.eq ▸ hda)
          · exact .inl ⟨⟨z1, hda⟩, z2⟩
        · rintro (⟨⟨z1, -⟩, z2⟩ | ⟨⟨z1, -⟩, z2⟩) <;> exact ⟨z1, z2⟩
      · rw [if_pos hi0]
        refine (hcol (Z := fun X a => Zr A a ∧ aeval a (val (pscOf i s)) ≠ 0) (fun X a h => h.1) fun X => (wout_iff.1 (hV X)).2).bind fun OC hOC => ?_
        refine Snd.ok ((hOA.append hOB fun X a => Iff.rfl).append hOC fun X a => ?_)
        rw [show (Zr T a ↔ Zr A a ∧ Zr (T.drop k) a) by rw [← Zr.append, ← hTs]]
        constructor
        · rintro ⟨z1, z2⟩
          by_cases hda : aeval a (val (pscOf i s)) = 0
          · exact .inl (.inr ⟨⟨z1, hda⟩, z2⟩)
          · exact .inr ⟨⟨z1, hda⟩, z2⟩
        · rintro ((⟨⟨z1, -⟩, z2⟩ | ⟨⟨z1, -⟩, z2⟩) | ⟨⟨z1, -⟩, z2⟩) <;> exact ⟨z1, z2⟩
    · rw [if_pos hr0]
      refine (Snd.self _).bind fun f1 hf1 => (Snd.self _).bind fun f2 hf2 => ?_
      obtain ⟨k1, k2⟩ := sqf_step hn hRA hl hreg hL hfr hd (fun X a ha => (hr X).ne hr0 ha) hf1 hf2
      have hT3 : RA ord (A ++ f2 :: T.drop (k + 1)) := by
        intro X
        have h1 : RC X.K ord (A ++ [f2]) := RC.snoc.2 ⟨hRA X, k1, (k2 X).1⟩
        have h2 := h1.replace (A := A ++ [t]) (B := T.drop (k + 1)) (by rw [List.append_assoc, List.singleton_append, ← hTs']; exact hT X) (by simp) fun a ha => by
          rw [Zr.append, Zr.single] at ha ⊢
          exact ⟨ha.1, ((k2 X).2 a ha.1).1 ha.2⟩
        rwa [List.append_assoc, List.singleton_append] at h2
      have hz : ∀ (X : Fld) (a : Var → X.K), Zr (A ++ f2 :: T.drop (k + 1)) a ↔ Zr T a := by
        intro X a
        have e1 : A ++ f2 :: T.drop (k + 1) = A ++ ([f2] ++ T.drop (k + 1)) := rfl
        have e2 : Zr T a ↔ Zr (A ++ ([t] ++ T.drop (k + 1))) a := by
          rw [List.singleton_append, ← hTs']
        rw [e1, e2, Zr.append, Zr.append, Zr.append, Zr.append, Zr.single, Zr.single]
        exact and_congr_right fun ha => and_congr_left fun _ => (k2 X).2 a ha
      have hlenT : (A ++ f2 :: T.drop (k + 1)).length = T.length := by
        conv_rhs => rw [hTs']
        simp
      refine (ih _ hT3).bind fun OB hOB => Snd.ok (hOA.append (hOB.congr hlenT.symm fun X a => (hz X a).symm) fun X a => ?_)
      constructor
      · exact .inr
      · rintro (⟨⟨z1, -⟩, z2⟩ | z)
        · rw [hTs]; exact Zr.append.2 ⟨z1, z2⟩
        · exact z

end Charset
end CLPoly
