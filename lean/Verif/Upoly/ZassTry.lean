import Verif.Upoly.Uniq
import Verif.Upoly.Comb

/-! # The test of one subset of modular factors -/

namespace CLPoly
namespace Upoly
open Polynomial

/-- `__upoly_primitive` of a polynomial with positive leading coefficient -/
theorem primitive_is {f : UPoly ℤ} {F : ℤ[X]} (h : Is f F) (hpos : 0 < F.leadingCoeff) : ∃ H, Is (primitive f).2 H ∧ H.IsPrimitive ∧ 0 < H.leadingCoeff ∧ F = C (primitive f).1 * H ∧ 0 < (primitive f).1 := by
  have h0 : F ≠ 0 := by rintro rfl; simp at hpos
  obtain ⟨H, h1, h2⟩ := exists_prim h h0
  have hc := cont_ne_zero h h0
  have c0 : 0 < cont f := by
    by_cases hl : f.length = 1
    · obtain ⟨t, rfl⟩ := List.length_eq_one_iff.1 hl
      have : cont [t] = t.2 := rfl
      rw [this, ← (is_cons h).2.1]
      exact hpos
    · have := cont_nonneg hl
      omega
  have e : primitive f = (cont f, f.map fun t => (t.1, Int.tdiv t.2 (cont f))) := by
    unfold primitive
    rw [if_neg (fun e => h0 ((is_nil_iff h).1 e))]
    simp only [is_lc h, if_neg (not_lt.2 hpos.le)]
  rw [e]
  refine ⟨H, map_tdiv_is h hc h1, h2, ?_, h1, c0⟩
  rw [h1, leadingCoeff_mul, leadingCoeff_C] at hpos
  exact pos_of_mul_pos_right hpos c0.le

theorem symMod_congr {a b m : ℤ} (hm : 0 < m) (h : m ∣ a - b) : symMod a m = symMod b m := by
  obtain ⟨e1, e2, e3⟩ := symMod_spec b hm
  refine symMod_unique hm ?_ e2 e3
  have : symMod b m - a = (symMod b m - b) - (a - b) := by ring
  rw [this]
  exact dvd_sub e1 h

theorem subset_fold {m : ℤ} (hm : 0 < m) {fs : List (UPoly ℤ)} {Ss : List ℤ[X]} (h : List.Forall₂ Is fs Ss) : ∀ {g : UPoly ℤ} {G : ℤ[X]}, Is g G →
    ∃ P, Is (fs.foldl (fun prod f => modCoeff m (norm (mul prod f))) g) P ∧ Cong m P (G * Ss.prod) := by
  induction h with
  | nil => intro g G hg; exact ⟨G, hg, by simpa using Cong.rfl'⟩
  | @cons f S fs Ss hf _ ih =>
    intro g G hg
    obtain ⟨H, h1, _, h2, _⟩ := modCoeff_is hm (mul_is hg hf).norm
    obtain ⟨P, p1, p2⟩ := ih h1
    refine ⟨P, p1, p2.trans ?_⟩
    rw [List.prod_cons, ← mul_assoc]
    exact h2.mul .rfl'

theorem subsetProd_is {m : ℤ} (hm : 0 < m) {l : ℤ} (hl : l ≠ 0) {fs : List (UPoly ℤ)} {Ss : List ℤ[X]} (h : List.Forall₂ Is fs Ss) :
    ∃ P, Is (subsetProd m l fs) P ∧ ∀ i, P.coeff i = symMod ((C l * Ss.prod).coeff i) m := by
  have h0 : Is ([(0, l)] : UPoly ℤ) (C l) := ⟨canon_cons.2 ⟨by simp, hl, canon_nil⟩, by simp [toPoly_cons]⟩
  obtain ⟨P, p1, p2⟩ := subset_fold hm h h0
  obtain ⟨H, h1, h2⟩ := polySymMod_is hm p1
  exact ⟨H, h1, fun i => by rw [h2]; exact symMod_congr hm (Cong.iff_coeff.1 p2 i)⟩

theorem symMod_zero {m : ℤ} (hm : 0 < m) : symMod 0 m = 0 := symMod_unique hm (by simp) (by omega) (by omega)
theorem symMod_self {m l : ℤ} (hm : 0 < m) (h1 : -m < 2 * l) (h2 : 2 * l ≤ m) : symMod l m = l := symMod_unique hm (by simp) h1 h2

/-- with monic factors and `2·l ≤ m` the product keeps degree and leading coefficient -/
theorem subsetProd_deg {m : ℤ} (hm : 0 < m) {l : ℤ} (hl : 0 < l) (hlm : 2 * l ≤ m) {P A : ℤ[X]} (hA : A.Monic) (h : ∀ i, P.coeff i = symMod ((C l * A).coeff i) m) :
    P.natDegree = A.natDegree ∧ P.leadingCoeff = l ∧ Cong m P (C l * A) := by
  have c1 : P.coeff A.natDegree = l := by
    rw [h, coeff_C_mul, hA.coeff_natDegree, mul_one, symMod_self hm (by omega) hlm]
  have c2 : P.natDegree ≤ A.natDegree := by
    rw [natDegree_le_iff_coeff_eq_zero]
    intro i hi
    rw [h, coeff_C_mul, coeff_eq_zero_of_natDegree_lt (p := A) hi, mul_zero, symMod_zero hm]
  have c3 : P.natDegree = A.natDegree := le_antisymm c2 (le_natDegree_of_ne_zero (by rw [c1]; exact hl.ne'))
  refine ⟨c3, by rw [leadingCoeff, c3, c1], Cong.iff_coeff.2 fun i => ?_⟩
  rw [h]
  exact (symMod_spec _ hm).1

theorem constTerm_eq {f : UPoly ℤ} {F : ℤ[X]} (h : Is f F) : constTerm f = F.coeff 0 := by
  unfold constTerm
  cases hg : f.getLast? with
  | none =>
    have : f = [] := by simpa using hg
    rw [(is_nil_iff h).1 this]
    simp
  | some t =>
    have ht : t ∈ f := List.mem_of_getLast? hg
    dsimp only
    split
    · next h0 => rw [← h0, coeff_mem h ht]
    · next h0 =>
      symm
      apply coeff_not_mem h
      intro u hu hu0
      obtain ⟨l, rfl⟩ := List.getLast?_eq_some_iff.1 hg
      rcases List.mem_append.1 hu with hu | hu
      · have := (List.pairwise_append.1 h.canon.1).2.2 u hu t (by simp)
        simp [comp] at this
        omega
      · simp only [List.mem_singleton] at hu
        subst hu
        exact h0 hu0

theorem fold_lc {fs : List (UPoly ℤ)} {Ss : List ℤ[X]} (h : List.Forall₂ Is fs Ss) (hM : ∀ S ∈ Ss, S.Monic) (l : ℤ) : fs.foldl (fun c f => c * lc f) l = l := by
  induction h generalizing l with
  | nil => rfl
  | @cons f S fs Ss hf _ ih =>
    rw [List.foldl_cons, is_lc hf, (hM S (by simp)).leadingCoeff, mul_one]
    exact ih (fun T hT => hM T (by simp [hT])) l

theorem fold_const {fs : List (UPoly ℤ)} {Ss : List ℤ[X]} (h : List.Forall₂ Is fs Ss) (l : ℤ) : fs.foldl (fun c f => c * constTerm f) l = (C l * Ss.prod).coeff 0 := by
  induction h generalizing l with
  | nil => simp
  | @cons f S fs Ss hf _ ih =>
    rw [List.foldl_cons, ih, constTerm_eq hf, List.prod_cons, coeff_C_mul, coeff_C_mul, mul_coeff_zero]
    ring

/-- the cofactor of a primitive factor with positive leading coefficient -/
theorem cofactor_prim {F G Q : ℤ[X]} (hF : F.IsPrimitive) (hpos : 0 < F.leadingCoeff) (gpos : 0 < G.leadingCoeff) (e : F = G * Q) : Q.IsPrimitive ∧ 0 < Q.leadingCoeff := by
  constructor
  · intro r hr
    exact hF r (e ▸ dvd_mul_of_dvd_right hr _)
  · rw [e, leadingCoeff_mul] at hpos
    exact pos_of_mul_pos_right hpos gpos.le

/-- a primitive polynomial is its own primitive part -/
theorem primitive_self {f : UPoly ℤ} {F : ℤ[X]} (h : Is f F) (hF : F.IsPrimitive) (hpos : 0 < F.leadingCoeff) : Is (primitive f).2 F := by
  obtain ⟨H, h1, h2, h3, h4, h5⟩ := primitive_is h hpos
  have := Int.isUnit_iff.1 (hF (primitive f).1 (h4 ▸ Dvd.intro _ rfl))
  have e : (primitive f).1 = 1 := by omega
  rw [e, C_1, one_mul] at h4
  rwa [h4]

/-- `__upoly_primitive` of any nonzero polynomial (the sign of a single negative term is kept) -/
theorem primitive_any {f : UPoly ℤ} {F : ℤ[X]} (h : Is f F) (h0 : F ≠ 0) : ∃ H, Is (primitive f).2 H ∧ H.IsPrimitive ∧ F = C (primitive f).1 * H ∧ (primitive f).1 ≠ 0 ∧
    (0 < F.leadingCoeff → 0 < (primitive f).1 ∧ 0 < H.leadingCoeff) := by
  obtain ⟨H, h1, h2⟩ := exists_prim h h0
  have hc := cont_ne_zero h h0
  have hn : f ≠ [] := fun e => h0 ((is_nil_iff h).1 e)
  by_cases hs : F.leadingCoeff < 0
  · have e : primitive f = (-cont f, f.map fun t => (t.1, Int.tdiv t.2 (-cont f))) := by
      unfold primitive
      rw [if_neg hn]
      simp only [is_lc h, if_pos hs]
    rw [e]
    have h1' : F = C (-cont f) * -H := by rw [C_neg, neg_mul_neg]; exact h1
    refine ⟨-H, map_tdiv_is h (neg_ne_zero.2 hc) h1', fun r hr => h2 r ((dvd_neg).1 hr), h1', neg_ne_zero.2 hc, fun hp => absurd hp (by omega)⟩
  · have hpos : 0 < F.leadingCoeff := by
      have := leadingCoeff_ne_zero.2 h0
      omega
    obtain ⟨H, a, b, c, d, e⟩ := primitive_is h hpos
    exact ⟨H, a, b, d, e.ne', fun _ => ⟨e, c⟩⟩

/-- a factor found by the product of the modular factors `Ss`, with its cofactor -/
structure Found (m : ℤ) (F : ℤ[X]) (Ss : List ℤ[X]) (g q : UPoly ℤ) (G Q : ℤ[X]) (c : ℤ) : Prop where
  isG : Is g G
  isQ : Is q Q
  assoc : Associated F (G * Q)
  pG : G.IsPrimitive
  pQ : Q.IsPrimitive
  cong : Cong m (C c * G) (C F.leadingCoeff * Ss.prod)
  deg : G.natDegree = Ss.prod.natDegree
  copQ : IsCoprime Q.leadingCoeff m
  pos : 0 < F.leadingCoeff → 2 * F.leadingCoeff ≤ m → F = G * Q ∧ 0 < G.leadingCoeff ∧ 0 < Q.leadingCoeff

theorem symMod_ne_zero {m l : ℤ} (hm : 1 < m) (h : IsCoprime l m) : symMod l m ≠ 0 := by
  intro h0
  have h1 := (symMod_spec l (by omega : 0 < m)).1
  rw [h0, zero_sub, dvd_neg] at h1
  have := h.symm.isUnit_of_dvd' dvd_rfl h1
  rcases Int.isUnit_iff.1 this with h | h <;> omega

/-- with monic factors and a leading coefficient prime to `m` the product keeps its degree -/
theorem subsetProd_deg' {m : ℤ} (hm : 1 < m) {l : ℤ} (hl : IsCoprime l m) {P A : ℤ[X]} (hA : A.Monic) (h : ∀ i, P.coeff i = symMod ((C l * A).coeff i) m) :
    P ≠ 0 ∧ P.natDegree = A.natDegree ∧ Cong m P (C l * A) := by
  have m0 : 0 < m := by omega
  have c1 : P.coeff A.natDegree ≠ 0 := by
    rw [h, coeff_C_mul, hA.coeff_natDegree, mul_one]
    exact symMod_ne_zero hm hl
  have c2 : P.natDegree ≤ A.natDegree := by
    rw [natDegree_le_iff_coeff_eq_zero]
    intro i hi
    rw [h, coeff_C_mul, coeff_eq_zero_of_natDegree_lt (p := A) hi, mul_zero, symMod_zero m0]
  refine ⟨fun h0 => c1 (by rw [h0, coeff_zero]), le_antisymm c2 (le_natDegree_of_ne_zero c1), Cong.iff_coeff.2 fun i => ?_⟩
  rw [h]
  exact (symMod_spec _ m0).1

/-- the product of a subset, its primitive part and the trial division -/
theorem trial_sound {m : ℤ} (hm : 1 < m) {f : UPoly ℤ} {F : ℤ[X]} (hf : Is f F) (pF : F.IsPrimitive) (hcop : IsCoprime F.leadingCoeff m)
    {fs : List (UPoly ℤ)} {Ss : List ℤ[X]} (h : List.Forall₂ Is fs Ss) (hM : ∀ S ∈ Ss, S.Monic) :
    ∃ q r, divRem divZ f (primitive (subsetProd m F.leadingCoeff fs)).2 = some (q, r) ∧
      (r = [] → ∃ G Q c, Found m F Ss (primitive (subsetProd m F.leadingCoeff fs)).2 (primitive q).2 G Q c) := by
  have m0 : 0 < m := by omega
  have l0 : F.leadingCoeff ≠ 0 := by
    intro h0
    rw [h0] at hcop
    have := isCoprime_zero_left.1 hcop
    rcases Int.isUnit_iff.1 this with h | h <;> omega
  have F0 : F ≠ 0 := by rintro rfl; simp at l0
  obtain ⟨P, p1, p2⟩ := subsetProd_is m0 l0 h
  obtain ⟨P0, d1, d3⟩ := subsetProd_deg' hm hcop (monic_prodZ hM) p2
  obtain ⟨G, g1, g2, g4, g5, g6⟩ := primitive_any p1 P0
  have G0 : G ≠ 0 := by rintro rfl; rw [mul_zero] at g4; exact P0 g4
  obtain ⟨q, r, e1, e2, e3⟩ := divRem_test hf g1 G0 divZ_div divZ_exact
  refine ⟨q, r, e1, fun hr => ?_⟩
  obtain ⟨Q, hFe⟩ := e2.1 hr
  have hQ := e3 Q (by rw [hFe]; ring)
  have Q0 : Q ≠ 0 := by rintro rfl; rw [mul_zero] at hFe; exact F0 hFe
  have pQ : Q.IsPrimitive := fun r hr => pF r (hFe ▸ dvd_mul_of_dvd_right hr _)
  obtain ⟨Q', q1, q2, q4, q5, q6⟩ := primitive_any hQ Q0
  have hu : IsUnit (primitive q).1 := pQ _ (Dvd.intro _ q4.symm)
  have hass : Associated Q Q' := by
    conv_lhs => rw [q4]
    exact associated_unit_mul_left _ _ (isUnit_C.2 hu)
  refine ⟨G, Q', (primitive (subsetProd m F.leadingCoeff fs)).1, g1, q1, ?_, g2, q2, ?_, ?_, ?_, ?_⟩
  · rw [hFe]; exact hass.mul_left _
  · rw [← g4]; exact d3
  · rw [← d1]
    conv_rhs => rw [g4]
    rw [natDegree_C_mul g5]
  · refine hcop.of_isCoprime_of_dvd_left ?_
    rw [hFe, leadingCoeff_mul, q4, leadingCoeff_mul]
    exact dvd_mul_of_dvd_right (Dvd.intro_left _ rfl) _
  · intro hpos hlm
    obtain ⟨_, d2, _⟩ := subsetProd_deg m0 hpos hlm (monic_prodZ hM) p2
    have gp := (g6 (by rw [d2]; exact hpos)).2
    obtain ⟨_, qp⟩ := cofactor_prim pF hpos gp hFe
    have h1 := (q6 qp).1
    have : (primitive q).1 = 1 := by rcases Int.isUnit_iff.1 hu with h | h <;> omega
    rw [this, C_1, one_mul] at q4
    subst q4
    exact ⟨hFe, gp, qp⟩

/-- what a test can answer -/
theorem tryOne_sound {m : ℤ} (hm : 1 < m) {f : UPoly ℤ} {F : ℤ[X]} (hf : Is f F) (pF : F.IsPrimitive) (hcop : IsCoprime F.leadingCoeff m)
    {fs : List (UPoly ℤ)} {Ss : List ℤ[X]} (h : List.Forall₂ Is fs Ss) (hM : ∀ S ∈ Ss, S.Monic) :
    ∃ o, tryOne m f fs = some o ∧ ∀ g q, o = some (g, q) → ∃ G Q c, Found m F Ss g q G Q c := by
  unfold tryOne
  simp only
  split
  · exact ⟨none, rfl, by simp⟩
  split
  · exact ⟨none, rfl, by simp⟩
  rw [is_lc hf]
  obtain ⟨q, r, e1, e2⟩ := trial_sound hm hf pF hcop h hM
  rw [e1, Option.map_some]
  refine ⟨_, rfl, ?_⟩
  intro g q' ho
  split at ho
  · next hr =>
    simp only [Option.some.injEq, Prod.mk.injEq] at ho
    obtain ⟨rfl, rfl⟩ := ho
    exact e2 hr
  · simp at ho

/-- a true factor passes the test of its subset -/
theorem tryOne_complete {m : ℤ} (hm : 0 < m) {f : UPoly ℤ} {F G Q : ℤ[X]} (hf : Is f F) (pF : F.IsPrimitive) (e : F = G * Q)
    (hb : ∀ i, 2 * |F.leadingCoeff| * |G.coeff i| < m) {fs : List (UPoly ℤ)} {Ss : List ℤ[X]} (h : List.Forall₂ Is fs Ss) (hM : ∀ S ∈ Ss, S.Monic) (hc : Cong m (C G.leadingCoeff * Ss.prod) G) :
    tryOne m f fs ≠ some none := by
  have hlc : F.leadingCoeff = G.leadingCoeff * Q.leadingCoeff := by rw [e, leadingCoeff_mul]
  have F0 : F ≠ 0 := pF.ne_zero
  have l0 : F.leadingCoeff ≠ 0 := leadingCoeff_ne_zero.2 F0
  have G0 : G ≠ 0 := by rintro rfl; rw [zero_mul] at e; exact F0 e
  have Q0 : Q ≠ 0 := by rintro rfl; rw [mul_zero] at e; exact F0 e
  have g1 : 1 ≤ |G.leadingCoeff| := Int.one_le_abs (leadingCoeff_ne_zero.2 G0)
  have q0 : Q.leadingCoeff ≠ 0 := leadingCoeff_ne_zero.2 Q0
  have pG : G.IsPrimitive := fun r hr => pF r (e ▸ dvd_mul_of_dvd_left hr _)
  have labs := abs_nonneg F.leadingCoeff
  have hlm : |2 * F.leadingCoeff| < m := by
    have := hb G.natDegree
    rw [coeff_natDegree] at this
    rw [abs_mul, abs_of_pos (by norm_num : (0 : ℤ) < 2)]
    nlinarith
  rw [abs_lt] at hlm
  -- the coefficients of the product
  have hcQ : Cong m (C F.leadingCoeff * Ss.prod) (C Q.leadingCoeff * G) := by
    have := (Cong.rfl' (m := m) (F := C Q.leadingCoeff)).mul hc
    rwa [← mul_assoc, ← C_mul, mul_comm Q.leadingCoeff, ← hlc] at this
  have hsym : ∀ i, symMod ((C F.leadingCoeff * Ss.prod).coeff i) m = (C Q.leadingCoeff * G).coeff i := by
    intro i
    have h1 := Cong.iff_coeff.1 hcQ.symm i
    have hle : |Q.leadingCoeff| ≤ |F.leadingCoeff| := by
      rw [hlc, abs_mul]
      have := abs_nonneg Q.leadingCoeff
      nlinarith
    have h2 : |2 * (C Q.leadingCoeff * G).coeff i| < m := by
      rw [coeff_C_mul, abs_mul, abs_mul, abs_of_pos (by norm_num : (0 : ℤ) < 2)]
      refine lt_of_le_of_lt ?_ (hb i)
      have := abs_nonneg (G.coeff i)
      nlinarith
    rw [abs_lt] at h2
    exact symMod_unique hm h1 h2.1 h2.2.le
  unfold tryOne
  simp only
  rw [is_lc hf, fold_lc h hM, symMod_self hm hlm.1 hlm.2.le, if_neg (by
    rintro ⟨_, h2⟩
    exact h2 (Int.mul_fmod_left _ _))]
  rw [fold_const h, hsym, constTerm_eq hf, if_neg (by
    rintro ⟨_, h2⟩
    apply h2
    have : F.leadingCoeff * F.coeff 0 = G.leadingCoeff * Q.coeff 0 * (C Q.leadingCoeff * G).coeff 0 := by
      rw [hlc, coeff_C_mul]
      conv_lhs => rw [e, mul_coeff_zero]
      ring
    rw [this]
    exact Int.mul_fmod_left _ _)]
  obtain ⟨P, p1, p2⟩ := subsetProd_is hm l0 h
  have hP : P = C Q.leadingCoeff * G := by
    ext i
    rw [p2, hsym]
  subst hP
  obtain ⟨H, g1, g2, g4, g5, _⟩ := primitive_any p1 (mul_ne_zero (C_ne_zero.2 q0) G0)
  have d1 : H ∣ G := prim_dvd_of_dvd_C_mul g2 q0 (Dvd.intro_left _ g4.symm)
  have H0 : H ≠ 0 := g2.ne_zero
  obtain ⟨q, r, e1, e2, _⟩ := divRem_test hf g1 H0 divZ_div divZ_exact
  rw [e1, Option.map_some]
  have hr : r = [] := e2.2 (d1.trans (Dvd.intro _ e.symm))
  rw [if_pos hr]
  simp

end Upoly
end CLPoly
