import Verif.Upoly.URootDefs
import Verif.Upoly.RealRoot
import Verif.Upoly.GcdZ
import Verif.Upoly.Pseudo
import Mathlib.Data.EReal.Basic

/-! # `uroot` comparisons: every object denotes one number, comparisons keep it and decide the order -/

namespace CLPoly
namespace Upoly
open Polynomial
open Dense (IsGcd)

/-- a finite `uroot` denotes the real number `x`: `x` is a simple root of the polynomial, and it is the only root in the interval -/
structure DenR (r : URoot) (x : ℝ) : Prop where
  inf : r.inf = 0
  canon : Canon comp r.poly
  deg : (toPoly r.poly).natDegree < 2 ^ 63 - 1
  root : aeval x (toPoly r.poly) = 0
  simple : aeval x (Polynomial.derivative (toPoly r.poly)) ≠ 0
  loc : ((r.left : ℝ) = x ∧ (r.right : ℝ) = x) ∨
    ((r.left : ℝ) < x ∧ x < r.right ∧ aeval (r.left : ℝ) (toPoly r.poly) ≠ 0 ∧ aeval (r.right : ℝ) (toPoly r.poly) ≠ 0 ∧
      ∀ y : ℝ, (r.left : ℝ) < y → y < r.right → aeval y (toPoly r.poly) = 0 → y = x)

/-- a `uroot` denotes an extended real number -/
def Den (r : URoot) (v : EReal) : Prop := (r.inf = 1 ∧ v = ⊤) ∨ (r.inf = -1 ∧ v = ⊥) ∨ ∃ x : ℝ, v = (x : EReal) ∧ DenR r x

theorem DenR.ne {r : URoot} {x : ℝ} (h : DenR r x) : toPoly r.poly ≠ 0 := fun hc => h.simple (by rw [hc]; simp)

theorem DenR.is {r : URoot} {x : ℝ} (h : DenR r x) : Is r.poly (toPoly r.poly) := is_of_canon h.canon

theorem const_sign {Q : ℝ[X]} {l r : ℝ} (h : ∀ y, l ≤ y → y ≤ r → Q.eval y ≠ 0) {y : ℝ} (h1 : l ≤ y) (h2 : y ≤ r) :
    SignType.sign (Q.eval y) = SignType.sign (Q.eval l) := by
  have hc : ContinuousOn (fun t => Q.eval t) (Set.Icc l y) := Q.continuous.continuousOn
  have hl := h l le_rfl (h1.trans h2)
  have hy := h y h1 h2
  rcases lt_or_gt_of_ne hl with hl | hl <;> rcases lt_or_gt_of_ne hy with hy | hy
  · rw [sign_neg hl, sign_neg hy]
  · obtain ⟨t, ht, h0⟩ := intermediate_value_Icc h1 hc (show (0 : ℝ) ∈ _ from ⟨hl.le, hy.le⟩)
    exact absurd h0 (h t ht.1 (ht.2.trans h2))
  · obtain ⟨t, ht, h0⟩ := intermediate_value_Icc' h1 hc (show (0 : ℝ) ∈ _ from ⟨hy.le, hl.le⟩)
    exact absurd h0 (h t ht.1 (ht.2.trans h2))
  · rw [sign_pos hl, sign_pos hy]

/-- the sign of a polynomial around its only root of an interval, when that root is simple -/
theorem sign_pattern {F : ℤ[X]} {l r x : ℝ} (hx : aeval x F = 0) (hd : aeval x (Polynomial.derivative F) ≠ 0) (h1 : l < x) (h2 : x < r)
    (hl : aeval l F ≠ 0) (hr : aeval r F ≠ 0) (hu : ∀ y, l < y → y < r → aeval y F = 0 → y = x) :
    ∃ s : SignType, s ≠ 0 ∧ ∀ y, l ≤ y → y ≤ r → SignType.sign (aeval y F) = SignType.sign (y - x) * s := by
  obtain ⟨P, hP⟩ : ∃ P : ℝ[X], P = F.map (Int.castRingHom ℝ) := ⟨_, rfl⟩
  have ev : ∀ y, aeval y F = P.eval y := fun y => by rw [hP, aeval_def, eval_map]; rfl
  have evd : aeval x (Polynomial.derivative F) = (Polynomial.derivative P).eval x := by rw [hP, derivative_map, aeval_def, eval_map]; rfl
  rw [ev] at hx
  obtain ⟨Q, hQ⟩ := dvd_iff_isRoot.2 (show P.IsRoot x from hx)
  have eQ : ∀ y, P.eval y = (y - x) * Q.eval y := fun y => by rw [hQ]; simp
  have hQx : Q.eval x ≠ 0 := by
    rw [evd, hQ, derivative_mul] at hd
    simpa using hd
  have hQ0 : ∀ y, l ≤ y → y ≤ r → Q.eval y ≠ 0 := by
    intro y hy1 hy2 h0
    have hz : aeval y F = 0 := by rw [ev, eQ, h0, mul_zero]
    rcases hy1.eq_or_lt with rfl | hy1
    · exact hl hz
    rcases hy2.eq_or_lt with rfl | hy2
    · exact hr hz
    rw [hu y hy1 hy2 hz] at h0
    exact hQx h0
  refine ⟨SignType.sign (Q.eval l), by rw [Ne, sign_eq_zero_iff]; exact hQ0 l le_rfl (h1.trans h2).le, fun y hy1 hy2 => ?_⟩
  rw [ev, eQ, sign_mul, const_sign hQ0 hy1 hy2]

theorem sign_cast (q : ℚ) : SignType.sign (q : ℝ) = SignType.sign q := by
  rcases lt_trichotomy q 0 with h | rfl | h
  · rw [sign_neg h, sign_neg (by exact_mod_cast h)]
  · simp
  · rw [sign_pos h, sign_pos (by exact_mod_cast h)]

theorem sign_assign (g : UPoly ℤ) (a : ℚ) : SignType.sign (assignQ g a) = SignType.sign (aeval (a : ℝ) (toPoly g)) := by
  rw [← sign_cast, assignQ_eq]

/-- `_uroot_check(r, mid)` cuts the interval at `mid` on the right side -/
theorem urCheck_eq {r : URoot} {x : ℝ} (h : DenR r x) (hs : r.left ≠ r.right) {mid : ℚ} (h1 : r.left ≤ mid) (h2 : mid ≤ r.right) :
    urCheck r mid = if (mid : ℝ) = x then { r with left := mid, right := mid } else if (mid : ℝ) < x then { r with left := mid } else { r with right := mid } := by
  rcases h.loc with ⟨e1, e2⟩ | ⟨l1, l2, n1, n2, hu⟩
  · exact absurd (by exact_mod_cast e1.trans e2.symm) hs
  have m1 : (r.left : ℝ) ≤ mid := by exact_mod_cast h1
  have m2 : (mid : ℝ) ≤ r.right := by exact_mod_cast h2
  unfold urCheck
  rw [if_neg (by push Not; exact ⟨h1, h2, hs⟩)]
  by_cases hm : (mid : ℝ) = x
  · rw [if_pos hm, if_pos ((assignQ_zero_iff _ _).2 (by rw [hm]; exact h.root))]
  have hm0 : aeval (mid : ℝ) (toPoly r.poly) ≠ 0 := by
    intro hz
    rcases m1.eq_or_lt with e | m1
    · rw [e] at n1; exact n1 hz
    rcases m2.eq_or_lt with e | m2
    · rw [← e] at n2; exact n2 hz
    exact hm (hu _ m1 m2 hz)
  rw [if_neg hm, if_neg (by rw [assignQ_zero_iff]; exact hm0), if_neg (by rw [assignQ_zero_iff]; exact n2)]
  obtain ⟨s, s0, hsg⟩ := sign_pattern h.root h.simple l1 l2 n1 n2 hu
  have e : (SignType.sign (assignQ r.poly mid) = SignType.sign (assignQ r.poly r.right)) ↔ ¬ (mid : ℝ) < x := by
    rw [sign_assign, sign_assign, hsg _ m1 m2, hsg _ (l1.trans l2).le le_rfl, sign_pos (sub_pos.2 l2)]
    rcases lt_or_gt_of_ne hm with hlt | hgt
    · rw [sign_neg (sub_neg.2 hlt)]
      constructor
      · intro hc
        have key : ∀ s : SignType, s ≠ 0 → -1 * s ≠ 1 * s := by decide
        exact absurd hc (key s s0)
      · exact fun hc => absurd hlt hc
    · rw [sign_pos (sub_pos.2 hgt)]
      exact ⟨fun _ => not_lt.2 hgt.le, fun _ => rfl⟩
  by_cases hlt : (mid : ℝ) < x
  · rw [if_pos hlt, if_neg (by rw [e]; exact fun hc => hc hlt)]
  · rw [if_neg hlt, if_pos (e.2 hlt)]

theorem urCheck_out {r : URoot} {mid : ℚ} (h : mid < r.left ∨ mid > r.right ∨ r.left = r.right) : urCheck r mid = r := by
  unfold urCheck; rw [if_pos h]

theorem DenR.le {r : URoot} {x : ℝ} (h : DenR r x) : (r.left : ℝ) ≤ x ∧ x ≤ r.right := by
  rcases h.loc with ⟨e1, e2⟩ | ⟨l1, l2, _⟩
  · exact ⟨e1.le, e2.ge⟩
  · exact ⟨l1.le, l2.le⟩

theorem DenR.lt {r : URoot} {x : ℝ} (h : DenR r x) (hs : r.left ≠ r.right) : (r.left : ℝ) < x ∧ x < r.right := by
  rcases h.loc with ⟨e1, e2⟩ | ⟨l1, l2, _⟩
  · exact absurd (by exact_mod_cast e1.trans e2.symm) hs
  · exact ⟨l1, l2⟩

theorem DenR.single {r : URoot} {x : ℝ} (h : DenR r x) (hs : r.left = r.right) : (r.left : ℝ) = x := by
  rcases h.loc with ⟨e1, e2⟩ | ⟨l1, l2, _⟩
  · exact e1
  · rw [hs] at l1; exact absurd (l1.trans l2) (lt_irrefl _)

/-- bisection keeps the number -/
theorem DenR.check {r : URoot} {x : ℝ} (h : DenR r x) (mid : ℚ) : DenR (urCheck r mid) x := by
  by_cases ho : mid < r.left ∨ mid > r.right ∨ r.left = r.right
  · rw [urCheck_out ho]; exact h
  push Not at ho
  obtain ⟨h1, h2, hs⟩ := ho
  rw [urCheck_eq h hs h1 h2]
  rcases h.loc with ⟨e1, e2⟩ | ⟨l1, l2, n1, n2, hu⟩
  · exact absurd (by exact_mod_cast e1.trans e2.symm) hs
  have m1 : (r.left : ℝ) ≤ mid := by exact_mod_cast h1
  have m2 : (mid : ℝ) ≤ r.right := by exact_mod_cast h2
  have hm0 : (mid : ℝ) ≠ x → aeval (mid : ℝ) (toPoly r.poly) ≠ 0 := by
    intro hm hz
    rcases m1.eq_or_lt with e | m1
    · rw [e] at n1; exact n1 hz
    rcases m2.eq_or_lt with e | m2
    · rw [← e] at n2; exact n2 hz
    exact hm (hu _ m1 m2 hz)
  split
  · rename_i hm
    exact ⟨h.inf, h.canon, h.deg, h.root, h.simple, Or.inl ⟨hm, hm⟩⟩
  · rename_i hm
    split
    · rename_i hlt
      exact ⟨h.inf, h.canon, h.deg, h.root, h.simple, Or.inr ⟨hlt, l2, hm0 hm, n2, fun y y1 y2 => hu y (m1.trans_lt y1) y2⟩⟩
    · rename_i hlt
      exact ⟨h.inf, h.canon, h.deg, h.root, h.simple, Or.inr ⟨l1, lt_of_le_of_ne (not_lt.1 hlt) (Ne.symm hm), n1, hm0 hm, fun y y1 y2 => hu y y1 (y2.trans_le m2)⟩⟩

/-- the sign that the comparison functions return -/
noncomputable def cmpSign {α : Type*} [LinearOrder α] (a b : α) : ℤ := if a < b then 1 else if a = b then 0 else -1

theorem cmpSign_lt {α : Type*} [LinearOrder α] {a b : α} (h : a < b) : cmpSign a b = 1 := by unfold cmpSign; rw [if_pos h]
theorem cmpSign_self {α : Type*} [LinearOrder α] (a : α) : cmpSign a a = 0 := by unfold cmpSign; rw [if_neg (lt_irrefl _), if_pos rfl]
theorem cmpSign_gt {α : Type*} [LinearOrder α] {a b : α} (h : b < a) : cmpSign a b = -1 := by
  unfold cmpSign; rw [if_neg h.not_gt, if_neg h.ne']
theorem cmpSign_swap {α : Type*} [LinearOrder α] (a b : α) : cmpSign a b = -cmpSign b a := by
  rcases lt_trichotomy a b with h | rfl | h
  · rw [cmpSign_lt h, cmpSign_gt h]; rfl
  · rw [cmpSign_self]; rfl
  · rw [cmpSign_lt h, cmpSign_gt h]

theorem urCmpQ_specR {r : URoot} {x : ℝ} (h : DenR r x) (q : ℚ) : (urCmpQ r q).1 = cmpSign x (q : ℝ) ∧ DenR (urCmpQ r q).2 x := by
  unfold urCmpQ
  rw [if_neg (by rw [h.inf]; decide), if_neg (by rw [h.inf]; decide)]
  obtain ⟨b1, b2⟩ := h.le
  split
  · rename_i hq
    refine ⟨?_, h⟩
    rw [hq.1, ← h.single hq.2]; exact (cmpSign_self _).symm
  rename_i hq
  have hsing : r.left = r.right → (q : ℝ) ≠ x := by
    intro hs e
    rw [← h.single hs] at e
    exact hq ⟨by exact_mod_cast e, hs⟩
  split
  · rename_i hl
    refine ⟨?_, h⟩
    have hl' : (q : ℝ) ≤ r.left := by exact_mod_cast hl
    rw [cmpSign_gt]
    by_cases hs : r.left = r.right
    · exact lt_of_le_of_ne (hl'.trans b1) (hsing hs)
    · exact lt_of_le_of_lt hl' (h.lt hs).1
  rename_i hl
  push Not at hl
  split
  · rename_i hr
    refine ⟨?_, h⟩
    have hr' : (r.right : ℝ) ≤ q := by exact_mod_cast hr
    rw [cmpSign_lt]
    by_cases hs : r.left = r.right
    · exact lt_of_le_of_ne (b2.trans hr') (Ne.symm (hsing hs))
    · exact lt_of_lt_of_le (h.lt hs).2 hr'
  rename_i hr
  have hr : q < r.right := not_le.1 hr
  have hs : r.left ≠ r.right := (hl.trans hr).ne
  have hck := urCheck_eq h hs hl.le hr.le
  by_cases hz : assignQ r.poly q = 0
  · rw [if_pos hz]
    have hz' := (assignQ_zero_iff _ _).1 hz
    have e : (q : ℝ) = x := by
      rcases h.loc with ⟨e1, e2⟩ | ⟨l1, l2, n1, n2, hu⟩
      · exact absurd (by exact_mod_cast e1.trans e2.symm) hs
      · exact hu _ (by exact_mod_cast hl) (by exact_mod_cast hr) hz'
    refine ⟨by rw [e]; exact (cmpSign_self _).symm, ?_⟩
    exact ⟨h.inf, h.canon, h.deg, h.root, h.simple, Or.inl ⟨e, e⟩⟩
  rw [if_neg hz]
  have hne : (q : ℝ) ≠ x := fun e => hz ((assignQ_zero_iff _ _).2 (by rw [e]; exact h.root))
  rw [if_neg hne] at hck
  have hd := h.check q
  by_cases hlt : (q : ℝ) < x
  · rw [if_pos hlt] at hck
    rw [if_pos (by rw [hck])]
    exact ⟨(cmpSign_gt hlt).symm, hd⟩
  · rw [if_neg hlt] at hck
    rw [if_neg (by rw [hck]; exact not_le.2 hl)]
    exact ⟨(cmpSign_lt (lt_of_le_of_ne (not_lt.1 hlt) (Ne.symm hne))).symm, hd⟩

/-! ### factors of the polynomial -/

theorem root_of_dvd {G F : ℤ[X]} (h : G ∣ F) {y : ℝ} (hy : aeval y G = 0) : aeval y F = 0 := by
  obtain ⟨H, rfl⟩ := h
  rw [map_mul, hy, zero_mul]

theorem simple_of_dvd {G F : ℤ[X]} (h : G ∣ F) {x : ℝ} (hd : aeval x (Polynomial.derivative F) ≠ 0) (hx : aeval x G = 0) :
    aeval x (Polynomial.derivative G) ≠ 0 := by
  obtain ⟨H, rfl⟩ := h
  rw [derivative_mul, map_add, map_mul, map_mul, hx, zero_mul, add_zero] at hd
  exact fun hc => hd (by rw [hc, zero_mul])

/-- replacing the polynomial by a factor that still vanishes at the number -/
theorem DenR.factor {r : URoot} {x : ℝ} (h : DenR r x) {g : UPoly ℤ} {G : ℤ[X]} (hg : Is g G) (hd : G ∣ toPoly r.poly) (hx : aeval x G = 0) :
    DenR { r with poly := g } x := by
  refine ⟨h.inf, hg.canon, ?_, ?_, ?_, ?_⟩
  · show (toPoly g).natDegree < _
    rw [hg.eq]
    exact lt_of_le_of_lt (natDegree_le_of_dvd hd h.ne) h.deg
  · show aeval x (toPoly g) = 0
    rw [hg.eq]; exact hx
  · show aeval x (Polynomial.derivative (toPoly g)) ≠ 0
    rw [hg.eq]; exact simple_of_dvd hd h.simple hx
  · rcases h.loc with h1 | ⟨l1, l2, n1, n2, hu⟩
    · exact Or.inl h1
    · refine Or.inr ⟨l1, l2, ?_, ?_, ?_⟩
      · show aeval _ (toPoly g) ≠ 0
        rw [hg.eq]; exact fun hc => n1 (root_of_dvd hd hc)
      · show aeval _ (toPoly g) ≠ 0
        rw [hg.eq]; exact fun hc => n2 (root_of_dvd hd hc)
      · show ∀ y : ℝ, _ → _ → aeval y (toPoly g) = 0 → y = x
        rw [hg.eq]; exact fun y y1 y2 y3 => hu y y1 y2 (root_of_dvd hd y3)

/-- `_uroot_check(G, a, b)` on a factor `G` of the polynomial decides whether the number is a root of `G` -/
theorem polyCheck_iff {r : URoot} {x : ℝ} (h : DenR r x) (hs : r.left ≠ r.right) {g : UPoly ℤ} {G : ℤ[X]} (hg : Is g G) (hd : G ∣ toPoly r.poly) :
    polyCheck g r.left r.right = true ↔ aeval x G = 0 := by
  obtain ⟨b1, b2⟩ := h.lt hs
  rcases h.loc with ⟨e1, e2⟩ | ⟨l1, l2, n1, n2, hu⟩
  · exact absurd (by exact_mod_cast e1.trans e2.symm) hs
  have n1' : aeval (r.left : ℝ) G ≠ 0 := fun hc => n1 (root_of_dvd hd hc)
  have n2' : aeval (r.right : ℝ) G ≠ 0 := fun hc => n2 (root_of_dvd hd hc)
  unfold polyCheck
  rw [if_neg (fun hc => hs hc.1), sign_assign, sign_assign, hg.eq]
  by_cases hx : aeval x G = 0
  · obtain ⟨s, s0, hsg⟩ := sign_pattern hx (simple_of_dvd hd h.simple hx) l1 l2 n1' n2' (fun y y1 y2 y3 => hu y y1 y2 (root_of_dvd hd y3))
    rw [hsg _ (l1.trans l2).le le_rfl, hsg _ le_rfl (l1.trans l2).le, sign_pos (sub_pos.2 l2), sign_neg (sub_neg.2 l1)]
    have : (1 * s) * (-1 * s) < 0 := by revert s0; cases s <;> decide
    rw [if_pos this]
    simp [hx]
  · have hno : ∀ y, (r.left : ℝ) ≤ y → y ≤ r.right → (G.map (Int.castRingHom ℝ)).eval y ≠ 0 := by
      intro y y1 y2 hz
      have hz : aeval y G = 0 := by rw [aeval_def, ← eval_map]; exact hz
      rcases y1.eq_or_lt with rfl | y1
      · exact n1' hz
      rcases y2.eq_or_lt with rfl | y2
      · exact n2' hz
      rw [hu y y1 y2 (root_of_dvd hd hz)] at hz
      exact hx hz
    have ev : ∀ y, aeval y G = (G.map (Int.castRingHom ℝ)).eval y := fun y => by rw [aeval_def, eval_map]; rfl
    have := const_sign hno (l1.trans l2).le le_rfl
    rw [ev, ev, this]
    have h0 : SignType.sign ((G.map (Int.castRingHom ℝ)).eval (r.left : ℝ)) ≠ 0 := by
      rw [Ne, sign_eq_zero_iff]; exact hno _ le_rfl (l1.trans l2).le
    rw [← ev] at h0 ⊢
    generalize SignType.sign (aeval (r.left : ℝ) G) = s at h0 ⊢
    rw [if_neg (by revert h0; cases s <;> decide), if_pos (by revert h0; cases s <;> decide)]
    simp [hx]

/-- a gcd over ℤ vanishes at every common real root -/
theorem gcd_root {f g : UPoly ℤ} {F G D : ℤ[X]} (hf : Is f F) (hg : Is g G) (f0 : F ≠ 0) (g0 : G ≠ 0) (hD : IsGcd D F G) {x : ℝ}
    (hx : aeval x F = 0) (hy : aeval x G = 0) : aeval x D = 0 := by
  obtain ⟨_, _, _, E, S, T, _, _, _, _, hpos, he, ⟨a, ha, hda⟩, b, hb, hdb⟩ := extGcdZ_spec hf hg f0 g0
  have hE : aeval x E = 0 := by rw [← he, map_add, map_mul, map_mul, hx, hy]; simp
  have hE0 : E ≠ 0 := by rintro rfl; simp at hpos
  have h1 : E.primPart ∣ F := prim_dvd_of_dvd_C_mul E.isPrimitive_primPart ha ((primPart_dvd E).trans hda)
  have h2 : E.primPart ∣ G := prim_dvd_of_dvd_C_mul E.isPrimitive_primPart hb ((primPart_dvd E).trans hdb)
  have h3 : aeval x E.primPart = 0 := by
    have e := E.eq_C_content_mul_primPart
    rw [e, map_mul, aeval_C] at hE
    rcases mul_eq_zero.1 hE with hc | hc
    · exact absurd (content_eq_zero_iff.1 (by simpa using hc)) hE0
    · exact hc
  exact root_of_dvd (hD.2.2 _ h1 h2) h3

/-! ### bisection of two equal intervals -/

/-- the wrong answer that the comparison can give: the object called greater is reduced to the left end of the other interval -/
def Wrong (c : ℤ) (a b : URoot) (x1 x2 : ℝ) : Prop :=
  (c = 1 ∧ x2 < x1 ∧ b.left = b.right ∧ a.left = b.left ∧ a.left ≠ a.right) ∨ (c = -1 ∧ x1 < x2 ∧ a.left = a.right ∧ b.left = a.left ∧ b.left ≠ b.right)

/-- the state between two rounds -/
def Apart (a b : URoot) (x1 x2 : ℝ) : Prop :=
  (a.left ≠ b.left ∨ a.right ≠ b.right) → ((a.left ≤ b.left ∧ x1 < x2) ∨ (¬ a.left ≤ b.left ∧ x2 < x1) ∨ (x2 < x1 ∧ b.left = b.right ∧ a.left = b.left ∧ a.left ≠ a.right))

/-- one round on equal intervals -/
theorem bisect_step {r1 r2 : URoot} {x1 x2 : ℝ} (h1 : DenR r1 x1) (h2 : DenR r2 x2) (hne : x1 ≠ x2) (e1 : r1.left = r2.left) (e2 : r1.right = r2.right)
    {m : ℚ} (hm : m = (r1.left + r1.right) / 2) :
    r1.left < r1.right ∧ Apart (urCheck r1 m) (urCheck r2 m) x1 x2 ∧
      ((urCheck r1 m).left = (urCheck r2 m).left → (urCheck r1 m).right = (urCheck r2 m).right → (urCheck r1 m).right - (urCheck r1 m).left = (r1.right - r1.left) / 2) := by
  have hs1 : r1.left ≠ r1.right := by
    intro hs
    exact hne ((h1.single hs).symm.trans (by rw [e1]; exact h2.single (e1 ▸ e2 ▸ hs)))
  have hs2 : r2.left ≠ r2.right := e1 ▸ e2 ▸ hs1
  obtain ⟨b1, b2⟩ := h1.lt hs1
  obtain ⟨c1, c2⟩ := h2.lt hs2
  have hlt : r1.left < r1.right := by exact_mod_cast b1.trans b2
  have m1 : r1.left < m := by rw [hm]; linarith
  have m2 : m < r1.right := by rw [hm]; linarith
  refine ⟨hlt, ?_⟩
  rw [urCheck_eq h1 hs1 m1.le m2.le, urCheck_eq h2 hs2 (e1 ▸ m1.le) (e2 ▸ m2.le)]
  have w : m - r1.left = (r1.right - r1.left) / 2 ∧ r1.right - m = (r1.right - r1.left) / 2 := by rw [hm]; constructor <;> ring
  unfold Apart
  rcases lt_trichotomy (m : ℝ) x1 with a | a | a <;> rcases lt_trichotomy (m : ℝ) x2 with b | b | b
  · rw [if_neg a.ne, if_pos a, if_neg b.ne, if_pos b]
    exact ⟨fun hc => absurd e2 (by simpa using hc), fun _ _ => w.2⟩
  · rw [if_neg a.ne, if_pos a, if_pos b]
    exact ⟨fun _ => Or.inr (Or.inr ⟨b ▸ a, rfl, rfl, m2.ne⟩), fun _ hc => absurd hc m2.ne'⟩
  · rw [if_neg a.ne, if_pos a, if_neg b.ne', if_neg b.not_gt]
    exact ⟨fun _ => Or.inr (Or.inl ⟨not_le.2 (e1 ▸ m1), b.trans a⟩), fun hc => absurd (hc.trans e1.symm) m1.ne'⟩
  · rw [if_pos a, if_neg b.ne, if_pos b]
    exact ⟨fun _ => Or.inl ⟨le_rfl, a ▸ b⟩, fun _ hc => absurd (hc.trans e2.symm) m2.ne⟩
  · exact absurd (a.symm.trans b) hne
  · rw [if_pos a, if_neg b.ne', if_neg b.not_gt]
    exact ⟨fun _ => Or.inr (Or.inl ⟨not_le.2 (e1 ▸ m1), a ▸ b⟩), fun hc => absurd (hc.trans e1.symm) m1.ne'⟩
  · rw [if_neg a.ne', if_neg a.not_gt, if_neg b.ne, if_pos b]
    exact ⟨fun _ => Or.inl ⟨m1.le, a.trans b⟩, fun hc => absurd hc m1.ne⟩
  · rw [if_neg a.ne', if_neg a.not_gt, if_pos b]
    exact ⟨fun _ => Or.inl ⟨m1.le, b ▸ a⟩, fun hc => absurd hc m1.ne⟩
  · rw [if_neg a.ne', if_neg a.not_gt, if_neg b.ne', if_neg b.not_gt]
    exact ⟨fun hc => absurd e1 (by simpa using hc), fun _ _ => w.1⟩

theorem urBisect_spec : ∀ (fuel : Nat) {r1 r2 a b : URoot} {x1 x2 : ℝ}, DenR r1 x1 → DenR r2 x2 → x1 ≠ x2 → Apart r1 r2 x1 x2 →
    urBisect fuel r1 r2 = some (a, b) → DenR a x1 ∧ DenR b x2 ∧ Apart a b x1 x2 ∧ (a.left ≠ b.left ∨ a.right ≠ b.right) := by
  intro fuel
  induction fuel with
  | zero => intro r1 r2 a b x1 x2 _ _ _ _ h; simp [urBisect] at h
  | succ n ih =>
    intro r1 r2 a b x1 x2 h1 h2 hne hsep h
    unfold urBisect at h
    split at h
    · rename_i he
      have hm : (r2.left + r2.right) / 2 = (r1.left + r1.right) / 2 := by rw [he.1, he.2]
      rw [hm] at h
      exact ih (h1.check _) (h2.check _) hne (bisect_step h1 h2 hne he.1 he.2 rfl).2.1 h
    · rename_i he
      cases h
      exact ⟨h1, h2, hsep, by tauto⟩

theorem urBisect_returns {x1 x2 : ℝ} (hne : x1 ≠ x2) : ∀ (n : Nat) {r1 r2 : URoot}, DenR r1 x1 → DenR r2 x2 →
    ((r1.right : ℝ) - r1.left < 2 ^ n * |x1 - x2|) → ∀ fuel, n + 1 ≤ fuel → ∃ y, urBisect fuel r1 r2 = some y := by
  intro n
  induction n with
  | zero =>
    intro r1 r2 h1 h2 hw fuel hf
    obtain ⟨k, rfl⟩ : ∃ k, fuel = k + 1 := ⟨fuel - 1, by omega⟩
    unfold urBisect
    split
    · rename_i he
      exfalso
      obtain ⟨a1, a2⟩ := h1.le
      obtain ⟨b1, b2⟩ := h2.le
      rw [← he.1] at b1; rw [← he.2] at b2
      have : |x1 - x2| ≤ (r1.right : ℝ) - r1.left := abs_le.2 ⟨by linarith, by linarith⟩
      simp at hw
      linarith
    · exact ⟨_, rfl⟩
  | succ n ih =>
    intro r1 r2 h1 h2 hw fuel hf
    obtain ⟨k, rfl⟩ : ∃ k, fuel = k + 1 := ⟨fuel - 1, by omega⟩
    unfold urBisect
    split
    · rename_i he
      have hm : (r2.left + r2.right) / 2 = (r1.left + r1.right) / 2 := by rw [he.1, he.2]
      rw [hm]
      obtain ⟨_, _, hh⟩ := bisect_step h1 h2 hne he.1 he.2 rfl
      by_cases hd : (urCheck r1 ((r1.left + r1.right) / 2)).left = (urCheck r2 ((r1.left + r1.right) / 2)).left ∧
          (urCheck r1 ((r1.left + r1.right) / 2)).right = (urCheck r2 ((r1.left + r1.right) / 2)).right
      · have hw' := hh hd.1 hd.2
        refine ih (h1.check _) (h2.check _) ?_ k (by omega)
        have e : (((urCheck r1 ((r1.left + r1.right) / 2)).right : ℚ) : ℝ) - ((urCheck r1 ((r1.left + r1.right) / 2)).left : ℚ) = ((r1.right : ℝ) - r1.left) / 2 := by
          have := congrArg (fun q : ℚ => (q : ℝ)) hw'
          push_cast at this
          exact this
        rw [e]
        rw [pow_succ] at hw
        linarith
      · obtain ⟨j, rfl⟩ : ∃ j, k = j + 1 := ⟨k - 1, by omega⟩
        unfold urBisect
        rw [if_neg hd]
        exact ⟨_, rfl⟩
    · exact ⟨_, rfl⟩

/-! ### the comparison -/

/-- the last stage: intervals that differ are in the right order -/
theorem urCmpB_spec {prev : Nat → Option Nat} (hprev : PrevOK prev) {rounds fuel : Nat} {r1 r2 : URoot} {x1 x2 : ℝ} (h1 : DenR r1 x1) (h2 : DenR r2 x2)
    (hdiff : (r1.left ≠ r2.left ∨ r1.right ≠ r2.right) → x1 < x2) (hs : r1.left = r2.left → r1.right = r2.right → r1.left ≠ r1.right)
    {c : ℤ} {a b : URoot} (h : urCmpB prev rounds fuel r1 r2 = some (c, a, b)) :
    DenR a x1 ∧ DenR b x2 ∧ (c = cmpSign x1 x2 ∨ Wrong c a b x1 x2) := by
  unfold urCmpB at h
  by_cases hd : r1.left ≠ r2.left ∨ r1.right ≠ r2.right
  · rw [if_pos hd] at h
    cases h
    exact ⟨h1, h2, Or.inl (cmpSign_lt (hdiff hd)).symm⟩
  rw [if_neg hd] at h
  push Not at hd
  obtain ⟨e1, e2⟩ := hd
  have hs1 := hs e1 e2
  have hs2 : r2.left ≠ r2.right := e1 ▸ e2 ▸ hs1
  obtain ⟨l1, l2⟩ := h1.lt hs1
  obtain ⟨k1, k2⟩ := h2.lt hs2
  have uniq : ∀ {r : URoot} {x : ℝ}, DenR r x → r.left ≠ r.right → ∀ y : ℝ, (r.left : ℝ) < y → y < r.right → aeval y (toPoly r.poly) = 0 → y = x := by
    intro r x hr hsr
    rcases hr.loc with ⟨e1, e2⟩ | ⟨_, _, _, _, hu⟩
    · exact absurd (by exact_mod_cast e1.trans e2.symm) hsr
    · exact hu
  by_cases hp : r1.poly = r2.poly
  · rw [if_pos hp] at h
    cases h
    have : x2 = x1 := uniq h1 hs1 x2 (e1 ▸ k1) (e2 ▸ k2) (hp ▸ h2.root)
    rw [this]
    exact ⟨h1, this ▸ h2, Or.inl (cmpSign_self _).symm⟩
  rw [if_neg hp] at h
  cases hg : gcdZ prev rounds r1.poly r2.poly with
  | none => rw [hg] at h; simp at h
  | some p =>
    rw [hg] at h
    simp only at h
    obtain ⟨D, hD, hgcd⟩ := gcdZ_spec hprev h2.is h1.is h2.deg h1.deg hg
    by_cases hc : polyCheck p r1.left r1.right = true
    · rw [if_pos hc] at h
      cases h
      have hx := (polyCheck_iff h1 hs1 hD hgcd.1).1 hc
      have : x1 = x2 := uniq h2 hs2 x1 (e1 ▸ l1) (e2 ▸ l2) (root_of_dvd hgcd.2.1 hx)
      subst this
      exact ⟨h1.factor hD hgcd.1 hx, h2.factor hD hgcd.2.1 hx, Or.inl (cmpSign_self _).symm⟩
    · rw [if_neg hc] at h
      have hx : aeval x1 D ≠ 0 := fun hx => hc ((polyCheck_iff h1 hs1 hD hgcd.1).2 hx)
      have hc2 : polyCheck p r2.left r2.right ≠ true := by rw [← e1, ← e2]; exact hc
      have hx2 : aeval x2 D ≠ 0 := fun hx => hc2 ((polyCheck_iff h2 hs2 hD hgcd.2.1).2 hx)
      have hne : x1 ≠ x2 := by
        rintro rfl
        exact hx (gcd_root h1.is h2.is h1.ne h2.ne hgcd h1.root h2.root)
      have hD0 : D ≠ 0 := by rintro rfl; simp at hx
      obtain ⟨A1, hA1⟩ := hgcd.1
      obtain ⟨A2, hA2⟩ := hgcd.2.1
      obtain ⟨q1, hq1, iq1⟩ := divQ_exact (F := A1) (by rw [mul_comm, ← hA1]; exact h1.is) hD hD0 divZ_div divZ_exact
      obtain ⟨q2, hq2, iq2⟩ := divQ_exact (F := A2) (by rw [mul_comm, ← hA2]; exact h2.is) hD hD0 divZ_div divZ_exact
      rw [hq1, hq2] at h
      simp only at h
      have d1 : DenR { r1 with poly := q1 } x1 := h1.factor iq1 ⟨D, by rw [hA1, mul_comm]⟩ (by
        have := h1.root
        rw [hA1, map_mul] at this
        exact (mul_eq_zero.1 this).resolve_left hx)
      have d2 : DenR { r2 with poly := q2 } x2 := h2.factor iq2 ⟨D, by rw [hA2, mul_comm]⟩ (by
        have := h2.root
        rw [hA2, map_mul] at this
        exact (mul_eq_zero.1 this).resolve_left hx2)
      cases hb : urBisect fuel { r1 with poly := q1 } { r2 with poly := q2 } with
      | none => rw [hb] at h; simp at h
      | some y =>
        obtain ⟨a', b'⟩ := y
        rw [hb] at h
        simp only [Option.some.injEq, Prod.mk.injEq] at h
        obtain ⟨hcc, rfl, rfl⟩ := h
        obtain ⟨da, db, hsep, hdf⟩ := urBisect_spec fuel d1 d2 hne (fun hc => by simp [e1, e2] at hc) hb
        refine ⟨da, db, ?_⟩
        rcases hsep hdf with ⟨g1, g2⟩ | ⟨g1, g2⟩ | ⟨g1, g2, g3, g4⟩
        · rw [if_pos g1] at hcc
          exact Or.inl (by rw [← hcc, cmpSign_lt g2])
        · rw [if_neg g1] at hcc
          exact Or.inl (by rw [← hcc, cmpSign_gt g2])
        · rw [if_pos g3.le] at hcc
          exact Or.inr (Or.inl ⟨hcc.symm, g1, g2, g3, g4⟩)

/-- refinement at each other's end points: afterwards the intervals are equal, or apart in the order of the numbers -/
theorem urRefine_spec {r1 r2 : URoot} {x1 x2 : ℝ} (h1 : DenR r1 x1) (h2 : DenR r2 x2) (s1 : r1.left ≠ r1.right) (s2 : r2.left ≠ r2.right)
    (hle : r1.left ≤ r2.left) (hov : r2.left ≤ r1.right) :
    DenR (urRefine r1 r2).1 x1 ∧ DenR (urRefine r1 r2).2 x2 ∧
    (((urRefine r1 r2).1.left = (urRefine r1 r2).2.left ∧ (urRefine r1 r2).1.right = (urRefine r1 r2).2.right ∧ (urRefine r1 r2).1.left ≠ (urRefine r1 r2).1.right) ∨
      ((urRefine r1 r2).1.left ≤ (urRefine r1 r2).2.left ∧ x1 < x2 ∧ ((urRefine r1 r2).1.left ≠ (urRefine r1 r2).2.left ∨ (urRefine r1 r2).1.right ≠ (urRefine r1 r2).2.right)) ∨
      ((urRefine r1 r2).2.left < (urRefine r1 r2).1.left ∧ x2 < x1)) := by
  obtain ⟨l1, l2⟩ := h1.lt s1
  obtain ⟨k1, k2⟩ := h2.lt s2
  have a12 : r1.left < r1.right := by exact_mod_cast l1.trans l2
  have b12 : r2.left < r2.right := by exact_mod_cast k1.trans k2
  unfold urRefine
  by_cases hd : r1.left ≠ r2.left ∨ r1.right ≠ r2.right
  swap
  · rw [if_neg hd]
    push Not at hd
    exact ⟨h1, h2, Or.inl ⟨hd.1, hd.2, s1⟩⟩
  rw [if_pos hd]
  refine ⟨(h1.check _).check _, h2.check _, ?_⟩
  dsimp only
  have hm := urCheck_eq h1 s1 hle hov
  -- `r2` is not changed by a cut at its own ends
  have keepL : urCheck r2 r2.left = r2 := by
    rw [urCheck_eq h2 s2 le_rfl b12.le, if_neg k1.ne, if_pos k1]
  have keepR : urCheck r2 r2.right = r2 := by
    rw [urCheck_eq h2 s2 b12.le le_rfl, if_neg k2.ne', if_neg k2.not_gt]
  rcases lt_trichotomy (r2.left : ℝ) x1 with g | g | g
  · rw [if_neg g.ne, if_pos g] at hm
    have h1' : DenR { r1 with left := r2.left } x1 := by rw [← hm]; exact h1.check _
    have hov' : r2.left < r1.right := by exact_mod_cast g.trans l2
    have s1' : ({ r1 with left := r2.left } : URoot).left ≠ ({ r1 with left := r2.left } : URoot).right := hov'.ne
    rw [hm]
    rcases lt_or_ge r1.right r2.right with hb | hb
    · rw [urCheck_out (r := { r1 with left := r2.left }) (Or.inr (Or.inl hb))]
      dsimp only
      rw [urCheck_eq h2 s2 hov hb.le]
      rcases lt_trichotomy (r1.right : ℝ) x2 with j | j | j
      · rw [if_neg j.ne, if_pos j]
        exact Or.inr (Or.inl ⟨hov, l2.trans j, Or.inl hov'.ne⟩)
      · rw [if_pos j]
        exact Or.inr (Or.inl ⟨hov, j ▸ l2, Or.inl hov'.ne⟩)
      · rw [if_neg j.ne', if_neg j.not_gt]
        exact Or.inl ⟨rfl, rfl, hov'.ne⟩
    · rw [urCheck_eq h1' s1' b12.le hb]
      dsimp only
      rcases lt_trichotomy (r2.right : ℝ) x1 with j | j | j
      · rw [if_neg j.ne, if_pos j]
        dsimp only
        have : r2.right < r1.right := by exact_mod_cast j.trans l2
        rw [urCheck_out (Or.inr (Or.inl this))]
        exact Or.inr (Or.inr ⟨b12, k2.trans j⟩)
      · rw [if_pos j]
        dsimp only
        rw [keepR]
        exact Or.inr (Or.inr ⟨b12, j ▸ k2⟩)
      · rw [if_neg j.ne', if_neg j.not_gt]
        dsimp only
        rw [keepR]
        exact Or.inl ⟨rfl, rfl, b12.ne⟩
  · rw [if_pos g] at hm
    rw [hm, urCheck_out (r := { r1 with left := r2.left, right := r2.left }) (Or.inr (Or.inr rfl))]
    dsimp only
    rw [keepL]
    exact Or.inr (Or.inl ⟨le_rfl, g ▸ k1, Or.inr b12.ne⟩)
  · rw [if_neg g.ne', if_neg g.not_gt] at hm
    rw [hm, urCheck_out (r := { r1 with right := r2.left }) (Or.inr (Or.inl b12))]
    dsimp only
    rw [keepL]
    exact Or.inr (Or.inl ⟨hle, g.trans k1, Or.inr b12.ne⟩)

theorem wrong_swap {c : ℤ} {a b : URoot} {x1 x2 : ℝ} (h : Wrong c a b x1 x2) : Wrong (-c) b a x2 x1 := by
  rcases h with ⟨rfl, h⟩ | ⟨rfl, h⟩
  · exact Or.inr ⟨rfl, h⟩
  · exact Or.inl ⟨rfl, h⟩

theorem urCmpA_spec {prev : Nat → Option Nat} (hprev : PrevOK prev) {rounds fuel : Nat} {r1 r2 : URoot} {x1 x2 : ℝ} (h1 : DenR r1 x1) (h2 : DenR r2 x2)
    (s1 : r1.left ≠ r1.right) (s2 : r2.left ≠ r2.right) (hle : r1.left ≤ r2.left)
    {c : ℤ} {a b : URoot} (h : urCmpA prev rounds fuel r1 r2 = some (c, a, b)) :
    DenR a x1 ∧ DenR b x2 ∧ (c = cmpSign x1 x2 ∨ Wrong c a b x1 x2) := by
  unfold urCmpA at h
  obtain ⟨l1, l2⟩ := h1.lt s1
  obtain ⟨k1, k2⟩ := h2.lt s2
  by_cases hov : r1.right < r2.left
  · rw [if_pos hov] at h
    cases h
    have : (r1.right : ℝ) < r2.left := by exact_mod_cast hov
    exact ⟨h1, h2, Or.inl (cmpSign_lt (l2.trans (this.trans k1))).symm⟩
  rw [if_neg hov] at h
  obtain ⟨d1, d2, hr⟩ := urRefine_spec h1 h2 s1 s2 hle (not_lt.1 hov)
  obtain ⟨A, hA⟩ : ∃ A, A = (urRefine r1 r2).1 := ⟨_, rfl⟩
  obtain ⟨B, hB⟩ : ∃ B, B = (urRefine r1 r2).2 := ⟨_, rfl⟩
  rw [← hA, ← hB] at h hr
  rw [← hA] at d1
  rw [← hB] at d2
  rcases hr with ⟨e1, e2, e3⟩ | ⟨e1, e2, e3⟩ | ⟨e1, e2⟩
  · rw [if_neg (by rw [e1]; exact lt_irrefl _)] at h
    exact urCmpB_spec hprev d1 d2 (fun hc => by simp [e1, e2] at hc) (fun _ _ => e3) h
  · rw [if_neg (not_lt.2 e1)] at h
    exact urCmpB_spec hprev d1 d2 (fun _ => e2) (fun g1 g2 => absurd e3 (by simp [g1, g2])) h
  · rw [if_pos e1] at h
    cases hB' : urCmpB prev rounds fuel B A with
    | none => rw [hB'] at h; simp at h
    | some y =>
      obtain ⟨c', a', b'⟩ := y
      rw [hB'] at h
      simp only [Option.map_some, urSwap, Option.some.injEq, Prod.mk.injEq] at h
      obtain ⟨rfl, rfl, rfl⟩ := h
      obtain ⟨i1, i2, i3⟩ := urCmpB_spec hprev d2 d1 (fun _ => e2) (fun g _ => absurd g e1.ne) hB'
      refine ⟨i2, i1, ?_⟩
      rcases i3 with i3 | i3
      · exact Or.inl (by rw [i3, cmpSign_swap x1])
      · exact Or.inr (wrong_swap i3)

/-- **the comparison of two finite objects** -/
theorem urCmp_specR {prev : Nat → Option Nat} (hprev : PrevOK prev) {rounds fuel : Nat} {r1 r2 : URoot} {x1 x2 : ℝ} (h1 : DenR r1 x1) (h2 : DenR r2 x2)
    {c : ℤ} {a b : URoot} (h : urCmp prev rounds fuel r1 r2 = some (c, a, b)) :
    DenR a x1 ∧ DenR b x2 ∧ (c = cmpSign x1 x2 ∨ (Wrong c a b x1 x2 ∧ r1.left ≠ r1.right ∧ r2.left ≠ r2.right)) := by
  unfold urCmp at h
  rw [if_neg (by rw [h1.inf]; decide), if_neg (by rw [h1.inf]; decide), if_neg (by rw [h2.inf]; decide), if_neg (by rw [h2.inf]; decide)] at h
  by_cases s1 : r1.left = r1.right
  · rw [if_pos s1] at h
    simp only [Option.some.injEq, Prod.mk.injEq] at h
    obtain ⟨rfl, rfl, rfl⟩ := h
    obtain ⟨g1, g2⟩ := urCmpQ_specR h2 r1.left
    refine ⟨h1, g2, Or.inl ?_⟩
    rw [g1, cmpSign_swap x1, h1.single s1]
  rw [if_neg s1] at h
  by_cases s2 : r2.left = r2.right
  · rw [if_pos s2] at h
    simp only [Option.some.injEq, Prod.mk.injEq] at h
    obtain ⟨rfl, rfl, rfl⟩ := h
    obtain ⟨g1, g2⟩ := urCmpQ_specR h1 r2.left
    exact ⟨g2, h2, Or.inl (by rw [g1, h2.single s2])⟩
  rw [if_neg s2] at h
  by_cases hsw : r1.left > r2.left
  · rw [if_pos hsw] at h
    cases hA : urCmpA prev rounds fuel r2 r1 with
    | none => rw [hA] at h; simp at h
    | some y =>
      obtain ⟨c', a', b'⟩ := y
      rw [hA] at h
      simp only [Option.map_some, urSwap, Option.some.injEq, Prod.mk.injEq] at h
      obtain ⟨rfl, rfl, rfl⟩ := h
      obtain ⟨i1, i2, i3⟩ := urCmpA_spec hprev h2 h1 s2 s1 hsw.le hA
      refine ⟨i2, i1, ?_⟩
      rcases i3 with i3 | i3
      · exact Or.inl (by rw [i3, cmpSign_swap x1])
      · exact Or.inr ⟨wrong_swap i3, s1, s2⟩
  · rw [if_neg hsw] at h
    obtain ⟨i1, i2, i3⟩ := urCmpA_spec hprev h1 h2 s1 s2 (not_lt.1 hsw) h
    exact ⟨i1, i2, i3.imp_right fun i => ⟨i, s1, s2⟩⟩

/-! ### the comparison returns whenever the gcd does -/

theorem urCmpB_returns {prev : Nat → Option Nat} (hprev : PrevOK prev) {rounds : Nat} {r1 r2 : URoot} {x1 x2 : ℝ} (h1 : DenR r1 x1) (h2 : DenR r2 x2)
    (hs : r1.left = r2.left → r1.right = r2.right → r1.left ≠ r1.right) (hg : ∃ p, gcdZ prev rounds r1.poly r2.poly = some p) :
    ∃ N, ∀ fuel, N ≤ fuel → ∃ y, urCmpB prev rounds fuel r1 r2 = some y := by
  by_cases hd : r1.left ≠ r2.left ∨ r1.right ≠ r2.right
  · exact ⟨0, fun fuel _ => ⟨_, by unfold urCmpB; rw [if_pos hd]⟩⟩
  by_cases hp : r1.poly = r2.poly
  · exact ⟨0, fun fuel _ => ⟨_, by unfold urCmpB; rw [if_neg hd, if_pos hp]⟩⟩
  obtain ⟨p, hg⟩ := hg
  by_cases hc : polyCheck p r1.left r1.right = true
  · exact ⟨0, fun fuel _ => ⟨_, by unfold urCmpB; rw [if_neg hd, if_neg hp, hg]; simp only; rw [if_pos hc]⟩⟩
  have hd' := hd
  push Not at hd'
  obtain ⟨e1, e2⟩ := hd'
  have hs1 := hs e1 e2
  have hs2 : r2.left ≠ r2.right := e1 ▸ e2 ▸ hs1
  obtain ⟨D, hD, hgcd⟩ := gcdZ_spec hprev h2.is h1.is h2.deg h1.deg hg
  have hx : aeval x1 D ≠ 0 := fun hx => hc ((polyCheck_iff h1 hs1 hD hgcd.1).2 hx)
  have hc2 : polyCheck p r2.left r2.right ≠ true := by rw [← e1, ← e2]; exact hc
  have hx2 : aeval x2 D ≠ 0 := fun hx => hc2 ((polyCheck_iff h2 hs2 hD hgcd.2.1).2 hx)
  have hne : x1 ≠ x2 := by
    rintro rfl
    exact hx (gcd_root h1.is h2.is h1.ne h2.ne hgcd h1.root h2.root)
  have hD0 : D ≠ 0 := by rintro rfl; simp at hx
  obtain ⟨A1, hA1⟩ := hgcd.1
  obtain ⟨A2, hA2⟩ := hgcd.2.1
  obtain ⟨q1, hq1, iq1⟩ := divQ_exact (F := A1) (by rw [mul_comm, ← hA1]; exact h1.is) hD hD0 divZ_div divZ_exact
  obtain ⟨q2, hq2, iq2⟩ := divQ_exact (F := A2) (by rw [mul_comm, ← hA2]; exact h2.is) hD hD0 divZ_div divZ_exact
  have d1 : DenR { r1 with poly := q1 } x1 := h1.factor iq1 ⟨D, by rw [hA1, mul_comm]⟩ (by
    have := h1.root
    rw [hA1, map_mul] at this
    exact (mul_eq_zero.1 this).resolve_left hx)
  have d2 : DenR { r2 with poly := q2 } x2 := h2.factor iq2 ⟨D, by rw [hA2, mul_comm]⟩ (by
    have := h2.root
    rw [hA2, map_mul] at this
    exact (mul_eq_zero.1 this).resolve_left hx2)
  have habs : 0 < |x1 - x2| := abs_pos.2 (sub_ne_zero.2 hne)
  obtain ⟨n, hn⟩ := pow_unbounded_of_one_lt (((r1.right : ℝ) - r1.left) / |x1 - x2|) one_lt_two
  rw [div_lt_iff₀ habs] at hn
  refine ⟨n + 1, fun fuel hf => ?_⟩
  obtain ⟨y, hy⟩ := urBisect_returns hne n d1 d2 hn fuel hf
  exact ⟨_, by unfold urCmpB; rw [if_neg hd, if_neg hp, hg]; simp only; rw [if_neg hc, hq1, hq2]; simp only; rw [hy]⟩

theorem urCmpA_returns {prev : Nat → Option Nat} (hprev : PrevOK prev) {rounds : Nat} {r1 r2 : URoot} {x1 x2 : ℝ} (h1 : DenR r1 x1) (h2 : DenR r2 x2)
    (s1 : r1.left ≠ r1.right) (s2 : r2.left ≠ r2.right) (hle : r1.left ≤ r2.left)
    (hg : ∃ p, gcdZ prev rounds r1.poly r2.poly = some p) :
    ∃ N, ∀ fuel, N ≤ fuel → ∃ y, urCmpA prev rounds fuel r1 r2 = some y := by
  by_cases hov : r1.right < r2.left
  · exact ⟨0, fun fuel _ => ⟨_, by unfold urCmpA; rw [if_pos hov]⟩⟩
  obtain ⟨d1, d2, hr⟩ := urRefine_spec h1 h2 s1 s2 hle (not_lt.1 hov)
  have chk : ∀ (r : URoot) (m : ℚ), (urCheck r m).poly = r.poly := by
    intro r m
    unfold urCheck
    repeat' split
    all_goals rfl
  have p1 : (urRefine r1 r2).1.poly = r1.poly := by
    unfold urRefine
    split
    · simp only [chk]
    · rfl
  have p2 : (urRefine r1 r2).2.poly = r2.poly := by
    unfold urRefine
    split
    · simp only [chk]
    · rfl
  by_cases hsw : (urRefine r1 r2).1.left > (urRefine r1 r2).2.left
  · refine ⟨0, fun fuel _ => ⟨urSwap (1, (urRefine r1 r2).2, (urRefine r1 r2).1), ?_⟩⟩
    unfold urCmpA
    rw [if_neg hov, if_pos hsw]
    unfold urCmpB
    rw [if_pos (Or.inl hsw.ne)]
    rfl
  · obtain ⟨N, hN⟩ := urCmpB_returns hprev d1 d2 (fun g1 g2 => by
      rcases hr with ⟨e1, e2, e3⟩ | ⟨e1, e2, e3⟩ | ⟨e1, e2⟩
      · exact e3
      · exact absurd e3 (by simp [g1, g2])
      · exact absurd g1 e1.ne') (by rw [p1, p2]; exact hg)
    refine ⟨N, fun fuel hf => ?_⟩
    unfold urCmpA
    rw [if_neg hov, if_neg hsw]
    exact hN fuel hf

theorem urCmp_returnsR {prev : Nat → Option Nat} (hprev : PrevOK prev) {rounds : Nat} {r1 r2 : URoot} {x1 x2 : ℝ} (h1 : DenR r1 x1) (h2 : DenR r2 x2)
    (hg : ∃ p, gcdZ prev rounds r1.poly r2.poly = some p) (hg' : ∃ p, gcdZ prev rounds r2.poly r1.poly = some p) :
    ∃ N, ∀ fuel, N ≤ fuel → ∃ y, urCmp prev rounds fuel r1 r2 = some y := by
  have hi : ∀ fuel, urCmp prev rounds fuel r1 r2 = if r1.left = r1.right then some (-(urCmpQ r2 r1.left).1, r1, (urCmpQ r2 r1.left).2) else
      if r2.left = r2.right then some ((urCmpQ r1 r2.left).1, (urCmpQ r1 r2.left).2, r2) else
      if r1.left > r2.left then (urCmpA prev rounds fuel r2 r1).map urSwap else urCmpA prev rounds fuel r1 r2 := by
    intro fuel
    unfold urCmp
    rw [if_neg (by rw [h1.inf]; decide), if_neg (by rw [h1.inf]; decide), if_neg (by rw [h2.inf]; decide), if_neg (by rw [h2.inf]; decide)]
  by_cases s1 : r1.left = r1.right
  · exact ⟨0, fun fuel _ => ⟨_, by rw [hi, if_pos s1]⟩⟩
  by_cases s2 : r2.left = r2.right
  · exact ⟨0, fun fuel _ => ⟨_, by rw [hi, if_neg s1, if_pos s2]⟩⟩
  by_cases hsw : r1.left > r2.left
  · obtain ⟨N, hN⟩ := urCmpA_returns hprev h2 h1 s2 s1 hsw.le hg'
    refine ⟨N, fun fuel hf => ?_⟩
    obtain ⟨y, hy⟩ := hN fuel hf
    exact ⟨_, by rw [hi, if_neg s1, if_neg s2, if_pos hsw, hy]; rfl⟩
  · obtain ⟨N, hN⟩ := urCmpA_returns hprev h1 h2 s1 s2 (not_lt.1 hsw) hg
    refine ⟨N, fun fuel hf => ?_⟩
    rw [hi, if_neg s1, if_neg s2, if_neg hsw]
    exact hN fuel hf

end Upoly
end CLPoly
