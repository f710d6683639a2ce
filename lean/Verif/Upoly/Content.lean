import Verif.Upoly.GcdZDefs
import Verif.Upoly.Basic
import Verif.Upoly.ZpBasic
import Mathlib.RingTheory.Polynomial.Content
import Mathlib.Algebra.GCDMonoid.Nat

/-! # Content and primitive part of univariate integer polynomials -/

namespace CLPoly
namespace Upoly
open Polynomial
open Dense (IsGcd)

theorem divZ_div (lc : ℤ) (_ : lc ≠ 0) (k : ℤ) : k = (divZ k lc).1 * lc + (divZ k lc).2 := by
  unfold divZ
  have := Int.mul_fdiv_add_fmod k lc
  simp only
  linarith [mul_comm lc (k.fdiv lc)]

theorem divZ_exact (lc : ℤ) (h : lc ≠ 0) (q : ℤ) : divZ (q * lc) lc = (q, 0) := by
  unfold divZ
  rw [Int.mul_fdiv_cancel _ h, Int.mul_fmod_left]

theorem coeff_mem {R : Type*} [CommRing R] [DecidableEq R] {f : UPoly R} {F : R[X]} (h : Is f F) {t : Nat × R} (ht : t ∈ f) : F.coeff t.1 = t.2 := by
  obtain ⟨hc, rfl⟩ := h
  induction f with
  | nil => simp at ht
  | cons u l ih =>
    obtain ⟨h1, h2, h3⟩ := canon_cons.1 hc
    rw [toPoly_cons, coeff_add, coeff_monomial]
    rcases List.mem_cons.1 ht with rfl | ht
    · rw [if_pos rfl, coeff_eq_zero_of_degree_lt (toPoly_degree_lt h1), add_zero]
    · rw [if_neg (by have := h1 t ht; omega), zero_add, ih ht h3]

theorem coeff_not_mem {R : Type*} [CommRing R] [DecidableEq R] {f : UPoly R} {F : R[X]} (h : Is f F) {i : Nat} (hi : ∀ t ∈ f, t.1 ≠ i) : F.coeff i = 0 := by
  obtain ⟨hc, rfl⟩ := h
  induction f with
  | nil => simp
  | cons u l ih =>
    rw [toPoly_cons, coeff_add, coeff_monomial, if_neg (hi u (by simp)), zero_add, ih (fun t ht => hi t (by simp [ht])) (canon_cons.1 hc).2.2]

theorem coefAt_eq {f : UPoly ℤ} {F : ℤ[X]} (h : Is f F) (i : Nat) : coefAt f i = F.coeff i := by
  unfold coefAt
  cases e : f.find? fun t => t.1 = i with
  | none =>
    rw [coeff_not_mem h]
    intro t ht
    have := List.find?_eq_none.1 e t ht
    simpa using this
  | some t =>
    have h1 := List.mem_of_find?_eq_some e
    have h2 := List.find?_some e
    simp only [decide_eq_true_eq] at h2
    rw [← h2, coeff_mem h h1]

theorem C_dvd_iff {f : UPoly ℤ} {F : ℤ[X]} (h : Is f F) (d : ℤ) : C d ∣ F ↔ ∀ t ∈ f, d ∣ t.2 := by
  rw [C_dvd_iff_dvd_coeff]
  constructor
  · intro hd t ht
    rw [← coeff_mem h ht]; exact hd _
  · intro hd i
    by_cases hi : ∃ t ∈ f, t.1 = i
    · obtain ⟨t, ht, rfl⟩ := hi
      rw [coeff_mem h ht]; exact hd t ht
    · rw [coeff_not_mem h fun t ht e => hi ⟨t, ht, e⟩]; exact dvd_zero d

theorem dvd_foldl_gcd (d : ℤ) (l : UPoly ℤ) (c : ℤ) : d ∣ l.foldl (fun c u => (Int.gcd c u.2 : ℤ)) c ↔ d ∣ c ∧ ∀ t ∈ l, d ∣ t.2 := by
  induction l generalizing c with
  | nil => simp
  | cons t l ih =>
    rw [List.foldl_cons, ih, Int.dvd_coe_gcd_iff]
    simp only [List.mem_cons, forall_eq_or_imp]
    tauto

theorem dvd_cont {f : UPoly ℤ} (h : f ≠ []) (d : ℤ) : d ∣ cont f ↔ ∀ t ∈ f, d ∣ t.2 := by
  cases f with
  | nil => exact absurd rfl h
  | cons t l =>
    unfold cont
    simp only
    rw [dvd_foldl_gcd]
    simp

theorem C_dvd_iff_cont {f : UPoly ℤ} {F : ℤ[X]} (h : Is f F) (h0 : F ≠ 0) (d : ℤ) : C d ∣ F ↔ d ∣ cont f := by
  rw [C_dvd_iff h, dvd_cont fun e => h0 ((is_nil_iff h).1 e)]

theorem foldl_gcd_nonneg (l : UPoly ℤ) (c : ℤ) (h : 0 ≤ c ∨ l ≠ []) : 0 ≤ l.foldl (fun c u => (Int.gcd c u.2 : ℤ)) c := by
  induction l generalizing c with
  | nil => simpa using h
  | cons t l ih => rw [List.foldl_cons]; exact ih _ (.inl (by positivity))

/-- with at least two terms the content is positive -/
theorem cont_nonneg {f : UPoly ℤ} (h : f.length ≠ 1) : 0 ≤ cont f := by
  match f with
  | [] => simp [cont]
  | [t] => simp at h
  | t :: u :: l => exact foldl_gcd_nonneg _ _ (.inr (by simp))

theorem cont_ne_zero {f : UPoly ℤ} {F : ℤ[X]} (h : Is f F) (h0 : F ≠ 0) : cont f ≠ 0 := by
  intro e
  have := (C_dvd_iff_cont h h0 0).2 (by rw [e])
  rw [C_0, zero_dvd_iff] at this
  exact h0 this

/-- the content of the source is, up to sign, the content of the polynomial -/
theorem cont_associated {f : UPoly ℤ} {F : ℤ[X]} (h : Is f F) (h0 : F ≠ 0) : Associated (cont f) F.content := by
  apply associated_of_dvd_dvd
  · rw [dvd_content_iff_C_dvd, C_dvd_iff_cont h h0]
  · rw [← C_dvd_iff_cont h h0]; exact C_content_dvd F

/-- dividing all coefficients by a common divisor -/
theorem map_tdiv_is {f : UPoly ℤ} {F H : ℤ[X]} (h : Is f F) {c : ℤ} (hc : c ≠ 0) (hH : F = C c * H) : Is (f.map fun t => (t.1, Int.tdiv t.2 c)) H := by
  obtain ⟨g, hg⟩ := exists_is H
  have h1 := map_mul_is hg hc
  rw [← hH] at h1
  have e := is_unique h h1
  rw [e, List.map_map]
  have e2 : (g.map ((fun t : Nat × ℤ => (t.1, Int.tdiv t.2 c)) ∘ fun t => (t.1, t.2 * c))) = g := by
    conv_rhs => rw [← List.map_id g]
    refine List.map_congr_left fun t _ => ?_
    simp only [Function.comp_apply, id]
    rw [Int.mul_tdiv_cancel _ hc]
  rw [e2]
  exact hg

theorem exists_prim {f : UPoly ℤ} {F : ℤ[X]} (h : Is f F) (h0 : F ≠ 0) : ∃ H, F = C (cont f) * H ∧ H.IsPrimitive := by
  obtain ⟨H, hH⟩ := (C_dvd_iff_cont h h0 (cont f)).2 dvd_rfl
  refine ⟨H, hH, ?_⟩
  rintro r ⟨K, hK⟩
  have h1 : C (cont f * r) ∣ F := ⟨K, by rw [hH, hK, C_mul, mul_assoc]⟩
  rw [C_dvd_iff_cont h h0] at h1
  have hc := cont_ne_zero h h0
  have : cont f * r ∣ cont f * 1 := by rw [mul_one]; exact h1
  exact isUnit_of_dvd_one ((mul_dvd_mul_iff_left hc).1 this)

theorem divCont_is {f : UPoly ℤ} {F : ℤ[X]} (h : Is f F) (h0 : F ≠ 0) : ∃ H, Is (divCont f) H ∧ F = C (cont f) * H ∧ H.IsPrimitive := by
  obtain ⟨H, h1, h2⟩ := exists_prim h h0
  exact ⟨H, map_tdiv_is h (cont_ne_zero h h0) h1, h1, h2⟩

theorem map_neg_is {f : UPoly ℤ} {F : ℤ[X]} (h : Is f F) : Is (f.map fun t => (t.1, -t.2)) (-F) := neg_is h

/-- `ppPos`: the primitive part with positive leading coefficient -/
theorem ppPos_is {f : UPoly ℤ} {F : ℤ[X]} (h : Is f F) (h0 : F ≠ 0) : ∃ H, Is (ppPos f) H ∧ H.IsPrimitive ∧ 0 < H.leadingCoeff ∧
    (F = C (cont f) * H ∨ F = C (-cont f) * H) := by
  obtain ⟨H, h1, h2⟩ := exists_prim h h0
  -- the first step gives H or -H
  have step : ∃ H1, Is (if cont f ≠ 1 ∧ cont f ≠ -1 then f.map fun t => (t.1, Int.tdiv t.2 (cont f)) else f) H1 ∧ (H1 = H ∨ H1 = -H) := by
    split
    · exact ⟨H, map_tdiv_is h (cont_ne_zero h h0) h1, .inl rfl⟩
    · rename_i hc
      refine ⟨F, h, ?_⟩
      rw [not_and_or, not_not, not_not] at hc
      rcases hc with hc | hc
      · left; rw [h1, hc]; simp
      · right; rw [h1, hc]; simp
  obtain ⟨H1, s1, s2⟩ := step
  have hneg : (-H).IsPrimitive := fun r hr => h2 r ((dvd_neg).1 hr)
  have p1 : H1.IsPrimitive := by rcases s2 with rfl | rfl <;> assumption
  have hne : H1 ≠ 0 := p1.ne_zero
  have hf1 : F = C (cont f) * H1 ∨ F = C (-cont f) * H1 := by
    rcases s2 with rfl | rfl
    · exact .inl h1
    · right; rw [C_neg, neg_mul_neg]; exact h1
  unfold ppPos
  simp only
  have hl := is_lc s1
  by_cases hlt : H1.leadingCoeff < 0
  · rw [if_pos ⟨fun e => hne ((is_nil_iff s1).1 e), by rw [hl]; exact hlt⟩]
    refine ⟨-H1, neg_is s1, fun r hr => p1 r ((dvd_neg).1 hr), by rw [leadingCoeff_neg]; omega, ?_⟩
    rcases hf1 with e | e
    · right; rw [C_neg, neg_mul_neg]; exact e
    · left; rw [mul_neg, ← neg_mul, ← C_neg]; exact e
  · rw [if_neg (by rw [hl]; tauto)]
    refine ⟨H1, s1, p1, ?_, hf1⟩
    have := leadingCoeff_ne_zero.2 hne
    omega

theorem divides_iff {h f : UPoly ℤ} {H F : ℤ[X]} (hh : Is h H) (hf : Is f F) (h0 : H ≠ 0) : divides h f = true ↔ H ∣ F := by
  obtain ⟨q, r, e1, e2, _⟩ := divRem_test hf hh h0 divZ_div divZ_exact
  unfold divides
  rw [e1]
  simp only [List.isEmpty_iff]
  exact e2

theorem C_dvd_C {a b : ℤ} : (C a : ℤ[X]) ∣ C b ↔ a ∣ b := by
  rw [C_dvd_iff_dvd_coeff]
  constructor
  · intro h; simpa using h 0
  · intro h i
    rw [coeff_C]
    split
    · exact h
    · exact dvd_zero _

/-- a primitive polynomial dividing a multiple by a constant divides the polynomial itself -/
theorem prim_dvd_of_dvd_C_mul {E F : ℤ[X]} {a : ℤ} (hE : E.IsPrimitive) (ha : a ≠ 0) (h : E ∣ C a * F) : E ∣ F := by
  by_cases h0 : F = 0
  · rw [h0]; exact dvd_zero E
  · have h1 : C a * F ≠ 0 := mul_ne_zero (by simpa using ha) h0
    rw [← hE.dvd_primPart_iff_dvd h1] at h
    rw [← hE.dvd_primPart_iff_dvd h0]
    have := associated_primPart_mul h1
    refine h.trans (this.dvd.trans ?_)
    exact (isUnit_primPart_C a).mul_left_dvd.2 dvd_rfl

/-- gcd of polynomials from gcd of contents and gcd of primitive parts -/
theorem isGcd_of_prim {F G D : ℤ[X]} {a b : ℤ} (ha : a ≠ 0) (hb : b ≠ 0) (hF : F.IsPrimitive) (hG : G.IsPrimitive) (h : IsGcd D F G) :
    IsGcd (C ((Int.gcd a b : ℕ) : ℤ) * D) (C a * F) (C b * G) := by
  refine ⟨mul_dvd_mul (C_dvd_C.2 (Int.gcd_dvd_left ..)) h.1, mul_dvd_mul (C_dvd_C.2 (Int.gcd_dvd_right ..)) h.2.1, fun E h1 h2 => ?_⟩
  have hE0 : E ≠ 0 := by
    rintro rfl
    rw [zero_dvd_iff] at h1
    exact (mul_ne_zero (by simpa using ha) hF.ne_zero) h1
  have eE := E.eq_C_content_mul_primPart
  have key : ∀ {a : ℤ} {F : ℤ[X]}, a ≠ 0 → F.IsPrimitive → E ∣ C a * F → E.content ∣ a ∧ E.primPart ∣ F := by
    intro a F ha hF hd
    constructor
    · have : C E.content ∣ C a * F := (C_content_dvd E).trans hd
      rw [← dvd_content_iff_C_dvd] at this
      refine this.trans ?_
      have := (associated_content_C_mul a F).dvd
      rw [hF.content_eq_one, mul_one] at this
      exact this
    · exact prim_dvd_of_dvd_C_mul E.isPrimitive_primPart ha ((primPart_dvd E).trans hd)
  obtain ⟨c1, p1⟩ := key ha hF h1
  obtain ⟨c2, p2⟩ := key hb hG h2
  rw [eE]
  exact mul_dvd_mul (C_dvd_C.2 (Int.dvd_coe_gcd c1 c2)) (h.2.2 _ p1 p2)

end Upoly
end CLPoly
