import Mathlib.Algebra.MvPolynomial.Basic
import Mathlib.Algebra.Field.Defs
import Mathlib.LinearAlgebra.Span.Basic
import Mathlib.Algebra.Algebra.Bilinear
import Mathlib.RingTheory.Ideal.Span
import Mathlib.Data.Finsupp.Order
import Mathlib.Tactic.LinearCombination
import Mathlib.Algebra.MvPolynomial.Variables
import Mathlib.Algebra.MvPolynomial.CommRing

/-!
# Buchberger's criterion with pending pairs

Mathematics only, no model: polynomials over a field, an admissible order of exponent vectors given by a rank `r`
into a linear order.  `below B t` is the space of combinations `Σ cᵢ xᵐⁱ bᵢ` all of whose products have leading exponent
below `t`; `W B P t` adds the multiples of S-polynomials of *pending* pairs `P` up to `t`.  The Gebauer–Möller
bookkeeping of the library keeps every S-polynomial inside `W`; when no pair is pending, Buchberger's
criterion applies.
-/

namespace CLPoly.GB
open MvPolynomial

variable {σ K L : Type*} [Field K] [LinearOrder L]

/-- an admissible order on exponent vectors, through a rank -/
structure ERank (r : (σ →₀ ℕ) → L) : Prop where
  inj : Function.Injective r
  add : ∀ a b c, r a < r b → r (c + a) < r (c + b)
  dom : ∀ a b, a ≤ b → r a ≤ r b
  wf : ∀ V : Finset σ, WellFounded fun a b : {s : σ →₀ ℕ // s.support ⊆ V} => r a.1 < r b.1

theorem ERank.add_le {r : (σ →₀ ℕ) → L} (h : ERank r) {a b : σ →₀ ℕ} (c : σ →₀ ℕ) (hab : r a ≤ r b) : r (c + a) ≤ r (c + b) := by
  rcases hab.lt_or_eq with h1 | h1
  · exact (h.add a b c h1).le
  · rw [h.inj h1]

/-- a polynomial with its leading exponent -/
structure It (σ K : Type*) [Field K] where
  poly : MvPolynomial σ K
  lm : σ →₀ ℕ

/-- `lm` is the leading exponent, the polynomial is monic and has its variables in `V` -/
structure It.OK (r : (σ →₀ ℕ) → L) (V : Finset σ) (b : It σ K) : Prop where
  monic : coeff b.lm b.poly = 1
  le : ∀ s, coeff s b.poly ≠ 0 → r s ≤ r b.lm
  vars : ∀ s, coeff s b.poly ≠ 0 → s.support ⊆ V

theorem It.OK.lm_vars {r : (σ →₀ ℕ) → L} {V : Finset σ} {b : It σ K} (h : b.OK r V) : b.lm.support ⊆ V :=
  h.vars _ (by rw [h.monic]; exact one_ne_zero)

noncomputable section

/-- `x^(T-a) a - x^(T-c) c` -/
def diffAt (a c : It σ K) (T : σ →₀ ℕ) : MvPolynomial σ K :=
  monomial (T - a.lm) 1 * a.poly - monomial (T - c.lm) 1 * c.poly

open Classical in
/-- the S-polynomial of monic polynomials -/
def sp (a c : It σ K) : MvPolynomial σ K := diffAt a c (a.lm ⊔ c.lm)

variable (r : (σ →₀ ℕ) → L) (V : Finset σ)

/-- products with leading exponent below `t` -/
def below (B : Set (It σ K)) (t : L) : Submodule K (MvPolynomial σ K) :=
  Submodule.span K {f | ∃ b ∈ B, ∃ m : σ →₀ ℕ, m.support ⊆ V ∧ r (m + b.lm) < t ∧ f = monomial m 1 * b.poly}

/-- products with leading exponent at most `t` -/
def upto (B : Set (It σ K)) (t : L) : Submodule K (MvPolynomial σ K) :=
  Submodule.span K {f | ∃ b ∈ B, ∃ m : σ →₀ ℕ, m.support ⊆ V ∧ r (m + b.lm) ≤ t ∧ f = monomial m 1 * b.poly}

/-- all products -/
def allProd (B : Set (It σ K)) : Submodule K (MvPolynomial σ K) :=
  Submodule.span K {f | ∃ b ∈ B, ∃ m : σ →₀ ℕ, m.support ⊆ V ∧ f = monomial m 1 * b.poly}

/-- multiples of pending S-polynomials up to `t` -/
def pend (P : Set (It σ K × It σ K)) (t : L) : Submodule K (MvPolynomial σ K) :=
  Submodule.span K {f | ∃ p ∈ P, ∃ m : σ →₀ ℕ, m.support ⊆ V ∧ r (m + (p.1.lm ⊔ p.2.lm)) ≤ t ∧ f = monomial m 1 * sp p.1 p.2}

def W (B : Set (It σ K)) (P : Set (It σ K × It σ K)) (t : L) : Submodule K (MvPolynomial σ K) :=
  below r V B t ⊔ pend r V P t

variable {r V}

theorem diffAt_eq (a c : It σ K) {T : σ →₀ ℕ} (h : a.lm ⊔ c.lm ≤ T) :
    diffAt a c T = monomial (T - (a.lm ⊔ c.lm)) 1 * sp a c := by
  unfold sp diffAt
  rw [mul_sub, ← mul_assoc, ← mul_assoc, monomial_mul, monomial_mul, mul_one,
    tsub_add_tsub_cancel h le_sup_left, tsub_add_tsub_cancel h le_sup_right]

theorem diffAt_chain (a h c : It σ K) (T : σ →₀ ℕ) : diffAt a c T = diffAt a h T + diffAt h c T := by
  unfold diffAt; ring

theorem diffAt_swap (a c : It σ K) (T : σ →₀ ℕ) : diffAt a c T = - diffAt c a T := by unfold diffAt; ring
theorem diffAt_self (a : It σ K) (T : σ →₀ ℕ) : diffAt a a T = 0 := by unfold diffAt; ring

theorem below_mono_set {B B' : Set (It σ K)} (h : B ⊆ B') (t : L) : below r V B t ≤ below r V B' t :=
  Submodule.span_mono fun _ ⟨b, hb, m, h1, h2, h3⟩ => ⟨b, h hb, m, h1, h2, h3⟩

theorem below_mono {B : Set (It σ K)} {t t' : L} (h : t ≤ t') : below r V B t ≤ below r V B t' :=
  Submodule.span_mono fun _ ⟨b, hb, m, h1, h2, h3⟩ => ⟨b, hb, m, h1, h2.trans_le h, h3⟩

theorem below_vars {B : Set (It σ K)} {V' : Finset σ} (h : V ⊆ V') (t : L) : below r V B t ≤ below r V' B t :=
  Submodule.span_mono fun _ ⟨b, hb, m, h1, h2, h3⟩ => ⟨b, hb, m, h1.trans h, h2, h3⟩

theorem pend_mono {P : Set (It σ K × It σ K)} {t t' : L} (h : t ≤ t') : pend r V P t ≤ pend r V P t' :=
  Submodule.span_mono fun _ ⟨b, hb, m, h1, h2, h3⟩ => ⟨b, hb, m, h1, h2.trans h, h3⟩

theorem pend_mono_set {P P' : Set (It σ K × It σ K)} (h : P ⊆ P') (t : L) : pend r V P t ≤ pend r V P' t :=
  Submodule.span_mono fun _ ⟨b, hb, m, h1, h2, h3⟩ => ⟨b, h hb, m, h1, h2, h3⟩

theorem W_mono {B : Set (It σ K)} {P : Set (It σ K × It σ K)} {t t' : L} (h : t ≤ t') : W r V B P t ≤ W r V B P t' :=
  sup_le_sup (below_mono h) (pend_mono h)

theorem W_mono_set {B B' : Set (It σ K)} {P P' : Set (It σ K × It σ K)} (h : B ⊆ B') (hp : P ⊆ P') (t : L) :
    W r V B P t ≤ W r V B' P' t := sup_le_sup (below_mono_set h t) (pend_mono_set hp t)

theorem below_le_W {B : Set (It σ K)} {P : Set (It σ K × It σ K)} {t : L} : below r V B t ≤ W r V B P t := le_sup_left

theorem support_add {a b : σ →₀ ℕ} (ha : a.support ⊆ V) (hb : b.support ⊆ V) : (a + b).support ⊆ V := by
  classical
  intro x hx
  rcases Finset.mem_union.1 (Finsupp.support_add hx) with h | h
  · exact ha h
  · exact hb h

theorem support_sub {a b : σ →₀ ℕ} (ha : a.support ⊆ V) : (a - b).support ⊆ V := by
  intro x hx
  refine ha ?_
  simp only [Finsupp.mem_support_iff, Finsupp.tsub_apply] at hx ⊢
  omega

theorem support_sup {a b : σ →₀ ℕ} (ha : a.support ⊆ V) (hb : b.support ⊆ V) : (a ⊔ b).support ⊆ V := by
  classical
  intro x hx
  simp only [Finsupp.mem_support_iff, Finsupp.sup_apply] at hx
  by_cases h : a x = 0
  · refine hb ?_
    rw [Finsupp.mem_support_iff]
    intro h'; rw [h, h'] at hx; exact hx rfl
  · exact ha (Finsupp.mem_support_iff.2 h)

theorem mul_below (hr : ERank r) {B : Set (It σ K)} {e m : σ →₀ ℕ} (hm : m.support ⊆ V) {f : MvPolynomial σ K}
    (hf : f ∈ below r V B (r e)) : monomial m 1 * f ∈ below r V B (r (m + e)) := by
  have : below r V B (r e) ≤ (below r V B (r (m + e))).comap (LinearMap.mulLeft K (monomial m (1 : K))) := by
    refine Submodule.span_le.2 ?_
    rintro _ ⟨b, hb, m', h1, h2, rfl⟩
    refine Submodule.subset_span ⟨b, hb, m + m', support_add hm h1, ?_, ?_⟩
    · rw [add_assoc]; exact hr.add _ _ _ h2
    · show monomial m 1 * _ = _
      rw [← mul_assoc, monomial_mul, mul_one]
  exact this hf

theorem mul_pend (hr : ERank r) {P : Set (It σ K × It σ K)} {e m : σ →₀ ℕ} (hm : m.support ⊆ V) {f : MvPolynomial σ K}
    (hf : f ∈ pend r V P (r e)) : monomial m 1 * f ∈ pend r V P (r (m + e)) := by
  have : pend r V P (r e) ≤ (pend r V P (r (m + e))).comap (LinearMap.mulLeft K (monomial m (1 : K))) := by
    refine Submodule.span_le.2 ?_
    rintro _ ⟨b, hb, m', h1, h2, rfl⟩
    refine Submodule.subset_span ⟨b, hb, m + m', support_add hm h1, ?_, ?_⟩
    · rw [add_assoc]; exact hr.add_le _ h2
    · show monomial m 1 * _ = _
      rw [← mul_assoc, monomial_mul, mul_one]
  exact this hf

theorem mul_W (hr : ERank r) {B : Set (It σ K)} {P : Set (It σ K × It σ K)} {e m : σ →₀ ℕ} (hm : m.support ⊆ V) {f : MvPolynomial σ K}
    (hf : f ∈ W r V B P (r e)) : monomial m 1 * f ∈ W r V B P (r (m + e)) := by
  obtain ⟨g, hg, h, hh, rfl⟩ := Submodule.mem_sup.1 hf
  rw [mul_add]
  exact Submodule.add_mem_sup (mul_below hr hm hg) (mul_pend hr hm hh)

/-- a covered S-polynomial covers the difference at every common multiple -/
theorem diffAt_W (hr : ERank r) {B : Set (It σ K)} {P : Set (It σ K × It σ K)} {a c : It σ K} {T : σ →₀ ℕ}
    (hT : T.support ⊆ V) (h : a.lm ⊔ c.lm ≤ T) (hs : sp a c ∈ W r V B P (r (a.lm ⊔ c.lm))) :
    diffAt a c T ∈ W r V B P (r T) := by
  rw [diffAt_eq a c h]
  have := mul_W hr (support_sub (b := a.lm ⊔ c.lm) hT) hs
  rwa [tsub_add_cancel_of_le h] at this

/-- coprime leading exponents: the S-polynomial has a representation below the lcm -/
theorem sp_coprime (hr : ERank r) {B : Set (It σ K)} {a c : It σ K} (ha : a ∈ B) (hc : c ∈ B) (oa : a.OK r V) (oc : c.OK r V)
    (h : a.lm ⊓ c.lm = 0) : sp a c ∈ below r V B (r (a.lm ⊔ c.lm)) := by
  classical
  have hsup : a.lm ⊔ c.lm = a.lm + c.lm := by
    ext v
    have := DFunLike.congr_fun h v
    simp only [Finsupp.inf_apply, Finsupp.coe_zero, Pi.zero_apply] at this
    simp only [Finsupp.sup_apply, Finsupp.add_apply]
    omega
  have key : ∀ (a c : It σ K), c ∈ B → a.OK r V → c.OK r V →
      (a.poly - monomial a.lm 1) * c.poly ∈ below r V B (r (a.lm + c.lm)) := by
    intro a c hc oa oc
    have hsum : a.poly - monomial a.lm 1 = ∑ s ∈ (a.poly - monomial a.lm 1).support,
        coeff s (a.poly - monomial a.lm 1) • monomial s (1 : K) := by
      conv_lhs => rw [as_sum (a.poly - monomial a.lm 1)]
      refine Finset.sum_congr rfl fun s _ => ?_
      rw [smul_monomial, smul_eq_mul, mul_one]
    rw [hsum, Finset.sum_mul]
    refine Submodule.sum_mem _ fun s hs => ?_
    rw [smul_mul_assoc]
    refine Submodule.smul_mem _ _ (Submodule.subset_span ⟨c, hc, s, ?_, ?_, rfl⟩)
    · by_cases hsa : a.lm = s
      · subst hsa; exact oa.lm_vars
      · refine oa.vars s ?_
        rw [mem_support_iff, coeff_sub, coeff_monomial, if_neg hsa, sub_zero] at hs
        exact hs
    · have hne : a.lm ≠ s := by
        rintro rfl
        rw [mem_support_iff, coeff_sub, coeff_monomial, if_pos rfl, oa.monic, sub_self] at hs
        exact hs rfl
      rw [mem_support_iff, coeff_sub, coeff_monomial, if_neg hne, sub_zero] at hs
      have h1 := oa.le s hs
      have h2 : r s < r a.lm := lt_of_le_of_ne h1 fun e => hne (hr.inj e).symm
      rw [add_comm s, add_comm a.lm]
      exact hr.add _ _ _ h2
  have e : sp a c = (a.poly - monomial a.lm 1) * c.poly * (1 : MvPolynomial σ K) - (c.poly - monomial c.lm 1) * a.poly := by
    unfold sp diffAt
    rw [hsup, add_tsub_cancel_left, add_tsub_cancel_right]
    ring
  rw [e, mul_one, hsup]
  refine Submodule.sub_mem _ (key a c hc oa oc) ?_
  rw [add_comm]
  exact key c a ha oc oa

/-! ## supports -/

theorem coeff_below {B : Set (It σ K)} (hB : ∀ b ∈ B, b.OK r V) (hr : ERank r) {t : L} {f : MvPolynomial σ K} (hf : f ∈ below r V B t)
    (s : σ →₀ ℕ) (hs : coeff s f ≠ 0) : r s < t := by
  classical
  revert s
  refine Submodule.span_induction ?_ ?_ ?_ ?_ hf
  · rintro _ ⟨b, hb, m, h1, h2, rfl⟩ s hs
    rw [coeff_monomial_mul'] at hs
    by_cases hms : m ≤ s
    · rw [if_pos hms, one_mul] at hs
      have := (hB b hb).le _ hs
      have := hr.add_le m this
      rw [add_tsub_cancel_of_le hms] at this
      exact this.trans_lt h2
    · rw [if_neg hms] at hs; exact absurd rfl hs
  · intro s hs; rw [coeff_zero] at hs; exact absurd rfl hs
  · intro x y _ _ hx hy s hs
    rw [coeff_add] at hs
    by_cases h : coeff s x = 0
    · rw [h, zero_add] at hs; exact hy s hs
    · exact hx s h
  · intro c x _ hx s hs
    rw [coeff_smul] at hs
    exact hx s fun h => hs (by rw [h, smul_zero])

/-- the leading exponent of `f` is divisible by a leading exponent of `B` -/
def LeadDiv (r : (σ →₀ ℕ) → L) (B : Set (It σ K)) (f : MvPolynomial σ K) : Prop :=
  ∃ s, coeff s f ≠ 0 ∧ (∀ s', coeff s' f ≠ 0 → r s' ≤ r s) ∧ ∃ b ∈ B, b.lm ≤ s

theorem below_upto {B : Set (It σ K)} (hB : ∀ b ∈ B, b.OK r V) {t : L} {f : MvPolynomial σ K} (hf : f ∈ below r V B t) :
    f = 0 ∨ ∃ e : σ →₀ ℕ, e.support ⊆ V ∧ r e < t ∧ f ∈ upto r V B (r e) := by
  have up : ∀ {a b : σ →₀ ℕ}, r a ≤ r b → upto r V B (r a) ≤ upto r V B (r b) := fun h =>
    Submodule.span_mono fun _ ⟨b, hb, m, h1, h2, h3⟩ => ⟨b, hb, m, h1, h2.trans h, h3⟩
  refine Submodule.span_induction (p := fun f _ => f = 0 ∨ ∃ e : σ →₀ ℕ, e.support ⊆ V ∧ r e < t ∧ f ∈ upto r V B (r e)) ?_ ?_ ?_ ?_ hf
  · rintro _ ⟨b, hb, m, h1, h2, rfl⟩
    exact .inr ⟨m + b.lm, support_add h1 (hB b hb).lm_vars, h2, Submodule.subset_span ⟨b, hb, m, h1, le_rfl, rfl⟩⟩
  · exact .inl rfl
  · rintro x y _ _ (rfl | ⟨e, he, het, hx⟩) (rfl | ⟨e', he', het', hy⟩)
    · left; rw [add_zero]
    · right; rw [zero_add]; exact ⟨e', he', het', hy⟩
    · right; rw [add_zero]; exact ⟨e, he, het, hx⟩
    · right
      rcases le_total (r e) (r e') with h | h
      · exact ⟨e', he', het', Submodule.add_mem _ (up h hx) hy⟩
      · exact ⟨e, he, het, Submodule.add_mem _ hx (up h hy)⟩
  · rintro c x _ (rfl | ⟨e, he, het, hx⟩)
    · left; rw [smul_zero]
    · exact .inr ⟨e, he, het, Submodule.smul_mem _ _ hx⟩

/-- **Buchberger's criterion**, graded form -/
theorem buchberger_upto (hr : ERank r) {B : Set (It σ K)} (hB : ∀ b ∈ B, b.OK r V)
    (hS : ∀ a ∈ B, ∀ c ∈ B, sp a c ∈ below r V B (r (a.lm ⊔ c.lm))) :
    ∀ (e : {s : σ →₀ ℕ // s.support ⊆ V}) (f : MvPolynomial σ K), f ∈ upto r V B (r e.1) → f = 0 ∨ LeadDiv r B f := by
  classical
  intro e
  induction e using (hr.wf V).induction with
  | _ e ih =>
  intro f hf
  have fin : f ∈ below r V B (r e.1) → f = 0 ∨ LeadDiv r B f := by
    intro h
    rcases below_upto hB h with h | ⟨e', he', het, hu⟩
    · exact .inl h
    · exact ih ⟨e', he'⟩ het f hu
  by_cases hex : ∃ b ∈ B, ∃ m : σ →₀ ℕ, m.support ⊆ V ∧ m + b.lm = e.1
  · obtain ⟨b0, hb0, m0, hm0, he0⟩ := hex
    have hc : ∃ c : K, f - c • (monomial m0 1 * b0.poly) ∈ below r V B (r e.1) := by
      refine Submodule.span_induction (p := fun f _ => ∃ c : K, f - c • (monomial m0 1 * b0.poly) ∈ below r V B (r e.1)) ?_ ?_ ?_ ?_ hf
      · rintro _ ⟨b, hb, m, h1, h2, rfl⟩
        rcases h2.lt_or_eq with h2 | h2
        · refine ⟨0, ?_⟩
          rw [zero_smul, sub_zero]
          exact Submodule.subset_span ⟨b, hb, m, h1, h2, rfl⟩
        · refine ⟨1, ?_⟩
          have h2 := hr.inj h2
          rw [one_smul]
          have hle : b.lm ⊔ b0.lm ≤ e.1 := sup_le (h2 ▸ le_add_self) (he0 ▸ le_add_self)
          have e1 : e.1 - b.lm = m := by rw [← h2, add_tsub_cancel_right]
          have e2 : e.1 - b0.lm = m0 := by rw [← he0, add_tsub_cancel_right]
          have hd : diffAt b b0 e.1 = monomial m 1 * b.poly - monomial m0 1 * b0.poly := by
            unfold diffAt; rw [e1, e2]
          rw [← hd, diffAt_eq b b0 hle]
          have := mul_below hr (support_sub (b := b.lm ⊔ b0.lm) e.2) (hS b hb b0 hb0)
          rwa [tsub_add_cancel_of_le hle] at this
      · exact ⟨0, by simp⟩
      · rintro x y _ _ ⟨c, hc⟩ ⟨d, hd⟩
        refine ⟨c + d, ?_⟩
        have : x + y - (c + d) • (monomial m0 1 * b0.poly) = (x - c • (monomial m0 1 * b0.poly)) + (y - d • (monomial m0 1 * b0.poly)) := by
          rw [add_smul]; abel
        rw [this]; exact Submodule.add_mem _ hc hd
      · rintro k x _ ⟨c, hc⟩
        refine ⟨k * c, ?_⟩
        have : k • x - (k * c) • (monomial m0 1 * b0.poly) = k • (x - c • (monomial m0 1 * b0.poly)) := by
          rw [smul_sub, mul_smul]
        rw [this]; exact Submodule.smul_mem _ _ hc
    obtain ⟨c, hc⟩ := hc
    by_cases c0 : c = 0
    · rw [c0, zero_smul, sub_zero] at hc; exact fin hc
    · right
      have hg := coeff_below hB hr hc
      have hco : ∀ s, coeff s (monomial m0 (1 : K) * b0.poly) ≠ 0 → r s ≤ r e.1 := by
        intro s hs
        rw [coeff_monomial_mul'] at hs
        by_cases hms : m0 ≤ s
        · rw [if_pos hms, one_mul] at hs
          have := hr.add_le m0 ((hB b0 hb0).le _ hs)
          rwa [add_tsub_cancel_of_le hms, he0] at this
        · rw [if_neg hms] at hs; exact absurd rfl hs
      have h1 : coeff e.1 (monomial m0 (1 : K) * b0.poly) = 1 := by
        rw [← he0, coeff_monomial_mul, one_mul, (hB b0 hb0).monic]
      have h2 : coeff e.1 (f - c • (monomial m0 (1 : K) * b0.poly)) = 0 := by
        by_contra h; exact lt_irrefl _ (hg _ h)
      rw [coeff_sub, coeff_smul, h1, smul_eq_mul, mul_one, sub_eq_zero] at h2
      refine ⟨e.1, by rw [h2]; exact c0, fun s hs => ?_, b0, hb0, he0 ▸ le_add_self⟩
      by_cases h3 : coeff s (monomial m0 (1 : K) * b0.poly) = 0
      · refine (hg s ?_).le
        rw [coeff_sub, coeff_smul, h3, smul_zero, sub_zero]; exact hs
      · exact hco s h3
  · refine fin ?_
    refine (Submodule.span_le.2 ?_ : upto r V B (r e.1) ≤ _) hf
    rintro _ ⟨b, hb, m, h1, h2, rfl⟩
    refine Submodule.subset_span ⟨b, hb, m, h1, lt_of_le_of_ne h2 fun h => hex ⟨b, hb, m, h1, hr.inj h⟩, rfl⟩

/-- Buchberger's criterion -/
theorem buchberger (hr : ERank r) {B : Set (It σ K)} (hB : ∀ b ∈ B, b.OK r V)
    (hS : ∀ a ∈ B, ∀ c ∈ B, sp a c ∈ below r V B (r (a.lm ⊔ c.lm))) {f : MvPolynomial σ K} (hf : f ∈ allProd V B) :
    f = 0 ∨ LeadDiv r B f := by
  have up : ∀ {a b : σ →₀ ℕ}, r a ≤ r b → upto r V B (r a) ≤ upto r V B (r b) := fun h =>
    Submodule.span_mono fun _ ⟨b, hb, m, h1, h2, h3⟩ => ⟨b, hb, m, h1, h2.trans h, h3⟩
  have : f = 0 ∨ ∃ e : σ →₀ ℕ, e.support ⊆ V ∧ f ∈ upto r V B (r e) := by
    refine Submodule.span_induction (p := fun f _ => f = 0 ∨ ∃ e : σ →₀ ℕ, e.support ⊆ V ∧ f ∈ upto r V B (r e)) ?_ ?_ ?_ ?_ hf
    · rintro _ ⟨b, hb, m, h1, rfl⟩
      exact .inr ⟨m + b.lm, support_add h1 (hB b hb).lm_vars, Submodule.subset_span ⟨b, hb, m, h1, le_rfl, rfl⟩⟩
    · exact .inl rfl
    · rintro x y _ _ (rfl | ⟨e, he, hx⟩) (rfl | ⟨e', he', hy⟩)
      · left; rw [add_zero]
      · right; rw [zero_add]; exact ⟨e', he', hy⟩
      · right; rw [add_zero]; exact ⟨e, he, hx⟩
      · right
        rcases le_total (r e) (r e') with h | h
        · exact ⟨e', he', Submodule.add_mem _ (up h hx) hy⟩
        · exact ⟨e, he, Submodule.add_mem _ hx (up h hy)⟩
    · rintro c x _ (rfl | ⟨e, he, hx⟩)
      · left; rw [smul_zero]
      · exact .inr ⟨e, he, Submodule.smul_mem _ _ hx⟩
  rcases this with h | ⟨e, he, h⟩
  · exact .inl h
  · exact buchberger_upto hr hB hS ⟨e, he⟩ f h

theorem It.OK.mono {b : It σ K} {V' : Finset σ} (h : b.OK r V) (hV : V ⊆ V') : b.OK r V' :=
  ⟨h.monic, h.le, fun s hs => (h.vars s hs).trans hV⟩

open Classical in
/-- members of the ideal are combinations of monomial multiples, in enough variables -/
theorem mem_allProd {B : Set (It σ K)} {f : MvPolynomial σ K} (hf : f ∈ Ideal.span (It.poly '' B)) :
    ∃ V' : Finset σ, V ⊆ V' ∧ f ∈ allProd V' B := by
  have mono : ∀ {V V' : Finset σ}, V ⊆ V' → allProd V B ≤ allProd V' B := fun h =>
    Submodule.span_mono fun _ ⟨b, hb, m, h1, h3⟩ => ⟨b, hb, m, h1.trans h, h3⟩
  refine Submodule.span_induction (p := fun f _ => ∃ V' : Finset σ, V ⊆ V' ∧ f ∈ allProd V' B) ?_ ?_ ?_ ?_ hf
  · rintro _ ⟨b, hb, rfl⟩
    exact ⟨V, subset_rfl, Submodule.subset_span ⟨b, hb, 0, by simp, by simp⟩⟩
  · exact ⟨V, subset_rfl, Submodule.zero_mem _⟩
  · rintro x y _ _ ⟨V1, h1, hx⟩ ⟨V2, h2, hy⟩
    exact ⟨V1 ∪ V2, h1.trans Finset.subset_union_left, Submodule.add_mem _ (mono Finset.subset_union_left hx) (mono Finset.subset_union_right hy)⟩
  · rintro a x _ ⟨V1, h1, hx⟩
    refine ⟨V1 ∪ a.vars, h1.trans Finset.subset_union_left, ?_⟩
    have : allProd V1 B ≤ (allProd (V1 ∪ a.vars) B).comap (LinearMap.mulLeft K a) := by
      refine Submodule.span_le.2 ?_
      rintro _ ⟨b, hb, m, hm, rfl⟩
      show a * (monomial m 1 * b.poly) ∈ allProd (V1 ∪ a.vars) B
      have hsum : a = ∑ s ∈ a.support, coeff s a • monomial s (1 : K) := by
        conv_lhs => rw [as_sum a]
        refine Finset.sum_congr rfl fun s _ => ?_
        rw [smul_monomial, smul_eq_mul, mul_one]
      rw [hsum, Finset.sum_mul, ← hsum]
      refine Submodule.sum_mem _ fun s hs => ?_
      rw [smul_mul_assoc, ← mul_assoc, monomial_mul, mul_one]
      refine Submodule.smul_mem _ _ (Submodule.subset_span ⟨b, hb, s + m, support_add ?_ (hm.trans Finset.subset_union_left), rfl⟩)
      exact fun v hv => Finset.mem_union_right _ (mem_vars v |>.2 ⟨s, hs, hv⟩)
    exact this hx

/-- Buchberger's criterion for the ideal -/
theorem buchberger_ideal (hr : ERank r) {B : Set (It σ K)} (hB : ∀ b ∈ B, b.OK r V)
    (hS : ∀ a ∈ B, ∀ c ∈ B, sp a c ∈ below r V B (r (a.lm ⊔ c.lm))) {f : MvPolynomial σ K} (hf : f ∈ Ideal.span (It.poly '' B)) :
    f = 0 ∨ LeadDiv r B f := by
  obtain ⟨V', hV, h⟩ := mem_allProd (V := V) hf
  exact buchberger hr (fun b hb => (hB b hb).mono hV) (fun a ha c hc => below_vars hV _ (hS a ha c hc)) h

end
end CLPoly.GB
