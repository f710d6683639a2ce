import Verif.Upoly.RealRootDefs
import Verif.Upoly.Basic
import Mathlib.Algebra.Polynomial.RuleOfSigns
import Mathlib.Algebra.Polynomial.Reverse
import Mathlib.Data.Real.Basic
import Mathlib.Tactic.FieldSimp

/-!
# The transformations of realroot.cc as polynomial identities
-/

namespace CLPoly
namespace Upoly
open Polynomial

theorem upowLoop_is : ∀ (fuel i : Nat) {init p : UPoly ℤ} {I P : ℤ[X]} {b : Bool}, i ≤ fuel → Is init I → Is p P → (b = true → I = 1) →
    Is (upowLoop fuel i init p b) (I * P ^ i) := by
  intro fuel
  induction fuel with
  | zero =>
    intro i init p I P b hi h1 h2 _
    obtain rfl : i = 0 := by omega
    simpa [upowLoop] using h1
  | succ n ih =>
    intro i init p I P b hi h1 h2 hb
    unfold upowLoop
    by_cases h0 : i = 0
    · subst h0; simpa using h1
    rw [if_neg h0]
    dsimp only
    have hi2 := Nat.div_add_mod i 2
    have hinit : Is (if i % 2 ≠ 0 then (if b = true then p else mul init p) else init) (I * P ^ (i % 2)) := by
      rcases Nat.mod_two_eq_zero_or_one i with h | h
      · simpa [h] using h1
      · rw [if_pos (by omega), h, pow_one]
        cases b with
        | true => rw [hb rfl, one_mul]; simpa using h2
        | false => simpa using mul_is h1 h2
    by_cases h2' : i / 2 = 0
    · rw [if_neg (by simpa using h2')]
      have : i % 2 = i := by omega
      have e3 : I * P ^ (i % 2) = I * P ^ i := by rw [this]
      rw [e3] at hinit
      exact hinit
    · rw [if_pos h2']
      have := ih (i / 2) (b := if i % 2 ≠ 0 then false else b) (by omega) hinit (mul_is h2 h2) (by
        intro hb'
        rcases Nat.mod_two_eq_zero_or_one i with h | h
        · rw [h] at hb' ⊢; simp at hb' ⊢; exact hb hb'
        · rw [h] at hb'; simp at hb')
      have e : I * P ^ (i % 2) * (P * P) ^ (i / 2) = I * P ^ i := by
        conv_rhs => rw [← hi2]
        rw [pow_add, pow_mul]; ring
      rwa [e] at this

theorem upow_is {p : UPoly ℤ} {P : ℤ[X]} (h : Is p P) (i : Nat) : Is (upow p i) (P ^ i) := by
  unfold upow
  split
  · simpa using one_is
  · simpa using h
  · rw [pow_two]; exact mul_is h h
  · rw [pow_succ, pow_two]; exact mul_is (mul_is h h) h
  · have := upowLoop_is i i (b := true) le_rfl one_is h (fun _ => rfl)
    simpa using this

theorem xPlus1_is : Is xPlus1 (X + 1) := by
  refine ⟨⟨by simp [xPlus1, comp], by simp [xPlus1]⟩, ?_⟩
  simp [xPlus1, toPoly, monomial_one_one_eq_X]

theorem foldl_add_is (h : Nat × ℤ → UPoly ℤ) (H : Nat × ℤ → ℤ[X]) : ∀ (l : UPoly ℤ), (∀ t ∈ l, Is (h t) (H t)) → ∀ {g : UPoly ℤ} {G : ℤ[X]}, Is g G →
    Is (l.foldl (fun g t => add g (h t)) g) (G + (l.map H).sum) := by
  intro l
  induction l with
  | nil => intro _ g G hg; simpa using hg
  | cons t l ih =>
    intro hl g G hg
    have := ih (fun u hu => hl u (List.mem_cons_of_mem _ hu)) (add_is hg (hl t List.mem_cons_self))
    simpa [add_assoc] using this

theorem canon_ne_zero {g : UPoly ℤ} (h : Canon comp g) : ∀ t ∈ g, t.2 ≠ 0 := h.2

theorem mem_le_deg {g : UPoly ℤ} (h : Canon comp g) : ∀ t ∈ g, t.1 ≤ deg g := by
  cases g with
  | nil => simp
  | cons u l =>
    intro t ht
    rcases List.mem_cons.1 ht with rfl | ht
    · exact le_rfl
    · exact le_of_lt ((canon_cons.1 h).1 t ht)

/-- `coeffsignchanges` counts the sign variations of the coefficient sequence -/
theorem signLoop_eq : ∀ (f : UPoly ℤ) (v : Nat), Canon comp f → signLoop f v = v + (toPoly f).signVariations := by
  intro f
  induction f with
  | nil => intro v _; simp [signLoop]
  | cons a l ih =>
    intro v hc
    cases l with
    | nil => simp [signLoop, toPoly]
    | cons b l =>
      have hF := is_of_canon hc
      obtain ⟨h1, h2, h3⟩ := canon_cons.1 hc
      have hL := is_of_canon h3
      have e : signLoop (a :: b :: l) v = signLoop (b :: l) (if Int.sign a.2 * Int.sign b.2 < 0 then v + 1 else v) := rfl
      rw [e, ih _ h3]
      have hne : toPoly (a :: b :: l) ≠ 0 := fun h => by
        have := (is_nil_iff hF).2 h
        simp at this
      have hlcA : (toPoly (a :: b :: l)).leadingCoeff = a.2 := (is_lc hF).symm
      have hlcB : (toPoly (b :: l)).leadingCoeff = b.2 := (is_lc hL).symm
      have hdeg : (toPoly (a :: b :: l)).natDegree = a.1 := (is_deg hF).symm
      have her : (toPoly (a :: b :: l)).eraseLead = toPoly (b :: l) := by
        have := eraseLead_add_monomial_natDegree_leadingCoeff (toPoly (a :: b :: l))
        rw [hlcA, hdeg] at this
        have e2 := toPoly_cons a (b :: l)
        have : (toPoly (a :: b :: l)).eraseLead + monomial a.1 a.2 = toPoly (b :: l) + monomial a.1 a.2 := by
          rw [this, e2, add_comm]
        exact add_right_cancel this
      rw [signVariations_eq_eraseLead_add_ite hne, her, hlcA, hlcB]
      have hb2 : b.2 ≠ 0 := (canon_cons.1 h3).2.1
      rcases lt_trichotomy a.2 0 with ha | ha | ha
      · rcases lt_trichotomy b.2 0 with hb | hb | hb
        · simp [Int.sign_eq_neg_one_of_neg ha, Int.sign_eq_neg_one_of_neg hb, sign_neg ha, sign_neg hb]
        · exact absurd hb hb2
        · simp [Int.sign_eq_neg_one_of_neg ha, Int.sign_eq_one_of_pos hb, sign_neg ha, sign_pos hb]; omega
      · exact absurd ha h2
      · rcases lt_trichotomy b.2 0 with hb | hb | hb
        · simp [Int.sign_eq_one_of_pos ha, Int.sign_eq_neg_one_of_neg hb, sign_pos ha, sign_neg hb]; omega
        · exact absurd hb hb2
        · simp [Int.sign_eq_one_of_pos ha, Int.sign_eq_one_of_pos hb, sign_pos ha, sign_pos hb]

theorem coeffSignChanges_is {f : UPoly ℤ} {F : ℤ[X]} (h : Is f F) : coeffSignChanges f = F.signVariations := by
  unfold coeffSignChanges
  split
  · rename_i hl
    rcases f with _ | ⟨t, _ | ⟨u, l⟩⟩
    · rw [← h.eq]; simp
    · rw [← h.eq]; simp [toPoly]
    · simp at hl
  · rw [signLoop_eq f 0 h.canon, h.eq, zero_add]

theorem sum_map_toPoly (g : UPoly ℤ) (H : Nat × ℤ → ℤ[X]) {F : ℤ[X]} (hF : Is g F) (L : ℤ[X] →+ ℤ[X]) (hL : ∀ t ∈ g, L (monomial t.1 t.2) = H t) :
    (g.map H).sum = L F := by
  rw [← hF.eq, toPoly, map_list_sum, List.map_map]
  congr 1
  exact List.map_congr_left fun t ht => (hL t ht).symm

/-- `G ↦ Σ gᵢ (x+1)^(m-i)` -/
theorem oneToInf_is {g : UPoly ℤ} {G : ℤ[X]} (h : Is g G) : Is (oneToInf g) (G.reverse.comp (X + 1)) := by
  unfold oneToInf
  by_cases h0 : g = []
  · have := (is_nil_iff h).1 h0
    subst h0
    rw [if_pos rfl, this]
    simpa using nil_is
  rw [if_neg h0]
  have hs := foldl_add_is (fun t => (upow xPlus1 (deg g - t.1)).map fun j => (j.1, j.2 * t.2)) (fun t => C t.2 * (X + 1) ^ (deg g - t.1)) g
    (fun t ht => map_mul_is (upow_is xPlus1_is _) (canon_ne_zero h.canon t ht)) nil_is
  rw [zero_add] at hs
  refine ⟨hs.canon, hs.eq.trans ?_⟩
  let L : ℤ[X] →+ ℤ[X] :=
    { toFun := fun P => (reflect (deg g) P).comp (X + 1)
      map_zero' := by simp
      map_add' := fun P Q => by rw [reflect_add, add_comp] }
  have := sum_map_toPoly g (fun t => C t.2 * (X + 1) ^ (deg g - t.1)) h L (fun t ht => by
    show (reflect (deg g) (monomial t.1 t.2)).comp (X + 1) = _
    rw [← C_mul_X_pow_eq_monomial, reflect_C_mul_X_pow, revAt_le (mem_le_deg h.canon t ht)]
    simp)
  rw [this]
  show (reflect (deg g) G).comp (X + 1) = _
  rw [is_deg h]; rfl

theorem eval_list_sum (x : ℝ) (l : List ℤ[X]) : aeval x l.sum = (l.map fun P => aeval x P).sum := map_list_sum _ _

theorem aeval_toPoly (x : ℝ) (g : UPoly ℤ) : aeval x (toPoly g) = (g.map fun t => (t.2 : ℝ) * x ^ t.1).sum := by
  rw [toPoly, eval_list_sum, List.map_map]
  congr 1
  refine List.map_congr_left fun t _ => ?_
  simp [aeval_monomial]

theorem map_canon {g : UPoly ℤ} (h : Canon comp g) (c : Nat → ℤ) (hc : ∀ t ∈ g, c t.1 ≠ 0) : Canon comp (g.map fun t => (t.1, t.2 * c t.1)) := by
  refine ⟨?_, ?_⟩
  · have := h.1
    exact List.pairwise_map.2 this
  · intro t ht
    obtain ⟨u, hu, rfl⟩ := List.mem_map.1 ht
    exact mul_ne_zero (h.2 u hu) (hc u hu)

theorem bTo1_canon {g : UPoly ℤ} (h : Canon comp g) {B : ℤ} (hB : B ≠ 0) : Canon comp (bTo1 g B) := by
  unfold bTo1
  split
  · exact h
  · exact map_canon h (fun i => B ^ i) (fun _ _ => pow_ne_zero _ hB)

theorem bTo1_eval (g : UPoly ℤ) (B : ℤ) (x : ℝ) : aeval x (toPoly (bTo1 g B)) = aeval (B * x) (toPoly g) := by
  unfold bTo1
  split
  · rename_i h; subst h; simp
  · rw [aeval_toPoly, aeval_toPoly, List.map_map]
    congr 1
    refine List.map_congr_left fun t _ => ?_
    simp [mul_pow]; ring

theorem leftHalf_canon {g : UPoly ℤ} (h : Canon comp g) : Canon comp (leftHalf g) := by
  unfold leftHalf
  split
  · exact h
  · exact map_canon h (fun i => 2 ^ (deg g - i)) (fun _ _ => by positivity)

theorem sum_mul_left' {α : Type*} (c : ℝ) (f : α → ℝ) (l : List α) : c * (l.map f).sum = (l.map fun t => c * f t).sum := by
  rw [List.sum_map_mul_left]

theorem leftHalf_eval {g : UPoly ℤ} (h : Canon comp g) (x : ℝ) : aeval x (toPoly (leftHalf g)) = 2 ^ deg g * aeval (x / 2) (toPoly g) := by
  unfold leftHalf
  split
  · rename_i h; subst h; simp
  · rw [aeval_toPoly, aeval_toPoly, List.map_map, sum_mul_left']
    congr 1
    refine List.map_congr_left fun t ht => ?_
    have e : (2 : ℝ) ^ deg g = 2 ^ (deg g - t.1) * 2 ^ t.1 := by rw [← pow_add, Nat.sub_add_cancel (mem_le_deg h t ht)]
    simp only [Function.comp]
    push_cast
    rw [e, div_pow]
    field_simp

theorem rightHalf_is {g : UPoly ℤ} (h : Canon comp g) :
    Canon comp (rightHalf g) ∧ ∀ x : ℝ, aeval x (toPoly (rightHalf g)) = 2 ^ deg g * aeval ((x + 1) / 2) (toPoly g) := by
  unfold rightHalf
  split
  · rename_i h; subst h; exact ⟨canon_nil, by simp⟩
  have hs := foldl_add_is (fun t => (upow xPlus1 t.1).map fun j => (j.1, j.2 * (t.2 * 2 ^ (deg g - t.1))))
    (fun t => C (t.2 * 2 ^ (deg g - t.1)) * (X + 1) ^ t.1) g
    (fun t ht => map_mul_is (upow_is xPlus1_is _) (mul_ne_zero (canon_ne_zero h t ht) (by positivity))) nil_is
  rw [zero_add] at hs
  refine ⟨hs.canon, fun x => ?_⟩
  rw [hs.eq, eval_list_sum, aeval_toPoly, List.map_map, sum_mul_left']
  congr 1
  refine List.map_congr_left fun t ht => ?_
  have e : (2 : ℝ) ^ deg g = 2 ^ (deg g - t.1) * 2 ^ t.1 := by rw [← pow_add, Nat.sub_add_cancel (mem_le_deg h t ht)]
  simp only [Function.comp]
  simp only [map_mul, map_pow, map_add, aeval_X, map_one, aeval_C]
  simp only [algebraMap_int_eq, eq_intCast]
  push_cast
  rw [e, div_pow]
  field_simp

theorem assignQ_eq (g : UPoly ℤ) (a : ℚ) : ((assignQ g a : ℚ) : ℝ) = aeval (a : ℝ) (toPoly g) := by
  have key : ∀ (l : UPoly ℤ) (o : ℚ), ((l.foldl (fun o t => o + t.2 * a ^ t.1) o : ℚ) : ℝ) = o + (l.map fun t => (t.2 : ℝ) * (a : ℝ) ^ t.1).sum := by
    intro l
    induction l with
    | nil => intro o; simp
    | cons t l ih => intro o; rw [List.foldl_cons, ih]; push_cast; simp [add_assoc]
  rw [assignQ, key, aeval_toPoly]; simp

theorem assignQ_zero_iff (g : UPoly ℤ) (a : ℚ) : assignQ g a = 0 ↔ aeval (a : ℝ) (toPoly g) = 0 := by
  rw [← assignQ_eq]; norm_cast

/-! degrees are preserved -/

theorem leftHalf_deg (g : UPoly ℤ) : deg (leftHalf g) = deg g := by
  cases g <;> simp [leftHalf, deg]

theorem bTo1_deg (g : UPoly ℤ) (B : ℤ) : deg (bTo1 g B) = deg g := by
  cases g <;> simp [bTo1, deg]

end Upoly
end CLPoly
