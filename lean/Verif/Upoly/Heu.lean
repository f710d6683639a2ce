import Verif.Upoly.Content
import Mathlib.Analysis.Polynomial.CauchyBound
import Mathlib.Analysis.Complex.Polynomial.Basic
import Mathlib.Data.Nat.Size

/-! # Correctness of the heuristic gcd (`__gcdheu`)

If the candidate passes the two trial divisions, it is the gcd: evaluation at `ξ = 2^pb` is larger than twice every root bound. -/

namespace CLPoly
namespace Upoly
open Polynomial
open Dense (IsGcd)

/-! ## bit lengths -/

theorem lt_bitLen (c : ℤ) : c.natAbs < 2 ^ bitLen c := by
  unfold bitLen
  split
  · rename_i h; simp [h]
  · exact Nat.lt_size_self _

theorem foldl_maxBits (l : UPoly ℤ) (b : Nat) : b ≤ l.foldl (fun b t => if bitLen t.2 > b then bitLen t.2 else b) b ∧
    ∀ t ∈ l, bitLen t.2 ≤ l.foldl (fun b t => if bitLen t.2 > b then bitLen t.2 else b) b := by
  induction l generalizing b with
  | nil => simp
  | cons t l ih =>
    rw [List.foldl_cons]
    obtain ⟨h1, h2⟩ := ih (if bitLen t.2 > b then bitLen t.2 else b)
    have h3 : b ≤ (if bitLen t.2 > b then bitLen t.2 else b) ∧ bitLen t.2 ≤ (if bitLen t.2 > b then bitLen t.2 else b) := by split <;> omega
    refine ⟨h3.1.trans h1, fun u hu => ?_⟩
    rcases List.mem_cons.1 hu with rfl | hu
    · exact h3.2.trans h1
    · exact h2 u hu

theorem coeff_lt_maxBits {f : UPoly ℤ} {F : ℤ[X]} (h : Is f F) (i : Nat) : (F.coeff i).natAbs < 2 ^ maxBits f := by
  by_cases hi : ∃ t ∈ f, t.1 = i
  · obtain ⟨t, ht, rfl⟩ := hi
    rw [coeff_mem h ht]
    exact (lt_bitLen _).trans_le (Nat.pow_le_pow_right (by norm_num) ((foldl_maxBits f 0).2 t ht))
  · rw [coeff_not_mem h fun t ht e => hi ⟨t, ht, e⟩]
    simp

/-! ## roots -/

theorem root_lt {F : ℤ[X]} (h0 : F ≠ 0) {b : Nat} (hb : ∀ i, (F.coeff i).natAbs < 2 ^ b) {z : ℂ} (hz : (F.map (Int.castRingHom ℂ)).IsRoot z) :
    ‖z‖ < 2 ^ b := by
  have hinj : Function.Injective (Int.castRingHom ℂ) := Int.cast_injective
  have h1 := IsRoot.norm_lt_cauchyBound ((Polynomial.map_ne_zero_iff hinj).2 h0) hz
  have h2 : cauchyBound (F.map (Int.castRingHom ℂ)) ≤ 2 ^ b := by
    unfold cauchyBound
    have hlc : 1 ≤ ‖(F.map (Int.castRingHom ℂ)).leadingCoeff‖₊ := by
      rw [leadingCoeff_map_of_injective hinj]
      have : F.leadingCoeff ≠ 0 := leadingCoeff_ne_zero.2 h0
      rw [← NNReal.coe_le_coe, coe_nnnorm, NNReal.coe_one]
      show (1 : ℝ) ≤ ‖((F.leadingCoeff : ℤ) : ℂ)‖
      rw [Complex.norm_intCast]
      exact_mod_cast Int.one_le_abs this
    have hsup : (Finset.range (F.map (Int.castRingHom ℂ)).natDegree).sup (fun i => ‖(F.map (Int.castRingHom ℂ)).coeff i‖₊) ≤ 2 ^ b - 1 := by
      refine Finset.sup_le fun i _ => ?_
      have hi := hb i
      have e : ‖(F.map (Int.castRingHom ℂ)).coeff i‖₊ = ((F.coeff i).natAbs : NNReal) := by
        rw [coeff_map]
        ext
        rw [coe_nnnorm]
        show ‖((F.coeff i : ℤ) : ℂ)‖ = _
        rw [Complex.norm_intCast, NNReal.coe_natCast, Nat.cast_natAbs, Int.cast_abs]
      rw [e]
      apply le_tsub_of_add_le_right
      exact_mod_cast hi
    have hpow : (1 : NNReal) ≤ 2 ^ b := one_le_pow₀ (by norm_num)
    have h3 : (Finset.range (F.map (Int.castRingHom ℂ)).natDegree).sup (fun i => ‖(F.map (Int.castRingHom ℂ)).coeff i‖₊) /
        ‖(F.map (Int.castRingHom ℂ)).leadingCoeff‖₊ ≤ (2 ^ b - 1 : NNReal) / 1 := div_le_div₀ zero_le hsup zero_lt_one hlc
    rw [div_one] at h3
    calc _ ≤ (2 ^ b - 1 : NNReal) + 1 := by gcongr
      _ = 2 ^ b := tsub_add_cancel_of_le hpow
  have h3 := h1.trans_le h2
  exact_mod_cast h3

/-- a non-constant integer polynomial with roots below `B` is at least `ξ - B` at `ξ` -/
theorem eval_ge {K : ℤ[X]} (hd : 0 < K.natDegree) {B : ℝ} {ξ : ℤ} (hB : B + 1 ≤ ξ)
    (hr : ∀ z : ℂ, (K.map (Int.castRingHom ℂ)).IsRoot z → ‖z‖ < B) : (ξ : ℝ) - B ≤ |((K.eval ξ : ℤ) : ℝ)| := by
  have hinj : Function.Injective (Int.castRingHom ℂ) := Int.cast_injective
  have hK0 : K ≠ 0 := by rintro rfl; simp at hd
  obtain ⟨P, hP⟩ : ∃ P, P = K.map (Int.castRingHom ℂ) := ⟨_, rfl⟩
  rw [← hP] at hr
  have hP0 : P ≠ 0 := hP ▸ (Polynomial.map_ne_zero_iff hinj).2 hK0
  have hs : P.Splits := IsAlgClosed.splits P
  have he : P.eval (ξ : ℂ) = ((K.eval ξ : ℤ) : ℂ) := by
    rw [hP, eval_map, eval₂_at_intCast]; simp
  have hn : |((K.eval ξ : ℤ) : ℝ)| = ‖P.eval (ξ : ℂ)‖ := by
    rw [he, Complex.norm_intCast]
  rw [hn, hs.eval_eq_prod_roots, norm_mul]
  have hlc : 1 ≤ ‖P.leadingCoeff‖ := by
    rw [hP, leadingCoeff_map_of_injective hinj]
    have : K.leadingCoeff ≠ 0 := leadingCoeff_ne_zero.2 hK0
    show (1 : ℝ) ≤ ‖((K.leadingCoeff : ℤ) : ℂ)‖
    rw [Complex.norm_intCast]
    exact_mod_cast Int.one_le_abs this
  have hcard : 0 < Multiset.card P.roots := by
    rw [← hs.natDegree_eq_card_roots, hP, natDegree_map_eq_of_injective hinj]
    exact hd
  have hge : ∀ s : Multiset ℂ, (∀ z ∈ s, ‖z‖ < B) → 0 < Multiset.card s → (ξ : ℝ) - B ≤ ‖(s.map fun a => (ξ : ℂ) - a).prod‖ := by
    have h1 : ∀ z : ℂ, ‖z‖ < B → (ξ : ℝ) - B ≤ ‖(ξ : ℂ) - z‖ := by
      intro z hz
      have := norm_sub_norm_le (ξ : ℂ) z
      rw [Complex.norm_intCast] at this
      have h2 : (ξ : ℝ) ≤ |(ξ : ℝ)| := le_abs_self _
      linarith
    intro s
    induction s using Multiset.induction_on with
    | empty => intro _ h; simp at h
    | cons a s ih =>
      intro hs _
      rw [Multiset.map_cons, Multiset.prod_cons, norm_mul]
      have ha := h1 a (hs a (by simp))
      rcases Nat.eq_zero_or_pos (Multiset.card s) with h0 | h0
      · rw [Multiset.card_eq_zero.1 h0]; simpa using ha
      · have hb := ih (fun z hz => hs z (by simp [hz])) h0
        nlinarith [norm_nonneg ((ξ : ℂ) - a)]
  have := hge P.roots (fun z hz => hr z ((mem_roots hP0).1 hz)) hcard
  nlinarith [norm_nonneg (P.roots.map fun a => (ξ : ℂ) - a).prod]

/-! ## evaluation -/

theorem foldr_horner (c : Nat → ℤ) (ξ : ℤ) (l : List Nat) (hl : ∃ s, l = List.range' s l.length) :
    l.foldr (fun i v => v * ξ + c i) 0 * ξ ^ l.headD 0 = (l.map fun i => c i * ξ ^ i).sum := by
  induction l with
  | nil => simp
  | cons a l ih =>
    obtain ⟨s, hs⟩ := hl
    rw [List.length_cons, List.range'_succ, List.cons_eq_cons] at hs
    obtain ⟨rfl, hl⟩ := hs
    have := ih ⟨a + 1, hl⟩
    rw [List.foldr_cons, List.map_cons, List.sum_cons, List.headD_cons, ← this]
    cases l with
    | nil => simp
    | cons b l =>
      have : b = a + 1 := by
        rw [List.length_cons, List.range'_succ, List.cons_eq_cons] at hl
        exact hl.1
      rw [List.headD_cons, this]
      ring

theorem packVal_eq {f : UPoly ℤ} {F : ℤ[X]} (h : Is f F) (pb : Nat) : packVal pb f = F.eval (2 ^ pb) := by
  unfold packVal
  have h1 := foldr_horner (coefAt f) (2 ^ pb) (List.range (deg f + 1)) ⟨0, by rw [List.length_range, List.range_eq_range']⟩
  have h2 : (List.range (deg f + 1)).headD 0 = 0 := by
    rw [List.range_succ_eq_map]; rfl
  rw [h2, pow_zero, mul_one] at h1
  rw [h1, eval_eq_sum_range, is_deg h, Finset.sum_range]
  rw [← List.sum_ofFn, List.ofFn_eq_map]
  rw [← List.map_coe_finRange_eq_range, List.map_map]
  congr 1
  refine List.map_congr_left fun i _ => ?_
  simp only [Function.comp_apply]
  rw [coefAt_eq h]

/-- `1 + ξ + … + ξ^(k-1)` -/
def geo (ξ : ℤ) : Nat → ℤ
  | 0 => 0
  | k + 1 => 1 + ξ * geo ξ k

theorem eval_le {F : ℤ[X]} {B ξ : ℤ} (hξ : 0 ≤ ξ) (hB : ∀ i, |F.coeff i| ≤ B) {n : Nat} (hn : F.natDegree ≤ n) : |F.eval ξ| ≤ B * geo ξ (n + 1) := by
  have hg : ∀ n : Nat, geo ξ n = ∑ i ∈ Finset.range n, ξ ^ i := by
    intro n
    induction n with
    | zero => rfl
    | succ n ih =>
      rw [geo, ih, Finset.sum_range_succ', Finset.mul_sum]
      simp only [pow_succ, pow_zero]
      rw [add_comm]
      congr 1
      exact Finset.sum_congr rfl fun i _ => by ring
  rw [eval_eq_sum_range' (Nat.lt_succ_of_le hn), hg, Finset.mul_sum]
  refine (Finset.abs_sum_le_sum_abs _ _).trans (Finset.sum_le_sum fun i _ => ?_)
  rw [abs_mul, abs_of_nonneg (pow_nonneg hξ i)]
  exact mul_le_mul_of_nonneg_right (hB i) (pow_nonneg hξ i)

/-! ## digits -/

/-- the digit loop: degrees increase from `i`, digits are non-zero and at most `ξ/2` in absolute value, and the value at `ξ` is `g·ξ^i` if `g` fits in `k` digits -/
theorem unpackLoop_spec {pb : Nat} (hpb : 0 < pb) (k : Nat) : ∀ (i : Nat) (g : ℤ), 0 ≤ g →
    ((unpackLoop pb k i g).Pairwise fun a b => a.1 < b.1) ∧ (∀ t ∈ unpackLoop pb k i g, i ≤ t.1 ∧ t.2 ≠ 0 ∧ |t.2| ≤ 2 ^ pb / 2) ∧
    (g ≤ 2 ^ pb / 2 * geo (2 ^ pb) k → (toPoly (unpackLoop pb k i g)).eval (2 ^ pb) = g * (2 ^ pb) ^ i) := by
  obtain ⟨h, hh⟩ : ∃ h : ℤ, 2 ^ pb = 2 * h ∧ 0 < h := by
    obtain ⟨m, rfl⟩ : ∃ m, pb = m + 1 := ⟨pb - 1, by omega⟩
    exact ⟨2 ^ m, by ring, by positivity⟩
  obtain ⟨e2, hpos⟩ := hh
  have ehalf : (2 : ℤ) ^ pb / 2 = h := by omega
  induction k with
  | zero =>
    intro i g hg
    refine ⟨by simp [unpackLoop], by simp [unpackLoop], fun hle => ?_⟩
    rw [geo, mul_zero] at hle
    have : g = 0 := le_antisymm hle hg
    subst this
    simp [unpackLoop]
  | succ k ih =>
    intro i g hg
    rw [unpackLoop]
    by_cases hg0 : g = 0
    · rw [if_pos hg0]; subst hg0; simp
    · rw [if_neg hg0]
      simp only
      rw [ehalf, e2]
      have hm := Int.emod_add_mul_ediv g (2 * h)
      have hr0 := Int.emod_nonneg g (show (2 * h : ℤ) ≠ 0 by omega)
      have hr1 := Int.emod_lt_of_pos g (show (0 : ℤ) < 2 * h by omega)
      have hq0 : 0 ≤ g / (2 * h) := Int.ediv_nonneg hg (by omega)
      obtain ⟨r', g'', er, eg, hsum, habs, hnn⟩ : ∃ r' g'' : ℤ, r' = (if g % (2 * h) > h then g % (2 * h) - 2 * h else g % (2 * h)) ∧
          g'' = (if g % (2 * h) > h then g / (2 * h) + 1 else g / (2 * h)) ∧ g = r' + 2 * h * g'' ∧ (-h < r' ∧ r' ≤ h) ∧ 0 ≤ g'' := by
        refine ⟨_, _, rfl, rfl, ?_, ?_, ?_⟩
        · split
          · linarith
          · linarith
        · split <;> omega
        · split <;> omega
      rw [← er, ← eg]
      obtain ⟨i1, i2, i3⟩ := ih (i + 1) g'' hnn
      rw [ehalf, e2] at i3
      rw [ehalf] at i2
      have hpre : ∀ t ∈ (if r' ≠ 0 then [((i, r') : Nat × ℤ)] else []), t = (i, r') ∧ r' ≠ 0 := by
        intro t ht
        split at ht
        · rename_i hne; exact ⟨by simpa using ht, hne⟩
        · simp at ht
      refine ⟨?_, ?_, ?_⟩
      · refine List.pairwise_append.2 ⟨?_, i1, ?_⟩
        · split <;> simp
        · intro a ha b hb
          rw [(hpre a ha).1]
          have := (i2 b hb).1
          show i < b.1
          omega
      · intro t ht
        rcases List.mem_append.1 ht with ht | ht
        · obtain ⟨rfl, hne⟩ := hpre t ht
          exact ⟨le_rfl, hne, by rw [abs_le]; constructor <;> simp only <;> omega⟩
        · obtain ⟨a1, a2, a3⟩ := i2 t ht
          exact ⟨by omega, a2, a3⟩
      · intro hle
        rw [geo] at hle
        have hg'' : g'' ≤ h * geo (2 * h) k := by
          by_contra hc
          push Not at hc
          have : h * geo (2 * h) k + 1 ≤ g'' := hc
          nlinarith
        rw [toPoly_append, eval_add, i3 hg'']
        have : eval (2 * h) (toPoly (if r' ≠ 0 then [((i, r') : Nat × ℤ)] else [])) = r' * (2 * h) ^ i := by
          split
          · rw [toPoly_cons]; simp
          · rename_i hz; rw [not_not] at hz; rw [hz]; simp
        rw [this]
        conv_rhs => rw [hsum]
        ring

theorem heuCand_is (f g : UPoly ℤ) : ∃ H, Is (heuCand f g) H ∧ ∀ i, |H.coeff i| ≤ 2 ^ packBits f g / 2 := by
  have hpb : 0 < packBits f g := by unfold packBits; omega
  obtain ⟨h1, h2, _⟩ := unpackLoop_spec hpb (min (deg f) (deg g) + 1) 0 (Int.gcd (packVal (packBits f g) f) (packVal (packBits f g) g)) (by positivity)
  have hcan : Canon comp (unpackLoop (packBits f g) (min (deg f) (deg g) + 1) 0 (Int.gcd (packVal (packBits f g) f) (packVal (packBits f g) g))).reverse := by
    refine ⟨?_, ?_⟩
    · rw [List.pairwise_reverse]
      exact h1.imp fun {a b} hab => by simpa [comp] using hab
    · intro t ht
      exact (h2 t (List.mem_reverse.1 ht)).2.1
  have his := is_of_canon hcan
  refine ⟨_, his.norm, fun i => ?_⟩
  by_cases hi : ∃ t ∈ (unpackLoop (packBits f g) (min (deg f) (deg g) + 1) 0 (Int.gcd (packVal (packBits f g) f) (packVal (packBits f g) g))).reverse, t.1 = i
  · obtain ⟨t, ht, rfl⟩ := hi
    rw [coeff_mem his ht]
    exact (h2 t (List.mem_reverse.1 ht)).2.2
  · rw [coeff_not_mem his fun t ht e => hi ⟨t, ht, e⟩, abs_zero]
    positivity

theorem toPoly_reverse (l : UPoly ℤ) : toPoly l.reverse = toPoly l := by
  induction l with
  | nil => rfl
  | cons t l ih => rw [List.reverse_cons, toPoly_append, ih, toPoly_cons, toPoly_cons, toPoly_nil]; ring

theorem eval_ne_zero {f : UPoly ℤ} {F : ℤ[X]} (h : Is f F) (h0 : F ≠ 0) {pb : Nat} (hpb : maxBits f + 1 ≤ pb) : F.eval (2 ^ pb) ≠ 0 := by
  intro he
  have := root_lt h0 (coeff_lt_maxBits h) (z := ((2 ^ pb : ℤ) : ℂ)) (by
    rw [IsRoot.def, eval_map, eval₂_at_intCast, show ((2 ^ pb : ℤ)).cast = (2 ^ pb : ℤ) from rfl, he]; simp)
  rw [Complex.norm_intCast] at this
  have h2 : (2 : ℝ) ^ maxBits f ≤ 2 ^ pb := pow_le_pow_right₀ (by norm_num) (by omega)
  have h3 : |(((2 ^ pb : ℤ)) : ℝ)| = 2 ^ pb := by rw [Int.cast_pow, Int.cast_ofNat]; exact abs_of_pos (by positivity)
  rw [h3] at this
  linarith

/-- the candidate has the value `gcd(F(ξ), G(ξ))` at `ξ` -/
theorem heuCand_eval {f g : UPoly ℤ} {F G H : ℤ[X]} (hf : Is f F) (hg : Is g G) (f0 : F ≠ 0) (g0 : G ≠ 0) (hH : Is (heuCand f g) H) :
    H.eval (2 ^ packBits f g) = Int.gcd (F.eval (2 ^ packBits f g)) (G.eval (2 ^ packBits f g)) := by
  have hpb : 0 < packBits f g := by unfold packBits; omega
  have b1 : maxBits f + 1 ≤ packBits f g := by unfold packBits; omega
  have b2 : maxBits g + 1 ≤ packBits f g := by unfold packBits; omega
  obtain ⟨_, _, h3⟩ := unpackLoop_spec hpb (min (deg f) (deg g) + 1) 0 (Int.gcd (packVal (packBits f g) f) (packVal (packBits f g) g)) (by positivity)
  rw [← hH.eq]
  unfold heuCand
  rw [toPoly_norm, toPoly_reverse, h3, pow_zero, mul_one, packVal_eq hf, packVal_eq hg]
  rw [packVal_eq hf, packVal_eq hg]
  have bound : ∀ {f : UPoly ℤ} {F : ℤ[X]}, Is f F → maxBits f + 1 ≤ packBits f g → True := fun _ _ => trivial
  have key : ∀ (f' : UPoly ℤ) (F' : ℤ[X]) (pb : Nat), Is f' F' → maxBits f' + 1 ≤ pb → |F'.eval (2 ^ pb)| ≤ 2 ^ pb / 2 * geo (2 ^ pb) (F'.natDegree + 1) := by
    intro f' F' pb h' hb
    refine eval_le (by positivity) (fun i => ?_) le_rfl
    have h1 := coeff_lt_maxBits h' i
    obtain ⟨m, rfl⟩ : ∃ m, pb = m + 1 := ⟨pb - 1, by omega⟩
    have h2 : (2 : ℤ) ^ (m + 1) / 2 = 2 ^ m := by rw [pow_succ]; omega
    rw [h2]
    have h3 : 2 ^ maxBits f' ≤ 2 ^ m := Nat.pow_le_pow_right (by norm_num) (by omega)
    have h4 : (F'.coeff i).natAbs ≤ 2 ^ m := by omega
    rw [Int.abs_eq_natAbs]
    exact_mod_cast h4
  rcases Nat.le_total (deg f) (deg g) with hle | hle
  · rw [min_eq_left hle, is_deg hf]
    refine le_trans ?_ (key f F _ hf b1)
    rw [Int.abs_eq_natAbs]
    exact_mod_cast Nat.le_of_dvd (Int.natAbs_pos.2 (eval_ne_zero hf f0 b1)) (Nat.gcd_dvd_left _ _)
  · rw [min_eq_right hle, is_deg hg]
    refine le_trans ?_ (key g G _ hg b2)
    rw [Int.abs_eq_natAbs]
    exact_mod_cast Nat.le_of_dvd (Int.natAbs_pos.2 (eval_ne_zero hg g0 b2)) (Nat.gcd_dvd_right _ _)

/-- the heuristic gcd of primitive polynomials, when it succeeds, is the primitive gcd with positive leading coefficient -/
theorem gcdheu_spec {f g h : UPoly ℤ} {F G : ℤ[X]} (hf : Is f F) (hg : Is g G) (pF : F.IsPrimitive) (pG : G.IsPrimitive) (e : gcdheu f g = some h) :
    ∃ H, Is h H ∧ H.IsPrimitive ∧ 0 < H.leadingCoeff ∧ IsGcd H F G := by
  have f0 := pF.ne_zero
  have g0 := pG.ne_zero
  unfold gcdheu at e
  split at e
  · simp at e
  split at e
  · simp at e
  rename_i hne
  split at e
  swap
  · simp at e
  rename_i hdv
  simp only [Option.some.injEq] at e
  subst e
  obtain ⟨H0, c1, c2⟩ := heuCand_is f g
  have hH0 : H0 ≠ 0 := fun h0 => hne ((is_nil_iff c1).2 h0)
  obtain ⟨H, p1, p2, p3, p4⟩ := ppPos_is c1 hH0
  have hd1 : H ∣ F := (divides_iff p1 hf p2.ne_zero).1 hdv.1
  have hd2 : H ∣ G := (divides_iff p1 hg p2.ne_zero).1 hdv.2
  have hev := heuCand_eval hf hg f0 g0 c1
  have b1 : maxBits f + 1 ≤ packBits f g := by unfold packBits; omega
  have b2 : maxBits g + 1 ≤ packBits f g := by unfold packBits; omega
  have b3 : min (maxBits f) (maxBits g) + 6 ≤ packBits f g := by unfold packBits; omega
  obtain ⟨ξ, hξ⟩ : ∃ ξ : ℤ, ξ = 2 ^ packBits f g := ⟨_, rfl⟩
  rw [← hξ] at hev c2
  have hFξ : F.eval ξ ≠ 0 := hξ ▸ eval_ne_zero hf f0 b1
  refine ⟨H, p1, p2, p3, hd1, hd2, fun E hE1 hE2 => ?_⟩
  -- a common divisor which is a multiple of `H` is `H` up to sign
  have main : ∀ K, H * K ∣ F → H * K ∣ G → IsUnit K := by
    intro K hK1 hK2
    have hev1 : H.eval ξ * K.eval ξ ∣ H0.eval ξ := by
      rw [hev, ← eval_mul]
      exact Int.dvd_coe_gcd (eval_dvd hK1) (eval_dvd hK2)
    have hH0ξ : H0.eval ξ ≠ 0 := by
      rw [hev]
      exact_mod_cast (fun h => hFξ (Int.gcd_eq_zero_iff.1 h).1)
    have hdc : K.eval ξ ∣ cont (heuCand f g) := by
      have hx : ∃ c, (c = cont (heuCand f g) ∨ c = -cont (heuCand f g)) ∧ H0.eval ξ = c * H.eval ξ := by
        rcases p4 with h | h
        · exact ⟨_, .inl rfl, by conv_lhs => rw [h]; simp⟩
        · exact ⟨_, .inr rfl, by conv_lhs => rw [h, eval_mul, eval_C]⟩
      obtain ⟨c, hc, hx⟩ := hx
      have hHξ : H.eval ξ ≠ 0 := fun h => hH0ξ (by rw [hx, h, mul_zero])
      rw [hx, mul_comm c] at hev1
      have := (mul_dvd_mul_iff_left hHξ).1 hev1
      rcases hc with rfl | rfl
      · exact this
      · exact (dvd_neg).1 this
    have hcle : |cont (heuCand f g)| ≤ ξ / 2 := by
      have h1 : cont (heuCand f g) ∣ H0.coeff H0.natDegree := by
        have := (C_dvd_iff_cont c1 hH0 (cont (heuCand f g))).2 dvd_rfl
        rw [C_dvd_iff_dvd_coeff] at this
        exact this _
      have h2 : H0.coeff H0.natDegree ≠ 0 := leadingCoeff_ne_zero.2 hH0
      exact (Int.le_of_dvd (abs_pos.2 h2) ((abs_dvd_abs _ _).2 h1)).trans (c2 _)
    have hKle : |K.eval ξ| ≤ ξ / 2 := (Int.le_of_dvd (abs_pos.2 (cont_ne_zero c1 hH0)) ((abs_dvd_abs _ _).2 hdc)).trans hcle
    have hdeg : K.natDegree = 0 := by
      by_contra hne
      have hroots : ∀ z : ℂ, (K.map (Int.castRingHom ℂ)).IsRoot z → ‖z‖ < (2 ^ min (maxBits f) (maxBits g) : ℝ) := by
        intro z hz
        have hKF : K ∣ F := (dvd_mul_left K H).trans hK1
        have hKG : K ∣ G := (dvd_mul_left K H).trans hK2
        rcases Nat.le_total (maxBits f) (maxBits g) with hle | hle
        · rw [min_eq_left hle]
          exact root_lt f0 (coeff_lt_maxBits hf) (hz.dvd (Polynomial.map_dvd _ hKF))
        · rw [min_eq_right hle]
          exact root_lt g0 (coeff_lt_maxBits hg) (hz.dvd (Polynomial.map_dvd _ hKG))
      have h64 : (2 : ℝ) ^ min (maxBits f) (maxBits g) * 64 ≤ (ξ : ℝ) := by
        have : (2 : ℝ) ^ (min (maxBits f) (maxBits g) + 6) ≤ 2 ^ packBits f g := pow_le_pow_right₀ (by norm_num) b3
        rw [pow_add] at this
        rw [hξ]; push_cast
        linarith
      have h1 : (1 : ℝ) ≤ 2 ^ min (maxBits f) (maxBits g) := one_le_pow₀ (by norm_num)
      have hge := eval_ge (Nat.pos_of_ne_zero hne) (B := 2 ^ min (maxBits f) (maxBits g)) (ξ := ξ) (by linarith) hroots
      have h2 : |((K.eval ξ : ℤ) : ℝ)| ≤ (ξ : ℝ) / 2 := by
        have h3 : ((|K.eval ξ| : ℤ) : ℝ) ≤ ((ξ / 2 : ℤ) : ℝ) := by exact_mod_cast hKle
        rw [Int.cast_abs] at h3
        have h4 : 2 * (ξ / 2) ≤ ξ := by omega
        have h5 : (2 : ℝ) * ((ξ / 2 : ℤ) : ℝ) ≤ ξ := by exact_mod_cast h4
        linarith
      linarith
    rw [eq_C_of_natDegree_eq_zero hdeg] at hK1 ⊢
    exact isUnit_C.2 (pF _ ((dvd_mul_left _ H).trans hK1))
  -- the gcd in ℤ[X]
  obtain ⟨D, hD⟩ : ∃ D, IsGcd D F G := by
    letI := UniqueFactorizationMonoid.toGCDMonoid ℤ[X]
    exact ⟨GCDMonoid.gcd F G, gcd_dvd_left _ _, gcd_dvd_right _ _, fun E h1 h2 => dvd_gcd h1 h2⟩
  obtain ⟨K, hK⟩ := hD.2.2 H hd1 hd2
  have hu := main K (hK ▸ hD.1) (hK ▸ hD.2.1)
  have hDH : D ∣ H := by rw [hK]; exact hu.mul_right_dvd.2 dvd_rfl
  exact (hD.2.2 E hE1 hE2).trans hDH

end Upoly
end CLPoly
