import Verif.Upoly.Content
import Verif.PairVec.DivEmit
import Verif.Upoly.GcdZDefs
import Mathlib.Tactic.LinearCombination

/-! # Division with remainder when the quotient exists in the ring; extended gcd over ℤ -/

namespace CLPoly
namespace Upoly
open Polynomial VHC

section
variable {R : Type*} [DecidableEq R] [CommRing R] [NoZeroDivisors R]

local instance instInhPs : Inhabited R := ⟨0⟩

theorem nf_unique {f g : UPoly R} {G H P Q : R[X]} {r : UPoly R} (hg : Is g G) (h0 : G ≠ 0) (hr : Canon comp r)
    (hP : P.degree < G.degree) (he : H * G + P = Q * G + toPoly r)
    (hR : ∀ x ∈ r, x.1 < G.natDegree ∨ ∀ q, x.2 ≠ q * G.leadingCoeff) : Q = H ∧ toPoly r = P := by
  by_cases hQ : Q = H
  · refine ⟨hQ, ?_⟩
    rw [hQ] at he
    exact (add_left_cancel he).symm
  exfalso
  have hd : H - Q ≠ 0 := fun h => hQ (sub_eq_zero.1 h).symm
  have e : (H - Q) * G = toPoly r - P := by linear_combination he
  have hlead := congrArg (fun F => Polynomial.coeff F ((H - Q).natDegree + G.natDegree)) e
  simp only [coeff_mul_degree_add_degree, coeff_sub] at hlead
  have hPc : P.coeff ((H - Q).natDegree + G.natDegree) = 0 := by
    refine coeff_eq_zero_of_degree_lt (lt_of_lt_of_le hP ?_)
    rw [degree_eq_natDegree h0]
    exact_mod_cast Nat.le_add_left _ _
  rw [hPc, sub_zero] at hlead
  have hne : (H - Q).leadingCoeff * G.leadingCoeff ≠ 0 := mul_ne_zero (leadingCoeff_ne_zero.2 hd) (leadingCoeff_ne_zero.2 h0)
  have hIs : Is r (toPoly r) := ⟨hr, rfl⟩
  have : ∃ t ∈ r, t.1 = (H - Q).natDegree + G.natDegree := by
    by_contra hc
    refine hne ?_
    rw [hlead]
    exact coeff_not_mem hIs fun t ht e => hc ⟨t, ht, e⟩
  obtain ⟨t, ht, e1⟩ := this
  have e2 : t.2 = (H - Q).leadingCoeff * G.leadingCoeff := by
    rw [hlead, ← e1]; exact (coeff_mem hIs ht).symm
  rcases hR t ht with h | h
  · omega
  · exact h _ e2

/-- **division with remainder when the quotient exists**: if `F = H·G + P` with `deg P < deg G`, the quotient `H` and the remainder `P` are found, whatever the
coefficient division does with inexact quotients -/
theorem divRem_nf {divc : R → R → R × R} {f g : UPoly R} {F G H P : R[X]} (hf : Is f F) (hg : Is g G) (h0 : G ≠ 0)
    (hdiv : ∀ lc : R, lc ≠ 0 → ∀ k, k = (divc k lc).1 * lc + (divc k lc).2)
    (hexact : ∀ lc : R, lc ≠ 0 → ∀ q, divc (q * lc) lc = (q, 0)) (he : F = H * G + P) (hP : P.degree < G.degree) :
    ∃ q r, divRem divc f g = some (q, r) ∧ Is q H ∧ Is r P := by
  have hg0 : g ≠ [] := fun h => h0 ((is_nil_iff hg).1 h)
  match g, hg0, hg with
  | [t], _, hg =>
    have hl := is_lc hg
    have hdg := is_deg hg
    have ht2 : t.2 ≠ 0 := hg.canon.2 t (by simp)
    simp only [lc, deg] at hl hdg
    have hG : G = monomial t.1 t.2 := by rw [← hg.eq, toPoly_cons]; simp [toPoly]
    -- every division is exact
    have hex : ∀ i ∈ f, t.1 ≤ i.1 → i.2 = H.coeff (i.1 - t.1) * t.2 := by
      intro i hi hle
      rw [← coeff_mem hf hi, he, coeff_add, coeff_eq_zero_of_degree_lt (p := P), add_zero, hG]
      · conv_lhs => rw [show i.1 = (i.1 - t.1) + t.1 by omega, coeff_mul_monomial]
      · refine lt_of_lt_of_le hP ?_
        rw [degree_eq_natDegree h0, ← hdg]; exact_mod_cast hle
    obtain ⟨kQ, cQ⟩ := (sys (R := R)).oneTerm_quot (divc := divc) (t := t) trivial (keysIn f) hf.canon
    have hRe : (f.filterMap (oneTermR divx divc t)) = f.filter fun i => decide (i.1 < t.1) := by
      rw [← List.filterMap_eq_filter]
      refine List.filterMap_congr fun i hi => ?_
      unfold oneTermR divx
      by_cases h : t.1 ≤ i.1
      · have := hex i hi h
        rw [if_pos h]
        simp only [Option.guard]
        rw [this, hexact _ ht2]
        simp [h]
      · rw [if_neg h]
        simp [Option.guard, show i.1 < t.1 by omega]
    have cR : Canon comp (f.filterMap (oneTermR divx divc t)) := by
      rw [hRe]; exact ⟨hf.canon.1.filter _, fun x hx => hf.canon.2 x (List.mem_of_mem_filter hx)⟩
    have hsum : ∀ l : UPoly R, (∀ i ∈ l, i ∈ f) → toPoly l = toPoly (l.filterMap (oneTermQ divx divc t)) * G + toPoly (l.filterMap (oneTermR divx divc t)) := by
      intro l
      induction l with
      | nil => intro _; simp [toPoly]
      | cons i l ih =>
        intro hl
        have hi := hl i List.mem_cons_self
        have ih' := ih fun x hx => hl x (List.mem_cons_of_mem _ hx)
        rw [List.filterMap_cons, List.filterMap_cons]
        unfold oneTermQ oneTermR at *
        unfold divx at *
        by_cases h : t.1 ≤ i.1
        · have e1 := hex i hi h
          have e2 : divc i.2 t.2 = (H.coeff (i.1 - t.1), 0) := by rw [e1, hexact _ ht2]
          have hne : H.coeff (i.1 - t.1) ≠ 0 := by
            intro h0; rw [h0, zero_mul] at e1; exact hf.canon.2 i hi e1
          rw [if_pos h]
          simp only [e2, ne_eq, hne, not_false_eq_true, if_true, not_true_eq_false, if_false]
          rw [toPoly_cons, toPoly_cons, ih', add_mul, hG, monomial_mul_monomial, ← e1, show i.1 - t.1 + t.1 = i.1 by omega]
          ring
        · rw [if_neg h]
          simp only
          rw [toPoly_cons, toPoly_cons, ih']
          ring
    have hs := hsum f fun _ h => h
    rw [hf.eq, he] at hs
    obtain ⟨u1, u2⟩ := nf_unique (f := f) hg h0 cR hP hs (by
      intro x hx
      left
      rw [hRe] at hx
      have := (List.mem_filter.1 hx).2
      rw [← hdg]; simpa using this)
    exact ⟨_, _, rfl, ⟨cQ, u1⟩, ⟨cR, u2⟩⟩
  | y :: y' :: w, _, hg =>
    by_cases hf0 : f = []
    · have hF := (is_nil_iff hf).1 hf0
      obtain ⟨u1, u2⟩ := nf_unique (f := f) (H := H) (P := P) (Q := 0) (r := []) hg h0 canon_nil hP (by rw [← he, hF]; simp [toPoly]) (by simp)
      refine ⟨[], [], ?_, u1 ▸ nil_is, ⟨canon_nil, u2⟩⟩
      unfold divRem pvDivRem
      simp [hf0]
    · have hlc : (at_ (y :: y' :: w) 0).2 ≠ 0 := hg.canon.2 _ (at_mem (by simp))
      obtain ⟨N, Q, R', e1, e2, ⟨b, e3⟩, e4, e5⟩ := heapDiv_spec (emit := fun _ k2 => k2) (divc := divc) (v1 := f) (T := (T : Nat → R →+ R[X])) (mul := (· + ·))
        (divx := divx) ranked (sys (R := R)).wf
        ((sys (R := R)).divCompat (keysIn _) (by simp)) (keysIn f) hf.canon hg.canon (by simp) (by
          intro k
          have := hdiv _ hlc k
          split
          · rename_i h0; rw [h0] at this; exact this
          · exact this)
      obtain ⟨kQ, cQ⟩ := (sys (R := R)).quot_canon (keysIn _) (by simp) e3
      have cR : Canon comp R' := (canon_iff ranked (keysIn R')).2 ⟨e4, fun x hx => by
        rcases (e5 x hx).2 with ⟨_, h⟩ | ⟨k, _, h, h'⟩
        · exact h
        · rw [h']; exact h⟩
      have hl := is_lc hg
      have hdg := is_deg hg
      simp only [lc, deg] at hl hdg
      have hkey : ∀ x : Nat × R, divx x.1 (at_ (y :: y' :: w) 0).1 = none → x.1 < G.natDegree := by
        intro x hx
        have hx : divx x.1 y.1 = none := hx
        unfold divx at hx
        split at hx
        · simp at hx
        · omega
      rw [← toPoly_eq_den, ← toPoly_eq_den, ← toPoly_eq_den, ← toPoly_eq_den, hf.eq, hg.eq, he] at e2
      obtain ⟨u1, u2⟩ := nf_unique (f := f) hg h0 cR hP e2 (by
        intro x hx
        rcases (e5 x hx).2 with ⟨h, _⟩ | ⟨k, _, h, h'⟩
        · exact .inl (hkey x h)
        · refine .inr fun q hq => h ?_
          have h3 := hdiv _ hlc k
          rw [h'] at hq
          rw [← hl] at hq
          have hq' : (divc k (at_ (y :: y' :: w) 0).2).2 = q * (at_ (y :: y' :: w) 0).2 := hq
          rw [hq', ← add_mul] at h3
          rw [h3, hexact _ hlc])
      have hRis : Is R' P := ⟨cR, u2⟩
      have hR' : ∀ x ∈ R', divx x.1 (at_ (y :: y' :: w) 0).1 = none := by
        intro x hx
        have : x.1 < y.1 := by
          have h1 := coeff_mem hRis hx
          have h2 : P.coeff x.1 ≠ 0 := by rw [h1]; exact cR.2 x hx
          have h3 := lt_of_le_of_lt (le_degree_of_ne_zero h2) hP
          rw [degree_eq_natDegree h0, ← hdg] at h3
          exact_mod_cast h3
        show divx x.1 y.1 = none
        unfold divx
        rw [if_neg (by omega)]
      refine ⟨Q, R', divRem_eq (N := N) hf.canon hg.canon hdiv (fun fuel hfu => ?_), ⟨cQ, u1⟩, hRis⟩
      unfold pvDivRem
      simp only [hf0, if_false]
      rw [heapDiv_emit_eq (fun k _ => k) (e1 fuel hfu) hR']; rfl

end

/-- pseudo-division: `lc(G)ⁿ·F = H·G + P` once `deg F < deg G + n` -/
theorem exists_pseudo {G : ℤ[X]} (h0 : G ≠ 0) : ∀ (n : Nat) (F : ℤ[X]), F.degree < ((G.natDegree + n : ℕ) : WithBot ℕ) →
    ∃ H P, C (G.leadingCoeff ^ n) * F = H * G + P ∧ P.degree < G.degree := by
  intro n
  induction n with
  | zero =>
    intro F h
    refine ⟨0, F, by simp, ?_⟩
    rw [degree_eq_natDegree h0]; simpa using h
  | succ n ih =>
    intro F h
    obtain ⟨H, P, e, hP⟩ := ih (C G.leadingCoeff * F - monomial n (F.coeff (G.natDegree + n)) * G) (by
      rw [degree_lt_iff_coeff_zero]
      intro m hm
      rw [coeff_sub, coeff_C_mul]
      rcases Nat.lt_or_ge (G.natDegree + n) m with hlt | hle
      · have h1 : F.coeff m = 0 := coeff_eq_zero_of_degree_lt (lt_of_lt_of_le h (by exact_mod_cast (by omega : G.natDegree + (n + 1) ≤ m)))
        rw [h1, mul_zero, zero_sub, neg_eq_zero]
        rw [← C_mul_X_pow_eq_monomial, mul_assoc, coeff_C_mul, coeff_X_pow_mul', if_pos (by omega), coeff_eq_zero_of_natDegree_lt (p := G) (by omega), mul_zero]
      · obtain rfl : m = G.natDegree + n := by omega
        rw [← C_mul_X_pow_eq_monomial, mul_assoc, coeff_C_mul, coeff_X_pow_mul, leadingCoeff]
        ring)
    refine ⟨H + C (G.leadingCoeff ^ n) * monomial n (F.coeff (G.natDegree + n)), P, ?_, hP⟩
    rw [pow_succ, C_mul]
    linear_combination e

/-- `D` divides `F` up to a nonzero constant -/
def QDvd (D F : ℤ[X]) : Prop := ∃ a : ℤ, a ≠ 0 ∧ D ∣ C a * F

theorem extLoopZ_spec {F G : ℤ[X]} : ∀ (fuel : Nat) (r0 r1 s0 s1 t0 t1 : UPoly ℤ) (R0 R1 S0 S1 T0 T1 : ℤ[X]), Is r0 R0 → Is r1 R1 → Is s0 S0 → Is s1 S1 → Is t0 T0 →
    Is t1 T1 → (if R1 = 0 then 1 else R1.natDegree + 2) ≤ fuel → R0 ≠ 0 → S0 * F + T0 * G = R0 → S1 * F + T1 * G = R1 →
    (∀ D, QDvd D R0 → QDvd D R1 → QDvd D F ∧ QDvd D G) →
    ∃ r s t D S T, extLoopZ fuel r0 r1 s0 s1 t0 t1 = some (r, s, t) ∧ Is r D ∧ D ≠ 0 ∧ Is s S ∧ Is t T ∧ S * F + T * G = D ∧ QDvd D F ∧ QDvd D G := by
  intro fuel
  induction fuel with
  | zero => intro r0 r1 s0 s1 t0 t1 R0 R1 S0 S1 T0 T1 _ _ _ _ _ _ h; split at h <;> omega
  | succ fuel ih =>
    intro r0 r1 s0 s1 t0 t1 R0 R1 S0 S1 T0 T1 hr0 hr1 hs0 hs1 ht0 ht1 hfuel hR0 e0 e1 hg
    rw [extLoopZ]
    by_cases h : r1 = []
    · rw [if_pos h]
      have h1 := (is_nil_iff hr1).1 h
      exact ⟨r0, s0, t0, R0, S0, T0, rfl, hr0, hR0, hs0, ht0, e0, hg _ ⟨1, one_ne_zero, by simp⟩ ⟨1, one_ne_zero, by rw [h1]; simp⟩⟩
    · rw [if_neg h]
      have h1 : R1 ≠ 0 := fun e => h ((is_nil_iff hr1).2 e)
      obtain ⟨lp, hlp⟩ : ∃ lp, lp = lc r1 ^ (deg r0 + 1 - deg r1) := ⟨_, rfl⟩
      simp only [← hlp]
      have lp0 : lp ≠ 0 := by rw [hlp, is_lc hr1]; exact pow_ne_zero _ (leadingCoeff_ne_zero.2 h1)
      obtain ⟨H, P, e, hP⟩ := exists_pseudo h1 (deg r0 + 1 - deg r1) R0 (by
        rw [degree_eq_natDegree hR0, is_deg hr0, is_deg hr1]
        exact_mod_cast (by omega))
      rw [← is_lc hr1, ← hlp] at e
      obtain ⟨q, r, d1, d2, d3⟩ := divRem_nf (map_mul_is hr0 lp0).norm hr1 h1 divZ_div divZ_exact e hP
      rw [d1]
      rw [if_neg h1] at hfuel
      refine ih r1 r s1 _ t1 _ R1 P S1 (C lp * S0 - H * S1) T1 (C lp * T0 - H * T1) hr1 d3 hs1 (sub_is (map_mul_is hs0 lp0).norm (mul_is d2 hs1)).norm ht1
        (sub_is (map_mul_is ht0 lp0).norm (mul_is d2 ht1)).norm ?_ h1 e1 ?_ ?_
      · split
        · omega
        · rename_i h0
          have : P.natDegree < R1.natDegree := (natDegree_lt_natDegree_iff h0).2 hP
          omega
      · linear_combination C lp * e0 - H * e1 + e
      · rintro D ⟨a, a0, ha⟩ ⟨b, b0, hb⟩
        refine hg D ⟨a * b * lp, mul_ne_zero (mul_ne_zero a0 b0) lp0, ?_⟩ ⟨a, a0, ha⟩
        have : C (a * b * lp) * R0 = C b * H * (C a * R1) + C a * (C b * P) := by
          rw [C_mul, C_mul]; linear_combination C a * C b * e
        rw [this]
        exact dvd_add (dvd_mul_of_dvd_right ha _) (dvd_mul_of_dvd_right hb _)

/-- the extended `polynomial_GCD` over ℤ: always returns; a combination of the operands, positive leading coefficient, dividing both up to constants -/
theorem extGcdZ_spec {f g : UPoly ℤ} {F G : ℤ[X]} (hf : Is f F) (hg : Is g G) (f0 : F ≠ 0) (g0 : G ≠ 0) :
    ∃ r s t D S T, extGcdZ f g = some (r, s, t) ∧ Is r D ∧ Is s S ∧ Is t T ∧ 0 < D.leadingCoeff ∧ S * F + T * G = D ∧ QDvd D F ∧ QDvd D G := by
  have h0 : ¬ (f = [] ∨ g = []) := by
    rintro (h | h)
    · exact f0 ((is_nil_iff hf).1 h)
    · exact g0 ((is_nil_iff hg).1 h)
  unfold extGcdZ
  rw [if_neg h0]
  obtain ⟨r, s, t, D, S, T, h1, h2, hD0, h3, h4, h5, h6, h7⟩ := extLoopZ_spec (F := F) (G := G) (max (deg f) (deg g) + 3) f g [(0, 1)] [] [] [(0, 1)] F G 1 0 0 1 hf hg one_is nil_is
    nil_is one_is (by rw [if_neg g0, is_deg hg]; omega) f0 (by ring) (by ring) (fun _ h h' => ⟨h, h'⟩)
  have hr0 : r ≠ [] := fun h => hD0 ((is_nil_iff h2).1 h)
  rw [h1]
  simp only [Option.bind_some, if_neg hr0]
  rw [is_lc h2]
  split
  · rename_i hneg
    have hq : ∀ {F}, QDvd D F → QDvd (-D) F := fun ⟨a, a0, h⟩ => ⟨a, a0, neg_dvd.2 h⟩
    have hn : ∀ {u : UPoly ℤ} {U : ℤ[X]}, Is u U → Is (norm (u.map fun t => (t.1, -t.2))) (-U) := fun h => (neg_is h).norm
    refine ⟨_, _, _, _, _, _, rfl, hn h2, hn h3, hn h4, ?_, ?_, hq h6, hq h7⟩
    · rw [leadingCoeff_neg]; omega
    · rw [← h5]; ring
  · rename_i hneg
    refine ⟨_, _, _, _, _, _, rfl, h2, h3, h4, ?_, h5, h6, h7⟩
    have := leadingCoeff_ne_zero.2 hD0
    omega

end Upoly
end CLPoly
