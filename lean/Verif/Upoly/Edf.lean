import Verif.Upoly.Ddf
import Mathlib.FieldTheory.Finiteness
import Mathlib.RingTheory.AdjoinRoot

/-! # The random search of `__edf_Zp` can always finish -/

namespace CLPoly
namespace Upoly
open Polynomial
open Dense (IsGcd)

variable {p : Nat} [hp : Fact p.Prime]

/-- more fuel and more random numbers do not change the result -/
theorem edf_mono : ∀ (fuel : Nat) (f : UPoly (ZMod p)) (d : Nat) (rng : List Nat) (l : List (UPoly (ZMod p))) (rng' : List Nat), edf p fuel f d rng = some (l, rng') →
    ∀ k ex, edf p (fuel + k) f d (rng ++ ex) = some (l, rng' ++ ex) := by
  intro fuel
  induction fuel with
  | zero => intro f d rng l rng' h; simp [edf] at h
  | succ fuel ih =>
    intro f d rng l rng' h k ex
    rw [show fuel + 1 + k = (fuel + k) + 1 by omega]
    rw [edf] at h ⊢
    by_cases h1 : deg f = d
    · rw [if_pos h1] at h ⊢; cases h; rfl
    · rw [if_neg h1] at h ⊢
      by_cases h2 : deg f ≤ 0
      · rw [if_pos h2] at h ⊢; cases h; rfl
      · rw [if_neg h2] at h ⊢
        by_cases h3 : rng.length < deg f
        · rw [if_pos h3] at h; exact absurd h (by simp)
        · rw [if_neg h3] at h
          rw [if_neg (by rw [List.length_append]; omega)]
          simp only at h ⊢
          rw [List.take_append_of_le_length (by omega), List.drop_append_of_le_length (by omega)]
          split at h
          · rename_i h4
            rw [if_pos h4]
            exact ih _ _ _ _ _ h k ex
          · rename_i h4
            rw [if_neg h4]
            cases e : edfTry p f d (ofDraws p (rng.take (deg f))) with
            | none => rw [e] at h; simp at h
            | some g =>
              rw [e] at h
              simp only [Option.bind_some] at h ⊢
              split at h
              · rename_i h5
                rw [if_pos h5]
                cases eq : quo f g with
                | none => rw [eq] at h; simp at h
                | some q =>
                  rw [eq] at h
                  simp only [Option.bind_some] at h ⊢
                  cases ea : edf p fuel (makeMonic g) d (rng.drop (deg f)) with
                  | none => rw [ea] at h; simp at h
                  | some a =>
                    rw [ea] at h
                    simp only [Option.bind_some] at h
                    rw [ih _ _ _ a.1 a.2 ea k ex]
                    simp only [Option.bind_some]
                    cases eb : edf p fuel (makeMonic q) d a.2 with
                    | none => rw [eb] at h; simp at h
                    | some b =>
                      rw [eb] at h
                      rw [ih _ _ _ b.1 b.2 eb k ex]
                      simp only [Option.map_some, Option.some.injEq, Prod.mk.injEq] at h ⊢
                      exact ⟨h.1, by rw [h.2]⟩
              · rename_i h5
                rw [if_neg h5]
                exact ih _ _ _ _ _ h k ex

/-- every polynomial of degree `< n` is a possible draw -/
theorem exists_draws {n : Nat} {A : (ZMod p)[X]} (h : A.natDegree < n) : ∃ l : List Nat, l.length = n ∧ (∀ c ∈ l, c < p) ∧ toPoly (ofDraws p l) = A := by
  refine ⟨(List.range n).reverse.map fun i => (A.coeff i).val, by simp, ?_, ?_⟩
  · intro c hc
    obtain ⟨i, _, rfl⟩ := List.mem_map.1 hc
    exact ZMod.val_lt _
  · have : ∀ n, toPoly (ofDraws p ((List.range n).reverse.map fun i => (A.coeff i).val)) = ∑ i ∈ Finset.range n, monomial i (A.coeff i) := by
      intro n
      induction n with
      | zero => simp [ofDraws]
      | succ n ih =>
        rw [List.range_succ, List.reverse_append, List.reverse_singleton, List.singleton_append, List.map_cons, ofDraws, Finset.sum_range_succ]
        by_cases h0 : (A.coeff n).val ≠ 0
        · rw [if_pos h0, toPoly_cons, ih]
          simp [add_comm]
        · rw [if_neg h0, ih]
          push Not at h0
          rw [(ZMod.val_eq_zero _).1 h0]; simp
    rw [this]
    exact (A.as_sum_range' n h).symm

/-- the trace-like polynomials computed in characteristic 2 -/
noncomputable def trP {A : Type*} [CommRing A] (x : A) : Nat → A
  | 0 => x
  | n + 1 => trP x n * trP x n + x

theorem trP_map {A B : Type*} [CommRing A] [CommRing B] (φ : A →+* B) (x : A) (n : Nat) : φ (trP x n) = trP (φ x) n := by
  induction n with
  | zero => rfl
  | succ n ih => rw [trP, trP, map_add, map_mul, ih]

theorem trP_dvd {M A B : (ZMod p)[X]} (h : M ∣ A - B) (n : Nat) : M ∣ trP A n - trP B n := by
  induction n with
  | zero => exact h
  | succ n ih =>
    rw [trP, trP]
    have : trP A n * trP A n + A - (trP B n * trP B n + B) = (trP A n - trP B n) * (trP A n + trP B n) + (A - B) := by ring
    rw [this]
    exact dvd_add (dvd_mul_of_dvd_left ih _) h

theorem trP_zero (n : Nat) : trP (0 : (ZMod p)[X]) n = 0 := by
  induction n with
  | zero => rfl
  | succ n ih => rw [trP, ih]; ring

theorem trP_natDegree {K : Type*} [Field K] (n : Nat) : (trP (X : K[X]) n).natDegree = 2 ^ n := by
  induction n with
  | zero => simp [trP]
  | succ n ih =>
    have h1 : (trP (X : K[X]) n * trP (X : K[X]) n).natDegree = 2 ^ (n + 1) := by
      have h0 : trP (X : K[X]) n ≠ 0 := by
        intro h
        rw [h, natDegree_zero] at ih
        have := Nat.two_pow_pos n
        omega
      rw [natDegree_mul h0 h0, ih, pow_succ]; ring
    rw [trP, natDegree_add_eq_left_of_natDegree_lt, h1]
    rw [h1, natDegree_X, pow_succ]
    have := Nat.two_pow_pos n
    omega

/-- in a field with `p^d` elements some element has a non-zero trace -/
theorem exists_trP_not_dvd {P : (ZMod p)[X]} (hP : Irreducible P) : ∃ A : (ZMod p)[X], ¬ P ∣ trP A (P.natDegree - 1) := by
  by_contra hcon
  push Not at hcon
  haveI : Fact (Irreducible P) := ⟨hP⟩
  have hfin : Module.Finite (ZMod p) (AdjoinRoot P) := (AdjoinRoot.powerBasis hP.ne_zero).finite
  haveI : Finite (AdjoinRoot P) := Module.finite_of_finite (ZMod p)
  letI : Fintype (AdjoinRoot P) := Fintype.ofFinite _
  have hcard : Fintype.card (AdjoinRoot P) = p ^ P.natDegree := by
    rw [Module.card_eq_pow_finrank (K := ZMod p), ZMod.card, (AdjoinRoot.powerBasis hP.ne_zero).finrank, AdjoinRoot.powerBasis_dim]
  have hroots : ∀ x : AdjoinRoot P, (trP (X : (AdjoinRoot P)[X]) (P.natDegree - 1)).eval x = 0 := by
    intro x
    obtain ⟨A, rfl⟩ := AdjoinRoot.mk_surjective x
    have h1 := trP_map (evalRingHom (AdjoinRoot.mk P A)) X (P.natDegree - 1)
    rw [coe_evalRingHom, eval_X] at h1
    rw [h1, ← trP_map (AdjoinRoot.mk P), AdjoinRoot.mk_eq_zero]
    exact hcon A
  have hdeg := trP_natDegree (K := AdjoinRoot P) (P.natDegree - 1)
  have h0 : trP (X : (AdjoinRoot P)[X]) (P.natDegree - 1) ≠ 0 := by
    intro h
    rw [h, natDegree_zero] at hdeg
    have := Nat.two_pow_pos (P.natDegree - 1)
    omega
  have hle : Fintype.card (AdjoinRoot P) ≤ (trP (X : (AdjoinRoot P)[X]) (P.natDegree - 1)).natDegree := by
    by_contra hlt
    push Not at hlt
    refine h0 (eq_zero_of_natDegree_lt_card_of_eval_eq_zero _ (f := id) Function.injective_id hroots ?_)
    exact hlt
  rw [hcard, hdeg] at hle
  have h1 : 2 ^ P.natDegree ≤ p ^ P.natDegree := Nat.pow_le_pow_left hp.out.two_le _
  have h2 : 2 ^ (P.natDegree - 1) < 2 ^ P.natDegree := Nat.pow_lt_pow_right (by omega) (by have := hP.natDegree_pos; omega)
  omega

theorem traceLoop_is {f r : UPoly (ZMod p)} {F Rp : (ZMod p)[X]} (hf : Is f F) (hF : F ≠ 0) (hr : Is r Rp) : ∀ (n k : Nat) (a : UPoly (ZMod p)) (A : (ZMod p)[X]),
    Is a A → F ∣ A - trP Rp k → ∃ b B, traceLoop p r f n a = some b ∧ Is b B ∧ F ∣ B - trP Rp (k + n) ∧ (A.natDegree ≤ F.natDegree → B.natDegree ≤ F.natDegree) := by
  intro n
  induction n with
  | zero => intro k a A ha h; exact ⟨a, A, rfl, ha, h, fun h => h⟩
  | succ n ih =>
    intro k a A ha h
    obtain ⟨c, c1, c2⟩ := mod_is (add_is (mul_is ha ha) hr) hf hF
    obtain ⟨b, B, b1, b2, b3, b4⟩ := ih (k + 1) c _ c2 (by
      have h1 := dvd_sub_mod' (A * A + Rp) F
      have h2 : F ∣ A * A + Rp - trP Rp (k + 1) := by
        rw [trP]
        have : A * A + Rp - (trP Rp k * trP Rp k + Rp) = (A - trP Rp k) * (A + trP Rp k) := by ring
        rw [this]; exact dvd_mul_of_dvd_left h _
      have := dvd_sub h2 h1
      rwa [sub_sub_sub_cancel_left] at this)
    refine ⟨b, B, by rw [traceLoop, c1]; exact b1, b2, by rw [show k + (n + 1) = k + 1 + n by omega]; exact b3, fun _ => b4 ?_⟩
    exact natDegree_le_natDegree (EuclideanDomain.mod_lt _ hF).le

/-- some draw splits a reducible polynomial -/
theorem exists_split (hW : p < W) {f : UPoly (ZMod p)} {F : (ZMod p)[X]} {d : Nat} (hf : Is f F) (hm : F.Monic) (lF : F.natDegree + 1 < W) (hsf : Squarefree F)
    (hall : AllDeg d F) (h0 : 0 < F.natDegree) (hne : F.natDegree ≠ d) :
    ∃ (draws : List Nat) (g : UPoly (ZMod p)) (G : (ZMod p)[X]), draws.length = deg f ∧ (∀ c ∈ draws, c < p) ∧ ofDraws p draws ≠ [] ∧
      edfTry p f d (ofDraws p draws) = some g ∧ Is g G ∧ G.Monic ∧ G ∣ F ∧ 0 < G.natDegree ∧ G.natDegree < F.natDegree := by
  have hF0 := hm.ne_zero
  obtain ⟨P, hP, hPm, hPF⟩ := exists_irreducible_dvd h0
  obtain ⟨Q, hQ⟩ := hPF
  have hQ0 : Q ≠ 0 := right_ne_zero_of_mul (hQ ▸ hF0)
  have hPd := hall P hP ⟨Q, hQ⟩
  have hQd : 0 < Q.natDegree := by
    have h1 := hQ ▸ natDegree_mul hP.ne_zero hQ0
    omega
  obtain ⟨P', hP', hPm', hPQ⟩ := exists_irreducible_dvd hQd
  have hPF : P ∣ F := ⟨Q, hQ⟩
  have hPF' : P' ∣ F := by rw [hQ]; exact dvd_mul_of_dvd_right hPQ _
  have hnd : ¬ P ∣ P' := by
    intro h
    have : P * P ∣ F := by rw [hQ]; exact mul_dvd_mul_left P (h.trans hPQ)
    exact hP.not_isUnit (hsf P this)
  obtain ⟨u, v, huv⟩ : IsCoprime P P' := (hP.coprime_iff_not_dvd).2 hnd
  have hd0 : 0 < d := hPd ▸ hP.natDegree_pos
  -- a polynomial that is `A` modulo `P` and `0` modulo `P'`
  have crt : ∀ A : (ZMod p)[X], ¬ P ∣ A → ∃ (draws : List Nat) (Rp : (ZMod p)[X]), draws.length = deg f ∧ (∀ c ∈ draws, c < p) ∧ ofDraws p draws ≠ [] ∧
      Is (ofDraws p draws) Rp ∧ P ∣ Rp - A ∧ P' ∣ Rp ∧ Rp.natDegree ≤ F.natDegree := by
    intro A hA
    obtain ⟨Rp, hRp⟩ : ∃ Rp, Rp = (v * P' * A) % F := ⟨_, rfl⟩
    have hlt : Rp.degree < F.degree := hRp ▸ EuclideanDomain.mod_lt _ hF0
    have hlt' : Rp.natDegree < F.natDegree := by
      by_cases h : Rp = 0
      · rw [h, natDegree_zero]; exact h0
      · exact (natDegree_lt_natDegree_iff h).2 hlt
    have hmod : F ∣ v * P' * A - Rp := hRp ▸ dvd_sub_mod' _ _
    have h1 : P ∣ Rp - A := by
      have a1 : P ∣ v * P' * A - Rp := hPF.trans hmod
      have a2 : P ∣ v * P' * A - A := ⟨-u * A, by linear_combination A * huv⟩
      have := dvd_sub a2 a1
      rwa [sub_sub_sub_cancel_left] at this
    have h2 : P' ∣ Rp := by
      have a1 : P' ∣ v * P' * A - Rp := hPF'.trans hmod
      have a2 : P' ∣ v * P' * A := dvd_mul_of_dvd_left (Dvd.intro_left _ rfl) _
      exact (dvd_sub_right a2).1 a1
    obtain ⟨draws, d1, d2, d3⟩ := exists_draws hlt'
    have hc := (ofDraws_is (p := p) draws d2).1
    have his : Is (ofDraws p draws) Rp := ⟨hc, d3⟩
    refine ⟨draws, Rp, by rw [d1, is_deg hf], d2, ?_, his, h1, h2, hlt'.le⟩
    intro h
    have := (is_nil_iff his).1 h
    rw [this, zero_sub, dvd_neg] at h1
    exact hA h1
  -- the gcd is a proper divisor
  have fin : ∀ {a : UPoly (ZMod p)} {A : (ZMod p)[X]}, Is a A → A.natDegree + 1 < W → (∃ P, Irreducible P ∧ P ∣ F ∧ P ∣ A) → (∃ P, P ∣ F ∧ ¬ P ∣ A) →
      ∃ g G, gcd p a f = some g ∧ Is g G ∧ G.Monic ∧ G ∣ F ∧ 0 < G.natDegree ∧ G.natDegree < F.natDegree := by
    rintro a A ha la ⟨P1, i1, i2, i3⟩ ⟨P2, j1, j2⟩
    obtain ⟨g, G, g1, g2, g3, g4⟩ := gcd_is hW ha hf (.inr hF0) la lF
    refine ⟨g, G, g1, g2, g3, g4.2.1, ?_, ?_⟩
    · exact i1.natDegree_pos.trans_le (natDegree_le_of_dvd (g4.2.2 _ i3 i2) g3.ne_zero)
    · refine lt_of_le_of_ne (natDegree_le_of_dvd g4.2.1 hF0) fun e => ?_
      have : G = F := (eq_of_monic_of_dvd_of_natDegree_le g3 hm g4.2.1 e.ge).symm
      rw [this] at g4
      exact j2 (j1.trans g4.1)
  by_cases hp2 : p = 2
  · obtain ⟨A, hA⟩ := exists_trP_not_dvd hP
    have hA0 : ¬ P ∣ A := by
      rintro h
      have := trP_dvd (A := A) (B := 0) (by simpa using h) (P.natDegree - 1)
      rw [trP_zero, sub_zero] at this
      exact hA this
    obtain ⟨draws, Rp, r1, r2, r3, r4, r5, r6, r7⟩ := crt A hA0
    obtain ⟨a, a1, a2⟩ := mod_is r4 hf hF0
    obtain ⟨b, B, b1, b2, b3, b4⟩ := traceLoop_is hf hF0 r4 (d - 1) 0 a _ a2 (by
      have := dvd_sub_mod' Rp F
      rw [← dvd_neg, neg_sub] at this
      exact this)
    rw [Nat.zero_add] at b3
    have hB := b4 (natDegree_le_natDegree (EuclideanDomain.mod_lt _ hF0).le)
    obtain ⟨g, G, g1, g2, g3, g4, g5, g6⟩ := fin b2 (by omega) ⟨P', hP', hPF', by
      have h1 := trP_dvd (A := Rp) (B := 0) (by simpa using r6) (d - 1)
      rw [trP_zero, sub_zero] at h1
      have h2 := hPF'.trans b3
      exact (dvd_sub_left h1).1 h2⟩ ⟨P, hPF, by
      intro h
      have h1 := trP_dvd r5 (d - 1)
      have h2 := hPF.trans b3
      rw [hPd] at hA
      have h3 : P ∣ trP Rp (d - 1) := (dvd_sub_right h).1 h2
      exact hA ((dvd_sub_right h3).1 h1)⟩
    refine ⟨draws, g, G, r1, r2, r3, ?_, g2, g3, g4, g5, g6⟩
    unfold edfTry
    rw [if_pos hp2, a1]
    simp only [Option.bind_some]
    rw [b1]
    exact g1
  · obtain ⟨draws, Rp, r1, r2, r3, r4, r5, r6, r7⟩ := crt 1 (fun h => hP.not_isUnit (isUnit_of_dvd_one h))
    have hp3 : 3 ≤ p := by have := hp.out.two_le; omega
    have he : (p ^ d - 1) / 2 ≠ 0 := by
      have : 3 ≤ p ^ d := hp3.trans (Nat.le_self_pow (by omega) p)
      omega
    obtain ⟨e, hee⟩ : ∃ e, e = (p ^ d - 1) / 2 := ⟨_, rfl⟩
    rw [← hee] at he
    obtain ⟨a, a1, a2⟩ := powmod_is r4 hf hF0 e
    rw [if_neg he] at a2
    have hmod := dvd_sub_mod' (Rp ^ e) F
    have hle : (Rp ^ e % F - 1).natDegree ≤ F.natDegree := by
      have h1 := natDegree_sub_le (Rp ^ e % F) 1
      have h2 : (Rp ^ e % F).natDegree ≤ F.natDegree := natDegree_le_natDegree (EuclideanDomain.mod_lt _ hF0).le
      rw [natDegree_one] at h1
      omega
    obtain ⟨g, G, g1, g2, g3, g4, g5, g6⟩ := fin (subOne_is a2) (by omega) ⟨P, hP, hPF, by
      have h1 : P ∣ Rp ^ e - 1 := by
        have := r5.trans (sub_dvd_pow_sub_pow Rp 1 e)
        rwa [one_pow] at this
      have := dvd_sub h1 (hPF.trans hmod)
      rwa [sub_sub_sub_cancel_left] at this⟩ ⟨P', hPF', by
      intro h
      have h1 : P' ∣ Rp ^ e := dvd_pow r6 he
      have h2 : P' ∣ Rp ^ e % F := (dvd_sub_right h1).1 (hPF'.trans hmod)
      exact hP'.not_isUnit (isUnit_of_dvd_one ((dvd_sub_right h2).1 h))⟩
    refine ⟨draws, g, G, r1, r2, r3, ?_, g2, g3, g4, g5, g6⟩
    unfold edfTry
    rw [if_neg hp2, ← hee, a1]
    exact g1

/-- from every state of the search some continuation of the random stream finishes it -/
theorem edf_exists (hW : p < W) {d : Nat} (hd : 0 < d) : ∀ (n : Nat) (f : UPoly (ZMod p)) (F : (ZMod p)[X]), Is f F → F.Monic → F.natDegree + 1 < W → Squarefree F → AllDeg d F →
    F.natDegree = n → ∃ fuel rng l, (∀ c ∈ rng, c < p) ∧ edf p fuel f d rng = some (l, []) := by
  intro n
  induction n using Nat.strong_induction_on with
  | _ n ih =>
    intro f F hf hm lF hsf hall hn
    by_cases h1 : deg f = d
    · exact ⟨1, [], [makeMonic f], by simp, by rw [edf, if_pos h1]⟩
    · by_cases h2 : deg f ≤ 0
      · exact ⟨1, [], [], by simp, by rw [edf, if_neg h1, if_pos h2]⟩
      · rw [is_deg hf] at h1 h2
        obtain ⟨draws, g, G, r1, r2, r3, r4, r5, r6, r7, r8, r9⟩ := exists_split hW hf hm lF hsf hall (by omega) h1
        obtain ⟨H, hH⟩ := r7
        have hH' : F = H * G := by rw [hH, mul_comm]
        have hHm : H.Monic := monic_of_mul (hH' ▸ hm) r6
        obtain ⟨q, q1, q2⟩ := quo_is (hH' ▸ hf) r5 r6.ne_zero
        have hdeg : F.natDegree = H.natDegree + G.natDegree := by rw [hH', natDegree_mul hHm.ne_zero r6.ne_zero]
        obtain ⟨fu1, rn1, l1, a1, a2⟩ := ih G.natDegree (by omega) (makeMonic g) G (makeMonic_monic r5 r6) r6 (by omega)
          (hsf.squarefree_of_dvd ⟨H, hH⟩) (hall.of_dvd ⟨H, hH⟩) rfl
        obtain ⟨fu2, rn2, l2, b1, b2⟩ := ih H.natDegree (by omega) (makeMonic q) H (makeMonic_monic q2 hHm) hHm (by omega)
          (hsf.squarefree_of_dvd ⟨G, hH'⟩) (hall.of_dvd ⟨G, hH'⟩) rfl
        refine ⟨fu1 + fu2 + 1, draws ++ (rn1 ++ rn2), l1 ++ l2, ?_, ?_⟩
        · intro c hc
          rcases List.mem_append.1 hc with hc | hc
          · exact r2 c hc
          · rcases List.mem_append.1 hc with hc | hc
            · exact a1 c hc
            · exact b1 c hc
        · rw [edf, if_neg (by rw [is_deg hf]; exact h1), if_neg (by rw [is_deg hf]; omega), if_neg (by rw [List.length_append, r1]; omega)]
          simp only
          rw [← r1, List.take_left, List.drop_left, if_neg r3, r4]
          simp only [Option.bind_some]
          rw [r1, is_deg r5, is_deg hf, if_pos ⟨r8, r9⟩, q1]
          simp only [Option.bind_some]
          rw [edf_mono _ _ _ _ _ _ a2 fu2 rn2]
          simp only [Option.bind_some, List.nil_append]
          have := edf_mono _ _ _ _ _ _ b2 fu1 []
          rw [List.append_nil, Nat.add_comm] at this
          rw [this]
          rfl

theorem edfAll_mono {fuel : Nat} : ∀ (gs : List (UPoly (ZMod p) × Nat)) (rng : List Nat) (l : List (UPoly (ZMod p))) (rng' : List Nat), edfAll p fuel gs rng = some (l, rng') →
    ∀ k ex, edfAll p (fuel + k) gs (rng ++ ex) = some (l, rng' ++ ex) := by
  intro gs
  induction gs with
  | nil => intro rng l rng' h k ex; rw [edfAll] at h ⊢; cases h; rfl
  | cons g gs ih =>
    intro rng l rng' h k ex
    rw [edfAll] at h ⊢
    cases ea : edf p fuel g.1 g.2 rng with
    | none => rw [ea] at h; simp at h
    | some a =>
      rw [ea] at h
      rw [edf_mono _ _ _ _ a.1 a.2 ea k ex]
      simp only [Option.bind_some] at h ⊢
      cases eb : edfAll p fuel gs a.2 with
      | none => rw [eb] at h; simp at h
      | some b =>
        rw [eb] at h
        rw [ih a.2 b.1 b.2 eb k ex]
        simp only [Option.map_some, Option.some.injEq, Prod.mk.injEq] at h ⊢
        exact ⟨h.1, by rw [h.2]⟩

theorem edfAll_exists (hW : p < W) : ∀ gs : List (UPoly (ZMod p) × Nat), (∀ x ∈ gs, GroupOK x ∧ Squarefree (toPoly x.1) ∧ (toPoly x.1).natDegree + 1 < W) →
    ∃ fuel rng l, (∀ c ∈ rng, c < p) ∧ edfAll p fuel gs rng = some (l, []) := by
  intro gs
  induction gs with
  | nil => intro _; exact ⟨0, [], [], by simp, rfl⟩
  | cons g gs ih =>
    intro hg
    obtain ⟨h1, h2, h3⟩ := hg g (by simp)
    obtain ⟨fu1, rn1, l1, a1, a2⟩ := edf_exists hW h1.pos _ g.1 _ (is_of_canon h1.canon) h1.monic h3 h2 h1.all rfl
    obtain ⟨fu2, rn2, l2, b1, b2⟩ := ih fun x hx => hg x (by simp [hx])
    refine ⟨fu1 + fu2, rn1 ++ rn2, l1 ++ l2, ?_, ?_⟩
    · intro c hc
      rcases List.mem_append.1 hc with hc | hc
      · exact a1 c hc
      · exact b1 c hc
    · rw [edfAll, edf_mono _ _ _ _ _ _ a2 fu2 rn2]
      simp only [Option.bind_some, List.nil_append]
      have := edfAll_mono _ _ _ _ b2 fu1 []
      rw [List.append_nil, Nat.add_comm] at this
      rw [this]
      rfl

theorem factorParts_mono {fuel : Nat} : ∀ (sq : List (UPoly (ZMod p) × Nat)) (rng : List Nat) (l : List (UPoly (ZMod p) × Nat)), factorParts p fuel sq rng = some l →
    ∀ k ex, factorParts p (fuel + k) sq (rng ++ ex) = some l := by
  intro sq
  induction sq with
  | nil => intro rng l h k ex; rw [factorParts] at h ⊢; exact h
  | cons s sq ih =>
    intro rng l h k ex
    rw [factorParts] at h ⊢
    cases ed : ddf p s.1 with
    | none => rw [ed] at h; simp at h
    | some gs =>
      rw [ed] at h
      simp only [Option.bind_some] at h ⊢
      cases ea : edfAll p fuel gs rng with
      | none => rw [ea] at h; simp at h
      | some a =>
        rw [ea] at h
        rw [edfAll_mono _ _ a.1 a.2 ea k ex]
        simp only [Option.bind_some] at h ⊢
        cases eb : factorParts p fuel sq a.2 with
        | none => rw [eb] at h; simp at h
        | some b =>
          rw [eb] at h
          rw [ih a.2 b eb k ex]
          exact h

theorem factorParts_exists (hW : p < W) : ∀ sq : List (UPoly (ZMod p) × Nat),
    (∀ x ∈ sq, Canon comp x.1 ∧ (toPoly x.1).Monic ∧ Squarefree (toPoly x.1) ∧ (toPoly x.1).natDegree + 1 < W) →
    ∃ fuel rng l, (∀ c ∈ rng, c < p) ∧ factorParts p fuel sq rng = some l := by
  intro sq
  induction sq with
  | nil => intro _; exact ⟨0, [], [], by simp, rfl⟩
  | cons s sq ih =>
    intro hs
    obtain ⟨h1, h2, h3, h4⟩ := hs s (by simp)
    obtain ⟨gs, d1, d2, d3⟩ := ddf_spec hW (is_of_canon h1) h2 h4 h3
    have hdv : ∀ x ∈ gs, toPoly x.1 ∣ toPoly s.1 := fun x hx => d3 ▸ dvd_list_prod (List.mem_map.2 ⟨x, hx, rfl⟩)
    obtain ⟨fu1, rn1, l1, a1, a2⟩ := edfAll_exists hW gs fun x hx => ⟨d2 x hx, h3.squarefree_of_dvd (hdv x hx), by
      have := natDegree_le_of_dvd (hdv x hx) h2.ne_zero
      omega⟩
    obtain ⟨fu2, rn2, l2, b1, b2⟩ := ih fun x hx => hs x (by simp [hx])
    refine ⟨fu1 + fu2, rn1 ++ rn2, (l1.map fun h => (h, s.2)) ++ l2, ?_, ?_⟩
    · intro c hc
      rcases List.mem_append.1 hc with hc | hc
      · exact a1 c hc
      · exact b1 c hc
    · rw [factorParts, d1]
      simp only [Option.bind_some]
      rw [edfAll_mono _ _ _ _ a2 fu2 rn2]
      simp only [Option.bind_some, List.nil_append]
      have := factorParts_mono _ _ _ b2 fu1 []
      rw [List.append_nil, Nat.add_comm] at this
      rw [this]
      rfl

/-- `__factor_Zp` can always finish -/
theorem factor_exists (hW : p < W) {f : UPoly (ZMod p)} {F : (ZMod p)[X]} (hf : Is f F) (h0 : F ≠ 0) (lF : F.natDegree + 1 < W)
    (sort : List (UPoly (ZMod p) × Nat) → List (UPoly (ZMod p) × Nat)) :
    ∃ fuel rng out, (∀ c ∈ rng, c < p) ∧ ∀ k ex, factor p sort (fuel + k) (rng ++ ex) f = some out := by
  have hne : f ≠ [] := fun h => h0 ((is_nil_iff hf).1 h)
  by_cases hd : deg f ≤ 0
  · refine ⟨0, [], (lc f, []), by simp, fun k ex => ?_⟩
    unfold factor
    rw [if_neg hne, if_pos hd]
  · have hd' : 0 < F.natDegree := by rw [← is_deg hf]; omega
    have hmon := makeMonic_is hf h0
    obtain ⟨M, hM⟩ : ∃ M, M = C F.leadingCoeff⁻¹ * F := ⟨_, rfl⟩
    have hMm : M.Monic := hM ▸ monic_C_mul h0
    rw [← hM] at hmon
    have hlc : F.leadingCoeff ≠ 0 := by simpa using h0
    have hMd : M.natDegree = F.natDegree := by rw [hM, natDegree_C_mul (inv_ne_zero hlc)]
    obtain ⟨sq, s1, s2⟩ := squarefree_spec hW (deg f + 1) (makeMonic f) M hmon hMm (by omega) (by rw [is_deg hf]; omega) (by omega)
    have hprod := s2.prod hMm
    obtain ⟨fuel, rng, l, a1, a2⟩ := factorParts_exists hW sq fun x hx => ⟨(s2.entry x hx).canon, (s2.entry x hx).monic, s2.squarefree x hx, by
      have h1 : toPoly x.1 ∣ M := by
        rw [← hprod]
        refine (dvd_pow_self _ ?_).trans (dvd_list_prod (List.mem_map.2 ⟨x, hx, rfl⟩))
        have := (s2.entry x hx).exp; omega
      have := natDegree_le_of_dvd h1 hMm.ne_zero
      omega⟩
    refine ⟨fuel, rng, (lc f, sort l), a1, fun k ex => ?_⟩
    unfold factor
    rw [if_neg hne, if_neg hd, s1]
    simp only [Option.bind_some]
    rw [factorParts_mono _ _ _ a2 k ex]
    rfl

end Upoly
end CLPoly
