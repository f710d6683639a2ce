import Verif.Res.Det
import Mathlib.Tactic.LinearCombination

/-!
# Subresultants and pseudo-remainders

`Sub F G m n i`: the `i`-th subresultant of two polynomials of formal degrees `m` and `n`.
-/

namespace CLPoly
namespace Res
open Polynomial

variable {R : Type*} [CommRing R]

noncomputable def Sub (F G : R[X]) (m n i : ℕ) : R[X] := SB (m + n - i) (n - i) (m - i) F G

theorem Sub_smulF (F G : R[X]) (m n i : ℕ) (c : R) : Sub (C c * F) G m n i = C (c ^ (n - i)) * Sub F G m n i := SB_smulF ..
theorem Sub_smulG (F G : R[X]) (m n i : ℕ) (c : R) : Sub F (C c * G) m n i = C (c ^ (m - i)) * Sub F G m n i := SB_smulG ..
theorem Sub_last (F G : R[X]) (r : ℕ) : Sub F G (r + 1) r r = G := by
  unfold Sub
  rw [show r + 1 + r - r = r + 1 by omega, Nat.sub_self, show r + 1 - r = 1 by omega, SB_zero_one]

theorem SB_left (N b : ℕ) (F F' G : R[X]) : SB N 0 b F G = SB N 0 b F' G := by
  unfold SB
  exact dpol_congr fun i _ => by unfold rows; rw [if_neg (by omega), if_neg (by omega)]

theorem SB_powG {b : ℕ} {F G : R[X]} (t : ℕ) (hb : b = t + 1) : SB (G.natDegree + b) 0 b F G = C (G.leadingCoeff ^ t) * G := by
  subst hb
  rw [SB_left _ _ F 0 G, show G.natDegree + (t + 1) = G.natDegree + 1 + t by omega, Nat.add_comm t 1,
    SB_dropG_pow (by omega) (by simp) rfl, SB_zero_one, pow_zero, one_mul, C_pow]

/-- a pseudo-division shortens the matrix -/
theorem Sub_core {A B Q P : R[X]} {M r e : ℕ} (hr : B.natDegree = r) (hrM : r ≤ M) (he : e = M + 1 - r) (hdiv : C (B.leadingCoeff ^ e) * A = Q * B + P)
    (hQ : Q.natDegree ≤ M - r) (hP : P.natDegree < r) {i : ℕ} (hi : i < r) :
    C (B.leadingCoeff ^ (e * (r - i))) * Sub A B M r i = (-1) ^ ((r - i) * e) * C (B.leadingCoeff ^ e) * Sub B P r (r - 1) i := by
  have h1 : C (B.leadingCoeff ^ (e * (r - i))) * Sub A B M r i = Sub (C (B.leadingCoeff ^ e) * A) B M r i := by
    rw [Sub_smulF, pow_mul]
  have h2 : Sub (C (B.leadingCoeff ^ e) * A) B M r i = Sub P B M r i := by
    rw [hdiv, show Q * B + P = C 1 * P + Q * B by rw [C_1]; ring]
    unfold Sub
    rw [SB_rowF (by omega), one_pow, C_1, one_mul]
  have h3 : Sub P B M r i = ((-1) ^ (r - i) * C B.leadingCoeff) ^ e * SB (2 * r - 1 - i) (r - i) (r - 1 - i) P B := by
    unfold Sub
    rw [show M + r - i = (2 * r - 1 - i) + e by omega, show M - i = (r - 1 - i) + e by omega, SB_dropG_pow (by omega) (by omega) (by omega)]
  have h4 : SB (2 * r - 1 - i) (r - i) (r - 1 - i) P B = Sub B P r (r - 1) i := by
    rw [SB_swap]
    unfold Sub
    have : Even ((r - 1 - i) * (r - i)) := by
      rw [show r - i = (r - 1 - i) + 1 by omega]
      exact Nat.even_mul_succ_self _
    rw [this.neg_one_pow, one_mul, show r + (r - 1) - i = 2 * r - 1 - i by omega]
  rw [h1, h2, h3, h4, mul_pow, ← pow_mul, C_pow]

/-- lowering the formal degree of the second polynomial -/
theorem Sub_lower {A B : R[X]} {j r i : ℕ} (hA : A.natDegree ≤ j + 1) (hB : B.natDegree ≤ r) (hr : r ≤ j) (hi : i ≤ r) :
    Sub A B (j + 1) j i = C (A.coeff (j + 1) ^ (j - r)) * Sub A B (j + 1) r i := by
  unfold Sub
  rw [show j + 1 + j - i = (j + 1 + r - i) + (j - r) by omega, show j - i = (r - i) + (j - r) by omega,
    SB_dropF_pow (M := j + 1) (by omega) hA (by omega) (by omega), C_pow]

theorem Sub_gap {A B : R[X]} {j i : ℕ} (hA : A.natDegree ≤ j + 1) (hB : B.natDegree < i) (hi : i < j) : Sub A B (j + 1) j i = 0 := by
  rw [Sub_lower hA hB.le hi.le le_rfl]
  unfold Sub
  rw [Nat.sub_self, SB_left _ _ A 0, show j + 1 + i - i = j + 1 by omega, SB_zero (by omega) (by simp) (by omega), mul_zero]

variable [IsDomain R]

theorem C_ne {c : R} (h : c ≠ 0) : (C c : R[X]) ≠ 0 := C_ne_zero.2 h

/-- from one level to the next -/
theorem Sub_step {A B Q P Sr S' : R[X]} {S : ℕ → R[X]} {j r : ℕ} {x y : R} (hx : x ≠ 0) (hy : y ≠ 0) (hB : B ≠ 0) (hr : B.natDegree = r) (hr1 : 1 ≤ r) (hrj : r ≤ j)
    (hdiv : C (B.leadingCoeff ^ (j - r + 2)) * A = Q * B + P) (hQ : Q.natDegree ≤ j + 1 - r) (hP : P.natDegree < r)
    (h : ∀ i < r, C (y ^ (r - i)) * S i = C (x ^ ((j - r) * (r - 1 - i))) * Sub A B (j + 1) r i)
    (hSr : C (x ^ (j - r)) * Sr = C (B.leadingCoeff ^ (j - r)) * B) (hS' : S' = S (r - 1)) :
    (C y * S' = (-1) ^ (j - r) * P) ∧ Sr.natDegree = r ∧ Sr ≠ 0 ∧ (∀ i < r, C (Sr.leadingCoeff ^ (2 * (r - 1 - i))) * S i = Sub Sr S' r (r - 1) i) := by
  have hb : B.leadingCoeff ≠ 0 := leadingCoeff_ne_zero.2 hB
  have hcore : ∀ i < r, C (B.leadingCoeff ^ ((j - r + 2) * (r - i))) * Sub A B (j + 1) r i = (-1) ^ ((r - i) * (j - r + 2)) * C (B.leadingCoeff ^ (j - r + 2)) * Sub B P r (r - 1) i :=
    fun i hi => Sub_core hr (by omega) (by omega) hdiv hQ hP hi
  have hs2 : ∀ k : ℕ, ((-1 : R[X]) ^ (k * (j - r + 2))) = (-1) ^ (k * (j - r)) := by
    intro k
    rw [Nat.mul_add, pow_add, pow_mul (-1 : R[X]) k 2, mul_comm k, pow_mul, ← pow_mul (-1 : R[X]) k 2, mul_comm k 2, pow_mul (-1 : R[X]) 2 k]
    simp
  have h1 : C y * S' = (-1) ^ (j - r) * P := by
    have e1 := h (r - 1) (by omega)
    have e2 := hcore (r - 1) (by omega)
    obtain ⟨q, rfl⟩ : ∃ q, r = q + 1 := ⟨r - 1, by omega⟩
    rw [hs2, show q + 1 - (q + 1 - 1) = 1 by omega, show q + 1 - 1 = q by omega, mul_one, Sub_last, one_mul] at e2
    rw [show q + 1 - (q + 1 - 1) = 1 by omega, show q + 1 - 1 = q by omega, pow_one, Nat.sub_self, Nat.mul_zero, pow_zero, C_1, one_mul] at e1
    rw [hS', show q + 1 - 1 = q by omega, e1]
    refine mul_left_cancel₀ (C_ne (pow_ne_zero (j - (q + 1) + 2) hb)) ?_
    rw [e2]
    ring
  have hlead : x ^ (j - r) * Sr.leadingCoeff = B.leadingCoeff ^ (j - r) * B.leadingCoeff := by
    have := congrArg leadingCoeff hSr
    simpa only [leadingCoeff_mul, leadingCoeff_C] using this
  have hSr0 : Sr ≠ 0 := by
    rintro rfl
    rw [mul_zero] at hSr
    exact mul_ne_zero (C_ne (pow_ne_zero _ hb)) hB hSr.symm
  have hSrd : Sr.natDegree = r := by
    have := congrArg natDegree hSr
    rwa [natDegree_C_mul (pow_ne_zero _ hx), natDegree_C_mul (pow_ne_zero _ hb), hr] at this
  refine ⟨h1, hSrd, hSr0, fun i hi => ?_⟩
  obtain ⟨k, rfl⟩ : ∃ k, r = k + 1 + i := ⟨r - 1 - i, by omega⟩
  have e2 := hcore i hi
  have e1 := h i hi
  rw [hs2] at e2
  rw [show k + 1 + i - i = k + 1 by omega] at e1 e2
  rw [show k + 1 + i - 1 - i = k by omega] at e1 ⊢
  obtain ⟨d, hd⟩ : ∃ d, d = j - (k + 1 + i) := ⟨_, rfl⟩
  rw [← hd] at e1 e2 h1 hSr hlead
  have e3 : Sub (C (x ^ d) * Sr) (C y * S') (k + 1 + i) (k + i) i = Sub (C (B.leadingCoeff ^ d) * B) ((-1) ^ d * P) (k + 1 + i) (k + i) i := by rw [hSr, h1]
  rw [show ((-1 : R[X]) ^ d) = C ((-1) ^ d) by simp, Sub_smulF, Sub_smulG, Sub_smulF, Sub_smulG, show k + i - i = k by omega, show k + 1 + i - i = k + 1 by omega] at e3
  rw [show k + 1 + i - 1 = k + i by omega] at e2 ⊢
  obtain ⟨U, hU⟩ : ∃ U, U = Sub Sr S' (k + 1 + i) (k + i) i := ⟨_, rfl⟩
  obtain ⟨V, hV⟩ : ∃ V, V = Sub B P (k + 1 + i) (k + i) i := ⟨_, rfl⟩
  obtain ⟨T, hT⟩ : ∃ T, T = Sub A B (j + 1) (k + 1 + i) i := ⟨_, rfl⟩
  rw [← hU, ← hV] at e3
  rw [← hT] at e1
  rw [← hT, ← hV] at e2
  rw [← hU]
  obtain ⟨b, hbb⟩ : ∃ b, b = B.leadingCoeff := ⟨_, rfl⟩
  obtain ⟨s, hss⟩ : ∃ s, s = Sr.leadingCoeff := ⟨_, rfl⟩
  rw [← hbb] at e2 e3 hlead hb
  rw [← hss] at hlead
  rw [← hss]
  have e2' : C (b ^ ((d + 2) * k)) * T = C ((-1) ^ (d * (k + 1))) * V := by
    refine mul_left_cancel₀ (C_ne (pow_ne_zero (d + 2) hb)) ?_
    rw [← mul_assoc, ← C_mul, ← pow_add, show d + 2 + (d + 2) * k = (d + 2) * (k + 1) by ring, e2]
    simp only [map_pow, map_neg, map_one]
    rw [Nat.mul_comm (k + 1) d]
    ring
  have hsq : x ^ (2 * d * k) * s ^ (2 * k) = b ^ (d * k + (d + 2) * k) := by
    have := congrArg (· ^ (2 * k)) hlead
    simp only [mul_pow, ← pow_mul] at this
    rw [show 2 * d * k = d * (2 * k) by ring, this, ← pow_add]
    congr 1
    ring
  refine mul_left_cancel₀ (mul_ne_zero (C_ne (pow_ne_zero (d * k) hx)) (C_ne (pow_ne_zero (k + 1) hy))) ?_
  have hsq' : (C (x ^ (2 * d * k)) : R[X]) * C (s ^ (2 * k)) = C (b ^ (d * k)) * C (b ^ ((d + 2) * k)) := by rw [← C_mul, hsq, ← C_mul, ← pow_add]
  have hxx : (C (x ^ (2 * d * k)) : R[X]) = C (x ^ (d * k)) * C (x ^ (d * k)) := by rw [← C_mul, ← pow_add]; congr 2; ring
  rw [← pow_mul, ← pow_mul, ← pow_mul] at e3
  calc C (x ^ (d * k)) * C (y ^ (k + 1)) * (C (s ^ (2 * k)) * S i)
      = C (x ^ (d * k)) * C (s ^ (2 * k)) * (C (y ^ (k + 1)) * S i) := by ring
    _ = C (x ^ (d * k)) * C (s ^ (2 * k)) * (C (x ^ (d * k)) * T) := by rw [e1]
    _ = C (x ^ (2 * d * k)) * C (s ^ (2 * k)) * T := by rw [hxx]; ring
    _ = C (b ^ (d * k)) * (C (b ^ ((d + 2) * k)) * T) := by rw [hsq']; ring
    _ = C (b ^ (d * k)) * (C ((-1) ^ (d * (k + 1))) * V) := by rw [e2']
    _ = C (x ^ (d * k)) * C (y ^ (k + 1)) * U := by rw [mul_assoc, e3]

theorem natDegree_le_of_sign {y : R} (hy : y ≠ 0) {S P : R[X]} {d r : ℕ} (h : C y * S = (-1) ^ d * P) (hP : P.natDegree < r) : S.natDegree ≤ r - 1 := by
  have := congrArg natDegree h
  rw [natDegree_C_mul hy, show ((-1 : R[X]) ^ d) = C ((-1) ^ d) by simp] at this
  have h2 := natDegree_C_mul_le ((-1 : R) ^ d) P
  omega

/-- the state of the chain computation: `A` is the `(j+1)`-th and `B` the `j`-th subresultant -/
structure Level (S : ℕ → R[X]) (j c : ℕ) (A B : R[X]) : Prop where
  degA : A.natDegree = j + 1
  degB : B.natDegree ≤ j
  last : S j = B
  eqn : ∀ i < j, C (A.leadingCoeff ^ (c * (j - i))) * S i = Sub A B (j + 1) j i

theorem Level.ne {S : ℕ → R[X]} {j c : ℕ} {A B : R[X]} (h : Level S j c A B) : A ≠ 0 := by
  rintro rfl
  have := h.degA
  simp at this

theorem Level.lc {S : ℕ → R[X]} {j c : ℕ} {A B : R[X]} (h : Level S j c A B) : A.leadingCoeff ≠ 0 := leadingCoeff_ne_zero.2 h.ne

/-- a zero subresultant ends the chain -/
theorem Level.zero {S : ℕ → R[X]} {j c : ℕ} {A B : R[X]} (h : Level S j c A B) (hB : B = 0) : ∀ i ≤ j, S i = 0 := by
  intro i hi
  rcases Nat.lt_or_eq_of_le hi with hlt | rfl
  · have e := h.eqn i hlt
    have : Sub A B (j + 1) j i = 0 := by
      rw [hB, show (0 : R[X]) = C 0 * 0 by simp, Sub_smulG, zero_pow (by omega)]
      simp
    rw [this] at e
    exact (mul_eq_zero.1 e).resolve_left (C_ne (pow_ne_zero _ h.lc))
  · rw [h.last, hB]

/-- the defective case: the subresultants between `deg B` and `j` vanish -/
theorem Level.gap {S : ℕ → R[X]} {j c : ℕ} {A B : R[X]} (h : Level S j c A B) {i : ℕ} (h1 : B.natDegree < i) (h2 : i < j) : S i = 0 := by
  have e := h.eqn i h2
  rw [Sub_gap h.degA.le h1 h2] at e
  exact (mul_eq_zero.1 e).resolve_left (C_ne (pow_ne_zero _ h.lc))

theorem Level.low {S : ℕ → R[X]} {j c : ℕ} {A B : R[X]} (h : Level S j c A B) {i : ℕ} (hi : i ≤ B.natDegree) (hij : i < j) :
    C (A.leadingCoeff ^ (c * (j - i))) * S i = C (A.leadingCoeff ^ (j - B.natDegree)) * Sub A B (j + 1) B.natDegree i := by
  rw [h.eqn i hij, Sub_lower h.degA.le le_rfl h.degB hi, leadingCoeff, h.degA]

/-- the subresultant at the degree of `B` -/
theorem Level.atDeg {S : ℕ → R[X]} {j c : ℕ} {A B : R[X]} (h : Level S j c A B) (hc : 1 ≤ c) :
    C (A.leadingCoeff ^ ((c - 1) * (j - B.natDegree))) * S B.natDegree = C (B.leadingCoeff ^ (j - B.natDegree)) * B := by
  rcases Nat.lt_or_eq_of_le h.degB with hlt | heq
  · have e := h.low le_rfl hlt
    have e2 : Sub A B (j + 1) B.natDegree B.natDegree = C (B.leadingCoeff ^ (j - B.natDegree)) * B := by
      unfold Sub
      rw [Nat.sub_self, show j + 1 + B.natDegree - B.natDegree = B.natDegree + (j - B.natDegree + 1) by omega, show j + 1 - B.natDegree = j - B.natDegree + 1 by omega]
      exact SB_powG _ rfl
    rw [e2] at e
    refine mul_left_cancel₀ (C_ne (pow_ne_zero (j - B.natDegree) h.lc)) ?_
    rw [← e, ← mul_assoc, ← C_mul, ← pow_add]
    congr 3
    obtain ⟨d, rfl⟩ : ∃ d, c = d + 1 := ⟨c - 1, by omega⟩
    rw [Nat.add_sub_cancel]
    ring
  · rw [heq, Nat.sub_self, Nat.mul_zero, pow_zero, pow_zero, h.last]

/-- one step of the main loop -/
theorem Level.step {S : ℕ → R[X]} {j : ℕ} {A B Q P : R[X]} (h : Level S j 2 A B) (hB : B ≠ 0) (hr1 : 1 ≤ B.natDegree)
    (hdiv : C (B.leadingCoeff ^ (j - B.natDegree + 2)) * A = Q * B + P) (hQ : Q.natDegree ≤ j + 1 - B.natDegree) (hP : P.natDegree < B.natDegree) :
    C (A.leadingCoeff ^ (j - B.natDegree + 2)) * S (B.natDegree - 1) = (-1) ^ (j - B.natDegree) * P ∧ Level S (B.natDegree - 1) 2 (S B.natDegree) (S (B.natDegree - 1)) := by
  have ha := h.lc
  obtain ⟨h1, h2, -, h4⟩ := Sub_step (S := S) (x := A.leadingCoeff) (y := A.leadingCoeff ^ (j - B.natDegree + 2)) (Sr := S B.natDegree) (S' := S (B.natDegree - 1)) ha (pow_ne_zero _ ha) hB rfl hr1 h.degB hdiv hQ hP
    (by
      intro i hi
      have e := h.low hi.le (lt_of_lt_of_le hi h.degB)
      have hd := h.degB
      obtain ⟨r, hr⟩ : ∃ r, r = B.natDegree := ⟨_, rfl⟩
      rw [← hr] at e hi hd ⊢
      obtain ⟨k, rfl⟩ : ∃ k, r = k + 1 + i := ⟨r - 1 - i, by omega⟩
      obtain ⟨d, rfl⟩ : ∃ d, j = d + (k + 1 + i) := ⟨j - (k + 1 + i), by omega⟩
      rw [show d + (k + 1 + i) - i = d + (k + 1) by omega, show d + (k + 1 + i) - (k + 1 + i) = d by omega] at e
      rw [show k + 1 + i - i = k + 1 by omega, show d + (k + 1 + i) - (k + 1 + i) = d by omega, show k + 1 + i - 1 - i = k by omega, ← pow_mul]
      refine mul_left_cancel₀ (C_ne (pow_ne_zero (2 * d) ha)) ?_
      rw [← mul_assoc, ← C_mul, ← pow_add, show 2 * d + (d + 2) * (k + 1) = d * (k + 1) + 2 * (d + (k + 1)) by ring, pow_add, C_mul, mul_assoc, e, ← mul_assoc, ← C_mul, ← pow_add, ← mul_assoc, ← C_mul, ← pow_add]
      congr 3
      ring)
    (by simpa using h.atDeg (by norm_num)) rfl
  have hdeg : (S (B.natDegree - 1)).natDegree ≤ B.natDegree - 1 := natDegree_le_of_sign (pow_ne_zero _ ha) h1 hP
  exact ⟨h1, ⟨by rw [h2]; omega, hdeg, rfl, fun i hi => by
    rw [h4 i (by omega)]
    congr 1
    omega⟩⟩

/-- the first step for operands of the same degree -/
theorem Level.step1 {S : ℕ → R[X]} {j : ℕ} {A B Q P : R[X]} (h : Level S j 1 A B) (hB : B ≠ 0) (hr1 : 1 ≤ B.natDegree)
    (hdiv : C (B.leadingCoeff ^ (j - B.natDegree + 2)) * A = Q * B + P) (hQ : Q.natDegree ≤ j + 1 - B.natDegree) (hP : P.natDegree < B.natDegree) :
    C A.leadingCoeff * S (B.natDegree - 1) = (-1) ^ (j - B.natDegree) * P ∧ Level S (B.natDegree - 1) 2 (S B.natDegree) (S (B.natDegree - 1)) := by
  have ha := h.lc
  obtain ⟨h1, h2, -, h4⟩ := Sub_step (S := S) (x := 1) (y := A.leadingCoeff) (Sr := S B.natDegree) (S' := S (B.natDegree - 1)) one_ne_zero ha hB rfl hr1 h.degB hdiv hQ hP
    (by
      intro i hi
      have e := h.low hi.le (lt_of_lt_of_le hi h.degB)
      have hd := h.degB
      obtain ⟨r, hr⟩ : ∃ r, r = B.natDegree := ⟨_, rfl⟩
      rw [← hr] at e hi hd ⊢
      obtain ⟨k, rfl⟩ : ∃ k, r = k + 1 + i := ⟨r - 1 - i, by omega⟩
      obtain ⟨d, rfl⟩ : ∃ d, j = d + (k + 1 + i) := ⟨j - (k + 1 + i), by omega⟩
      rw [show d + (k + 1 + i) - i = d + (k + 1) by omega, show d + (k + 1 + i) - (k + 1 + i) = d by omega] at e
      rw [show k + 1 + i - i = k + 1 by omega, one_pow, C_1, one_mul]
      refine mul_left_cancel₀ (C_ne (pow_ne_zero d ha)) ?_
      rw [← e, ← mul_assoc, ← C_mul, ← pow_add, one_mul])
    (by simpa using h.atDeg le_rfl) rfl
  have hdeg : (S (B.natDegree - 1)).natDegree ≤ B.natDegree - 1 := natDegree_le_of_sign ha h1 hP
  exact ⟨h1, ⟨by rw [h2]; omega, hdeg, rfl, fun i hi => by
    rw [h4 i (by omega)]
    congr 1
    omega⟩⟩

/-- operands of different degrees: the first level -/
theorem start_lt {F G Q P : R[X]} {m l : ℕ} (hm : F.natDegree = m) (hl : G.natDegree = l) (hl1 : 1 ≤ l) (hlm : l < m)
    (hdiv : C (G.leadingCoeff ^ (m + 1 - l)) * F = Q * G + P) (hQ : Q.natDegree ≤ m - l) (hP : P.natDegree < l) :
    Sub F G m l (l - 1) = (-1) ^ (m - 1 - l) * P ∧ Sub F G m l l = C (G.leadingCoeff ^ (m - 1 - l)) * G ∧ Level (Sub F G m l) (l - 1) 2 (Sub F G m l l) (Sub F G m l (l - 1)) := by
  have hG : G ≠ 0 := by
    rintro rfl
    rw [natDegree_zero] at hl
    omega
  have hS : Sub F G m l l = C (G.leadingCoeff ^ (m - 1 - l)) * G := by
    unfold Sub
    rw [Nat.sub_self, show m + l - l = G.natDegree + (m - l) by omega]
    exact SB_powG _ (by omega)
  obtain ⟨h1, h2, -, h4⟩ := Sub_step (A := F) (B := G) (j := m - 1) (S := Sub F G m l) (x := 1) (y := 1) (Sr := Sub F G m l l) (S' := Sub F G m l (l - 1)) one_ne_zero one_ne_zero hG hl hl1 (by omega)
    (by rw [← hdiv]; congr 3; omega) (by omega) hP
    (by intro i hi; simp only [one_pow, C_1, one_mul]; rw [show m - 1 + 1 = m by omega])
    (by rw [one_pow, C_1, one_mul, hS]) rfl
  rw [C_1, one_mul] at h1
  refine ⟨h1, hS, ⟨by rw [h2]; omega, ?_, rfl, fun i hi => ?_⟩⟩
  · rw [h1, show ((-1 : R[X]) ^ (m - 1 - l)) = C ((-1) ^ (m - 1 - l)) by simp]
    exact (natDegree_C_mul_le _ _).trans (by omega)
  · rw [h4 i (by omega)]
    congr 1
    omega

/-- operands of the same degree: the first level -/
theorem start_eq {F G Q P : R[X]} {m : ℕ} (hm : F.natDegree = m) (hl : G.natDegree = m) (hm1 : 1 ≤ m)
    (hdiv : C (G.leadingCoeff ^ 1) * F = Q * G + P) (hQ : Q.natDegree ≤ 0) (hP : P.natDegree < m) :
    Sub F G m m (m - 1) = -P ∧ Level (Sub F G m m) (m - 1) 1 G (Sub F G m m (m - 1)) := by
  have hG : G ≠ 0 := by
    rintro rfl
    rw [natDegree_zero] at hl
    omega
  have hg : G.leadingCoeff ≠ 0 := leadingCoeff_ne_zero.2 hG
  have hcore : ∀ i < m, C (G.leadingCoeff ^ (m - 1 - i)) * Sub F G m m i = Sub G (-P) m (m - 1) i := by
    intro i hi
    have e := Sub_core (M := m) (e := 1) hl le_rfl (by omega) hdiv (by omega) hP hi
    obtain ⟨k, rfl⟩ : ∃ k, m = k + 1 + i := ⟨m - 1 - i, by omega⟩
    rw [show k + 1 + i - i = k + 1 by omega] at e
    rw [show k + 1 + i - 1 - i = k by omega, show (-P : R[X]) = C (-1) * P by simp, Sub_smulG, show k + 1 + i - i = k + 1 by omega]
    refine mul_left_cancel₀ (C_ne hg) ?_
    rw [← mul_assoc, ← C_mul, ← pow_succ']
    rw [one_mul] at e
    rw [e]
    simp
    ring
  have h1 : Sub F G m m (m - 1) = -P := by
    have e := hcore (m - 1) (by omega)
    obtain ⟨q, rfl⟩ : ∃ q, m = q + 1 := ⟨m - 1, by omega⟩
    rw [show q + 1 - 1 = q by omega, Nat.sub_self, pow_zero, C_1, one_mul, Sub_last] at e
    exact e
  refine ⟨h1, ⟨by omega, by rw [h1, natDegree_neg]; omega, rfl, fun i hi => ?_⟩⟩
  rw [one_mul, hcore i (by omega), h1]
  congr 1
  omega

end Res
end CLPoly
