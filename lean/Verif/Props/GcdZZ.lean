import Verif.Upoly.GcdZ
import Verif.Upoly.GcdLive
import Verif.Upoly.GcdDiverge
import Verif.Upoly.FirstPrime
import Verif.Upoly.Pseudo

/-!
# Properties C49 (univariate content) and C54: gcd of univariate polynomials over `ZZ`

`Upoly.Is f F` (Upoly/Basic.lean): the term list `f` is in normal form and is the polynomial `F ∈ ℤ[X]`.  `IsGcd D F G` (Dense/Div.lean): `D` divides both, and every
common divisor divides `D` — in `ℤ[X]`, so the integer content counts.  `PrevOK prev`: the function that stands for GMP's `mpz_prevprime` returns a smaller prime.
-/

namespace CLPoly
open Polynomial Upoly
open Dense (IsGcd)

/-! ## C54 -/

/-- **soundness**: whatever `polynomial_GCD(G, F)` returns — by the zero and single-term shortcuts, by the heuristic evaluation, or by the modular algorithm with any
number of unlucky primes — is a greatest common divisor in ℤ[X] -/
theorem C54_gcd_sound {prev : Nat → Option Nat} (hprev : PrevOK prev) {f g : UPoly ℤ} {F G : ℤ[X]} (hf : Is f F) (hg : Is g G)
    (lF : F.natDegree < 2 ^ 63 - 1) (lG : G.natDegree < 2 ^ 63 - 1) {rounds : Nat} {r : UPoly ℤ} (h : gcdZ prev rounds g f = some r) :
    ∃ D, Is r D ∧ IsGcd D G F := gcdZ_spec hprev hf hg lF lG h

/-- hence the result does not depend on the primes or on the path, except for the sign -/
theorem C54_gcd_unique {prev prev' : Nat → Option Nat} (hprev : PrevOK prev) (hprev' : PrevOK prev') {f g : UPoly ℤ} {F G : ℤ[X]} (hf : Is f F) (hg : Is g G)
    (lF : F.natDegree < 2 ^ 63 - 1) (lG : G.natDegree < 2 ^ 63 - 1) {n n' : Nat} {r r' : UPoly ℤ} (h : gcdZ prev n g f = some r) (h' : gcdZ prev' n' g f = some r') :
    r' = r ∨ r' = r.map fun t => (t.1, -t.2) := by
  obtain ⟨D, h1, h2⟩ := gcdZ_spec hprev hf hg lF lG h
  obtain ⟨E, h3, h4⟩ := gcdZ_spec hprev' hf hg lF lG h'
  obtain ⟨u, hu⟩ := associated_of_dvd_dvd (h4.2.2 D h2.1 h2.2.1) (h2.2.2 E h4.1 h4.2.1)
  obtain ⟨c, hc, e⟩ := Polynomial.isUnit_iff.1 u.isUnit
  rcases Int.isUnit_iff.1 hc with rfl | rfl
  · left
    refine is_unique h3 ?_
    rw [← hu, ← e]; simpa using h1
  · right
    refine is_unique h3 ?_
    rw [← hu, ← e]
    have := map_neg_is h1
    simpa using this

/-- the shortcuts always return: a zero operand, or an operand with a single term -/
theorem C54_gcd_shortcuts (prev : Nat → Option Nat) (rounds : Nat) {f g : UPoly ℤ} {F G : ℤ[X]} (hf : Is f F) (hg : Is g G) (hs : f.length ≤ 1 ∨ g.length ≤ 1) :
    ∃ r D, gcdZ prev rounds g f = some r ∧ Is r D ∧ IsGcd D G F := by
  unfold gcdZ
  by_cases f0 : f = []
  · rw [if_pos f0, (is_nil_iff hf).1 f0]
    exact ⟨_, _, rfl, hg, dvd_rfl, dvd_zero _, fun E h1 _ => h1⟩
  rw [if_neg f0]
  by_cases g0 : g = []
  · rw [if_pos g0, (is_nil_iff hg).1 g0]
    exact ⟨_, _, rfl, hf, dvd_zero _, dvd_rfl, fun E _ h2 => h2⟩
  rw [if_neg g0]
  have l1 := List.length_pos_iff.2 f0
  have l2 := List.length_pos_iff.2 g0
  have hs' : f.length = 1 ∨ g.length = 1 := by omega
  rw [if_pos hs']
  obtain ⟨D, d1, d2⟩ := gcdMono_is hf hg (fun h => f0 ((is_nil_iff hf).2 h)) (fun h => g0 ((is_nil_iff hg).2 h)) hs'
  exact ⟨_, D, rfl, d1, d2⟩

/-- the heuristic, on primitive operands, answers only with the primitive gcd of positive leading coefficient -/
theorem C54_gcdheu {f g h : UPoly ℤ} {F G : ℤ[X]} (hf : Is f F) (hg : Is g G) (pF : F.IsPrimitive) (pG : G.IsPrimitive) (e : gcdheu f g = some h) :
    ∃ H, Is h H ∧ H.IsPrimitive ∧ 0 < H.leadingCoeff ∧ IsGcd H F G := gcdheu_spec hf hg pF pG e

/-- the extended `polynomial_GCD(F, G, s, t)` over `ZZ` always returns; `s·F + t·G = d`, the leading coefficient is positive, and `d` divides nonzero constant multiples
of `F` and of `G`, i.e. it is a gcd over ℚ -/
theorem C54_extended_gcd {f g : UPoly ℤ} {F G : ℤ[X]} (hf : Is f F) (hg : Is g G) (f0 : F ≠ 0) (g0 : G ≠ 0) :
    ∃ d s t D S T, extGcdZ f g = some (d, s, t) ∧ Is d D ∧ Is s S ∧ Is t T ∧ 0 < D.leadingCoeff ∧ S * F + T * G = D ∧
      (∃ a : ℤ, a ≠ 0 ∧ D ∣ C a * F) ∧ (∃ b : ℤ, b ≠ 0 ∧ D ∣ C b * G) ∧ ∀ E, E ∣ F → E ∣ G → E ∣ D := by
  obtain ⟨r, s, t, D, S, T, h1, h2, h3, h4, h5, h6, h7, h8⟩ := extGcdZ_spec hf hg f0 g0
  exact ⟨r, s, t, D, S, T, h1, h2, h3, h4, h5, h6, h7, h8, fun E e1 e2 => h6 ▸ dvd_add (dvd_mul_of_dvd_right e1 _) (dvd_mul_of_dvd_right e2 _)⟩

/-- it is not a gcd over ℤ: for `F = x` and `G = 2` it returns `2`, which does not divide `x` (`polynomial_GCD(F, G)` returns `1`) -/
theorem C54_extended_gcd_not_over_Z : (∃ s t, extGcdZ [(1, 1)] [(0, 2)] = some ([(0, 2)], s, t)) ∧ gcdMono [(0, 2)] [(1, 1)] = [(0, 1)] :=
  ⟨⟨[], [(0, 1)], by decide +kernel⟩, by decide +kernel⟩

/-! non-vacuity: `(x+1)(x+2)` and `(x+1)(x-3)` by the heuristic, with content 2 and 4 -/

example : gcdZ (fun _ => none) 0 [(2, 2), (1, 6), (0, 4)] [(2, 4), (1, -8), (0, -12)] = some [(1, 2), (0, 2)] := by decide +kernel
example : Is ([(2, 2), (1, 6), (0, 4)] : UPoly ℤ) (toPoly [(2, 2), (1, 6), (0, 4)]) := ⟨⟨by simp [Upoly.comp], by simp⟩, rfl⟩

/-! ## C56 -/

/-- **liveness**: let `F = a·F'`, `G = b·G'` with primitive `F'`, `G'`, let `D` be their gcd and `T = u·D` its multiple whose leading coefficient is the gcd of the two
leading coefficients.  If two primes among the first ones that `mpz_prevprime` produces show the degree of `D` (`Lucky`: they divide no leading coefficient and the images
have no common divisor of larger degree), and all primes up to there are more than twice every coefficient of `T`, then `polynomial_GCD(G, F)` returns.

Missing: coefficients of `T` of `2^63` and more.  There the claim is false (`C56_gcd_never_returns_refuted`): the loop can replace the accumulated image by its primitive part after a failed trial division
(polynomial_gcd.cc 314–332), which is no longer congruent to the gcd. -/
theorem C56_gcd_returns_partial {prev : Nat → Option Nat} (hprev : PrevOK prev) {f g : UPoly ℤ} {a b : ℤ} {F' G' D T : ℤ[X]} {u : ℤ}
    (hf : Is f (C a * F')) (hg : Is g (C b * G')) (ha : 0 < a) (hb : 0 < b) (pF : F'.IsPrimitive) (pG : G'.IsPrimitive)
    (lF : F'.natDegree < 2 ^ 63 - 1) (lG : G'.natDegree < 2 ^ 63 - 1)
    (hD : IsGcd D F' G') (hT : T = C u * D) (hlead : T.leadingCoeff = Int.gcd F'.leadingCoeff G'.leadingCoeff)
    {primes : List ℕ} (hprimes : (firstPrime :: primes).IsChain (fun p q => prev p = some q))
    (hsmall : ∀ p ∈ firstPrime :: primes, ∀ i, 2 * |T.coeff i| < (p : ℤ))
    {p q : ℕ} (hpq : p ≠ q) (hp : p ∈ firstPrime :: primes) (hq : q ∈ firstPrime :: primes)
    (hp' : Lucky F' G' D.natDegree p) (hq' : Lucky F' G' D.natDegree q) :
    ∃ r, gcdZ prev (primes.length + 1) g f = some r := by
  unfold gcdZ
  by_cases f0 : f = []
  · rw [if_pos f0]; exact ⟨_, rfl⟩
  rw [if_neg f0]
  by_cases g0 : g = []
  · rw [if_pos g0]; exact ⟨_, rfl⟩
  rw [if_neg g0]
  have F0 : C a * F' ≠ 0 := fun e => f0 ((is_nil_iff hf).2 e)
  have G0 : C b * G' ≠ 0 := fun e => g0 ((is_nil_iff hg).2 e)
  by_cases h1 : f.length = 1 ∨ g.length = 1
  · rw [if_pos h1]; exact ⟨_, rfl⟩
  rw [if_neg h1]
  simp only
  have key : ∀ {h : UPoly ℤ} {c : ℤ} {H : ℤ[X]}, Is h (C c * H) → 0 < c → H.IsPrimitive → h ≠ [] → h.length ≠ 1 → Is (divCont h) H := by
    intro h c H hh hc pH h0 hl
    have H0 : C c * H ≠ 0 := fun e => h0 ((is_nil_iff hh).2 e)
    obtain ⟨K, k1, k2, k3⟩ := divCont_is hh H0
    have hcp : 0 < cont h := by
      have h1 := cont_nonneg (f := h) hl
      have h2 := cont_ne_zero hh H0
      omega
    have h3 : c ∣ cont h := by
      rw [← C_dvd_iff_cont hh H0]; exact dvd_mul_right _ _
    have h4 : cont h ∣ c := by
      have : (C (cont h) : ℤ[X]) ∣ C c * H := by rw [k2]; exact dvd_mul_right _ _
      rw [C_dvd_iff_dvd_coeff] at this
      have hc2 := (Polynomial.isPrimitive_iff_content_eq_one.1 pH)
      have h5 : cont h ∣ (C c * H).content := Polynomial.dvd_content_iff_C_dvd.2 (by rw [C_dvd_iff_dvd_coeff]; exact this)
      rw [content_C_mul, hc2, mul_one] at h5
      exact h5.trans (normalize_associated c).dvd
    have h5 : cont h = c := le_antisymm (Int.le_of_dvd hc h4) (Int.le_of_dvd hcp h3)
    rw [h5] at k2
    rw [mul_left_cancel₀ (C_ne_zero.2 hc.ne') k2]
    exact k1
  have f1 := key hf ha pF f0 (fun h => h1 (.inl h))
  have g1 := key hg hb pG g0 (fun h => h1 (.inr h))
  have hc0 : ((Int.gcd (cont f) (cont g) : ℕ) : ℤ) ≠ 0 := by
    intro e
    have : Int.gcd (cont f) (cont g) = 0 := by exact_mod_cast e
    exact cont_ne_zero hf F0 (Int.gcd_eq_zero_iff.1 this).1
  cases gcdheu (divCont f) (divCont g) with
  | some hh => exact ⟨_, rfl⟩
  | none =>
    simp only
    refine gcdLoop_liveA hprev (D0 := D) (T0 := T) (u := u) ⟨f1, g1, pF, pG, lF, lG, hD, hT, hlead⟩ hc0 primes ⟨firstPrime, [], 2 ^ 63 - 1, 0⟩ hprimes firstPrime_prime
      (by decide) hsmall ?_ ⟨.inl rfl, ?_⟩
    · show ∃ a b l, (firstPrime :: primes) = a ++ l ++ b ∧ _
      have split : ∀ {p q : ℕ}, p ∈ firstPrime :: primes → q ∈ firstPrime :: primes → p ≠ q → ∃ a b l, (firstPrime :: primes) = a ++ l ++ b ∧
          ((p ∈ a ∧ q ∈ l) ∨ (q ∈ a ∧ p ∈ l)) := by
        intro p q hp hq hne
        obtain ⟨s, t, e⟩ := List.append_of_mem hp
        rw [e, List.mem_append, List.mem_cons] at hq
        rcases hq with h | h | h
        · exact ⟨s, [], p :: t, by rw [e]; simp, .inr ⟨h, by simp⟩⟩
        · exact absurd h.symm hne
        · exact ⟨s ++ [p], [], t, by rw [e]; simp, .inl ⟨by simp, h⟩⟩
      obtain ⟨x, y, z, e, h | h⟩ := split hp hq hpq
      · exact ⟨x, y, z, e, ⟨p, h.1, hp'⟩, ⟨q, h.2, hq'⟩⟩
      · exact ⟨x, y, z, e, ⟨q, h.1, hq'⟩, ⟨p, h.2, hp'⟩⟩
    · have := natDegree_le_of_dvd hD.1 pF.ne_zero
      show (D.natDegree : ℤ) < 2 ^ 63 - 1
      omega

/-- non-vacuity: `F = G = 3x + 3`, with the two primes below `2^64` -/
example : ∃ r, gcdZ (fun n => if n = firstPrime then some secondPrime else none) 2 [(1, 3), (0, 3)] [(1, 3), (0, 3)] = some r := by
  have e : (toPoly [(1, 3), (0, 3)] : ℤ[X]) = C 3 * (X + C 1) := by
    simp only [toPoly, List.map_cons, List.map_nil, List.sum_cons, List.sum_nil, add_zero, ← C_mul_X_pow_eq_monomial, pow_one, pow_zero, mul_one, mul_add, ← C_mul]
  have h : Is ([(1, 3), (0, 3)] : UPoly ℤ) (C 3 * (X + C 1)) := ⟨⟨by simp [Upoly.comp], by simp⟩, e⟩
  have hL : ∀ p : ℕ, p.Prime → Lucky (X + C 1) (X + C 1) (X + C 1 : ℤ[X]).natDegree p := by
    intro p hp
    haveI := Fact.mk hp
    refine ⟨by rw [leadingCoeff_X_add_C]; simp, by rw [leadingCoeff_X_add_C]; simp, fun E h1 _ => ?_⟩
    rw [Polynomial.map_add, map_X, map_C] at h1
    have := natDegree_le_of_dvd h1 (X_add_C_ne_zero _)
    rw [natDegree_X_add_C] at this ⊢
    exact this
  have hs : ∀ p : ℕ, 2 < p → ∀ i, 2 * |((X + C 1 : ℤ[X])).coeff i| < (p : ℤ) := by
    intro p hp i
    have : |((X + C 1 : ℤ[X])).coeff i| ≤ 1 := by
      rcases i with _ | _ | i
      · simp
      · simp [coeff_one]
      · simp [coeff_one, coeff_X]
    omega
  refine C56_gcd_returns_partial (primes := [secondPrime]) ?_ h h (by norm_num) (by norm_num) (monic_X_add_C 1).isPrimitive (monic_X_add_C 1).isPrimitive
    (by rw [natDegree_X_add_C]; norm_num) (by rw [natDegree_X_add_C]; norm_num) (D := X + C 1) (T := X + C 1) (u := 1) ⟨dvd_rfl, dvd_rfl, fun E h _ => h⟩ (by simp)
    (by rw [leadingCoeff_X_add_C]; rfl) (by simp) ?_ (p := firstPrime) (q := secondPrime) (by decide) (by simp) (by simp) (hL _ firstPrime_prime) (hL _ secondPrime_prime)
  · intro n q hq
    simp only [Option.ite_none_right_eq_some, Option.some.injEq] at hq
    rw [hq.1, ← hq.2]
    exact ⟨by decide, secondPrime_prime⟩
  · intro p hp
    simp only [List.mem_cons, List.not_mem_nil, or_false] at hp
    rcases hp with rfl | rfl
    · exact hs _ (by decide)
    · exact hs _ (by decide)

/-- C56 is false.  For `F = 2x + N`, `N = (2^64 - 59)(2^64 - 83)` the product of the first two primes of the loop, `polynomial_GCD(F, F)` does not return, whatever the later primes are:
both images are `2x`, the candidate `x` fails the trial division, but stays behind as the accumulated image, which is never again congruent to the gcd modulo `N`. -/
theorem C56_gcd_never_returns_refuted {prev : Nat → Option Nat} (hprev : PrevOK prev) (h2 : prev (2 ^ 64 - 59) = some (2 ^ 64 - 83)) (fuel : ℕ) :
    gcdZ prev fuel [(1, 2), (0, (2 ^ 64 - 59) * (2 ^ 64 - 83))] [(1, 2), (0, (2 ^ 64 - 59) * (2 ^ 64 - 83))] = none := by
  have h := lost_gcd hprev (by rw [show firstPrime = 2 ^ 64 - 59 by decide, h2]; decide) fuel
  have e : lostF = [(1, 2), (0, (2 ^ 64 - 59) * (2 ^ 64 - 83))] := by decide +kernel
  rwa [e] at h

/-- there are such functions, and `2x + N` is a polynomial like any other: the gcd is `2x + N` itself -/
example : PrevOK (fun n => if n = firstPrime then some secondPrime else none) ∧ (fun n => if n = firstPrime then some secondPrime else none) (2 ^ 64 - 59) = some (2 ^ 64 - 83) := by
  refine ⟨fun n q hq => ?_, by decide +kernel⟩
  simp only [Option.ite_none_right_eq_some, Option.some.injEq] at hq
  rw [hq.1, ← hq.2]
  exact ⟨by decide, secondPrime_prime⟩
example : Is ([(1, 2), (0, (2 ^ 64 - 59) * (2 ^ 64 - 83))] : UPoly ℤ) (C 2 * X + C ((2 ^ 64 - 59) * (2 ^ 64 - 83))) := lin_is (by norm_num) (by norm_num)

/-! ## C49 -/

/-- `cont` of a nonzero univariate polynomial: a constant divides the polynomial iff it divides the content; `cont` itself divides it and what remains is primitive -/
theorem C49_univariate_content {f : UPoly ℤ} {F : ℤ[X]} (h : Is f F) (h0 : F ≠ 0) :
    (∀ d : ℤ, (∀ i, d ∣ F.coeff i) ↔ d ∣ cont f) ∧ (∃ H : ℤ[X], Is (divCont f) H ∧ F = C (cont f) * H ∧ ∀ d : ℤ, (∀ i, d ∣ H.coeff i) → d = 1 ∨ d = -1) := by
  refine ⟨fun d => ?_, ?_⟩
  · rw [← C_dvd_iff_cont h h0, C_dvd_iff_dvd_coeff]
  · obtain ⟨H, h1, h2, h3⟩ := divCont_is h h0
    exact ⟨H, h1, h2, fun d hd => Int.isUnit_iff.1 (h3 d (by rw [C_dvd_iff_dvd_coeff]; exact hd))⟩

/-- with two terms or more the content is positive; the content of the zero polynomial is `1`; with a single term it is the coefficient, sign included -/
theorem C49_univariate_content_sign {f : UPoly ℤ} {F : ℤ[X]} (h : Is f F) :
    (2 ≤ f.length → 0 < cont f) ∧ (f = [] → cont f = 1) ∧ (∀ t, f = [t] → cont f = t.2) := by
  refine ⟨fun hl => ?_, fun e => by rw [e]; rfl, fun t e => by rw [e]; rfl⟩
  have h1 := cont_nonneg (f := f) (by omega)
  have h2 := cont_ne_zero h fun e => by rw [(is_nil_iff h).2 e] at hl; simp at hl
  omega

/-- the primitive part with positive leading coefficient, as computed by the gcd -/
theorem C49_univariate_primitive_part {f : UPoly ℤ} {F : ℤ[X]} (h : Is f F) (h0 : F ≠ 0) :
    ∃ H, Is (ppPos f) H ∧ H.IsPrimitive ∧ 0 < H.leadingCoeff ∧ (F = C (cont f) * H ∨ F = C (-cont f) * H) := ppPos_is h h0

example : cont [(3, -6), (1, 4), (0, 10)] = 2 ∧ cont [(3, -6)] = -6 := by decide +kernel

end CLPoly
