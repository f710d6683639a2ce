import Verif.Upoly.GcdLive
import Verif.Upoly.FirstPrime

/-!
# A run of the univariate gcd that never returns

`F = 2x + N`, where `N` is the product of the first two primes of the loop.  Both images are `2x`; after the second one the candidate `x` is rejected by the trial division, but it
has already replaced the accumulated image `2x` (polynomial_gcd.cc 312–332).  From then on the accumulated image is `≡ x` modulo `N`, never a multiple of `F`.
-/

namespace CLPoly
namespace Upoly
open Polynomial

/-- the product of the first two primes the loop uses -/
def lostN : ℤ := firstPrime * secondPrime

/-- `2x + N` -/
def lostF : UPoly ℤ := [(1, 2), (0, lostN)]

theorem lin_is {a b : ℤ} (ha : a ≠ 0) (hb : b ≠ 0) : Is ([(1, a), (0, b)] : UPoly ℤ) (C a * X + C b) :=
  ⟨canon_cons.2 ⟨by simp [comp], ha, canon_cons.2 ⟨by simp, hb, canon_nil⟩⟩,
    by rw [toPoly_cons, toPoly_cons, toPoly_nil, add_zero, ← C_mul_X_pow_eq_monomial, pow_one, monomial_zero_left]⟩

theorem lostN_pos : 2 < lostN := by decide +kernel

theorem lostF_is : Is lostF (C 2 * X + C lostN) := lin_is (by norm_num) (by have := lostN_pos; omega)

theorem lin_coeff (a b : ℤ) : ∀ i, (C a * X + C b : ℤ[X]).coeff i = if i = 1 then a else if i = 0 then b else 0
  | 0 => by rw [coeff_add, coeff_C_mul, coeff_X, coeff_C]; simp
  | 1 => by rw [coeff_add, coeff_C_mul, coeff_X, coeff_C]; simp
  | i + 2 => by rw [coeff_add, coeff_C_mul, coeff_X, coeff_C]; simp

theorem eq_lin {P : ℤ[X]} (h : ∀ i, 2 ≤ i → P.coeff i = 0) : P = C (P.coeff 1) * X + C (P.coeff 0) := by
  ext i
  rw [lin_coeff]
  match i with
  | 0 => simp
  | 1 => simp
  | i + 2 => simp [h (i + 2) (by omega)]

theorem lin_natDegree {a b : ℤ} (ha : a ≠ 0) : (C a * X + C b : ℤ[X]).natDegree = 1 := natDegree_linear ha
theorem lin_lc {a b : ℤ} (ha : a ≠ 0) : (C a * X + C b : ℤ[X]).leadingCoeff = a := leadingCoeff_linear ha

theorem lin_prim {a b : ℤ} (h : IsCoprime a b) : (C a * X + C b : ℤ[X]).IsPrimitive := by
  intro r hr
  rw [C_dvd_iff_dvd_coeff] at hr
  have h1 := hr 1
  have h0 := hr 0
  rw [lin_coeff] at h1 h0
  exact h.isUnit_of_dvd' (by simpa using h1) (by simpa using h0)

theorem lostN_odd : IsCoprime 2 lostN := ⟨-(lostN / 2), 1, by decide +kernel⟩

theorem divHyp : LiveHyp lostF lostF (C 2 * X + C lostN) (C 2 * X + C lostN) (C 2 * X + C lostN) (C 2 * X + C lostN) 1 where
  hf := lostF_is
  hg := lostF_is
  pF := lin_prim lostN_odd
  pG := lin_prim lostN_odd
  lF := by rw [lin_natDegree (by norm_num)]; norm_num
  lG := by rw [lin_natDegree (by norm_num)]; norm_num
  gcd := ⟨dvd_rfl, dvd_rfl, fun _ h _ => h⟩
  hT := by simp
  lead := by rw [lin_lc (by norm_num)]; rfl

/-- the image of `2x + N` at an odd prime -/
theorem div_image {p : ℕ} (hp : p.Prime) (hW : p < W) (h2 : p ≠ 2) {d : ℤ} (hd : 1 ≤ d) :
    haveI := Fact.mk hp
    ∃ pm, gcdScaled p (polyMod p lostF) (polyMod p lostF) (((Int.gcd (lc lostF) (lc lostF) : ℕ) : ℤ) : ZMod p) d = some pm ∧
      Is pm ((C 2 * X + C lostN : ℤ[X]).map (Int.castRingHom (ZMod p))) ∧ deg pm = 1 := by
  haveI := Fact.mk hp
  have hl : (((C 2 * X + C lostN : ℤ[X]).leadingCoeff : ℤ) : ZMod p) ≠ 0 := by
    rw [lin_lc (by norm_num), Ne, ZMod.intCast_zmod_eq_zero_iff_dvd]
    intro h
    have h' : p ∣ 2 := by exact_mod_cast h
    exact h2 ((Nat.prime_dvd_prime_iff_eq hp Nat.prime_two).1 h')
  obtain ⟨D, d1, d2, d3, d4, d5, d6, d7⟩ := divHyp.image hp hW hl hl d
  obtain ⟨nF, zF, cF⟩ := natDegree_map_of_lc hl
  rw [lin_natDegree (by norm_num)] at nF d7
  have hle : D.natDegree ≤ 1 := by
    have := natDegree_le_of_dvd d1.1 zF
    rwa [nF] at this
  have hD := d7 hle
  cases e : gcdScaled p (polyMod p lostF) (polyMod p lostF) (((Int.gcd (lc lostF) (lc lostF) : ℕ) : ℤ) : ZMod p) d with
  | none => have := d5.1 e; omega
  | some pm =>
    have := d6 pm e
    rw [hD] at this
    exact ⟨pm, rfl, this, by rw [is_deg this, nF]⟩

theorem not_skip {p : ℕ} (hp : p.Prime) (h2 : p ≠ 2) : ¬ (Int.tmod (lc lostF) p = 0 ∨ Int.tmod (lc lostF) p = 0) := by
  rw [or_self, ← Int.dvd_iff_tmod_eq_zero]
  intro h
  have h' : p ∣ 2 := by
    have e : lc lostF = 2 := rfl
    rw [e] at h
    exact_mod_cast h
  exact h2 ((Nat.prime_dvd_prime_iff_eq hp Nat.prime_two).1 h')

/-- the state after the wrong candidate was kept -/
def Lost (s : GcdSt) : Prop :=
  s.d = 1 ∧ ∃ M : ℤ, 1 ≤ M ∧ s.PP = lostN * M ∧ IsCoprime lostN M ∧ (∀ q : ℕ, q.Prime → (q : ℤ) ∣ M → s.prime ≤ q) ∧
    ∃ a b : ℤ, Is s.pout (C a * X + C b) ∧ lostN ∣ a - 1 ∧ M ∣ a - 2 ∧ lostN ∣ b ∧ M ∣ b - lostN ∧ 2 * |a| ≤ lostN * M ∧ 2 * |b| ≤ lostN * M

/-- one step of the Chinese remainder algorithm on such a state; if the image is unchanged, it is `a x + N` with `a ≡ 1` modulo `N` -/
theorem lost_crt {s : GcdSt} (hp : s.prime.Prime) (h2 : s.prime ≠ 2) (hq : ∀ q : ℕ, q.Prime → (q : ℤ) ∣ s.PP → s.prime < q) (hs : Lost s) {pm : UPoly (ZMod s.prime)}
    (e2 : Is pm ((C 2 * X + C lostN : ℤ[X]).map (Int.castRingHom (ZMod s.prime)))) :
    Lost { s with pout := crtStep s.prime s.PP s.pout pm, PP := s.PP * s.prime } ∧ (crtStep s.prime s.PP s.pout pm = s.pout →
      ∃ a : ℤ, a ≠ 0 ∧ s.pout = [(1, a), (0, lostN)] ∧ IsCoprime a lostN ∧ ¬ (C a * X + C lostN : ℤ[X]) ∣ (C 2 * X + C lostN)) := by
  haveI := Fact.mk hp
  obtain ⟨hd, M, m1, m2, m3, m4, a, b, p1, a1, a2, b1, b2, ab, bb⟩ := hs
  have hN := lostN_pos
  have hr3 : (3 : ℤ) ≤ s.prime := by
    have := hp.two_le
    exact_mod_cast (show 3 ≤ s.prime by omega)
  have hcop : ¬ (s.prime : ℤ) ∣ s.PP := fun h => lt_irrefl _ (hq _ hp h)
  have hPP : 0 < s.PP := by rw [m2]; positivity
  have hL : ∀ i, |(C a * X + C b : ℤ[X]).coeff i| < s.PP := fun i => by
    rw [lin_coeff, m2]
    have h0 : 0 < lostN * M := by rw [← m2]; exact hPP
    split_ifs
    · have := abs_nonneg a; omega
    · have := abs_nonneg b; omega
    · simpa using h0
  obtain ⟨T, t1, t2, t3, t4, t5⟩ := crtStep_is p1 e2 hPP hL hcop
  have hcopNM : ¬ (s.prime : ℤ) ∣ lostN ∧ ¬ (s.prime : ℤ) ∣ M := ⟨fun h => hcop (by rw [m2]; exact h.mul_right _), fun h => hcop (by rw [m2]; exact h.mul_left _)⟩
  have hcr : ∀ {x : ℤ}, ¬ (s.prime : ℤ) ∣ x → IsCoprime x (s.prime : ℤ) := fun h => ((Nat.prime_iff_prime_int.1 hp).coprime_iff_not_dvd.2 h).symm
  have hT : T = C (T.coeff 1) * X + C (T.coeff 0) := eq_lin fun i hi => by
    by_contra hc
    rcases (t5 i).1 hc with h | h
    · rw [lin_coeff, if_neg (by omega), if_neg (by omega)] at h; exact h rfl
    · rw [coeff_map, lin_coeff, if_neg (by omega), if_neg (by omega)] at h; simp at h
  have hmod : ∀ i, (s.prime : ℤ) ∣ T.coeff i - (C 2 * X + C lostN : ℤ[X]).coeff i := fun i => by
    have := congrArg (fun q => q.coeff i) t3
    simp only [coeff_map] at this
    rw [← ZMod.intCast_zmod_eq_zero_iff_dvd, Int.cast_sub, sub_eq_zero]
    exact this
  have hm1 : (s.prime : ℤ) ∣ T.coeff 1 - 2 := by have := hmod 1; rw [lin_coeff] at this; simpa using this
  have hm0 : (s.prime : ℤ) ∣ T.coeff 0 - lostN := by have := hmod 0; rw [lin_coeff] at this; simpa using this
  have hp1 : s.PP ∣ T.coeff 1 - a := by have := t2 1; rw [lin_coeff] at this; simpa using this
  have hp0 : s.PP ∣ T.coeff 0 - b := by have := t2 0; rw [lin_coeff] at this; simpa using this
  have dN : lostN ∣ s.PP := by rw [m2]; exact dvd_mul_right _ _
  have dM : M ∣ s.PP := by rw [m2]; exact dvd_mul_left _ _
  have A1 : lostN ∣ T.coeff 1 - 1 := by have := dvd_add (dN.trans hp1) a1; simpa using this
  have A2 : M * s.prime ∣ T.coeff 1 - 2 := (hcr hcopNM.2).mul_dvd (by have := dvd_add (dM.trans hp1) a2; simpa using this) hm1
  have B1 : lostN ∣ T.coeff 0 := by have := dvd_add (dN.trans hp0) b1; simpa using this
  have B2 : M * s.prime ∣ T.coeff 0 - lostN := (hcr hcopNM.2).mul_dvd (by have := dvd_add (dM.trans hp0) b2; simpa using this) hm0
  have hcM : IsCoprime lostN (M * s.prime) := m3.mul_right (hcr hcopNM.1)
  have m5 : ∀ q : ℕ, q.Prime → (q : ℤ) ∣ M * s.prime → s.prime ≤ q := fun q hq1 hq2 => by
    rcases (Nat.prime_iff_prime_int.1 hq1).dvd_or_dvd hq2 with h | h
    · exact m4 q hq1 h
    · exact (((Nat.prime_dvd_prime_iff_eq hq1 hp).1 (by exact_mod_cast h))).ge
  have bound : ∀ i, 2 * |T.coeff i| ≤ lostN * (M * s.prime) := fun i => by have := t4 i; rw [m2, mul_assoc] at this; exact this
  have key : ∀ l : UPoly ℤ, Is l T → Lost { s with pout := l, PP := s.PP * s.prime } := fun l hl =>
    ⟨hd, M * s.prime, by nlinarith, by rw [m2, mul_assoc], hcM, m5, T.coeff 1, T.coeff 0, by rw [← hT]; exact hl, A1, A2, B1, B2, bound 1, bound 0⟩
  refine ⟨key _ t1, fun h3 => ?_⟩
  rw [h3] at t1
  -- the image did not change: the constant term is `N`
  have hTP : T = C a * X + C b := by rw [← t1.eq, ← p1.eq]
  have ha : T.coeff 1 = a := by rw [hTP, lin_coeff]; simp
  have hb : T.coeff 0 = b := by rw [hTP, lin_coeff]; simp
  rw [hb] at B1 B2
  obtain ⟨k, hk⟩ := B1
  have hk1 : k = 1 := by
    have h5 : M * s.prime ∣ k - 1 := by
      refine hcM.symm.dvd_of_dvd_mul_left ?_
      have : lostN * (k - 1) = b - lostN := by rw [hk]; ring
      rw [this]; exact B2
    have h6 : 2 * |k| ≤ M := by
      rw [hk, abs_mul, abs_of_pos (by omega : (0 : ℤ) < lostN)] at bb
      nlinarith
    by_contra hne
    have h7 := Int.le_of_dvd (abs_pos.2 (sub_ne_zero.2 hne)) ((dvd_abs _ _).2 h5)
    have h8 : |k - 1| ≤ |k| + 1 := by have := abs_sub k 1; simpa using this
    nlinarith
  rw [hk1, mul_one] at hk
  have ha0 : a ≠ 0 := fun h => by
    rw [ha, h] at A1
    have := Int.le_of_dvd (by norm_num) ((dvd_neg.2 A1))
    norm_num at this
    omega
  have hcopa : IsCoprime a lostN := by
    obtain ⟨w, hw⟩ := A1
    rw [ha] at hw
    exact ⟨1, -w, by linear_combination hw⟩
  have hlist : s.pout = [(1, a), (0, lostN)] := is_unique p1 (by rw [hk]; exact lin_is ha0 (by omega))
  have hT0 : T ≠ 0 := by
    intro h
    rw [h, coeff_zero] at ha
    exact ha0 ha.symm
  have hnd : ¬ T ∣ (C 2 * X + C lostN) := by
    rintro ⟨K, hK⟩
    have hK0 : K ≠ 0 := by
      rintro rfl
      rw [mul_zero] at hK
      have := congrArg (fun q => q.coeff 1) hK
      simp only [lin_coeff] at this
      norm_num at this
    have h5 := congrArg natDegree hK
    rw [natDegree_mul hT0 hK0, lin_natDegree (by norm_num), hTP, lin_natDegree ha0] at h5
    obtain ⟨k, rfl⟩ := natDegree_eq_zero.1 (by omega : K.natDegree = 0)
    have h6 := congrArg (fun q => q.coeff 0) hK
    have h7 := congrArg (fun q => q.coeff 1) hK
    simp only [coeff_mul_C, lin_coeff, ha, hb, hk] at h6 h7
    norm_num at h7
    have hk : k = 1 := by
      have h6' : lostN * k = lostN * 1 := by rw [mul_one]; simpa using h6.symm
      exact mul_left_cancel₀ (by omega) h6'
    rw [hk, mul_one] at h7
    rw [ha, ← h7] at A1
    have := Int.le_of_dvd (by norm_num) A1
    omega
  refine ⟨a, ha0, hlist, hcopa, ?_⟩
  rwa [hTP, hk] at hnd

theorem lost_round {prev : ℕ → Option ℕ} {c : ℤ} {s : GcdSt} (hlt : s.prime < secondPrime) (hp : s.prime.Prime)
    (hq : ∀ q : ℕ, q.Prime → (q : ℤ) ∣ s.PP → s.prime < q) (hs : Lost s) :
    ∃ s0, gcdRound prev lostF lostF c s = stepPrime prev s0 ∧ s0.prime = s.prime ∧ Lost s0 := by
  have hW : s.prime < W := hlt.trans (by decide +kernel)
  by_cases h2 : s.prime = 2
  · refine ⟨s, ?_, rfl, hs⟩
    unfold gcdRound
    rw [if_pos (.inl (by rw [h2]; decide +kernel))]
  haveI := Fact.mk hp
  obtain ⟨pm, e1, e2, e3⟩ := div_image hp hW h2 (d := s.d) (by rw [hs.1])
  have hd := hs.1
  obtain ⟨key, fix⟩ := lost_crt hp h2 hq hs e2
  unfold gcdRound
  rw [if_neg (not_skip hp h2), dif_pos hp, e1]
  simp only
  rw [e3, if_neg (by rw [hd]; norm_num)]
  by_cases h3 : crtStep s.prime s.PP s.pout pm = s.pout
  swap
  · rw [if_neg h3]
    exact ⟨_, rfl, rfl, key⟩
  rw [if_pos h3, if_pos (by rw [hd]; norm_num), h3]
  rw [h3] at key
  obtain ⟨a, ha0, hlist, hcopa, hnd⟩ := fix h3
  have hN := lostN_pos
  have p1 : Is s.pout (C a * X + C lostN) := by rw [hlist]; exact lin_is ha0 (by omega)
  have hT0 : (C a * X + C lostN : ℤ[X]) ≠ 0 := fun h => by
    have := congrArg (fun q => q.coeff 1) h
    simp only [lin_coeff] at this
    exact ha0 (by simpa using this)
  have hcont : cont s.pout = 1 := by
    rw [hlist]
    show ((Int.gcd a lostN : ℕ) : ℤ) = 1
    rw [Int.isCoprime_iff_gcd_eq_one.1 hcopa]; rfl
  have hCis : Is ([(0, cont s.pout)] : UPoly ℤ) (C (cont s.pout)) :=
    ⟨canon_cons.2 ⟨by simp, by rw [hcont]; norm_num, canon_nil⟩, by rw [toPoly_cons]; simp⟩
  obtain ⟨q, q1, q2⟩ := divQ_exact (F := C a * X + C lostN) (by rw [hcont, C_1, mul_one]; exact p1) hCis (by rw [hcont]; simp) divZ_div divZ_exact
  rw [q1]
  simp only
  rw [if_neg (fun h => hnd ((divides_iff q2 lostF_is hT0).1 h.1)), is_unique q2 p1]
  exact ⟨_, rfl, rfl, key⟩

/-- from such a state the loop never returns -/
theorem lost_loop {prev : ℕ → Option ℕ} (hprev : PrevOK prev) {c : ℤ} : ∀ (fuel : ℕ) (s : GcdSt), s.prime < secondPrime → s.prime.Prime →
    (∀ q : ℕ, q.Prime → (q : ℤ) ∣ s.PP → s.prime < q) → Lost s → gcdLoop prev lostF lostF c fuel s = none
  | 0, _, _, _, _, _ => rfl
  | fuel + 1, s, h1, h2, h3, h4 => by
    obtain ⟨s0, e1, e2, e3⟩ := lost_round (prev := prev) (c := c) h1 h2 h3 h4
    rw [gcdLoop, e1]
    unfold stepPrime
    rw [e2]
    cases e : prev s.prime with
    | none => rfl
    | some q =>
      have hq := hprev _ _ e
      obtain ⟨d1, M, m1, m2, m3, m4, rest⟩ := e3
      refine lost_loop hprev fuel { s0 with prime := q } (hq.1.trans h1) hq.2 (fun r hr hd => ?_)
        ⟨d1, M, m1, m2, m3, fun r hr hd => by have := m4 r hr hd; rw [e2] at this; exact hq.1.le.trans this, rest⟩
      have hd' : (r : ℤ) ∣ s0.PP := hd
      rw [m2] at hd'
      rcases (Nat.prime_iff_prime_int.1 hr).dvd_or_dvd hd' with h | h
      · have h' : r ∣ firstPrime * secondPrime := by rw [lostN] at h; exact_mod_cast h
        rcases (Nat.Prime.dvd_mul hr).1 h' with h | h
        · rw [(Nat.prime_dvd_prime_iff_eq hr firstPrime_prime).1 h]; exact (hq.1.trans h1).trans (by decide)
        · rw [(Nat.prime_dvd_prime_iff_eq hr secondPrime_prime).1 h]; exact hq.1.trans h1
      · have := m4 r hr h
        rw [e2] at this
        exact hq.1.trans_le this

/-- the first image, modulo `2^64 - 59`, is `2x` -/
theorem lost_first {pm : UPoly (ZMod firstPrime)} (e2 : Is pm ((C 2 * X + C lostN : ℤ[X]).map (Int.castRingHom (ZMod firstPrime)))) : liftFirst firstPrime pm = [(1, 2)] := by
  have hN := lostN_pos
  -- modulo both primes the image is `2x`
  have hz : ∀ p : ℕ, (p : ℤ) ∣ lostN → (C 2 * X + C lostN : ℤ[X]).map (Int.castRingHom (ZMod p)) = (C 2 * X : ℤ[X]).map (Int.castRingHom (ZMod p)) := fun p h => by
    rw [Polynomial.map_add, map_C]
    have : (Int.castRingHom (ZMod p)) lostN = 0 := (ZMod.intCast_zmod_eq_zero_iff_dvd _ _).2 h
    rw [this, C_0, add_zero]
  have hd1 : ((firstPrime : ℕ) : ℤ) ∣ lostN := dvd_mul_right _ _
  have hd2 : ((secondPrime : ℕ) : ℤ) ∣ lostN := dvd_mul_left _ _
  have h2X : ∀ i, |(C 2 * X : ℤ[X]).coeff i| ≤ 2 := fun i => by
    rw [coeff_C_mul, coeff_X]
    split_ifs <;> norm_num
  have is2 : Is ([(1, 2)] : UPoly ℤ) (C 2 * X) :=
    ⟨canon_cons.2 ⟨by simp, by norm_num, canon_nil⟩, by rw [toPoly_cons, toPoly_nil, add_zero, ← C_mul_X_pow_eq_monomial, pow_one]⟩
  haveI := Fact.mk firstPrime_prime
  rw [hz _ hd1] at e2
  obtain ⟨P, l1, l2, l3, l4⟩ := liftFirst_is e2
  have hP : P = C 2 * X := lift_eq_of_small l2 (liftFirst_bound l1) fun i => by
    have := h2X i
    have h3 : (4 : ℤ) < (firstPrime : ℕ) := by decide
    omega
  rw [hP] at l1
  exact is_unique l1 is2

/-- the second one does not change it -/
theorem lost_second {pm2 : UPoly (ZMod secondPrime)} (f2 : Is pm2 ((C 2 * X + C lostN : ℤ[X]).map (Int.castRingHom (ZMod secondPrime)))) :
    crtStep secondPrime (firstPrime : ℕ) [(1, 2)] pm2 = [(1, 2)] := by
  have hN := lostN_pos
  -- modulo both primes the image is `2x`
  have hz : ∀ p : ℕ, (p : ℤ) ∣ lostN → (C 2 * X + C lostN : ℤ[X]).map (Int.castRingHom (ZMod p)) = (C 2 * X : ℤ[X]).map (Int.castRingHom (ZMod p)) := fun p h => by
    rw [Polynomial.map_add, map_C]
    have : (Int.castRingHom (ZMod p)) lostN = 0 := (ZMod.intCast_zmod_eq_zero_iff_dvd _ _).2 h
    rw [this, C_0, add_zero]
  have hd1 : ((firstPrime : ℕ) : ℤ) ∣ lostN := dvd_mul_right _ _
  have hd2 : ((secondPrime : ℕ) : ℤ) ∣ lostN := dvd_mul_left _ _
  have h2X : ∀ i, |(C 2 * X : ℤ[X]).coeff i| ≤ 2 := fun i => by
    rw [coeff_C_mul, coeff_X]
    split_ifs <;> norm_num
  have is2 : Is ([(1, 2)] : UPoly ℤ) (C 2 * X) :=
    ⟨canon_cons.2 ⟨by simp, by norm_num, canon_nil⟩, by rw [toPoly_cons, toPoly_nil, add_zero, ← C_mul_X_pow_eq_monomial, pow_one]⟩
  haveI := Fact.mk secondPrime_prime
  rw [hz _ hd2] at f2
  have hcop : ¬ ((secondPrime : ℕ) : ℤ) ∣ ((firstPrime : ℕ) : ℤ) := by
    intro h
    have h' : secondPrime ∣ firstPrime := by exact_mod_cast h
    exact absurd ((Nat.prime_dvd_prime_iff_eq secondPrime_prime firstPrime_prime).1 h') (by decide)
  obtain ⟨T, t1, t2, t3, t4, t5⟩ := crtStep_is is2 f2 (PP := (firstPrime : ℕ)) (by decide) (fun i => (h2X i).trans_lt (by decide)) hcop
  have hT : T = C 2 * X := by
    ext i
    refine eq_of_cong (M := (firstPrime : ℕ) * (secondPrime : ℕ)) ?_ (t4 i) ?_
    · refine IsCoprime.mul_dvd ((Nat.prime_iff_prime_int.1 secondPrime_prime).coprime_iff_not_dvd.2 hcop).symm (t2 i) ?_
      have := congrArg (fun q => q.coeff i) t3
      simp only [coeff_map] at this
      rw [← ZMod.intCast_zmod_eq_zero_iff_dvd, Int.cast_sub, sub_eq_zero]
      exact this
    · have := h2X i
      have h3 : (4 : ℤ) < (firstPrime : ℕ) * (secondPrime : ℕ) := by decide +kernel
      omega
  exact is_unique t1 (by rw [hT]; exact is2)

theorem lost_begin (q : ℕ) (h : q < secondPrime) : Lost ⟨q, [(1, 1)], 1, firstPrime * secondPrime⟩ := by
  have hN := lostN_pos
  refine ⟨rfl, 1, le_rfl, by rw [mul_one]; rfl, isCoprime_one_right, fun r hr hd => ?_, 1, 0, ?_, by norm_num, one_dvd _, dvd_zero _, one_dvd _, ?_, ?_⟩
  · have h1 : r ∣ 1 := by exact_mod_cast hd
    exact absurd (Nat.dvd_one.1 h1) hr.one_lt.ne'
  · have isX : Is ([(1, 1)] : UPoly ℤ) X := ⟨canon_cons.2 ⟨by simp, by norm_num, canon_nil⟩, by rw [toPoly_cons, toPoly_nil, add_zero]; rfl⟩
    simpa using isX
  · norm_num; omega
  · norm_num; omega

/-- the first two rounds -/
theorem lost_start {prev : ℕ → Option ℕ} (hprev : PrevOK prev) (h2 : prev firstPrime = some secondPrime) (c : ℤ) (fuel : ℕ) :
    gcdLoop prev lostF lostF c fuel ⟨firstPrime, [], 2 ^ 63 - 1, 0⟩ = none := by
  have hN := lostN_pos
  -- first round
  obtain ⟨pm, e1, e2, e3⟩ := div_image firstPrime_prime (by decide +kernel) (by decide) (d := 2 ^ 63 - 1) (by norm_num)
  haveI := Fact.mk firstPrime_prime
  haveI := Fact.mk secondPrime_prime
  have hl := lost_first e2
  have r1 : gcdRound prev lostF lostF c ⟨firstPrime, [], 2 ^ 63 - 1, 0⟩ = .next ⟨secondPrime, [(1, 2)], 1, firstPrime⟩ := by
    unfold gcdRound
    rw [if_neg (not_skip firstPrime_prime (by decide)), dif_pos firstPrime_prime]
    simp only
    rw [e1]
    simp only
    rw [e3, hl, if_pos (by norm_num)]
    unfold stepPrime
    simp only [h2]
    rfl
  -- second round
  obtain ⟨pm2, f1, f2, f3⟩ := div_image secondPrime_prime (by decide +kernel) (by decide) (d := 1) (by norm_num)
  have hc2 := lost_second f2
  have r2 : gcdRound prev lostF lostF c ⟨secondPrime, [(1, 2)], 1, firstPrime⟩ = stepPrime prev ⟨secondPrime, [(1, 1)], 1, firstPrime * secondPrime⟩ := by
    unfold gcdRound
    rw [if_neg (not_skip secondPrime_prime (by decide)), dif_pos secondPrime_prime]
    simp only
    rw [f1]
    simp only
    rw [f3, if_neg (by norm_num), if_pos hc2, if_pos (by norm_num), hc2]
    have hq : divQ divZ ([(1, 2)] : UPoly ℤ) [(0, cont [(1, 2)])] = some [(1, 1)] := by decide +kernel
    rw [hq]
    simp only
    have isX : Is ([(1, 1)] : UPoly ℤ) X := ⟨canon_cons.2 ⟨by simp, by norm_num, canon_nil⟩, by rw [toPoly_cons, toPoly_nil, add_zero]; rfl⟩
    rw [if_neg]
    rintro ⟨h, -⟩
    rw [divides_iff isX lostF_is X_ne_zero, X_dvd_iff, lin_coeff] at h
    norm_num at h
    omega
  cases fuel with
  | zero => rfl
  | succ fuel =>
    rw [gcdLoop, r1]
    cases fuel with
    | zero => rfl
    | succ fuel =>
      simp only
      rw [gcdLoop, r2]
      unfold stepPrime
      cases e : prev secondPrime with
      | none => simp only [e]
      | some q =>
        have hq := hprev _ _ e
        simp only [e]
        refine lost_loop hprev fuel _ hq.1 hq.2 (fun r hr hd => ?_) (lost_begin q hq.1)
        · have h' : r ∣ firstPrime * secondPrime := by
            have hd' : (r : ℤ) ∣ ((firstPrime : ℕ) : ℤ) * ((secondPrime : ℕ) : ℤ) := hd
            exact_mod_cast hd'
          rcases (Nat.Prime.dvd_mul hr).1 h' with h | h
          · rw [(Nat.prime_dvd_prime_iff_eq hr firstPrime_prime).1 h]; exact hq.1.trans (by decide)
          · rw [(Nat.prime_dvd_prime_iff_eq hr secondPrime_prime).1 h]; exact hq.1

/-- `polynomial_GCD(F, F)` for `F = 2x + N` -/
theorem lost_gcd {prev : ℕ → Option ℕ} (hprev : PrevOK prev) (h2 : prev firstPrime = some secondPrime) (fuel : ℕ) : gcdZ prev fuel lostF lostF = none := by
  have h1 : divCont lostF = lostF := by decide +kernel
  have h3 : gcdheu lostF lostF = none := by decide +kernel
  unfold gcdZ
  rw [if_neg (by decide +kernel), if_neg (by decide +kernel), if_neg (by decide +kernel)]
  simp only
  rw [h1, h3]
  exact lost_start hprev h2 _ fuel

end Upoly
end CLPoly
