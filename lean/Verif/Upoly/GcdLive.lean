import Verif.Upoly.GcdZ

/-! # When the modular gcd over ℤ returns -/

namespace CLPoly
namespace Upoly
open Polynomial
open Dense (IsGcd)

theorem liftFirst_sym {p : Nat} [hp : Fact p.Prime] (f : UPoly (ZMod p)) : ∀ u ∈ liftFirst p f, 2 * |u.2| ≤ (p : ℤ) := by
  intro u hu
  obtain ⟨t, _, rfl⟩ := List.mem_map.1 hu
  have hlt := ZMod.val_lt t.2
  have e1 : Int.tdiv (p : ℤ) 2 = (p : ℤ) / 2 := Int.tdiv_eq_ediv_of_nonneg (by positivity)
  simp only
  rw [Int.tmod_eq_of_lt (by positivity) (by exact_mod_cast hlt), e1]
  have h0 : (0 : ℤ) ≤ t.2.val := by positivity
  have h1 : (t.2.val : ℤ) < p := by exact_mod_cast hlt
  split
  · rw [abs_of_nonpos (by omega)]; omega
  · rw [abs_of_nonneg (by omega)]; omega

theorem liftFirst_bound {p : Nat} [hp : Fact p.Prime] {f : UPoly (ZMod p)} {P : ℤ[X]} (h : Is (liftFirst p f) P) (i : ℕ) : 2 * |P.coeff i| ≤ (p : ℤ) := by
  by_cases hi : P.coeff i = 0
  · rw [hi]; simp
  · obtain ⟨t, ht, rfl⟩ := mem_of_coeff_ne h hi
    rw [coeff_mem h ht]; exact liftFirst_sym f t ht

/-- `p` shows the degree of the gcd: it divides no leading coefficient, and the images have no common divisor of larger degree -/
def Lucky (F G : ℤ[X]) (d p : ℕ) : Prop :=
  ((F.leadingCoeff : ℤ) : ZMod p) ≠ 0 ∧ ((G.leadingCoeff : ℤ) : ZMod p) ≠ 0 ∧
    ∀ E : (ZMod p)[X], E ∣ F.map (Int.castRingHom (ZMod p)) → E ∣ G.map (Int.castRingHom (ZMod p)) → E.natDegree ≤ d

theorem eq_of_cong {a b M : ℤ} (h : M ∣ a - b) (ha : 2 * |a| ≤ M) (hb : 2 * |b| < M) : a = b := by
  have : |a - b| < M := by
    have := abs_sub a b
    omega
  have h2 := Int.eq_zero_of_abs_lt_dvd h this
  omega

/-- the images of the scaled gcd -/
theorem image_eq {p : Nat} [hp : Fact p.Prime] {F G D0 T0 : ℤ[X]} {u : ℤ} (hg1 : D0 ∣ F) (hg2 : D0 ∣ G) (hT : T0 = C u * D0) {l : ℤ} (hl : T0.leadingCoeff = l) (hl0 : ((l : ℤ) : ZMod p) ≠ 0)
    {D : (ZMod p)[X]} (hD : ∀ E, E ∣ F.map (Int.castRingHom (ZMod p)) → E ∣ G.map (Int.castRingHom (ZMod p)) → E ∣ D) (hlc : D.leadingCoeff = ((l : ℤ) : ZMod p))
    (hdeg : D.natDegree ≤ D0.natDegree) (u0 : u ≠ 0) : D = T0.map (Int.castRingHom (ZMod p)) := by
  have hT0 : ((T0.leadingCoeff : ℤ) : ZMod p) ≠ 0 := by rw [hl]; exact hl0
  obtain ⟨n1, n2, n3⟩ := natDegree_map_of_lc hT0
  have hu : ((u : ℤ) : ZMod p) ≠ 0 := by
    rw [hT, leadingCoeff_mul, leadingCoeff_C, Int.cast_mul] at hT0
    exact left_ne_zero_of_mul hT0
  have hdvd : T0.map (Int.castRingHom (ZMod p)) ∣ D := by
    have h1 := hD _ (Polynomial.map_dvd (Int.castRingHom (ZMod p)) hg1) (Polynomial.map_dvd (Int.castRingHom (ZMod p)) hg2)
    rw [hT, Polynomial.map_mul, map_C]
    have hun : IsUnit (C ((Int.castRingHom (ZMod p)) u)) := isUnit_C.2 (isUnit_iff_ne_zero.2 hu)
    exact hun.mul_left_dvd.2 h1
  obtain ⟨K, hK⟩ := hdvd
  have hD0 : D ≠ 0 := by rintro rfl; rw [leadingCoeff_zero] at hlc; exact hl0 hlc.symm
  have hK0 : K ≠ 0 := by rintro rfl; rw [mul_zero] at hK; exact hD0 hK
  have hnd := natDegree_mul n2 hK0
  rw [← hK, n1] at hnd
  have hTd : T0.natDegree = D0.natDegree := by rw [hT, natDegree_C_mul u0]
  have hKd : K.natDegree = 0 := by omega
  obtain ⟨k, rfl⟩ := natDegree_eq_zero.1 hKd
  have hlk := congrArg leadingCoeff hK
  rw [leadingCoeff_mul, leadingCoeff_C, n3, hl, hlc] at hlk
  have hk : k = 1 := mul_left_cancel₀ hl0 (by rw [mul_one]; exact hlk.symm)
  rw [hK, hk, C_1, mul_one]

theorem lift_eq_of_small {p : Nat} [hp : Fact p.Prime] {P T0 : ℤ[X]} (h : P.map (Int.castRingHom (ZMod p)) = T0.map (Int.castRingHom (ZMod p)))
    (h1 : ∀ i, 2 * |P.coeff i| ≤ (p : ℤ)) (h2 : ∀ i, 2 * |T0.coeff i| < (p : ℤ)) : P = T0 := by
  ext i
  refine eq_of_cong ?_ (h1 i) (h2 i)
  have := congrArg (fun q => q.coeff i) h
  simp only [coeff_map] at this
  rw [← ZMod.intCast_zmod_eq_zero_iff_dvd, Int.cast_sub, sub_eq_zero]
  exact this

/-- the loop's data while no prime has shown the right degree yet -/
def LiveA (F G : ℤ[X]) (d : ℕ) (s : GcdSt) : Prop := GInv F G s ∧ (d : ℤ) < s.d

/-- the loop's data once a prime has shown the right degree -/
def LiveB (T0 : ℤ[X]) (s : GcdSt) : Prop :=
  s.d = T0.natDegree ∧ Is s.pout T0 ∧ 0 < s.PP ∧ (∀ i, |T0.coeff i| < s.PP) ∧ ∀ q : Nat, q.Prime → (q : ℤ) ∣ s.PP → s.prime < q

section
variable {prev : Nat → Option Nat} {f g : UPoly ℤ} {F G D0 T0 : ℤ[X]} {u c : ℤ}

/-- what is fixed in the proof: the primitive operands, their gcd and the scaled gcd -/
structure LiveHyp (f g : UPoly ℤ) (F G D0 T0 : ℤ[X]) (u : ℤ) : Prop where
  hf : Is f F
  hg : Is g G
  pF : F.IsPrimitive
  pG : G.IsPrimitive
  lF : F.natDegree < 2 ^ 63 - 1
  lG : G.natDegree < 2 ^ 63 - 1
  gcd : IsGcd D0 F G
  hT : T0 = C u * D0
  lead : T0.leadingCoeff = Int.gcd F.leadingCoeff G.leadingCoeff

theorem LiveHyp.u0 (H : LiveHyp f g F G D0 T0 u) : u ≠ 0 := by
  rintro rfl
  have := H.lead
  rw [H.hT, C_0, zero_mul, leadingCoeff_zero] at this
  have h2 : Int.gcd F.leadingCoeff G.leadingCoeff = 0 := by exact_mod_cast this.symm
  exact H.pF.ne_zero (leadingCoeff_eq_zero.1 (Int.gcd_eq_zero_iff.1 h2).1)

theorem LiveHyp.deg (H : LiveHyp f g F G D0 T0 u) : T0.natDegree = D0.natDegree := by rw [H.hT, natDegree_C_mul H.u0]

/-- the image at a prime that divides no leading coefficient -/
theorem LiveHyp.image (H : LiveHyp f g F G D0 T0 u) {p : ℕ} (hp : p.Prime) (hW : p < W) (h1 : ((F.leadingCoeff : ℤ) : ZMod p) ≠ 0) (h2 : ((G.leadingCoeff : ℤ) : ZMod p) ≠ 0) (d : ℤ) :
    haveI := Fact.mk hp
    ∃ D : (ZMod p)[X], IsGcd D (F.map (Int.castRingHom (ZMod p))) (G.map (Int.castRingHom (ZMod p))) ∧ D ≠ 0 ∧ D.natDegree < 2 ^ 63 - 1 ∧ DegBound F G D.natDegree ∧
      (gcdScaled p (polyMod p f) (polyMod p g) (((Int.gcd (lc f) (lc g) : ℕ) : ℤ) : ZMod p) d = none ↔ d < D.natDegree) ∧
      (∀ r, gcdScaled p (polyMod p f) (polyMod p g) (((Int.gcd (lc f) (lc g) : ℕ) : ℤ) : ZMod p) d = some r → Is r D) ∧
      (D.natDegree ≤ D0.natDegree → D = T0.map (Int.castRingHom (ZMod p))) := by
  haveI := Fact.mk hp
  obtain ⟨nF, zF, cF⟩ := natDegree_map_of_lc h1
  obtain ⟨nG, zG, cG⟩ := natDegree_map_of_lc h2
  have hlcg : (((Int.gcd (lc f) (lc g) : ℕ) : ℤ) : ZMod p) ≠ 0 := by
    intro h
    rw [ZMod.intCast_zmod_eq_zero_iff_dvd, is_lc H.hf, is_lc H.hg] at h
    exact h1 ((ZMod.intCast_zmod_eq_zero_iff_dvd _ _).2 (h.trans (Int.gcd_dvd_left ..)))
  have hW63 : 2 ^ 63 < W := by norm_num [W]
  have lF := H.lF
  have lG := H.lG
  obtain ⟨D, d1, d2, d3, d4⟩ := gcdScaled_is hW (polyMod_is (p := p) H.hg) (polyMod_is (p := p) H.hf) zG zF (by rw [nG]; omega) (by rw [nF]; omega) hlcg d
  have hD0 : D ≠ 0 := by rintro rfl; rw [leadingCoeff_zero] at d2; exact hlcg d2.symm
  have hDdeg : D.natDegree < 2 ^ 63 - 1 := (natDegree_le_of_dvd d1.1 zF).trans_lt (by rw [nF]; exact lF)
  refine ⟨D, d1, hD0, hDdeg, degBound_mod h1 (fun E e1 e2 => d1.2.2 E e1 e2) hD0, d3, d4, fun hle => ?_⟩
  rw [is_lc H.hf, is_lc H.hg] at hlcg d2
  exact image_eq H.gcd.1 H.gcd.2.1 H.hT H.lead hlcg d1.2.2 d2 hle H.u0

theorem LiveHyp.le (H : LiveHyp f g F G D0 T0 u) {d : ℤ} (h : DegBound F G d) : (D0.natDegree : ℤ) ≤ d := h _ H.gcd.1 H.gcd.2.1

/-- first lucky prime -/
theorem roundA_lucky (H : LiveHyp f g F G D0 T0 u) {s : GcdSt} (hp : s.prime.Prime) (hW : s.prime < W) (hb : ∀ i, 2 * |T0.coeff i| < (s.prime : ℤ))
    (hl : Lucky F G D0.natDegree s.prime) (hs : LiveA F G D0.natDegree s) :
    ∃ s0, gcdRound prev f g c s = stepPrime prev s0 ∧ s0.prime = s.prime ∧ s0.d = T0.natDegree ∧ Is s0.pout T0 ∧ 0 < s0.PP ∧ (∀ i, |T0.coeff i| < s0.PP) ∧
      ∀ q : Nat, q.Prime → (q : ℤ) ∣ s0.PP → s.prime ≤ q := by
  haveI := Fact.mk hp
  obtain ⟨D, d1, d2, d3, d4, d5, d6, d7⟩ := H.image hp hW hl.1 hl.2.1 s.d
  have hDle := hl.2.2 D d1.1 d1.2.1
  have hDeq := d7 hDle
  have hDd : D.natDegree = D0.natDegree := le_antisymm hDle (by have := H.le d4; omega)
  have h1 : ¬ (Int.tmod (lc f) s.prime = 0 ∨ Int.tmod (lc g) s.prime = 0) := by
    rw [not_or, tmod_eq_zero_iff, tmod_eq_zero_iff, is_lc H.hf, is_lc H.hg]; exact ⟨hl.1, hl.2.1⟩
  unfold gcdRound
  rw [if_neg h1, dif_pos hp]
  cases e : gcdScaled s.prime (polyMod s.prime f) (polyMod s.prime g) (((Int.gcd (lc f) (lc g) : ℕ) : ℤ) : ZMod s.prime) s.d with
  | none => have := d5.1 e; have := hs.2; omega
  | some pm =>
    have hpm := d6 pm e
    simp only
    rw [is_deg hpm, if_pos (by have := hs.2; omega)]
    obtain ⟨P, l1, l2, l3, l4⟩ := liftFirst_is hpm
    have hPT : P = T0 := lift_eq_of_small (by rw [l2, hDeq]) (liftFirst_bound l1) hb
    rw [hPT] at l1 l4
    refine ⟨_, rfl, rfl, ?_, l1, ?_, l4, fun q hq hqd => ?_⟩
    · simp only; rw [H.deg, hDd]
    · simp only; exact_mod_cast hp.pos
    · have : q ∣ s.prime := Int.natCast_dvd_natCast.1 hqd
      exact ((Nat.prime_dvd_prime_iff_eq hq hp).1 this).ge

/-- an unlucky prime before the first lucky one -/
theorem roundA_unlucky (H : LiveHyp f g F G D0 T0 u) {s : GcdSt} (hp : s.prime.Prime) (hW : s.prime < W)
    (hl : ¬ Lucky F G D0.natDegree s.prime) (hs : LiveA F G D0.natDegree s) :
    (∃ r, gcdRound prev f g c s = .ret r) ∨ ∃ s0, gcdRound prev f g c s = stepPrime prev s0 ∧ s0.prime = s.prime ∧ (D0.natDegree : ℤ) < s0.d := by
  haveI := Fact.mk hp
  unfold gcdRound
  by_cases h1 : Int.tmod (lc f) s.prime = 0 ∨ Int.tmod (lc g) s.prime = 0
  · rw [if_pos h1]; exact .inr ⟨s, rfl, rfl, hs.2⟩
  rw [if_neg h1, dif_pos hp]
  rw [not_or, tmod_eq_zero_iff, tmod_eq_zero_iff, is_lc H.hf, is_lc H.hg] at h1
  obtain ⟨D, d1, d2, d3, d4, d5, d6, d7⟩ := H.image hp hW h1.1 h1.2 s.d
  have hDgt : D0.natDegree < D.natDegree := by
    by_contra hc
    refine hl ⟨h1.1, h1.2, fun E e1 e2 => ?_⟩
    exact (natDegree_le_of_dvd (d1.2.2 E e1 e2) d2).trans (by omega)
  cases e : gcdScaled s.prime (polyMod s.prime f) (polyMod s.prime g) (((Int.gcd (lc f) (lc g) : ℕ) : ℤ) : ZMod s.prime) s.d with
  | none => exact .inr ⟨s, rfl, rfl, hs.2⟩
  | some pm =>
    have hpm := d6 pm e
    simp only
    rw [is_deg hpm]
    by_cases h2 : (D.natDegree : ℤ) < s.d
    · rw [if_pos h2]; exact .inr ⟨_, rfl, rfl, by simp only; exact_mod_cast hDgt⟩
    · rw [if_neg h2]
      by_cases h3 : crtStep s.prime s.PP s.pout pm = s.pout
      · rw [if_pos h3]
        by_cases h4 : s.d > 0
        · rw [if_pos h4, h3]
          rcases hs.1 with hs1 | ⟨_, _, _, s4, s5, P, s6, s7, s8, s9⟩
          · have := d3; omega
          obtain ⟨Q, q1, q2⟩ := exists_prim s6 s7
          have hcont := cont_ne_zero s6 s7
          have hCis : Is ([(0, cont s.pout)] : UPoly ℤ) (C (cont s.pout)) :=
            ⟨canon_cons.2 ⟨by simp, hcont, canon_nil⟩, by rw [toPoly_cons]; simp⟩
          obtain ⟨q, e1, e2⟩ := divQ_exact (F := Q) (by rw [mul_comm, ← q1]; exact s6) hCis (by simpa using hcont) divZ_div divZ_exact
          rw [e1]
          simp only
          split
          · exact .inl ⟨_, rfl⟩
          · exact .inr ⟨_, rfl, rfl, hs.2⟩
        · rw [if_neg h4]; exact .inl ⟨_, rfl⟩
      · rw [if_neg h3]; exact .inr ⟨_, rfl, rfl, hs.2⟩

/-- after the first lucky prime: an unlucky prime changes nothing, a lucky one ends the loop -/
theorem roundB (H : LiveHyp f g F G D0 T0 u) {s : GcdSt} (hp : s.prime.Prime) (hW : s.prime < W) (hb : ∀ i, 2 * |T0.coeff i| < (s.prime : ℤ)) (hs : LiveB T0 s) :
    (Lucky F G D0.natDegree s.prime → ∃ r, gcdRound prev f g c s = .ret r) ∧ (¬ Lucky F G D0.natDegree s.prime → gcdRound prev f g c s = stepPrime prev s) := by
  haveI := Fact.mk hp
  obtain ⟨s1, s2, s3, s4, s5⟩ := hs
  rw [H.deg] at s1
  have hT0 : T0 ≠ 0 := by
    rw [H.hT]
    exact mul_ne_zero (C_ne_zero.2 H.u0) (fun h => H.pF.ne_zero (by have := H.gcd.1; rw [h, zero_dvd_iff] at this; exact this))
  refine ⟨fun hl => ?_, fun hl => ?_⟩
  · obtain ⟨D, d1, d2, d3, d4, d5, d6, d7⟩ := H.image hp hW hl.1 hl.2.1 s.d
    have hDle := hl.2.2 D d1.1 d1.2.1
    have hDeq := d7 hDle
    have h1 : ¬ (Int.tmod (lc f) s.prime = 0 ∨ Int.tmod (lc g) s.prime = 0) := by
      rw [not_or, tmod_eq_zero_iff, tmod_eq_zero_iff, is_lc H.hf, is_lc H.hg]; exact ⟨hl.1, hl.2.1⟩
    unfold gcdRound
    rw [if_neg h1, dif_pos hp]
    cases e : gcdScaled s.prime (polyMod s.prime f) (polyMod s.prime g) (((Int.gcd (lc f) (lc g) : ℕ) : ℤ) : ZMod s.prime) s.d with
    | none => have := d5.1 e; omega
    | some pm =>
      have hpm := d6 pm e
      simp only
      have hDd : D.natDegree = D0.natDegree := le_antisymm hDle (by have := H.le d4; omega)
      rw [is_deg hpm, if_neg (by omega)]
      have hcop : ¬ (s.prime : ℤ) ∣ s.PP := fun h => lt_irrefl _ (s5 _ hp h)
      obtain ⟨T, t1, t2, t3, t4, t5⟩ := crtStep_is s2 hpm s3 s4 hcop
      have hTT : T = T0 := by
        ext i
        refine eq_of_cong (M := s.PP * s.prime) ?_ (t4 i) ?_
        · refine IsCoprime.mul_dvd ?_ (t2 i) ?_
          · exact ((Nat.prime_iff_prime_int.1 hp).coprime_iff_not_dvd.2 hcop).symm
          · have := congrArg (fun q => q.coeff i) (t3.trans hDeq)
            simp only [coeff_map] at this
            rw [← ZMod.intCast_zmod_eq_zero_iff_dvd, Int.cast_sub, sub_eq_zero]
            exact this
        · refine (hb i).trans_le ?_
          have : (0 : ℤ) < s.prime := by exact_mod_cast hp.pos
          nlinarith
      have h3 : crtStep s.prime s.PP s.pout pm = s.pout := is_unique t1 (by rw [hTT]; exact s2)
      rw [if_pos h3]
      by_cases h4 : s.d > 0
      · rw [if_pos h4, h3]
        obtain ⟨Q, q1, q2⟩ := exists_prim s2 hT0
        have hcont := cont_ne_zero s2 hT0
        have hCis : Is ([(0, cont s.pout)] : UPoly ℤ) (C (cont s.pout)) :=
          ⟨canon_cons.2 ⟨by simp, hcont, canon_nil⟩, by rw [toPoly_cons]; simp⟩
        obtain ⟨q, e1, e2⟩ := divQ_exact (F := Q) (by rw [mul_comm, ← q1]; exact s2) hCis (by simpa using hcont) divZ_div divZ_exact
        rw [e1]
        simp only
        have hQD : Q ∣ D0 := prim_dvd_of_dvd_C_mul q2 H.u0 (by rw [← H.hT, q1]; exact dvd_mul_left _ _)
        rw [if_pos ⟨(divides_iff e2 H.hf q2.ne_zero).2 (hQD.trans H.gcd.1), (divides_iff e2 H.hg q2.ne_zero).2 (hQD.trans H.gcd.2.1)⟩]
        exact ⟨_, rfl⟩
      · rw [if_neg h4]; exact ⟨_, rfl⟩
  · unfold gcdRound
    by_cases h1 : Int.tmod (lc f) s.prime = 0 ∨ Int.tmod (lc g) s.prime = 0
    · rw [if_pos h1]
    rw [if_neg h1, dif_pos hp]
    rw [not_or, tmod_eq_zero_iff, tmod_eq_zero_iff, is_lc H.hf, is_lc H.hg] at h1
    obtain ⟨D, d1, d2, d3, d4, d5, d6, d7⟩ := H.image hp hW h1.1 h1.2 s.d
    have hDgt : D0.natDegree < D.natDegree := by
      by_contra hc
      refine hl ⟨h1.1, h1.2, fun E e1 e2 => ?_⟩
      exact (natDegree_le_of_dvd (d1.2.2 E e1 e2) d2).trans (by omega)
    rw [d5.2 (by omega)]

theorem gcdLoop_liveB (hprev : PrevOK prev) (H : LiveHyp f g F G D0 T0 u) : ∀ (ps : List ℕ) (s : GcdSt),
    (s.prime :: ps).IsChain (fun a b => prev a = some b) → s.prime.Prime → s.prime < W → (∀ p ∈ s.prime :: ps, ∀ i, 2 * |T0.coeff i| < (p : ℤ)) →
    (∃ p ∈ s.prime :: ps, Lucky F G D0.natDegree p) → LiveB T0 s → ∃ r, gcdLoop prev f g c (ps.length + 1) s = some r := by
  intro ps
  induction ps with
  | nil =>
    intro s _ hp hW hb hl hs
    obtain ⟨p, hpm, hlp⟩ := hl
    rw [List.mem_singleton.1 hpm] at hlp
    obtain ⟨r, hr⟩ := (roundB (prev := prev) (c := c) H hp hW (hb _ (by simp)) hs).1 hlp
    exact ⟨r, by rw [gcdLoop, hr]⟩
  | cons q ps ih =>
    intro s hch hp hW hb hl hs
    by_cases hlp : Lucky F G D0.natDegree s.prime
    · obtain ⟨r, hr⟩ := (roundB (prev := prev) (c := c) H hp hW (hb _ (by simp)) hs).1 hlp
      exact ⟨r, by rw [gcdLoop, hr]⟩
    · have hr := (roundB (prev := prev) (c := c) H hp hW (hb _ (by simp)) hs).2 hlp
      rw [List.isChain_cons_cons] at hch
      have hq := hprev _ _ hch.1
      have hstep : stepPrime prev s = .next { s with prime := q } := by unfold stepPrime; rw [hch.1]
      rw [List.length_cons, gcdLoop, hr, hstep]
      simp only
      refine ih { s with prime := q } hch.2 hq.2 (hq.1.trans hW) (fun p hp => hb p (List.mem_cons_of_mem _ hp)) ?_ ?_
      · obtain ⟨p, hpm, h⟩ := hl
        rcases List.mem_cons.1 hpm with rfl | hpm
        · exact absurd h hlp
        · exact ⟨p, hpm, h⟩
      · obtain ⟨a, b, c, d, e⟩ := hs
        exact ⟨a, b, c, d, fun r hr hd => hq.1.trans (e r hr hd)⟩

theorem gcdLoop_liveA (hprev : PrevOK prev) (H : LiveHyp f g F G D0 T0 u) (hc : c ≠ 0) : ∀ (ps : List ℕ) (s : GcdSt),
    (s.prime :: ps).IsChain (fun a b => prev a = some b) → s.prime.Prime → s.prime < W → (∀ p ∈ s.prime :: ps, ∀ i, 2 * |T0.coeff i| < (p : ℤ)) →
    (∃ a b l, (s.prime :: ps) = a ++ l ++ b ∧ (∃ p ∈ a, Lucky F G D0.natDegree p) ∧ ∃ p ∈ l, Lucky F G D0.natDegree p) →
    LiveA F G D0.natDegree s → ∃ r, gcdLoop prev f g c (ps.length + 1) s = some r := by
  intro ps
  induction ps with
  | nil =>
    rintro s _ hp hW hb ⟨a, b, l, e, ⟨p, hpa, _⟩, q, hql, _⟩ hs
    have := congrArg List.length e
    have h1 := List.length_pos_of_mem hpa
    have h2 := List.length_pos_of_mem hql
    simp at this; omega
  | cons q ps ih =>
    rintro s hch hp hW hb ⟨a, b, l, e, ha, hl⟩ hs
    have hch0 := hch
    rw [List.isChain_cons_cons] at hch
    have hq := hprev _ _ hch.1
    obtain ⟨x, a', rfl⟩ : ∃ x a', a = x :: a' := by
      obtain ⟨p, hpa, _⟩ := ha
      exact ⟨_, _, (List.cons_head_tail (List.ne_nil_of_mem hpa)).symm⟩
    rw [List.cons_append, List.cons_append, List.cons.injEq] at e
    obtain ⟨rfl, e⟩ := e
    by_cases hlp : Lucky F G D0.natDegree s.prime
    · obtain ⟨s0, h1, h2, h3, h4, h5, h6, h7⟩ := roundA_lucky (prev := prev) (c := c) H hp hW (hb _ (by simp)) hlp hs
      have hstep : stepPrime prev s0 = .next { s0 with prime := q } := by unfold stepPrime; rw [h2, hch.1]
      rw [List.length_cons, gcdLoop, h1, hstep]
      simp only
      refine gcdLoop_liveB hprev H ps { s0 with prime := q } hch.2 hq.2 (hq.1.trans hW) (fun p hp => hb p (List.mem_cons_of_mem _ hp)) ?_
        ⟨h3, h4, h5, h6, fun r hr hd => hq.1.trans_le (h7 r hr hd)⟩
      obtain ⟨p, hpl, h⟩ := hl
      refine ⟨p, ?_, h⟩
      show p ∈ q :: ps
      rw [e]; simp [hpl]
    · rcases roundA_unlucky (prev := prev) (c := c) H hp hW hlp hs with ⟨r, hr⟩ | ⟨s0, h1, h2, h3⟩
      · exact ⟨r, by rw [gcdLoop, hr]⟩
      have hstep : stepPrime prev s0 = .next { s0 with prime := q } := by unfold stepPrime; rw [h2, hch.1]
      have hinv := (gcdRound_spec hprev H.hf H.hg H.pF H.pG H.lF H.lG hc hW hs.1).2 _ (h1.trans hstep)
      rw [List.length_cons, gcdLoop, h1, hstep]
      simp only
      refine ih { s0 with prime := q } hch.2 hq.2 (hq.1.trans hW) (fun p hp => hb p (List.mem_cons_of_mem _ hp)) ⟨a', b, l, e, ?_, hl⟩ ⟨hinv.1, h3⟩
      obtain ⟨p, hpm, h⟩ := ha
      rcases List.mem_cons.1 hpm with rfl | hpm
      · exact absurd h hlp
      · exact ⟨p, hpm, h⟩

end

end Upoly
end CLPoly
