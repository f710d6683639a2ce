import Verif.Upoly.VH
import Verif.Upoly.Edf
import Verif.Upoly.GcdZ
import Mathlib.FieldTheory.Perfect
import Mathlib.RingTheory.Polynomial.GaussLemma

/-! # `__select_prime`, `__heuristic_starting_precision` -/

namespace CLPoly
namespace Upoly
open Polynomial
open Dense (IsGcd)

/-! ## starting precision -/

theorem amigLoop_spec {p target : ℤ} (hp : 1 < p) : ∀ (fuel : Nat) (a : Nat), (target + 1 - p ^ a).toNat < fuel → ∃ b, amigLoop p target fuel (p ^ a) a = some b ∧ a ≤ b ∧ target < p ^ b ∧ ∀ c, a ≤ c → c < b → p ^ c ≤ target := by
  intro fuel
  induction fuel with
  | zero => intro a h; omega
  | succ fuel ih =>
    intro a h
    have e : amigLoop p target (fuel + 1) (p ^ a) a = if p ^ a ≤ target then amigLoop p target fuel (p ^ a * p) (a + 1) else some a := rfl
    rw [e]
    by_cases hc : p ^ a ≤ target
    · rw [if_pos hc, ← pow_succ]
      have h1 : p ^ a < p ^ (a + 1) := by
        rw [pow_succ]
        have : 0 < p ^ a := by positivity
        nlinarith
      obtain ⟨b, b1, b2, b3, b4⟩ := ih (a + 1) (by omega)
      refine ⟨b, b1, by omega, b3, fun c h1 h2 => ?_⟩
      rcases Nat.lt_or_ge a c with h | h
      · exact b4 c h h2
      · obtain rfl : c = a := by omega
        exact hc
    · rw [if_neg hc]
      exact ⟨a, rfl, le_rfl, by omega, fun c h1 h2 => by omega⟩

/-- `a_mig` is the least exponent with `p^a_mig > 2·|lc|·B`, the precision used is positive and at most `a_mig` -/
theorem startPrecision_spec {ah p : Nat} (hp : 1 < p) {f : UPoly ℤ} {F : ℤ[X]} (hf : Is f F) (h0 : F ≠ 0) :
    ∃ a b B, startPrecision ah f p = some (a, b) ∧ mignotte f = some B ∧ 2 * |F.leadingCoeff| * B < (p : ℤ) ^ b ∧ (∀ c, c < b → (p : ℤ) ^ c ≤ 2 * |F.leadingCoeff| * B) ∧ 1 ≤ a ∧ a ≤ b ∧ a = min b (max 1 ah) := by
  obtain ⟨B, h1, h2, h3, _⟩ := mignotte_spec hf h0
  have hl : 0 < |F.leadingCoeff| := by simpa using h0
  have e : (if lc f < 0 then -lc f else lc f) = |F.leadingCoeff| := by
    rw [is_lc hf]
    split
    · next h => rw [abs_of_neg h]
    · next h => rw [abs_of_nonneg (by omega)]
  unfold startPrecision
  rw [h1]
  simp only [Option.bind_some, e]
  obtain ⟨b, b1, _, b3, b4⟩ := amigLoop_spec (p := p) (target := 2 * |F.leadingCoeff| * B) (by exact_mod_cast hp) ((2 * |F.leadingCoeff| * B).toNat + 2) 0 (by
    rw [pow_zero]
    omega)
  rw [pow_zero] at b1
  rw [b1]
  have hb : b ≠ 0 := by
    rintro rfl
    rw [pow_zero] at b3
    nlinarith
  refine ⟨_, b, B, rfl, rfl, b3, fun c hc => b4 c (by omega) hc, ?_, ?_, rfl⟩
  · simp only [le_min_iff]
    omega
  · simp

/-! ## the prime -/

/-- what the selection guarantees: `p ∤ lc`, and the factors are the distinct monic irreducible factors of `F` modulo `p` -/
structure SelOK (p : Nat) [Fact p.Prime] (F : ℤ[X]) (fs : List (UPoly (ZMod p))) : Prop where
  lc : ¬ (p : ℤ) ∣ F.leadingCoeff
  canon : ∀ g ∈ fs, Canon comp g
  mi : ∀ g ∈ fs, (toPoly g).Monic ∧ Irreducible (toPoly g)
  nodup : (fs.map toPoly).Nodup
  prod : F.map (Int.castRingHom (ZMod p)) = C ((F.leadingCoeff : ℤ) : ZMod p) * (fs.map toPoly).prod

theorem fmod_zero_iff {a : ℤ} {p : Nat} : Int.fmod a p = 0 ↔ (p : ℤ) ∣ a := ⟨Int.dvd_of_fmod_eq_zero, Int.fmod_eq_zero_of_dvd⟩

theorem nodup_of_squarefree {R : Type} [CommRing R] [IsDomain R] {l : List R[X]} (hi : ∀ a ∈ l, Irreducible a) (h : Squarefree l.prod) : l.Nodup := by
  induction l with
  | nil => simp
  | cons a l ih =>
    rw [List.prod_cons] at h
    refine List.nodup_cons.2 ⟨fun ha => ?_, ih (fun b hb => hi b (by simp [hb])) (h.squarefree_of_dvd (Dvd.intro_left _ rfl))⟩
    have h1 : a ∣ l.prod := List.dvd_prod ha
    exact (hi a (by simp)).not_isUnit (h a (mul_dvd_mul_left a h1))

theorem tryPrime_spec {p : Nat} [hp : Fact p.Prime] (hW : p < W) {fuel : Nat} {rng : List Nat} (hr : ∀ c ∈ rng, c < p) {f : UPoly ℤ} {F : ℤ[X]} (hf : Is f F) (lF : F.natDegree + 1 < W) (dF : 0 < F.natDegree)
    {o : Option (List (UPoly (ZMod p)))} (h : tryPrime fuel rng f p = some o) :
    (∀ fs, o = some fs → SelOK p F fs) ∧ (o = none → (p : ℤ) ∣ F.leadingCoeff ∨ ¬ (F.map (Int.castRingHom (ZMod p))).Separable) := by
  unfold tryPrime at h
  rw [is_lc hf] at h
  by_cases hl : (p : ℤ) ∣ F.leadingCoeff
  · rw [if_pos (fmod_zero_iff.2 hl)] at h
    cases h
    exact ⟨fun _ h => (by cases h), fun _ => .inl hl⟩
  rw [if_neg (mt fmod_zero_iff.1 hl)] at h
  have hfp := polyMod_is (p := p) hf
  obtain ⟨P, hP⟩ : ∃ P, P = F.map (Int.castRingHom (ZMod p)) := ⟨_, rfl⟩
  have hPr : P = red p F := hP
  have P0 : P ≠ 0 := hPr ▸ red_ne_zero hl
  have dP : P.natDegree = F.natDegree := hPr ▸ red_natDegree hl
  rw [← hP] at hfp ⊢
  simp only at h
  rw [if_neg (by rw [is_nil_iff hfp, is_deg hfp, is_deg hf, dP]; simp [P0])] at h
  have hder := derivative_is hfp
  by_cases hd : Upoly.derivative (polyMod p f) = []
  · rw [if_pos hd] at h
    cases h
    refine ⟨fun _ h => (by cases h), fun _ => ?_⟩
    by_cases hsep : P.Separable
    · have hd0 := (is_nil_iff hder).1 hd
      unfold Separable at hsep
      rw [hd0, isCoprime_zero_right] at hsep
      have := natDegree_eq_zero_of_isUnit hsep
      omega
    · exact .inr hsep
  rw [if_neg hd] at h
  obtain ⟨g, D, g1, g2, g3, g4⟩ := gcd_is hW hfp hder (.inl P0) (by omega) (by have := natDegree_derivative_le P; omega)
  rw [g1, Option.bind_some] at h
  by_cases hg : deg g > 0
  · rw [if_pos hg] at h
    cases h
    refine ⟨fun _ h => (by cases h), fun _ => .inr fun hs => ?_⟩
    have h1 : IsUnit D := hs.isUnit_of_dvd' g4.1 g4.2.1
    have := natDegree_eq_zero_of_isUnit h1
    rw [is_deg g2] at hg
    omega
  · rw [if_neg hg] at h
    have hD : D = 1 := g3.natDegree_eq_zero.1 (by rw [is_deg g2] at hg; omega)
    have hsep : P.Separable := by
      refine (EuclideanDomain.isCoprime_of_dvd (fun h => P0 h.1) fun z hz _ h1 h2 => hz ?_)
      exact isUnit_of_dvd_one (hD ▸ g4.2.2 z h1 h2)
    have hmon := makeMonic_is hfp P0
    obtain ⟨M, hM⟩ : ∃ M, M = C P.leadingCoeff⁻¹ * P := ⟨_, rfl⟩
    have hMm : M.Monic := hM ▸ monic_C_mul P0
    have u : IsUnit (C P.leadingCoeff⁻¹) := isUnit_C.2 (isUnit_iff_ne_zero.2 (inv_ne_zero (leadingCoeff_ne_zero.2 P0)))
    rw [← hM] at hmon
    have hass : Associated M P := by rw [hM]; exact associated_unit_mul_left _ _ u
    have hsf : Squarefree M := hass.squarefree_iff.2 hsep.squarefree
    have dM : M.natDegree = P.natDegree := associated_natDegree hass
    obtain ⟨groups, e1, e2, e3⟩ := ddf_spec hW hmon hMm (by omega) hsf
    rw [e1, Option.bind_some] at h
    cases ea : edfAll p fuel groups rng with
    | none => rw [ea] at h; cases h
    | some a =>
      rw [ea] at h
      cases h
      refine ⟨fun fs hfs => ?_, fun h => (by cases h)⟩
      cases hfs
      obtain ⟨i1, i2, _⟩ := edfAll_spec hW fuel groups rng a.1 a.2 (fun x hx => ⟨e2 x hx, by
        have h1 : toPoly x.1 ∣ M := e3 ▸ List.dvd_prod (List.mem_map_of_mem (f := fun x : UPoly (ZMod p) × Nat => toPoly x.1) hx)
        have := natDegree_le_of_dvd h1 hMm.ne_zero
        omega⟩) hr ea
      rw [e3] at i2
      refine ⟨hl, fun g hg => (i1 g hg).1, fun g hg => (i1 g hg).2, ?_, ?_⟩
      · refine nodup_of_squarefree (fun b hb => ?_) (i2 ▸ hsf)
        obtain ⟨g, hg, rfl⟩ := List.mem_map.1 hb
        exact (i1 g hg).2.2
      · rw [i2, hM, ← hP]
        have : P.leadingCoeff = ((F.leadingCoeff : ℤ) : ZMod p) := by
          rw [hPr]
          show (Polynomial.map _ F).leadingCoeff = _
          rw [leadingCoeff_map_of_leadingCoeff_ne_zero]
          · rfl
          · exact fun h0 => hl ((ZMod.intCast_zmod_eq_zero_iff_dvd _ _).1 h0)
        rw [← this, ← mul_assoc, ← C_mul, mul_inv_cancel₀ (leadingCoeff_ne_zero.2 P0), C_1, one_mul]

/-- the prime is used, for suitable random numbers, when it does not divide the leading coefficient and `F` is separable modulo `p` -/
theorem tryPrime_exists {p : Nat} [hp : Fact p.Prime] (hW : p < W) {f : UPoly ℤ} {F : ℤ[X]} (hf : Is f F) (lF : F.natDegree + 1 < W) (dF : 0 < F.natDegree) (hl : ¬ (p : ℤ) ∣ F.leadingCoeff)
    (hsep : (F.map (Int.castRingHom (ZMod p))).Separable) : ∃ fuel rng fs, (∀ c ∈ rng, c < p) ∧ ∀ k ex, tryPrime (fuel + k) (rng ++ ex) f p = some (some fs) := by
  have hfp := polyMod_is (p := p) hf
  obtain ⟨P, hP⟩ : ∃ P, P = F.map (Int.castRingHom (ZMod p)) := ⟨_, rfl⟩
  have hPr : P = red p F := hP
  have P0 : P ≠ 0 := hPr ▸ red_ne_zero hl
  have dP : P.natDegree = F.natDegree := hPr ▸ red_natDegree hl
  rw [← hP] at hfp hsep
  have hder := derivative_is hfp
  have hd : Upoly.derivative (polyMod p f) ≠ [] := fun hd => by
    have hd0 := (is_nil_iff hder).1 hd
    unfold Separable at hsep
    rw [hd0, isCoprime_zero_right] at hsep
    have := natDegree_eq_zero_of_isUnit hsep
    omega
  obtain ⟨g, D, g1, g2, g3, g4⟩ := gcd_is hW hfp hder (.inl P0) (by omega) (by have := natDegree_derivative_le P; omega)
  have h1 : IsUnit D := hsep.isUnit_of_dvd' g4.1 g4.2.1
  have hg : ¬ deg g > 0 := by
    have := natDegree_eq_zero_of_isUnit h1
    rw [is_deg g2]
    omega
  have hmon := makeMonic_is hfp P0
  obtain ⟨M, hM⟩ : ∃ M, M = C P.leadingCoeff⁻¹ * P := ⟨_, rfl⟩
  have hMm : M.Monic := hM ▸ monic_C_mul P0
  have u : IsUnit (C P.leadingCoeff⁻¹) := isUnit_C.2 (isUnit_iff_ne_zero.2 (inv_ne_zero (leadingCoeff_ne_zero.2 P0)))
  rw [← hM] at hmon
  have hass : Associated M P := by rw [hM]; exact associated_unit_mul_left _ _ u
  have hsf : Squarefree M := hass.squarefree_iff.2 hsep.squarefree
  have dM : M.natDegree = P.natDegree := associated_natDegree hass
  obtain ⟨groups, e1, e2, e3⟩ := ddf_spec hW hmon hMm (by omega) hsf
  have hx : ∀ x ∈ groups, toPoly x.1 ∣ M := fun x hx => e3 ▸ List.dvd_prod (List.mem_map_of_mem (f := fun x : UPoly (ZMod p) × Nat => toPoly x.1) hx)
  obtain ⟨fuel, rng, l, r1, r2⟩ := edfAll_exists hW groups fun x h => ⟨e2 x h, hsf.squarefree_of_dvd (hx x h), by
    have := natDegree_le_of_dvd (hx x h) hMm.ne_zero
    omega⟩
  refine ⟨fuel, rng, l, r1, fun k ex => ?_⟩
  unfold tryPrime
  rw [is_lc hf, if_neg (mt fmod_zero_iff.1 hl)]
  simp only
  rw [if_neg (by rw [is_nil_iff hfp, is_deg hfp, is_deg hf, dP]; simp [P0]), if_neg hd, g1, Option.bind_some, if_neg hg, e1, Option.bind_some, edfAll_mono groups rng l [] r2 k ex]
  rfl

/-- denominators can be cleared -/
theorem clear_den (P : ℚ[X]) : ∃ (A : ℤ[X]) (n : ℤ), n ≠ 0 ∧ A.map (Int.castRingHom ℚ) = C (n : ℚ) * P := by
  obtain ⟨b, h0, hb⟩ := IsLocalization.integerNormalization_spec (nonZeroDivisors ℤ) P
  refine ⟨IsLocalization.integerNormalization (nonZeroDivisors ℤ) P, b, nonZeroDivisors.ne_zero h0, ?_⟩
  rw [show Int.castRingHom ℚ = algebraMap ℤ ℚ from rfl, hb]
  ext i
  simp [Algebra.smul_def]

theorem squarefree_map {F : ℤ[X]} (hF : Squarefree F) (pF : F.IsPrimitive) : Squarefree (F.map (Int.castRingHom ℚ)) := by
  intro D hD
  have hinj : Function.Injective (Int.castRingHom ℚ) := Int.cast_injective
  have D0 : D ≠ 0 := by
    rintro rfl
    rw [zero_mul, zero_dvd_iff, Polynomial.map_eq_zero_iff hinj] at hD
    exact pF.ne_zero hD
  obtain ⟨A, n, n0, hA⟩ := clear_den D
  have n0' : (n : ℚ) ≠ 0 := by exact_mod_cast n0
  have u : IsUnit (C (n : ℚ)) := isUnit_C.2 (isUnit_iff_ne_zero.2 n0')
  have A0 : A ≠ 0 := by
    rintro rfl
    rw [Polynomial.map_zero] at hA
    exact mul_ne_zero u.ne_zero D0 hA.symm
  have e : A = C A.content * A.primPart := A.eq_C_content_mul_primPart
  have u2 : IsUnit (C (A.content : ℚ)) := isUnit_C.2 (isUnit_iff_ne_zero.2 (by exact_mod_cast (content_eq_zero_iff.not.2 A0)))
  have hAD : Associated (A.primPart.map (Int.castRingHom ℚ)) D := by
    have h1 : Associated (A.map (Int.castRingHom ℚ)) D := by rw [hA]; exact associated_unit_mul_left _ _ u
    have h2 : Associated (A.map (Int.castRingHom ℚ)) (A.primPart.map (Int.castRingHom ℚ)) := by
      conv_lhs => rw [e]
      rw [Polynomial.map_mul, map_C]
      exact associated_unit_mul_left _ _ u2
    exact h2.symm.trans h1
  have pp := A.isPrimitive_primPart
  have : A.primPart * A.primPart ∣ F := by
    rw [IsPrimitive.Int.dvd_iff_map_cast_dvd_map_cast _ _ (pp.mul pp), Polynomial.map_mul]
    exact ((hAD.mul_mul hAD).dvd).trans hD
  have hu := hF _ this
  exact hAD.isUnit (hu.map (mapRingHom (Int.castRingHom ℚ)))

/-- the primes to avoid divide a fixed nonzero integer -/
theorem exists_bad {F : ℤ[X]} (hF : Squarefree F) (pF : F.IsPrimitive) : ∃ N : ℤ, N ≠ 0 ∧ ∀ p : Nat, p.Prime → ¬ (p : ℤ) ∣ N → ¬ (p : ℤ) ∣ F.leadingCoeff ∧ (F.map (Int.castRingHom (ZMod p))).Separable := by
  have F0 : F ≠ 0 := pF.ne_zero
  obtain ⟨a, b, hab⟩ := PerfectField.separable_iff_squarefree.2 (squarefree_map hF pF)
  obtain ⟨A, n, n0, hA⟩ := clear_den a
  obtain ⟨B, k, k0, hB⟩ := clear_den b
  have key : C k * A * F + C n * B * Polynomial.derivative F = C (n * k) := by
    apply Polynomial.map_injective (Int.castRingHom ℚ) Int.cast_injective
    rw [Polynomial.map_add, Polynomial.map_mul, Polynomial.map_mul, Polynomial.map_mul, Polynomial.map_mul, map_C, map_C, map_C, hA, hB, ← Polynomial.derivative_map]
    have : C ((Int.castRingHom ℚ) (n * k)) = C (n : ℚ) * C (k : ℚ) := by rw [← C_mul]; simp
    rw [this, ← mul_one (C (n : ℚ) * C (k : ℚ)), ← hab]
    simp only [eq_intCast]
    ring
  refine ⟨F.leadingCoeff * (n * k), mul_ne_zero (leadingCoeff_ne_zero.2 F0) (mul_ne_zero n0 k0), fun p hp hN => ⟨fun h => hN (dvd_mul_of_dvd_left h _), ?_⟩⟩
  have : Fact p.Prime := ⟨hp⟩
  have hu : ((n * k : ℤ) : ZMod p) ≠ 0 := fun h => hN (dvd_mul_of_dvd_right ((ZMod.intCast_zmod_eq_zero_iff_dvd _ _).1 h) _)
  have h1 := congrArg (Polynomial.map (Int.castRingHom (ZMod p))) key
  rw [Polynomial.map_add, Polynomial.map_mul (q := F), Polynomial.map_mul (q := Polynomial.derivative F), map_C (f := Int.castRingHom (ZMod p)) (a := n * k), ← Polynomial.derivative_map] at h1
  refine ⟨C (((n * k : ℤ) : ZMod p)⁻¹) * (C k * A).map (Int.castRingHom (ZMod p)), C (((n * k : ℤ) : ZMod p)⁻¹) * (C n * B).map (Int.castRingHom (ZMod p)), ?_⟩
  rw [mul_assoc, mul_assoc, ← mul_add, h1]
  simp only [eq_intCast]
  rw [← C_mul, inv_mul_cancel₀ hu, C_1]

theorem selectLoop_cons (fuel : Nat) (f : UPoly ℤ) (p : {p : Nat // p.Prime} × List Nat) (ps : List ({p : Nat // p.Prime} × List Nat)) (tried : Nat) (best : Option Sel) :
    selectLoop fuel f (p :: ps) tried best = if tried < 3 then
      haveI : Fact p.1.1.Prime := ⟨p.1.2⟩
      (tryPrime fuel p.2 f p.1.1).bind fun o =>
      match o with
      | none => selectLoop fuel f ps tried best
      | some l =>
        if l.length ≤ 1 then some ⟨p.1.1, ⟨p.1.2⟩, if l = [] then [makeMonic (polyMod p.1.1 f)] else l, true⟩
        else selectLoop fuel f ps (tried + 1) (if best.all (fun b => decide (l.length < b.factors.length)) = true then some ⟨p.1.1, ⟨p.1.2⟩, l, false⟩ else best)
      else best := rfl

/-- what the loop over the primes returns -/
theorem selectLoop_spec {fuel : Nat} {f : UPoly ℤ} {F : ℤ[X]} (hf : Is f F) (lF : F.natDegree + 1 < W) (dF : 0 < F.natDegree) :
    ∀ (ps : List ({p : Nat // p.Prime} × List Nat)) (tried : Nat) (best : Option Sel) (s : Sel), (∀ x ∈ ps, x.1.1 < W ∧ ∀ c ∈ x.2, c < x.1.1) →
      (∀ b, best = some b → (haveI := b.prime; SelOK b.p F b.factors) ∧ (b.irreducible = true → b.factors.length = 1)) → selectLoop fuel f ps tried best = some s →
      (haveI := s.prime; SelOK s.p F s.factors) ∧ (s.irreducible = true → s.factors.length = 1) := by
  intro ps
  induction ps with
  | nil =>
    intro tried best s _ hb h
    have e : selectLoop fuel f [] tried best = if tried < 3 then none else best := rfl
    rw [e] at h
    split at h
    · cases h
    · exact hb s h
  | cons p ps ih =>
    intro tried best s hp hb h
    haveI : Fact p.1.1.Prime := ⟨p.1.2⟩
    have e : selectLoop fuel f (p :: ps) tried best = if tried < 3 then (tryPrime fuel p.2 f p.1.1).bind fun o =>
      match o with
      | none => selectLoop fuel f ps tried best
      | some l =>
        if l.length ≤ 1 then some ⟨p.1.1, ⟨p.1.2⟩, if l = [] then [makeMonic (polyMod p.1.1 f)] else l, true⟩
        else selectLoop fuel f ps (tried + 1) (if best.all (fun b => decide (l.length < b.factors.length)) = true then some ⟨p.1.1, ⟨p.1.2⟩, l, false⟩ else best)
      else best := rfl
    rw [e] at h
    have hps : ∀ x ∈ ps, x.1.1 < W ∧ ∀ c ∈ x.2, c < x.1.1 := fun x hx => hp x (by simp [hx])
    split at h
    · cases et : tryPrime fuel p.2 f p.1.1 with
      | none => rw [et] at h; cases h
      | some o =>
        rw [et, Option.bind_some] at h
        obtain ⟨h1, _⟩ := tryPrime_spec (hp p (by simp)).1 (hp p (by simp)).2 hf lF dF et
        cases o with
        | none => exact ih tried best s hps hb h
        | some l =>
          have hl := h1 l rfl
          have hne : l ≠ [] := by
            rintro rfl
            have h2 := hl.prod
            rw [List.map_nil, List.prod_nil, mul_one] at h2
            have h3 : (red p.1.1 F).natDegree = 0 := by
              show (Polynomial.map _ F).natDegree = 0
              rw [h2, natDegree_C]
            rw [red_natDegree hl.lc] at h3
            omega
          simp only at h
          split at h
          · next hlen =>
            cases h
            refine ⟨hl, fun _ => ?_⟩
            have := List.length_pos_iff.2 hne
            show l.length = 1
            omega
          · refine ih _ _ s hps (fun b hb' => ?_) h
            split at hb'
            · cases hb'
              exact ⟨hl, fun h => (by cases h)⟩
            · exact hb b hb'
    · exact hb s h

/-- a skipped prime needs no random numbers -/
theorem tryPrime_skip {p : Nat} [hp : Fact p.Prime] (hW : p < W) {f : UPoly ℤ} {F : ℤ[X]} (hf : Is f F) (lF : F.natDegree + 1 < W) (dF : 0 < F.natDegree)
    (h : (p : ℤ) ∣ F.leadingCoeff ∨ ¬ (F.map (Int.castRingHom (ZMod p))).Separable) (fuel : Nat) (rng : List Nat) : tryPrime fuel rng f p = some none := by
  unfold tryPrime
  rw [is_lc hf]
  by_cases hl : (p : ℤ) ∣ F.leadingCoeff
  · rw [if_pos (fmod_zero_iff.2 hl)]
  rw [if_neg (mt fmod_zero_iff.1 hl)]
  replace h := h.resolve_left hl
  have hfp := polyMod_is (p := p) hf
  obtain ⟨P, hP⟩ : ∃ P, P = F.map (Int.castRingHom (ZMod p)) := ⟨_, rfl⟩
  have hPr : P = red p F := hP
  have P0 : P ≠ 0 := hPr ▸ red_ne_zero hl
  have dP : P.natDegree = F.natDegree := hPr ▸ red_natDegree hl
  rw [← hP] at hfp h
  have hder := derivative_is hfp
  simp only
  split
  · rfl
  split
  · rfl
  obtain ⟨g, D, g1, g2, g3, g4⟩ := gcd_is hW hfp hder (.inl P0) (by omega) (by have := natDegree_derivative_le P; omega)
  rw [g1, Option.bind_some]
  split
  · rfl
  · next hg =>
    have hD : D = 1 := g3.natDegree_eq_zero.1 (by rw [is_deg g2] at hg; omega)
    refine (h ?_).elim
    refine (EuclideanDomain.isCoprime_of_dvd (fun h => P0 h.1) fun z hz _ h1 h2 => hz ?_)
    exact isUnit_of_dvd_one (hD ▸ g4.2.2 z h1 h2)

/-- the loop over the primes returns, for suitable random numbers, if three of the primes are usable (there are only finitely many primes that are not, `exists_bad`) -/
theorem selectLoop_exists {f : UPoly ℤ} {F : ℤ[X]} (hf : Is f F) (lF : F.natDegree + 1 < W) (dF : 0 < F.natDegree) :
    ∀ (ps : List {p : Nat // p.Prime}) (good : List {p : Nat // p.Prime}) (n : Nat), (∀ p ∈ ps, p.1 < W) → good.Sublist ps → 3 ≤ good.length + n →
      (∀ p ∈ good, ¬ (p.1 : ℤ) ∣ F.leadingCoeff ∧ (F.map (Int.castRingHom (ZMod p.1))).Separable) →
      ∃ fuel qs, qs.map Prod.fst = ps ∧ (∀ x ∈ qs, ∀ c ∈ x.2, c < x.1.1) ∧ ∀ k tried best, n ≤ tried → (3 ≤ tried → best ≠ none) → selectLoop (fuel + k) f qs tried best ≠ none := by
  intro ps
  induction ps with
  | nil =>
    intro good n _ hs hn _
    have := hs.length_le
    simp only [List.length_nil] at this
    refine ⟨0, [], rfl, by simp, fun k tried best ht hb => ?_⟩
    have e : selectLoop (0 + k) f [] tried best = if tried < 3 then none else best := rfl
    rw [e, if_neg (by omega)]
    exact hb (by omega)
  | cons p ps ih =>
    intro good n hW hs hn hg
    have : Fact p.1.Prime := ⟨p.2⟩
    have hW' : ∀ p ∈ ps, p.1 < W := fun q hq => hW q (by simp [hq])
    by_cases hp : ¬ (p.1 : ℤ) ∣ F.leadingCoeff ∧ (F.map (Int.castRingHom (ZMod p.1))).Separable
    · obtain ⟨good', h1, h2, h3⟩ : ∃ good' : List {p : Nat // p.Prime}, good'.Sublist ps ∧ 3 ≤ good'.length + (n + 1) ∧ ∀ p ∈ good', p ∈ good := by
        cases hs with
        | cons _ h => exact ⟨good, h, by omega, fun _ h => h⟩
        | cons_cons _ h => exact ⟨_, h, by simp only [List.length_cons] at hn; omega, fun q hq => by simp [hq]⟩
      obtain ⟨fu, qs, q1, q2, q3⟩ := ih good' (n + 1) hW' h1 h2 fun q hq => hg q (h3 q hq)
      obtain ⟨fu2, rng, fs, r1, r2⟩ := tryPrime_exists (hW p (by simp)) hf lF dF hp.1 hp.2
      refine ⟨fu + fu2, (p, rng) :: qs, by simp [q1], ?_, fun k tried best ht hb => ?_⟩
      · intro x hx
        rcases List.mem_cons.1 hx with rfl | hx
        · exact r1
        · exact q2 x hx
      · rw [selectLoop_cons]
        split
        · have := r2 (fu + k) []
          rw [List.append_nil, show fu2 + (fu + k) = fu + fu2 + k by omega] at this
          rw [this, Option.bind_some]
          simp only
          split
          · simp
          · rw [show fu + fu2 + k = fu + (fu2 + k) by omega]
            refine q3 _ _ _ (by omega) fun h => ?_
            split
            · simp
            · next hb' =>
              intro hbn
              rw [hbn] at hb'
              simp at hb'
        · exact hb (by omega)
    · obtain ⟨fu, qs, q1, q2, q3⟩ := ih good n hW' (by
        cases hs with
        | cons _ h => exact h
        | cons_cons _ h => exact (hp (hg p (by simp))).elim) hn hg
      refine ⟨fu, (p, []) :: qs, by simp [q1], ?_, fun k tried best ht hb => ?_⟩
      · intro x hx
        rcases List.mem_cons.1 hx with rfl | hx
        · simp
        · exact q2 x hx
      · rw [selectLoop_cons]
        split
        · rw [tryPrime_skip (hW p (by simp)) hf lF dF (by tauto), Option.bind_some]
          exact q3 k tried best ht hb
        · exact hb (by omega)

end Upoly
end CLPoly
