import Verif.Lift.Mdp
import Verif.Lift.Vdm
import Verif.Lift.Theta

/-!
# C83 (diophantine equation in one variable), C84 (transposed Vandermonde systems), C85 (evaluation at powers of a point)

The linear algebra of the multivariate Hensel lifting (polynomial_factorize_wang.hh).  `some (some r)`: the function returns `true` and writes `r`; `some none`: it returns `false`; `none`: undefined behaviour.
-/

namespace CLPoly
open Upoly Polynomial

local notation "Iss" => List.Forall₂ Is

/-! ## C83 -/

section mdp
variable {R : Type*} [DecidableEq R] [Field R]

/-- **specification**: `Σ sᵢ · ∏_{l ≠ i} Fₗ` -/
noncomputable def cofSum (s F : List R[X]) : R[X] := ∑ i ∈ Finset.range F.length, s.getD i 0 * (F.eraseIdx i).prod

/-- **specification**: each `sᵢ` has a smaller degree than `Fᵢ` -/
def SmallDeg (s F : List R[X]) : Prop := s.length = F.length ∧ ∀ i < F.length, (s.getD i 0).degree < (F.getD i 0).degree

theorem smallDeg_zip {s F : List R[X]} (h : s.length = F.length) : (∀ x ∈ List.zip s F, x.1.degree < x.2.degree) ↔ SmallDeg s F := by
  constructor
  · refine fun hx => ⟨h, fun i hi => ?_⟩
    rw [List.getD_eq_getElem _ _ (by omega), List.getD_eq_getElem _ _ hi]
    have hz : i < (s.zip F).length := by rw [List.length_zip]; omega
    have := hx (s.zip F)[i] (List.getElem_mem hz)
    rwa [List.getElem_zip] at this
  · rintro ⟨_, hx⟩ x hm
    obtain ⟨i, hi, rfl⟩ := List.getElem_of_mem hm
    rw [List.length_zip] at hi
    have := hx i (by omega)
    rw [List.getD_eq_getElem _ _ (by omega), List.getD_eq_getElem _ _ (by omega)] at this
    rwa [List.getElem_zip]

/-- Pairwise coprime factors: the function answers, with small degrees, and with a solution modulo the product; an exact one when the right hand side has a smaller degree than the product -/
theorem C83_mdp_solves {f : List (UPoly R)} {F : List R[X]} {c : UPoly R} {C : R[X]} (hf : Iss f F) (h2 : 2 ≤ F.length) (h0 : ∀ G ∈ F, G ≠ 0) (hc : Is c C) (hcop : F.Pairwise IsCoprime) :
    ∃ r S, Lift.univarMdp f c = some (some r) ∧ Iss r S ∧ SmallDeg S F ∧ F.prod ∣ C - cofSum S F ∧ (C.degree < F.prod.degree → cofSum S F = C) := by
  obtain ⟨r, P, h3, h4, h5, h6, h7, h8⟩ := (Lift.univarMdp_spec hf h2 h0 hc).1 (Or.inl hcop)
  have e : cofSum P F = Lift.comb P F := (Lift.comb_eq_sum h5).symm
  exact ⟨r, P, h3, h4, (smallDeg_zip h5).1 h6, by rwa [e], fun h => by rw [e]; exact h8 h⟩

/-- … the only solution with small degrees -/
theorem C83_mdp_unique {F S S' : List R[X]} (h0 : ∀ G ∈ F, G ≠ 0) (hcop : F.Pairwise IsCoprime) (hS : SmallDeg S F) (hS' : SmallDeg S' F) (h : F.prod ∣ cofSum S F - cofSum S' F) : S = S' := by
  have e : cofSum S F = Lift.comb S F := (Lift.comb_eq_sum hS.1).symm
  have e' : cofSum S' F = Lift.comb S' F := (Lift.comb_eq_sum hS'.1).symm
  refine Lift.comb_unique hS.1 hS'.1 hcop h0 ((smallDeg_zip hS.1).2 hS) ((smallDeg_zip hS'.1).2 hS') ?_
  rw [e, e'] at h
  have d1 := Lift.comb_degree hS.1 h0 ((smallDeg_zip hS.1).2 hS)
  have d2 := Lift.comb_degree hS'.1 h0 ((smallDeg_zip hS'.1).2 hS')
  exact sub_eq_zero.1 (eq_zero_of_dvd_of_degree_lt h ((degree_sub_le _ _).trans_lt (max_lt d1 d2)))

/-- If two factors are not coprime, the function returns `false` for every right hand side but zero -/
theorem C83_mdp_refuses {f : List (UPoly R)} {F : List R[X]} {c : UPoly R} {C : R[X]} (hf : Iss f F) (h2 : 2 ≤ F.length) (h0 : ∀ G ∈ F, G ≠ 0) (hc : Is c C) (hcop : ¬ F.Pairwise IsCoprime) (hC : C ≠ 0) :
    Lift.univarMdp f c = some none := (Lift.univarMdp_spec hf h2 h0 hc).2 hcop hC

/-- a case: `x`, `x + 1`, `x + 2` over ℚ and the right hand side 1 -/
example : Lift.univarMdp (R := ℚ) [[(1, 1)], [(1, 1), (0, 1)], [(1, 1), (0, 2)]] [(0, 1)] = some (some [[(0, 1 / 2)], [(0, -1)], [(0, 1 / 2)]]) := by decide +kernel

/-- a case with a common factor -/
example : Lift.univarMdp (R := ℚ) [[(1, 1)], [(2, 1), (1, 1)]] [(0, 1)] = some none := by decide +kernel

end mdp

/-! ## C84 -/

section vdm
variable {R : Type*} [DecidableEq R] [Field R]

/-- **specification**: `c` solves `values[l] = Σ_t c_t · θ_t^(l+1)` -/
def SolvesVdm (values thetas c : List R) : Prop :=
  c.length = values.length ∧ ∀ l < values.length, values.getD l 0 = ∑ t ∈ Finset.range values.length, c.getD t 0 * thetas.getD t 0 ^ (l + 1)

/-- Distinct non-zero nodes: the solver returns the solution -/
theorem C84_vandermonde_solves {values thetas : List R} (h0 : values ≠ []) (hl : thetas.length = values.length) (hn : thetas.Nodup) (hz : (0 : R) ∉ thetas) :
    ∃ c, Lift.vandermonde values thetas = some (some c) ∧ SolvesVdm values thetas c ∧ ∀ c', SolvesVdm values thetas c' → c' = c := by
  obtain ⟨c, h1, h2, h3⟩ := (Lift.vandermonde_spec h0 hl).1 ⟨hn, hz⟩
  refine ⟨c, h1, ⟨h2, fun l hl => (h3 l hl).symm⟩, fun c' hc => ?_⟩
  have key := Lift.vandermonde_unique (s := values.length) (th := fun t => thetas.getD t 0) (x := fun t => c'.getD t 0) (y := fun t => c.getD t 0) (fun i hi j hj e => by
      rw [List.getD_eq_getElem _ _ (by omega), List.getD_eq_getElem _ _ (by omega)] at e
      exact (List.Nodup.getElem_inj_iff hn).1 e) (fun i hi e => by
      rw [List.getD_eq_getElem _ _ (by omega)] at e
      exact hz (e ▸ List.getElem_mem _)) fun l hl => by rw [← hc.2 l hl, h3 l hl]
  refine List.ext_getElem (by rw [hc.1, h2]) fun i hi hi' => ?_
  have := key i (by rw [← h2]; exact hi')
  rwa [List.getD_eq_getElem _ _ hi, List.getD_eq_getElem _ _ hi'] at this

/-- Otherwise it returns `false` -/
theorem C84_vandermonde_refuses {values thetas : List R} (h0 : values ≠ []) (hl : thetas.length = values.length) (h : ¬ (thetas.Nodup ∧ (0 : R) ∉ thetas)) :
    Lift.vandermonde values thetas = some none := (Lift.vandermonde_spec h0 hl).2 h

/-- `1·2^l + 3·5^l` -/
example : Lift.vandermonde (R := ℚ) [17, 79] [2, 5] = some (some [1, 3]) := by decide +kernel

example : Lift.vandermonde (R := ℚ) [17, 79] [2, 2] = some none := by decide +kernel

example : Lift.vandermonde (R := ℚ) [17, 79] [2, 0] = some none := by decide +kernel

end vdm

/-! ## C85 -/

section theta
variable {R : Type*} [DecidableEq R] [CommRing R]

/-- **specification**: the point at which the image number `l` is taken: `x1` stays, `auxᵢ` gets `βᵢ^l`, any other variable 1 -/
noncomputable def powPt (x1 : Var) (aux : List Var) (betas : List R) (l : ℕ) (w : Var) : R[X] :=
  if w = x1 then X else C (((aux.zip betas).lookup w).getD 1 ^ l)

/-- The images are those of the polynomial, in normal form -/
theorem C85_images {vc : Var → Var → Bool} (ho : Mono.VarOrd vc) {f : PV Mono R} (hf : ∀ t ∈ f, Mono.Valid vc t.1) {x1 : Var} {aux : List Var} {betas : List R} (hl : aux.length = betas.length) (hn : aux.Nodup) (hx : x1 ∉ aux) (s : ℕ) :
    ∃ im, Lift.thetaEval f x1 aux betas s = some im ∧ im.length = s ∧
      ∀ l, 1 ≤ l → l ≤ s → Is (im.getD (l - 1) []) (MvPolynomial.eval₂ C (powPt x1 aux betas l) (val f)) := by
  obtain ⟨im, h1, h2, h3⟩ := Lift.thetaEval_spec ho hf hl hn hx s
  refine ⟨im, h1, h2, fun l h4 h5 => ?_⟩
  have := h3 (l - 1) (by omega)
  rwa [show l - 1 + 1 = l by omega] at this

/-- `x₁·x₂ + x₁·x₃ + 1` with `(x₂, x₃) = (2^l, 3^l)`: `5·x + 1`, `13·x + 1` -/
example : Lift.thetaEval (R := ℤ) [(⟨[(1, 1), (2, 1)], 2⟩, 1), (⟨[(1, 1), (3, 1)], 2⟩, 1), (⟨[], 0⟩, 1)] 1 [2, 3] [2, 3] 2 = some [[(1, 5), (0, 1)], [(1, 13), (0, 1)]] := by decide +kernel

end theta

end CLPoly
