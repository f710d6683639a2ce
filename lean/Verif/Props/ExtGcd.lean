import Verif.Gcd.ExtSpec
import Verif.Props.PolyFns

/-!
# Property C96: the extended greatest common divisor of integer polynomials

`polynomial_GCD(F, G, s, t)` and `gcd(F, G, s, t)`.  `gcdExt false vc F G` is the code: it returns the polynomial `c` and the cofactors `s`, `t`.  `gcdExt true` gives up (`some none`) when
a product or a pseudo-division leaves the packed representation; the code then computes with wrapped exponents, which is not modelled.  `IsMain vc f v`: `v` is the first variable of `f`.
-/

namespace CLPoly
open Mono MvPolynomial GcdExt Charset
variable {vc : Var → Var → Bool}

/-- `c`, `s`, `t` are canonical, `s·F + t·G = c`, the leading coefficient of `c` is positive, every common divisor of `F` and `G` divides `c`, for numbers `c` is the greatest common divisor,
and `c` divides both `a·F` and `a·G` for some nonzero `a` in the variables of `F` and `G` that does not contain the variable of the elimination: the first variable of `F` or the first variable
of `G`, whichever comes later in the order (the other operand is constant, or its first variable is the same or comes before). -/
def IsExtGcd (vc : Var → Var → Bool) (F G : MvPolynomial Var ℤ) (c s t : PV Mono ℤ) : Prop :=
  PolyOK vc (lexGt vc) c ∧ PolyOK vc (lexGt vc) s ∧ PolyOK vc (lexGt vc) t ∧
  val s * F + val t * G = val c ∧
  (∃ m a l, c = (m, a) :: l ∧ 0 < a) ∧
  (∀ d, d ∣ F → d ∣ G → d ∣ val c) ∧
  (∀ a b : ℤ, F = C a → G = C b → val c = C (Int.gcd a b : ℤ)) ∧
  ∃ a : MvPolynomial Var ℤ, a ≠ 0 ∧ a.vars ⊆ F.vars ∪ G.vars ∧
    (∀ v, IsMain vc F v → (∀ w, IsMain vc G w → w = v ∨ vc w v = true) → v ∉ a.vars) ∧
    (∀ v, IsMain vc G v → (∀ w, IsMain vc F w → w = v ∨ vc w v = true) → v ∉ a.vars) ∧ val c ∣ a * F ∧ val c ∣ a * G

theorem IsExtGcd.of {f g : MvPolynomial Var ℤ} {c s t : PV Mono ℤ} (h : ExtOut vc f g (c, s, t)) : IsExtGcd vc f g c s t := by
  obtain ⟨p1, p2, p3, ⟨x, l, e, hx⟩, p5, p6, p7⟩ := h
  refine ⟨p1, p2, p3, p5, ⟨x.1, x.2, l, e, hx⟩, fun d d1 d2 => ?_, p6, p7⟩
  rw [show val c = val s * f + val t * g from p5.symm]
  exact dvd_add (d1.mul_left _) (d2.mul_left _)

/-- Nonzero operands in any number of variables: the call ends, and what a run within the packed representation returns is an extended greatest common divisor.
`0` is the null variable, which no polynomial contains. -/
theorem C96_bezout (ho : VarOrd vc) (F G : PV Mono ℤ) (hF : PolyOK vc (lexGt vc) F) (hG : PolyOK vc (lexGt vc) G) (hf : F ≠ []) (hg : G ≠ []) (h0 : 0 ∉ (val F).vars) (h0' : 0 ∉ (val G).vars) :
    ∃ o, gcdExt true vc F G = some o ∧ ∀ c s t, o = some (c, s, t) → gcdExt false vc F G = some (some (c, s, t)) ∧ IsExtGcd vc (val F) (val G) c s t := by
  obtain ⟨o, h1, -, h2⟩ := gcdExt_spec ho hF hG hf hg h0 h0'
  refine ⟨o, h1, fun c s t e => ?_⟩
  subst e
  exact ⟨gcdExt_le F G _ h1, IsExtGcd.of (h2 _ rfl)⟩

/-- One variable, degrees below `2^62`: the code ends, nothing leaves the representation, and `c` is a greatest common divisor over the rationals: it divides `a·F` and `a·G` for some integer `a ≠ 0`,
besides the rest of `IsExtGcd`. -/
theorem C96_one_variable (ho : VarOrd vc) (F G : PV Mono ℤ) (hF : PolyOK vc (lexGt vc) F) (hG : PolyOK vc (lexGt vc) G) (hf : F ≠ []) (hg : G ≠ []) (v : Var) (hv : v ≠ 0)
    (h1 : (val F).vars ⊆ {v}) (h2 : (val G).vars ⊆ {v}) (d1 : (val F).degreeOf v < 2 ^ 62) (d2 : (val G).degreeOf v < 2 ^ 62) :
    ∃ c s t, gcdExt false vc F G = some (some (c, s, t)) ∧ IsExtGcd vc (val F) (val G) c s t ∧ ∃ a : ℤ, a ≠ 0 ∧ val c ∣ C a * val F ∧ val c ∣ C a * val G := by
  have z1 : 0 ∉ (val F).vars := fun h => hv (Finset.mem_singleton.1 (h1 h)).symm
  have z2 : 0 ∉ (val G).vars := fun h => hv (Finset.mem_singleton.1 (h2 h)).symm
  obtain ⟨o, k1, k2, k3⟩ := gcdExt_spec ho hF hG hf hg z1 z2
  cases o with
  | none => exact absurd rfl (k2 ⟨v, ⟨h1, by omega⟩, ⟨h2, by omega⟩⟩)
  | some r =>
    obtain ⟨c, s, t⟩ := r
    have hr := k3 _ rfl
    refine ⟨c, s, t, gcdExt_le F G _ k1, IsExtGcd.of hr, ?_⟩
    obtain ⟨-, -, -, -, -, -, a, a1, a2, a3, a4, a5, a6⟩ := hr
    have hmain : ∀ {p : MvPolynomial Var ℤ}, p.vars ⊆ {v} → v ∈ p.vars → IsMain vc p v := fun hp hm => ⟨hm, fun w hw => .inl (Finset.mem_singleton.1 (hp hw))⟩
    have hval : a.vars = ∅ := by
      rw [Finset.eq_empty_iff_forall_notMem]
      intro u hu
      have hu' := Finset.union_subset h1 h2 (a2 hu)
      rw [Finset.mem_singleton] at hu'
      subst hu'
      rcases Finset.mem_union.1 (a2 hu) with hm | hm
      · exact a3 u (hmain h1 hm) (fun w hw => .inl (Finset.mem_singleton.1 (h2 hw.1))) hu
      · exact a4 u (hmain h2 hm) (fun w hw => .inl (Finset.mem_singleton.1 (h1 hw.1))) hu
    obtain ⟨b, hb⟩ : ∃ b, a = C b := ⟨_, (vars_eq_empty_iff_eq_C).1 hval⟩
    subst hb
    exact ⟨b, fun e => a1 (by rw [e, C_0]), a5, a6⟩

/-- An operand is zero: the other one is returned as it is, whatever its sign -/
theorem C96_zero (G : PV Mono ℤ) : gcdExt false vc [] G = some (some (G, [], [(Mono.one, 1)])) ∧ (G ≠ [] → gcdExt false vc G [] = some (some (G, [(Mono.one, 1)], []))) := by
  refine ⟨rfl, fun h => ?_⟩
  cases G with
  | nil => exact absurd rfl h
  | cons => rfl

set_option synthInstance.maxSize 1000 in
set_option maxRecDepth 100000 in
/-- The returned polynomial need not be a greatest common divisor over the integers: for `2x` and `4x` it is `4x`, which does not divide `2x`. -/
theorem C96_not_gcd : ∃ F G c s t : PV Mono ℤ, PolyOK varLess (lexGt varLess) F ∧ PolyOK varLess (lexGt varLess) G ∧ gcdExt false varLess F G = some (some (c, s, t)) ∧ ¬ val c ∣ val F := by
  refine ⟨[(exXY 1 0, 2)], [(exXY 1 0, 4)], [(exXY 1 0, 4)], [], [(Mono.one, 1)], by decide +kernel, by decide +kernel, by decide +kernel, ?_⟩
  rintro ⟨q, hq⟩
  have h := congrArg (MvPolynomial.eval fun _ => (1 : ℤ)) hq
  rw [map_mul] at h
  simp only [val_cons, val_nil, add_zero, eval_monomial, Finsupp.prod, one_pow, Finset.prod_const_one, mul_one] at h
  omega

set_option synthInstance.maxSize 1000 in
set_option maxRecDepth 100000 in
/-- `x² - y` and `2x + y`: `c = y² - 4y = 4·(x² - y) + (-2x + y)·(2x + y)` -/
example : gcdExt true varLess [(exXY 2 0, 1), (exXY 0 1, -1)] [(exXY 1 0, 2), (exXY 0 1, 1)] =
    some (some ([(exXY 0 2, 1), (exXY 0 1, -4)], [(exXY 0 0, 4)], [(exXY 1 0, -2), (exXY 0 1, 1)])) := by decide +kernel
example : PolyOK varLess (lexGt varLess) [(exXY 2 0, (1 : ℤ)), (exXY 0 1, -1)] ∧ PolyOK varLess (lexGt varLess) [(exXY 1 0, (2 : ℤ)), (exXY 0 1, 1)] := by decide +kernel
set_option synthInstance.maxSize 1000 in
set_option maxRecDepth 100000 in
/-- numbers: `-6` and `15` have `3 = 2·(-6) + 1·15` -/
example : gcdExt true varLess [(exXY 0 0, -6)] [(exXY 0 0, 15)] = some (some ([(exXY 0 0, 3)], [(exXY 0 0, 2)], [(exXY 0 0, 1)])) := by decide +kernel
set_option synthInstance.maxSize 1000 in
set_option maxRecDepth 100000 in
/-- one variable: `x² - 1` and `x² + 2x + 1`; the sign is changed at the end -/
example : gcdExt true varLess [(exXY 2 0, 1), (exXY 0 0, -1)] [(exXY 2 0, 1), (exXY 1 0, 2), (exXY 0 0, 1)] =
    some (some ([(exXY 1 0, 2), (exXY 0 0, 2)], [(exXY 0 0, -1)], [(exXY 0 0, 1)])) := by decide +kernel

end CLPoly
