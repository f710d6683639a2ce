import Verif.Upoly.Edf
import Verif.Upoly.Ext
import Mathlib.Tactic.NormNum.Prime
import Mathlib.Tactic.LinearCombination

/-!
# Properties C41–C43: factorization of univariate polynomials over `Zp`

`Upoly.Is f F` (Upoly/Basic.lean): the term list `f` is in normal form (degrees strictly decreasing, no zero coefficient) and is the polynomial
`F`; `toPoly f` is the sum of its terms.  `Canon comp f` is the normal form alone.  `W = 2^64`.  The hypothesis `natDegree + 1 < W` holds of every
polynomial whose dense image fits in memory; `p < W` because moduli are `uint64_t`.
-/

namespace CLPoly
open Polynomial Upoly
open Dense (IsGcd)

variable {p : Nat} [hp : Fact p.Prime]

/-! ## C41: squarefree decomposition -/

/-- `__squarefree_Zp` on a monic non-constant polynomial terminates (no exception, no failed assertion, recursion depth at most the degree);
the product of the powers is `f`; the parts are monic, non-constant, squarefree, pairwise coprime and have pairwise different positive
exponents. -/
theorem C41_squarefree (hW : p < W) {f : UPoly (ZMod p)} {F : (ZMod p)[X]} (hf : Is f F) (hm : F.Monic) (hd : 0 < F.natDegree)
    (lF : F.natDegree + 1 < W) :
    ∃ l, squarefree p F.natDegree f = some l ∧ (l.map fun x => toPoly x.1 ^ x.2).prod = F ∧
      (∀ x ∈ l, Canon comp x.1 ∧ (toPoly x.1).Monic ∧ 0 < (toPoly x.1).natDegree ∧ Squarefree (toPoly x.1) ∧ 0 < x.2) ∧
      l.Pairwise fun x y => IsCoprime (toPoly x.1) (toPoly y.1) ∧ x.2 ≠ y.2 := by
  obtain ⟨l, h1, h2⟩ := squarefree_spec hW F.natDegree f F hf hm hd le_rfl lF
  exact ⟨l, h1, h2.prod hm, fun x hx => ⟨(h2.entry x hx).canon, (h2.entry x hx).monic, (h2.entry x hx).deg, h2.squarefree x hx,
    (h2.entry x hx).exp⟩, h2.coprime⟩

/-- the parts are exactly the products of the irreducible factors of a given multiplicity: an irreducible `P` divides the part with exponent
`e` iff its multiplicity in `f` is `e` -/
theorem C41_squarefree_parts (hW : p < W) {f : UPoly (ZMod p)} {F : (ZMod p)[X]} (hf : Is f F) (hm : F.Monic) (hd : 0 < F.natDegree)
    (lF : F.natDegree + 1 < W) :
    ∃ l, squarefree p F.natDegree f = some l ∧ ∀ x ∈ l, ∀ P : (ZMod p)[X], Irreducible P → P.Monic →
      (P ∣ toPoly x.1 ↔ P ^ x.2 ∣ F ∧ ¬ P ^ (x.2 + 1) ∣ F) := by
  obtain ⟨l, h1, h2⟩ := squarefree_spec hW F.natDegree f F hf hm hd le_rfl lF
  refine ⟨l, h1, fun x hx P hP hPm => ?_⟩
  rw [dvd_iff_vm hP (h2.entry x hx).monic.ne_zero, (h2.entry x hx).vm P hP hPm, pow_dvd_iff hP hm.ne_zero, pow_dvd_iff hP hm.ne_zero]
  split <;> omega

/-- the fuel of the model does not matter: with more of it the result is the same kind -/
theorem C41_squarefree_any_fuel (hW : p < W) {f : UPoly (ZMod p)} {F : (ZMod p)[X]} (hf : Is f F) (hm : F.Monic) (hd : 0 < F.natDegree)
    (lF : F.natDegree + 1 < W) {n : Nat} (hn : F.natDegree ≤ n) :
    ∃ l, squarefree p n f = some l ∧ (l.map fun x => toPoly x.1 ^ x.2).prod = F := by
  obtain ⟨l, h1, h2⟩ := squarefree_spec hW n f F hf hm hd hn lF
  exact ⟨l, h1, h2.prod hm⟩

/-! ## C42: distinct-degree, equal-degree, complete factorization -/

/-- `__ddf_Zp` on a monic squarefree polynomial: the groups multiply back to `f`; each is monic and non-constant, and every irreducible factor of the
group with number `d` has degree `d`. -/
theorem C42_ddf (hW : p < W) {f : UPoly (ZMod p)} {F : (ZMod p)[X]} (hf : Is f F) (hm : F.Monic) (lF : F.natDegree + 1 < W) (hsf : Squarefree F) :
    ∃ l, ddf p f = some l ∧ (l.map fun x => toPoly x.1).prod = F ∧
      ∀ x ∈ l, Canon comp x.1 ∧ (toPoly x.1).Monic ∧ 0 < (toPoly x.1).natDegree ∧ ∀ P, Irreducible P → P ∣ toPoly x.1 → P.natDegree = x.2 := by
  obtain ⟨l, h1, h2, h3⟩ := ddf_spec hW hf hm lF hsf
  exact ⟨l, h1, h3, fun x hx => ⟨(h2 x hx).canon, (h2 x hx).monic, (h2 x hx).deg, (h2 x hx).all⟩⟩

/-- `__edf_Zp`, for every random stream on which it terminates: irreducible monic factors of degree `d` whose product is `f`. -/
theorem C42_edf (hW : p < W) {f : UPoly (ZMod p)} {F : (ZMod p)[X]} {d : Nat} (hf : Is f F) (hm : F.Monic) (lF : F.natDegree + 1 < W)
    (hall : ∀ P, Irreducible P → P ∣ F → P.natDegree = d) (hd : 0 < d) {rng : List Nat} (hr : ∀ c ∈ rng, c < p) {fuel : Nat}
    {l : List (UPoly (ZMod p))} {rng' : List Nat} (h : edf p fuel f d rng = some (l, rng')) :
    (l.map toPoly).prod = F ∧ ∀ g ∈ l, Canon comp g ∧ (toPoly g).Monic ∧ Irreducible (toPoly g) ∧ (toPoly g).natDegree = d := by
  obtain ⟨h1, h2, _⟩ := edf_spec hW fuel f F d rng l rng' hf hm lF hall hd hr h
  exact ⟨h2, h1⟩

/-- There is always a random stream on which `__edf_Zp` terminates, and it then ignores what follows it in the stream. -/
theorem C42_edf_can_finish (hW : p < W) {f : UPoly (ZMod p)} {F : (ZMod p)[X]} {d : Nat} (hf : Is f F) (hm : F.Monic) (lF : F.natDegree + 1 < W)
    (hsf : Squarefree F) (hall : ∀ P, Irreducible P → P ∣ F → P.natDegree = d) (hd : 0 < d) :
    ∃ fuel rng l, (∀ c ∈ rng, c < p) ∧ ∀ k ex, edf p (fuel + k) f d (rng ++ ex) = some (l, ex) := by
  obtain ⟨fuel, rng, l, h1, h2⟩ := edf_exists hW hd _ f F hf hm lF hsf hall rfl
  refine ⟨fuel, rng, l, h1, fun k ex => ?_⟩
  have := edf_mono _ _ _ _ _ _ h2 k ex
  simpa using this

/-- `__factor_Zp`, for every non-zero polynomial and every random stream on which it terminates: the scalar is the leading coefficient, scalar times
product of powers is `f`, the factors are monic irreducible and pairwise different, the exponents positive. -/
theorem C42_factor (hW : p < W) {f : UPoly (ZMod p)} {F : (ZMod p)[X]} (hf : Is f F) (h0 : F ≠ 0) (lF : F.natDegree + 1 < W)
    {sort : List (UPoly (ZMod p) × Nat) → List (UPoly (ZMod p) × Nat)} (hsort : ∀ l, (sort l).Perm l) {fuel : Nat} {rng : List Nat}
    (hr : ∀ c ∈ rng, c < p) {c : ZMod p} {l : List (UPoly (ZMod p) × Nat)} (h : factor p sort fuel rng f = some (c, l)) :
    c = F.leadingCoeff ∧ C c * (l.map fun g => toPoly g.1 ^ g.2).prod = F ∧
    (∀ g ∈ l, Canon comp g.1 ∧ (toPoly g.1).Monic ∧ Irreducible (toPoly g.1) ∧ 0 < g.2) ∧ l.Pairwise fun a b => toPoly a.1 ≠ toPoly b.1 :=
  factor_spec hW hf h0 lF hsort hr h

/-- hence the factors with their exponents are the same for all random streams and all sorting algorithms, up to order -/
theorem C42_factor_deterministic (hW : p < W) {f : UPoly (ZMod p)} {F : (ZMod p)[X]} (hf : Is f F) (h0 : F ≠ 0) (lF : F.natDegree + 1 < W)
    {sort sort' : List (UPoly (ZMod p) × Nat) → List (UPoly (ZMod p) × Nat)} (hsort : ∀ l, (sort l).Perm l) (hsort' : ∀ l, (sort' l).Perm l)
    {fuel fuel' : Nat} {rng rng' : List Nat} (hr : ∀ c ∈ rng, c < p) (hr' : ∀ c ∈ rng', c < p) {c c' : ZMod p}
    {l l' : List (UPoly (ZMod p) × Nat)} (h : factor p sort fuel rng f = some (c, l)) (h' : factor p sort' fuel' rng' f = some (c', l')) :
    c = c' ∧ ∀ x, x ∈ l ↔ x ∈ l' := by
  have key : ∀ {c : ZMod p} {l : List (UPoly (ZMod p) × Nat)}, C c * (l.map fun g => toPoly g.1 ^ g.2).prod = F →
      (∀ g ∈ l, Canon comp g.1 ∧ (toPoly g.1).Monic ∧ Irreducible (toPoly g.1) ∧ 0 < g.2) → l.Pairwise (fun a b => toPoly a.1 ≠ toPoly b.1) →
      ∀ x : UPoly (ZMod p) × Nat, x ∈ l ↔ Canon comp x.1 ∧ (toPoly x.1).Monic ∧ Irreducible (toPoly x.1) ∧ 0 < x.2 ∧ vm (toPoly x.1) F = x.2 := by
    intro c l a1 a2 a3 x
    have c0 : C c ≠ 0 := by rintro h; rw [h, zero_mul] at a1; exact h0 a1.symm
    have hv : ∀ P : (ZMod p)[X], Irreducible P → P.Monic → vm P F = (l.map fun g => g.2 * if toPoly g.1 = P then 1 else 0).sum := by
      intro P hP hPm
      have hprod0 : ∀ y ∈ l.map fun g => toPoly g.1 ^ g.2, y ≠ 0 := by
        intro y hy
        obtain ⟨g, hg, rfl⟩ := List.mem_map.1 hy
        exact pow_ne_zero _ (a2 g hg).2.1.ne_zero
      have hpr : (l.map fun g => toPoly g.1 ^ g.2).prod ≠ 0 := fun h => by rw [h, mul_zero] at a1; exact h0 a1.symm
      have hc0 : vm P (C c) = 0 := by
        by_contra hne
        have hd := (dvd_iff_vm hP c0).2 hne
        have hu : IsUnit (C c) := isUnit_C.2 (isUnit_iff_ne_zero.2 (by rintro rfl; simp at c0))
        exact hP.not_isUnit (isUnit_of_dvd_unit hd hu)
      rw [← a1, vm_mul hP c0 hpr, hc0, zero_add, vm_prod hP _ hprod0, List.map_map]
      congr 1
      refine List.map_congr_left fun g hg => ?_
      obtain ⟨b1, b2, b3, b4⟩ := a2 g hg
      show vm P (toPoly g.1 ^ g.2) = _
      rw [vm_pow hP b2.ne_zero]
      congr 1
      split
      · rename_i e; rw [e]; exact vm_eq_of hP hP.ne_zero fun k => ⟨fun h => by
          have := natDegree_le_of_dvd h hP.ne_zero
          rw [natDegree_pow] at this
          have := hP.natDegree_pos
          nlinarith, fun h => (pow_dvd_pow P h).trans (by simp)⟩
      · rename_i e
        by_contra hne
        have hd := (dvd_iff_vm hP b2.ne_zero).2 hne
        exact e (eq_of_monic_of_associated b2 hPm (hP.associated_of_dvd b3 hd).symm)
    have hsum : ∀ (m : List (UPoly (ZMod p) × Nat)) (P : (ZMod p)[X]), m.Pairwise (fun a b => toPoly a.1 ≠ toPoly b.1) → ∀ y ∈ m, toPoly y.1 = P →
        (m.map fun g => g.2 * if toPoly g.1 = P then 1 else 0).sum = y.2 := by
      intro m P hm y hy hyP
      induction m with
      | nil => simp at hy
      | cons z m ih =>
        obtain ⟨n1, n2⟩ := List.pairwise_cons.1 hm
        rw [List.map_cons, List.sum_cons]
        rcases List.mem_cons.1 hy with rfl | hy
        · rw [if_pos hyP, mul_one, List.sum_eq_zero, add_zero]
          intro s hs
          obtain ⟨w, hw, rfl⟩ := List.mem_map.1 hs
          rw [if_neg fun e => n1 w hw (hyP.trans e.symm), mul_zero]
        · rw [if_neg fun e => n1 y hy (e.trans hyP.symm), mul_zero, zero_add, ih n2 hy]
    constructor
    · intro hx
      obtain ⟨b1, b2, b3, b4⟩ := a2 x hx
      exact ⟨b1, b2, b3, b4, by rw [hv _ b3 b2, hsum l _ a3 x hx rfl]⟩
    · rintro ⟨b1, b2, b3, b4, b5⟩
      by_cases hex : ∃ y ∈ l, toPoly y.1 = toPoly x.1
      · obtain ⟨y, hy, e⟩ := hex
        rw [hv _ b3 b2, hsum l _ a3 y hy e] at b5
        have e1 : y.1 = x.1 := Upoly.is_unique (is_of_canon (a2 y hy).1) ⟨b1, e.symm⟩
        have : y = x := Prod.ext e1 b5
        exact this ▸ hy
      · exfalso
        rw [hv _ b3 b2, List.sum_eq_zero] at b5
        · omega
        · intro s hs
          obtain ⟨w, hw, rfl⟩ := List.mem_map.1 hs
          rw [if_neg fun e => hex ⟨w, hw, e⟩, mul_zero]
  obtain ⟨a1, a2, a3, a4⟩ := factor_spec hW hf h0 lF hsort hr h
  obtain ⟨b1, b2, b3, b4⟩ := factor_spec hW hf h0 lF hsort' hr' h'
  exact ⟨a1.trans b1.symm, fun x => (key a2 a3 a4 x).trans (key b2 b3 b4 x).symm⟩

/-- There is always a random stream on which `__factor_Zp` terminates (in particular no assertion fails and no exception is thrown on the way), and what
follows in the stream does not change the result. -/
theorem C42_factor_can_finish (hW : p < W) {f : UPoly (ZMod p)} {F : (ZMod p)[X]} (hf : Is f F) (h0 : F ≠ 0) (lF : F.natDegree + 1 < W)
    (sort : List (UPoly (ZMod p) × Nat) → List (UPoly (ZMod p) × Nat)) :
    ∃ fuel rng out, (∀ c ∈ rng, c < p) ∧ ∀ k ex, factor p sort (fuel + k) (rng ++ ex) f = some out := factor_exists hW hf h0 lF sort

/-- `polynomial_GCD` over `Zp`: the monic greatest common divisor; only both operands zero is excluded -/
theorem C42_gcd (hW : p < W) {f g : UPoly (ZMod p)} {F G : (ZMod p)[X]} (hf : Is f F) (hg : Is g G) (h0 : F ≠ 0 ∨ G ≠ 0) (lf : F.natDegree + 1 < W)
    (lg : G.natDegree + 1 < W) : ∃ d D, gcd p f g = some d ∧ Is d D ∧ D.Monic ∧ D ∣ F ∧ D ∣ G ∧ ∀ E, E ∣ F → E ∣ G → E ∣ D := by
  obtain ⟨d, D, h1, h2, h3, h4⟩ := gcd_is hW hf hg h0 lf lg
  exact ⟨d, D, h1, h2, h3, h4.1, h4.2.1, fun E => h4.2.2 E⟩

/-- the extended gcd over `Zp`: monic gcd and Bézout coefficients -/
theorem C42_extGcd {f g : UPoly (ZMod p)} {F G : (ZMod p)[X]} (hf : Is f F) (hg : Is g G) (f0 : F ≠ 0) (g0 : G ≠ 0) :
    ∃ r s t D S T, extGcd f g = some (r, s, t) ∧ Is r D ∧ Is s S ∧ Is t T ∧ D.Monic ∧ D ∣ F ∧ D ∣ G ∧ (∀ E, E ∣ F → E ∣ G → E ∣ D) ∧
      S * F + T * G = D := by
  obtain ⟨r, s, t, D, S, T, h1, h2, h3, h4, h5, h6, h7⟩ := extGcd_spec hf hg f0 g0
  exact ⟨r, s, t, D, S, T, h1, h2, h3, h4, h5, h6.1, h6.2.1, fun E => h6.2.2 E, h7⟩

/-! ## C43: modular exponentiation and the arithmetic below it -/

/-- `__upoly_powmod(b, e, m)` is congruent to `b^e` modulo `m`; for `e > 0` it is the remainder. -/
theorem C43_powmod {b m : UPoly (ZMod p)} {B M : (ZMod p)[X]} (hb : Is b B) (hm : Is m M) (m0 : M ≠ 0) (e : Nat) :
    ∃ r R, powmod b e m = some r ∧ Is r R ∧ M ∣ R - B ^ e ∧ (0 < e → R = B ^ e % M) := by
  obtain ⟨r, h1, h2⟩ := powmod_is hb hm m0 e
  refine ⟨r, _, h1, h2, ?_, fun he => if_neg (by omega)⟩
  split
  · rename_i h; subst h; simp
  · exact ⟨-(B ^ e / M), by have := EuclideanDomain.div_add_mod (B ^ e) M; linear_combination this⟩

/-- addition, subtraction, multiplication, negation, scaling, derivative of sparse univariate polynomials over `Zp`, ... -/
theorem C43_upoly_ring {f g : UPoly (ZMod p)} {F G : (ZMod p)[X]} (hf : Is f F) (hg : Is g G) (c : ZMod p) :
    Is (add f g) (F + G) ∧ Is (sub f g) (F - G) ∧ Is (mul f g) (F * G) ∧ Is (neg f) (-F) ∧ Is (scale f c) (C c * F) ∧
    Is (Upoly.derivative f) (Polynomial.derivative F) ∧ assign f c = F.eval c :=
  ⟨add_is hf hg, sub_is hf hg, mul_is hf hg, neg_is hf, scale_is hf c, derivative_is hf, by rw [assign_eq, hf.eq]⟩

/-- ... and over the integers -/
theorem C43_upoly_ring_int {f g : UPoly ℤ} {F G : ℤ[X]} (hf : Is f F) (hg : Is g G) (c : ℤ) :
    Is (add f g) (F + G) ∧ Is (sub f g) (F - G) ∧ Is (mul f g) (F * G) ∧ Is (neg f) (-F) ∧ Is (scale f c) (C c * F) ∧
    Is (Upoly.derivative f) (Polynomial.derivative F) ∧ assign f c = F.eval c :=
  ⟨add_is hf hg, sub_is hf hg, mul_is hf hg, neg_is hf, scale_is hf c, derivative_is hf, by rw [assign_eq, hf.eq]⟩

/-- division with remainder over `Zp` -/
theorem C43_upoly_div {f g : UPoly (ZMod p)} {F G : (ZMod p)[X]} (hf : Is f F) (hg : Is g G) (h0 : G ≠ 0) :
    ∃ q r, divRem divF f g = some (q, r) ∧ Is q (F / G) ∧ Is r (F % G) := divRem_is hf hg h0

/-! ## the hypotheses are met -/

instance : Fact (Nat.Prime 7) := ⟨by norm_num⟩

/-- for `e = 0` and a constant modulus the result is 1, not the remainder 0 -/
theorem C43_powmod_zero_const : powmod (R := ZMod 7) [(1, 1)] 0 [(0, 3)] = some [(0, 1)] ∧ (1 : (ZMod 7)[X]) % (C 3 : (ZMod 7)[X]) = 0 := by
  constructor
  · decide +kernel
  · rw [EuclideanDomain.mod_eq_zero]
    exact (isUnit_C.2 (isUnit_iff_ne_zero.2 (by decide))).dvd

/-- `X^2 + 1` over `Z/7` -/
example : Is ([(2, 1), (0, 1)] : UPoly (ZMod 7)) (X ^ 2 + 1) ∧ (X ^ 2 + 1 : (ZMod 7)[X]).Monic := by
  have h : Is ([(2, 1), (0, 1)] : UPoly (ZMod 7)) (X ^ 2 + 1) :=
    ⟨⟨by decide, by decide⟩, by simp [toPoly, monomial_one_right_eq_X_pow]⟩
  refine ⟨h, ?_⟩
  unfold Monic
  rw [← is_lc h]; rfl

/-- evaluating the model: `X^3 (X+1)` over `Z/7` has the squarefree parts `X + 1` and `X^3` -/
example : (7 : Nat) < W ∧ squarefree 7 4 [(4, 1), (3, 1)] = some [([(1, 1), (0, 1)], 1), ([(1, 1)], 3)] := by
  constructor
  · decide
  · decide +kernel

end CLPoly
