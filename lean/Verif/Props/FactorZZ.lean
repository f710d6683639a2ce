import Verif.Upoly.HenselLift
import Verif.Upoly.Driver

/-! # C44 (integer helpers), C45 (Hensel lifting), C46 (factorization over ℤ of primitive polynomials; `factorize` itself is in FactorAll.lean), C63 (irreducibility)

`Is f F`: the pair vector `f` is in normal form and denotes `F`.  Congruence modulo `m` is written `C m ∣ A - B`: all coefficients of `A - B` are divisible by `m`. -/

namespace CLPoly
open Upoly Polynomial

/-! ## C44 -/

/-- `__symmetric_mod(a, m)`: the only integer congruent to `a` in `(-m/2, m/2]` -/
theorem C44_symmetric_mod (a m : ℤ) (hm : 0 < m) :
    (m ∣ symMod a m - a ∧ -m < 2 * symMod a m ∧ 2 * symMod a m ≤ m) ∧ ∀ r, m ∣ r - a → -m < 2 * r → 2 * r ≤ m → r = symMod a m :=
  ⟨symMod_spec a hm, fun _ h1 h2 h3 => (symMod_unique hm h1 h2 h3).symm⟩

/-- on polynomials: coefficient by coefficient, in normal form -/
theorem C44_symmetric_mod_poly {m : ℤ} (hm : 0 < m) {f : UPoly ℤ} {F : ℤ[X]} (h : Is f F) :
    ∃ H, Is (polySymMod m f) H ∧ ∀ i, m ∣ H.coeff i - F.coeff i ∧ -m < 2 * H.coeff i ∧ 2 * H.coeff i ≤ m := by
  obtain ⟨H, h1, h2⟩ := polySymMod_is hm h
  exact ⟨H, h1, fun i => by rw [h2]; exact symMod_spec _ hm⟩

/-- `__isqrt_ceil(n)` returns, for every integer, the least `r ≥ 0` with `r² ≥ n` -/
theorem C44_isqrt_ceil (n : ℤ) : ∃ r, isqrtCeil n = some r ∧ 0 ≤ r ∧ n ≤ r * r ∧ ∀ k, 0 ≤ k → k < r → k * k < n := isqrtCeil_spec n

/-- `__binomial(n, k)` is the binomial coefficient, and `0` outside `0 ≤ k ≤ n` -/
theorem C44_binomial : (∀ n k : ℕ, binomialZ n k = n.choose k) ∧ ∀ n k : ℤ, (k < 0 ∨ k > n) → binomialZ n k = 0 := ⟨binomialZ_spec, fun _ _ => binomialZ_zero⟩

/-- `__mignotte_bound(f)` is `C(n, ⌊n/2⌋)·⌈‖f‖₂⌉` and bounds every coefficient of every divisor of `f` in ℤ[x] -/
theorem C44_mignotte {f : UPoly ℤ} {F : ℤ[X]} (h : Is f F) (h0 : F ≠ 0) :
    ∃ B r, mignotte f = some B ∧ B = (F.natDegree.choose (F.natDegree / 2) : ℤ) * r ∧
      (0 ≤ r ∧ ∑ i ∈ F.support, F.coeff i ^ 2 ≤ r * r ∧ ∀ k, 0 ≤ k → k < r → k * k < ∑ i ∈ F.support, F.coeff i ^ 2) ∧
      ∀ G, G ∣ F → ∀ i, |G.coeff i| ≤ B := by
  obtain ⟨B, h1, _, h2, r, r0, r1, r2, r3⟩ := mignotte_spec h h0
  exact ⟨B, r, h1, r1, ⟨r0, r2, r3⟩, h2⟩

example : symMod (-7) 12 = 5 ∧ symMod 6 12 = 6 ∧ symMod 7 12 = -5 ∧ binomialZ 10 4 = 210 := by decide +kernel
example : Is ([(2, 2), (0, -3)] : UPoly ℤ) (toPoly [(2, 2), (0, -3)]) := ⟨⟨by simp [Upoly.comp], by simp⟩, rfl⟩

/-! ## C45 -/

/-- division modulo `m` (leading coefficient of the divisor invertible): always returns `q`, `r` with `f ≡ q·g + r`, `deg r < deg g`, coefficients in `[0, m)` -/
theorem C45_division_mod {m : ℤ} (hm : 1 < m) {f g : UPoly ℤ} {F G : ℤ[X]} (hf : Is f F) (hg : Is g G) (g0 : G ≠ 0) (hl : IsCoprime G.leadingCoeff m) :
    ∃ q r Q R, divModMod m f g = some (q, r) ∧ Is q Q ∧ Is r R ∧ C m ∣ Q * G + R - F ∧ R.degree < G.degree ∧
      (∀ i, 0 ≤ Q.coeff i ∧ Q.coeff i < m) ∧ ∀ i, 0 ≤ R.coeff i ∧ R.coeff i < m := by
  obtain ⟨q, r, Q, R, h1, h2, h3, h4, h5, h6, h7⟩ := divModMod_spec hm hf hg g0 hl
  exact ⟨q, r, Q, R, h1, h2, h3, h7, h6, h4, h5⟩

/-- one quadratic step: from `f ≡ g·h`, `s·g + t·h ≡ 1 (mod m)`, `h` monic, it returns `g*, h*, s*, t*` with the same relations modulo `m²`, congruent to the old ones modulo `m`,
`h*` monic of the same degree, and the degrees of `g*` and `h*` still add up to at most `n` -/
theorem C45_step {m : ℤ} (hm : 1 < m) {n : Nat} {f g h s t : UPoly ℤ} {F G H S T : ℤ[X]} (hf : Is f F) (hg : Is g G) (hh : Is h H) (hs : Is s S) (ht : Is t T)
    (prod : C m ∣ G * H - F) (bez : C m ∣ S * G + T * H - 1) (mon : H.Monic) (degF : F.natDegree ≤ n) (degs : G.natDegree + H.natDegree ≤ n) :
    ∃ g' h' s' t' G' H' S' T', henselStep m f g h s t = some (g', h', s', t') ∧ Is g' G' ∧ Is h' H' ∧ Is s' S' ∧ Is t' T' ∧
      C (m * m) ∣ G' * H' - F ∧ C (m * m) ∣ S' * G' + T' * H' - 1 ∧ C m ∣ G' - G ∧ C m ∣ H' - H ∧ C m ∣ S' - S ∧ C m ∣ T' - T ∧
      H'.Monic ∧ H'.natDegree = H.natDegree ∧ G'.natDegree + H'.natDegree ≤ n ∧ (∀ i, 0 ≤ G'.coeff i ∧ G'.coeff i < m * m) ∧ ∀ i, 0 ≤ H'.coeff i ∧ H'.coeff i < m * m := by
  obtain ⟨g', h', s', t', G', H', S', T', h1, h2, h3, h4, h5, N, h6, h7, h8, h9, h10, h11, h12⟩ := henselStep_spec hm hf hg hh hs ht ⟨prod, bez, mon, degF, degs⟩
  exact ⟨g', h', s', t', G', H', S', T', h1, h2, h3, h4, h5, N.prod, N.bez, h6, h7, h11, h12, N.monic, h8, N.deg, h9, h10⟩

/-- one linear step, from `m` to `m·p`, with the Bezout relation modulo `p` only -/
theorem C45_linear_step {m p : ℤ} (hm : 0 < m) (hp : 1 < p) (hpm : p ∣ m) {n : Nat} {f g h s t : UPoly ℤ} {F G H S T : ℤ[X]} (hf : Is f F) (hg : Is g G) (hh : Is h H) (hs : Is s S) (ht : Is t T)
    (prod : C m ∣ G * H - F) (bez : C p ∣ S * G + T * H - 1) (mon : H.Monic) (degF : F.natDegree ≤ n) (degs : G.natDegree + H.natDegree ≤ n) :
    ∃ g' h' G' H', henselStepLin m p f g h s t = some (g', h') ∧ Is g' G' ∧ Is h' H' ∧ C (m * p) ∣ G' * H' - F ∧ C p ∣ S * G' + T * H' - 1 ∧ C m ∣ G' - G ∧ C m ∣ H' - H ∧
      H'.Monic ∧ H'.natDegree = H.natDegree ∧ G'.natDegree + H'.natDegree ≤ n :=
  henselStepLin_spec hm hp hf hg hh hs ht prod bez mon degF degs hpm

/-- `__hensel_lift`: if `f ≡ lc(f)·∏ fᵢ` modulo `p` with `fᵢ` monic and pairwise coprime and `p ∤ lc(f)`, it returns monic integer polynomials `gᵢ`, in the same order, with `gᵢ ≡ fᵢ` modulo `p`,
of the same degree, and `f ≡ lc(f)·∏ gᵢ` modulo `m = p^(2^k)`, where `m` exceeds twice the leading coefficient times the coefficient bound, or is at least `p^a` if a precision `a` is requested -/
theorem C45_lift {p : Nat} [Fact p.Prime] {f : UPoly ℤ} {F : ℤ[X]} (hf : Is f F) (hlc : ¬ (p : ℤ) ∣ F.leadingCoeff) {fs : List (UPoly (ZMod p))} {As : List (ZMod p)[X]}
    (hfs : List.Forall₂ Is fs As) (hlen : 2 ≤ fs.length) (hM : ∀ A ∈ As, A.Monic) (hP : As.Pairwise IsCoprime)
    (hmap : F.map (Int.castRingHom (ZMod p)) = C ((F.leadingCoeff : ℤ) : ZMod p) * As.prod) (a : Nat) :
    ∃ r k Rs, henselLift p f fs a = some (r, (p : ℤ) ^ (2 ^ k)) ∧ List.Forall₂ Is r Rs ∧ (∀ R ∈ Rs, R.Monic) ∧
      List.Forall₂ (fun R A => R.map (Int.castRingHom (ZMod p)) = A ∧ R.natDegree = A.natDegree) Rs As ∧ C ((p : ℤ) ^ (2 ^ k)) ∣ C F.leadingCoeff * Rs.prod - F ∧
      (a = 0 → ∀ G, G ∣ F → ∀ i, 2 * |F.leadingCoeff| * |G.coeff i| < (p : ℤ) ^ (2 ^ k)) ∧ (a ≠ 0 → (p : ℤ) ^ a ≤ (p : ℤ) ^ (2 ^ k)) := by
  obtain ⟨r, k, Rs, h1, h2, h3, _, h4, h5, h6, h7⟩ := henselLift_spec hf hlc hfs hlen hM hP hmap a
  refine ⟨r, k, Rs, h1, h2, h3, h4, h5, fun ha G hG i => ?_, h7⟩
  obtain ⟨B, b1, b2⟩ := h6 ha
  have F0 : F ≠ 0 := by rintro rfl; simp at hlc
  obtain ⟨B', c1, _, c2, _⟩ := mignotte_spec hf F0
  have : B' = B := by rw [b1] at c1; exact (Option.some.inj c1).symm
  subst this
  exact lt_of_le_of_lt (mul_le_mul_of_nonneg_left (c2 G hG i) (by positivity)) b2

/-! non-vacuity: `x² - 6 ≡ (x - 1)(x + 1)` modulo 5, `3·(x - 1) + 2·(x + 1)  ≡ -1 ≡ 4`, so `S = 2`, `T = 3` -/

example : C (5 : ℤ) ∣ (X - C 1) * (X + C 1) - (X ^ 2 - C 6 : ℤ[X]) := ⟨1, by simp only [map_ofNat, C_1]; ring⟩
example : C (5 : ℤ) ∣ C 2 * (X - C 1) + C 3 * (X + C 1) - (1 : ℤ[X]) := ⟨X, by simp only [map_ofNat, C_1]; ring⟩
example : Is ([(2, 1), (0, -6)] : UPoly ℤ) (toPoly [(2, 1), (0, -6)]) := ⟨⟨by simp [Upoly.comp], by simp⟩, rfl⟩

/-! ## C46, C63 -/

/-- recombination by subsets (`__zassenhaus_recombine`): for a primitive `f` and any monic candidates of positive degree, `lc(f)` prime to `m`, it always returns; the product of what it returns is
`f` up to sign (`f` itself if `0 < 2·lc(f) ≤ m`), and all returned factors are primitive of positive degree -/
theorem C46_recombine_product {sort : List (UPoly ℤ) → List (UPoly ℤ)} (hsort : ∀ l, (sort l).Perm l) {m : ℤ} (hm : 1 < m) {f : UPoly ℤ} {F : ℤ[X]} (hf : Is f F) (pF : F.IsPrimitive)
    (hcop : IsCoprime F.leadingCoeff m) {T : List (UPoly ℤ)} {Ts : List ℤ[X]} (hT : List.Forall₂ Is T Ts) (hTm : ∀ A ∈ Ts, A.Monic ∧ 0 < A.natDegree) :
    ∃ res Rs, zassenhaus sort m f T = some res ∧ List.Forall₂ Is res Rs ∧ (Rs.prod = F ∨ Rs.prod = -F) ∧ (∀ R ∈ Rs, R.IsPrimitive ∧ 0 < R.natDegree) ∧
      (0 < F.leadingCoeff → 2 * F.leadingCoeff ≤ m → Rs.prod = F ∧ ∀ R ∈ Rs, 0 < R.leadingCoeff) := by
  obtain ⟨res, Rs, h1, h2, h3, h4, h5, _⟩ := zassenhaus_spec hsort hm hf pF hcop hT hTm
  exact ⟨res, Rs, h1, h2, associated_int h3, h4, h5⟩

/-- full-precision lifting followed by recombination: from the monic irreducible factors of `f` modulo `p` (pairwise distinct, `p ∤ lc(f)`) it returns the factorization of `f` into irreducible polynomials over ℤ -/
theorem C63_lift_recombine_irreducible {sort : List (UPoly ℤ) → List (UPoly ℤ)} (hsort : ∀ l, (sort l).Perm l) {p : Nat} [Fact p.Prime] {f : UPoly ℤ} {F : ℤ[X]} (hf : Is f F) (pF : F.IsPrimitive)
    (hpos : 0 < F.leadingCoeff) (hlc : ¬ (p : ℤ) ∣ F.leadingCoeff) {fs : List (UPoly (ZMod p))} {As : List (ZMod p)[X]} (hfs : List.Forall₂ Is fs As) (hlen : 2 ≤ fs.length)
    (hM : ∀ A ∈ As, A.Monic ∧ Irreducible A) (hP : As.Nodup) (hmap : F.map (Int.castRingHom (ZMod p)) = C ((F.leadingCoeff : ℤ) : ZMod p) * As.prod) :
    ∃ r m res Rs, henselLift p f fs 0 = some (r, m) ∧ zassenhaus sort m f r = some res ∧ List.Forall₂ Is res Rs ∧ Rs.prod = F ∧ ∀ R ∈ Rs, Irreducible R ∧ R.IsPrimitive ∧ 0 < R.leadingCoeff :=
  liftZass_spec hsort hf pF hpos hlc hfs hlen hM hP hmap

/-- recombination with the lattice (`__vanhoeij_recombine`), whatever the lattice reduction returns: always returns; the product is `f` up to sign (`f` itself if `0 < 2·lc(f) ≤ m`), the factors are primitive of
positive degree -/
theorem C46_van_hoeij_product {rows : Rows} (hrows : ∀ n jt f T, rows n jt f T ≠ none) {sort : List (UPoly ℤ) → List (UPoly ℤ)} (hsort : ∀ l, (sort l).Perm l) {m : ℤ} (hm : 1 < m) {f : UPoly ℤ} {F : ℤ[X]}
    (hf : Is f F) (pF : F.IsPrimitive) (hd : 0 < F.natDegree) (hcop : IsCoprime F.leadingCoeff m) {T : List (UPoly ℤ)} {Ts : List ℤ[X]} (hT : List.Forall₂ Is T Ts) (hTm : ∀ A ∈ Ts, A.Monic ∧ 0 < A.natDegree) :
    ∃ res Rs, vanHoeij rows sort m f T = some res ∧ List.Forall₂ Is res Rs ∧ (Rs.prod = F ∨ Rs.prod = -F) ∧ (∀ R ∈ Rs, R.IsPrimitive ∧ 0 < R.natDegree) ∧
      (0 < F.leadingCoeff → 2 * F.leadingCoeff ≤ m → Rs.prod = F ∧ ∀ R ∈ Rs, 0 < R.leadingCoeff) := by
  obtain ⟨res, Rs, h1, h2, h3, h4, h5, _⟩ := vanHoeij_spec hrows hsort hm hf pF hd hcop hT hTm
  exact ⟨res, Rs, h1, h2, associated_int h3, h4, h5⟩

/-- the candidates are disjoint sets of factors -/
theorem C46_candidates (rows : List (List ℤ)) (r : Nat) : (∀ c ∈ candidates rows r, c.Nodup ∧ ∀ k ∈ c, k < r) ∧ (candidates rows r).Pairwise List.Disjoint :=
  ⟨candidates_ok rows r, candidates_disjoint rows r⟩

/-- the prime selected does not divide the leading coefficient, and the factors are the distinct monic irreducible factors of `f` modulo `p` -/
theorem C46_select_prime {fuel : Nat} {f : UPoly ℤ} {F : ℤ[X]} (hf : Is f F) (hW : F.natDegree + 1 < 2 ^ 64) (hd : 0 < F.natDegree) {ps : List ({p : Nat // p.Prime} × List Nat)}
    (hps : ∀ x ∈ ps, x.1.1 < 2 ^ 64 ∧ ∀ c ∈ x.2, c < x.1.1) {s : Sel} (h : selectLoop fuel f ps 0 none = some s) :
    haveI := s.prime
    ¬ (s.p : ℤ) ∣ F.leadingCoeff ∧ F.map (Int.castRingHom (ZMod s.p)) = C ((F.leadingCoeff : ℤ) : ZMod s.p) * (s.factors.map toPoly).prod ∧ (s.factors.map toPoly).Nodup ∧
      (∀ g ∈ s.factors, Canon comp g ∧ (toPoly g).Monic ∧ Irreducible (toPoly g)) ∧ (s.irreducible = true → s.factors.length = 1) := by
  obtain ⟨h1, h2⟩ := selectLoop_spec hf hW hd ps 0 none s hps (by simp) h
  have := s.prime
  exact ⟨h1.lc, h1.prod, h1.nodup, fun g hg => ⟨h1.canon g hg, h1.mi g hg⟩, h2⟩

/-- for a squarefree primitive polynomial all but finitely many primes are usable, and the selection returns, for suitable random numbers, as soon as three usable primes are tried -/
theorem C46_select_prime_returns {f : UPoly ℤ} {F : ℤ[X]} (hf : Is f F) (hsf : Squarefree F) (pF : F.IsPrimitive) (hW : F.natDegree + 1 < 2 ^ 64) (hd : 0 < F.natDegree) :
    ∃ N : ℤ, N ≠ 0 ∧ ∀ ps good : List {p : Nat // p.Prime}, (∀ p ∈ ps, p.1 < 2 ^ 64) → good.Sublist ps → good.length = 3 → (∀ p ∈ good, ¬ (p.1 : ℤ) ∣ N) →
      ∃ fuel qs, qs.map Prod.fst = ps ∧ (∀ x ∈ qs, ∀ c ∈ x.2, c < x.1.1) ∧ selectLoop fuel f qs 0 none ≠ none := by
  obtain ⟨N, h0, hN⟩ := exists_bad hsf pF
  refine ⟨N, h0, fun ps good h1 h2 h3 h4 => ?_⟩
  obtain ⟨fuel, qs, q1, q2, q3⟩ := selectLoop_exists hf hW hd ps good 0 h1 h2 (by omega) fun p hp => hN p.1 p.2 (h4 p hp)
  exact ⟨fuel, qs, q1, q2, q3 0 0 none le_rfl (by omega)⟩

/-- factorization of a primitive polynomial of degree at least 2 (`__factor_squarefree_primitive_ZZ`), whatever the lattice reduction and the random numbers are: it returns as soon as a prime is selected,
the product of the factors is `f` up to sign and they are primitive of positive degree -/
theorem C46_factor_product {fuel : Nat} {ps : List ({p : Nat // p.Prime} × List Nat)} (hps : ∀ x ∈ ps, x.1.1 < 2 ^ 64 ∧ ∀ c ∈ x.2, c < x.1.1) {ah : Nat} {rows1 rows2 : Rows}
    (hr1 : ∀ n jt f T, rows1 n jt f T ≠ none) (hr2 : ∀ n jt f T, rows2 n jt f T ≠ none) {sort : List (UPoly ℤ) → List (UPoly ℤ)}
    (hsort : ∀ l, (sort l).Perm l) {f : UPoly ℤ} {F : ℤ[X]} (hf : Is f F) (pF : F.IsPrimitive) (hd : 2 ≤ F.natDegree) (hW : F.natDegree + 1 < 2 ^ 64) :
    (selectLoop fuel f ps 0 none ≠ none → factorSqfPrim fuel ps ah rows1 rows2 sort f ≠ none) ∧
    ∀ res, factorSqfPrim fuel ps ah rows1 rows2 sort f = some res → ∃ Rs, List.Forall₂ Is res Rs ∧ (Rs.prod = F ∨ Rs.prod = -F) ∧ ∀ R ∈ Rs, R.IsPrimitive ∧ 0 < R.natDegree := by
  obtain ⟨h1, h2⟩ := factorSqfPrim_spec (fuel := fuel) (ah := ah) hps hr1 hr2 hsort hf pF hd hW
  refine ⟨fun h h' => h (h1.1 h'), fun res h => ?_⟩
  obtain ⟨Rs, a, b, c, _⟩ := h2 res h
  exact ⟨Rs, a, associated_int b, c⟩

/-- the factors are irreducible.  Missing: the hypothesis `hsep`, that the classes of the lattice reduction never mix modular factors of different irreducible factors, is assumed, not derived from `__lll_reduce` -/
theorem C63_factor_irreducible_partial {fuel : Nat} {ps : List ({p : Nat // p.Prime} × List Nat)} (hps : ∀ x ∈ ps, x.1.1 < 2 ^ 64 ∧ ∀ c ∈ x.2, c < x.1.1) {ah : Nat} {rows1 rows2 : Rows}
    (hr1 : ∀ n jt f T, rows1 n jt f T ≠ none) (hr2 : ∀ n jt f T, rows2 n jt f T ≠ none) {sort : List (UPoly ℤ) → List (UPoly ℤ)}
    (hsort : ∀ l, (sort l).Perm l) {f : UPoly ℤ} {F : ℤ[X]} (hf : Is f F) (pF : F.IsPrimitive) (hd : 2 ≤ F.natDegree) (hW : F.natDegree + 1 < 2 ^ 64)
    (hsep : ∀ rows, rows = rows1 ∨ rows = rows2 → ∀ p : Nat, p.Prime → ∀ n jt f' T' rw, Canon comp f' → toPoly f' ∣ F → rows n jt f' T' = some rw → ∀ c ∈ candidates rw T'.length,
      ∀ A, A ∣ toPoly f' → ∀ i ∈ c, ∀ j ∈ c, (toPoly (T'.getD i [])).map (Int.castRingHom (ZMod p)) ∣ A.map (Int.castRingHom (ZMod p)) →
        (toPoly (T'.getD j [])).map (Int.castRingHom (ZMod p)) ∣ A.map (Int.castRingHom (ZMod p)))
    {res : List (UPoly ℤ)} (h : factorSqfPrim fuel ps ah rows1 rows2 sort f = some res) : ∃ Rs, List.Forall₂ Is res Rs ∧ (Rs.prod = F ∨ Rs.prod = -F) ∧ ∀ R ∈ Rs, Irreducible R := by
  obtain ⟨_, h2⟩ := factorSqfPrim_spec (fuel := fuel) (ah := ah) hps hr1 hr2 hsort hf pF hd hW
  obtain ⟨Rs, a, b, c, d⟩ := h2 res h
  exact ⟨Rs, a, associated_int b, d fun p hp => ⟨hsep rows1 (.inl rfl) p hp, hsep rows2 (.inr rfl) p hp⟩⟩

/-! non-vacuity: rows of a lattice reduction that separate everything; classes of equal columns -/
example : candidates [[1, 0, 1], [0, 1, 0]] 3 = [[0, 2], [1]] := by decide +kernel
example : ∀ n jt f T, (fun _ _ _ T => some ((List.range T.length).map fun i => (List.range T.length).map fun j => if i = j then 1 else 0) : Rows) n jt f T ≠ none := by intros; simp

end CLPoly
