import Verif.Upoly.RealRootMulti
import Mathlib.FieldTheory.Perfect

/-! # C35 (root bound), C36 (real root isolation), C37 (coefficient transforms), C47 (sign variations)

`Is f F`: the pair vector `f` is in normal form and denotes `F : ℤ[X]`.  The value of an integer polynomial at a real number `x` is `aeval x F`.
"Squarefree" and "coprime" are meant over ℚ: integer factors do not matter for roots. -/

namespace CLPoly
open Upoly Polynomial

/-! ## C35 -/

/-- every real root of `f` is smaller in absolute value than `RealRootBound(f)`, which is a power of two and at least 3 -/
theorem C35_root_bound {f : UPoly ℤ} {F : ℤ[X]} (h : Is f F) (h0 : F ≠ 0) :
    (∀ x : ℝ, aeval x F = 0 → |x| < rootBound f) ∧ 3 ≤ rootBound f ∧ ∃ k : ℕ, rootBound f = 2 ^ k := by
  obtain ⟨h1, h2, h3⟩ := rootBound_spec h.canon fun hc => h0 ((is_nil_iff h).1 hc)
  rw [h.eq] at h3
  exact ⟨h3, h1, h2⟩

example : Is ([(3, 2), (1, -100), (0, 7)] : UPoly ℤ) (toPoly [(3, 2), (1, -100), (0, 7)]) := ⟨⟨by simp [Upoly.comp], by simp⟩, rfl⟩
example : rootBound [(3, 2), (1, -100), (0, 7)] = 64 := by decide +kernel

/-! ## C37 -/

/-- `_upolynomial_1toinf(f)` is `(x+1)^n · f(1/(x+1))` -/
theorem C37_one_to_inf {f : UPoly ℤ} {F : ℤ[X]} (h : Is f F) :
    ∃ H, Is (oneToInf f) H ∧ ∀ x : ℝ, x + 1 ≠ 0 → aeval x H = (x + 1) ^ F.natDegree * aeval (x + 1)⁻¹ F :=
  ⟨_, oneToInf_is h, fun _ hx => inf_eval F hx⟩

/-- `_upolynomial_Bto1(f, B)` is `f(B·x)` for `B ≠ 0` -/
theorem C37_scale {f : UPoly ℤ} {F : ℤ[X]} (h : Is f F) {B : ℤ} (hB : B ≠ 0) :
    ∃ H, Is (bTo1 f B) H ∧ ∀ x : ℝ, aeval x H = aeval (B * x) F :=
  ⟨_, is_of_canon (bTo1_canon h.canon hB), fun x => by rw [bTo1_eval, h.eq]⟩

/-- `_upolynomial_01to012(f)` is `2^n · f(x/2)` -/
theorem C37_left_half {f : UPoly ℤ} {F : ℤ[X]} (h : Is f F) :
    ∃ H, Is (leftHalf f) H ∧ ∀ x : ℝ, aeval x H = 2 ^ F.natDegree * aeval (x / 2) F :=
  ⟨_, is_of_canon (leftHalf_canon h.canon), fun x => by rw [leftHalf_eval h.canon, h.eq, is_deg h]⟩

/-- `_upolynomial_01to121(f)` is `2^n · f((x+1)/2)` -/
theorem C37_right_half {f : UPoly ℤ} {F : ℤ[X]} (h : Is f F) :
    ∃ H, Is (rightHalf f) H ∧ ∀ x : ℝ, aeval x H = 2 ^ F.natDegree * aeval ((x + 1) / 2) F :=
  ⟨_, is_of_canon (rightHalf_is h.canon).1, fun x => by rw [(rightHalf_is h.canon).2, h.eq, is_deg h]⟩

/-- with `B = 0` the second transform leaves zero coefficients behind: the result is not in normal form -/
theorem C37_scale_zero_refuted : bTo1 [(1, 1), (0, 1)] 0 = [(1, 0), (0, 1)] := by decide +kernel

example : oneToInf [(2, 3), (0, 1)] = [(2, 1), (1, 2), (0, 4)] ∧ bTo1 [(2, 3), (0, 1)] (-4) = [(2, 48), (0, 1)] ∧
    leftHalf [(2, 3), (0, 1)] = [(2, 3), (0, 4)] ∧ rightHalf [(2, 3), (0, 1)] = [(2, 3), (1, 6), (0, 7)] := by decide +kernel

/-! ## C47 -/

/-- `coeffsignchanges(f)`: the number of sign alternations in the sequence of coefficients, zeros left out -/
theorem C47_sign_changes {f : UPoly ℤ} {F : ℤ[X]} (h : Is f F) :
    coeffSignChanges f = (((F.coeffList.map fun c => SignType.sign c).filter fun s => decide (s ≠ 0)).destutter (· ≠ ·)).length - 1 := by
  rw [coeffSignChanges_is h]
  unfold signVariations
  simp only [List.map_map]

/-- Descartes: at most that many positive real roots, counted with multiplicity -/
theorem C47_descartes {f : UPoly ℤ} {F : ℤ[X]} (h : Is f F) : F.roots.countP (fun x => 0 < x) ≤ coeffSignChanges f := by
  rw [coeffSignChanges_is h]
  exact roots_countP_pos_le_signVariations F

example : coeffSignChanges [(5, 1), (3, -2), (2, -7), (0, 1)] = 2 := by decide +kernel

/-! ## C36 -/

/-- a polynomial that is squarefree over ℚ has no multiple real root -/
theorem squarefree_no_multiple {F : ℤ[X]} (h : Squarefree (F.map (Int.castRingHom ℚ))) (x : ℝ) (hx : aeval x F = 0) :
    aeval x (Polynomial.derivative F) ≠ 0 := by
  intro hd
  have hs : (F.map (Int.castRingHom ℚ)).Separable := PerfectField.separable_iff_squarefree.2 h
  obtain ⟨a, b, hab⟩ := hs
  have := congrArg (aeval x) hab
  rw [derivative_map, map_add, map_mul, map_mul] at this
  have e : ∀ P : ℤ[X], aeval x (P.map (Int.castRingHom ℚ)) = aeval x P := fun P => aeval_map_algebraMap ℚ x P
  rw [e, e, hx, hd] at this
  simp at this

theorem coprime_no_common {F G : ℤ[X]} (h : IsCoprime (F.map (Int.castRingHom ℚ)) (G.map (Int.castRingHom ℚ))) (x : ℝ) (hx : aeval x F = 0) :
    aeval x G ≠ 0 := by
  intro hd
  obtain ⟨a, b, hab⟩ := h
  have := congrArg (aeval x) hab
  rw [map_add, map_mul, map_mul] at this
  have e : ∀ P : ℤ[X], aeval x (P.map (Int.castRingHom ℚ)) = aeval x P := fun P => aeval_map_algebraMap ℚ x P
  rw [e, e, hx, hd] at this
  simp at this

/-- `uspensky(f)`: an answer lists intervals with rational ends, in increasing order and disjoint, with exactly one real root in each; every **nonzero** real root
is in one of them; each interval is a root by itself or an open interval shorter than 1 without a root at its ends.  Missing for the full property: the root 0, see the refutation below. -/
theorem C36_uspensky_partial {f : UPoly ℤ} {F : ℤ[X]} (h : Is f F) (h0 : F ≠ 0) {fuel : ℕ} {l : List (ℚ × ℚ)} (hl : uspensky fuel f = some l) :
    (∀ p ∈ l, ∃! x : ℝ, (p.1 : ℝ) ≤ x ∧ x ≤ p.2 ∧ aeval x F = 0) ∧
      (∀ p ∈ l, p.1 = p.2 ∨ (p.1 < p.2 ∧ p.2 - p.1 < 1 ∧ aeval (p.1 : ℝ) F ≠ 0 ∧ aeval (p.2 : ℝ) F ≠ 0)) ∧
      l.Pairwise (fun p q => p.2 < q.1) ∧
      (∀ x : ℝ, x ≠ 0 → aeval x F = 0 → ∃ p ∈ l, (p.1 : ℝ) ≤ x ∧ x ≤ p.2) ∧ ∀ p ∈ l, p.2 < 0 ∨ 0 < p.1 := by
  obtain ⟨⟨h1, h2, h3⟩, h4⟩ := uspensky_spec h h0 hl
  refine ⟨fun p hp => (h1 p hp).exists_unique, fun p hp => ?_, h2, h3, h4⟩
  rcases h1 p hp with h5 | h5
  · exact Or.inl h5.1
  · exact Or.inr ⟨h5.1, h5.2.1, h5.2.2.1, h5.2.2.2.1⟩

/-- it answers for every polynomial that is squarefree over ℚ -/
theorem C36_uspensky_returns {f : UPoly ℤ} {F : ℤ[X]} (h : Is f F) (hs : Squarefree (F.map (Int.castRingHom ℚ))) :
    ∃ N, ∀ fuel, N ≤ fuel → ∃ l, uspensky fuel f = some l := by
  have h0 : F ≠ 0 := by
    rintro rfl
    simp at hs
  exact uspensky_returns h h0 (squarefree_no_multiple hs)

/-- the root 0 is lost: for the polynomial `x` the answer is empty, with every amount of fuel that gives an answer; more generally no answer ever contains the point 0 (last clause above) -/
theorem C36_uspensky_zero_refuted : uspensky 2 [(1, 1)] = some [] ∧ (∀ fuel l, uspensky fuel [(1, 1)] = some l → l = []) ∧
    aeval (0 : ℝ) (toPoly [(1, 1)] : ℤ[X]) = 0 := by
  have hX : (toPoly [(1, 1)] : ℤ[X]) = X := by simp [toPoly, ← X_pow_eq_monomial]
  refine ⟨by decide +kernel, fun fuel l hl => ?_, by rw [hX]; simp⟩
  have hi : Is ([(1, 1)] : UPoly ℤ) X := ⟨⟨by simp, by simp⟩, hX⟩
  obtain ⟨h1, _, _, _, h5⟩ := C36_uspensky_partial hi X_ne_zero hl
  cases l with
  | nil => rfl
  | cons p l =>
    obtain ⟨x, ⟨hx1, hx2, hx⟩, _⟩ := h1 p (by simp)
    rw [aeval_X] at hx
    subst hx
    rcases h5 p (by simp) with h | h
    · have : (p.2 : ℝ) < 0 := by exact_mod_cast h
      linarith
    · have : (0 : ℝ) < p.1 := by exact_mod_cast h
      linarith

/-- `uspensky` for a list of polynomials, no two of which have a common factor over ℚ: the answer is a list of entries (index, interval).  The polynomial with that index has exactly one
real root in the interval and the other polynomials have none there; the intervals are disjoint and increasing; every real root of every polynomial of the list (0 included) is in an entry with its index -/
theorem C36_uspensky_list {gs : List (UPoly ℤ)} (hc : ∀ g ∈ gs, Is g (toPoly g)) (h0 : ∀ g ∈ gs, toPoly g ≠ 0)
    (hco : gs.Pairwise fun g h => IsCoprime ((toPoly g).map (Int.castRingHom ℚ)) ((toPoly h).map (Int.castRingHom ℚ)))
    {fuel : ℕ} {l : List (ℕ × (ℚ × ℚ))} (hl : uspenskyM fuel gs = some l) :
    (∀ e ∈ l, ∃ g, gs[e.1]? = some g ∧ (∃! x : ℝ, (e.2.1 : ℝ) ≤ x ∧ x ≤ e.2.2 ∧ aeval x (toPoly g) = 0) ∧
        (e.2.1 = e.2.2 ∨ (e.2.1 < e.2.2 ∧ e.2.2 - e.2.1 < 1 ∧ aeval (e.2.1 : ℝ) (toPoly g) ≠ 0 ∧ aeval (e.2.2 : ℝ) (toPoly g) ≠ 0)) ∧
        ∀ j h, gs[j]? = some h → j ≠ e.1 → ∀ x : ℝ, (e.2.1 : ℝ) ≤ x → x ≤ e.2.2 → aeval x (toPoly h) ≠ 0) ∧
      l.Pairwise (fun e e' => e.2.2 < e'.2.1) ∧
      ∀ j g, gs[j]? = some g → ∀ x : ℝ, aeval x (toPoly g) = 0 → ∃ e ∈ l, e.1 = j ∧ (e.2.1 : ℝ) ≤ x ∧ x ≤ e.2.2 := by
  have hco' : Coprimes gs := by
    intro i j g h hi hj hij _ x hx
    obtain ⟨hi1, rfl⟩ := List.getElem?_eq_some_iff.1 hi
    obtain ⟨hj1, rfl⟩ := List.getElem?_eq_some_iff.1 hj
    rw [List.pairwise_iff_getElem] at hco
    rcases lt_or_gt_of_ne hij with hlt | hlt
    · exact coprime_no_common (hco i j hi1 hj1 hlt) x hx
    · exact coprime_no_common (hco j i hj1 hi1 hlt).symm x hx
  obtain ⟨h1, h2, h3, h4⟩ := uspenskyM_spec (fun g hg => (hc g hg).canon) hco' hl
  refine ⟨fun e he => ?_, h3, fun j g hj x hx => h4 j g hj (h0 g (List.mem_of_getElem? hj)) x hx⟩
  obtain ⟨g, hg, hi⟩ := h1 e he
  refine ⟨g, hg, hi.exists_unique, ?_, fun j h hj hne x hx1 hx2 => h2 e he j h hj (h0 h (List.mem_of_getElem? hj)) hne x hx1 hx2⟩
  rcases hi with h5 | h5
  · exact Or.inl h5.1
  · exact Or.inr ⟨h5.1, h5.2.1, h5.2.2.1, h5.2.2.2.1⟩

/-- and it answers whenever the polynomials are squarefree and pairwise coprime over ℚ, as documented -/
theorem C36_uspensky_list_returns {gs : List (UPoly ℤ)} (hc : ∀ g ∈ gs, Is g (toPoly g))
    (hco : gs.Pairwise fun g h => IsCoprime ((toPoly g).map (Int.castRingHom ℚ)) ((toPoly h).map (Int.castRingHom ℚ)))
    (hs : ∀ g ∈ gs, Squarefree ((toPoly g).map (Int.castRingHom ℚ))) : ∃ N, ∀ fuel, N ≤ fuel → ∃ l, uspenskyM fuel gs = some l := by
  refine uspenskyM_returns (fun g hg => (hc g hg).canon) ?_ fun g hg x _ hx => squarefree_no_multiple (hs g hg) x hx
  intro i j g h hi hj hij _ x hx
  obtain ⟨hi1, rfl⟩ := List.getElem?_eq_some_iff.1 hi
  obtain ⟨hj1, rfl⟩ := List.getElem?_eq_some_iff.1 hj
  rw [List.pairwise_iff_getElem] at hco
  rcases lt_or_gt_of_ne hij with hlt | hlt
  · exact coprime_no_common (hco i j hi1 hj1 hlt) x hx
  · exact coprime_no_common (hco j i hj1 hi1 hlt).symm x hx

/-- `x² - 2` and `x` -/
example : Squarefree ((toPoly [(1, 1)] : ℤ[X]).map (Int.castRingHom ℚ)) := by
  have : (toPoly [(1, 1)] : ℤ[X]).map (Int.castRingHom ℚ) = X := by simp [toPoly, ← X_pow_eq_monomial]
  rw [this]; exact irreducible_X.squarefree

example : IsCoprime ((toPoly [(2, 1), (0, -2)] : ℤ[X]).map (Int.castRingHom ℚ)) ((toPoly [(1, 1)] : ℤ[X]).map (Int.castRingHom ℚ)) := by
  have e1 : (toPoly [(1, 1)] : ℤ[X]).map (Int.castRingHom ℚ) = X := by simp [toPoly, ← X_pow_eq_monomial]
  have e2 : (toPoly [(2, 1), (0, -2)] : ℤ[X]).map (Int.castRingHom ℚ) = X ^ 2 - C 2 := by
    simp [toPoly, ← X_pow_eq_monomial, sub_eq_add_neg]; rfl
  rw [e1, e2]
  refine ⟨C (-1 / 2), C (1 / 2) * X, ?_⟩
  have : C (-1 / 2 : ℚ) * (X ^ 2 - C 2) + C (1 / 2) * X * X = C ((-1 / 2) * (-2)) + (C (-1 / 2) + C (1 / 2)) * X ^ 2 := by
    rw [C_mul, C_neg]; ring
  rw [this, ← C_add]; norm_num

example : uspensky 12 [(2, 1), (0, -2)] = some [(-3 / 2, -1), (1, 3 / 2)] := by decide +kernel
example : uspenskyM 12 [[(2, 1), (0, -2)], [(0, 5)], [(1, 1)]] = some [(0, (-3 / 2, -1)), (2, (0, 0)), (0, (1, 3 / 2))] := by decide +kernel

end CLPoly
