import Verif.Wang.Irr

/-! # Irreducibility of the factors from their images modulo the lifting prime -/

namespace CLPoly
namespace Wang
open Mono Mgcd Run Upoly Factor MvPolynomial

/-- reduction of the coefficients -/
noncomputable abbrev red (p : ℕ) (F : Polynomial ℤ) : Polynomial (ZMod p) := F.map (Int.castRingHom (ZMod p))

/-- `g` takes at the point a value whose irreducible factors of positive degree are among `us`; these are pairwise coprime modulo `p`; the degree in `y` is kept; no divisor of `g` is free of `y` -/
structure Rem (p : ℕ) (y : Var) (a : Var → ℤ) (us : List (Polynomial ℤ)) (c : ℤ) (g : MvPolynomial Var ℤ) : Prop where
  irr : ∀ u ∈ us, Irreducible u ∧ 0 < u.natDegree ∧ ¬ (p : ℤ) ∣ u.leadingCoeff
  const : ¬ (p : ℤ) ∣ c
  cop : us.Pairwise fun u v => IsCoprime (red p u) (red p v)
  dvd : evalAt y a g ∣ Polynomial.C c * us.prod
  full : PrimWrt y g
  lead : (evalAt y a g).natDegree = g.degreeOf y

variable {p : ℕ} [hp : Fact p.Prime] {y : Var} {a : Var → ℤ} {us : List (Polynomial ℤ)} {c : ℤ} {g : MvPolynomial Var ℤ}

theorem prime_cast : Prime (p : ℤ) := Nat.prime_iff_prime_int.1 hp.out

theorem Rem.top_ne (h : Rem p y a us c g) : Polynomial.C c * us.prod ≠ 0 := by
  refine mul_ne_zero ?_ (List.prod_ne_zero fun h0 => (h.irr 0 h0).1.ne_zero rfl)
  intro e
  rw [Polynomial.C_eq_zero] at e
  exact h.const (by rw [e]; exact dvd_zero _)

theorem Rem.ne (h : Rem p y a us c g) : evalAt y a g ≠ 0 := fun e => h.top_ne (zero_dvd_iff.1 (e ▸ h.dvd))

theorem Rem.lc (h : Rem p y a us c g) {D : Polynomial ℤ} (hd : D ∣ Polynomial.C c * us.prod) : ¬ (p : ℤ) ∣ D.leadingCoeff := by
  obtain ⟨K, hK⟩ := hd
  intro hp'
  have h1 : (p : ℤ) ∣ (Polynomial.C c * us.prod).leadingCoeff := by rw [hK, Polynomial.leadingCoeff_mul]; exact hp'.mul_right _
  rw [Polynomial.leadingCoeff_mul, Polynomial.leadingCoeff_C] at h1
  rcases prime_cast.dvd_or_dvd h1 with h2 | h2
  · exact h.const h2
  · have : us.prod.leadingCoeff = (us.map Polynomial.leadingCoeff).prod := by
      have := map_list_prod (Polynomial.leadingCoeffHom (R := ℤ)) us
      simpa [Polynomial.leadingCoeffHom] using this
    rw [this, (prime_cast (p := p)).dvd_prod_iff] at h2
    obtain ⟨z, hz, h3⟩ := h2
    obtain ⟨u, hu, rfl⟩ := List.mem_map.1 hz
    exact (h.irr u hu).2.2 h3

theorem Rem.red_deg (h : Rem p y a us c g) {D : Polynomial ℤ} (hd : D ∣ Polynomial.C c * us.prod) : (red p D).natDegree = D.natDegree := by
  refine Polynomial.natDegree_map_of_leadingCoeff_ne_zero _ fun e => h.lc hd ?_
  rwa [eq_intCast, ZMod.intCast_zmod_eq_zero_iff_dvd] at e

theorem Rem.of_dvd (h : Rem p y a us c g) {B : MvPolynomial Var ℤ} (hB : B ∣ g) : Rem p y a us c B := by
  refine ⟨h.irr, h.const, h.cop, (map_dvd (evalAt y a) hB).trans h.dvd, h.full.of_dvd hB, ?_⟩
  obtain ⟨D, rfl⟩ := hB
  have g0 := h.full.ne_zero
  have e0 := h.ne
  have h1 := h.lead
  rw [degreeOf_mul_dom (left_ne_zero_of_mul g0) (right_ne_zero_of_mul g0)] at h1
  rw [map_mul] at e0 h1
  rw [Polynomial.natDegree_mul (left_ne_zero_of_mul e0) (right_ne_zero_of_mul e0)] at h1
  have := evalAt_natDegree_le y a B
  have := evalAt_natDegree_le y a D
  omega

/-- a polynomial of positive degree has an irreducible factor of positive degree -/
theorem exists_irr_factor {F : Polynomial ℤ} (h : 0 < F.natDegree) : ∃ q : Polynomial ℤ, Irreducible q ∧ 0 < q.natDegree ∧ q ∣ F := by
  have F0 : F ≠ 0 := by rintro rfl; simp at h
  have hu : ¬ IsUnit F.primPart := fun hu => by
    have := Polynomial.natDegree_eq_zero_of_isUnit hu
    rw [Polynomial.natDegree_primPart] at this
    omega
  obtain ⟨q, h1, h2⟩ := WfDvdMonoid.exists_irreducible_factor hu (Polynomial.primPart_ne_zero F)
  refine ⟨q, h1, ?_, h2.trans (Polynomial.primPart_dvd F)⟩
  by_contra hc
  obtain ⟨d, rfl⟩ := Polynomial.natDegree_eq_zero.1 (Nat.eq_zero_of_not_pos hc)
  have := F.isPrimitive_primPart d h2
  exact h1.not_isUnit (Polynomial.isUnit_C.2 this)

theorem Rem.pos (h : Rem p y a us c g) (hu : ¬ IsUnit g) : 0 < (evalAt y a g).natDegree := by
  rw [h.lead]
  by_contra hc
  exact hu (h.full g (degreeOf_zero_iff.1 (by omega)) dvd_rfl)

theorem Rem.exists_u (h : Rem p y a us c g) (hu : ¬ IsUnit g) : ∃ u ∈ us, u ∣ evalAt y a g := by
  obtain ⟨q, q1, q2, q3⟩ := exists_irr_factor (h.pos hu)
  have hd := q3.trans h.dvd
  rcases q1.prime.dvd_or_dvd hd with e | e
  · have hc0 : Polynomial.C c ≠ 0 := left_ne_zero_of_mul h.top_ne
    have := Polynomial.natDegree_le_of_dvd e hc0
    rw [Polynomial.natDegree_C] at this
    omega
  · obtain ⟨u, hu1, hu2⟩ := (q1.prime.dvd_prod_iff).1 e
    exact ⟨u, hu1, ((q1.associated_of_dvd (h.irr u hu1).1 hu2).symm.dvd).trans q3⟩

theorem Rem.u_dvd (h : Rem p y a us c g) {u : Polynomial ℤ} (hu : u ∈ us) : u ∣ Polynomial.C c * us.prod := (List.dvd_prod hu).mul_left _

theorem Rem.eq_of_dvd (h : Rem p y a us c g) {u v : Polynomial ℤ} (hu : u ∈ us) (hv : v ∈ us) (hd : red p v ∣ red p u) : v = u := by
  by_contra hne
  haveI : Std.Symm fun u v : Polynomial ℤ => IsCoprime (red p u) (red p v) := ⟨fun _ _ hab => hab.symm⟩
  have hc : IsCoprime (red p v) (red p u) := h.cop.forall hv hu hne
  have := hc.isUnit_of_dvd' dvd_rfl hd
  have := Polynomial.natDegree_eq_zero_of_isUnit this
  rw [h.red_deg (h.u_dvd hv)] at this
  have := (h.irr v hv).2.1
  omega

/-- a divisor whose image divides one of the factors is irreducible -/
theorem Rem.irreducible (h : Rem p y a us c g) (hu : ¬ IsUnit g) {u : Polynomial ℤ} (hm : u ∈ us) (hd : red p (evalAt y a g) ∣ red p u) : Irreducible g ∧ u ∣ evalAt y a g := by
  have key : ∀ B, B ∣ g → ¬ IsUnit B → u ∣ evalAt y a B := fun B hB hBu => by
    obtain ⟨v, v1, v2⟩ := (h.of_dvd hB).exists_u hBu
    have h1 : red p v ∣ red p u := (Polynomial.map_dvd _ v2).trans ((Polynomial.map_dvd _ (map_dvd (evalAt y a) hB)).trans hd)
    rw [← h.eq_of_dvd hm v1 h1]; exact v2
  refine ⟨⟨hu, fun A B e => ?_⟩, key g dvd_rfl hu⟩
  by_contra hc
  push Not at hc
  have h1 := key A ⟨B, e⟩ hc.1
  have h2 := key B ⟨A, by rw [e, mul_comm]⟩ hc.2
  have h3 : u * u ∣ evalAt y a g := by rw [e, map_mul]; exact mul_dvd_mul h1 h2
  have h4 : red p u * red p u ∣ red p u := by
    rw [← Polynomial.map_mul]; exact (Polynomial.map_dvd _ h3).trans hd
  have h5 := h.red_deg (h.u_dvd hm)
  have h6 := (h.irr u hm).2.1
  have hne : red p u ≠ 0 := by intro e; rw [e] at h5; simp at h5; omega
  have := Polynomial.natDegree_le_of_dvd h4 hne
  rw [Polynomial.natDegree_mul hne hne] at this
  omega

/-- a factor is split off -/
theorem Rem.split {l1 l2 : List (Polynomial ℤ)} {u : Polynomial ℤ} (h : Rem p y a (l1 ++ u :: l2) c g) {A B : MvPolynomial Var ℤ} (e : g = A * B) (hA : u ∣ evalAt y a A) : Rem p y a (l1 ++ l2) c B := by
  have hs : (l1 ++ l2).Sublist (l1 ++ u :: l2) := (List.Sublist.refl l1).append (List.sublist_cons_self u l2)
  have hB := h.of_dvd (B := B) ⟨A, by rw [e, mul_comm]⟩
  refine ⟨fun v hv => h.irr v (hs.subset hv), h.const, h.cop.sublist hs, ?_, hB.full, hB.lead⟩
  have h1 := h.dvd
  rw [e, map_mul] at h1
  have h2 : u * evalAt y a B ∣ u * (Polynomial.C c * (l1 ++ l2).prod) := by
    refine (mul_dvd_mul_right hA _).trans (h1.trans ?_)
    rw [List.prod_append, List.prod_cons, List.prod_append]
    exact dvd_of_eq (by ring)
  exact (mul_dvd_mul_iff_left (h.irr u (by simp)).1.ne_zero).1 h2

/-- at most one factor left -/
theorem Rem.last (h : Rem p y a us c g) (hl : us.length ≤ 1) (hu : ¬ IsUnit g) : Irreducible g := by
  match us, hl, h with
  | [], _, h =>
    obtain ⟨u, hm, _⟩ := h.exists_u hu
    simp at hm
  | [u], _, h =>
    refine (h.irreducible hu (u := u) (by simp) ?_).1
    have := Polynomial.map_dvd (Int.castRingHom (ZMod p)) h.dvd
    rw [List.prod_singleton, Polynomial.map_mul, Polynomial.map_C] at this
    have hc : (Int.castRingHom (ZMod p)) c ≠ 0 := by
      rw [eq_intCast, Ne, ZMod.intCast_zmod_eq_zero_iff_dvd]; exact h.const
    exact (Polynomial.isUnit_C.2 (isUnit_iff_ne_zero.2 hc)).dvd_mul_left.1 this
  | _ :: _ :: _, hl, _ => simp at hl

end Wang
end CLPoly
