import Verif.Upoly.HenselTree
import Mathlib.RingTheory.Polynomial.Content
import Mathlib.RingTheory.PrincipalIdealDomain
import Mathlib.Algebra.Polynomial.Lifts

/-! # Uniqueness of Hensel lifting, factors and subsets of modular factors -/

namespace CLPoly
namespace Upoly
open Polynomial

/-- a relation `U·A + V·Q ≡ 1` modulo `p` lifts to any power of `p` -/
theorem bezout_pow {p : ℤ} {A Q U V : ℤ[X]} (h : Cong p (U * A + V * Q) 1) (K : Nat) : ∃ U' V', Cong (p ^ K) (U' * A + V' * Q) 1 := by
  obtain ⟨W, hW⟩ := h.symm
  obtain ⟨w, hw⟩ := sub_dvd_pow_sub_pow (1 : ℤ[X]) (1 - (U * A + V * Q)) K
  refine ⟨U * w, V * w, ?_⟩
  have e : U * w * A + V * w * Q = 1 - C (p ^ K) * W ^ K := by
    have : U * w * A + V * w * Q = (1 - (1 - (U * A + V * Q))) * w := by ring
    rw [this, ← hw, hW, one_pow, mul_pow, C_pow]
  rw [e]
  unfold Cong
  exact ⟨-W ^ K, by ring⟩

section
variable {p : Nat} [hp : Fact p.Prime]

/-- reduction modulo `p` -/
noncomputable abbrev red (p : Nat) (F : ℤ[X]) : (ZMod p)[X] := F.map (Int.castRingHom (ZMod p))

theorem red_surj (D : (ZMod p)[X]) : ∃ F : ℤ[X], red p F = D :=
  Polynomial.map_surjective _ ZMod.intCast_surjective D

theorem bezout_of_coprime {A Q : ℤ[X]} (h : IsCoprime (red p A) (red p Q)) : ∃ U V : ℤ[X], Cong p (U * A + V * Q) 1 := by
  obtain ⟨u, v, huv⟩ := h
  obtain ⟨U, rfl⟩ := red_surj u
  obtain ⟨V, rfl⟩ := red_surj v
  refine ⟨U, V, ?_⟩
  rw [Cong.iff_map, Polynomial.map_add, Polynomial.map_mul, Polynomial.map_mul, Polynomial.map_one]
  exact huv

theorem red_natDegree {G : ℤ[X]} (h : ¬ (p : ℤ) ∣ G.leadingCoeff) : (red p G).natDegree = G.natDegree := by
  apply natDegree_map_of_leadingCoeff_ne_zero
  intro h0
  exact h ((ZMod.intCast_zmod_eq_zero_iff_dvd _ _).1 (by simpa using h0))

theorem red_ne_zero {G : ℤ[X]} (h : ¬ (p : ℤ) ∣ G.leadingCoeff) : red p G ≠ 0 := by
  intro h0
  apply h
  have : (red p G).coeff G.natDegree = 0 := by rw [h0, coeff_zero]
  rw [coeff_map] at this
  exact (ZMod.intCast_zmod_eq_zero_iff_dvd _ _).1 (by simpa using this)

/-- reduced representative modulo `m` -/
theorem exists_red {m : ℤ} (hm : 0 < m) (F : ℤ[X]) : ∃ H, Cong m H F ∧ Red m H := by
  obtain ⟨f, hf⟩ := exists_is F
  obtain ⟨H, _, _, h1, h2⟩ := modCoeff_is hm hf
  exact ⟨H, h1, h2⟩

/-- Hensel uniqueness: a factor `G` over ℤ whose image modulo `p` is `A` up to a unit is `lc(G)·A` modulo `p^K` -/
theorem lift_unique {K : Nat} (hK : K ≠ 0) {l : ℤ} {G Q A B : ℤ[X]} (hl : ¬ (p : ℤ) ∣ G.leadingCoeff) (hA : A.Monic) (hprod : Cong ((p : ℤ) ^ K) (C l * (A * B)) (G * Q))
    (hcop : IsCoprime (red p A) (red p Q)) (hdeg : G.natDegree = A.natDegree) : Cong ((p : ℤ) ^ K) (C G.leadingCoeff * A) G := by
  obtain ⟨U0, V0, h0⟩ := bezout_of_coprime hcop
  obtain ⟨U, V, h⟩ := bezout_pow h0 K
  obtain ⟨m, hm⟩ : ∃ m : ℤ, m = (p : ℤ) ^ K := ⟨_, rfl⟩
  rw [← hm] at h hprod ⊢
  have m0 : 0 < m := by rw [hm]; have : (0 : ℤ) < p := by exact_mod_cast hp.out.pos
                        positivity
  -- `G ≡ A·Z`
  obtain ⟨Z, z1, z2⟩ := exists_red m0 (U * G + V * C l * B)
  have hZ : Cong m (Z * A) G := by
    have a1 : Cong m (Z * A) ((U * G + V * C l * B) * A) := z1.mul .rfl'
    have a2 : (U * G + V * C l * B) * A = U * A * G + V * (C l * (A * B)) := by ring
    rw [a2] at a1
    have a3 : Cong m (U * A * G + V * (C l * (A * B))) (U * A * G + V * (G * Q)) := Cong.rfl'.add (Cong.rfl'.mul hprod)
    have a4 : U * A * G + V * (G * Q) = (U * A + V * Q) * G := by ring
    rw [a4] at a3
    have a5 : Cong m ((U * A + V * Q) * G) (1 * G) := h.mul .rfl'
    rw [one_mul] at a5
    exact a1.trans (a3.trans a5)
  have hd := z2.natDegree_mul_le hA hZ hdeg.le le_rfl
  have hZ0 : Z.natDegree = 0 := by omega
  rw [eq_C_of_natDegree_eq_zero hZ0] at hZ
  refine Cong.trans ?_ hZ
  refine (cong_C' ?_).mul .rfl'
  have := Cong.iff_coeff.1 hZ A.natDegree
  rw [coeff_C_mul, hA.coeff_natDegree, mul_one, ← hdeg, coeff_natDegree] at this
  rw [show G.leadingCoeff - Z.coeff 0 = -(Z.coeff 0 - G.leadingCoeff) by ring, dvd_neg]
  exact this
where
  cong_C' {m a b : ℤ} (h : m ∣ a - b) : Cong m (C a) (C b) := by
    unfold Cong
    rw [← C_sub]
    exact C_dvd_C.2 h

/-- the modular factors: monic integer polynomials, irreducible and pairwise coprime modulo `p` -/
structure Good (p : Nat) (Ts : List ℤ[X]) : Prop where
  monic : ∀ T ∈ Ts, T.Monic
  irr : ∀ T ∈ Ts, Irreducible (red p T)
  cop : Ts.Pairwise fun A B => IsCoprime (red p A) (red p B)

theorem monic_prodZ {l : List ℤ[X]} (h : ∀ A ∈ l, A.Monic) : l.prod.Monic := by
  induction l with
  | nil => simpa using monic_one
  | cons A l ih => rw [List.prod_cons]; exact (h A (by simp)).mul (ih fun B hB => h B (by simp [hB]))

theorem red_mul (A B : ℤ[X]) : red p (A * B) = red p A * red p B := Polynomial.map_mul _

theorem red_prod (l : List ℤ[X]) : red p l.prod = (l.map (red p)).prod := Polynomial.map_list_prod _ _

/-- a divisor of a product of pairwise coprime irreducibles is the product of a sublist -/
theorem exists_sub (Ts : List ℤ[X]) (hirr : ∀ T ∈ Ts, Irreducible (red p T)) : ∀ D : (ZMod p)[X], D ∣ red p Ts.prod → ∃ S : List ℤ[X], S.Sublist Ts ∧ Associated D (red p S.prod) := by
  induction Ts with
  | nil =>
    intro D hD
    refine ⟨[], List.Sublist.refl _, ?_⟩
    have : IsUnit D := isUnit_of_dvd_one (by simpa using hD)
    simpa using associated_one_iff_isUnit.2 this
  | cons T Ts ih =>
    intro D hD
    have hT := hirr T (by simp)
    have ih' := ih fun A hA => hirr A (by simp [hA])
    rw [List.prod_cons, red_mul] at hD
    by_cases h : red p T ∣ D
    · obtain ⟨D', rfl⟩ := h
      have := (mul_dvd_mul_iff_left hT.ne_zero).1 hD
      obtain ⟨S, h1, h2⟩ := ih' D' this
      refine ⟨T :: S, h1.cons_cons T, ?_⟩
      rw [List.prod_cons, red_mul]
      exact h2.mul_left _
    · have hc : IsCoprime D (red p T) := ((hT.coprime_iff_not_dvd).2 h).symm
      obtain ⟨S, h1, h2⟩ := ih' D (hc.dvd_of_dvd_mul_left hD)
      exact ⟨S, h1.cons T, h2⟩

theorem sublist_good {S Ts : List ℤ[X]} (h : Good p Ts) (hs : S.Sublist Ts) : Good p S :=
  ⟨fun T hT => h.monic T (hs.subset hT), fun T hT => h.irr T (hs.subset hT), h.cop.sublist hs⟩

theorem Good.perm {S Ts : List ℤ[X]} (h : Good p Ts) (hs : S.Perm Ts) : Good p S :=
  ⟨fun T hT => h.monic T (hs.subset hT), fun T hT => h.irr T (hs.subset hT), (hs.pairwise_iff (fun h => h.symm)).2 h.cop⟩

theorem coprime_list {A : (ZMod p)[X]} : ∀ {l : List ℤ[X]}, (∀ B ∈ l, IsCoprime A (red p B)) → IsCoprime A (red p l.prod)
  | [], _ => by simpa using isCoprime_one_right
  | B :: l, h => by
    rw [List.prod_cons, red_mul]
    exact (h B (by simp)).mul_right (coprime_list fun C hC => h C (by simp [hC]))

theorem coprime_lists {k l : List ℤ[X]} (h : ∀ A ∈ k, ∀ B ∈ l, IsCoprime (red p A) (red p B)) : IsCoprime (red p k.prod) (red p l.prod) := by
  induction k with
  | nil => simpa using isCoprime_one_left
  | cons A k ih =>
    rw [List.prod_cons, red_mul]
    exact (coprime_list (h A (by simp))).mul_left (ih fun C hC => h C (by simp [hC]))

theorem good_append {k l : List ℤ[X]} (h : Good p (k ++ l)) : IsCoprime (red p k.prod) (red p l.prod) := by
  have := List.pairwise_append.1 h.cop
  exact coprime_lists this.2.2

/-- degree of the product of a list without zeros is that of its image; the empty list is the only one of degree zero -/
theorem good_natDegree_pos {S : List ℤ[X]} (h : Good p S) (h0 : S.prod.natDegree = 0) : S = [] := by
  cases S with
  | nil => rfl
  | cons A l =>
    exfalso
    have hm := monic_prodZ h.monic
    have h1 : (red p A).natDegree ≤ A.natDegree := natDegree_map_le
    have h2 : 0 < (red p A).natDegree := (h.irr A (by simp)).natDegree_pos
    rw [List.prod_cons, natDegree_mul (h.monic A (by simp)).ne_zero (monic_prodZ fun B hB => h.monic B (by simp [hB])).ne_zero] at h0
    omega

theorem monic_red_natDegree {A : ℤ[X]} (h : A.Monic) : (red p A).natDegree = A.natDegree := h.natDegree_map _

theorem associated_natDegree {D E : (ZMod p)[X]} (h : Associated D E) : D.natDegree = E.natDegree := natDegree_eq_of_degree_eq (degree_eq_degree_of_associated h)

/-- lists of associated products have the same length -/
theorem good_length {S S' : List ℤ[X]} (h : Good p S) (hs : S'.Sublist S) (ha : Associated (red p S'.prod) (red p S.prod)) : S'.length = S.length := by
  obtain ⟨R, hR⟩ := hs.exists_perm_append
  have hp' : (red p S'.prod) * (red p R.prod) = red p S.prod := by rw [← red_mul, ← List.prod_append, hR.prod_eq]
  have hg : Good p (S' ++ R) := h.perm hR.symm
  have hRg : Good p R := sublist_good hg (List.sublist_append_right _ _)
  have n0 : red p S'.prod ≠ 0 := ((monic_prodZ (sublist_good h hs).monic).map _).ne_zero
  have n1 : red p R.prod ≠ 0 := ((monic_prodZ hRg.monic).map _).ne_zero
  have d := associated_natDegree ha
  rw [← hp', natDegree_mul n0 n1, monic_red_natDegree (monic_prodZ hRg.monic)] at d
  have : R = [] := good_natDegree_pos hRg (by omega)
  rw [this, List.append_nil] at hR
  exact hR.length_eq.symm

end

end Upoly
end CLPoly
