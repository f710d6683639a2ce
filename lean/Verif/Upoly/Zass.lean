import Verif.Upoly.ZassTry
import Verif.Upoly.HenselLift

/-! # `__zassenhaus_recombine`: the product of the factors is the input, and the factors are irreducible -/

namespace CLPoly
namespace Upoly
open Polynomial

theorem prim_deg_zero {F : ℤ[X]} (hF : F.IsPrimitive) (hpos : 0 < F.leadingCoeff) (h : F.natDegree = 0) : F = 1 := by
  rw [eq_C_of_natDegree_eq_zero h] at hF hpos ⊢
  have := Int.isUnit_iff.1 (hF _ dvd_rfl)
  rw [leadingCoeff_C] at hpos
  have : F.coeff 0 = 1 := by omega
  rw [this, C_1]

/-- a primitive polynomial is irreducible if it is not the product of two polynomials of positive degree -/
theorem prim_irreducible {F : ℤ[X]} (hF : F.IsPrimitive) (hd : 0 < F.natDegree) (h : ∀ A B, F = A * B → 0 < A.natDegree → 0 < B.natDegree → False) : Irreducible F := by
  refine ⟨fun hu => ?_, fun A B e => ?_⟩
  · have := natDegree_eq_zero_of_isUnit hu
    omega
  · by_cases hA : A.natDegree = 0
    · left
      rw [eq_C_of_natDegree_eq_zero hA] at e ⊢
      exact isUnit_C.2 (hF _ (e ▸ Dvd.intro _ rfl))
    · by_cases hB : B.natDegree = 0
      · right
        rw [eq_C_of_natDegree_eq_zero hB] at e ⊢
        exact isUnit_C.2 (hF _ (e ▸ Dvd.intro_left _ rfl))
      · exact (h A B e (by omega) (by omega)).elim

section
variable {p : Nat} [hp : Fact p.Prime]

/-- `Ts` is a complete lifted factorization of `F` modulo `m = p^K`, with `m` above the bound -/
structure LiftOK (p K : Nat) (m : ℤ) (F : ℤ[X]) (Ts : List ℤ[X]) : Prop where
  hK : K ≠ 0
  hm : m = (p : ℤ) ^ K
  good : Good p Ts
  lc : ¬ (p : ℤ) ∣ F.leadingCoeff
  prod : Cong m (C F.leadingCoeff * Ts.prod) F
  bound : ∀ G, G ∣ F → ∀ i, 2 * |F.leadingCoeff| * |G.coeff i| < m

/-- every factor of positive degree consists of at least `s` modular factors -/
def NoSmall (p s : Nat) (F : ℤ[X]) (Ts : List ℤ[X]) : Prop :=
  ∀ A, A ∣ F → 0 < A.natDegree → ∀ S : List ℤ[X], S.Subperm Ts → Associated (red p A) (red p S.prod) → s ≤ S.length

theorem lc_of_dvd {F G : ℤ[X]} (h : ¬ (p : ℤ) ∣ F.leadingCoeff) (hd : G ∣ F) : ¬ (p : ℤ) ∣ G.leadingCoeff := fun h' => by
  obtain ⟨Q, rfl⟩ := hd
  rw [leadingCoeff_mul] at h
  exact h (dvd_mul_of_dvd_left h' _)

theorem unit_C {a : ℤ} (h : ¬ (p : ℤ) ∣ a) : IsUnit (C ((a : ℤ) : ZMod p)) :=
  isUnit_C.2 (isUnit_iff_ne_zero.2 fun h0 => h ((ZMod.intCast_zmod_eq_zero_iff_dvd _ _).1 h0))

theorem red_C_mul (a : ℤ) (F : ℤ[X]) : red p (C a * F) = C ((a : ℤ) : ZMod p) * red p F := by
  show Polynomial.map _ _ = _
  rw [Polynomial.map_mul, map_C]
  rfl

theorem LiftOK.p_dvd {K : Nat} {m : ℤ} {F : ℤ[X]} {Ts : List ℤ[X]} (L : LiftOK p K m F Ts) : (p : ℤ) ∣ m := by rw [L.hm]; exact dvd_pow_self _ L.hK

theorem LiftOK.red_eq {K : Nat} {m : ℤ} {F : ℤ[X]} {Ts : List ℤ[X]} (L : LiftOK p K m F Ts) : Associated (red p F) (red p Ts.prod) := by
  have := Cong.iff_map.1 (L.prod.of_dvd L.p_dvd)
  have e : red p F = C ((F.leadingCoeff : ℤ) : ZMod p) * red p Ts.prod := by rw [← red_C_mul]; exact this.symm
  rw [e]
  exact (associated_unit_mul_left _ _ (unit_C L.lc))

theorem LiftOK.natDegree {K : Nat} {m : ℤ} {F : ℤ[X]} {Ts : List ℤ[X]} (L : LiftOK p K m F Ts) : F.natDegree = Ts.prod.natDegree := by
  rw [← red_natDegree L.lc, associated_natDegree L.red_eq, monic_red_natDegree (monic_prodZ L.good.monic)]

theorem noSmall_one (F : ℤ[X]) (Ts : List ℤ[X]) (h : ¬ (p : ℤ) ∣ F.leadingCoeff) : NoSmall p 1 F Ts := by
  intro A hA hd S _ ha
  by_contra hc
  have : S = [] := by
    cases S with
    | nil => rfl
    | cons _ _ => simp at hc
  subst this
  have h1 := associated_natDegree ha
  rw [red_natDegree (lc_of_dvd h hA)] at h1
  simp at h1
  omega

/-- the factors of `F = A·B` and the two parts of the modular factors -/
theorem LiftOK.split {K : Nat} {m : ℤ} {F A B : ℤ[X]} {Ts S R : List ℤ[X]} (L : LiftOK p K m F Ts) (e : F = A * B) (hS : Ts.Perm (S ++ R)) (ha : Associated (red p A) (red p S.prod)) :
    Associated (red p B) (red p R.prod) ∧ A.natDegree = S.prod.natDegree ∧ B.natDegree = R.prod.natDegree ∧
      Cong m (C A.leadingCoeff * S.prod) A ∧ Cong m (C B.leadingCoeff * R.prod) B := by
  have lA := lc_of_dvd L.lc (Dvd.intro _ e.symm)
  have lB := lc_of_dvd L.lc (Dvd.intro_left _ e.symm)
  have g := L.good.perm hS.symm
  have hprod : Ts.prod = S.prod * R.prod := by rw [hS.prod_eq, List.prod_append]
  have hb : Associated (red p B) (red p R.prod) := by
    have h1 := L.red_eq
    rw [e, red_mul, hprod, red_mul] at h1
    exact Associated.of_mul_left h1 ha (red_ne_zero lA)
  have cop := good_append g
  have gS := sublist_good g (List.sublist_append_left S R)
  have gR := sublist_good g (List.sublist_append_right S R)
  have mS := monic_prodZ gS.monic
  have mR := monic_prodZ gR.monic
  have dA : A.natDegree = S.prod.natDegree := by rw [← red_natDegree lA, associated_natDegree ha, monic_red_natDegree mS]
  have dB : B.natDegree = R.prod.natDegree := by rw [← red_natDegree lB, associated_natDegree hb, monic_red_natDegree mR]
  have c1 : IsCoprime (red p S.prod) (red p B) := (cop.of_isCoprime_of_dvd_right hb.dvd)
  have c2 : IsCoprime (red p R.prod) (red p A) := (cop.symm.of_isCoprime_of_dvd_right ha.dvd)
  have hp1 := L.prod
  rw [hprod, L.hm] at hp1
  refine ⟨hb, dA, dB, ?_, ?_⟩
  · rw [L.hm]
    refine lift_unique (l := F.leadingCoeff) (B := R.prod) L.hK lA mS ?_ c1 dA
    rw [← e]; exact hp1
  · rw [L.hm]
    refine lift_unique (l := F.leadingCoeff) (B := S.prod) L.hK lB mR ?_ c2 dB
    rw [mul_comm B, ← e, mul_comm R.prod]; exact hp1

/-- a factor of `F` corresponds to a part of the modular factors -/
theorem LiftOK.exists_part {K : Nat} {m : ℤ} {F A : ℤ[X]} {Ts : List ℤ[X]} (L : LiftOK p K m F Ts) (hA : A ∣ F) : ∃ S R, S.Sublist Ts ∧ Ts.Perm (S ++ R) ∧ Associated (red p A) (red p S.prod) := by
  have h1 : red p A ∣ red p Ts.prod := by
    have : red p A ∣ red p F := by
      obtain ⟨B, rfl⟩ := hA
      rw [red_mul]
      exact Dvd.intro _ rfl
    exact this.trans L.red_eq.dvd
  obtain ⟨S, s1, s2⟩ := exists_sub Ts L.good.irr _ h1
  obtain ⟨R, hR⟩ := s1.exists_perm_append
  exact ⟨S, R, s1, hR, s2⟩

/-- what is left when no subset of at most half of the factors gives a divisor -/
theorem rest_irreducible {K s : Nat} {m : ℤ} {F : ℤ[X]} {Ts : List ℤ[X]} (L : LiftOK p K m F Ts) (N : NoSmall p s F Ts) (pF : F.IsPrimitive) (hs : Ts.length < 2 * s) (hd : 0 < F.natDegree) :
    Irreducible F := by
  refine prim_irreducible pF hd fun A B e dA dB => ?_
  obtain ⟨S, R, h1, h2, h3⟩ := L.exists_part (Dvd.intro _ e.symm)
  obtain ⟨h4, _⟩ := L.split e h2 h3
  have a := N A (Dvd.intro _ e.symm) dA S h1.subperm h3
  have b := N B (Dvd.intro_left _ e.symm) dB R ((List.sublist_append_right S R).subperm.trans h2.symm.subperm) h4
  have := h2.length_eq
  rw [List.length_append] at this
  omega

/-- the factor found by a subset of minimal size is irreducible -/
theorem found_irreducible {K s : Nat} {m : ℤ} {F G Q : ℤ[X]} {Ts S R : List ℤ[X]} (L : LiftOK p K m F Ts) (N : NoSmall p s F Ts) (e : F = G * Q) (pG : G.IsPrimitive)
    (hS : Ts.Perm (S ++ R)) (ha : Associated (red p G) (red p S.prod)) (hlen : S.length = s) (hs : 1 ≤ s) : Irreducible G := by
  obtain ⟨_, dG, _⟩ := L.split e hS ha
  have g := L.good.perm hS.symm
  have gS := sublist_good g (List.sublist_append_left S R)
  have dpos : 0 < G.natDegree := by
    rw [dG]
    by_contra h0
    have := good_natDegree_pos gS (by omega)
    rw [this] at hlen
    simp at hlen
    omega
  refine prim_irreducible pG dpos fun A B e' dA dB => ?_
  have hAF : A ∣ F := (Dvd.intro _ e'.symm : A ∣ G).trans (Dvd.intro _ e.symm)
  have h1 : red p A ∣ red p S.prod := by
    have : red p A ∣ red p G := by rw [e', red_mul]; exact Dvd.intro _ rfl
    exact this.trans ha.dvd
  obtain ⟨S', s1, s2⟩ := exists_sub S gS.irr _ h1
  have sub : S'.Subperm Ts := s1.subperm.trans ((List.sublist_append_left S R).subperm.trans hS.symm.subperm)
  have := N A hAF dA S' sub s2
  have hle := s1.length_le
  have : S' = S := s1.eq_of_length (by omega)
  subst this
  have d1 := associated_natDegree (s2.trans ha.symm)
  rw [red_natDegree (lc_of_dvd L.lc hAF), red_natDegree (lc_of_dvd L.lc (Dvd.intro _ e.symm))] at d1
  have G0 : G ≠ 0 := by rintro rfl; simp at dpos
  rw [e'] at G0
  have := congrArg natDegree e'
  rw [natDegree_mul (left_ne_zero_of_mul G0) (right_ne_zero_of_mul G0)] at this
  omega

theorem LiftOK.neg {K : Nat} {m : ℤ} {F : ℤ[X]} {Ts : List ℤ[X]} (L : LiftOK p K m F Ts) : LiftOK p K m (-F) Ts := by
  refine ⟨L.hK, L.hm, L.good, by rw [leadingCoeff_neg, dvd_neg]; exact L.lc, ?_, fun G hG i => ?_⟩
  · rw [leadingCoeff_neg, C_neg, neg_mul]
    exact Cong.iff_coeff.2 fun i => by
      have := Cong.iff_coeff.1 L.prod i
      rw [coeff_neg, coeff_neg, ← neg_sub_neg, ← dvd_neg]
      simpa using this
  · rw [leadingCoeff_neg, abs_neg]
    exact L.bound G ((dvd_neg).1 hG) i

theorem LiftOK.assoc {K : Nat} {m : ℤ} {F F' : ℤ[X]} {Ts : List ℤ[X]} (L : LiftOK p K m F Ts) (h : Associated F F') : LiftOK p K m F' Ts := by
  obtain ⟨u, rfl⟩ := h
  obtain ⟨c, hc, hu⟩ := Polynomial.isUnit_iff.1 u.isUnit
  rw [← hu]
  rcases Int.isUnit_iff.1 hc with rfl | rfl
  · simpa using L
  · simpa using L.neg

theorem found_next {K : Nat} {m : ℤ} {F G Q : ℤ[X]} {Ts S R : List ℤ[X]} (L : LiftOK p K m F Ts) (e : F = G * Q) (hS : Ts.Perm (S ++ R))
    (ha : Associated (red p G) (red p S.prod)) : LiftOK p K m Q R := by
  obtain ⟨_, _, _, _, h5⟩ := L.split e hS ha
  refine ⟨L.hK, L.hm, sublist_good (L.good.perm hS.symm) (List.sublist_append_right S R), lc_of_dvd L.lc (Dvd.intro_left _ e.symm), h5, fun H hH i => ?_⟩
  have := L.bound H (hH.trans (Dvd.intro_left _ e.symm)) i
  have hlc : F.leadingCoeff = G.leadingCoeff * Q.leadingCoeff := by rw [e, leadingCoeff_mul]
  have h0 := abs_nonneg (H.coeff i)
  have g1 : 1 ≤ |G.leadingCoeff| := Int.one_le_abs fun h => by
    rw [h, zero_mul] at hlc
    exact L.lc (by rw [hlc]; exact dvd_zero _)
  have : |Q.leadingCoeff| ≤ |F.leadingCoeff| := by
    rw [hlc, abs_mul]
    have := abs_nonneg Q.leadingCoeff
    nlinarith
  nlinarith

/-- the image of the factor found modulo `p` -/
theorem found_assoc {K : Nat} {m : ℤ} {F G : ℤ[X]} {Ts S : List ℤ[X]} (L : LiftOK p K m F Ts) {c : ℤ} (hM : ∀ T ∈ S, T.Monic) (h : Cong m (C c * G) (C F.leadingCoeff * S.prod)) :
    Associated (red p G) (red p S.prod) := by
  have h1 : red p (C c * G) = red p (C F.leadingCoeff * S.prod) := Cong.iff_map.1 (h.of_dvd L.p_dvd)
  rw [red_C_mul, red_C_mul] at h1
  have hc : ¬ (p : ℤ) ∣ c := by
    intro hd
    rw [(ZMod.intCast_zmod_eq_zero_iff_dvd _ _).2 hd, C_0, zero_mul] at h1
    have := mul_ne_zero (unit_C L.lc).ne_zero ((monic_prodZ hM).map (Int.castRingHom (ZMod p))).ne_zero
    exact this h1.symm
  have h2 : Associated (C ((c : ℤ) : ZMod p) * red p G) (C ((F.leadingCoeff : ℤ) : ZMod p) * red p S.prod) := by rw [h1]
  exact ((associated_unit_mul_left _ _ (unit_C hc)).symm.trans h2).trans (associated_unit_mul_left _ _ (unit_C L.lc))

end

theorem forall2_toPoly {T : List (UPoly ℤ)} (h : ∀ t ∈ T, Canon comp t) : List.Forall₂ Is T (T.map toPoly) := by
  induction T with
  | nil => exact .nil
  | cons t T ih => exact .cons (is_of_canon (h t (by simp))) (ih fun u hu => h u (by simp [hu]))

section
variable {p : Nat} [hp : Fact p.Prime]

/-- when all subsets of size `s` fail, every factor needs more -/
theorem noSmall_succ {K s : Nat} {m : ℤ} (hm : 0 < m) {f : UPoly ℤ} {F : ℤ[X]} (hf : Is f F) (pF : F.IsPrimitive) {T : List (UPoly ℤ)} (hT : ∀ t ∈ T, Canon comp t)
    (L : LiftOK p K m F (T.map toPoly)) (N : NoSmall p s F (T.map toPoly))
    (hfail : ∀ S : List (UPoly ℤ), S.Sublist T → S.length = s → tryOne m f S = some none) : NoSmall p (s + 1) F (T.map toPoly) := by
  intro A hA hd S hS ha
  have h1 := N A hA hd S hS ha
  by_contra hc
  have hlen : S.length = s := by omega
  obtain ⟨S1, p1, p2⟩ := hS
  obtain ⟨S0, s1, rfl⟩ := List.sublist_map_iff.1 p2
  have hfl := hfail S0 s1 (by have := p1.length_eq; simp at this; omega)
  obtain ⟨R, hR⟩ := p2.exists_perm_append
  have ha' : Associated (red p A) (red p (S0.map toPoly).prod) := by rw [p1.prod_eq]; exact ha
  obtain ⟨Q, e⟩ := hA
  obtain ⟨_, _, _, h4, _⟩ := L.split e hR ha'
  exact tryOne_complete hm hf pF e (L.bound A (Dvd.intro _ e.symm)) (forall2_toPoly fun t ht => hT t (s1.subset ht)) (fun S hS => L.good.monic S (p2.subset hS)) h4 hfl

end

theorem LiftOK.lm {p K : Nat} {m : ℤ} {F : ℤ[X]} {Ts : List ℤ[X]} (L : LiftOK p K m F Ts) : 2 * F.leadingCoeff ≤ m := by
  have := L.bound 1 (one_dvd _) 0
  simp at this
  have := le_abs_self F.leadingCoeff
  omega

/-- the main loop -/
theorem zassLoop_spec {m : ℤ} (hm : 1 < m) (L : Nat) : ∀ (fuel s : Nat) (f : UPoly ℤ) (T res : List (UPoly ℤ)) (F : ℤ[X]) (Rs : List ℤ[X]), Is f F → F.IsPrimitive → IsCoprime F.leadingCoeff m →
    (∀ t ∈ T, Canon comp t) → (∀ t ∈ T, (toPoly t).Monic ∧ 0 < (toPoly t).natDegree) → List.Forall₂ Is res Rs → (∀ R ∈ Rs, R.IsPrimitive ∧ 0 < R.natDegree) →
    1 ≤ s → s ≤ L + 1 → T.length ≤ L → T.length * (L + 1) + (L + 1 - s) < fuel →
    ∃ res' f' Rs' F', zassLoop m fuel s f T res = some (res', f') ∧ Is f' F' ∧ List.Forall₂ Is res' Rs' ∧ F'.IsPrimitive ∧ (∀ R ∈ Rs', R.IsPrimitive ∧ 0 < R.natDegree) ∧
      Associated (Rs'.prod * F') (Rs.prod * F) ∧
      (0 < F.leadingCoeff → 2 * F.leadingCoeff ≤ m → (∀ R ∈ Rs, 0 < R.leadingCoeff) → Rs'.prod * F' = Rs.prod * F ∧ 0 < F'.leadingCoeff ∧ ∀ R ∈ Rs', 0 < R.leadingCoeff) ∧
      ∀ (p : Nat) [Fact p.Prime] (K : Nat), LiftOK p K m F (T.map toPoly) → NoSmall p s F (T.map toPoly) → (∀ R ∈ Rs, Irreducible R) → (∀ R ∈ Rs', Irreducible R) ∧ (F'.natDegree = 0 ∨ Irreducible F') := by
  have m0 : 0 < m := by omega
  intro fuel
  induction fuel with
  | zero => intro s f T res F Rs _ _ _ _ _ _ _ _ _ _ h; omega
  | succ fuel ih =>
    intro s f T res F Rs hf pF hcop hT hTm hres hRs s1 s2 tl hfu
    have e : zassLoop m (fuel + 1) s f T res = if 2 * s ≤ T.length then
      (combLoop m f T (2 ^ T.length + 1) (List.range s).reverse).bind fun o =>
      match o with
      | some x => zassLoop m fuel 1 x.2.2 (removeIdx T x.1) (res ++ [x.2.1])
      | none => zassLoop m fuel (s + 1) f T res
    else some (res, f) := rfl
    rw [e]
    split
    · next h2s =>
      have hv : Valid T.length (List.range s).reverse := (range_rev_valid s).mono (by omega)
      have hmon : ∀ S : List (UPoly ℤ), S.Sublist T → ∀ P ∈ S.map toPoly, P.Monic ∧ 0 < P.natDegree := fun S hS P hP => by
        obtain ⟨t, ht, rfl⟩ := List.mem_map.1 hP
        exact hTm t (hS.subset ht)
      have hsound : ∀ S : List (UPoly ℤ), S.Sublist T → _ := fun S hS =>
        tryOne_sound hm hf pF hcop (forall2_toPoly fun t ht => hT t (hS.subset ht)) (Ss := S.map toPoly) (fun P hP => (hmon S hS P hP).1)
      have htry : ∀ S : List (UPoly ℤ), S.Sublist T → tryOne m f S ≠ none := fun S hS h => by
        obtain ⟨o, ho, _⟩ := hsound S hS
        rw [h] at ho
        simp at ho
      rcases combLoop_spec htry (2 ^ T.length + 1) _ hv (by have := combMeas_lt hv; omega) with ⟨l, x, b1, b2, b3, b4⟩ | ⟨b1, b2⟩
      · rw [b1, Option.bind_some]
        have hsub := getD_map_reverse_sublist ([] : UPoly ℤ) T b2 le_rfl
        rw [List.take_length] at hsub
        obtain ⟨o, ho, ho2⟩ := hsound _ hsub
        rw [b4] at ho
        obtain ⟨g, q⟩ := x
        obtain ⟨G, Q, c, FD⟩ := ho2 g q (Option.some.inj ho).symm
        obtain ⟨S, hS⟩ : ∃ S, S = l.reverse.map fun i => T.getD i [] := ⟨_, rfl⟩
        rw [← hS] at hsub FD
        have hperm : (S ++ removeIdx T l).Perm T := by
          refine List.Perm.trans (List.Perm.append_right _ ?_) (removeIdx_perm [] T b2 le_rfl)
          rw [hS]
          exact (List.reverse_perm l).map _
        have hslen : S.length = s := by rw [hS]; simpa using b3
        have hlen : (removeIdx T l).length + s = T.length := by
          have := hperm.length_eq
          rw [List.length_append] at this
          omega
        have hmul : (removeIdx T l).length * (L + 1) + (L + 1) ≤ T.length * (L + 1) := by
          rw [← hlen, add_mul]
          have : 1 * (L + 1) ≤ s * (L + 1) := Nat.mul_le_mul_right _ s1
          omega
        have hTs : ∀ t ∈ removeIdx T l, t ∈ T := fun t ht => hperm.subset (List.mem_append_right _ ht)
        have hGd : 0 < G.natDegree := by
          rw [FD.deg]
          exact prod_natDegree_pos (hmon S hsub) (by rintro h; rw [List.map_eq_nil_iff.1 h] at hslen; simp at hslen; omega)
        obtain ⟨res', f', Rs', F', r1, r2, r3, r4, r6, r7, rp, r8⟩ := ih 1 q (removeIdx T l) (res ++ [g]) Q (Rs ++ [G]) FD.isQ FD.pQ FD.copQ (fun t ht => hT t (hTs t ht)) (fun t ht => hTm t (hTs t ht))
          (List.rel_append hres (.cons FD.isG .nil)) (fun R hR => by
            rcases List.mem_append.1 hR with h | h
            · exact hRs R h
            · simp only [List.mem_singleton] at h; subst h; exact ⟨FD.pG, hGd⟩) le_rfl (by omega) (by omega) (by omega)
        refine ⟨res', f', Rs', F', r1, r2, r3, r4, r6, ?_, ?_, ?_⟩
        · refine r7.trans ?_
          rw [List.prod_append, List.prod_singleton, mul_assoc]
          exact FD.assoc.symm.mul_left _
        · intro hpos hlm hR
          obtain ⟨e1, g3, q3⟩ := FD.pos hpos hlm
          have hlc : F.leadingCoeff = G.leadingCoeff * Q.leadingCoeff := by rw [e1, leadingCoeff_mul]
          obtain ⟨x1, x2, x3⟩ := rp q3 (by nlinarith) (fun R h => by
            rcases List.mem_append.1 h with h | h
            · exact hR R h
            · simp only [List.mem_singleton] at h; subst h; exact g3)
          refine ⟨?_, x2, x3⟩
          rw [x1, List.prod_append, e1]; simp [mul_assoc]
        · intro p _ K LO0 NS hirr
          have LO := LO0.assoc FD.assoc
          have NS : NoSmall p s (G * Q) (T.map toPoly) := fun A hA => NS A (hA.trans FD.assoc.symm.dvd)
          have hpm : (T.map toPoly).Perm (S.map toPoly ++ (removeIdx T l).map toPoly) := by
            rw [← List.map_append]
            exact (hperm.map toPoly).symm
          have ha := found_assoc LO0 (fun P hP => LO.good.monic P ((hsub.map toPoly).subset hP)) FD.cong
          have LO' := found_next LO rfl hpm ha
          refine r8 p K LO' (noSmall_one _ _ LO'.lc) fun R hR => ?_
          rcases List.mem_append.1 hR with h | h
          · exact hirr R h
          · simp only [List.mem_singleton] at h
            subst h
            exact found_irreducible LO NS rfl FD.pG hpm ha (by simpa using hslen) s1
      · rw [b1, Option.bind_some]
        obtain ⟨res', f', Rs', F', r1, r2, r3, r4, r6, r7, rp, r8⟩ := ih (s + 1) f T res F Rs hf pF hcop hT hTm hres hRs (by omega) (by omega) tl (by omega)
        refine ⟨res', f', Rs', F', r1, r2, r3, r4, r6, r7, rp, fun p _ K LO NS hirr => r8 p K LO ?_ hirr⟩
        refine noSmall_succ m0 hf pF hT LO NS fun S hS hSl => ?_
        obtain ⟨l, l1, l2, l3⟩ := exists_indices ([] : UPoly ℤ) hS
        rw [← l3]
        have hrl : (List.range s).reverse.length = s := by simp
        refine b2 l l1 (by rw [hrl]; omega) (range_rev_min s l _ l1 (by omega))
    · next h2s =>
      refine ⟨res, f, Rs, F, rfl, hf, hres, pF, hRs, .refl _, fun h _ h' => ⟨rfl, h, h'⟩, fun p _ K LO NS hirr => ⟨hirr, ?_⟩⟩
      by_cases hd : F.natDegree = 0
      · exact .inl hd
      · exact .inr (rest_irreducible LO NS pF (by rw [List.length_map]; omega) (by omega))
where
  prod_natDegree_pos {l : List ℤ[X]} (h : ∀ P ∈ l, P.Monic ∧ 0 < P.natDegree) (h0 : l ≠ []) : 0 < l.prod.natDegree := by
    cases l with
    | nil => exact absurd rfl h0
    | cons A l =>
      rw [List.prod_cons, natDegree_mul (h A (by simp)).1.ne_zero (monic_prodZ fun B hB => (h B (by simp [hB])).1).ne_zero]
      have := (h A (by simp)).2
      omega

theorem associated_int {A B : ℤ[X]} : Associated A B → A = B ∨ A = -B := by
  rintro ⟨u, rfl⟩
  obtain ⟨c, hc, hu⟩ := Polynomial.isUnit_iff.1 u.isUnit
  rcases Int.isUnit_iff.1 hc with rfl | rfl
  · left; rw [← hu]; simp
  · right; rw [← hu]; simp

theorem prim_deg_zero_unit {F : ℤ[X]} (hF : F.IsPrimitive) (h : F.natDegree = 0) : IsUnit F := by
  rw [eq_C_of_natDegree_eq_zero h] at hF ⊢
  exact isUnit_C.2 (hF _ dvd_rfl)

theorem forall2_toPoly_of {l : List (UPoly ℤ)} {Ls : List ℤ[X]} (h : List.Forall₂ Is l Ls) : Ls = l.map toPoly ∧ ∀ t ∈ l, Canon comp t := by
  induction h with
  | nil => simp
  | cons a _ ih => exact ⟨by rw [List.map_cons, a.eq, ← ih.1], fun t ht => by
      rcases List.mem_cons.1 ht with rfl | ht
      · exact a.canon
      · exact ih.2 t ht⟩

/-- `__zassenhaus_recombine` on monic factors with `lc(f)` prime to `m` -/
theorem zassenhaus_spec {sort : List (UPoly ℤ) → List (UPoly ℤ)} (hsort : ∀ l, (sort l).Perm l) {m : ℤ} (hm : 1 < m) {f : UPoly ℤ} {F : ℤ[X]} (hf : Is f F) (pF : F.IsPrimitive)
    (hcop : IsCoprime F.leadingCoeff m) {T : List (UPoly ℤ)} {Ts : List ℤ[X]} (hT : List.Forall₂ Is T Ts) (hTm : ∀ A ∈ Ts, A.Monic ∧ 0 < A.natDegree) :
    ∃ res Rs, zassenhaus sort m f T = some res ∧ List.Forall₂ Is res Rs ∧ Associated Rs.prod F ∧ (∀ R ∈ Rs, R.IsPrimitive ∧ 0 < R.natDegree) ∧
      (0 < F.leadingCoeff → 2 * F.leadingCoeff ≤ m → Rs.prod = F ∧ ∀ R ∈ Rs, 0 < R.leadingCoeff) ∧
      ∀ (p : Nat) [Fact p.Prime] (K : Nat), LiftOK p K m F Ts → ∀ R ∈ Rs, Irreducible R := by
  obtain ⟨rfl, hTc⟩ := forall2_toPoly_of hT
  have F0 : F ≠ 0 := pF.ne_zero
  unfold zassenhaus
  by_cases hl : T.length ≤ 1
  · rw [if_pos hl, is_deg hf]
    by_cases hd : F.natDegree > 0
    · rw [if_pos hd]
      refine ⟨_, [F], rfl, .cons hf .nil, by simp, by simpa using ⟨pF, hd⟩, fun h _ => ⟨by simp, by simpa using h⟩, fun p _ K L R hR => ?_⟩
      simp only [List.mem_singleton] at hR
      subst hR
      exact rest_irreducible L (noSmall_one _ _ L.lc) pF (by rw [List.length_map]; omega) hd
    · rw [if_neg hd]
      refine ⟨_, [], rfl, .nil, ?_, by simp, fun hpos _ => ⟨by simpa using (prim_deg_zero pF hpos (by omega)).symm, by simp⟩, by simp⟩
      exact (associated_one_iff_isUnit.2 (prim_deg_zero_unit pF (by omega))).symm
  · rw [if_neg hl]
    obtain ⟨res, f', Rs, F', r1, r2, r3, r4, r6, r7, rp, r8⟩ := zassLoop_spec hm T.length ((T.length + 1) * (T.length + 1)) 1 f T [] F [] hf pF hcop hTc (fun t ht => hTm _ (List.mem_map_of_mem ht)) .nil (by simp)
      le_rfl (by omega) le_rfl (by rw [add_mul]; omega)
    rw [r1, Option.map_some]
    rw [List.prod_nil, one_mul] at r7 rp
    obtain ⟨out, ho⟩ : ∃ out, out = if f' ≠ [] ∧ deg f' > 0 then res ++ [f'] else res := ⟨_, rfl⟩
    have hF'0 : F' ≠ 0 := r4.ne_zero
    have hout : ∃ Os, List.Forall₂ Is out Os ∧ Associated Os.prod F ∧ (∀ R ∈ Os, R.IsPrimitive ∧ 0 < R.natDegree) ∧ (0 < F.leadingCoeff → 2 * F.leadingCoeff ≤ m → Os.prod = F ∧ ∀ R ∈ Os, 0 < R.leadingCoeff) ∧
        ∀ (p : Nat) [Fact p.Prime] (K : Nat), LiftOK p K m F (T.map toPoly) → ∀ R ∈ Os, Irreducible R := by
      rw [ho]
      by_cases hc : f' ≠ [] ∧ deg f' > 0
      · rw [if_pos hc]
        have hd' := hc.2
        rw [is_deg r2] at hd'
        refine ⟨Rs ++ [F'], List.rel_append r3 (.cons r2 .nil), by rw [List.prod_append]; simpa using r7, fun R hR => ?_, fun h1 h2 => ?_, fun p _ K L R hR => ?_⟩
        · rcases List.mem_append.1 hR with h | h
          · exact r6 R h
          · simp only [List.mem_singleton] at h; subst h; exact ⟨r4, hd'⟩
        · obtain ⟨x1, x2, x3⟩ := rp h1 h2 (by simp)
          refine ⟨by rw [List.prod_append]; simpa using x1, fun R hR => ?_⟩
          rcases List.mem_append.1 hR with h | h
          · exact x3 R h
          · simp only [List.mem_singleton] at h; subst h; exact x2
        · obtain ⟨i1, i2⟩ := r8 p K L (noSmall_one _ _ L.lc) (by simp)
          rcases List.mem_append.1 hR with h | h
          · exact i1 R h
          · simp only [List.mem_singleton] at h
            subst h
            rcases i2 with h | h
            · omega
            · exact h
      · rw [if_neg hc]
        have hd : F'.natDegree = 0 := by
          by_contra h
          exact hc ⟨fun h' => hF'0 ((is_nil_iff r2).1 h'), by rw [is_deg r2]; omega⟩
        refine ⟨Rs, r3, ?_, r6, fun h1 h2 => ?_, fun p _ K L R hR => (r8 p K L (noSmall_one _ _ L.lc) (by simp)).1 R hR⟩
        · exact (associated_mul_unit_left _ _ (prim_deg_zero_unit r4 hd)).symm.trans r7
        · obtain ⟨x1, x2, x3⟩ := rp h1 h2 (by simp)
          rw [prim_deg_zero r4 x2 hd, mul_one] at x1
          exact ⟨x1, x3⟩
    obtain ⟨Os, o1, o2, o3, o5, o4⟩ := hout
    obtain ⟨rfl, oc⟩ := forall2_toPoly_of o1
    have hp := hsort out
    refine ⟨_, (sort out).map toPoly, by rw [ho], forall2_toPoly fun t ht => oc t (hp.subset ht), ?_, ?_, ?_, ?_⟩
    · rw [(hp.map toPoly).prod_eq]; exact o2
    · exact fun R hR => o3 R ((hp.map toPoly).subset hR)
    · exact fun h1 h2 => ⟨by rw [(hp.map toPoly).prod_eq]; exact (o5 h1 h2).1, fun R hR => (o5 h1 h2).2 R ((hp.map toPoly).subset hR)⟩
    · exact fun p _ K L R hR => o4 p K L R ((hp.map toPoly).subset hR)

/-- a full-precision lift is a complete lifted factorization -/
theorem coprime_pow_lc {p : Nat} [hp : Fact p.Prime] {l : ℤ} (h : ¬ (p : ℤ) ∣ l) (K : Nat) : IsCoprime l ((p : ℤ) ^ K) := by
  have : IsCoprime l (p : ℤ) := ((Nat.prime_iff_prime_int.1 hp.out).coprime_iff_not_dvd.2 h).symm
  exact this.pow_right

theorem good_of_forall₂ {p : Nat} [hp : Fact p.Prime] {Rs : List ℤ[X]} {As : List (ZMod p)[X]} (h : List.Forall₂ (fun R A => R.map (Int.castRingHom (ZMod p)) = A ∧ R.natDegree = A.natDegree) Rs As)
    (hR : ∀ R ∈ Rs, R.Monic) (hA : ∀ A ∈ As, A.Monic ∧ Irreducible A) (hP : As.Nodup) : Good p Rs := by
  have e : As = Rs.map (red p) := by
    clear hR hA hP
    induction h with
    | nil => rfl
    | cons h _ ih => rw [List.map_cons, ← ih, ← h.1]
  subst e
  refine ⟨hR, fun T hT => (hA _ (List.mem_map_of_mem hT)).2, ?_⟩
  have h1 : (Rs.map (red p)).Pairwise IsCoprime := coprime_of_nodup hA hP
  exact List.pairwise_map.1 h1
where
  coprime_of_nodup {p : Nat} [hp : Fact p.Prime] {As : List (ZMod p)[X]} (hA : ∀ A ∈ As, A.Monic ∧ Irreducible A) (hP : As.Nodup) : As.Pairwise IsCoprime := by
    refine List.Pairwise.imp_of_mem (fun {A B} ha hb hne => ?_) hP
    by_cases h : A ∣ B
    swap
    · exact (hA A ha).2.coprime_iff_not_dvd.2 h
    · exact (hne (eq_of_monic_of_associated (hA A ha).1 (hA B hb).1 ((hA A ha).2.associated_of_dvd (hA B hb).2 h))).elim

theorem good_pos {p : Nat} [hp : Fact p.Prime] {Ts : List ℤ[X]} (h : Good p Ts) (A : ℤ[X]) (hA : A ∈ Ts) : 0 < A.natDegree :=
  lt_of_lt_of_le (h.irr A hA).natDegree_pos natDegree_map_le

/-- full-precision lifting and subset recombination -/
theorem liftZass_spec {sort : List (UPoly ℤ) → List (UPoly ℤ)} (hsort : ∀ l, (sort l).Perm l) {p : Nat} [hp : Fact p.Prime] {f : UPoly ℤ} {F : ℤ[X]} (hf : Is f F) (pF : F.IsPrimitive)
    (hpos : 0 < F.leadingCoeff) (hlc : ¬ (p : ℤ) ∣ F.leadingCoeff) {fs : List (UPoly (ZMod p))} {As : List (ZMod p)[X]} (hfs : List.Forall₂ Is fs As) (hlen : 2 ≤ fs.length)
    (hM : ∀ A ∈ As, A.Monic ∧ Irreducible A) (hP : As.Nodup) (hmap : F.map (Int.castRingHom (ZMod p)) = C ((F.leadingCoeff : ℤ) : ZMod p) * As.prod) :
    ∃ r m res Rs, henselLift p f fs 0 = some (r, m) ∧ zassenhaus sort m f r = some res ∧ List.Forall₂ Is res Rs ∧ Rs.prod = F ∧ ∀ R ∈ Rs, Irreducible R ∧ R.IsPrimitive ∧ 0 < R.leadingCoeff := by
  have F0 : F ≠ 0 := by rintro rfl; simp at hpos
  obtain ⟨r, k, Ts, h1, h2, h3, _, h4, h5, h6, _⟩ := henselLift_spec hf hlc hfs hlen (fun A hA => (hM A hA).1) (good_of_forall₂.coprime_of_nodup hM hP) hmap 0
  obtain ⟨B, b1, b2⟩ := h6 rfl
  obtain ⟨B', c1, _, c2, _⟩ := mignotte_spec hf F0
  obtain rfl : B' = B := by rw [b1] at c1; exact (Option.some.inj c1).symm
  have bound : ∀ G, G ∣ F → ∀ i, 2 * |F.leadingCoeff| * |G.coeff i| < (p : ℤ) ^ 2 ^ k := fun G hG i => lt_of_le_of_lt (mul_le_mul_of_nonneg_left (c2 G hG i) (by positivity)) b2
  have hm : 0 < (p : ℤ) ^ 2 ^ k := by have : (0 : ℤ) < p := by exact_mod_cast hp.out.pos
                                      positivity
  have hm1 : 1 < (p : ℤ) ^ 2 ^ k := one_lt_pow₀ (by exact_mod_cast hp.out.one_lt) (by positivity)
  have good := good_of_forall₂ h4 h3 hM hP
  have LO : LiftOK p (2 ^ k) ((p : ℤ) ^ 2 ^ k) F Ts := ⟨by positivity, rfl, good, hlc, h5, bound⟩
  obtain ⟨res, Rs, z1, z2, z3, z4, z6, z5⟩ := zassenhaus_spec hsort hm1 hf pF (coprime_pow_lc hlc _) h2 fun A hA => ⟨h3 A hA, good_pos good A hA⟩
  obtain ⟨y1, y2⟩ := z6 hpos LO.lm
  exact ⟨r, _, res, Rs, h1, z1, z2, y1, fun R hR => ⟨z5 p (2 ^ k) LO R hR, (z4 R hR).1, y2 R hR⟩⟩

end Upoly
end CLPoly
