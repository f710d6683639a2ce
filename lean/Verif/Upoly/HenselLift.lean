import Verif.Upoly.HenselTree

/-! # `__hensel_lift` as a whole -/

namespace CLPoly
namespace Upoly
open Polynomial

theorem cong_C {m a b : ℤ} (h : m ∣ a - b) : Cong m (C a) (C b) := by
  unfold Cong
  rw [← C_sub]
  exact C_dvd_C.2 h

theorem monicHead_spec {m : ℤ} (hm : 1 < m) {a : ℤ} (ha : IsCoprime a m) {l : List (UPoly ℤ)} {L0 : ℤ[X]} {Lt : List ℤ[X]} (h : List.Forall₂ Is l (L0 :: Lt)) (hc : m ∣ L0.leadingCoeff - a)
    (r0 : Red m L0) :
    ∃ l' L0', monicHead m l = some l' ∧ List.Forall₂ Is l' (L0' :: Lt) ∧ L0'.Monic ∧ L0'.natDegree = L0.natDegree ∧ Cong m (C a * L0') L0 ∧ Red m L0' := by
  cases h with
  | @cons g _ l _ hg hl =>
    have e : monicHead m (g :: l) = if lc g ≠ 1 then (invertZ (lc g) m).map fun inv => modCoeff m (g.map fun t => (t.1, t.2 * inv)) :: l else some (g :: l) := rfl
    rw [e, is_lc hg]
    have cop := coprime_of_cong ha hc
    split
    · next h1 =>
      obtain ⟨v, e1, e2, e3, e4⟩ := invertZ_spec hm cop
      have v0 : v ≠ 0 := by
        rintro rfl
        rw [mul_zero, zero_sub, dvd_neg] at e2
        have := Int.eq_one_of_dvd_one (by omega) e2
        omega
      obtain ⟨H, h1, h2, h3, h4⟩ := modCoeff_is (m := m) (by omega) (map_mul_is hg v0)
      rw [e1, Option.map_some]
      have c1 : H.coeff L0.natDegree = 1 := by
        rw [h2, coeff_C_mul, mul_comm, coeff_natDegree]
        have : L0.leadingCoeff * v % m = 1 % m := Int.ModEq.symm ((Int.modEq_iff_dvd).2 e2)
        rw [this]
        exact Int.emod_eq_of_lt (by norm_num) hm
      have c2 : H.natDegree ≤ L0.natDegree := h4.natDegree_le h3 (natDegree_C_mul_le _ _)
      have c3 : H.natDegree = L0.natDegree := le_antisymm c2 (le_natDegree_of_ne_zero (by rw [c1]; norm_num))
      refine ⟨_, H, rfl, .cons h1 hl, by rw [Monic, leadingCoeff, c3, c1], c3, ?_, h4⟩
      have a1 : Cong m (C a * H) (C L0.leadingCoeff * (C v * L0)) := (cong_C (by
        rw [show a - L0.leadingCoeff = -(L0.leadingCoeff - a) by ring, dvd_neg]; exact hc)).mul h3
      rw [← mul_assoc, ← C_mul] at a1
      refine a1.trans ?_
      have a2 : Cong m (C (L0.leadingCoeff * v) * L0) (C 1 * L0) := (cong_C e2).mul .rfl'
      simpa using a2
    · next h1 =>
      have h1 : L0.leadingCoeff = 1 := by simpa using h1
      refine ⟨_, L0, rfl, .cons hg hl, h1, rfl, ?_, r0⟩
      have : Cong m (C a * L0) (C 1 * L0) := (cong_C (by rw [← h1, show a - L0.leadingCoeff = -(L0.leadingCoeff - a) by ring, dvd_neg]; exact hc)).mul .rfl'
      simpa using this

theorem forall2_trans' {α β γ : Type*} {P : α → β → Prop} {Q : β → γ → Prop} {R : α → γ → Prop} (h : ∀ a b c, P a b → Q b c → R a c) {l : List α} {m : List β} {n : List γ}
    (h1 : List.Forall₂ P l m) (h2 : List.Forall₂ Q m n) : List.Forall₂ R l n := by
  induction h1 generalizing n with
  | nil => cases h2; exact .nil
  | cons a _ ih => cases h2 with | cons b c => exact .cons (h _ _ _ a b) (ih c)

theorem henselLift_spec {p : Nat} [hp : Fact p.Prime] {f : UPoly ℤ} {F : ℤ[X]} (hf : Is f F) (hlc : ¬ (p : ℤ) ∣ F.leadingCoeff) {fs : List (UPoly (ZMod p))} {As : List (ZMod p)[X]}
    (hfs : List.Forall₂ Is fs As) (hlen : 2 ≤ fs.length) (hM : ∀ A ∈ As, A.Monic) (hP : As.Pairwise IsCoprime)
    (hmap : F.map (Int.castRingHom (ZMod p)) = C ((F.leadingCoeff : ℤ) : ZMod p) * As.prod) (a : Nat) :
    ∃ r k Rs, henselLift p f fs a = some (r, (p : ℤ) ^ (2 ^ k)) ∧ List.Forall₂ Is r Rs ∧ (∀ R ∈ Rs, R.Monic) ∧ (∀ R ∈ Rs, Red ((p : ℤ) ^ (2 ^ k)) R) ∧
      List.Forall₂ (fun R A => R.map (Int.castRingHom (ZMod p)) = A ∧ R.natDegree = A.natDegree) Rs As ∧ Cong ((p : ℤ) ^ (2 ^ k)) (C F.leadingCoeff * Rs.prod) F ∧
      (a = 0 → ∃ B, mignotte f = some B ∧ 2 * |F.leadingCoeff| * B < (p : ℤ) ^ (2 ^ k)) ∧ (a ≠ 0 → (p : ℤ) ^ a ≤ (p : ℤ) ^ (2 ^ k)) := by
  have pp := hp.out.one_lt
  have F0 : F ≠ 0 := by rintro rfl; simp at hlc
  have u0 : ((F.leadingCoeff : ℤ) : ZMod p) ≠ 0 := fun h => hlc ((ZMod.intCast_zmod_eq_zero_iff_dvd _ _).1 h)
  have hcop : IsCoprime F.leadingCoeff (p : ℤ) := by
    rw [Int.isCoprime_iff_gcd_eq_one]
    rcases (Nat.dvd_prime hp.out).1 (Int.gcd_dvd_natAbs_right F.leadingCoeff p) with h | h
    · exact h
    · exfalso
      apply hlc
      have := Int.gcd_dvd_left F.leadingCoeff (p : ℤ)
      rw [h] at this
      simpa using this
  cases hfs with
  | nil => simp at hlen
  | @cons x A l As hx hl =>
    obtain ⟨target, ht1, ht2, ht3⟩ : ∃ target, liftTarget p f a = some target ∧ (∀ M : ℤ, target < M → (a = 0 → ∃ B, mignotte f = some B ∧ 2 * |F.leadingCoeff| * B < M)) ∧
        (∀ M : ℤ, target < M → (a ≠ 0 → (p : ℤ) ^ a ≤ M)) := by
      unfold liftTarget
      split
      · next h =>
        obtain ⟨B, b1, _⟩ := mignotte_spec hf F0
        refine ⟨2 * |F.leadingCoeff| * B, ?_, fun M hM _ => ⟨B, b1, hM⟩, fun M _ h' => absurd h h'⟩
        rw [b1, Option.map_some, is_lc hf]
        congr 3
        split
        · next h => rw [abs_of_neg h]
        · next h => rw [abs_of_nonneg (not_lt.1 h)]
      · next h => exact ⟨_, rfl, fun M _ h' => absurd h' h, fun M hM _ => by omega⟩
    have hx' : Is (norm (x.map fun t => (t.1, t.2 * ((F.leadingCoeff : ℤ) : ZMod p)))) (C ((F.leadingCoeff : ℤ) : ZMod p) * A) := (map_mul_is hx u0).norm
    have Am : A.Monic := hM A (by simp)
    have A0 : C ((F.leadingCoeff : ℤ) : ZMod p) * A ≠ 0 := mul_ne_zero (fun h => u0 (C_eq_zero.1 h)) Am.ne_zero
    have hprod : F.map (Int.castRingHom (ZMod p)) = (C ((F.leadingCoeff : ℤ) : ZMod p) * A :: As).prod := by rw [hmap, List.prod_cons, List.prod_cons, mul_assoc]
    have hdeg : F.natDegree = (C ((F.leadingCoeff : ℤ) : ZMod p) * A :: As).prod.natDegree := by
      rw [← hprod, natDegree_map_of_leadingCoeff_ne_zero]
      simpa using u0
    have uC : IsUnit (C ((F.leadingCoeff : ℤ) : ZMod p)) := isUnit_C.2 (isUnit_iff_ne_zero.2 u0)
    rw [List.pairwise_cons] at hP
    have hP' : (C ((F.leadingCoeff : ℤ) : ZMod p) * A :: As).Pairwise IsCoprime :=
      List.pairwise_cons.2 ⟨fun B hB => (isCoprime_mul_unit_left_left uC A B).2 (hP.1 B hB), hP.2⟩
    obtain ⟨T, Ls, t1, t2, t3, t4⟩ := treeBuild_spec (x :: l).length _ _ As F (by simp) (by simpa using hlen) (.cons hx' hl) A0 (fun B hB => hM B (by simp [hB])) hP' hprod hdeg
    obtain ⟨T', k, Ls', l1, l2, l3, l4, l5⟩ := liftLoop_spec hf target (target.toNat + 2) p T Ls (by exact_mod_cast pp) hcop t3 t2 (by push_cast; omega) (by omega)
    obtain ⟨M, hMe⟩ : ∃ M : ℤ, M = (p : ℤ) ^ (2 ^ k) := ⟨_, rfl⟩
    rw [← hMe] at l1 l2 l5
    have pM : (p : ℤ) ∣ M := by rw [hMe]; exact dvd_pow_self _ (by positivity)
    have M1 : 1 < M := by
      have p0 : (0:ℤ) < p := by exact_mod_cast hp.out.pos
      have M0 : 0 < M := by rw [hMe]; positivity
      have h : (p : ℤ) ≤ M := Int.le_of_dvd M0 pM
      have : (1 : ℤ) < p := by exact_mod_cast pp
      omega
    have copM : IsCoprime F.leadingCoeff M := by rw [hMe]; exact hcop.pow_right
    obtain ⟨_, L0, Lt, rfl, m1, m2, m3⟩ := l2.monic M1
    have hex := l2.extract (f := []) (fun h => absurd h l3)
    obtain ⟨r, L0', h1, h2, h3, h4, h5, h6⟩ := monicHead_spec M1 copM hex m2 (m3 l3 L0 (by simp))
    -- the residues
    cases l4 with
    | @cons _ b Lt' _ c1 c2 =>
      cases t4 with
      | cons d1 d2 =>
        refine ⟨r, k, L0' :: Lt, ?_, h2, ?_, ?_, .cons ⟨?_, ?_⟩ ?_, ?_, ?_, ?_⟩
        · have e : henselLift p f (x :: l) a = if (x :: l).length < 2 ∨ f = [] then none else
            (liftTarget p f a).bind fun target =>
            (treeBuild p (x :: l).length (norm (x.map fun t => (t.1, t.2 * ((lc f : ℤ) : ZMod p))) :: l)).bind fun T =>
            (liftLoop f target (target.toNat + 2) p T).bind fun x =>
            (monicHead x.2 (extract [] x.1)).map fun r => (r, x.2) := rfl
          rw [e, if_neg (fun h => h.elim (fun h => absurd h (by omega)) fun h => F0 ((is_nil_iff hf).1 h)), ht1, Option.bind_some, is_lc hf, t1, Option.bind_some, l1, Option.bind_some, h1, Option.map_some, hMe]
        · intro R hR
          rcases List.mem_cons.1 hR with rfl | hR
          · exact h3
          · exact m1 R hR
        · intro R hR
          rw [← hMe]
          rcases List.mem_cons.1 hR with rfl | hR
          · exact h6
          · exact m3 l3 R (by simp [hR])
        · have a1 := Cong.iff_map.1 ((h5.of_dvd pM).trans c1.1)
          rw [d1.1, Polynomial.map_mul, map_C] at a1
          exact mul_left_cancel₀ (fun h => u0 (C_eq_zero.1 h)) a1
        · rw [h4, c1.2, d1.2, natDegree_C_mul u0]
        · exact forall2_trans' (fun a b c h1 h2 => ⟨(Cong.iff_map.1 h1.1).trans h2.1, h1.2.trans h2.2⟩) c2 d2
        · rw [← hMe]
          have := l2.prod
          rw [List.prod_cons, ← mul_assoc] at *
          exact (h5.mul .rfl').trans this
        · rw [← hMe]; exact ht2 M l5
        · rw [← hMe]; exact ht3 M l5

end Upoly
end CLPoly
