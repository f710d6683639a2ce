import Verif.Upoly.Sqf
import Mathlib.FieldTheory.Finite.Extension

/-! # Distinct-degree and equal-degree factorization over `Zp` -/

namespace CLPoly
namespace Upoly
open Polynomial
open Dense (IsGcd)

section sub
variable {R : Type*} [DecidableEq R] [Field R]

theorem subXLoop_true : ∀ l : UPoly R, (∀ u ∈ l, u.1 < 1) → subXLoop true l = l := by
  intro l
  induction l with
  | nil => intro _; rfl
  | cons t l ih =>
    intro h
    have h1 := h t (by simp)
    simp only [subXLoop]
    rw [if_neg (by omega)]
    simp [ih fun u hu => h u (by simp [hu])]

theorem subXLoop_false : ∀ l : UPoly R, Canon comp l →
    Canon comp (subXLoop false l) ∧ toPoly (subXLoop false l) = toPoly l - X ∧ ∀ n, 1 < n → (∀ u ∈ l, u.1 < n) → ∀ u ∈ subXLoop false l, u.1 < n := by
  intro l
  have eX : (monomial 1 (-1) : R[X]) = -X := by rw [← monomial_one_one_eq_X, ← monomial_neg]
  induction l with
  | nil =>
    intro _
    refine ⟨canon_cons.2 ⟨by simp, by simp, canon_nil⟩, ?_, ?_⟩
    · simp [subXLoop, toPoly_cons, eX]
    · intro n hn _ u hu
      simp [subXLoop] at hu
      rw [hu]; exact hn
  | cons t l ih =>
    intro hc
    obtain ⟨h1, h2, h3⟩ := canon_cons.1 hc
    rcases lt_trichotomy t.1 1 with ht | ht | ht
    · have ht0 : t.1 = 0 := by omega
      have e : subXLoop false (t :: l) = (1, -1) :: t :: l := by
        simp only [subXLoop]
        rw [if_neg (by omega), if_pos ⟨trivial, ht⟩, if_pos ⟨trivial, ht⟩, subXLoop_true l fun u hu => by have := h1 u hu; omega]
        rfl
      rw [e]
      refine ⟨canon_cons.2 ⟨?_, by simp, hc⟩, ?_, ?_⟩
      · intro u hu
        rcases List.mem_cons.1 hu with rfl | hu
        · exact ht
        · have := h1 u hu; simp only; omega
      · rw [toPoly_cons, eX]; ring
      · intro n hn hl u hu
        rcases List.mem_cons.1 hu with rfl | hu
        · exact hn
        · exact hl u hu
    · have e : subXLoop false (t :: l) = (if t.2 - 1 ≠ 0 then [(1, t.2 - 1)] else []) ++ l := by
        simp only [subXLoop]
        rw [if_pos ht, subXLoop_true l fun u hu => by have := h1 u hu; omega]
        simp [ht]
      rw [e]
      have hp : toPoly (t :: l) - X = monomial 1 (t.2 - 1) + toPoly l := by
        rw [toPoly_cons, ht, map_sub, monomial_one_one_eq_X]; ring
      by_cases h0 : t.2 - 1 ≠ 0
      · rw [if_pos h0, List.singleton_append]
        refine ⟨canon_cons.2 ⟨fun u hu => by have := h1 u hu; simp only; omega, h0, h3⟩, by rw [hp, toPoly_cons], ?_⟩
        intro n hn hl u hu
        rcases List.mem_cons.1 hu with rfl | hu
        · exact hn
        · exact hl u (by simp [hu])
      · rw [if_neg h0, List.nil_append]
        push Not at h0
        exact ⟨h3, by rw [hp, h0]; simp, fun n hn hl u hu => hl u (by simp [hu])⟩
    · have e : subXLoop false (t :: l) = t :: subXLoop false l := by
        simp only [subXLoop]
        rw [if_neg (by omega)]
        have hn : ¬ (true = true ∧ t.1 < 1) := fun h => by omega
        simp [show ¬ t.1 < 1 by omega, show t.1 ≠ 0 by omega]
      obtain ⟨a, b, c⟩ := ih h3
      rw [e]
      refine ⟨canon_cons.2 ⟨c t.1 ht h1, h2, a⟩, by rw [toPoly_cons, b, toPoly_cons]; ring, ?_⟩
      intro n hn hl u hu
      rcases List.mem_cons.1 hu with rfl | hu
      · exact hl _ (by simp)
      · exact c n hn (fun u hu => hl u (by simp [hu])) u hu

theorem subX_is {h : UPoly R} {H : R[X]} (hh : Is h H) : Is (subX h) (H - X) := by
  obtain ⟨a, b, _⟩ := subXLoop_false h hh.canon
  exact Is.norm ⟨a, by rw [b, hh.eq]⟩

theorem subOne_is {h : UPoly R} {H : R[X]} (hh : Is h H) : Is (subOne h) (H - 1) := by
  obtain ⟨hc, rfl⟩ := hh
  have e1 : (monomial 0 (-1) : R[X]) = -1 := by simp
  unfold subOne
  simp only
  obtain ⟨φ, hφ⟩ : ∃ φ : Nat × R → UPoly R, φ = fun t => if t.1 = 0 then (if t.2 - 1 ≠ 0 then [(0, t.2 - 1)] else []) else [t] := ⟨_, rfl⟩
  rw [← hφ]
  by_cases hany : (h.any fun t => decide (t.1 = 0)) = true
  · rw [if_pos hany]
    induction h with
    | nil => simp at hany
    | cons t l ih =>
      obtain ⟨h1, h2, h3⟩ := canon_cons.1 hc
      rw [List.flatMap_cons]
      by_cases ht : t.1 = 0
      · have hl : l = [] := by
          cases l with
          | nil => rfl
          | cons u l => have := h1 u (by simp); omega
        subst hl
        have hp : toPoly [t] - 1 = monomial 0 (t.2 - 1) := by
          rw [toPoly_cons, ht, map_sub]; simp
        rw [hp, hφ]
        simp only [List.flatMap_nil, List.append_nil, if_pos ht]
        by_cases h0 : t.2 - 1 ≠ 0
        · rw [if_pos h0]; exact ⟨canon_cons.2 ⟨by simp, h0, canon_nil⟩, by simp [toPoly]⟩
        · rw [if_neg h0]; push Not at h0; rw [h0]; simpa using nil_is
      · have hl : (l.any fun t => decide (t.1 = 0)) = true := by
          rw [List.any_cons] at hany
          simpa [ht] using hany
        obtain ⟨a, b⟩ := ih h3 hl
        have hφt : φ t = [t] := by rw [hφ]; simp only [if_neg ht]
        rw [hφt, List.singleton_append]
        refine ⟨canon_cons.2 ⟨?_, h2, a⟩, by rw [toPoly_cons, b, toPoly_cons]; ring⟩
        intro u hu
        obtain ⟨v, hv, huv⟩ := List.mem_flatMap.1 hu
        rw [hφ] at huv
        have := h1 v hv
        simp only at huv
        split at huv
        · split at huv
          · simp at huv; rw [huv]; simp only; omega
          · simp at huv
        · simp at huv; rw [huv]; exact this
  · rw [if_neg hany]
    have h0 : ∀ t ∈ h, t.1 ≠ 0 := by
      intro t ht h0
      exact hany (List.any_eq_true.2 ⟨t, ht, by simpa using h0⟩)
    have e : h.flatMap φ = h := by
      clear hany hc
      induction h with
      | nil => rfl
      | cons t l ih =>
        rw [List.flatMap_cons, ih fun u hu => h0 u (by simp [hu]), hφ]
        simp [h0 t (by simp)]
    rw [e]
    refine Is.norm ⟨⟨?_, ?_⟩, by rw [toPoly_append, toPoly_cons, e1]; simp; ring⟩
    · rw [List.pairwise_append]
      refine ⟨hc.1, by simp, ?_⟩
      intro a ha b hb
      have := h0 a ha
      simp at hb
      rw [hb]
      simp [comp]; omega
    · intro x hx
      rcases List.mem_append.1 hx with hx | hx
      · exact hc.2 x hx
      · simp at hx; rw [hx]; simp

end sub

variable {p : Nat} [hp : Fact p.Prime]

/-- every irreducible factor has degree `d` -/
def AllDeg (d : Nat) (F : (ZMod p)[X]) : Prop := ∀ P, Irreducible P → P ∣ F → P.natDegree = d

/-- what is known about a group of factors -/
structure GroupOK (x : UPoly (ZMod p) × Nat) : Prop where
  canon : Canon comp x.1
  monic : (toPoly x.1).Monic
  deg : 0 < (toPoly x.1).natDegree
  all : AllDeg x.2 (toPoly x.1)

theorem dvd_frob_iff {P : (ZMod p)[X]} (hP : Irreducible P) (d : Nat) : P ∣ X ^ p ^ d - X ↔ P.natDegree ∣ d := by
  rw [hP.natDegree_dvd_iff_dvd_X_pow_card_pow_sub_X, Nat.card_zmod]

theorem ddfLoop_spec (hW : p < W) {F : (ZMod p)[X]} (lF : F.natDegree + 1 < W) (hsf : Squarefree F) :
    ∀ (fuel d : Nat) (h fs : UPoly (ZMod p)) (H Fs : (ZMod p)[X]) (res : List (UPoly (ZMod p) × Nat)), Is h H → Is fs Fs → Fs.Monic → 1 ≤ d →
      F.natDegree + 2 ≤ fuel + d → 1 ≤ fuel → Fs ∣ H - X ^ p ^ (d - 1) → (∀ P, Irreducible P → P ∣ Fs → d ≤ P.natDegree) →
      (∀ x ∈ res, GroupOK x) → (res.map fun x => toPoly x.1).prod * Fs = F →
      ∃ fs' Fs' d' res', ddfLoop p fuel d h fs res = some (fs', res') ∧ Is fs' Fs' ∧ Fs'.Monic ∧ (∀ P, Irreducible P → P ∣ Fs' → d' ≤ P.natDegree) ∧
        Fs'.natDegree < 2 * d' ∧ (∀ x ∈ res', GroupOK x) ∧ (res'.map fun x => toPoly x.1).prod * Fs' = F := by
  intro fuel
  induction fuel with
  | zero => intro d h fs H Fs res _ _ _ _ _ h; omega
  | succ fuel ih =>
    intro d h fs H Fs res hh hfs hm hd hfuel _ hcong hirr hres hprod
    rw [ddfLoop, is_deg hfs]
    by_cases hlt : Fs.natDegree < 2 * d
    · rw [if_pos hlt]
      exact ⟨fs, Fs, d, res, rfl, hfs, hm, hirr, hlt, hres, hprod⟩
    · rw [if_neg hlt]
      have hF0 := hsf.ne_zero
      have hFsF : Fs ∣ F := ⟨_, by rw [mul_comm]; exact hprod.symm⟩
      have hle := natDegree_le_of_dvd hFsF hF0
      have hsfs : Squarefree Fs := hsf.squarefree_of_dvd hFsF
      obtain ⟨h', p1, p2⟩ := powmod_is hh hfs hm.ne_zero p
      rw [if_neg hp.out.ne_zero] at p2
      have hcong' : Fs ∣ H ^ p % Fs - X ^ p ^ d := by
        have h1 : Fs ∣ H ^ p - (X ^ p ^ (d - 1)) ^ p := hcong.trans (sub_dvd_pow_sub_pow _ _ _)
        rw [← pow_mul, ← pow_succ, Nat.sub_add_cancel hd] at h1
        have h2 := dvd_sub_mod' (H ^ p) Fs
        have := dvd_sub h1 h2
        rwa [sub_sub_sub_cancel_left] at this
      have hs := subX_is p2
      have hdegs : (H ^ p % Fs - X).natDegree + 1 < W := by
        have h1 : (H ^ p % Fs).natDegree ≤ Fs.natDegree := natDegree_le_natDegree (EuclideanDomain.mod_lt _ hm.ne_zero).le
        have h2 := natDegree_sub_le (H ^ p % Fs) (X : (ZMod p)[X])
        rw [natDegree_X] at h2
        omega
      obtain ⟨gd, D, g1, g2, g3, g4⟩ := gcd_is hW hs hfs (.inr hm.ne_zero) hdegs (by omega)
      have hPD : ∀ P, Irreducible P → (P ∣ D ↔ P ∣ Fs ∧ P.natDegree = d) := by
        intro P hP
        have h1 : P ∣ D ↔ P ∣ Fs ∧ P ∣ H ^ p % Fs - X := ⟨fun h => ⟨h.trans g4.2.1, h.trans g4.1⟩, fun h => g4.2.2 _ h.2 h.1⟩
        rw [h1]
        refine and_congr_right fun hPF => ?_
        have h2 : P ∣ H ^ p % Fs - X ↔ P ∣ X ^ p ^ d - X := by
          have h3 := hPF.trans hcong'
          rw [← dvd_add_right h3 (c := X ^ p ^ d - X), sub_add_sub_cancel]
        rw [h2, dvd_frob_iff hP]
        have h4 := hirr P hP hPF
        exact ⟨fun h => le_antisymm (Nat.le_of_dvd (by omega) h) h4, fun h => h ▸ dvd_rfl⟩
      rw [p1]
      simp only [Option.bind_some]
      rw [g1]
      simp only [Option.bind_some]
      by_cases hgd : gd ≠ [] ∧ deg gd > 0
      · rw [if_pos hgd]
        have hmon := makeMonic_monic g2 g3
        obtain ⟨Fs', hFs'⟩ := g4.2.1
        rw [mul_comm] at hFs'
        have hm' : Fs'.Monic := monic_of_mul (hFs' ▸ hm) g3
        obtain ⟨fs', q1, q2⟩ := quo_is (hFs' ▸ hfs) hmon g3.ne_zero
        obtain ⟨h'', m1, m2⟩ := mod_is p2 q2 hm'.ne_zero
        rw [q1]
        simp only [Option.bind_some]
        rw [m1]
        simp only [Option.bind_some]
        have hdvd : Fs' ∣ Fs := ⟨D, hFs'⟩
        refine ih (d + 1) h'' fs' _ Fs' _ m2 q2 hm' (by omega) (by omega) (by omega) ?_ ?_ ?_ ?_
        · have h1 := hdvd.trans hcong'
          have h2 := dvd_sub_mod' (H ^ p % Fs) Fs'
          have := dvd_sub h1 h2
          rw [Nat.add_sub_cancel]
          rwa [sub_sub_sub_cancel_left] at this
        · intro P hP hPF
          have h1 := hirr P hP (hPF.trans hdvd)
          have h2 : P.natDegree ≠ d := by
            intro e
            have h3 := (hPD P hP).2 ⟨hPF.trans hdvd, e⟩
            have h4 : P * P ∣ Fs := by rw [hFs']; exact mul_dvd_mul hPF h3
            exact hP.not_isUnit (hsfs P h4)
          omega
        · intro x hx
          rcases List.mem_append.1 hx with hx | hx
          · exact hres x hx
          · rw [List.mem_singleton.1 hx]
            refine ⟨hmon.canon, by simp only [hmon.eq]; exact g3, by simp only [hmon.eq]; rw [← is_deg g2]; exact hgd.2, ?_⟩
            simp only [hmon.eq]
            intro P hP hPd
            exact ((hPD P hP).1 hPd).2
        · rw [List.map_append, List.prod_append, List.map_singleton, List.prod_singleton]
          simp only [hmon.eq]
          rw [mul_assoc, mul_comm D, ← hFs', hprod]
      · rw [if_neg hgd]
        refine ih (d + 1) h' fs _ Fs res p2 hfs hm (by omega) (by omega) (by omega) (by rw [Nat.add_sub_cancel]; exact hcong') ?_ hres hprod
        intro P hP hPF
        have h1 := hirr P hP hPF
        have h2 : P.natDegree ≠ d := by
          intro e
          have h3 := (hPD P hP).2 ⟨hPF, e⟩
          have h4 := hP.natDegree_pos.trans_le (natDegree_le_of_dvd h3 g3.ne_zero)
          refine hgd ⟨?_, by rw [is_deg g2]; exact h4⟩
          rintro rfl
          exact g3.ne_zero ((is_nil_iff g2).1 rfl)
        omega

/-- a polynomial all of whose irreducible factors have degree at least half its own … is irreducible -/
theorem irreducible_of_deg {F : (ZMod p)[X]} {d : Nat} (h0 : 0 < F.natDegree) (hlt : F.natDegree < 2 * d) (h : ∀ P, Irreducible P → P ∣ F → d ≤ P.natDegree) : Irreducible F := by
  obtain ⟨P, hP, _, Q, rfl⟩ := exists_irreducible_dvd h0
  have hF0 : P * Q ≠ 0 := by rintro h; rw [h] at h0; simp at h0
  have hQ0 := right_ne_zero_of_mul hF0
  have h1 := h P hP (Dvd.intro _ rfl)
  rw [natDegree_mul hP.ne_zero hQ0] at hlt
  have hQ : Q.natDegree = 0 := by
    by_contra hq
    obtain ⟨P', hP', _, hPQ⟩ := exists_irreducible_dvd (F := Q) (by omega)
    have h2 := h P' hP' (dvd_mul_of_dvd_right hPQ _)
    have h3 := natDegree_le_of_dvd hPQ hQ0
    omega
  have hu : IsUnit Q := by
    rw [eq_C_of_natDegree_eq_zero hQ] at hQ0 ⊢
    simpa using hQ0
  exact (irreducible_mul_isUnit hu).2 hP

theorem allDeg_of_irreducible {F : (ZMod p)[X]} (h : Irreducible F) : AllDeg F.natDegree F := by
  intro P hP hPF
  exact natDegree_eq_of_degree_eq (degree_eq_degree_of_associated ((hP.associated_of_dvd h hPF)))

theorem ddf_spec (hW : p < W) {f : UPoly (ZMod p)} {F : (ZMod p)[X]} (hf : Is f F) (hm : F.Monic) (lF : F.natDegree + 1 < W) (hsf : Squarefree F) :
    ∃ l, ddf p f = some l ∧ (∀ x ∈ l, GroupOK x) ∧ (l.map fun x => toPoly x.1).prod = F := by
  have hne : f ≠ [] := fun h => hm.ne_zero ((is_nil_iff hf).1 h)
  obtain ⟨fs, Fs, d, res, h1, h2, h3, h4, h5, h6, h7⟩ := ddfLoop_spec hW lF hsf (deg f + 2) 1 [(1, 1)] f X F [] X_is hf hm le_rfl
    (by rw [is_deg hf]; omega) (by omega) (by simp) (fun P hP _ => hP.natDegree_pos) (by simp) (by simp)
  unfold ddf
  rw [if_neg hne, h1]
  simp only [Option.map_some]
  refine ⟨_, rfl, ?_⟩
  by_cases hc : fs ≠ [] ∧ deg fs > 0
  · simp only [if_pos hc]
    have hmon := makeMonic_monic h2 h3
    have hd : 0 < Fs.natDegree := by rw [← is_deg h2]; exact hc.2
    have hirr := irreducible_of_deg hd h5 h4
    refine ⟨?_, ?_⟩
    · intro x hx
      rcases List.mem_append.1 hx with hx | hx
      · exact h6 x hx
      · rw [List.mem_singleton.1 hx]
        refine ⟨hmon.canon, by simp only [hmon.eq]; exact h3, by simp only [hmon.eq]; exact hd, ?_⟩
        simp only [hmon.eq]
        rw [is_deg h2]
        exact allDeg_of_irreducible hirr
    · rw [List.map_append, List.prod_append, List.map_singleton, List.prod_singleton]
      simp only [hmon.eq]
      exact h7
  · simp only [if_neg hc]
    refine ⟨h6, ?_⟩
    have hd : Fs.natDegree = 0 := by
      by_contra h
      refine hc ⟨?_, by rw [is_deg h2]; omega⟩
      rintro rfl
      exact h3.ne_zero ((is_nil_iff h2).1 rfl)
    rw [h3.natDegree_eq_zero.1 hd, mul_one] at h7
    exact h7

/-! ## equal degree -/

theorem AllDeg.of_dvd {d : Nat} {F G : (ZMod p)[X]} (h : AllDeg d F) (hG : G ∣ F) : AllDeg d G := fun P hP hPG => h P hP (hPG.trans hG)

theorem allDeg_irreducible {d : Nat} {F : (ZMod p)[X]} (h : AllDeg d F) (hd : F.natDegree = d) (h0 : 0 < d) : Irreducible F :=
  irreducible_of_deg (by omega) (show F.natDegree < 2 * d by omega) fun P hP hPF => (h P hP hPF).ge

theorem edfTry_spec (hW : p < W) {f r : UPoly (ZMod p)} {F Rp : (ZMod p)[X]} (hf : Is f F) (hm : F.Monic) (lF : F.natDegree + 1 < W) (hr : Is r Rp)
    (d : Nat) {g : UPoly (ZMod p)} (h : edfTry p f d r = some g) : ∃ G, Is g G ∧ G.Monic ∧ G ∣ F := by
  have hF0 := hm.ne_zero
  have fin : ∀ {a : UPoly (ZMod p)} {A : (ZMod p)[X]}, Is a A → A.natDegree + 1 < W → gcd p a f = some g → ∃ G, Is g G ∧ G.Monic ∧ G ∣ F := by
    intro a A ha la e
    obtain ⟨g', G, g1, g2, g3, g4⟩ := gcd_is hW ha hf (.inr hF0) la lF
    rw [g1] at e
    cases e
    exact ⟨G, g2, g3, g4.2.1⟩
  have modlt : ∀ A : (ZMod p)[X], (A % F).natDegree ≤ F.natDegree := fun A => natDegree_le_natDegree (EuclideanDomain.mod_lt _ hF0).le
  have htr : ∀ (n : Nat) (a b : UPoly (ZMod p)) (A : (ZMod p)[X]), Is a A → A.natDegree ≤ F.natDegree → traceLoop p r f n a = some b →
      ∃ B, Is b B ∧ B.natDegree ≤ F.natDegree := by
    intro n
    induction n with
    | zero => intro a b A ha hl e; rw [traceLoop] at e; cases e; exact ⟨A, ha, hl⟩
    | succ n ih =>
      intro a b A ha hl e
      rw [traceLoop] at e
      obtain ⟨c, c1, c2⟩ := mod_is (add_is (mul_is ha ha) hr) hf hF0
      rw [c1] at e
      exact ih c b _ c2 (modlt _) e
  unfold edfTry at h
  split at h
  · obtain ⟨a, a1, a2⟩ := mod_is hr hf hF0
    rw [a1] at h
    simp only [Option.bind_some] at h
    cases e : traceLoop p r f (d - 1) a with
    | none => rw [e] at h; simp at h
    | some b =>
      rw [e] at h
      obtain ⟨B, b1, b2⟩ := htr _ a b _ a2 (modlt _) e
      exact fin b1 (by omega) h
  · obtain ⟨a, a1, a2⟩ := powmod_is hr hf hF0 ((p ^ d - 1) / 2)
    rw [a1] at h
    simp only [Option.bind_some] at h
    refine fin (subOne_is a2) ?_ h
    have h1 := natDegree_sub_le (if (p ^ d - 1) / 2 = 0 then (1 : (ZMod p)[X]) else Rp ^ ((p ^ d - 1) / 2) % F) 1
    rw [natDegree_one] at h1
    have h2 : (if (p ^ d - 1) / 2 = 0 then (1 : (ZMod p)[X]) else Rp ^ ((p ^ d - 1) / 2) % F).natDegree ≤ F.natDegree := by
      split
      · simp
      · exact modlt _
    omega

theorem ofDraws_is : ∀ l : List Nat, (∀ c ∈ l, c < p) → Canon comp (ofDraws p l) ∧ ∀ u ∈ ofDraws p l, u.1 < l.length := by
  intro l
  induction l with
  | nil => intro _; exact ⟨canon_nil, by simp [ofDraws]⟩
  | cons c l ih =>
    intro h
    obtain ⟨a, b⟩ := ih fun x hx => h x (by simp [hx])
    have hc := h c (by simp)
    rw [ofDraws]
    split
    · rename_i h0
      refine ⟨canon_cons.2 ⟨b, ?_, a⟩, ?_⟩
      · intro h1
        rw [ZMod.natCast_eq_zero_iff] at h1
        have := Nat.le_of_dvd (by omega) h1
        omega
      · intro u hu
        rcases List.mem_cons.1 hu with rfl | hu
        · simp
        · have := b u hu; simp; omega
    · exact ⟨a, fun u hu => by have := b u hu; simp; omega⟩

/-- whatever the random numbers are: if `__edf_Zp` returns, it returns the monic irreducible factors -/
theorem edf_spec (hW : p < W) : ∀ (fuel : Nat) (f : UPoly (ZMod p)) (F : (ZMod p)[X]) (d : Nat) (rng : List Nat) (l : List (UPoly (ZMod p))) (rng' : List Nat),
    Is f F → F.Monic → F.natDegree + 1 < W → AllDeg d F → 0 < d → (∀ c ∈ rng, c < p) → edf p fuel f d rng = some (l, rng') →
    (∀ g ∈ l, Canon comp g ∧ (toPoly g).Monic ∧ Irreducible (toPoly g) ∧ (toPoly g).natDegree = d) ∧ (l.map toPoly).prod = F ∧ ∀ c ∈ rng', c < p := by
  intro fuel
  induction fuel with
  | zero => intro f F d rng l rng' _ _ _ _ _ _ h; simp [edf] at h
  | succ fuel ih =>
    intro f F d rng l rng' hf hm lF hall hd hrng h
    rw [edf] at h
    by_cases h1 : deg f = d
    · rw [if_pos h1] at h
      cases h
      have hmon := makeMonic_monic hf hm
      have hirr := allDeg_irreducible hall (by rw [← is_deg hf]; exact h1) hd
      refine ⟨?_, ?_, hrng⟩
      · intro g hg
        rw [List.mem_singleton.1 hg]
        rw [hmon.eq]
        exact ⟨hmon.canon, hm, hirr, by rw [← is_deg hf]; exact h1⟩
      · simp [hmon.eq]
    · rw [if_neg h1] at h
      by_cases h2 : deg f ≤ 0
      · rw [if_pos h2] at h
        cases h
        have : F.natDegree = 0 := by rw [← is_deg hf]; omega
        exact ⟨by simp, by simp [hm.natDegree_eq_zero.1 this], hrng⟩
      · rw [if_neg h2] at h
        by_cases h3 : rng.length < deg f
        · rw [if_pos h3] at h; exact absurd h (by simp)
        · rw [if_neg h3] at h
          simp only at h
          have hdrop : ∀ c ∈ rng.drop (deg f), c < p := fun c hc => hrng c (List.mem_of_mem_drop hc)
          have hr := ofDraws_is (p := p) (rng.take (deg f)) fun c hc => hrng c (List.mem_of_mem_take hc)
          split at h
          · exact ih f F d _ l rng' hf hm lF hall hd hdrop h
          · cases e : edfTry p f d (ofDraws p (rng.take (deg f))) with
            | none => rw [e] at h; simp at h
            | some g =>
              rw [e] at h
              simp only [Option.bind_some] at h
              obtain ⟨G, g1, g2, H, hH⟩ := edfTry_spec hW hf hm lF (is_of_canon hr.1) d e
              split at h
              · rw [mul_comm] at hH
                obtain ⟨q, q1, q2⟩ := quo_is (hH ▸ hf) g1 g2.ne_zero
                have hHm : H.Monic := monic_of_mul (hH ▸ hm) g2
                rw [q1] at h
                simp only [Option.bind_some] at h
                have lG : G.natDegree + 1 < W := by
                  have := natDegree_le_of_dvd (show G ∣ F from ⟨H, by rw [hH, mul_comm]⟩) hm.ne_zero; omega
                have lH : H.natDegree + 1 < W := by
                  have := natDegree_le_of_dvd (show H ∣ F from ⟨G, hH⟩) hm.ne_zero; omega
                cases ea : edf p fuel (makeMonic g) d (rng.drop (deg f)) with
                | none => rw [ea] at h; simp at h
                | some a =>
                  rw [ea] at h
                  simp only [Option.bind_some] at h
                  obtain ⟨a1, a2, a3⟩ := ih (makeMonic g) G d _ a.1 a.2 (makeMonic_monic g1 g2) g2 lG (hall.of_dvd ⟨H, by rw [hH, mul_comm]⟩) hd hdrop ea
                  cases eb : edf p fuel (makeMonic q) d a.2 with
                  | none => rw [eb] at h; simp at h
                  | some b =>
                    rw [eb] at h
                    simp only [Option.map_some, Option.some.injEq, Prod.mk.injEq] at h
                    obtain ⟨rfl, rfl⟩ := h
                    obtain ⟨b1, b2, b3⟩ := ih (makeMonic q) H d _ b.1 b.2 (makeMonic_monic q2 hHm) hHm lH (hall.of_dvd ⟨G, hH⟩) hd a3 eb
                    refine ⟨?_, ?_, b3⟩
                    · intro x hx
                      rcases List.mem_append.1 hx with hx | hx
                      · exact a1 x hx
                      · exact b1 x hx
                    · rw [List.map_append, List.prod_append, a2, b2, hH, mul_comm]
              · exact ih f F d _ l rng' hf hm lF hall hd hdrop h

theorem GroupOK.pos {x : UPoly (ZMod p) × Nat} (h : GroupOK x) : 0 < x.2 := by
  obtain ⟨P, hP, _, hPF⟩ := exists_irreducible_dvd h.deg
  rw [← h.all P hP hPF]
  exact hP.natDegree_pos

theorem edfAll_spec (hW : p < W) (fuel : Nat) : ∀ (gs : List (UPoly (ZMod p) × Nat)) (rng : List Nat) (l : List (UPoly (ZMod p))) (rng' : List Nat),
    (∀ x ∈ gs, GroupOK x ∧ (toPoly x.1).natDegree + 1 < W) → (∀ c ∈ rng, c < p) → edfAll p fuel gs rng = some (l, rng') →
    (∀ g ∈ l, Canon comp g ∧ (toPoly g).Monic ∧ Irreducible (toPoly g)) ∧ (l.map toPoly).prod = (gs.map fun x => toPoly x.1).prod ∧ ∀ c ∈ rng', c < p := by
  intro gs
  induction gs with
  | nil => intro rng l rng' _ hr h; rw [edfAll] at h; cases h; exact ⟨by simp, by simp, hr⟩
  | cons g gs ih =>
    intro rng l rng' hg hr h
    rw [edfAll] at h
    cases ea : edf p fuel g.1 g.2 rng with
    | none => rw [ea] at h; simp at h
    | some a =>
      rw [ea] at h
      simp only [Option.bind_some] at h
      have hg0 := (hg g (by simp)).1
      obtain ⟨a1, a2, a3⟩ := edf_spec hW fuel g.1 _ g.2 rng a.1 a.2 (is_of_canon hg0.canon) hg0.monic (hg g (by simp)).2 hg0.all hg0.pos hr ea
      cases eb : edfAll p fuel gs a.2 with
      | none => rw [eb] at h; simp at h
      | some b =>
        rw [eb] at h
        simp only [Option.map_some, Option.some.injEq, Prod.mk.injEq] at h
        obtain ⟨rfl, rfl⟩ := h
        obtain ⟨b1, b2, b3⟩ := ih a.2 b.1 b.2 (fun x hx => hg x (by simp [hx])) a3 eb
        refine ⟨?_, by rw [List.map_append, List.prod_append, a2, b2, List.map_cons, List.prod_cons], b3⟩
        intro x hx
        rcases List.mem_append.1 hx with hx | hx
        · exact ⟨(a1 x hx).1, (a1 x hx).2.1, (a1 x hx).2.2.1⟩
        · exact b1 x hx

theorem dvd_list_prod {M : Type*} [CommMonoid M] {l : List M} {a : M} (h : a ∈ l) : a ∣ l.prod := List.dvd_prod h

theorem factorParts_spec (hW : p < W) (fuel : Nat) : ∀ (sq : List (UPoly (ZMod p) × Nat)) (rng : List Nat) (l : List (UPoly (ZMod p) × Nat)),
    (∀ x ∈ sq, Canon comp x.1 ∧ (toPoly x.1).Monic ∧ Squarefree (toPoly x.1) ∧ (toPoly x.1).natDegree + 1 < W ∧ 0 < x.2) →
    (∀ c ∈ rng, c < p) → factorParts p fuel sq rng = some l →
    (∀ g ∈ l, Canon comp g.1 ∧ (toPoly g.1).Monic ∧ Irreducible (toPoly g.1) ∧ 0 < g.2) ∧
    (l.map fun g => toPoly g.1 ^ g.2).prod = (sq.map fun x => toPoly x.1 ^ x.2).prod ∧
    (∀ g ∈ l, ∃ x ∈ sq, toPoly g.1 ∣ toPoly x.1) ∧
    (sq.Pairwise (fun x y => IsCoprime (toPoly x.1) (toPoly y.1)) → l.Pairwise fun a b => toPoly a.1 ≠ toPoly b.1) := by
  intro sq
  induction sq with
  | nil => intro rng l _ _ h; rw [factorParts] at h; cases h; exact ⟨by simp, by simp, by simp, by simp⟩
  | cons s sq ih =>
    intro rng l hs hr h
    rw [factorParts] at h
    obtain ⟨hs1, hs2, hs3, hs4, hs5⟩ := hs s (by simp)
    obtain ⟨gs, d1, d2, d3⟩ := ddf_spec hW (is_of_canon hs1) hs2 hs4 hs3
    rw [d1] at h
    simp only [Option.bind_some] at h
    cases ea : edfAll p fuel gs rng with
    | none => rw [ea] at h; simp at h
    | some a =>
      rw [ea] at h
      simp only [Option.bind_some] at h
      obtain ⟨a1, a2, a3⟩ := edfAll_spec hW fuel gs rng a.1 a.2 (fun x hx => ⟨d2 x hx, by
        have := natDegree_le_of_dvd (d3 ▸ dvd_list_prod (List.mem_map.2 ⟨x, hx, rfl⟩)) hs2.ne_zero
        omega⟩) hr ea
      rw [d3] at a2
      cases eb : factorParts p fuel sq a.2 with
      | none => rw [eb] at h; simp at h
      | some b =>
        rw [eb] at h
        simp only [Option.map_some, Option.some.injEq] at h
        subst h
        obtain ⟨b1, b2, b3, b4⟩ := ih a.2 b (fun x hx => hs x (by simp [hx])) a3 eb
        have hdiv : ∀ g ∈ a.1, toPoly g ∣ toPoly s.1 := fun g hg => a2 ▸ dvd_list_prod (List.mem_map.2 ⟨g, hg, rfl⟩)
        refine ⟨?_, ?_, ?_, ?_⟩
        · intro x hx
          rcases List.mem_append.1 hx with hx | hx
          · obtain ⟨g, hg, rfl⟩ := List.mem_map.1 hx
            exact ⟨(a1 g hg).1, (a1 g hg).2.1, (a1 g hg).2.2, hs5⟩
          · exact b1 x hx
        · rw [List.map_append, List.prod_append, b2, List.map_cons, List.prod_cons, List.map_map, ← a2]
          congr 1
          have : ∀ l : List (UPoly (ZMod p)), (l.map ((fun g : UPoly (ZMod p) × Nat => toPoly g.1 ^ g.2) ∘ fun h => (h, s.2))).prod = (l.map toPoly).prod ^ s.2 := by
            intro l
            induction l with
            | nil => simp
            | cons x l ih => rw [List.map_cons, List.prod_cons, ih, List.map_cons, List.prod_cons, mul_pow]; rfl
          exact this a.1
        · intro x hx
          rcases List.mem_append.1 hx with hx | hx
          · obtain ⟨g, hg, rfl⟩ := List.mem_map.1 hx
            exact ⟨s, by simp, hdiv g hg⟩
          · obtain ⟨y, hy, e⟩ := b3 x hx
            exact ⟨y, by simp [hy], e⟩
        · intro hcop
          rw [List.pairwise_cons] at hcop
          rw [List.pairwise_append]
          refine ⟨?_, b4 hcop.2, ?_⟩
          · rw [List.pairwise_map]
            -- the irreducible factors of a square-free polynomial are distinct
            have : ∀ l : List (UPoly (ZMod p)), (∀ g ∈ l, Irreducible (toPoly g)) → Squarefree (l.map toPoly).prod →
                l.Pairwise fun a b => toPoly a ≠ toPoly b := by
              intro l
              induction l with
              | nil => intro _ _; exact List.Pairwise.nil
              | cons x l ih =>
                intro h1 h2
                rw [List.map_cons, List.prod_cons] at h2
                refine List.pairwise_cons.2 ⟨fun y hy e => ?_, ih (fun g hg => h1 g (by simp [hg])) (h2.squarefree_of_dvd (Dvd.intro_left _ rfl))⟩
                have h3 : toPoly x * toPoly x ∣ toPoly x * (l.map toPoly).prod := by
                  refine mul_dvd_mul_left _ ?_
                  rw [e]
                  exact dvd_list_prod (List.mem_map.2 ⟨y, hy, rfl⟩)
                exact (h1 x (by simp)).not_isUnit (h2 _ h3)
            exact this a.1 (fun g hg => (a1 g hg).2.2) (by rw [a2]; exact hs3)
          · intro x hx y hy e
            obtain ⟨g, hg, rfl⟩ := List.mem_map.1 hx
            obtain ⟨z, hz, hyz⟩ := b3 y hy
            have h1 := hdiv g hg
            simp only at e
            rw [← e] at hyz
            exact (a1 g hg).2.2.not_isUnit ((hcop.1 z hz).isUnit_of_dvd' h1 hyz)

/-- `__factor_Zp`: if it returns, the result is the complete factorization -/
theorem factor_spec (hW : p < W) {f : UPoly (ZMod p)} {F : (ZMod p)[X]} (hf : Is f F) (h0 : F ≠ 0) (lF : F.natDegree + 1 < W)
    {sort : List (UPoly (ZMod p) × Nat) → List (UPoly (ZMod p) × Nat)} (hsort : ∀ l, (sort l).Perm l) {fuel : Nat} {rng : List Nat} (hr : ∀ c ∈ rng, c < p)
    {c : ZMod p} {l : List (UPoly (ZMod p) × Nat)} (h : factor p sort fuel rng f = some (c, l)) :
    c = F.leadingCoeff ∧ C c * (l.map fun g => toPoly g.1 ^ g.2).prod = F ∧
    (∀ g ∈ l, Canon comp g.1 ∧ (toPoly g.1).Monic ∧ Irreducible (toPoly g.1) ∧ 0 < g.2) ∧ l.Pairwise fun a b => toPoly a.1 ≠ toPoly b.1 := by
  have hne : f ≠ [] := fun h => h0 ((is_nil_iff hf).1 h)
  unfold factor at h
  rw [if_neg hne] at h
  split at h
  · rename_i hd
    cases h
    have : F.natDegree = 0 := by rw [← is_deg hf]; omega
    rw [is_lc hf]
    refine ⟨rfl, ?_, by simp, by simp⟩
    have e := eq_C_of_natDegree_eq_zero this
    have e2 : F.leadingCoeff = F.coeff 0 := by rw [leadingCoeff, this]
    rw [e2]; simp [← e]
  · rename_i hd
    have hd' : 0 < F.natDegree := by rw [← is_deg hf]; omega
    have hmon := makeMonic_is hf h0
    obtain ⟨M, hM⟩ : ∃ M, M = C F.leadingCoeff⁻¹ * F := ⟨_, rfl⟩
    have hMm : M.Monic := hM ▸ monic_C_mul h0
    rw [← hM] at hmon
    have hlc : F.leadingCoeff ≠ 0 := by simpa using h0
    have hMd : M.natDegree = F.natDegree := by rw [hM, natDegree_C_mul (inv_ne_zero hlc)]
    have hF : C F.leadingCoeff * M = F := by rw [hM, ← mul_assoc, ← C_mul, mul_inv_cancel₀ hlc, C_1, one_mul]
    obtain ⟨sq, s1, s2⟩ := squarefree_spec hW (deg f + 1) (makeMonic f) M hmon hMm (by omega) (by rw [is_deg hf]; omega) (by omega)
    rw [s1] at h
    simp only [Option.bind_some] at h
    cases e : factorParts p fuel sq rng with
    | none => rw [e] at h; simp at h
    | some r =>
      rw [e] at h
      simp only [Option.map_some, Option.some.injEq, Prod.mk.injEq] at h
      obtain ⟨rfl, rfl⟩ := h
      have hprod := s2.prod hMm
      obtain ⟨b1, b2, _, b4⟩ := factorParts_spec hW fuel sq rng r (fun x hx => ⟨(s2.entry x hx).canon, (s2.entry x hx).monic, s2.squarefree x hx, by
        have h1 : toPoly x.1 ∣ M := by
          rw [← hprod]
          refine (dvd_pow_self _ ?_).trans (dvd_list_prod (List.mem_map.2 ⟨x, hx, rfl⟩))
          have := (s2.entry x hx).exp; omega
        have := natDegree_le_of_dvd h1 hMm.ne_zero
        omega, (s2.entry x hx).exp⟩) hr e
      have hperm := hsort r
      refine ⟨is_lc hf, ?_, ?_, ?_⟩
      · rw [(hperm.map _).prod_eq, b2, hprod, is_lc hf, hF]
      · intro g hg; exact b1 g (hperm.mem_iff.1 hg)
      · exact (hperm.pairwise_iff fun {a b} h => h.symm).2 (b4 (s2.coprime.imp fun {a b} h => h.1))

end Upoly
end CLPoly
