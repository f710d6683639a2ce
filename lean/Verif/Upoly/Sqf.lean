import Verif.Upoly.Valuation

/-! # Square-free factorization over `Zp` -/

namespace CLPoly
namespace Upoly
open Polynomial
open Dense (IsGcd)

variable {p : Nat} [hp : Fact p.Prime] {F : (ZMod p)[X]}

/-- what is known about one collected factor -/
structure EntryOK (F : (ZMod p)[X]) (x : UPoly (ZMod p) × Nat) : Prop where
  canon : Canon comp x.1
  monic : (toPoly x.1).Monic
  deg : 0 < (toPoly x.1).natDegree
  exp : 0 < x.2
  vm : ∀ P, Irreducible P → P.Monic → vm P (toPoly x.1) = if vm P F = x.2 then 1 else 0

/-- what is known about the result -/
structure SqfOK (F : (ZMod p)[X]) (l : List (UPoly (ZMod p) × Nat)) : Prop where
  entry : ∀ x ∈ l, EntryOK F x
  cover : ∀ P, Irreducible P → P.Monic → vm P F ≠ 0 → ∃ x ∈ l, x.2 = vm P F
  nodup : (l.map Prod.snd).Nodup

theorem makeMonic_monic {f : UPoly (ZMod p)} {F : (ZMod p)[X]} (h : Is f F) (hm : F.Monic) : Is (makeMonic f) F := by
  have := makeMonic_is h hm.ne_zero
  rwa [hm.leadingCoeff, inv_one, C_1, one_mul] at this

theorem monic_of_mul {A B : (ZMod p)[X]} (h : (A * B).Monic) (hB : B.Monic) : A.Monic := hB.of_mul_monic_right h

theorem natDegree_pos_of_vm {P F : (ZMod p)[X]} (hP : Irreducible P) (hF : F ≠ 0) (h : vm P F ≠ 0) : 0 < F.natDegree := by
  have := natDegree_le_of_dvd ((dvd_iff_vm hP hF).2 h) hF
  exact hP.natDegree_pos.trans_le this

structure LoopInv (F W C : (ZMod p)[X]) (i : Nat) (res : List (UPoly (ZMod p) × Nat)) : Prop where
  wm : W.Monic
  cm : C.Monic
  wv : ∀ P, Irreducible P → P.Monic → vm P W = if ¬ p ∣ vm P F ∧ i ≤ vm P F then 1 else 0
  cv : ∀ P, Irreducible P → P.Monic → vm P C = if p ∣ vm P F then vm P F else vm P F - i
  entry : ∀ x ∈ res, EntryOK F x ∧ ¬ p ∣ x.2 ∧ x.2 < i
  cover : ∀ P, Irreducible P → P.Monic → ¬ p ∣ vm P F → vm P F < i → ∃ x ∈ res, x.2 = vm P F
  nodup : (res.map Prod.snd).Nodup

theorem sqfLoop_spec (hW : p < W) (hF : F.Monic) (lF : F.natDegree + 1 < W) : ∀ (fuel i : Nat) (w c : UPoly (ZMod p)) (Wp Cp : (ZMod p)[X])
    (res : List (UPoly (ZMod p) × Nat)), Is w Wp → Is c Cp → 1 ≤ i → F.natDegree + 2 ≤ fuel + i → 1 ≤ fuel → Wp ∣ F → Cp ∣ F → LoopInv F Wp Cp i res →
    ∃ c' C' res', sqfLoop p fuel w c i res = some (c', res') ∧ Is c' C' ∧ C'.Monic ∧ C' ∣ F ∧
      (∀ P, Irreducible P → P.Monic → vm P C' = if p ∣ vm P F then vm P F else 0) ∧
      (∀ x ∈ res', EntryOK F x ∧ ¬ p ∣ x.2) ∧ (∀ P, Irreducible P → P.Monic → ¬ p ∣ vm P F → ∃ x ∈ res', x.2 = vm P F) ∧
      (res'.map Prod.snd).Nodup := by
  intro fuel
  induction fuel with
  | zero => intro i w c Wp Cp res _ _ _ _ h; omega
  | succ fuel ih =>
    intro i w c Wp Cp res hw hc hi hfuel _ hWF hCF I
    rw [sqfLoop]
    have hF0 := hF.ne_zero
    by_cases hcond : w ≠ [] ∧ deg w > 0
    · rw [if_pos hcond]
      have hWdeg : 0 < Wp.natDegree := by rw [← is_deg hw]; exact hcond.2
      -- there is a factor with multiplicity ≥ i
      have hiF : i ≤ F.natDegree := by
        obtain ⟨P, hP, hm, hPW⟩ := exists_irreducible_dvd hWdeg
        have h1 := (dvd_iff_vm hP I.wm.ne_zero).1 hPW
        rw [I.wv P hP hm] at h1
        have h2 : ¬ p ∣ vm P F ∧ i ≤ vm P F := by by_contra h; rw [if_neg h] at h1; exact h1 rfl
        exact h2.2.trans (vm_pos_degree hP hF0)
      have lW : Wp.natDegree + 1 < CLPoly.W := by have := natDegree_le_of_dvd hWF hF0; omega
      have lC : Cp.natDegree + 1 < CLPoly.W := by have := natDegree_le_of_dvd hCF hF0; omega
      obtain ⟨y, Y, y1, y2, y3, y4⟩ := gcd_is hW hw hc (.inl I.wm.ne_zero) lW lC
      obtain ⟨Z, hZ⟩ := y4.1
      obtain ⟨C', hC'⟩ := y4.2.1
      rw [mul_comm] at hZ hC'
      obtain ⟨z, z1, z2⟩ := quo_is (hZ ▸ hw) y2 y3.ne_zero
      obtain ⟨c', c1, c2⟩ := quo_is (hC' ▸ hc) y2 y3.ne_zero
      have hZm : Z.Monic := monic_of_mul (hZ ▸ I.wm) y3
      have hCm : C'.Monic := monic_of_mul (hC' ▸ I.cm) y3
      have yv : ∀ P, Irreducible P → P.Monic → vm P Y = if ¬ p ∣ vm P F ∧ i + 1 ≤ vm P F then 1 else 0 := by
        intro P hP hm
        rw [vm_gcd hP y4 I.wm.ne_zero I.cm.ne_zero, I.wv P hP hm, I.cv P hP hm]
        by_cases hd : p ∣ vm P F
        · simp [hd]
        · by_cases h1 : i + 1 ≤ vm P F
          · rw [if_pos ⟨hd, by omega⟩, if_neg hd, if_pos ⟨hd, h1⟩]; omega
          · rw [if_neg hd, if_neg (show ¬ (¬ p ∣ vm P F ∧ i + 1 ≤ vm P F) from fun h => h1 h.2), show vm P F - i = 0 by omega]; simp
      have zv : ∀ P, Irreducible P → P.Monic → vm P Z = if ¬ p ∣ vm P F ∧ vm P F = i then 1 else 0 := by
        intro P hP hm
        have e := vm_mul hP hZm.ne_zero y3.ne_zero
        rw [← hZ, I.wv P hP hm, yv P hP hm] at e
        by_cases hd : p ∣ vm P F
        · simp [hd] at e ⊢; omega
        · simp only [hd, not_false_eq_true, true_and] at e ⊢
          split_ifs at e ⊢ <;> omega
      have cv : ∀ P, Irreducible P → P.Monic → vm P C' = if p ∣ vm P F then vm P F else vm P F - (i + 1) := by
        intro P hP hm
        have e := vm_mul hP hCm.ne_zero y3.ne_zero
        rw [← hC', I.cv P hP hm, yv P hP hm] at e
        by_cases hd : p ∣ vm P F
        · simp [hd] at e ⊢; omega
        · simp only [hd, not_false_eq_true, true_and, if_false] at e ⊢
          split_ifs at e <;> omega
      rw [y1]
      simp only [Option.bind_some]
      rw [z1]
      simp only [Option.bind_some]
      rw [c1]
      simp only [Option.bind_some]
      refine ih (i + 1) y c' Y C' _ y2 c2 (by omega) (by omega) (by omega) (y4.1.trans hWF) (Dvd.dvd.trans ⟨Y, hC'⟩ hCF) ⟨y3, hCm, yv, cv, ?_, ?_, ?_⟩
      · intro x hx
        by_cases hz : z ≠ [] ∧ deg z > 0
        · rw [if_pos hz, List.mem_append, List.mem_singleton] at hx
          rcases hx with hx | rfl
          · exact ⟨(I.entry x hx).1, (I.entry x hx).2.1, by have := (I.entry x hx).2.2; omega⟩
          · have hm := makeMonic_monic z2 hZm
            have hZdeg : 0 < Z.natDegree := by rw [← is_deg z2]; exact hz.2
            obtain ⟨P, hP, hPm, hPZ⟩ := exists_irreducible_dvd hZdeg
            have h1 := (dvd_iff_vm hP hZm.ne_zero).1 hPZ
            rw [zv P hP hPm] at h1
            have h2 : ¬ p ∣ vm P F ∧ vm P F = i := by by_contra h; rw [if_neg h] at h1; exact h1 rfl
            have hpi : ¬ p ∣ i := h2.2 ▸ h2.1
            refine ⟨⟨hm.canon, by rw [hm.eq]; exact hZm, by rw [hm.eq]; exact hZdeg, by simp only; omega, fun Q hQ hQm => ?_⟩, hpi, by simp⟩
            simp only [hm.eq]
            rw [zv Q hQ hQm]
            by_cases h : vm Q F = i
            · rw [if_pos h, if_pos ⟨h ▸ hpi, h⟩]
            · rw [if_neg h, if_neg fun h' => h h'.2]
        · rw [if_neg hz] at hx
          exact ⟨(I.entry x hx).1, (I.entry x hx).2.1, by have := (I.entry x hx).2.2; omega⟩
      · intro P hP hm hd hlt
        by_cases hi' : vm P F < i
        · obtain ⟨x, hx, e⟩ := I.cover P hP hm hd hi'
          refine ⟨x, ?_, e⟩
          split
          · exact List.mem_append_left _ hx
          · exact hx
        · have e : vm P F = i := by omega
          have hz1 : vm P Z ≠ 0 := by rw [zv P hP hm, if_pos ⟨hd, e⟩]; simp
          have hZdeg := natDegree_pos_of_vm hP hZm.ne_zero hz1
          rw [← is_deg z2] at hZdeg
          rw [if_pos ⟨by rintro rfl; simp [deg] at hZdeg, hZdeg⟩]
          exact ⟨_, List.mem_append_right _ (List.mem_singleton.2 rfl), e.symm⟩
      · split
        · rw [List.map_append, List.nodup_append]
          refine ⟨I.nodup, by simp, ?_⟩
          intro a ha b hb
          obtain ⟨x, hx, rfl⟩ := List.mem_map.1 ha
          have := (I.entry x hx).2.2
          simp at hb
          omega
        · exact I.nodup
    · rw [if_neg hcond]
      have hw0 : Wp.natDegree = 0 := by
        by_contra h
        refine hcond ⟨?_, ?_⟩
        · rintro rfl
          have := (is_nil_iff hw).1 rfl
          exact I.wm.ne_zero this
        · rw [is_deg hw]; omega
      have hno : ∀ P, Irreducible P → P.Monic → ¬ (¬ p ∣ vm P F ∧ i ≤ vm P F) := by
        intro P hP hm h
        have h1 := I.wv P hP hm
        rw [if_pos h] at h1
        have := natDegree_pos_of_vm hP I.wm.ne_zero (by omega)
        omega
      refine ⟨c, Cp, res, rfl, hc, I.cm, hCF, ?_, fun x hx => ⟨(I.entry x hx).1, (I.entry x hx).2.1⟩, ?_, I.nodup⟩
      · intro P hP hm
        rw [I.cv P hP hm]
        split
        · rfl
        · rename_i hd
          have := hno P hP hm
          have h3 : ¬ i ≤ vm P F := fun h => this ⟨hd, h⟩
          omega
      · intro P hP hm hd
        refine I.cover P hP hm hd ?_
        by_contra h
        exact hno P hP hm ⟨hd, by omega⟩

/-- `__extract_pth_root` -/
theorem pthRoot_spec {c : UPoly (ZMod p)} {C : (ZMod p)[X]} (hc : Is c C) (hd : Polynomial.derivative C = 0) :
    ∃ g G, pthRoot p c = some g ∧ Is g G ∧ G ^ p = C := by
  have hp0 := hp.out.pos
  have h1 : Upoly.derivative c = [] := (is_nil_iff (derivative_is hc)).2 hd
  have h2 : ∀ t ∈ c, p ∣ t.1 := by
    intro t ht
    have := List.filterMap_eq_nil_iff.1 h1 t ht
    by_cases h0 : t.1 = 0
    · rw [h0]; exact dvd_zero _
    · rw [if_pos h0] at this
      by_cases h3 : t.2 * (t.1 : ZMod p) ≠ 0
      · rw [if_pos h3] at this; exact absurd this (by simp)
      · push Not at h3
        rcases mul_eq_zero.1 h3 with h4 | h4
        · exact absurd h4 (hc.canon.2 t ht)
        · exact (ZMod.natCast_eq_zero_iff _ _).1 h4
  unfold pthRoot
  rw [if_pos (by
    rw [List.all_eq_true]
    intro t ht
    exact decide_eq_true (Nat.mod_eq_zero_of_dvd (h2 t ht)))]
  have hcanon : Canon comp (c.map fun t => (t.1 / p, t.2)) := by
    refine ⟨List.pairwise_map.2 (hc.canon.1.imp_of_mem fun {a b} ha hb hab => ?_), ?_⟩
    · obtain ⟨x, hx⟩ := h2 a ha
      obtain ⟨y, hy⟩ := h2 b hb
      simp only [comp, gt_iff_lt, decide_eq_true_eq] at hab ⊢
      rw [hx, hy, Nat.mul_div_cancel_left _ hp0, Nat.mul_div_cancel_left _ hp0]
      rw [hx, hy] at hab
      exact lt_of_mul_lt_mul_left hab (Nat.zero_le _)
    · intro x hx
      obtain ⟨t, ht, rfl⟩ := List.mem_map.1 hx
      exact hc.canon.2 t ht
  refine ⟨_, _, rfl, is_of_canon hcanon, ?_⟩
  rw [← ZMod.expand_card, ← hc.eq]
  unfold toPoly
  rw [map_list_sum, List.map_map, List.map_map]
  congr 1
  refine List.map_congr_left fun t ht => ?_
  simp only [Function.comp]
  rw [expand_monomial, mul_comm, Nat.mul_div_cancel' (h2 t ht)]

theorem sqfOK_pow {G C : (ZMod p)[X]} (hF : F ≠ 0) (hG : G ≠ 0) (hC : G ^ p = C) (hv : ∀ P, Irreducible P → P.Monic → vm P C = if p ∣ vm P F then vm P F else 0)
    {l : List (UPoly (ZMod p) × Nat)} (h : SqfOK G l) : let l' := l.map fun x => (x.1, x.2 * p)
    (∀ x ∈ l', EntryOK F x ∧ p ∣ x.2) ∧ (∀ P, Irreducible P → P.Monic → vm P F ≠ 0 → p ∣ vm P F → ∃ x ∈ l', x.2 = vm P F) ∧ (l'.map Prod.snd).Nodup := by
  intro l'
  have hp0 := hp.out.pos
  have key : ∀ P, Irreducible P → P.Monic → p * vm P G = if p ∣ vm P F then vm P F else 0 := by
    intro P hP hm
    rw [← hv P hP hm, ← hC, vm_pow hP hG]
  refine ⟨?_, ?_, ?_⟩
  · intro x hx
    obtain ⟨y, hy, rfl⟩ := List.mem_map.1 hx
    have hy := h.entry y hy
    refine ⟨⟨hy.canon, hy.monic, hy.deg, Nat.mul_pos hy.exp hp0, fun P hP hm => ?_⟩, Dvd.intro_left _ rfl⟩
    simp only
    rw [hy.vm P hP hm]
    have hk := key P hP hm
    by_cases e : vm P G = y.2
    · rw [if_pos e]
      have h1 := hy.exp
      rw [e] at hk
      split at hk
      · rw [if_pos (by rw [← hk]; ring)]
      · have := Nat.mul_pos hp0 h1; omega
    · rw [if_neg e, if_neg]
      intro h1
      rw [h1, if_pos (Dvd.intro_left _ rfl), mul_comm] at hk
      exact e (Nat.eq_of_mul_eq_mul_right hp0 hk)
  · intro P hP hm h0 hd
    have hk := key P hP hm
    rw [if_pos hd] at hk
    obtain ⟨x, hx, e⟩ := h.cover P hP hm (by rintro h1; rw [h1] at hk; omega)
    exact ⟨_, List.mem_map.2 ⟨x, hx, rfl⟩, by simp only; rw [e, ← hk]; ring⟩
  · have e : (l'.map Prod.snd) = (l.map Prod.snd).map (· * p) := by
      simp only [l', List.map_map]; rfl
    rw [e]
    exact h.nodup.map fun a b hab => Nat.eq_of_mul_eq_mul_right hp0 hab

/-- `__squarefree_Zp` terminates on every monic non-constant polynomial and computes the square-free decomposition -/
theorem squarefree_spec (hW : p < W) : ∀ (fuel : Nat) (f : UPoly (ZMod p)) (F : (ZMod p)[X]), Is f F → F.Monic → 0 < F.natDegree →
    F.natDegree ≤ fuel → F.natDegree + 1 < W → ∃ l, squarefree p fuel f = some l ∧ SqfOK F l := by
  intro fuel
  induction fuel with
  | zero => intro f F _ _ h1 h2; omega
  | succ fuel ih =>
    intro f F hf hF hd hfuel lF
    have hp0 := hp.out.pos
    have hp2 := hp.out.two_le
    have hF0 := hF.ne_zero
    have hne : f ≠ [] := fun h => hF0 ((is_nil_iff hf).1 h)
    -- the recursive call on a p-th root
    have rec_ : ∀ (c : UPoly (ZMod p)) (C : (ZMod p)[X]), Is c C → C.Monic → C ∣ F → 0 < C.natDegree →
        (∀ P, Irreducible P → P.Monic → vm P C = if p ∣ vm P F then vm P F else 0) →
        ∃ g sub, pthRoot p c = some g ∧ squarefree p fuel (makeMonic g) = some sub ∧
          (∀ x ∈ sub.map fun x => (x.1, x.2 * p), EntryOK F x ∧ p ∣ x.2) ∧
          (∀ P, Irreducible P → P.Monic → vm P F ≠ 0 → p ∣ vm P F → ∃ x ∈ sub.map fun x => (x.1, x.2 * p), x.2 = vm P F) ∧
          ((sub.map fun x => (x.1, x.2 * p)).map Prod.snd).Nodup := by
      intro c C hc hC hCF hCd hv
      have hder : Polynomial.derivative C = 0 := by
        refine derivative_eq_zero_of_vm hC.ne_zero fun P hP hm => ?_
        rw [hv P hP hm]
        split
        · assumption
        · exact dvd_zero _
      obtain ⟨g, G, g1, g2, g3⟩ := pthRoot_spec hc hder
      have hGd : p * G.natDegree = C.natDegree := by rw [← g3, natDegree_pow]
      have hGlc : G.leadingCoeff = 1 := by
        have : G.leadingCoeff ^ p = 1 := by rw [← leadingCoeff_pow, g3]; exact hC
        rwa [ZMod.pow_card] at this
      have hG : G.Monic := hGlc
      have hle := natDegree_le_of_dvd hCF hF0
      have hGd1 : 0 < G.natDegree := by
        rcases Nat.eq_zero_or_pos G.natDegree with h | h
        · rw [h] at hGd; omega
        · exact h
      have hGd2 : 2 * G.natDegree ≤ C.natDegree := by rw [← hGd]; exact Nat.mul_le_mul_right _ hp2
      obtain ⟨sub, s1, s2⟩ := ih (makeMonic g) G (makeMonic_monic g2 hG) hG hGd1 (by omega) (by omega)
      exact ⟨g, sub, g1, s1, sqfOK_pow hF0 hG.ne_zero g3 hv s2⟩
    rw [squarefree, if_neg hne]
    by_cases h0 : Upoly.derivative f = []
    · rw [if_pos h0]
      have hder := (is_nil_iff (derivative_is hf)).1 h0
      obtain ⟨g, sub, g1, s1, a1, a2, a3⟩ := rec_ f F hf hF dvd_rfl hd (by
        intro P hP hm
        split
        · rfl
        · rename_i hdv
          exact absurd (by rw [hder]; exact dvd_zero _) (not_pow_dvd_derivative hP hF0 hdv))
      rw [g1]
      simp only [Option.bind_some]
      rw [s1]
      refine ⟨_, rfl, fun x hx => (a1 x hx).1, ?_, a3⟩
      intro P hP hm hv
      refine a2 P hP hm hv ?_
      by_contra hdv
      exact absurd (by rw [hder]; exact dvd_zero _) (not_pow_dvd_derivative hP hF0 hdv)
    · rw [if_neg h0]
      have hder : Polynomial.derivative F ≠ 0 := fun h => h0 ((is_nil_iff (derivative_is hf)).2 h)
      obtain ⟨c, C, c1, c2, c3, c4⟩ := gcd_is hW hf (derivative_is hf) (.inl hF0) lF (by
        have := natDegree_derivative_lt (p := F) (by omega)
        omega)
      obtain ⟨Wp, hWp⟩ := c4.1
      rw [mul_comm] at hWp
      obtain ⟨w, w1, w2⟩ := quo_is (hWp ▸ hf) c2 c3.ne_zero
      have hWm : Wp.Monic := monic_of_mul (hWp ▸ hF) c3
      have cv : ∀ P, Irreducible P → P.Monic → vm P C = if p ∣ vm P F then vm P F else vm P F - 1 := fun P hP _ => vm_gcd_derivative hP hF0 c4
      rw [c1]
      simp only [Option.bind_some]
      rw [w1]
      simp only [Option.bind_some]
      obtain ⟨c', C', res, l1, l2, l3, l4, l5, l6, l7, l8⟩ := sqfLoop_spec hW hF lF (deg f + 2) 1 w c Wp C [] w2 c2 le_rfl
        (by rw [is_deg hf]; omega) (by omega) ⟨C, hWp⟩ c4.1 ⟨hWm, c3, by
          intro P hP hm
          have e := vm_mul hP hWm.ne_zero c3.ne_zero
          rw [← hWp, cv P hP hm] at e
          by_cases hdv : p ∣ vm P F
          · simp only [hdv, if_true, not_true_eq_false, false_and, if_false] at e ⊢; omega
          · have : vm P F ≠ 0 := by intro h; rw [h] at hdv; exact hdv (dvd_zero _)
            rw [if_neg hdv] at e
            rw [if_pos ⟨hdv, by omega⟩]; omega,
          cv, by simp, by
            intro P _ _ hdv hlt
            have : vm P F = 0 := by omega
            rw [this] at hdv
            exact absurd (dvd_zero _) hdv, by simp⟩
      rw [l1]
      simp only [Option.bind_some]
      by_cases hc' : c' ≠ [] ∧ deg c' > 0
      · rw [if_pos hc']
        obtain ⟨g, sub, g1, s1, a1, a2, a3⟩ := rec_ c' C' l2 l3 l4 (by rw [← is_deg l2]; exact hc'.2) l5
        rw [g1]
        simp only [Option.bind_some]
        rw [s1]
        refine ⟨_, rfl, ?_, ?_, ?_⟩
        · intro x hx
          rcases List.mem_append.1 hx with hx | hx
          · exact (l6 x hx).1
          · exact (a1 x hx).1
        · intro P hP hm hv
          by_cases hdv : p ∣ vm P F
          · obtain ⟨x, hx, e⟩ := a2 P hP hm hv hdv
            exact ⟨x, List.mem_append_right _ hx, e⟩
          · obtain ⟨x, hx, e⟩ := l7 P hP hm hdv
            exact ⟨x, List.mem_append_left _ hx, e⟩
        · rw [List.map_append, List.nodup_append]
          refine ⟨l8, a3, ?_⟩
          rintro a ha b hb rfl
          obtain ⟨x, hx, e1⟩ := List.mem_map.1 ha
          obtain ⟨y, hy, e2⟩ := List.mem_map.1 hb
          exact (l6 x hx).2 (by rw [e1, ← e2]; exact (a1 y hy).2)
      · rw [if_neg hc']
        refine ⟨_, rfl, fun x hx => (l6 x hx).1, ?_, l8⟩
        intro P hP hm hv
        by_cases hdv : p ∣ vm P F
        · exfalso
          have h1 := l5 P hP hm
          rw [if_pos hdv] at h1
          have := natDegree_pos_of_vm hP l3.ne_zero (by omega)
          refine hc' ⟨?_, by rw [is_deg l2]; exact this⟩
          rintro rfl
          exact l3.ne_zero ((is_nil_iff l2).1 rfl)
        · exact l7 P hP hm hdv

/-! ## consequences, in terms of products -/

theorem vm_prod {P : (ZMod p)[X]} (hP : Irreducible P) : ∀ l : List ((ZMod p)[X]), (∀ x ∈ l, x ≠ 0) → vm P l.prod = (l.map (vm P)).sum := by
  intro l
  induction l with
  | nil => intro _; simp [vm_one hP]
  | cons x l ih =>
    intro h
    have h1 := h x (by simp)
    have h2 : ∀ y ∈ l, y ≠ 0 := fun y hy => h y (by simp [hy])
    rw [List.prod_cons, vm_mul hP h1 (List.prod_ne_zero fun h0 => h2 0 h0 rfl), ih h2, List.map_cons, List.sum_cons]

theorem monic_list_prod' : ∀ l : List ((ZMod p)[X]), (∀ y ∈ l, y.Monic) → l.prod.Monic := by
  intro l
  induction l with
  | nil => intro _; simp
  | cons x l ih => intro h; rw [List.prod_cons]; exact (h x (by simp)).mul (ih fun y hy => h y (by simp [hy]))

theorem SqfOK.prod {l : List (UPoly (ZMod p) × Nat)} (hF : F.Monic) (h : SqfOK F l) : (l.map fun x => toPoly x.1 ^ x.2).prod = F := by
  have hm : ∀ y ∈ l.map fun x => toPoly x.1 ^ x.2, y.Monic := by
    intro y hy
    obtain ⟨x, hx, rfl⟩ := List.mem_map.1 hy
    exact (h.entry x hx).monic.pow _
  refine eq_of_vm (monic_list_prod' _ hm) hF fun P hP hPm => ?_
  rw [vm_prod hP _ fun y hy => (hm y hy).ne_zero, List.map_map]
  have e : ∀ x ∈ l, (vm P ∘ fun x : UPoly (ZMod p) × Nat => toPoly x.1 ^ x.2) x = if vm P F = x.2 then vm P F else 0 := by
    intro x hx
    simp only [Function.comp]
    rw [vm_pow hP (h.entry x hx).monic.ne_zero, (h.entry x hx).vm P hP hPm]
    split
    · rename_i h; rw [h]; simp
    · simp
  rw [List.map_congr_left e]
  have hn := h.nodup
  by_cases h0 : vm P F = 0
  · have : ∀ x ∈ l, (if vm P F = x.2 then vm P F else 0) = 0 := by intro x _; rw [h0]; simp
    rw [List.map_congr_left this, h0]; simp
  · obtain ⟨x, hx, ex⟩ := h.cover P hP hPm h0
    obtain ⟨n, hn'⟩ : ∃ n, n = vm P F := ⟨_, rfl⟩
    rw [← hn'] at ex ⊢
    clear e hm h0 h
    clear hn'
    induction l with
    | nil => simp at hx
    | cons y l ih =>
      rw [List.map_cons, List.nodup_cons] at hn
      rw [List.map_cons, List.sum_cons]
      by_cases hy : n = y.2
      · rw [if_pos hy]
        have : ∀ z ∈ l, (if n = z.2 then n else 0) = 0 := by
          intro z hz
          rw [if_neg]
          intro h; exact hn.1 (List.mem_map.2 ⟨z, hz, by rw [← h, hy]⟩)
        rw [List.map_congr_left this]; simp
      · rw [if_neg hy, zero_add]
        rcases List.mem_cons.1 hx with rfl | hx
        · exact absurd ex.symm hy
        · exact ih hn.2 hx

theorem SqfOK.squarefree {l : List (UPoly (ZMod p) × Nat)} (h : SqfOK F l) : ∀ x ∈ l, Squarefree (toPoly x.1) := by
  intro x hx
  refine squarefree_of_vm (h.entry x hx).monic.ne_zero fun P hP hm => ?_
  rw [(h.entry x hx).vm P hP hm]
  split <;> omega

theorem SqfOK.coprime {l : List (UPoly (ZMod p) × Nat)} (h : SqfOK F l) : l.Pairwise fun x y => IsCoprime (toPoly x.1) (toPoly y.1) ∧ x.2 ≠ y.2 := by
  have hn := List.pairwise_map.1 h.nodup
  refine hn.imp_of_mem fun {x y} hx hy hne => ⟨?_, hne⟩
  refine isCoprime_of_irreducible (h.entry x hx).monic.ne_zero fun P hP hm h1 h2 => ?_
  rw [dvd_iff_vm hP (h.entry x hx).monic.ne_zero, (h.entry x hx).vm P hP hm] at h1
  rw [dvd_iff_vm hP (h.entry y hy).monic.ne_zero, (h.entry y hy).vm P hP hm] at h2
  split_ifs at h1 h2 with a b
  · exact hne (a.symm.trans b)
  all_goals omega

end Upoly
end CLPoly
