import Verif.Groebner.Theory

/-!
# The Gebauer–Möller update, as mathematics

What the bookkeeping in `__update` (groebner.hh) has to guarantee so that no S-polynomial is lost.
-/

namespace CLPoly.GB
open MvPolynomial

variable {σ K L : Type*} [Field K] [LinearOrder L] {r : (σ →₀ ℕ) → L} {V : Finset σ}

theorem sp_swap (a c : It σ K) : sp a c = - sp c a := by
  unfold sp; rw [sup_comm c.lm, diffAt_swap]

theorem sp_self (a : It σ K) : sp a a = 0 := by unfold sp; exact diffAt_self a _

theorem sp_swap_W {B : Set (It σ K)} {P : Set (It σ K × It σ K)} {a c : It σ K} (h : sp a c ∈ W r V B P (r (a.lm ⊔ c.lm))) :
    sp c a ∈ W r V B P (r (c.lm ⊔ a.lm)) := by
  rw [sp_swap, sup_comm]; exact Submodule.neg_mem _ h

theorem pend_sp {P : Set (It σ K × It σ K)} {p : It σ K × It σ K} (hp : p ∈ P) :
    sp p.1 p.2 ∈ pend r V P (r (p.1.lm ⊔ p.2.lm)) :=
  Submodule.subset_span ⟨p, hp, 0, by simp, by rw [zero_add], by simp⟩

theorem W_sp {B : Set (It σ K)} {P : Set (It σ K × It σ K)} (a c : It σ K) (hp : (a, c) ∈ P) :
    sp a c ∈ W r V B P (r (a.lm ⊔ c.lm)) := Submodule.mem_sup_right (pend_sp (p := (a, c)) hp)

/-- pairs may be dropped when their S-polynomial is covered by what stays -/
theorem W_drop (hr : ERank r) {B B' : Set (It σ K)} {P P' : Set (It σ K × It σ K)} (hB : B ⊆ B')
    (h : ∀ p ∈ P, p ∈ P' ∨ sp p.1 p.2 ∈ W r V B' P' (r (p.1.lm ⊔ p.2.lm))) (t : L) :
    W r V B P t ≤ W r V B' P' t := by
  refine sup_le ((below_mono_set hB t).trans below_le_W) (Submodule.span_le.2 ?_)
  rintro _ ⟨p, hp, m, hm, hle, rfl⟩
  have : sp p.1 p.2 ∈ W r V B' P' (r (p.1.lm ⊔ p.2.lm)) := by
    rcases h p hp with h | h
    · exact Submodule.mem_sup_right (pend_sp h)
    · exact h
  exact W_mono hle (mul_W hr hm this)

/-- adding `h`: old pairs are dropped by the lcm criterion, new pairs by the lcm and the product criterion -/
theorem update_covers (hr : ERank r) {B : Set (It σ K)} {h : It σ K} {P P' : Set (It σ K × It σ K)}
    (hB : ∀ b ∈ B, b.OK r V) (hh : h.OK r V) (hP : ∀ p ∈ P, p.1 ∈ B ∧ p.2 ∈ B)
    (old : ∀ a ∈ B, ∀ c ∈ B, sp a c ∈ W r V (insert h B) P (r (a.lm ⊔ c.lm)))
    (keep : ∀ p ∈ P, p ∈ P' ∨ (h.lm ≤ p.1.lm ⊔ p.2.lm ∧ p.1.lm ⊔ h.lm ≠ p.1.lm ⊔ p.2.lm ∧ h.lm ⊔ p.2.lm ≠ p.1.lm ⊔ p.2.lm))
    (new : ∀ a ∈ B, ∃ k ∈ B, k.lm ⊔ h.lm ≤ a.lm ⊔ h.lm ∧ ((k, h) ∈ P' ∨ k.lm ⊓ h.lm = 0)) :
    ∀ a ∈ insert h B, ∀ c ∈ insert h B, sp a c ∈ W r V (insert h B) P' (r (a.lm ⊔ c.lm)) := by
  have claim : ∀ t : {s : σ →₀ ℕ // s.support ⊆ V},
      W r V (insert h B) P (r t.1) ≤ W r V (insert h B) P' (r t.1) ∧
      ∀ a ∈ B, a.lm ⊔ h.lm = t.1 → sp a h ∈ W r V (insert h B) P' (r t.1) := by
    intro t
    induction t using (hr.wf V).induction with
    | _ t ih =>
    have A : W r V (insert h B) P (r t.1) ≤ W r V (insert h B) P' (r t.1) := by
      refine sup_le below_le_W (Submodule.span_le.2 ?_)
      rintro _ ⟨p, hp, m, hm, hle, rfl⟩
      rcases keep p hp with hk | ⟨h1, h2, h3⟩
      · exact W_mono hle (mul_W hr hm (W_sp p.1 p.2 hk))
      · obtain ⟨b1, b2⟩ := hP p hp
        have s1 := (hB _ b1).lm_vars
        have s2 := (hB _ b2).lm_vars
        have sh := hh.lm_vars
        have l1 : p.1.lm ⊔ h.lm ≤ p.1.lm ⊔ p.2.lm := sup_le le_sup_left h1
        have l2 : p.2.lm ⊔ h.lm ≤ p.1.lm ⊔ p.2.lm := sup_le le_sup_right h1
        have small : r (p.1.lm ⊔ p.2.lm) ≤ r t.1 := (hr.dom _ _ le_add_self).trans hle
        have g1 : r (p.1.lm ⊔ h.lm) < r t.1 :=
          (lt_of_le_of_ne (hr.dom _ _ l1) fun e => h2 (hr.inj e)).trans_le small
        have g2 : r (p.2.lm ⊔ h.lm) < r t.1 :=
          (lt_of_le_of_ne (hr.dom _ _ l2) fun e => h3 (by rw [sup_comm]; exact hr.inj e)).trans_le small
        have w1 := (ih ⟨p.1.lm ⊔ h.lm, support_sup s1 sh⟩ g1).2 p.1 b1 rfl
        have w2 := (ih ⟨p.2.lm ⊔ h.lm, support_sup s2 sh⟩ g2).2 p.2 b2 rfl
        refine W_mono hle ?_
        have hsup := support_sup s1 s2
        have e : monomial m 1 * sp p.1 p.2 = diffAt p.1 p.2 (m + (p.1.lm ⊔ p.2.lm)) := by
          rw [diffAt_eq _ _ le_add_self, add_tsub_cancel_right]
        show monomial m 1 * sp p.1 p.2 ∈ _
        rw [e, diffAt_chain p.1 h p.2, diffAt_swap h p.2]
        refine Submodule.add_mem _ ?_ (Submodule.neg_mem _ ?_)
        · exact diffAt_W hr (support_add hm hsup) (l1.trans le_add_self) w1
        · exact diffAt_W hr (support_add hm hsup) (l2.trans le_add_self) w2
    refine ⟨A, fun a ha e => ?_⟩
    obtain ⟨k, hk, hle, hkp⟩ := new a ha
    have kh : sp k h ∈ W r V (insert h B) P' (r (k.lm ⊔ h.lm)) := by
      rcases hkp with hkp | hkp
      · exact W_sp k h hkp
      · exact below_le_W (sp_coprime hr (Set.mem_insert_of_mem _ hk) (Set.mem_insert _ _) (hB k hk) hh hkp)
    have es : sp a h = diffAt a k t.1 + diffAt k h t.1 := by
      rw [← diffAt_chain, ← e]; rfl
    rw [es]
    have hk1 : k.lm ≤ t.1 := e ▸ le_sup_left.trans hle
    refine Submodule.add_mem _ (A ?_) ?_
    · exact diffAt_W hr t.2 (sup_le (e ▸ le_sup_left) hk1) (old a ha k hk)
    · exact diffAt_W hr t.2 (e ▸ hle) kh
  have oldcase : ∀ a ∈ B, ∀ c ∈ B, sp a c ∈ W r V (insert h B) P' (r (a.lm ⊔ c.lm)) := fun a ha c hc =>
    (claim ⟨_, support_sup (hB a ha).lm_vars (hB c hc).lm_vars⟩).1 (old a ha c hc)
  have newcase : ∀ a ∈ B, sp a h ∈ W r V (insert h B) P' (r (a.lm ⊔ h.lm)) := fun a ha =>
    (claim ⟨_, support_sup (hB a ha).lm_vars hh.lm_vars⟩).2 a ha rfl
  rintro a (rfl | ha) c (rfl | hc)
  · rw [sp_self]; exact Submodule.zero_mem _
  · exact sp_swap_W (newcase c hc)
  · exact newcase a ha
  · exact oldcase a ha c hc

end CLPoly.GB
