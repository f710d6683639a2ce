import Verif.Charset.RegWrsd
import Mathlib.FieldTheory.IsAlgClosed.Basic

/-! # Regular chains over an algebraically closed field: the iterated resultant vanishes exactly if there is a common zero; `is_regular` -/

namespace CLPoly
namespace Charset
open Mono MvPolynomial Mgcd

variable {K : Type*} [Field K] {ord : List Var}

theorem aeval_cong {a b : Var → K} {p : MvPolynomial Var ℤ} (h : ∀ w ∈ p.vars, a w = b w) : aeval a p = aeval b p :=
  eval₂Hom_congr' rfl (fun w hw _ => h w hw) rfl

/-- changing the value of `x` -/
theorem ev_update (a : Var → K) (x : Var) (r : K) (p : MvPolynomial Var ℤ) : aeval (Function.update a x r) p = ((toU x p).map (ev a)).eval r := by
  rw [← ev_eval (Function.update a x r) x p, Function.update_self]
  congr 1
  ext i
  rw [Polynomial.coeff_map, Polynomial.coeff_map]
  refine aeval_cong fun w hw => ?_
  have : w ≠ x := by rintro rfl; exact free_coeff _ _ _ hw
  rw [Function.update_of_ne this]

theorem zr_update (hn : ord.Nodup) {T : List (PV Mono ℤ)} (hT : TC ord T) {i : ℕ} (hi : T.length ≤ i) (hio : i < ord.length) (a : Var → K) (r : K) : Zr T a ↔ Zr T (Function.update a (lv ord i) r) := by
  refine forall₂_congr fun t ht => ?_
  obtain ⟨A, B, rfl⟩ := List.append_of_mem ht
  have h := hT A t B rfl
  rw [aeval_cong (a := a) (b := Function.update a (lv ord i) r)]
  intro w hw
  have : w ≠ lv ord i := by
    rintro rfl
    refine lv_not_Lo hn (i := i) (j := A.length + 1) ?_ hio (h.vars hw)
    rw [List.length_append, List.length_cons] at hi; omega
  rw [Function.update_of_ne this]

/-- two polynomials whose resultant vanishes have a common root -/
theorem common_root [IsAlgClosed K] {P Q : Polynomial K} {m l : ℕ} (hm : P.natDegree = m) (h0 : 0 < m) (hQ : Q.natDegree ≤ l) (hr : Polynomial.resultant P Q m l = 0) : ∃ r, P.eval r = 0 ∧ Q.eval r = 0 := by
  classical
  have hP : P ≠ 0 := by rintro rfl; simp at hm; omega
  have hg : (EuclideanDomain.gcd P Q).natDegree ≠ 0 := by
    intro he
    refine Res.psc_ne_zero hm hP hQ he (Nat.zero_le _) (Nat.zero_le _) (by omega) ?_
    rw [Res.Sub, Nat.sub_zero, Nat.sub_zero, Nat.sub_zero, Res.SB_resultant _ _ hm.le hQ (by omega), hr, Polynomial.C_0, Polynomial.coeff_zero]
  obtain ⟨r, hr⟩ := IsAlgClosed.exists_root (EuclideanDomain.gcd P Q) fun h => hg (Polynomial.natDegree_eq_of_degree_eq_some h)
  exact ⟨r, Polynomial.eval_eq_zero_of_dvd_of_eval_eq_zero (EuclideanDomain.gcd_dvd_left P Q) hr, Polynomial.eval_eq_zero_of_dvd_of_eval_eq_zero (EuclideanDomain.gcd_dvd_right P Q) hr⟩

/-- a regular chain has a zero -/
theorem RC.exists_zero [IsAlgClosed K] (hn : ord.Nodup) {T : List (PV Mono ℤ)} (hT : RC K ord T) : ∃ a : Var → K, Zr T a := by
  induction T using List.reverseRecOn with
  | nil => exact ⟨fun _ => 0, Zr.nil⟩
  | append_singleton T c ih =>
    obtain ⟨h1, h2, h3⟩ := RC.snoc.1 hT
    obtain ⟨a, ha⟩ := ih h1
    obtain ⟨r, hr⟩ := IsAlgClosed.exists_root ((toU (lv ord T.length) (val c)).map (ev a)) (fun h => by
      have h4 : _ = 0 := Polynomial.natDegree_eq_of_degree_eq_some h
      rw [ev_natDegree (h3 a ha)] at h4
      have := h2.deg_pos
      omega)
    refine ⟨Function.update a (lv ord T.length) r, Zr.append.2 ⟨(zr_update hn h1.1 le_rfl h2.len a r).1 ha, Zr.single.2 ?_⟩⟩
    rw [ev_update]; exact hr

/-- the iterated resultant vanishes only if there is a common zero -/
theorem iterResB_back [IsAlgClosed K] (hn : ord.Nodup) : ∀ {T : List (PV Mono ℤ)} {f : PV Mono ℤ}, RC K ord T → LP (varCustom ord) f → (val f).vars ⊆ Lo ord T.length →
    Conv (fun k => iterResB (varCustom ord) true k T f) (fun r => r = [] → ∃ a : Var → K, Zr T a ∧ aeval a (val f) = 0) := by
  intro T
  have ho := varCustom_ord ord
  induction T using List.reverseRecOn with
  | nil => intro f _ hf hv; exact Conv.ok fun e => ⟨fun _ => 0, Zr.nil, by rw [e, val_nil, map_zero]⟩
  | append_singleton T c ih =>
    intro f hT hf hv
    obtain ⟨hT', hc, hr⟩ := RC.snoc.1 hT
    simp only [iterResB_snoc, (hc.num hn).2]
    rw [List.length_append, List.length_singleton] at hv
    by_cases h0 : f = []
    · simp only [if_pos h0]
      have hnil : LP (varCustom ord) ([] : PV Mono ℤ) := h0 ▸ hf
      refine (Conv.ok (P := (· = [])) rfl).bind fun r hr => (ih hT' (hr ▸ hnil) (by rw [hr, val_nil, vars_0]; simp)).mono fun s _ _ => ?_
      obtain ⟨a, ha⟩ := hT.exists_zero hn
      exact ⟨a, ha, by rw [h0, val_nil, map_zero]⟩
    · simp only [if_neg h0]
      have hval0 : val f ≠ 0 := fun e => h0 ((hf.val_eq_zero (lex_ord ho)).1 e)
      refine (resC_conv ho hf hc.ok _).bind fun r hres => (ih hT' hres.ok (resOut_vars hc hv hres)).mono fun s hs e => ?_
      obtain ⟨a, ha, h1⟩ := hs e
      rw [hres.eq hval0 hc.val_ne, show aeval a (Polynomial.resultant _ _ _ _) = ev a (Polynomial.resultant _ _ _ _) from rfl, ← Polynomial.resultant_map_map, Polynomial.resultant_comm, mul_eq_zero] at h1
      obtain ⟨z, z1, z2⟩ := common_root (ev_natDegree (hr a ha)) hc.deg_pos (by rw [← natDegree_toU]; exact Polynomial.natDegree_map_le) (h1.resolve_left (pow_ne_zero _ (by simp)))
      refine ⟨Function.update a (lv ord T.length) z, Zr.append.2 ⟨(zr_update hn hT'.1 le_rfl hc.len a z).1 ha, Zr.single.2 ?_⟩, ?_⟩
      · rw [ev_update]; exact z1
      · rw [ev_update]; exact z2

theorem getD_split {T : List (PV Mono ℤ)} {n : ℕ} (h : n < T.length) : T = T.take n ++ T.getD n [] :: T.drop (n + 1) := by
  rw [List.getD_eq_getElem _ _ h, List.cons_getElem_drop_succ, List.take_append_drop]

theorem RC.of_levels {T : List (PV Mono ℤ)} (hT : TC ord T) (h : ∀ n < T.length, Reg K ord (T.take n) (T.getD n [])) : RC K ord T := by
  refine ⟨hT, fun A t B e => ?_⟩
  have := h A.length (by rw [e]; simp)
  rw [e] at this
  simpa using this

theorem lvl0_at {T : List (PV Mono ℤ)} (hT : TC ord T) {n : ℕ} (h : n < T.length) : Lvl0 ord (T.take n) (T.getD n []) := hT _ _ _ (getD_split h)

theorem reg_zero [CharZero K] {t : PV Mono ℤ} (h : Lvl0 ord [] t) : Reg K ord [] t := by
  intro a _
  refine const_ne a (Lo_zero (Lo_free (fun w hw => h.vars ?_) ?_)) (Polynomial.leadingCoeff_ne_zero.2 (toU_ne_zero h.val_ne))
  · rw [Polynomial.leadingCoeff] at hw
    exact (toU_coeff _ _ _).vars_subset hw
  · rw [Polynomial.leadingCoeff]
    exact free_coeff _ _ _

/-- one level: what the iterated resultant of the initial tells -/
theorem level_conv [CharZero K] (hn : ord.Nodup) {T : List (PV Mono ℤ)} (hT : TC ord T) {n : ℕ} (h : n < T.length) :
    Conv (fun k => iterResB (varCustom ord) true k (T.take n) (leadLex (T.getD n []))) (fun r => (r ≠ [] → Reg K ord (T.take n) (T.getD n [])) ∧
      ([IsAlgClosed K] → RC K ord (T.take n) → r = [] → ¬ Reg K ord (T.take n) (T.getD n []))) := by
  have hl := lvl0_at hT h
  obtain ⟨l1, l2, l3, l4⟩ := hl.init hn
  have key : Conv (fun k => iterResB (varCustom ord) true k (T.take n) (leadLex (T.getD n []))) (fun r => (r ≠ [] → Reg K ord (T.take n) (T.getD n []))) :=
    (iterResB_conv (K := K) hn (hT.take n) l1 l4).mono fun r hr hne a ha => by
      have := hr.ne hne ha
      rwa [l3] at this
  by_cases hac : ∃ _ : IsAlgClosed K, RC K ord (T.take n)
  · obtain ⟨_, hrc⟩ := hac
    refine key.and ((iterResB_back (K := K) hn hrc l1 l4).mono fun r hr => ?_)
    intro _ _ e hreg
    obtain ⟨a, ha, h0⟩ := hr e
    rw [l3] at h0
    exact hreg a ha h0
  · exact key.mono fun r hr => ⟨hr, fun {_} hrc => absurd ⟨inferInstance, hrc⟩ hac⟩

theorem isRegularFrom_conv [CharZero K] (hn : ord.Nodup) {T : List (PV Mono ℤ)} (hT : TC ord T) : ∀ (m n : ℕ), n + m = T.length → (∀ i < n, Reg K ord (T.take i) (T.getD i [])) →
    Conv (fun k => isRegularFrom (varCustom ord) true k T (List.range' n m)) (fun b => (b = true → RC K ord T) ∧ ([IsAlgClosed K] → RC K ord T → b = true)) := by
  intro m
  induction m with
  | zero =>
    intro n e h
    exact Conv.ok ⟨fun _ => RC.of_levels hT fun i hi => h i (by omega), fun _ => rfl⟩
  | succ m ih =>
    intro n e h
    rw [List.range'_succ]
    refine (level_conv (K := K) hn hT (n := n) (by omega)).bind fun r hr => ?_
    by_cases h0 : r = []
    · simp only [if_pos h0]
      refine Conv.ok ⟨fun h => by simp at h, fun {_} hrc => ?_⟩
      exact absurd (hrc.2 _ _ _ (getD_split (by omega))) (hr.2 (hrc.take n) h0)
    · simp only [if_neg h0]
      refine ih (n + 1) (by omega) fun i hi => ?_
      rcases Nat.lt_succ_iff_lt_or_eq.1 hi with hi | rfl
      · exact h i hi
      · exact hr.1 h0

/-- `is_regular` -/
theorem isRegular_conv [CharZero K] (hn : ord.Nodup) {T : List (PV Mono ℤ)} (hT : TC ord T) :
    Conv (fun k => isRegular (varCustom ord) true k T) (fun b => (b = true → RC K ord T) ∧ ([IsAlgClosed K] → RC K ord T → b = true)) := by
  rcases T with - | ⟨t, T⟩
  · exact Conv.ok ⟨fun _ => RC.nil, fun _ => rfl⟩
  · refine isRegularFrom_conv hn hT _ 1 (by simp; omega) fun i hi => ?_
    obtain rfl : i = 0 := by omega
    exact reg_zero (lvl0_at hT (n := 0) (by simp))

end Charset
end CLPoly
