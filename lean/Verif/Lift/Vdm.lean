import Verif.Lift.Defs
import Mathlib.LinearAlgebra.Vandermonde

/-! # The transposed Vandermonde system -/

namespace CLPoly
namespace Lift

variable {R : Type*} [DecidableEq R] [Field R]

/-- `x` solves the augmented system -/
def Sol (s : ℕ) (M : ℕ → ℕ → R) (x : ℕ → R) : Prop := ∀ l < s, ∑ t ∈ Finset.range s, M l t * x t = M l s

/-- the first `col` columns are those of the identity -/
def Done (s col : ℕ) (M : ℕ → ℕ → R) : Prop := ∀ r < s, ∀ c < col, M r c = if r = c then 1 else 0

theorem vdmPivot_some {s col r : ℕ} {M : ℕ → ℕ → R} (h : vdmPivot s col M = some r) : col ≤ r ∧ r < s ∧ M r col ≠ 0 := by
  unfold vdmPivot at h
  have h1 := List.mem_of_find?_eq_some h
  have h2 := List.find?_some h
  rw [List.mem_range'_1] at h1
  refine ⟨h1.1, by omega, by simpa using h2⟩

theorem vdmPivot_none {s col : ℕ} {M : ℕ → ℕ → R} (h : vdmPivot s col M = none) : ∀ r, col ≤ r → r < s → M r col = 0 := by
  intro r h1 h2
  unfold vdmPivot at h
  rw [List.find?_eq_none] at h
  simpa using h r (by rw [List.mem_range'_1]; omega)

theorem sol_swap {s a b : ℕ} {M : ℕ → ℕ → R} (ha : a < s) (hb : b < s) {x : ℕ → R} : Sol s (vdmSwap M a b) x ↔ Sol s M x := by
  have key : ∀ {M : ℕ → ℕ → R}, Sol s M x → Sol s (vdmSwap M a b) x := by
    intro M h l hl
    unfold vdmSwap
    by_cases h1 : l = a
    · simp only [h1, if_true]; exact h b hb
    · by_cases h2 : l = b
      · simp only [h2, if_true]; split
        · exact h b hb
        · exact h a ha
      · simp only [h1, h2, if_false]; exact h l hl
  refine ⟨fun h => ?_, key⟩
  have := key h
  have e : vdmSwap (vdmSwap M a b) a b = M := by
    funext i
    unfold vdmSwap
    by_cases h1 : i = a <;> by_cases h2 : i = b <;> by_cases h3 : b = a <;> simp_all
  rwa [e] at this

theorem done_swap {s col r : ℕ} {M : ℕ → ℕ → R} (h : Done s col M) (h1 : col ≤ r) (h2 : r < s) : Done s col (vdmSwap M col r) := by
  intro i hi c hc
  unfold vdmSwap
  by_cases e1 : i = col
  · simp only [e1, if_true]
    rw [h r h2 c hc, if_neg (by omega), if_neg (by omega)]
  · by_cases e2 : i = r
    · simp only [e1, e2, if_false, if_true]
      split
      · rename_i e3; omega
      · rw [h col (by omega) c hc, if_neg (by omega), if_neg (by omega)]
    · simp only [e1, e2, if_false]
      exact h i hi c hc

theorem sol_scale {s col : ℕ} {M : ℕ → ℕ → R} (hd : Done s col M) (hc : col < s) (h0 : M col col ≠ 0) {x : ℕ → R} : Sol s (vdmScale col M) x ↔ Sol s M x := by
  refine forall_congr' fun l => forall_congr' fun hl => ?_
  by_cases e : l = col
  · subst e
    have h1 : ∀ j, vdmScale l M l j = M l j * (M l l)⁻¹ := by
      intro j
      unfold vdmScale
      by_cases h : l ≤ j
      · rw [if_pos ⟨rfl, h⟩]
      · rw [if_neg (fun h' => h h'.2), hd l hl j (by omega), if_neg (by omega), zero_mul]
    simp only [h1]
    rw [show ∑ t ∈ Finset.range s, M l t * (M l l)⁻¹ * x t = (M l l)⁻¹ * ∑ t ∈ Finset.range s, M l t * x t by rw [Finset.mul_sum]; exact Finset.sum_congr rfl fun t _ => by ring]
    rw [mul_comm (M l s)]
    exact mul_right_inj' (inv_ne_zero h0)
  · have h1 : ∀ j, vdmScale col M l j = M l j := fun j => if_neg fun h => e h.1
    simp only [h1]

theorem done_scale {s col : ℕ} {M : ℕ → ℕ → R} (h : Done s col M) : Done s col (vdmScale col M) := by
  intro i hi c hc
  rw [vdmScale, if_neg (by omega)]
  exact h i hi c hc

theorem sol_elim {s col : ℕ} {M : ℕ → ℕ → R} (hd : Done s col M) (hc : col < s) {x : ℕ → R} : Sol s (vdmElim col M) x ↔ Sol s M x := by
  have h1 : ∀ l, l ≠ col → ∀ j, vdmElim col M l j = M l j - M l col * M col j := by
    intro l hl j
    unfold vdmElim
    by_cases h : col ≤ j
    · rw [if_pos ⟨hl, h⟩]
    · rw [if_neg (fun h' => h h'.2), hd col hc j (by omega), if_neg (by omega), mul_zero, sub_zero]
  have h2 : ∀ j, vdmElim col M col j = M col j := fun j => if_neg fun h => h.1 rfl
  have hs : ∀ l, l ≠ col → ∑ t ∈ Finset.range s, vdmElim col M l t * x t = (∑ t ∈ Finset.range s, M l t * x t) - M l col * ∑ t ∈ Finset.range s, M col t * x t := by
    intro l hl
    rw [Finset.mul_sum, ← Finset.sum_sub_distrib]
    exact Finset.sum_congr rfl fun t _ => by rw [h1 l hl]; ring
  constructor
  · intro h l hl
    have hcol : ∑ t ∈ Finset.range s, M col t * x t = M col s := by
      have := h col hc
      simpa only [h2] using this
    by_cases e : l = col
    · rw [e]; exact hcol
    · have := h l hl
      rw [hs l e, h1 l e, hcol] at this
      exact sub_left_inj.1 this
  · intro h l hl
    by_cases e : l = col
    · subst e; simp only [h2]; exact h l hl
    · rw [hs l e, h1 l e, h l hl, h col hc]

theorem done_elim {s col : ℕ} {M : ℕ → ℕ → R} (h : Done s col M) (hc : col < s) (h1 : M col col = 1) : Done s (col + 1) (vdmElim col M) := by
  intro i hi c hcc
  unfold vdmElim
  by_cases e : c = col
  · subst e
    by_cases e' : i = c
    · subst e'; simp [h1]
    · rw [if_pos ⟨e', le_rfl⟩, h1, mul_one, sub_self, if_neg e']
  · rw [if_neg (by omega)]
    exact h i hi c (by omega)

theorem sum_range_single {s t : ℕ} (f : ℕ → R) (h : t < s) (h0 : ∀ i < s, i ≠ t → f i = 0) : ∑ i ∈ Finset.range s, f i = f t :=
  Finset.sum_eq_single t (fun i hi hne => h0 i (Finset.mem_range.1 hi) hne) fun h' => absurd (Finset.mem_range.2 h) h'

/-- the elimination: if it succeeds, the last column is the unique solution; if not, the solution is not unique or does not exist -/
theorem vdmLoop_spec {s : ℕ} : ∀ (n col : ℕ) (M : ℕ → ℕ → R), n + col = s → Done s col M →
    match vdmLoop s n col M with
    | some N => ∀ x : ℕ → R, Sol s M x ↔ ∀ t < s, x t = N t s
    | none => ∃ y : ℕ → R, (∃ t < s, y t ≠ 0) ∧ ∀ x, Sol s M x → Sol s M (fun t => x t + y t) := by
  intro n
  induction n with
  | zero =>
    intro col M h hd x
    refine forall_congr' fun t => forall_congr' fun ht => ?_
    rw [sum_range_single (fun i => M t i * x i) ht fun i hi hne => by rw [hd t ht i (by omega), if_neg (Ne.symm hne), zero_mul]]
    rw [hd t ht t (by omega), if_pos rfl, one_mul]
  | succ n ih =>
    intro col M h hd
    rw [vdmLoop]
    cases e : vdmPivot s col M with
    | none =>
      have h0 := vdmPivot_none e
      refine ⟨fun t => if t = col then 1 else if t < col then -M t col else 0, ⟨col, by omega, by simp⟩, fun x hx l hl => ?_⟩
      have : ∑ t ∈ Finset.range s, M l t * (if t = col then 1 else if t < col then -M t col else 0) = 0 := by
        by_cases hlc : l < col
        · have e1 : ∀ t ∈ Finset.range s, M l t * (if t = col then (1 : R) else if t < col then -M t col else 0) = (if t = col then M l col else 0) + if t = l then -M l col else 0 := by
            intro t ht
            have ht := Finset.mem_range.1 ht
            rcases lt_trichotomy t col with h1 | h1 | h1
            · rw [if_neg h1.ne, if_pos h1, if_neg h1.ne, hd l hl t h1, zero_add]
              by_cases h2 : t = l
              · subst h2; simp
              · rw [if_neg (Ne.symm h2), if_neg h2, zero_mul]
            · subst h1; rw [if_pos rfl, if_pos rfl, if_neg (by omega)]; ring
            · rw [if_neg h1.ne', if_neg (by omega), if_neg h1.ne', if_neg (by omega)]; ring
          rw [Finset.sum_congr rfl e1, Finset.sum_add_distrib, Finset.sum_ite_eq', Finset.sum_ite_eq', if_pos (Finset.mem_range.2 (by omega)), if_pos (Finset.mem_range.2 hl)]
          ring
        · refine Finset.sum_eq_zero fun t ht => ?_
          rcases lt_trichotomy t col with h1 | h1 | h1
          · rw [hd l hl t h1, if_neg (by omega), zero_mul]
          · subst h1; rw [h0 l (by omega) hl, zero_mul]
          · rw [if_neg h1.ne', if_neg (by omega), mul_zero]
      simp only [mul_add, Finset.sum_add_distrib]
      rw [this, add_zero]
      exact hx l hl
    | some r =>
      obtain ⟨h1, h2, h3⟩ := vdmPivot_some e
      have hc : col < s := by omega
      have d1 := done_swap hd h1 h2
      have hp : vdmSwap M col r col col ≠ 0 := by simpa [vdmSwap] using h3
      have d2 := done_scale d1
      have hp' : vdmScale col (vdmSwap M col r) col col = 1 := by rw [vdmScale, if_pos ⟨rfl, le_rfl⟩, mul_inv_cancel₀ hp]
      have hs : ∀ x, Sol s (vdmElim col (vdmScale col (vdmSwap M col r))) x ↔ Sol s M x := fun x => (sol_elim d2 hc).trans ((sol_scale d1 hc hp).trans (sol_swap hc h2))
      have := ih (col + 1) _ (by omega) (done_elim d2 hc hp')
      simp only [Option.bind_some]
      cases e' : vdmLoop s n (col + 1) (vdmElim col (vdmScale col (vdmSwap M col r))) with
      | none => rw [e'] at this; simpa only [hs] using this
      | some N => rw [e'] at this; simpa only [hs] using this

/-- the Vandermonde matrix with distinct nodes is injective, with equal nodes it is not -/
theorem vdm_kernel {s : ℕ} {th : ℕ → R} (hinj : ∀ i < s, ∀ j < s, th i = th j → i = j) {y : ℕ → R} (h : ∀ l < s, ∑ t ∈ Finset.range s, th t ^ l * y t = 0) : ∀ t < s, y t = 0 := by
  have hi : Function.Injective fun i : Fin s => th i := fun i j e => Fin.ext (hinj i i.2 j j.2 e)
  have := Matrix.eq_zero_of_forall_pow_sum_mul_pow_eq_zero (f := fun i : Fin s => th i) (v := fun i : Fin s => y i) hi fun l => by
    have := h l l.2
    rw [Finset.sum_range (fun t => th t ^ (l : ℕ) * y t)] at this
    rw [← this]
    exact Finset.sum_congr rfl fun i _ => mul_comm _ _
  intro t ht
  exact congrFun this ⟨t, ht⟩

theorem vdm_solution {s : ℕ} {th : ℕ → R} (hinj : ∀ i < s, ∀ j < s, th i = th j → i = j) (b : ℕ → R) : ∃ x : ℕ → R, ∀ l < s, ∑ t ∈ Finset.range s, th t ^ l * x t = b l := by
  have hi : Function.Injective fun i : Fin s => th i := fun i j e => Fin.ext (hinj i i.2 j j.2 e)
  have hd : (Matrix.vandermonde fun i : Fin s => th i).transpose.det ≠ 0 := by
    rw [Matrix.det_transpose]; exact Matrix.det_vandermonde_ne_zero_iff.2 hi
  have hs := Matrix.mulVec_surjective_iff_isUnit.2 ((Matrix.isUnit_iff_isUnit_det _).2 (isUnit_iff_ne_zero.2 hd))
  obtain ⟨v, hv⟩ := hs fun i => b i
  refine ⟨fun t => if h : t < s then v ⟨t, h⟩ else 0, fun l hl => ?_⟩
  have := congrFun hv ⟨l, hl⟩
  rw [← this, Finset.sum_range (fun t => th t ^ l * _)]
  refine Finset.sum_congr rfl fun i _ => ?_
  rw [dif_pos i.2]
  rfl

theorem mapM_range {α : Type*} (g : ℕ → Option α) : ∀ (s : ℕ), (∃ l : List α, (List.range s).mapM g = some l ∧ l.length = s ∧ ∀ t < s, g t = l[t]?) ∨ ((List.range s).mapM g = none ∧ ∃ t < s, g t = none) := by
  intro s
  induction s with
  | zero => exact Or.inl ⟨[], rfl, rfl, fun t ht => absurd ht (by omega)⟩
  | succ s ih =>
    rw [List.range_succ, List.mapM_append]
    rcases ih with ⟨l, e, h1, h2⟩ | ⟨e, t, h1, h2⟩
    · rw [e]
      cases e' : g s with
      | none => right; exact ⟨by simp [e'], s, by omega, e'⟩
      | some a =>
        left
        refine ⟨l ++ [a], by simp [e'], by simp [h1], fun t ht => ?_⟩
        by_cases h : t = s
        · subst h; rw [e', List.getElem?_append_right (by omega)]; simp [h1]
        · rw [h2 t (by omega), List.getElem?_append_left (by omega)]
    · right; exact ⟨by rw [e]; rfl, t, by omega, h2⟩

/-- the solver: it answers when the nodes are distinct and not zero -/
theorem vandermonde_spec {values thetas : List R} (h0 : values ≠ []) (hl : thetas.length = values.length) :
    (thetas.Nodup ∧ (0 : R) ∉ thetas → ∃ c, vandermonde values thetas = some (some c) ∧ c.length = values.length ∧
      (∀ l < values.length, ∑ t ∈ Finset.range values.length, c.getD t 0 * thetas.getD t 0 ^ (l + 1) = values.getD l 0)) ∧
    (¬ (thetas.Nodup ∧ (0 : R) ∉ thetas) → vandermonde values thetas = some none) := by
  obtain ⟨s, hs⟩ : ∃ s, s = values.length := ⟨_, rfl⟩
  obtain ⟨th, hth⟩ : ∃ th : ℕ → R, th = fun t => thetas.getD t 0 := ⟨_, rfl⟩
  have hmem : ∀ t < s, th t ∈ thetas := fun t ht => by
    rw [hth]; simp only; rw [List.getD_eq_getElem _ _ (by omega)]; exact List.getElem_mem _
  have hinj : thetas.Nodup ↔ ∀ i < s, ∀ j < s, th i = th j → i = j := by
    rw [List.nodup_iff_injective_getElem]
    constructor
    · intro h i hi j hj e
      rw [hth] at e; simp only at e
      rw [List.getD_eq_getElem _ _ (by omega), List.getD_eq_getElem _ _ (by omega)] at e
      have := @h ⟨i, by omega⟩ ⟨j, by omega⟩ e
      simpa using this
    · intro h i j e
      refine Fin.ext (h i (by omega) j (by omega) ?_)
      rw [hth]; simp only
      rw [List.getD_eq_getElem _ _ i.2, List.getD_eq_getElem _ _ j.2]; exact e
  have hM : ∀ x : ℕ → R, Sol s (vdmInit values thetas) x ↔ ∀ l < s, ∑ t ∈ Finset.range s, th t ^ l * x t = values.getD l 0 := by
    intro x
    refine forall_congr' fun l => forall_congr' fun hl => ?_
    have e1 : vdmInit values thetas l s = values.getD l 0 := by rw [vdmInit, if_neg (by omega)]
    have e2 : ∑ t ∈ Finset.range s, vdmInit values thetas l t * x t = ∑ t ∈ Finset.range s, th t ^ l * x t :=
      Finset.sum_congr rfl fun t ht => by rw [vdmInit, if_pos (by have := Finset.mem_range.1 ht; omega), hth]
    rw [e1, e2]
  have key := vdmLoop_spec (s := s) s 0 (vdmInit values thetas) (by omega) (fun r _ c hc => absurd hc (by omega))
  have hv : vandermonde values thetas = some ((vdmLoop s s 0 (vdmInit values thetas)).bind fun M =>
      (List.range s).mapM fun t => if th t = 0 then none else some (M t s * (th t)⁻¹)) := by
    rw [vandermonde, if_neg (by rintro (h | h); exacts [h0 h, h hl]), hth, hs]
  rw [← hs]
  constructor
  · rintro ⟨hn, hz⟩
    have hi := hinj.1 hn
    obtain ⟨x, hx⟩ := vdm_solution hi fun l => values.getD l 0
    have hx' := (hM x).2 hx
    cases e : vdmLoop s s 0 (vdmInit values thetas) with
    | none =>
      rw [e] at key
      obtain ⟨y, ⟨t, ht, hy⟩, h⟩ := key
      have h2 := (hM _).1 (h x hx')
      refine absurd (vdm_kernel hi (y := y) (fun l hl => ?_) t ht) hy
      have := h2 l hl
      simp only [mul_add, Finset.sum_add_distrib] at this
      rw [hx l hl] at this
      exact left_eq_add.1 this.symm
    | some N =>
      rw [e] at key
      have hN := (hM _).1 ((key fun t => N t s).2 fun t _ => rfl)
      rw [hv, e]
      rcases mapM_range (fun t => if th t = 0 then none else some (N t s * (th t)⁻¹)) s with ⟨c, h1, h2, h3⟩ | ⟨_, t, ht, h3⟩
      · refine ⟨c, by rw [Option.bind_some, h1], h2, fun l hl => ?_⟩
        rw [← hN l hl]
        refine Finset.sum_congr rfl fun t ht => ?_
        have ht := Finset.mem_range.1 ht
        have h4 := h3 t ht
        have h5 : th t ≠ 0 := fun h => hz (h ▸ hmem t ht)
        rw [if_neg h5] at h4
        rw [List.getD_eq_getElem?_getD, ← h4, Option.getD_some, show thetas.getD t 0 = th t by rw [hth], pow_succ]
        field_simp
      · have h5 : th t ≠ 0 := fun h => hz (h ▸ hmem t ht)
        rw [if_neg h5] at h3
        exact absurd h3 (Option.some_ne_none _)
  · intro h
    rw [hv]
    cases e : vdmLoop s s 0 (vdmInit values thetas) with
    | none => rfl
    | some N =>
      rw [e] at key
      have hn : thetas.Nodup := by
        by_contra hn
        rw [hinj] at hn
        push Not at hn
        obtain ⟨i, hi, j, hj, e1, e2⟩ := hn
        have hN := (key fun t => N t s).2 fun t _ => rfl
        have : Sol s (vdmInit values thetas) fun t => N t s + ((if t = i then 1 else 0) - if t = j then 1 else 0) := by
          rw [hM] at hN ⊢
          intro l hl
          simp only [mul_add, mul_sub, Finset.sum_add_distrib, Finset.sum_sub_distrib, mul_ite, mul_one, mul_zero, Finset.sum_ite_eq', Finset.mem_range, hi, hj, if_true]
          rw [hN l hl, e1]; ring
        have := (key _).1 this i hi
        rw [if_pos rfl, if_neg e2] at this
        simp at this
      have hz : (0 : R) ∈ thetas := by
        by_contra hz; exact h ⟨hn, hz⟩
      obtain ⟨t, ht, e1⟩ := List.getElem_of_mem hz
      rcases mapM_range (fun t => if th t = 0 then none else some (N t s * (th t)⁻¹)) s with ⟨c, h1, h2, h3⟩ | ⟨h1, _⟩
      · have h4 := h3 t (by omega)
        have h5 : th t = 0 := by rw [hth]; simp only; rw [List.getD_eq_getElem _ _ ht, e1]
        rw [if_pos h5, List.getElem?_eq_getElem (by omega)] at h4
        exact absurd h4.symm (Option.some_ne_none _)
      · rw [Option.bind_some, h1]

/-- and the answer is the only one -/
theorem vandermonde_unique {s : ℕ} {th x y : ℕ → R} (hinj : ∀ i < s, ∀ j < s, th i = th j → i = j) (hz : ∀ i < s, th i ≠ 0) (h : ∀ l < s, ∑ t ∈ Finset.range s, x t * th t ^ (l + 1) = ∑ t ∈ Finset.range s, y t * th t ^ (l + 1)) : ∀ t < s, x t = y t := by
  intro t ht
  have := vdm_kernel hinj (y := fun t => (x t - y t) * th t) (fun l hl => by
    have e : ∀ t, th t ^ l * ((x t - y t) * th t) = x t * th t ^ (l + 1) - y t * th t ^ (l + 1) := fun t => by ring
    simp only [e, Finset.sum_sub_distrib]
    rw [h l hl, sub_self]) t ht
  rcases mul_eq_zero.1 this with h1 | h1
  · exact sub_eq_zero.1 h1
  · exact absurd h1 (hz t ht)

end Lift
end CLPoly
