import Verif.Upoly.LLLDefs
import Mathlib.LinearAlgebra.Matrix.Determinant.Basic
import Mathlib.Tactic.Linarith
import Mathlib.Tactic.Ring
import Mathlib.Tactic.FieldSimp
import Mathlib.Tactic.LinearCombination
import Mathlib.Algebra.Order.Ring.Rat
import Mathlib.Algebra.Order.BigOperators.Ring.Finset

/-! # `__lll_reduce`: the numbers `mu` and `B_gs` are the Gram–Schmidt data of the rows at all times -/

namespace CLPoly
namespace Upoly
open Finset

/-- the inner product of the first `n` coordinates -/
def ip (n : ℕ) (a b : ℕ → ℚ) : ℚ := ∑ c ∈ range n, a c * b c

theorem ip_comm (n : ℕ) (a b : ℕ → ℚ) : ip n a b = ip n b a := sum_congr rfl fun _ _ => mul_comm _ _

theorem ip_add (n : ℕ) (a b c : ℕ → ℚ) : ip n (fun i => a i + b i) c = ip n a c + ip n b c := by
  unfold ip; rw [← sum_add_distrib]; exact sum_congr rfl fun _ _ => by ring

theorem ip_sub (n : ℕ) (a b c : ℕ → ℚ) : ip n (fun i => a i - b i) c = ip n a c - ip n b c := by
  unfold ip; rw [← sum_sub_distrib]; exact sum_congr rfl fun _ _ => by ring

theorem ip_smul (n : ℕ) (x : ℚ) (a c : ℕ → ℚ) : ip n (fun i => x * a i) c = x * ip n a c := by
  unfold ip; rw [mul_sum]; exact sum_congr rfl fun _ _ => by ring

theorem ip_sum (n m : ℕ) (x : ℕ → ℚ) (a : ℕ → ℕ → ℚ) (c : ℕ → ℚ) : ip n (fun i => ∑ j ∈ range m, x j * a j i) c = ∑ j ∈ range m, x j * ip n (a j) c := by
  unfold ip
  simp only [sum_mul, mul_sum]
  rw [sum_comm]
  exact sum_congr rfl fun _ _ => sum_congr rfl fun _ _ => by ring

theorem ip_congr {n : ℕ} {a a' b b' : ℕ → ℚ} (h : ∀ c < n, a c = a' c) (h' : ∀ c < n, b c = b' c) : ip n a b = ip n a' b' :=
  sum_congr rfl fun c hc => by rw [h c (mem_range.1 hc), h' c (mem_range.1 hc)]

theorem ip_self_nonneg (n : ℕ) (a : ℕ → ℚ) : 0 ≤ ip n a a := sum_nonneg fun _ _ => mul_self_nonneg _

theorem ip_self_zero {n : ℕ} {a : ℕ → ℚ} (h : ip n a a = 0) : ∀ c < n, a c = 0 := fun c hc => by
  have := (sum_eq_zero_iff_of_nonneg (fun i _ => mul_self_nonneg (a i))).1 h c (mem_range.2 hc)
  exact mul_self_eq_zero.1 this

theorem ip_zero_right {n : ℕ} {a b : ℕ → ℚ} (h : ∀ c < n, b c = 0) : ip n a b = 0 := sum_eq_zero fun c hc => by rw [h c (mem_range.1 hc), mul_zero]

theorem ip_cast (n : ℕ) (a b : ℕ → ℤ) : ip n (fun c => (a c : ℚ)) (fun c => (b c : ℚ)) = (dotZ n a b : ℤ) := by
  unfold ip dotZ; push_cast; rfl

/-- `bs` is the Gram–Schmidt orthogonalization of the rows of `M`, with coefficients `mu` and squared norms `B` -/
structure GS (n : ℕ) (M : Mat) (mu : ℕ → ℕ → ℚ) (B : ℕ → ℚ) (bs : ℕ → ℕ → ℚ) : Prop where
  row : ∀ i < n, ∀ c < n, (M i c : ℚ) = bs i c + ∑ j ∈ range i, mu i j * bs j c
  orth : ∀ i < n, ∀ j < i, ip n (bs i) (bs j) = 0
  norm : ∀ i < n, B i = ip n (bs i) (bs i)

/-! ## the initial data -/

/-- the equations that the initialization solves for row `i` -/
structure GsEq (n : ℕ) (M : Mat) (mu : ℕ → ℕ → ℚ) (B : ℕ → ℚ) (i : ℕ) : Prop where
  co : ∀ j < i, mu i j = if B j = 0 then 0 else ((dotZ n (M i) (M j) : ℤ) - ∑ l ∈ range j, mu i l * mu j l * B l) / B j
  nr : B i = (dotZ n (M i) (M i) : ℤ) - ∑ j ∈ range i, mu i j * mu i j * B j

theorem gsCoef_fold (n : ℕ) (M : Mat) (B : ℕ → ℚ) (i : ℕ) (mu : ℕ → ℕ → ℚ) : ∀ t ≤ i, ∃ mu', (List.range t).foldl (gsCoef n M B i) mu = mu' ∧ (∀ a, a ≠ i → mu' a = mu a) ∧
    ∀ j < t, mu' i j = if B j = 0 then 0 else ((dotZ n (M i) (M j) : ℤ) - ∑ l ∈ range j, mu' i l * mu' j l * B l) / B j
  | 0, _ => ⟨mu, rfl, fun _ _ => rfl, by simp⟩
  | t + 1, ht => by
    obtain ⟨mu', h1, h2, h3⟩ := gsCoef_fold n M B i mu t (by omega)
    rw [List.range_succ, List.foldl_append, h1]
    refine ⟨_, rfl, fun a ha => ?_, fun j hj => ?_⟩
    · funext b
      show (if a = i ∧ b = t then _ else mu' a b) = _
      rw [if_neg (fun h => ha h.1), h2 a ha]
    · have hrow : ∀ l < t, gsCoef n M B i mu' t i l = mu' i l := fun l hl => if_neg fun h => by omega
      have hrow' : ∀ j l, j < i → gsCoef n M B i mu' t j l = mu' j l := fun j l hl => if_neg fun h => by omega
      show gsCoef n M B i mu' t i j = _
      rw [show (List.foldl (gsCoef n M B i) mu' [t]) = gsCoef n M B i mu' t from rfl]
      have hs : ∑ l ∈ range j, gsCoef n M B i mu' t i l * gsCoef n M B i mu' t j l * B l = ∑ l ∈ range j, mu' i l * mu' j l * B l :=
        sum_congr rfl fun l hl => by
          have := mem_range.1 hl
          rw [hrow l (by omega), hrow' j l (by omega)]
      rw [hs]
      by_cases hjt : j = t
      · subst hjt
        show (if i = i ∧ j = j then _ else _) = _
        rw [if_pos ⟨rfl, rfl⟩]
      · rw [hrow j (by omega)]
        exact h3 j (by omega)

theorem gsInit_eq (n : ℕ) (M : Mat) : ∀ t, ∀ i < t, GsEq n M ((List.range t).foldl (gsRow n M) (fun _ _ => 0, fun _ => 0)).1 ((List.range t).foldl (gsRow n M) (fun _ _ => 0, fun _ => 0)).2 i := by
  intro t
  induction t with
  | zero => intro i hi; omega
  | succ t ih =>
    obtain ⟨s, hs⟩ : ∃ s, s = (List.range t).foldl (gsRow n M) (fun _ _ => 0, fun _ => 0) := ⟨_, rfl⟩
    rw [List.range_succ, List.foldl_append, ← hs]
    rw [← hs] at ih
    rw [show List.foldl (gsRow n M) s [t] = gsRow n M s t from rfl]
    obtain ⟨mu', h1, h2, h3⟩ := gsCoef_fold n M s.2 t s.1 t le_rfl
    have e1 : (gsRow n M s t).1 = mu' := h1
    have e2 : (gsRow n M s t).2 = set1 s.2 t ((dotZ n (M t) (M t) : ℤ) - ∑ j ∈ range t, mu' t j * mu' t j * s.2 j) := by
      show set1 s.2 t ((dotZ n (M t) (M t) : ℤ) - ∑ j ∈ range t, ((List.range t).foldl (gsCoef n M s.2 t) s.1) t j * ((List.range t).foldl (gsCoef n M s.2 t) s.1) t j * s.2 j) = _
      rw [h1]
    rw [e1, e2]
    have hB : ∀ j < t, set1 s.2 t ((dotZ n (M t) (M t) : ℤ) - ∑ j ∈ range t, mu' t j * mu' t j * s.2 j) j = s.2 j := fun j hj => if_neg (by omega)
    intro i hi
    by_cases hit : i = t
    · subst hit
      refine ⟨fun j hj => ?_, ?_⟩
      · rw [h3 j hj, hB j hj]
        congr 3
        exact sum_congr rfl fun l hl => by rw [hB l (by have := mem_range.1 hl; omega)]
      · rw [show set1 s.2 i ((dotZ n (M i) (M i) : ℤ) - ∑ j ∈ range i, mu' i j * mu' i j * s.2 j) i = _ from if_pos rfl]
        congr 1
        exact sum_congr rfl fun l hl => by rw [hB l (mem_range.1 hl)]
    · obtain ⟨c, d⟩ := ih i (by omega)
      refine ⟨fun j hj => ?_, ?_⟩
      · rw [h2 i hit, c j hj, hB j (by omega), h2 j (by omega)]
        congr 3
        exact sum_congr rfl fun l hl => by rw [hB l (by have := mem_range.1 hl; omega)]
      · rw [hB i (by omega), d, h2 i hit]
        congr 1
        exact sum_congr rfl fun l hl => by rw [hB l (by have := mem_range.1 hl; omega)]

/-- the orthogonalized rows -/
def gsVec (M : Mat) (mu : ℕ → ℕ → ℚ) (i : ℕ) : ℕ → ℚ := fun c => M i c - ∑ j : Fin i, mu i j * gsVec M mu j c
termination_by i
decreasing_by exact j.2

theorem gsVec_eq (M : Mat) (mu : ℕ → ℕ → ℚ) (i c : ℕ) : gsVec M mu i c = M i c - ∑ j ∈ range i, mu i j * gsVec M mu j c := by
  rw [gsVec]
  congr 1
  exact Fin.sum_univ_eq_sum_range (fun j => mu i j * gsVec M mu j c) i

theorem gs_of_eq {n : ℕ} {M : Mat} {mu : ℕ → ℕ → ℚ} {B : ℕ → ℚ} (h : ∀ i < n, GsEq n M mu B i) : GS n M mu B (gsVec M mu) := by
  have key : ∀ i < n, (∀ j < i, ip n (gsVec M mu i) (gsVec M mu j) = 0) ∧ B i = ip n (gsVec M mu i) (gsVec M mu i) := by
    intro i
    induction i using Nat.strong_induction_on with
    | _ i ih =>
      intro hi
      have left : ∀ w, ip n (gsVec M mu i) w = ip n (fun c => (M i c : ℚ)) w - ∑ l ∈ range i, mu i l * ip n (gsVec M mu l) w := fun w => by
        rw [← ip_sum, ← ip_sub]
        exact ip_congr (fun c _ => gsVec_eq M mu i c) fun _ _ => rfl
      have right : ∀ j, ip n (fun c => (M i c : ℚ)) (gsVec M mu j) = (dotZ n (M i) (M j) : ℤ) - ∑ l ∈ range j, mu j l * ip n (fun c => (M i c : ℚ)) (gsVec M mu l) := fun j => by
        rw [ip_comm, ← ip_cast, ip_comm n (fun c => (M i c : ℚ)) (fun c => (M j c : ℚ))]
        simp only [ip_comm n (fun c => (M i c : ℚ)) (gsVec M mu _)]
        rw [← ip_sum, ← ip_sub]
        exact ip_congr (fun c _ => gsVec_eq M mu j c) fun _ _ => rfl
      have h1 : ∀ j < i, ip n (fun c => (M i c : ℚ)) (gsVec M mu j) = mu i j * B j := by
        intro j
        induction j using Nat.strong_induction_on with
        | _ j ihj =>
          intro hj
          have hc := (h i hi).co j hj
          by_cases hB : B j = 0
          · rw [hB, mul_zero]
            have := (ih j hj (by omega)).2
            rw [hB] at this
            exact ip_zero_right (ip_self_zero this.symm)
          · rw [if_neg hB] at hc
            rw [hc, div_mul_cancel₀ _ hB, right j]
            congr 1
            refine sum_congr rfl fun l hl => ?_
            have := mem_range.1 hl
            rw [ihj l this (by omega)]
            ring
      have h2 : ∀ j < i, ip n (gsVec M mu i) (gsVec M mu j) = 0 := fun j hj => by
        rw [left, h1 j hj, sum_eq_single_of_mem j (mem_range.2 hj) fun l hl hlj => ?_, ← (ih j hj (by omega)).2, sub_self]
        have := mem_range.1 hl
        rcases lt_or_gt_of_ne hlj with h' | h'
        · rw [ip_comm, (ih j hj (by omega)).1 l h', mul_zero]
        · rw [(ih l (by omega) (by omega)).1 j h', mul_zero]
      refine ⟨h2, ?_⟩
      rw [left, sum_eq_zero fun l hl => ?_, sub_zero, right, (h i hi).nr]
      · congr 1
        refine sum_congr rfl fun l hl => ?_
        rw [h1 l (mem_range.1 hl)]
        ring
      · rw [ip_comm, h2 l (mem_range.1 hl), mul_zero]
  exact ⟨fun i _ c _ => by rw [gsVec_eq]; ring, fun i hi => (key i hi).1, fun i hi => (key i hi).2⟩

theorem gsInit_gs (n : ℕ) (M : Mat) : GS n M (gsInit n M).1 (gsInit n M).2 (gsVec M (gsInit n M).1) := gs_of_eq (gsInit_eq n M n)

/-! ## uniqueness -/

theorem GS.unique {n : ℕ} {M : Mat} {mu mu' : ℕ → ℕ → ℚ} {B B' : ℕ → ℚ} {bs bs' : ℕ → ℕ → ℚ} (h : GS n M mu B bs) (h' : GS n M mu' B' bs') : ∀ i < n, (∀ c < n, bs i c = bs' i c) ∧ B i = B' i := by
  intro i
  induction i using Nat.strong_induction_on with
  | _ i ih =>
    intro hi
    have hd : ∀ c < n, bs i c - bs' i c = ∑ j ∈ range i, (mu' i j - mu i j) * bs j c := fun c hc => by
      have e1 := h.row i hi c hc
      have e2 := h'.row i hi c hc
      have e3 : ∑ j ∈ range i, mu' i j * bs' j c = ∑ j ∈ range i, mu' i j * bs j c := sum_congr rfl fun j hj => by rw [(ih j (mem_range.1 hj) (by have := mem_range.1 hj; omega)).1 c hc]
      rw [e3] at e2
      simp only [sub_mul, sum_sub_distrib]
      linarith
    have hz : ip n (fun c => bs i c - bs' i c) (fun c => bs i c - bs' i c) = 0 := by
      rw [ip_congr hd (fun c _ => rfl), ip_sum]
      refine sum_eq_zero fun j hj => ?_
      have hj' := mem_range.1 hj
      rw [ip_comm, ip_sub, h.orth i hi j hj', ip_congr (fun _ _ => rfl) (fun c hc => (ih j hj' (by omega)).1 c hc), h'.orth i hi j hj', sub_zero, mul_zero]
    have he : ∀ c < n, bs i c = bs' i c := fun c hc => by have := ip_self_zero hz c hc; linarith
    exact ⟨he, by rw [h.norm i hi, h'.norm i hi]; exact ip_congr he he⟩

/-! ## the steps -/

theorem sum_upto {k j : ℕ} (hj : j < k) (f : ℕ → ℚ) (g : ℚ) : ∑ l ∈ range k, (if l < j then f l else if l = j then g else 0) = ∑ l ∈ range j, f l + g := by
  rw [← sum_subset (s₁ := range (j + 1)) (range_subset_range.2 (by omega))]
  · rw [sum_range_succ, if_neg (lt_irrefl _), if_pos rfl]
    congr 1
    exact sum_congr rfl fun l hl => if_pos (mem_range.1 hl)
  · intro l _ hl
    have : ¬ l < j + 1 := fun h => hl (mem_range.2 h)
    rw [if_neg (by omega), if_neg (by omega)]

theorem sum_two {a κ : ℕ} (h : κ + 1 < a) {F G : ℕ → ℚ} (he : ∀ l, l ≠ κ → l ≠ κ + 1 → F l = G l) (h2 : F κ + F (κ + 1) = G κ + G (κ + 1)) : ∑ l ∈ range a, F l = ∑ l ∈ range a, G l := by
  rw [← sub_eq_zero, ← sum_sub_distrib, ← sum_subset (s₁ := {κ, κ + 1})]
  · rw [sum_pair (by omega)]; linarith
  · intro l hl
    simp only [mem_insert, mem_singleton] at hl
    exact mem_range.2 (by omega)
  · intro l _ hl
    simp only [mem_insert, mem_singleton, not_or] at hl
    rw [he l hl.1 hl.2, sub_self]

theorem GS.sizeRed {n k j : ℕ} (hk : k < n) (hj : j < k) {s : LSt} {bs : ℕ → ℕ → ℚ} (h : GS n s.M s.mu s.B bs) : GS n (sizeRed k j s).M (sizeRed k j s).mu (sizeRed k j s).B bs := by
  unfold Upoly.sizeRed
  simp only
  split
  · exact h
  obtain ⟨q, hq⟩ : ∃ q, q = roundQ (s.mu k j) := ⟨_, rfl⟩
  rw [← hq]
  refine ⟨fun i hi c hc => ?_, h.orth, h.norm⟩
  dsimp only
  by_cases hik : i = k
  · subst hik
    rw [if_pos rfl]
    push_cast
    rw [h.row i hi c hc, h.row j (by omega) c hc]
    have e : ∑ l ∈ range i, (if i = i then if l < j then s.mu i l - (q : ℚ) * s.mu j l else if l = j then s.mu i j - (q : ℚ) else s.mu i l else s.mu i l) * bs l c
        = ∑ l ∈ range i, s.mu i l * bs l c - ∑ l ∈ range i, (if l < j then (q : ℚ) * (s.mu j l * bs l c) else if l = j then (q : ℚ) * bs j c else 0) := by
      rw [← sum_sub_distrib]
      refine sum_congr rfl fun l _ => ?_
      rw [if_pos rfl]
      split
      · ring
      · split
        · next h' => subst h'; ring
        · ring
    rw [e, sum_upto hj, ← mul_sum]
    ring
  · rw [if_neg hik, h.row i hi c hc]
    congr 1
    exact sum_congr rfl fun l _ => by rw [if_neg hik]

theorem GS.swapStep {n κ : ℕ} (hk : κ + 1 < n) {s : LSt} {bs : ℕ → ℕ → ℚ} (h : GS n s.M s.mu s.B bs) (hB : s.B (κ + 1) + s.mu (κ + 1) κ * s.mu (κ + 1) κ * s.B κ ≠ 0) :
    ∃ bs', GS n (swapStep n (κ + 1) s).M (swapStep n (κ + 1) s).mu (swapStep n (κ + 1) s).B bs' := by
  obtain ⟨mo, hmo⟩ : ∃ mo, mo = s.mu (κ + 1) κ := ⟨_, rfl⟩
  obtain ⟨Bn, hBn⟩ : ∃ Bn, Bn = s.B (κ + 1) + mo * mo * s.B κ := ⟨_, rfl⟩
  rw [← hmo, ← hBn] at hB
  obtain ⟨mn, hmn⟩ : ∃ mn, mn = mo * s.B κ / Bn := ⟨_, rfl⟩
  have hmnB : mn * Bn = mo * s.B κ := by rw [hmn, div_mul_cancel₀ _ hB]
  obtain ⟨w, hw⟩ : ∃ w : ℕ → ℚ, w = fun c => bs (κ + 1) c + mo * bs κ c := ⟨_, rfl⟩
  obtain ⟨u, hu⟩ : ∃ u : ℕ → ℚ, u = fun c => bs κ c - mn * w c := ⟨_, rfl⟩
  have eM : (Upoly.swapStep n (κ + 1) s).M = swapRows s.M (κ + 1) κ := rfl
  have eB : (Upoly.swapStep n (κ + 1) s).B = set1 (set1 s.B (κ + 1) (s.B (κ + 1) * s.B κ / Bn)) κ Bn := by
    show (if s.B (κ + 1) + s.mu (κ + 1) κ * s.mu (κ + 1) κ * s.B κ ≠ 0 then _ else _) = _
    rw [← hmo, ← hBn, if_pos hB]
    show set1 (set1 s.B (κ + 1) (s.B (κ + 1) * s.B κ / (s.B (κ + 1) + s.mu (κ + 1) κ * s.mu (κ + 1) κ * s.B κ))) κ (s.B (κ + 1) + s.mu (κ + 1) κ * s.mu (κ + 1) κ * s.B κ) = _
    rw [← hmo, ← hBn]
  have emu : ∀ a b, (Upoly.swapStep n (κ + 1) s).mu a b = if κ + 1 < a ∧ a < n then
        if b = κ + 1 then s.mu a κ - mo * s.mu a (κ + 1)
        else if b = κ then s.mu a (κ + 1) + mn * (s.mu a κ - mo * s.mu a (κ + 1))
        else s.mu a b
      else set2 (swapRows s.mu (κ + 1) κ) (κ + 1) κ mn a b := by
    intro a b
    have e0 : (if s.B (κ + 1) + s.mu (κ + 1) κ * s.mu (κ + 1) κ * s.B κ ≠ 0 then s.mu (κ + 1) κ * s.B κ / (s.B (κ + 1) + s.mu (κ + 1) κ * s.mu (κ + 1) κ * s.B κ) else 0) = mn := by
      rw [← hmo, ← hBn, if_pos hB, hmn]
    unfold Upoly.swapStep
    simp only [Nat.add_sub_cancel, e0]
    rw [← hmo]
    by_cases ha : κ + 1 < a ∧ a < n
    · rw [if_pos ha, if_pos ha]
      have e1 : ∀ b, set2 (swapRows s.mu (κ + 1) κ) (κ + 1) κ mn a b = s.mu a b := fun b => by
        unfold set2 swapRows
        rw [if_neg (by omega), if_neg (by omega), if_neg (by omega)]
      simp only [e1]
    · rw [if_neg ha, if_neg ha]
  have iww : ip n w w = Bn := by
    have e1 : ip n w (bs κ) = mo * s.B κ := by
      rw [hw, ip_add, ip_smul, h.orth (κ + 1) hk κ (by omega), ← h.norm κ (by omega), zero_add]
    have e2 : ip n w (bs (κ + 1)) = s.B (κ + 1) := by
      rw [hw, ip_add, ip_smul, ip_comm n (bs κ), h.orth (κ + 1) hk κ (by omega), ← h.norm (κ + 1) hk, mul_zero, add_zero]
    calc ip n w w = ip n (fun c => bs (κ + 1) c + mo * bs κ c) w := by rw [hw]
      _ = Bn := by
        rw [ip_add, ip_smul, ip_comm n _ w, ip_comm n _ w, e1, e2, hBn]
        ring
  have iwκ : ip n w (bs κ) = mo * s.B κ := by
    rw [hw, ip_add, ip_smul, h.orth (κ + 1) hk κ (by omega), ← h.norm κ (by omega), zero_add]
  have iuw : ip n u w = 0 := by
    rw [hu, ip_sub, ip_smul, iww, ip_comm, iwκ, hmnB, sub_self]
  have iuu : ip n u u = s.B (κ + 1) * s.B κ / Bn := by
    have : ip n u (bs κ) = s.B κ - mn * (mo * s.B κ) := by rw [hu, ip_sub, ip_smul, iwκ, ← h.norm κ (by omega)]
    calc ip n u u = ip n (fun c => bs κ c - mn * w c) u := by rw [hu]
      _ = s.B κ - mn * (mo * s.B κ) := by rw [ip_sub, ip_smul, ip_comm n w u, iuw, ip_comm, this, mul_zero, sub_zero]
      _ = _ := by
        rw [eq_div_iff hB, sub_mul]
        have : mn * (mo * s.B κ) * Bn = mo * s.B κ * (mn * Bn) := by ring
        rw [this, hmnB, hBn]
        ring
  have owk : ∀ x, ip n (bs κ) x = 0 → ip n (bs (κ + 1)) x = 0 → ip n w x = 0 ∧ ip n u x = 0 := fun x h1 h2 => by
    have : ip n w x = 0 := by rw [hw, ip_add, ip_smul, h1, h2, mul_zero, add_zero]
    exact ⟨this, by rw [hu, ip_sub, ip_smul, h1, this, mul_zero, sub_zero]⟩
  obtain ⟨bs', hbs⟩ : ∃ bs' : ℕ → ℕ → ℚ, bs' = fun i => if i = κ then w else if i = κ + 1 then u else bs i := ⟨_, rfl⟩
  have bκ : bs' κ = w := by rw [hbs]; exact if_pos rfl
  have bk : bs' (κ + 1) = u := by rw [hbs]; dsimp only; rw [if_neg (by omega), if_pos rfl]
  have bo : ∀ i, i ≠ κ → i ≠ κ + 1 → bs' i = bs i := fun i h1 h2 => by rw [hbs]; dsimp only; rw [if_neg h1, if_neg h2]
  refine ⟨bs', fun i hi c hc => ?_, fun i hi j hj => ?_, fun i hi => ?_⟩
  · rw [eM]
    by_cases h1 : i = κ
    · subst h1
      have e1 : swapRows s.M (i + 1) i i = s.M (i + 1) := by unfold swapRows; rw [if_neg (by omega), if_pos rfl]
      rw [e1, h.row (i + 1) hk c hc, bκ, hw, sum_range_succ, ← hmo]
      have : ∑ j ∈ range i, (Upoly.swapStep n (i + 1) s).mu i j * bs' j c = ∑ j ∈ range i, s.mu (i + 1) j * bs j c := sum_congr rfl fun j hj => by
        have := mem_range.1 hj
        rw [emu, if_neg (by omega), bo j (by omega) (by omega)]
        unfold set2 swapRows
        rw [if_neg (by omega), if_neg (by omega), if_pos rfl]
      rw [this]
      ring
    by_cases h2 : i = κ + 1
    · subst h2
      have e1 : swapRows s.M (κ + 1) κ (κ + 1) = s.M κ := by unfold swapRows; rw [if_pos rfl]
      rw [e1, h.row κ (by omega) c hc, bk, hu, sum_range_succ, bκ]
      have : ∑ j ∈ range κ, (Upoly.swapStep n (κ + 1) s).mu (κ + 1) j * bs' j c = ∑ j ∈ range κ, s.mu κ j * bs j c := sum_congr rfl fun j hj => by
        have := mem_range.1 hj
        rw [emu, if_neg (by omega), bo j (by omega) (by omega)]
        unfold set2 swapRows
        rw [if_neg (by omega), if_pos rfl]
      rw [this, emu, if_neg (by omega)]
      have e3 : set2 (swapRows s.mu (κ + 1) κ) (κ + 1) κ mn (κ + 1) κ = mn := if_pos ⟨rfl, rfl⟩
      rw [e3]
      ring
    have e1 : swapRows s.M (κ + 1) κ i = s.M i := by unfold swapRows; rw [if_neg h2, if_neg h1]
    rw [e1, bo i h1 h2, h.row i hi c hc]
    congr 1
    by_cases h3 : i < κ
    · refine sum_congr rfl fun j hj => ?_
      have := mem_range.1 hj
      rw [emu, if_neg (by omega), bo j (by omega) (by omega)]
      unfold set2 swapRows
      rw [if_neg (by omega), if_neg (by omega), if_neg (by omega)]
    · refine sum_two (κ := κ) (by omega) (fun l l1 l2 => ?_) ?_
      · rw [emu, if_pos ⟨by omega, hi⟩, if_neg l2, if_neg l1, bo l l1 l2]
      · rw [emu, emu, if_pos ⟨by omega, hi⟩, if_neg (by omega), if_pos rfl, if_pos ⟨by omega, hi⟩, if_pos rfl, bκ, bk, hu, hw]
        ring
  · by_cases h1 : i = κ
    · subst h1
      rw [bκ, bo j (by omega) (by omega)]
      exact (owk _ (h.orth i hi j hj) (h.orth (i + 1) hk j (by omega))).1
    by_cases h2 : i = κ + 1
    · subst h2
      rw [bk]
      by_cases h3 : j = κ
      · rw [h3, bκ, iuw]
      · rw [bo j h3 (by omega)]
        exact (owk _ (h.orth κ (by omega) j (by omega)) (h.orth (κ + 1) hk j (by omega))).2
    rw [bo i h1 h2]
    by_cases h3 : i < κ
    · rw [bo j (by omega) (by omega)]; exact h.orth i hi j hj
    · have o1 : ip n (bs κ) (bs i) = 0 := by rw [ip_comm]; exact h.orth i hi κ (by omega)
      have o2 : ip n (bs (κ + 1)) (bs i) = 0 := by rw [ip_comm]; exact h.orth i hi (κ + 1) (by omega)
      by_cases h4 : j = κ
      · rw [h4, bκ, ip_comm]; exact (owk _ o1 o2).1
      by_cases h5 : j = κ + 1
      · rw [h5, bk, ip_comm]; exact (owk _ o1 o2).2
      rw [bo j h4 h5]; exact h.orth i hi j hj
  · rw [eB]
    unfold set1
    by_cases h1 : i = κ
    · rw [if_pos h1, h1, bκ, iww]
    · rw [if_neg h1]
      by_cases h2 : i = κ + 1
      · rw [if_pos h2, h2, bk, iuu]
      · rw [if_neg h2, bo i h1 h2]; exact h.norm i hi

end Upoly
end CLPoly
