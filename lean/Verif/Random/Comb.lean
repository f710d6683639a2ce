import Verif.Random.Defs
import Verif.PairVec.Basic
import Mathlib.Data.Nat.Choose.Bounds
import Mathlib.Tactic.Linarith
import Mathlib.Tactic.Ring

namespace CLPoly.Random

theorem w64_of_lt {a : ℕ} (h : a < 2 ^ 64) : w64 a = a := Nat.mod_eq_of_lt h

theorem choose_mono_half {n i k : ℕ} (hik : i ≤ k) (hk : 2 * k ≤ n) : n.choose i ≤ n.choose k := by
  induction k with
  | zero => rw [Nat.le_zero.1 hik]
  | succ k ih =>
    rcases Nat.lt_or_eq_of_le hik with h | rfl
    · exact (ih (by omega) (by omega)).trans (Nat.choose_le_succ_of_lt_half_left (by omega))
    · exact le_rfl

theorem binFold {n k : ℕ} (hk : 2 * k ≤ n) (hfit : n * n.choose k < 2 ^ 64) : ∀ i, i ≤ k →
    (List.range i).foldl (fun r i => w64 (r * (n - i)) / (i + 1)) 1 = n.choose i := by
  intro i
  induction i with
  | zero => intro _; simp
  | succ i ih =>
    intro hi
    rw [List.range_succ, List.foldl_append, ih (by omega), List.foldl_cons, List.foldl_nil]
    have h1 : n.choose i * (n - i) < 2 ^ 64 := by
      refine lt_of_le_of_lt ?_ hfit
      calc n.choose i * (n - i) ≤ n.choose k * n := Nat.mul_le_mul (choose_mono_half (by omega) hk) (Nat.sub_le _ _)
        _ = _ := Nat.mul_comm _ _
    rw [w64_of_lt h1, ← Nat.choose_succ_right_eq, Nat.mul_div_cancel _ (Nat.succ_pos i)]

/-- `binomial` is exact when the products stay below 2^64 -/
theorem binomial_eq {n k : ℕ} (hfit : n * n.choose k < 2 ^ 64) : binomial n k = n.choose k := by
  unfold binomial
  split
  · rename_i h; exact (Nat.choose_eq_zero_of_lt h).symm
  rename_i h
  split
  · rename_i h1
    rcases h1 with rfl | rfl <;> simp
  dsimp only
  split
  · rename_i h2
    rw [← Nat.choose_symm (by omega : k ≤ n)] at hfit ⊢
    exact binFold (by omega) hfit _ le_rfl
  · exact binFold (by omega) hfit _ le_rfl

theorem choose_mono2 {a b a' b' : ℕ} (ha : a' ≤ a) (hb : b' ≤ b) : (a' + b').choose b' ≤ (a + b).choose b := by
  calc (a' + b').choose b' ≤ (a + b').choose b' := Nat.choose_le_choose _ (by omega)
    _ = (a + b').choose a := by rw [← Nat.choose_symm_add]
    _ ≤ (a + b).choose a := Nat.choose_le_choose _ (by omega)
    _ = (a + b).choose b := by rw [← Nat.choose_symm_add]

/-- the hypothesis under which the counting does not overflow -/
def Fits (n d : ℕ) : Prop := (d + n) * (d + n).choose n < 2 ^ 64

theorem Fits.mono {n d n' d' : ℕ} (h : Fits n d) (hn : n' ≤ n) (hd : d' ≤ d) : Fits n' d' :=
  lt_of_le_of_lt (Nat.mul_le_mul (by omega) (choose_mono2 hd hn)) h

theorem Fits.lt {n d : ℕ} (h : Fits n d) : d + n < 2 ^ 64 :=
  lt_of_le_of_lt (Nat.le_mul_of_pos_right _ (Nat.choose_pos (by omega))) h

theorem countUpto_eq {n d : ℕ} (h : Fits n d) : countUpto n d = (d + n).choose n := by
  unfold countUpto
  rw [w64_of_lt h.lt]
  exact binomial_eq h

theorem countExact_eq {n d : ℕ} (h : Fits (n + 1) d) : countExact (n + 1) d = (d + n).choose n := by
  unfold countExact
  have := h.mono (n' := n) (d' := d) (by omega) le_rfl
  rw [show d + (n + 1) - 1 = d + n by omega, w64_of_lt this.lt]
  exact binomial_eq this

/-! ## the inner loop -/

/-- `k` iterations from `e` find the block of `idx` if there is one -/
theorem pick_spec (cnt : ℕ → ℕ) (rem : ℕ) : ∀ k e idx, idx < ((List.range k).map fun j => cnt (e + j)).sum →
    ∃ j, j < k ∧ pick cnt rem k e idx = (e + j, rem - (e + j), idx - ((List.range j).map fun i => cnt (e + i)).sum) ∧
      ((List.range j).map fun i => cnt (e + i)).sum ≤ idx ∧ idx - ((List.range j).map fun i => cnt (e + i)).sum < cnt (e + j) := by
  intro k
  induction k with
  | zero => intro e idx h; simp at h
  | succ k ih =>
    intro e idx h
    rw [pick]
    split
    · rename_i h1
      exact ⟨0, by omega, by simp, by simp, by simpa using h1⟩
    · rename_i h1
      rw [List.range_succ_eq_map, List.map_cons, List.sum_cons, List.map_map] at h
      have hc : ((fun j => cnt (e + j)) ∘ Nat.succ) = fun j => cnt (e + 1 + j) := by
        funext j; simp only [Function.comp]; congr 1; omega
      rw [hc] at h
      simp only [Nat.add_zero] at h
      obtain ⟨j, hj, h2, h3, h4⟩ := ih (e + 1) (idx - cnt e) (by omega)
      have hs : ((List.range (j + 1)).map fun i => cnt (e + i)).sum = cnt e + ((List.range j).map fun i => cnt (e + 1 + i)).sum := by
        rw [List.range_succ_eq_map, List.map_cons, List.sum_cons, List.map_map, hc, Nat.add_zero]
      refine ⟨j + 1, by omega, ?_, ?_, ?_⟩
      · rw [h2, hs, show e + 1 + j = e + (j + 1) by omega, Nat.sub_sub]
      · rw [hs]; omega
      · rw [hs, show e + (j + 1) = e + 1 + j by omega, ← Nat.sub_sub]; exact h4

/-- the blocks add up -/
theorem hockey (n rem : ℕ) : ((List.range (rem + 1)).map fun j => (rem - j + n).choose n).sum = (rem + (n + 1)).choose (n + 1) := by
  induction rem with
  | zero => simp
  | succ r ih =>
    rw [List.range_succ_eq_map, List.map_cons, List.sum_cons, List.map_map]
    have : ((fun j => (r + 1 - j + n).choose n) ∘ Nat.succ) = fun j => (r - j + n).choose n := by
      funext j; simp only [Function.comp]; congr 2; omega
    rw [this, ih, Nat.sub_zero, show r + 1 + (n + 1) = (r + 1 + n) + 1 by omega, Nat.choose_succ_succ, show r + 1 + n = r + (n + 1) by omega]

theorem cnt_if {n d : ℕ} (h : Fits n d) : (if 0 < n then countUpto n d else 1) = (d + n).choose n := by
  split
  · exact countUpto_eq h
  · rename_i h0; rw [show n = 0 by omega]; simp

/-- `unrank_monomial_upto`: `n` exponents with sum at most `d` -/
theorem unrankUpto_spec : ∀ n d idx, Fits n d → idx < (d + n).choose n → (unrankUpto n d idx).length = n ∧ (unrankUpto n d idx).sum ≤ d := by
  intro n
  induction n with
  | zero => intro d idx _ _; simp [unrankUpto]
  | succ n ih =>
    intro d idx hf h
    rw [unrankUpto]
    have hcnt : ((List.range (d + 1)).map fun j => (fun e => if 0 < n then countUpto n (d - e) else 1) (0 + j)).sum = (d + (n + 1)).choose (n + 1) := by
      rw [← hockey]
      refine congrArg _ (List.map_congr_left fun j _ => ?_)
      simp only [Nat.zero_add]
      split
      · exact countUpto_eq (hf.mono (by omega) (by omega))
      · rename_i h0; rw [show n = 0 by omega]; simp
    obtain ⟨j, hj, h2, h3, h4⟩ := pick_spec (fun e => if 0 < n then countUpto n (d - e) else 1) d (d + 1) 0 idx (by rw [hcnt]; exact h)
    rw [h2]
    simp only [Nat.zero_add] at h4 ⊢
    have h5 : idx - ((List.range j).map fun i => if 0 < n then countUpto n (d - i) else 1).sum < (d - j + n).choose n := by
      exact lt_of_lt_of_eq h4 (cnt_if (hf.mono (by omega) (by omega)))
    obtain ⟨h6, h7⟩ := ih (d - j) _ (hf.mono (by omega) (by omega)) h5
    rw [List.length_cons, List.sum_cons]
    omega

theorem unrankUpto_inj : ∀ n d i i', Fits n d → i < (d + n).choose n → i' < (d + n).choose n → unrankUpto n d i = unrankUpto n d i' → i = i' := by
  intro n
  induction n with
  | zero => intro d i i' _ h h' _; simp at h h'; omega
  | succ n ih =>
    intro d i i' hf h h' heq
    rw [unrankUpto, unrankUpto] at heq
    have hcnt : ((List.range (d + 1)).map fun j => (fun e => if 0 < n then countUpto n (d - e) else 1) (0 + j)).sum = (d + (n + 1)).choose (n + 1) := by
      rw [← hockey]
      refine congrArg _ (List.map_congr_left fun j _ => ?_)
      simp only [Nat.zero_add]
      split
      · exact countUpto_eq (hf.mono (by omega) (by omega))
      · rename_i h0; rw [show n = 0 by omega]; simp
    have key : ∀ {i}, i < (d + (n + 1)).choose (n + 1) → ∃ j, j < d + 1 ∧ pick (fun e => if 0 < n then countUpto n (d - e) else 1) d (d + 1) 0 i =
        (j, d - j, i - ((List.range j).map fun i => if 0 < n then countUpto n (d - i) else 1).sum) ∧
        ((List.range j).map fun i => if 0 < n then countUpto n (d - i) else 1).sum ≤ i ∧
        i - ((List.range j).map fun i => if 0 < n then countUpto n (d - i) else 1).sum < (d - j + n).choose n := fun {i} h => by
      obtain ⟨j, hj, h2, h3, h4⟩ := pick_spec (fun e => if 0 < n then countUpto n (d - e) else 1) d (d + 1) 0 i (by rw [hcnt]; exact h)
      simp only [Nat.zero_add] at h2 h3 h4
      refine ⟨j, hj, h2, h3, ?_⟩
      exact lt_of_lt_of_eq h4 (cnt_if (hf.mono (by omega) (by omega)))
    obtain ⟨j, hj, h2, h3, h4⟩ := key h
    obtain ⟨j', hj', h2', h3', h4'⟩ := key h'
    rw [h2, h2'] at heq
    simp only [List.cons.injEq] at heq
    obtain ⟨rfl, heq⟩ := heq
    have := ih (d - j) _ _ (hf.mono (by omega) (by omega)) h4 h4' heq
    omega

/-- `unrank_monomial_exact`: `n + 1` exponents with sum `d` -/
theorem unrankExact_spec : ∀ n d idx, Fits (n + 1) d → idx < (d + n).choose n → (unrankExact (n + 1) d idx).length = n + 1 ∧ (unrankExact (n + 1) d idx).sum = d := by
  intro n
  induction n with
  | zero => intro d idx _ _; simp [unrankExact]
  | succ n ih =>
    intro d idx hf h
    rw [unrankExact]
    have hcnt : ((List.range (d + 1)).map fun j => (fun e => countExact (n + 1) (d - e)) (0 + j)).sum = (d + (n + 1)).choose (n + 1) := by
      rw [← hockey]
      refine congrArg _ (List.map_congr_left fun j _ => ?_)
      simp only [Nat.zero_add]
      exact countExact_eq (hf.mono (by omega) (by omega))
    obtain ⟨j, hj, h2, h3, h4⟩ := pick_spec (fun e => countExact (n + 1) (d - e)) d (d + 1) 0 idx (by rw [hcnt]; exact h)
    rw [h2]
    simp only [Nat.zero_add] at h4 ⊢
    rw [countExact_eq (hf.mono (by omega) (by omega))] at h4
    obtain ⟨h6, h7⟩ := ih (d - j) _ (hf.mono (by omega) (by omega)) h4
    rw [List.length_cons, List.sum_cons]
    omega

theorem unrankExact_inj : ∀ n d i i', Fits (n + 1) d → i < (d + n).choose n → i' < (d + n).choose n → unrankExact (n + 1) d i = unrankExact (n + 1) d i' → i = i' := by
  intro n
  induction n with
  | zero => intro d i i' _ h h' _; simp at h h'; omega
  | succ n ih =>
    intro d i i' hf h h' heq
    rw [unrankExact, unrankExact] at heq
    have hcnt : ((List.range (d + 1)).map fun j => (fun e => countExact (n + 1) (d - e)) (0 + j)).sum = (d + (n + 1)).choose (n + 1) := by
      rw [← hockey]
      refine congrArg _ (List.map_congr_left fun j _ => ?_)
      simp only [Nat.zero_add]
      exact countExact_eq (hf.mono (by omega) (by omega))
    have key : ∀ {i}, i < (d + (n + 1)).choose (n + 1) → ∃ j, j < d + 1 ∧ pick (fun e => countExact (n + 1) (d - e)) d (d + 1) 0 i =
        (j, d - j, i - ((List.range j).map fun i => countExact (n + 1) (d - i)).sum) ∧
        ((List.range j).map fun i => countExact (n + 1) (d - i)).sum ≤ i ∧
        i - ((List.range j).map fun i => countExact (n + 1) (d - i)).sum < (d - j + n).choose n := fun {i} h => by
      obtain ⟨j, hj, h2, h3, h4⟩ := pick_spec (fun e => countExact (n + 1) (d - e)) d (d + 1) 0 i (by rw [hcnt]; exact h)
      simp only [Nat.zero_add] at h2 h3 h4
      refine ⟨j, hj, h2, h3, ?_⟩
      rwa [countExact_eq (hf.mono (by omega) (by omega))] at h4
    obtain ⟨j, hj, h2, h3, h4⟩ := key h
    obtain ⟨j', hj', h2', h3', h4'⟩ := key h'
    rw [h2, h2'] at heq
    simp only [List.cons.injEq] at heq
    obtain ⟨rfl, heq⟩ := heq
    have := ih (d - j) _ _ (hf.mono (by omega) (by omega)) h4 h4' heq
    omega

/-! ## random_select -/

theorem selectSorted {draws : List ℕ} : (vecSort (fun a b => decide (a ≤ b)) draws).Pairwise (· ≤ ·) := by
  have := vecSort_sorted (le := fun a b : ℕ => decide (a ≤ b)) draws (fun a _ b _ => by simp; omega) (fun a _ b _ c _ => by simp; omega)
  exact this.imp fun {a b} h => by simpa using h

/-- without repetition: strictly increasing indices below `m`, as many as asked for -/
theorem randomSelect_noRepeat {m n : ℕ} {draws : List ℕ} (hlen : n < m → draws.length = n) (hd : ∀ d ∈ draws, d ≤ m - n) :
    (randomSelect m n true draws).Pairwise (· < ·) ∧ (∀ i ∈ randomSelect m n true draws, i < m) ∧ (randomSelect m n true draws).length = min n m := by
  unfold randomSelect
  by_cases h : m ≤ n
  · simp only [h, decide_true, Bool.and_self, if_true]
    exact ⟨List.pairwise_lt_range, fun i hi => List.mem_range.1 hi, by simp [h]⟩
  · simp only [h, decide_false, Bool.and_false, if_true]
    have hl := hlen (by omega)
    rw [List.take_of_length_le (by omega)]
    obtain ⟨v, hv⟩ : ∃ v, v = vecSort (fun a b => decide (a ≤ b)) draws := ⟨_, rfl⟩
    have hs := selectSorted (draws := draws)
    have hp := vecSort_perm (le := fun a b : ℕ => decide (a ≤ b)) draws
    rw [← hv] at hs hp
    simp only [Bool.false_eq_true, if_false, ← hv]
    have hvl : v.length = n := by rw [hp.length_eq, hl]
    refine ⟨?_, ?_, ?_⟩
    · rw [List.pairwise_iff_getElem] at hs ⊢
      intro i j hi hj hij
      simp only [List.getElem_mapIdx]
      simp only [List.length_mapIdx] at hi hj
      have := hs i j hi hj hij
      omega
    · intro x hx
      obtain ⟨i, hi, rfl⟩ := List.getElem_of_mem hx
      simp only [List.length_mapIdx] at hi
      simp only [List.getElem_mapIdx]
      have := hd _ (hp.mem_iff.1 (List.getElem_mem hi))
      omega
    · rw [List.length_mapIdx, hvl]; omega

/-- with repetition: sorted indices below `m` -/
theorem randomSelect_repeat {m n : ℕ} {draws : List ℕ} (hm : 0 < m) (hlen : draws.length = n) (hd : ∀ d ∈ draws, d ≤ m - 1) :
    (randomSelect m n false draws).Pairwise (· ≤ ·) ∧ (∀ i ∈ randomSelect m n false draws, i < m) ∧ (randomSelect m n false draws).length = n := by
  unfold randomSelect
  simp only [Bool.false_and, Bool.false_eq_true, if_false]
  rw [List.take_of_length_le (by omega)]
  have hp := vecSort_perm (le := fun a b : ℕ => decide (a ≤ b)) draws
  exact ⟨selectSorted, fun i hi => by have := hd i (hp.mem_iff.1 hi); omega, by rw [hp.length_eq, hlen]⟩

end CLPoly.Random
