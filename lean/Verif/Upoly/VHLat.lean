import Verif.Upoly.LLL
import Verif.Upoly.VH
import Mathlib.LinearAlgebra.Matrix.NonsingularInverse

/-! # The lattice of the van Hoeij recombination: all rows are short, so that every candidate is a single modular factor -/

namespace CLPoly
namespace Upoly
open Finset

/-- a nonsingular matrix whose Gram–Schmidt squared norms are at most `X`, with sum at most `S` -/
def Lat (n : ℕ) (M : Mat) (X S : ℚ) : Prop := ∃ mu B bs, GS n M mu B bs ∧ (∀ i < n, 0 < B i) ∧ (∀ i < n, B i ≤ X) ∧ ∑ i ∈ range n, B i ≤ S

theorem lat_init (r : ℕ) : Lat r (initM r) (2 ^ (2 * uExp r)) (r * 2 ^ (2 * uExp r)) := by
  refine ⟨fun _ _ => 0, fun _ => 2 ^ (2 * uExp r), fun i c => if i = c then 2 ^ uExp r else 0, ⟨fun i hi c hc => ?_, fun i hi j hj => ?_, fun i hi => ?_⟩, fun i _ => by positivity, fun i _ => le_rfl, ?_⟩
  · simp only [zero_mul, sum_const_zero, add_zero]
    unfold initM
    by_cases h : i = c
    · rw [if_pos ⟨h, hi⟩, if_pos h]; push_cast; rfl
    · rw [if_neg (fun h' => h h'.1), if_neg h]; rfl
  · refine sum_eq_zero fun c _ => ?_
    dsimp only
    by_cases h : i = c
    · rw [if_neg (c := j = c) (by omega), mul_zero]
    · rw [if_neg h, zero_mul]
  · unfold ip
    rw [sum_eq_single_of_mem i (mem_range.2 hi)]
    · dsimp only; rw [if_pos rfl, ← pow_add, two_mul]
    · intro c _ hc; dsimp only; rw [if_neg (Ne.symm hc), zero_mul]
  · rw [sum_const, card_range, nsmul_eq_mul]

/-- the orthogonalized rows are a basis -/
theorem GS.complete {n : ℕ} {M : Mat} {mu : ℕ → ℕ → ℚ} {B : ℕ → ℚ} {bs : ℕ → ℕ → ℚ} (h : GS n M mu B bs) (hp : ∀ i < n, 0 < B i) (x : ℕ → ℚ) :
    ∀ c < n, x c = ∑ j ∈ range n, ip n x (bs j) / B j * bs j c := by
  intro c hc
  obtain ⟨A, hA⟩ : ∃ A : Matrix (Fin n) (Fin n) ℚ, A = Matrix.of fun i j : Fin n => bs i j := ⟨_, rfl⟩
  obtain ⟨D, hD⟩ : ∃ D : Matrix (Fin n) (Fin n) ℚ, D = Matrix.of fun j i : Fin n => bs i j / B i := ⟨_, rfl⟩
  have h1 : A * D = 1 := by
    ext i j
    rw [Matrix.mul_apply, Matrix.one_apply, hA, hD]
    simp only [Matrix.of_apply]
    have e : ∑ x : Fin n, bs i x * (bs j x / B j) = ip n (bs i) (bs j) / B j := by
      rw [Fin.sum_univ_eq_sum_range (fun x => bs i x * (bs j x / B j)) n]
      unfold ip
      rw [sum_div]
      exact sum_congr rfl fun _ _ => by ring
    rw [e]
    by_cases hij : i = j
    · subst hij
      rw [if_pos rfl, ← h.norm i i.2, div_self (hp i i.2).ne']
    · rw [if_neg hij]
      have hij' : (i : ℕ) ≠ j := fun h => hij (Fin.ext h)
      rcases lt_or_gt_of_ne hij' with h' | h'
      · rw [ip_comm, h.orth j j.2 i h', zero_div]
      · rw [h.orth i i.2 j h', zero_div]
  have h2 : D * A = 1 := mul_eq_one_comm.1 h1
  have h3 : ∀ c' : Fin n, ∑ j ∈ range n, bs j c' / B j * bs j c = if (c' : ℕ) = c then 1 else 0 := fun c' => by
    have := congrFun (congrFun h2 c') ⟨c, hc⟩
    rw [Matrix.mul_apply, Matrix.one_apply, hA, hD] at this
    simp only [Matrix.of_apply, Fin.ext_iff] at this
    rw [← this]
    exact (Fin.sum_univ_eq_sum_range (fun j => bs j c' / B j * bs j c) n).symm
  have h4 : ∑ j ∈ range n, ip n x (bs j) / B j * bs j c = ∑ c' ∈ range n, x c' * ∑ j ∈ range n, bs j c' / B j * bs j c := by
    unfold ip
    simp only [sum_div, sum_mul, mul_sum]
    rw [sum_comm]
    exact sum_congr rfl fun _ _ => sum_congr rfl fun _ _ => by ring
  rw [h4, sum_eq_single_of_mem c (mem_range.2 hc)]
  · rw [h3 ⟨c, hc⟩, if_pos rfl, mul_one]
  · intro c' hc' hne
    rw [h3 ⟨c', mem_range.1 hc'⟩, if_neg hne, mul_zero]

theorem lat_add {cld : List (UPoly ℤ)} {j : ℕ} (col : ℕ) {M : Mat} {X S : ℚ} (hX : 1 ≤ X) (h : Lat (cld.length + j) M X S) : Lat (cld.length + (j + 1)) (addRow cld j col M) X (S + 1) := by
  obtain ⟨mu, B, bs, g, hp, hm, hs⟩ := h
  obtain ⟨n, hn⟩ : ∃ n, n = cld.length + j := ⟨_, rfl⟩
  rw [← Nat.add_assoc]
  rw [← hn] at g hp hm hs ⊢
  have eA : ∀ i < n, ∀ c < n, addRow cld j col M i c = M i c := fun i hi c hc => by unfold addRow; rw [← hn, if_pos hi, if_pos hc]
  have eA1 : ∀ i < n, addRow cld j col M i n = 0 := fun i hi => by unfold addRow; rw [← hn, if_pos hi, if_neg (lt_irrefl _)]
  have eA2 : addRow cld j col M n n = 1 := by unfold addRow; rw [← hn, if_neg (lt_irrefl _), if_neg (by omega), if_pos rfl]
  obtain ⟨x, hx⟩ : ∃ x : ℕ → ℚ, x = fun c => (addRow cld j col M n c : ℚ) := ⟨_, rfl⟩
  have hc := g.complete hp x
  obtain ⟨bs', hbs⟩ : ∃ bs' : ℕ → ℕ → ℚ, bs' = fun i c => if i < n then (if c < n then bs i c else 0) else if c = n then 1 else 0 := ⟨_, rfl⟩
  have b1 : ∀ i < n, ∀ c < n, bs' i c = bs i c := fun i hi c hc => by rw [hbs]; dsimp only; rw [if_pos hi, if_pos hc]
  have b2 : ∀ i < n, bs' i n = 0 := fun i hi => by rw [hbs]; dsimp only; rw [if_pos hi, if_neg (lt_irrefl _)]
  have b3 : ∀ c < n, bs' n c = 0 := fun c hc => by rw [hbs]; dsimp only; rw [if_neg (lt_irrefl _), if_neg (by omega)]
  have b4 : bs' n n = 1 := by rw [hbs]; dsimp only; rw [if_neg (lt_irrefl _), if_pos rfl]
  have i1 : ∀ i < n, ∀ l < n, ip (n + 1) (bs' i) (bs' l) = ip n (bs i) (bs l) := fun i hi l hl => by
    show ∑ c ∈ range (n + 1), _ = _
    rw [sum_range_succ, b2 i hi, zero_mul, add_zero]
    exact sum_congr rfl fun c hc => by rw [b1 i hi c (mem_range.1 hc), b1 l hl c (mem_range.1 hc)]
  have i2 : ∀ l < n, ip (n + 1) (bs' n) (bs' l) = 0 := fun l hl => by
    show ∑ c ∈ range (n + 1), _ = _
    rw [sum_range_succ, b2 l hl, mul_zero, add_zero]
    exact sum_eq_zero fun c hc => by rw [b3 c (mem_range.1 hc), zero_mul]
  have i3 : ip (n + 1) (bs' n) (bs' n) = 1 := by
    show ∑ c ∈ range (n + 1), _ = _
    rw [sum_range_succ, b4, sum_eq_zero fun c hc => by rw [b3 c (mem_range.1 hc), zero_mul]]
    norm_num
  refine ⟨fun i l => if i < n then mu i l else ip n x (bs l) / B l, fun i => if i < n then B i else 1, bs', ⟨fun i hi c hc' => ?_, fun i hi l hl => ?_, fun i hi => ?_⟩, fun i hi => ?_, fun i hi => ?_, ?_⟩
  · rcases Nat.lt_succ_iff_lt_or_eq.1 hi with h1 | h1
    · rcases Nat.lt_succ_iff_lt_or_eq.1 hc' with h2 | h2
      · rw [eA i h1 c h2, g.row i h1 c h2, b1 i h1 c h2]
        congr 1
        exact sum_congr rfl fun l hl => by rw [if_pos h1, b1 l (by have := mem_range.1 hl; omega) c h2]
      · rw [h2, eA1 i h1, b2 i h1, sum_eq_zero, Int.cast_zero, add_zero]
        intro l hl
        rw [b2 l (by have := mem_range.1 hl; omega), mul_zero]
    · subst h1
      rcases Nat.lt_succ_iff_lt_or_eq.1 hc' with h2 | h2
      · have := hc c h2
        rw [show (addRow cld j col M i c : ℚ) = x c by rw [hx], this, b3 c h2, zero_add]
        refine sum_congr rfl fun l hl => ?_
        rw [if_neg (lt_irrefl _), b1 l (mem_range.1 hl) c h2]
      · rw [h2, eA2, b4, sum_eq_zero, Int.cast_one, add_zero]
        intro l hl
        rw [b2 l (mem_range.1 hl), mul_zero]
  · rcases Nat.lt_succ_iff_lt_or_eq.1 hi with h1 | h1
    · rw [i1 i h1 l (by omega)]; exact g.orth i h1 l hl
    · subst h1; exact i2 l hl
  · rcases Nat.lt_succ_iff_lt_or_eq.1 hi with h1 | h1
    · rw [if_pos h1, i1 i h1 i h1]; exact g.norm i h1
    · rw [if_neg (by omega), h1, i3]
  · dsimp only
    split
    · next h1 => exact hp i h1
    · norm_num
  · dsimp only
    split
    · next h1 => exact hm i h1
    · exact hX
  · rw [sum_range_succ, if_neg (lt_irrefl _)]
    have : ∑ i ∈ range n, (if i < n then B i else 1) = ∑ i ∈ range n, B i := sum_congr rfl fun i hi => if_pos (mem_range.1 hi)
    rw [this]
    linarith

theorem lat_build (cld : List (UPoly ℤ)) (N : ℕ) {X : ℚ} (hX : 1 ≤ X) : ∀ (t J : ℕ) (M : Mat) (S : ℚ), Lat (cld.length + J) M X (S + J) →
    J ≤ (buildLoop cld N t J M).2 ∧ (buildLoop cld N t J M).2 ≤ J + t ∧ Lat (cld.length + (buildLoop cld N t J M).2) (buildLoop cld N t J M).1 X (S + (buildLoop cld N t J M).2)
  | 0, J, M, S, h => ⟨le_rfl, le_rfl, h⟩
  | t + 1, J, M, S, h => by
    unfold buildLoop
    split
    · have := lat_add (spiral N J) hX h
      obtain ⟨a, b, c⟩ := lat_build cld N hX t (J + 1) _ S (by rw [add_assoc] at this; push_cast; exact this)
      exact ⟨by omega, by omega, c⟩
    · exact ⟨le_rfl, by omega, h⟩

/-- the reduction keeps the bounds, and all rows are short -/
theorem lat_lll {n : ℕ} (hn : 1 ≤ n) {M : Mat} {X S : ℚ} (h : Lat n M X S) {Bd : ℤ} (hB : 3 / 4 * X + S / 4 ≤ Bd) {lf : ℕ} {r : Mat × Mat × List ℕ} (hr : lllReduce lf n M Bd = some r) :
    Lat n r.1 X S ∧ ((toM n r.2.1).det = 1 ∨ (toM n r.2.1).det = -1) ∧ r.2.2.Perm (List.range n) := by
  obtain ⟨mu, B, bs, g, hp, hm, hs⟩ := h
  have gi := gsInit_gs n M
  have hu := fun i hi => (gi.unique g i hi).2
  have inv := lllInit_inv hn (g.det_ne hp)
  unfold lllReduce at hr
  rw [Option.map_eq_some_iff] at hr
  obtain ⟨s, h1, rfl⟩ := hr
  obtain ⟨⟨bs', g'⟩, u, p, red, lov, mx, sm⟩ := lllLoop_inv lf 1 _ s le_rfl hn inv h1
  have hX := mx X fun i hi => by rw [hu i hi]; exact hm i hi
  have hS : ∑ i ∈ range n, s.B i ≤ S := by
    refine sm.trans ((sum_congr rfl fun i hi => hu i (mem_range.1 hi)).trans_le hs)
  refine ⟨⟨_, _, bs', g', p, hX, hS⟩, u.det, ?_⟩
  show (shortRows n s.M Bd).Perm _
  unfold shortRows
  refine (List.perm_insertionSort _ _).trans ?_
  rw [List.filter_eq_self.2]
  intro i hi
  have hi' := List.mem_range.1 hi
  rw [decide_eq_true_eq]
  have e := g'.norm_row i hi'
  have e1 : ∑ j ∈ range i, s.mu i j * s.mu i j * s.B j ≤ ∑ j ∈ range i, 1 / 4 * s.B j := sum_le_sum fun j hj => by
    have hj' := mem_range.1 hj
    refine mul_le_mul_of_nonneg_right ?_ (p j (by omega)).le
    have := red i hi' j hj'
    rw [abs_le] at this
    nlinarith
  rw [← mul_sum] at e1
  have e2 : ∑ j ∈ range (i + 1), s.B j ≤ ∑ j ∈ range n, s.B j := sum_le_sum_of_subset_of_nonneg (range_subset_range.2 (by omega)) fun j hj _ => (p j (mem_range.1 hj)).le
  rw [sum_range_succ] at e2
  have e3 := hX i hi'
  have : ((dotZ n (s.M i) (s.M i) : ℤ) : ℚ) ≤ Bd := by rw [e]; linarith
  exact_mod_cast this

/-! ## the candidates -/

/-- the candidates if all columns differ -/
theorem candidates_single {rows : List (List ℤ)} (h0 : rows ≠ []) {r : ℕ} (hd : ∀ j j2, j < j2 → j2 < r → ∃ u ∈ rows, u.getD j 0 ≠ u.getD j2 0) : candidates rows r = (List.range r).map fun j => [j] := by
  unfold candidates
  rw [if_neg h0]
  simp only
  obtain ⟨same, hsame⟩ : ∃ same : ℕ → ℕ → Bool, same = fun j j2 => rows.all fun u => u.getD j 0 = u.getD j2 0 := ⟨_, rfl⟩
  rw [← hsame]
  have hs : ∀ j j2, j < j2 → j2 < r → same j j2 = false := fun j j2 h1 h2 => by
    obtain ⟨u, hu, hne⟩ := hd j j2 h1 h2
    rw [hsame, List.all_eq_false]
    exact ⟨u, hu, by simpa using hne⟩
  have key : ∀ t ≤ r, (List.range t).foldl (partStep same) (List.replicate r none, 0) = ((List.range r).map fun j => if j < t then some j else none, t) := by
    intro t
    induction t with
    | zero =>
      intro _
      simp only [List.range_zero, List.foldl_nil, Prod.mk.injEq, and_true]
      apply List.ext_getElem
      · simp
      · intro i h1 h2; simp
    | succ t ih =>
      intro ht
      rw [List.range_succ, List.foldl_append, ih (by omega)]
      show partStep same _ t = _
      unfold partStep
      have hg : ((List.range r).map fun j => if j < t then some j else none).getD t none = none := by
        rw [List.getD_eq_getElem _ _ (by simp; omega)]
        simp
      rw [if_neg (by rw [hg]; simp)]
      simp only [Prod.mk.injEq, and_true]
      apply List.ext_getElem
      · simp
      · intro i h1 h2
        have hi : i < r := by simpa using h2
        rw [List.getElem_mapIdx, List.getElem_set]
        simp only [List.getElem_map, List.getElem_range]
        by_cases hit : t = i
        · subst hit
          rw [if_pos rfl, if_neg (by omega), if_pos (by omega)]
        · rw [if_neg hit]
          by_cases hlt : i < t
          · rw [if_pos hlt, if_neg (by omega), if_pos (by omega)]
          · rw [if_neg hlt, if_neg (by rw [hs t i (by omega) hi]; simp), if_neg (by omega)]
  rw [key r le_rfl]
  simp only
  refine List.map_congr_left fun c hc => ?_
  have hc' := List.mem_range.1 hc
  have : (List.range r).filter (fun j => decide (((List.range r).map fun j => if j < r then some j else none).getD j none = some c)) = (List.range r).filter fun j => decide (j = c) := by
    refine List.filter_congr fun j hj => ?_
    have hj' := List.mem_range.1 hj
    rw [List.getD_eq_getElem _ _ (by simp; omega)]
    simp [hj']
  rw [this]
  have hn : ((List.range r).filter fun j => decide (j = c)).Nodup := List.nodup_range.filter _
  have hp : ((List.range r).filter fun j => decide (j = c)).Perm [c] := by
    rw [List.perm_ext_iff_of_nodup hn (by simp)]
    intro a
    simp only [List.mem_filter, List.mem_range, decide_eq_true_eq, List.mem_singleton]
    constructor
    · exact fun h => h.2
    · rintro rfl; exact ⟨hc', rfl⟩
  exact List.perm_singleton.1 hp

/-- all rows of a unimodular matrix separate the columns -/
theorem candidates_uni {n r : ℕ} (hrn : r ≤ n) (h0 : 1 ≤ n) {U : Mat} (hU : (toM n U).det ≠ 0) {l : List ℕ} (hl : l.Perm (List.range n)) :
    candidates (l.map fun i => (List.range n).map (U i)) r = (List.range r).map fun j => [j] := by
  refine candidates_single ?_ fun j j2 h1 h2 => ?_
  · intro h
    have := hl.length_eq
    rw [List.map_eq_nil_iff.1 h] at this
    simp at this
    omega
  · by_contra hno
    push Not at hno
    refine hU (Matrix.det_zero_of_column_eq (i := ⟨j, by omega⟩) (j := ⟨j2, by omega⟩) (by intro h; have := congrArg Fin.val h; simp only at this; omega) fun k => ?_)
    have := hno ((List.range n).map (U k)) (List.mem_map.2 ⟨k, hl.mem_iff.2 (List.mem_range.2 k.2), rfl⟩)
    rw [List.getD_eq_getElem _ _ (by simp; omega), List.getD_eq_getElem _ _ (by simp; omega)] at this
    simpa [toM] using this

/-- the lattice rows that give every factor its own class -/
def rowsId : Rows := fun _ _ _ T => some ((List.range T.length).map fun i => (List.range T.length).map fun j => if i = j then 1 else 0)

theorem candidates_rowsId (r : ℕ) (h : 1 ≤ r) : candidates ((List.range r).map fun i => (List.range r).map fun j => if i = j then (1 : ℤ) else 0) r = (List.range r).map fun j => [j] := by
  refine candidates_uni le_rfl h (U := fun i j => if i = j then 1 else 0) ?_ (.refl _)
  have : toM r (fun i j => if i = j then (1 : ℤ) else 0) = 1 := by
    ext i j
    rw [Matrix.one_apply]
    show (if (i : ℕ) = j then (1 : ℤ) else 0) = _
    simp only [Fin.ext_iff]
  rw [this, Matrix.det_one]
  exact one_ne_zero

end Upoly
end CLPoly
