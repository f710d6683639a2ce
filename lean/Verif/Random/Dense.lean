import Verif.Random.Spec

open MvPolynomial

namespace CLPoly.Random
open CLPoly Mono

/-- the number with the digits `l` in base `B` -/
def num (B : ℕ) : List ℕ → ℕ
  | [] => 0
  | a :: l => a * B ^ l.length + num B l

theorem num_lt {B : ℕ} : ∀ {l : List ℕ}, (∀ a ∈ l, a < B) → num B l < B ^ l.length
  | [], _ => by simp [num]
  | a :: l, h => by
    rw [num, List.length_cons, pow_succ]
    have h1 := h a (by simp)
    have h2 := num_lt (l := l) fun b hb => h b (List.mem_cons_of_mem _ hb)
    calc a * B ^ l.length + num B l < a * B ^ l.length + B ^ l.length := by omega
      _ = (a + 1) * B ^ l.length := by ring
      _ ≤ B * B ^ l.length := Nat.mul_le_mul_right _ h1
      _ = _ := Nat.mul_comm _ _

theorem num_step {B : ℕ} {a b : ℕ} {x y : List ℕ} (hlen : x.length = y.length) (hx : ∀ c ∈ x, c < B) (hab : a < b) :
    ∀ pre : List ℕ, num B (pre ++ a :: x) < num B (pre ++ b :: y)
  | [] => by
    rw [List.nil_append, List.nil_append, num, num, ← hlen]
    have := num_lt hx
    calc a * B ^ x.length + num B x < (a + 1) * B ^ x.length := by rw [Nat.add_mul]; omega
      _ ≤ b * B ^ x.length := Nat.mul_le_mul_right _ hab
      _ ≤ _ := Nat.le_add_right _ _
  | c :: pre => by
    rw [List.cons_append, List.cons_append, num, num]
    have := num_step hlen hx hab pre
    have h2 : (pre ++ a :: x).length = (pre ++ b :: y).length := by simp [hlen]
    rw [h2]; omega

theorem getD_mid (pre : List ℕ) (a : ℕ) (y : List ℕ) : (pre ++ a :: y).getD pre.length 0 = a := by simp [List.getD]

theorem set_mid (pre : List ℕ) (a b : ℕ) (y : List ℕ) : (pre ++ a :: y).set pre.length b = pre ++ b :: y := by simp

/-- one backtracking step -/
theorem back_spec {size d : ℕ} : ∀ (pre : List ℕ) (z : ℕ), pre.length + z = size → pre.sum ≤ d → ∀ {m' i' s'},
    back size d pre.length (pre ++ List.replicate z 0) pre.sum = some (m', i', s') →
    ∃ p' z', m' = p' ++ List.replicate z' 0 ∧ p'.length = i' + 1 ∧ p'.length + z' = size ∧ p'.sum = d ∧ s' = d ∧
      ∃ q a x y, m' = q ++ a :: x ∧ pre = q ++ (a + 1) :: y := by
  intro pre
  induction pre using List.reverseRecOn with
  | nil => intro z _ _ m' i' s' h; simp [back] at h
  | append_singleton q a ih =>
    intro z hz hs m' i' s' h
    rw [List.length_append, List.length_singleton] at h hz
    rw [List.append_assoc, List.singleton_append, List.sum_append, List.sum_singleton] at h
    rw [List.sum_append, List.sum_singleton] at hs
    rw [back] at h
    rw [getD_mid, set_mid, set_mid] at h
    split at h
    · rename_i hc
      simp only [Option.some.injEq, Prod.mk.injEq] at h
      obtain ⟨h1, rfl, rfl⟩ := h
      obtain ⟨z', rfl⟩ : ∃ z', z = z' + 1 := ⟨z - 1, by omega⟩
      have e : q ++ (a - 1) :: List.replicate (z' + 1) 0 = (q ++ [a - 1]) ++ 0 :: List.replicate z' 0 := by simp [List.replicate_succ]
      rw [e, show q.length + 1 = (q ++ [a - 1]).length by simp, set_mid] at h1
      refine ⟨q ++ [a - 1] ++ [d - (q.sum + a) + 1], z', by rw [← h1]; simp, by simp, by simp; omega, ?_, rfl, q, a - 1, (d - (q.sum + a) + 1) :: List.replicate z' 0, [], ?_, ?_⟩
      · simp only [List.sum_append, List.sum_singleton]; omega
      · rw [← h1]; simp
      · rw [Nat.sub_add_cancel (by omega)]
    · have e : q ++ 0 :: List.replicate z 0 = q ++ List.replicate (z + 1) 0 := by simp [List.replicate_succ]
      rw [e, Nat.add_sub_cancel] at h
      obtain ⟨p', z', h1, h2, h3, h4, h5, q', a', x, y, h6, h7⟩ := ih (z + 1) (by omega) (by omega) h
      exact ⟨p', z', h1, h2, h3, h4, h5, q', a', x, y ++ [a], h6, by rw [h7]; simp⟩

/-- the loop ends, and visits exponent vectors of sum `d`, each once -/
theorem visit_spec {size d : ℕ} : ∀ (f : ℕ) (pre : List ℕ) (z : ℕ), 0 < pre.length → pre.length + z = size → pre.sum = d →
    num (d + 1) (pre ++ List.replicate z 0) < f →
    ∃ es, visit size d f (pre ++ List.replicate z 0) (pre.length - 1) d = some es ∧ (∀ e ∈ es, e.length = size ∧ e.sum = d) ∧
      (∀ e ∈ es, num (d + 1) e ≤ num (d + 1) (pre ++ List.replicate z 0)) ∧ es.Nodup := by
  intro f
  induction f with
  | zero => intro pre z _ _ _ h; omega
  | succ f ih =>
    intro pre z h0 hz hs hnum
    have hok : (pre ++ List.replicate z 0).length = size ∧ (pre ++ List.replicate z 0).sum = d := by simp [hz, hs]
    rw [visit]
    have hb : pre.length - 1 + 1 = pre.length := by omega
    rw [hb]
    cases hback : back size d pre.length (pre ++ List.replicate z 0) d with
    | none => exact ⟨_, rfl, fun e he => by rw [List.mem_singleton.1 he]; exact hok, fun e he => by rw [List.mem_singleton.1 he], by simp⟩
    | some r =>
      obtain ⟨m', i', s'⟩ := r
      rw [← hs] at hback
      obtain ⟨p', z', h1, h2, h3, h4, h5, q, a, x, y, h6, h7⟩ := back_spec pre z hz le_rfl (by rw [hs] at hback ⊢; exact hback)
      rw [hs] at h4 h5
      have hlt : num (d + 1) m' < num (d + 1) (pre ++ List.replicate z 0) := by
        rw [h6, h7, List.append_assoc, List.cons_append]
        refine num_step ?_ ?_ (by omega) q
        · have e1 : (q ++ a :: x).length = size := by rw [← h6, h1]; simp [h3]
          have e2 := hok.1
          rw [h7] at e2
          simp at e1 e2 ⊢; omega
        · intro c hc
          have : c ≤ m'.sum := List.le_sum_of_mem (by rw [h6]; simp [hc])
          rw [h1] at this
          simp [h4] at this
          omega
      have hlt2 := hlt
      rw [h1] at hlt2
      obtain ⟨es, e1, e2, e3, e4⟩ := ih p' z' (by omega) h3 h4 (by omega)
      refine ⟨(pre ++ List.replicate z 0) :: es, ?_, ?_, ?_, ?_⟩
      · simp only
        rw [h1, h5, show i' = p'.length - 1 by omega, e1]; rfl
      · intro e he
        rcases List.mem_cons.1 he with rfl | he
        · exact hok
        · exact e2 e he
      · intro e he
        rcases List.mem_cons.1 he with rfl | he
        · exact le_rfl
        · exact (e3 e he).trans (by omega)
      · rw [List.nodup_cons]
        refine ⟨fun hm => ?_, e4⟩
        have := e3 _ hm
        omega

theorem visitAll_spec {size : ℕ} (hsize : 0 < size) : ∀ deg, ∃ f0, ∀ f, f0 ≤ f → ∃ es, visitAll size f deg = some es ∧ es.Nodup ∧
    ∀ e ∈ es, e.length = size ∧ e.sum ≤ deg
  | 0 => ⟨0, fun f _ => ⟨_, rfl, by simp, fun e he => by rw [List.mem_singleton.1 he]; simp⟩⟩
  | d + 1 => by
    obtain ⟨f0, h0⟩ := visitAll_spec hsize d
    obtain ⟨z, rfl⟩ : ∃ z, size = z + 1 := ⟨size - 1, by omega⟩
    have e : (List.replicate (z + 1) 0).set 0 (d + 1) = [d + 1] ++ List.replicate z 0 := by simp [List.replicate_succ]
    refine ⟨f0 + num (d + 1 + 1) ([d + 1] ++ List.replicate z 0) + 1, fun f hf => ?_⟩
    obtain ⟨es, h1, h2, h3⟩ := h0 f (by omega)
    obtain ⟨es', g1, g2, _, g4⟩ := visit_spec (size := z + 1) (d := d + 1) f [d + 1] z (by simp) (by simp; omega) (by simp) (by omega)
    refine ⟨es' ++ es, ?_, ?_, ?_⟩
    · rw [visitAll, e]
      simp only [List.length_singleton, Nat.sub_self] at g1
      rw [g1, h1]
    · refine List.nodup_append.2 ⟨g4, h2, ?_⟩
      rintro a ha b hb rfl
      have := (g2 a ha).2
      have := (h3 a hb).2
      omega
    · intro a ha
      rcases List.mem_append.1 ha with ha | ha
      · exact ⟨(g2 a ha).1, (g2 a ha).2.le⟩
      · exact ⟨(h3 a ha).1, by have := (h3 a ha).2; omega⟩

variable {R : Type*} [CommRing R] [DecidableEq R] {vc : Var → Var → Bool} {mc : Mono → Mono → Bool}

/-- the dense generator terminates; the degree and the coefficients are in range -/
theorem randomDense_spec (M : MonoOrd vc mc) {v : List Var} (hv : v.Nodup) (hne : v ≠ []) (deg : ℕ) {lo hi : ℤ} :
    ∃ f0, ∀ f, f0 ≤ f → ∀ (bs : ℕ → Bool) (cs : ℕ → ℤ), (∀ i, lo ≤ cs i ∧ cs i ≤ hi) → ∃ p, randomDense R vc mc v deg f bs cs = some p ∧
      PolyOK vc mc p ∧ (∀ a ∈ (val p).vars, a ∈ v) ∧ (∀ s ∈ (val p).support, ∃ c : ℤ, lo ≤ c ∧ c ≤ hi ∧ (val p).coeff s = (c : R)) ∧
      (val p).totalDegree ≤ deg := by
  obtain ⟨f0, h0⟩ := visitAll_spec (List.length_pos_of_ne_nil hne) deg
  refine ⟨f0, fun f hf bs cs hcs => ?_⟩
  obtain ⟨es, h1, h2, h3⟩ := h0 f hf
  unfold randomDense
  rw [h1, Option.map_some]
  refine ⟨_, rfl, ?_⟩
  obtain ⟨l, hl⟩ : ∃ l : PV Mono R, l = ((es.zipIdx).filter fun x => bs x.2).map fun x => (makeMono vc v x.1, ((cs x.2 : ℤ) : R)) := ⟨_, rfl⟩
  rw [← hl]
  have hsub : (((es.zipIdx).filter fun x => bs x.2).map Prod.fst).Sublist es := by
    have := (List.filter_sublist (l := es.zipIdx) (p := fun x => bs x.2)).map Prod.fst
    rwa [List.zipIdx_map_fst] at this
  obtain ⟨b1, b2, b3⟩ := val_chosen (vc := vc) (l := l) (es := ((es.zipIdx).filter fun x => bs x.2).map Prod.fst) M.vo hv (h2.sublist hsub) (fun e he => h3 e (hsub.subset he))
    (by rw [hl, List.map_map, List.map_map]; rfl)
  obtain ⟨r1, r2⟩ := normalize_nodup M b2 b1
  rw [r2]
  have hs : ∀ s ∈ (val l).support, ∃ t ∈ l, expo t.1 = s := fun s h => by
    by_contra hc
    rw [mem_support_iff] at h
    exact h (coeff_list_notMem fun t ht he => hc ⟨t, ht, he⟩)
  refine ⟨r1, vars_sub_of fun s h => ?_, fun s h => ?_, totalDegree_le_of fun s h => ?_⟩
  · obtain ⟨t, ht, rfl⟩ := hs s h
    exact (b3 t ht).2
  · obtain ⟨t, ht, rfl⟩ := hs s h
    rw [coeff_list_mem b1 ht]
    rw [hl] at ht
    obtain ⟨x, _, rfl⟩ := List.mem_map.1 ht
    exact ⟨cs x.2, (hcs _).1, (hcs _).2, rfl⟩
  · obtain ⟨t, ht, rfl⟩ := hs s h
    exact (b3 t ht).1

/-! ## samples -/

theorem nthTrue_spec : ∀ (bl : List Bool) (j s : ℕ), 0 < s → s ≤ bl.count true → ∃ i, nthTrue bl j s = some (j + i) ∧ i < bl.length ∧ bl.getD i false = true
  | [], _, s, h, h' => by simp at h'; omega
  | b :: bl, j, s, h, h' => by
    rw [nthTrue]
    cases b with
    | false =>
      rw [List.count_cons_of_ne (by simp)] at h'
      obtain ⟨i, h1, h2, h3⟩ := nthTrue_spec bl (j + 1) s h h'
      refine ⟨i + 1, ?_, by simpa using h2, by simpa using h3⟩
      rw [if_neg (by simp), h1]; congr 1; omega
    | true =>
      rw [List.count_cons_self] at h'
      rw [if_pos rfl]
      split
      · exact ⟨0, rfl, by simp, rfl⟩
      · obtain ⟨i, h1, h2, h3⟩ := nthTrue_spec bl (j + 1) (s - 1) (by omega) (by omega)
        refine ⟨i + 1, ?_, by simpa using h2, by simpa using h3⟩
        rw [h1]; congr 1; omega

theorem count_set_false : ∀ {bl : List Bool} {i : ℕ}, bl.getD i false = true → (bl.set i false).count true + 1 = bl.count true
  | [], _, h => by simp at h
  | b :: bl, 0, h => by
    have : b = true := by simpa using h
    subst this
    rw [List.set_cons_zero, List.count_cons_of_ne (by simp), List.count_cons_self]
  | b :: bl, i + 1, h => by
    rw [List.set_cons_succ, List.count_cons, List.count_cons]
    have := count_set_false (bl := bl) (i := i) (by simpa using h)
    omega

theorem getD_set_bool {bl : List Bool} {i : ℕ} (hi : i < bl.length) (k : ℕ) : (bl.set i false).getD k false = (if k = i then false else bl.getD k false) := by
  rw [List.getD_eq_getElem?_getD, List.getD_eq_getElem?_getD, List.getElem?_set]
  by_cases h : i = k
  · subst h; simp [hi]
  · rw [if_neg h, if_neg (Ne.symm h)]

/-- the loop appends the elements at `k` positions that are pairwise different and were still free -/
theorem sampleLoop_spec {α : Type*} [Inhabited α] (l : List α) (sel : ℕ → ℕ) : ∀ k (bl : List Bool) (out : List α), k ≤ bl.count true →
    (∀ i, 2 ≤ i → i ≤ k → 1 ≤ sel i ∧ sel i ≤ i) →
    ∃ js : List ℕ, sampleLoop l sel k bl out = out ++ js.map (fun j => l.getD j default) ∧ js.length = k ∧ js.Nodup ∧ ∀ j ∈ js, bl.getD j false = true := by
  intro k
  induction k with
  | zero => intro bl out _ _; exact ⟨[], by simp [sampleLoop], rfl, by simp, by simp⟩
  | succ k ih =>
    intro bl out hk hsel
    obtain ⟨s, hs⟩ : ∃ s, s = if k + 1 = 1 then 1 else sel (k + 1) := ⟨_, rfl⟩
    have hs1 : 0 < s ∧ s ≤ k + 1 := by
      rw [hs]
      split
      · omega
      · have := hsel (k + 1) (by omega) le_rfl
        omega
    obtain ⟨i, h1, h2, h3⟩ := nthTrue_spec bl 0 s hs1.1 (by omega)
    rw [sampleLoop, ← hs, h1]
    simp only [Nat.zero_add]
    have hc := count_set_false h3
    obtain ⟨js, g1, g2, g3, g4⟩ := ih (bl.set i false) (out ++ [l.getD i default]) (by omega) (fun i h h' => hsel i h (by omega))
    have g5 : ∀ j ∈ js, j ≠ i ∧ bl.getD j false = true := fun j hj => by
      have := g4 j hj
      rw [getD_set_bool h2] at this
      split at this
      · simp at this
      · exact ⟨by assumption, this⟩
    refine ⟨i :: js, by rw [g1]; simp, by simp [g2], ?_, ?_⟩
    · rw [List.nodup_cons]; exact ⟨fun h => (g5 i h).1 rfl, g3⟩
    · intro j hj
      rcases List.mem_cons.1 hj with rfl | hj
      · exact h3
      · exact (g5 j hj).2

/-- `RandomSample`: `min(n, size)` elements from pairwise different positions -/
theorem randomSample_spec {α : Type*} [Inhabited α] (l : List α) (n : ℕ) (sel : ℕ → ℕ) (hsel : ∀ i, 2 ≤ i → i ≤ min n l.length → 1 ≤ sel i ∧ sel i ≤ i) :
    ∃ js : List ℕ, js.Nodup ∧ (∀ j ∈ js, j < l.length) ∧ js.length = min n l.length ∧ (randomSample l n sel).map some = js.map (fun j => l[j]?) := by
  obtain ⟨js, h1, h2, h3, h4⟩ := sampleLoop_spec l sel (min n l.length) (List.replicate l.length true) [] (by simp) hsel
  have h5 : ∀ j ∈ js, j < l.length := fun j hj => by
    have := h4 j hj
    by_contra hc
    simp [List.getD, hc] at this
  refine ⟨js, h3, h5, h2, ?_⟩
  unfold randomSample
  rw [h1, List.nil_append, List.map_map]
  refine List.map_congr_left fun j hj => ?_
  have := h5 j hj
  simp [this]

/-- the search stays in a prefix that contains enough free positions -/
theorem nthTrue_prefix : ∀ (bl : List Bool) (j s N : ℕ), 0 < s → s ≤ (bl.take N).count true → ∀ {i}, nthTrue bl j s = some i → i < j + N
  | [], _, s, N, h, h', _, _ => by simp at h'; omega
  | b :: bl, j, s, 0, h, h', _, _ => by simp at h'; omega
  | b :: bl, j, s, N + 1, h, h', i, hi => by
    rw [List.take_succ_cons] at h'
    rw [nthTrue] at hi
    cases b with
    | false =>
      rw [List.count_cons_of_ne (by simp)] at h'
      rw [if_neg (by simp)] at hi
      have := nthTrue_prefix bl (j + 1) s N h h' hi
      omega
    | true =>
      rw [List.count_cons_self] at h'
      rw [if_pos rfl] at hi
      split at hi
      · have := Option.some.inj hi; omega
      · have := nthTrue_prefix bl (j + 1) (s - 1) N (by omega) (by omega) hi
        omega

theorem count_take_set {bl : List Bool} {i N : ℕ} (h : bl.getD i false = true) (hi : i < N) : ((bl.set i false).take N).count true + 1 = (bl.take N).count true := by
  rw [List.take_set]
  refine count_set_false ?_
  rw [List.getD_eq_getElem?_getD, List.getElem?_take_of_lt hi, ← List.getD_eq_getElem?_getD]
  exact h

theorem sampleLoop_prefix {α : Type*} [Inhabited α] (l : List α) (sel : ℕ → ℕ) (N : ℕ) : ∀ k (bl : List Bool) (out : List α), k = (bl.take N).count true →
    (∀ i, 2 ≤ i → i ≤ k → 1 ≤ sel i ∧ sel i ≤ i) →
    ∃ js : List ℕ, sampleLoop l sel k bl out = out ++ js.map (fun j => l.getD j default) ∧ js.length = k ∧ js.Nodup ∧ ∀ j ∈ js, j < N ∧ bl.getD j false = true := by
  intro k
  induction k with
  | zero => intro bl out _ _; exact ⟨[], by simp [sampleLoop], rfl, by simp, by simp⟩
  | succ k ih =>
    intro bl out hk hsel
    obtain ⟨s, hs⟩ : ∃ s, s = if k + 1 = 1 then 1 else sel (k + 1) := ⟨_, rfl⟩
    have hs1 : 0 < s ∧ s ≤ k + 1 := by
      rw [hs]
      split
      · omega
      · have := hsel (k + 1) (by omega) le_rfl
        omega
    have hle : (bl.take N).count true ≤ bl.count true := (List.take_sublist N bl).count_le true
    obtain ⟨i, h1, h2, h3⟩ := nthTrue_spec bl 0 s hs1.1 (by omega)
    have hiN := nthTrue_prefix bl 0 s N hs1.1 (by omega) h1
    rw [sampleLoop, ← hs, h1]
    simp only [Nat.zero_add] at hiN ⊢
    have hc := count_take_set h3 hiN
    obtain ⟨js, g1, g2, g3, g4⟩ := ih (bl.set i false) (out ++ [l.getD i default]) (by omega) (fun i h h' => hsel i h (by omega))
    have g5 : ∀ j ∈ js, j ≠ i ∧ j < N ∧ bl.getD j false = true := fun j hj => by
      have := (g4 j hj).2
      rw [getD_set_bool h2] at this
      split at this
      · simp at this
      · exact ⟨by assumption, (g4 j hj).1, this⟩
    refine ⟨i :: js, by rw [g1]; simp, by simp [g2], ?_, ?_⟩
    · rw [List.nodup_cons]; exact ⟨fun h => (g5 i h).1 rfl, g3⟩
    · intro j hj
      rcases List.mem_cons.1 hj with rfl | hj
      · exact ⟨hiN, h3⟩
      · exact (g5 j hj).2

/-- the sample is always a permutation of the first `min(n, size)` elements -/
theorem randomSample_prefix {α : Type*} [Inhabited α] (l : List α) (n : ℕ) (sel : ℕ → ℕ) (hsel : ∀ i, 2 ≤ i → i ≤ min n l.length → 1 ≤ sel i ∧ sel i ≤ i) :
    (randomSample l n sel).Perm (l.take n) := by
  obtain ⟨js, h1, h2, h3, h4⟩ := sampleLoop_prefix l sel (min n l.length) (min n l.length) (List.replicate l.length true) [] (by simp) hsel
  have hp : js.Perm (List.range (min n l.length)) := by
    refine (List.subperm_of_subset h3 fun j hj => List.mem_range.2 (h4 j hj).1).perm_of_length_le ?_
    rw [List.length_range, h2]
  unfold randomSample
  rw [h1, List.nil_append]
  refine (hp.map _).trans (List.Perm.of_eq ?_)
  refine List.ext_getElem (by simp) fun i hi hi' => ?_
  simp only [List.length_map, List.length_range] at hi
  simp only [List.getElem_map, List.getElem_range, List.getElem_take]
  simp [List.getD, show i < l.length by omega]

/-! ## rational coefficients -/

/-- `random_polynomial_QQ`: every coefficient is the integer coefficient over an integer of the range -/
theorem randomQQ_spec (M : MonoOrd vc mc) {p : PV Mono ℤ} (hp : PolyOK vc mc p) (dens : ℕ → ℤ) {dm : ℤ} (hd : ∀ i, 1 ≤ dens i ∧ dens i ≤ dm) :
    PolyOK vc mc (randomQQ vc mc p dens) ∧ (val (randomQQ vc mc p dens)).support = (val p).support ∧
      ∀ s, ∃ d : ℤ, 1 ≤ d ∧ d ≤ dm ∧ (val (randomQQ vc mc p dens)).coeff s = (((val p).coeff s : ℤ) : ℚ) / (d : ℚ) := by
  obtain ⟨l, hl⟩ : ∃ l : PV Mono ℚ, l = p.zipIdx.map fun x => (x.1.1, ((x.1.2 : ℚ) / (dens x.2 : ℚ))) := ⟨_, rfl⟩
  have e1 : (l.map fun t => expo t.1) = p.map fun t => expo t.1 := by
    have : (l.map fun t => expo t.1) = (p.zipIdx.map Prod.fst).map fun t => expo t.1 := by rw [hl, List.map_map, List.map_map]; rfl
    rw [this, List.zipIdx_map_fst]
  have nd : (p.map fun t => expo t.1).Nodup := by
    rw [List.Nodup, List.pairwise_map]
    refine List.Pairwise.imp_of_mem (fun {a b} ha hb hab he => ?_) hp.canon.1
    have := expo_inj M.vo (hp.monos a ha) (hp.monos b hb) he
    rw [this] at hab
    have hirr := M.lawful.irrefl b.1 (hp.monos b hb)
    rw [hab] at hirr
    exact absurd hirr (by simp)
  have hmem : ∀ t ∈ l, ∃ c i, (t.1, c) ∈ p ∧ t.2 = (c : ℚ) / (dens i : ℚ) := fun t ht => by
    rw [hl] at ht
    obtain ⟨x, hx, rfl⟩ := List.mem_map.1 ht
    refine ⟨x.1.2, x.2, ?_, rfl⟩
    have : x.1 ∈ p.zipIdx.map Prod.fst := List.mem_map_of_mem hx
    rwa [List.zipIdx_map_fst] at this
  have hpos : ∀ t ∈ l, ∀ x ∈ t.1.data, 0 ≤ x.2 := fun t ht x hx => by
    obtain ⟨c, _, hm, _⟩ := hmem t ht
    exact ((hp.monos _ hm).pos x hx).le
  obtain ⟨r1, r2⟩ := normalize_nodup M hpos (by rw [e1]; exact nd)
  have hd0 : ∀ i, (dens i : ℚ) ≠ 0 := fun i => by have := (hd i).1; exact_mod_cast (by omega : dens i ≠ 0)
  have h0 : ∀ t ∈ l, t.2 ≠ 0 := fun t ht => by
    obtain ⟨c, i, hm, h⟩ := hmem t ht
    rw [h]
    exact div_ne_zero (by exact_mod_cast hp.canon.2 _ hm) (hd0 i)
  have hsup : (val l).support = (val p).support := by
    rw [support_list (by rw [e1]; exact nd) h0, e1, support_list nd fun t ht => hp.canon.2 t ht]
  have hrw : randomQQ vc mc p dens = polyNormalize vc mc l := by rw [hl]; rfl
  rw [hrw, r2]
  refine ⟨r1, hsup, fun s => ?_⟩
  by_cases hs : s ∈ (val l).support
  · rw [support_list (by rw [e1]; exact nd) h0, List.mem_toFinset] at hs
    obtain ⟨t, ht, rfl⟩ := List.mem_map.1 hs
    obtain ⟨c, i, hm, h⟩ := hmem t ht
    refine ⟨dens i, (hd i).1, (hd i).2, ?_⟩
    rw [coeff_list_mem (by rw [e1]; exact nd) ht, coeff_list_mem nd hm, h]
  · refine ⟨dens 0, (hd 0).1, (hd 0).2, ?_⟩
    have h1 := notMem_support_iff.1 hs
    rw [hsup] at hs
    rw [h1, notMem_support_iff.1 hs]; simp

end CLPoly.Random
