import Verif.Dense.Lists

/-! `_mul`, `_poly_divrem` and the Euclidean gcd of `dense_upoly_zp`. -/

namespace CLPoly
namespace Dense
open Polynomial
variable {p : Nat}

theorem toP_take_of_degree {l : List Nat} {n : Nat} (h : (toP p l).degree < n) : toP p (l.take n) = toP p l := by
  ext i
  rw [coeff_toP]
  by_cases hi : i < n
  · rw [coeff_toP]
    simp [List.getD_eq_getElem?_getD, List.getElem?_take, hi]
  · rw [(degree_lt_iff_coeff_zero _ _).1 h i (by omega), List.getD_eq_default _ _ (by rw [List.length_take]; omega)]; simp

theorem degree_mul_toP_lt {A B : List Nat} (hA0 : A ≠ []) (hB0 : B ≠ []) :
    (toP p A * toP p B).degree < ((A.length + B.length - 1 : Nat) : WithBot Nat) := by
  have hApos : 0 < A.length := List.length_pos_iff.2 hA0
  have hBpos : 0 < B.length := List.length_pos_iff.2 hB0
  by_cases hz : toP p A = 0 ∨ toP p B = 0
  · have : toP p A * toP p B = 0 := by rcases hz with h | h <;> simp [h]
    rw [this, degree_zero]; exact WithBot.bot_lt_coe _
  push Not at hz
  have hd1 := (natDegree_lt_iff_degree_lt hz.1).2 (degree_toP_lt A)
  have hd2 := (natDegree_lt_iff_degree_lt hz.2).2 (degree_toP_lt B)
  have := natDegree_mul_le (p := toP p A) (q := toP p B)
  exact lt_of_le_of_lt degree_le_natDegree (by exact_mod_cast (by omega : (toP p A * toP p B).natDegree < A.length + B.length - 1))

theorem mulRaw_spec (h0 : 0 < p) (hW : p < W) {A B : List Nat} (hA : Below p A) (hB : Below p B)
    (hB0 : B ≠ []) (hle : B.length ≤ A.length) (hlen : A.length < W) :
    Below p (mulRaw (precompute p) A B) ∧ toP p (mulRaw (precompute p) A B) = toP p A * toP p B ∧
      (mulRaw (precompute p) A B).length = A.length + B.length - 1 := by
  have hBpos : 0 < B.length := List.length_pos_iff.2 hB0
  have hA0 : A ≠ [] := List.length_pos_iff.1 (by omega)
  unfold mulRaw
  by_cases h : B.length < 16
  · rw [if_pos h]; exact classicalMul_spec h0 hW hA hB hA0 hB0 hlen
  · rw [if_neg h]
    obtain ⟨r1, r2, r3⟩ := karMul_spec h0 hW (A.length + 1) A.length A (pad A.length B) (by omega) (by omega) hlen rfl
      (pad_length hle) hA (hB.pad h0 _)
    rw [toP_pad] at r2
    refine ⟨r1.take _, ?_, by rw [List.length_take, r3]; omega⟩
    rw [toP_take_of_degree, r2]
    rw [r2]; exact degree_mul_toP_lt hA0 hB0

theorem mulAny_spec (h0 : 0 < p) (hW : p < W) {A B : List Nat} (hA : Below p A) (hB : Below p B)
    (lA : A.length < W) (lB : B.length < W) :
    Below p (mulAny (precompute p) A B) ∧ toP p (mulAny (precompute p) A B) = toP p A * toP p B ∧
      (mulAny (precompute p) A B).length = if A = [] ∨ B = [] then 0 else A.length + B.length - 1 := by
  unfold mulAny
  by_cases h : A.length > 0 ∧ B.length > 0
  · have hA0 := List.length_pos_iff.1 h.1
    have hB0 := List.length_pos_iff.1 h.2
    rw [if_pos h, if_neg (show ¬(A = [] ∨ B = []) by simp [hA0, hB0])]
    by_cases hle : A.length ≥ B.length
    · rw [if_pos hle]; exact mulRaw_spec h0 hW hA hB hB0 hle lA
    · rw [if_neg hle]
      obtain ⟨r1, r2, r3⟩ := mulRaw_spec h0 hW hB hA hA0 (by omega) lB
      exact ⟨r1, by rw [r2, mul_comm], by rw [r3]; omega⟩
  · have hz : A = [] ∨ B = [] := by
      by_contra hn; push Not at hn
      exact h ⟨List.length_pos_iff.2 hn.1, List.length_pos_iff.2 hn.2⟩
    rw [if_neg h, if_pos hz]
    refine ⟨Below.nil, ?_, rfl⟩
    rcases hz with e | e <;> simp [e]

/-- an array of the right length for its degree is canonical -/
theorem Can.of_length {l : List Nat} (hb : Below p l) (hl : (toP p l).degree < ((l.length - 1 : Nat) : WithBot Nat) → l = []) : Can p l := by
  refine ⟨hb, fun hne hz => ?_⟩
  have hpos := List.length_pos_iff.2 hne
  apply hne (hl _)
  rw [degree_lt_iff_coeff_zero]
  intro m hm
  rw [coeff_toP]
  by_cases hm' : m = l.length - 1
  · rw [hm', List.getD_eq_getElem _ _ (by omega), ← List.getLast_eq_getElem hne, hz]; simp
  · rw [List.getD_eq_default _ _ (by omega)]; simp

theorem Can.degree_eq {l : List Nat} (h : Can p l) (h0 : l ≠ []) : (toP p l).degree = ((l.length - 1 : Nat) : WithBot Nat) := by
  have hpos := List.length_pos_iff.2 h0
  apply le_antisymm
  · have := degree_toP_lt (p := p) l
    have e : ((l.length : Nat) : WithBot Nat) = ((l.length - 1 + 1 : Nat) : WithBot Nat) := by congr 1; omega
    rw [e] at this
    exact Order.lt_succ_iff.1 (by simpa [Nat.cast_withBot] using this)
  · by_contra hlt
    have := (h.length_le_iff (l.length - 1)).2 (not_le.1 hlt)
    omega

theorem Can.toP_ne {l : List Nat} (h : Can p l) (h0 : l ≠ []) : toP p l ≠ 0 := fun e => h0 (h.eq_nil_iff.2 e)

theorem mulAny_can [hp : Fact p.Prime] (hW : p < W) {A B : List Nat} (hA : Can p A) (hB : Can p B)
    (lA : A.length < W) (lB : B.length < W) : Can p (mulAny (precompute p) A B) := by
  obtain ⟨r1, r2, r3⟩ := mulAny_spec hp.out.pos hW hA.below hB.below lA lB
  apply Can.of_length r1
  rw [r2, r3]
  split
  · intro _
    have := r3; rw [if_pos (by assumption)] at this
    exact List.length_eq_zero_iff.1 this
  · rename_i hz
    push Not at hz
    have h1 := List.length_pos_iff.2 hz.1
    have h2 := List.length_pos_iff.2 hz.2
    rw [degree_mul, hA.degree_eq hz.1, hB.degree_eq hz.2]
    intro hlt
    exfalso
    have : (A.length - 1) + (B.length - 1) < A.length + B.length - 1 - 1 := by exact_mod_cast hlt
    omega

/-! ### division -/

theorem rowAdd_spec (hW : p < W) {cc : Nat} (hc : cc ≤ p) (t : Nat) (ht : t + 1 ≤ W) : ∀ (bs : List Nat) (ws : List Word3),
    bs.length ≤ ws.length → Below p bs → (∀ w ∈ ws, w.OK ∧ w.val ≤ t * (p * p)) →
    (rowAdd cc ws bs).length = ws.length ∧ (∀ w ∈ rowAdd cc ws bs, w.OK ∧ w.val ≤ (t + 1) * (p * p)) ∧
      toP p ((rowAdd cc ws bs).map Word3.val) = toP p (ws.map Word3.val) + C (cc : ZMod p) * toP p bs := by
  intro bs
  induction bs with
  | nil =>
    intro ws _ _ hw
    have e : rowAdd cc ws [] = ws := by cases ws <;> rfl
    rw [e]
    refine ⟨rfl, fun w hx => ⟨(hw w hx).1, (hw w hx).2.trans (Nat.mul_le_mul_right _ (by omega))⟩, by simp⟩
  | cons b bs ih =>
    intro ws hl hb hw
    cases ws with
    | nil => simp at hl
    | cons w ws =>
      rw [Below.cons] at hb
      obtain ⟨i1, i2, i3⟩ := ih ws (by simpa using hl) hb.2 (fun x hx => hw x (List.mem_cons_of_mem _ hx))
      obtain ⟨w1, w2⟩ := hw w List.mem_cons_self
      have hcb : cc * b ≤ p * p := Nat.mul_le_mul hc hb.1.le
      have hv : w.val + cc * b ≤ (t + 1) * (p * p) := by rw [Nat.add_mul]; omega
      have hppW : p * p < W * W := Nat.mul_lt_mul'' hW hW
      have hv2 : (t + 1) * (p * p) < W * (W * W) :=
        calc (t + 1) * (p * p) ≤ W * (p * p) := Nat.mul_le_mul_right _ ht
          _ < W * (W * W) := Nat.mul_lt_mul_of_pos_left hppW W_pos
      obtain ⟨m1, m2⟩ := mac_spec w1 (lt_of_le_of_lt hc hW) (lt_trans hb.1 hW) (lt_of_le_of_lt hv hv2)
      simp only [rowAdd]
      refine ⟨by simp [i1], ?_, ?_⟩
      · intro x hx
        rcases List.mem_cons.1 hx with rfl | hx
        · exact ⟨m1, by rw [m2]; exact hv⟩
        · exact i2 x hx
      · rw [List.map_cons, List.map_cons, toP_cons, toP_cons, toP_cons, i3, m2]
        push_cast
        rw [C_add, C_mul]; ring

theorem divLoop_spec [hp : Fact p.Prime] (hW : p < W) {B : List Nat} (hB : Can p B) (hB0 : B ≠ []) {inv : Nat} (hinv : inv < p)
    (hlc : (inv : ZMod p) * (B.getD (B.length - 1) 0 : Nat) = 1) (A : (ZMod p)[X]) :
    ∀ (ii t : Nat) (w : List Word3) (Q : List Nat), t + ii + 1 ≤ W → ii + (B.length - 1) ≤ w.length →
      (∀ x ∈ w, x.OK ∧ x.val ≤ (t + 1) * (p * p)) → Below p Q →
      toP p (w.map Word3.val) + X ^ ii * toP p Q * toP p B = A → (toP p (w.map Word3.val)).degree < ((ii + (B.length - 1) : Nat) : WithBot Nat) →
      ∃ w' Q', divLoop (precompute p) B (B.length - 1) inv ii w Q = (w', Q') ∧ w'.length = w.length ∧
        (∀ x ∈ w', x.OK ∧ x.val ≤ (t + ii + 1) * (p * p)) ∧ Below p Q' ∧ Q'.length = Q.length + ii ∧
        toP p (w'.map Word3.val) + toP p Q' * toP p B = A ∧ (toP p (w'.map Word3.val)).degree < ((B.length - 1 : Nat) : WithBot Nat) := by
  have h0 := hp.out.pos
  have hBpos := List.length_pos_iff.2 hB0
  obtain ⟨d, hd⟩ : ∃ d, d = B.length - 1 := ⟨_, rfl⟩
  have hBl : B.length = d + 1 := by omega
  rw [← hd] at hlc ⊢
  intro ii
  induction ii with
  | zero =>
    intro t w Q _ _ hw hQ e1 e2
    exact ⟨w, Q, rfl, rfl, hw, hQ, rfl, by simpa using e1, by simpa using e2⟩
  | succ i ih =>
    intro t w Q ht hl hw hQ e1 e2
    have hidx : i + d < w.length := by omega
    have hmem : w.getD (i + d) ⟨0, 0, 0⟩ ∈ w := by
      rw [List.getD_eq_getElem _ _ hidx]; exact List.getElem_mem hidx
    obtain ⟨o1, o2⟩ := hw _ hmem
    have hppW : p * p < W * W := Nat.mul_lt_mul'' hW hW
    have hbound : (t + 1) * (p * p) < p * (W * W) := by
      rw [← mul_assoc, mul_comm _ p]
      apply Nat.mul_lt_mul_of_pos_left _ h0
      calc (t + 1) * p ≤ W * p := Nat.mul_le_mul_right _ (by omega)
        _ < W * W := Nat.mul_lt_mul_of_pos_left hW W_pos
    obtain ⟨r1, r2⟩ := lllMod_spec' h0 hW o1 (lt_of_le_of_lt o2 hbound)
    obtain ⟨q1, q2⟩ := nmodMul_spec h0 hW r1 hinv
    obtain ⟨r, hr⟩ : ∃ r, r = lllMod (w.getD (i + d) ⟨0, 0, 0⟩) (precompute p) := ⟨_, rfl⟩
    obtain ⟨qi, hqi⟩ : ∃ q, q = nmodMul (precompute p) r inv := ⟨_, rfl⟩
    have hrc : (r : ZMod p) = (toP p (w.map Word3.val)).coeff (i + d) := by
      rw [hr, r2, coeff_toP, List.getD_eq_getElem (l := w.map Word3.val) _ (by simpa using hidx), List.getD_eq_getElem _ _ hidx]; simp
    rw [← hr] at q1 q2
    rw [← hqi] at q1 q2
    have hlead : (toP p B).coeff d = (B.getD d 0 : Nat) := coeff_toP _ _
    have hqlc : (qi : ZMod p) * (toP p B).coeff d = (toP p (w.map Word3.val)).coeff (i + d) := by
      rw [q2, hlead, mul_assoc, hlc, mul_one, hrc]
    -- the next accumulator array
    obtain ⟨w', hw'⟩ : ∃ w', w' = if qi ≠ 0 then w.take i ++ rowAdd (subW (precompute p).p qi) (w.drop i) B else w := ⟨_, rfl⟩
    have hstep : w'.length = w.length ∧ (∀ x ∈ w', x.OK ∧ x.val ≤ (t + 1 + 1) * (p * p)) ∧
        toP p (w'.map Word3.val) = toP p (w.map Word3.val) - X ^ i * C (qi : ZMod p) * toP p B := by
      rw [hw']
      by_cases hz : qi ≠ 0
      · rw [if_pos hz, precompute_p, subW_of_le hW q1.le]
        have hdrop : B.length ≤ (w.drop i).length := by rw [List.length_drop]; omega
        obtain ⟨s1, s2, s3⟩ := rowAdd_spec hW (Nat.sub_le p qi) (t + 1) (by omega) B (w.drop i) hdrop hB.below
          (fun x hx => hw x (List.mem_of_mem_drop hx))
        refine ⟨?_, ?_, ?_⟩
        · rw [List.length_append, s1, List.length_take, List.length_drop]; omega
        · intro x hx
          rcases List.mem_append.1 hx with hx | hx
          · have := hw x (List.mem_of_mem_take hx)
            exact ⟨this.1, this.2.trans (Nat.mul_le_mul_right _ (by omega))⟩
          · exact s2 x hx
        · rw [List.map_append, toP_append, s3, List.length_map, List.length_take, Nat.min_eq_left (by omega),
            Nat.cast_sub q1.le]
          have : toP p (w.map Word3.val) = toP p ((w.take i).map Word3.val) + X ^ i * toP p ((w.drop i).map Word3.val) := by
            rw [List.map_take, List.map_drop]; exact toP_take_drop' _ _
          rw [this]; simp; ring
      · rw [if_neg hz]
        push Not at hz
        refine ⟨rfl, fun x hx => ⟨(hw x hx).1, (hw x hx).2.trans (Nat.mul_le_mul_right _ (by omega))⟩, ?_⟩
        rw [hz]; simp
    obtain ⟨l', b', v'⟩ := hstep
    have hdeg : (toP p (w'.map Word3.val)).degree < ((i + d : Nat) : WithBot Nat) := by
      rw [degree_lt_iff_coeff_zero]
      intro m hm
      rw [v', coeff_sub, mul_assoc, coeff_X_pow_mul', if_pos (by omega), coeff_C_mul]
      by_cases hmd : m = i + d
      · subst hmd
        rw [Nat.add_sub_cancel_left, hqlc, sub_self]
      · rw [(degree_lt_iff_coeff_zero _ _).1 e2 m (by omega), coeff_toP, List.getD_eq_default _ _ (by omega)]
        simp
    obtain ⟨w2, Q2, g1, g2, g3, g4, g5, g6, g7⟩ := ih (t + 1) w' (qi :: Q) (by omega) (by omega) b'
      (Below.cons.2 ⟨q1, hQ⟩) (by rw [v', toP_cons, ← e1]; ring) hdeg
    refine ⟨w2, Q2, ?_, by rw [g2, l'], ?_, g4, by rw [g5]; simp; omega, g6, g7⟩
    · rw [← g1]
      have e : divLoop (precompute p) B d inv (i + 1) w Q =
        divLoop (precompute p) B d inv i
          (if nmodMul (precompute p) (lllMod (w.getD (i + d) ⟨0, 0, 0⟩) (precompute p)) inv ≠ 0 then
            w.take i ++ rowAdd (subW (precompute p).p (nmodMul (precompute p) (lllMod (w.getD (i + d) ⟨0, 0, 0⟩) (precompute p)) inv)) (w.drop i) B
            else w) (nmodMul (precompute p) (lllMod (w.getD (i + d) ⟨0, 0, 0⟩) (precompute p)) inv :: Q) := rfl
      rw [e, ← hr, ← hqi, ← hw']
    · intro x hx
      have := g3 x hx
      rwa [show t + 1 + i + 1 = t + (i + 1) + 1 by omega] at this

theorem toP_lll (h0 : 0 < p) (hW : p < W) : ∀ ws : List Word3, (∀ x ∈ ws, x.OK ∧ x.val < p * (W * W)) →
    Below p (ws.map fun w => lllMod w (precompute p)) ∧ toP p (ws.map fun w => lllMod w (precompute p)) = toP p (ws.map Word3.val) := by
  intro ws
  induction ws with
  | nil => intro _; exact ⟨Below.nil, rfl⟩
  | cons w ws ih =>
    intro h
    obtain ⟨i1, i2⟩ := ih (fun x hx => h x (List.mem_cons_of_mem _ hx))
    obtain ⟨s1, s2⟩ := lllMod_spec' h0 hW (h w List.mem_cons_self).1 (h w List.mem_cons_self).2
    exact ⟨Below.cons.2 ⟨s1, i1⟩, by rw [List.map_cons, List.map_cons, toP_cons, toP_cons, i2, s2]⟩

theorem getD_last {l : List Nat} (h : l ≠ []) : l.getD (l.length - 1) 0 = l.getLast h := by
  have := List.length_pos_iff.2 h
  rw [List.getD_eq_getElem _ _ (by omega), List.getLast_eq_getElem]

/-- the loop followed by the final reductions -/
theorem divCore_spec [hp : Fact p.Prime] (hW : p < W) {A B : List Nat} (hA : Below p A) (hB : Can p B) (hB0 : B ≠ [])
    (hle : B.length ≤ A.length) (hlen : A.length < W) :
    ∃ w' Q', divLoop (precompute p) B (B.length - 1) (nmodInv (precompute p) (B.getD (B.length - 1) 0)) (A.length - (B.length - 1))
        (A.map fun a => ⟨a, 0, 0⟩) [] = (w', Q') ∧ Below p Q' ∧
      Below p ((w'.take (B.length - 1)).map fun w => lllMod w (precompute p)) ∧
      toP p Q' * toP p B + toP p ((w'.take (B.length - 1)).map fun w => lllMod w (precompute p)) = toP p A ∧
      ((w'.take (B.length - 1)).map fun w => lllMod w (precompute p)).length = B.length - 1 := by
  have h0 := hp.out.pos
  have hBpos := List.length_pos_iff.2 hB0
  have hlcB : B.getD (B.length - 1) 0 < p := hB.below.getD h0 _
  have hlc0 : B.getD (B.length - 1) 0 ≠ 0 := by rw [getD_last hB0]; exact hB.trim hB0
  obtain ⟨i1, i2⟩ := nmodInv_spec hp.out hW hlcB hlc0
  have hmap : (A.map fun a => (⟨a, 0, 0⟩ : Word3)).map Word3.val = A := by
    rw [List.map_map]
    have : (Word3.val ∘ fun a => (⟨a, 0, 0⟩ : Word3)) = id := by funext a; simp [Word3.val]
    rw [this, List.map_id]
  have hp2 : p ≤ p * p := Nat.le_mul_of_pos_left _ h0
  obtain ⟨w', Q', g1, g2, g3, g4, _, g6, g7⟩ := divLoop_spec hW hB hB0 i1 i2 (toP p A) (A.length - (B.length - 1)) 0
    (A.map fun a => ⟨a, 0, 0⟩) [] (by omega) (by simp; omega)
    (by
      intro x hx
      rw [List.mem_map] at hx
      obtain ⟨a, ha, rfl⟩ := hx
      have := hA a ha
      exact ⟨⟨by dsimp only; omega, W_pos, W_pos⟩, by simp [Word3.val]; omega⟩) Below.nil
    (by rw [hmap]; simp) (by rw [hmap, show A.length - (B.length - 1) + (B.length - 1) = A.length by omega]; exact degree_toP_lt A)
  refine ⟨w', Q', g1, g4, ?_⟩
  have hb : ∀ x ∈ w'.take (B.length - 1), x.OK ∧ x.val < p * (W * W) := by
    intro x hx
    obtain ⟨k1, k2⟩ := g3 x (List.mem_of_mem_take hx)
    refine ⟨k1, lt_of_le_of_lt k2 ?_⟩
    rw [← mul_assoc, mul_comm _ p]
    apply Nat.mul_lt_mul_of_pos_left _ h0
    calc (0 + (A.length - (B.length - 1)) + 1) * p ≤ W * p := Nat.mul_le_mul_right _ (by omega)
      _ < W * W := Nat.mul_lt_mul_of_pos_left hW W_pos
  obtain ⟨l1, l2⟩ := toP_lll h0 hW _ hb
  refine ⟨l1, ?_, by rw [List.length_map, List.length_take, g2]; simp; omega⟩
  rw [l2, List.map_take, toP_take_of_degree g7, ← g6]; ring

theorem polyDivRem_spec [hp : Fact p.Prime] (hW : p < W) {A B : List Nat} (hA : Can p A) (hB : Can p B) (hB0 : B ≠ []) (hlen : A.length < W) :
    Can p (polyDivRem (precompute p) A B).1 ∧ Can p (polyDivRem (precompute p) A B).2 ∧
      toP p (polyDivRem (precompute p) A B).1 * toP p B + toP p (polyDivRem (precompute p) A B).2 = toP p A ∧
      (polyDivRem (precompute p) A B).2.length < B.length := by
  have hBpos := List.length_pos_iff.2 hB0
  unfold polyDivRem
  by_cases h : A.length < B.length
  · rw [if_pos h]; exact ⟨Can.nil, hA, by simp, h⟩
  · rw [if_neg h]
    obtain ⟨w', Q', g1, g2, g3, g4, g5⟩ := divCore_spec hW hA.below hB hB0 (by omega) hlen
    dsimp only
    rw [g1]
    refine ⟨Can.strip g2, Can.strip g3, by rw [toP_strip, toP_strip, g4], ?_⟩
    have := strip_length_le ((w'.take (B.length - 1)).map fun w => lllMod w (precompute p))
    dsimp only at this ⊢; omega

/-! ### Euclid -/

/-- `g` is a greatest common divisor of `a` and `b` -/
def IsGcd {R : Type*} [CommRing R] (g a b : R) : Prop := g ∣ a ∧ g ∣ b ∧ ∀ d, d ∣ a → d ∣ b → d ∣ g

theorem IsGcd.of_combo {R : Type*} [CommRing R] {g a b q r : R} (h : IsGcd g b r) (e : q * b + r = a) : IsGcd g a b :=
  ⟨e ▸ dvd_add (dvd_mul_of_dvd_right h.1 _) h.2.1, h.1, fun d h1 h2 => h.2.2 d h2
    ((dvd_add_right (dvd_mul_of_dvd_right h2 q)).1 (e ▸ h1))⟩

theorem IsGcd.zero_right {R : Type*} [CommRing R] (a : R) : IsGcd a a 0 := ⟨dvd_refl _, dvd_zero _, fun _ h _ => h⟩

theorem gcdEuclid_spec [hp : Fact p.Prime] (hW : p < W) (fuel : Nat) : ∀ A B : List Nat, Can p A → Can p B → A.length < W → B.length < W →
    B.length < fuel → Can p (gcdEuclid (precompute p) fuel A B) ∧ IsGcd (toP p (gcdEuclid (precompute p) fuel A B)) (toP p A) (toP p B) ∧
      (A ≠ [] ∨ B ≠ [] → gcdEuclid (precompute p) fuel A B ≠ []) := by
  induction fuel with
  | zero => intro A B _ _ _ _ h; omega
  | succ fuel ih =>
    intro A B hA hB lA lB hf
    simp only [gcdEuclid]
    by_cases h : B.length > 0
    · rw [if_pos h]
      have hB0 := List.length_pos_iff.1 h
      obtain ⟨_, d2, d3, d4⟩ := polyDivRem_spec hW hA hB hB0 lA
      obtain ⟨r1, r2, r3⟩ := ih B _ hB d2 lB (by omega) (by omega)
      exact ⟨r1, r2.of_combo d3, fun _ => r3 (Or.inl hB0)⟩
    · rw [if_neg h]
      have : B = [] := List.length_eq_zero_iff.1 (by omega)
      subst this
      exact ⟨hA, IsGcd.zero_right _, fun h => by simpa using h⟩

end Dense
end CLPoly
