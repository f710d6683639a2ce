import Verif.Upoly.URoot
import Verif.Props.RealRoot
import Mathlib.NumberTheory.Real.Irrational

/-! # C57: comparison of real algebraic numbers (`uroot`)

`Den r v` (Upoly/URoot.lean): the object `r` stands for the extended real `v` — it is one of the two infinities, or `v` is a simple root of its polynomial
and the only root in its interval, whose ends are no roots unless the interval is the point `v`.  `cmpSign a b` is 1, 0, -1 for `a < b`, `a = b`, `a > b`. -/

namespace CLPoly
open Upoly Polynomial

/-- the entries that `uspensky` returns for squarefree, pairwise coprime polynomials are such objects (`realroot` builds its result from them) -/
theorem C57_from_isolation {gs : List (UPoly ℤ)} (hc : ∀ g ∈ gs, Is g (toPoly g)) (hdeg : ∀ g ∈ gs, (toPoly g).natDegree < 2 ^ 63 - 1)
    (hco : gs.Pairwise fun g h => IsCoprime ((toPoly g).map (Int.castRingHom ℚ)) ((toPoly h).map (Int.castRingHom ℚ)))
    (hs : ∀ g ∈ gs, Squarefree ((toPoly g).map (Int.castRingHom ℚ))) {fuel : ℕ} {l : List (ℕ × (ℚ × ℚ))} (hl : uspenskyM fuel gs = some l) :
    ∀ e ∈ l, ∃ g x, gs[e.1]? = some g ∧ Den (URoot.mk' g e.2.1 e.2.2) (x : ℝ) ∧ aeval x (toPoly g) = 0 := by
  intro e he
  have h0 : ∀ g ∈ gs, toPoly g ≠ 0 := by
    intro g hg hz
    have := hs g hg
    rw [hz] at this
    simp at this
  obtain ⟨h1, _, _⟩ := C36_uspensky_list hc h0 hco hl
  obtain ⟨g, hg, ⟨x, ⟨hx1, hx2, hx⟩, hu⟩, hi, _⟩ := h1 e he
  have hm := List.mem_of_getElem? hg
  refine ⟨g, x, hg, Or.inr (Or.inr ⟨x, rfl, ⟨rfl, (hc g hm).canon, hdeg g hm, hx, squarefree_no_multiple (hs g hm) x hx, ?_⟩⟩), hx⟩
  rcases hi with hi | ⟨i1, i2, i3, i4⟩
  · left
    rw [← hi] at hx2
    have : (e.2.1 : ℝ) = x := le_antisymm hx1 hx2
    exact ⟨this, by show ((e.2.2 : ℚ) : ℝ) = x; rw [← hi]; exact this⟩
  · right
    refine ⟨lt_of_le_of_ne hx1 fun h : (e.2.1 : ℝ) = x => i3 (by rw [h]; exact hx), lt_of_le_of_ne hx2 fun h : x = (e.2.2 : ℝ) => i4 (by rw [← h]; exact hx), i3, i4, ?_⟩
    intro y y1 y2 y3
    exact hu y ⟨y1.le, y2.le, y3⟩

/-- `uroot::comp(r, q)` with a rational number: the answer is right and `r` still stands for the same number -/
theorem C57_compare_rational {r : URoot} {v : EReal} (h : Den r v) (q : ℚ) :
    (urCmpQ r q).1 = cmpSign v ((q : ℝ) : EReal) ∧ Den (urCmpQ r q).2 v := by
  rcases h with ⟨hi, rfl⟩ | ⟨hi, rfl⟩ | ⟨x, rfl, hx⟩
  · have e : urCmpQ r q = (-1, r) := by unfold urCmpQ; rw [if_neg (by rw [hi]; decide), if_pos hi]
    rw [e]
    exact ⟨(cmpSign_gt (EReal.coe_lt_top _)).symm, Or.inl ⟨hi, rfl⟩⟩
  · have e : urCmpQ r q = (1, r) := by unfold urCmpQ; rw [if_pos hi]
    rw [e]
    exact ⟨(cmpSign_lt (EReal.bot_lt_coe _)).symm, Or.inr (Or.inl ⟨hi, rfl⟩)⟩
  · obtain ⟨h1, h2⟩ := urCmpQ_specR hx q
    refine ⟨?_, Or.inr (Or.inr ⟨x, rfl, h2⟩)⟩
    rw [h1]
    unfold cmpSign
    simp only [EReal.coe_lt_coe_iff, EReal.coe_eq_coe_iff]

/-- `uroot::comp(r1, r2)`: both objects still stand for the same numbers; equality is decided correctly; and the order is right **except** in one situation: the operand called
greater has been reduced to a point, which is the left end of the interval of the other operand — and then it is in fact the smaller one.  The exception does occur
(`C57_compare_wrong_refuted`), so the full property, `c = cmpSign v1 v2` always, is false. -/
theorem C57_compare_partial {prev : Nat → Option Nat} (hprev : PrevOK prev) {rounds fuel : Nat} {r1 r2 : URoot} {v1 v2 : EReal} (h1 : Den r1 v1) (h2 : Den r2 v2)
    {c : ℤ} {a b : URoot} (h : urCmp prev rounds fuel r1 r2 = some (c, a, b)) :
    Den a v1 ∧ Den b v2 ∧ (c = 0 ↔ v1 = v2) ∧
      (c = cmpSign v1 v2 ∨
        (c = 1 ∧ v2 < v1 ∧ b.left = b.right ∧ a.left = b.left ∧ a.left ≠ a.right ∧ r1.left ≠ r1.right ∧ r2.left ≠ r2.right) ∨
        (c = -1 ∧ v1 < v2 ∧ a.left = a.right ∧ b.left = a.left ∧ b.left ≠ b.right ∧ r1.left ≠ r1.right ∧ r2.left ≠ r2.right)) := by
  have triv : ∀ {c : ℤ}, c = cmpSign v1 v2 → (c = 0 ↔ v1 = v2) := by
    intro c hc
    rw [hc]
    unfold cmpSign
    split
    · rename_i hlt
      exact ⟨fun hh => by simp at hh, fun hh => absurd hh hlt.ne⟩
    · split
      · rename_i he; exact ⟨fun _ => he, fun _ => rfl⟩
      · rename_i he; exact ⟨fun hh => by simp at hh, fun hh => absurd hh he⟩
  have d1 := h1
  have d2 := h2
  rcases h1 with ⟨hi, rfl⟩ | ⟨hi, rfl⟩ | ⟨x1, rfl, hx1⟩
  · unfold urCmp at h
    rw [if_neg (by rw [hi]; decide), if_pos hi] at h
    cases h
    have key : -(if r2.inf = 1 then (0 : ℤ) else 1) = cmpSign (⊤ : EReal) v2 := by
      rcases h2 with ⟨hj, rfl⟩ | ⟨hj, rfl⟩ | ⟨x2, rfl, hx2⟩
      · rw [if_pos hj, cmpSign_self]; rfl
      · rw [if_neg (by rw [hj]; decide), cmpSign_gt bot_lt_top]
      · rw [if_neg (by rw [hx2.inf]; decide), cmpSign_gt (EReal.coe_lt_top _)]
    exact ⟨d1, d2, triv key, Or.inl key⟩
  · unfold urCmp at h
    rw [if_pos hi] at h
    cases h
    have key : (if r2.inf = -1 then (0 : ℤ) else 1) = cmpSign (⊥ : EReal) v2 := by
      rcases h2 with ⟨hj, rfl⟩ | ⟨hj, rfl⟩ | ⟨x2, rfl, hx2⟩
      · rw [if_neg (by rw [hj]; decide), cmpSign_lt bot_lt_top]
      · rw [if_pos hj, cmpSign_self]
      · rw [if_neg (by rw [hx2.inf]; decide), cmpSign_lt (EReal.bot_lt_coe _)]
    exact ⟨d1, d2, triv key, Or.inl key⟩
  · rcases h2 with ⟨hj, rfl⟩ | ⟨hj, rfl⟩ | ⟨x2, rfl, hx2⟩
    · unfold urCmp at h
      rw [if_neg (by rw [hx1.inf]; decide), if_neg (by rw [hx1.inf]; decide), if_pos hj] at h
      cases h
      have key : (1 : ℤ) = cmpSign (x1 : EReal) ⊤ := (cmpSign_lt (EReal.coe_lt_top _)).symm
      exact ⟨d1, d2, triv key, Or.inl key⟩
    · unfold urCmp at h
      rw [if_neg (by rw [hx1.inf]; decide), if_neg (by rw [hx1.inf]; decide), if_neg (by rw [hj]; decide), if_pos hj] at h
      cases h
      have key : (-1 : ℤ) = cmpSign (x1 : EReal) ⊥ := (cmpSign_gt (EReal.bot_lt_coe _)).symm
      exact ⟨d1, d2, triv key, Or.inl key⟩
    · obtain ⟨g1, g2, g3⟩ := urCmp_specR hprev hx1 hx2 h
      have e : cmpSign (x1 : EReal) (x2 : EReal) = cmpSign x1 x2 := by
        unfold cmpSign
        simp only [EReal.coe_lt_coe_iff, EReal.coe_eq_coe_iff]
      refine ⟨Or.inr (Or.inr ⟨x1, rfl, g1⟩), Or.inr (Or.inr ⟨x2, rfl, g2⟩), ?_, ?_⟩
      · rcases g3 with g3 | ⟨⟨rfl, g4, _⟩ | ⟨rfl, g4, _⟩, _⟩
        · exact triv (by rw [g3, e])
        · exact ⟨fun hh => by simp at hh, fun hh => absurd (EReal.coe_eq_coe_iff.1 hh) g4.ne'⟩
        · exact ⟨fun hh => by simp at hh, fun hh => absurd (EReal.coe_eq_coe_iff.1 hh) g4.ne⟩
      · rcases g3 with g3 | ⟨⟨rfl, g4, g5, g6, g7⟩ | ⟨rfl, g4, g5, g6, g7⟩, s1, s2⟩
        · exact Or.inl (by rw [g3, e])
        · exact Or.inr (Or.inl ⟨rfl, EReal.coe_lt_coe_iff.2 g4, g5, g6, g7, s1, s2⟩)
        · exact Or.inr (Or.inr ⟨rfl, EReal.coe_lt_coe_iff.2 g4, g5, g6, g7, s1, s2⟩)

/-- in particular the answer is right when neither number is rational -/
theorem C57_compare_irrational {prev : Nat → Option Nat} (hprev : PrevOK prev) {rounds fuel : Nat} {r1 r2 : URoot} {x1 x2 : ℝ} (h1 : Den r1 x1) (h2 : Den r2 x2)
    (i1 : Irrational x1) (i2 : Irrational x2) {c : ℤ} {a b : URoot} (h : urCmp prev rounds fuel r1 r2 = some (c, a, b)) : c = cmpSign x1 x2 := by
  obtain ⟨da, db, _, h3⟩ := C57_compare_partial hprev h1 h2 h
  have e : cmpSign (x1 : EReal) (x2 : EReal) = cmpSign x1 x2 := by
    unfold cmpSign
    simp only [EReal.coe_lt_coe_iff, EReal.coe_eq_coe_iff]
  have pt : ∀ {r : URoot} {x : ℝ}, Den r x → Irrational x → r.left ≠ r.right := by
    intro r x hd hx hs
    rcases hd with ⟨_, hh⟩ | ⟨_, hh⟩ | ⟨y, hh, hy⟩
    · exact EReal.coe_ne_top _ hh
    · exact EReal.coe_ne_bot _ hh
    · rw [EReal.coe_eq_coe_iff] at hh
      subst hh
      exact hx ⟨r.left, hy.single hs⟩
  rcases h3 with h3 | ⟨_, _, hs, _⟩ | ⟨_, _, hs, _⟩
  · rw [h3, e]
  · exact absurd hs (pt db i2)
  · exact absurd hs (pt da i1)

/-- and when one of the operands is a point already: so asking the same question a second time gives the right answer, whatever the first one was -/
theorem C57_compare_again {prev : Nat → Option Nat} (hprev : PrevOK prev) {rounds fuel : Nat} {r1 r2 : URoot} {v1 v2 : EReal} (h1 : Den r1 v1) (h2 : Den r2 v2)
    {c : ℤ} {a b : URoot} (h : urCmp prev rounds fuel r1 r2 = some (c, a, b)) (hw : c ≠ cmpSign v1 v2)
    {rounds' fuel' : Nat} {c' : ℤ} {a' b' : URoot} (h' : urCmp prev rounds' fuel' a b = some (c', a', b')) : c' = cmpSign v1 v2 := by
  obtain ⟨da, db, _, h3⟩ := C57_compare_partial hprev h1 h2 h
  obtain ⟨_, _, _, h4⟩ := C57_compare_partial hprev da db h'
  rcases h4 with h4 | h4 | h4
  · exact h4
  · rcases h3 with h3 | h3 | h3
    · exact absurd h3 hw
    · exact absurd h3.2.2.1 h4.2.2.2.2.2.2
    · exact absurd h3.2.2.1 h4.2.2.2.2.2.1
  · rcases h3 with h3 | h3 | h3
    · exact absurd h3 hw
    · exact absurd h3.2.2.1 h4.2.2.2.2.2.2
    · exact absurd h3.2.2.1 h4.2.2.2.2.2.1

/-- the comparison answers whenever `polynomial_GCD` of the two polynomials does -/
theorem C57_compare_returns {prev : Nat → Option Nat} (hprev : PrevOK prev) {rounds : Nat} {r1 r2 : URoot} {v1 v2 : EReal} (h1 : Den r1 v1) (h2 : Den r2 v2)
    (hg : ∃ p, gcdZ prev rounds r1.poly r2.poly = some p) (hg' : ∃ p, gcdZ prev rounds r2.poly r1.poly = some p) :
    ∃ N, ∀ fuel, N ≤ fuel → ∃ y, urCmp prev rounds fuel r1 r2 = some y := by
  by_cases a1 : r1.inf = -1
  · exact ⟨0, fun fuel _ => ⟨_, by unfold urCmp; rw [if_pos a1]⟩⟩
  by_cases a2 : r1.inf = 1
  · exact ⟨0, fun fuel _ => ⟨_, by unfold urCmp; rw [if_neg a1, if_pos a2]⟩⟩
  by_cases b1 : r2.inf = 1
  · exact ⟨0, fun fuel _ => ⟨_, by unfold urCmp; rw [if_neg a1, if_neg a2, if_pos b1]⟩⟩
  by_cases b2 : r2.inf = -1
  · exact ⟨0, fun fuel _ => ⟨_, by unfold urCmp; rw [if_neg a1, if_neg a2, if_neg b1, if_pos b2]⟩⟩
  rcases h1 with ⟨hi, _⟩ | ⟨hi, _⟩ | ⟨x1, _, hx1⟩
  · exact absurd hi a2
  · exact absurd hi a1
  rcases h2 with ⟨hi, _⟩ | ⟨hi, _⟩ | ⟨x2, _, hx2⟩
  · exact absurd hi b1
  · exact absurd hi b2
  exact urCmp_returnsR hprev hx1 hx2 hg hg'

/-- `shrinkinterval` keeps the number, and halves the interval or reduces it to a point -/
theorem C57_shrink {r : URoot} {x : ℝ} (h : DenR r x) :
    DenR (urShrink r) x ∧ ((urShrink r).left = (urShrink r).right ∨ (urShrink r).right - (urShrink r).left = (r.right - r.left) / 2) := by
  unfold urShrink
  by_cases hs : r.left ≠ r.right
  · rw [if_pos hs]
    refine ⟨h.check _, ?_⟩
    obtain ⟨l1, l2⟩ := h.lt hs
    have : r.left < r.right := by exact_mod_cast l1.trans l2
    rw [urCheck_eq h hs (by linarith) (by linarith)]
    split
    · left; rfl
    · right
      split
      · show r.right - _ = _
        ring
      · show _ - r.left = _
        ring
  · rw [if_neg hs]
    exact ⟨h, Or.inl (not_not.1 hs)⟩

/-- the six operators between two objects and the six operators between an object and a rational number mean what they say, given a right answer of `comp` -/
theorem C57_operators (v w : EReal) :
    urOps (cmpSign v w) = (decide (v = w), decide (v < w), decide (v > w), decide (v ≤ w), decide (v ≥ w), decide (v ≠ w)) ∧
      urOpsQ (cmpSign v w) = (decide (v = w), decide (v < w), decide (v > w), decide (v ≤ w), decide (v ≥ w), decide (v ≠ w)) := by
  unfold urOps urOpsQ
  rcases lt_trichotomy v w with h | rfl | h
  · rw [cmpSign_lt h]
    simp [h, h.ne, h.le, h.not_ge, h.not_gt]
  · rw [cmpSign_self]
    simp
  · rw [cmpSign_gt h]
    simp [h, h.ne', h.le, h.not_ge, h.not_gt]

/-- the two objects that `uspensky` finds for `x² - 2` (√2) and for `4x - 5` (5/4) have the interval `(1, 3/2)`; `comp` says `√2 < 5/4`, and, asked again with the objects it leaves, says
the opposite; asked the other way round it is right at once -/
theorem C57_compare_wrong_refuted :
    uspenskyM 12 [[(2, 1), (0, -2)]] = some [(0, (-3 / 2, -1)), (0, (1, 3 / 2))] ∧ uspenskyM 12 [[(1, 4), (0, -5)]] = some [(0, (1, 3 / 2))] ∧
    urCmp (fun _ => none) 0 5 (URoot.mk' [(2, 1), (0, -2)] 1 (3 / 2)) (URoot.mk' [(1, 4), (0, -5)] 1 (3 / 2)) =
      some (1, URoot.mk' [(2, 1), (0, -2)] (5 / 4) (3 / 2), URoot.mk' [(1, 4), (0, -5)] (5 / 4) (5 / 4)) ∧
    (urCmp (fun _ => none) 0 5 (URoot.mk' [(2, 1), (0, -2)] (5 / 4) (3 / 2)) (URoot.mk' [(1, 4), (0, -5)] (5 / 4) (5 / 4))).map Prod.fst = some (-1) ∧
    (urCmp (fun _ => none) 0 5 (URoot.mk' [(1, 4), (0, -5)] 1 (3 / 2)) (URoot.mk' [(2, 1), (0, -2)] 1 (3 / 2))).map Prod.fst = some 1 ∧
    (5 / 4 : ℝ) < Real.sqrt 2 := by
  refine ⟨by decide +kernel, by decide +kernel, by decide +kernel, by decide +kernel, by decide +kernel, ?_⟩
  exact Real.lt_sqrt_of_sq_lt (by norm_num)

/-- the object for √2 of the counterexample -/
example : Den (URoot.mk' [(2, 1), (0, -2)] 1 (3 / 2)) (Real.sqrt 2 : ℝ) := by
  have e : (toPoly [(2, 1), (0, -2)] : ℤ[X]) = X ^ 2 - 2 := by simp [toPoly, ← X_pow_eq_monomial, sub_eq_add_neg]
  have ev : ∀ y : ℝ, aeval y (toPoly [(2, 1), (0, -2)] : ℤ[X]) = y ^ 2 - 2 := fun y => by
    rw [e, map_sub, map_pow, aeval_X, map_ofNat]
  have hs : Real.sqrt 2 ^ 2 = 2 := Real.sq_sqrt (by norm_num)
  have h1 : (1 : ℝ) < Real.sqrt 2 := Real.lt_sqrt_of_sq_lt (by norm_num)
  have h2 : Real.sqrt 2 < 3 / 2 := by rw [Real.sqrt_lt' (by norm_num)]; norm_num
  have d : (toPoly [(2, 1), (0, -2)] : ℤ[X]).natDegree = 2 := by rw [e]; exact natDegree_X_pow_sub_C
  refine Or.inr (Or.inr ⟨_, rfl, ⟨rfl, ⟨by simp [URoot.mk', Upoly.comp], by simp [URoot.mk']⟩, ?_, ?_, ?_, Or.inr ⟨?_, ?_, ?_, ?_, ?_⟩⟩⟩)
  · show (toPoly [(2, 1), (0, -2)] : ℤ[X]).natDegree < _
    rw [d]; norm_num
  · show aeval _ (toPoly [(2, 1), (0, -2)] : ℤ[X]) = 0
    rw [ev, hs]; norm_num
  · show aeval _ (Polynomial.derivative (toPoly [(2, 1), (0, -2)] : ℤ[X])) ≠ 0
    rw [e, derivative_sub, derivative_X_pow, derivative_ofNat, sub_zero, map_mul, map_pow, aeval_X]
    refine mul_ne_zero ?_ (pow_ne_zero _ (by positivity))
    rw [aeval_C]; norm_num
  · show ((1 : ℚ) : ℝ) < _
    push_cast; exact h1
  · show _ < (((3 / 2 : ℚ)) : ℝ)
    push_cast; exact h2
  · show aeval (((1 : ℚ)) : ℝ) (toPoly [(2, 1), (0, -2)] : ℤ[X]) ≠ 0
    rw [ev]; norm_num
  · show aeval (((3 / 2 : ℚ)) : ℝ) (toPoly [(2, 1), (0, -2)] : ℤ[X]) ≠ 0
    rw [ev]; norm_num
  · intro y y1 y2 y3
    have y1 : (1 : ℝ) < y := by simpa [URoot.mk'] using y1
    have y3 : y ^ 2 - 2 = 0 := (ev y).symm.trans y3
    rw [← Real.sqrt_sq (by linarith : (0 : ℝ) ≤ y), show y ^ 2 = 2 by linarith]

end CLPoly
