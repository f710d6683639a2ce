import Verif.Wang.HenselMath

/-!
# Taylor coefficients: division by `x - a` is complete

In general the packed division in a lexicographic order may leave a remainder with terms that are divisible by the leading monomial (`C20_not_reduced`).  For the divisor `x - a` it cannot: no exponent grows.
-/

namespace CLPoly
namespace Mtshl
open Mono Mgcd Run Lift Factor MvPolynomial

section
variable {R : Type} [DecidableEq R] [Field R] {vc : Var → Var → Bool} (ho : VarOrd vc)

include ho in
/-- the terms of `x - a` -/
theorem linear_eq (x : Var) (a : R) : linear vc x a = (mkMono [(x, 1)], 1) :: if a ≠ 0 then [(Mono.one, -a)] else [] := by
  have hv : Valid vc (mkMono [(x, 1)]) := mkMono_valid (List.pairwise_singleton _ _) (by simp)
  unfold linear
  refine nrm_id ho ⟨?_, ?_, ?_⟩
  · intro t ht
    rcases List.mem_cons.1 ht with rfl | ht
    · exact hv
    · split at ht
      · rw [List.mem_singleton.1 ht]; exact one_valid
      · simp at ht
  · split
    · simp only [List.pairwise_cons, List.mem_singleton, forall_eq, List.not_mem_nil, false_imp_iff, implies_true, List.Pairwise.nil, and_true]
      rw [lexGt_iff ho hv (one_valid (vc := vc))]
      refine ⟨x, ?_, ?_⟩
      · simp [mkMono, Mono.one, E_cons, E_nil]
      · intro w hw
        simp only [mkMono, Mono.one, E_cons, E_nil]
        by_cases e : x = w
        · rw [e] at hw; exact absurd hw (by rw [ho.irrefl w trivial]; simp)
        · rw [if_neg e]; simp
    · exact List.pairwise_singleton _ _
  · intro t ht
    rcases List.mem_cons.1 ht with rfl | ht
    · exact one_ne_zero
    · split at ht
      · next h => rw [List.mem_singleton.1 ht]; simpa using h
      · simp at ht

theorem mul_one' (ho : VarOrd vc) {m : Mono} (h : Valid vc m) : Mono.mul vc m Mono.one = m :=
  (mul_valid ho h one_valid).ext ho h fun v => by rw [E_mul]; simp [Mono.one, E_nil]

include ho in
/-- the packed division by `x - a` recognises every quotient -/
theorem plan_lin {x : Var} {a : R} {p : PV Mono R} (hp : PolyOK vc (lexGt vc) p) (h63 : ∀ t ∈ p, t.1.deg < 2 ^ 63) (h2 : 1 < (linear vc x a).length) :
    DivPlan vc (codeLex R vc) p (linear vc x a) True := by
  obtain ⟨l1, l2⟩ := linear_spec ho x a
  have hq := l1.1
  have M := lex_ord ho
  have hdl : ∀ t ∈ linear vc x a, t.1.deg < 2 ^ 63 := fun t ht => by
    have := hq.deg_le_total M ht
    rw [l2] at this
    have h2 : (X x - C a : MvPolynomial Var R).totalDegree ≤ 1 := (totalDegree_sub _ _).trans (by rw [totalDegree_X, totalDegree_C]; simp)
    have h3 : ((X x - C a : MvPolynomial Var R).totalDegree : ℤ) ≤ 1 := by exact_mod_cast h2
    omega
  have P := plan_lex ho hp hq h2 ⟨h63, hdl⟩
  intro lm lc w hq' vars hcan
  have hvars := canPackLex_vars hcan
  obtain ⟨c1, c2, c3⟩ := commonVars ho hp.monos hq.monos
  rw [← hvars] at c1 c2 c3
  by_cases hn : 1 < vars.length
  · have sp : ∀ t ∈ p, ∀ x ∈ t.1.data, x.1 ∈ vars := fun t ht x hx => (c2 _).2 (Finset.mem_union_left _ (mem_polyVars ht hx))
    have sq : ∀ t ∈ linear vc x a, ∀ x ∈ t.1.data, x.1 ∈ vars := fun t ht x hx => (c2 _).2 (Finset.mem_union_right _ (mem_polyVars ht hx))
    have lmq : (lm, lc) ∈ linear vc x a := by rw [hq']; simp
    have q0 : linear vc x a ≠ [] := by rw [hq']; simp
    obtain ⟨l0, bp, bq⟩ := canPackLex_true ho hp.monos hq.monos hcan hn
    have half : ∀ m : Mono, Valid vc m → (∀ x ∈ m.data, x.1 ∈ vars) → (∀ v, E m.data v < 2 ^ (64 / vars.length - 1)) → HalfLex vc vars m := by
      intro m a b c
      refine ⟨⟨a, b, ?_⟩, c⟩
      intro x hx
      have := c x.1
      rw [E_mem ho a.sorted hx] at this
      rw [if_neg (by omega)]
      refine lt_of_lt_of_le this (pow_le_pow_right₀ (by norm_num) (by omega))
    have hlm := half lm (hq.monos _ lmq) (sq _ lmq) (bq _ lmq)
    have D := divCodecLex_many ho c1 hn l0 hlm
    have hG : ∀ t ∈ linear vc x a, t.1 = lm ∨ t.1 = Mono.one := by
      intro t ht
      rw [linear_eq ho] at hq' ht
      rw [List.cons.injEq, Prod.mk.injEq] at hq'
      rcases List.mem_cons.1 ht with rfl | ht
      · exact Or.inl hq'.1.1
      · split at ht
        · rw [List.mem_singleton.1 ht]; exact Or.inr rfl
        · simp at ht
    have hone : HalfLex vc vars Mono.one := half _ one_valid (by simp [Mono.one]) fun v => by simp only [Mono.one, E_nil]; positivity
    refine ⟨HalfLex vc vars, HalfLex vc vars, fun m => m = lm ∨ m = Mono.one, ?_, fun t ht => half _ (hp.monos t ht) (sp t ht) (bp t ht), hG, ?_, ?_, fun m hm x hx => (c2 _).1 (hm.1.sub x hx)⟩
    · exact { valid := fun m h => D.valid m h.1
              round := fun m h => D.round m h.1
              lt := fun a b ha hb => D.lt a b ha.1 hb.1
              add := fun a b ha hb h => D.add a b ha.1 hb.1 h.1
              lmG := Or.inl rfl
              hB := fun m h => h
              gB := fun m h => by rcases h with rfl | rfl; exacts [hlm, hone]
              div := fun m k h => D.div m k h.1
              clo := fun m1 y h hb hy => by
                rcases hy with rfl | rfl
                · exact hb
                · rwa [mul_one' ho h.1.valid] }
    · intro h hh he t ht
      refine half _ (hh.monos t ht) ?_ ?_
      · intro x hx
        exact (c2 _).2 (Finset.mem_union_left _ (factor_vars (lex_ord ho) hp hq hh he q0 (mem_polyVars ht hx)))
      · intro v
        obtain ⟨u, hu, hle⟩ := factor_exp (lex_ord ho) hp hq hh he q0 ht v
        exact lt_of_le_of_lt hle (bp u hu v)
    · intro _ m1 hm1 hm
      refine half m1 hm1 (quot_sub ho hm1 hm.1.valid hlm.1.valid rfl hm.1.sub) fun v => ?_
      have h1 := hm.2 v
      rw [E_mul] at h1
      have := E_nonneg hlm.1.valid.pos v
      simp only at h1
      omega
  · obtain ⟨B, H, G, d1, d2, d3, d4, d5, d6⟩ := P lm lc w hq' vars hcan
    refine ⟨B, H, G, d1, d2, d3, d4, fun _ => d5 ?_, d6⟩
    have hpos : 0 < vars.length := by
      rw [c3]
      exact lt_of_lt_of_le (two_terms_vars (lex_ord ho) hq h2) (Finset.card_le_card Finset.subset_union_right)
    omega

include ho in
/-- division by `x - a`: the remainder is free of `x` -/
theorem divRem_lin (x : Var) (a : R) {g : PV Mono R} (hg : PolyOK vc (lexGt vc) g) (hd : ∀ t ∈ g, t.1.deg < 2 ^ 63) :
    ∃ N Q R', (∀ fuel ≥ N, polyDivRem vc (codeLex R vc) coefDivF fuel g (linear vc x a) = some (some (Q, R'))) ∧ PolyOK vc (lexGt vc) Q ∧ val g = val Q * (X x - C a) + val R' ∧ x ∉ (val R').vars := by
  have M := lex_ord ho
  obtain ⟨l1, l2⟩ := linear_spec ho x a
  have l0 : linear vc x a ≠ [] := by rw [linear_eq ho]; simp
  obtain ⟨N, Q, R', r1, r2, r3, r4, r5, r6⟩ := polyDivRem_field_vars (C := codeLex R vc) (divc := coefDivF) M hg l1.1 l0 (fun h2 => plan_lin ho hg hd h2)
    (fun lc hlc k => ⟨by simp only [coefDivF]; rw [div_mul_cancel₀ _ hlc], rfl⟩)
  refine ⟨N, Q, R', r1, r2, by rw [r4, l2], fun hx => ?_⟩
  rw [← polyVars_eq M r3, polyVars, List.mem_toFinset, List.mem_flatMap] at hx
  obtain ⟨t, ht, hx'⟩ := hx
  obtain ⟨y, hy, rfl⟩ := List.mem_map.1 hx'
  have hv := r3.monos t ht
  have hvx : Valid vc (mkMono [(y.1, 1)]) := mkMono_valid (List.pairwise_singleton _ _) (by simp)
  obtain ⟨q, q1, q2⟩ := exists_quot ho hv hvx (fun v => by
    simp only [mkMono, E_cons, E_nil]
    by_cases e : y.1 = v
    · rw [if_pos e, ← e, E_mem ho hv.sorted hy]
      have := hv.pos y hy; omega
    · rw [if_neg e]
      have := E_nonneg hv.pos v; omega)
  exact r5 trivial t ht (mkMono [(y.1, 1)], 1) (by rw [linear_eq ho]; simp) q q1 q2

/-! ## Taylor coefficients -/

theorem sub1_totalDegree (x : Var) (a : R) (f : MvPolynomial Var R) : (sub1 x a f).totalDegree ≤ f.totalDegree := by
  rw [sub1, coe_eval₂Hom, eval₂_eq]
  refine totalDegree_finsetSum_le fun s hs => (totalDegree_mul _ _).trans ?_
  rw [totalDegree_C, zero_add]
  refine (totalDegree_finset_prod _ _).trans (le_trans (Finset.sum_le_sum fun i _ => (totalDegree_pow _ _).trans ?_) (le_totalDegree hs))
  have : (if i = x then (C a : MvPolynomial Var R) else X i).totalDegree ≤ 1 := by
    split
    · rw [totalDegree_C]; omega
    · rw [totalDegree_X]
  calc s i * _ ≤ s i * 1 := Nat.mul_le_mul_left _ this
    _ = s i := mul_one _

theorem lin_totalDegree (x : Var) (a : R) : 0 < (X x - C a : MvPolynomial Var R).totalDegree := by
  have := degreeOf_le_totalDegree (X x - C a : MvPolynomial Var R) x
  rw [lin_degreeOf_self] at this
  omega

/-- the coefficients of an expansion in powers of `x - a` are unique -/
theorem taylor_unique {x : Var} {a : R} : ∀ (j : ℕ) {c c' : ℕ → MvPolynomial Var R} {Q Q' : MvPolynomial Var R}, (∀ i < j, x ∉ (c i).vars) → (∀ i < j, x ∉ (c' i).vars) →
    ∑ i ∈ Finset.range j, c i * (X x - C a) ^ i + Q * (X x - C a) ^ j = ∑ i ∈ Finset.range j, c' i * (X x - C a) ^ i + Q' * (X x - C a) ^ j → (∀ i < j, c i = c' i) ∧ Q = Q'
  | 0, c, c', Q, Q', _, _, e => by simpa using e
  | j + 1, c, c', Q, Q', h, h', e => by
    rw [Finset.sum_range_succ', Finset.sum_range_succ'] at e
    have e0 : ∀ (d : ℕ → MvPolynomial Var R) (P : MvPolynomial Var R), ∑ k ∈ Finset.range j, d (k + 1) * (X x - C a) ^ (k + 1) + d 0 * (X x - C a) ^ 0 + P * (X x - C a) ^ (j + 1) =
        (X x - C a) * (∑ k ∈ Finset.range j, d (k + 1) * (X x - C a) ^ k + P * (X x - C a) ^ j) + d 0 := fun d P => by
      rw [mul_add, Finset.mul_sum, pow_zero, mul_one]
      have : ∀ k, d (k + 1) * (X x - C a) ^ (k + 1) = (X x - C a) * (d (k + 1) * (X x - C a) ^ k) := fun k => by ring
      simp only [this]; ring
    rw [e0, e0] at e
    have h0 : c 0 = c' 0 := by
      have := congrArg (sub1 x a) e
      rwa [map_add, map_add, map_mul, map_mul, sub1_lin, zero_mul, zero_mul, zero_add, zero_add, sub1_free (h 0 (by omega)), sub1_free (h' 0 (by omega))] at this
    rw [h0] at e
    obtain ⟨k1, k2⟩ := taylor_unique j (c := fun k => c (k + 1)) (c' := fun k => c' (k + 1)) (fun i hi => h _ (by omega)) (fun i hi => h' _ (by omega)) (mul_left_cancel₀ (lin_ne x a) (add_right_cancel e))
    refine ⟨fun i hi => ?_, k2⟩
    cases i with
    | zero => exact h0
    | succ i => exact k1 i (by omega)

include ho in
theorem quoX_total (x : Var) (a : R) {g : PV Mono R} (hg : PolyOK vc (lexGt vc) g) (hd : (val g).totalDegree < 2 ^ 63) :
    ∃ (N : ℕ) (Q : PV Mono R) (ρ : MvPolynomial Var R), (∀ chk, ∀ fuel ≥ N, ∀ s, quoX chk vc fuel g (linear vc x a) s = some (Q, s)) ∧ PolyOK vc (lexGt vc) Q ∧ (val Q).totalDegree ≤ (val g).totalDegree ∧
      x ∉ ρ.vars ∧ val g = val Q * (X x - C a) + ρ := by
  have M := lex_ord ho
  have hd' : ∀ t ∈ g, t.1.deg < 2 ^ 63 := fun t ht => lt_of_le_of_lt (hg.deg_le_total M ht) (by exact_mod_cast hd)
  obtain ⟨N, Q, R', r1, r2, r3, r4⟩ := divRem_lin ho x a hg hd'
  refine ⟨N, Q, val R', fun chk fuel hf s => ?_, r2, ?_, r4, r3⟩
  · unfold quoX
    rw [if_neg (by
      rintro ⟨_, h⟩
      obtain ⟨t, ht, h⟩ := List.any_eq_true.1 h
      have := hd' t ht
      simp only [decide_eq_true_eq] at h
      omega), r1 fuel hf]
    rfl
  · by_cases hQ : val Q = 0
    · rw [hQ, totalDegree_zero]; exact Nat.zero_le _
    have e1 : val R' = sub1 x a (val g) := by rw [r3, map_add, map_mul, sub1_lin, mul_zero, zero_add, sub1_free r4]
    have e2 : val Q * (X x - C a) = val g - sub1 x a (val g) := by rw [← e1, r3]; ring
    have := totalDegree_mul_of_isDomain hQ (lin_ne x a)
    rw [e2] at this
    have h2 := totalDegree_sub (val g) (sub1 x a (val g))
    have h3 := sub1_totalDegree x a (val g)
    omega

include ho in
theorem divPow_total (x : Var) (a : R) : ∀ (j : ℕ) {g : PV Mono R}, PolyOK vc (lexGt vc) g → (val g).totalDegree < 2 ^ 63 →
    ∃ (N : ℕ) (Q : PV Mono R) (c : ℕ → MvPolynomial Var R), (∀ chk, ∀ fuel ≥ N, ∀ s, divPow chk vc fuel (linear vc x a) j g s = some (Q, s)) ∧ PolyOK vc (lexGt vc) Q ∧ (∀ i, x ∉ (c i).vars) ∧
      val g = ∑ i ∈ Finset.range j, c i * (X x - C a) ^ i + val Q * (X x - C a) ^ j
  | 0, g, hg, _ => ⟨0, g, fun _ => 0, fun _ _ _ _ => rfl, hg, fun _ => by simp, by simp⟩
  | j + 1, g, hg, hd => by
    obtain ⟨N, Q, ρ, q1, q2, q3, q4, q5⟩ := quoX_total ho x a hg hd
    obtain ⟨N', Q', c, d1, d2, d3, d4⟩ := divPow_total x a j q2 (by omega)
    refine ⟨N + N', Q', fun i => match i with | 0 => ρ | i + 1 => c i, fun chk fuel hf s => ?_, d2, fun i => ?_, ?_⟩
    · unfold divPow
      rw [Run.bind, q1 chk fuel (by omega) s]
      exact d1 chk fuel (by omega) s
    · cases i with
      | zero => exact q4
      | succ i => exact d3 i
    · rw [Finset.sum_range_succ', q5, d4]
      simp only [pow_succ, add_mul, Finset.sum_mul, pow_zero, mul_one, mul_assoc]
      ring

include ho in
/-- `__taylor_coeff_zp`: the value, for the code and for the checked variant -/
theorem taylorCoeff_total (x : Var) (a : R) (j : ℕ) {f : PV Mono R} (hf : PolyOK vc (lexGt vc) f) (hd : (val f).totalDegree < 2 ^ 63) :
    ∃ (N : ℕ) (r : PV Mono R), (∀ fuel ≥ N, ∀ s, taylorCoeff false vc fuel f x a j s = some (r, s)) ∧ PolySorted vc (lexGt vc) r ∧
      ∃ (c : ℕ → MvPolynomial Var R) (Q : MvPolynomial Var R), (∀ i, x ∉ (c i).vars) ∧ val f = ∑ i ∈ Finset.range (j + 1), c i * (X x - C a) ^ i + Q * (X x - C a) ^ (j + 1) ∧ val r = c j := by
  have M := lex_ord ho
  by_cases f0 : f = []
  · refine ⟨0, [], fun fuel _ s => by unfold taylorCoeff; rw [if_pos f0]; rfl, ⟨by simp, by simp⟩, fun _ => 0, 0, fun _ => by simp, by rw [f0, val_nil]; simp, by rw [val_nil]⟩
  obtain ⟨N, Q, c, d1, d2, d3, d4⟩ := divPow_total ho x a j hf hd
  obtain ⟨k1, k2⟩ := assign_spec M (RingHom.id R) (fun v => if v = x then some a else none) (p := Q) fun t ht y hy => ((d2.monos t ht).pos y hy).le
  have hval : val (assign vc (lexGt vc) id (fun v => if v = x then some a else none) Q) = sub1 x a (val Q) := by
    refine k2.trans ?_
    rw [RingHom.comp_id, sub1, coe_eval₂Hom]
    congr 1
    funext v
    unfold substOf
    by_cases hv : v = x
    · simp only [if_pos hv]
    · simp only [if_neg hv]
  obtain ⟨q, hq⟩ := lin_dvd_sub x a (val Q)
  refine ⟨N, _, fun fuel hfu s => ?_, k1, fun i => if i = j then sub1 x a (val Q) else c i, q, fun i => ?_, ?_, ?_⟩
  · unfold taylorCoeff
    rw [if_neg f0, Run.bind, d1 false fuel hfu s]
    rfl
  · dsimp only
    by_cases h : i = j
    · rw [if_pos h]
      intro hx
      have := sub1_vars x a (val Q) hx
      simp at this
    · rw [if_neg h]; exact d3 i
  · dsimp only
    rw [Finset.sum_range_succ, if_pos rfl, d4]
    have : ∑ i ∈ Finset.range j, (if i = j then sub1 x a (val Q) else c i) * (X x - C a) ^ i = ∑ i ∈ Finset.range j, c i * (X x - C a) ^ i :=
      Finset.sum_congr rfl fun i hi => by rw [if_neg (by have := Finset.mem_range.1 hi; omega)]
    rw [this]
    have hQ : val Q = sub1 x a (val Q) + (X x - C a) * q := by rw [← hq]; ring
    conv_lhs => rw [hQ]
    ring
  · dsimp only
    rw [if_pos rfl]
    exact hval

end

end Mtshl
end CLPoly
