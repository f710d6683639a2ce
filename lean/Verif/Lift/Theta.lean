import Verif.Lift.Defs
import Verif.Upoly.Basic
import Verif.Poly.SubstSpec

/-! # Evaluation at the powers of a point -/

namespace CLPoly
namespace Lift
open Upoly Mono

variable {R : Type*} [DecidableEq R] [CommRing R]

/-- the keys descend strictly -/
def Desc (l : List (Nat × R)) : Prop := l.Pairwise fun a b => b.1 < a.1

theorem accAdd_keys (e : ℕ) (c : R) : ∀ (l : List (ℕ × R)) (t : ℕ × R), t ∈ accAdd e c l → t.1 = e ∨ ∃ u ∈ l, u.1 = t.1 := by
  intro l
  induction l with
  | nil => intro t ht; rw [accAdd, List.mem_singleton] at ht; left; rw [ht]
  | cons a l ih =>
    intro t ht
    rw [accAdd] at ht
    split at ht
    · rcases List.mem_cons.1 ht with h | h
      · left; rw [h]
      · right; exact ⟨t, h, rfl⟩
    · split at ht
      · rcases List.mem_cons.1 ht with h | h
        · left; rw [h]
        · right; exact ⟨t, List.mem_cons_of_mem _ h, rfl⟩
      · rcases List.mem_cons.1 ht with h | h
        · right; exact ⟨t, by rw [h]; exact List.mem_cons_self, rfl⟩
        · rcases ih t h with h | ⟨u, hu, h⟩
          · exact Or.inl h
          · exact Or.inr ⟨u, List.mem_cons_of_mem _ hu, h⟩

theorem accAdd_spec (e : ℕ) (c : R) : ∀ l : List (ℕ × R), Desc l → Desc (accAdd e c l) ∧ toPoly (accAdd e c l) = toPoly l + Polynomial.monomial e c := by
  intro l
  induction l with
  | nil => intro _; exact ⟨List.pairwise_singleton _ _, by simp [accAdd, toPoly]⟩
  | cons a l ih =>
    intro h
    have h' := List.pairwise_cons.1 h
    rw [accAdd]
    split
    · rename_i h1
      refine ⟨List.pairwise_cons.2 ⟨fun t ht => ?_, h⟩, by rw [toPoly_cons, add_comm]⟩
      rcases List.mem_cons.1 ht with e1 | e1
      · rw [e1]; exact h1
      · exact (h'.1 t e1).trans h1
    · split
      · rename_i h1 h2
        refine ⟨List.pairwise_cons.2 ⟨fun t ht => by simpa [h2] using h'.1 t ht, h'.2⟩, ?_⟩
        rw [toPoly_cons, toPoly_cons, h2, map_add]; ring
      · rename_i h1 h2
        obtain ⟨i1, i2⟩ := ih h'.2
        refine ⟨List.pairwise_cons.2 ⟨fun t ht => ?_, i1⟩, ?_⟩
        · rcases accAdd_keys e c l t ht with h3 | ⟨u, hu, h3⟩
          · rw [h3]; omega
          · rw [← h3]; exact h'.1 u hu
        · rw [toPoly_cons, toPoly_cons, i2]; ring

theorem accFold_spec : ∀ (l : List (ℕ × R × R)) (acc : List (ℕ × R)), Desc acc →
    Desc (l.foldl (fun acc t => if t.2.1 * t.2.2 = 0 then acc else accAdd t.1 (t.2.1 * t.2.2) acc) acc) ∧
    toPoly (l.foldl (fun acc t => if t.2.1 * t.2.2 = 0 then acc else accAdd t.1 (t.2.1 * t.2.2) acc) acc) = toPoly acc + (l.map fun t => Polynomial.monomial t.1 (t.2.1 * t.2.2)).sum := by
  intro l
  induction l with
  | nil => intro acc h; exact ⟨h, by simp⟩
  | cons t l ih =>
    intro acc h
    rw [List.foldl_cons, List.map_cons, List.sum_cons]
    by_cases h0 : t.2.1 * t.2.2 = 0
    · rw [if_pos h0, h0, map_zero, zero_add]; exact ih acc h
    · rw [if_neg h0]
      obtain ⟨h1, h2⟩ := accAdd_spec t.1 (t.2.1 * t.2.2) acc h
      obtain ⟨h3, h4⟩ := ih _ h1
      exact ⟨h3, by rw [h4, h2, add_assoc]⟩

theorem filter_is : ∀ {l : List (ℕ × R)}, Desc l → Is (l.filter fun t => decide (t.2 ≠ 0)) (toPoly l) := by
  intro l
  induction l with
  | nil => intro _; exact nil_is
  | cons t l ih =>
    intro h
    have h' := List.pairwise_cons.1 h
    have := ih h'.2
    by_cases h0 : t.2 = 0
    · rw [List.filter_cons_of_neg (by simpa using h0), toPoly_cons, h0, map_zero, zero_add]; exact this
    · rw [List.filter_cons_of_pos (by simpa using h0), toPoly_cons, ← this.eq, ← toPoly_cons]
      exact is_of_canon (canon_cons.2 ⟨fun u hu => h'.1 u (List.mem_of_mem_filter hu), h0, this.canon⟩)

/-- the value of an image -/
theorem thetaLoop_spec : ∀ (s : ℕ) (l : List (ℕ × R × R × R)), (thetaLoop s l).length = s ∧
    ∀ i < s, Is ((thetaLoop s l).getD i []) ((l.map fun t => Polynomial.monomial t.1 (t.2.1 * (t.2.2.2 * t.2.2.1 ^ (i + 1)))).sum) := by
  intro s
  induction s with
  | zero => intro l; exact ⟨rfl, fun i hi => absurd hi (by omega)⟩
  | succ s ih =>
    intro l
    obtain ⟨h1, h2⟩ := ih (l.map fun t => (t.1, t.2.1, t.2.2.1, t.2.2.2 * t.2.2.1))
    rw [thetaLoop]
    refine ⟨by rw [List.length_cons, h1], fun i hi => ?_⟩
    cases i with
    | zero =>
      rw [List.getD_cons_zero]
      obtain ⟨h3, h4⟩ := accFold_spec ((l.map fun t => (t.1, t.2.1, t.2.2.1, t.2.2.2 * t.2.2.1)).map fun t => (t.1, t.2.1, t.2.2.2)) [] List.Pairwise.nil
      have h5 := filter_is h3
      rw [h4] at h5
      simp only [List.map_map, toPoly, List.map_nil, List.sum_nil, zero_add] at h5
      simp only [Function.comp_def] at h5
      simp only [zero_add, pow_one]
      simpa only [accAll, List.map_map, Function.comp_def] using h5
    | succ i =>
      rw [List.getD_cons_succ]
      have := h2 i (by omega)
      rw [List.map_map] at this
      convert this using 4
      simp only [Function.comp]
      ring_nf

/-- the exponent is that of the first entry -/
theorem expOf_cons (x : Var × Int) (m : List (Var × Int)) (v : Var) : expOf (x :: m) v = if x.1 = v then x.2 else expOf m v := by
  unfold expOf
  by_cases h : x.1 = v
  · rw [List.find?_cons_of_pos (by simpa using h), if_pos h]
  · rw [List.find?_cons_of_neg (by simpa using h), if_neg h]

theorem expOf_not_mem {m : List (Var × Int)} {v : Var} (h : ∀ x ∈ m, x.1 ≠ v) : expOf m v = 0 := by
  induction m with
  | nil => rfl
  | cons x m ih => rw [expOf_cons, if_neg (h x List.mem_cons_self), ih fun y hy => h y (List.mem_cons_of_mem _ hy)]

omit [DecidableEq R] in
theorem thetaOf_eq (m : List (Var × Int)) (Z : List (Var × R)) (a : R) : Z.foldl (fun tm x => if expOf m x.1 > 0 then tm * x.2 ^ (expOf m x.1).toNat else tm) a = a * (Z.map fun z => z.2 ^ (expOf m z.1).toNat).prod := by
  induction Z generalizing a with
  | nil => simp
  | cons z Z ih =>
    rw [List.foldl_cons, List.map_cons, List.prod_cons, ih]
    split
    · rw [mul_assoc]
    · rename_i h
      rw [show (expOf m z.1).toNat = 0 by omega, pow_zero, one_mul]

omit [DecidableEq R] in
theorem theta_cons {x : Var × Int} {m : List (Var × Int)} (hx : ∀ y ∈ m, y.1 ≠ x.1) : ∀ (Z : List (Var × R)), (Z.map Prod.fst).Nodup →
    (Z.map fun z => z.2 ^ (expOf (x :: m) z.1).toNat).prod = ((Z.lookup x.1).getD 1) ^ x.2.toNat * (Z.map fun z => z.2 ^ (expOf m z.1).toNat).prod := by
  intro Z
  induction Z with
  | nil => intro _; simp
  | cons z Z ih =>
    intro hn
    rw [List.map_cons, List.nodup_cons] at hn
    rw [List.map_cons, List.map_cons, List.prod_cons, List.prod_cons, List.lookup_cons, expOf_cons]
    by_cases e : x.1 = z.1
    · have e2 : Z.map (fun z => z.2 ^ (expOf (x :: m) z.1).toNat) = Z.map fun z => z.2 ^ (expOf m z.1).toNat :=
        List.map_congr_left fun y hy => by rw [expOf_cons, if_neg fun h => hn.1 (by rw [← e, h]; exact List.mem_map_of_mem hy)]
      rw [if_pos e, e2, expOf_not_mem fun y hy => e ▸ hx y hy]
      simp [e]
    · rw [if_neg e, ih hn.2]
      simp only [beq_eq_false_iff_ne.2 e]
      ring

omit [DecidableEq R] in
/-- one term -/
theorem term_eval (Z : List (Var × R)) (x1 : Var) (h1 : Z.lookup x1 = none) (hz : (Z.map Prod.fst).Nodup) (k : ℕ) : ∀ m : List (Var × Int), (m.map Prod.fst).Nodup →
    (m.map fun x => (if x.1 = x1 then Polynomial.X else Polynomial.C (((Z.lookup x.1).getD 1) ^ k)) ^ x.2.toNat).prod =
      Polynomial.X ^ (expOf m x1).toNat * Polynomial.C ((Z.map fun z => z.2 ^ (expOf m z.1).toNat).prod ^ k) := by
  intro m
  induction m with
  | nil => intro _; simp [expOf]
  | cons x m ih =>
    intro hn
    rw [List.map_cons, List.nodup_cons] at hn
    have hx : ∀ y ∈ m, y.1 ≠ x.1 := fun y hy e => hn.1 (by rw [← e]; exact List.mem_map_of_mem hy)
    rw [List.map_cons, List.prod_cons, ih hn.2, theta_cons hx Z hz, expOf_cons]
    by_cases e : x.1 = x1
    · rw [if_pos e, if_pos e, expOf_not_mem fun y hy => e ▸ hx y hy, e, h1]
      simp
    · rw [if_neg e, if_neg e, mul_pow, Polynomial.C_mul, ← pow_mul, mul_comm x.2.toNat, pow_mul, Polynomial.C_pow]
      simp only [Polynomial.C_pow]
      ring

theorem nodup_keys {vc : Var → Var → Bool} (ho : VarOrd vc) {m : Mono} (h : m.Valid vc) : (m.data.map Prod.fst).Nodup := by
  rw [List.Nodup, List.pairwise_map]
  refine h.sorted.imp fun {a b} h e => ?_
  rw [e] at h
  exact absurd h (by simp [ho.irrefl])

/-- the point `w ↦ β_w^k`; the variables that are neither the main one nor listed count as 1 -/
noncomputable def powPoint (x1 : Var) (Z : List (Var × R)) (k : ℕ) (w : Var) : Polynomial R := if w = x1 then Polynomial.X else Polynomial.C (((Z.lookup w).getD 1) ^ k)

theorem thetaEval_spec {vc : Var → Var → Bool} (ho : VarOrd vc) {f : PV Mono R} (hf : ∀ t ∈ f, Mono.Valid vc t.1) {x1 : Var} {aux : List Var} {betas : List R} (hl : aux.length = betas.length) (hn : aux.Nodup) (hx : x1 ∉ aux) (s : ℕ) :
    ∃ im, thetaEval f x1 aux betas s = some im ∧ im.length = s ∧ ∀ i < s, Is (im.getD i []) (MvPolynomial.eval₂ Polynomial.C (powPoint x1 (aux.zip betas) (i + 1)) (val f)) := by
  obtain ⟨h1, h2⟩ := thetaLoop_spec s (f.map fun t => ((expOf t.1.data x1).toNat, t.2, thetaOf aux betas t.1.data, 1))
  refine ⟨_, by rw [thetaEval, if_neg (by simpa using hl)], h1, fun i hi => ?_⟩
  have h3 := h2 i hi
  convert h3 using 1
  have hk : ((aux.zip betas).map Prod.fst) = aux := List.map_fst_zip hl.le
  have hlk : (aux.zip betas).lookup x1 = none := by
    rw [List.lookup_eq_none_iff]
    intro p hp
    have : p.1 ∈ aux := hk ▸ List.mem_map_of_mem hp
    rw [bne_iff_ne]
    rintro rfl; exact hx this
  clear h1 h2 h3
  induction f with
  | nil => simp [val]
  | cons t f ih =>
    rw [val_cons, MvPolynomial.eval₂_add, List.map_cons, List.map_cons, List.sum_cons, ih fun u hu => hf u (List.mem_cons_of_mem _ hu)]
    congr 1
    have hv := hf t List.mem_cons_self
    have := term_eval (aux.zip betas) x1 hlk (hk.symm ▸ hn) (i + 1) t.1.data (nodup_keys ho hv)
    rw [thetaOf, thetaOf_eq, one_mul, one_mul, ← Polynomial.C_mul_X_pow_eq_monomial, Polynomial.C_mul, mul_assoc, mul_comm (Polynomial.C _) (Polynomial.X ^ _), ← this]
    rw [← MvPolynomial.coe_eval₂Hom, MvPolynomial.monomial_eq, map_mul]
    simp only [MvPolynomial.coe_eval₂Hom, MvPolynomial.eval₂_C]
    congr 1
    rw [Mono.expo]
    generalize t.1.data = d
    induction d with
    | nil => simp
    | cons x d ihd =>
      rw [List.map_cons, List.sum_cons, List.map_cons, List.prod_cons, ← ihd]
      rw [Finsupp.prod_add_index' (by simp) (by intros; rw [pow_add]), MvPolynomial.eval₂_mul, Finsupp.prod_single_index (by simp), MvPolynomial.eval₂_pow, MvPolynomial.eval₂_X]
      rfl

end Lift
end CLPoly
