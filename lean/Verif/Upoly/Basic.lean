import Verif.Upoly.Defs
import Verif.PairVec.System
import Mathlib.Algebra.Polynomial.FieldDivision
import Mathlib.Algebra.Polynomial.Derivative
import Mathlib.Algebra.Polynomial.EraseLead

/-! # The sparse univariate polynomials and Mathlib's `Polynomial`

`toPoly f = Σ c Xᵏ`; `Is f F`: the vector `f` is in normal form and denotes `F`. -/

namespace CLPoly
namespace Upoly
open Polynomial VHC

section
variable {R : Type*} [DecidableEq R] [CommRing R]

local instance instInhR : Inhabited R := ⟨0⟩

/-- meaning of a pair vector -/
noncomputable def toPoly (f : UPoly R) : R[X] := (f.map fun t => monomial t.1 t.2).sum

/-- `f` is in normal form (degrees strictly decreasing, no zero coefficient) and denotes `F` -/
structure Is (f : UPoly R) (F : R[X]) : Prop where
  canon : Canon comp f
  eq : toPoly f = F

/-- interpretation of a term -/
noncomputable def T (k : Nat) : R →+ R[X] := (monomial k).toAddMonoidHom

theorem toPoly_eq_den (f : UPoly R) : toPoly f = den T f := rfl

theorem ranked : Ranked (fun _ : Nat => True) comp (id : Nat → Nat) where
  comp_iff a b _ _ := by simp [comp]
  inj a b _ _ h := h

theorem sys : MonoSys (R := R) (fun _ : Nat => True) comp (· + ·) divx T (fun k f => Polynomial.coeff f k) where
  lawful := ranked.lawful
  wf := by
    refine Subrelation.wf (r := fun a b : {x : Nat // True} => a.1 < b.1) ?_ (InvImage.wf Subtype.val Nat.lt_wfRel.wf)
    intro a b h
    simpa [comp] using h
  mulS _ _ _ _ := trivial
  comm a b _ _ := Nat.add_comm a b
  mono a b c _ _ _ h := by simp [comp] at *; exact h
  div m l q _ _ := by
    unfold divx
    split <;> simp <;> omega
  term a b _ _ c d := by
    show monomial (a + b) (c * d) = monomial a c * monomial b d
    rw [monomial_mul_monomial]
  sep :=
    { zero := fun k => by simp
      add := fun k f g => by simp
      same := fun k _ c => by simp [T]
      diff := fun k k' _ _ h c => by
        simp only [T]
        exact coeff_monomial_of_ne _ (by tauto) }

theorem keysIn (f : UPoly R) : KeysIn (fun _ : Nat => True) f := fun _ _ => trivial

theorem is_of_canon {f : UPoly R} (h : Canon comp f) : Is f (toPoly f) := ⟨h, rfl⟩

theorem is_unique {f g : UPoly R} {F : R[X]} (h1 : Is f F) (h2 : Is g F) : f = g :=
  canon_unique (sys (R := R)).lawful (sys (R := R)).sep (keysIn f) (keysIn g) h1.canon h2.canon (h1.eq.trans h2.eq.symm)

theorem canon_nil : Canon comp ([] : UPoly R) := ⟨List.Pairwise.nil, by simp⟩

theorem nil_is : Is ([] : UPoly R) 0 := ⟨canon_nil, by simp [toPoly]⟩

theorem canon_cons {t : Nat × R} {l : UPoly R} : Canon comp (t :: l) ↔ (∀ u ∈ l, u.1 < t.1) ∧ t.2 ≠ 0 ∧ Canon comp l := by
  unfold Canon
  rw [List.pairwise_cons]
  simp only [comp, gt_iff_lt, decide_eq_true_eq, List.mem_cons, forall_eq_or_imp]
  tauto

theorem toPoly_cons (t : Nat × R) (l : UPoly R) : toPoly (t :: l) = monomial t.1 t.2 + toPoly l := by simp [toPoly]
@[simp] theorem toPoly_nil : toPoly ([] : UPoly R) = 0 := rfl

theorem toPoly_append (l m : UPoly R) : toPoly (l ++ m) = toPoly l + toPoly m := by simp [toPoly]

theorem toPoly_degree_lt {l : UPoly R} {n : Nat} (h : ∀ u ∈ l, u.1 < n) : (toPoly l).degree < n := by
  induction l with
  | nil => simpa using WithBot.bot_lt_coe n
  | cons t l ih =>
    rw [toPoly_cons]
    refine lt_of_le_of_lt (degree_add_le _ _) (max_lt ?_ (ih fun u hu => h u (by simp [hu])))
    exact lt_of_le_of_lt (degree_monomial_le _ _) (by exact_mod_cast h t (by simp))

theorem is_cons {t : Nat × R} {l : UPoly R} {F : R[X]} (h : Is (t :: l) F) :
    F.natDegree = t.1 ∧ F.leadingCoeff = t.2 ∧ F ≠ 0 := by
  obtain ⟨c1, c2, c3⟩ := canon_cons.1 h.canon
  have hd := toPoly_degree_lt c1
  have hm : (monomial t.1 t.2 : R[X]).degree = t.1 := degree_monomial _ c2
  have e : F = monomial t.1 t.2 + toPoly l := by rw [← h.eq, toPoly_cons]
  have hlt : (toPoly l).degree < (monomial t.1 t.2 : R[X]).degree := by rw [hm]; exact hd
  have h1 : F.degree = t.1 := by rw [e, degree_add_eq_left_of_degree_lt hlt, hm]
  have h2 : F.leadingCoeff = t.2 := by rw [e, leadingCoeff_add_of_degree_lt' hlt, leadingCoeff_monomial]
  exact ⟨natDegree_eq_of_degree_eq_some h1, h2, by intro h0; rw [h0] at h1; simp at h1⟩

theorem is_nil_iff {f : UPoly R} {F : R[X]} (h : Is f F) : f = [] ↔ F = 0 := by
  cases f with
  | nil => simp [← h.eq]
  | cons t l => simpa using (is_cons h).2.2

theorem is_deg {f : UPoly R} {F : R[X]} (h : Is f F) : deg f = F.natDegree := by
  cases f with
  | nil => rw [← h.eq]; simp [deg]
  | cons t l => rw [(is_cons h).1]; rfl

theorem is_lc {f : UPoly R} {F : R[X]} (h : Is f F) : lc f = F.leadingCoeff := by
  cases f with
  | nil => rw [← h.eq]; simp [lc]
  | cons t l => rw [(is_cons h).2.1]; rfl

/-- every polynomial has a normal form -/
theorem exists_is (F : R[X]) : ∃ f : UPoly R, Is f F := by
  induction h : F.support.card using Nat.strong_induction_on generalizing F with
  | _ n ih =>
    by_cases h0 : F = 0
    · exact ⟨[], h0 ▸ nil_is⟩
    · obtain ⟨l, hl⟩ := ih _ (h ▸ eraseLead_support_card_lt h0) F.eraseLead rfl
      refine ⟨(F.natDegree, F.leadingCoeff) :: l, canon_cons.2 ⟨?_, by simpa using h0, hl.canon⟩, ?_⟩
      · intro u hu
        cases l with
        | nil => simp at hu
        | cons t l =>
          have h1 := (is_cons hl)
          have h2 : t.1 < F.natDegree := by
            rw [← h1.1]
            exact (eraseLead_natDegree_lt_or_eraseLead_eq_zero F).resolve_right h1.2.2
          rcases List.mem_cons.1 hu with rfl | hu
          · exact h2
          · exact ((canon_cons.1 hl.canon).1 u hu).trans h2
      · rw [toPoly_cons, hl.eq]
        exact (add_comm _ _).trans (eraseLead_add_monomial_natDegree_leadingCoeff F)

theorem one_is [Nontrivial R] : Is ([(0, 1)] : UPoly R) 1 := ⟨canon_cons.2 ⟨by simp, one_ne_zero, canon_nil⟩, by simp [toPoly]⟩
theorem X_is [Nontrivial R] : Is ([(1, 1)] : UPoly R) X := ⟨canon_cons.2 ⟨by simp, one_ne_zero, canon_nil⟩, by simp [toPoly, monomial_one_one_eq_X]⟩

/-! ## normalization -/

theorem toPoly_norm (f : UPoly R) : toPoly (norm f) = toPoly f := by
  rw [toPoly_eq_den, toPoly_eq_den, norm, den_pvMerge]
  exact den_perm _ (vecSort_perm f)

theorem sortInsert_eq_cons {α : Type*} {le : α → α → Bool} {x : α} {l : List α} (h : ∀ y ∈ l, le x y = true) :
    sortInsert le x l = x :: l := by
  cases l with
  | nil => rfl
  | cons y l => rw [sortInsert, if_pos (h y (by simp))]

theorem vecSort_eq_self {α : Type*} {le : α → α → Bool} {l : List α} (h : l.Pairwise fun a b => le a b = true) : vecSort le l = l := by
  induction l with
  | nil => rfl
  | cons x l ih =>
    have := List.pairwise_cons.1 h
    have e : vecSort le (x :: l) = sortInsert le x (vecSort le l) := rfl
    rw [e, ih this.2, sortInsert_eq_cons this.1]

theorem pvMergeLoop_eq_self {t : Nat × R} {f : UPoly R} (h : Canon comp (t :: f)) : pvMergeLoop t f = t :: f := by
  induction f generalizing t with
  | nil => rfl
  | cons u f ih =>
    obtain ⟨h1, h2, h3⟩ := canon_cons.1 h
    have := h1 u (by simp)
    rw [pvMergeLoop, if_neg (canon_cons.1 h3).2.1, if_neg (by omega), ih h3]

theorem norm_eq_self {f : UPoly R} (h : Canon comp f) : norm f = f := by
  unfold norm
  rw [vecSort_eq_self (h.1.imp fun {a b} hab => by simp [comp] at *; omega)]
  cases f with
  | nil => rfl
  | cons t f => rw [pvMerge, if_neg (canon_cons.1 h).2.1, pvMergeLoop_eq_self h]

theorem Is.norm {f : UPoly R} {F : R[X]} (h : Is f F) : Is (Upoly.norm f) F := by rwa [norm_eq_self h.canon]

/-! ## ring operations -/

variable {f g : UPoly R} {F G : R[X]}

theorem add_is (hf : Is f F) (hg : Is g G) : Is (add f g) (F + G) :=
  ⟨pvAdd_canon (sys (R := R)).lawful (keysIn f) (keysIn g) hf.canon hg.canon, by
    rw [toPoly_eq_den, add, den_pvAdd, ← toPoly_eq_den, ← toPoly_eq_den, hf.eq, hg.eq]⟩

theorem sub_is (hf : Is f F) (hg : Is g G) : Is (sub f g) (F - G) :=
  ⟨pvSub_canon (sys (R := R)).lawful (keysIn f) (keysIn g) hf.canon hg.canon, by
    rw [toPoly_eq_den, sub, den_pvSub, ← toPoly_eq_den, ← toPoly_eq_den, hf.eq, hg.eq]⟩

theorem neg_is (hf : Is f F) : Is (neg f) (-F) :=
  ⟨pvNeg_canon hf.canon, by rw [toPoly_eq_den, neg, den_pvNeg, ← toPoly_eq_den, hf.eq]⟩

theorem mul_is [NoZeroDivisors R] (hf : Is f F) (hg : Is g G) : Is (mul f g) (F * G) := by
  obtain ⟨out, h1, h2, h3, _⟩ := (sys (R := R)).pvMul_spec (keysIn f) (keysIn g) hf.canon hg.canon
  have e : mul f g = out := by rw [mul, h1]; rfl
  rw [e]
  exact ⟨h3, by rw [toPoly_eq_den, h2, ← toPoly_eq_den, ← toPoly_eq_den, hf.eq, hg.eq]⟩

theorem map_mul_is [NoZeroDivisors R] (hf : Is f F) {c : R} (hc : c ≠ 0) : Is (f.map fun t => (t.1, t.2 * c)) (C c * F) := by
  refine ⟨⟨List.pairwise_map.2 hf.canon.1, ?_⟩, ?_⟩
  · intro x hx
    obtain ⟨y, hy, rfl⟩ := List.mem_map.1 hx
    exact mul_ne_zero (hf.canon.2 y hy) hc
  · rw [← hf.eq]
    unfold toPoly
    rw [List.map_map, ← List.sum_map_mul_left]
    congr 1
    refine List.map_congr_left fun t _ => ?_
    simp [C_mul_monomial, mul_comm]

theorem scale_is [NoZeroDivisors R] (hf : Is f F) (c : R) : Is (scale f c) (C c * F) := by
  unfold scale
  split
  · rename_i h; subst h; simpa using nil_is
  · rename_i h; exact (map_mul_is hf h).norm

/-! ## division: the fuel `deg f + 2` is enough -/

theorem divLoop_fuel {v2 : UPoly R} {divc : R → R → R × R} {emit : R → R → R} (h2 : Canon comp v2) (hv2 : v2 ≠ [])
    (hdiv : ∀ k, k = (divc k (at_ v2 0).2).1 * (at_ v2 0).2
      + (if (divc k (at_ v2 0).2).2 = 0 then 0 else emit k (divc k (at_ v2 0).2).2)) {D : R[X]} (n : Nat) :
    ∀ st : DivSt Nat R, DivInv (fun _ => True) comp (id : Nat → Nat) (· + ·) divx divc emit T v2 D st (n : WithTop Nat) →
      ∃ x, divLoop (· + ·) divx divc emit comp v2 (n + 1) st = some x := by
  induction n using Nat.strong_induction_on with
  | _ n ih =>
    intro st hI
    rw [divLoop]
    by_cases hc : st.size ≠ 0 ∨ st.rest ≠ []
    · obtain ⟨m, _, m2, m3⟩ := divStep_spec ranked (sys.divCompat (keysIn v2) hv2) h2 hv2 hdiv hI hc
      have hm : m < n := by simpa using m2
      obtain ⟨x, hx⟩ := ih m hm _ m3
      refine ⟨x, ?_⟩
      rw [if_pos hc]
      have := divLoop_mono _ _ _ hx (n - (m + 1))
      rwa [show m + 1 + (n - (m + 1)) = n by omega] at this
    · exact ⟨_, if_neg hc⟩

theorem heapDiv_fuel {v1 v2 : UPoly R} {divc : R → R → R × R} {emit : R → R → R} (h1 : Canon comp v1) (h2 : Canon comp v2) (hv2 : v2 ≠ [])
    (hdiv : ∀ k, k = (divc k (at_ v2 0).2).1 * (at_ v2 0).2
      + (if (divc k (at_ v2 0).2).2 = 0 then 0 else emit k (divc k (at_ v2 0).2).2)) :
    ∃ x, heapDiv (· + ·) divx divc emit comp (deg v1 + 2) v1 v2 = some x := by
  have hl2 := List.length_pos_iff.2 hv2
  refine divLoop_fuel (D := den T v1) h2 hv2 hdiv (deg v1 + 1) _
    ⟨⟨by simp, List.Pairwise.nil⟩, by simp, List.Pairwise.nil, ?_,
      ((canon_iff ranked (keysIn v1)).1 h1).1, ⟨by simp, by simp⟩, ?_, ?_, ⟨by simp, by simp⟩, ?_, ?_⟩
  · intro x hx
    refine ⟨trivial, ?_⟩
    have : x.1 < deg v1 + 1 := by
      cases v1 with
      | nil => simp at hx
      | cons t l =>
        rcases List.mem_cons.1 hx with rfl | hx
        · simp [deg]
        · have := (canon_cons.1 h1).1 x hx
          simp only [deg]; omega
    exact WithTop.coe_lt_coe.2 this
  · simp [front, slot, nodes]
  · simp [front, slot]
  · simp [exh]
  · simp [doneSum]

theorem heapDiv_fuel' {v1 v2 : UPoly R} {divc : R → R → R × R} (emit : R → R → R) (h1 : Canon comp v1) (h2 : Canon comp v2) (hv2 : v2 ≠ [])
    (hdiv : ∀ lc : R, lc ≠ 0 → ∀ k, k = (divc k lc).1 * lc + (divc k lc).2) :
    ∃ x, ∀ d, heapDiv (· + ·) divx divc emit comp (deg v1 + 2 + d) v1 v2 = some x := by
  have hlc : (at_ v2 0).2 ≠ 0 := h2.2 _ (at_mem (List.length_pos_iff.2 hv2))
  obtain ⟨x, hx⟩ := heapDiv_fuel (divc := divc) (emit := fun _ k => k) h1 h2 hv2 (by
    intro k
    have := hdiv _ hlc k
    split
    · rename_i h; rwa [h] at this
    · exact this)
  have := divLoop_emit (mul := (· + ·)) (divx := divx) (divc := divc) (emit := fun _ k => k) (comp := comp) (v2 := v2) emit (deg v1 + 2)
    { Q := [], Rem := [], rest := v1, heap := fun _ => [], size := 0, pos := fun _ => 0, resetH := v2.length - 1 } _ rfl rfl rfl rfl rfl rfl rfl
  rw [show divLoop _ _ _ _ _ _ _ _ = some x from hx] at this
  cases h : divLoop (· + ·) divx divc emit comp v2 (deg v1 + 2)
    { Q := [], Rem := [], rest := v1, heap := fun _ => [], size := 0, pos := fun _ => 0, resetH := v2.length - 1 } with
  | none => rw [h] at this; simp at this
  | some y => exact ⟨y, fun d => divLoop_mono _ _ _ h d⟩

theorem pvDivRem_fuel {v1 v2 : UPoly R} {divc : R → R → R × R} (h1 : Canon comp v1) (h2 : Canon comp v2)
    (hdiv : ∀ lc : R, lc ≠ 0 → ∀ k, k = (divc k lc).1 * lc + (divc k lc).2) :
    ∃ x, ∀ d, pvDivRem (· + ·) divx divc comp (deg v1 + 2 + d) v1 v2 = some x := by
  match v2, h2 with
  | [], _ => exact ⟨_, fun d => rfl⟩
  | [t], _ => exact ⟨_, fun d => rfl⟩
  | y :: y' :: w, h2 =>
    unfold pvDivRem
    by_cases h0 : v1 = []
    · exact ⟨_, fun d => if_pos h0⟩
    · obtain ⟨x, hx⟩ := heapDiv_fuel' (divc := divc) (fun k _ => k) h1 h2 (by simp) hdiv
      exact ⟨some x, fun d => by simp only [h0, if_false]; rw [hx d]; rfl⟩

theorem pvDiv_fuel {v1 v2 : UPoly R} {divc : R → R → R × R} (h1 : Canon comp v1) (h2 : Canon comp v2)
    (hdiv : ∀ lc : R, lc ≠ 0 → ∀ k, k = (divc k lc).1 * lc + (divc k lc).2) :
    ∃ x, ∀ d, pvDiv (· + ·) divx divc comp (deg v1 + 2 + d) v1 v2 = some x := by
  match v2, h2 with
  | [], _ => exact ⟨_, fun d => rfl⟩
  | [t], _ => exact ⟨_, fun d => rfl⟩
  | y :: y' :: w, h2 =>
    unfold pvDiv
    by_cases h0 : v1 = []
    · exact ⟨_, fun d => if_pos h0⟩
    · obtain ⟨x, hx⟩ := heapDiv_fuel' (divc := divc) (fun _ k => k) h1 h2 (by simp) hdiv
      exact ⟨some x.1, fun d => by simp only [h0, if_false]; rw [hx d]; rfl⟩

theorem divRem_eq {v1 v2 : UPoly R} {divc : R → R → R × R} {N : Nat} {x : UPoly R × UPoly R} (h1 : Canon comp v1) (h2 : Canon comp v2)
    (hdiv : ∀ lc : R, lc ≠ 0 → ∀ k, k = (divc k lc).1 * lc + (divc k lc).2)
    (h : ∀ fuel ≥ N, pvDivRem (· + ·) divx divc comp fuel v1 v2 = some (some x)) : divRem divc v1 v2 = some x := by
  obtain ⟨y, hy⟩ := pvDivRem_fuel h1 h2 hdiv
  have e := hy N
  rw [h _ (by omega)] at e
  have := hy 0
  rw [← e, Nat.add_zero] at this
  rw [divRem, this]; rfl

theorem divQ_eq {v1 v2 : UPoly R} {divc : R → R → R × R} {N : Nat} {x : UPoly R} (h1 : Canon comp v1) (h2 : Canon comp v2)
    (hdiv : ∀ lc : R, lc ≠ 0 → ∀ k, k = (divc k lc).1 * lc + (divc k lc).2)
    (h : ∀ fuel ≥ N, pvDiv (· + ·) divx divc comp fuel v1 v2 = some (some x)) : divQ divc v1 v2 = some x := by
  obtain ⟨y, hy⟩ := pvDiv_fuel h1 h2 hdiv
  have e := hy N
  rw [h _ (by omega)] at e
  have := hy 0
  rw [← e, Nat.add_zero] at this
  rw [divQ, this]; rfl

/-- exact division: quotient only -/
theorem divQ_exact [NoZeroDivisors R] {divc : R → R → R × R} (hf : Is f (F * G)) (hg : Is g G) (h0 : G ≠ 0)
    (hdiv : ∀ lc : R, lc ≠ 0 → ∀ k, k = (divc k lc).1 * lc + (divc k lc).2)
    (hexact : ∀ lc : R, lc ≠ 0 → ∀ q, divc (q * lc) lc = (q, 0)) : ∃ q, divQ divc f g = some q ∧ Is q F := by
  obtain ⟨q, hq⟩ := exists_is F
  have hg0 : g ≠ [] := fun h => h0 ((is_nil_iff hg).1 h)
  obtain ⟨N, hN⟩ := (sys (R := R)).pvDiv_exact (keysIn f) (keysIn g) (keysIn q) hf.canon hg.canon hq.canon hg0 hdiv hexact (by
    rw [← toPoly_eq_den, ← toPoly_eq_den, ← toPoly_eq_den, hf.eq, hg.eq, hq.eq])
  exact ⟨q, divQ_eq hf.canon hg.canon hdiv hN, hq⟩

/-- the divisibility test: an empty remainder means divisible, with the quotient -/
theorem divRem_test [NoZeroDivisors R] {divc : R → R → R × R} (hf : Is f F) (hg : Is g G) (h0 : G ≠ 0)
    (hdiv : ∀ lc : R, lc ≠ 0 → ∀ k, k = (divc k lc).1 * lc + (divc k lc).2)
    (hexact : ∀ lc : R, lc ≠ 0 → ∀ q, divc (q * lc) lc = (q, 0)) :
    ∃ q r, divRem divc f g = some (q, r) ∧ (r = [] ↔ G ∣ F) ∧ ∀ H, F = H * G → Is q H := by
  have hg0 : g ≠ [] := fun h => h0 ((is_nil_iff hg).1 h)
  obtain ⟨N, Q, R', h1, _, h3, h4, h5⟩ := (sys (R := R)).pvDivRem_test (keysIn f) (keysIn g) hf.canon hg.canon hg0 hdiv hexact
  have key : ∀ H, F = H * G → Is Q H ∧ R' = [] := by
    intro H hH
    obtain ⟨q, hq⟩ := exists_is H
    obtain ⟨rfl, e⟩ := h5 q (keysIn q) hq.canon (by
      rw [← toPoly_eq_den, ← toPoly_eq_den, ← toPoly_eq_den, hf.eq, hg.eq, hq.eq, hH])
    exact ⟨hq, e⟩
  refine ⟨Q, R', divRem_eq hf.canon hg.canon hdiv h1, ⟨fun h => ?_, ?_⟩, fun H hH => (key H hH).1⟩
  · have := h4 h
    rw [← toPoly_eq_den, ← toPoly_eq_den, ← toPoly_eq_den, hf.eq, hg.eq] at this
    exact ⟨_, by rw [this, mul_comm]⟩
  · rintro ⟨H, hH⟩
    exact (key H (by rw [hH, mul_comm])).2

/-! ## derivative, evaluation -/

theorem derivative_is [NoZeroDivisors R] (hf : Is f F) : Is (Upoly.derivative f) (Polynomial.derivative F) := by
  obtain ⟨hc, rfl⟩ := hf
  induction f with
  | nil => simpa [Upoly.derivative] using nil_is
  | cons t l ih =>
    obtain ⟨h1, h2, h3⟩ := canon_cons.1 hc
    have hl := ih h3
    have e : Upoly.derivative (t :: l) = (if t.1 ≠ 0 then (if t.2 * (t.1 : R) ≠ 0 then [(t.1 - 1, t.2 * (t.1 : R))] else []) else [])
        ++ Upoly.derivative l := by
      have e0 : Upoly.derivative (t :: l) = List.filterMap _ (t :: l) := rfl
      rw [e0, List.filterMap_cons]
      by_cases a : t.1 ≠ 0
      · by_cases b : t.2 * (t.1 : R) ≠ 0
        · simp only [if_pos a, if_pos b]; rfl
        · simp only [if_pos a, if_neg b]; rfl
      · simp only [if_neg a]; rfl
    have hlt : ∀ u ∈ Upoly.derivative l, u.1 + 1 < t.1 := by
      intro u hu
      obtain ⟨v, hv, hvu⟩ := List.mem_filterMap.1 hu
      split at hvu
      · rename_i h
        split at hvu
        · cases hvu
          have := h1 v hv
          simp only; omega
        · exact absurd hvu (by simp)
      · exact absurd hvu (by simp)
    rw [e, toPoly_cons, derivative_add, derivative_monomial]
    by_cases ht : t.1 ≠ 0
    · by_cases hz : t.2 * (t.1 : R) ≠ 0
      · rw [if_pos ht, if_pos hz]
        refine ⟨?_, ?_⟩
        · refine canon_cons.2 ⟨fun u hu => ?_, hz, hl.canon⟩
          have := hlt u hu
          simp only; omega
        · rw [List.singleton_append, toPoly_cons, hl.eq]
      · push Not at hz
        rw [if_pos ht, if_neg (not_not.2 hz), hz]
        simpa using hl
    · push Not at ht
      rw [if_neg (by simpa using ht), ht]
      simpa using hl

theorem assign_eq (a : R) : assign f a = (toPoly f).eval a := by
  have : ∀ (l : UPoly R) (o : R), l.foldl (fun o t => o + t.2 * a ^ t.1) o = o + (toPoly l).eval a := by
    intro l
    induction l with
    | nil => simp
    | cons t l ih =>
      intro o
      rw [List.foldl_cons, ih, toPoly_cons, eval_add, eval_monomial, add_assoc]
  rw [assign, this, zero_add]

end

/-! ## fields -/
section field
variable {R : Type*} [DecidableEq R] [Field R] {f g : UPoly R} {F G : R[X]}

theorem divF_spec : ∀ lc : R, lc ≠ 0 → ∀ k, k = (divF k lc).1 * lc ∧ (divF k lc).2 = 0 :=
  fun lc h k => ⟨(div_mul_cancel₀ k h).symm, rfl⟩
theorem divF_add : ∀ lc : R, lc ≠ 0 → ∀ k, k = (divF k lc).1 * lc + (divF k lc).2 :=
  fun lc h k => by rw [(divF_spec lc h k).2, add_zero]; exact (divF_spec lc h k).1
theorem divF_exact : ∀ lc : R, lc ≠ 0 → ∀ q, divF (q * lc) lc = (q, 0) :=
  fun lc h q => by rw [divF, mul_div_cancel_right₀ q h]

theorem divRem_is (hf : Is f F) (hg : Is g G) (h0 : G ≠ 0) :
    ∃ q r, divRem divF f g = some (q, r) ∧ Is q (F / G) ∧ Is r (F % G) := by
  have hg0 : g ≠ [] := fun h => h0 ((is_nil_iff hg).1 h)
  obtain ⟨N, Q, R', h1, _, h3, _, h5, h6, h7⟩ := (sys (R := R)).pvDivRem_field (keysIn f) (keysIn g) hf.canon hg.canon hg0 divF_spec
  rw [← toPoly_eq_den, ← toPoly_eq_den, ← toPoly_eq_den, ← toPoly_eq_den, hf.eq, hg.eq] at h6
  have hd : (toPoly R').degree < G.degree := by
    rw [degree_eq_natDegree h0, ← is_deg hg]
    refine toPoly_degree_lt fun u hu => ?_
    cases g with
    | nil => exact absurd rfl hg0
    | cons t l =>
      have := h7 u hu t (by simp)
      unfold divx at this
      split at this
      · simp at this
      · simp only [deg]; omega
  have e : F / G = toPoly Q ∧ F % G = toPoly R' := by
    have e1 : F % G = toPoly R' := by
      rw [h6, add_mod, (mod_eq_self_iff h0).2 hd, (EuclideanDomain.mod_eq_zero).2 (Dvd.intro_left _ rfl), zero_add]
    refine ⟨?_, e1⟩
    have := EuclideanDomain.div_add_mod F G
    rw [e1] at this
    have h8 : G * (F / G) = G * toPoly Q := by
      have := this.trans h6
      rw [mul_comm (toPoly Q)] at this
      exact add_right_cancel this
    exact mul_left_cancel₀ h0 h8
  exact ⟨Q, R', divRem_eq hf.canon hg.canon divF_add h1, ⟨h3, e.1.symm⟩, ⟨h5, e.2.symm⟩⟩

theorem mod_is (hf : Is f F) (hg : Is g G) (h0 : G ≠ 0) : ∃ r, mod f g = some r ∧ Is r (F % G) := by
  obtain ⟨q, r, h1, _, h3⟩ := divRem_is hf hg h0
  exact ⟨r, by rw [mod, h1]; rfl, h3⟩

theorem quo_is (hf : Is f (F * G)) (hg : Is g G) (h0 : G ≠ 0) : ∃ q, quo f g = some q ∧ Is q F := by
  obtain ⟨q, h1, h2⟩ := divQ_exact hf hg h0 divF_add divF_exact
  exact ⟨_, by rw [quo, h1]; rfl, h2.norm⟩

theorem makeMonic_is (hf : Is f F) (h0 : F ≠ 0) : Is (makeMonic f) (C (F.leadingCoeff)⁻¹ * F) := by
  unfold makeMonic
  rw [is_lc hf]
  split
  · rename_i h; rw [h]; simpa using hf
  · exact map_mul_is hf (by simpa using h0)

end field

end Upoly
end CLPoly
