import Verif.Graph.MD
import Verif.Props.Polynomials

/-!
# Property C111: the two numbers of `__polynomial_m_d`

`polynomialMD vc P l` is `__polynomial_m_d(P, l)`; `none` is a write outside the vector of counters.  `IsFirst l f v`: `v` occurs in `f` and no earlier entry of `l` does.
-/

namespace CLPoly
open Mono MvPolynomial Graph

open Classical in
/-- for polynomials that are not constant and a list of all their variables without repetition: the first number is the largest number of polynomials whose first variable in `l` is the same, the
second the largest degree of a polynomial in a variable -/
theorem C111_m_d {R : Type*} [CommRing R] {vc : Var → Var → Bool} {mc : Mono → Mono → Bool} (M : MonoOrd vc mc) {l : List Var} (hn : l.Nodup) {P : List (PV Mono R)}
    (hP : ∀ p ∈ P, PolyOK vc mc p) (hv : ∀ p ∈ P, ∀ v ∈ (val p).vars, v ∈ l) (h0 : ∀ p ∈ P, (val p).vars.Nonempty) :
    ∃ m d, polynomialMD vc P l = some (m, d) ∧
      (∀ v ∈ l, P.countP (fun p => IsFirst l (val p) v) ≤ m) ∧ (m = 0 ∨ ∃ v ∈ l, m = P.countP (fun p => IsFirst l (val p) v)) ∧
      (∀ p ∈ P, ∀ v, ((val p).degreeOf v : ℤ) ≤ d) ∧ (d = 0 ∨ ∃ p ∈ P, ∃ v, d = (val p).degreeOf v) := polynomialMD_spec M hn hP hv h0

/-- with a constant among the polynomials a counter outside the vector is incremented -/
theorem C111_constant {R : Type*} [CommRing R] [DecidableEq R] {vc : Var → Var → Bool} {mc : Mono → Mono → Bool} (M : MonoOrd vc mc) (l : List Var) {P Q : List (PV Mono R)} {p : PV Mono R}
    (hp : PolyOK vc mc p) (h : (val p).vars = ∅) : polynomialMD vc (P ++ p :: Q) l = none := by
  have hvs : polyVariables vc p = [] := by
    obtain ⟨_, s2, _⟩ := variables_spec M hp
    refine List.eq_nil_iff_forall_not_mem.2 fun x hx => ?_
    have := (s2 x.1).1 ⟨x, hx, rfl⟩
    rw [h] at this
    exact absurd this (by simp)
  have key : ∀ (P : List (PV Mono R)) (md : List Nat) (d : Int), md.length = l.length → mdLoop vc l (P ++ p :: Q) md d = none := by
    intro P
    induction P with
    | nil =>
      intro md d hl
      rw [List.nil_append]
      unfold mdLoop
      dsimp only
      rw [dif_neg (by rw [hvs]; simp [minPos, hl])]
    | cons q P ih =>
      intro md d hl
      rw [List.cons_append]
      unfold mdLoop
      dsimp only
      split
      · exact ih _ _ (by simpa using hl)
      · rfl
  unfold polynomialMD
  rw [key P _ 0 (by simp)]

/-- the sample systems: of `3x²y + x - 5` and `x - y²` both have `x` first, the largest degree is 2 -/
example : polynomialMD varLess [exP, exQ] [1, 2] = some (2, 2) ∧ polynomialMD varLess [exP, exQ, []] [1, 2] = none := by
  simp [polynomialMD, mdLoop, minPos, maxDeg, mlAt, mlGo, polyVariables, addVariables, varMerge, exP, exQ, exXY, varLess]
example : PolyOK varLess (grlexGt varLess) exP ∧ PolyOK varLess (grlexGt varLess) exQ ∧ ([1, 2] : List Var).Nodup := by decide +kernel
/-- the other hypotheses hold as well for this system -/
example : (∀ p ∈ [exP, exQ], ∀ v ∈ (val p).vars, v ∈ ([1, 2] : List Var)) ∧ ∀ p ∈ [exP, exQ], (val p).vars.Nonempty := by
  have M : MonoOrd varLess (grlexGt varLess) := grlex_ord varLess_ord
  have a : polyVariables varLess exP = [(1, 2), (2, 1)] ∧ polyVariables varLess exQ = [(1, 1), (2, 2)] := by
    simp [polyVariables, addVariables, varMerge, exP, exQ, exXY, varLess]
  have b := (variables_spec M exP_ok).2.1
  have c := (variables_spec M exQ_ok).2.1
  rw [a.1] at b
  rw [a.2] at c
  simp only [List.mem_cons, List.not_mem_nil, or_false, forall_eq_or_imp, forall_eq]
  refine ⟨⟨fun v hv => ?_, fun v hv => ?_⟩, ⟨1, (b 1).1 (by simp)⟩, ⟨1, (c 1).1 (by simp)⟩⟩
  · obtain ⟨x, hx, rfl⟩ := (b v).2 hv
    simp only [List.mem_cons, List.not_mem_nil, or_false] at hx
    rcases hx with rfl | rfl <;> simp
  · obtain ⟨x, hx, rfl⟩ := (c v).2 hv
    simp only [List.mem_cons, List.not_mem_nil, or_false] at hx
    rcases hx with rfl | rfl <;> simp

end CLPoly
