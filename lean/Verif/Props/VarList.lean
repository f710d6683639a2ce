import Verif.Poly.VarList
import Verif.Props.Polynomials

/-!
# Properties C109, C110: the variables of a polynomial, `is_normal`

`polyVariables` is `p.variables()` / `get_variables(p)`, `polyVariablesAll` the overload for a vector of polynomials, `addVariableNames` the overload that collects names.
-/

namespace CLPoly
open Mono MvPolynomial

variable {R : Type*} [CommRing R] [DecidableEq R] {vc : Var → Var → Bool} {mc : Mono → Mono → Bool}

/-! ## C109 -/

/-- the list of variables of a polynomial in normal form is in the order of the variables, without repetition, names exactly the variables that occur, each with its degree -/
theorem C109_variables (M : MonoOrd vc mc) {p : PV Mono R} (hp : PolyOK vc mc p) :
    (polyVariables vc p).Pairwise (fun a b => vc a.1 b.1 = true) ∧ (∀ w, (∃ x ∈ polyVariables vc p, x.1 = w) ↔ w ∈ (val p).vars) ∧
    ∀ x ∈ polyVariables vc p, x.2 = (val p).degreeOf x.1 := variables_spec M hp

/-- the list for a vector of polynomials: the variables of all of them, each with the largest degree -/
theorem C109_variables_all (M : MonoOrd vc mc) {P : List (PV Mono R)} (hP : ∀ p ∈ P, PolyOK vc mc p) :
    (polyVariablesAll vc P).Pairwise (fun a b => vc a.1 b.1 = true) ∧ (∀ w, (∃ x ∈ polyVariablesAll vc P, x.1 = w) ↔ ∃ p ∈ P, w ∈ (val p).vars) ∧
    ∀ x ∈ polyVariablesAll vc P, (∀ p ∈ P, ((val p).degreeOf x.1 : ℤ) ≤ x.2) ∧ ∃ p ∈ P, x.2 = (val p).degreeOf x.1 := variablesAll_spec M hP

/-- the number of entries is the number of variables -/
theorem C109_size (M : MonoOrd vc mc) {p : PV Mono R} (hp : PolyOK vc mc p) : (polyVariables vc p).length = (val p).vars.card := by
  obtain ⟨h1, h2, _⟩ := C109_variables M hp
  have hn : ((polyVariables vc p).map Prod.fst).Nodup := by
    refine List.Pairwise.map _ ?_ h1
    intro a b h e
    rw [e] at h
    have := M.vo.irrefl b.1 trivial
    simp_all
  rw [← List.length_map (f := Prod.fst), ← List.toFinset_card_of_nodup hn]
  congr 1
  ext w
  rw [List.mem_toFinset, List.mem_map, ← h2]

/-- the overload that collects names agrees: it adds to a list of names exactly what the other one adds -/
theorem C109_names (vc : Var → Var → Bool) (p : PV Mono R) (l : List (Var × Int)) :
    addVariableNames vc p (l.map Prod.fst) = (addVariables vc p l).map Prod.fst := by
  unfold addVariableNames addVariables
  induction p generalizing l with
  | nil => rfl
  | cons t p ih =>
    rw [List.foldl_cons, List.foldl_cons, ← ih]
    congr 1
    split
    · rfl
    · exact (varMerge_names _ _).symm

theorem mergeVars_names (vc : Var → Var → Bool) (m : List (Var × Int)) (l : List Var) : varMergeNames vc m l = mergeVars vc l (m.map Prod.fst) := by
  fun_induction varMergeNames vc m l with
  | case1 l => cases l <;> simp [mergeVars]
  | case2 b m => simp [mergeVars]
  | case3 b m a l h ih => rw [List.map_cons, mergeVars, if_pos h, ih, List.map_cons]
  | case4 b m a l h h2 ih => rw [List.map_cons, mergeVars, if_neg h, if_pos h2, ih]
  | case5 b m a l h h2 ih => rw [List.map_cons, mergeVars, if_neg h, if_neg h2, ih]

/-- `pvVars`, the transcription that the graph of a system (C33) and the packed arithmetic (C18) use, lists the same names -/
theorem C109_same_list (vc : Var → Var → Bool) (p : PV Mono R) : pvVars vc p [] = (polyVariables vc p).map Prod.fst := by
  unfold polyVariables
  rw [← C109_names, List.map_nil]
  unfold pvVars addVariableNames
  congr 1
  funext l t
  split
  · rename_i h; rw [h]; cases l <;> simp [mergeVars]
  · rw [mergeVars_names]

example : polyVariables varLess exP = [(1, 2), (2, 1)] ∧ polyVariablesAll varLess [exP, exQ, exP] = polyVariablesAll varLess [exP, exQ] ∧
    addVariableNames varLess exP [] = [1, 2] := by
  simp [polyVariables, polyVariablesAll, addVariables, addVariableNames, varMerge, varMergeNames, exP, exQ, exXY, varLess]
example : PolyOK varLess (grlexGt varLess) exP ∧ PolyOK varLess (grlexGt varLess) exQ := by decide +kernel

/-! ## C110 -/

/-- the check answers yes exactly for the normal forms, for nonempty vectors whose monomials are normal: strictly descending, without a zero coefficient -/
theorem C110_is_normal_partial (M : MonoOrd vc mc) {p : PV Mono R} (hm : ∀ t ∈ p, Mono.Valid vc t.1) (h : p ≠ []) :
    ∃ b, polyIsNormal mc p = some b ∧ (b = true ↔ PolyOK vc mc p) := by
  obtain ⟨b, e, hb⟩ := pvNormalCheck_spec M.lawful (v := p) hm h
  exact ⟨b, e, hb.trans ⟨fun c => ⟨hm, c⟩, fun c => c.canon⟩⟩

/-- the same of a monomial: nonempty, the check answers yes exactly when the variables are in strict order, no exponent is zero and the cached degree is the sum of the exponents -/
theorem C110_monomial_partial (ho : VarOrd vc) {m : Mono} (h : m.data ≠ []) :
    ∃ b, Mono.isNormal vc m = some b ∧ (b = true ↔ m.data.Pairwise (fun x y => vc x.1 y.1 = true) ∧ (∀ x ∈ m.data, x.2 ≠ 0) ∧ m.deg = (m.data.map Prod.snd).sum) := by
  unfold Mono.isNormal
  by_cases hd : sumDeg m.data = m.deg
  · rw [if_pos hd]
    obtain ⟨b, e, hb⟩ := pvNormalCheck_spec (S := fun _ => True) (comp := vc) ho (v := m.data) (fun _ _ => trivial) h
    exact ⟨b, e, hb.trans ⟨fun c => ⟨c.1, c.2, hd.symm⟩, fun c => ⟨c.1, c.2.1⟩⟩⟩
  · rw [if_neg hd]
    refine ⟨false, rfl, ?_⟩
    constructor
    · intro k; exact absurd k (by simp)
    · rintro ⟨_, _, k⟩; exact absurd k.symm hd

/-- what is false of the full statement: for the zero polynomial and for the monomial `1` the check has undefined behaviour; a polynomial with a monomial that is not normal is accepted; so is a
monomial with a negative exponent -/
theorem C110_refuted : polyIsNormal (grlexGt varLess) ([] : PV Mono ℤ) = none ∧ Mono.isNormal varLess Mono.one = none ∧
    (polyIsNormal (grlexGt varLess) [((⟨[(0, 1)], 7⟩ : Mono), (1 : ℤ))] = some true ∧ Mono.isNormal varLess ⟨[(0, 1)], 7⟩ = some false) ∧
    Mono.isNormal varLess ⟨[(0, -1)], -1⟩ = some true := by decide +kernel

example : polyIsNormal (grlexGt varLess) exP = some true ∧ polyIsNormal (grlexGt varLess) exP.reverse = some false ∧ (exP ≠ []) ∧ ∀ t ∈ exP, Mono.Valid varLess t.1 := by decide +kernel
example : Mono.isNormal varLess (exXY 2 1) = some true ∧ (exXY 2 1).data ≠ [] ∧ Mono.isNormal varLess ⟨[(1, 1), (0, 2)], 3⟩ = some false := by decide +kernel

end CLPoly
